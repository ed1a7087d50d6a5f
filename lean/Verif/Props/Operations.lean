import Mathlib.Order.Interval.Finset.Nat
import Verif.Lemmas.Subdivide
import Verif.Props.EditOps
/-!
# Properties C19 – C24: graph operations and comparison

`G.Rep S`: the queries of the `Graph` implementation `G` answer as the abstract graph `S`.
-/
namespace Verif
open EditGraph

/-! ## C19 -/

/-- **C19.** `invert`: same vertices; distinct vertices are adjacent iff they are not adjacent in the input. -/
theorem C19_invert {G : Graph} {S : SGraph} (hG : G.Rep S) :
    ∃ h, G.invert = .ok h ∧ Reachable h ∧ (∀ u, h.contains u = true ↔ u ∈ S.V) ∧
      (∀ a b, h.adjacent a b = true ↔ a ∈ S.V ∧ b ∈ S.V ∧ a ≠ b ∧ ¬ S.Adj a b) := by
  obtain ⟨h, hh, A⟩ := hG.invert
  exact ⟨h, hh, A.reachable, A.contains, A.adjacent⟩

/-- `C19_invert` for a path with a loop and an isolated vertex. -/
example := C19_invert loopG_rep

/-- **C19, involution.** Inverting a loopless graph twice gives an equal graph. -/
theorem C19_invert_invert {g : EditGraph} (hg : Reachable g) (hl : ∀ u, g.adjacent u u = false) :
    ∃ h₁ h₂, g.view.invert = .ok h₁ ∧ h₁.view.invert = .ok h₂ ∧ h₂.eq g = true := by
  obtain ⟨S, A⟩ := hg.abs
  obtain ⟨h₁, e₁, S₁, A₁, hV₁, hA₁⟩ := A.rep.invert
  obtain ⟨h₂, e₂, S₂, A₂, hV₂, hA₂⟩ := A₁.rep.invert
  beta_reduce at hV₁ hA₁ hV₂ hA₂
  refine ⟨h₁, h₂, e₁, e₂, (A₂.eq_iff A).2 (SGraph.ext_adj ?_ ?_)⟩
  · ext u; rw [hV₂, hV₁]
  · intro u v
    rw [hA₂, hV₁, hV₁, hA₁]
    constructor
    · rintro ⟨h1, h2, h3, h4⟩
      by_contra hc
      exact h4 ⟨h1, h2, h3, hc⟩
    · intro h
      refine ⟨h.left, h.right, ?_, fun hc => hc.2.2.2 h⟩
      rintro rfl
      have := hl u
      rw [A.adjacent] at this
      simp at this; exact this h

example : ∃ (g : EditGraph), Reachable g ∧ g.view.Rep exS ∧ exS.V.card = 4 := by
  obtain ⟨g, A⟩ := exAbs
  exact ⟨g, A.reachable, A.rep, by decide⟩

/-- A loopless reachable graph with an edge: the path on three vertices. -/
theorem exPath : ∃ g S, Abs g S ∧ S.Loopless ∧ S.Adj 0 1 ∧ S.Adj 1 2 ∧ S.V = {0, 1, 2} ∧ S.E.card = 2 := by
  obtain ⟨⟨g, k⟩, -, A, -⟩ := abs_new.addEdges [(0, 1), (1, 2)]
  refine ⟨g, _, A, ?_, by decide, by decide, by decide, by decide⟩
  intro u h
  have h' := h.left
  have hV : u ∈ ({0, 1, 2} : Finset ℕ) := h'
  simp only [Finset.mem_insert, Finset.mem_singleton] at hV
  rcases hV with rfl | rfl | rfl <;> exact absurd h (by decide)

example : ∃ g : EditGraph, Reachable g ∧ (∀ u, g.adjacent u u = false) ∧ g.adjacent 0 1 = true := by
  obtain ⟨g, S, A, hl, h01, -⟩ := exPath
  refine ⟨g, A.reachable, fun u => ?_, ?_⟩
  · rw [A.adjacent]; simpa using hl u
  · rw [A.adjacent]; simpa using h01

/-! ## C20 -/

/-- **C20, merge.** Union of vertex sets and edge sets. -/
theorem C20_merge {G H : Graph} {S T : SGraph} (hG : G.Rep S) (hH : H.Rep T) :
    ∃ h, G.merge H = .ok h ∧ Reachable h ∧ (∀ u, h.contains u = true ↔ u ∈ S.V ∨ u ∈ T.V) ∧
      (∀ a b, h.adjacent a b = true ↔ S.Adj a b ∨ T.Adj a b) ∧
      h.numVertices = (S.V ∪ T.V).card ∧ h.numEdges = (S.E ∪ T.E).card := by
  obtain ⟨h, hh, A⟩ := hG.merge hH
  refine ⟨h, hh, A.reachable, A.contains, A.adjacent, ?_, ?_⟩
  · obtain ⟨X, A', hV, hA⟩ := A
    rw [A'.numVertices]; congr 1; ext u; rw [hV, Finset.mem_union]
  · obtain ⟨X, A', hV, hA⟩ := A
    rw [A'.numEdges]; congr 1; ext e
    induction e using Sym2.ind with
    | _ a b => rw [Finset.mem_union]; exact hA a b

/-- `C20_merge` for two graphs with common vertices. -/
example := C20_merge caseG_rep loopG_rep

/-- **C20, intersect.** Intersection of vertex sets and edge sets. -/
theorem C20_intersect {G H : Graph} {S T : SGraph} (hG : G.Rep S) (hH : H.Rep T) :
    ∃ h, G.intersect H = .ok h ∧ Reachable h ∧ (∀ u, h.contains u = true ↔ u ∈ S.V ∧ u ∈ T.V) ∧
      (∀ a b, h.adjacent a b = true ↔ S.Adj a b ∧ T.Adj a b) ∧
      h.numVertices = (S.V ∩ T.V).card ∧ h.numEdges = (S.E ∩ T.E).card := by
  obtain ⟨h, hh, A⟩ := hG.intersect hH
  refine ⟨h, hh, A.reachable, A.contains, A.adjacent, ?_, ?_⟩
  · obtain ⟨X, A', hV, hA⟩ := A
    rw [A'.numVertices]; congr 1; ext u; rw [hV, Finset.mem_inter]
  · obtain ⟨X, A', hV, hA⟩ := A
    rw [A'.numEdges]; congr 1; ext e
    induction e using Sym2.ind with
    | _ a b => rw [Finset.mem_inter]; exact hA a b

/-- `C20_intersect` for two graphs with common vertices. -/
example := C20_intersect caseG_rep loopG_rep

/-- **C20, commutativity.** `merge` and `intersect` are commutative up to `==`. -/
theorem C20_comm {G H : Graph} {S T : SGraph} (hG : G.Rep S) (hH : H.Rep T) :
    (∃ h h', G.merge H = .ok h ∧ H.merge G = .ok h' ∧ h.eq h' = true) ∧
    (∃ h h', G.intersect H = .ok h ∧ H.intersect G = .ok h' ∧ h.eq h' = true) := by
  constructor
  · obtain ⟨h, hh, X, A, hV, hA⟩ := hG.merge hH
    obtain ⟨h', hh', X', A', hV', hA'⟩ := hH.merge hG
    beta_reduce at hV hA hV' hA'
    refine ⟨h, h', hh, hh', (A.eq_iff A').2 (SGraph.ext_adj ?_ ?_)⟩
    · ext u; rw [hV, hV', or_comm]
    · intro a b; rw [hA, hA', or_comm]
  · obtain ⟨h, hh, X, A, hV, hA⟩ := hG.intersect hH
    obtain ⟨h', hh', X', A', hV', hA'⟩ := hH.intersect hG
    beta_reduce at hV hA hV' hA'
    refine ⟨h, h', hh, hh', (A.eq_iff A').2 (SGraph.ext_adj ?_ ?_)⟩
    · ext u; rw [hV, hV', and_comm]
    · intro a b; rw [hA, hA', and_comm]

example : ∃ (g h : EditGraph) (S : SGraph), g.view.Rep exS ∧ h.view.Rep S ∧ (exS.V ∩ S.V).Nonempty ∧
    (exS.E ∩ S.E).Nonempty ∧ exS ≠ S := by
  obtain ⟨g, A⟩ := exAbs
  obtain ⟨h, S, A', hl, h01, h12, hV, -⟩ := exPath
  refine ⟨g, h, S, A.rep, A'.rep, ⟨1, ?_⟩, ⟨s(1, 2), Finset.mem_inter.2 ⟨by decide, h12⟩⟩, ?_⟩
  · rw [hV]; decide
  · rintro rfl; exact absurd h01 (by decide)

/-! ## C21 -/

/-- The edges of `h` are exactly those of the paths that replace the edges `es`, with `t` inner vertices
each, the fresh ids starting at `b`. -/
def IsSubdivision (h : EditGraph) (S : SGraph) (t : ℕ) : Prop :=
  ∃ (es : List (ℕ × ℕ)) (b : ℕ),
    -- `es` lists every edge of the input once
    es.Nodup ∧ (∀ u v, (u, v) ∈ es ↔ u ≤ v ∧ S.Adj u v) ∧
    -- the fresh ids are new
    (∀ v ∈ S.V, v < b) ∧
    -- old vertices and one fresh vertex per edge and inner position
    (∀ w, h.contains w = true ↔ w ∈ S.V ∨ (b ≤ w ∧ w < b + t * S.E.card)) ∧
    -- two vertices are adjacent iff they are consecutive on one of the paths
    (∀ a c, h.adjacent a c = true ↔ ∃ i < es.length, ∃ j ≤ t,
      (a = subdivVertex es b t i j ∧ c = subdivVertex es b t i (j + 1)) ∨
      (a = subdivVertex es b t i (j + 1) ∧ c = subdivVertex es b t i j)) ∧
    h.numVertices = S.V.card + t * S.E.card

/-- Full statement of **C21** for one graph and one `t`. -/
def C21_statement (G : Graph) (S : SGraph) (t : ℕ) : Prop :=
  ∃ h, G.subdivide t = .ok h ∧ Reachable h ∧ IsSubdivision h S t ∧
    h.numEdges = (t + 1) * S.E.card ∧ (∀ w, h.contains w = true → w ∉ S.V → h.degree w = 2)

theorem subdivVertex_cases {S : SGraph} {es : List (ℕ × ℕ)} (he : EdgeEnum es S) {b t : ℕ}
    {i j : ℕ} (hi : i < es.length) :
    (1 ≤ j ∧ j ≤ t ∧ subdivVertex es b t i j = b + i * t + (j - 1)) ∨
    ((j = 0 ∨ t < j) ∧ subdivVertex es b t i j ∈ S.V) := by
  unfold subdivVertex pathPos
  rw [List.getElem?_eq_getElem hi]
  have hm : es[i] ∈ es := List.getElem_mem hi
  simp only
  by_cases h0 : j = 0
  · right; simp only [h0, if_true]; exact ⟨Or.inl trivial, he.left_mem hm⟩
  · by_cases h1 : j ≤ t
    · left; simp only [h0, h1, if_false, if_true]; exact ⟨by omega, trivial, trivial⟩
    · right; simp only [h0, h1, if_false]; exact ⟨Or.inr (by omega), he.right_mem hm⟩

/-- **C21** for all loopless graphs, and for all graphs if `t ≠ 1`.  Missing from the full statement: loops
with `t = 1`, where it is false (`C21_refuted`) – a loop with one inner vertex is a single edge. -/
theorem C21_subdivide_partial {G : Graph} {S : SGraph} (hG : G.Rep S) (t : ℕ)
    (ht : ∀ v ∈ S.V, v + 1 + t * S.E.card < 2 ^ 32) (hcond : S.Loopless ∨ t ≠ 1) : C21_statement G S t := by
  obtain ⟨h, hh, S', es, b, A, he, hb, hV, hA, hC⟩ := hG.subdivide t ht
  refine ⟨h, hh, A.reachable, ⟨es, b, he.nodup, he.mem, hb, fun w => ?_, fun a c => ?_, ?_⟩, ?_, ?_⟩
  · rw [A.contains, decide_eq_true_eq, hV]
  · rw [A.adjacent, decide_eq_true_eq, hA]
  · rw [A.numVertices]
    have : S'.V = S.V ∪ Finset.Ico b (b + t * S.E.card) := by
      ext w; rw [hV, Finset.mem_union, Finset.mem_Ico]
    rw [this, Finset.card_union_of_disjoint, Nat.card_Ico]
    · omega
    · rw [Finset.disjoint_left]
      intro w hw hw'
      rw [Finset.mem_Ico] at hw'
      have := hb w hw; omega
  · rw [A.numEdges, hC hcond, Nat.mul_comm]
  · intro w hw hwS
    rw [A.contains, decide_eq_true_eq, hV] at hw
    rcases hw with hw | ⟨hw1, hw2⟩
    · exact absurd hw hwS
    have htpos : 0 < t := by
      rcases Nat.eq_zero_or_pos t with rfl | h
      · simp at hw2; omega
      · exact h
    rw [← he.length] at hw2
    -- index and position of `w`
    obtain ⟨i, j, hi, hj1, hj2, hwij⟩ : ∃ i j, i < es.length ∧ 1 ≤ j ∧ j ≤ t ∧ w = b + i * t + (j - 1) := by
      refine ⟨(w - b) / t, (w - b) % t + 1, ?_, by omega, ?_, ?_⟩
      · rw [Nat.div_lt_iff_lt_mul htpos, Nat.mul_comm]; omega
      · have := Nat.mod_lt (w - b) htpos; omega
      · have := Nat.div_add_mod (w - b) t
        rw [Nat.mul_comm] at this
        omega
    have huniq : ∀ i' j', i' < es.length → w = subdivVertex es b t i' j' → i' = i ∧ j' = j := by
      intro i' j' hi' h'
      rcases subdivVertex_cases he (b := b) (t := t) (j := j') hi' with ⟨h1, h2, h3⟩ | ⟨-, h3⟩
      · rw [h3, hwij] at h'
        have e : i * t + (j - 1) = i' * t + (j' - 1) := by omega
        have hii : i = i' := by
          have := congrArg (· / t) e
          simp only [Nat.mul_comm _ t, Nat.mul_add_div htpos] at this
          rw [Nat.div_eq_of_lt (by omega : j - 1 < t), Nat.div_eq_of_lt (by omega : j' - 1 < t)] at this
          simpa using this
        subst hii
        exact ⟨rfl, by omega⟩
      · rw [← h'] at h3; exact absurd h3 hwS
    have hwv : w = subdivVertex es b t i j := by
      rcases subdivVertex_cases he (b := b) (t := t) (j := j) hi with ⟨-, -, h3⟩ | ⟨h1, -⟩
      · rw [h3, hwij]
      · omega
    have hnb : S'.nbrs w = {subdivVertex es b t i (j - 1), subdivVertex es b t i (j + 1)} := by
      ext x
      rw [SGraph.mem_nbrs, hA, Finset.mem_insert, Finset.mem_singleton]
      constructor
      · rintro ⟨i', hi', j', hj', ⟨h1, h2⟩ | ⟨h1, h2⟩⟩
        · obtain ⟨rfl, rfl⟩ := huniq i' j' hi' h1
          exact Or.inr h2
        · obtain ⟨rfl, rfl⟩ := huniq i' (j' + 1) hi' h1
          exact Or.inl h2
      · rintro (h | h)
        · refine ⟨i, hi, j - 1, by omega, Or.inr ⟨?_, h⟩⟩
          rw [show j - 1 + 1 = j by omega]; exact hwv
        · exact ⟨i, hi, j, hj2, Or.inl ⟨hwv, h⟩⟩
    have hne : subdivVertex es b t i (j - 1) ≠ subdivVertex es b t i (j + 1) := by
      intro heq
      rcases subdivVertex_cases he (b := b) (t := t) (j := j - 1) hi with ⟨p1, p2, p3⟩ | ⟨p1, p3⟩ <;>
      rcases subdivVertex_cases he (b := b) (t := t) (j := j + 1) hi with ⟨q1, q2, q3⟩ | ⟨q1, q3⟩
      · omega
      · rw [← heq, p3] at q3; have := hb _ q3; omega
      · rw [heq, q3] at p3; have := hb _ p3; omega
      · have ht1 : t = 1 := by omega
        have hj : j = 1 := by omega
        rcases hcond with hcond | hcond
        · subst ht1 hj
          simp only [subdivVertex, List.getElem?_eq_getElem hi, pathPos, Nat.sub_self, if_true] at heq
          simp at heq
          have := he.adj (List.getElem_mem hi)
          rw [heq] at this
          exact hcond _ this
        · exact hcond ht1
    have hnl : ¬ S'.Adj w w := by
      rw [hA]
      rintro ⟨i', hi', j', hj', ⟨h1, h2⟩ | ⟨h1, h2⟩⟩
      · have e1 := huniq i' j' hi' h1
        have e2 := huniq i' (j' + 1) hi' h2
        omega
      · have e1 := huniq i' j' hi' h2
        have e2 := huniq i' (j' + 1) hi' h1
        omega
    rw [A.degree, SGraph.deg_eq, hnb, Finset.card_pair hne, if_neg hnl]

/-- `C21_subdivide_partial` for a path with a loop and an isolated vertex. -/
example := C21_subdivide_partial loopG_rep 2 (fun v hv => by
  have := loopS_mem.1 hv
  have e : loopS.E.card = 3 := by decide
  rw [e]; omega) (Or.inr (by decide))

/-- **C21, t = 0.** `subdivide(0)` equals the input. -/
theorem C21_subdivide_zero {g : EditGraph} (hg : Reachable g) (hb : ∀ v : ℕ, g.contains v = true → v + 1 < 2 ^ 32) :
    ∃ h, g.view.subdivide 0 = .ok h ∧ h.eq g = true := by
  obtain ⟨S, A⟩ := hg.abs
  have hc : ∀ u, g.contains u = true ↔ u ∈ S.V := fun u => by rw [A.contains, decide_eq_true_eq]
  obtain ⟨h, hh, S', es, b, A', he, -, hV, hA, -⟩ := A.rep.subdivide 0 (fun v hv => by
    have := hb v ((hc v).2 hv); omega)
  refine ⟨h, hh, (A'.eq_iff A).2 (SGraph.ext_adj ?_ ?_)⟩
  · ext w
    rw [hV]
    constructor
    · rintro (h | h)
      · exact h
      · omega
    · exact Or.inl
  · intro u v
    rw [hA, he.adj_iff]
    constructor
    · rintro ⟨i, hi, j, hj, h⟩
      obtain rfl : j = 0 := by omega
      have hm := List.getElem_mem hi
      simp only [subdivVertex, List.getElem?_eq_getElem hi, pathPos, if_true, Nat.zero_add, Nat.one_ne_zero,
        if_false] at h
      rcases h with ⟨rfl, rfl⟩ | ⟨rfl, rfl⟩
      · exact Or.inl hm
      · exact Or.inr hm
    · rintro (h | h)
      · obtain ⟨i, hi, hi'⟩ := List.getElem_of_mem h
        refine ⟨i, hi, 0, le_refl _, Or.inl ?_⟩
        simp [subdivVertex, List.getElem?_eq_getElem hi, pathPos, hi']
      · obtain ⟨i, hi, hi'⟩ := List.getElem_of_mem h
        refine ⟨i, hi, 0, le_refl _, Or.inr ?_⟩
        simp [subdivVertex, List.getElem?_eq_getElem hi, pathPos, hi']

/-- `C21_subdivide_zero` for a path with a loop and an isolated vertex. -/
example := C21_subdivide_zero loopG_reachable (fun v h => by have := loopG_contains.1 h; omega)

/-- **C21 is false for loops with `t = 1`**: subdividing a single loop once gives one edge, not two, and the
fresh vertex has degree 1. -/
theorem C21_refuted : ∃ g S, Abs g S ∧ (∀ v ∈ S.V, v + 1 + 1 * S.E.card < 2 ^ 32) ∧ ¬ C21_statement g.view S 1 := by
  obtain ⟨⟨g, k⟩, hg, A, -⟩ := abs_new.addEdge 0 0
  refine ⟨g, _, A, by decide, ?_⟩
  rintro ⟨h, hh, -, -, hE, -⟩
  have hw : ((new.addEdge 0 0).bind fun g => (g.1.view.subdivide 1).map fun h => h.numEdges) = .ok 1 := by decide
  rw [hg] at hw
  simp only [Except.bind, hh, Except.map, Except.ok.injEq] at hw
  rw [hw] at hE
  revert hE; decide

example : ∃ (g : EditGraph) (S : SGraph), g.view.Rep S ∧ S.Loopless ∧ S.E.card = 2 ∧
    (∀ v ∈ S.V, v + 1 + 3 * S.E.card < 2 ^ 32) := by
  obtain ⟨h, S, A', hl, -, -, hV, hE⟩ := exPath
  refine ⟨h, S, A'.rep, hl, hE, ?_⟩
  rw [hV, hE]; decide

example : ((fromIter [(0, 1), (1, 2)]).bind fun g => (g.view.subdivide 2).map fun h =>
    (h.numVertices, h.numEdges, h.degree 4)) = .ok (7, 6, 2) := by decide

/-! ## C22, C23 -/

/-- The returned map of a product is a bijection from `0 .. |V₁||V₂|-1` to `V₁ × V₂`. -/
def ProductMap (inv : HMap Vertex (Vertex × Vertex)) (S T : SGraph) : Prop :=
  (∀ i, (∃ p, inv.get? i = some p) ↔ i < S.V.card * T.V.card) ∧
  (∀ p, (∃ i, inv.get? i = some p) ↔ p.1 ∈ S.V ∧ p.2 ∈ T.V) ∧
  (∀ i j p, inv.get? i = some p → inv.get? j = some p → i = j)

/-- Adjacency of the product graph in terms of the pairs that the ids stand for. -/
def ProductAdj (h : EditGraph) (inv : HMap Vertex (Vertex × Vertex))
    (Q : ℕ × ℕ → ℕ × ℕ → Prop) : Prop :=
  ∀ i j, h.adjacent i j = true ↔ ∃ p q, inv.get? i = some p ∧ inv.get? j = some q ∧ Q p q

/-- Adjacency of the Cartesian product. -/
def CartAdj (S T : SGraph) (p q : ℕ × ℕ) : Prop := (p.1 = q.1 ∧ T.Adj p.2 q.2) ∨ (p.2 = q.2 ∧ S.Adj p.1 q.1)

/-- Adjacency of the lexicographic product (outer factor: the second graph). -/
def LexAdj (S T : SGraph) (p q : ℕ × ℕ) : Prop := T.Adj p.2 q.2 ∨ (p.2 = q.2 ∧ S.Adj p.1 q.1)

/-- Full statement of **C22**. -/
def C22_statement (G H : Graph) (S T : SGraph) (σ : Shuffle ((Vertex × Vertex) × Vertex)) : Prop :=
  ∃ h inv, G.cartesianProduct σ H = .ok (h, inv) ∧ Reachable h ∧ ProductMap inv S T ∧
    ProductAdj h inv (CartAdj S T) ∧ (∀ i, h.contains i = true ↔ i < S.V.card * T.V.card)

/-- Full statement of **C23**. -/
def C23_statement (G H : Graph) (S T : SGraph) (σ : Shuffle ((Vertex × Vertex) × Vertex)) : Prop :=
  ∃ h inv, G.lexicographicProduct σ H = .ok (h, inv) ∧ Reachable h ∧ ProductMap inv S T ∧
    ProductAdj h inv (LexAdj S T) ∧ (∀ i, h.contains i = true ↔ i < S.V.card * T.V.card)

theorem productMap_of {G H : Graph} {S T : SGraph} (hG : G.Rep S) (hH : H.Rep T)
    {inv : HMap Vertex (Vertex × Vertex)}
    (hi : ∀ i p, inv.get? i = some p ↔ (Graph.Rep.prodList G H)[i]? = some p) : ProductMap inv S T := by
  refine ⟨fun i => ?_, fun p => ?_, fun i j p h1 h2 => ?_⟩
  · simp only [hi]
    rw [hG.card_eq_length, hH.card_eq_length, ← Graph.Rep.length_prodList]
    constructor
    · rintro ⟨p, hp⟩; exact (List.getElem?_eq_some_iff.1 hp).1
    · intro h; exact ⟨_, List.getElem?_eq_getElem h⟩
  · simp only [hi]
    rw [← List.mem_iff_getElem?, Graph.Rep.mem_prodList, hG.vmem, hH.vmem]
  · rw [hi] at h1 h2
    exact (List.getElem?_inj (List.getElem?_eq_some_iff.1 h1).1
      (Graph.Rep.nodup_prodList hG.vnodup hH.vnodup)).1 (h1.trans h2.symm)

/-- **C22**, for every hash order of the intermediate map.  Missing from the full statement: product vertices
without neighbours are not vertices of the returned graph (`C22_refuted`). -/
theorem C22_cartesian_partial {G H : Graph} {S T : SGraph} (hG : G.Rep S) (hH : H.Rep T)
    (σ : Shuffle ((Vertex × Vertex) × Vertex)) (hn : S.V.card * T.V.card < 2 ^ 32) :
    ∃ h inv, G.cartesianProduct σ H = .ok (h, inv) ∧ Reachable h ∧ ProductMap inv S T ∧
      ProductAdj h inv (CartAdj S T) ∧
      (∀ i, h.contains i = true ↔ i < S.V.card * T.V.card ∧ ∃ j, h.adjacent i j = true) := by
  obtain ⟨⟨h, inv⟩, hh, hi, A⟩ := hG.cartesianProduct hH σ hn
  simp only at hi A
  have hM := productMap_of hG hH hi
  refine ⟨h, inv, hh, A.reachable, hM, fun i j => ?_, fun i => ?_⟩
  · rw [A.adjacent]; simp only [hi, CartAdj]
  · rw [A.contains, ← hM.1 i]
    simp only [A.adjacent, hi]
    constructor
    · rintro ⟨p, j, q, h1, h2⟩; exact ⟨⟨p, h1⟩, j, p, q, h1, h2⟩
    · rintro ⟨-, j, p, q, h1, h2⟩; exact ⟨p, j, q, h1, h2⟩

/-- `C22_cartesian_partial` for two graphs with four vertices each. -/
example := fun σ => C22_cartesian_partial caseG_rep loopG_rep σ (by decide)

/-- **C23**, for every hash order of the intermediate map.  Missing from the full statement: product vertices
without neighbours are not vertices of the returned graph (`C23_refuted`). -/
theorem C23_lexicographic_partial {G H : Graph} {S T : SGraph} (hG : G.Rep S) (hH : H.Rep T)
    (σ : Shuffle ((Vertex × Vertex) × Vertex)) (hn : S.V.card * T.V.card < 2 ^ 32) :
    ∃ h inv, G.lexicographicProduct σ H = .ok (h, inv) ∧ Reachable h ∧ ProductMap inv S T ∧
      ProductAdj h inv (LexAdj S T) ∧
      (∀ i, h.contains i = true ↔ i < S.V.card * T.V.card ∧ ∃ j, h.adjacent i j = true) := by
  obtain ⟨⟨h, inv⟩, hh, hi, A⟩ := hG.lexicographicProduct hH σ hn
  simp only at hi A
  have hM := productMap_of hG hH hi
  refine ⟨h, inv, hh, A.reachable, hM, fun i j => ?_, fun i => ?_⟩
  · rw [A.adjacent]; simp only [hi, LexAdj]
  · rw [A.contains, ← hM.1 i]
    simp only [A.adjacent, hi]
    constructor
    · rintro ⟨p, j, q, h1, h2⟩; exact ⟨⟨p, h1⟩, j, p, q, h1, h2⟩
    · rintro ⟨-, j, p, q, h1, h2⟩; exact ⟨p, j, q, h1, h2⟩

/-- `C23_lexicographic_partial` for two graphs with four vertices each. -/
example := fun σ => C23_lexicographic_partial caseG_rep loopG_rep σ (by decide)

/-- One isolated vertex. -/
theorem exSingle : Abs (new.addVertex 0).1 (SGraph.empty.addVertex 0) := (abs_new.addVertex 0).1

/-- **C22 is false**: the product of two one-vertex graphs comes back without any vertex. -/
theorem C22_refuted : ∃ g S σ, Abs g S ∧ ¬ C22_statement g.view g.view S S σ := by
  refine ⟨_, _, Shuffle.id, exSingle, ?_⟩
  rintro ⟨h, inv, hh, -, -, -, hc⟩
  have hw : (((new.addVertex 0).1.view.cartesianProduct Shuffle.id (new.addVertex 0).1.view).map
    fun r => r.1.contains 0) = .ok false := by decide
  rw [hh] at hw
  simp only [Except.map, Except.ok.injEq] at hw
  have := (hc 0).2 (by decide)
  rw [hw] at this; cases this

/-- **C23 is false**: the product of two one-vertex graphs comes back without any vertex. -/
theorem C23_refuted : ∃ g S σ, Abs g S ∧ ¬ C23_statement g.view g.view S S σ := by
  refine ⟨_, _, Shuffle.id, exSingle, ?_⟩
  rintro ⟨h, inv, hh, -, -, -, hc⟩
  have hw : (((new.addVertex 0).1.view.lexicographicProduct Shuffle.id (new.addVertex 0).1.view).map
    fun r => r.1.contains 0) = .ok false := by decide
  rw [hh] at hw
  simp only [Except.map, Except.ok.injEq] at hw
  have := (hc 0).2 (by decide)
  rw [hw] at this; cases this

example : ∃ (g h : EditGraph) (S : SGraph), g.view.Rep exS ∧ h.view.Rep S ∧ exS.V.card * S.V.card = 12 := by
  obtain ⟨g, A⟩ := exAbs
  obtain ⟨h, S, A', -, -, -, hV, -⟩ := exPath
  exact ⟨g, h, S, A.rep, A'.rep, by rw [hV]; decide⟩

/-! ## C24 -/

/-- Subgraph relation. -/
def SubgraphOf (S T : SGraph) : Prop := S.V ⊆ T.V ∧ ∀ u v, S.Adj u v → T.Adj u v

/-- Relation read from the other side. -/
def SubgraphRel.swap : SubgraphRel → SubgraphRel
  | .Sub => .Sup
  | .Sup => .Sub
  | .Eq => .Eq
  | .Incomp => .Incomp

/-- **C24.** `compare_subgraph` decides the subgraph relation in both directions; swapping the arguments
swaps the result. -/
theorem C24_compare {G H : Graph} {S T : SGraph} (hG : G.Rep S) (hH : H.Rep T) :
    ∃ r, G.compareSubgraph H = .ok r ∧ H.compareSubgraph G = .ok r.swap ∧
      (r = .Eq ↔ S.V = T.V ∧ ∀ u v, S.Adj u v ↔ T.Adj u v) ∧
      (r = .Sub ↔ SubgraphOf S T ∧ ¬ SubgraphOf T S) ∧ (r = .Sup ↔ SubgraphOf T S ∧ ¬ SubgraphOf S T) ∧
      (r = .Incomp ↔ ¬ SubgraphOf S T ∧ ¬ SubgraphOf T S) := by
  have key : ∀ {G H : Graph} {S T : SGraph}, G.Rep S → H.Rep T → ∃ es b, G.edges = .ok es ∧
      allR (fun e => H.adjacent e.1 e.2) es = .ok b ∧
      ((G.vertices.all (fun x => H.contains x) && b) = true ↔ SubgraphOf S T) := by
    intro G H S T hG hH
    obtain ⟨es, hes, he, -⟩ := hG.edges
    refine ⟨es, _, hes, allR_ok (q := fun e => decide (T.Adj e.1 e.2)) (fun e _ => hH.adjacent e.1 e.2), ?_⟩
    rw [Bool.and_eq_true, List.all_eq_true, List.all_eq_true]
    simp only [hG.vmem, hH.contains, decide_eq_true_eq, SubgraphOf]
    refine and_congr Iff.rfl ⟨fun h u v huv => ?_, fun h e hee => h _ _ (he.adj hee)⟩
    rcases he.adj_iff.1 huv with h' | h'
    · exact h _ h'
    · exact (h _ h').symm
  obtain ⟨es, b, hes, hb, h1⟩ := key hG hH
  obtain ⟨fs, c, hfs, hc, h2⟩ := key hH hG
  have heq : (S.V = T.V ∧ ∀ u v, S.Adj u v ↔ T.Adj u v) ↔ SubgraphOf S T ∧ SubgraphOf T S := by
    constructor
    · rintro ⟨hV, hA⟩
      exact ⟨⟨hV.subset, fun u v => (hA u v).1⟩, ⟨hV.symm.subset, fun u v => (hA u v).2⟩⟩
    · rintro ⟨⟨a, b⟩, ⟨c, d⟩⟩
      exact ⟨Finset.Subset.antisymm a c, fun u v => ⟨b u v, d u v⟩⟩
  unfold Graph.compareSubgraph
  simp only [hes, hfs, hb, hc, bind_ok]
  rw [heq]
  generalize (G.vertices.all (fun x => H.contains x) && b) = x at h1
  generalize (H.vertices.all (fun x => G.contains x) && c) = y at h2
  rw [← h1, ← h2]
  cases x <;> cases y <;> simp [SubgraphRel.swap]

example : ((fromIter [(0, 1)]).bind fun g => (fromIter [(0, 1), (1, 2)]).bind fun h =>
    g.view.compareSubgraph h.view) = .ok .Sub := by decide

example : ∃ (g h : EditGraph) (S : SGraph), g.view.Rep exS ∧ h.view.Rep S ∧ exS ≠ S := by
  obtain ⟨g, A⟩ := exAbs
  obtain ⟨h, S, A', -, h01, -⟩ := exPath
  refine ⟨g, h, S, A.rep, A'.rep, ?_⟩
  rintro rfl; exact absurd h01 (by decide)

end Verif
