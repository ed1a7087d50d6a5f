import Verif.Props.Operations
import Verif.Props.Degenerate
/-!
# C115: subdivisions and products outside the range of C21–C23

`C21`, `C22` and `C23` assume that the fresh ids fit into 32 bits, and `C21` excludes loops for `subdivide(1)`.  Here: the
calls whose ids do not fit all overflow, and the exact result of `subdivide(1)` on graphs with loops.
-/
namespace Verif
open EditGraph

/-! ## Overflow of `subdivide` -/

/-- **C115 (subdivide, overflow).**  `subdivide(t)` overflows for every graph in which the greatest vertex plus the number
of new vertices reaches `2^32 - 1`; for all others see `C21_subdivide_partial`. -/
theorem C115_subdivide_overflow {G : Graph} {S : SGraph} (hG : G.Rep S) (t : ℕ)
    (ht : ∃ v ∈ S.V, 2 ^ 32 ≤ v + 1 + t * S.E.card) : G.subdivide t = .error .overflow := by
  unfold Graph.subdivide
  obtain ⟨r₀, k, h1, ⟨S₀, A₀, hV₀, hA₀⟩, hle, hk⟩ := hG.subdivide_init
  rw [h1]
  simp only
  obtain ⟨v, hv, htv⟩ := ht
  have hk1 : 2 ^ 32 ≤ k + 1 + t * S.E.card := by have := hle v hv; omega
  by_cases hk2 : k + 1 < 2 ^ 32
  swap
  · rw [add32_overflow (by omega)]; rfl
  rw [add32_ok hk2]
  obtain ⟨es, hes, he, -⟩ := hG.edges
  simp only [bind_ok, hes]
  rw [← he.length] at hk1
  have key : ∀ (l : List (ℕ × ℕ)) (s : EditGraph × Vertex), (∀ v ∈ S.V, v < s.2) → s.2 < 2 ^ 32 →
      2 ^ 32 ≤ s.2 + t * l.length → (∃ S', Abs s.1 S') →
      l.foldlM (fun (s : EditGraph × Vertex) e => do
        let endId ← add32 s.2 t
        let res ← G.subdivideEdge e.2 t e.1 s.2 s.1
        return (res, endId)) s = (.error .overflow : Res (EditGraph × Vertex)) := by
    intro l
    induction l with
    | nil => intro s _ h2 h3; simp at h3; omega
    | cons e l ih =>
      rintro ⟨g, f⟩ hlt h2 h3 ⟨S', A⟩
      simp only at hlt h2 h3 A
      rw [List.foldlM_cons]
      by_cases hf : f + t < 2 ^ 32
      swap
      · simp only [add32_overflow (show 2 ^ 32 ≤ f + t by omega)]; rfl
      simp only [add32_ok hf, bind_ok]
      obtain ⟨r, hr, S'', A'', -⟩ := Graph.Rep.subdivideEdge (G := G) e.2 t e.1 f g S' (fun m _ => by
        have : f + m ∉ S.V := fun h => by have := hlt _ h; omega
        have := (hG.contains (f + m)).not.2 this
        simpa using this) A
      simp only [hr, bind_ok, pure_eq_ok]
      refine ih (r, f + t) (fun v hv => ?_) hf ?_ ⟨S'', A''⟩
      · have := hlt v hv; simp only; omega
      · simp only
        rw [List.length_cons, Nat.mul_add, Nat.mul_one] at h3
        omega
  rw [key es (r₀, k + 1) (fun v hv => by have := hle v hv; simp only; omega) hk2 hk1 ⟨S₀, A₀⟩]
  rfl

/-- `C115_subdivide_overflow` for a path with a loop and an isolated vertex. -/
example := C115_subdivide_overflow loopG_rep (2 ^ 31) ⟨0, by decide, by decide⟩

/-! ## Overflow of the products -/

theorem productIds_overflow {G H : Graph} (h : 2 ^ 32 ≤ G.vertices.length * H.vertices.length) :
    G.productIds H = .error .overflow := by
  unfold Graph.productIds
  have inner : ∀ (u : ℕ) (l : List ℕ) (s : HMap (Vertex × Vertex) Vertex × HMap Vertex (Vertex × Vertex) × Vertex),
      s.2.2 < 2 ^ 32 →
      (s.2.2 + l.length < 2 ^ 32 → ∃ r, l.foldlM (fun (s : HMap (Vertex × Vertex) Vertex ×
          HMap Vertex (Vertex × Vertex) × Vertex) v => do
        let free ← add32 s.2.2 1
        return (s.1.insert (u, v) s.2.2, s.2.1.insert s.2.2 (u, v), free)) s = .ok r ∧ r.2.2 = s.2.2 + l.length) ∧
      (2 ^ 32 ≤ s.2.2 + l.length → l.foldlM (fun (s : HMap (Vertex × Vertex) Vertex ×
          HMap Vertex (Vertex × Vertex) × Vertex) v => do
        let free ← add32 s.2.2 1
        return (s.1.insert (u, v) s.2.2, s.2.1.insert s.2.2 (u, v), free)) s
          = (.error .overflow : Res (HMap (Vertex × Vertex) Vertex × HMap Vertex (Vertex × Vertex) × Vertex))) := by
    intro u l
    induction l with
    | nil => intro s hs; exact ⟨fun _ => ⟨s, rfl, by simp⟩, fun h => by simp at h; omega⟩
    | cons v l ih =>
      intro s hs
      simp only [List.foldlM_cons, List.length_cons]
      by_cases h1 : s.2.2 + 1 < 2 ^ 32
      · simp only [add32_ok h1, bind_ok, pure_eq_ok]
        have := ih (s.1.insert (u, v) s.2.2, s.2.1.insert s.2.2 (u, v), s.2.2 + 1) h1
        simp only at this
        refine ⟨fun h => ?_, fun h => this.2 (by omega)⟩
        obtain ⟨r, hr, hr'⟩ := this.1 (by omega)
        exact ⟨r, hr, by omega⟩
      · simp only [add32_overflow (show 2 ^ 32 ≤ s.2.2 + 1 by omega)]
        exact ⟨fun h => by omega, fun _ => rfl⟩
  have outer : ∀ (l : List ℕ) (s : HMap (Vertex × Vertex) Vertex × HMap Vertex (Vertex × Vertex) × Vertex),
      s.2.2 < 2 ^ 32 → 2 ^ 32 ≤ s.2.2 + l.length * H.vertices.length →
      l.foldlM (fun s u =>
        H.vertices.foldlM (fun (s : HMap (Vertex × Vertex) Vertex × HMap Vertex (Vertex × Vertex) × Vertex) v => do
          let free ← add32 s.2.2 1
          return (s.1.insert (u, v) s.2.2, s.2.1.insert s.2.2 (u, v), free)) s) s
          = (.error .overflow : Res (HMap (Vertex × Vertex) Vertex × HMap Vertex (Vertex × Vertex) × Vertex)) := by
    intro l
    induction l with
    | nil => intro s h1 h2; simp at h2; omega
    | cons u l ih =>
      intro s h1 h2
      rw [List.foldlM_cons]
      rw [List.length_cons, Nat.add_mul, Nat.one_mul] at h2
      by_cases hf : s.2.2 + H.vertices.length < 2 ^ 32
      · obtain ⟨r, hr, hr'⟩ := (inner u H.vertices s h1).1 hf
        rw [hr, bind_ok]
        exact ih r (by omega) (by omega)
      · rw [(inner u H.vertices s h1).2 (by omega)]; rfl
  exact outer G.vertices _ (by decide) (by simp only; omega)

/-- **C115 (products, overflow).**  Both products overflow as soon as there are `2^32` pairs of vertices; for fewer pairs
see `C22_cartesian_partial` and `C23_lexicographic_partial`. -/
theorem C115_products_overflow {G H : Graph} {S T : SGraph} (hG : G.Rep S) (hH : H.Rep T)
    (σ : Shuffle ((Vertex × Vertex) × Vertex)) (h : 2 ^ 32 ≤ S.V.card * T.V.card) :
    G.cartesianProduct σ H = .error .overflow ∧ G.lexicographicProduct σ H = .error .overflow := by
  have e : G.productIds H = .error .overflow := productIds_overflow (by
    have hl : ∀ {G : Graph} {S : SGraph}, G.Rep S → G.vertices.length = S.V.card := fun {G S} hG => by
      rw [← List.toFinset_card_of_nodup hG.vnodup]
      congr 1; ext v; rw [List.mem_toFinset, hG.vmem]
    rw [hl hG, hl hH]; exact h)
  unfold Graph.cartesianProduct Graph.lexicographicProduct
  rw [e]
  exact ⟨rfl, rfl⟩

/-! ## `subdivide(1)` with loops -/

/-- **C115 (subdivide, once).**  On every graph whose ids fit, `subdivide(1)` replaces the `i`-th edge by two edges to the
new vertex `b + i`, which coincide iff the edge is a loop: the result has two edges per edge less one per loop, and the new
vertices of the loops have degree 1. -/
theorem C115_subdivide_once {G : Graph} {S : SGraph} (hG : G.Rep S) (hb : ∀ v ∈ S.V, v + 1 + S.E.card < 2 ^ 32) :
    ∃ (h : EditGraph) (es : List (ℕ × ℕ)) (b : ℕ), G.subdivide 1 = .ok h ∧ Reachable h ∧
      es.Nodup ∧ (∀ u v, (u, v) ∈ es ↔ u ≤ v ∧ S.Adj u v) ∧ (∀ v ∈ S.V, v < b) ∧
      (∀ w, h.contains w = true ↔ w ∈ S.V ∨ ∃ i < es.length, w = b + i) ∧
      (∀ a c, h.adjacent a c = true ↔ ∃ i u v, es[i]? = some (u, v) ∧
        (a = b + i ∧ (c = u ∨ c = v) ∨ c = b + i ∧ (a = u ∨ a = v))) ∧
      h.numVertices = S.V.card + S.E.card ∧
      h.numEdges + (S.V.filter fun v => S.Adj v v).card = 2 * S.E.card ∧
      (∀ i u v, es[i]? = some (u, v) → h.degree (b + i) = if u = v then 1 else 2) := by
  obtain ⟨h, hh, S', es, b, A, he, hlt, hV, hA, -⟩ := hG.subdivide 1 (by simpa using hb)
  have hadj : ∀ a c, S'.Adj a c ↔ ∃ i u v, es[i]? = some (u, v) ∧
        (a = b + i ∧ (c = u ∨ c = v) ∨ c = b + i ∧ (a = u ∨ a = v)) := by
    intro a c
    rw [hA]
    constructor
    · rintro ⟨i, hi, j, hj, hac⟩
      obtain ⟨⟨u, v⟩, he'⟩ : ∃ e, es[i]? = some e := ⟨_, List.getElem?_eq_getElem hi⟩
      refine ⟨i, u, v, he', ?_⟩
      simp only [subdivVertex, he', pathPos] at hac
      obtain rfl | rfl : j = 0 ∨ j = 1 := by omega
      · simp at hac; omega
      · simp at hac; omega
    · rintro ⟨i, u, v, he', hac⟩
      have hi : i < es.length := by
        by_contra hh
        rw [List.getElem?_eq_none (by omega)] at he'; cases he'
      have s0 : subdivVertex es b 1 i 0 = u := by simp [subdivVertex, he', pathPos]
      have s1 : subdivVertex es b 1 i 1 = b + i := by simp [subdivVertex, he', pathPos]
      have s2 : subdivVertex es b 1 i 2 = v := by simp [subdivVertex, he', pathPos]
      rcases hac with ⟨rfl, rfl | rfl⟩ | ⟨rfl, rfl | rfl⟩
      · exact ⟨i, hi, 0, by omega, Or.inr ⟨s1.symm, s0.symm⟩⟩
      · exact ⟨i, hi, 1, by omega, Or.inl ⟨s1.symm, s2.symm⟩⟩
      · exact ⟨i, hi, 0, by omega, Or.inl ⟨s0.symm, s1.symm⟩⟩
      · exact ⟨i, hi, 1, by omega, Or.inr ⟨s2.symm, s1.symm⟩⟩
  have hlo : ∀ {i : ℕ} {u v : ℕ}, es[i]? = some (u, v) → u < b ∧ v < b := fun hi =>
    ⟨hlt _ (he.left_mem (List.mem_of_getElem? hi)), hlt _ (he.right_mem (List.mem_of_getElem? hi))⟩
  refine ⟨h, es, b, hh, A.reachable, he.nodup, he.mem, hlt, fun w => ?_, fun a c => ?_, ?_, ?_, ?_⟩
  · rw [A.contains, decide_eq_true_eq, hV, he.length, Nat.one_mul]
    refine or_congr_right ⟨fun hw => ⟨w - b, by omega, by omega⟩, ?_⟩
    rintro ⟨i, hi, rfl⟩; omega
  · rw [A.adjacent, decide_eq_true_eq, hadj]
  · rw [A.numVertices]
    have : S'.V = S.V ∪ Finset.Ico b (b + S.E.card) := by
      ext w; rw [hV, Finset.mem_union, Finset.mem_Ico, Nat.one_mul]
    rw [this, Finset.card_union_of_disjoint, Nat.card_Ico]
    · omega
    · rw [Finset.disjoint_left]
      intro w hw hw'
      rw [Finset.mem_Ico] at hw'
      have := hlt w hw; omega
  · rw [A.numEdges]
    set ends : ℕ → Finset (Sym2 ℕ) := fun i =>
      {s((es.getD i (0, 0)).1, b + i), s((es.getD i (0, 0)).2, b + i)} with hends
    have hE : S'.E = (Finset.range es.length).biUnion ends := by
      ext e
      rw [Finset.mem_biUnion]
      induction e using Sym2.ind with
      | _ a c =>
        change S'.Adj a c ↔ _
        rw [hadj]
        constructor
        · rintro ⟨i, u, v, hi, hac⟩
          have hil : i < es.length := by
            by_contra hh
            rw [List.getElem?_eq_none (by omega)] at hi; cases hi
          refine ⟨i, Finset.mem_range.2 hil, ?_⟩
          simp only [hends, List.getD_eq_getElem?_getD, hi, Option.getD_some, Finset.mem_insert,
            Finset.mem_singleton, Sym2.eq_iff]
          rcases hac with ⟨rfl, rfl | rfl⟩ | ⟨rfl, rfl | rfl⟩ <;> simp
        · rintro ⟨i, hil, hac⟩
          have hil := Finset.mem_range.1 hil
          refine ⟨i, es[i].1, es[i].2, List.getElem?_eq_getElem hil, ?_⟩
          simp only [hends, List.getD_eq_getElem?_getD, List.getElem?_eq_getElem hil, Option.getD_some,
            Finset.mem_insert, Finset.mem_singleton, Sym2.eq_iff] at hac
          rcases hac with (⟨rfl, rfl⟩ | ⟨rfl, rfl⟩) | (⟨rfl, rfl⟩ | ⟨rfl, rfl⟩) <;> simp
    have hlt' : ∀ i < es.length, (es.getD i (0, 0)).1 < b ∧ (es.getD i (0, 0)).2 < b := by
      intro i hi
      rw [List.getD_eq_getElem?_getD, List.getElem?_eq_getElem hi, Option.getD_some]
      exact hlo (List.getElem?_eq_getElem hi)
    rw [hE, Finset.card_biUnion]
    swap
    · intro i hi j hj hij
      have h1 := hlt' i (Finset.mem_range.1 hi)
      have h2 := hlt' j (Finset.mem_range.1 hj)
      refine Finset.disjoint_left.2 ?_
      intro e h3 h4
      simp only [hends, Finset.mem_insert, Finset.mem_singleton] at h3 h4
      rcases h3 with rfl | rfl <;> simp only [Sym2.eq_iff] at h4 <;> omega
    have hc : ∀ i ∈ Finset.range es.length,
        (ends i).card + (if (es.getD i (0, 0)).1 = (es.getD i (0, 0)).2 then 1 else 0) = 2 := by
      intro i hi
      have h1 := hlt' i (Finset.mem_range.1 hi)
      simp only [hends]
      split
      · next h => rw [h]; simp
      · next h =>
        rw [Finset.card_pair]
        intro h2
        rw [Sym2.eq_iff] at h2
        rcases h2 with ⟨h2, -⟩ | ⟨h2, -⟩
        · exact h h2
        · omega
    have hs := Finset.sum_congr rfl hc
    rw [Finset.sum_add_distrib, Finset.sum_const, Finset.card_range, smul_eq_mul, he.length] at hs
    rw [Nat.mul_comm 2, ← hs, he.length]
    congr 1
    rw [← Finset.card_filter]
    refine Finset.card_bij' (fun v _ => es.idxOf (v, v)) (fun i _ => (es.getD i (0, 0)).1) ?_ ?_ ?_ ?_
    · intro v hv
      rw [Finset.mem_filter] at hv
      have hm : (v, v) ∈ es := (he.mem v v).2 ⟨le_refl _, hv.2⟩
      have hl := List.idxOf_lt_length_iff.2 hm
      rw [Finset.mem_filter, Finset.mem_range, ← he.length, List.getD_eq_getElem?_getD, List.getElem?_eq_getElem hl,
        Option.getD_some, List.getElem_idxOf]
      exact ⟨hl, rfl⟩
    · intro i hi
      rw [Finset.mem_filter, Finset.mem_range, ← he.length] at hi
      obtain ⟨hi, hl⟩ := hi
      rw [List.getD_eq_getElem?_getD, List.getElem?_eq_getElem hi, Option.getD_some] at hl
      have hm : es[i] ∈ es := List.getElem_mem hi
      rw [List.getD_eq_getElem?_getD, List.getElem?_eq_getElem hi, Option.getD_some, Finset.mem_filter]
      have h1 := he.left_mem hm
      have h2 := he.adj hm
      rw [← hl] at h2
      exact ⟨h1, h2⟩
    · intro v hv
      rw [Finset.mem_filter] at hv
      have hm : (v, v) ∈ es := (he.mem v v).2 ⟨le_refl _, hv.2⟩
      have hl := List.idxOf_lt_length_iff.2 hm
      simp only [List.getD_eq_getElem?_getD, List.getElem?_eq_getElem hl, Option.getD_some, List.getElem_idxOf]
    · intro i hi
      rw [Finset.mem_filter, Finset.mem_range, ← he.length] at hi
      obtain ⟨hi, hl⟩ := hi
      simp only [List.getD_eq_getElem?_getD, List.getElem?_eq_getElem hi, Option.getD_some] at hl ⊢
      have : ((es[i]).1, (es[i]).1) = es[i] := Prod.ext rfl hl
      rw [this, he.nodup.idxOf_getElem]
  · intro i u v hi
    have hl := hlo hi
    rw [A.degree, SGraph.deg_eq]
    have hnb : S'.nbrs (b + i) = {u, v} := by
      ext x
      rw [SGraph.mem_nbrs, hadj, Finset.mem_insert, Finset.mem_singleton]
      constructor
      · rintro ⟨i', u', v', hi', ⟨h1, h2⟩ | ⟨h1, h2⟩⟩
        · obtain rfl : i' = i := by omega
          rw [hi] at hi'; cases hi'; exact h2
        · have := hlo hi'; omega
      · intro hx; exact ⟨i, u, v, hi, Or.inl ⟨rfl, hx⟩⟩
    have hnl : ¬ S'.Adj (b + i) (b + i) := by
      rw [hadj]
      rintro ⟨i', u', v', hi', h⟩
      have := hlo hi'; omega
    rw [hnb, if_neg hnl]
    split
    · next h => rw [h]; simp
    · next h => rw [Finset.card_pair h]

/-! ## The hypotheses are met -/

example : ∃ (g : EditGraph) (S : SGraph), g.view.Rep S ∧ (∃ v ∈ S.V, S.Adj v v) ∧
    (∀ v ∈ S.V, v + 1 + S.E.card < 2 ^ 32) ∧ S.E.card = 3 := by
  obtain ⟨⟨g, k⟩, hg, A, -⟩ := abs_new.addEdges [(0, 0), (0, 1), (1, 2)]
  exact ⟨g, _, A.rep, ⟨0, by decide, by decide⟩, by decide, by decide⟩

/-- A single edge between the two greatest ids cannot be subdivided, nor can the last id be. -/
example : ∃ (g : EditGraph) (S : SGraph), g.view.Rep S ∧ ∃ v ∈ S.V, 2 ^ 32 ≤ v + 1 + 1 * S.E.card := by
  obtain ⟨⟨g, k⟩, hg, A, -⟩ := abs_new.addEdges [(4294967293, 4294967294)]
  exact ⟨g, _, A.rep, 4294967294, by decide, by decide⟩

/-- A graph on `65536` vertices times itself. -/
example : ∃ (g : EditGraph) (S : SGraph), g.view.Rep S ∧ 2 ^ 32 ≤ S.V.card * S.V.card := by
  obtain ⟨g, S, A, hV⟩ : ∃ (g : EditGraph) (S : SGraph), Abs g S ∧ S.V = Finset.range 65536 := by
    obtain ⟨S, A, hV, -⟩ := Is.new.addVertices (List.range 65536)
    refine ⟨_, S, A, ?_⟩
    ext w; rw [hV]; simp
  refine ⟨g, S, A.rep, ?_⟩
  rw [hV, Finset.card_range]; decide

end Verif
