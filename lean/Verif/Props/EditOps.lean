import Verif.Lemmas.DisjUnion
import Verif.Lemmas.Normalize
import Verif.Lemmas.Nbh
import Verif.Props.EditGraph
/-!
# Properties C12 – C18: unions, normalization, contraction, neighbourhoods, induced subgraphs

`G.Rep S` (Lemmas/EditGraph.lean): all queries of the `Graph` implementation `G` answer as the abstract
graph `S`.  Every reachable `EditGraph` represents such an `S` (`Abs.rep`).
-/
namespace Verif
open EditGraph

/-- Path 1-2-3 with a loop at 2 and the isolated vertex 7 (as in `exCalls`). -/
def exS : SGraph := SGraph.empty.run exCalls

/-- The graph of `exCalls` as an `EditGraph`. -/
theorem exAbs : ∃ g, Abs g exS := by
  obtain ⟨⟨g, rs⟩, -, H, -⟩ := Abs.run (lay := revLay) revLay_relayout exCalls 0 abs_new
  exact ⟨g, H⟩

/-- **C12.** `g.disj_union(G)`: `g` is kept, `G` is copied with all ids shifted by some `k` larger than all
ids of `g`; nothing else is added, and the counts add up. -/
theorem C12_disj_union {g : EditGraph} (hg : Reachable g) {G : Graph} {T : SGraph} (hG : G.Rep T)
    (h1 : ∀ u : ℕ, g.contains u = true → u + 1 < 2 ^ 32) (h0 : ∀ v ∈ T.V, v < 2 ^ 32)
    (h2 : ∀ u v : ℕ, g.contains u = true → v ∈ T.V → u + 1 + v < 2 ^ 32) :
    ∃ h k, g.disjUnion G = .ok h ∧ Reachable h ∧ (∀ u : ℕ, g.contains u = true → u < k) ∧
      (∀ w, h.contains w = true ↔ g.contains w = true ∨ ∃ v ∈ T.V, w = v + k) ∧
      (∀ a b, h.adjacent a b = true ↔ g.adjacent a b = true ∨ ∃ u v, T.Adj u v ∧ a = u + k ∧ b = v + k) ∧
      h.numVertices = g.numVertices + G.numVertices ∧ h.numEdges = g.numEdges + G.numEdges := by
  obtain ⟨S, H⟩ := hg.abs
  have hc : ∀ u, g.contains u = true ↔ u ∈ S.V := fun u => by rw [H.contains, decide_eq_true_eq]
  have hS : offsetOf S < 2 ^ 32 := by
    refine (Finset.sup_lt_iff (by decide)).2 fun u hu => h1 u ((hc u).2 hu)
  have hT : ∀ v ∈ T.V, v + offsetOf S < 2 ^ 32 := by
    intro v hv
    rcases S.V.eq_empty_or_nonempty with he | hne
    · simp only [offsetOf, he, Finset.sup_empty]; exact h0 v hv
    · obtain ⟨x, hx, hxe⟩ := Finset.exists_mem_eq_sup S.V hne (· + 1)
      have := h2 x v ((hc x).2 hx) hv
      unfold offsetOf; rw [hxe]; omega
  obtain ⟨h, hh, A⟩ := H.disjUnion hG hS hT
  refine ⟨h, offsetOf S, hh, A.reachable, fun u hu => lt_offsetOf ((hc u).1 hu), fun w => ?_, fun a b => ?_, ?_, ?_⟩
  · rw [A.contains, decide_eq_true_eq, hc, ← SGraph.mem_shift_V]
    exact Finset.mem_union
  · rw [A.adjacent, decide_eq_true_eq, H.adjacent, decide_eq_true_eq, SGraph.union_adj, SGraph.shift_adj]
  · rw [A.numVertices, H.numVertices, hG.nv, SGraph.union_card_V disjoint_shift, SGraph.shift_card_V]
  · rw [A.numEdges, H.numEdges, hG.ne, SGraph.union_card_E disjoint_shift, SGraph.shift_card_E]

/-- `C12_disj_union` for two graphs with four vertices each. -/
example := C12_disj_union caseG_reachable loopG_rep
  (fun _ h => by have := caseG_contains.1 h; omega) (fun _ h => by have := loopS_mem.1 h; omega)
  (fun _ _ h h' => by have := caseG_contains.1 h; have := loopS_mem.1 h'; omega)

/-- **C12, lists.** `disj_unions`: every graph of the list is copied with its own shift; all ids of an
earlier copy are smaller than all ids of a later one; nothing else is added and the counts add up.
`B` is any strict bound on the ids of the graph. -/
theorem C12_disj_unions (l : List (Graph × SGraph × ℕ)) (hl : ∀ p ∈ l, p.1.Rep p.2.1)
    (hB : ∀ p ∈ l, ∀ v ∈ p.2.1.V, v < p.2.2) (hsum : (l.map (·.2.2)).sum < 2 ^ 32) :
    ∃ h ks, EditGraph.disjUnions (l.map (·.1)) = .ok h ∧ Reachable h ∧ ks.length = l.length ∧
      (l.zip ks).Pairwise (fun p q => ∀ u ∈ p.1.2.1.V, ∀ v ∈ q.1.2.1.V, u + p.2 < v + q.2) ∧
      (∀ w, h.contains w = true ↔ ∃ p ∈ l.zip ks, ∃ v ∈ p.1.2.1.V, w = v + p.2) ∧
      (∀ a b, h.adjacent a b = true ↔
        ∃ p ∈ l.zip ks, ∃ u v, p.1.2.1.Adj u v ∧ a = u + p.2 ∧ b = v + p.2) ∧
      h.numVertices = (l.map (·.1.numVertices)).sum ∧ h.numEdges = (l.map (·.1.numEdges)).sum := by
  unfold EditGraph.disjUnions
  rw [List.foldlM_map]
  have := Ok.foldlM (l := l) (b := EditGraph.new) (f := fun (g : EditGraph) p => g.disjUnion p.1)
    (fun pre g => ∃ S ks, Abs g S ∧ ks.length = pre.length ∧
      (pre.zip ks).Pairwise (fun p q => ∀ u ∈ p.1.2.1.V, ∀ v ∈ q.1.2.1.V, u + p.2 < v + q.2) ∧
      (∀ w, w ∈ S.V ↔ ∃ p ∈ pre.zip ks, ∃ v ∈ p.1.2.1.V, w = v + p.2) ∧
      (∀ a b, S.Adj a b ↔ ∃ p ∈ pre.zip ks, ∃ u v, p.1.2.1.Adj u v ∧ a = u + p.2 ∧ b = v + p.2) ∧
      S.V.card = (pre.map (·.1.numVertices)).sum ∧ S.E.card = (pre.map (·.1.numEdges)).sum ∧
      offsetOf S ≤ (pre.map (·.2.2)).sum) ?_ ?_
  · obtain ⟨h, hh, S, ks, A, h1, h2, h3, h4, h5, h6, -⟩ := this
    refine ⟨h, ks, hh, A.reachable, h1, h2, fun w => ?_, fun a b => ?_, ?_, ?_⟩
    · rw [A.contains, decide_eq_true_eq, h3]
    · rw [A.adjacent, decide_eq_true_eq, h4]
    · rw [A.numVertices, h5]
    · rw [A.numEdges, h6]
  · exact ⟨_, [], abs_new, rfl, by simp, by simp, by simp, by simp, by simp, by simp [offsetOf]⟩
  · rintro pre ⟨G, T, B⟩ post g hpq ⟨S, ks, A, h1, h2, h3, h4, h5, h6, h7⟩
    have hmem : (G, T, B) ∈ l := by rw [hpq]; simp
    have hrep : G.Rep T := hl _ hmem
    have hb : ∀ v ∈ T.V, v < B := hB _ hmem
    have hs : (pre.map (·.2.2)).sum + B < 2 ^ 32 := by
      rw [hpq] at hsum
      simp only [List.map_append, List.map_cons, List.sum_append, List.sum_cons] at hsum
      omega
    refine Ok.mono (A.disjUnion hrep (by omega) (fun v hv => by have := hb v hv; omega)) fun h A' => ?_
    have hz : (pre ++ [(G, T, B)]).zip (ks ++ [offsetOf S]) = pre.zip ks ++ [((G, T, B), offsetOf S)] := by
      rw [List.zip_append h1.symm]; rfl
    refine ⟨_, ks ++ [offsetOf S], A', by simp [h1], ?_, fun w => ?_, fun a b => ?_, ?_, ?_, ?_⟩
    · rw [hz, List.pairwise_append]
      refine ⟨h2, by simp, ?_⟩
      intro p hp q hq u hu v hv
      rw [List.mem_singleton] at hq
      subst hq
      have : u + p.2 < offsetOf S := lt_offsetOf ((h3 _).2 ⟨p, hp, u, hu, rfl⟩)
      simp only; omega
    · rw [hz]
      show w ∈ S.V ∪ _ ↔ _
      rw [Finset.mem_union, h3, SGraph.mem_shift_V]
      simp only [List.mem_append, List.mem_singleton, or_and_right, exists_or, exists_eq_left]
    · rw [hz, SGraph.union_adj, h4, SGraph.shift_adj]
      simp only [List.mem_append, List.mem_singleton, or_and_right, exists_or, exists_eq_left]
    · rw [SGraph.union_card_V disjoint_shift, SGraph.shift_card_V, h5, ← hrep.nv]; simp
    · rw [SGraph.union_card_E disjoint_shift, SGraph.shift_card_E, h6, ← hrep.ne]; simp
    · refine le_trans (offsetOf_union_le h7 hb) ?_
      simp

example : ∃ g : EditGraph, Reachable g ∧ g.view.Rep exS ∧ (∀ u : ℕ, g.contains u = true → u + 1 < 2 ^ 32) ∧
    (∀ v ∈ exS.V, v < 2 ^ 32) ∧ (∀ u v : ℕ, g.contains u = true → v ∈ exS.V → u + 1 + v < 2 ^ 32) ∧ exS.V.card = 4 := by
  obtain ⟨g, H⟩ := exAbs
  have hb : ∀ v ∈ exS.V, v < 10 := by decide
  have hc : ∀ u, g.contains u = true ↔ u ∈ exS.V := fun u => by rw [H.contains, decide_eq_true_eq]
  refine ⟨g, H.reachable, H.rep, fun u hu => ?_, fun v hv => ?_, fun u v hu hv => ?_, by decide⟩
  · have := hb u ((hc u).1 hu); omega
  · have := hb v hv; omega
  · have := hb u ((hc u).1 hu); have := hb v hv; omega

example : ∃ G : Graph, (∀ p ∈ [(G, exS, 10), (G, exS, 8)], p.1.Rep p.2.1) ∧
    (∀ p ∈ [(G, exS, 10), (G, exS, 8)], ∀ v ∈ p.2.1.V, v < p.2.2) := by
  obtain ⟨g, H⟩ := exAbs
  refine ⟨g.view, ?_, ?_⟩
  · simpa using H.rep
  · have hb : ∀ v ∈ exS.V, v < 8 := by decide
    simp only [List.mem_cons, List.not_mem_nil, or_false, forall_eq_or_imp, forall_eq]
    exact ⟨fun v hv => by have := hb v hv; omega, hb⟩

/-- **C13.** `normalize`: the new graph lives on `0..n-1`; the returned map is defined exactly there, is
strictly increasing, hits exactly the vertices of `g`, and preserves adjacency both ways. -/
theorem C13_normalize {g : EditGraph} (hg : Reachable g) (σ : Shuffle (Vertex × Vertex)) :
    ∃ h m, g.normalize σ = .ok (h, m) ∧ Reachable h ∧
      (∀ i, h.contains i = true ↔ i < g.numVertices) ∧
      (∀ i, i < g.numVertices ↔ ∃ v, m.get? i = some v) ∧
      (∀ v, g.contains v = true ↔ ∃ i, m.get? i = some v) ∧
      (∀ i j u v, m.get? i = some u → m.get? j = some v → i < j → u < v) ∧
      (∀ i j u v, m.get? i = some u → m.get? j = some v → h.adjacent i j = g.adjacent u v) ∧
      h.numEdges = g.numEdges := by
  obtain ⟨S, H⟩ := hg.abs
  obtain ⟨⟨h, m⟩, hh, hm, hI⟩ := H.normalize σ
  simp only at hm hI
  have hnd := nodup_sortIds H.vertices_nodup
  have hlen : (sortIds g.vertices).length = g.numVertices := by
    rw [length_sortIds]; exact (HMap.len_eq_length_keys).symm
  have hadj : ∀ i j u v, m.get? i = some u → m.get? j = some v → (h.adjacent i j = true ↔ S.Adj u v) := by
    intro i j u v hi hj
    rw [hI.adjacent]
    rw [hm] at hi hj
    constructor
    · rintro ⟨u', v', h1, h2, h3⟩
      rw [hi] at h1; rw [hj] at h2
      cases h1; cases h2; exact h3
    · intro h; exact ⟨u, v, hi, hj, h⟩
  have hdef : ∀ i, i < g.numVertices ↔ ∃ v, m.get? i = some v := by
    intro i
    simp only [hm]
    rw [← hlen, ← Option.isSome_iff_exists]
    simp
  have hhit : ∀ v, g.contains v = true ↔ ∃ i, m.get? i = some v := by
    intro v
    simp only [hm]
    rw [H.contains, decide_eq_true_eq, ← H.mem_vertices, ← mem_sortIds, List.mem_iff_getElem?]
  have hinj : ∀ i j u, m.get? i = some u → m.get? j = some u → i = j := by
    intro i j u hi hj
    rw [hm] at hi hj
    exact (List.getElem?_inj (List.getElem?_eq_some_iff.1 hi).1 hnd).1 (hi.trans hj.symm)
  refine ⟨h, m, hh, hI.reachable, fun i => ?_, hdef, hhit, ?_, ?_, ?_⟩
  · rw [hI.contains, H.numVertices]
  · intro i j u v hi hj hij
    rw [hm] at hi hj
    obtain ⟨hi', rfl⟩ := List.getElem?_eq_some_iff.1 hi
    obtain ⟨hj', rfl⟩ := List.getElem?_eq_some_iff.1 hj
    exact List.pairwise_iff_getElem.1 (sortIds_lt H.vertices_nodup) i j hi' hj' hij
  · intro i j u v hi hj
    rw [Bool.eq_iff_iff, hadj i j u v hi hj, H.adjacent, decide_eq_true_eq]
  · obtain ⟨T, HT, hV, hE⟩ := hI
    rw [HT.numEdges, H.numEdges]
    have hget : ∀ i ∈ T.V, ∃ v, m.get? i = some v := by
      intro i hi
      rw [hV, ← H.numVertices] at hi
      exact (hdef i).1 hi
    have hTadj : ∀ i j u v, m.get? i = some u → m.get? j = some v → (T.Adj i j ↔ S.Adj u v) := by
      intro i j u v hi hj
      rw [← hadj i j u v hi hj, HT.adjacent, decide_eq_true_eq]
    refine Finset.card_bij (fun e _ => e.map (fun i => (m.get? i).getD 0)) ?_ ?_ ?_
    · intro e he
      induction e using Sym2.ind with
      | _ i j =>
        obtain ⟨u, hu⟩ := hget i (SGraph.Adj.left he)
        obtain ⟨v, hv⟩ := hget j (SGraph.Adj.right he)
        simp only [Sym2.map_mk, hu, hv, Option.getD_some]
        exact (hTadj i j u v hu hv).1 he
    · intro e he f hf hef
      induction e using Sym2.ind with
      | _ i j =>
        induction f using Sym2.ind with
        | _ i' j' =>
          obtain ⟨u, hu⟩ := hget i (SGraph.Adj.left he)
          obtain ⟨v, hv⟩ := hget j (SGraph.Adj.right he)
          obtain ⟨u', hu'⟩ := hget i' (SGraph.Adj.left hf)
          obtain ⟨v', hv'⟩ := hget j' (SGraph.Adj.right hf)
          simp only [Sym2.map_mk, hu, hv, hu', hv', Option.getD_some, Sym2.eq_iff] at hef ⊢
          rcases hef with ⟨rfl, rfl⟩ | ⟨rfl, rfl⟩
          · exact Or.inl ⟨hinj _ _ _ hu hu', hinj _ _ _ hv hv'⟩
          · exact Or.inr ⟨hinj _ _ _ hu hv', hinj _ _ _ hv hu'⟩
    · intro e he
      induction e using Sym2.ind with
      | _ u v =>
        have hu' : g.contains u = true := by rw [H.contains, decide_eq_true_eq]; exact SGraph.Adj.left he
        have hv' : g.contains v = true := by rw [H.contains, decide_eq_true_eq]; exact SGraph.Adj.right he
        obtain ⟨i, hi⟩ := (hhit u).1 hu'
        obtain ⟨j, hj⟩ := (hhit v).1 hv'
        refine ⟨s(i, j), (hTadj i j u v hi hj).2 he, ?_⟩
        simp only [Sym2.map_mk, hi, hj, Option.getD_some]

example : ∃ g : EditGraph, Reachable g ∧ g.numVertices = 4 := by
  obtain ⟨g, H⟩ := exAbs; exact ⟨g, H.reachable, by rw [H.numVertices]; decide⟩

/-- **C14, full statement** (for all `u`, `v`): `v` is identified with `u`, and the call panics exactly if
`u` or `v` is missing. -/
def C14_statement : Prop := ∀ (g : EditGraph) (σ : Shuffle Vertex) (u v : Vertex), Reachable g →
  ((g.contains u = true ∧ g.contains v = true) → ∃ h, g.contractPair σ u v = .ok h ∧
    (∀ w, h.contains w = true ↔ g.contains w = true ∧ (w ≠ v ∨ w = u)) ∧
    (∀ a b, a ≠ u → b ≠ u → (h.adjacent a b = true ↔ g.adjacent a b = true ∧ a ≠ v ∧ b ≠ v)) ∧
    (∀ b, b ≠ u → (h.adjacent u b = true ↔ b ≠ v ∧ (g.adjacent u b = true ∨ g.adjacent v b = true))) ∧
    (h.adjacent u u = g.adjacent u u)) ∧
  (¬ (g.contains u = true ∧ g.contains v = true) → g.contractPair σ u v = .error .panic)

/-- **C14.** Proved for `u ≠ v` and for missing vertices.  Missing: `contract_pair(u,u)` deletes `u`. -/
theorem C14_contract_pair_partial {g : EditGraph} (hg : Reachable g) (σ : Shuffle Vertex) (u v : Vertex) :
    ((g.contains u = true ∧ g.contains v = true ∧ u ≠ v) → ∃ h, g.contractPair σ u v = .ok h ∧ Reachable h ∧
      (∀ w, h.contains w = true ↔ g.contains w = true ∧ w ≠ v) ∧
      (∀ a b, a ≠ u → b ≠ u → (h.adjacent a b = true ↔ g.adjacent a b = true ∧ a ≠ v ∧ b ≠ v)) ∧
      (∀ b, b ≠ u → (h.adjacent u b = true ↔ b ≠ v ∧ (g.adjacent u b = true ∨ g.adjacent v b = true))) ∧
      (h.adjacent u u = g.adjacent u u)) ∧
    (¬ (g.contains u = true ∧ g.contains v = true) → g.contractPair σ u v = .error .panic) := by
  obtain ⟨S, H⟩ := hg.abs
  constructor
  · rintro ⟨hu, hv, huv⟩
    rw [H.contains, decide_eq_true_eq] at hu hv
    obtain ⟨h, hh, hI⟩ := H.contractPair σ hu hv
    refine ⟨h, hh, hI.reachable, fun w => ?_, fun a b ha hb => ?_, fun b hb => ?_, ?_⟩
    · rw [hI.contains, H.contains, decide_eq_true_eq]
    · rw [hI.adjacent, H.adjacent, decide_eq_true_eq]; tauto
    · rw [hI.adjacent, H.adjacent, H.adjacent, decide_eq_true_eq, decide_eq_true_eq]; tauto
    · rw [Bool.eq_iff_iff, hI.adjacent, H.adjacent, decide_eq_true_eq]; tauto
  · intro h
    refine contractPair_panic ?_
    cases h1 : g.contains u <;> cases h2 : g.contains v <;> simp_all

/-- `C14_contract_pair_partial` for a path with a loop and an isolated vertex. -/
example := fun σ => C14_contract_pair_partial loopG_reachable σ 1 0

/-- `contract_pair(u,u)` deletes `u` and all its edges: the full statement is false. -/
theorem C14_refuted : ¬ C14_statement := by
  intro H
  have hI : Is (independent 1) (fun u => u < 1) (fun _ _ => False) := by
    have := foldl_inv (l := List.range 1) (b := EditGraph.new) (f := fun (g : EditGraph) u => (g.addVertex u).1)
      (fun pre g => Is g (fun u => u ∈ pre) (fun _ _ => False)) (Is.new.congr (by simp) (by simp))
      (fun pre a post b _ hb => (hb.addVertex a).congr (by simp) (by simp))
    exact this.congr (by simp) (by simp)
  obtain ⟨h, h1, h2, -⟩ := (H (independent 1) Shuffle.id 0 0 hI.reachable).1 (by decide)
  have h3 : (EditGraph.contractPair Shuffle.id (independent 1) 0 0).map (fun g => g.contains 0) = .ok false := by
    decide
  rw [h1] at h3
  have h4 := (h2 0).2 (by decide)
  simp only [Except.map, h4] at h3
  exact absurd h3 (by decide)

example : ∃ g : EditGraph, Reachable g ∧ g.contains 1 = true ∧ g.contains 2 = true ∧ (1 : ℕ) ≠ 2 := by
  obtain ⟨g, H⟩ := exAbs
  exact ⟨g, H.reachable, by rw [H.contains]; decide, by rw [H.contains]; decide, by decide⟩

/-- **C15.** `contract_into(c, X)`: the vertices of `X` other than `c` disappear, all other vertices stay;
edges away from `c` are unchanged; `c` becomes adjacent to exactly the old outside neighbours of `c` and
of `X`; a loop at `c` is neither created nor removed. -/
theorem C15_contract_into {g : EditGraph} (hg : Reachable g) (σ₁ σ₂ σ₃ : Shuffle Vertex) (c : Vertex)
    (X : List Vertex) (hc : g.contains c = true) (hX : ∀ x ∈ X, g.contains x = true) :
    ∃ h, g.contractInto σ₁ σ₂ σ₃ c X = .ok h ∧ Reachable h ∧
      (∀ w, h.contains w = true ↔ g.contains w = true ∧ (w ∉ X ∨ w = c)) ∧
      (∀ a b, a ≠ c → b ≠ c → (h.adjacent a b = true ↔ g.adjacent a b = true ∧ a ∉ X ∧ b ∉ X)) ∧
      (∀ b, b ≠ c → (h.adjacent c b = true ↔
        b ∉ X ∧ (g.adjacent c b = true ∨ ∃ x ∈ X, g.adjacent x b = true))) ∧
      h.adjacent c c = g.adjacent c c := by
  obtain ⟨S, H⟩ := hg.abs
  have hcc : ∀ u, g.contains u = true ↔ u ∈ S.V := fun u => by rw [H.contains, decide_eq_true_eq]
  have haa : ∀ u v, g.adjacent u v = true ↔ S.Adj u v := fun u v => by rw [H.adjacent, decide_eq_true_eq]
  obtain ⟨h, hh, hI⟩ := H.contractInto σ₁ σ₂ σ₃ ((hcc c).1 hc) (fun x hx => (hcc x).1 (hX x hx))
  refine ⟨h, hh, hI.reachable, fun w => ?_, fun a b ha hb => ?_, fun b hb => ?_, ?_⟩
  · rw [hI.contains, hcc]
  · rw [hI.adjacent, haa]; tauto
  · rw [hI.adjacent]; simp only [haa, hb, not_true, ne_eq, not_false_eq_true, true_and, false_and, or_false, or_true]
  · rw [Bool.eq_iff_iff, hI.adjacent, haa]; tauto

/-- `C15_contract_into` for a path with a loop and an isolated vertex. -/
example := fun σ₁ σ₂ σ₃ => C15_contract_into loopG_reachable σ₁ σ₂ σ₃ 0 [1, 5] (by decide) (by decide)

/-- **C15, `contract`**: `contract(x₀, X)` is `contract_into(x₀, X)` and reports `x₀`. -/
theorem C15_contract (g : EditGraph) (σ₁ σ₂ σ₃ : Shuffle Vertex) (x₀ : Vertex) (X : List Vertex) :
    g.contract σ₁ σ₂ σ₃ (x₀ :: X) = (g.contractInto σ₁ σ₂ σ₃ x₀ X).map (fun h => (h, x₀)) := by
  show (do return ((← g.contractInto σ₁ σ₂ σ₃ x₀ X), x₀)) = _
  cases g.contractInto σ₁ σ₂ σ₃ x₀ X <;> rfl

example : ∃ g : EditGraph, Reachable g ∧ g.contains 7 = true ∧ ∀ x ∈ [1, 7, 3], g.contains x = true := by
  obtain ⟨g, H⟩ := exAbs
  exact ⟨g, H.reachable, by rw [H.contains]; decide, fun x hx => by
    rw [H.contains]; revert x; decide⟩

/-- **C16.** Open and closed neighbourhood of a vertex list. -/
theorem C16_neighbourhood {G : Graph} {S : SGraph} (hG : G.Rep S) (σ : Shuffle Vertex) (X : List Vertex)
    (hX : ∀ x ∈ X, x ∈ S.V) :
    (∃ s, G.neighbourhood σ X = .ok s ∧ ∀ v, v ∈ s ↔ v ∉ X ∧ ∃ x ∈ X, S.Adj x v) ∧
    (∃ s, G.closedNeighbourhood X = .ok s ∧ ∀ v, v ∈ s ↔ v ∈ X ∨ ∃ x ∈ X, S.Adj x v) :=
  ⟨hG.neighbourhood σ hX, hG.closedNeighbourhood hX⟩

/-- `C16_neighbourhood` for a path with a loop and an isolated vertex. -/
example := fun σ => C16_neighbourhood loopG_rep σ [0, 1] (by decide)

/-- **C17.** `r_neighbourhood` and `r_neighbours` are balls of radius `r`. -/
theorem C17_ball {G : Graph} {S : SGraph} (hG : G.Rep S) (σ : ℕ → Shuffle Vertex) (X : List Vertex)
    (hX : ∀ x ∈ X, x ∈ S.V) (r : ℕ) :
    (∃ s, G.rNeighbourhood σ X r = .ok s ∧ ∀ v, v ∈ s ↔ ∃ x ∈ X, ∃ d ≤ r, Walk S.Adj d x v) ∧
    (∀ u ∈ S.V, ∃ s, G.rNeighbours σ u r = .ok s ∧ ∀ v, v ∈ s ↔ ∃ d ≤ r, Walk S.Adj d u v) := by
  refine ⟨hG.rNeighbourhood σ hX r, fun u hu => ?_⟩
  obtain ⟨s, h1, h2⟩ := hG.rNeighbourhood σ (X := [u]) (by simpa using hu) r
  exact ⟨s, h1, by simpa using h2⟩

/-- `C17_ball` for a path with a loop and an isolated vertex. -/
example := fun σ => C17_ball loopG_rep σ [0, 5] (by decide) 2

/-- **C18.** `subgraph(X)` is the induced subgraph. -/
theorem C18_subgraph {G : Graph} {S : SGraph} (hG : G.Rep S) (σ : Shuffle Vertex) (τ : Vertex → Shuffle Vertex)
    (X : List Vertex) (hX : ∀ x ∈ X, x ∈ S.V) :
    ∃ h, G.subgraph σ τ X = .ok h ∧ Reachable h ∧ (∀ u, h.contains u = true ↔ u ∈ X) ∧
      (∀ u v, h.adjacent u v = true ↔ u ∈ X ∧ v ∈ X ∧ S.Adj u v) := by
  obtain ⟨h, h1, h2⟩ := hG.subgraph σ τ hX
  exact ⟨h, h1, h2.reachable, h2.contains, h2.adjacent⟩

example : ∃ G : Graph, G.Rep exS ∧ (∀ x ∈ [2, 7, 2], x ∈ exS.V) ∧ exS.Adj 2 2 ∧ exS.Adj 2 3 := by
  obtain ⟨g, H⟩ := exAbs
  exact ⟨g.view, H.rep, by decide, by decide, by decide⟩

end Verif
