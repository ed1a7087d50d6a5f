import Verif.Lemmas.EditDigraph
import Verif.Props.Generators
/-!
# Properties C31 – C36, C72: `EditDigraph`

`Reachable g`: `g` is obtained from `EditDigraph::new()` by any finite sequence of editing calls, with an
arbitrary rearrangement of all hash tables between calls.
-/
namespace Verif
open EditDigraph

/-- `r` is a list without repetition of exactly the vertices satisfying `p`. -/
def IsListOf (r : Res (List ℕ)) (p : ℕ → Prop) : Prop := ∃ l, r = .ok l ∧ l.Nodup ∧ ∀ w, w ∈ l ↔ p w

/-- All basic queries of `g` answer as the abstract digraph `S`, for every argument; queries about absent
vertices panic where documented. -/
structure DAgrees (g : EditDigraph) (S : DGraph) : Prop where
  contains : ∀ u, g.contains u = decide (u ∈ S.V)
  hasArc : ∀ u v, g.hasArc u v = decide ((u, v) ∈ S.A)
  numVertices : g.numVertices = S.V.card
  numEdges : g.numEdges = S.A.card
  inDegree : ∀ u ∈ S.V, g.inDegree u = .ok (S.A.filter (fun e => e.2 = u)).card
  outDegree : ∀ u ∈ S.V, g.outDegree u = .ok (S.A.filter (fun e => e.1 = u)).card
  inNeighbours : ∀ u ∈ S.V, IsListOf (g.inNeighbours u) (fun w => (w, u) ∈ S.A)
  outNeighbours : ∀ u ∈ S.V, IsListOf (g.outNeighbours u) (fun w => (u, w) ∈ S.A)
  absent : ∀ u, u ∉ S.V → g.inDegree u = .error .panic ∧ g.outDegree u = .error .panic ∧
    g.inNeighbours u = .error .panic ∧ g.outNeighbours u = .error .panic

theorem EditDigraph.Abs.agrees {g : EditDigraph} {S : DGraph} (H : Abs g S) : DAgrees g S :=
  ⟨H.contains, H.hasArc, H.numVertices, H.numEdges, fun _ hu => H.inDegree hu, fun _ hu => H.outDegree hu,
    fun _ hu => H.inNeighbours hu, fun _ hu => H.outNeighbours hu, fun _ hu =>
    ⟨H.inDegree_none hu, H.outDegree_none hu, H.inNeighbours_none hu, H.outNeighbours_none hu⟩⟩

/-- **C31.** For every history of editing calls and every hash layout: no call fails, the returned values
are those of the abstract digraph, and afterwards every query answers as the abstract digraph. -/
theorem C31_history (lay : Nat → EditDigraph → EditDigraph) (hlay : ∀ i g, Relayout g (lay i g))
    (calls : List Call) :
    ∃ g, EditDigraph.run lay 0 calls EditDigraph.new = .ok (g, DGraph.empty.rets calls) ∧
      DAgrees g (DGraph.empty.run calls) := by
  obtain ⟨⟨g, rs⟩, hr, H, hrs⟩ := Abs.run hlay calls 0 abs_new
  simp only at hrs
  subst hrs
  exact ⟨g, hr, H.agrees⟩

/-- A layout oracle that reverses the out-adjacency table and the in-degree table before every call. -/
def revDLay (_ : Nat) (g : EditDigraph) : EditDigraph :=
  ⟨g.inAdj,
   ⟨g.outAdj.entries.reverse, by rw [List.map_reverse]; exact List.nodup_reverse.2 g.outAdj.nodup⟩,
   g.outDegs,
   ⟨g.inDegs.entries.reverse, by rw [List.map_reverse]; exact List.nodup_reverse.2 g.inDegs.nodup⟩, g.m⟩

theorem revDLay_relayout (i : Nat) (g : EditDigraph) : EditDigraph.Relayout g (revDLay i g) where
  m := rfl
  outDegs := List.Perm.refl _
  inDegs := List.reverse_perm _
  outKeys := by
    have : (revDLay i g).outAdj.keys = g.outAdj.keys.reverse := by
      unfold revDLay HMap.keys; simp
    rw [this]; exact List.reverse_perm _
  inKeys := List.Perm.refl _
  outSets u N h := ⟨N, by
    rw [HMap.get?_eq_some] at h ⊢
    exact List.mem_reverse.2 h, List.Perm.refl _⟩
  inSets u N h := ⟨N, h, List.Perm.refl _⟩

/-- A history creating a 2-cycle, a loop, an isolated vertex and a removed vertex. -/
def exDCalls : List Call :=
  [.addEdge 1 2, .addEdges [(2, 3), (3, 2), (2, 2), (1, 2)], .addVertex 7, .addEdge 9 1, .addEdge 1 9,
    .removeVertex 9, .removeEdge 2 1]

example : ∀ i g, EditDigraph.Relayout g (revDLay i g) := revDLay_relayout
example : (EditDigraph.run revDLay 0 exDCalls EditDigraph.new).map
    (fun r => (r.1.numVertices, r.1.m, [r.1.hasArc 1 2, r.1.hasArc 2 1, r.1.contains 9], r.2))
    = .ok (4, 4, [true, false, false],
      [.bool true, .num 3, .bool true, .bool true, .bool true, .bool true, .bool false]) := by decide

theorem exDReachable : ∃ g, EditDigraph.Reachable g ∧ g.numEdges = 4 ∧ g.hasArc 1 2 = true ∧
    g.hasArc 2 1 = false ∧ g.hasArc 2 2 = true ∧ g.hasArc 3 2 = true ∧ g.contains 7 = true ∧
    (∀ u, g.contains u = true → u < 10) := by
  obtain ⟨⟨g, rs⟩, hr, H, -⟩ := Abs.run (lay := revDLay) revDLay_relayout exDCalls 0 abs_new
  refine ⟨g, H.reachable, ?_⟩
  have h2 : ((EditDigraph.run revDLay 0 exDCalls EditDigraph.new).map (fun r => (r.1.numEdges, [r.1.hasArc 1 2,
    r.1.hasArc 2 1, r.1.hasArc 2 2, r.1.hasArc 3 2, r.1.contains 7, r.1.vertices.all (· < 10)])))
      = .ok (4, [true, false, true, true, true, true]) := by decide
  rw [hr] at h2
  simp only [Except.map, Except.ok.injEq, Prod.mk.injEq, List.cons.injEq, and_true] at h2
  obtain ⟨h3, h4, h5, h6, h7, h8, h9⟩ := h2
  refine ⟨h3, h4, h5, h6, h7, h8, fun u hu => ?_⟩
  rw [List.all_eq_true] at h9
  refine of_decide_eq_true (h9 u ?_)
  rw [H.mem_vertices]; rw [H.contains] at hu; exact of_decide_eq_true hu

/-- **C32.** In- and out-degrees each sum to `num_edges`, `degree` is their sum, and `arcs()` terminates
yielding every arc exactly once. -/
theorem C32_degrees_arcs {g : EditDigraph} (hg : EditDigraph.Reachable g) :
    (∃ is os, g.vertices.mapM g.inDegree = .ok is ∧ g.vertices.mapM g.outDegree = .ok os ∧
      is.sum = g.numEdges ∧ os.sum = g.numEdges) ∧
    (∀ u, g.contains u = true → ∃ i o, g.inDegree u = .ok i ∧ g.outDegree u = .ok o ∧ g.degree u = i + o) ∧
    (∀ u, g.contains u = false → g.degree u = 0) ∧
    (∃ it l, ArcIter.new g.view = .ok it ∧ Drains (ArcIter.next g.view) it l ∧ l.Nodup ∧
      (∀ a b, (a, b) ∈ l ↔ g.hasArc a b = true) ∧ l.length = g.numEdges) := by
  obtain ⟨S, H⟩ := hg.abs
  have h1 : S.V = g.vertices.toFinset := by ext u; rw [List.mem_toFinset, H.mem_vertices]
  refine ⟨⟨g.vertices.map S.inDeg, g.vertices.map S.outDeg, ?_, ?_, ?_, ?_⟩, ?_, ?_, ?_⟩
  · exact EditGraph.mapM_ok fun v hv => H.inDegree ((H.mem_vertices v).1 hv)
  · exact EditGraph.mapM_ok fun v hv => H.outDegree ((H.mem_vertices v).1 hv)
  · rw [← List.sum_toFinset _ H.vertices_nodup, ← h1, H.numEdges]
    unfold DGraph.inDeg
    exact (Finset.card_eq_sum_card_fiberwise (f := fun e : ℕ × ℕ => e.2) (fun e he => (S.wf e he).2)).symm
  · rw [← List.sum_toFinset _ H.vertices_nodup, ← h1, H.numEdges]
    unfold DGraph.outDeg
    exact (Finset.card_eq_sum_card_fiberwise (f := fun e : ℕ × ℕ => e.1) (fun e he => (S.wf e he).1)).symm
  · intro u hu
    rw [H.contains, decide_eq_true_eq] at hu
    exact ⟨_, _, H.inDegree hu, H.outDegree hu, H.degree u⟩
  · intro u hu
    rw [H.contains, decide_eq_false_iff_not] at hu
    rw [H.degree, DGraph.inDeg_of_not_mem hu, DGraph.outDeg_of_not_mem hu]
  · obtain ⟨s, l, h1, h2, h3, h4⟩ := H.arcs
    refine ⟨s, l, h1, h2, h3, fun a b => by rw [h4, H.hasArc, decide_eq_true_eq], ?_⟩
    rw [H.numEdges, ← List.toFinset_card_of_nodup h3]
    congr 1; ext e; rw [List.mem_toFinset, h4]

example : ∃ g, EditDigraph.Reachable g ∧ g.numEdges = 4 ∧ g.hasArc 2 2 = true := by
  obtain ⟨g, h1, h2, -, -, h3, -⟩ := exDReachable; exact ⟨g, h1, h2, h3⟩

/-- **C33, full statement.** -/
def C33_statement : Prop := ∀ g, EditDigraph.Reachable g →
  (∀ u v, g.adjacent u v = true ↔ g.hasArc u v = true ∨ g.hasArc v u = true) ∧
  (∀ u, g.contains u = true → ∃ l, g.neighbours u = .ok l ∧
    ∀ w, w ∈ l ↔ g.hasArc u w = true ∨ g.hasArc w u = true)

/-- **C33**, the part that holds: `neighbours(u)` lists exactly the in- and out-neighbours (in-neighbours
first, then out-neighbours, so `degree(u)` entries) and panics on absent vertices; `adjacent(u,v)` tests
the arc `uv` only.  Missing: `adjacent` does not see the arc `vu`. -/
theorem C33_undirected_partial {g : EditDigraph} (hg : EditDigraph.Reachable g) :
    (∀ u v, g.view.adjacent u v = .ok (g.hasArc u v)) ∧
    (∀ u, g.contains u = true → ∃ l, g.neighbours u = .ok l ∧ g.view.degree u = .ok l.length ∧
      ∀ w, w ∈ l ↔ g.hasArc u w = true ∨ g.hasArc w u = true) ∧
    (∀ u, g.contains u = true → ∃ l₁ l₂, g.inNeighbours u = .ok l₁ ∧ g.outNeighbours u = .ok l₂ ∧
      g.neighbours u = .ok (l₁ ++ l₂)) ∧
    (∀ u, g.contains u = false → g.neighbours u = .error .panic) := by
  obtain ⟨S, H⟩ := hg.abs
  refine ⟨fun u v => by
    show Except.ok (g.adjacent u v) = _
    rw [H.adjacent, H.hasArc], fun u hu => ?_, fun u hu => ?_, fun u hu => ?_⟩
  · rw [H.contains, decide_eq_true_eq] at hu
    obtain ⟨l₁, l₂, h1, h2, h3⟩ := H.neighbours hu
    obtain ⟨l, h4, h8, h5⟩ := H.inNeighbours hu
    obtain ⟨l', h6, h9, h7⟩ := H.outNeighbours hu
    rw [h1] at h4; cases h4
    rw [h2] at h6; cases h6
    refine ⟨_, h3, ?_, fun w => ?_⟩
    · refine Eq.symm (congrArg Except.ok ?_)
      rw [H.degree, List.length_append, ← List.toFinset_card_of_nodup h8, ← List.toFinset_card_of_nodup h9]
      unfold DGraph.inDeg DGraph.outDeg
      congr 1
      · refine Finset.card_bij (fun w _ => (w, u)) ?_ ?_ ?_
        · intro w hw
          rw [List.mem_toFinset, h5] at hw
          exact Finset.mem_filter.2 ⟨hw, rfl⟩
        · intro a _ b _ h; exact (Prod.mk.inj h).1
        · rintro ⟨a, b⟩ he
          rw [Finset.mem_filter] at he
          obtain ⟨he, rfl⟩ := he
          exact ⟨a, by rw [List.mem_toFinset, h5]; exact he, rfl⟩
      · refine Finset.card_bij (fun w _ => (u, w)) ?_ ?_ ?_
        · intro w hw
          rw [List.mem_toFinset, h7] at hw
          exact Finset.mem_filter.2 ⟨hw, rfl⟩
        · intro a _ b _ h; exact (Prod.mk.inj h).2
        · rintro ⟨a, b⟩ he
          rw [Finset.mem_filter] at he
          obtain ⟨he, rfl⟩ := he
          exact ⟨b, by rw [List.mem_toFinset, h7]; exact he, rfl⟩
    · rw [List.mem_append, h5, h7, H.hasArc, H.hasArc, decide_eq_true_eq, decide_eq_true_eq, or_comm]
  · rw [H.contains, decide_eq_true_eq] at hu
    exact H.neighbours hu
  · rw [H.contains, decide_eq_false_iff_not] at hu
    exact H.neighbours_none hu

/-- `C33_undirected_partial` for a digraph with a loop. -/
example := C33_undirected_partial exDReachable.choose_spec.1

/-- The full statement is false: with the single arc `0 → 1`, `adjacent(1,0)` is false. -/
theorem C33_refuted : ¬ C33_statement := by
  intro h
  obtain ⟨⟨g, b⟩, hg, H, -⟩ := abs_new.addArc 0 1
  have h1 := ((h g H.reachable).1 1 0).2 (Or.inr (by rw [H.hasArc]; decide))
  have : (EditDigraph.new.addArc 0 1).map (fun r => r.1.adjacent 1 0) = .ok false := by decide
  rw [hg] at this
  simp only [Except.map, h1] at this
  exact absurd this (by decide)

/-- **C34 (disjoint union), full statement.** -/
def C34_union_statement : Prop := ∀ g h, EditDigraph.Reachable g → EditDigraph.Reachable h →
  (∀ u, g.contains u = true → u + 1 < 2 ^ 32) →
  (∀ u v, g.contains u = true → h.contains v = true → u + 1 + v < 2 ^ 32) →
  ∃ r k, g.disjUnion h.view.toGraph = .ok r ∧ (∀ u, g.contains u = true → u < k) ∧
    (∀ w, r.contains w = true ↔ g.contains w = true ∨ ∃ v, h.contains v = true ∧ w = v + k) ∧
    (∀ a b, r.hasArc a b = true ↔ g.hasArc a b = true ∨
      ∃ u v, h.hasArc u v = true ∧ a = u + k ∧ b = v + k)

/-- **C34 (disjoint union)**, what the code really computes, for every pair: the vertices are right, but
every arc `ba` with `a < b` is turned into `ab`. -/
theorem C34_union_arcs {g h : EditDigraph} (hg : EditDigraph.Reachable g) (hh : EditDigraph.Reachable h)
    (h1 : ∀ u, g.contains u = true → u + 1 < 2 ^ 32)
    (h1' : ∀ v, h.contains v = true → v < 2 ^ 32)
    (h2 : ∀ u v, g.contains u = true → h.contains v = true → u + 1 + v < 2 ^ 32) :
    ∃ r k, g.disjUnion h.view.toGraph = .ok r ∧ EditDigraph.Reachable r ∧ (∀ u, g.contains u = true → u < k) ∧
    (∀ w, r.contains w = true ↔ g.contains w = true ∨ ∃ v, h.contains v = true ∧ w = v + k) ∧
    (∀ a b, r.hasArc a b = true ↔ (a ≤ b ∧ (g.hasArc a b = true ∨ g.hasArc b a = true)) ∨
      ∃ u v, u ≤ v ∧ (h.hasArc u v = true ∨ h.hasArc v u = true) ∧ a = u + k ∧ b = v + k) := by
  obtain ⟨S, H⟩ := hg.abs
  obtain ⟨T, H'⟩ := hh.abs
  have hc : ∀ u, g.contains u = true ↔ u ∈ S.V := fun u => by rw [H.contains, decide_eq_true_eq]
  have hc' : ∀ u, h.contains u = true ↔ u ∈ T.V := fun u => by rw [H'.contains, decide_eq_true_eq]
  have ha : ∀ u v, g.hasArc u v = true ↔ (u, v) ∈ S.A := fun u v => by rw [H.hasArc, decide_eq_true_eq]
  have ha' : ∀ u v, h.hasArc u v = true ↔ (u, v) ∈ T.A := fun u v => by rw [H'.hasArc, decide_eq_true_eq]
  simp only [hc, hc', ha, ha'] at h1 h1' h2 ⊢
  have e1 : EditDigraph.offsetOf S < 2 ^ 32 := by
    unfold EditDigraph.offsetOf
    rw [Finset.sup_lt_iff (by decide)]
    exact h1
  have e2 : ∀ v, v ∈ T.V → v + EditDigraph.offsetOf S < 2 ^ 32 := by
    intro v hv
    rcases S.V.eq_empty_or_nonempty with he | he
    · simpa [EditDigraph.offsetOf, he] using h1' v hv
    · obtain ⟨u, hu, hs⟩ := Finset.exists_mem_eq_sup S.V he (· + 1)
      unfold EditDigraph.offsetOf
      rw [hs]
      have := h2 u v hu hv
      omega
  obtain ⟨r, hr, hI⟩ := H.disjUnion H'.lists e1 e2
  exact ⟨r, EditDigraph.offsetOf S, hr, hI.reachable, fun u hu => EditDigraph.lt_offsetOf hu,
    hI.contains, hI.hasArc⟩

/-- **C34 (disjoint union)**: proved when all arcs of both digraphs go from smaller to larger ids.
Missing: arcs going downward are reversed (see `C34_union_arcs` and `C34_union_refuted`). -/
theorem C34_union_partial {g h : EditDigraph} (hg : EditDigraph.Reachable g) (hh : EditDigraph.Reachable h)
    (h1 : ∀ u, g.contains u = true → u + 1 < 2 ^ 32)
    (h1' : ∀ v, h.contains v = true → v < 2 ^ 32)
    (h2 : ∀ u v, g.contains u = true → h.contains v = true → u + 1 + v < 2 ^ 32)
    (up : ∀ a b, g.hasArc a b = true → a ≤ b) (up' : ∀ a b, h.hasArc a b = true → a ≤ b) :
    ∃ r k, g.disjUnion h.view.toGraph = .ok r ∧ (∀ u, g.contains u = true → u < k) ∧
    (∀ w, r.contains w = true ↔ g.contains w = true ∨ ∃ v, h.contains v = true ∧ w = v + k) ∧
    (∀ a b, r.hasArc a b = true ↔ g.hasArc a b = true ∨
      ∃ u v, h.hasArc u v = true ∧ a = u + k ∧ b = v + k) := by
  obtain ⟨r, k, e1, -, e2, e3, e4⟩ := C34_union_arcs hg hh h1 h1' h2
  refine ⟨r, k, e1, e2, e3, fun a b => (e4 a b).trans (or_congr ?_ ?_)⟩
  · constructor
    · rintro ⟨hab, h | h⟩
      · exact h
      · have : a = b := le_antisymm hab (up b a h)
        subst this; exact h
    · exact fun h => ⟨up a b h, Or.inl h⟩
  · refine exists_congr fun u => exists_congr fun v => ?_
    constructor
    · rintro ⟨hab, h | h, h'⟩
      · exact ⟨h, h'⟩
      · have : u = v := le_antisymm hab (up' v u h)
        subst this; exact ⟨h, h'⟩
    · exact fun h => ⟨up' u v h.1, Or.inl h.1, h.2⟩

/-- The digraph with the single arc `1 → 0`. -/
theorem exDown : ∃ g, EditDigraph.new.addArc 1 0 = .ok (g, true) ∧ EditDigraph.Reachable g ∧
    (∀ u, g.contains u = true ↔ u = 0 ∨ u = 1) ∧ ∀ u v, g.hasArc u v = true ↔ u = 1 ∧ v = 0 := by
  obtain ⟨⟨g, b⟩, hg, H, hb⟩ := abs_new.addArc 1 0
  have : b = true := by simpa [DGraph.empty] using hb
  subst this
  refine ⟨g, hg, H.reachable, fun u => ?_, fun u v => ?_⟩
  · rw [H.contains, decide_eq_true_eq, DGraph.mem_addArcs_V]
    simp [DGraph.empty, or_comm]
  · rw [H.hasArc, decide_eq_true_eq, DGraph.mem_addArcs]
    simp [DGraph.empty]

/-- The full statement is false: the arc `1 → 0` of the first digraph comes back as `0 → 1`. -/
theorem C34_union_refuted : ¬ C34_union_statement := by
  intro h
  obtain ⟨g, hg, hr, hc, ha⟩ := exDown
  obtain ⟨r, k, h1, -, -, h4⟩ := h g g hr hr (fun u hu => by have := (hc u).1 hu; omega)
    (fun u v hu hv => by have := (hc u).1 hu; have := (hc v).1 hv; omega)
  have h5 := (h4 1 0).2 (Or.inl ((ha 1 0).2 ⟨rfl, rfl⟩))
  have : ((EditDigraph.new.addArc 1 0).bind fun p => (p.1.disjUnion p.1.view.toGraph).map
      fun r => r.hasArc 1 0) = .ok false := by decide
  rw [hg] at this
  simp only [Except.bind, h1, Except.map, h5] at this
  exact absurd this (by decide)

/-- **C34 (normalize), full statement.** -/
def C34_normalize_statement : Prop := ∀ g σ, EditDigraph.Reachable g →
  ∃ h m, g.normalize σ = .ok (h, m) ∧
    (∀ i, h.contains i = true ↔ i < g.numVertices) ∧
    (∀ i, i < g.numVertices ↔ ∃ v, m.get? i = some v) ∧
    (∀ v, g.contains v = true ↔ ∃ i, m.get? i = some v) ∧
    (∀ i j u v, m.get? i = some u → m.get? j = some v → i < j → u < v) ∧
    (∀ i j u v, m.get? i = some u → m.get? j = some v → h.hasArc i j = g.hasArc u v)

/-- **C34 (normalize)**, what the code really computes, for every digraph: the vertex map is a strictly
increasing bijection onto the vertices, but arcs are redirected upward. -/
theorem C34_normalize_arcs {g : EditDigraph} (hg : EditDigraph.Reachable g) (σ : Shuffle (Vertex × Vertex)) :
    ∃ h m, g.normalize σ = .ok (h, m) ∧ EditDigraph.Reachable h ∧
      (∀ i, h.contains i = true ↔ i < g.numVertices) ∧
      (∀ i, i < g.numVertices ↔ ∃ v, m.get? i = some v) ∧
      (∀ v, g.contains v = true ↔ ∃ i, m.get? i = some v) ∧
      (∀ i j u v, m.get? i = some u → m.get? j = some v → i < j → u < v) ∧
      (∀ i j u v, m.get? i = some u → m.get? j = some v →
        (h.hasArc i j = true ↔ u ≤ v ∧ (g.hasArc u v = true ∨ g.hasArc v u = true))) := by
  obtain ⟨S, H⟩ := hg.abs
  obtain ⟨⟨h, m⟩, hh, hm, hI⟩ := H.normalize σ
  simp only at hm hI
  have hnd := EditGraph.nodup_sortIds H.vertices_nodup
  have hlen : (EditGraph.sortIds g.vertices).length = g.numVertices := by
    rw [EditGraph.length_sortIds]; exact (HMap.len_eq_length_keys).symm
  refine ⟨h, m, hh, hI.reachable, fun i => by rw [hI.contains, H.numVertices], fun i => ?_, fun v => ?_,
    fun i j u v hi hj hij => ?_, fun i j u v hi hj => ?_⟩
  · simp only [hm]
    rw [← hlen, ← Option.isSome_iff_exists]; simp
  · simp only [hm]
    rw [H.contains, decide_eq_true_eq, ← H.mem_vertices, ← EditGraph.mem_sortIds, List.mem_iff_getElem?]
  · rw [hm] at hi hj
    have := List.pairwise_iff_getElem.1 (EditGraph.sortIds_lt H.vertices_nodup) i j
      (List.getElem?_eq_some_iff.1 hi).1 (List.getElem?_eq_some_iff.1 hj).1 hij
    rwa [(List.getElem?_eq_some_iff.1 hi).2, (List.getElem?_eq_some_iff.1 hj).2] at this
  · rw [hm] at hi hj
    rw [hI.hasArc, H.hasArc, H.hasArc, decide_eq_true_eq, decide_eq_true_eq]
    constructor
    · rintro ⟨u', v', h1, h2, h3⟩
      rw [hi] at h1; rw [hj] at h2
      cases h1; cases h2; exact h3
    · intro h; exact ⟨u, v, hi, hj, h⟩

/-- `C34_normalize_arcs` for a digraph with a loop. -/
example := fun σ => C34_normalize_arcs exDReachable.choose_spec.1 σ

/-- **C34 (normalize)**: proved when all arcs go from smaller to larger ids. -/
theorem C34_normalize_partial {g : EditDigraph} (hg : EditDigraph.Reachable g) (σ : Shuffle (Vertex × Vertex))
    (up : ∀ a b, g.hasArc a b = true → a ≤ b) :
    ∃ h m, g.normalize σ = .ok (h, m) ∧
      (∀ i, h.contains i = true ↔ i < g.numVertices) ∧
      (∀ i, i < g.numVertices ↔ ∃ v, m.get? i = some v) ∧
      (∀ v, g.contains v = true ↔ ∃ i, m.get? i = some v) ∧
      (∀ i j u v, m.get? i = some u → m.get? j = some v → i < j → u < v) ∧
      (∀ i j u v, m.get? i = some u → m.get? j = some v → h.hasArc i j = g.hasArc u v) := by
  obtain ⟨h, m, h1, -, h2, h3, h4, h5, h6⟩ := C34_normalize_arcs hg σ
  refine ⟨h, m, h1, h2, h3, h4, h5, fun i j u v hi hj => ?_⟩
  rw [Bool.eq_iff_iff, h6 i j u v hi hj]
  constructor
  · rintro ⟨hab, h | h⟩
    · exact h
    · have : u = v := le_antisymm hab (up v u h)
      subst this; exact h
  · exact fun h => ⟨up u v h, Or.inl h⟩

/-- The full statement is false: normalizing the arc `1 → 0` gives `0 → 1`. -/
theorem C34_normalize_refuted : ¬ C34_normalize_statement := by
  intro h
  obtain ⟨g, hg, hr, hc, ha⟩ := exDown
  obtain ⟨r, m, h1, -, -, -, -, h5⟩ := h g Shuffle.id hr
  have : ((EditDigraph.new.addArc 1 0).bind fun p => (p.1.normalize Shuffle.id).map
      fun r => (r.1.hasArc 1 0, r.2.get? 0, r.2.get? 1)) = .ok (false, some 0, some 1) := by decide
  rw [hg] at this
  simp only [Except.bind, h1, Except.map, Except.ok.injEq, Prod.mk.injEq] at this
  obtain ⟨e1, e2, e3⟩ := this
  rw [h5 1 0 1 0 e3 e2, (ha 1 0).2 ⟨rfl, rfl⟩] at e1
  cases e1

/-- Digraph of the single arc `3 → 8`: satisfies the hypotheses of the partial theorems. -/
example : ∃ g, EditDigraph.Reachable g ∧ (∀ a b, g.hasArc a b = true → a ≤ b) ∧ g.hasArc 3 8 = true ∧
    (∀ u, g.contains u = true → u + 1 < 2 ^ 32) ∧
    (∀ u v, g.contains u = true → g.contains v = true → u + 1 + v < 2 ^ 32) := by
  obtain ⟨⟨g, b⟩, hg, H, hb⟩ := abs_new.addArc 3 8
  have hc : ∀ u, g.contains u = true ↔ u = 3 ∨ u = 8 := fun u => by
    rw [H.contains, decide_eq_true_eq, DGraph.mem_addArcs_V]
    simp [DGraph.empty]
  have ha : ∀ u v, g.hasArc u v = true ↔ u = 3 ∧ v = 8 := fun u v => by
    rw [H.hasArc, decide_eq_true_eq, DGraph.mem_addArcs]
    simp [DGraph.empty]
  refine ⟨g, H.reachable, fun a b h => ?_, (ha 3 8).2 ⟨rfl, rfl⟩, fun u hu => ?_, fun u v hu hv => ?_⟩
  · have := (ha a b).1 h; omega
  · have := (hc u).1 hu; omega
  · have := (hc u).1 hu; have := (hc v).1 hv; omega

/-- **C35.** Equality compares exactly vertices and arcs; a clone is equal to the original. -/
theorem C35_eq {g h : EditDigraph} (hg : EditDigraph.Reachable g) (hh : EditDigraph.Reachable h) :
    g.eq h = true ↔ (∀ u, g.contains u = h.contains u) ∧ (∀ u v, g.hasArc u v = h.hasArc u v) := by
  obtain ⟨S, H⟩ := hg.abs
  obtain ⟨T, H'⟩ := hh.abs
  rw [H.eq_iff H']
  constructor
  · rintro rfl
    exact ⟨fun u => by rw [H.contains, H'.contains], fun u v => by rw [H.hasArc, H'.hasArc]⟩
  · rintro ⟨h1, h2⟩
    refine DGraph.ext_iff' (fun u => ?_) fun a b => ?_
    · have := h1 u; rw [H.contains, H'.contains] at this; simpa using this
    · have := h2 a b; rw [H.hasArc, H'.hasArc] at this; simpa using this

/-- `C35_eq` for a digraph with a loop and the empty one. -/
example := C35_eq exDReachable.choose_spec.1 EditDigraph.abs_new.reachable

theorem C35_clone {g : EditDigraph} (hg : EditDigraph.Reachable g) :
    ∃ h, g.clone = .ok h ∧ EditDigraph.Reachable h ∧ g.eq h = true ∧ h.eq g = true := by
  obtain ⟨S, H⟩ := hg.abs
  obtain ⟨h, hh, H'⟩ := H.clone
  exact ⟨h, hh, H'.reachable, (H.eq_iff H').2 rfl, (H'.eq_iff H).2 rfl⟩

/-- `C35_clone` for a digraph with a loop. -/
example := C35_clone exDReachable.choose_spec.1

/-- Collecting arcs (`FromIterator`): exactly the listed arcs and their endpoints, in any order and with
repetitions. -/
theorem C35_from_iter (l : List Edge) : ∃ g, EditDigraph.fromIter l = .ok g ∧ EditDigraph.Reachable g ∧
    (∀ u, g.contains u = true ↔ ∃ e ∈ l, u = e.1 ∨ u = e.2) ∧ (∀ a b, g.hasArc a b = true ↔ (a, b) ∈ l) := by
  obtain ⟨g, h1, h2⟩ := is_fromIter l
  exact ⟨g, h1, h2.reachable, h2.contains, h2.hasArc⟩

/-- Reversing a 2-arc list gives equal digraphs, dropping an isolated vertex does not. -/
example : ((EditDigraph.fromIter [(1, 2), (2, 1), (5, 5)]).bind fun g =>
    (EditDigraph.fromIter [(5, 5), (2, 1), (1, 2), (2, 1)]).map fun h =>
      (g.eq h, g.eq (h.addVertex 9).1)) = .ok (true, false) := by decide

/-- The generator call returns a digraph (no overflow, no panic) that is a proper `EditDigraph` and whose
vertices and arcs are exactly those described by `P` and `R`. -/
def DGenerates (r : Res EditDigraph) (P : ℕ → Prop) (R : ℕ → ℕ → Prop) : Prop :=
  ∃ g, r = .ok g ∧ EditDigraph.Reachable g ∧ (∀ u, g.contains u = true ↔ P u) ∧
    (∀ u v, g.hasArc u v = true ↔ R u v)

theorem DGenerates.of_is {r : Res EditDigraph} {P : ℕ → Prop} {R : ℕ → ℕ → Prop}
    (h : Ok r (fun g => EditDigraph.Is g P R)) : DGenerates r P R := by
  obtain ⟨g, h1, h2⟩ := h
  exact ⟨g, h1, h2.reachable, h2.contains, h2.hasArc⟩

theorem DGenerates.congr {r : Res EditDigraph} {P P' : ℕ → Prop} {R R' : ℕ → ℕ → Prop}
    (h : DGenerates r P R) (hP : ∀ u, P u ↔ P' u) (hR : ∀ a b, R a b ↔ R' a b) : DGenerates r P' R' := by
  obtain ⟨g, h1, h2, h3, h4⟩ := h
  exact ⟨g, h1, h2, fun u => (h3 u).trans (hP u), fun u v => (h4 u v).trans (hR u v)⟩

/-- **C36 (path), full statement.** -/
def C36_path_statement : Prop := ∀ n, DGenerates (EditDigraph.path n) (fun u => u < n)
  (fun u v => v < n ∧ v = u + 1)

/-- **C36 (path)**: proved for at least two vertices.  Missing: `path(0)` underflows and `path(1)` is
returned without its vertex. -/
theorem C36_path_partial (n : ℕ) (hn : 2 ≤ n) : DGenerates (EditDigraph.path n) (fun u => u < n)
    (fun u v => v < n ∧ v = u + 1) := by
  refine .of_is ?_
  unfold EditDigraph.path
  simp only [usub_ok (show 1 ≤ n by omega), bind_ok]
  refine Ok.mono (EditDigraph.Is.new.foldAdd (List.range (n - 1)) (fun u => u) (fun u => u + 1))
    fun g hg => hg.congr ?_ ?_
  · intro u
    simp only [List.mem_range, false_or]
    constructor
    · rintro ⟨x, hx, h⟩; omega
    · intro hu
      by_cases h3 : u = 0
      · exact ⟨0, by omega, Or.inl h3⟩
      · exact ⟨u - 1, by omega, Or.inr (by omega)⟩
  · intro a b
    simp only [List.mem_range, false_or]
    constructor
    · rintro ⟨x, hx, h⟩; omega
    · rintro ⟨h1, h2⟩; exact ⟨a, by omega, rfl, h2⟩

/-- `C36_path_partial` for small sizes. -/
example := C36_path_partial 5 (by decide)

/-- `path(0)` fails (in a release build `0..(0-1)` would loop over all of `u32`). -/
theorem C36_path_zero : EditDigraph.path 0 = .error .overflow := rfl

theorem C36_path_refuted : ¬ C36_path_statement := by
  intro h
  obtain ⟨g, h1, -, h2, -⟩ := h 1
  have : (EditDigraph.path 1).map (fun g => g.contains 0) = .ok false := by decide
  rw [h1] at this
  have h3 := (h2 0).2 (by decide)
  simp only [Except.map, h3] at this
  exact absurd this (by decide)

/-- **C36 (cycle).** Each vertex has an arc to its cyclic successor. -/
theorem C36_cycle (n : ℕ) : DGenerates (EditDigraph.cycle n) (fun u => u < n)
    (fun u v => u < n ∧ v = (u + 1) % n) := by
  refine .of_is ?_
  unfold EditDigraph.cycle
  refine Ok.mono (EditDigraph.Is.new.foldAdd (List.range n) (fun u => u) (fun u => (u + 1) % n))
    fun g hg => hg.congr ?_ ?_
  · intro u
    simp only [List.mem_range, false_or]
    constructor
    · rintro ⟨x, hx, h | h⟩
      · omega
      · rw [h]; exact Nat.mod_lt _ (by omega)
    · intro hu; exact ⟨u, hu, Or.inl rfl⟩
  · intro a b
    simp only [List.mem_range, false_or]
    constructor
    · rintro ⟨x, hx, rfl, h⟩; exact ⟨hx, h⟩
    · rintro ⟨h1, h2⟩; exact ⟨a, h1, rfl, h2⟩

/-- `C36_cycle` for small sizes. -/
example := C36_cycle 5

/-- **C36 (matching).** Arcs `i → i+n`. -/
theorem C36_matching (n : ℕ) (hn : 2 * n ≤ 2 ^ 32) : DGenerates (EditDigraph.matching n) (fun u => u < 2 * n)
    (fun u v => u < n ∧ v = u + n) := by
  refine .of_is ?_
  unfold EditDigraph.matching
  refine Ok.mono (EditDigraph.Is.new.fold (fun u w => w = u ∨ w = u + n)
    (fun u a b => a = u ∧ b = u + n) ?_) fun g hg => hg.congr ?_ ?_
  · intro x hx g P R hg
    rw [List.mem_range] at hx
    simp only [add32_ok (show x + n < 2 ^ 32 by omega), bind_ok]
    exact hg.addArc' x (x + n)
  · intro u
    simp only [List.mem_range, false_or]
    constructor
    · rintro ⟨x, hx, h⟩; omega
    · intro hu
      by_cases h3 : u < n
      · exact ⟨u, h3, Or.inl rfl⟩
      · exact ⟨u - n, by omega, Or.inr (by omega)⟩
  · intro a b
    simp only [List.mem_range, false_or]
    constructor
    · rintro ⟨x, hx, h⟩; omega
    · rintro ⟨h1, h2⟩; exact ⟨a, h1, rfl, h2⟩

/-- `C36_matching` for small sizes. -/
example := C36_matching 5 (by decide)

/-- **C36 (clique), full statement**: arcs follow the linear order. -/
def C36_clique_statement : Prop := ∀ n, DGenerates (EditDigraph.clique n) (fun u => u < n)
  (fun u v => u < v ∧ v < n)

/-- **C36 (clique)**: proved except for `clique(1)`, which is returned without its vertex. -/
theorem C36_clique_partial (n : ℕ) (hn : n ≠ 1) : DGenerates (EditDigraph.clique n) (fun u => u < n)
    (fun u v => u < v ∧ v < n) := by
  refine .of_is ?_
  unfold EditDigraph.clique
  refine Ok.mono (EditDigraph.Is.new.fold (fun u w => (w = u ∧ u + 1 < n) ∨ (u < w ∧ w < n))
    (fun u a b => a = u ∧ u < b ∧ b < n) ?_) fun g hg => hg.congr ?_ ?_
  · intro x hx g P R hg
    rw [List.mem_range] at hx
    refine Ok.mono (hg.foldAdd _ (fun _ => x) (fun v => v)) fun g' hg' => hg'.congr ?_ ?_
    · intro w
      simp only [List.mem_range'_1]
      constructor
      · rintro (h | ⟨y, hy, (h | h)⟩)
        · exact Or.inl h
        · exact Or.inr (by omega)
        · exact Or.inr (by omega)
      · rintro (h | h | h)
        · exact Or.inl h
        · exact Or.inr ⟨x + 1, by omega, Or.inl h.1⟩
        · exact Or.inr ⟨w, by omega, Or.inr rfl⟩
    · intro a b
      simp only [List.mem_range'_1]
      constructor
      · rintro (h | ⟨y, hy, h⟩)
        · exact Or.inl h
        · right; omega
      · rintro (h | h)
        · exact Or.inl h
        · exact Or.inr ⟨b, by omega, h.1, rfl⟩
  · intro u
    simp only [List.mem_range, false_or]
    constructor
    · rintro ⟨x, hx, h⟩; omega
    · intro hu
      by_cases h : u + 1 < n
      · exact ⟨u, hu, Or.inl ⟨rfl, h⟩⟩
      · exact ⟨0, by omega, Or.inr (by omega)⟩
  · intro a b
    simp only [List.mem_range, false_or]
    constructor
    · rintro ⟨x, hx, h⟩; omega
    · rintro ⟨h1, h2⟩; exact ⟨a, by omega, rfl, h1, h2⟩

/-- `C36_clique_partial` for small sizes. -/
example := C36_clique_partial 5 (by decide)

theorem C36_clique_refuted : ¬ C36_clique_statement := by
  intro h
  obtain ⟨g, h1, -, h2, -⟩ := h 1
  have : (EditDigraph.clique 1).map (fun g => g.contains 0) = .ok false := by decide
  rw [h1] at this
  have h3 := (h2 0).2 (by decide)
  simp only [Except.map, h3] at this
  exact absurd this (by decide)

/-- **C36 (independent set).** -/
theorem C36_independent (n : ℕ) : DGenerates (.ok (EditDigraph.independent n)) (fun u => u < n)
    (fun _ _ => False) := by
  refine .of_is ⟨_, rfl, ?_⟩
  unfold EditDigraph.independent
  have := foldl_inv (l := List.range n) (b := EditDigraph.new) (f := fun (g : EditDigraph) u => (g.addVertex u).1)
    (fun pre g => EditDigraph.Is g (fun u => u ∈ pre) (fun _ _ => False)) (EditDigraph.Is.new.congr (by simp) (by simp))
    (fun pre a post b _ hb => (hb.addVertex a).congr (by simp) (by simp))
  exact this.congr (by simp) (by simp)

/-- `C36_independent` for small sizes. -/
example := C36_independent 5

/-- **C36 (biclique), full statement**: arcs from the side `0..s-1` to the side `s..s+t-1`. -/
def C36_biclique_statement : Prop := ∀ s t, s + t < 2 ^ 32 →
  DGenerates (EditDigraph.biclique s t) (fun u => u < s + t) (fun u v => u < s ∧ s ≤ v ∧ v < s + t)

/-- **C36 (biclique)**: proved when both sides are nonempty (or both empty).  Missing: one empty side. -/
theorem C36_biclique_partial (s t : ℕ) (h0 : s = 0 ↔ t = 0) (h : s + t < 2 ^ 32) :
    DGenerates (EditDigraph.biclique s t) (fun u => u < s + t) (fun u v => u < s ∧ s ≤ v ∧ v < s + t) := by
  refine .of_is ?_
  unfold EditDigraph.biclique
  simp only [add32_ok h, bind_ok]
  refine Ok.mono (EditDigraph.Is.new.fold (fun u w => (w = u ∧ 0 < t) ∨ (s ≤ w ∧ w < s + t))
    (fun u a b => a = u ∧ s ≤ b ∧ b < s + t) ?_) fun g hg => hg.congr ?_ ?_
  · intro x hx g P R hg
    rw [List.mem_range] at hx
    refine Ok.mono (hg.foldAdd _ (fun _ => x) (fun v => v)) fun g' hg' => hg'.congr ?_ ?_
    · intro w
      simp only [List.mem_range'_1]
      constructor
      · rintro (h | ⟨y, hy, (h | h)⟩)
        · exact Or.inl h
        · exact Or.inr (by omega)
        · exact Or.inr (by omega)
      · rintro (h | h | h)
        · exact Or.inl h
        · exact Or.inr ⟨s, by omega, Or.inl h.1⟩
        · exact Or.inr ⟨w, by omega, Or.inr rfl⟩
    · intro a b
      simp only [List.mem_range'_1]
      constructor
      · rintro (h | ⟨y, hy, h⟩)
        · exact Or.inl h
        · right; omega
      · rintro (h | h)
        · exact Or.inl h
        · exact Or.inr ⟨b, by omega, h.1, rfl⟩
  · intro u
    simp only [List.mem_range, false_or]
    constructor
    · rintro ⟨x, hx, h⟩; omega
    · intro hu
      by_cases h : u < s
      · exact ⟨u, h, Or.inl ⟨rfl, by omega⟩⟩
      · exact ⟨0, by omega, Or.inr (by omega)⟩
  · intro a b
    simp only [List.mem_range, false_or]
    constructor
    · rintro ⟨x, hx, h⟩; omega
    · rintro ⟨h1, h2⟩; exact ⟨a, by omega, rfl, h2⟩

/-- `C36_biclique_partial` for small sizes. -/
example := C36_biclique_partial 3 4 (by decide) (by decide)

theorem C36_biclique_refuted : ¬ C36_biclique_statement := by
  intro h
  obtain ⟨g, h1, -, h2, -⟩ := h 3 0 (by decide)
  have : (EditDigraph.biclique 3 0).map (fun g => g.contains 0) = .ok false := by decide
  rw [h1] at this
  have h3 := (h2 0).2 (by decide)
  simp only [Except.map, h3] at this
  exact absurd this (by decide)

/-- **C36 (star)**, for at least one leaf: arcs from the centre `0` to the leaves `1..n`.  Missing: `star(0)`
does not contain its centre. -/
theorem C36_star_partial (n : ℕ) (h0 : 0 < n) (h : n + 1 < 2 ^ 32) :
    DGenerates (EditDigraph.star n) (fun u => u ≤ n) (fun u v => u = 0 ∧ 1 ≤ v ∧ v ≤ n) :=
  (C36_biclique_partial 1 n (by omega) (by omega)).congr (fun u => by omega) (fun u v => by omega)

/-- `C36_star_partial` for small sizes. -/
example := C36_star_partial 5 (by decide) (by decide)

theorem C36_star_refuted : ¬ ∀ n, n + 1 < 2 ^ 32 →
    DGenerates (EditDigraph.star n) (fun u => u ≤ n) (fun u v => u = 0 ∧ 1 ≤ v ∧ v ≤ n) := by
  intro h
  obtain ⟨g, h1, -, h2, -⟩ := h 0 (by decide)
  have : (EditDigraph.star 0).map (fun g => g.contains 0) = .ok false := by decide
  rw [h1] at this
  have h3 := (h2 0).2 (by decide)
  simp only [Except.map, h3] at this
  exact absurd this (by decide)

/-- **C36 (grid), full statement**: `s` rows, `t` columns; arcs to the right and downward. -/
def C36_grid_statement : Prop := ∀ s t, s * t < 2 ^ 32 →
  DGenerates (EditDigraph.grid s t) (fun u => u < s * t) (fun u v => u < s * t ∧ v < s * t ∧
    ((v / t = u / t ∧ v % t = u % t + 1) ∨ (v % t = u % t ∧ v / t = u / t + 1)))

theorem EditDigraph.is_grid (s t : ℕ) (h : s * t < 2 ^ 32) : Ok (EditDigraph.grid s t) (fun g => EditDigraph.Is g
    (fun u => u < s * t ∧ s * t ≠ 1)
    (fun u v => u < s * t ∧ v < s * t ∧
      ((v / t = u / t ∧ v % t = u % t + 1) ∨ (v % t = u % t ∧ v / t = u / t + 1)))) := by
  unfold EditDigraph.grid
  simp only [mul32_ok h, bind_ok]
  by_cases h0 : s = 0 ∨ t = 0
  · have : (s == 0 || t == 0) = true := by simpa using h0
    simp only [this, if_true]
    have hst : s * t = 0 := by rcases h0 with rfl | rfl <;> simp
    refine Ok.pure (EditDigraph.Is.new.congr (fun u => ?_) (fun a b => ?_))
    · simp only [false_iff]; omega
    · simp only [false_iff, hst]; omega
  · have hb : (s == 0 || t == 0) = false := by simpa using h0
    have hs : 0 < s := by omega
    have ht : 0 < t := by omega
    simp only [hb, Bool.false_eq_true, if_false]
    have hlt : ∀ y x, y < s → x < t → y * t + x < s * t := by
      intro y x hy hx
      have : (y + 1) * t ≤ s * t := Nat.mul_le_mul_right t hy
      rw [Nat.add_mul] at this
      omega
    have hdiv : ∀ y x, x < t → (y * t + x) / t = y := by
      intro y x hx
      rw [Nat.add_comm, Nat.add_mul_div_right _ _ ht, Nat.div_eq_of_lt hx, Nat.zero_add]
    have hmod : ∀ y x, x < t → (y * t + x) % t = x := by
      intro y x hx
      rw [Nat.add_comm, Nat.add_mul_mod_self_right, Nat.mod_eq_of_lt hx]
    have hdecomp : ∀ u, u < s * t → ∃ y x, y < s ∧ x < t ∧ u = y * t + x := by
      intro u hu
      exact ⟨u / t, u % t, (Nat.div_lt_iff_lt_mul ht).2 hu, Nat.mod_lt _ ht, (Nat.div_add_mod' u t).symm⟩
    refine Ok.bind (EditDigraph.Is.new.fold (l := List.range (s - 1))
      (fun y w => ∃ x < t, w = y * t + x ∨ w = (y + 1) * t + x)
      (fun y a b => (∃ x, x + 1 < t ∧ (a = y * t + x ∧ b = y * t + x + 1))
        ∨ (∃ x < t, a = y * t + x ∧ b = y * t + x + t)) ?_) ?_
    · intro y hy g P R hg
      refine Ok.bind (hg.fold (l := List.range (t - 1))
        (fun x w => w = y * t + x ∨ w = y * t + x + 1 ∨ w = y * t + x + t)
        (fun x a b => (a = y * t + x ∧ b = y * t + x + 1)
          ∨ (a = y * t + x ∧ b = y * t + x + t)) ?_) ?_
      · intro x hx g P R hg
        refine Ok.bind (hg.addArc _ _) fun r hr => ?_
        refine Ok.mono (hr.addArc' _ _) fun g' hg' => hg'.congr ?_ ?_
        · intro w; tauto
        · intro a b; tauto
      · intro g' hg'
        refine Ok.mono (hg'.addArc' _ _) fun g'' hg'' => hg''.congr ?_ ?_
        · intro w
          simp only [List.mem_range]
          have hy1 : (y + 1) * t = y * t + t := by rw [Nat.add_mul, Nat.one_mul]
          rw [hy1]
          constructor
          · rintro ((h | ⟨x, hx, h | h | h⟩) | h | h)
            · exact Or.inl h
            · exact Or.inr ⟨x, by omega, Or.inl h⟩
            · exact Or.inr ⟨x + 1, by omega, Or.inl (by omega)⟩
            · exact Or.inr ⟨x, by omega, Or.inr (by omega)⟩
            · exact Or.inr ⟨t - 1, by omega, Or.inl (by omega)⟩
            · exact Or.inr ⟨t - 1, by omega, Or.inr (by omega)⟩
          · rintro (h | ⟨x, hx, h | h⟩)
            · exact Or.inl (Or.inl h)
            · by_cases hx1 : x = t - 1
              · exact Or.inr (Or.inl (by omega))
              · exact Or.inl (Or.inr ⟨x, by omega, Or.inl h⟩)
            · by_cases hx1 : x = t - 1
              · exact Or.inr (Or.inr (by omega))
              · exact Or.inl (Or.inr ⟨x, by omega, Or.inr (Or.inr (by omega))⟩)
        · intro a b
          simp only [List.mem_range]
          constructor
          · rintro ((h | ⟨x, hx, h | h⟩) | h)
            · exact Or.inl h
            · exact Or.inr (Or.inl ⟨x, by omega, h⟩)
            · exact Or.inr (Or.inr ⟨x, by omega, h⟩)
            · exact Or.inr (Or.inr ⟨t - 1, by omega, by omega⟩)
          · rintro (h | ⟨x, hx, h⟩ | ⟨x, hx, h⟩)
            · exact Or.inl (Or.inl h)
            · exact Or.inl (Or.inr ⟨x, by omega, Or.inl h⟩)
            · by_cases hx1 : x = t - 1
              · exact Or.inr (by omega)
              · exact Or.inl (Or.inr ⟨x, by omega, Or.inr h⟩)
    · intro g hg
      refine Ok.mono (hg.foldAdd (List.range (t - 1)) (fun x => (s - 1) * t + x)
        (fun x => (s - 1) * t + x + 1)) fun g' hg' => hg'.congr ?_ ?_
      · intro w
        simp only [List.mem_range, false_or]
        constructor
        · rintro (⟨y, hy, x, hx, h | h⟩ | ⟨x, hx, h⟩)
          · have h1 := hlt y x (by omega) hx
            have h2 := hlt (y + 1) x (by omega) hx
            have h3 : (y + 1) * t = y * t + t := by rw [Nat.add_mul, Nat.one_mul]
            refine ⟨by omega, by omega⟩
          · have h2 := hlt (y + 1) x (by omega) hx
            have h3 : (y + 1) * t = y * t + t := by rw [Nat.add_mul, Nat.one_mul]
            refine ⟨by omega, by omega⟩
          · have h2 := hlt (s - 1) (x + 1) (by omega) (by omega)
            refine ⟨by omega, by omega⟩
        · rintro ⟨h1, h2⟩
          obtain ⟨y, x, hy, hx, rfl⟩ := hdecomp w h1
          by_cases hy1 : y < s - 1
          · exact Or.inl ⟨y, hy1, x, hx, Or.inl rfl⟩
          · have hys : y = s - 1 := by omega
            subst hys
            by_cases hs1 : s = 1
            · subst hs1
              right
              simp only [Nat.sub_self, Nat.zero_mul, Nat.zero_add, Nat.one_mul] at h2 ⊢
              by_cases hx1 : x < t - 1
              · exact ⟨x, hx1, Or.inl rfl⟩
              · exact ⟨x - 1, by omega, Or.inr (by omega)⟩
            · exact Or.inl ⟨s - 2, by omega, x, hx, Or.inr (by rw [show s - 2 + 1 = s - 1 by omega])⟩
      · intro a b
        simp only [List.mem_range, false_or]
        have hor : ∀ y x, y < s → x + 1 < t → (y * t + x < s * t ∧ y * t + x + 1 < s * t ∧
            (((y * t + x + 1) / t = (y * t + x) / t ∧ (y * t + x + 1) % t = (y * t + x) % t + 1) ∨
            ((y * t + x + 1) % t = (y * t + x) % t ∧ (y * t + x + 1) / t = (y * t + x) / t + 1))) := by
          intro y x hy hx
          have h1 := hlt y (x + 1) hy hx
          have h2 := hdiv y (x + 1) hx
          have h3 := hmod y (x + 1) hx
          rw [← Nat.add_assoc] at h2 h3
          exact ⟨by omega, by omega, Or.inl ⟨by rw [h2, hdiv y x (by omega)], by rw [h3, hmod y x (by omega)]⟩⟩
        have ver : ∀ y x, y + 1 < s → x < t → (y * t + x < s * t ∧ y * t + x + t < s * t ∧
            (((y * t + x + t) / t = (y * t + x) / t ∧ (y * t + x + t) % t = (y * t + x) % t + 1) ∨
            ((y * t + x + t) % t = (y * t + x) % t ∧ (y * t + x + t) / t = (y * t + x) / t + 1))) := by
          intro y x hy hx
          have h1 := hlt (y + 1) x hy hx
          rw [Nat.add_mul, Nat.one_mul] at h1
          exact ⟨by omega, by omega, Or.inr ⟨Nat.add_mod_right _ _, Nat.add_div_right _ ht⟩⟩
        constructor
        · rintro ((⟨y, hy, ⟨x, hx, rfl, rfl⟩ | ⟨x, hx, rfl, rfl⟩⟩) | ⟨x, hx, rfl, rfl⟩)
          · exact hor y x (by omega) hx
          · exact ver y x (by omega) hx
          · exact hor (s - 1) x (by omega) (by omega)
        · rintro ⟨h1, h2, h3⟩
          obtain ⟨y, x, hy, hx, rfl⟩ := hdecomp a h1
          obtain ⟨y', x', hy', hx', rfl⟩ := hdecomp b h2
          rw [hdiv y x hx, hdiv y' x' hx', hmod y x hx, hmod y' x' hx'] at h3
          rcases h3 with ⟨rfl, rfl⟩ | ⟨rfl, rfl⟩
          · by_cases hy1 : y' < s - 1
            · exact Or.inl ⟨y', hy1, Or.inl ⟨x, hx', rfl, by omega⟩⟩
            · have : y' = s - 1 := by omega
              subst this
              exact Or.inr ⟨x, by omega, rfl, by omega⟩
          · exact Or.inl ⟨y, by omega, Or.inr ⟨x', hx, rfl, by rw [Nat.add_mul, Nat.one_mul]; omega⟩⟩

/-- **C36 (grid)**: proved except for the `1 × 1` grid, which is returned without its vertex. -/
theorem C36_grid_partial (s t : ℕ) (h : s * t < 2 ^ 32) (h1 : ¬ (s = 1 ∧ t = 1)) :
    DGenerates (EditDigraph.grid s t) (fun u => u < s * t) (fun u v => u < s * t ∧ v < s * t ∧
      ((v / t = u / t ∧ v % t = u % t + 1) ∨ (v % t = u % t ∧ v / t = u / t + 1))) := by
  refine (DGenerates.of_is (EditDigraph.is_grid s t h)).congr (fun u => ?_) (fun u v => Iff.rfl)
  have : s * t ≠ 1 := fun he => h1 ⟨Nat.eq_one_of_mul_eq_one_right he, Nat.eq_one_of_mul_eq_one_left he⟩
  simp [this]

/-- `C36_grid_partial` for small sizes. -/
example := C36_grid_partial 2 3 (by decide) (by decide)

theorem C36_grid_refuted : ¬ C36_grid_statement := by
  intro h
  obtain ⟨g, h1, -, h2, -⟩ := h 1 1 (by decide)
  have : (EditDigraph.grid 1 1).map (fun g => g.contains 0) = .ok false := by decide
  rw [h1] at this
  have h3 := (h2 0).2 (by decide)
  simp only [Except.map, h3] at this
  exact absurd this (by decide)

example : (EditDigraph.grid 2 3).map (fun g => (g.numVertices, g.numEdges, g.hasArc 1 4, g.hasArc 4 1))
    = .ok (6, 7, true, false) := by decide
example : (2 ≤ 5) ∧ (2 * 5 ≤ 2 ^ 32) ∧ (5 ≠ 1) ∧ ((3 = 0 ↔ 4 = 0) ∧ 3 + 4 < 2 ^ 32) ∧ (0 < 5 ∧ 5 + 1 < 2 ^ 32) ∧
    (2 * 3 < 2 ^ 32 ∧ ¬ (2 = 1 ∧ 3 = 1)) := by decide

/-- **C72.** In- and out-neighbourhoods of a vertex list, and the degree maps. -/
theorem C72_neighbourhoods {g : EditDigraph} (hg : EditDigraph.Reachable g) (σ : Shuffle Vertex) (X : List Vertex)
    (hX : ∀ x ∈ X, g.contains x = true) :
    (∃ s, g.view.outNeighbourhood σ X = .ok s ∧ ∀ v, v ∈ s ↔ v ∉ X ∧ ∃ x ∈ X, g.hasArc x v = true) ∧
    (∃ s, g.view.inNeighbourhood σ X = .ok s ∧ ∀ v, v ∈ s ↔ v ∉ X ∧ ∃ x ∈ X, g.hasArc v x = true) := by
  obtain ⟨S, H⟩ := hg.abs
  simp only [H.contains, decide_eq_true_eq] at hX
  have hmem : ∀ {pre x post}, σ.run (HSet.ofList X).toList = pre ++ x :: post → x ∈ S.V := by
    intro pre x post hl
    refine hX x ?_
    have : x ∈ σ.run (HSet.ofList X).toList := by rw [hl]; simp
    simpa using this
  simp only [H.hasArc, decide_eq_true_eq]
  constructor
  · show Ok (g.view.outNeighbourhood σ X) _
    unfold Digraph.outNeighbourhood
    refine Ok.bind (Ok.foldlM (fun pre (s : HSet Vertex) => ∀ v, v ∈ s ↔ ∃ x ∈ pre, (x, v) ∈ S.A) ?_ ?_) ?_
    · simp
    · intro pre x post s hl hs
      obtain ⟨N, hN, -, hm⟩ := H.outNeighbours (hmem hl)
      have hN' : g.view.outNeighbours x = .ok N := hN
      simp only [hN', bind_ok]
      refine Ok.pure fun v => ?_
      rw [HSet.mem_extend, hs, hm]
      simp only [List.mem_append, List.mem_singleton]
      constructor
      · rintro (⟨y, hy, h⟩ | h)
        · exact ⟨y, Or.inl hy, h⟩
        · exact ⟨x, Or.inr rfl, h⟩
      · rintro ⟨y, hy | rfl, h⟩
        · exact Or.inl ⟨y, hy, h⟩
        · exact Or.inr h
    · intro s hs
      refine Ok.pure fun v => ?_
      rw [HSet.mem_retain, hs]
      simp only [Shuffle.mem, HSet.mem_toList, HSet.mem_ofList, HSet.contains_eq, Bool.not_eq_true',
        decide_eq_false_iff_not]
      exact and_comm
  · show Ok (g.view.inNeighbourhood σ X) _
    unfold Digraph.inNeighbourhood
    refine Ok.bind (Ok.foldlM (fun pre (s : HSet Vertex) => ∀ v, v ∈ s ↔ ∃ x ∈ pre, (v, x) ∈ S.A) ?_ ?_) ?_
    · simp
    · intro pre x post s hl hs
      obtain ⟨N, hN, -, hm⟩ := H.inNeighbours (hmem hl)
      have hN' : g.view.inNeighbours x = .ok N := hN
      simp only [hN', bind_ok]
      refine Ok.pure fun v => ?_
      rw [HSet.mem_extend, hs, hm]
      simp only [List.mem_append, List.mem_singleton]
      constructor
      · rintro (⟨y, hy, h⟩ | h)
        · exact ⟨y, Or.inl hy, h⟩
        · exact ⟨x, Or.inr rfl, h⟩
      · rintro ⟨y, hy | rfl, h⟩
        · exact Or.inl ⟨y, hy, h⟩
        · exact Or.inr h
    · intro s hs
      refine Ok.pure fun v => ?_
      rw [HSet.mem_retain, hs]
      simp only [Shuffle.mem, HSet.mem_toList, HSet.mem_ofList, HSet.contains_eq, Bool.not_eq_true',
        decide_eq_false_iff_not]
      exact and_comm

theorem C72_degree_maps {g : EditDigraph} (hg : EditDigraph.Reachable g) :
    (∃ m, g.view.inDegrees = .ok m ∧ ∀ u, m.get? u = if g.contains u then
      (g.inDegree u).toOption else none) ∧
    (∃ m, g.view.outDegrees = .ok m ∧ ∀ u, m.get? u = if g.contains u then
      (g.outDegree u).toOption else none) := by
  obtain ⟨S, H⟩ := hg.abs
  have key : ∀ (f : Vertex → Res Nat) (d : ℕ → ℕ), (∀ u ∈ S.V, f u = .ok (d u)) →
      Ok (g.vertices.foldlM (fun (res : HMap Vertex Nat) v => do
        let x ← f v
        return res.insert v x) ∅) (fun m => ∀ u, m.get? u = if g.contains u then (f u).toOption else none) := by
    intro f d hf
    refine Ok.mono (Ok.foldlM (fun pre (m : HMap Vertex Nat) => ∀ u, m.get? u = if u ∈ pre then some (d u) else none)
      ?_ ?_) fun m hm u => ?_
    · intro u; simp
    · intro pre v post m hl hm
      have hv : v ∈ S.V := (H.mem_vertices v).1 (by rw [hl]; simp)
      simp only [hf v hv, bind_ok]
      refine Ok.pure fun u => ?_
      rw [HMap.get?_insert, hm]
      by_cases huv : u = v
      · simp [huv]
      · simp [huv]
    · rw [hm, H.contains]
      simp only [H.mem_vertices, decide_eq_true_eq]
      by_cases hu : u ∈ S.V
      · simp [hu, hf u hu, Except.toOption]
      · simp [hu]
  exact ⟨key g.inDegree S.inDeg fun u hu => H.inDegree hu, key g.outDegree S.outDeg fun u hu => H.outDegree hu⟩

example : ∃ g, EditDigraph.Reachable g ∧ (∀ x ∈ [2, 7], g.contains x = true) ∧ g.hasArc 1 2 = true := by
  obtain ⟨g, h1, _, h2, _, h3, _, h4, _⟩ := exDReachable
  refine ⟨g, h1, ?_, h2⟩
  obtain ⟨S, H⟩ := h1.abs
  rw [H.hasArc, decide_eq_true_eq] at h3
  simp only [List.mem_cons, List.not_mem_nil, or_false, forall_eq_or_imp, forall_eq]
  exact ⟨by rw [H.contains]; exact decide_eq_true (S.wf _ h3).1, h4⟩

end Verif
