import Verif.Lemmas.DisjUnion
import Verif.Lemmas.Normalize
import Verif.Model.EditDigraph
import Verif.Spec.DGraph
/-! # Refinement of the `EditDigraph` model to specification digraphs -/
namespace Verif

namespace DGraph
variable {S T : DGraph}

theorem outDeg_of_not_mem {u : ℕ} (hu : u ∉ S.V) : S.outDeg u = 0 := by
  unfold outDeg
  rw [Finset.card_eq_zero, Finset.filter_eq_empty_iff]
  intro e he h
  exact hu (h ▸ (S.wf e he).1)

theorem inDeg_of_not_mem {u : ℕ} (hu : u ∉ S.V) : S.inDeg u = 0 := by
  unfold inDeg
  rw [Finset.card_eq_zero, Finset.filter_eq_empty_iff]
  intro e he h
  exact hu (h ▸ (S.wf e he).2)

theorem outDeg_insert {u v w : ℕ} (hA : T.A = insert (u, v) S.A) (h : (u, v) ∉ S.A) :
    T.outDeg w = S.outDeg w + if w = u then 1 else 0 := by
  unfold outDeg
  rw [hA, Finset.filter_insert]
  by_cases hw : w = u
  · subst hw
    rw [if_pos rfl, if_pos rfl, Finset.card_insert_of_notMem]
    exact fun hc => h (Finset.mem_filter.1 hc).1
  · rw [if_neg (fun hc => hw (by simpa using hc.symm)), if_neg hw]; rfl

theorem inDeg_insert {u v w : ℕ} (hA : T.A = insert (u, v) S.A) (h : (u, v) ∉ S.A) :
    T.inDeg w = S.inDeg w + if w = v then 1 else 0 := by
  unfold inDeg
  rw [hA, Finset.filter_insert]
  by_cases hw : w = v
  · subst hw
    rw [if_pos rfl, if_pos rfl, Finset.card_insert_of_notMem]
    exact fun hc => h (Finset.mem_filter.1 hc).1
  · rw [if_neg (fun hc => hw (by simpa using hc.symm)), if_neg hw]; rfl

theorem outDeg_pos {u v : ℕ} (h : (u, v) ∈ S.A) : 0 < S.outDeg u :=
  Finset.card_pos.2 ⟨(u, v), Finset.mem_filter.2 ⟨h, rfl⟩⟩

theorem inDeg_pos {u v : ℕ} (h : (u, v) ∈ S.A) : 0 < S.inDeg v :=
  Finset.card_pos.2 ⟨(u, v), Finset.mem_filter.2 ⟨h, rfl⟩⟩

theorem mem_filterArcs {p : ℕ × ℕ → Prop} [DecidablePred p] {e : ℕ × ℕ} :
    e ∈ (S.filterArcs p).A ↔ e ∈ S.A ∧ p e := Finset.mem_filter

theorem mem_addArcs_V {l : List (ℕ × ℕ)} {u : ℕ} :
    u ∈ (S.addArcs l).V ↔ u ∈ S.V ∨ ∃ e ∈ l, u = e.1 ∨ u = e.2 := by
  show u ∈ S.V ∪ _ ↔ _
  rw [Finset.mem_union, SGraph.mem_endpoints]

theorem mem_addArcs {l : List (ℕ × ℕ)} {e : ℕ × ℕ} : e ∈ (S.addArcs l).A ↔ e ∈ S.A ∨ e ∈ l := by
  show e ∈ S.A ∪ _ ↔ _
  rw [Finset.mem_union, List.mem_toFinset]

theorem mem_addVertices_V {l : List ℕ} {u : ℕ} : u ∈ (S.addVertices l).V ↔ u ∈ S.V ∨ u ∈ l := by
  show u ∈ S.V ∪ _ ↔ _
  rw [Finset.mem_union, List.mem_toFinset]

theorem ext_iff' (hV : ∀ u, u ∈ S.V ↔ u ∈ T.V) (hA : ∀ a b, (a, b) ∈ S.A ↔ (a, b) ∈ T.A) : S = T :=
  ext (Finset.ext hV) (Finset.ext fun e => hA e.1 e.2)

end DGraph

namespace EditDigraph

/-- Representation invariant: `g` stores the abstract digraph `S`. -/
structure Abs (g : EditDigraph) (S : DGraph) : Prop where
  outNone : ∀ u, u ∉ S.V → g.outAdj.get? u = none
  outSome : ∀ u ∈ S.V, ∃ N, g.outAdj.get? u = some N ∧ ∀ w, w ∈ N ↔ (u, w) ∈ S.A
  inNone : ∀ u, u ∉ S.V → g.inAdj.get? u = none
  inSome : ∀ u ∈ S.V, ∃ N, g.inAdj.get? u = some N ∧ ∀ w, w ∈ N ↔ (w, u) ∈ S.A
  outDegs : ∀ u, g.outDegs.get? u = if u ∈ S.V then some (S.outDeg u) else none
  inDegs : ∀ u, g.inDegs.get? u = if u ∈ S.V then some (S.inDeg u) else none
  m : g.m = S.A.card

variable {g h : EditDigraph} {S T : DGraph}

theorem Abs.mem_keys (H : Abs g S) (u : Vertex) : u ∈ g.outAdj.keys ↔ u ∈ S.V := by
  rw [HMap.mem_keys_iff]
  constructor
  · rintro ⟨a, ha⟩
    by_contra hc
    rw [H.outNone u hc] at ha; cases ha
  · intro hu
    obtain ⟨N, hN, -⟩ := H.outSome u hu
    exact ⟨N, hN⟩

theorem Abs.mem_inKeys (H : Abs g S) (u : Vertex) : u ∈ g.inAdj.keys ↔ u ∈ S.V := by
  rw [HMap.mem_keys_iff]
  constructor
  · rintro ⟨a, ha⟩
    by_contra hc
    rw [H.inNone u hc] at ha; cases ha
  · intro hu
    obtain ⟨N, hN, -⟩ := H.inSome u hu
    exact ⟨N, hN⟩

theorem Abs.contains (H : Abs g S) (u : Vertex) : g.contains u = decide (u ∈ S.V) := by
  rw [Bool.eq_iff_iff, decide_eq_true_iff]
  unfold EditDigraph.contains
  rw [HMap.contains_iff, H.mem_keys]

theorem Abs.hasArc (H : Abs g S) (u v : Vertex) : g.hasArc u v = decide ((u, v) ∈ S.A) := by
  rw [Bool.eq_iff_iff, decide_eq_true_iff]
  unfold EditDigraph.hasArc
  by_cases hu : u ∈ S.V
  · obtain ⟨N, hN, hw⟩ := H.outSome u hu
    rw [hN]; simp only [HSet.contains_iff]; exact hw v
  · rw [H.outNone u hu]
    simp only [Bool.false_eq_true, false_iff]
    exact fun hc => hu (S.wf _ hc).1

theorem Abs.adjacent (H : Abs g S) (u v : Vertex) : g.adjacent u v = decide ((u, v) ∈ S.A) := by
  unfold EditDigraph.adjacent
  rw [Bool.or_self, H.hasArc]

theorem Abs.degree (H : Abs g S) (u : Vertex) : g.degree u = S.inDeg u + S.outDeg u := by
  unfold EditDigraph.degree HMap.getD
  rw [H.inDegs, H.outDegs]
  by_cases hu : u ∈ S.V
  · simp [hu]
  · simp [hu, DGraph.outDeg_of_not_mem hu, DGraph.inDeg_of_not_mem hu]

theorem Abs.inDegree (H : Abs g S) {u : Vertex} (hu : u ∈ S.V) : g.inDegree u = .ok (S.inDeg u) := by
  unfold EditDigraph.inDegree; rw [H.inDegs, if_pos hu]; rfl

theorem Abs.outDegree (H : Abs g S) {u : Vertex} (hu : u ∈ S.V) : g.outDegree u = .ok (S.outDeg u) := by
  unfold EditDigraph.outDegree; rw [H.outDegs, if_pos hu]; rfl

theorem Abs.inDegree_none (H : Abs g S) {u : Vertex} (hu : u ∉ S.V) : g.inDegree u = .error .panic := by
  unfold EditDigraph.inDegree; rw [H.inDegs, if_neg hu]; rfl

theorem Abs.outDegree_none (H : Abs g S) {u : Vertex} (hu : u ∉ S.V) : g.outDegree u = .error .panic := by
  unfold EditDigraph.outDegree; rw [H.outDegs, if_neg hu]; rfl

theorem Abs.numVertices (H : Abs g S) : g.numVertices = S.V.card := HMap.len_of_mem_iff H.mem_keys

theorem Abs.numEdges (H : Abs g S) : g.numEdges = S.A.card := H.m

theorem Abs.vertices_nodup (_ : Abs g S) : g.vertices.Nodup := HMap.keys_nodup

theorem Abs.mem_vertices (H : Abs g S) (u : Vertex) : u ∈ g.vertices ↔ u ∈ S.V := H.mem_keys u

theorem Abs.outNeighbours (H : Abs g S) {u : Vertex} (hu : u ∈ S.V) :
    ∃ l, g.outNeighbours u = .ok l ∧ l.Nodup ∧ ∀ w, w ∈ l ↔ (u, w) ∈ S.A := by
  obtain ⟨N, hN, hw⟩ := H.outSome u hu
  exact ⟨N.toList, by unfold EditDigraph.outNeighbours; rw [hN], N.nodup, hw⟩

theorem Abs.inNeighbours (H : Abs g S) {u : Vertex} (hu : u ∈ S.V) :
    ∃ l, g.inNeighbours u = .ok l ∧ l.Nodup ∧ ∀ w, w ∈ l ↔ (w, u) ∈ S.A := by
  obtain ⟨N, hN, hw⟩ := H.inSome u hu
  exact ⟨N.toList, by unfold EditDigraph.inNeighbours; rw [hN], N.nodup, hw⟩

theorem Abs.outNeighbours_none (H : Abs g S) {u : Vertex} (hu : u ∉ S.V) :
    g.outNeighbours u = .error .panic := by
  unfold EditDigraph.outNeighbours; rw [H.outNone u hu]

theorem Abs.inNeighbours_none (H : Abs g S) {u : Vertex} (hu : u ∉ S.V) :
    g.inNeighbours u = .error .panic := by
  unfold EditDigraph.inNeighbours; rw [H.inNone u hu]

/-- The undirected neighbour list: in-neighbours followed by out-neighbours. -/
theorem Abs.neighbours (H : Abs g S) {u : Vertex} (hu : u ∈ S.V) :
    ∃ l₁ l₂, g.inNeighbours u = .ok l₁ ∧ g.outNeighbours u = .ok l₂ ∧ g.neighbours u = .ok (l₁ ++ l₂) := by
  obtain ⟨N, hN, hw⟩ := H.inSome u hu
  obtain ⟨M, hM, hw⟩ := H.outSome u hu
  refine ⟨N.toList, M.toList, by unfold EditDigraph.inNeighbours; rw [hN],
    by unfold EditDigraph.outNeighbours; rw [hM], ?_⟩
  unfold EditDigraph.neighbours
  simp [H.contains, hu, hN, hM]

theorem Abs.mem_neighbours (H : Abs g S) {u : Vertex} (hu : u ∈ S.V) :
    ∃ l, g.neighbours u = .ok l ∧ ∀ w, w ∈ l ↔ (u, w) ∈ S.A ∨ (w, u) ∈ S.A := by
  obtain ⟨l₁, l₂, h1, h2, h3⟩ := H.neighbours hu
  obtain ⟨l, h4, -, h5⟩ := H.inNeighbours hu
  obtain ⟨l', h6, -, h7⟩ := H.outNeighbours hu
  rw [h1] at h4; cases h4
  rw [h2] at h6; cases h6
  exact ⟨_, h3, fun w => by rw [List.mem_append, h5, h7, or_comm]⟩

theorem Abs.neighbours_none (H : Abs g S) {u : Vertex} (hu : u ∉ S.V) :
    g.neighbours u = .error .panic := by
  unfold EditDigraph.neighbours; simp [H.contains, hu]

/-- The abstract digraph is unique. -/
theorem Abs.unique (H : Abs g S) (H' : Abs g T) : S = T := by
  refine DGraph.ext_iff' (fun u => by rw [← H.mem_keys, H'.mem_keys]) fun u v => ?_
  have h1 := H.hasArc u v
  rw [H'.hasArc u v] at h1
  simpa [eq_comm] using h1

theorem abs_new : Abs new DGraph.empty where
  outNone _ _ := rfl
  outSome u hu := absurd hu (Finset.notMem_empty u)
  inNone _ _ := rfl
  inSome u hu := absurd hu (Finset.notMem_empty u)
  outDegs u := by simp [new, DGraph.empty]
  inDegs u := by simp [new, DGraph.empty]
  m := rfl

theorem Abs.addVertex (H : Abs g S) (u : Vertex) :
    Abs (g.addVertex u).1 (S.addVertices [u]) ∧ (g.addVertex u).2 = decide (u ∉ S.V) := by
  have hc := H.contains u
  unfold EditDigraph.contains at hc
  unfold EditDigraph.addVertex
  by_cases hu : u ∈ S.V
  · simp only [hc, hu, decide_true, Bool.not_true, Bool.false_eq_true, if_false, not_true_eq_false,
      decide_false, and_true]
    have : S.addVertices [u] = S := DGraph.ext (by
      ext x; rw [DGraph.mem_addVertices_V, List.mem_singleton]
      exact ⟨fun h => h.elim id (fun h => h ▸ hu), Or.inl⟩) rfl
    rw [this]; exact H
  · simp only [hc, hu, decide_false, Bool.not_false, if_true, not_false_eq_true, decide_true, and_true]
    have hout : ∀ w, (S.addVertices [u]).outDeg w = S.outDeg w := fun _ => rfl
    have hin : ∀ w, (S.addVertices [u]).inDeg w = S.inDeg w := fun _ => rfl
    refine ⟨?_, ?_, ?_, ?_, ?_, ?_, H.m⟩
    · intro w hw
      rw [DGraph.mem_addVertices_V, List.mem_singleton, not_or] at hw
      simp only
      rw [HMap.get?_insert, if_neg hw.2, H.outNone w hw.1]
    · intro w hw
      simp only
      rw [HMap.get?_insert]
      by_cases hwu : w = u
      · subst hwu
        refine ⟨∅, by simp, fun x => ?_⟩
        simp only [HSet.not_mem_empty, false_iff]
        exact fun hx => hu (S.wf _ hx).1
      · simp only [hwu, if_false]
        rw [DGraph.mem_addVertices_V, List.mem_singleton] at hw
        exact H.outSome w (hw.resolve_right hwu)
    · intro w hw
      rw [DGraph.mem_addVertices_V, List.mem_singleton, not_or] at hw
      simp only
      rw [HMap.get?_insert, if_neg hw.2, H.inNone w hw.1]
    · intro w hw
      simp only
      rw [HMap.get?_insert]
      by_cases hwu : w = u
      · subst hwu
        refine ⟨∅, by simp, fun x => ?_⟩
        simp only [HSet.not_mem_empty, false_iff]
        exact fun hx => hu (S.wf _ hx).2
      · simp only [hwu, if_false]
        rw [DGraph.mem_addVertices_V, List.mem_singleton] at hw
        exact H.inSome w (hw.resolve_right hwu)
    · intro w
      simp only
      rw [HMap.get?_insert, H.outDegs w, hout]
      simp only [DGraph.mem_addVertices_V, List.mem_singleton]
      by_cases hwu : w = u
      · subst hwu; simp [DGraph.outDeg_of_not_mem hu]
      · simp [hwu]
    · intro w
      simp only
      rw [HMap.get?_insert, H.inDegs w, hin]
      simp only [DGraph.mem_addVertices_V, List.mem_singleton]
      by_cases hwu : w = u
      · subst hwu; simp [DGraph.inDeg_of_not_mem hu]
      · simp [hwu]

theorem Abs.addArc (H : Abs g S) (u v : Vertex) :
    Ok (g.addArc u v) (fun r => Abs r.1 (S.addArcs [(u, v)]) ∧ r.2 = decide ((u, v) ∉ S.A)) := by
  have H1 := (H.addVertex u).1
  have H2 := (H1.addVertex v).1
  unfold EditDigraph.addArc
  generalize hg2 : (((g.addVertex u).1).addVertex v).1 = g2 at H2
  generalize hS2 : (S.addVertices [u]).addVertices [v] = S2 at H2
  have hV : ∀ x, x ∈ S2.V ↔ x ∈ S.V ∨ x = u ∨ x = v := fun x => by
    rw [← hS2]; simp [DGraph.mem_addVertices_V, or_assoc]
  have hA : S2.A = S.A := by rw [← hS2]; rfl
  have huV : u ∈ S2.V := by rw [hV]; simp
  have hvV : v ∈ S2.V := by rw [hV]; simp
  have hV' : ∀ x, x ∈ (S.addArcs [(u, v)]).V ↔ x ∈ S2.V := fun x => by
    rw [DGraph.mem_addArcs_V, hV]; simp
  have hA' : ∀ e, e ∈ (S.addArcs [(u, v)]).A ↔ e ∈ S2.A ∨ e = (u, v) := fun e => by
    rw [DGraph.mem_addArcs, hA]; simp
  generalize S.addArcs [(u, v)] = T at hV' hA'
  rw [← hA]
  simp only
  rw [hg2]
  have ha2 := H2.hasArc u v
  by_cases ha : (u, v) ∈ S2.A
  · simp only [ha2, ha, decide_true, Bool.not_true, Bool.false_eq_true, if_false]
    refine Ok.pure ⟨?_, by simp⟩
    have : T = S2 := DGraph.ext_iff' hV' fun a b => by
      rw [hA']; exact ⟨fun h => h.elim id (fun h => h ▸ ha), Or.inl⟩
    rw [this]; exact H2
  · simp only [ha2, ha, decide_false, Bool.not_false, if_true]
    obtain ⟨Nu, hNu, hmu⟩ := H2.outSome u huV
    obtain ⟨Nv, hNv, hmv⟩ := H2.inSome v hvV
    have hdu := H2.outDegs u
    have hdv := H2.inDegs v
    simp only [huV, hvV, if_true] at hdu hdv
    have hins : T.A = insert (u, v) S2.A := by
      ext e; rw [hA', Finset.mem_insert, or_comm]
    simp only [hNu, hNv, hdu, hdv, unwrap_some, bind_ok]
    refine Ok.pure ⟨⟨?_, ?_, ?_, ?_, ?_, ?_, ?_⟩, by simp⟩
    · intro w hw
      rw [hV'] at hw
      have : w ≠ u := fun hc => hw (hc ▸ huV)
      simp [HMap.get?_insert, this, H2.outNone w hw]
    · intro w hw
      rw [hV'] at hw
      simp only [HMap.get?_insert]
      by_cases hwu : w = u
      · subst hwu
        refine ⟨_, by simp; rfl, fun x => ?_⟩
        rw [HSet.mem_insert, hmu, hA']; simp [or_comm]
      · obtain ⟨N, hN, hm⟩ := H2.outSome w hw
        refine ⟨N, by simp [hwu, hN], fun x => ?_⟩
        rw [hm, hA']; simp [hwu]
    · intro w hw
      rw [hV'] at hw
      have : w ≠ v := fun hc => hw (hc ▸ hvV)
      simp [HMap.get?_insert, this, H2.inNone w hw]
    · intro w hw
      rw [hV'] at hw
      simp only [HMap.get?_insert]
      by_cases hwv : w = v
      · subst hwv
        refine ⟨_, by simp; rfl, fun x => ?_⟩
        rw [HSet.mem_insert, hmv, hA']; simp [or_comm]
      · obtain ⟨N, hN, hm⟩ := H2.inSome w hw
        refine ⟨N, by simp [hwv, hN], fun x => ?_⟩
        rw [hm, hA']; simp [hwv]
    · intro w
      rw [DGraph.outDeg_insert hins ha]
      simp only [HMap.get?_insert, hV']
      by_cases hwu : w = u
      · subst hwu; simp [huV]
      · simp [hwu, H2.outDegs w]
    · intro w
      rw [DGraph.inDeg_insert hins ha]
      simp only [HMap.get?_insert, hV']
      by_cases hwv : w = v
      · subst hwv; simp [hvV]
      · simp [hwv, H2.inDegs w]
    · show g2.m + 1 = _
      rw [hins, Finset.card_insert_of_notMem ha, H2.m]

theorem Abs.removeArc (H : Abs g S) (u v : Vertex) :
    Ok (g.removeArc u v) (fun r => Abs r.1 (S.filterArcs (· ≠ (u, v))) ∧ r.2 = decide ((u, v) ∈ S.A)) := by
  unfold EditDigraph.removeArc
  have hadj := H.hasArc u v
  by_cases ha : (u, v) ∈ S.A
  · have huV : u ∈ S.V := (S.wf _ ha).1
    have hvV : v ∈ S.V := (S.wf _ ha).2
    simp only [hadj, ha, decide_true, if_true]
    have hA' : ∀ e, e ∈ (S.filterArcs (· ≠ (u, v))).A ↔ e ∈ S.A ∧ e ≠ (u, v) := fun e => DGraph.mem_filterArcs
    have hV' : (S.filterArcs (· ≠ (u, v))).V = S.V := rfl
    generalize S.filterArcs (· ≠ (u, v)) = T at hV' hA'
    have hT : (u, v) ∉ T.A := by rw [hA']; simp
    have hins : S.A = insert (u, v) T.A := by
      ext e; rw [Finset.mem_insert, hA']
      constructor
      · intro he; by_cases h : e = (u, v)
        · exact Or.inl h
        · exact Or.inr ⟨he, h⟩
      · rintro (rfl | h)
        · exact ha
        · exact h.1
    obtain ⟨Nu, hNu, hmu⟩ := H.outSome u huV
    obtain ⟨Nv, hNv, hmv⟩ := H.inSome v hvV
    have hdu := H.outDegs u
    have hdv := H.inDegs v
    simp only [huV, hvV, if_true] at hdu hdv
    have ho := fun w => DGraph.outDeg_insert (w := w) hins hT
    have hi := fun w => DGraph.inDeg_insert (w := w) hins hT
    have hm : g.m = T.A.card + 1 := by rw [H.m, hins, Finset.card_insert_of_notMem hT]
    have ho1 := ho u
    have hi1 := hi v
    simp only [if_true] at ho1 hi1
    simp only [hNu, hNv, hdu, hdv, unwrap_some, bind_ok, usub_ok (show 1 ≤ S.outDeg u by omega),
      usub_ok (show 1 ≤ S.inDeg v by omega), usub_ok (show 1 ≤ g.m by omega)]
    refine Ok.pure ⟨⟨?_, ?_, ?_, ?_, ?_, ?_, ?_⟩, by simp⟩
    · intro w hw
      rw [hV'] at hw
      have : w ≠ u := fun hc => hw (hc ▸ huV)
      simp [HMap.get?_insert, this, H.outNone w hw]
    · intro w hw
      rw [hV'] at hw
      simp only [HMap.get?_insert]
      by_cases hwu : w = u
      · subst hwu
        refine ⟨_, by simp; rfl, fun x => ?_⟩
        rw [HSet.mem_remove, hmu, hA']; simp [and_comm]
      · obtain ⟨N, hN, hm⟩ := H.outSome w hw
        refine ⟨N, by simp [hwu, hN], fun x => ?_⟩
        rw [hm, hA']; simp [hwu]
    · intro w hw
      rw [hV'] at hw
      have : w ≠ v := fun hc => hw (hc ▸ hvV)
      simp [HMap.get?_insert, this, H.inNone w hw]
    · intro w hw
      rw [hV'] at hw
      simp only [HMap.get?_insert]
      by_cases hwv : w = v
      · subst hwv
        refine ⟨_, by simp; rfl, fun x => ?_⟩
        rw [HSet.mem_remove, hmv, hA']; simp [and_comm]
      · obtain ⟨N, hN, hm⟩ := H.inSome w hw
        refine ⟨N, by simp [hwv, hN], fun x => ?_⟩
        rw [hm, hA']; simp [hwv]
    · intro w
      have := ho w
      simp only [HMap.get?_insert, hV']
      by_cases hwu : w = u
      · subst hwu; simp [huV]; omega
      · simp only [hwu, if_false] at this ⊢
        rw [H.outDegs w, this]; rfl
    · intro w
      have := hi w
      simp only [HMap.get?_insert, hV']
      by_cases hwv : w = v
      · subst hwv; simp [hvV]; omega
      · simp only [hwv, if_false] at this ⊢
        rw [H.inDegs w, this]; rfl
    · show g.m - 1 = _
      omega
  · simp only [hadj, ha, decide_false, Bool.false_eq_true, if_false]
    refine Ok.pure ⟨?_, rfl⟩
    have : S.filterArcs (· ≠ (u, v)) = S := DGraph.ext rfl (Finset.filter_true_of_mem fun e he hc => ha (hc ▸ he))
    rw [this]; exact H

/-- `for x in l { g.remove_arc(f x) }`. -/
theorem Abs.foldRemove (H : Abs g S) (l : List Vertex) (f : Vertex → Edge) :
    Ok (l.foldlM (fun (g : EditDigraph) x => do return (← g.removeArc (f x).1 (f x).2).1) g) (fun r =>
      Abs r (S.filterArcs (· ∉ l.map f))) := by
  refine Ok.foldlM (fun pre (s : EditDigraph) => Abs s (S.filterArcs (· ∉ pre.map f))) ?_ ?_
  · have : S.filterArcs (· ∉ ([] : List Vertex).map f) = S := DGraph.ext rfl (Finset.filter_true_of_mem (by simp))
    rw [this]; exact H
  · intro pre x post g' _ h1
    refine Ok.bind (h1.removeArc (f x).1 (f x).2) ?_
    rintro ⟨g'', b⟩ ⟨h3, -⟩
    refine Ok.pure ?_
    have : (S.filterArcs (· ∉ pre.map f)).filterArcs (· ≠ f x) = S.filterArcs (· ∉ (pre ++ [x]).map f) := by
      refine DGraph.ext rfl ?_
      ext e
      simp only [DGraph.mem_filterArcs, List.map_append, List.map_cons, List.map_nil, List.mem_append,
        List.mem_singleton]
      tauto
    rw [← this]; exact h3

theorem Abs.removeVertex (H : Abs g S) (u : Vertex) :
    Ok (g.removeVertex u) (fun r => Abs r.1 (S.removeVertex u) ∧ r.2 = decide (u ∈ S.V)) := by
  unfold EditDigraph.removeVertex
  have hc := H.contains u
  by_cases hu : u ∈ S.V
  · simp only [hc, hu, decide_true, Bool.not_true, Bool.false_eq_true, if_false]
    obtain ⟨N, hN, hmN⟩ := H.outSome u hu
    simp only [hN, unwrap_some, bind_ok]
    refine Ok.bind (H.foldRemove N.toList (fun v => (u, v))) fun g1 H1 => ?_
    obtain ⟨M, hM, hmM⟩ := H1.inSome u hu
    simp only [hM, unwrap_some, bind_ok]
    refine Ok.bind (H1.foldRemove M.toList (fun v => (v, u))) fun g2 H2 => ?_
    generalize hT : (S.filterArcs (· ∉ N.toList.map (fun v => (u, v)))).filterArcs
      (· ∉ M.toList.map (fun v => (v, u))) = T at H2
    have hA : T.A = S.A.filter (fun e => e.1 ≠ u ∧ e.2 ≠ u) := by
      rw [← hT]
      ext ⟨a, b⟩
      simp only [DGraph.mem_filterArcs, Finset.mem_filter, List.mem_map, Prod.mk.injEq, not_exists, not_and]
      constructor
      · rintro ⟨⟨h1, h2⟩, h3⟩
        have ha : a ≠ u := by
          rintro rfl
          exact h2 b ((hmN b).2 h1) rfl rfl
        refine ⟨h1, ha, ?_⟩
        rintro rfl
        refine h3 a ((hmM a).2 (DGraph.mem_filterArcs.2 ⟨h1, ?_⟩)) rfl rfl
        simp only [List.mem_map, Prod.mk.injEq, not_exists, not_and]
        intro x _ hx; exact absurd hx.symm ha
      · rintro ⟨h1, h2, h3⟩
        exact ⟨⟨h1, fun x _ hx => absurd hx.symm h2⟩, fun x _ _ hx => absurd hx.symm h3⟩
    have hV : T.V = S.V := by rw [← hT]; rfl
    have hAu : ∀ w x, w ≠ u → x ≠ u → ((w, x) ∈ T.A ↔ (w, x) ∈ (S.removeVertex u).A) := by
      intro w x _ _; rw [hA]; rfl
    have hA2 : T.A = (S.removeVertex u).A := hA
    refine Ok.pure ⟨⟨?_, ?_, ?_, ?_, ?_, ?_, ?_⟩, rfl⟩
    · intro w hw
      simp only [HMap.get?_remove]
      by_cases hwu : w = u
      · simp [hwu]
      · simp only [hwu, if_false]
        refine H2.outNone w ?_
        rw [hV]; exact fun hc => hw (Finset.mem_erase.2 ⟨hwu, hc⟩)
    · intro w hw
      have hw := Finset.mem_erase.1 hw
      obtain ⟨M, hM, hx⟩ := H2.outSome w (hV ▸ hw.2)
      exact ⟨M, by simp [HMap.get?_remove, hw.1, hM], fun x => by rw [hx, hA2]⟩
    · intro w hw
      simp only [HMap.get?_remove]
      by_cases hwu : w = u
      · simp [hwu]
      · simp only [hwu, if_false]
        refine H2.inNone w ?_
        rw [hV]; exact fun hc => hw (Finset.mem_erase.2 ⟨hwu, hc⟩)
    · intro w hw
      have hw := Finset.mem_erase.1 hw
      obtain ⟨M, hM, hx⟩ := H2.inSome w (hV ▸ hw.2)
      exact ⟨M, by simp [HMap.get?_remove, hw.1, hM], fun x => by rw [hx, hA2]⟩
    · intro w
      have : w ∈ (S.removeVertex u).V ↔ w ≠ u ∧ w ∈ S.V := Finset.mem_erase
      simp only [HMap.get?_remove, this]
      by_cases hwu : w = u
      · simp [hwu]
      · simp only [hwu, if_false, ne_eq, not_false_eq_true, true_and]
        rw [H2.outDegs, hV]; unfold DGraph.outDeg; rw [hA2]
    · intro w
      have : w ∈ (S.removeVertex u).V ↔ w ≠ u ∧ w ∈ S.V := Finset.mem_erase
      simp only [HMap.get?_remove, this]
      by_cases hwu : w = u
      · simp [hwu]
      · simp only [hwu, if_false, ne_eq, not_false_eq_true, true_and]
        rw [H2.inDegs, hV]; unfold DGraph.inDeg; rw [hA2]
    · show g2.m = _
      rw [H2.m, hA2]
  · simp only [hc, hu, decide_false, Bool.not_false, if_true]
    refine Ok.pure ⟨?_, by simp⟩
    have : S.removeVertex u = S := by
      refine DGraph.ext (Finset.erase_eq_of_notMem hu) (Finset.filter_true_of_mem fun e he => ?_)
      exact ⟨fun hc => hu (hc ▸ (S.wf e he).1), fun hc => hu (hc ▸ (S.wf e he).2)⟩
    rw [this]; exact H

theorem Abs.addVertices (H : Abs g S) (l : List Vertex) :
    Abs (g.addVertices l).1 (S.addVertices l) ∧ (g.addVertices l).2 = (l.toFinset \ S.V).card := by
  unfold EditDigraph.addVertices
  refine foldl_inv (fun pre (s : EditDigraph × Nat) =>
    Abs s.1 (S.addVertices pre) ∧ s.2 = (pre.toFinset \ S.V).card) ?_ ?_
  · have : S.addVertices [] = S := DGraph.ext (by ext x; simp [DGraph.mem_addVertices_V]) rfl
    exact ⟨by rw [this]; exact H, by simp⟩
  · rintro pre u post ⟨g', n⟩ _ ⟨h1, h2⟩
    obtain ⟨h3, h4⟩ := h1.addVertex u
    have : (S.addVertices pre).addVertices [u] = S.addVertices (pre ++ [u]) := DGraph.ext (by
      ext x; simp [DGraph.mem_addVertices_V, or_assoc]) rfl
    refine ⟨by rw [← this]; exact h3, ?_⟩
    simp only at h2 h4 ⊢
    rw [h4]
    have hV : u ∈ (S.addVertices pre).V ↔ u ∈ S.V ∨ u ∈ pre := DGraph.mem_addVertices_V
    have hset : (pre ++ [u]).toFinset = insert u pre.toFinset := by
      ext x; simp
    rw [hset]
    by_cases hu : u ∈ S.V
    · rw [Finset.insert_sdiff_of_mem _ hu]; simp [hV, hu, h2]
    · rw [Finset.insert_sdiff_of_notMem _ hu]
      by_cases hp : u ∈ pre
      · have : u ∈ pre.toFinset \ S.V := by simp [hp, hu]
        rw [Finset.insert_eq_of_mem this]; simp [hV, hp, h2]
      · have : u ∉ pre.toFinset \ S.V := by simp [hp]
        rw [Finset.card_insert_of_notMem this]; simp [hV, hp, hu, h2]

theorem _root_.Verif.DGraph.addArcs_nil : S.addArcs [] = S :=
  DGraph.ext_iff' (by simp [DGraph.mem_addArcs_V]) (by simp [DGraph.mem_addArcs])

theorem _root_.Verif.DGraph.addArcs_append {l l' : List (ℕ × ℕ)} :
    (S.addArcs l).addArcs l' = S.addArcs (l ++ l') := by
  refine DGraph.ext_iff' (fun u => ?_) (by simp [DGraph.mem_addArcs, or_assoc])
  simp only [DGraph.mem_addArcs_V, List.mem_append]
  constructor
  · rintro ((h | ⟨e, he, h⟩) | ⟨e, he, h⟩)
    · exact Or.inl h
    · exact Or.inr ⟨e, Or.inl he, h⟩
    · exact Or.inr ⟨e, Or.inr he, h⟩
  · rintro (h | ⟨e, he | he, h⟩)
    · exact Or.inl (Or.inl h)
    · exact Or.inl (Or.inr ⟨e, he, h⟩)
    · exact Or.inr ⟨e, he, h⟩

theorem Abs.addArcs (H : Abs g S) (l : List Edge) :
    Ok (g.addArcs l) (fun r => Abs r.1 (S.addArcs l) ∧ r.2 = (l.toFinset \ S.A).card) := by
  unfold EditDigraph.addArcs
  refine Ok.foldlM (fun pre (s : EditDigraph × Nat) =>
    Abs s.1 (S.addArcs pre) ∧ s.2 = (pre.toFinset \ S.A).card) ?_ ?_
  · exact ⟨by rw [DGraph.addArcs_nil]; exact H, by simp⟩
  · rintro pre e post ⟨g', n⟩ _ ⟨h1, h2⟩
    refine Ok.bind (h1.addArc e.1 e.2) ?_
    rintro ⟨g'', b⟩ ⟨h3, h4⟩
    refine Ok.pure ⟨by rw [← DGraph.addArcs_append]; exact h3, ?_⟩
    simp only at h2 h4 ⊢
    rw [h4]
    have hset : (pre ++ [e]).toFinset = insert e pre.toFinset := by
      ext x; simp
    have hE : (e.1, e.2) ∈ (S.addArcs pre).A ↔ e ∈ S.A ∨ e ∈ pre := DGraph.mem_addArcs
    rw [hset]
    by_cases hu : e ∈ S.A
    · rw [Finset.insert_sdiff_of_mem _ hu]; simp [hE, hu, h2]
    · rw [Finset.insert_sdiff_of_notMem _ hu]
      by_cases hp : e ∈ pre
      · have : e ∈ pre.toFinset \ S.A := by simp [hp, hu]
        rw [Finset.insert_eq_of_mem this]; simp [hE, hp, h2]
      · have : e ∉ pre.toFinset \ S.A := by simp [hp]
        rw [Finset.card_insert_of_notMem this]; simp [hE, hp, hu, h2]

theorem Abs.removeLoops (H : Abs g S) :
    Ok g.removeLoops (fun r => Abs r.1 (S.filterArcs (fun e => e.1 ≠ e.2)) ∧
      r.2 = (S.A.filter (fun e => e.1 = e.2)).card) := by
  unfold EditDigraph.removeLoops
  simp only
  set cands := g.vertices.filter (fun u => g.adjacent u u) with hc
  have hcm : ∀ u, u ∈ cands ↔ (u, u) ∈ S.A := by
    intro u
    rw [hc, List.mem_filter, H.mem_vertices, H.adjacent]
    simp only [decide_eq_true_eq]
    exact ⟨And.right, fun h => ⟨(S.wf _ h).1, h⟩⟩
  have hcn : cands.Nodup := H.vertices_nodup.filter _
  refine Ok.bind (H.foldRemove cands (fun u => (u, u))) fun g' H' => Ok.pure ⟨?_, ?_⟩
  · have : S.filterArcs (· ∉ cands.map (fun u => (u, u))) = S.filterArcs (fun e => e.1 ≠ e.2) := by
      refine DGraph.ext rfl (Finset.filter_congr ?_)
      rintro ⟨a, b⟩ he
      simp only [List.mem_map, Prod.mk.injEq, not_exists, not_and]
      constructor
      · rintro h rfl; exact h a ((hcm a).2 he) rfl rfl
      · rintro h x _ rfl; exact h
    rw [← this]; exact H'
  · show cands.length = _
    rw [← List.toFinset_card_of_nodup hcn]
    apply Finset.card_bij (fun u _ => (u, u))
    · intro u hu
      rw [List.mem_toFinset, hcm] at hu
      rw [Finset.mem_filter]; exact ⟨hu, rfl⟩
    · intro a _ b _ hab
      exact (Prod.mk.inj hab).1
    · rintro ⟨a, b⟩ he
      rw [Finset.mem_filter] at he
      have hab : a = b := he.2
      subst hab
      exact ⟨a, by rw [List.mem_toFinset, hcm]; exact he.1, rfl⟩

theorem mem_isolated {u : ℕ} : u ∈ S.isolated ↔ u ∈ S.V ∧ S.inDeg u + S.outDeg u = 0 := by
  unfold DGraph.isolated DGraph.inDeg DGraph.outDeg
  rw [Finset.mem_filter, Nat.add_eq_zero_iff, Finset.card_eq_zero, Finset.card_eq_zero,
    Finset.filter_eq_empty_iff, Finset.filter_eq_empty_iff]
  refine and_congr_right fun _ => ⟨fun h => ⟨fun e he => (h e he).2, fun e he => (h e he).1⟩,
    fun h e he => ⟨h.2 he, h.1 he⟩⟩

theorem Abs.removeIsolates (H : Abs g S) :
    Ok g.removeIsolates (fun r => Abs r.1 S.removeIsolates ∧ r.2 = S.isolated.card) := by
  unfold EditDigraph.removeIsolates
  simp only
  set cands := g.vertices.filter (fun u => g.degree u == 0) with hc
  have hcm : ∀ u, u ∈ cands ↔ u ∈ S.isolated := by
    intro u
    rw [hc, List.mem_filter, H.mem_vertices, H.degree, mem_isolated]
    simp
  have hcn : cands.Nodup := H.vertices_nodup.filter _
  refine Ok.bind (Ok.foldlM (fun pre (g' : EditDigraph) => ∃ T, Abs g' T ∧ T.V = S.V \ pre.toFinset ∧
      T.A = S.A) ?_ ?_) ?_
  · exact ⟨S, H, by simp, rfl⟩
  · rintro pre u post g' hl ⟨T, hT, hV, hA⟩
    refine Ok.bind (hT.removeVertex u) ?_
    rintro ⟨g'', b⟩ ⟨h3, -⟩
    have hu : u ∈ S.isolated := (hcm u).1 (by rw [hl]; simp)
    refine Ok.pure ⟨_, h3, ?_, ?_⟩
    · show T.V.erase u = _
      rw [hV]
      ext x; simp only [Finset.mem_erase, Finset.mem_sdiff, List.mem_toFinset, List.mem_append,
        List.mem_singleton]; tauto
    · show T.A.filter _ = _
      rw [hA]
      apply Finset.filter_true_of_mem
      intro e he
      unfold DGraph.isolated at hu
      exact (Finset.mem_filter.1 hu).2 e he
  · rintro g' ⟨T, hT, hV, hA⟩
    have hcs : cands.toFinset = S.isolated := by ext u; rw [List.mem_toFinset, hcm]
    refine Ok.pure ⟨?_, ?_⟩
    · have : T = S.removeIsolates := by
        refine DGraph.ext ?_ hA
        rw [hV, hcs]; rfl
      rw [← this]; exact hT
    · show cands.length = _
      rw [← List.toFinset_card_of_nodup hcn, hcs]

theorem Abs.call (H : Abs g S) (c : Call) :
    Ok (g.call c) (fun r => Abs r.1 (S.step c) ∧ r.2 = S.ret c) := by
  cases c with
  | addVertex u => exact Ok.pure ⟨(H.addVertex u).1, by simp only [(H.addVertex u).2]; rfl⟩
  | removeVertex u =>
    exact Ok.bind (H.removeVertex u) fun r hr => Ok.pure ⟨hr.1, by simp only [hr.2]; rfl⟩
  | addEdge u v => exact Ok.bind (H.addArc u v) fun r hr => Ok.pure ⟨hr.1, by simp only [hr.2]; rfl⟩
  | removeEdge u v =>
    exact Ok.bind (H.removeArc u v) fun r hr => Ok.pure ⟨hr.1, by simp only [hr.2]; rfl⟩
  | addVertices l => exact Ok.pure ⟨(H.addVertices l).1, by simp only [(H.addVertices l).2]; rfl⟩
  | addEdges l => exact Ok.bind (H.addArcs l) fun r hr => Ok.pure ⟨hr.1, by simp only [hr.2]; rfl⟩
  | removeLoops => exact Ok.bind H.removeLoops fun r hr => Ok.pure ⟨hr.1, by simp only [hr.2]; rfl⟩
  | removeIsolates => exact Ok.bind H.removeIsolates fun r hr => Ok.pure ⟨hr.1, by simp only [hr.2]; rfl⟩

theorem Abs.relayout (H : Abs g S) (hl : Relayout g h) : Abs h S where
  outNone u hu := by
    have h1 := H.outNone u hu
    rw [HMap.get?_eq_none] at h1 ⊢
    exact fun hc => h1 (hl.outKeys.mem_iff.1 hc)
  outSome u hu := by
    obtain ⟨N, hN, hm⟩ := H.outSome u hu
    obtain ⟨N', hN', hp⟩ := hl.outSets u N hN
    exact ⟨N', hN', fun w => by rw [HSet.mem_def, hp.mem_iff]; exact hm w⟩
  inNone u hu := by
    have h1 := H.inNone u hu
    rw [HMap.get?_eq_none] at h1 ⊢
    exact fun hc => h1 (hl.inKeys.mem_iff.1 hc)
  inSome u hu := by
    obtain ⟨N, hN, hm⟩ := H.inSome u hu
    obtain ⟨N', hN', hp⟩ := hl.inSets u N hN
    exact ⟨N', hN', fun w => by rw [HSet.mem_def, hp.mem_iff]; exact hm w⟩
  outDegs u := by rw [HMap.get?_perm hl.outDegs, H.outDegs]
  inDegs u := by rw [HMap.get?_perm hl.inDegs, H.inDegs]
  m := by rw [hl.m, H.m]

theorem Abs.run {lay : Nat → EditDigraph → EditDigraph} (hlay : ∀ i g, Relayout g (lay i g))
    (cs : List Call) : ∀ (i : Nat) {g : EditDigraph} {S : DGraph}, Abs g S →
      Ok (EditDigraph.run lay i cs g) (fun r => Abs r.1 (S.run cs) ∧ r.2 = S.rets cs) := by
  induction cs with
  | nil => intro i g S H; exact Ok.pure ⟨H.relayout (hlay i g), rfl⟩
  | cons c cs ih =>
    intro i g S H
    unfold EditDigraph.run
    refine Ok.bind ((H.relayout (hlay i g)).call c) fun r hr => ?_
    refine Ok.bind (ih (i + 1) hr.1) fun r' hr' => ?_
    refine Ok.pure ⟨hr'.1, ?_⟩
    simp only [hr.2, hr'.2]
    rfl

theorem Reachable.abs (h : Reachable g) : ∃ S, Abs g S := by
  induction h with
  | new => exact ⟨_, abs_new⟩
  | call _ hc ih =>
    obtain ⟨S, H⟩ := ih
    obtain ⟨r, hr, H', -⟩ := H.call _
    rw [hc] at hr
    cases hr
    exact ⟨_, H'⟩
  | relayout _ hl ih =>
    obtain ⟨S, H⟩ := ih
    exact ⟨S, H.relayout hl⟩

theorem Abs.relayout_of (H : Abs g S) (H' : Abs h S) : Relayout g h := by
  have key : ∀ {κ α : Type} [DecidableEq κ] (m m' : HMap κ α), (∀ k, m.get? k = m'.get? k) →
      m.entries.Perm m'.entries := by
    intro κ α _ m m' hm
    rw [List.perm_ext_iff_of_nodup m.nodup.of_map m'.nodup.of_map]
    rintro ⟨k, a⟩
    rw [← HMap.get?_eq_some, ← HMap.get?_eq_some, hm]
  refine ⟨by rw [H.m, H'.m], key _ _ fun k => by rw [H.outDegs, H'.outDegs],
    key _ _ fun k => by rw [H.inDegs, H'.inDegs], ?_, ?_, ?_, ?_⟩
  · rw [List.perm_ext_iff_of_nodup HMap.keys_nodup HMap.keys_nodup]
    intro u; rw [H.mem_keys, H'.mem_keys]
  · rw [List.perm_ext_iff_of_nodup HMap.keys_nodup HMap.keys_nodup]
    intro u; rw [H.mem_inKeys, H'.mem_inKeys]
  · intro u N hN
    have hu : u ∈ S.V := by
      by_contra hc
      rw [H.outNone u hc] at hN; cases hN
    obtain ⟨N₁, h1, h2⟩ := H.outSome u hu
    obtain ⟨N₂, h3, h4⟩ := H'.outSome u hu
    rw [hN] at h1
    cases h1
    exact ⟨N₂, h3, HSet.perm_of_mem_iff fun a => by rw [h4, h2]⟩
  · intro u N hN
    have hu : u ∈ S.V := by
      by_contra hc
      rw [H.inNone u hc] at hN; cases hN
    obtain ⟨N₁, h1, h2⟩ := H.inSome u hu
    obtain ⟨N₂, h3, h4⟩ := H'.inSome u hu
    rw [hN] at h1
    cases h1
    exact ⟨N₂, h3, HSet.perm_of_mem_iff fun a => by rw [h4, h2]⟩

/-- The representation invariant characterises exactly the reachable states. -/
theorem Abs.reachable (H : Abs g S) : Reachable g := by
  let c1 : Call := .addVertices S.V.toList
  let c2 : Call := .addEdges S.A.toList
  obtain ⟨⟨g1, r1⟩, e1, H1, -⟩ := abs_new.call c1
  obtain ⟨⟨g2, r2⟩, e2, H2, -⟩ := H1.call c2
  have hS : (DGraph.empty.step c1).step c2 = S := by
    refine DGraph.ext_iff' (fun u => ?_) (fun a b => ?_)
    · show u ∈ ((DGraph.empty.addVertices _).addArcs _).V ↔ _
      rw [DGraph.mem_addArcs_V, DGraph.mem_addVertices_V]
      simp only [Finset.mem_toList, DGraph.empty, Finset.notMem_empty, false_or]
      constructor
      · rintro (h | ⟨e, he, rfl | rfl⟩)
        · exact h
        · exact (S.wf e he).1
        · exact (S.wf e he).2
      · exact Or.inl
    · show (a, b) ∈ ((DGraph.empty.addVertices _).addArcs _).A ↔ _
      rw [DGraph.mem_addArcs]
      simp [DGraph.addVertices, DGraph.empty]
  have H2' : Abs g2 S := by rw [hS] at H2; exact H2
  exact .relayout (.call (.call .new e1) e2) (H2'.relayout_of H)

/-- Equality test. -/
theorem Abs.eq_iff (H : Abs g S) (H' : Abs h T) : g.eq h = true ↔ S = T := by
  constructor
  · intro he
    unfold EditDigraph.eq at he
    split at he
    · cases he
    · split at he
      · cases he
      · split at he
        · cases he
        · rw [HMap.eqv_iff] at he
          have hV : ∀ u, u ∈ S.V ↔ u ∈ T.V := by
            intro u
            have := he u
            by_cases h1 : u ∈ S.V <;> by_cases h2 : u ∈ T.V
            · simp [h1, h2]
            · obtain ⟨N, hN, -⟩ := H.outSome u h1
              rw [hN, H'.outNone u h2] at this
              exact this.elim
            · obtain ⟨N, hN, -⟩ := H'.outSome u h2
              rw [hN, H.outNone u h1] at this
              exact this.elim
            · simp [h1, h2]
          refine DGraph.ext_iff' hV fun u v => ?_
          have := he u
          by_cases h1 : u ∈ S.V
          · obtain ⟨N, hN, hm⟩ := H.outSome u h1
            obtain ⟨N', hN', hm'⟩ := H'.outSome u ((hV u).1 h1)
            rw [hN, hN'] at this
            simp only at this
            rw [HSet.eqv_iff] at this
            rw [← hm, ← hm', this]
          · exact ⟨fun hh => absurd (S.wf _ hh).1 h1, fun hh => absurd ((hV u).2 (T.wf _ hh).1) h1⟩
  · rintro rfl
    unfold EditDigraph.eq
    have h3 : g.outDegs.eqv (· == ·) h.outDegs = true := by
      rw [HMap.eqv_iff]
      intro k
      rw [H.outDegs, H'.outDegs]
      by_cases hk : k ∈ S.V <;> simp [hk]
    have h4 : g.outAdj.eqv HSet.eqv h.outAdj = true := by
      rw [HMap.eqv_iff]
      intro k
      by_cases hk : k ∈ S.V
      · obtain ⟨N, hN, hm⟩ := H.outSome k hk
        obtain ⟨N', hN', hm'⟩ := H'.outSome k hk
        rw [hN, hN']
        simp only
        rw [HSet.eqv_iff]
        intro a; rw [hm, hm']
      · rw [H.outNone k hk, H'.outNone k hk]; trivial
    simp [H.numVertices, H'.numVertices, H.numEdges, H'.numEdges, h3, h4]

/-! ### Digraphs described by predicates -/

/-- `h` stores the digraph with vertex predicate `P` and arc relation `R`. -/
def Is (h : EditDigraph) (P : ℕ → Prop) (R : ℕ → ℕ → Prop) : Prop :=
  ∃ S, Abs h S ∧ (∀ u, u ∈ S.V ↔ P u) ∧ (∀ a b, (a, b) ∈ S.A ↔ R a b)

namespace Is
variable {h : EditDigraph} {P P' : ℕ → Prop} {R R' : ℕ → ℕ → Prop}

theorem congr (H : Is h P R) (hP : ∀ u, P u ↔ P' u) (hR : ∀ a b, R a b ↔ R' a b) : Is h P' R' := by
  obtain ⟨S, h1, h2, h3⟩ := H
  exact ⟨S, h1, fun u => (h2 u).trans (hP u), fun a b => (h3 a b).trans (hR a b)⟩

theorem abs_of {S : DGraph} (H : Is h P R) (hP : ∀ u, P u ↔ u ∈ S.V) (hR : ∀ a b, R a b ↔ (a, b) ∈ S.A) :
    Abs h S := by
  obtain ⟨T, h1, h2, h3⟩ := H
  have : T = S := DGraph.ext_iff' (fun u => by rw [h2, hP]) fun a b => by rw [h3, hR]
  rw [← this]; exact h1

theorem contains (H : Is h P R) (u : Vertex) : h.contains u = true ↔ P u := by
  obtain ⟨S, h1, h2, h3⟩ := H
  rw [h1.contains, decide_eq_true_eq, h2]

theorem hasArc (H : Is h P R) (u v : Vertex) : h.hasArc u v = true ↔ R u v := by
  obtain ⟨S, h1, h2, h3⟩ := H
  rw [h1.hasArc, decide_eq_true_eq, h3]

theorem reachable (H : Is h P R) : Reachable h := by
  obtain ⟨S, h1, -⟩ := H; exact h1.reachable

theorem new : Is new (fun _ => False) (fun _ _ => False) :=
  ⟨_, abs_new, by simp [DGraph.empty], by simp [DGraph.empty]⟩

theorem addVertices (H : Is h P R) (l : List Vertex) :
    Is (h.addVertices l).1 (fun w => P w ∨ w ∈ l) R := by
  obtain ⟨S, h1, h2, h3⟩ := H
  exact ⟨_, (h1.addVertices l).1, fun w => by rw [DGraph.mem_addVertices_V, h2], fun a b => h3 a b⟩

theorem addVertex (H : Is h P R) (u : Vertex) : Is (h.addVertex u).1 (fun w => P w ∨ w = u) R := by
  obtain ⟨S, h1, h2, h3⟩ := H
  exact ⟨_, (h1.addVertex u).1, fun w => by rw [DGraph.mem_addVertices_V, h2, List.mem_singleton], fun a b => h3 a b⟩

theorem addArc (H : Is h P R) (u v : Vertex) : Ok (h.addArc u v) (fun r =>
    Is r.1 (fun w => P w ∨ w = u ∨ w = v) (fun a b => R a b ∨ (a = u ∧ b = v))) := by
  obtain ⟨S, h1, h2, h3⟩ := H
  refine Ok.mono (h1.addArc u v) fun r hr => ⟨_, hr.1, fun w => ?_, fun a b => ?_⟩
  · rw [DGraph.mem_addArcs_V, h2]; simp
  · rw [DGraph.mem_addArcs, h3]; simp

theorem addArc' (H : Is h P R) (u v : Vertex) :
    Ok (do return (← h.addArc u v).1 : Res EditDigraph) (fun r =>
    Is r (fun w => P w ∨ w = u ∨ w = v) (fun a b => R a b ∨ (a = u ∧ b = v))) :=
  Ok.bind (H.addArc u v) fun _ hr => Ok.pure hr

theorem addArcs (H : Is h P R) (l : List Edge) : Ok (h.addArcs l) (fun r =>
    Is r.1 (fun w => P w ∨ ∃ e ∈ l, w = e.1 ∨ w = e.2) (fun a b => R a b ∨ (a, b) ∈ l)) := by
  obtain ⟨S, h1, h2, h3⟩ := H
  refine Ok.mono (h1.addArcs l) fun r hr => ⟨_, hr.1, fun w => ?_, fun a b => ?_⟩
  · rw [DGraph.mem_addArcs_V, h2]
  · rw [DGraph.mem_addArcs, h3]

/-- General build loop: each round adds vertices `p x` and arcs `r x`. -/
theorem fold (H : Is h P R) {α : Type} {l : List α} {f : EditDigraph → α → Res EditDigraph}
    (p : α → ℕ → Prop) (r : α → ℕ → ℕ → Prop)
    (hf : ∀ x ∈ l, ∀ (g : EditDigraph) (P : ℕ → Prop) (R : ℕ → ℕ → Prop), Is g P R →
      Ok (f g x) (fun g' => Is g' (fun w => P w ∨ p x w) (fun a b => R a b ∨ r x a b))) :
    Ok (l.foldlM f h) (fun g' => Is g' (fun w => P w ∨ ∃ x ∈ l, p x w) (fun a b => R a b ∨ ∃ x ∈ l, r x a b)) := by
  refine Ok.foldlM (fun pre g' => Is g' (fun w => P w ∨ ∃ x ∈ pre, p x w)
    (fun a b => R a b ∨ ∃ x ∈ pre, r x a b)) ?_ ?_
  · exact H.congr (by simp) (by simp)
  · intro pre x post g hl hg
    refine Ok.mono (hf x (by simp [hl]) g _ _ hg) fun g' hg' => hg'.congr ?_ ?_
    · intro w
      simp only [List.mem_append, List.mem_singleton]
      constructor
      · rintro ((h | ⟨y, hy, h⟩) | h)
        · exact Or.inl h
        · exact Or.inr ⟨y, Or.inl hy, h⟩
        · exact Or.inr ⟨x, Or.inr rfl, h⟩
      · rintro (h | ⟨y, (hy | rfl), h⟩)
        · exact Or.inl (Or.inl h)
        · exact Or.inl (Or.inr ⟨y, hy, h⟩)
        · exact Or.inr h
    · intro a b
      simp only [List.mem_append, List.mem_singleton]
      constructor
      · rintro ((h | ⟨y, hy, h⟩) | h)
        · exact Or.inl h
        · exact Or.inr ⟨y, Or.inl hy, h⟩
        · exact Or.inr ⟨x, Or.inr rfl, h⟩
      · rintro (h | ⟨y, (hy | rfl), h⟩)
        · exact Or.inl (Or.inl h)
        · exact Or.inl (Or.inr ⟨y, hy, h⟩)
        · exact Or.inr h

/-- `for x in l { h.add_arc(f₁(x), f₂(x)) }`. -/
theorem foldAdd (H : Is h P R) {α : Type} (l : List α) (f₁ f₂ : α → Vertex) :
    Ok (l.foldlM (fun (g : EditDigraph) x => do return (← g.addArc (f₁ x) (f₂ x)).1) h) (fun r =>
      Is r (fun w => P w ∨ ∃ x ∈ l, w = f₁ x ∨ w = f₂ x)
        (fun a b => R a b ∨ ∃ x ∈ l, a = f₁ x ∧ b = f₂ x)) :=
  H.fold (fun x w => w = f₁ x ∨ w = f₂ x) (fun x a b => a = f₁ x ∧ b = f₂ x)
    fun x _ _ _ _ hg => hg.addArc' (f₁ x) (f₂ x)

end Is

/-! ### Clone, collecting -/

theorem Abs.clone (H : Abs g S) : Ok g.clone (fun h => Abs h S) := by
  unfold EditDigraph.clone
  refine Ok.mono (Is.new.fold (fun v w => w = v ∨ (v, w) ∈ S.A) (fun v a b => a = v ∧ (v, b) ∈ S.A) ?_)
    fun h hh => hh.abs_of ?_ ?_
  · intro v hv k P R hk
    obtain ⟨l, h1, -, h3⟩ := H.outNeighbours ((H.mem_vertices v).1 hv)
    simp only [h1, bind_ok]
    refine Ok.mono ((hk.addVertex v).foldAdd l (fun _ => v) (fun u => u)) fun r hr => hr.congr ?_ ?_
    · intro w
      simp only [h3]
      constructor
      · rintro ((h | h) | ⟨x, hx, h | rfl⟩)
        · exact Or.inl h
        · exact Or.inr (Or.inl h)
        · exact Or.inr (Or.inl h)
        · exact Or.inr (Or.inr hx)
      · rintro (h | h | h)
        · exact Or.inl (Or.inl h)
        · exact Or.inl (Or.inr h)
        · exact Or.inr ⟨w, h, Or.inr rfl⟩
    · intro a b
      simp only [h3]
      constructor
      · rintro (h | ⟨x, hx, rfl, rfl⟩)
        · exact Or.inl h
        · exact Or.inr ⟨rfl, hx⟩
      · rintro (h | ⟨rfl, h⟩)
        · exact Or.inl h
        · exact Or.inr ⟨b, h, rfl, rfl⟩
  · intro u
    simp only [false_or, H.mem_vertices]
    constructor
    · rintro ⟨x, hx, rfl | h⟩
      · exact hx
      · exact (S.wf _ h).2
    · intro hu; exact ⟨u, hu, Or.inl rfl⟩
  · intro a b
    simp only [false_or, H.mem_vertices]
    constructor
    · rintro ⟨x, hx, rfl, h⟩; exact h
    · intro h; exact ⟨a, (S.wf _ h).1, rfl, h⟩

theorem is_fromIter (l : List Edge) : Ok (fromIter l) (fun h => Is h (fun w => ∃ e ∈ l, w = e.1 ∨ w = e.2)
    (fun a b => (a, b) ∈ l)) := by
  unfold fromIter
  refine Ok.mono (Is.new.foldAdd l (fun e => e.1) (fun e => e.2)) fun h hh => hh.congr (by simp) fun a b => ?_
  simp only [false_or]
  constructor
  · rintro ⟨e, he, rfl, rfl⟩; exact he
  · intro h; exact ⟨_, h, rfl, rfl⟩

/-! ### Arc iterator -/

/-- Arcs contributed by a list of vertices, given their out-neighbour lists. -/
def arcsOf (N : Vertex → List Vertex) (vs : List Vertex) : List Edge :=
  vs.flatMap (fun v => (N v).map (fun u => (v, u)))

theorem arcs_drains_from {D : Digraph} {N : Vertex → List Vertex} :
    ∀ (l : List Edge) (rest : List Vertex) (v : Vertex) (it : List Vertex),
      (∀ w ∈ rest, D.outNeighbours w = .ok (N w)) → l = it.map (fun u => (v, u)) ++ arcsOf N rest →
      Drains (ArcIter.next D) ⟨rest, some v, some it⟩ l := by
  have key : ∀ (rest : List Vertex) (v : Vertex) (it : List Vertex),
      (∀ w ∈ rest, D.outNeighbours w = .ok (N w)) →
      (it.map (fun u => (v, u)) ++ arcsOf N rest = [] ∧ ArcIter.nextFrom D rest v it = .ok none) ∨
      ∃ e v' it' rest', ArcIter.nextFrom D rest v it = .ok (some (e, ⟨rest', some v', some it'⟩)) ∧
        (∀ w ∈ rest', D.outNeighbours w = .ok (N w)) ∧
        it.map (fun u => (v, u)) ++ arcsOf N rest = e :: (it'.map (fun u => (v', u)) ++ arcsOf N rest') := by
    intro rest
    induction rest with
    | nil =>
      intro v it hN
      cases it with
      | nil => left; exact ⟨rfl, by simp [ArcIter.nextFrom]⟩
      | cons u it => right; exact ⟨(v, u), v, it, [], by simp [ArcIter.nextFrom], by simp, rfl⟩
    | cons w rest ih =>
      intro v it hN
      cases it with
      | nil =>
        unfold ArcIter.nextFrom
        simp only [hN w (by simp), bind_ok]
        exact ih w (N w) fun x hx => hN x (by simp [hx])
      | cons u it => right; exact ⟨(v, u), v, it, w :: rest, by simp [ArcIter.nextFrom], hN, rfl⟩
  intro l
  induction l with
  | nil =>
    intro rest v it hN hl
    rcases key rest v it hN with h | ⟨e, v', it', rest', _, _, h⟩
    · exact .done h.2
    · rw [← hl] at h; cases h
  | cons e l ih =>
    intro rest v it hN hl
    rcases key rest v it hN with h | ⟨e', v', it', rest', h1, h2, h3⟩
    · rw [← hl] at h; cases h.1
    · rw [← hl] at h3
      injection h3 with h3 h4
      subst h3
      exact .step h1 (ih rest' v' it' h2 h4)

theorem arcs_drains {D : Digraph} {N : Vertex → List Vertex}
    (hN : ∀ w ∈ D.vertices, D.outNeighbours w = .ok (N w)) :
    ∃ s, ArcIter.new D = .ok s ∧ Drains (ArcIter.next D) s (arcsOf N D.vertices) := by
  unfold ArcIter.new ArcIter.advance
  cases hv : D.vertices with
  | nil => exact ⟨_, rfl, .done rfl⟩
  | cons v rest =>
    rw [hv] at hN
    simp only [hN v (by simp), bind_ok, pure_eq_ok]
    exact ⟨_, rfl, arcs_drains_from _ rest v (N v) (fun w hw => hN w (by simp [hw])) rfl⟩

theorem mem_arcsOf {N : Vertex → List Vertex} {vs : List Vertex} {a b : Vertex} :
    (a, b) ∈ arcsOf N vs ↔ a ∈ vs ∧ b ∈ N a := by
  unfold arcsOf
  simp only [List.mem_flatMap, List.mem_map, Prod.mk.injEq]
  constructor
  · rintro ⟨v, hv, u, hu, rfl, rfl⟩; exact ⟨hv, hu⟩
  · rintro ⟨ha, hb⟩; exact ⟨a, ha, b, hb, rfl, rfl⟩

theorem nodup_arcsOf {N : Vertex → List Vertex} {vs : List Vertex} (hv : vs.Nodup)
    (hN : ∀ v ∈ vs, (N v).Nodup) : (arcsOf N vs).Nodup := by
  unfold arcsOf
  rw [List.nodup_flatMap]
  constructor
  · intro v hvv
    exact (hN v hvv).map fun a b h => (Prod.mk.inj h).2
  · refine hv.imp ?_
    intro a b hab
    rw [Function.onFun, List.disjoint_left]
    intro e he he'
    simp only [List.mem_map] at he he'
    obtain ⟨_, _, rfl⟩ := he
    obtain ⟨_, _, h⟩ := he'
    exact hab (Prod.mk.inj h).1.symm

theorem Abs.arcs (H : Abs g S) : ∃ s l, ArcIter.new g.view = .ok s ∧ Drains (ArcIter.next g.view) s l ∧
    l.Nodup ∧ ∀ e, e ∈ l ↔ e ∈ S.A := by
  classical
  have : ∀ u, ∃ l : List Vertex, u ∈ S.V → g.outNeighbours u = .ok l ∧ l.Nodup ∧ ∀ w, w ∈ l ↔ (u, w) ∈ S.A := by
    intro u
    by_cases hu : u ∈ S.V
    · obtain ⟨l, hl⟩ := H.outNeighbours hu
      exact ⟨l, fun _ => hl⟩
    · exact ⟨[], fun h => absurd h hu⟩
  choose N hN using this
  have hm : ∀ w, w ∈ g.view.vertices ↔ w ∈ S.V := H.mem_vertices
  obtain ⟨s, h1, h2⟩ := arcs_drains (D := g.view) (N := N) fun w hw => (hN w ((hm w).1 hw)).1
  refine ⟨s, _, h1, h2, nodup_arcsOf H.vertices_nodup fun v hv => (hN v ((hm v).1 hv)).2.1, ?_⟩
  rintro ⟨a, b⟩
  rw [mem_arcsOf, hm]
  constructor
  · rintro ⟨ha, hb⟩; exact ((hN a ha).2.2 b).1 hb
  · intro h; exact ⟨(S.wf _ h).1, ((hN a (S.wf _ h).1).2.2 b).2 h⟩

/-- `edges()` on a digraph: pairs `a ≤ b` joined by an arc in some direction (both directions may repeat it). -/
theorem Abs.edges (H : Abs g S) : ∃ l, g.view.toGraph.edges = .ok l ∧
    ∀ a b, (a, b) ∈ l ↔ a ≤ b ∧ ((a, b) ∈ S.A ∨ (b, a) ∈ S.A) := by
  classical
  have : ∀ u, ∃ l : List Vertex, u ∈ S.V → g.neighbours u = .ok l ∧ ∀ w, w ∈ l ↔ (u, w) ∈ S.A ∨ (w, u) ∈ S.A := by
    intro u
    by_cases hu : u ∈ S.V
    · obtain ⟨l, hl⟩ := H.mem_neighbours hu
      exact ⟨l, fun _ => hl⟩
    · exact ⟨[], fun h => absurd h hu⟩
  choose N hN using this
  have hm : ∀ w, w ∈ g.view.toGraph.vertices ↔ w ∈ S.V := H.mem_vertices
  obtain ⟨h1, -⟩ := edges_drains (G := g.view.toGraph) (N := N) fun w hw => (hN w ((hm w).1 hw)).1
  refine ⟨_, h1, fun a b => ?_⟩
  rw [mem_edgesOf, hm]
  constructor
  · rintro ⟨ha, hb, hle⟩; exact ⟨hle, ((hN a ha).2 b).1 hb⟩
  · rintro ⟨hle, h⟩
    have ha : a ∈ S.V := h.elim (fun h => (S.wf _ h).1) (fun h => (S.wf _ h).2)
    exact ⟨ha, ((hN a ha).2 b).2 h, hle⟩

/-! ### Disjoint union, normalization -/

/-- What `disj_union`/`normalize` need to know about a graph argument: its vertices and its edge list. -/
structure _root_.Verif.Graph.Lists (G : Graph) (P : ℕ → Prop) (R : ℕ → ℕ → Prop) : Prop where
  vmem : ∀ u, u ∈ G.vertices ↔ P u
  edges : ∃ l, G.edges = .ok l ∧ ∀ a b, (a, b) ∈ l ↔ a ≤ b ∧ R a b
  left : ∀ a b, R a b → P a ∧ P b

theorem Abs.lists (H : Abs g S) : g.view.toGraph.Lists (· ∈ S.V) (fun a b => (a, b) ∈ S.A ∨ (b, a) ∈ S.A) :=
  ⟨H.mem_vertices, H.edges, fun _ _ h => h.elim (fun h => S.wf _ h) (fun h => (S.wf _ h).symm)⟩

theorem _root_.Verif.Graph.Rep.lists {G : Graph} {T : SGraph} (H : G.Rep T) : G.Lists (· ∈ T.V) T.Adj := by
  obtain ⟨l, h1, h2, -⟩ := H.edges
  exact ⟨H.vmem, ⟨l, h1, h2.mem⟩, fun _ _ h => ⟨h.left, h.right⟩⟩

/-- One more than the largest id, 0 for the empty digraph. -/
def offsetOf (S : DGraph) : ℕ := S.V.sup (· + 1)

theorem lt_offsetOf {u : ℕ} (hu : u ∈ S.V) : u < offsetOf S :=
  Nat.lt_of_succ_le (Finset.le_sup (f := (· + 1)) hu)

theorem Abs.unionOffset (H : Abs g S) (hS : offsetOf S < 2 ^ 32) : g.unionOffset = .ok (offsetOf S) := by
  unfold EditDigraph.unionOffset
  cases h : g.vertices.max? with
  | none =>
    rw [List.max?_eq_none_iff] at h
    have : S.V = ∅ := by
      ext u
      rw [← H.mem_vertices, h]; simp
    simp [offsetOf, this]
  | some x =>
    obtain ⟨h1, h2⟩ := List.max?_eq_some_iff.1 h
    have hx := lt_offsetOf ((H.mem_vertices x).1 h1)
    have : offsetOf S = x + 1 := by
      refine le_antisymm (Finset.sup_le fun u hu => ?_) hx
      exact Nat.succ_le_succ (h2 u ((H.mem_vertices u).2 hu))
    rw [this] at hS ⊢
    exact add32_ok hS

theorem Abs.disjUnion (H : Abs g S) {G : Graph} {P : ℕ → Prop} {R : ℕ → ℕ → Prop} (HG : G.Lists P R)
    (hS : offsetOf S < 2 ^ 32) (hT : ∀ v, P v → v + offsetOf S < 2 ^ 32) :
    Ok (g.disjUnion G) (fun h => Is h (fun u => u ∈ S.V ∨ ∃ v, P v ∧ u = v + offsetOf S)
      (fun a b => (a ≤ b ∧ ((a, b) ∈ S.A ∨ (b, a) ∈ S.A)) ∨
        ∃ x y, x ≤ y ∧ R x y ∧ a = x + offsetOf S ∧ b = y + offsetOf S)) := by
  unfold EditDigraph.disjUnion
  rw [H.unionOffset hS]
  generalize offsetOf S = k at hS hT
  obtain ⟨es, hes, hm⟩ := H.edges
  obtain ⟨fs, hfs, hfm⟩ := HG.edges
  have hvs : G.vertices.mapM (fun v => add32 v k) = .ok (G.vertices.map (· + k)) :=
    EditGraph.mapM_ok fun v hv => add32_ok (hT v ((HG.vmem v).1 hv))
  have hfs' : fs.mapM (fun e => do return ((← add32 e.1 k), (← add32 e.2 k)) : Edge → Res Edge)
      = .ok (fs.map (fun e => (e.1 + k, e.2 + k))) := by
    refine EditGraph.mapM_ok fun e he => ?_
    have := HG.left _ _ ((hfm e.1 e.2).1 he).2
    rw [add32_ok (hT _ this.1), add32_ok (hT _ this.2)]
    rfl
  simp only [bind_ok, hes, hfs]
  refine Ok.bind ((Is.new.addVertices g.vertices).addArcs es) fun r hr => ?_
  simp only [hvs, hfs', bind_ok]
  refine Ok.bind ((hr.addVertices _).addArcs _) fun r' hr' => Ok.pure (hr'.congr ?_ ?_)
  · intro u
    simp only [H.mem_vertices, List.mem_map, false_or, HG.vmem]
    constructor
    · rintro (((h | ⟨e, he, h⟩) | ⟨v, hv, rfl⟩) | ⟨_, ⟨e, he, rfl⟩, h⟩)
      · exact Or.inl h
      · have := ((hm e.1 e.2).1 he).2
        have : e.1 ∈ S.V ∧ e.2 ∈ S.V := this.elim (fun h => S.wf _ h) (fun h => (S.wf _ h).symm)
        rcases h with rfl | rfl
        · exact Or.inl this.1
        · exact Or.inl this.2
      · exact Or.inr ⟨v, hv, rfl⟩
      · have := HG.left _ _ ((hfm e.1 e.2).1 he).2
        rcases h with rfl | rfl
        · exact Or.inr ⟨_, this.1, rfl⟩
        · exact Or.inr ⟨_, this.2, rfl⟩
    · rintro (h | ⟨v, hv, rfl⟩)
      · exact Or.inl (Or.inl (Or.inl h))
      · exact Or.inl (Or.inr ⟨v, hv, rfl⟩)
  · intro a b
    simp only [List.mem_map, false_or, Prod.mk.injEq, hm]
    refine or_congr_right ⟨?_, ?_⟩
    · rintro ⟨e, he, rfl, rfl⟩
      exact ⟨e.1, e.2, ((hfm _ _).1 he).1, ((hfm _ _).1 he).2, rfl, rfl⟩
    · rintro ⟨x, y, h1, h2, rfl, rfl⟩
      exact ⟨(x, y), (hfm _ _).2 ⟨h1, h2⟩, rfl, rfl⟩

theorem Abs.normalize (H : Abs g S) (σ : Shuffle (Vertex × Vertex)) :
    Ok (g.normalize σ) (fun r => (∀ i v, r.2.get? i = some v ↔ (EditGraph.sortIds g.vertices)[i]? = some v) ∧
      Is r.1 (fun i => i < S.V.card) (fun i j => ∃ u v, (EditGraph.sortIds g.vertices)[i]? = some u ∧
        (EditGraph.sortIds g.vertices)[j]? = some v ∧ u ≤ v ∧ ((u, v) ∈ S.A ∨ (v, u) ∈ S.A))) := by
  unfold EditDigraph.normalize
  have hnd := EditGraph.nodup_sortIds H.vertices_nodup
  have hinv : ∀ (i v : Vertex), _ ↔ _ := fun i v => EditGraph.get?_enum_inv hnd σ (i := i) (v := v)
  set order := EditGraph.sortIds g.vertices with horder
  have hlen : order.length = S.V.card := by
    rw [horder, EditGraph.length_sortIds, ← H.numVertices]
    exact (HMap.len_eq_length_keys).symm
  have hmem : ∀ u : ℕ, u ∈ S.V ↔ ∃ i : ℕ, order[i]? = some u := by
    intro (u : ℕ)
    rw [← H.mem_vertices, ← EditGraph.mem_sortIds, ← horder, List.mem_iff_getElem?]
  have hlt : ∀ i : ℕ, i < S.V.card ↔ ∃ u, order[i]? = some u := by
    intro i
    rw [← hlen, ← Option.isSome_iff_exists]
    simp
  set vex2id := (HMap.ofList ((σ.run (HMap.ofList (order.zipIdx.map (fun p => (p.2, p.1))) :
    HMap Vertex Vertex).entries).map (fun p => (p.2, p.1))) : HMap Vertex Vertex) with hv2i
  obtain ⟨es, hes, hm⟩ := H.edges
  have hends : ∀ e ∈ es, e.1 ∈ S.V ∧ e.2 ∈ S.V := fun e he =>
    ((hm e.1 e.2).1 he).2.elim (fun h => S.wf _ h) (fun h => (S.wf _ h).symm)
  have key : ∀ {a b : ℕ} {x : Vertex}, order[b]? = some x → (order[a]? = some x ↔ a = b) := by
    intro a b x hb
    refine ⟨fun h => ?_, fun h => h ▸ hb⟩
    exact (List.getElem?_inj (List.getElem?_eq_some_iff.1 h).1 hnd).1 (h.trans hb.symm)
  refine Ok.bind (Is.new.fold (fun u i => order[i]? = some u) (fun _ _ _ => False) ?_) fun h hh => ?_
  · intro u hu k P R hk
    obtain ⟨i, hi⟩ := (hmem u).1 ((H.mem_vertices u).1 hu)
    rw [(hinv i u).2 hi]
    simp only [unwrap_some, bind_ok]
    refine Ok.pure ((hk.addVertex i).congr (fun w => ?_) (by simp))
    rw [key hi]
  · simp only [hes, bind_ok]
    refine Ok.bind (hh.fold (fun e i => order[i]? = some e.1 ∨ order[i]? = some e.2)
      (fun e i j => order[i]? = some e.1 ∧ order[j]? = some e.2)
      ?_) fun h' hh' => Ok.pure ⟨fun i v => EditGraph.get?_enum, hh'.congr ?_ ?_⟩
    · intro e he k P R hk
      obtain ⟨i, hi⟩ := (hmem e.1).1 (hends e he).1
      obtain ⟨j, hj⟩ := (hmem e.2).1 (hends e he).2
      rw [(hinv i e.1).2 hi, (hinv j e.2).2 hj]
      simp only [unwrap_some, bind_ok]
      refine Ok.mono (hk.addArc' i j) fun k' hk' => hk'.congr (fun w => ?_) (fun a b => ?_)
      · rw [key hi, key hj]
      · rw [key hi, key hj]
    · intro i
      rw [hlt]
      simp only [false_or]
      constructor
      · rintro (⟨u, hu, h⟩ | ⟨e, he, h | h⟩) <;> exact ⟨_, h⟩
      · rintro ⟨u, hu⟩
        exact Or.inl ⟨u, (H.mem_vertices u).2 ((hmem u).2 ⟨i, hu⟩), hu⟩
    · intro i j
      simp only [and_false, exists_false, or_false, false_or]
      constructor
      · rintro ⟨e, he, h1, h2⟩
        exact ⟨_, _, h1, h2, (hm _ _).1 he⟩
      · rintro ⟨u, v, h1, h2, h3⟩
        exact ⟨(u, v), (hm u v).2 h3, h1, h2⟩

end EditDigraph
end Verif
