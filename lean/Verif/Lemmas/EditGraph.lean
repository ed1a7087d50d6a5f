import Verif.Lemmas.Basic
import Verif.Lemmas.SGraph
import Verif.Model.EditGraph
/-! # Refinement of the `EditGraph` model to specification graphs -/
namespace Verif

/-- A `Graph` record answers all queries as the abstract graph `S` does. -/
structure Graph.Rep (G : Graph) (S : SGraph) : Prop where
  nv : G.numVertices = S.V.card
  ne : G.numEdges = S.E.card
  contains : ∀ u, G.contains u = true ↔ u ∈ S.V
  adjacent : ∀ u v, G.adjacent u v = .ok (decide (S.Adj u v))
  degree : ∀ u ∈ S.V, G.degree u = .ok (S.deg u)
  vnodup : G.vertices.Nodup
  vmem : ∀ u, u ∈ G.vertices ↔ u ∈ S.V
  nbrs : ∀ u ∈ S.V, ∃ l, G.neighbours u = .ok l ∧ l.Nodup ∧ ∀ w, w ∈ l ↔ S.Adj u w

/-- The vertex list and the neighbour lists are those of `S`; neighbours may be listed more than once (as for digraphs). -/
structure Graph.Sees (G : Graph) (S : SGraph) : Prop where
  vnodup : G.vertices.Nodup
  vmem : ∀ u, u ∈ G.vertices ↔ u ∈ S.V
  nbrs : ∀ u ∈ S.V, ∃ l, G.neighbours u = .ok l ∧ ∀ w, w ∈ l ↔ S.Adj u w
  nv : G.numVertices = S.V.card
  short : ∀ u ∈ S.V, ∀ l, G.neighbours u = .ok l → l.length ≤ 2 * S.V.card

namespace EditGraph

/-- Representation invariant: `g` stores the abstract graph `S`. -/
structure Abs (g : EditGraph) (S : SGraph) : Prop where
  adjNone : ∀ u, u ∉ S.V → g.adj.get? u = none
  adjSome : ∀ u ∈ S.V, ∃ N, g.adj.get? u = some N ∧ ∀ w, w ∈ N ↔ S.Adj u w
  degs : ∀ u, g.degs.get? u = if u ∈ S.V then some (S.deg u) else none
  m : g.m = S.E.card

variable {g h : EditGraph} {S T : SGraph}

theorem Abs.mem_keys (H : Abs g S) (u : Vertex) : u ∈ g.adj.keys ↔ u ∈ S.V := by
  rw [HMap.mem_keys_iff]
  constructor
  · rintro ⟨a, ha⟩
    by_contra hc
    rw [H.adjNone u hc] at ha; cases ha
  · intro hu
    obtain ⟨N, hN, -⟩ := H.adjSome u hu
    exact ⟨N, hN⟩

theorem Abs.contains (H : Abs g S) (u : Vertex) : g.contains u = decide (u ∈ S.V) := by
  rw [Bool.eq_iff_iff, decide_eq_true_iff]
  unfold EditGraph.contains
  rw [HMap.contains_iff, H.mem_keys]

theorem Abs.adjacent (H : Abs g S) (u v : Vertex) : g.adjacent u v = decide (S.Adj u v) := by
  rw [Bool.eq_iff_iff, decide_eq_true_iff]
  unfold EditGraph.adjacent
  by_cases hu : u ∈ S.V
  · obtain ⟨N, hN, hw⟩ := H.adjSome u hu
    rw [hN]; simp only [HSet.contains_iff]; exact hw v
  · rw [H.adjNone u hu]
    simp only [Bool.false_eq_true, false_iff]
    exact fun hc => hu hc.left

theorem Abs.degree (H : Abs g S) (u : Vertex) : g.degree u = S.deg u := by
  unfold EditGraph.degree HMap.getD
  rw [H.degs]
  by_cases hu : u ∈ S.V
  · simp [hu]
  · simp [hu, SGraph.deg_of_not_mem hu]

theorem Abs.numVertices (H : Abs g S) : g.numVertices = S.V.card := HMap.len_of_mem_iff H.mem_keys

theorem Abs.numEdges (H : Abs g S) : g.numEdges = S.E.card := H.m

theorem Abs.vertices_nodup (_ : Abs g S) : g.vertices.Nodup := HMap.keys_nodup

theorem Abs.mem_vertices (H : Abs g S) (u : Vertex) : u ∈ g.vertices ↔ u ∈ S.V := H.mem_keys u

theorem Abs.neighbours (H : Abs g S) {u : Vertex} (hu : u ∈ S.V) :
    ∃ l, g.neighbours u = .ok l ∧ l.Nodup ∧ ∀ w, w ∈ l ↔ S.Adj u w := by
  obtain ⟨N, hN, hw⟩ := H.adjSome u hu
  exact ⟨N.toList, by unfold EditGraph.neighbours; rw [hN], N.nodup, hw⟩

theorem Abs.neighbours_none (H : Abs g S) {u : Vertex} (hu : u ∉ S.V) :
    g.neighbours u = .error .panic := by
  unfold EditGraph.neighbours; rw [H.adjNone u hu]

theorem Abs.rep (H : Abs g S) : g.view.Rep S where
  nv := H.numVertices
  ne := H.numEdges
  contains u := by show g.contains u = true ↔ _; rw [H.contains]; simp
  adjacent u v := by show Except.ok (g.adjacent u v) = _; rw [H.adjacent]
  degree u _ := by show Except.ok (g.degree u) = _; rw [H.degree]
  vnodup := H.vertices_nodup
  vmem := H.mem_vertices
  nbrs u hu := H.neighbours hu

/-- The abstract graph is unique. -/
theorem Abs.unique (H : Abs g S) (H' : Abs g T) : S = T := by
  refine SGraph.ext_adj ?_ ?_
  · ext u; rw [← H.mem_keys, H'.mem_keys]
  · intro u v
    have h1 := H.adjacent u v
    rw [H'.adjacent u v] at h1
    simpa [eq_comm] using h1

theorem abs_new : Abs new SGraph.empty where
  adjNone _ _ := rfl
  adjSome u hu := absurd hu (Finset.notMem_empty u)
  degs u := by simp [new]
  m := rfl

theorem Abs.addVertex (H : Abs g S) (u : Vertex) :
    Abs (g.addVertex u).1 (S.addVertex u) ∧ (g.addVertex u).2 = decide (u ∉ S.V) := by
  have hc := H.contains u
  unfold EditGraph.contains at hc
  unfold EditGraph.addVertex
  by_cases hu : u ∈ S.V
  · simp only [hc, hu, decide_true, Bool.not_true, Bool.false_eq_true, if_false, not_true_eq_false,
      decide_false, and_true]
    rw [SGraph.addVertex_of_mem hu]; exact H
  · simp only [hc, hu, decide_false, Bool.not_false, if_true, not_false_eq_true, decide_true, and_true]
    refine ⟨?_, ?_, ?_, ?_⟩
    · intro w hw
      simp only [SGraph.addVertex_V, Finset.mem_insert, not_or] at hw
      rw [HMap.get?_insert, if_neg hw.1, H.adjNone w hw.2]
    · intro w hw
      rw [HMap.get?_insert]
      by_cases hwu : w = u
      · subst hwu
        refine ⟨∅, by simp, fun x => ?_⟩
        rw [SGraph.addVertex_adj]
        simp only [HSet.not_mem_empty, false_iff]
        exact fun hx => hu hx.left
      · simp only [hwu, if_false]
        have hw' : w ∈ S.V := by
          simp only [SGraph.addVertex_V, Finset.mem_insert] at hw
          exact hw.resolve_left hwu
        obtain ⟨N, hN, hm⟩ := H.adjSome w hw'
        exact ⟨N, hN, fun x => by rw [SGraph.addVertex_adj]; exact hm x⟩
    · intro w
      rw [HMap.get?_insert, H.degs w, SGraph.deg_addVertex]
      by_cases hwu : w = u
      · subst hwu
        simp [SGraph.deg_of_not_mem hu]
      · simp [hwu]
    · exact H.m

theorem addVertex_addVertex_adj {u v a b : ℕ} : ((S.addVertex u).addVertex v).Adj a b ↔ S.Adj a b := by
  rw [SGraph.addVertex_adj, SGraph.addVertex_adj]

theorem Abs.addEdge (H : Abs g S) (u v : Vertex) :
    Ok (g.addEdge u v) (fun r => Abs r.1 (S.addEdge u v) ∧ r.2 = decide (¬ S.Adj u v)) := by
  have H1 := (H.addVertex u).1
  have H2 := (H1.addVertex v).1
  unfold EditGraph.addEdge
  generalize hg2 : (((g.addVertex u).1).addVertex v).1 = g2 at H2
  generalize hS2 : (S.addVertex u).addVertex v = S2 at H2
  have huV : u ∈ S2.V := by rw [← hS2]; simp
  have hvV : v ∈ S2.V := by rw [← hS2]; simp
  have hadj : ∀ a b, S2.Adj a b ↔ S.Adj a b := fun a b => by rw [← hS2]; exact addVertex_addVertex_adj
  have hSe : S2.addEdge u v = S.addEdge u v := by
    rw [← hS2]; refine SGraph.ext ?_ rfl
    ext x; simp only [SGraph.addEdge_V, SGraph.addVertex_V, Finset.mem_insert]; tauto
  simp only
  rw [hg2]
  have hadj2 := H2.adjacent u v
  by_cases ha : S2.Adj u v
  · simp only [hadj2, ha, decide_true, Bool.not_true, Bool.false_eq_true, if_false]
    refine Ok.pure ⟨?_, by simp [(hadj u v).1 ha]⟩
    rw [← hSe, SGraph.addEdge_of_mem ha]; exact H2
  · simp only [hadj2, ha, decide_false, Bool.not_false, if_true]
    obtain ⟨Nu, hNu, hmu⟩ := H2.adjSome u huV
    obtain ⟨Nv, hNv, hmv⟩ := H2.adjSome v hvV
    have hdu := H2.degs u
    have hdv := H2.degs v
    simp only [huV, hvV, if_true] at hdu hdv
    have hV2 : (S2.addEdge u v).V = S2.V := by
      simp [Finset.insert_eq_of_mem, huV, hvV]
    simp only [hNu, unwrap_some, bind_ok, HMap.get?_insert, hdu]
    by_cases huv : v = u
    · subst huv
      simp only [if_true, unwrap_some, bind_ok, pure_eq_ok]
      refine Ok.pure ⟨?_, by simp [← hadj, ha]⟩
      rw [← hSe]
      refine ⟨?_, ?_, ?_, ?_⟩
      · intro w hw
        rw [hV2] at hw
        have : w ≠ v := fun hc => hw (hc ▸ hvV)
        simp [HMap.get?_insert, this, H2.adjNone w hw]
      · intro w hw
        rw [hV2] at hw
        simp only [HMap.get?_insert]
        by_cases hwu : w = v
        · subst hwu
          refine ⟨_, by simp; rfl, fun x => ?_⟩
          rw [HSet.mem_insert, HSet.mem_insert, hmu, SGraph.addEdge_adj]; simp
        · obtain ⟨N, hN, hm⟩ := H2.adjSome w hw
          refine ⟨N, by simp [hwu, hN], fun x => ?_⟩
          rw [hm, SGraph.addEdge_adj]; simp [hwu]
      · intro w
        rw [hV2, SGraph.deg_addEdge ha]
        simp only [HMap.get?_insert]
        by_cases hwu : w = v
        · subst hwu; simp [hvV]
        · simp [hwu, H2.degs w]
      · show g2.m + 1 = _
        rw [SGraph.card_addEdge ha, H2.m]
    · simp only [huv, if_false, hNv, unwrap_some, bind_ok, hdv, pure_eq_ok]
      refine Ok.pure ⟨?_, by simp [← hadj, ha]⟩
      rw [← hSe]
      refine ⟨?_, ?_, ?_, ?_⟩
      · intro w hw
        rw [hV2] at hw
        have h1 : w ≠ v := fun hc => hw (hc ▸ hvV)
        have h2 : w ≠ u := fun hc => hw (hc ▸ huV)
        simp [HMap.get?_insert, h1, h2, H2.adjNone w hw]
      · intro w hw
        rw [hV2] at hw
        simp only [HMap.get?_insert]
        by_cases hwv : w = v
        · subst hwv
          refine ⟨_, by simp; rfl, fun x => ?_⟩
          rw [HSet.mem_insert, hmv, SGraph.addEdge_adj]; simp [huv]
        · by_cases hwu : w = u
          · subst hwu
            refine ⟨_, by simp [hwv]; rfl, fun x => ?_⟩
            rw [HSet.mem_insert, hmu, SGraph.addEdge_adj]; simp [hwv]
          · obtain ⟨N, hN, hm⟩ := H2.adjSome w hw
            refine ⟨N, by simp [hwu, hwv, hN], fun x => ?_⟩
            rw [hm, SGraph.addEdge_adj]; simp [hwu, hwv]
      · intro w
        rw [hV2, SGraph.deg_addEdge ha]
        simp only [HMap.get?_insert]
        by_cases hwv : w = v
        · subst hwv; simp [hvV, huv]
        · by_cases hwu : w = u
          · subst hwu; simp [huV, hwv]
          · simp [hwu, hwv, H2.degs w]
      · show g2.m + 1 = _
        rw [SGraph.card_addEdge ha, H2.m]

theorem Abs.removeEdge (H : Abs g S) (u v : Vertex) :
    Ok (g.removeEdge u v) (fun r => Abs r.1 (S.removeEdge u v) ∧ r.2 = decide (S.Adj u v)) := by
  unfold EditGraph.removeEdge
  have hadj := H.adjacent u v
  by_cases ha : S.Adj u v
  · have huV := ha.left
    have hvV := ha.right
    simp only [hadj, ha, decide_true, if_true]
    obtain ⟨Nu, hNu, hmu⟩ := H.adjSome u huV
    obtain ⟨Nv, hNv, hmv⟩ := H.adjSome v hvV
    have hdu := H.degs u
    have hdv := H.degs v
    simp only [huV, hvV, if_true] at hdu hdv
    have hm1 : 1 ≤ g.m := by rw [H.m]; have := SGraph.card_removeEdge ha; omega
    have hmm : g.m - 1 = (S.removeEdge u v).E.card := by
      rw [H.m]; have := SGraph.card_removeEdge ha; omega
    have hdeg := fun w => SGraph.deg_removeEdge (w := w) ha
    simp only [hNu, unwrap_some, bind_ok, HMap.get?_insert, hdu]
    by_cases huv : v = u
    · subst huv
      have h1 := hdeg v
      simp only [if_true] at h1
      simp only [if_true, unwrap_some, bind_ok, pure_eq_ok,
        usub_ok (show 1 ≤ S.deg v by omega), usub_ok (show 1 ≤ S.deg v - 1 by omega), usub_ok hm1]
      refine Ok.pure ⟨⟨?_, ?_, ?_, ?_⟩, rfl⟩
      · intro w hw
        have : w ≠ v := fun hc => hw (hc ▸ hvV)
        simp [HMap.get?_insert, this, H.adjNone w hw]
      · intro w hw
        simp only [HMap.get?_insert]
        by_cases hwu : w = v
        · subst hwu
          refine ⟨_, by simp; rfl, fun x => ?_⟩
          rw [HSet.mem_remove, HSet.mem_remove, hmu, SGraph.removeEdge_adj]; simp; tauto
        · obtain ⟨N, hN, hm⟩ := H.adjSome w hw
          refine ⟨N, by simp [hwu, hN], fun x => ?_⟩
          rw [hm, SGraph.removeEdge_adj]; simp [hwu]
      · intro w
        simp only [HMap.get?_insert, SGraph.removeEdge_V]
        by_cases hwu : w = v
        · subst hwu; simp [hvV]; omega
        · have := hdeg w
          simp only [hwu, if_false] at this
          simp only [hwu, if_false]; rw [H.degs w, this]; rfl
      · exact hmm
    · have h1 := hdeg u
      have h2 := hdeg v
      simp only [if_true, huv, if_false, if_neg (Ne.symm huv)] at h1 h2
      simp only [huv, if_false, hNv, unwrap_some, bind_ok, hdv, pure_eq_ok, 
        usub_ok (show 1 ≤ S.deg u by omega), usub_ok (show 1 ≤ S.deg v by omega), usub_ok hm1]
      refine Ok.pure ⟨⟨?_, ?_, ?_, ?_⟩, rfl⟩
      · intro w hw
        have h1 : w ≠ v := fun hc => hw (hc ▸ hvV)
        have h2 : w ≠ u := fun hc => hw (hc ▸ huV)
        simp [HMap.get?_insert, h1, h2, H.adjNone w hw]
      · intro w hw
        simp only [HMap.get?_insert]
        by_cases hwv : w = v
        · subst hwv
          refine ⟨_, by simp; rfl, fun x => ?_⟩
          rw [HSet.mem_remove, hmv, SGraph.removeEdge_adj]; simp [huv]; tauto
        · by_cases hwu : w = u
          · subst hwu
            refine ⟨_, by simp [hwv]; rfl, fun x => ?_⟩
            rw [HSet.mem_remove, hmu, SGraph.removeEdge_adj]; simp [hwv]; tauto
          · obtain ⟨N, hN, hm⟩ := H.adjSome w hw
            refine ⟨N, by simp [hwu, hwv, hN], fun x => ?_⟩
            rw [hm, SGraph.removeEdge_adj]; simp [hwu, hwv]
      · intro w
        have := hdeg w
        simp only [HMap.get?_insert, SGraph.removeEdge_V]
        by_cases hwv : w = v
        · subst hwv; simp [hvV]; omega
        · by_cases hwu : w = u
          · subst hwu; simp [huV, hwv]; omega
          · simp only [hwu, hwv, if_false] at this
            simp only [hwu, hwv, if_false]; rw [H.degs w, this]; rfl
      · exact hmm
  · simp only [hadj, ha, decide_false, Bool.false_eq_true, if_false]
    refine Ok.pure ⟨?_, rfl⟩
    have : S.removeEdge u v = S := SGraph.ext rfl (Finset.erase_eq_of_notMem ha)
    rw [this]; exact H

theorem Abs.removeVertex (H : Abs g S) (u : Vertex) :
    Ok (g.removeVertex u) (fun r => Abs r.1 (S.removeVertex u) ∧ r.2 = decide (u ∈ S.V)) := by
  unfold EditGraph.removeVertex
  have hc := H.contains u
  by_cases hu : u ∈ S.V
  · simp only [hc, hu, decide_true, Bool.not_true, Bool.false_eq_true, if_false]
    obtain ⟨N, hN, hmN⟩ := H.adjSome u hu
    simp only [hN, unwrap_some, bind_ok]
    have hNlen : N.toList.length = (S.nbrs u).card :=
      HSet.len_of_mem_iff (T := S.nbrs u) fun a => by rw [hmN, SGraph.mem_nbrs]
    refine Ok.bind (Ok.foldlM (fun pre (g' : EditGraph) =>
        (∀ w, w ∉ S.V → g'.adj.get? w = none) ∧
        (∀ w ∈ S.V, ∃ M, g'.adj.get? w = some M ∧ (w ≠ u → ∀ x, x ∈ M ↔ S.Adj w x ∧ ¬ (x = u ∧ w ∈ pre))) ∧
        (∀ w, g'.degs.get? w = if w ∈ S.V then some (S.deg w - if w ∈ pre then 1 else 0) else none) ∧
        g'.m + pre.length = S.E.card) ?_ ?_) ?_
    · refine ⟨H.adjNone, fun w hw => ?_, fun w => by simp [H.degs w], by simp [H.m]⟩
      obtain ⟨M, hM, hx⟩ := H.adjSome w hw
      exact ⟨M, hM, fun _ x => by simp [hx]⟩
    · rintro pre v post g' hl ⟨i1, i2, i3, i4⟩
      have hvN : v ∈ N := by rw [HSet.mem_def, hl]; simp
      have huv : S.Adj u v := (hmN v).1 hvN
      have hvV := huv.right
      have hvpre : v ∉ pre := by
        have := N.nodup
        rw [hl, List.nodup_append] at this
        intro hc
        exact this.2.2 v hc v (by simp) rfl
      have hlen : pre.length + 1 ≤ S.E.card := by
        have h1 : N.toList.length = pre.length + (post.length + 1) := by rw [hl]; simp
        have h2 := SGraph.nbrs_card_le (S := S) (u := u)
        omega
      obtain ⟨M, hM, hx⟩ := i2 v hvV
      have hd := i3 v
      simp only [hvV, if_true, hvpre, if_false, Nat.sub_zero] at hd
      have hdpos := SGraph.deg_pos_of_adj huv.symm
      unfold removeVertexStep
      simp only [hM, unwrap_some, bind_ok, hd, usub_ok (show 1 ≤ S.deg v from hdpos),
        usub_ok (show 1 ≤ g'.m by omega), pure_eq_ok]
      refine Ok.pure ⟨?_, ?_, ?_, ?_⟩
      · intro w hw
        have : w ≠ v := fun hc => hw (hc ▸ hvV)
        simp [HMap.get?_insert, this, i1 w hw]
      · intro w hw
        simp only [HMap.get?_insert]
        by_cases hwv : w = v
        · subst hwv
          refine ⟨_, by simp; rfl, fun hwu x => ?_⟩
          rw [HSet.mem_remove, hx hwu]; simp; tauto
        · obtain ⟨M', hM', hx'⟩ := i2 w hw
          refine ⟨M', by simp [hwv, hM'], fun hwu x => ?_⟩
          rw [hx' hwu]; simp [hwv]
      · intro w
        simp only [HMap.get?_insert]
        by_cases hwv : w = v
        · subst hwv; simp [hvV]
        · simp [hwv, i3 w]
      · simp only [List.length_append, List.length_cons, List.length_nil]; omega
    · rintro g' ⟨i1, i2, i3, i4⟩
      refine Ok.pure ⟨⟨?_, ?_, ?_, ?_⟩, rfl⟩
      · intro w hw
        simp only [HMap.get?_remove]
        by_cases hwu : w = u
        · simp [hwu]
        · simp only [hwu, if_false]
          exact i1 w (by simpa [hwu] using hw)
      · intro w hw
        simp only [SGraph.removeVertex_V, Finset.mem_erase] at hw
        obtain ⟨M, hM, hx⟩ := i2 w hw.2
        refine ⟨M, by simp [HMap.get?_remove, hw.1, hM], fun x => ?_⟩
        rw [hx hw.1, SGraph.removeVertex_adj]
        have : w ∈ N.toList ↔ S.Adj u w := hmN w
        rw [this]
        constructor
        · rintro ⟨h1, h2⟩
          refine ⟨hw.1, ?_, h1⟩
          rintro rfl; exact h2 ⟨rfl, h1.symm⟩
        · rintro ⟨-, h2, h3⟩; exact ⟨h3, fun hh => h2 hh.1⟩
      · intro w
        simp only [HMap.get?_remove, SGraph.removeVertex_V, Finset.mem_erase]
        by_cases hwu : w = u
        · simp [hwu]
        · have h1 := SGraph.deg_removeVertex (S := S) hwu
          have : w ∈ N.toList ↔ S.Adj w u := (hmN w).trans SGraph.adj_comm
          simp only [hwu, if_false, i3 w, this, ne_eq, not_false_eq_true, true_and]
          have h2 : S.deg w - (if S.Adj w u then 1 else 0) = (S.removeVertex u).deg w := by omega
          rw [h2]
      · have := SGraph.card_removeVertex (S := S) (u := u)
        show g'.m = _
        omega
  · simp only [hc, hu, decide_false, Bool.not_false, if_true]
    refine Ok.pure ⟨?_, by simp⟩
    have : S.removeVertex u = S := by
      refine SGraph.ext ?_ ?_
      · simp [hu]
      · simp only [SGraph.removeVertex_E]
        apply Finset.filter_true_of_mem
        intro e he hue
        exact hu (S.wf e he u hue)
    rw [this]; exact H

end EditGraph
end Verif
