import Verif.Lemmas.DTFQuery
import Verif.Lemmas.Iter
import Verif.Lemmas.Linear
import Verif.Lemmas.Degeneracy
import Verif.Lemmas.Domset
/-!
# Lemmas: arc iterators and `orient`
-/
namespace Verif

namespace DTFArcIter
variable {g : DTFGraph} {dp : Option ℕ}

theorem scan_eq (v : Vertex) (it : List Vertex) : scan v it = EdgeIter.scan v it := by
  induction it with
  | nil => rfl
  | cons u it ih => unfold scan EdgeIter.scan; rw [ih]

theorem nextFrom_spec {N : Vertex → List Vertex} :
    ∀ (rest : List Vertex) (v : Vertex) (it : List Vertex),
      (∀ w ∈ rest, neighs g dp w = .ok (N w)) →
      (edgesAt v it ++ edgesOf N rest = [] ∧ nextFrom g dp rest v it = .ok none) ∨
      (∃ e v' it' rest', nextFrom g dp rest v it = .ok (some (e, ⟨rest', dp, v', some it'⟩)) ∧
        (∀ w ∈ rest', neighs g dp w = .ok (N w)) ∧
        edgesAt v it ++ edgesOf N rest = e :: (edgesAt v' it' ++ edgesOf N rest')) := by
  intro rest
  induction rest with
  | nil =>
    intro v it _
    unfold nextFrom
    rw [scan_eq]
    cases hs : EdgeIter.scan v it with
    | none => left; simp [edgesAt, EdgeIter.scan_none.1 hs, edgesOf]
    | some p =>
      obtain ⟨u, it'⟩ := p
      right
      exact ⟨(v, u), v, it', [], rfl, by simp, by simp [edgesAt, EdgeIter.scan_some hs]⟩
  | cons w rest ih =>
    intro v it hN
    unfold nextFrom
    rw [scan_eq]
    cases hs : EdgeIter.scan v it with
    | some p =>
      obtain ⟨u, it'⟩ := p
      right
      exact ⟨(v, u), v, it', w :: rest, rfl, hN, by simp [edgesAt, EdgeIter.scan_some hs]⟩
    | none =>
      simp only [hN w (by simp), bind_ok]
      have h0 : edgesAt v it = [] := by simp [edgesAt, EdgeIter.scan_none.1 hs]
      have h1 : edgesOf N (w :: rest) = edgesAt w (N w) ++ edgesOf N rest := rfl
      rw [h0, h1, List.nil_append]
      exact ih w (N w) fun x hx => hN x (by simp [hx])

theorem drains_from {N : Vertex → List Vertex} :
    ∀ (l : List Edge) (rest : List Vertex) (v : Vertex) (it : List Vertex),
      (∀ w ∈ rest, neighs g dp w = .ok (N w)) → l = edgesAt v it ++ edgesOf N rest →
      Drains (next g) ⟨rest, dp, v, some it⟩ l := by
  intro l
  induction l with
  | nil =>
    intro rest v it hN hl
    rcases nextFrom_spec rest v it hN with h | ⟨e, v', it', rest', _, _, h⟩
    · exact .done h.2
    · rw [← hl] at h; cases h
  | cons e l ih =>
    intro rest v it hN hl
    rcases nextFrom_spec rest v it hN with h | ⟨e', v', it', rest', h1, h2, h3⟩
    · rw [← hl] at h; cases h.1
    · rw [← hl] at h3
      injection h3 with h3 h4
      subst h3
      exact .step h1 (ih rest' v' it' h2 h4)

end DTFArcIter

namespace DTFGraph
variable {g h : DTFGraph} {V : Finset ℕ} {A : Arcs}

theorem arcs_drains' {dp : Option ℕ} {N : Vertex → List Vertex} (hN : ∀ w ∈ g.vertices, DTFArcIter.neighs g dp w = .ok (N w)) :
    g.arcList dp = .ok (edgesOf N g.vertices) ∧
    ∃ s, DTFArcIter.new g dp = .ok s ∧ Drains (DTFArcIter.next g) s (edgesOf N g.vertices) := by
  constructor
  · unfold arcList
    have key : ∀ (vs : List Vertex) (acc : List Edge), (∀ w ∈ vs, DTFArcIter.neighs g dp w = .ok (N w)) →
        vs.foldlM (fun acc v => do
          let N ← DTFArcIter.neighs g dp v
          return acc ++ (N.filter (fun u => v ≤ u)).map (fun u => (v, u))) acc
          = (.ok (acc ++ edgesOf N vs) : Res (List Edge)) := by
      intro vs
      induction vs with
      | nil => intro acc _; simp [edgesOf]
      | cons v vs ih =>
        intro acc h
        rw [List.foldlM_cons, h v (by simp)]
        refine (ih _ fun w hw => h w (by simp [hw])).trans ?_
        simp [edgesOf, edgesAt]
    simpa using key g.vertices [] hN
  · unfold DTFArcIter.new DTFArcIter.advance
    cases hv : g.vertices with
    | nil => exact ⟨_, rfl, .done rfl⟩
    | cons v rest =>
      rw [hv] at hN
      simp only [hN v (by simp), bind_ok, pure_eq_ok]
      exact ⟨_, rfl, DTFArcIter.drains_from _ rest v (N v) (fun w hw => hN w (by simp [hw])) rfl⟩

namespace Abs

/-- The sequence `arcs_at(d)`. -/
theorem arcs_at_drains (H : Abs g V A) {d : ℕ} (h1 : 1 ≤ d) (hd : d ≤ g.depth) :
    ∃ l s, g.arcList (some d) = .ok l ∧ DTFArcIter.new g (some d) = .ok s ∧ Drains (DTFArcIter.next g) s l ∧ l.Nodup ∧
      ∀ v u, (v, u) ∈ l ↔ (u, v, d) ∈ A ∧ v ≤ u := by
  classical
  have : ∀ v, ∃ l : List ℕ, v ∈ V → g.inNeighboursAt v d = .ok l ∧ l.Nodup ∧ ∀ x, x ∈ l ↔ (x, v, d) ∈ A := by
    intro v
    by_cases hv : v ∈ V
    · obtain ⟨l, hl⟩ := H.inNeighboursAt hv h1 hd
      exact ⟨l, fun _ => hl⟩
    · exact ⟨[], fun h => absurd h hv⟩
  choose N hN using this
  obtain ⟨h2, s, h3, h4⟩ := arcs_drains' (dp := some d) (N := N) fun w hw => (hN w ((H.vertices_mem w).1 hw)).1
  refine ⟨_, s, h2, h3, h4, nodup_edgesOf H.vertices_nodup fun v hv => (hN v ((H.vertices_mem v).1 hv)).2.1, fun v u => ?_⟩
  rw [mem_edgesOf, H.vertices_mem]
  constructor
  · rintro ⟨hv, hu, hle⟩; exact ⟨((hN v hv).2.2 u).1 hu, hle⟩
  · rintro ⟨hu, hle⟩
    have hv := (H.wf _ hu).2.1
    exact ⟨hv, ((hN v hv).2.2 u).2 hu, hle⟩

/-- The sequence `arcs()`. -/
theorem arcs_drains (H : Abs g V A) :
    ∃ l s, g.arcList none = .ok l ∧ DTFArcIter.new g none = .ok s ∧ Drains (DTFArcIter.next g) s l ∧
      ((∀ v x w w', (x, v, w) ∈ A → (x, v, w') ∈ A → w = w') → l.Nodup) ∧
      ∀ v u, (v, u) ∈ l ↔ (∃ w, (u, v, w) ∈ A) ∧ v ≤ u := by
  classical
  have : ∀ v, ∃ l : List ℕ, v ∈ V → g.inNeighbours v = .ok l ∧ (∀ x, x ∈ l ↔ ∃ w, (x, v, w) ∈ A) ∧
      ((∀ x w w', (x, v, w) ∈ A → (x, v, w') ∈ A → w = w') → l.Nodup) := by
    intro v
    by_cases hv : v ∈ V
    · obtain ⟨l, hl⟩ := H.inNeighbours hv
      exact ⟨l, fun _ => hl⟩
    · exact ⟨[], fun h => absurd h hv⟩
  choose N hN using this
  obtain ⟨h2, s, h3, h4⟩ := arcs_drains' (dp := none) (N := N) fun w hw => (hN w ((H.vertices_mem w).1 hw)).1
  refine ⟨_, s, h2, h3, h4, fun hq => nodup_edgesOf H.vertices_nodup fun v hv =>
    (hN v ((H.vertices_mem v).1 hv)).2.2 (hq v), fun v u => ?_⟩
  rw [mem_edgesOf, H.vertices_mem]
  constructor
  · rintro ⟨hv, hu, hle⟩; exact ⟨((hN v hv).2.1 u).1 hu, hle⟩
  · rintro ⟨⟨w, hu⟩, hle⟩
    have hv := (H.wf _ hu).2.1
    exact ⟨hv, ((hN v hv).2.1 u).2 ⟨w, hu⟩, hle⟩

end Abs

/-! ## `orient` -/

/-- `D` is the orientation of `S` along the order `ord`. -/
def Oriented (S : SGraph) (ord : List ℕ) (A : Arcs) : Prop :=
  ∀ u v w, (u, v, w) ∈ A ↔ w = 1 ∧ S.Adj u v ∧ ord.idxOf u < ord.idxOf v

theorem orientArc_ok {S : SGraph} {ord : List ℕ} (hn : ord.Nodup) (hm : ∀ u, u ∈ ord ↔ u ∈ S.V) (hl : S.Loopless)
    {v u : ℕ} (hv : S.Adj v u) {H : DTFGraph} (ha : Abs H V A) (hs : ∀ e ∈ A, e.2.2 = 1 ∧ S.Adj e.1 e.2.1 ∧
      ord.idxOf e.1 < ord.idxOf e.2.1) (hV : V ⊆ S.V) (hvV : v ∈ V) :
    Ok (orientArc (HMap.ofList ord.zipIdx) v (ord.idxOf v) H u) (fun H' => ∃ V' A', Abs H' V' A' ∧ H'.depth = 1 ∧ V' ⊆ S.V ∧
      V ⊆ V' ∧ A ⊆ A' ∧ (∀ e ∈ A', e.2.2 = 1 ∧ S.Adj e.1 e.2.1 ∧ ord.idxOf e.1 < ord.idxOf e.2.1) ∧
      ((u, v, 1) ∈ A' ∨ (v, u, 1) ∈ A')) := by
  have hvS := hv.left
  have huS := hv.right
  have hidx : (HMap.ofList ord.zipIdx : HMap ℕ ℕ).get? u = some (ord.idxOf u) := by
    rw [get?_positions hn]
    rw [List.getElem?_eq_getElem (List.idxOf_lt_length_of_mem ((hm u).2 huS)), List.getElem_idxOf]
  have hne : ord.idxOf u ≠ ord.idxOf v := by
    intro hc
    have : u = v := List.idxOf_inj ((hm u).2 huS) |>.1 hc
    subst this
    exact hl _ hv
  unfold orientArc
  rw [hidx, unwrap_some, bind_ok]
  by_cases hlt : ord.idxOf u < ord.idxOf v
  · rw [if_pos hlt]
    refine (ha.addArc (le_refl 1) (by omega) u v).mono fun H' h => ?_
    refine ⟨_, _, h.1, h.2, ?_, ?_, Finset.subset_insert _ _, ?_, Or.inl (Finset.mem_insert_self _ _)⟩
    · intro x hx
      simp only [Finset.mem_insert] at hx
      rcases hx with rfl | rfl | hx
      · exact huS
      · exact hvS
      · exact hV hx
    · exact (Finset.subset_insert _ _).trans (Finset.subset_insert _ _)
    · intro e he
      rcases Finset.mem_insert.1 he with rfl | he
      · exact ⟨rfl, hv.symm, hlt⟩
      · exact hs e he
  · rw [if_neg hlt]
    refine (ha.addArc (le_refl 1) (by omega) v u).mono fun H' h => ?_
    refine ⟨_, _, h.1, h.2, ?_, ?_, Finset.subset_insert _ _, ?_, Or.inr (Finset.mem_insert_self _ _)⟩
    · intro x hx
      simp only [Finset.mem_insert] at hx
      rcases hx with rfl | rfl | hx
      · exact hvS
      · exact huS
      · exact hV hx
    · exact (Finset.subset_insert _ _).trans (Finset.subset_insert _ _)
    · intro e he
      rcases Finset.mem_insert.1 he with rfl | he
      · exact ⟨rfl, hv, by simp only; omega⟩
      · exact hs e he

theorem orient_ok {G : Graph} {S : SGraph} (hG : G.Rep S) (hl : S.Loopless) (σ : ℕ → Shuffle ℕ) :
    ∃ lo up ord core D A, G.degeneracy σ = .ok (lo, up, ord, core) ∧ orient σ G = .ok D ∧ ord.Nodup ∧
      (∀ u, u ∈ ord ↔ u ∈ S.V) ∧ Abs D S.V A ∧ D.depth = 1 ∧ Oriented S ord A := by
  obtain ⟨s, hs, I, hmem⟩ := hG.degeneracy hl σ
  have hn : s.order.reverse.Nodup := List.nodup_reverse.2 I.nodup
  have hm : ∀ u, u ∈ s.order.reverse ↔ u ∈ S.V := fun u => by rw [List.mem_reverse, hmem]
  generalize s.order.reverse = ord at hs hn hm
  obtain ⟨N, hN, hNn, hNm⟩ := hG.exists_nbrs
  have main : Ok (G.vertices.foldlM (orientVertex G (HMap.ofList ord.zipIdx)) new) (fun D => ∃ V A, Abs D V A ∧ D.depth = 1 ∧
      V ⊆ S.V ∧ (∀ e ∈ A, e.2.2 = 1 ∧ S.Adj e.1 e.2.1 ∧ ord.idxOf e.1 < ord.idxOf e.2.1) ∧ (∀ v ∈ G.vertices, v ∈ V ∧
        ∀ u, S.Adj v u → ((u, v, 1) ∈ A ∨ (v, u, 1) ∈ A))) := by
    refine Ok.foldlM (fun (pre : List ℕ) (D : DTFGraph) => ∃ V A, Abs D V A ∧ D.depth = 1 ∧
      V ⊆ S.V ∧ (∀ e ∈ A, e.2.2 = 1 ∧ S.Adj e.1 e.2.1 ∧ ord.idxOf e.1 < ord.idxOf e.2.1) ∧ (∀ v ∈ pre, v ∈ V ∧
        ∀ u, S.Adj v u → ((u, v, 1) ∈ A ∨ (v, u, 1) ∈ A))) ?_ ?_
    · exact ⟨∅, ∅, abs_new, rfl, by simp, by simp, by simp⟩
    · rintro pre v post D hsp ⟨V, A, ha, hd, hV, hs', hp⟩
      have hvS : v ∈ S.V := (hG.vmem v).1 (by rw [hsp]; simp)
      have hidx : (HMap.ofList ord.zipIdx : HMap ℕ ℕ).get? v = some (ord.idxOf v) := by
        rw [get?_positions hn]
        rw [List.getElem?_eq_getElem (List.idxOf_lt_length_of_mem ((hm v).2 hvS)), List.getElem_idxOf]
      unfold orientVertex
      rw [hN v hvS, bind_ok, hidx, unwrap_some, bind_ok]
      have inner := Ok.foldlM (f := orientArc (HMap.ofList ord.zipIdx) v (ord.idxOf v)) (l := N v) (b := D.addVertex v)
        (fun (pre' : List ℕ) (D' : DTFGraph) => ∃ V' A', Abs D' V' A' ∧ D'.depth = 1 ∧ V' ⊆ S.V ∧ v ∈ V' ∧ V ⊆ V' ∧ A ⊆ A' ∧
          (∀ e ∈ A', e.2.2 = 1 ∧ S.Adj e.1 e.2.1 ∧ ord.idxOf e.1 < ord.idxOf e.2.1) ∧
          (∀ u ∈ pre', (u, v, 1) ∈ A' ∨ (v, u, 1) ∈ A')) ?_ ?_
      · refine inner.mono ?_
        rintro D' ⟨V', A', h1, h2, h3, h4, h5, h6, h7, h8⟩
        refine ⟨V', A', h1, h2, h3, h7, fun x hx => ?_⟩
        rw [List.mem_append, List.mem_singleton] at hx
        rcases hx with hx | rfl
        · refine ⟨h5 (hp x hx).1, fun u hu => ?_⟩
          rcases (hp x hx).2 u hu with h | h
          · exact Or.inl (h6 h)
          · exact Or.inr (h6 h)
        · exact ⟨h4, fun u hu => h8 u ((hNm x hvS u).2 hu)⟩
      · refine ⟨_, A, ha.addVertex v, by rw [Abs.addVertex_depth]; exact hd, ?_, Finset.mem_insert_self _ _,
          Finset.subset_insert _ _, Finset.Subset.refl _, hs', by simp⟩
        intro x hx
        rcases Finset.mem_insert.1 hx with rfl | hx
        · exact hvS
        · exact hV hx
      · rintro pre' u post' D' hsp' ⟨V', A', h1, h2, h3, h4, h5, h6, h7, h8⟩
        have hu : S.Adj v u := (hNm v hvS u).1 (by rw [hsp']; simp)
        refine (orientArc_ok hn hm hl hu h1 h7 h3 h4).mono ?_
        rintro D'' ⟨V'', A'', k1, k2, k3, k4, k5, k6, k7⟩
        refine ⟨V'', A'', k1, k2, k3, k4 h4, h5.trans k4, h6.trans k5, k6, fun x hx => ?_⟩
        rw [List.mem_append, List.mem_singleton] at hx
        rcases hx with hx | rfl
        · rcases h8 x hx with h | h
          · exact Or.inl (k5 h)
          · exact Or.inr (k5 h)
        · exact k7
  obtain ⟨D, hD, V, A, ha, hd, hV, hs', hp⟩ := main
  have hVe : V = S.V := Finset.Subset.antisymm hV fun x hx => (hp x ((hG.vmem x).2 hx)).1
  subst hVe
  refine ⟨_, _, ord, _, D, A, hs, ?_, hn, hm, ha, hd, fun u v w => ⟨fun h => hs' _ h, ?_⟩⟩
  · unfold orient
    rw [hs, bind_ok]
    exact hD
  · rintro ⟨rfl, hadj, hlt⟩
    rcases (hp u ((hG.vmem u).2 hadj.left)).2 v hadj with h | h
    · have := (hs' _ h).2.2
      simp only at this
      omega
    · exact h

end DTFGraph
end Verif
