import Verif.Props.DomRule
import Verif.Props.DegenColour
/-!
# C107, C108: the witness of a dominating set
-/
namespace Verif
open SGraph

/-- The same iteration orders, except those of the tables of `degeneracy`. -/
def LinGraph.DomOrder.withDegen (ω : LinGraph.DomOrder) (σ : ℕ → Shuffle ℕ) : LinGraph.DomOrder :=
  { ω with witness := { ω.witness with degen := σ } }

theorem domset_witness {L : LinGraph} {S : SGraph} {ord : List ℕ} (H : L.LRep S ord) (ω : LinGraph.DomOrder)
    (hω : ∀ g, EditGraph.Relayout g (ω.witness.lay g)) {r : ℕ} (hr : r < 2 ^ 15) (hn : S.V.card ≤ 2 ^ 31) {target : List ℕ}
    (hne : S.V.Nonempty) (ht : target ≠ []) :
    ∃ (o : List ℕ) (J : Finset ℕ) (μ : ℕ → ℕ) (D : HSet ℕ) (m : HMap ℕ ℕ) (G : Graph) (T : SGraph), S.ByLeftDegree ord o ∧
      DomRun S.V (fun v u d => S.WReach ord v u d ∧ d ≤ r) (· ∈ target) r ((2 * r) ^ 2) o.reverse J μ ∧
      J ⊆ S.V ∧ G.Rep T ∧ T.Loopless ∧ S.IsConflict (2 * r) J T ∧
      ∀ σ, L.domsetWithTarget (ω.withDegen σ) r true target =
        (OrdGraph.byDegeneracy σ G >>= fun OH => OH.lin.colourGreedy).map fun c => (D, m, some c) := by
  have O := H.ordering
  have hc : ¬ (L.isEmpty || (HSet.ofList target).len == 0) = true := by
    rw [Bool.or_eq_true]
    rintro (h | h)
    · rw [lin_isEmpty H] at h
      exact hne.ne_empty h
    · have h1 := Scatter.toList_of_len (by simpa using h)
      obtain ⟨x, l, rfl⟩ := List.exists_cons_of_ne_nil ht
      have h2 : x ∈ HSet.ofList (x :: l) := HSet.mem_ofList.2 (by simp)
      rw [← HSet.mem_toList, h1] at h2
      simp at h2
  obtain ⟨o, ho, -, -⟩ := Dom.order H hn
  obtain ⟨hnd, hbl⟩ := Dom.order_rule H hn ho
  obtain ⟨ws, hws, Tb⟩ := H.wreachSets ω.bfs ω.layers (r := r) (by omega)
  obtain ⟨ws2, hws2, Tb2⟩ := H.wreachSets ω.bfs ω.layers (r := 2 * r) (by omega)
  obtain ⟨st, hst, h1, h2, h3, h4, h5, h6⟩ := Dom.phase (target := HSet.ofList target) O Tb ω.wreach
    (2 * r * (2 * r)) (r := r) (by omega) (by omega) hnd hbl.1
  have hscV : ∀ x ∈ st.scattered, x ∈ S.V := fun x hx => h1 x (h2 x hx).1
  have hcut : 2 * r * (2 * r) < 2 ^ 32 := by
    have : 2 * r * (2 * r) ≤ (2 ^ 16 - 1) * (2 ^ 16 - 1) := Nat.mul_le_mul (by omega) (by omega)
    omega
  obtain ⟨J, μ, g1, gJ, g2, g3⟩ := Dom.phase_rule O Tb hnd hbl.1 hst
  obtain ⟨G, T, hG, hll, hC, haux⟩ := Dom.auxGraph O Tb2 ω.wreach2 ω.witness hω (strict := true)
      (limit := 2 * r) (le_refl _) (fun _ => rfl) (by omega) hscV
  have hJ : J = st.scattered.toFinset := by
    ext x
    rw [gJ, HSet.mem_toFinset]
  refine ⟨o, J, μ, st.domset, st.dist, G, T, hbl, ?_, fun x hx => hscV x ((gJ x).1 hx), hG, hll, by rw [hJ]; exact hC,
    fun σ => ?_⟩
  · rw [Nat.pow_two]
    have : (fun x => x ∈ HSet.ofList target) = (· ∈ target) := funext fun x => propext HSet.mem_ofList
    rw [this] at g1
    exact g1
  · unfold LinGraph.domsetWithTarget
    simp only
    have e1 : L.wreachSets (ω.withDegen σ).bfs (ω.withDegen σ).layers r = .ok ws := hws
    have e2 : L.wreachSets (ω.withDegen σ).bfs (ω.withDegen σ).layers (2 * r) = .ok ws2 := hws2
    have e3 : LinGraph.domPhase (HSet.ofList target) r (r + 1) (2 * r * (2 * r)) ws (ω.withDegen σ).wreach o = .ok st := hst
    have e4 : LinGraph.auxColouring true (2 * r) (ω.withDegen σ).witness ws2 (ω.withDegen σ).wreach2 st.scattered = _ := haux σ
    rw [if_neg hc, mul32_ok (by omega), bind_ok, mul32_ok hcut, bind_ok, ho, bind_ok, add32_ok (by omega), bind_ok,
      e1, bind_ok, e3, bind_ok]
    simp only [Bool.not_true, Bool.false_eq_true, if_false]
    rw [bind_ok, e2, bind_ok, e4]
    generalize (OrdGraph.byDegeneracy σ G >>= fun OH => OH.lin.colourGreedy) = z
    cases z <;> rfl

theorem IsConflict.unique {S : SGraph} {k : ℕ} {J : Finset ℕ} {T T' : SGraph} (h : S.IsConflict k J T) (h' : S.IsConflict k J T') :
    T = T' :=
  SGraph.ext_adj (h.1.trans h'.1.symm) fun u v => (h.2 u v).trans (h'.2 u v).symm

/-- The run of the rule given is the one of the program. -/
theorem domset_witness_of_run {L : LinGraph} {S : SGraph} {ord : List ℕ} (H : L.LRep S ord) (ω : LinGraph.DomOrder)
    (hω : ∀ g, EditGraph.Relayout g (ω.witness.lay g)) {r : ℕ} (hr : r < 2 ^ 15) (hn : S.V.card ≤ 2 ^ 31) {target : List ℕ}
    (hne : S.V.Nonempty) (ht : target ≠ []) {o : List ℕ} (ho : S.ByLeftDegree ord o) {J : Finset ℕ} {μ : ℕ → ℕ}
    (hrun : DomRun S.V (fun v u d => S.WReach ord v u d ∧ d ≤ r) (· ∈ target) r ((2 * r) ^ 2) o.reverse J μ) {T : SGraph}
    (hT : S.IsConflict (2 * r) J T) :
    ∃ (D : HSet ℕ) (m : HMap ℕ ℕ) (G : Graph), J ⊆ S.V ∧ G.Rep T ∧ T.Loopless ∧
      ∀ σ, L.domsetWithTarget (ω.withDegen σ) r true target =
        (OrdGraph.byDegeneracy σ G >>= fun OH => OH.lin.colourGreedy).map fun c => (D, m, some c) := by
  obtain ⟨o', J', μ', D, m, G, T', h1, h2, h3, h4, h5, h6, h7⟩ := domset_witness H ω hω hr hn hne ht
  obtain rfl := Dom.byLeftDegree_unique ho h1
  obtain ⟨rfl, -⟩ := DomRun.unique (fun v u d h => (Dom.wr_props H.ordering v u d h).1)
    (fun v hv => (ho.1 v).1 (List.mem_reverse.1 hv)) hrun h2
  obtain rfl := IsConflict.unique h6 hT
  exact ⟨D, m, G, h3, h4, h5, h7⟩

/-- **C107.** Let `J` be the vertices joining the dominating set directly and `T` the graph on `J` joining those at distance at
most `2*radius`.  The witnesses that `domset_with_target` can return, over the iteration orders of the tables of `degeneracy`,
are exactly the greedy colourings of `T` along orders in which every vertex has least degree, up to buckets, among itself and
the vertices before it, provided that every left neighbour of a vertex gets a colour. -/
theorem C107_witness {L : LinGraph} {S : SGraph} {ord : List ℕ} (H : L.LRep S ord) (ω : LinGraph.DomOrder)
    (hω : ∀ g, EditGraph.Relayout g (ω.witness.lay g)) {r : ℕ} (hr : r < 2 ^ 15) (hn : S.V.card ≤ 2 ^ 31) {target : List ℕ}
    (hne : S.V.Nonempty) (ht : target ≠ []) {o : List ℕ} (ho : S.ByLeftDegree ord o) {J : Finset ℕ} {μ : ℕ → ℕ}
    (hrun : DomRun S.V (fun v u d => S.WReach ord v u d ∧ d ≤ r) (· ∈ target) r ((2 * r) ^ 2) o.reverse J μ) {T : SGraph}
    (hT : S.IsConflict (2 * r) J T) (χ : ℕ → Option ℕ) :
    (∃ σ D m c, L.domsetWithTarget (ω.withDegen σ) r true target = .ok (D, m, some c) ∧ ∀ v, c.get? v = χ v) ↔
      ∃ p, T.Peeled p ∧ T.IsGreedy p χ ∧ ∀ v, ∀ u ∈ T.before p v, χ u ≠ none := by
  obtain ⟨D, m, G, h1, h2, h3, h4⟩ := domset_witness_of_run H ω hω hr hn hne ht ho hrun hT
  have hTn : T.V.card ≤ 2 ^ 31 := (Finset.card_le_card (by rw [hT.1]; exact h1)).trans hn
  rw [← C88_outcomes_partial h2 h3 hTn]
  constructor
  · rintro ⟨σ, D', m', c, h5, h6⟩
    rw [h4] at h5
    cases hg : OrdGraph.byDegeneracy σ G with
    | error => rw [hg] at h5; cases h5
    | ok g =>
      rw [hg, bind_ok] at h5
      cases hc : g.lin.colourGreedy with
      | error => rw [hc] at h5; cases h5
      | ok c' => rw [hc] at h5; cases h5; exact ⟨σ, g, c, hg, hc, h6⟩
  · rintro ⟨σ, g, c, h5, h6, h7⟩
    exact ⟨σ, D, m, c, by rw [h4, h5, bind_ok, h6]; rfl, h7⟩

/-- **C107.** It can panic if and only if for one of these orders the greedy rule leaves a left neighbour of a vertex without
colour. -/
theorem C107_panic {L : LinGraph} {S : SGraph} {ord : List ℕ} (H : L.LRep S ord) (ω : LinGraph.DomOrder)
    (hω : ∀ g, EditGraph.Relayout g (ω.witness.lay g)) {r : ℕ} (hr : r < 2 ^ 15) (hn : S.V.card ≤ 2 ^ 31) {target : List ℕ}
    (hne : S.V.Nonempty) (ht : target ≠ []) {o : List ℕ} (ho : S.ByLeftDegree ord o) {J : Finset ℕ} {μ : ℕ → ℕ}
    (hrun : DomRun S.V (fun v u d => S.WReach ord v u d ∧ d ≤ r) (· ∈ target) r ((2 * r) ^ 2) o.reverse J μ) {T : SGraph}
    (hT : S.IsConflict (2 * r) J T) :
    (∃ σ, L.domsetWithTarget (ω.withDegen σ) r true target = .error .panic) ↔
      ∃ p χ, T.Peeled p ∧ T.IsGreedy p χ ∧ ∃ v, ∃ u ∈ T.before p v, χ u = none := by
  obtain ⟨D, m, G, h1, h2, h3, h4⟩ := domset_witness_of_run H ω hω hr hn hne ht ho hrun hT
  have hTn : T.V.card ≤ 2 ^ 31 := (Finset.card_le_card (by rw [hT.1]; exact h1)).trans hn
  rw [← C88_panics_partial h2 h3 hTn]
  constructor
  · rintro ⟨σ, h5⟩
    rw [h4] at h5
    obtain ⟨g, p, hg, -⟩ := C43_by_degeneracy_no_jump h2 h3 σ
    refine ⟨σ, g, hg, ?_⟩
    rw [hg, bind_ok] at h5
    cases hc : g.lin.colourGreedy with
    | error => rw [hc] at h5; cases h5; rfl
    | ok c' => rw [hc] at h5; cases h5
  · rintro ⟨σ, g, h5, h6⟩
    exact ⟨σ, by rw [h4, h5, bind_ok, h6]; rfl⟩

/-- Hypotheses of the C107 theorems and of the C108 partials are met by the path 0-1-2 with ordering 2, 0, 1. -/
example : ∃ (L : LinGraph) (S : SGraph) (ω : LinGraph.DomOrder) (o : List ℕ) (J : Finset ℕ) (μ : ℕ → ℕ) (T : SGraph) (d : ℕ),
    L.LRep S [2, 0, 1] ∧ (∀ g, EditGraph.Relayout g (ω.witness.lay g)) ∧ S.V.card ≤ 2 ^ 31 ∧ S.V.Nonempty ∧
    S.ByLeftDegree [2, 0, 1] o ∧ DomRun S.V (fun v u d => S.WReach [2, 0, 1] v u d ∧ d ≤ 1) (· ∈ [0, 2]) 1 ((2 * 1) ^ 2) o.reverse J μ ∧
    S.IsConflict (2 * 1) J T ∧ J.Nonempty ∧ T.IsDegeneracy d ∧ d ≤ 129 := by
  obtain ⟨L, S, H, h01, -, -, h5, -⟩ := exLin
  have hcard : S.V.card = 3 := by rw [← H.ordering.length]; rfl
  obtain ⟨o, J, μ, D, m, G, T, h1, h2, h3, h4, h6, h7, h8⟩ := domset_witness H idDom relayout_refl (r := 1) (by omega)
    (by omega) (target := [0, 2]) ⟨0, h01.left⟩ (by simp)
  obtain ⟨d, hd⟩ := T.exists_degeneracy
  have hTc : T.V.card ≤ 3 := by
    rw [← hcard, h7.1]
    exact Finset.card_le_card h3
  have hd' : d ≤ 3 := hd.2 3 fun W hW ⟨w, hw⟩ => ⟨w, hw, (Finset.card_le_card (Finset.filter_subset _ _)).trans
    ((Finset.card_le_card hW).trans hTc)⟩
  refine ⟨L, S, idDom, o, J, μ, T, d, H, relayout_refl, by omega, ⟨0, h01.left⟩, h1, h2, h7, ?_, hd, by omega⟩
  obtain ⟨D', m', h9, -, h10⟩ := C56_domset_with_target H idDom relayout_refl (r := 1) (by omega) (by omega) [0, 2]
  obtain ⟨y, hy, -⟩ := h10 0 (by simp) h01.left
  have h11 := (C103_domset_with_target_rule H idDom (r := 1) (by omega) (by omega) ⟨0, h01.left⟩ (by simp) h9 h1 h2).1 y
  rcases h11.1 hy with h | ⟨A, hA, hA'⟩
  · exact ⟨y, h⟩
  · obtain ⟨s, hs⟩ := Finset.card_pos.1 (lt_of_le_of_lt (Nat.zero_le _) hA')
    exact ⟨s, ((hA s).1 hs).1⟩

/-- **C108**, full statement: the witness is always returned, colours exactly the vertices that join directly, and uses at most
one colour more than the degeneracy of their conflict graph. -/
def C108_statement : Prop := ∀ (L : LinGraph) (S : SGraph) (ord : List ℕ) (ω : LinGraph.DomOrder) (r : ℕ) (target o : List ℕ)
  (J : Finset ℕ) (μ : ℕ → ℕ) (T : SGraph) (d : ℕ), L.LRep S ord → (∀ g, EditGraph.Relayout g (ω.witness.lay g)) → r < 2 ^ 15 →
  S.V.card ≤ 2 ^ 31 → S.V.Nonempty → target ≠ [] → S.ByLeftDegree ord o →
  DomRun S.V (fun v u d => S.WReach ord v u d ∧ d ≤ r) (· ∈ target) r ((2 * r) ^ 2) o.reverse J μ →
  S.IsConflict (2 * r) J T → T.IsDegeneracy d →
  ∃ D m c, L.domsetWithTarget ω r true target = .ok (D, m, some c) ∧ (∀ x, x ∈ c.keys ↔ x ∈ J) ∧ ∀ x k, c.get? x = some k → k ≤ d

/-- **C108 (partial).** True if the degeneracy of the conflict graph is at most 129.  Missing: larger degeneracy, where it is false. -/
theorem C108_witness_partial {L : LinGraph} {S : SGraph} {ord : List ℕ} (H : L.LRep S ord) (ω : LinGraph.DomOrder)
    (hω : ∀ g, EditGraph.Relayout g (ω.witness.lay g)) {r : ℕ} (hr : r < 2 ^ 15) (hn : S.V.card ≤ 2 ^ 31) {target : List ℕ}
    (hne : S.V.Nonempty) (ht : target ≠ []) {o : List ℕ} (ho : S.ByLeftDegree ord o) {J : Finset ℕ} {μ : ℕ → ℕ}
    (hrun : DomRun S.V (fun v u d => S.WReach ord v u d ∧ d ≤ r) (· ∈ target) r ((2 * r) ^ 2) o.reverse J μ) {T : SGraph}
    (hT : S.IsConflict (2 * r) J T) {d : ℕ} (hd : T.IsDegeneracy d) (hd' : d ≤ 129) :
    ∃ D m c, L.domsetWithTarget ω r true target = .ok (D, m, some c) ∧ (∀ x, x ∈ c.keys ↔ x ∈ J) ∧
      ∀ x k, c.get? x = some k → k ≤ d := by
  obtain ⟨D, m, G, h1, h2, h3, h4⟩ := domset_witness_of_run H ω hω hr hn hne ht ho hrun hT
  have hTn : T.V.card ≤ 2 ^ 31 := (Finset.card_le_card (by rw [hT.1]; exact h1)).trans hn
  obtain ⟨g, c, h5, h6, h7, -, h8⟩ := C88_degeneracy_colouring_partial h2 h3 hTn ω.witness.degen hd hd'
  refine ⟨D, m, c, ?_, fun x => by rw [h7, hT.1], h8⟩
  have := h4 ω.witness.degen
  rw [h5, bind_ok, h6] at this
  exact this

/-- **C108 (partial).** In this case some colour class is, up to the factor degeneracy plus one, as large as `J`, so every set `X`
that has the targets within distance `radius` has at least `|J| / (d + 1)` elements. -/
theorem C108_lower_bound_partial {L : LinGraph} {S : SGraph} {ord : List ℕ} (H : L.LRep S ord) (ω : LinGraph.DomOrder)
    (hω : ∀ g, EditGraph.Relayout g (ω.witness.lay g)) {r : ℕ} (hr : r < 2 ^ 15) (hn : S.V.card ≤ 2 ^ 31) {target : List ℕ}
    (hne : S.V.Nonempty) (ht : target ≠ []) {o : List ℕ} (ho : S.ByLeftDegree ord o) {J : Finset ℕ} {μ : ℕ → ℕ}
    (hrun : DomRun S.V (fun v u d => S.WReach ord v u d ∧ d ≤ r) (· ∈ target) r ((2 * r) ^ 2) o.reverse J μ) {T : SGraph}
    (hT : S.IsConflict (2 * r) J T) {d : ℕ} (hd : T.IsDegeneracy d) (hd' : d ≤ 129) :
    ∃ D m c k, L.domsetWithTarget ω r true target = .ok (D, m, some c) ∧
      J.card ≤ (d + 1) * (J.filter fun x => c.get? x = some k).card ∧
      ∀ X : Finset ℕ, (∀ x ∈ target, x ∈ S.V → ∃ y ∈ X, ∃ n ≤ r, Walk S.Adj n y x) →
        (J.filter fun x => c.get? x = some k).card ≤ X.card := by
  obtain ⟨D, m, c, h1, h2, h3⟩ := C108_witness_partial H ω hω hr hn hne ht ho hrun hT hd hd'
  have hex : ∃ k, J.card ≤ (d + 1) * (J.filter fun x => c.get? x = some k).card := by
    by_contra hno
    push Not at hno
    have hmaps : ∀ x ∈ J, (c.get? x).getD 0 ∈ Finset.range (d + 1) := by
      intro x hx
      obtain ⟨k, hk⟩ := HMap.mem_keys_iff.1 ((h2 x).2 hx)
      rw [hk, Option.getD_some, Finset.mem_range]
      have := h3 x k hk
      omega
    have hsum := Finset.card_eq_sum_card_fiberwise (f := fun x => (c.get? x).getD 0) (s := J) (t := Finset.range (d + 1)) hmaps
    have hfib : ∀ k, (J.filter fun x => (c.get? x).getD 0 = k) = J.filter fun x => c.get? x = some k := by
      intro k
      ext x
      rw [Finset.mem_filter, Finset.mem_filter]
      refine and_congr_right fun hx => ?_
      obtain ⟨j, hj⟩ := HMap.mem_keys_iff.1 ((h2 x).2 hx)
      rw [hj, Option.getD_some, Option.some.injEq]
    simp only [hfib] at hsum
    have hpos : 0 < J.card := by
      rcases Nat.eq_zero_or_pos J.card with h0 | h0
      · exact absurd (hno 0) (by rw [h0]; omega)
      · exact h0
    have hle : ∑ k ∈ Finset.range (d + 1), (d + 1) * (J.filter fun x => c.get? x = some k).card ≤
        ∑ _k ∈ Finset.range (d + 1), (J.card - 1) := Finset.sum_le_sum fun k _ => by
      have := hno k
      omega
    rw [← Finset.mul_sum, ← hsum, Finset.sum_const, Finset.card_range, smul_eq_mul] at hle
    have := Nat.le_of_mul_le_mul_left hle (by omega)
    omega
  obtain ⟨k, hk⟩ := hex
  exact ⟨D, m, c, k, h1, hk, fun X hX => C58_witness_lower_bound H ω hω hr hn target h1 X hX k _ fun u hu =>
    (Finset.mem_filter.1 hu).2⟩

/-! ## Refutation -/

/-- If all in-neighbours of targets are targets that are processed earlier, at distance more than `r`, all targets join. -/
theorem domRun_all {V : Finset ℕ} {R : ℕ → ℕ → ℕ → Prop} {T : ℕ → Prop} {r c : ℕ} : ∀ {l : List ℕ} {J : Finset ℕ} {μ : ℕ → ℕ},
    DomRun V R T r c l J μ → l.Nodup → (∀ x ∈ l, x ∈ V) →
    (∀ l2 v l1, l = l2 ++ v :: l1 → T v → ∀ u d, R v u d → T u ∧ r < d ∧ u ∈ l1) →
    (∀ x, x ∈ J ↔ x ∈ l ∧ T x) ∧ (∀ x ∈ V, T x → (x ∈ l → μ x = 0) ∧ (x ∉ l → μ x = r + 1)) ∧ ∀ x ∈ V, ¬ T x → μ x ≤ r := by
  intro l J μ h
  induction h with
  | nil hT hN =>
    intro _ _ _
    refine ⟨fun x => by simp, fun x hx hTx => ⟨fun h => by simp at h, fun _ => hT x hx hTx⟩, fun x hx hTx => (hN x hx hTx).le⟩
  | @cons l J J' μ μ' v h hs ih =>
    intro hnd hV hin
    rw [List.nodup_cons] at hnd
    obtain ⟨i1, i2, i3⟩ := ih hnd.2 (fun x hx => hV x (List.mem_cons_of_mem _ hx))
      (fun l2 w l1 he => hin (v :: l2) w l1 (by rw [he]; rfl))
    have hvV := hV v (by simp)
    obtain ⟨k, ⟨hk, hk'⟩, hs⟩ := hs
    have hkle : k ≤ μ v := by
      by_contra hc
      exact hk' (μ v) (by omega) (Or.inl rfl)
    by_cases hTv : T v
    · have hkr : r < k := by
        rcases hk with rfl | ⟨u, d, hR, rfl⟩
        · rw [(i2 v hvV hTv).2 hnd.1]; omega
        · have := (hin [] v l rfl hTv u d hR).2.1
          omega
      rcases hs with ⟨hle, -⟩ | ⟨-, rfl, hμ⟩
      · omega
      have hJ : ∀ x, x ∈ insert v J ↔ x ∈ v :: l ∧ T x := by
        intro x
        rw [Finset.mem_insert, i1, List.mem_cons]
        constructor
        · rintro (rfl | ⟨h1, h2⟩)
          · exact ⟨Or.inl rfl, hTv⟩
          · exact ⟨Or.inr h1, h2⟩
        · rintro ⟨rfl | h1, h2⟩
          · exact Or.inl rfl
          · exact Or.inr ⟨h1, h2⟩
      -- an in-neighbour of a target in the list is in the rest of the list
      have hrest : ∀ s ∈ v :: l, T s → ∀ x d, R s x d → T x ∧ x ∈ l := by
        intro s hs hTs x d hR
        rcases List.mem_cons.1 hs with rfl | hs
        · exact ⟨(hin [] s l rfl hTs x d hR).1, (hin [] s l rfl hTs x d hR).2.2⟩
        · obtain ⟨a, b, rfl⟩ := List.append_of_mem hs
          obtain ⟨h1, -, h2⟩ := hin (v :: a) s b rfl hTs x d hR
          exact ⟨h1, by simp [h2]⟩
      have hgen : ∀ x, Generated R c (insert v J) x → x ∈ v :: l ∧ T x := by
        rintro x (hx | ⟨A, hA, hA'⟩)
        · exact (hJ x).1 hx
        · obtain ⟨s, hs⟩ := Finset.card_pos.1 (lt_of_le_of_lt (Nat.zero_le _) hA')
          obtain ⟨hs, d, hR⟩ := (hA s).1 hs
          obtain ⟨h1, h2⟩ := (hJ s).1 hs
          obtain ⟨h3, h4⟩ := hrest s h1 h2 x d hR
          exact ⟨List.mem_cons_of_mem _ h4, h3⟩
      refine ⟨hJ, fun x hx hTx => ⟨fun hxl => ?_, fun hxl => ?_⟩, fun x hx hTx => ?_⟩
      · obtain ⟨-, hm⟩ := hμ x hx
        by_contra hc
        exact hm 0 (by omega) (Or.inr (Or.inl ⟨rfl, Or.inl ((hJ x).2 ⟨hxl, hTx⟩)⟩))
      · obtain ⟨hm, -⟩ := hμ x hx
        rcases hm with hm | ⟨-, hm⟩ | ⟨s, hs, hm⟩
        · rw [hm]
          exact (i2 x hx hTx).2 fun h => hxl (List.mem_cons_of_mem _ h)
        · exact absurd (hgen x hm).1 hxl
        · obtain ⟨h1, h2⟩ := hgen s hs
          exact absurd (List.mem_cons_of_mem _ (hrest s h1 h2 x _ hm).2) hxl
      · obtain ⟨-, hm⟩ := hμ x hx
        by_contra hc
        exact hm (μ x) (by have := i3 x hx hTx; omega) (Or.inl rfl)
    · have := i3 v hvV hTv
      rcases hs with ⟨-, rfl, hμ⟩ | ⟨hlt, -⟩
      · refine ⟨fun x => ?_, fun x hx hTx => ?_, fun x hx hTx => ?_⟩
        · rw [i1, List.mem_cons]
          constructor
          · exact fun h => ⟨Or.inr h.1, h.2⟩
          · rintro ⟨rfl | h1, h2⟩
            · exact absurd h2 hTv
            · exact ⟨h1, h2⟩
        · have hne : x ≠ v := by rintro rfl; exact hTv hTx
          rw [hμ x hx, if_neg hne, List.mem_cons]
          have := i2 x hx hTx
          exact ⟨fun h => this.1 (h.resolve_left hne), fun h => this.2 fun h' => h (Or.inr h')⟩
        · rw [hμ x hx]
          split
          · omega
          · exact i3 x hx hTx
      · omega

/-- The vertex in the middle of an edge. -/
def mid (a b : ℕ) : ℕ := 268 + 268 * a + b

theorem mid_inj {a b a' b' : ℕ} (hb : b < 268) (hb' : b' < 268) (h : mid a b = mid a' b') : a = a' ∧ b = b' := by
  unfold mid at h
  omega

/-- The edges of `two`, each replaced by a path of length 2. -/
def fineEdges : List (ℕ × ℕ) := twoEdges.flatMap fun e => [(e.1, mid e.1 e.2), (mid e.1 e.2, e.2)]

/-- The graph with these edges. -/
def fine : SGraph := SGraph.empty.addEdges fineEdges

theorem twoEdge_lt {a b : ℕ} (h : twoEdge a b) : a < b ∧ b < 268 := by
  unfold twoEdge at h
  omega

theorem mem_fineEdges {x y : ℕ} : (x, y) ∈ fineEdges ↔ ∃ a b, twoEdge a b ∧ ((x = a ∧ y = mid a b) ∨ (x = mid a b ∧ y = b)) := by
  unfold fineEdges
  simp only [List.mem_flatMap, Prod.exists, mem_twoEdges, List.mem_cons, List.not_mem_nil, or_false, Prod.mk.injEq]

/-- Edges of `fine` join a vertex below 268 to the middle of one of its edges in `two`. -/
theorem fine_adj {x y : ℕ} (hx : x < 268) : fine.Adj x y ↔ ∃ a b, twoEdge a b ∧ y = mid a b ∧ (x = a ∨ x = b) := by
  unfold fine
  rw [SGraph.addEdges_adj]
  have : ¬ SGraph.empty.Adj x y := by simp [SGraph.Adj, SGraph.empty]
  simp only [mem_fineEdges, this, false_or]
  constructor
  · rintro (⟨a, b, h, ⟨h1, h2⟩ | ⟨h1, h2⟩⟩ | ⟨a, b, h, ⟨h1, h2⟩ | ⟨h1, h2⟩⟩)
    · exact ⟨a, b, h, h2, Or.inl h1⟩
    · unfold mid at h1; omega
    · unfold mid at h2; omega
    · exact ⟨a, b, h, h1, Or.inr h2⟩
  · rintro ⟨a, b, h, h1, h2 | h2⟩
    · exact Or.inl ⟨a, b, h, Or.inl ⟨h2, h1⟩⟩
    · exact Or.inr ⟨a, b, h, Or.inr ⟨h1, h2⟩⟩

theorem fine_adj_side {x y : ℕ} (h : fine.Adj x y) : x < 268 ↔ ¬ y < 268 := by
  by_cases hx : x < 268
  · obtain ⟨a, b, -, rfl, -⟩ := (fine_adj hx).1 h
    unfold mid
    omega
  · by_cases hy : y < 268
    · omega
    · unfold fine at h
      rw [SGraph.addEdges_adj] at h
      have : ¬ SGraph.empty.Adj x y := by simp [SGraph.Adj, SGraph.empty]
      simp only [mem_fineEdges, this, false_or] at h
      rcases h with ⟨a, b, h, h'⟩ | ⟨a, b, h, h'⟩ <;> have := twoEdge_lt h <;> omega

theorem fine_loopless : fine.Loopless := by
  intro u h
  have := fine_adj_side h
  omega

theorem fine_mem {u : ℕ} : u ∈ fine.V ↔ u < 268 ∨ ∃ a b, twoEdge a b ∧ u = mid a b := by
  unfold fine
  rw [EditGraph.mem_addEdges_V]
  constructor
  · rintro (h | ⟨⟨x, y⟩, he, h⟩)
    · exact absurd h (Finset.notMem_empty u)
    · obtain ⟨a, b, h1, h2⟩ := mem_fineEdges.1 he
      have := twoEdge_lt h1
      simp only at h
      rcases h2 with ⟨rfl, rfl⟩ | ⟨rfl, rfl⟩ <;> rcases h with rfl | rfl
      · exact Or.inl (by omega)
      · exact Or.inr ⟨_, _, h1, rfl⟩
      · exact Or.inr ⟨_, _, h1, rfl⟩
      · exact Or.inl this.2
  · rintro (h | ⟨a, b, h, rfl⟩)
    · have hu := two_mem.2 h
      have : ∃ v, two.Adj u v := by
        by_contra hno
        push Not at hno
        have h1 := hno (if u = 266 then 267 else if 132 ≤ u then 266 else 132)
        rw [two_adj] at h1
        unfold twoEdge at h1
        split at h1
        · omega
        · split at h1 <;> omega
      obtain ⟨v, hv⟩ := this
      right
      rcases two_adj.1 hv with hv | hv
      · exact ⟨(u, mid u v), mem_fineEdges.2 ⟨u, v, hv, Or.inl ⟨rfl, rfl⟩⟩, Or.inl rfl⟩
      · exact ⟨(mid v u, u), mem_fineEdges.2 ⟨v, u, hv, Or.inr ⟨rfl, rfl⟩⟩, Or.inr rfl⟩
    · exact Or.inr ⟨(a, mid a b), mem_fineEdges.2 ⟨a, b, h, Or.inl ⟨rfl, rfl⟩⟩, Or.inr rfl⟩

theorem fine_card : fine.V.card ≤ 2 ^ 31 := by
  refine (Finset.card_le_card (t := Finset.range (2 ^ 20)) fun u hu => ?_).trans (by rw [Finset.card_range]; omega)
  rw [Finset.mem_range]
  rcases fine_mem.1 hu with h | ⟨a, b, h, rfl⟩
  · omega
  · have := twoEdge_lt h
    unfold mid
    omega

/-- Walks of length at most 2 in `fine` between different vertices below 268 are edges of `two`. -/
theorem fine_walk {x y n : ℕ} (hx : x < 268) (hy : y < 268) (hxy : x ≠ y) (hn : n ≤ 2) (h : Walk fine.Adj n x y) :
    n = 2 ∧ two.Adj x y := by
  cases h with
  | nil => exact absurd rfl hxy
  | cons h1 h =>
    cases h with
    | nil =>
      have := fine_adj_side h1
      omega
    | cons h2 h =>
      cases h with
      | cons => omega
      | nil =>
        refine ⟨rfl, ?_⟩
        obtain ⟨a, b, e, rfl, h3⟩ := (fine_adj hx).1 h1
        obtain ⟨a', b', e', h5, h4⟩ := (fine_adj hy).1 h2.symm
        obtain ⟨rfl, rfl⟩ := mid_inj (twoEdge_lt e).2 (twoEdge_lt e').2 h5
        rw [two_adj]
        rcases h3 with rfl | rfl <;> rcases h4 with rfl | rfl
        · exact absurd rfl hxy
        · exact Or.inl e
        · exact Or.inr e
        · exact absurd rfl hxy

/-- The graph on the vertices below 268 joining those at distance at most 2 in `fine` is `two`. -/
theorem fine_conflict : fine.IsConflict 2 (Finset.range 268) two := by
  refine ⟨by ext u; rw [two_mem, Finset.mem_range], fun x y => ?_⟩
  rw [Finset.mem_range, Finset.mem_range]
  constructor
  · intro h
    have hx := two_mem.1 h.left
    have hy := two_mem.1 h.right
    refine ⟨hx, hy, fun e => two_loopless x (by rw [← e] at h; exact h), 2, le_refl _, ?_⟩
    rcases two_adj.1 h with h | h
    · exact .cons (v := mid x y) ((fine_adj hx).2 ⟨x, y, h, rfl, Or.inl rfl⟩)
        (.cons ((fine_adj hy).2 ⟨x, y, h, rfl, Or.inr rfl⟩).symm (.nil _))
    · exact .cons (v := mid y x) ((fine_adj hx).2 ⟨y, x, h, rfl, Or.inr rfl⟩)
        (.cons ((fine_adj hy).2 ⟨y, x, h, rfl, Or.inl rfl⟩).symm (.nil _))
  · rintro ⟨hx, hy, hxy, n, hn, hw⟩
    exact (fine_walk hx hy hxy hn hw).2

/-- The vertices below 268 by decreasing degree. -/
def fineLow : List ℕ := (List.range 268).insertionSort (fun a b => fine.deg b ≤ fine.deg a)

/-- The vertices below 268 by decreasing degree, then the middles. -/
def fineOrd : List ℕ := fineLow ++ (twoEdges.map fun e => mid e.1 e.2).dedup

theorem mem_fineLow {u : ℕ} : u ∈ fineLow ↔ u < 268 := by
  unfold fineLow
  rw [List.mem_insertionSort, List.mem_range]

theorem fineLow_nodup : fineLow.Nodup := (List.perm_insertionSort _ _).nodup_iff.2 List.nodup_range

theorem fineLow_sorted : fineLow.Pairwise fun a b => fine.deg b ≤ fine.deg a := by
  unfold fineLow
  haveI : Std.Total (fun a b : ℕ => fine.deg b ≤ fine.deg a) := ⟨fun a b => Nat.le_total _ _⟩
  haveI : IsTrans ℕ (fun a b : ℕ => fine.deg b ≤ fine.deg a) := ⟨fun a b c h1 h2 => Nat.le_trans h2 h1⟩
  exact List.pairwise_insertionSort _ _

theorem fineOrd_nodup : fineOrd.Nodup := by
  unfold fineOrd
  rw [List.nodup_append]
  refine ⟨fineLow_nodup, List.nodup_dedup _, fun a ha b hb hab => ?_⟩
  rw [List.mem_dedup, List.mem_map] at hb
  obtain ⟨e, -, rfl⟩ := hb
  have := mem_fineLow.1 ha
  rw [hab] at this
  unfold mid at this
  omega

theorem mem_fineOrd {u : ℕ} : u ∈ fineOrd ↔ u ∈ fine.V := by
  unfold fineOrd
  rw [List.mem_append, mem_fineLow, List.mem_dedup, List.mem_map, fine_mem]
  refine or_congr_right ⟨?_, ?_⟩
  · rintro ⟨⟨a, b⟩, h1, h2⟩
    exact ⟨a, b, mem_twoEdges.1 h1, h2.symm⟩
  · rintro ⟨a, b, h1, h2⟩
    exact ⟨(a, b), mem_twoEdges.2 h1, h2.symm⟩

theorem fine_idx {u : ℕ} : fineOrd.idxOf u < fineLow.length ↔ u < 268 := by
  unfold fineOrd
  by_cases hu : u < 268
  · rw [List.idxOf_append_of_mem (mem_fineLow.2 hu)]
    simp only [hu, iff_true]
    exact List.idxOf_lt_length_iff.2 (mem_fineLow.2 hu)
  · rw [List.idxOf_append_of_notMem (fun h => hu (mem_fineLow.1 h))]
    omega

theorem fine_left {v : ℕ} (hv : v < 268) : fine.before fineOrd v = ∅ := by
  refine Finset.eq_empty_of_forall_notMem fun u hu => ?_
  rw [mem_before] at hu
  have h1 := fine_adj_side hu.1
  have h2 := fine_idx.2 hv
  have h3 := mt fine_idx.1 (h1.1 hv)
  omega

theorem fine_deg_le {u v : ℕ} (hv : v < 268) (h : fineOrd.idxOf u < fineOrd.idxOf v) : fine.deg v ≤ fine.deg u := by
  have h1 := fine_idx.2 hv
  have hu := fine_idx.1 (h.trans h1)
  unfold fineOrd at h
  rw [List.idxOf_append_of_mem (mem_fineLow.2 hu), List.idxOf_append_of_mem (mem_fineLow.2 hv)] at h
  have h2 := List.idxOf_lt_length_iff.2 (mem_fineLow.2 hu)
  have h3 := List.idxOf_lt_length_iff.2 (mem_fineLow.2 hv)
  have := List.pairwise_iff_getElem.1 fineLow_sorted _ _ h2 h3 h
  simpa using this

/-- All vertices below 268 join, whether weak reachability is taken for distance 1 or 2. -/
theorem fine_run {M c : ℕ} (hM : M ≤ 2) {o : List ℕ} (ho : fine.ByLeftDegree fineOrd o) {J : Finset ℕ} {μ : ℕ → ℕ}
    {T : ℕ → Prop} (hT : ∀ x, T x ↔ x < 268)
    (h : DomRun fine.V (fun v u d => fine.WReach fineOrd v u d ∧ d ≤ M) T 1 c o.reverse J μ) :
    J = Finset.range 268 := by
  have hnd : o.Nodup := ho.2.imp fun {a b} hab e => by
    subst e
    omega
  have O : fine.Ordering fineOrd := ⟨fineOrd_nodup, fun _ => mem_fineOrd⟩
  have := (domRun_all h (List.nodup_reverse.2 hnd) (fun x hx => (ho.1 x).1 (List.mem_reverse.1 hx)) ?_).1
  · ext x
    rw [this, hT, Finset.mem_range, List.mem_reverse, ho.1, fine_mem]
    exact ⟨fun h => h.2, fun h => ⟨Or.inl h, h⟩⟩
  · rintro l2 v l1 hl hv u d ⟨hR, hd⟩
    rw [hT] at hv ⊢
    have hu : u < 268 := fine_idx.1 (hR.1.trans (fine_idx.2 hv))
    have huv : v ≠ u := by
      rintro rfl
      exact absurd hR.1 (by omega)
    have hw := fine_walk hv hu huv (by omega) (hR.walk O)
    refine ⟨hu, by omega, ?_⟩
    have hlo : o = l1.reverse ++ v :: l2.reverse := by
      have := congrArg List.reverse hl
      simpa using this
    have hmem : u ∈ o := (ho.1 u).2 (fine_mem.2 (Or.inl hu))
    rw [hlo, List.mem_append, List.mem_cons, List.mem_reverse, List.mem_reverse] at hmem
    rcases hmem with h1 | h1 | h1
    · exact h1
    · exact absurd h1.symm huv
    · exfalso
      have hp := ho.2
      rw [hlo, List.pairwise_append, List.pairwise_cons] at hp
      have h2 := hp.2.1.1 u (List.mem_reverse.2 h1)
      rw [fine_left hu, fine_left hv] at h2
      have h3 := fine_deg_le hv hR.1
      have h4 := hR.1
      simp only [Finset.card_empty, lt_irrefl, true_and, false_or] at h2
      omega

theorem fine_lin : ∃ L : LinGraph, L.LRep fine fineOrd := by
  obtain ⟨o, -, H⟩ := builtOrd_lin fineEdges fineOrd (fun u _ h => fine_loopless u h) fineOrd_nodup (by
    ext u
    rw [List.mem_toFinset]
    exact mem_fineOrd)
  exact ⟨o.lin, H⟩

/-- `by_degeneracy` followed by `colour_greedy` may panic on `two`. -/
theorem two_fails {G : Graph} (hG : G.Rep two) :
    ∃ σ, (OrdGraph.byDegeneracy σ G >>= fun OH => OH.lin.colourGreedy) = .error .panic := by
  obtain ⟨σ, lo, up, core, hd⟩ := (C38_orders hG two_loopless (by rw [two_card]; omega) (List.range 268)).2 two_peeled
  obtain ⟨g, ho, I⟩ := OrdGraph.withOrdering_inv hG two_loopless ⟨List.nodup_range, two_range⟩
  refine ⟨σ, ?_⟩
  rw [byDegeneracy_eq hd ho, bind_ok, two_panics I.lrep]

/-- `domset_with_target(1, true, …)` may panic. -/
theorem fine_domset {L : LinGraph} (H : L.LRep fine fineOrd) :
    ∃ σ o μ, fine.ByLeftDegree fineOrd o ∧
      DomRun fine.V (fun v u d => fine.WReach fineOrd v u d ∧ d ≤ 1) (· ∈ List.range 268) 1 ((2 * 1) ^ 2) o.reverse
        (Finset.range 268) μ ∧
      L.domsetWithTarget (idDom.withDegen σ) 1 true (List.range 268) = .error .panic := by
  have hne : fine.V.Nonempty := ⟨0, fine_mem.2 (Or.inl (by omega))⟩
  obtain ⟨o, J, μ, D, m, G, T, h1, h2, -, h4, h5, h6, h7⟩ := domset_witness H idDom relayout_refl (r := 1) (by omega) fine_card
    (target := List.range 268) hne (by simp)
  obtain rfl := fine_run (by omega) h1 (fun x => List.mem_range) h2
  obtain rfl := IsConflict.unique h6 fine_conflict
  obtain ⟨σ, hσ⟩ := two_fails h4
  exact ⟨σ, o, μ, h1, h2, by rw [h7, hσ]; rfl⟩

/-- **C108 refuted.** There is a graph with radius 1 and 268 targets, whose conflict graph has degeneracy 133, on which
`domset_with_target` panics when asked for a witness, for some iteration order of the tables of `degeneracy`. -/
theorem C108_refuted : ¬ C108_statement := by
  intro hC
  obtain ⟨L, H⟩ := fine_lin
  obtain ⟨σ, o, μ, h1, h2, h3⟩ := fine_domset H
  obtain ⟨d, hd⟩ := two.exists_degeneracy
  obtain ⟨D, m, c, h4, -⟩ := hC L fine fineOrd (idDom.withDegen σ) 1 (List.range 268) o (Finset.range 268) μ two d H relayout_refl
    (by omega) fine_card ⟨0, fine_mem.2 (Or.inl (by omega))⟩ (by simp) h1 h2 fine_conflict hd
  rw [h3] at h4
  cases h4

/-- **C59 refuted, even distance.** For distance 2 and the same targets, `scattered_colouring` may panic. -/
theorem C59_panics : ∃ (L : LinGraph) (S : SGraph) (ord : List ℕ) (ω : LinGraph.ScatterOrder) (target : List ℕ), L.LRep S ord ∧
    (∀ k g, EditGraph.Relayout g ((ω.witness k).lay g)) ∧ S.V.card ≤ 2 ^ 31 ∧ (∀ x ∈ target, x ∈ S.V) ∧
    ∀ fuel, 0 < fuel → L.scatteredColouring ω fuel 2 target = .error .panic := by
  obtain ⟨L, H⟩ := fine_lin
  have O := H.ordering
  have hn := fine_card
  have hc : ¬ (L.isEmpty || (HSet.ofList (List.range 268)).len == 0) = true := by
    rw [Bool.or_eq_true]
    rintro (h | h)
    · rw [lin_isEmpty H] at h
      have : 0 ∈ fine.V := fine_mem.2 (Or.inl (by omega))
      rw [h] at this
      exact Finset.notMem_empty 0 this
    · have h1 := Scatter.toList_of_len (by simpa using h)
      have h2 : 0 ∈ HSet.ofList (List.range 268) := HSet.mem_ofList.2 (by simp)
      rw [← HSet.mem_toList, h1] at h2
      simp at h2
  obtain ⟨o, ho, -, -⟩ := Dom.order H hn
  obtain ⟨hnd, hbl⟩ := Dom.order_rule H hn ho
  obtain ⟨ws, hws, Tb⟩ := H.wreachSets idScatter.bfs idScatter.layers (r := 2) (by omega)
  obtain ⟨st, hst, h1, h2, -⟩ := Dom.phase (target := HSet.ofList (List.range 268)) O Tb idScatter.wreach
    4 (r := 1) (by omega) (by omega) hnd hbl.1
  have hscV : ∀ x ∈ st.scattered, x ∈ fine.V := fun x hx => h1 x (h2 x hx).1
  obtain ⟨J, μ, g1, gJ, -⟩ := Dom.phase_rule O Tb hnd hbl.1 hst
  obtain rfl := fine_run (M := 2) (le_refl _) hbl (fun x => by rw [HSet.mem_ofList, List.mem_range]) g1
  obtain ⟨G, T, hG, -, hC, haux⟩ := Dom.auxGraph O Tb idScatter.wreach idWitness relayout_refl (strict := false)
      (limit := 2) (le_refl _) (by simp) (by omega) hscV
  have hJ : st.scattered.toFinset = Finset.range 268 := by
    ext x
    rw [gJ, HSet.mem_toFinset]
  rw [hJ] at hC
  obtain rfl := IsConflict.unique hC fine_conflict
  obtain ⟨σ, hσ⟩ := two_fails hG
  refine ⟨L, fine, fineOrd, { idScatter with witness := fun _ => { idWitness with degen := σ } }, List.range 268, H,
    fun _ => relayout_refl, hn, fun x hx => fine_mem.2 (Or.inl (List.mem_range.1 hx)), fun fuel hf => ?_⟩
  obtain ⟨fuel, rfl⟩ := Nat.exists_eq_succ_of_ne_zero (Nat.pos_iff_ne_zero.1 hf)
  unfold LinGraph.scatteredColouring
  simp only
  rw [if_neg hc]
  have e1 : L.wreachSets idScatter.bfs idScatter.layers 2 = .ok ws := hws
  rw [e1, bind_ok, add32_ok (by decide), bind_ok, mul32_ok (by decide), bind_ok, ho, bind_ok, mul32_ok (by decide), bind_ok]
  unfold LinGraph.scatterLoop
  rw [if_neg (fun h => hc (by rw [Bool.or_eq_true]; exact Or.inr h))]
  simp only
  have e2 : LinGraph.domPhase (HSet.ofList (List.range 268)) (2 / 2) (2 / 2 + 1) (2 * 2) ws idScatter.wreach o = .ok st := hst
  have e3 : LinGraph.auxColouring false (2 * (2 / 2)) { idWitness with degen := σ } ws idScatter.wreach st.scattered =
    .error .panic := (haux σ).trans hσ
  rw [e2, bind_ok, e3]
  rfl

/-- **C59 (partial).** The number of classes is bounded in terms of the pairs of targets that are too close to share a class: `k`
classes require `k * (k - 1)` ordered pairs of different targets at distance less than `2*(distance/2)`. -/
theorem C59_few_classes_partial {L : LinGraph} {S : SGraph} {ord : List ℕ} (H : L.LRep S ord)
    (ω : LinGraph.ScatterOrder) (hω : ∀ k g, EditGraph.Relayout g ((ω.witness k).lay g)) {D : ℕ} (hD : D < 2 ^ 16)
    (hn : S.V.card ≤ 2 ^ 31) {target : List ℕ} (hT : ∀ x ∈ target, x ∈ S.V) {fuel : ℕ} (hf : target.toFinset.card < fuel)
    {cl : List (HSet ℕ)} (h : L.scatteredColouring ω fuel D target = .ok cl) (P : Finset (ℕ × ℕ))
    (hP : ∀ x ∈ target, ∀ y ∈ target, x ≠ y → (∃ n < 2 * (D / 2), Walk S.Adj n x y) → (x, y) ∈ P) :
    cl.length * (cl.length - 1) ≤ P.card := by
  rcases C59_scattered_colouring_partial H ω hω hD hn hT hf with ⟨-, h1⟩ | ⟨cl', h1, -, h3, h4, -, h6⟩
  · rw [h1] at h
    cases h
  rw [h] at h1
  cases h1
  have hdis : ∀ i j : Fin cl.length, i ≠ j → ∀ x ∈ cl[i], x ∉ cl[j] := by
    intro i j hij x hx hx'
    rcases lt_or_gt_of_ne hij with hlt | hlt
    · exact List.pairwise_iff_getElem.1 h3 i j i.2 j.2 hlt x hx hx'
    · exact List.pairwise_iff_getElem.1 h3 j i j.2 i.2 hlt x hx' hx
  have hclose : ∀ q : Fin cl.length × Fin cl.length, q.1 ≠ q.2 → ∃ e : ℕ × ℕ, e.1 ∈ cl[q.1] ∧ e.2 ∈ cl[q.2] ∧ e ∈ P := by
    rintro ⟨i, j⟩ hij
    have hmem : ∀ (i : Fin cl.length) x, x ∈ cl[i] → x ∈ target := fun i x hx => (h4 x).2 ⟨cl[i], List.getElem_mem _, hx⟩
    rcases lt_or_gt_of_ne hij with hlt | hlt
    · obtain ⟨x, hx, y, hy, n, hn', hw⟩ := List.pairwise_iff_getElem.1 h6 i j i.2 j.2 hlt
      have hxy : x ≠ y := by rintro rfl; exact hdis i j hij x hx hy
      exact ⟨(x, y), hx, hy, hP x (hmem i x hx) y (hmem j y hy) hxy ⟨n, hn', hw⟩⟩
    · obtain ⟨x, hx, y, hy, n, hn', hw⟩ := List.pairwise_iff_getElem.1 h6 j i j.2 i.2 hlt
      have hxy : y ≠ x := by rintro rfl; exact hdis i j hij y hy hx
      exact ⟨(y, x), hy, hx, hP y (hmem i y hy) x (hmem j x hx) hxy ⟨n, hn', hw.symm fun _ _ h => h.symm⟩⟩
  choose! f hf1 hf2 hf3 using hclose
  have hinj : Set.InjOn f ((Finset.univ : Finset (Fin cl.length)).offDiag : Set (Fin cl.length × Fin cl.length)) := by
    rintro ⟨i, j⟩ hij ⟨i', j'⟩ hij' he
    have hij := (Finset.mem_offDiag.1 hij).2.2
    have hij' := (Finset.mem_offDiag.1 hij').2.2
    have e1 : i = i' := by
      by_contra hne
      have := hf1 (i, j) hij
      rw [he] at this
      exact hdis i i' hne _ this (hf1 (i', j') hij')
    have e2 : j = j' := by
      by_contra hne
      have := hf2 (i, j) hij
      rw [he] at this
      exact hdis j j' hne _ this (hf2 (i', j') hij')
    rw [e1, e2]
  have hcard := Finset.card_le_card_of_injOn f (fun q hq => hf3 q (Finset.mem_offDiag.1 hq).2.2) hinj
  rw [Finset.offDiag_card, Finset.card_univ, Fintype.card_fin] at hcard
  rw [Nat.mul_sub, Nat.mul_one]
  exact hcard

/-- The hypothesis on `P` is met: splitting the path 0-1-2 for distance 2 into two classes, where `P` are the ordered pairs of
adjacent vertices. -/
example : ∀ x ∈ [0, 1, 2], ∀ y ∈ [0, 1, 2], x ≠ y →
    (∃ n < 2 * (2 / 2), Walk (SGraph.empty.addEdges [(0, 1), (1, 2)]).Adj n x y) →
    (x, y) ∈ ([(0, 1), (1, 0), (1, 2), (2, 1)] : List (ℕ × ℕ)).toFinset := by
  rintro x hx y hy hxy ⟨n, hn, hw⟩
  have hadj : (SGraph.empty.addEdges [(0, 1), (1, 2)]).Adj x y := by
    rcases Nat.lt_or_ge n 1 with h | h
    · obtain rfl : n = 0 := by omega
      cases hw
      exact absurd rfl hxy
    · obtain rfl : n = 1 := by omega
      exact Walk.one_iff.1 hw
  clear hw hn
  revert x y
  decide

end Verif
