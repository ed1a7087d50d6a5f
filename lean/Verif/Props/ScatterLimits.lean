import Verif.Props.Scatter
/-!
# C117: targets outside the graph

`scattered_colouring` and `domset_with_target` for targets that are not vertices of the graph.
-/
namespace Verif
open SGraph DTFGraph

namespace Scatter
variable {S : SGraph} {ord : List ℕ} {ws : HMap ℕ (HMap ℕ ℕ)} {M limit : ℕ}

/-- A target that is not a vertex stays in the target in every round. -/
theorem scatterLoop_diverges (O : S.Ordering ord) (Tb : LinGraph.LRep.WTab S ord ws M) (ρ : ℕ → Shuffle (ℕ × ℕ)) (cutoff r : ℕ)
    (ω : ℕ → LinGraph.WitnessOrder) (hω : ∀ k g, EditGraph.Relayout g ((ω k).lay g)) (hlim : limit ≤ M)
    (hM : 2 * M < 2 ^ 32) (hM' : M + (r + 1) < 2 ^ 32)
    (hn : S.V.card ≤ 2 ^ 31) {order : List ℕ} (hnd : order.Nodup) (hord : ∀ x, x ∈ order ↔ x ∈ S.V)
    {target0 : Finset ℕ} {z : ℕ} (hz : z ∉ S.V) : ∀ (fuel : ℕ) (target : HSet ℕ) (col : HMap ℕ ℕ),
      (∀ x ∈ target, x ∈ target0) → z ∈ target → (∀ u ∈ col.keys, u ∈ S.V) → (∀ u ∈ target, u ∉ col.keys) →
      (∀ u c, col.get? u = some c → c < col.len) →
      ((∃ W ⊆ target0, W ⊆ S.V ∧ S.Crowd limit 130 W) ∧
        LinGraph.scatterLoop ω ρ r (r + 1) cutoff limit ws order fuel target col = .error .panic) ∨
      LinGraph.scatterLoop ω ρ r (r + 1) cutoff limit ws order fuel target col = .error .fuel := by
  intro fuel
  have hne : ∀ target : HSet ℕ, z ∈ target → ¬ (target.len == 0) = true := by
    intro target hzt h
    have h1 := toList_of_len (by simpa using h)
    rw [← HSet.mem_toList, h1] at hzt
    simp at hzt
  induction fuel with
  | zero =>
    intro target col _ hzt _ _ _
    unfold LinGraph.scatterLoop
    rw [if_neg (hne _ hzt)]
    exact .inr rfl
  | succ fuel ih =>
    intro target col ht0 hzt hcV hdis hsmall
    unfold LinGraph.scatterLoop
    rw [if_neg (hne _ hzt)]
    simp only
    obtain ⟨st, hst, h1, h2, -⟩ := Dom.phase (target := target) O Tb ρ cutoff hM' (by omega) hnd hord
    rw [hst, bind_ok]
    have hscV : ∀ x ∈ st.scattered, x ∈ S.V := fun x hx => h1 x (h2 x hx).1
    obtain ⟨A, T, o, hA, hTV, hTA, hjump, haux⟩ := Dom.auxColouring O Tb ρ (ω fuel) (hω fuel) (strict := false) hlim
      (by simp) hM hscV
    rw [haux]
    have hTsub : T.V ⊆ S.V := fun x hx => hscV x ((hTV x).1 hx)
    have hTcard : T.V.card = st.scattered.len := (HSet.len_of_mem_iff fun a => (hTV a).symm).symm
    have hTn : T.V.card ≤ 2 ^ 31 := (Finset.card_le_card hTsub).trans hn
    have hTt : T.V ⊆ target0 := fun x hx => ht0 x (h2 x ((hTV x).1 hx)).2
    rcases (SafeIf.of_safe (q := ∃ W ⊆ target0, W ⊆ S.V ∧ S.Crowd limit 130 W) (hA.colourGreedy_safe (by omega))
      (fun hq => hA.colourGreedy_noJump (by omega) (hjump fun W hW h => hq ⟨W, hW.trans hTt, hW.trans hTsub, h⟩))).elim with
      ⟨hq, he⟩ | ⟨cs, he, ⟨c1, c2, c3, -⟩, c4⟩
    · rw [he]; exact .inl ⟨hq, rfl⟩
    rw [he, bind_ok]
    have hsum : col.len + T.V.card < 2 ^ 32 := by
      have : col.len + T.V.card ≤ S.V.card := by
        rw [keys_card, ← Finset.card_union_of_disjoint]
        · exact Finset.card_le_card (Finset.union_subset (fun u hu => hcV u hu) hTsub)
        · rw [Finset.disjoint_left]
          intro u hu hu'
          exact hdis u (h2 u ((hTV u).1 hu')).2 hu
      omega
    obtain ⟨cr, hcr, e1, e2, e3, e4, e5⟩ := disjointExtend hsmall c3 hsum
    rw [hcr, bind_ok]
    have hkeys : ∀ (m : HMap ℕ ℕ) u, m.contains u = true ↔ u ∈ m.keys := fun m u => HMap.contains_iff
    simp only [hkeys] at e2 e4
    by_cases hl : cs.len = st.scattered.len
    · have e0 : assertR (cs.len == st.scattered.len) = .ok () := by simp [assertR, hl]
      rw [e0, bind_ok]
      have hcs : ∀ u, u ∈ cs.keys ↔ u ∈ st.scattered := by
        have hsub : (⟨cs.keys, cs.nodup⟩ : Finset ℕ) ⊆ T.V := fun u hu => c1 u hu
        have heq := Finset.eq_of_subset_of_card_le hsub (by rw [← keys_card]; omega)
        intro u
        rw [← hTV, ← heq]
        rfl
      have hret : ∀ u, u ∈ target.retain (fun u => !cr.contains u) ↔ u ∈ target ∧ u ∉ cr.keys := by
        intro u
        rw [HSet.mem_retain, Bool.not_eq_true', ← Bool.not_eq_true, hkeys]
      have hcrV : ∀ u ∈ cr.keys, u ∈ S.V := fun u hu => by
        rcases (e2 u).1 hu with h | h
        · exact hcV u h
        · exact hTsub (c1 u h)
      refine ih _ cr (fun x hx => ht0 x ((hret x).1 hx).1) ((hret z).2 ⟨hzt, fun h => hz (hcrV z h)⟩) hcrV
        (fun u hu => ((hret u).1 hu).2) fun u c hc => ?_
      refine lt_of_lt_of_le (e5 u c hc) ?_
      rw [hTcard, ← hl, keys_card, keys_card, keys_card, ← Finset.card_union_of_disjoint]
      · refine Finset.card_le_card fun u hu => ?_
        rcases Finset.mem_union.1 hu with h | h
        · exact (e2 u).2 (Or.inl h)
        · exact (e2 u).2 (Or.inr h)
      · rw [Finset.disjoint_left]
        intro u hu hu'
        exact hdis u (h2 u ((hcs u).1 hu')).2 hu
    · have e0 : assertR (cs.len == st.scattered.len) = .error .panic := by simp [assertR, hl]
      rw [e0]
      refine .inl ⟨?_, rfl⟩
      by_contra hq
      apply hl
      rw [← hTcard, keys_card]
      congr 1
      ext u
      exact (c4 hq).1 u

end Scatter

/-- **C117, divergence.**  If the target of `scattered_colouring` contains a number that is not a vertex of the (nonempty) graph,
the call never returns: whatever the number of rounds granted, it either uses them all up or panics in the greedy colouring, and the
latter requires target vertices each of which has 130 others of them within distance `2*(distance/2)`. -/
theorem C117_scattered_diverges {L : LinGraph} {S : SGraph} {ord : List ℕ} (H : L.LRep S ord)
    (ω : LinGraph.ScatterOrder) (hω : ∀ k g, EditGraph.Relayout g ((ω.witness k).lay g)) {D : ℕ} (hD : D < 2 ^ 16)
    (hne : S.V.Nonempty) (hn : S.V.card ≤ 2 ^ 31) {target : List ℕ} (hT : ∃ z ∈ target, z ∉ S.V) (fuel : ℕ) :
    ((∃ W ⊆ target.toFinset, W ⊆ S.V ∧ S.Crowd (2 * (D / 2)) 130 W) ∧
      L.scatteredColouring ω fuel D target = .error .panic) ∨
    L.scatteredColouring ω fuel D target = .error .fuel := by
  obtain ⟨z, hzt, hz⟩ := hT
  have hc : ¬ (L.isEmpty || (HSet.ofList target).len == 0) = true := by
    rw [Bool.or_eq_true]
    rintro (h | h)
    · rw [lin_isEmpty H] at h
      exact hne.ne_empty h
    · have h1 := Scatter.toList_of_len (by simpa using h)
      have h2 : z ∈ HSet.ofList target := HSet.mem_ofList.2 hzt
      rw [← HSet.mem_toList, h1] at h2
      simp at h2
  have hcut : D * D < 2 ^ 32 := by
    have : D * D ≤ (2 ^ 16 - 1) * (2 ^ 16 - 1) := Nat.mul_le_mul (by omega) (by omega)
    omega
  obtain ⟨order, ho, hnd, hord⟩ := Dom.order H hn
  obtain ⟨ws, hws, Tb⟩ := H.wreachSets ω.bfs ω.layers (r := D) (by omega)
  have key := Scatter.scatterLoop_diverges H.ordering Tb ω.wreach (D * D) (D / 2) ω.witness hω (limit := 2 * (D / 2)) (by omega)
    (by omega) (by omega) hn hnd hord (target0 := target.toFinset) hz fuel (HSet.ofList target) ∅
    (fun x hx => List.mem_toFinset.2 (HSet.mem_ofList.1 hx)) (HSet.mem_ofList.2 hzt) (by simp [HMap.keys]) (by simp [HMap.keys])
    (by simp)
  unfold LinGraph.scatteredColouring
  simp only
  rw [if_neg hc, hws, bind_ok, add32_ok (by omega), bind_ok, mul32_ok hcut, bind_ok, ho, bind_ok, mul32_ok (by omega), bind_ok]
  rcases key with ⟨hq, h⟩ | h <;> rw [h]
  · exact .inl ⟨hq, rfl⟩
  · exact .inr rfl

/-- `C117_scattered_diverges` for a triangle with a pendant vertex. -/
example := fun fuel => C117_scattered_diverges pan_lin.choose_spec.2 idScatter (fun _ => relayout_refl) (D := 2) (by decide)
  ⟨0, by decide⟩ (by decide) (target := [0, 9]) ⟨9, by decide, by decide⟩ fuel

/-- **C117.**  In particular it never returns for targets with at most 130 vertices of the graph and a non-vertex, and it
does not panic either. -/
theorem C117_scattered_never_returns {L : LinGraph} {S : SGraph} {ord : List ℕ} (H : L.LRep S ord)
    (ω : LinGraph.ScatterOrder) (hω : ∀ k g, EditGraph.Relayout g ((ω.witness k).lay g)) {D : ℕ} (hD : D < 2 ^ 16)
    (hne : S.V.Nonempty) (hn : S.V.card ≤ 2 ^ 31) {target : List ℕ} (hT : ∃ z ∈ target, z ∉ S.V)
    (hs : (target.toFinset ∩ S.V).card ≤ 130) (fuel : ℕ) : L.scatteredColouring ω fuel D target = .error .fuel := by
  rcases C117_scattered_diverges H ω hω hD hne hn hT fuel with ⟨⟨W, h1, h2, h3⟩, -⟩ | h
  · have := h3.card_lt
    have := Finset.card_le_card (Finset.subset_inter h1 h2)
    omega
  · exact h

/-- `C117_scattered_never_returns` for a triangle with a pendant vertex. -/
example := fun fuel => C117_scattered_never_returns pan_lin.choose_spec.2 idScatter (fun _ => relayout_refl) (D := 2) (by decide)
  ⟨0, by decide⟩ (by decide) (target := [0, 9]) ⟨9, by decide, by decide⟩ (by decide) fuel

/-- **C117.**  On the empty graph `scattered_colouring` returns no classes, whatever the target. -/
theorem C117_scattered_empty {L : LinGraph} {S : SGraph} {ord : List ℕ} (H : L.LRep S ord) (ω : LinGraph.ScatterOrder)
    (hV : S.V = ∅) (fuel D : ℕ) (target : List ℕ) : L.scatteredColouring ω fuel D target = .ok [] := by
  unfold LinGraph.scatteredColouring
  simp only
  rw [(lin_isEmpty H).2 hV]
  rfl

theorem DomRun.congr_target {V : Finset ℕ} {R : ℕ → ℕ → ℕ → Prop} {T T' : ℕ → Prop} {r c : ℕ} {l : List ℕ} {J : Finset ℕ}
    {μ : ℕ → ℕ} (h : DomRun V R T r c l J μ) (hT : ∀ x ∈ V, T x ↔ T' x) : DomRun V R T' r c l J μ := by
  induction h with
  | nil h1 h2 => exact .nil (fun x hx h => h1 x hx ((hT x hx).2 h)) (fun x hx h => h2 x hx fun h' => h ((hT x hx).1 h'))
  | cons _ hs ih => exact .cons ih hs

/-- **C117, dominating sets.**  `domset_with_target` ignores targets that are not vertices: as long as at least one target is a
vertex, the set and the distances are those for the targets in the graph. -/
theorem C117_domset_ignores {L L' : LinGraph} {S : SGraph} {ord : List ℕ} (H : L.LRep S ord) (H' : L'.LRep S ord)
    (ω ω' : LinGraph.DomOrder) {r : ℕ} (hr : r < 2 ^ 15) (hn : S.V.card ≤ 2 ^ 31) {target target' : List ℕ}
    (ht : ∀ x ∈ S.V, x ∈ target ↔ x ∈ target') (hne : ∃ x ∈ target, x ∈ S.V) {w w' : Bool} {D D' : HSet ℕ} {m m' : HMap ℕ ℕ}
    {c c' : Option (HMap ℕ ℕ)} (h : L.domsetWithTarget ω r w target = .ok (D, m, c))
    (h' : L'.domsetWithTarget ω' r w' target' = .ok (D', m', c')) : (∀ x, x ∈ D ↔ x ∈ D') ∧ ∀ x, m.get? x = m'.get? x := by
  obtain ⟨x₀, hx₀, hV₀⟩ := hne
  have hx₀' := (ht x₀ hV₀).1 hx₀
  have n1 : target ≠ [] := fun h => by rw [h] at hx₀; cases hx₀
  have n2 : target' ≠ [] := fun h => by rw [h] at hx₀'; cases hx₀'
  obtain ⟨o, J, μ, h1, h2, h3, h4⟩ := domset_rule H ω hr hn ⟨x₀, hV₀⟩ n1 h
  obtain ⟨h5, h6⟩ := C103_domset_with_target_rule H' ω' hr hn ⟨x₀, hV₀⟩ n2 h' h1 (h2.congr_target ht)
  refine ⟨fun x => (h3 x).trans (h5 x).symm, fun x => Option.ext fun k => ?_⟩
  rw [h4, h6]

/-- **C117.**  If no target is a vertex of the graph, the set returned is empty. -/
theorem C117_domset_no_target {L : LinGraph} {S : SGraph} {ord : List ℕ} (H : L.LRep S ord) (ω : LinGraph.DomOrder)
    (hω : ∀ g, EditGraph.Relayout g (ω.witness.lay g)) {r : ℕ} (hr : r < 2 ^ 15) (hn : S.V.card ≤ 2 ^ 31) {target : List ℕ}
    (ht : ∀ x ∈ target, x ∉ S.V) : ∃ D m, L.domsetWithTarget ω r false target = .ok (D, m, none) ∧ ∀ x, x ∉ D := by
  obtain ⟨D, m, A, T, o, h1, -, h2, h3, -, -, hT, hT', -, -, -, h4, -⟩ := domset_core H ω hω hr hn target
  refine ⟨D, m, h1, fun x hx => ?_⟩
  rcases (h4 x (h2 x hx)).1 hx with h | ⟨B, hB, hB'⟩
  · exact ht x (hT' x h) (h2 x hx)
  · obtain ⟨s, hs⟩ := Finset.card_pos.1 (lt_of_le_of_lt (Nat.zero_le _) hB')
    obtain ⟨hs', -⟩ := (hB s).1 hs
    exact ht s (hT' s hs') (h2 s (hT hs'))

/-- Hypotheses of the theorems on `scattered_colouring` and `domset_with_target` are met: 7 is not a vertex. -/
example : ∃ (L : LinGraph) (S : SGraph) (ω : LinGraph.ScatterOrder), L.LRep S [2, 0, 1] ∧
    (∀ k g, EditGraph.Relayout g ((ω.witness k).lay g)) ∧ 2 < 2 ^ 16 ∧ S.V.Nonempty ∧ S.V.card ≤ 2 ^ 31 ∧
    (∃ z ∈ [0, 7], z ∉ S.V) ∧ (∃ z ∈ [0, 7], z ∈ S.V) ∧ (∀ x ∈ S.V, x ∈ [0, 7] ↔ x ∈ [0]) ∧
    ([0, 7].toFinset ∩ S.V).card ≤ 130 ∧ ∀ x ∈ [7], x ∉ S.V := by
  obtain ⟨L, S, H, h01, h12, -, h5, -⟩ := exLin
  have hc : S.V.card = 3 := by rw [← H.ordering.length]; rfl
  have h7 : 7 ∉ S.V := fun h => by simpa using (H.ordering.mem 7).2 h
  refine ⟨L, S, idScatter, H, fun _ => relayout_refl, by omega, ⟨0, h01.left⟩, by omega, ⟨7, by simp, h7⟩, ⟨0, by simp, h01.left⟩,
    fun x hx => ?_, ?_, by simpa using h7⟩
  · have : x ≠ 7 := fun h => h7 (h ▸ hx)
    simp [this]
  · exact (Finset.card_le_card Finset.inter_subset_left).trans (by decide)

/-- A run: with a target outside the graph the rounds are used up, without it the call returns. -/
example : ((builtOrd [(0, 1), (1, 2)] [0, 1, 2]).bind fun o =>
    (o.lin.scatteredColouring idScatter 7 2 [0, 2, 9]).map fun r => r.map HSet.toList) = .error .fuel := by decide +kernel

end Verif
