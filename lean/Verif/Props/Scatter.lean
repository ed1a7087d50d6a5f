import Verif.Props.Witness
import Verif.Lemmas.ScatterRule
/-!
# C109: the classes of a scattered colouring
-/
namespace Verif
open SGraph

namespace Scatter

/-! ## Colourings of the conflict graph -/

theorem degen_forward {G : Graph} {H : SGraph} (hG : G.Rep H) (hl : H.Loopless) (hn : H.V.card ≤ 2 ^ 31) (σ : ℕ → Shuffle ℕ) :
    ∃ p χ, H.Peeled p ∧ H.IsGreedy p χ ∧
      ((∃ c, (OrdGraph.byDegeneracy σ G >>= fun OH => OH.lin.colourGreedy) = .ok c ∧ ∀ v, c.get? v = χ v) ∨
        ((∃ v ∈ H.V, χ v = none) ∧ (OrdGraph.byDegeneracy σ G >>= fun OH => OH.lin.colourGreedy) = .error .panic)) := by
  obtain ⟨lo, up, p, core, h4, h5, h6, -⟩ := C38_smallest_last hG hl σ
  obtain ⟨g', h7, I⟩ := OrdGraph.withOrdering_inv hG hl ⟨h5, h6⟩
  obtain ⟨χ, -, k1, -, -, k2, k3⟩ := C55_colour_greedy_exact_partial I.lrep (by omega)
  refine ⟨p, χ, (C38_orders hG hl hn p).1 ⟨σ, lo, up, core, h4⟩, (k1 χ).2 rfl, ?_⟩
  rw [byDegeneracy_eq h4 h7, bind_ok]
  by_cases hnone : ∃ v, ∃ u ∈ H.before p v, χ u = none
  · obtain ⟨v, u, hu, h⟩ := hnone
    exact Or.inr ⟨⟨u, (mem_before.1 hu).1.right, h⟩, k2 ⟨v, u, hu, h⟩⟩
  · push Not at hnone
    exact Or.inl (k3 hnone)

theorem degen_backward {G : Graph} {H : SGraph} (hG : G.Rep H) (hl : H.Loopless) (hn : H.V.card ≤ 2 ^ 31) {p : List ℕ}
    {χ : ℕ → Option ℕ} (h1 : H.Peeled p) (h2 : H.IsGreedy p χ) : ∃ σ,
      ((∃ c, (OrdGraph.byDegeneracy σ G >>= fun OH => OH.lin.colourGreedy) = .ok c ∧ ∀ v, c.get? v = χ v) ∨
        ((∃ v ∈ H.V, χ v = none) ∧ (OrdGraph.byDegeneracy σ G >>= fun OH => OH.lin.colourGreedy) = .error .panic)) := by
  obtain ⟨σ, lo, up, core, h4⟩ := (C38_orders hG hl hn p).2 h1
  obtain ⟨g, h7, I⟩ := OrdGraph.withOrdering_inv hG hl ⟨h1.1, h1.2.1⟩
  obtain ⟨χ', -, k1, -, -, k2, k3⟩ := C55_colour_greedy_exact_partial I.lrep (by omega)
  obtain rfl := (k1 χ).1 h2
  refine ⟨σ, ?_⟩
  rw [byDegeneracy_eq h4 h7, bind_ok]
  by_cases hnone : ∃ v, ∃ u ∈ H.before p v, χ u = none
  · obtain ⟨v, u, hu, h⟩ := hnone
    exact Or.inr ⟨⟨u, (mem_before.1 hu).1.right, h⟩, k2 ⟨v, u, hu, h⟩⟩
  · push Not at hnone
    exact Or.inl (k3 hnone)

theorem greedy_lt {H : SGraph} {p : List ℕ} {χ : ℕ → Option ℕ} (hp : H.Peeled p) (h : H.IsGreedy p χ) {v k : ℕ}
    (hv : χ v = some k) : k < H.V.card := by
  have hvV : v ∈ H.V := by
    by_contra hc
    rw [h.1 v hc] at hv
    cases hv
  obtain ⟨q, h1, h2⟩ := h.2 v hvV
  rw [hv] at h2
  have hlen : p.length = H.V.card := by
    rw [← List.toFinset_card_of_nodup hp.1]
    congr 1
    ext x
    rw [List.mem_toFinset, hp.2.1]
  have hidx : p.idxOf v < p.length := List.idxOf_lt_length_of_mem ((hp.2.1 v).2 hvV)
  have hq := h1.le_length
  simp only [leftDegs, List.length_map, List.length_take] at hq
  rcases h2 with ⟨-, rfl⟩ | ⟨-, h2, -⟩ <;> omega

/-! ## One round -/

variable {S : SGraph} {ord : List ℕ} {ws : HMap ℕ (HMap ℕ ℕ)} {D : ℕ} {order : List ℕ}

theorem round_run (O : S.Ordering ord) (Tb : LinGraph.LRep.WTab S ord ws D) (ρ : ℕ → Shuffle (ℕ × ℕ)) (hD : D < 2 ^ 16)
    (hn : S.V.card ≤ 2 ^ 31) (hbl : S.ByLeftDegree ord order) (hnd : order.Nodup) (ω : LinGraph.WitnessOrder)
    (hω : ∀ g, EditGraph.Relayout g (ω.lay g)) {target : HSet ℕ} (hT : ∀ x ∈ target, x ∈ S.V) :
    ∃ (st : LinGraph.DomState) (G : Graph) (H : SGraph),
      LinGraph.domPhase target (D / 2) (D / 2 + 1) (D * D) ws ρ order = .ok st ∧ G.Rep H ∧ H.Loopless ∧
      H.V = st.scattered.toFinset ∧ (∀ x ∈ st.scattered, x ∈ target) ∧ ((∃ x, x ∈ target) → ∃ x, x ∈ st.scattered) ∧
      (∀ J χ, S.ScatterRound ord order D target.toFinset J χ ↔ J = st.scattered.toFinset ∧ ∃ p, H.Peeled p ∧ H.IsGreedy p χ) ∧
      ∀ σ, LinGraph.auxColouring false (2 * (D / 2)) { ω with degen := σ } ws ρ st.scattered =
        OrdGraph.byDegeneracy σ G >>= fun OH => OH.lin.colourGreedy := by
  obtain ⟨st, hst, h1, h2, h3, h4, h5, h6⟩ := Dom.phase (target := target) O Tb ρ (D * D) (r := D / 2) (by omega) (by omega)
    hnd hbl.1
  obtain ⟨J, μ, g1, gJ, -, -⟩ := Dom.phase_rule O Tb hnd hbl.1 hst
  have hscV : ∀ x ∈ st.scattered, x ∈ S.V := fun x hx => h1 x (h2 x hx).1
  obtain ⟨G, H, hG, hll, hC, haux⟩ := Dom.auxGraph O Tb ρ ω hω (strict := false) (limit := 2 * (D / 2)) (by omega)
    (by simp) (by omega) hscV
  have hJ : J = st.scattered.toFinset := by
    ext x
    rw [gJ, HSet.mem_toFinset]
  have hpred : (fun x => x ∈ target) = (· ∈ target.toFinset) := funext fun x => propext HSet.mem_toFinset.symm
  rw [hpred] at g1
  have g1' : DomRun S.V (fun v u d => S.WReach ord v u d ∧ d ≤ D) (· ∈ target.toFinset) (D / 2) (D ^ 2) order.reverse J μ := by
    rw [Nat.pow_two]
    exact g1
  refine ⟨st, G, H, hst, hG, hll, hC.1, fun x hx => (h2 x hx).2, ?_, fun J' χ => ⟨?_, ?_⟩, haux⟩
  · rintro ⟨x, hx⟩
    obtain ⟨k, -, hk⟩ := h5 x (hT x hx)
    obtain ⟨d, hd, -⟩ := h6 x hx k hk
    obtain ⟨s, hs, -⟩ := h3 d hd
    exact ⟨s, hs⟩
  · rintro ⟨μ', H', p, r1, r2, r3, r4⟩
    obtain ⟨rfl, -⟩ := DomRun.unique (fun v u d h => (Dom.wr_props O v u d h).1)
      (fun v hv => (hbl.1 v).1 (List.mem_reverse.1 hv)) r1 g1'
    rw [hJ] at r2
    obtain rfl := IsConflict.unique r2 hC
    exact ⟨hJ, p, r3, r4⟩
  · rintro ⟨rfl, p, r3, r4⟩
    rw [← hJ]
    exact ⟨μ, H, p, g1', by rw [hJ]; exact hC, r3, r4⟩

/-- The state of the first loop. -/
structure PInv (S : SGraph) (target : HSet ℕ) (col : HMap ℕ ℕ) : Prop where
  sub : ∀ x ∈ target, x ∈ S.V
  disj : ∀ x ∈ target, col.get? x = none
  small : ∀ u c, col.get? u = some c → c < col.len
  card : col.len + target.len ≤ S.V.card

/-- The final colouring `c` extends `col`, and on the target has the classes of `κ`. -/
structure Rel (target : HSet ℕ) (col c : HMap ℕ ℕ) (κ : ℕ → Option (ℕ × ℕ)) : Prop where
  out : ∀ u, u ∉ target → c.get? u = col.get? u
  dom : ∀ u ∈ target, c.get? u ≠ none
  new : ∀ u ∈ target, ∀ v, col.get? v ≠ c.get? u
  same : ∀ u ∈ target, ∀ v ∈ target, (c.get? u = c.get? v ↔ κ u = κ v)
  kout : ∀ u, u ∉ target → κ u = none
  kin : ∀ u ∈ target, κ u ≠ none

theorem step_ok {target sc : HSet ℕ} {col cs : HMap ℕ ℕ} (hi : PInv S target col) (hn : S.V.card ≤ 2 ^ 31)
    (hsc : ∀ x ∈ sc, x ∈ target) (hne : ∃ x, x ∈ sc) (hk : ∀ u, u ∈ cs.keys ↔ u ∈ sc)
    (hb : ∀ u c, cs.get? u = some c → c < sc.len) :
    ∃ cr, VertexColouring.disjointExtend col cs = .ok cr ∧ PInv S (target.retain (fun u => !cr.contains u)) cr ∧
      (target.retain (fun u => !cr.contains u)).toFinset = target.toFinset \ sc.toFinset ∧
      (target.retain (fun u => !cr.contains u)).len < target.len ∧
      ∀ (k : ℕ) (c : HMap ℕ ℕ) (κ κ' : ℕ → Option (ℕ × ℕ)), Rel (target.retain (fun u => !cr.contains u)) cr c κ' →
        (∀ v, κ v = if v ∈ sc.toFinset then (cs.get? v).map (fun c => (k, c)) else κ' v) →
        (∀ v i d, κ' v = some (i, d) → k < i) → Rel target col c κ := by
  have hscl : sc.len ≤ target.len := by
    rw [HSet.len_eq_card, HSet.len_eq_card]
    exact Finset.card_le_card fun x hx => hsc x hx
  obtain ⟨cr, hcr, e1, e2, e3, e4, e5⟩ := disjointExtend hi.small hb (by have := hi.card; omega)
  have hkeys : ∀ (m : HMap ℕ ℕ) u, m.contains u = true ↔ u ∈ m.keys := fun m u => HMap.contains_iff
  simp only [hkeys] at e2 e4
  have hcs : cs.len = sc.len := by
    rw [keys_card, HSet.len_eq_card]
    congr 1
    ext u
    exact hk u
  have hdisj : ∀ u ∈ cs.keys, col.get? u = none := fun u hu => hi.disj u (hsc u ((hk u).1 hu))
  have hret : ∀ u, u ∈ target.retain (fun u => !cr.contains u) ↔ u ∈ target ∧ u ∉ sc := by
    intro u
    rw [HSet.mem_retain, Bool.not_eq_true', ← Bool.not_eq_true, hkeys, e2, hk]
    refine and_congr_right fun hu => ?_
    have : u ∉ col.keys := HMap.get?_eq_none.1 (hi.disj u hu)
    tauto
  have hfin : (target.retain (fun u => !cr.contains u)).toFinset = target.toFinset \ sc.toFinset := by
    ext u
    rw [Finset.mem_sdiff, HSet.mem_toFinset, HSet.mem_toFinset, HSet.mem_toFinset, hret]
  have hlen : (target.retain (fun u => !cr.contains u)).len = target.len - sc.len := by
    rw [HSet.len_eq_card, hfin, Finset.card_sdiff_of_subset (fun x hx => hsc x hx), HSet.len_eq_card, HSet.len_eq_card]
  have hpos : 0 < sc.len := by
    obtain ⟨x, hx⟩ := hne
    rw [HSet.len_eq_card]
    exact Finset.card_pos.2 ⟨x, hx⟩
  have hcrlen : cr.len = col.len + sc.len := by
    rw [← hcs, keys_card, keys_card, keys_card, ← Finset.card_union_of_disjoint]
    · congr 1
      ext u
      rw [Finset.mem_union]
      exact e2 u
    · rw [Finset.disjoint_left]
      intro u hu hu'
      exact HMap.get?_eq_none.1 (hdisj u hu') hu
  refine ⟨cr, hcr, ⟨fun x hx => hi.sub x ((hret x).1 hx).1, fun x hx => ?_, fun u c hc => ?_, ?_⟩, hfin, by omega, ?_⟩
  · rw [HMap.get?_eq_none]
    intro h
    rcases (e2 x).1 h with h | h
    · exact HMap.get?_eq_none.1 (hi.disj x ((hret x).1 hx).1) h
    · exact ((hret x).1 hx).2 ((hk x).1 h)
  · rw [hcrlen]
    exact e5 u c hc
  · have := hi.card
    omega
  · intro k c κ κ' R hκ hlt
    have hkap : ∀ v, v ∈ sc → κ v = (cs.get? v).map (fun c => (k, c)) := fun v hv => by rw [hκ, if_pos (HSet.mem_toFinset.2 hv)]
    have hkap' : ∀ v, v ∉ sc → κ v = κ' v := fun v hv => by rw [hκ, if_neg (fun h => hv (HSet.mem_toFinset.1 h))]
    have hsome : ∀ v, v ∈ sc → ∃ d, cs.get? v = some d := fun v hv => HMap.mem_keys_iff.1 ((hk v).2 hv)
    have hcin : ∀ u, u ∈ sc → c.get? u = cr.get? u := fun u hu => R.out u fun h => ((hret u).1 h).2 hu
    have hcrs : ∀ u, u ∈ sc → ∃ x, cr.get? u = some x := fun u hu => HMap.mem_keys_iff.1 ((e2 u).2 (Or.inr ((hk u).2 hu)))
    refine ⟨fun u hu => ?_, fun u hu => ?_, fun u hu v => ?_, fun u hu v hv => ?_, fun u hu => ?_, fun u hu => ?_⟩
    · rw [R.out u fun h => hu ((hret u).1 h).1]
      cases hg : col.get? u with
      | some x => exact e1 u x hg
      | none =>
        rw [HMap.get?_eq_none]
        intro h
        rcases (e2 u).1 h with h | h
        · exact HMap.get?_eq_none.1 hg h
        · exact hu (hsc u ((hk u).1 h))
    · by_cases hs : u ∈ sc
      · rw [hcin u hs]
        obtain ⟨x, hx⟩ := hcrs u hs
        rw [hx]
        simp
      · exact R.dom u ((hret u).2 ⟨hu, hs⟩)
    · by_cases hs : u ∈ sc
      · rw [hcin u hs]
        obtain ⟨x, hx⟩ := hcrs u hs
        rw [hx]
        exact e3 u (hi.disj u hu) x hx v
      · intro he
        obtain ⟨x, hx⟩ := Option.ne_none_iff_exists'.1 (R.dom u ((hret u).2 ⟨hu, hs⟩))
        rw [hx] at he
        exact R.new u ((hret u).2 ⟨hu, hs⟩) v (by rw [e1 v x he, hx])
    · have hmix : ∀ u v, u ∈ sc → v ∈ target → v ∉ sc → c.get? u ≠ c.get? v ∧ κ u ≠ κ v := by
        intro u v hs hv hs'
        constructor
        · rw [hcin u hs]
          exact R.new v ((hret v).2 ⟨hv, hs'⟩) u
        · obtain ⟨d, hd⟩ := hsome u hs
          rw [hkap u hs, hkap' v hs', hd]
          intro he
          have := hlt v k d he.symm
          omega
      by_cases hs : u ∈ sc <;> by_cases hs' : v ∈ sc
      · rw [hcin u hs, hcin v hs', e4 u v (hi.disj u hu) (hi.disj v hv) ((hk u).2 hs) ((hk v).2 hs'), hkap u hs, hkap v hs']
        obtain ⟨d, hd⟩ := hsome u hs
        obtain ⟨d', hd'⟩ := hsome v hs'
        rw [hd, hd']
        simp
      · exact ⟨fun h => absurd h (hmix u v hs hv hs').1, fun h => absurd h (hmix u v hs hv hs').2⟩
      · exact ⟨fun h => absurd h.symm (hmix v u hs' hu hs).1, fun h => absurd h.symm (hmix v u hs' hu hs).2⟩
      · rw [R.same u ((hret u).2 ⟨hu, hs⟩) v ((hret v).2 ⟨hv, hs'⟩), hkap' u hs, hkap' v hs']
    · rw [hkap' u fun h => hu (hsc u h)]
      exact R.kout u fun h => hu ((hret u).1 h).1
    · by_cases hs : u ∈ sc
      · obtain ⟨d, hd⟩ := hsome u hs
        rw [hkap u hs, hd]
        simp
      · rw [hkap' u hs]
        exact R.kin u ((hret u).2 ⟨hu, hs⟩)

theorem rounds_le {k : ℕ} {T : Finset ℕ} {κ : ℕ → Option (ℕ × ℕ)} (h : S.ScatterRounds ord order D k T κ) :
    ∀ v i d, κ v = some (i, d) → k ≤ i := by
  induction h with
  | done h => intro v i d hv; rw [h] at hv; cases hv
  | @round k T J χ κ κ' _ _ _ _ hκ ih =>
    intro v i d hv
    rw [hκ] at hv
    split at hv
    · rw [Option.map_eq_some_iff] at hv
      obtain ⟨c, -, he⟩ := hv
      cases he
      exact le_refl _
    · have := ih v i d hv
      omega

theorem mem_of_len {A : HSet ℕ} : A.len ≠ 0 ↔ ∃ x, x ∈ A := by
  rw [HSet.len_eq_card, Finset.card_ne_zero]
  exact ⟨fun ⟨x, hx⟩ => ⟨x, hx⟩, fun ⟨x, hx⟩ => ⟨x, hx⟩⟩

theorem toFinset_of_len {A : HSet ℕ} (h : A.len = 0) : A.toFinset = ∅ := by
  rw [HSet.len_eq_card] at h
  exact Finset.card_eq_zero.1 h

theorem rel_nil {target : HSet ℕ} (h : target.len = 0) (col : HMap ℕ ℕ) {κ : ℕ → Option (ℕ × ℕ)} (hκ : ∀ v, κ v = none) :
    Rel target col col κ := by
  have hno : ∀ x, x ∉ target := fun x hx => mem_of_len.2 ⟨x, hx⟩ h
  exact ⟨fun _ _ => rfl, fun u hu => absurd hu (hno u), fun u hu => absurd hu (hno u), fun u hu => absurd hu (hno u),
    fun u _ => hκ u, fun u hu => absurd hu (hno u)⟩

/-- What a round does once the colouring of the conflict graph is known. -/
theorem round_cases {target : HSet ℕ} {col : HMap ℕ ℕ} (hi : PInv S target col) (hn : S.V.card ≤ 2 ^ 31) {sc : HSet ℕ}
    (hsc : ∀ x ∈ sc, x ∈ target) (hne : ∃ x, x ∈ sc) {H : SGraph} (hH : H.V = sc.toFinset) {p : List ℕ} {χ : ℕ → Option ℕ}
    (hp : H.Peeled p) (hχ : H.IsGreedy p χ) {r : Res (HMap ℕ ℕ)}
    (hr : (∃ c, r = .ok c ∧ ∀ v, c.get? v = χ v) ∨ ((∃ v ∈ H.V, χ v = none) ∧ r = .error .panic))
    {next : HMap ℕ ℕ → Res (HMap ℕ ℕ)} :
    ((∃ v ∈ sc.toFinset, χ v = none) ∧ (do
        let colours ← r
        let colouring ← VertexColouring.disjointExtend col colours
        assertR (colours.len == sc.len)
        next colouring) = .error .panic) ∨
    ((∀ v ∈ sc.toFinset, χ v ≠ none) ∧ ∃ cr, (do
        let colours ← r
        let colouring ← VertexColouring.disjointExtend col colours
        assertR (colours.len == sc.len)
        next colouring) = next cr ∧ PInv S (target.retain (fun u => !cr.contains u)) cr ∧
      (target.retain (fun u => !cr.contains u)).toFinset = target.toFinset \ sc.toFinset ∧
      (target.retain (fun u => !cr.contains u)).len < target.len ∧
      ∀ (k : ℕ) (c : HMap ℕ ℕ) (κ κ' : ℕ → Option (ℕ × ℕ)), Rel (target.retain (fun u => !cr.contains u)) cr c κ' →
        (∀ v, κ v = if v ∈ sc.toFinset then (χ v).map (fun c => (k, c)) else κ' v) →
        (∀ v i d, κ' v = some (i, d) → k < i) → Rel target col c κ) := by
  rcases hr with ⟨cs, rfl, hcs⟩ | ⟨⟨v, hv, h0⟩, rfl⟩
  · rw [bind_ok]
    have hb : ∀ u c, cs.get? u = some c → c < sc.len := fun u c h => by
      rw [HSet.len_eq_card, ← hH]
      exact greedy_lt hp hχ (by rw [← hcs]; exact h)
    have hsub : ∀ u ∈ cs.keys, u ∈ sc := by
      intro u hu
      obtain ⟨c, hc⟩ := HMap.mem_keys_iff.1 hu
      by_contra hno
      rw [hcs, hχ.1 u (by rw [hH]; exact fun h => hno (HSet.mem_toFinset.1 h))] at hc
      cases hc
    have hscl : sc.len ≤ target.len := by
      rw [HSet.len_eq_card, HSet.len_eq_card]
      exact Finset.card_le_card fun x hx => hsc x hx
    by_cases hall : ∀ v ∈ sc.toFinset, χ v ≠ none
    · right
      have hk : ∀ u, u ∈ cs.keys ↔ u ∈ sc := fun u => ⟨hsub u, fun h => by
        obtain ⟨c, hc⟩ := Option.ne_none_iff_exists'.1 (hall u (HSet.mem_toFinset.2 h))
        exact HMap.mem_keys_iff.2 ⟨c, by rw [hcs, hc]⟩⟩
      obtain ⟨cr, h1, h2, h3, h4, h5⟩ := step_ok hi hn hsc hne hk hb
      refine ⟨hall, cr, ?_, h2, h3, h4, fun k c κ κ' R hκ => h5 k c κ κ' R fun v => by rw [hκ, hcs]⟩
      have hlen : cs.len = sc.len := by
        rw [keys_card, HSet.len_eq_card]
        congr 1
        ext u
        exact hk u
      rw [h1, bind_ok, hlen]
      simp [assertR]
    · left
      push Not at hall
      refine ⟨hall, ?_⟩
      obtain ⟨v, hv, h0⟩ := hall
      obtain ⟨cr, hcr, -⟩ := disjointExtend hi.small hb (by have := hi.card; omega)
      have hlen : cs.len < sc.len := by
        rw [keys_card, HSet.len_eq_card]
        refine Finset.card_lt_card (Finset.ssubset_iff_of_subset (fun u hu => hsub u hu) |>.2 ⟨v, hv, fun hu => ?_⟩)
        obtain ⟨c, hc⟩ := HMap.mem_keys_iff.1 (show v ∈ cs.keys from hu)
        rw [hcs, h0] at hc
        cases hc
      rw [hcr, bind_ok]
      have : (cs.len == sc.len) = false := by simpa using (by omega : cs.len ≠ sc.len)
      rw [this]
      rfl
  · exact Or.inl ⟨⟨v, by rw [← hH]; exact hv, h0⟩, rfl⟩

/-! ## All rounds -/

/-- All outcomes of the first loop are described by the rounds. -/
theorem loop_forward (O : S.Ordering ord) (Tb : LinGraph.LRep.WTab S ord ws D) (ρ : ℕ → Shuffle (ℕ × ℕ)) (hD : D < 2 ^ 16)
    (hn : S.V.card ≤ 2 ^ 31) (hbl : S.ByLeftDegree ord order) (hnd : order.Nodup) (ω : ℕ → LinGraph.WitnessOrder)
    (hω : ∀ k g, EditGraph.Relayout g ((ω k).lay g)) : ∀ (fuel k : ℕ) (target : HSet ℕ) (col : HMap ℕ ℕ), target.len ≤ fuel →
      PInv S target col →
      (∃ c κ, LinGraph.scatterLoop ω ρ (D / 2) (D / 2 + 1) (D * D) (2 * (D / 2)) ws order fuel target col = .ok c ∧
        S.ScatterRounds ord order D k target.toFinset κ ∧ Rel target col c κ) ∨
      (LinGraph.scatterLoop ω ρ (D / 2) (D / 2 + 1) (D * D) (2 * (D / 2)) ws order fuel target col = .error .panic ∧
        S.ScatterFails ord order D target.toFinset) := by
  intro fuel
  induction fuel with
  | zero =>
    intro k target col hf hi
    have h0 : target.len = 0 := by omega
    unfold LinGraph.scatterLoop
    rw [if_pos (by simpa using h0), toFinset_of_len h0]
    exact Or.inl ⟨col, fun _ => none, rfl, .done fun _ => rfl, rel_nil h0 col fun _ => rfl⟩
  | succ fuel ih =>
    intro k target col hf hi
    unfold LinGraph.scatterLoop
    by_cases h0 : target.len = 0
    · rw [if_pos (by simpa using h0), toFinset_of_len h0]
      exact Or.inl ⟨col, fun _ => none, rfl, .done fun _ => rfl, rel_nil h0 col fun _ => rfl⟩
    · rw [if_neg (by simpa using h0)]
      obtain ⟨x, hx⟩ := mem_of_len.1 h0
      have hTne : target.toFinset.Nonempty := ⟨x, hx⟩
      obtain ⟨st, G, H, h1, h2, h3, h4, h5, h6, h7, h8⟩ := round_run O Tb ρ hD hn hbl hnd (ω fuel) (hω fuel) hi.sub
      have hHn : H.V.card ≤ 2 ^ 31 := by
        rw [h4]
        exact (Finset.card_le_card fun x hx => hi.sub x (h5 x hx)).trans hn
      obtain ⟨p, χ, g1, g2, g3⟩ := degen_forward h2 h3 hHn (ω fuel).degen
      have e := h8 (ω fuel).degen
      simp only
      rw [h1, bind_ok]
      rw [← e] at g3
      have hround : S.ScatterRound ord order D target.toFinset st.scattered.toFinset χ := (h7 _ _).2 ⟨rfl, p, g1, g2⟩
      rcases round_cases hi hn h5 (h6 ⟨x, hx⟩) h4 g1 g2 g3 (next := fun colouring =>
          LinGraph.scatterLoop ω ρ (D / 2) (D / 2 + 1) (D * D) (2 * (D / 2)) ws order fuel
          (target.retain (fun u => !colouring.contains u)) colouring) with ⟨⟨v, hv, hv0⟩, r1⟩ | ⟨hall, cr, r1, r2, r3, r4, r5⟩
      · exact Or.inr ⟨r1, .here hTne hround hv hv0⟩
      · rw [show (_ : Res (HMap ℕ ℕ)) = _ from r1]
        rcases ih (k + 1) _ cr (by omega) r2 with ⟨c, κ', q1, q2, q3⟩ | ⟨q1, q2⟩
        · rw [r3] at q2
          refine Or.inl ⟨c, _, q1, .round hTne hround hall q2 fun v => rfl, ?_⟩
          exact r5 k c _ κ' q3 (fun v => rfl) fun v i d h => rounds_le q2 v i d h
        · rw [r3] at q2
          exact Or.inr ⟨q1, .later hTne hround hall q2⟩

theorem loop_congr {ω ω' : ℕ → LinGraph.WitnessOrder} {ρ : ℕ → Shuffle (ℕ × ℕ)} {r u c l : ℕ} : ∀ (fuel : ℕ) (target : HSet ℕ)
    (col : HMap ℕ ℕ), (∀ k < fuel, ω k = ω' k) →
    LinGraph.scatterLoop ω ρ r u c l ws order fuel target col = LinGraph.scatterLoop ω' ρ r u c l ws order fuel target col := by
  intro fuel
  induction fuel with
  | zero => intro target col _; unfold LinGraph.scatterLoop; rfl
  | succ fuel ih =>
    intro target col h
    unfold LinGraph.scatterLoop
    simp only [h fuel (Nat.lt_succ_self _), ih _ _ fun k hk => h k (Nat.lt_succ_of_lt hk)]

/-- The same orders, except those of the tables of `degeneracy`. -/
def withDegen (ω : ℕ → LinGraph.WitnessOrder) (δ : ℕ → ℕ → Shuffle ℕ) : ℕ → LinGraph.WitnessOrder :=
  fun k => { ω k with degen := δ k }

/-- A round in the other direction. -/
theorem round_backward (O : S.Ordering ord) (Tb : LinGraph.LRep.WTab S ord ws D) (ρ : ℕ → Shuffle (ℕ × ℕ)) (hD : D < 2 ^ 16)
    (hn : S.V.card ≤ 2 ^ 31) (hbl : S.ByLeftDegree ord order) (hnd : order.Nodup) (ω : ℕ → LinGraph.WitnessOrder)
    (hω : ∀ k g, EditGraph.Relayout g ((ω k).lay g)) {fuel : ℕ} {target : HSet ℕ} {col : HMap ℕ ℕ} (hf : target.len ≤ fuel)
    (hi : PInv S target col) {J : Finset ℕ} {χ : ℕ → Option ℕ} (hT : target.toFinset.Nonempty)
    (h : S.ScatterRound ord order D target.toFinset J χ) : ∃ (fuel' : ℕ) (σ : ℕ → Shuffle ℕ), fuel = fuel' + 1 ∧
      (((∃ v ∈ J, χ v = none) ∧ ∀ δ, LinGraph.scatterLoop (withDegen ω (Function.update δ fuel' σ)) ρ (D / 2) (D / 2 + 1) (D * D)
          (2 * (D / 2)) ws order fuel target col = .error .panic) ∨
      ((∀ v ∈ J, χ v ≠ none) ∧ ∃ cr, (∀ δ, LinGraph.scatterLoop (withDegen ω (Function.update δ fuel' σ)) ρ (D / 2) (D / 2 + 1) (D * D)
          (2 * (D / 2)) ws order fuel target col = LinGraph.scatterLoop (withDegen ω δ) ρ (D / 2) (D / 2 + 1) (D * D)
          (2 * (D / 2)) ws order fuel' (target.retain (fun u => !cr.contains u)) cr) ∧
        PInv S (target.retain (fun u => !cr.contains u)) cr ∧
        (target.retain (fun u => !cr.contains u)).toFinset = target.toFinset \ J ∧
        (target.retain (fun u => !cr.contains u)).len < target.len ∧
        ∀ (k : ℕ) (c : HMap ℕ ℕ) (κ κ' : ℕ → Option (ℕ × ℕ)), Rel (target.retain (fun u => !cr.contains u)) cr c κ' →
          (∀ v, κ v = if v ∈ J then (χ v).map (fun c => (k, c)) else κ' v) →
          (∀ v i d, κ' v = some (i, d) → k < i) → Rel target col c κ)) := by
  obtain ⟨x, hx⟩ := hT
  have hx : x ∈ target := hx
  have h0 : target.len ≠ 0 := mem_of_len.2 ⟨x, hx⟩
  obtain ⟨fuel', rfl⟩ : ∃ f, fuel = f + 1 := ⟨fuel - 1, by omega⟩
  obtain ⟨st, G, H, h1, h2, h3, h4, h5, h6, h7, h8⟩ := round_run O Tb ρ hD hn hbl hnd (ω fuel') (hω fuel') hi.sub
  have hHn : H.V.card ≤ 2 ^ 31 := by
    rw [h4]
    exact (Finset.card_le_card fun x hx => hi.sub x (h5 x hx)).trans hn
  obtain ⟨rfl, p, g1, g2⟩ := (h7 _ _).1 h
  obtain ⟨σ, g3⟩ := degen_backward h2 h3 hHn g1 g2
  rw [← h8 σ] at g3
  refine ⟨fuel', σ, rfl, ?_⟩
  have hunf : ∀ δ, LinGraph.scatterLoop (withDegen ω (Function.update δ fuel' σ)) ρ (D / 2) (D / 2 + 1) (D * D)
      (2 * (D / 2)) ws order (fuel' + 1) target col = (do
        let colours ← LinGraph.auxColouring false (2 * (D / 2)) { ω fuel' with degen := σ } ws ρ st.scattered
        let colouring ← VertexColouring.disjointExtend col colours
        assertR (colours.len == st.scattered.len)
        LinGraph.scatterLoop (withDegen ω δ) ρ (D / 2) (D / 2 + 1) (D * D) (2 * (D / 2)) ws order fuel'
          (target.retain (fun u => !colouring.contains u)) colouring) := by
    intro δ
    have e1 : withDegen ω (Function.update δ fuel' σ) fuel' = { ω fuel' with degen := σ } := by
      unfold withDegen
      rw [Function.update_self]
    conv_lhs => unfold LinGraph.scatterLoop
    rw [if_neg (by simpa using h0)]
    simp only
    rw [h1, bind_ok, e1]
    have e2 : ∀ t c, LinGraph.scatterLoop (withDegen ω (Function.update δ fuel' σ)) ρ (D / 2) (D / 2 + 1) (D * D)
        (2 * (D / 2)) ws order fuel' t c = LinGraph.scatterLoop (withDegen ω δ) ρ (D / 2) (D / 2 + 1) (D * D)
        (2 * (D / 2)) ws order fuel' t c := fun t c => loop_congr fuel' t c fun k hk => by
      unfold withDegen
      rw [Function.update_of_ne (by omega)]
    simp only [e2]
  by_cases hall : ∀ v ∈ st.scattered.toFinset, χ v ≠ none
  · right
    refine ⟨hall, ?_⟩
    have key := fun δ => round_cases hi hn h5 (h6 ⟨x, hx⟩) h4 g1 g2 g3 (next := fun colouring =>
          LinGraph.scatterLoop (withDegen ω δ) ρ (D / 2) (D / 2 + 1) (D * D) (2 * (D / 2)) ws order fuel'
          (target.retain (fun u => !colouring.contains u)) colouring)
    rcases round_cases hi hn h5 (h6 ⟨x, hx⟩) h4 g1 g2 g3 (next := fun colouring => .ok colouring) with
      ⟨⟨v, hv, hv0⟩, -⟩ | ⟨-, cr, r1, r2, r3, r4, r5⟩
    · exact absurd hv0 (hall v hv)
    · refine ⟨cr, fun δ => ?_, r2, r3, r4, r5⟩
      rw [hunf]
      rcases key δ with ⟨⟨v, hv, hv0⟩, -⟩ | ⟨-, cr', r1', -⟩
      · exact absurd hv0 (hall v hv)
      · obtain ⟨cs, a1, a2⟩ := bind_eq_ok.1 r1
        obtain ⟨cc, a3, a4⟩ := bind_eq_ok.1 a2
        obtain ⟨_, a5, a6⟩ := bind_eq_ok.1 a4
        cases a6
        rw [a1, bind_ok, a3, bind_ok, a5, bind_ok]
  · left
    push Not at hall
    refine ⟨hall, fun δ => ?_⟩
    rw [hunf]
    rcases round_cases hi hn h5 (h6 ⟨x, hx⟩) h4 g1 g2 g3 (next := fun colouring =>
          LinGraph.scatterLoop (withDegen ω δ) ρ (D / 2) (D / 2 + 1) (D * D) (2 * (D / 2)) ws order fuel'
          (target.retain (fun u => !colouring.contains u)) colouring) with ⟨-, r1⟩ | ⟨hall', -⟩
    · exact r1
    · obtain ⟨v, hv, hv0⟩ := hall
      exact absurd hv0 (hall' v hv)

theorem rounds_backward (O : S.Ordering ord) (Tb : LinGraph.LRep.WTab S ord ws D) (ρ : ℕ → Shuffle (ℕ × ℕ)) (hD : D < 2 ^ 16)
    (hn : S.V.card ≤ 2 ^ 31) (hbl : S.ByLeftDegree ord order) (hnd : order.Nodup) (ω : ℕ → LinGraph.WitnessOrder)
    (hω : ∀ k g, EditGraph.Relayout g ((ω k).lay g)) {k : ℕ} {T : Finset ℕ} {κ : ℕ → Option (ℕ × ℕ)}
    (h : S.ScatterRounds ord order D k T κ) : ∀ (fuel : ℕ) (target : HSet ℕ) (col : HMap ℕ ℕ), target.toFinset = T →
      target.len ≤ fuel → PInv S target col →
      ∃ δ c, LinGraph.scatterLoop (withDegen ω δ) ρ (D / 2) (D / 2 + 1) (D * D) (2 * (D / 2)) ws order fuel target col = .ok c ∧
        Rel target col c κ := by
  induction h with
  | done hκ =>
    intro fuel target col hT hf hi
    have h0 : target.len = 0 := by rw [HSet.len_eq_card, hT]; rfl
    refine ⟨fun k => (ω k).degen, col, ?_, rel_nil h0 col hκ⟩
    unfold LinGraph.scatterLoop
    rw [if_pos (by simpa using h0)]
  | @round k T J χ κ κ' hTne hr hall ht hκ ih =>
    intro fuel target col hT hf hi
    subst hT
    obtain ⟨fuel', σ, rfl, ⟨⟨v, hv, hv0⟩, -⟩ | ⟨-, cr, r1, r2, r3, r4, r5⟩⟩ := round_backward O Tb ρ hD hn hbl hnd ω hω hf hi hTne hr
    · exact absurd hv0 (hall v hv)
    · obtain ⟨δ, c, q1, q2⟩ := ih fuel' _ cr r3 (by omega) r2
      exact ⟨Function.update δ fuel' σ, c, by rw [r1, q1], r5 k c κ κ' q2 hκ fun v i d h => rounds_le ht v i d h⟩

theorem fails_backward (O : S.Ordering ord) (Tb : LinGraph.LRep.WTab S ord ws D) (ρ : ℕ → Shuffle (ℕ × ℕ)) (hD : D < 2 ^ 16)
    (hn : S.V.card ≤ 2 ^ 31) (hbl : S.ByLeftDegree ord order) (hnd : order.Nodup) (ω : ℕ → LinGraph.WitnessOrder)
    (hω : ∀ k g, EditGraph.Relayout g ((ω k).lay g)) {T : Finset ℕ}
    (h : S.ScatterFails ord order D T) : ∀ (fuel : ℕ) (target : HSet ℕ) (col : HMap ℕ ℕ), target.toFinset = T →
      target.len ≤ fuel → PInv S target col →
      ∃ δ, LinGraph.scatterLoop (withDegen ω δ) ρ (D / 2) (D / 2 + 1) (D * D) (2 * (D / 2)) ws order fuel target col = .error .panic := by
  induction h with
  | @here T J χ v hTne hr hv hv0 =>
    intro fuel target col hT hf hi
    subst hT
    obtain ⟨fuel', σ, rfl, ⟨-, r1⟩ | ⟨hall, -⟩⟩ := round_backward O Tb ρ hD hn hbl hnd ω hω hf hi hTne hr
    · exact ⟨_, r1 fun k => (ω k).degen⟩
    · exact absurd hv0 (hall v hv)
  | @later T J χ hTne hr hall ht ih =>
    intro fuel target col hT hf hi
    subst hT
    obtain ⟨fuel', σ, rfl, ⟨⟨v, hv, hv0⟩, -⟩ | ⟨-, cr, r1, r2, r3, r4, r5⟩⟩ := round_backward O Tb ρ hD hn hbl hnd ω hω hf hi hTne hr
    · exact absurd hv0 (hall v hv)
    · obtain ⟨δ, q1⟩ := ih fuel' _ cr r3 (by omega) r2
      exact ⟨Function.update δ fuel' σ, by rw [r1, q1]⟩

/-! ## Classes -/

theorem values_classes {m : HMap ℕ ℕ} {target : HSet ℕ} {κ : ℕ → Option (ℕ × ℕ)} (R : Rel target ∅ m κ) :
    (∀ A ∈ (VertexMap.invert m).values, A.len ≠ 0) ∧ ClassesOf κ ((VertexMap.invert m).values.map HSet.toFinset) := by
  have hent : ∀ e ∈ (VertexMap.invert m).entries, ∀ x, x ∈ e.2 ↔ m.get? x = some e.1 := fun e he x =>
    (C29_invert m e.1).2 e.2 (HMap.get?_eq_some.2 he) x
  have hex : ∀ e ∈ (VertexMap.invert m).entries, ∃ x, x ∈ e.2 := fun e he => by
    obtain ⟨u, hu⟩ := (C29_invert m e.1).1.1 (HMap.mem_keys_iff.2 ⟨e.2, HMap.get?_eq_some.2 he⟩)
    exact ⟨u, (hent e he u).2 hu⟩
  have hout : ∀ u, u ∉ target → m.get? u = none := fun u hu => by
    rw [R.out u hu]
    exact HMap.get?_eq_none.2 (by simp [HMap.keys])
  have hfib : ∀ u, u ∈ target → ∀ v, m.get? v = m.get? u ↔ κ v = κ u := by
    intro u hu v
    by_cases hv : v ∈ target
    · exact R.same v hv u hu
    · rw [hout v hv, R.kout v hv]
      exact ⟨fun h => absurd h.symm (R.dom u hu), fun h => absurd h.symm (R.kin u hu)⟩
  have hin : ∀ u c, m.get? u = some c → u ∈ target := fun u c h => by
    by_contra hc
    rw [hout u hc] at h
    cases h
  refine ⟨fun A hA => ?_, ?_, fun A => ⟨fun hA => ?_, ?_⟩⟩
  · obtain ⟨e, he, rfl⟩ := List.mem_map.1 hA
    exact mem_of_len.2 (hex e he)
  · unfold HMap.values
    rw [List.map_map]
    have hpw : (VertexMap.invert m).entries.Pairwise (fun a b => a.1 ≠ b.1) := List.pairwise_map.1 (VertexMap.invert m).nodup
    refine List.pairwise_map.2 (hpw.imp_of_mem fun {a b} ha hb hab he => hab ?_)
    obtain ⟨x, hx⟩ := hex a ha
    have h1 := (hent a ha x).1 hx
    have h2 : x ∈ b.2 := by
      have : x ∈ a.2.toFinset := hx
      rw [show a.2.toFinset = b.2.toFinset from he] at this
      exact this
    rw [(hent b hb x).1 h2] at h1
    exact (Option.some.inj h1).symm
  · obtain ⟨B, hB, rfl⟩ := List.mem_map.1 hA
    obtain ⟨e, he, rfl⟩ := List.mem_map.1 hB
    obtain ⟨u, hu⟩ := hex e he
    have hu' := (hent e he u).1 hu
    refine ⟨u, R.kin u (hin u _ hu'), fun v => ?_⟩
    rw [HSet.mem_toFinset, hent e he, ← hu', hfib u (hin u _ hu')]
  · rintro ⟨u, hu, hA⟩
    have hut : u ∈ target := by
      by_contra hc
      exact hu (R.kout u hc)
    obtain ⟨c, hc⟩ := Option.ne_none_iff_exists'.1 (R.dom u hut)
    obtain ⟨B, hB⟩ := HMap.mem_keys_iff.1 ((C29_invert m c).1.2 ⟨u, hc⟩)
    refine List.mem_map.2 ⟨B, List.mem_map.2 ⟨_, HMap.get?_eq_some.1 hB, rfl⟩, ?_⟩
    ext v
    rw [HSet.mem_toFinset, (C29_invert m c).2 B hB, hA, ← hc, hfib u hut]

theorem _root_.Verif.ClassesOf.perm {κ : ℕ → Option (ℕ × ℕ)} {cs cs' : List (Finset ℕ)} (h : ClassesOf κ cs) (h' : ClassesOf κ cs') :
    cs.Perm cs' := (List.perm_ext_iff_of_nodup h.1 h'.1).2 fun A => (h.2 A).trans (h'.2 A).symm

theorem perm_lift {α β : Type} {f : α → β} : ∀ {cs : List β} {l : List α}, (l.map f).Perm cs → ∃ l' : List α, l'.Perm l ∧ l'.map f = cs := by
  intro cs
  induction cs with
  | nil =>
    intro l h
    have : l = [] := List.map_eq_nil_iff.1 h.eq_nil
    subst this
    exact ⟨[], .refl _, rfl⟩
  | cons b cs ih =>
    intro l h
    obtain ⟨a, ha, rfl⟩ := List.mem_map.1 (h.symm.subset (List.mem_cons_self ..))
    obtain ⟨s, t, rfl⟩ := List.append_of_mem ha
    rw [List.map_append, List.map_cons] at h
    have h' := (List.perm_middle.symm.trans h).cons_inv
    rw [← List.map_append] at h'
    obtain ⟨l', h1, h2⟩ := ih h'
    exact ⟨a :: l', (h1.cons a).trans List.perm_middle.symm, by rw [List.map_cons, h2]⟩

/-- The order that turns the list `l` into `l'`. -/
noncomputable def swapTo {α : Type} (l l' : List α) (h : l'.Perm l) : Shuffle α := by
  classical
  exact ⟨fun k => if k = l then l' else k, fun k => by
    by_cases hk : k = l
    · rw [if_pos hk, hk]; exact h
    · rw [if_neg hk]⟩

theorem swapTo_run {α : Type} {l l' : List α} (h : l'.Perm l) : (swapTo l l' h).run l = l' := if_pos rfl

end Scatter

/-- The same iteration orders, except those of the tables of `degeneracy` and of the table of classes. -/
def LinGraph.ScatterOrder.withOrders (ω : LinGraph.ScatterOrder) (δ : ℕ → ℕ → Shuffle ℕ) (τ : Shuffle (HSet ℕ)) :
    LinGraph.ScatterOrder :=
  { ω with witness := fun k => { ω.witness k with degen := δ k }, classes := τ }

/-- All that is left of `scattered_colouring`. -/
theorem scattered_unfold {L : LinGraph} {S : SGraph} {ord : List ℕ} (H : L.LRep S ord) (ω : LinGraph.ScatterOrder) {D : ℕ}
    (hD : D < 2 ^ 16) (hn : S.V.card ≤ 2 ^ 31) {target : List ℕ} (hT : ∀ x ∈ target, x ∈ S.V) {fuel : ℕ}
    (hf : target.toFinset.card < fuel) {o : List ℕ} (ho : S.ByLeftDegree ord o) :
    ∃ ws, LinGraph.LRep.WTab S ord ws D ∧ o.Nodup ∧ (HSet.ofList target).toFinset = target.toFinset ∧
      (HSet.ofList target).len ≤ fuel ∧ Scatter.PInv S (HSet.ofList target) ∅ ∧
      ∀ δ τ, L.scatteredColouring (ω.withOrders δ τ) fuel D target =
        LinGraph.scatterLoop (Scatter.withDegen ω.witness δ) ω.wreach (D / 2) (D / 2 + 1) (D * D) (2 * (D / 2)) ws o fuel
          (HSet.ofList target) ∅ >>= fun colouring =>
        LinGraph.improveLoop ω.sets ws D (2 * (D / 2)) fuel (τ.run (VertexMap.invert colouring).values) [] := by
  obtain ⟨o', ho', -, -⟩ := Dom.order H hn
  obtain ⟨hnd, hbl⟩ := Dom.order_rule H hn ho'
  obtain rfl := Dom.byLeftDegree_unique ho hbl
  obtain ⟨ws, hws, Tb⟩ := H.wreachSets ω.bfs ω.layers (r := D) (by omega)
  have hcut : D * D < 2 ^ 32 := by
    have : D * D ≤ (2 ^ 16 - 1) * (2 ^ 16 - 1) := Nat.mul_le_mul (by omega) (by omega)
    omega
  have hfin : (HSet.ofList target).toFinset = target.toFinset := by
    ext x
    rw [HSet.mem_toFinset, HSet.mem_ofList, List.mem_toFinset]
  have hlen : (HSet.ofList target).len = target.toFinset.card := by rw [HSet.len_eq_card, hfin]
  have hcard : target.toFinset.card ≤ S.V.card := Finset.card_le_card fun x hx => hT x (List.mem_toFinset.1 hx)
  refine ⟨ws, Tb, hnd, hfin, by omega, ⟨fun x hx => hT x (HSet.mem_ofList.1 hx), fun x _ => HMap.get?_eq_none.2 (by
    simp [HMap.keys]), fun u c h => by simp at h, ?_⟩, fun δ τ => ?_⟩
  · have : (∅ : HMap ℕ ℕ).len = 0 := rfl
    omega
  · unfold LinGraph.scatteredColouring
    simp only
    split
    · rename_i hc
      have h0 : (HSet.ofList target).len = 0 := by
        rw [Bool.or_eq_true] at hc
        rcases hc with h | h
        · rw [lin_isEmpty H] at h
          rw [hlen, Finset.card_eq_zero, Finset.eq_empty_iff_forall_notMem]
          intro x hx
          have := hT x (List.mem_toFinset.1 hx)
          rw [h] at this
          simp at this
        · simpa using h
      unfold LinGraph.scatterLoop
      rw [if_pos (by simpa using h0), bind_ok]
      obtain ⟨f, rfl⟩ : ∃ f, fuel = f + 1 := ⟨fuel - 1, by omega⟩
      have hv : τ.run (VertexMap.invert (∅ : HMap ℕ ℕ)).values = [] := by
        have := τ.perm (VertexMap.invert (∅ : HMap ℕ ℕ)).values
        exact List.Perm.eq_nil this
      rw [hv]
      rfl
    · have e1 : L.wreachSets (ω.withOrders δ τ).bfs (ω.withOrders δ τ).layers D = .ok ws := hws
      rw [e1, bind_ok, add32_ok (by omega), bind_ok, mul32_ok hcut, bind_ok, ho', bind_ok, mul32_ok (by omega), bind_ok]
      rfl

/-- Once the rounds have succeeded, merging succeeds. -/
theorem scattered_improves {L : LinGraph} {S : SGraph} {ord : List ℕ} (H : L.LRep S ord) (ω : LinGraph.ScatterOrder)
    (hω : ∀ k g, EditGraph.Relayout g ((ω.witness k).lay g)) {D : ℕ} (hD : D < 2 ^ 16) (hn : S.V.card ≤ 2 ^ 31) {target : List ℕ}
    (hT : ∀ x ∈ target, x ∈ S.V) {fuel : ℕ} (hf : target.toFinset.card < fuel) {o : List ℕ} (ho : S.ByLeftDegree ord o)
    {ws : HMap ℕ (HMap ℕ ℕ)} (Tb : LinGraph.LRep.WTab S ord ws D) (hnd : o.Nodup) {δ : ℕ → ℕ → Shuffle ℕ} {m : HMap ℕ ℕ}
    (h : LinGraph.scatterLoop (Scatter.withDegen ω.witness δ) ω.wreach (D / 2) (D / 2 + 1) (D * D) (2 * (D / 2)) ws o fuel
      (HSet.ofList target) ∅ = .ok m) (τ : Shuffle (HSet ℕ)) :
    ∃ cl, LinGraph.improveLoop ω.sets ws D (2 * (D / 2)) fuel (τ.run (VertexMap.invert m).values) [] = .ok cl := by
  have hcard : (HSet.ofList target).len = target.toFinset.card := HSet.len_of_mem_iff fun a => by
    rw [HSet.mem_ofList, List.mem_toFinset]
  have hTV : ∀ x ∈ HSet.ofList target, x ∈ S.V := fun x hx => hT x (HSet.mem_ofList.1 hx)
  have hs := Scatter.scatterLoop H.ordering Tb ω.wreach (D * D) (D / 2) (Scatter.withDegen ω.witness δ) hω
    (limit := 2 * (D / 2)) (by omega) (by omega) (by omega) hn hnd ho.1 hTV fuel (HSet.ofList target) ∅ (by omega)
    ⟨by simp [HMap.keys], by simp [HMap.keys], by simp, by simp⟩
  rw [h] at hs
  rcases hs.elim with ⟨-, hs⟩ | ⟨m', hs, c1, c2⟩
  · cases hs
  cases hs
  obtain ⟨k1, k2, k3⟩ := Scatter.classes m τ
  have hflat : ∀ x, x ∈ Scatter.flat (τ.run (VertexMap.invert m).values) ↔ x ∈ target := fun x => by
    rw [k2, c1, HSet.mem_ofList]
  have hlen : (Scatter.flat (τ.run (VertexMap.invert m).values)).length = target.toFinset.card := by
    rw [← List.toFinset_card_of_nodup k1]
    congr 1
    ext x
    rw [List.mem_toFinset, hflat, List.mem_toFinset]
  have hne := Scatter.nonempties_le (τ.run (VertexMap.invert m).values)
  obtain ⟨cl, hcl, -⟩ := Scatter.improveLoop H.ordering Tb ω.sets (limit := 2 * (D / 2)) (by omega) (by omega) fuel
    (τ.run (VertexMap.invert m).values) [] (by omega) (fun x hx => hT x ((hflat x).1 hx)) k1 (fun A hA => by
      obtain ⟨k, hk⟩ := k3 A hA
      intro x hx y hy hxy n hw
      exact (c2 x y k hxy ((hk x).1 hx) ((hk y).1 hy) n hw).le) (by simp) (by simp) (by simp) .nil
  exact ⟨cl, hcl⟩

/-- **C109.** The classes that `scattered_colouring(distance, target)` can return, over the iteration orders of the tables of
`degeneracy` and of the table of classes, are exactly the following.  In rounds, until the target is used up, the vertices of the
target joining by the rule of the dominating set algorithm are coloured greedily along orders that peel off vertices of least
degree from their conflict graph; the classes of all rounds, in any order, then absorb one another in sweeps over the classes
sorted by size. -/
theorem C109_outcomes {L : LinGraph} {S : SGraph} {ord : List ℕ} (H : L.LRep S ord) (ω : LinGraph.ScatterOrder)
    (hω : ∀ k g, EditGraph.Relayout g ((ω.witness k).lay g)) {D : ℕ} (hD : D < 2 ^ 16) (hn : S.V.card ≤ 2 ^ 31) {target : List ℕ}
    (hT : ∀ x ∈ target, x ∈ S.V) {fuel : ℕ} (hf : target.toFinset.card < fuel) {o : List ℕ} (ho : S.ByLeftDegree ord o)
    (f : List (Finset ℕ)) :
    (∃ δ τ cl, L.scatteredColouring (ω.withOrders δ τ) fuel D target = .ok cl ∧ cl.map HSet.toFinset = f) ↔
      ∃ κ cs, S.ScatterRounds ord o D 0 target.toFinset κ ∧ ClassesOf κ cs ∧ Improve (S.Near (2 * (D / 2))) cs f := by
  obtain ⟨ws, Tb, hnd, hfin, hlen, hP, hrun⟩ := scattered_unfold H ω hD hn hT hf ho
  have O := H.ordering
  have himp : ∀ {m : HMap ℕ ℕ} {κ : ℕ → Option (ℕ × ℕ)} (τ : Shuffle (HSet ℕ)) {cl}, Scatter.Rel (HSet.ofList target) ∅ m κ →
      LinGraph.improveLoop ω.sets ws D (2 * (D / 2)) fuel (τ.run (VertexMap.invert m).values) [] = .ok cl →
      Improve (S.Near (2 * (D / 2))) ((τ.run (VertexMap.invert m).values).map HSet.toFinset) (cl.map HSet.toFinset) := by
    intro m κ τ cl R h
    obtain ⟨v1, v2⟩ := Scatter.values_classes R
    obtain ⟨k1, k2, k3⟩ := Scatter.classes m τ
    have hkeys : ∀ x ∈ m.keys, x ∈ S.V := fun x hx => by
      by_contra hc
      obtain ⟨c, hc'⟩ := HMap.mem_keys_iff.1 hx
      rw [R.out x fun h => hc (hP.sub x h)] at hc'
      simp at hc'
    obtain ⟨f', g1, g2⟩ := Scatter.improveLoop_rule O Tb ω.sets (by omega) (by omega) fuel _ []
      (fun x hx => hkeys x ((k2 x).1 hx)) h
    rw [Scatter.fin_all fun A hA => v1 A ((τ.mem _ _).1 hA)] at g1
    rw [g2]
    exact g1
  constructor
  · rintro ⟨δ, τ, cl, h, rfl⟩
    rw [hrun] at h
    obtain ⟨m, h1, h2⟩ := Scatter.bind_eq_ok.1 h
    rcases Scatter.loop_forward O Tb ω.wreach hD hn ho hnd (Scatter.withDegen ω.witness δ) hω fuel 0 (HSet.ofList target) ∅ hlen
      hP with ⟨c, κ, q1, q2, q3⟩ | ⟨q1, -⟩
    · rw [h1] at q1
      cases q1
      obtain ⟨v1, v2⟩ := Scatter.values_classes q3
      rw [hfin] at q2
      refine ⟨κ, _, q2, ?_, himp τ q3 h2⟩
      have hp := (τ.perm (VertexMap.invert m).values).map HSet.toFinset
      exact ⟨hp.nodup_iff.2 v2.1, fun A => hp.mem_iff.trans (v2.2 A)⟩
    · rw [h1] at q1
      cases q1
  · rintro ⟨κ, cs, q1, q2, q3⟩
    obtain ⟨δ, m, r1, r2⟩ := Scatter.rounds_backward O Tb ω.wreach hD hn ho hnd ω.witness hω q1 fuel (HSet.ofList target) ∅ hfin
      hlen hP
    obtain ⟨v1, v2⟩ := Scatter.values_classes r2
    obtain ⟨l', p1, p2⟩ := Scatter.perm_lift (v2.perm q2)
    obtain ⟨cl, h⟩ := scattered_improves H ω hω hD hn hT hf ho Tb hnd r1 (Scatter.swapTo _ l' p1)
    refine ⟨δ, Scatter.swapTo _ l' p1, cl, by rw [hrun, r1, bind_ok, h], ?_⟩
    have := himp _ r2 h
    rw [Scatter.swapTo_run p1, p2] at this
    exact this.unique q3

/-- **C109.** It can panic if and only if in some such round the greedy rule leaves a vertex without colour. -/
theorem C109_panic {L : LinGraph} {S : SGraph} {ord : List ℕ} (H : L.LRep S ord) (ω : LinGraph.ScatterOrder)
    (hω : ∀ k g, EditGraph.Relayout g ((ω.witness k).lay g)) {D : ℕ} (hD : D < 2 ^ 16) (hn : S.V.card ≤ 2 ^ 31) {target : List ℕ}
    (hT : ∀ x ∈ target, x ∈ S.V) {fuel : ℕ} (hf : target.toFinset.card < fuel) {o : List ℕ} (ho : S.ByLeftDegree ord o)
    (τ : Shuffle (HSet ℕ)) :
    (∃ δ, L.scatteredColouring (ω.withOrders δ τ) fuel D target = .error .panic) ↔ S.ScatterFails ord o D target.toFinset := by
  obtain ⟨ws, Tb, hnd, hfin, hlen, hP, hrun⟩ := scattered_unfold H ω hD hn hT hf ho
  have O := H.ordering
  constructor
  · rintro ⟨δ, h⟩
    rcases Scatter.loop_forward O Tb ω.wreach hD hn ho hnd (Scatter.withDegen ω.witness δ) hω fuel 0 (HSet.ofList target) ∅ hlen
      hP with ⟨c, κ, q1, -, -⟩ | ⟨-, q2⟩
    · obtain ⟨cl, h'⟩ := scattered_improves H ω hω hD hn hT hf ho Tb hnd q1 τ
      rw [hrun, q1, bind_ok, h'] at h
      cases h
    · rw [hfin] at q2
      exact q2
  · intro h
    obtain ⟨δ, r1⟩ := Scatter.fails_backward O Tb ω.wreach hD hn ho hnd ω.witness hω h fuel (HSet.ofList target) ∅ hfin hlen hP
    exact ⟨δ, by rw [hrun, r1]; rfl⟩

theorem path_scatter2 : ((builtOrd [(0, 1), (1, 2)] [0, 1, 2]).bind fun o =>
    (o.lin.scatteredColouring idScatter 5 2 [0, 1, 2]).map fun r => r.map HSet.toList) = .ok [[1], [2, 0]] := by decide +kernel

/-- Hypotheses of the C109 theorems are met by the path 0-1-2 with distance 2, and there is a run returning the class of 1 and
the class of the ends. -/
example : ∃ (L : LinGraph) (S : SGraph) (ω : LinGraph.ScatterOrder) (o : List ℕ), L.LRep S [0, 1, 2] ∧
    (∀ k g, EditGraph.Relayout g ((ω.witness k).lay g)) ∧ S.V.card ≤ 2 ^ 31 ∧ (∀ x ∈ [0, 1, 2], x ∈ S.V) ∧
    S.ByLeftDegree [0, 1, 2] o ∧ ∃ κ cs, S.ScatterRounds [0, 1, 2] o 2 0 [0, 1, 2].toFinset κ ∧ ClassesOf κ cs ∧
      Improve (S.Near 2) cs [{1}, {0, 2}] := by
  obtain ⟨g, hg, H⟩ := builtOrd_lin [(0, 1), (1, 2)] [0, 1, 2] (by decide) (by decide) (by decide)
  have hn : (SGraph.empty.addEdges [(0, 1), (1, 2)]).V.card ≤ 2 ^ 31 := by decide
  have hT : ∀ x ∈ [0, 1, 2], x ∈ (SGraph.empty.addEdges [(0, 1), (1, 2)]).V := by decide
  obtain ⟨o, ho', -, -⟩ := Dom.order H hn
  have ho := (Dom.order_rule H hn ho').2
  have h1 := path_scatter2
  rw [hg] at h1
  cases h2 : g.lin.scatteredColouring idScatter 5 2 [0, 1, 2] with
  | error => simp only [Except.bind, h2, Except.map] at h1; cases h1
  | ok cl =>
    simp only [Except.bind, h2, Except.map, Except.ok.injEq] at h1
    have h3 : cl.map HSet.toFinset = [{1}, {0, 2}] := by
      have he : HSet.toFinset = fun A : HSet ℕ => A.toList.toFinset := funext fun A => by
        ext x
        rw [HSet.mem_toFinset, List.mem_toFinset, HSet.mem_toList]
      have := congrArg (List.map List.toFinset) h1
      rw [List.map_map] at this
      rw [he]
      exact this.trans (by decide)
    exact ⟨_, _, idScatter, o, H, fun _ => relayout_refl, hn, hT, ho, (C109_outcomes H idScatter (fun _ => relayout_refl) (by omega)
      hn hT (fuel := 5) (by decide) ho _).1 ⟨fun _ => idWitness.degen, idScatter.classes, cl, h2, h3⟩⟩

end Verif
