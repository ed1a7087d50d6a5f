import Verif.Props.ReachNest
import Verif.Props.DomsetSize
import Verif.Props.LinearAlg2
import Mathlib.Algebra.BigOperators.Intervals
/-!
# C122: weakly reachable sets are bounded in terms of strongly reachable sets
-/
namespace Verif
open Finset

namespace SGraph

open Classical in
/-- If at most `s` vertices are strongly reachable within `r` from any vertex, then at most `s + … + s^n` vertices are weakly
reachable within `n ≤ r`. -/
theorem wreach_card_le {S : SGraph} {ord : List ℕ} (O : S.Ordering ord) {r s : ℕ}
    (hs : ∀ u ∈ S.V, (S.V.filter (fun v => ∃ d ≤ r, S.SReach ord u v d)).card ≤ s) :
    ∀ n ≤ r, ∀ u ∈ S.V, (S.V.filter (fun v => ∃ d ≤ n, S.WReach ord u v d)).card + 1 ≤ ∑ i ∈ range (n + 1), s ^ i := by
  intro n
  induction n with
  | zero =>
    intro _ u _
    rw [Finset.filter_eq_empty_iff.2]
    · simp
    · rintro v - ⟨d, hd, h⟩
      have := h.pos O
      omega
  | succ n ih =>
    intro hn u hu
    have hsub : S.V.filter (fun v => ∃ d ≤ n + 1, S.WReach ord u v d) ⊆
        (S.V.filter (fun v => ∃ d ≤ r, S.SReach ord u v d)).biUnion
          (fun w => insert w (S.V.filter (fun v => ∃ d ≤ n, S.WReach ord w v d))) := by
      intro v hv
      rw [Finset.mem_filter] at hv
      obtain ⟨hvV, d, hd, hv⟩ := hv
      rw [Finset.mem_biUnion]
      rcases hv.decompose O with h | ⟨w, a, b, hab, h, h'⟩
      · exact ⟨v, Finset.mem_filter.2 ⟨hvV, d, by omega, h⟩, Finset.mem_insert_self _ _⟩
      · obtain ⟨e, he, hw⟩ := h.weak
        have hpos := hw.pos O
        exact ⟨w, Finset.mem_filter.2 ⟨hw.left_mem O, a, by omega, h⟩,
          Finset.mem_insert_of_mem (Finset.mem_filter.2 ⟨hvV, b, by omega, h'⟩)⟩
    have hle := (Finset.card_le_card hsub).trans (Finset.card_biUnion_le_card_mul _ _ (∑ i ∈ range (n + 1), s ^ i) fun w hw =>
      (Finset.card_insert_le _ _).trans (ih (by omega) w (Finset.mem_filter.1 hw).1))
    rw [Finset.sum_range_succ']
    have hm : ∑ i ∈ range (n + 1), s ^ (i + 1) = s * ∑ i ∈ range (n + 1), s ^ i := by
      rw [Finset.mul_sum]
      exact Finset.sum_congr rfl fun i _ => by rw [pow_succ, mul_comm]
    rw [hm, pow_zero]
    exact Nat.add_le_add_right (hle.trans (Nat.mul_le_mul_right _ (hs u hu))) 1

end SGraph

/-- **C122.** If every value of `sreach_sizes(r)` is at most `s`, then every value of `wreach_sizes(r)` is at most
`s + s² + … + s^r`; and no value of `sreach_sizes(r)` exceeds that of `wreach_sizes(r)`. -/
theorem C122_sizes {L : LinGraph} {S : SGraph} {ord : List ℕ} (H : L.LRep S ord) (σ τ σ' τ' : ℕ → ℕ → Shuffle ℕ) {r : ℕ}
    (hr : 1 ≤ r) (hk : r + 1 < 2 ^ 32) (hn : S.V.card < 2 ^ 32) {ms mw : HMap ℕ ℕ} (hs : L.sreachSizes σ τ r = .ok ms)
    (hw : L.wreachSizes σ' τ' r = .ok mw) :
    (∀ u a b, ms.get? u = some a → mw.get? u = some b → a ≤ b) ∧
    ∀ s, (∀ u a, ms.get? u = some a → a ≤ s) → ∀ u b, mw.get? u = some b → b + 1 ≤ ∑ i ∈ range (r + 1), s ^ i := by
  classical
  obtain ⟨ms', hs', ks, vs⟩ := C52_sreach_sizes H σ τ hr (by omega) hn
  obtain ⟨mw', hw', kw, vw⟩ := C53_wreach_sizes H σ' τ' hk hn
  obtain rfl : ms = ms' := by rw [hs] at hs'; exact Except.ok.inj hs'
  obtain rfl : mw = mw' := by rw [hw] at hw'; exact Except.ok.inj hw'
  have hV : ∀ {u b}, mw.get? u = some b → u ∈ S.V := fun {u b} h => (kw u).1 (HMap.mem_keys_iff.2 ⟨b, h⟩)
  constructor
  · intro u a b ha hb
    have hu := hV hb
    rw [vs u hu] at ha
    rw [vw u hu] at hb
    cases ha
    cases hb
    refine Finset.card_le_card fun v hv => ?_
    rw [Finset.mem_filter] at hv
    obtain ⟨hvV, d, hd, h⟩ := hv
    obtain ⟨e, he, h'⟩ := h.weak
    exact Finset.mem_filter.2 ⟨hvV, e, by omega, h'⟩
  · intro s hall u b hb
    have hu := hV hb
    rw [vw u hu] at hb
    cases hb
    exact SGraph.wreach_card_le H.ordering (fun u hu => hall u _ (vs u hu)) r (le_refl _) u hu

/-- **C122, consequence.** The dominating set is an approximation in terms of `sreach_sizes`: if every value of
`sreach_sizes(r)` is at most `s`, `domset(r, _)` returns at most `c * (c + (2r)²)` times as many vertices as any dominating
set, where `c = 1 + s + … + s^r`. -/
theorem C122_domset {L : LinGraph} {S : SGraph} {ord : List ℕ} (H : L.LRep S ord) (ω : LinGraph.DomOrder)
    (hω : ∀ g, EditGraph.Relayout g (ω.witness.lay g)) {r : ℕ} (hr : 1 ≤ r) (hr' : r < 2 ^ 15) (hn : S.V.card ≤ 2 ^ 31)
    (σ τ : ℕ → ℕ → Shuffle ℕ) {sizes : HMap ℕ ℕ} (hs : L.sreachSizes σ τ r = .ok sizes) {s : ℕ}
    (hc : ∀ v k, sizes.get? v = some k → k ≤ s) (X : Finset ℕ)
    (hX : ∀ x ∈ S.V, ∃ d ∈ X, ∃ n ≤ r, Walk S.Adj n d x) (w : Bool) {D : HSet ℕ} {m : HMap ℕ ℕ} {col : Option (HMap ℕ ℕ)}
    (h : L.domset ω r w = .ok (D, m, col)) :
    D.len ≤ X.card * ((∑ i ∈ range (r + 1), s ^ i) * (∑ i ∈ range (r + 1), s ^ i + (2 * r) ^ 2)) := by
  obtain ⟨mw, hw, -⟩ := C53_wreach_sizes H σ τ (r := r) (by omega) (by omega)
  exact C93_domset_size H ω hω hr' hn σ τ hw
    (fun v k hv => (C122_sizes H σ τ σ τ hr (by omega) (by omega) hs hw).2 s hc v k hv) X hX w h

/-- Hypotheses of the C122 theorems are met by the path 0-1-2-3-4 from left to right and radius 2: one vertex is strongly
reachable from each vertex and two are weakly reachable, so that the bound is attained; 2 dominates within 2. -/
example : ∃ (o : OrdGraph) (S : SGraph) (ms mw : HMap ℕ ℕ), o.lin.LRep S [0, 1, 2, 3, 4] ∧ S.V.card ≤ 2 ^ 31 ∧
    (∀ g, EditGraph.Relayout g (idDom.witness.lay g)) ∧
    o.lin.sreachSizes (fun _ _ => Shuffle.id) (fun _ _ => Shuffle.id) 2 = .ok ms ∧
    o.lin.wreachSizes (fun _ _ => Shuffle.id) (fun _ _ => Shuffle.id) 2 = .ok mw ∧
    (∀ v k, ms.get? v = some k → k ≤ 1) ∧ mw.get? 4 = some 2 ∧ 2 + 1 = ∑ i ∈ range (2 + 1), 1 ^ i ∧
    (∀ x ∈ S.V, ∃ d ∈ ({2} : Finset ℕ), ∃ n ≤ 2, Walk S.Adj n d x) ∧
    ∃ D m col, o.lin.domset idDom 2 false = .ok (D, m, col) := by
  obtain ⟨o, ho, H⟩ := builtOrd_lin [(0, 1), (1, 2), (2, 3), (3, 4)] [0, 1, 2, 3, 4] (by decide) (by decide) (by decide)
  have h1 : ((builtOrd [(0, 1), (1, 2), (2, 3), (3, 4)] [0, 1, 2, 3, 4]).bind fun o =>
    (o.lin.sreachSizes (fun _ _ => Shuffle.id) (fun _ _ => Shuffle.id) 2).map HMap.entries) =
      .ok [(4, 1), (3, 1), (2, 1), (1, 1), (0, 0)] := by decide +kernel
  have h2 : ((builtOrd [(0, 1), (1, 2), (2, 3), (3, 4)] [0, 1, 2, 3, 4]).bind fun o =>
    (o.lin.wreachSizes (fun _ _ => Shuffle.id) (fun _ _ => Shuffle.id) 2).map HMap.entries) =
      .ok [(4, 2), (3, 2), (2, 2), (1, 1), (0, 0)] := by decide +kernel
  rw [ho] at h1 h2
  obtain ⟨D, m, h3, -⟩ := C56_domset H idDom relayout_refl (r := 2) (by omega) (by decide)
  cases hs : o.lin.sreachSizes (fun _ _ => Shuffle.id) (fun _ _ => Shuffle.id) 2 with
  | error e => simp only [Except.bind, hs, Except.map] at h1; cases h1
  | ok ms =>
    cases hw : o.lin.wreachSizes (fun _ _ => Shuffle.id) (fun _ _ => Shuffle.id) 2 with
    | error e => simp only [Except.bind, hw, Except.map] at h2; cases h2
    | ok mw =>
      simp only [Except.bind, hs, hw, Except.map, Except.ok.injEq] at h1 h2
      refine ⟨o, _, ms, mw, H, by decide, relayout_refl, hs, hw, fun v k hk => ?_, ?_, by decide, ?_, D, m, none, h3⟩
      · rw [HMap.get?_eq_some, h1] at hk
        simp only [List.mem_cons, Prod.mk.injEq, List.not_mem_nil, or_false] at hk
        omega
      · rw [HMap.get?_eq_some, h2]
        simp
      · intro x hx
        have : x ∈ ([0, 1, 2, 3, 4] : List ℕ) := (H.ordering.mem x).2 hx
        simp only [List.mem_cons, List.not_mem_nil, or_false] at this
        refine ⟨2, by simp, ?_⟩
        rcases this with rfl | rfl | rfl | rfl | rfl
        · exact ⟨2, by omega, .cons (v := 1) (by decide) (Walk.one_iff.2 (by decide))⟩
        · exact ⟨1, by omega, Walk.one_iff.2 (by decide)⟩
        · exact ⟨0, by omega, .nil _⟩
        · exact ⟨1, by omega, Walk.one_iff.2 (by decide)⟩
        · exact ⟨2, by omega, .cons (v := 3) (by decide) (Walk.one_iff.2 (by decide))⟩

end Verif
