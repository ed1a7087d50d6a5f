import Verif.Lemmas.ReachNest
import Verif.Props.Reach
import Verif.Props.ReachGraph
import Verif.Props.LinearAlg2
/-!
# C95: how the results of `sreach_sets` and `wreach_sets` relate

The statements only speak about the returned maps (and, for radius 1, about the graph).
-/
namespace Verif

theorem LinGraph.LRep.has_sreach {L : LinGraph} {S : SGraph} {ord : List ℕ} (H : L.LRep S ord) {σ τ : ℕ → ℕ → Shuffle ℕ}
    {r : ℕ} (hr : 1 ≤ r) (hk : r < 2 ^ 32) {m : HMap Vertex (HMap Vertex Nat)} (hm : L.sreachSets σ τ r = .ok m) :
    (∀ u, u ∈ m.keys ↔ u ∈ S.V) ∧ ∀ u s, m.get? u = some s → ∀ v d, s.get? v = some d ↔ S.SReach ord u v d ∧ d ≤ r := by
  obtain ⟨m', h, h2⟩ := C52_sreach_sets H σ τ hr hk
  rw [hm] at h
  cases h
  exact h2

theorem LinGraph.LRep.has_wreach {L : LinGraph} {S : SGraph} {ord : List ℕ} (H : L.LRep S ord) {σ τ : ℕ → ℕ → Shuffle ℕ}
    {r : ℕ} (hk : r + 1 < 2 ^ 32) {m : HMap Vertex (HMap Vertex Nat)} (hm : L.wreachSets σ τ r = .ok m) :
    (∀ u, u ∈ m.keys ↔ u ∈ S.V) ∧ ∀ u s, m.get? u = some s → ∀ v d, s.get? v = some d ↔ S.WReach ord u v d ∧ d ≤ r := by
  obtain ⟨m', h, h2⟩ := C53_wreach_sets H σ τ hk
  rw [hm] at h
  cases h
  exact h2

/-- **C95.** Every entry of `sreach_sets(r)` occurs in `wreach_sets(r)`, with the same or a smaller distance. -/
theorem C95_strong_in_weak {L : LinGraph} {S : SGraph} {ord : List ℕ} (H : L.LRep S ord) {σ τ σ' τ' : ℕ → ℕ → Shuffle ℕ}
    {r : ℕ} (hr : 1 ≤ r) (hk : r + 1 < 2 ^ 32) {ms mw : HMap Vertex (HMap Vertex Nat)} (hs : L.sreachSets σ τ r = .ok ms)
    (hw : L.wreachSets σ' τ' r = .ok mw) {u v d : ℕ} {s w : HMap Vertex Nat} (hsu : ms.get? u = some s) (hwu : mw.get? u = some w)
    (hv : s.get? v = some d) : ∃ d' ≤ d, w.get? v = some d' := by
  obtain ⟨h1, h2⟩ := ((H.has_sreach hr (by omega) hs).2 u s hsu v d).1 hv
  obtain ⟨d', hd, h3⟩ := h1.weak
  exact ⟨d', hd, ((H.has_wreach hk hw).2 u w hwu v d').2 ⟨h3, by omega⟩⟩

/-- **C95.** For radius 1 both functions return the left neighbours, all at distance 1. -/
theorem C95_radius_one {L : LinGraph} {S : SGraph} {ord : List ℕ} (H : L.LRep S ord) {σ τ σ' τ' : ℕ → ℕ → Shuffle ℕ}
    {ms mw : HMap Vertex (HMap Vertex Nat)} (hs : L.sreachSets σ τ 1 = .ok ms) (hw : L.wreachSets σ' τ' 1 = .ok mw) {u : ℕ}
    {s w : HMap Vertex Nat} (hsu : ms.get? u = some s) (hwu : mw.get? u = some w) (v d : ℕ) :
    (s.get? v = some d ↔ d = 1 ∧ S.Adj u v ∧ ord.idxOf v < ord.idxOf u) ∧ w.get? v = s.get? v := by
  have A : s.get? v = some d ↔ d = 1 ∧ S.Adj u v ∧ ord.idxOf v < ord.idxOf u := by
    rw [(H.has_sreach (le_refl _) (by omega) hs).2 u s hsu v d, and_comm]
    constructor
    · rintro ⟨h1, h2⟩
      have := ReachKind.rel_lt (k := .strong) h2
      obtain rfl : d = 1 := by omega
      exact ⟨rfl, ReachKind.rel_one (k := .strong).1 h2⟩
    · rintro ⟨rfl, h⟩
      exact ⟨le_refl _, ReachKind.rel_one (k := .strong).2 h⟩
  refine ⟨A, Option.ext fun e => ?_⟩
  change w.get? v = some e ↔ s.get? v = some e
  rw [(H.has_sreach (le_refl _) (by omega) hs).2 u s hsu v e, (H.has_wreach (by omega) hw).2 u w hwu v e]
  refine and_congr_left fun he => ?_
  constructor
  · intro h
    have := ReachKind.rel_lt (k := .weak) h
    obtain rfl : e = 1 := by omega
    exact ReachKind.rel_one (k := .strong).2 (ReachKind.rel_one (k := .weak).1 h)
  · intro h
    have := ReachKind.rel_lt (k := .strong) h
    obtain rfl : e = 1 := by omega
    exact ReachKind.rel_one (k := .weak).2 (ReachKind.rel_one (k := .strong).1 h)

/-- **C95.** Increasing the radius of `wreach_sets` and `sreach_sets` only adds entries with larger distances. -/
theorem C95_radius_monotone {L : LinGraph} {S : SGraph} {ord : List ℕ} (H : L.LRep S ord) {σ τ σ' τ' : ℕ → ℕ → Shuffle ℕ}
    {r r' : ℕ} (hrr : r ≤ r') (hk : r' + 1 < 2 ^ 32) {m m' : HMap Vertex (HMap Vertex Nat)} {u : ℕ} {s s' : HMap Vertex Nat}
    (hcase : (L.wreachSets σ τ r = .ok m ∧ L.wreachSets σ' τ' r' = .ok m') ∨
      (1 ≤ r ∧ L.sreachSets σ τ r = .ok m ∧ L.sreachSets σ' τ' r' = .ok m'))
    (hu : m.get? u = some s) (hu' : m'.get? u = some s') (v d : ℕ) :
    s.get? v = some d ↔ s'.get? v = some d ∧ d ≤ r := by
  rcases hcase with ⟨h1, h2⟩ | ⟨hr, h1, h2⟩
  · rw [(H.has_wreach (by omega) h1).2 u s hu, (H.has_wreach hk h2).2 u s' hu']
    constructor
    · rintro ⟨a, b⟩; exact ⟨⟨a, by omega⟩, b⟩
    · rintro ⟨⟨a, -⟩, b⟩; exact ⟨a, b⟩
  · rw [(H.has_sreach hr (by omega) h1).2 u s hu, (H.has_sreach (by omega) (by omega) h2).2 u s' hu']
    constructor
    · rintro ⟨a, b⟩; exact ⟨⟨a, by omega⟩, b⟩
    · rintro ⟨⟨a, -⟩, b⟩; exact ⟨a, b⟩

/-- **C95.** Entries of `wreach_sets(r)` compose: if `w` is listed for `u` and `v` for `w`, with distances that add up to at
most `r`, then `v` is listed for `u`, at a distance of at most the sum. -/
theorem C95_compose {L : LinGraph} {S : SGraph} {ord : List ℕ} (H : L.LRep S ord) {σ τ : ℕ → ℕ → Shuffle ℕ} {r : ℕ}
    (hk : r + 1 < 2 ^ 32) {m : HMap Vertex (HMap Vertex Nat)} (hm : L.wreachSets σ τ r = .ok m) {u w v a b : ℕ} {su sw : HMap Vertex Nat}
    (hu : m.get? u = some su) (hw : m.get? w = some sw) (hab : a + b ≤ r) (h1 : su.get? w = some a)
    (h2 : sw.get? v = some b) : ∃ d ≤ a + b, su.get? v = some d := by
  obtain ⟨d, hd, h3⟩ := (((H.has_wreach hk hm).2 u su hu w a).1 h1).1.trans (((H.has_wreach hk hm).2 w sw hw v b).1 h2).1
  exact ⟨d, hd, ((H.has_wreach hk hm).2 u su hu v d).2 ⟨h3, by omega⟩⟩

/-- **C95.** Conversely, weak reachability is generated by strong reachability: an entry `v ↦ d` of `wreach_sets(r)` for `u`
is an entry of `sreach_sets(r)` for `u`, or there is an entry `w ↦ a` of `sreach_sets(r)` for `u` and an entry `v ↦ b` of
`wreach_sets(r)` for `w` with `a + b = d`. -/
theorem C95_decompose {L : LinGraph} {S : SGraph} {ord : List ℕ} (H : L.LRep S ord) {σ τ σ' τ' : ℕ → ℕ → Shuffle ℕ} {r : ℕ}
    (hr : 1 ≤ r) (hk : r + 1 < 2 ^ 32) {ms mw : HMap Vertex (HMap Vertex Nat)} (hs : L.sreachSets σ τ r = .ok ms)
    (hw : L.wreachSets σ' τ' r = .ok mw) {u v d : ℕ} {su wu : HMap Vertex Nat} (hsu : ms.get? u = some su)
    (hwu : mw.get? u = some wu) (hv : wu.get? v = some d) :
    su.get? v = some d ∨
      ∃ w a b ww, a + b = d ∧ su.get? w = some a ∧ mw.get? w = some ww ∧ ww.get? v = some b := by
  have Ss := H.has_sreach hr (by omega) hs
  have Ww := H.has_wreach hk hw
  obtain ⟨h1, h2⟩ := (Ww.2 u wu hwu v d).1 hv
  rcases h1.decompose H.ordering with h3 | ⟨w, a, b, hab, h3, h4⟩
  · exact Or.inl ((Ss.2 u su hsu v d).2 ⟨h3, h2⟩)
  · have hwV : w ∈ S.V := by
      obtain ⟨⟨p, hp, -⟩, -⟩ := h4.2
      cases p with
      | nil => simp only [List.nil_append, List.isChain_cons_cons] at hp; exact hp.1.left
      | cons x p => simp only [List.cons_append, List.isChain_cons_cons] at hp; exact hp.1.left
    obtain ⟨ww, hww⟩ := HMap.mem_keys_iff.1 ((Ww.1 w).2 hwV)
    exact Or.inr ⟨w, a, b, ww, hab, (Ss.2 u su hsu w a).2 ⟨h3, by omega⟩, hww, (Ww.2 w ww hww v b).2 ⟨h4, by omega⟩⟩

/-- The path 0-1-2 ordered from left to right for the examples. -/
theorem exNest : ∃ (L : LinGraph) (S : SGraph), L.LRep S [0, 1, 2] ∧ ∃ ms ms1 mw mw1 : HMap Vertex (HMap Vertex Nat),
    L.sreachSets (fun _ _ => .id) (fun _ _ => .id) 2 = .ok ms ∧ L.sreachSets (fun _ _ => .id) (fun _ _ => .id) 1 = .ok ms1 ∧
    L.wreachSets (fun _ _ => .id) (fun _ _ => .id) 2 = .ok mw ∧ L.wreachSets (fun _ _ => .id) (fun _ _ => .id) 1 = .ok mw1 ∧
    ((ms.get? 2).map (·.get? 1), (ms.get? 2).map (·.get? 0)) = (some (some 1), some none) ∧
    ((ms1.get? 2).map (·.get? 1), (mw1.get? 2).map (·.get? 1)) = (some (some 1), some (some 1)) ∧
    ((mw.get? 2).map (·.get? 1), (mw.get? 2).map (·.get? 0), (mw.get? 1).map (·.get? 0)) =
      (some (some 1), some (some 2), some (some 1)) := by
  obtain ⟨o, ho, H⟩ := builtOrd_lin [(0, 1), (1, 2)] [0, 1, 2] (by decide) (by decide) (by decide)
  obtain ⟨ms, h1, -⟩ := C52_sreach_sets H (fun _ _ => .id) (fun _ _ => .id) (r := 2) (by omega) (by omega)
  obtain ⟨ms1, h2, -⟩ := C52_sreach_sets H (fun _ _ => .id) (fun _ _ => .id) (r := 1) (by omega) (by omega)
  obtain ⟨mw, h3, -⟩ := C53_wreach_sets H (fun _ _ => .id) (fun _ _ => .id) (r := 2) (by omega)
  obtain ⟨mw1, h4, -⟩ := C53_wreach_sets H (fun _ _ => .id) (fun _ _ => .id) (r := 1) (by omega)
  have key : ((builtOrd [(0, 1), (1, 2)] [0, 1, 2]).bind fun o => do
      let ms ← o.lin.sreachSets (fun _ _ => .id) (fun _ _ => .id) 2
      let ms1 ← o.lin.sreachSets (fun _ _ => .id) (fun _ _ => .id) 1
      let mw ← o.lin.wreachSets (fun _ _ => .id) (fun _ _ => .id) 2
      let mw1 ← o.lin.wreachSets (fun _ _ => .id) (fun _ _ => .id) 1
      return decide (((ms.get? 2).map (·.get? 1), (ms.get? 2).map (·.get? 0)) = (some (some 1), some none) ∧
        ((ms1.get? 2).map (·.get? 1), (mw1.get? 2).map (·.get? 1)) = (some (some 1), some (some 1)) ∧
        ((mw.get? 2).map (·.get? 1), (mw.get? 2).map (·.get? 0), (mw.get? 1).map (·.get? 0)) =
          (some (some 1), some (some 2), some (some 1)))) = .ok true := by decide +kernel
  rw [ho] at key
  simp only [Except.bind, h1, h2, h3, h4, bind_ok, pure_eq_ok, Except.ok.injEq, decide_eq_true_eq] at key
  exact ⟨o.lin, _, H, ms, ms1, mw, mw1, h1, h2, h3, h4, key⟩

/-- Hypotheses of the theorems above are met: on the path 0-1-2, vertex 0 is weakly but not strongly reachable from 2, at
distance 2, through vertex 1. -/
example : ∃ (L : LinGraph) (S : SGraph) (ord : List ℕ) (ms ms1 mw mw1 : HMap Vertex (HMap Vertex Nat))
    (s s1 w w1 w' : HMap Vertex Nat), L.LRep S ord ∧
    L.sreachSets (fun _ _ => .id) (fun _ _ => .id) 2 = .ok ms ∧ L.sreachSets (fun _ _ => .id) (fun _ _ => .id) 1 = .ok ms1 ∧
    L.wreachSets (fun _ _ => .id) (fun _ _ => .id) 2 = .ok mw ∧ L.wreachSets (fun _ _ => .id) (fun _ _ => .id) 1 = .ok mw1 ∧
    ms.get? 2 = some s ∧ ms1.get? 2 = some s1 ∧ mw.get? 2 = some w ∧ mw1.get? 2 = some w1 ∧ mw.get? 1 = some w' ∧
    s.get? 1 = some 1 ∧ s.get? 0 = none ∧ w.get? 1 = some 1 ∧ w.get? 0 = some 2 ∧ w'.get? 0 = some 1 := by
  obtain ⟨L, S, H, ms, ms1, mw, mw1, h1, h2, h3, h4, e1, e2, e3⟩ := exNest
  simp only [Prod.mk.injEq, Option.map_eq_some_iff] at e1 e2 e3
  obtain ⟨⟨s, hs, a1⟩, s', hs', a2⟩ := e1
  obtain ⟨⟨s1, hs1, -⟩, w1, hw1, -⟩ := e2
  obtain ⟨⟨w, hw, a3⟩, ⟨w2, hw2, a4⟩, w3, hw3, a5⟩ := e3
  rw [hs] at hs'
  cases hs'
  rw [hw] at hw2
  cases hw2
  exact ⟨L, S, _, ms, ms1, mw, mw1, s, s1, w, w1, w3, H, h1, h2, h3, h4, hs, hs1, hw, hw1, hw3, a1, a2, a3, a4, a5⟩

end Verif
