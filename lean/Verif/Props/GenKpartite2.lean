import Verif.Props.GenKpartite
import Verif.Props.GenDomsets
/-!
# C139: dominating sets of complete multipartite graphs
-/
namespace Verif
open SGraph EditGraph

/-- Specification: first vertex of the last nonempty part. -/
def lastStart (sizes : List ℕ) : ℕ := partStart sizes (sizes.sum - 1)

/-- An enumeration of `0..s-1` by decreasing key, ties by increasing number. -/
theorem exists_enum (s : ℕ) (K : ℕ → ℕ) : ∃ w : ℕ → ℕ, (∀ x, x < s ↔ ∃ i < s, w i = x) ∧
    ∀ i j, i < j → j < s → K (w j) < K (w i) ∨ (K (w j) = K (w i) ∧ w i < w j) := by
  let le : ℕ → ℕ → Bool := fun a b => decide (K b < K a ∨ (K b = K a ∧ a ≤ b))
  have hp := List.pairwise_mergeSort (le := le) (fun a b c => by simp only [le, decide_eq_true_eq]; omega)
    (fun a b => by simp only [le, Bool.or_eq_true, decide_eq_true_eq]; omega) (List.range s)
  have hperm := List.mergeSort_perm (List.range s) le
  generalize (List.range s).mergeSort le = l at hp hperm
  have hlen : l.length = s := by rw [hperm.length_eq, List.length_range]
  have hnd : l.Nodup := hperm.nodup_iff.2 List.nodup_range
  have hget : ∀ i (h : i < l.length), l.getD i 0 = l[i] := fun i h => by
    unfold List.getD; rw [List.getElem?_eq_getElem h]; rfl
  refine ⟨fun i => l.getD i 0, fun x => ?_, fun i j hij hj => ?_⟩
  · rw [← List.mem_range, ← hperm.mem_iff, List.mem_iff_getElem]
    constructor
    · rintro ⟨i, hi, e⟩
      exact ⟨i, by omega, (hget i hi).trans e⟩
    · rintro ⟨i, hi, e⟩
      exact ⟨i, by omega, (hget i (by omega)).symm.trans e⟩
  · show K (l.getD j 0) < K (l.getD i 0) ∨ (K (l.getD j 0) = K (l.getD i 0) ∧ l.getD i 0 < l.getD j 0)
    rw [hget i (by omega), hget j (by omega)]
    have h1 := List.pairwise_iff_getElem.1 hp i j (by omega) (by omega) hij
    have h2 := List.pairwise_iff_getElem.1 hnd i j (by omega) (by omega) hij
    simp only [le, decide_eq_true_eq] at h1
    omega

theorem lastStart_lt {sizes : List ℕ} (h2 : 2 ≤ partCount sizes) : 0 < lastStart sizes ∧ lastStart sizes < sizes.sum := by
  obtain ⟨x, hx, ex⟩ := partRank_surj sizes (i := 0) (by omega)
  obtain ⟨y, hy, ey⟩ := partRank_surj sizes (i := 1) (by omega)
  have := partStart_le sizes (sizes.sum - 1)
  unfold lastStart
  refine ⟨?_, by omega⟩
  have h3 : 0 < partRank sizes (sizes.sum - 1) := by
    rcases Nat.lt_or_ge y (sizes.sum - 1) with h | h
    · have := (partRank_lt_iff sizes h (by omega)).2; omega
    · obtain rfl : y = sizes.sum - 1 := by omega
      omega
  have h4 : x < sizes.sum - 1 := by
    by_contra hn
    obtain rfl : x = sizes.sum - 1 := by omega
    omega
  have := (partRank_lt_iff sizes h4 (by omega)).1
  omega

theorem partRank_last {sizes : List ℕ} {v : ℕ} (hv : v < sizes.sum) : partRank sizes v ≤ partRank sizes (sizes.sum - 1) ∧
    (partRank sizes v < partRank sizes (sizes.sum - 1) ↔ v < lastStart sizes) ∧
    (lastStart sizes ≤ v → partStart sizes v = lastStart sizes) := by
  have h1 : ∀ v < sizes.sum, partRank sizes v ≤ partRank sizes (sizes.sum - 1) ∧
    (partRank sizes v < partRank sizes (sizes.sum - 1) ↔ v < lastStart sizes) := fun v hv => by
    rcases Nat.lt_or_ge v (sizes.sum - 1) with h | h
    · have := partRank_lt_iff sizes h (by omega)
      exact ⟨this.2, this.1⟩
    · obtain rfl : v = sizes.sum - 1 := by omega
      have := partStart_le sizes (sizes.sum - 1)
      unfold lastStart
      omega
  refine ⟨(h1 v hv).1, (h1 v hv).2, fun hle => ?_⟩
  have h2 := h1 v hv
  have h3 := partStart_le sizes v
  rcases Nat.lt_trichotomy (partStart sizes v) (lastStart sizes) with hlt | e | hlt
  · have h4 := partRank_lt_iff sizes (v := partStart sizes v) (u := v) (by omega) hv
    have h5 := h1 (partStart sizes v) (by omega)
    omega
  · exact e
  · have h4 := partRank_lt_iff sizes (v := lastStart sizes) (u := v) (by omega) hv
    have h5 := h1 (lastStart sizes) (by omega)
    omega

/-- In the complete multipartite graph, `u` is weakly reachable from `v` at distance `d`, at most `r`. -/
def KpartiteReach (sizes : List ℕ) (r v u d : ℕ) : Prop :=
  v < sizes.sum ∧ u < v ∧ ((u < partStart sizes v ∧ d = 1) ∨ (partStart sizes v ≤ u ∧ v < lastStart sizes ∧ d = 2 ∧ 2 ≤ r))

theorem kpartite_reach {sizes : List ℕ} (h2 : 2 ≤ partCount sizes) {r : ℕ} (hr0 : 0 < r) {S : SGraph}
    (hA : ∀ a b, S.Adj a b ↔ a < sizes.sum ∧ b < sizes.sum ∧ partOf sizes a ≠ partOf sizes b) {v u : ℕ} (huv : u < v)
    (hv : v < sizes.sum) (d : ℕ) :
    (IsMin (fun k => S.WalkVia (fun x => u < x) k v u) d ∧ d ≤ r) ↔ KpartiteReach sizes r v u d := by
  have hadj : ∀ a b, S.Adj a b ↔ a < sizes.sum ∧ b < sizes.sum ∧ partRank sizes a ≠ partRank sizes b := fun a b => by
    rw [hA]
    constructor
    · rintro ⟨h1, h2, h3⟩; exact ⟨h1, h2, (partRank_eq sizes h1 h2).not.2 h3⟩
    · rintro ⟨h1, h2, h3⟩; exact ⟨h1, h2, (partRank_eq sizes h1 h2).not.1 h3⟩
  have hlt := partRank_lt_iff sizes huv hv
  have hl := lastStart_lt h2
  have hlast := partRank_last hv
  have hlast' := partRank_last (v := lastStart sizes) hl.2
  unfold KpartiteReach
  by_cases hs : u < partStart sizes v
  · rw [isMin_one ((hadj v u).2 ⟨hv, by omega, by omega⟩)]
    omega
  · by_cases hvl : v < lastStart sizes
    · have h2 : IsMin (fun k => S.WalkVia (fun x => u < x) k v u) 2 := by
        refine ⟨.cons (w := lastStart sizes) ((hadj _ _).2 ⟨hv, hl.2, by omega⟩) (by omega)
          (.one ((hadj _ _).2 ⟨hl.2, by omega, by omega⟩)), fun m hm h => ?_⟩
        cases h with
        | one e => have := (hadj _ _).1 e; omega
        | cons e hw w => cases w <;> omega
      constructor
      · rintro ⟨h, hd⟩
        have a := h.le h2.1
        have b := h2.le h.1
        omega
      · intro h
        obtain rfl : d = 2 := by omega
        exact ⟨h2, by omega⟩
    · refine ⟨fun ⟨h, _⟩ => ?_, fun h => by omega⟩
      exfalso
      cases h.1 with
      | one e => have := (hadj _ _).1 e; omega
      | @cons _ _ x _ e hw w =>
        have h5 := (hadj _ _).1 e
        have h6 := partRank_last h5.2.1
        have h7 := hlast.2.2 (by omega)
        omega

/-- `domset` on a complete multipartite graph, given the steps: first the last part in order, then the other vertices in some
order. Of the weakly reachable sets the steps need only know those of the last part. -/
theorem kpartite_domset (sizes : List ℕ) (h2 : 2 ≤ partCount sizes) (hn : sizes.sum ≤ 2 ^ 31) {r : ℕ} (hr0 : 0 < r)
    (hr : r < 2 ^ 15) {D : ℕ → Prop} {ν : ℕ → ℕ} (J : ℕ → Finset ℕ) (μ : ℕ → ℕ → ℕ) (hJ : J 0 = ∅)
    (hμ : ∀ x < sizes.sum, μ 0 x = r + 1)
    (h3 : ∀ W : ℕ → ℕ → ℕ → Prop, W = KpartiteReach sizes r → ∀ s t, s = lastStart sizes → s + t = sizes.sum →
      (∀ v u d, s ≤ v → (W v u d ↔ v < s + t ∧ u < s ∧ d = 1)) → (∀ v u d, W v u d → u < v ∧ 1 ≤ d) →
      (∀ i < t, DomStep (Finset.range (s + t)) W r ((2 * r) ^ 2) (J i) (μ i) (s + i) (J (i + 1)) (μ (i + 1))) ∧
      (∀ i < s, ∀ v < s, DomStep (Finset.range (s + t)) W r ((2 * r) ^ 2) (J (t + i)) (μ (t + i)) v (J (t + i + 1))
        (μ (t + i + 1))) ∧
      (∀ x, Generated W ((2 * r) ^ 2) (J (s + t)) x ↔ D x) ∧ ∀ x < s + t, μ (s + t) x = ν x) :
    NaturalDomset (completeKpartite sizes) sizes.sum r D ν := by
  have hl := lastStart_lt h2
  obtain ⟨t, ht⟩ : ∃ t, lastStart sizes + t = sizes.sum := ⟨sizes.sum - lastStart sizes, by omega⟩
  obtain ⟨h4, h5, h6, h7⟩ := h3 _ rfl _ t rfl ht (fun v u d hv => by
    unfold KpartiteReach
    by_cases hvn : v < sizes.sum
    · have := (partRank_last hvn).2.2 hv
      omega
    · omega) (fun v u d h => ⟨h.2.1, by have := h.2.2; omega⟩)
  obtain ⟨w, hw1, hw2⟩ := exists_enum (lastStart sizes) (partStart sizes)
  have hX : ∀ u < sizes.sum, ∀ v, v ∈ Finset.range sizes.sum \ Finset.Ico (partStart sizes u) (partStart sizes u + partSize sizes u) ↔
      v < sizes.sum ∧ partOf sizes v ≠ partOf sizes u := fun u hu v => by
    rw [Finset.mem_sdiff, Finset.mem_range, Finset.mem_Ico, ← (partOf_eq_iff sizes (v := v) hu).2]
  have hXe : ∀ u < sizes.sum, ∀ v < sizes.sum, u ≤ v → partStart sizes u = partStart sizes v →
      partOf sizes u = partOf sizes v := fun u hu v hv hle e => by
    rcases Nat.lt_or_eq_of_le hle with hlt | rfl
    · have h1 := partRank_lt_iff sizes hlt hv
      have := partStart_le sizes u
      exact (partRank_eq sizes hu hv).1 (by omega)
    · rfl
  have hXs : ∀ u < sizes.sum, ∀ v < sizes.sum, u ≤ v → partStart sizes u = partStart sizes v →
      Finset.range sizes.sum \ Finset.Ico (partStart sizes u) (partStart sizes u + partSize sizes u) =
      Finset.range sizes.sum \ Finset.Ico (partStart sizes v) (partStart sizes v + partSize sizes v) := fun u hu v hv hle e => by
    ext x
    rw [hX u hu, hX v hv, hXe u hu v hv hle e]
  have hws : ∀ i < lastStart sizes, w i < lastStart sizes := fun i hi => (hw1 _).2 ⟨i, hi, rfl⟩
  refine (C11_kpartite_partial sizes (by omega) h2).domset (fun u h => h.2.2 rfl) (by omega) hn hr (KpartiteReach sizes r)
    (fun v u d h => ⟨h.2.1, h.1⟩) (fun S hV hA v u huv hv d => kpartite_reach h2 hr0 hA huv hv d)
    (fun v => Finset.range (partStart sizes v))
    (fun v => Finset.range sizes.sum \ Finset.Ico (partStart sizes v) (partStart sizes v + partSize sizes v))
    (fun v hv u => ?_) (fun v hv u => ?_) (fun i => if i < t then lastStart sizes + i else w (i - t))
    (fun x => ⟨fun h => ?_, fun ⟨i, h1, h2⟩ => ?_⟩) (fun i j hij hj => ?_) J μ hJ hμ (fun i hi => ?_) ?_ ?_
  · rw [Finset.mem_range]
    constructor
    · rintro ⟨⟨h1, h2, h3⟩, h4⟩
      have h5 := partRank_lt_iff sizes h4 hv
      have h6 := (partRank_eq sizes h1 h2).not.2 h3
      omega
    · intro h
      have h4 : u < v := lt_of_lt_of_le h (partStart_le _ _)
      have h5 := partRank_lt_iff sizes h4 hv
      exact ⟨⟨hv, by omega, (partRank_eq sizes hv (by omega)).not.1 (by omega)⟩, h4⟩
  · rw [hX v hv]
    exact ⟨fun h => ⟨h.2.1, fun e => h.2.2 e.symm⟩, fun h => ⟨hv, h.1, fun e => h.2 e.symm⟩⟩
  · by_cases hx : x < lastStart sizes
    · obtain ⟨i, hi, e⟩ := (hw1 x).1 hx
      exact ⟨t + i, by omega, by rw [if_neg (by omega), Nat.add_sub_cancel_left, e]⟩
    · exact ⟨x - lastStart sizes, by omega, by rw [if_pos (by omega)]; omega⟩
  · split at h2
    · omega
    · have := hws (i - t) (by omega)
      omega
  · rw [Finset.card_range, Finset.card_range]
    by_cases h1 : j < t
    · rw [if_pos h1, if_pos (show i < t by omega)]
      have e1 := (partRank_last (sizes := sizes) (v := lastStart sizes + i) (by omega)).2.2 (by omega)
      have e2 := (partRank_last (sizes := sizes) (v := lastStart sizes + j) (by omega)).2.2 (by omega)
      rw [hXs (lastStart sizes + i) (by omega) (lastStart sizes + j) (by omega) (by omega) (by omega)]
      exact .inr ⟨by omega, .inr ⟨rfl, by omega⟩⟩
    · rw [if_neg h1]
      have b2 := hws (j - t) (by omega)
      by_cases hit : i < t
      · rw [if_pos hit]
        have e1 := (partRank_last (sizes := sizes) (v := lastStart sizes + i) (by omega)).2.2 (by omega)
        have := partStart_le sizes (w (j - t))
        exact .inl (by omega)
      · rw [if_neg hit]
        have b1 := hws (i - t) (by omega)
        rcases hw2 (i - t) (j - t) (by omega) (by omega) with h | ⟨h, h'⟩
        · exact .inl h
        · rw [hXs (w (i - t)) (by omega) (w (j - t)) (by omega) (by omega) h.symm]
          exact .inr ⟨h, .inr ⟨rfl, h'⟩⟩
  · rw [← ht]
    by_cases hit : i < t
    · rw [if_pos hit]; exact h4 i hit
    · rw [if_neg hit]
      have := h5 (i - t) (by omega) (w (i - t)) (hws _ (by omega))
      rwa [show t + (i - t) = i by omega] at this
  · rw [← ht]; exact h6
  · rw [← ht]; exact h7

/-- **C139 (dominating sets).** For radius at least 2, the first vertex of the last nonempty part alone is returned; the other
parts have distance 1 and the rest of the last part distance 2. -/
theorem C139_domset (sizes : List ℕ) (h2 : 2 ≤ partCount sizes) (hn : sizes.sum ≤ 2 ^ 31) (r : ℕ) (hr0 : 2 ≤ r) (hr : r < 2 ^ 15) :
    NaturalDomset (completeKpartite sizes) sizes.sum r (fun v => v = lastStart sizes)
      (fun v => if v = lastStart sizes then 0 else if v < lastStart sizes then 1 else 2) := by
  have hc : 1 ≤ (2 * r) ^ 2 := Nat.one_le_pow _ _ (by omega)
  have hl := lastStart_lt h2
  refine kpartite_domset sizes h2 hn (by omega) hr (fun i => if i = 0 then ∅ else {lastStart sizes})
    (fun i x => if i = 0 then r + 1 else if x = lastStart sizes then 0 else if x < lastStart sizes then 1 else
      if x < lastStart sizes + i then 2 else r + 1) rfl (fun x hx => rfl) (fun W _ s t es ht hW1 hW2 => ?_)
  rw [← es] at hl ⊢
  have hs := hl.1
  have hgen : ∀ x, Generated W ((2 * r) ^ 2) {s} x ↔ x = s := by
    intro x
    rw [generated_iff, Finset.mem_singleton]
    intro A hA
    refine le_trans (Finset.card_le_card (t := {s}) fun a ha => (hA a ha).1) (by simpa using hc)
  refine ⟨fun i hi => ?_, fun i hi v hv => ?_, fun x => ?_, fun x hx => ?_⟩
  · rcases Nat.eq_zero_or_pos i with rfl | hi0
    · refine DomStep.join (by simp) (fun u d h => by simp; have := hW2 _ _ _ h; omega) rfl (fun x hx => ?_) (fun x hx h => ?_)
        (fun x hx a k ha h => ?_) (fun x hx => ?_) <;> simp only [Nat.zero_add, one_ne_zero, ↓reduceIte] at *
      · split
        · omega
        · split
          · omega
          · split <;> omega
      · rw [if_pos ((hgen x).1 h)]
      · obtain rfl := (hgen a).1 ha
        have h' := (hW1 _ _ _ le_rfl).1 h
        rw [if_neg (by omega), if_pos (by omega)]
        omega
      · rw [Finset.mem_range] at hx
        by_cases hxn : x = s
        · exact .inr (.inl ⟨if_pos hxn, (hgen x).2 hxn⟩)
        · rw [if_neg hxn]
          by_cases hxs : x < s
          · rw [if_pos hxs]
            exact .inr (.inr ⟨s, (hgen _).2 rfl, (hW1 _ _ _ le_rfl).2 ⟨by omega, hxs, rfl⟩⟩)
          · left
            rw [if_neg hxs, if_neg (by omega)]
    · have hi' : i ≠ 0 := by omega
      refine DomStep.skip 2 hr0 (.inr ⟨0, 1, (hW1 _ _ _ (by omega)).2 ⟨by omega, hs, rfl⟩, ?_⟩) ?_ (fun u d h => ?_) ?_ ?_
        (fun x hx h => ?_) <;> simp only [hi', Nat.add_eq_zero_iff, false_and, ↓reduceIte]
      · rw [if_neg (by omega), if_pos hs]
      · rw [if_neg (by omega), if_neg (by omega), if_neg (by omega)]; omega
      · have h' := (hW1 _ _ _ (by omega)).1 h
        rw [if_neg (by omega), if_pos (by omega)]
        omega
      · rw [if_neg (by omega), if_neg (by omega), if_pos (by omega)]
      · split
        · rfl
        · split
          · rfl
          · split <;> split <;> omega
  · have hi' : t + i ≠ 0 := by omega
    have hi'' : t + i + 1 ≠ 0 := by omega
    refine DomStep.skip 1 (by omega) (.inl ?_) ?_ (fun u d h => by have := hW2 _ _ _ h; omega) ?_ ?_ (fun x hx h => ?_) <;>
      simp only [hi', hi'', ↓reduceIte]
    · rw [if_neg (by omega), if_pos hv]
    · rw [if_neg (by omega), if_pos hv]
    · rw [if_neg (by omega), if_pos hv]
    · rw [Finset.mem_range] at hx
      split
      · rfl
      · split
        · rfl
        · rw [if_pos (by omega), if_pos (by omega)]
  · rw [if_neg (by omega)]
    exact hgen x
  · rw [if_neg (by omega)]
    split
    · rfl
    · split
      · rfl
      · rw [if_pos (by omega)]

/-- `C139_domset` for three nonempty parts and an empty one. -/
example := C139_domset [2, 0, 3, 1] (by decide) (by decide) 2 (by decide) (by decide)

/-- **C139 (dominating sets, radius 1).** With fewer than five vertices in the last nonempty part, all of them are returned and
no other; otherwise its first five vertices and all vertices of the other parts are. -/
theorem C139_domset_radius_one (sizes : List ℕ) (h2 : 2 ≤ partCount sizes) (hn : sizes.sum ≤ 2 ^ 31) :
    NaturalDomset (completeKpartite sizes) sizes.sum 1
      (fun v => (lastStart sizes ≤ v ∧ v < min sizes.sum (lastStart sizes + 5)) ∨
        (v < lastStart sizes ∧ lastStart sizes + 5 ≤ sizes.sum))
      (fun v => if v < lastStart sizes then (if lastStart sizes + 5 ≤ sizes.sum then 0 else 1) else
        if v < lastStart sizes + 5 then 0 else 1) := by
  have hl := lastStart_lt h2
  refine kpartite_domset sizes h2 hn (by omega) (by omega)
    (fun i => Finset.Ico (lastStart sizes) (lastStart sizes + min (min i (sizes.sum - lastStart sizes)) 5))
    (fun i x => if x < lastStart sizes then (if i = 0 then 2 else if 5 ≤ min i (sizes.sum - lastStart sizes) then 0 else 1) else
      if x < lastStart sizes + min i 5 then 0 else if x < lastStart sizes + i then 1 else 2) (by simp) (fun x hx => ?_)
      (fun W _ s t es ht hW1 hW2 => ?_)
  · split
    · rfl
    · rw [if_neg (by omega), if_neg (by omega)]
  rw [← ht, ← es, show s + t - s = t by omega]
  rw [← es] at hl
  have hs := hl.1
  have hgen : ∀ j ≤ t, ∀ x, Generated W ((2 * 1) ^ 2) (Finset.Ico s (s + j)) x ↔ (s ≤ x ∧ x < s + j) ∨ (x < s ∧ 5 ≤ j) := by
    intro j hj x
    constructor
    · rintro (h | ⟨A, hA, hc⟩)
      · rw [Finset.mem_Ico] at h
        exact .inl h
      · right
        have h1 : A ⊆ Finset.Ico s (s + j) := fun a ha => ((hA a).1 ha).1
        have h2 := Finset.card_le_card h1
        rw [Nat.card_Ico] at h2
        obtain ⟨a, ha⟩ := Finset.card_pos.1 (show 0 < A.card by omega)
        obtain ⟨-, d, h3⟩ := (hA a).1 ha
        have h4 := Finset.mem_Ico.1 (h1 ha)
        have h3 := (hW1 _ _ _ h4.1).1 h3
        omega
    · rintro (h | ⟨h1, h2⟩)
      · exact .inl (Finset.mem_Ico.2 h)
      · refine .inr ⟨Finset.Ico s (s + j), fun a => ?_, by rw [Nat.card_Ico]; omega⟩
        rw [Finset.mem_Ico]
        exact ⟨fun h => ⟨h, 1, (hW1 _ _ _ h.1).2 ⟨by omega, h1, rfl⟩⟩, fun h => h.1⟩
  refine ⟨fun i hi => ?_, fun i hi v hv => ?_, fun x => ?_, fun x hx => ?_⟩
  · by_cases hi5 : i < 5
    · refine DomStep.join ?_ (fun u d h => ?_) ?_ (fun x hx => ?_) (fun x hx h => ?_) (fun x hx a k ha h => ?_) (fun x hx => ?_)
      · rw [if_neg (by omega), if_neg (by omega), if_neg (by omega)]; omega
      · have h' := (hW1 _ _ _ (by omega)).1 h
        rw [if_pos (by omega), if_neg (show ¬ 5 ≤ min i t by omega)]
        split <;> omega
      · ext y
        rw [Finset.mem_insert, Finset.mem_Ico, Finset.mem_Ico]
        omega
      · rw [if_neg (show ¬ i + 1 = 0 by omega), if_neg (show ¬ 5 ≤ min i t by omega)]
        split
        · split <;> split <;> omega
        · split
          · omega
          · rw [if_neg (show ¬ x < s + min i 5 by omega)]
            split <;> split <;> omega
      · rw [hgen _ (by omega)] at h
        rw [if_neg (show ¬ i + 1 = 0 by omega)]
        rcases h with h | h
        · rw [if_neg (by omega), if_pos (by omega)]
        · rw [if_pos h.1, if_pos (by omega)]
      · have h' := hW2 _ _ _ h
        have hxs : x < s := by
          by_cases has : s ≤ a
          · exact ((hW1 _ _ _ has).1 h).2.1
          · omega
        rw [if_neg (show ¬ i + 1 = 0 by omega), if_pos hxs]
        split <;> omega
      · rw [Finset.mem_range] at hx
        rw [if_neg (show ¬ i + 1 = 0 by omega)]
        by_cases hxs : x < s
        · rw [if_pos hxs]
          by_cases h5 : 5 ≤ min (i + 1) t
          · exact .inr (.inl ⟨if_pos h5, (hgen _ (by omega) x).2 (.inr ⟨hxs, by omega⟩)⟩)
          · rw [if_neg h5]
            exact .inr (.inr ⟨s, (hgen _ (by omega) s).2 (.inl (by omega)), (hW1 _ _ _ le_rfl).2 ⟨by omega, hxs, rfl⟩⟩)
        · rw [if_neg hxs, if_neg hxs]
          by_cases hxi : x < s + min (i + 1) 5
          · exact .inr (.inl ⟨if_pos hxi, (hgen _ (by omega) x).2 (.inl (by omega))⟩)
          · left
            rw [if_neg hxi, if_neg (by omega), if_neg (by omega), if_neg (by omega)]
    · refine DomStep.skip 1 le_rfl (.inr ⟨0, 1, (hW1 _ _ _ (by omega)).2 ⟨by omega, hs, rfl⟩, ?_⟩) ?_ (fun u d h => ?_) ?_ ?_
        (fun x hx h => ?_)
      · rw [if_pos hs, if_neg (by omega), if_pos (by omega)]
      · rw [if_neg (by omega), if_neg (by omega), if_neg (by omega)]; omega
      · have := hW2 _ _ _ h; omega
      · congr 2; omega
      · rw [if_neg (by omega), if_neg (by omega), if_pos (by omega)]
      · split
        · rw [if_neg (by omega), if_neg (show ¬ i = 0 by omega), if_pos (by omega), if_pos (by omega)]
        · rw [show min (i + 1) 5 = min i 5 by omega]
          split
          · rfl
          · split <;> split <;> omega
  · have e : ∀ x, x < s + t → (if x < s then (if t + i + 1 = 0 then 2 else if 5 ≤ min (t + i + 1) t then 0 else 1) else
        if x < s + min (t + i + 1) 5 then 0 else if x < s + (t + i + 1) then 1 else 2) =
        (if x < s then (if t + i = 0 then 2 else if 5 ≤ min (t + i) t then 0 else 1) else
        if x < s + min (t + i) 5 then 0 else if x < s + (t + i) then 1 else 2) := by
      intro x hx
      rw [if_neg (show ¬ t + i + 1 = 0 by omega), if_neg (show ¬ t + i = 0 by omega), Nat.min_eq_right (show t ≤ t + i + 1 by omega),
        Nat.min_eq_right (show t ≤ t + i by omega)]
      split
      · rfl
      · by_cases h5 : x < s + 5
        · rw [if_pos (by omega), if_pos (by omega)]
        · rw [if_neg (by omega), if_pos (by omega), if_neg (by omega), if_pos (by omega)]
    have hti : ¬ t + i = 0 := by omega
    refine DomStep.skip (if 5 ≤ t then 0 else 1) (by split <;> omega) (.inl ?_) (le_of_eq ?_)
      (fun u d h => by have := hW2 _ _ _ h; split <;> omega) ?_ ?_ (fun x hx h => e x (Finset.mem_range.1 hx))
    · rw [if_pos hv, if_neg hti, Nat.min_eq_right (by omega)]
    · rw [if_pos hv, if_neg hti, Nat.min_eq_right (by omega)]
    · congr 2; omega
    · rw [if_pos hv, if_neg (show ¬ t + i + 1 = 0 by omega), Nat.min_eq_right (by omega)]
  · rw [hgen _ (by omega)]
    omega
  · rw [if_neg (show ¬ s + t = 0 by omega), Nat.min_eq_right (show t ≤ s + t by omega)]
    split
    · by_cases h5 : 5 ≤ t
      · rw [if_pos h5, if_pos (by omega)]
      · rw [if_neg h5, if_neg (by omega)]
    · by_cases h5 : x < s + 5
      · rw [if_pos (by omega), if_pos h5]
      · rw [if_neg (by omega), if_pos (by omega), if_neg h5]

/-- `C139_domset_radius_one` with a small and with a large last part. -/
example := C139_domset_radius_one [2, 0, 3, 1] (by decide) (by decide)
example := C139_domset_radius_one [2, 1, 7, 0] (by decide) (by decide)

end Verif
