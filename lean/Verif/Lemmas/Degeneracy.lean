import Verif.Model.Algorithms
import Verif.Spec.Core
import Verif.Lemmas.Iter
/-! # Degeneracy ordering -/
namespace Verif

/-! ## Bucket index -/

theorem ceilLog2_le {x k : ℕ} (hk : k < 32) : ceilLog2 x ≤ k ↔ x ≤ 2 ^ k := by
  unfold ceilLog2
  cases h : (List.range 32).find? (fun k => decide (x ≤ 2 ^ k)) with
  | none =>
    simp only [Option.getD_none]
    rw [List.find?_eq_none] at h
    have := h k (List.mem_range.2 hk)
    simp only [decide_eq_true_eq] at this
    exact ⟨fun h' => absurd h' (by omega), fun h' => absurd h' this⟩
  | some j =>
    simp only [Option.getD_some]
    rw [List.find?_range_eq_some] at h
    obtain ⟨h1, h2, h3⟩ := h
    simp only [decide_eq_true_eq, Bool.not_eq_true', decide_eq_false_iff_not] at h1 h3
    constructor
    · intro hj; exact h1.trans (Nat.pow_le_pow_right (by decide) hj)
    · intro hx
      by_contra hc
      exact h3 k (by omega) hx

theorem ceilLog2_le_32 (x : ℕ) : ceilLog2 x ≤ 32 := by
  unfold ceilLog2
  cases h : (List.range 32).find? (fun k => decide (x ≤ 2 ^ k)) with
  | none => simp
  | some j =>
    rw [List.find?_range_eq_some] at h
    have := List.mem_range.1 h.2.1
    simp; omega

theorem ceilLog2_mono {x y : ℕ} (h : x ≤ y) : ceilLog2 x ≤ ceilLog2 y := by
  by_cases hy : ceilLog2 y < 32
  · exact (ceilLog2_le hy).2 (h.trans ((ceilLog2_le hy).1 le_rfl))
  · have := ceilLog2_le_32 x; omega

theorem calcIndex_mono {x y : ℕ} (h : x ≤ y) : calcIndex x ≤ calcIndex y := by
  unfold calcIndex
  have := ceilLog2_mono (show x - 127 ≤ y - 127 by omega)
  omega

theorem calcIndex_le (x : ℕ) : calcIndex x ≤ 160 := by
  unfold calcIndex
  have := ceilLog2_le_32 (x - 127)
  omega

theorem calcIndex_small : ∀ i ≤ 130, calcIndex i = i := by decide

theorem calcIndex_zero : calcIndex 0 = 0 := by decide

theorem calcIndex_eq_of_le {i : ℕ} (h : calcIndex i ≤ 129) : calcIndex i = i := by
  refine calcIndex_small i ?_
  by_contra hc
  have := calcIndex_mono (show 130 ≤ i by omega)
  rw [calcIndex_small 130 le_rfl] at this
  omega

/-- Largest degree (below `2^31`) whose bucket is `i`. -/
theorem calcIndex_le_iff {x i : ℕ} (hx : x < 2 ^ 31) (hi : i < 160) :
    calcIndex x ≤ i ↔ x ≤ if i ≤ 128 then i else 127 + 2 ^ (i - 128) := by
  by_cases h : i ≤ 128
  · rw [if_pos h]
    constructor
    · intro hc
      have := calcIndex_eq_of_le (show calcIndex x ≤ 129 by omega)
      omega
    · intro hc
      rw [calcIndex_small x (by omega)]; exact hc
  · rw [if_neg h]
    unfold calcIndex
    by_cases h1 : x ≤ 127
    · have h2 : ceilLog2 (x - 127) = 0 := by
        have := (ceilLog2_le (x := x - 127) (show 0 < 32 by omega)).2 (by simp; omega)
        omega
      have := Nat.one_le_two_pow (n := i - 128)
      constructor <;> intro <;> omega
    · have h2 := ceilLog2_le (x := x - 127) (k := i - 128) (by omega)
      have h3 := Nat.one_le_two_pow (n := i - 128)
      constructor
      · intro hc
        have := h2.1 (by omega)
        omega
      · intro hc
        have := h2.2 (by omega)
        omega

theorem calcIndex_lt_160 {x : ℕ} (hx : x < 2 ^ 31) : calcIndex x < 160 := by
  have := (ceilLog2_le (x := x - 127) (show 31 < 32 by omega)).2 (by omega)
  unfold calcIndex
  omega

set_option maxRecDepth 4000 in
/-- The lower bound is at most every degree of the bucket. -/
theorem degeneracyLower_le {x : ℕ} (hx : x < 2 ^ 31) : degeneracyLower (calcIndex x) ≤ x := by
  have h1 := calcIndex_lt_160 hx
  by_contra hc
  have key : ∀ c < 160, degeneracyLower c = 0 ∨ calcIndex (degeneracyLower c - 1) < c := by decide
  rcases key _ h1 with h | h
  · omega
  · have := calcIndex_mono (show x ≤ degeneracyLower (calcIndex x) - 1 by omega)
    omega

theorem degeneracyLower_small : ∀ c ≤ 130, degeneracyLower c = c := by decide

set_option maxRecDepth 4000 in
theorem degeneracyLower_table : ∀ c < 160, degeneracyLower c =
    if c ≤ 130 then c else if c ≤ 131 then 130 else if c ≤ 135 then 131 else if c ≤ 143 then 133 else 137 := by decide

attribute [local irreducible] calcIndex ceilLog2 degeneracyLower

/-! ## Degrees inside a vertex set -/

namespace SGraph
variable {S : SGraph} {W R : Finset ℕ} {u v : ℕ}

theorem degIn_mono (h : W ⊆ R) : S.degIn W u ≤ S.degIn R u :=
  Finset.card_le_card (Finset.filter_subset_filter _ h)

theorem degIn_V (hl : S.Loopless) : S.degIn S.V u = S.deg u := by
  rw [deg_eq, if_neg (hl u)]; rfl

theorem degIn_erase (hv : v ∈ R) : S.degIn (R.erase v) u = S.degIn R u - if S.Adj u v then 1 else 0 := by
  unfold degIn
  rw [Finset.filter_erase]
  by_cases h : S.Adj u v
  · rw [if_pos h, Finset.card_erase_of_mem (Finset.mem_filter.2 ⟨hv, h⟩)]
  · rw [if_neg h, Finset.erase_eq_of_notMem (by simp [h])]; rfl

theorem degIn_pos (hv : v ∈ R) (h : S.Adj u v) : 1 ≤ S.degIn R u :=
  Finset.card_pos.2 ⟨v, Finset.mem_filter.2 ⟨hv, h⟩⟩

end SGraph

/-! ## Buckets -/
namespace DegenState

theorem mem_bucketInsert {b : HMap ℕ (HSet ℕ)} {i j u v : ℕ} :
    u ∈ (bucketInsert b i v).getD j ∅ ↔ (j = i ∧ u = v) ∨ u ∈ b.getD j ∅ := by
  unfold bucketInsert HMap.getD
  rw [HMap.get?_insert]
  by_cases h : j = i
  · subst h; simp
  · simp [h]

theorem mem_bucketRemove {b : HMap ℕ (HSet ℕ)} {i j u v : ℕ} :
    u ∈ (bucketRemove b i v).getD j ∅ ↔ u ∈ b.getD j ∅ ∧ ¬ (j = i ∧ u = v) := by
  unfold bucketRemove
  split
  · next S h =>
    unfold HMap.getD
    rw [HMap.get?_insert]
    by_cases hj : j = i
    · subst hj; simp [h]
    · simp [hj]
  · next h =>
    unfold HMap.getD
    by_cases hj : j = i
    · subst hj; simp [h]
    · simp [hj]

theorem bucketNonempty_iff {b : HMap ℕ (HSet ℕ)} {d : ℕ} :
    bucketNonempty b d = true ↔ ∃ u, u ∈ b.getD d ∅ := by
  unfold bucketNonempty HMap.getD
  cases h : b.get? d with
  | none => simp
  | some S =>
    simp only [Option.getD_some]
    rw [Bool.not_eq_true', List.isEmpty_eq_false_iff, List.ne_nil_iff_exists_cons]
    constructor
    · rintro ⟨a, l, h⟩; exact ⟨a, by rw [HSet.mem_def, h]; simp⟩
    · rintro ⟨a, h⟩
      rw [HSet.mem_def] at h
      obtain ⟨x, y, h⟩ := List.exists_cons_of_ne_nil (List.ne_nil_of_mem h)
      exact ⟨x, y, h⟩

theorem findBucket_spec {b : HMap ℕ (HSet ℕ)} : ∀ (fuel d i : ℕ), d ≤ i → i < d + fuel → bucketNonempty b i = true →
    ∃ r, findBucket b fuel d = .ok r ∧ bucketNonempty b r = true ∧ ∀ j, d ≤ j → j < r → bucketNonempty b j = false
  | 0, d, i, h1, h2, _ => absurd h2 (by omega)
  | fuel + 1, d, i, h1, h2, h3 => by
    unfold findBucket
    by_cases h : bucketNonempty b d = true
    · rw [if_pos h]
      exact ⟨d, rfl, h, fun j h1 h2 => by omega⟩
    · rw [if_neg h]
      have hne : d ≠ i := by rintro rfl; exact h h3
      obtain ⟨r, hr, h4, h5⟩ := findBucket_spec fuel (d + 1) i (by omega) (by omega) h3
      refine ⟨r, hr, h4, fun j hj1 hj2 => ?_⟩
      by_cases hd : j = d
      · subst hd; simpa using h
      · exact h5 j (by omega) hj2

/-- Remaining vertices. -/
def rest (S : SGraph) (rem : List ℕ) : Finset ℕ := S.V \ rem.toFinset

theorem mem_rest {S : SGraph} {rem : List ℕ} {u : ℕ} : u ∈ rest S rem ↔ u ∈ S.V ∧ u ∉ rem := by
  simp [rest]

theorem rest_snoc {S : SGraph} {rem : List ℕ} {v : ℕ} : rest S (rem ++ [v]) = (rest S rem).erase v := by
  ext u
  simp only [mem_rest, Finset.mem_erase, List.mem_append, List.mem_singleton]
  tauto

/-- Invariant of the main loop. -/
structure Inv (S : SGraph) (s : DegenState) : Prop where
  nodup : s.order.Nodup
  sub : ∀ u ∈ s.order, u ∈ S.V
  deg : ∀ u ∈ rest S s.order, s.degDict.get? u = some (S.degIn (rest S s.order) u)
  bucket : ∀ i u, u ∈ s.buckets.getD i ∅ ↔ u ∈ rest S s.order ∧ calcIndex (S.degIn (rest S s.order) u) = i
  keys : ∀ u, u ∈ s.core.keys ↔ u ∈ s.order
  low : ∃ W, W ⊆ S.V ∧ rest S s.order ⊆ W ∧ ∀ w ∈ W, s.coreNum ≤ calcIndex (S.degIn W w)
  high : ∀ W k, S.MinDeg W k → (∃ w ∈ W, w ∈ s.order) → calcIndex k ≤ s.coreNum
  core : ∀ v c, s.core.get? v = some c → (∃ W, W ⊆ S.V ∧ v ∈ W ∧ ∀ w ∈ W, c ≤ calcIndex (S.degIn W w)) ∧
    ∀ W k, S.MinDeg W k → v ∈ W → calcIndex k ≤ c
  left : ∀ a v b, s.order = a ++ v :: b → calcIndex (S.degIn (rest S (a ++ [v])) v) ≤ s.coreNum
  att : s.coreNum = 0 ∨ ∃ u, s.core.get? u = some s.coreNum
  least : ∀ a v b, s.order = a ++ v :: b → ∀ w ∈ rest S a, calcIndex (S.degIn (rest S a) v) ≤ calcIndex (S.degIn (rest S a) w)

theorem relax_fold {G : Graph} {S : SGraph} (hl : S.Loopless) {s s₁ : DegenState} {v : ℕ} {N : List ℕ}
    (hv : v ∈ rest S s.order) (I : Inv S s) (hN : N.Nodup) (hmem : ∀ w, w ∈ N ↔ S.Adj v w)
    (h1 : s₁.degDict = s.degDict) (h2 : s₁.core = s.core)
    (h3 : ∀ i u, u ∈ s₁.buckets.getD i ∅ ↔ u ∈ (rest S s.order).erase v ∧ calcIndex (S.degIn (rest S s.order) u) = i) :
    Ok (N.foldlM relax s₁) (fun s₂ => s₂.core = s₁.core ∧ s₂.coreNum = s₁.coreNum ∧ s₂.order = s₁.order ∧
      (∀ u ∈ (rest S s.order).erase v, s₂.degDict.get? u = some (S.degIn ((rest S s.order).erase v) u)) ∧
      (∀ i u, u ∈ s₂.buckets.getD i ∅ ↔ u ∈ (rest S s.order).erase v ∧
        calcIndex (S.degIn ((rest S s.order).erase v) u) = i)) := by
  generalize hR : rest S s.order = R at *
  refine Ok.mono (Ok.foldlM (fun pre (t : DegenState) => t.core = s₁.core ∧ t.coreNum = s₁.coreNum ∧ t.order = s₁.order ∧
      (∀ u ∈ R.erase v, t.degDict.get? u = some (S.degIn R u - if u ∈ pre then 1 else 0)) ∧
      (∀ i u, u ∈ t.buckets.getD i ∅ ↔ u ∈ R.erase v ∧
        calcIndex (S.degIn R u - if u ∈ pre then 1 else 0) = i)) ?_ ?_) ?_
  · refine ⟨rfl, rfl, rfl, fun u hu => ?_, fun i u => ?_⟩
    · rw [h1, ← hR, I.deg u (by rw [hR]; exact Finset.mem_of_mem_erase hu)]; simp
    · rw [h3]; simp
  · rintro pre x post t hl' ⟨t1, t2, t3, t4, t5⟩
    have hx : S.Adj v x := (hmem x).1 (by rw [hl']; simp)
    have hxv : x ≠ v := by rintro rfl; exact hl x hx
    have hxpre : x ∉ pre := by
      rw [hl'] at hN
      have := (List.nodup_append.1 hN).2.2
      intro h; exact this x h x (by simp) rfl
    unfold relax
    by_cases hc : x ∈ s.order
    · have hc' : t.core.contains x = true := by rw [HMap.contains_iff, t1, h2, I.keys]; exact hc
      rw [if_pos hc']
      have hxR : ∀ u ∈ R.erase v, u ≠ x := by
        intro u hu
        rintro rfl
        have := Finset.mem_of_mem_erase hu
        rw [← hR, mem_rest] at this
        exact this.2 hc
      have hif : ∀ u ∈ R.erase v, (if u ∈ pre ++ [x] then 1 else 0) = if u ∈ pre then 1 else 0 := by
        intro u hu; simp [hxR u hu]
      refine Ok.pure ⟨t1, t2, t3, fun u hu => ?_, fun i u => ?_⟩
      · rw [t4 u hu, hif u hu]
      · rw [t5]
        exact and_congr_right fun hu => by rw [hif u hu]
    · have hc' : ¬ t.core.contains x = true := by rw [HMap.contains_iff, t1, h2, I.keys]; exact hc
      rw [if_neg hc']
      have hxR : x ∈ R.erase v := by
        refine Finset.mem_erase.2 ⟨hxv, ?_⟩
        rw [← hR, mem_rest]; exact ⟨hx.right, hc⟩
      have hd := t4 x hxR
      simp only [hxpre, if_false, Nat.sub_zero] at hd
      have hpos : 1 ≤ S.degIn R x := SGraph.degIn_pos hv hx.symm
      simp only [hd, unwrap_some, bind_ok, usub_ok hpos]
      refine Ok.pure ⟨t1, t2, t3, fun u hu => ?_, fun i u => ?_⟩
      · simp only
        rw [HMap.get?_insert]
        by_cases hux : u = x
        · subst hux; simp
        · rw [if_neg hux, t4 u hu]; simp [hux]
      · simp only
        by_cases hux : u = x
        · subst hux
          have e1 : (if u ∈ pre ++ [u] then 1 else 0) = 1 := by simp
          rw [e1]
          split
          · next hne =>
            rw [mem_bucketInsert, mem_bucketRemove, t5]
            simp only [hxpre, if_false, Nat.sub_zero]
            constructor
            · rintro (⟨rfl, -⟩ | ⟨⟨-, h⟩, h'⟩)
              · exact ⟨hxR, rfl⟩
              · exact absurd ⟨h.symm, trivial⟩ h'
            · rintro ⟨-, h⟩; exact Or.inl ⟨h.symm, trivial⟩
          · next hne =>
            have hne' : calcIndex (S.degIn R u) = calcIndex (S.degIn R u - 1) := by simpa using hne
            rw [t5]
            simp only [hxpre, if_false, Nat.sub_zero, hne']
        · have e1 : (if u ∈ pre ++ [x] then 1 else 0) = if u ∈ pre then 1 else 0 := by simp [hux]
          rw [e1, ← t5]
          split
          · rw [mem_bucketInsert, mem_bucketRemove]
            simp [hux]
          · exact Iff.rfl
  · rintro s₂ ⟨t1, t2, t3, t4, t5⟩
    have key : ∀ u, S.degIn (R.erase v) u = S.degIn R u - if u ∈ N then 1 else 0 := by
      intro u
      rw [SGraph.degIn_erase hv]
      simp only [hmem, SGraph.adj_comm]
    exact ⟨t1, t2, t3, fun u hu => by rw [t4 u hu, key], fun i u => by rw [t5, key]⟩

/-- How the vertex `v` removed after those of `a` was chosen. -/
def Pick (S : SGraph) (σ : Shuffle Vertex) (a : List ℕ) (v : ℕ) : Prop :=
  ∃ B : HSet ℕ, (σ.run B.toList).head? = some v ∧
    ∀ w, w ∈ B ↔ w ∈ rest S a ∧ calcIndex (S.degIn (rest S a) w) = calcIndex (S.degIn (rest S a) v)

theorem step_inv {G : Graph} {S : SGraph} (H : G.Rep S) (hl : S.Loopless) (σ : Shuffle Vertex) {s : DegenState}
    (I : Inv S s) (hne : s.order.length < S.V.card) :
    Ok (step σ G s) (fun t => Inv S t ∧ t.order.length = s.order.length + 1 ∧
      ∃ v, t.order = s.order ++ [v] ∧ Pick S σ s.order v) := by
  have hR : (rest S s.order).Nonempty := by
    rw [Finset.nonempty_iff_ne_empty]
    intro h
    have : S.V ⊆ s.order.toFinset := Finset.sdiff_eq_empty_iff_subset.1 h
    have := Finset.card_le_card this
    rw [List.toFinset_card_of_nodup I.nodup] at this
    omega
  obtain ⟨u₀, hu₀⟩ := hR
  have hb₀ : bucketNonempty s.buckets (calcIndex (S.degIn (rest S s.order) u₀)) = true :=
    bucketNonempty_iff.2 ⟨u₀, (I.bucket _ _).2 ⟨hu₀, rfl⟩⟩
  have := calcIndex_le (S.degIn (rest S s.order) u₀)
  obtain ⟨d, hd, hd1, hd2⟩ := findBucket_spec (2 ^ 31) 0 _ (Nat.zero_le _) (by omega) hb₀
  unfold step
  simp only [hd, bind_ok]
  obtain ⟨w₀, hw₀⟩ := bucketNonempty_iff.1 hd1
  obtain ⟨B, hB⟩ : ∃ B, s.buckets.get? d = some B := by
    cases h : s.buckets.get? d with
    | none => unfold HMap.getD at hw₀; rw [h] at hw₀; simp at hw₀
    | some B => exact ⟨B, rfl⟩
  have hBd : s.buckets.getD d ∅ = B := by unfold HMap.getD; rw [hB]; rfl
  simp only [hB, unwrap_some, bind_ok]
  obtain ⟨v, hv⟩ : ∃ v, (σ.run B.toList).head? = some v := by
    cases h : σ.run B.toList with
    | nil =>
      rw [hBd, HSet.mem_def, ← σ.mem, h] at hw₀; cases hw₀
    | cons a l => exact ⟨a, rfl⟩
  have hvB : v ∈ B := by
    have := List.mem_of_mem_head? (Option.mem_def.2 hv)
    rwa [σ.mem] at this
  obtain ⟨hvR, hvd⟩ := (I.bucket d v).1 (by rw [hBd]; exact hvB)
  have hmin : ∀ w ∈ rest S s.order, d ≤ calcIndex (S.degIn (rest S s.order) w) := by
    intro w hw
    by_contra hc
    have := hd2 _ (Nat.zero_le _) (not_le.1 hc)
    rw [bucketNonempty_iff.2 ⟨w, (I.bucket _ _).2 ⟨hw, rfl⟩⟩] at this
    cases this
  have hvV := (mem_rest.1 hvR).1
  have hvo := (mem_rest.1 hvR).2
  obtain ⟨N, hN, hNn, hNm⟩ := H.nbrs v hvV
  simp only [hv, unwrap_some, bind_ok, hN]
  have h3 : ∀ i u, u ∈ (s.buckets.insert d (B.remove v)).getD i ∅ ↔
      u ∈ (rest S s.order).erase v ∧ calcIndex (S.degIn (rest S s.order) u) = i := by
    intro i u
    have hb := I.bucket i u
    unfold HMap.getD at hb ⊢
    rw [HMap.get?_insert]
    by_cases hi : i = d
    · subst hi
      rw [hB] at hb
      simp only [Option.getD_some] at hb
      simp only [if_true, Option.getD_some, HSet.mem_remove, hb, Finset.mem_erase]
      tauto
    · rw [if_neg hi, hb, Finset.mem_erase]
      constructor
      · rintro ⟨h1, h2⟩; refine ⟨⟨?_, h1⟩, h2⟩; rintro rfl; exact hi (h2.symm.trans hvd)
      · rintro ⟨⟨_, h1⟩, h2⟩; exact ⟨h1, h2⟩
  refine Ok.bind (relax_fold (G := G) hl hvR I hNn hNm rfl rfl h3) ?_
  rintro s₂ ⟨e1, e2, e3, e4, e5⟩
  simp only at e1 e2 e3
  have hcv : s.core.get? v = none := by
    rw [HMap.get?_eq_none, I.keys]; exact hvo
  have hlow : ∃ W, W ⊆ S.V ∧ rest S s.order ⊆ W ∧ ∀ w ∈ W, max s.coreNum d ≤ calcIndex (S.degIn W w) := by
    by_cases hc : d ≤ s.coreNum
    · rw [max_eq_left hc]; exact I.low
    · rw [max_eq_right (by omega)]
      exact ⟨rest S s.order, Finset.sdiff_subset, Finset.Subset.refl _, hmin⟩
  have hhigh : ∀ W k, S.MinDeg W k → (∃ w ∈ W, w ∈ s.order ++ [v]) → calcIndex k ≤ max s.coreNum d := by
    rintro W k hW ⟨w, hw, hwo⟩
    by_cases hc : ∃ w ∈ W, w ∈ s.order
    · exact (I.high W k hW hc).trans (le_max_left _ _)
    · have hwv : w = v := by
        rw [List.mem_append, List.mem_singleton] at hwo
        exact hwo.resolve_left fun h => hc ⟨w, hw, h⟩
      subst hwv
      have hWR : W ⊆ rest S s.order := fun x hx =>
        mem_rest.2 ⟨hW.1 hx, fun h => hc ⟨x, hx, h⟩⟩
      refine le_trans ?_ (le_max_right _ _)
      rw [← hvd]
      exact calcIndex_mono ((hW.2 w hw).trans (SGraph.degIn_mono hWR))
  refine Ok.pure ⟨?_, by simp [e3], v, by simp [e3], B, hv, fun w => by rw [← hBd, I.bucket, hvd]⟩
  have ho : rest S (s₂.order ++ [v]) = (rest S s.order).erase v := by rw [e3, rest_snoc]
  refine ⟨?_, ?_, ?_, ?_, ?_, ?_, ?_, ?_, ?_, ?_, ?_⟩
  · show (s₂.order ++ [v]).Nodup
    rw [e3]
    exact List.nodup_append.2 ⟨I.nodup, by simp, by
      intro a ha b hb; rw [List.mem_singleton] at hb; subst hb; rintro rfl; exact hvo ha⟩
  · intro u hu
    simp only [e3, List.mem_append, List.mem_singleton] at hu
    rcases hu with hu | rfl
    · exact I.sub u hu
    · exact hvV
  · intro u hu
    simp only [ho] at hu ⊢
    exact e4 u hu
  · intro i u
    simp only [ho]
    exact e5 i u
  · intro u
    simp only [e1, e3]
    rw [HMap.mem_keys_insert, I.keys]; simp [or_comm]
  · simp only [ho, e2]
    obtain ⟨W, h1, h2, h3⟩ := hlow
    exact ⟨W, h1, (Finset.erase_subset _ _).trans h2, h3⟩
  · simp only [e2, e3]; exact hhigh
  · intro u c hu
    simp only [e1] at hu
    rw [HMap.get?_insert] at hu
    by_cases huv : u = v
    · subst huv
      rw [if_pos rfl, Option.some.injEq] at hu
      subst hu
      refine ⟨?_, fun W k hW hu => hhigh W k hW ⟨u, hu, by simp⟩⟩
      obtain ⟨W, h1, h2, h3⟩ := hlow
      exact ⟨W, h1, h2 hvR, h3⟩
    · rw [if_neg huv] at hu
      exact I.core u c hu
  · intro a w b hab
    simp only [e2, e3] at hab ⊢
    rcases List.eq_nil_or_concat b with rfl | ⟨b', y, rfl⟩
    · have : a ++ w :: [] = a ++ [w] := rfl
      rw [this] at hab
      obtain ⟨rfl, hw⟩ := List.append_inj' hab rfl
      cases hw
      rw [rest_snoc, SGraph.degIn_erase hvR, if_neg (hl v), Nat.sub_zero, hvd]
      exact le_max_right _ _
    · have : a ++ w :: (b'.concat y) = (a ++ w :: b') ++ [y] := by simp
      rw [this] at hab
      obtain ⟨h1, -⟩ := List.append_inj' hab rfl
      exact (I.left a w b' h1).trans (le_max_left _ _)
  · simp only [e1, e2]
    exact Or.inr ⟨v, by rw [HMap.get?_insert, if_pos rfl]⟩
  · intro a w b hab
    simp only [e3] at hab
    rcases List.eq_nil_or_concat b with rfl | ⟨b', y, rfl⟩
    · have : a ++ w :: [] = a ++ [w] := rfl
      rw [this] at hab
      obtain ⟨rfl, hw⟩ := List.append_inj' hab rfl
      cases hw
      intro x hx
      rw [hvd]
      exact hmin x hx
    · have : a ++ w :: (b'.concat y) = (a ++ w :: b') ++ [y] := by simp
      rw [this] at hab
      obtain ⟨h1, -⟩ := List.append_inj' hab rfl
      exact I.least a w b' h1

end DegenState

open DegenState in
theorem Graph.Rep.degeneracy_picks {G : Graph} {S : SGraph} (H : G.Rep S) (hl : S.Loopless) (σ : ℕ → Shuffle Vertex) :
    ∃ s, G.degeneracy σ = .ok (degeneracyLower s.coreNum, s.coreNum, s.order.reverse, s.core) ∧ Inv S s ∧
      (∀ u, u ∈ s.order ↔ u ∈ S.V) ∧ ∀ a v b, s.order = a ++ v :: b → Pick S (σ a.length) a v := by
  have h0 : Ok (G.vertices.foldlM (fun (s : DegenState) v => do
      let d ← G.degree v
      return { s with degDict := s.degDict.insert v d, buckets := DegenState.bucketInsert s.buckets (calcIndex d) v })
      (⟨∅, ∅, ∅, 0, []⟩ : DegenState)) (fun s => Inv S s ∧ s.order = []) := by
    refine Ok.mono (Ok.foldlM (fun pre (s : DegenState) => s.core = ∅ ∧ s.coreNum = 0 ∧ s.order = [] ∧
      (∀ u ∈ pre, s.degDict.get? u = some (S.deg u)) ∧
      (∀ i u, u ∈ s.buckets.getD i ∅ ↔ u ∈ pre ∧ calcIndex (S.deg u) = i)) ?_ ?_) ?_
    · refine ⟨rfl, rfl, rfl, by simp, fun i u => ?_⟩
      unfold HMap.getD; simp
    · rintro pre v post s hl' ⟨h1, h2, h3, h4, h5⟩
      have hv : v ∈ S.V := (H.vmem v).1 (by rw [hl']; simp)
      simp only [H.degree v hv, bind_ok]
      refine Ok.pure ⟨h1, h2, h3, fun u hu => ?_, fun i u => ?_⟩
      · simp only
        rw [HMap.get?_insert]
        by_cases huv : u = v
        · simp [huv]
        · rw [if_neg huv]
          simp only [List.mem_append, List.mem_singleton] at hu
          exact h4 u (hu.resolve_right huv)
      · rw [mem_bucketInsert, h5]
        simp only [List.mem_append, List.mem_singleton]
        constructor
        · rintro (⟨rfl, rfl⟩ | ⟨h, h'⟩)
          · exact ⟨Or.inr rfl, rfl⟩
          · exact ⟨Or.inl h, h'⟩
        · rintro ⟨h | rfl, h'⟩
          · exact Or.inr ⟨h, h'⟩
          · exact Or.inl ⟨h'.symm, rfl⟩
    · rintro s ⟨h1, h2, h3, h4, h5⟩
      have hr : rest S s.order = S.V := by rw [h3]; simp [rest]
      refine ⟨⟨by simp [h3], by simp [h3], ?_, ?_, ?_, ?_, ?_, ?_, ?_, Or.inl h2, ?_⟩, h3⟩
      · intro u hu
        rw [hr] at hu ⊢
        rw [SGraph.degIn_V hl]; exact h4 u ((H.vmem u).2 hu)
      · intro i u; rw [hr, h5, H.vmem, SGraph.degIn_V hl]
      · intro u; rw [h1, h3]; simp [HMap.keys]
      · rw [hr, h2]; exact ⟨S.V, Finset.Subset.refl _, Finset.Subset.refl _, fun _ _ => Nat.zero_le _⟩
      · rintro W k - ⟨w, -, hw⟩; rw [h3] at hw; cases hw
      · intro v c hv; rw [h1] at hv; simp at hv
      · intro a v b hab; rw [h3] at hab; simp at hab
      · intro a v b hab; rw [h3] at hab; simp at hab
  obtain ⟨s₀, hs₀, hI₀, ho₀⟩ := h0
  have h1 : Ok ((List.range G.numVertices).foldlM (fun s i => DegenState.step (σ i) G s) s₀)
      (fun s => Inv S s ∧ s.order.length = (List.range G.numVertices).length ∧
        ∀ a v b, s.order = a ++ v :: b → Pick S (σ a.length) a v) := by
    refine Ok.foldlM (fun pre (s : DegenState) => Inv S s ∧ s.order.length = pre.length ∧
      ∀ a v b, s.order = a ++ v :: b → Pick S (σ a.length) a v) ⟨hI₀, by simp [ho₀], by simp [ho₀]⟩ ?_
    rintro pre i post s hl' ⟨hI, hlen, hp⟩
    have hi : i = pre.length := by
      have h1 : (List.range G.numVertices)[pre.length]? = some i := by rw [hl']; simp
      have := List.getElem?_eq_some_iff.1 h1
      obtain ⟨h2, h3⟩ := this
      rw [List.getElem_range] at h3
      exact h3.symm
    refine Ok.mono (step_inv H hl (σ i) hI ?_) ?_
    rotate_left
    · rintro t ⟨h1, h2, v, h3, h4⟩
      refine ⟨h1, by rw [h2, hlen]; simp, fun a w b hab => ?_⟩
      rw [h3] at hab
      rcases List.eq_nil_or_concat b with rfl | ⟨b', y, rfl⟩
      · have : a ++ w :: [] = a ++ [w] := rfl
        rw [this] at hab
        obtain ⟨rfl, hw⟩ := List.append_inj' hab rfl
        cases hw
        rw [hlen, ← hi]
        exact h4
      · have : a ++ w :: (b'.concat y) = (a ++ w :: b') ++ [y] := by simp
        rw [this] at hab
        obtain ⟨h1, -⟩ := List.append_inj' hab rfl
        exact hp a w b' h1
    have := congrArg List.length hl'
    simp only [List.length_range, List.length_append, List.length_cons] at this
    rw [H.nv] at this
    omega
  obtain ⟨s, hs, hI, hlen, hp⟩ := h1
  refine ⟨s, ?_, hI, fun u => ⟨hI.sub u, fun hu => ?_⟩, hp⟩
  · unfold Graph.degeneracy
    simp only [hs₀, hs, bind_ok]; rfl
  · have hsub : s.order.toFinset ⊆ S.V := fun x hx => hI.sub x (List.mem_toFinset.1 hx)
    have := Finset.eq_of_subset_of_card_le hsub (by
      rw [List.toFinset_card_of_nodup hI.nodup, hlen, List.length_range, H.nv])
    rw [← this] at hu
    exact List.mem_toFinset.1 hu

open DegenState in
theorem Graph.Rep.degeneracy {G : Graph} {S : SGraph} (H : G.Rep S) (hl : S.Loopless) (σ : ℕ → Shuffle Vertex) :
    ∃ s, G.degeneracy σ = .ok (degeneracyLower s.coreNum, s.coreNum, s.order.reverse, s.core) ∧ Inv S s ∧
      ∀ u, u ∈ s.order ↔ u ∈ S.V := by
  obtain ⟨s, h1, h2, h3, -⟩ := H.degeneracy_picks hl σ
  exact ⟨s, h1, h2, h3⟩

/-- The order that lists `x` first. -/
def Shuffle.front (x : ℕ) : Shuffle ℕ :=
  ⟨fun l => if x ∈ l then x :: l.erase x else l, fun l => by
    split
    · next h => exact (List.perm_cons_erase h).symm
    · exact List.Perm.refl _⟩

theorem Shuffle.front_head {x : ℕ} {l : List ℕ} (h : x ∈ l) : ((Shuffle.front x).run l).head? = some x := by
  show (if x ∈ l then x :: l.erase x else l).head? = some x
  rw [if_pos h]
  rfl

open DegenState in
/-- Every removal order that always takes a vertex from the lowest bucket can occur. -/
theorem Graph.Rep.degeneracy_complete {G : Graph} {S : SGraph} (H : G.Rep S) (hl : S.Loopless) {l : List ℕ}
    (hn : l.Nodup) (hV : ∀ u, u ∈ l ↔ u ∈ S.V)
    (hleast : ∀ a v b, l = a ++ v :: b → ∀ w ∈ rest S a, calcIndex (S.degIn (rest S a) v) ≤ calcIndex (S.degIn (rest S a) w)) :
    ∃ s : DegenState, G.degeneracy (fun i => Shuffle.front (l.getD i 0)) =
      .ok (degeneracyLower s.coreNum, s.coreNum, l.reverse, s.core) := by
  obtain ⟨s, h1, I, h3, hp⟩ := H.degeneracy_picks hl (fun i => Shuffle.front (l.getD i 0))
  refine ⟨s, ?_⟩
  suffices h : s.order = l by rw [h1, h]
  have hlen : s.order.length = l.length := by
    rw [← List.toFinset_card_of_nodup I.nodup, ← List.toFinset_card_of_nodup hn]
    congr 1
    ext u
    rw [List.mem_toFinset, List.mem_toFinset, h3, hV]
  have key : ∀ n ≤ l.length, s.order.take n = l.take n := by
    intro n
    induction n with
    | zero => intro; simp
    | succ n ih =>
      intro hle
      have ih := ih (by omega)
      have hs := List.getElem?_eq_getElem (l := s.order) (show n < s.order.length by omega)
      have hl' := List.getElem?_eq_getElem (l := l) (show n < l.length by omega)
      generalize s.order[n] = v at hs
      generalize l[n] = x at hl'
      rw [List.take_add_one, List.take_add_one, ih, hs, hl']
      have e1 : s.order = l.take n ++ v :: s.order.drop (n + 1) := by
        conv_lhs => rw [← List.take_append_drop n s.order, ih]
        rw [List.drop_eq_getElem_cons (by omega)]
        have := List.getElem?_eq_getElem (l := s.order) (show n < s.order.length by omega)
        rw [hs] at this
        cases this
        rfl
      have e2 : l = l.take n ++ x :: l.drop (n + 1) := by
        conv_lhs => rw [← List.take_append_drop n l]
        rw [List.drop_eq_getElem_cons (by omega)]
        have := List.getElem?_eq_getElem (l := l) (show n < l.length by omega)
        rw [hl'] at this
        cases this
        rfl
      obtain ⟨B, hB, hBm⟩ := hp _ _ _ e1
      have hlen' : (l.take n).length = n := by rw [List.length_take]; omega
      have hget : l.getD n 0 = x := by rw [List.getD_eq_getElem?_getD, hl']; rfl
      rw [hlen', hget] at hB
      have hxr : x ∈ rest S (l.take n) := by
        rw [mem_rest]
        refine ⟨(hV x).1 (List.mem_of_getElem? hl'), fun hx => ?_⟩
        rw [e2, List.nodup_append] at hn
        exact hn.2.2 x hx x (by simp) rfl
      have hvr : v ∈ rest S (l.take n) := by
        rw [mem_rest]
        refine ⟨(h3 v).1 (List.mem_of_getElem? hs), fun hx => ?_⟩
        have := I.nodup
        rw [e1, List.nodup_append] at this
        exact this.2.2 v hx v (by simp) rfl
      have hxB : x ∈ B := (hBm x).2 ⟨hxr, le_antisymm (hleast _ _ _ e2 v hvr) (I.least _ _ _ e1 x hxr)⟩
      rw [Shuffle.front_head (by rwa [HSet.mem_toList])] at hB
      cases hB
      rfl
  have := key l.length le_rfl
  rw [List.take_length, ← hlen, List.take_length] at this
  exact this

end Verif
