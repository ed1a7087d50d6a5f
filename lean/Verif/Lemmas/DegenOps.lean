import Verif.Props.Invariance
import Verif.Props.GenAnalyses
import Verif.Props.Products
/-!
# Degeneracy: sums of degrees, contractions, complements, unions, forests
-/
namespace Verif
namespace SGraph
variable {S T X : SGraph}

theorem degIn_lt_card (hl : S.Loopless) {W : Finset ℕ} {w : ℕ} (hw : w ∈ W) : S.degIn W w < W.card :=
  Finset.card_lt_card ⟨Finset.filter_subset _ _, fun h => hl w (Finset.mem_filter.1 (h hw)).2⟩

/-- Sum of the degrees inside `W`. -/
theorem sum_degIn_erase (hl : S.Loopless) {W : Finset ℕ} {w : ℕ} (hw : w ∈ W) :
    ∑ u ∈ W, S.degIn W u = ∑ u ∈ W.erase w, S.degIn (W.erase w) u + 2 * S.degIn W w := by
  have h1 : ∑ u ∈ W, S.degIn W u = ∑ u ∈ W.erase w, S.degIn W u + S.degIn W w := (Finset.sum_erase_add W _ hw).symm
  have h2 : ∀ u ∈ W.erase w, S.degIn W u = S.degIn (W.erase w) u + if S.Adj w u then 1 else 0 := fun u _ => by
    rw [degIn_erase hw]
    by_cases h : S.Adj w u
    · have := degIn_pos hw h.symm
      rw [if_pos h, if_pos h.symm]
      omega
    · rw [if_neg h, if_neg fun h' => h h'.symm]
      rfl
  have h3 : ∑ u ∈ W.erase w, (if S.Adj w u then 1 else 0) = S.degIn W w := by
    rw [← Finset.card_filter]
    refine congrArg Finset.card ?_
    ext x
    simp only [Finset.mem_filter, Finset.mem_erase]
    constructor
    · rintro ⟨⟨-, h⟩, h'⟩; exact ⟨h, h'⟩
    · rintro ⟨h, h'⟩; exact ⟨⟨fun e => hl w (e ▸ h'), h⟩, h'⟩
  rw [h1, Finset.sum_congr rfl h2, Finset.sum_add_distrib, h3]
  omega

theorem sum_degIn_V (hl : S.Loopless) : ∑ u ∈ S.V, S.degIn S.V u = 2 * S.E.card := by
  rw [← sum_deg]
  exact Finset.sum_congr rfl fun u _ => degIn_V hl

/-- At most `2k` per vertex after the first. -/
theorem IsDegeneracy.sum_le {k : ℕ} (h : S.IsDegeneracy k) (hl : S.Loopless) :
    ∀ n (W : Finset ℕ), W.card = n + 1 → W ⊆ S.V → ∑ u ∈ W, S.degIn W u ≤ 2 * (k * n) := by
  intro n
  induction n with
  | zero =>
    intro W hc hW
    obtain ⟨a, rfl⟩ := Finset.card_eq_one.1 hc
    have := degIn_lt_card hl (Finset.mem_singleton_self a)
    rw [Finset.sum_singleton]
    rw [hc] at this
    omega
  | succ n ih =>
    intro W hc hW
    obtain ⟨w, hw, hk⟩ := h.1 W hW (Finset.card_pos.1 (by omega))
    rw [sum_degIn_erase hl hw]
    have := ih (W.erase w) (by rw [Finset.card_erase_of_mem hw]; omega) ((Finset.erase_subset _ _).trans hW)
    rw [Nat.mul_succ]
    omega

/-- The sharp bound for sets with more than `k` vertices. -/
theorem IsDegeneracy.sum_sharp {k : ℕ} (h : S.IsDegeneracy k) (hl : S.Loopless) :
    ∀ n (W : Finset ℕ), W.card = k + 1 + n → W ⊆ S.V → ∑ u ∈ W, S.degIn W u + k * (k + 1) ≤ 2 * (k * W.card) := by
  intro n
  induction n with
  | zero =>
    intro W hc hW
    have h1 : ∑ u ∈ W, S.degIn W u ≤ ∑ _u ∈ W, k := Finset.sum_le_sum fun u hu => by
      have := degIn_lt_card hl hu
      omega
    rw [Finset.sum_const, smul_eq_mul, hc, Nat.mul_comm (k + 1 + 0)] at h1
    rw [hc, Nat.add_zero] at *
    omega
  | succ n ih =>
    intro W hc hW
    obtain ⟨w, hw, hk⟩ := h.1 W hW (Finset.card_pos.1 (by omega))
    have hce := Finset.card_erase_of_mem hw
    have := ih (W.erase w) (by omega) ((Finset.erase_subset _ _).trans hW)
    rw [sum_degIn_erase hl hw, hc]
    rw [show (W.erase w).card = k + 1 + n by omega] at this
    have e : k * (k + 1 + (n + 1)) = k * (k + 1 + n) + k := Nat.mul_succ k (k + 1 + n)
    omega

theorem IsDegeneracy.lt_card {k : ℕ} (h : S.IsDegeneracy k) (hl : S.Loopless) (hne : S.V.Nonempty) : k < S.V.card := by
  obtain ⟨W, hW, ⟨w, hw⟩, hk⟩ := h.attained hne
  have h1 := hk w hw
  have h2 := degIn_lt_card hl hw
  have h3 := Finset.card_le_card hW
  omega

theorem IsDegeneracy.eq_zero {k : ℕ} (h : S.IsDegeneracy k) (hV : S.V = ∅) : k = 0 := by
  refine Nat.le_zero.1 (h.2 0 fun W hW hne => ?_)
  rw [hV, Finset.subset_empty] at hW
  exact absurd hne (by rw [hW]; exact Finset.not_nonempty_empty)

/-- A `k`-degenerate graph with `n` vertices has at most `k n - k (k + 1) / 2` edges. -/
theorem IsDegeneracy.edges_le {k : ℕ} (h : S.IsDegeneracy k) (hl : S.Loopless) :
    2 * S.E.card + k * (k + 1) ≤ 2 * (k * S.V.card) := by
  rcases S.V.eq_empty_or_nonempty with hV | hV
  · obtain rfl := h.eq_zero hV
    have := sum_degIn_V hl
    rw [hV, Finset.sum_empty] at this
    omega
  · have := h.lt_card hl hV
    rw [← sum_degIn_V hl]
    exact h.sum_sharp hl (S.V.card - (k + 1)) S.V (by omega) (Finset.Subset.refl _)

/-- Contracting two vertices changes the degeneracy by at most 1. -/
theorem IsDegeneracy.contract {k l u v : ℕ} (hS : S.IsDegeneracy k) (hT : T.IsDegeneracy l) (hl : S.Loopless) (hu : u ∈ S.V)
    (huv : u ≠ v) (hV : ∀ w, w ∈ T.V ↔ w ∈ S.V ∧ w ≠ v)
    (hA : ∀ a b, T.Adj a b ↔ a ≠ v ∧ b ≠ v ∧ (S.Adj a b ∨ (a = u ∧ b ≠ u ∧ S.Adj v b) ∨ (b = u ∧ a ≠ u ∧ S.Adj v a))) :
    k ≤ l + 1 ∧ l ≤ k + 1 := by
  classical
  refine ⟨hS.2 (l + 1) fun W hW hne => ?_, hT.2 (k + 1) fun W hW hne => ?_⟩
  · let f : ℕ → ℕ := fun x => if x = v then u else x
    have hf : ∀ x, x ≠ v → f x = x := fun x hx => if_neg hx
    obtain ⟨w', hw', hle⟩ := hT.1 (W.image f) (fun y hy => by
      obtain ⟨x, hx, rfl⟩ := Finset.mem_image.1 hy
      rw [hV]
      by_cases hxv : x = v
      · rw [show f x = u from if_pos hxv]; exact ⟨hu, huv⟩
      · rw [hf x hxv]; exact ⟨hW hx, hxv⟩) (hne.image f)
    have hmem : ∀ x ∈ W, x ≠ v → x ∈ W.image f := fun x hx hxv => Finset.mem_image.2 ⟨x, hx, hf x hxv⟩
    have hw'v : w' ≠ v := by
      obtain ⟨x, -, rfl⟩ := Finset.mem_image.1 hw'
      by_cases hxv : x = v
      · rw [show f x = u from if_pos hxv]; exact huv
      · rw [hf x hxv]; exact hxv
    have step : ∀ y z : ℕ, y ∈ W → (∀ x ∈ W, S.Adj y x → x = z ∨ (x ≠ v ∧ T.Adj w' x)) → S.degIn W y ≤ l + 1 := fun y z _ hz =>
      (degIn_le_of (X := insert z ((W.image f).filter fun x => T.Adj w' x)) fun x hx hxa => by
        rcases hz x hx hxa with rfl | ⟨h, h'⟩
        · exact Finset.mem_insert_self _ _
        · exact Finset.mem_insert_of_mem (Finset.mem_filter.2 ⟨hmem x hx h, h'⟩)).trans
        ((Finset.card_insert_le _ _).trans (Nat.add_le_add_right hle 1))
    obtain ⟨x₀, hx₀, he⟩ := Finset.mem_image.1 hw'
    by_cases hxv : x₀ = v
    · -- the vertex found is the centre, and `v` lies in `W`
      subst hxv
      rw [show f x₀ = u from if_pos rfl] at he
      subst he
      refine ⟨x₀, hx₀, step x₀ u hx₀ fun x _ hxa => ?_⟩
      by_cases hxu : x = u
      · exact .inl hxu
      · have hxx : x ≠ x₀ := fun e => hl x₀ (e ▸ hxa)
        exact .inr ⟨hxx, (hA u x).2 ⟨huv, hxx, .inr (.inl ⟨rfl, hxu, hxa⟩)⟩⟩
    · rw [hf x₀ hxv] at he
      subst he
      refine ⟨x₀, hx₀, step x₀ v hx₀ fun x _ hxa => ?_⟩
      by_cases hxv' : x = v
      · exact .inl hxv'
      · exact .inr ⟨hxv', (hA x₀ x).2 ⟨hxv, hxv', .inl hxa⟩⟩
  · by_cases he : (W.erase u).Nonempty
    · obtain ⟨w, hw, hle⟩ := hS.1 (W.erase u) (fun x hx => ((hV x).1 (hW (Finset.mem_of_mem_erase hx))).1) he
      refine ⟨w, Finset.mem_of_mem_erase hw, (degIn_le_of (X := insert u ((W.erase u).filter fun x => S.Adj w x))
        fun x hx hxa => ?_).trans ((Finset.card_insert_le _ _).trans (Nat.add_le_add_right hle 1))⟩
      by_cases hxu : x = u
      · exact hxu ▸ Finset.mem_insert_self _ _
      · refine Finset.mem_insert_of_mem (Finset.mem_filter.2 ⟨Finset.mem_erase.2 ⟨hxu, hx⟩, ?_⟩)
        rcases ((hA w x).1 hxa).2.2 with h | ⟨h, -⟩ | ⟨h, -⟩
        · exact h
        · exact absurd h (Finset.ne_of_mem_erase hw)
        · exact absurd h hxu
    · obtain ⟨w, hw⟩ := hne
      refine ⟨w, hw, (degIn_le_of (X := {u}) fun x hx _ => ?_).trans (by simp)⟩
      rw [Finset.mem_singleton]
      by_contra hxu
      exact he ⟨x, Finset.mem_erase.2 ⟨hxu, hx⟩⟩

/-- Degeneracy of a graph and of its complement (after Nordhaus and Gaddum). -/
theorem IsDegeneracy.invert {k l : ℕ} (hS : S.IsDegeneracy k) (hT : T.IsDegeneracy l) (hl : S.Loopless) (hV : T.V = S.V)
    (hA : ∀ a b, T.Adj a b ↔ a ∈ S.V ∧ b ∈ S.V ∧ a ≠ b ∧ ¬ S.Adj a b) :
    k + l ≤ S.V.card - 1 ∧ S.V.card - 1 ≤ 2 * (k + l) := by
  have hlT : T.Loopless := fun u hu => ((hA u u).1 hu).2.2.1 rfl
  have hdeg : ∀ u ∈ S.V, S.degIn S.V u + T.degIn S.V u + 1 = S.V.card := fun u hu => by
    have h1 : S.V.card = (S.V.erase u).card + 1 := by
      have := Finset.card_pos.2 ⟨u, hu⟩
      rw [Finset.card_erase_of_mem hu]
      omega
    have h2 := Finset.card_filter_add_card_filter_not (s := S.V.erase u) (fun v => S.Adj u v)
    have h3 : (S.V.erase u).filter (fun v => S.Adj u v) = S.V.filter (fun v => S.Adj u v) := by
      ext x
      simp only [Finset.mem_filter, Finset.mem_erase]
      exact ⟨fun h => ⟨h.1.2, h.2⟩, fun h => ⟨⟨fun e => hl u (e ▸ h.2), h.1⟩, h.2⟩⟩
    have h4 : (S.V.erase u).filter (fun v => ¬ S.Adj u v) = S.V.filter (fun v => T.Adj u v) := by
      ext x
      simp only [Finset.mem_filter, Finset.mem_erase, hA]
      exact ⟨fun h => ⟨h.1.2, hu, h.1.2, h.1.1.symm, h.2⟩, fun h => ⟨⟨h.2.2.2.1.symm, h.1⟩, h.2.2.2.2⟩⟩
    rw [h3, h4] at h2
    show (S.V.filter _).card + (S.V.filter _).card + 1 = _
    omega
  rcases S.V.eq_empty_or_nonempty with h0 | h0
  · obtain rfl := hS.eq_zero h0
    obtain rfl := hT.eq_zero (hV.trans h0)
    rw [h0]
    exact ⟨le_refl _, Nat.zero_le _⟩
  constructor
  · obtain ⟨W, hW, ⟨w, hw⟩, hk⟩ := hS.attained h0
    obtain ⟨Y, hY, ⟨y, hy⟩, hk'⟩ := hT.attained (hV ▸ h0)
    rw [hV] at hY
    by_cases hd : Disjoint W Y
    · have h1 := Finset.card_le_card (Finset.union_subset hW hY)
      rw [Finset.card_union_of_disjoint hd] at h1
      have h2 := hk w hw
      have h3 := degIn_lt_card hl hw
      have h4 := hk' y hy
      have h5 := degIn_lt_card hlT hy
      omega
    · obtain ⟨x, hx, hx'⟩ := Finset.not_disjoint_iff.1 hd
      have h1 := hdeg x (hW hx)
      have h2 := (hk x hx).trans (degIn_mono hW)
      have h3 := (hk' x hx').trans (degIn_mono hY)
      omega
  · have h1 : ∑ u ∈ S.V, (S.degIn S.V u + T.degIn S.V u) = ∑ _u ∈ S.V, (S.V.card - 1) :=
      Finset.sum_congr rfl fun u hu => by have := hdeg u hu; omega
    rw [Finset.sum_const, smul_eq_mul, Finset.sum_add_distrib] at h1
    have hc := Finset.card_pos.2 h0
    have h2 := hS.sum_le hl (S.V.card - 1) S.V (by omega) (Finset.Subset.refl _)
    have h3 := hT.sum_le hlT (S.V.card - 1) S.V (by omega) hV.symm.subset
    rcases Nat.eq_zero_or_pos (S.V.card - 1) with hz | hz
    · omega
    · have h4 : S.V.card * (S.V.card - 1) ≤ (2 * (k + l)) * (S.V.card - 1) := by
        have e : 2 * (k + l) * (S.V.card - 1) = 2 * (k * (S.V.card - 1)) + 2 * (l * (S.V.card - 1)) := by
          rw [Nat.mul_assoc, Nat.add_mul, Nat.mul_add]
        omega
      have := Nat.le_of_mul_le_mul_right h4 hz
      omega

/-- Degeneracy of a union of two graphs. -/
theorem IsDegeneracy.merge {k l m : ℕ} (hS : S.IsDegeneracy k) (hT : T.IsDegeneracy l) (hX : X.IsDegeneracy m)
    (hlS : S.Loopless) (hlT : T.Loopless) (hV : ∀ u, u ∈ X.V ↔ u ∈ S.V ∨ u ∈ T.V)
    (hA : ∀ a b, X.Adj a b ↔ S.Adj a b ∨ T.Adj a b) : max k l ≤ m ∧ m ≤ 2 * (k + l) - 1 := by
  classical
  refine ⟨max_le (hX.mono hS (fun u hu => (hV u).2 (.inl hu)) fun a b h => (hA a b).2 (.inl h))
    (hX.mono hT (fun u hu => (hV u).2 (.inr hu)) fun a b h => (hA a b).2 (.inr h)), hX.2 _ fun W _ hne => ?_⟩
  by_contra hc
  push Not at hc
  -- sums of degrees inside `W`, counting only vertices of the two graphs
  have key : ∀ {R : SGraph} {j : ℕ}, R.IsDegeneracy j → R.Loopless → ∑ u ∈ W, R.degIn W u ≤ 2 * (j * (W.card - 1)) := by
    intro R j hR hlR
    have e1 : ∀ u, R.degIn W u = R.degIn (W.filter (· ∈ R.V)) u := fun u => by
      refine congrArg Finset.card ?_
      ext x
      simp only [Finset.mem_filter]
      exact ⟨fun h => ⟨⟨h.1, h.2.right⟩, h.2⟩, fun h => ⟨h.1.1, h.2⟩⟩
    have e2 : ∑ u ∈ W, R.degIn W u = ∑ u ∈ W.filter (· ∈ R.V), R.degIn (W.filter (· ∈ R.V)) u := by
      rw [Finset.sum_congr rfl fun u _ => e1 u]
      refine (Finset.sum_subset (Finset.filter_subset _ _) fun u hu hn => ?_).symm
      refine Finset.card_eq_zero.2 (Finset.filter_eq_empty_iff.2 fun x _ h => hn (Finset.mem_filter.2 ⟨hu, h.left⟩))
    rw [e2]
    have h2 : (W.filter (· ∈ R.V)).card ≤ W.card := Finset.card_le_card (Finset.filter_subset _ W)
    rcases Nat.eq_zero_or_pos (W.filter (· ∈ R.V)).card with h0 | h0
    · rw [Finset.card_eq_zero.1 h0, Finset.sum_empty]
      exact Nat.zero_le _
    · refine (hR.sum_le hlR ((W.filter (· ∈ R.V)).card - 1) _ (Nat.sub_add_cancel h0).symm fun x hx => (Finset.mem_filter.1 hx).2).trans ?_
      exact Nat.mul_le_mul_left 2 (Nat.mul_le_mul_left j (Nat.sub_le_sub_right h2 1))
  have h1 : ∑ u ∈ W, X.degIn W u ≤ ∑ u ∈ W, (S.degIn W u + T.degIn W u) := Finset.sum_le_sum fun u _ => by
    refine le_trans (Finset.card_le_card fun x hx => ?_) (Finset.card_union_le _ _)
    rw [Finset.mem_filter, hA] at hx
    rw [Finset.mem_union, Finset.mem_filter, Finset.mem_filter]
    rcases hx with ⟨hx, h | h⟩
    · exact .inl ⟨hx, h⟩
    · exact .inr ⟨hx, h⟩
  have h2 : ∑ _u ∈ W, max 1 (2 * (k + l)) ≤ ∑ u ∈ W, X.degIn W u := Finset.sum_le_sum fun u hu => by
    have := hc u hu
    omega
  rw [Finset.sum_const, smul_eq_mul] at h2
  rw [Finset.sum_add_distrib] at h1
  have h3 := key hS hlS
  have h4 := key hT hlT
  have hc := Finset.card_pos.2 hne
  rcases Nat.eq_zero_or_pos (k + l) with h0 | h0
  · obtain rfl : k = 0 := by omega
    obtain rfl : l = 0 := by omega
    simp only [Nat.zero_mul, Nat.mul_zero] at h3 h4
    have : W.card * 1 ≤ W.card * max 1 (2 * (0 + 0)) := Nat.mul_le_mul_left _ (le_max_left _ _)
    omega
  · have h5 : W.card * (2 * (k + l)) ≤ W.card * max 1 (2 * (k + l)) := Nat.mul_le_mul_left _ (le_max_right _ _)
    have e : 2 * (k + l) * (W.card - 1) = 2 * (k * (W.card - 1)) + 2 * (l * (W.card - 1)) := by
      rw [Nat.mul_assoc, Nat.add_mul, Nat.mul_add]
    have h6 : (2 * (k + l)) * W.card ≤ (2 * (k + l)) * (W.card - 1) := by
      rw [Nat.mul_comm _ W.card]
      omega
    have := Nat.le_of_mul_le_mul_left h6 (by omega)
    omega

/-- Deleting a vertex with at most one neighbour. -/
theorem removeVertex_leaf (hl : S.Loopless) {v : ℕ} (hv : v ∈ S.V) (hd : (S.nbrs v).card ≤ 1) :
    S.V.card + (S.removeVertex v).E.card + (S.removeVertex v).comps.card =
      (S.removeVertex v).V.card + S.E.card + S.comps.card := by
  classical
  have hVc : S.V.card = (S.removeVertex v).V.card + 1 := by
    have := Finset.card_pos.2 ⟨v, hv⟩
    rw [removeVertex_V, Finset.card_erase_of_mem hv]
    omega
  have hE : S.E.card = (S.removeVertex v).E.card + (S.nbrs v).card := by
    have h1 := Finset.card_filter_add_card_filter_not (s := S.E) (fun e => v ∈ e)
    have h2 := hl.deg v
    unfold deg at h2
    rw [if_neg (show ¬ s(v, v) ∈ S.E from hl v)] at h2
    rw [removeVertex_E]
    omega
  have hVm : ∀ x, x ∈ (S.removeVertex v).V ↔ x ∈ S.V ∧ x ≠ v := fun x => by
    rw [removeVertex_V, Finset.mem_erase, and_comm]
  have hA : ∀ a b, (S.removeVertex v).Adj a b ↔ S.Adj a b ∧ a ≠ v ∧ b ≠ v := fun a b => by
    show s(a, b) ∈ S.E.filter (fun e => v ∉ e) ↔ _
    rw [Finset.mem_filter, Sym2.mem_iff]
    refine and_congr_right fun _ => ?_
    constructor
    · exact fun h => ⟨fun e => h (.inl e.symm), fun e => h (.inr e.symm)⟩
    · rintro ⟨h1, h2⟩ (e | e)
      · exact h1 e.symm
      · exact h2 e.symm
  rcases Nat.eq_zero_or_pos (S.nbrs v).card with h0 | h0
  · have hiso : ∀ x, ¬ S.Adj v x := fun x hx => by
      have := mem_nbrs.2 hx
      rw [Finset.card_eq_zero.1 h0] at this
      exact absurd this (Finset.notMem_empty x)
    have hc := card_comps_union (X := S) (S := S.removeVertex v) (T := empty.addVertex v) id (fun w => by
        rw [hVm]
        constructor
        · intro hw
          by_cases h : w = v
          · exact .inr ⟨v, by simp, h⟩
          · exact .inl ⟨hw, h⟩
        · rintro (h | ⟨x, hx, rfl⟩)
          · exact h.1
          · rw [addVertex_V, empty_V, Finset.mem_insert] at hx
            rcases hx with rfl | hx
            · exact hv
            · exact absurd hx (Finset.notMem_empty _))
      (fun x hx h => by
        rw [addVertex_V, empty_V, Finset.mem_insert] at hx
        rcases hx with rfl | hx
        · exact ((hVm _).1 h).2 rfl
        · exact absurd hx (Finset.notMem_empty _))
      (fun u _ v _ e => e)
      (fun a b => by
        rw [hA]
        constructor
        · exact fun h => .inl ⟨h, fun e => hiso b (e ▸ h), fun e => hiso a (e ▸ h.symm)⟩
        · rintro (h | ⟨x, y, h, -⟩)
          · exact h.1
          · rw [addVertex_adj] at h
            exact absurd h (Finset.notMem_empty _))
    rw [card_comps_edgeless (S := empty.addVertex v) rfl] at hc
    have : (empty.addVertex v).V.card = 1 := by simp
    omega
  · obtain ⟨y, hy⟩ := Finset.card_eq_one.1 (le_antisymm hd h0)
    have hvy : ∀ x, S.Adj v x ↔ x = y := fun x => by rw [← mem_nbrs, hy, Finset.mem_singleton]
    have hyv : y ≠ v := fun e => hl v (e ▸ (hvy y).2 rfl)
    let f : ℕ → ℕ := fun x => if x = v then y else x
    have hf : ∀ x, x ≠ v → f x = x := fun x hx => if_neg hx
    have hfv : f v = y := if_pos rfl
    have hw : ∀ {n a b}, Walk S.Adj n a b → Conn (S.removeVertex v).Adj (f a) (f b) := by
      intro n a b h
      induction h with
      | nil a => exact .refl _
      | @cons n a x b h _ ih =>
        refine .trans ?_ ih
        by_cases hav : a = v
        · subst hav
          obtain rfl := (hvy x).1 h
          rw [hfv, hf _ hyv]
          exact .refl _
        · by_cases hxv : x = v
          · subst hxv
            obtain rfl := (hvy a).1 h.symm
            rw [hfv, hf _ hyv]
            exact .refl _
          · rw [hf _ hav, hf _ hxv]
            exact .single ((hA a x).2 ⟨h, hav, hxv⟩)
    have hc := card_comps_of_map (S := S.removeVertex v) (T := S) id (fun u hu => ((hVm u).1 hu).1)
      (fun a ha b hb => by
        constructor
        · exact fun h => h.mono fun x y h => ((hA x y).1 h).1
        · rintro ⟨n, h⟩
          have := hw h
          rwa [id, id, hf _ ((hVm a).1 ha).2, hf _ ((hVm b).1 hb).2] at this)
      (fun w hw => by
        by_cases h : w = v
        · subst h
          exact ⟨y, (hVm y).2 ⟨((hvy y).2 rfl).right, hyv⟩, .single ((hvy y).2 rfl).symm⟩
        · exact ⟨w, (hVm w).2 ⟨hw, h⟩, .refl _⟩)
    omega

/-- A loopless graph is a forest iff every nonempty set of vertices contains one with at most one neighbour inside. -/
theorem forest_iff : ∀ n (S : SGraph), S.V.card = n → S.Loopless →
    (S.V.card = S.E.card + S.comps.card ↔ ∀ W, W ⊆ S.V → W.Nonempty → ∃ w ∈ W, S.degIn W w ≤ 1) := by
  classical
  intro n
  induction n with
  | zero =>
    intro S hn hl
    have hV := Finset.card_eq_zero.1 hn
    have hE := sum_degIn_V hl
    rw [hV, Finset.sum_empty] at hE
    have hE0 : S.E = ∅ := Finset.card_eq_zero.1 (by omega)
    rw [card_comps_edgeless hE0, hE0]
    refine ⟨fun _ W hW hne => ?_, fun _ => by simp⟩
    rw [hV, Finset.subset_empty] at hW
    exact absurd hne (by rw [hW]; exact Finset.not_nonempty_empty)
  | succ n ih =>
    intro S hn hl
    by_cases hc : ∃ v ∈ S.V, (S.nbrs v).card ≤ 1
    · obtain ⟨v, hv, hd⟩ := hc
      have hVm : ∀ x, x ∈ (S.removeVertex v).V ↔ x ∈ S.V ∧ x ≠ v := fun x => by
        rw [removeVertex_V, Finset.mem_erase, and_comm]
      have hA : ∀ a b, a ≠ v → b ≠ v → ((S.removeVertex v).Adj a b ↔ S.Adj a b) := fun a b ha hb => by
        show s(a, b) ∈ S.E.filter (fun e => v ∉ e) ↔ _
        rw [Finset.mem_filter, Sym2.mem_iff]
        exact ⟨fun h => h.1, fun h => ⟨h, by rintro (e | e); exacts [ha e.symm, hb e.symm]⟩⟩
      have hlT : (S.removeVertex v).Loopless := fun u hu => hl u (Finset.mem_filter.1 hu).1
      have h1 := removeVertex_leaf hl hv hd
      have h2 := ih (S.removeVertex v) (by rw [removeVertex_V, Finset.card_erase_of_mem hv]; omega) hlT
      have h3 : S.V.card = S.E.card + S.comps.card ↔
          (S.removeVertex v).V.card = (S.removeVertex v).E.card + (S.removeVertex v).comps.card := by omega
      rw [h3, h2]
      have hdeg : ∀ W, W ⊆ (S.removeVertex v).V → ∀ w ∈ W, (S.removeVertex v).degIn W w = S.degIn W w := fun W hW w hw => by
        refine congrArg Finset.card (Finset.filter_congr fun x hx => hA w x ((hVm w).1 (hW hw)).2 ((hVm x).1 (hW hx)).2)
      constructor
      · intro h W hW hne
        by_cases hvW : v ∈ W
        · refine ⟨v, hvW, le_trans (degIn_le_of fun x _ hx => mem_nbrs.2 hx) hd⟩
        · have hW' : W ⊆ (S.removeVertex v).V := fun x hx => (hVm x).2 ⟨hW hx, fun e => hvW (e ▸ hx)⟩
          obtain ⟨w, hw, hle⟩ := h W hW' hne
          exact ⟨w, hw, by rwa [hdeg W hW' w hw] at hle⟩
      · intro h W hW hne
        obtain ⟨w, hw, hle⟩ := h W (fun x hx => ((hVm x).1 (hW hx)).1) hne
        exact ⟨w, hw, by rwa [hdeg W hW w hw]⟩
    · push Not at hc
      have hne : S.V.Nonempty := Finset.card_pos.1 (by omega)
      constructor
      · intro h
        have h1 : ∑ _u ∈ S.V, 2 ≤ ∑ u ∈ S.V, (S.nbrs u).card := Finset.sum_le_sum fun u hu => hc u hu
        rw [hl.sum_nbrs, Finset.sum_const, smul_eq_mul] at h1
        have h2 : 0 < S.comps.card := Finset.card_pos.2 (by
          obtain ⟨u, hu⟩ := hne
          exact ⟨_, mem_comps.2 ⟨u, hu, rfl⟩⟩)
        omega
      · intro h
        obtain ⟨w, hw, hle⟩ := h S.V (Finset.Subset.refl _) hne
        rw [degIn_V hl, hl.deg] at hle
        have := hc w hw
        omega

theorem IsDegeneracy.le_one_iff {k : ℕ} (h : S.IsDegeneracy k) (hl : S.Loopless) :
    k ≤ 1 ↔ S.V.card = S.E.card + S.comps.card := by
  rw [forest_iff _ S rfl hl]
  refine ⟨fun hk W hW hne => ?_, h.2 1⟩
  obtain ⟨w, hw, hle⟩ := h.1 W hW hne
  exact ⟨w, hw, hle.trans hk⟩

theorem IsDegeneracy.eq_zero_iff {k : ℕ} (h : S.IsDegeneracy k) (hl : S.Loopless) : k = 0 ↔ S.E.card = 0 := by
  constructor
  · rintro rfl
    have := h.edges_le hl
    omega
  · intro h0
    refine Nat.le_zero.1 (h.2 0 fun W _ ⟨w, hw⟩ => ⟨w, hw, Nat.le_zero.2 (Finset.card_eq_zero.2 ?_)⟩)
    refine Finset.filter_eq_empty_iff.2 fun x _ hx => ?_
    have : s(w, x) ∈ S.E := hx
    rw [Finset.card_eq_zero.1 h0] at this
    exact absurd this (Finset.notMem_empty _)

end SGraph

/-- Degeneracy of a lexicographic product (outer factor: the second graph). -/
theorem IsProduct.degeneracy_lex {P S T : SGraph} {e : ℕ → ℕ × ℕ} {N : ℕ} (I : IsProduct P S T (LexAdj S T) e N)
    (hS : S.V.Nonempty) (hT : T.V.Nonempty) {c d m : ℕ} (hc : S.IsDegeneracy c) (hd : T.IsDegeneracy d)
    (hm : P.IsDegeneracy m) : max c (S.V.card * d) ≤ m ∧ m ≤ S.V.card * d + c := by
  classical
  have hinj : ∀ (Z : Finset ℕ), (∀ k ∈ Z, k < N) → (Z.image e).card = Z.card := fun Z hZ =>
    Finset.card_image_of_injOn fun a ha b hb hab => I.inj a b (hZ a ha) (hZ b hb) hab
  -- a set of pairs all of which have many neighbours inside bounds the degeneracy from below
  have lower : ∀ (A B : Finset ℕ) k, A ⊆ S.V → B ⊆ T.V → A.Nonempty → B.Nonempty →
      (∀ p : ℕ × ℕ, p.1 ∈ A → p.2 ∈ B → ∃ Z : Finset (ℕ × ℕ), k ≤ Z.card ∧ ∀ q ∈ Z, q.1 ∈ A ∧ q.2 ∈ B ∧ LexAdj S T p q) → k ≤ m := by
    rintro A B k hA hB ⟨a, ha⟩ ⟨b, hb⟩ hZ
    rcases Nat.eq_zero_or_pos k with rfl | hk
    · exact Nat.zero_le _
    let W := (Finset.range N).filter (fun i => (e i).1 ∈ A ∧ (e i).2 ∈ B)
    have hdeg : ∀ i ∈ W, k ≤ P.degIn W i := fun i hi => by
      obtain ⟨hiN, hiA, hiB⟩ := Finset.mem_filter.1 hi
      rw [Finset.mem_range] at hiN
      obtain ⟨Z, h1, h2⟩ := hZ (e i) hiA hiB
      refine h1.trans (le_trans (Finset.card_le_card fun q hq => ?_) (Finset.card_image_le (f := e)))
      obtain ⟨q1, q2, q3⟩ := h2 q hq
      obtain ⟨j, hj, rfl⟩ := I.surj q (hA q1) (hB q2)
      exact Finset.mem_image.2 ⟨j, Finset.mem_filter.2 ⟨Finset.mem_filter.2 ⟨Finset.mem_range.2 hj, q1, q2⟩,
        (I.adj i j).2 ⟨hiN, hj, q3⟩⟩, rfl⟩
    obtain ⟨i₀, hi₀, he₀⟩ := I.surj (a, b) (hA ha) (hB hb)
    obtain ⟨w, hw, hle⟩ := hm.1 W (fun i hi => by
      have := hdeg i hi
      obtain ⟨j, hj⟩ := Finset.card_pos.1 (show 0 < P.degIn W i by omega)
      exact (I.verts i).2 ⟨j, (Finset.mem_filter.1 hj).2⟩)
      ⟨i₀, Finset.mem_filter.2 ⟨Finset.mem_range.2 hi₀, by rw [he₀]; exact ⟨ha, hb⟩⟩⟩
    exact (hdeg w hw).trans hle
  refine ⟨max_le ?_ ?_, hm.2 _ fun W hW hne => ?_⟩
  · obtain ⟨A, hA, hne, hAd⟩ := hc.attained hS
    obtain ⟨b, hb⟩ := hT
    refine lower A {b} c hA (Finset.singleton_subset_iff.2 hb) hne ⟨b, Finset.mem_singleton_self b⟩ fun p hp1 hp2 =>
      ⟨A.filter (fun v => S.Adj p.1 v) ×ˢ {b}, ?_, fun q hq => ?_⟩
    · rw [Finset.card_product, Finset.card_singleton, Nat.mul_one]
      exact hAd _ hp1
    · obtain ⟨q1, q2⟩ := Finset.mem_product.1 hq
      obtain ⟨q1, q3⟩ := Finset.mem_filter.1 q1
      exact ⟨q1, q2, .inr ⟨(Finset.mem_singleton.1 hp2).trans (Finset.mem_singleton.1 q2).symm, q3⟩⟩
  · obtain ⟨B, hB, hne, hBd⟩ := hd.attained hT
    refine lower S.V B _ (Finset.Subset.refl _) hB hS hne fun p hp1 hp2 =>
      ⟨S.V ×ˢ B.filter (fun v => T.Adj p.2 v), ?_, fun q hq => ?_⟩
    · rw [Finset.card_product]
      exact Nat.mul_le_mul_left _ (hBd _ hp2)
    · obtain ⟨q1, q2⟩ := Finset.mem_product.1 hq
      obtain ⟨q2, q3⟩ := Finset.mem_filter.1 q2
      exact ⟨q1, q2, .inl q3⟩
  · obtain ⟨x, hx, hxd⟩ := hd.1 (W.image fun i => (e i).2) (fun u hu => by
      obtain ⟨i, hi, rfl⟩ := Finset.mem_image.1 hu
      exact I.right i (I.lt (hW hi))) (hne.image _)
    obtain ⟨i₀, hi₀, hix⟩ := Finset.mem_image.1 hx
    obtain ⟨u, hu, hud⟩ := hc.1 ((W.filter fun i => (e i).2 = x).image fun i => (e i).1) (fun u hu => by
      obtain ⟨i, hi, rfl⟩ := Finset.mem_image.1 hu
      exact I.left i (I.lt (hW (Finset.mem_filter.1 hi).1)))
      ⟨(e i₀).1, Finset.mem_image.2 ⟨i₀, Finset.mem_filter.2 ⟨hi₀, hix⟩, rfl⟩⟩
    obtain ⟨i, hi, hiu⟩ := Finset.mem_image.1 hu
    rw [Finset.mem_filter] at hi
    refine ⟨i, hi.1, ?_⟩
    unfold SGraph.degIn at hxd hud ⊢
    rw [← hinj _ fun k hk => ((I.adj i k).1 (Finset.mem_filter.1 hk).2).2.1]
    have hincl : (W.filter (fun v => P.Adj i v)).image e ⊆
        (S.V ×ˢ ((W.image fun i => (e i).2).filter fun v => T.Adj x v)) ∪
        ((((W.filter fun i => (e i).2 = x).image fun i => (e i).1).filter fun v => S.Adj u v) ×ˢ {x}) := by
      intro q hq
      obtain ⟨k, hk, rfl⟩ := Finset.mem_image.1 hq
      rw [Finset.mem_filter] at hk
      simp only [Finset.mem_union, Finset.mem_product, Finset.mem_filter, Finset.mem_singleton, Finset.mem_image]
      rcases ((I.adj i k).1 hk.2).2.2 with h | ⟨h1, h2⟩
      · exact .inl ⟨I.left k (I.lt (hW hk.1)), ⟨k, hk.1, rfl⟩, hi.2 ▸ h⟩
      · exact .inr ⟨⟨⟨k, ⟨hk.1, h1.symm.trans hi.2⟩, rfl⟩, hiu ▸ h2⟩, h1.symm.trans hi.2⟩
    refine (Finset.card_le_card hincl).trans ((Finset.card_union_le _ _).trans ?_)
    rw [Finset.card_product, Finset.card_product, Finset.card_singleton, Nat.mul_one]
    exact Nat.add_le_add (Nat.mul_le_mul_left _ hxd) hud

end Verif
