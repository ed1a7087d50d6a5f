import Verif.Lemmas.ReachSets
import Verif.Model.LinearAlg2
/-!
# Distances from weakly reachable sets
-/
namespace Verif
open SGraph

namespace SGraph
variable {S : SGraph} {ord : List ℕ}

theorem RightAdj.mono {r s a b : ℕ} (hrs : ord.idxOf s ≤ ord.idxOf r) (h : S.RightAdj ord r a b) : S.RightAdj ord s a b :=
  ⟨h.1, hrs.trans h.2.1, hrs.trans h.2.2⟩

theorem walk_of_right {r n u v : ℕ} (h : Walk (S.RightAdj ord r) n u v) : Walk S.Adj n u v := h.mono fun _ _ h => h.1

theorem walk_right_symm {r n u v : ℕ} (h : Walk (S.RightAdj ord r) n u v) : Walk (S.RightAdj ord r) n v u :=
  h.symm fun _ _ h => h.symm

/-- Every walk has a leftmost vertex. -/
theorem walk_leftmost {n x y : ℕ} (h : Walk S.Adj n x y) (hx : x ∈ S.V) :
    ∃ w n1 n2, w ∈ S.V ∧ n1 + n2 = n ∧ ord.idxOf w ≤ ord.idxOf x ∧ Walk (S.RightAdj ord w) n1 w x ∧
      Walk (S.RightAdj ord w) n2 w y := by
  induction h with
  | nil x => exact ⟨x, 0, 0, hx, rfl, le_refl _, .nil _, .nil _⟩
  | @cons n x z y h t ih =>
    obtain ⟨w, n1, n2, hw, hn, hle, h1, h2⟩ := ih h.right
    by_cases hc : ord.idxOf x < ord.idxOf w
    · refine ⟨x, 0, n + 1, hx, by omega, le_refl _, .nil _, ?_⟩
      have hm : ∀ a b, S.RightAdj ord w a b → S.RightAdj ord x a b := fun a b h => h.mono (le_of_lt hc)
      have h3 := (walk_right_symm (h1.mono hm)).append (h2.mono hm)
      rw [hn] at h3
      exact .cons ⟨h, le_refl _, (le_of_lt hc).trans hle⟩ h3
    · exact ⟨w, n1 + 1, n2, hw, by omega, by omega, h1.snoc ⟨h.symm, hle, by omega⟩, h2⟩

/-- A walk in the right part of `w` bounds a weak reachability distance. -/
theorem wreach_of_walk (O : S.Ordering ord) {w n x : ℕ} (hw : w ∈ S.V) (h : Walk (S.RightAdj ord w) n w x) (hne : x ≠ w) :
    ∃ d ≤ n, S.WReach ord x w d := by
  obtain ⟨d, hd, h1⟩ := IsMin.exists_le (P := fun n => Walk (S.RightAdj ord w) n w x) h
  refine ⟨d, hd, (LinGraph.LRep.wreach_iff' O hw).2 ⟨?_, h1.1, fun m hm => h1.2 m hm⟩⟩
  rcases Nat.eq_zero_or_pos d with rfl | h0
  · exact absurd (Walk.zero_iff.1 h1.1).symm hne
  · exact h0

theorem WReach.walk (O : S.Ordering ord) {x w d : ℕ} (h : S.WReach ord x w d) : Walk S.Adj d x w :=
  (walk_of_right ((wreach_iff O).1 h).2.1).symm fun _ _ h => h.symm

end SGraph

namespace LinGraph.LRep
variable {S : SGraph} {ord : List ℕ}

/-- The table of weakly reachable sets up to distance `D`. -/
abbrev WTab (S : SGraph) (ord : List ℕ) (ws : HMap ℕ (HMap ℕ ℕ)) (D : ℕ) : Prop :=
  Tab S ws (fun v u d => S.WReach ord v u d ∧ d ≤ D)

theorem smallDistance (O : S.Ordering ord) {ws : HMap ℕ (HMap ℕ ℕ)} {D : ℕ} (T : WTab S ord ws D) (hD : 2 * D < 2 ^ 32)
    {x y : ℕ} (hx : x ∈ S.V) (hy : y ∈ S.V) :
    Ok (smallDistance ws D x y) (fun r => ∀ n, r = some n ↔ IsDist S.Adj x y n ∧ n ≤ D) := by
  unfold Verif.smallDistance
  by_cases hxy : x = y
  · subst hxy
    simp only [beq_self_eq_true, if_true]
    refine Ok.pure fun n => ?_
    constructor
    · rintro ⟨⟩; exact ⟨⟨.nil _, by simp⟩, Nat.zero_le _⟩
    · rintro ⟨⟨h1, h2⟩, -⟩
      rcases Nat.eq_zero_or_pos n with rfl | h0
      · rfl
      · exact absurd (.nil _) (h2 0 h0)
  · rw [if_neg (by simpa using hxy)]
    obtain ⟨Wx, hWx⟩ := HMap.mem_keys_iff.1 ((T.1 x).2 hx)
    obtain ⟨Wy, hWy⟩ := HMap.mem_keys_iff.1 ((T.1 y).2 hy)
    have tx := T.2 x Wx hWx
    have ty := T.2 y Wy hWy
    rw [hWx, hWy, unwrap_some, unwrap_some, bind_ok, bind_ok]
    -- the values taken into account
    have hfold : Ok (Wx.entries.foldlM (smallDistanceStep Wy) (smallDistanceInit Wx Wy x y)) (fun dist =>
        (∀ w d1 d2, (w, d1) ∈ Wx.entries → Wy.get? w = some d2 → dist ≤ d1 + d2) ∧
        dist ≤ smallDistanceInit Wx Wy x y ∧
        (dist = smallDistanceInit Wx Wy x y ∨ ∃ w d1 d2, Wx.get? w = some d1 ∧ Wy.get? w = some d2 ∧ dist = d1 + d2)) := by
      refine Ok.foldlM (fun (pre : List (ℕ × ℕ)) (dist : ℕ) =>
        (∀ w d1 d2, (w, d1) ∈ pre → Wy.get? w = some d2 → dist ≤ d1 + d2) ∧
        dist ≤ smallDistanceInit Wx Wy x y ∧
        (dist = smallDistanceInit Wx Wy x y ∨ ∃ w d1 d2, Wx.get? w = some d1 ∧ Wy.get? w = some d2 ∧ dist = d1 + d2))
        ⟨by simp, le_refl _, Or.inl rfl⟩ ?_
      rintro pre ⟨w, d1⟩ post dist hl ⟨h1, h2, h3⟩
      have hw : Wx.get? w = some d1 := HMap.get?_eq_some.2 (by rw [hl]; simp)
      unfold smallDistanceStep
      cases hc : Wy.get? w with
      | none =>
        refine Ok.pure ⟨fun w' e1 e2 hm he => ?_, h2, h3⟩
        simp only [List.mem_append, List.mem_singleton, Prod.mk.injEq] at hm
        rcases hm with hm | ⟨rfl, rfl⟩
        · exact h1 w' e1 e2 hm he
        · rw [hc] at he; exact absurd he (by simp)
      | some d2 =>
        have b1 := ((tx w d1).1 hw).2
        have b2 := ((ty w d2).1 hc).2
        simp only
        rw [add32_ok (by omega), bind_ok]
        refine Ok.pure ⟨fun w' e1 e2 hm he => ?_, by omega, ?_⟩
        · simp only [List.mem_append, List.mem_singleton, Prod.mk.injEq] at hm
          rcases hm with hm | ⟨rfl, rfl⟩
          · have := h1 w' e1 e2 hm he; omega
          · rw [hc] at he; cases he; omega
        · rcases Nat.lt_or_ge (d1 + d2) dist with hlt | hge
          · exact Or.inr ⟨w, d1, d2, hw, hc, by omega⟩
          · rw [Nat.min_eq_left hge]; exact h3
    refine hfold.bind ?_
    rintro dist ⟨f1, f2, f3⟩
    -- every value is the length of a walk
    have hinit : smallDistanceInit Wx Wy x y = max32 ∨ Walk S.Adj (smallDistanceInit Wx Wy x y) x y := by
      unfold smallDistanceInit
      have a1 : (Wx.get? y).getD max32 = max32 ∨ Walk S.Adj ((Wx.get? y).getD max32) x y := by
        cases hc : Wx.get? y with
        | none => exact Or.inl rfl
        | some d => exact Or.inr (((tx y d).1 hc).1.walk O)
      cases hc : Wy.get? x with
      | none => exact a1
      | some d =>
        have hw : Walk S.Adj d x y := (((ty x d).1 hc).1.walk O).symm fun _ _ h => h.symm
        simp only
        rcases Nat.le_total ((Wx.get? y).getD max32) d with hle | hle
        · rw [Nat.min_eq_left hle]; exact a1
        · rw [Nat.min_eq_right hle]; exact Or.inr hw
    have hwalk : dist = max32 ∨ Walk S.Adj dist x y := by
      rcases f3 with h | ⟨w, d1, d2, h1, h2, rfl⟩
      · rw [h]; exact hinit
      · exact Or.inr ((((tx w d1).1 h1).1.walk O).append ((((ty w d2).1 h2).1.walk O).symm fun _ _ h => h.symm))
    have hi1 : ∀ d, Wx.get? y = some d → smallDistanceInit Wx Wy x y ≤ d := by
      intro d hd
      unfold smallDistanceInit
      rw [hd]
      cases Wy.get? x <;> simp
    have hi2 : ∀ d, Wy.get? x = some d → smallDistanceInit Wx Wy x y ≤ d := by
      intro d hd
      unfold smallDistanceInit
      rw [hd]
      simp
    -- and no walk of length at most `D` is shorter
    have hle : ∀ n ≤ D, Walk S.Adj n x y → dist ≤ n := by
      intro n hn hwk
      obtain ⟨w, n1, n2, hw, hs, -, h1, h2⟩ := walk_leftmost (ord := ord) hwk hx
      by_cases ex : x = w
      · subst ex
        obtain ⟨d, hd, hr⟩ := wreach_of_walk O hw h2 (Ne.symm hxy)
        have := hi2 d ((ty x d).2 ⟨hr, by omega⟩)
        omega
      · by_cases ey : y = w
        · subst ey
          obtain ⟨d, hd, hr⟩ := wreach_of_walk O hw h1 ex
          have := hi1 d ((tx y d).2 ⟨hr, by omega⟩)
          omega
        · obtain ⟨d1, hd1, hr1⟩ := wreach_of_walk O hw h1 ex
          obtain ⟨d2, hd2, hr2⟩ := wreach_of_walk O hw h2 ey
          have := f1 w d1 d2 (HMap.get?_eq_some.1 ((tx w d1).2 ⟨hr1, by omega⟩)) ((ty w d2).2 ⟨hr2, by omega⟩)
          omega
    have hmax : D < max32 := by unfold max32; omega
    by_cases hc : D < dist
    · rw [if_pos hc]
      refine Ok.pure fun n => ⟨fun h => (by cases h), ?_⟩
      rintro ⟨h1, h2⟩
      have := hle n h2 h1.1
      omega
    · rw [if_neg hc]
      have hw : Walk S.Adj dist x y := by rcases hwalk with h | h; · omega
                                          · exact h
      refine Ok.pure fun n => ?_
      rw [Option.some.injEq]
      constructor
      · rintro rfl
        exact ⟨⟨hw, fun m hm hwm => by have := hle m (by omega) hwm; omega⟩, by omega⟩
      · rintro ⟨⟨h1, h2⟩, h3⟩
        have := hle n h3 h1
        by_contra hne
        exact h2 dist (by omega) hw

/-- `m` is the minimum distance (at most `D`) between listed pairs, or `u32::MAX` if there is none. -/
def PairMin (S : SGraph) (D : ℕ) (P : ℕ → ℕ → Prop) (m : ℕ) : Prop :=
  (∀ x y n, P x y → Walk S.Adj n x y → n ≤ D → m ≤ n) ∧ (m = max32 ∨ (m ≤ D ∧ ∃ x y, P x y ∧ Walk S.Adj m x y))

theorem PairMin.congr {D m : ℕ} {P Q : ℕ → ℕ → Prop} (h : PairMin S D P m) (hq : ∀ x y, P x y ↔ Q x y) : PairMin S D Q m := by
  have : P = Q := by funext x y; exact propext (hq x y)
  rw [← this]; exact h

theorem smallDistanceRow (O : S.Ordering ord) {ws : HMap ℕ (HMap ℕ ℕ)} {D : ℕ} (T : WTab S ord ws D) (hD : 2 * D < 2 ^ 32)
    {x : ℕ} (hx : x ∈ S.V) (ys : List ℕ) : ∀ (P : ℕ → ℕ → Prop) (m : ℕ), (∀ y ∈ ys, y ∈ S.V) → PairMin S D P m →
    Ok (smallDistanceRow ws D x ys m) (fun r => match r with
      | none => x ∈ ys
      | some m' => x ∉ ys ∧ PairMin S D (fun a b => P a b ∨ (a = x ∧ b ∈ ys)) m') := by
  induction ys with
  | nil =>
    intro P m _ h
    exact Ok.pure ⟨by simp, h.congr (by simp)⟩
  | cons y ys ih =>
    intro P m hys h
    unfold Verif.smallDistanceRow
    by_cases hxy : x = y
    · rw [if_pos (by simpa using hxy)]
      exact Ok.pure (by simp [hxy])
    · rw [if_neg (by simpa using hxy)]
      refine (smallDistance O T hD hx (hys y (by simp))).bind ?_
      intro d hd
      have h' : PairMin S D (fun a b => P a b ∨ (a = x ∧ b = y)) (min m (d.getD m)) := by
        refine ⟨fun a b n hp hw hn => ?_, ?_⟩
        · rcases hp with hp | ⟨rfl, rfl⟩
          · exact (min_le_left _ _).trans (h.1 a b n hp hw hn)
          · obtain ⟨k, hk, hmin⟩ := IsMin.exists_le (P := fun n => Walk S.Adj n a b) hw
            rw [(hd k).2 ⟨⟨hmin.1, fun m hm => hmin.2 m hm⟩, by omega⟩]
            exact (min_le_right _ _).trans hk
        · cases d with
          | none =>
            rcases h.2 with h2 | ⟨h2, a, b, h3, h4⟩
            · left; simpa using h2
            · right; simpa using ⟨h2, a, b, Or.inl h3, h4⟩
          | some d =>
            obtain ⟨hd1, hd2⟩ := (hd d).1 rfl
            simp only [Option.getD_some]
            rcases Nat.le_total m d with hle | hle
            · rw [Nat.min_eq_left hle]
              rcases h.2 with h2 | ⟨h2, a, b, h3, h4⟩
              · left; exact h2
              · right; exact ⟨h2, a, b, Or.inl h3, h4⟩
            · rw [Nat.min_eq_right hle]
              right; exact ⟨hd2, x, y, Or.inr ⟨rfl, rfl⟩, hd1.1⟩
      refine (ih _ _ (fun y hy => hys y (by simp [hy])) h').mono ?_
      intro r hr
      cases r with
      | none => exact List.mem_cons_of_mem _ hr
      | some m' =>
        refine ⟨by simp [hxy, hr.1], hr.2.congr fun a b => ?_⟩
        simp only [List.mem_cons]
        tauto

theorem smallDistanceRows (O : S.Ordering ord) {ws : HMap ℕ (HMap ℕ ℕ)} {D : ℕ} (T : WTab S ord ws D) (hD : 2 * D < 2 ^ 32)
    {ys : List ℕ} (hys : ∀ y ∈ ys, y ∈ S.V) (xs : List ℕ) : ∀ (P : ℕ → ℕ → Prop) (m : ℕ), (∀ x ∈ xs, x ∈ S.V) →
    PairMin S D P m →
    Ok (smallDistanceRows ws D ys xs m) (fun r => match r with
      | none => ∃ x ∈ xs, x ∈ ys
      | some m' => PairMin S D (fun a b => P a b ∨ (a ∈ xs ∧ b ∈ ys)) m') := by
  induction xs with
  | nil =>
    intro P m _ h
    exact Ok.pure (h.congr (by simp))
  | cons x xs ih =>
    intro P m hxs h
    unfold Verif.smallDistanceRows
    refine (smallDistanceRow O T hD (hxs x (by simp)) ys P m hys h).bind ?_
    intro r hr
    cases r with
    | none => exact Ok.pure ⟨x, by simp, hr⟩
    | some m' =>
      refine (ih _ m' (fun x hx => hxs x (by simp [hx])) hr.2).mono ?_
      intro r hr
      cases r with
      | none => obtain ⟨a, ha, hb⟩ := hr; exact ⟨a, by simp [ha], hb⟩
      | some m'' =>
        refine hr.congr fun a b => ?_
        simp only [List.mem_cons]
        tauto

theorem smallDistanceSets (O : S.Ordering ord) (σ : Shuffle ℕ) {ws : HMap ℕ (HMap ℕ ℕ)} {D : ℕ} (T : WTab S ord ws D)
    (hD : 2 * D < 2 ^ 32) {X Y : List ℕ} (hX : ∀ x ∈ X, x ∈ S.V) (hY : ∀ y ∈ Y, y ∈ S.V) :
    Ok (smallDistanceSets σ ws D X Y) (fun r => ∀ n, r = some n ↔
      IsMin (fun n => ∃ x ∈ X, ∃ y ∈ Y, Walk S.Adj n x y) n ∧ n ≤ D) := by
  unfold Verif.smallDistanceSets
  have hmX : ∀ x, x ∈ σ.run (HSet.ofList X).toList ↔ x ∈ X := fun x => by
    rw [σ.mem, HSet.mem_toList, HSet.mem_ofList]
  have hmY : ∀ x, x ∈ σ.run (HSet.ofList Y).toList ↔ x ∈ Y := fun x => by
    rw [σ.mem, HSet.mem_toList, HSet.mem_ofList]
  have h := smallDistanceRows O T hD (ys := σ.run (HSet.ofList Y).toList) (fun y hy => hY y ((hmY y).1 hy))
    (σ.run (HSet.ofList X).toList) (fun _ _ => False) max32 (fun y hy => hX y ((hmX y).1 hy)) ⟨by simp, Or.inl rfl⟩
  refine h.bind ?_
  intro r hr
  have hmax : D < max32 := by unfold max32; omega
  cases r with
  | none =>
    obtain ⟨x, h1, h2⟩ := hr
    have h0 : ∃ x ∈ X, ∃ y ∈ Y, Walk S.Adj 0 x y := ⟨x, (hmX x).1 h1, x, (hmY x).1 h2, .nil _⟩
    refine Ok.pure fun n => ?_
    rw [Option.some.injEq]
    constructor
    · rintro rfl; exact ⟨⟨h0, by simp⟩, Nat.zero_le _⟩
    · rintro ⟨⟨-, h3⟩, -⟩
      rcases Nat.eq_zero_or_pos n with rfl | hp
      · rfl
      · exact absurd h0 (h3 0 hp)
  | some m =>
    obtain ⟨h1, h2⟩ := hr.congr (Q := fun a b => a ∈ X ∧ b ∈ Y) (fun a b => by rw [hmX, hmY, false_or])
    simp only
    by_cases hm : m = max32
    · rw [if_pos (by simpa using hm)]
      refine Ok.pure fun n => ⟨fun h => (by cases h), ?_⟩
      rintro ⟨⟨⟨x, hx, y, hy, hw⟩, -⟩, hn⟩
      have := h1 x y n ⟨hx, hy⟩ hw hn
      omega
    · rw [if_neg (by simpa using hm)]
      obtain ⟨h3, x, y, ⟨hx, hy⟩, hw⟩ := h2.resolve_left hm
      refine Ok.pure fun n => ?_
      rw [Option.some.injEq]
      constructor
      · rintro rfl
        refine ⟨⟨⟨x, hx, y, hy, hw⟩, ?_⟩, h3⟩
        rintro k hk ⟨x', hx', y', hy', hw'⟩
        have := h1 x' y' k ⟨hx', hy'⟩ hw' (by omega)
        omega
      · rintro ⟨⟨⟨x', hx', y', hy', hw'⟩, h5⟩, h6⟩
        have := h1 x' y' n ⟨hx', hy'⟩ hw' h6
        by_contra hne
        exact h5 m (by omega) ⟨x, hx, y, hy, hw⟩

end LinGraph.LRep
end Verif
