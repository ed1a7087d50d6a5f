import Verif.Props.GenDomsets
/-!
# C137: dominating sets of cycles in their natural ordering
-/
namespace Verif
open SGraph EditGraph

/-- In the cycle, `u` is weakly reachable from `v` at distance `d`, at most `r`: directly, or round the end if `u` is the first
vertex. -/
def CycleReach (n r v u d : ℕ) : Prop := v < n ∧ u < v ∧ d ≤ r ∧ d = if u = 0 then min v (n - v) else v - u

theorem cycle_reach {n r : ℕ} {S : SGraph}
    (hA : ∀ a b, S.Adj a b ↔ (a < n ∧ b < n ∧ (b = a + 1 ∨ a = b + 1 ∨ (a = 0 ∧ b + 1 = n) ∨ (b = 0 ∧ a + 1 = n))))
    {v u : ℕ} (huv : u < v) (hv : v < n) (d : ℕ) :
    (IsMin (fun k => S.WalkVia (fun x => u < x) k v u) d ∧ d ≤ r) ↔ CycleReach n r v u d := by
  have down : S.WalkVia (fun x => u < x) (v - u) v u := by
    suffices key : ∀ j, u + j + 1 ≤ v → S.WalkVia (fun x => u < x) (j + 1) (u + j + 1) u by
      have := key (v - u - 1) (by omega)
      rwa [show u + (v - u - 1) + 1 = v by omega, show v - u - 1 + 1 = v - u by omega] at this
    intro j
    induction j with
    | zero => intro _; exact .one ((hA _ _).2 (by omega))
    | succ j ih => intro h; exact .cons ((hA _ _).2 (by omega)) (by omega) (ih (by omega))
  have up : u = 0 → S.WalkVia (fun x => u < x) (n - v) v u := by
    rintro rfl
    suffices key : ∀ j a, 0 < a → a + j + 1 = n → S.WalkVia (fun x => 0 < x) (j + 1) a 0 by
      have := key (n - v - 1) v (by omega) (by omega)
      rwa [show n - v - 1 + 1 = n - v by omega] at this
    intro j
    induction j with
    | zero => intro a h1 h2; exact .one ((hA _ _).2 (by omega))
    | succ j ih => intro a h1 h2; exact .cons (w := a + 1) ((hA _ _).2 (by omega)) (by omega) (ih _ (by omega) (by omega))
  have low : ∀ {j a b}, S.WalkVia (fun x => u < x) j a b → u < a → b = u → (b = 0 ∧ n - a ≤ j) ∨ a ≤ b + j := by
    intro j a b w
    induction w with
    | one e => have := (hA _ _).1 e; omega
    | cons e hw w ih => have := (hA _ _).1 e; intro h1 h2; have := ih hw h2; omega
  have h1 : IsMin (fun k => S.WalkVia (fun x => u < x) k v u) (if u = 0 then min v (n - v) else v - u) := by
    refine .of ?_ fun j w => ?_
    · by_cases h0 : u = 0
      · rw [if_pos h0]
        rcases Nat.le_total v (n - v) with h | h
        · rw [Nat.min_eq_left h]
          rwa [show v - u = v by omega] at down
        · rw [Nat.min_eq_right h]
          exact up h0
      · rw [if_neg h0]; exact down
    · have := low w huv rfl
      split <;> omega
  unfold CycleReach
  constructor
  · rintro ⟨h, hd⟩
    exact ⟨hv, huv, hd, h.unique h1⟩
  · rintro ⟨-, -, hd, e⟩
    rw [← e] at h1
    exact ⟨h1, hd⟩

/-- Going back by less than `s` in residues modulo `s`. -/
theorem mod_back {s y d : ℕ} (hd : d < s) (hy : d ≤ y) : (y - d) % s = if d ≤ y % s then y % s - d else s + y % s - d := by
  split
  · rename_i h; exact mod_sub_le h
  · rename_i h
    have e := Nat.div_add_mod y s
    obtain ⟨q, hq⟩ : ∃ q, y / s = q + 1 := Nat.exists_eq_succ_of_ne_zero fun h' => by rw [h'] at e; omega
    rw [hq, Nat.mul_succ] at e
    have : y - d = s + y % s - d + s * q := by omega
    rw [this, Nat.add_mul_mod_self_left, Nat.mod_eq_of_lt (by omega)]

/-- The distance of a processed vertex `x` with `(x + 1) % (r + 1) = f`, when the members below `i` have joined. -/
def cycVal (n r i x f : ℕ) : ℕ :=
  if x + 1 = f ∨ x + r + 2 ≤ n + f then
    (if x + (r + 1) - f < i ∧ x + (r + 1) - f + r + 2 ≤ n then min f (r + 1 - f) else min f (n - 1 - x))
  else n - 1 - x

/-- Distances after the vertices `n - 1, 1, …, i - 1`. -/
def cycMu (n r i x : ℕ) : ℕ :=
  if i = 0 then r + 1 else if x = n - 1 then 0 else if x = 0 then 1 else
    if x < i then cycVal n r i x ((x + 1) % (r + 1)) else min (n - 1 - x) (r + 1)

/-- Members after the vertices `n - 1, 1, …, i - 1`. -/
def cycJ (n r i : ℕ) : Finset ℕ :=
  (Finset.range n).filter fun x => 0 < i ∧ (x = n - 1 ∨ (x + r + 2 ≤ n ∧ x < i ∧ (x + 1) % (r + 1) = 0))

theorem mem_cycJ {n r i x : ℕ} : x ∈ cycJ n r i ↔
    x < n ∧ 0 < i ∧ (x = n - 1 ∨ (x + r + 2 ≤ n ∧ x < i ∧ (x + 1) % (r + 1) = 0)) := by
  unfold cycJ
  rw [Finset.mem_filter, Finset.mem_range]

theorem cycle_generated {n r : ℕ} (hr0 : 0 < r) (J : Finset ℕ) (x : ℕ) :
    Generated (CycleReach n r) ((2 * r) ^ 2) J x ↔ x ∈ J := by
  refine generated_iff fun A hA => le_trans (Finset.card_le_card
    (t := Finset.Ioc x (x + r) ∪ Finset.Ico (n - r) n) fun s hs => ?_) ?_
  · obtain ⟨-, d, h1, h2, h3, h4⟩ := hA s hs
    rw [Finset.mem_union, Finset.mem_Ioc, Finset.mem_Ico]
    split at h4 <;> omega
  · refine (Finset.card_union_le _ _).trans ?_
    rw [Nat.card_Ioc, Nat.card_Ico, Nat.pow_two]
    have : (2 * r) * 1 ≤ (2 * r) * (2 * r) := Nat.mul_le_mul (by omega) (by omega)
    omega

/-- The first vertex processed is the last of the cycle; it joins. -/
theorem cycle_first {n r : ℕ} (h3 : 3 ≤ n) (hr0 : 0 < r) :
    DomStep (Finset.range n) (CycleReach n r) r ((2 * r) ^ 2) (cycJ n r 0) (cycMu n r 0) (n - 1) (cycJ n r 1) (cycMu n r 1) := by
  have hmem : ∀ x, x ∈ cycJ n r 1 ↔ x = n - 1 := by
    intro x
    rw [mem_cycJ]
    constructor
    · rintro ⟨h1, -, h | ⟨h4, h5, h6⟩⟩
      · exact h
      · obtain rfl : x = 0 := by omega
        rw [Nat.mod_eq_of_lt (by omega)] at h6
        omega
    · rintro rfl; omega
  have e0 : ∀ x, cycMu n r 0 x = r + 1 := fun x => rfl
  have e1 : ∀ x, cycMu n r 1 x = if x = n - 1 then 0 else if x = 0 then 1 else min (n - 1 - x) (r + 1) := by
    intro x
    unfold cycMu
    rw [if_neg (by omega)]
    by_cases h : x = 0
    · rw [if_pos h, if_pos h]
    · rw [if_neg h, if_neg h, if_neg (show ¬ x < 1 by omega)]
  refine DomStep.join (by rw [e0]; omega) (fun u d h => by rw [e0]; omega) ?_ (fun x hx => ?_) (fun x hx h => ?_)
    (fun x hx a k ha h => ?_) (fun x hx => ?_)
  · ext y
    rw [hmem, Finset.mem_insert, mem_cycJ]
    omega
  · rw [e0, e1]
    split
    · omega
    · split <;> omega
  · rw [cycle_generated hr0, hmem] at h
    rw [e1, if_pos h]
  · rw [cycle_generated hr0, hmem] at ha
    subst ha
    obtain ⟨h1, h2, h4, h5⟩ := h
    rw [e1, if_neg (by omega)]
    split
    · rename_i h0; rw [if_pos h0] at h5; omega
    · rename_i h0; rw [if_neg h0] at h5; omega
  · rw [Finset.mem_range] at hx
    rw [e0, e1, cycle_generated hr0, hmem]
    by_cases h1 : x = n - 1
    · exact .inr (.inl ⟨if_pos h1, h1⟩)
    · rw [if_neg h1]
      by_cases h0 : x = 0
      · rw [if_pos h0]
        refine .inr (.inr ⟨n - 1, (cycle_generated hr0 _ _).2 ((hmem _).2 rfl), by omega, by omega, by omega, ?_⟩)
        rw [if_pos h0]; omega
      · rw [if_neg h0]
        by_cases h2 : n - 1 - x ≤ r
        · refine .inr (.inr ⟨n - 1, (cycle_generated hr0 _ _).2 ((hmem _).2 rfl), by omega, by omega, by omega, ?_⟩)
          rw [if_neg h0]; omega
        · left; omega

/-- The vertices `1, …, n - 2`. -/
theorem cycle_step {n r i : ℕ} (hr0 : 0 < r) (hi0 : 0 < i) (hi : i + 1 < n) :
    DomStep (Finset.range n) (CycleReach n r) r ((2 * r) ^ 2) (cycJ n r i) (cycMu n r i) i (cycJ n r (i + 1))
      (cycMu n r (i + 1)) := by
  have hs : 0 < r + 1 := by omega
  have hlt := Nat.mod_lt (i + 1) hs
  have hle := Nat.mod_le (i + 1) (r + 1)
  have hsmall : i < r → (i + 1) % (r + 1) = i + 1 := fun h => Nat.mod_eq_of_lt (by omega)
  have hr' : i = r → (i + 1) % (r + 1) = 0 := by rintro rfl; exact Nat.mod_self _
  have hmu : cycMu n r i i = min (n - 1 - i) (r + 1) := by
    unfold cycMu
    rw [if_neg (by omega), if_neg (by omega), if_neg (by omega), if_neg (by omega)]
  have hz : ∀ j, 0 < j → cycMu n r j 0 = 1 := by
    intro j hj
    unfold cycMu
    rw [if_neg (by omega), if_neg (by omega), if_pos rfl]
  have hl : ∀ j, 0 < j → cycMu n r j (n - 1) = 0 := by
    intro j hj
    unfold cycMu
    rw [if_neg (by omega), if_pos rfl]
  have hp : ∀ j x, 0 < x → x < j → x + 1 < n → cycMu n r j x = cycVal n r j x ((x + 1) % (r + 1)) := by
    intro j x h1 h2 h3
    unfold cycMu
    rw [if_neg (by omega), if_neg (by omega), if_neg (by omega), if_pos h2]
  have hq : ∀ j x, 0 < j → j ≤ x → x + 1 < n → cycMu n r j x = min (n - 1 - x) (r + 1) := by
    intro j x h1 h2 h3
    unfold cycMu
    rw [if_neg (by omega), if_neg (by omega), if_neg (by omega), if_neg (by omega)]
  have hback : ∀ x d, i = x + d → d ≤ r → (x + 1) % (r + 1) =
      if d ≤ (i + 1) % (r + 1) then (i + 1) % (r + 1) - d else r + 1 + (i + 1) % (r + 1) - d := by
    intro x d h1 h2
    have := mod_back (s := r + 1) (y := i + 1) (d := d) (by omega) (by omega)
    rwa [show i + 1 - d = x + 1 by omega] at this
  have hfx : ∀ x, x + (r + 1) - (x + 1) % (r + 1) = i → (i + 1) % (r + 1) = 0 := by
    intro x h
    have := Nat.mod_lt (x + 1) hs
    have := Nat.mod_le (x + 1) (r + 1)
    exact mod_next (y := x + 1) (s := r + 1) (by omega)
  by_cases hj : (i + 1) % (r + 1) = 0 ∧ i + r + 2 ≤ n
  · obtain ⟨hf, hn⟩ := hj
    have hir : r ≤ i := by
      by_contra h
      have := hsmall (by omega)
      omega
    rw [hf] at hback
    have hnear : ∀ x d, i = x + d → 0 < d → d ≤ r → 0 < x → cycMu n r i x = r + 1 - d ∧
        cycMu n r (i + 1) x = min (r + 1 - d) d := by
      intro x d h1 h2 h3 h4
      have e := hback x d h1 h3
      rw [if_neg (by omega)] at e
      rw [hp i x h4 (by omega) (by omega), hp (i + 1) x h4 (by omega) (by omega), e]
      unfold cycVal
      rw [if_pos (by omega), if_neg (by omega), if_pos (by omega), if_pos (by omega)]
      omega
    have hself : cycMu n r (i + 1) i = 0 := by
      rw [hp (i + 1) i hi0 (by omega) hi, hf]
      unfold cycVal
      rw [if_pos (by omega)]
      split <;> omega
    have hfar : ∀ x < n, x = 0 ∨ (0 < x ∧ x + r < i) ∨ i < x → cycMu n r (i + 1) x = cycMu n r i x := by
      intro x hxn hx
      by_cases h0 : x = 0
      · subst h0; rw [hz _ (by omega), hz _ hi0]
      by_cases h1 : x = n - 1
      · subst h1; rw [hl _ (by omega), hl _ hi0]
      by_cases h2 : i < x
      · rw [hq _ x (by omega) (by omega) (by omega), hq _ x hi0 (by omega) (by omega)]
      · rw [hp _ x (by omega) (by omega) (by omega), hp _ x (by omega) (by omega) (by omega)]
        have := Nat.mod_lt (x + 1) hs
        generalize (x + 1) % (r + 1) = f at *
        unfold cycVal
        by_cases h3 : x + (r + 1) - f = i
        · obtain rfl : f = 0 := by omega
          split
          · split <;> split <;> omega
          · rfl
        · split
          · split <;> split <;> omega
          · rfl
    have hmem : i ∈ cycJ n r (i + 1) := mem_cycJ.2 ⟨by omega, by omega, .inr ⟨hn, by omega, hf⟩⟩
    refine DomStep.join (by omega) (fun u d h => ?_) ?_ (fun x hx => ?_) (fun x hx h => ?_) (fun x hx a k ha h => ?_)
      (fun x hx => ?_)
    · obtain ⟨h1, h2, h3, h4⟩ := h
      by_cases h0 : u = 0
      · rw [if_pos h0] at h4
        subst h0
        rw [hz i hi0]
        omega
      · rw [if_neg h0] at h4
        rw [(hnear u d (by omega) (by omega) h3 (by omega)).1]
        omega
    · ext y
      rw [Finset.mem_insert, mem_cycJ, mem_cycJ]
      constructor
      · rintro ⟨h1, -, h | ⟨h2, h3, h4⟩⟩
        · exact .inr ⟨h1, hi0, .inl h⟩
        · by_cases h : y = i
          · exact .inl h
          · exact .inr ⟨h1, hi0, .inr ⟨h2, by omega, h4⟩⟩
      · rintro (rfl | ⟨h1, -, h | ⟨h2, h3, h4⟩⟩)
        · exact ⟨by omega, by omega, .inr ⟨hn, by omega, hf⟩⟩
        · exact ⟨h1, by omega, .inl h⟩
        · exact ⟨h1, by omega, .inr ⟨h2, by omega, h4⟩⟩
    · rw [Finset.mem_range] at hx
      by_cases h1 : x = i
      · subst h1; omega
      by_cases h2 : x = 0 ∨ (0 < x ∧ x + r < i) ∨ i < x
      · exact (hfar x hx h2).le
      · obtain ⟨a, b⟩ := hnear x (i - x) (by omega) (by omega) (by omega) (by omega)
        omega
    · rw [cycle_generated hr0, mem_cycJ] at h
      obtain ⟨h1, -, h | ⟨h2, h3, h4⟩⟩ := h
      · subst h; exact hl _ (by omega)
      · have h5 : 0 < x := by
          rcases Nat.eq_zero_or_pos x with rfl | h5
          · rw [Nat.mod_eq_of_lt (by omega)] at h4; omega
          · exact h5
        rw [hp _ x h5 h3 (by omega), h4]
        unfold cycVal
        rw [if_pos (by omega)]
        split <;> omega
    · rw [cycle_generated hr0, mem_cycJ] at ha
      obtain ⟨e1, e2, e3, e4⟩ := h
      by_cases h0 : x = 0
      · rw [if_pos h0] at e4
        subst h0
        rw [hz _ (by omega)]
        omega
      rw [if_neg h0] at e4
      obtain ⟨h1, -, h | ⟨h2, h3, h4⟩⟩ := ha
      · by_cases h2 : x < i + 1
        · rw [hp _ x (by omega) h2 (by omega)]
          unfold cycVal
          split
          · split <;> omega
          · omega
        · rw [hq _ x (by omega) (by omega) (by omega)]
          omega
      · have := mod_back (s := r + 1) (y := a + 1) (d := k) (by omega) (by omega)
        rw [h4, if_neg (by omega), show a + 1 - k = x + 1 by omega] at this
        rw [hp _ x (by omega) (by omega) (by omega), this]
        unfold cycVal
        split
        · rw [if_pos (by omega)]; omega
        · omega
    · rw [Finset.mem_range] at hx
      by_cases h1 : x = i
      · subst h1
        exact .inr (.inl ⟨hself, (cycle_generated hr0 _ _).2 hmem⟩)
      by_cases h2 : x = 0 ∨ (0 < x ∧ x + r < i) ∨ i < x
      · exact .inl (hfar x hx h2)
      · obtain ⟨a, b⟩ := hnear x (i - x) (by omega) (by omega) (by omega) (by omega)
        by_cases h3 : i - x ≤ r + 1 - (i - x)
        · refine .inr (.inr ⟨i, (cycle_generated hr0 _ _).2 hmem, by omega, by omega, by omega, ?_⟩)
          rw [if_neg (by omega), b]
          omega
        · left; omega
  · have hval : cycMu n r (i + 1) i = cycVal n r (i + 1) i ((i + 1) % (r + 1)) := hp _ _ hi0 (by omega) hi
    have hval' : cycVal n r (i + 1) i ((i + 1) % (r + 1)) =
        if i + 1 = (i + 1) % (r + 1) ∨ i + r + 2 ≤ n + (i + 1) % (r + 1) then min ((i + 1) % (r + 1)) (n - 1 - i)
          else n - 1 - i := by
      unfold cycVal
      rw [if_neg (show ¬ (i + (r + 1) - (i + 1) % (r + 1) < i + 1 ∧ _) by omega)]
    refine DomStep.skip (cycMu n r (i + 1) i) ?_ ?_ ?_ (fun u d h => ?_) ?_ rfl (fun x hx hxi => ?_)
    · rw [hval, hval']
      split <;> omega
    · rw [hmu, hval, hval']
      by_cases hb : i + 1 = (i + 1) % (r + 1) ∨ i + r + 2 ≤ n + (i + 1) % (r + 1)
      · rw [if_pos hb]
        by_cases h1 : n - 1 - i ≤ (i + 1) % (r + 1)
        · left; omega
        · right
          by_cases h2 : i + 1 = (i + 1) % (r + 1)
          · refine ⟨0, i, ⟨by omega, by omega, by omega, by rw [if_pos rfl]; omega⟩, ?_⟩
            rw [hz i hi0]
            omega
          · have hf0 : (i + 1) % (r + 1) ≠ 0 := fun h => hj ⟨h, by omega⟩
            have e := hback (i - (i + 1) % (r + 1)) ((i + 1) % (r + 1)) (by omega) (by omega)
            rw [if_pos le_rfl, Nat.sub_self] at e
            have hpos : 0 < i - (i + 1) % (r + 1) := by
              rcases Nat.eq_zero_or_pos (i - (i + 1) % (r + 1)) with h | h
              · rw [h, Nat.mod_eq_of_lt (by omega)] at e; omega
              · exact h
            refine ⟨i - (i + 1) % (r + 1), (i + 1) % (r + 1), ⟨by omega, by omega, by omega, by
              rw [if_neg (by omega)]; omega⟩, ?_⟩
            rw [hp i _ hpos (by omega) (by omega), e]
            unfold cycVal
            rw [if_pos (by omega)]
            split <;> omega
      · rw [if_neg hb]
        left; omega
    · rw [hmu, hval, hval']
      split <;> omega
    · obtain ⟨h1, h2, h3, h4⟩ := h
      rw [hval, hval']
      by_cases h0 : u = 0
      · rw [if_pos h0] at h4
        subst h0
        rw [hz i hi0]
        split <;> omega
      · rw [if_neg h0] at h4
        have e := hback u d (by omega) h3
        rw [hp i u (by omega) h2 (by omega)]
        have := Nat.mod_lt (u + 1) hs
        generalize (u + 1) % (r + 1) = f at *
        generalize (i + 1) % (r + 1) = g at *
        unfold cycVal
        split at e <;> split <;> split <;> [split; skip; split; skip; split; skip; split; skip] <;> omega
    · ext y
      rw [mem_cycJ, mem_cycJ]
      constructor
      · rintro ⟨h1, -, h | ⟨h2, h3, h4⟩⟩
        · exact ⟨h1, hi0, .inl h⟩
        · refine ⟨h1, hi0, .inr ⟨h2, ?_, h4⟩⟩
          by_contra h
          obtain rfl : y = i := by omega
          exact hj ⟨h4, h2⟩
      · rintro ⟨h1, -, h | ⟨h2, h3, h4⟩⟩
        · exact ⟨h1, by omega, .inl h⟩
        · exact ⟨h1, by omega, .inr ⟨h2, by omega, h4⟩⟩
    · rw [Finset.mem_range] at hx
      by_cases h0 : x = 0
      · subst h0; rw [hz _ (by omega), hz _ hi0]
      by_cases h1 : x = n - 1
      · subst h1; rw [hl _ (by omega), hl _ hi0]
      by_cases h2 : i < x
      · rw [hq _ x (by omega) (by omega) (by omega), hq _ x hi0 (by omega) (by omega)]
      · rw [hp _ x (by omega) (by omega) (by omega), hp _ x (by omega) (by omega) (by omega)]
        have hne := hfx x
        generalize (x + 1) % (r + 1) = f at *
        unfold cycVal
        split
        · split <;> split <;> omega
        · rfl

/-- **C137 (cycle).** For a positive radius `r` the last vertex and the vertices `r, 2r + 1, 3r + 2, …` up to `n - r - 2` are
returned, so every `r + 1`-st vertex although every `2r + 1`-st would suffice.  The distances are those to the nearer of the two
members next to a vertex. -/
theorem C137_cycle (n r : ℕ) (h3 : 3 ≤ n) (hn : n ≤ 2 ^ 31) (hr0 : 0 < r) (hr : r < 2 ^ 15) :
    NaturalDomset (cycle n) n r (fun v => v = n - 1 ∨ (v + r + 2 ≤ n ∧ (v + 1) % (r + 1) = 0))
      (fun v => if v = n - 1 then 0 else if v = 0 then 1 else
        if v + 1 = (v + 1) % (r + 1) ∨ v + r + 2 ≤ n + (v + 1) % (r + 1) then
          (if v + (r + 1) - (v + 1) % (r + 1) + r + 2 ≤ n then min ((v + 1) % (r + 1)) (r + 1 - (v + 1) % (r + 1))
            else min ((v + 1) % (r + 1)) (n - 1 - v))
        else n - 1 - v) := by
  have hR : ∀ u v : ℕ, (u < n ∧ v < n ∧ (v = (u + 1) % n ∨ u = (v + 1) % n)) ↔
      (u < n ∧ v < n ∧ (v = u + 1 ∨ u = v + 1 ∨ (u = 0 ∧ v + 1 = n) ∨ (v = 0 ∧ u + 1 = n))) := by
    have key : ∀ u v : ℕ, u < n → v < n → (v = (u + 1) % n ↔ v = u + 1 ∨ (v = 0 ∧ u + 1 = n)) := by
      intro u v hu hv
      rcases Nat.lt_or_ge (u + 1) n with h | h
      · rw [Nat.mod_eq_of_lt h]; omega
      · have e : u + 1 = n := by omega
        rw [e, Nat.mod_self]; omega
    intro u v
    refine and_congr_right fun hu => and_congr_right fun hv => ?_
    rw [key u v hu hv, key v u hv hu]
    omega
  have hstep : ∀ j x, n - 1 ≤ j → x < n → cycMu n r j x = cycMu n r (n - 1) x := by
    intro j x hj hx
    unfold cycMu
    rw [if_neg (by omega), if_neg (show ¬ n - 1 = 0 by omega)]
    by_cases h1 : x = n - 1
    · rw [if_pos h1, if_pos h1]
    rw [if_neg h1, if_neg h1]
    by_cases h0 : x = 0
    · rw [if_pos h0, if_pos h0]
    rw [if_neg h0, if_neg h0, if_pos (by omega), if_pos (by omega)]
    generalize (x + 1) % (r + 1) = f at *
    unfold cycVal
    split
    · split <;> split <;> omega
    · rfl
  have hJ : ∀ j, n - 1 ≤ j → cycJ n r j = cycJ n r (n - 1) := by
    intro j hj
    ext x
    rw [mem_cycJ, mem_cycJ]
    constructor
    · rintro ⟨h1, -, h | ⟨h2, h4, h5⟩⟩
      · exact ⟨h1, by omega, .inl h⟩
      · exact ⟨h1, by omega, .inr ⟨h2, by omega, h5⟩⟩
    · rintro ⟨h1, -, h | ⟨h2, h4, h5⟩⟩
      · exact ⟨h1, by omega, .inl h⟩
      · exact ⟨h1, by omega, .inr ⟨h2, by omega, h5⟩⟩
  refine ((C11_cycle n).congr (fun _ => Iff.rfl) hR).domset (fun u h => by omega) (by omega) hn hr (CycleReach n r)
    (fun v u d h => ⟨h.2.1, h.1⟩) (fun S hV hA v u huv hv d => cycle_reach hA huv hv d)
    (fun v => if v + 1 = n then {0, n - 2} else Finset.Ico (v - 1) v)
    (fun v => if v = 0 then {1, n - 1} else if v + 1 = n then {0, n - 2} else {v - 1, v + 1})
    (fun v hv u => ?_) (fun v hv u => ?_) (fun i => if i = 0 then n - 1 else if i + 1 < n then i else 0)
    (fun x => ⟨fun h => ?_, fun ⟨i, h1, h2⟩ => ?_⟩) (fun i j hij hj => ?_) (cycJ n r) (cycMu n r) ?_ (fun x hx => rfl)
    (fun i hi => ?_) (fun x => ?_) (fun x hx => ?_)
  · split
    · rw [Finset.mem_insert, Finset.mem_singleton]; omega
    · rw [Finset.mem_Ico]; omega
  · split
    · rw [Finset.mem_insert, Finset.mem_singleton]; omega
    · split <;> rw [Finset.mem_insert, Finset.mem_singleton] <;> omega
  · by_cases h0 : x = 0
    · exact ⟨n - 1, by omega, by rw [if_neg (by omega), if_neg (by omega), h0]⟩
    · by_cases h1 : x + 1 = n
      · exact ⟨0, by omega, by rw [if_pos rfl]; omega⟩
      · exact ⟨x, h, by rw [if_neg h0, if_pos (by omega)]⟩
  · split at h2
    · omega
    · split at h2 <;> omega
  · have hj0 : j ≠ 0 := by omega
    rw [if_neg hj0]
    have hcj : ∀ v, v + 1 < n → (if v + 1 = n then ({0, n - 2} : Finset ℕ) else Finset.Ico (v - 1) v).card = min v 1 := by
      intro v hv
      rw [if_neg (by omega), Nat.card_Ico]
      omega
    by_cases hi0 : i = 0
    · left
      rw [if_pos hi0, if_pos (show n - 1 + 1 = n by omega), Finset.card_pair (by omega)]
      split
      · rename_i h; rw [hcj j h]; omega
      · rw [hcj 0 (by omega)]; omega
    · rw [if_neg hi0, if_pos (show i + 1 < n by omega), hcj i (by omega)]
      by_cases h : j + 1 < n
      · rw [if_pos h, hcj j h]
        right
        refine ⟨by omega, .inr ⟨?_, hij⟩⟩
        rw [if_neg hj0, if_neg (by omega), if_neg hi0, if_neg (by omega), Finset.card_pair (by omega),
          Finset.card_pair (by omega)]
      · rw [if_neg h, hcj 0 (by omega)]
        left; omega
  · ext x
    rw [mem_cycJ]
    simp
  · by_cases h0 : i = 0
    · subst h0
      exact cycle_first h3 hr0
    · rw [if_neg h0]
      by_cases h : i + 1 < n
      · rw [if_pos h]
        exact cycle_step hr0 (by omega) h
      · rw [if_neg h]
        have e : ∀ j, 0 < j → cycMu n r j 0 = 1 := by
          intro j hj
          unfold cycMu
          rw [if_neg (by omega), if_neg (by omega), if_pos rfl]
        refine DomStep.skip 1 hr0 (.inl (e i (by omega)).symm) (e i (by omega)).ge (fun u d h => by have := h.2.1; omega)
          ((hJ _ (by omega)).trans (hJ _ (by omega)).symm) (e _ (by omega)) (fun x hx _ => ?_)
        rw [Finset.mem_range] at hx
        rw [hstep _ x (by omega) hx, hstep i x (by omega) hx]
  · rw [cycle_generated hr0, mem_cycJ]
    constructor
    · rintro ⟨h1, -, h | ⟨h2, h4, h5⟩⟩
      · exact .inl h
      · exact .inr ⟨h2, h5⟩
    · rintro (h | ⟨h2, h5⟩)
      · exact ⟨by omega, by omega, .inl h⟩
      · exact ⟨by omega, by omega, .inr ⟨h2, by omega, h5⟩⟩
  · unfold cycMu
    rw [if_neg (by omega)]
    by_cases h1 : x = n - 1
    · rw [if_pos h1, if_pos h1]
    rw [if_neg h1, if_neg h1]
    by_cases h0 : x = 0
    · rw [if_pos h0, if_pos h0]
    rw [if_neg h0, if_neg h0, if_pos hx]
    generalize (x + 1) % (r + 1) = f at *
    unfold cycVal
    split
    · split <;> split <;> omega
    · rfl

/-- `C137_cycle` for a small size. -/
example := C137_cycle 13 2 (by decide) (by decide) (by decide) (by decide)

end Verif
