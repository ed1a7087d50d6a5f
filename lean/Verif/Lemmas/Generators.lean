import Verif.Lemmas.Is
/-! # Generators -/
namespace Verif.EditGraph

theorem is_path (n : ℕ) : Ok (path n) (fun g => Is g (fun u => u < n)
    (fun a b => a < n ∧ b < n ∧ (b = a + 1 ∨ a = b + 1))) := by
  unfold path
  by_cases h0 : n = 0
  · subst h0; exact Ok.pure (Is.new.congr (by simp) (by simp))
  · by_cases h1 : n = 1
    · subst h1
      refine Ok.pure ((Is.new.addVertex 0).congr (fun u => by simp) (fun a b => ?_))
      simp only [false_iff]; omega
    · simp only [beq_iff_eq, h0, h1, if_false]
      have := (Is.new.foldAdd (List.range (n - 1)) (fun u => u) (fun u => u + 1))
      have h2 : new.addAll ((List.range (n - 1)).map (fun u => (u, u + 1))) = _ := List.foldlM_map
      rw [h2]
      refine Ok.mono this fun g hg => hg.congr ?_ ?_
      · intro u
        simp only [List.mem_range, false_or]
        constructor
        · rintro ⟨x, hx, h⟩; omega
        · intro hu
          by_cases h3 : u = 0
          · exact ⟨0, by omega, Or.inl h3⟩
          · exact ⟨u - 1, by omega, Or.inr (by omega)⟩
      · intro a b
        simp only [List.mem_range, false_or]
        constructor
        · rintro ⟨x, hx, h⟩; omega
        · rintro ⟨h1, h2, h | h⟩
          · exact ⟨a, by omega, Or.inl ⟨rfl, h⟩⟩
          · exact ⟨b, by omega, Or.inr ⟨h, rfl⟩⟩

theorem is_cycle (n : ℕ) : Ok (cycle n) (fun g => Is g (fun u => u < n)
    (fun a b => a < n ∧ b < n ∧ (b = (a + 1) % n ∨ a = (b + 1) % n))) := by
  unfold cycle
  have := (Is.new.foldAdd (List.range n) (fun u => u) (fun u => (u + 1) % n))
  have h2 : new.addAll ((List.range n).map (fun u => (u, (u + 1) % n))) = _ := List.foldlM_map
  rw [h2]
  refine Ok.mono this fun g hg => hg.congr ?_ ?_
  · intro u
    simp only [List.mem_range, false_or]
    constructor
    · rintro ⟨x, hx, h | h⟩
      · omega
      · rw [h]; exact Nat.mod_lt _ (by omega)
    · intro hu; exact ⟨u, hu, Or.inl rfl⟩
  · intro a b
    simp only [List.mem_range, false_or]
    constructor
    · rintro ⟨x, hx, ⟨rfl, h⟩ | ⟨h, rfl⟩⟩
      · exact ⟨hx, by rw [h]; exact Nat.mod_lt _ (by omega), Or.inl h⟩
      · exact ⟨by rw [h]; exact Nat.mod_lt _ (by omega), hx, Or.inr h⟩
    · rintro ⟨h1, h2, h | h⟩
      · exact ⟨a, h1, Or.inl ⟨rfl, h⟩⟩
      · exact ⟨b, h2, Or.inr ⟨h, rfl⟩⟩

theorem is_matching (n : ℕ) (hn : 2 * n ≤ 2 ^ 32) : Ok (matching n) (fun g => Is g (fun u => u < 2 * n)
    (fun a b => a < 2 * n ∧ b < 2 * n ∧ (b = a + n ∨ a = b + n))) := by
  unfold matching
  have key := Is.new.fold (l := List.range n) (f := fun (g : EditGraph) u => do
    let v ← add32 u n
    return (← g.addEdge u v).1) (fun u w => w = u ∨ w = u + n)
    (fun u a b => (a = u ∧ b = u + n) ∨ (a = u + n ∧ b = u)) ?_
  · refine Ok.mono key fun g hg => hg.congr ?_ ?_
    · intro u
      simp only [List.mem_range, false_or]
      constructor
      · rintro ⟨x, hx, h⟩; omega
      · intro hu
        by_cases h3 : u < n
        · exact ⟨u, h3, Or.inl rfl⟩
        · exact ⟨u - n, by omega, Or.inr (by omega)⟩
    · intro a b
      simp only [List.mem_range, false_or]
      constructor
      · rintro ⟨x, hx, h⟩; omega
      · rintro ⟨h1, h2, h | h⟩
        · exact ⟨a, by omega, Or.inl ⟨rfl, h⟩⟩
        · exact ⟨b, by omega, Or.inr ⟨h, rfl⟩⟩
  · intro x hx g P R hg
    rw [List.mem_range] at hx
    simp only [add32_ok (show x + n < 2 ^ 32 by omega), bind_ok]
    exact hg.addEdge' x (x + n)

theorem is_clique (n : ℕ) : Ok (clique n) (fun g => Is g (fun u => u < n)
    (fun a b => a < n ∧ b < n ∧ a ≠ b)) := by
  unfold clique
  refine Ok.mono (Is.new.fold (fun u w => w = u ∨ (u < w ∧ w < n))
    (fun u a b => (a = u ∧ u < b ∧ b < n) ∨ (b = u ∧ u < a ∧ a < n)) ?_) fun g hg => hg.congr ?_ ?_
  · intro x hx g P R hg
    rw [List.mem_range] at hx
    refine Ok.mono ((hg.addVertex x).foldAdd _ (fun _ => x) (fun v => v)) fun g' hg' => hg'.congr ?_ ?_
    · intro w
      simp only [List.mem_range'_1]
      constructor
      · rintro ((h | h) | ⟨y, hy, (h | h)⟩)
        · exact Or.inl h
        · exact Or.inr (Or.inl h)
        · exact Or.inr (Or.inl h)
        · exact Or.inr (Or.inr (by omega))
      · rintro (h | h | h)
        · exact Or.inl (Or.inl h)
        · exact Or.inl (Or.inr h)
        · exact Or.inr ⟨w, by omega, Or.inr rfl⟩
    · intro a b
      simp only [List.mem_range'_1]
      constructor
      · rintro (h | ⟨y, hy, h⟩)
        · exact Or.inl h
        · right; omega
      · rintro (h | h | h)
        · exact Or.inl h
        · exact Or.inr ⟨b, by omega, Or.inl ⟨h.1, rfl⟩⟩
        · exact Or.inr ⟨a, by omega, Or.inr ⟨rfl, h.1⟩⟩
  · intro u
    simp only [List.mem_range, false_or]
    constructor
    · rintro ⟨x, hx, h⟩; omega
    · intro hu; exact ⟨u, hu, Or.inl rfl⟩
  · intro a b
    simp only [List.mem_range, false_or]
    constructor
    · rintro ⟨x, hx, h⟩; omega
    · rintro ⟨h1, h2, h⟩
      rcases Nat.lt_or_gt_of_ne h with h | h
      · exact ⟨a, h1, Or.inl ⟨rfl, h, h2⟩⟩
      · exact ⟨b, h2, Or.inr ⟨rfl, h, h1⟩⟩

theorem is_independent (n : ℕ) : Is (independent n) (fun u => u < n) (fun _ _ => False) := by
  unfold independent
  have := foldl_inv (l := List.range n) (b := new) (f := fun (g : EditGraph) u => (g.addVertex u).1)
    (fun pre g => Is g (fun u => u ∈ pre) (fun _ _ => False)) (Is.new.congr (by simp) (by simp))
    (fun pre a post b _ hb => (hb.addVertex a).congr (by simp) (by simp))
  exact this.congr (by simp) (by simp)

theorem Is.addBlock {h : EditGraph} {P : ℕ → Prop} {R : ℕ → ℕ → Prop} (H : Is h P R) (a b c d : ℕ) :
    Ok (h.addBlock a b c d) (fun g => Is g
      (fun w => P w ∨ (((a ≤ w ∧ w < b) ∧ c < d) ∨ ((c ≤ w ∧ w < d) ∧ a < b)))
      (fun x y => R x y ∨ ((a ≤ x ∧ x < b) ∧ (c ≤ y ∧ y < d)) ∨ ((a ≤ y ∧ y < b) ∧ (c ≤ x ∧ x < d)))) := by
  unfold EditGraph.addBlock
  refine Ok.mono (H.fold (fun u w => c < d ∧ w = u ∨ (c ≤ w ∧ w < d))
    (fun u x y => (x = u ∧ c ≤ y ∧ y < d) ∨ (y = u ∧ c ≤ x ∧ x < d)) ?_) fun g hg => hg.congr ?_ ?_
  · intro u hu g P R hg
    refine Ok.mono (hg.foldAdd _ (fun _ => u) (fun v => v)) fun g' hg' => hg'.congr ?_ ?_
    · intro w
      simp only [List.mem_range'_1]
      constructor
      · rintro (h | ⟨y, hy, (h | h)⟩)
        · exact Or.inl h
        · exact Or.inr (Or.inl (by omega))
        · exact Or.inr (Or.inr (by omega))
      · rintro (h | h | h)
        · exact Or.inl h
        · exact Or.inr ⟨c, by omega, Or.inl h.2⟩
        · exact Or.inr ⟨w, by omega, Or.inr rfl⟩
    · intro x y
      simp only [List.mem_range'_1]
      constructor
      · rintro (h | ⟨z, hz, h⟩)
        · exact Or.inl h
        · right; omega
      · rintro (h | h | h)
        · exact Or.inl h
        · exact Or.inr ⟨y, by omega, Or.inl ⟨h.1, rfl⟩⟩
        · exact Or.inr ⟨x, by omega, Or.inr ⟨rfl, h.1⟩⟩
  · intro w
    simp only [List.mem_range'_1]
    constructor
    · rintro (h | ⟨u, hu, h⟩)
      · exact Or.inl h
      · right; omega
    · rintro (h | h | h)
      · exact Or.inl h
      · exact Or.inr ⟨w, by omega, Or.inl ⟨h.2, rfl⟩⟩
      · exact Or.inr ⟨a, by omega, Or.inr h.1⟩
  · intro x y
    simp only [List.mem_range'_1]
    constructor
    · rintro (h | ⟨u, hu, h⟩)
      · exact Or.inl h
      · right; omega
    · rintro (h | h | h)
      · exact Or.inl h
      · exact Or.inr ⟨x, by omega, Or.inl ⟨rfl, by omega⟩⟩
      · exact Or.inr ⟨y, by omega, Or.inr ⟨rfl, by omega⟩⟩

theorem is_biclique (s t : ℕ) (hst : s + t < 2 ^ 32) : Ok (biclique s t) (fun g => Is g
    (fun u => u < s + t ∧ 0 < s ∧ 0 < t)
    (fun a b => a < s + t ∧ b < s + t ∧ ¬ (a < s ↔ b < s))) := by
  unfold biclique
  simp only [add32_ok hst, bind_ok]
  refine Ok.mono (Is.new.addBlock 0 s s (s + t)) fun g hg => hg.congr ?_ ?_
  · intro u; simp only [false_or]; omega
  · intro a b; simp only [false_or]; omega

/-! ### complete k-partite graphs -/

/-- Consecutive ranges `[left, left+size)`. -/
def rangesFrom : ℕ → List ℕ → List (ℕ × ℕ)
  | _, [] => []
  | left, a :: l => (left, left + a) :: rangesFrom (left + a) l

theorem kpartiteRanges_ok (sizes : List ℕ) (h : sizes.sum < 2 ^ 32) :
    kpartiteRanges sizes = .ok (rangesFrom 0 sizes, sizes.sum) := by
  unfold kpartiteRanges
  have key : ∀ (l : List ℕ) (acc : List (ℕ × ℕ)) (left : ℕ), left + l.sum < 2 ^ 32 →
      l.foldlM (fun (s : List (Nat × Nat) × Nat) size => do
        let right ← add32 s.2 size
        return (s.1 ++ [(s.2, right)], right)) (acc, left)
      = (.ok (acc ++ rangesFrom left l, left + l.sum) : Res (List (ℕ × ℕ) × ℕ)) := by
    intro l
    induction l with
    | nil => intro acc left _; simp [rangesFrom]
    | cons a l ih =>
      intro acc left hl
      simp only [List.sum_cons] at hl
      rw [List.foldlM_cons]
      simp only [add32_ok (show left + a < 2 ^ 32 by omega), bind_ok]
      refine (ih _ _ (by omega)).trans ?_
      simp [rangesFrom, Nat.add_assoc]
  simpa using key sizes [] 0 (by simpa using h)

/-- `u` lies in one of the ranges. -/
def inRange (r : ℕ × ℕ) (u : ℕ) : Prop := r.1 ≤ u ∧ u < r.2

theorem is_kpartiteBlocks : ∀ (l : List (ℕ × ℕ)) {h : EditGraph} {P : ℕ → Prop} {R : ℕ → ℕ → Prop},
    Is h P R → Ok (kpartiteBlocks l h) (fun g => Is g
      (fun w => P w ∨ ∃ pre a mid b post, l = pre ++ a :: mid ++ b :: post ∧
        ((inRange a w ∧ b.1 < b.2) ∨ (inRange b w ∧ a.1 < a.2)))
      (fun x y => R x y ∨ ∃ pre a mid b post, l = pre ++ a :: mid ++ b :: post ∧
        ((inRange a x ∧ inRange b y) ∨ (inRange a y ∧ inRange b x)))) := by
  intro l
  induction l with
  | nil => intro h P R H; exact Ok.pure (H.congr (by simp) (by simp))
  | cons r rest ih =>
    intro h P R H
    unfold kpartiteBlocks
    refine Ok.bind (H.fold (fun b w => (inRange r w ∧ b.1 < b.2) ∨ (inRange b w ∧ r.1 < r.2))
      (fun b x y => (inRange r x ∧ inRange b y) ∨ (inRange r y ∧ inRange b x)) ?_) ?_
    · intro b _ g P R hg
      exact hg.addBlock r.1 r.2 b.1 b.2
    · intro g hg
      refine Ok.mono (ih hg) fun g' hg' => hg'.congr ?_ ?_
      · intro w
        constructor
        · rintro ((h | ⟨b, hb, h⟩) | ⟨pre, a, mid, b, post, rfl, h⟩)
          · exact Or.inl h
          · obtain ⟨mid, post, rfl⟩ := List.append_of_mem hb
            exact Or.inr ⟨[], r, mid, b, post, rfl, h⟩
          · exact Or.inr ⟨r :: pre, a, mid, b, post, rfl, h⟩
        · rintro (h | ⟨pre, a, mid, b, post, he, h⟩)
          · exact Or.inl (Or.inl h)
          · cases pre with
            | nil =>
              simp only [List.nil_append, List.cons_append, List.cons.injEq] at he
              obtain ⟨rfl, rfl⟩ := he
              exact Or.inl (Or.inr ⟨b, by simp, h⟩)
            | cons p pre =>
              simp only [List.cons_append, List.cons.injEq] at he
              obtain ⟨rfl, rfl⟩ := he
              exact Or.inr ⟨pre, a, mid, b, post, by simp, h⟩
      · intro x y
        constructor
        · rintro ((h | ⟨b, hb, h⟩) | ⟨pre, a, mid, b, post, rfl, h⟩)
          · exact Or.inl h
          · obtain ⟨mid, post, rfl⟩ := List.append_of_mem hb
            exact Or.inr ⟨[], r, mid, b, post, rfl, h⟩
          · exact Or.inr ⟨r :: pre, a, mid, b, post, rfl, h⟩
        · rintro (h | ⟨pre, a, mid, b, post, he, h⟩)
          · exact Or.inl (Or.inl h)
          · cases pre with
            | nil =>
              simp only [List.nil_append, List.cons_append, List.cons.injEq] at he
              obtain ⟨rfl, rfl⟩ := he
              exact Or.inl (Or.inr ⟨b, by simp, h⟩)
            | cons p pre =>
              simp only [List.cons_append, List.cons.injEq] at he
              obtain ⟨rfl, rfl⟩ := he
              exact Or.inr ⟨pre, a, mid, b, post, by simp, h⟩

/-- Pairs of distinct ranges correspond to pairs of vertices in different parts. -/
theorem ranges_iff (sizes : List ℕ) : ∀ (left x y : ℕ),
    (∃ pre a mid b post, rangesFrom left sizes = pre ++ a :: mid ++ b :: post ∧
      (inRange a x ∧ inRange b y)) ↔
    (left ≤ x ∧ x < left + sizes.sum ∧ left ≤ y ∧ y < left + sizes.sum ∧
      partOf sizes (x - left) < partOf sizes (y - left)) := by
  have hin : ∀ (sizes : List ℕ) (left y : ℕ), (∃ b ∈ rangesFrom left sizes, inRange b y) ↔
      left ≤ y ∧ y < left + sizes.sum := by
    intro sizes
    induction sizes with
    | nil => intro left y; simp [rangesFrom]
    | cons s sizes ih =>
      intro left y
      rw [rangesFrom, List.sum_cons]
      simp only [List.mem_cons, exists_eq_or_imp]
      rw [ih]
      simp only [inRange]
      omega
  induction sizes with
  | nil =>
    intro left x y
    simp [rangesFrom]
    omega
  | cons s sizes ih =>
    intro left x y
    simp only [rangesFrom, List.sum_cons]
    have e : ∀ z, left + s ≤ z → z - left - s = z - (left + s) := fun z hz => by omega
    constructor
    · rintro ⟨pre, a, mid, b, post, he, h1, h2⟩
      cases pre with
      | nil =>
        simp only [List.nil_append, List.cons_append, List.cons.injEq] at he
        obtain ⟨rfl, he⟩ := he
        have := (hin sizes (left + s) y).1 ⟨b, by rw [he]; simp, h2⟩
        simp only [inRange] at h1
        refine ⟨by omega, by omega, by omega, by omega, ?_⟩
        unfold partOf
        rw [if_pos (by omega), if_neg (by omega)]; omega
      | cons p pre =>
        simp only [List.cons_append, List.cons.injEq] at he
        have := (ih (left + s) x y).1 ⟨pre, a, mid, b, post, by simpa using he.2, h1, h2⟩
        refine ⟨by omega, by omega, by omega, by omega, ?_⟩
        unfold partOf
        rw [if_neg (by omega), if_neg (by omega), e x (by omega), e y (by omega)]; omega
    · rintro ⟨h1, h2, h3, h4, h5⟩
      unfold partOf at h5
      by_cases hx : x - left < s
      · rw [if_pos hx] at h5
        by_cases hy : y - left < s
        · rw [if_pos hy] at h5; omega
        · obtain ⟨b, hb, hby⟩ := (hin sizes (left + s) y).2 ⟨by omega, by omega⟩
          obtain ⟨mid, post, he⟩ := List.append_of_mem hb
          exact ⟨[], (left, left + s), mid, b, post, by rw [he]; rfl,
            ⟨h1, by show x < left + s; omega⟩, hby⟩
      · rw [if_neg hx] at h5
        by_cases hy : y - left < s
        · rw [if_pos hy] at h5; omega
        · rw [if_neg hy, e x (by omega), e y (by omega)] at h5
          obtain ⟨pre, a, mid, b, post, he, h⟩ := (ih (left + s) x y).2
            ⟨by omega, by omega, by omega, by omega, by omega⟩
          exact ⟨(left, left + s) :: pre, a, mid, b, post, by rw [he]; rfl, h⟩

theorem is_completeKpartite (sizes : List ℕ) (hlen : sizes.length ≠ 1) (h : sizes.sum < 2 ^ 32) :
    Ok (completeKpartite sizes) (fun g => Is g
      (fun u => u < sizes.sum ∧ ∃ v < sizes.sum, partOf sizes u ≠ partOf sizes v)
      (fun a b => a < sizes.sum ∧ b < sizes.sum ∧ partOf sizes a ≠ partOf sizes b)) := by
  have main : Ok (do
      let (ranges, _) ← kpartiteRanges sizes
      kpartiteBlocks ranges new : Res EditGraph) (fun g => Is g
      (fun u => u < sizes.sum ∧ ∃ v < sizes.sum, partOf sizes u ≠ partOf sizes v)
      (fun a b => a < sizes.sum ∧ b < sizes.sum ∧ partOf sizes a ≠ partOf sizes b)) := by
    rw [kpartiteRanges_ok sizes h]
    simp only [bind_ok]
    have hr := ranges_iff sizes 0
    simp only [Nat.zero_le, Nat.zero_add, true_and, Nat.sub_zero] at hr
    refine Ok.mono (is_kpartiteBlocks _ Is.new) fun g hg => hg.congr ?_ ?_
    · intro u
      simp only [false_or]
      constructor
      · rintro ⟨pre, a, mid, b, post, he, ⟨h1, h2⟩ | ⟨h1, h2⟩⟩
        · have := (hr u b.1).1 ⟨pre, a, mid, b, post, he, h1, le_refl _, h2⟩
          exact ⟨this.1, b.1, this.2.1, by omega⟩
        · have := (hr a.1 u).1 ⟨pre, a, mid, b, post, he, ⟨le_refl _, h2⟩, h1⟩
          exact ⟨this.2.1, a.1, this.1, by omega⟩
      · rintro ⟨h1, v, h2, h3⟩
        rcases Nat.lt_or_gt_of_ne h3 with h3 | h3
        · obtain ⟨pre, a, mid, b, post, he, h4, h5⟩ := (hr u v).2 ⟨h1, h2, h3⟩
          exact ⟨pre, a, mid, b, post, he, Or.inl ⟨h4, lt_of_le_of_lt h5.1 h5.2⟩⟩
        · obtain ⟨pre, a, mid, b, post, he, h4, h5⟩ := (hr v u).2 ⟨h2, h1, h3⟩
          exact ⟨pre, a, mid, b, post, he, Or.inr ⟨h5, lt_of_le_of_lt h4.1 h4.2⟩⟩
    · intro x y
      simp only [false_or]
      constructor
      · rintro ⟨pre, a, mid, b, post, he, h1 | h1⟩
        · have := (hr x y).1 ⟨pre, a, mid, b, post, he, h1⟩
          exact ⟨this.1, this.2.1, by omega⟩
        · have := (hr y x).1 ⟨pre, a, mid, b, post, he, h1⟩
          exact ⟨this.2.1, this.1, by omega⟩
      · rintro ⟨h1, h2, h3⟩
        rcases Nat.lt_or_gt_of_ne h3 with h3 | h3
        · obtain ⟨pre, a, mid, b, post, he, h4⟩ := (hr x y).2 ⟨h1, h2, h3⟩
          exact ⟨pre, a, mid, b, post, he, Or.inl h4⟩
        · obtain ⟨pre, a, mid, b, post, he, h4⟩ := (hr y x).2 ⟨h2, h1, h3⟩
          exact ⟨pre, a, mid, b, post, he, Or.inr h4⟩
  match sizes, hlen, main with
  | [], _, _ => exact Ok.pure (Is.new.congr (by simp) (by simp))
  | [_], hlen, _ => exact absurd rfl hlen
  | _ :: _ :: _, _, main => exact main

/-! ### Grids -/

theorem is_grid (s t : ℕ) (h : s * t < 2 ^ 32) : Ok (grid s t) (fun g => Is g
    (fun u => u < s * t ∧ s * t ≠ 1)
    (fun a b => a < s * t ∧ b < s * t ∧
      ((a / t = b / t ∧ (b = a + 1 ∨ a = b + 1)) ∨ b = a + t ∨ a = b + t))) := by
  unfold grid
  simp only [mul32_ok h, bind_ok]
  by_cases h0 : s = 0 ∨ t = 0
  · have : (s == 0 || t == 0) = true := by simpa using h0
    simp only [this, if_true]
    have hst : s * t = 0 := by rcases h0 with rfl | rfl <;> simp
    refine Ok.pure (Is.new.congr (fun u => ?_) (fun a b => ?_))
    · simp only [false_iff]; omega
    · simp only [false_iff]; omega
  · have hb : (s == 0 || t == 0) = false := by simpa using h0
    have hs : 0 < s := by omega
    have ht : 0 < t := by omega
    simp only [hb, Bool.false_eq_true, if_false]
    have hlt : ∀ y x, y < s → x < t → y * t + x < s * t := by
      intro y x hy hx
      have : (y + 1) * t ≤ s * t := Nat.mul_le_mul_right t hy
      rw [Nat.add_mul] at this
      omega
    have hdiv : ∀ y x, x < t → (y * t + x) / t = y := by
      intro y x hx
      rw [Nat.add_comm, Nat.add_mul_div_right _ _ ht, Nat.div_eq_of_lt hx, Nat.zero_add]
    have hdecomp : ∀ u, u < s * t → ∃ y x, y < s ∧ x < t ∧ u = y * t + x := by
      intro u hu
      exact ⟨u / t, u % t, (Nat.div_lt_iff_lt_mul ht).2 hu, Nat.mod_lt _ ht, (Nat.div_add_mod' u t).symm⟩
    refine Ok.bind (Is.new.fold (l := List.range (s - 1))
      (fun y w => ∃ x < t, w = y * t + x ∨ w = (y + 1) * t + x)
      (fun y a b => (∃ x, x + 1 < t ∧ ((a = y * t + x ∧ b = y * t + x + 1) ∨ (b = y * t + x ∧ a = y * t + x + 1)))
        ∨ (∃ x < t, (a = y * t + x ∧ b = y * t + x + t) ∨ (b = y * t + x ∧ a = y * t + x + t))) ?_) ?_
    · intro y hy g P R hg
      refine Ok.bind (hg.fold (l := List.range (t - 1))
        (fun x w => w = y * t + x ∨ w = y * t + x + 1 ∨ w = y * t + x + t)
        (fun x a b => ((a = y * t + x ∧ b = y * t + x + 1) ∨ (b = y * t + x ∧ a = y * t + x + 1))
          ∨ ((a = y * t + x ∧ b = y * t + x + t) ∨ (b = y * t + x ∧ a = y * t + x + t))) ?_) ?_
      · intro x hx g P R hg
        refine Ok.bind (hg.addEdge _ _) fun r hr => ?_
        refine Ok.mono (hr.addEdge' _ _) fun g' hg' => hg'.congr ?_ ?_
        · intro w; tauto
        · intro a b; tauto
      · intro g' hg'
        refine Ok.mono (hg'.addEdge' _ _) fun g'' hg'' => hg''.congr ?_ ?_
        · intro w
          simp only [List.mem_range]
          have hy1 : (y + 1) * t = y * t + t := by rw [Nat.add_mul, Nat.one_mul]
          rw [hy1]
          constructor
          · rintro ((h | ⟨x, hx, h | h | h⟩) | h | h)
            · exact Or.inl h
            · exact Or.inr ⟨x, by omega, Or.inl h⟩
            · exact Or.inr ⟨x + 1, by omega, Or.inl (by omega)⟩
            · exact Or.inr ⟨x, by omega, Or.inr (by omega)⟩
            · exact Or.inr ⟨t - 1, by omega, Or.inl (by omega)⟩
            · exact Or.inr ⟨t - 1, by omega, Or.inr (by omega)⟩
          · rintro (h | ⟨x, hx, h | h⟩)
            · exact Or.inl (Or.inl h)
            · by_cases hx1 : x = t - 1
              · exact Or.inr (Or.inl (by omega))
              · exact Or.inl (Or.inr ⟨x, by omega, Or.inl h⟩)
            · by_cases hx1 : x = t - 1
              · exact Or.inr (Or.inr (by omega))
              · exact Or.inl (Or.inr ⟨x, by omega, Or.inr (Or.inr (by omega))⟩)
        · intro a b
          simp only [List.mem_range]
          constructor
          · rintro ((h | ⟨x, hx, h | h⟩) | h)
            · exact Or.inl h
            · exact Or.inr (Or.inl ⟨x, by omega, h⟩)
            · exact Or.inr (Or.inr ⟨x, by omega, h⟩)
            · exact Or.inr (Or.inr ⟨t - 1, by omega, by omega⟩)
          · rintro (h | ⟨x, hx, h⟩ | ⟨x, hx, h⟩)
            · exact Or.inl (Or.inl h)
            · exact Or.inl (Or.inr ⟨x, by omega, Or.inl h⟩)
            · by_cases hx1 : x = t - 1
              · exact Or.inr (by omega)
              · exact Or.inl (Or.inr ⟨x, by omega, Or.inr h⟩)
    · intro g hg
      refine Ok.mono (hg.foldAdd (List.range (t - 1)) (fun x => (s - 1) * t + x)
        (fun x => (s - 1) * t + x + 1)) fun g' hg' => hg'.congr ?_ ?_
      · intro w
        simp only [List.mem_range, false_or]
        constructor
        · rintro (⟨y, hy, x, hx, h | h⟩ | ⟨x, hx, h⟩)
          · have h1 := hlt y x (by omega) hx
            have h2 := hlt (y + 1) x (by omega) hx
            have h3 : (y + 1) * t = y * t + t := by rw [Nat.add_mul, Nat.one_mul]
            refine ⟨by omega, by omega⟩
          · have h2 := hlt (y + 1) x (by omega) hx
            have h3 : (y + 1) * t = y * t + t := by rw [Nat.add_mul, Nat.one_mul]
            refine ⟨by omega, by omega⟩
          · have h2 := hlt (s - 1) (x + 1) (by omega) (by omega)
            refine ⟨by omega, by omega⟩
        · rintro ⟨h1, h2⟩
          obtain ⟨y, x, hy, hx, rfl⟩ := hdecomp w h1
          by_cases hy1 : y < s - 1
          · exact Or.inl ⟨y, hy1, x, hx, Or.inl rfl⟩
          · have hys : y = s - 1 := by omega
            subst hys
            by_cases hs1 : s = 1
            · subst hs1
              right
              simp only [Nat.sub_self, Nat.zero_mul, Nat.zero_add, Nat.one_mul] at h2 ⊢
              by_cases hx1 : x < t - 1
              · exact ⟨x, hx1, Or.inl rfl⟩
              · exact ⟨x - 1, by omega, Or.inr (by omega)⟩
            · exact Or.inl ⟨s - 2, by omega, x, hx, Or.inr (by rw [show s - 2 + 1 = s - 1 by omega])⟩
      · intro a b
        simp only [List.mem_range, false_or]
        constructor
        · rintro ((⟨y, hy, ⟨x, hx, ⟨rfl, rfl⟩ | ⟨rfl, rfl⟩⟩ | ⟨x, hx, ⟨rfl, rfl⟩ | ⟨rfl, rfl⟩⟩⟩) |
            ⟨x, hx, ⟨rfl, rfl⟩ | ⟨rfl, rfl⟩⟩)
          · have h1 := hlt y (x + 1) (by omega) (by omega)
            have h2 := hdiv y (x + 1) (by omega)
            rw [← Nat.add_assoc] at h2
            exact ⟨by omega, by omega, Or.inl ⟨by rw [hdiv y x (by omega), h2], Or.inl rfl⟩⟩
          · have h1 := hlt y (x + 1) (by omega) (by omega)
            have h2 := hdiv y (x + 1) (by omega)
            rw [← Nat.add_assoc] at h2
            exact ⟨by omega, by omega, Or.inl ⟨by rw [hdiv y x (by omega), h2], Or.inr rfl⟩⟩
          · have h1 := hlt (y + 1) x (by omega) (by omega)
            rw [Nat.add_mul, Nat.one_mul] at h1
            exact ⟨by omega, by omega, Or.inr (Or.inl rfl)⟩
          · have h1 := hlt (y + 1) x (by omega) (by omega)
            rw [Nat.add_mul, Nat.one_mul] at h1
            exact ⟨by omega, by omega, Or.inr (Or.inr rfl)⟩
          · have h1 := hlt (s - 1) (x + 1) (by omega) (by omega)
            have h2 := hdiv (s - 1) (x + 1) (by omega)
            rw [← Nat.add_assoc] at h2
            exact ⟨by omega, by omega, Or.inl ⟨by rw [hdiv _ x (by omega), h2], Or.inl rfl⟩⟩
          · have h1 := hlt (s - 1) (x + 1) (by omega) (by omega)
            have h2 := hdiv (s - 1) (x + 1) (by omega)
            rw [← Nat.add_assoc] at h2
            exact ⟨by omega, by omega, Or.inl ⟨by rw [hdiv _ x (by omega), h2], Or.inr rfl⟩⟩
        · rintro ⟨h1, h2, h3⟩
          -- horizontal edges
          have hor : ∀ a b, a < s * t → b < s * t → a / t = b / t → b = a + 1 →
              (∃ y, y < s - 1 ∧ ∃ x, x + 1 < t ∧ a = y * t + x ∧ b = y * t + x + 1) ∨
              ∃ x, x < t - 1 ∧ a = (s - 1) * t + x ∧ b = (s - 1) * t + x + 1 := by
            intro a b ha hb hd hab
            obtain ⟨y, x, hy, hx, rfl⟩ := hdecomp a ha
            have hx1 : x + 1 < t := by
              by_contra hc
              have : x = t - 1 := by omega
              have hb' : b = (y + 1) * t + 0 := by rw [Nat.add_mul, Nat.one_mul]; omega
              rw [hdiv y x hx, hb', hdiv (y + 1) 0 ht] at hd
              omega
            by_cases hy1 : y < s - 1
            · exact Or.inl ⟨y, hy1, x, hx1, rfl, hab⟩
            · have : y = s - 1 := by omega
              subst this
              exact Or.inr ⟨x, by omega, rfl, hab⟩
          have ver : ∀ a b, a < s * t → b < s * t → b = a + t →
              ∃ y, y < s - 1 ∧ ∃ x, x < t ∧ a = y * t + x ∧ b = y * t + x + t := by
            intro a b ha hb hab
            obtain ⟨y, x, hy, hx, rfl⟩ := hdecomp a ha
            refine ⟨y, ?_, x, hx, rfl, hab⟩
            by_contra hc
            have : s * t ≤ (y + 1) * t := Nat.mul_le_mul_right t (by omega)
            rw [Nat.add_mul, Nat.one_mul] at this
            omega
          rcases h3 with ⟨hd, h3 | h3⟩ | h3 | h3
          · rcases hor a b h1 h2 hd h3 with ⟨y, hy, x, hx, h⟩ | ⟨x, hx, h⟩
            · exact Or.inl ⟨y, hy, Or.inl ⟨x, hx, Or.inl h⟩⟩
            · exact Or.inr ⟨x, hx, Or.inl h⟩
          · rcases hor b a h2 h1 hd.symm h3 with ⟨y, hy, x, hx, h⟩ | ⟨x, hx, h⟩
            · exact Or.inl ⟨y, hy, Or.inl ⟨x, hx, Or.inr h⟩⟩
            · exact Or.inr ⟨x, hx, Or.inr ⟨h.2, h.1⟩⟩
          · obtain ⟨y, hy, x, hx, h⟩ := ver a b h1 h2 h3
            exact Or.inl ⟨y, hy, Or.inr ⟨x, hx, Or.inl h⟩⟩
          · obtain ⟨y, hy, x, hx, h⟩ := ver b a h2 h1 h3
            exact Or.inl ⟨y, hy, Or.inr ⟨x, hx, Or.inr h⟩⟩

end Verif.EditGraph
