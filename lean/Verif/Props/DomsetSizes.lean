import Verif.Props.GenDomsets2
/-!
# C138: dominating sets of the named graphs compared with smallest ones
-/
namespace Verif
open SGraph EditGraph

/-- `D` consists of vertices and has every vertex within distance `r`. -/
def SGraph.DominatesWithin (S : SGraph) (r : ℕ) (D : Finset ℕ) : Prop :=
  D ⊆ S.V ∧ ∀ x ∈ S.V, ∃ y ∈ D, ∃ k ≤ r, Walk S.Adj k y x

/-- The generator call `gen` succeeds, its result represents a graph whose smallest `r`-dominating sets have `m` vertices, it can
be laid out in the order `0..n-1`, and for every memory layout and every iteration order `domset(r)` returns `k` vertices. -/
def DomsetVersus (gen : Res EditGraph) (n r k m : ℕ) : Prop :=
  ∃ g S, gen = .ok g ∧ g.view.Rep S ∧ (∃ D, S.DominatesWithin r D ∧ D.card = m) ∧
    (∀ D, S.DominatesWithin r D → m ≤ D.card) ∧
    ∀ g', EditGraph.Relayout g g' → ∃ o, OrdGraph.withOrdering g'.view (List.range n) = .ok o ∧
      ∀ o', OrdGraph.Relayout o o' → ∀ ω : LinGraph.DomOrder, (∀ g, EditGraph.Relayout g (ω.witness.lay g)) →
        ∃ X μ, o'.lin.domset ω r false = .ok (X, μ, none) ∧ X.len = k

theorem NaturalDomset.versus {gen : Res EditGraph} {n r m : ℕ} {D : ℕ → Prop} {μ : ℕ → ℕ} (h : NaturalDomset gen n r D μ)
    {R : ℕ → ℕ → Prop} (hg : Generates gen (fun u => u < n) R) (F : Finset ℕ) (hF : ∀ x, D x ↔ x ∈ F) (B : Finset ℕ)
    (hB : ∀ x ∈ B, x < n) (hBm : B.card ≤ m) (hBd : ∀ x < n, ∃ y ∈ B, ∃ k ≤ r, Walk R k y x)
    (hlow : ∀ A : Finset ℕ, (∀ x ∈ A, x < n) → (∀ x < n, ∃ y ∈ A, ∃ k ≤ r, Walk R k y x) → m ≤ A.card) :
    DomsetVersus gen n r F.card m := by
  obtain ⟨g, S, h1, A, hV, hA⟩ := hg.abs
  have hR : S.Adj = R := by funext u v; exact propext (hA u v)
  subst hR
  have hBS : S.DominatesWithin r B := ⟨fun x hx => (hV x).2 (hB x hx), fun x hx => hBd x ((hV x).1 hx)⟩
  have hlow' : ∀ D, S.DominatesWithin r D → m ≤ D.card := fun D hD =>
    hlow D (fun x hx => (hV x).1 (hD.1 hx)) (fun x hx => hD.2 x ((hV x).2 hx))
  obtain ⟨g1, e1, h2⟩ := h
  rw [h1] at e1
  cases e1
  refine ⟨g, S, h1, A.rep, ⟨B, hBS, le_antisymm hBm (hlow' B hBS)⟩, hlow', fun g' hg' => ?_⟩
  obtain ⟨o, h3, h4⟩ := h2 g' hg'
  refine ⟨o, h3, fun o' ho' ω hω => ?_⟩
  obtain ⟨X, μ', h5, h6, -⟩ := h4 o' ho' ω hω
  exact ⟨X, μ', h5, HSet.len_of_mem_iff fun a => (h6 a).trans (hF a)⟩

/-- Something is needed to dominate anything. -/
theorem one_le_dominating {n r : ℕ} {R : ℕ → ℕ → Prop} (h0 : 0 < n) (A : Finset ℕ)
    (h : ∀ x < n, ∃ y ∈ A, ∃ k ≤ r, Walk R k y x) : 1 ≤ A.card := by
  obtain ⟨y, hy, -⟩ := h 0 h0
  exact Finset.card_pos.2 ⟨y, hy⟩

/-- Walks along consecutive numbers. -/
theorem walk_up {n : ℕ} {R : ℕ → ℕ → Prop} (hR : ∀ a, a + 1 < n → R a (a + 1)) : ∀ k a, a + k < n → Walk R k a (a + k)
  | 0, a, _ => .nil a
  | k + 1, a, h => by
    have := walk_up hR k (a + 1) (by omega)
    rw [show a + 1 + k = a + (k + 1) by omega] at this
    exact .cons (hR a (by omega)) this

theorem walk_down {n : ℕ} {R : ℕ → ℕ → Prop} (hR : ∀ a, a + 1 < n → R (a + 1) a) : ∀ k a, a + k < n → Walk R k (a + k) a
  | 0, a, _ => .nil a
  | k + 1, a, h => .cons (hR (a + k) (by omega)) (walk_down hR k a (by omega))

/-- Every `2r + 1`-st number, from `r` on and ending with `n - 1` at the latest. -/
def sparse (n r : ℕ) : Finset ℕ := (Finset.range ((n - 1) / (2 * r + 1) + 1)).image fun j => min (r + (2 * r + 1) * j) (n - 1)

theorem sparse_card (n r : ℕ) : (sparse n r).card ≤ (n - 1) / (2 * r + 1) + 1 :=
  Finset.card_image_le.trans (by rw [Finset.card_range])

theorem sparse_lt {n r : ℕ} (h0 : 0 < n) : ∀ x ∈ sparse n r, x < n := by
  intro x hx
  obtain ⟨j, -, rfl⟩ := Finset.mem_image.1 hx
  exact lt_of_le_of_lt (min_le_right _ _) (by omega)

theorem sparse_dominates {n r : ℕ} {R : ℕ → ℕ → Prop} (h1 : ∀ a, a + 1 < n → R a (a + 1)) (h2 : ∀ a, a + 1 < n → R (a + 1) a) :
    ∀ x < n, ∃ y ∈ sparse n r, ∃ k ≤ r, Walk R k y x := by
  intro x hx
  have hs : 0 < 2 * r + 1 := by omega
  have e := Nat.div_add_mod x (2 * r + 1)
  have hlt := Nat.mod_lt x hs
  have hq : x / (2 * r + 1) ≤ (n - 1) / (2 * r + 1) := Nat.div_le_div_right (by omega)
  refine ⟨min (r + (2 * r + 1) * (x / (2 * r + 1))) (n - 1), Finset.mem_image.2 ⟨_, Finset.mem_range.2 (by omega), rfl⟩, ?_⟩
  generalize x % (2 * r + 1) = f at *
  generalize (2 * r + 1) * (x / (2 * r + 1)) = b at *
  rcases Nat.le_total x (min (r + b) (n - 1)) with h | h
  · refine ⟨min (r + b) (n - 1) - x, by omega, ?_⟩
    have := walk_down h2 (min (r + b) (n - 1) - x) x (by omega)
    rwa [show x + (min (r + b) (n - 1) - x) = min (r + b) (n - 1) by omega] at this
  · refine ⟨x - min (r + b) (n - 1), by omega, ?_⟩
    have := walk_up h1 (x - min (r + b) (n - 1)) (min (r + b) (n - 1)) (by omega)
    rwa [show min (r + b) (n - 1) + (x - min (r + b) (n - 1)) = x by omega] at this

/-- If a vertex dominates at most `2r + 1` vertices, at least the `2r + 1`-st part of the vertices is needed. -/
theorem dominating_lower {n r : ℕ} {R : ℕ → ℕ → Prop} (h0 : 0 < n) (N : ℕ → Finset ℕ) (hN : ∀ y, (N y).card ≤ 2 * r + 1)
    (hW : ∀ x < n, ∀ y < n, ∀ k ≤ r, Walk R k y x → x ∈ N y) (A : Finset ℕ) (hA : ∀ x ∈ A, x < n)
    (h : ∀ x < n, ∃ y ∈ A, ∃ k ≤ r, Walk R k y x) : (n - 1) / (2 * r + 1) + 1 ≤ A.card := by
  have hsub : Finset.range n ⊆ A.biUnion N := by
    intro x hx
    rw [Finset.mem_range] at hx
    obtain ⟨y, hy, k, hk, hw⟩ := h x hx
    exact Finset.mem_biUnion.2 ⟨y, hy, hW x hx y (hA y hy) k hk hw⟩
  have h1 := (Finset.card_le_card hsub).trans (Finset.card_biUnion_le_card_mul A N (2 * r + 1) fun y _ => hN y)
  rw [Finset.card_range] at h1
  have : (n - 1) / (2 * r + 1) < A.card := Nat.div_lt_of_lt_mul (by rw [Nat.mul_comm]; omega)
  omega

/-- **C138 (path).** The set returned has `(n - 2) / (r + 1) + 1` vertices, a smallest one `(n - 1) / (2r + 1) + 1`. -/
theorem C138_path (n r : ℕ) (h2 : 2 ≤ n) (hn : n ≤ 2 ^ 31) (hr0 : 0 < r) (hr : r < 2 ^ 15) :
    DomsetVersus (path n) n r ((n - 2) / (r + 1) + 1) ((n - 1) / (2 * r + 1) + 1) := by
  have hs : 0 < r + 1 := by omega
  have hcard : ((Finset.range ((n - 2) / (r + 1) + 1)).image fun j => 1 + (r + 1) * j).card = (n - 2) / (r + 1) + 1 := by
    rw [Finset.card_image_of_injective _ fun a b h => ?_, Finset.card_range]
    exact Nat.eq_of_mul_eq_mul_left hs (by simpa using h)
  rw [← hcard]
  refine (C137_path n r h2 hn hr0 hr).versus (C11_path n) _ (fun x => ?_) (sparse n r) (sparse_lt (by omega)) (sparse_card n r)
    (sparse_dominates (fun a h => by omega) (fun a h => by omega))
    (dominating_lower (by omega) (fun y => Finset.Icc (y - r) (y + r)) (fun y => by rw [Nat.card_Icc]; omega)
      (fun x hx y hy k hk w => ?_))
  · rw [Finset.mem_image]
    constructor
    · rintro ⟨h3, h4, h5⟩
      have e := Nat.div_add_mod (x - 1) (r + 1)
      have hq : (x - 1) / (r + 1) ≤ (n - 2) / (r + 1) := Nat.div_le_div_right (by omega)
      exact ⟨(x - 1) / (r + 1), Finset.mem_range.2 (by omega), by omega⟩
    · rintro ⟨j, hj, rfl⟩
      rw [Finset.mem_range] at hj
      have e := Nat.mul_le_mul_left (r + 1) (show j ≤ (n - 2) / (r + 1) by omega)
      have := Nat.mul_div_le (n - 2) (r + 1)
      refine ⟨by omega, by omega, ?_⟩
      rw [Nat.add_sub_cancel_left, Nat.mul_mod_right]
  · rw [Finset.mem_Icc]
    have key : ∀ {k a b}, Walk (fun u v => u < n ∧ v < n ∧ (v = u + 1 ∨ u = v + 1)) k a b → a ≤ b + k ∧ b ≤ a + k := by
      intro k a b w
      induction w with
      | nil u => omega
      | cons h t ih => omega
    have := key w
    omega

/-- `C138_path` for a small size: four vertices instead of three. -/
example := C138_path 12 2 (by decide) (by decide) (by decide) (by decide)

/-- **C138 (cycle).** The set returned has `n / (r + 1)` vertices, at least one; a smallest one `(n - 1) / (2r + 1) + 1`. -/
theorem C138_cycle (n r : ℕ) (h3 : 3 ≤ n) (hn : n ≤ 2 ^ 31) (hr0 : 0 < r) (hr : r < 2 ^ 15) :
    DomsetVersus (cycle n) n r (max 1 (n / (r + 1))) ((n - 1) / (2 * r + 1) + 1) := by
  have hs : 0 < r + 1 := by omega
  have hup : ∀ a, a + 1 < n → (a < n ∧ a + 1 < n ∧ (a + 1 = (a + 1) % n ∨ a = (a + 1 + 1) % n)) := fun a h =>
    ⟨by omega, h, .inl (Nat.mod_eq_of_lt h).symm⟩
  have hcard : (insert (n - 1) ((Finset.range (n / (r + 1) - 1)).image fun j => r + (r + 1) * j)).card = max 1 (n / (r + 1)) := by
    rw [Finset.card_insert_of_notMem, Finset.card_image_of_injective _ fun a b h => ?_, Finset.card_range]
    · omega
    · exact Nat.eq_of_mul_eq_mul_left hs (by simpa using h)
    · intro h
      obtain ⟨j, hj, e⟩ := Finset.mem_image.1 h
      rw [Finset.mem_range] at hj
      have e1 := Nat.mul_le_mul_left (r + 1) (show j + 2 ≤ n / (r + 1) by omega)
      have e2 := Nat.mul_div_le n (r + 1)
      rw [Nat.mul_add] at e1
      omega
  rw [← hcard]
  refine (C137_cycle n r h3 hn hr0 hr).versus (C11_cycle n) _ (fun x => ?_) (sparse n r) (sparse_lt (by omega)) (sparse_card n r)
    (sparse_dominates hup (fun a h => ⟨h, by omega, .inr (Nat.mod_eq_of_lt h).symm⟩))
    (dominating_lower (by omega) (fun y => (Finset.range (2 * r + 1)).image fun j => (y + j + (n - 1) * r) % n)
      (fun y => Finset.card_image_le.trans (by rw [Finset.card_range])) (fun x hx y hy k hk w => ?_))
  · rw [Finset.mem_insert, Finset.mem_image]
    refine or_congr_right ⟨?_, ?_⟩
    · rintro ⟨h4, h5⟩
      have e := Nat.div_add_mod (x + 1) (r + 1)
      rw [h5, Nat.add_zero] at e
      obtain ⟨q, hq⟩ : ∃ q, (x + 1) / (r + 1) = q + 1 := Nat.exists_eq_succ_of_ne_zero fun h' => by rw [h'] at e; omega
      rw [hq, Nat.mul_succ] at e
      have : q + 2 ≤ n / (r + 1) := (Nat.le_div_iff_mul_le hs).2 (by rw [Nat.mul_comm, Nat.mul_add]; omega)
      exact ⟨q, Finset.mem_range.2 (by omega), by omega⟩
    · rintro ⟨j, hj, rfl⟩
      rw [Finset.mem_range] at hj
      have e1 := Nat.mul_le_mul_left (r + 1) (show j + 2 ≤ n / (r + 1) by omega)
      have e2 := Nat.mul_div_le n (r + 1)
      rw [Nat.mul_add] at e1
      refine ⟨by omega, ?_⟩
      rw [show r + (r + 1) * j + 1 = (r + 1) * (j + 1) by rw [Nat.mul_succ]; omega, Nat.mul_mod_right]
  · have key : ∀ {k a b}, Walk (fun u v => u < n ∧ v < n ∧ (v = (u + 1) % n ∨ u = (v + 1) % n)) k a b →
        ∃ p q, p + q = k ∧ (a + p) % n = (b + q) % n := by
      intro k a b w
      induction w with
      | nil u => exact ⟨0, 0, rfl, rfl⟩
      | @cons k u v w h t ih =>
        obtain ⟨p, q, e, e'⟩ := ih
        rcases h.2.2 with rfl | rfl
        · refine ⟨p + 1, q, by omega, ?_⟩
          rw [← e', Nat.mod_add_mod]
          congr 1; omega
        · refine ⟨p, q + 1, by omega, ?_⟩
          rw [Nat.mod_add_mod, show v + 1 + p = v + p + 1 by omega, ← Nat.mod_add_mod, e', Nat.mod_add_mod]
          congr 1
    obtain ⟨p, q, e, e'⟩ := key w
    refine Finset.mem_image.2 ⟨p + r - q, Finset.mem_range.2 (by omega), ?_⟩
    have e1 : y + (p + r - q) + (n - 1) * r = y + p + (n * r - q) := by
      have h1 : (n - 1) * r + r = n * r := by
        rw [← Nat.succ_mul]; congr 1; omega
      omega
    have h1 : q ≤ n * r := le_trans (by omega) (Nat.mul_le_mul_right r (show 1 ≤ n by omega) |>.trans' (by omega : q ≤ 1 * r))
    rw [e1, ← Nat.mod_add_mod, e', Nat.mod_add_mod, show x + q + (n * r - q) = x + n * r by omega, Nat.add_mul_mod_self_left,
      Nat.mod_eq_of_lt hx]

/-- `C138_cycle` for a small size. -/
example := C138_cycle 12 2 (by decide) (by decide) (by decide) (by decide)

/-- **C138 (clique).** One vertex is returned, which is optimal. -/
theorem C138_clique (n r : ℕ) (h0 : 0 < n) (hn : n ≤ 2 ^ 31) (hr0 : 0 < r) (hr : r < 2 ^ 15) :
    DomsetVersus (clique n) n r 1 1 := by
  refine (C137_clique n r h0 hn hr0 hr).versus (C11_clique n) {n - 1} (fun x => by rw [Finset.mem_singleton]) {n - 1}
    (fun x hx => by rw [Finset.mem_singleton] at hx; omega) (by simp) (fun x hx => ⟨n - 1, by simp, ?_⟩)
    (fun A _ h => one_le_dominating h0 A h)
  by_cases h : x = n - 1
  · exact ⟨0, by omega, h ▸ .nil _⟩
  · exact ⟨1, hr0, .cons ⟨by omega, hx, by omega⟩ (.nil _)⟩

/-- `C138_clique` for a small size. -/
example := C138_clique 5 1 (by decide) (by decide) (by decide) (by decide)

/-- **C138 (matching).** One vertex per edge is returned, which is optimal. -/
theorem C138_matching (n r : ℕ) (h0 : 0 < n) (hn : 2 * n ≤ 2 ^ 31) (hr0 : 0 < r) (hr : r < 2 ^ 15) :
    DomsetVersus (matching n) (2 * n) r n n := by
  have hcard : (Finset.Ico n (2 * n)).card = n := by rw [Nat.card_Ico]; omega
  have hg := C11_matching n (by omega)
  have key := (C137_matching n r h0 hn hr0 hr).versus (m := n) hg (Finset.Ico n (2 * n)) (fun x => by rw [Finset.mem_Ico])
    (Finset.Ico n (2 * n)) (fun x hx => (Finset.mem_Ico.1 hx).2) hcard.le (fun x hx => ?_) (fun A hA h => ?_)
  · rwa [hcard] at key
  · by_cases h : x < n
    · exact ⟨x + n, Finset.mem_Ico.2 (by omega), 1, hr0, .cons (by omega) (.nil _)⟩
    · exact ⟨x, Finset.mem_Ico.2 (by omega), 0, by omega, .nil _⟩
  · have hsub : Finset.range n ⊆ A.image (fun y => if y < n then y else y - n) := by
      intro x hx
      rw [Finset.mem_range] at hx
      obtain ⟨y, hy, k, -, w⟩ := h x (by omega)
      refine Finset.mem_image.2 ⟨y, hy, ?_⟩
      have hy' := hA y hy
      clear h hy
      have hinv : ∀ {k a b}, Walk (fun u v => u < 2 * n ∧ v < 2 * n ∧ (v = u + n ∨ u = v + n)) k a b → a < 2 * n → (if a < n then a else a - n) = if b < n then b else b - n := by
        intro k a b w
        induction w with
        | nil u => intro _; rfl
        | cons h t ih =>
          intro ha
          rw [← ih (by omega)]
          split <;> split <;> omega
      have := hinv w hy'
      rwa [if_pos hx] at this
    have := (Finset.card_le_card hsub).trans Finset.card_image_le
    rwa [Finset.card_range] at this

/-- `C138_matching` for a small size. -/
example := C138_matching 5 1 (by decide) (by decide) (by decide) (by decide)

/-- **C138 (biclique).** For radius at least 2, one vertex is returned, which is optimal. -/
theorem C138_biclique (s t r : ℕ) (hs : 0 < s) (ht : 0 < t) (hn : s + t ≤ 2 ^ 31) (hr0 : 2 ≤ r) (hr : r < 2 ^ 15) :
    DomsetVersus (biclique s t) (s + t) r 1 1 := by
  refine (C137_biclique s t r hs ht hn hr0 hr).versus (C11_biclique_partial s t hs ht (by omega)) {s}
    (fun x => by rw [Finset.mem_singleton]) {s} (fun x hx => by rw [Finset.mem_singleton] at hx; omega) (by simp)
    (fun x hx => ⟨s, by simp, ?_⟩) (fun A _ h => one_le_dominating (by omega) A h)
  by_cases h : x < s
  · exact ⟨1, by omega, .cons (by omega) (.nil _)⟩
  · exact ⟨2, hr0, .cons (v := 0) (by omega) (.cons (by omega) (.nil _))⟩

/-- `C138_biclique` for a small size. -/
example := C138_biclique 3 4 2 (by decide) (by decide) (by decide) (by decide) (by decide)

/-- **C138 (biclique, radius 1).** If both sides have two vertices at least, two vertices suffice; `t < 5` or `s + 5` are
returned. -/
theorem C138_biclique_radius_one (s t : ℕ) (hs : 2 ≤ s) (ht : 2 ≤ t) (hn : s + t ≤ 2 ^ 31) :
    DomsetVersus (biclique s t) (s + t) 1 (if 5 ≤ t then s + 5 else t) 2 := by
  have hcard : (if 5 ≤ t then Finset.range (s + 5) else Finset.Ico s (s + t)).card = if 5 ≤ t then s + 5 else t := by
    split
    · rw [Finset.card_range]
    · rw [Nat.card_Ico]; omega
  rw [← hcard]
  refine (C137_biclique_radius_one s t (by omega) (by omega) hn).versus (C11_biclique_partial s t (by omega) (by omega) (by omega))
    _ (fun x => ?_) {0, s} (fun x hx => ?_) Finset.card_le_two (fun x hx => ?_) (fun A hA h => ?_)
  · split
    · rw [Finset.mem_range]; omega
    · rw [Finset.mem_Ico]; omega
  · rw [Finset.mem_insert, Finset.mem_singleton] at hx; omega
  · by_cases h : x < s
    · exact ⟨s, by simp, 1, le_rfl, .cons (by omega) (.nil _)⟩
    · exact ⟨0, by simp, 1, le_rfl, .cons (by omega) (.nil _)⟩
  · by_contra hc
    obtain ⟨y, hy, -⟩ := h 0 (by omega)
    have hle : ∀ a ∈ A, a = y := fun a ha => Finset.card_le_one.1 (by omega) a ha y hy
    -- a vertex on the side of `y` other than `y`
    have hone : ∀ x, x < s + t → x ≠ y → ¬ (x < s ↔ y < s) := by
      intro x hx hxy
      obtain ⟨a, ha, k, hk, w⟩ := h x hx
      obtain rfl := hle a ha
      cases w with
      | nil => exact absurd rfl hxy
      | cons e w' =>
        cases w' with
        | nil => have := e.2.2; omega
        | cons _ _ => omega
    have hy' := hA y hy
    by_cases hys : y < s
    · rcases Nat.eq_zero_or_pos y with h0 | h0
      · have := hone 1 (by omega) (by omega); omega
      · have := hone 0 (by omega) (by omega); omega
    · by_cases h0 : y = s
      · have := hone (s + 1) (by omega) (by omega); omega
      · have := hone s (by omega) (by omega); omega

/-- `C138_biclique_radius_one` for a small size: eight vertices instead of two. -/
example := C138_biclique_radius_one 3 7 (by decide) (by decide) (by decide)

/-- **C138 (star).** The centre alone dominates; for radius 1 up to four leaves or five leaves and the centre are returned. -/
theorem C138_star (n r : ℕ) (h0 : 0 < n) (hn : n + 1 ≤ 2 ^ 31) (hr0 : 0 < r) (hr : r < 2 ^ 15) :
    DomsetVersus (EditGraph.star n) (n + 1) r (if r = 1 then (if 5 ≤ n then 6 else n) else 1) 1 := by
  have hcard : (if r = 1 then (if 5 ≤ n then Finset.range 6 else Finset.Ioc 0 n) else {1}).card =
      if r = 1 then (if 5 ≤ n then 6 else n) else 1 := by
    split
    · split
      · rw [Finset.card_range]
      · rw [Nat.card_Ioc]; omega
    · simp
  rw [← hcard]
  refine (C137_star n r h0 hn hr0 hr).versus ((C11_star_partial n h0 (by omega)).congr (P' := fun u => u < n + 1)
    (fun u => by omega) (fun _ _ => Iff.rfl)) _ (fun x => ?_) {0} (fun x hx => ?_) (by simp) (fun x hx => ⟨0, by simp, ?_⟩)
    (fun A _ h => one_le_dominating (by omega) A h)
  · split
    · split
      · rw [Finset.mem_range]; omega
      · rw [Finset.mem_Ioc]; omega
    · rw [Finset.mem_singleton]
  · rw [Finset.mem_singleton] at hx; omega
  · by_cases h : x = 0
    · subst h; exact ⟨0, by omega, .nil _⟩
    · exact ⟨1, hr0, .cons (by omega) (.nil _)⟩

/-- `C138_star` for small sizes. -/
example := C138_star 7 1 (by decide) (by decide) (by decide) (by decide)

/-- **C138.** For no `k` up to a thousand millions is the result always at most `k` times as large as necessary: the bounds of C93
must depend on the ordering. -/
theorem C138_no_constant (k : ℕ) (hk : k ≤ 10 ^ 9) : ∃ (gen : Res EditGraph) (n m l : ℕ), DomsetVersus gen n 1 l m ∧ k * m < l :=
  ⟨_, _, _, _, C138_biclique_radius_one (2 * k + 2) 5 (by omega) (by omega) (by omega), by rw [if_pos le_rfl]; omega⟩

/-- `C138_no_constant` for a constant. -/
example := C138_no_constant 1000 (by decide)

end Verif
