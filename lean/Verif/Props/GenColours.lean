import Verif.Props.GenWidths
/-!
# C135: greedy colourings of the named graphs in their natural ordering
-/
namespace Verif
open SGraph EditGraph

/-- The colouring of a graph on `0..n-1` in natural order is greedy if vertex `v` has `d v` smaller neighbours, `p v` counts the
colours existing before `v`, and the rule holds. -/
theorem SGraph.OnRange.greedy {S : SGraph} {n : ℕ} (hV : S.OnRange n) (χ : ℕ → Option ℕ) (d p : ℕ → ℕ) (T : ℕ → Finset ℕ)
    (hT : ∀ v < n, ∀ u, (S.Adj v u ∧ u < v) ↔ u ∈ T v) (hd : ∀ v < n, (T v).card = d v) (h0 : p 0 = 0)
    (hs : ∀ v, v + 1 < n → p (v + 1) = if d v = p v then p v + 1 else p v)
    (hr : ∀ v < n, GreedyRule (p v) (d v) (fun k => ∃ u ∈ T v, χ u = some k) (χ v)) (hno : ∀ v, n ≤ v → χ v = none) :
    S.IsGreedy (List.range n) χ := by
  have hb : ∀ v < n, S.before (List.range n) v = T v := by
    intro v hv
    ext u
    rw [mem_before, ← hT v hv u]
    refine and_congr_right fun e => ?_
    rw [idxOf_range hv, idxOf_range ((hV u).1 e.right)]
  refine ⟨fun v hv => hno v (by have := (hV v).not.1 hv; omega), fun v hv => ⟨p v, ?_, ?_⟩⟩
  · have hv := (hV v).1 hv
    rw [idxOf_range hv, List.take_range, Nat.min_eq_left (by omega)]
    suffices key : ∀ v, v < n → LongestRun (S.leftDegs (List.range n) (List.range v)) (p v) from key v hv
    intro v
    induction v with
    | zero => intro _; rw [h0]; exact .nil
    | succ v ih =>
      intro hv
      have := (ih (by omega)).snoc (d := d v)
      rw [hs v hv, List.range_succ]
      unfold SGraph.leftDegs at this ⊢
      rw [List.map_append, List.map_singleton, hb v (by omega), hd v (by omega)]
      exact this
  · have hv := (hV v).1 hv
    have := hr v hv
    rwa [hb v hv, hd v hv]

/-- The generator call `r` succeeds, its result can be laid out in the order `0..n-1`, and for every memory layout
`colour_greedy` returns the colouring `χ`. -/
def NaturalColours (r : Res EditGraph) (n : ℕ) (χ : ℕ → Option ℕ) : Prop :=
  ∃ g, r = .ok g ∧ ∀ g', EditGraph.Relayout g g' → ∃ o, OrdGraph.withOrdering g'.view (List.range n) = .ok o ∧
    ∀ o', OrdGraph.Relayout o o' → ∃ c, o'.lin.colourGreedy = .ok c ∧ ∀ v, c.get? v = χ v

theorem Generates.colours {r : Res EditGraph} {n : ℕ} {R : ℕ → ℕ → Prop} (h : Generates r (fun u => u < n) R)
    (hl : ∀ u, ¬ R u u) (hn : n ≤ 2 ^ 32) (χ : ℕ → Option ℕ) (d p : ℕ → ℕ) (T : ℕ → Finset ℕ)
    (hT : ∀ v < n, ∀ u, (R v u ∧ u < v) ↔ u ∈ T v) (hd : ∀ v < n, (T v).card = d v) (h0 : p 0 = 0)
    (hs : ∀ v, v + 1 < n → p (v + 1) = if d v = p v then p v + 1 else p v)
    (hr : ∀ v < n, GreedyRule (p v) (d v) (fun k => ∃ u ∈ T v, χ u = some k) (χ v)) (hno : ∀ v, n ≤ v → χ v = none)
    (hsome : ∀ v u, R v u → u < v → χ u ≠ none) : NaturalColours r n χ := by
  obtain ⟨g, S, hg, A, hV, hA⟩ := h.abs
  have hV' : S.OnRange n := hV
  have hlo : S.Loopless := fun u e => hl u ((hA u u).1 e)
  refine ⟨g, hg, fun g' hg' => ?_⟩
  obtain ⟨o, ho, hR⟩ := C43_with_ordering (A.relayout hg').rep hlo hV'.ordering.nodup hV'.ordering.mem
  refine ⟨o, ho, fun o' ho' => ?_⟩
  have H := (hR o' ho').lin
  obtain ⟨χ', q, h1, -, -, -, h2⟩ := C55_colour_greedy_exact_partial H (by rw [hV'.card]; exact hn)
  obtain rfl := (h1 χ).1 (hV'.greedy χ d p T (fun v hv u => by rw [hA]; exact hT v hv u) hd h0 hs hr hno)
  refine h2 fun v u hu => ?_
  obtain ⟨e, hlt⟩ := mem_before.1 hu
  have hvn := (hV' v).1 e.left
  have hun := (hV' u).1 e.right
  rw [idxOf_range hvn, idxOf_range hun] at hlt
  exact hsome v u ((hA v u).1 e) hlt

/-- **C135 (path).** Colours 0 and 1 alternate. -/
theorem C135_path (n : ℕ) (hn : n ≤ 2 ^ 32) : NaturalColours (path n) n (fun v => if v < n then some (v % 2) else none) := by
  refine (C11_path n).colours (fun u h => by omega) hn _ (fun v => min v 1) (fun v => min v 2) (fun v => Finset.Ico (v - 1) v)
    (fun v hv u => by rw [Finset.mem_Ico]; omega) (fun v hv => by rw [Nat.card_Ico]; omega) rfl
    (fun v hv => by split <;> omega) (fun v hv => ?_) (fun v hv => if_neg (by omega)) (fun v u h hlt => by rw [if_pos h.2.1]; simp)
  rw [if_pos hv]
  by_cases h2 : v < 2
  · exact .inl ⟨by omega, by omega⟩
  · refine .inr ⟨by omega, by omega, ?_, fun j hj => ⟨v - 1, Finset.mem_Ico.2 (by omega), ?_⟩⟩
    · rintro ⟨u, hu, e⟩
      rw [Finset.mem_Ico] at hu
      rw [if_pos (by omega)] at e
      have := Option.some.inj e
      omega
    · rw [if_pos (by omega)]
      exact congrArg some (by omega)

/-- `C135_path` for a small size. -/
example := C135_path 5 (by decide)

/-- **C135 (cycle).** Colours 0 and 1 alternate, but the last vertex gets colour 2 also in even cycles, where colour 1 would do:
`colour_greedy` compares the number of left neighbours, not of their colours, with the number of colours. -/
theorem C135_cycle (n : ℕ) (h3 : 3 ≤ n) (hn : n ≤ 2 ^ 32) : NaturalColours (cycle n) n
    (fun v => if v + 1 < n then some (v % 2) else if v + 1 = n then some 2 else none) := by
  have hm : ∀ u, u < n → (u + 1) % n = if u + 1 = n then 0 else u + 1 := fun u hu => by
    split
    · rename_i e; rw [e, Nat.mod_self]
    · exact Nat.mod_eq_of_lt (by omega)
  refine (C11_cycle n).colours (fun u h => ?_) hn _ (fun v => if v + 1 = n then 2 else min v 1) (fun v => min v 2)
    (fun v => if v + 1 = n then {0, v - 1} else Finset.Ico (v - 1) v) (fun v hv u => ?_) (fun v hv => ?_) rfl
    (fun v hv => ?_) (fun v hv => ?_) (fun v hv => ?_) (fun v u h hlt => ?_)
  · have := hm u h.1
    split at this <;> omega
  · constructor
    · rintro ⟨⟨-, hu, h⟩, hlt⟩
      have e1 := hm v hv
      have e2 := hm u hu
      split
      · rw [Finset.mem_insert, Finset.mem_singleton]
        split at e1 <;> split at e2 <;> omega
      · rw [Finset.mem_Ico]
        split at e1 <;> split at e2 <;> omega
    · intro h
      split at h
      · rename_i e
        rw [Finset.mem_insert, Finset.mem_singleton] at h
        refine ⟨⟨hv, by omega, ?_⟩, by omega⟩
        rw [hm v hv, hm u (by omega), if_pos e, if_neg (by omega)]
        omega
      · rename_i e
        rw [Finset.mem_Ico] at h
        refine ⟨⟨hv, by omega, .inr ?_⟩, by omega⟩
        rw [hm u (by omega), if_neg (by omega)]
        omega
  · split
    · exact Finset.card_pair (by omega)
    · rw [Nat.card_Ico]; omega
  · rw [if_neg (show ¬ v + 1 = n by omega)]
    split <;> omega
  · by_cases e : v + 1 = n
    · rw [if_pos e, if_pos e, if_neg (show ¬ v + 1 < n by omega), if_pos e]
      exact .inl ⟨by omega, by omega⟩
    · rw [if_neg e, if_neg e, if_pos (show v + 1 < n by omega)]
      by_cases h2 : v < 2
      · exact .inl ⟨by omega, by omega⟩
      · refine .inr ⟨by omega, by omega, ?_, fun j hj => ⟨v - 1, Finset.mem_Ico.2 (by omega), ?_⟩⟩
        · rintro ⟨u, hu, e⟩
          rw [Finset.mem_Ico] at hu
          rw [if_pos (by omega)] at e
          have := Option.some.inj e
          omega
        · rw [if_pos (by omega)]
          exact congrArg some (by omega)
  · rw [if_neg (by omega), if_neg (by omega)]
  · have := h.1
    rw [if_pos (by omega)]
    simp

/-- `C135_cycle` for a small even cycle. -/
example := C135_cycle 6 (by decide) (by decide)

/-- **C135 (clique).** Vertex `v` gets colour `v`. -/
theorem C135_clique (n : ℕ) (hn : n ≤ 2 ^ 32) : NaturalColours (clique n) n (fun v => if v < n then some v else none) := by
  refine (C11_clique n).colours (fun u h => h.2.2 rfl) hn _ (fun v => v) (fun v => v) (fun v => Finset.range v)
    (fun v hv u => by rw [Finset.mem_range]; omega) (fun v hv => Finset.card_range v) rfl
    (fun v hv => by rw [if_pos rfl]) (fun v hv => ?_) (fun v hv => if_neg (by omega)) (fun v u h hlt => by rw [if_pos h.2.1]; simp)
  rw [if_pos hv]
  exact .inl ⟨rfl, rfl⟩

/-- `C135_clique` for a small size. -/
example := C135_clique 5 (by decide)

/-- **C135 (independent set).** All vertices get colour 0. -/
theorem C135_independent (n : ℕ) (hn : n ≤ 2 ^ 32) :
    NaturalColours (.ok (independent n)) n (fun v => if v < n then some 0 else none) := by
  refine (C11_independent n).colours (fun u h => h) hn _ (fun v => 0) (fun v => min v 1) (fun v => ∅)
    (fun v hv u => by simp) (fun v hv => rfl) rfl
    (fun v hv => by split <;> omega) (fun v hv => ?_) (fun v hv => if_neg (by omega)) (fun v u h hlt => h.elim)
  rw [if_pos hv]
  by_cases h0 : v = 0
  · exact .inl ⟨by omega, by omega⟩
  · exact .inr ⟨by omega, by omega, by simp, fun j hj => by omega⟩

/-- `C135_independent` for a small size. -/
example := C135_independent 5 (by decide)

/-- **C135 (matching).** The first half gets colour 0, the second half colour 1. -/
theorem C135_matching (n : ℕ) (hn : 2 * n ≤ 2 ^ 32) :
    NaturalColours (matching n) (2 * n) (fun v => if v < n then some 0 else if v < 2 * n then some 1 else none) := by
  refine (C11_matching n hn).colours (fun u h => by omega) hn _ (fun v => if v < n then 0 else 1)
    (fun v => if v ≤ n then min v 1 else 2) (fun v => if v < n then ∅ else {v - n})
    (fun v hv u => ?_) (fun v hv => by split <;> simp) ?_
    (fun v hv => ?_) (fun v hv => ?_) (fun v hv => ?_) (fun v u h hlt => ?_)
  · split
    · simp; omega
    · rw [Finset.mem_singleton]; omega
  · rw [if_pos (by omega)]; rfl
  · by_cases h1 : v < n
    · rw [if_pos (show v + 1 ≤ n by omega), if_pos h1, if_pos (show v ≤ n by omega)]
      split <;> omega
    · rw [if_neg (show ¬ v + 1 ≤ n by omega), if_neg h1]
      split <;> split <;> omega
  · by_cases h1 : v < n
    · rw [if_pos h1, if_pos h1, if_pos h1, if_pos (by omega)]
      by_cases h0 : v = 0
      · exact .inl ⟨by omega, by omega⟩
      · exact .inr ⟨by omega, by omega, by simp, fun j hj => by omega⟩
    · rw [if_neg h1, if_neg h1, if_neg h1, if_pos hv]
      by_cases h2 : v ≤ n
      · rw [if_pos h2]
        exact .inl ⟨by omega, by omega⟩
      · rw [if_neg h2]
        refine .inr ⟨by omega, by omega, ?_, fun j hj => ⟨v - n, by simp, ?_⟩⟩
        · rintro ⟨u, hu, e⟩
          rw [Finset.mem_singleton] at hu
          rw [if_pos (by omega)] at e
          have := Option.some.inj e
          omega
        · rw [if_pos (by omega)]
          exact congrArg some (by omega)
  · rw [if_neg (by omega), if_neg (by omega)]
  · rw [if_pos (by omega)]; simp

/-- `C135_matching` for a small size. -/
example := C135_matching 5 (by decide)

/-- **C135 (star).** The centre gets colour 0, the leaves colour 1. -/
theorem C135_star (n : ℕ) (h0 : 0 < n) (h : n + 1 < 2 ^ 32) :
    NaturalColours (EditGraph.star n) (n + 1) (fun v => if v ≤ n then some (min v 1) else none) := by
  refine ((C11_star_partial n h0 h).congr (P' := fun u => u < n + 1) (fun u => by omega) (fun _ _ => Iff.rfl)).colours
    (fun u h => h.2.2.1 rfl) (by omega) _ (fun v => min v 1) (fun v => min v 2) (fun v => Finset.range (min v 1))
    (fun v hv u => by rw [Finset.mem_range]; omega) (fun v hv => Finset.card_range _) rfl
    (fun v hv => by split <;> omega) (fun v hv => ?_) (fun v hv => if_neg (by omega)) (fun v u h hlt => by rw [if_pos h.2.1]; simp)
  rw [if_pos (by omega)]
  by_cases h2 : v < 2
  · exact .inl ⟨by omega, by omega⟩
  · refine .inr ⟨by omega, by omega, ?_, fun j hj => ⟨0, Finset.mem_range.2 (by omega), ?_⟩⟩
    · rintro ⟨u, hu, e⟩
      rw [Finset.mem_range] at hu
      rw [if_pos (by omega)] at e
      have := Option.some.inj e
      omega
    · rw [if_pos (by omega)]
      exact congrArg some (by omega)

/-- `C135_star` for a small size. -/
example := C135_star 5 (by decide) (by decide)

/-- **C135 (biclique).** If the first side has at least two vertices, only it is coloured (with colour 0): the vertices of the
second side get no colour. -/
theorem C135_biclique (s t : ℕ) (hs : 2 ≤ s) (ht : 0 < t) (h : s + t < 2 ^ 32) :
    NaturalColours (biclique s t) (s + t) (fun v => if v < s then some 0 else none) := by
  refine (C11_biclique_partial s t (by omega) ht h).colours (fun u h => h.2.2 Iff.rfl) (by omega) _
    (fun v => if v < s then 0 else s) (fun v => min v 1) (fun v => if v < s then ∅ else Finset.range s)
    (fun v hv u => ?_) (fun v hv => by split <;> simp) rfl
    (fun v hv => by split <;> split <;> omega) (fun v hv => ?_) (fun v hv => if_neg (by omega)) (fun v u h hlt => ?_)
  · split
    · simp; omega
    · rw [Finset.mem_range]; omega
  · by_cases h1 : v < s
    · rw [if_pos h1, if_pos h1, if_pos h1]
      by_cases h0 : v = 0
      · exact .inl ⟨by omega, by omega⟩
      · exact .inr ⟨by omega, by omega, by simp, fun j hj => by omega⟩
    · rw [if_neg h1, if_neg h1, if_neg h1]
      refine ⟨by omega, fun j hj => ⟨0, Finset.mem_range.2 (by omega), ?_⟩⟩
      rw [if_pos (by omega)]
      exact congrArg some (by omega)
  · rw [if_pos (by omega)]; simp

/-- `C135_biclique` for a small size. -/
example := C135_biclique 2 3 (by decide) (by decide) (by decide)

theorem grid_left {t v : ℕ} (ht : 0 < t) (h : v % t ≠ 0) : (v - 1) / t = v / t ∧ (v - 1) % t + 1 = v % t := by
  have e := Nat.div_add_mod v t
  have b := Nat.mod_lt v ht
  have e1 : v - 1 = t * (v / t) + (v % t - 1) := by omega
  have d1 : (v % t - 1) / t = 0 := Nat.div_eq_of_lt (by omega)
  have d2 : (v % t - 1) % t = v % t - 1 := Nat.mod_eq_of_lt (by omega)
  rw [e1, Nat.mul_add_div ht, Nat.mul_add_mod, d1, d2]
  omega

theorem grid_up {t v : ℕ} (ht : 0 < t) (h : t ≤ v) : (v - t) / t + 1 = v / t ∧ (v - t) % t = v % t := by
  obtain ⟨w, rfl⟩ := Nat.exists_eq_add_of_le' h
  rw [Nat.add_sub_cancel, Nat.add_div_right _ ht, Nat.add_mod_right]
  exact ⟨rfl, rfl⟩

/-- The smaller neighbours in a grid. -/
theorem grid_before {s t v : ℕ} (ht : 0 < t) (hv : v < s * t) (u : ℕ) :
    ((v < s * t ∧ u < s * t ∧ ((v / t = u / t ∧ (u % t = v % t + 1 ∨ v % t = u % t + 1)) ∨
      (v % t = u % t ∧ (u / t = v / t + 1 ∨ v / t = u / t + 1)))) ∧ u < v) ↔ (v % t ≠ 0 ∧ u + 1 = v) ∨ u + t = v := by
  have key := grid_cell t v u
  simp only [ht, and_true] at key
  constructor
  · rintro ⟨⟨-, -, h⟩, hlt⟩
    rcases key.2 h with ⟨h1, h2 | h2⟩ | h2 | h2
    · omega
    · refine .inl ⟨fun h0 => ?_, by omega⟩
      have e1 := Nat.div_add_mod v t
      have e2 := Nat.div_add_mod u t
      rw [h1] at e1
      omega
    · omega
    · exact .inr (by omega)
  · intro h
    refine ⟨⟨hv, by omega, key.1 ?_⟩, by omega⟩
    rcases h with ⟨h1, h2⟩ | h2
    · have := (grid_left ht h1).1
      have e : u = v - 1 := by omega
      rw [e]
      exact .inl ⟨this.symm, .inr (by omega)⟩
    · exact .inr (.inr (by omega))

/-- **C135 (grid).** Colours 0 and 1 alternate as on a chessboard, except that the second vertex of the second row gets colour 2. -/
theorem C135_grid (s t : ℕ) (hs : 2 ≤ s) (ht : 2 ≤ t) (h : s * t < 2 ^ 32) : NaturalColours (grid s t) (s * t)
    (fun v => if v < s * t then some (if v = t + 1 then 2 else (v % t + v / t) % 2) else none) := by
  classical
  have ht0 : 0 < t := by omega
  have hst : t + t ≤ s * t := by
    have := Nat.mul_le_mul_right t hs
    omega
  have hmem : ∀ v u, u ∈ (if v % t = 0 then (∅ : Finset ℕ) else {v - 1}) ∪ (if v < t then ∅ else {v - t}) ↔
      (v % t ≠ 0 ∧ u + 1 = v) ∨ u + t = v := by
    intro v u
    have h0 : v = 0 → v % t = 0 := by rintro rfl; exact Nat.zero_mod t
    rw [Finset.mem_union]
    refine or_congr ?_ ?_
    · split
      · simp; omega
      · rw [Finset.mem_singleton]; omega
    · split
      · simp; omega
      · rw [Finset.mem_singleton]; omega
  have hlt : ∀ v, v < t → v % t = v := fun v hv => Nat.mod_eq_of_lt hv
  have ht1 : (t + 1) % t = 1 := by rw [Nat.add_mod_left, Nat.mod_eq_of_lt (by omega)]
  have htt : t % t = 0 := Nat.mod_self t
  refine (C11_grid_partial s t h (by omega)).colours (fun u h => by omega) (by omega) _
    (fun v => (if v % t = 0 then 0 else 1) + (if v < t then 0 else 1)) (fun v => if v ≤ t + 1 then min v 2 else 3)
    (fun v => (if v % t = 0 then ∅ else {v - 1}) ∪ (if v < t then ∅ else {v - t}))
    (fun v hv u => (grid_before ht0 hv u).trans (hmem v u).symm) (fun v hv => ?_) ?_ (fun v hv => ?_) (fun v hv => ?_)
    (fun v hv => if_neg (by omega)) (fun v u h hlt => by rw [if_pos h.2.1]; simp)
  · have h0 : v = 0 → v % t = 0 := by rintro rfl; exact Nat.zero_mod t
    rw [Finset.card_union_of_disjoint]
    · congr 1 <;> split <;> simp
    · split
      · simp
      · split
        · simp
        · rw [Finset.disjoint_singleton]; omega
  · rw [if_pos (by omega)]; rfl
  · have h0 : v = 0 → v % t = 0 := by rintro rfl; exact Nat.zero_mod t
    have h1 : v = t → v % t = 0 := by rintro rfl; exact htt
    have h2 : v = t + 1 → v % t = 1 := by rintro rfl; exact ht1
    have h3 := hlt v
    repeat' split
    all_goals omega
  · rw [if_pos hv]
    have h0 : v = 0 → v % t = 0 := by rintro rfl; exact Nat.zero_mod t
    have h1 : v = t → v % t = 0 := by rintro rfl; exact htt
    have h2 : v = t + 1 → v % t = 1 := by rintro rfl; exact ht1
    have h3 := hlt v
    have h4 : v < t → v / t = 0 := fun h => Nat.div_eq_of_lt h
    have hcol : ∀ u, u < v → (if u < s * t then some (if u = t + 1 then 2 else (u % t + u / t) % 2) else none) =
        some (if u = t + 1 then 2 else (u % t + u / t) % 2) := fun u hu => if_pos (by omega)
    by_cases hnew : v ≤ 1 ∨ v = t + 1
    · refine .inl ⟨?_, ?_⟩
      · rw [if_pos (show v ≤ t + 1 by omega)]
        repeat' split
        all_goals omega
      · rw [if_pos (show v ≤ t + 1 by omega)]
        split <;> omega
    · have hp : ∀ u, (v % t ≠ 0 ∧ u + 1 = v) ∨ u + t = v → (u % t + u / t) % 2 ≠ (v % t + v / t) % 2 := by
        rintro u (⟨g1, g2⟩ | g1)
        · obtain ⟨e1, e2⟩ := grid_left ht0 g1
          obtain rfl : u = v - 1 := by omega
          omega
        · obtain ⟨e1, e2⟩ := grid_up ht0 (show t ≤ v by omega)
          obtain rfl : u = v - t := by omega
          omega
      rw [if_neg (show ¬ v = t + 1 by omega)]
      refine .inr ⟨?_, ?_, ?_, fun j hj => ?_⟩
      · repeat' split
        all_goals omega
      · split <;> omega
      · rintro ⟨u, hu, e⟩
        have hu := (hmem v u).1 hu
        rw [hcol u (by omega)] at e
        have e := Option.some.inj e
        have := hp u hu
        split at e <;> omega
      · obtain ⟨u, hu, hne⟩ : ∃ u, ((v % t ≠ 0 ∧ u + 1 = v) ∨ u + t = v) ∧ u ≠ t + 1 := by
          by_cases hx : v % t = 0
          · have : t ≤ v := by
              by_contra hc
              have := h3 (by omega)
              omega
            refine ⟨v - t, .inr (by omega), fun e => ?_⟩
            obtain ⟨-, e2⟩ := grid_up ht0 this
            rw [e, ht1] at e2
            omega
          · by_cases h5 : v = t + 2
            · exact ⟨2, .inr (by omega), by omega⟩
            · exact ⟨v - 1, .inl ⟨hx, by omega⟩, by omega⟩
        refine ⟨u, (hmem v u).2 hu, ?_⟩
        rw [hcol u (by omega), if_neg hne]
        have := hp u hu
        exact congrArg some (by omega)

/-- `C135_grid` for a small size. -/
example := C135_grid 3 4 (by decide) (by decide) (by decide)

end Verif
