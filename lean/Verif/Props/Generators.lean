import Verif.Lemmas.Generators
/-!
# Property C11: named generators

Each statement gives the advertised graph by an explicit vertex predicate and adjacency predicate.
-/
namespace Verif
open EditGraph

/-- The generator call returns a graph (no overflow, no panic) that is a proper `EditGraph` and whose
vertices and adjacent pairs are exactly those described by `P` and `R`. -/
def Generates (r : Res EditGraph) (P : ℕ → Prop) (R : ℕ → ℕ → Prop) : Prop :=
  ∃ g, r = .ok g ∧ Reachable g ∧ (∀ u, g.contains u = true ↔ P u) ∧
    (∀ u v, g.adjacent u v = true ↔ R u v)

theorem Generates.of_is {r : Res EditGraph} {P : ℕ → Prop} {R : ℕ → ℕ → Prop}
    (h : Ok r (fun g => Is g P R)) : Generates r P R := by
  obtain ⟨g, h1, h2⟩ := h
  exact ⟨g, h1, h2.reachable, h2.contains, h2.adjacent⟩

theorem Generates.congr {r : Res EditGraph} {P P' : ℕ → Prop} {R R' : ℕ → ℕ → Prop}
    (h : Generates r P R) (hP : ∀ u, P u ↔ P' u) (hR : ∀ a b, R a b ↔ R' a b) : Generates r P' R' := by
  obtain ⟨g, h1, h2, h3, h4⟩ := h
  exact ⟨g, h1, h2, fun u => (h3 u).trans (hP u), fun u v => (h4 u v).trans (hR u v)⟩

/-- **C11 (path).** Vertices `0..n-1`, consecutive ones adjacent. -/
theorem C11_path (n : ℕ) : Generates (path n) (fun u => u < n)
    (fun u v => u < n ∧ v < n ∧ (v = u + 1 ∨ u = v + 1)) := .of_is (is_path n)

/-- `C11_path` for small sizes. -/
example := C11_path 5

/-- **C11 (cycle).** Vertices `0..n-1`, each adjacent to its cyclic successor (so `cycle(1)` is a loop and
`cycle(2)` a single edge). -/
theorem C11_cycle (n : ℕ) : Generates (cycle n) (fun u => u < n)
    (fun u v => u < n ∧ v < n ∧ (v = (u + 1) % n ∨ u = (v + 1) % n)) := .of_is (is_cycle n)

/-- `C11_cycle` for small sizes. -/
example := C11_cycle 5

/-- **C11 (matching).** `2n` vertices, `i` matched to `i+n`. -/
theorem C11_matching (n : ℕ) (hn : 2 * n ≤ 2 ^ 32) : Generates (matching n) (fun u => u < 2 * n)
    (fun u v => u < 2 * n ∧ v < 2 * n ∧ (v = u + n ∨ u = v + n)) := .of_is (is_matching n hn)

/-- `C11_matching` for small sizes. -/
example := C11_matching 5 (by decide)

/-- **C11 (clique).** -/
theorem C11_clique (n : ℕ) : Generates (clique n) (fun u => u < n)
    (fun u v => u < n ∧ v < n ∧ u ≠ v) := .of_is (is_clique n)

/-- `C11_clique` for small sizes. -/
example := C11_clique 5

/-- **C11 (independent set).** -/
theorem C11_independent (n : ℕ) : Generates (.ok (independent n)) (fun u => u < n) (fun _ _ => False) :=
  .of_is ⟨_, rfl, is_independent n⟩

/-- `C11_independent` for small sizes. -/
example := C11_independent 5

/-- **C11 (biclique), full statement**: sides `0..s-1` and `s..s+t-1`, completely joined. -/
def C11_biclique_statement : Prop := ∀ s t, s + t < 2 ^ 32 →
  Generates (biclique s t) (fun u => u < s + t) (fun u v => u < s + t ∧ v < s + t ∧ ¬ (u < s ↔ v < s))

/-- **C11 (biclique)**: proved when both sides are nonempty.  Missing: if one side is empty the graph
returned has no vertices at all. -/
theorem C11_biclique_partial (s t : ℕ) (hs : 0 < s) (ht : 0 < t) (h : s + t < 2 ^ 32) :
    Generates (biclique s t) (fun u => u < s + t)
      (fun u v => u < s + t ∧ v < s + t ∧ ¬ (u < s ↔ v < s)) :=
  (Generates.of_is (is_biclique s t h)).congr (fun u => by omega) (fun _ _ => Iff.rfl)

/-- `C11_biclique_partial` for small sizes. -/
example := C11_biclique_partial 3 4 (by decide) (by decide) (by decide)

/-- The adjacency relation is right also when a side is empty. -/
theorem C11_biclique_edges (s t : ℕ) (h : s + t < 2 ^ 32) :
    ∃ g, biclique s t = .ok g ∧ ∀ u v, g.adjacent u v = true ↔
      (u < s + t ∧ v < s + t ∧ ¬ (u < s ↔ v < s)) := by
  obtain ⟨g, h1, -, -, h2⟩ := Generates.of_is (is_biclique s t h)
  exact ⟨g, h1, h2⟩

/-- `C11_biclique_edges` for small sizes. -/
example := C11_biclique_edges 0 4 (by decide)

/-- The full statement is false: `biclique(3,0)` (three isolated vertices) is returned empty. -/
theorem C11_biclique_refuted : ¬ C11_biclique_statement := by
  intro H
  obtain ⟨g, h1, -, h2, -⟩ := H 3 0 (by decide)
  have : (biclique 3 0).map (fun g => g.contains 0) = .ok false := by decide
  rw [h1] at this
  have h3 := (h2 0).2 (by decide)
  simp only [Except.map, h3] at this
  exact absurd this (by decide)

/-- **C11 (star), full statement**: centre `0`, leaves `1..n`. -/
def C11_star_statement : Prop := ∀ n, n + 1 < 2 ^ 32 →
  Generates (EditGraph.star n) (fun u => u ≤ n) (fun u v => u ≤ n ∧ v ≤ n ∧ u ≠ v ∧ (u = 0 ∨ v = 0))

/-- **C11 (star)**: proved for at least one leaf.  Missing: `star(0)` does not even contain its centre. -/
theorem C11_star_partial (n : ℕ) (h0 : 0 < n) (h : n + 1 < 2 ^ 32) :
    Generates (EditGraph.star n) (fun u => u ≤ n) (fun u v => u ≤ n ∧ v ≤ n ∧ u ≠ v ∧ (u = 0 ∨ v = 0)) :=
  (C11_biclique_partial 1 n (by omega) h0 (by omega)).congr (fun u => by omega) (fun u v => by omega)

/-- `C11_star_partial` for small sizes. -/
example := C11_star_partial 5 (by decide) (by decide)

theorem C11_star_refuted : ¬ C11_star_statement := by
  intro H
  obtain ⟨g, h1, -, h2, -⟩ := H 0 (by decide)
  have : (EditGraph.star 0).map (fun g => g.contains 0) = .ok false := by decide
  rw [h1] at this
  have h3 := (h2 0).2 (by decide)
  simp only [Except.map, h3] at this
  exact absurd this (by decide)

/-- **C11 (complete k-partite), full statement**: `partOf sizes u` is the number of the part of `u`. -/
def C11_kpartite_statement : Prop := ∀ sizes : List ℕ, sizes.sum < 2 ^ 32 →
  Generates (completeKpartite sizes) (fun u => u < sizes.sum)
    (fun u v => u < sizes.sum ∧ v < sizes.sum ∧ partOf sizes u ≠ partOf sizes v)

theorem exists_other_part : ∀ {sizes : List ℕ} {u : ℕ}, 2 ≤ (sizes.filter (0 < ·)).length →
    u < sizes.sum → ∃ v < sizes.sum, partOf sizes u ≠ partOf sizes v := by
  intro sizes
  induction sizes with
  | nil => intro u h; simp at h
  | cons a l ih =>
    intro u h hu
    rw [List.sum_cons] at hu
    have hpos : ∀ l : List ℕ, 1 ≤ (l.filter (0 < ·)).length → 0 < l.sum := by
      intro l hl
      obtain ⟨x, hx⟩ := List.exists_mem_of_length_pos hl
      rw [List.mem_filter] at hx
      have h2 : 0 < x := by simpa using hx.2
      obtain ⟨p, q, rfl⟩ := List.append_of_mem hx.1
      simp only [List.sum_append, List.sum_cons]
      omega
    simp only [List.sum_cons]
    by_cases ha : a = 0
    · subst ha
      have h' : 2 ≤ (l.filter (0 < ·)).length := by simpa using h
      obtain ⟨v, hv, hne⟩ := ih (u := u) h' (by omega)
      refine ⟨v, by omega, ?_⟩
      simpa [partOf] using hne
    · have h' : 1 ≤ (l.filter (0 < ·)).length := by
        rw [List.filter_cons_of_pos (by simp; omega), List.length_cons] at h; omega
      have := hpos l h'
      by_cases hua : u < a
      · refine ⟨a, by omega, ?_⟩
        simp [partOf, hua]
      · refine ⟨0, by omega, ?_⟩
        have : 0 < a := by omega
        simp [partOf, hua, this]

/-- **C11 (complete k-partite)**: proved if at least two parts are nonempty.  Missing: a single part
(`complete_kpartite([n])` is a clique) and the cases where only one part is nonempty (no vertices). -/
theorem C11_kpartite_partial (sizes : List ℕ) (h : sizes.sum < 2 ^ 32)
    (h2 : 2 ≤ (sizes.filter (0 < ·)).length) :
    Generates (completeKpartite sizes) (fun u => u < sizes.sum)
      (fun u v => u < sizes.sum ∧ v < sizes.sum ∧ partOf sizes u ≠ partOf sizes v) := by
  refine (Generates.of_is (is_completeKpartite sizes ?_ h)).congr (fun u => ?_) (fun _ _ => Iff.rfl)
  · intro h1
    have := List.length_filter_le (fun x => decide (0 < x)) sizes
    omega
  · exact ⟨fun hu => hu.1, fun hu => ⟨hu, exists_other_part h2 hu⟩⟩

/-- `C11_kpartite_partial` for small sizes. -/
example := C11_kpartite_partial [2, 0, 3] (by decide) (by decide)

/-- The full statement is false: `complete_kpartite([2])` is an edge instead of two isolated vertices. -/
theorem C11_kpartite_refuted : ¬ C11_kpartite_statement := by
  intro H
  obtain ⟨g, h1, -, -, h2⟩ := H [2] (by decide)
  have : (completeKpartite [2]).map (fun g => g.adjacent 0 1) = .ok true := by decide
  rw [h1] at this
  simp only [Except.map] at this
  have h3 := (h2 0 1).1 (by simpa using this)
  revert h3; decide

/-- **C11 (grid), full statement**: `s` rows and `t` columns, vertex `y*t+x` in row `y`, column `x`; cells
next to each other in a row, or below each other, are adjacent. -/
def C11_grid_statement : Prop := ∀ s t, s * t < 2 ^ 32 →
  Generates (grid s t) (fun u => u < s * t) (fun u v => u < s * t ∧ v < s * t ∧
    ((u / t = v / t ∧ (v % t = u % t + 1 ∨ u % t = v % t + 1)) ∨
     (u % t = v % t ∧ (v / t = u / t + 1 ∨ u / t = v / t + 1))))

theorem grid_cell (t u v : ℕ) :
    ((u / t = v / t ∧ (v = u + 1 ∨ u = v + 1)) ∨ v = u + t ∨ u = v + t) ∧ 0 < t ↔
    ((u / t = v / t ∧ (v % t = u % t + 1 ∨ u % t = v % t + 1)) ∨
     (u % t = v % t ∧ (v / t = u / t + 1 ∨ u / t = v / t + 1))) ∧ 0 < t := by
  refine and_congr_left fun ht => ?_
  have e1 := Nat.div_add_mod u t
  have e2 := Nat.div_add_mod v t
  have b1 := Nat.mod_lt u ht
  have b2 := Nat.mod_lt v ht
  have hv : ∀ u v : ℕ, v = u + t ↔ u % t = v % t ∧ v / t = u / t + 1 := by
    intro u v
    constructor
    · rintro rfl; simp [Nat.add_div_right _ ht]
    · rintro ⟨h1, h2⟩
      have e1 := Nat.div_add_mod u t
      have e2 := Nat.div_add_mod v t
      rw [h2, Nat.mul_add, Nat.mul_one, ← h1] at e2
      omega
  rw [hv u v, hv v u]
  constructor
  · rintro (⟨h1, h⟩ | h | h)
    · refine Or.inl ⟨h1, ?_⟩
      rw [h1] at e1; omega
    · exact Or.inr ⟨h.1, Or.inl h.2⟩
    · exact Or.inr ⟨h.1.symm, Or.inr h.2⟩
  · rintro (⟨h1, h⟩ | ⟨h1, h | h⟩)
    · refine Or.inl ⟨h1, ?_⟩
      rw [h1] at e1; omega
    · exact Or.inr (Or.inl ⟨h1, h⟩)
    · exact Or.inr (Or.inr ⟨h1.symm, h⟩)

/-- **C11 (grid)**: proved except for the `1 × 1` grid, which is returned without its vertex. -/
theorem C11_grid_partial (s t : ℕ) (h : s * t < 2 ^ 32) (h1 : ¬ (s = 1 ∧ t = 1)) :
    Generates (grid s t) (fun u => u < s * t) (fun u v => u < s * t ∧ v < s * t ∧
      ((u / t = v / t ∧ (v % t = u % t + 1 ∨ u % t = v % t + 1)) ∨
       (u % t = v % t ∧ (v / t = u / t + 1 ∨ u / t = v / t + 1)))) := by
  refine (Generates.of_is (is_grid s t h)).congr (fun u => ?_) (fun u v => ?_)
  · have : s * t ≠ 1 := fun he => h1 ⟨Nat.eq_one_of_mul_eq_one_right he, Nat.eq_one_of_mul_eq_one_left he⟩
    simp [this]
  · refine and_congr_right fun hu => and_congr_right fun _ => ?_
    have ht : 0 < t := by
      rcases Nat.eq_zero_or_pos t with rfl | ht
      · simp at hu
      · exact ht
    have := grid_cell t u v
    simpa only [ht, and_true] using this

/-- `C11_grid_partial` for small sizes. -/
example := C11_grid_partial 2 3 (by decide) (by decide)

theorem C11_grid_refuted : ¬ C11_grid_statement := by
  intro H
  obtain ⟨g, h1, -, h2, -⟩ := H 1 1 (by decide)
  have : (grid 1 1).map (fun g => g.contains 0) = .ok false := by decide
  rw [h1] at this
  have h3 := (h2 0).2 (by decide)
  simp only [Except.map, h3] at this
  exact absurd this (by decide)

example : 2 * 1000 ≤ 2 ^ 32 := by decide
example : ([2, 0, 3].sum < 2 ^ 32) ∧ 2 ≤ ([2, 0, 3].filter (0 < ·)).length ∧ partOf [2, 0, 3] 2 = 2 := by decide
example : (0 < 3 ∧ 0 < 2 ∧ 3 + 2 < 2 ^ 32) ∧ (0 < 5 ∧ 5 + 1 < 2 ^ 32) := by decide
example : 3 * 4 < 2 ^ 32 ∧ ¬ (3 = 1 ∧ 4 = 1) := by decide
example : (grid 2 3).map (fun g => (g.numVertices, g.numEdges, g.adjacent 2 3, g.adjacent 1 4))
    = .ok (6, 7, false, true) := by decide

end Verif
