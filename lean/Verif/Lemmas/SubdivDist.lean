import Verif.Lemmas.Subdivide
import Verif.Spec.Core
/-!
# Walks and colourings in a subdivided graph
-/
namespace Verif
namespace Subdiv

variable {S S' : SGraph} {es : List (ℕ × ℕ)} {b t : ℕ}

/-- The facts about the result of `subdivide` that are used below. -/
structure Data (S S' : SGraph) (es : List (ℕ × ℕ)) (b t : ℕ) : Prop where
  enum : EdgeEnum es S
  fresh : ∀ v ∈ S.V, v < b
  verts : ∀ w, w ∈ S'.V ↔ w ∈ S.V ∨ (b ≤ w ∧ w < b + t * S.E.card)
  adj : ∀ a c, S'.Adj a c ↔ ∃ i < es.length, ∃ j ≤ t,
    (a = subdivVertex es b t i j ∧ c = subdivVertex es b t i (j + 1)) ∨
    (a = subdivVertex es b t i (j + 1) ∧ c = subdivVertex es b t i j)

theorem pos_zero {i : ℕ} (hi : i < es.length) : subdivVertex es b t i 0 = es[i].1 := by
  simp [subdivVertex, pathPos, List.getElem?_eq_getElem hi]

theorem pos_last {i : ℕ} (hi : i < es.length) : subdivVertex es b t i (t + 1) = es[i].2 := by
  simp [subdivVertex, pathPos, List.getElem?_eq_getElem hi]

theorem pos_inner {i j : ℕ} (hi : i < es.length) (h1 : 1 ≤ j) (h2 : j ≤ t) :
    subdivVertex es b t i j = b + i * t + (j - 1) := by
  simp [subdivVertex, pathPos, List.getElem?_eq_getElem hi, h2, show j ≠ 0 by omega]

theorem inner_unique {i j i' j' : ℕ} (h1 : 1 ≤ j) (h2 : j ≤ t) (h1' : 1 ≤ j') (h2' : j' ≤ t)
    (h : b + i * t + (j - 1) = b + i' * t + (j' - 1)) : i = i' ∧ j = j' := by
  have htpos : 0 < t := by omega
  have e : i * t + (j - 1) = i' * t + (j' - 1) := by omega
  have hii : i = i' := by
    have := congrArg (· / t) e
    simp only [Nat.mul_comm _ t, Nat.mul_add_div htpos] at this
    rw [Nat.div_eq_of_lt (by omega : j - 1 < t), Nat.div_eq_of_lt (by omega : j' - 1 < t)] at this
    simpa using this
  subst hii
  exact ⟨rfl, by omega⟩

namespace Data

theorem edge (D : Data S S' es b t) {i : ℕ} (hi : i < es.length) : S.Adj es[i].1 es[i].2 :=
  ((D.enum.mem _ _).1 (List.getElem_mem hi)).2

theorem old_left (D : Data S S' es b t) {i : ℕ} (hi : i < es.length) : es[i].1 ∈ S.V := (D.edge hi).left

theorem old_right (D : Data S S' es b t) {i : ℕ} (hi : i < es.length) : es[i].2 ∈ S.V := (D.edge hi).right

/-- An old vertex occurs only at the ends of the paths. -/
theorem pos_old (D : Data S S' es b t) {i j : ℕ} (hi : i < es.length) (hj : j ≤ t + 1)
    (h : subdivVertex es b t i j ∈ S.V) : j = 0 ∨ j = t + 1 := by
  by_contra hc
  rw [pos_inner hi (by omega) (by omega)] at h
  have := D.fresh _ h
  omega

/-- Initial part of a path. -/
theorem walk_to (D : Data S S' es b t) {i : ℕ} (hi : i < es.length) (j k : ℕ) (hk : j + k ≤ t + 1) :
    Walk S'.Adj k (subdivVertex es b t i j) (subdivVertex es b t i (j + k)) := by
  induction k generalizing j with
  | zero => exact .nil _
  | succ k ih =>
    refine .cons ((D.adj _ _).2 ⟨i, hi, j, by omega, Or.inl ⟨rfl, rfl⟩⟩) ?_
    have := ih (j + 1) (by omega)
    rwa [show j + 1 + k = j + (k + 1) by omega] at this

/-- An edge becomes a walk with `t + 1` edges. -/
theorem walk_edge (D : Data S S' es b t) {u v : ℕ} (h : S.Adj u v) : Walk S'.Adj (t + 1) u v := by
  rcases D.enum.adj_iff.1 h with h | h
  · obtain ⟨i, hi, he⟩ := List.getElem_of_mem h
    have := D.walk_to hi 0 (t + 1) (by omega)
    rw [Nat.zero_add, pos_zero hi, pos_last hi, he] at this
    exact this
  · obtain ⟨i, hi, he⟩ := List.getElem_of_mem h
    have := D.walk_to hi 0 (t + 1) (by omega)
    rw [Nat.zero_add, pos_zero hi, pos_last hi, he] at this
    exact this.symm (fun _ _ => SGraph.Adj.symm)

theorem walk_up (D : Data S S' es b t) {r u v : ℕ} (h : Walk S.Adj r u v) : Walk S'.Adj ((t + 1) * r) u v := by
  induction h with
  | nil u => exact .nil u
  | @cons n u v w h _ ih =>
    have := (D.walk_edge h).append ih
    rwa [show t + 1 + (t + 1) * n = (t + 1) * (n + 1) by rw [Nat.mul_succ, Nat.add_comm]] at this

/-- `w` is at distance `k` from the old vertex `a`, on one of the paths ending there. -/
def Near (S : SGraph) (es : List (ℕ × ℕ)) (b t a w k : ℕ) : Prop :=
  (a = w ∧ k = 0 ∧ w ∈ S.V) ∨ ∃ (i : ℕ) (hi : i < es.length) (j : ℕ), 1 ≤ j ∧ j ≤ t ∧ w = subdivVertex es b t i j ∧
    ((a = es[i].1 ∧ k = j) ∨ (a = es[i].2 ∧ k = t + 1 - j))

/-- A walk to an old vertex passes through an old vertex near its start. -/
theorem walk_down (D : Data S S' es b t) {n u v : ℕ} (h : Walk S'.Adj n u v) (hv : v ∈ S.V) :
    ∃ a m k, Walk S.Adj m a v ∧ (t + 1) * m + k ≤ n ∧ Near S es b t a u k := by
  induction h with
  | nil u => exact ⟨u, 0, 0, .nil u, by omega, Or.inl ⟨rfl, rfl, hv⟩⟩
  | @cons n u w v h _ ih =>
    obtain ⟨a, m, k, hm, hle, hN⟩ := ih hv
    -- an old vertex next on the walk is the anchor itself
    have hadj := (D.adj _ _).1 h
    rcases hN with ⟨rfl, rfl, hw⟩ | ⟨i, hi, j, hj1, hj2, hwe, hN⟩
    · -- `w` is old
      obtain ⟨i, hi, j, hj, ⟨h1, h2⟩ | ⟨h1, h2⟩⟩ := hadj
      · have := D.pos_old hi (j := j + 1) (by omega) (h2 ▸ hw)
        obtain rfl : j = t := by omega
        rw [pos_last hi] at h2
        rcases Nat.eq_zero_or_pos j with h0 | h0
        · subst h0
          rw [pos_zero hi] at h1
          refine ⟨u, m + 1, 0, .cons ?_ hm, by omega, Or.inl ⟨rfl, rfl, h1 ▸ D.old_left hi⟩⟩
          rw [h1, h2]; exact D.edge hi
        · exact ⟨a, m, 1, hm, by omega, Or.inr ⟨i, hi, j, h0, le_refl _, h1, Or.inr ⟨h2, by omega⟩⟩⟩
      · have := D.pos_old hi (j := j) (by omega) (h2 ▸ hw)
        obtain rfl : j = 0 := by omega
        rw [pos_zero hi] at h2
        rcases Nat.eq_zero_or_pos t with h0 | h0
        · subst h0
          rw [pos_last hi] at h1
          refine ⟨u, m + 1, 0, .cons ?_ hm, by omega, Or.inl ⟨rfl, rfl, h1 ▸ D.old_right hi⟩⟩
          rw [h1, h2]; exact (D.edge hi).symm
        · exact ⟨a, m, 1, hm, by omega, Or.inr ⟨i, hi, 1, le_refl _, h0, h1, Or.inl ⟨h2, rfl⟩⟩⟩
    · -- `w` is fresh
      have hwi := hwe
      rw [pos_inner hi hj1 hj2] at hwi
      have key : ∀ i' j', i' < es.length → j' ≤ t + 1 → w = subdivVertex es b t i' j' → i' = i ∧ j' = j := by
        intro i' j' hi' hj' he
        by_cases hc : j' = 0 ∨ j' = t + 1
        · exfalso
          have hold : w ∈ S.V := by
            rcases hc with rfl | rfl
            · rw [he, pos_zero hi']; exact D.old_left hi'
            · rw [he, pos_last hi']; exact D.old_right hi'
          have := D.fresh _ hold
          omega
        · rw [he, pos_inner hi' (by omega) (by omega)] at hwi
          exact inner_unique (by omega) (by omega) hj1 hj2 hwi
      obtain ⟨i', hi', j', hj', ⟨h1, h2⟩ | ⟨h1, h2⟩⟩ := hadj
      · obtain ⟨rfl, he⟩ := key i' (j' + 1) hi' (by omega) h2
        rcases Nat.eq_zero_or_pos j' with h0 | h0
        · subst h0
          rw [pos_zero hi] at h1
          rcases hN with ⟨ha, hk⟩ | ⟨ha, hk⟩
          · exact ⟨u, m, 0, by rw [h1, ← ha]; exact hm, by omega, Or.inl ⟨rfl, rfl, h1 ▸ D.old_left hi⟩⟩
          · refine ⟨u, m + 1, 0, .cons ?_ hm, ?_, Or.inl ⟨rfl, rfl, h1 ▸ D.old_left hi⟩⟩
            · rw [h1, ha]; exact D.edge hi
            · rw [Nat.mul_succ]; omega
        · rcases hN with ⟨ha, hk⟩ | ⟨ha, hk⟩
          · exact ⟨a, m, j', hm, by omega, Or.inr ⟨i', hi, j', h0, by omega, h1, Or.inl ⟨ha, rfl⟩⟩⟩
          · exact ⟨a, m, t + 1 - j', hm, by omega, Or.inr ⟨i', hi, j', h0, by omega, h1, Or.inr ⟨ha, rfl⟩⟩⟩
      · obtain ⟨rfl, he⟩ := key i' j' hi' (by omega) h2
        by_cases h0 : j' = t
        · rw [h0, pos_last hi] at h1
          rcases hN with ⟨ha, hk⟩ | ⟨ha, hk⟩
          · refine ⟨u, m + 1, 0, .cons ?_ hm, ?_, Or.inl ⟨rfl, rfl, h1 ▸ D.old_right hi⟩⟩
            · rw [h1, ha]; exact (D.edge hi).symm
            · rw [Nat.mul_succ]; omega
          · exact ⟨u, m, 0, by rw [h1, ← ha]; exact hm, by omega, Or.inl ⟨rfl, rfl, h1 ▸ D.old_right hi⟩⟩
        · rcases hN with ⟨ha, hk⟩ | ⟨ha, hk⟩
          · exact ⟨a, m, j' + 1, hm, by omega, Or.inr ⟨i', hi, j' + 1, by omega, by omega, h1, Or.inl ⟨ha, rfl⟩⟩⟩
          · exact ⟨a, m, t + 1 - (j' + 1), hm, by omega,
              Or.inr ⟨i', hi, j' + 1, by omega, by omega, h1, Or.inr ⟨ha, rfl⟩⟩⟩

/-- Between old vertices all distances are multiplied by `t + 1`. -/
theorem walk_iff (D : Data S S' es b t) {u v : ℕ} (hu : u ∈ S.V) (hv : v ∈ S.V) (n : ℕ) :
    (∃ d ≤ n, Walk S'.Adj d u v) ↔ ∃ d ≤ n / (t + 1), Walk S.Adj d u v := by
  constructor
  · rintro ⟨d, hd, h⟩
    obtain ⟨a, m, k, hm, hle, hN⟩ := D.walk_down h hv
    rcases hN with ⟨rfl, -, -⟩ | ⟨i, hi, j, hj1, hj2, hwe, -⟩
    · refine ⟨m, ?_, hm⟩
      rw [Nat.le_div_iff_mul_le (by omega), Nat.mul_comm]
      omega
    · rw [pos_inner hi hj1 hj2] at hwe
      have := D.fresh _ hu
      omega
  · rintro ⟨d, hd, h⟩
    rw [Nat.le_div_iff_mul_le (by omega), Nat.mul_comm] at hd
    exact ⟨_, hd, D.walk_up h⟩

/-- A fresh vertex has an index and a position. -/
theorem fresh_pos (D : Data S S' es b t) {w : ℕ} (hw : w ∈ S'.V) (hn : w ∉ S.V) :
    ∃ i, i < es.length ∧ ∃ j, 1 ≤ j ∧ j ≤ t ∧ w = subdivVertex es b t i j := by
  have hw2 : b ≤ w ∧ w < b + t * S.E.card := ((D.verts w).1 hw).resolve_left hn
  have htpos : 0 < t := by
    rcases Nat.eq_zero_or_pos t with h | h
    · subst h; omega
    · exact h
  rw [← D.enum.length] at hw2
  refine ⟨(w - b) / t, ?_, (w - b) % t + 1, by omega, ?_, ?_⟩
  · rw [Nat.div_lt_iff_lt_mul htpos, Nat.mul_comm]; omega
  · have := Nat.mod_lt (w - b) htpos; omega
  · rw [pos_inner (by rw [Nat.div_lt_iff_lt_mul htpos, Nat.mul_comm]; omega) (by omega)
      (by have := Nat.mod_lt (w - b) htpos; omega)]
    have := Nat.div_add_mod (w - b) t
    rw [Nat.mul_comm] at this
    omega

/-- Along a walk a 2-colouring alternates. -/
theorem alternate {R : ℕ → ℕ → Prop} {f : ℕ → Bool} (hf : ∀ a c, R a c → f a ≠ f c) {n u v : ℕ} (h : Walk R n u v) :
    f v = xor (f u) (decide (n % 2 = 1)) := by
  induction h with
  | nil u => simp
  | @cons n u w v h _ ih =>
    rw [ih]
    have h1 := hf _ _ h
    have h2 : (n + 1) % 2 = 1 ↔ ¬ n % 2 = 1 := by omega
    simp only [h2, decide_not]
    revert h1
    cases f u <;> cases f w <;> cases decide (n % 2 = 1) <;> simp

/-- The subdivided graph is 2-colourable iff `t` is odd or the graph is 2-colourable. -/
theorem twoColourable (D : Data S S' es b t) : S'.TwoColourable ↔ t % 2 = 1 ∨ S.TwoColourable := by
  constructor
  · rintro ⟨f, hf⟩
    by_cases ht : t % 2 = 1
    · exact Or.inl ht
    · refine Or.inr ⟨f, fun u v h => ?_⟩
      have := alternate hf (D.walk_edge h)
      rw [this]
      have h2 : (t + 1) % 2 = 1 := by omega
      simp [h2]
  · intro hc
    obtain ⟨f, hf⟩ : ∃ f : ℕ → Bool, ∀ u v, S.Adj u v → f v = xor (f u) (decide ((t + 1) % 2 = 1)) := by
      by_cases ht : t % 2 = 1
      · refine ⟨fun _ => false, fun u v _ => ?_⟩
        have : ¬ (t + 1) % 2 = 1 := by omega
        simp [this]
      · obtain ⟨f, hf⟩ := hc.resolve_left ht
        refine ⟨f, fun u v h => ?_⟩
        have h1 := hf u v h
        have : (t + 1) % 2 = 1 := by omega
        simp only [this, decide_true]
        revert h1
        cases f u <;> cases f v <;> simp
    -- colour of position `j` on path `i`
    have hcol : ∃ g : ℕ → Bool, ∀ i (hi : i < es.length), ∀ j, j ≤ t + 1 →
        g (subdivVertex es b t i j) = xor (f es[i].1) (decide (j % 2 = 1)) := by
      refine ⟨fun w => if w < b then f w else
        xor (f ((es[(w - b) / t]?.map Prod.fst).getD 0)) (decide (((w - b) % t + 1) % 2 = 1)), fun i hi j hj => ?_⟩
      by_cases h0 : j = 0
      · subst h0
        rw [pos_zero hi]
        simp [D.fresh _ (D.old_left hi)]
      · by_cases h1 : j = t + 1
        · subst h1
          rw [pos_last hi]
          simp only [D.fresh _ (D.old_right hi), if_true]
          exact hf _ _ (D.edge hi)
        · rw [pos_inner hi (by omega) (by omega)]
          have htpos : 0 < t := by omega
          have e0 : b + i * t + (j - 1) - b = t * i + (j - 1) := by rw [Nat.mul_comm]; omega
          have e1 : (b + i * t + (j - 1) - b) / t = i := by
            rw [e0, Nat.mul_add_div htpos, Nat.div_eq_of_lt (by omega)]; omega
          have e2 : (b + i * t + (j - 1) - b) % t + 1 = j := by
            rw [e0, Nat.mul_add_mod, Nat.mod_eq_of_lt (by omega)]; omega
          beta_reduce
          rw [if_neg (by omega), e1, e2, List.getElem?_eq_getElem hi]
          rfl
    obtain ⟨g, hg⟩ := hcol
    refine ⟨g, fun u v h => ?_⟩
    obtain ⟨i, hi, j, hj, ⟨rfl, rfl⟩ | ⟨rfl, rfl⟩⟩ := (D.adj _ _).1 h
    all_goals
      rw [hg i hi j (by omega), hg i hi (j + 1) (by omega)]
      have h2 : (j + 1) % 2 = 1 ↔ ¬ j % 2 = 1 := by omega
      simp only [h2, decide_not]
      cases f es[i].1 <;> cases decide (j % 2 = 1) <;> simp

end Data
end Subdiv
end Verif
