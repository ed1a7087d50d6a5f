import Verif.Lemmas.Basic
import Mathlib.Data.List.Count
/-!
# Histograms: maps that count the elements of a list by a key
-/
namespace Verif
variable {κ ι : Type} [DecidableEq κ] [DecidableEq ι]

/-- `m` holds, for every key `k` that occurs, the number of `y` in `W` with `f y = k`. -/
def Hist (m : HMap κ ℕ) (W : List ℕ) (f : ℕ → κ) : Prop :=
  ∀ k, m.get? k = if W.countP (fun y => decide (f y = k)) = 0 then none else some (W.countP (fun y => decide (f y = k)))

/-- The `y` in `W` whose key is in `pre`. -/
def Hist.part (W : List ℕ) (f : ℕ → κ) (pre : List κ) : List ℕ := W.filter (fun y => decide (f y ∈ pre))

namespace Hist
variable {m : HMap κ ℕ} {W : List ℕ} {f f' : ℕ → κ} {g : ℕ → ι}

theorem empty : Hist (∅ : HMap κ ℕ) [] f := fun k => by simp

theorem mem_part {pre : List κ} {y : ℕ} : y ∈ part W f pre ↔ y ∈ W ∧ f y ∈ pre := by
  unfold part
  rw [List.mem_filter, decide_eq_true_eq]

theorem empty' : Hist (∅ : HMap ι ℕ) (part W f []) g := by
  unfold part
  simpa using Hist.empty

theorem getD (h : Hist m W f) (k : κ) : m.getD k 0 = W.countP (fun y => decide (f y = k)) := by
  unfold HMap.getD
  rw [h k]
  split
  · next h0 => rw [h0]; rfl
  · rfl

theorem congr (h : Hist m W f) (he : ∀ y ∈ W, f y = f' y) : Hist m W f' := by
  intro k
  have : W.countP (fun y => decide (f' y = k)) = W.countP (fun y => decide (f y = k)) :=
    List.countP_congr fun y hy => by rw [he y hy]
  rw [this]
  exact h k

theorem of_getD (h : ∀ k, m.getD k 0 = W.countP (fun y => decide (f y = k))) (h0 : ∀ k, m.get? k ≠ some 0) : Hist m W f := by
  intro k
  rw [← h k]
  have h1 := h0 k
  unfold HMap.getD
  cases hk : m.get? k with
  | none => simp
  | some n =>
    rw [hk] at h1
    have : n ≠ 0 := fun h => h1 (by rw [h])
    simp [this]

theorem get?_ne_zero (h : Hist m W f) (k : κ) : m.get? k ≠ some 0 := by
  rw [h k]
  split
  · exact fun h => by cases h
  · next h0 => exact fun h => h0 (Option.some.inj h)

/-- An entry of the map. -/
theorem of_mem (h : Hist m W f) {k : κ} {c : ℕ} (he : (k, c) ∈ m.entries) :
    c = W.countP (fun y => decide (f y = k)) ∧ 0 < c := by
  have h1 := HMap.get?_eq_some.2 he
  have h2 := h.getD k
  unfold HMap.getD at h2
  rw [h1] at h2
  refine ⟨h2, Nat.pos_of_ne_zero fun h0 => h.get?_ne_zero k (by rw [h1, h0])⟩

theorem mem_keys (h : Hist m W f) {y : ℕ} (hy : y ∈ W) : f y ∈ m.keys := by
  rw [HMap.mem_keys_iff]
  refine ⟨_, (h (f y)).trans (if_neg fun h0 => ?_)⟩
  rw [List.countP_eq_zero] at h0
  exact h0 y hy (by simp)

theorem keys_iff (h : Hist m W f) {k : κ} : k ∈ m.keys ↔ ∃ y ∈ W, f y = k := by
  constructor
  · intro hk
    obtain ⟨c, hc⟩ := HMap.mem_keys_iff.1 hk
    obtain ⟨h1, h2⟩ := h.of_mem (HMap.get?_eq_some.1 hc)
    rw [h1, List.countP_pos_iff] at h2
    obtain ⟨y, hy, hfy⟩ := h2
    exact ⟨y, hy, of_decide_eq_true hfy⟩
  · rintro ⟨y, hy, rfl⟩
    exact h.mem_keys hy

/-- `*m.entry(f y).or_default() += 1`. -/
theorem push (h : Hist m W f) (y : ℕ) : Hist (m.insert (f y) (m.getD (f y) 0 + 1)) (W ++ [y]) f := by
  intro k
  rw [HMap.get?_insert, List.countP_append, List.countP_singleton]
  by_cases hk : k = f y
  · subst hk
    rw [if_pos rfl, h.getD]
    simp
  · have hk' : ¬ f y = k := fun h => hk h.symm
    rw [if_neg hk, h k]
    simp [hk']

/-- Adding up the entries of a histogram under a coarser key. -/
theorem addStep {g : κ → ι} {m' : HMap ι ℕ} {pre : List κ} {b : κ} {c : ℕ}
    (h' : Hist m' (part W f pre) (fun y => g (f y))) (hb : b ∉ pre)
    (hc : c = W.countP (fun y => decide (f y = b))) (hc0 : 0 < c) :
    Hist (m'.insert (g b) (m'.getD (g b) 0 + c)) (part W f (pre ++ [b])) (fun y => g (f y)) := by
  have key : ∀ k, (part W f (pre ++ [b])).countP (fun y => decide (g (f y) = k)) =
      (part W f pre).countP (fun y => decide (g (f y) = k)) + if k = g b then c else 0 := by
    intro k
    unfold part
    rw [hc, List.countP_filter, List.countP_filter]
    clear hc h'
    induction W with
    | nil => simp
    | cons y W ih =>
      rw [List.countP_cons, List.countP_cons, List.countP_cons, ih]
      by_cases h1 : f y = b
      · rw [h1]
        by_cases h2 : k = g b
        · subst h2; simp [hb]; omega
        · have h3 : ¬ g b = k := fun h => h2 h.symm
          simp [h2, h3]
      · by_cases h2 : k = g b
        · subst h2; simp [h1]; omega
        · simp [h1, h2]
  intro k
  rw [HMap.get?_insert, key k]
  by_cases hk : k = g b
  · subst hk
    rw [if_pos rfl, h'.getD, if_pos rfl, if_neg (by omega)]
  · rw [if_neg hk, h' k, if_neg hk]
    simp

theorem filter_all {m : HMap κ ℕ} (h : Hist m W f) {l : List (κ × ℕ)} (hl : l.Perm m.entries) :
    part W f (l.map Prod.fst) = W := by
  unfold part
  rw [List.filter_eq_self]
  intro y hy
  rw [decide_eq_true_eq, (hl.map _).mem_iff]
  exact h.mem_keys hy

theorem entry {l pre post : List (κ × ℕ)} {e : κ × ℕ} (h : Hist m W f) (hl : l.Perm m.entries) (hs : l = pre ++ e :: post) :
    e.1 ∉ pre.map Prod.fst ∧ e.2 = W.countP (fun y => decide (f y = e.1)) ∧ 0 < e.2 := by
  have hn : (l.map Prod.fst).Nodup := (hl.map _).nodup_iff.2 m.nodup
  rw [hs, List.map_append, List.map_cons] at hn
  refine ⟨fun hc => ?_, h.of_mem (hl.mem_iff.1 (by rw [hs]; simp))⟩
  exact (List.nodup_append.1 hn).2.2 _ hc _ (by simp) rfl

/-- Sum of the counts whose key satisfies a predicate. -/
theorem sum {p : κ → Prop} [DecidablePred p] {l : List (κ × ℕ)} (h : Hist m W f) (hl : l.Perm m.entries) :
    l.foldl (fun res e => if p e.1 then res + e.2 else res) 0 = W.countP (fun y => decide (p (f y))) := by
  have key := foldl_inv (f := fun res (e : κ × ℕ) => if p e.1 then res + e.2 else res) (l := l) (b := 0)
    (fun pre res => res = (part W f (pre.map Prod.fst)).countP (fun y => decide (p (f y))))
    (by simp [part]) ?_
  · rw [key, h.filter_all hl]
  · rintro pre e post _ hs rfl
    obtain ⟨h1, h2, h3⟩ := h.entry hl hs
    unfold part
    rw [h2, List.countP_filter, List.countP_filter, List.map_append]
    clear h h2 h3
    induction W with
    | nil => simp
    | cons y W ih =>
      rw [List.countP_cons, List.countP_cons, List.countP_cons, ← ih]
      by_cases hy : f y = e.1
      · rw [hy]
        by_cases hp : p e.1
        · simp [hp, h1]; omega
        · simp [hp, h1]
      · have hm : (f y ∈ pre.map Prod.fst ++ [e].map Prod.fst) = (f y ∈ pre.map Prod.fst) := by
          simp [hy]
        simp only [hm, hy, decide_false, Bool.false_eq_true, if_false, Nat.add_zero]
        by_cases hp : p e.1
        · simp only [hp, if_true]; omega
        · simp only [hp, if_false]

end Hist

/-- Changing the key of the elements satisfying `q` from `P` to `K`. -/
theorem countP_move {W : List ℕ} {f f' : ℕ → κ} {q : ℕ → Prop} [DecidablePred q] {P K : κ}
    (h : ∀ y ∈ W, f' y = if q y then K else f y) (hq : ∀ y ∈ W, q y → f y = P) (T : κ) :
    W.countP (fun y => decide (f' y = T)) + (if T = P then W.countP (fun y => decide (q y)) else 0) =
      W.countP (fun y => decide (f y = T)) + if T = K then W.countP (fun y => decide (q y)) else 0 := by
  induction W with
  | nil => simp
  | cons y W ih =>
    have ih := ih (fun z hz => h z (by simp [hz])) (fun z hz => hq z (by simp [hz]))
    rw [List.countP_cons, List.countP_cons, List.countP_cons, h y (by simp)]
    by_cases hy : q y
    · rw [hq y (by simp) hy, if_pos hy]
      simp only [hy, decide_true, if_true]
      by_cases h1 : T = P <;> by_cases h2 : T = K
      · subst h1; subst h2; simp at ih ⊢; omega
      · subst h1
        have h3 : ¬ K = T := fun h => h2 h.symm
        simp [h2, h3] at ih ⊢; omega
      · subst h2
        have h3 : ¬ P = T := fun h => h1 h.symm
        simp [h1, h3] at ih ⊢; omega
      · have h3 : ¬ P = T := fun h => h1 h.symm
        have h4 : ¬ K = T := fun h => h2 h.symm
        simp [h1, h2, h3, h4] at ih ⊢; omega
    · simp only [hy, if_false, decide_false]
      simp only [Bool.false_eq_true, if_false, Nat.add_zero]
      omega

end Verif
