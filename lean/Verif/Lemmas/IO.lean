import Mathlib.Data.List.TakeWhile
import Verif.Model.IO
import Verif.Spec.Text
import Mathlib.Data.Nat.Digits.Lemmas
import Verif.Lemmas.Operations
/-! # Lemmas about parsing and printing -/
namespace Verif.IO

theorem isWs_iff {c : Char} : isWs c = true ↔ IsWs c := by
  unfold isWs IsWs
  simp only [Bool.or_eq_true, Bool.and_eq_true, decide_eq_true_eq, beq_iff_eq]
  tauto

theorem digit_not_ws {c : Char} (h : 48 ≤ c.toNat ∧ c.toNat ≤ 57) : isWs c = false := by
  rw [Bool.eq_false_iff]
  intro hc
  rw [isWs_iff] at hc
  unfold IsWs at hc
  omega

/-! ### Numbers -/

theorem decValue_cons {c : Char} {ds : List Char} :
    decValue (c :: ds) = (c.toNat - 48) * 10 ^ ds.length + decValue ds := by
  unfold decValue
  rw [List.map_cons, List.reverse_cons, Nat.ofDigits_append]
  simp [Nat.ofDigits_singleton, Nat.mul_comm, Nat.add_comm]

theorem parseDigits_iff (ds : List Char) : ∀ (acc n : ℕ), acc < 2 ^ 32 → (parseDigits acc ds = some n ↔
    (∀ c ∈ ds, 48 ≤ c.toNat ∧ c.toNat ≤ 57) ∧ n = acc * 10 ^ ds.length + decValue ds ∧ n < 2 ^ 32) := by
  induction ds with
  | nil =>
    intro acc n ha
    simp only [parseDigits, Option.some.injEq, decValue, List.map_nil, List.reverse_nil, Nat.ofDigits_nil,
      List.length_nil, pow_zero, Nat.mul_one, Nat.add_zero]
    constructor
    · rintro rfl; exact ⟨by simp, rfl, ha⟩
    · rintro ⟨-, rfl, -⟩; rfl
  | cons c ds ih =>
    intro acc n ha
    unfold parseDigits
    by_cases hd : 48 ≤ c.toNat ∧ c.toNat ≤ 57
    · rw [if_pos hd]
      simp only
      have e : acc * 10 ^ (c :: ds).length + decValue (c :: ds)
          = (acc * 10 + (c.toNat - 48)) * 10 ^ ds.length + decValue ds := by
        rw [decValue_cons, List.length_cons, pow_succ, Nat.add_mul]
        rw [show acc * (10 ^ ds.length * 10) = acc * 10 * 10 ^ ds.length by
          rw [Nat.mul_comm (10 ^ ds.length), Nat.mul_assoc]]
        omega
      by_cases hn : acc * 10 + (c.toNat - 48) < 2 ^ 32
      · rw [if_pos hn, ih _ _ hn, e]
        simp [hd]
      · rw [if_neg hn, e]
        simp only [reduceCtorEq, false_iff]
        rintro ⟨-, rfl, h⟩
        have : 1 ≤ 10 ^ ds.length := Nat.one_le_pow _ _ (by omega)
        have h2 := Nat.mul_le_mul_left (acc * 10 + (c.toNat - 48)) this
        omega
    · rw [if_neg hd]
      simp only [reduceCtorEq, false_iff]
      rintro ⟨h, -⟩
      exact hd (h c (by simp))

theorem plus_not_digit : ¬ (48 ≤ ('+' : Char).toNat ∧ ('+' : Char).toNat ≤ 57) := by decide

theorem parseVertex_iff {s : List Char} {n : ℕ} : parseVertex s = some n ↔ DecToken s n := by
  have key : ∀ ds : List Char, ds ≠ [] → (parseDigits 0 ds = some n ↔
      (∀ c ∈ ds, 48 ≤ c.toNat ∧ c.toNat ≤ 57) ∧ n = decValue ds ∧ n < 2 ^ 32) := by
    intro ds _
    rw [parseDigits_iff ds 0 n (by decide)]; simp
  unfold DecToken
  unfold parseVertex
  split
  · simp only [reduceCtorEq, false_iff]
    rintro ⟨ds, h0, -, h | h, -⟩
    · exact h0 h.symm
    · simp at h
  · simp only [reduceCtorEq, false_iff]
    rintro ⟨ds, h0, hd, h | h, -⟩
    · subst h; exact plus_not_digit (hd '+' (by simp))
    · simp at h; exact h0 h
  · next t ht =>
    have htne : t ≠ [] := fun h => ht (by rw [h])
    rw [key t htne]
    constructor
    · rintro ⟨h1, h2, h3⟩; exact ⟨t, htne, h1, Or.inr rfl, h2, h3⟩
    · rintro ⟨ds, h0, hd, h | h, h2⟩
      · subst h; exact absurd (hd '+' (by simp)) plus_not_digit
      · simp at h; subst h; exact ⟨hd, h2⟩
  · next h1 h2 h3 =>
    rw [key s h1]
    constructor
    · rintro ⟨h1', h2', h3'⟩; exact ⟨s, h1, h1', Or.inl rfl, h2', h3'⟩
    · rintro ⟨ds, h0, hd, h | h, h2'⟩
      · subst h; exact ⟨hd, h2'⟩
      · exact absurd h (h3 ds)

theorem _root_.Verif.DecToken.ne_nil {s : List Char} {n : ℕ} (h : DecToken s n) : s ≠ [] := by
  obtain ⟨ds, h0, -, h | h, -⟩ := h
  · rw [h]; exact h0
  · rw [h]; simp

theorem _root_.Verif.DecToken.not_ws {s : List Char} {n : ℕ} (h : DecToken s n) : ∀ c ∈ s, isWs c = false := by
  obtain ⟨ds, h0, hd, h | h, -⟩ := h
  · subst h; exact fun c hc => digit_not_ws (hd c hc)
  · subst h
    intro c hc
    rcases List.mem_cons.1 hc with rfl | hc
    · decide
    · exact digit_not_ws (hd c hc)

theorem decToken_unique {s : List Char} {n m : ℕ} (h : DecToken s n) (h' : DecToken s m) : n = m := by
  rw [← parseVertex_iff] at h h'
  rw [h] at h'; exact Option.some.inj h'

theorem digitChar : ∀ d < 10, (Char.ofNat (48 + d)).toNat = 48 + d := by decide

theorem render_token {n : ℕ} (hn : n < 2 ^ 32) : DecToken (render n) n := by
  unfold render
  split
  · next h =>
    subst h
    exact ⟨['0'], by simp, by simp, Or.inl rfl, by decide, by decide⟩
  · next h =>
    refine ⟨_, ?_, ?_, Or.inl rfl, ?_, hn⟩
    · simp [Nat.digits_ne_nil_iff_ne_zero, h]
    · intro c hc
      simp only [List.mem_map, List.mem_reverse] at hc
      obtain ⟨d, hd, rfl⟩ := hc
      have := Nat.digits_lt_base (by omega : 1 < 10) hd
      rw [digitChar d this]; omega
    · unfold decValue
      rw [List.map_map, List.map_reverse, List.reverse_reverse]
      have : (Nat.digits 10 n).map ((fun c : Char => c.toNat - 48) ∘ fun d => Char.ofNat (48 + d))
          = Nat.digits 10 n := by
        conv_rhs => rw [← List.map_id (Nat.digits 10 n)]
        refine List.map_congr_left fun d hd => ?_
        have := Nat.digits_lt_base (by omega : 1 < 10) hd
        simp [digitChar d this]
      rw [this, Nat.ofDigits_digits]

theorem render_no_nl {n : ℕ} (hn : n < 2 ^ 32) : '\n' ∉ render n := by
  intro h
  have := (render_token hn).not_ws _ h
  revert this; decide

/-! ### Tokens -/

theorem tokensAux_word {a : List Char} (ha : ∀ c ∈ a, isWs c = false) (acc t : List Char) :
    tokensAux acc (a ++ t) = tokensAux (a.reverse ++ acc) t := by
  induction a generalizing acc with
  | nil => rfl
  | cons c a ih =>
    rw [List.cons_append, tokensAux, ha c (by simp)]
    simp only [Bool.false_eq_true, if_false]
    rw [ih (fun d hd => ha d (by simp [hd]))]; simp

theorem tokens_ws {w : List Char} (hw : ∀ c ∈ w, isWs c = true) (t : List Char) :
    tokens (w ++ t) = tokens t := by
  unfold tokens
  induction w with
  | nil => rfl
  | cons c w ih =>
    rw [List.cons_append, tokensAux, hw c (by simp)]
    simp only [if_true]
    exact ih (fun d hd => hw d (by simp [hd]))

theorem tokens_all_ws {w : List Char} (hw : ∀ c ∈ w, isWs c = true) : tokens w = [] := by
  have := tokens_ws hw []
  rw [List.append_nil] at this
  rw [this]; rfl

theorem tokensAux_snoc_ws {c : Char} (hc : isWs c = true) (l acc : List Char) :
    tokensAux acc (l ++ [c]) = tokensAux acc l := by
  induction l generalizing acc with
  | nil =>
    simp only [List.nil_append, tokensAux, hc, if_true]
  | cons d l ih =>
    rw [List.cons_append, tokensAux, tokensAux]
    rw [ih, ih]

/-- First token: a nonempty word up to whitespace or the end. -/
theorem tokens_word {a : List Char} (ha : ∀ c ∈ a, isWs c = false) (hne : a ≠ []) {r : List Char}
    (hr : ∀ c t, r = c :: t → isWs c = true) : tokens (a ++ r) = a :: tokens r := by
  unfold tokens
  rw [tokensAux_word ha]
  cases r with
  | nil => simp [tokensAux, hne]
  | cons c t =>
    rw [tokensAux, hr c t rfl]
    simp only [if_true, List.append_nil, List.reverse_eq_nil_iff, hne, if_false, List.reverse_reverse]
    rw [tokensAux, hr c t rfl]
    simp

theorem tokens_decomp (l : List Char) : (∀ c ∈ l, isWs c = true) ∨ ∃ w a r, l = w ++ a ++ r ∧
    (∀ c ∈ w, isWs c = true) ∧ (∀ c ∈ a, isWs c = false) ∧ a ≠ [] ∧ (∀ c t, r = c :: t → isWs c = true) := by
  by_cases hall : ∀ c ∈ l, isWs c = true
  · exact Or.inl hall
  · right
    have h1 : l.takeWhile isWs ++ l.dropWhile isWs = l := List.takeWhile_append_dropWhile
    set m := l.dropWhile isWs with hm
    have h2 : m.takeWhile (fun c => !isWs c) ++ m.dropWhile (fun c => !isWs c) = m :=
      List.takeWhile_append_dropWhile
    refine ⟨l.takeWhile isWs, m.takeWhile (fun c => !isWs c), m.dropWhile (fun c => !isWs c), ?_, ?_, ?_, ?_, ?_⟩
    · rw [List.append_assoc, h2, h1]
    · intro c hc; exact List.mem_takeWhile_imp hc
    · intro c hc
      have := List.mem_takeWhile_imp hc
      simpa using this
    · intro h
      cases hmc : m with
      | nil =>
        apply hall
        rw [← h1, hmc, List.append_nil]
        intro c hc; exact List.mem_takeWhile_imp hc
      | cons c t =>
        rw [hmc, List.takeWhile_cons] at h
        have hc : isWs c = false := by
          have := List.head?_dropWhile_not isWs l
          rw [← hm, hmc] at this
          simpa using this
        simp [hc] at h
    · intro c t h
      have := List.head?_dropWhile_not (fun c => !isWs c) m
      rw [h] at this
      simpa using this

theorem tokens_eq_two {l a b : List Char} : tokens l = [a, b] ↔ ∃ w₀ w₁ w₂ : List Char,
    l = w₀ ++ a ++ w₁ ++ b ++ w₂ ∧ (∀ c ∈ w₀, isWs c = true) ∧ (∀ c ∈ w₁, isWs c = true) ∧
    (∀ c ∈ w₂, isWs c = true) ∧ w₁ ≠ [] ∧ a ≠ [] ∧ b ≠ [] ∧ (∀ c ∈ a, isWs c = false) ∧ (∀ c ∈ b, isWs c = false) := by
  constructor
  · intro h
    rcases tokens_decomp l with hl | ⟨w, a', r, rfl, hw, ha, hne, hr⟩
    · rw [tokens_all_ws hl] at h; simp at h
    rw [List.append_assoc, tokens_ws hw, tokens_word ha hne hr] at h
    obtain ⟨rfl, k⟩ := List.cons.inj h
    clear h
    rcases tokens_decomp r with hl | ⟨w', b', r', rfl, hw', hb, hne', hr'⟩
    · rw [tokens_all_ws hl] at k; simp at k
    rw [List.append_assoc, tokens_ws hw', tokens_word hb hne' hr'] at k
    obtain ⟨rfl, h⟩ := List.cons.inj k
    have hr'' : ∀ c ∈ r', isWs c = true := by
      rcases tokens_decomp r' with hl | ⟨w'', c, r'', rfl, hw'', hc, hne'', hr''⟩
      · exact hl
      · rw [List.append_assoc, tokens_ws hw'', tokens_word hc hne'' hr''] at h; simp at h
    refine ⟨w, w', r', by simp, hw, hw', hr'', ?_, hne, hne', ha, hb⟩
    rintro rfl
    cases b' with
    | nil => exact hne' rfl
    | cons c b' =>
      have h1 := hr c (b' ++ r') (by simp)
      rw [hb c (by simp)] at h1; cases h1
  · rintro ⟨w₀, w₁, w₂, rfl, h0, h1, h2, hw1, ha, hb, ha', hb'⟩
    rw [List.append_assoc, List.append_assoc, List.append_assoc, tokens_ws h0, tokens_word ha' ha,
      tokens_ws h1, tokens_word hb' hb, tokens_all_ws h2]
    · intro c t h; exact h2 c (by rw [h]; simp)
    · intro c t h
      cases w₁ with
      | nil => exact absurd rfl hw1
      | cons d w₁ =>
        simp at h
        exact h1 c (by simp [h.1])

theorem parseEdgeLine_iff {l : List Char} {e : ℕ × ℕ} : parseEdgeLine l = some e ↔ EdgeLine l e := by
  unfold parseEdgeLine EdgeLine
  constructor
  · intro h
    split at h
    · next a b hab =>
      cases ha : parseVertex a with
      | none => rw [ha] at h; simp at h
      | some u =>
        cases hb : parseVertex b with
        | none => rw [ha, hb] at h; simp at h
        | some v =>
          rw [ha, hb] at h
          simp at h
          subst h
          obtain ⟨w₀, w₁, w₂, hl, h0, h1, h2, hw, -⟩ := tokens_eq_two.1 hab
          exact ⟨w₀, a, w₁, b, w₂, hl, fun c hc => isWs_iff.1 (h0 c hc), fun c hc => isWs_iff.1 (h1 c hc),
            fun c hc => isWs_iff.1 (h2 c hc), hw, parseVertex_iff.1 ha, parseVertex_iff.1 hb⟩
    · cases h
  · rintro ⟨w₀, a, w₁, b, w₂, hl, h0, h1, h2, hw, ha, hb⟩
    have : tokens l = [a, b] := tokens_eq_two.2 ⟨w₀, w₁, w₂, hl, fun c hc => isWs_iff.2 (h0 c hc),
      fun c hc => isWs_iff.2 (h1 c hc), fun c hc => isWs_iff.2 (h2 c hc), hw, ha.ne_nil, hb.ne_nil, ha.not_ws, hb.not_ws⟩
    rw [this]
    simp only [parseVertex_iff.2 ha, parseVertex_iff.2 hb, Option.bind_eq_bind, Option.bind_some, Option.pure_def]

theorem parseEdgeLine_snoc_ws {c : Char} (hc : isWs c = true) (l : List Char) :
    parseEdgeLine (l ++ [c]) = parseEdgeLine l := by
  unfold parseEdgeLine
  rw [show tokens (l ++ [c]) = tokens l from tokensAux_snoc_ws hc l []]

/-! ### Trim -/

theorem trim_snoc_ws {c : Char} (hc : isWs c = true) (l : List Char) : trim (l ++ [c]) = trim l := by
  unfold trim
  rw [List.dropWhile_append]
  split
  · next h =>
    simp only [List.isEmpty_iff] at h
    rw [h]; simp [hc]
  · simp [hc]

theorem trim_eq {w₀ a w₁ : List Char} (h0 : ∀ c ∈ w₀, isWs c = true) (h1 : ∀ c ∈ w₁, isWs c = true)
    (ha : ∀ c ∈ a, isWs c = false) (hne : a ≠ []) : trim (w₀ ++ a ++ w₁) = a := by
  have d0 : w₀.dropWhile isWs = [] := List.dropWhile_eq_nil_iff.2 h0
  have d1 : w₁.reverse.dropWhile isWs = [] := List.dropWhile_eq_nil_iff.2 (by simpa using h1)
  unfold trim
  have e1 : (w₀ ++ a ++ w₁).dropWhile isWs = a ++ w₁ := by
    rw [List.append_assoc, List.dropWhile_append, d0]
    simp only [List.isEmpty_nil, if_true]
    cases a with
    | nil => exact absurd rfl hne
    | cons c a => rw [List.cons_append, List.dropWhile_cons]; simp [ha c (by simp)]
  rw [e1, List.reverse_append, List.dropWhile_append, d1]
  simp only [List.isEmpty_nil, if_true]
  have hr : ∀ c ∈ a.reverse, isWs c = false := by simpa using ha
  have hne' : a.reverse ≠ [] := by simpa using hne
  have : a.reverse.dropWhile isWs = a.reverse := by
    cases h : a.reverse with
    | nil => rfl
    | cons c t => rw [List.dropWhile_cons]; simp [hr c (by rw [h]; simp)]
  rw [this, List.reverse_reverse]

theorem trim_decomp (l : List Char) : ∃ w₀ w₁, l = w₀ ++ trim l ++ w₁ ∧ (∀ c ∈ w₀, isWs c = true) ∧
    (∀ c ∈ w₁, isWs c = true) := by
  refine ⟨l.takeWhile isWs, ((l.dropWhile isWs).reverse.takeWhile isWs).reverse, ?_,
    fun c hc => List.mem_takeWhile_imp hc, fun c hc => ?_⟩
  · unfold trim
    rw [List.append_assoc, ← List.reverse_append, List.takeWhile_append_dropWhile, List.reverse_reverse,
      List.takeWhile_append_dropWhile]
  · rw [List.mem_reverse] at hc; exact List.mem_takeWhile_imp hc

theorem parseVertexLine_iff {l : List Char} {u : ℕ} : parseVertex (trim l) = some u ↔ VertexLine l u := by
  rw [parseVertex_iff]
  constructor
  · intro h
    obtain ⟨w₀, w₁, hl, h0, h1⟩ := trim_decomp l
    exact ⟨w₀, _, w₁, hl, fun c hc => isWs_iff.1 (h0 c hc), fun c hc => isWs_iff.1 (h1 c hc), h⟩
  · rintro ⟨w₀, a, w₁, rfl, h0, h1, h⟩
    rw [trim_eq (fun c hc => isWs_iff.2 (h0 c hc)) (fun c hc => isWs_iff.2 (h1 c hc)) h.not_ws h.ne_nil]
    exact h

/-! ### Lines -/

theorem linesAux_line {l : List Char} (hl : '\n' ∉ l) (acc t : List Char) :
    linesAux acc (l ++ t) = linesAux (l.reverse ++ acc) t := by
  induction l generalizing acc with
  | nil => rfl
  | cons c l ih =>
    have hc : c ≠ '\n' := by rintro rfl; simp at hl
    rw [List.cons_append, linesAux]
    simp only [hc, if_false]
    rw [ih (fun h => hl (by simp [h]))]; simp

/-- A raw line and the line returned by `lines` differ at most by a final carriage return. -/
def SameLine (l l' : List Char) : Prop := l = l' ∨ l = l' ++ ['\r']

theorem lines_of_raw {t : List Char} {ls : List (List Char)} (h : RawLines t ls) :
    List.Forall₂ SameLine ls (lines t) := by
  induction h with
  | nil => exact .nil
  | @last l h hn =>
    have : lines l = [l] := by
      unfold lines
      have := linesAux_line hn [] []
      rw [List.append_nil] at this
      rw [this]; simp [linesAux, h]
    rw [this]
    exact .cons (Or.inl rfl) .nil
  | @line l t ls hn _ ih =>
    have : ∃ l', SameLine l l' ∧ lines (l ++ '\n' :: t) = l' :: lines t := by
      unfold lines
      rw [linesAux_line hn, linesAux]
      simp only [if_true, List.append_nil]
      unfold stripCR
      split
      · next acc' he =>
        refine ⟨acc'.reverse, Or.inr ?_, rfl⟩
        rw [← List.reverse_reverse l, he]; simp
      · exact ⟨l, Or.inl rfl, by rw [List.reverse_reverse]⟩
    obtain ⟨l', h1, h2⟩ := this
    rw [h2]
    exact .cons h1 ih

theorem raw_exists (t : List Char) : ∃ ls, RawLines t ls := by
  have key : ∀ n, ∀ t : List Char, t.length ≤ n → ∃ ls, RawLines t ls := by
    intro n
    induction n with
    | zero =>
      intro t ht
      have : t = [] := List.length_eq_zero_iff.1 (by omega)
      exact ⟨[], this ▸ .nil⟩
    | succ n ih =>
      intro t ht
      by_cases hn : '\n' ∈ t
      · obtain ⟨l, r, hl, rfl⟩ := List.append_of_mem hn |>.imp fun l h => h |>.imp fun r h => by
          exact (⟨trivial, h⟩ : True ∧ _)
        -- take the first newline
        clear hl
        have h1 := List.takeWhile_append_dropWhile (p := fun c => c ≠ '\n') (l := l ++ '\n' :: r)
        cases hd : (l ++ '\n' :: r).dropWhile (fun c => decide (c ≠ '\n')) with
        | nil =>
          rw [List.dropWhile_eq_nil_iff] at hd
          have := hd '\n' (by simp)
          simp at this
        | cons c r' =>
          have hc : c = '\n' := by
            have := List.head?_dropWhile_not (fun c => decide (c ≠ '\n')) (l ++ '\n' :: r)
            rw [hd] at this; simpa using this
          subst hc
          rw [hd] at h1
          rw [← h1] at ht ⊢
          rw [List.length_append, List.length_cons] at ht
          obtain ⟨ls, hls⟩ := ih r' (by omega)
          refine ⟨_, .line ?_ hls⟩
          intro h
          have := List.mem_takeWhile_imp h
          simp at this
      · by_cases h0 : t = []
        · exact ⟨[], h0 ▸ .nil⟩
        · exact ⟨[t], .last h0 hn⟩
  exact key _ t (le_refl _)

theorem same_edge {l l' : List Char} (h : SameLine l l') : parseEdgeLine l' = parseEdgeLine l := by
  rcases h with rfl | rfl
  · rfl
  · rw [parseEdgeLine_snoc_ws (by decide)]

theorem same_trim {l l' : List Char} (h : SameLine l l') : trim l' = trim l := by
  rcases h with rfl | rfl
  · rfl
  · rw [trim_snoc_ws (by decide)]

/-! ### Whole files -/
open EditGraph

theorem addEdges_cons {S : SGraph} {e : ℕ × ℕ} {es : List (ℕ × ℕ)} :
    S.addEdges (e :: es) = (S.addEdge e.1 e.2).addEdges es := by
  refine SGraph.ext_adj ?_ ?_
  · ext w
    simp only [SGraph.addEdges, SGraph.addEdge_V, Finset.mem_union, SGraph.mem_endpoints, Finset.mem_insert,
      List.mem_cons, exists_eq_or_imp]
    generalize (∃ a ∈ es, w = a.1 ∨ w = a.2) = X
    tauto
  · intro a b
    rw [SGraph.addEdges_adj, SGraph.addEdges_adj, SGraph.addEdge_adj]
    simp only [List.mem_cons, Prod.ext_iff]
    tauto

theorem fromLines_ok {ls ls' : List (List Char)} {es : List (ℕ × ℕ)} (h : List.Forall₂ EdgeLine ls es)
    (hs : List.Forall₂ SameLine ls ls') {g : EditGraph} {S : SGraph} (A : Abs g S) :
    Ok (fromLines ls' g) (fun r => ∃ h, r = some h ∧ Abs h (S.addEdges es)) := by
  induction h generalizing g S ls' with
  | nil => cases hs; exact ⟨_, rfl, g, rfl, by rw [SGraph.addEdges_nil]; exact A⟩
  | @cons l e ls es h1 h2 ih =>
    cases hs with
    | @cons _ l' _ ls' hs1 hs2 =>
    unfold fromLines
    rw [same_edge hs1, parseEdgeLine_iff.2 h1]
    simp only
    rw [addEdges_cons]
    exact Ok.bind (A.addEdge e.1 e.2) fun r hr => ih hs2 hr.1

theorem fromLines_err {ls ls' : List (List Char)} (h : ¬ ∃ es, List.Forall₂ EdgeLine ls es)
    (hs : List.Forall₂ SameLine ls ls') {g : EditGraph} {S : SGraph} (A : Abs g S) :
    fromLines ls' g = .ok none := by
  induction hs generalizing g S with
  | nil => exact absurd ⟨[], .nil⟩ h
  | @cons l l' ls ls' h1 h2 ih =>
    unfold fromLines
    rw [same_edge h1]
    cases hp : parseEdgeLine l with
    | none => rfl
    | some e =>
      simp only
      obtain ⟨r, hr, A', -⟩ := A.addEdge e.1 e.2
      rw [hr]
      simp only [bind_ok]
      refine ih ?_ A'
      rintro ⟨es, hes⟩
      exact h ⟨e :: es, .cons (parseEdgeLine_iff.1 hp) hes⟩

theorem vecFromLines_ok {ls ls' : List (List Char)} {us : List ℕ} (h : List.Forall₂ VertexLine ls us)
    (hs : List.Forall₂ SameLine ls ls') (res : List ℕ) : vecFromLines ls' res = some (res ++ us) := by
  induction h generalizing ls' res with
  | nil => cases hs; simp [vecFromLines]
  | @cons l e ls es h1 h2 ih =>
    cases hs with
    | @cons _ l' _ ls' hs1 hs2 =>
    unfold vecFromLines
    rw [same_trim hs1, parseVertexLine_iff.2 h1]
    simp only [Option.bind_eq_bind, Option.bind_some]
    rw [ih hs2]; simp

theorem vecFromLines_err {ls ls' : List (List Char)} (h : ¬ ∃ us, List.Forall₂ VertexLine ls us)
    (hs : List.Forall₂ SameLine ls ls') (res : List ℕ) : vecFromLines ls' res = none := by
  induction hs generalizing res with
  | nil => exact absurd ⟨[], .nil⟩ h
  | @cons l l' ls ls' h1 h2 ih =>
    unfold vecFromLines
    rw [same_trim h1]
    cases hp : parseVertex (trim l) with
    | none => rfl
    | some u =>
      simp only [Option.bind_eq_bind, Option.bind_some]
      refine ih ?_ _
      rintro ⟨us, hus⟩
      exact h ⟨u :: us, .cons (parseVertexLine_iff.1 hp) hus⟩

theorem setFromLines_eq (ls : List (List Char)) (s : HSet ℕ) (l : List ℕ) :
    setFromLines ls (s.extend l) = (vecFromLines ls l).map (fun us => s.extend us) := by
  induction ls generalizing l with
  | nil => rfl
  | cons x ls ih =>
    unfold setFromLines vecFromLines
    cases hp : parseVertex (trim x) with
    | none => rfl
    | some u =>
      simp only [Option.bind_eq_bind, Option.bind_some]
      rw [← ih]
      simp [HSet.extend]

theorem raw_flatMap {α : Type} (l : List α) (f : α → List Char) (hf : ∀ a ∈ l, '\n' ∉ f a) :
    RawLines (l.flatMap (fun a => f a ++ ['\n'])) (l.map f) := by
  induction l with
  | nil => exact .nil
  | cons a l ih =>
    have := RawLines.line (hf a (by simp)) (ih (fun b hb => hf b (by simp [hb])))
    simpa using this

theorem render_edgeLine {e : ℕ × ℕ} (h1 : e.1 < 2 ^ 32) (h2 : e.2 < 2 ^ 32) :
    EdgeLine (render e.1 ++ ' ' :: render e.2) e :=
  ⟨[], render e.1, [' '], render e.2, [], by simp, by simp, by simp [IsWs], by simp, by simp,
    render_token h1, render_token h2⟩

theorem render_vertexLine {u : ℕ} (h : u < 2 ^ 32) : VertexLine (render u) u :=
  ⟨[], render u, [], by simp, by simp, by simp, render_token h⟩

end Verif.IO
