import Verif.Model.Basic
import Mathlib.Data.Finset.Card
/-! # Lemmas about faults, hash maps and hash sets -/
set_option linter.unusedSectionVars false
set_option linter.unusedSimpArgs false
namespace Verif

@[simp] theorem unwrap_some {α : Type} (a : α) : unwrap (some a) = .ok a := rfl
@[simp] theorem unwrapUnchecked_some {α : Type} (a : α) : unwrapUnchecked (some a) = .ok a := rfl
@[simp] theorem unwrap_none {α : Type} : unwrap (none : Option α) = .error .panic := rfl

@[simp] theorem bind_ok {α β : Type} (a : α) (f : α → Res β) : ((Except.ok a : Res α) >>= f) = f a := rfl
@[simp] theorem bind_error {α β : Type} (e : Fault) (f : α → Res β) :
    ((Except.error e : Res α) >>= f) = .error e := rfl
@[simp] theorem pure_eq_ok {α : Type} (a : α) : (pure a : Res α) = .ok a := rfl
@[simp] theorem map_ok {α β : Type} (a : α) (f : α → β) : (f <$> (Except.ok a : Res α)) = .ok (f a) := rfl

theorem add32_ok {a b : Nat} (h : a + b < 2 ^ 32) : add32 a b = .ok (a + b) := by simp [add32, h]
theorem mul32_ok {a b : Nat} (h : a * b < 2 ^ 32) : mul32 a b = .ok (a * b) := by simp [mul32, h]
theorem usub_ok {a b : Nat} (h : b ≤ a) : usub a b = .ok (a - b) := by simp [usub, h]

namespace Ok
variable {α β : Type}

theorem pure {a : α} {P : α → Prop} (h : P a) : Ok (.ok a) P := ⟨a, rfl, h⟩

@[simp] theorem ok_iff {a : α} {P : α → Prop} : Ok (.ok a) P ↔ P a :=
  ⟨fun ⟨_, h, hp⟩ => by cases h; exact hp, fun h => ⟨a, rfl, h⟩⟩

theorem mono {x : Res α} {P Q : α → Prop} (h : Ok x P) (hpq : ∀ a, P a → Q a) : Ok x Q := by
  obtain ⟨a, ha, hp⟩ := h; exact ⟨a, ha, hpq a hp⟩

theorem bind {x : Res α} {f : α → Res β} {P : α → Prop} {Q : β → Prop}
    (hx : Ok x P) (hf : ∀ a, P a → Ok (f a) Q) : Ok (x >>= f) Q := by
  obtain ⟨a, rfl, hp⟩ := hx; exact hf a hp

theorem and {x : Res α} {P Q : α → Prop} (h : Ok x P) (h' : Ok x Q) : Ok x (fun a => P a ∧ Q a) := by
  obtain ⟨a, rfl, hp⟩ := h; obtain ⟨b, hb, hq⟩ := h'; cases hb; exact ⟨a, rfl, hp, hq⟩

theorem of_eq {x : Res α} {a : α} (h : x = .ok a) : Ok x (fun b => b = a) := ⟨a, h, rfl⟩

/-- Loop rule: an invariant over the processed prefix. -/
theorem foldlM_aux {f : β → α → Res β} (l : List α) (Inv : List α → β → Prop) :
    ∀ (post pre : List α) (b : β), l = pre ++ post → Inv pre b →
      (∀ pre a post b, l = pre ++ a :: post → Inv pre b → Ok (f b a) (Inv (pre ++ [a]))) →
      Ok (post.foldlM f b) (Inv l) := by
  intro post
  induction post with
  | nil => intro pre b hl hb _; simp at hl; subst hl; exact ⟨b, rfl, hb⟩
  | cons a post ih =>
    intro pre b hl hb hs
    rw [List.foldlM_cons]
    refine Ok.bind (hs pre a post b hl hb) ?_
    intro b' hb'
    exact ih (pre ++ [a]) b' (by simpa using hl) hb' hs

theorem foldlM {f : β → α → Res β} {l : List α} {b : β} (Inv : List α → β → Prop) (h0 : Inv [] b)
    (hs : ∀ pre a post b, l = pre ++ a :: post → Inv pre b → Ok (f b a) (Inv (pre ++ [a]))) :
    Ok (l.foldlM f b) (Inv l) :=
  foldlM_aux l Inv l [] b rfl h0 hs

/-- Loop rule with an invariant that ignores the prefix. -/
theorem foldlM_inv {f : β → α → Res β} {l : List α} {b : β} (Inv : β → Prop) (h0 : Inv b)
    (hs : ∀ a ∈ l, ∀ b, Inv b → Ok (f b a) Inv) : Ok (l.foldlM f b) Inv :=
  foldlM (fun _ => Inv) h0 (fun pre a post b hl hb => hs a (by simp [hl]) b hb)

/-- `mapM` rule. -/
theorem mapM {f : α → Res β} {l : List α} {R : α → β → Prop} (h : ∀ a ∈ l, Ok (f a) (R a)) :
    Ok (l.mapM f) (fun bs => List.Forall₂ R l bs) := by
  induction l with
  | nil => exact ⟨[], by simp, .nil⟩
  | cons a l ih =>
    rw [List.mapM_cons]
    refine Ok.bind (h a (by simp)) fun b hb => ?_
    refine Ok.bind (ih fun a ha => h a (by simp [ha])) fun bs hbs => ?_
    exact ⟨b :: bs, rfl, .cons hb hbs⟩

end Ok

/-- Pure-loop rule: an invariant over the processed prefix. -/
theorem foldl_inv {α β : Type} {f : β → α → β} {l : List α} {b : β} (Inv : List α → β → Prop)
    (h0 : Inv [] b)
    (hs : ∀ pre a post b, l = pre ++ a :: post → Inv pre b → Inv (pre ++ [a]) (f b a)) :
    Inv l (l.foldl f b) := by
  have key : ∀ (post pre : List α) (b : β), l = pre ++ post → Inv pre b → Inv l (post.foldl f b) := by
    intro post
    induction post with
    | nil => intro pre b hl hb; simp at hl; subst hl; exact hb
    | cons a post ih =>
      intro pre b hl hb
      exact ih (pre ++ [a]) (f b a) (by simpa using hl) (hs pre a post b hl hb)
  exact key l [] b rfl h0

/-! ## HSet -/
namespace HSet
variable {κ : Type} [DecidableEq κ]

theorem mem_def {a : κ} {s : HSet κ} : a ∈ s ↔ a ∈ s.toList := Iff.rfl

@[simp] theorem mem_toList {a : κ} {s : HSet κ} : a ∈ s.toList ↔ a ∈ s := Iff.rfl

@[simp] theorem contains_iff {a : κ} {s : HSet κ} : s.contains a = true ↔ a ∈ s := by
  unfold contains; rw [decide_eq_true_iff]; rfl

theorem contains_eq {a : κ} {s : HSet κ} : s.contains a = decide (a ∈ s) := rfl

@[simp] theorem toList_empty : (∅ : HSet κ).toList = [] := rfl

@[simp] theorem not_mem_empty {a : κ} : ¬ a ∈ (∅ : HSet κ) := List.not_mem_nil

@[simp] theorem mem_insert {a b : κ} {s : HSet κ} : a ∈ s.insert b ↔ a = b ∨ a ∈ s := by
  unfold insert
  split
  · next h =>
    constructor
    · exact Or.inr
    · rintro (rfl | h')
      · exact h
      · exact h'
  · exact List.mem_cons

@[simp] theorem mem_remove {a b : κ} {s : HSet κ} : a ∈ s.remove b ↔ a ∈ s ∧ a ≠ b := by
  rw [mem_def]; unfold remove; simp only [List.mem_filter, decide_eq_true_eq, ne_eq]; rfl

@[simp] theorem mem_retain {a : κ} {p : κ → Bool} {s : HSet κ} : a ∈ s.retain p ↔ a ∈ s ∧ p a = true := by
  rw [mem_def]; unfold retain; simp only [List.mem_filter]; rfl

@[simp] theorem mem_extend {a : κ} {l : List κ} {s : HSet κ} : a ∈ s.extend l ↔ a ∈ s ∨ a ∈ l := by
  induction l generalizing s with
  | nil => simp [extend]
  | cons b l ih =>
    have : s.extend (b :: l) = (s.insert b).extend l := rfl
    rw [this, ih]; simp only [mem_insert, List.mem_cons]; tauto

@[simp] theorem mem_ofList {a : κ} {l : List κ} : a ∈ ofList l ↔ a ∈ l := by simp [ofList]

/-- The set of elements as a `Finset`. -/
def toFinset (s : HSet κ) : Finset κ := ⟨s.toList, s.nodup⟩

@[simp] theorem mem_toFinset {a : κ} {s : HSet κ} : a ∈ s.toFinset ↔ a ∈ s := Iff.rfl

theorem len_eq_card {s : HSet κ} : s.len = s.toFinset.card := rfl

theorem perm_of_mem_iff {s t : HSet κ} (h : ∀ a, a ∈ s ↔ a ∈ t) : s.toList.Perm t.toList :=
  (List.perm_ext_iff_of_nodup s.nodup t.nodup).2 h

theorem eqv_iff {s t : HSet κ} : s.eqv t = true ↔ ∀ a, a ∈ s ↔ a ∈ t := by
  unfold eqv
  simp only [Bool.and_eq_true, beq_iff_eq, List.all_eq_true, contains_iff, mem_toList]
  constructor
  · rintro ⟨hl, hs⟩
    have hsub : s.toFinset ⊆ t.toFinset := fun a ha => hs a ha
    have heq : s.toFinset = t.toFinset :=
      Finset.eq_of_subset_of_card_le hsub (by rw [← len_eq_card, ← len_eq_card, hl])
    intro a
    rw [← mem_toFinset, heq, mem_toFinset]
  · intro h
    exact ⟨(perm_of_mem_iff h).length_eq, fun a ha => (h a).1 ha⟩

theorem len_of_mem_iff {s : HSet κ} {T : Finset κ} (h : ∀ a, a ∈ s ↔ a ∈ T) : s.len = T.card := by
  rw [len_eq_card]; congr 1; ext a; exact h a

end HSet

/-! ## HMap -/
namespace HMap
variable {κ α : Type} [DecidableEq κ]

theorem lookupL_none {k : κ} {l : List (κ × α)} : lookupL k l = none ↔ k ∉ l.map Prod.fst := by
  induction l with
  | nil => simp [lookupL]
  | cons e l ih =>
    obtain ⟨k', a⟩ := e
    unfold lookupL
    split
    · next h => simp [h]
    · next h =>
      rw [ih]
      simp only [List.map_cons, List.mem_cons, not_or]
      exact ⟨fun hh => ⟨fun hc => h hc.symm, hh⟩, fun hh => hh.2⟩

theorem lookupL_some {k : κ} {a : α} {l : List (κ × α)} (hn : (l.map Prod.fst).Nodup) :
    lookupL k l = some a ↔ (k, a) ∈ l := by
  induction l with
  | nil => simp [lookupL]
  | cons e l ih =>
    obtain ⟨k', b⟩ := e
    simp only [List.map_cons, List.nodup_cons] at hn
    unfold lookupL
    split
    · next h =>
      subst h
      simp only [Option.some.injEq, List.mem_cons, Prod.mk.injEq, true_and]
      constructor
      · rintro rfl; exact Or.inl rfl
      · rintro (rfl | hm)
        · rfl
        · exact absurd (List.mem_map_of_mem (f := Prod.fst) hm) hn.1
    · next h =>
      rw [ih hn.2]
      simp only [List.mem_cons, Prod.mk.injEq]
      exact ⟨Or.inr, fun hh => hh.resolve_left fun hc => h hc.1.symm⟩

theorem get?_eq_none {m : HMap κ α} {k : κ} : m.get? k = none ↔ k ∉ m.keys := lookupL_none

theorem get?_eq_some {m : HMap κ α} {k : κ} {a : α} : m.get? k = some a ↔ (k, a) ∈ m.entries :=
  lookupL_some m.nodup

@[simp] theorem get?_empty {k : κ} : (∅ : HMap κ α).get? k = none := rfl

@[simp] theorem entries_empty : (∅ : HMap κ α).entries = [] := rfl

theorem keys_nodup {m : HMap κ α} : m.keys.Nodup := m.nodup

theorem mem_keys_iff {m : HMap κ α} {k : κ} : k ∈ m.keys ↔ ∃ a, m.get? k = some a := by
  cases h : m.get? k with
  | none => simp [get?_eq_none.1 h]
  | some a =>
    simp only [Option.some.injEq, exists_eq', iff_true]
    by_contra hc
    rw [← get?_eq_none] at hc
    simp [hc] at h

theorem contains_iff {m : HMap κ α} {k : κ} : m.contains k = true ↔ k ∈ m.keys := by
  rw [mem_keys_iff]; unfold contains; rw [Option.isSome_iff_exists]

theorem get?_insert {m : HMap κ α} {k k' : κ} {a : α} :
    (m.insert k a).get? k' = if k' = k then some a else m.get? k' := by
  have key : ∀ l : List (κ × α), k ∈ l.map Prod.fst →
      lookupL k' (replaceL k a l) = if k' = k then some a else lookupL k' l := by
    intro l
    induction l with
    | nil => simp
    | cons e l ih =>
      obtain ⟨k₁, b⟩ := e
      intro hk
      have hr : replaceL k a ((k₁, b) :: l)
          = (if k₁ = k then (k, a) else (k₁, b)) :: replaceL k a l := rfl
      rw [hr]
      by_cases h1 : k₁ = k
      · subst h1
        simp only [if_true, lookupL]
        by_cases h2 : k₁ = k'
        · subst h2; simp
        · have h3 : ¬ k' = k₁ := fun h => h2 h.symm
          simp only [h2, h3, if_false]
          by_cases h4 : k₁ ∈ l.map Prod.fst
          · rw [ih h4]; simp [h3]
          · have : replaceL k₁ a l = l := by
              unfold replaceL
              conv_rhs => rw [← List.map_id l]
              apply List.map_congr_left
              intro e he
              have : e.1 ≠ k₁ := fun h => h4 (h ▸ List.mem_map_of_mem he)
              simp [this]
            rw [this]
      · simp only [h1, if_false, lookupL]
        have hk' : k ∈ l.map Prod.fst := by
          simp only [List.map_cons, List.mem_cons] at hk
          exact hk.resolve_left fun h => h1 h.symm
        rw [ih hk']
        by_cases h2 : k₁ = k'
        · subst h2; simp [h1]
        · simp [h2]
  unfold insert
  split
  · next h => exact key _ h
  · next h =>
    simp only [get?, lookupL]
    by_cases h2 : k' = k
    · subst h2; simp
    · have h3 : ¬ k = k' := fun hh => h2 hh.symm
      simp only [h2, h3, if_false]

theorem get?_remove {m : HMap κ α} {k k' : κ} :
    (m.remove k).get? k' = if k' = k then none else m.get? k' := by
  have key : ∀ l : List (κ × α), lookupL k' (l.filter (fun e => e.1 ≠ k))
      = if k' = k then none else lookupL k' l := by
    intro l
    induction l with
    | nil => simp [lookupL]
    | cons e l ih =>
      obtain ⟨k₁, b⟩ := e
      by_cases h1 : k₁ = k
      · subst h1
        simp only [ne_eq, not_true_eq_false, decide_false, Bool.false_eq_true, not_false_eq_true,
          List.filter_cons_of_neg]
        have ih' := ih
        simp only [ne_eq] at ih'
        rw [ih']
        by_cases h2 : k' = k₁
        · simp [h2]
        · have h3 : ¬ k₁ = k' := fun hh => h2 hh.symm
          simp only [h2, if_false, lookupL, h3]
      · have : List.filter (fun e : κ × α => e.1 ≠ k) ((k₁, b) :: l)
            = (k₁, b) :: List.filter (fun e : κ × α => e.1 ≠ k) l := by simp [h1]
        rw [this]
        simp only [lookupL]
        rw [ih]
        by_cases h2 : k₁ = k'
        · subst h2; simp [h1]
        · simp [h2]
  exact key _

theorem mem_keys_insert {m : HMap κ α} {k k' : κ} {a : α} :
    k' ∈ (m.insert k a).keys ↔ k' = k ∨ k' ∈ m.keys := by
  rw [mem_keys_iff, mem_keys_iff, get?_insert]
  by_cases h : k' = k <;> simp [h]

theorem mem_keys_remove {m : HMap κ α} {k k' : κ} :
    k' ∈ (m.remove k).keys ↔ k' ≠ k ∧ k' ∈ m.keys := by
  rw [mem_keys_iff, mem_keys_iff, get?_remove]
  by_cases h : k' = k <;> simp [h]

theorem len_eq_length_keys {m : HMap κ α} : m.len = m.keys.length := by simp [len, keys]

theorem len_of_mem_iff {m : HMap κ α} {T : Finset κ} (h : ∀ a, a ∈ m.keys ↔ a ∈ T) : m.len = T.card := by
  rw [len_eq_length_keys]
  have : m.keys.length = (⟨m.keys, m.nodup⟩ : Finset κ).card := rfl
  rw [this]; congr 1; ext a; exact h a

theorem eqv_iff {eq : α → α → Bool} {m m' : HMap κ α} :
    m.eqv eq m' = true ↔ ∀ k, match m.get? k, m'.get? k with
      | some a, some b => eq a b = true
      | none, none => True
      | _, _ => False := by
  have hall : (m.entries.all (fun e => optEq eq e.2 (m'.get? e.1)) = true) ↔ ∀ k a, m.get? k = some a → ∃ b, m'.get? k = some b ∧ eq a b = true := by
    rw [List.all_eq_true]
    constructor
    · intro h k a hk
      have := h (k, a) (get?_eq_some.1 hk)
      simp only at this
      cases hb : m'.get? k with
      | some b => exact ⟨b, rfl, by simpa [hb, optEq] using this⟩
      | none => simp [hb, optEq] at this
    · rintro h ⟨k, a⟩ he
      obtain ⟨b, hb, hab⟩ := h k a (get?_eq_some.2 he)
      simp [hb, hab, optEq]
  unfold eqv
  rw [Bool.and_eq_true, hall, beq_iff_eq]
  constructor
  · rintro ⟨hl, h⟩ k
    cases hk : m.get? k with
    | some a => obtain ⟨b, hb, hab⟩ := h k a hk; simp [hb, hab]
    | none =>
      have hsub : (⟨m.keys, m.nodup⟩ : Finset κ) ⊆ ⟨m'.keys, m'.nodup⟩ := by
        intro x hx
        have hx' : x ∈ m.keys := hx
        obtain ⟨a, ha⟩ := mem_keys_iff.1 hx'
        obtain ⟨b, hb, -⟩ := h x a ha
        exact mem_keys_iff.2 ⟨b, hb⟩
      have heq := Finset.eq_of_subset_of_card_le hsub (by
        show m'.keys.length ≤ m.keys.length
        rw [← len_eq_length_keys, ← len_eq_length_keys, hl])
      have hnot : k ∉ m.keys := get?_eq_none.1 hk
      have : k ∉ m'.keys := by
        intro hc
        have : k ∈ (⟨m'.keys, m'.nodup⟩ : Finset κ) := hc
        rw [← heq] at this
        exact hnot this
      simp [get?_eq_none.2 this]
  · intro h
    have hkeys : ∀ k, k ∈ m.keys ↔ k ∈ m'.keys := by
      intro k
      have := h k
      rw [mem_keys_iff, mem_keys_iff]
      cases h1 : m.get? k <;> cases h2 : m'.get? k <;> simp_all
    refine ⟨?_, ?_⟩
    · rw [len_eq_length_keys, len_eq_length_keys]
      exact ((List.perm_ext_iff_of_nodup m.nodup m'.nodup).2 hkeys).length_eq
    · intro k a hk
      have := h k
      rw [hk] at this
      cases h2 : m'.get? k with
      | none => simp [h2] at this
      | some b => exact ⟨b, rfl, by simpa [h2] using this⟩

theorem get?_ofList_foldl {l : List (κ × α)} {m : HMap κ α} {k : κ} :
    (l.foldl (fun m e => m.insert e.1 e.2) m).get? k
      = (lookupL k l.reverse).or (m.get? k) := by
  induction l generalizing m with
  | nil => simp [lookupL]
  | cons e l ih =>
    rw [List.foldl_cons, ih, get?_insert]
    have happ : ∀ (l : List (κ × α)) (e : κ × α), lookupL k (l ++ [e])
        = (lookupL k l).or (if e.1 = k then some e.2 else none) := by
      intro l e
      induction l with
      | nil => obtain ⟨a, b⟩ := e; simp [lookupL]
      | cons x l ih => obtain ⟨a, b⟩ := x; simp only [List.cons_append, lookupL]; split <;> simp [ih]
    rw [List.reverse_cons, happ]
    by_cases h : k = e.1
    · subst h; simp
    · have h' : ¬ e.1 = k := fun hh => h hh.symm
      simp [h, h']

theorem get?_ofList {l : List (κ × α)} {k : κ} (hn : (l.map Prod.fst).Nodup) {a : α} :
    (ofList l).get? k = some a ↔ (k, a) ∈ l := by
  unfold ofList
  rw [get?_ofList_foldl]
  simp only [get?_empty, Option.or_none]
  rw [lookupL_some (by rw [List.map_reverse]; exact List.nodup_reverse.2 hn)]
  simp

theorem mem_keys_ofList {l : List (κ × α)} {k : κ} : k ∈ (ofList l).keys ↔ k ∈ l.map Prod.fst := by
  rw [← not_iff_not, ← get?_eq_none]
  unfold ofList
  rw [get?_ofList_foldl]
  simp only [get?_empty, Option.or_none]
  rw [lookupL_none]
  simp

end HMap

@[simp] theorem Shuffle.mem {α : Type} (σ : Shuffle α) (l : List α) (a : α) : a ∈ σ.run l ↔ a ∈ l :=
  (σ.perm l).mem_iff

theorem Shuffle.nodup {α : Type} (σ : Shuffle α) {l : List α} (h : l.Nodup) : (σ.run l).Nodup :=
  (σ.perm l).nodup_iff.2 h

end Verif
