import Mathlib.Data.List.Basic
import Mathlib.Algebra.BigOperators.Group.List.Basic
/-!
# Arrays of linked blocks

Block of `u` at offset `p`: `u`, offset of the next block (or `p` if last), payload `F p u`.
-/
namespace Verif.Blocks

variable (F : ℕ → ℕ → List ℕ)

/-- Size of the block of `u`. -/
def bs (u : ℕ) : ℕ := 2 + (F 0 u).length

/-- The payload length does not depend on the position. -/
def Const : Prop := ∀ p u, (F p u).length = (F 0 u).length

/-- Layout of blocks that are followed by further blocks. -/
def enc : ℕ → List ℕ → List ℕ
  | _, [] => []
  | p, u :: us => u :: (p + bs F u) :: (F p u ++ enc (p + bs F u) us)

/-- Layout of the final part of the array. -/
def lay : ℕ → List ℕ → List ℕ
  | _, [] => []
  | p, u :: us => u :: (if us = [] then p else p + bs F u) :: (F p u ++ lay (p + bs F u) us)

/-- Offset after a list of blocks. -/
def off (us : List ℕ) : ℕ := (us.map (bs F)).sum

variable {F}

theorem off_cons {u : ℕ} {us : List ℕ} : off F (u :: us) = bs F u + off F us := by simp [off]

theorem off_append {as us : List ℕ} : off F (as ++ us) = off F as + off F us := by simp [off]

theorem length_enc (h : Const F) {p : ℕ} {us : List ℕ} : (enc F p us).length = off F us := by
  induction us generalizing p with
  | nil => rfl
  | cons b us ih => simp only [enc, List.length_cons, List.length_append, ih, off_cons, bs, h p b]; omega

theorem length_lay (h : Const F) {p : ℕ} {us : List ℕ} : (lay F p us).length = off F us := by
  induction us generalizing p with
  | nil => rfl
  | cons b us ih => simp only [lay, List.length_cons, List.length_append, ih, off_cons, bs, h p b]; omega

theorem enc_append {p : ℕ} {as us : List ℕ} : enc F p (as ++ us) = enc F p as ++ enc F (p + off F as) us := by
  induction as generalizing p with
  | nil => simp [enc, off]
  | cons a as ih =>
    simp only [List.cons_append, enc, ih, off_cons, List.append_assoc]
    rw [← Nat.add_assoc]

theorem lay_append {p : ℕ} {as us : List ℕ} (hb : us ≠ []) :
    lay F p (as ++ us) = enc F p as ++ lay F (p + off F as) us := by
  induction as generalizing p with
  | nil => simp [enc, off]
  | cons a as ih =>
    simp only [List.cons_append, enc, lay, ih, off_cons, List.append_assoc]
    rw [← Nat.add_assoc, if_neg (by simp [hb])]

theorem off_lt {as us : List ℕ} (h : as.length < us.length) (hp : as <+: us) : off F as < off F us := by
  obtain ⟨t, rfl⟩ := hp
  cases t with
  | nil => simp at h
  | cons b t => rw [off_append, off_cons, bs]; omega

theorem length_le (l : List ℕ) : 2 * l.length ≤ off F l := by
  induction l with
  | nil => simp
  | cons b l ih => rw [off_cons, bs, List.length_cons]; omega

/-- The part of the array from a block on. -/
theorem drop_lay (h : Const F) {pre post : List ℕ} {u : ℕ} :
    (lay F 0 (pre ++ u :: post)).drop (off F pre) = u :: (if post = [] then off F pre else off F pre + bs F u) ::
      (F (off F pre) u ++ lay F (off F pre + bs F u) post) := by
  rw [lay_append (by simp), ← length_enc h (p := 0), List.drop_left]
  simp only [lay, Nat.zero_add, length_enc h]

section access
variable {c : List ℕ} {pre post : List ℕ} {u : ℕ}

theorem get_of_drop {q i x : ℕ} {t : List ℕ} (h : c.drop q = t) (hx : t[i]? = some x) : c[q + i]? = some x := by
  rw [← List.getElem?_drop, h, hx]

theorem get0 (hF : Const F) (h : c = lay F 0 (pre ++ u :: post)) : c[off F pre]? = some u :=
  get_of_drop (i := 0) (h ▸ drop_lay hF) rfl

theorem get1 (hF : Const F) (h : c = lay F 0 (pre ++ u :: post)) :
    c[off F pre + 1]? = some (if post = [] then off F pre else off F pre + bs F u) := get_of_drop (h ▸ drop_lay hF) rfl

/-- Entries of the payload. -/
theorem payload (hF : Const F) (h : c = lay F 0 (pre ++ u :: post)) :
    c.drop (off F pre + 2) = F (off F pre) u ++ lay F (off F pre + bs F u) post := by
  rw [← List.drop_drop, h, drop_lay hF]
  simp

theorem length_ge (hF : Const F) (h : c = lay F 0 (pre ++ u :: post)) :
    off F pre + 2 + (F (off F pre) u).length ≤ c.length := by
  rw [h, length_lay hF, off_append, off_cons, bs, hF]
  omega

end access
end Verif.Blocks
