import Mathlib.Data.Nat.Digits.Defs
/-! # Specification of the text format: lines, whitespace, decimal 32-bit numbers -/
namespace Verif

/-- Unicode `White_Space`. -/
def IsWs (c : Char) : Prop :=
  (9 ≤ c.toNat ∧ c.toNat ≤ 13) ∨ c.toNat = 0x20 ∨ c.toNat = 0x85 ∨ c.toNat = 0xA0 ∨ c.toNat = 0x1680 ∨
    (0x2000 ≤ c.toNat ∧ c.toNat ≤ 0x200A) ∨ c.toNat = 0x2028 ∨ c.toNat = 0x2029 ∨ c.toNat = 0x202F ∨
    c.toNat = 0x205F ∨ c.toNat = 0x3000

/-- The text `t` consists of the lines `ls` (without terminators); a missing terminator after the last line
is allowed. -/
inductive RawLines : List Char → List (List Char) → Prop
  | nil : RawLines [] []
  | last {l : List Char} (h : l ≠ []) (hn : '\n' ∉ l) : RawLines l [l]
  | line {l t : List Char} {ls : List (List Char)} (hn : '\n' ∉ l) (h : RawLines t ls) :
      RawLines (l ++ '\n' :: t) (l :: ls)

/-- Value of a list of decimal digits, most significant first. -/
def decValue (ds : List Char) : ℕ := Nat.ofDigits 10 (ds.map (fun c => c.toNat - 48)).reverse

/-- `cs` denotes the 32-bit number `n` in decimal (an optional leading `+` is accepted by Rust). -/
def DecToken (cs : List Char) (n : ℕ) : Prop :=
  ∃ ds : List Char, ds ≠ [] ∧ (∀ c ∈ ds, 48 ≤ c.toNat ∧ c.toNat ≤ 57) ∧ (cs = ds ∨ cs = '+' :: ds) ∧
    n = decValue ds ∧ n < 2 ^ 32

/-- The line is the pair `e`: two decimal tokens separated and surrounded by whitespace. -/
def EdgeLine (l : List Char) (e : ℕ × ℕ) : Prop :=
  ∃ w₀ a w₁ b w₂ : List Char, l = w₀ ++ a ++ w₁ ++ b ++ w₂ ∧ (∀ c ∈ w₀, IsWs c) ∧ (∀ c ∈ w₁, IsWs c) ∧
    (∀ c ∈ w₂, IsWs c) ∧ w₁ ≠ [] ∧ DecToken a e.1 ∧ DecToken b e.2

/-- The line is the vertex `u`: one decimal token surrounded by whitespace. -/
def VertexLine (l : List Char) (u : ℕ) : Prop :=
  ∃ w₀ a w₁ : List Char, l = w₀ ++ a ++ w₁ ∧ (∀ c ∈ w₀, IsWs c) ∧ (∀ c ∈ w₁, IsWs c) ∧ DecToken a u

end Verif
