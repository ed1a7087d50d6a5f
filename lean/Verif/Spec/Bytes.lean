/-! # Specification of byte strings: UTF-8 and lines -/
namespace Verif

/-- The bytes `b` are the UTF-8 encoding of the text `t`. -/
def Utf8 (b : List UInt8) (t : List Char) : Prop := b = t.flatMap String.utf8EncodeChar

/-- `b` consists of the lines `ls`, each followed by a newline byte, and the rest `r` without one. -/
inductive ByteLines : List UInt8 → List (List UInt8) → List UInt8 → Prop
  | rest {r : List UInt8} (h : 10 ∉ r) : ByteLines r [] r
  | line {l t r : List UInt8} {ls : List (List UInt8)} (hn : 10 ∉ l) (h : ByteLines t ls r) :
      ByteLines (l ++ 10 :: t) (l :: ls) r

/-- The lines a reader gets: if the input breaks off with an error, an unterminated rest is lost. -/
def delivered (broken : Bool) (ls : List (List UInt8)) (r : List UInt8) : List (List UInt8) :=
  if broken = true ∨ r = [] then ls else ls ++ [r]

/-- The bytes `l` are UTF-8 for a line of the format `Line` with the value `e`. -/
def ByteLine {β : Type} (Line : List Char → β → Prop) (l : List UInt8) (e : β) : Prop := ∃ t, Utf8 l t ∧ Line t e

/-- The first line that is not well formed has the property `P`. -/
def FirstBad {β : Type} (Line : List Char → β → Prop) (all : List (List UInt8)) (P : List UInt8 → Prop) : Prop :=
  ∃ pre l post, all = pre ++ l :: post ∧ (∀ x ∈ pre, ∃ e, ByteLine Line x e) ∧ (∀ e, ¬ ByteLine Line l e) ∧ P l

/-- The path `p` is the file name `n`, possibly after a directory part. -/
def NamedFile (p n : List Char) : Prop := '/' ∉ n ∧ (p = n ∨ ∃ d, p = d ++ '/' :: n)

end Verif
