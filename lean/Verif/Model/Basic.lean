import Mathlib.Data.List.Nodup
import Mathlib.Data.List.Perm.Basic
import Mathlib.Data.List.Sort
/-!
# Model basics: faults, hash maps, hash sets, iteration-order oracles

These definitions model the parts of the Rust standard library / `fxhash` that `/repo/src` relies on.
-/
namespace Verif

/-- `/repo/src/graph.rs:15` `pub type Vertex = u32`.  Vertices are modelled by `Nat`; places where the
code computes new ids use the checked `add32`/`mul32` below. -/
notation "Vertex" => Nat

/-- `/repo/src/graph.rs:18` `pub type Edge = (Vertex, Vertex)`. -/
notation "Edge" => Nat × Nat

/-- Ways in which the Rust code can go wrong.  `panic`: explicit panic, `unwrap` on `None`, map or slice
index out of range, failed assertion.  `overflow`: arithmetic overflow/underflow (a panic in the debug
profile).  `ub`: undefined behaviour of an `unsafe` block (`get_unchecked` out of range,
`unwrap_unchecked` on `None`).  `fuel`: the model's loop bound was exhausted (possible divergence). -/
inductive Fault where
  | panic | overflow | ub | fuel
  deriving DecidableEq, Repr

/-- Result of running Rust code that may fail. -/
abbrev Res (α : Type) := Except Fault α

/-- `Option::unwrap` and map indexing `m[k]` (panics on `None`). -/
def unwrap {α : Type} : Option α → Res α
  | some a => .ok a
  | none => .error .panic

/-- `Option::unwrap_unchecked`, `slice::get_unchecked` (undefined behaviour on `None`). -/
def unwrapUnchecked {α : Type} : Option α → Res α
  | some a => .ok a
  | none => .error .ub

/-- `u32` addition, debug profile (overflow check). -/
def add32 (a b : Nat) : Res Nat := if a + b < 2 ^ 32 then .ok (a + b) else .error .overflow

/-- `u32` multiplication, debug profile (overflow check). -/
def mul32 (a b : Nat) : Res Nat := if a * b < 2 ^ 32 then .ok (a * b) else .error .overflow

/-- Unsigned subtraction, debug profile (underflow check). -/
def usub (a b : Nat) : Res Nat := if b ≤ a then .ok (a - b) else .error .overflow

/-- `assert!`. -/
def assertR (b : Bool) : Res Unit := if b then .ok () else .error .panic

/-- Total correctness of a computation: it succeeds with a value satisfying `P`. -/
def Ok {α : Type} (x : Res α) (P : α → Prop) : Prop := ∃ a, x = .ok a ∧ P a

/-! ## Hash sets -/

/-- Model of `FxHashSet<K>`: a duplicate-free list, whose order is the (arbitrary) iteration order. -/
structure HSet (κ : Type) where
  toList : List κ
  nodup : toList.Nodup

namespace HSet
variable {κ : Type} [DecidableEq κ]

/-- `FxHashSet::default()`. -/
def empty : HSet κ := ⟨[], List.nodup_nil⟩

instance : EmptyCollection (HSet κ) := ⟨empty⟩

/-- `HashSet::contains`. -/
def contains (s : HSet κ) (a : κ) : Bool := decide (a ∈ s.toList)

instance : Membership κ (HSet κ) := ⟨fun s a => a ∈ s.toList⟩

instance (a : κ) (s : HSet κ) : Decidable (a ∈ s) := inferInstanceAs (Decidable (a ∈ s.toList))

/-- `HashSet::len`. -/
def len (s : HSet κ) : Nat := s.toList.length

/-- `HashSet::insert`. -/
def insert (s : HSet κ) (a : κ) : HSet κ :=
  if h : a ∈ s.toList then s else ⟨a :: s.toList, List.nodup_cons.2 ⟨h, s.nodup⟩⟩

/-- `HashSet::remove`. -/
def remove (s : HSet κ) (a : κ) : HSet κ := ⟨s.toList.filter (· ≠ a), s.nodup.filter _⟩

/-- `HashSet::retain`. -/
def retain (s : HSet κ) (p : κ → Bool) : HSet κ := ⟨s.toList.filter p, s.nodup.filter _⟩

/-- `HashSet::extend`. -/
def extend (s : HSet κ) (l : List κ) : HSet κ := l.foldl insert s

/-- `iter.collect::<HashSet<_>>()`. -/
def ofList (l : List κ) : HSet κ := extend ∅ l

/-- `HashSet == HashSet`: same length and every element contained (std implementation). -/
def eqv (s t : HSet κ) : Bool := s.len == t.len && s.toList.all (fun a => t.contains a)

end HSet

/-! ## Hash maps -/

/-- Model of `FxHashMap<K,V>`: an association list with distinct keys, whose order is the (arbitrary)
iteration order. -/
structure HMap (κ α : Type) where
  entries : List (κ × α)
  nodup : (entries.map Prod.fst).Nodup

namespace HMap
variable {κ α : Type} [DecidableEq κ]

/-- `FxHashMap::default()`. -/
def empty : HMap κ α := ⟨[], List.nodup_nil⟩

instance : EmptyCollection (HMap κ α) := ⟨empty⟩

/-- Lookup in an association list. -/
def lookupL (k : κ) : List (κ × α) → Option α
  | [] => none
  | (k', a) :: l => if k' = k then some a else lookupL k l

/-- `HashMap::get`. -/
def get? (m : HMap κ α) (k : κ) : Option α := lookupL k m.entries

/-- `HashMap::contains_key`. -/
def contains (m : HMap κ α) (k : κ) : Bool := (m.get? k).isSome

/-- `HashMap::len`. -/
def len (m : HMap κ α) : Nat := m.entries.length

/-- `HashMap::keys` in iteration order. -/
def keys (m : HMap κ α) : List κ := m.entries.map Prod.fst

/-- `HashMap::values` in iteration order. -/
def values (m : HMap κ α) : List α := m.entries.map Prod.snd

/-- Replace the value stored under `k`. -/
def replaceL (k : κ) (a : α) (l : List (κ × α)) : List (κ × α) :=
  l.map (fun e => if e.1 = k then (k, a) else e)

theorem replaceL_keys (k : κ) (a : α) (l : List (κ × α)) :
    (replaceL k a l).map Prod.fst = l.map Prod.fst := by
  simp only [replaceL, List.map_map]
  apply List.map_congr_left
  intro e _
  simp only [Function.comp]
  split
  · next h => exact h.symm
  · rfl

/-- `HashMap::insert` (also models writing through `get_mut`): replaces the value of an existing key,
otherwise adds a new entry. -/
def insert (m : HMap κ α) (k : κ) (a : α) : HMap κ α :=
  if h : k ∈ m.entries.map Prod.fst then ⟨replaceL k a m.entries, by rw [replaceL_keys]; exact m.nodup⟩
  else ⟨(k, a) :: m.entries, by simpa using ⟨by simpa using h, m.nodup⟩⟩

/-- `HashMap::remove`. -/
def remove (m : HMap κ α) (k : κ) : HMap κ α :=
  ⟨m.entries.filter (fun e => e.1 ≠ k), by
    have h : (m.entries.filter (fun e => e.1 ≠ k)).map Prod.fst
        = (m.entries.map Prod.fst).filter (· ≠ k) := by
      rw [List.filter_map]; rfl
    rw [h]; exact m.nodup.filter _⟩

/-- `HashMap::get(k).copied().unwrap_or(d)` / `entry(k).or_insert(d)` read. -/
def getD (m : HMap κ α) (k : κ) (d : α) : α := (m.get? k).getD d

/-- `iter.collect::<HashMap<_,_>>()`: later pairs overwrite earlier ones. -/
def ofList (l : List (κ × α)) : HMap κ α := l.foldl (fun m e => m.insert e.1 e.2) ∅

/-- Comparison of one stored value with the other map's value for the same key. -/
def optEq (eq : α → α → Bool) (a : α) : Option α → Bool
  | some b => eq a b
  | none => false

/-- `HashMap == HashMap` with value comparison `eq`: same length and every entry present with an equal
value (std implementation). -/
def eqv (eq : α → α → Bool) (m m' : HMap κ α) : Bool :=
  m.len == m'.len && m.entries.all (fun e => optEq eq e.2 (m'.get? e.1))

end HMap

/-! ## Arbitrary iteration order -/

/-- An arbitrary permutation of lists: the unspecified iteration order of a temporary hash table.
Theorems quantify over all of these. -/
structure Shuffle (α : Type) where
  run : List α → List α
  perm : ∀ l, (run l).Perm l

/-- The identity order; used for examples only. -/
def Shuffle.id {α : Type} : Shuffle α := ⟨fun l => l, fun _ => List.Perm.refl _⟩

/-- The reversed order; used for examples only. -/
def Shuffle.rev {α : Type} : Shuffle α := ⟨List.reverse, fun l => List.reverse_perm l⟩

end Verif
