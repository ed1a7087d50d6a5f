import Verif.Spec.Witness
/-!
# Specification vocabulary: removing vertices of least degree when there are loops

Independent of the model.  `h` is the list of removals so far; a vertex may occur in it more than once.
-/
namespace Verif
namespace SGraph

/-- How often a neighbour of `u` was removed. -/
def taken (S : SGraph) (h : List ℕ) (u : ℕ) : ℕ := (h.filter (fun x => decide (S.Adj u x))).length

/-- After the removals `h`, the vertex `u` waits to be removed with degree `x`: either it has not been removed yet, and every
removal of a neighbour took one from its degree; or it has a loop and was removed once, its own removal took one from its
degree as well, and this moved it to another bucket. -/
def Waits (S : SGraph) (h : List ℕ) (u x : ℕ) : Prop :=
  u ∈ S.V ∧ ((u ∉ h ∧ x + S.taken h u = S.deg u) ∨
    ∃ a b, h = a ++ u :: b ∧ u ∉ a ∧ u ∉ b ∧ S.Adj u u ∧ x + 1 + S.taken a u = S.deg u ∧ ¬ SameBucket (x + 1) x)

/-- After the removals `h`, the vertex `v` waits with least degree, up to degrees in the same bucket. -/
def NextPick (S : SGraph) (h : List ℕ) (v : ℕ) : Prop :=
  ∃ x, S.Waits h v x ∧ ∀ w y, S.Waits h w y → x ≤ y ∨ SameBucket x y

/-- The degree of `u`, a neighbour of `v` not removed before, falls below zero when `v` is removed after `h`. -/
def Exhausts (S : SGraph) (h : List ℕ) (v u : ℕ) : Prop := S.Adj v u ∧ u ∉ h ∧ S.deg u ≤ S.taken h u

/-- `h` can be removed in this order: always a vertex of least degree, and no degree falls below zero. -/
def LoopRun (S : SGraph) (h : List ℕ) : Prop :=
  ∀ a v b, h = a ++ v :: b → S.NextPick a v ∧ ∀ u, ¬ S.Exhausts a v u

end SGraph

/-- Position of the last occurrence. -/
def lastIdx (l : List ℕ) (u : ℕ) : ℕ := l.length - 1 - l.reverse.idxOf u

end Verif
