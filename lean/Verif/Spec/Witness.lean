import Verif.Spec.Core
import Verif.Spec.Reach
/-!
# Specification vocabulary: conflicts between scattered vertices, and orders found by repeatedly removing a vertex of least degree

Independent of the model.
-/
namespace Verif

/-- Two degrees that `degeneracy` does not tell apart. -/
def SameBucket (x y : ℕ) : Prop := ∃ j, 127 + 2 ^ j < y ∧ x ≤ 127 + 2 ^ (j + 1)

/-- `ord` lists the vertices; every vertex has least degree, up to degrees in the same bucket, among itself and the vertices
before it. -/
def SGraph.Peeled (S : SGraph) (ord : List ℕ) : Prop :=
  ord.Nodup ∧ (∀ u, u ∈ ord ↔ u ∈ S.V) ∧ ∀ pre v post, ord = pre ++ v :: post → ∀ w ∈ pre,
    S.degIn (insert v pre.toFinset) v ≤ S.degIn (insert v pre.toFinset) w ∨
    SameBucket (S.degIn (insert v pre.toFinset) v) (S.degIn (insert v pre.toFinset) w)

/-- `T` joins the vertices of `J` whose distance in `S` is at most `k`. -/
def SGraph.IsConflict (S : SGraph) (k : ℕ) (J : Finset ℕ) (T : SGraph) : Prop :=
  T.V = J ∧ ∀ x y, T.Adj x y ↔ x ∈ J ∧ y ∈ J ∧ x ≠ y ∧ ∃ n ≤ k, Walk S.Adj n x y

/-- `W` is not empty and every vertex of `W` has `m` others of `W` within distance `k`. -/
def SGraph.Crowd (S : SGraph) (k m : ℕ) (W : Finset ℕ) : Prop :=
  W.Nonempty ∧ ∀ w ∈ W, ∃ A ⊆ W, A.card = m ∧ w ∉ A ∧ ∀ x ∈ A, ∃ n ≤ k, Walk S.Adj n w x

end Verif
