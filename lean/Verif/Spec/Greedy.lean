import Verif.Spec.Core
/-!
# Specification vocabulary: the greedy colouring rule

Independent of the model.
-/
namespace Verif
namespace SGraph

/-- `0, 1, …, p-1` is a subsequence of `l`, but `0, 1, …, p` is not. -/
def LongestRun (l : List ℕ) (p : ℕ) : Prop := (List.range p).Sublist l ∧ ¬ (List.range (p + 1)).Sublist l

/-- The numbers of left neighbours of the given vertices. -/
def leftDegs (S : SGraph) (ord : List ℕ) (l : List ℕ) : List ℕ := l.map fun w => (S.before ord w).card

/-- Colour given to a vertex with `d` left neighbours when the colours below `p` exist and the left neighbours have the colours
`used`: colour `p` if `d = p`; otherwise the smallest unused existing colour; no colour if there is none. -/
def GreedyRule (p d : ℕ) (used : ℕ → Prop) : Option ℕ → Prop
  | some k => (d = p ∧ k = p) ∨ (d ≠ p ∧ k < p ∧ ¬ used k ∧ ∀ j < k, used j)
  | none => d ≠ p ∧ ∀ j < p, used j

/-- `χ` obeys the greedy rule at every vertex; the number of existing colours is determined by the numbers of left neighbours
of the preceding vertices. -/
def IsGreedy (S : SGraph) (ord : List ℕ) (χ : ℕ → Option ℕ) : Prop :=
  (∀ v, v ∉ S.V → χ v = none) ∧ ∀ v ∈ S.V, ∃ p, LongestRun (S.leftDegs ord (ord.take (ord.idxOf v))) p ∧
    GreedyRule p (S.before ord v).card (fun k => ∃ u ∈ S.before ord v, χ u = some k) (χ v)

end SGraph
end Verif
