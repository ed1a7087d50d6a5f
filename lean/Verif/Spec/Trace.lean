import Verif.Spec.SGraph
/-!
# Specification vocabulary: neighbourhood traces

Independent of the model.
-/
namespace Verif
namespace SGraph

/-- The number of vertices outside `X` whose set of neighbours in `X` is exactly `T`. -/
def traceCount (S : SGraph) (X T : Finset ℕ) : ℕ := (S.V.filter (fun y => y ∉ X ∧ S.nbrs y ∩ X = T)).card

/-- The number of vertices outside `X` with a neighbour in `X`. -/
def outerNbrs (S : SGraph) (X : Finset ℕ) : ℕ := (S.V.filter (fun y => y ∉ X ∧ ∃ x ∈ X, S.Adj x y)).card

end SGraph
end Verif
