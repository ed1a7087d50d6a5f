import Verif.Spec.SGraph
/-!
# Specification vocabulary: paths with restricted inner vertices, strong and weak reachability

Independent of the model.
-/
namespace Verif

/-- `n` is the least number satisfying `P`. -/
def IsMin (P : ℕ → Prop) (n : ℕ) : Prop := P n ∧ ∀ m < n, ¬ P m

namespace SGraph

/-- There is a path (no repeated vertex) with `n` edges from `u` to `v` all of whose inner vertices satisfy `P`. -/
def PathVia (S : SGraph) (P : ℕ → Prop) (n u v : ℕ) : Prop :=
  ∃ p : List ℕ, (u :: (p ++ [v])).IsChain S.Adj ∧ (u :: (p ++ [v])).Nodup ∧ p.length + 1 = n ∧ ∀ x ∈ p, P x

/-- `v` is strongly reachable from `u` at distance `d`: `v` is left of `u` and the shortest path from `u` to `v` with all
inner vertices right of `u` has length `d`. -/
def SReach (S : SGraph) (ord : List ℕ) (u v d : ℕ) : Prop :=
  ord.idxOf v < ord.idxOf u ∧ IsMin (fun n => S.PathVia (fun x => ord.idxOf u < ord.idxOf x) n u v) d

/-- `v` is weakly reachable from `u` at distance `d`: `v` is left of `u` and the shortest path from `u` to `v` with all
inner vertices right of `v` has length `d`. -/
def WReach (S : SGraph) (ord : List ℕ) (u v d : ℕ) : Prop :=
  ord.idxOf v < ord.idxOf u ∧ IsMin (fun n => S.PathVia (fun x => ord.idxOf v < ord.idxOf x) n u v) d

/-- Adjacency in the subgraph induced by `r` and the vertices after `r`. -/
def RightAdj (S : SGraph) (ord : List ℕ) (r u v : ℕ) : Prop :=
  S.Adj u v ∧ ord.idxOf r ≤ ord.idxOf u ∧ ord.idxOf r ≤ ord.idxOf v

end SGraph
end Verif
