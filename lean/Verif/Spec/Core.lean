import Verif.Spec.SGraph
/-!
# Specification vocabulary: connectivity, cores, degeneracy, colourability

Independent of the model.
-/
namespace Verif

/-- `u` and `v` are joined by a walk along `R`. -/
def Conn (R : ℕ → ℕ → Prop) (u v : ℕ) : Prop := ∃ n, Walk R n u v

namespace SGraph

/-- Number of neighbours of `u` inside the vertex set `W`. -/
def degIn (S : SGraph) (W : Finset ℕ) (u : ℕ) : ℕ := (W.filter (fun v => S.Adj u v)).card

/-- The subgraph induced by `W` has minimum degree at least `k`. -/
def MinDeg (S : SGraph) (W : Finset ℕ) (k : ℕ) : Prop := W ⊆ S.V ∧ ∀ w ∈ W, k ≤ S.degIn W w

/-- `k` is the core number of `v`: the largest `k` such that `v` lies in a subgraph of minimum degree `k`. -/
def IsCore (S : SGraph) (v k : ℕ) : Prop :=
  (∃ W, S.MinDeg W k ∧ v ∈ W) ∧ ∀ W k', S.MinDeg W k' → v ∈ W → k' ≤ k

/-- `k` is the degeneracy: every nonempty induced subgraph has a vertex of degree at most `k`, and `k` is
the least such number. -/
def IsDegeneracy (S : SGraph) (k : ℕ) : Prop :=
  (∀ W, W ⊆ S.V → W.Nonempty → ∃ w ∈ W, S.degIn W w ≤ k) ∧
  ∀ k', (∀ W, W ⊆ S.V → W.Nonempty → ∃ w ∈ W, S.degIn W w ≤ k') → k ≤ k'

/-- Neighbours of `u` that occur before `u` in the list `l`. -/
def before (S : SGraph) (l : List ℕ) (u : ℕ) : Finset ℕ :=
  (S.nbrs u).filter (fun v => l.idxOf v < l.idxOf u)

/-- `S` is 2-colourable. -/
def TwoColourable (S : SGraph) : Prop := ∃ f : ℕ → Bool, ∀ u v, S.Adj u v → f u ≠ f v

/-- `c` is a closed walk: consecutive entries and last/first are adjacent. -/
def ClosedWalk (S : SGraph) (c : List ℕ) : Prop :=
  c ≠ [] ∧ c.IsChain S.Adj ∧ ∀ x ∈ c.head?, ∀ y ∈ c.getLast?, S.Adj y x

/-- `c` runs through the odd cycle `v :: a` and then, unless `t` is empty, from `v` along the path `t` and back. -/
def Lasso (S : SGraph) (c : List ℕ) (v : ℕ) (a t : List ℕ) : Prop :=
  c = v :: a ++ (if t = [] then [] else v :: t ++ t.dropLast.reverse) ∧ (v :: a).length % 2 = 1 ∧ S.ClosedWalk (v :: a) ∧
    (v :: a ++ t).Nodup ∧ (v :: t).IsChain S.Adj

end SGraph
end Verif
