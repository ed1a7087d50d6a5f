import Verif.Spec.SGraph
/-!
# Specification vocabulary: chordal completions, treewidth, treedepth

Independent of the model.
-/
namespace Verif
namespace SGraph

/-- A symmetric relation containing the edges such that, for the vertex ordering `ord`, the earlier neighbours of each vertex
are pairwise related: a chordal completion of the graph with the (reversed) perfect elimination ordering `ord`. -/
structure Completion (S : SGraph) (ord : List ℕ) (R : ℕ → ℕ → Prop) : Prop where
  symm : ∀ u v, R u v → R v u
  edge : ∀ u v, S.Adj u v → R u v
  clique : ∀ v a b, R v a → R v b → ord.idxOf a < ord.idxOf v → ord.idxOf b < ord.idxOf v → a ≠ b → R a b

/-- A rooted tree decomposition.  The nodes are numbers; `par` is the parent, `depth` the distance to the root.  Every vertex
lies in a bag, the ends of every edge lie in a common bag, and the nodes whose bags contain a vertex form a subtree: all of
them but the topmost one, `top v`, have their parent among them. -/
structure TreeDecomp (S : SGraph) (bag : ℕ → Finset ℕ) (par depth top : ℕ → ℕ) : Prop where
  vertex : ∀ v ∈ S.V, v ∈ bag (top v)
  edge : ∀ u v, S.Adj u v → ∃ t, u ∈ bag t ∧ v ∈ bag t
  subtree : ∀ v t, v ∈ bag t → t ≠ top v → v ∈ bag (par t) ∧ depth (par t) < depth t

/-- The treewidth is at most `k`: there is a tree decomposition whose bags have at most `k + 1` elements. -/
def TreewidthLE (S : SGraph) (k : ℕ) : Prop :=
  ∃ bag par depth top, S.TreeDecomp bag par depth top ∧ ∀ t, (bag t).card ≤ k + 1

/-- The treedepth is at most `t`: there is a rooted forest, given by its relation "proper ancestor", in which the ends of every
edge are comparable and every vertex has fewer than `t` ancestors. -/
def TreedepthLE (S : SGraph) (t : ℕ) : Prop :=
  ∃ anc : ℕ → ℕ → Prop, (∀ u, ¬ anc u u) ∧ (∀ u v w, anc u v → anc v w → anc u w) ∧
    (∀ u v w, anc u w → anc v w → u = v ∨ anc u v ∨ anc v u) ∧
    (∀ u v, S.Adj u v → u ≠ v → anc u v ∨ anc v u) ∧
    ∀ v ∈ S.V, ∀ X ⊆ S.V, (∀ x ∈ X, anc x v) → X.card + 1 ≤ t

end SGraph
end Verif
