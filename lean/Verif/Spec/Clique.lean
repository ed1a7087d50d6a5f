import Verif.Spec.SGraph
import Verif.Spec.Core
import Mathlib.Data.Finset.Powerset
/-!
# Specification vocabulary: cliques

Independent of the model.
-/
namespace Verif
namespace SGraph

/-- `K` is a set of pairwise adjacent vertices. -/
def IsClique (S : SGraph) (K : Finset ℕ) : Prop := K ⊆ S.V ∧ ∀ a ∈ K, ∀ b ∈ K, a ≠ b → S.Adj a b

/-- `K` is a nonempty clique contained in no larger clique. -/
def IsMaxClique (S : SGraph) (K : Finset ℕ) : Prop :=
  K.Nonempty ∧ S.IsClique K ∧ ∀ K', S.IsClique K' → K ⊆ K' → K' = K

open Classical in
/-- The number of maximal cliques. -/
noncomputable def numMaxCliques (S : SGraph) : ℕ := (S.V.powerset.filter S.IsMaxClique).card

/-- `K` picks one vertex per layer of the list `l`: the first layer consists of the last entry `u` and all entries not adjacent
to `u`, the further layers are those of the entries adjacent to `u`. -/
inductive Picks (S : SGraph) : List ℕ → Finset ℕ → Prop
  | nil : Picks S [] ∅
  | cons {l : List ℕ} {u w : ℕ} {K : Finset ℕ} (hw : w ∈ l ++ [u]) (hn : ¬ S.Adj u w)
      (h : Picks S (l.filter (fun x => decide (S.Adj u x))) K) : Picks S (l ++ [u]) (insert w K)

/-- The neighbours of `v` before `v` in the order of `ord`. -/
def leftList (S : SGraph) (ord : List ℕ) (v : ℕ) : List ℕ := ord.filter (fun a => decide (a ∈ S.before ord v))

open Classical in
/-- The number of sets consisting of a vertex and a selection from the layers of its left neighbours that are not themselves a
selection from the layers of the left neighbours of a vertex. -/
noncomputable def numPicked (S : SGraph) (ord : List ℕ) : ℕ :=
  (S.V.powerset.filter (fun F => (∃ v ∈ S.V, ∃ K, S.Picks (S.leftList ord v) K ∧ F = insert v K) ∧
    ¬ ∃ v ∈ S.V, S.Picks (S.leftList ord v) F)).card

end SGraph
end Verif
