import Verif.Spec.Core
import Verif.Spec.Reach
/-!
# Specification vocabulary: the greedy rule for dominating sets

Independent of the model.  `R v u d` means that `u` is an in-neighbour of `v` at distance `d`.
-/
namespace Verif

/-- `x` belongs to the set generated by `J`: it is in `J` or an in-neighbour of more than `c` vertices of `J`. -/
def Generated (R : ℕ → ℕ → ℕ → Prop) (c : ℕ) (J : Finset ℕ) (x : ℕ) : Prop :=
  x ∈ J ∨ ∃ A : Finset ℕ, (∀ s, s ∈ A ↔ s ∈ J ∧ ∃ d, R s x d) ∧ c < A.card

/-- Processing `v`: from the set `J` and the distances `μ` to `J'` and `μ'`.  The distance of `v` is first improved through its
in-neighbours.  If the result is at most `r`, nothing else happens.  Otherwise `v` joins, vertices of the generated set get
distance 0, and their in-neighbours at most the distance from them. -/
def DomStep (V : Finset ℕ) (R : ℕ → ℕ → ℕ → Prop) (r c : ℕ) (J : Finset ℕ) (μ : ℕ → ℕ) (v : ℕ) (J' : Finset ℕ)
    (μ' : ℕ → ℕ) : Prop :=
  ∃ k, IsMin (fun k => k = μ v ∨ ∃ u d, R v u d ∧ k = d + μ u) k ∧
    ((k ≤ r ∧ J' = J ∧ ∀ x ∈ V, μ' x = if x = v then k else μ x) ∨
      (r < k ∧ J' = insert v J ∧ ∀ x ∈ V, IsMin (fun k => k = μ x ∨ (k = 0 ∧ Generated R c J' x) ∨
        ∃ s, Generated R c J' s ∧ R s x k) (μ' x)))

/-- Processing the vertices of a list, given in reverse: initially targets have distance `r + 1` and other vertices `r`. -/
inductive DomRun (V : Finset ℕ) (R : ℕ → ℕ → ℕ → Prop) (T : ℕ → Prop) (r c : ℕ) : List ℕ → Finset ℕ → (ℕ → ℕ) → Prop
  | nil {μ : ℕ → ℕ} (hT : ∀ x ∈ V, T x → μ x = r + 1) (hN : ∀ x ∈ V, ¬ T x → μ x = r) : DomRun V R T r c [] ∅ μ
  | cons {l : List ℕ} {J J' : Finset ℕ} {μ μ' : ℕ → ℕ} {v : ℕ} (h : DomRun V R T r c l J μ) (hs : DomStep V R r c J μ v J' μ') :
      DomRun V R T r c (v :: l) J' μ'

/-- `o` lists the vertices by decreasing number of left neighbours, then by decreasing degree, then by position. -/
def SGraph.ByLeftDegree (S : SGraph) (ord o : List ℕ) : Prop :=
  (∀ x, x ∈ o ↔ x ∈ S.V) ∧ o.Pairwise fun a b => (S.before ord b).card < (S.before ord a).card ∨
    ((S.before ord b).card = (S.before ord a).card ∧ (S.deg b < S.deg a ∨ (S.deg b = S.deg a ∧ ord.idxOf a < ord.idxOf b)))

end Verif
