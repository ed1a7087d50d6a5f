import Verif.Spec.DomRule
import Verif.Spec.Greedy
import Verif.Spec.Witness
import Mathlib.Data.List.Sort
/-!
# Specification vocabulary: colouring in rounds and merging of classes

Independent of the model.
-/
namespace Verif

/-- One round on the target `T`: `J` are the vertices of the target that join by the rule of `DomRun` (in-neighbours within
distance `D`, radius `D / 2`), `χ` is a greedy colouring of their conflict graph along an order found by removing vertices of
least degree. -/
def SGraph.ScatterRound (S : SGraph) (ord o : List ℕ) (D : ℕ) (T J : Finset ℕ) (χ : ℕ → Option ℕ) : Prop :=
  ∃ μ H p, DomRun S.V (fun v u d => S.WReach ord v u d ∧ d ≤ D) (· ∈ T) (D / 2) (D ^ 2) o.reverse J μ ∧
    S.IsConflict (2 * (D / 2)) J H ∧ H.Peeled p ∧ H.IsGreedy p χ

/-- Rounds, numbered from `k` on, until the target is used up; `κ` gives the round and the colour of every vertex. -/
inductive SGraph.ScatterRounds (S : SGraph) (ord o : List ℕ) (D : ℕ) : ℕ → Finset ℕ → (ℕ → Option (ℕ × ℕ)) → Prop
  | done {k : ℕ} {κ : ℕ → Option (ℕ × ℕ)} (h : ∀ v, κ v = none) : SGraph.ScatterRounds S ord o D k ∅ κ
  | round {k : ℕ} {T J : Finset ℕ} {χ : ℕ → Option ℕ} {κ κ' : ℕ → Option (ℕ × ℕ)} (hT : T.Nonempty)
      (h : S.ScatterRound ord o D T J χ) (hJ : ∀ v ∈ J, χ v ≠ none) (t : SGraph.ScatterRounds S ord o D (k + 1) (T \ J) κ')
      (hκ : ∀ v, κ v = if v ∈ J then (χ v).map (fun c => (k, c)) else κ' v) : SGraph.ScatterRounds S ord o D k T κ

/-- Rounds can end with a vertex that gets no colour. -/
inductive SGraph.ScatterFails (S : SGraph) (ord o : List ℕ) (D : ℕ) : Finset ℕ → Prop
  | here {T J : Finset ℕ} {χ : ℕ → Option ℕ} {v : ℕ} (hT : T.Nonempty) (h : S.ScatterRound ord o D T J χ) (hv : v ∈ J)
      (hn : χ v = none) : SGraph.ScatterFails S ord o D T
  | later {T J : Finset ℕ} {χ : ℕ → Option ℕ} (hT : T.Nonempty) (h : S.ScatterRound ord o D T J χ) (hJ : ∀ v ∈ J, χ v ≠ none)
      (t : SGraph.ScatterFails S ord o D (T \ J)) : SGraph.ScatterFails S ord o D T

/-- `cs` lists the classes of vertices with equal value of `κ`. -/
def ClassesOf (κ : ℕ → Option (ℕ × ℕ)) (cs : List (Finset ℕ)) : Prop :=
  cs.Nodup ∧ ∀ A, A ∈ cs ↔ ∃ u, κ u ≠ none ∧ ∀ v, v ∈ A ↔ κ v = κ u

/-- `A` absorbs, from left to right, the sets of the list that are not near to what it has become: it grows to `A'`, and `l'`
is left of the list. -/
inductive Absorb (near : Finset ℕ → Finset ℕ → Prop) : Finset ℕ → List (Finset ℕ) → Finset ℕ → List (Finset ℕ) → Prop
  | nil {A : Finset ℕ} : Absorb near A [] A []
  | keep {A B A' : Finset ℕ} {l l' : List (Finset ℕ)} (h : near A B) (t : Absorb near A l A' l') : Absorb near A (B :: l) A' (B :: l')
  | take {A B A' : Finset ℕ} {l l' : List (Finset ℕ)} (h : ¬ near A B) (t : Absorb near (A ∪ B) l A' l') : Absorb near A (B :: l) A' l'

/-- Each set of the list in turn absorbs what it can; `g` are the sets that have grown, `f` those that have not. -/
inductive Sweep (near : Finset ℕ → Finset ℕ → Prop) : List (Finset ℕ) → List (Finset ℕ) → List (Finset ℕ) → Prop
  | nil : Sweep near [] [] []
  | stuck {A : Finset ℕ} {l g f : List (Finset ℕ)} (h : Absorb near A l A l) (t : Sweep near l g f) : Sweep near (A :: l) g (A :: f)
  | grow {A A' : Finset ℕ} {l l' g f : List (Finset ℕ)} (h : Absorb near A l A' l') (hl : l'.length < l.length)
      (t : Sweep near l' g f) : Sweep near (A :: l) (A' :: g) f

/-- Sweeps over the sets sorted by size, always continuing with those that have grown. -/
inductive Improve (near : Finset ℕ → Finset ℕ → Prop) : List (Finset ℕ) → List (Finset ℕ) → Prop
  | stop {cs f : List (Finset ℕ)} (h : Sweep near (cs.insertionSort fun A B => A.card ≤ B.card) [] f) : Improve near cs f
  | again {cs g f r : List (Finset ℕ)} (h : Sweep near (cs.insertionSort fun A B => A.card ≤ B.card) g f) (hg : g ≠ [])
      (t : Improve near g r) : Improve near cs (f ++ r)

/-- Some vertices of the two sets have distance less than `k`. -/
def SGraph.Near (S : SGraph) (k : ℕ) (A B : Finset ℕ) : Prop := ∃ x ∈ A, ∃ y ∈ B, ∃ n < k, Walk S.Adj n x y

end Verif
