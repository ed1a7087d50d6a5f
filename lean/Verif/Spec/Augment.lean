import Verif.Spec.Core
import Verif.Spec.Witness
/-!
# Specification vocabulary: fraternal augmentations

Independent of the model.  `R w x y` means that there is an arc of weight `w` from `x` to `y`.
-/
namespace Verif

/-- `ord` lists the vertices; every vertex has least degree among itself and the vertices before it, as far as the degrees in
question are at most 129. -/
def SGraph.SmallestLast (S : SGraph) (ord : List ℕ) : Prop :=
  ord.Nodup ∧ (∀ u, u ∈ ord ↔ u ∈ S.V) ∧ ∀ pre v post, ord = pre ++ v :: post → ∀ w ∈ pre,
    S.degIn (insert v pre.toFinset) v ≤ 129 ∨ S.degIn (insert v pre.toFinset) w ≤ 129 →
    S.degIn (insert v pre.toFinset) v ≤ S.degIn (insert v pre.toFinset) w

/-- `B` orients all edges of `S` forward in a smallest-last order. -/
def SGraph.Layered (S : SGraph) (B : ℕ → ℕ → Prop) : Prop :=
  ∃ ord, S.SmallestLast ord ∧ ∀ u v, B u v ↔ S.Adj u v ∧ ord.idxOf u < ord.idxOf v

/-- `B` orients all edges of `S` forward in an order obtained by repeatedly removing a vertex of least degree, up to buckets. -/
def SGraph.PeelOriented (S : SGraph) (B : ℕ → ℕ → Prop) : Prop :=
  ∃ p, S.Peeled p ∧ ∀ u v, B u v ↔ S.Adj u v ∧ p.idxOf u < p.idxOf v

/-- Two arcs of total weight `d` lead from `x` to `u ≠ x`, and there is no arc from `x` to `u`. -/
def Bridged (R : ℕ → ℕ → ℕ → Prop) (d x u : ℕ) : Prop :=
  x ≠ u ∧ (∀ w, ¬ R w x u) ∧ ∃ y w w', w + w' = d ∧ R w x y ∧ R w' y u

/-- Arcs of weights `1` and `d - 1` lead from `x` and `y ≠ x` to a common vertex, and there is no arc between `x` and `y`. -/
def Meeting (R : ℕ → ℕ → ℕ → Prop) (d x y : ℕ) : Prop :=
  x ≠ y ∧ (∀ w, ¬ R w x y ∧ ¬ R w y x) ∧ ∃ u, (R 1 x u ∧ R (d - 1) y u) ∨ (R (d - 1) x u ∧ R 1 y u)

/-- One round: from `R` to `R'` with new arcs of weight `d`.  Bridged pairs receive arcs.  The other meeting pairs form a graph,
which `O` orients; each of its arcs from a larger to a smaller vertex is reversed and added, the others are lost. -/
def Rounded (O : SGraph → (ℕ → ℕ → Prop) → Prop) (R : ℕ → ℕ → ℕ → Prop) (d : ℕ) (R' : ℕ → ℕ → ℕ → Prop) : Prop :=
  ∃ F B, (∀ a, a ∈ F.V ↔ ∃ b, Meeting R d a b) ∧
    (∀ a b, F.Adj a b ↔ Meeting R d a b ∧ ¬ Bridged R d a b ∧ ¬ Bridged R d b a) ∧ O F B ∧
    ∀ w u v, R' w u v ↔ R w u v ∨ (w = d ∧ (Bridged R d u v ∨ (u < v ∧ B v u)))

/-- Rounds starting with the arcs `R` of weights up to `d`. -/
inductive Rounds (O : SGraph → (ℕ → ℕ → Prop) → Prop) (d : ℕ) (R : ℕ → ℕ → ℕ → Prop) : ℕ → (ℕ → ℕ → ℕ → Prop) → Prop
  | refl : Rounds O d R d R
  | step {e : ℕ} {R' R'' : ℕ → ℕ → ℕ → Prop} (h : Rounds O d R e R') (hs : Rounded O R' (e + 1) R'') : Rounds O d R (e + 1) R''

/-- The orientation of depth `k`, where `L` describes the orientations of depth 1.  For `k ≤ 1` it is one of these.  Otherwise, an
orientation `B₀` of depth 1 is augmented to depth `k`, the arcs from larger to smaller vertices are made into a graph `T`, an
orientation of depth 1 of `T` is computed, and its arcs along edges of `S` are kept. -/
def SGraph.DeepBy (S : SGraph) (L : SGraph → (ℕ → ℕ → Prop) → Prop) (k : ℕ) (B : ℕ → ℕ → Prop) : Prop :=
  (k ≤ 1 ∧ L S B) ∨
    (1 < k ∧ ∃ (B₀ : ℕ → ℕ → Prop) (R : ℕ → ℕ → ℕ → Prop) (T : SGraph) (B₁ : ℕ → ℕ → Prop),
      L S B₀ ∧ Rounds L 1 (fun w u v => w = 1 ∧ B₀ u v) k R ∧
      T.V = S.V ∧ (∀ a b, T.Adj a b ↔ ∃ w, (a < b ∧ R w b a) ∨ (b < a ∧ R w a b)) ∧ L T B₁ ∧
      ∀ u v, B u v ↔ B₁ u v ∧ S.Adj u v)

/-- The orientation of depth `k` built from layered ones. -/
def SGraph.DeepOriented (k : ℕ) (S : SGraph) (B : ℕ → ℕ → Prop) : Prop := S.DeepBy SGraph.Layered k B

end Verif
