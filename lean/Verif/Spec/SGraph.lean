import Mathlib.Data.Sym.Sym2
import Mathlib.Data.Finset.Card
import Mathlib.Data.Finset.Sum
import Mathlib.Algebra.BigOperators.Group.Finset.Basic
import Mathlib.Algebra.BigOperators.Group.Finset.Piecewise
import Mathlib.Algebra.BigOperators.Group.Finset.Sigma
/-!
# Specification vocabulary: finite undirected graphs

Independent of the model.  A graph is a finite set of vertices and a finite set of unordered pairs of
vertices; a loop at `u` is the pair `s(u, u)`.
-/
namespace Verif

/-- A finite undirected graph, loops allowed. -/
structure SGraph where
  V : Finset ℕ
  E : Finset (Sym2 ℕ)
  wf : ∀ e ∈ E, ∀ u ∈ e, u ∈ V

namespace SGraph

theorem ext {S T : SGraph} (hV : S.V = T.V) (hE : S.E = T.E) : S = T := by
  cases S; cases T; simp_all

/-- Adjacency. -/
def Adj (S : SGraph) (u v : ℕ) : Prop := s(u, v) ∈ S.E

instance (S : SGraph) (u v : ℕ) : Decidable (S.Adj u v) := inferInstanceAs (Decidable (_ ∈ _))

theorem Adj.symm {S : SGraph} {u v : ℕ} (h : S.Adj u v) : S.Adj v u := by
  unfold Adj at *; rwa [Sym2.eq_swap]

theorem adj_comm {S : SGraph} {u v : ℕ} : S.Adj u v ↔ S.Adj v u := ⟨Adj.symm, Adj.symm⟩

theorem Adj.left {S : SGraph} {u v : ℕ} (h : S.Adj u v) : u ∈ S.V := S.wf _ h _ (Sym2.mem_mk_left u v)

theorem Adj.right {S : SGraph} {u v : ℕ} (h : S.Adj u v) : v ∈ S.V := S.wf _ h _ (Sym2.mem_mk_right u v)

/-- No loops. -/
def Loopless (S : SGraph) : Prop := ∀ u, ¬ S.Adj u u

/-- Neighbours of `u` (containing `u` if there is a loop at `u`). -/
def nbrs (S : SGraph) (u : ℕ) : Finset ℕ := S.V.filter (fun v => S.Adj u v)

@[simp] theorem mem_nbrs {S : SGraph} {u v : ℕ} : v ∈ S.nbrs u ↔ S.Adj u v := by
  unfold nbrs
  rw [Finset.mem_filter]
  exact ⟨And.right, fun h => ⟨h.right, h⟩⟩

/-- Degree: number of edges at `u`, loops counted twice. -/
def deg (S : SGraph) (u : ℕ) : ℕ := (S.E.filter (fun e => u ∈ e)).card + if s(u, u) ∈ S.E then 1 else 0

/-- The empty graph. -/
def empty : SGraph := ⟨∅, ∅, by simp⟩

/-- Add a vertex. -/
def addVertex (S : SGraph) (u : ℕ) : SGraph :=
  ⟨insert u S.V, S.E, fun e he v hv => Finset.mem_insert_of_mem (S.wf e he v hv)⟩

/-- Add an edge (and its endpoints). -/
def addEdge (S : SGraph) (u v : ℕ) : SGraph :=
  ⟨insert u (insert v S.V), insert s(u, v) S.E, by
    intro e he w hw
    rw [Finset.mem_insert] at he
    rcases he with rfl | he
    · rcases Sym2.mem_iff.1 hw with rfl | rfl <;> simp
    · exact Finset.mem_insert_of_mem (Finset.mem_insert_of_mem (S.wf e he w hw))⟩

/-- Remove an edge, keeping its endpoints. -/
def removeEdge (S : SGraph) (u v : ℕ) : SGraph :=
  ⟨S.V, S.E.erase s(u, v), fun e he w hw => S.wf e (Finset.mem_of_mem_erase he) w hw⟩

/-- Remove a vertex and all incident edges. -/
def removeVertex (S : SGraph) (u : ℕ) : SGraph :=
  ⟨S.V.erase u, S.E.filter (fun e => u ∉ e), by
    intro e he w hw
    rw [Finset.mem_filter] at he
    refine Finset.mem_erase.2 ⟨?_, S.wf e he.1 w hw⟩
    rintro rfl; exact he.2 hw⟩

@[simp] theorem empty_V : empty.V = ∅ := rfl
@[simp] theorem empty_E : empty.E = ∅ := rfl
@[simp] theorem addVertex_V {S : SGraph} {u : ℕ} : (S.addVertex u).V = insert u S.V := rfl
@[simp] theorem addVertex_E {S : SGraph} {u : ℕ} : (S.addVertex u).E = S.E := rfl
@[simp] theorem addEdge_V {S : SGraph} {u v : ℕ} : (S.addEdge u v).V = insert u (insert v S.V) := rfl
@[simp] theorem addEdge_E {S : SGraph} {u v : ℕ} : (S.addEdge u v).E = insert s(u, v) S.E := rfl
@[simp] theorem removeEdge_V {S : SGraph} {u v : ℕ} : (S.removeEdge u v).V = S.V := rfl
@[simp] theorem removeEdge_E {S : SGraph} {u v : ℕ} : (S.removeEdge u v).E = S.E.erase s(u, v) := rfl
@[simp] theorem removeVertex_V {S : SGraph} {u : ℕ} : (S.removeVertex u).V = S.V.erase u := rfl
@[simp] theorem removeVertex_E {S : SGraph} {u : ℕ} :
    (S.removeVertex u).E = S.E.filter (fun e => u ∉ e) := rfl

theorem addVertex_of_mem {S : SGraph} {u : ℕ} (h : u ∈ S.V) : S.addVertex u = S :=
  ext (by simp [h]) rfl

theorem addEdge_of_mem {S : SGraph} {u v : ℕ} (h : S.Adj u v) : S.addEdge u v = S := by
  refine ext ?_ ?_
  · simp [h.left, h.right]
  · exact Finset.insert_eq_of_mem h

/-- `E` is determined by adjacency. -/
theorem E_ext {S T : SGraph} (h : ∀ u v, S.Adj u v ↔ T.Adj u v) : S.E = T.E := by
  ext e
  induction e using Sym2.ind with
  | _ u v => exact h u v

theorem ext_adj {S T : SGraph} (hV : S.V = T.V) (h : ∀ u v, S.Adj u v ↔ T.Adj u v) : S = T :=
  ext hV (E_ext h)

theorem addEdge_adj {S : SGraph} {u v a b : ℕ} :
    (S.addEdge u v).Adj a b ↔ (a = u ∧ b = v ∨ a = v ∧ b = u) ∨ S.Adj a b := by
  simp [Adj]

theorem addVertex_adj {S : SGraph} {u a b : ℕ} : (S.addVertex u).Adj a b ↔ S.Adj a b := by
  simp [Adj]

theorem removeEdge_adj {S : SGraph} {u v a b : ℕ} :
    (S.removeEdge u v).Adj a b ↔ ¬ (a = u ∧ b = v ∨ a = v ∧ b = u) ∧ S.Adj a b := by
  simp [Adj]

theorem removeVertex_adj {S : SGraph} {u a b : ℕ} :
    (S.removeVertex u).Adj a b ↔ a ≠ u ∧ b ≠ u ∧ S.Adj a b := by
  simp only [Adj, removeVertex_E, Finset.mem_filter, Sym2.mem_iff, not_or]
  constructor
  · rintro ⟨h, h1, h2⟩; exact ⟨fun h => h1 h.symm, fun h => h2 h.symm, h⟩
  · rintro ⟨h1, h2, h⟩; exact ⟨h, fun h => h1 h.symm, fun h => h2 h.symm⟩

@[simp] theorem empty_adj {a b : ℕ} : ¬ empty.Adj a b := by simp [Adj]

/-- Number of edges at `u` = number of neighbours. -/
theorem card_filter_mem {S : SGraph} {u : ℕ} :
    (S.E.filter (fun e => u ∈ e)).card = (S.nbrs u).card := by
  symm
  apply Finset.card_bij (fun v _ => s(u, v))
  · intro v hv
    rw [Finset.mem_filter]
    exact ⟨mem_nbrs.1 hv, Sym2.mem_mk_left u v⟩
  · intro a _ b _ h
    rw [Sym2.eq_iff] at h
    rcases h with h | h
    · exact h.2
    · exact h.2.trans h.1
  · intro e he
    rw [Finset.mem_filter] at he
    obtain ⟨he, hu⟩ := he
    refine ⟨Sym2.Mem.other hu, ?_, Sym2.other_spec hu⟩
    rw [mem_nbrs]
    unfold Adj
    rw [Sym2.other_spec hu]; exact he

theorem deg_eq {S : SGraph} {u : ℕ} : S.deg u = (S.nbrs u).card + if S.Adj u u then 1 else 0 := by
  unfold deg; rw [card_filter_mem]; rfl

theorem deg_of_not_mem {S : SGraph} {u : ℕ} (h : u ∉ S.V) : S.deg u = 0 := by
  have h1 : S.nbrs u = ∅ := by
    ext v
    rw [mem_nbrs]
    exact ⟨fun hv => absurd hv.left h, fun hv => absurd hv (Finset.notMem_empty _)⟩
  have h2 : ¬ S.Adj u u := fun hh => h hh.left
  rw [deg_eq, h1]; simp [h2]

/-- Handshake lemma. -/
theorem sum_deg (S : SGraph) : ∑ u ∈ S.V, S.deg u = 2 * S.E.card := by
  have hsub : ∀ e ∈ S.E, (S.V.filter (fun u => u ∈ e)).card
      + (S.V.filter (fun u => e = s(u, u))).card = 2 := by
    intro e he
    have hw := S.wf e he
    revert he hw
    induction e using Sym2.ind with
    | _ a b =>
      intro he hw
      have ha : a ∈ S.V := hw a (Sym2.mem_mk_left a b)
      have hb : b ∈ S.V := hw b (Sym2.mem_mk_right a b)
      have h1 : S.V.filter (fun u => u ∈ s(a, b)) = {a, b} := by
        ext u
        simp only [Finset.mem_filter, Sym2.mem_iff, Finset.mem_insert, Finset.mem_singleton]
        constructor
        · exact And.right
        · rintro (rfl | rfl)
          · exact ⟨ha, Or.inl rfl⟩
          · exact ⟨hb, Or.inr rfl⟩
      by_cases hab : a = b
      · subst hab
        have h2 : S.V.filter (fun u => s(a, a) = s(u, u)) = {a} := by
          ext u
          simp only [Finset.mem_filter, Sym2.eq_iff, Finset.mem_singleton]
          constructor
          · rintro ⟨_, h⟩; rcases h with h | h <;> exact h.1.symm
          · rintro rfl; exact ⟨ha, Or.inl ⟨rfl, rfl⟩⟩
        rw [h1, h2]; simp
      · have h2 : S.V.filter (fun u => s(a, b) = s(u, u)) = ∅ := by
          ext u
          simp only [Finset.mem_filter, Sym2.eq_iff, Finset.notMem_empty, iff_false, not_and]
          intro _ h
          rcases h with h | h
          · exact hab (h.1.trans h.2.symm)
          · exact hab (h.1.trans h.2.symm)
        rw [h1, h2, Finset.card_pair hab]; simp
  have e1 : ∑ u ∈ S.V, (S.E.filter (fun e => u ∈ e)).card
      = ∑ e ∈ S.E, (S.V.filter (fun u => u ∈ e)).card := by
    simp only [Finset.card_filter]
    exact Finset.sum_comm
  have e2 : ∑ u ∈ S.V, (if s(u, u) ∈ S.E then 1 else 0)
      = ∑ e ∈ S.E, (S.V.filter (fun u => e = s(u, u))).card := by
    have : ∀ u, (if s(u, u) ∈ S.E then 1 else 0) = ∑ e ∈ S.E, if e = s(u, u) then 1 else 0 := by
      intro u
      rw [Finset.sum_ite_eq']
    simp only [this, Finset.card_filter]
    exact Finset.sum_comm
  unfold deg
  rw [Finset.sum_add_distrib, e1, e2, ← Finset.sum_add_distrib, Finset.sum_congr rfl hsub]
  simp [Nat.mul_comm]

end SGraph

/-! ## Walks and distance -/

/-- `Walk R n u v`: there is a walk with `n` steps from `u` to `v` along the relation `R`. -/
inductive Walk (R : ℕ → ℕ → Prop) : ℕ → ℕ → ℕ → Prop
  | nil (u : ℕ) : Walk R 0 u u
  | cons {n u v w : ℕ} (h : R u v) (t : Walk R n v w) : Walk R (n + 1) u w

/-- `u` and `v` are at distance exactly `d` with respect to `R`. -/
def IsDist (R : ℕ → ℕ → Prop) (u v d : ℕ) : Prop := Walk R d u v ∧ ∀ d' < d, ¬ Walk R d' u v

namespace Walk
variable {R : ℕ → ℕ → Prop}

theorem zero_iff {u v : ℕ} : Walk R 0 u v ↔ u = v := by
  constructor
  · intro h; cases h; rfl
  · rintro rfl; exact .nil _

theorem one_iff {u v : ℕ} : Walk R 1 u v ↔ R u v := by
  constructor
  · intro h; cases h with | cons h t => cases t; exact h
  · intro h; exact .cons h (.nil _)

theorem append {n m u v w : ℕ} (h : Walk R n u v) (h' : Walk R m v w) : Walk R (n + m) u w := by
  induction h with
  | nil => simpa using h'
  | cons hr _ ih =>
    have := Walk.cons hr (ih h')
    rwa [Nat.add_right_comm] at this

theorem snoc {n u v w : ℕ} (h : Walk R n u v) (hr : R v w) : Walk R (n + 1) u w :=
  h.append (one_iff.2 hr)

theorem symm (hs : ∀ a b, R a b → R b a) {n u v : ℕ} (h : Walk R n u v) : Walk R n v u := by
  induction h with
  | nil => exact .nil _
  | cons hr _ ih => exact ih.snoc (hs _ _ hr)

theorem mono {R' : ℕ → ℕ → Prop} (hs : ∀ a b, R a b → R' a b) {n u v : ℕ} (h : Walk R n u v) :
    Walk R' n u v := by
  induction h with
  | nil => exact .nil _
  | cons hr _ ih => exact .cons (hs _ _ hr) ih

theorem split {n m u w : ℕ} (h : Walk R (n + m) u w) : ∃ v, Walk R n u v ∧ Walk R m v w := by
  induction n generalizing u with
  | zero => exact ⟨u, .nil _, by simpa using h⟩
  | succ n ih =>
    rw [Nat.add_right_comm] at h
    cases h with
    | cons hr t =>
      obtain ⟨v, h1, h2⟩ := ih t
      exact ⟨v, .cons hr h1, h2⟩

theorem succ_iff_snoc {n u w : ℕ} : Walk R (n + 1) u w ↔ ∃ v, Walk R n u v ∧ R v w := by
  constructor
  · intro h
    obtain ⟨v, h1, h2⟩ := split h
    exact ⟨v, h1, one_iff.1 h2⟩
  · rintro ⟨v, h1, h2⟩; exact h1.snoc h2

end Walk

theorem IsDist.unique {R : ℕ → ℕ → Prop} {u v d d' : ℕ} (h : IsDist R u v d) (h' : IsDist R u v d') :
    d = d' := by
  rcases lt_trichotomy d d' with hlt | heq | hgt
  · exact absurd h.1 (h'.2 d hlt)
  · exact heq
  · exact absurd h'.1 (h.2 d' hgt)

/-- Specification: number of the part containing vertex `u` if the parts have the given sizes, numbered
consecutively from 0. -/
def partOf : List ℕ → ℕ → ℕ
  | [], _ => 0
  | a :: l, u => if u < a then 0 else partOf l (u - a) + 1

end Verif
