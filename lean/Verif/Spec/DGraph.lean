import Mathlib.Data.Finset.Card
import Mathlib.Data.Finset.Prod
import Verif.Spec.History
/-!
# Specification vocabulary: finite directed graphs

Independent of the model.  Editing histories use the same `Call` type as for undirected graphs, with "edge" read as "arc".
-/
namespace Verif

/-- A finite directed graph, loops and 2-cycles allowed. -/
structure DGraph where
  V : Finset ℕ
  A : Finset (ℕ × ℕ)
  wf : ∀ e ∈ A, e.1 ∈ V ∧ e.2 ∈ V

namespace DGraph

theorem ext {S T : DGraph} (hV : S.V = T.V) (hA : S.A = T.A) : S = T := by
  cases S; cases T; simp_all

/-- Number of arcs leaving `u`. -/
def outDeg (S : DGraph) (u : ℕ) : ℕ := (S.A.filter (fun e => e.1 = u)).card

/-- Number of arcs entering `u`. -/
def inDeg (S : DGraph) (u : ℕ) : ℕ := (S.A.filter (fun e => e.2 = u)).card

/-- The empty digraph. -/
def empty : DGraph := ⟨∅, ∅, by simp⟩

/-- Keep only the arcs satisfying `p`. -/
def filterArcs (S : DGraph) (p : ℕ × ℕ → Prop) [DecidablePred p] : DGraph :=
  ⟨S.V, S.A.filter p, fun e he => S.wf e (Finset.mem_filter.1 he).1⟩

/-- Add many vertices. -/
def addVertices (S : DGraph) (l : List ℕ) : DGraph :=
  ⟨S.V ∪ l.toFinset, S.A, fun e he =>
    ⟨Finset.mem_union_left _ (S.wf e he).1, Finset.mem_union_left _ (S.wf e he).2⟩⟩

/-- Add many arcs, with their endpoints. -/
def addArcs (S : DGraph) (l : List (ℕ × ℕ)) : DGraph :=
  ⟨S.V ∪ SGraph.endpoints l, S.A ∪ l.toFinset, by
    intro e he
    rw [Finset.mem_union] at he
    rcases he with he | he
    · exact ⟨Finset.mem_union_left _ (S.wf e he).1, Finset.mem_union_left _ (S.wf e he).2⟩
    · rw [List.mem_toFinset] at he
      refine ⟨Finset.mem_union_right _ ?_, Finset.mem_union_right _ ?_⟩ <;>
        simp only [SGraph.endpoints, Finset.mem_union, List.mem_toFinset, List.mem_map]
      · exact Or.inl ⟨e, he, rfl⟩
      · exact Or.inr ⟨e, he, rfl⟩⟩

/-- Remove a vertex and all incident arcs. -/
def removeVertex (S : DGraph) (u : ℕ) : DGraph :=
  ⟨S.V.erase u, S.A.filter (fun e => e.1 ≠ u ∧ e.2 ≠ u), by
    intro e he
    rw [Finset.mem_filter] at he
    exact ⟨Finset.mem_erase.2 ⟨he.2.1, (S.wf e he.1).1⟩, Finset.mem_erase.2 ⟨he.2.2, (S.wf e he.1).2⟩⟩⟩

/-- Vertices without incident arc. -/
def isolated (S : DGraph) : Finset ℕ := S.V.filter (fun u => ∀ e ∈ S.A, e.1 ≠ u ∧ e.2 ≠ u)

/-- Remove all vertices without incident arc. -/
def removeIsolates (S : DGraph) : DGraph :=
  ⟨S.V \ S.isolated, S.A, by
    intro e he
    refine ⟨Finset.mem_sdiff.2 ⟨(S.wf e he).1, fun hc => ?_⟩, Finset.mem_sdiff.2 ⟨(S.wf e he).2, fun hc => ?_⟩⟩
    · exact ((Finset.mem_filter.1 hc).2 e he).1 rfl
    · exact ((Finset.mem_filter.1 hc).2 e he).2 rfl⟩

/-- What an editing call should do to the abstract digraph. -/
def step (S : DGraph) : Call → DGraph
  | .addVertex u => S.addVertices [u]
  | .removeVertex u => S.removeVertex u
  | .addEdge u v => S.addArcs [(u, v)]
  | .removeEdge u v => S.filterArcs (· ≠ (u, v))
  | .addVertices l => S.addVertices l
  | .addEdges l => S.addArcs l
  | .removeLoops => S.filterArcs (fun e => e.1 ≠ e.2)
  | .removeIsolates => S.removeIsolates

/-- What an editing call should return. -/
def ret (S : DGraph) : Call → Ret
  | .addVertex u => .bool (decide (u ∉ S.V))
  | .removeVertex u => .bool (decide (u ∈ S.V))
  | .addEdge u v => .bool (decide ((u, v) ∉ S.A))
  | .removeEdge u v => .bool (decide ((u, v) ∈ S.A))
  | .addVertices l => .num (l.toFinset \ S.V).card
  | .addEdges l => .num (l.toFinset \ S.A).card
  | .removeLoops => .num (S.A.filter (fun e => e.1 = e.2)).card
  | .removeIsolates => .num S.isolated.card

/-- Abstract digraph after a history. -/
def run (S : DGraph) : List Call → DGraph
  | [] => S
  | c :: cs => (S.step c).run cs

/-- Expected returned values of a history. -/
def rets (S : DGraph) : List Call → List Ret
  | [] => []
  | c :: cs => S.ret c :: (S.step c).rets cs

end DGraph
end Verif
