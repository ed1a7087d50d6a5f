import Verif.Spec.SGraph
/-! # Specification of editing histories on abstract graphs -/
namespace Verif

namespace SGraph

/-- Add many vertices. -/
def addVertices (S : SGraph) (l : List ℕ) : SGraph :=
  ⟨S.V ∪ l.toFinset, S.E, fun e he v hv => Finset.mem_union_left _ (S.wf e he v hv)⟩

/-- The set of unordered pairs of a list of pairs. -/
def edgeSet (l : List (ℕ × ℕ)) : Finset (Sym2 ℕ) := (l.map (fun e => s(e.1, e.2))).toFinset

/-- The set of endpoints of a list of pairs. -/
def endpoints (l : List (ℕ × ℕ)) : Finset ℕ := (l.map Prod.fst).toFinset ∪ (l.map Prod.snd).toFinset

/-- Add many edges (with their endpoints). -/
def addEdges (S : SGraph) (l : List (ℕ × ℕ)) : SGraph :=
  ⟨S.V ∪ endpoints l, S.E ∪ edgeSet l, by
    intro e he w hw
    rw [Finset.mem_union] at he
    rcases he with he | he
    · exact Finset.mem_union_left _ (S.wf e he w hw)
    · refine Finset.mem_union_right _ ?_
      simp only [edgeSet, List.mem_toFinset, List.mem_map] at he
      obtain ⟨p, hp, rfl⟩ := he
      simp only [endpoints, Finset.mem_union, List.mem_toFinset, List.mem_map]
      rcases Sym2.mem_iff.1 hw with rfl | rfl
      · exact Or.inl ⟨p, hp, rfl⟩
      · exact Or.inr ⟨p, hp, rfl⟩⟩

/-- Remove all loops. -/
def removeLoops (S : SGraph) : SGraph :=
  ⟨S.V, S.E.filter (fun e => ¬ e.IsDiag), fun e he w hw => S.wf e (Finset.mem_filter.1 he).1 w hw⟩

/-- Vertices without incident edge. -/
def isolated (S : SGraph) : Finset ℕ := S.V.filter (fun u => ∀ e ∈ S.E, u ∉ e)

/-- Remove all vertices without incident edge. -/
def removeIsolates (S : SGraph) : SGraph :=
  ⟨S.V \ S.isolated, S.E, by
    intro e he w hw
    refine Finset.mem_sdiff.2 ⟨S.wf e he w hw, ?_⟩
    intro hc
    exact (Finset.mem_filter.1 hc).2 e he hw⟩

end SGraph

/-- The editing calls offered by `EditGraph`. -/
inductive Call where
  | addVertex (u : ℕ)
  | removeVertex (u : ℕ)
  | addEdge (u v : ℕ)
  | removeEdge (u v : ℕ)
  | addVertices (l : List ℕ)
  | addEdges (l : List (ℕ × ℕ))
  | removeLoops
  | removeIsolates

/-- Returned value of an editing call. -/
inductive Ret where
  | bool (b : Bool)
  | num (n : ℕ)
  deriving DecidableEq

/-- What an editing call should do to the abstract graph. -/
def SGraph.step (S : SGraph) : Call → SGraph
  | .addVertex u => S.addVertex u
  | .removeVertex u => S.removeVertex u
  | .addEdge u v => S.addEdge u v
  | .removeEdge u v => S.removeEdge u v
  | .addVertices l => S.addVertices l
  | .addEdges l => S.addEdges l
  | .removeLoops => S.removeLoops
  | .removeIsolates => S.removeIsolates

/-- What an editing call should return: whether the graph changed, resp. how many vertices/edges were
added/removed. -/
def SGraph.ret (S : SGraph) : Call → Ret
  | .addVertex u => .bool (decide (u ∉ S.V))
  | .removeVertex u => .bool (decide (u ∈ S.V))
  | .addEdge u v => .bool (decide (s(u, v) ∉ S.E))
  | .removeEdge u v => .bool (decide (s(u, v) ∈ S.E))
  | .addVertices l => .num (l.toFinset \ S.V).card
  | .addEdges l => .num (SGraph.edgeSet l \ S.E).card
  | .removeLoops => .num (S.E.filter (fun e => e.IsDiag)).card
  | .removeIsolates => .num S.isolated.card

/-- Abstract graph after a history. -/
def SGraph.run (S : SGraph) : List Call → SGraph
  | [] => S
  | c :: cs => (S.step c).run cs

/-- Expected returned values of a history. -/
def SGraph.rets (S : SGraph) : List Call → List Ret
  | [] => []
  | c :: cs => S.ret c :: (S.step c).rets cs

end Verif
