import Verif.Model.EditGraph
import Verif.Spec.History
/-! # Editing histories of the `EditGraph` model -/
namespace Verif.EditGraph

/-- Dispatch of one editing call to the modelled methods (`/repo/src/editgraph.rs:207-261`,
`/repo/src/graph.rs:412-468`). -/
def call (g : EditGraph) : Call → Res (EditGraph × Ret)
  | .addVertex u => let r := g.addVertex u; .ok (r.1, .bool r.2)
  | .removeVertex u => do let r ← g.removeVertex u; return (r.1, .bool r.2)
  | .addEdge u v => do let r ← g.addEdge u v; return (r.1, .bool r.2)
  | .removeEdge u v => do let r ← g.removeEdge u v; return (r.1, .bool r.2)
  | .addVertices l => let r := g.addVertices l; .ok (r.1, .num r.2)
  | .addEdges l => do let r ← g.addEdges l; return (r.1, .num r.2)
  | .removeLoops => do let r ← g.removeLoops; return (r.1, .num r.2)
  | .removeIsolates => do let r ← g.removeIsolates; return (r.1, .num r.2)

/-- `h` stores the same data as `g`, with every hash table laid out in an arbitrary other order
(e.g. after a rehash). -/
structure Relayout (g h : EditGraph) : Prop where
  m : h.m = g.m
  degs : h.degs.entries.Perm g.degs.entries
  keys : h.adj.keys.Perm g.adj.keys
  sets : ∀ u N, g.adj.get? u = some N → ∃ N', h.adj.get? u = some N' ∧ N'.toList.Perm N.toList

/-- Run a history; before call number `i` all hash tables are rearranged by the oracle `lay i`. -/
def run (lay : Nat → EditGraph → EditGraph) : Nat → List Call → EditGraph → Res (EditGraph × List Ret)
  | i, [], g => .ok (lay i g, [])
  | i, c :: cs, g => do
    let r ← (lay i g).call c
    let s ← run lay (i + 1) cs r.1
    return (s.1, r.2 :: s.2)

/-- States that a user can reach with the editing methods, under any hash layout. -/
inductive Reachable : EditGraph → Prop
  | new : Reachable new
  | call {g h : EditGraph} {c : Call} {r : Ret} (hg : Reachable g) (hc : g.call c = .ok (h, r)) : Reachable h
  | relayout {g h : EditGraph} (hg : Reachable g) (hl : Relayout g h) : Reachable h

end Verif.EditGraph
