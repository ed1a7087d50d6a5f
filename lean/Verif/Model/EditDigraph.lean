import Verif.Model.EditGraph
import Verif.Spec.History
/-!
# Model of the `Digraph` traits and of `EditDigraph`

`/repo/src/graph.rs:474-632`, `/repo/src/editdigraph.rs`, `/repo/src/iterators.rs:44-74, 258-306`.  Conventions as in
`Verif.Model.EditGraph`: counters are `Nat`, their subtractions are checked.
-/
namespace Verif

/-- Trait `Digraph` (`/repo/src/graph.rs:474-511`): required methods. -/
structure Digraph extends Graph where
  hasArc : Vertex → Vertex → Bool
  inDegree : Vertex → Res Nat
  outDegree : Vertex → Res Nat
  inNeighbours : Vertex → Res (List Vertex)
  outNeighbours : Vertex → Res (List Vertex)

namespace Digraph

/-- `Digraph::in_degrees`, `/repo/src/graph.rs:485-491`. -/
def inDegrees (D : Digraph) : Res (HMap Vertex Nat) :=
  D.vertices.foldlM (fun res v => do
    let d ← D.inDegree v
    return res.insert v d) ∅

/-- `Digraph::out_degrees`, `/repo/src/graph.rs:494-500`. -/
def outDegrees (D : Digraph) : Res (HMap Vertex Nat) :=
  D.vertices.foldlM (fun res v => do
    let d ← D.outDegree v
    return res.insert v d) ∅

/-- `Digraph::out_neighbourhood`, `/repo/src/graph.rs:515-526`.  `σ` is the iteration order of `centers`. -/
def outNeighbourhood (σ : Shuffle Vertex) (D : Digraph) (vertices : List Vertex) : Res (HSet Vertex) := do
  let centers := HSet.ofList vertices
  let res ← (σ.run centers.toList).foldlM (fun (res : HSet Vertex) v => do
    let N ← D.outNeighbours v
    return res.extend N) ∅
  return res.retain (fun u => !centers.contains u)

/-- `Digraph::in_neighbourhood`, `/repo/src/graph.rs:530-541`. -/
def inNeighbourhood (σ : Shuffle Vertex) (D : Digraph) (vertices : List Vertex) : Res (HSet Vertex) := do
  let centers := HSet.ofList vertices
  let res ← (σ.run centers.toList).foldlM (fun (res : HSet Vertex) v => do
    let N ← D.inNeighbours v
    return res.extend N) ∅
  return res.retain (fun u => !centers.contains u)

end Digraph

/-- State of `ArcIterator`, `/repo/src/iterators.rs:258-262` (`rest`: remaining vertices of the `DiNeighIterator`,
`/repo/src/iterators.rs:44-74`, in out mode). -/
structure ArcIter where
  rest : List Vertex
  currV : Option Vertex
  currIt : Option (List Vertex)

namespace ArcIter

/-- `ArcIterator::advance`, `/repo/src/iterators.rs:275-282`. -/
def advance (D : Digraph) (s : ArcIter) : Res ArcIter :=
  match s.rest with
  | v :: rest => do
    let N ← D.outNeighbours v
    return ⟨rest, some v, some N⟩
  | [] => .ok ⟨[], s.currV, none⟩

/-- `ArcIterator::new`, `/repo/src/iterators.rs:265-273`. -/
def new (D : Digraph) : Res ArcIter := advance D ⟨D.vertices, none, none⟩

/-- The `while` loop of `ArcIterator::next`, `/repo/src/iterators.rs:289-305`, on vertex `v` with current iterator `it`. -/
def nextFrom (D : Digraph) : List Vertex → Vertex → List Vertex → Res (Option (Edge × ArcIter))
  | rest, v, u :: it => .ok (some ((v, u), ⟨rest, some v, some it⟩))
  | [], _, [] => .ok none
  | w :: rest, _, [] => do
    let N ← D.outNeighbours w
    nextFrom D rest w N

/-- `ArcIterator::next`, `/repo/src/iterators.rs:288-306`. -/
def next (D : Digraph) (s : ArcIter) : Res (Option (Edge × ArcIter)) :=
  match s.currIt with
  | none => .ok none
  | some it => do
    let v ← unwrap s.currV
    nextFrom D s.rest v it

end ArcIter

/-- `struct EditDigraph`, `/repo/src/editdigraph.rs:11-17`. -/
structure EditDigraph where
  inAdj : HMap Vertex (HSet Vertex)
  outAdj : HMap Vertex (HSet Vertex)
  outDegs : HMap Vertex Nat
  inDegs : HMap Vertex Nat
  m : Nat

namespace EditDigraph

/-- `EditDigraph::new`/`with_capacity`, `/repo/src/editdigraph.rs:138-155`. -/
def new : EditDigraph := ⟨∅, ∅, ∅, ∅, 0⟩

/-- `num_vertices`, `/repo/src/editdigraph.rs:53-55`. -/
def numVertices (g : EditDigraph) : Nat := g.outAdj.len

/-- `num_edges`, `/repo/src/editdigraph.rs:57-59`. -/
def numEdges (g : EditDigraph) : Nat := g.m

/-- `has_arc`, `/repo/src/editdigraph.rs:95-100`. -/
def hasArc (g : EditDigraph) (u v : Vertex) : Bool :=
  match g.outAdj.get? u with
  | some N => N.contains v
  | none => false

/-- `adjacent`, `/repo/src/editdigraph.rs:61-63` (the code tests the arc `uv` twice). -/
def adjacent (g : EditDigraph) (u v : Vertex) : Bool := g.hasArc u v || g.hasArc u v

/-- `degree`, `/repo/src/editdigraph.rs:65-67`. -/
def degree (g : EditDigraph) (u : Vertex) : Nat := g.inDegs.getD u 0 + g.outDegs.getD u 0

/-- `contains`, `/repo/src/editdigraph.rs:72-74`. -/
def contains (g : EditDigraph) (u : Vertex) : Bool := g.outAdj.contains u

/-- `vertices`, `/repo/src/editdigraph.rs:77-79`. -/
def vertices (g : EditDigraph) : List Vertex := g.outAdj.keys

/-- `neighbours`, `/repo/src/editdigraph.rs:82-91`. -/
def neighbours (g : EditDigraph) (u : Vertex) : Res (List Vertex) := do
  if !g.contains u then .error .panic
  else
    let nIn ← unwrap (g.inAdj.get? u)
    let nOut ← unwrap (g.outAdj.get? u)
    return nIn.toList ++ nOut.toList

/-- `out_neighbours`, `/repo/src/editdigraph.rs:102-107`. -/
def outNeighbours (g : EditDigraph) (u : Vertex) : Res (List Vertex) :=
  match g.outAdj.get? u with
  | some N => .ok N.toList
  | none => .error .panic

/-- `in_neighbours`, `/repo/src/editdigraph.rs:109-114`. -/
def inNeighbours (g : EditDigraph) (u : Vertex) : Res (List Vertex) :=
  match g.inAdj.get? u with
  | some N => .ok N.toList
  | none => .error .panic

/-- `in_degree`, `/repo/src/editdigraph.rs:117-119`. -/
def inDegree (g : EditDigraph) (u : Vertex) : Res Nat := unwrap (g.inDegs.get? u)

/-- `out_degree`, `/repo/src/editdigraph.rs:122-124`. -/
def outDegree (g : EditDigraph) (u : Vertex) : Res Nat := unwrap (g.outDegs.get? u)

/-- `impl Graph for EditDigraph` and `impl Digraph for EditDigraph`, `/repo/src/editdigraph.rs:49-125`. -/
def view (g : EditDigraph) : Digraph where
  numVertices := g.numVertices
  numEdges := g.numEdges
  contains := g.contains
  adjacent u v := .ok (g.adjacent u v)
  degree u := .ok (g.degree u)
  vertices := g.vertices
  neighbours := g.neighbours
  hasArc := g.hasArc
  inDegree := g.inDegree
  outDegree := g.outDegree
  inNeighbours := g.inNeighbours
  outNeighbours := g.outNeighbours

/-- `PartialEq::eq`, `/repo/src/editdigraph.rs:19-33`. -/
def eq (g h : EditDigraph) : Bool :=
  if g.numVertices != h.numVertices then false
  else if g.numEdges != h.numEdges then false
  else if !(g.outDegs.eqv (· == ·) h.outDegs) then false
  else g.outAdj.eqv HSet.eqv h.outAdj

/-- `add_vertex`, `/repo/src/editdigraph.rs:157-167`. -/
def addVertex (g : EditDigraph) (u : Vertex) : EditDigraph × Bool :=
  if !g.outAdj.contains u then
    (⟨g.inAdj.insert u ∅, g.outAdj.insert u ∅, g.outDegs.insert u 0, g.inDegs.insert u 0, g.m⟩, true)
  else (g, false)

/-- `add_arc`, `/repo/src/editdigraph.rs:169-183`. -/
def addArc (g : EditDigraph) (u v : Vertex) : Res (EditDigraph × Bool) := do
  let g := (g.addVertex u).1
  let g := (g.addVertex v).1
  if !g.hasArc u v then
    let Nu ← unwrap (g.outAdj.get? u)
    let outAdj := g.outAdj.insert u (Nu.insert v)
    let Nv ← unwrap (g.inAdj.get? v)
    let inAdj := g.inAdj.insert v (Nv.insert u)
    let du ← unwrap (g.outDegs.get? u)
    let outDegs := g.outDegs.insert u (du + 1)
    let dv ← unwrap (g.inDegs.get? v)
    let inDegs := g.inDegs.insert v (dv + 1)
    return (⟨inAdj, outAdj, outDegs, inDegs, g.m + 1⟩, true)
  else
    return (g, false)

/-- `remove_arc`, `/repo/src/editdigraph.rs:185-196`. -/
def removeArc (g : EditDigraph) (u v : Vertex) : Res (EditDigraph × Bool) := do
  if g.hasArc u v then
    let Nu ← unwrap (g.outAdj.get? u)
    let outAdj := g.outAdj.insert u (Nu.remove v)
    let Nv ← unwrap (g.inAdj.get? v)
    let inAdj := g.inAdj.insert v (Nv.remove u)
    let du ← unwrap (g.outDegs.get? u)
    let du' ← usub du 1
    let outDegs := g.outDegs.insert u du'
    let dv ← unwrap (g.inDegs.get? v)
    let dv' ← usub dv 1
    let inDegs := g.inDegs.insert v dv'
    let m ← usub g.m 1
    return (⟨inAdj, outAdj, outDegs, inDegs, m⟩, true)
  else
    return (g, false)

/-- `remove_vertex`, `/repo/src/editdigraph.rs:198-218`. -/
def removeVertex (g : EditDigraph) (u : Vertex) : Res (EditDigraph × Bool) := do
  if !g.contains u then return (g, false)
  else
    let N ← unwrap (g.outAdj.get? u)
    let g ← N.toList.foldlM (fun (g : EditDigraph) v => do return (← g.removeArc u v).1) g
    let N ← unwrap (g.inAdj.get? u)
    let g ← N.toList.foldlM (fun (g : EditDigraph) v => do return (← g.removeArc v u).1) g
    return (⟨g.inAdj.remove u, g.outAdj.remove u, g.outDegs.remove u, g.inDegs.remove u, g.m⟩, true)

/-- `MutableDigraph::add_vertices`, `/repo/src/graph.rs:575-584`. -/
def addVertices (g : EditDigraph) (l : List Vertex) : EditDigraph × Nat :=
  l.foldl (fun (s : EditDigraph × Nat) v =>
    let r := s.1.addVertex v
    (r.1, if r.2 then s.2 + 1 else s.2)) (g, 0)

/-- `MutableDigraph::add_arcs`, `/repo/src/graph.rs:589-599`. -/
def addArcs (g : EditDigraph) (l : List Edge) : Res (EditDigraph × Nat) :=
  l.foldlM (fun (s : EditDigraph × Nat) e => do
    let r ← s.1.addArc e.1 e.2
    return (r.1, if r.2 then s.2 + 1 else s.2)) (g, 0)

/-- `MutableDigraph::remove_loops`, `/repo/src/graph.rs:604-618`. -/
def removeLoops (g : EditDigraph) : Res (EditDigraph × Nat) := do
  let cands := g.vertices.filter (fun u => g.adjacent u u)
  let g ← cands.foldlM (fun (g : EditDigraph) u => do return (← g.removeArc u u).1) g
  return (g, cands.length)

/-- `MutableDigraph::remove_isolates`, `/repo/src/graph.rs:623-631`. -/
def removeIsolates (g : EditDigraph) : Res (EditDigraph × Nat) := do
  let cands := g.vertices.filter (fun u => g.degree u == 0)
  let g ← cands.foldlM (fun (g : EditDigraph) u => do return (← g.removeVertex u).1) g
  return (g, cands.length)

/-- `Clone::clone`, `/repo/src/editdigraph.rs:35-47`. -/
def clone (g : EditDigraph) : Res EditDigraph :=
  g.vertices.foldlM (fun (h : EditDigraph) v => do
    let h := (h.addVertex v).1
    let N ← g.outNeighbours v
    N.foldlM (fun (h : EditDigraph) u => do return (← h.addArc v u).1) h) new

/-- `FromIterator<Edge>::from_iter`, `/repo/src/editdigraph.rs:127-135`. -/
def fromIter (l : List Edge) : Res EditDigraph :=
  l.foldlM (fun (g : EditDigraph) e => do return (← g.addArc e.1 e.2).1) new

/-- `EditDigraph::path`, `/repo/src/editdigraph.rs:224-232` (`n-1` is a checked `u32` subtraction). -/
def path (n : Nat) : Res EditDigraph := do
  let k ← usub n 1
  (List.range k).foldlM (fun (g : EditDigraph) u => do return (← g.addArc u (u + 1)).1) new

/-- `EditDigraph::cycle`, `/repo/src/editdigraph.rs:235-243`. -/
def cycle (n : Nat) : Res EditDigraph :=
  (List.range n).foldlM (fun (g : EditDigraph) u => do return (← g.addArc u ((u + 1) % n)).1) new

/-- `EditDigraph::matching`, `/repo/src/editdigraph.rs:246-254`. -/
def matching (n : Nat) : Res EditDigraph :=
  (List.range n).foldlM (fun (g : EditDigraph) u => do
    let v ← add32 u n
    return (← g.addArc u v).1) new

/-- `EditDigraph::clique`, `/repo/src/editdigraph.rs:263-272`. -/
def clique (n : Nat) : Res EditDigraph :=
  (List.range n).foldlM (fun (g : EditDigraph) u =>
    (List.range' (u + 1) (n - (u + 1))).foldlM (fun (g : EditDigraph) v => do return (← g.addArc u v).1) g) new

/-- `EditDigraph::independent`, `/repo/src/editdigraph.rs:275-282`. -/
def independent (n : Nat) : EditDigraph :=
  (List.range n).foldl (fun (g : EditDigraph) u => (g.addVertex u).1) new

/-- `EditDigraph::biclique`, `/repo/src/editdigraph.rs:286-295`. -/
def biclique (s t : Nat) : Res EditDigraph := do
  let st ← add32 s t
  (List.range s).foldlM (fun (g : EditDigraph) u =>
    (List.range' s (st - s)).foldlM (fun (g : EditDigraph) v => do return (← g.addArc u v).1) g) new

/-- `EditDigraph::star`, `/repo/src/editdigraph.rs:257-259`. -/
def star (n : Nat) : Res EditDigraph := biclique 1 n

/-- `EditDigraph::grid`, `/repo/src/editdigraph.rs:299-333`.  After the check `s*t` all ids computed are smaller. -/
def grid (s t : Nat) : Res EditDigraph := do
  let _ ← mul32 s t
  if s == 0 || t == 0 then return new
  let g ← (List.range (s - 1)).foldlM (fun (g : EditDigraph) y => do
    let g ← (List.range (t - 1)).foldlM (fun (g : EditDigraph) x => do
      let u := y * t + x
      let right := u + 1
      let down := u + t
      let g := (← g.addArc u right).1
      return (← g.addArc u down).1) g
    let u := y * t + t - 1
    let down := u + t
    return (← g.addArc u down).1) new
  (List.range (t - 1)).foldlM (fun (g : EditDigraph) x => do
    let u := (s - 1) * t + x
    let right := u + 1
    return (← g.addArc u right).1) g

/-- `self.vertices().max().map(|x| x+1).unwrap_or(0)`, `/repo/src/editdigraph.rs:340`. -/
def unionOffset (g : EditDigraph) : Res Nat :=
  match g.vertices.max? with
  | some x => add32 x 1
  | none => .ok 0

/-- `EditDigraph::disj_union`, `/repo/src/editdigraph.rs:337-349` (it copies `edges()`, not `arcs()`). -/
def disjUnion (g : EditDigraph) (G : Graph) : Res EditDigraph := do
  let offset ← g.unionOffset
  let res := (new.addVertices g.vertices).1
  let es ← g.view.toGraph.edges
  let res := (← res.addArcs es).1
  let vs ← G.vertices.mapM (fun v => add32 v offset)
  let res := (res.addVertices vs).1
  let es ← G.edges
  let es ← es.mapM (fun e => do return ((← add32 e.1 offset), (← add32 e.2 offset)))
  return (← res.addArcs es).1

/-- `EditDigraph::disj_unions`, `/repo/src/editdigraph.rs:352-358`. -/
def disjUnions (l : List Graph) : Res EditDigraph :=
  l.foldlM (fun (g : EditDigraph) G => g.disjUnion G) new

/-- `EditDigraph::normalize`, `/repo/src/editdigraph.rs:367-385` (it copies `edges()`, not `arcs()`).  `σ` is the
iteration order of `id2vex`. -/
def normalize (σ : Shuffle (Vertex × Vertex)) (g : EditDigraph) : Res (EditDigraph × HMap Vertex Vertex) := do
  let order := EditGraph.sortIds g.vertices
  let id2vex : HMap Vertex Vertex := HMap.ofList (order.zipIdx.map (fun p => (p.2, p.1)))
  let vex2id : HMap Vertex Vertex := HMap.ofList ((σ.run id2vex.entries).map (fun p => (p.2, p.1)))
  let res ← g.vertices.foldlM (fun (h : EditDigraph) u => do
    let i ← unwrap (vex2id.get? u)
    return (h.addVertex i).1) new
  let es ← g.view.toGraph.edges
  let res ← es.foldlM (fun (h : EditDigraph) e => do
    let i ← unwrap (vex2id.get? e.1)
    let j ← unwrap (vex2id.get? e.2)
    return (← h.addArc i j).1) res
  return (res, id2vex)

/-- Dispatch of one editing call to the modelled methods (`/repo/src/editdigraph.rs:157-218`,
`/repo/src/graph.rs:575-631`); "edge" calls are arc calls. -/
def call (g : EditDigraph) : Call → Res (EditDigraph × Ret)
  | .addVertex u => let r := g.addVertex u; .ok (r.1, .bool r.2)
  | .removeVertex u => do let r ← g.removeVertex u; return (r.1, .bool r.2)
  | .addEdge u v => do let r ← g.addArc u v; return (r.1, .bool r.2)
  | .removeEdge u v => do let r ← g.removeArc u v; return (r.1, .bool r.2)
  | .addVertices l => let r := g.addVertices l; .ok (r.1, .num r.2)
  | .addEdges l => do let r ← g.addArcs l; return (r.1, .num r.2)
  | .removeLoops => do let r ← g.removeLoops; return (r.1, .num r.2)
  | .removeIsolates => do let r ← g.removeIsolates; return (r.1, .num r.2)

/-- `h` stores the same data as `g` with all hash tables laid out in arbitrary other orders. -/
structure Relayout (g h : EditDigraph) : Prop where
  m : h.m = g.m
  outDegs : h.outDegs.entries.Perm g.outDegs.entries
  inDegs : h.inDegs.entries.Perm g.inDegs.entries
  outKeys : h.outAdj.keys.Perm g.outAdj.keys
  inKeys : h.inAdj.keys.Perm g.inAdj.keys
  outSets : ∀ u N, g.outAdj.get? u = some N → ∃ N', h.outAdj.get? u = some N' ∧ N'.toList.Perm N.toList
  inSets : ∀ u N, g.inAdj.get? u = some N → ∃ N', h.inAdj.get? u = some N' ∧ N'.toList.Perm N.toList

/-- Run a history; before call number `i` all hash tables are rearranged by the oracle `lay i`. -/
def run (lay : Nat → EditDigraph → EditDigraph) : Nat → List Call → EditDigraph → Res (EditDigraph × List Ret)
  | i, [], g => .ok (lay i g, [])
  | i, c :: cs, g => do
    let r ← (lay i g).call c
    let s ← run lay (i + 1) cs r.1
    return (s.1, r.2 :: s.2)

/-- States that a user can reach with the editing methods, under any hash layout. -/
inductive Reachable : EditDigraph → Prop
  | new : Reachable new
  | call {g h : EditDigraph} {c : Call} {r : Ret} (hg : Reachable g) (hc : g.call c = .ok (h, r)) : Reachable h
  | relayout {g h : EditDigraph} (hg : Reachable g) (hl : Relayout g h) : Reachable h

end EditDigraph
end Verif
