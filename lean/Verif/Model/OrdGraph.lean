import Verif.Model.DegenGraph
/-!
# Model of `OrdGraph`

`/repo/src/ordgraph.rs` (without the conversions to `ReachGraph`).
-/
namespace Verif

/-- `struct OrdNode`, `/repo/src/ordgraph.rs:35-39`. -/
structure OrdNode where
  v : Vertex
  left : HSet Vertex
  right : HSet Vertex

/-- `struct OrdGraph`, `/repo/src/ordgraph.rs:28-32`. -/
structure OrdGraph where
  indices : HMap Vertex Nat
  nodes : List OrdNode
  m : Nat

namespace OrdNode

/-- `OrdNode::new`, `/repo/src/ordgraph.rs:49-51`. -/
def new (v : Vertex) : OrdNode := ⟨v, ∅, ∅⟩

/-- `OrdNode::neighbours`, `/repo/src/ordgraph.rs:43-45`. -/
def neighbours (n : OrdNode) : List Vertex := n.left.toList ++ n.right.toList

end OrdNode

namespace OrdGraph

/-- `nodes.get_mut(i).unwrap()` followed by an update of the node. -/
def modify (nodes : List OrdNode) (i : Nat) (f : OrdNode → OrdNode) : Res (List OrdNode) :=
  match nodes[i]? with
  | some n => .ok (nodes.set i (f n))
  | none => .error .panic

/-- Insert into the right set. -/
def insRight (x : Vertex) (n : OrdNode) : OrdNode := { n with right := n.right.insert x }

/-- Insert into the left set. -/
def insLeft (x : Vertex) (n : OrdNode) : OrdNode := { n with left := n.left.insert x }

/-- Body of the loop over the edges in `with_ordering`, `/repo/src/ordgraph.rs:74-86`. -/
def addEdge (indices : HMap Vertex Nat) (nodes : List OrdNode) (e : Edge) : Res (List OrdNode) := do
  assertR (indices.contains e.1)
  assertR (indices.contains e.2)
  let iu ← unwrap (indices.get? e.1)
  let iv ← unwrap (indices.get? e.2)
  if iu < iv then
    let nodes ← modify nodes iu (insRight e.2)
    modify nodes iv (insLeft e.1)
  else
    let nodes ← modify nodes iv (insRight e.1)
    modify nodes iu (insLeft e.2)

/-- `OrdGraph::with_ordering`, `/repo/src/ordgraph.rs:62-89`. -/
def withOrdering (G : Graph) (order : List Vertex) : Res OrdGraph := do
  let indices : HMap Vertex Nat := HMap.ofList order.zipIdx
  let nodes ← order.foldlM (fun (nodes : List OrdNode) v => do
    let nodes := nodes ++ [OrdNode.new v]
    let i ← unwrap (indices.get? v)
    assertR (i == nodes.length - 1)
    return nodes) []
  let es ← G.edges
  let nodes ← es.foldlM (addEdge indices) nodes
  return ⟨indices, nodes, G.numEdges⟩

/-- `OrdGraph::by_degeneracy`, `/repo/src/ordgraph.rs:56-59`. -/
def byDegeneracy (σ : Nat → Shuffle Vertex) (G : Graph) : Res OrdGraph := do
  let (_, _, ord, _) ← G.degeneracy σ
  withOrdering G ord

/-- `index_of`, `/repo/src/ordgraph.rs:233-235`. -/
def indexOf (g : OrdGraph) (u : Vertex) : Res Nat := unwrap (g.indices.get? u)

/-- `sort_by_cached_key(|v| self.indices.get(v).unwrap())`: stable sort by position. -/
def sortByIndex (g : OrdGraph) (l : List Vertex) : Res (List Vertex) := do
  let ks ← l.mapM (fun v => do
    let i ← unwrap (g.indices.get? v)
    return (i, v))
  return (ks.insertionSort (fun a b => a.1 ≤ b.1)).map Prod.snd

/-- `left_neighbours`, `/repo/src/ordgraph.rs:237-245`. -/
def leftNeighbours (g : OrdGraph) (u : Vertex) : Res (List Vertex) := do
  let iu ← g.indexOf u
  let n ← unwrap g.nodes[iu]?
  g.sortByIndex n.left.toList

/-- `right_neighbours`, `/repo/src/ordgraph.rs:174-182`. -/
def rightNeighbours (g : OrdGraph) (u : Vertex) : Res (List Vertex) := do
  let iu ← unwrap (g.indices.get? u)
  let n ← unwrap g.nodes[iu]?
  g.sortByIndex n.right.toList

/-- `adjacent`, `/repo/src/ordgraph.rs:198-205`. -/
def adjacent (g : OrdGraph) (u v : Vertex) : Res Bool :=
  match g.indices.get? u with
  | some iu => do
    let n ← unwrap g.nodes[iu]?
    return n.left.contains v || n.right.contains v
  | none => .ok false

/-- `degree`, `/repo/src/ordgraph.rs:207-214`. -/
def degree (g : OrdGraph) (u : Vertex) : Res Nat :=
  match g.indices.get? u with
  | some iu => do
    let n ← unwrap g.nodes[iu]?
    return n.left.len + n.right.len
  | none => .ok 0

/-- `neighbours`, `/repo/src/ordgraph.rs:221-229`. -/
def neighbours (g : OrdGraph) (u : Vertex) : Res (List Vertex) :=
  match g.indices.get? u with
  | some iu => do
    let n ← unwrap g.nodes[iu]?
    return n.neighbours
  | none => .ok []

/-- `right_degree`, `/repo/src/ordgraph.rs:247-254`. -/
def rightDegree (g : OrdGraph) (u : Vertex) : Res Nat :=
  match g.indices.get? u with
  | some iu => do
    let n ← unwrap g.nodes[iu]?
    return n.right.len
  | none => .ok 0

/-- `OrdGraph` as an implementation of `LinearGraph`, `/repo/src/ordgraph.rs:185-255`. -/
def lin (g : OrdGraph) : LinGraph where
  numVertices := g.nodes.length
  numEdges := g.m
  contains := fun u => g.indices.contains u
  adjacent := g.adjacent
  degree := g.degree
  vertices := g.nodes.map OrdNode.v
  neighbours := g.neighbours
  indexOf := g.indexOf
  leftNeighbours := g.leftNeighbours
  rightDegree := g.rightDegree
  leftDegree := LinGraph.defaultLeftDegree (fun u => g.indices.contains u) g.leftNeighbours

/-- "Update vertex itself", `/repo/src/ordgraph.rs:141-153`: the new left and right sets and `needs_update`. -/
def splitAt (indices : HMap Vertex Nat) (newI : Nat) (N : List Vertex) :
    Res (HSet Vertex × HSet Vertex × List Nat) :=
  N.foldlM (fun (r : HSet Vertex × HSet Vertex × List Nat) x => do
    let ix ← unwrap (indices.get? x)
    if ix < newI then return (r.1.insert x, r.2.1, r.2.2 ++ [ix])
    else return (r.1, r.2.1.insert x, r.2.2 ++ [ix])) (∅, ∅, [])

/-- Update of one neighbour, `/repo/src/ordgraph.rs:156-164`. -/
def fixNeighbour (s : Vertex) (newI ix : Nat) (n : OrdNode) : OrdNode :=
  if newI > ix && n.left.contains s then { n with left := n.left.remove s, right := n.right.insert s }
  else if newI < ix && n.right.contains s then { n with right := n.right.remove s, left := n.left.insert s }
  else n

/-- One round of the loop in `swap`, `/repo/src/ordgraph.rs:138-165`. -/
def swapRound (indices : HMap Vertex Nat) (nodes : List OrdNode) (s : Vertex) (oldI newI : Nat) :
    Res (List OrdNode) := do
  let n ← unwrap nodes[oldI]?
  let (l, r, upd) ← splitAt indices newI n.neighbours
  let nodes := nodes.set oldI { n with left := l, right := r }
  upd.foldlM (fun (nodes : List OrdNode) ix => modify nodes ix (fixNeighbour s newI ix)) nodes

/-- `nodes.swap(i, j)` (panics if out of range). -/
def swapNodes (nodes : List OrdNode) (i j : Nat) : Res (List OrdNode) := do
  let a ← unwrap nodes[i]?
  let b ← unwrap nodes[j]?
  return (nodes.set i b).set j a

/-- `swap`, `/repo/src/ordgraph.rs:126-171`. -/
def swap (g : OrdGraph) (u v : Vertex) : Res OrdGraph :=
  if u == v then .ok g
  else match g.indices.get? u, g.indices.get? v with
    | some iu, some iv => do
      let nodes ← swapRound g.indices g.nodes u iu iv
      let nodes ← swapRound g.indices nodes v iv iu
      let indices := (g.indices.insert u iv).insert v iu
      let nodes ← swapNodes nodes iu iv
      return ⟨indices, nodes, g.m⟩
    | _, _ => .ok g

/-- `to_degeneracy_graph`, `/repo/src/ordgraph.rs:91-100`. -/
def toDegeneracyGraph (g : OrdGraph) : Res DegenGraph := do
  let b ← g.lin.vertices.foldlM (fun (b : DegenBuilder) u => do
    let L ← g.leftNeighbours u
    b.append u L) DegenBuilder.new
  return b.build

end OrdGraph
end Verif
