import Verif.Model.Graph
/-!
# Model of `EditGraph` (`/repo/src/editgraph.rs`)

`&mut self` methods take and return the graph.  Counters (`u32` degrees, `usize` edge count) are `Nat`;
their additions are unchecked (they are bounded by the number of stored entries), their subtractions
are checked.
-/
namespace Verif

/-- `struct EditGraph`, `/repo/src/editgraph.rs:102-106`. -/
structure EditGraph where
  adj : HMap Vertex (HSet Vertex)
  degs : HMap Vertex Nat
  m : Nat

namespace EditGraph

/-- `EditGraph::new`, `/repo/src/editgraph.rs:193-197`; also `with_capacity`, `:199-205` (the capacity has
no observable effect). -/
def new : EditGraph := ⟨∅, ∅, 0⟩

/-- `num_vertices`, `/repo/src/editgraph.rs:142-144`. -/
def numVertices (g : EditGraph) : Nat := g.adj.len

/-- `num_edges`, `/repo/src/editgraph.rs:146-148`. -/
def numEdges (g : EditGraph) : Nat := g.m

/-- `adjacent`, `/repo/src/editgraph.rs:150-155`. -/
def adjacent (g : EditGraph) (u v : Vertex) : Bool :=
  match g.adj.get? u with
  | some N => N.contains v
  | none => false

/-- `degree`, `/repo/src/editgraph.rs:157-159`. -/
def degree (g : EditGraph) (u : Vertex) : Nat := g.degs.getD u 0

/-- `contains`, `/repo/src/editgraph.rs:164-166`. -/
def contains (g : EditGraph) (u : Vertex) : Bool := g.adj.contains u

/-- `vertices`, `/repo/src/editgraph.rs:169-171`. -/
def vertices (g : EditGraph) : List Vertex := g.adj.keys

/-- `neighbours`, `/repo/src/editgraph.rs:174-179`. -/
def neighbours (g : EditGraph) (u : Vertex) : Res (List Vertex) :=
  match g.adj.get? u with
  | some N => .ok N.toList
  | none => .error .panic

/-- `impl Graph for EditGraph`, `/repo/src/editgraph.rs:138-180`. -/
def view (g : EditGraph) : Graph where
  numVertices := g.numVertices
  numEdges := g.numEdges
  contains := g.contains
  adjacent u v := .ok (g.adjacent u v)
  degree u := .ok (g.degree u)
  vertices := g.vertices
  neighbours := g.neighbours

/-- `PartialEq::eq`, `/repo/src/editgraph.rs:108-121`. -/
def eq (g h : EditGraph) : Bool :=
  if g.numVertices != h.numVertices then false
  else if g.numEdges != h.numEdges then false
  else if !(g.degs.eqv (· == ·) h.degs) then false
  else g.adj.eqv HSet.eqv h.adj

/-- `add_vertex`, `/repo/src/editgraph.rs:207-215`. -/
def addVertex (g : EditGraph) (u : Vertex) : EditGraph × Bool :=
  if !g.adj.contains u then
    (⟨g.adj.insert u ∅, g.degs.insert u 0, g.m⟩, true)
  else (g, false)

/-- `add_edge`, `/repo/src/editgraph.rs:217-230`. -/
def addEdge (g : EditGraph) (u v : Vertex) : Res (EditGraph × Bool) := do
  let g := (g.addVertex u).1
  let g := (g.addVertex v).1
  if !g.adjacent u v then
    let Nu ← unwrap (g.adj.get? u)
    let adj := g.adj.insert u (Nu.insert v)
    let Nv ← unwrap (adj.get? v)
    let adj := adj.insert v (Nv.insert u)
    let du ← unwrap (g.degs.get? u)
    let degs := g.degs.insert u (du + 1)
    let dv ← unwrap (degs.get? v)
    let degs := degs.insert v (dv + 1)
    return (⟨adj, degs, g.m + 1⟩, true)
  else
    return (g, false)

/-- `remove_edge`, `/repo/src/editgraph.rs:232-243`. -/
def removeEdge (g : EditGraph) (u v : Vertex) : Res (EditGraph × Bool) := do
  if g.adjacent u v then
    let Nu ← unwrap (g.adj.get? u)
    let adj := g.adj.insert u (Nu.remove v)
    let Nv ← unwrap (adj.get? v)
    let adj := adj.insert v (Nv.remove u)
    let du ← unwrap (g.degs.get? u)
    let du' ← usub du 1
    let degs := g.degs.insert u du'
    let dv ← unwrap (degs.get? v)
    let dv' ← usub dv 1
    let degs := degs.insert v dv'
    let m ← usub g.m 1
    return (⟨adj, degs, m⟩, true)
  else
    return (g, false)

/-- Body of the loop in `remove_vertex`, `/repo/src/editgraph.rs:250-254`. -/
def removeVertexStep (u : Vertex) (g : EditGraph) (v : Vertex) : Res EditGraph := do
  let Nv ← unwrap (g.adj.get? v)
  let adj := g.adj.insert v (Nv.remove u)
  let dv ← unwrap (g.degs.get? v)
  let dv' ← usub dv 1
  let degs := g.degs.insert v dv'
  let m ← usub g.m 1
  return ⟨adj, degs, m⟩

/-- `remove_vertex`, `/repo/src/editgraph.rs:245-261`. -/
def removeVertex (g : EditGraph) (u : Vertex) : Res (EditGraph × Bool) := do
  if !g.contains u then return (g, false)
  else
    let N ← unwrap (g.adj.get? u)
    let g ← N.toList.foldlM (removeVertexStep u) g
    return (⟨g.adj.remove u, g.degs.remove u, g.m⟩, true)

/-- `MutableGraph::add_vertices`, `/repo/src/graph.rs:412-421`. -/
def addVertices (g : EditGraph) (l : List Vertex) : EditGraph × Nat :=
  l.foldl (fun (s : EditGraph × Nat) v =>
    let r := s.1.addVertex v
    (r.1, if r.2 then s.2 + 1 else s.2)) (g, 0)

/-- `MutableGraph::add_edges`, `/repo/src/graph.rs:426-436`. -/
def addEdges (g : EditGraph) (l : List Edge) : Res (EditGraph × Nat) :=
  l.foldlM (fun (s : EditGraph × Nat) e => do
    let r ← s.1.addEdge e.1 e.2
    return (r.1, if r.2 then s.2 + 1 else s.2)) (g, 0)

/-- `MutableGraph::remove_loops`, `/repo/src/graph.rs:441-455`. -/
def removeLoops (g : EditGraph) : Res (EditGraph × Nat) := do
  let cands := g.vertices.filter (fun u => g.adjacent u u)
  let g ← cands.foldlM (fun (g : EditGraph) u => do return (← g.removeEdge u u).1) g
  return (g, cands.length)

/-- `MutableGraph::remove_isolates`, `/repo/src/graph.rs:460-468`. -/
def removeIsolates (g : EditGraph) : Res (EditGraph × Nat) := do
  let cands := g.vertices.filter (fun u => g.degree u == 0)
  let g ← cands.foldlM (fun (g : EditGraph) u => do return (← g.removeVertex u).1) g
  return (g, cands.length)

/-- `Clone::clone`, `/repo/src/editgraph.rs:124-136`. -/
def clone (g : EditGraph) : Res EditGraph :=
  g.vertices.foldlM (fun (h : EditGraph) v => do
    let h := (h.addVertex v).1
    let N ← g.neighbours v
    N.foldlM (fun (h : EditGraph) u => do return (← h.addEdge u v).1) h) new

/-- `FromIterator<Edge>::from_iter`, `/repo/src/editgraph.rs:182-190`. -/
def fromIter (l : List Edge) : Res EditGraph :=
  l.foldlM (fun (g : EditGraph) e => do return (← g.addEdge e.1 e.2).1) new

/-- `for (u,v) in l { res.add_edge(&u,&v); }`: the loop shape shared by the generators. -/
def addAll (g : EditGraph) (l : List Edge) : Res EditGraph :=
  l.foldlM (fun (g : EditGraph) e => do return (← g.addEdge e.1 e.2).1) g

/-- `EditGraph::path`, `/repo/src/editgraph.rs:267-283`. -/
def path (n : Nat) : Res EditGraph :=
  if n == 0 then .ok new
  else if n == 1 then .ok (new.addVertex 0).1
  else new.addAll ((List.range (n - 1)).map (fun u => (u, u + 1)))

/-- `EditGraph::cycle`, `/repo/src/editgraph.rs:286-294`. -/
def cycle (n : Nat) : Res EditGraph :=
  new.addAll ((List.range n).map (fun u => (u, (u + 1) % n)))

/-- `EditGraph::matching`, `/repo/src/editgraph.rs:297-305`. -/
def matching (n : Nat) : Res EditGraph :=
  (List.range n).foldlM (fun (g : EditGraph) u => do
    let v ← add32 u n
    return (← g.addEdge u v).1) new

/-- `EditGraph::clique`, `/repo/src/editgraph.rs:313-323`. -/
def clique (n : Nat) : Res EditGraph :=
  (List.range n).foldlM (fun (g : EditGraph) u => do
    let g := (g.addVertex u).1
    (List.range' (u + 1) (n - (u + 1))).foldlM (fun (g : EditGraph) v => do return (← g.addEdge u v).1) g) new

/-- `EditGraph::independent`, `/repo/src/editgraph.rs:326-333`. -/
def independent (n : Nat) : EditGraph :=
  (List.range n).foldl (fun (g : EditGraph) u => (g.addVertex u).1) new

/-- `for u in a..b { for v in c..d { res.add_edge(&u,&v); } }`, `/repo/src/editgraph.rs:339-343, 377-381`. -/
def addBlock (g : EditGraph) (a b c d : Nat) : Res EditGraph :=
  (List.range' a (b - a)).foldlM (fun (g : EditGraph) u =>
    (List.range' c (d - c)).foldlM (fun (g : EditGraph) v => do return (← g.addEdge u v).1) g) g

/-- `EditGraph::biclique`, `/repo/src/editgraph.rs:337-346`. -/
def biclique (s t : Nat) : Res EditGraph := do
  let st ← add32 s t
  new.addBlock 0 s s st

/-- `EditGraph::star`, `/repo/src/editgraph.rs:308-310`. -/
def star (n : Nat) : Res EditGraph := biclique 1 n

/-- Prefix-sum loop of `complete_kpartite`, `/repo/src/editgraph.rs:361-366`. -/
def kpartiteRanges (sizes : List Nat) : Res (List (Nat × Nat) × Nat) :=
  sizes.foldlM (fun (s : List (Nat × Nat) × Nat) size => do
    let right ← add32 s.2 size
    return (s.1 ++ [(s.2, right)], right)) ([], 0)

/-- Loop over all pairs of ranges `i < j`, `/repo/src/editgraph.rs:373-383`. -/
def kpartiteBlocks : List (Nat × Nat) → EditGraph → Res EditGraph
  | [], g => .ok g
  | a :: rest, g => do
    let g ← rest.foldlM (fun (g : EditGraph) b => g.addBlock a.1 a.2 b.1 b.2) g
    kpartiteBlocks rest g

/-- `EditGraph::complete_kpartite`, `/repo/src/editgraph.rs:352-386`. -/
def completeKpartite (sizes : List Nat) : Res EditGraph :=
  match sizes with
  | [] => .ok new
  | [n] => clique n
  | _ => do
    let (ranges, _) ← kpartiteRanges sizes
    kpartiteBlocks ranges new

/-- `EditGraph::grid`, `/repo/src/editgraph.rs:389-423`.  After the check `s*t` every id computed is smaller
than `s*t`, so the remaining arithmetic is unchecked. -/
def grid (s t : Nat) : Res EditGraph := do
  let _ ← mul32 s t
  if s == 0 || t == 0 then return new
  let g ← (List.range (s - 1)).foldlM (fun (g : EditGraph) y => do
    let g ← (List.range (t - 1)).foldlM (fun (g : EditGraph) x => do
      let u := y * t + x
      let right := u + 1
      let down := u + t
      let g := (← g.addEdge u right).1
      return (← g.addEdge u down).1) g
    let u := y * t + t - 1
    let down := u + t
    return (← g.addEdge u down).1) new
  (List.range (t - 1)).foldlM (fun (g : EditGraph) x => do
    let u := (s - 1) * t + x
    let right := u + 1
    return (← g.addEdge u right).1) g

/-- `self.vertices().max().map(|x| x+1).unwrap_or(0)`, `/repo/src/editgraph.rs:430`. -/
def unionOffset (g : EditGraph) : Res Nat :=
  match g.vertices.max? with
  | some x => add32 x 1
  | none => .ok 0

/-- `EditGraph::disj_union`, `/repo/src/editgraph.rs:427-439`. -/
def disjUnion (g : EditGraph) (G : Graph) : Res EditGraph := do
  let offset ← g.unionOffset
  let res := (new.addVertices g.vertices).1
  let es ← g.view.edges
  let res := (← res.addEdges es).1
  let vs ← G.vertices.mapM (fun v => add32 v offset)
  let res := (res.addVertices vs).1
  let es ← G.edges
  let es ← es.mapM (fun e => do return ((← add32 e.1 offset), (← add32 e.2 offset)))
  return (← res.addEdges es).1

/-- `EditGraph::disj_unions`, `/repo/src/editgraph.rs:442-448`. -/
def disjUnions (l : List Graph) : Res EditGraph :=
  l.foldlM (fun (g : EditGraph) G => g.disjUnion G) new

/-- `order.sort_unstable()` on distinct ids (the sorted order of distinct numbers is unique); used for
`/repo/src/editgraph.rs:460`. -/
def sortIds (l : List Vertex) : List Vertex := l.insertionSort (· ≤ ·)

/-- `EditGraph::normalize`, `/repo/src/editgraph.rs:457-475`.  `σ` is the iteration order of `id2vex`. -/
def normalize (σ : Shuffle (Vertex × Vertex)) (g : EditGraph) : Res (EditGraph × HMap Vertex Vertex) := do
  let order := sortIds g.vertices
  let id2vex : HMap Vertex Vertex := HMap.ofList (order.zipIdx.map (fun p => (p.2, p.1)))
  let vex2id : HMap Vertex Vertex := HMap.ofList ((σ.run id2vex.entries).map (fun p => (p.2, p.1)))
  let res ← g.vertices.foldlM (fun (h : EditGraph) u => do
    let i ← unwrap (vex2id.get? u)
    return (h.addVertex i).1) new
  let es ← g.view.edges
  let res ← es.foldlM (fun (h : EditGraph) e => do
    let i ← unwrap (vex2id.get? e.1)
    let j ← unwrap (vex2id.get? e.2)
    return (← h.addEdge i j).1) res
  return (res, id2vex)

/-- `EditGraph::contract_pair`, `/repo/src/editgraph.rs:496-507`.  `σ` is the iteration order of `N`. -/
def contractPair (σ : Shuffle Vertex) (g : EditGraph) (u v : Vertex) : Res EditGraph := do
  if !g.contains u || !g.contains v then .error .panic
  let Nv ← g.neighbours v
  let N := (HSet.ofList Nv).remove u
  let g ← (σ.run N.toList).foldlM (fun (g : EditGraph) x => do return (← g.addEdge u x).1) g
  return (← g.removeVertex v).1

/-- `EditGraph::contract_into`, `/repo/src/editgraph.rs:511-526`.  `σ₁`, `σ₂`, `σ₃` are the iteration orders
of the temporary sets (`centers` inside `neighbourhood`, `N`, `contract`). -/
def contractInto (σ₁ σ₂ σ₃ : Shuffle Vertex) (g : EditGraph) (center : Vertex) (vertices : List Vertex) :
    Res EditGraph := do
  let contract := (HSet.ofList vertices).remove center
  let N ← g.view.neighbourhood σ₁ contract.toList
  let N := N.remove center
  let g ← (σ₂.run N.toList).foldlM (fun (g : EditGraph) u => do return (← g.addEdge center u).1) g
  (σ₃.run contract.toList).foldlM (fun (g : EditGraph) v => do return (← g.removeVertex v).1) g

/-- `EditGraph::contract`, `/repo/src/editgraph.rs:483-490`. -/
def contract (σ₁ σ₂ σ₃ : Shuffle Vertex) (g : EditGraph) (vertices : List Vertex) :
    Res (EditGraph × Vertex) :=
  match vertices with
  | [] => .error .panic
  | u :: it => do return ((← g.contractInto σ₁ σ₂ σ₃ u it), u)

end EditGraph

/-- `Graph::subgraph` with result type `EditGraph`, `/repo/src/graph.rs:365-378`.  `σ` is the iteration order
of `selected`, `τ v` that of the intersection computed for `v`. -/
def Graph.subgraph (σ : Shuffle Vertex) (τ : Vertex → Shuffle Vertex) (G : Graph) (vertices : List Vertex) :
    Res EditGraph := do
  let selected := HSet.ofList vertices
  (σ.run selected.toList).foldlM (fun (g : EditGraph) v => do
    let g := (g.addVertex v).1
    let N ← G.neighbours v
    let Nv := HSet.ofList N
    ((τ v).run (Nv.toList.filter (fun u => selected.contains u))).foldlM
      (fun (g : EditGraph) u => do return (← g.addEdge u v).1) g) EditGraph.new

end Verif
