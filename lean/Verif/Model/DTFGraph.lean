import Verif.Model.Algorithms
import Verif.Model.Domset
/-!
# Model of the distance-truncated fraternal augmentation

`/repo/src/dtfgraph.rs` and `/repo/src/iterators.rs:322-432`.  Degree counters and arc counters are `Nat` (they are bounded
by the number of `u32` vertices times the depth); all indexing, `unwrap`s and `depth-1` are checked.  The iteration orders
of the hash tables of a `DTFGraph` are those of its stored lists; functions that change the graph while they run take oracles
which rearrange all tables.
-/
namespace Verif

/-- Apply a function to all values (`iter_mut`). -/
def HMap.mapVals {κ α : Type} [DecidableEq κ] (m : HMap κ α) (f : α → α) : HMap κ α :=
  ⟨m.entries.map (fun e => (e.1, f e.2)), by
    have h : (m.entries.map (fun e => (e.1, f e.2))).map Prod.fst = m.entries.map Prod.fst := by
      rw [List.map_map]; rfl
    rw [h]; exact m.nodup⟩

/-- `struct DTFNode`, `/repo/src/dtfgraph.rs:111-115`. -/
structure DTFNode where
  inArcs : List (HSet Vertex)
  inDegs : List Nat
  outDegs : List Nat

/-- `it.sum1::<u32>().unwrap()` (itertools; `None` for an empty iterator). -/
def sum1 (l : List Nat) : Res Nat := if l.isEmpty then .error .panic else .ok l.sum

namespace DTFNode

/-- `DTFNode::new`, `/repo/src/dtfgraph.rs:118-126`. -/
def new (depth : Nat) : DTFNode := ⟨List.replicate depth ∅, List.replicate depth 0, List.replicate depth 0⟩

/-- `DTFNode::reserve_depth`, `/repo/src/dtfgraph.rs:128-134`; the loop runs `depth - in_arcs.len()` times. -/
def reserveDepth (nd : DTFNode) (depth : Nat) : DTFNode :=
  ⟨nd.inArcs ++ List.replicate (depth - nd.inArcs.length) ∅, nd.inDegs ++ List.replicate (depth - nd.inArcs.length) 0,
    nd.outDegs ++ List.replicate (depth - nd.inArcs.length) 0⟩

/-- `has_in_neighbour`, `/repo/src/dtfgraph.rs:136-143`. -/
def hasInNeighbour (nd : DTFNode) (v : Vertex) : Bool := nd.inArcs.any (fun N => N.contains v)

/-- `has_in_neighbour_at`, `/repo/src/dtfgraph.rs:145-150`. -/
def hasInNeighbourAt (nd : DTFNode) (v : Vertex) (depth : Nat) : Res Bool := do
  let i ← usub depth 1
  match nd.inArcs[i]? with
  | some X => return X.contains v
  | none => return false

/-- `get_arc_depth_from`, `/repo/src/dtfgraph.rs:152-159`. -/
def getArcDepthFrom (nd : DTFNode) (v : Vertex) : Option Nat :=
  (nd.inArcs.findIdx? (fun N => N.contains v)).map (fun i => cast32 (i + 1))

/-- `in_neighbours`, `/repo/src/dtfgraph.rs:161-163`. -/
def inNeighbours (nd : DTFNode) : List Vertex := nd.inArcs.flatMap (fun N => N.toList)

/-- `in_neighbours_at`, `/repo/src/dtfgraph.rs:165-167`. -/
def inNeighboursAt (nd : DTFNode) (depth : Nat) : Res (List Vertex) := do
  let i ← usub depth 1
  let X ← unwrap nd.inArcs[i]?
  return X.toList

/-- `in_degree`, `/repo/src/dtfgraph.rs:169-171`. -/
def inDegree (nd : DTFNode) : Res Nat := sum1 nd.inDegs

/-- `out_degree`, `/repo/src/dtfgraph.rs:173-175`. -/
def outDegree (nd : DTFNode) : Res Nat := sum1 nd.outDegs

/-- `degree`, `/repo/src/dtfgraph.rs:177-179`. -/
def degree (nd : DTFNode) : Res Nat := do
  let o ← nd.outDegree
  let i ← nd.inDegree
  return o + i

end DTFNode

/-- `struct DTFGraph`, `/repo/src/dtfgraph.rs:29-33`. -/
structure DTFGraph where
  nodes : HMap Vertex DTFNode
  depth : Nat
  ms : List Nat

namespace DTFGraph

/-- `new`, `with_capacity`, `/repo/src/dtfgraph.rs:241-243`, `:250-256`. -/
def new : DTFGraph := ⟨∅, 1, [0]⟩

/-- `get_depth`, `/repo/src/dtfgraph.rs:246-248`. -/
def getDepth (g : DTFGraph) : Nat := g.depth

/-- `num_vertices`, `/repo/src/dtfgraph.rs:184-186`. -/
def numVertices (g : DTFGraph) : Nat := g.nodes.len

/-- `num_edges`, `/repo/src/dtfgraph.rs:188-190`. -/
def numEdges (g : DTFGraph) : Res Nat := unwrap g.ms[0]?

/-- `contains`, `/repo/src/dtfgraph.rs:192-194`. -/
def contains (g : DTFGraph) (u : Vertex) : Bool := g.nodes.contains u

/-- `vertices`, `/repo/src/dtfgraph.rs:196-198`. -/
def vertices (g : DTFGraph) : List Vertex := g.nodes.keys

/-- `has_arc`, `/repo/src/dtfgraph.rs:215-220`. -/
def hasArc (g : DTFGraph) (u v : Vertex) : Bool :=
  match g.nodes.get? v with
  | some nd => nd.hasInNeighbour u
  | none => false

/-- `adjacent`, `/repo/src/dtfgraph.rs:200-203`. -/
def adjacent (g : DTFGraph) (u v : Vertex) : Bool := g.hasArc u v || g.hasArc v u

/-- `degree`, `/repo/src/dtfgraph.rs:209-211`. -/
def degree (g : DTFGraph) (u : Vertex) : Res Nat := do
  let nd ← unwrap (g.nodes.get? u)
  nd.degree

/-- `in_degree`, `/repo/src/dtfgraph.rs:222-224`. -/
def inDegree (g : DTFGraph) (u : Vertex) : Res Nat := do
  let nd ← unwrap (g.nodes.get? u)
  nd.inDegree

/-- `out_degree`, `/repo/src/dtfgraph.rs:226-228`. -/
def outDegree (g : DTFGraph) (u : Vertex) : Res Nat := do
  let nd ← unwrap (g.nodes.get? u)
  nd.outDegree

/-- `in_neighbours`, `/repo/src/dtfgraph.rs:234-236`. -/
def inNeighbours (g : DTFGraph) (u : Vertex) : Res (List Vertex) := do
  let nd ← unwrap (g.nodes.get? u)
  return nd.inNeighbours

/-- `in_neighbours_at`, `/repo/src/dtfgraph.rs:399-401`. -/
def inNeighboursAt (g : DTFGraph) (u : Vertex) (depth : Nat) : Res (List Vertex) := do
  let nd ← unwrap (g.nodes.get? u)
  nd.inNeighboursAt depth

/-- `num_arcs_at_depth`, `/repo/src/dtfgraph.rs:276-282`. -/
def numArcsAtDepth (g : DTFGraph) (depth : Nat) : Res Nat :=
  if g.depth < depth then .ok 0
  else do
    let i ← usub depth 1
    unwrap g.ms[i]?

/-- `has_arc_at`, `/repo/src/dtfgraph.rs:372-377`. -/
def hasArcAt (g : DTFGraph) (u v : Vertex) (depth : Nat) : Res Bool :=
  match g.nodes.get? v with
  | some nd => nd.hasInNeighbourAt u depth
  | none => .ok false

/-- `get_arc_depth`, `/repo/src/dtfgraph.rs:379-381`. -/
def getArcDepth (g : DTFGraph) (u v : Vertex) : Res (Option Nat) := do
  let nd ← unwrap (g.nodes.get? v)
  return nd.getArcDepthFrom u

/-- `add_vertex`, `/repo/src/dtfgraph.rs:284-287`. -/
def addVertex (g : DTFGraph) (u : Vertex) : DTFGraph :=
  match g.nodes.get? u with
  | some _ => g
  | none => { g with nodes := g.nodes.insert u (DTFNode.new g.depth) }

/-- `reserve_depth`, `/repo/src/dtfgraph.rs:342-350`. -/
def reserveDepth (g : DTFGraph) (depth : Nat) : DTFGraph :=
  if g.depth < depth then ⟨g.nodes.mapVals (fun nd => nd.reserveDepth depth), depth, g.ms ++ [0]⟩
  else { g with depth := depth }

/-- `add_arc`, `/repo/src/dtfgraph.rs:352-370`. -/
def addArc (g : DTFGraph) (u v : Vertex) (depth : Nat) : Res DTFGraph := do
  let g := g.reserveDepth depth
  let nodeV := g.nodes.getD v (DTFNode.new g.depth)
  let i ← usub depth 1
  let X ← unwrap nodeV.inArcs[i]?
  if X.contains u then return { g with nodes := g.nodes.insert v nodeV }
  else
    let k ← unwrap nodeV.inDegs[i]?
    let nodes := g.nodes.insert v
      { nodeV with inArcs := nodeV.inArcs.set i (X.insert u), inDegs := nodeV.inDegs.set i (k + 1) }
    let nodeU := nodes.getD u (DTFNode.new g.depth)
    let l ← unwrap nodeU.outDegs[i]?
    let nodes := nodes.insert u { nodeU with outDegs := nodeU.outDegs.set i (l + 1) }
    let m ← unwrap g.ms[i]?
    return ⟨nodes, g.depth, g.ms.set i (m + 1)⟩

end DTFGraph

/-! ## Arc iterators -/

/-- State of `DTFArcIterator`, `/repo/src/iterators.rs:374-378`; `rest` and `depth` are the state of its `DTFNIterator`,
`/repo/src/iterators.rs:327-331`. -/
structure DTFArcIter where
  rest : List Vertex
  depth : Option Nat
  currV : Vertex
  currIt : Option (List Vertex)

namespace DTFArcIter

/-- The neighbours returned by `DTFNIterator::next` for the vertex `v`, `/repo/src/iterators.rs:356-368`. -/
def neighs (g : DTFGraph) (depth : Option Nat) (v : Vertex) : Res (List Vertex) :=
  match depth with
  | some d => g.inNeighboursAt v d
  | none => g.inNeighbours v

/-- `DTFArcIterator::advance`, `/repo/src/iterators.rs:401-408`. -/
def advance (g : DTFGraph) (s : DTFArcIter) : Res DTFArcIter :=
  match s.rest with
  | v :: rest => do
    let N ← neighs g s.depth v
    return ⟨rest, s.depth, v, some N⟩
  | [] => .ok ⟨[], s.depth, s.currV, none⟩

/-- `DTFArcIterator::all_depths`, `fixed_depth`, `/repo/src/iterators.rs:381-399`. -/
def new (g : DTFGraph) (depth : Option Nat) : Res DTFArcIter := advance g ⟨g.vertices, depth, 2 ^ 32 - 1, none⟩

/-- The part of the loop in `next` that stays on the current vertex, `/repo/src/iterators.rs:415-428`. -/
def scan (v : Vertex) : List Vertex → Option (Vertex × List Vertex)
  | [] => none
  | u :: it => if v > u then scan v it else some (u, it)

/-- The `while` loop of `next`, `/repo/src/iterators.rs:415-428`, on the vertex `v` with current iterator `it`. -/
def nextFrom (g : DTFGraph) (depth : Option Nat) : List Vertex → Vertex → List Vertex → Res (Option (Edge × DTFArcIter))
  | rest, v, it =>
    match scan v it with
    | some (u, it') => .ok (some ((v, u), ⟨rest, depth, v, some it'⟩))
    | none =>
      match rest with
      | [] => .ok none
      | w :: rest' => do
        let N ← neighs g depth w
        nextFrom g depth rest' w N

/-- `DTFArcIterator::next`, `/repo/src/iterators.rs:414-431`. -/
def next (g : DTFGraph) (s : DTFArcIter) : Res (Option (Edge × DTFArcIter)) :=
  match s.currIt with
  | none => .ok none
  | some it => nextFrom g s.depth s.rest s.currV it

end DTFArcIter

namespace DTFGraph

/-- The sequence seen by a loop over `arcs()` (`depth = none`) or `arcs_at(d)`, `/repo/src/dtfgraph.rs:383-389`; that this is
what the iterator yields is `DTFGraph.Abs.arcs_drains`. -/
def arcList (g : DTFGraph) (depth : Option Nat) : Res (List Edge) :=
  g.vertices.foldlM (fun acc v => do
    let N ← DTFArcIter.neighs g depth v
    return acc ++ (N.filter (fun u => v ≤ u)).map (fun u => (v, u))) []

/-! ## Orientation and augmentation -/

/-- Body of the loop over the neighbours in `orient`, `/repo/src/dtfgraph.rs:329-336`. -/
def orientArc (indices : HMap Vertex Nat) (v : Vertex) (iv : Nat) (H : DTFGraph) (u : Vertex) : Res DTFGraph := do
  let iu ← unwrap (indices.get? u)
  if iu < iv then H.addArc u v 1 else H.addArc v u 1

/-- Body of the outer loop of `orient`, `/repo/src/dtfgraph.rs:326-337`. -/
def orientVertex (G : Graph) (indices : HMap Vertex Nat) (H : DTFGraph) (v : Vertex) : Res DTFGraph := do
  let N ← G.neighbours v
  let iv ← unwrap (indices.get? v)
  N.foldlM (orientArc indices v iv) (H.addVertex v)

/-- `orient`, `/repo/src/dtfgraph.rs:319-340`; `σ` are the hash orders used by `degeneracy`. -/
def orient (σ : Nat → Shuffle Vertex) (G : Graph) : Res DTFGraph := do
  let r ← G.degeneracy σ
  let indices := r.2.2.1.zipIdx.foldl (fun (m : HMap Vertex Nat) e => m.insert e.1 e.2) ∅
  G.vertices.foldlM (orientVertex G indices) new

/-- `_trans_tails`, `/repo/src/dtfgraph.rs:483-504`. -/
def transTails (g : DTFGraph) (u : Vertex) (depth : Nat) : Res (HSet Vertex) := do
  let cands ← (List.range' 1 (depth - 1)).foldlM (fun (cands : HSet Vertex) wy => do
    let N ← g.inNeighboursAt u wy
    N.foldlM (fun (cands : HSet Vertex) y => do
      let M ← g.inNeighboursAt y (depth - wy)
      return cands.extend M) cands) ∅
  let N ← g.inNeighbours u
  let Nu := (HSet.ofList N).insert u
  return cands.retain (fun x => !Nu.contains x)

/-- `if !self.adjacent(x, y) { res.insert((*x,*y)); }`, `/repo/src/dtfgraph.rs:518-520`, `:534-536`. -/
def fratStep (g : DTFGraph) (res : HSet Edge) (p : Edge) : HSet Edge := if g.adjacent p.1 p.2 then res else res.insert p

/-- `_frat_pairs`, `/repo/src/dtfgraph.rs:506-525`. -/
def fratPairs (g : DTFGraph) (u : Vertex) (depth : Nat) : Res (HSet Edge) := do
  assertR (depth != 2)
  let d ← usub depth 1
  [1, d].foldlM (fun (res : HSet Edge) wx => do
    let wy ← usub depth wx
    let X ← g.inNeighboursAt u wx
    X.foldlM (fun (res : HSet Edge) x => do
      let Y ← g.inNeighboursAt u wy
      return Y.foldl (fun res y => g.fratStep res (x, y)) res) res) ∅

/-- `_frat_pairs2`, `/repo/src/dtfgraph.rs:527-539`. -/
def fratPairs2 (g : DTFGraph) (u : Vertex) : Res (HSet Edge) := do
  let N ← g.inNeighboursAt u 1
  return (pairs N).foldl g.fratStep ∅

/-- The choice between the two, `/repo/src/dtfgraph.rs:460-467`. -/
def fratAt (g : DTFGraph) (u : Vertex) (depth : Nat) : Res (HSet Edge) :=
  if depth = 2 then g.fratPairs2 u else g.fratPairs u depth

/-- `fGraph.add_edge(&x,&y)` for the collected pairs, `/repo/src/dtfgraph.rs:460-466`.  The iteration order of the set of
pairs only affects the layout of the graph, which is rearranged afterwards. -/
def addPairs (f : EditGraph) (l : List Edge) : Res EditGraph :=
  l.foldlM (fun (f : EditGraph) p => do return (← f.addEdge p.1 p.2).1) f

/-- Body of the collecting loop of `augment`, `/repo/src/dtfgraph.rs:455-468`. -/
def collect (g : DTFGraph) (st : HSet Edge × EditGraph) (u : Vertex) : Res (HSet Edge × EditGraph) := do
  let T ← g.transTails u g.depth
  let tArcs := T.toList.foldl (fun (t : HSet Edge) x => t.insert (x, u)) st.1
  let P ← g.fratAt u g.depth
  let f ← addPairs st.2 P.toList
  return (tArcs, f)

/-- `self.add_arc(s, t, self.depth); fGraph.remove_edge(s, t);`, `/repo/src/dtfgraph.rs:470-473`. -/
def addTrans (st : DTFGraph × EditGraph) (a : Edge) : Res (DTFGraph × EditGraph) := do
  let g ← st.1.addArc a.1 a.2 st.1.depth
  let f ← st.2.removeEdge a.1 a.2
  return (g, f.1)

/-- Orders used in a round of `augment`: `lay` rearranges the tables of the graph, `arcs` is the order of `tArcs`, `frat`
rearranges `fGraph`, `inner` are the orders used by `orient_deep`, `out` rearranges its result. -/
structure RoundOrder (F : Type) where
  lay : DTFGraph → DTFGraph
  arcs : Shuffle Edge
  frat : EditGraph → EditGraph
  inner : F
  out : DTFGraph → DTFGraph

/-- Body of the loop of `augment`, `/repo/src/dtfgraph.rs:447-480`; `orientF` stands for `orient_deep(.., frat_depth)`. -/
def augmentRound {F : Type} (orientF : F → Graph → Res DTFGraph) (ω : RoundOrder F) (g : DTFGraph) : Res DTFGraph := do
  let g := (ω.lay g).reserveDepth (g.depth + 1)
  let st ← g.vertices.foldlM g.collect (∅, EditGraph.new)
  let st ← (ω.arcs.run st.1.toList).foldlM addTrans (g, st.2)
  let D ← orientF ω.inner (ω.frat st.2).view
  let arcs ← (ω.out D).arcList (some 1)
  arcs.foldlM (fun (g : DTFGraph) a => g.addArc a.1 a.2 g.depth) st.1

/-- The loop `while self.depth < depth`, `/repo/src/dtfgraph.rs:447-480`, with at most as many rounds as given. -/
def augmentLoop {F : Type} (orientF : F → Graph → Res DTFGraph) (ω : Nat → RoundOrder F) (depth : Nat) :
    Nat → DTFGraph → Res DTFGraph
  | 0, g => if g.depth < depth then .error .fuel else .ok g
  | n + 1, g => if g.depth < depth then do
      let g ← augmentRound orientF (ω n) g
      augmentLoop orientF ω depth n g
    else .ok g

/-- `augment` with `orientF` in place of `orient_deep(.., frat_depth)`; a round increases the depth by one. -/
def augmentBy {F : Type} (orientF : F → Graph → Res DTFGraph) (ω : Nat → RoundOrder F) (g : DTFGraph) (depth : Nat) :
    Res DTFGraph := augmentLoop orientF ω depth (depth - g.depth) g

/-- `to_undirected::<EditGraph>`, `/repo/src/dtfgraph.rs:258-269`. -/
def toUndirected (g : DTFGraph) : Res EditGraph := do
  let res := g.vertices.foldl (fun (r : EditGraph) u => (r.addVertex u).1) EditGraph.new
  let arcs ← g.arcList none
  addPairs res arcs

/-- Body of the second loop of `edge_subgraph`, `/repo/src/dtfgraph.rs:307-314`. -/
def subgraphStep (g : DTFGraph) (res : DTFGraph) (e : Edge) : Res DTFGraph := do
  let res ← if g.hasArc e.1 e.2 then res.addArc e.1 e.2 1 else .ok res
  if g.hasArc e.2 e.1 then res.addArc e.2 e.1 1 else .ok res

/-- `edge_subgraph`, `/repo/src/dtfgraph.rs:301-317`. -/
def edgeSubgraph (g : DTFGraph) (es : List Edge) : Res DTFGraph :=
  es.foldlM g.subgraphStep (g.vertices.foldl (fun r v => r.addVertex v) new)

/-- Orders used by `orient_deep`: in `orient`, in `augment`, the tables of the augmented graph, of the undirected graph, in
the second `orient`, and the tables of the reoriented graph. -/
structure DeepOrder where
  first : Nat → Shuffle Vertex
  aug : Nat → RoundOrder (Nat → Shuffle Vertex)
  lay : DTFGraph → DTFGraph
  undirected : EditGraph → EditGraph
  second : Nat → Shuffle Vertex
  out : DTFGraph → DTFGraph

/-- `orient_deep`, `/repo/src/dtfgraph.rs:289-299`.  Inside, `augment(depth, 0)` calls `orient_deep(.., 0)`, which is
`orient`. -/
def orientDeep (depth : Nat) (ω : DeepOrder) (G : Graph) : Res DTFGraph := do
  let augg ← orient ω.first G
  if depth ≤ 1 then return augg
  else
    let augg ← augmentBy orient ω.aug augg depth
    let U ← (ω.lay augg).toUndirected
    let R ← orient ω.second (ω.undirected U).view
    let es ← G.edges
    (ω.out R).edgeSubgraph es

/-- `augment`, `/repo/src/dtfgraph.rs:446-481`. -/
def augment (ω : Nat → RoundOrder DeepOrder) (g : DTFGraph) (depth fratDepth : Nat) : Res DTFGraph :=
  augmentBy (orientDeep fratDepth) ω g depth

/-! ## Queries -/

/-- `for d in 1..(k+1) { for x in self.in_neighbours_at(u, d) .. }`: the vertices visited, with their weights
(`/repo/src/dtfgraph.rs:405-409`, `:427-433`, `:585-589`, `:601-619`, `:612-616`).  The loop bodies do not change the graph. -/
def weighted (g : DTFGraph) (u : Vertex) (k : Nat) : Res (List (Vertex × Nat)) :=
  (List.range' 1 k).foldlM (fun (acc : List (Vertex × Nat)) d => do
    let N ← g.inNeighboursAt u d
    return acc ++ N.map (fun x => (x, d))) []

/-- `in_neighbours_with_weights`, `/repo/src/dtfgraph.rs:403-411`. -/
def inNeighboursWithWeights (g : DTFGraph) (u : Vertex) : Res (HMap Vertex Nat) := do
  let l ← g.weighted u g.depth
  return l.foldl (fun (res : HMap Vertex Nat) e => res.insert e.1 (cast32 e.2)) ∅

/-- `if Nv.contains_key(x) { dist = dist.min(Nv[x]+d as u32); }`, `/repo/src/dtfgraph.rs:429-431`. -/
def distStep (Nv : HMap Vertex Nat) (dist : Nat) (e : Vertex × Nat) : Res Nat :=
  match Nv.get? e.1 with
  | some k => do
    let s ← add32 k (cast32 e.2)
    return min dist s
  | none => .ok dist

/-- The value of `dist` before the loop, `/repo/src/dtfgraph.rs:416-423`. -/
def startDist (a b : Option Nat) : Nat :=
  let dist := match a with
    | some d => d
    | none => 2 ^ 32 - 1
  match b with
  | some d => min dist d
  | none => dist

/-- `small_distance`, `/repo/src/dtfgraph.rs:415-439`. -/
def smallDistance (g : DTFGraph) (u v : Vertex) : Res (Option Nat) := do
  let a ← g.getArcDepth u v
  let b ← g.getArcDepth v u
  let Nv ← g.inNeighboursWithWeights v
  let l ← g.weighted u g.depth
  let dist ← l.foldlM (distStep Nv) (startDist a b)
  if cast32 g.depth < dist then return none else return some dist

/-! ## Dominating sets -/

/-- The negated sorting key `in_degree(u)*n + degree(u)`, `/repo/src/dtfgraph.rs:574`; the key must fit into an `i64`. -/
def domKey (g : DTFGraph) (u : Vertex) : Res Nat := do
  let i ← g.inDegree u
  let d ← g.degree u
  if i * g.numVertices + d ≤ 2 ^ 63 then return i * g.numVertices + d else .error .overflow

/-- `order`, `/repo/src/dtfgraph.rs:572-575`: stable sort by increasing negated key. -/
def domOrder (g : DTFGraph) : Res (List Vertex) := do
  let keyed ← g.vertices.mapM (fun u => do
    let k ← g.domKey u
    return (k, u))
  return (keyed.insertionSort (fun a b => b.1 ≤ a.1)).map Prod.snd

/-- The variables of the loop of `domset`. -/
structure DState where
  domset : HSet Vertex
  dist : HMap Vertex Nat
  counter : HMap Vertex Nat

/-- Loop over the in-neighbours of a new dominating vertex, `/repo/src/dtfgraph.rs:601-619`. -/
def domPush (g : DTFGraph) (radius cutoff : Nat) (st : DState) (e : Vertex × Nat) : Res DState := do
  let c ← unwrap (st.counter.get? e.1)
  let c ← add32 c 1
  let counter := st.counter.insert e.1 c
  let dist ← LinGraph.domRelax st.dist e
  if cutoff < c && !st.domset.contains e.1 then
    let W ← g.weighted e.1 radius
    let dist ← W.foldlM LinGraph.domRelax (dist.insert e.1 0)
    return ⟨st.domset.insert e.1, dist, counter⟩
  else return ⟨st.domset, dist, counter⟩

/-- One round of the main loop, `/repo/src/dtfgraph.rs:583-620`. -/
def domRound (g : DTFGraph) (radius cutoff : Nat) (st : DState) (v : Vertex) : Res DState := do
  let W ← g.weighted v radius
  let dist ← W.foldlM (LinGraph.domPull v) st.dist
  let dv ← unwrap (dist.get? v)
  if dv ≤ radius then return { st with dist := dist }
  else W.foldlM (g.domPush radius cutoff) ⟨st.domset.insert v, dist.insert v 0, st.counter⟩

/-- `domset`, `/repo/src/dtfgraph.rs:559-623`, returning also the augmented graph; `lay` rearranges its tables after
`augment`. -/
def domset (ω : Nat → RoundOrder DeepOrder) (lay : DTFGraph → DTFGraph) (g : DTFGraph) (radius : Nat) :
    Res (DTFGraph × HSet Vertex) := do
  let g ← g.augment ω radius 2
  let g := lay g
  let c ← mul32 2 radius
  let cutoff ← mul32 c c
  let order ← g.domOrder
  let undominated ← add32 radius 1
  let dist := order.foldl (fun (m : HMap Vertex Nat) v => m.insert v undominated) ∅
  let counter := order.foldl (fun (m : HMap Vertex Nat) v => m.insert v 0) ∅
  let st ← order.foldlM (g.domRound radius cutoff) ⟨∅, dist, counter⟩
  return (g, st.domset)

/-! ## Views -/

/-- `layer`, `/repo/src/dtfgraph.rs:271-274`: the graph after the call; the returned `DTFLayer` (`:36-48`) consists of this
graph and the depth. -/
def layer (g : DTFGraph) (depth : Nat) : DTFGraph := g.reserveDepth depth

/-- `DTFLayer`, `/repo/src/dtfgraph.rs:36-39`. -/
structure Layer where
  graph : DTFGraph
  depth : Nat

namespace Layer

/-- `DTFLayer::new`, `/repo/src/dtfgraph.rs:45-47`. -/
def new (g : DTFGraph) (depth : Nat) : Layer := ⟨g, depth⟩

/-- `num_vertices`, `/repo/src/dtfgraph.rs:51-53`. -/
def numVertices (l : Layer) : Nat := l.graph.numVertices

/-- `contains`, `/repo/src/dtfgraph.rs:59-61`. -/
def contains (l : Layer) (u : Vertex) : Bool := l.graph.contains u

/-- `num_edges`, `/repo/src/dtfgraph.rs:55-57`. -/
def numEdges (l : Layer) : Res Nat := l.graph.numArcsAtDepth l.depth

/-- `adjacent`, `/repo/src/dtfgraph.rs:63-65`. -/
def adjacent (l : Layer) (u v : Vertex) : Bool := l.graph.adjacent u v

/-- `degree`, `/repo/src/dtfgraph.rs:67-69`. -/
def degree (l : Layer) (u : Vertex) : Res Nat := l.graph.degree u

/-- `vertices`, `/repo/src/dtfgraph.rs:71-73`. -/
def vertices (l : Layer) : List Vertex := l.graph.vertices

/-- `has_arc`, `/repo/src/dtfgraph.rs:83-85`. -/
def hasArc (l : Layer) (u v : Vertex) : Res Bool := l.graph.hasArcAt u v l.depth

/-- `in_degree`, `/repo/src/dtfgraph.rs:87-89`. -/
def inDegree (l : Layer) (u : Vertex) : Res Nat := l.graph.inDegree u

/-- `out_degree`, `/repo/src/dtfgraph.rs:91-93`. -/
def outDegree (l : Layer) (u : Vertex) : Res Nat := l.graph.outDegree u

/-- `in_neighbours`, `/repo/src/dtfgraph.rs:105-107`. -/
def inNeighbours (l : Layer) (u : Vertex) : Res (List Vertex) := l.graph.inNeighboursAt u l.depth

end Layer

/-- `h` stores the same data as `g` with all hash tables laid out in arbitrary other orders. -/
structure Relayout (g h : DTFGraph) : Prop where
  depth : h.depth = g.depth
  ms : h.ms = g.ms
  keys : h.nodes.keys.Perm g.nodes.keys
  nodes : ∀ u nd, g.nodes.get? u = some nd → ∃ nd', h.nodes.get? u = some nd' ∧ nd'.inDegs = nd.inDegs ∧
    nd'.outDegs = nd.outDegs ∧ List.Forall₂ (fun X' X : HSet Vertex => X'.toList.Perm X.toList) nd'.inArcs nd.inArcs

end DTFGraph
end Verif
