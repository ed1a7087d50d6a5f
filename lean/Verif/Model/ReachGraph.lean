import Verif.Model.LinearAlg
/-!
# Model of `ReachGraph`

`/repo/src/reachgraph.rs` and the conversions `/repo/src/ordgraph.rs:102-124`.  The const parameter `DEPTH` is the argument
`r`.  The field `boundaries` of `Reachables`, which only the private `get_boundaries` and the derived `==` read, is kept apart
from the other fields (`boundariesAt`, `getBoundaries`, `reachablesEq`).
-/
namespace Verif

/-- `&c[l..r]` (panics if out of range). -/
def sliceR (c : List Nat) (l r : Nat) : Res (List Nat) :=
  if l ≤ r ∧ r ≤ c.length then .ok ((c.drop l).take (r - l)) else .error .panic

/-- `struct ReachGraph`, `/repo/src/reachgraph.rs:9-14`. -/
structure ReachGraph where
  indices : HMap Vertex Nat
  contents : List Nat
  rightDegrees : HMap Vertex Nat
  edges : HSet Edge

/-- `struct Reachables`, `/repo/src/reachgraph.rs:17-21`, without the field `boundaries` (see `ReachGraph.boundariesAt`). -/
structure Reachables where
  src : Vertex
  segs : List (List Vertex)

namespace Reachables

/-- `Reachables::len`, `/repo/src/reachgraph.rs:25-27`. -/
def len (R : Reachables) : Nat := (R.segs.map List.length).sum

/-- `Reachables::is_empty`, `/repo/src/reachgraph.rs:30-32`. -/
def isEmpty (R : Reachables) : Bool := R.segs.all List.isEmpty

/-- `Reachables::at`, `/repo/src/reachgraph.rs:36-39`. -/
def at' (R : Reachables) (depth : Nat) : Res (List Vertex) := do
  assertR (1 ≤ depth && depth ≤ R.segs.length)
  unwrap R.segs[depth - 1]?

end Reachables

/-- `struct ReachGraphBuilder`, `/repo/src/reachgraph.rs:176-179`. -/
structure ReachBuilder where
  lastIndex : Option Nat
  g : ReachGraph

namespace ReachBuilder

/-- `ReachGraphBuilder::new`, `/repo/src/reachgraph.rs:188-190` (with `ReachGraph::new`, 50-55). -/
def new : ReachBuilder := ⟨none, ⟨∅, [], ∅, ∅⟩⟩

/-- Derived lexicographic order on `(u32, usize, u32)`, as used by `sort_unstable`. -/
def tripleLe (a b : Nat × Nat × Nat) : Prop := a.1 < b.1 ∨ (a.1 = b.1 ∧ (a.2.1 < b.2.1 ∨ (a.2.1 = b.2.1 ∧ a.2.2 ≤ b.2.2)))

instance : DecidableRel tripleLe := fun a b => inferInstanceAs (Decidable (_ ∨ _))

/-- `neighbour_order`, `/repo/src/reachgraph.rs:226-227`. -/
def neighbourOrder (order : HMap Vertex Nat) (reachable : List (Vertex × Nat)) : Res (List (Nat × Nat × Nat)) := do
  let ts ← reachable.mapM (fun e => do
    let i ← unwrap (order.get? e.1)
    return (e.2, i, e.1))
  return ts.insertionSort tripleLe

/-- "Add edges and count right-degrees", `/repo/src/reachgraph.rs:232-244`. -/
def countEdge (u : Vertex) (st : HMap Vertex Nat × HSet Edge) (e : Vertex × Nat) : Res (HMap Vertex Nat × HSet Edge) :=
  if e.2 != 1 then .ok st
  else do
    let c ← add32 (st.1.getD e.1 0) 1
    return (st.1.insert e.1 c, if u < e.1 then st.2.insert (u, e.1) else st.2.insert (e.1, u))

/-- The `while curr_dist < dist` loop, `/repo/src/reachgraph.rs:258-263`, with `n = dist - curr_dist` rounds to go. -/
def pushEnds (indexU base offset : Nat) : Nat → List Nat × Nat → Res (List Nat × Nat)
  | 0, st => .ok st
  | n + 1, (c, index) => do
    let x ← add32 base (cast32 offset)
    let c := c ++ [x]
    let i ← add32 indexU index
    assertR (cast32 (c.length - 1) == i)
    pushEnds indexU base offset n (c, index + 1)

/-- The loop pushing `index_2 … index_end`, `/repo/src/reachgraph.rs:256-264`, from `offset`, `curr_dist` on. -/
def indexLoop (indexU base : Nat) : Nat → Nat → List Nat → List Nat × Nat → Res (List Nat × Nat)
  | _, _, [], st => .ok st
  | offset, curr, dist :: ds, st => do
    let st ← pushEnds indexU base offset (dist - curr) st
    indexLoop indexU base (offset + 1) (max curr dist) ds st

/-- `append`, `/repo/src/reachgraph.rs:196-271`.  `reachable` is the sequence seen when iterating over the map; linking to
the previous block is as for `DegenGraph`. -/
def append (r : Nat) (b : ReachBuilder) (u : Vertex) (reachable : List (Vertex × Nat)) (order : HMap Vertex Nat) :
    Res ReachBuilder := do
  let c := b.g.contents ++ [u]
  let indexU := cast32 (c.length - 1)
  let indices := b.g.indices.insert u indexU
  let c := c ++ [indexU]
  let i1 ← add32 indexU 1
  assertR (cast32 (c.length - 1) == i1)
  let c ← DegenBuilder.link c b.lastIndex indexU
  let no ← neighbourOrder order reachable
  let vertices := no.map (fun t => t.2.2)
  let dists := no.map (fun t => t.1)
  let (rd, es) ← reachable.foldlM (countEdge u) (b.g.rightDegrees, b.g.edges)
  let b1 ← add32 indexU (cast32 r)
  let base ← add32 b1 2
  let guard ← add32 (cast32 r) 1
  let (c, _) ← indexLoop indexU base 0 1 (dists ++ [guard]) (c, 2)
  let i2 ← add32 b1 1
  assertR (cast32 (c.length - 1) == i2)
  return ⟨some indexU, ⟨indices, c ++ vertices, rd, es⟩⟩

end ReachBuilder

namespace ReachGraph

/-- `first`, `/repo/src/reachgraph.rs:58-64`. -/
def first (g : ReachGraph) : Option Vertex := g.contents.head?

/-- `index_of`, `/repo/src/reachgraph.rs:163-165`. -/
def indexOf (g : ReachGraph) (u : Vertex) : Res Nat := unwrap (g.indices.get? u)

/-- The loop over the segment ends in `reachables_at`, `/repo/src/reachgraph.rs:76-81`. -/
def segments (c : List Nat) : Nat → List Nat → Res (List (List Vertex))
  | _, [] => .ok []
  | left, right :: es => do
    let s ← sliceR c left right
    let rest ← segments c right es
    return s :: rest

/-- `reachables_at`, `/repo/src/reachgraph.rs:66-87`. -/
def reachablesAt (r : Nat) (g : ReachGraph) (iu : Nat) : Res Reachables := do
  let u ← unwrap g.contents[iu]?
  let es ← sliceR g.contents (iu + 2) (iu + r + 2)
  let segs ← segments g.contents (iu + r + 2) es
  assertR (segs.length == r)
  return ⟨u, segs⟩

/-- `reachables`, `/repo/src/reachgraph.rs:89-92`. -/
def reachables (r : Nat) (g : ReachGraph) (u : Vertex) : Res Reachables := do
  let iu ← g.indexOf u
  g.reachablesAt r iu

/-- `next_reachables`, `/repo/src/reachgraph.rs:94-104` (with its debug assertion). -/
def nextReachables (r : Nat) (g : ReachGraph) (last : Vertex) : Res (Option Reachables) := do
  let il ← g.indexOf last
  let x ← unwrap g.contents[il]?
  assertR (last == x)
  let next ← unwrap g.contents[il + 1]?
  if next == il then return none
  else
    let R ← g.reachablesAt r next
    return some R

/-- `reachables_all`, `/repo/src/reachgraph.rs:106-115`. -/
def reachablesAll (r : Nat) (g : ReachGraph) (u : Vertex) : Res (List Vertex) := do
  let iu ← g.indexOf u
  let x ← unwrap g.contents[iu]?
  assertR (u == x)
  let left := iu + r + 2
  let right ← unwrap g.contents[left - 1]?
  sliceR g.contents left right

/-- `segment`, `/repo/src/reachgraph.rs:117-125` (private). -/
def segment (r : Nat) (g : ReachGraph) (u : Vertex) : Res (List Nat) := do
  let iu ← g.indexOf u
  let x ← unwrap g.contents[iu]?
  assertR (u == x)
  let right ← unwrap g.contents[iu + r + 1]?
  sliceR g.contents iu right

/-- The pairs pushed to `boundaries` in `reachables_at`, `/repo/src/reachgraph.rs:76-81`. -/
def bounds : Nat → List Nat → List (Nat × Nat)
  | _, [] => []
  | left, right :: es => (left, right) :: bounds right es

/-- The field `boundaries` of the result of `reachables_at`, `/repo/src/reachgraph.rs:66-87`. -/
def boundariesAt (r : Nat) (g : ReachGraph) (iu : Nat) : Res (List (Nat × Nat)) := do
  let es ← sliceR g.contents (iu + 2) (iu + r + 2)
  let bs := bounds (iu + r + 2) es
  assertR (bs.length == r)
  return bs

/-- `reachables`, `/repo/src/reachgraph.rs:89-92`, with all fields of the result. -/
def reachablesFull (r : Nat) (g : ReachGraph) (u : Vertex) : Res (Reachables × List (Nat × Nat)) := do
  let iu ← g.indexOf u
  let R ← g.reachablesAt r iu
  let bs ← g.boundariesAt r iu
  return (R, bs)

/-- `g.reachables(&u).get_boundaries(depth)`, `/repo/src/reachgraph.rs:43-46`. -/
def getBoundaries (r : Nat) (g : ReachGraph) (u : Vertex) (depth : Nat) : Res (Nat × Nat) := do
  let (R, bs) ← g.reachablesFull r u
  assertR (1 ≤ depth && depth < R.segs.length + 1)
  unwrap bs[depth]?

/-- `g.reachables(&u) == h.reachables(&v)` with the derived `PartialEq`, `/repo/src/reachgraph.rs:16-21`. -/
def reachablesEq (r : Nat) (g : ReachGraph) (u : Vertex) (h : ReachGraph) (v : Vertex) : Res Bool := do
  let (R, bs) ← g.reachablesFull r u
  let (R', bs') ← h.reachablesFull r v
  return R.src == R'.src && (R.segs == R'.segs && bs == bs')

/-- `depth`, `/repo/src/reachgraph.rs:127-129`. -/
def depth (r : Nat) (_ : ReachGraph) : Nat := r

/-- `adjacent`, `/repo/src/reachgraph.rs:145-147`. -/
def adjacent (g : ReachGraph) (u v : Vertex) : Bool := g.edges.contains (u, v) || g.edges.contains (v, u)

/-- `left_neighbours`, `/repo/src/reachgraph.rs:167-169`. -/
def leftNeighbours (r : Nat) (g : ReachGraph) (u : Vertex) : Res (List Vertex) := do
  let R ← g.reachables r u
  R.at' 1

/-- `right_degree`, `/repo/src/reachgraph.rs:171-173`. -/
def rightDegree (g : ReachGraph) (u : Vertex) : Nat := g.rightDegrees.getD u 0

/-- `left_degree`: the default of `LinearGraph`. -/
def leftDegree (r : Nat) (g : ReachGraph) (u : Vertex) : Res Nat :=
  LinGraph.defaultLeftDegree (fun u => g.indices.contains u) (g.leftNeighbours r) u

/-- `degree`, `/repo/src/reachgraph.rs:149-151`. -/
def degree (r : Nat) (g : ReachGraph) (u : Vertex) : Res Nat := do
  let l ← g.leftDegree r u
  add32 l (g.rightDegree u)

/-- `ReachOrderIterator::new`, `/repo/src/reachgraph.rs:280-286`. -/
def orderIterNew (g : ReachGraph) : Option Nat := if g.indices.len == 0 then none else some 0

/-- `ReachOrderIterator::next`, `/repo/src/reachgraph.rs:292-309`. -/
def orderIterNext (g : ReachGraph) : Option Nat → Res (Option (Vertex × Option Nat))
  | none => .ok none
  | some ix => do
    let u ← unwrap g.contents[ix]?
    let next ← unwrap g.contents[ix + 1]?
    return some (u, if next == ix then none else some next)

/-- `ReachIterator::new`, `/repo/src/reachgraph.rs:320-323`. -/
def iterNew (r : Nat) (g : ReachGraph) : Res (Option Reachables) :=
  match g.first with
  | some u => do
    let R ← g.reachables r u
    return some R
  | none => .ok none

/-- `ReachIterator::next`, `/repo/src/reachgraph.rs:329-339`. -/
def iterNext (r : Nat) (g : ReachGraph) : Option Reachables → Res (Option ((Vertex × Reachables) × Option Reachables))
  | none => .ok none
  | some R => do
    let next ← g.nextReachables r R.src
    return some ((R.src, R), next)

/-- Draining `ReachOrderIterator` with at most `fuel` calls. -/
def drainOrder (g : ReachGraph) : Nat → Option Nat → Res (List Vertex)
  | 0, _ => .error .fuel
  | fuel + 1, s => do
    match ← g.orderIterNext s with
    | some (u, s') => return u :: (← drainOrder g fuel s')
    | none => return []

/-- The vertices produced by `vertices()`, `/repo/src/reachgraph.rs:153-155`.  (`C50` shows that the drain succeeds; on a
fault this function returns `[]`.) -/
def vertices (g : ReachGraph) : List Vertex :=
  match g.drainOrder (g.contents.length + 2) g.orderIterNew with
  | .ok l => l
  | .error _ => []

/-- `ReachGraph` as an implementation of `LinearGraph`, `/repo/src/reachgraph.rs:132-174`; `neighbours` panics. -/
def lin (r : Nat) (g : ReachGraph) : LinGraph where
  numVertices := g.indices.len
  numEdges := g.edges.len
  contains := fun u => g.indices.contains u
  adjacent := fun u v => .ok (g.adjacent u v)
  degree := g.degree r
  vertices := g.vertices
  neighbours := fun _ => .error .panic
  indexOf := g.indexOf
  leftNeighbours := g.leftNeighbours r
  rightDegree := fun u => .ok (g.rightDegree u)
  leftDegree := g.leftDegree r

end ReachGraph

namespace OrdGraph

/-- `to_wreach_graph`, `/repo/src/ordgraph.rs:102-112`; `ρ u` is the iteration order of the map of `u`. -/
def toWreachGraph (σ τ : Vertex → Nat → Shuffle Vertex) (ρ : Vertex → Shuffle (Vertex × Nat)) (r : Nat) (g : OrdGraph) :
    Res ReachGraph := do
  let ws ← g.lin.wreachSets σ τ (cast32 r)
  let b ← g.lin.vertices.foldlM (fun (b : ReachBuilder) u => do
    let W ← unwrap (ws.get? u)
    b.append r u ((ρ u).run W.entries) g.indices) ReachBuilder.new
  return b.g

/-- `to_sreach_graph`, `/repo/src/ordgraph.rs:114-123`. -/
def toSreachGraph (σ τ : Vertex → Nat → Shuffle Vertex) (ρ : Vertex → Shuffle (Vertex × Nat)) (r : Nat) (g : OrdGraph) :
    Res ReachGraph := do
  let b ← g.lin.vertices.foldlM (fun (b : ReachBuilder) u => do
    let W ← g.lin.sreachSet (σ u) (τ u) u (cast32 r)
    b.append r u ((ρ u).run W.entries) g.indices) ReachBuilder.new
  return b.g

end OrdGraph
end Verif
