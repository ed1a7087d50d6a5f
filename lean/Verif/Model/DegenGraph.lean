import Verif.Model.Linear
import Verif.Model.Algorithms
/-!
# Model of `DegenGraph`

`/repo/src/degengraph.rs`.
-/
namespace Verif

/-- `slice::get_unchecked(l..r)`: undefined behaviour if out of range. -/
def sliceUnchecked (c : List Nat) (l r : Nat) : Res (List Nat) :=
  if l ≤ r ∧ r ≤ c.length then .ok ((c.drop l).take (r - l)) else .error .ub

/-- `contents[i] = x` (panics if out of range). -/
def setIdx (c : List Nat) (i x : Nat) : Res (List Nat) :=
  if i < c.length then .ok (c.set i x) else .error .panic

/-- `struct DegenGraph`, `/repo/src/degengraph.rs:13-18`. -/
structure DegenGraph where
  indices : HMap Vertex Nat
  contents : List Nat
  right : HMap Vertex (HSet Vertex)
  m : Nat

/-- `struct DegenGraphBuilder`, `/repo/src/degengraph.rs:220-223`. -/
structure DegenBuilder where
  lastIndex : Option Nat
  g : DegenGraph

namespace DegenBuilder

/-- `DegenGraphBuilder::new`, `/repo/src/degengraph.rs:232-234` (with `DegenGraph::new`, 55-60). -/
def new : DegenBuilder := ⟨none, ⟨∅, [], ∅, 0⟩⟩

/-- `right_neighbours.entry(v).or_default()`. -/
def entry (right : HMap Vertex (HSet Vertex)) (v : Vertex) : HMap Vertex (HSet Vertex) :=
  if right.contains v then right else right.insert v ∅

/-- Loop "Update right neighbours", `/repo/src/degengraph.rs:264-267`. -/
def addRight (u : Vertex) (right : HMap Vertex (HSet Vertex)) (v : Vertex) : Res (HMap Vertex (HSet Vertex)) := do
  let right := entry right v
  let R ← unwrap (right.get? v)
  return right.insert v (R.insert u)

/-- "Link up with previous vertex", `/repo/src/degengraph.rs:259-261`. -/
def link (c : List Nat) (last : Option Nat) (indexU : Nat) : Res (List Nat) :=
  match last with
  | some l => do
    let j ← add32 l 1
    setIdx c j indexU
  | none => .ok c

/-- `DegenGraphBuilder::append`, `/repo/src/degengraph.rs:240-279`. -/
def append (b : DegenBuilder) (u : Vertex) (N : List Vertex) : Res DegenBuilder := do
  let right := entry b.g.right u
  let c := b.g.contents ++ [u]
  let indexU := cast32 (c.length - 1)
  let indices := b.g.indices.insert u indexU
  let c := c ++ [indexU]
  let i1 ← add32 indexU 1
  assertR (cast32 (c.length - 1) == i1)
  let c ← link c b.lastIndex indexU
  let right ← N.foldlM (addRight u) right
  let c := c ++ [cast32 N.length]
  let c := c ++ N
  return ⟨some indexU, ⟨indices, c, right, b.g.m + N.length⟩⟩

/-- `DegenGraphBuilder::build`, `/repo/src/degengraph.rs:236-238`. -/
def build (b : DegenBuilder) : DegenGraph := b.g

end DegenBuilder

namespace DegenGraph

/-- The left neighbours of `u` with their positions, `/repo/src/degengraph.rs:37-44`. -/
def leftPairs (indices : HMap Vertex Nat) (iu : Nat) (N : List Vertex) : Res (List (Nat × Vertex)) :=
  N.foldlM (fun (L : List (Nat × Vertex)) v => do
    let iv ← unwrap (indices.get? v)
    if iv < iu then return L ++ [(iv, v)] else return L) []

/-- Lexicographic order on `(usize, u32)` pairs, as used by `sort_unstable`. -/
def pairLe (a b : Nat × Nat) : Prop := a.1 < b.1 ∨ (a.1 = b.1 ∧ a.2 ≤ b.2)

instance : DecidableRel pairLe := fun a b => inferInstanceAs (Decidable (_ ∨ _))

/-- `DegenGraph::with_ordering`, `/repo/src/degengraph.rs:28-53`. -/
def withOrdering (G : Graph) (order : List Vertex) : Res DegenGraph := do
  let indices : HMap Vertex Nat := HMap.ofList order.zipIdx
  let b ← order.foldlM (fun (b : DegenBuilder) u => do
    let iu ← unwrap (indices.get? u)
    let N ← G.neighbours u
    let L ← leftPairs indices iu N
    b.append u ((L.insertionSort pairLe).map Prod.snd)) DegenBuilder.new
  return b.build

/-- `DegenGraph::from_graph`, `/repo/src/degengraph.rs:22-25`. -/
def fromGraph (σ : Nat → Shuffle Vertex) (G : Graph) : Res DegenGraph := do
  let (_, _, ord, _) ← G.degeneracy σ
  withOrdering G ord

/-- `DegenGraph::first`, `/repo/src/degengraph.rs:119-125`. -/
def first (g : DegenGraph) : Option Vertex := g.contents.head?

/-- `index_of`, `/repo/src/degengraph.rs:192-194`. -/
def indexOf (g : DegenGraph) (u : Vertex) : Res Nat := unwrap (g.indices.get? u)

/-- `left_neighbours_slice`, `/repo/src/degengraph.rs:127-138`. -/
def leftSlice (g : DegenGraph) (u : Vertex) : Res (List Vertex) := do
  let iu ← g.indexOf u
  let x ← unwrap g.contents[iu]?
  assertR (u == x)
  let k ← unwrap g.contents[iu + 2]?
  sliceUnchecked g.contents (iu + 3) (iu + 3 + k)

/-- `right_neighbours`, `/repo/src/degengraph.rs:140-142`. -/
def rightNeighbours (g : DegenGraph) (u : Vertex) : Res (HSet Vertex) := unwrap (g.right.get? u)

/-- `adjacent_ordered`, `/repo/src/degengraph.rs:147-152`. -/
def adjacentOrdered (g : DegenGraph) (u v : Vertex) : Bool :=
  match g.right.get? u with
  | some R => R.contains v
  | none => false

/-- `left_degree`, `/repo/src/degengraph.rs:200-210`. -/
def leftDegree (g : DegenGraph) (u : Vertex) : Res Nat :=
  match g.indices.get? u with
  | some iu => unwrap g.contents[iu + 2]?
  | none => .ok 0

/-- `right_degree`, `/repo/src/degengraph.rs:212-217`. -/
def rightDegree (g : DegenGraph) (u : Vertex) : Nat :=
  match g.right.get? u with
  | some R => R.len
  | none => 0

/-- `adjacent`, `/repo/src/degengraph.rs:168-174`. -/
def adjacent (g : DegenGraph) (u v : Vertex) : Res Bool :=
  if !g.right.contains u || !g.right.contains v then .ok false
  else do
    let Ru ← unwrap (g.right.get? u)
    if Ru.contains v then return true
    else
      let Rv ← unwrap (g.right.get? v)
      return Rv.contains u

/-- `degree`, `/repo/src/degengraph.rs:176-178`. -/
def degree (g : DegenGraph) (u : Vertex) : Res Nat := do
  let l ← g.leftDegree u
  return l + g.rightDegree u

/-- `neighbours`, `/repo/src/degengraph.rs:184-188`. -/
def neighbours (g : DegenGraph) (u : Vertex) : Res (List Vertex) := do
  let L ← g.leftSlice u
  let R ← unwrap (g.right.get? u)
  return L ++ R.toList

/-- `DegenOrderIterator::new`, `/repo/src/degengraph.rs:288-294`; `len()` is `num_vertices()`. -/
def orderIterNew (g : DegenGraph) : Option Nat := if g.indices.len == 0 then none else some 0

/-- `DegenOrderIterator::next`, `/repo/src/degengraph.rs:300-322`. -/
def orderIterNext (g : DegenGraph) : Option Nat → Res (Option (Vertex × Option Nat))
  | none => .ok none
  | some ix => do
    let u ← unwrapUnchecked g.contents[ix]?
    let next ← unwrapUnchecked g.contents[ix + 1]?
    return some (u, if next == ix then none else some next)

/-- `DegenIterator::new`, `/repo/src/degengraph.rs:332-335`. -/
def iterNew (g : DegenGraph) : Option Nat := if g.indices.len == 0 then none else some 0

/-- `DegenIterator::next`, `/repo/src/degengraph.rs:341-367`. -/
def iterNext (g : DegenGraph) : Option Nat → Res (Option ((Vertex × List Vertex) × Option Nat))
  | none => .ok none
  | some i => do
    let u ← unwrapUnchecked g.contents[i]?
    let next ← unwrapUnchecked g.contents[i + 1]?
    let k ← unwrapUnchecked g.contents[i + 2]?
    let N ← sliceUnchecked g.contents (i + 3) (i + 3 + k)
    return some ((u, N), if next == i then none else some next)

/-- Draining `DegenOrderIterator` with at most `fuel` calls. -/
def drainOrder (g : DegenGraph) : Nat → Option Nat → Res (List Vertex)
  | 0, _ => .error .fuel
  | fuel + 1, s => do
    match ← g.orderIterNext s with
    | some (u, s') => return u :: (← drainOrder g fuel s')
    | none => return []

/-- The vertices produced by `vertices()`, `/repo/src/degengraph.rs:180-182`.  (`C47` shows that the drain
succeeds; on a fault this function returns `[]`.) -/
def vertices (g : DegenGraph) : List Vertex :=
  match g.drainOrder (g.contents.length + 2) g.orderIterNew with
  | .ok l => l
  | .error _ => []

/-- `DegenGraph` as an implementation of `LinearGraph`, `/repo/src/degengraph.rs:155-218`. -/
def lin (g : DegenGraph) : LinGraph where
  numVertices := g.indices.len
  numEdges := g.m
  contains := fun u => g.indices.contains u
  adjacent := g.adjacent
  degree := g.degree
  vertices := g.vertices
  neighbours := g.neighbours
  indexOf := g.indexOf
  leftNeighbours := g.leftSlice
  rightDegree := fun u => .ok (g.rightDegree u)
  leftDegree := g.leftDegree

/-! ### `normalize` -/

/-- Overwrite `c[l .. l + N.length]` by `N` (`clone_from_slice`). -/
def overwrite (c : List Nat) (l : Nat) (N : List Nat) : List Nat := c.take l ++ N ++ c.drop (l + N.length)

/-- The loop of `normalize`, `/repo/src/degengraph.rs:72-99`: contents, `new_to_old`, `old_to_new`. -/
def normalizeLoop : Nat → Nat → Nat → List Nat → HMap Vertex Vertex → HMap Vertex Vertex →
    Res (List Nat × HMap Vertex Vertex × HMap Vertex Vertex)
  | 0, _, _, _, _, _ => .error .fuel
  | fuel + 1, i, ix, c, n2o, o2n => do
    let u ← unwrapUnchecked c[i]?
    let next ← unwrapUnchecked c[i + 1]?
    let k ← unwrapUnchecked c[i + 2]?
    let c := c.set i ix
    let n2o := n2o.insert ix u
    let o2n := o2n.insert u ix
    let L ← sliceUnchecked c (i + 3) (i + 3 + k)
    let N ← L.mapM (fun x => unwrap (o2n.get? x))
    let c := overwrite c (i + 3) (N.insertionSort (· ≤ ·))
    if next == i then return (c, n2o, o2n)
    else normalizeLoop fuel next (ix + 1) c n2o o2n

/-- `normalize`, `/repo/src/degengraph.rs:67-116`: the new graph and the map new → old.  `ix as u32` is exact for
fewer than `2^32` vertices.  `σ`, `τ` are the iteration orders of `right_neighbours` and `indices`, `ρ u` that of
the neighbour set stored under `u`. -/
def normalize (σ : Shuffle (Vertex × HSet Vertex)) (τ : Shuffle (Vertex × Nat)) (ρ : Vertex → Shuffle Vertex)
    (g : DegenGraph) : Res (DegenGraph × HMap Vertex Vertex) := do
  let (c, n2o, o2n) ← normalizeLoop (g.contents.length + 1) 0 0 g.contents ∅ ∅
  let right ← (σ.run g.right.entries).foldlM (fun (r : HMap Vertex (HSet Vertex)) e => do
    let N ← ((ρ e.1).run e.2.toList).mapM (fun x => unwrap (o2n.get? x))
    let u ← unwrap (o2n.get? e.1)
    return r.insert u (HSet.ofList N)) ∅
  let indices ← (τ.run g.indices.entries).foldlM (fun (r : HMap Vertex Nat) e => do
    let u ← unwrap (o2n.get? e.1)
    return r.insert u e.2) ∅
  return (⟨indices, c, right, g.m⟩, n2o)

end DegenGraph
end Verif
