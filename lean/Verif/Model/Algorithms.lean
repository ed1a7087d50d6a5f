import Verif.Model.Graph
/-!
# Model of the graph algorithms

`/repo/src/algorithms/graph.rs`.
-/
namespace Verif

/-- Model of `union_find_rs::DisjointSets<u32>` (external crate, used in `/repo/src/algorithms/graph.rs:42-69`):
the current partition, each class a list whose head is its representative.  Only the documented behaviour
of the crate is modelled. -/
structure DisjointSets where
  classes : List (List Vertex)

namespace DisjointSets

/-- `make_set`; the `Err` for an element already present is ignored by the caller
(`/repo/src/algorithms/graph.rs:47`). -/
def makeSet (D : DisjointSets) (v : Vertex) : DisjointSets :=
  if D.classes.any (fun c => decide (v ∈ c)) then D else ⟨[v] :: D.classes⟩

/-- The class of `v`. -/
def classOf (D : DisjointSets) (v : Vertex) : Option (List Vertex) := D.classes.find? (fun c => decide (v ∈ c))

/-- `find_set(v).unwrap()` (`/repo/src/algorithms/graph.rs:55`). -/
def findSet (D : DisjointSets) (v : Vertex) : Res Vertex := do
  let c ← unwrap (D.classOf v)
  unwrap c.head?

/-- `union` of the classes of two elements (`/repo/src/algorithms/graph.rs:61`); errors are ignored. -/
def union (D : DisjointSets) (u v : Vertex) : DisjointSets :=
  match D.classOf u, D.classOf v with
  | some c, some c' => ⟨(c ++ c') :: D.classes.filter (fun d => decide (u ∉ d) && decide (v ∉ d))⟩
  | _, _ => D

end DisjointSets

namespace Graph

/-- `components`, `/repo/src/algorithms/graph.rs:41-70`.  `σ` is the order in which the classes are
enumerated by the union-find structure. -/
def components (σ : Shuffle (List Vertex)) (G : Graph) : Res (List (HSet Vertex)) := do
  let D := G.vertices.foldl (fun (D : DisjointSets) v => D.makeSet v) ⟨[]⟩
  let es ← G.edges
  let D ← es.foldlM (fun (D : DisjointSets) e => do
    let a ← D.findSet e.1
    let b ← D.findSet e.2
    if a == b then return D
    else return D.union e.1 e.2) D
  return (σ.run D.classes).map (fun c => HSet.ofList c)

end Graph

/-! ## Degeneracy -/

/-- `x.next_power_of_two().trailing_zeros()` for a `u32` `x ≤ 2^31`: the least `k` with `x ≤ 2^k`
(used in `/repo/src/algorithms/graph.rs:81-83`). -/
def ceilLog2 (x : Nat) : Nat := ((List.range 32).find? (fun k => decide (x ≤ 2 ^ k))).getD 32

/-- `calc_index`, `/repo/src/algorithms/graph.rs:78-84`.  `max(0, (i as i32) - 128 + 1)` is written as the
truncated subtraction `i - 127`, which is exact for `i < 2^31`. -/
def calcIndex (i : Nat) : Nat := min i 128 + ceilLog2 (i - 127)

/-- Local state of `degeneracy`, `/repo/src/algorithms/graph.rs:73-99`. -/
structure DegenState where
  degDict : HMap Vertex Nat
  core : HMap Vertex Nat
  buckets : HMap Nat (HSet Vertex)
  coreNum : Nat
  order : List Vertex

namespace DegenState

/-- `buckets.entry(i).or_insert_with(default).insert(v)`, `/repo/src/algorithms/graph.rs:93-96, 130-133`. -/
def bucketInsert (b : HMap Nat (HSet Vertex)) (i : Nat) (v : Vertex) : HMap Nat (HSet Vertex) :=
  b.insert i ((b.getD i ∅).insert v)

/-- `buckets.entry(i).and_modify(|S| S.remove(u))`, `/repo/src/algorithms/graph.rs:127-129`. -/
def bucketRemove (b : HMap Nat (HSet Vertex)) (i : Nat) (u : Vertex) : HMap Nat (HSet Vertex) :=
  match b.get? i with
  | some S => b.insert i (S.remove u)
  | none => b

/-- `!buckets.contains_key(&d) || buckets[&d].is_empty()` negated: the bucket exists and is nonempty. -/
def bucketNonempty (b : HMap Nat (HSet Vertex)) (d : Nat) : Bool :=
  match b.get? d with
  | some S => !S.toList.isEmpty
  | none => false

/-- The loop `while ... { d += 1 }`, `/repo/src/algorithms/graph.rs:104-106`, started with `d = 2^31 - n`
for `n = fuel`; `d : i32`, so running past `2^31` is an overflow. -/
def findBucket (b : HMap Nat (HSet Vertex)) : Nat → Nat → Res Nat
  | 0, _ => .error .overflow
  | fuel + 1, d => if bucketNonempty b d then .ok d else findBucket b fuel (d + 1)

/-- Body of the loop over the neighbours of the removed vertex, `/repo/src/algorithms/graph.rs:117-138`. -/
def relax (s : DegenState) (u : Vertex) : Res DegenState := do
  if s.core.contains u then return s
  else
    let du ← unwrap (s.degDict.get? u)
    let du' ← usub du 1
    let oldIndex := calcIndex du
    let newIndex := calcIndex du'
    let buckets := if oldIndex != newIndex then
        bucketInsert (bucketRemove s.buckets oldIndex u) newIndex u
      else s.buckets
    return { s with buckets := buckets, degDict := s.degDict.insert u du' }

/-- Body of the main loop, `/repo/src/algorithms/graph.rs:100-142`.  `σ` is the iteration order of the
bucket from which the next vertex is taken.  (The `break` in lines 110-112 is unreachable.) -/
def step (σ : Shuffle Vertex) (G : Graph) (s : DegenState) : Res DegenState := do
  let d ← findBucket s.buckets (2 ^ 31) 0
  let coreNum := max s.coreNum d
  let B ← unwrap (s.buckets.get? d)
  let v ← unwrap (σ.run B.toList).head?
  let s := { s with coreNum := coreNum, buckets := s.buckets.insert d (B.remove v) }
  let N ← G.neighbours v
  let s ← N.foldlM relax s
  return { s with core := s.core.insert v coreNum, order := s.order ++ [v] }

end DegenState

/-- Lower bound computed at the end of `degeneracy`, `/repo/src/algorithms/graph.rs:145-150`. -/
def degeneracyLower (coreNum : Nat) : Nat :=
  let ix := calcIndex coreNum
  if ix ≤ 129 then ix else 129 + 2 ^ (ix - 129 - 1)

namespace Graph

/-- `degeneracy`, `/repo/src/algorithms/graph.rs:72-155`: lower bound, upper bound, order, core numbers.
`σ i` is the hash order used in round `i`. -/
def degeneracy (σ : Nat → Shuffle Vertex) (G : Graph) : Res (Nat × Nat × List Vertex × HMap Vertex Nat) := do
  let s ← G.vertices.foldlM (fun (s : DegenState) v => do
    let d ← G.degree v
    return { s with degDict := s.degDict.insert v d, buckets := DegenState.bucketInsert s.buckets (calcIndex d) v })
    (⟨∅, ∅, ∅, 0, []⟩ : DegenState)
  let s ← (List.range G.numVertices).foldlM (fun s i => DegenState.step (σ i) G s) s
  return (degeneracyLower s.coreNum, s.coreNum, s.order.reverse, s.core)

end Graph

/-! ## Bipartiteness -/

/-- `BipartiteWitness`, `/repo/src/algorithms/graph.rs:29-36`. -/
inductive BipartiteWitness where
  | bipartition (left right : HSet Vertex)
  | oddCycle (c : List Vertex)

namespace Bip

/-- Colouring state of `is_bipartite`, `/repo/src/algorithms/graph.rs:162-169`: `unprocessed`, `colours`
(colour and parent) and `conflict`. -/
structure State where
  unprocessed : HSet Vertex
  colours : HMap Vertex (Bool × Vertex)
  conflict : Option (Vertex × Vertex × Vertex)

/-- The loop `while let Some((col, v, parent)) = col_queue.pop()`, `/repo/src/algorithms/graph.rs:176-195`.
The stack's top is the head of the list. -/
def colourLoop (G : Graph) : Nat → List (Bool × Vertex × Vertex) → State → Res State
  | 0, _, _ => .error .fuel
  | _ + 1, [], s => .ok s
  | fuel + 1, (col, v, parent) :: stack, s =>
    match s.colours.get? v with
    | some (currCol, otherParent) =>
      if currCol != col then .ok { s with conflict := some (parent, v, otherParent) }
      else colourLoop G fuel stack { s with unprocessed := s.unprocessed.remove v }
    | none => do
      let N ← G.neighbours v
      colourLoop G fuel ((N.map (fun u => (!col, u, v))).reverse ++ stack)
        { s with colours := s.colours.insert v (col, parent), unprocessed := s.unprocessed.remove v }

/-- The loop `while !unprocessed.is_empty() && conflict.is_none()`, `/repo/src/algorithms/graph.rs:170-196`.
`σ i` is the iteration order of `unprocessed`; the inner loop pops at most `2n² + 1` entries (neighbour
lists have length at most `2n`, also for digraphs). -/
def outerLoop (σ : Nat → Shuffle Vertex) (G : Graph) : Nat → State → Res State
  | 0, _ => .error .fuel
  | fuel + 1, s =>
    match (σ fuel).run s.unprocessed.toList, s.conflict with
    | u :: _, none => do
      let s ← colourLoop G (G.numVertices * (2 * G.numVertices) + 2) [(true, u, u)]
        { s with unprocessed := s.unprocessed.remove u }
      outerLoop σ G fuel s
    | _, _ => .ok s

/-- The loops following the parents up to the root, `/repo/src/algorithms/graph.rs:203-211, 216-224`:
the vertices pushed after `last`. -/
def climb (colours : HMap Vertex (Bool × Vertex)) : Nat → Vertex → Res (List Vertex)
  | 0, _ => .error .fuel
  | fuel + 1, last => do
    let (_, par) ← unwrap (colours.get? last)
    if par != last then return par :: (← climb colours fuel par)
    else return []

/-- `path.len() > 1 && path.first() == path.last()`, `/repo/src/algorithms/graph.rs:231, 237`. -/
def closed (p : List Vertex) : Bool := decide (1 < p.length) && p.head? == p.getLast?

/-- Construction of the witness from the conflict, `/repo/src/algorithms/graph.rs:199-254`. -/
def witness (colours : HMap Vertex (Bool × Vertex)) (parent1 v parent2 : Vertex) : Res (List Vertex) := do
  let q1 ← climb colours (colours.len + 1) parent1
  let path1 := v :: parent1 :: q1
  let q2 ← climb colours (colours.len + 1) parent2
  let path2 := parent2 :: q2
  assertR (path1.getLast? == path2.getLast?)
  if closed path1 then return path1.dropLast
  else if closed path2 then return path2.dropLast
  else return path1 ++ path2.dropLast.reverse

end Bip

namespace Graph

/-- `is_bipartite`, `/repo/src/algorithms/graph.rs:159-267`.  `σ` as in `outerLoop`, `τ` is the iteration
order of `colours`. -/
def isBipartite (σ : Nat → Shuffle Vertex) (τ : Shuffle (Vertex × (Bool × Vertex))) (G : Graph) :
    Res BipartiteWitness := do
  let s ← Bip.outerLoop σ G (G.numVertices + 1) ⟨HSet.ofList G.vertices, ∅, none⟩
  match s.conflict with
  | some (parent1, v, parent2) => do
    let c ← Bip.witness s.colours parent1 v parent2
    return .oddCycle c
  | none =>
    let r := (τ.run s.colours.entries).foldl (fun (r : HSet Vertex × HSet Vertex) e =>
      if e.2.1 then (r.1.insert e.1, r.2) else (r.1, r.2.insert e.1)) (∅, ∅)
    return .bipartition r.1 r.2

end Graph
end Verif
