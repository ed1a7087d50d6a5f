import Verif.Model.DegenGraph
import Verif.Model.LinearAlg
/-!
# Model of the strong-reachability trace oracle

`/repo/src/datastructures/sreach_trace_oracle.rs`.  A `BitVec` is modelled by the list of its bits; counters are `usize`
and are bounded by the number of vertices.  Parameters `σ`, `τ`, `ρ`, `θ` are iteration orders of hash tables.
-/
namespace Verif

/-- `2usize.pow(e)` (64-bit, overflow-checked). -/
def pow64 (e : Nat) : Res Nat := if e < 64 then .ok (2 ^ e) else .error .overflow

/-- `Vec::dedup`: removes consecutive repetitions. -/
def dedup : List Nat → List Nat
  | [] => []
  | [a] => [a]
  | a :: b :: l => if a = b then dedup (b :: l) else a :: dedup (b :: l)

/-- `BitVec & &BitVec` for bit vectors of the same length. -/
def bitAnd (a b : List Bool) : List Bool := List.zipWith (· && ·) a b

/-- `BitVec::set(ix, true)` (panics if out of range). -/
def setBit (bits : List Bool) (ix : Nat) : Res (List Bool) :=
  if ix < bits.length then .ok (bits.set ix true) else .error .panic

/-- `sort_by_key(|x| graph.index_of(x))`, a stable sort. -/
def DegenGraph.sortByIndex (g : DegenGraph) (l : List Vertex) : Res (List Vertex) := do
  let keyed ← l.mapM (fun v => do return (← g.indexOf v, v))
  return (keyed.insertionSort (fun a b => a.1 ≤ b.1)).map Prod.snd

/-- `debug_assert!(l.is_sorted_by_key(|x| graph.index_of(x)))`. -/
def DegenGraph.assertSorted (g : DegenGraph) (l : List Vertex) : Res Unit := do
  let ks ← l.mapM g.indexOf
  assertR (decide (ks.IsChain (· ≤ ·)))

/-- `struct SReachContext`, `/repo/src/datastructures/sreach_trace_oracle.rs:17-21`. -/
structure SReachContext where
  context : List Vertex
  indices : HMap Vertex Nat
  right : HMap (List Bool) Nat

namespace SReachContext

/-- `SReachContext::new`, `/repo/src/datastructures/sreach_trace_oracle.rs:24-32`. -/
def new (context : List Vertex) : SReachContext :=
  ⟨context, context.zipIdx.foldl (fun m e => m.insert e.1 e.2) ∅, ∅⟩

/-- `to_bitset`, `/repo/src/datastructures/sreach_trace_oracle.rs:83-92`. -/
def toBitset (c : SReachContext) (set : List Vertex) : Res (List Bool) :=
  set.foldlM (fun bits u =>
    match c.indices.get? u with
    | some ix => setBit bits ix
    | none => .ok bits) (List.replicate c.context.length false)

/-- `singleton_bitset`, `/repo/src/datastructures/sreach_trace_oracle.rs:74-81`. -/
def singletonBitset (c : SReachContext) (u : Vertex) : Res (List Bool) :=
  match c.indices.get? u with
  | some ix => setBit (List.replicate c.context.length false) ix
  | none => .ok (List.replicate c.context.length false)

/-- `to_vecset`, `/repo/src/datastructures/sreach_trace_oracle.rs:94-100`. -/
def toVecset (c : SReachContext) (bits : List Bool) : Res (List Vertex) :=
  (bits.zipIdx.filter (fun p => p.1)).mapM (fun p => unwrap c.context[p.2]?)

/-- `insert`, `/repo/src/datastructures/sreach_trace_oracle.rs:38-41`. -/
def insert (c : SReachContext) (neighs : List Vertex) : Res SReachContext := do
  let key ← c.toBitset neighs
  return { c with right := c.right.insert key (c.right.getD key 0 + 1) }

/-- `*counts.entry(mask & bits).or_default() += count`, `/repo/src/datastructures/sreach_trace_oracle.rs:50-53`. -/
def countStep (mask : List Bool) (counts : HMap (List Bool) Nat) (e : List Bool × Nat) : HMap (List Bool) Nat :=
  counts.insert (bitAnd mask e.1) (counts.getD (bitAnd mask e.1) 0 + e.2)

/-- `count_neighbours`, `/repo/src/datastructures/sreach_trace_oracle.rs:43-55`; `σ`, `τ` are the iteration orders of
`right_neighbours` and `counts`. -/
def countNeighbours (σ τ : Shuffle (List Bool × Nat)) (c : SReachContext) (target : List Vertex) :
    Res (HMap (List Vertex) Nat) := do
  let mask ← c.toBitset target
  let counts := (σ.run c.right.entries).foldl (countStep mask) ∅
  (τ.run counts.entries).foldlM (fun (res : HMap (List Vertex) Nat) e => do
    let set ← c.toVecset e.1
    return res.insert set e.2) ∅

/-- `get_sets`, `/repo/src/datastructures/sreach_trace_oracle.rs:34-36`. -/
def getSets (σ τ : Shuffle (List Bool × Nat)) (c : SReachContext) : Res (HMap (List Vertex) Nat) :=
  c.countNeighbours σ τ c.context

/-- `count_first_intersection`, `/repo/src/datastructures/sreach_trace_oracle.rs:59-72`. -/
def countFirstIntersection (σ : Shuffle (List Bool × Nat)) (c : SReachContext) (target : List Vertex) : Res Nat := do
  let mask ← c.toBitset target
  let last ← usub c.context.length 1
  let anchor ← unwrap c.context[last]?
  let anchorMask ← c.singletonBitset anchor
  return (σ.run c.right.entries).foldl (fun res e =>
    if bitAnd mask e.1 = anchorMask then res + e.2 else res) 0

end SReachContext

/-- `struct SReachTraceOracle`, `/repo/src/datastructures/sreach_trace_oracle.rs:103-105`. -/
structure TraceOracle where
  contexts : HMap Vertex SReachContext

namespace TraceOracle

/-- First loop of `for_graph`, `/repo/src/datastructures/sreach_trace_oracle.rs:111-118`: the context of `x`. -/
def makeContext (σ τ : Nat → Shuffle Vertex) (ρ : Shuffle Vertex) (g : DegenGraph) (x : Vertex) : Res SReachContext := do
  let s ← g.lin.sreachSet σ τ x 2
  let S ← g.sortByIndex (ρ.run s.keys ++ [x])
  return SReachContext.new (dedup S)

/-- `let ctx = contexts.get_mut(&anchor).unwrap(); ctx.insert(Nprefix)` for the prefix of length `j + 1`,
`/repo/src/datastructures/sreach_trace_oracle.rs:124-129`. -/
def insertPrefix (N : List Vertex) (contexts : HMap Vertex SReachContext) (j : Nat) :
    Res (HMap Vertex SReachContext) := do
  let anchor ← unwrap N[j]?
  let ctx ← unwrap (contexts.get? anchor)
  let ctx ← ctx.insert (N.take (j + 1))
  return contexts.insert anchor ctx

/-- Second loop of `for_graph`, `/repo/src/datastructures/sreach_trace_oracle.rs:120-130`. -/
def insertVertex (g : DegenGraph) (contexts : HMap Vertex SReachContext) (x : Vertex) :
    Res (HMap Vertex SReachContext) := do
  let N ← g.leftSlice x
  let N ← g.sortByIndex N
  (List.range N.length).foldlM (insertPrefix N) contexts

/-- `for_graph`, `/repo/src/datastructures/sreach_trace_oracle.rs:108-133`. -/
def forGraph (σ τ : Vertex → Nat → Shuffle Vertex) (ρ : Vertex → Shuffle Vertex) (g : DegenGraph) : Res TraceOracle := do
  let contexts ← g.vertices.foldlM (fun (m : HMap Vertex SReachContext) x => do
    let c ← makeContext (σ x) (τ x) (ρ x) g x
    return m.insert x c) ∅
  let contexts ← g.vertices.foldlM (insertVertex g) contexts
  return ⟨contexts⟩

/-- Body of the loop over `counts` in `compute_traces`, `/repo/src/datastructures/sreach_trace_oracle.rs:159-179`.  The
`match` on `traces.get_mut(&set)` is `insert` of the old count (0 if absent) plus `count`. -/
def traceStep (g : DegenGraph) (traces : HMap (List Vertex) Nat) (e : List Vertex × Nat) : Res (HMap (List Vertex) Nat) :=
  if e.1.isEmpty then .ok traces
  else do
    g.assertSorted e.1
    let traces := traces.insert e.1 (traces.getD e.1 0 + e.2)
    let old ← unwrapUnchecked (traces.get? e.1.dropLast)
    let new ← usub old e.2
    return traces.insert e.1.dropLast new

/-- The iteration for the prefix of length `j + 1` of `inner`, `/repo/src/datastructures/sreach_trace_oracle.rs:153-180`. -/
def tracePrefix (σ τ : Nat → Shuffle (List Bool × Nat)) (ρ : Nat → Shuffle (List Vertex × Nat)) (o : TraceOracle)
    (g : DegenGraph) (inner : List Vertex) (traces : HMap (List Vertex) Nat) (j : Nat) : Res (HMap (List Vertex) Nat) := do
  let anchor ← unwrap inner[j]?
  let ctx ← unwrap (o.contexts.get? anchor)
  let counts ← ctx.countNeighbours (σ j) (τ j) (inner.take (j + 1))
  ((ρ j).run counts.entries).foldlM (traceStep g) traces

/-- The set `left_neighbours`, `/repo/src/datastructures/sreach_trace_oracle.rs:185-189` and `240-244`. -/
def leftSet (g : DegenGraph) (inner : List Vertex) : Res (HSet Vertex) :=
  inner.foldlM (fun (s : HSet Vertex) u => do
    let N ← g.leftSlice u
    return (s.extend N).insert u) ∅

/-- The vectors `trace` and `trace_prefix` of `y`, `/repo/src/datastructures/sreach_trace_oracle.rs:192-203`. -/
def traceOf (g : DegenGraph) (inner : List Vertex) (y : Vertex) : Res (List Vertex × List Vertex) :=
  inner.foldlM (fun (st : List Vertex × List Vertex) u => do
    if ← g.adjacent u y then
      return (st.1 ++ [u], if g.adjacentOrdered u y then st.2 ++ [u] else st.2)
    else return st) ([], [])

/-- Body of the loop over `left_neighbours`, `/repo/src/datastructures/sreach_trace_oracle.rs:191-217`. -/
def leftStep (g : DegenGraph) (inner : List Vertex) (traces : HMap (List Vertex) Nat) (y : Vertex) :
    Res (HMap (List Vertex) Nat) := do
  let (trace, pre) ← traceOf g inner y
  let traces := if inner.contains y then traces else traces.insert trace (traces.getD trace 0 + 1)
  let old ← unwrapUnchecked (traces.get? pre)
  let new ← usub old 1
  return traces.insert pre new

/-- `compute_traces`, `/repo/src/datastructures/sreach_trace_oracle.rs:135-221`; `θ` is the iteration order of
`left_neighbours`. -/
def computeTraces (σ τ : Nat → Shuffle (List Bool × Nat)) (ρ : Nat → Shuffle (List Vertex × Nat)) (θ : Shuffle Vertex)
    (o : TraceOracle) (inner : List Vertex) (g : DegenGraph) : Res (HMap (List Vertex) Nat) := do
  g.assertSorted inner
  let traces : HMap (List Vertex) Nat := HMap.empty.insert [] g.lin.numVertices
  let traces ← (List.range inner.length).foldlM (tracePrefix σ τ ρ o g inner) traces
  let left ← leftSet g inner
  (θ.run left.toList).foldlM (leftStep g inner) traces

/-- Body of the second loop of `compute_neighbour_count`, `/repo/src/datastructures/sreach_trace_oracle.rs:246-265`. -/
def neighbourStep (g : DegenGraph) (inner : List Vertex) (res : Nat) (u : Vertex) : Res Nat := do
  let L ← g.leftSlice u
  if L.any (fun w => inner.contains w) then
    if inner.contains u then usub res 1 else return res
  else if inner.contains u then return res
  else return res + 1

/-- `compute_neighbour_count`, `/repo/src/datastructures/sreach_trace_oracle.rs:223-268`. -/
def neighbourCount (σ : Nat → Shuffle (List Bool × Nat)) (θ : Shuffle Vertex) (o : TraceOracle) (inner : List Vertex)
    (g : DegenGraph) : Res Nat := do
  g.assertSorted inner
  let res ← (List.range inner.length).foldlM (fun (res : Nat) j => do
    let anchor ← unwrap inner[j]?
    let ctx ← unwrap (o.contexts.get? anchor)
    let k ← ctx.countFirstIntersection (σ j) (inner.take (j + 1))
    return res + k) 0
  let left ← leftSet g inner
  (θ.run left.toList).foldlM (neighbourStep g inner) res

/-- `is_shattered`, `/repo/src/datastructures/sreach_trace_oracle.rs:270-291`. -/
def isShattered (σ τ : Nat → Shuffle (List Bool × Nat)) (ρ : Nat → Shuffle (List Vertex × Nat)) (θ : Shuffle Vertex)
    (o : TraceOracle) (inner : List Vertex) (k : Nat) (g : DegenGraph) : Res Bool := do
  let inner ← g.sortByIndex inner
  let traces ← o.computeTraces σ τ ρ θ inner g
  assertR (decide (cast32 inner.length ≤ k))
  let e ← usub k (cast32 inner.length)
  let multiplicity ← pow64 e
  let sets ← pow64 (cast32 inner.length)
  if traces.len < sets then return false
  else return traces.values.all (fun count => decide (multiplicity ≤ count))

end TraceOracle
end Verif
