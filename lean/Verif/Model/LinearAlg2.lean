import Verif.Model.LinearAlg
import Verif.Model.Operations
/-!
# Model of clique counting, greedy colouring and wreach-based distances

`/repo/src/algorithms/lineargraph.rs:208-243`, `:550-662`.
-/
namespace Verif

/-- `u32::MAX`. -/
def max32 : Nat := 2 ^ 32 - 1

/-- Body of the loop over `Wx.keys()`, `/repo/src/algorithms/lineargraph.rs:590-595`, with `Wx[w]` taken from the
entry. -/
def smallDistanceStep (Wy : HMap Vertex Nat) (dist : Nat) (e : Vertex × Nat) : Res Nat :=
  match Wy.get? e.1 with
  | none => .ok dist
  | some dy => do
    let s ← add32 e.2 dy
    return min dist s

/-- Initial distance in `small_distance`, `/repo/src/algorithms/lineargraph.rs:581-587`. -/
def smallDistanceInit (Wx Wy : HMap Vertex Nat) (x y : Vertex) : Nat :=
  let dist := (Wx.get? y).getD max32
  match Wy.get? x with
  | some d => min dist d
  | none => dist

/-- `small_distance`, `/repo/src/algorithms/lineargraph.rs:573-600`. -/
def smallDistance (wreach : HMap Vertex (HMap Vertex Nat)) (distance : Nat) (x y : Vertex) : Res (Option Nat) :=
  if x == y then .ok (some 0)
  else do
    let Wx ← unwrap (wreach.get? x)
    let Wy ← unwrap (wreach.get? y)
    let dist ← Wx.entries.foldlM (smallDistanceStep Wy) (smallDistanceInit Wx Wy x y)
    if distance < dist then return none else return some dist

/-- Inner loop of `small_distance_sets` for one `x`, `/repo/src/algorithms/lineargraph.rs:557-565`; `none` stands for the
early `return Some(0)`. -/
def smallDistanceRow (wreach : HMap Vertex (HMap Vertex Nat)) (distance : Nat) (x : Vertex) :
    List Vertex → Nat → Res (Option Nat)
  | [], dist => .ok (some dist)
  | y :: ys, dist =>
    if x == y then .ok none
    else do
      let d ← smallDistance wreach distance x y
      smallDistanceRow wreach distance x ys (min dist (d.getD dist))

/-- Outer loop of `small_distance_sets`, `/repo/src/algorithms/lineargraph.rs:556-566`. -/
def smallDistanceRows (wreach : HMap Vertex (HMap Vertex Nat)) (distance : Nat) (ys : List Vertex) :
    List Vertex → Nat → Res (Option Nat)
  | [], dist => .ok (some dist)
  | x :: xs, dist => do
    match ← smallDistanceRow wreach distance x ys dist with
    | none => return none
    | some dist => smallDistanceRows wreach distance ys xs dist

/-- `small_distance_sets`, `/repo/src/algorithms/lineargraph.rs:550-571`; `σ` is the iteration order of the two temporary
sets. -/
def smallDistanceSets (σ : Shuffle Vertex) (wreach : HMap Vertex (HMap Vertex Nat)) (distance : Nat) (X Y : List Vertex) :
    Res (Option Nat) := do
  let xs := σ.run (HSet.ofList X).toList
  let ys := σ.run (HSet.ofList Y).toList
  match ← smallDistanceRows wreach distance ys xs max32 with
  | none => return some 0
  | some dist => if dist == max32 then return none else return some dist

namespace LinGraph

/-- One round of `colour_greedy`, `/repo/src/algorithms/lineargraph.rs:225-239`; state: `colours`, `used_colours`. -/
def colourStep (L : LinGraph) (st : HMap Vertex Nat × List Nat) (v : Vertex) : Res (HMap Vertex Nat × List Nat) := do
  let N ← L.leftNeighbours v
  let Ncols ← N.mapM (fun x => unwrap (st.1.get? x))
  if Ncols.length == st.2.length then
    let c := cast32 st.2.length
    return (st.1.insert v c, st.2 ++ [c])
  else
    match st.2.find? (fun c => !Ncols.contains c) with
    | some c => return (st.1.insert v c, st.2)
    | none => return st

/-- `colour_greedy`, `/repo/src/algorithms/lineargraph.rs:221-243`. -/
def colourGreedy (L : LinGraph) : Res (HMap Vertex Nat) := do
  let st ← L.vertices.foldlM L.colourStep (∅, [])
  return st.1

/-- `include.iter().copied().collect::<BTreeSet<_>>()`: an ordered set is modelled by its sorted sequence. -/
def btree (s : HSet Vertex) : List Vertex := s.toList.insertionSort (· ≤ ·)

/-- Recording a clique, `/repo/src/algorithms/lineargraph.rs:606-616`. -/
def record (v : Vertex) (incl : HSet Vertex) (results : HSet (List Vertex)) : HSet (List Vertex) :=
  let results := results.insert (btree incl)
  if 1 < incl.len then results.remove (btree (incl.remove v)) else results

/-- State of the loop in `bk_pivot_count`: `include`, `maybe`, `exclude`, `results`. -/
structure BKState where
  incl : HSet Vertex
  maybe : HSet Vertex
  excl : HSet Vertex
  results : HSet (List Vertex)

/-- One round of the loop in `bk_pivot_count`, `/repo/src/algorithms/lineargraph.rs:642-661`; `rec` is the recursive
call. -/
def bkStep (rec : HSet Vertex → HSet Vertex → HSet Vertex → HSet (List Vertex) → Res (HSet Vertex × HSet (List Vertex)))
    (lset : HSet Vertex) (st : BKState) (w : Vertex) : Res BKState :=
  if !st.maybe.contains w || lset.contains w then .ok st
  else do
    let (incl, results) ← rec (st.incl.insert w) (st.maybe.retain (fun x => lset.contains x))
      (st.excl.retain (fun x => lset.contains x)) st.results
    return ⟨incl.remove w, st.maybe.remove w, st.excl.insert w, results⟩

/-- `bk_pivot_count`, `/repo/src/algorithms/lineargraph.rs:602-662`.  Returns `include` and `results`.  The depth of the
recursion is bounded by the length of `vertices`, which decreases; `fuel` is that bound. -/
def bkPivot (L : LinGraph) (v : Vertex) : Nat → List Vertex → HSet Vertex → HSet Vertex → HSet Vertex →
    HSet (List Vertex) → Res (HSet Vertex × HSet (List Vertex))
  | 0, _, _, _, _, _ => .error .fuel
  | fuel + 1, vertices, incl, maybe, excl, results =>
    if maybe.len == 0 && excl.len == 0 then .ok (incl, record v incl results)
    else do
      let (u, iu) ← unwrap (vertices.zipIdx.reverse.find? (fun p => maybe.contains p.1 || excl.contains p.1))
      let left ← Graph.filterR (fun w => L.adjacent u w) (vertices.take iu)
      let lset := HSet.ofList left
      let st ← (vertices.take (iu + 1)).reverse.foldlM
        (bkStep (bkPivot L v fuel left) lset) ⟨incl, maybe, excl, results⟩
      return (st.incl, st.results)

/-- One round of `count_max_cliques`, `/repo/src/algorithms/lineargraph.rs:211-217`. -/
def cliqueStep (L : LinGraph) (results : HSet (List Vertex)) (v : Vertex) : Res (HSet (List Vertex)) := do
  let N ← L.leftNeighbours v
  let (_, results) ← L.bkPivot v (N.length + 1) N (HSet.empty.insert v) (HSet.ofList N) ∅ results
  return results

/-- `count_max_cliques`, `/repo/src/algorithms/lineargraph.rs:208-219`. -/
def countMaxCliques (L : LinGraph) : Res Nat := do
  let results ← L.vertices.foldlM L.cliqueStep ∅
  return results.len

end LinGraph
end Verif
