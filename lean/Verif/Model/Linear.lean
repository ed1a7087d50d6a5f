import Verif.Model.Graph
/-!
# Model of the default methods of trait `LinearGraph`

`/repo/src/graph.rs:640-703` and `LeftNeighIterator`, `/repo/src/iterators.rs:437-457`.
-/
namespace Verif

/-- `as u32` cast of a nonnegative integer. -/
def cast32 (n : Nat) : Nat := n % 2 ^ 32

/-- `Iterator::min_by_key` on the already computed keys: the first minimum. -/
def minByKey : List (Nat × Vertex) → Option (Nat × Vertex)
  | [] => none
  | a :: l => some (l.foldl (fun best x => if x.1 < best.1 then x else best) a)

/-- `Iterator::max_by_key` on the already computed keys: the last maximum. -/
def maxByKey : List (Nat × Vertex) → Option (Nat × Vertex)
  | [] => none
  | a :: l => some (l.foldl (fun best x => if best.1 ≤ x.1 then x else best) a)

namespace LinGraph

/-- Default `left_degree`, `/repo/src/graph.rs:652-658`, from `contains` and `left_neighbours`.  The cast of the
length to `u32` is exact (a vertex has fewer than `2^32` neighbours). -/
def defaultLeftDegree (contains : Vertex → Bool) (leftNeighbours : Vertex → Res (List Vertex)) (u : Vertex) :
    Res Nat :=
  if contains u then do
    let l ← leftNeighbours u
    return l.length
  else .ok 0

/-- `left_degrees`, `/repo/src/graph.rs:661-667`. -/
def leftDegrees (L : LinGraph) : Res (HMap Vertex Nat) :=
  L.vertices.foldlM (fun res u => do
    let d ← L.leftDegree u
    return res.insert u d) ∅

/-- `max_left_degree`, `/repo/src/graph.rs:670-672`. -/
def maxLeftDegree (L : LinGraph) : Res Nat := do
  let ds ← L.vertices.mapM L.leftDegree
  return ds.max?.getD 0

/-- `right_degrees`, `/repo/src/graph.rs:675-681`. -/
def rightDegrees (L : LinGraph) : Res (HMap Vertex Nat) :=
  L.vertices.foldlM (fun res u => do
    let d ← L.rightDegree u
    return res.insert u d) ∅

/-- `max_right_degree`, `/repo/src/graph.rs:684-686`. -/
def maxRightDegree (L : LinGraph) : Res Nat := do
  let ds ← L.vertices.mapM L.rightDegree
  return ds.max?.getD 0

/-- The keys `self.index_of(u)` of `leftmost`/`rightmost`. -/
def keyed (L : LinGraph) (us : List Vertex) : Res (List (Nat × Vertex)) :=
  us.mapM (fun u => do
    let i ← L.indexOf u
    return (i, u))

/-- `leftmost`, `/repo/src/graph.rs:690-694`. -/
def leftmost (L : LinGraph) (us : List Vertex) : Res (Option Vertex) := do
  let ks ← L.keyed us
  return (minByKey ks).map Prod.snd

/-- `rightmost`, `/repo/src/graph.rs:698-702`. -/
def rightmost (L : LinGraph) (us : List Vertex) : Res (Option Vertex) := do
  let ks ← L.keyed us
  return (maxByKey ks).map Prod.snd

/-- The pairs `(v, left_neighbours(v))` produced by draining `left_neighbourhoods()`
(`LeftNeighIterator`, `/repo/src/iterators.rs:437-457`). -/
def leftNeighbourhoods (L : LinGraph) : Res (List (Vertex × List Vertex)) :=
  L.vertices.mapM (fun v => do
    let N ← L.leftNeighbours v
    return (v, N))

end LinGraph
end Verif
