import Verif.Model.OrdGraph
import Verif.Model.Maps
/-!
# Model of the algorithms on linear graphs

`/repo/src/algorithms/lineargraph.rs`.  Parameters `σ`, `τ` are the iteration orders of temporary hash tables.
-/
namespace Verif
namespace LinGraph

/-- Inner loop of `right_bfs` over the neighbours of one vertex, `/repo/src/algorithms/lineargraph.rs:123-129`; the
state is the new layer `part2[0]` and `seen`. -/
def bfsVisit (L : LinGraph) (iroot : Nat) (st : HSet Vertex × HSet Vertex) (v : Vertex) :
    Res (HSet Vertex × HSet Vertex) := do
  let iv ← L.indexOf v
  if iroot < iv && !st.2.contains v then return (st.1.insert v, st.2.insert v)
  else return st

/-- One round `d` of `right_bfs`, `/repo/src/algorithms/lineargraph.rs:119-131`; `us` is layer `d-1`. -/
def bfsLayer (L : LinGraph) (iroot : Nat) (us : List Vertex) (seen : HSet Vertex) : Res (HSet Vertex × HSet Vertex) :=
  us.foldlM (fun st u => do
    let N ← L.neighbours u
    N.foldlM (L.bfsVisit iroot) st) (∅, seen)

/-- The loop of `right_bfs`, `/repo/src/algorithms/lineargraph.rs:119-131`, with `k` rounds to go; `σ k` is the
iteration order of the previous layer.  The layers are appended instead of being written into a vector of empty
sets. -/
def rightBfsLoop (σ : Nat → Shuffle Vertex) (L : LinGraph) (iroot : Nat) :
    Nat → HSet Vertex → HSet Vertex → Res (List (HSet Vertex))
  | 0, _, _ => .ok []
  | k + 1, prev, seen => do
    let (next, seen) ← L.bfsLayer iroot ((σ k).run prev.toList) seen
    let rest ← rightBfsLoop σ L iroot k next seen
    return next :: rest

/-- `right_bfs`, `/repo/src/algorithms/lineargraph.rs:110-134` (`dist+1` is overflow-checked). -/
def rightBfs (σ : Nat → Shuffle Vertex) (L : LinGraph) (root : Vertex) (dist : Nat) : Res (List (HSet Vertex)) := do
  let iroot ← L.indexOf root
  let _ ← add32 dist 1
  let first : HSet Vertex := HSet.empty.insert root
  let rest ← rightBfsLoop σ L iroot dist first (HSet.empty.insert root)
  return first :: rest

/-- `if ix < iu { res.entry(x).or_insert(d+1) }`, `/repo/src/algorithms/lineargraph.rs:144-151`. -/
def sreachVisit (L : LinGraph) (iu d : Nat) (res : HMap Vertex Nat) (x : Vertex) : Res (HMap Vertex Nat) := do
  let ix ← L.indexOf x
  if ix < iu && !res.contains x then return res.insert x (cast32 (d + 1))
  else return res

/-- `sreach_set`, `/repo/src/algorithms/lineargraph.rs:136-156`; `τ d` is the iteration order of layer `d`. -/
def sreachSet (σ τ : Nat → Shuffle Vertex) (L : LinGraph) (u : Vertex) (r : Nat) : Res (HMap Vertex Nat) := do
  let r' ← usub r 1
  let bfs ← L.rightBfs σ u r'
  let iu ← L.indexOf u
  bfs.zipIdx.foldlM (fun (res : HMap Vertex Nat) p =>
    ((τ p.2).run p.1.toList).foldlM (fun (res : HMap Vertex Nat) v => do
      let N ← L.leftNeighbours v
      N.foldlM (L.sreachVisit iu p.2) res) res) ∅

/-- `assert!(*v != *u); res.get_mut(v).unwrap().insert(*u, (d+1) as u32)`,
`/repo/src/algorithms/lineargraph.rs:166-167`. -/
def wreachVisit (u d : Nat) (res : HMap Vertex (HMap Vertex Nat)) (v : Vertex) : Res (HMap Vertex (HMap Vertex Nat)) := do
  assertR (v != u)
  let m ← unwrap (res.get? v)
  return res.insert v (m.insert u (cast32 (d + 1)))

/-- `wreach_sets`, `/repo/src/algorithms/lineargraph.rs:158-172`; `σ u`, `τ u` are the iteration orders for the BFS from
`u`. -/
def wreachSets (σ τ : Vertex → Nat → Shuffle Vertex) (L : LinGraph) (r : Nat) : Res (HMap Vertex (HMap Vertex Nat)) :=
  let res : HMap Vertex (HMap Vertex Nat) := L.vertices.foldl (fun res u => res.insert u ∅) ∅
  L.vertices.foldlM (fun (res : HMap Vertex (HMap Vertex Nat)) u => do
    let bfs ← L.rightBfs (σ u) u r
    (bfs.drop 1).zipIdx.foldlM (fun (res : HMap Vertex (HMap Vertex Nat)) p =>
      ((τ u p.2).run p.1.toList).foldlM (wreachVisit u p.2) res) res) res

/-- `let count = res.entry(*v).or_insert(0); *count += 1`, `/repo/src/algorithms/lineargraph.rs:182-183`. -/
def countVisit (res : HMap Vertex Nat) (v : Vertex) : Res (HMap Vertex Nat) := do
  let c ← add32 (res.getD v 0) 1
  return res.insert v c

/-- `wreach_sizes`, `/repo/src/algorithms/lineargraph.rs:174-188`. -/
def wreachSizes (σ τ : Vertex → Nat → Shuffle Vertex) (L : LinGraph) (r : Nat) : Res (HMap Vertex Nat) :=
  let res : HMap Vertex Nat := L.vertices.foldl (fun res u => res.insert u 0) ∅
  L.vertices.foldlM (fun (res : HMap Vertex Nat) u => do
    let bfs ← L.rightBfs (σ u) u r
    (bfs.drop 1).zipIdx.foldlM (fun (res : HMap Vertex Nat) p =>
      ((τ u p.2).run p.1.toList).foldlM countVisit res) res) res

/-- `sreach_sets`, `/repo/src/algorithms/lineargraph.rs:190-197`. -/
def sreachSets (σ τ : Vertex → Nat → Shuffle Vertex) (L : LinGraph) (r : Nat) : Res (HMap Vertex (HMap Vertex Nat)) :=
  L.vertices.foldlM (fun (res : HMap Vertex (HMap Vertex Nat)) u => do
    let s ← L.sreachSet (σ u) (τ u) u r
    return res.insert u s) ∅

/-- `sreach_sizes`, `/repo/src/algorithms/lineargraph.rs:199-206`. -/
def sreachSizes (σ τ : Vertex → Nat → Shuffle Vertex) (L : LinGraph) (r : Nat) : Res (HMap Vertex Nat) :=
  L.vertices.foldlM (fun (res : HMap Vertex Nat) u => do
    let s ← L.sreachSet (σ u) (τ u) u r
    return res.insert u (cast32 s.len)) ∅

end LinGraph
end Verif
