import Verif.Model.EditGraph
/-!
# Model of `/repo/src/operations.rs` and `/repo/src/compare.rs`

Generic over any `Graph` implementation.
-/
namespace Verif

/-- `itertools::combinations(2)` (used in `/repo/src/operations.rs:23`): all pairs in input order. -/
def pairs {α : Type} : List α → List (α × α)
  | [] => []
  | a :: l => l.map (fun b => (a, b)) ++ pairs l

namespace Graph

/-- `invert`, `/repo/src/operations.rs:20-31`. -/
def invert (G : Graph) : Res EditGraph :=
  (pairs G.vertices).foldlM (fun (res : EditGraph) p => do
    if !(← G.adjacent p.1 p.2) then return (← res.addEdge p.1 p.2).1
    else return res) (EditGraph.new.addVertices G.vertices).1

/-- `merge`, `/repo/src/operations.rs:33-40`. -/
def merge (G H : Graph) : Res EditGraph := do
  let res := (EditGraph.new.addVertices G.vertices).1
  let res := (res.addVertices H.vertices).1
  let es ← G.edges
  let res := (← res.addEdges es).1
  let fs ← H.edges
  return (← res.addEdges fs).1

/-- `Iterator::filter` with a predicate that may fail. -/
def filterR {α : Type} (p : α → Res Bool) : List α → Res (List α)
  | [] => .ok []
  | a :: l => do
    let b ← p a
    let l' ← filterR p l
    return if b then a :: l' else l'

/-- `intersect`, `/repo/src/operations.rs:42-47`. -/
def intersect (G H : Graph) : Res EditGraph := do
  let res := (EditGraph.new.addVertices (G.vertices.filter (fun u => H.contains u))).1
  let es ← G.edges
  let es ← filterR (fun e => H.adjacent e.1 e.2) es
  return (← res.addEdges es).1

/-- Inner loop of `subdivide` for one edge, `/repo/src/operations.rs:59-65`: `n` further fresh vertices
`s, s+1, ...` are appended after `last`, then the edge to `v` is added. -/
def subdivideEdge (G : Graph) (v : Vertex) : Nat → Vertex → Vertex → EditGraph → Res EditGraph
  | 0, last, _, res => do return (← res.addEdge last v).1
  | n + 1, last, s, res => do
    assertR (!G.contains s)
    let res := (← res.addEdge last s).1
    subdivideEdge G v n s (s + 1) res

/-- `subdivide`, `/repo/src/operations.rs:49-70`. -/
def subdivide (G : Graph) (times : Nat) : Res EditGraph := do
  let (res, maxId) := G.vertices.foldl (fun (s : EditGraph × Vertex) u =>
    ((s.1.addVertex u).1, max s.2 u)) (EditGraph.new, 0)
  let freeId ← add32 maxId 1
  let es ← G.edges
  let r ← es.foldlM (fun (s : EditGraph × Vertex) e => do
    let endId ← add32 s.2 times
    let res ← subdivideEdge G e.2 times e.1 s.2 s.1
    return (res, endId)) (res, freeId)
  return r.1

/-- Numbering of the product vertices, `/repo/src/operations.rs:77-83, 120-126`. -/
def productIds (G H : Graph) : Res (HMap (Vertex × Vertex) Vertex × HMap Vertex (Vertex × Vertex) × Vertex) :=
  G.vertices.foldlM (fun s u =>
    H.vertices.foldlM (fun (s : HMap (Vertex × Vertex) Vertex × HMap Vertex (Vertex × Vertex) × Vertex) v => do
      let free ← add32 s.2.2 1
      return (s.1.insert (u, v) s.2.2, s.2.1.insert s.2.2 (u, v), free)) s) (∅, ∅, 0)

/-- `lexicographic_product`, `/repo/src/operations.rs:72-113`.  `σ` is the iteration order of `map`. -/
def lexicographicProduct (σ : Shuffle ((Vertex × Vertex) × Vertex)) (G H : Graph) :
    Res (EditGraph × HMap Vertex (Vertex × Vertex)) := do
  let (map, inverse, _) ← G.productIds H
  let res ← (σ.run map.entries).foldlM (fun (res : EditGraph) p => do
    let Nu ← G.neighbours p.1.1
    let res ← Nu.foldlM (fun (res : EditGraph) w => do
      let y ← unwrap (map.get? (w, p.1.2))
      return (← res.addEdge p.2 y).1) res
    let Nv ← H.neighbours p.1.2
    Nv.foldlM (fun (res : EditGraph) w =>
      G.vertices.foldlM (fun (res : EditGraph) uu => do
        let y ← unwrap (map.get? (uu, w))
        return (← res.addEdge p.2 y).1) res) res) EditGraph.new
  return (res, inverse)

/-- `cartesian_product`, `/repo/src/operations.rs:115-145`.  `σ` is the iteration order of `map`. -/
def cartesianProduct (σ : Shuffle ((Vertex × Vertex) × Vertex)) (G H : Graph) :
    Res (EditGraph × HMap Vertex (Vertex × Vertex)) := do
  let (map, inverse, _) ← G.productIds H
  let res ← (σ.run map.entries).foldlM (fun (res : EditGraph) p => do
    let Nv ← H.neighbours p.1.2
    let res ← Nv.foldlM (fun (res : EditGraph) w => do
      let y ← unwrap (map.get? (p.1.1, w))
      return (← res.addEdge p.2 y).1) res
    let Nu ← G.neighbours p.1.1
    Nu.foldlM (fun (res : EditGraph) w => do
      let y ← unwrap (map.get? (w, p.1.2))
      return (← res.addEdge p.2 y).1) res) EditGraph.new
  return (res, inverse)

end Graph

/-- `SubgraphRel`, `/repo/src/compare.rs:6-11`. -/
inductive SubgraphRel where
  | Sub | Eq | Sup | Incomp
  deriving DecidableEq, Repr

/-- `Iterator::all` with a predicate that may fail; stops at the first `false`. -/
def allR {α : Type} (p : α → Res Bool) : List α → Res Bool
  | [] => .ok true
  | a :: l => do if ← p a then allR p l else return false

/-- `compare_subgraph`, `/repo/src/compare.rs:18-31`. -/
def Graph.compareSubgraph (G H : Graph) : Res SubgraphRel := do
  let isSub := G.vertices.all (fun x => H.contains x)
  let es ← G.edges
  let b ← allR (fun e => H.adjacent e.1 e.2) es
  let isSub := isSub && b
  let isSuper := H.vertices.all (fun x => G.contains x)
  let fs ← H.edges
  let b ← allR (fun e => G.adjacent e.1 e.2) fs
  let isSuper := isSuper && b
  match isSub, isSuper with
  | true, true => return .Eq
  | true, false => return .Sub
  | false, true => return .Sup
  | false, false => return .Incomp

end Verif
