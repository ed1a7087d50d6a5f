import Verif.Model.Basic
/-!
# Model of the `Graph` trait and of the generic iterators

`/repo/src/graph.rs:276-379` and `/repo/src/iterators.rs:19-243`.
-/
namespace Verif

/-- Required methods of trait `Graph` (`/repo/src/graph.rs:276-316`) as a record of functions.
`vertices`/`neighbours` return the sequence produced by draining the boxed iterator; two calls on the
same (unmodified) graph give the same sequence, as for the std hash tables.  Methods which some
implementation can panic in are `Res`-valued. -/
structure Graph where
  numVertices : Nat
  numEdges : Nat
  contains : Vertex → Bool
  adjacent : Vertex → Vertex → Res Bool
  degree : Vertex → Res Nat
  vertices : List Vertex
  neighbours : Vertex → Res (List Vertex)

namespace Graph

/-- `Graph::len`, `/repo/src/graph.rs:302-304`. -/
def len (G : Graph) : Nat := G.numVertices

/-- `Graph::is_empty`, `/repo/src/graph.rs:307-309`. -/
def isEmpty (G : Graph) : Bool := G.len == 0

/-- `Graph::degrees`, `/repo/src/graph.rs:293-299`. -/
def degrees (G : Graph) : Res (HMap Vertex Nat) :=
  G.vertices.foldlM (fun res v => do
    let d ← G.degree v
    return res.insert v d) ∅

/-- `Graph::neighbourhood`, `/repo/src/graph.rs:319-330`.  `σ` is the iteration order of the temporary
set `centers`. -/
def neighbourhood (σ : Shuffle Vertex) (G : Graph) (vertices : List Vertex) : Res (HSet Vertex) := do
  let centers := HSet.ofList vertices
  let res ← (σ.run centers.toList).foldlM (fun (res : HSet Vertex) v => do
    let N ← G.neighbours v
    return res.extend N) ∅
  return res.retain (fun u => !centers.contains u)

/-- `Graph::closed_neighbourhood`, `/repo/src/graph.rs:334-344`. -/
def closedNeighbourhood (G : Graph) (vertices : List Vertex) : Res (HSet Vertex) :=
  vertices.foldlM (fun (res : HSet Vertex) v => do
    let N ← G.neighbours v
    return (res.extend N).insert v) ∅

/-- Loop of `Graph::r_neighbourhood`, `/repo/src/graph.rs:357-360`.  `σ i` is the iteration order of the
set `res` in the round with `i` rounds to go. -/
def rNeighbourhoodLoop (σ : Nat → Shuffle Vertex) (G : Graph) : Nat → HSet Vertex → Res (HSet Vertex)
  | 0, res => .ok res
  | r + 1, res => do
    let ext ← G.closedNeighbourhood ((σ r).run res.toList)
    rNeighbourhoodLoop σ G r (res.extend ext.toList)

/-- `Graph::r_neighbourhood`, `/repo/src/graph.rs:353-362`. -/
def rNeighbourhood (σ : Nat → Shuffle Vertex) (G : Graph) (vertices : List Vertex) (r : Nat) :
    Res (HSet Vertex) :=
  rNeighbourhoodLoop σ G r (HSet.ofList vertices)

/-- `Graph::r_neighbours`, `/repo/src/graph.rs:347-349`. -/
def rNeighbours (σ : Nat → Shuffle Vertex) (G : Graph) (u : Vertex) (r : Nat) : Res (HSet Vertex) :=
  G.rNeighbourhood σ [u] r

end Graph

/-! ## Iterators -/

/-- State of `EdgeIterator`, `/repo/src/iterators.rs:117-121`: `rest` is the remaining part of the vertex
iterator inside `N_it` (`NeighIterator`, `/repo/src/iterators.rs:19-39`), `curr_v`, `curr_it`. -/
structure EdgeIter where
  rest : List Vertex
  currV : Option Vertex
  currIt : Option (List Vertex)

namespace EdgeIter

/-- `EdgeIterator::advance`, `/repo/src/iterators.rs:134-141` (with `NeighIterator::next`,
`/repo/src/iterators.rs:33-38`). -/
def advance (G : Graph) (s : EdgeIter) : Res EdgeIter :=
  match s.rest with
  | v :: rest => do
    let N ← G.neighbours v
    return ⟨rest, some v, some N⟩
  | [] => .ok ⟨[], s.currV, none⟩

/-- `EdgeIterator::new`, `/repo/src/iterators.rs:124-132`. -/
def new (G : Graph) : Res EdgeIter := advance G ⟨G.vertices, none, none⟩

/-- The part of the loop in `EdgeIterator::next` (`/repo/src/iterators.rs:148-165`) that stays on the
current vertex `v`: skip neighbours `u` with `v > u`; return the first other one and the remaining
iterator. -/
def scan (v : Vertex) : List Vertex → Option (Vertex × List Vertex)
  | [] => none
  | u :: it => if v > u then scan v it else some (u, it)

/-- The `while` loop of `EdgeIterator::next`, `/repo/src/iterators.rs:148-165`, on the vertex `v` with
current iterator `it` and remaining vertices `rest`. -/
def nextFrom (G : Graph) : List Vertex → Vertex → List Vertex → Res (Option (Edge × EdgeIter))
  | rest, v, it =>
    match scan v it with
    | some (u, it') => .ok (some ((v, u), ⟨rest, some v, some it'⟩))
    | none =>
      match rest with
      | [] => .ok none
      | w :: rest' => do
        let N ← G.neighbours w
        nextFrom G rest' w N

/-- `EdgeIterator::next`, `/repo/src/iterators.rs:147-168`.  (The final state after returning `None` is
not modelled.) -/
def next (G : Graph) (s : EdgeIter) : Res (Option (Edge × EdgeIter)) :=
  match s.currIt with
  | none => .ok none
  | some it => do
    let v ← unwrap s.currV
    nextFrom G s.rest v it

end EdgeIter

/-- State of `MixedIterator`, `/repo/src/iterators.rs:188-193`. -/
structure MixedIter where
  rest : List Vertex
  returnedV : Bool
  currV : Option Vertex
  currIt : Option (List Vertex)

/-- `VertexOrEdge`, `/repo/src/graph.rs:47-51`. -/
inductive VertexOrEdge where
  | V (v : Vertex)
  | E (e : Edge)
  deriving DecidableEq, Repr

namespace MixedIter

/-- `MixedIterator::advance`, `/repo/src/iterators.rs:207-216`. -/
def advance (G : Graph) (s : MixedIter) : Res MixedIter :=
  match s.rest with
  | v :: rest => do
    let N ← G.neighbours v
    return ⟨rest, false, some v, some N⟩
  | [] => .ok ⟨[], false, none, none⟩

/-- `MixedIterator::new`, `/repo/src/iterators.rs:196-205`. -/
def new (G : Graph) : Res MixedIter := advance G ⟨G.vertices, false, none, none⟩

/-- Inner `for` loop of `MixedIterator::next`, `/repo/src/iterators.rs:231-236`. -/
def scan (v : Vertex) : List Vertex → Option (Vertex × List Vertex)
  | [] => none
  | u :: it => if v < u then some (u, it) else scan v it

/-- `MixedIterator::next`, `/repo/src/iterators.rs:222-242`: returns the vertex first, then its edges; when
the current neighbourhood is exhausted it advances, and the next vertex (if any) is returned. -/
def next (G : Graph) (s : MixedIter) : Res (Option (VertexOrEdge × MixedIter)) :=
  match s.currV, s.currIt with
  | some v, some it =>
    if !s.returnedV then .ok (some (.V v, ⟨s.rest, true, some v, some it⟩))
    else match scan v it with
      | some (u, it') => .ok (some (.E (v, u), ⟨s.rest, true, some v, some it'⟩))
      | none => do
        let s' ← advance G s
        -- second round of the `while let`: either finished, or `returned_v` is false
        match s'.currV, s'.currIt with
        | some v', some it' => return some (.V v', ⟨s'.rest, true, some v', some it'⟩)
        | _, _ => return none
  | _, _ => .ok none

end MixedIter

/-- `Drains next s l`: calling `next` repeatedly from state `s` yields exactly the items `l`, then `None`
(what `for`/`collect` see). -/
inductive Drains {σ α : Type} (next : σ → Res (Option (α × σ))) : σ → List α → Prop
  | done {s : σ} (h : next s = .ok none) : Drains next s []
  | step {s s' : σ} {a : α} {l : List α} (h : next s = .ok (some (a, s'))) (t : Drains next s' l) :
      Drains next s (a :: l)

namespace Graph

/-- The sequence of edges seen by `for (u,v) in G.edges()`; `edges_drains` (Lemmas) shows that it is what
the `EdgeIterator` state machine yields.  Used inside models of code that loops over `edges()`. -/
def edges (G : Graph) : Res (List Edge) :=
  G.vertices.foldlM (fun acc v => do
    let N ← G.neighbours v
    return acc ++ (N.filter (fun u => v ≤ u)).map (fun u => (v, u))) []

end Graph

/-- Trait `LinearGraph` (`/repo/src/graph.rs:640-703`): required methods and the overridable `left_degree`.-/
structure LinGraph extends Graph where
  indexOf : Vertex → Res Nat
  leftNeighbours : Vertex → Res (List Vertex)
  rightDegree : Vertex → Res Nat
  leftDegree : Vertex → Res Nat

end Verif
