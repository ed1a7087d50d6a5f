import Verif.Model.EditDigraph
import Verif.Model.Linear
import Verif.Model.DTFGraph
/-!
# Model of the neighbourhood iterators

`/repo/src/iterators.rs:19-113, 327-370, 437-472`, `/repo/src/dtfgraph.rs:391-397`.  The borrowed graph is a parameter of
`next`; the state is the rest of the vertex iterator.
-/
namespace Verif

/-- State of `NeighIterator`, `/repo/src/iterators.rs:19-22`. -/
structure NeighIter where
  rest : List Vertex

namespace NeighIter

/-- `neighbourhoods()`, `NeighIterator::new`, `/repo/src/iterators.rs:25-27, 84-88`. -/
def new (G : Graph) : NeighIter := ⟨G.vertices⟩

/-- `NeighIterator::next`, `/repo/src/iterators.rs:33-38`. -/
def next (G : Graph) (s : NeighIter) : Res (Option ((Vertex × List Vertex) × NeighIter)) :=
  match s.rest with
  | [] => .ok none
  | v :: rest => do
    let N ← G.neighbours v
    return some ((v, N), ⟨rest⟩)

end NeighIter

/-- `DiNeighIteratorMode`, `/repo/src/iterators.rs:50`. -/
inductive DiNeighMode where
  | inn
  | out

/-- State of `DiNeighIterator`, `/repo/src/iterators.rs:44-48`. -/
structure DiNeighIter where
  rest : List Vertex
  mode : DiNeighMode

namespace DiNeighIter

/-- `in_neighbourhoods()`, `DiNeighIterator::new_in`, `/repo/src/iterators.rs:53-55, 104-106`. -/
def newIn (D : Digraph) : DiNeighIter := ⟨D.vertices, .inn⟩

/-- `out_neighbourhoods()`, `DiNeighIterator::new_out`, `/repo/src/iterators.rs:57-59, 108-110`. -/
def newOut (D : Digraph) : DiNeighIter := ⟨D.vertices, .out⟩

/-- `DiNeighIterator::next`, `/repo/src/iterators.rs:65-73`. -/
def next (D : Digraph) (s : DiNeighIter) : Res (Option ((Vertex × List Vertex) × DiNeighIter)) :=
  match s.rest with
  | [] => .ok none
  | v :: rest =>
    match s.mode with
    | .inn => do
      let N ← D.inNeighbours v
      return some ((v, N), ⟨rest, s.mode⟩)
    | .out => do
      let N ← D.outNeighbours v
      return some ((v, N), ⟨rest, s.mode⟩)

end DiNeighIter

/-- State of `DTFNIterator`, `/repo/src/iterators.rs:327-331`. -/
structure DTFNIter where
  rest : List Vertex
  depth : Option Nat

namespace DTFNIter

/-- `in_neighbourhoods_iter()`, `DTFNIterator::all_depths`, `/repo/src/iterators.rs:335-341`,
`/repo/src/dtfgraph.rs:391-393`. -/
def allDepths (g : DTFGraph) : DTFNIter := ⟨g.vertices, none⟩

/-- `in_neighbourhoods_iter_at(depth)`, `DTFNIterator::fixed_depth`, `/repo/src/iterators.rs:344-350`,
`/repo/src/dtfgraph.rs:395-397`. -/
def fixedDepth (g : DTFGraph) (depth : Nat) : DTFNIter := ⟨g.vertices, some depth⟩

/-- `DTFNIterator::next`, `/repo/src/iterators.rs:356-368`. -/
def next (g : DTFGraph) (s : DTFNIter) : Res (Option ((Vertex × List Vertex) × DTFNIter)) :=
  match s.depth with
  | some depth =>
    match s.rest with
    | [] => .ok none
    | v :: rest => do
      let N ← g.inNeighboursAt v depth
      return some ((v, N), ⟨rest, s.depth⟩)
  | none =>
    match s.rest with
    | [] => .ok none
    | v :: rest => do
      let N ← g.inNeighbours v
      return some ((v, N), ⟨rest, s.depth⟩)

end DTFNIter

/-- State of `LeftNeighIterator`, `/repo/src/iterators.rs:437-440`. -/
structure LeftNeighIter where
  rest : List Vertex

namespace LeftNeighIter

/-- `left_neighbourhoods()`, `LeftNeighIterator::new`, `/repo/src/iterators.rs:443-445, 467-471`. -/
def new (L : LinGraph) : LeftNeighIter := ⟨L.vertices⟩

/-- `LeftNeighIterator::next`, `/repo/src/iterators.rs:451-456`. -/
def next (L : LinGraph) (s : LeftNeighIter) : Res (Option ((Vertex × List Vertex) × LeftNeighIter)) :=
  match s.rest with
  | [] => .ok none
  | v :: rest => do
    let N ← L.leftNeighbours v
    return some ((v, N), ⟨rest⟩)

end LeftNeighIter

end Verif
