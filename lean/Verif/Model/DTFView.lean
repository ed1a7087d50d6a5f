import Verif.Model.DTFGraph
import Verif.Model.EditDigraph
/-!
# Augmentations and their layers as digraphs

The trait implementations of `/repo/src/dtfgraph.rs` as records of the trait methods, so that the provided methods of `Graph`
and `Digraph` apply to them, and the one provided method of `Digraph` that shares its name with a method of `Graph`.
-/
namespace Verif

/-- The provided method `Digraph::neighbours`, `/repo/src/graph.rs:503-505`: the two iterators are created first (this is where
the implementations panic), then chained.  Not overridden by `EditDigraph` and `DTFGraph`. -/
def Digraph.neighboursBoth (D : Digraph) (u : Vertex) : Res (List Vertex) := do
  let i ← D.inNeighbours u
  let o ← D.outNeighbours u
  return i ++ o

/-- `impl Graph for DTFGraph` and `impl Digraph for DTFGraph`, `/repo/src/dtfgraph.rs:183-237`.  Simplification: `num_edges`
indexes `ms[0]` (`DTFGraph.numEdges` has the panic); the record has no room for a panic there and reads 0. -/
def DTFGraph.view (g : DTFGraph) : Digraph where
  numVertices := g.numVertices
  numEdges := g.ms[0]?.getD 0
  contains := g.contains
  adjacent u v := .ok (g.adjacent u v)
  degree := g.degree
  vertices := g.vertices
  neighbours _ := .error .panic
  hasArc := g.hasArc
  inDegree := g.inDegree
  outDegree := g.outDegree
  inNeighbours := g.inNeighbours
  outNeighbours _ := .error .panic

namespace DTFGraph.Layer

/-- The overriding `Digraph::neighbours` of a layer, `/repo/src/dtfgraph.rs:95-98`. -/
def neighboursBoth (_l : Layer) (_u : Vertex) : Res (List Vertex) := .error .panic

/-- `impl Graph for DTFLayer` and `impl Digraph for DTFLayer`, `/repo/src/dtfgraph.rs:50-108`.  Simplification: `num_edges` and
`has_arc` panic for some depths (`Layer.numEdges`, `Layer.hasArc` have the panics); the record has no room for a panic there and
reads 0 and `false`. -/
def view (l : Layer) : Digraph where
  numVertices := l.numVertices
  numEdges := l.numEdges.toOption.getD 0
  contains := l.contains
  adjacent u v := .ok (l.adjacent u v)
  degree := l.degree
  vertices := l.vertices
  neighbours _ := .error .panic
  hasArc u v := (l.hasArc u v).toOption.getD false
  inDegree := l.inDegree
  outDegree := l.outDegree
  inNeighbours := l.inNeighbours
  outNeighbours _ := .error .panic

end DTFGraph.Layer

end Verif
