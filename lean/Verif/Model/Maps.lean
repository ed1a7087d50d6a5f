import Verif.Model.Graph
/-!
# Model of `VertexOrEdge`, `VertexMapOperations` and `VertexColouring`

`/repo/src/graph.rs:43-273`.
-/
namespace Verif

namespace VertexOrEdge

/-- `VertexOrEdge::as_vertex`, `/repo/src/graph.rs:53-58`. -/
def asVertex : VertexOrEdge → Option Vertex
  | V v => some v
  | E _ => none

/-- `VertexOrEdge::as_edge`, `/repo/src/graph.rs:74-79`. -/
def asEdge : VertexOrEdge → Option Edge
  | V _ => none
  | E e => some e

/-- `VertexOrEdge::is_vertex`, `/repo/src/graph.rs:60-65`. -/
def isVertex : VertexOrEdge → Bool
  | V _ => true
  | E _ => false

/-- `VertexOrEdge::is_edge`, `/repo/src/graph.rs:67-72`. -/
def isEdge : VertexOrEdge → Bool
  | V _ => false
  | E _ => true

/-- `VertexOrEdge::intersection`, `/repo/src/graph.rs:89-118`. -/
def intersection : VertexOrEdge → VertexOrEdge → Option VertexOrEdge
  | V x, V y => if x = y then some (V x) else none
  | V x, E (a, b) => if x = a ∨ x = b then some (V x) else none
  | E (a, b), V x => if x = a ∨ x = b then some (V x) else none
  | E (a, b), E (c, d) =>
    if (a, b) = (c, d) ∨ (b, a) = (c, d) then some (E (a, b))
    else if a = c ∨ a = d then some (V a)
    else if b = c ∨ b = d then some (V b)
    else none

/-- `VertexOrEdge::intersects`, `/repo/src/graph.rs:83-85`. -/
def intersects (s t : VertexOrEdge) : Bool := (s.intersection t).isSome

end VertexOrEdge

namespace VertexMap
variable {τ : Type} [DecidableEq τ]

/-- `VertexMapOperations::invert`, `/repo/src/graph.rs:146-152`: `res.entry(value).or_default().insert(u)` for every
entry in iteration order. -/
def invert (m : HMap Vertex τ) : HMap τ (HSet Vertex) :=
  m.entries.foldl (fun res e => res.insert e.2 ((res.getD e.2 ∅).insert e.1)) ∅

/-- `VertexMapOperations::majority_set`, `/repo/src/graph.rs:134-145`.  `σ` is the iteration order of the temporary map
`inverted`; `sorted_by_key` (a stable sort) is `List.insertionSort` on the key `usize::MAX - len`; 64-bit `usize`. -/
def majoritySet (σ : Shuffle (τ × HSet Vertex)) (m : HMap Vertex τ) : Res (Option (HSet Vertex × τ)) :=
  if m.len = 0 then .ok none
  else do
    let triples := (σ.run (invert m).entries).map (fun e => (e.2.len, e.1, e.2))
    let keyed ← triples.mapM (fun t => do
      let k ← usub (2 ^ 64 - 1) t.1
      return (k, t))
    let first ← unwrap (keyed.insertionSort (fun a b => a.1 ≤ b.1)).head?
    return some (first.2.2.2, first.2.2.1)

end VertexMap

/-- `Itertools::unique`: the elements that did not occur before. -/
def unique {α : Type} [DecidableEq α] (l : List α) : List α :=
  l.foldl (fun seen a => if a ∈ seen then seen else seen ++ [a]) []

namespace VertexColouring

/-- `VertexColouring::from_iter`, `/repo/src/graph.rs:161-164`; `as_map` (`:166-168`) and `From<VertexMap>` (`:235-239`) are
the identity on the map. -/
def fromIter {τ : Type} (l : List (Vertex × τ)) : HMap Vertex τ := HMap.ofList l

/-- `VertexColouring::insert`, `/repo/src/graph.rs:170-172`: the new map and the returned previous colour. -/
def insert {τ : Type} (self : HMap Vertex τ) (v : Vertex) (c : τ) : HMap Vertex τ × Option τ :=
  (self.insert v c, self.get? v)

/-- `VertexColouring::iter`, `/repo/src/graph.rs:174-176`. -/
def iter {τ : Type} (self : HMap Vertex τ) : List (Vertex × τ) := self.entries

/-- `VertexColouring::len`, `/repo/src/graph.rs:178-180`. -/
def len {τ : Type} (self : HMap Vertex τ) : Nat := self.len

/-- `VertexColouring::vertices`, `/repo/src/graph.rs:182-184`. -/
def vertices {τ : Type} (self : HMap Vertex τ) : List Vertex := self.keys

/-- `VertexColouring::colours`, `/repo/src/graph.rs:186-188`. -/
def colours {τ : Type} [DecidableEq τ] (self : HMap Vertex τ) : List τ := unique self.values

/-- `VertexColouring::get`, `/repo/src/graph.rs:205-207`. -/
def get {τ : Type} (self : HMap Vertex τ) (u : Vertex) : Option τ := self.get? u

/-- `VertexColouring::contains`, `/repo/src/graph.rs:209-211`. -/
def contains {τ : Type} (self : HMap Vertex τ) (u : Vertex) : Bool := self.contains u

/-- `Index<&Vertex>`, `/repo/src/graph.rs:226-232` (panics on a missing vertex). -/
def index {τ : Type} (self : HMap Vertex τ) (u : Vertex) : Res τ := unwrap (self.get? u)

/-- Derived `PartialEq`, `/repo/src/graph.rs:155`. -/
def eq {τ : Type} [DecidableEq τ] (self other : HMap Vertex τ) : Bool := HMap.eqv (fun a b => decide (a = b)) self other

/-- The offset computed in `VertexColouring::disjoint_extend`, `/repo/src/graph.rs:191-198`, for colours of type
`u32` (`res.inc()` is a checked `+ 1`). -/
def offset (self : HMap Vertex Nat) : Res Nat :=
  let colours := HSet.ofList self.values
  match colours.toList.max? with
  | none => .ok 0
  | some m => add32 m 1

/-- `VertexColouring::disjoint_extend`, `/repo/src/graph.rs:190-203`, for colours of type `u32`; the argument of
`or_insert` is evaluated (and overflow-checked) also for vertices that are already coloured. -/
def disjointExtend (self other : HMap Vertex Nat) : Res (HMap Vertex Nat) := do
  let off ← offset self
  other.entries.foldlM (fun m e => do
    let c ← add32 e.2 off
    return if m.contains e.1 then m else m.insert e.1 c) self

/-- `VertexColouring::subset`, `/repo/src/graph.rs:213-223`. -/
def subset {τ : Type} (self : HMap Vertex τ) (vertices : List Vertex) : HMap Vertex τ :=
  vertices.foldl (fun res v =>
    match self.get? v with
    | some col => res.insert v col
    | none => res) ∅

/-- `IntegerColouring::from_sets`, `/repo/src/graph.rs:261-272` (`i as u32` truncates). -/
def fromSets (sets : List (HSet Vertex)) : HMap Vertex Nat :=
  sets.zipIdx.foldl (fun col p => p.1.toList.foldl (fun col v => col.insert v (p.2 % 2 ^ 32)) col) ∅

end VertexColouring
end Verif
