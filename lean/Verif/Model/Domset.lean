import Verif.Model.LinearAlg2
/-!
# Model of dominating sets and scattered colourings on linear graphs

`/repo/src/algorithms/lineargraph.rs:247-546`.  Hash tables iterated over are permuted by oracles: `σ`, `τ` inside
`wreach_sets`, `ρ v` for the entries of `wreach[v]`, and those of `WitnessOrder`.
-/
namespace Verif
namespace LinGraph

/-- The sorting key, negated: `left_degree(u)*n + degree(u)`, `/repo/src/algorithms/lineargraph.rs:274`; the key
`-left*n - degree` must fit into an `i64`. -/
def domKey (L : LinGraph) (u : Vertex) : Res Nat := do
  let l ← L.leftDegree u
  let d ← L.degree u
  let k := l * L.numVertices + d
  if k ≤ 2 ^ 63 then return k else .error .overflow

/-- `order`, `/repo/src/algorithms/lineargraph.rs:272-275` and `:390-393`: stable sort by increasing negated key.  Keys are
computed once per vertex; the code computes them at every comparison. -/
def domOrder (L : LinGraph) : Res (List Vertex) := do
  let keyed ← L.vertices.mapM (fun u => do
    let k ← L.domKey u
    return (k, u))
  return (keyed.insertionSort (fun a b => b.1 ≤ a.1)).map Prod.snd

/-- The variables of the domination loop. -/
structure DomState where
  domset : HSet Vertex
  scattered : HSet Vertex
  dist : HMap Vertex Nat
  counter : HMap Vertex Nat

/-- Initialisation, `/repo/src/algorithms/lineargraph.rs:280-290` and `:401-411`. -/
def domInit (target : HSet Vertex) (radius undominated : Nat) (order : List Vertex) : DomState :=
  ⟨∅, ∅, order.foldl (fun m v => m.insert v (if target.contains v then undominated else radius)) ∅,
    order.foldl (fun m v => m.insert v 0) ∅⟩

/-- `*dom_distance.get_mut(&v).unwrap() = u32::min(dom_distance[&v], dist+dom_distance[u])`,
`/repo/src/algorithms/lineargraph.rs:295`. -/
def domPull (v : Vertex) (dist : HMap Vertex Nat) (e : Vertex × Nat) : Res (HMap Vertex Nat) := do
  let dv ← unwrap (dist.get? v)
  let du ← unwrap (dist.get? e.1)
  let s ← add32 e.2 du
  return dist.insert v (min dv s)

/-- `*dom_distance.get_mut(u).unwrap() = u32::min(dom_distance[u], *dist)`,
`/repo/src/algorithms/lineargraph.rs:312`, `:321`. -/
def domRelax (dist : HMap Vertex Nat) (e : Vertex × Nat) : Res (HMap Vertex Nat) := do
  let du ← unwrap (dist.get? e.1)
  return dist.insert e.1 (min du e.2)

/-- Loop over the in-neighbours of a new dominating vertex, `/repo/src/algorithms/lineargraph.rs:310-324`. -/
def domPush (cutoff : Nat) (wreach : HMap Vertex (HMap Vertex Nat)) (ρ : Vertex → Shuffle (Vertex × Nat)) (st : DomState)
    (e : Vertex × Nat) : Res DomState := do
  let c ← unwrap (st.counter.get? e.1)
  let c ← add32 c 1
  let counter := st.counter.insert e.1 c
  let dist ← domRelax st.dist e
  if cutoff < c && !st.domset.contains e.1 then
    let W ← unwrap (wreach.get? e.1)
    let dist ← ((ρ e.1).run W.entries).foldlM domRelax (dist.insert e.1 0)
    return ⟨st.domset.insert e.1, st.scattered, dist, counter⟩
  else return ⟨st.domset, st.scattered, dist, counter⟩

/-- One round of the domination loop, `/repo/src/algorithms/lineargraph.rs:292-325` and `:413-446`. -/
def domRound (target : HSet Vertex) (radius cutoff : Nat) (wreach : HMap Vertex (HMap Vertex Nat))
    (ρ : Vertex → Shuffle (Vertex × Nat)) (st : DomState) (v : Vertex) : Res DomState := do
  let W ← unwrap (wreach.get? v)
  let dist ← ((ρ v).run W.entries).foldlM (domPull v) st.dist
  let dv ← unwrap (dist.get? v)
  if dv ≤ radius then return { st with dist := dist }
  else
    assertR (target.contains v)
    ((ρ v).run W.entries).foldlM (domPush cutoff wreach ρ)
      ⟨st.domset.insert v, st.scattered.insert v, dist.insert v 0, st.counter⟩

/-- The domination loop, `/repo/src/algorithms/lineargraph.rs:280-325` and `:396-446`. -/
def domPhase (target : HSet Vertex) (radius undominated cutoff : Nat) (wreach : HMap Vertex (HMap Vertex Nat))
    (ρ : Vertex → Shuffle (Vertex × Nat)) (order : List Vertex) : Res DomState :=
  order.foldlM (domRound target radius cutoff wreach ρ) (domInit target radius undominated order)

/-- Iteration orders used while building and ordering the auxiliary graph: of `scattered`, of `out_neigbhours`, of its
entries, of all tables of the graph `H` (rearranged by `lay`), of the tables of `degeneracy`. -/
structure WitnessOrder where
  scat : Shuffle Vertex
  outer : Shuffle (Vertex × HMap Vertex Nat)
  inner : Vertex → Shuffle (Vertex × Nat)
  lay : EditGraph → EditGraph
  degen : Nat → Shuffle Vertex

/-- `out_neigbhours`, `/repo/src/algorithms/lineargraph.rs:336-341` and `:449-454`. -/
def outNeighbours (wreach : HMap Vertex (HMap Vertex Nat)) (ρ : Vertex → Shuffle (Vertex × Nat)) (scattered : List Vertex) :
    Res (HMap Vertex (HMap Vertex Nat)) :=
  scattered.foldlM (fun (res : HMap Vertex (HMap Vertex Nat)) x => do
    let W ← unwrap (wreach.get? x)
    return ((ρ x).run W.entries).foldl (fun (res : HMap Vertex (HMap Vertex Nat)) e =>
      res.insert e.1 ((res.getD e.1 ∅).insert x e.2)) res) ∅

/-- `if dx + dy <= 2*radius { H.add_edge(x, y); }`, `/repo/src/algorithms/lineargraph.rs:346-352`; `limit` is
`2*radius`. -/
def auxPair (limit : Nat) (H : EditGraph) (p : (Vertex × Nat) × (Vertex × Nat)) : Res EditGraph := do
  let s ← add32 p.1.2 p.2.2
  if s ≤ limit then return (← H.addEdge p.1.1 p.2.1).1 else return H

/-- The loop over the entries of `O` for a scattered `w`.  With `strict` the distance is asserted to be at most
`2*radius`, `/repo/src/algorithms/lineargraph.rs:358-361`, otherwise larger distances are skipped, `:471-476`. -/
def auxEdge (strict : Bool) (limit : Nat) (w : Vertex) (H : EditGraph) (e : Vertex × Nat) : Res EditGraph := do
  if strict then assertR (e.2 ≤ limit)
  if e.2 ≤ limit then return (← H.addEdge w e.1).1 else return H

/-- One entry `(w, O)`, `/repo/src/algorithms/lineargraph.rs:345-362` and `:458-477`. -/
def auxVertex (strict : Bool) (limit : Nat) (ω : WitnessOrder) (scattered : HSet Vertex) (H : EditGraph)
    (q : Vertex × HMap Vertex Nat) : Res EditGraph := do
  let O := (ω.inner q.1).run q.2.entries
  let H ← (pairs O).foldlM (auxPair limit) H
  if scattered.contains q.1 then O.foldlM (auxEdge strict limit q.1) H else return H

/-- Colouring of the auxiliary graph on `scattered`, `/repo/src/algorithms/lineargraph.rs:335-368` and `:448-483`. -/
def auxColouring (strict : Bool) (limit : Nat) (ω : WitnessOrder) (wreach : HMap Vertex (HMap Vertex Nat))
    (ρ : Vertex → Shuffle (Vertex × Nat)) (scattered : HSet Vertex) : Res (HMap Vertex Nat) := do
  let out ← outNeighbours wreach ρ (ω.scat.run scattered.toList)
  let H := (EditGraph.new.addVertices (ω.scat.run scattered.toList)).1
  let H ← (ω.outer.run out.entries).foldlM (auxVertex strict limit ω scattered) H
  assertR (H.numVertices == scattered.len)
  let OH ← OrdGraph.byDegeneracy ω.degen (ω.lay H).view
  OH.lin.colourGreedy

/-- Iteration orders used by `domset_with_target`. -/
structure DomOrder where
  bfs : Vertex → Nat → Shuffle Vertex
  layers : Vertex → Nat → Shuffle Vertex
  wreach : Vertex → Shuffle (Vertex × Nat)
  wreach2 : Vertex → Shuffle (Vertex × Nat)
  witness : WitnessOrder

/-- `domset_with_target`, `/repo/src/algorithms/lineargraph.rs:251-371`; the iterator `target` is a list. -/
def domsetWithTarget (ω : DomOrder) (L : LinGraph) (radius : Nat) (witness : Bool) (target : List Vertex) :
    Res (HSet Vertex × HMap Vertex Nat × Option (HMap Vertex Nat)) := do
  let target := HSet.ofList target
  if L.isEmpty || target.len == 0 then return (∅, ∅, if witness then some ∅ else none)
  else
    let diam ← mul32 2 radius
    let cutoff ← mul32 diam diam
    let order ← L.domOrder
    let undominated ← add32 radius 1
    let wreach ← L.wreachSets ω.bfs ω.layers radius
    let st ← domPhase target radius undominated cutoff wreach ω.wreach order
    if !witness then return (st.domset, st.dist, none)
    else
      let limit ← mul32 2 radius
      let wreach ← L.wreachSets ω.bfs ω.layers limit
      let colours ← auxColouring true limit ω.witness wreach ω.wreach2 st.scattered
      return (st.domset, st.dist, some colours)

/-- `domset`, `/repo/src/algorithms/lineargraph.rs:247-249`. -/
def domset (ω : DomOrder) (L : LinGraph) (radius : Nat) (witness : Bool) :
    Res (HSet Vertex × HMap Vertex Nat × Option (HMap Vertex Nat)) :=
  L.domsetWithTarget ω radius witness L.vertices

/-- `while !target.is_empty()`, `/repo/src/algorithms/lineargraph.rs:395-490`, at most `fuel` rounds; `ω k` are the
iteration orders of the round with `k` rounds to go. -/
def scatterLoop (ω : Nat → WitnessOrder) (ρ : Vertex → Shuffle (Vertex × Nat)) (radius undominated cutoff limit : Nat)
    (wreach : HMap Vertex (HMap Vertex Nat)) (order : List Vertex) :
    Nat → HSet Vertex → HMap Vertex Nat → Res (HMap Vertex Nat)
  | fuel, target, colouring =>
    if target.len == 0 then .ok colouring
    else match fuel with
      | 0 => .error .fuel
      | fuel + 1 => do
        let st ← domPhase target radius undominated cutoff wreach ρ order
        let colours ← auxColouring false limit (ω fuel) wreach ρ st.scattered
        let colouring ← VertexColouring.disjointExtend colouring colours
        assertR (colours.len == st.scattered.len)
        scatterLoop ω ρ radius undominated cutoff limit wreach order fuel
          (target.retain (fun u => !colouring.contains u)) colouring

/-- Loop over `classes_right`, `/repo/src/algorithms/lineargraph.rs:515-533`: returns `set1`, `classes_right` and
`improved_current_set`. -/
def mergeInto (σ : Shuffle Vertex) (wreach : HMap Vertex (HMap Vertex Nat)) (distance limit : Nat) :
    HSet Vertex → List (HSet Vertex) → Res (HSet Vertex × List (HSet Vertex) × Bool)
  | set1, [] => .ok (set1, [], false)
  | set1, set2 :: rest =>
    if set2.len == 0 then do
      let (set1, rest, b) ← mergeInto σ wreach distance limit set1 rest
      return (set1, set2 :: rest, b)
    else do
      let dist ← smallDistanceSets σ wreach distance set1.toList set2.toList
      if dist.any (· < limit) then do
        let (set1, rest, b) ← mergeInto σ wreach distance limit set1 rest
        return (set1, set2 :: rest, b)
      else do
        let (set1, rest, _) ← mergeInto σ wreach distance limit (set1.extend set2.toList) rest
        return (set1, ∅ :: rest, true)

/-- Loop over `i`, `/repo/src/algorithms/lineargraph.rs:506-539`, on the classes from `i` on (`n` of them): returns the
remaining classes, the sets pushed to `unimprovable` and `improved`. -/
def improveRound (σ : Shuffle Vertex) (wreach : HMap Vertex (HMap Vertex Nat)) (distance limit : Nat) :
    Nat → List (HSet Vertex) → Res (List (HSet Vertex) × List (HSet Vertex) × Bool)
  | n + 1, set1 :: rest =>
    if set1.len == 0 then do
      let (cl, un, b) ← improveRound σ wreach distance limit n rest
      return (set1 :: cl, un, b)
    else do
      let (set1, rest, cur) ← mergeInto σ wreach distance limit set1 rest
      let (cl, un, b) ← improveRound σ wreach distance limit n rest
      if cur then return (set1 :: cl, un, true) else return (∅ :: cl, set1 :: un, b)
  | _, cl => .ok (cl, [], false)

/-- `classes.retain(|S| !S.is_empty())`, `/repo/src/algorithms/lineargraph.rs:501`, `:542`. -/
def nonempties (classes : List (HSet Vertex)) : List (HSet Vertex) := classes.filter (fun S => S.len != 0)

/-- `while improved`, `/repo/src/algorithms/lineargraph.rs:498-545`, at most `fuel` rounds. -/
def improveLoop (σ : Shuffle Vertex) (wreach : HMap Vertex (HMap Vertex Nat)) (distance limit : Nat) :
    Nat → List (HSet Vertex) → List (HSet Vertex) → Res (List (HSet Vertex))
  | 0, _, _ => .error .fuel
  | fuel + 1, classes, unimprovable => do
    let classes := (nonempties classes).insertionSort (fun a b => a.len ≤ b.len)
    let (classes, un, improved) ← improveRound σ wreach distance limit classes.length classes
    if improved then improveLoop σ wreach distance limit fuel classes (unimprovable ++ un)
    else return unimprovable ++ un ++ nonempties classes

/-- Iteration orders used by `scattered_colouring`. -/
structure ScatterOrder where
  bfs : Vertex → Nat → Shuffle Vertex
  layers : Vertex → Nat → Shuffle Vertex
  wreach : Vertex → Shuffle (Vertex × Nat)
  witness : Nat → WitnessOrder
  classes : Shuffle (HSet Vertex)
  sets : Shuffle Vertex

/-- `scattered_colouring`, `/repo/src/algorithms/lineargraph.rs:373-546`; both `while` loops run for at most `fuel`
rounds. -/
def scatteredColouring (ω : ScatterOrder) (L : LinGraph) (fuel distance : Nat) (target : List Vertex) :
    Res (List (HSet Vertex)) := do
  let target := HSet.ofList target
  if L.isEmpty || target.len == 0 then return []
  else
    let radius := distance / 2
    let wreach ← L.wreachSets ω.bfs ω.layers distance
    let undominated ← add32 radius 1
    let cutoff ← mul32 distance distance
    let order ← L.domOrder
    let limit ← mul32 2 radius
    let colouring ← scatterLoop ω.witness ω.wreach radius undominated cutoff limit wreach order fuel target ∅
    improveLoop ω.sets wreach distance limit fuel (ω.classes.run (VertexMap.invert colouring).values) []

end LinGraph
end Verif
