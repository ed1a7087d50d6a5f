# Design: formal verification of graphbench in Lean 4

All Lean sources are under `lean/Verif`. Layout:

* `Verif/Model/*`  — executable model of the Rust code, one definition per function, each citing file and lines.
* `Verif/Spec/*`   — specification vocabulary, independent of the model (finite graphs, walks, distances, reachability).
* `Verif/Lemmas/*` — helper lemmas and refinement proofs.
* `Verif/Props/*`  — the property theorems (named `Cxx_...`), with an `example` beside each showing a non-trivial instance. `Lemmas/Cases.lean` holds the small graphs used by many of them (a triangle with a pendant vertex; a path with a loop and an isolated vertex).

## Modelling decisions

* **Faults.** Code that can panic / overflow / read out of bounds / diverge runs in `Res α = Except Fault α`. Theorems say `= .ok ..`, hence absence of the modelled faults.
* **Hash containers.** `FxHashMap`/`FxHashSet` are association lists / lists with a bundled no-duplicate-keys invariant. A hash table's iteration order is arbitrary: states are quantified over all layouts that represent an abstract value, editing histories contain explicit re-layout steps, and where code iterates over a temporary table an explicit `Shuffle` oracle permutes it. So no theorem depends on a particular hash order. The hash function and table are trusted.
* **Vertices** are `Nat`. Where the code computes new ids (generators, shifts, fresh ids) the addition is a checked 32-bit addition (`Fault.overflow`), i.e. debug-profile semantics. Counters (`u32` degrees, `usize` counts) are `Nat`; their overflow is not modelled: a graph would need 2^32 neighbours of one vertex.
* **Trait `Graph`** is a record of functions. Generic algorithms are proved for every record representing a graph, so for every implementation and every iteration order.
* **Iterators** are state machines and `collect` drains them.
* **Loops** with no structural bound take fuel, and the theorem shows the stated fuel suffices.

## Trusted base

* The Lean kernel, and the axioms `propext`, `Classical.choice`, `Quot.sound` (printed per theorem with `#print axioms`; no others are used).
* The hand-translation from Rust to the model.
* Trusted, not modelled: `fxhash` tables, `std` collections and sorting (`sort` is modelled by insertion sort), crate `union-find` (modelled abstractly as a partition), `itertools::max_set/counts`, gzip (a parameter `Codec` with `gunzip (gzip b) = b` and an error on input without the magic byte), the file system (a partial function from names to contents; writing never fails), UTF-8 (Lean core's `String.utf8EncodeChar` and decoder), performance.

## Coverage of the source

Every function with a body is modelled unless listed as left out; test modules are not modelled.

| Source | Model | Left out |
|---|---|---|
| `algorithms/graph.rs` | `Algorithms` | — |
| `algorithms/lineargraph.rs` | `LinearAlg`, `LinearAlg2`, `Domset` | — |
| `compare.rs`, `operations.rs` | `Operations` | — |
| `datastructures/sreach_trace_oracle.rs` | `TraceOracle` | — |
| `degengraph.rs` | `DegenGraph` | — |
| `dtfgraph.rs` | `DTFGraph`, `DTFView`, `NeighIters` | — |
| `editdigraph.rs` | `EditDigraph` | — |
| `editgraph.rs` | `EditGraph`, `History` | capacity hints (`with_capacity` is `new`) |
| `graph.rs` | `Graph`, `Linear`, `Maps`, `EditGraph`, `EditDigraph` | `Debug`/`Display` formatting |
| `io.rs` | `IO`, `Files`, `IOErrors` | texts of operating-system errors; `Debug` formatting of a file name is a parameter |
| `iterators.rs` | `Graph`, `Linear`, `NeighIters`, `DTFGraph`, `EditDigraph` | — |
| `ordgraph.rs` | `OrdGraph`, `ReachGraph` | — |
| `reachgraph.rs` | `ReachGraph` | — |

## Which theorems determine each function

For every group of public functions, the claims that fix the returned value in terms of the abstract graph (and of the hash orders,
where the value depends on them). "Relational" means that the theorem describes the set of possible values.

| Functions | Claims | Remarks |
|---|---|---|
| `EditGraph`: `new`, `add_*`, `remove_*`, `num_*`, `contains`, `adjacent`, `degree`, `vertices`, `neighbours`, `eq`, `clone`, `from_iter` | C01, C03, C06, C07, C08, C09, C10 | after any history of calls |
| `EditGraph` generators | C11, C114 | all parameters, including the degenerate and the overflowing ones |
| `disj_union(s)`, `normalize`, `contract`, `contract_pair`, `contract_into` | C12–C15, C113, C114 | all arguments, including non-vertices |
| `EditDigraph`, its generators, unions, `normalize` | C31–C36, C81, C114 | |
| default methods of `Graph`, `Digraph`, `LinearGraph` | C16–C18, C61, C72, C79, C113, C126 | every implementation; lists with non-vertices |
| `edges`, `vertices_and_edges`, `arcs`, `neighbourhoods`, … | C04, C05, C32, C80, C83 | each element once, order of the tables |
| `VertexOrEdge`, `VertexMap`, `VertexColouring` | C28–C30, C90 | |
| `invert`, `merge`, `intersect`, `compare_subgraph` | C19, C20, C24 | |
| `subdivide`, products | C21–C23, C115 | names of new vertices relational; overflow exactly |
| `components` | C37 | as a set of sets |
| `degeneracy` | C38–C40, C110 | orders: exactly the `Peeled` ones; both bounds exact; with loops: all outcomes |
| `is_bipartite` | C41 (`C41_outcomes`), C42 (`C42_outcomes_partial`) | bipartitions and odd closed walks exactly, over all hash orders |
| `OrdGraph`, `DegenGraph`, their iterators and conversions | C43–C48, C89, C91, C111, C112 | `swap` exactly, including its defect |
| `ReachGraph`, builder, iterators | C49, C50, C89, C92, C94, C118, C119 | |
| `right_bfs`, `sreach_*`, `wreach_*` | C51–C53, C127, C128 | |
| `count_max_cliques`, `colour_greedy` | C54, C55, C125 | exact recursions |
| `domset`, `domset_with_target` | C56–C58, C103, C107 | set and distances determined, witness relational (equivalence) |
| `scattered_colouring` | C59, C109, C117 | all outcomes, exactly (`C109_outcomes`, `C109_panic`); non-termination for other targets |
| `small_distance`, `small_distance_sets` | C60 | |
| `SReachTraceOracle` | C62–C64, C116 | `get_sets` (private) only through these |
| `DTFGraph`: `orient`, `orient_deep`, `augment` | C65, C66, C74, C75, C105, C106 | all outcomes, exactly (`C105_*_outcomes`) |
| `DTFGraph`: queries, counters, iterators, `layer`, `edge_subgraph`, `to_undirected` | C69–C71, C73, C76–C78, C80 | |
| `DTFGraph::small_distance`, `domset` | C67, C68, C96, C104 | |
| `io` | C25–C27, C84–C87, C129 | every byte stream |

## Defects found

Every row is a theorem about the model: a natural reading of the function is refuted by a concrete witness.

| Function | Defect | Theorems |
|---|---|---|
| `vertices_and_edges` | never yields loops (`v < u`) | `C05_loops_missing` |
| `EditGraph::biclique`, `star`, `complete_kpartite`, `grid` | lose vertices, or return a clique, for degenerate sizes | `C11_*_refuted` |
| `EditDigraph` generators | same; `path(0)` underflows | `C36_*_refuted`, `C36_path_zero` |
| `contract_pair(u, u)` | deletes `u` | `C14_refuted` |
| `contract_into`, `contract` | a centre that is not a vertex is created only if it gets an edge; `contract` then returns a vertex that is not in the graph | `C113_contract_into`, `C113_contract_reports_missing` |
| `neighbourhood` and related queries | on non-vertices `OrdGraph` answers where the other types panic; its `subgraph` creates vertices | `C113_ord_graph`, `C113_panics` |
| `is_shattered`, `compute_traces` | undefined behaviour (`unwrap_unchecked` on `None`) for a list with a repeated vertex | `C116_refuted` |
| `scattered_colouring` | never terminates if the target contains a vertex outside the graph | `C117_scattered_never_returns` |
| `Reachables ==` | equal vertex sets compare as different if their records start at different offsets | `C118_equal_refuted` |
| `Reachables::get_boundaries` | off by one: gives the bounds of the next depth and panics for the last | `C118_bounds_refuted` |
| `ReachGraph::neighbours` | unimplemented, so most algorithms panic on every non-empty `ReachGraph` | `C119_panics` |
| `subdivide(1)` | a loop becomes a pendant edge | `C21_refuted`, exactly: `C115_subdivide_once` |
| products | omit isolated product vertices | `C22_refuted`, `C23_refuted` |
| `EditDigraph::adjacent` | tests one direction (twice) | `C33_refuted` |
| `EditDigraph::disj_union(s)`, `normalize` | reverse downward arcs | `C34_*_refuted`, `C81_refuted` |
| `edges()` of a digraph | yields pairs joined both ways, and loops, twice | `C83_refuted` |
| `degeneracy` | upper bound below the degeneracy (K_132) | `C40_refuted` |
| `degeneracy` on graphs with loops | lists a looped vertex twice and misses another; can overflow; `orient` and `by_degeneracy` then panic, `DegenGraph::from_graph` loses a vertex | `C110_refuted`, `C110_refuted_overflow`, `C110_smallest_loop`, `C110_refuted_from_graph` |
| `is_bipartite` | witness need not be a cycle: after the cycle it may walk to the root of the search tree and back; a branch that should cut this off is dead code | `C42_refuted`, `C42_shape_partial` |
| `OrdGraph::swap` | wrong sides for adjacent vertices | `C44_refuted` |
| `DegenGraph::normalize` | out-of-bounds read on the empty graph | `C46_refuted` |
| `DegenGraph`/`ReachGraph::index_of` | offset of a record instead of the position | `C89_refuted`, `C89_refuted_reachgraph` |
| `count_max_cliques` | overcounts or undercounts, depending on the ordering | `C54_refuted`, `C125_too_few` |
| `colour_greedy` | leaves vertices uncoloured; panics | `C55_refuted`, `C55_panics`, `C88_refuted` |
| `domset_with_target` | distances too large; panics when asked for a witness | `C57_refuted`, `C108_refuted` |
| `scattered_colouring` | classes too close for odd distances; panics | `C59_refuted`, `C59_panics` |
| `DTFGraph::small_distance` | `None` for pairs within the depth; wrong on the diagonal | `C67_refuted`, `C67_refuted_diagonal` |
| `DTFGraph::domset` | `(2r)^2` overflows for `r >= 2^15` | `C68_overflow` |
| `DTFGraph::reserve_depth`, `layer`, `add_arc` | depth can decrease; counters hidden; panics | `C69_refuted*` |
| `DTFGraph::arcs`, `arcs_at` | skip upward arcs, reverse the others | `C70_refuted` |
| `DTFLayer` queries | answer for the whole graph | `C71_refuted`, `C71_refuted_degree` |
| `orient_deep` | loses edges for depth at least 2 | `C74_refuted` |
| `to_undirected` | loses arcs | `C77_refuted` |
| `augment` | in-degrees grow by out-degrees | `C106_refuted` |
| readers | panic on invalid UTF-8 and on read errors | `C85_panics`, `C85_gzip_panics` |

## How to read `seeded/LOG.jsonl`

* `failed_directly` lists the declarations whose proofs broke after the edit.
* `theorems_failed` lists the manifest theorems that depend on one of these. Their proofs no longer go through. This alone
  does not show that their statements are false of the edited program: the broken proof is often that of a helper lemma
  about an intermediate state, and in most entries no manifest theorem broke directly. An edit that leaves the observable
  behaviour unchanged can therefore look like a detected bug.
* Up to the swap batch the log is selective: attempts were added automatically only if all theorems expected to fail did.
  Survivors, edits that did not elaborate and edits that stopped the build before the expected theorem were added by hand or
  not at all. The log can thus not be used as a detection rate. From then on every edit that elaborates is logged, with a
  field `outcome`.
* The swap edits (`OrdGraph.splitAt`, `fixNeighbour`, `swap`; claim "answers after any sequence of swaps") were also
  evaluated against the original model on 3264 runs of one or two swaps. Five change answers; one does not and is logged
  with an empty `theorems_failed`. Earlier entries were not checked in this way.

## Properties and plan

* **C01 EditGraph behaves like a vertex set plus an edge set.** State = model EditGraph (assoc-list hash maps, stored degrees, stored m). Refinement invariant `Abs g S` to spec graph `S` (Finset of vertices, Finset of `Sym2` edges). One lemma per operation; induction over the list of calls, with a 're-layout' step that may permute every hash table between any two calls.
* **C02 Edges are symmetric and their endpoints are vertices.** Corollaries of the refinement invariant, quantified over reachable states.
* **C03 Degree and handshake.** Degree field equals spec degree by refinement; handshake proved on the spec graph by double counting.
* **C04 edges() enumerates each edge exactly once, smaller endpoint first.** Model EdgeIterator as a state machine over the `Graph` record; drain it; show the drained list is a Nodup list whose Sym2 image is E.
* **C05 vertices_and_edges() enumerates every vertex and every edge exactly once.** Model MixedIterator likewise. Expected false for loops (`v < u` instead of `v <= u`): refute with a one-loop graph, prove the loopless case.
* **C06 Equality of EditGraphs is extensional.** From the invariant: entries are determined by S; `eq` unfolds to degree/adjacency comparison.
* **C07 clone() yields an equal graph.** clone re-inserts edges() then vertices; refinement of the fold.
* **C08 Building from edges is order- and duplicate-insensitive.** Fold of add_edge refined to Finset insertion.
* **C09 Edits are undone by the inverse edit.** Spec-level identities lifted through refinement and C06.
* **C10 remove_loops and remove_isolates.** Model both default methods; counts by card lemmas.
* **C11 Named generators produce the advertised graphs.** Folds of add_edge refined to explicit spec graphs. False for some degenerate parameters: refuted by `decide`; partial theorem under the side conditions.
* **C12 disj_union is a disjoint union.** Fold refinement with checked u32 addition for the shift.
* **C13 normalize relabels to 0..n-1 preserving order and edges.** Sort-by-id model (insertion sort), zip with 0..n-1; monotone bijection lemma.
* **C14 contract_pair identifies v with u.** Refinement; u=v deletes the vertex (negation by witness), u!=v exact.
* **C15 contract_into / contract identify a vertex set.** Refinement of the folds, Shuffle oracle for the temporary VertexSet.
* **C16 neighbourhood and closed_neighbourhood.** Generic over the Graph record.
* **C17 r_neighbourhood is the ball of radius r.** Induction on r against an inductive walk predicate.
* **C18 subgraph returns the induced subgraph.** Generic over the Graph record, refinement of the build fold.
* **C19 invert is complementation.** Refinement of the double loop.
* **C20 merge is union, intersect is intersection.** Refinement.
* **C21 subdivide replaces each edge by a path.** Fold invariant with the fresh-id counter.
* **C22 cartesian_product.** Fold invariant; isolated product vertices are missing from the graph: refuted; adjacency and map proved.
* **C23 lexicographic_product.** As C22.
* **C24 compare_subgraph decides the subgraph relation.** Model the exact boolean tests; case analysis.
* **C25 Writing and reading back an edge list.** Characters/lines modelled as List Char; decimal rendering of Nat and u32 parser modelled; round trip by induction.
* **C26 Writing and reading back vertex lists and sets.** As C25.
* **C27 The edge-list parser accepts exactly well-formed input.** As C25, characterisation of the parser.
* **C28 VertexOrEdge intersection is set intersection.** Case analysis.
* **C29 VertexMap invert and majority_set.** Fold invariants over HMap.
* **C30 VertexColouring disjoint_extend, subset, from_sets.** Fold invariants over HMap.
* **C31 EditDigraph behaves like a vertex set plus an arc set.** Refinement to (Finset V, Finset (V x V)).
* **C32 Digraph degrees and arcs().** Refinement + double counting; ArcIterator state machine.
* **C33 The undirected view of a digraph.** False (`has_arc(u,v)||has_arc(u,v)`): refuted by a single arc; neighbours as a set proved.
* **C34 Digraph disj_union and normalize preserve arcs.** False (uses edges()): refuted by a single downward arc; proved when all arcs go upward.
* **C35 Digraph equality and clone.** Refinement.
* **C36 Digraph generators.** Fold refinement; degenerate parameters refuted.
* **C37 components returns the connected components.** Union-find crate modelled abstractly (partition as a representative function); loop invariant: classes = connectivity by processed edges.
* **C38 degeneracy returns an ordering of all vertices with bounded left-degree.** Model bucket structure; loop invariant (position of every unremoved vertex = bucket index of its remaining degree). The set of orders that can be returned over all hash iteration orders is characterised exactly (`C38_orders`).
* **C39 degeneracy is exact on graphs of small maximum degree.** Stronger invariant when calc_index is the identity; core numbers from the classical min-degree-elimination argument.
* **C40 degeneracy bounds are bounds.** Lower bound proved; upper bound false for K_132 (proved symbolically, the graph has 132 vertices).
* **C41 is_bipartite decides bipartiteness.** Invariant of the BFS colouring; modelled with fuel bounded by the vertex count (termination proved). `C41_outcomes`: the bipartitions returned over all iteration orders are exactly those in which every vertex of the second side has a neighbour.
* **C42 The odd-cycle witness is an odd cycle.** Odd closed walk proved; distinctness false: refuted by a lollipop graph. `C42_shape_partial`: the witness is an odd cycle followed, if its first vertex is not the root, by a path walked forth and back; `C42_cut_partial`: so cutting it before the second occurrence of its first vertex gives an odd cycle. `C42_outcomes_partial`: over all layouts of the tables the returned walks are exactly the walks of this shape. The converse constructs a layout in which the next vertex of the path is always the last neighbour, so that the search runs straight down the path and meets the cycle's first vertex again.
* **C43 OrdGraph::with_ordering represents the graph with the given order.** Fold invariants over vectors.
* **C44 OrdGraph::swap exchanges two vertices in the order.** Case analysis of swap; false for adjacent u,v: refuted by a single edge; proved for non-adjacent. For arbitrary sequences of swaps the answers are characterised exactly: the only wrong ones concern adjacent vertices swapped with each other and not moved since (`Lemmas/OrdSwap`: an invariant with an arbitrary split of the neighbours).
* **C45 DegenGraph::with_ordering represents the graph with the given order.** Backing array |u|next|num|nbrs...| modelled as List Nat; layout invariant; unchecked reads are modelled by Fault.ub when out of range.
* **C46 DegenGraph::normalize relabels by position.** As C45; empty graph reads out of bounds: refuted; nonempty proved.
* **C47 DegenGraph iterators follow the order.** Layout invariant.
* **C48 OrdGraph::to_degeneracy_graph preserves the ordered graph.** C43 + C45.
* **C49 ReachGraph stores the reachable sets.** Layout invariant for the reach array.
* **C50 ReachGraph answers graph queries like the original graph.** As C49.
* **C51 right_bfs returns exact BFS layers to the right of the root.** Layer induction.
* **C52 sreach_set(s)/sreach_sizes compute strong reachability with exact distances.** From C51.
* **C53 wreach_sets/wreach_sizes compute weak reachability with exact distances.** From C51.
* **C54 count_max_cliques counts maximal cliques.** False: refuted on a 4-vertex graph; partial statement for the classes of graphs where it is right, and an exact description of the number returned for all graphs (`SGraph.numPicked` in `Spec/Clique.lean`: the number of sets the pivoting recursion picks and does not retract).
* **C55 colour_greedy is a proper colouring of all vertices.** False (can leave a vertex uncoloured, then panic): refuted; properness whenever it returns, totality for two kinds of orderings (left neighbourhoods cliques; left degrees never growing by more than one). `C55_colour_greedy_exact_partial` says exactly which vertices get which colour and when the call panics.
* **C56 domset / domset_with_target dominates the target.** Loop invariant over the order.
* **C57 domset distances.** Exactness false: refuted; soundness (finite value implies walk) proved.
* **C58 The domset witness is scattered.** Invariant: coloured vertices conflict graph. Colour classes bound every dominating set from below. The witness exists, and determines the returned set, unless the returned targets contain a crowd: a set in which every vertex has 130 others within distance `2*radius` (`C58_witness_few`: so always for at most 130 candidates). C107 says exactly which witnesses are possible.
* **C59 scattered_colouring classes are scattered and partition the target.** Odd distance false: refuted; even distance proved, unless the call panics. `C59_panics` shows that it can, even for distance 2 (subdivision of a graph with 268 vertices); it cannot without a crowd of 130 (see C58). `C59_few_classes_partial` bounds the number of classes: `c(c-1)` is at most the number of ordered pairs of targets closer than `2*(distance/2)`.
* **C60 wreach-based small distance is exact.** Hub argument: the leftmost vertex of a shortest path is weakly reachable from both ends.
* **C61 leftmost/rightmost and left/right degrees.** Generic over LinearGraph records.
* **C62 compute_traces counts neighbourhood traces exactly.** Group vertices by their rightmost neighbour in X, telescoping sums; unsafe lookups as Fault.ub, subtraction checked.
* **C63 compute_neighbour_count counts outside neighbours.** As C62.
* **C64 is_shattered decides shattering with multiplicity.** From C62, for all sizes for which the powers of two fit (`|X| < 64` and `k - |X| < 64`).
* **C65 DTFGraph::orient orients every edge exactly once.** Model of orient (bucketed degree elimination with arbitrary choice); invariant.
* **C66 Augmentation arcs are witnessed by walks.** Invariant of augment: stored weight = length of a walk.
* **C67 DTFGraph::small_distance is exact up to the depth.** Soundness proved; completeness false: refuted by a concrete run.
* **C68 DTFGraph::domset dominates.** Loop invariant.
* **C69 Augmentation depth never decreases and views are read-only.** False (layer(1) lowers the depth, depth jumps panic): refuted.
* **C70 DTFGraph arc iterators yield every arc.** False (arcs with tail < head are dropped): refuted.
* **C71 DTFLayer shows only the arcs of its depth.** False (delegates to the whole graph): refuted.
* **C72 Digraph trait helpers.** In-/out-neighbourhoods and degree maps of EditDigraph from the representation invariant.
* **C73 DTFGraph counters.** Invariant linking the per-layer counters to the set of weighted arcs.
* **C74 DTFGraph::orient_deep.** Composition of orient, augment, to_undirected; false for depth >= 2: refuted, rest proved.
* **C75 Augmentations are transitive up to the depth.** Invariant of the augmentation rounds.
* **C76 Arc weights reported by the queries.** From the invariant of C66.
* **C77 DTFGraph::to_undirected keeps all arcs.** False (uses the arc iterator of C70): refuted; exact result proved.
* **C78 DTFGraph::edge_subgraph.** Fold over the selected pairs.
* **C79 degrees, len, is_empty.** Fold over the vertex list; handshake lemma of the specification.
* **C80 Neighbourhood iterators.** State machines (Model/NeighIters.lean) shown to drain to the vertex list paired with the neighbour lists.
* **C81 EditDigraph::disj_unions.** Fold of C34; downward arcs are reversed: refuted; exact result proved.
* **C82 Graph methods on digraphs.** The lemmas of C16-C18, C37, C41 are proved for `Graph.Sees`, which allows repeated neighbours.
* **C83 edges() on digraphs.** Multiplicity of every pair computed; "once" refuted by an anti-parallel pair.
* **C84 Bytes.** Byte streams split at 0x0A and decoded with Lean core's UTF-8 decoder; byte 10 occurs only in the encoding of a newline; reduces to C26/C27.
* **C85 Malformed bytes.** Trichotomy on the first line that is not well formed; "always an error" refuted by the byte 0xFF.
* **C86 File round trips.** File store as a partial function; gzip codec as a parameter with two assumed facts.
* **C87 from_file.** `Path::extension` modelled for Unix; characterised by the last dot of the last component.
* **C88 by_degeneracy then colour_greedy.** Along an exact smallest-last order left degrees never grow by more than one, so `colour_greedy` always finds a colour. Buckets are exact up to degree 129; beyond, a graph with 268 vertices refutes the statement by a panic. `C88_outcomes_partial` and `C88_panics_partial` describe all outcomes over the hash orders by equivalences.
* **C89 index_of.** Offset formulas from the array layout; equal to the position only for OrdGraph, refuted for DegenGraph and ReachGraph by the path 0-1-2.
* **C90 VertexColouring as a finite map.** Lookup in a fold of inserts; `unique()` keeps first occurrences.
* **C91 DegenGraphBuilder.** Invariant over the list of records (no assumption on vertices or lists); graph view under `RecordsOf`.
* **C92 ReachGraphBuilder.** The builder invariant of C49 instantiated with arbitrary maps; counting argument for distances above r+1.
* **C93 approximation.** Loop invariant: members of the set have distance 0, so a vertex that sees one of them is never added, so no vertex is weakly reachable from more than (2r)²+1 scattered vertices; the leftmost vertex of a walk to a dominating vertex and double counting of the frequent in-neighbours give the factor.
* **C94 walking through a ReachGraph.** From the block layout invariant of C49: position and content of each block, by splitting the ordering at the vertex.
* **C95 strong and weak sets.** The statements speak about the returned maps only. Via C52/C53 they reduce to facts about walks: a walk to `v` right of `v` is cut where it first passes left of `u`, and returns to `u` are cut out.
* **C96 structure and size of the DTF dominating set.** Invariant over the loop with the (not stored) set `T` of vertices undominated in their turn: counters count arcs into `T`, in-neighbours of `T` carry a distance at most the weight. The size bound is conditional on `small_distance` being complete, because the code loses arcs (C67).
* **C97 subdivision.** `Lemmas/SubdivDist` describes the subdivided graph by positions on the edges; a walk between old vertices decomposes into whole edges, and walks inside an edge cannot do better than their length, so distances scale exactly. 2-colourings are transported along the positions; every set of vertices contains an inner vertex (degree 2) or has no edges.
* **C98 number of components.** `Spec/Components` defines the set of components; `Lemmas/CompCount` counts them under maps, unions and added edges; the theorems combine this with C12, C04, C21, C14 and C37.
* **C99 balls.** From C17 (balls are walks of bounded length), C16 and C37; connected vertices are joined by a path without repetition, which has at most `n - 1` steps.
* **C100 sums of traces.** Double counting: each vertex outside `X` has exactly one trace; a trace on `Y` extends in `2^(|X|-|Y|)` ways to `X`.
* **C101 products.** `Lemmas/Products`: degree sums through the bijection of C22/C23; walks interleave; colourings combine by exclusive or; degeneracy through projections and fibres (upper bound) and products of dense sets (lower bound).
* **C102 generators and analyses.** Explicit colourings, connections and dense subgraphs for each family, combined with C11, C37, C39 and C41. `star` and `complete_kpartite` are covered by C11 and C41 separately.
* **C103 the rule of domset_with_target.** `Spec/DomRule.lean` states one round of the greedy rule as minima over alternatives (`DomStep`), a run over a list (`DomRun`) and the processing order; it is deterministic. `Lemmas/DomRule.lean` shows that the loop computes these minima whatever the order in which in-neighbours are visited, and that the order is the stable sort.
* **C104 the rule of DTFGraph::domset.** Same rule with arcs of the augmentation; the tie-break is the position in `vertices()` of the graph after the call. The repeat theorem assumes that an unchanged table keeps its iteration order (`lay = id` in the second call).

* **C105 orient, orient_deep and augment, exactly.** `Spec/Augment.lean` describes the computation without the model: layered
  orientations (edges forward in a smallest-last order), bridged and meeting pairs, one round, rounds, and the orientation of
  depth `k`, which uses rounds with layered orientations.  `Lemmas/DTFAugment` characterises the pairs collected in a round and
  its result by equivalences (`RoundBy`), `Lemmas/DTFDeep` translates them into the specification; the earlier facts on
  `orient_deep` (C74) and on rounds (C66, C75) are now consequences.  Corollaries: one round (`C105_round`), and
  `C105_ascending`, which says that fraternal arcs always go from smaller to larger vertices.  For `orient` the description is an
  equivalence over hash orders (`C105_orient_outcomes`): every smallest-last order is reached.  Likewise for the other two (`C105_orient_deep_outcomes`, `C105_augment_outcomes`), where the specification is built from such
  orders (`DeepBy PeelOriented`): a round is a function of the orientation chosen for its fraternal graph (`augmentRound_run`), so
  orders for the rounds can be chosen one after the other (`rounds_attained`).
* **C106 in-degrees.** Refuted.  The arcs of the oriented fraternal graph are read with `arcs_at(1)`, which yields
  `(head, tail)` for arcs from larger to smaller vertices only, and are inserted with `add_arc(head, tail)`.  So the bound that
  smallest-last orders give for in-degrees holds for the out-degrees instead.  Witness: two cliques joined by three paths of
  length two.
* **C107 the witness, exactly.** `Spec/Witness.lean` has conflict graphs, the orders `by_degeneracy` can list (`Peeled`) and crowds.
  The auxiliary graph built by `domset_with_target` represents the conflict graph of the joined targets (`Dom.auxGraph`), for
  every oracle of the bucket orders; the equivalences of C38 and C55 then give both directions.
* **C108 a witness with few colours.** Refuted: subdividing the graph of C88 turns its edges into distances 2, so
  `domset_with_target(1, true, ..)` meets the graph as conflict graph and panics.  Proved for conflict graphs of degeneracy at
  most 129, with the lower bound on dominating sets that follows.

* **C109 All outcomes of scattered_colouring.** `Spec/Scatter.lean` describes rounds (`ScatterRounds`), failing rounds (`ScatterFails`) and merging (`Absorb`, `Sweep`, `Improve`) as relations on finite sets. Merging is deterministic (`Improve.unique`), so both directions follow from a simulation of the loops; the converse constructs the hash orders round by round from C38 and C88.
* **C110 degeneracy of graphs with loops.** Refuted by two isolated loops (`C110_refuted`), by two looped triangles (`C110_refuted_overflow`, a degree falls below zero) and downstream by `C110_refuted_from_graph`. `Spec/LoopPeel.lean` describes the removals as lists in which a looped vertex stays available after its first removal (`Waits`, `NextPick`, `LoopRun`). `Lemmas/LoopPeel.lean` keeps the buckets in step with this description without assuming looplessness; the converse drives the hash orders along a given list (`DegenState.follows`). `C110_orders_partial` and `C110_overflow_partial` are equivalences over all hash orders; the other parts describe one run. `C110_no_repeat_partial` recovers the usual smallest-last order if nothing is repeated.
* **C111 OrdGraph::with_ordering for every list.** `Lemmas/LoopOrder.lean` repeats the construction of C43 with `≤` in place of `<`, so that a loop is on both sides, and computes the positions of repeated entries (`get?_positions_last`). A loop whose steps succeed or panic, one of them always panicking, panics (`foldlM_panics`).
* **C112 DegenGraph::with_ordering for every list.** The calls to `append` are those of C91 with the neighbours at smaller last positions; everything else follows from the record invariant of C91.
* **C113 Vertex lists with entries that are not in the graph.** `Lemmas/NonVertex.lean`: a loop in which some step panics and the others return, panics (`foldlM_panics`); this gives all panicking cases for every graph whose `neighbours` returns or panics. For `OrdGraph`, whose `neighbours` of a non-vertex is empty, the graph is widened by the entries as isolated vertices (`Graph.widen`), which the existing theorems C16–C18 then cover. `contract_into` is proved for every centre (`contractInto_all`).
* **C114 Generators and unions outside the intended range.** Direct; the loops that overflow at some step are handled by `foldlM_faults`.
* **C115 Subdivisions and products outside the intended range.** The overflow statements follow the counters through the loops. The edges of `subdivide(1)` are the disjoint union over the old edges of one- or two-element sets, of which the loops have one element.
* **C116 SReachTraceOracle on arbitrary lists and sizes.** `C116_refuted` runs the model on four vertices with the list `[0,0,1]`: the dedicated fault for `unwrap_unchecked` on `None` is returned. `C116_memory_safe_partial` shows that duplicate-free lists never reach it; `C116_sizes` is the exact trichotomy of panic, overflow and answer. `C116_repeated` is a counting argument: the empty trace is decreased once too often for the repeated vertex, so that an unsigned subtraction fails. `C116_repeated_shattered` maps every key of the table to its set of vertices and whether it has repetitions; this is injective and misses one pair, so there are fewer than 2^|X| keys. `C116_neighbour_count` compares the run with the run on the list without repetitions.
* **C117 Targets outside the graph.** The loop of `scattered_colouring` runs until the target is empty, but each round only colours vertices of the ordering. Induction over the number of rounds shows that every finite number of rounds is exhausted. For `domset_with_target`, two runs with targets that agree on the vertices are the same run.
* **C118 Equality and boundaries of Reachables.** The field `boundaries` is modelled apart from the others (`boundariesAt`), as only `==` and the uncalled `get_boundaries` read it. From the layout of the array (C89) the bounds are prefix sums of the segment lengths starting at the offset of the record, which gives the exact criterion. Two small graphs refute the intended reading of `==`.
* **C119 Algorithms on a ReachGraph.** `Graph.Blind` says that `neighbours` always panics; each algorithm is shown to call it for some vertex before it can return. For the algorithms that work, the linear graph agrees with that of the `OrdGraph` in everything they read.
* **C120 Shattered sets are small in degenerate graphs.** `X` together with the vertices that have at least `|X| - 1` neighbours in it has minimum degree `|X| - 1`: a vertex `x` of `X` is adjacent to the vertices whose traces miss one other element. The last vertex of a subgraph of minimum degree `k` has `k` left neighbours. An example attains the bound.
* **C121 Few traces in degenerate graphs.** A vertex outside the left neighbours of `X` has its trace among its own left neighbours, hence of size at most `d`; the others number at most `d·|X|`. Uses C62 for the counts.
* **C122 Strong reachability bounds weak reachability and domset.** A weakly reachable vertex is reached by a chain of strongly reachable ones whose lengths add up; counting chains gives the sum of powers. `C122_domset` combines it with C93. The bound for sizes is attained on a path.
* **C123 Lattice laws.** From C18–C20, C16: each operation is described by its vertex and edge sets and the laws are those of sets. `Below` abbreviates `Sub` or `Eq`.
* **C124 Analyses under renaming, union, subgraphs and edits.** `SGraph.IsoVia` (isomorphism) transports walks, components and degeneracy; `IsDegeneracy.mono/delete/addEdge/union` describe degeneracy of the specification, and `Graph.Rep.degeneracy_exact` carries it to the algorithm where bucket indices are exact (C42).
* **C125 What count_max_cliques returns on classes of graphs.** From the exact recursion of C54. Triangle-free: left neighbourhoods are independent, so each edge is recorded once. Chordal orderings: the recursion records one clique per vertex and removes the ones extended later. The bound uses the number of leaves of the pivoting recursion.
* **C126 Provided trait methods on digraphs, augmentations and layers.** `Model/DTFView.lean` packs `DTFGraph` and `DTFLayer` as records of trait methods, with `.panic` for the `unimplemented!` ones; the provided methods are those of `Model/Graph.lean` and `Model/EditDigraph.lean`.
* **C127 Strong reachability, degeneracy, fill-in and treewidth.** `Spec/Width.lean` defines chordal completions, tree decompositions and treewidth. `Lemmas/Width.lean` shows that strong reachability without a bound on the length is the least completion, and turns orderings into tree decompositions (bag of v: v and its strongly reachable set) and back (order the vertices by the depth of their topmost bag).
* **C128 Weak reachability and treedepth.** Weak reachability without a bound on the length is the ancestor relation of an elimination forest; conversely an ordering by the number of ancestors in a forest makes every weakly reachable vertex an ancestor.
* **C129 The errors reported by the readers.** `Model/IOErrors.lean` repeats the readers with `io::Error` values (kind and text). The specification speaks about the bytes: lines, UTF-8, words, decimal numbers. `C129_*_report` are equivalences, so that no other error is possible; `C129_outcomes` shows that the readers with and without error values agree.
* **C130 Laws of the operations on graphs.** `Props/EditLaws.lean`. Every law runs both sequences of calls, with independent hash iteration orders, and compares the results with `==`. The proofs describe the contents of both results and use that graphs with the same contents are equal (C06).
* **C131 Removing and contracting never increases reachability widths.** `Props/Minors.lean`. `MinorOf` is the closure under successful calls of `remove_edge`, `remove_vertex` and `contract_pair` on an edge. By the results of C127 and C128 the smallest maximum of `sreach_sizes` over all orderings is the treewidth, and that of `wreach_sizes` the treedepth less one, for radius at least n-1; the decompositions of g are turned into decompositions of h.
* **C132 Whole programs: from an edge list in a file to a dominating set, a colouring or a bipartition.** `Props/Pipeline.lean`. The statements mention only the text of the input file (`HoldsPairs`: UTF-8, lines, tokens), the list of pairs and the results; the graph and the ordering in between are existentially quantified outputs of the modelled calls. Proved by composing C84, C38, C39, C56, C93, C86, C41 and C42. Between any two calls the hash tables may be laid out anew.
* **C133 Degeneracy of contractions, complements, unions, products, subdivisions and forests.** `Lemmas/DegenOps.lean`, `Props/DegeneracyOps.lean`. Every statement compares returned values (upper bounds up to 129 are exact, C39/C40). The bounds for unions and edges come from summing degrees inside a set while vertices of small degree are removed one by one; the bound for complements compares a densest core of each graph; the forest criterion removes leaves, which keeps `edges + components - vertices`. The value for subdivisions follows from the forest criterion and C98. `C133_contract_raises` shows that, unlike the widths of C131, the degeneracy is not monotone under contractions.
* **C134 Reachable sets of the named graphs in their natural ordering.** `Lemmas/GenWidths.lean`, `Props/GenWidths.lean`. The reachable sets are rewritten as sets of ends of walks through larger numbers; for each generator an invariant of such walks gives the sets as explicit intervals. `C134_span` bounds the sets in any ordering by the longest edge. The treewidth statements combine the natural ordering (upper bound, C127/C128) with minimum degrees inside a set (lower bound) and `TreedepthLE.treewidth` (treewidth < treedepth). The exact treewidth of a grid, min(s,t), is not proved: its lower bound needs brambles; only the upper bound t is.
* **C135 Greedy colourings of the named graphs in their natural ordering.** `Props/GenColours.lean`. `C55_colour_greedy_exact_partial` says that the returned colouring is the only one obeying the greedy rule of `Spec/Greedy.lean`; for each generator the formula is shown to obey it, with the number of existing colours before each vertex as a second formula. The defect behind C55 (the number of left neighbours, not of their colours, is compared with the number of colours) shows in three ways: a third colour in even cycles, one in grids, and uncoloured vertices in bicliques.
* **C136 The distance methods agree with one another.** `Props/Distances.lean`. All statements compare returned values; the auxiliary `DistReturns L D x y r` says that `small_distance` with cut-off `D` returns `r` for all iteration orders. The proofs combine the theorems C17, C37, C56–C60, C67 and C99 about the single methods.
* **C137 Dominating sets of the named graphs in their natural ordering.** `Props/GenDomsets.lean`, `Props/GenDomsets2.lean` (cycles). `C103_domset_with_target_rule` says that the result is the one of the greedy rule of `Spec/DomRule.lean`, run along the order by left degree and degree. For each generator the weakly reachable sets with distances, that order, and the set and distances after each round are given by formulas (`Generates.domset`), and each round is checked against the rule (`DomStep.skip`, `DomStep.join`). The path and the cycle need arithmetic modulo `r + 1`. Consequences: on paths the result has about `n/(r+1)` vertices where `n/(2r+1)` suffice; on stars with radius 1 the centre is only taken after five leaves, because the counter must exceed `(2r)^2 = 4`.
* **C138 Dominating sets of the named graphs compared with smallest ones.** `Props/DomsetSizes.lean`. The sets of C137 are counted as images of ranges. The lower bound on paths and cycles is the counting bound (a vertex has at most `2r + 1` vertices within distance `r`; on cycles these are residues modulo `n`), attained by every `2r + 1`-st vertex. `C138_no_constant` uses bicliques with radius 1. It does not contradict C93, whose factor depends on the sizes of the weakly reachable sets.
* **C139 Complete multipartite graphs.** `Props/GenKpartite.lean`, `Props/GenKpartite2.lean`. Parts are consecutive intervals; `partStart`, `partSize`, `partRank` (number of nonempty parts before) are defined by recursion on the list of sizes, independently of the loops of the generator, and everything follows from a few facts about them proved by induction on the list. The greedy colouring shows the defect of C55 on a named graph: parts of sizes 2, 1, 1 make `colour_greedy` panic. For the dominating sets only the order within the last part matters; the order of the others is obtained by sorting (`exists_enum`).
* **C140 Numbers of edges and of maximal cliques of the named graphs.** `Props/GenCounts.lean`. The number of edges is the sum of the numbers of smaller neighbours (`SGraph.OnRange.edges`). For the triangle-free graphs the number of cliques is `C125_triangle_free`; cliques and complete multipartite graphs satisfy the hypothesis of `C54_count_max_cliques_partial` in every ordering, and the maximal cliques are counted as choice functions on the nonempty parts.
* **C141 How the named graphs arise from one another.** `Props/GenRelations.lean`. Both sides are described by a vertex predicate and an adjacency relation (`Generates`), which by `C06_eq` decide `==`; what remains is arithmetic on ids. `C141_offset` sharpens `C12_disj_union`: there the offset is only said to exceed all ids of the first graph.
* **C142 Named digraphs: orientation, exact offset of unions, normal form.** `Props/DigraphRelations.lean`. `C142_orient` compares the descriptions of C36 and C11. `C142_offset` sharpens `C34_union_arcs`, where the offset is only said to exceed all ids of the first digraph. `C142_normalize` follows from `C34_normalize_arcs`: an increasing map of 0..n-1 into itself is the identity. `C142_kept` shows the defect of C34 on a named digraph: the last arc of a directed cycle is turned round.
* **C143 Exact ids in `disj_unions`.** `Props/UnionOffsets.lean`. Induction on the list from the right with `C141_offset` and `C142_offset`; the span of the result (`IsSpan`) is carried along. Sharpens `C12_disj_unions` and `C81_arcs`, where the offsets are only said to exist and to keep the members apart.
* **C144 `right_bfs` and `sreach_set` outside their domain.** `Props/ReachFails.lean`. The look-up of the root is the first step, so its failure is the result; for a vertex the next step is the checked addition `dist+1`. No changed program was run against these two theorems.

## Outcome per property

Status of the last milestone (111 proved, 33 partial). Axioms after each theorem: P = propext, C = Classical.choice, Q = Quot.sound.

* **C01** — proved: `C01_history` [CPQ]. Any finite history of the eight editing calls, any hash layout before every call.
* **C02** — proved: `C02_symmetric` [CPQ]. 
* **C03** — proved: `C03_handshake` [CPQ]. 
* **C04** — proved: `C04_edges` [CPQ]. For every implementation of the Graph trait that represents an undirected graph.
* **C05** — partial: `C05_vertices_and_edges_partial` [CPQ], `C05_loops_missing` [CPQ]. False for loops (iterator compares v < u): negation proved by witness; proved for everything except loops.
* **C06** — proved: `C06_eq` [CPQ]. 
* **C07** — proved: `C07_clone` [CPQ]. 
* **C08** — proved: `C08_from_iter` [CPQ]. 
* **C09** — proved: `C09_undo` [CPQ]. 
* **C10** — proved: `C10_remove_loops_isolates` [CPQ]. 
* **C11** — partial: `C11_path` [CPQ], `C11_cycle` [CPQ], `C11_matching` [CPQ], `C11_clique` [CPQ], `C11_independent` [CPQ], `C11_biclique_partial` [CPQ], `C11_biclique_edges` [CPQ], `C11_biclique_refuted` [PQ], `C11_star_partial` [CPQ], `C11_star_refuted` [PQ], `C11_kpartite_partial` [CPQ], `C11_kpartite_refuted` [PQ], `C11_grid_partial` [CPQ], `C11_grid_refuted` [PQ]. path, cycle, matching, clique, independent: proved for all parameters. biclique, star, complete_kpartite, grid: the code drops vertices (or returns a clique) for degenerate parameters; negations proved by witness, positive part proved for all other parameters.
* **C12** — proved: `C12_disj_union` [CPQ], `C12_disj_unions` [CPQ]. Ids must fit into 32 bits after shifting, as stated.
* **C13** — proved: `C13_normalize` [CPQ]. 
* **C14** — partial: `C14_contract_pair_partial` [CPQ], `C14_refuted` [CPQ]. False for u = v (deletes u): negation proved by witness; proved for u != v and for missing vertices.
* **C15** — proved: `C15_contract_into` [CPQ], `C15_contract` [PQ]. 
* **C16** — proved: `C16_neighbourhood` [CPQ]. For every Graph implementation representing an undirected graph.
* **C17** — proved: `C17_ball` [CPQ]. 
* **C18** — proved: `C18_subgraph` [CPQ]. 
* **C19** — proved: `C19_invert` [CPQ], `C19_invert_invert` [CPQ]. For every Graph implementation; involution for loopless reachable EditGraphs.
* **C20** — proved: `C20_merge` [CPQ], `C20_intersect` [CPQ], `C20_comm` [CPQ]. For every pair of Graph implementations.
* **C21** — partial: `C21_subdivide_partial` [CPQ], `C21_subdivide_zero` [CPQ], `C21_refuted` [CPQ]. Proved for loopless graphs and for t != 1 on all graphs. False for loops with t = 1 (one edge instead of two, fresh vertex of degree 1): C21_refuted.
* **C22** — partial: `C22_cartesian_partial` [CPQ], `C22_refuted` [CPQ]. Map is a bijection and adjacency is right for all hash orders; the code does not add product vertices without neighbours, so the last clause is false: C22_refuted.
* **C23** — partial: `C23_lexicographic_partial` [CPQ], `C23_refuted` [CPQ]. As C22.
* **C24** — proved: `C24_compare` [CPQ]. For every pair of Graph implementations.
* **C25** — proved: `C25_graph_roundtrip` [CPQ], `C25_roundtrip_eq` [CPQ]. For every graph satisfying the Graph contract with ids below 2^32 and every iteration order; text is valid UTF-8 by construction.
* **C26** — proved: `C26_vec_roundtrip` [CPQ], `C26_set_roundtrip` [CPQ], `C26_vec_parser` [CPQ]. Ids below 2^32; set in any iteration order. Also characterises the accepted inputs.
* **C27** — proved: `C27_parser` [CPQ], `C27_parser_unique` [CPQ]. For every text (list of characters): accepted iff all lines are two decimal 32-bit tokens; the result is determined by the lines.
* **C28** — proved: `C28_intersection` [CPQ], `C28_conversions` [PQ]. All vertices and edges including loops.
* **C29** — proved: `C29_invert` [CPQ], `C29_majority` [CPQ]. Every map with fewer than 2^64 entries and every iteration order of both maps.
* **C30** — proved: `C30_disjoint_extend` [CPQ], `C30_subset` [PQ], `C30_from_sets` [CPQ]. Colours of type u32; disjoint_extend under the hypothesis that no colour sum overflows; from_sets for at most 2^32 sets.
* **C31** — proved: `C31_history` [CPQ]. Refinement of every editing history (any hash layout) to an abstract set of vertices and arcs; queries on absent vertices panic.
* **C32** — proved: `C32_degrees_arcs` [CPQ]. Both degree sums, degree = in + out, and the ArcIterator run to exhaustion.
* **C33** — partial: `C33_undirected_partial` [CPQ], `C33_refuted` [CPQ]. adjacent(u,v) tests only the arc uv (the code checks uv twice), so the symmetric statement is refuted; neighbours() is exact.
* **C34** — partial: `C34_union_partial` [CPQ], `C34_union_arcs` [CPQ], `C34_union_refuted` [CPQ], `C34_normalize_partial` [CPQ], `C34_normalize_arcs` [CPQ], `C34_normalize_refuted` [CPQ]. Both operations copy edges() instead of arcs(): downward arcs come back reversed. Exact behaviour proved for all digraphs, preservation when all arcs go upward.
* **C35** — proved: `C35_eq` [CPQ], `C35_clone` [CPQ], `C35_from_iter` [CPQ]. Equality, clone, collection from an arc list.
* **C36** — partial: `C36_path_partial` [CPQ], `C36_path_zero` [PQ], `C36_path_refuted` [PQ], `C36_cycle` [CPQ], `C36_matching` [CPQ], `C36_clique_partial` [CPQ], `C36_clique_refuted` [PQ], `C36_independent` [CPQ], `C36_biclique_partial` [CPQ], `C36_biclique_refuted` [PQ], `C36_star_partial` [CPQ], `C36_star_refuted` [PQ], `C36_grid_partial` [CPQ], `C36_grid_refuted` [PQ]. Exact vertex and arc sets; degenerate sizes (path 0 and 1, clique 1, one empty side, 1x1 grid) lose vertices or underflow.
* **C37** — proved: `C37_components` [CPQ]. any Graph implementation; union-find crate modelled by its documented behaviour
* **C38** — proved: `C38_degeneracy_order` [CPQ], `C38_smallest_last` [CPQ], `C38_no_jump` [CPQ], `C38_orders` [CPQ]. loopless graphs with at most 2^31 vertices, every bucket iteration order; the returned orders are characterised exactly
* **C39** — proved: `C39_exact_small_degree` [CPQ], `C39_exact_of_degeneracy` [CPQ]. also proved for every graph of degeneracy at most 130
* **C40** — partial: `C40_bounds_partial` [CPQ], `C40_refuted` [CPQ]. upper < degeneracy for K_132 (refuted); lower bound holds always, the correct upper bound is bucketTop(upper)
* **C41** — proved: `C41_is_bipartite` [CPQ], `C41_outcomes` [CPQ]. the bipartitions returned over all iteration orders are exactly those whose second side has no isolated vertex
* **C42** — partial: `C42_odd_cycle_partial` [CPQ], `C42_shape_partial` [CPQ], `C42_cut_partial` [CPQ], `C42_outcomes_partial` [CPQ], `C42_refuted` [CPQ]. witness is an odd cycle followed by a path walked forth and back, and every such walk is the witness of some run; vertices need not be distinct (refuted on the lollipop graph); the prefix before the second occurrence of the first vertex is an odd cycle
* **C43** — proved: `C43_with_ordering` [CPQ], `C43_by_degeneracy` [CPQ], `C43_by_degeneracy_no_jump` [CPQ]. every layout of the hash tables
* **C44** — partial: `C44_swap_partial` [CPQ], `C44_any_swaps_partial` [CPQ], `C44_repaired_partial` [CPQ], `C44_refuted` [CPQ]. false for adjacent vertices (edge 0-1); after any sequence of swaps all answers are right except that, for adjacent vertices swapped with each other and not swapped since, the earlier one counts as right instead of left neighbour of the later one
* **C45** — proved: `C45_with_ordering` [CPQ], `C45_from_graph` [CPQ]. unchecked reads are modelled as fault ub
* **C46** — partial: `C46_normalize_partial` [CPQ], `C46_refuted` [CPQ]. false for the empty graph (out-of-bounds read); proved for every non-empty graph
* **C47** — proved: `C47_iterators` [CPQ]. also after normalize and for to_degeneracy_graph
* **C48** — proved: `C48_to_degeneracy_graph` [CPQ]. 
* **C49** — proved: `C49_reach_sets` [CPQ]. size bound: the u32 offsets must not overflow
* **C50** — proved: `C50_queries` [CPQ], `C50_neighbours` [P]. neighbours() always panics (documented as unsupported in the code)
* **C51** — proved: `C51_right_bfs` [CPQ]. 
* **C52** — proved: `C52_sreach_set` [CPQ], `C52_sreach_sets` [CPQ], `C52_sreach_sizes` [CPQ], `C52_zero` [PQ]. for r = 0 the code underflows (C52_zero)
* **C53** — proved: `C53_wreach_sets` [CPQ], `C53_wreach_sizes` [CPQ]. 
* **C54** — partial: `C54_refuted` [CPQ], `C54_count_max_cliques_partial` [CPQ], `C54_exact_partial` [CPQ]. Refuted: on a triangle with a pendant vertex and the centre last in the ordering 4 is returned instead of 2. Proved for all orderings whose left neighbourhoods are complete multipartite. For all graphs the number returned is described exactly by an independent recursion (numPicked); what is missing is only that it equals the number of maximal cliques, which is false.
* **C55** — partial: `C55_refuted` [CPQ], `C55_colour_greedy_partial` [CPQ], `C55_colour_greedy_chordal_partial` [CPQ], `C55_colour_greedy_no_jump_partial` [CPQ], `C55_colour_greedy_exact_partial` [CPQ], `C55_panics` [PQ]. Refuted: vertices whose left neighbours use all colours present, one of them twice, get no colour, and later neighbours of such a vertex panic. Proved: every returned colouring is proper and uses colour k only if some vertex has k left neighbours; it is total if left neighbourhoods are cliques (then optimal) or left degrees never grow by more than one; the result and the panics are described exactly for all graphs and orderings.
* **C56** — proved: `C56_domset_with_target` [CPQ], `C56_domset` [CPQ], `C56_domset_witness` [CPQ]. Radius below 2^15 (its doubled square is computed in u32), at most 2^31 vertices. With a witness the same set is returned unless colour_greedy panics, which needs a crowd: targets in the set each of which has 130 others within distance 2*radius.
* **C57** — partial: `C57_refuted` [CPQ], `C57_domset_distances_partial` [CPQ]. Refuted on a path with five vertices: a neighbour of a dominating vertex gets distance 2. Proved: the map is total, bounded by the radius, and at least the distance for targets. Which values are returned is determined exactly by the rule of C103.
* **C58** — proved: `C58_witness` [CPQ], `C58_witness_lower_bound` [CPQ], `C58_witness_total` [CPQ], `C58_witness_few` [CPQ]. Scatteredness and lower bound for every witness that is returned; existence unless there is a crowd of targets each with 130 others within distance 2*radius (see C108 for a panic). Radius below 2^15, at most 2^31 vertices.
* **C59** — partial: `C59_refuted` [CPQ], `C59_panics` [CPQ], `C59_scattered_colouring_partial` [CPQ], `C59_few_classes_partial` [CPQ]. Refuted for odd distances: classes may contain vertices at distance distance-1. Also false for even distances: a call with distance 2 may panic. Proved: termination, classes partition the target, distance at least 2*(distance/2) within classes, no two classes mergeable, a bound on the number of classes; the only failure is a panic, which needs targets each of which has 130 others within distance 2*(distance/2).
* **C60** — proved: `C60_small_distance` [CPQ], `C60_small_distance_sets` [CPQ]. 2*D < 2^32.
* **C61** — proved: `C61_leftmost_rightmost` [CPQ], `C61_degrees` [CPQ]. for every implementation that represents an ordered graph
* **C62** — proved: `C62_compute_traces` [CPQ]. For a list sorted by the ordering (the code asserts it) without repetition, on any DegenGraph made by the constructors; all iteration orders.
* **C63** — proved: `C63_neighbour_count` [CPQ]. Same preconditions as C62.
* **C64** — proved: `C64_is_shattered` [CPQ], `C64_repeated` [PQ]. For duplicate-free X, |X| < 64 and k - |X| < 64 (powers of two in usize); other sizes in C116_sizes. With a repeated vertex a subtraction underflows (C64_repeated).
* **C65** — proved: `C65_orient` [CPQ], `C65_in_degree` [CPQ]. orient of any loopless graph, any tie-breaking: same vertices, each edge oriented exactly once, acyclic, num_edges kept; arcs follow the degeneracy order, in-degrees bounded by the reported degeneracy bound.
* **C66** — proved: `C66_augment` [CPQ]. From any state reached by orient/augment/domset/layer. Hash orders of all tables arbitrary (RoundOrder, DeepOrder).
* **C67** — partial: `C67_small_distance_partial` [CPQ], `C67_closed_partial` [CPQ], `C67_exact_partial` [CPQ], `C67_refuted` [CPQ], `C67_refuted_diagonal` [PQ]. False of the code: on the five-cycle a pair at distance 2 gets None (arcs lost by DTFArcIterator), and small_distance(u,u) is not Some(0). Proved: no panic, Some(k) is witnessed by a walk of length k <= depth, Some(1) iff adjacent; exact for distinct vertices when the augmentation is fraternally closed; in general the result is exactly the smallest weight of an arc between the vertices or sum of two arcs from a common vertex, cut off at the depth.
* **C68** — proved: `C68_domset` [CPQ], `C68_overflow` [CPQ]. From any reached state, any hash order, at most 2^31 vertices, r < 2^15; for larger r the cutoff (2r)^2 overflows u32 (proved).
* **C69** — partial: `C69_layer_partial` [CPQ], `C69_add_arc_partial` [CPQ], `C69_refuted` [CPQ], `C69_refuted_count` [PQ], `C69_refuted_panic` [PQ]. False of the code: reserve_depth sets the depth unconditionally, so layer(1) hides heavier arcs from num_arcs_at_depth, and it adds a single counter, so add_arc with a depth two above the current one panics. Proved for depths at most one above the current one: no panic, no arc lost, depth becomes d.
* **C70** — partial: `C70_arcs_at_partial` [CPQ], `C70_arcs_partial` [CPQ], `C70_refuted` [CPQ]. False of the code: the iterator skips arcs from a smaller to a larger vertex and yields (head, tail). Proved: it yields exactly the remaining arcs once each.
* **C71** — partial: `C71_layer_partial` [CPQ], `C71_layer_whole_partial` [CPQ], `C71_layer_new_partial` [CPQ], `C71_refuted` [CPQ], `C71_refuted_degree` [PQ]. False of the code: adjacent, degree, in_degree, out_degree of a layer refer to the whole graph (what they return is proved). Proved: has_arc, in_neighbours, num_edges, vertices, contains and num_vertices are right, also for DTFLayer::new at existing depths (has_arc, in_neighbours, contains).
* **C72** — proved: `C72_neighbourhoods` [CPQ], `C72_degree_maps` [CPQ]. Digraph trait helpers on EditDigraph.
* **C73** — proved: `C73_counters` [CPQ]. From any state reached by orient/augment/domset/layer.
* **C74** — partial: `C74_orient_deep_partial` [CPQ], `C74_refuted` [CPQ]. False of the code for depth >= 2: to_undirected loses arcs, so edges can disappear. Proved: no panic, same vertices, arcs join neighbours, acyclic; all edges kept for depth <= 1. C105 says exactly which arcs are returned.
* **C75** — proved: `C75_transitive` [CPQ]. For all states reached by orient and augment.
* **C76** — proved: `C76_weights` [CPQ]. For all states reached by orient and augment with depth < 2^32 (weights are cast to u32).
* **C77** — partial: `C77_to_undirected_partial` [CPQ], `C77_refuted` [CPQ]. False of the code: only arcs from a larger to a smaller vertex become edges (proved exactly).
* **C78** — proved: `C78_edge_subgraph` [CPQ]. For all states built through the interface and any list of pairs.
* **C79** — proved: `C79_degrees` [CPQ], `C79_digraph` [CPQ]. for every represented undirected graph and for every digraph
* **C80** — proved: `C80_neighbourhoods` [CPQ], `C80_digraph` [CPQ], `C80_left` [CPQ], `C80_dtf_at` [CPQ], `C80_dtf` [CPQ]. one theorem per iterator
* **C81** — partial: `C81_arcs` [CPQ], `C81_disj_unions_partial` [CPQ], `C81_refuted` [CPQ]. false: downward arcs are reversed; exact result proved for all lists
* **C82** — proved: `C82_neighbourhoods` [CPQ], `C82_subgraph` [CPQ], `C82_components` [CPQ], `C82_bipartite` [CPQ]. for every reachable digraph
* **C83** — partial: `C83_count` [CPQ], `C83_edges_partial` [CPQ], `C83_refuted` [CPQ]. false: pairs joined both ways and loops are yielded twice; exact multiplicity proved
* **C84** — proved: `C84_graph_text` [CPQ], `C84_vec_text` [CPQ], `C84_set_text` [CPQ]. All three readers, all texts.
* **C85** — partial: `C85_graph_bytes_partial` [CPQ], `C85_vec_bytes_partial` [CPQ], `C85_set_bytes_partial` [CPQ], `C85_panics` [CPQ], `C85_gzip_panics` [CPQ]. false: the readers panic on invalid UTF-8 and on read errors; exact conditions for success, error and panic proved for every byte stream
* **C86** — proved: `C86_files` [PQ], `C86_graph_files` [CPQ], `C86_vertex_files` [CPQ]. gzip is a parameter with gunzip (gzip b) = b; file creation and writing assumed to succeed
* **C87** — proved: `C87_from_file` [PQ]. Unix paths.
* **C88** — partial: `C88_refuted` [CPQ], `C88_degeneracy_colouring_partial` [CPQ], `C88_outcomes_partial` [CPQ], `C88_panics_partial` [CPQ]. Refuted for larger degeneracy, where buckets contain several degrees: the call panics on a graph with 268 vertices and degeneracy 133. Proved for degeneracy at most 129; for all graphs the possible colourings and panics are described by equivalences.
* **C89** — partial: `C89_ordgraph` [CPQ], `C89_degengraph_partial` [CPQ], `C89_reachgraph_partial` [CPQ], `C89_reachgraph_missing` [CPQ], `C89_refuted` [CPQ], `C89_refuted_reachgraph` [CPQ]. true for OrdGraph; false for DegenGraph and ReachGraph, where index_of is the offset of the vertex's record (exact formula proved)
* **C90** — proved: `C90_from_iter` [PQ], `C90_insert` [CPQ], `C90_queries` [CPQ], `C90_eq` [CPQ]. 
* **C91** — proved: `C91_appends` [CPQ], `C91_graph` [CPQ]. 
* **C92** — proved: `C92_appends` [CPQ], `C92_too_far` [CPQ], `C92_borderline` [PQ]. 
* **C93** — proved: `C93_domset_with_target_size` [CPQ], `C93_domset_size` [CPQ]. factor c(c+4r^2) where c exceeds all weak r-reachability counts
* **C94** — proved: `C94_navigation` [CPQ], `C94_builder` [CPQ]. both conversions and the builder, total size below 2^32
* **C95** — proved: `C95_strong_in_weak` [CPQ], `C95_radius_one` [CPQ], `C95_radius_monotone` [CPQ], `C95_compose` [CPQ], `C95_decompose` [CPQ]. radius below 2^32 - 1, and at least 1 where sreach_sets is called
* **C96** — proved: `C96_structure` [CPQ], `C96_size` [CPQ]. at most 2^31 vertices; C96_size assumes that small_distance is complete up to r (see C67) and depth at most r before the call
* **C97** — proved: `C97_distances` [CPQ], `C97_bipartite` [CPQ], `C97_degeneracy` [CPQ]. 
* **C98** — proved: `C98_disj_union` [CPQ], `C98_add_edge` [CPQ], `C98_subdivide` [CPQ], `C98_contract` [CPQ], `C98_count` [CPQ]. 
* **C99** — proved: `C99_compose` [CPQ], `C99_symmetric` [CPQ], `C99_component` [CPQ]. 
* **C100** — proved: `C100_sums` [CPQ], `C100_shattered` [CPQ]. 
* **C101** — proved: `C101_cartesian` [CPQ], `C101_analyses` [CPQ], `C101_lexicographic` [CPQ]. vertices of the products without neighbours are absent from the returned graph (see C22, C23); degeneracy stated where the bounds are exact
* **C102** — proved: `C102_path` [CPQ], `C102_cycle` [CPQ], `C102_matching` [CPQ], `C102_independent` [CPQ], `C102_clique` [CPQ], `C102_biclique` [CPQ], `C102_grid` [CPQ], `C102_degeneracy_path` [CPQ], `C102_degeneracy_cycle` [CPQ], `C102_degeneracy_clique` [CPQ], `C102_degeneracy_biclique` [CPQ], `C102_degeneracy_grid` [CPQ]. degeneracy stated where the bounds are exact; grid except 1x1 (see C11)
* **C103** — proved: `C103_domset_with_target_rule` [CPQ], `C103_rule_applies` [CPQ], `C103_domset_determined` [CPQ], `C103_radius_zero` [CPQ]. the witness colouring itself is described by C55 and C58
* **C104** — proved: `C104_domset_rule` [CPQ], `C104_domset_determined` [CPQ], `C104_domset_repeat` [CPQ]. the augmentation is the one after the call; see C64 to C67 for what augment does
* **C105** — proved: `C105_orient` [CPQ], `C105_orient_outcomes` [CPQ], `C105_orient_deep` [CPQ], `C105_orient_deep_outcomes` [CPQ], `C105_augment` [CPQ], `C105_augment_outcomes` [CPQ], `C105_round` [CPQ], `C105_ascending` [CPQ]. The specification (Spec/Augment) is relational: the smallest-last orders depend on hash orders. The _outcomes theorems are equivalences over all hash orders (at most 2^31 vertices): exactly the results allowed by the specification occur.
* **C106** — partial: `C106_out_arcs_partial` [CPQ], `C106_refuted` [CPQ]. False of the code: arcs_at skips half of the arcs and the others are inserted reversed, so in-degrees grow by the out-degrees of the orientation; on a graph with 11 vertices a star of fraternal pairs (degeneracy 1) adds three arcs into its centre. Proved instead: the bound for the arcs leaving a vertex, and that all these arcs ascend.
* **C107** — proved: `C107_witness` [CPQ], `C107_panic` [CPQ]. Equivalences over the bucket orders of by_degeneracy, all other orders arbitrary. J is determined by the greedy rule of C103. Radius below 2^15, at most 2^31 vertices.
* **C108** — partial: `C108_refuted` [CPQ], `C108_witness_partial` [CPQ], `C108_lower_bound_partial` [CPQ]. Refuted on the subdivision of a graph with 268 vertices, radius 1: the call panics. Proved for conflict graphs of degeneracy at most 129.
* **C109** — proved: `C109_outcomes` [CPQ], `C109_panic` [CPQ]. 
* **C110** — partial: `C110_refuted` [CPQ], `C110_refuted_overflow` [CPQ], `C110_refuted_from_graph` [PQ], `C110_smallest_loop` [CPQ], `C110_orders_partial` [CPQ], `C110_overflow_partial` [CPQ], `C110_degeneracy_partial` [CPQ], `C110_no_repeat_partial` [CPQ], `C110_orient_partial` [CPQ], `C110_by_degeneracy_partial` [CPQ]. Refuted as stated. The possible lists and overflows over all hash orders are described exactly; missing is only what is false.
* **C111** — proved: `C111_panics` [CPQ], `C111_with_ordering` [CPQ]. Both cases of an exhaustive case distinction on the list.
* **C112** — proved: `C112_panics` [CPQ], `C112_with_ordering` [CPQ], `C112_repeated` [PQ]. Both cases of an exhaustive case distinction on the list. C112_repeated is a concrete case in which an edge is counted twice.
* **C113** — proved: `C113_panics` [CPQ], `C113_edit_graph` [CPQ], `C113_edit_digraph` [CPQ], `C113_degen_graph` [CPQ], `C113_reach_graph` [CPQ], `C113_ord_graph` [CPQ], `C113_contract_pair` [CPQ], `C113_contract_into` [CPQ], `C113_contract` [PQ], `C113_contract_reports_missing` [CPQ]. All cases, for every type that implements the trait.
* **C114** — proved: `C114_biclique` [PQ], `C114_matching` [CPQ], `C114_kpartite` [CPQ], `C114_grid` [PQ], `C114_digraph` [PQ], `C114_digraph_matching` [CPQ], `C114_disj_union` [CPQ], `C114_digraph_disj_union` [CPQ]. Complements C11, C12, C34 and C36, so that all arguments are covered.
* **C115** — proved: `C115_subdivide_overflow` [CPQ], `C115_products_overflow` [CPQ], `C115_subdivide_once` [CPQ]. Complements C21, C22 and C23, so that all graphs are covered.
* **C116** — partial: `C116_refuted` [CPQ], `C116_memory_safe_partial` [CPQ], `C116_non_vertices` [CPQ], `C116_unsorted` [CPQ], `C116_sizes` [CPQ], `C116_repeated` [CPQ], `C116_repeated_count` [PQ], `C116_repeated_shattered` [CPQ], `C116_neighbour_count` [CPQ]. The claim that the safe API has no undefined behaviour is refuted for lists with a repeated vertex; proved for duplicate-free lists, with the exact outcome for every size. neighbour_count is determined for every list. For lists with repetitions compute_traces and is_shattered are only bounded (never all sets, never yes); which of them fail is determined for lists closed under left neighbours only.
* **C117** — proved: `C117_scattered_diverges` [CPQ], `C117_scattered_never_returns` [CPQ], `C117_scattered_empty` [CPQ], `C117_domset_ignores` [CPQ], `C117_domset_no_target` [CPQ]. With more than 130 target vertices a panic may come first (crowds, see C58).
* **C118** — partial: `C118_equal_refuted` [CPQ], `C118_bounds_refuted` [CPQ], `C118_equal_partial` [CPQ], `C118_bounds_partial` [CPQ]. Both intended statements are refuted; the partial theorems are exact.
* **C119** — proved: `C119_panics` [CPQ], `C119_works` [CPQ], `C119_empty` [PQ]. 
* **C120** — proved: `C120_shattered` [CPQ]. 
* **C121** — proved: `C121_compute_traces` [CPQ]. Bound on the number of nonzero traces by degeneracy of the ordering.
* **C122** — proved: `C122_sizes` [CPQ], `C122_domset` [CPQ]. Strong against weak reachability, and the resulting ratio of domset.
* **C123** — proved: `C123_bounds` [CPQ], `C123_absorb` [CPQ], `C123_distributive` [CPQ], `C123_de_morgan` [CPQ], `C123_subgraph` [CPQ]. Lattice laws of merge, intersect, invert, subgraph and compare_subgraph.
* **C124** — proved: `C124_normalize` [CPQ], `C124_disj_union` [CPQ], `C124_subgraph` [CPQ], `C124_edits` [CPQ]. Degeneracy clauses assume no loops, at most 2^31 vertices and a reported upper bound of at most 129 (beyond that buckets are not exact, C42).
* **C125** — proved: `C125_too_few` [CPQ], `C125_bound` [CPQ], `C125_bound_degenerate` [CPQ], `C125_triangle_free` [CPQ], `C125_chordal` [CPQ]. Exact values on triangle-free graphs and chordal orderings, a bound for all graphs, and an example of an undercount.
* **C126** — proved: `C126_edit_digraph` [CPQ], `C126_dtf_degrees` [CPQ], `C126_dtf_in_neighbourhood` [CPQ], `C126_layer` [CPQ], `C126_layer_differs` [PQ], `C126_dtf_unimplemented` [CPQ], `C126_layer_unimplemented` [CPQ]. Provided methods of Graph and Digraph on EditDigraph, DTFGraph and DTFLayer.
* **C127** — proved: `C127_degeneracy` [CPQ], `C127_degeneracy_order` [CPQ], `C127_fill_in` [CPQ], `C127_treewidth_upper` [CPQ], `C127_treewidth_attained` [CPQ], `C127_degeneracy_treewidth` [CPQ]. Exact characterisation of treewidth by sreach_sizes at large radius; degeneracy order attains radius 1 for values up to 129.
* **C128** — proved: `C128_components` [CPQ], `C128_treedepth_upper` [CPQ], `C128_treedepth_attained` [CPQ]. Exact characterisation of treedepth by wreach_sizes at large radius.
* **C129** — proved: `C129_graph_report` [CPQ], `C129_vec_report` [CPQ], `C129_set_report` [CPQ], `C129_outcomes` [CPQ], `C129_files` [CPQ]. Texts of operating-system errors are not modelled; the Debug formatting of file names is a parameter.
* **C130** — proved: `C130_remove_vertices` [CPQ], `C130_subgraph` [CPQ], `C130_neighbourhood` [CPQ], `C130_normalize` [CPQ], `C130_contract_steps` [CPQ], `C130_disj_union` [CPQ]. Results compared with ==; all hash iteration orders; disj_union as long as the ids stay below 2^32.
* **C131** — proved: `C131_sreach` [CPQ], `C131_wreach` [CPQ], `C131_balls` [CPQ]. Loopless graphs; radius at least n-1 on the side of g.
* **C132** — proved: `C132_domset` [CPQ], `C132_colouring` [CPQ], `C132_bipartite` [CPQ]. pairs of distinct ids for the first two; loops allowed for is_bipartite
* **C133** — proved: `C133_contract_pair` [CPQ], `C133_contract_raises` [CPQ], `C133_invert` [CPQ], `C133_merge` [CPQ], `C133_intersect` [CPQ], `C133_edges` [CPQ], `C133_forest` [CPQ], `C133_subdivide` [CPQ], `C133_lexicographic` [CPQ]. Every statement compares values returned by the modelled functions; upper bounds above 129 are only estimates (C40), so exact comparisons assume at most 129.
* **C134** — proved: `C134_path` [CPQ], `C134_cycle` [CPQ], `C134_clique` [CPQ], `C134_independent` [CPQ], `C134_matching` [CPQ], `C134_biclique` [CPQ], `C134_star` [CPQ], `C134_span` [CPQ], `C134_grid` [CPQ], `C134_treewidth_path` [CPQ], `C134_treewidth_clique` [CPQ], `C134_treewidth_cycle` [CPQ], `C134_treewidth_biclique` [CPQ]. Exact sizes for path, cycle, clique, independent, matching, biclique, star; bounds for any ordering with short edges and the grid; treewidth and treedepth attained.
* **C135** — proved: `C135_path` [CPQ], `C135_cycle` [CPQ], `C135_clique` [CPQ], `C135_independent` [CPQ], `C135_matching` [CPQ], `C135_star` [CPQ], `C135_biclique` [CPQ], `C135_grid` [CPQ]. Exact colouring for every size; shows where colour_greedy wastes a colour or leaves vertices uncoloured.
* **C136** — proved: `C136_order_independent` [CPQ], `C136_cutoff` [CPQ], `C136_metric` [CPQ], `C136_balls` [CPQ], `C136_components` [CPQ], `C136_dtf` [CPQ], `C136_domset` [CPQ], `C136_witness` [CPQ]. Cut-offs below 2^31, radius below 2^15; for the DTFGraph loop-free graphs.
* **C137** — proved: `C137_path` [CPQ], `C137_cycle` [CPQ], `C137_clique` [CPQ], `C137_independent` [CPQ], `C137_matching` [CPQ], `C137_biclique` [CPQ], `C137_biclique_radius_one` [CPQ], `C137_star` [CPQ]. At most 2^31 vertices, radius below 2^15; grids are not treated.
* **C138** — proved: `C138_path` [CPQ], `C138_cycle` [CPQ], `C138_clique` [CPQ], `C138_matching` [CPQ], `C138_biclique` [CPQ], `C138_biclique_radius_one` [CPQ], `C138_star` [CPQ], `C138_no_constant` [CPQ]. At most 2^31 vertices, radius below 2^15.
* **C139** — proved: `C139_analysed` [CPQ], `C139_degeneracy` [CPQ], `C139_sizes` [CPQ], `C139_colours` [CPQ], `C139_domset` [CPQ], `C139_domset_radius_one` [CPQ]. all lists of sizes with at least two nonempty parts; other lists are C114
* **C140** — proved: `C140_path` [CPQ], `C140_cycle` [CPQ], `C140_matching` [CPQ], `C140_clique` [CPQ], `C140_independent` [CPQ], `C140_biclique` [CPQ], `C140_star` [CPQ], `C140_grid` [CPQ], `C140_kpartite` [CPQ]. all sizes and all orderings
* **C141** — proved: `C141_names` [CPQ], `C141_steps` [CPQ], `C141_contract` [CPQ], `C141_invert` [CPQ], `C141_unions` [CPQ], `C141_subgraph` [CPQ], `C141_offset` [CPQ]. Identities between generated graphs and the results of edit operations on them; the offset of disj_union is exact.
* **C142** — proved: `C142_orient` [CPQ], `C142_offset` [CPQ], `C142_normalize` [CPQ], `C142_kept` [CPQ]. The reversal of the last arc of a directed cycle is the defect recorded under C34; it is stated here as it happens.
* **C143** — proved: `C143_graphs` [CPQ], `C143_digraphs` [CPQ]. The span of a member is given as a function of the member; it is unique.
* **C144** — proved: `C144_ord` [CPQ], `C144_degen` [CPQ]. Complements C51 and C52, which assume that the root is a vertex.
