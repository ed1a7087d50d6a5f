{
 "claims": [
  {
   "property": "C01",
   "status": "proved",
   "theorems": [
    "Verif.C01_history"
   ],
   "note": "Any finite history of the eight editing calls, any hash layout before every call."
  },
  {
   "property": "C02",
   "status": "proved",
   "theorems": [
    "Verif.C02_symmetric"
   ],
   "note": ""
  },
  {
   "property": "C03",
   "status": "proved",
   "theorems": [
    "Verif.C03_handshake"
   ],
   "note": ""
  },
  {
   "property": "C04",
   "status": "proved",
   "theorems": [
    "Verif.C04_edges"
   ],
   "note": "For every implementation of the Graph trait that represents an undirected graph."
  },
  {
   "property": "C05",
   "status": "partial",
   "theorems": [
    "Verif.C05_vertices_and_edges_partial",
    "Verif.C05_loops_missing"
   ],
   "note": "False for loops (iterator compares v < u): negation proved by witness; proved for everything except loops."
  },
  {
   "property": "C06",
   "status": "proved",
   "theorems": [
    "Verif.C06_eq"
   ],
   "note": ""
  },
  {
   "property": "C07",
   "status": "proved",
   "theorems": [
    "Verif.C07_clone"
   ],
   "note": ""
  },
  {
   "property": "C08",
   "status": "proved",
   "theorems": [
    "Verif.C08_from_iter"
   ],
   "note": ""
  },
  {
   "property": "C09",
   "status": "proved",
   "theorems": [
    "Verif.C09_undo"
   ],
   "note": ""
  },
  {
   "property": "C10",
   "status": "proved",
   "theorems": [
    "Verif.C10_remove_loops_isolates"
   ],
   "note": ""
  },
  {
   "property": "C11",
   "status": "partial",
   "theorems": [
    "Verif.C11_path",
    "Verif.C11_cycle",
    "Verif.C11_matching",
    "Verif.C11_clique",
    "Verif.C11_independent",
    "Verif.C11_biclique_partial",
    "Verif.C11_biclique_edges",
    "Verif.C11_biclique_refuted",
    "Verif.C11_star_partial",
    "Verif.C11_star_refuted",
    "Verif.C11_kpartite_partial",
    "Verif.C11_kpartite_refuted",
    "Verif.C11_grid_partial",
    "Verif.C11_grid_refuted"
   ],
   "note": "path, cycle, matching, clique, independent: proved for all parameters. biclique, star, complete_kpartite, grid: the code drops vertices (or returns a clique) for degenerate parameters; negations proved by witness, positive part proved for all other parameters."
  },
  {
   "property": "C12",
   "status": "proved",
   "theorems": [
    "Verif.C12_disj_union",
    "Verif.C12_disj_unions"
   ],
   "note": "Ids must fit into 32 bits after shifting, as stated."
  },
  {
   "property": "C13",
   "status": "proved",
   "theorems": [
    "Verif.C13_normalize"
   ],
   "note": ""
  },
  {
   "property": "C14",
   "status": "partial",
   "theorems": [
    "Verif.C14_contract_pair_partial",
    "Verif.C14_refuted"
   ],
   "note": "False for u = v (deletes u): negation proved by witness; proved for u != v and for missing vertices."
  },
  {
   "property": "C15",
   "status": "proved",
   "theorems": [
    "Verif.C15_contract_into",
    "Verif.C15_contract"
   ],
   "note": ""
  },
  {
   "property": "C16",
   "status": "proved",
   "theorems": [
    "Verif.C16_neighbourhood"
   ],
   "note": "For every Graph implementation representing an undirected graph."
  },
  {
   "property": "C17",
   "status": "proved",
   "theorems": [
    "Verif.C17_ball"
   ],
   "note": ""
  },
  {
   "property": "C18",
   "status": "proved",
   "theorems": [
    "Verif.C18_subgraph"
   ],
   "note": ""
  },
  {
   "property": "C19",
   "status": "proved",
   "theorems": [
    "Verif.C19_invert",
    "Verif.C19_invert_invert"
   ],
   "note": "For every Graph implementation; involution for loopless reachable EditGraphs."
  },
  {
   "property": "C20",
   "status": "proved",
   "theorems": [
    "Verif.C20_merge",
    "Verif.C20_intersect",
    "Verif.C20_comm"
   ],
   "note": "For every pair of Graph implementations."
  },
  {
   "property": "C21",
   "status": "partial",
   "theorems": [
    "Verif.C21_subdivide_partial",
    "Verif.C21_subdivide_zero",
    "Verif.C21_refuted"
   ],
   "note": "Proved for loopless graphs and for t != 1 on all graphs. False for loops with t = 1 (one edge instead of two, fresh vertex of degree 1): C21_refuted."
  },
  {
   "property": "C22",
   "status": "partial",
   "theorems": [
    "Verif.C22_cartesian_partial",
    "Verif.C22_refuted"
   ],
   "note": "Map is a bijection and adjacency is right for all hash orders; the code does not add product vertices without neighbours, so the last clause is false: C22_refuted."
  },
  {
   "property": "C23",
   "status": "partial",
   "theorems": [
    "Verif.C23_lexicographic_partial",
    "Verif.C23_refuted"
   ],
   "note": "As C22."
  },
  {
   "property": "C24",
   "status": "proved",
   "theorems": [
    "Verif.C24_compare"
   ],
   "note": "For every pair of Graph implementations."
  },
  {
   "property": "C25",
   "status": "proved",
   "theorems": [
    "Verif.C25_graph_roundtrip",
    "Verif.C25_roundtrip_eq"
   ],
   "note": "For every graph satisfying the Graph contract with ids below 2^32 and every iteration order; text is valid UTF-8 by construction."
  },
  {
   "property": "C26",
   "status": "proved",
   "theorems": [
    "Verif.C26_vec_roundtrip",
    "Verif.C26_set_roundtrip",
    "Verif.C26_vec_parser"
   ],
   "note": "Ids below 2^32; set in any iteration order. Also characterises the accepted inputs."
  },
  {
   "property": "C27",
   "status": "proved",
   "theorems": [
    "Verif.C27_parser",
    "Verif.C27_parser_unique"
   ],
   "note": "For every text (list of characters): accepted iff all lines are two decimal 32-bit tokens; the result is determined by the lines."
  },
  {
   "property": "C28",
   "status": "proved",
   "theorems": [
    "Verif.C28_intersection",
    "Verif.C28_conversions"
   ],
   "note": "All vertices and edges including loops."
  },
  {
   "property": "C29",
   "status": "proved",
   "theorems": [
    "Verif.C29_invert",
    "Verif.C29_majority"
   ],
   "note": "Every map with fewer than 2^64 entries and every iteration order of both maps."
  },
  {
   "property": "C30",
   "status": "proved",
   "theorems": [
    "Verif.C30_disjoint_extend",
    "Verif.C30_subset",
    "Verif.C30_from_sets"
   ],
   "note": "Colours of type u32; disjoint_extend under the hypothesis that no colour sum overflows; from_sets for at most 2^32 sets."
  },
  {
   "property": "C31",
   "status": "proved",
   "theorems": [
    "Verif.C31_history"
   ],
   "note": "Refinement of every editing history (any hash layout) to an abstract set of vertices and arcs; queries on absent vertices panic."
  },
  {
   "property": "C32",
   "status": "proved",
   "theorems": [
    "Verif.C32_degrees_arcs"
   ],
   "note": "Both degree sums, degree = in + out, and the ArcIterator run to exhaustion."
  },
  {
   "property": "C33",
   "status": "partial",
   "theorems": [
    "Verif.C33_undirected_partial",
    "Verif.C33_refuted"
   ],
   "note": "adjacent(u,v) tests only the arc uv (the code checks uv twice), so the symmetric statement is refuted; neighbours() is exact."
  },
  {
   "property": "C34",
   "status": "partial",
   "theorems": [
    "Verif.C34_union_partial",
    "Verif.C34_union_arcs",
    "Verif.C34_union_refuted",
    "Verif.C34_normalize_partial",
    "Verif.C34_normalize_arcs",
    "Verif.C34_normalize_refuted"
   ],
   "note": "Both operations copy edges() instead of arcs(): downward arcs come back reversed. Exact behaviour proved for all digraphs, preservation when all arcs go upward."
  },
  {
   "property": "C35",
   "status": "proved",
   "theorems": [
    "Verif.C35_eq",
    "Verif.C35_clone",
    "Verif.C35_from_iter"
   ],
   "note": "Equality, clone, collection from an arc list."
  },
  {
   "property": "C36",
   "status": "partial",
   "theorems": [
    "Verif.C36_path_partial",
    "Verif.C36_path_zero",
    "Verif.C36_path_refuted",
    "Verif.C36_cycle",
    "Verif.C36_matching",
    "Verif.C36_clique_partial",
    "Verif.C36_clique_refuted",
    "Verif.C36_independent",
    "Verif.C36_biclique_partial",
    "Verif.C36_biclique_refuted",
    "Verif.C36_star_partial",
    "Verif.C36_star_refuted",
    "Verif.C36_grid_partial",
    "Verif.C36_grid_refuted"
   ],
   "note": "Exact vertex and arc sets; degenerate sizes (path 0 and 1, clique 1, one empty side, 1x1 grid) lose vertices or underflow."
  },
  {
   "property": "C37",
   "status": "proved",
   "theorems": [
    "Verif.C37_components"
   ],
   "note": "any Graph implementation; union-find crate modelled by its documented behaviour"
  },
  {
   "property": "C38",
   "status": "proved",
   "theorems": [
    "Verif.C38_degeneracy_order",
    "Verif.C38_smallest_last",
    "Verif.C38_no_jump",
    "Verif.C38_orders"
   ],
   "note": "loopless graphs with at most 2^31 vertices, every bucket iteration order; the returned orders are characterised exactly"
  },
  {
   "property": "C39",
   "status": "proved",
   "theorems": [
    "Verif.C39_exact_small_degree",
    "Verif.C39_exact_of_degeneracy"
   ],
   "note": "also proved for every graph of degeneracy at most 130"
  },
  {
   "property": "C40",
   "status": "partial",
   "theorems": [
    "Verif.C40_bounds_partial",
    "Verif.C40_refuted"
   ],
   "note": "upper < degeneracy for K_132 (refuted); lower bound holds always, the correct upper bound is bucketTop(upper)"
  },
  {
   "property": "C41",
   "status": "proved",
   "theorems": [
    "Verif.C41_is_bipartite",
    "Verif.C41_outcomes"
   ],
   "note": "the bipartitions returned over all iteration orders are exactly those whose second side has no isolated vertex"
  },
  {
   "property": "C42",
   "status": "partial",
   "theorems": [
    "Verif.C42_odd_cycle_partial",
    "Verif.C42_shape_partial",
    "Verif.C42_cut_partial",
    "Verif.C42_outcomes_partial",
    "Verif.C42_refuted"
   ],
   "note": "witness is an odd cycle followed by a path walked forth and back, and every such walk is the witness of some run; vertices need not be distinct (refuted on the lollipop graph); the prefix before the second occurrence of the first vertex is an odd cycle"
  },
  {
   "property": "C43",
   "status": "proved",
   "theorems": [
    "Verif.C43_with_ordering",
    "Verif.C43_by_degeneracy",
    "Verif.C43_by_degeneracy_no_jump"
   ],
   "note": "every layout of the hash tables"
  },
  {
   "property": "C44",
   "status": "partial",
   "theorems": [
    "Verif.C44_swap_partial",
    "Verif.C44_any_swaps_partial",
    "Verif.C44_repaired_partial",
    "Verif.C44_refuted"
   ],
   "note": "false for adjacent vertices (edge 0-1); after any sequence of swaps all answers are right except that, for adjacent vertices swapped with each other and not swapped since, the earlier one counts as right instead of left neighbour of the later one"
  },
  {
   "property": "C45",
   "status": "proved",
   "theorems": [
    "Verif.C45_with_ordering",
    "Verif.C45_from_graph"
   ],
   "note": "unchecked reads are modelled as fault ub"
  },
  {
   "property": "C46",
   "status": "partial",
   "theorems": [
    "Verif.C46_normalize_partial",
    "Verif.C46_refuted"
   ],
   "note": "false for the empty graph (out-of-bounds read); proved for every non-empty graph"
  },
  {
   "property": "C47",
   "status": "proved",
   "theorems": [
    "Verif.C47_iterators"
   ],
   "note": "also after normalize and for to_degeneracy_graph"
  },
  {
   "property": "C48",
   "status": "proved",
   "theorems": [
    "Verif.C48_to_degeneracy_graph"
   ],
   "note": ""
  },
  {
   "property": "C49",
   "status": "proved",
   "theorems": [
    "Verif.C49_reach_sets"
   ],
   "note": "size bound: the u32 offsets must not overflow"
  },
  {
   "property": "C50",
   "status": "proved",
   "theorems": [
    "Verif.C50_queries",
    "Verif.C50_neighbours"
   ],
   "note": "neighbours() always panics (documented as unsupported in the code)"
  },
  {
   "property": "C51",
   "status": "proved",
   "theorems": [
    "Verif.C51_right_bfs"
   ],
   "note": ""
  },
  {
   "property": "C52",
   "status": "proved",
   "theorems": [
    "Verif.C52_sreach_set",
    "Verif.C52_sreach_sets",
    "Verif.C52_sreach_sizes",
    "Verif.C52_zero"
   ],
   "note": "for r = 0 the code underflows (C52_zero)"
  },
  {
   "property": "C53",
   "status": "proved",
   "theorems": [
    "Verif.C53_wreach_sets",
    "Verif.C53_wreach_sizes"
   ],
   "note": ""
  },
  {
   "property": "C54",
   "status": "partial",
   "theorems": [
    "Verif.C54_refuted",
    "Verif.C54_count_max_cliques_partial",
    "Verif.C54_exact_partial"
   ],
   "note": "Refuted: on a triangle with a pendant vertex and the centre last in the ordering 4 is returned instead of 2. Proved for all orderings whose left neighbourhoods are complete multipartite. For all graphs the number returned is described exactly by an independent recursion (numPicked); what is missing is only that it equals the number of maximal cliques, which is false."
  },
  {
   "property": "C55",
   "status": "partial",
   "theorems": [
    "Verif.C55_refuted",
    "Verif.C55_colour_greedy_partial",
    "Verif.C55_colour_greedy_chordal_partial",
    "Verif.C55_colour_greedy_no_jump_partial",
    "Verif.C55_colour_greedy_exact_partial",
    "Verif.C55_panics"
   ],
   "note": "Refuted: vertices whose left neighbours use all colours present, one of them twice, get no colour, and later neighbours of such a vertex panic. Proved: every returned colouring is proper and uses colour k only if some vertex has k left neighbours; it is total if left neighbourhoods are cliques (then optimal) or left degrees never grow by more than one; the result and the panics are described exactly for all graphs and orderings."
  },
  {
   "property": "C56",
   "status": "proved",
   "theorems": [
    "Verif.C56_domset_with_target",
    "Verif.C56_domset",
    "Verif.C56_domset_witness"
   ],
   "note": "Radius below 2^15 (its doubled square is computed in u32), at most 2^31 vertices. With a witness the same set is returned unless colour_greedy panics, which needs a crowd: targets in the set each of which has 130 others within distance 2*radius."
  },
  {
   "property": "C57",
   "status": "partial",
   "theorems": [
    "Verif.C57_refuted",
    "Verif.C57_domset_distances_partial"
   ],
   "note": "Refuted on a path with five vertices: a neighbour of a dominating vertex gets distance 2. Proved: the map is total, bounded by the radius, and at least the distance for targets. Which values are returned is determined exactly by the rule of C103."
  },
  {
   "property": "C58",
   "status": "proved",
   "theorems": [
    "Verif.C58_witness",
    "Verif.C58_witness_lower_bound",
    "Verif.C58_witness_total",
    "Verif.C58_witness_few"
   ],
   "note": "Scatteredness and lower bound for every witness that is returned; existence unless there is a crowd of targets each with 130 others within distance 2*radius (see C108 for a panic). Radius below 2^15, at most 2^31 vertices."
  },
  {
   "property": "C59",
   "status": "partial",
   "theorems": [
    "Verif.C59_refuted",
    "Verif.C59_panics",
    "Verif.C59_scattered_colouring_partial",
    "Verif.C59_few_classes_partial"
   ],
   "note": "Refuted for odd distances: classes may contain vertices at distance distance-1. Also false for even distances: a call with distance 2 may panic. Proved: termination, classes partition the target, distance at least 2*(distance/2) within classes, no two classes mergeable, a bound on the number of classes; the only failure is a panic, which needs targets each of which has 130 others within distance 2*(distance/2)."
  },
  {
   "property": "C60",
   "status": "proved",
   "theorems": [
    "Verif.C60_small_distance",
    "Verif.C60_small_distance_sets"
   ],
   "note": "2*D < 2^32."
  },
  {
   "property": "C61",
   "status": "proved",
   "theorems": [
    "Verif.C61_leftmost_rightmost",
    "Verif.C61_degrees"
   ],
   "note": "for every implementation that represents an ordered graph"
  },
  {
   "property": "C62",
   "status": "proved",
   "theorems": [
    "Verif.C62_compute_traces"
   ],
   "note": "For a list sorted by the ordering (the code asserts it) without repetition, on any DegenGraph made by the constructors; all iteration orders."
  },
  {
   "property": "C63",
   "status": "proved",
   "theorems": [
    "Verif.C63_neighbour_count"
   ],
   "note": "Same preconditions as C62."
  },
  {
   "property": "C64",
   "status": "proved",
   "theorems": [
    "Verif.C64_is_shattered",
    "Verif.C64_repeated"
   ],
   "note": "For duplicate-free X, |X| < 64 and k - |X| < 64 (powers of two in usize); other sizes in C116_sizes. With a repeated vertex a subtraction underflows (C64_repeated)."
  },
  {
   "property": "C65",
   "status": "proved",
   "theorems": [
    "Verif.C65_orient",
    "Verif.C65_in_degree"
   ],
   "note": "orient of any loopless graph, any tie-breaking: same vertices, each edge oriented exactly once, acyclic, num_edges kept; arcs follow the degeneracy order, in-degrees bounded by the reported degeneracy bound."
  },
  {
   "property": "C66",
   "status": "proved",
   "theorems": [
    "Verif.C66_augment"
   ],
   "note": "From any state reached by orient/augment/domset/layer. Hash orders of all tables arbitrary (RoundOrder, DeepOrder)."
  },
  {
   "property": "C67",
   "status": "partial",
   "theorems": [
    "Verif.C67_small_distance_partial",
    "Verif.C67_closed_partial",
    "Verif.C67_exact_partial",
    "Verif.C67_refuted",
    "Verif.C67_refuted_diagonal"
   ],
   "note": "False of the code: on the five-cycle a pair at distance 2 gets None (arcs lost by DTFArcIterator), and small_distance(u,u) is not Some(0). Proved: no panic, Some(k) is witnessed by a walk of length k <= depth, Some(1) iff adjacent; exact for distinct vertices when the augmentation is fraternally closed; in general the result is exactly the smallest weight of an arc between the vertices or sum of two arcs from a common vertex, cut off at the depth."
  },
  {
   "property": "C68",
   "status": "proved",
   "theorems": [
    "Verif.C68_domset",
    "Verif.C68_overflow"
   ],
   "note": "From any reached state, any hash order, at most 2^31 vertices, r < 2^15; for larger r the cutoff (2r)^2 overflows u32 (proved)."
  },
  {
   "property": "C69",
   "status": "partial",
   "theorems": [
    "Verif.C69_layer_partial",
    "Verif.C69_add_arc_partial",
    "Verif.C69_refuted",
    "Verif.C69_refuted_count",
    "Verif.C69_refuted_panic"
   ],
   "note": "False of the code: reserve_depth sets the depth unconditionally, so layer(1) hides heavier arcs from num_arcs_at_depth, and it adds a single counter, so add_arc with a depth two above the current one panics. Proved for depths at most one above the current one: no panic, no arc lost, depth becomes d."
  },
  {
   "property": "C70",
   "status": "partial",
   "theorems": [
    "Verif.C70_arcs_at_partial",
    "Verif.C70_arcs_partial",
    "Verif.C70_refuted"
   ],
   "note": "False of the code: the iterator skips arcs from a smaller to a larger vertex and yields (head, tail). Proved: it yields exactly the remaining arcs once each."
  },
  {
   "property": "C71",
   "status": "partial",
   "theorems": [
    "Verif.C71_layer_partial",
    "Verif.C71_layer_whole_partial",
    "Verif.C71_layer_new_partial",
    "Verif.C71_refuted",
    "Verif.C71_refuted_degree"
   ],
   "note": "False of the code: adjacent, degree, in_degree, out_degree of a layer refer to the whole graph (what they return is proved). Proved: has_arc, in_neighbours, num_edges, vertices, contains and num_vertices are right, also for DTFLayer::new at existing depths (has_arc, in_neighbours, contains)."
  },
  {
   "property": "C72",
   "status": "proved",
   "theorems": [
    "Verif.C72_neighbourhoods",
    "Verif.C72_degree_maps"
   ],
   "note": "Digraph trait helpers on EditDigraph."
  },
  {
   "property": "C73",
   "status": "proved",
   "theorems": [
    "Verif.C73_counters"
   ],
   "note": "From any state reached by orient/augment/domset/layer."
  },
  {
   "property": "C74",
   "status": "partial",
   "theorems": [
    "Verif.C74_orient_deep_partial",
    "Verif.C74_refuted"
   ],
   "note": "False of the code for depth >= 2: to_undirected loses arcs, so edges can disappear. Proved: no panic, same vertices, arcs join neighbours, acyclic; all edges kept for depth <= 1. C105 says exactly which arcs are returned."
  },
  {
   "property": "C75",
   "status": "proved",
   "theorems": [
    "Verif.C75_transitive"
   ],
   "note": "For all states reached by orient and augment."
  },
  {
   "property": "C76",
   "status": "proved",
   "theorems": [
    "Verif.C76_weights"
   ],
   "note": "For all states reached by orient and augment with depth < 2^32 (weights are cast to u32)."
  },
  {
   "property": "C77",
   "status": "partial",
   "theorems": [
    "Verif.C77_to_undirected_partial",
    "Verif.C77_refuted"
   ],
   "note": "False of the code: only arcs from a larger to a smaller vertex become edges (proved exactly)."
  },
  {
   "property": "C78",
   "status": "proved",
   "theorems": [
    "Verif.C78_edge_subgraph"
   ],
   "note": "For all states built through the interface and any list of pairs."
  },
  {
   "property": "C79",
   "status": "proved",
   "theorems": [
    "Verif.C79_degrees",
    "Verif.C79_digraph"
   ],
   "note": "for every represented undirected graph and for every digraph"
  },
  {
   "property": "C80",
   "status": "proved",
   "theorems": [
    "Verif.C80_neighbourhoods",
    "Verif.C80_digraph",
    "Verif.C80_left",
    "Verif.C80_dtf_at",
    "Verif.C80_dtf"
   ],
   "note": "one theorem per iterator"
  },
  {
   "property": "C81",
   "status": "partial",
   "theorems": [
    "Verif.C81_arcs",
    "Verif.C81_disj_unions_partial",
    "Verif.C81_refuted"
   ],
   "note": "false: downward arcs are reversed; exact result proved for all lists"
  },
  {
   "property": "C82",
   "status": "proved",
   "theorems": [
    "Verif.C82_neighbourhoods",
    "Verif.C82_subgraph",
    "Verif.C82_components",
    "Verif.C82_bipartite"
   ],
   "note": "for every reachable digraph"
  },
  {
   "property": "C83",
   "status": "partial",
   "theorems": [
    "Verif.C83_count",
    "Verif.C83_edges_partial",
    "Verif.C83_refuted"
   ],
   "note": "false: pairs joined both ways and loops are yielded twice; exact multiplicity proved"
  },
  {
   "property": "C84",
   "status": "proved",
   "theorems": [
    "Verif.C84_graph_text",
    "Verif.C84_vec_text",
    "Verif.C84_set_text"
   ],
   "note": "All three readers, all texts."
  },
  {
   "property": "C85",
   "status": "partial",
   "theorems": [
    "Verif.C85_graph_bytes_partial",
    "Verif.C85_vec_bytes_partial",
    "Verif.C85_set_bytes_partial",
    "Verif.C85_panics",
    "Verif.C85_gzip_panics"
   ],
   "note": "false: the readers panic on invalid UTF-8 and on read errors; exact conditions for success, error and panic proved for every byte stream"
  },
  {
   "property": "C86",
   "status": "proved",
   "theorems": [
    "Verif.C86_files",
    "Verif.C86_graph_files",
    "Verif.C86_vertex_files"
   ],
   "note": "gzip is a parameter with gunzip (gzip b) = b; file creation and writing assumed to succeed"
  },
  {
   "property": "C87",
   "status": "proved",
   "theorems": [
    "Verif.C87_from_file"
   ],
   "note": "Unix paths."
  },
  {
   "property": "C88",
   "status": "partial",
   "theorems": [
    "Verif.C88_refuted",
    "Verif.C88_degeneracy_colouring_partial",
    "Verif.C88_outcomes_partial",
    "Verif.C88_panics_partial"
   ],
   "note": "Refuted for larger degeneracy, where buckets contain several degrees: the call panics on a graph with 268 vertices and degeneracy 133. Proved for degeneracy at most 129; for all graphs the possible colourings and panics are described by equivalences."
  },
  {
   "property": "C89",
   "status": "partial",
   "theorems": [
    "Verif.C89_ordgraph",
    "Verif.C89_degengraph_partial",
    "Verif.C89_reachgraph_partial",
    "Verif.C89_reachgraph_missing",
    "Verif.C89_refuted",
    "Verif.C89_refuted_reachgraph"
   ],
   "note": "true for OrdGraph; false for DegenGraph and ReachGraph, where index_of is the offset of the vertex's record (exact formula proved)"
  },
  {
   "property": "C90",
   "status": "proved",
   "theorems": [
    "Verif.C90_from_iter",
    "Verif.C90_insert",
    "Verif.C90_queries",
    "Verif.C90_eq"
   ],
   "note": ""
  },
  {
   "property": "C91",
   "status": "proved",
   "theorems": [
    "Verif.C91_appends",
    "Verif.C91_graph"
   ],
   "note": ""
  },
  {
   "property": "C92",
   "status": "proved",
   "theorems": [
    "Verif.C92_appends",
    "Verif.C92_too_far",
    "Verif.C92_borderline"
   ],
   "note": ""
  },
  {
   "property": "C93",
   "status": "proved",
   "theorems": [
    "Verif.C93_domset_with_target_size",
    "Verif.C93_domset_size"
   ],
   "note": "factor c(c+4r^2) where c exceeds all weak r-reachability counts"
  },
  {
   "property": "C94",
   "status": "proved",
   "theorems": [
    "Verif.C94_navigation",
    "Verif.C94_builder"
   ],
   "note": "both conversions and the builder, total size below 2^32"
  },
  {
   "property": "C95",
   "status": "proved",
   "theorems": [
    "Verif.C95_strong_in_weak",
    "Verif.C95_radius_one",
    "Verif.C95_radius_monotone",
    "Verif.C95_compose",
    "Verif.C95_decompose"
   ],
   "note": "radius below 2^32 - 1, and at least 1 where sreach_sets is called"
  },
  {
   "property": "C96",
   "status": "proved",
   "theorems": [
    "Verif.C96_structure",
    "Verif.C96_size"
   ],
   "note": "at most 2^31 vertices; C96_size assumes that small_distance is complete up to r (see C67) and depth at most r before the call"
  },
  {
   "property": "C97",
   "status": "proved",
   "theorems": [
    "Verif.C97_distances",
    "Verif.C97_bipartite",
    "Verif.C97_degeneracy"
   ],
   "note": ""
  },
  {
   "property": "C98",
   "status": "proved",
   "theorems": [
    "Verif.C98_disj_union",
    "Verif.C98_add_edge",
    "Verif.C98_subdivide",
    "Verif.C98_contract",
    "Verif.C98_count"
   ],
   "note": ""
  },
  {
   "property": "C99",
   "status": "proved",
   "theorems": [
    "Verif.C99_compose",
    "Verif.C99_symmetric",
    "Verif.C99_component"
   ],
   "note": ""
  },
  {
   "property": "C100",
   "status": "proved",
   "theorems": [
    "Verif.C100_sums",
    "Verif.C100_shattered"
   ],
   "note": ""
  },
  {
   "property": "C101",
   "status": "proved",
   "theorems": [
    "Verif.C101_cartesian",
    "Verif.C101_analyses",
    "Verif.C101_lexicographic"
   ],
   "note": "vertices of the products without neighbours are absent from the returned graph (see C22, C23); degeneracy stated where the bounds are exact"
  },
  {
   "property": "C102",
   "status": "proved",
   "theorems": [
    "Verif.C102_path",
    "Verif.C102_cycle",
    "Verif.C102_matching",
    "Verif.C102_independent",
    "Verif.C102_clique",
    "Verif.C102_biclique",
    "Verif.C102_grid",
    "Verif.C102_degeneracy_path",
    "Verif.C102_degeneracy_cycle",
    "Verif.C102_degeneracy_clique",
    "Verif.C102_degeneracy_biclique",
    "Verif.C102_degeneracy_grid"
   ],
   "note": "degeneracy stated where the bounds are exact; grid except 1x1 (see C11)"
  },
  {
   "property": "C103",
   "status": "proved",
   "theorems": [
    "Verif.C103_domset_with_target_rule",
    "Verif.C103_rule_applies",
    "Verif.C103_domset_determined",
    "Verif.C103_radius_zero"
   ],
   "note": "the witness colouring itself is described by C55 and C58"
  },
  {
   "property": "C104",
   "status": "proved",
   "theorems": [
    "Verif.C104_domset_rule",
    "Verif.C104_domset_determined",
    "Verif.C104_domset_repeat"
   ],
   "note": "the augmentation is the one after the call; see C64 to C67 for what augment does"
  },
  {
   "property": "C105",
   "status": "proved",
   "theorems": [
    "Verif.C105_orient",
    "Verif.C105_orient_outcomes",
    "Verif.C105_orient_deep",
    "Verif.C105_orient_deep_outcomes",
    "Verif.C105_augment",
    "Verif.C105_augment_outcomes",
    "Verif.C105_round",
    "Verif.C105_ascending"
   ],
   "note": "The specification (Spec/Augment) is relational: the smallest-last orders depend on hash orders. The _outcomes theorems are equivalences over all hash orders (at most 2^31 vertices): exactly the results allowed by the specification occur."
  },
  {
   "property": "C106",
   "status": "partial",
   "theorems": [
    "Verif.C106_out_arcs_partial",
    "Verif.C106_refuted"
   ],
   "note": "False of the code: arcs_at skips half of the arcs and the others are inserted reversed, so in-degrees grow by the out-degrees of the orientation; on a graph with 11 vertices a star of fraternal pairs (degeneracy 1) adds three arcs into its centre. Proved instead: the bound for the arcs leaving a vertex, and that all these arcs ascend."
  },
  {
   "property": "C107",
   "status": "proved",
   "theorems": [
    "Verif.C107_witness",
    "Verif.C107_panic"
   ],
   "note": "Equivalences over the bucket orders of by_degeneracy, all other orders arbitrary. J is determined by the greedy rule of C103. Radius below 2^15, at most 2^31 vertices."
  },
  {
   "property": "C108",
   "status": "partial",
   "theorems": [
    "Verif.C108_refuted",
    "Verif.C108_witness_partial",
    "Verif.C108_lower_bound_partial"
   ],
   "note": "Refuted on the subdivision of a graph with 268 vertices, radius 1: the call panics. Proved for conflict graphs of degeneracy at most 129."
  },
  {
   "property": "C109",
   "status": "proved",
   "theorems": [
    "Verif.C109_outcomes",
    "Verif.C109_panic"
   ],
   "note": ""
  },
  {
   "property": "C110",
   "status": "partial",
   "theorems": [
    "Verif.C110_refuted",
    "Verif.C110_refuted_overflow",
    "Verif.C110_refuted_from_graph",
    "Verif.C110_smallest_loop",
    "Verif.C110_orders_partial",
    "Verif.C110_overflow_partial",
    "Verif.C110_degeneracy_partial",
    "Verif.C110_no_repeat_partial",
    "Verif.C110_orient_partial",
    "Verif.C110_by_degeneracy_partial"
   ],
   "note": "Refuted as stated. The possible lists and overflows over all hash orders are described exactly; missing is only what is false."
  },
  {
   "property": "C111",
   "status": "proved",
   "theorems": [
    "Verif.C111_panics",
    "Verif.C111_with_ordering"
   ],
   "note": "Both cases of an exhaustive case distinction on the list."
  },
  {
   "property": "C112",
   "status": "proved",
   "theorems": [
    "Verif.C112_panics",
    "Verif.C112_with_ordering",
    "Verif.C112_repeated"
   ],
   "note": "Both cases of an exhaustive case distinction on the list. C112_repeated is a concrete case in which an edge is counted twice."
  },
  {
   "property": "C113",
   "status": "proved",
   "theorems": [
    "Verif.C113_panics",
    "Verif.C113_edit_graph",
    "Verif.C113_edit_digraph",
    "Verif.C113_degen_graph",
    "Verif.C113_reach_graph",
    "Verif.C113_ord_graph",
    "Verif.C113_contract_pair",
    "Verif.C113_contract_into",
    "Verif.C113_contract",
    "Verif.C113_contract_reports_missing"
   ],
   "note": "All cases, for every type that implements the trait."
  },
  {
   "property": "C114",
   "status": "proved",
   "theorems": [
    "Verif.C114_biclique",
    "Verif.C114_matching",
    "Verif.C114_kpartite",
    "Verif.C114_grid",
    "Verif.C114_digraph",
    "Verif.C114_digraph_matching",
    "Verif.C114_disj_union",
    "Verif.C114_digraph_disj_union"
   ],
   "note": "Complements C11, C12, C34 and C36, so that all arguments are covered."
  },
  {
   "property": "C115",
   "status": "proved",
   "theorems": [
    "Verif.C115_subdivide_overflow",
    "Verif.C115_products_overflow",
    "Verif.C115_subdivide_once"
   ],
   "note": "Complements C21, C22 and C23, so that all graphs are covered."
  },
  {
   "property": "C116",
   "status": "partial",
   "theorems": [
    "Verif.C116_refuted",
    "Verif.C116_memory_safe_partial",
    "Verif.C116_non_vertices",
    "Verif.C116_unsorted",
    "Verif.C116_sizes",
    "Verif.C116_repeated",
    "Verif.C116_repeated_count",
    "Verif.C116_repeated_shattered",
    "Verif.C116_neighbour_count"
   ],
   "note": "The claim that the safe API has no undefined behaviour is refuted for lists with a repeated vertex; proved for duplicate-free lists, with the exact outcome for every size. neighbour_count is determined for every list. For lists with repetitions compute_traces and is_shattered are only bounded (never all sets, never yes); which of them fail is determined for lists closed under left neighbours only."
  },
  {
   "property": "C117",
   "status": "proved",
   "theorems": [
    "Verif.C117_scattered_diverges",
    "Verif.C117_scattered_never_returns",
    "Verif.C117_scattered_empty",
    "Verif.C117_domset_ignores",
    "Verif.C117_domset_no_target"
   ],
   "note": "With more than 130 target vertices a panic may come first (crowds, see C58)."
  },
  {
   "property": "C118",
   "status": "partial",
   "theorems": [
    "Verif.C118_equal_refuted",
    "Verif.C118_bounds_refuted",
    "Verif.C118_equal_partial",
    "Verif.C118_bounds_partial"
   ],
   "note": "Both intended statements are refuted; the partial theorems are exact."
  },
  {
   "property": "C119",
   "status": "proved",
   "theorems": [
    "Verif.C119_panics",
    "Verif.C119_works",
    "Verif.C119_empty"
   ],
   "note": ""
  },
  {
   "property": "C120",
   "status": "proved",
   "theorems": [
    "Verif.C120_shattered"
   ],
   "note": ""
  },
  {
   "property": "C121",
   "status": "proved",
   "theorems": [
    "Verif.C121_compute_traces"
   ],
   "note": "Bound on the number of nonzero traces by degeneracy of the ordering."
  },
  {
   "property": "C122",
   "status": "proved",
   "theorems": [
    "Verif.C122_sizes",
    "Verif.C122_domset"
   ],
   "note": "Strong against weak reachability, and the resulting ratio of domset."
  },
  {
   "property": "C123",
   "status": "proved",
   "theorems": [
    "Verif.C123_bounds",
    "Verif.C123_absorb",
    "Verif.C123_distributive",
    "Verif.C123_de_morgan",
    "Verif.C123_subgraph"
   ],
   "note": "Lattice laws of merge, intersect, invert, subgraph and compare_subgraph."
  },
  {
   "property": "C124",
   "status": "proved",
   "theorems": [
    "Verif.C124_normalize",
    "Verif.C124_disj_union",
    "Verif.C124_subgraph",
    "Verif.C124_edits"
   ],
   "note": "Degeneracy clauses assume no loops, at most 2^31 vertices and a reported upper bound of at most 129 (beyond that buckets are not exact, C42)."
  },
  {
   "property": "C125",
   "status": "proved",
   "theorems": [
    "Verif.C125_too_few",
    "Verif.C125_bound",
    "Verif.C125_bound_degenerate",
    "Verif.C125_triangle_free",
    "Verif.C125_chordal"
   ],
   "note": "Exact values on triangle-free graphs and chordal orderings, a bound for all graphs, and an example of an undercount."
  },
  {
   "property": "C126",
   "status": "proved",
   "theorems": [
    "Verif.C126_edit_digraph",
    "Verif.C126_dtf_degrees",
    "Verif.C126_dtf_in_neighbourhood",
    "Verif.C126_layer",
    "Verif.C126_layer_differs",
    "Verif.C126_dtf_unimplemented",
    "Verif.C126_layer_unimplemented"
   ],
   "note": "Provided methods of Graph and Digraph on EditDigraph, DTFGraph and DTFLayer."
  },
  {
   "property": "C127",
   "status": "proved",
   "theorems": [
    "Verif.C127_degeneracy",
    "Verif.C127_degeneracy_order",
    "Verif.C127_fill_in",
    "Verif.C127_treewidth_upper",
    "Verif.C127_treewidth_attained",
    "Verif.C127_degeneracy_treewidth"
   ],
   "note": "Exact characterisation of treewidth by sreach_sizes at large radius; degeneracy order attains radius 1 for values up to 129."
  },
  {
   "property": "C128",
   "status": "proved",
   "theorems": [
    "Verif.C128_components",
    "Verif.C128_treedepth_upper",
    "Verif.C128_treedepth_attained"
   ],
   "note": "Exact characterisation of treedepth by wreach_sizes at large radius."
  },
  {
   "property": "C129",
   "status": "proved",
   "theorems": [
    "Verif.C129_graph_report",
    "Verif.C129_vec_report",
    "Verif.C129_set_report",
    "Verif.C129_outcomes",
    "Verif.C129_files"
   ],
   "note": "Texts of operating-system errors are not modelled; the Debug formatting of file names is a parameter."
  },
  {
   "property": "C130",
   "status": "proved",
   "theorems": [
    "Verif.C130_remove_vertices",
    "Verif.C130_subgraph",
    "Verif.C130_neighbourhood",
    "Verif.C130_normalize",
    "Verif.C130_contract_steps",
    "Verif.C130_disj_union"
   ],
   "note": "Results compared with ==; all hash iteration orders; disj_union as long as the ids stay below 2^32."
  },
  {
   "property": "C131",
   "status": "proved",
   "theorems": [
    "Verif.C131_sreach",
    "Verif.C131_wreach",
    "Verif.C131_balls"
   ],
   "note": "Loopless graphs; radius at least n-1 on the side of g."
  },
  {
   "property": "C132",
   "status": "proved",
   "theorems": [
    "Verif.C132_domset",
    "Verif.C132_colouring",
    "Verif.C132_bipartite"
   ],
   "note": "pairs of distinct ids for the first two; loops allowed for is_bipartite"
  },
  {
   "property": "C133",
   "status": "proved",
   "theorems": [
    "Verif.C133_contract_pair",
    "Verif.C133_contract_raises",
    "Verif.C133_invert",
    "Verif.C133_merge",
    "Verif.C133_intersect",
    "Verif.C133_edges",
    "Verif.C133_forest",
    "Verif.C133_subdivide",
    "Verif.C133_lexicographic"
   ],
   "note": "Every statement compares values returned by the modelled functions; upper bounds above 129 are only estimates (C40), so exact comparisons assume at most 129."
  },
  {
   "property": "C134",
   "status": "proved",
   "theorems": [
    "Verif.C134_path",
    "Verif.C134_cycle",
    "Verif.C134_clique",
    "Verif.C134_independent",
    "Verif.C134_matching",
    "Verif.C134_biclique",
    "Verif.C134_star",
    "Verif.C134_span",
    "Verif.C134_grid",
    "Verif.C134_treewidth_path",
    "Verif.C134_treewidth_clique",
    "Verif.C134_treewidth_cycle",
    "Verif.C134_treewidth_biclique"
   ],
   "note": "Exact sizes for path, cycle, clique, independent, matching, biclique, star; bounds for any ordering with short edges and the grid; treewidth and treedepth attained."
  },
  {
   "property": "C135",
   "status": "proved",
   "theorems": [
    "Verif.C135_path",
    "Verif.C135_cycle",
    "Verif.C135_clique",
    "Verif.C135_independent",
    "Verif.C135_matching",
    "Verif.C135_star",
    "Verif.C135_biclique",
    "Verif.C135_grid"
   ],
   "note": "Exact colouring for every size; shows where colour_greedy wastes a colour or leaves vertices uncoloured."
  },
  {
   "property": "C136",
   "status": "proved",
   "theorems": [
    "Verif.C136_order_independent",
    "Verif.C136_cutoff",
    "Verif.C136_metric",
    "Verif.C136_balls",
    "Verif.C136_components",
    "Verif.C136_dtf",
    "Verif.C136_domset",
    "Verif.C136_witness"
   ],
   "note": "Cut-offs below 2^31, radius below 2^15; for the DTFGraph loop-free graphs."
  },
  {
   "property": "C137",
   "status": "proved",
   "theorems": [
    "Verif.C137_path",
    "Verif.C137_cycle",
    "Verif.C137_clique",
    "Verif.C137_independent",
    "Verif.C137_matching",
    "Verif.C137_biclique",
    "Verif.C137_biclique_radius_one",
    "Verif.C137_star"
   ],
   "note": "At most 2^31 vertices, radius below 2^15; grids are not treated."
  },
  {
   "property": "C138",
   "status": "proved",
   "theorems": [
    "Verif.C138_path",
    "Verif.C138_cycle",
    "Verif.C138_clique",
    "Verif.C138_matching",
    "Verif.C138_biclique",
    "Verif.C138_biclique_radius_one",
    "Verif.C138_star",
    "Verif.C138_no_constant"
   ],
   "note": "At most 2^31 vertices, radius below 2^15."
  },
  {
   "property": "C139",
   "status": "proved",
   "theorems": [
    "Verif.C139_analysed",
    "Verif.C139_degeneracy",
    "Verif.C139_sizes",
    "Verif.C139_colours",
    "Verif.C139_domset",
    "Verif.C139_domset_radius_one"
   ],
   "note": "all lists of sizes with at least two nonempty parts; other lists are C114"
  },
  {
   "property": "C140",
   "status": "proved",
   "theorems": [
    "Verif.C140_path",
    "Verif.C140_cycle",
    "Verif.C140_matching",
    "Verif.C140_clique",
    "Verif.C140_independent",
    "Verif.C140_biclique",
    "Verif.C140_star",
    "Verif.C140_grid",
    "Verif.C140_kpartite"
   ],
   "note": "all sizes and all orderings"
  },
  {
   "property": "C141",
   "status": "proved",
   "theorems": [
    "Verif.C141_names",
    "Verif.C141_steps",
    "Verif.C141_contract",
    "Verif.C141_invert",
    "Verif.C141_unions",
    "Verif.C141_subgraph",
    "Verif.C141_offset"
   ],
   "note": "Identities between generated graphs and the results of edit operations on them; the offset of disj_union is exact."
  },
  {
   "property": "C142",
   "status": "proved",
   "theorems": [
    "Verif.C142_orient",
    "Verif.C142_offset",
    "Verif.C142_normalize",
    "Verif.C142_kept"
   ],
   "note": "The reversal of the last arc of a directed cycle is the defect recorded under C34; it is stated here as it happens."
  },
  {
   "property": "C143",
   "status": "proved",
   "theorems": [
    "Verif.C143_graphs",
    "Verif.C143_digraphs"
   ],
   "note": "The span of a member is given as a function of the member; it is unique."
  },
  {
   "property": "C144",
   "status": "proved",
   "theorems": [
    "Verif.C144_ord",
    "Verif.C144_degen"
   ],
   "note": "Complements C51 and C52, which assume that the root is a vertex."
  }
 ]
}