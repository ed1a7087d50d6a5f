{"id": "C01", "title": "EditGraph behaves like a vertex set plus an edge set", "statement": "After any history of add_vertex, remove_vertex, add_edge, remove_edge, add_vertices, add_edges, remove_loops and remove_isolates starting from EditGraph::new(), no call panics, every returned boolean/count says exactly whether/how much the graph changed, and contains, adjacent, num_vertices, num_edges and degree answer exactly as an abstract pair (finite set of vertices, finite set of unordered edges) updated by the same history.", "quantifier": "every finite sequence of editing calls with arbitrary vertex ids, every hash-table layout", "why_tests_cant": "the set of histories is infinite; tests exercise a handful of fixed sequences", "anchors": ["src/editgraph.rs: add_vertex, remove_vertex, add_edge, remove_edge, adjacent, degree, contains, num_vertices, num_edges", "src/graph.rs: MutableGraph::{add_vertices,add_edges,remove_loops,remove_isolates}"]}
{"id": "C02", "title": "Edges are symmetric and their endpoints are vertices", "statement": "In every reachable EditGraph adjacent(u,v) equals adjacent(v,u), and if it is true then contains(u) and contains(v) hold and v is among neighbours(u); neighbours(u) lists every neighbour exactly once and panics exactly for u not in the graph.", "quantifier": "every reachable graph and every pair of vertices", "why_tests_cant": "invariant over all reachable states", "anchors": ["src/editgraph.rs: adjacent, neighbours, contains"]}
{"id": "C03", "title": "Degree and handshake", "statement": "In every reachable EditGraph degree(u) is the number of neighbours of u with a loop counted twice (0 for absent u), and the degrees sum to 2*num_edges().", "quantifier": "every reachable graph", "why_tests_cant": "degrees are stored redundantly; consistency after every history is an invariant", "anchors": ["src/editgraph.rs: degree, add_edge, remove_edge, remove_vertex"]}
{"id": "C04", "title": "edges() enumerates each edge exactly once, smaller endpoint first", "statement": "For every graph that stores an undirected graph, edges() yields each edge (including loops) exactly once as a pair (a,b) with a<=b, and yields exactly num_edges() pairs, in whatever order the hash tables iterate.", "quantifier": "every graph, every iteration order", "why_tests_cant": "iteration order depends on hash layout; tests see one layout", "anchors": ["src/iterators.rs: EdgeIterator::{new,advance,next}, NeighIterator::next"]}
{"id": "C05", "title": "vertices_and_edges() enumerates every vertex and every edge exactly once", "statement": "For every graph, vertices_and_edges() yields each vertex exactly once and each edge exactly once with the smaller endpoint first; in particular its edges are those of edges().", "quantifier": "every graph, every iteration order", "why_tests_cant": "must hold for all graphs, including graphs with loops", "anchors": ["src/iterators.rs: MixedIterator::{new,advance,next}"]}
{"id": "C06", "title": "Equality of EditGraphs is extensional", "statement": "Two reachable EditGraphs compare equal iff they have the same vertices and the same adjacency, no matter which histories built them.", "quantifier": "every pair of histories", "why_tests_cant": "needs all pairs of histories; relies on stored degrees and edge counters being functions of the abstract graph", "anchors": ["src/editgraph.rs: PartialEq::eq"]}
{"id": "C07", "title": "clone() yields an equal graph", "statement": "clone() of a reachable EditGraph never panics and compares equal to the original; it therefore answers every query identically.", "quantifier": "every reachable graph, every iteration order", "why_tests_cant": "clone rebuilds the graph edge by edge in hash order", "anchors": ["src/editgraph.rs: Clone::clone"]}
{"id": "C08", "title": "Building from edges is order- and duplicate-insensitive", "statement": "EditGraph::from_iter on any two edge lists with the same set of unordered edges yields equal graphs, containing exactly the endpoints and exactly those edges; add_edges returns the number of distinct new edges.", "quantifier": "every finite list of edges", "why_tests_cant": "all permutations/duplications/orientations of all lists", "anchors": ["src/editgraph.rs: FromIterator::from_iter", "src/graph.rs: MutableGraph::add_edges"]}
{"id": "C09", "title": "Edits are undone by the inverse edit", "statement": "Adding an absent edge between existing vertices and removing it again, or adding an absent vertex and removing it again, gives a graph equal to the original; repeating an add or a remove is a no-op that returns false.", "quantifier": "every reachable graph, every vertex/pair", "why_tests_cant": "for every state", "anchors": ["src/editgraph.rs: add_edge, remove_edge, add_vertex, remove_vertex"]}
{"id": "C10", "title": "remove_loops and remove_isolates", "statement": "remove_loops deletes exactly the loops and returns their number; remove_isolates deletes exactly the vertices without incident edges and returns their number; neither touches anything else.", "quantifier": "every reachable graph", "why_tests_cant": "for every state", "anchors": ["src/graph.rs: MutableGraph::remove_loops, MutableGraph::remove_isolates"]}
{"id": "C11", "title": "Named generators produce the advertised graphs", "statement": "path(n), cycle(n), matching(n), clique(n), independent(n), star(n), biclique(s,t), complete_kpartite(sizes) and grid(s,t) have exactly the advertised vertex set and edge set for all parameters whose vertex ids fit into 32 bits.", "quantifier": "all parameters", "why_tests_cant": "infinitely many parameters, degenerate sizes are easily missed", "anchors": ["src/editgraph.rs: path, cycle, matching, star, clique, independent, biclique, complete_kpartite, grid"]}
{"id": "C12", "title": "disj_union is a disjoint union", "statement": "disj_union keeps the first graph unchanged, adds a shifted copy of the second with no shared vertex and no edge between the parts; vertex and edge counts add up. disj_unions folds this.", "quantifier": "all pairs (lists) of graphs whose shifted ids fit into 32 bits", "why_tests_cant": "all graphs", "anchors": ["src/editgraph.rs: disj_union, disj_unions"]}
{"id": "C13", "title": "normalize relabels to 0..n-1 preserving order and edges", "statement": "normalize returns a graph on exactly the vertices 0..n-1 and a map from new to old vertices that is a strictly increasing bijection under which adjacency is preserved both ways.", "quantifier": "every reachable graph", "why_tests_cant": "all graphs, all label sets", "anchors": ["src/editgraph.rs: normalize"]}
{"id": "C14", "title": "contract_pair identifies v with u", "statement": "For vertices u and v of the graph contract_pair(u,v) removes v, keeps every other vertex, makes u adjacent to exactly the old neighbours of u or v other than v (no new loop), and leaves every edge not touching u or v unchanged; it panics exactly if u or v is missing.", "quantifier": "every reachable graph and all u, v", "why_tests_cant": "all graphs and pairs, including u = v", "anchors": ["src/editgraph.rs: contract_pair"]}
{"id": "C15", "title": "contract_into / contract identify a vertex set", "statement": "contract_into(c,X) removes X minus c, makes c adjacent additionally to exactly the outside neighbours of X, leaves the rest unchanged; contract(x0::X) is contract_into(x0,X) and returns x0.", "quantifier": "every reachable graph, every list X of its vertices, every iteration order", "why_tests_cant": "all sets and hash orders", "anchors": ["src/editgraph.rs: contract_into, contract", "src/graph.rs: Graph::neighbourhood"]}
{"id": "C16", "title": "neighbourhood and closed_neighbourhood", "statement": "neighbourhood(X) is exactly the set of vertices outside X with a neighbour in X; closed_neighbourhood(X) is X together with all neighbours of X.", "quantifier": "every graph, every list X of its vertices", "why_tests_cant": "all graphs/sets", "anchors": ["src/graph.rs: Graph::neighbourhood, Graph::closed_neighbourhood"]}
{"id": "C17", "title": "r_neighbourhood is the ball of radius r", "statement": "r_neighbourhood(X,r) and r_neighbours(u,r) return exactly the vertices reachable from X (from u) by a walk of length at most r.", "quantifier": "every graph, X, r", "why_tests_cant": "unbounded r", "anchors": ["src/graph.rs: Graph::r_neighbourhood, Graph::r_neighbours"]}
{"id": "C18", "title": "subgraph returns the induced subgraph", "statement": "subgraph(X) has vertex set X and exactly the edges of the graph with both endpoints in X (loops included).", "quantifier": "every graph, every list X of its vertices, every iteration order", "why_tests_cant": "all graphs/sets", "anchors": ["src/graph.rs: Graph::subgraph"]}
{"id": "C19", "title": "invert is complementation", "statement": "invert has the same vertices and an edge between two distinct vertices iff the input has none; inverting twice a loopless graph gives an equal graph.", "quantifier": "every graph", "why_tests_cant": "all graphs", "anchors": ["src/operations.rs: invert"]}
{"id": "C20", "title": "merge is union, intersect is intersection", "statement": "merge(G,H) has the union of the vertex sets and edge sets; intersect(G,H) has the intersections; merge/intersect are commutative up to ==.", "quantifier": "every pair of graphs", "why_tests_cant": "all graphs", "anchors": ["src/operations.rs: merge, intersect"]}
{"id": "C21", "title": "subdivide replaces each edge by a path", "statement": "subdivide(t) keeps all vertices, replaces every edge uv by a path with t fresh inner vertices (all fresh vertices distinct, of degree 2) and has n+t*m vertices and (t+1)*m edges; subdivide(0) equals the input.", "quantifier": "every graph and t whose fresh ids fit into 32 bits", "why_tests_cant": "all graphs", "anchors": ["src/operations.rs: subdivide"]}
{"id": "C22", "title": "cartesian_product", "statement": "The returned map is a bijection from 0..|V1||V2|-1 to V1 x V2, and two product vertices are adjacent iff they agree in one coordinate and are adjacent in the other; every product vertex is a vertex of the returned graph.", "quantifier": "every pair of graphs", "why_tests_cant": "all graphs, all hash orders", "anchors": ["src/operations.rs: cartesian_product"]}
{"id": "C23", "title": "lexicographic_product", "statement": "The returned map is a bijection onto V1 x V2 and (u,v),(w,x) are adjacent iff v,x are adjacent in the second graph, or v=x and u,w are adjacent in the first; every product vertex is a vertex of the returned graph.", "quantifier": "every pair of graphs", "why_tests_cant": "all graphs, all hash orders", "anchors": ["src/operations.rs: lexicographic_product"]}
{"id": "C24", "title": "compare_subgraph decides the subgraph relation", "statement": "compare_subgraph(G,H) is Eq iff G and H have the same vertices and edges, Sub/Sup iff one is a proper subgraph of the other, Incomp otherwise; comparing in the other direction swaps Sub and Sup.", "quantifier": "every pair of graphs", "why_tests_cant": "all pairs", "anchors": ["src/compare.rs: compare_subgraph"]}
{"id": "C25", "title": "Writing and reading back an edge list", "statement": "Reading the text written for an EditGraph succeeds and gives the graph without its isolated vertices; it equals the original iff there are no isolated vertices.", "quantifier": "every reachable graph with 32-bit ids, every iteration order", "why_tests_cant": "all graphs and all number renderings", "anchors": ["src/io.rs: write_buf, from_buf, from_buf_with_estimate, parse_vertex"]}
{"id": "C26", "title": "Writing and reading back vertex lists and sets", "statement": "Reading the text written for a Vec<Vertex> returns the same sequence, for a VertexSet the same set.", "quantifier": "every list/set of 32-bit ids", "why_tests_cant": "all lists", "anchors": ["src/io.rs: LoadFromFile/WriteToFile for VertexSet and Vec<Vertex>"]}
{"id": "C27", "title": "The edge-list parser accepts exactly well-formed input", "statement": "from_buf succeeds iff every line consists of exactly two whitespace-separated decimal u32 tokens, and then contains exactly those edges; otherwise it returns an error (never a partial graph).", "quantifier": "every text", "why_tests_cant": "infinitely many texts", "anchors": ["src/io.rs: from_buf, parse_vertex"]}
{"id": "C28", "title": "VertexOrEdge intersection is set intersection", "statement": "intersection returns Some iff the two objects share a vertex, and the returned object has exactly the shared vertices; intersects is symmetric.", "quantifier": "all vertices/edges", "why_tests_cant": "all ids, degenerate edges (loops)", "anchors": ["src/graph.rs: VertexOrEdge::intersection, intersects"]}
{"id": "C29", "title": "VertexMap invert and majority_set", "statement": "invert groups exactly the keys with equal value; majority_set returns a value class of maximum size, None iff the map is empty.", "quantifier": "every map, every iteration order", "why_tests_cant": "all maps/layouts", "anchors": ["src/graph.rs: VertexMapOperations"]}
{"id": "C30", "title": "VertexColouring disjoint_extend, subset, from_sets", "statement": "disjoint_extend never changes existing colours, colours every vertex of the other colouring, gives newly coloured vertices colours unused before, and preserves which of them share colours; subset restricts; from_sets colours each vertex by the last set containing it.", "quantifier": "every pair of colourings with unsigned colours", "why_tests_cant": "all colourings", "anchors": ["src/graph.rs: VertexColouring::disjoint_extend, subset, IntegerColouring::from_sets"]}
{"id": "C31", "title": "EditDigraph behaves like a vertex set plus an arc set", "statement": "After any history of add_vertex, remove_vertex, add_arc, remove_arc (and bulk variants) no call panics and contains, has_arc, in_degree, out_degree, in_neighbours, out_neighbours, num_vertices and num_edges answer as an abstract pair (vertices, set of ordered arcs); returned booleans say whether the digraph changed.", "quantifier": "every finite sequence of editing calls, every layout", "why_tests_cant": "infinitely many histories", "anchors": ["src/editdigraph.rs: MutableDigraph impl"]}
{"id": "C32", "title": "Digraph degrees and arcs()", "statement": "In every reachable EditDigraph the in-degrees and the out-degrees each sum to num_edges(), degree = in_degree+out_degree, and arcs() yields every arc exactly once.", "quantifier": "every reachable digraph", "why_tests_cant": "invariant", "anchors": ["src/editdigraph.rs: degree, in_degree, out_degree", "src/iterators.rs: ArcIterator"]}
{"id": "C33", "title": "The undirected view of a digraph", "statement": "Through the Graph trait a digraph is treated as an undirected graph: adjacent(u,v) holds iff there is an arc uv or vu (so it is symmetric), and neighbours(u) is the union of in- and out-neighbours.", "quantifier": "every reachable digraph", "why_tests_cant": "all digraphs", "anchors": ["src/editdigraph.rs: adjacent, neighbours", "src/graph.rs: Digraph"]}
{"id": "C34", "title": "Digraph disj_union and normalize preserve arcs", "statement": "disj_union of digraphs contains exactly the arcs of both parts (second shifted); normalize is an isomorphism of digraphs.", "quantifier": "every pair of digraphs", "why_tests_cant": "all digraphs", "anchors": ["src/editdigraph.rs: disj_union, normalize"]}
{"id": "C35", "title": "Digraph equality and clone", "statement": "Two reachable EditDigraphs compare equal iff same vertices and same arcs; clone compares equal.", "quantifier": "every pair of histories", "why_tests_cant": "all histories", "anchors": ["src/editdigraph.rs: PartialEq, Clone"]}
{"id": "C36", "title": "Digraph generators", "statement": "path(n), cycle(n), matching(n), star(n), clique(n), independent(n), biclique(s,t), grid(s,t) have exactly the advertised vertices and arcs.", "quantifier": "all parameters", "why_tests_cant": "degenerate parameters", "anchors": ["src/editdigraph.rs: path, cycle, matching, star, clique, independent, biclique, grid"]}
{"id": "C37", "title": "components returns the connected components", "statement": "components returns pairwise disjoint nonempty sets covering all vertices, two vertices in the same set iff joined by a walk.", "quantifier": "every graph, every iteration order", "why_tests_cant": "reachability is unbounded", "anchors": ["src/algorithms/graph.rs: components"]}
{"id": "C38", "title": "degeneracy returns an ordering of all vertices with bounded left-degree", "statement": "For every loopless graph degeneracy terminates without panic, the order lists every vertex exactly once, core numbers are defined for exactly the vertices, and every vertex has at most B(upper) neighbours before it in the order, where B(i) is the largest degree mapped to bucket i. The orders that can be returned are exactly those in which each vertex has minimum degree, up to degrees in one bucket, among itself and the vertices before it.", "quantifier": "every loopless graph, every choice order of the hash buckets", "why_tests_cant": "all graphs and all tie-breakings", "anchors": ["src/algorithms/graph.rs: degeneracy, calc_index"]}
{"id": "C39", "title": "degeneracy is exact on graphs of small maximum degree", "statement": "If the maximum degree is at most 130 then lower = upper = the degeneracy of the graph and the core number of each vertex is the largest k such that it lies in a subgraph of minimum degree k.", "quantifier": "every loopless graph of maximum degree at most 130", "why_tests_cant": "all graphs and tie-breakings", "anchors": ["src/algorithms/graph.rs: degeneracy"]}
{"id": "C40", "title": "degeneracy bounds are bounds", "statement": "For every loopless graph lower <= degeneracy(G) <= upper.", "quantifier": "every loopless graph", "why_tests_cant": "the exponential buckets start at degree 131; tests use small graphs", "anchors": ["src/algorithms/graph.rs: degeneracy"]}
{"id": "C41", "title": "is_bipartite decides bipartiteness", "statement": "is_bipartite terminates without panic; it returns Bipartition(L,R) iff the graph is 2-colourable, and then L,R partition the vertices and every edge has one end in each. Over all iteration orders exactly those bipartitions are returned in which every vertex of R has a neighbour.", "quantifier": "every graph, every iteration order", "why_tests_cant": "all graphs", "anchors": ["src/algorithms/graph.rs: is_bipartite"]}
{"id": "C42", "title": "The odd-cycle witness is an odd cycle", "statement": "If is_bipartite returns OddCycle(c) then c has odd length, consecutive vertices and last/first are adjacent, and the vertices of c are pairwise distinct.", "quantifier": "every graph, every iteration order", "why_tests_cant": "tests check adjacency only on one graph", "anchors": ["src/algorithms/graph.rs: is_bipartite"]}
{"id": "C43", "title": "OrdGraph::with_ordering represents the graph with the given order", "statement": "For a loopless graph and an ordering of its vertices, vertices() lists the ordering, index_of is the position, adjacent/degree/num_edges agree with the graph, left_neighbours(u)/right_neighbours(u) are exactly the neighbours before/after u sorted by position.", "quantifier": "every loopless graph and every ordering", "why_tests_cant": "all orderings", "anchors": ["src/ordgraph.rs: with_ordering, left_neighbours, right_neighbours, index_of, adjacent, degree"]}
{"id": "C44", "title": "OrdGraph::swap exchanges two vertices in the order", "statement": "After swap(u,v) the data structure answers every query as if it had been built with u and v exchanged in the ordering.", "quantifier": "every OrdGraph and pair u,v", "why_tests_cant": "all graphs/pairs; no test exercises swap", "anchors": ["src/ordgraph.rs: swap"]}
{"id": "C45", "title": "DegenGraph::with_ordering represents the graph with the given order", "statement": "For a loopless graph and ordering of its vertices vertices() lists the ordering, adjacent/degree/num_edges agree with the graph, left_neighbours are the earlier neighbours in order, right_neighbours the later ones, index_of is increasing along the order, and adjacent_ordered(u,v) holds iff uv is an edge with u left of v; every unchecked array access is in bounds.", "quantifier": "every loopless graph with 3n+m <= 2^32 (offsets are u32) and every ordering", "why_tests_cant": "all orderings; unsafe reads", "anchors": ["src/degengraph.rs: with_ordering, DegenGraphBuilder::append, vertices, left_neighbours_slice, adjacent, adjacent_ordered"]}
{"id": "C46", "title": "DegenGraph::normalize relabels by position", "statement": "normalize relabels the i-th vertex of the order to i, returns the map new->old, preserves adjacency, left/right neighbourhoods and counts, keeps left neighbourhoods sorted and never reads out of bounds.", "quantifier": "every DegenGraph", "why_tests_cant": "all graphs, including the empty one; unsafe reads", "anchors": ["src/degengraph.rs: normalize"]}
{"id": "C47", "title": "DegenGraph iterators follow the order", "statement": "iter() and vertices() visit each vertex once, in order, with its left neighbourhood, and terminate, without reading outside the backing array.", "quantifier": "every DegenGraph built by the builder", "why_tests_cant": "linked layout invariant", "anchors": ["src/degengraph.rs: DegenIterator, DegenOrderIterator"]}
{"id": "C48", "title": "OrdGraph::to_degeneracy_graph preserves the ordered graph", "statement": "to_degeneracy_graph gives a DegenGraph with the same order, adjacency and left neighbourhoods.", "quantifier": "every OrdGraph of a loopless graph with 3n+m <= 2^32", "why_tests_cant": "all graphs", "anchors": ["src/ordgraph.rs: to_degeneracy_graph"]}
{"id": "C49", "title": "ReachGraph stores the reachable sets", "statement": "to_wreach_graph::<r>/to_sreach_graph::<r>: reachables(u).at(d) lists exactly the vertices weakly/strongly reachable from u at distance d, in order; reachables_all(u) is their concatenation; iter() visits all vertices in order.", "quantifier": "every OrdGraph of a loopless graph, every r>=1 for which the table (sum over u of r+2+number of vertices reachable from u) and r+1 fit in u32, every hash iteration order", "why_tests_cant": "index arithmetic over all layouts", "anchors": ["src/reachgraph.rs: append, reachables, reachables_all, next_reachables, ReachIterator", "src/ordgraph.rs: to_wreach_graph, to_sreach_graph"]}
{"id": "C50", "title": "ReachGraph answers graph queries like the original graph", "statement": "In to_wreach_graph::<r>/to_sreach_graph::<r> (r>=1) vertices(), num_vertices, num_edges, contains, adjacent, degree, left_neighbours, left_degree and right_degree agree with the original loopless graph and order, index_of is increasing along the order; neighbours() is unsupported and always panics.", "quantifier": "every OrdGraph of a loopless graph, every r>=1 for which the table fits in u32, every hash iteration order", "why_tests_cant": "all graphs", "anchors": ["src/reachgraph.rs: Graph and LinearGraph impls"]}
{"id": "C51", "title": "right_bfs returns exact BFS layers to the right of the root", "statement": "right_bfs(root,k) has k+1 layers, layer d being exactly the vertices at distance d from root in the subgraph induced by root and the vertices after it.", "quantifier": "every linear graph of a loopless graph, root, k with k+1 < 2^32, every hash iteration order", "why_tests_cant": "unbounded depth", "anchors": ["src/algorithms/lineargraph.rs: right_bfs"]}
{"id": "C52", "title": "sreach_set(s)/sreach_sizes compute strong reachability with exact distances", "statement": "For r>=1 sreach_set(u,r) maps exactly the vertices v left of u joined to u by a path of length at most r whose inner vertices are all right of u, to the minimum such length; sreach_sets and sreach_sizes agree.", "quantifier": "every linear graph of a loopless graph, u, 1 <= r < 2^32, every hash iteration order (sizes: fewer than 2^32 vertices)", "why_tests_cant": "unbounded r", "anchors": ["src/algorithms/lineargraph.rs: sreach_set, sreach_sets, sreach_sizes"]}
{"id": "C53", "title": "wreach_sets/wreach_sizes compute weak reachability with exact distances", "statement": "wreach_sets(r)[u] maps exactly the vertices v left of u joined to u by a walk of length at most r on which v is leftmost, to the minimum such length; wreach_sizes are the sizes.", "quantifier": "every linear graph of a loopless graph, r with r+1 < 2^32, every hash iteration order (sizes: fewer than 2^32 vertices)", "why_tests_cant": "unbounded r", "anchors": ["src/algorithms/lineargraph.rs: wreach_sets, wreach_sizes"]}
{"id": "C54", "title": "count_max_cliques counts maximal cliques", "statement": "count_max_cliques returns the number of maximal cliques of the graph.", "quantifier": "every linear graph", "why_tests_cant": "tests only use complete multipartite graphs", "anchors": ["src/algorithms/lineargraph.rs: count_max_cliques, bk_pivot_count"]}
{"id": "C55", "title": "colour_greedy is a proper colouring of all vertices", "statement": "colour_greedy does not panic, colours every vertex, and adjacent vertices get different colours.", "quantifier": "every linear graph", "why_tests_cant": "all graphs and orders", "anchors": ["src/algorithms/lineargraph.rs: colour_greedy"]}
{"id": "C56", "title": "domset / domset_with_target dominates the target", "statement": "Every target vertex of the graph is within distance radius of some vertex of the returned set; the set consists of vertices of the graph; the internal assertion never fails.", "quantifier": "every linear graph with at most 2^31 vertices, every target, radius < 2^15, every iteration order", "why_tests_cant": "all graphs", "anchors": ["src/algorithms/lineargraph.rs: domset, domset_with_target"]}
{"id": "C57", "title": "domset distances", "statement": "The returned distance map has for every vertex of the graph the minimum distance to the dominating set.", "quantifier": "every linear graph", "why_tests_cant": "all graphs", "anchors": ["src/algorithms/lineargraph.rs: domset_with_target"]}
{"id": "C58", "title": "The domset witness is scattered", "statement": "With witness, vertices of the same colour in the returned colouring have pairwise distance greater than 2*radius, and all coloured vertices are targets in the dominating set; hence no set r-dominating the target is smaller than a colour class. Unless the returned set contains a crowd (a non-empty set of targets each having 130 others of it within distance 2*radius; in particular if the set or the target has at most 130 elements) a witness is always returned, every target is within 2*radius of a coloured vertex, and the returned set consists of the coloured vertices and the vertices weakly reachable from more than (2*radius)^2 of them.", "quantifier": "every linear graph with at most 2^31 vertices, radius < 2^15, target, iteration order, whenever a witness is returned", "why_tests_cant": "all graphs", "anchors": ["src/algorithms/lineargraph.rs: domset_with_target"]}
{"id": "C59", "title": "scattered_colouring classes are scattered and partition the target", "statement": "scattered_colouring(distance,target) terminates, the classes partition the target, and two vertices in the same class have distance at least `distance`.", "quantifier": "every linear graph, distance, target", "why_tests_cant": "all graphs/distances, odd distances are never tested", "anchors": ["src/algorithms/lineargraph.rs: scattered_colouring, small_distance_sets, small_distance"]}
{"id": "C60", "title": "wreach-based small distance is exact", "statement": "Given the weakly reachable sets for distance d, small_distance(x,y) returns Some(dist(x,y)) if dist(x,y)<=d and None otherwise; small_distance_sets returns the minimum over pairs.", "quantifier": "every linear graph, every d with 2*d < 2^32, vertices x, y of the graph, sets X, Y of vertices of the graph", "why_tests_cant": "all pairs", "anchors": ["src/algorithms/lineargraph.rs: small_distance, small_distance_sets"]}
{"id": "C61", "title": "leftmost/rightmost and left/right degrees", "statement": "leftmost/rightmost return the first/last vertex of a collection in the order (None iff empty), left_degree+right_degree=degree, and the left degrees sum to num_edges.", "quantifier": "every linear graph of a loopless graph", "why_tests_cant": "all graphs", "anchors": ["src/graph.rs: LinearGraph default methods"]}
{"id": "C62", "title": "compute_traces counts neighbourhood traces exactly", "statement": "For an ordered duplicate-free list X of vertices compute_traces(X)[S] (0 if absent) is the number of vertices outside X whose neighbourhood in X is exactly S; no subtraction underflows and every unchecked lookup hits an existing key.", "quantifier": "every DegenGraph made by the constructors, every X sorted by the ordering, every hash order", "why_tests_cant": "telescoping corrections; unsafe lookups", "anchors": ["src/datastructures/sreach_trace_oracle.rs: compute_traces, for_graph, count_neighbours"]}
{"id": "C63", "title": "compute_neighbour_count counts outside neighbours", "statement": "compute_neighbour_count(X) is the number of vertices outside X with at least one neighbour in X; no underflow.", "quantifier": "every DegenGraph made by the constructors, every X sorted by the ordering, every hash order", "why_tests_cant": "all graphs", "anchors": ["src/datastructures/sreach_trace_oracle.rs: compute_neighbour_count, count_first_intersection"]}
{"id": "C64", "title": "is_shattered decides shattering with multiplicity", "statement": "For k>=|X| is_shattered(X,k) is true iff every subset S of X is the trace of at least 2^(k-|X|) vertices outside X.", "quantifier": "every DegenGraph made by the constructors, every duplicate-free X with |X| < 64, every k >= |X| with k - |X| < 64, every hash order", "why_tests_cant": "all subsets", "anchors": ["src/datastructures/sreach_trace_oracle.rs: is_shattered"]}
{"id": "C65", "title": "DTFGraph::orient orients every edge exactly once", "statement": "orient(G) of a loopless graph has the same vertices, for every edge uv exactly one of the arcs uv, vu, no other arcs, no directed cycle, and num_edges() equals that of G.", "quantifier": "every loopless graph, every tie-breaking", "why_tests_cant": "all graphs", "anchors": ["src/dtfgraph.rs: orient, add_arc, has_arc"]}
{"id": "C66", "title": "Augmentation arcs are witnessed by walks", "statement": "After augment every arc of weight d joins two vertices connected in G by a walk of length exactly d, and all arcs of G keep weight 1.", "quantifier": "every graph, depth, fraternal depth, iteration order", "why_tests_cant": "all graphs, all depths", "anchors": ["src/dtfgraph.rs: augment, _trans_tails, _frat_pairs, _frat_pairs2, orient_deep, edge_subgraph"]}
{"id": "C67", "title": "DTFGraph::small_distance is exact up to the depth", "statement": "After orient(G) and augment(d,_), small_distance(u,v) is Some(dist(u,v)) if dist(u,v)<=d and None otherwise.", "quantifier": "every graph, depth, pair", "why_tests_cant": "the library's own test of this is disabled", "anchors": ["src/dtfgraph.rs: small_distance, augment"]}
{"id": "C68", "title": "DTFGraph::domset dominates", "statement": "orient(G).domset(r) is a set of vertices such that every vertex of G is within distance r of it, for every r below 2^15 and any previous augmentation; for larger r the cutoff (2r)^2 overflows u32.", "quantifier": "every loopless graph with at most 2^31 vertices, every r < 2^15, every previous history, every iteration order", "why_tests_cant": "all graphs", "anchors": ["src/dtfgraph.rs: domset"]}
{"id": "C69", "title": "Augmentation depth never decreases and views are read-only", "statement": "add_arc at a lower depth and layer(d) leave get_depth() and the arcs of larger weight observable; add_arc at any depth does not panic.", "quantifier": "every augmentation, depth", "why_tests_cant": "state machine over depths", "anchors": ["src/dtfgraph.rs: reserve_depth, layer, add_arc"]}
{"id": "C70", "title": "DTFGraph arc iterators yield every arc", "statement": "arcs() (arcs_at(d)) yields every arc (of weight d) exactly once as (tail, head).", "quantifier": "every DTFGraph", "why_tests_cant": "all graphs", "anchors": ["src/iterators.rs: DTFArcIterator"]}
{"id": "C71", "title": "DTFLayer shows only the arcs of its depth", "statement": "layer(d).adjacent, degree, in_degree, out_degree and num_edges refer to the arcs of weight d only.", "quantifier": "every DTFGraph, d", "why_tests_cant": "all graphs", "anchors": ["src/dtfgraph.rs: DTFLayer"]}
{"id": "C72", "title": "Digraph neighbourhood and degree-map helpers", "statement": "out_neighbourhood(X) (in_neighbourhood(X)) is the set of vertices outside X that receive an arc from (send an arc to) some vertex of X; in_degrees()/out_degrees() map exactly the vertices to their in-/out-degrees.", "quantifier": "every EditDigraph, every X, every hash iteration order", "why_tests_cant": "all digraphs and vertex lists with repetitions", "anchors": ["src/graph.rs: Digraph::in_degrees, out_degrees, out_neighbourhood, in_neighbourhood"]}
{"id": "C73", "title": "DTFGraph degree and arc counters", "statement": "in_neighbours(u) lists every tail of an arc into u once, in_degree(u) is its length, out_degree(u) the number of heads of arcs from u, degree(u) their sum, num_arcs_at_depth(w) the number of arcs of weight w (0 beyond the depth), and num_edges() the number of edges of the original graph.", "quantifier": "every loopless graph, every history of orient, augment, domset, layer", "why_tests_cant": "the counters are maintained incrementally; histories are unbounded", "anchors": ["src/dtfgraph.rs: in_degree, out_degree, degree, in_neighbours, num_arcs_at_depth, num_edges, add_arc"]}
{"id": "C74", "title": "orient_deep orients every edge", "statement": "orient_deep(G, d) has an arc between u and v exactly if uv is an edge of G, and no directed cycle.", "quantifier": "every loopless graph, depth, iteration order", "why_tests_cant": "all graphs", "anchors": ["src/dtfgraph.rs: orient_deep"]}
{"id": "C75", "title": "Augmentations are transitively closed up to the depth", "statement": "After orient and any number of calls of augment, arcs xy and yu with total weight w at most the depth and x != u imply an arc xu of weight at most w; no arc is heavier than the depth.", "quantifier": "every loopless graph, depth, fraternal depth, iteration order", "why_tests_cant": "all graphs, all depths", "anchors": ["src/dtfgraph.rs: augment, _trans_tails"]}
{"id": "C76", "title": "in_neighbours_with_weights and get_arc_depth are exact", "statement": "in_neighbours_with_weights(u) maps exactly the tails of arcs into u to their weights, and get_arc_depth(x,u) is Some(w) exactly if there is an arc xu of weight w.", "quantifier": "every loopless graph, every history of orient and augment with depth below 2^32", "why_tests_cant": "all graphs", "anchors": ["src/dtfgraph.rs: in_neighbours_with_weights, get_arc_depth"]}
{"id": "C77", "title": "DTFGraph::to_undirected keeps all arcs as edges", "statement": "to_undirected() has the same vertices and joins u and v exactly if the graph has an arc between them.", "quantifier": "every loopless graph, every history", "why_tests_cant": "all graphs", "anchors": ["src/dtfgraph.rs: to_undirected", "src/iterators.rs: DTFArcIterator"]}
{"id": "C78", "title": "DTFGraph::edge_subgraph keeps exactly the selected arcs", "statement": "edge_subgraph(es) has the same vertices, depth 1, and exactly the arcs uv such that uv or vu is listed in es.", "quantifier": "every DTFGraph, every list of pairs", "why_tests_cant": "all graphs and pair lists", "anchors": ["src/dtfgraph.rs: edge_subgraph"]}
{"id": "C79", "title": "degrees, len and is_empty describe the graph", "statement": "For every graph, degrees() maps exactly the vertices, each to its degree, and the values sum to twice the number of edges; len() is the number of vertices and is_empty() holds exactly when there is none. For a digraph degrees() maps each vertex to in-degree plus out-degree.", "quantifier": "all graphs of every implementation, all hash orders", "why_tests_cant": "Quantifies over all graphs; the tests never call degrees on graphs with loops or isolated vertices.", "anchors": ["src/graph.rs:293", "src/graph.rs:302"]}
{"id": "C80", "title": "Neighbourhood iterators visit every vertex once with the right neighbours", "statement": "neighbourhoods(), in_neighbourhoods(), out_neighbourhoods(), left_neighbourhoods(), in_neighbourhoods_iter() and in_neighbourhoods_iter_at(d) end after yielding every vertex exactly once, each with a list without repetition of exactly its (in-, out-, left-, weight-d in-) neighbours; left_neighbourhoods() follows the order of the graph.", "quantifier": "all graphs, digraphs, linear graphs and augmentations, all hash orders", "why_tests_cant": "All graphs and all hash orders; tests iterate over one or two small graphs.", "anchors": ["src/iterators.rs:19", "src/iterators.rs:44", "src/iterators.rs:327", "src/iterators.rs:437"]}
{"id": "C81", "title": "EditDigraph::disj_unions copies every digraph of the list", "statement": "disj_unions of a list of digraphs contains a shifted copy of each of them with its arcs, the copies being disjoint and in increasing order of ids, and nothing else. (False: arcs that go from a larger to a smaller id are reversed. Proved: what is computed for every list, and the statement for digraphs whose arcs go upward.)", "quantifier": "all lists of digraphs whose ids fit in 32 bits", "why_tests_cant": "Needs a list with a downward arc; the function has no tests.", "anchors": ["src/editdigraph.rs:337", "src/editdigraph.rs:352"]}
{"id": "C82", "title": "Graph methods on a digraph see the underlying undirected graph", "statement": "On a digraph, neighbourhood, closed_neighbourhood, r_neighbourhood, subgraph, components and is_bipartite give the answers for the underlying undirected graph (two vertices adjacent iff some arc joins them), although neighbours() may list a vertex twice.", "quantifier": "all digraphs, all vertex lists and radii, all hash orders", "why_tests_cant": "Anti-parallel arcs and loops make neighbours() repeat vertices; only a proof shows that no method depends on it.", "anchors": ["src/editdigraph.rs:82", "src/graph.rs:319", "src/algorithms/graph.rs:38"]}
{"id": "C83", "title": "edges() of a digraph yields each joined pair once", "statement": "edges() called on a digraph yields every pair a <= b joined by an arc exactly once. (False: a pair joined in both directions and every loop is yielded twice. Proved: the exact multiplicity for every digraph, and the statement for digraphs without loops and anti-parallel arcs.)", "quantifier": "all digraphs, all hash orders", "why_tests_cant": "Depends on the arcs being anti-parallel; tests use arcs(), not edges(), on digraphs.", "anchors": ["src/iterators.rs:117", "src/editdigraph.rs:82"]}
{"id": "C84", "title": "Readers accept UTF-8 bytes exactly like text", "statement": "On bytes that are the UTF-8 encoding of a text, the readers of EditGraph, Vec<Vertex> and VertexSet return the graph/list/set given by its lines if every line is well formed and an io::Error otherwise; they never panic.", "quantifier": "all Unicode texts, including multi-byte white space, CRLF and a missing final newline", "why_tests_cant": "Needs that the newline byte never occurs inside a multi-byte character, for all characters.", "anchors": ["src/io.rs:52", "src/io.rs:75", "src/io.rs:184"]}
{"id": "C85", "title": "Malformed input is reported as an error", "statement": "Reading bytes that are not in the format returns an io::Error. (False: line.unwrap() panics on a line that is not UTF-8 and on a read error such as a plain text file opened as gzip. Proved: the exact condition for success, error and panic for every byte stream.)", "quantifier": "all byte streams, with or without a read error at the end", "why_tests_cant": "Tests only read well-formed files.", "anchors": ["src/io.rs:56", "src/io.rs:79", "src/io.rs:117", "src/io.rs:187"]}
{"id": "C86", "title": "Files written are read back", "statement": "write_txt followed by from_txt, and write_gzipped followed by from_gzipped, and both followed by from_file under a name with extension .txt or .gz, give back an equal vertex list, an equal vertex set, and a graph with the same edges and exactly the non-isolated vertices; no other file changes.", "quantifier": "all file stores, names, graphs, lists and sets with 32-bit ids, and every codec with gunzip(gzip(b)) = b", "why_tests_cant": "Tests check a few names and values.", "anchors": ["src/io.rs:17", "src/io.rs:23", "src/io.rs:34", "src/io.rs:157", "src/io.rs:171"]}
{"id": "C87", "title": "from_file dispatches on the extension", "statement": "from_file behaves like from_txt iff the last path component is a nonempty stem followed by .txt, like from_gzipped iff it is a nonempty stem followed by .gz, and returns an error for all other names and for missing files.", "quantifier": "all paths whose last component is neither empty nor '.', all file stores", "why_tests_cant": "Hidden files, several dots and dots in directory names are endless.", "anchors": ["src/io.rs:204"]}
{"id": "C88", "title": "Greedy colouring along the degeneracy order uses at most degeneracy+1 colours", "statement": "OrdGraph::by_degeneracy(G).colour_greedy() does not panic and colours every vertex, adjacent vertices differently, with colours 0..=degeneracy(G).", "quantifier": "every loopless graph with at most 2^31 vertices, every iteration order of the hash buckets", "why_tests_cant": "the combination fails only on graphs whose degeneracy exceeds the exact bucket range, for unlucky hash orders", "anchors": ["src/ordgraph.rs: by_degeneracy", "src/algorithms/lineargraph.rs: colour_greedy", "src/algorithms/graph.rs: degeneracy"]}
{"id": "C89", "title": "index_of returns the position in the ordering", "statement": "For OrdGraph, DegenGraph and ReachGraph, index_of(u) is the position of u in the vertex ordering (as documented in the trait); for a vertex that is not in the graph it panics while the degree queries return 0.", "quantifier": "every graph, every ordering, every vertex, every depth r>=1", "why_tests_cant": "tests only compare indices with each other, never with positions", "anchors": ["src/graph.rs: LinearGraph::index_of", "src/ordgraph.rs: index_of", "src/degengraph.rs: index_of", "src/reachgraph.rs: index_of"]}
{"id": "C90", "title": "VertexColouring behaves like a finite map", "statement": "After from_iter a vertex has the colour of the last pair mentioning it; insert returns the previous colour and changes only that vertex; vertices() and iter() list every coloured vertex once, colours() every used colour once; contains, len and indexing agree with get and indexing panics exactly on uncoloured vertices; two colourings are equal iff they assign the same colours.", "quantifier": "every sequence of pairs, every colouring, every colour type", "why_tests_cant": "all insertion orders and repetitions", "anchors": ["src/graph.rs: VertexColouring::{from_iter,insert,iter,len,vertices,colours,get,contains}, Index, PartialEq"]}
{"id": "C91", "title": "DegenGraphBuilder returns what was appended", "statement": "After any sequence of append(u, N) calls on a DegenGraphBuilder, build() succeeds; iter() and vertices() replay the calls, left_neighbours_slice(u) is the list given in the last call for u, right neighbours and adjacency are what the lists say. If the vertices are distinct and each list names distinct earlier vertices, the result is exactly that graph, in the order of the calls.", "quantifier": "every sequence of calls of total size at most 2^32 words, also with repeated or unknown vertices", "why_tests_cant": "tests only use the builder through with_ordering", "anchors": ["src/degengraph.rs: DegenGraphBuilder::{new,append,build}"]}
{"id": "C92", "title": "ReachGraphBuilder returns what was appended", "statement": "Appending, for distinct vertices, arbitrary maps from earlier vertices to distances 1..r gives a ReachGraph whose reachables(u) are exactly these maps, grouped by distance and sorted by position, and whose edges are the pairs at distance 1. A distance above r+1 makes append panic; distances 0 and r+1 are accepted but stored where no query for that distance finds them.", "quantifier": "every depth r>=1, every sequence of calls, every iteration order of the maps", "why_tests_cant": "tests only use the builder through the OrdGraph conversions", "anchors": ["src/reachgraph.rs: ReachGraphBuilder::{new,append,build}"]}
{"id": "C93", "title": "The dominating set is an approximation", "statement": "If every value of wreach_sizes(r) is less than c, then domset(r,_) returns at most c*(c+(2r)^2) times as many vertices as any set that has every vertex within distance r; domset_with_target likewise compared with any set that has every target vertex within distance r.", "quantifier": "every ordered loopless graph, every radius below 2^15, every target, every hash iteration order, every competing set", "why_tests_cant": "tests print the size of the set and only check that it dominates; a bound against all dominating sets cannot be tested", "anchors": ["src/algorithms/lineargraph.rs: domset, domset_with_target, wreach_sizes"]}
{"id": "C94", "title": "A ReachGraph can be walked through along the ordering", "statement": "first() is the first vertex of the ordering; next_reachables(u) are the reachables of the vertex following u, None for the last; the block of each vertex starts with the vertex, ends with reachables_all(u), and is followed directly by the block of the next vertex; depth() is DEPTH; at(d) panics unless 1 <= d <= DEPTH, and queries of missing vertices panic.", "quantifier": "every graph, ordering, depth >= 1 and hash layout (size below 2^32), for to_wreach_graph, to_sreach_graph and the builder", "why_tests_cant": "all graphs, orderings and depths; tests iterate over one small graph", "anchors": ["src/reachgraph.rs: first, next_reachables, reachables_at, segment, depth, Reachables::at"]}
{"id": "C95", "title": "sreach_sets and wreach_sets are consistent with each other", "statement": "Every entry of sreach_sets(r) occurs in wreach_sets(r) with the same or a smaller distance; for r=1 both are the left neighbours; increasing r only adds entries with distances above the old radius; entries of wreach_sets compose (w listed for u at a, v for w at b, a+b<=r implies v listed for u at most a+b); and every entry of wreach_sets is one of sreach_sets or splits into a strong step followed by a weak entry with exactly adding distances.", "quantifier": "every loopless ordered graph, every radius, every hash iteration order", "why_tests_cant": "relates two algorithms on all graphs, orderings and radii; tests compare each with brute force on a few random graphs", "anchors": ["src/algorithms/lineargraph.rs: sreach_set, sreach_sets, wreach_sets, right_bfs"]}
{"id": "C96", "title": "DTFGraph::domset returns a nearly scattered set", "statement": "The set returned by domset(r) consists of a set T and the vertices with arcs of weight at most r to more than (2r)^2 vertices of T. No two vertices of T are joined by an arc of weight at most r or through a common in-neighbour with total weight at most r, no vertex is in the closed in-neighbourhood of more than (2r)^2+1 vertices of T, and T contains a vertex of maximum in-degree (ties: maximum degree). If small_distance answers for all pairs at distance at most r and all in-degrees are below c, the set is at most c(c+(2r)^2) times as large as any r-dominating set.", "quantifier": "every loopless graph, every previous augmentation, every radius below 2^15, every hash iteration order", "why_tests_cant": "a statement about the structure and size of the output against all competing dominating sets; the tests only check that the output dominates one example graph", "anchors": ["src/dtfgraph.rs: domset"]}
{"id": "C97", "title": "Subdivision scales distances, makes graphs bipartite and 2-degenerate", "statement": "After subdivide(t) an old vertex v lies in the ball of radius n around an old vertex u iff it lies in the ball of radius n/(t+1) (rounded down) of the original graph; is_bipartite finds a bipartition iff t is odd or it finds one for the original graph; for t >= 1 both bounds of degeneracy are equal and at most 2.", "quantifier": "every graph and t with ids below 2^32, every hash iteration order", "why_tests_cant": "relates the results of two calls for all graphs, radii and t", "anchors": ["src/operations.rs: subdivide", "src/graph.rs: r_neighbours", "src/algorithms/graph.rs: is_bipartite, degeneracy"]}
{"id": "C98", "title": "How the number of components changes", "statement": "disj_union adds the numbers of components; add_edge between two vertices keeps the number if they were in the same component and lowers it by one otherwise; subdivide and contract of a connected pair keep it; a graph has at least n-m components.", "quantifier": "every graph, every hash iteration order", "why_tests_cant": "invariant of a derived quantity over all graphs and operations", "anchors": ["src/algorithms/graph.rs: components", "src/editgraph.rs: disj_union, add_edge, contract", "src/operations.rs: subdivide"]}
{"id": "C99", "title": "Neighbourhoods of growing radius", "statement": "r_neighbourhood(X,0) is X and r_neighbourhood(X,1) is closed_neighbourhood(X); the ball of radius r+s around X is the ball of radius s around the ball of radius r; v in r_neighbours(u,r) iff u in r_neighbours(v,r); balls grow with the radius; from radius n-1 on r_neighbours(u,r) is the component of u.", "quantifier": "every graph, set, radius and hash iteration order", "why_tests_cant": "all graphs and radii; relates results of several calls", "anchors": ["src/graph.rs: r_neighbourhood, r_neighbours, closed_neighbourhood", "src/algorithms/graph.rs: components"]}
{"id": "C100", "title": "Sums over neighbourhood traces", "statement": "The counts returned by compute_traces(X) sum to the number of vertices outside X and those of nonempty traces to compute_neighbour_count(X). If is_shattered(X,k) then the graph has at least |X| + 2^k vertices and is_shattered(Y,k) holds for every Y contained in X.", "quantifier": "every loopless graph, ordering, sorted set X, k < 64 and hash iteration order", "why_tests_cant": "double counting over all graphs and sets", "anchors": ["src/datastructures/sreach_trace_oracle.rs: compute_traces, compute_neighbour_count, is_shattered"]}
{"id": "C101", "title": "Sizes and analyses of graph products", "statement": "The Cartesian product of loopless graphs has n1*m2 + n2*m1 edges, degrees add up, and distances add up (balls); it is bipartite iff both factors are, and its degeneracy is the sum of the degeneracies (below 130). The lexicographic product has n1^2*m2 + n2*m1 edges and degrees deg1 + n1*deg2.", "quantifier": "every two loopless graphs with n1*n2 < 2^32, every hash iteration order", "why_tests_cant": "all pairs of graphs; the tests multiply one or two small graphs", "anchors": ["src/operations.rs: cartesian_product, lexicographic_product"]}
{"id": "C102", "title": "The analyses give the textbook answers for the named generators", "statement": "is_bipartite, components and degeneracy return for path, cycle, matching, independent, clique, biclique and grid the known answers for every size: a cycle is bipartite iff n is even, a clique iff n <= 2, the others always; matching(n) and independent(n) have n components and the others one; degeneracy is 1 for paths, 2 for cycles (n >= 3) and grids (s,t >= 2), n-1 for cliques (n <= 131) and min(s,t) for bicliques (at most 130).", "quantifier": "every size within the u32 range, every hash iteration order", "why_tests_cant": "all sizes of each family; tests pick single sizes", "anchors": ["src/editgraph.rs: path, cycle, matching, clique, independent, biclique, grid", "src/algorithms/graph.rs: is_bipartite, components, degeneracy"]}
{"id": "C103", "title": "domset_with_target follows its greedy rule and is independent of hashing", "statement": "The set and the distance map returned by domset_with_target are exactly those of the greedy rule (process vertices by decreasing left degree, then degree, then position; improve through weakly reachable vertices; join if the distance exceeds the radius; vertices weakly reachable from more than (2r)^2 joined vertices join as well). Hence they depend only on the graph, the ordering, the radius and the set of targets, not on hash iteration orders or the witness flag. With radius 0 the set is exactly the targets in the graph.", "quantifier": "every linear graph with at most 2^31 vertices, every radius below 2^15, every target, every hash iteration order", "why_tests_cant": "the result could differ between iteration orders of the hash tables, of which a test sees one; tests only check domination", "anchors": ["src/algorithms/lineargraph.rs: domset_with_target"]}
{"id": "C104", "title": "DTFGraph::domset follows its greedy rule; repeated calls agree", "statement": "The set returned by DTFGraph::domset(r) is the one generated by the greedy rule on the augmentation after the call (vertices by decreasing in-degree, then degree, then position in vertices(); in-neighbours of weight at most r; threshold (2r)^2). It is a function of that augmentation, and calling domset(r) a second time changes nothing and returns the same set.", "quantifier": "every DTF graph of a loopless graph with at most 2^31 vertices, every radius below 2^15, every hash iteration order", "why_tests_cant": "all graphs, augmentations and iteration orders; tests check domination on one graph", "anchors": ["src/dtfgraph.rs: domset, augment"]}
{"id": "C105", "title": "orient, orient_deep and augment compute exactly the specified fraternal augmentation", "statement": "orient directs the edges forward in a smallest-last order. Each round of augment adds, at the new weight d, an arc x->u for every pair without such an arc joined by two arcs of total weight d, and takes the graph of the other pairs that send arcs of weights 1 and d-1 to a common vertex and have no arc between them, orients it with orient_deep, and adds for each resulting arc from a larger to a smaller vertex the reversed arc; nothing else changes. orient_deep(k) orients, augments to depth k, reorients the graph of the arcs from larger to smaller vertices, and keeps the arcs along edges.", "quantifier": "every loopless graph, every state reached by orient/augment/domset/layer, every depth and fraternal depth, all hash orders", "why_tests_cant": "the arcs depend on hash orders and on all previous rounds; tests only compare counts on a few graphs", "anchors": ["src/dtfgraph.rs: orient, orient_deep, augment, _trans_tails, _frat_pairs, _frat_pairs2, DTFArcIterator"]}
{"id": "C106", "title": "Fraternal arcs increase in-degrees by at most the degeneracy of the fraternal graph", "statement": "In a round of augment(.., 1), the number of new arcs into a vertex that come from fraternal pairs (not transitive) is at most the degeneracy of the graph of these pairs.", "quantifier": "every loopless graph, every reached state, all hash orders", "why_tests_cant": "needs graphs whose fraternal graph has vertices of high degree and low degeneracy, with suitable labels", "anchors": ["src/dtfgraph.rs: augment, arcs_at"]}
{"id": "C107", "title": "The witnesses domset_with_target can return are exactly the greedy colourings of the conflict graph along its peeled orders", "statement": "Let J be the vertices that join the dominating set as targets not yet dominated, and let the conflict graph join two of them when their distance is at most 2*radius. The colourings that domset_with_target(radius, true, target) returns for some iteration order are exactly the first-fit colourings along the orders in which by_degeneracy can list the conflict graph, along which no vertex looks up a neighbour that was left uncoloured; the call panics for some iteration order if and only if for one of these orders the greedy rule leaves a vertex uncoloured that a later vertex looks up.", "quantifier": "every linear graph with at most 2^31 vertices, radius < 2^15, every non-empty target, all iteration orders", "why_tests_cant": "both directions of a characterisation over all graphs and hash orders; no test reads the witness", "anchors": ["src/algorithms/lineargraph.rs: domset_with_target, colour_greedy", "src/ordgraph.rs: by_degeneracy"]}
{"id": "C108", "title": "domset_with_target always returns a witness with at most degeneracy+1 colours", "statement": "With witness, domset_with_target returns a colouring of exactly the vertices that joined the set as targets, using colours 0..=d where d is the degeneracy of their conflict graph; so its largest class has at least |J|/(d+1) vertices and bounds every dominating set from below.", "quantifier": "every linear graph with at most 2^31 vertices, radius < 2^15, every non-empty target, all iteration orders", "why_tests_cant": "fails only when the conflict graph has degeneracy above 129, for unlucky hash orders", "anchors": ["src/algorithms/lineargraph.rs: domset_with_target, colour_greedy"]}
{"id": "C109", "title": "All outcomes of scattered_colouring", "statement": "For targets in the graph, the lists of classes that scattered_colouring(distance, target) can return, over the hash iteration orders of degeneracy and of the table of classes, are exactly these: in rounds, until the target is used up, the targets joining by the rule of the dominating-set algorithm (in-neighbours within distance, radius distance/2, cutoff distance^2) are coloured greedily along orders peeling vertices of least degree off their conflict graph; the classes of all rounds, in any order, then absorb one another in sweeps over the classes sorted by size, where a class absorbs every later class having no walk shorter than 2*(distance/2) to it, classes that absorb nothing are final, and the others are swept again. It panics for some order iff in some such round the greedy rule leaves a vertex without colour.", "quantifier": "every ordered graph, distance below 2^16, target list and iteration order", "why_tests_cant": "the outcome depends on hash orders; tests can check validity of single outcomes but not that exactly these occur", "anchors": ["src/algorithms/lineargraph.rs: scattered_colouring"]}
{"id": "C110", "title": "degeneracy of graphs with loops", "statement": "On every graph, with loops or not, degeneracy returns an ordering of all vertices. (Refuted: when a vertex with a loop is removed, its own loop puts it back into a lower bucket, so that it can be removed twice and another vertex is missing; a degree can also be decremented below zero, which overflows. Exactly proved instead: the returned lists, and the overflows, over all hash orders; a looped vertex of smallest degree is repeated for every hash order; orient and OrdGraph::by_degeneracy panic exactly when a vertex is repeated.)", "quantifier": "every graph below 2^31-1 vertices and every hash iteration order", "why_tests_cant": "the outcome depends on hash orders, and the defect needs loops, which no example graph has", "anchors": ["src/algorithms/graph.rs: degeneracy", "src/ordgraph.rs: by_degeneracy", "src/dtfgraph.rs: orient", "src/degengraph.rs: from_graph"]}
{"id": "C111", "title": "OrdGraph::with_ordering for every list", "statement": "OrdGraph::with_ordering(G, order) panics exactly if order repeats a vertex or misses an end of an edge of G. Otherwise the vertices of the result are the entries of order, in this order, including entries that are no vertices of G; adjacency, degrees and the number of edges are those of G, a loop counts as a left and as a right neighbour and appears twice among the neighbours, and left and right neighbours are listed by position.", "quantifier": "every graph with or without loops, every list, every layout of the hash tables", "why_tests_cant": "tests only pass orderings of the vertices of loopless graphs", "anchors": ["src/ordgraph.rs: with_ordering"]}
{"id": "C112", "title": "DegenGraph::with_ordering for every list", "statement": "DegenGraph::with_ordering(G, order) (array of at most 2^32 words) panics exactly if order contains an entry that is no vertex of G or misses a neighbour of an entry. Otherwise iteration replays order with its repetitions; for a repeated vertex the last position counts; loops are dropped, all other edges between entries are kept, and num_edges counts an edge once for every record of its later end.", "quantifier": "every graph with or without loops, every list, every layout of the hash tables", "why_tests_cant": "tests only pass orderings of the vertices of loopless graphs", "anchors": ["src/degengraph.rs: with_ordering"]}
{"id": "C113", "title": "Vertex lists with entries that are not in the graph", "statement": "For EditGraph, EditDigraph and DegenGraph, neighbourhood(X), closed_neighbourhood(X), subgraph(X) and r_neighbourhood(X, r) with r > 0 panic if an entry of X is not a vertex (for EditGraph also: only then); r_neighbourhood(X, 0) returns X. For ReachGraph every call with a non-empty X panics. OrdGraph never panics and treats such entries as isolated vertices. contract_pair(u, v) panics iff u or v is missing; contract_into(c, X) panics iff an entry of X other than c is missing, and a missing centre c is created iff some entry of X has a neighbour outside X; contract panics on the empty list and returns the first entry even if the result does not contain it.", "quantifier": "every reachable graph, every list, every iteration order of the temporary sets", "why_tests_cant": "tests only pass vertices of the graph; the outcome must be shown for every graph, list and hash order", "anchors": ["src/graph.rs: neighbourhood, closed_neighbourhood, r_neighbourhood, subgraph", "src/editgraph.rs: contract, contract_pair, contract_into"]}
{"id": "C114", "title": "Generators and unions outside the intended range", "statement": "The generators and disj_union overflow exactly from the stated sizes on: biclique and star from 2^32 vertices, matching from more than 2^32, complete_kpartite (at least two parts) from a total of 2^32, grid from 2^32 cells; disj_union if a vertex is 2^32-1 or a shifted id reaches 2^32. Below these sizes the degenerate arguments (an empty side, part, row or column, a 1x1 grid, a single part, no part) give the stated graphs, mostly the empty graph. The same holds for EditDigraph.", "quantifier": "all sizes, all graphs, both graph types", "why_tests_cant": "graphs of 2^32 vertices cannot be built in a test", "anchors": ["src/editgraph.rs: biclique, star, matching, complete_kpartite, grid, disj_union", "src/editdigraph.rs"]}
{"id": "C115", "title": "Subdivisions and products outside the intended range", "statement": "subdivide(t) overflows for every graph with a vertex v such that v+1+t*|E| is at least 2^32; both products overflow if there are at least 2^32 pairs of vertices. On every other graph, subdivide(1) replaces each edge by two edges to a new vertex, which coincide iff the edge is a loop: the number of edges is 2|E| minus the number of loops, and the new vertex of a loop has degree 1.", "quantifier": "all graphs with or without loops, all t, every iteration order", "why_tests_cant": "products of 2^32 pairs cannot be built in a test, and no test subdivides a loop", "anchors": ["src/operations.rs: subdivide, cartesian_product, lexicographic_product"]}
{"id": "C116", "title": "SReachTraceOracle on arbitrary lists and sizes", "statement": "No call of the safe functions compute_traces and is_shattered is undefined behaviour (refuted: is_shattered([0,0,1],3) on the edges 0-1, 2-3 calls unwrap_unchecked on None). For duplicate-free lists it never is. If an entry of X is not a vertex, all queries panic; compute_traces and neighbour_count panic iff, for duplicate-free X, the list is not sorted by the ordering. For duplicate-free X, is_shattered(X,k) panics iff k < |X|, overflows iff k >= |X| and |X| >= 64 or k-|X| >= 64, and answers correctly otherwise. With a repeated vertex compute_traces never returns if the vertex has a left neighbour in X and X is closed under left neighbours; compute_traces never returns all 2^|X| sets for a list X with repetitions, so is_shattered never answers yes for it. neighbour_count of any sorted list is the number of outer neighbours plus, for every x of X, the number of repetitions of x times the number of vertices whose leftmost left neighbour in X is x.", "quantifier": "every DegenGraph made by the constructors, every list X, every k, every hash order", "why_tests_cant": "tests only pass sorted duplicate-free vertex lists; undefined behaviour cannot be observed reliably", "anchors": ["src/datastructures/sreach_trace_oracle.rs: compute_traces, compute_neighbour_count, is_shattered"]}
{"id": "C117", "title": "Targets outside the graph", "statement": "scattered_colouring with a target containing a vertex that is not in the (non-empty) graph never returns; it loops forever, or panics when the target is crowded. On the empty graph it returns no classes. domset_with_target ignores target vertices that are not in the graph; if none is in the graph, the result is empty.", "quantifier": "every linear graph, distance, target set, hash order and number of rounds", "why_tests_cant": "non-termination cannot be observed by a test; every hash order must be considered", "anchors": ["src/algorithms/lineargraph.rs: scattered_colouring, domset_with_target"]}
{"id": "C118", "title": "Equality and boundaries of Reachables", "statement": "Two results of reachables (of ReachGraphs of the same depth) are equal iff they belong to the same vertex and have the same vertices at every depth (refuted: the derived comparison also compares private offsets, so equal sets from different graphs compare as different); what holds: equal iff moreover the records start at the same offset; within one graph iff the vertices are equal. get_boundaries(d) delimits at(d) (refuted: it is off by one); what holds: for 1 <= d < DEPTH it gives the bounds of at(d+1), and it panics otherwise.", "quantifier": "every pair of ReachGraphs made by to_wreach_graph / to_sreach_graph with depth >= 1 and array size below 2^32, every pair of vertices, every d", "why_tests_cant": "the offset depends on all earlier vertices of the ordering; get_boundaries is private and never called", "anchors": ["src/reachgraph.rs: Reachables, get_boundaries, reachables_at"]}
{"id": "C119", "title": "Algorithms on a ReachGraph", "statement": "ReachGraph::neighbours is not implemented. On every non-empty ReachGraph edges(), components, is_bipartite, degeneracy, by_degeneracy, DegenGraph::from_graph, DTFGraph::orient, right_bfs, wreach_sets/sizes (distance >= 1), sreach_set/sets/sizes (distance >= 2), domset, domset_with_target and scattered_colouring (distance >= 1, non-empty target) panic. colour_greedy and count_max_cliques give what they give on the OrdGraph it was made from; sreach_set(u,1) and sreach_sets(1) give the left neighbours; invert gives the complement. On the empty ReachGraph nothing panics.", "quantifier": "every ReachGraph made by to_wreach_graph / to_sreach_graph with depth >= 1 and array size below 2^32, every distance, target and hash order", "why_tests_cant": "the statement ranges over all graphs, depths and orders; there are no tests calling these algorithms on ReachGraph", "anchors": ["src/reachgraph.rs: impl Graph for ReachGraph", "src/algorithms/graph.rs", "src/algorithms/lineargraph.rs"]}
{"id": "C120", "title": "Shattered sets are small in degenerate graphs", "statement": "If is_shattered(X, k) returns true for a non-empty duplicate-free list X of vertices, then some vertex v has left_degree(v) >= |X| - 1, and the degeneracy of the graph is at least |X| - 1. If moreover |X| <= 2^(k-|X|), then some left degree, and the degeneracy, is at least |X|.", "quantifier": "every DegenGraph made by the constructors, every duplicate-free X, every k, every hash order", "why_tests_cant": "a bound on all shattered sets of all graphs", "anchors": ["src/datastructures/sreach_trace_oracle.rs: is_shattered", "src/degengraph.rs: left_degree"]}
{"id": "C121", "title": "Few traces in degenerate graphs", "statement": "If every left degree of the graph is at most d, then compute_traces(X) reports a nonzero count for at most d*|X| + sum over i <= d of binomial(|X|, i) subsets of X.", "quantifier": "every DegenGraph made by the constructors, every list X of vertices sorted by the ordering without repetition, every d bounding the left degrees, every hash order", "why_tests_cant": "a bound over all graphs and all subsets", "anchors": ["src/datastructures/sreach_trace_oracle.rs: compute_traces", "src/degengraph.rs: left_degree"]}
{"id": "C122", "title": "Strong reachability bounds weak reachability and domset", "statement": "sreach_sizes(r) is at most wreach_sizes(r) at each vertex. If all values of sreach_sizes(r) are at most s, then wreach_sizes(r) + 1 is at most c = 1 + s + ... + s^r at each vertex, and domset(r) is at most c * (c + (2r)^2) times as large as any r-dominating set.", "quantifier": "every linear graph, every r >= 1 (below 2^15 for domset), every s, every r-dominating set, every hash order", "why_tests_cant": "relates the results of three algorithms on all graphs, orderings and radii; the optimum is not computed by the library", "anchors": ["src/algorithms/lineargraph.rs: sreach_sizes, wreach_sizes, domset"]}
{"id": "C123", "title": "merge, intersect, invert and subgraph form a lattice for compare_subgraph", "statement": "intersect(G,H) is below G and H and above every graph below both; merge(G,H) is above both and below every graph above both. compare_subgraph(G,H) is Sub or Eq iff intersect(G,H) equals G iff merge(G,H) equals H. merge and intersect distribute over each other. On graphs with the same vertices invert exchanges them. subgraph(X) is below G, equals G iff X has all vertices, and a graph is below it iff it is below G with all vertices in X.", "quantifier": "all triples of graphs of any implementation of the trait that represent a graph, every vertex list X, every hash order", "why_tests_cant": "algebraic laws over all pairs and triples of graphs", "anchors": ["src/compare.rs: compare_subgraph", "src/operations.rs: merge, intersect, invert", "src/graph.rs: subgraph"]}
{"id": "C124", "title": "Analyses under renaming, union, subgraphs and edits", "statement": "normalize preserves is_bipartite, the number of components, balls (up to the returned renaming) and, when the reported upper bound is at most 129, degeneracy and core numbers. disj_union is bipartite iff both parts are, and its degeneracy is the maximum of both. A subgraph of a bipartite graph is bipartite, its balls are contained in the old ones and its degeneracy is no larger. add_edge raises the degeneracy by at most one, remove_edge and remove_vertex lower it by at most one.", "quantifier": "every EditGraph reachable by the API (loopless with at most 2^31 vertices for degeneracy), every edit, every vertex list, every hash order", "why_tests_cant": "relates two runs of an algorithm on different graphs, for all graphs and hash orders", "anchors": ["src/editgraph.rs: normalize, disj_union, add_edge, remove_edge, remove_vertex", "src/algorithms/graph.rs: is_bipartite, components, degeneracy", "src/graph.rs: r_neighbours, subgraph"]}
{"id": "C125", "title": "What count_max_cliques returns on classes of graphs", "statement": "On triangle-free graphs count_max_cliques returns the number of edges plus the number of isolated vertices. If the left neighbourhood of each vertex is a clique it returns the number of maximal cliques, that is, of vertices v such that no vertex has v and all left neighbours of v as left neighbours. If every left degree is at most 3d the result is at most n*3^d. There are graphs and orderings where it returns fewer than the number of maximal cliques.", "quantifier": "every linear graph without loops, every ordering, every hash order", "why_tests_cant": "an exact value and a bound over all graphs and orderings; the undercount needs a particular ordering", "anchors": ["src/algorithms/lineargraph.rs: count_max_cliques, bk_pivot_count"]}
{"id": "C126", "title": "Provided trait methods on digraphs, augmentations and layers", "statement": "On EditDigraph, Digraph::neighbours and Graph::neighbours agree: in-neighbours, then out-neighbours. On DTFGraph, degrees, in_degrees, out_degrees map exactly the vertices to their degrees and in_neighbourhood(X) is the set of vertices outside X with an arc into X. On DTFLayer the degree maps are those of the whole graph and in_neighbourhood counts only arcs of the weight of the layer. Every provided method that needs neighbours or out_neighbours panics on augmentations and layers for every non-empty input.", "quantifier": "every EditDigraph reachable by the API, every DTFGraph made by orient, augment, domset, layer, add_vertex and add_arc, every layer, every vertex list, every hash order", "why_tests_cant": "all graphs, weights, vertex lists and iteration orders", "anchors": ["src/graph.rs: Digraph::neighbours, in_neighbourhood, out_neighbourhood, in_degrees, out_degrees, degrees", "src/dtfgraph.rs: impl Graph/Digraph for DTFGraph, DTFLayer"]}
{"id": "C127", "title": "Strong reachability, degeneracy, fill-in and treewidth", "statement": "For every ordering and radius the largest value of sreach_sizes is at least the degeneracy of the graph; the order computed by degeneracy attains it at radius 1 (when the reported value is at most 129). With a radius of at least n-1, sreach_sets is the least chordal completion of the graph whose perfect elimination order is the reversed ordering, and the treewidth is at most k exactly if some ordering makes all values of sreach_sizes at most k. The lower bound returned by degeneracy is at most the treewidth.", "quantifier": "every graph without loops, every ordering, every radius below 2^32, every hash order", "why_tests_cant": "relates the output to graph parameters defined by quantification over all subsets, completions and tree decompositions", "anchors": ["src/algorithms/lineargraph.rs: sreach_sets, sreach_sizes", "src/algorithms/graph.rs: degeneracy", "src/ordgraph.rs: with_ordering"]}
{"id": "C128", "title": "Weak reachability and treedepth", "statement": "With a radius of at least n-1, v is in wreach_sets()[u] exactly if v is before u and both are connected using only v and later vertices. The treedepth is at most t exactly if some ordering makes all values of wreach_sizes smaller than t.", "quantifier": "every graph without loops, every ordering, every radius from n-1 to 2^32-2, every hash order", "why_tests_cant": "relates the output to treedepth, defined by quantification over all rooted forests", "anchors": ["src/algorithms/lineargraph.rs: wreach_sets, wreach_sizes", "src/ordgraph.rs: with_ordering"]}
{"id": "C129", "title": "The errors reported by the readers", "statement": "A reader of edge lists returns an error exactly if some line is malformed and all lines before it are well formed. The error has kind InvalidData, names the number of that line counted from 0, and says that the line does not have two tokens, or else quotes the first of its two tokens that is no vertex id. Readers of vertex lists and sets quote the line without the whitespace at its ends. from_file on a name ending neither in .txt nor in .gz returns an error of kind InvalidInput that quotes the name, without opening the file. Apart from the error values the readers behave as in C84-C87.", "quantifier": "every byte stream, also one that breaks off, every file name, every file system", "why_tests_cant": "tests only read well-formed files; the statement quantifies over all byte streams", "anchors": ["src/io.rs: from_buf, from_buf_with_estimate, parse_vertex, open_reader, from_txt, from_gzipped, from_file"]}
{"id": "C130", "title": "Laws of the operations on graphs", "statement": "Removing the vertices of a list one after the other gives the same graph (==) as taking the subgraph on the remaining vertices. A subgraph of a subgraph is the subgraph on the smaller set, and invert commutes with subgraph. closed_neighbourhood is neighbourhood together with the centres, and its size is the sum of both sizes. normalize is idempotent. Contracting a list of vertices in two steps equals contracting them at once, and contract_pair equals contract_into of one vertex. disj_union has the empty graph as neutral element on both sides and is associative as long as no id overflows.", "quantifier": "every graph built through the API (also with loops), every list of vertices, every hash iteration order", "why_tests_cant": "tests check single results on small graphs; the laws relate the results of different sequences of calls on all graphs", "anchors": ["src/editgraph.rs: remove_vertex, normalize, contract_pair, contract_into, disj_union", "src/graph.rs: subgraph, neighbourhood, closed_neighbourhood"]}
{"id": "C131", "title": "Removing and contracting never increases reachability widths", "statement": "Let h arise from a loopless graph g by removing edges, removing vertices and contracting edges with contract_pair. If sreach_sizes with a radius of at least n-1 is at most k for some ordering of g, then there is an ordering of h for which sreach_sizes is at most k for every radius, and the lower bound returned by degeneracy of h is at most k. The same holds for wreach_sizes. Contracting the edge uv maps the ball of radius r around x into the ball of radius r around the image of x, and every vertex whose image is in that ball is in the ball of radius 2r+1 around x.", "quantifier": "every graph built through the API, every sequence of removals and contractions, every ordering, radius and hash iteration order", "why_tests_cant": "tests never compare a graph with its minors; the statement is about all orderings of all minors", "anchors": ["src/editgraph.rs: contract_pair, remove_vertex, remove_edge", "src/algorithms/lineargraph.rs: sreach_sizes, wreach_sizes", "src/graph.rs: r_neighbours", "src/algorithms/graph.rs: degeneracy"]}
{"id": "C132", "title": "Whole programs: from an edge list in a file to a dominating set, a colouring or a bipartition", "statement": "Let a plain or gzipped file list pairs of ids. Loading it, ordering the graph with OrdGraph::by_degeneracy, calling domset, writing the set to another file and reading it again never fails if no pair is a loop; the ids read are among the listed ones and every listed id is reached from one of them by at most radius listed pairs; no other file changes; for radius 1 and d-degenerate pairs with d <= 129 the set is at most (d+1)(d+5) times as large as any such set. colour_greedy in the same place of domset gives listed pairs different colours among 0..d. is_bipartite after loading, also with loops, returns two disjoint sets met by every listed pair exactly if they exist, and otherwise an odd closed walk along listed pairs.", "quantifier": "every codec, file store, file name, list of pairs in any accepted spelling, radius and hash iteration order", "why_tests_cant": "tests run the readers, the orderings and the algorithms separately on a few files; the statement speaks only of the text of the input file and of the result", "anchors": ["src/io.rs: from_file, from_txt, write_txt", "src/ordgraph.rs: by_degeneracy", "src/algorithms/lineargraph.rs: domset, colour_greedy", "src/algorithms/graph.rs: degeneracy, is_bipartite"]}
{"id": "C133", "title": "Degeneracy of contractions, complements, unions, products, subdivisions and forests", "statement": "For graphs without loops and returned upper bounds of at most 129: contract_pair changes the degeneracy by at most 1 in either direction, and contracting an edge can raise it from 2 to 3; the degeneracies of a graph with n vertices and of the result of invert sum to at least (n-1)/2 and at most n-1; the result of merge has at least the larger and less than twice the sum of the two degeneracies, that of intersect at most the smaller; lexicographic_product has between max(c, n1 d) and n1 d + c; subdivide with at least one new vertex per edge gives min(2, d). num_edges is at most d n - d(d+1)/2. The upper bound is at most 1 exactly if num_edges plus the number of components equals num_vertices, and 0 exactly if there are no edges.", "quantifier": "every graph built through the API or implementing the Graph trait correctly, every pair of vertices, every hash iteration order of every call", "why_tests_cant": "tests call degeneracy on a handful of graphs and never on results of the operations; the relations hold for all pairs of graphs", "anchors": ["src/algorithms/graph.rs: degeneracy, components", "src/editgraph.rs: contract_pair", "src/operations.rs: invert, merge, intersect, subdivide, lexicographic_product"]}
{"id": "C134", "title": "Reachable sets of the named graphs in their natural ordering", "statement": "When a generated graph is laid out by OrdGraph::with_ordering in the order 0..n-1, sreach_sizes(k) and wreach_sizes(k) return for every vertex v and every radius k >= 1 exactly: path min(v,1) and min(v,k); cycle 2 if v >= 2 and n-v <= k, else min(v,1), and k+1 if k < v and n-v <= k, else min(v,k); clique v; independent 0; matching 1 on the second half, else 0; biclique s on the second side, on the first side v but 0 for k = 1; star min(v,1). In any ordering whose edges span at most b positions all values of sreach_sizes(k) are at most b and of wreach_sizes(k) at most k b, so the treewidth is at most b (for grid(s,t), row by row, t). The natural ordering attains the treewidth of path (1), cycle (2), clique (n-1) and biclique with s <= t (s), and the treedepth of clique (n) and biclique (s+1).", "quantifier": "every size below 2^32 (cycle from 3, biclique and star with non-empty sides, grid other than 1 x 1), every radius, every memory layout of both graphs, every hash iteration order of every search", "why_tests_cant": "a test computes the sizes of one graph for one radius; here they are given as formulas in the size, the vertex and the radius, and matched with the optimum over all orderings", "anchors": ["src/algorithms/lineargraph.rs: sreach_sizes, wreach_sizes", "src/ordgraph.rs: with_ordering", "src/editgraph.rs: path, cycle, matching, star, clique, independent, biclique, grid"]}
{"id": "C135", "title": "Greedy colourings of the named graphs in their natural ordering", "statement": "When a generated graph is laid out by OrdGraph::with_ordering in the order 0..n-1, colour_greedy returns exactly: path v mod 2; cycle v mod 2, but 2 for the last vertex also if the cycle is even; clique v; independent 0; matching 0 on the first and 1 on the second half; star 0 for the centre and 1 for the leaves; biclique with at least two vertices on the first side: 0 on the first side and no colour on the second; grid with at least two rows and columns: the chessboard colouring except that the second vertex of the second row gets colour 2.", "quantifier": "every size (below 2^32 vertices), every memory layout of both graphs", "why_tests_cant": "the formulas hold for all sizes; a test on a small path or clique does not show that even cycles and grids get a superfluous third colour and bicliques stay half uncoloured", "anchors": ["src/algorithms/lineargraph.rs: colour_greedy", "src/ordgraph.rs: with_ordering", "src/editgraph.rs: path, cycle, matching, star, clique, independent, biclique, grid"]}
{"id": "C136", "title": "The distance methods agree with one another", "statement": "small_distance(x, y) of a linear graph does not depend on the ordering of the graph, the hash iteration orders or the order of its arguments; a smaller cut-off only turns larger distances into None; Some(0) means equality, Some(1) adjacency, and the triangle inequalities hold as far as the cut-off allows; y lies in r_neighbours(x, k) of the editable graph iff small_distance is Some(n) with n at most k; with cut-off at least n-1 it is Some iff both vertices lie in one element of components; small_distance of an augmented DTFGraph of the same loop-free graph never undercuts it, agrees on distance 1, and is None where the linear graph says None; the distance domset_with_target reports for a target is at least small_distance_sets from the returned set, which is not None; vertices of equal colour in the domset witness have small_distance None for twice the radius.", "quantifier": "every graph, any two orderings of it, every pair of vertices, every cut-off below 2^31, every iteration order, every augmented DTFGraph of depth below 2^31, radius below 2^15", "why_tests_cant": "compares five independently coded algorithms on all graphs and all orderings at once", "anchors": ["src/algorithms/lineargraph.rs: small_distance, small_distance_sets, domset_with_target", "src/graph.rs: r_neighbours", "src/algorithms/graph.rs: components", "src/dtfgraph.rs: small_distance"]}
{"id": "C137", "title": "Dominating sets of the named graphs in their natural ordering", "statement": "When a generated graph is laid out by OrdGraph::with_ordering in the order 0..n-1, domset(r) returns exactly (r at least 1 where not said otherwise): path: the vertices 1, r+2, 2r+3, ... with distances to the nearer of the two neighbouring members; cycle: the last vertex and the vertices r, 2r+1, 3r+2, ... up to n-r-2; clique: the last vertex; independent (any r): all vertices; matching: the second half; biclique with r at least 2: the first vertex of the second side; biclique with r = 1: the whole second side if it has fewer than five vertices, otherwise its first five vertices and the whole first side; star accordingly: for r = 1 and at least five leaves the centre and five leaves, for larger r one leaf. The returned distances are given by formulas.", "quantifier": "every size (at most 2^31 vertices), every radius below 2^15, every memory layout and hash iteration order", "why_tests_cant": "the formulas hold for all sizes and radii; they show how far the results are from optimal (a path gets about twice the optimum, a star six times)", "anchors": ["src/algorithms/lineargraph.rs: domset, domset_with_target", "src/ordgraph.rs: with_ordering", "src/editgraph.rs: path, cycle, matching, star, clique, independent, biclique"]}
{"id": "C138", "title": "Dominating sets of the named graphs compared with smallest ones", "statement": "In the natural ordering, domset(r) with r at least 1 returns, against the size of a smallest r-dominating set: path with n at least 2 vertices: (n-2)/(r+1)+1 against (n-1)/(2r+1)+1 (rounded down); cycle: max(1, n/(r+1)) against (n-1)/(2r+1)+1; clique: 1 against 1; matching: n against n; biclique, r at least 2: 1 against 1; biclique, r = 1, both sides at least 2: s+5 (or t if t is less than 5) against 2; star: for r = 1 six (or all n leaves if n is less than 5), otherwise 1, against 1. Hence no factor up to 10^9 bounds the size of the result relative to the optimum on all graphs and orderings.", "quantifier": "every size (at most 2^31 vertices), every radius below 2^15, every memory layout and hash iteration order; all dominating sets", "why_tests_cant": "the optimum is a minimum over all sets of vertices; the formulas hold for all sizes", "anchors": ["src/algorithms/lineargraph.rs: domset, domset_with_target", "src/ordgraph.rs: with_ordering", "src/editgraph.rs: path, cycle, matching, star, clique, biclique"]}
{"id": "C139", "title": "Complete multipartite graphs", "statement": "For complete_kpartite with at least two nonempty parts: is_bipartite reports a bipartition exactly if there are exactly two nonempty parts; there is one component; if at most 130 vertices lie outside a largest part, both bounds of degeneracy are their number. In the order 0..n-1, for every radius, a vertex of the last nonempty part (strongly or weakly) reaches exactly the vertices of the other parts, every other vertex reaches the vertices of the preceding parts and, for radius at least 2, all its predecessors. colour_greedy gives each part its own colour up to and including the first part with more than one vertex and leaves the remaining vertices out of the map, if at most one nonempty part follows that one; otherwise it panics. domset(r) returns the first vertex of the last nonempty part if r is at least 2; for r = 1 the whole last part if it has fewer than five vertices, otherwise its first five vertices and all other parts.", "quantifier": "every list of sizes with sum below 2^32 (domset: at most 2^31) and at least two nonempty parts, every radius, every memory layout and hash iteration order", "why_tests_cant": "the formulas hold for all lists of sizes, including empty parts; the panic of colour_greedy depends on the order of the parts", "anchors": ["src/editgraph.rs: complete_kpartite", "src/algorithms/graph.rs: is_bipartite, components, degeneracy", "src/algorithms/lineargraph.rs: sreach_sizes, wreach_sizes, colour_greedy, domset"]}
{"id": "C140", "title": "Numbers of edges and of maximal cliques of the named graphs", "statement": "num_vertices, num_edges and count_max_cliques (for every ordering of the vertices) of the generated graphs are: path: n, n-1, n-1 (n at least 2 for the cliques); cycle, n at least 3: n, n, n (n at least 4 for the cliques); matching: 2n, n, n; clique, n at least 1: n, n(n-1)/2, 1; independent: n, 0, n; biclique: s+t, st, st; star: n+1, n, n; grid other than 1 by 1: st, s(t-1)+(s-1)t and the same number; complete multipartite with at least two nonempty parts: the sum of the sizes, m with 2m plus the sum of the squares of the sizes equal to the square of the number of vertices, and the product of the sizes of the nonempty parts.", "quantifier": "every size within the 32-bit range, every ordering of the vertices, every memory layout", "why_tests_cant": "the formulas hold for all sizes and for all orderings, although count_max_cliques is wrong on other graphs (C54)", "anchors": ["src/algorithms/lineargraph.rs: count_max_cliques, bk_pivot_count", "src/editgraph.rs: num_vertices, num_edges, path, cycle, matching, star, clique, independent, biclique, complete_kpartite, grid"]}
{"id": "C141", "title": "How the named graphs arise from one another", "statement": "Up to ==: biclique(s,t) and star(n) are complete_kpartite([s,t]) and ([1,n]), clique(n) is complete_kpartite of n ones, grid(1,n) and grid(n,1) are path(n), cycle(3) is clique(3). Removing the last vertex of a path, cycle, clique, star leaves the path, path, clique, star with one vertex less; an edge between the ends of path(n) gives cycle(n), n at least 3; pendant edges extend paths and stars. contract_pair on an edge of path(n+1), cycle(n+1), clique(n+1), star(n) gives the next smaller graph of the same kind. invert exchanges clique(n) and independent(n) and turns complete_kpartite(sizes) into disj_unions of the cliques of these sizes. subgraph on the first k vertices of a path, cycle, clique, star, or on the first k rows of a grid, gives the smaller graph. disj_union shifts the second graph by exactly one more than the largest id of the first (0 if it is empty); two paths and one edge make a path, two independent sets an independent set.", "quantifier": "every size within the 32-bit range, every list of sizes with at least two nonempty parts, every iteration order of temporary sets; the offset for every reachable graph and every second graph", "why_tests_cant": "identities between unboundedly many graphs; each relates two independent pieces of code", "anchors": ["src/editgraph.rs: path, cycle, matching, star, clique, independent, biclique, complete_kpartite, grid, add_edge, remove_vertex, contract_pair, disj_union, disj_unions, eq", "src/operations.rs: invert", "src/graph.rs: subgraph"]}
{"id": "C142", "title": "Named digraphs: orientation, exact offset of unions, normal form", "statement": "Each digraph generator returns the vertices of the undirected generator of the same name and exactly one arc for every edge (path from 2 vertices, cycle from 3, clique other than 1, biclique and star with nonempty sides, grid other than 1 by 1). EditDigraph::disj_union shifts the second digraph by exactly one more than the largest id of the first (0 if it is empty) and joins every joined pair by the arc from the smaller to the larger id. On a digraph with vertices 0..n-1 normalize returns the identity map. normalize, and disj_union of the empty digraph with it, leave all named digraphs unchanged except cycles: the last arc of a directed cycle on at least three vertices is turned round.", "quantifier": "every size within the 32-bit range, every iteration order used by normalize; the offset for every pair of reachable digraphs whose shifted ids fit into 32 bits", "why_tests_cant": "statements about all sizes; the exact offset for all pairs of digraphs, with arbitrary ids", "anchors": ["src/editdigraph.rs: path, cycle, matching, star, clique, independent, biclique, grid, disj_union, normalize, eq", "src/editgraph.rs: path, cycle, matching, star, clique, independent, biclique, grid"]}
{"id": "C143", "title": "Exact ids in disj_unions", "statement": "disj_unions of a list of graphs (or digraphs) shifts each member by the sum of the spans of the members before it, where the span is one more than the largest id and 0 for an empty member. The result contains exactly the shifted vertices and edges; for digraphs each joined pair is joined by the arc from the smaller to the larger id. The span of the result is the sum of all spans.", "quantifier": "every list of reachable graphs or digraphs whose spans sum to less than 2^32, empty members and repetitions included", "why_tests_cant": "lists of every length with arbitrary ids, gaps and empty members", "anchors": ["src/editgraph.rs: disj_union, disj_unions", "src/editdigraph.rs: disj_union, disj_unions"]}
{"id": "C144", "title": "right_bfs and sreach_set outside their domain", "statement": "On an OrdGraph or DegenGraph, right_bfs with any radius and sreach_set with any radius at least 1 panic if the root is not a vertex; right_bfs with the radius 2^32-1 from a vertex overflows.", "quantifier": "every represented graph and ordering, every vertex id, every radius, every iteration order", "why_tests_cant": "all graphs and radii, including the largest radius, which would need a vector of 2^32 sets", "anchors": ["src/algorithms/lineargraph.rs: right_bfs, sreach_set"]}
