import Verif.Lemmas.Cases
/-!
# Properties C01 – C10: `EditGraph` editing and queries

`Reachable g`: `g` is obtained from `EditGraph::new()` by any finite sequence of editing calls, with an
arbitrary rearrangement of all hash tables between calls (`Verif.Model.History`).
-/
namespace Verif
open EditGraph

/-- All basic queries of `g` answer as the abstract graph `S`, for every argument. -/
structure Agrees (g : EditGraph) (S : SGraph) : Prop where
  contains : ∀ u, g.contains u = decide (u ∈ S.V)
  adjacent : ∀ u v, g.adjacent u v = decide (s(u, v) ∈ S.E)
  numVertices : g.numVertices = S.V.card
  numEdges : g.numEdges = S.E.card
  degree : ∀ u, g.degree u = S.deg u

theorem EditGraph.Abs.agrees {g : EditGraph} {S : SGraph} (H : Abs g S) : Agrees g S :=
  ⟨H.contains, H.adjacent, H.numVertices, H.numEdges, H.degree⟩

/-- A concrete graph with a loop and an isolated vertex, used in the examples below. -/
def exCalls : List Call :=
  [.addEdge 1 2, .addEdges [(2, 3), (3, 2), (2, 2)], .addVertex 7, .addEdge 9 1, .removeVertex 9]

/-- A layout oracle that reverses the degree table and the adjacency table before every call. -/
def revLay (_ : Nat) (g : EditGraph) : EditGraph :=
  ⟨⟨g.adj.entries.reverse, by rw [List.map_reverse]; exact List.nodup_reverse.2 g.adj.nodup⟩,
   ⟨g.degs.entries.reverse, by rw [List.map_reverse]; exact List.nodup_reverse.2 g.degs.nodup⟩, g.m⟩

theorem revLay_relayout (i : Nat) (g : EditGraph) : Relayout g (revLay i g) where
  m := rfl
  degs := List.reverse_perm _
  keys := by
    have : (revLay i g).adj.keys = g.adj.keys.reverse := by
      unfold revLay HMap.keys; simp
    rw [this]; exact List.reverse_perm _
  sets u N h := ⟨N, by
    rw [HMap.get?_eq_some] at h ⊢
    exact List.mem_reverse.2 h, List.Perm.refl _⟩

/-- **C01.** For every history of editing calls and every hash layout: no call fails, the returned values
are those of the abstract graph, and afterwards every query answers as the abstract graph. -/
theorem C01_history (lay : Nat → EditGraph → EditGraph) (hlay : ∀ i g, Relayout g (lay i g))
    (calls : List Call) :
    ∃ g, EditGraph.run lay 0 calls EditGraph.new = .ok (g, SGraph.empty.rets calls) ∧
      Agrees g (SGraph.empty.run calls) := by
  obtain ⟨⟨g, rs⟩, hr, H, hrs⟩ := Abs.run hlay calls 0 abs_new
  simp only at hrs
  subst hrs
  exact ⟨g, hr, H.agrees⟩

example : ∀ i g, Relayout g (revLay i g) := revLay_relayout
example : (EditGraph.run revLay 0 exCalls EditGraph.new).map
    (fun r => (r.1.vertices.length, r.1.m, r.1.degree 2, r.1.contains 9, r.2))
    = .ok (4, 3, 4, false, [.bool true, .num 2, .bool true, .bool true, .bool true]) := by decide

/-- **C02.** Symmetry, endpoints and neighbour lists of every reachable graph. -/
theorem C02_symmetric {g : EditGraph} (hg : Reachable g) (u v : Vertex) :
    g.adjacent u v = g.adjacent v u ∧
    (g.adjacent u v = true → g.contains u = true ∧ g.contains v = true) ∧
    (g.contains u = true → ∃ l, g.neighbours u = .ok l ∧ l.Nodup ∧ (v ∈ l ↔ g.adjacent u v = true)) ∧
    (g.contains u = false → g.neighbours u = .error .panic) := by
  obtain ⟨S, H⟩ := hg.abs
  refine ⟨?_, ?_, ?_, ?_⟩
  · rw [H.adjacent, H.adjacent]; simp only [SGraph.adj_comm]
  · rw [H.adjacent, H.contains, H.contains]
    simp only [decide_eq_true_eq]
    exact fun h => ⟨h.left, h.right⟩
  · rw [H.contains]
    simp only [decide_eq_true_eq]
    intro hu
    obtain ⟨l, h1, h2, h3⟩ := H.neighbours hu
    exact ⟨l, h1, h2, by rw [h3, H.adjacent]; simp⟩
  · rw [H.contains]
    simp only [decide_eq_false_iff_not]
    exact H.neighbours_none

/-- `C02_symmetric` for a path with a loop and an isolated vertex. -/
example := C02_symmetric loopG_reachable 1 2

/-- **C03.** Degree = number of neighbours, a loop counting twice; degrees sum up to `2 * num_edges`. -/
theorem C03_handshake {g : EditGraph} (hg : Reachable g) :
    (∀ u l, g.neighbours u = .ok l → g.degree u = l.length + if g.adjacent u u then 1 else 0) ∧
    (∀ u, g.contains u = false → g.degree u = 0) ∧
    (g.vertices.map g.degree).sum = 2 * g.numEdges ∧
    g.vertices.Nodup ∧ g.vertices.length = g.numVertices ∧ (∀ u, u ∈ g.vertices ↔ g.contains u = true) := by
  obtain ⟨S, H⟩ := hg.abs
  refine ⟨?_, ?_, ?_, H.vertices_nodup, ?_, ?_⟩
  · intro u l hl
    by_cases hu : u ∈ S.V
    · obtain ⟨l', h1, h2, h3⟩ := H.neighbours hu
      rw [hl] at h1
      cases h1
      rw [H.degree, SGraph.deg_eq, H.adjacent]
      have : l.length = (S.nbrs u).card := by
        rw [← List.toFinset_card_of_nodup h2]
        congr 1; ext w; rw [List.mem_toFinset, h3, SGraph.mem_nbrs]
      rw [this]; simp
    · rw [H.neighbours_none hu] at hl; cases hl
  · intro u hu
    rw [H.contains] at hu
    rw [H.degree]
    exact SGraph.deg_of_not_mem (by simpa using hu)
  · rw [H.numEdges, ← SGraph.sum_deg]
    have h1 : S.V = g.vertices.toFinset := by ext u; rw [List.mem_toFinset, H.mem_vertices]
    rw [h1, List.sum_toFinset _ H.vertices_nodup]
    congr 1
    apply List.map_congr_left
    intro u _; exact H.degree u
  · rw [H.numVertices, ← List.toFinset_card_of_nodup H.vertices_nodup]
    congr 1; ext u; rw [List.mem_toFinset, H.mem_vertices]
  · intro u; rw [H.mem_vertices, H.contains]; simp

/-- Example for C02, C03, C06, C07, C09, C10: a reachable graph with a loop, an isolated vertex and
three edges. -/
theorem exReachable : ∃ g, Reachable g ∧ g.numEdges = 3 ∧ g.adjacent 2 2 = true ∧ g.degree 7 = 0 ∧
    g.contains 7 = true ∧ g.adjacent 1 3 = false := by
  obtain ⟨⟨g, rs⟩, hr, H, -⟩ := Abs.run (lay := revLay) revLay_relayout exCalls 0 abs_new
  refine ⟨g, H.reachable, ?_⟩
  have h2 : ((EditGraph.run revLay 0 exCalls EditGraph.new).map (fun r => (r.1.numEdges, r.1.adjacent 2 2,
    r.1.degree 7, r.1.contains 7, r.1.adjacent 1 3)))
      = .ok (3, true, 0, true, false) := by decide
  rw [hr] at h2
  simpa [Except.map] using h2

example : ∃ g, Reachable g ∧ g.adjacent 2 2 = true ∧ g.degree 7 = 0 := by
  obtain ⟨g, h1, _, h2, h3, _⟩ := exReachable; exact ⟨g, h1, h2, h3⟩

/-- **C04.** For every graph (any implementation of the trait that represents an undirected graph `S`, any
iteration order), the edge iterator terminates, yields each edge exactly once with the smaller end first,
and yields `num_edges` items. -/
theorem C04_edges {G : Graph} {S : SGraph} (H : G.Rep S) :
    ∃ it l, EdgeIter.new G = .ok it ∧ Drains (EdgeIter.next G) it l ∧ l.Nodup ∧
      (∀ a b, (a, b) ∈ l ↔ a ≤ b ∧ s(a, b) ∈ S.E) ∧ l.length = G.numEdges := by
  obtain ⟨l, -, he, s, hs, hd⟩ := H.edges
  exact ⟨s, l, hs, hd, he.nodup, he.mem, by rw [he.length, H.ne]⟩

example : ∃ (g : EditGraph) (S : SGraph), g.view.Rep S ∧ s(2, 2) ∈ S.E ∧ S.E.card = 3 := by
  obtain ⟨g, hg, hm, hl, -⟩ := exReachable
  obtain ⟨S, H⟩ := hg.abs
  exact ⟨g, S, H.rep, by rw [H.adjacent] at hl; exact of_decide_eq_true hl, by rw [← H.numEdges, hm]⟩

/-- **C05**, full statement: `vertices_and_edges()` yields every vertex and every edge exactly once. -/
def C05_statement : Prop := ∀ (G : Graph) (S : SGraph), G.Rep S →
  ∃ it l, MixedIter.new G = .ok it ∧ Drains (MixedIter.next G) it l ∧ l.Nodup ∧
    (∀ a, .V a ∈ l ↔ a ∈ S.V) ∧ (∀ a b, .E (a, b) ∈ l ↔ a ≤ b ∧ s(a, b) ∈ S.E)

/-- **C05**, what holds: everything except loops is yielded exactly once.  Missing: loops are never
yielded (see `C05_loops_missing`). -/
theorem C05_vertices_and_edges_partial {G : Graph} {S : SGraph} (H : G.Rep S) :
    ∃ it l, MixedIter.new G = .ok it ∧ Drains (MixedIter.next G) it l ∧ l.Nodup ∧
      (∀ a, .V a ∈ l ↔ a ∈ S.V) ∧ (∀ a b, .E (a, b) ∈ l ↔ a < b ∧ s(a, b) ∈ S.E) := by
  obtain ⟨N, h1, h2, h3⟩ := H.exists_nbrs
  obtain ⟨s, hs, hd⟩ := MixedIter.drains_new (G := G) (N := N) fun w hw => h1 w ((H.vmem w).1 hw)
  refine ⟨s, _, hs, hd, nodup_mixedOf H.vnodup fun v hv => h2 v ((H.vmem v).1 hv), ?_, ?_⟩
  · intro a; rw [mem_mixedOf_V, H.vmem]
  · intro a b
    rw [mem_mixedOf_E, H.vmem]
    constructor
    · rintro ⟨ha, hb, hle⟩; exact ⟨hle, (h3 a ha b).1 hb⟩
    · rintro ⟨hle, ha⟩
      have hl : a ∈ S.V := SGraph.Adj.left (S := S) ha
      exact ⟨hl, (h3 a hl b).2 ha, hle⟩

/-- `C05_vertices_and_edges_partial` for a path with a loop and an isolated vertex. -/
example := C05_vertices_and_edges_partial loopG_rep

theorem Drains.unique {σ α : Type} {next : σ → Res (Option (α × σ))} {s : σ} {l l' : List α}
    (h : Drains next s l) (h' : Drains next s l') : l = l' := by
  induction h generalizing l' with
  | done h =>
    cases h' with
    | done => rfl
    | step h2 _ => rw [h] at h2; cases h2
  | step h _ ih =>
    cases h' with
    | done h2 => rw [h] at h2; cases h2
    | step h2 t2 =>
      rw [h] at h2
      cases h2
      rw [ih t2]

/-- **C05**, refutation: on the graph with the single loop `(0,0)` the iterator yields the vertex only. -/
theorem C05_loops_missing : ¬ C05_statement := by
  intro hc
  obtain ⟨g, hg, H⟩ := abs_fromIter [(0, 0)]
  obtain ⟨it, l, h1, h2, -, -, h5⟩ := hc _ _ H.rep
  obtain ⟨it', l', h1', h2', -, -, h5'⟩ := C05_vertices_and_edges_partial H.rep
  rw [h1] at h1'
  cases h1'
  have := Drains.unique h2 h2'
  subst this
  have h6 := (h5 0 0).2 ⟨le_refl 0, by decide⟩
  rw [h5'] at h6
  exact absurd h6.1 (lt_irrefl 0)

/-- The iterator's output on that graph, computed. -/
example : ((fromIter [(0, 0)]).bind fun g => (MixedIter.new g.view).bind fun it =>
    (MixedIter.next g.view it).bind fun r => match r with
      | some (x, it') => (MixedIter.next g.view it').map fun r' => (x, r'.isNone)
      | none => .error .panic) = .ok (.V 0, true) := by decide

/-- **C06.** Equality is extensional, whatever histories built the two graphs. -/
theorem C06_eq {g h : EditGraph} (hg : Reachable g) (hh : Reachable h) :
    g.eq h = true ↔
      (∀ u, g.contains u = h.contains u) ∧ (∀ u v, g.adjacent u v = h.adjacent u v) := by
  obtain ⟨S, H⟩ := hg.abs
  obtain ⟨T, H'⟩ := hh.abs
  rw [H.eq_iff H']
  constructor
  · rintro rfl
    exact ⟨fun u => by rw [H.contains, H'.contains], fun u v => by rw [H.adjacent, H'.adjacent]⟩
  · rintro ⟨h1, h2⟩
    refine SGraph.ext_adj ?_ ?_
    · ext u
      have := h1 u
      rw [H.contains, H'.contains] at this
      simpa using this
    · intro u v
      have := h2 u v
      rw [H.adjacent, H'.adjacent] at this
      simpa using this

/-- Two different histories with equal results, and two with different results. -/
example : ((fromIter [(0, 1), (1, 2), (2, 2)]).bind fun g => (fromIter [(2, 2), (2, 1), (1, 0), (0, 1)]).map
    fun h => g.eq h) = .ok true := by decide
example : ((fromIter [(0, 1), (1, 2), (2, 2)]).bind fun g => (fromIter [(2, 2), (2, 1), (0, 2)]).map
    fun h => g.eq h) = .ok false := by decide

/-- **C07.** `clone()` succeeds and yields an equal graph. -/
theorem C07_clone {g : EditGraph} (hg : Reachable g) :
    ∃ h, g.clone = .ok h ∧ Reachable h ∧ g.eq h = true ∧ h.eq g = true := by
  obtain ⟨S, H⟩ := hg.abs
  obtain ⟨h, hh, H'⟩ := H.clone
  exact ⟨h, hh, H'.reachable, (H.eq_iff H').2 rfl, (H'.eq_iff H).2 rfl⟩

example : ((fromIter [(0, 1), (1, 2), (2, 2)]).bind fun g => g.clone.map fun h => (g.eq h, h.numEdges))
    = .ok (true, 3) := by decide

/-- Two edge lists denote the same set of unordered edges. -/
def SameEdges (l l' : List Edge) : Prop :=
  ∀ a b, ((a, b) ∈ l ∨ (b, a) ∈ l) ↔ ((a, b) ∈ l' ∨ (b, a) ∈ l')

/-- **C08.** `from_iter` succeeds; the result contains exactly the endpoints and exactly the given edges;
`num_edges` is the number of distinct unordered pairs; lists with the same unordered edges give equal
graphs; `add_edges` into any reachable graph returns the number of distinct new edges. -/
theorem C08_from_iter (l : List Edge) :
    (∃ g, fromIter l = .ok g ∧ Reachable g ∧
      (∀ u, g.contains u = true ↔ ∃ e ∈ l, u = e.1 ∨ u = e.2) ∧
      (∀ u v, g.adjacent u v = true ↔ (u, v) ∈ l ∨ (v, u) ∈ l) ∧
      g.numEdges = (l.map (fun e => s(e.1, e.2))).toFinset.card) ∧
    (∀ l' g g', SameEdges l l' → fromIter l = .ok g → fromIter l' = .ok g' → g.eq g' = true) ∧
    (∀ g, Reachable g → ∃ h n, g.addEdges l = .ok (h, n) ∧
      n = ((l.filter (fun e => !g.adjacent e.1 e.2)).map (fun e => s(e.1, e.2))).toFinset.card ∧
      h.numEdges = g.numEdges + n) := by
  refine ⟨?_, ?_, ?_⟩
  · obtain ⟨g, hg, H⟩ := abs_fromIter l
    refine ⟨g, hg, H.reachable, ?_, ?_, ?_⟩
    · intro u; rw [H.contains]; simp [mem_addEdges_V]
    · intro u v; rw [H.adjacent]; simp [SGraph.addEdges_adj]
    · rw [H.numEdges]; simp [SGraph.addEdges, SGraph.edgeSet]
  · intro l' g g' hs hg hg'
    obtain ⟨g₁, e₁, H⟩ := abs_fromIter l
    obtain ⟨g₂, e₂, H'⟩ := abs_fromIter l'
    rw [hg] at e₁; cases e₁
    rw [hg'] at e₂; cases e₂
    rw [H.eq_iff H']
    refine SGraph.ext_adj ?_ ?_
    · have key : ∀ {l l' : List Edge}, SameEdges l l' → ∀ u, (∃ e ∈ l, u = e.1 ∨ u = e.2) →
          ∃ e ∈ l', u = e.1 ∨ u = e.2 := by
        rintro l l' hs u ⟨⟨a, b⟩, he, hu⟩
        rcases (hs a b).1 (Or.inl he) with h | h
        · exact ⟨_, h, hu⟩
        · exact ⟨_, h, hu.symm⟩
      ext u
      rw [mem_addEdges_V, mem_addEdges_V]
      constructor
      · rintro (h | h)
        · exact Or.inl h
        · exact Or.inr (key hs u h)
      · rintro (h | h)
        · exact Or.inl h
        · exact Or.inr (key (fun a b => (hs a b).symm) u h)
    · intro u v
      rw [SGraph.addEdges_adj, SGraph.addEdges_adj, hs u v]
  · intro g hg
    obtain ⟨S, H⟩ := hg.abs
    obtain ⟨⟨h, n⟩, e, H', hn⟩ := H.addEdges l
    refine ⟨h, n, e, ?_, ?_⟩
    · simp only at hn
      rw [hn]
      congr 1
      ext x
      simp only [SGraph.edgeSet, Finset.mem_sdiff, List.mem_toFinset, List.mem_map, List.mem_filter,
        H.adjacent, Bool.not_eq_true', decide_eq_false_iff_not]
      constructor
      · rintro ⟨⟨p, hp, rfl⟩, h2⟩; exact ⟨p, ⟨hp, h2⟩, rfl⟩
      · rintro ⟨p, ⟨hp, h2⟩, rfl⟩; exact ⟨⟨p, hp, rfl⟩, h2⟩
    · simp only at hn H'
      rw [H'.numEdges, H.numEdges, hn]
      show (S.E ∪ SGraph.edgeSet l).card = _
      rw [← Finset.union_sdiff_self_eq_union, Finset.card_union_of_disjoint Finset.disjoint_sdiff]

example : SameEdges [(0, 1), (1, 2), (2, 2)] [(2, 2), (2, 1), (1, 0), (0, 1)] := by
  intro a b; simp only [List.mem_cons, Prod.mk.injEq, List.not_mem_nil, or_false]; tauto

/-- **C09.** Undo and idempotence of single edits, from every reachable graph. -/
theorem C09_undo {g : EditGraph} (hg : Reachable g) (u v : Vertex) :
    (g.contains u = true → g.contains v = true → g.adjacent u v = false →
      ∃ g₁ g₂, g.addEdge u v = .ok (g₁, true) ∧ g₁.removeEdge u v = .ok (g₂, true) ∧ g₂.eq g = true) ∧
    (g.adjacent u v = true →
      ∃ g₁ g₂, g.removeEdge u v = .ok (g₁, true) ∧ g₁.addEdge u v = .ok (g₂, true) ∧ g₂.eq g = true) ∧
    (g.contains u = false →
      ∃ g₁ g₂, g.addVertex u = (g₁, true) ∧ g₁.removeVertex u = .ok (g₂, true) ∧ g₂.eq g = true) ∧
    (∃ g₁ b g₂, g.addEdge u v = .ok (g₁, b) ∧ g₁.addEdge v u = .ok (g₂, false) ∧ g₂.eq g₁ = true) ∧
    (∃ g₁ b g₂, g.removeEdge u v = .ok (g₁, b) ∧ g₁.removeEdge v u = .ok (g₂, false) ∧ g₂.eq g₁ = true) ∧
    (∃ g₁ b g₂, g.addVertex u = (g₁, b) ∧ g₁.addVertex u = (g₂, false) ∧ g₂.eq g₁ = true) ∧
    (∃ g₁ b g₂, g.removeVertex u = .ok (g₁, b) ∧ g₁.removeVertex u = .ok (g₂, false) ∧ g₂.eq g₁ = true) := by
  obtain ⟨S, H⟩ := hg.abs
  refine ⟨?_, ?_, ?_, ?_, ?_, ?_, ?_⟩
  · intro hu hv ha
    rw [H.contains] at hu hv
    rw [H.adjacent] at ha
    simp only [decide_eq_true_eq, decide_eq_false_iff_not] at hu hv ha
    obtain ⟨⟨g₁, b₁⟩, e₁, H₁, hb₁⟩ := H.addEdge u v
    obtain ⟨⟨g₂, b₂⟩, e₂, H₂, hb₂⟩ := H₁.removeEdge u v
    simp only at hb₁ hb₂ H₁ H₂ e₂
    refine ⟨g₁, g₂, by rw [e₁, hb₁]; simp [ha], by rw [e₂, hb₂]; simp [SGraph.addEdge_adj], ?_⟩
    rw [H₂.eq_iff H]
    refine SGraph.ext (by simp [hu, hv]) ?_
    simp only [SGraph.removeEdge_E, SGraph.addEdge_E]
    exact Finset.erase_insert ha
  · intro ha
    rw [H.adjacent] at ha
    simp only [decide_eq_true_eq] at ha
    obtain ⟨⟨g₁, b₁⟩, e₁, H₁, hb₁⟩ := H.removeEdge u v
    obtain ⟨⟨g₂, b₂⟩, e₂, H₂, hb₂⟩ := H₁.addEdge u v
    simp only at hb₁ hb₂ H₁ H₂ e₂
    refine ⟨g₁, g₂, by rw [e₁, hb₁]; simp [ha], by rw [e₂, hb₂]; simp [SGraph.removeEdge_adj], ?_⟩
    rw [H₂.eq_iff H]
    exact SGraph.removeEdge_addEdge ha
  · intro hu
    rw [H.contains] at hu
    simp only [decide_eq_false_iff_not] at hu
    obtain ⟨H₁, hb₁⟩ := H.addVertex u
    obtain ⟨⟨g₂, b₂⟩, e₂, H₂, hb₂⟩ := H₁.removeVertex u
    simp only at hb₂ H₂
    refine ⟨(g.addVertex u).1, g₂, Prod.ext rfl (by simp [hb₁, hu]), by rw [e₂, hb₂]; simp, ?_⟩
    rw [H₂.eq_iff H]
    refine SGraph.ext ?_ ?_
    · simp [hu]
    · simp only [SGraph.removeVertex_E, SGraph.addVertex_E]
      exact Finset.filter_true_of_mem fun e he hc => hu (S.wf e he u hc)
  · obtain ⟨⟨g₁, b₁⟩, e₁, H₁, hb₁⟩ := H.addEdge u v
    obtain ⟨⟨g₂, b₂⟩, e₂, H₂, hb₂⟩ := H₁.addEdge v u
    simp only at hb₁ hb₂ H₁ H₂ e₂
    have ha : (S.addEdge u v).Adj v u := by rw [SGraph.addEdge_adj]; simp
    refine ⟨g₁, b₁, g₂, e₁, by rw [e₂, hb₂]; simp [ha], ?_⟩
    rw [H₂.eq_iff H₁, SGraph.addEdge_of_mem ha]
  · obtain ⟨⟨g₁, b₁⟩, e₁, H₁, hb₁⟩ := H.removeEdge u v
    obtain ⟨⟨g₂, b₂⟩, e₂, H₂, hb₂⟩ := H₁.removeEdge v u
    simp only at hb₁ hb₂ H₁ H₂ e₂
    have ha : ¬ (S.removeEdge u v).Adj v u := by rw [SGraph.removeEdge_adj]; simp
    refine ⟨g₁, b₁, g₂, e₁, by rw [e₂, hb₂]; simp [ha], ?_⟩
    rw [H₂.eq_iff H₁]
    exact SGraph.ext rfl (Finset.erase_eq_of_notMem ha)
  · obtain ⟨H₁, hb₁⟩ := H.addVertex u
    obtain ⟨H₂, hb₂⟩ := H₁.addVertex u
    refine ⟨(g.addVertex u).1, (g.addVertex u).2, ((g.addVertex u).1.addVertex u).1, rfl,
      Prod.ext rfl (hb₂.trans (by simp)), ?_⟩
    rw [H₂.eq_iff H₁]
    exact SGraph.addVertex_of_mem (by simp)
  · obtain ⟨⟨g₁, b₁⟩, e₁, H₁, hb₁⟩ := H.removeVertex u
    obtain ⟨⟨g₂, b₂⟩, e₂, H₂, hb₂⟩ := H₁.removeVertex u
    simp only at hb₁ hb₂ H₁ H₂ e₂
    refine ⟨g₁, b₁, g₂, e₁, by rw [e₂, hb₂]; simp, ?_⟩
    rw [H₂.eq_iff H₁]
    refine SGraph.ext (by simp) ?_
    simp only [SGraph.removeVertex_E]
    exact Finset.filter_true_of_mem fun e he => (Finset.mem_filter.1 he).2

example : ∃ g, Reachable g ∧ g.contains 7 = true ∧ g.contains 2 = true ∧ g.adjacent 7 2 = false ∧
    g.adjacent 2 2 = true := by
  obtain ⟨g, h1, _, h2, h3, h4, _⟩ := exReachable
  refine ⟨g, h1, h4, ((C02_symmetric h1 2 2).2.1 h2).1, ?_, h2⟩
  by_contra hc
  have hc' : g.adjacent 7 2 = true := by simpa using hc
  obtain ⟨S, H⟩ := h1.abs
  rw [H.adjacent] at hc'
  rw [H.degree] at h3
  exact SGraph.deg_eq_zero.1 h3 2 (by simpa using hc')

/-- **C10.** `remove_loops` deletes exactly the loops, `remove_isolates` exactly the vertices of degree 0;
both return the number of deleted objects and change nothing else. -/
theorem C10_remove_loops_isolates {g : EditGraph} (hg : Reachable g) :
    (∃ h n, g.removeLoops = .ok (h, n) ∧ (∀ u, h.contains u = g.contains u) ∧
      (∀ u v, h.adjacent u v = true ↔ g.adjacent u v = true ∧ u ≠ v) ∧
      n = (g.vertices.filter (fun u => g.adjacent u u)).length ∧ h.numEdges + n = g.numEdges) ∧
    (∃ h n, g.removeIsolates = .ok (h, n) ∧
      (∀ u, h.contains u = true ↔ ∃ v, g.adjacent u v = true) ∧
      (∀ u v, h.adjacent u v = g.adjacent u v) ∧
      h.numVertices + n = g.numVertices ∧ h.numEdges = g.numEdges) := by
  obtain ⟨S, H⟩ := hg.abs
  constructor
  · obtain ⟨⟨h, n⟩, e, H', hn⟩ := H.removeLoops
    simp only at H' hn
    refine ⟨h, n, e, ?_, ?_, ?_, ?_⟩
    · intro u; rw [H'.contains, H.contains]; rfl
    · intro u v
      rw [H'.adjacent, H.adjacent, decide_eq_true_eq, decide_eq_true_eq]
      show s(u, v) ∈ Finset.filter _ _ ↔ _
      rw [Finset.mem_filter]
      simp [SGraph.Adj]
    · have : g.removeLoops = .ok (h, n) := e
      unfold EditGraph.removeLoops at this
      simp only at this
      cases hf : List.foldlM (fun (g : EditGraph) u => do return (← g.removeEdge u u).1) g
        (g.vertices.filter (fun u => g.adjacent u u)) with
      | error e => rw [hf] at this; cases this
      | ok g' => rw [hf] at this; cases this; rfl
    · rw [H'.numEdges, H.numEdges, hn, Nat.add_comm]
      exact Finset.card_filter_add_card_filter_not _
  · obtain ⟨⟨h, n⟩, e, H', hn⟩ := H.removeIsolates
    simp only at H' hn
    refine ⟨h, n, e, ?_, ?_, ?_, ?_⟩
    · intro u
      rw [H'.contains, decide_eq_true_eq]
      show u ∈ S.V \ S.isolated ↔ _
      simp only [Finset.mem_sdiff, mem_isolated, H.adjacent, SGraph.deg_eq_zero, decide_eq_true_eq]
      constructor
      · rintro ⟨h1, h2⟩
        by_contra hc
        exact h2 ⟨h1, fun v hv => hc ⟨v, hv⟩⟩
      · rintro ⟨v, hv⟩
        exact ⟨hv.left, fun hh => hh.2 v hv⟩
    · intro u v; rw [H'.adjacent, H.adjacent]; rfl
    · rw [H'.numVertices, H.numVertices, hn]
      show (S.V \ S.isolated).card + _ = _
      exact Finset.card_sdiff_add_card_eq_card (Finset.filter_subset _ _)
    · rw [H'.numEdges, H.numEdges]; rfl

example : ∃ g, Reachable g ∧ g.adjacent 2 2 = true ∧ g.contains 7 = true ∧ g.degree 7 = 0 := by
  obtain ⟨g, h1, _, h2, h3, h4, _⟩ := exReachable; exact ⟨g, h1, h2, h4, h3⟩

end Verif
