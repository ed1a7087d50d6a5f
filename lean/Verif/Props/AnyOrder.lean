import Verif.Props.LoopPeel
import Verif.Props.Builders
/-!
# C111, C112: `with_ordering` for every graph, with loops or not, and every list of vertices
-/
namespace Verif
open EditGraph

/-! ## C111 -/

theorem OrdGraph.LInv.relayout {g g' : OrdGraph} {S : SGraph} {ord : List ℕ} (H : LInv g S ord) (h : Relayout g g') :
    LInv g' S ord := by
  obtain ⟨h1, h2, h3, h4⟩ := h
  refine ⟨H.nodup, H.within, fun u i => by rw [h1]; exact H.idx u i, ⟨h3.trans H.nodes.len, ?_⟩, h2.trans H.m⟩
  intro i x hx
  obtain ⟨n, k1, k2, k3, k4⟩ := H.nodes.node i x hx
  have hlt : i < g'.nodes.length := by rw [h3]; exact (List.getElem?_eq_some_iff.1 k1).1
  obtain ⟨e1, e2, e3⟩ := h4 i n _ k1 (List.getElem?_eq_getElem hlt)
  exact ⟨_, List.getElem?_eq_getElem hlt, e1.trans k2, fun w => (e2 w).trans (k3 w), fun w => (e3 w).trans (k4 w)⟩

/-- **C111.** `OrdGraph::with_ordering` panics exactly if the list repeats a vertex or misses an end of an edge. -/
theorem C111_panics {G : Graph} {S : SGraph} (hG : G.Rep S) (ord : List ℕ) :
    (OrdGraph.withOrdering G ord = .error .panic ↔ ¬ ord.Nodup ∨ ∃ u v, S.Adj u v ∧ u ∉ ord) ∧
    ∀ f, OrdGraph.withOrdering G ord = .error f → f = .panic := by
  obtain ⟨h1, h2⟩ := OrdGraph.withOrdering_all hG ord
  by_cases hbad : ¬ ord.Nodup ∨ ∃ u v, S.Adj u v ∧ u ∉ ord
  · refine ⟨⟨fun _ => hbad, h1⟩, fun f hf => ?_⟩
    rw [h1 hbad] at hf; cases hf; rfl
  · have hok := hbad
    push Not at hok
    obtain ⟨g, hg, -⟩ := h2 hok.1 hok.2
    refine ⟨⟨fun h => ?_, fun h => absurd h hbad⟩, fun f hf => ?_⟩
    · rw [hg] at h; cases h
    · rw [hg] at hf; cases hf

/-- `C111_panics` for a path with a loop and an isolated vertex and an order that repeats a vertex. -/
example := C111_panics loopG_rep [0, 1, 1]

/-- **C111.** Otherwise the vertices are the entries of the list (also those that are not vertices of the graph), with the
edges of the graph; a loop counts as a left and as a right neighbour. -/
theorem C111_with_ordering {G : Graph} {S : SGraph} (hG : G.Rep S) {ord : List ℕ} (hn : ord.Nodup)
    (hin : ∀ u v, S.Adj u v → u ∈ ord) :
    ∃ g₀, OrdGraph.withOrdering G ord = .ok g₀ ∧ ∀ g, OrdGraph.Relayout g₀ g →
      (g.lin.vertices = ord ∧ g.lin.numVertices = ord.length ∧ g.lin.numEdges = S.E.card ∧
        (∀ u, g.lin.contains u = true ↔ u ∈ ord) ∧ ∀ u v, g.adjacent u v = .ok (decide (S.Adj u v))) ∧
      (∀ u ∈ ord, g.indexOf u = .ok (ord.idxOf u) ∧ g.degree u = .ok (S.deg u) ∧
        (∃ l, g.neighbours u = .ok l ∧ ∀ w, l.count w = if S.Adj u w then (if w = u then 2 else 1) else 0) ∧
        (∃ l, g.leftNeighbours u = .ok l ∧ l.Pairwise (fun a b => ord.idxOf a < ord.idxOf b) ∧
          (∀ w, w ∈ l ↔ S.Adj u w ∧ ord.idxOf w ≤ ord.idxOf u) ∧ g.lin.leftDegree u = .ok l.length) ∧
        ∃ l, g.rightNeighbours u = .ok l ∧ l.Pairwise (fun a b => ord.idxOf a < ord.idxOf b) ∧
          (∀ w, w ∈ l ↔ S.Adj u w ∧ ord.idxOf u ≤ ord.idxOf w) ∧ g.rightDegree u = .ok l.length) ∧
      ∀ u, u ∉ ord → g.indexOf u = .error .panic ∧ g.leftNeighbours u = .error .panic ∧ g.rightNeighbours u = .error .panic ∧
        g.degree u = .ok 0 ∧ g.rightDegree u = .ok 0 ∧ g.lin.leftDegree u = .ok 0 ∧ g.neighbours u = .ok [] := by
  obtain ⟨g₀, hg, H₀⟩ := (OrdGraph.withOrdering_all hG ord).2 hn hin
  refine ⟨g₀, hg, fun g hr => ?_⟩
  have H := H₀.relayout hr
  refine ⟨⟨H.vertices, H.nodes.len, H.m, H.contains, H.adjacent⟩, fun u hu => ⟨?_, H.degree hu, H.neighbours hu, ?_, ?_⟩, fun u hu => ?_⟩
  · unfold OrdGraph.indexOf; rw [H.get hu]; rfl
  · obtain ⟨l, h1, h2, h3⟩ := H.leftNeighbours hu
    refine ⟨l, h1, h2, h3, ?_⟩
    show LinGraph.defaultLeftDegree _ _ u = _
    unfold LinGraph.defaultLeftDegree
    rw [if_pos ((H.contains u).2 hu), h1]
    rfl
  · obtain ⟨l, h1, h2, h3⟩ := H.rightNeighbours hu
    refine ⟨l, h1, h2, h3, ?_⟩
    obtain ⟨n, k1, -, -, k4⟩ := H.node hu
    unfold OrdGraph.rightDegree
    rw [H.get hu]
    simp only [k1, unwrap_some, bind_ok, pure_eq_ok]
    have hnd : l.Nodup := h2.imp fun h he => absurd h (by rw [he]; omega)
    rw [HSet.len_of_mem_iff (T := l.toFinset) (fun w => by rw [k4, List.mem_toFinset, h3]), List.toFinset_card_of_nodup hnd]
  · have h := H.get_none hu
    have hc : ¬ g.indices.contains u = true := fun hc => hu ((H.contains u).1 hc)
    refine ⟨?_, ?_, ?_, ?_, ?_, ?_, ?_⟩
    · unfold OrdGraph.indexOf; rw [h]; rfl
    · unfold OrdGraph.leftNeighbours OrdGraph.indexOf; rw [h]; rfl
    · unfold OrdGraph.rightNeighbours; rw [h]; rfl
    · unfold OrdGraph.degree; rw [h]
    · unfold OrdGraph.rightDegree; rw [h]
    · show LinGraph.defaultLeftDegree _ _ u = _
      unfold LinGraph.defaultLeftDegree
      rw [if_neg hc]
    · unfold OrdGraph.neighbours; rw [h]

/-- Hypotheses of `C111_with_ordering` are met by a graph with a loop and a list with an entry that is not a vertex. -/
example : ∃ g : EditGraph, g.view.Rep (SGraph.empty.addEdges [(0, 0), (0, 1)]) ∧ [7, 1, 0].Nodup ∧
    ∀ u v, (SGraph.empty.addEdges [(0, 0), (0, 1)]).Adj u v → u ∈ [7, 1, 0] := by
  obtain ⟨⟨g, k⟩, -, A, -⟩ := EditGraph.abs_new.addEdges [(0, 0), (0, 1)]
  have hV : (SGraph.empty.addEdges [(0, 0), (0, 1)]).V = {0, 1} := by decide
  refine ⟨g, A.rep, by decide, fun u v h => ?_⟩
  have := h.left
  rw [hV] at this
  simp only [Finset.mem_insert, Finset.mem_singleton] at this
  rcases this with rfl | rfl <;> decide

/-- A list with a missing end and one with a repeated vertex. -/
example : (∃ u v, (SGraph.empty.addEdges [(0, 0), (0, 1)]).Adj u v ∧ u ∉ [7, 1]) ∧ ¬ [1, 0, 1].Nodup :=
  ⟨⟨0, 1, by decide, by decide⟩, by decide⟩

/-! ## C112 -/

/-- **C112.** `DegenGraph::with_ordering` (array of at most `2^32` words) panics exactly if the list contains an entry that is
no vertex, or misses a neighbour of an entry. -/
theorem C112_panics {G : Graph} {S : SGraph} (hG : G.Rep S) (hmiss : ∀ u, u ∉ S.V → G.neighbours u = .error .panic)
    {ord : List ℕ} (hsz : 3 * ord.length + (ord.map (fun u => (S.nbrs u).card)).sum ≤ 2 ^ 32) :
    (DegenGraph.withOrdering G ord = .error .panic ↔ ∃ u ∈ ord, u ∉ S.V ∨ ∃ v, S.Adj u v ∧ v ∉ ord) ∧
    ∀ f, DegenGraph.withOrdering G ord = .error f → f = .panic := by
  obtain ⟨h1, h2⟩ := DegenGraph.withOrdering_all hG hmiss hsz
  by_cases hbad : ∃ u ∈ ord, u ∉ S.V ∨ ∃ v, S.Adj u v ∧ v ∉ ord
  · refine ⟨⟨fun _ => hbad, h1⟩, fun f hf => ?_⟩
    rw [h1 hbad] at hf; cases hf; rfl
  · have hok := hbad
    push Not at hok
    obtain ⟨g, hg, -⟩ := h2 hok
    refine ⟨⟨fun h => ?_, fun h => absurd h hbad⟩, fun f hf => ?_⟩
    · rw [hg] at h; cases h
    · rw [hg] at hf; cases hf

/-- **C112.** Otherwise the graph has one record for every entry of the list; for a repeated entry the last position counts.
Loops are dropped, all other edges between entries are kept, and an edge is counted once for every record of its later end. -/
theorem C112_with_ordering {G : Graph} {S : SGraph} (hG : G.Rep S) (hmiss : ∀ u, u ∉ S.V → G.neighbours u = .error .panic)
    {ord : List ℕ} (hsz : 3 * ord.length + (ord.map (fun u => (S.nbrs u).card)).sum ≤ 2 ^ 32)
    (hin : ∀ u ∈ ord, u ∈ S.V ∧ ∀ v, S.Adj u v → v ∈ ord) :
    ∃ g₀, DegenGraph.withOrdering G ord = .ok g₀ ∧ ∀ g, DegenGraph.Relayout g₀ g →
      (g.vertices = ord ∧ g.first = ord.head? ∧ g.lin.numVertices = ord.toFinset.card ∧ (∀ u, g.lin.contains u = true ↔ u ∈ ord) ∧
        g.lin.numEdges = (ord.map fun u => ((S.nbrs u).filter fun w => lastIdx ord w < lastIdx ord u).card).sum) ∧
      (∀ u ∈ ord, (∃ l, g.leftSlice u = .ok l ∧ l.Pairwise (fun a b => lastIdx ord a < lastIdx ord b) ∧
          (∀ w, w ∈ l ↔ S.Adj u w ∧ lastIdx ord w < lastIdx ord u) ∧ g.leftDegree u = .ok l.length) ∧
        ∃ R, g.rightNeighbours u = .ok R ∧ (∀ w, w ∈ R ↔ S.Adj u w ∧ lastIdx ord u < lastIdx ord w) ∧ g.rightDegree u = R.len) ∧
      (∀ u, u ∉ ord → g.leftSlice u = .error .panic ∧ g.rightNeighbours u = .error .panic ∧ g.leftDegree u = .ok 0 ∧
        g.rightDegree u = 0) ∧
      ∀ u v, g.adjacent u v = .ok (decide (S.Adj u v ∧ u ≠ v ∧ u ∈ ord)) := by
  obtain ⟨g₀, hg, bs, l₀, I₀, hbs, hE⟩ := (DegenGraph.withOrdering_all hG hmiss hsz).2 hin
  refine ⟨g₀, hg, fun g hr => ?_⟩
  have I := I₀.relayout hr rfl
  have hrec : ∀ {u}, u ∈ ord → ∃ N, (u, N) ∈ bs := fun {u} hu => by
    rw [← hbs] at hu
    obtain ⟨e, he, rfl⟩ := List.mem_map.1 hu
    exact ⟨e.2, he⟩
  have hfst : ∀ {u N}, (u, N) ∈ bs → u ∈ ord := fun {u N} h => by
    rw [← hbs]; exact List.mem_map.2 ⟨_, h, rfl⟩
  have later : ∀ v w, v ∈ ord → ((∃ N, (w, N) ∈ bs ∧ v ∈ N) ↔ S.Adj v w ∧ lastIdx ord v < lastIdx ord w) := by
    intro v w hv
    constructor
    · rintro ⟨N, h1, h2⟩
      have := ((hE _ h1).2 v).1 h2
      exact ⟨this.1.symm, this.2⟩
    · rintro ⟨h1, h2⟩
      obtain ⟨N, hN⟩ := hrec ((hin v hv).2 w h1)
      exact ⟨N, hN, ((hE _ hN).2 v).2 ⟨h1.symm, h2⟩⟩
  have inside : ∀ {v}, (∃ e ∈ bs, v ∈ e.2) → v ∈ ord := by
    rintro v ⟨e, he, hv⟩
    exact (hin e.1 (hfst (u := e.1) (N := e.2) he)).2 v (((hE _ he).2 v).1 hv).1
  refine ⟨⟨?_, ?_, ?_, fun u => ?_, ?_⟩, fun u hu => ⟨?_, ?_⟩, fun u hu => ?_, fun u v => ?_⟩
  · rw [← hbs]; exact I.vertices
  · rw [← hbs, List.head?_map]; exact I.first
  · rw [← hbs]; exact I.numVertices
  · rw [← hbs]; exact I.contains u
  · refine I.m.trans ?_
    rw [← hbs, List.map_map]
    congr 1
    refine List.map_congr_left fun e he => ?_
    rw [hbs]
    have hn : e.2.Nodup := (hE e he).1.imp fun h he => absurd h (by rw [he]; omega)
    rw [← List.toFinset_card_of_nodup hn]
    show _ = (Finset.filter _ _).card
    congr 1
    ext w
    rw [List.mem_toFinset, (hE e he).2, Finset.mem_filter, SGraph.mem_nbrs]
  · rw [← hbs] at hu
    obtain ⟨pre, N, post, h1, h2⟩ := DegenGraph.RInv.last_split hu
    have hN := hE (u, N) (by rw [h1]; simp)
    exact ⟨N, I.leftSlice h1 h2, hN.1, hN.2, I.leftDegree h1 h2⟩
  · obtain ⟨R, h1, h2⟩ := (I.rightNeighbours u).2 (.inl (by rw [hbs]; exact hu))
    refine ⟨R, h1, fun w => (h2 w).trans (later u w hu), ?_⟩
    have h1 : unwrap (g.right.get? u) = .ok R := h1
    unfold DegenGraph.rightDegree
    cases hg : g.right.get? u with
    | none => rw [hg] at h1; cases h1
    | some R' => rw [hg] at h1; cases h1; rfl
  · have hi : g.indices.get? u = none := (I.none u).2 (by rw [hbs]; exact hu)
    have hr : g.right.get? u = none := (I.rkeys u).2 ⟨by rw [hbs]; exact hu, fun e he h => hu (inside ⟨e, he, h⟩)⟩
    refine ⟨?_, ?_, ?_, ?_⟩
    · unfold DegenGraph.leftSlice DegenGraph.indexOf; rw [hi]; rfl
    · unfold DegenGraph.rightNeighbours; rw [hr]; rfl
    · unfold DegenGraph.leftDegree; rw [hi]
    · unfold DegenGraph.rightDegree; rw [hr]
  · rw [I.adjacent u v]
    congr 1
    rw [Bool.eq_iff_iff, Bool.or_eq_true, decide_eq_true_eq]
    have e1 := I.adjacentOrdered u v
    have e2 := I.adjacentOrdered v u
    constructor
    · rintro (h | h)
      · obtain ⟨N, h1, h2⟩ := e1.1 h
        have h3 := ((hE _ h1).2 u).1 h2
        exact ⟨h3.1.symm, fun he => absurd h3.2 (by rw [he]; exact lt_irrefl _), (hin _ (hfst h1)).2 _ h3.1⟩
      · obtain ⟨N, h1, h2⟩ := e2.1 h
        have h3 := ((hE _ h1).2 v).1 h2
        exact ⟨h3.1, fun he => absurd h3.2 (by rw [he]; exact lt_irrefl _), hfst h1⟩
    · rintro ⟨h1, h2, h3⟩
      have hv := (hin u h3).2 v h1
      have hne : lastIdx ord u ≠ lastIdx ord v := fun h => h2 (lastIdx_inj h3 hv h)
      rcases Nat.lt_or_gt_of_ne hne with h | h
      · exact .inl (e1.2 ((later u v h3).2 ⟨h1, h⟩))
      · exact .inr (e2.2 ((later v u hv).2 ⟨h1.symm, h⟩))

/-- Hypotheses of `C112_with_ordering` are met by a graph with a loop and a list with a repeated entry. -/
example : ∃ g : EditGraph, g.view.Rep (SGraph.empty.addEdges [(0, 0), (0, 1), (2, 2)]) ∧
    (∀ u, u ∉ (SGraph.empty.addEdges [(0, 0), (0, 1), (2, 2)]).V → g.view.neighbours u = .error .panic) ∧
    3 * [0, 1, 0].length + ([0, 1, 0].map (fun u => ((SGraph.empty.addEdges [(0, 0), (0, 1), (2, 2)]).nbrs u).card)).sum ≤ 2 ^ 32 ∧
    ∀ u ∈ [0, 1, 0], u ∈ (SGraph.empty.addEdges [(0, 0), (0, 1), (2, 2)]).V ∧
      ∀ v, (SGraph.empty.addEdges [(0, 0), (0, 1), (2, 2)]).Adj u v → v ∈ [0, 1, 0] := by
  obtain ⟨⟨g, k⟩, -, A, -⟩ := EditGraph.abs_new.addEdges [(0, 0), (0, 1), (2, 2)]
  have hV : (SGraph.empty.addEdges [(0, 0), (0, 1), (2, 2)]).V = {0, 1, 2} := by decide
  refine ⟨g, A.rep, fun u hu => A.neighbours_none hu, by decide, fun u hu => ⟨?_, fun v h => ?_⟩⟩
  · rw [hV]
    simp only [List.mem_cons, List.not_mem_nil, or_false] at hu
    rcases hu with rfl | rfl | rfl <;> simp
  · have h2 := h.right
    rw [hV] at h2
    simp only [Finset.mem_insert, Finset.mem_singleton] at h2
    simp only [List.mem_cons, List.not_mem_nil, or_false] at hu
    rcases h2 with rfl | rfl | rfl
    · decide
    · decide
    · exfalso
      rcases hu with rfl | rfl | rfl <;> exact absurd h (by decide)

/-- What the list `0, 1, 0` gives for the path `0 - 1`: the edge appears twice in the count. -/
theorem C112_repeated : ((built [(0, 1)]).bind fun g => (DegenGraph.withOrdering g.view [1, 0, 0]).map fun D =>
    (D.lin.numVertices, D.lin.numEdges, D.vertices)) = .ok (2, 2, [1, 0, 0]) := by decide +kernel

end Verif
