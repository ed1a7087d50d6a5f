import Verif.Lemmas.NonVertex
import Verif.Props.EditOps
import Verif.Props.Linear
import Verif.Props.EditDigraph
import Verif.Props.Traits
import Verif.Model.ReachGraph
/-!
# C113: set queries, induced subgraphs and contractions for arbitrary arguments

`C14`–`C18` and `C72` describe `contract_pair`, `contract_into`, `contract`, `neighbourhood`, `closed_neighbourhood`,
`r_neighbourhood`, `subgraph`, `out_neighbourhood` and `in_neighbourhood` when every argument is a vertex.  Here the
arguments are arbitrary: which calls panic, and what the others return.
-/
namespace Verif
open EditGraph

/-- **C113, graphs whose `neighbours` panics.**  Suppose every call of `neighbours` returns or panics and that it panics
for some member of `X`.  Then `neighbourhood(X)`, `closed_neighbourhood(X)`, `subgraph(X)` and `r_neighbourhood(X, r)`
for `r > 0` panic, in every iteration order; `r_neighbourhood(X, 0)` returns `X`. -/
theorem C113_panics {G : Graph} (hd : ∀ u, (∃ l, G.neighbours u = .ok l) ∨ G.neighbours u = .error .panic)
    {X : List Vertex} (hx : ∃ x ∈ X, G.neighbours x = .error .panic) :
    (∀ σ, G.neighbourhood σ X = .error .panic) ∧ G.closedNeighbourhood X = .error .panic ∧
    (∀ σ τ, G.subgraph σ τ X = .error .panic) ∧ (∀ σ r, G.rNeighbourhood σ X (r + 1) = .error .panic) ∧
    (∀ σ, ∃ s, G.rNeighbourhood σ X 0 = .ok s ∧ ∀ v, v ∈ s ↔ v ∈ X) :=
  ⟨fun σ => Graph.neighbourhood_panics hd σ hx, Graph.closedNeighbourhood_panics hd hx,
    fun σ τ => Graph.subgraph_panics hd σ τ hx, fun σ r => Graph.rNeighbourhood_panics hd σ hx r,
    fun _ => ⟨_, rfl, fun _ => HSet.mem_ofList⟩⟩

/-- **C113, `EditGraph`.**  The calls succeed exactly if every member of `X` is a vertex. -/
theorem C113_edit_graph {g : EditGraph} (hg : Reachable g) (X : List Vertex) :
    ((∀ x ∈ X, g.contains x = true) →
      (∀ σ, ∃ s, g.view.neighbourhood σ X = .ok s) ∧ (∃ s, g.view.closedNeighbourhood X = .ok s) ∧
      (∀ σ τ, ∃ h, g.view.subgraph σ τ X = .ok h) ∧ ∀ σ r, ∃ s, g.view.rNeighbourhood σ X r = .ok s) ∧
    ((∃ x ∈ X, g.contains x = false) →
      (∀ σ, g.view.neighbourhood σ X = .error .panic) ∧ g.view.closedNeighbourhood X = .error .panic ∧
      (∀ σ τ, g.view.subgraph σ τ X = .error .panic) ∧ ∀ σ r, g.view.rNeighbourhood σ X (r + 1) = .error .panic) := by
  obtain ⟨S, H⟩ := hg.abs
  constructor
  · intro hX
    have hX : ∀ x ∈ X, x ∈ S.V := fun x hx => by have := hX x hx; rwa [H.contains, decide_eq_true_eq] at this
    refine ⟨fun σ => ?_, ?_, fun σ τ => ?_, fun σ r => ?_⟩
    · obtain ⟨s, h, -⟩ := H.rep.neighbourhood σ hX; exact ⟨s, h⟩
    · obtain ⟨s, h, -⟩ := H.rep.closedNeighbourhood hX; exact ⟨s, h⟩
    · obtain ⟨s, h, -⟩ := H.rep.subgraph σ τ hX; exact ⟨s, h⟩
    · obtain ⟨s, h, -⟩ := H.rep.rNeighbourhood σ hX r; exact ⟨s, h⟩
  · rintro ⟨x, hx, hc⟩
    rw [H.contains, decide_eq_false_iff_not] at hc
    obtain ⟨h1, h2, h3, h4, -⟩ := C113_panics H.answers ⟨x, hx, H.neighbours_none hc⟩
    exact ⟨h1, h2, h3, h4⟩

/-- `C113_edit_graph` for a path with a loop and an isolated vertex. -/
example := C113_edit_graph loopG_reachable [1, 9]

/-- **C113, `EditDigraph`.** The queries inherited from `Graph` and the two directed neighbourhoods panic as soon as one
member of `X` is not a vertex. -/
theorem C113_edit_digraph {g : EditDigraph} (hg : EditDigraph.Reachable g) {X : List Vertex}
    (hx : ∃ x ∈ X, g.contains x = false) :
    (∀ σ, g.view.toGraph.neighbourhood σ X = .error .panic) ∧ g.view.toGraph.closedNeighbourhood X = .error .panic ∧
    (∀ σ τ, g.view.toGraph.subgraph σ τ X = .error .panic) ∧
    (∀ σ r, g.view.toGraph.rNeighbourhood σ X (r + 1) = .error .panic) ∧
    (∀ σ, g.view.outNeighbourhood σ X = .error .panic) ∧ ∀ σ, g.view.inNeighbourhood σ X = .error .panic := by
  obtain ⟨S, H⟩ := hg.abs
  obtain ⟨x, hx, hc⟩ := hx
  rw [H.contains, decide_eq_false_iff_not] at hc
  have hd : g.view.toGraph.Answers := fun u => by
    by_cases hu : u ∈ S.V
    · obtain ⟨l, h, -⟩ := H.mem_neighbours hu; exact .inl ⟨l, h⟩
    · exact .inr (H.neighbours_none hu)
  obtain ⟨h1, h2, h3, h4, -⟩ := C113_panics hd ⟨x, hx, H.neighbours_none hc⟩
  refine ⟨h1, h2, h3, h4, fun σ => ?_, fun σ => ?_⟩
  · refine Graph.neighbourhood_panics (G := { g.view.toGraph with neighbours := g.outNeighbours }) (fun u => ?_) σ
      ⟨x, hx, ?_⟩
    · show (∃ l, g.outNeighbours u = .ok l) ∨ g.outNeighbours u = .error .panic
      unfold EditDigraph.outNeighbours
      cases g.outAdj.get? u <;> simp
    · show g.outNeighbours x = .error .panic
      unfold EditDigraph.outNeighbours
      rw [H.outNone x hc]
  · refine Graph.neighbourhood_panics (G := { g.view.toGraph with neighbours := g.inNeighbours }) (fun u => ?_) σ
      ⟨x, hx, ?_⟩
    · show (∃ l, g.inNeighbours u = .ok l) ∨ g.inNeighbours u = .error .panic
      unfold EditDigraph.inNeighbours
      cases g.inAdj.get? u <;> simp
    · show g.inNeighbours x = .error .panic
      unfold EditDigraph.inNeighbours
      rw [H.inNone x hc]

/-- **C113, `DegenGraph`.** -/
theorem C113_degen_graph {g : DegenGraph} {S : SGraph} {ord : List ℕ} (hg : DegenGraph.Built g S ord) {X : List Vertex}
    (hx : ∃ x ∈ X, x ∉ S.V) :
    (∀ σ, g.lin.toGraph.neighbourhood σ X = .error .panic) ∧ g.lin.toGraph.closedNeighbourhood X = .error .panic ∧
    (∀ σ τ, g.lin.toGraph.subgraph σ τ X = .error .panic) ∧
    ∀ σ r, g.lin.toGraph.rNeighbourhood σ X (r + 1) = .error .panic := by
  have I := hg.inv
  have hn : ∀ u, u ∉ S.V → g.lin.neighbours u = .error .panic := fun u hu => by
    show g.neighbours u = _
    unfold DegenGraph.neighbours DegenGraph.leftSlice DegenGraph.indexOf
    rw [I.get_none hu]; rfl
  obtain ⟨x, hx, hc⟩ := hx
  obtain ⟨h1, h2, h3, h4, -⟩ := C113_panics (G := g.lin.toGraph) (fun u => by
    by_cases hu : u ∈ S.V
    · obtain ⟨l, h, -⟩ := I.lrep.rep.nbrs u hu; exact .inl ⟨l, h⟩
    · exact .inr (hn u hu)) ⟨x, hx, hn x hc⟩
  exact ⟨h1, h2, h3, h4⟩

/-- `C113_degen_graph` for a triangle with a pendant vertex. -/
example := C113_degen_graph case_degen.choose_spec (X := [1, 9]) (by decide)

/-- **C113, `ReachGraph`.**  `neighbours` is not supported: every call with a non-empty list panics, also for vertices. -/
theorem C113_reach_graph (r : ℕ) (g : ReachGraph) {X : List Vertex} (hX : X ≠ []) :
    (∀ σ, (g.lin r).toGraph.neighbourhood σ X = .error .panic) ∧ (g.lin r).toGraph.closedNeighbourhood X = .error .panic ∧
    (∀ σ τ, (g.lin r).toGraph.subgraph σ τ X = .error .panic) ∧
    ∀ σ d, (g.lin r).toGraph.rNeighbourhood σ X (d + 1) = .error .panic := by
  obtain ⟨x, hx⟩ := List.exists_mem_of_ne_nil X hX
  obtain ⟨h1, h2, h3, h4, -⟩ := C113_panics (G := (g.lin r).toGraph) (fun u => .inr rfl) ⟨x, hx, rfl⟩
  exact ⟨h1, h2, h3, h4⟩

/-- **C113, `OrdGraph`.**  `neighbours` of a non-vertex is empty here, so no call panics: non-vertices in `X` are treated
as isolated vertices.  In particular `closed_neighbourhood` and `r_neighbourhood` report them and `subgraph` creates them. -/
theorem C113_ord_graph {g : OrdGraph} {S : SGraph} {ord : List ℕ} (hg : g.Represents S ord) (X : List Vertex) :
    (∀ σ, ∃ s, g.lin.toGraph.neighbourhood σ X = .ok s ∧ ∀ v, v ∈ s ↔ v ∉ X ∧ ∃ x ∈ X, S.Adj x v) ∧
    (∃ s, g.lin.toGraph.closedNeighbourhood X = .ok s ∧ ∀ v, v ∈ s ↔ v ∈ X ∨ ∃ x ∈ X, S.Adj x v) ∧
    (∀ σ r, ∃ s, g.lin.toGraph.rNeighbourhood σ X r = .ok s ∧ ∀ v, v ∈ s ↔ ∃ x ∈ X, ∃ d ≤ r, Walk S.Adj d x v) ∧
    (∀ σ τ, ∃ h, g.lin.toGraph.subgraph σ τ X = .ok h ∧ Reachable h ∧ (∀ u, h.contains u = true ↔ u ∈ X) ∧
      ∀ u v, h.adjacent u v = true ↔ u ∈ X ∧ v ∈ X ∧ S.Adj u v) := by
  have W := hg.lin.rep.widen (fun u hu => (hg.missing u hu).2.2.2.2) X
  have hX : ∀ x ∈ X, x ∈ (S.withVertices X).V := fun x hx => Finset.mem_union_right _ (List.mem_toFinset.2 hx)
  refine ⟨fun σ => W.neighbourhood σ hX, W.closedNeighbourhood hX, fun σ r => ?_, fun σ τ => ?_⟩
  · obtain ⟨s, e, hs⟩ := W.rNeighbourhood σ hX r
    exact ⟨s, (Graph.widen_loop σ X r _).symm.trans e, hs⟩
  obtain ⟨h, e, hh⟩ := W.subgraph σ τ hX
  exact ⟨h, e, hh.reachable, hh.contains, hh.adjacent⟩

/-- `C113_ord_graph` for a triangle with a pendant vertex. -/
example := C113_ord_graph case_ord.choose_spec.inv.represents [1, 9]

/-- **C113, `contract_pair`.**  All arguments.  With `u = v` the vertex is deleted. -/
theorem C113_contract_pair {g : EditGraph} (hg : Reachable g) (σ : Shuffle Vertex) (u v : Vertex) :
    (¬ (g.contains u = true ∧ g.contains v = true) → g.contractPair σ u v = .error .panic) ∧
    ((g.contains u = true ∧ g.contains v = true) → ∃ h, g.contractPair σ u v = .ok h ∧ Reachable h ∧
      (∀ w, h.contains w = true ↔ g.contains w = true ∧ w ≠ v) ∧
      (∀ a b, h.adjacent a b = true ↔ a ≠ v ∧ b ≠ v ∧ (g.adjacent a b = true ∨
        (a = u ∧ b ≠ u ∧ g.adjacent v b = true) ∨ (b = u ∧ a ≠ u ∧ g.adjacent v a = true)))) := by
  refine ⟨(C14_contract_pair_partial hg σ u v).2, ?_⟩
  rintro ⟨hu, hv⟩
  obtain ⟨S, H⟩ := hg.abs
  rw [H.contains, decide_eq_true_eq] at hu hv
  obtain ⟨h, e, hI⟩ := H.contractPair σ hu hv
  refine ⟨h, e, hI.reachable, fun w => ?_, fun a b => ?_⟩
  · rw [hI.contains, H.contains, decide_eq_true_eq]
  · rw [hI.adjacent]; simp only [H.adjacent, decide_eq_true_eq]

/-- `C113_contract_pair` for a path with a loop and an isolated vertex. -/
example := fun σ => C113_contract_pair loopG_reachable σ 1 1

/-- **C113, `contract_into`.**  It panics exactly if some member of `X` other than the centre `c` is not a vertex.  The
centre need not be a vertex: it is then created, but only if some member of `X` has a neighbour outside `X`.  The edges
are in all cases those of `C15`. -/
theorem C113_contract_into {g : EditGraph} (hg : Reachable g) (σ₁ σ₂ σ₃ : Shuffle Vertex) (c : Vertex) (X : List Vertex) :
    ((∃ x ∈ X, x ≠ c ∧ g.contains x = false) → g.contractInto σ₁ σ₂ σ₃ c X = .error .panic) ∧
    ((∀ x ∈ X, x ≠ c → g.contains x = true) → ∃ h, g.contractInto σ₁ σ₂ σ₃ c X = .ok h ∧ Reachable h ∧
      (∀ w, w ≠ c → (h.contains w = true ↔ g.contains w = true ∧ w ∉ X)) ∧
      (h.contains c = true ↔ g.contains c = true ∨ ∃ x ∈ X, ∃ v, v ∉ X ∧ g.adjacent x v = true) ∧
      (∀ a b, h.adjacent a b = true ↔ (a ∉ X ∨ a = c) ∧ (b ∉ X ∨ b = c) ∧ (g.adjacent a b = true ∨
        (a = c ∧ b ≠ c ∧ ∃ x ∈ X, g.adjacent x b = true) ∨ (b = c ∧ a ≠ c ∧ ∃ x ∈ X, g.adjacent x a = true)))) := by
  obtain ⟨S, H⟩ := hg.abs
  have hcc : ∀ u, g.contains u = true ↔ u ∈ S.V := fun u => by rw [H.contains, decide_eq_true_eq]
  have haa : ∀ u v, g.adjacent u v = true ↔ S.Adj u v := fun u v => by rw [H.adjacent, decide_eq_true_eq]
  constructor
  · rintro ⟨x, hx, hc, hV⟩
    rw [H.contains, decide_eq_false_iff_not] at hV
    exact H.contractInto_panics σ₁ σ₂ σ₃ ⟨x, hx, hc, hV⟩
  · intro hX
    obtain ⟨h, e, hI⟩ := H.contractInto_all σ₁ σ₂ σ₃ (fun x hx hc => (hcc x).1 (hX x hx hc))
    refine ⟨h, e, hI.reachable, fun w hw => ?_, ?_, fun a b => ?_⟩
    · rw [hI.contains, hcc]
      constructor
      · rintro (⟨h1, h2 | h2⟩ | ⟨h2, -⟩)
        · exact ⟨h1, h2⟩
        · exact absurd h2 hw
        · exact absurd h2 hw
      · exact fun h => .inl ⟨h.1, .inl h.2⟩
    · rw [hI.contains, hcc]
      simp only [haa]
      constructor
      · rintro (⟨h1, -⟩ | ⟨-, x, hx, v, -, h2, -, h3⟩)
        · exact .inl h1
        · exact .inr ⟨x, hx, v, h2, h3⟩
      · rintro (h | ⟨x, hx, v, h2, h3⟩)
        · exact .inl ⟨h, .inr trivial⟩
        · by_cases hcV : c ∈ S.V
          · exact .inl ⟨hcV, .inr trivial⟩
          · exact .inr ⟨trivial, x, hx, v, fun h => hcV (h ▸ h3.left), h2, fun h => hcV (h ▸ h3.right), h3⟩
    · rw [hI.adjacent]; simp only [haa]

/-- `C113_contract_into` for a path with a loop and an isolated vertex. -/
example := fun σ₁ σ₂ σ₃ => C113_contract_into loopG_reachable σ₁ σ₂ σ₃ 9 [0, 1]

/-- **C113, `contract`.**  The empty sequence panics; otherwise it is `contract_into` the first element, which is returned
even if it is not a vertex of the resulting graph. -/
theorem C113_contract (g : EditGraph) (σ₁ σ₂ σ₃ : Shuffle Vertex) :
    g.contract σ₁ σ₂ σ₃ [] = .error .panic ∧
    ∀ x₀ X, g.contract σ₁ σ₂ σ₃ (x₀ :: X) = (g.contractInto σ₁ σ₂ σ₃ x₀ X).map (fun h => (h, x₀)) :=
  ⟨rfl, C15_contract g σ₁ σ₂ σ₃⟩

/-- `C113_contract` for a path with a loop. -/
example := C113_contract loopG

/-- The vertex reported by `contract` may be missing from the graph: here a whole component is contracted into the
number 9. -/
theorem C113_contract_reports_missing : ∃ g h : EditGraph, Reachable g ∧ g.contains 0 = true ∧ g.adjacent 0 1 = true ∧
    g.contract .id .id .id [9, 0, 1] = .ok (h, 9) ∧ h.contains 9 = false ∧ h.numVertices = 0 := by
  obtain ⟨⟨g, k⟩, hg, A, -⟩ := abs_new.addEdges [(0, 1)]
  have hc : ∀ u, g.contains u = true ↔ u = 0 ∨ u = 1 := fun u => by
    rw [A.contains, decide_eq_true_eq]
    have hV : (SGraph.empty.addEdges [(0, 1)]).V = {0, 1} := by decide
    rw [hV]; simp
  obtain ⟨h, e, hR, h1, h2, -⟩ := (C113_contract_into A.reachable .id .id .id 9 [0, 1]).2 (fun x hx _ => by
    rw [hc]; simpa using hx)
  have h9 : ¬ h.contains 9 = true := by
    rw [h2, hc]
    rintro (h | ⟨x, -, v, hv, ha⟩)
    · simp at h
    · rw [A.adjacent, decide_eq_true_eq] at ha
      have := (hc v).1 (by rw [A.contains, decide_eq_true_eq]; exact ha.right)
      simp at hv; omega
  refine ⟨g, h, A.reachable, (hc 0).2 (.inl rfl), ?_, ?_, by simpa using h9, ?_⟩
  · rw [A.adjacent]; decide
  · rw [C15_contract, e]; rfl
  · obtain ⟨T, HT⟩ := hR.abs
    rw [HT.numVertices, Finset.card_eq_zero, Finset.eq_empty_iff_forall_notMem]
    intro w hw
    have hw : h.contains w = true := by rw [HT.contains, decide_eq_true_eq]; exact hw
    by_cases h' : w = 9
    · subst h'; exact h9 hw
    · have := (h1 w h').1 hw
      rw [hc] at this
      simp at this; omega

/-- The panicking calls occur: a graph with the edge `01` and the list `0, 5`. -/
example : ∃ g : EditGraph, Reachable g ∧ g.adjacent 0 1 = true ∧ ∃ x ∈ [0, 5], g.contains x = false := by
  obtain ⟨⟨g, k⟩, hg, A, -⟩ := abs_new.addEdges [(0, 1)]
  refine ⟨g, A.reachable, ?_, 5, by simp, ?_⟩
  · rw [A.adjacent]; decide
  · rw [A.contains]; decide

/-- And for a digraph. -/
example : ∃ g : EditDigraph, EditDigraph.Reachable g ∧ g.hasArc 1 2 = true ∧ ∃ x ∈ [1, 20], g.contains x = false := by
  obtain ⟨g, h1, -, h2, -, -, -, -, h3⟩ := exDReachable
  refine ⟨g, h1, h2, 20, by simp, ?_⟩
  cases h : g.contains 20 with
  | false => rfl
  | true => exact absurd (h3 20 h) (by decide)

/-- An `OrdGraph` and a `DegenGraph` for the hypotheses above. -/
example : ∃ (S : SGraph) (o : OrdGraph) (d : DegenGraph) (ord : List ℕ), o.Represents S ord ∧ DegenGraph.Built d S ord ∧
    S.Adj 0 1 ∧ 9 ∉ S.V := by
  obtain ⟨G, S, h1, h2, h3, -, -, h4, h5, h6, -⟩ := exOrd
  obtain ⟨o, -, ho⟩ := C43_with_ordering h1 h2 h4 h5
  obtain ⟨d, hd, -⟩ := C45_with_ordering h1 h2 h4 h5 h6
  exact ⟨S, o, d, _, ho o (OrdGraph.Relayout.refl o), .make h1 h2 h4 h5 h6 hd, h3, fun h => absurd ((h5 9).2 h) (by decide)⟩

end Verif
