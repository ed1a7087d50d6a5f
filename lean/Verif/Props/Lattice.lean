import Verif.Props.Operations
import Verif.Props.EditOps
/-!
# C123: the subgraph order, unions, intersections, complements and induced subgraphs fit together
-/
namespace Verif
open EditGraph

/-- The answers of `compare_subgraph` that say that the first graph is a subgraph of the second. -/
def SubgraphRel.Below (r : SubgraphRel) : Prop := r = .Sub ∨ r = .Eq

theorem Graph.Rep.compare {G H : Graph} {S T : SGraph} (hG : G.Rep S) (hH : H.Rep T) :
    ∃ r, G.compareSubgraph H = .ok r ∧ (r.Below ↔ SubgraphOf S T) ∧ (r = .Eq ↔ SubgraphOf S T ∧ SubgraphOf T S) := by
  obtain ⟨r, h1, -, h2, h3, -, -⟩ := C24_compare hG hH
  have heq : (S.V = T.V ∧ ∀ u v, S.Adj u v ↔ T.Adj u v) ↔ SubgraphOf S T ∧ SubgraphOf T S := by
    constructor
    · rintro ⟨hV, hA⟩
      exact ⟨⟨hV.subset, fun u v => (hA u v).1⟩, ⟨hV.symm.subset, fun u v => (hA u v).2⟩⟩
    · rintro ⟨⟨h1, h2⟩, h3, h4⟩
      exact ⟨Finset.Subset.antisymm h1 h3, fun u v => ⟨h2 u v, h4 u v⟩⟩
  refine ⟨r, h1, ?_, by rw [h2, heq]⟩
  unfold SubgraphRel.Below
  rw [h2, h3, heq]
  tauto

section
variable {G H K : Graph} {S T U : SGraph} (hG : G.Rep S) (hH : H.Rep T) (hK : K.Rep U)
include hG hH

/-- **C123.** `intersect` is the largest common subgraph and `merge` the smallest common supergraph, as seen by
`compare_subgraph`. -/
theorem C123_bounds (hK : K.Rep U) :
    ∃ i m rG rH sG sH kG kH ki Gk Hk mk, G.intersect H = .ok i ∧ G.merge H = .ok m ∧
      i.view.compareSubgraph G = .ok rG ∧ i.view.compareSubgraph H = .ok rH ∧ rG.Below ∧ rH.Below ∧
      G.compareSubgraph m.view = .ok sG ∧ H.compareSubgraph m.view = .ok sH ∧ sG.Below ∧ sH.Below ∧
      K.compareSubgraph G = .ok kG ∧ K.compareSubgraph H = .ok kH ∧ K.compareSubgraph i.view = .ok ki ∧
      (ki.Below ↔ kG.Below ∧ kH.Below) ∧
      G.compareSubgraph K = .ok Gk ∧ H.compareSubgraph K = .ok Hk ∧ m.view.compareSubgraph K = .ok mk ∧
      (mk.Below ↔ Gk.Below ∧ Hk.Below) := by
  obtain ⟨i, hi, I, AI, hVI, hAI⟩ := hG.intersect hH
  obtain ⟨m, hm, M, AM, hVM, hAM⟩ := hG.merge hH
  beta_reduce at hVI hAI hVM hAM
  obtain ⟨rG, e1, b1, -⟩ := AI.rep.compare hG
  obtain ⟨rH, e2, b2, -⟩ := AI.rep.compare hH
  obtain ⟨sG, e3, b3, -⟩ := hG.compare AM.rep
  obtain ⟨sH, e4, b4, -⟩ := hH.compare AM.rep
  obtain ⟨kG, e5, b5, -⟩ := hK.compare hG
  obtain ⟨kH, e6, b6, -⟩ := hK.compare hH
  obtain ⟨ki, e7, b7, -⟩ := hK.compare AI.rep
  obtain ⟨Gk, e8, b8, -⟩ := hG.compare hK
  obtain ⟨Hk, e9, b9, -⟩ := hH.compare hK
  obtain ⟨mk, e10, b10, -⟩ := AM.rep.compare hK
  refine ⟨i, m, rG, rH, sG, sH, kG, kH, ki, Gk, Hk, mk, hi, hm, e1, e2, b1.2 ?_, b2.2 ?_, e3, e4, b3.2 ?_, b4.2 ?_, e5, e6,
    e7, ?_, e8, e9, e10, ?_⟩
  · exact ⟨fun u hu => ((hVI u).1 hu).1, fun u v h => ((hAI u v).1 h).1⟩
  · exact ⟨fun u hu => ((hVI u).1 hu).2, fun u v h => ((hAI u v).1 h).2⟩
  · exact ⟨fun u hu => (hVM u).2 (.inl hu), fun u v h => (hAM u v).2 (.inl h)⟩
  · exact ⟨fun u hu => (hVM u).2 (.inr hu), fun u v h => (hAM u v).2 (.inr h)⟩
  · rw [b5, b6, b7]
    constructor
    · exact fun h => ⟨⟨fun u hu => ((hVI u).1 (h.1 hu)).1, fun u v huv => ((hAI u v).1 (h.2 u v huv)).1⟩,
        fun u hu => ((hVI u).1 (h.1 hu)).2, fun u v huv => ((hAI u v).1 (h.2 u v huv)).2⟩
    · exact fun h => ⟨fun u hu => (hVI u).2 ⟨h.1.1 hu, h.2.1 hu⟩, fun u v huv => (hAI u v).2 ⟨h.1.2 u v huv, h.2.2 u v huv⟩⟩
  · rw [b8, b9, b10]
    constructor
    · exact fun h => ⟨⟨fun u hu => h.1 ((hVM u).2 (.inl hu)), fun u v huv => h.2 u v ((hAM u v).2 (.inl huv))⟩,
        fun u hu => h.1 ((hVM u).2 (.inr hu)), fun u v huv => h.2 u v ((hAM u v).2 (.inr huv))⟩
    · exact fun h => ⟨fun u hu => ((hVM u).1 hu).elim (fun k => h.1.1 k) fun k => h.2.1 k,
        fun u v huv => ((hAM u v).1 huv).elim (h.1.2 u v) (h.2.2 u v)⟩

/-- `C123_bounds` for three graphs. -/
example := C123_bounds caseG_rep loopG_rep EditGraph.abs_new.rep

/-- **C123.** `G` is a subgraph of `H` iff merging `G` into `H` changes nothing iff intersecting `G` with `H` changes
nothing. -/
theorem C123_absorb :
    ∃ i m r s t, G.intersect H = .ok i ∧ G.merge H = .ok m ∧ G.compareSubgraph H = .ok r ∧
      i.view.compareSubgraph G = .ok s ∧ m.view.compareSubgraph H = .ok t ∧ (r.Below ↔ s = .Eq) ∧ (r.Below ↔ t = .Eq) := by
  obtain ⟨i, hi, I, AI, hVI, hAI⟩ := hG.intersect hH
  obtain ⟨m, hm, M, AM, hVM, hAM⟩ := hG.merge hH
  beta_reduce at hVI hAI hVM hAM
  obtain ⟨r, e1, b1, -⟩ := hG.compare hH
  obtain ⟨s, e2, -, b2⟩ := AI.rep.compare hG
  obtain ⟨t, e3, -, b3⟩ := AM.rep.compare hH
  refine ⟨i, m, r, s, t, hi, hm, e1, e2, e3, ?_, ?_⟩
  · rw [b1, b2]
    constructor
    · exact fun h => ⟨⟨fun u hu => ((hVI u).1 hu).1, fun u v huv => ((hAI u v).1 huv).1⟩,
        fun u hu => (hVI u).2 ⟨hu, h.1 hu⟩, fun u v huv => (hAI u v).2 ⟨huv, h.2 u v huv⟩⟩
    · exact fun h => ⟨fun u hu => ((hVI u).1 (h.2.1 hu)).2, fun u v huv => ((hAI u v).1 (h.2.2 u v huv)).2⟩
  · rw [b1, b3]
    constructor
    · exact fun h => ⟨⟨fun u hu => ((hVM u).1 hu).elim (fun k => h.1 k) id, fun u v huv => ((hAM u v).1 huv).elim (h.2 u v) id⟩,
        fun u hu => (hVM u).2 (.inr hu), fun u v huv => (hAM u v).2 (.inr huv)⟩
    · exact fun h => ⟨fun u hu => h.1.1 ((hVM u).2 (.inl hu)), fun u v huv => h.1.2 u v ((hAM u v).2 (.inl huv))⟩

/-- `C123_absorb` for two graphs. -/
example := C123_absorb caseG_rep loopG_rep

/-- **C123.** `intersect` distributes over `merge` and `merge` over `intersect`, up to `==`. -/
theorem C123_distributive (hK : K.Rep U) :
    (∃ m i a b c, H.merge K = .ok m ∧ G.intersect m.view = .ok i ∧ G.intersect H = .ok a ∧ G.intersect K = .ok b ∧
      a.view.merge b.view = .ok c ∧ i.eq c = true) ∧
    ∃ i m a b c, H.intersect K = .ok i ∧ G.merge i.view = .ok m ∧ G.merge H = .ok a ∧ G.merge K = .ok b ∧
      a.view.intersect b.view = .ok c ∧ m.eq c = true := by
  constructor
  · obtain ⟨m, h1, M, A1, hV1, hA1⟩ := hH.merge hK
    obtain ⟨i, h2, I, A2, hV2, hA2⟩ := hG.intersect A1.rep
    obtain ⟨a, h3, A, A3, hV3, hA3⟩ := hG.intersect hH
    obtain ⟨b, h4, B, A4, hV4, hA4⟩ := hG.intersect hK
    obtain ⟨c, h5, C, A5, hV5, hA5⟩ := A3.rep.merge A4.rep
    beta_reduce at hV1 hA1 hV2 hA2 hV3 hA3 hV4 hA4 hV5 hA5
    refine ⟨m, i, a, b, c, h1, h2, h3, h4, h5, (A2.eq_iff A5).2 (SGraph.ext_adj ?_ ?_)⟩
    · ext u; rw [hV2, hV1, hV5, hV3, hV4]; tauto
    · intro u v; rw [hA2, hA1, hA5, hA3, hA4]; tauto
  · obtain ⟨m, h1, M, A1, hV1, hA1⟩ := hH.intersect hK
    obtain ⟨i, h2, I, A2, hV2, hA2⟩ := hG.merge A1.rep
    obtain ⟨a, h3, A, A3, hV3, hA3⟩ := hG.merge hH
    obtain ⟨b, h4, B, A4, hV4, hA4⟩ := hG.merge hK
    obtain ⟨c, h5, C, A5, hV5, hA5⟩ := A3.rep.intersect A4.rep
    beta_reduce at hV1 hA1 hV2 hA2 hV3 hA3 hV4 hA4 hV5 hA5
    refine ⟨m, i, a, b, c, h1, h2, h3, h4, h5, (A2.eq_iff A5).2 (SGraph.ext_adj ?_ ?_)⟩
    · ext u; rw [hV2, hV1, hV5, hV3, hV4]; tauto
    · intro u v; rw [hA2, hA1, hA5, hA3, hA4]; tauto

/-- `C123_distributive` for three graphs. -/
example := C123_distributive caseG_rep loopG_rep EditGraph.abs_new.rep

/-- **C123.** On graphs with the same vertices, `invert` exchanges `merge` and `intersect`, up to `==`. -/
theorem C123_de_morgan (hV : S.V = T.V) :
    (∃ m c a b i, G.merge H = .ok m ∧ m.view.invert = .ok c ∧ G.invert = .ok a ∧ H.invert = .ok b ∧
      a.view.intersect b.view = .ok i ∧ c.eq i = true) ∧
    ∃ i c a b m, G.intersect H = .ok i ∧ i.view.invert = .ok c ∧ G.invert = .ok a ∧ H.invert = .ok b ∧
      a.view.merge b.view = .ok m ∧ c.eq m = true := by
  obtain ⟨a, h1, A, A1, hV1, hA1⟩ := hG.invert
  obtain ⟨b, h2, B, A2, hV2, hA2⟩ := hH.invert
  constructor
  · obtain ⟨m, h3, M, A3, hV3, hA3⟩ := hG.merge hH
    obtain ⟨c, h4, C, A4, hV4, hA4⟩ := A3.rep.invert
    obtain ⟨i, h5, I, A5, hV5, hA5⟩ := A1.rep.intersect A2.rep
    beta_reduce at hV1 hA1 hV2 hA2 hV3 hA3 hV4 hA4 hV5 hA5
    refine ⟨m, c, a, b, i, h3, h4, h1, h2, h5, (A4.eq_iff A5).2 (SGraph.ext_adj ?_ ?_)⟩
    · ext u; rw [hV4, hV3, hV5, hV1, hV2, hV]; tauto
    · intro u v; rw [hA4, hV3, hV3, hA3, hA5, hA1, hA2, hV]; tauto
  · obtain ⟨m, h3, M, A3, hV3, hA3⟩ := hG.intersect hH
    obtain ⟨c, h4, C, A4, hV4, hA4⟩ := A3.rep.invert
    obtain ⟨i, h5, I, A5, hV5, hA5⟩ := A1.rep.merge A2.rep
    beta_reduce at hV1 hA1 hV2 hA2 hV3 hA3 hV4 hA4 hV5 hA5
    refine ⟨m, c, a, b, i, h3, h4, h1, h2, h5, (A4.eq_iff A5).2 (SGraph.ext_adj ?_ ?_)⟩
    · ext u; rw [hV4, hV3, hV5, hV1, hV2, hV]; tauto
    · intro u v; rw [hA4, hV3, hV3, hA3, hA5, hA1, hA2, hV]; tauto

/-- `C123_de_morgan` for a graph and itself. -/
example := C123_de_morgan caseG_rep caseG_rep rfl

end

/-- **C123.** An induced subgraph is a subgraph, equal to the graph iff all vertices were chosen; it contains every subgraph on
the chosen vertices. -/
theorem C123_subgraph {G H : Graph} {S T : SGraph} (hG : G.Rep S) (hH : H.Rep T) (σ : Shuffle Vertex) (τ : Vertex → Shuffle Vertex)
    (X : List Vertex) (hX : ∀ x ∈ X, x ∈ S.V) :
    ∃ h r s t, G.subgraph σ τ X = .ok h ∧ h.view.compareSubgraph G = .ok r ∧ r.Below ∧ (r = .Eq ↔ ∀ x ∈ S.V, x ∈ X) ∧
      H.compareSubgraph G = .ok s ∧ H.compareSubgraph h.view = .ok t ∧
      (t.Below ↔ s.Below ∧ ∀ x ∈ T.V, x ∈ X) := by
  obtain ⟨h, hh, hr, h1, h2⟩ := C18_subgraph hG σ τ X hX
  obtain ⟨I, A⟩ := hr.abs
  have hV : ∀ u, u ∈ I.V ↔ u ∈ X := fun u => by
    have := h1 u
    rwa [A.contains, decide_eq_true_eq] at this
  have hA : ∀ u v, I.Adj u v ↔ u ∈ X ∧ v ∈ X ∧ S.Adj u v := fun u v => by
    have := h2 u v
    rwa [A.adjacent, decide_eq_true_eq] at this
  obtain ⟨r, e1, b1, b1'⟩ := A.rep.compare hG
  obtain ⟨s, e2, b2, -⟩ := hH.compare hG
  obtain ⟨t, e3, b3, -⟩ := hH.compare A.rep
  have hsub : SubgraphOf I S := ⟨fun u hu => hX u ((hV u).1 hu), fun u v huv => ((hA u v).1 huv).2.2⟩
  refine ⟨h, r, s, t, hh, e1, b1.2 hsub, ?_, e2, e3, ?_⟩
  · rw [b1']
    constructor
    · exact fun k x hx => (hV x).1 (k.2.1 hx)
    · exact fun k => ⟨hsub, fun u hu => (hV u).2 (k u hu), fun u v huv => (hA u v).2 ⟨k u huv.left, k v huv.right, huv⟩⟩
  · rw [b2, b3]
    constructor
    · exact fun k => ⟨⟨fun u hu => hX u ((hV u).1 (k.1 hu)), fun u v huv => ((hA u v).1 (k.2 u v huv)).2.2⟩,
        fun x hx => (hV x).1 (k.1 hx)⟩
    · exact fun k => ⟨fun u hu => (hV u).2 (k.2 u hu),
        fun u v huv => (hA u v).2 ⟨k.2 u huv.left, k.2 v huv.right, k.1.2 u v huv⟩⟩

/-- Two different graphs with common vertices and edges, for the C123 theorems. -/
example : ∃ (g h : EditGraph) (S : SGraph), g.view.Rep exS ∧ h.view.Rep S ∧ (exS.V ∩ S.V).Nonempty ∧
    (exS.E ∩ S.E).Nonempty ∧ exS ≠ S := by
  obtain ⟨g, A⟩ := exAbs
  obtain ⟨h, S, A', hl, h01, h12, hV, -⟩ := exPath
  refine ⟨g, h, S, A.rep, A'.rep, ⟨1, ?_⟩, ⟨s(1, 2), Finset.mem_inter.2 ⟨by decide, h12⟩⟩, ?_⟩
  · rw [hV]; decide
  · rintro rfl; exact absurd h01 (by decide)

/-- Two different graphs with the same vertices, for `C123_de_morgan`. -/
example : ∃ g h : EditGraph, g.view.Rep (SGraph.empty.addEdges [(0, 1), (1, 2)]) ∧
    h.view.Rep (SGraph.empty.addEdges [(0, 2), (1, 2)]) ∧
    (SGraph.empty.addEdges [(0, 1), (1, 2)]).V = (SGraph.empty.addEdges [(0, 2), (1, 2)]).V ∧
    (SGraph.empty.addEdges [(0, 1), (1, 2)]).E ≠ (SGraph.empty.addEdges [(0, 2), (1, 2)]).E := by
  obtain ⟨⟨g, k⟩, -, A, -⟩ := EditGraph.abs_new.addEdges [(0, 1), (1, 2)]
  obtain ⟨⟨h, k'⟩, -, A', -⟩ := EditGraph.abs_new.addEdges [(0, 2), (1, 2)]
  exact ⟨g, h, A.rep, A'.rep, by decide, by decide⟩

end Verif
