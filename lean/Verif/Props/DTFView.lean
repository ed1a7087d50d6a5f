import Verif.Model.DTFView
import Verif.Props.DTFGraph
import Verif.Props.EditDigraph
import Verif.Props.NonVertex
/-!
# C126: the provided trait methods on digraphs, augmentations and layers

`Digraph::neighbours` on `EditDigraph`, and the provided methods of `Graph` and `Digraph` (`degrees`, `in_degrees`,
`out_degrees`, `in_neighbourhood`, `out_neighbourhood`, `neighbourhood`, …) on `DTFGraph` and `DTFLayer`, whose `neighbours`
and `out_neighbours` are not implemented.
-/
namespace Verif
open SGraph DTFGraph

/-- **C126, `EditDigraph`.** `Digraph::neighbours(u)` and `Graph::neighbours(u)` give the same sequence — the in-neighbours
followed by the out-neighbours — on every digraph that the operations can produce, and both panic on non-vertices. -/
theorem C126_edit_digraph {g : EditDigraph} (hg : EditDigraph.Reachable g) (u : Vertex) :
    g.view.neighboursBoth u = g.view.neighbours u ∧
    (g.contains u = true → ∃ l i o, g.view.neighboursBoth u = .ok l ∧ l = i ++ o ∧ i.Nodup ∧ o.Nodup ∧
      (∀ v, v ∈ i ↔ g.hasArc v u = true) ∧ ∀ v, v ∈ o ↔ g.hasArc u v = true) ∧
    (g.contains u = false → g.view.neighboursBoth u = .error .panic) := by
  obtain ⟨S, H⟩ := hg.abs
  by_cases hu : u ∈ S.V
  · obtain ⟨i, hi, hin, him⟩ := H.inNeighbours hu
    obtain ⟨o, ho, hon, hom⟩ := H.outNeighbours hu
    have hb : g.view.neighboursBoth u = .ok (i ++ o) := by
      show (do let i ← g.inNeighbours u; let o ← g.outNeighbours u; return i ++ o) = _
      rw [hi, ho]; rfl
    have hc : g.contains u = true := by rw [H.contains]; exact decide_eq_true hu
    refine ⟨?_, fun _ => ⟨_, i, o, hb, rfl, hin, hon, fun v => ?_, fun v => ?_⟩, fun h => by rw [hc] at h; cases h⟩
    · rw [hb]
      show _ = g.neighbours u
      unfold EditDigraph.neighbours
      rw [hc]
      unfold EditDigraph.inNeighbours at hi
      unfold EditDigraph.outNeighbours at ho
      cases h1 : g.inAdj.get? u with
      | none => rw [h1] at hi; cases hi
      | some a =>
        cases h2 : g.outAdj.get? u with
        | none => rw [h2] at ho; cases ho
        | some b =>
          rw [h1] at hi
          rw [h2] at ho
          cases hi; cases ho; rfl
    · rw [him, H.hasArc, decide_eq_true_eq]
    · rw [hom, H.hasArc, decide_eq_true_eq]
  · have hc : g.contains u = false := by rw [H.contains]; exact decide_eq_false hu
    have hi : g.inNeighbours u = .error .panic := by
      unfold EditDigraph.inNeighbours; rw [H.inNone u hu]
    have hb : g.view.neighboursBoth u = .error .panic := by
      show (do let i ← g.inNeighbours u; let o ← g.outNeighbours u; return i ++ o) = _
      rw [hi]; rfl
    exact ⟨by rw [hb]; exact (H.neighbours_none hu).symm, fun h => (by rw [hc] at h; cases h), fun _ => hb⟩

example : ∃ g, EditDigraph.Reachable g ∧ g.contains 2 = true ∧ g.contains 77 = false := by
  obtain ⟨g, h1, _, h2, _, h3, _, _, h4⟩ := exDReachable
  refine ⟨g, h1, ?_, ?_⟩
  · obtain ⟨S, H⟩ := h1.abs
    rw [H.hasArc, decide_eq_true_eq] at h3
    rw [H.contains]; exact decide_eq_true (S.wf _ h3).1
  · cases h : g.contains 77 with
    | false => rfl
    | true => exact absurd (h4 77 h) (by decide)

/-- A map filled by a loop over the vertices. -/
theorem degree_map {vs : List ℕ} {f : ℕ → Res ℕ} (hf : ∀ u ∈ vs, ∃ d, f u = .ok d) :
    ∃ m : HMap ℕ ℕ, vs.foldlM (fun (res : HMap ℕ ℕ) v => do let x ← f v; return res.insert v x) ∅ = .ok m ∧
      ∀ u, m.get? u = if u ∈ vs then (f u).toOption else none := by
  show Ok _ _
  refine Ok.foldlM (fun pre (m : HMap ℕ ℕ) => ∀ u, m.get? u = if u ∈ pre then (f u).toOption else none) ?_ ?_
  · intro u; simp
  · intro pre v post m hl hm
    obtain ⟨d, hd⟩ := hf v (by rw [hl]; simp)
    simp only [hd, bind_ok]
    refine Ok.pure fun u => ?_
    rw [HMap.get?_insert, hm]
    by_cases huv : u = v
    · simp [huv, hd, Except.toOption]
    · simp [huv]

/-- A neighbourhood collected from lists that are sets of in-neighbours. -/
theorem inNeighbourhood_ok {D : Digraph} {R : ℕ → ℕ → Prop} (σ : Shuffle Vertex) {X : List Vertex}
    (h : ∀ x ∈ X, ∃ l, D.inNeighbours x = .ok l ∧ ∀ v, v ∈ l ↔ R v x) :
    ∃ s, D.inNeighbourhood σ X = .ok s ∧ ∀ v, v ∈ s ↔ v ∉ X ∧ ∃ x ∈ X, R v x := by
  show Ok _ _
  unfold Digraph.inNeighbourhood
  refine Ok.bind (Ok.foldlM (fun pre (s : HSet Vertex) => ∀ v, v ∈ s ↔ ∃ x ∈ pre, R v x) ?_ ?_) ?_
  · simp
  · intro pre x post s hl hs
    have hx : x ∈ X := by
      have : x ∈ σ.run (HSet.ofList X).toList := by rw [hl]; simp
      simpa using this
    obtain ⟨N, hN, hm⟩ := h x hx
    simp only [hN, bind_ok]
    refine Ok.pure fun v => ?_
    rw [HSet.mem_extend, hs, hm]
    simp only [List.mem_append, List.mem_singleton]
    constructor
    · rintro (⟨y, hy, h⟩ | h)
      · exact ⟨y, Or.inl hy, h⟩
      · exact ⟨x, Or.inr rfl, h⟩
    · rintro ⟨y, hy | rfl, h⟩
      · exact Or.inl ⟨y, hy, h⟩
      · exact Or.inr h
  · intro s hs
    refine Ok.pure fun v => ?_
    rw [HSet.mem_retain, hs]
    simp only [Shuffle.mem, HSet.mem_toList, HSet.mem_ofList, HSet.contains_eq, Bool.not_eq_true',
      decide_eq_false_iff_not]
    exact and_comm

/-- **C126, augmentations, degree maps.** `degrees`, `in_degrees`, `out_degrees` have exactly the vertices as keys and the
answers of `degree`, `in_degree`, `out_degree` as values. -/
theorem C126_dtf_degrees {g : DTFGraph} (hg : Built g) :
    (∃ m, g.view.degrees = .ok m ∧ ∀ u, m.get? u = if g.contains u then (g.degree u).toOption else none) ∧
    (∃ m, g.view.inDegrees = .ok m ∧ ∀ u, m.get? u = if g.contains u then (g.inDegree u).toOption else none) ∧
    (∃ m, g.view.outDegrees = .ok m ∧ ∀ u, m.get? u = if g.contains u then (g.outDegree u).toOption else none) := by
  obtain ⟨V, A, H⟩ := hg.abs
  have key : ∀ f : ℕ → Res ℕ, (∀ u ∈ V, ∃ d, f u = .ok d) →
      ∃ m : HMap ℕ ℕ, g.vertices.foldlM (fun (res : HMap ℕ ℕ) v => do let x ← f v; return res.insert v x) ∅ = .ok m ∧
      ∀ u, m.get? u = if g.contains u then (f u).toOption else none := by
    intro f hf
    obtain ⟨m, hm, hu⟩ := degree_map (vs := g.vertices) fun u hu => hf u ((H.vertices_mem u).1 hu)
    refine ⟨m, hm, fun u => ?_⟩
    rw [hu]
    simp only [H.vertices_mem, H.contains_iff]
  exact ⟨key _ fun u hu => ⟨_, H.degree hu⟩, key _ fun u hu => ⟨_, H.inDegree hu⟩, key _ fun u hu => ⟨_, H.outDegree hu⟩⟩

/-- `C126_dtf_degrees` for the five-cycle after `augment(2, 1)`. -/
example := C126_dtf_degrees c5_case.choose_spec.2.2.1

/-- **C126, augmentations, in-neighbourhoods.** `in_neighbourhood(X)` is the set of the vertices outside `X` that send an arc
of any weight into `X`; it panics as soon as one member of `X` is not a vertex. -/
theorem C126_dtf_in_neighbourhood {g : DTFGraph} (hg : Built g) (σ : Shuffle Vertex) (X : List Vertex) :
    ((∀ x ∈ X, g.contains x = true) →
      ∃ s, g.view.inNeighbourhood σ X = .ok s ∧ ∀ v, v ∈ s ↔ v ∉ X ∧ ∃ x ∈ X, g.hasArc v x = true) ∧
    ((∃ x ∈ X, g.contains x = false) → g.view.inNeighbourhood σ X = .error .panic) := by
  obtain ⟨V, A, H⟩ := hg.abs
  refine ⟨fun hX => ?_, ?_⟩
  · refine inNeighbourhood_ok σ fun x hx => ?_
    obtain ⟨l, hl, hm, -⟩ := H.inNeighbours ((H.contains_iff x).1 (hX x hx))
    exact ⟨l, hl, fun v => by rw [hm, H.hasArc_iff]⟩
  · rintro ⟨x, hx, hc⟩
    have hno : ∀ u, g.contains u = false → g.inNeighbours u = .error .panic := by
      intro u hu
      unfold DTFGraph.inNeighbours
      have : g.nodes.get? u = none := HMap.get?_eq_none.2 fun h => by
        rw [DTFGraph.contains, HMap.contains_iff.2 h] at hu; cases hu
      rw [this]; rfl
    refine Graph.neighbourhood_panics (G := { g.view.toGraph with neighbours := g.inNeighbours }) (fun u => ?_) σ
      ⟨x, hx, hno x hc⟩
    show (∃ l, g.inNeighbours u = .ok l) ∨ g.inNeighbours u = .error .panic
    cases hu : g.contains u with
    | true => obtain ⟨l, hl, -⟩ := H.inNeighbours ((H.contains_iff u).1 hu); exact .inl ⟨l, hl⟩
    | false => exact .inr (hno u hu)

/-- `C126_dtf_in_neighbourhood` for the five-cycle after `augment(2, 1)`. -/
example := fun σ => C126_dtf_in_neighbourhood c5_case.choose_spec.2.2.1 σ [0, 9]

/-- **C126, layers.** The degree maps of a layer are those of the whole graph; `in_neighbourhood(X)` is the set of the vertices
outside `X` that send an arc of the weight of the layer into `X`, and panics as soon as one member of `X` is not a vertex. -/
theorem C126_layer {g : DTFGraph} (hg : Built g) {d : ℕ} (h1 : 1 ≤ d) (hd : d ≤ g.depth) (σ : Shuffle Vertex)
    (X : List Vertex) :
    (Layer.new g d).view.degrees = g.view.degrees ∧ (Layer.new g d).view.inDegrees = g.view.inDegrees ∧
    (Layer.new g d).view.outDegrees = g.view.outDegrees ∧
    ((∀ x ∈ X, g.contains x = true) →
      ∃ s, (Layer.new g d).view.inNeighbourhood σ X = .ok s ∧ ∀ v, v ∈ s ↔ v ∉ X ∧ ∃ x ∈ X, g.Arc d v x) ∧
    ((∃ x ∈ X, g.contains x = false) → (Layer.new g d).view.inNeighbourhood σ X = .error .panic) := by
  obtain ⟨V, A, H⟩ := hg.abs
  refine ⟨rfl, rfl, rfl, fun hX => ?_, ?_⟩
  · refine inNeighbourhood_ok σ fun x hx => ?_
    obtain ⟨l, hl, -, hm⟩ := H.inNeighboursAt ((H.contains_iff x).1 (hX x hx)) h1 hd
    exact ⟨l, hl, fun v => by rw [hm, H.arc_iff h1]⟩
  · rintro ⟨x, hx, hc⟩
    have hno : ∀ u, g.contains u = false → g.inNeighboursAt u d = .error .panic := by
      intro u hu
      unfold DTFGraph.inNeighboursAt
      have : g.nodes.get? u = none := HMap.get?_eq_none.2 fun h => by
        rw [DTFGraph.contains, HMap.contains_iff.2 h] at hu; cases hu
      rw [this]; rfl
    refine Graph.neighbourhood_panics (G := { g.view.toGraph with neighbours := fun u => g.inNeighboursAt u d })
      (fun u => ?_) σ ⟨x, hx, hno x hc⟩
    show (∃ l, g.inNeighboursAt u d = .ok l) ∨ g.inNeighboursAt u d = .error .panic
    cases hu : g.contains u with
    | true => obtain ⟨l, hl, -⟩ := H.inNeighboursAt ((H.contains_iff u).1 hu) h1 hd; exact .inl ⟨l, hl⟩
    | false => exact .inr (hno u hu)

/-- Hypotheses of the theorems above are met by the augmented 5-cycle, its layer 2 and the vertices 0 and 2. -/
example : ∃ g, Built g ∧ (1 ≤ 2 ∧ 2 ≤ g.depth) ∧ (∀ x ∈ [0, 2], g.contains x = true) ∧ g.contains 9 = false := by
  obtain ⟨g, hg, ha⟩ := augE_ok Shuffle.rev c5 c5_loopless 2 1
  have h : ((augE Shuffle.rev c5 2 1).map fun g => (g.depth, g.contains 0, g.contains 2, g.contains 9))
      = .ok (2, true, true, false) := by decide +kernel
  rw [hg] at h
  have h := Except.ok.inj h
  simp only [Prod.mk.injEq] at h
  obtain ⟨h1, h2, h3, h4⟩ := h
  exact ⟨g, .of c5_loopless ha.of, by omega, by simp [h2, h3], h4⟩

/-- The layer of weight 2 of the augmented 5-cycle: the degree map counts all arcs, the in-neighbourhood only those of
weight 2. -/
theorem C126_layer_differs :
    ((augE Shuffle.rev c5 2 1).bind fun g => (Layer.new g 2).view.inDegrees.map fun m => g.vertices.map m.get?) =
      ((augE Shuffle.rev c5 2 1).bind fun g => g.view.inDegrees.map fun m => g.vertices.map m.get?) ∧
    ((augE Shuffle.rev c5 2 1).bind fun g => (g.view.inNeighbourhood Shuffle.id [0]).map HSet.len) ≠
      ((augE Shuffle.rev c5 2 1).bind fun g => ((Layer.new g 2).view.inNeighbourhood Shuffle.id [0]).map HSet.len) := by
  decide +kernel

/-- A digraph whose `Graph::neighbours` and `out_neighbours` are not implemented. -/
theorem unimplemented_panics {D : Digraph} (h1 : D.neighbours = fun _ => .error .panic)
    (h2 : D.outNeighbours = fun _ => .error .panic) {X : List Vertex} (hX : X ≠ []) :
    (∀ σ, D.toGraph.neighbourhood σ X = .error .panic) ∧ D.toGraph.closedNeighbourhood X = .error .panic ∧
    (∀ σ τ, D.toGraph.subgraph σ τ X = .error .panic) ∧ (∀ σ r, D.toGraph.rNeighbourhood σ X (r + 1) = .error .panic) ∧
    (∀ σ, D.outNeighbourhood σ X = .error .panic) := by
  obtain ⟨x, X, rfl⟩ := List.exists_cons_of_ne_nil hX
  have hd : D.toGraph.Answers := fun u => .inr (by rw [h1])
  have hx : ∃ y ∈ x :: X, D.toGraph.neighbours y = .error .panic := ⟨x, List.mem_cons_self, by rw [h1]⟩
  obtain ⟨k1, k2, k3, k4, -⟩ := C113_panics hd hx
  exact ⟨k1, k2, k3, k4, fun σ => Graph.neighbourhood_panics (G := { D.toGraph with neighbours := D.outNeighbours })
    (fun u => .inr (by show D.outNeighbours u = _; rw [h2])) σ ⟨x, List.mem_cons_self, by show D.outNeighbours x = _; rw [h2]⟩⟩

/-- **C126, unimplemented methods.** On an augmentation, `Digraph::neighbours` panics for every argument, and `neighbourhood`,
`closed_neighbourhood`, `subgraph`, `r_neighbourhood` with a positive radius and `out_neighbourhood` panic for every non-empty
argument; creating the generic iterators over edges, over vertices and edges, and over arcs panics exactly if there is a
vertex. -/
theorem C126_dtf_unimplemented (g : DTFGraph) :
    (∀ u, g.view.neighboursBoth u = .error .panic) ∧
    (∀ X : List Vertex, X ≠ [] →
      (∀ σ, g.view.toGraph.neighbourhood σ X = .error .panic) ∧ g.view.toGraph.closedNeighbourhood X = .error .panic ∧
      (∀ σ τ, g.view.toGraph.subgraph σ τ X = .error .panic) ∧
      (∀ σ r, g.view.toGraph.rNeighbourhood σ X (r + 1) = .error .panic) ∧
      (∀ σ, g.view.outNeighbourhood σ X = .error .panic)) ∧
    (g.vertices ≠ [] → EdgeIter.new g.view.toGraph = .error .panic ∧ MixedIter.new g.view.toGraph = .error .panic ∧
      ArcIter.new g.view = .error .panic) ∧
    (g.vertices = [] → (∃ s, EdgeIter.new g.view.toGraph = .ok s ∧ Drains (EdgeIter.next g.view.toGraph) s []) ∧
      (∃ s, MixedIter.new g.view.toGraph = .ok s ∧ Drains (MixedIter.next g.view.toGraph) s []) ∧
      ∃ s, ArcIter.new g.view = .ok s ∧ Drains (ArcIter.next g.view) s []) := by
  refine ⟨fun u => ?_, fun X hX => unimplemented_panics rfl rfl hX, fun h => ?_, fun h => ?_⟩
  · show (do let i ← g.inNeighbours u; let o ← (.error .panic : Res (List Vertex)); return i ++ o) = _
    unfold DTFGraph.inNeighbours
    cases g.nodes.get? u <;> rfl
  · obtain ⟨v, l, hl⟩ := List.exists_cons_of_ne_nil h
    have hv : g.view.vertices = v :: l := hl
    unfold EdgeIter.new MixedIter.new ArcIter.new EdgeIter.advance MixedIter.advance ArcIter.advance
    rw [hv]
    exact ⟨rfl, rfl, rfl⟩
  · have hv : g.view.vertices = [] := h
    unfold EdgeIter.new MixedIter.new ArcIter.new EdgeIter.advance MixedIter.advance ArcIter.advance
    rw [hv]
    exact ⟨⟨_, rfl, .done rfl⟩, ⟨_, rfl, .done rfl⟩, ⟨_, rfl, .done rfl⟩⟩

/-- `C126_dtf_unimplemented` for the five-cycle after `augment(2, 1)`. -/
example := C126_dtf_unimplemented c5_case.choose

/-- **C126, unimplemented methods of a layer.** -/
theorem C126_layer_unimplemented (l : Layer) :
    (∀ u, l.neighboursBoth u = .error .panic) ∧
    (∀ X : List Vertex, X ≠ [] →
      (∀ σ, l.view.toGraph.neighbourhood σ X = .error .panic) ∧ l.view.toGraph.closedNeighbourhood X = .error .panic ∧
      (∀ σ τ, l.view.toGraph.subgraph σ τ X = .error .panic) ∧
      (∀ σ r, l.view.toGraph.rNeighbourhood σ X (r + 1) = .error .panic) ∧
      (∀ σ, l.view.outNeighbourhood σ X = .error .panic)) ∧
    (l.vertices ≠ [] → EdgeIter.new l.view.toGraph = .error .panic ∧ MixedIter.new l.view.toGraph = .error .panic ∧
      ArcIter.new l.view = .error .panic) := by
  refine ⟨fun u => rfl, fun X hX => unimplemented_panics rfl rfl hX, fun h => ?_⟩
  obtain ⟨v, vs, hl⟩ := List.exists_cons_of_ne_nil h
  have hv : l.view.vertices = v :: vs := hl
  unfold EdgeIter.new MixedIter.new ArcIter.new EdgeIter.advance MixedIter.advance ArcIter.advance
  rw [hv]
  exact ⟨rfl, rfl, rfl⟩

example : DTFGraph.new.vertices = [] ∧ ((augE Shuffle.rev c5 2 1).map fun g => g.vertices.length) = .ok 5 := by decide +kernel

end Verif
