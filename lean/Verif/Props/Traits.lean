import Verif.Model.NeighIters
import Verif.Props.DTFGraph
import Verif.Props.EditDigraph
/-!
# C79 – C82: default methods of the traits and neighbourhood iterators

Degree maps, the iterators over neighbourhoods, `EditDigraph::disj_unions`, and the `Graph` methods applied to a digraph.
-/
namespace Verif

/-! ## C79 -/

/-- The map of `degrees()` for any degree function defined on the listed vertices. -/
theorem Graph.degrees_ok {G : Graph} {f : ℕ → ℕ} (h : ∀ u ∈ G.vertices, G.degree u = .ok (f u)) :
    Ok G.degrees (fun m => ∀ u x, m.get? u = some x ↔ u ∈ G.vertices ∧ x = f u) := by
  unfold Graph.degrees
  refine Ok.mono (Ok.foldlM (l := G.vertices) (fun pre (m : HMap ℕ ℕ) => ∀ u x, m.get? u = some x ↔ u ∈ pre ∧ x = f u) ?_ ?_)
    fun m hm => hm
  · simp
  · intro pre v post m hl hm
    rw [h v (by rw [hl]; simp)]
    simp only [bind_ok]
    refine Ok.pure (a := m.insert v (f v)) fun u x => ?_
    rw [HMap.get?_insert]
    by_cases huv : u = v
    · subst huv
      rw [if_pos rfl]
      simp [eq_comm]
    · rw [if_neg huv, hm]; simp [huv]

/-- **C79.** For every undirected graph: `degrees()` maps exactly the vertices, each to its degree; `len()` is the number of
vertices and `is_empty()` holds iff there are none; the entries of `degrees()` sum to twice the number of edges. -/
theorem C79_degrees {G : Graph} {S : SGraph} (H : G.Rep S) :
    (∃ m, G.degrees = .ok m ∧ (∀ u x, m.get? u = some x ↔ u ∈ S.V ∧ x = S.deg u) ∧ m.len = S.V.card ∧
      (m.entries.map Prod.snd).sum = 2 * G.numEdges) ∧
    G.len = S.V.card ∧ (G.isEmpty = true ↔ S.V = ∅) := by
  have hv : ∀ u ∈ G.vertices, G.degree u = .ok (S.deg u) := fun u hu => H.degree u ((H.vmem u).1 hu)
  obtain ⟨m, h1, h2⟩ := Graph.degrees_ok hv
  have h3 : ∀ u x, m.get? u = some x ↔ u ∈ S.V ∧ x = S.deg u := fun u x => by rw [h2, H.vmem]
  have hk : ∀ u, u ∈ m.keys ↔ u ∈ S.V := by
    intro u
    rw [HMap.mem_keys_iff]
    constructor
    · rintro ⟨x, hx⟩; exact ((h3 u x).1 hx).1
    · intro hu; exact ⟨_, (h3 u _).2 ⟨hu, rfl⟩⟩
  refine ⟨⟨m, h1, h3, HMap.len_of_mem_iff hk, ?_⟩, H.nv, ?_⟩
  · have e1 : m.entries.map Prod.snd = m.keys.map S.deg := by
      unfold HMap.keys
      rw [List.map_map]
      refine List.map_congr_left ?_
      rintro ⟨k, a⟩ hka
      exact ((h3 k a).1 (HMap.get?_eq_some.2 hka)).2
    have e2 : m.keys.toFinset = S.V := by ext u; rw [List.mem_toFinset, hk]
    rw [e1, ← List.sum_toFinset _ HMap.keys_nodup, e2, S.sum_deg, H.ne]
  · unfold Graph.isEmpty Graph.len
    rw [H.nv, beq_iff_eq, Finset.card_eq_zero]

/-- `C79_degrees` for a triangle with a pendant vertex. -/
example := C79_degrees caseG_rep

/-- **C79, digraphs**: `degrees()` maps every vertex to in-degree plus out-degree. -/
theorem C79_digraph {g : EditDigraph} (hg : EditDigraph.Reachable g) :
    ∃ m, g.view.toGraph.degrees = .ok m ∧ (∀ u, m.get? u = none ↔ g.contains u = false) ∧
      ∀ u, g.contains u = true → ∃ i o, g.inDegree u = .ok i ∧ g.outDegree u = .ok o ∧ m.get? u = some (i + o) := by
  obtain ⟨S, H⟩ := hg.abs
  obtain ⟨m, h1, h2⟩ := Graph.degrees_ok (G := g.view.toGraph) (f := g.degree) (fun u _ => rfl)
  have hm : ∀ w, w ∈ g.view.toGraph.vertices ↔ w ∈ S.V := H.mem_vertices
  refine ⟨m, h1, fun u => ?_, fun u hu => ?_⟩
  · rw [H.contains, decide_eq_false_iff_not]
    constructor
    · intro h hu
      have := (h2 u _).2 ⟨(hm u).2 hu, rfl⟩
      rw [h] at this; cases this
    · intro hu
      rw [Option.eq_none_iff_forall_ne_some]
      intro x hx
      exact hu ((hm u).1 ((h2 u x).1 hx).1)
  · rw [H.contains, decide_eq_true_eq] at hu
    exact ⟨_, _, H.inDegree hu, H.outDegree hu, (h2 u _).2 ⟨(hm u).2 hu, (H.degree u).symm⟩⟩

example : ∃ (g : EditGraph) (S : SGraph), g.view.Rep S ∧ S.deg 2 = 4 ∧ S.V.card = 4 := by
  obtain ⟨g, H⟩ := exAbs
  exact ⟨g, exS, H.rep, by decide, by decide⟩

example : ∃ g, EditDigraph.Reachable g ∧ g.hasArc 2 2 = true ∧ g.contains 7 = true := by
  obtain ⟨g, h1, -, -, -, h2, -, h3, -⟩ := exDReachable; exact ⟨g, h1, h2, h3⟩

/-! ## C80 -/

/-- An iterator whose `next` takes the first remaining vertex and looks up its list yields all vertices in order. -/
theorem drains_pairs {σ : Type} {next : σ → Res (Option ((ℕ × List ℕ) × σ))} (st : List ℕ → σ) {N : ℕ → List ℕ} :
    ∀ vs : List ℕ, next (st []) = .ok none → (∀ v rest, v ∈ vs → next (st (v :: rest)) = .ok (some ((v, N v), st rest))) →
      Drains next (st vs) (vs.map fun v => (v, N v))
  | [], h0, _ => .done h0
  | v :: vs, h0, h => .step (h v vs (by simp)) (drains_pairs st vs h0 fun w rest hw => h w rest (by simp [hw]))

/-- Choice of the neighbour lists. -/
theorem exists_lists {vs : List ℕ} {f : ℕ → Res (List ℕ)} {P : ℕ → List ℕ → Prop}
    (h : ∀ u ∈ vs, ∃ l, f u = .ok l ∧ P u l) : ∃ N : ℕ → List ℕ, ∀ u ∈ vs, f u = .ok (N u) ∧ P u (N u) := by
  classical
  have : ∀ u, ∃ l : List ℕ, u ∈ vs → f u = .ok l ∧ P u l := by
    intro u
    by_cases hu : u ∈ vs
    · obtain ⟨l, hl⟩ := h u hu; exact ⟨l, fun _ => hl⟩
    · exact ⟨[], fun h => absurd h hu⟩
  choose N hN using this
  exact ⟨N, hN⟩

theorem mem_nbhs {vs : List ℕ} {N : ℕ → List ℕ} {v : ℕ} {l : List ℕ} (h : (v, l) ∈ vs.map fun v => (v, N v)) :
    v ∈ vs ∧ l = N v := by
  obtain ⟨w, hw, he⟩ := List.mem_map.1 h
  cases he
  exact ⟨hw, rfl⟩

theorem fst_pairs (vs : List ℕ) (N : ℕ → List ℕ) : (vs.map fun v => (v, N v)).map Prod.fst = vs := by
  rw [List.map_map]; exact List.map_id vs

/-- **C80.** `neighbourhoods()` of any undirected graph ends after yielding every vertex exactly once, each with a list
without repetition of exactly its neighbours. -/
theorem C80_neighbourhoods {G : Graph} {S : SGraph} (H : G.Rep S) :
    ∃ l, Drains (NeighIter.next G) (NeighIter.new G) l ∧ l.map Prod.fst = G.vertices ∧ (l.map Prod.fst).Nodup ∧
      (∀ v, v ∈ l.map Prod.fst ↔ v ∈ S.V) ∧ ∀ v N, (v, N) ∈ l → N.Nodup ∧ ∀ w, w ∈ N ↔ S.Adj v w := by
  obtain ⟨N, hN⟩ := exists_lists (vs := G.vertices) (f := G.neighbours) fun u hu => H.nbrs u ((H.vmem u).1 hu)
  refine ⟨_, drains_pairs (N := N) NeighIter.mk G.vertices rfl fun v rest hv => ?_, fst_pairs _ N, ?_, ?_, ?_⟩
  · show (do let N ← G.neighbours v; return some ((v, N), (⟨rest⟩ : NeighIter))) = _
    rw [(hN v hv).1]; rfl
  · rw [fst_pairs]; exact H.vnodup
  · rw [fst_pairs]; exact H.vmem
  · intro v M hM
    obtain ⟨hv, rfl⟩ := mem_nbhs hM
    exact (hN v hv).2

/-- `C80_neighbourhoods` for a path with a loop and an isolated vertex. -/
example := C80_neighbourhoods loopG_rep

/-- **C80, digraphs.** `in_neighbourhoods()` and `out_neighbourhoods()` yield every vertex exactly once, with its in- or
out-neighbours. -/
theorem C80_digraph {g : EditDigraph} (hg : EditDigraph.Reachable g) :
    (∃ l, Drains (DiNeighIter.next g.view) (DiNeighIter.newIn g.view) l ∧ (l.map Prod.fst).Nodup ∧
      (∀ v, v ∈ l.map Prod.fst ↔ g.contains v = true) ∧
      ∀ v N, (v, N) ∈ l → N.Nodup ∧ ∀ w, w ∈ N ↔ g.hasArc w v = true) ∧
    (∃ l, Drains (DiNeighIter.next g.view) (DiNeighIter.newOut g.view) l ∧ (l.map Prod.fst).Nodup ∧
      (∀ v, v ∈ l.map Prod.fst ↔ g.contains v = true) ∧
      ∀ v N, (v, N) ∈ l → N.Nodup ∧ ∀ w, w ∈ N ↔ g.hasArc v w = true) := by
  obtain ⟨S, H⟩ := hg.abs
  have hm : ∀ w, w ∈ g.view.toGraph.vertices ↔ w ∈ S.V := H.mem_vertices
  have hn : g.view.toGraph.vertices.Nodup := H.vertices_nodup
  have hc : ∀ w, w ∈ g.view.toGraph.vertices ↔ g.contains w = true := fun w => by
    rw [H.contains, decide_eq_true_eq, hm]
  constructor
  · obtain ⟨N, hN⟩ := exists_lists (vs := g.view.toGraph.vertices) (f := g.view.inNeighbours)
      fun u hu => H.inNeighbours ((hm u).1 hu)
    refine ⟨_, drains_pairs (N := N) (fun l => (⟨l, .inn⟩ : DiNeighIter)) g.view.toGraph.vertices rfl fun v rest hv => ?_, ?_, ?_, ?_⟩
    · show (do let N ← g.view.inNeighbours v; return some ((v, N), (⟨rest, .inn⟩ : DiNeighIter))) = _
      rw [(hN v hv).1]; rfl
    · rw [fst_pairs]; exact hn
    · rw [fst_pairs]; exact hc
    · intro v M hM
      obtain ⟨hv, rfl⟩ := mem_nbhs hM
      exact ⟨(hN v hv).2.1, fun w => by rw [(hN v hv).2.2, H.hasArc, decide_eq_true_eq]⟩
  · obtain ⟨N, hN⟩ := exists_lists (vs := g.view.toGraph.vertices) (f := g.view.outNeighbours)
      fun u hu => H.outNeighbours ((hm u).1 hu)
    refine ⟨_, drains_pairs (N := N) (fun l => (⟨l, .out⟩ : DiNeighIter)) g.view.toGraph.vertices rfl fun v rest hv => ?_, ?_, ?_, ?_⟩
    · show (do let N ← g.view.outNeighbours v; return some ((v, N), (⟨rest, .out⟩ : DiNeighIter))) = _
      rw [(hN v hv).1]; rfl
    · rw [fst_pairs]; exact hn
    · rw [fst_pairs]; exact hc
    · intro v M hM
      obtain ⟨hv, rfl⟩ := mem_nbhs hM
      exact ⟨(hN v hv).2.1, fun w => by rw [(hN v hv).2.2, H.hasArc, decide_eq_true_eq]⟩

/-- `C80_digraph` for a digraph with a loop. -/
example := C80_digraph exDReachable.choose_spec.1

/-- **C80, linear graphs.** `left_neighbourhoods()` yields the vertices in the order of the graph, each with its earlier
neighbours in increasing position. -/
theorem C80_left {L : LinGraph} {S : SGraph} {ord : List ℕ} (H : L.LRep S ord) :
    ∃ l, Drains (LeftNeighIter.next L) (LeftNeighIter.new L) l ∧ l.map Prod.fst = ord ∧
      ∀ v N, (v, N) ∈ l → N.Pairwise (fun a b => ord.idxOf a < ord.idxOf b) ∧
        ∀ w, w ∈ N ↔ S.Adj v w ∧ ord.idxOf w < ord.idxOf v := by
  obtain ⟨N, hN⟩ := exists_lists (vs := L.vertices) (f := L.leftNeighbours) fun u hu => H.left u ((H.rep.vmem u).1 hu)
  refine ⟨_, drains_pairs (N := N) LeftNeighIter.mk L.vertices rfl fun v rest hv => ?_, ?_, ?_⟩
  · show (do let N ← L.leftNeighbours v; return some ((v, N), (⟨rest⟩ : LeftNeighIter))) = _
    rw [(hN v hv).1]; rfl
  · rw [fst_pairs, H.verts]
  · intro v M hM
    obtain ⟨hv, rfl⟩ := mem_nbhs hM
    exact (hN v hv).2

/-- `C80_left` for a triangle with a pendant vertex. -/
example := C80_left case_ord.choose_spec.inv.lrep

/-- **C80, augmentations.** `in_neighbourhoods_iter_at(d)` yields every vertex exactly once, with the tails of its arcs of
weight `d`. -/
theorem C80_dtf_at {g : DTFGraph} (hg : DTFGraph.Built g) {d : ℕ} (h1 : 1 ≤ d) (hd : d ≤ g.depth) :
    ∃ l, Drains (DTFNIter.next g) (DTFNIter.fixedDepth g d) l ∧ (l.map Prod.fst).Nodup ∧
      (∀ v, v ∈ l.map Prod.fst ↔ g.contains v = true) ∧
      ∀ v N, (v, N) ∈ l → N.Nodup ∧ ∀ x, x ∈ N ↔ g.Arc d x v := by
  obtain ⟨V, A, H⟩ := hg.abs
  obtain ⟨N, hN⟩ := exists_lists (vs := g.vertices) (f := fun u => g.inNeighboursAt u d)
    fun u hu => H.inNeighboursAt ((H.vertices_mem u).1 hu) h1 hd
  refine ⟨_, drains_pairs (N := N) (fun l => (⟨l, some d⟩ : DTFNIter)) g.vertices rfl fun v rest hv => ?_, ?_, ?_, ?_⟩
  · show (do let N ← g.inNeighboursAt v d; return some ((v, N), (⟨rest, some d⟩ : DTFNIter))) = _
    rw [(hN v hv).1]; rfl
  · rw [fst_pairs]; exact H.vertices_nodup
  · intro v; rw [fst_pairs, H.contains_iff]; exact H.vertices_mem v
  · intro v M hM
    obtain ⟨hv, rfl⟩ := mem_nbhs hM
    exact ⟨(hN v hv).2.1, fun x => by rw [(hN v hv).2.2, H.arc_iff h1]⟩

/-- `C80_dtf_at` for the five-cycle after `augment(2, 1)`. -/
example := C80_dtf_at c5_case.choose_spec.2.2.1 (d := 2) (by decide) (by rw [c5_case.choose_spec.2.2.2])

/-- **C80, augmentations.** `in_neighbourhoods_iter()` yields every vertex exactly once, with the tails of its arcs. -/
theorem C80_dtf {S : SGraph} {g : DTFGraph} (hl : S.Loopless) (hg : DTFGraph.Of S g) :
    ∃ l, Drains (DTFNIter.next g) (DTFNIter.allDepths g) l ∧ (l.map Prod.fst).Nodup ∧
      (∀ v, v ∈ l.map Prod.fst ↔ v ∈ S.V) ∧
      ∀ v N, (v, N) ∈ l → N.Nodup ∧ ∀ x, x ∈ N ↔ g.hasArc x v = true := by
  obtain ⟨A, H, hs, -⟩ := hg.abs hl
  obtain ⟨N, hN⟩ := exists_lists (vs := g.vertices) (f := g.inNeighbours)
    fun u hu => H.inNeighbours ((H.vertices_mem u).1 hu)
  refine ⟨_, drains_pairs (N := N) (fun l => (⟨l, none⟩ : DTFNIter)) g.vertices rfl fun v rest hv => ?_, ?_, ?_, ?_⟩
  · show (do let N ← g.inNeighbours v; return some ((v, N), (⟨rest, none⟩ : DTFNIter))) = _
    rw [(hN v hv).1]; rfl
  · rw [fst_pairs]; exact H.vertices_nodup
  · intro v; rw [fst_pairs]; exact H.vertices_mem v
  · intro v M hM
    obtain ⟨hv, rfl⟩ := mem_nbhs hM
    exact ⟨(hN v hv).2.2 fun x w w' => hs.uniq x v w w', fun x => by rw [(hN v hv).2.1, H.hasArc_iff]⟩

example : ∃ (G : Graph) (g : EditDigraph) (L : LinGraph) (S : SGraph), G.Rep exS ∧ EditDigraph.Reachable g ∧ g.hasArc 1 2 = true ∧
    L.LRep S [2, 0, 1] ∧ S.Adj 0 1 := by
  obtain ⟨e, H⟩ := exAbs
  obtain ⟨g, h1, -, h2, -⟩ := exDReachable
  obtain ⟨G, S, k1, k2, k3, -, -, k4, k5, k6, -⟩ := exOrd
  obtain ⟨o, -, ho⟩ := C43_with_ordering k1 k2 k4 k5
  exact ⟨e.view, g, o.lin, S, H.rep, h1, h2, (ho o (.refl o)).lin, k3⟩

example : ∃ (S : SGraph) (g : DTFGraph), S.Loopless ∧ DTFGraph.Of S g ∧ DTFGraph.Built g ∧ g.depth = 1 ∧ S.V.card = 5 := by
  obtain ⟨g, hg, ha⟩ := orientE_ok Shuffle.id c5 c5_loopless
  refine ⟨c5G, g, c5_loopless, ha.of, .of c5_loopless ha.of, ?_, by decide⟩
  have : ((orientE Shuffle.id c5).map DTFGraph.depth) = .ok 1 := by decide +kernel
  rw [hg] at this
  exact Except.ok.inj this

/-! ## C81 -/

/-- **C81**, full statement: `disj_unions` copies every digraph of the list with its own shift. -/
def C81_statement : Prop := ∀ l : List EditDigraph, (∀ g ∈ l, EditDigraph.Reachable g) →
  ∀ B : ℕ, (∀ g ∈ l, ∀ v, g.contains v = true → v < B) → l.length * B < 2 ^ 32 →
  ∃ h ks, EditDigraph.disjUnions (l.map fun g => g.view.toGraph) = .ok h ∧ ks.length = l.length ∧
    (l.zip ks).Pairwise (fun p q => ∀ u v, p.1.contains u = true → q.1.contains v = true → u + p.2 < v + q.2) ∧
    (∀ w, h.contains w = true ↔ ∃ p ∈ l.zip ks, ∃ v, p.1.contains v = true ∧ w = v + p.2) ∧
    (∀ a b, h.hasArc a b = true ↔ ∃ p ∈ l.zip ks, ∃ u v, p.1.hasArc u v = true ∧ a = u + p.2 ∧ b = v + p.2)

/-- **C81**, what the code computes: every digraph of the list is copied with its own shift and the copies are disjoint and
in order, but all arcs are turned upward. -/
theorem C81_arcs (l : List EditDigraph) (hl : ∀ g ∈ l, EditDigraph.Reachable g) (B : ℕ)
    (hB : ∀ g ∈ l, ∀ v, g.contains v = true → v < B) (hsum : l.length * B < 2 ^ 32) :
    ∃ h ks, EditDigraph.disjUnions (l.map fun g => g.view.toGraph) = .ok h ∧ EditDigraph.Reachable h ∧ ks.length = l.length ∧
      (l.zip ks).Pairwise (fun p q => ∀ u v, p.1.contains u = true → q.1.contains v = true → u + p.2 < v + q.2) ∧
      (∀ w, h.contains w = true ↔ ∃ p ∈ l.zip ks, ∃ v, p.1.contains v = true ∧ w = v + p.2) ∧
      (∀ a b, h.hasArc a b = true ↔ ∃ p ∈ l.zip ks, ∃ u v, u ≤ v ∧ (p.1.hasArc u v = true ∨ p.1.hasArc v u = true) ∧
        a = u + p.2 ∧ b = v + p.2) := by
  unfold EditDigraph.disjUnions
  rw [List.foldlM_map]
  have := Ok.foldlM (l := l) (b := EditDigraph.new) (f := fun (h : EditDigraph) g => h.disjUnion g.view.toGraph)
    (fun pre h => ∃ S ks, EditDigraph.Abs h S ∧ ks.length = pre.length ∧
      (pre.zip ks).Pairwise (fun p q => ∀ u v, p.1.contains u = true → q.1.contains v = true → u + p.2 < v + q.2) ∧
      (∀ w, w ∈ S.V ↔ ∃ p ∈ pre.zip ks, ∃ v, p.1.contains v = true ∧ w = v + p.2) ∧
      (∀ a b, (a, b) ∈ S.A ↔ ∃ p ∈ pre.zip ks, ∃ u v, u ≤ v ∧ (p.1.hasArc u v = true ∨ p.1.hasArc v u = true) ∧
        a = u + p.2 ∧ b = v + p.2) ∧
      EditDigraph.offsetOf S ≤ pre.length * B) ?_ ?_
  · obtain ⟨h, hh, S, ks, A, h1, h2, h3, h4, -⟩ := this
    refine ⟨h, ks, hh, A.reachable, h1, h2, fun w => ?_, fun a b => ?_⟩
    · rw [A.contains, decide_eq_true_eq, h3]
    · rw [A.hasArc, decide_eq_true_eq, h4]
  · exact ⟨_, [], EditDigraph.abs_new, rfl, by simp, by simp [DGraph.empty], by simp [DGraph.empty],
      by simp [EditDigraph.offsetOf, DGraph.empty]⟩
  · rintro pre g post h hpq ⟨S, ks, A, h1, h2, h3, h4, h5⟩
    have hmem : g ∈ l := by rw [hpq]; simp
    obtain ⟨T, H⟩ := (hl g hmem).abs
    have hc : ∀ u, g.contains u = true ↔ u ∈ T.V := fun u => by rw [H.contains, decide_eq_true_eq]
    have ha : ∀ u v, g.hasArc u v = true ↔ (u, v) ∈ T.A := fun u v => by rw [H.hasArc, decide_eq_true_eq]
    have hb : ∀ v ∈ T.V, v < B := fun v hv => hB g hmem v ((hc v).2 hv)
    have hs : pre.length * B + B < 2 ^ 32 := by
      have hlen : pre.length + 1 ≤ l.length := by rw [hpq]; simp
      have := Nat.mul_le_mul_right B hlen
      rw [Nat.add_mul, Nat.one_mul] at this
      omega
    refine Ok.mono (A.disjUnion H.lists (by omega) (fun v hv => by have := hb v hv; omega)) ?_
    rintro r ⟨R, hR, hRV, hRA⟩
    beta_reduce at hRV hRA
    have hz : (pre ++ [g]).zip (ks ++ [EditDigraph.offsetOf S]) = pre.zip ks ++ [(g, EditDigraph.offsetOf S)] := by
      rw [List.zip_append h1.symm]; rfl
    refine ⟨R, ks ++ [EditDigraph.offsetOf S], hR, by simp [h1], ?_, fun w => ?_, fun a b => ?_, ?_⟩
    · rw [hz, List.pairwise_append]
      refine ⟨h2, by simp, ?_⟩
      intro p hp q hq u v hu hv
      rw [List.mem_singleton] at hq
      subst hq
      have : u + p.2 < EditDigraph.offsetOf S := EditDigraph.lt_offsetOf ((h3 _).2 ⟨p, hp, u, hu, rfl⟩)
      simp only; omega
    · rw [hz, hRV, h3]
      simp only [List.mem_append, List.mem_singleton, or_and_right, exists_or, exists_eq_left, hc]
    · have key : (a ≤ b ∧ ((a, b) ∈ S.A ∨ (b, a) ∈ S.A)) ↔ (a, b) ∈ S.A := by
        have hup : ∀ a b, (a, b) ∈ S.A → a ≤ b := by
          intro a b h
          obtain ⟨p, -, u, v, huv, -, rfl, rfl⟩ := (h4 a b).1 h
          omega
        constructor
        · rintro ⟨hab, h | h⟩
          · exact h
          · have := le_antisymm hab (hup _ _ h)
            subst this; exact h
        · exact fun h => ⟨hup _ _ h, Or.inl h⟩
      rw [hz, hRA, key, h4]
      simp only [List.mem_append, List.mem_singleton, or_and_right, exists_or, exists_eq_left, ha]
    · refine Finset.sup_le fun w hw => ?_
      rw [hRV] at hw
      simp only [List.length_append, List.length_singleton, Nat.add_mul, Nat.one_mul]
      rcases hw with hw | ⟨v, hv, rfl⟩
      · have := EditDigraph.lt_offsetOf hw; omega
      · have := hb v hv; omega

/-- **C81**: proved when all arcs go from smaller to larger ids.  Missing: other arcs are reversed. -/
theorem C81_disj_unions_partial (l : List EditDigraph) (hl : ∀ g ∈ l, EditDigraph.Reachable g) (B : ℕ)
    (hB : ∀ g ∈ l, ∀ v, g.contains v = true → v < B) (hsum : l.length * B < 2 ^ 32)
    (up : ∀ g ∈ l, ∀ u v, g.hasArc u v = true → u ≤ v) :
    ∃ h ks, EditDigraph.disjUnions (l.map fun g => g.view.toGraph) = .ok h ∧ ks.length = l.length ∧
      (l.zip ks).Pairwise (fun p q => ∀ u v, p.1.contains u = true → q.1.contains v = true → u + p.2 < v + q.2) ∧
      (∀ w, h.contains w = true ↔ ∃ p ∈ l.zip ks, ∃ v, p.1.contains v = true ∧ w = v + p.2) ∧
      (∀ a b, h.hasArc a b = true ↔ ∃ p ∈ l.zip ks, ∃ u v, p.1.hasArc u v = true ∧ a = u + p.2 ∧ b = v + p.2) := by
  obtain ⟨h, ks, h1, -, h2, h3, h4, h5⟩ := C81_arcs l hl B hB hsum
  refine ⟨h, ks, h1, h2, h3, h4, fun a b => (h5 a b).trans ?_⟩
  refine exists_congr fun p => and_congr_right fun hp => exists_congr fun u => exists_congr fun v => ?_
  have hup := up p.1 (List.of_mem_zip hp).1
  constructor
  · rintro ⟨huv, h | h, h'⟩
    · exact ⟨h, h'⟩
    · have : u = v := le_antisymm huv (hup _ _ h)
      subst this; exact ⟨h, h'⟩
  · exact fun h => ⟨hup _ _ h.1, Or.inl h.1, h.2⟩

/-- **C81** is false of the code: the union of the one-element list with the digraph `1 → 0` has the arc `0 → 1` instead. -/
theorem C81_refuted : ¬ C81_statement := by
  intro h
  obtain ⟨g, hg, hr, hc, ha⟩ := exDown
  obtain ⟨r, ks, h1, h2, -, h4, h5⟩ := h [g] (by simpa using hr) 2
    (by simp only [List.mem_singleton, forall_eq]; intro v hv; have := (hc v).1 hv; omega) (by simp)
  have : ((EditDigraph.new.addArc 1 0).bind fun p => (EditDigraph.disjUnions [p.1.view.toGraph]).map
      fun r => (r.hasArc 0 1, r.hasArc 1 0, r.contains 0)) = .ok (true, false, true) := by decide
  rw [hg] at this
  simp only [List.map_cons, List.map_nil] at h1
  simp only [Except.bind, h1, Except.map, Except.ok.injEq, Prod.mk.injEq] at this
  match ks, h2 with
  | [k], _ =>
    obtain ⟨p, hp, u, v, huv, h6, h7⟩ := (h5 0 1).1 this.1
    simp only [List.zip_cons_cons, List.zip_nil_left, List.mem_singleton] at hp
    subst hp
    have := (ha u v).1 huv
    simp only at h6 h7
    omega

example : ∃ l : List EditDigraph, l.length = 2 ∧ (∀ g ∈ l, EditDigraph.Reachable g) ∧
    (∀ g ∈ l, ∀ v, g.contains v = true → v < 10) ∧ l.length * 10 < 2 ^ 32 ∧ ∀ g ∈ l, g.hasArc 3 2 = true := by
  obtain ⟨g, h1, -, -, -, -, h2, -, h3⟩ := exDReachable
  refine ⟨[g, g], rfl, ?_, ?_, by simp, ?_⟩
  · simpa using h1
  · simpa using h3
  · simpa using h2

example : ∃ l : List EditDigraph, l.length = 2 ∧ (∀ g ∈ l, EditDigraph.Reachable g) ∧
    (∀ g ∈ l, ∀ v, g.contains v = true → v < 2) ∧ (∀ g ∈ l, ∀ u v, g.hasArc u v = true → u ≤ v) ∧
    ∀ g ∈ l, g.hasArc 0 1 = true := by
  obtain ⟨⟨g, b⟩, hg, H, -⟩ := EditDigraph.abs_new.addArc 0 1
  refine ⟨[g, g], rfl, ?_, ?_, ?_, ?_⟩
  · simpa using H.reachable
  · simp only [List.mem_cons, List.not_mem_nil, or_false, or_self, forall_eq]
    intro v hv
    rw [H.contains, decide_eq_true_eq] at hv
    simp [DGraph.empty, DGraph.mem_addArcs_V] at hv; omega
  · simp only [List.mem_cons, List.not_mem_nil, or_false, or_self, forall_eq]
    intro u v hv
    rw [H.hasArc, decide_eq_true_eq, DGraph.mem_addArcs] at hv
    simp [DGraph.empty] at hv; omega
  · simp only [List.mem_cons, List.not_mem_nil, or_false, or_self, forall_eq]
    rw [H.hasArc]; decide

/-! ## C82 -/

/-- Some arc joins `u` and `v`, in either direction. -/
def EditDigraph.Joined (g : EditDigraph) (u v : ℕ) : Prop := g.hasArc u v = true ∨ g.hasArc v u = true

/-- The underlying undirected graph of a digraph. -/
def DGraph.under (S : DGraph) : SGraph :=
  ⟨S.V, S.A.image (fun e => s(e.1, e.2)), by
    intro e he u hu
    obtain ⟨a, ha, rfl⟩ := Finset.mem_image.1 he
    rcases Sym2.mem_iff.1 hu with rfl | rfl
    · exact (S.wf _ ha).1
    · exact (S.wf _ ha).2⟩

theorem DGraph.under_adj {S : DGraph} {u v : ℕ} : S.under.Adj u v ↔ (u, v) ∈ S.A ∨ (v, u) ∈ S.A := by
  show s(u, v) ∈ S.A.image (fun e => s(e.1, e.2)) ↔ _
  rw [Finset.mem_image]
  constructor
  · rintro ⟨⟨a, b⟩, h, he⟩
    rcases Sym2.eq_iff.1 he with ⟨rfl, rfl⟩ | ⟨rfl, rfl⟩
    · exact Or.inl h
    · exact Or.inr h
  · rintro (h | h)
    · exact ⟨_, h, rfl⟩
    · exact ⟨_, h, Sym2.eq_swap⟩

theorem EditDigraph.Abs.joined {g : EditDigraph} {S : DGraph} (H : Abs g S) {u v : ℕ} : g.Joined u v ↔ S.under.Adj u v := by
  unfold EditDigraph.Joined
  rw [DGraph.under_adj, H.hasArc, H.hasArc, decide_eq_true_eq, decide_eq_true_eq]

theorem EditDigraph.Abs.sees {g : EditDigraph} {S : DGraph} (H : Abs g S) : g.view.toGraph.Sees S.under where
  vnodup := H.vertices_nodup
  vmem := H.mem_vertices
  nbrs u hu := by
    obtain ⟨l, h1, h2⟩ := H.mem_neighbours hu
    exact ⟨l, h1, fun w => by rw [h2, DGraph.under_adj]⟩
  nv := H.numVertices
  short u hu l hl := by
    obtain ⟨l₁, l₂, h1, h2, h3⟩ := H.neighbours hu
    obtain ⟨k₁, e1, n1, m1⟩ := H.inNeighbours hu
    obtain ⟨k₂, e2, n2, m2⟩ := H.outNeighbours hu
    rw [h1] at e1; cases e1
    rw [h2] at e2; cases e2
    have hl' : g.neighbours u = .ok l := hl
    rw [h3] at hl'; cases hl'
    have c1 : l₁.toFinset ⊆ S.V := fun x hx => by
      rw [List.mem_toFinset, m1] at hx; exact (S.wf _ hx).1
    have c2 : l₂.toFinset ⊆ S.V := fun x hx => by
      rw [List.mem_toFinset, m2] at hx; exact (S.wf _ hx).2
    have c1 := Finset.card_le_card c1
    have c2 := Finset.card_le_card c2
    rw [List.toFinset_card_of_nodup n1] at c1
    rw [List.toFinset_card_of_nodup n2] at c2
    rw [List.length_append]
    show _ ≤ 2 * S.V.card
    omega

/-- **C82.** The neighbourhood methods of the `Graph` trait, called on a digraph, ignore the directions of the arcs. -/
theorem C82_neighbourhoods {g : EditDigraph} (hg : EditDigraph.Reachable g) (σ : Shuffle ℕ) (τ : ℕ → Shuffle ℕ) (X : List ℕ)
    (hX : ∀ x ∈ X, g.contains x = true) (r : ℕ) :
    (∃ s, g.view.toGraph.neighbourhood σ X = .ok s ∧ ∀ v, v ∈ s ↔ v ∉ X ∧ ∃ x ∈ X, g.Joined x v) ∧
    (∃ s, g.view.toGraph.closedNeighbourhood X = .ok s ∧ ∀ v, v ∈ s ↔ v ∈ X ∨ ∃ x ∈ X, g.Joined x v) ∧
    (∃ s, g.view.toGraph.rNeighbourhood τ X r = .ok s ∧ ∀ v, v ∈ s ↔ ∃ x ∈ X, ∃ d ≤ r, Walk g.Joined d x v) := by
  obtain ⟨S, H⟩ := hg.abs
  have hj : g.Joined = S.under.Adj := by funext u v; exact propext H.joined
  have hX' : ∀ x ∈ X, x ∈ S.under.V := fun x hx => by have := hX x hx; rw [H.contains, decide_eq_true_eq] at this; exact this
  rw [hj]
  exact ⟨H.sees.neighbourhood σ hX', H.sees.closedNeighbourhood hX', H.sees.rNeighbourhood τ hX' r⟩

/-- **C82.** `subgraph(X)` of a digraph, into an undirected graph, is the induced subgraph of the underlying graph. -/
theorem C82_subgraph {g : EditDigraph} (hg : EditDigraph.Reachable g) (σ : Shuffle ℕ) (τ : ℕ → Shuffle ℕ) (X : List ℕ)
    (hX : ∀ x ∈ X, g.contains x = true) :
    ∃ h, g.view.toGraph.subgraph σ τ X = .ok h ∧ EditGraph.Reachable h ∧ (∀ u, h.contains u = true ↔ u ∈ X) ∧
      (∀ u v, h.adjacent u v = true ↔ u ∈ X ∧ v ∈ X ∧ g.Joined u v) := by
  obtain ⟨S, H⟩ := hg.abs
  have hj : g.Joined = S.under.Adj := by funext u v; exact propext H.joined
  have hX' : ∀ x ∈ X, x ∈ S.under.V := fun x hx => by have := hX x hx; rw [H.contains, decide_eq_true_eq] at this; exact this
  rw [hj]
  obtain ⟨h, h1, h2⟩ := H.sees.subgraph σ τ hX'
  exact ⟨h, h1, h2.reachable, h2.contains, h2.adjacent⟩

/-- **C82.** `components()` of a digraph are the weakly connected components. -/
theorem C82_components {g : EditDigraph} (hg : EditDigraph.Reachable g) (σ : Shuffle (List ℕ)) :
    ∃ cs, g.view.toGraph.components σ = .ok cs ∧ (∀ c ∈ cs, ∃ u, u ∈ c) ∧ cs.Pairwise (fun c d => ∀ a, a ∈ c → ¬ a ∈ d) ∧
      (∀ v, g.contains v = true ↔ ∃ c ∈ cs, v ∈ c) ∧ (∀ c ∈ cs, ∀ u, u ∈ c → ∀ v, v ∈ c ↔ Conn g.Joined u v) := by
  obtain ⟨S, H⟩ := hg.abs
  have hj : g.Joined = S.under.Adj := by funext u v; exact propext H.joined
  have hc : ∀ v, g.contains v = true ↔ v ∈ S.under.V := fun v => by rw [H.contains, decide_eq_true_eq]; exact Iff.rfl
  rw [hj]
  obtain ⟨cs, h1, h2, h3, h4, h5⟩ := H.sees.components σ
  refine ⟨cs, h1, fun c hc => ?_, h3, fun v => (hc v).trans (h4 v), h5⟩
  obtain ⟨a, l, ha⟩ := List.exists_cons_of_ne_nil (h2 c hc)
  exact ⟨a, by rw [← HSet.mem_toList, ha]; simp⟩

/-- `C82_components` for a digraph with a loop. -/
example := fun σ => C82_components exDReachable.choose_spec.1 σ

/-- **C82.** `is_bipartite()` of a digraph always ends with an answer about the underlying graph: a partition of the vertices
into two sides with no arc inside a side, or an odd closed walk, which runs around an odd cycle and then along a path and
back. -/
theorem C82_bipartite {g : EditDigraph} (hg : EditDigraph.Reachable g) (σ : ℕ → Shuffle ℕ)
    (τ : Shuffle (ℕ × (Bool × ℕ))) :
    (∃ L R, g.view.toGraph.isBipartite σ τ = .ok (.bipartition L R) ∧ (∀ v, g.contains v = true ↔ v ∈ L ∨ v ∈ R) ∧
      (∀ v, ¬ (v ∈ L ∧ v ∈ R)) ∧ ∀ u v, g.hasArc u v = true → (u ∈ L ∧ v ∈ R ∨ u ∈ R ∧ v ∈ L)) ∨
    (∃ c, g.view.toGraph.isBipartite σ τ = .ok (.oddCycle c) ∧ c.length % 2 = 1 ∧ c.IsChain g.Joined ∧
      (∃ x y, c.head? = some x ∧ c.getLast? = some y ∧ g.Joined y x) ∧
      ∃ (S : SGraph) (v : ℕ) (a t : List ℕ), (∀ u w, S.Adj u w ↔ g.Joined u w) ∧ S.Lasso c v a t) := by
  obtain ⟨S, H⟩ := hg.abs
  have hj : g.Joined = S.under.Adj := by funext u v; exact propext H.joined
  have hc : ∀ v, g.contains v = true ↔ v ∈ S.under.V := fun v => by rw [H.contains, decide_eq_true_eq]; exact Iff.rfl
  rw [hj]
  rcases H.sees.isBipartite σ τ with ⟨L, R, h, h1, h2, h3⟩ | ⟨c, v, a, t, h, hl⟩
  · refine Or.inl ⟨L, R, h, fun v => (hc v).trans (h1 v), h2, fun u v huv => ?_⟩
    have ha : S.under.Adj u v := H.joined.1 (Or.inl huv)
    rcases (h1 u).1 ha.left with hu | hu
    · exact Or.inl ⟨hu, (h3 u v ha).1 hu⟩
    · refine Or.inr ⟨hu, ?_⟩
      rcases (h1 v).1 ha.right with hv | hv
      · exact hv
      · exact absurd ⟨(h3 u v ha).2 hv, hu⟩ (h2 u)
  · obtain ⟨⟨h3, h4, h5⟩, h2⟩ := Bip.lasso_closedWalk hl
    refine Or.inr ⟨c, h, h2, h4, ⟨c.head h3, c.getLast h3, List.head?_eq_some_head h3, List.getLast?_eq_some_getLast h3, ?_⟩,
      S.under, v, a, t, fun _ _ => Iff.rfl, hl⟩
    exact h5 _ (List.head?_eq_some_head h3) _ (List.getLast?_eq_some_getLast h3)

example : ∃ g, EditDigraph.Reachable g ∧ (∀ x ∈ [2, 7, 2], g.contains x = true) ∧ g.Joined 1 2 ∧ g.Joined 2 1 ∧
    g.hasArc 2 1 = false := by
  obtain ⟨⟨g, rs⟩, hr, H, -⟩ := EditDigraph.Abs.run (lay := revDLay) revDLay_relayout exDCalls 0 EditDigraph.abs_new
  refine ⟨g, H.reachable, ?_, ?_, ?_, ?_⟩
  · intro x hx; rw [H.contains]; revert x; decide
  · left; rw [H.hasArc]; decide
  · right; rw [H.hasArc]; decide
  · rw [H.hasArc]; decide

/-! ## C83 -/

/-- **C83**, full statement: `edges()` of a digraph yields every pair joined by an arc exactly once. -/
def C83_statement : Prop := ∀ g, EditDigraph.Reachable g →
  ∃ it l, EdgeIter.new g.view.toGraph = .ok it ∧ Drains (EdgeIter.next g.view.toGraph) it l ∧ l.Nodup ∧
    ∀ a b, (a, b) ∈ l ↔ a ≤ b ∧ g.Joined a b

theorem count_edgesAt {l : List ℕ} {v a b : ℕ} :
    (edgesAt v l).count (a, b) = if a = v ∧ a ≤ b then l.count b else 0 := by
  unfold edgesAt
  induction l with
  | nil => simp
  | cons x l ih =>
    rw [List.filter_cons]
    by_cases hx : v ≤ x
    · simp only [hx, decide_true, if_true, List.map_cons, List.count_cons, ih]
      by_cases hav : a = v
      · subst hav
        by_cases hxb : x = b
        · subst hxb; simp [hx]
        · simp [hxb]
      · have : ((v, x) == (a, b)) = false := by simp [Ne.symm hav]
        simp [hav, this]
    · simp only [hx, decide_false, Bool.false_eq_true, if_false, ih, List.count_cons]
      by_cases hav : a = v ∧ a ≤ b
      · have : (x == b) = false := by
          rw [beq_eq_false_iff_ne]; rintro rfl; exact hx (hav.1 ▸ hav.2)
        simp [hav, this]
      · simp [hav]

theorem count_edgesOf {N : ℕ → List ℕ} {a b : ℕ} : ∀ {vs : List ℕ}, vs.Nodup →
    (edgesOf N vs).count (a, b) = if a ∈ vs ∧ a ≤ b then (N a).count b else 0
  | [], _ => by simp [edgesOf]
  | v :: vs, h => by
    have ih := count_edgesOf (N := N) (a := a) (b := b) (List.nodup_cons.1 h).2
    have hv := (List.nodup_cons.1 h).1
    have : edgesOf N (v :: vs) = edgesAt v (N v) ++ edgesOf N vs := rfl
    rw [this, List.count_append, ih, count_edgesAt]
    by_cases hav : a = v
    · subst hav; simp [hv]
    · simp [hav]

/-- **C83**, what the code does: `edges()` yields a pair `a ≤ b` once for every arc between `a` and `b` (in either direction),
and a loop twice. -/
theorem C83_count {g : EditDigraph} (hg : EditDigraph.Reachable g) :
    ∃ it l, EdgeIter.new g.view.toGraph = .ok it ∧ Drains (EdgeIter.next g.view.toGraph) it l ∧
      ∀ a b, l.count (a, b) = if a ≤ b then (g.hasArc b a).toNat + (g.hasArc a b).toNat else 0 := by
  classical
  obtain ⟨S, H⟩ := hg.abs
  have hm : ∀ w, w ∈ g.view.toGraph.vertices ↔ w ∈ S.V := H.mem_vertices
  obtain ⟨N, hN⟩ := exists_lists (vs := g.view.toGraph.vertices) (f := g.view.toGraph.neighbours)
    (P := fun u l => ∀ w, l.count w = (g.hasArc w u).toNat + (g.hasArc u w).toNat) fun u hu => by
      obtain ⟨l₁, l₂, h1, h2, h3⟩ := H.neighbours ((hm u).1 hu)
      obtain ⟨k₁, e1, n1, m1⟩ := H.inNeighbours ((hm u).1 hu)
      obtain ⟨k₂, e2, n2, m2⟩ := H.outNeighbours ((hm u).1 hu)
      rw [h1] at e1; cases e1
      rw [h2] at e2; cases e2
      refine ⟨_, h3, fun w => ?_⟩
      rw [List.count_append, n1.count, n2.count, H.hasArc, H.hasArc]
      simp only [m1, m2]
      by_cases c1 : (w, u) ∈ S.A <;> by_cases c2 : (u, w) ∈ S.A <;> simp [c1, c2]
  obtain ⟨-, it, h1, h2⟩ := edges_drains (G := g.view.toGraph) (N := N) fun w hw => (hN w hw).1
  refine ⟨it, _, h1, h2, fun a b => ?_⟩
  rw [count_edgesOf (show g.view.toGraph.vertices.Nodup from H.vertices_nodup)]
  by_cases ha : a ∈ g.view.toGraph.vertices
  · simp only [ha, true_and, (hN a ha).2]
  · have h3 : g.hasArc b a = false := by
      rw [H.hasArc, decide_eq_false_iff_not]; exact fun h => ha ((hm a).2 (S.wf _ h).2)
    have h4 : g.hasArc a b = false := by
      rw [H.hasArc, decide_eq_false_iff_not]; exact fun h => ha ((hm a).2 (S.wf _ h).1)
    simp [ha, h3, h4]

/-- `C83_count` for a digraph with a loop. -/
example := C83_count exDReachable.choose_spec.1

/-- **C83**: proved for digraphs without loops and without anti-parallel arcs.  Missing: otherwise pairs are repeated. -/
theorem C83_edges_partial {g : EditDigraph} (hg : EditDigraph.Reachable g)
    (ho : ∀ u v, g.hasArc u v = true → g.hasArc v u = false) :
    ∃ it l, EdgeIter.new g.view.toGraph = .ok it ∧ Drains (EdgeIter.next g.view.toGraph) it l ∧ l.Nodup ∧
      (∀ a b, (a, b) ∈ l ↔ a ≤ b ∧ g.Joined a b) ∧ l.length = g.numEdges := by
  obtain ⟨it, l, h1, h2, h3⟩ := C83_count hg
  have hm : ∀ a b, (a, b) ∈ l ↔ a ≤ b ∧ g.Joined a b := by
    intro a b
    rw [← List.count_pos_iff, h3]
    unfold EditDigraph.Joined
    by_cases hab : a ≤ b
    · rw [if_pos hab]
      cases g.hasArc b a <;> cases g.hasArc a b <;> simp [hab]
    · rw [if_neg hab]; simp [hab]
  have hn : l.Nodup := by
    rw [List.nodup_iff_count_le_one]
    rintro ⟨a, b⟩
    rw [h3]
    by_cases hab : a ≤ b
    · rw [if_pos hab]
      have := ho a b
      cases h : g.hasArc b a <;> cases h' : g.hasArc a b <;> simp_all
    · rw [if_neg hab]; exact Nat.zero_le _
  refine ⟨it, l, h1, h2, hn, hm, ?_⟩
  obtain ⟨S, H⟩ := hg.abs
  rw [H.numEdges, ← List.toFinset_card_of_nodup hn]
  have ho' : ∀ u v, (u, v) ∈ S.A → (v, u) ∉ S.A := by
    intro u v h
    have := ho u v (by rw [H.hasArc]; exact decide_eq_true h)
    rw [H.hasArc, decide_eq_false_iff_not] at this
    exact this
  have hm' : ∀ a b, (a, b) ∈ l ↔ a ≤ b ∧ ((a, b) ∈ S.A ∨ (b, a) ∈ S.A) := fun a b => by
    rw [hm, H.joined, DGraph.under_adj]
  symm
  refine Finset.card_bij (fun e _ => if e.1 ≤ e.2 then e else (e.2, e.1)) ?_ ?_ ?_
  · rintro ⟨a, b⟩ he
    rw [List.mem_toFinset]
    by_cases hab : a ≤ b
    · simp only [hab, if_true]; exact (hm' a b).2 ⟨hab, Or.inl he⟩
    · simp only [hab, if_false]; exact (hm' b a).2 ⟨by omega, Or.inr he⟩
  · rintro ⟨a, b⟩ he ⟨a', b'⟩ he' heq
    by_cases hab : a ≤ b <;> by_cases hab' : a' ≤ b' <;> simp only [hab, hab', if_true, if_false, Prod.mk.injEq] at heq
    · rw [heq.1, heq.2]
    · obtain ⟨rfl, rfl⟩ := heq; exact absurd he' (ho' _ _ he)
    · obtain ⟨rfl, rfl⟩ := heq; exact absurd he' (ho' _ _ he)
    · rw [heq.1, heq.2]
  · rintro ⟨a, b⟩ he
    rw [List.mem_toFinset] at he
    obtain ⟨hab, h | h⟩ := (hm' a b).1 he
    · exact ⟨(a, b), h, by simp [hab]⟩
    · refine ⟨(b, a), h, ?_⟩
      have : ¬ b ≤ a := by
        intro hba
        have := le_antisymm hab hba
        subst this
        exact ho' _ _ h h
      simp [this]

/-- **C83** is false of the code: with the arcs `0 → 1` and `1 → 0`, `edges()` yields the pair `(0, 1)` twice. -/
theorem C83_refuted : ¬ C83_statement := by
  intro h
  obtain ⟨⟨g₁, b₁⟩, hg₁, H₁, -⟩ := EditDigraph.abs_new.addArc 0 1
  obtain ⟨⟨g, b⟩, hg, H, -⟩ := H₁.addArc 1 0
  obtain ⟨it, l, h1, h2, h3, -⟩ := h g H.reachable
  obtain ⟨it', l', h1', h2', h3'⟩ := C83_count H.reachable
  rw [h1] at h1'; cases h1'
  obtain rfl := h2.unique h2'
  have := List.nodup_iff_count_le_one.1 h3 (0, 1)
  rw [h3', H.hasArc, H.hasArc] at this
  revert this
  decide

example : ∃ g, EditDigraph.Reachable g ∧ g.hasArc 2 2 = true ∧ g.hasArc 3 2 = true := by
  obtain ⟨g, h1, -, -, -, h2, h3, -⟩ := exDReachable; exact ⟨g, h1, h2, h3⟩

example : ∃ g, EditDigraph.Reachable g ∧ (∀ u v, g.hasArc u v = true → g.hasArc v u = false) ∧ g.hasArc 1 0 = true := by
  obtain ⟨g, -, h1, -, h3⟩ := exDown
  refine ⟨g, h1, fun u v h => ?_, (h3 1 0).2 ⟨rfl, rfl⟩⟩
  have := (h3 u v).1 h
  rw [Bool.eq_false_iff, ne_eq, h3]
  omega

end Verif
