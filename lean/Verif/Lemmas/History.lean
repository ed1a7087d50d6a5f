import Verif.Lemmas.Iter
import Verif.Model.History
/-! # Refinement of bulk operations and histories -/
namespace Verif

namespace SGraph
variable {S : SGraph}

theorem addVertices_nil : S.addVertices [] = S := ext (by simp [addVertices]) rfl

theorem addVertices_snoc {l : List ℕ} {u : ℕ} :
    S.addVertices (l ++ [u]) = (S.addVertices l).addVertex u := by
  refine ext ?_ rfl
  ext x
  simp only [addVertices, addVertex, List.toFinset_append, Finset.mem_union, List.mem_toFinset,
    List.mem_singleton, Finset.mem_insert]
  tauto

theorem addEdges_nil : S.addEdges [] = S := ext (by simp [addEdges, endpoints]) (by simp [addEdges, edgeSet])

theorem mem_endpoints {l : List (ℕ × ℕ)} {u : ℕ} : u ∈ endpoints l ↔ ∃ e ∈ l, u = e.1 ∨ u = e.2 := by
  simp only [endpoints, Finset.mem_union, List.mem_toFinset, List.mem_map]
  constructor
  · rintro (⟨e, he, rfl⟩ | ⟨e, he, rfl⟩)
    · exact ⟨e, he, Or.inl rfl⟩
    · exact ⟨e, he, Or.inr rfl⟩
  · rintro ⟨e, he, rfl | rfl⟩
    · exact Or.inl ⟨e, he, rfl⟩
    · exact Or.inr ⟨e, he, rfl⟩

theorem addEdges_snoc {l : List (ℕ × ℕ)} {e : ℕ × ℕ} :
    S.addEdges (l ++ [e]) = (S.addEdges l).addEdge e.1 e.2 := by
  refine ext ?_ ?_
  · ext x
    simp only [addEdges, addEdge_V, Finset.mem_union, mem_endpoints, Finset.mem_insert, List.mem_append,
      List.mem_singleton]
    constructor
    · rintro (h | ⟨e', (he | rfl), h⟩)
      · tauto
      · exact Or.inr (Or.inr (Or.inr ⟨e', he, h⟩))
      · tauto
    · rintro (rfl | rfl | h | ⟨e', he, h⟩)
      · exact Or.inr ⟨e, Or.inr rfl, Or.inl rfl⟩
      · exact Or.inr ⟨e, Or.inr rfl, Or.inr rfl⟩
      · exact Or.inl h
      · exact Or.inr ⟨e', Or.inl he, h⟩
  · ext x
    simp only [addEdges, addEdge_E, edgeSet, List.map_append, List.map_cons, List.map_nil,
      List.toFinset_append, Finset.mem_union, List.mem_toFinset, List.mem_singleton, Finset.mem_insert]
    tauto

theorem addEdges_adj {l : List (ℕ × ℕ)} {a b : ℕ} :
    (S.addEdges l).Adj a b ↔ S.Adj a b ∨ (a, b) ∈ l ∨ (b, a) ∈ l := by
  unfold Adj
  simp only [addEdges, edgeSet, Finset.mem_union, List.mem_toFinset, List.mem_map]
  constructor
  · rintro (h | ⟨⟨c, d⟩, he, h⟩)
    · exact Or.inl h
    · rw [Sym2.eq_iff] at h
      rcases h with ⟨rfl, rfl⟩ | ⟨rfl, rfl⟩
      · exact Or.inr (Or.inl he)
      · exact Or.inr (Or.inr he)
  · rintro (h | h | h)
    · exact Or.inl h
    · exact Or.inr ⟨(a, b), h, rfl⟩
    · exact Or.inr ⟨(b, a), h, Sym2.eq_swap⟩

theorem addVertices_adj {l : List ℕ} {a b : ℕ} : (S.addVertices l).Adj a b ↔ S.Adj a b := Iff.rfl

end SGraph

namespace EditGraph
variable {g h : EditGraph} {S T : SGraph}

theorem Abs.addVertices (H : Abs g S) (l : List Vertex) :
    Abs (g.addVertices l).1 (S.addVertices l) ∧ (g.addVertices l).2 = (l.toFinset \ S.V).card := by
  unfold EditGraph.addVertices
  refine foldl_inv (fun pre (s : EditGraph × Nat) =>
    Abs s.1 (S.addVertices pre) ∧ s.2 = (pre.toFinset \ S.V).card) ?_ ?_
  · exact ⟨by rw [SGraph.addVertices_nil]; exact H, by simp⟩
  · rintro pre u post ⟨g', n⟩ _ ⟨h1, h2⟩
    obtain ⟨h3, h4⟩ := h1.addVertex u
    refine ⟨by rw [SGraph.addVertices_snoc]; exact h3, ?_⟩
    simp only at h2 h4 ⊢
    rw [h4]
    have hV : u ∈ (S.addVertices pre).V ↔ u ∈ S.V ∨ u ∈ pre := by simp [SGraph.addVertices]
    have hset : (pre ++ [u]).toFinset = insert u pre.toFinset := by
      ext x; simp
    rw [hset]
    by_cases hu : u ∈ S.V
    · rw [Finset.insert_sdiff_of_mem _ hu]; simp [hV, hu, h2]
    · rw [Finset.insert_sdiff_of_notMem _ hu]
      by_cases hp : u ∈ pre
      · have : u ∈ pre.toFinset \ S.V := by simp [hp, hu]
        rw [Finset.insert_eq_of_mem this]; simp [hV, hp, h2]
      · have : u ∉ pre.toFinset \ S.V := by simp [hp]
        rw [Finset.card_insert_of_notMem this]; simp [hV, hp, hu, h2]

theorem Abs.addEdges (H : Abs g S) (l : List Edge) :
    Ok (g.addEdges l) (fun r => Abs r.1 (S.addEdges l) ∧ r.2 = (SGraph.edgeSet l \ S.E).card) := by
  unfold EditGraph.addEdges
  refine Ok.foldlM (fun pre (s : EditGraph × Nat) =>
    Abs s.1 (S.addEdges pre) ∧ s.2 = (SGraph.edgeSet pre \ S.E).card) ?_ ?_
  · exact ⟨by rw [SGraph.addEdges_nil]; exact H, by simp [SGraph.edgeSet]⟩
  · rintro pre e post ⟨g', n⟩ _ ⟨h1, h2⟩
    refine Ok.bind (h1.addEdge e.1 e.2) ?_
    rintro ⟨g'', b⟩ ⟨h3, h4⟩
    refine Ok.pure ⟨by rw [SGraph.addEdges_snoc]; exact h3, ?_⟩
    simp only at h2 h4 ⊢
    rw [h4]
    have hset : SGraph.edgeSet (pre ++ [e]) = insert s(e.1, e.2) (SGraph.edgeSet pre) := by
      ext x; simp [SGraph.edgeSet]
    have hE : (S.addEdges pre).Adj e.1 e.2 ↔ s(e.1, e.2) ∈ S.E ∨ s(e.1, e.2) ∈ SGraph.edgeSet pre :=
      Finset.mem_union
    rw [hset]
    by_cases hu : s(e.1, e.2) ∈ S.E
    · rw [Finset.insert_sdiff_of_mem _ hu]; simp [hE, hu, h2]
    · rw [Finset.insert_sdiff_of_notMem _ hu]
      by_cases hp : s(e.1, e.2) ∈ SGraph.edgeSet pre
      · have : s(e.1, e.2) ∈ SGraph.edgeSet pre \ S.E := by simp [hp, hu]
        rw [Finset.insert_eq_of_mem this]; simp [hE, hp, h2]
      · have : s(e.1, e.2) ∉ SGraph.edgeSet pre \ S.E := by simp [hp]
        rw [Finset.card_insert_of_notMem this]; simp [hE, hp, hu, h2]

theorem Abs.addAll (H : Abs g S) (l : List Edge) : Ok (g.addAll l) (fun h => Abs h (S.addEdges l)) := by
  unfold EditGraph.addAll
  refine Ok.foldlM (fun pre (s : EditGraph) => Abs s (S.addEdges pre)) ?_ ?_
  · rw [SGraph.addEdges_nil]; exact H
  · intro pre e post g' _ h1
    refine Ok.bind (h1.addEdge e.1 e.2) ?_
    rintro ⟨g'', b⟩ ⟨h3, -⟩
    exact Ok.pure (by rw [SGraph.addEdges_snoc]; exact h3)

theorem Abs.removeLoops (H : Abs g S) :
    Ok g.removeLoops (fun r => Abs r.1 S.removeLoops ∧ r.2 = (S.E.filter (fun e => e.IsDiag)).card) := by
  unfold EditGraph.removeLoops
  simp only
  set cands := g.vertices.filter (fun u => g.adjacent u u) with hc
  have hcm : ∀ u, u ∈ cands ↔ S.Adj u u := by
    intro u
    rw [hc, List.mem_filter, H.mem_vertices, H.adjacent]
    simp only [decide_eq_true_eq]
    exact ⟨And.right, fun h => ⟨h.left, h⟩⟩
  have hcn : cands.Nodup := H.vertices_nodup.filter _
  refine Ok.bind (Ok.foldlM (fun pre (g' : EditGraph) => ∃ T, Abs g' T ∧ T.V = S.V ∧
      T.E = S.E.filter (fun e => ∀ u ∈ pre, e ≠ s(u, u))) ?_ ?_) ?_
  · exact ⟨S, H, rfl, by simp⟩
  · rintro pre u post g' _ ⟨T, hT, hV, hE⟩
    refine Ok.bind (hT.removeEdge u u) ?_
    rintro ⟨g'', b⟩ ⟨h3, -⟩
    refine Ok.pure ⟨_, h3, hV, ?_⟩
    rw [SGraph.removeEdge_E, hE]
    ext e
    simp only [Finset.mem_erase, Finset.mem_filter, List.mem_append, List.mem_singleton]
    constructor
    · rintro ⟨h1, h2, h3⟩
      refine ⟨h2, ?_⟩
      rintro w (hw | rfl)
      · exact h3 w hw
      · exact h1
    · rintro ⟨h2, h3⟩
      exact ⟨h3 u (Or.inr rfl), h2, fun w hw => h3 w (Or.inl hw)⟩
  · rintro g' ⟨T, hT, hV, hE⟩
    refine Ok.pure ⟨?_, ?_⟩
    · have : T = S.removeLoops := by
        refine SGraph.ext hV ?_
        rw [hE]
        apply Finset.filter_congr
        intro e he
        induction e using Sym2.ind with
        | _ a b =>
          simp only [Sym2.mk_isDiag_iff]
          constructor
          · intro h hab
            subst hab
            exact h a ((hcm a).2 he) rfl
          · intro h u _ hc
            rw [Sym2.eq_iff] at hc
            rcases hc with hc | hc <;> exact h (hc.1.trans hc.2.symm)
      rw [← this]; exact hT
    · show cands.length = _
      rw [← List.toFinset_card_of_nodup hcn]
      apply Finset.card_bij (fun u _ => s(u, u))
      · intro u hu
        rw [List.mem_toFinset, hcm] at hu
        rw [Finset.mem_filter]; exact ⟨hu, rfl⟩
      · intro a _ b _ hab
        rw [Sym2.eq_iff] at hab
        rcases hab with h | h <;> exact h.1
      · intro e he
        rw [Finset.mem_filter] at he
        induction e using Sym2.ind with
        | _ a b =>
          have hab : a = b := he.2
          subst hab
          exact ⟨a, by rw [List.mem_toFinset, hcm]; exact he.1, rfl⟩

theorem mem_isolated {u : ℕ} : u ∈ S.isolated ↔ u ∈ S.V ∧ S.deg u = 0 := by
  unfold SGraph.isolated
  rw [Finset.mem_filter, SGraph.deg_eq_zero]
  constructor
  · rintro ⟨h1, h2⟩; exact ⟨h1, fun v hv => h2 _ hv (Sym2.mem_mk_left u v)⟩
  · rintro ⟨h1, h2⟩
    refine ⟨h1, fun e he hu => ?_⟩
    refine h2 (Sym2.Mem.other hu) ?_
    unfold SGraph.Adj; rw [Sym2.other_spec hu]; exact he

theorem Abs.removeIsolates (H : Abs g S) :
    Ok g.removeIsolates (fun r => Abs r.1 S.removeIsolates ∧ r.2 = S.isolated.card) := by
  unfold EditGraph.removeIsolates
  simp only
  set cands := g.vertices.filter (fun u => g.degree u == 0) with hc
  have hcm : ∀ u, u ∈ cands ↔ u ∈ S.isolated := by
    intro u
    rw [hc, List.mem_filter, H.mem_vertices, H.degree, mem_isolated]
    simp
  have hcn : cands.Nodup := H.vertices_nodup.filter _
  refine Ok.bind (Ok.foldlM (fun pre (g' : EditGraph) => ∃ T, Abs g' T ∧ T.V = S.V \ pre.toFinset ∧
      T.E = S.E) ?_ ?_) ?_
  · exact ⟨S, H, by simp, rfl⟩
  · rintro pre u post g' hl ⟨T, hT, hV, hE⟩
    refine Ok.bind (hT.removeVertex u) ?_
    rintro ⟨g'', b⟩ ⟨h3, -⟩
    have hu : u ∈ S.isolated := (hcm u).1 (by rw [hl]; simp)
    refine Ok.pure ⟨_, h3, ?_, ?_⟩
    · rw [SGraph.removeVertex_V, hV]
      ext x; simp only [Finset.mem_erase, Finset.mem_sdiff, List.mem_toFinset, List.mem_append,
        List.mem_singleton]; tauto
    · rw [SGraph.removeVertex_E, hE]
      apply Finset.filter_true_of_mem
      intro e he
      unfold SGraph.isolated at hu
      exact (Finset.mem_filter.1 hu).2 e he
  · rintro g' ⟨T, hT, hV, hE⟩
    have hcs : cands.toFinset = S.isolated := by ext u; rw [List.mem_toFinset, hcm]
    refine Ok.pure ⟨?_, ?_⟩
    · have : T = S.removeIsolates := by
        refine SGraph.ext ?_ hE
        rw [hV, hcs]; rfl
      rw [← this]; exact hT
    · show cands.length = _
      rw [← List.toFinset_card_of_nodup hcn, hcs]

theorem Abs.call (H : Abs g S) (c : Call) :
    Ok (g.call c) (fun r => Abs r.1 (S.step c) ∧ r.2 = S.ret c) := by
  cases c with
  | addVertex u => exact Ok.pure ⟨(H.addVertex u).1, by simp only [(H.addVertex u).2]; rfl⟩
  | removeVertex u =>
    exact Ok.bind (H.removeVertex u) fun r hr => Ok.pure ⟨hr.1, by simp only [hr.2]; rfl⟩
  | addEdge u v => exact Ok.bind (H.addEdge u v) fun r hr => Ok.pure ⟨hr.1, by simp only [hr.2]; rfl⟩
  | removeEdge u v =>
    exact Ok.bind (H.removeEdge u v) fun r hr => Ok.pure ⟨hr.1, by simp only [hr.2]; rfl⟩
  | addVertices l => exact Ok.pure ⟨(H.addVertices l).1, by simp only [(H.addVertices l).2]; rfl⟩
  | addEdges l => exact Ok.bind (H.addEdges l) fun r hr => Ok.pure ⟨hr.1, by simp only [hr.2]; rfl⟩
  | removeLoops => exact Ok.bind H.removeLoops fun r hr => Ok.pure ⟨hr.1, by simp only [hr.2]; rfl⟩
  | removeIsolates => exact Ok.bind H.removeIsolates fun r hr => Ok.pure ⟨hr.1, by simp only [hr.2]; rfl⟩

theorem _root_.Verif.HMap.get?_perm {κ α : Type} [DecidableEq κ] {m m' : HMap κ α}
    (h : m'.entries.Perm m.entries) (k : κ) : m'.get? k = m.get? k := by
  apply Option.ext
  intro a
  rw [HMap.get?_eq_some, HMap.get?_eq_some, h.mem_iff]

theorem Abs.relayout (H : Abs g S) (hl : Relayout g h) : Abs h S where
  adjNone u hu := by
    have h1 := H.adjNone u hu
    rw [HMap.get?_eq_none] at h1 ⊢
    intro hc
    exact h1 (hl.keys.mem_iff.1 hc)
  adjSome u hu := by
    obtain ⟨N, hN, hm⟩ := H.adjSome u hu
    obtain ⟨N', hN', hp⟩ := hl.sets u N hN
    exact ⟨N', hN', fun w => by rw [HSet.mem_def, hp.mem_iff]; exact hm w⟩
  degs u := by rw [HMap.get?_perm hl.degs, H.degs]
  m := by rw [hl.m, H.m]

theorem Abs.run {lay : Nat → EditGraph → EditGraph} (hlay : ∀ i g, Relayout g (lay i g))
    (cs : List Call) : ∀ (i : Nat) {g : EditGraph} {S : SGraph}, Abs g S →
      Ok (EditGraph.run lay i cs g) (fun r => Abs r.1 (S.run cs) ∧ r.2 = S.rets cs) := by
  induction cs with
  | nil => intro i g S H; exact Ok.pure ⟨H.relayout (hlay i g), rfl⟩
  | cons c cs ih =>
    intro i g S H
    unfold EditGraph.run
    refine Ok.bind ((H.relayout (hlay i g)).call c) fun r hr => ?_
    refine Ok.bind (ih (i + 1) hr.1) fun r' hr' => ?_
    refine Ok.pure ⟨hr'.1, ?_⟩
    simp only [hr.2, hr'.2]
    rfl

theorem Reachable.abs (h : Reachable g) : ∃ S, Abs g S := by
  induction h with
  | new => exact ⟨_, abs_new⟩
  | call _ hc ih =>
    obtain ⟨S, H⟩ := ih
    obtain ⟨r, hr, H', -⟩ := H.call _
    rw [hc] at hr
    cases hr
    exact ⟨_, H'⟩
  | relayout _ hl ih =>
    obtain ⟨S, H⟩ := ih
    exact ⟨S, H.relayout hl⟩

theorem Abs.relayout_of (H : Abs g S) (H' : Abs h S) : Relayout g h where
  m := by rw [H.m, H'.m]
  degs := by
    have key : ∀ {κ α : Type} [DecidableEq κ] (m m' : HMap κ α), (∀ k, m.get? k = m'.get? k) →
        m.entries.Perm m'.entries := by
      intro κ α _ m m' hm
      rw [List.perm_ext_iff_of_nodup m.nodup.of_map m'.nodup.of_map]
      rintro ⟨k, a⟩
      rw [← HMap.get?_eq_some, ← HMap.get?_eq_some, hm]
    exact key _ _ fun k => by rw [H.degs, H'.degs]
  keys := by
    rw [List.perm_ext_iff_of_nodup HMap.keys_nodup HMap.keys_nodup]
    intro u; rw [H.mem_keys, H'.mem_keys]
  sets u N hN := by
    have hu : u ∈ S.V := by
      by_contra hc
      rw [H.adjNone u hc] at hN; cases hN
    obtain ⟨N₁, h1, h2⟩ := H.adjSome u hu
    obtain ⟨N₂, h3, h4⟩ := H'.adjSome u hu
    rw [hN] at h1
    cases h1
    exact ⟨N₂, h3, HSet.perm_of_mem_iff fun a => by rw [h4, h2]⟩

/-- The representation invariant characterises exactly the reachable states. -/
theorem Abs.reachable (H : Abs g S) : Reachable g := by
  let c1 : Call := .addVertices S.V.toList
  let c2 : Call := .addEdges (S.E.toList.map (fun e => (e.out.1, e.out.2)))
  obtain ⟨⟨g1, r1⟩, e1, H1, -⟩ := abs_new.call c1
  obtain ⟨⟨g2, r2⟩, e2, H2, -⟩ := H1.call c2
  have hS : (SGraph.empty.step c1).step c2 = S := by
    refine SGraph.ext ?_ ?_
    · show ((∅ ∪ S.V.toList.toFinset) ∪ SGraph.endpoints _) = S.V
      ext x
      simp only [Finset.mem_union, List.mem_toFinset, Finset.mem_toList, SGraph.mem_endpoints,
        List.mem_map, Finset.notMem_empty, false_or]
      constructor
      · rintro (h | ⟨_, ⟨e, he, rfl⟩, h⟩)
        · exact h
        · have hmem : x ∈ e := by
            rw [← Quot.out_eq e]
            exact Sym2.mem_iff.2 h
          exact S.wf e he x hmem
      · exact Or.inl
    · show (∅ ∪ SGraph.edgeSet _) = S.E
      ext e
      simp only [SGraph.edgeSet, List.map_map, Finset.mem_union, Finset.notMem_empty, false_or,
        List.mem_toFinset, List.mem_map, Finset.mem_toList, Function.comp]
      constructor
      · rintro ⟨e', he', rfl⟩
        have : s(e'.out.1, e'.out.2) = e' := Quot.out_eq e'
        rw [this]; exact he'
      · intro he
        exact ⟨e, he, Quot.out_eq e⟩
  have H2' : Abs g2 S := by rw [hS] at H2; exact H2
  exact .relayout (.call (.call .new e1) e2) (H2'.relayout_of H)

theorem reachable_iff : Reachable g ↔ ∃ S, Abs g S := ⟨Reachable.abs, fun ⟨_, H⟩ => H.reachable⟩

/-- Equality test. -/
theorem Abs.eq_iff (H : Abs g S) (H' : Abs h T) : g.eq h = true ↔ S = T := by
  constructor
  · intro he
    unfold EditGraph.eq at he
    split at he
    · cases he
    · split at he
      · cases he
      · split at he
        · cases he
        · rw [HMap.eqv_iff] at he
          refine SGraph.ext_adj ?_ ?_
          · ext u
            have := he u
            by_cases h1 : u ∈ S.V <;> by_cases h2 : u ∈ T.V
            · simp [h1, h2]
            · obtain ⟨N, hN, -⟩ := H.adjSome u h1
              rw [hN, H'.adjNone u h2] at this
              exact this.elim
            · obtain ⟨N, hN, -⟩ := H'.adjSome u h2
              rw [hN, H.adjNone u h1] at this
              exact this.elim
            · simp [h1, h2]
          · intro u v
            have := he u
            by_cases h1 : u ∈ S.V <;> by_cases h2 : u ∈ T.V
            · obtain ⟨N, hN, hm⟩ := H.adjSome u h1
              obtain ⟨N', hN', hm'⟩ := H'.adjSome u h2
              rw [hN, hN'] at this
              simp only at this
              rw [HSet.eqv_iff] at this
              rw [← hm, ← hm', this]
            · obtain ⟨N, hN, -⟩ := H.adjSome u h1
              rw [hN, H'.adjNone u h2] at this
              exact this.elim
            · obtain ⟨N, hN, -⟩ := H'.adjSome u h2
              rw [hN, H.adjNone u h1] at this
              exact this.elim
            · exact ⟨fun hh => absurd hh.left h1, fun hh => absurd hh.left h2⟩
  · rintro rfl
    unfold EditGraph.eq
    have h3 : g.degs.eqv (· == ·) h.degs = true := by
      rw [HMap.eqv_iff]
      intro k
      rw [H.degs, H'.degs]
      by_cases hk : k ∈ S.V <;> simp [hk]
    have h4 : g.adj.eqv HSet.eqv h.adj = true := by
      rw [HMap.eqv_iff]
      intro k
      by_cases hk : k ∈ S.V
      · obtain ⟨N, hN, hm⟩ := H.adjSome k hk
        obtain ⟨N', hN', hm'⟩ := H'.adjSome k hk
        rw [hN, hN']
        simp only
        rw [HSet.eqv_iff]
        intro a; rw [hm, hm']
      · rw [H.adjNone k hk, H'.adjNone k hk]; trivial
    simp [H.numVertices, H'.numVertices, H.numEdges, H'.numEdges, h3, h4]

end EditGraph
end Verif
