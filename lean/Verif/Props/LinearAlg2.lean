import Verif.Lemmas.DomsetSize
import Verif.Lemmas.Clique
import Verif.Lemmas.Greedy
import Verif.Lemmas.Scatter
import Verif.Props.Reach
/-!
# C54 – C60: cliques, greedy colourings, dominating sets, scattered colourings, small distances
-/
namespace Verif
open SGraph

/-! ## Concrete graphs for the examples and counterexamples -/

/-- The graph with the given edges, built by `add_edges`. -/
def built (es : List (ℕ × ℕ)) : Res EditGraph := do return (← EditGraph.new.addEdges es).1

/-- The same graph as an `OrdGraph`. -/
def builtOrd (es : List (ℕ × ℕ)) (ord : List ℕ) : Res OrdGraph := (built es).bind fun g => OrdGraph.withOrdering g.view ord

theorem builtOrd_lin (es : List (ℕ × ℕ)) (ord : List ℕ) (hl : ∀ u ∈ (SGraph.empty.addEdges es).V,
    ¬ (SGraph.empty.addEdges es).Adj u u) (hnd : ord.Nodup) (hV : ord.toFinset = (SGraph.empty.addEdges es).V) :
    ∃ o, builtOrd es ord = .ok o ∧ o.lin.LRep (SGraph.empty.addEdges es) ord := by
  obtain ⟨⟨g, k⟩, h, A, -⟩ := EditGraph.abs_new.addEdges es
  obtain ⟨o, ho, hR⟩ := C43_with_ordering A.rep (fun u h => hl u h.left h) hnd (fun u => by rw [← hV, List.mem_toFinset])
  refine ⟨o, ?_, (hR o (.refl o)).lin⟩
  unfold builtOrd built
  rw [h]
  exact ho

/-- A triangle with a pendant vertex, the centre coming last. -/
def pan : SGraph := SGraph.empty.addEdges [(0, 1), (3, 0), (3, 1), (3, 2)]

theorem pan_lin : ∃ o, builtOrd [(0, 1), (3, 0), (3, 1), (3, 2)] [0, 1, 2, 3] = .ok o ∧ o.lin.LRep pan [0, 1, 2, 3] :=
  builtOrd_lin _ _ (by decide) (by decide) (by decide)

theorem relayout_refl (g : EditGraph) : EditGraph.Relayout g g :=
  ⟨rfl, .refl _, .refl _, fun _ N h => ⟨N, h, .refl _⟩⟩

theorem lin_isEmpty {L : LinGraph} {S : SGraph} {ord : List ℕ} (H : L.LRep S ord) : L.isEmpty = true ↔ S.V = ∅ := by
  unfold Graph.isEmpty Graph.len
  rw [H.rep.nv]
  simp

/-! ## C54 -/

/-- **C54**, full statement. -/
def C54_statement : Prop := ∀ (L : LinGraph) (S : SGraph) (ord : List ℕ), L.LRep S ord → L.countMaxCliques = .ok S.numMaxCliques

theorem pan_cliques : ((builtOrd [(0, 1), (3, 0), (3, 1), (3, 2)] [0, 1, 2, 3]).bind fun o => o.lin.countMaxCliques) = .ok 4 := by
  decide

/-- The triangle and the pendant edge are the only maximal cliques. -/
theorem pan_numMaxCliques : pan.numMaxCliques ≤ 2 := by
  classical
  unfold numMaxCliques
  have hsub : pan.V.powerset.filter pan.IsMaxClique ⊆ {{2, 3}, {0, 1, 3}} := by
    intro K hK
    obtain ⟨hne, ⟨hV, hc⟩, hmax⟩ := (Finset.mem_filter.1 hK).2
    have hVs : ∀ x ∈ K, x = 0 ∨ x = 1 ∨ x = 2 ∨ x = 3 := fun x hx => by
      have : x ∈ ({0, 1, 2, 3} : Finset ℕ) := by
        have h1 := hV hx
        have h2 : pan.V = {0, 1, 2, 3} := by decide
        rwa [h2] at h1
      simpa using this
    rw [Finset.mem_insert, Finset.mem_singleton]
    by_cases h2 : 2 ∈ K
    · refine Or.inl (hmax {2, 3} ⟨by decide, by decide⟩ fun x hx => ?_).symm
      have h : x ≠ 2 → pan.Adj x 2 := fun hn => hc x hx 2 h2 hn
      rcases hVs x hx with rfl | rfl | rfl | rfl
      · exact absurd (h (by decide)) (by decide)
      · exact absurd (h (by decide)) (by decide)
      · decide
      · decide
    · refine Or.inr (hmax {0, 1, 3} ⟨by decide, by decide⟩ fun x hx => ?_).symm
      rcases hVs x hx with rfl | rfl | rfl | rfl
      · decide
      · decide
      · exact absurd hx h2
      · decide
  exact (Finset.card_le_card hsub).trans Finset.card_le_two

/-- **C54 refuted.** On a triangle with a pendant vertex, the centre being last in the ordering, 4 is returned. -/
theorem C54_refuted : ¬ C54_statement := by
  intro hC
  obtain ⟨o, ho, H⟩ := pan_lin
  have h1 := pan_cliques
  rw [ho] at h1
  have h2 := hC _ _ _ H
  simp only [Except.bind, h2, Except.ok.injEq] at h1
  have := pan_numMaxCliques
  omega

/-- **C54 (partial).** If non-adjacency is transitive within every left neighbourhood, i.e. left neighbourhoods are complete
multipartite, `count_max_cliques` returns the number of maximal cliques.  Missing: all other orderings, for which it is
wrong. -/
theorem C54_count_max_cliques_partial {L : LinGraph} {S : SGraph} {ord : List ℕ} (H : L.LRep S ord)
    (hct : ∀ v a b c, a ∈ S.before ord v → b ∈ S.before ord v → c ∈ S.before ord v →
      ¬ S.Adj a b → ¬ S.Adj b c → ¬ S.Adj a c) : L.countMaxCliques = .ok S.numMaxCliques :=
  Clique.countMaxCliques H hct

/-- Hypotheses of `C54_count_max_cliques_partial` are met by a triangle with a pendant vertex that comes last. -/
example : ∃ (L : LinGraph), L.LRep pan [3, 0, 1, 2] ∧ ∀ v a b c, a ∈ pan.before [3, 0, 1, 2] v →
    b ∈ pan.before [3, 0, 1, 2] v → c ∈ pan.before [3, 0, 1, 2] v → ¬ pan.Adj a b → ¬ pan.Adj b c → ¬ pan.Adj a c := by
  obtain ⟨o, -, H⟩ := builtOrd_lin [(0, 1), (3, 0), (3, 1), (3, 2)] [3, 0, 1, 2] (by decide) (by decide) (by decide)
  refine ⟨o.lin, H, fun v a b c ha hb hc => ?_⟩
  have key : ∀ v ∈ pan.V, ∀ a ∈ pan.before [3, 0, 1, 2] v, ∀ b ∈ pan.before [3, 0, 1, 2] v,
    ∀ c ∈ pan.before [3, 0, 1, 2] v, ¬ pan.Adj a b → ¬ pan.Adj b c → ¬ pan.Adj a c := by decide
  exact key v (mem_before.1 ha).1.left a ha b hb c hc

/-- **C54 (partial, exact).** For every graph and ordering, `count_max_cliques` does not panic and returns the number of sets
consisting of a vertex and one vertex from each layer of its left neighbourhood that are not themselves such a selection from the
left neighbourhood of a vertex.  Missing: these need not be the maximal cliques, nor cliques at all. -/
theorem C54_exact_partial {L : LinGraph} {S : SGraph} {ord : List ℕ} (H : L.LRep S ord) :
    L.countMaxCliques = .ok (S.numPicked ord) := Clique.countMaxCliques_picked H

/-- Hypotheses of `C54_exact_partial` are met by the counterexample, which has 4 such sets. -/
example : ∃ (L : LinGraph), L.LRep pan [0, 1, 2, 3] ∧ pan.numPicked [0, 1, 2, 3] = 4 := by
  obtain ⟨o, ho, H⟩ := pan_lin
  have h1 := pan_cliques
  rw [ho] at h1
  have h2 := C54_exact_partial H
  simp only [Except.bind, h2, Except.ok.injEq] at h1
  exact ⟨o.lin, H, h1⟩

/-! ## C55 -/

/-- **C55**, full statement. -/
def C55_statement : Prop := ∀ (L : LinGraph) (S : SGraph) (ord : List ℕ), L.LRep S ord → S.V.card ≤ 2 ^ 32 →
  ∃ c, L.colourGreedy = .ok c ∧ (∀ u, u ∈ c.keys ↔ u ∈ S.V) ∧ ∀ u v k, S.Adj u v → c.get? u = some k → c.get? v ≠ some k

theorem pan_colours : ((builtOrd [(0, 1), (3, 0), (3, 1), (3, 2)] [0, 1, 2, 3]).bind fun o =>
    o.lin.colourGreedy.map fun c => c.keys.contains 3) = .ok false := by decide

/-- **C55 refuted.** On a triangle with a pendant vertex, the centre, being last in the ordering, gets no colour: its three
left neighbours use both of the two colours present. -/
theorem C55_refuted : ¬ C55_statement := by
  intro hC
  obtain ⟨o, ho, H⟩ := pan_lin
  have h1 := pan_colours
  rw [ho] at h1
  obtain ⟨c, h2, h3, -⟩ := hC _ _ _ H (by decide)
  simp only [Except.bind, h2, Except.map, Except.ok.injEq] at h1
  have h4 : (3 : ℕ) ∈ c.keys := (h3 3).2 (by decide)
  rw [List.contains_iff_mem.2 h4] at h1
  cases h1

/-- The path 0-3-4 together with the star of the previous example: looking up the colour of 3 panics. -/
theorem C55_panics : ((builtOrd [(0, 1), (3, 0), (3, 1), (3, 2), (3, 4)] [0, 1, 2, 3, 4]).bind fun o =>
    o.lin.colourGreedy.map fun c => c.len) = .error .panic := by decide

/-- **C55 (partial).** For every graph and ordering, `colour_greedy` either panics or returns a proper colouring, with
colours below the number of vertices, of the vertices that it colours; colour `k` is used only if, for each `j` up to `k`,
some vertex has exactly `j` left neighbours.  Missing: that it does not panic and colours every
vertex, which is false. -/
theorem C55_colour_greedy_partial {L : LinGraph} {S : SGraph} {ord : List ℕ} (H : L.LRep S ord) (hn : S.V.card ≤ 2 ^ 32) :
    L.colourGreedy = .error .panic ∨ ∃ c, L.colourGreedy = .ok c ∧ (∀ u ∈ c.keys, u ∈ S.V) ∧
      (∀ u v k, S.Adj u v → c.get? u = some k → c.get? v ≠ some k) ∧ (∀ u k, c.get? u = some k → k < S.V.card) ∧
      ∀ u k, c.get? u = some k → ∀ j ≤ k, ∃ v ∈ S.V, (S.before ord v).card = j :=
  (H.colourGreedy_safe hn).elim

/-- Hypotheses of `C55_colour_greedy_partial` are met. -/
example : ∃ (L : LinGraph), L.LRep pan [0, 1, 2, 3] ∧ pan.V.card ≤ 2 ^ 32 := by
  obtain ⟨o, -, H⟩ := pan_lin
  exact ⟨_, H, by decide⟩

/-- **C55 (partial).** If all left neighbourhoods are cliques, `colour_greedy` does not panic, colours exactly the vertices
of the graph properly, and uses a minimum number of colours: whenever colour `k` is used there is a clique of size `k+1`. -/
theorem C55_colour_greedy_chordal_partial {L : LinGraph} {S : SGraph} {ord : List ℕ} (H : L.LRep S ord)
    (hn : S.V.card ≤ 2 ^ 32)
    (hcl : ∀ v a b, S.Adj v a → S.Adj v b → ord.idxOf a < ord.idxOf v → ord.idxOf b < ord.idxOf v → a ≠ b → S.Adj a b) :
    ∃ c, L.colourGreedy = .ok c ∧ (∀ u, u ∈ c.keys ↔ u ∈ S.V) ∧
      (∀ u v k, S.Adj u v → c.get? u = some k → c.get? v ≠ some k) ∧
      ∀ u k, c.get? u = some k → ∃ K, S.IsClique K ∧ K.card = k + 1 := by
  obtain ⟨c, h1, h2, h3, h4⟩ := H.colourGreedy_cliques hn hcl
  refine ⟨c, h1, h2, h3, fun u k hk => ?_⟩
  obtain ⟨v, hv, hc⟩ := h4 u k hk
  have hnot : v ∉ S.before ord v := fun h => H.loopless v (mem_before.1 h).1
  refine ⟨insert v (S.before ord v), ⟨?_, ?_⟩, by rw [Finset.card_insert_of_notMem hnot, hc]⟩
  · intro x hx
    rcases Finset.mem_insert.1 hx with rfl | h
    · exact hv
    · exact (mem_before.1 h).1.right
  · intro a ha b hb hab
    rcases Finset.mem_insert.1 ha with ha' | ha' <;> rcases Finset.mem_insert.1 hb with hb' | hb'
    · exact absurd (ha'.trans hb'.symm) hab
    · rw [ha']; exact (mem_before.1 hb').1
    · rw [hb']; exact (mem_before.1 ha').1.symm
    · exact hcl v a b (mem_before.1 ha').1 (mem_before.1 hb').1 (mem_before.1 ha').2 (mem_before.1 hb').2 hab

/-- Hypotheses of `C55_colour_greedy_chordal_partial` are met by a triangle with a pendant vertex that comes last. -/
example : ∃ (L : LinGraph), L.LRep pan [3, 0, 1, 2] ∧ pan.V.card ≤ 2 ^ 32 ∧ ∀ v a b, pan.Adj v a → pan.Adj v b →
    [3, 0, 1, 2].idxOf a < [3, 0, 1, 2].idxOf v → [3, 0, 1, 2].idxOf b < [3, 0, 1, 2].idxOf v → a ≠ b → pan.Adj a b := by
  obtain ⟨o, -, H⟩ := builtOrd_lin [(0, 1), (3, 0), (3, 1), (3, 2)] [3, 0, 1, 2] (by decide) (by decide) (by decide)
  refine ⟨o.lin, H, by decide, fun v a b ha hb => ?_⟩
  have key : ∀ v ∈ pan.V, ∀ a ∈ pan.V, ∀ b ∈ pan.V, pan.Adj v a → pan.Adj v b →
    [3, 0, 1, 2].idxOf a < [3, 0, 1, 2].idxOf v → [3, 0, 1, 2].idxOf b < [3, 0, 1, 2].idxOf v → a ≠ b → pan.Adj a b := by
    decide
  exact key v ha.left a ha.right b hb.right ha hb

/-- **C55 (partial).** If from a vertex to the next in the ordering the number of left neighbours never grows by more than
one, `colour_greedy` does not panic, colours exactly the vertices of the graph properly, and colour `k` is used only if some
vertex has `k` left neighbours. -/
theorem C55_colour_greedy_no_jump_partial {L : LinGraph} {S : SGraph} {ord : List ℕ} (H : L.LRep S ord)
    (hn : S.V.card ≤ 2 ^ 32)
    (hj : ∀ pre u v post, ord = pre ++ u :: v :: post → (S.before ord v).card ≤ (S.before ord u).card + 1) :
    ∃ c, L.colourGreedy = .ok c ∧ (∀ u, u ∈ c.keys ↔ u ∈ S.V) ∧
      (∀ u v k, S.Adj u v → c.get? u = some k → c.get? v ≠ some k) ∧
      ∀ u k, c.get? u = some k → ∃ v ∈ S.V, (S.before ord v).card = k :=
  H.colourGreedy_noJump hn hj

/-- Hypotheses of `C55_colour_greedy_no_jump_partial` are met. -/
example : ∃ (L : LinGraph), L.LRep pan [3, 0, 1, 2] ∧ pan.V.card ≤ 2 ^ 32 ∧ ∀ pre u v post,
    [3, 0, 1, 2] = pre ++ u :: v :: post → (pan.before [3, 0, 1, 2] v).card ≤ (pan.before [3, 0, 1, 2] u).card + 1 := by
  obtain ⟨o, -, H⟩ := builtOrd_lin [(0, 1), (3, 0), (3, 1), (3, 2)] [3, 0, 1, 2] (by decide) (by decide) (by decide)
  refine ⟨o.lin, H, by decide, fun pre u v post h => ?_⟩
  have hu : [3, 0, 1, 2][pre.length]? = some u := by rw [h]; simp
  have hv : [3, 0, 1, 2][pre.length + 1]? = some v := by
    rw [h, List.getElem?_append_right (by omega)]; simp
  have key : ∀ i < 4, ∀ u ∈ [3, 0, 1, 2][i]?, ∀ v ∈ [3, 0, 1, 2][i + 1]?,
    (pan.before [3, 0, 1, 2] v).card ≤ (pan.before [3, 0, 1, 2] u).card + 1 := by decide
  have hlt : pre.length < 4 := by
    by_contra hc
    rw [List.getElem?_eq_none (by simp; omega)] at hu
    cases hu
  exact key _ hlt u hu v hv

/-- **C55 (partial, exact).** For every graph and ordering, exactly one colouring `χ` obeys the greedy rule.  If a vertex
without colour has a right neighbour, `colour_greedy` panics; otherwise it returns `χ`.  The colours are those below the length
`p` of the longest run `0, 1, 2, …` that is a subsequence of the numbers of left neighbours.  Missing: that every vertex is
coloured, which is false. -/
theorem C55_colour_greedy_exact_partial {L : LinGraph} {S : SGraph} {ord : List ℕ} (H : L.LRep S ord) (hn : S.V.card ≤ 2 ^ 32) :
    ∃ χ p, (∀ χ', S.IsGreedy ord χ' ↔ χ' = χ) ∧ LongestRun (S.leftDegs ord ord) p ∧ (∀ k, (∃ v, χ v = some k) ↔ k < p) ∧
      ((∃ v, ∃ u ∈ S.before ord v, χ u = none) → L.colourGreedy = .error .panic) ∧
      ((∀ v, ∀ u ∈ S.before ord v, χ u ≠ none) → ∃ c, L.colourGreedy = .ok c ∧ ∀ v, c.get? v = χ v) := by
  obtain ⟨χ, p, h1, h2⟩ := H.colourGreedy_exact hn
  exact ⟨χ, p, fun χ' => ⟨fun h => h.unique H.ordering h1, fun h => h ▸ h1⟩, h2⟩

/-- Hypotheses of `C55_colour_greedy_exact_partial` are met by the counterexample with one further vertex, where only two colours
exist. -/
example : ∃ (L : LinGraph), L.LRep (SGraph.empty.addEdges [(0, 1), (3, 0), (3, 1), (3, 2), (3, 4)]) [0, 1, 2, 3, 4] ∧
    (SGraph.empty.addEdges [(0, 1), (3, 0), (3, 1), (3, 2), (3, 4)]).V.card ≤ 2 ^ 32 ∧
    LongestRun ((SGraph.empty.addEdges [(0, 1), (3, 0), (3, 1), (3, 2), (3, 4)]).leftDegs [0, 1, 2, 3, 4] [0, 1, 2, 3, 4]) 2 := by
  obtain ⟨o, -, H⟩ := builtOrd_lin [(0, 1), (3, 0), (3, 1), (3, 2), (3, 4)] [0, 1, 2, 3, 4] (by decide) (by decide) (by decide)
  exact ⟨o.lin, H, by decide, by decide, by decide⟩

/-! ## C56 – C58 -/

/-- What `domset_with_target` computes before it looks at `witness`. -/
theorem domset_core {L : LinGraph} {S : SGraph} {ord : List ℕ} (H : L.LRep S ord) (ω : LinGraph.DomOrder)
    (hω : ∀ g, EditGraph.Relayout g (ω.witness.lay g)) {r : ℕ} (hr : r < 2 ^ 15) (hn : S.V.card ≤ 2 ^ 31) (target : List ℕ) :
    ∃ (D : HSet ℕ) (m : HMap ℕ ℕ) (A : LinGraph) (T : SGraph) (o : List ℕ),
      L.domsetWithTarget ω r false target = .ok (D, m, none) ∧
      L.domsetWithTarget ω r true target = A.colourGreedy.map (fun c => (D, m, some c)) ∧
      (∀ x ∈ D, x ∈ S.V) ∧ (∀ x ∈ target, x ∈ S.V → ∃ d ∈ D, ∃ n ≤ r, Walk S.Adj n d x) ∧
      ((∃ x ∈ target, x ∈ S.V) → (∀ x, x ∈ m.keys ↔ x ∈ S.V) ∧ (∀ x ∈ S.V, ∃ k ≤ r, m.get? x = some k) ∧
        ∀ x ∈ target, ∀ k, m.get? x = some k → ∃ d ∈ D, ∃ n ≤ k, Walk S.Adj n d x) ∧
      A.LRep T o ∧ T.V ⊆ D.toFinset ∧ (∀ x ∈ T.V, x ∈ target) ∧
      (∀ x y, T.Adj x y ↔ x ∈ T.V ∧ y ∈ T.V ∧ x ≠ y ∧ ∃ n ≤ 2 * r, Walk S.Adj n x y) ∧
      ((∀ W ⊆ T.V, ¬ S.Crowd (2 * r) 130 W) → LinGraph.LRep.NoJump T o) ∧
      (∀ x ∈ target, x ∈ S.V → ∃ s ∈ T.V, ∃ n ≤ 2 * r, Walk S.Adj n s x) ∧
      (∀ x ∈ S.V, x ∈ D ↔ x ∈ T.V ∨ ∃ A : Finset ℕ, (∀ s, s ∈ A ↔ s ∈ T.V ∧ ∃ d ≤ r, S.WReach ord s x d) ∧
        2 * r * (2 * r) < A.card) ∧
      (∀ x ∈ S.V, ∀ A : Finset ℕ, (∀ s ∈ A, s ∈ T.V ∧ (s = x ∨ ∃ d ≤ r, S.WReach ord s x d)) →
        A.card ≤ 2 * r * (2 * r) + 1) := by
  have hem := lin_isEmpty H
  by_cases h0 : L.isEmpty = true ∨ (HSet.ofList target).len = 0
  · have hc : (L.isEmpty || (HSet.ofList target).len == 0) = true := by
      rcases h0 with h | h
      · rw [h]; rfl
      · rw [h]; simp
    obtain ⟨o, -, H'⟩ := builtOrd_lin [] [] (by decide) (by decide) (by decide)
    have hno : ∀ x ∈ target, x ∉ S.V := by
      intro x hx hxV
      rcases h0 with h | h
      · rw [hem] at h
        rw [h] at hxV
        simp at hxV
      · have h1 := Scatter.toList_of_len h
        have h2 : x ∈ HSet.ofList target := HSet.mem_ofList.2 hx
        rw [← HSet.mem_toList, h1] at h2
        simp at h2
    refine ⟨∅, ∅, o.lin, _, [], ?_, ?_, ?_, fun x hx hV => absurd hV (hno x hx), ?_, H', by decide, ?_, ?_,
      fun _ pre u v post h => by simp at h, fun x hx hV => absurd hV (hno x hx), fun x _ => ?_, fun x _ A hA => ?_⟩
    · unfold LinGraph.domsetWithTarget
      simp only
      rw [if_pos hc]
      rfl
    · unfold LinGraph.domsetWithTarget
      simp only
      rw [if_pos hc]
      have hv : o.lin.vertices = [] := H'.verts
      unfold LinGraph.colourGreedy
      rw [hv]
      rfl
    · intro x hx
      exact absurd hx HSet.not_mem_empty
    · rintro ⟨x, hx, hV⟩
      exact absurd hV (hno x hx)
    · intro x hx
      rw [SGraph.addEdges_nil] at hx
      exact absurd hx (Finset.notMem_empty x)
    · intro x y
      have : ∀ x, x ∉ (SGraph.empty.addEdges []).V := fun x => by
        rw [SGraph.addEdges_nil]; exact Finset.notMem_empty x
      exact ⟨fun h => absurd h.left (this x), fun h => absurd h.1 (this x)⟩
    · have hT : ∀ x, x ∉ (SGraph.empty.addEdges []).V := fun x => by
        rw [SGraph.addEdges_nil]; exact Finset.notMem_empty x
      constructor
      · intro h; exact absurd h HSet.not_mem_empty
      · rintro (h | ⟨A, h, h'⟩)
        · exact absurd h (hT x)
        · obtain ⟨s, hs⟩ := Finset.card_pos.1 (Nat.zero_lt_of_lt h')
          exact absurd ((h s).1 hs).1 (hT s)
    · have : A = ∅ := Finset.eq_empty_of_forall_notMem fun s hs => by
        have := (hA s hs).1
        rw [SGraph.addEdges_nil] at this
        exact Finset.notMem_empty s this
      rw [this, Finset.card_empty]
      exact Nat.zero_le _
  · push Not at h0
    have hc : ¬ (L.isEmpty || (HSet.ofList target).len == 0) = true := by
      rw [Bool.or_eq_true]
      rintro (h | h)
      · exact h0.1 h
      · exact h0.2 (by simpa using h)
    have O := H.ordering
    obtain ⟨order, ho, hnd, hord⟩ := Dom.order H hn
    obtain ⟨ws, hws, Tb⟩ := H.wreachSets ω.bfs ω.layers (r := r) (by omega)
    obtain ⟨ws2, hws2, Tb2⟩ := H.wreachSets ω.bfs ω.layers (r := 2 * r) (by omega)
    obtain ⟨st, hst, h1, h2, h3, h4, h5, h6⟩ := Dom.phase (target := HSet.ofList target) O Tb ω.wreach
      (2 * r * (2 * r)) (r := r) (by omega) (by omega) hnd hord
    have hscV : ∀ x ∈ st.scattered, x ∈ S.V := fun x hx => h1 x (h2 x hx).1
    obtain ⟨A, T, o, hA, hTV, hTA, hjump, haux⟩ := Dom.auxColouring O Tb2 ω.wreach2 ω.witness hω (strict := true)
      (limit := 2 * r) (le_refl _) (fun _ => rfl) (by omega) hscV
    have hcut : 2 * r * (2 * r) < 2 ^ 32 := by
      have : 2 * r * (2 * r) ≤ (2 ^ 16 - 1) * (2 ^ 16 - 1) := Nat.mul_le_mul (by omega) (by omega)
      omega
    have hrun : ∀ w, L.domsetWithTarget ω r w target = (do
        if !w then return (st.domset, st.dist, none)
        else
          let colours ← A.colourGreedy
          return (st.domset, st.dist, some colours)) := by
      intro w
      unfold LinGraph.domsetWithTarget
      simp only
      rw [if_neg hc, mul32_ok (by omega), bind_ok, mul32_ok hcut, bind_ok, ho, bind_ok, add32_ok (by omega), bind_ok,
        hws, bind_ok, hst, bind_ok]
      cases w with
      | false => rfl
      | true =>
        simp only [Bool.not_true, Bool.false_eq_true, if_false]
        rw [bind_ok, hws2, bind_ok, haux]
    refine ⟨st.domset, st.dist, A, T, o, ?_, ?_, h1, ?_, ?_, hA, ?_, ?_, ?_, hjump, ?_, fun x hx => ?_, fun x hx B hB => ?_⟩
    · rw [hrun]; rfl
    · rw [hrun]
      simp only [Bool.not_true, Bool.false_eq_true, if_false]
      cases A.colourGreedy <;> rfl
    · intro x hx hV
      obtain ⟨k, hk, hg⟩ := h5 x hV
      obtain ⟨d, hd, n, hn', hw⟩ := h6 x (HSet.mem_ofList.2 hx) k hg
      exact ⟨d, hd, n, by omega, hw⟩
    · intro _
      exact ⟨h4, h5, fun x hx k hk => h6 x (HSet.mem_ofList.2 hx) k hk⟩
    · intro x hx
      exact (h2 x ((hTV x).1 hx)).1
    · intro x hx
      exact HSet.mem_ofList.1 (h2 x ((hTV x).1 hx)).2
    · intro x y
      rw [hTA, hTV, hTV]
    · intro x hx hV
      obtain ⟨k, hk, hg⟩ := h5 x hV
      obtain ⟨d, hd, n, hn', hw⟩ := h6 x (HSet.mem_ofList.2 hx) k hg
      obtain ⟨s, hs, n', hn'', hw'⟩ := h3 d hd
      exact ⟨s, (hTV s).2 hs, n' + n, by omega, hw'.append hw⟩
    · rw [Dom.phase_exact O Tb hnd hord hst x hx, hTV]
      refine or_congr Iff.rfl ?_
      classical
      constructor
      · intro h
        refine ⟨st.scattered.toFinset.filter fun s => ∃ d ≤ r, S.WReach ord s x d, fun s => ?_, h⟩
        rw [Finset.mem_filter, HSet.mem_toFinset, hTV]
      · rintro ⟨A, h, h'⟩
        refine lt_of_lt_of_le h' (Finset.card_le_card fun s hs => ?_)
        rw [Finset.mem_filter, HSet.mem_toFinset, ← hTV]
        exact (h s).1 hs
    · classical
      refine le_trans (Finset.card_le_card fun s hs => ?_)
        (Dom.phase_few O Tb (le_refl _) hnd hord hst x hx)
      rw [Finset.mem_filter, HSet.mem_toFinset, ← hTV]
      exact hB s hs

/-- **C56.** `domset_with_target(radius, false, target)` does not panic, returns a set of vertices of the graph, and every
target vertex of the graph is joined to a vertex of the set by a walk of length at most `radius`. -/
theorem C56_domset_with_target {L : LinGraph} {S : SGraph} {ord : List ℕ} (H : L.LRep S ord) (ω : LinGraph.DomOrder)
    (hω : ∀ g, EditGraph.Relayout g (ω.witness.lay g)) {r : ℕ} (hr : r < 2 ^ 15) (hn : S.V.card ≤ 2 ^ 31) (target : List ℕ) :
    ∃ D m, L.domsetWithTarget ω r false target = .ok (D, m, none) ∧ (∀ x ∈ D, x ∈ S.V) ∧
      ∀ x ∈ target, x ∈ S.V → ∃ d ∈ D, ∃ n ≤ r, Walk S.Adj n d x := by
  obtain ⟨D, m, A, T, o, h1, -, h2, h3, -⟩ := domset_core H ω hω hr hn target
  exact ⟨D, m, h1, h2, h3⟩

/-- `C56_domset_with_target` for a triangle with a pendant vertex. -/
example := fun ω hω target => C56_domset_with_target pan_lin.choose_spec.2 ω hω (r := 2) (by decide) (by decide) target

/-- **C56.** `domset(radius, false)` does not panic and every vertex is within distance `radius` of the returned set. -/
theorem C56_domset {L : LinGraph} {S : SGraph} {ord : List ℕ} (H : L.LRep S ord) (ω : LinGraph.DomOrder)
    (hω : ∀ g, EditGraph.Relayout g (ω.witness.lay g)) {r : ℕ} (hr : r < 2 ^ 15) (hn : S.V.card ≤ 2 ^ 31) :
    ∃ D m, L.domset ω r false = .ok (D, m, none) ∧ (∀ x ∈ D, x ∈ S.V) ∧
      ∀ x ∈ S.V, ∃ d ∈ D, ∃ n ≤ r, Walk S.Adj n d x := by
  obtain ⟨D, m, h1, h2, h3⟩ := C56_domset_with_target H ω hω hr hn L.vertices
  exact ⟨D, m, h1, h2, fun x hx => h3 x ((H.rep.vmem x).2 hx) hx⟩

/-- **C56.** With a witness, the same set and distances are returned, unless the colouring of the witness panics; that can only
happen if there are targets in the set each of which has 130 others of them within distance `2*radius`. -/
theorem C56_domset_witness {L : LinGraph} {S : SGraph} {ord : List ℕ} (H : L.LRep S ord) (ω : LinGraph.DomOrder)
    (hω : ∀ g, EditGraph.Relayout g (ω.witness.lay g)) {r : ℕ} (hr : r < 2 ^ 15) (hn : S.V.card ≤ 2 ^ 31) (target : List ℕ) :
    ∃ D m, L.domsetWithTarget ω r false target = .ok (D, m, none) ∧
      ((∃ W : Finset ℕ, (∀ x ∈ W, x ∈ D ∧ x ∈ target) ∧ S.Crowd (2 * r) 130 W) ∧
          L.domsetWithTarget ω r true target = .error .panic ∨
        ∃ c, L.domsetWithTarget ω r true target = .ok (D, m, some c)) := by
  obtain ⟨D, m, A, T, o, h1, h2, h3, -, -, hA, hT, hT', -, hj, -⟩ := domset_core H ω hω hr hn target
  refine ⟨D, m, h1, ?_⟩
  have hTn : T.V.card ≤ 2 ^ 31 := (Finset.card_le_card fun x hx => h3 x (hT hx)).trans hn
  rw [h2]
  rcases (SafeIf.of_safe (q := ∃ W ⊆ T.V, S.Crowd (2 * r) 130 W) (hA.colourGreedy_safe (by omega))
      (fun hq => hA.colourGreedy_noJump (by omega) (hj fun W hW h => hq ⟨W, hW, h⟩))).elim with ⟨⟨W, hW, hq⟩, h⟩ | ⟨c, h, -⟩
  · rw [h]; exact Or.inl ⟨⟨W, fun x hx => ⟨hT (hW hx), hT' x (hW hx)⟩, hq⟩, rfl⟩
  · rw [h]; exact Or.inr ⟨c, rfl⟩

/-- Identity iteration orders. -/
def idWitness : LinGraph.WitnessOrder := ⟨Shuffle.id, Shuffle.id, fun _ => Shuffle.id, fun g => g, fun _ => Shuffle.id⟩
/-- Identity iteration orders. -/
def idDom : LinGraph.DomOrder :=
  ⟨fun _ _ => Shuffle.id, fun _ _ => Shuffle.id, fun _ => Shuffle.id, fun _ => Shuffle.id, idWitness⟩
/-- Identity iteration orders. -/
def idScatter : LinGraph.ScatterOrder :=
  ⟨fun _ _ => Shuffle.id, fun _ _ => Shuffle.id, fun _ => Shuffle.id, fun _ => idWitness, Shuffle.id, Shuffle.id⟩

/-- Hypotheses of the C56 and C58 theorems are met. -/
example : ∃ (L : LinGraph) (S : SGraph) (ω : LinGraph.DomOrder), L.LRep S [2, 0, 1] ∧
    (∀ g, EditGraph.Relayout g (ω.witness.lay g)) ∧ 1 < 2 ^ 15 ∧ S.V.card ≤ 2 ^ 31 ∧ S.Adj 0 1 := by
  obtain ⟨L, S, H, h01, -, -, h5, -⟩ := exLin
  have : S.V.card = 3 := by rw [← H.ordering.length]; rfl
  exact ⟨L, S, idDom, H, relayout_refl, by omega, by omega, h01⟩

/-- **C57**, full statement. -/
def C57_statement : Prop := ∀ (L : LinGraph) (S : SGraph) (ord : List ℕ) (ω : LinGraph.DomOrder) (r : ℕ) (D : HSet ℕ)
  (m : HMap ℕ ℕ), L.LRep S ord → (∀ g, EditGraph.Relayout g (ω.witness.lay g)) → r < 2 ^ 15 → S.V.card ≤ 2 ^ 31 →
  L.domset ω r false = .ok (D, m, none) → ∀ v ∈ S.V, ∀ k, m.get? v = some k ↔ IsMin (fun n => ∃ d ∈ D, Walk S.Adj n d v) k

theorem path_dom : ((builtOrd [(0, 1), (1, 2), (2, 3), (3, 4)] [0, 4, 1, 2, 3]).bind fun o =>
    (o.lin.domset idDom 2 false).map fun r => (r.1.contains 0, r.2.1.get? 1)) = .ok (true, some 2) := by decide

/-- **C57 refuted.** On the path 0-1-2-3-4 with ordering 0, 4, 1, 2, 3 and radius 2, vertex 0 is in the returned set but its
neighbour 1 gets distance 2. -/
theorem C57_refuted : ¬ C57_statement := by
  intro hC
  obtain ⟨o, ho, H⟩ := builtOrd_lin [(0, 1), (1, 2), (2, 3), (3, 4)] [0, 4, 1, 2, 3] (by decide) (by decide) (by decide)
  have h1 := path_dom
  rw [ho] at h1
  have hω : ∀ g, EditGraph.Relayout g (idDom.witness.lay g) := relayout_refl
  obtain ⟨D, m, h2, -⟩ := C56_domset H idDom hω (r := 2) (by omega) (by decide)
  simp only [Except.bind, h2, Except.map, Except.ok.injEq, Prod.mk.injEq] at h1
  have h3 := (hC _ _ _ idDom 2 D m H hω (by omega) (by decide) h2 1 (by decide) 2).1 h1.2
  exact h3.2 1 (by omega) ⟨0, HSet.contains_iff.1 h1.1, Walk.one_iff.2 (by decide)⟩

/-- **C57 (partial).** If some target is a vertex of the graph, the returned map is defined exactly on the vertices, its
values are at most `radius`, and the value of a target vertex is at least its distance to the returned set.  Missing: that
it equals the distance, which is false, and lower bounds for vertices that are not targets, which are false as well. -/
theorem C57_domset_distances_partial {L : LinGraph} {S : SGraph} {ord : List ℕ} (H : L.LRep S ord) (ω : LinGraph.DomOrder)
    (hω : ∀ g, EditGraph.Relayout g (ω.witness.lay g)) {r : ℕ} (hr : r < 2 ^ 15) (hn : S.V.card ≤ 2 ^ 31) (target : List ℕ)
    (hne : ∃ x ∈ target, x ∈ S.V) :
    ∃ D m, L.domsetWithTarget ω r false target = .ok (D, m, none) ∧ (∀ x, x ∈ m.keys ↔ x ∈ S.V) ∧
      (∀ x k, m.get? x = some k → k ≤ r) ∧
      ∀ x ∈ target, ∀ k, m.get? x = some k → ∃ n ≤ k, IsMin (fun n => ∃ d ∈ D, Walk S.Adj n d x) n := by
  obtain ⟨D, m, A, T, o, h1, -, h2, h3, h4, -⟩ := domset_core H ω hω hr hn target
  obtain ⟨h5, h6, h7⟩ := h4 hne
  refine ⟨D, m, h1, h5, fun x k hk => ?_, fun x hx k hk => ?_⟩
  · obtain ⟨k', hle, hk'⟩ := h6 x ((h5 x).1 (HMap.mem_keys_iff.2 ⟨k, hk⟩))
    rw [hk] at hk'
    cases hk'
    exact hle
  · obtain ⟨d, hd, n, hn', hw⟩ := h7 x hx k hk
    classical
    have hex : ∃ n, ∃ d ∈ D, Walk S.Adj n d x := ⟨n, d, hd, hw⟩
    exact ⟨Nat.find hex, (Nat.find_min' hex ⟨d, hd, hw⟩).trans hn', Nat.find_spec hex, fun m hm => Nat.find_min hex hm⟩

/-- Hypotheses of `C57_domset_distances_partial` are met. -/
example : ∃ (L : LinGraph) (S : SGraph) (ω : LinGraph.DomOrder), L.LRep S [2, 0, 1] ∧
    (∀ g, EditGraph.Relayout g (ω.witness.lay g)) ∧ 1 < 2 ^ 15 ∧ S.V.card ≤ 2 ^ 31 ∧ ∃ x ∈ [0, 7], x ∈ S.V := by
  obtain ⟨L, S, H, h01, -, -, h5, -⟩ := exLin
  have : S.V.card = 3 := by rw [← H.ordering.length]; rfl
  exact ⟨L, S, idDom, H, relayout_refl, by omega, by omega, 0, by simp, h01.left⟩

/-- **C58.** With a witness, all coloured vertices are targets in the returned set, and every walk between two distinct
vertices of the same colour is longer than `2*radius`. -/
theorem C58_witness {L : LinGraph} {S : SGraph} {ord : List ℕ} (H : L.LRep S ord) (ω : LinGraph.DomOrder)
    (hω : ∀ g, EditGraph.Relayout g (ω.witness.lay g)) {r : ℕ} (hr : r < 2 ^ 15) (hn : S.V.card ≤ 2 ^ 31) (target : List ℕ)
    {D : HSet ℕ} {m c : HMap ℕ ℕ} (h : L.domsetWithTarget ω r true target = .ok (D, m, some c)) :
    (∀ u ∈ c.keys, u ∈ D ∧ u ∈ target) ∧
    ∀ u v k, u ≠ v → c.get? u = some k → c.get? v = some k → ∀ n, Walk S.Adj n u v → 2 * r < n := by
  obtain ⟨D', m', A, T, o, -, h2, h3, -, -, hA, hT, hT', hadj, -⟩ := domset_core H ω hω hr hn target
  have hTn : T.V.card ≤ 2 ^ 31 := (Finset.card_le_card fun x hx => h3 x (hT hx)).trans hn
  rw [h2] at h
  cases hg : A.colourGreedy with
  | error e => rw [hg] at h; cases h
  | ok c' =>
    rw [hg] at h
    simp only [Except.map, Except.ok.injEq, Prod.mk.injEq, Option.some.injEq] at h
    obtain ⟨rfl, rfl, rfl⟩ := h
    obtain ⟨h5, h6⟩ := hA.colourGreedy_of_ok (by omega) hg
    refine ⟨fun u hu => ⟨hT (h5 u hu), hT' u (h5 u hu)⟩, fun u v k huv hu hv n hw => ?_⟩
    by_contra hle
    have h1 := h5 u (HMap.mem_keys_iff.2 ⟨k, hu⟩)
    have h2 := h5 v (HMap.mem_keys_iff.2 ⟨k, hv⟩)
    exact h6 u v k ((hadj u v).2 ⟨h1, h2, huv, n, by omega, hw⟩) hu hv

/-- **C58.** Every colour class of the witness is a lower bound on domination: a finite set `X` that has every target vertex of
the graph within distance `radius` contains at least as many vertices as any one colour class. -/
theorem C58_witness_lower_bound {L : LinGraph} {S : SGraph} {ord : List ℕ} (H : L.LRep S ord) (ω : LinGraph.DomOrder)
    (hω : ∀ g, EditGraph.Relayout g (ω.witness.lay g)) {r : ℕ} (hr : r < 2 ^ 15) (hn : S.V.card ≤ 2 ^ 31) (target : List ℕ)
    {D : HSet ℕ} {m c : HMap ℕ ℕ} (h : L.domsetWithTarget ω r true target = .ok (D, m, some c)) (X : Finset ℕ)
    (hX : ∀ x ∈ target, x ∈ S.V → ∃ d ∈ X, ∃ n ≤ r, Walk S.Adj n d x) (k : ℕ) (C : Finset ℕ)
    (hC : ∀ u ∈ C, c.get? u = some k) : C.card ≤ X.card := by
  obtain ⟨D', m', A, T, o, -, h2, h3, -, -, -, hT, -⟩ := domset_core H ω hω hr hn target
  obtain ⟨h4, h5⟩ := C58_witness H ω hω hr hn target h
  have hD : D = D' := by
    rw [h2] at h
    cases hg : A.colourGreedy with
    | error e => rw [hg] at h; cases h
    | ok c' => rw [hg] at h; cases h; rfl
  subst hD
  have hdom : ∀ u ∈ C, ∃ d ∈ X, ∃ n ≤ r, Walk S.Adj n d u := fun u hu => by
    obtain ⟨h6, h7⟩ := h4 u (HMap.mem_keys_iff.2 ⟨k, hC u hu⟩)
    exact hX u h7 (h3 u h6)
  choose! f hf using hdom
  refine Finset.card_le_card_of_injOn f (fun u hu => (hf u hu).1) fun u hu v hv he => ?_
  by_contra hne
  obtain ⟨-, n, hn1, hw1⟩ := hf u hu
  obtain ⟨-, n', hn2, hw2⟩ := hf v hv
  rw [he] at hw1
  have := h5 u v k hne (hC u hu) (hC v hv) (n + n') ((hw1.symm fun _ _ h => h.symm).append hw2)
  omega

/-- **C58.** Unless there are targets in the returned set each of which has 130 others of them within distance `2*radius` (which
takes more than 130 of them), a witness is returned, every target vertex of
the graph is joined to some coloured vertex by a walk of length at most `2*radius`, and the returned set consists of the
coloured vertices and those weakly `radius`-reachable from more than `(2*radius)^2` of them. -/
theorem C58_witness_total {L : LinGraph} {S : SGraph} {ord : List ℕ} (H : L.LRep S ord) (ω : LinGraph.DomOrder)
    (hω : ∀ g, EditGraph.Relayout g (ω.witness.lay g)) {r : ℕ} (hr : r < 2 ^ 15) (hn : S.V.card ≤ 2 ^ 31) (target : List ℕ) :
    ∃ D m, L.domsetWithTarget ω r false target = .ok (D, m, none) ∧
      ((∀ W : Finset ℕ, (∀ x ∈ W, x ∈ D ∧ x ∈ target) → ¬ S.Crowd (2 * r) 130 W) →
        ∃ c, L.domsetWithTarget ω r true target = .ok (D, m, some c) ∧
          (∀ x ∈ target, x ∈ S.V → ∃ s ∈ c.keys, ∃ n ≤ 2 * r, Walk S.Adj n s x) ∧
          ∀ x ∈ S.V, x ∈ D ↔ x ∈ c.keys ∨ ∃ A : Finset ℕ, (∀ s, s ∈ A ↔ s ∈ c.keys ∧ ∃ d ≤ r, S.WReach ord s x d) ∧
            (2 * r) ^ 2 < A.card) := by
  obtain ⟨D, m, A, T, o, h1, h2, h3, -, -, hA, hT, hT', -, hj, hc, hex, -⟩ := domset_core H ω hω hr hn target
  refine ⟨D, m, h1, fun hs => ?_⟩
  have hTn : T.V.card ≤ 2 ^ 31 := (Finset.card_le_card fun x hx => h3 x (hT hx)).trans hn
  obtain ⟨c, h, h4, -⟩ := hA.colourGreedy_noJump (by omega) (hj fun W hW => hs W fun x hx => ⟨hT (hW hx), hT' x (hW hx)⟩)
  refine ⟨c, by rw [h2, h]; rfl, fun x hx hV => ?_, fun x hx => ?_⟩
  · obtain ⟨s, hs, hw⟩ := hc x hx hV
    exact ⟨s, (h4 s).2 hs, hw⟩
  · rw [hex x hx, Nat.pow_two]
    simp only [h4]

/-- **C58.** In particular a witness is returned if the returned set or the target has at most 130 elements. -/
theorem C58_witness_few {L : LinGraph} {S : SGraph} {ord : List ℕ} (H : L.LRep S ord) (ω : LinGraph.DomOrder)
    (hω : ∀ g, EditGraph.Relayout g (ω.witness.lay g)) {r : ℕ} (hr : r < 2 ^ 15) (hn : S.V.card ≤ 2 ^ 31) (target : List ℕ) :
    ∃ D m, L.domsetWithTarget ω r false target = .ok (D, m, none) ∧
      (D.len ≤ 130 ∨ target.toFinset.card ≤ 130 → ∃ c, L.domsetWithTarget ω r true target = .ok (D, m, some c)) := by
  obtain ⟨D, m, h1, h2⟩ := C58_witness_total H ω hω hr hn target
  refine ⟨D, m, h1, fun hs => ?_⟩
  obtain ⟨c, hc, -⟩ := h2 fun W hW hcr => by
    have h3 := hcr.card_lt
    rcases hs with hs | hs
    · have : W.card ≤ D.len := by
        rw [HSet.len_eq_card]
        exact Finset.card_le_card fun x hx => HSet.mem_toFinset.2 (hW x hx).1
      omega
    · have : W.card ≤ target.toFinset.card := Finset.card_le_card fun x hx => List.mem_toFinset.2 (hW x hx).2
      omega
  exact ⟨c, hc⟩

/-- The hypothesis that a witness is returned is met, with two vertices of the same colour. -/
example : ((builtOrd [(0, 1), (1, 2), (2, 3), (3, 4)] [0, 1, 2, 3, 4]).bind fun o =>
    (o.lin.domsetWithTarget idDom 1 true [0, 4]).map fun r => r.2.2.map HMap.entries) = .ok (some [(0, 0), (4, 0)]) := by
  decide +kernel

/-- On the same path, 1 and 3 dominate the targets 0 and 4 at radius 1, as `C58_witness_lower_bound` requires of `X`. -/
example : ∀ x ∈ [0, 4], x ∈ (SGraph.empty.addEdges [(0, 1), (1, 2), (2, 3), (3, 4)]).V →
    ∃ d ∈ ({1, 3} : Finset ℕ), ∃ n ≤ 1, Walk (SGraph.empty.addEdges [(0, 1), (1, 2), (2, 3), (3, 4)]).Adj n d x := by
  intro x hx _
  simp only [List.mem_cons, List.not_mem_nil, or_false] at hx
  rcases hx with rfl | rfl
  · exact ⟨1, by decide, 1, le_refl _, Walk.one_iff.2 (by decide)⟩
  · exact ⟨3, by decide, 1, le_refl _, Walk.one_iff.2 (by decide)⟩

/-! ## C59 -/

/-- **C59**, full statement. -/
def C59_statement : Prop := ∀ (L : LinGraph) (S : SGraph) (ord : List ℕ) (ω : LinGraph.ScatterOrder) (fuel D : ℕ)
  (target : List ℕ), L.LRep S ord → (∀ k g, EditGraph.Relayout g ((ω.witness k).lay g)) → D < 2 ^ 16 → S.V.card ≤ 2 ^ 31 →
  (∀ x ∈ target, x ∈ S.V) → target.toFinset.card < fuel →
  ∃ cl, L.scatteredColouring ω fuel D target = .ok cl ∧ cl.Pairwise (fun A B => ∀ x ∈ A, x ∉ B) ∧
    (∀ x, x ∈ target ↔ ∃ A ∈ cl, x ∈ A) ∧
    ∀ A ∈ cl, ∀ x ∈ A, ∀ y ∈ A, x ≠ y → ∀ n, Walk S.Adj n x y → D ≤ n

theorem path_scatter : ((builtOrd [(0, 1), (1, 2)] [0, 1, 2]).bind fun o =>
    (o.lin.scatteredColouring idScatter 5 3 [0, 2]).map fun r => r.map HSet.toList) = .ok [[2, 0]] := by decide +kernel

/-- **C59 refuted.** For distance 3 the two ends of the path 0-1-2 are put into one class although their distance is 2:
merging compares with `2*(distance/2)`. -/
theorem C59_refuted : ¬ C59_statement := by
  intro hC
  obtain ⟨o, ho, H⟩ := builtOrd_lin [(0, 1), (1, 2)] [0, 1, 2] (by decide) (by decide) (by decide)
  have h1 := path_scatter
  rw [ho] at h1
  obtain ⟨cl, h2, -, -, h3⟩ := hC _ _ _ idScatter 5 3 [0, 2] H (fun _ => relayout_refl) (by omega) (by decide) (by decide)
    (by decide)
  simp only [Except.bind, h2, Except.map, Except.ok.injEq] at h1
  cases cl with
  | nil => simp at h1
  | cons A cl =>
    simp only [List.map_cons, List.cons.injEq] at h1
    have h02 : (0 : ℕ) ∈ A ∧ 2 ∈ A := by
      rw [← HSet.mem_toList, ← HSet.mem_toList, h1.1]; decide
    have := h3 A (by simp) 0 h02.1 2 h02.2 (by decide) 2
      (.cons (v := 1) (by decide) (.cons (v := 2) (by decide) (.nil _)))
    omega

/-- **C59 (partial).** For targets in the graph, `scattered_colouring(distance, target)` terminates without overflow; unless
it panics, for which there must be targets each of which has 130 others of them within distance `2*(distance/2)`, it returns
nonempty, pairwise disjoint classes with union `target`, walks between distinct vertices of one class have length at least `2*(distance/2)`, and no two classes
could be merged: there is a shorter walk between them.  Missing: that it does not panic for larger targets (it calls
`colour_greedy`), and for odd distances the full distance, which is false. -/
theorem C59_scattered_colouring_partial {L : LinGraph} {S : SGraph} {ord : List ℕ} (H : L.LRep S ord)
    (ω : LinGraph.ScatterOrder) (hω : ∀ k g, EditGraph.Relayout g ((ω.witness k).lay g)) {D : ℕ} (hD : D < 2 ^ 16)
    (hn : S.V.card ≤ 2 ^ 31) {target : List ℕ} (hT : ∀ x ∈ target, x ∈ S.V) {fuel : ℕ} (hf : target.toFinset.card < fuel) :
    ((∃ W ⊆ target.toFinset, S.Crowd (2 * (D / 2)) 130 W) ∧ L.scatteredColouring ω fuel D target = .error .panic) ∨
    ∃ cl, L.scatteredColouring ω fuel D target = .ok cl ∧ (∀ A ∈ cl, ∃ x, x ∈ A) ∧
      cl.Pairwise (fun A B => ∀ x ∈ A, x ∉ B) ∧ (∀ x, x ∈ target ↔ ∃ A ∈ cl, x ∈ A) ∧
      (∀ A ∈ cl, ∀ x ∈ A, ∀ y ∈ A, x ≠ y → ∀ n, Walk S.Adj n x y → 2 * (D / 2) ≤ n) ∧
      cl.Pairwise (fun A B => ∃ x ∈ A, ∃ y ∈ B, ∃ n < 2 * (D / 2), Walk S.Adj n x y) := by
  refine SafeIf.elim (P := fun (cl : List (HSet ℕ)) => (∀ A ∈ cl, ∃ x, x ∈ A) ∧
      cl.Pairwise (fun A B => ∀ x ∈ A, x ∉ B) ∧ (∀ x, x ∈ target ↔ ∃ A ∈ cl, x ∈ A) ∧
      (∀ A ∈ cl, ∀ x ∈ A, ∀ y ∈ A, x ≠ y → ∀ n, Walk S.Adj n x y → 2 * (D / 2) ≤ n) ∧
      cl.Pairwise (fun A B => ∃ x ∈ A, ∃ y ∈ B, ∃ n < 2 * (D / 2), Walk S.Adj n x y)) ?_
  have hem := lin_isEmpty H
  unfold LinGraph.scatteredColouring
  simp only
  have hTV : ∀ x ∈ HSet.ofList target, x ∈ S.V := fun x hx => hT x (HSet.mem_ofList.1 hx)
  split
  · rename_i hc
    have hno : ∀ x, x ∉ target := by
      intro x hx
      rw [Bool.or_eq_true] at hc
      rcases hc with h | h
      · rw [hem] at h
        have := hT x hx
        rw [h] at this
        simp at this
      · have h1 := Scatter.toList_of_len (by simpa using h)
        have h2 : x ∈ HSet.ofList target := HSet.mem_ofList.2 hx
        rw [← HSet.mem_toList, h1] at h2
        simp at h2
    exact SafeIf.pure ⟨by simp, by simp, by simpa using hno, by simp, by simp⟩
  · have O := H.ordering
    obtain ⟨order, ho, hnd, hord⟩ := Dom.order H hn
    obtain ⟨ws, hws, Tb⟩ := H.wreachSets ω.bfs ω.layers (r := D) (by omega)
    have hcut : D * D < 2 ^ 32 := by
      have : D * D ≤ (2 ^ 16 - 1) * (2 ^ 16 - 1) := Nat.mul_le_mul (by omega) (by omega)
      omega
    have hlim : 2 * (D / 2) ≤ D := by omega
    rw [hws, bind_ok, add32_ok (by omega), bind_ok, mul32_ok hcut, bind_ok, ho, bind_ok, mul32_ok (by omega), bind_ok]
    have hcard : (HSet.ofList target).len = target.toFinset.card := HSet.len_of_mem_iff fun a => by
      rw [HSet.mem_ofList, List.mem_toFinset]
    have hfin : (HSet.ofList target).toFinset = target.toFinset := by
      ext x
      rw [HSet.mem_toFinset, HSet.mem_ofList, List.mem_toFinset]
    rw [← hfin]
    refine (Scatter.scatterLoop O Tb ω.wreach (D * D) (D / 2) ω.witness hω hlim (by omega) (by omega) hn hnd hord hTV fuel
      (HSet.ofList target) ∅ (by omega) ⟨by simp [HMap.keys], by simp [HMap.keys], by simp, by simp⟩).bind ?_
    rintro col ⟨c1, c2⟩
    obtain ⟨k1, k2, k3⟩ := Scatter.classes col ω.classes
    have hflat : ∀ x, x ∈ Scatter.flat (ω.classes.run (VertexMap.invert col).values) ↔ x ∈ target := fun x => by
      rw [k2, c1, HSet.mem_ofList]
    have hlen : (Scatter.flat (ω.classes.run (VertexMap.invert col).values)).length = target.toFinset.card := by
      rw [← List.toFinset_card_of_nodup k1]
      congr 1
      ext x
      rw [List.mem_toFinset, hflat, List.mem_toFinset]
    have hne := Scatter.nonempties_le (ω.classes.run (VertexMap.invert col).values)
    refine (SafeIf.of_ok (Scatter.improveLoop O Tb ω.sets (by omega) hlim fuel (ω.classes.run (VertexMap.invert col).values) []
      (by omega) (fun x hx => hT x ((hflat x).1 hx)) k1 (fun A hA => ?_) (by simp) (by simp) (by simp) .nil)).mono ?_
    · obtain ⟨k, hk⟩ := k3 A hA
      intro x hx y hy hxy n hw
      exact (c2 x y k hxy ((hk x).1 hx) ((hk y).1 hy) n hw).le
    · rintro cl ⟨r1, r2, r3, r4⟩
      rw [List.append_nil] at r1
      refine ⟨fun A hA => ?_, ?_, fun x => ?_, r2, r4⟩
      · by_contra hno
        push Not at hno
        apply r3 A hA
        show A.toList.length = 0
        rw [List.length_eq_zero_iff, List.eq_nil_iff_forall_not_mem]
        exact fun x hx => hno x hx
      · have := (List.nodup_flatMap.1 (r1.nodup_iff.2 k1)).2
        exact this.imp fun {A B} h x hx hx' => h hx hx'
      · rw [← hflat, ← r1.mem_iff, Scatter.mem_flat]

/-- Hypotheses of `C59_scattered_colouring_partial` are met. -/
example : ∃ (L : LinGraph) (S : SGraph) (ω : LinGraph.ScatterOrder), L.LRep S [2, 0, 1] ∧
    (∀ k g, EditGraph.Relayout g ((ω.witness k).lay g)) ∧ 2 < 2 ^ 16 ∧ S.V.card ≤ 2 ^ 31 ∧ (∀ x ∈ [0, 2], x ∈ S.V) ∧
    [0, 2].toFinset.card < 3 := by
  obtain ⟨L, S, H, h01, h12, -, h5, -⟩ := exLin
  have : S.V.card = 3 := by rw [← H.ordering.length]; rfl
  exact ⟨L, S, idScatter, H, fun _ => relayout_refl, by omega, by omega, by simp [h01.left, h12.right], by decide⟩

/-- A run that returns, splitting the path 0-1-2 for distance 2 into the class of 1 and the class of the ends. -/
example : ((builtOrd [(0, 1), (1, 2)] [0, 1, 2]).bind fun o =>
    (o.lin.scatteredColouring idScatter 5 2 [0, 1, 2]).map fun r => r.map HSet.toList) = .ok [[1], [2, 0]] := by decide +kernel

/-! ## C60 -/

/-- **C60.** `small_distance` on the weakly reachable sets for distance `D` returns exactly the distances up to `D`. -/
theorem C60_small_distance {L : LinGraph} {S : SGraph} {ord : List ℕ} (H : L.LRep S ord) (σ τ : ℕ → ℕ → Shuffle ℕ) {D : ℕ}
    (hD : 2 * D < 2 ^ 32) {x y : ℕ} (hx : x ∈ S.V) (hy : y ∈ S.V) :
    ∃ ws r, L.wreachSets σ τ D = .ok ws ∧ smallDistance ws D x y = .ok r ∧ ∀ n, r = some n ↔ IsDist S.Adj x y n ∧ n ≤ D := by
  obtain ⟨ws, h1, T⟩ := H.wreachSets σ τ (r := D) (by omega)
  obtain ⟨r, h2, h3⟩ := LinGraph.LRep.smallDistance H.ordering T hD hx hy
  exact ⟨ws, r, h1, h2, h3⟩

/-- `C60_small_distance` for a triangle with a pendant vertex. -/
example := fun σ τ => C60_small_distance pan_lin.choose_spec.2 σ τ (D := 3) (by decide) (x := 1) (y := 2) (by decide) (by decide)

/-- **C60.** `small_distance_sets` returns the least length of a walk between the two sets if that is at most `D`, and `None`
otherwise. -/
theorem C60_small_distance_sets {L : LinGraph} {S : SGraph} {ord : List ℕ} (H : L.LRep S ord) (σ τ : ℕ → ℕ → Shuffle ℕ)
    (ρ : Shuffle ℕ) {D : ℕ} (hD : 2 * D < 2 ^ 32) {X Y : List ℕ} (hX : ∀ x ∈ X, x ∈ S.V) (hY : ∀ y ∈ Y, y ∈ S.V) :
    ∃ ws r, L.wreachSets σ τ D = .ok ws ∧ smallDistanceSets ρ ws D X Y = .ok r ∧
      ∀ n, r = some n ↔ IsMin (fun n => ∃ x ∈ X, ∃ y ∈ Y, Walk S.Adj n x y) n ∧ n ≤ D := by
  obtain ⟨ws, h1, T⟩ := H.wreachSets σ τ (r := D) (by omega)
  obtain ⟨r, h2, h3⟩ := LinGraph.LRep.smallDistanceSets H.ordering ρ T hD hX hY
  exact ⟨ws, r, h1, h2, h3⟩

/-- Hypotheses of the C60 theorems are met. -/
example : ∃ (L : LinGraph) (S : SGraph), L.LRep S [2, 0, 1] ∧ 2 * 3 < 2 ^ 32 ∧ 0 ∈ S.V ∧ 2 ∈ S.V ∧ S.Adj 0 1 ∧ S.Adj 1 2 := by
  obtain ⟨L, S, H, h01, h12, -⟩ := exLin
  exact ⟨L, S, H, by omega, h01.left, h12.right, h01, h12⟩

end Verif
