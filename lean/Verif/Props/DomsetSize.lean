import Verif.Props.LinearAlg2
/-!
# C93: the dominating set is an approximation
-/
namespace Verif
open SGraph

/-- **C93.** If from every vertex fewer than `c` vertices are weakly reachable within distance `radius`, then the set returned
by `domset_with_target` has at most `c·(c + (2·radius)²)` times as many elements as any set `X` that has every target vertex of
the graph within distance `radius`. -/
theorem C93_domset_with_target_size {L : LinGraph} {S : SGraph} {ord : List ℕ} (H : L.LRep S ord) (ω : LinGraph.DomOrder)
    (hω : ∀ g, EditGraph.Relayout g (ω.witness.lay g)) {r : ℕ} (hr : r < 2 ^ 15) (hn : S.V.card ≤ 2 ^ 31) (target : List ℕ)
    {c : ℕ} (hc : ∀ v ∈ S.V, ∀ W : Finset ℕ, (∀ u ∈ W, ∃ d ≤ r, S.WReach ord v u d) → W.card < c) (X : Finset ℕ)
    (hX : ∀ x ∈ target, x ∈ S.V → ∃ d ∈ X, ∃ n ≤ r, Walk S.Adj n d x) :
    ∃ D m, L.domsetWithTarget ω r false target = .ok (D, m, none) ∧ D.len ≤ X.card * (c * (c + (2 * r) ^ 2)) := by
  obtain ⟨D, m, A, T, o, h1, -, h2, -, -, -, hT, hT', -, -, -, hex, hfew⟩ := domset_core H ω hω hr hn target
  refine ⟨D, m, h1, ?_⟩
  have hTV : T.V ⊆ S.V := fun x hx => h2 x (hT hx)
  have hb := Dom.size_bound H.ordering (r := r) (k := 2 * r * (2 * r) + 1) (c := c) (T := T.V)
    (E := D.toFinset \ T.V) (X := X) (by omega) hTV (fun x hx => hX x (hT' x hx) (hTV hx)) hc hfew (fun x hx => by
      rw [Finset.mem_sdiff, HSet.mem_toFinset] at hx
      obtain ⟨A, hA, hA'⟩ := ((hex x (h2 x hx.1)).1 hx.1).resolve_left hx.2
      exact ⟨A, fun s hs => (hA s).1 hs, hA'⟩)
  rw [Finset.union_sdiff_of_subset hT, ← HSet.len_eq_card, Nat.add_sub_cancel, ← Nat.pow_two] at hb
  exact hb

/-- **C93.** In terms of the API: if every value of `wreach_sizes(radius)` is less than `c`, then the set returned by
`domset(radius, _)` has at most `c·(c + (2·radius)²)` times as many elements as any set within distance `radius` of every
vertex.  The same holds for the set returned together with a witness. -/
theorem C93_domset_size {L : LinGraph} {S : SGraph} {ord : List ℕ} (H : L.LRep S ord) (ω : LinGraph.DomOrder)
    (hω : ∀ g, EditGraph.Relayout g (ω.witness.lay g)) {r : ℕ} (hr : r < 2 ^ 15) (hn : S.V.card ≤ 2 ^ 31)
    (σ τ : ℕ → ℕ → Shuffle ℕ) {sizes : HMap ℕ ℕ} (hs : L.wreachSizes σ τ r = .ok sizes) {c : ℕ}
    (hc : ∀ v k, sizes.get? v = some k → k < c) (X : Finset ℕ)
    (hX : ∀ x ∈ S.V, ∃ d ∈ X, ∃ n ≤ r, Walk S.Adj n d x) (w : Bool) {D : HSet ℕ} {m : HMap ℕ ℕ} {col : Option (HMap ℕ ℕ)}
    (h : L.domset ω r w = .ok (D, m, col)) : D.len ≤ X.card * (c * (c + (2 * r) ^ 2)) := by
  classical
  obtain ⟨sizes', hs', -, h3⟩ := C53_wreach_sizes H σ τ (r := r) (by omega) (by omega)
  rw [hs] at hs'
  cases hs'
  obtain ⟨D', m', h4, h5⟩ := C93_domset_with_target_size H ω hω hr hn L.vertices (c := c) (fun v hv W hW => by
    refine lt_of_le_of_lt (Finset.card_le_card fun u hu => ?_) (hc v _ (h3 v hv))
    obtain ⟨d, hd, hr⟩ := hW u hu
    exact Finset.mem_filter.2 ⟨hr.left_mem H.ordering, d, hd, hr⟩) X (fun x _ hx => hX x hx)
  obtain ⟨D'', m'', h6, h7⟩ := C56_domset_witness H ω hω hr hn L.vertices
  rw [h4] at h6
  cases h6
  have hD : D = D' := by
    unfold LinGraph.domset at h
    cases w with
    | false => rw [h4] at h; cases h; rfl
    | true =>
      rcases h7 with ⟨-, h7⟩ | ⟨c', h7⟩
      · rw [h7] at h; cases h
      · rw [h7] at h; cases h; rfl
  subst hD
  exact h5

/-- Hypotheses of the C93 theorems are met: on the path 0-1-2-3-4 with this ordering and radius 1, at most one vertex is
weakly reachable from each vertex, so that `c = 2` can be used, and 1 and 3 dominate. -/
example : ∃ (o : OrdGraph) (S : SGraph) (sizes : HMap ℕ ℕ), o.lin.LRep S [0, 1, 2, 3, 4] ∧ S.V.card ≤ 2 ^ 31 ∧
    (∀ g, EditGraph.Relayout g (idDom.witness.lay g)) ∧
    o.lin.wreachSizes (fun _ _ => Shuffle.id) (fun _ _ => Shuffle.id) 1 = .ok sizes ∧
    (∀ v k, sizes.get? v = some k → k < 2) ∧ (∃ v, sizes.get? v = some 1) ∧
    (∀ x ∈ S.V, ∃ d ∈ ({1, 3} : Finset ℕ), ∃ n ≤ 1, Walk S.Adj n d x) ∧
    ∃ D m col, o.lin.domset idDom 1 false = .ok (D, m, col) := by
  obtain ⟨o, ho, H⟩ := builtOrd_lin [(0, 1), (1, 2), (2, 3), (3, 4)] [0, 1, 2, 3, 4] (by decide) (by decide) (by decide)
  have h1 : ((builtOrd [(0, 1), (1, 2), (2, 3), (3, 4)] [0, 1, 2, 3, 4]).bind fun o =>
    (o.lin.wreachSizes (fun _ _ => Shuffle.id) (fun _ _ => Shuffle.id) 1).map HMap.entries) =
      .ok [(4, 1), (3, 1), (2, 1), (1, 1), (0, 0)] := by decide +kernel
  rw [ho] at h1
  obtain ⟨D, m, h2, -⟩ := C56_domset H idDom relayout_refl (r := 1) (by omega) (by decide)
  cases hs : o.lin.wreachSizes (fun _ _ => Shuffle.id) (fun _ _ => Shuffle.id) 1 with
  | error e => simp only [Except.bind, hs, Except.map] at h1; cases h1
  | ok sizes =>
    simp only [Except.bind, hs, Except.map, Except.ok.injEq] at h1
    refine ⟨o, _, sizes, H, by decide, relayout_refl, hs, fun v k hk => ?_, ⟨1, ?_⟩, ?_, D, m, none, h2⟩
    · rw [HMap.get?_eq_some, h1] at hk
      simp only [List.mem_cons, Prod.mk.injEq, List.not_mem_nil, or_false] at hk
      omega
    · rw [HMap.get?_eq_some, h1]
      decide
    · intro x hx
      have : x ∈ ([0, 1, 2, 3, 4] : List ℕ) := (H.ordering.mem x).2 hx
      simp only [List.mem_cons, List.not_mem_nil, or_false] at this
      rcases this with rfl | rfl | rfl | rfl | rfl
      · exact ⟨1, by decide, 1, le_refl _, Walk.one_iff.2 (by decide)⟩
      · exact ⟨1, by decide, 0, by omega, .nil _⟩
      · exact ⟨1, by decide, 1, le_refl _, Walk.one_iff.2 (by decide)⟩
      · exact ⟨3, by decide, 0, by omega, .nil _⟩
      · exact ⟨3, by decide, 1, le_refl _, Walk.one_iff.2 (by decide)⟩

end Verif
