import Verif.Lemmas.DegenOps
/-!
# Property C133: degeneracy of contractions, complements, unions, products and subdivisions

Every statement compares values returned by `degeneracy`, `components`, `num_edges` and `num_vertices`.
-/
namespace Verif
open EditGraph

/-- What is known about the returned upper bound for any graph without loops. -/
theorem Graph.Rep.degeneracy_upper {G : Graph} {S : SGraph} (hG : G.Rep S) (hl : S.Loopless) (hn : S.V.card ≤ 2 ^ 31)
    {σ : ℕ → Shuffle Vertex} {lo up : ℕ} {ord : List ℕ} {core : HMap ℕ ℕ} (h : G.degeneracy σ = .ok (lo, up, ord, core)) :
    ∃ k, S.IsDegeneracy k ∧ up ≤ k ∧ (up ≤ 129 → k = up) ∧ (k ≤ 130 → lo = k ∧ up = k) := by
  obtain ⟨k, hk⟩ := S.exists_degeneracy
  obtain ⟨lo', up', ord', core', h', h1, h2, h3, h4, -, -⟩ := C40_bounds_partial hG hl hn σ hk
  rw [h] at h'
  cases h'
  refine ⟨k, hk, h4, fun h5 => ?_, fun h5 => ?_⟩
  · obtain ⟨-, h6⟩ := hG.degeneracy_exact hl hn h h5
    exact le_antisymm (hk.2 _ h6.1) (h6.2 _ hk.1)
  · obtain ⟨ord'', core'', h6, -⟩ := C39_exact_of_degeneracy hG hl σ hk h5
    rw [h] at h6
    cases h6
    exact ⟨rfl, rfl⟩

theorem EditGraph.Abs.loopless {g : EditGraph} {S : SGraph} (A : Abs g S) (hl : ∀ u, g.adjacent u u = false) : S.Loopless :=
  fun u hu => by
    have := (A.adj_iff u u).2 hu
    rw [hl u] at this
    cases this

/-- **C133, contract_pair.** Contracting two vertices, adjacent or not, changes the degeneracy by at most 1. -/
theorem C133_contract_pair {g : EditGraph} (hg : Reachable g) (hl : ∀ u, g.adjacent u u = false) (hn : g.numVertices ≤ 2 ^ 31)
    {u v : ℕ} (hu : g.contains u = true) (hv : g.contains v = true) (huv : u ≠ v) (ρ : Shuffle Vertex)
    (σ σ' : ℕ → Shuffle Vertex) {lo up : ℕ} {ord : List ℕ} {core : HMap ℕ ℕ}
    (hd : g.view.degeneracy σ = .ok (lo, up, ord, core)) (hup : up ≤ 129) :
    ∃ h k ord' core', g.contractPair ρ u v = .ok h ∧ h.view.degeneracy σ' = .ok (k, k, ord', core') ∧
      k ≤ up + 1 ∧ up ≤ k + 1 := by
  obtain ⟨S, A⟩ := hg.abs
  have hlS := A.loopless hl
  obtain ⟨-, p⟩ := A.rep.degeneracy_exact hlS (by rw [← A.numVertices]; exact hn) hd hup
  rw [A.mem_iff] at hu hv
  obtain ⟨h, hh, T, B, hV, hA⟩ := A.contractPair ρ hu hv
  beta_reduce at hV hA
  obtain ⟨k, q⟩ := T.exists_degeneracy
  obtain ⟨h1, h2⟩ := p.contract q hlS hu huv hV hA
  have hlT : T.Loopless := fun x hx => by
    rcases ((hA x x).1 hx).2.2 with h | ⟨h, h', -⟩ | ⟨h, h', -⟩
    · exact hlS x h
    · exact h' h
    · exact h' h
  obtain ⟨ord', core', h3, -⟩ := C39_exact_of_degeneracy B.rep hlT σ' q (by omega)
  exact ⟨h, k, ord', core', hh, h3, h2, h1⟩

/-- A complete graph on `0, 1, 2, 3` in which `3` was split into `3` and `4`. -/
def splitS : SGraph := SGraph.empty.addEdges [(0, 1), (1, 2), (0, 2), (3, 0), (3, 1), (4, 2), (3, 4)]

theorem splitS_degeneracy : splitS.IsDegeneracy 2 := by
  refine .of (fun W hW hne => ?_) {0, 1, 2} (by decide) ⟨0, by decide⟩ (by decide)
  have key : ∀ W ∈ splitS.V.powerset, W.Nonempty → ∃ w ∈ W, splitS.degIn W w ≤ 2 := by decide
  exact key W (Finset.mem_powerset.2 hW) hne

theorem splitS_loopless : splitS.Loopless := fun u h => by
  have key : ∀ u ∈ splitS.V, ¬ splitS.Adj u u := by decide
  exact key u h.left h

/-- **C133, contracting an edge can raise the degeneracy**, from 2 to 3 in the smallest case: unlike the reachability widths of
C131 the degeneracy is not monotone under contractions. -/
theorem C133_contract_raises (ρ : Shuffle Vertex) (σ σ' : ℕ → Shuffle Vertex) :
    ∃ g h ord core ord' core', Reachable g ∧ g.adjacent 3 4 = true ∧ g.view.degeneracy σ = .ok (2, 2, ord, core) ∧
      g.contractPair ρ 3 4 = .ok h ∧ h.view.degeneracy σ' = .ok (3, 3, ord', core') := by
  obtain ⟨⟨g, n⟩, -, A, -⟩ := EditGraph.abs_new.addEdges [(0, 1), (1, 2), (0, 2), (3, 0), (3, 1), (4, 2), (3, 4)]
  replace A : Abs g splitS := A
  obtain ⟨h, hh, T, B, hV, hA⟩ := A.contractPair ρ (u := 3) (v := 4) (by decide) (by decide)
  beta_reduce at hV hA
  have hlT : T.Loopless := fun x hx => by
    rcases ((hA x x).1 hx).2.2 with h | ⟨h, h', -⟩ | ⟨h, h', -⟩
    · exact splitS_loopless x h
    · exact h' h
    · exact h' h
  have hTV : T.V = {0, 1, 2, 3} := by
    have key : splitS.V = {0, 1, 2, 3, 4} := by decide
    ext x
    rw [hV, key]
    simp only [Finset.mem_insert, Finset.mem_singleton]
    omega
  have q : T.IsDegeneracy 3 := by
    refine .of (fun W hW ⟨w, hw⟩ => ⟨w, hw, ?_⟩) T.V (Finset.Subset.refl _) ⟨0, by rw [hTV]; decide⟩ fun w hw => ?_
    · have h1 := SGraph.degIn_lt_card hlT hw
      have h2 := Finset.card_le_card hW
      rw [hTV] at h2
      have h3 : ({0, 1, 2, 3} : Finset ℕ).card = 4 := by decide
      omega
    · have h3 : 3 = (T.V.erase w).card := by rw [Finset.card_erase_of_mem hw, hTV]; rfl
      refine le_trans (le_of_eq h3) (SGraph.le_degIn_of fun x hx => ?_)
      rw [Finset.mem_erase] at hx
      refine ⟨hx.2, (hA w x).2 ?_⟩
      have key : ∀ w ∈ ({0, 1, 2, 3} : Finset ℕ), ∀ x ∈ ({0, 1, 2, 3} : Finset ℕ), x ≠ w → w ≠ 4 ∧ x ≠ 4 ∧ (splitS.Adj w x ∨
        (w = 3 ∧ x ≠ 3 ∧ splitS.Adj 4 x) ∨ (x = 3 ∧ w ≠ 3 ∧ splitS.Adj 4 w)) := by decide
      rw [hTV] at hw hx
      exact key w hw x hx.2 hx.1
  obtain ⟨ord, core, h1, -⟩ := C39_exact_of_degeneracy A.rep splitS_loopless σ splitS_degeneracy (by omega)
  obtain ⟨ord', core', h2, -⟩ := C39_exact_of_degeneracy B.rep hlT σ' q (by omega)
  exact ⟨g, h, ord, core, ord', core', A.reachable, by rw [A.adj_iff]; decide, h1, hh, h2⟩

/-- **C133, invert.** The degeneracies of a graph with `n` vertices and of its complement sum to at least `(n - 1) / 2` and at
most `n - 1`. -/
theorem C133_invert {G : Graph} {S : SGraph} (hG : G.Rep S) (hl : S.Loopless) (hn : G.numVertices ≤ 2 ^ 31)
    (σ σ' : ℕ → Shuffle Vertex) {lo up : ℕ} {ord : List ℕ} {core : HMap ℕ ℕ} (hd : G.degeneracy σ = .ok (lo, up, ord, core)) :
    ∃ h lo' up' ord' core', G.invert = .ok h ∧ h.view.degeneracy σ' = .ok (lo', up', ord', core') ∧
      up + up' ≤ G.numVertices - 1 ∧ (up ≤ 129 → up' ≤ 129 → G.numVertices - 1 ≤ 2 * (up + up')) := by
  rw [hG.nv] at hn ⊢
  obtain ⟨k, p, h1, h2, -⟩ := hG.degeneracy_upper hl hn hd
  obtain ⟨h, hh, T, B, hV, hA⟩ := hG.invert
  beta_reduce at hV hA
  have hTV : T.V = S.V := by ext x; exact hV x
  have hlT : T.Loopless := fun u hu => ((hA u u).1 hu).2.2.1 rfl
  obtain ⟨l, q⟩ := T.exists_degeneracy
  obtain ⟨lo', up', ord', core', e, -⟩ := C40_bounds_partial B.rep hlT (hTV ▸ hn) σ' q
  obtain ⟨l', q', h3, h4, -⟩ := B.rep.degeneracy_upper hlT (hTV ▸ hn) e
  obtain ⟨h5, h6⟩ := p.invert q' hl hTV hA
  refine ⟨h, lo', up', ord', core', hh, e, by omega, fun a b => ?_⟩
  have := h2 a
  have := h4 b
  omega

/-- `C133_invert` for a triangle with a pendant vertex. -/
example := fun σ σ' => C133_invert caseG_rep caseS_loopless (caseG_rep.nv ▸ caseS_card) σ σ'
  (C39_exact_of_degeneracy caseG_rep caseS_loopless σ caseS_degeneracy (by decide)).choose_spec.choose_spec.1

/-- **C133, merge.** The degeneracy of a union is at least the larger one and less than twice the sum. -/
theorem C133_merge {G H : Graph} {S T : SGraph} (hG : G.Rep S) (hH : H.Rep T) (hS : S.Loopless) (hT : T.Loopless)
    (hn : G.numVertices + H.numVertices ≤ 2 ^ 31) (σ σ' σ'' : ℕ → Shuffle Vertex) {lo up lo' up' : ℕ} {ord ord' : List ℕ}
    {core core' : HMap ℕ ℕ} (hd : G.degeneracy σ = .ok (lo, up, ord, core)) (hup : up ≤ 129)
    (hd' : H.degeneracy σ' = .ok (lo', up', ord', core')) (hup' : up' ≤ 129) :
    ∃ h lo'' up'' ord'' core'', G.merge H = .ok h ∧ h.view.degeneracy σ'' = .ok (lo'', up'', ord'', core'') ∧
      max up up' ≤ up'' ∧ up'' ≤ 2 * (up + up') - 1 := by
  rw [hG.nv, hH.nv] at hn
  obtain ⟨-, p⟩ := hG.degeneracy_exact hS (by omega) hd hup
  obtain ⟨-, p'⟩ := hH.degeneracy_exact hT (by omega) hd' hup'
  obtain ⟨h, hh, X, B, hV, hA⟩ := hG.merge hH
  beta_reduce at hV hA
  have hlX : X.Loopless := fun u hu => ((hA u u).1 hu).elim (hS u) (hT u)
  have hc : X.V.card ≤ 2 ^ 31 := by
    rw [show X.V = S.V ∪ T.V by ext x; rw [hV, Finset.mem_union]]
    exact (Finset.card_union_le _ _).trans hn
  obtain ⟨m, q⟩ := X.exists_degeneracy
  obtain ⟨h1, h2⟩ := p.merge p' q hS hT hV hA
  obtain ⟨lo'', up'', ord'', core'', e, -⟩ := C40_bounds_partial B.rep hlX hc σ'' q
  obtain ⟨m', q', h3, h4, h5⟩ := B.rep.degeneracy_upper hlX hc e
  obtain rfl : m' = m := le_antisymm (q'.2 _ q.1) (q.2 _ q'.1)
  refine ⟨h, lo'', up'', ord'', core'', hh, e, ?_, by omega⟩
  by_cases h6 : up'' ≤ 129
  · rw [← h4 h6]; exact h1
  · have := max_le hup hup'
    omega

/-- **C133, intersect.** The degeneracy of an intersection is at most the smaller one. -/
theorem C133_intersect {G H : Graph} {S T : SGraph} (hG : G.Rep S) (hH : H.Rep T) (hS : S.Loopless) (hT : T.Loopless)
    (hn : G.numVertices ≤ 2 ^ 31) (hn' : H.numVertices ≤ 2 ^ 31) (σ σ' σ'' : ℕ → Shuffle Vertex) {lo up lo' up' : ℕ}
    {ord ord' : List ℕ} {core core' : HMap ℕ ℕ} (hd : G.degeneracy σ = .ok (lo, up, ord, core)) (hup : up ≤ 129)
    (hd' : H.degeneracy σ' = .ok (lo', up', ord', core')) (hup' : up' ≤ 129) :
    ∃ h k ord'' core'', G.intersect H = .ok h ∧ h.view.degeneracy σ'' = .ok (k, k, ord'', core'') ∧ k ≤ min up up' := by
  rw [hG.nv] at hn
  rw [hH.nv] at hn'
  obtain ⟨-, p⟩ := hG.degeneracy_exact hS hn hd hup
  obtain ⟨-, p'⟩ := hH.degeneracy_exact hT hn' hd' hup'
  obtain ⟨h, hh, X, B, hV, hA⟩ := hG.intersect hH
  beta_reduce at hV hA
  obtain ⟨k, q⟩ := X.exists_degeneracy
  have h1 := p.mono q (fun u hu => ((hV u).1 hu).1) fun a b h => ((hA a b).1 h).1
  have h2 := p'.mono q (fun u hu => ((hV u).1 hu).2) fun a b h => ((hA a b).1 h).2
  obtain ⟨ord'', core'', e, -⟩ := C39_exact_of_degeneracy B.rep (fun u hu => hS u ((hA u u).1 hu).1) σ'' q (by omega)
  exact ⟨h, k, ord'', core'', hh, e, le_min h1 h2⟩

/-- `C133_merge` and `C133_intersect` for a graph and itself. -/
example := fun σ σ' σ'' => C133_merge caseG_rep caseG_rep caseS_loopless caseS_loopless (by rw [caseG_rep.nv]; decide) σ σ' σ''
  (C39_exact_of_degeneracy caseG_rep caseS_loopless σ caseS_degeneracy (by decide)).choose_spec.choose_spec.1 (by decide)
  (C39_exact_of_degeneracy caseG_rep caseS_loopless σ' caseS_degeneracy (by decide)).choose_spec.choose_spec.1 (by decide)

example := fun σ σ' σ'' => C133_intersect caseG_rep caseG_rep caseS_loopless caseS_loopless (caseG_rep.nv ▸ caseS_card)
  (caseG_rep.nv ▸ caseS_card) σ σ' σ''
  (C39_exact_of_degeneracy caseG_rep caseS_loopless σ caseS_degeneracy (by decide)).choose_spec.choose_spec.1 (by decide)
  (C39_exact_of_degeneracy caseG_rep caseS_loopless σ' caseS_degeneracy (by decide)).choose_spec.choose_spec.1 (by decide)

/-- **C133, number of edges.** A graph with `n` vertices and degeneracy `d` has at most `d n - d (d + 1) / 2` edges. -/
theorem C133_edges {G : Graph} {S : SGraph} (hG : G.Rep S) (hl : S.Loopless) (hn : G.numVertices ≤ 2 ^ 31)
    (σ : ℕ → Shuffle Vertex) {lo up : ℕ} {ord : List ℕ} {core : HMap ℕ ℕ} (hd : G.degeneracy σ = .ok (lo, up, ord, core))
    (hup : up ≤ 129) : 2 * G.numEdges + up * (up + 1) ≤ 2 * (up * G.numVertices) := by
  rw [hG.nv] at hn ⊢
  rw [hG.ne]
  exact (hG.degeneracy_exact hl hn hd hup).2.edges_le hl

/-- **C133, forests.** The returned upper bound is at most 1 iff the graph is a forest, that is iff edges and components together
number as many as the vertices; it is 0 iff there are no edges. -/
theorem C133_forest {G : Graph} {S : SGraph} (hG : G.Rep S) (hl : S.Loopless) (hn : G.numVertices ≤ 2 ^ 31)
    (σ : ℕ → Shuffle Vertex) (τ : Shuffle (List Vertex)) {lo up : ℕ} {ord : List ℕ} {core : HMap ℕ ℕ}
    (hd : G.degeneracy σ = .ok (lo, up, ord, core)) :
    ∃ cs, G.components τ = .ok cs ∧ (up ≤ 1 ↔ G.numVertices = G.numEdges + cs.length) ∧ (up = 0 ↔ G.numEdges = 0) := by
  rw [hG.nv] at hn ⊢
  rw [hG.ne]
  obtain ⟨k, p, h1, h2, h3⟩ := hG.degeneracy_upper hl hn hd
  obtain ⟨cs, e, h4⟩ := hG.components_length τ
  refine ⟨cs, e, ?_, ?_⟩
  · rw [h4, ← p.le_one_iff hl]
    exact ⟨fun h => by have := h2 (by omega); omega, fun h => by omega⟩
  · rw [← p.eq_zero_iff hl]
    exact ⟨fun h => by have := h2 (by omega); omega, fun h => by omega⟩

/-- `C133_edges` and `C133_forest` for a triangle with a pendant vertex. -/
example := fun σ => C133_edges caseG_rep caseS_loopless (caseG_rep.nv ▸ caseS_card) σ
  (C39_exact_of_degeneracy caseG_rep caseS_loopless σ caseS_degeneracy (by decide)).choose_spec.choose_spec.1 (by decide)

example := fun σ τ => C133_forest caseG_rep caseS_loopless (caseG_rep.nv ▸ caseS_card) σ τ
  (C39_exact_of_degeneracy caseG_rep caseS_loopless σ caseS_degeneracy (by decide)).choose_spec.choose_spec.1

/-- **C133, subdivide.** Subdividing every edge at least once gives a graph with degeneracy 2, unless the graph was a forest,
whose degeneracy (0 or 1) does not change. -/
theorem C133_subdivide {G : Graph} {S : SGraph} (hG : G.Rep S) (hl : S.Loopless) (hn : G.numVertices ≤ 2 ^ 31) (t : ℕ) (ht1 : 1 ≤ t)
    (ht : ∀ v ∈ S.V, v + 1 + t * S.E.card < 2 ^ 32) (σ σ' : ℕ → Shuffle Vertex) {lo up : ℕ} {ord : List ℕ} {core : HMap ℕ ℕ}
    (hd : G.degeneracy σ = .ok (lo, up, ord, core)) :
    ∃ h ord' core', G.subdivide t = .ok h ∧ h.view.degeneracy σ' = .ok (min 2 up, min 2 up, ord', core') := by
  obtain ⟨cs, e1, h1, h2⟩ := C133_forest hG hl hn σ .id hd
  obtain ⟨h, T, es, b, hh, B, D⟩ := hG.subdivData t ht
  have hlT := D.loopless ht1
  obtain ⟨k, q⟩ := T.exists_degeneracy
  have hk : k ≤ 2 := q.2 2 fun W hW hne => D.degIn_le ht1 hW hne
  obtain ⟨ord', core', e2, -⟩ := C39_exact_of_degeneracy B.rep hlT σ' q (by omega)
  obtain ⟨h', hh', -, ⟨_, _, -, -, -, -, -, hv⟩, he, -⟩ := C21_subdivide_partial hG t ht (.inl hl)
  obtain ⟨h'', cg, ch, hh'', e3, e4, e5⟩ := C98_subdivide hG t ht .id .id
  rw [hh] at hh' hh''
  cases hh'
  cases hh''
  rw [e1] at e3
  cases e3
  obtain ⟨ch', e6, h6⟩ := B.rep.components_length .id
  rw [e4] at e6
  cases e6
  have h3 := q.le_one_iff hlT
  have h4 := q.eq_zero_iff hlT
  rw [B.numVertices] at hv
  rw [B.numEdges] at he
  rw [hv, he, ← h6, e5] at h3
  rw [he] at h4
  rw [hG.nv, hG.ne] at h1
  rw [hG.ne] at h2
  rw [Nat.succ_mul] at h3 h4
  have h7 : 0 ≤ t * S.E.card := Nat.zero_le _
  have h8 : S.E.card = 0 → t * S.E.card = 0 := fun h => by rw [h, Nat.mul_zero]
  obtain rfl : k = min 2 up := by omega
  exact ⟨h, ord', core', hh, e2⟩

/-- `C133_subdivide` for a triangle with a pendant vertex. -/
example := fun σ σ' => C133_subdivide caseG_rep caseS_loopless (caseG_rep.nv ▸ caseS_card) 2 (by decide) (by decide) σ σ'
  (C39_exact_of_degeneracy caseG_rep caseS_loopless σ caseS_degeneracy (by decide)).choose_spec.choose_spec.1

/-- **C133, lexicographic product.** The degeneracy of the product lies between `max c (n₁ d)` and `n₁ d + c`. -/
theorem C133_lexicographic {G H : Graph} {S T : SGraph} (hG : G.Rep S) (hH : H.Rep T) (hS : S.Loopless) (hT : T.Loopless)
    (hS0 : 0 < G.numVertices) (hT0 : 0 < H.numVertices) (hn : G.numVertices * H.numVertices ≤ 2 ^ 31)
    (ρ : Shuffle ((Vertex × Vertex) × Vertex)) (σ σ' σ'' : ℕ → Shuffle Vertex) {lo lo' c d : ℕ} {ord ord' : List ℕ}
    {core core' : HMap ℕ ℕ} (hd : G.degeneracy σ = .ok (lo, c, ord, core)) (hc : c ≤ 129)
    (hd' : H.degeneracy σ' = .ok (lo', d, ord', core')) (hd129 : d ≤ 129) :
    ∃ h inv lo'' m ord'' core'', G.lexicographicProduct ρ H = .ok (h, inv) ∧
      h.view.degeneracy σ'' = .ok (lo'', m, ord'', core'') ∧ m ≤ G.numVertices * d + c ∧
      (m ≤ 129 → max c (G.numVertices * d) ≤ m) := by
  have q1 : G.numVertices ≤ 2 ^ 31 := le_trans (Nat.le_mul_of_pos_right _ hT0) hn
  have q2 : H.numVertices ≤ 2 ^ 31 := le_trans (Nat.le_mul_of_pos_left _ hS0) hn
  rw [hG.nv] at hS0 hn q1 ⊢
  rw [hH.nv] at hT0 hn q2
  obtain ⟨-, p⟩ := hG.degeneracy_exact hS q1 hd hc
  obtain ⟨-, p'⟩ := hH.degeneracy_exact hT q2 hd' hd129
  obtain ⟨h, inv, hh, hr, hM, hA, hV⟩ := C23_lexicographic_partial hG hH ρ (lt_of_le_of_lt hn (by decide))
  obtain ⟨P, B⟩ := hr.abs
  obtain ⟨e, I, -⟩ := hM.isProduct B hA hV
  have hlP := I.loopless_lex hS hT
  have hc : P.V.card ≤ 2 ^ 31 := by
    refine le_trans (le_trans (Finset.card_le_card (t := Finset.range (S.V.card * T.V.card)) fun i hi =>
      Finset.mem_range.2 (I.lt hi)) (le_of_eq (Finset.card_range _))) hn
  obtain ⟨m, q⟩ := P.exists_degeneracy
  obtain ⟨h1, h2⟩ := I.degeneracy_lex (Finset.card_pos.1 hS0) (Finset.card_pos.1 hT0) p p' q
  obtain ⟨lo'', up'', ord'', core'', e, -⟩ := C40_bounds_partial B.rep hlP hc σ'' q
  obtain ⟨m', q', h3, h4, h5⟩ := B.rep.degeneracy_upper hlP hc e
  obtain rfl : m' = m := le_antisymm (q'.2 _ q.1) (q.2 _ q'.1)
  exact ⟨h, inv, lo'', up'', ord'', core'', hh, e, by omega, fun h6 => by rw [← h4 h6]; exact h1⟩

/-- `C133_contract_pair` and `C133_lexicographic` for a triangle with a pendant vertex. -/
example := fun ρ σ σ' => C133_contract_pair caseG_reachable (fun u => by
    rw [caseG_abs.adjacent]; exact decide_eq_false (caseS_loopless u)) (by rw [caseG_abs.numVertices]; exact caseS_card)
  (caseG_contains.2 (show 0 < 4 by decide)) (caseG_contains.2 (show 3 < 4 by decide)) (by decide) ρ σ σ'
  (C39_exact_of_degeneracy caseG_rep caseS_loopless σ caseS_degeneracy (by decide)).choose_spec.choose_spec.1 (by decide)

example := fun ρ σ σ' σ'' => C133_lexicographic caseG_rep caseG_rep caseS_loopless caseS_loopless (by rw [caseG_rep.nv]; decide)
  (by rw [caseG_rep.nv]; decide) (by rw [caseG_rep.nv]; decide) ρ σ σ' σ''
  (C39_exact_of_degeneracy caseG_rep caseS_loopless σ caseS_degeneracy (by decide)).choose_spec.choose_spec.1 (by decide)
  (C39_exact_of_degeneracy caseG_rep caseS_loopless σ' caseS_degeneracy (by decide)).choose_spec.choose_spec.1 (by decide)

end Verif
