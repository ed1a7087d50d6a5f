import Verif.Props.LinearAlg2
/-!
# C88: greedy colouring along a degeneracy ordering
-/
namespace Verif
open SGraph

/-- **C88**, full statement. -/
def C88_statement : Prop := ∀ (G : Graph) (S : SGraph) (σ : ℕ → Shuffle Vertex), G.Rep S → S.Loopless → S.V.card ≤ 2 ^ 31 →
  ∃ g c, OrdGraph.byDegeneracy σ G = .ok g ∧ g.lin.colourGreedy = .ok c ∧ (∀ u, u ∈ c.keys ↔ u ∈ S.V) ∧
    (∀ u v k, S.Adj u v → c.get? u = some k → c.get? v ≠ some k) ∧
    ∀ d, S.IsDegeneracy d → ∀ u k, c.get? u = some k → k ≤ d

theorem byDegeneracy_eq {G : Graph} {σ : ℕ → Shuffle Vertex} {lo up : ℕ} {ord : List ℕ} {core : HMap ℕ ℕ} {g : OrdGraph}
    (h : G.degeneracy σ = .ok (lo, up, ord, core)) (h' : OrdGraph.withOrdering G ord = .ok g) :
    OrdGraph.byDegeneracy σ G = .ok g := by
  unfold OrdGraph.byDegeneracy
  rw [h]
  exact h'

/-- **C88 (partial).** For a loopless graph of degeneracy `d ≤ 129`, `OrdGraph::by_degeneracy` followed by `colour_greedy` does
not panic and colours all vertices properly with the colours `0, …, d`.  Missing: larger degeneracy, for which it is false. -/
theorem C88_degeneracy_colouring_partial {G : Graph} {S : SGraph} (hG : G.Rep S) (hl : S.Loopless) (hn : S.V.card ≤ 2 ^ 31)
    (σ : ℕ → Shuffle Vertex) {d : ℕ} (hd : S.IsDegeneracy d) (hd' : d ≤ 129) :
    ∃ g c, OrdGraph.byDegeneracy σ G = .ok g ∧ g.lin.colourGreedy = .ok c ∧ (∀ u, u ∈ c.keys ↔ u ∈ S.V) ∧
      (∀ u v k, S.Adj u v → c.get? u = some k → c.get? v ≠ some k) ∧ ∀ u k, c.get? u = some k → k ≤ d := by
  obtain ⟨lo, up, ord, core, h1, h2, h3, h4⟩ := C38_smallest_last hG hl σ
  obtain ⟨g, h, I⟩ := OrdGraph.withOrdering_inv hG hl ⟨h2, h3⟩
  have hg := byDegeneracy_eq h1 h
  obtain ⟨_, _, _, _, h5, -, -, h6⟩ := C38_no_jump hG hl σ fun W hW hne => by
    obtain ⟨w, hw, hle⟩ := hd.1 W hW hne
    exact ⟨w, hw, by omega⟩
  rw [h1] at h5
  cases h5
  obtain ⟨c, c1, c2, c3, c4⟩ := I.lrep.colourGreedy_noJump (by omega) h6
  refine ⟨g, c, hg, c1, c2, c3, fun u k hk => ?_⟩
  obtain ⟨v, hv, rfl⟩ := c4 u k hk
  obtain ⟨pre, post, hs⟩ := List.append_of_mem ((h3 v).2 hv)
  rw [before_split hl h2 h3 hs]
  have hsub : insert v pre.toFinset ⊆ S.V := by
    intro x hx
    rw [← h3, hs]
    simp only [Finset.mem_insert, List.mem_toFinset] at hx
    rcases hx with rfl | hx
    · simp
    · exact List.mem_append_left _ hx
  obtain ⟨w, hw, hle⟩ := hd.1 _ hsub ⟨v, by simp⟩
  rcases Finset.mem_insert.1 hw with rfl | hw
  · exact hle
  · exact (h4 pre v post hs w (List.mem_toFinset.1 hw) (Or.inr (by omega))).trans hle

/-- Hypotheses of `C88_degeneracy_colouring_partial` are met by a triangle with a pendant vertex. -/
example : ∃ G : Graph, G.Rep pan ∧ pan.Loopless ∧ pan.V.card ≤ 2 ^ 31 ∧ pan.IsDegeneracy 2 := by
  obtain ⟨⟨g, k⟩, -, A, -⟩ := EditGraph.abs_new.addEdges [(0, 1), (3, 0), (3, 1), (3, 2)]
  refine ⟨g.view, A.rep, fun u h => ?_, by decide, fun W hW hne => ?_, fun k' hk' => ?_⟩
  · have key : ∀ u ∈ pan.V, ¬ pan.Adj u u := by decide
    exact key u h.left h
  · have key : ∀ W ∈ pan.V.powerset, W.Nonempty → ∃ w ∈ W, pan.degIn W w ≤ 2 := by decide
    exact key W (Finset.mem_powerset.2 hW) hne
  · obtain ⟨w, hw, hle⟩ := hk' {0, 1, 3} (by decide) ⟨0, by decide⟩
    have key : ∀ w ∈ ({0, 1, 3} : Finset ℕ), 2 ≤ pan.degIn {0, 1, 3} w := by decide
    exact (key w hw).trans hle

/-! ## Refutation -/

/-- Two complete graphs on the 133 vertices below 133 and the 133 vertices from 133 to 265, and vertex 266 adjacent to all
of the second and to one vertex of the first, and vertex 267 adjacent to 266. -/
def twoEdge (a b : ℕ) : Prop := a < b ∧ (b < 133 ∨ (133 ≤ a ∧ b < 266) ∨ (b = 266 ∧ 132 ≤ a) ∨ (a = 266 ∧ b = 267))

instance (a b : ℕ) : Decidable (twoEdge a b) := by unfold twoEdge; infer_instance

def twoEdges : List (ℕ × ℕ) := (List.range 268).flatMap fun b => ((List.range b).filter fun a => decide (twoEdge a b)).map fun a => (a, b)

theorem mem_twoEdges {a b : ℕ} : (a, b) ∈ twoEdges ↔ twoEdge a b := by
  unfold twoEdges
  simp only [List.mem_flatMap, List.mem_range, List.mem_map, List.mem_filter, decide_eq_true_eq, Prod.mk.injEq]
  constructor
  · rintro ⟨b', h1, a', ⟨h2, h3⟩, rfl, rfl⟩
    exact h3
  · intro h
    refine ⟨b, ?_, a, ⟨h.1, h⟩, rfl, rfl⟩
    obtain ⟨h1, h2⟩ := h
    omega

/-- The graph with these edges. -/
def two : SGraph := SGraph.empty.addEdges twoEdges

theorem two_adj {a b : ℕ} : two.Adj a b ↔ twoEdge a b ∨ twoEdge b a := by
  unfold two
  rw [SGraph.addEdges_adj]
  have : ¬ SGraph.empty.Adj a b := by simp [SGraph.Adj, SGraph.empty]
  simp only [mem_twoEdges, this, false_or]

theorem two_mem {u : ℕ} : u ∈ two.V ↔ u < 268 := by
  constructor
  · intro h
    unfold two at h
    rw [EditGraph.mem_addEdges_V] at h
    rcases h with h | ⟨⟨a, b⟩, he, h⟩
    · exact absurd h (Finset.notMem_empty u)
    · obtain ⟨h1, h2⟩ := mem_twoEdges.1 he
      simp only at h
      omega
  · intro h
    have key : ∃ v, two.Adj u v := by
      by_cases h0 : u < 132
      · exact ⟨132, two_adj.2 (Or.inl ⟨h0, by omega⟩)⟩
      · by_cases h1 : u < 266
        · exact ⟨266, two_adj.2 (Or.inl ⟨by omega, by omega⟩)⟩
        · by_cases h2 : u < 267
          · exact ⟨267, two_adj.2 (Or.inl ⟨by omega, by omega⟩)⟩
          · exact ⟨266, two_adj.2 (Or.inr ⟨by omega, by omega⟩)⟩
    exact key.choose_spec.left

theorem two_loopless : two.Loopless := by
  intro u h
  rcases two_adj.1 h with h | h <;> exact absurd h.1 (by omega)

/-- The number of neighbours below `v`. -/
theorem two_left {v : ℕ} (hv : v < 268) : two.degIn (Finset.range (v + 1)) v =
    if v < 133 then v else if v < 266 then v - 133 else if v < 267 then 134 else 1 := by
  unfold SGraph.degIn
  split
  · rw [show (Finset.range (v + 1)).filter (fun w => two.Adj v w) = Finset.range v by
      ext w
      rw [Finset.mem_filter, Finset.mem_range, Finset.mem_range, two_adj]
      unfold twoEdge
      omega]
    simp
  · split
    · rw [show (Finset.range (v + 1)).filter (fun w => two.Adj v w) = Finset.Ico 133 v by
        ext w
        rw [Finset.mem_filter, Finset.mem_range, Finset.mem_Ico, two_adj]
        unfold twoEdge
        omega]
      simp
    · split
      · rw [show (Finset.range (v + 1)).filter (fun w => two.Adj v w) = Finset.Ico 132 v by
          ext w
          rw [Finset.mem_filter, Finset.mem_range, Finset.mem_Ico, two_adj]
          unfold twoEdge
          omega]
        rw [Nat.card_Ico]
        omega
      · rw [show (Finset.range (v + 1)).filter (fun w => two.Adj v w) = {266} by
          ext w
          rw [Finset.mem_filter, Finset.mem_range, Finset.mem_singleton, two_adj]
          unfold twoEdge
          omega]
        simp

/-- A lower bound on the degrees among the first vertices. -/
theorem two_low {v w : ℕ} (hv : v < 268) (hw : w < v) :
    (if v < 133 then v else if v < 266 then v - 133 else 132) ≤ two.degIn (Finset.range (v + 1)) w := by
  have key : ∀ A : Finset ℕ, (∀ x ∈ A, x < v + 1 ∧ two.Adj w x) → A.card ≤ two.degIn (Finset.range (v + 1)) w := by
    intro A hA
    unfold SGraph.degIn
    refine Finset.card_le_card fun x hx => ?_
    rw [Finset.mem_filter, Finset.mem_range]
    exact hA x hx
  by_cases hw' : w < 133
  · have h1 := key ((Finset.range (min (v + 1) 133)).erase w) (fun x hx => by
      rw [Finset.mem_erase, Finset.mem_range] at hx
      rw [two_adj]
      unfold twoEdge
      omega)
    rw [Finset.card_erase_of_mem (by rw [Finset.mem_range]; omega), Finset.card_range] at h1
    split
    · omega
    · split <;> omega
  · by_cases hw'' : w < 266
    · have h1 := key ((Finset.Ico 133 (min (v + 1) 266)).erase w) (fun x hx => by
        rw [Finset.mem_erase, Finset.mem_Ico] at hx
        rw [two_adj]
        unfold twoEdge
        omega)
      rw [Finset.card_erase_of_mem (by rw [Finset.mem_Ico]; omega), Nat.card_Ico] at h1
      split
      · omega
      · split <;> omega
    · have h1 := key (Finset.Ico 133 266) (fun x hx => by
        rw [Finset.mem_Ico] at hx
        rw [two_adj]
        unfold twoEdge
        omega)
      rw [Nat.card_Ico] at h1
      split
      · omega
      · split <;> omega

theorem range_split {n v : ℕ} {pre post : List ℕ} (h : List.range n = pre ++ v :: post) :
    pre = List.range v ∧ v < n := by
  have h1 : (List.range n)[pre.length]? = some v := by rw [h]; simp
  obtain ⟨h2, h3⟩ := List.getElem?_eq_some_iff.1 h1
  rw [List.getElem_range] at h3
  rw [List.length_range] at h2
  refine ⟨?_, by omega⟩
  have h4 := congrArg (List.take pre.length) h
  rw [List.take_left' rfl, List.take_range] at h4
  rw [← h4]
  congr 1
  omega

theorem insert_range (v : ℕ) : insert v (List.range v).toFinset = Finset.range (v + 1) := by
  ext x
  simp only [Finset.mem_insert, List.mem_toFinset, List.mem_range, Finset.mem_range]
  omega

theorem two_range (u : ℕ) : u ∈ List.range 268 ↔ u ∈ two.V := by rw [two_mem, List.mem_range]

theorem two_card : two.V.card = 268 := by
  rw [show two.V = Finset.range 268 by ext u; rw [two_mem, Finset.mem_range], Finset.card_range]

/-- `degeneracy` may put vertex 266, whose degree 134 is in the same bucket as the least degree 132, last but one. -/
theorem two_peeled : two.Peeled (List.range 268) := by
  refine ⟨List.nodup_range, two_range, ?_⟩
  intro pre v post h w hw
  obtain ⟨rfl, hv⟩ := range_split h
  rw [List.mem_range] at hw
  rw [insert_range, two_left hv]
  have hlow := two_low hv hw
  by_cases h1 : v < 266
  · left
    refine le_trans (le_of_eq ?_) hlow
    split
    · rfl
    · rfl
  · rw [if_neg (by omega), if_neg h1] at hlow
    rw [if_neg (by omega), if_neg h1]
    split
    · right
      exact ⟨2, by omega, by omega⟩
    · left
      omega

/-- No vertex has 133 left neighbours, so there are at most 133 colours, but there is a clique with 134 vertices.  One of them gets
no colour; it has a neighbour to the right, for which `colour_greedy` panics. -/
theorem two_panics {L : LinGraph} (H : L.LRep two (List.range 268)) : L.colourGreedy = .error .panic := by
  have hV := two_range
  obtain ⟨χ, p, hχ, -, -, h1, h2⟩ := C55_colour_greedy_exact_partial H (by rw [two_card]; omega)
  apply h1
  by_contra hno
  push Not at hno
  obtain ⟨c, h3, h3'⟩ := h2 hno
  have hsafe := H.colourGreedy_safe (by rw [two_card]; omega)
  rw [h3] at hsafe
  obtain ⟨-, h4, -, h5⟩ := hsafe
  have hsmall : ∀ u k, c.get? u = some k → k < 133 := by
    intro u k hk
    by_contra hge
    obtain ⟨v, hv, hv'⟩ := h5 u k hk 133 (by omega)
    obtain ⟨pre, post, hs⟩ := List.append_of_mem ((hV v).2 hv)
    rw [before_split two_loopless List.nodup_range hV hs] at hv'
    obtain ⟨rfl, hlt⟩ := range_split hs
    rw [insert_range, two_left hlt] at hv'
    split at hv'
    · omega
    · split at hv'
      · omega
      · split at hv' <;> omega
  have hidx : ∀ u, u < 268 → (List.range 268).idxOf u = u := fun u hu => by
    have := List.nodup_range (n := 268) |>.idxOf_getElem u (by rw [List.length_range]; exact hu)
    rwa [List.getElem_range] at this
  have hget : ∀ u, u < 267 → 133 ≤ u → ∃ k, c.get? u = some k := fun u hu hu' => by
    rw [h3']
    refine Option.ne_none_iff_exists'.1 (hno (if u < 266 then 266 else 267) u ?_)
    rw [mem_before, hidx u (by omega)]
    split
    · rw [hidx 266 (by omega), two_adj]
      unfold twoEdge
      omega
    · rw [hidx 267 (by omega), two_adj]
      unfold twoEdge
      omega
  have hmaps : Set.MapsTo (fun u => (c.get? u).getD 0) (Finset.Ico 133 267 : Finset ℕ) (Finset.range 133 : Finset ℕ) := by
    intro u hu
    obtain ⟨k, hk⟩ := hget u (Finset.mem_Ico.1 hu).2 (Finset.mem_Ico.1 hu).1
    have := hsmall u k hk
    simp only [hk, Option.getD_some, Finset.coe_range, Set.mem_Iio]
    exact this
  obtain ⟨x, hx, y, hy, hxy, he⟩ := Finset.exists_ne_map_eq_of_card_lt_of_maps_to
    (s := Finset.Ico 133 267) (t := Finset.range 133) (by rw [Nat.card_Ico, Finset.card_range]; omega) hmaps
  rw [Finset.mem_Ico] at hx hy
  obtain ⟨kx, hkx⟩ := hget x hx.2 hx.1
  obtain ⟨ky, hky⟩ := hget y hy.2 hy.1
  simp only [hkx, hky, Option.getD_some] at he
  subst he
  refine h4 x y kx (two_adj.2 ?_) hkx hky
  unfold twoEdge
  omega

/-- **C88 refuted.** On this graph with 268 vertices and degeneracy 133, `degeneracy` may put vertex 266, whose degree 134 is in
the same bucket as the least degree 132, last but one: its 134 left neighbours then use all of the 133 colours present, it
gets none, and `colour_greedy` panics at vertex 267. -/
theorem C88_refuted : ¬ C88_statement := by
  intro hC
  obtain ⟨⟨g, k⟩, -, A, -⟩ := EditGraph.abs_new.addEdges twoEdges
  have hG : g.view.Rep two := A.rep
  obtain ⟨σ, lo, up, core, hd⟩ := (C38_orders hG two_loopless (by rw [two_card]; omega) (List.range 268)).2 two_peeled
  obtain ⟨o, ho, I⟩ := OrdGraph.withOrdering_inv hG two_loopless ⟨List.nodup_range, two_range⟩
  have hbd := byDegeneracy_eq hd ho
  obtain ⟨g', c, h1, h2, h3, -⟩ := hC g.view two σ hG two_loopless (by rw [two_card]; omega)
  rw [hbd] at h1
  cases h1
  rw [two_panics I.lrep] at h2
  cases h2

/-! ## All outcomes -/

/-- **C88 (partial), all outcomes.** `OrdGraph::by_degeneracy` followed by `colour_greedy` can return the colouring `χ` if and
only if `χ` follows the greedy rule along some order in which every vertex has least degree, up to buckets, among itself and the
vertices before it, and every left neighbour of a vertex has a colour. -/
theorem C88_outcomes_partial {G : Graph} {S : SGraph} (hG : G.Rep S) (hl : S.Loopless) (hn : S.V.card ≤ 2 ^ 31)
    (χ : ℕ → Option ℕ) :
    (∃ σ g c, OrdGraph.byDegeneracy σ G = .ok g ∧ g.lin.colourGreedy = .ok c ∧ ∀ v, c.get? v = χ v) ↔
      ∃ p, S.Peeled p ∧ S.IsGreedy p χ ∧ ∀ v, ∀ u ∈ S.before p v, χ u ≠ none := by
  constructor
  · rintro ⟨σ, g, c, h1, h2, h3⟩
    obtain ⟨lo, up, p, core, h4, h5, h6, -⟩ := C38_smallest_last hG hl σ
    obtain ⟨g', h7, I⟩ := OrdGraph.withOrdering_inv hG hl ⟨h5, h6⟩
    rw [byDegeneracy_eq h4 h7] at h1
    cases h1
    refine ⟨p, (C38_orders hG hl hn p).1 ⟨σ, lo, up, core, h4⟩, ?_⟩
    obtain ⟨χ', -, k1, -, -, k2, k3⟩ := C55_colour_greedy_exact_partial I.lrep (by omega)
    by_cases hnone : ∃ v, ∃ u ∈ S.before p v, χ' u = none
    · rw [k2 hnone] at h2
      cases h2
    · push Not at hnone
      obtain ⟨c', k4, k5⟩ := k3 hnone
      rw [h2] at k4
      cases k4
      have : χ = χ' := funext fun v => by rw [← h3, k5]
      rw [this]
      exact ⟨(k1 χ').2 rfl, hnone⟩
  · rintro ⟨p, h1, h2, h3⟩
    obtain ⟨σ, lo, up, core, h4⟩ := (C38_orders hG hl hn p).2 h1
    obtain ⟨g, h7, I⟩ := OrdGraph.withOrdering_inv hG hl ⟨h1.1, h1.2.1⟩
    obtain ⟨χ', -, k1, -, -, k2, k3⟩ := C55_colour_greedy_exact_partial I.lrep (by omega)
    obtain rfl := (k1 χ).1 h2
    obtain ⟨c, k4, k5⟩ := k3 h3
    exact ⟨σ, g, c, byDegeneracy_eq h4 h7, k4, k5⟩

/-- `C88_outcomes_partial` for a triangle with a pendant vertex. -/
example := C88_outcomes_partial caseG_rep caseS_loopless caseS_card fun v => if v < 3 then some v else if v = 3 then some 0 else none

/-- **C88 (partial), all outcomes.** It can panic if and only if, for such an order, the greedy rule leaves a left neighbour of a
vertex without colour. -/
theorem C88_panics_partial {G : Graph} {S : SGraph} (hG : G.Rep S) (hl : S.Loopless) (hn : S.V.card ≤ 2 ^ 31) :
    (∃ σ g, OrdGraph.byDegeneracy σ G = .ok g ∧ g.lin.colourGreedy = .error .panic) ↔
      ∃ p χ, S.Peeled p ∧ S.IsGreedy p χ ∧ ∃ v, ∃ u ∈ S.before p v, χ u = none := by
  constructor
  · rintro ⟨σ, g, h1, h2⟩
    obtain ⟨lo, up, p, core, h4, h5, h6, -⟩ := C38_smallest_last hG hl σ
    obtain ⟨g', h7, I⟩ := OrdGraph.withOrdering_inv hG hl ⟨h5, h6⟩
    rw [byDegeneracy_eq h4 h7] at h1
    cases h1
    obtain ⟨χ', -, k1, -, -, k2, k3⟩ := C55_colour_greedy_exact_partial I.lrep (by omega)
    refine ⟨p, χ', (C38_orders hG hl hn p).1 ⟨σ, lo, up, core, h4⟩, (k1 χ').2 rfl, ?_⟩
    by_contra hnone
    push Not at hnone
    obtain ⟨c', k4, k5⟩ := k3 hnone
    rw [h2] at k4
    cases k4
  · rintro ⟨p, χ, h1, h2, h3⟩
    obtain ⟨σ, lo, up, core, h4⟩ := (C38_orders hG hl hn p).2 h1
    obtain ⟨g, h7, I⟩ := OrdGraph.withOrdering_inv hG hl ⟨h1.1, h1.2.1⟩
    obtain ⟨χ', -, k1, -, -, k2, k3⟩ := C55_colour_greedy_exact_partial I.lrep (by omega)
    obtain rfl := (k1 χ).1 h2
    exact ⟨σ, g, byDegeneracy_eq h4 h7, k2 h3⟩

/-- `C88_panics_partial` for a triangle with a pendant vertex. -/
example := C88_panics_partial caseG_rep caseS_loopless caseS_card

end Verif
