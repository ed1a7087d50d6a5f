import Verif.Lemmas.Reach
import Verif.Lemmas.CompCount
import Verif.Props.EditOps
import Verif.Props.Algorithms
/-!
# Property C99: neighbourhoods of growing radius
-/
namespace Verif
open EditGraph

theorem SGraph.WalkVia.walk' {S : SGraph} {P : ℕ → Prop} {n u v : ℕ} (h : S.WalkVia P n u v) : Walk S.Adj n u v := by
  induction h with
  | one h => exact .cons h (.nil _)
  | cons h _ _ ih => exact .cons h ih

/-- Connected vertices are joined by a walk with fewer steps than there are vertices. -/
theorem SGraph.short_walk {S : SGraph} {u v : ℕ} (hu : u ∈ S.V) (h : Conn S.Adj u v) :
    ∃ d < S.V.card, Walk S.Adj d u v := by
  by_cases huv : u = v
  · subst huv; exact ⟨0, Finset.card_pos.2 ⟨u, hu⟩, .nil u⟩
  obtain ⟨n, h⟩ := h
  have via : ∀ {n u v}, Walk S.Adj n u v → u ≠ v → ∃ m, S.WalkVia (fun _ => True) m u v := by
    intro n u v h
    induction h with
    | nil u => exact fun hc => absurd rfl hc
    | @cons n u w v h t ih =>
      intro _
      by_cases hw : w = v
      · subst hw; exact ⟨1, .one h⟩
      · obtain ⟨m, hm⟩ := ih hw
        exact ⟨m + 1, .cons h trivial hm⟩
  obtain ⟨m, hm⟩ := via h huv
  obtain ⟨d, -, hd⟩ := hm.path huv
  have hwalk := hd.walk.walk'
  obtain ⟨p, h1, h2, h3, -⟩ := hd
  have hmem : ∀ (l : List ℕ) (a : ℕ), a ∈ S.V → (a :: l).IsChain S.Adj → ∀ x ∈ a :: l, x ∈ S.V := by
    intro l
    induction l with
    | nil => intro a ha _ x hx; rw [List.mem_singleton.1 hx]; exact ha
    | cons c l ih =>
      intro a ha hc x hx
      rw [List.isChain_cons_cons] at hc
      rcases List.mem_cons.1 hx with rfl | hx
      · exact ha
      · exact ih c hc.1.right hc.2 x hx
  have hsub : (u :: (p ++ [v])).toFinset ⊆ S.V := by
    intro x hx
    exact hmem _ _ hu h1 x (List.mem_toFinset.1 hx)
  have := Finset.card_le_card hsub
  rw [List.toFinset_card_of_nodup h2] at this
  simp only [List.length_cons, List.length_append, List.length_nil] at this
  exact ⟨d, by omega, hwalk⟩

/-! ## C99 -/

/-- **C99, composition.** The ball of radius 0 is the set itself, the ball of radius 1 the closed neighbourhood, and the
ball of radius `r + s` is the ball of radius `s` around the ball of radius `r`. -/
theorem C99_compose {G : Graph} {S : SGraph} (hG : G.Rep S) (σ τ ρ : ℕ → Shuffle Vertex) (X : List Vertex)
    (hX : ∀ x ∈ X, x ∈ S.V) (r s : ℕ) :
    (∃ B, G.rNeighbourhood σ X 0 = .ok B ∧ ∀ v, v ∈ B ↔ v ∈ X) ∧
    (∃ B N, G.rNeighbourhood σ X 1 = .ok B ∧ G.closedNeighbourhood X = .ok N ∧ ∀ v, v ∈ B ↔ v ∈ N) ∧
    ∃ B C D, G.rNeighbourhood σ X r = .ok B ∧ G.rNeighbourhood τ B.toList s = .ok C ∧
      G.rNeighbourhood ρ X (r + s) = .ok D ∧ ∀ v, v ∈ C ↔ v ∈ D := by
  refine ⟨?_, ?_, ?_⟩
  · obtain ⟨B, hB, h⟩ := (C17_ball hG σ X hX 0).1
    refine ⟨B, hB, fun v => ?_⟩
    rw [h]
    constructor
    · rintro ⟨x, hx, d, hd, hw⟩
      obtain rfl : d = 0 := by omega
      rwa [← Walk.zero_iff.1 hw]
    · exact fun hv => ⟨v, hv, 0, le_refl _, .nil v⟩
  · obtain ⟨B, hB, h⟩ := (C17_ball hG σ X hX 1).1
    obtain ⟨N, hN, h'⟩ := (C16_neighbourhood hG .id X hX).2
    refine ⟨B, N, hB, hN, fun v => ?_⟩
    rw [h, h']
    constructor
    · rintro ⟨x, hx, d, hd, hw⟩
      rcases Nat.eq_zero_or_pos d with h0 | h0
      · subst h0; exact Or.inl (Walk.zero_iff.1 hw ▸ hx)
      · obtain rfl : d = 1 := by omega
        exact Or.inr ⟨x, hx, Walk.one_iff.1 hw⟩
    · rintro (hv | ⟨x, hx, hv⟩)
      · exact ⟨v, hv, 0, by omega, .nil v⟩
      · exact ⟨x, hx, 1, le_refl _, Walk.one_iff.2 hv⟩
  · obtain ⟨B, hB, h⟩ := (C17_ball hG σ X hX r).1
    have hBV : ∀ x ∈ B.toList, x ∈ S.V := by
      intro x hx
      obtain ⟨y, hy, d, -, hw⟩ := (h x).1 hx
      exact SGraph.conn_mem ⟨d, hw⟩ (hX y hy)
    obtain ⟨C, hC, h1⟩ := (C17_ball hG τ B.toList hBV s).1
    obtain ⟨D, hD, h2⟩ := (C17_ball hG ρ X hX (r + s)).1
    refine ⟨B, C, D, hB, hC, hD, fun v => ?_⟩
    rw [h1, h2]
    constructor
    · rintro ⟨x, hx, d, hd, hw⟩
      obtain ⟨y, hy, d', hd', hw'⟩ := (h x).1 hx
      exact ⟨y, hy, d' + d, by omega, hw'.append hw⟩
    · rintro ⟨x, hx, d, hd, hw⟩
      by_cases hdr : d ≤ r
      · exact ⟨v, (h v).2 ⟨x, hx, d, hdr, hw⟩, 0, by omega, .nil v⟩
      · rw [show d = r + (d - r) by omega] at hw
        obtain ⟨w, hw1, hw2⟩ := hw.split
        exact ⟨w, (h w).2 ⟨x, hx, r, le_refl _, hw1⟩, d - r, by omega, hw2⟩

/-- `C99_compose` for a path with a loop and an isolated vertex. -/
example := fun σ τ ρ => C99_compose loopG_rep σ τ ρ [0, 5] (by decide) 1 2

/-- **C99, symmetry and monotonicity.** -/
theorem C99_symmetric {G : Graph} {S : SGraph} (hG : G.Rep S) (σ τ : ℕ → Shuffle Vertex) {u v : ℕ} (hu : u ∈ S.V)
    (hv : v ∈ S.V) {r s : ℕ} (hrs : r ≤ s) :
    ∃ Bu Bv Cu, G.rNeighbours σ u r = .ok Bu ∧ G.rNeighbours τ v r = .ok Bv ∧ G.rNeighbours τ u s = .ok Cu ∧
      (v ∈ Bu ↔ u ∈ Bv) ∧ (v ∈ Bu → v ∈ Cu) := by
  obtain ⟨Bu, h1, e1⟩ := (C17_ball hG σ [] (by simp) r).2 u hu
  obtain ⟨Bv, h2, e2⟩ := (C17_ball hG τ [] (by simp) r).2 v hv
  obtain ⟨Cu, h3, e3⟩ := (C17_ball hG τ [] (by simp) s).2 u hu
  refine ⟨Bu, Bv, Cu, h1, h2, h3, ?_, ?_⟩
  · rw [e1, e2]
    exact ⟨fun ⟨d, hd, h⟩ => ⟨d, hd, h.symm S.adj_symm⟩, fun ⟨d, hd, h⟩ => ⟨d, hd, h.symm S.adj_symm⟩⟩
  · rw [e1, e3]
    exact fun ⟨d, hd, h⟩ => ⟨d, hd.trans hrs, h⟩

/-- `C99_symmetric` for a path with a loop and an isolated vertex. -/
example := fun σ τ => C99_symmetric loopG_rep σ τ (u := 0) (v := 2) (by decide) (by decide) (r := 1) (s := 2) (by decide)

/-- **C99, growth to the component.** From radius `num_vertices - 1` on, the ball around `u` is the component of `u`. -/
theorem C99_component {G : Graph} {S : SGraph} (hG : G.Rep S) (σ : ℕ → Shuffle Vertex) (τ : Shuffle (List Vertex)) {u : ℕ}
    (hu : u ∈ S.V) {r : ℕ} (hr : G.numVertices ≤ r + 1) :
    ∃ B cs, G.rNeighbours σ u r = .ok B ∧ G.components τ = .ok cs ∧ ∃ c ∈ cs, u ∈ c ∧ ∀ v, v ∈ B ↔ v ∈ c := by
  obtain ⟨B, h1, e1⟩ := (C17_ball hG σ [] (by simp) r).2 u hu
  obtain ⟨cs, h2, -, -, q3, q4⟩ := C37_components hG τ
  obtain ⟨c, hc, huc⟩ := (q3 u).1 hu
  refine ⟨B, cs, h1, h2, c, hc, huc, fun v => ?_⟩
  rw [e1, q4 c hc u huc]
  constructor
  · exact fun ⟨d, _, h⟩ => ⟨d, h⟩
  · intro h
    obtain ⟨d, hd, h⟩ := SGraph.short_walk hu h
    rw [hG.nv] at hr
    exact ⟨d, by omega, h⟩

/-- The path 0-1-2 with the set {0, 2}. -/
example : ∃ (G : Graph) (S : SGraph), G.Rep S ∧ S.Adj 0 1 ∧ (∀ x ∈ [0, 2], x ∈ S.V) ∧ G.numVertices ≤ 2 + 1 := by
  obtain ⟨g, S, A, -, h1, h2, hV, -⟩ := exPath
  refine ⟨g.view, S, A.rep, h1, ?_, ?_⟩
  · rw [hV]; decide
  · rw [A.rep.nv, hV]; decide

end Verif
