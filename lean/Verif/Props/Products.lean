import Verif.Lemmas.Products
import Verif.Props.EditOps
import Verif.Props.Algorithms
/-!
# Property C101: sizes, distances and analyses of products
-/
namespace Verif
open EditGraph

/-! ## C101 -/

/-- **C101, Cartesian product.** For graphs without loops the product has `n₁·m₂ + n₂·m₁` edges; the degree of a product vertex
is the sum of the degrees of its two parts; a product vertex lies in the ball of radius `r` around another iff the two parts lie
in balls of radii summing to at most `r`. -/
theorem C101_cartesian {G H : Graph} {S T : SGraph} (hG : G.Rep S) (hH : H.Rep T) (hS : S.Loopless) (hT : T.Loopless)
    (σ : Shuffle ((Vertex × Vertex) × Vertex)) (τ : ℕ → Shuffle Vertex) (hn : G.numVertices * H.numVertices < 2 ^ 32) :
    ∃ h inv, G.cartesianProduct σ H = .ok (h, inv) ∧
      h.numEdges = G.numVertices * H.numEdges + H.numVertices * G.numEdges ∧
      (∀ i p, inv.get? i = some p → h.degree i = S.deg p.1 + T.deg p.2) ∧
      ∀ i j p q r, inv.get? i = some p → inv.get? j = some q → h.contains i = true →
        ∃ B, h.view.rNeighbours τ i r = .ok B ∧
          (j ∈ B ↔ ∃ a b, a + b ≤ r ∧ ∃ C D, G.rNeighbours τ p.1 a = .ok C ∧ H.rNeighbours τ p.2 b = .ok D ∧
            q.1 ∈ C ∧ q.2 ∈ D) := by
  rw [hG.nv, hH.nv] at hn ⊢
  rw [hG.ne, hH.ne]
  obtain ⟨h, inv, hh, hr, hM, hA, hV⟩ := C22_cartesian_partial hG hH σ hn
  obtain ⟨P, A⟩ := hr.abs
  obtain ⟨e, I, he⟩ := hM.isProduct A hA hV
  have hcon : ∀ i, h.contains i = true ↔ i ∈ P.V := fun i => by rw [A.contains, decide_eq_true_eq]
  refine ⟨h, inv, hh, ?_, ?_, ?_⟩
  · rw [A.numEdges, I.edges_cart hS hT]
  · intro i p hi
    obtain ⟨hiN, rfl⟩ := (he i p).1 hi
    rw [A.degree, (I.loopless_cart hS hT).deg, I.nbrs_card hiN,
      cart_card hS (I.left i hiN) (I.right i hiN), hS.deg, hT.deg]
  · intro i j p q r hi hj hc
    obtain ⟨hiN, rfl⟩ := (he i p).1 hi
    obtain ⟨hjN, rfl⟩ := (he j q).1 hj
    obtain ⟨B, hB, hBm⟩ := (C17_ball A.rep τ [] (by simp) r).2 i ((hcon i).1 hc)
    refine ⟨B, hB, ?_⟩
    rw [hBm]
    constructor
    · rintro ⟨d, hd, hw⟩
      obtain ⟨a, b, hab, h1, h2⟩ := (I.walk_cart hiN hjN).1 hw
      obtain ⟨C, hC, hCm⟩ := (C17_ball hG τ [] (by simp) a).2 _ (I.left i hiN)
      obtain ⟨D, hD, hDm⟩ := (C17_ball hH τ [] (by simp) b).2 _ (I.right i hiN)
      exact ⟨a, b, by omega, C, D, hC, hD, (hCm _).2 ⟨a, le_refl _, h1⟩, (hDm _).2 ⟨b, le_refl _, h2⟩⟩
    · rintro ⟨a, b, hab, C, D, hC, hD, h1, h2⟩
      obtain ⟨C', hC', hCm⟩ := (C17_ball hG τ [] (by simp) a).2 _ (I.left i hiN)
      obtain ⟨D', hD', hDm⟩ := (C17_ball hH τ [] (by simp) b).2 _ (I.right i hiN)
      obtain rfl : C' = C := by rw [hC] at hC'; exact (Except.ok.inj hC').symm
      obtain rfl : D' = D := by rw [hD] at hD'; exact (Except.ok.inj hD').symm
      obtain ⟨a', ha', w1⟩ := (hCm _).1 h1
      obtain ⟨b', hb', w2⟩ := (hDm _).1 h2
      exact ⟨a' + b', by omega, (I.walk_cart hiN hjN).2 ⟨a', b', rfl, w1, w2⟩⟩

/-- `C101_cartesian` for a triangle with a pendant vertex. -/
example := fun σ τ => C101_cartesian caseG_rep caseG_rep caseS_loopless caseS_loopless σ τ (by decide)

/-- **C101, analyses of the Cartesian product.** For graphs without loops and with vertices, `is_bipartite` finds a bipartition of
the product iff it finds one for both factors, and if `degeneracy` returns the upper bounds `c` and `d` for the factors, with
`c + d < 130`, then both bounds for the product are `c + d`. -/
theorem C101_analyses {G H : Graph} {S T : SGraph} (hG : G.Rep S) (hH : H.Rep T) (hS : S.Loopless) (hT : T.Loopless)
    (hS0 : S.V.Nonempty) (hT0 : T.V.Nonempty)
    (σ : Shuffle ((Vertex × Vertex) × Vertex)) (hn : G.numVertices * H.numVertices < 2 ^ 32)
    (σ₁ σ₂ σ₃ : ℕ → Shuffle Vertex) (τ₁ τ₂ τ₃ : Shuffle (Vertex × (Bool × Vertex))) :
    ∃ h inv, G.cartesianProduct σ H = .ok (h, inv) ∧
      (∃ w₁ w₂ w₃, G.isBipartite σ₁ τ₁ = .ok w₁ ∧ H.isBipartite σ₂ τ₂ = .ok w₂ ∧ h.view.isBipartite σ₃ τ₃ = .ok w₃ ∧
        ((∃ L R, w₃ = .bipartition L R) ↔ (∃ L R, w₁ = .bipartition L R) ∧ ∃ L R, w₂ = .bipartition L R)) ∧
      ∀ c d lo₁ lo₂ o₁ o₂ c₁ c₂, G.degeneracy σ₁ = .ok (lo₁, c, o₁, c₁) → H.degeneracy σ₂ = .ok (lo₂, d, o₂, c₂) →
        c + d < 130 → ∃ o₃ c₃, h.view.degeneracy σ₃ = .ok (c + d, c + d, o₃, c₃) := by
  rw [hG.nv, hH.nv] at hn
  obtain ⟨h, inv, hh, hr, hM, hA, hV⟩ := C22_cartesian_partial hG hH σ hn
  obtain ⟨P, A⟩ := hr.abs
  obtain ⟨e, I, he⟩ := hM.isProduct A hA hV
  refine ⟨h, inv, hh, ?_, ?_⟩
  · obtain ⟨w₁, hw₁, h1, -⟩ := C41_is_bipartite hG σ₁ τ₁
    obtain ⟨w₂, hw₂, h2, -⟩ := C41_is_bipartite hH σ₂ τ₂
    obtain ⟨w₃, hw₃, h3, -⟩ := C41_is_bipartite A.rep σ₃ τ₃
    exact ⟨w₁, w₂, w₃, hw₁, hw₂, hw₃, by rw [h1, h2, h3, I.twoColourable_cart hS0 hT0]⟩
  · intro c d lo₁ lo₂ o₁ o₂ c₁ c₂ hc hd hcd
    have up : ∀ {G : Graph} {S : SGraph} (hG : G.Rep S) (hl : S.Loopless) {σ : ℕ → Shuffle Vertex} {k lo o c},
        G.degeneracy σ = .ok (lo, k, o, c) → k < 130 → S.IsDegeneracy k := by
      intro G S hG hl σ k lo o c h1 h2
      obtain ⟨d, hd⟩ := S.exists_degeneracy
      obtain ⟨s, hs, I, hmem⟩ := hG.degeneracy hl σ
      have h3 := I.upper_eq hmem hd
      rw [hs] at h1
      simp only [Except.ok.injEq, Prod.mk.injEq] at h1
      obtain ⟨-, h4, -⟩ := h1
      rw [h4] at h3
      have h5 : d ≤ 130 := by
        by_contra hc
        have h6 := calcIndex_mono (show 130 ≤ d by omega)
        rw [← h3, calcIndex_small 130 (by omega)] at h6
        omega
      rw [calcIndex_small d h5] at h3
      rw [h3]; exact hd
    have hP := I.degeneracy_cart hS hS0 hT0 (up hG hS hc (by omega)) (up hH hT hd (by omega))
    obtain ⟨o₃, c₃, h3, -⟩ := C39_exact_of_degeneracy A.rep (I.loopless_cart hS hT) σ₃ hP (by omega)
    exact ⟨o₃, c₃, h3⟩

/-- `C101_analyses` for a triangle with a pendant vertex. -/
example := fun σ σ₁ σ₂ σ₃ τ₁ τ₂ τ₃ => C101_analyses caseG_rep caseG_rep caseS_loopless caseS_loopless ⟨0, by decide⟩ ⟨0, by decide⟩ σ
  (by decide) σ₁ σ₂ σ₃ τ₁ τ₂ τ₃

/-- **C101, lexicographic product.** For graphs without loops the product has `n₁²·m₂ + n₂·m₁` edges, and the degree of a product
vertex is the degree of its first part plus `n₁` times the degree of its second. -/
theorem C101_lexicographic {G H : Graph} {S T : SGraph} (hG : G.Rep S) (hH : H.Rep T) (hS : S.Loopless) (hT : T.Loopless)
    (σ : Shuffle ((Vertex × Vertex) × Vertex)) (hn : G.numVertices * H.numVertices < 2 ^ 32) :
    ∃ h inv, G.lexicographicProduct σ H = .ok (h, inv) ∧
      h.numEdges = G.numVertices * G.numVertices * H.numEdges + H.numVertices * G.numEdges ∧
      ∀ i p, inv.get? i = some p → h.degree i = S.deg p.1 + G.numVertices * T.deg p.2 := by
  rw [hG.nv, hH.nv] at hn ⊢
  rw [hG.ne, hH.ne]
  obtain ⟨h, inv, hh, hr, hM, hA, hV⟩ := C23_lexicographic_partial hG hH σ hn
  obtain ⟨P, A⟩ := hr.abs
  obtain ⟨e, I, he⟩ := hM.isProduct A hA hV
  refine ⟨h, inv, hh, ?_, ?_⟩
  · rw [A.numEdges, I.edges_lex hS hT]
  · intro i p hi
    obtain ⟨hiN, rfl⟩ := (he i p).1 hi
    rw [A.degree, (I.loopless_lex hS hT).deg, I.nbrs_card hiN,
      lex_card hT (I.right i hiN), hS.deg, hT.deg]

/-- Two copies of the path 0-1-2. -/
example : ∃ (G : Graph) (S : SGraph), G.Rep S ∧ S.Loopless ∧ S.V.Nonempty ∧ S.Adj 0 1 ∧
    G.numVertices * G.numVertices < 2 ^ 32 := by
  obtain ⟨g, S, A, hl, h01, -, hV, -⟩ := exPath
  exact ⟨g.view, S, A.rep, hl, ⟨0, by rw [hV]; decide⟩, h01, by rw [A.rep.nv, hV]; decide⟩

/-- A run: the product of the path 0-1-2 with itself is the 3×3 grid with 12 edges, the lexicographic one has
9·2 + 3·2 = 24. -/
example : ((fromIter [(0, 1), (1, 2)]).bind fun g => (g.view.cartesianProduct .id g.view).bind fun p =>
    (g.view.lexicographicProduct .rev g.view).map fun q => (p.1.numEdges, q.1.numEdges)) = .ok (12, 24) := by
  decide +kernel

end Verif
