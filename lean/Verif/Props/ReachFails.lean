import Verif.Props.Reach
/-! # C144: `right_bfs` and `sreach_set` outside their domain -/
namespace Verif

theorem LinGraph.rightBfs_missing {L : LinGraph} {u : ℕ} (h : L.indexOf u = .error .panic) (σ τ : ℕ → Shuffle ℕ)
    (k : ℕ) : L.rightBfs σ u k = .error .panic ∧ L.sreachSet σ τ u (k + 1) = .error .panic := by
  have h2 : L.rightBfs σ u k = .error .panic := by
    unfold LinGraph.rightBfs
    rw [h]; rfl
  refine ⟨h2, ?_⟩
  unfold LinGraph.sreachSet
  rw [usub_ok (by omega), bind_ok, Nat.add_sub_cancel, h2]
  rfl

theorem LinGraph.rightBfs_overflow {L : LinGraph} {S : SGraph} {ord : List ℕ} (H : L.LRep S ord) {u : ℕ} (hu : u ∈ S.V)
    (σ : ℕ → Shuffle ℕ) : L.rightBfs σ u (2 ^ 32 - 1) = .error .overflow := by
  obtain ⟨i, hi⟩ := H.index u hu
  unfold LinGraph.rightBfs
  rw [hi, bind_ok, show add32 (2 ^ 32 - 1) 1 = .error .overflow by decide]
  rfl

/-- **C144 (OrdGraph).** Both functions panic if the root is not a vertex, whatever the radius (but `sreach_set` with
radius 0 underflows first, `C52_zero`); for a vertex, the largest radius makes `right_bfs` overflow. -/
theorem C144_ord {g : OrdGraph} {S : SGraph} {ord : List ℕ} (hg : g.Represents S ord) (u : ℕ) :
    (u ∉ S.V → ∀ σ τ k, g.lin.rightBfs σ u k = .error .panic ∧ g.lin.sreachSet σ τ u (k + 1) = .error .panic) ∧
    (u ∈ S.V → ∀ σ, g.lin.rightBfs σ u (2 ^ 32 - 1) = .error .overflow) :=
  ⟨fun hu => LinGraph.rightBfs_missing (hg.missing u hu).1, fun hu => LinGraph.rightBfs_overflow hg.lin hu⟩

/-- **C144 (DegenGraph).** The same. -/
theorem C144_degen {g : DegenGraph} {S : SGraph} {ord : List ℕ} (hg : g.Represents S ord) (u : ℕ) :
    (u ∉ S.V → ∀ σ τ k, g.lin.rightBfs σ u k = .error .panic ∧ g.lin.sreachSet σ τ u (k + 1) = .error .panic) ∧
    (u ∈ S.V → ∀ σ, g.lin.rightBfs σ u (2 ^ 32 - 1) = .error .overflow) :=
  ⟨fun hu => LinGraph.rightBfs_missing (hg.missing u hu).1, fun hu => LinGraph.rightBfs_overflow hg.lin hu⟩

/-- The path 0-1-2 ordered 2, 0, 1: vertex 0 and the non-vertex 7. -/
example : ∃ (g : OrdGraph) (S : SGraph), g.Represents S [2, 0, 1] ∧ 0 ∈ S.V ∧ 7 ∉ S.V ∧
    ∀ σ, g.lin.rightBfs σ 7 (2 ^ 32 - 1) = .error .panic ∧ g.lin.rightBfs σ 0 (2 ^ 32 - 1) = .error .overflow := by
  obtain ⟨G, S, h1, h2, h3, h12, h02, h4, h5, -, h6⟩ := exOrd
  obtain ⟨g, -, hg⟩ := C43_with_ordering h1 h2 h4 h5
  have R := hg g (.refl g)
  have h0 : 0 ∈ S.V := (h5 0).1 (by decide)
  have h7 : 7 ∉ S.V := fun h => absurd ((h5 7).2 h) (by decide)
  exact ⟨g, S, R, h0, h7, fun σ => ⟨((C144_ord R 7).1 h7 σ σ _).1, (C144_ord R 0).2 h0 σ⟩⟩

/-- The same graph and ordering as a `DegenGraph`. -/
example : ∃ (g : DegenGraph) (S : SGraph), g.Represents S [2, 0, 1] ∧ 0 ∈ S.V ∧ 7 ∉ S.V := by
  obtain ⟨G, S, h1, h2, h3, h12, h02, h4, h5, h6, -⟩ := exOrd
  obtain ⟨g, -, hg⟩ := C45_with_ordering h1 h2 h4 h5 h6
  exact ⟨g, S, hg g (.refl g), (h5 0).1 (by decide), fun h => absurd ((h5 7).2 h) (by decide)⟩

end Verif
