import Verif.Props.TraceSums
import Verif.Props.TraceLimits
import Verif.Props.GenAnalyses
/-!
# C120: shattered sets are small in graphs with small left degrees
-/
namespace Verif
open Finset

namespace SGraph
variable {S : SGraph} {ord : List ℕ} {X : Finset ℕ}

/-- The last vertex of a subgraph has all its neighbours in the subgraph on the left. -/
theorem MinDeg.before {W : Finset ℕ} {k : ℕ} (h : S.MinDeg W k) (hne : W.Nonempty) (O : S.Ordering ord) (hl : S.Loopless) :
    ∃ u ∈ W, k ≤ (S.before ord u).card := by
  obtain ⟨u, hu, hmax⟩ := Finset.exists_max_image W ord.idxOf hne
  refine ⟨u, hu, (h.2 u hu).trans (Finset.card_le_card fun v hv => ?_)⟩
  rw [Finset.mem_filter] at hv
  rw [mem_before]
  refine ⟨hv.2, lt_of_le_of_ne (hmax v hv.1) fun he => ?_⟩
  have := (List.idxOf_inj ((O.mem v).2 (h.1 hv.1))).1 he
  rw [this] at hv
  exact hl u hv.2

theorem exists_trace {T : Finset ℕ} (h : 1 ≤ S.traceCount X T) : ∃ y ∈ S.V, y ∉ X ∧ S.nbrs y ∩ X = T := by
  obtain ⟨y, hy⟩ := Finset.card_pos.1 h
  rw [Finset.mem_filter] at hy
  exact ⟨y, hy⟩

/-- A shattered set of `t` vertices together with the vertices having at least `t - 1` neighbours in it has minimum degree at
least `t - 1`. -/
theorem minDeg_of_shattered (hX : X ⊆ S.V) (h : ∀ T ⊆ X, 1 ≤ S.traceCount X T) :
    S.MinDeg (X ∪ S.V.filter (fun y => y ∉ X ∧ X.card - 1 ≤ (S.nbrs y ∩ X).card)) (X.card - 1) := by
  classical
  refine ⟨Finset.union_subset hX (Finset.filter_subset _ _), fun w hw => ?_⟩
  by_cases hwX : w ∈ X
  · -- one neighbour for every other element of `X`
    have hy : ∀ x, ∃ y, x ∈ X.erase w → y ∈ S.V ∧ y ∉ X ∧ S.nbrs y ∩ X = X.erase x := by
      intro x
      by_cases hx : x ∈ X.erase w
      · obtain ⟨y, h1, h2, h3⟩ := exists_trace (h (X.erase x) (Finset.erase_subset _ _))
        exact ⟨y, fun _ => ⟨h1, h2, h3⟩⟩
      · exact ⟨0, fun h => absurd h hx⟩
    choose f hf using hy
    rw [← Finset.card_erase_of_mem hwX]
    refine Finset.card_le_card_of_injOn f (fun x hx => ?_) (fun x hx x' hx' he => ?_)
    · obtain ⟨h1, h2, h3⟩ := hf x hx
      have hw' : w ∈ S.nbrs (f x) ∩ X := by
        rw [h3, Finset.mem_erase]
        exact ⟨fun e => (Finset.mem_erase.1 hx).1 e.symm, hwX⟩
      have hadj := (S.mem_nbrs).1 (Finset.mem_inter.1 hw').1
      refine Finset.mem_coe.2 (Finset.mem_filter.2 ⟨Finset.mem_union_right _ (Finset.mem_filter.2 ⟨h1, h2, ?_⟩), hadj.symm⟩)
      rw [h3, Finset.card_erase_of_mem (Finset.mem_of_mem_erase hx), Finset.card_erase_of_mem hwX]
    · obtain ⟨-, -, h3⟩ := hf x hx
      obtain ⟨-, -, h3'⟩ := hf x' hx'
      rw [he, h3'] at h3
      by_contra hne
      have : x ∈ X.erase x' := Finset.mem_erase.2 ⟨hne, Finset.mem_of_mem_erase hx⟩
      rw [h3] at this
      exact (Finset.mem_erase.1 this).1 rfl
  · rw [Finset.mem_union, Finset.mem_filter] at hw
    obtain ⟨-, -, h2⟩ := hw.resolve_left hwX
    refine h2.trans (Finset.card_le_card fun x hx => ?_)
    rw [Finset.mem_inter, mem_nbrs] at hx
    exact Finset.mem_filter.2 ⟨Finset.mem_union_left _ hx.2, hx.1⟩

/-- A set of `t` vertices with at least `t` common neighbours outside has minimum degree at least `t` together with them. -/
theorem minDeg_of_common (hX : X ⊆ S.V) (h : X.card ≤ S.traceCount X X) :
    S.MinDeg (X ∪ S.V.filter (fun y => y ∉ X ∧ S.nbrs y ∩ X = X)) X.card := by
  refine ⟨Finset.union_subset hX (Finset.filter_subset _ _), fun w hw => ?_⟩
  by_cases hwX : w ∈ X
  · refine h.trans (Finset.card_le_card fun y hy => ?_)
    refine Finset.mem_filter.2 ⟨Finset.mem_union_right _ hy, ?_⟩
    obtain ⟨-, -, h3⟩ := Finset.mem_filter.1 hy
    rw [← h3, Finset.mem_inter, mem_nbrs] at hwX
    exact hwX.1.symm
  · rw [Finset.mem_union, Finset.mem_filter] at hw
    obtain ⟨-, -, h2⟩ := hw.resolve_left hwX
    refine Finset.card_le_card fun x hx => Finset.mem_filter.2 ⟨Finset.mem_union_left _ hx, ?_⟩
    rw [← h2, Finset.mem_inter, mem_nbrs] at hx
    exact hx.1

end SGraph

namespace SGraph

/-- The degeneracy bounds the minimum degree of every nonempty subgraph. -/
theorem IsDegeneracy.minDeg_le {S : SGraph} {W : Finset ℕ} {k c : ℕ} (h : S.IsDegeneracy c) (hW : S.MinDeg W k)
    (hne : W.Nonempty) : k ≤ c := by
  obtain ⟨w, hw, h1⟩ := h.1 W hW.1 hne
  exact (hW.2 w hw).trans h1

end SGraph

/-- **C120.** If `is_shattered(X, k)` is true for a nonempty `X`, some vertex has at least `|X| - 1` left neighbours, and the
degeneracy of the graph is at least `|X| - 1`; if moreover `|X| ≤ 2^(k - |X|)`, both are at least `|X|`. -/
theorem C120_shattered {g : DegenGraph} {S : SGraph} {ord : List ℕ} (h : g.Built S ord) (σ₀ τ₀ : ℕ → ℕ → Shuffle ℕ)
    (ρ₀ : ℕ → Shuffle ℕ) :
    ∃ o, TraceOracle.forGraph σ₀ τ₀ ρ₀ g = .ok o ∧
    ∀ (σ τ : ℕ → Shuffle (List Bool × ℕ)) (ρ : ℕ → Shuffle (List ℕ × ℕ)) (θ : Shuffle ℕ) (X : List ℕ) (k : ℕ),
      X.Nodup → (∀ u ∈ X, u ∈ S.V) → X ≠ [] → o.isShattered σ τ ρ θ X k g = .ok true →
      (∃ u ∈ S.V, ∃ d, g.leftDegree u = .ok d ∧ X.length ≤ d + 1) ∧ (∀ c, S.IsDegeneracy c → X.length ≤ c + 1) ∧
      (X.length ≤ 2 ^ (k - X.length) →
        (∃ u ∈ S.V, ∃ d, g.leftDegree u = .ok d ∧ X.length ≤ d) ∧ ∀ c, S.IsDegeneracy c → X.length ≤ c) := by
  have I := h.inv
  obtain ⟨o, h1, hall⟩ := C116_sizes h σ₀ τ₀ ρ₀
  refine ⟨o, h1, fun σ τ ρ θ X k hn hV hne hs => ?_⟩
  have ht : ∀ T ⊆ X.toFinset, 2 ^ (k - X.length) ≤ S.traceCount X.toFinset T := by
    rcases hall σ τ ρ θ X k hn hV with ⟨-, e⟩ | ⟨-, -, e⟩ | ⟨-, -, -, b, e, hb⟩
    · rw [hs] at e; cases e
    · rw [hs] at e; cases e
    · rw [hs] at e
      exact hb.1 (Except.ok.inj e).symm
  have hX : X.toFinset ⊆ S.V := fun u hu => hV u (List.mem_toFinset.1 hu)
  have hc : X.toFinset.card = X.length := List.toFinset_card_of_nodup hn
  have hXne : X.toFinset.Nonempty := (List.toFinset_nonempty_iff X).2 hne
  have M := S.minDeg_of_shattered hX fun T hT => Nat.one_le_two_pow.trans (ht T hT)
  rw [hc] at M
  have left : ∀ {W k'}, S.MinDeg W k' → W.Nonempty → ∃ u ∈ S.V, ∃ d, g.leftDegree u = .ok d ∧ k' ≤ d := by
    intro W k' hW hWne
    obtain ⟨u, hu, hk⟩ := hW.before hWne I.ordering I.loopless
    exact ⟨u, hW.1 hu, _, I.leftDegree (hW.1 hu), hk⟩
  refine ⟨?_, fun c hdc => ?_, fun hk => ?_⟩
  · obtain ⟨u, hu, d, hd, hk⟩ := left M (hXne.mono Finset.subset_union_left)
    exact ⟨u, hu, d, hd, by omega⟩
  · have := hdc.minDeg_le M (hXne.mono Finset.subset_union_left)
    omega
  · have M' := S.minDeg_of_common hX (by rw [hc]; exact hk.trans (ht _ Finset.Subset.rfl))
    rw [hc] at M'
    exact ⟨left M' (hXne.mono Finset.subset_union_left),
      fun c hdc => hdc.minDeg_le M' (hXne.mono Finset.subset_union_left)⟩

/-- Hypotheses of `C120_shattered` are met by the vertices 0 and 1 of the path 3-0-2-1-4 with a further edge 5-6: the bound is
attained, all left degrees being at most 1. -/
example : ((builtDegen [(0, 2), (1, 2), (0, 3), (1, 4), (5, 6)] [3, 0, 2, 1, 4, 5, 6]).bind fun g => (exOracle g).bind fun o =>
    o.isShattered (fun _ => .id) (fun _ => .id) (fun _ => .id) .id [0, 1] 2 g) = .ok true ∧
    ((builtDegen [(0, 2), (1, 2), (0, 3), (1, 4), (5, 6)] [3, 0, 2, 1, 4, 5, 6]).bind fun g =>
      [3, 0, 2, 1, 4, 5, 6].mapM g.leftDegree) = .ok [0, 1, 1, 1, 1, 0, 1] := by
  decide +kernel

example : ∃ g : DegenGraph, g.Built (SGraph.empty.addEdges [(0, 2), (1, 2), (0, 3), (1, 4), (5, 6)]) [3, 0, 2, 1, 4, 5, 6] := by
  obtain ⟨g, -, h⟩ := builtDegen_built [(0, 2), (1, 2), (0, 3), (1, 4), (5, 6)] [3, 0, 2, 1, 4, 5, 6] (by decide) (by decide)
    (by decide) (by decide)
  exact ⟨g, h⟩

/-- The second half: 0 and 1 with two vertices of every trace, shattered for `k = 3`. -/
example : ((builtDegen [(0, 2), (1, 2), (0, 3), (1, 3), (0, 4), (0, 5), (1, 6), (1, 7), (8, 9)]
      [0, 1, 2, 3, 4, 5, 6, 7, 8, 9]).bind fun g => (exOracle g).bind fun o =>
    o.isShattered (fun _ => .id) (fun _ => .id) (fun _ => .id) .id [0, 1] 3 g) = .ok true := by
  decide +kernel

end Verif
