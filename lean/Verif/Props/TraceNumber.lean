import Verif.Props.TraceOracle
import Mathlib.Data.Finset.Powerset
import Mathlib.Algebra.Order.BigOperators.Group.Finset
/-!
# C121: the number of neighbourhood traces in graphs with small left degrees
-/
namespace Verif
open Finset

namespace SGraph
variable {S : SGraph} {ord : List ℕ} {X : Finset ℕ}

/-- With at most `d` left neighbours per vertex, the neighbourhoods of the other vertices in `X` are at most
`d·|X| + C(|X|, 0) + … + C(|X|, d)` different sets. -/
theorem traces_card_le (O : S.Ordering ord) (hX : X ⊆ S.V) {d : ℕ} (hd : ∀ u ∈ S.V, (S.before ord u).card ≤ d) :
    (X.powerset.filter (fun T => 1 ≤ S.traceCount X T)).card ≤ X.card * d + ∑ i ∈ range (d + 1), X.card.choose i := by
  classical
  have hsub : X.powerset.filter (fun T => 1 ≤ S.traceCount X T) ⊆
      (X.biUnion (S.before ord)).image (fun y => S.nbrs y ∩ X) ∪ (range (d + 1)).biUnion (fun i => X.powersetCard i) := by
    intro T hT
    rw [Finset.mem_filter, Finset.mem_powerset] at hT
    obtain ⟨y, hy⟩ := Finset.card_pos.1 hT.2
    obtain ⟨hyV, hyX, hyT⟩ := Finset.mem_filter.1 hy
    rw [Finset.mem_union]
    by_cases hb : ∃ x ∈ X, y ∈ S.before ord x
    · exact .inl (Finset.mem_image.2 ⟨y, Finset.mem_biUnion.2 hb, hyT⟩)
    · right
      rw [Finset.mem_biUnion]
      refine ⟨T.card, Finset.mem_range.2 (Nat.lt_succ_of_le ((Finset.card_le_card fun x hx => ?_).trans (hd y hyV))),
        Finset.mem_powersetCard.2 ⟨hT.1, rfl⟩⟩
      rw [← hyT, Finset.mem_inter, mem_nbrs] at hx
      rw [mem_before]
      refine ⟨hx.1, lt_of_le_of_ne (Nat.le_of_not_lt fun hlt => hb ⟨x, hx.2, ?_⟩) fun he => ?_⟩
      · exact mem_before.2 ⟨hx.1.symm, hlt⟩
      · have := (List.idxOf_inj ((O.mem x).2 (hX hx.2))).1 he
        exact hyX (this ▸ hx.2)
  refine (Finset.card_le_card hsub).trans ((Finset.card_union_le _ _).trans (Nat.add_le_add ?_ ?_))
  · exact Finset.card_image_le.trans (Finset.card_biUnion_le_card_mul _ _ _ fun x hx => hd x (hX hx))
  · refine Finset.card_biUnion_le.trans (Finset.sum_le_sum fun i _ => ?_)
    rw [Finset.card_powersetCard]

end SGraph

/-- **C121.** If every left degree is at most `d`, the map returned by `compute_traces(X)` has at most
`d·|X| + C(|X|, 0) + … + C(|X|, d)` entries with a count other than 0. -/
theorem C121_compute_traces {g : DegenGraph} {S : SGraph} {ord : List ℕ} (h : g.Built S ord) (σ₀ τ₀ : ℕ → ℕ → Shuffle ℕ)
    (ρ₀ : ℕ → Shuffle ℕ) {d : ℕ} (hd : ∀ u ∈ S.V, ∃ k ≤ d, g.leftDegree u = .ok k) :
    ∃ o, TraceOracle.forGraph σ₀ τ₀ ρ₀ g = .ok o ∧
    ∀ (σ τ : ℕ → Shuffle (List Bool × ℕ)) (ρ : ℕ → Shuffle (List ℕ × ℕ)) (θ : Shuffle ℕ) (X : List ℕ),
      X.Pairwise (fun a b => ord.idxOf a < ord.idxOf b) → (∀ u ∈ X, u ∈ S.V) →
      ∃ m, o.computeTraces σ τ ρ θ X g = .ok m ∧
        (m.entries.filter (fun e => decide (e.2 ≠ 0))).length ≤ X.length * d + ∑ i ∈ range (d + 1), X.length.choose i := by
  obtain ⟨o, h1, hall⟩ := C62_compute_traces h σ₀ τ₀ ρ₀
  refine ⟨o, h1, fun σ τ ρ θ X hp hV => ?_⟩
  obtain ⟨m, h2, h3, h4⟩ := hall σ τ ρ θ X hp hV
  refine ⟨m, h2, ?_⟩
  have hn : X.Nodup := hp.imp fun h he => absurd h (by rw [he]; omega)
  have hc : X.toFinset.card = X.length := List.toFinset_card_of_nodup hn
  rw [← hc]
  refine le_trans ?_ (SGraph.traces_card_le h.inv.ordering (fun u hu => hV u (List.mem_toFinset.1 hu)) (d := d)
    fun u hu => by
      obtain ⟨k, hk, hk'⟩ := hd u hu
      rw [h.inv.leftDegree hu] at hk'
      exact (Except.ok.inj hk').trans_le hk)
  have hkey : ∀ e ∈ m.entries, e.1.Sublist X := fun e he => h4 _ (HMap.mem_keys_iff.2 ⟨e.2, HMap.get?_eq_some.2 he⟩)
  have hnd : ((m.entries.filter (fun e => decide (e.2 ≠ 0))).map (fun e => e.1.toFinset)).Nodup := by
    have h5 : ((m.entries.filter (fun e => decide (e.2 ≠ 0))).map Prod.fst).Nodup :=
      m.nodup.sublist (List.filter_sublist.map _)
    rw [List.Nodup, List.pairwise_map] at h5 ⊢
    refine h5.imp_of_mem fun {a b} ha hb hab he => hab ?_
    refine eq_of_sorted_by (hp.sublist (hkey a (List.mem_filter.1 ha).1)) (hp.sublist (hkey b (List.mem_filter.1 hb).1))
      fun u => ?_
    rw [← List.mem_toFinset, ← List.mem_toFinset, he]
  rw [← List.length_map (f := fun e : List ℕ × ℕ => e.1.toFinset), ← List.toFinset_card_of_nodup hnd]
  refine Finset.card_le_card fun T hT => ?_
  rw [List.mem_toFinset, List.mem_map] at hT
  obtain ⟨e, he, rfl⟩ := hT
  obtain ⟨he, hne⟩ := List.mem_filter.1 he
  have hs := hkey e he
  rw [Finset.mem_filter, Finset.mem_powerset]
  refine ⟨fun x hx => List.mem_toFinset.2 (hs.subset (List.mem_toFinset.1 hx)), ?_⟩
  rw [← h3 e.1 hs]
  have : m.getD e.1 0 = e.2 := by
    unfold HMap.getD
    rw [HMap.get?_eq_some.2 he]
    rfl
  rw [this]
  exact Nat.one_le_iff_ne_zero.2 (of_decide_eq_true hne)

/-- Hypotheses of `C121_compute_traces` are met by the graph with the edges 0-1, 1-2, 2-3 and 1-3 with the ordering 3, 1, 0, 2,
in which left degrees are at most 2. -/
example : ∃ g : DegenGraph, g.Built (SGraph.empty.addEdges [(0, 1), (1, 2), (2, 3), (1, 3)]) [3, 1, 0, 2] ∧
    ∀ u ∈ (SGraph.empty.addEdges [(0, 1), (1, 2), (2, 3), (1, 3)]).V, ∃ k ≤ 2, g.leftDegree u = .ok k := by
  obtain ⟨g, -, h⟩ := exTrace
  refine ⟨g, h, fun u hu => ⟨_, ?_, h.inv.leftDegree hu⟩⟩
  have hu' := (h.inv.ordering.mem u).2 hu
  simp only [List.mem_cons, List.not_mem_nil, or_false] at hu'
  rcases hu' with rfl | rfl | rfl | rfl <;> decide

/-- A run: in the matching 0-3, 1-4, 2-5, 6-7 ordered from left to right, left degrees are at most 1; the set 0, 1, 2 has four
traces, fewer than its eight subsets and than the bound 7. -/
example : ((builtDegen [(0, 3), (1, 4), (2, 5), (6, 7)] [0, 1, 2, 3, 4, 5, 6, 7]).bind fun g => (exOracle g).bind fun o =>
    (o.computeTraces (fun _ => .id) (fun _ => .id) (fun _ => .id) .id [0, 1, 2] g).map fun m =>
      (m.entries.filter (fun e => decide (e.2 ≠ 0))).length) = .ok 4 ∧
    3 * 1 + ∑ i ∈ range (1 + 1), Nat.choose 3 i = 7 := by
  decide +kernel

end Verif
