import Verif.Lemmas.ReachSets
import Verif.Props.Linear
/-!
# C51 – C53: `right_bfs`, strongly and weakly reachable sets
-/
namespace Verif

/-- A linear graph for the examples: the path 0-1-2 with ordering 2, 0, 1, in which 2 is reachable from 0 at distance 2. -/
theorem exLin : ∃ (L : LinGraph) (S : SGraph), L.LRep S [2, 0, 1] ∧ S.Adj 0 1 ∧ S.Adj 1 2 ∧ ¬ S.Adj 0 2 ∧
    (∀ u, u ∈ [2, 0, 1] ↔ u ∈ S.V) ∧ S.V.card < 2 ^ 32 := by
  obtain ⟨G, S, h1, h2, h3, h12, h02, h4, h5, -, h6⟩ := exOrd
  obtain ⟨g, -, hg⟩ := C43_with_ordering h1 h2 h4 h5
  exact ⟨g.lin, S, (hg g (.refl g)).lin, h3, h12, h02, h5, by omega⟩

theorem exLin_path {S : SGraph} (h01 : S.Adj 0 1) (h12 : S.Adj 1 2) (h02 : ¬ S.Adj 0 2) {P : ℕ → Prop} (h : P 1) :
    IsMin (fun n => S.PathVia P n 0 2) 2 := by
  refine ⟨⟨[1], by simp [h01, h12], by simp, rfl, by simpa using h⟩, ?_⟩
  rintro m hm ⟨p, h1, h2, h3, h4⟩
  obtain rfl : p = [] := List.length_eq_zero_iff.1 (by omega)
  simp only [List.nil_append, List.isChain_cons_cons] at h1
  exact h02 h1.1

/-! ## C51 -/

/-- **C51.** `right_bfs(root, k)` returns `k+1` layers, layer `d` being exactly the vertices at distance `d` from `root` in
the subgraph induced by `root` and the vertices after it, for every iteration order of the layers. -/
theorem C51_right_bfs {L : LinGraph} {S : SGraph} {ord : List ℕ} (H : L.LRep S ord) (σ : ℕ → Shuffle ℕ) {root k : ℕ}
    (hroot : root ∈ S.V) (hk : k + 1 < 2 ^ 32) :
    ∃ ls, L.rightBfs σ root k = .ok ls ∧ ls.length = k + 1 ∧
      ∀ (d : ℕ) s, ls[d]? = some s → ∀ v, v ∈ s ↔ IsDist (S.RightAdj ord root) root v d :=
  H.rightBfs σ hroot hk

/-- Hypotheses of `C51_right_bfs` are met, with a vertex at distance 2 in the right part. -/
example : ∃ (L : LinGraph) (S : SGraph) (ord : List ℕ), L.LRep S ord ∧ 2 ∈ S.V ∧ 2 + 1 < 2 ^ 32 ∧
    IsDist (S.RightAdj ord 2) 2 0 2 := by
  obtain ⟨L, S, H, h01, h12, h02, -, -⟩ := exLin
  refine ⟨L, S, _, H, h12.right, by omega, ?_⟩
  have : S.WReach [2, 0, 1] 0 2 2 := ⟨by decide, exLin_path h01 h12 h02 (by decide)⟩
  exact ((SGraph.wreach_iff H.ordering).1 this).2

/-! ## C52 -/

/-- **C52.** For `1 ≤ r`, `sreach_set(u, r)` maps exactly the vertices strongly reachable from `u` at a distance at most `r`
to that distance. -/
theorem C52_sreach_set {L : LinGraph} {S : SGraph} {ord : List ℕ} (H : L.LRep S ord) (σ τ : ℕ → Shuffle ℕ) {u r : ℕ}
    (hu : u ∈ S.V) (hr : 1 ≤ r) (hk : r < 2 ^ 32) :
    ∃ m, L.sreachSet σ τ u r = .ok m ∧ ∀ v d, m.get? v = some d ↔ S.SReach ord u v d ∧ d ≤ r :=
  H.sreachSet σ τ hu hr hk

/-- `C52_sreach_set` for a triangle with a pendant vertex. -/
example := fun σ τ => C52_sreach_set case_ord.choose_spec.inv.lrep σ τ (u := 1) (r := 2) (by decide) (by decide) (by decide)

/-- **C52.** `sreach_sets(r)` holds for every vertex of the graph its strongly reachable vertices with distances. -/
theorem C52_sreach_sets {L : LinGraph} {S : SGraph} {ord : List ℕ} (H : L.LRep S ord) (σ τ : ℕ → ℕ → Shuffle ℕ) {r : ℕ}
    (hr : 1 ≤ r) (hk : r < 2 ^ 32) :
    ∃ m, L.sreachSets σ τ r = .ok m ∧ (∀ u, u ∈ m.keys ↔ u ∈ S.V) ∧
      ∀ u s, m.get? u = some s → ∀ v d, s.get? v = some d ↔ S.SReach ord u v d ∧ d ≤ r :=
  H.sreachSets σ τ hr hk

/-- `C52_sreach_sets` for a triangle with a pendant vertex. -/
example := fun σ τ => C52_sreach_sets case_ord.choose_spec.inv.lrep σ τ (r := 2) (by decide) (by decide)

open Classical in
/-- **C52.** `sreach_sizes(r)` holds for every vertex the number of vertices strongly reachable within distance `r`. -/
theorem C52_sreach_sizes {L : LinGraph} {S : SGraph} {ord : List ℕ} (H : L.LRep S ord) (σ τ : ℕ → ℕ → Shuffle ℕ) {r : ℕ}
    (hr : 1 ≤ r) (hk : r < 2 ^ 32) (hn : S.V.card < 2 ^ 32) :
    ∃ m, L.sreachSizes σ τ r = .ok m ∧ (∀ u, u ∈ m.keys ↔ u ∈ S.V) ∧
      ∀ u ∈ S.V, m.get? u = some (S.V.filter (fun v => ∃ d ≤ r, S.SReach ord u v d)).card := by
  obtain ⟨m, h1, h2, h3⟩ := H.sreachSizes σ τ hr hk hn
  refine ⟨m, h1, h2, fun u hu => ?_⟩
  obtain ⟨c, hc⟩ := HMap.mem_keys_iff.1 ((h2 u).2 hu)
  obtain ⟨s, hs, rfl⟩ := h3 u c hc
  rw [hc]
  congr 1
  refine HMap.len_of_mem_iff fun v => ?_
  rw [HMap.mem_keys_iff, Finset.mem_filter]
  constructor
  · rintro ⟨d, hd⟩
    obtain ⟨h4, h5⟩ := (hs v d).1 hd
    refine ⟨(H.ordering.mem v).1 ?_, d, h5, h4⟩
    by_contra hc
    have e1 := List.idxOf_eq_length hc
    have e2 := List.idxOf_le_length (a := u) (l := ord)
    have := h4.1
    omega
  · rintro ⟨-, d, h5, h4⟩
    exact ⟨d, (hs v d).2 ⟨h4, h5⟩⟩

/-- `C52_sreach_sizes` for a triangle with a pendant vertex. -/
example := fun σ τ => C52_sreach_sizes case_ord.choose_spec.inv.lrep σ τ (r := 2) (by decide) (by decide) (by decide)

/-- For `r = 0` the code computes `r - 1` on `u32`: with overflow checks every call fails. -/
theorem C52_zero (L : LinGraph) (σ τ : ℕ → Shuffle ℕ) (u : ℕ) : L.sreachSet σ τ u 0 = .error .overflow := rfl

/-- Hypotheses of `C52_sreach_set`, `C52_sreach_sets` and `C52_sreach_sizes` are met, with a vertex strongly reachable
at distance 2. -/
example : ∃ (L : LinGraph) (S : SGraph) (ord : List ℕ), L.LRep S ord ∧ 0 ∈ S.V ∧ S.V.card < 2 ^ 32 ∧
    S.SReach ord 0 2 2 := by
  obtain ⟨L, S, H, h01, h12, h02, -, hn⟩ := exLin
  exact ⟨L, S, _, H, h01.left, hn, by decide, exLin_path h01 h12 h02 (by decide)⟩

/-! ## C53 -/

/-- **C53.** `wreach_sets(r)` holds for every vertex `u` of the graph a map from exactly the vertices weakly reachable from
`u` at a distance at most `r` to that distance; the internal assertion and `unwrap` do not fail. -/
theorem C53_wreach_sets {L : LinGraph} {S : SGraph} {ord : List ℕ} (H : L.LRep S ord) (σ τ : ℕ → ℕ → Shuffle ℕ) {r : ℕ}
    (hk : r + 1 < 2 ^ 32) :
    ∃ m, L.wreachSets σ τ r = .ok m ∧ (∀ u, u ∈ m.keys ↔ u ∈ S.V) ∧
      ∀ u s, m.get? u = some s → ∀ v d, s.get? v = some d ↔ S.WReach ord u v d ∧ d ≤ r :=
  H.wreachSets σ τ hk

/-- `C53_wreach_sets` for a triangle with a pendant vertex. -/
example := fun σ τ => C53_wreach_sets case_ord.choose_spec.inv.lrep σ τ (r := 2) (by decide)

open Classical in
/-- **C53.** `wreach_sizes(r)` holds for every vertex the number of vertices weakly reachable within distance `r`. -/
theorem C53_wreach_sizes {L : LinGraph} {S : SGraph} {ord : List ℕ} (H : L.LRep S ord) (σ τ : ℕ → ℕ → Shuffle ℕ) {r : ℕ}
    (hk : r + 1 < 2 ^ 32) (hn : S.V.card < 2 ^ 32) :
    ∃ m, L.wreachSizes σ τ r = .ok m ∧ (∀ u, u ∈ m.keys ↔ u ∈ S.V) ∧
      ∀ u ∈ S.V, m.get? u = some (S.V.filter (fun v => ∃ d ≤ r, S.WReach ord u v d)).card := by
  obtain ⟨m, h1, h2, h3⟩ := H.wreachSizes σ τ hk hn
  refine ⟨m, h1, h2, fun u hu => (h3 u hu).trans ?_⟩
  congr 2
  ext v
  rw [Finset.mem_filter, Finset.mem_filter]
  rfl

/-- Hypotheses of `C53_wreach_sets` and `C53_wreach_sizes` are met, with a vertex weakly reachable at distance 2. -/
example : ∃ (L : LinGraph) (S : SGraph) (ord : List ℕ), L.LRep S ord ∧ 2 + 1 < 2 ^ 32 ∧ S.V.card < 2 ^ 32 ∧
    S.WReach ord 0 2 2 := by
  obtain ⟨L, S, H, h01, h12, h02, -, hn⟩ := exLin
  exact ⟨L, S, _, H, by omega, hn, by decide, exLin_path h01 h12 h02 (by decide)⟩

end Verif
