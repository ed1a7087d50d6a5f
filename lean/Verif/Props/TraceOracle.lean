import Verif.Lemmas.Traces
import Verif.Spec.Trace
import Verif.Props.LinearAlg2
/-!
# C62 – C64: the trace oracle
-/
namespace Verif

theorem SGraph.Ordering.countP_card {S : SGraph} {ord : List ℕ} (O : S.Ordering ord) {p : ℕ → Prop} [DecidablePred p] :
    ord.countP (fun y => decide (p y)) = (S.V.filter p).card := by
  have h1 : S.V = ord.toFinset := by ext u; rw [List.mem_toFinset, O.mem]
  rw [List.countP_eq_length_filter, ← List.toFinset_card_of_nodup (O.nodup.filter _), List.toFinset_filter, ← h1]
  congr 1
  ext y
  simp

/-- A sublist of a duplicate-free list is determined by its members. -/
theorem ntr_eq_iff {S : SGraph} {X T : List ℕ} {y : ℕ} (hn : X.Nodup) (hT : T.Sublist X) :
    S.ntr X y = T ↔ S.nbrs y ∩ X.toFinset = T.toFinset := by
  have hmem : ∀ u, u ∈ S.ntr X y ↔ u ∈ X ∧ S.Adj y u := fun u => by
    unfold SGraph.ntr; rw [List.mem_filter, decide_eq_true_eq]
  constructor
  · rintro rfl
    ext u
    rw [Finset.mem_inter, SGraph.mem_nbrs, List.mem_toFinset, List.mem_toFinset, hmem, and_comm]
  · intro h
    have hT' : T = X.filter (fun u => decide (u ∈ T)) := by
      clear h hmem
      induction hT with
      | slnil => rfl
      | @cons l₁ l₂ a h ih =>
        have ha : a ∉ l₁ := fun hc => (List.nodup_cons.1 hn).1 (h.subset hc)
        rw [List.filter_cons_of_neg (by simpa using ha)]
        exact ih (List.nodup_cons.1 hn).2
      | @cons_cons l₁ l₂ a h ih =>
        rw [List.filter_cons_of_pos (by simp)]
        congr 1
        rw [List.nodup_cons] at hn
        refine (ih hn.2).trans (List.filter_congr fun u hu => ?_)
        have : u ≠ a := fun he => hn.1 (he ▸ hu)
        simp [this]
    rw [hT']
    unfold SGraph.ntr
    refine List.filter_congr fun u hu => ?_
    rw [decide_eq_decide, ← List.mem_toFinset (l := T), ← h, Finset.mem_inter, SGraph.mem_nbrs, List.mem_toFinset]
    exact ⟨fun h => ⟨h, hu⟩, fun h => h.1⟩

/-! ## C62 -/

/-- **C62.** For every duplicate-free list `X` of vertices sorted by the ordering, `compute_traces(X)` succeeds (no unchecked
access fails, no counter underflows) for all iteration orders; it stores for every subset `T` of `X` (as a list in the order
of `X`; 0 if absent) the number of vertices outside `X` whose neighbourhood in `X` is exactly `T`, and nothing else. -/
theorem C62_compute_traces {g : DegenGraph} {S : SGraph} {ord : List ℕ} (h : g.Built S ord) (σ₀ τ₀ : ℕ → ℕ → Shuffle ℕ)
    (ρ₀ : ℕ → Shuffle ℕ) :
    ∃ o, TraceOracle.forGraph σ₀ τ₀ ρ₀ g = .ok o ∧
    ∀ (σ τ : ℕ → Shuffle (List Bool × ℕ)) (ρ : ℕ → Shuffle (List ℕ × ℕ)) (θ : Shuffle ℕ) (X : List ℕ),
      X.Pairwise (fun a b => ord.idxOf a < ord.idxOf b) → (∀ u ∈ X, u ∈ S.V) →
      ∃ m, o.computeTraces σ τ ρ θ X g = .ok m ∧
        (∀ T, T.Sublist X → m.getD T 0 = S.traceCount X.toFinset T.toFinset) ∧ ∀ T ∈ m.keys, T.Sublist X := by
  have I := h.inv
  obtain ⟨o, h1, ho⟩ := TraceOracle.forGraph_ok I σ₀ τ₀ ρ₀
  refine ⟨o, h1, fun σ τ ρ θ X hp hV => ?_⟩
  obtain ⟨m, h2, h3, h4⟩ := TraceOracle.computeTraces_ok I ho hp hV σ τ ρ θ
  refine ⟨m, h2, fun T hT => ?_, h4⟩
  have hn : X.Nodup := hp.imp fun h he => absurd h (by rw [he]; omega)
  rw [h3 T, I.ordering.countP_card]
  unfold SGraph.traceCount
  congr 1
  refine Finset.filter_congr fun y _ => ?_
  rw [List.mem_toFinset, ← ntr_eq_iff hn hT]
  by_cases hy : y ∈ X <;> simp [hy]

/-- A graph given by its edges as a `DegenGraph` with a given ordering. -/
def builtDegen (es : List (ℕ × ℕ)) (ord : List ℕ) : Res DegenGraph :=
  (built es).bind fun G => DegenGraph.withOrdering G.view ord

theorem builtDegen_built (es : List (ℕ × ℕ)) (ord : List ℕ) (hl : ∀ u ∈ (SGraph.empty.addEdges es).V,
    ¬ (SGraph.empty.addEdges es).Adj u u) (hnd : ord.Nodup) (hV : ord.toFinset = (SGraph.empty.addEdges es).V)
    (hsz : 3 * ord.length + (SGraph.empty.addEdges es).E.card ≤ 2 ^ 32) :
    ∃ g, builtDegen es ord = .ok g ∧ g.Built (SGraph.empty.addEdges es) ord := by
  obtain ⟨⟨G, k⟩, h, A, -⟩ := EditGraph.abs_new.addEdges es
  have hV' : ∀ u, u ∈ ord ↔ u ∈ (SGraph.empty.addEdges es).V := fun u => by rw [← hV, List.mem_toFinset]
  have hl' : (SGraph.empty.addEdges es).Loopless := fun u h => hl u h.left h
  obtain ⟨g, hg, -⟩ := C45_with_ordering A.rep hl' hnd hV' hsz
  refine ⟨g, ?_, .make A.rep hl' hnd hV' hsz hg⟩
  unfold builtDegen built
  rw [h]
  exact hg

/-- The graph of the examples: the edges 0-1, 1-2, 2-3 and 1-3 with the ordering 3, 1, 0, 2. -/
theorem exTrace : ∃ g, builtDegen [(0, 1), (1, 2), (2, 3), (1, 3)] [3, 1, 0, 2] = .ok g ∧
    g.Built (SGraph.empty.addEdges [(0, 1), (1, 2), (2, 3), (1, 3)]) [3, 1, 0, 2] :=
  builtDegen_built _ _ (by decide) (by decide) (by decide) (by decide)

/-- The identity orders, for examples. -/
def exOracle (g : DegenGraph) : Res TraceOracle := TraceOracle.forGraph (fun _ _ => .id) (fun _ _ => .id) (fun _ => .id) g

/-- Hypotheses of `C62_compute_traces` are met by the set 3, 1, which has a common right neighbour 2 and of which 1 has the
further neighbour 0. -/
example : ∃ (g : DegenGraph) (S : SGraph) (ord X : List ℕ), g.Built S ord ∧ X.Pairwise (fun a b => ord.idxOf a < ord.idxOf b) ∧
    (∀ u ∈ X, u ∈ S.V) ∧ S.traceCount X.toFinset {1, 3} = 1 ∧ S.traceCount X.toFinset {1} = 1 := by
  obtain ⟨g, -, h⟩ := exTrace
  exact ⟨g, _, _, [3, 1], h, by decide, by decide, by decide, by decide⟩

/-- A run on the same set: one vertex each with the traces 3, 1 and 1; zero counts remain stored. -/
example : ((builtDegen [(0, 1), (1, 2), (2, 3), (1, 3)] [3, 1, 0, 2]).bind fun g => (exOracle g).bind fun o =>
    (o.computeTraces (fun _ => .id) (fun _ => .id) (fun _ => .rev) .rev [3, 1] g).map fun m => m.entries) =
    .ok [([3, 1], 1), ([1], 1), ([3], 0), ([], 0)] := by
  decide +kernel

/-! ## C63 -/

/-- **C63.** `compute_neighbour_count(X)` is the number of vertices outside `X` with a neighbour in `X`, for all iteration
orders, without underflow. -/
theorem C63_neighbour_count {g : DegenGraph} {S : SGraph} {ord : List ℕ} (h : g.Built S ord) (σ₀ τ₀ : ℕ → ℕ → Shuffle ℕ)
    (ρ₀ : ℕ → Shuffle ℕ) :
    ∃ o, TraceOracle.forGraph σ₀ τ₀ ρ₀ g = .ok o ∧ ∀ (σ : ℕ → Shuffle (List Bool × ℕ)) (θ : Shuffle ℕ) (X : List ℕ),
      X.Pairwise (fun a b => ord.idxOf a < ord.idxOf b) → (∀ u ∈ X, u ∈ S.V) →
      o.neighbourCount σ θ X g = .ok (S.outerNbrs X.toFinset) := by
  have I := h.inv
  obtain ⟨o, h1, ho⟩ := TraceOracle.forGraph_ok I σ₀ τ₀ ρ₀
  refine ⟨o, h1, fun σ θ X hp hV => ?_⟩
  rw [TraceOracle.neighbourCount_ok I ho hp hV σ θ, I.ordering.countP_card]
  unfold SGraph.outerNbrs
  congr 2
  refine Finset.filter_congr fun y _ => ?_
  rw [List.mem_toFinset, TraceOracle.ntr_ne_nil]
  simp only [List.mem_toFinset, SGraph.adj_comm]

/-- Hypotheses of `C63_neighbour_count` are met; the set 1, 0 has two outer neighbours. -/
example : ∃ (g : DegenGraph) (S : SGraph) (ord X : List ℕ), g.Built S ord ∧ X.Pairwise (fun a b => ord.idxOf a < ord.idxOf b) ∧
    (∀ u ∈ X, u ∈ S.V) ∧ S.outerNbrs X.toFinset = 2 := by
  obtain ⟨g, -, h⟩ := exTrace
  exact ⟨g, _, _, [1, 0], h, by decide, by decide, by decide⟩

/-! ## C64 -/

/-- **C64.** For a duplicate-free list `X` of vertices in any order, `|X| ≤ k` and no overflow of the powers of two,
`is_shattered(X, k)` is true if and only if every subset of `X` is the trace of at least `2^(k-|X|)` vertices outside `X`. -/
theorem C64_is_shattered {g : DegenGraph} {S : SGraph} {ord : List ℕ} (h : g.Built S ord) (σ₀ τ₀ : ℕ → ℕ → Shuffle ℕ)
    (ρ₀ : ℕ → Shuffle ℕ) :
    ∃ o, TraceOracle.forGraph σ₀ τ₀ ρ₀ g = .ok o ∧
    ∀ (σ τ : ℕ → Shuffle (List Bool × ℕ)) (ρ : ℕ → Shuffle (List ℕ × ℕ)) (θ : Shuffle ℕ) (X : List ℕ) (k : ℕ),
      X.Nodup → (∀ u ∈ X, u ∈ S.V) → X.length ≤ k → X.length < 64 → k - X.length < 64 →
      ∃ b, o.isShattered σ τ ρ θ X k g = .ok b ∧
        (b = true ↔ ∀ T ⊆ X.toFinset, 2 ^ (k - X.length) ≤ S.traceCount X.toFinset T) := by
  have I := h.inv
  obtain ⟨o, h1, hall⟩ := C62_compute_traces h σ₀ τ₀ ρ₀
  refine ⟨o, h1, fun σ τ ρ θ X k hn hV hk hX64 hk64 => ?_⟩
  unfold TraceOracle.isShattered
  obtain ⟨r, hr1, hr2, hr3⟩ := I.sortByIndex hn hV
  have hrn : r.Nodup := hr2.imp fun h he => absurd h (by rw [he]; omega)
  have hrp : r.Perm X := (List.perm_ext_iff_of_nodup hrn hn).2 hr3
  have hrf : r.toFinset = X.toFinset := by ext u; rw [List.mem_toFinset, List.mem_toFinset, hr3]
  obtain ⟨m, hm1, hm2, hm3⟩ := hall σ τ ρ θ r hr2 (fun u hu => hV u ((hr3 u).1 hu))
  have hlen : cast32 r.length = X.length := by
    rw [hrp.length_eq]; exact cast32_of_lt (by omega)
  rw [hr1, bind_ok, hm1, bind_ok, hlen]
  simp only [hk, decide_true, assertR, if_true, bind_ok, usub_ok, pow64, if_pos hk64, if_pos hX64]
  -- the trace counts in terms of sublists of `r`
  have hspec : (∀ T ⊆ X.toFinset, 2 ^ (k - X.length) ≤ S.traceCount X.toFinset T) ↔
      ∀ T, T.Sublist r → 2 ^ (k - X.length) ≤ m.getD T 0 := by
    constructor
    · intro hT T hTr
      rw [hm2 T hTr, hrf]
      refine hT _ fun u hu => ?_
      rw [← hrf, List.mem_toFinset]
      exact hTr.subset (List.mem_toFinset.1 hu)
    · intro hT T hTX
      have := hT (r.filter (fun u => decide (u ∈ T))) List.filter_sublist
      rw [hm2 _ List.filter_sublist, hrf] at this
      have he : (r.filter (fun u => decide (u ∈ T))).toFinset = T := by
        ext u
        rw [List.mem_toFinset, List.mem_filter, decide_eq_true_eq]
        refine ⟨fun h => h.2, fun h => ⟨?_, h⟩⟩
        rw [← List.mem_toFinset, hrf]
        exact hTX h
      rwa [he] at this
  have hsubl : r.sublists.Nodup := List.nodup_sublists.2 hrn
  have hkeys : m.keys ⊆ r.sublists := fun T hT => List.mem_sublists.2 (hm3 T hT)
  have hcard : r.sublists.length = 2 ^ X.length := by rw [List.length_sublists, hrp.length_eq]
  rw [hspec]
  by_cases hlt : m.len < 2 ^ X.length
  · rw [if_pos hlt]
    refine ⟨false, rfl, ?_⟩
    simp only [Bool.false_eq_true, false_iff]
    intro hT
    have hsup : r.sublists ⊆ m.keys := by
      intro T hTr
      have h2 := hT T (List.mem_sublists.1 hTr)
      have h3 : 0 < m.getD T 0 := lt_of_lt_of_le (Nat.two_pow_pos _) h2
      exact HMap.mem_keys_iff.2 ⟨_, TraceOracle.get?_of_pos h3⟩
    have := (hsubl.subperm hsup).length_le
    rw [hcard, ← HMap.len_eq_length_keys] at this
    omega
  · rw [if_neg hlt]
    refine ⟨_, rfl, ?_⟩
    rw [List.all_eq_true]
    have hperm : m.keys.Perm r.sublists := by
      refine (m.keys_nodup.subperm hkeys).perm_of_length_le ?_
      rw [hcard, ← HMap.len_eq_length_keys]
      omega
    constructor
    · intro hv T hTr
      obtain ⟨c, hc⟩ := HMap.mem_keys_iff.1 (hperm.mem_iff.2 (List.mem_sublists.2 hTr))
      have := hv c (List.mem_map.2 ⟨(T, c), HMap.get?_eq_some.1 hc, rfl⟩)
      rw [decide_eq_true_eq] at this
      unfold HMap.getD
      rw [hc]
      exact this
    · intro hT c hc
      obtain ⟨⟨T, c'⟩, he, rfl⟩ := List.mem_map.1 hc
      have hg := HMap.get?_eq_some.2 he
      have := hT T (hm3 T (HMap.mem_keys_iff.2 ⟨_, hg⟩))
      unfold HMap.getD at this
      rw [hg] at this
      exact decide_eq_true this

/-- Hypotheses of `C64_is_shattered` are met, by a set that is shattered: 3 has one neighbour outside and one non-neighbour … -/
example : ∃ (g : DegenGraph) (S : SGraph) (ord X : List ℕ), g.Built S ord ∧ X.Nodup ∧ (∀ u ∈ X, u ∈ S.V) ∧ X.length ≤ 1 ∧ X.length < 64 ∧
    1 - X.length < 64 ∧
    ∀ T ⊆ X.toFinset, 2 ^ (1 - X.length) ≤ S.traceCount X.toFinset T := by
  obtain ⟨g, -, h⟩ := exTrace
  exact ⟨g, _, _, [3], h, by decide, by decide, by decide, by decide, by decide, by decide⟩

/-- … and by one that is not. -/
example : ∃ (g : DegenGraph) (S : SGraph) (ord X : List ℕ), g.Built S ord ∧ X.Nodup ∧ (∀ u ∈ X, u ∈ S.V) ∧ X.length ≤ 2 ∧ X.length < 64 ∧
    2 - X.length < 64 ∧
    ¬ ∀ T ⊆ X.toFinset, 2 ^ (2 - X.length) ≤ S.traceCount X.toFinset T := by
  obtain ⟨g, -, h⟩ := exTrace
  exact ⟨g, _, _, [1, 3], h, by decide, by decide, by decide, by decide, by decide, by decide⟩

/-- With a repeated vertex the correction terms are applied twice: on the path 0-1-2, `is_shattered([1, 1], 2)` underflows. -/
theorem C64_repeated : ((builtDegen [(0, 1), (1, 2)] [1, 0, 2]).bind fun g => (exOracle g).bind fun o =>
    o.isShattered (fun _ => .id) (fun _ => .id) (fun _ => .id) .id [1, 1] 2 g) = .error .overflow := by
  decide +kernel

end Verif
