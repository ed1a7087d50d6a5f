import Verif.Props.TraceSums
import Verif.Props.Degenerate
/-!
# C116: the trace oracle on arbitrary lists

Non-vertices, unsorted lists, sizes that do not fit, repeated vertices.
-/
namespace Verif

theorem DegenGraph.Built.size {g : DegenGraph} {S : SGraph} {ord : List ℕ} (h : g.Built S ord) : ord.length < 2 ^ 32 := by
  induction h with
  | make _ _ _ _ hsz _ => omega
  | convert _ hsz _ => omega
  | relayout _ _ ih => exact ih
  | normalize _ _ _ _ _ _ ih => simpa using ih

namespace TraceOracle
variable {g : DegenGraph} {S : SGraph} {ord : List ℕ} {o : TraceOracle} {inner : List ℕ}

theorem indexOf_missing (I : g.Inv S ord) {u : ℕ} (hu : u ∉ S.V) : g.indexOf u = .error .panic := by
  unfold DegenGraph.indexOf
  rw [show g.indices.get? u = none from HMap.get?_eq_none.2 fun hk => hu ((I.contains u).1 (HMap.contains_iff.2 hk))]
  rfl

theorem mapM_index_panics (I : g.Inv S ord) {X : List ℕ} (hX : ∃ x ∈ X, x ∉ S.V) {β : Type} {f : ℕ → ℕ → β} :
    X.mapM (fun v => do return f (← g.indexOf v) v : ℕ → Res β) = .error .panic := by
  induction X with
  | nil => obtain ⟨x, hx, -⟩ := hX; cases hx
  | cons a X ih =>
    rw [List.mapM_cons]
    by_cases ha : a ∈ S.V
    · rw [I.indexOf ha]
      obtain ⟨x, hx, hx'⟩ := hX
      rcases List.mem_cons.1 hx with rfl | hx
      · exact absurd ha hx'
      · rw [ih ⟨x, hx, hx'⟩]; rfl
    · rw [indexOf_missing I ha]; rfl

theorem assertSorted_missing (I : g.Inv S ord) {X : List ℕ} (hX : ∃ x ∈ X, x ∉ S.V) : g.assertSorted X = .error .panic := by
  unfold DegenGraph.assertSorted
  have := mapM_index_panics I hX (f := fun i _ => i)
  simp only [bind_pure] at this
  have e : X.mapM g.indexOf = .error .panic := this
  rw [e]
  rfl

theorem sortByIndex_missing (I : g.Inv S ord) {X : List ℕ} (hX : ∃ x ∈ X, x ∉ S.V) : g.sortByIndex X = .error .panic := by
  unfold DegenGraph.sortByIndex
  rw [mapM_index_panics I hX (f := Prod.mk)]
  rfl

theorem assertSorted_unsorted (I : g.Inv S ord) {X : List ℕ} (hV : ∀ u ∈ X, u ∈ S.V)
    (hX : ¬ X.Pairwise (fun a b => ord.idxOf a ≤ ord.idxOf b)) : g.assertSorted X = .error .panic := by
  unfold DegenGraph.assertSorted
  rw [EditGraph.mapM_ok (h := DegenGraph.pos S ord) fun v hv => I.indexOf (hV v hv), bind_ok]
  have : ¬ (X.map (DegenGraph.pos S ord)).IsChain (· ≤ ·) := by
    intro hc
    apply hX
    have hp := List.isChain_iff_pairwise.1 hc
    rw [List.pairwise_map] at hp
    refine hp.imp_of_mem fun {a b} ha hb h => ?_
    by_contra hlt
    have := DegenGraph.pos_lt I.ordering (hV b hb) (hV a ha) (by omega)
    omega
  simp [assertR, this]

/-- The keys of the table have no repetitions. -/
def NodupKeys (m : HMap (List ℕ) ℕ) : Prop := ∀ T ∈ m.keys, T.Nodup

theorem NodupKeys.insert {m : HMap (List ℕ) ℕ} (h : NodupKeys m) {K : List ℕ} (hK : K.Nodup) {n : ℕ} :
    NodupKeys (m.insert K n) := by
  intro T hT
  rcases HMap.mem_keys_insert.1 hT with rfl | hT
  · exact hK
  · exact h T hT

/-- The first phase stores keys without repetitions only. -/
theorem tracePrefix_keys (ho : o.Is S ord) (hV : ∀ u ∈ inner, u ∈ S.V) {σ τ : ℕ → Shuffle (List Bool × ℕ)}
    {ρ : ℕ → Shuffle (List ℕ × ℕ)} {m m' : HMap (List ℕ) ℕ} {j : ℕ} (h : tracePrefix σ τ ρ o g inner m j = .ok m')
    (hm : NodupKeys m) : NodupKeys m' := by
  unfold tracePrefix at h
  cases hj : inner[j]? with
  | none => rw [hj] at h; cases h
  | some a =>
    obtain ⟨c, h1, C, h2, h3, h4⟩ := ho a (hV a (List.mem_of_getElem? hj))
    obtain ⟨cs, hc, hcs⟩ := h2.countNeighbours h4 (σ j) (τ j) (inner.take (j + 1))
    rw [hj, unwrap_some, bind_ok, h1, unwrap_some, bind_ok, hc, bind_ok] at h
    refine foldlM_of_ok (fun _ m => NodupKeys m) hm ?_ h
    intro pre e post b b' hs hb he
    have hek : e.1.Nodup := by
      have : e.1 ∈ cs.keys := List.mem_map.2 ⟨e, ((ρ j).perm _).subset (by rw [hs]; simp), rfl⟩
      obtain ⟨y, -, hy⟩ := hcs.keys_iff.1 this
      rw [← hy]
      exact h2.nodup.filter _
    unfold traceStep at he
    split at he
    · cases he; exact hb
    · cases h5 : g.assertSorted e.1 with
      | error f => rw [h5] at he; cases he
      | ok =>
        rw [h5, bind_ok] at he
        simp only at he
        cases h6 : (b.insert e.1 (b.getD e.1 0 + e.2)).get? e.1.dropLast with
        | none => rw [h6] at he; cases he
        | some old =>
          rw [h6, unwrapUnchecked_some, bind_ok] at he
          cases h7 : usub old e.2 with
          | error f => rw [h7] at he; cases he
          | ok new =>
            rw [h7] at he
            cases he
            exact (hb.insert hek).insert (hek.sublist (List.dropLast_sublist _))

end TraceOracle

/-- **C116, non-vertices.**  If the list contains a non-vertex, all three queries panic. -/
theorem C116_non_vertices {g : DegenGraph} {S : SGraph} {ord : List ℕ} (h : g.Built S ord) (o : TraceOracle)
    (σ τ : ℕ → Shuffle (List Bool × ℕ)) (ρ : ℕ → Shuffle (List ℕ × ℕ)) (θ : Shuffle ℕ) {X : List ℕ} (hX : ∃ x ∈ X, x ∉ S.V) :
    o.computeTraces σ τ ρ θ X g = .error .panic ∧ o.neighbourCount σ θ X g = .error .panic ∧
    ∀ k, o.isShattered σ τ ρ θ X k g = .error .panic := by
  have I := h.inv
  refine ⟨?_, ?_, fun k => ?_⟩
  · unfold TraceOracle.computeTraces
    rw [TraceOracle.assertSorted_missing I hX]; rfl
  · unfold TraceOracle.neighbourCount
    rw [TraceOracle.assertSorted_missing I hX]; rfl
  · unfold TraceOracle.isShattered
    rw [TraceOracle.sortByIndex_missing I hX]; rfl

/-- `C116_non_vertices` for a triangle with a pendant vertex. -/
example := fun o σ τ ρ θ => C116_non_vertices case_degen.choose_spec o σ τ ρ θ (X := [1, 9]) (by decide)

/-- **C116, unsorted lists.**  Vertices not listed by increasing position make `compute_traces` and
`compute_neighbour_count` panic (`is_shattered` sorts first). -/
theorem C116_unsorted {g : DegenGraph} {S : SGraph} {ord : List ℕ} (h : g.Built S ord) (o : TraceOracle)
    (σ τ : ℕ → Shuffle (List Bool × ℕ)) (ρ : ℕ → Shuffle (List ℕ × ℕ)) (θ : Shuffle ℕ) {X : List ℕ} (hV : ∀ x ∈ X, x ∈ S.V)
    (hX : ¬ X.Pairwise (fun a b => ord.idxOf a ≤ ord.idxOf b)) :
    o.computeTraces σ τ ρ θ X g = .error .panic ∧ o.neighbourCount σ θ X g = .error .panic := by
  have I := h.inv
  constructor
  · unfold TraceOracle.computeTraces
    rw [TraceOracle.assertSorted_unsorted I hV hX]; rfl
  · unfold TraceOracle.neighbourCount
    rw [TraceOracle.assertSorted_unsorted I hV hX]; rfl

/-- `C116_unsorted` for a triangle with a pendant vertex. -/
example := fun o σ τ ρ θ => C116_unsorted case_degen.choose_spec o σ τ ρ θ (X := [1, 3]) (by decide) (by decide)

/-- **C116, sizes.**  For a duplicate-free list of vertices, `is_shattered(X, k)` panics exactly if `k < |X|`, overflows
exactly if `|X| ≤ k` and one of `|X|`, `k - |X|` is 64 or more, and otherwise decides whether every subset of `X` is the
trace of at least `2^(k-|X|)` vertices outside `X`. -/
theorem C116_sizes {g : DegenGraph} {S : SGraph} {ord : List ℕ} (h : g.Built S ord) (σ₀ τ₀ : ℕ → ℕ → Shuffle ℕ)
    (ρ₀ : ℕ → Shuffle ℕ) :
    ∃ o, TraceOracle.forGraph σ₀ τ₀ ρ₀ g = .ok o ∧
    ∀ (σ τ : ℕ → Shuffle (List Bool × ℕ)) (ρ : ℕ → Shuffle (List ℕ × ℕ)) (θ : Shuffle ℕ) (X : List ℕ) (k : ℕ),
      X.Nodup → (∀ u ∈ X, u ∈ S.V) →
      (k < X.length ∧ o.isShattered σ τ ρ θ X k g = .error .panic) ∨
      (X.length ≤ k ∧ (64 ≤ X.length ∨ 64 ≤ k - X.length) ∧ o.isShattered σ τ ρ θ X k g = .error .overflow) ∨
      (X.length ≤ k ∧ X.length < 64 ∧ k - X.length < 64 ∧ ∃ b, o.isShattered σ τ ρ θ X k g = .ok b ∧
        (b = true ↔ ∀ T ⊆ X.toFinset, 2 ^ (k - X.length) ≤ S.traceCount X.toFinset T)) := by
  have I := h.inv
  obtain ⟨o, h1, hall⟩ := C64_is_shattered h σ₀ τ₀ ρ₀
  obtain ⟨o', h1', hct⟩ := C62_compute_traces h σ₀ τ₀ ρ₀
  obtain rfl : o = o' := by rw [h1] at h1'; exact Except.ok.inj h1'
  refine ⟨o, h1, fun σ τ ρ θ X k hn hV => ?_⟩
  by_cases hk : X.length ≤ k
  · by_cases h64 : X.length < 64 ∧ k - X.length < 64
    · exact .inr (.inr ⟨hk, h64.1, h64.2, hall σ τ ρ θ X k hn hV hk h64.1 h64.2⟩)
    · refine .inr (.inl ⟨hk, by omega, ?_⟩)
      obtain ⟨r, hr1, hr2, hr3⟩ := I.sortByIndex hn hV
      have hrn : r.Nodup := hr2.imp fun h he => absurd h (by rw [he]; omega)
      have hrp : r.Perm X := (List.perm_ext_iff_of_nodup hrn hn).2 hr3
      obtain ⟨m, hm1, -⟩ := hct σ τ ρ θ r hr2 (fun u hu => hV u ((hr3 u).1 hu))
      have hlen : cast32 r.length = X.length := by
        rw [hrp.length_eq]
        refine cast32_of_lt (lt_of_le_of_lt ?_ h.size)
        exact (hn.subperm fun u hu => (I.ordering.mem u).2 (hV u hu)).length_le
      unfold TraceOracle.isShattered
      rw [hr1, bind_ok, hm1, bind_ok, hlen]
      simp only [hk, decide_true, assertR, if_true, bind_ok, usub_ok]
      by_cases h2 : k - X.length < 64
      · have h3 : ¬ X.length < 64 := fun h => h64 ⟨h, h2⟩
        simp only [pow64, if_pos h2, if_neg h3, bind_ok]
        rfl
      · simp only [pow64, if_neg h2]
        rfl
  · refine .inl ⟨by omega, ?_⟩
    obtain ⟨r, hr1, hr2, hr3⟩ := I.sortByIndex hn hV
    have hrn : r.Nodup := hr2.imp fun h he => absurd h (by rw [he]; omega)
    have hrp : r.Perm X := (List.perm_ext_iff_of_nodup hrn hn).2 hr3
    obtain ⟨m, hm1, -⟩ := hct σ τ ρ θ r hr2 (fun u hu => hV u ((hr3 u).1 hu))
    have hlen : cast32 r.length = X.length := by
      rw [hrp.length_eq]
      refine cast32_of_lt (lt_of_le_of_lt ?_ h.size)
      exact (hn.subperm fun u hu => (I.ordering.mem u).2 (hV u hu)).length_le
    unfold TraceOracle.isShattered
    rw [hr1, bind_ok, hm1, bind_ok, hlen]
    simp only [hk, decide_false, assertR, Bool.false_eq_true, if_false]
    rfl

/-- `C116_sizes` for a triangle with a pendant vertex. -/
example := fun σ₀ τ₀ ρ₀ => C116_sizes case_degen.choose_spec σ₀ τ₀ ρ₀

/-- **C116, repeated vertices.**  If a vertex `w` occurs twice in a list `X` of vertices that contains all left neighbours of
its members, and some member of `X` has `w` as a left neighbour, then `compute_traces(X)` never returns: the second phase asks
for a set with `w` listed twice, which the first never stores. -/
theorem C116_repeated {g : DegenGraph} {S : SGraph} {ord : List ℕ} (h : g.Built S ord) (σ₀ τ₀ : ℕ → ℕ → Shuffle ℕ)
    (ρ₀ : ℕ → Shuffle ℕ) :
    ∃ o, TraceOracle.forGraph σ₀ τ₀ ρ₀ g = .ok o ∧
    ∀ (σ τ : ℕ → Shuffle (List Bool × ℕ)) (ρ : ℕ → Shuffle (List ℕ × ℕ)) (θ : Shuffle ℕ) (X : List ℕ) (w x : ℕ),
      (∀ u ∈ X, u ∈ S.V) → (∀ u ∈ X, ∀ y ∈ S.lefts ord u, y ∈ X) → x ∈ X → w ∈ S.lefts ord x → 2 ≤ X.count w →
      ∀ m, o.computeTraces σ τ ρ θ X g ≠ .ok m := by
  have I := h.inv
  obtain ⟨o, h1, ho⟩ := TraceOracle.forGraph_ok I σ₀ τ₀ ρ₀
  refine ⟨o, h1, fun σ τ ρ θ X w x hV hcl hx hw hcnt m hm => ?_⟩
  unfold TraceOracle.computeTraces at hm
  cases ha : g.assertSorted X with
  | error e => rw [ha] at hm; cases hm
  | ok =>
    rw [ha, bind_ok] at hm
    simp only at hm
    cases hp : (List.range X.length).foldlM (TraceOracle.tracePrefix σ τ ρ o g X)
        (HMap.empty.insert [] g.lin.numVertices) with
    | error e => rw [hp] at hm; cases hm
    | ok m₁ =>
      rw [hp, bind_ok] at hm
      have hk₁ : TraceOracle.NodupKeys m₁ := by
        refine foldlM_of_ok (fun _ m => TraceOracle.NodupKeys m) ?_ (fun pre j post b b' _ hb hs =>
          TraceOracle.tracePrefix_keys ho hV hs hb) hp
        intro T hT
        rcases HMap.mem_keys_insert.1 hT with rfl | hT
        · exact List.nodup_nil
        · exact absurd hT (by simp [HMap.keys, HMap.empty])
      obtain ⟨s, hs1, hs2⟩ := TraceOracle.leftSet_ok I hV
      rw [hs1, bind_ok] at hm
      have hsX : ∀ y ∈ s, y ∈ X := fun y hy => by
        rcases (hs2 y).1 hy with hy | ⟨u, hu, hy⟩
        · exact hy
        · exact hcl u hu y hy
      have hxs : x ∈ θ.run s.toList := (θ.mem _ _).2 ((hs2 x).2 (.inl hx))
      have key := foldlM_of_ok (l := θ.run s.toList) (f := TraceOracle.leftStep g X) (b := m₁) (c := m)
        (fun pre m => TraceOracle.NodupKeys m ∧ x ∉ pre) ⟨hk₁, by simp⟩ ?_ hm
      · exact key.2 hxs
      · rintro pre y post b b' hs ⟨hb, hpre⟩ he
        have hyX : y ∈ X := hsX y ((θ.mem _ _).1 (by rw [hs]; simp))
        unfold TraceOracle.leftStep at he
        rw [TraceOracle.traceOf_ok I, bind_ok] at he
        simp only at he
        rw [if_pos (by simpa using hyX)] at he
        cases hg : b.get? (S.ltr ord X y) with
        | none => rw [hg] at he; cases he
        | some old =>
          have hnd := hb _ (HMap.mem_keys_iff.2 ⟨_, hg⟩)
          rw [hg, unwrapUnchecked_some, bind_ok] at he
          cases h7 : usub old 1 with
          | error f => rw [h7] at he; cases he
          | ok new =>
            rw [h7] at he
            cases he
            refine ⟨hb.insert hnd, ?_⟩
            rw [List.mem_append, List.mem_singleton]
            rintro (hc | rfl)
            · exact hpre hc
            · have h9 : (S.ltr ord X x).count w ≤ 1 := List.nodup_iff_count_le_one.1 hnd w
              unfold SGraph.ltr at h9
              rw [List.count_filter (by simpa using hw)] at h9
              omega

/-- The ordering used below: the edges 0-1 and 2-3, ordered 0, 1, 2, 3. -/
theorem exRepeated : ∃ g, builtDegen [(0, 1), (2, 3)] [0, 1, 2, 3] = .ok g ∧
    g.Built (SGraph.empty.addEdges [(0, 1), (2, 3)]) [0, 1, 2, 3] :=
  builtDegen_built _ _ (by decide) (by decide) (by decide) (by decide)

/-- Hypotheses of `C116_repeated` are met. -/
example : ∃ (g : DegenGraph) (S : SGraph) (ord X : List ℕ), g.Built S ord ∧ (∀ u ∈ X, u ∈ S.V) ∧
    (∀ u ∈ X, ∀ y ∈ S.lefts ord u, y ∈ X) ∧ 1 ∈ X ∧ 0 ∈ S.lefts ord 1 ∧ 2 ≤ X.count 0 := by
  obtain ⟨g, -, h⟩ := exRepeated
  exact ⟨g, _, _, [0, 0, 1], h, by decide, by decide, by decide, by decide, by decide⟩

/-- **C116**, full statement: `is_shattered` is memory safe for all lists of vertices. -/
def C116_statement : Prop := ∀ (g : DegenGraph) (S : SGraph) (ord : List ℕ) (σ₀ τ₀ : ℕ → ℕ → Shuffle ℕ) (ρ₀ : ℕ → Shuffle ℕ)
  (o : TraceOracle) (σ τ : ℕ → Shuffle (List Bool × ℕ)) (ρ : ℕ → Shuffle (List ℕ × ℕ)) (θ : Shuffle ℕ) (X : List ℕ) (k : ℕ),
  g.Built S ord → TraceOracle.forGraph σ₀ τ₀ ρ₀ g = .ok o → (∀ u ∈ X, u ∈ S.V) → o.isShattered σ τ ρ θ X k g ≠ .error .ub

theorem repeated_ub : ((builtDegen [(0, 1), (2, 3)] [0, 1, 2, 3]).bind fun g => (exOracle g).bind fun o =>
    o.isShattered (fun _ => .id) (fun _ => .id) (fun _ => .id) .id [0, 0, 1] 3 g) = .error .ub := by
  decide +kernel

/-- **C116 refuted.**  On the edges 0-1 and 2-3, `is_shattered([0, 0, 1], 3)` unwraps the missing entry for `[0, 0]` with
`unwrap_unchecked`: undefined behaviour from a safe function. -/
theorem C116_refuted : ¬ C116_statement := by
  intro hC
  obtain ⟨g, hg, h⟩ := exRepeated
  obtain ⟨o, h1, -⟩ := TraceOracle.forGraph_ok h.inv (fun _ _ => .id) (fun _ _ => .id) (fun _ => .id)
  have h2 := repeated_ub
  have h3 : exOracle g = .ok o := h1
  rw [hg] at h2
  simp only [Except.bind, h3] at h2
  exact hC g _ _ _ _ _ o _ _ _ _ [0, 0, 1] 3 h h1 (by decide) h2

/-- **C116 (partial).**  `is_shattered` is memory safe if no vertex is repeated.  Missing: repeated vertices, for which it is
false. -/
theorem C116_memory_safe_partial {g : DegenGraph} {S : SGraph} {ord : List ℕ} (h : g.Built S ord) {σ₀ τ₀ : ℕ → ℕ → Shuffle ℕ}
    {ρ₀ : ℕ → Shuffle ℕ} {o : TraceOracle} (h1 : TraceOracle.forGraph σ₀ τ₀ ρ₀ g = .ok o)
    (σ τ : ℕ → Shuffle (List Bool × ℕ)) (ρ : ℕ → Shuffle (List ℕ × ℕ)) (θ : Shuffle ℕ) {X : List ℕ} (hX : X.Nodup) (k : ℕ) :
    o.isShattered σ τ ρ θ X k g ≠ .error .ub := by
  by_cases hV : ∀ u ∈ X, u ∈ S.V
  · obtain ⟨o', h1', hall⟩ := C116_sizes h σ₀ τ₀ ρ₀
    obtain rfl : o = o' := by rw [h1] at h1'; exact Except.ok.inj h1'
    rcases hall σ τ ρ θ X k hX hV with ⟨-, h2⟩ | ⟨-, -, h2⟩ | ⟨-, -, -, b, h2, -⟩ <;> rw [h2] <;> exact fun h => by cases h
  · push Not at hV
    rw [(C116_non_vertices h o σ τ ρ θ hV).2.2 k]
    exact fun h => by cases h

/-- A repeated vertex is also counted twice by `compute_neighbour_count`: the middle of the path 0-1-2 has two neighbours,
`[1, 1]` has four. -/
theorem C116_repeated_count : ((builtDegen [(0, 1), (1, 2)] [1, 0, 2]).bind fun g => (exOracle g).bind fun o =>
    (o.neighbourCount (fun _ => .id) .id [1] g).bind fun a => (o.neighbourCount (fun _ => .id) .id [1, 1] g).bind fun b =>
    .ok (a, b)) = (.ok (2, 4) : Res (ℕ × ℕ)) := by
  decide +kernel

/-- Hypotheses of `C116_non_vertices` and `C116_unsorted` are met. -/
example : ∃ (g : DegenGraph) (S : SGraph) (ord : List ℕ), g.Built S ord ∧ (∃ x ∈ [1, 7], x ∉ S.V) ∧ (∀ x ∈ [1, 3], x ∈ S.V) ∧
    ¬ [1, 3].Pairwise (fun a b => ord.idxOf a ≤ ord.idxOf b) := by
  obtain ⟨g, -, h⟩ := exTrace
  exact ⟨g, _, _, h, by decide, by decide, by decide⟩

/-- The cases of `C116_sizes` occur: `k` too small, the powers of two too large. -/
example : ((builtDegen [(0, 1), (1, 2), (2, 3), (1, 3)] [3, 1, 0, 2]).bind fun g => (exOracle g).bind fun o =>
    o.isShattered (fun _ => .id) (fun _ => .id) (fun _ => .id) .id [1, 3] 1 g) = .error .panic := by
  decide +kernel

example : ((builtDegen [(0, 1), (1, 2), (2, 3), (1, 3)] [3, 1, 0, 2]).bind fun g => (exOracle g).bind fun o =>
    o.isShattered (fun _ => .id) (fun _ => .id) (fun _ => .id) .id [1, 3] 66 g) = .error .overflow := by
  decide +kernel

end Verif
