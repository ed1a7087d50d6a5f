import Verif.Lemmas.TraceOracle
/-!
# The trace oracle: `compute_traces`, `compute_neighbour_count`, `is_shattered`
-/
namespace Verif

/-- The members of `X` that are left neighbours of `y`, in the order of `X`. -/
def SGraph.ltr (S : SGraph) (ord X : List ℕ) (y : ℕ) : List ℕ := X.filter (fun u => decide (u ∈ S.lefts ord y))

/-- The members of `X` that are neighbours of `y`, in the order of `X`. -/
def SGraph.ntr (S : SGraph) (X : List ℕ) (y : ℕ) : List ℕ := X.filter (fun u => decide (S.Adj y u))

namespace TraceOracle
variable {g : DegenGraph} {S : SGraph} {ord : List ℕ} {o : TraceOracle} {inner : List ℕ}

theorem ltr_sorted (hp : inner.Pairwise (fun a b => ord.idxOf a < ord.idxOf b)) {y : ℕ} :
    (S.ltr ord inner y).Pairwise (fun a b => ord.idxOf a < ord.idxOf b) := hp.filter _

theorem mem_ltr {y u : ℕ} : u ∈ S.ltr ord inner y ↔ u ∈ inner ∧ u ∈ S.lefts ord y := by
  unfold SGraph.ltr
  rw [List.mem_filter, decide_eq_true_eq]

theorem ltr_snoc {a y : ℕ} : S.ltr ord (inner ++ [a]) y = S.ltr ord inner y ++ if a ∈ S.lefts ord y then [a] else [] := by
  unfold SGraph.ltr
  rw [List.filter_append, List.filter_singleton]
  by_cases h : a ∈ S.lefts ord y <;> simp [h]

/-- The sets stored at the anchor, restricted to a prefix of `inner` ending in it. -/
theorem ctx_filter (O : S.Ordering ord) {a y : ℕ} {C T : List ℕ} (hC : CtxOK S ord a C)
    (hT : T.Pairwise (fun a b => ord.idxOf a < ord.idxOf b)) (hTa : ∀ u ∈ T, ord.idxOf u ≤ ord.idxOf a)
    (hy : a ∈ S.lefts ord y) :
    C.filter (fun u => decide (u ∈ T) && decide (S.Adj y u)) = S.ltr ord T y := by
  have ha := O.mem_lefts.1 hy
  refine eq_of_sorted_by (hC.sorted.filter _) (ltr_sorted hT) fun u => ?_
  rw [List.mem_filter, mem_ltr, Bool.and_eq_true, decide_eq_true_eq, decide_eq_true_eq, O.mem_lefts]
  constructor
  · rintro ⟨h1, h2, h3⟩
    have := hTa u h2
    exact ⟨h2, h3, by omega⟩
  · rintro ⟨h1, h2, h3⟩
    exact ⟨hC.reach y u ha.1 ha.2 h2 (hTa u h1), h1, h2⟩

theorem take_le (hp : inner.Pairwise (fun a b => ord.idxOf a < ord.idxOf b)) {j a : ℕ} (hj : inner[j]? = some a) :
    ∀ u ∈ inner.take (j + 1), ord.idxOf u ≤ ord.idxOf a :=
  fun u hu => ((mem_take_sorted (f := fun x => ord.idxOf x) hp hj).1 hu).2

/-- `count_neighbours` at the anchor `a`. -/
theorem counts_ok (H : g.Inv S ord) (ho : o.Is S ord) (hp : inner.Pairwise (fun a b => ord.idxOf a < ord.idxOf b))
    (σ τ : Shuffle (List Bool × ℕ)) {j a : ℕ} (hj : inner[j]? = some a) (ha : a ∈ S.V) :
    ∃ c, o.contexts.get? a = some c ∧ Ok (c.countNeighbours σ τ (inner.take (j + 1)))
      (fun m => Hist m (ord.filter (fun y => decide (a ∈ S.lefts ord y))) (S.ltr ord (inner.take (j + 1)))) := by
  obtain ⟨c, h1, C, h2, h3, h4⟩ := ho a ha
  refine ⟨c, h1, (h2.countNeighbours h4 σ τ _).mono fun m hm => hm.congr fun y hy => ?_⟩
  rw [List.mem_filter, decide_eq_true_eq] at hy
  exact ctx_filter H.ordering h3 (hp.sublist (List.take_sublist _ _)) (take_le hp hj) hy.2

/-- `m` counts the vertices by the key `f` (vertices with key `none` are not counted). -/
def Cnt (m : HMap (List ℕ) ℕ) (ord : List ℕ) (f : ℕ → Option (List ℕ)) : Prop :=
  ∀ T, m.getD T 0 = ord.countP (fun y => decide (f y = some T))

theorem Cnt.congr {m : HMap (List ℕ) ℕ} {f f' : ℕ → Option (List ℕ)} (h : Cnt m ord f) (he : ∀ y ∈ ord, f y = f' y) :
    Cnt m ord f' := by
  intro T
  rw [h T]
  exact List.countP_congr fun y hy => by rw [he y hy]

theorem getD_insert {m : HMap (List ℕ) ℕ} {K T : List ℕ} {n : ℕ} :
    (m.insert K n).getD T 0 = if T = K then n else m.getD T 0 := by
  unfold HMap.getD
  rw [HMap.get?_insert]
  split <;> rfl

theorem get?_of_pos {m : HMap (List ℕ) ℕ} {K : List ℕ} (h : 0 < m.getD K 0) : m.get? K = some (m.getD K 0) := by
  unfold HMap.getD at *
  cases hk : m.get? K with
  | none => rw [hk] at h; simp at h
  | some n => rfl

/-- Moving the vertices satisfying `q` from the set `P` to `K`. -/
theorem Cnt.move {m : HMap (List ℕ) ℕ} {f f' : ℕ → Option (List ℕ)} (h : Cnt m ord f) {q : ℕ → Prop} [DecidablePred q]
    {P K : List ℕ} (hf : ∀ y ∈ ord, f' y = if q y then some K else f y) (hq : ∀ y ∈ ord, q y → f y = some P) {c : ℕ}
    (hc : c = ord.countP (fun y => decide (q y))) (hc0 : 0 < c) :
    ∃ n, (m.insert K (m.getD K 0 + c)).get? P = some n ∧ c ≤ n ∧
      Cnt ((m.insert K (m.getD K 0 + c)).insert P (n - c)) ord f' := by
  have hle : c ≤ m.getD P 0 := by
    rw [h P, hc]
    refine List.countP_mono_left fun y hy hqy => ?_
    rw [decide_eq_true_eq] at hqy ⊢
    exact hq y hy hqy
  have hle' : c ≤ (m.insert K (m.getD K 0 + c)).getD P 0 := by
    rw [getD_insert]
    split
    · omega
    · exact hle
  refine ⟨_, get?_of_pos (lt_of_lt_of_le hc0 hle'), hle', fun T => ?_⟩
  have hmove := countP_move hf hq (some T)
  rw [← hc, ← h T] at hmove
  simp only [Option.some.injEq] at hmove
  rw [getD_insert, getD_insert, getD_insert]
  rw [getD_insert] at hle'
  by_cases h1 : T = P
  · subst h1
    by_cases h2 : T = K
    · subst h2; simp at hmove hle' ⊢; omega
    · simp [h2] at hmove hle' ⊢; omega
  · by_cases h2 : T = K
    · subst h2; simp [h1] at hmove ⊢; omega
    · simp [h1, h2] at hmove ⊢; omega

/-- Dropping the vertices satisfying `q` from the set `P`. -/
theorem Cnt.drop {m : HMap (List ℕ) ℕ} {f f' : ℕ → Option (List ℕ)} (h : Cnt m ord f) {q : ℕ → Prop} [DecidablePred q]
    {P : List ℕ} (hf : ∀ y ∈ ord, f' y = if q y then none else f y) (hq : ∀ y ∈ ord, q y → f y = some P) {c : ℕ}
    (hc : c = ord.countP (fun y => decide (q y))) (hc0 : 0 < c) :
    ∃ n, m.get? P = some n ∧ c ≤ n ∧ Cnt (m.insert P (n - c)) ord f' := by
  have hle : c ≤ m.getD P 0 := by
    rw [h P, hc]
    refine List.countP_mono_left fun y hy hqy => ?_
    rw [decide_eq_true_eq] at hqy ⊢
    exact hq y hy hqy
  refine ⟨_, get?_of_pos (lt_of_lt_of_le hc0 hle), hle, fun T => ?_⟩
  have hmove := countP_move hf hq (some T)
  rw [← hc, ← h T] at hmove
  simp only [Option.some.injEq, reduceCtorEq, if_false] at hmove
  rw [getD_insert]
  by_cases h1 : T = P
  · subst h1; simp at hmove ⊢; omega
  · simp [h1] at hmove ⊢; omega

/-- All keys are sublists of `inner`. -/
def Keys (inner : List ℕ) (m : HMap (List ℕ) ℕ) : Prop := ∀ T ∈ m.keys, T.Sublist inner

theorem Keys.insert {m : HMap (List ℕ) ℕ} (h : Keys inner m) {K : List ℕ} (hK : K.Sublist inner) {n : ℕ} :
    Keys inner (m.insert K n) := by
  intro T hT
  rcases HMap.mem_keys_insert.1 hT with rfl | hT
  · exact hK
  · exact h T hT

theorem ltr_sublist {y : ℕ} : (S.ltr ord inner y).Sublist inner := List.filter_sublist

/-- One prefix of the first phase. -/
theorem tracePrefix_ok (H : g.Inv S ord) (ho : o.Is S ord) (hp : inner.Pairwise (fun a b => ord.idxOf a < ord.idxOf b))
    (hV : ∀ u ∈ inner, u ∈ S.V) (σ τ : ℕ → Shuffle (List Bool × ℕ)) (ρ : ℕ → Shuffle (List ℕ × ℕ)) {j : ℕ}
    (hj : j < inner.length) {m : HMap (List ℕ) ℕ} (hm : Cnt m ord (fun y => some (S.ltr ord (inner.take j) y)))
    (hk : Keys inner m) :
    Ok (tracePrefix σ τ ρ o g inner m j) (fun m' => Cnt m' ord (fun y => some (S.ltr ord (inner.take (j + 1)) y)) ∧
      Keys inner m') := by
  unfold tracePrefix
  have O := H.ordering
  have hja : inner[j]? = some inner[j] := List.getElem?_eq_getElem hj
  generalize inner[j] = a at hja
  have haV := hV a (List.mem_of_getElem? hja)
  have htake : inner.take (j + 1) = inner.take j ++ [a] := by rw [List.take_add_one, hja]; rfl
  obtain ⟨c, hc1, hc2⟩ := counts_ok H ho hp (σ j) (τ j) hja haV
  rw [hja, unwrap_some, bind_ok, hc1, unwrap_some, bind_ok]
  refine hc2.bind fun counts hcounts => ?_
  have key := Ok.foldlM (f := traceStep g) (l := (ρ j).run counts.entries) (b := m)
    (fun pre m' => Cnt m' ord (fun y => some (if a ∈ S.lefts ord y ∧ S.ltr ord (inner.take (j + 1)) y ∈ pre.map Prod.fst
      then S.ltr ord (inner.take (j + 1)) y else S.ltr ord (inner.take j) y)) ∧ Keys inner m')
    ⟨hm.congr fun y _ => by simp, hk⟩ ?_
  · refine key.mono fun m' hm' => ⟨hm'.1.congr fun y hy => ?_, hm'.2⟩
    by_cases ha : a ∈ S.lefts ord y
    · rw [if_pos]
      refine ⟨ha, ?_⟩
      rw [(((ρ j).perm counts.entries).map Prod.fst).mem_iff]
      exact hcounts.mem_keys (by rw [List.mem_filter, decide_eq_true_eq]; exact ⟨hy, ha⟩)
    · rw [if_neg fun h => ha h.1, htake, ltr_snoc, if_neg ha, List.append_nil]
  · rintro pre ⟨K, n⟩ post m' hs ⟨hm', hk'⟩
    obtain ⟨h1, h2, h3⟩ := hcounts.entry ((ρ j).perm _) hs
    simp only at h1 h2 h3
    obtain ⟨y0, hy0, hy0K⟩ := List.countP_pos_iff.1 (h2 ▸ h3)
    rw [List.mem_filter, decide_eq_true_eq] at hy0
    rw [decide_eq_true_eq] at hy0K
    have hKsub : K.Sublist inner := by rw [← hy0K]; exact ltr_sublist.trans (List.take_sublist _ _)
    have hKsorted : K.Pairwise (fun a b => ord.idxOf a < ord.idxOf b) := hp.sublist hKsub
    have hKa : ∀ y, a ∈ S.lefts ord y → S.ltr ord (inner.take (j + 1)) y = S.ltr ord (inner.take j) y ++ [a] := by
      intro y hy
      rw [htake, ltr_snoc, if_pos hy]
    have hK0 : K = K.dropLast ++ [a] := by
      rw [← hy0K, hKa y0 hy0.2]
      simp
    have hne : K.isEmpty = false := by rw [hK0]; simp
    unfold traceStep
    rw [if_neg (by simp only [hne]; decide), H.assertSorted hKsorted (fun u hu => hV u (hKsub.subset hu)), bind_ok]
    obtain ⟨old, ho1, ho2, ho3⟩ := hm'.move (q := fun y => a ∈ S.lefts ord y ∧ S.ltr ord (inner.take (j + 1)) y = K)
      (P := K.dropLast) (K := K)
      (f' := fun y => some (if a ∈ S.lefts ord y ∧ S.ltr ord (inner.take (j + 1)) y ∈ (pre ++ [(K, n)]).map Prod.fst
      then S.ltr ord (inner.take (j + 1)) y else S.ltr ord (inner.take j) y))
      (by
        intro y _
        by_cases ha : a ∈ S.lefts ord y
        · by_cases hyK : S.ltr ord (inner.take (j + 1)) y = K
          · simp [ha, hyK]
          · have : (S.ltr ord (inner.take (j + 1)) y ∈ (pre ++ [(K, n)]).map Prod.fst) =
                (S.ltr ord (inner.take (j + 1)) y ∈ pre.map Prod.fst) := by
              rw [List.map_append, List.mem_append]
              simp [hyK]
            simp only [this, hyK, and_false, if_false]
        · simp [ha])
      (by
        rintro y - ⟨h4, h5⟩
        rw [if_neg (by rw [h5]; exact fun h => h1 h.2), ← h5, hKa y h4]
        simp)
      (by
        rw [h2, List.countP_filter]
        refine List.countP_congr fun y _ => ?_
        simp only [Bool.and_eq_true, decide_eq_true_eq]
        exact and_comm) h3
    simp only
    rw [ho1, unwrapUnchecked_some, bind_ok, usub_ok ho2, bind_ok]
    exact Ok.pure ⟨ho3, (hk'.insert hKsub).insert ((List.dropLast_sublist K).trans hKsub)⟩

theorem leftSet_ok (H : g.Inv S ord) (hV : ∀ u ∈ inner, u ∈ S.V) :
    Ok (leftSet g inner) (fun s => ∀ y, y ∈ s ↔ y ∈ inner ∨ ∃ u ∈ inner, y ∈ S.lefts ord u) := by
  unfold leftSet
  refine Ok.foldlM (f := fun (s : HSet ℕ) u => do
    let N ← g.leftSlice u
    return (s.extend N).insert u)
    (fun pre (s : HSet ℕ) => ∀ y, y ∈ s ↔ y ∈ pre ∨ ∃ u ∈ pre, y ∈ S.lefts ord u) (by simp) ?_
  intro pre u post s hs h
  rw [H.leftSlice (hV u (by rw [hs]; simp)), bind_ok]
  refine Ok.pure fun y => ?_
  rw [HSet.mem_insert, HSet.mem_extend, h]
  simp only [List.mem_append, List.mem_singleton, or_and_right, exists_or, exists_eq_left]
  generalize (∃ u ∈ pre, y ∈ S.lefts ord u) = Q
  tauto

theorem traceOf_ok (H : g.Inv S ord) (y : ℕ) : traceOf g inner y = .ok (S.ntr inner y, S.ltr ord inner y) := by
  unfold traceOf
  have O := H.ordering
  have key := Ok.foldlM (f := fun (st : List ℕ × List ℕ) u => do
    if ← g.adjacent u y then
      return (st.1 ++ [u], if g.adjacentOrdered u y then st.2 ++ [u] else st.2)
    else return st) (l := inner) (b := ([], []))
    (fun pre st => st = (S.ntr pre y, S.ltr ord pre y)) rfl ?_
  · obtain ⟨st, h1, rfl⟩ := key
    exact h1
  · rintro pre u post _ hs rfl
    simp only
    have hao : g.adjacentOrdered u y = decide (S.Adj u y ∧ ord.idxOf u < ord.idxOf y) := by
      rw [Bool.eq_iff_iff, decide_eq_true_eq, H.adjacentOrdered]
    rw [H.adjacent u y, bind_ok, hao, ltr_snoc]
    have hn : S.ntr (pre ++ [u]) y = S.ntr pre y ++ if S.Adj u y then [u] else [] := by
      unfold SGraph.ntr
      rw [List.filter_append, List.filter_singleton]
      by_cases h : S.Adj u y
      · simp [h, h.symm]
      · have h' : ¬ S.Adj y u := fun hh => h hh.symm
        simp [h, h']
    rw [hn]
    by_cases h : S.Adj u y
    · have hl : u ∈ S.lefts ord y ↔ ord.idxOf u < ord.idxOf y := by
        rw [O.mem_lefts]
        exact ⟨fun h => h.2, fun h' => ⟨h.symm, h'⟩⟩
      by_cases h' : ord.idxOf u < ord.idxOf y
      · simp [h, h', hl]
      · simp [h, h', hl]
    · have hl : u ∉ S.lefts ord y := by
        rw [O.mem_lefts]
        exact fun hh => h hh.1.symm
      simp [h, hl]

/-- `compute_traces`. -/
theorem computeTraces_ok (H : g.Inv S ord) (ho : o.Is S ord) (hp : inner.Pairwise (fun a b => ord.idxOf a < ord.idxOf b))
    (hV : ∀ u ∈ inner, u ∈ S.V) (σ τ : ℕ → Shuffle (List Bool × ℕ)) (ρ : ℕ → Shuffle (List ℕ × ℕ)) (θ : Shuffle ℕ) :
    Ok (o.computeTraces σ τ ρ θ inner g) (fun m =>
      Cnt m ord (fun y => if y ∈ inner then none else some (S.ntr inner y)) ∧ Keys inner m) := by
  unfold computeTraces
  have O := H.ordering
  rw [H.assertSorted hp hV, bind_ok]
  have h0 : Cnt (HMap.empty.insert [] g.lin.numVertices) ord (fun y => some (S.ltr ord (inner.take 0) y)) := by
    intro T
    rw [getD_insert]
    have hn : g.lin.numVertices = ord.length := by
      rw [O.length]; exact H.numVertices
    by_cases hT : T = []
    · subst hT
      rw [if_pos rfl, hn, eq_comm, List.countP_eq_length]
      intro y _
      simp [SGraph.ltr]
    · rw [if_neg hT, eq_comm]
      show _ = 0
      rw [List.countP_eq_zero]
      intro y _
      simp only [List.take_zero, SGraph.ltr, List.filter_nil, Option.some.injEq, decide_eq_true_eq]
      exact fun h => hT h.symm
  refine Ok.bind (P := fun m => Cnt m ord (fun y => some (S.ltr ord inner y)) ∧ Keys inner m) ?_ ?_
  · have key := Ok.foldlM (f := tracePrefix σ τ ρ o g inner) (l := List.range inner.length)
      (b := HMap.empty.insert [] g.lin.numVertices)
      (fun pre m => Cnt m ord (fun y => some (S.ltr ord (inner.take pre.length) y)) ∧ Keys inner m)
      ⟨h0, by
        intro T hT
        rcases HMap.mem_keys_insert.1 hT with rfl | hT
        · exact List.nil_sublist _
        · exact absurd hT (by simp [HMap.keys, HMap.empty])⟩ ?_
    · simpa using key
    · rintro pre j post m hs ⟨hm, hk⟩
      have hjl : j < inner.length := List.mem_range.1 (by rw [hs]; simp)
      have hpj : pre.length = j := by
        have := congrArg (fun l : List ℕ => l[pre.length]?) hs
        simp only [List.getElem?_append_right (Nat.le_refl _), Nat.sub_self, List.getElem?_cons_zero] at this
        rw [List.getElem?_eq_some_iff] at this
        obtain ⟨h1, h2⟩ := this
        simpa using h2
      rw [hpj] at hm
      rw [List.length_append, hpj, List.length_singleton]
      exact tracePrefix_ok H ho hp hV σ τ ρ hjl hm hk
  · rintro m ⟨hm, hk⟩
    refine (leftSet_ok H hV).bind fun s hs => ?_
    have hsV : ∀ y ∈ s, y ∈ ord := by
      intro y hy
      rw [O.mem]
      rcases (hs y).1 hy with hy | ⟨u, -, hy⟩
      · exact hV y hy
      · exact (O.mem_lefts.1 hy).1.right
    have hnd : (θ.run s.toList).Nodup := θ.nodup s.nodup
    have key := Ok.foldlM (f := leftStep g inner) (l := θ.run s.toList) (b := m)
      (fun pre m => Cnt m ord (fun y => if y ∈ pre then (if y ∈ inner then none else some (S.ntr inner y)) else
        some (S.ltr ord inner y)) ∧ Keys inner m) ⟨hm.congr fun y _ => by simp, hk⟩ ?_
    · refine key.mono fun m' hm' => ⟨hm'.1.congr fun y hy => ?_, hm'.2⟩
      by_cases hys : y ∈ s
      · rw [if_pos ((θ.mem _ _).2 hys)]
      · have hyi : y ∉ inner := fun h => hys ((hs y).2 (.inl h))
        rw [if_neg (fun h => hys ((θ.mem _ _).1 h)), if_neg hyi]
        congr 1
        unfold SGraph.ltr SGraph.ntr
        refine List.filter_congr fun u hu => ?_
        rw [decide_eq_decide, O.mem_lefts]
        refine ⟨fun h => h.1, fun h => ⟨h, ?_⟩⟩
        rcases O.adj_cases H.loopless h with h' | h'
        · exact absurd ((hs y).2 (.inr ⟨u, hu, O.mem_lefts.2 ⟨h.symm, h'⟩⟩)) hys
        · exact h'
    · rintro pre y post m' hs' ⟨hm', hk'⟩
      have hyo : y ∈ ord := hsV y (by rw [← HSet.mem_toList, ← θ.mem, hs']; simp)
      have hypre : y ∉ pre := by
        intro hc
        rw [hs'] at hnd
        exact (List.nodup_append.1 hnd).2.2 y hc y (by simp) rfl
      have hone : 1 = ord.countP (fun z => decide (z = y)) := by
        have := List.count_eq_one_of_mem O.nodup hyo
        rw [List.count] at this
        rw [← this]
        exact List.countP_congr fun z _ => by simp
      unfold leftStep
      rw [traceOf_ok H, bind_ok]
      simp only
      by_cases hyi : y ∈ inner
      · obtain ⟨n, h1, h2, h3⟩ := hm'.drop (q := fun z => z = y) (P := S.ltr ord inner y)
          (f' := fun z => if z ∈ pre ++ [y] then (if z ∈ inner then none else some (S.ntr inner z)) else
            some (S.ltr ord inner z))
          (by
            intro z _
            by_cases hz : z = y
            · subst hz; simp [hyi]
            · simp [hz])
          (by rintro z - rfl; simp [hypre]) hone (by omega)
        rw [if_pos (by simpa using hyi), h1, unwrapUnchecked_some, bind_ok, usub_ok h2, bind_ok]
        exact Ok.pure ⟨h3, hk'.insert ltr_sublist⟩
      · obtain ⟨n, h1, h2, h3⟩ := hm'.move (q := fun z => z = y) (P := S.ltr ord inner y) (K := S.ntr inner y)
          (f' := fun z => if z ∈ pre ++ [y] then (if z ∈ inner then none else some (S.ntr inner z)) else
            some (S.ltr ord inner z))
          (by
            intro z _
            by_cases hz : z = y
            · subst hz; simp [hyi]
            · simp [hz])
          (by rintro z - rfl; simp [hypre]) hone (by omega)
        rw [if_neg (by simpa using hyi), h1, unwrapUnchecked_some, bind_ok, usub_ok h2, bind_ok]
        exact Ok.pure ⟨h3, (hk'.insert List.filter_sublist).insert ltr_sublist⟩

/-! ## `compute_neighbour_count` -/

theorem countP_or {W : List ℕ} {p q r : ℕ → Prop} [DecidablePred p] [DecidablePred q] [DecidablePred r]
    (h : ∀ y ∈ W, r y ↔ p y ∨ q y) (hd : ∀ y ∈ W, p y → ¬ q y) :
    W.countP (fun y => decide (r y)) = W.countP (fun y => decide (p y)) + W.countP (fun y => decide (q y)) := by
  induction W with
  | nil => rfl
  | cons y W ih =>
    rw [List.countP_cons, List.countP_cons, List.countP_cons, ih (fun z hz => h z (by simp [hz])) (fun z hz => hd z (by simp [hz]))]
    have h1 := h y (by simp)
    have h2 := hd y (by simp)
    by_cases hp : p y
    · have hq := h2 hp
      have hr := h1.2 (.inl hp)
      simp [hp, hq, hr]; omega
    · by_cases hq : q y
      · have hr := h1.2 (.inr hq)
        simp [hp, hq, hr]; omega
      · have hr : ¬ r y := fun h => (h1.1 h).elim hp hq
        simp [hp, hq, hr]

theorem ltr_ne_nil {y : ℕ} : S.ltr ord inner y ≠ [] ↔ ∃ u ∈ inner, u ∈ S.lefts ord y := by
  unfold SGraph.ltr
  rw [ne_eq, List.filter_eq_nil_iff]
  push Not
  simp

theorem ntr_ne_nil {y : ℕ} : S.ntr inner y ≠ [] ↔ ∃ u ∈ inner, S.Adj y u := by
  unfold SGraph.ntr
  rw [ne_eq, List.filter_eq_nil_iff]
  push Not
  simp

theorem ctx_last {a : ℕ} {C : List ℕ} (hC : CtxOK S ord a C) : 1 ≤ C.length ∧ C[C.length - 1]? = some a := by
  have hpos : 1 ≤ C.length := List.length_pos_of_mem hC.self
  refine ⟨hpos, ?_⟩
  obtain ⟨i, hi, hia⟩ := List.getElem_of_mem hC.self
  have hs := List.pairwise_iff_getElem.1 hC.sorted
  have : i = C.length - 1 := by
    by_contra hne
    have h1 := hs i (C.length - 1) hi (by omega) (by omega)
    have h2 := hC.le C[C.length - 1] (List.getElem_mem _)
    rw [hia] at h1
    omega
  subst this
  rw [List.getElem?_eq_getElem hi, hia]

/-- `count_first_intersection` at the anchor `a`. -/
theorem first_ok (H : g.Inv S ord) (ho : o.Is S ord) (hp : inner.Pairwise (fun a b => ord.idxOf a < ord.idxOf b))
    (σ : Shuffle (List Bool × ℕ)) {j a : ℕ} (hj : inner[j]? = some a) (ha : a ∈ S.V) :
    ∃ c, o.contexts.get? a = some c ∧ c.countFirstIntersection σ (inner.take (j + 1)) =
      .ok (ord.countP (fun y => decide (a ∈ S.lefts ord y ∧ S.ltr ord (inner.take j) y = []))) := by
  obtain ⟨c, h1, C, h2, h3, h4⟩ := ho a ha
  refine ⟨c, h1, ?_⟩
  have O := H.ordering
  have htake : inner.take (j + 1) = inner.take j ++ [a] := by rw [List.take_add_one, hj]; rfl
  unfold SReachContext.countFirstIntersection
  obtain ⟨h5, h6⟩ := ctx_last h3
  rw [h2.toBitset, bind_ok, h2.context, usub_ok h5, bind_ok, h6, unwrap_some, bind_ok, h2.singletonBitset h3.self, bind_ok]
  rw [pure_eq_ok, Hist.sum (p := fun b => bitAnd (C.map (fun u => decide (u ∈ inner.take (j + 1)))) b =
    C.map (fun w => decide (w = a))) h4 (σ.perm _), List.countP_filter]
  congr 1
  refine List.countP_congr fun y _ => ?_
  rw [Bool.and_eq_true, decide_eq_true_eq, decide_eq_true_eq, decide_eq_true_eq, and_comm]
  refine and_congr_right fun hy => ?_
  have hf := ctx_filter O h3 (hp.sublist (List.take_sublist (j + 1) inner)) (take_le hp hj) hy
  have haT : a ∈ inner.take (j + 1) := by rw [htake]; simp
  have hnd : (inner.take (j + 1)).Nodup :=
    (hp.sublist (List.take_sublist (j + 1) inner)).imp fun h he => absurd h (by rw [he]; omega)
  have hanot : a ∉ inner.take j := by
    rw [htake] at hnd
    exact fun hc => (List.nodup_append.1 hnd).2.2 a hc a (by simp) rfl
  rw [SReachContext.bitAnd_map, List.map_inj_left]
  constructor
  · intro h
    by_contra hne
    obtain ⟨u, hu1, hu2⟩ := ltr_ne_nil.1 hne
    have hu3 : u ∈ C.filter (fun u => decide (u ∈ inner.take (j + 1)) && decide (S.Adj y u)) := by
      rw [hf, mem_ltr, htake]
      exact ⟨by simp [hu1], hu2⟩
    rw [List.mem_filter] at hu3
    have := h u hu3.1
    rw [hu3.2] at this
    exact hanot (of_decide_eq_true this.symm ▸ hu1)
  · intro h u hu
    rw [Bool.eq_iff_iff, decide_eq_true_eq]
    have : (decide (u ∈ inner.take (j + 1)) && decide (S.Adj y u)) = true ↔
        u ∈ C.filter (fun u => decide (u ∈ inner.take (j + 1)) && decide (S.Adj y u)) := by
      rw [List.mem_filter]
      exact ⟨fun h => ⟨hu, h⟩, fun h => h.2⟩
    rw [this, hf, htake, ltr_snoc, if_pos hy, h]
    simp

/-- `compute_neighbour_count`. -/
theorem neighbourCount_ok (H : g.Inv S ord) (ho : o.Is S ord)
    (hp : inner.Pairwise (fun a b => ord.idxOf a < ord.idxOf b)) (hV : ∀ u ∈ inner, u ∈ S.V)
    (σ : ℕ → Shuffle (List Bool × ℕ)) (θ : Shuffle ℕ) :
    o.neighbourCount σ θ inner g = .ok (ord.countP (fun y => decide (y ∉ inner ∧ S.ntr inner y ≠ []))) := by
  unfold neighbourCount
  have O := H.ordering
  rw [H.assertSorted hp hV, bind_ok]
  have h1 : (List.range inner.length).foldlM (fun (res : ℕ) j => (do
      let anchor ← unwrap inner[j]?
      let ctx ← unwrap (o.contexts.get? anchor)
      let k ← ctx.countFirstIntersection (σ j) (inner.take (j + 1))
      return res + k : Res ℕ)) 0 = .ok (ord.countP (fun y => decide (S.ltr ord inner y ≠ []))) := by
    have key := Ok.foldlM (f := fun (res : ℕ) j => (do
      let anchor ← unwrap inner[j]?
      let ctx ← unwrap (o.contexts.get? anchor)
      let k ← ctx.countFirstIntersection (σ j) (inner.take (j + 1))
      return res + k : Res ℕ)) (l := List.range inner.length) (b := 0)
      (fun pre res => res = ord.countP (fun y => decide (S.ltr ord (inner.take pre.length) y ≠ [])))
      (by simp [SGraph.ltr]) ?_
    · obtain ⟨r, hr, rfl⟩ := key
      rw [hr]
      simp
    · rintro pre j post _ hs rfl
      have hjl : j < inner.length := List.mem_range.1 (by rw [hs]; simp)
      have hpj : pre.length = j := by
        have := congrArg (fun l : List ℕ => l[pre.length]?) hs
        simp only [List.getElem?_append_right (Nat.le_refl _), Nat.sub_self, List.getElem?_cons_zero] at this
        rw [List.getElem?_eq_some_iff] at this
        obtain ⟨h1, h2⟩ := this
        simpa using h2
      have hja : inner[j]? = some inner[j] := List.getElem?_eq_getElem hjl
      generalize inner[j] = a at hja
      have htake : inner.take (j + 1) = inner.take j ++ [a] := by rw [List.take_add_one, hja]; rfl
      obtain ⟨c, hc1, hc2⟩ := first_ok H ho hp (σ j) hja (hV a (List.mem_of_getElem? hja))
      rw [hja, unwrap_some, bind_ok, hc1, unwrap_some, bind_ok, hc2, bind_ok, List.length_append, hpj,
        List.length_singleton]
      refine Ok.pure ?_
      symm
      refine countP_or ?_ ?_
      · intro y _
        rw [htake, ltr_snoc]
        by_cases ha : a ∈ S.lefts ord y
        · simp only [ha, if_true, true_and]
          simp only [ne_eq, List.append_eq_nil_iff, List.cons_ne_self, and_false, not_false_eq_true, true_iff]
          exact (em _).symm
        · simp [ha]
      · intro y _ h h'
        exact h h'.2
  rw [h1, bind_ok]
  obtain ⟨s, hsl, hs⟩ := leftSet_ok H hV
  rw [hsl, bind_ok]
  have hsV : ∀ y ∈ s, y ∈ ord := by
    intro y hy
    rw [O.mem]
    rcases (hs y).1 hy with hy | ⟨u, -, hy⟩
    · exact hV y hy
    · exact (O.mem_lefts.1 hy).1.right
  have hnd : (θ.run s.toList).Nodup := θ.nodup s.nodup
  have key := Ok.foldlM (f := neighbourStep g inner) (l := θ.run s.toList)
    (b := ord.countP (fun y => decide (S.ltr ord inner y ≠ [])))
    (fun pre res => res = ord.countP (fun y => decide ((if y ∈ pre then decide (y ∉ inner ∧ S.ntr inner y ≠ []) else
      decide (S.ltr ord inner y ≠ [])) = true))) (by simp) ?_
  · obtain ⟨r, hr, rfl⟩ := key
    rw [hr]
    congr 1
    refine List.countP_congr fun y _ => ?_
    rw [decide_eq_true_eq, decide_eq_true_eq]
    by_cases hys : y ∈ s
    · rw [if_pos ((θ.mem _ _).2 hys), decide_eq_true_eq]
    · have hyi : y ∉ inner := fun h => hys ((hs y).2 (.inl h))
      rw [if_neg (fun h => hys ((θ.mem _ _).1 h)), decide_eq_true_eq, ltr_ne_nil, ntr_ne_nil]
      constructor
      · rintro ⟨u, hu, h⟩
        exact ⟨hyi, u, hu, (O.mem_lefts.1 h).1⟩
      · rintro ⟨-, u, hu, h⟩
        refine ⟨u, hu, O.mem_lefts.2 ⟨h, ?_⟩⟩
        rcases O.adj_cases H.loopless h with h' | h'
        · exact absurd ((hs y).2 (.inr ⟨u, hu, O.mem_lefts.2 ⟨h.symm, h'⟩⟩)) hys
        · exact h'
  · rintro pre y post _ hs' rfl
    have hys : y ∈ s := by rw [← HSet.mem_toList, ← θ.mem, hs']; simp
    have hyo : y ∈ ord := hsV y hys
    have hypre : y ∉ pre := by
      intro hc
      rw [hs'] at hnd
      exact (List.nodup_append.1 hnd).2.2 y hc y (by simp) rfl
    have hone : ord.countP (fun z => decide (z = y)) = 1 := by
      have := List.count_eq_one_of_mem O.nodup hyo
      rw [List.count] at this
      rw [← this]
      exact List.countP_congr fun z _ => by simp
    have hmove := countP_move (W := ord) (q := fun z => z = y) (P := decide (S.ltr ord inner y ≠ []))
      (K := decide (y ∉ inner ∧ S.ntr inner y ≠ []))
      (f := fun z => if z ∈ pre then decide (z ∉ inner ∧ S.ntr inner z ≠ []) else decide (S.ltr ord inner z ≠ []))
      (f' := fun z => if z ∈ pre ++ [y] then decide (z ∉ inner ∧ S.ntr inner z ≠ []) else decide (S.ltr ord inner z ≠ []))
      (by
        intro z _
        by_cases hz : z = y
        · subst hz; simp
        · simp [hz])
      (by rintro z - rfl; simp [hypre]) true
    rw [hone] at hmove
    generalize hA : ord.countP (fun z => decide ((if z ∈ pre then decide (z ∉ inner ∧ S.ntr inner z ≠ []) else
      decide (S.ltr ord inner z ≠ [])) = true)) = A at hmove ⊢
    generalize hB : ord.countP (fun z => decide ((if z ∈ pre ++ [y] then decide (z ∉ inner ∧ S.ntr inner z ≠ []) else
      decide (S.ltr ord inner z ≠ [])) = true)) = B at hmove ⊢
    unfold neighbourStep
    rw [H.leftSlice ((O.mem y).1 hyo), bind_ok]
    have hany : ((S.lefts ord y).any (fun w => inner.contains w)) = decide (S.ltr ord inner y ≠ []) := by
      rw [Bool.eq_iff_iff, decide_eq_true_eq, ltr_ne_nil, List.any_eq_true]
      constructor
      · rintro ⟨u, h1, h2⟩; exact ⟨u, by simpa using h2, h1⟩
      · rintro ⟨u, h1, h2⟩; exact ⟨u, h2, by simpa using h1⟩
    have hcon : inner.contains y = decide (y ∈ inner) := by simp
    rw [hany, hcon]
    have himp : S.ltr ord inner y ≠ [] → S.ntr inner y ≠ [] := by
      rw [ltr_ne_nil, ntr_ne_nil]
      rintro ⟨u, hu, h⟩
      exact ⟨u, hu, (O.mem_lefts.1 h).1⟩
    have himp2 : y ∉ inner → S.ntr inner y ≠ [] := by
      intro hy
      rcases (hs y).1 hys with h | ⟨u, hu, h⟩
      · exact absurd h hy
      · exact ntr_ne_nil.2 ⟨u, hu, (O.mem_lefts.1 h).1.symm⟩
    by_cases h2 : S.ltr ord inner y ≠ []
    · by_cases h3 : y ∈ inner
      · simp only [h2, h3, not_true_eq_false, false_and, decide_true, decide_false, if_true, Bool.true_eq_false, if_false,
          ne_eq, not_false_eq_true] at hmove ⊢
        rw [usub_ok (by omega)]
        exact Ok.pure (by omega)
      · simp only [h2, h3, himp h2, not_false_eq_true, true_and, decide_true, decide_false, if_true, ne_eq,
          Bool.false_eq_true, if_false] at hmove ⊢
        exact Ok.pure (by omega)
    · by_cases h3 : y ∈ inner
      · simp only [h2, h3, not_true_eq_false, false_and, decide_true, decide_false, if_true, Bool.true_eq_false, if_false,
          Bool.false_eq_true] at hmove ⊢
        exact Ok.pure (by omega)
      · have h4 := himp2 h3
        simp only [h2, h3, h4, ne_eq, not_false_eq_true, true_and, decide_true, decide_false, if_true, Bool.false_eq_true,
          if_false, Bool.true_eq_false] at hmove ⊢
        exact Ok.pure (by omega)

end TraceOracle
end Verif
