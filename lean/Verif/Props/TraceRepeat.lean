import Mathlib.Algebra.BigOperators.Group.List.Basic
import Mathlib.Algebra.Order.BigOperators.Group.Finset
import Verif.Props.TraceLimits
/-!
# C116, continued: lists with repeated vertices
-/
namespace Verif

namespace TraceOracle
variable {g : DegenGraph} {S : SGraph} {ord : List ℕ} {o : TraceOracle} {inner : List ℕ}

theorem assertSorted_weak (I : g.Inv S ord) {X : List ℕ} (hV : ∀ u ∈ X, u ∈ S.V)
    (hX : X.Pairwise (fun a b => ord.idxOf a ≤ ord.idxOf b)) : g.assertSorted X = .ok () := by
  unfold DegenGraph.assertSorted
  rw [EditGraph.mapM_ok (h := DegenGraph.pos S ord) fun v hv => I.indexOf (hV v hv), bind_ok]
  have : (X.map (DegenGraph.pos S ord)).IsChain (· ≤ ·) := by
    refine List.Pairwise.isChain ?_
    rw [List.pairwise_map]
    refine hX.imp_of_mem fun {a b} ha hb h => ?_
    rcases Nat.lt_or_eq_of_le h with h | h
    · exact le_of_lt (DegenGraph.pos_lt I.ordering (hV a ha) (hV b hb) h)
    · rw [I.ordering.idxOf_inj (hV a ha) h]
  simp [assertR, this]

/-! ## Traces -/

/-- The keys that can occur: sorted lists of members of `X`, and all occurrences in `X` of some vertices. -/
def Key (ord X T : List ℕ) : Prop :=
  (T.Pairwise (fun a b => ord.idxOf a < ord.idxOf b) ∧ ∀ u ∈ T, u ∈ X) ∨ ∃ p : ℕ → Bool, T = X.filter p

theorem tracePrefix_key (ho : o.Is S ord) (hV : ∀ u ∈ inner, u ∈ S.V) {σ τ : ℕ → Shuffle (List Bool × ℕ)}
    {ρ : ℕ → Shuffle (List ℕ × ℕ)} {m m' : HMap (List ℕ) ℕ} {j : ℕ} (h : tracePrefix σ τ ρ o g inner m j = .ok m')
    (hm : ∀ T ∈ m.keys, Key ord inner T) : ∀ T ∈ m'.keys, Key ord inner T := by
  unfold tracePrefix at h
  cases hj : inner[j]? with
  | none => rw [hj] at h; cases h
  | some a =>
    obtain ⟨c, h1, C, h2, h3, h4⟩ := ho a (hV a (List.mem_of_getElem? hj))
    obtain ⟨cs, hc, hcs⟩ := h2.countNeighbours h4 (σ j) (τ j) (inner.take (j + 1))
    rw [hj, unwrap_some, bind_ok, h1, unwrap_some, bind_ok, hc, bind_ok] at h
    refine foldlM_of_ok (fun _ (m : HMap (List ℕ) ℕ) => ∀ T ∈ m.keys, Key ord inner T) hm ?_ h
    intro pre e post b b' hs hb he
    have hek : e.1.Pairwise (fun a b => ord.idxOf a < ord.idxOf b) ∧ ∀ u ∈ e.1, u ∈ inner := by
      have : e.1 ∈ cs.keys := List.mem_map.2 ⟨e, ((ρ j).perm _).subset (by rw [hs]; simp), rfl⟩
      obtain ⟨y, -, hy⟩ := hcs.keys_iff.1 this
      rw [← hy]
      refine ⟨h3.sorted.filter _, fun u hu => ?_⟩
      have := (List.mem_filter.1 hu).2
      rw [Bool.and_eq_true, decide_eq_true_eq] at this
      exact List.mem_of_mem_take this.1
    unfold traceStep at he
    split at he
    · cases he; exact hb
    · cases h5 : g.assertSorted e.1 with
      | error f => rw [h5] at he; cases he
      | ok =>
        rw [h5, bind_ok] at he
        simp only at he
        cases h6 : (b.insert e.1 (b.getD e.1 0 + e.2)).get? e.1.dropLast with
        | none => rw [h6] at he; cases he
        | some old =>
          rw [h6, unwrapUnchecked_some, bind_ok] at he
          cases h7 : usub old e.2 with
          | error f => rw [h7] at he; cases he
          | ok new =>
            rw [h7] at he
            cases he
            intro T hT
            rcases HMap.mem_keys_insert.1 hT with rfl | hT
            · exact .inl ⟨hek.1.sublist (List.dropLast_sublist _), fun u hu => hek.2 u (List.mem_of_mem_dropLast hu)⟩
            · rcases HMap.mem_keys_insert.1 hT with rfl | hT
              · exact .inl hek
              · exact hb T hT

theorem computeTraces_key (I : g.Inv S ord) (ho : o.Is S ord) (hV : ∀ u ∈ inner, u ∈ S.V) {σ τ : ℕ → Shuffle (List Bool × ℕ)}
    {ρ : ℕ → Shuffle (List ℕ × ℕ)} {θ : Shuffle ℕ} {m : HMap (List ℕ) ℕ} (hm : o.computeTraces σ τ ρ θ inner g = .ok m) :
    ∀ T ∈ m.keys, Key ord inner T := by
  unfold computeTraces at hm
  cases ha : g.assertSorted inner with
  | error e => rw [ha] at hm; cases hm
  | ok =>
    rw [ha, bind_ok] at hm
    simp only at hm
    cases hp : (List.range inner.length).foldlM (tracePrefix σ τ ρ o g inner) (HMap.empty.insert [] g.lin.numVertices) with
    | error e => rw [hp] at hm; cases hm
    | ok m₁ =>
      rw [hp, bind_ok] at hm
      have hk₁ : ∀ T ∈ m₁.keys, Key ord inner T := by
        refine foldlM_of_ok (fun _ (m : HMap (List ℕ) ℕ) => ∀ T ∈ m.keys, Key ord inner T) ?_ (fun pre j post b b' _ hb hs =>
          tracePrefix_key ho hV hs hb) hp
        intro T hT
        rcases HMap.mem_keys_insert.1 hT with rfl | hT
        · exact .inl ⟨.nil, by simp⟩
        · exact absurd hT (by simp [HMap.keys, HMap.empty])
      obtain ⟨s, hs1, hs2⟩ := leftSet_ok I hV
      rw [hs1, bind_ok] at hm
      refine foldlM_of_ok (fun _ (m : HMap (List ℕ) ℕ) => ∀ T ∈ m.keys, Key ord inner T) hk₁ ?_ hm
      intro pre y post b b' hs hb he
      unfold leftStep at he
      rw [traceOf_ok I, bind_ok] at he
      simp only at he
      have hb' : ∀ T ∈ (if inner.contains y then b else b.insert (S.ntr inner y) (b.getD (S.ntr inner y) 0 + 1)).keys,
          Key ord inner T := by
        split
        · exact hb
        · intro T hT
          rcases HMap.mem_keys_insert.1 hT with rfl | hT
          · exact .inr ⟨_, rfl⟩
          · exact hb T hT
      generalize (if inner.contains y then b else b.insert (S.ntr inner y) (b.getD (S.ntr inner y) 0 + 1)) = b₁ at he hb'
      cases hg : b₁.get? (S.ltr ord inner y) with
      | none => rw [hg] at he; cases he
      | some old =>
        rw [hg, unwrapUnchecked_some, bind_ok] at he
        cases h7 : usub old 1 with
        | error f => rw [h7] at he; cases he
        | ok new =>
          rw [h7] at he
          cases he
          intro T hT
          rcases HMap.mem_keys_insert.1 hT with rfl | hT
          · exact .inr ⟨_, rfl⟩
          · exact hb' T hT

/-- There are fewer keys than sublists of a list with repetitions. -/
theorem keys_lt (O : S.Ordering ord) (hV : ∀ u ∈ inner, u ∈ S.V) (hs : inner.Pairwise (fun a b => ord.idxOf a ≤ ord.idxOf b))
    (hn : ¬ inner.Nodup) {ks : List (List ℕ)} (hks : ks.Nodup) (hk : ∀ T ∈ ks, Key ord inner T) :
    ks.length < 2 ^ inner.length := by
  classical
  have hsub : ∀ T, Key ord inner T → ∀ u ∈ T, u ∈ inner := by
    rintro T (⟨-, h⟩ | ⟨p, rfl⟩) u hu
    · exact h u hu
    · exact (List.mem_filter.1 hu).1
  have hsort : ∀ T, Key ord inner T → T.Nodup → T.Pairwise (fun a b => ord.idxOf a < ord.idxOf b) := by
    rintro T (⟨h, -⟩ | ⟨p, rfl⟩) hnd
    · exact h
    · refine List.Pairwise.imp_of_mem ?_ (List.Pairwise.and (hs.filter p) hnd)
      rintro a b ha hb ⟨h1, h2⟩
      refine lt_of_le_of_ne h1 fun e => h2 (O.idxOf_inj (hV a (List.mem_filter.1 ha).1) e)
  have hfull : ∀ T, Key ord inner T → ¬ T.Nodup → ∃ p : ℕ → Bool, T = inner.filter p := by
    rintro T (⟨h, -⟩ | h) hnd
    · exact absurd (h.imp fun h he => absurd h (by rw [he]; omega)) hnd
    · exact h
  let f : List ℕ → Finset ℕ × Bool := fun T => (T.toFinset, decide T.Nodup)
  have hinj : Set.InjOn f ks.toFinset := by
    intro T hT T' hT' he
    have hT := hk T (List.mem_toFinset.1 hT)
    have hT' := hk T' (List.mem_toFinset.1 hT')
    obtain ⟨h1, h2⟩ := Prod.mk.inj he
    have hm : ∀ w, w ∈ T ↔ w ∈ T' := fun w => by rw [← List.mem_toFinset, h1, List.mem_toFinset]
    by_cases hnd : T.Nodup
    · have hnd' : T'.Nodup := (decide_eq_decide.1 h2).1 hnd
      exact eq_of_sorted_by (hsort T hT hnd) (hsort T' hT' hnd') hm
    · have hnd' : ¬ T'.Nodup := fun h => hnd ((decide_eq_decide.1 h2).2 h)
      obtain ⟨p, rfl⟩ := hfull T hT hnd
      obtain ⟨p', rfl⟩ := hfull T' hT' hnd'
      refine List.filter_congr fun u hu => ?_
      have := hm u
      simp only [List.mem_filter, hu, true_and] at this
      exact Bool.eq_iff_iff.2 this
  have himg : ks.toFinset.image f ⊆ (inner.toFinset.powerset ×ˢ {true, false}).erase (∅, false) := by
    intro q hq
    obtain ⟨T, hT, rfl⟩ := Finset.mem_image.1 hq
    have hT := hk T (List.mem_toFinset.1 hT)
    refine Finset.mem_erase.2 ⟨fun he => ?_, Finset.mem_product.2 ⟨Finset.mem_powerset.2 fun u hu => ?_, by simp⟩⟩
    · obtain ⟨h1, h2⟩ := Prod.mk.inj he
      rw [List.toFinset_eq_empty_iff] at h1
      subst h1
      simp at h2
    · exact List.mem_toFinset.2 (hsub T hT u (List.mem_toFinset.1 hu))
  have h1 := Finset.card_le_card himg
  rw [Finset.card_image_of_injOn hinj, List.toFinset_card_of_nodup hks, Finset.card_erase_of_mem (by simp),
    Finset.card_product, Finset.card_powerset] at h1
  have h2 : inner.toFinset.card < inner.length := by
    refine lt_of_le_of_ne (List.toFinset_card_le inner) fun e => hn ?_
    exact Multiset.coe_nodup.1 ((Multiset.toFinset_card_eq_card_iff_nodup (m := (inner : Multiset ℕ))).1 (by simpa using e))
  have h3 : 2 ^ (inner.toFinset.card + 1) ≤ 2 ^ inner.length := Nat.pow_le_pow_right (by omega) h2
  rw [Nat.pow_succ] at h3
  have h4 : ({true, false} : Finset Bool).card = 2 := by decide
  rw [h4] at h1
  have h5 : 0 < 2 ^ inner.toFinset.card := Nat.two_pow_pos _
  omega

theorem sortByIndex_perm {r X : List ℕ} (h : g.sortByIndex X = .ok r) : r.Perm X := by
  unfold DegenGraph.sortByIndex at h
  cases hk : X.mapM (fun v => (do return (← g.indexOf v, v) : Res (ℕ × ℕ))) with
  | error e => rw [hk] at h; cases h
  | ok ks =>
    rw [hk, bind_ok] at h
    cases h
    refine ((List.perm_insertionSort _ ks).map Prod.snd).trans ?_
    have : ∀ (X : List ℕ) (ks : List (ℕ × ℕ)), X.mapM (fun v => (do return (← g.indexOf v, v) : Res (ℕ × ℕ))) = .ok ks →
        ks.map Prod.snd = X := by
      intro X
      induction X with
      | nil => intro ks h; cases h; rfl
      | cons x X ih =>
        intro ks h
        rw [List.mapM_cons] at h
        cases hi : g.indexOf x with
        | error e => rw [hi] at h; cases h
        | ok i =>
          rw [hi] at h
          simp only [bind_ok, pure_eq_ok] at h
          cases hr : X.mapM (fun v => (do return (← g.indexOf v, v) : Res (ℕ × ℕ))) with
          | error e =>
            simp only [pure_eq_ok] at hr
            rw [hr] at h; cases h
          | ok ks' =>
            have hr' := hr
            simp only [pure_eq_ok] at hr'
            rw [hr'] at h
            cases h
            rw [List.map_cons, ih ks' hr]
    rw [this X ks hk]

/-! ## Neighbours -/

/-- The vertices for which `a` is the leftmost left neighbour in `X`. -/
def firsts (S : SGraph) (ord X : List ℕ) (a y : ℕ) : Prop :=
  a ∈ S.lefts ord y ∧ ∀ z ∈ X, z ∈ S.lefts ord y → ord.idxOf a ≤ ord.idxOf z

instance (S : SGraph) (ord X : List ℕ) (a y : ℕ) : Decidable (firsts S ord X a y) := by unfold firsts; infer_instance

theorem first_weak (H : g.Inv S ord) (ho : o.Is S ord) (hp : inner.Pairwise (fun a b => ord.idxOf a ≤ ord.idxOf b))
    (σ : Shuffle (List Bool × ℕ)) {j a : ℕ} (hj : inner[j]? = some a) (hV : ∀ u ∈ inner, u ∈ S.V) :
    ∃ c, o.contexts.get? a = some c ∧ c.countFirstIntersection σ (inner.take (j + 1)) =
      .ok (ord.countP (fun y => decide (firsts S ord inner a y))) := by
  have ha := hV a (List.mem_of_getElem? hj)
  obtain ⟨c, h1, C, h2, h3, h4⟩ := ho a ha
  refine ⟨c, h1, ?_⟩
  have O := H.ordering
  obtain ⟨hjl, hja⟩ := List.getElem?_eq_some_iff.1 hj
  have hpg := List.pairwise_iff_getElem.1 hp
  have hle : ∀ u ∈ inner.take (j + 1), ord.idxOf u ≤ ord.idxOf a := by
    intro u hu
    obtain ⟨i, hi, rfl⟩ := List.mem_take_iff_getElem.1 hu
    rcases Nat.lt_or_ge i j with h | h
    · rw [← hja]; exact hpg i j (by omega) hjl h
    · have : i = j := by omega
      subst this
      rw [hja]
  have hlt : ∀ u ∈ inner, ord.idxOf u < ord.idxOf a → u ∈ inner.take (j + 1) := by
    intro u hu h
    obtain ⟨i, hi, rfl⟩ := List.getElem_of_mem hu
    refine List.mem_take_iff_getElem.2 ⟨i, ?_, rfl⟩
    by_contra hc
    have := hpg j i hjl hi (by omega)
    rw [hja] at this
    omega
  unfold SReachContext.countFirstIntersection
  obtain ⟨h5, h6⟩ := ctx_last h3
  rw [h2.toBitset, bind_ok, h2.context, usub_ok h5, bind_ok, h6, unwrap_some, bind_ok, h2.singletonBitset h3.self, bind_ok]
  rw [pure_eq_ok, Hist.sum (p := fun b => bitAnd (C.map (fun u => decide (u ∈ inner.take (j + 1)))) b =
    C.map (fun w => decide (w = a))) h4 (σ.perm _), List.countP_filter]
  congr 1
  refine List.countP_congr fun y _ => ?_
  rw [Bool.and_eq_true, decide_eq_true_eq, decide_eq_true_eq, decide_eq_true_eq, and_comm]
  unfold firsts
  refine and_congr_right fun hy => ?_
  obtain ⟨hya, hyi⟩ := O.mem_lefts.1 hy
  have haT : a ∈ inner.take (j + 1) := List.mem_take_iff_getElem.2 ⟨j, by omega, hja⟩
  rw [SReachContext.bitAnd_map, List.map_inj_left]
  constructor
  · intro h z hz hzy
    by_contra hc
    have hzT := hlt z hz (by omega)
    obtain ⟨hza, hzi⟩ := O.mem_lefts.1 hzy
    have := h z (h3.reach y z hya hyi hza (by omega))
    have h7 : (decide (z ∈ inner.take (j + 1)) && decide (S.Adj y z)) = true := by simp [hzT, hza]
    rw [h7] at this
    have := of_decide_eq_true this.symm
    subst this
    omega
  · intro h u hu
    rw [Bool.eq_iff_iff, decide_eq_true_eq, Bool.and_eq_true, decide_eq_true_eq, decide_eq_true_eq]
    constructor
    · rintro ⟨h7, h8⟩
      have h9 := hle u h7
      have h10 := h u (List.mem_of_mem_take h7) (O.mem_lefts.2 ⟨h8, by omega⟩)
      exact O.idxOf_inj (h3.verts u hu) (by omega)
    · rintro rfl
      exact ⟨haT, hya⟩

theorem firstPhase (H : g.Inv S ord) (ho : o.Is S ord) (hp : inner.Pairwise (fun a b => ord.idxOf a ≤ ord.idxOf b))
    (hV : ∀ u ∈ inner, u ∈ S.V) (σ : ℕ → Shuffle (List Bool × ℕ)) :
    (List.range inner.length).foldlM (fun (res : ℕ) j => (do
      let anchor ← unwrap inner[j]?
      let ctx ← unwrap (o.contexts.get? anchor)
      let k ← ctx.countFirstIntersection (σ j) (inner.take (j + 1))
      return res + k : Res ℕ)) 0 =
      .ok ((inner.map fun a => ord.countP (fun y => decide (firsts S ord inner a y))).sum) := by
  have key := Ok.foldlM (f := fun (res : ℕ) j => (do
      let anchor ← unwrap inner[j]?
      let ctx ← unwrap (o.contexts.get? anchor)
      let k ← ctx.countFirstIntersection (σ j) (inner.take (j + 1))
      return res + k : Res ℕ)) (l := List.range inner.length) (b := 0)
    (fun pre res => res = ((inner.take pre.length).map fun a => ord.countP (fun y => decide (firsts S ord inner a y))).sum)
    (by simp) ?_
  · obtain ⟨r, hr, rfl⟩ := key
    rw [hr]
    simp
  · rintro pre j post _ hs rfl
    have hjl : j < inner.length := List.mem_range.1 (by rw [hs]; simp)
    have hpj : pre.length = j := by
      have := congrArg (fun l : List ℕ => l[pre.length]?) hs
      simp only [List.getElem?_append_right (Nat.le_refl _), Nat.sub_self, List.getElem?_cons_zero] at this
      rw [List.getElem?_eq_some_iff] at this
      obtain ⟨h1, h2⟩ := this
      simpa using h2
    have hja : inner[j]? = some inner[j] := List.getElem?_eq_getElem hjl
    generalize inner[j] = a at hja
    have htake : inner.take (j + 1) = inner.take j ++ [a] := by rw [List.take_add_one, hja]; rfl
    obtain ⟨c, hc1, hc2⟩ := first_weak H ho hp (σ j) hja hV
    rw [hja, unwrap_some, bind_ok, hc1, unwrap_some, bind_ok, hc2, bind_ok, List.length_append, hpj, List.length_singleton,
      htake, List.map_append, List.sum_append]
    exact Ok.pure (by simp)

theorem neighbourStep_add {X : List ℕ} {res r k u : ℕ} (h : neighbourStep g X res u = .ok r) :
    neighbourStep g X (res + k) u = .ok (r + k) := by
  unfold neighbourStep at h ⊢
  cases hL : g.leftSlice u with
  | error e => rw [hL] at h; cases h
  | ok L =>
    rw [hL, bind_ok] at h
    rw [bind_ok]
    by_cases h1 : (L.any fun w => X.contains w) = true
    · rw [if_pos h1] at h ⊢
      by_cases h2 : X.contains u = true
      · rw [if_pos h2] at h ⊢
        unfold usub at h ⊢
        split at h
        · cases h
          rw [if_pos (by omega)]
          congr 1
          omega
        · cases h
      · rw [if_neg h2] at h ⊢
        cases h; rfl
    · rw [if_neg h1] at h ⊢
      by_cases h2 : X.contains u = true
      · rw [if_pos h2] at h ⊢
        cases h; rfl
      · rw [if_neg h2] at h ⊢
        cases h
        show Except.ok _ = Except.ok _
        congr 1
        omega

theorem neighbourStep_fold {X l : List ℕ} {res r k : ℕ} (h : l.foldlM (neighbourStep g X) res = .ok r) :
    l.foldlM (neighbourStep g X) (res + k) = .ok (r + k) := by
  induction l generalizing res with
  | nil => cases h; rfl
  | cons u l ih =>
    rw [List.foldlM_cons] at h ⊢
    cases hu : neighbourStep g X res u with
    | error e => rw [hu] at h; cases h
    | ok r' =>
      rw [hu, bind_ok] at h
      rw [neighbourStep_add hu, bind_ok, ih h]

end TraceOracle

/-- **C116, repeated vertices, traces.** For a list with repetitions, `compute_traces` never returns as many sets as the list has
sublists, so `is_shattered` never answers that it is shattered. -/
theorem C116_repeated_shattered {g : DegenGraph} {S : SGraph} {ord : List ℕ} (h : g.Built S ord) (σ₀ τ₀ : ℕ → ℕ → Shuffle ℕ)
    (ρ₀ : ℕ → Shuffle ℕ) :
    ∃ o, TraceOracle.forGraph σ₀ τ₀ ρ₀ g = .ok o ∧
    ∀ (σ τ : ℕ → Shuffle (List Bool × ℕ)) (ρ : ℕ → Shuffle (List ℕ × ℕ)) (θ : Shuffle ℕ) (X : List ℕ),
      ¬ X.Nodup → (∀ m, o.computeTraces σ τ ρ θ X g = .ok m → m.len < 2 ^ X.length) ∧
        (X.length < 2 ^ 32 → ∀ k, o.isShattered σ τ ρ θ X k g ≠ .ok true) := by
  have I := h.inv
  obtain ⟨o, h1, ho⟩ := TraceOracle.forGraph_ok I σ₀ τ₀ ρ₀
  have key : ∀ (σ τ : ℕ → Shuffle (List Bool × ℕ)) (ρ : ℕ → Shuffle (List ℕ × ℕ)) (θ : Shuffle ℕ) (X : List ℕ),
      ¬ X.Nodup → (∀ m, o.computeTraces σ τ ρ θ X g = .ok m → m.len < 2 ^ X.length) := by
    intro σ τ ρ θ X hn m hm
    have hV : ∀ u ∈ X, u ∈ S.V := by
      by_contra hc
      push Not at hc
      rw [(C116_non_vertices h o σ τ ρ θ hc).1] at hm
      cases hm
    have hs : X.Pairwise (fun a b => ord.idxOf a ≤ ord.idxOf b) := by
      by_contra hc
      rw [(C116_unsorted h o σ τ ρ θ hV hc).1] at hm
      cases hm
    rw [HMap.len_eq_length_keys]
    exact TraceOracle.keys_lt I.ordering hV hs hn m.keys_nodup (TraceOracle.computeTraces_key I ho hV hm)
  refine ⟨o, h1, fun σ τ ρ θ X hn => ⟨key σ τ ρ θ X hn, fun hlen k hk => ?_⟩⟩
  unfold TraceOracle.isShattered at hk
  cases hr : g.sortByIndex X with
  | error e => rw [hr] at hk; cases hk
  | ok r =>
    have hrp := TraceOracle.sortByIndex_perm hr
    rw [hr, bind_ok] at hk
    cases hm : o.computeTraces σ τ ρ θ r g with
    | error e => rw [hm] at hk; cases hk
    | ok m =>
      have hlt := key σ τ ρ θ r (fun h => hn (hrp.nodup_iff.1 h)) m hm
      have hc : cast32 r.length = r.length := cast32_of_lt (by rw [hrp.length_eq]; exact hlen)
      rw [hm, bind_ok, hc] at hk
      unfold assertR at hk
      split at hk
      · rw [bind_ok] at hk
        unfold usub at hk
        split at hk
        · rw [bind_ok] at hk
          unfold pow64 at hk
          split at hk
          · rw [bind_ok] at hk
            split at hk
            · rw [bind_ok, if_pos hlt] at hk
              cases hk
            · cases hk
          · cases hk
        · cases hk
      · cases hk

/-- `C116_repeated_shattered` for a triangle with a pendant vertex. -/
example := fun σ₀ τ₀ ρ₀ => C116_repeated_shattered case_degen.choose_spec σ₀ τ₀ ρ₀

/-- **C116, repeated vertices, neighbours.** For every list of vertices sorted by position, repetitions or not,
`compute_neighbour_count` returns the number of outer neighbours plus, for every vertex `x` of the list, the number of vertices
that have `x` as their leftmost left neighbour in the list, times the number of repetitions of `x`. -/
theorem C116_neighbour_count {g : DegenGraph} {S : SGraph} {ord : List ℕ} (h : g.Built S ord) (σ₀ τ₀ : ℕ → ℕ → Shuffle ℕ)
    (ρ₀ : ℕ → Shuffle ℕ) :
    ∃ o, TraceOracle.forGraph σ₀ τ₀ ρ₀ g = .ok o ∧ ∀ (σ : ℕ → Shuffle (List Bool × ℕ)) (θ : Shuffle ℕ) (X : List ℕ),
      X.Pairwise (fun a b => ord.idxOf a ≤ ord.idxOf b) → (∀ u ∈ X, u ∈ S.V) →
      o.neighbourCount σ θ X g = .ok (S.outerNbrs X.toFinset + X.toFinset.sum fun x => (X.count x - 1) *
        (S.V.filter fun y => (S.Adj y x ∧ ord.idxOf x < ord.idxOf y) ∧
          ∀ z ∈ X, S.Adj y z ∧ ord.idxOf z < ord.idxOf y → ord.idxOf x ≤ ord.idxOf z).card) := by
  have I := h.inv
  have O := I.ordering
  obtain ⟨o, h1, hall⟩ := C63_neighbour_count h σ₀ τ₀ ρ₀
  obtain ⟨o', h1', ho⟩ := TraceOracle.forGraph_ok I σ₀ τ₀ ρ₀
  obtain rfl : o = o' := by rw [h1] at h1'; exact Except.ok.inj h1'
  refine ⟨o, h1, fun σ θ X hp hV => ?_⟩
  set X' := X.dedup with hX'
  have hmem : ∀ u, u ∈ X' ↔ u ∈ X := fun u => List.mem_dedup
  have hp' : X'.Pairwise (fun a b => ord.idxOf a < ord.idxOf b) := by
    refine List.Pairwise.imp_of_mem ?_ (List.Pairwise.and (hp.sublist (List.dedup_sublist X)) (List.nodup_dedup X))
    rintro a b ha hb ⟨h1, h2⟩
    exact lt_of_le_of_ne h1 fun e => h2 (O.idxOf_inj (hV a ((hmem a).1 ha)) e)
  have hV' : ∀ u ∈ X', u ∈ S.V := fun u hu => hV u ((hmem u).1 hu)
  let F : ℕ → ℕ := fun a => ord.countP (fun y => decide (TraceOracle.firsts S ord X a y))
  have hF : ∀ a, ord.countP (fun y => decide (TraceOracle.firsts S ord X' a y)) = F a := by
    intro a
    refine List.countP_congr fun y _ => ?_
    unfold TraceOracle.firsts
    simp only [hmem]
  obtain ⟨s, hs1, hs2⟩ := TraceOracle.leftSet_ok I hV
  obtain ⟨s', hs1', hs2'⟩ := TraceOracle.leftSet_ok I hV'
  have hss : s.toList.Perm s'.toList := by
    refine (List.perm_ext_iff_of_nodup s.nodup s'.nodup).2 fun y => ?_
    rw [HSet.mem_toList, HSet.mem_toList, hs2, hs2']
    simp only [hmem]
  -- the second phase for the list without repetitions, in the same order
  let θ' : Shuffle ℕ := ⟨fun l => if l = s'.toList then θ.run s.toList else l, fun l => by
    split
    · next e => rw [e]; exact (θ.perm _).trans hss
    · exact List.Perm.refl l⟩
  have h2 := hall σ θ' X' hp' hV'
  unfold TraceOracle.neighbourCount at h2 ⊢
  rw [TraceOracle.assertSorted_weak I hV hp, bind_ok, TraceOracle.firstPhase I ho hp hV σ, bind_ok, hs1, bind_ok]
  rw [I.assertSorted hp' hV', bind_ok, TraceOracle.firstPhase I ho (hp'.imp fun h => le_of_lt h) hV' σ, bind_ok, hs1',
    bind_ok] at h2
  have e1 : θ'.run s'.toList = θ.run s.toList := by show (if _ then _ else _) = _; rw [if_pos rfl]
  have e2 : TraceOracle.neighbourStep g X' = TraceOracle.neighbourStep g X := by
    have hc : ∀ u, X'.contains u = X.contains u := fun u => by
      rw [Bool.eq_iff_iff, List.contains_iff_mem, List.contains_iff_mem, hmem]
    funext res u
    unfold TraceOracle.neighbourStep
    simp only [hc]
  rw [e1, e2] at h2
  simp only [hF] at h2
  have hsum : (X.map F).sum = (X'.map F).sum + X.toFinset.sum fun x => (X.count x - 1) * F x := by
    rw [Finset.sum_list_map_count, ← List.sum_toFinset F (List.nodup_dedup X)]
    have e3 : X'.toFinset = X.toFinset := by ext u; rw [List.mem_toFinset, List.mem_toFinset, hmem]
    rw [e3, ← Finset.sum_add_distrib]
    refine Finset.sum_congr rfl fun x hx => ?_
    have : 0 < X.count x := List.count_pos_iff.2 (List.mem_toFinset.1 hx)
    obtain ⟨c, hc⟩ : ∃ c, X.count x = c + 1 := ⟨X.count x - 1, by omega⟩
    rw [hc, Nat.add_sub_cancel, smul_eq_mul, Nat.add_mul, Nat.one_mul, Nat.add_comm]
  have h3 := TraceOracle.neighbourStep_fold (k := X.toFinset.sum fun x => (X.count x - 1) * F x) h2
  have e4 : X'.toFinset = X.toFinset := by ext u; rw [List.mem_toFinset, List.mem_toFinset, hmem]
  show (θ.run s.toList).foldlM (TraceOracle.neighbourStep g X) (X.map F).sum = _
  rw [hsum, h3, e4]
  congr 2
  refine Finset.sum_congr rfl fun x hx => ?_
  congr 1
  show ord.countP _ = _
  rw [O.countP_card]
  congr 1
  refine Finset.filter_congr fun y _ => ?_
  unfold TraceOracle.firsts
  simp only [O.mem_lefts]

/-- Hypotheses are met: the list `[0, 0, 1]` on the edges 0-1 and 2-3; vertex 1 is counted twice as often. -/
example : ∃ (g : DegenGraph) (S : SGraph) (ord X : List ℕ), g.Built S ord ∧ ¬ X.Nodup ∧ X.length < 2 ^ 32 ∧
    X.Pairwise (fun a b => ord.idxOf a ≤ ord.idxOf b) ∧ (∀ u ∈ X, u ∈ S.V) ∧ S.outerNbrs X.toFinset = 0 := by
  obtain ⟨g, -, h⟩ := exRepeated
  exact ⟨g, _, _, [0, 0, 1], h, by decide, by decide, by decide, by decide, by decide⟩

example : ((builtDegen [(0, 1), (2, 3)] [0, 1, 2, 3]).bind fun g => (exOracle g).bind fun o =>
    o.neighbourCount (fun _ => .id) .id [0, 0, 1] g) = .ok 1 := by decide +kernel

end Verif
