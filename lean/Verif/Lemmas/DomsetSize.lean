import Verif.Lemmas.Domset
import Mathlib.Combinatorics.Enumerative.DoubleCounting
/-!
# The size of the dominating set

How often a vertex is weakly reachable from the scattered vertices, and the resulting bound on the size of the set computed
by the domination loop.
-/
namespace Verif
open SGraph

namespace Dom
variable {S : SGraph} {ord : List ℕ} {ws : HMap ℕ (HMap ℕ ℕ)} {M : ℕ}

theorem domRelax_of_ok {dist dist' : HMap ℕ ℕ} {e : ℕ × ℕ} (h : LinGraph.domRelax dist e = .ok dist') :
    ∃ k, dist.get? e.1 = some k ∧ dist' = dist.insert e.1 (min k e.2) := by
  unfold LinGraph.domRelax at h
  cases hk : dist.get? e.1 with
  | none => rw [hk] at h; cases h
  | some k => rw [hk] at h; cases h; exact ⟨k, rfl, rfl⟩

theorem domRelax_zero {dist dist' : HMap ℕ ℕ} {e : ℕ × ℕ} (h : LinGraph.domRelax dist e = .ok dist') {x : ℕ}
    (hx : dist.get? x = some 0) : dist'.get? x = some 0 := by
  obtain ⟨k, hk, rfl⟩ := domRelax_of_ok h
  rw [HMap.get?_insert]
  split
  · next he =>
    subst he
    rw [hk] at hx
    cases hx
    rw [Nat.zero_min]
  · exact hx

theorem domRelax_foldlM_zero {es : List (ℕ × ℕ)} {dist dist' : HMap ℕ ℕ} (h : es.foldlM LinGraph.domRelax dist = .ok dist')
    {x : ℕ} (hx : dist.get? x = some 0) : dist'.get? x = some 0 :=
  foldlM_of_ok (fun _ (m : HMap ℕ ℕ) => m.get? x = some 0) hx (fun _ _ _ _ _ _ h1 h2 => domRelax_zero h2 h1) h

theorem domPull_of_ok {v : ℕ} {dist dist' : HMap ℕ ℕ} {e : ℕ × ℕ} (h : LinGraph.domPull v dist e = .ok dist') :
    ∃ k ku, dist.get? v = some k ∧ dist.get? e.1 = some ku ∧ dist' = dist.insert v (min k (e.2 + ku)) := by
  unfold LinGraph.domPull at h
  cases hk : dist.get? v with
  | none => rw [hk] at h; cases h
  | some k =>
    cases hu : dist.get? e.1 with
    | none => rw [hk, hu] at h; cases h
    | some ku =>
      rw [hk, hu, unwrap_some, bind_ok, unwrap_some, bind_ok] at h
      unfold add32 at h
      split at h
      · cases h; exact ⟨k, ku, rfl, rfl, rfl⟩
      · cases h

/-- After looking at all `wreach[v]`, zeros are kept and `v` is at most as far as its distance from a zero. -/
theorem domPull_foldlM {es : List (ℕ × ℕ)} {v : ℕ} {dist dist' : HMap ℕ ℕ}
    (h : es.foldlM (LinGraph.domPull v) dist = .ok dist') :
    (∀ x, dist.get? x = some 0 → dist'.get? x = some 0) ∧
    ∀ e ∈ es, dist.get? e.1 = some 0 → ∃ k ≤ e.2, dist'.get? v = some k := by
  refine foldlM_of_ok (fun (p : List (ℕ × ℕ)) (m : HMap ℕ ℕ) => (∀ x, dist.get? x = some 0 → m.get? x = some 0) ∧
    ∀ e ∈ p, dist.get? e.1 = some 0 → ∃ k ≤ e.2, m.get? v = some k) ⟨fun _ h => h, by simp⟩ ?_ h
  rintro pre a post m m' - ⟨h1, h2⟩ hstep
  obtain ⟨k, ku, hk, hu, rfl⟩ := domPull_of_ok hstep
  refine ⟨fun x hx => ?_, fun e he hz => ?_⟩
  · rw [HMap.get?_insert]
    split
    · next he =>
      subst he
      have := h1 _ hx
      rw [hk] at this
      cases this
      rw [Nat.zero_min]
    · exact h1 x hx
  · refine ⟨min k (a.2 + ku), ?_, by rw [HMap.get?_insert, if_pos rfl]⟩
    rcases List.mem_append.1 he with he | he
    · obtain ⟨k', hk', hg⟩ := h2 e he hz
      rw [hk] at hg
      cases hg
      exact (min_le_left _ _).trans hk'
    · rw [List.mem_singleton] at he
      subst he
      have := h1 _ hz
      rw [hu] at this
      cases this
      exact min_le_right _ _

theorem domPush_zero {cutoff : ℕ} {ρ : ℕ → Shuffle (ℕ × ℕ)} {st st' : LinGraph.DomState} {e : ℕ × ℕ}
    (h : LinGraph.domPush cutoff ws ρ st e = .ok st') (hz : ∀ x ∈ st.domset, st.dist.get? x = some 0) :
    ∀ x ∈ st'.domset, st'.dist.get? x = some 0 := by
  unfold LinGraph.domPush at h
  cases hc : st.counter.get? e.1 with
  | none => rw [hc] at h; cases h
  | some c =>
    rw [hc, unwrap_some, bind_ok] at h
    unfold add32 at h
    split at h
    · rw [bind_ok] at h
      cases hr : LinGraph.domRelax st.dist e with
      | error => rw [hr] at h; cases h
      | ok dist =>
        rw [hr, bind_ok] at h
        split at h
        · cases hw : ws.get? e.1 with
          | none => rw [hw] at h; cases h
          | some W =>
            rw [hw, unwrap_some, bind_ok] at h
            cases hf : ((ρ e.1).run W.entries).foldlM LinGraph.domRelax (dist.insert e.1 0) with
            | error => rw [hf] at h; cases h
            | ok dist' =>
              rw [hf] at h
              cases h
              intro x hx
              refine domRelax_foldlM_zero hf ?_
              rw [HMap.get?_insert]
              split
              · rfl
              · next hne =>
                rcases HSet.mem_insert.1 hx with hx | hx
                · exact absurd hx hne
                · exact domRelax_zero hr (hz x hx)
        · cases h
          intro x hx
          exact domRelax_zero hr (hz x hx)
    · cases h

open Classical in
/-- The number of vertices of `A` that are `x` or from which `x` is weakly `M`-reachable. -/
noncomputable def closedCount (S : SGraph) (ord : List ℕ) (M : ℕ) (A : HSet ℕ) (x : ℕ) : ℕ :=
  (A.toFinset.filter fun s => s = x ∨ ∃ d ≤ M, S.WReach ord s x d).card

open Classical in
theorem closedCount_le (A : HSet ℕ) (x : ℕ) :
    closedCount S ord M A x ≤ reachCount S ord M A x + if x ∈ A then 1 else 0 := by
  unfold closedCount reachCount
  split
  · refine le_trans (Finset.card_le_card (t := insert x (A.toFinset.filter fun s => ∃ d ≤ M, S.WReach ord s x d)) ?_)
      (Finset.card_insert_le _ _)
    intro s hs
    rw [Finset.mem_filter] at hs
    rw [Finset.mem_insert, Finset.mem_filter]
    tauto
  · next hx =>
    rw [Nat.add_zero]
    refine Finset.card_le_card fun s hs => ?_
    rw [Finset.mem_filter] at hs ⊢
    refine ⟨hs.1, hs.2.resolve_left ?_⟩
    rintro rfl
    exact hx (HSet.mem_toFinset.1 hs.1)

open Classical in
theorem closedCount_insert (A : HSet ℕ) (v x : ℕ) :
    closedCount S ord M (A.insert v) x ≤ closedCount S ord M A x +
      if v = x ∨ ∃ d ≤ M, S.WReach ord v x d then 1 else 0 := by
  unfold closedCount
  have hA : (A.insert v).toFinset = insert v A.toFinset := by
    ext y
    rw [HSet.mem_toFinset, HSet.mem_insert, Finset.mem_insert, HSet.mem_toFinset]
  rw [hA, Finset.filter_insert]
  split
  · exact Finset.card_insert_le _ _
  · exact le_refl _

/-- Vertices of the dominating set have distance 0, and no vertex is reachable too often from the scattered set. -/
structure ZInv (S : SGraph) (ord : List ℕ) (M cutoff : ℕ) (pre : List ℕ) (st : LinGraph.DomState) : Prop where
  cnt : CntInv S ord M cutoff pre st
  zero : ∀ x ∈ st.domset, st.dist.get? x = some 0
  few : ∀ x ∈ S.V, closedCount S ord M st.scattered x ≤ cutoff + 1

theorem ZInv.round (O : S.Ordering ord) (Tb : LinGraph.LRep.WTab S ord ws M) {ρ : ℕ → Shuffle (ℕ × ℕ)} {cutoff r : ℕ}
    (hMr : M ≤ r) {pre : List ℕ} {v : ℕ} {target : HSet ℕ} {st st' : LinGraph.DomState} (h : ZInv S ord M cutoff pre st)
    (hv : v ∈ S.V) (hvp : v ∉ pre) (hrun : LinGraph.domRound target r cutoff ws ρ st v = .ok st') :
    ZInv S ord M cutoff (pre ++ [v]) st' := by
  have hcnt := h.cnt.round O Tb hv hvp hrun
  suffices hs : (∀ x ∈ st'.domset, st'.dist.get? x = some 0) ∧
      ∀ x ∈ S.V, closedCount S ord M st'.scattered x ≤ cutoff + 1 from ⟨hcnt, hs.1, hs.2⟩
  obtain ⟨W, hW, hnd, hWm, -⟩ := wtab_entries O Tb (ρ v) hv
  unfold LinGraph.domRound at hrun
  rw [hW, unwrap_some, bind_ok] at hrun
  cases hp : ((ρ v).run W.entries).foldlM (LinGraph.domPull v) st.dist with
  | error => rw [hp] at hrun; cases hrun
  | ok dist =>
    obtain ⟨hp1, hp2⟩ := domPull_foldlM hp
    rw [hp, bind_ok] at hrun
    cases hd : dist.get? v with
    | none => rw [hd] at hrun; cases hrun
    | some dv =>
      rw [hd, unwrap_some, bind_ok] at hrun
      split at hrun
      · cases hrun
        exact ⟨fun x hx => hp1 x (h.zero x hx), h.few⟩
      · next hdv =>
        cases ht : target.contains v with
        | false => rw [ht] at hrun; cases hrun
        | true =>
          rw [ht] at hrun
          change ((ρ v).run W.entries).foldlM (LinGraph.domPush cutoff ws ρ) _ = _ at hrun
          have hsc : st'.scattered = st.scattered.insert v :=
            foldlM_of_ok (fun _ (t : LinGraph.DomState) => t.scattered = st.scattered.insert v) rfl
              (fun _ _ _ _ _ _ h1 h2 => by
                obtain ⟨c, -, -, e2, -⟩ := domPush_of_ok h2
                exact e2.trans h1) hrun
          refine ⟨?_, fun x hx => ?_⟩
          · refine foldlM_of_ok (fun _ (t : LinGraph.DomState) => ∀ x ∈ t.domset, t.dist.get? x = some 0) ?_
              (fun _ _ _ _ _ _ h1 h2 => domPush_zero h2 h1) hrun
            intro x hx
            simp only
            rw [HMap.get?_insert]
            split
            · rfl
            · next hne =>
              rcases HSet.mem_insert.1 hx with hx | hx
              · exact absurd hx hne
              · exact hp1 x (h.zero x hx)
          · classical
            rw [hsc]
            refine (closedCount_insert _ _ _).trans ?_
            split
            · next hvx =>
              have hxd : x ∉ st.domset := by
                intro hc
                have hz := h.zero x hc
                rcases hvx with rfl | ⟨d, hd', hr⟩
                · have := hp1 _ hz
                  rw [hd] at this
                  cases this
                  omega
                · obtain ⟨k, hk, hg⟩ := hp2 (x, d) ((hWm _).2 ⟨hr, hd'⟩) hz
                  rw [hd] at hg
                  cases hg
                  simp only at hk
                  omega
              rw [h.cnt.dset] at hxd
              push Not at hxd
              obtain ⟨k, hk⟩ := HMap.mem_keys_iff.1 (h.cnt.keys x hx)
              have h1 := hxd.2 k hk
              rw [h.cnt.cnt x k hk] at h1
              have h2 := closedCount_le (S := S) (ord := ord) (M := M) st.scattered x
              rw [if_neg hxd.1] at h2
              omega
            · exact h.few x hx

/-- No vertex is reachable from more than `cutoff + 1` scattered vertices. -/
theorem phase_few (O : S.Ordering ord) (Tb : LinGraph.LRep.WTab S ord ws M) {ρ : ℕ → Shuffle (ℕ × ℕ)} {cutoff r u : ℕ}
    (hMr : M ≤ r) {target : HSet ℕ} {order : List ℕ} (hnd : order.Nodup) (hord : ∀ x, x ∈ order ↔ x ∈ S.V)
    {st : LinGraph.DomState} (hrun : LinGraph.domPhase target r u cutoff ws ρ order = .ok st) (x : ℕ) (hx : x ∈ S.V) :
    closedCount S ord M st.scattered x ≤ cutoff + 1 := by
  unfold LinGraph.domPhase at hrun
  have h := foldlM_of_ok (ZInv S ord M cutoff) ?_ ?_ hrun
  · exact h.few x hx
  · refine ⟨CntInv.init hord, fun x hx => absurd hx HSet.not_mem_empty, fun x _ => ?_⟩
    classical
    unfold closedCount
    rw [show (LinGraph.domInit target r u order).scattered = ∅ from rfl]
    refine le_trans (le_of_eq ?_) (Nat.zero_le _)
    rw [Finset.card_eq_zero, Finset.filter_eq_empty_iff]
    intro s hs
    exact absurd (HSet.mem_toFinset.1 hs) HSet.not_mem_empty
  · intro pre v post b b' hl hi hstep
    refine hi.round O Tb hMr ((hord v).1 (by rw [hl]; simp)) ?_ hstep
    rw [hl, List.nodup_append] at hnd
    exact fun hc => hnd.2.2 v hc v (by simp) rfl

/-- The combinatorial core: `T` is a set every vertex of which is within distance `r` of `X`, every vertex is reachable from
at most `k` vertices of `T`, every vertex reaches fewer than `c` others, and all of `E` are reachable from at least `k` vertices
of `T`. -/
theorem size_bound (O : S.Ordering ord) {r k c : ℕ} {T E X : Finset ℕ} (hk : 0 < k) (hTV : T ⊆ S.V)
    (hX : ∀ x ∈ T, ∃ d ∈ X, ∃ n ≤ r, Walk S.Adj n d x)
    (hc : ∀ v ∈ S.V, ∀ W : Finset ℕ, (∀ u ∈ W, ∃ d ≤ r, S.WReach ord v u d) → W.card < c)
    (hfew : ∀ x ∈ S.V, ∀ A : Finset ℕ, (∀ s ∈ A, s ∈ T ∧ (s = x ∨ ∃ d ≤ r, S.WReach ord s x d)) → A.card ≤ k)
    (hE : ∀ x ∈ E, ∃ A : Finset ℕ, (∀ s ∈ A, s ∈ T ∧ ∃ d ≤ r, S.WReach ord s x d) ∧ k ≤ A.card) :
    (T ∪ E).card ≤ X.card * (c * (c + (k - 1))) := by
  classical
  have hT : T.card ≤ X.card * (c * k) := by
    have hsub : T ⊆ (X.filter (· ∈ S.V)).biUnion fun o =>
        (S.V.filter fun w => w = o ∨ ∃ d ≤ r, S.WReach ord o w d).biUnion fun w =>
          T.filter fun s => s = w ∨ ∃ d ≤ r, S.WReach ord s w d := by
      intro s hs
      obtain ⟨o, ho, n, hn, hw⟩ := hX s hs
      have hoV : o ∈ S.V := by
        cases hw with
        | nil => exact hTV hs
        | cons h _ => exact h.left
      obtain ⟨w, n1, n2, hwV, hnn, -, h1, h2⟩ := walk_leftmost (ord := ord) hw hoV
      rw [Finset.mem_biUnion]
      refine ⟨o, Finset.mem_filter.2 ⟨ho, hoV⟩, Finset.mem_biUnion.2 ⟨w, ?_, ?_⟩⟩
      · refine Finset.mem_filter.2 ⟨hwV, ?_⟩
        by_cases he : o = w
        · exact Or.inl he.symm
        · obtain ⟨d, hd, hr⟩ := wreach_of_walk O hwV h1 he
          exact Or.inr ⟨d, by omega, hr⟩
      · refine Finset.mem_filter.2 ⟨hs, ?_⟩
        by_cases he : s = w
        · exact Or.inl he
        · obtain ⟨d, hd, hr⟩ := wreach_of_walk O hwV h2 he
          exact Or.inr ⟨d, by omega, hr⟩
    refine (Finset.card_le_card hsub).trans ?_
    refine (Finset.card_biUnion_le_card_mul _ _ (c * k) fun o ho => ?_).trans
      (Nat.mul_le_mul_right _ (Finset.card_filter_le _ _))
    have hoV := (Finset.mem_filter.1 ho).2
    refine (Finset.card_biUnion_le_card_mul _ _ k fun w hw => ?_).trans (Nat.mul_le_mul_right _ ?_)
    · exact hfew w (Finset.mem_filter.1 hw).1 _ fun s hs => Finset.mem_filter.1 hs
    · have h1 := hc o hoV (S.V.filter fun w => ∃ d ≤ r, S.WReach ord o w d) fun u hu => (Finset.mem_filter.1 hu).2
      refine le_trans (Finset.card_le_card (t := insert o (S.V.filter fun w => ∃ d ≤ r, S.WReach ord o w d)) ?_)
        ((Finset.card_insert_le _ _).trans h1)
      intro w hw
      rw [Finset.mem_filter] at hw
      rw [Finset.mem_insert, Finset.mem_filter]
      tauto
  have hEk : E.card * k ≤ T.card * (c - 1) := by
    have := Finset.card_mul_le_card_mul (s := E) (t := T) (m := k) (n := c - 1)
      (fun x s => ∃ d ≤ r, S.WReach ord s x d) ?_ ?_
    · exact this
    · intro x hx
      obtain ⟨A, h1, h2⟩ := hE x hx
      refine h2.trans (Finset.card_le_card fun s hs => ?_)
      rw [Finset.mem_bipartiteAbove]
      exact h1 s hs
    · intro s hs
      have := hc s (hTV hs) (E.bipartiteBelow (fun x s => ∃ d ≤ r, S.WReach ord s x d) s)
        fun u hu => ((Finset.mem_bipartiteBelow _).1 hu).2
      omega
  have hE' : E.card ≤ X.card * (c * (c - 1)) := by
    refine Nat.le_of_mul_le_mul_right ?_ hk
    refine hEk.trans ((Nat.mul_le_mul_right _ hT).trans (le_of_eq ?_))
    ring
  refine (Finset.card_union_le _ _).trans ((Nat.add_le_add hT hE').trans (le_of_eq ?_))
  rcases Nat.eq_zero_or_pos c with rfl | hc0
  · simp
  · rw [← Nat.mul_add, ← Nat.mul_add]
    congr 2
    omega

end Dom
end Verif
