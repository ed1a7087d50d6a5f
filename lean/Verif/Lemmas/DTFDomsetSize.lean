import Verif.Lemmas.DomRule
import Verif.Lemmas.DTFReach
import Verif.Lemmas.DomsetSize
/-!
# Lemmas: the structure and the size of the set returned by `DTFGraph::domset`
-/
namespace Verif.DTFGraph
open Dom
variable {g : DTFGraph} {A : Arcs} {S : SGraph} {r cutoff : ℕ}

/-- Entries of `dist` only went down. -/
def Down (dist dist' : HMap ℕ ℕ) : Prop := ∀ x k, dist.get? x = some k → ∃ k' ≤ k, dist'.get? x = some k'

theorem Down.refl (d : HMap ℕ ℕ) : Down d d := fun _ k h => ⟨k, le_refl k, h⟩

theorem Down.trans {d d' d'' : HMap ℕ ℕ} (h : Down d d') (h' : Down d' d'') : Down d d'' := by
  intro x k hk
  obtain ⟨k1, h1, h2⟩ := h x k hk
  obtain ⟨k2, h3, h4⟩ := h' x k1 h2
  exact ⟨k2, h3.trans h1, h4⟩

theorem down_insert {d : HMap ℕ ℕ} {v k : ℕ} (h : ∀ k', d.get? v = some k' → k ≤ k') : Down d (d.insert v k) := by
  intro x k' hk
  rw [HMap.get?_insert]
  split
  · next he => subst he; exact ⟨k, h k' hk, rfl⟩
  · exact ⟨k', le_refl _, hk⟩

theorem down_relax {d d' : HMap ℕ ℕ} {e : ℕ × ℕ} (h : LinGraph.domRelax d e = .ok d') :
    Down d d' ∧ ∃ k ≤ e.2, d'.get? e.1 = some k := by
  obtain ⟨k, hk, rfl⟩ := domRelax_of_ok h
  refine ⟨down_insert fun k' hk' => ?_, min k e.2, min_le_right _ _, by rw [HMap.get?_insert, if_pos rfl]⟩
  rw [hk] at hk'
  cases hk'
  exact min_le_left _ _

theorem down_relaxAll {es : List (ℕ × ℕ)} {d d' : HMap ℕ ℕ} (h : es.foldlM LinGraph.domRelax d = .ok d') : Down d d' :=
  foldlM_of_ok (fun _ (m : HMap ℕ ℕ) => Down d m) (Down.refl d) (fun _ _ _ _ _ _ h1 h2 => h1.trans (down_relax h2).1) h

/-- After looking at all in-neighbours of `v`, its entry is at most the entry of each plus the weight; if all these sums are
at least the entry of `v`, nothing changed. -/
theorem down_pull {es : List (ℕ × ℕ)} {v : ℕ} {d d' : HMap ℕ ℕ} (h : es.foldlM (LinGraph.domPull v) d = .ok d') :
    Down d d' ∧ (∀ e ∈ es, ∀ k, d.get? e.1 = some k → ∃ k' ≤ e.2 + k, d'.get? v = some k') ∧
    ((∀ x k, d.get? x = some k → k = r + 1) → ∀ x k, d'.get? x = some k → k = r + 1) := by
  refine foldlM_of_ok (fun (p : List (ℕ × ℕ)) (m : HMap ℕ ℕ) => Down d m ∧
    (∀ e ∈ p, ∀ k, d.get? e.1 = some k → ∃ k' ≤ e.2 + k, m.get? v = some k') ∧
    ((∀ x k, d.get? x = some k → k = r + 1) → ∀ x k, m.get? x = some k → k = r + 1)) ⟨Down.refl d, by simp, fun h => h⟩ ?_ h
  rintro pre a post m m' - ⟨h1, h2, h3⟩ hstep
  obtain ⟨k, ku, hk, hu, rfl⟩ := domPull_of_ok hstep
  refine ⟨h1.trans (down_insert fun k' hk' => ?_), fun e he j hj => ?_, fun h0 x j hj => ?_⟩
  · rw [hk] at hk'
    cases hk'
    exact min_le_left _ _
  · refine ⟨min k (a.2 + ku), ?_, by rw [HMap.get?_insert, if_pos rfl]⟩
    rcases List.mem_append.1 he with he | he
    · obtain ⟨k', hk', hg⟩ := h2 e he j hj
      rw [hk] at hg
      cases hg
      exact (min_le_left _ _).trans hk'
    · rw [List.mem_singleton] at he
      subst he
      obtain ⟨j', hj', hg⟩ := h1 _ _ hj
      rw [hu] at hg
      cases hg
      exact (min_le_right _ _).trans (by omega)
  · rw [HMap.get?_insert] at hj
    split at hj
    · cases hj
      have := h3 h0 _ _ hk
      have := h3 h0 _ _ hu
      omega
    · exact h3 h0 _ _ hj

theorem push_of_ok {st st' : DState} {e : ℕ × ℕ} (h : g.domPush r cutoff st e = .ok st') :
    Down st.dist st'.dist ∧ (∃ k ≤ e.2, st'.dist.get? e.1 = some k) ∧
    (∃ c, st.counter.get? e.1 = some c ∧ st'.counter = st.counter.insert e.1 (c + 1) ∧
      ∀ x, x ∈ st'.domset ↔ x ∈ st.domset ∨ (x = e.1 ∧ cutoff < c + 1)) ∧
    ((∀ x ∈ st.domset, st.dist.get? x = some 0) → ∀ x ∈ st'.domset, st'.dist.get? x = some 0) := by
  unfold domPush at h
  cases hc : st.counter.get? e.1 with
  | none => rw [hc] at h; cases h
  | some c =>
    rw [hc, unwrap_some, bind_ok] at h
    unfold add32 at h
    split at h
    · rw [bind_ok] at h
      cases hr : LinGraph.domRelax st.dist e with
      | error => rw [hr] at h; cases h
      | ok dist =>
        obtain ⟨d1, k, d2, d3⟩ := down_relax hr
        rw [hr, bind_ok] at h
        split at h
        · next hcond =>
          rw [Bool.and_eq_true, decide_eq_true_eq] at hcond
          cases hw : g.weighted e.1 r with
          | error => rw [hw] at h; cases h
          | ok W =>
            rw [hw, bind_ok] at h
            cases hf : W.foldlM LinGraph.domRelax (dist.insert e.1 0) with
            | error => rw [hf] at h; cases h
            | ok dist' =>
              rw [hf] at h
              cases h
              have d4 : Down dist dist' := (down_insert fun _ _ => Nat.zero_le _).trans (down_relaxAll hf)
              refine ⟨d1.trans d4, ?_, ⟨c, rfl, rfl, fun x => ?_⟩, fun hz x hx => ?_⟩
              · obtain ⟨k', h1, h2⟩ := d4 _ _ d3
                exact ⟨k', h1.trans d2, h2⟩
              · rw [HSet.mem_insert]
                have := hcond.1
                tauto
              · refine domRelax_foldlM_zero hf ?_
                rw [HMap.get?_insert]
                split
                · rfl
                · next hne =>
                  rcases HSet.mem_insert.1 hx with hx | hx
                  · exact absurd hx hne
                  · exact domRelax_zero hr (hz x hx)
        · next hcond =>
          cases h
          refine ⟨d1, ⟨k, d2, d3⟩, ⟨c, rfl, rfl, fun x => ⟨Or.inl, ?_⟩⟩, fun hz x hx => domRelax_zero hr (hz x hx)⟩
          rintro (h | ⟨rfl, h⟩)
          · exact h
          · by_contra hx
            apply hcond
            rw [Bool.and_eq_true, decide_eq_true_eq, Bool.not_eq_true', ← Bool.not_eq_true, HSet.contains_iff]
            exact ⟨h, hx⟩
    · cases h

/-- `x` has an arc of weight at most `r` to `s`. -/
def InNb (A : Arcs) (r s x : ℕ) : Prop := ∃ w ≤ r, (x, s, w) ∈ A

open Classical in
/-- Number of vertices of `T` to which `x` has an arc of weight at most `r`. -/
noncomputable def outCount (A : Arcs) (r : ℕ) (T : Finset ℕ) (x : ℕ) : ℕ := (T.filter fun s => InNb A r s x).card

open Classical in
/-- The same, counting also `x` itself. -/
noncomputable def outCount' (A : Arcs) (r : ℕ) (T : Finset ℕ) (x : ℕ) : ℕ := (T.filter fun s => s = x ∨ InNb A r s x).card

/-- What the loop has established when the vertices `pre` were processed and those in `T` were found undominated. -/
structure TInv (V : Finset ℕ) (A : Arcs) (r cutoff : ℕ) (pre : List ℕ) (T : Finset ℕ) (st : DState) : Prop where
  seen : ∀ x ∈ T, x ∈ pre
  keys : ∀ x ∈ V, x ∈ st.counter.keys
  cnt : ∀ x k, st.counter.get? x = some k → k = outCount A r T x
  dset : ∀ x, x ∈ st.domset ↔ x ∈ T ∨ ∃ k, st.counter.get? x = some k ∧ cutoff < k
  zero : ∀ x ∈ st.domset, st.dist.get? x = some 0
  few : ∀ x ∈ V, outCount' A r T x ≤ cutoff + 1
  near : ∀ s ∈ T, ∀ x w, (x, s, w) ∈ A → w ≤ r → ∃ k ≤ w, st.dist.get? x = some k
  arc : ∀ s ∈ T, ∀ t ∈ T, ¬ InNb A r s t
  common : ∀ s ∈ T, ∀ t ∈ T, s ≠ t → ∀ x a b, (x, s, a) ∈ A → (x, t, b) ∈ A → r < a + b
  first : ∀ v ∈ pre.head?, v ∈ T
  init : pre = [] → ∀ x k, st.dist.get? x = some k → k = r + 1

open Classical in
theorem outCount_insert {T : Finset ℕ} {v : ℕ} (hv : v ∉ T) (x : ℕ) :
    outCount A r (insert v T) x = outCount A r T x + if InNb A r v x then 1 else 0 := by
  unfold outCount
  rw [Finset.filter_insert]
  split
  · rw [Finset.card_insert_of_notMem (fun h => hv (Finset.mem_filter.1 h).1)]
  · rfl

/-- In-neighbours of `v` with their weights. -/
def Ar (A : Arcs) (r v u w : ℕ) : Prop := w ≤ r ∧ (u, v, w) ∈ A

theorem ar_props (H : Abs g S.V A) (hs : Sound S A) (v u w : ℕ) (h : Ar A r v u w) : u ∈ S.V ∧ u ≠ v :=
  ⟨(H.wf _ h.2).1, fun he => hs.loop _ _ _ h.2 he⟩

theorem TInv.generated (H : Abs g S.V A) {pre : List ℕ} {T : Finset ℕ} {st : DState} (h : TInv S.V A r cutoff pre T st) (x : ℕ) :
    x ∈ st.domset ↔ Generated (Ar A r) cutoff T x := by
  classical
  rw [h.dset]
  refine or_congr_right ⟨?_, ?_⟩
  · rintro ⟨k, hk, hk'⟩
    refine ⟨T.filter fun s => InNb A r s x, fun s => by rw [Finset.mem_filter]; exact Iff.rfl, ?_⟩
    rw [h.cnt x k hk] at hk'
    exact hk'
  · rintro ⟨B, hB, hB'⟩
    obtain ⟨s, hs⟩ := Finset.card_pos.1 (lt_of_le_of_lt (Nat.zero_le _) hB')
    obtain ⟨-, w, hw⟩ := (hB s).1 hs
    obtain ⟨k, hk⟩ := HMap.mem_keys_iff.1 (h.keys x (H.wf _ hw.2).1)
    refine ⟨k, hk, ?_⟩
    rw [h.cnt x k hk]
    have : B = T.filter fun s => InNb A r s x := by
      ext s
      rw [hB, Finset.mem_filter]
      exact Iff.rfl
    rw [this] at hB'
    exact hB'

theorem push_pushed (H : Abs g S.V A) (hr : r ≤ g.depth) (st : DState) (e : ℕ × ℕ) (st' : DState) (heV : e.1 ∈ S.V)
    (h : g.domPush r cutoff st e = .ok st') : Dom.Pushed (Ar A r) e st.domset st.dist st'.domset st'.dist := by
  obtain ⟨W, hW, hWm, -⟩ := H.weighted heV hr
  unfold domPush at h
  cases hc : st.counter.get? e.1 with
  | none => rw [hc] at h; cases h
  | some c =>
    rw [hc, unwrap_some, bind_ok] at h
    unfold add32 at h
    split at h
    · rw [bind_ok] at h
      cases hr : LinGraph.domRelax st.dist e with
      | error => rw [hr] at h; cases h
      | ok dist =>
        rw [hr, bind_ok] at h
        split at h
        · next hcond =>
          rw [hW, bind_ok] at h
          cases hf : W.foldlM LinGraph.domRelax (dist.insert e.1 0) with
          | error => rw [hf] at h; cases h
          | ok dist' =>
            rw [hf] at h
            cases h
            rw [Bool.and_eq_true, Bool.not_eq_true', ← Bool.not_eq_true, HSet.contains_iff] at hcond
            refine ⟨dist, hr, Or.inr ⟨hcond.2, rfl, W, fun x k => ?_, hf⟩⟩
            rw [hWm]
            exact ⟨fun h => h.2, fun h => ⟨(H.wf _ h.2).2.2, h⟩⟩
        · cases h
          exact ⟨dist, hr, Or.inl ⟨rfl, rfl⟩⟩
    · cases h

theorem TInv.round (H : Abs g S.V A) (hs : Sound S A) (hr : r ≤ g.depth) {pre : List ℕ} {T : Finset ℕ} {v : ℕ}
    {st st' : DState} (h : TInv S.V A r cutoff pre T st) (hv : v ∈ S.V) (hvp : v ∉ pre)
    (hrun : g.domRound r cutoff st v = .ok st') : ∃ T', TInv S.V A r cutoff (pre ++ [v]) T' st' ∧
      ∀ T₀, Dom.RunInv S.V (Ar A r) T₀ r cutoff pre T st.domset st.dist →
        Dom.RunInv S.V (Ar A r) T₀ r cutoff (pre ++ [v]) T' st'.domset st'.dist := by
  classical
  obtain ⟨W, hW, hWm, hWn⟩ := H.weighted hv hr
  have hnd := hWn fun x => hs.uniq x v
  have hin : ∀ x, x ∈ W.map Prod.fst ↔ InNb A r v x := by
    intro x
    rw [List.mem_map]
    constructor
    · rintro ⟨e, he, rfl⟩
      obtain ⟨-, h2, h3⟩ := (hWm e).1 he
      exact ⟨e.2, h2, h3⟩
    · rintro ⟨w, h2, h3⟩
      exact ⟨(x, w), (hWm _).2 ⟨(H.wf _ h3).2.2, h2, h3⟩, rfl⟩
  have hWa : ∀ x k, (x, k) ∈ W ↔ Ar A r v x k := fun x k => by
    rw [hWm]
    exact ⟨fun h => h.2, fun h => ⟨(H.wf _ h.2).2.2, h⟩⟩
  unfold domRound at hrun
  rw [hW, bind_ok] at hrun
  cases hp : W.foldlM (LinGraph.domPull v) st.dist with
  | error => rw [hp] at hrun; cases hrun
  | ok dist =>
    obtain ⟨p1, p2, p3⟩ := down_pull (r := r) hp
    rw [hp, bind_ok] at hrun
    cases hd : dist.get? v with
    | none => rw [hd] at hrun; cases hrun
    | some dv =>
      rw [hd, unwrap_some, bind_ok] at hrun
      have hz0 : ∀ x ∈ st.domset, dist.get? x = some 0 := by
        intro x hx
        obtain ⟨k, hk, hg⟩ := p1 x 0 (h.zero x hx)
        rwa [Nat.le_zero.1 hk] at hg
      split at hrun
      · next hle =>
        cases hrun
        suffices hsf : TInv S.V A r cutoff (pre ++ [v]) T { st with dist := dist } from
          ⟨T, hsf, fun T₀ hT₀ => hT₀.skip hv (ar_props H hs) hWa hp hd hle⟩
        refine ⟨fun x hx => List.mem_append_left _ (h.seen x hx), h.keys, h.cnt, h.dset, hz0, h.few, ?_, h.arc, h.common,
          ?_, fun hc => by simp at hc⟩
        · intro s hs x w hx hw
          obtain ⟨k, hk, hg⟩ := h.near s hs x w hx hw
          obtain ⟨k', hk', hg'⟩ := p1 x k hg
          exact ⟨k', hk'.trans hk, hg'⟩
        · intro u hu
          cases pre with
          | nil => have := p3 (h.init rfl) v dv hd; omega
          | cons a pre => exact h.first u hu
      · next hgt =>
        have hvT : v ∉ T := fun hc => hvp (h.seen v hc)
        have hnone : ∀ x w k, (x, v, w) ∈ A → w ≤ r → st.dist.get? x = some k → r < w + k := by
          intro x w k hx hw hk
          obtain ⟨k', hk', hg⟩ := p2 (x, w) ((hWm _).2 ⟨(H.wf _ hx).2.2, hw, hx⟩) k hk
          rw [hd] at hg
          cases hg
          simp only at hk'
          omega
        have harc1 : ∀ t ∈ T, ¬ InNb A r v t := by
          rintro t ht ⟨w, hw, hx⟩
          have := hnone t w 0 hx hw (h.zero t ((h.dset t).2 (Or.inl ht)))
          omega
        have harc2 : ∀ t ∈ T, ¬ InNb A r t v := by
          rintro t ht ⟨w, hw, hx⟩
          obtain ⟨k, hk, hg⟩ := h.near t ht v w hx hw
          obtain ⟨k', hk', hg'⟩ := p1 v k hg
          rw [hd] at hg'
          cases hg'
          omega
        have hcom : ∀ t ∈ T, ∀ x a b, (x, t, a) ∈ A → (x, v, b) ∈ A → r < a + b := by
          intro t ht x a b ha hb
          by_contra hc
          obtain ⟨k, hk, hg⟩ := h.near t ht x a ha (by omega)
          have := hnone x b k hb (by omega) hg
          omega
        have hfin := foldlM_of_ok (f := g.domPush r cutoff) (l := W)
          (fun (p : List (ℕ × ℕ)) (t : DState) => (∀ x ∈ S.V, x ∈ t.counter.keys) ∧
            (∀ x k, t.counter.get? x = some k → k = outCount A r T x + if x ∈ p.map Prod.fst then 1 else 0) ∧
            (∀ x, x ∈ t.domset ↔ (x = v ∨ x ∈ T) ∨ ∃ k, t.counter.get? x = some k ∧ cutoff < k) ∧
            (∀ x ∈ t.domset, t.dist.get? x = some 0) ∧ Down dist t.dist ∧
            ∀ e ∈ p, ∃ k ≤ e.2, t.dist.get? e.1 = some k) ?_ ?_ hrun
        · obtain ⟨f1, f2, f3, f4, f5, f6⟩ := hfin
          suffices hsf : TInv S.V A r cutoff (pre ++ [v]) (insert v T) st' from
            ⟨insert v T, hsf, fun T₀ hT₀ => hT₀.join DState.domset DState.dist (fun b e b' => push_pushed H hr b e b') hv
              (ar_props H hs) hWa hp hd (by omega) rfl rfl hrun (hsf.generated H)⟩
          refine ⟨fun x hx => ?_, f1, fun x k hk => ?_, fun x => ?_, f4, fun x hx => ?_, ?_, ?_, ?_, ?_,
            fun hc => by simp at hc⟩
          · rcases Finset.mem_insert.1 hx with rfl | hx
            · simp
            · exact List.mem_append_left _ (h.seen x hx)
          · rw [f2 x k hk, outCount_insert hvT]
            simp only [hin]
          · rw [f3, Finset.mem_insert]
          · unfold outCount'
            rw [Finset.filter_insert]
            split
            · next hvx =>
              refine (Finset.card_insert_le _ _).trans ?_
              have hxd : x ∉ st.domset := by
                intro hc
                have hz := h.zero x hc
                rcases hvx with rfl | ⟨w, hw, hx⟩
                · have := hz0 _ hc
                  rw [hd] at this
                  cases this
                  omega
                · have := hnone x w 0 hx hw hz
                  omega
              rw [h.dset] at hxd
              push Not at hxd
              obtain ⟨k, hk⟩ := HMap.mem_keys_iff.1 (h.keys x hx)
              have h1 := hxd.2 k hk
              rw [h.cnt x k hk] at h1
              have h2 : (T.filter fun s => s = x ∨ InNb A r s x).card ≤ outCount A r T x := by
                unfold outCount
                refine Finset.card_le_card fun s hs => ?_
                rw [Finset.mem_filter] at hs ⊢
                refine ⟨hs.1, hs.2.resolve_left ?_⟩
                rintro rfl
                exact hxd.1 hs.1
              omega
            · exact h.few x hx
          · intro s hs x w hx hw
            rcases Finset.mem_insert.1 hs with rfl | hs
            · exact f6 (x, w) ((hWm _).2 ⟨(H.wf _ hx).2.2, hw, hx⟩)
            · obtain ⟨k, hk, hg⟩ := h.near s hs x w hx hw
              obtain ⟨k', hk', hg'⟩ := (p1.trans f5) x k hg
              exact ⟨k', hk'.trans hk, hg'⟩
          · intro s hs' t ht
            rcases Finset.mem_insert.1 hs' with rfl | hs2
            · rcases Finset.mem_insert.1 ht with rfl | ht
              · rintro ⟨w, -, hx⟩
                exact hs.loop _ _ _ hx rfl
              · exact harc1 t ht
            · rcases Finset.mem_insert.1 ht with rfl | ht
              · exact harc2 s hs2
              · exact h.arc s hs2 t ht
          · intro s hs' t ht hne x a b ha hb
            rcases Finset.mem_insert.1 hs' with rfl | hs2
            · rcases Finset.mem_insert.1 ht with rfl | ht
              · exact absurd rfl hne
              · have := hcom t ht x b a hb ha
                omega
            · rcases Finset.mem_insert.1 ht with rfl | ht
              · exact hcom s hs2 x a b ha hb
              · exact h.common s hs2 t ht hne x a b ha hb
          · intro u hu
            cases pre with
            | nil =>
              simp only [List.nil_append, List.head?_cons, Option.mem_def, Option.some.injEq] at hu
              subst hu
              exact Finset.mem_insert_self _ _
            | cons a pre => exact Finset.mem_insert_of_mem (h.first u hu)
        · refine ⟨h.keys, fun x k hk => by rw [h.cnt x k hk]; simp, fun x => ?_, fun x hx => ?_, ?_, by simp⟩
          · simp only
            rw [HSet.mem_insert, h.dset, or_assoc]
          · simp only
            rw [HMap.get?_insert]
            split
            · rfl
            · next hne =>
              rcases HSet.mem_insert.1 hx with hx | hx
              · exact absurd hx hne
              · exact hz0 x hx
          · exact down_insert fun _ _ => Nat.zero_le _
        · rintro p e post t t' hl ⟨f1, f2, f3, f4, f5, f6⟩ hstep
          obtain ⟨q1, q2, ⟨c, hc, e1, e3⟩, q4⟩ := push_of_ok hstep
          have hnot : e.1 ∉ p.map Prod.fst := by
            rw [hl, List.map_append, List.map_cons] at hnd
            intro hc
            exact (List.nodup_append.1 hnd).2.2 e.1 hc e.1 (by simp) rfl
          refine ⟨fun x hx => ?_, fun x k hk => ?_, fun x => ?_, q4 f4, f5.trans q1, fun e' he' => ?_⟩
          · rw [e1, HMap.mem_keys_insert]; exact Or.inr (f1 x hx)
          · rw [e1, HMap.get?_insert] at hk
            split at hk
            · next hx =>
              subst hx
              cases hk
              have := f2 _ _ hc
              rw [if_neg hnot] at this
              rw [if_pos (by simp)]
              omega
            · next hx =>
              rw [f2 x k hk]
              simp [hx]
          · rw [e3, f3, e1]
            simp only [HMap.get?_insert]
            by_cases hx : x = e.1
            · subst hx
              rw [if_pos rfl, hc]
              constructor
              · rintro ((h | ⟨k, h, h'⟩) | ⟨-, h⟩)
                · exact Or.inl h
                · cases h; exact Or.inr ⟨_, rfl, by omega⟩
                · exact Or.inr ⟨_, rfl, h⟩
              · rintro (h | ⟨k, h, h'⟩)
                · exact Or.inl (Or.inl h)
                · cases h; exact Or.inr ⟨rfl, h'⟩
            · rw [if_neg hx]
              simp [hx]
          · rcases List.mem_append.1 he' with he' | he'
            · obtain ⟨k, hk, hg⟩ := f6 e' he'
              obtain ⟨k', hk', hg'⟩ := q1 _ _ hg
              exact ⟨k', hk'.trans hk, hg'⟩
            · rw [List.mem_singleton] at he'
              subst he'
              exact q2

/-- The set returned by `domset` and the set `T` of vertices that were undominated when their turn came. -/
theorem domset_struct (H : Abs g S.V A) (hs : Sound S A) {ω : ℕ → RoundOrder DeepOrder}
    (hω : ∀ i, (ω i).Good DeepOrder.Good) {lay : DTFGraph → DTFGraph} (hlay : ∀ g, Relayout g (lay g))
    (hn : S.V.card ≤ 2 ^ 31) (hr : r < 2 ^ 15) {p : DTFGraph × HSet ℕ} (hrun : g.domset ω lay r = .ok p) :
    ∃ A' T, Abs p.1 S.V A' ∧ Sound S A' ∧ p.1.depth = max r g.depth ∧ (AugInv S g.depth A → AugInv S p.1.depth A') ∧
      T ⊆ S.V ∧ (∀ x ∈ S.V, x ∈ p.2 ↔ x ∈ T ∨ 2 * r * (2 * r) < outCount A' r T x) ∧
      (∀ x ∈ S.V, outCount' A' r T x ≤ 2 * r * (2 * r) + 1) ∧ (∀ s ∈ T, ∀ t ∈ T, ¬ InNb A' r s t) ∧
      (∀ s ∈ T, ∀ t ∈ T, s ≠ t → ∀ x a b, (x, s, a) ∈ A' → (x, t, b) ∈ A' → r < a + b) ∧
      (S.V.Nonempty → ∃ m ∈ T, ∀ u ∈ S.V, arcKey S.V.card A' u ≤ arcKey S.V.card A' m) ∧ (∀ x ∈ p.2, x ∈ S.V) ∧
      ∃ (o : List ℕ) (μ : ℕ → ℕ), (∀ x, x ∈ o ↔ x ∈ S.V) ∧ o.Pairwise (fun a b => arcKey S.V.card A' b < arcKey S.V.card A' a ∨
        (arcKey S.V.card A' b = arcKey S.V.card A' a ∧ p.1.vertices.idxOf a < p.1.vertices.idxOf b)) ∧
        DomRun S.V (Ar A' r) (fun _ => True) r (2 * r * (2 * r)) o.reverse T μ ∧
        ∀ x, x ∈ p.2 ↔ Generated (Ar A' r) (2 * r * (2 * r)) T x := by
  obtain ⟨p', hp', -, hdom, -⟩ := domset_ok H hs hω hlay hn hr
  rw [hrun] at hp'
  cases hp'
  unfold domset at hrun
  obtain ⟨g1, hg1, A1, H1, hd1, hsub, -, hs1, hai⟩ := augment_ok H hs hω r 2
  rw [hg1, bind_ok] at hrun
  have H2 := H1.relayout (hlay g1)
  have hd2 : (lay g1).depth = max r g.depth := by rw [(hlay g1).depth, hd1]
  have hai2 : AugInv S g.depth A → AugInv S (lay g1).depth A1 := by rw [(hlay g1).depth]; exact hai
  generalize lay g1 = g2 at H2 hd2 hrun hai2
  have hsq : (2 * r) * (2 * r) < 2 ^ 32 :=
    lt_of_le_of_lt (Nat.mul_le_mul (show 2 * r ≤ 2 ^ 16 - 1 by omega) (show 2 * r ≤ 2 ^ 16 - 1 by omega)) (by decide)
  rw [mul32_ok (by omega), bind_ok, mul32_ok hsq, bind_ok] at hrun
  obtain ⟨order, ho, hnd, hord, hsorted⟩ := domOrder_ok H2 hs1 hn
  rw [ho, bind_ok, add32_ok (by omega), bind_ok] at hrun
  simp only at hrun
  cases hf : order.foldlM (g2.domRound r (2 * r * (2 * r))) ⟨∅, order.foldl (fun (m : HMap ℕ ℕ) v => m.insert v (r + 1)) ∅,
      order.foldl (fun (m : HMap ℕ ℕ) v => m.insert v 0) ∅⟩ with
  | error e => rw [hf] at hrun; cases hrun
  | ok st =>
    rw [hf, bind_ok] at hrun
    cases hrun
    have hget := fun x => get?_foldl_insert (f := fun _ => r + 1) (l := order) x
    have hgetc := fun x => get?_foldl_insert (f := fun _ => 0) (l := order) x
    have hfin := foldlM_of_ok (fun (pre : List ℕ) (st : DState) => ∃ T, TInv S.V A1 r (2 * r * (2 * r)) pre T st ∧
      Dom.RunInv S.V (Ar A1 r) (fun _ => True) r (2 * r * (2 * r)) pre T st.domset st.dist) ?_ ?_ hf
    · obtain ⟨T, h, hri⟩ := hfin
      obtain ⟨μ, hμ, -⟩ := hri.run
      refine ⟨A1, T, H2, hs1, hd2, hai2, fun x hx => (hord x).1 (h.seen x hx), fun x hx => ?_, h.few, h.arc, h.common, ?_, hdom,
        order, μ, hord, hsorted, hμ, h.generated H2⟩
      · obtain ⟨k, hk⟩ := HMap.mem_keys_iff.1 (h.keys x hx)
        rw [h.dset, ← h.cnt x k hk]
        constructor
        · rintro (h | ⟨k', h, h'⟩)
          · exact Or.inl h
          · rw [hk] at h; cases h; exact Or.inr h'
        · rintro (h | h')
          · exact Or.inl h
          · exact Or.inr ⟨k, hk, h'⟩
      · rintro ⟨y, hy⟩
        cases hor : order with
        | nil => rw [← hord, hor] at hy; simp at hy
        | cons m rest =>
          refine ⟨m, h.first m (by rw [hor]; rfl), fun u hu => ?_⟩
          rw [← hord, hor, List.mem_cons] at hu
          rw [hor, List.pairwise_cons] at hsorted
          rcases hu with rfl | hu
          · exact le_refl _
          · rcases hsorted.1 u hu with h | h
            · exact h.le
            · exact h.1.le
    · have hri : Dom.RunInv S.V (Ar A1 r) (fun _ => True) r (2 * r * (2 * r)) [] ∅ ∅
          (order.foldl (fun (m : HMap ℕ ℕ) v => m.insert v (r + 1)) ∅) := by
        refine ⟨⟨fun _ => r + 1, .nil (fun _ _ _ => rfl) (fun _ _ h => absurd trivial h), fun x hx => ?_⟩,
          fun x hx => absurd hx HSet.not_mem_empty, fun x hx => absurd hx HSet.not_mem_empty, fun x => ?_,
          fun x hx => absurd hx HSet.not_mem_empty⟩
        · rw [hget, if_pos ((hord x).2 hx)]
        · refine ⟨fun hx => absurd hx HSet.not_mem_empty, ?_⟩
          rintro (hx | ⟨B, hB, hB'⟩)
          · exact absurd hx (Finset.notMem_empty x)
          · obtain ⟨s, hs⟩ := Finset.card_pos.1 (lt_of_le_of_lt (Nat.zero_le _) hB')
            exact absurd ((hB s).1 hs).1 (Finset.notMem_empty s)
      refine ⟨∅, ?_, hri⟩
      refine ⟨by simp, fun x hx => ?_, fun x k hk => ?_, fun x => ?_, fun x hx => absurd hx HSet.not_mem_empty,
        fun x _ => by simp [outCount'], by simp, by simp, by simp, by simp, fun _ x k hk => ?_⟩
      · rw [HMap.mem_keys_iff, hgetc, if_pos ((hord x).2 hx)]
        exact ⟨_, rfl⟩
      · rw [hgetc] at hk
        split at hk
        · cases hk; simp [outCount]
        · cases hk
      · constructor
        · intro h; exact absurd h HSet.not_mem_empty
        · rintro (h | ⟨k, h, h'⟩)
          · simp at h
          · rw [hgetc] at h
            split at h
            · cases h; omega
            · cases h
      · rw [hget] at hk
        split at hk
        · cases hk; rfl
        · cases hk
    · rintro pre v post b b' hl ⟨T, hi, hri⟩ hstep
      suffices hvp : v ∉ pre by
        obtain ⟨T', h1, h2⟩ := hi.round H2 hs1 (by omega) ((hord v).1 (by rw [hl]; simp)) hvp hstep
        exact ⟨T', h1, h2 _ hri⟩
      rw [hl, List.nodup_append] at hnd
      exact fun hc => hnd.2.2 v hc v (by simp) rfl

/-- The keys compare first the in-degree and then the degree. -/
theorem arcKey_le (H : Abs g S.V A) (hs : Sound S A) {u m : ℕ}
    (h : arcKey S.V.card A u ≤ arcKey S.V.card A m) :
    (A.filter (fun e => e.2.1 = u)).card < (A.filter (fun e => e.2.1 = m)).card ∨
    ((A.filter (fun e => e.2.1 = u)).card = (A.filter (fun e => e.2.1 = m)).card ∧
      (A.filter (fun e => e.1 = u)).card + (A.filter (fun e => e.2.1 = u)).card ≤
      (A.filter (fun e => e.1 = m)).card + (A.filter (fun e => e.2.1 = m)).card) := by
  unfold arcKey at h
  have h2 := card_out_le H hs m
  generalize (A.filter (fun e => e.2.1 = u)).card = iu at *
  generalize (A.filter (fun e => e.2.1 = m)).card = im at *
  generalize (A.filter (fun e => e.1 = u)).card = ou at *
  generalize (A.filter (fun e => e.1 = m)).card = om at *
  rcases Nat.lt_trichotomy iu im with hlt | heq | hgt
  · exact Or.inl hlt
  · subst heq
    exact Or.inr ⟨rfl, by omega⟩
  · exfalso
    have h3 : (im + 1) * S.V.card ≤ iu * S.V.card := Nat.mul_le_mul_right _ hgt
    rw [Nat.succ_mul] at h3
    omega

/-- The combinatorial core of the size bound, for an arbitrary relation `R`. -/
theorem size_bound_rel {R : ℕ → ℕ → Prop} {V T E X : Finset ℕ} {k c : ℕ} (hk : 0 < k) (hTV : T ⊆ V)
    (hX : ∀ s ∈ T, ∃ o ∈ X, o ∈ V ∧ ∃ w ∈ V, (w = o ∨ R o w) ∧ (s = w ∨ R s w))
    (hc : ∀ v ∈ V, ∀ W : Finset ℕ, (∀ u ∈ W, R v u) → W.card < c)
    (hfew : ∀ x ∈ V, ∀ B : Finset ℕ, (∀ s ∈ B, s ∈ T ∧ (s = x ∨ R s x)) → B.card ≤ k)
    (hE : ∀ x ∈ E, ∃ B : Finset ℕ, (∀ s ∈ B, s ∈ T ∧ R s x) ∧ k ≤ B.card) :
    (T ∪ E).card ≤ X.card * (c * (c + (k - 1))) := by
  classical
  have hT : T.card ≤ X.card * (c * k) := by
    have hsub : T ⊆ (X.filter (· ∈ V)).biUnion fun o => (V.filter fun w => w = o ∨ R o w).biUnion fun w =>
          T.filter fun s => s = w ∨ R s w := by
      intro s hs
      obtain ⟨o, ho, hoV, w, hwV, h1, h2⟩ := hX s hs
      rw [Finset.mem_biUnion]
      exact ⟨o, Finset.mem_filter.2 ⟨ho, hoV⟩, Finset.mem_biUnion.2 ⟨w, Finset.mem_filter.2 ⟨hwV, h1⟩,
        Finset.mem_filter.2 ⟨hs, h2⟩⟩⟩
    refine (Finset.card_le_card hsub).trans ?_
    refine (Finset.card_biUnion_le_card_mul _ _ (c * k) fun o ho => ?_).trans
      (Nat.mul_le_mul_right _ (Finset.card_filter_le _ _))
    have hoV := (Finset.mem_filter.1 ho).2
    refine (Finset.card_biUnion_le_card_mul _ _ k fun w hw => ?_).trans (Nat.mul_le_mul_right _ ?_)
    · exact hfew w (Finset.mem_filter.1 hw).1 _ fun s hs => Finset.mem_filter.1 hs
    · have h1 := hc o hoV (V.filter fun w => R o w) fun u hu => (Finset.mem_filter.1 hu).2
      refine le_trans (Finset.card_le_card (t := insert o (V.filter fun w => R o w)) ?_)
        ((Finset.card_insert_le _ _).trans h1)
      intro w hw
      rw [Finset.mem_filter] at hw
      rw [Finset.mem_insert, Finset.mem_filter]
      tauto
  have hEk : E.card * k ≤ T.card * (c - 1) := by
    refine Finset.card_mul_le_card_mul (s := E) (t := T) (m := k) (n := c - 1) (fun x s => R s x) ?_ ?_
    · intro x hx
      obtain ⟨B, h1, h2⟩ := hE x hx
      refine h2.trans (Finset.card_le_card fun s hs => ?_)
      rw [Finset.mem_bipartiteAbove]
      exact h1 s hs
    · intro s hs
      have := hc s (hTV hs) (E.bipartiteBelow (fun x s => R s x) s) fun u hu => ((Finset.mem_bipartiteBelow _).1 hu).2
      omega
  have hE' : E.card ≤ X.card * (c * (c - 1)) := by
    refine Nat.le_of_mul_le_mul_right ?_ hk
    refine hEk.trans ((Nat.mul_le_mul_right _ hT).trans (le_of_eq ?_))
    ring
  refine (Finset.card_union_le _ _).trans ((Nat.add_le_add hT hE').trans (le_of_eq ?_))
  rcases Nat.eq_zero_or_pos c with rfl | hc0
  · simp
  · rw [← Nat.mul_add, ← Nat.mul_add]
    congr 2
    omega

end Verif.DTFGraph
