import Verif.Lemmas.SmallDist
import Verif.Lemmas.Colour
import Verif.Model.Domset
/-!
# The domination loop
-/
namespace Verif
open SGraph

namespace SGraph
variable {S : SGraph} {ord : List ℕ}

theorem WReach.left_mem (O : S.Ordering ord) {v u d : ℕ} (h : S.WReach ord v u d) : u ∈ S.V := by
  refine (O.mem u).1 ?_
  by_contra hc
  have e1 := List.idxOf_eq_length hc
  have e2 := List.idxOf_le_length (a := v) (l := ord)
  have := h.1
  omega

theorem WReach.pos (O : S.Ordering ord) {v u d : ℕ} (h : S.WReach ord v u d) : 1 ≤ d :=
  ((LinGraph.LRep.wreach_iff' O (h.left_mem O)).1 h).1

end SGraph

namespace Dom
variable {S : SGraph} {ord : List ℕ}

/-- Within distance `k` of the set `D`. -/
def Near (S : SGraph) (D : ℕ → Prop) (k x : ℕ) : Prop := ∃ d, D d ∧ ∃ n ≤ k, Walk S.Adj n d x

/-- The domination distances are sound: `T` are the targets, `Low` the vertices known to have a distance at most `r`. -/
structure Good (S : SGraph) (T : ℕ → Prop) (r : ℕ) (Low D : ℕ → Prop) (dist : HMap ℕ ℕ) : Prop where
  keys : ∀ x, x ∈ dist.keys ↔ x ∈ S.V
  le : ∀ x k, dist.get? x = some k → k ≤ r + 1
  low : ∀ x k, dist.get? x = some k → Low x → k ≤ r
  sound : ∀ x k, dist.get? x = some k → k = r + 1 ∨ (¬ T x ∧ k = r) ∨ Near S D k x

variable {T Low D D' : ℕ → Prop} {r : ℕ} {dist : HMap ℕ ℕ}

theorem Good.mono (h : Good S T r Low D dist) (hD : ∀ x, D x → D' x) : Good S T r Low D' dist :=
  ⟨h.keys, h.le, h.low, fun x k hk => (h.sound x k hk).imp_right fun h => h.imp_right
    fun ⟨d, h1, h2⟩ => ⟨d, hD d h1, h2⟩⟩

theorem Good.get (h : Good S T r Low D dist) {x : ℕ} (hx : x ∈ S.V) : ∃ k, dist.get? x = some k :=
  HMap.mem_keys_iff.1 ((h.keys x).2 hx)

theorem Good.insert_min (h : Good S T r Low D dist) {x k0 k1 : ℕ} (h0 : dist.get? x = some k0)
    (h1 : k1 < k0 → Near S D k1 x) : Good S T r Low D (dist.insert x (min k0 k1)) := by
  have hx : x ∈ S.V := (h.keys x).1 (HMap.mem_keys_iff.2 ⟨_, h0⟩)
  refine ⟨fun y => ?_, fun y k hk => ?_, fun y k hk hy => ?_, fun y k hk => ?_⟩
  · rw [HMap.mem_keys_insert, h.keys]
    exact ⟨fun h => h.elim (fun h => h ▸ hx) id, Or.inr⟩
  · rw [HMap.get?_insert] at hk
    split at hk
    · cases hk
      exact (min_le_left _ _).trans (h.le x k0 h0)
    · exact h.le y k hk
  · rw [HMap.get?_insert] at hk
    split at hk
    · rename_i he
      subst he
      cases hk
      exact (min_le_left _ _).trans (h.low _ k0 h0 hy)
    · exact h.low y k hk hy
  · rw [HMap.get?_insert] at hk
    split at hk
    · rename_i he
      subst he
      cases hk
      rcases Nat.lt_or_ge k1 k0 with hlt | hge
      · rw [Nat.min_eq_right (le_of_lt hlt)]
        exact Or.inr (Or.inr (h1 hlt))
      · rw [Nat.min_eq_left hge]
        exact h.sound _ k0 h0
    · exact h.sound y k hk

theorem Good.insert_zero (h : Good S T r Low D dist) {x : ℕ} (hx : x ∈ S.V) (hD : D x) :
    Good S T r Low D (dist.insert x 0) := by
  obtain ⟨k, hk⟩ := h.get hx
  have := h.insert_min hk (k1 := 0) (fun _ => ⟨x, hD, 0, le_refl _, .nil _⟩)
  rwa [Nat.min_zero] at this

theorem Good.relax (h : Good S T r Low D dist) {e : ℕ × ℕ} {c : ℕ} (hx : e.1 ∈ S.V) (hc : D c)
    (hw : Walk S.Adj e.2 c e.1) : Ok (LinGraph.domRelax dist e) (Good S T r Low D) := by
  obtain ⟨k, hk⟩ := h.get hx
  unfold LinGraph.domRelax
  rw [hk, unwrap_some, bind_ok]
  exact Ok.pure (h.insert_min hk fun _ => ⟨c, hc, _, le_refl _, hw⟩)

theorem Good.relaxAll (h : Good S T r Low D dist) {es : List (ℕ × ℕ)} {c : ℕ} (hc : D c)
    (hes : ∀ e ∈ es, e.1 ∈ S.V ∧ Walk S.Adj e.2 c e.1) : Ok (es.foldlM LinGraph.domRelax dist) (Good S T r Low D) :=
  Ok.foldlM_inv _ h fun e he _ hd => hd.relax (hes e he).1 hc (hes e he).2

theorem Good.pull (h : Good S T r Low D dist) {v : ℕ} {e : ℕ × ℕ} {M : ℕ} (hv : v ∈ S.V) (hx : e.1 ∈ S.V)
    (hw : Walk S.Adj e.2 v e.1) (h1 : 1 ≤ e.2) (hM : e.2 ≤ M) (hlt : M + (r + 1) < 2 ^ 32) :
    Ok (LinGraph.domPull v dist e) (Good S T r Low D) := by
  obtain ⟨kv, hkv⟩ := h.get hv
  obtain ⟨ku, hku⟩ := h.get hx
  have a1 := h.le _ _ hkv
  have a2 := h.le _ _ hku
  unfold LinGraph.domPull
  rw [hkv, unwrap_some, bind_ok, hku, unwrap_some, bind_ok, add32_ok (by omega), bind_ok]
  refine Ok.pure (h.insert_min hkv fun hlt => ?_)
  rcases h.sound _ _ hku with h2 | ⟨-, h2⟩ | ⟨d, hd, n, hn, hwd⟩
  · omega
  · omega
  · exact ⟨d, hd, n + e.2, by omega, hwd.append (hw.symm fun _ _ h => h.symm)⟩

/-- What the loop has established about its state after `m` rounds. -/
structure SInv (S : SGraph) (M : ℕ) (T : ℕ → Prop) (r m : ℕ) (Low : ℕ → Prop) (st : LinGraph.DomState) : Prop where
  good : Good S T r Low (· ∈ st.domset) st.dist
  ckeys : ∀ x, x ∈ st.counter.keys ↔ x ∈ S.V
  count : ∀ x k, st.counter.get? x = some k → k ≤ m
  dom : ∀ x ∈ st.domset, x ∈ S.V
  scat : ∀ x ∈ st.scattered, x ∈ st.domset ∧ T x
  seed : ∀ x ∈ st.domset, ∃ s, s ∈ st.scattered ∧ ∃ n ≤ M, Walk S.Adj n s x

variable {ws : HMap ℕ (HMap ℕ ℕ)} {M : ℕ}

/-- What iterating over `wreach[v]` yields. -/
theorem wtab_entries (O : S.Ordering ord) (Tb : LinGraph.LRep.WTab S ord ws M) (ρ : Shuffle (ℕ × ℕ)) {v : ℕ} (hv : v ∈ S.V) :
    ∃ W, ws.get? v = some W ∧ ((ρ.run W.entries).map Prod.fst).Nodup ∧
      (∀ e, e ∈ ρ.run W.entries ↔ S.WReach ord v e.1 e.2 ∧ e.2 ≤ M) ∧
      ∀ e ∈ ρ.run W.entries, e.1 ∈ S.V ∧ Walk S.Adj e.2 v e.1 ∧ 1 ≤ e.2 ∧ e.2 ≤ M := by
  obtain ⟨W, hW⟩ := HMap.mem_keys_iff.1 ((Tb.1 v).2 hv)
  have hm : ∀ e, e ∈ ρ.run W.entries ↔ S.WReach ord v e.1 e.2 ∧ e.2 ≤ M := by
    intro e
    rw [ρ.mem]
    exact HMap.get?_eq_some.symm.trans (Tb.2 v W hW e.1 e.2)
  refine ⟨W, hW, ?_, hm, fun e he => ?_⟩
  · exact ((ρ.perm _).map Prod.fst).nodup_iff.2 W.keys_nodup
  · obtain ⟨h1, h2⟩ := (hm e).1 he
    exact ⟨h1.left_mem O, h1.walk O, h1.pos O, h2⟩

theorem SInv.pushes (O : S.Ordering ord) (Tb : LinGraph.LRep.WTab S ord ws M) (ρ : ℕ → Shuffle (ℕ × ℕ)) (cutoff : ℕ) {m v : ℕ}
    (hm : m + 1 < 2 ^ 32) {st : LinGraph.DomState} (h : SInv S M T r m Low st) (hvd : v ∈ st.domset) (hvs : v ∈ st.scattered) {es : List (ℕ × ℕ)}
    (hnd : (es.map Prod.fst).Nodup) (hes : ∀ e ∈ es, e.1 ∈ S.V ∧ Walk S.Adj e.2 v e.1 ∧ e.2 ≤ M) :
    Ok (es.foldlM (LinGraph.domPush cutoff ws ρ) st) (fun st' => SInv S M T r (m + 1) Low st' ∧
      (∀ x, x ∈ st'.scattered ↔ x ∈ st.scattered) ∧ ∀ x ∈ st.domset, x ∈ st'.domset) := by
  have hfin := Ok.foldlM (f := LinGraph.domPush cutoff ws ρ) (l := es) (b := st)
    (fun (pre : List (ℕ × ℕ)) (st' : LinGraph.DomState) => SInv S M T r (m + 1) Low st' ∧
      (∀ x, x ∈ st'.scattered ↔ x ∈ st.scattered) ∧ (∀ x ∈ st.domset, x ∈ st'.domset) ∧
      ∀ x, x ∉ pre.map Prod.fst → ∀ k, st'.counter.get? x = some k → k ≤ m)
    ⟨⟨h.good, h.ckeys, fun x k hk => (h.count x k hk).trans (Nat.le_succ _), h.dom, h.scat, h.seed⟩,
      fun _ => Iff.rfl, fun _ h => h, fun x _ k hk => h.count x k hk⟩ ?_
  · exact hfin.mono fun st' ⟨h1, h2, h3, _⟩ => ⟨h1, h2, h3⟩
  · rintro pre e post st' hl ⟨h1, h2, h3, h4⟩
    obtain ⟨hx, hw, hwM⟩ := hes e (by rw [hl]; simp)
    have hnot : e.1 ∉ pre.map Prod.fst := by
      rw [hl, List.map_append, List.map_cons] at hnd
      intro hc
      exact (List.nodup_append.1 hnd).2.2 e.1 hc e.1 (by simp) rfl
    obtain ⟨c, hc⟩ := HMap.mem_keys_iff.1 ((h1.ckeys e.1).2 hx)
    have hcm := h4 e.1 hnot c hc
    unfold LinGraph.domPush
    rw [hc, unwrap_some, bind_ok, add32_ok (by omega), bind_ok]
    refine (h1.good.relax hx (h3 v hvd) hw).bind ?_
    intro dist hg
    have k1 : ∀ x, x ∈ (st'.counter.insert e.1 (c + 1)).keys ↔ x ∈ S.V := by
      intro x
      rw [HMap.mem_keys_insert, h1.ckeys]
      exact ⟨fun h => h.elim (fun h => h ▸ hx) id, Or.inr⟩
    have k2 : ∀ x k, (st'.counter.insert e.1 (c + 1)).get? x = some k → k ≤ m + 1 := by
      intro x k hk
      rw [HMap.get?_insert] at hk
      split at hk
      · cases hk; omega
      · exact h1.count x k hk
    have k3 : ∀ x, x ∉ (pre ++ [e]).map Prod.fst → ∀ k, (st'.counter.insert e.1 (c + 1)).get? x = some k → k ≤ m := by
      intro x hx k hk
      rw [List.map_append, List.mem_append, not_or] at hx
      rw [HMap.get?_insert, if_neg (by simpa using hx.2)] at hk
      exact h4 x hx.1 k hk
    split
    · obtain ⟨W, hW, -, -, hWe⟩ := wtab_entries O Tb (ρ e.1) hx
      rw [hW, unwrap_some, bind_ok]
      have hg' : Good S T r Low (· ∈ st'.domset.insert e.1) (dist.insert e.1 0) :=
        (hg.mono fun x hx => HSet.mem_insert.2 (Or.inr hx)).insert_zero hx (HSet.mem_insert.2 (Or.inl rfl))
      refine (hg'.relaxAll (c := e.1) (HSet.mem_insert.2 (Or.inl rfl)) fun e' he' => ⟨(hWe e' he').1, (hWe e' he').2.1⟩).bind ?_
      intro dist' hg2
      refine Ok.pure ⟨⟨hg2, k1, k2, ?_, ?_, ?_⟩, h2, ?_, k3⟩
      · intro x hxd
        rcases HSet.mem_insert.1 hxd with rfl | hxd
        · exact hx
        · exact h1.dom x hxd
      · intro x hxs
        exact ⟨HSet.mem_insert.2 (Or.inr (h1.scat x hxs).1), (h1.scat x hxs).2⟩
      · intro x hxd
        rcases HSet.mem_insert.1 hxd with rfl | hxd
        · exact ⟨v, (h2 v).2 hvs, _, hwM, hw⟩
        · exact h1.seed x hxd
      · intro x hxd
        exact HSet.mem_insert.2 (Or.inr (h3 x hxd))
    · exact Ok.pure ⟨⟨hg, k1, k2, h1.dom, h1.scat, h1.seed⟩, h2, h3, k3⟩

theorem SInv.round (O : S.Ordering ord) (Tb : LinGraph.LRep.WTab S ord ws M) (ρ : ℕ → Shuffle (ℕ × ℕ)) (cutoff : ℕ) {m v : ℕ}
    (hm : m + 1 < 2 ^ 32) (hM : M + (r + 1) < 2 ^ 32) {target : HSet ℕ} {st : LinGraph.DomState}
    (h : SInv S M (· ∈ target) r m Low st) (hlow : ∀ x, x ∉ target → Low x) (hv : v ∈ S.V) :
    Ok (LinGraph.domRound target r cutoff ws ρ st v) (SInv S M (· ∈ target) r (m + 1) (fun x => Low x ∨ x = v)) := by
  obtain ⟨W, hW, hnd, -, hWe⟩ := wtab_entries O Tb (ρ v) hv
  unfold LinGraph.domRound
  rw [hW, unwrap_some, bind_ok]
  have hpull : Ok (((ρ v).run W.entries).foldlM (LinGraph.domPull v) st.dist)
      (Good S (· ∈ target) r Low (· ∈ st.domset)) :=
    Ok.foldlM_inv _ h.good fun e he _ hd =>
      hd.pull hv (hWe e he).1 (hWe e he).2.1 (hWe e he).2.2.1 (hWe e he).2.2.2 hM
  refine hpull.bind ?_
  intro dist hg
  obtain ⟨k, hk⟩ := hg.get hv
  rw [hk, unwrap_some, bind_ok]
  have hupd : ∀ {D : ℕ → Prop} {dist : HMap ℕ ℕ}, Good S (· ∈ target) r Low D dist → (∀ k, dist.get? v = some k → k ≤ r) →
      Good S (· ∈ target) r (fun x => Low x ∨ x = v) D dist := by
    intro D dist hg hle
    refine ⟨hg.keys, hg.le, fun x k' hk' hx => ?_, hg.sound⟩
    rcases hx with hx | rfl
    · exact hg.low x k' hk' hx
    · exact hle k' hk'
  by_cases hkr : k ≤ r
  · rw [if_pos hkr]
    refine Ok.pure ⟨hupd hg fun k' hk' => ?_, h.ckeys, fun x k hk => (h.count x k hk).trans (Nat.le_succ _),
      h.dom, h.scat, h.seed⟩
    rw [hk] at hk'
    cases hk'
    exact hkr
  · rw [if_neg hkr]
    have hvt : v ∈ target := by
      by_contra hc
      exact hkr (hg.low v k hk (hlow v hc))
    have hct : target.contains v = true := HSet.contains_iff.2 hvt
    rw [hct]
    show Ok (((ρ v).run W.entries).foldlM (LinGraph.domPush cutoff ws ρ) _) _
    have hgz := (hg.mono (D' := (· ∈ st.domset.insert v)) fun x hx => HSet.mem_insert.2 (Or.inr hx)).insert_zero hv
      (HSet.mem_insert.2 (Or.inl rfl))
    have hgz' := hupd hgz (fun k hk => by rw [HMap.get?_insert, if_pos rfl] at hk; cases hk; omega)
    have hst : SInv S M (· ∈ target) r m (fun x => Low x ∨ x = v)
        ⟨st.domset.insert v, st.scattered.insert v, dist.insert v 0, st.counter⟩ := by
      refine ⟨hgz', h.ckeys, h.count, ?_, ?_, ?_⟩
      · intro x hxd
        rcases HSet.mem_insert.1 hxd with rfl | hxd
        · exact hv
        · exact h.dom x hxd
      · intro x hxs
        rcases HSet.mem_insert.1 hxs with rfl | hxs
        · exact ⟨HSet.mem_insert.2 (Or.inl rfl), hvt⟩
        · exact ⟨HSet.mem_insert.2 (Or.inr (h.scat x hxs).1), (h.scat x hxs).2⟩
      · intro x hxd
        rcases HSet.mem_insert.1 hxd with rfl | hxd
        · exact ⟨x, HSet.mem_insert.2 (Or.inl rfl), 0, Nat.zero_le _, .nil _⟩
        · obtain ⟨s, hs, hw⟩ := h.seed x hxd
          exact ⟨s, HSet.mem_insert.2 (Or.inr hs), hw⟩
    exact (hst.pushes O Tb ρ cutoff hm (v := v) (HSet.mem_insert.2 (Or.inl rfl)) (HSet.mem_insert.2 (Or.inl rfl)) hnd
      fun e he => ⟨(hWe e he).1, (hWe e he).2.1, (hWe e he).2.2.2⟩).mono fun _ h => h.1

theorem get?_foldl_insert {f : ℕ → ℕ} {l : List ℕ} (x : ℕ) :
    (l.foldl (fun (m : HMap ℕ ℕ) v => m.insert v (f v)) ∅).get? x = if x ∈ l then some (f x) else none := by
  have := foldl_inv (f := fun (m : HMap ℕ ℕ) v => m.insert v (f v)) (l := l) (b := ∅)
    (fun (pre : List ℕ) (m : HMap ℕ ℕ) => m.get? x = if x ∈ pre then some (f x) else none) (by simp) ?_
  · exact this
  · rintro pre a post m - h
    rw [HMap.get?_insert, h]
    by_cases hx : x = a
    · subst hx; simp
    · simp [hx]

/-- The domination loop returns a set dominating the target. -/
theorem phase (O : S.Ordering ord) (Tb : LinGraph.LRep.WTab S ord ws M) (ρ : ℕ → Shuffle (ℕ × ℕ)) (cutoff : ℕ)
    (hM : M + (r + 1) < 2 ^ 32) {target : HSet ℕ} {order : List ℕ} (hn : S.V.card < 2 ^ 32)
    (hnd : order.Nodup) (hord : ∀ x, x ∈ order ↔ x ∈ S.V) :
    Ok (LinGraph.domPhase target r (r + 1) cutoff ws ρ order) (fun st =>
      (∀ x ∈ st.domset, x ∈ S.V) ∧ (∀ x ∈ st.scattered, x ∈ st.domset ∧ x ∈ target) ∧
      (∀ x ∈ st.domset, ∃ s, s ∈ st.scattered ∧ ∃ n ≤ M, Walk S.Adj n s x) ∧ (∀ x, x ∈ st.dist.keys ↔ x ∈ S.V) ∧
      (∀ x ∈ S.V, ∃ k ≤ r, st.dist.get? x = some k) ∧
      ∀ x ∈ target, ∀ k, st.dist.get? x = some k → Near S (· ∈ st.domset) k x) := by
  unfold LinGraph.domPhase
  have hlen : order.length = S.V.card := by
    rw [← List.toFinset_card_of_nodup hnd]
    congr 1
    ext x
    rw [List.mem_toFinset, hord]
  have hfin := Ok.foldlM (f := LinGraph.domRound target r cutoff ws ρ) (l := order)
    (b := LinGraph.domInit target r (r + 1) order)
    (fun (pre : List ℕ) (st : LinGraph.DomState) => SInv S M (· ∈ target) r pre.length (fun x => x ∉ target ∨ x ∈ pre) st) ?_ ?_
  · refine hfin.mono fun st h => ⟨h.dom, h.scat, h.seed, h.good.keys, fun x hx => ?_, fun x hx k hk => ?_⟩
    · obtain ⟨k, hk⟩ := h.good.get hx
      exact ⟨k, h.good.low x k hk (Or.inr ((hord x).2 hx)), hk⟩
    · have hxV : x ∈ S.V := (h.good.keys x).1 (HMap.mem_keys_iff.2 ⟨_, hk⟩)
      have hle := h.good.low x k hk (Or.inr ((hord x).2 hxV))
      rcases h.good.sound x k hk with h1 | ⟨h1, -⟩ | h1
      · omega
      · exact absurd hx h1
      · exact h1
  · have hget := fun x => get?_foldl_insert (f := fun v => if target.contains v then r + 1 else r) (l := order) x
    have hgetc := fun x => get?_foldl_insert (f := fun _ => 0) (l := order) x
    refine ⟨⟨fun x => ?_, fun x k hk => ?_, fun x k hk hx => ?_, fun x k hk => ?_⟩, fun x => ?_, fun x k hk => ?_, ?_, ?_, ?_⟩
    · show x ∈ HMap.keys _ ↔ _
      rw [HMap.mem_keys_iff]
      unfold LinGraph.domInit
      simp only [hget]
      rw [← hord]
      by_cases hx : x ∈ order <;> simp [hx]
    · unfold LinGraph.domInit at hk
      simp only [hget] at hk
      split at hk
      · cases hk; split <;> omega
      · cases hk
    · unfold LinGraph.domInit at hk
      simp only [hget] at hk
      simp only [List.not_mem_nil, or_false] at hx
      split at hk
      · cases hk
        rw [if_neg (by rw [HSet.contains_iff]; exact hx)]
      · cases hk
    · unfold LinGraph.domInit at hk
      simp only [hget] at hk
      split at hk
      · cases hk
        split
        · exact Or.inl rfl
        · rename_i hx
          rw [HSet.contains_iff] at hx
          exact Or.inr (Or.inl ⟨hx, rfl⟩)
      · cases hk
    · show x ∈ HMap.keys _ ↔ _
      rw [HMap.mem_keys_iff]
      unfold LinGraph.domInit
      simp only [hgetc]
      rw [← hord]
      by_cases hx : x ∈ order <;> simp [hx]
    · unfold LinGraph.domInit at hk
      simp only [hgetc] at hk
      split at hk
      · cases hk; omega
      · cases hk
    · intro x hx; exact absurd hx HSet.not_mem_empty
    · intro x hx; exact absurd hx HSet.not_mem_empty
    · intro x hx; exact absurd hx HSet.not_mem_empty
  · intro pre v post st hs h
    have hv : v ∈ S.V := (hord v).1 (by rw [hs]; simp)
    have hpl : pre.length + 1 < 2 ^ 32 := by
      have : order.length = pre.length + (post.length + 1) := by rw [hs]; simp
      omega
    refine (h.round O Tb ρ cutoff hpl hM (fun x hx => Or.inl hx) hv).mono fun st' h' => ?_
    rw [List.length_append, List.length_singleton]
    refine ⟨⟨h'.good.keys, h'.good.le, fun x k hk hx => h'.good.low x k hk ?_, h'.good.sound⟩, h'.ckeys, h'.count,
      h'.dom, h'.scat, h'.seed⟩
    rcases hx with hx | hx
    · exact Or.inl (Or.inl hx)
    · rcases List.mem_append.1 hx with hx | hx
      · exact Or.inl (Or.inr hx)
      · exact Or.inr (by simpa using hx)

open Classical in
/-- The number of vertices of `A` from which `x` is weakly `M`-reachable. -/
noncomputable def reachCount (S : SGraph) (ord : List ℕ) (M : ℕ) (A : HSet ℕ) (x : ℕ) : ℕ :=
  (A.toFinset.filter fun s => ∃ d ≤ M, S.WReach ord s x d).card

/-- Counters and the dominating set in terms of the scattered set; `pre` are the vertices processed. -/
structure CntInv (S : SGraph) (ord : List ℕ) (M cutoff : ℕ) (pre : List ℕ) (st : LinGraph.DomState) : Prop where
  seen : ∀ x ∈ st.scattered, x ∈ pre
  keys : ∀ x ∈ S.V, x ∈ st.counter.keys
  cnt : ∀ x k, st.counter.get? x = some k → k = reachCount S ord M st.scattered x
  dset : ∀ x, x ∈ st.domset ↔ x ∈ st.scattered ∨ ∃ k, st.counter.get? x = some k ∧ cutoff < k

theorem reachCount_insert {A : HSet ℕ} {v : ℕ} (hv : v ∉ A) (x : ℕ) [Decidable (∃ d ≤ M, S.WReach ord v x d)] :
    reachCount S ord M (A.insert v) x = reachCount S ord M A x + if ∃ d ≤ M, S.WReach ord v x d then 1 else 0 := by
  classical
  unfold reachCount
  have hA : (A.insert v).toFinset = insert v A.toFinset := by
    ext y
    rw [HSet.mem_toFinset, HSet.mem_insert, Finset.mem_insert, HSet.mem_toFinset]
  rw [hA, Finset.filter_insert]
  split
  · rw [Finset.card_insert_of_notMem (by rw [Finset.mem_filter, HSet.mem_toFinset]; exact fun h => hv h.1)]
  · rfl

theorem domPush_of_ok {cutoff : ℕ} {ρ : ℕ → Shuffle (ℕ × ℕ)} {st st' : LinGraph.DomState} {e : ℕ × ℕ}
    (h : LinGraph.domPush cutoff ws ρ st e = .ok st') :
    ∃ c, st.counter.get? e.1 = some c ∧ st'.counter = st.counter.insert e.1 (c + 1) ∧ st'.scattered = st.scattered ∧
      ∀ x, x ∈ st'.domset ↔ x ∈ st.domset ∨ (x = e.1 ∧ cutoff < c + 1) := by
  unfold LinGraph.domPush at h
  cases hc : st.counter.get? e.1 with
  | none => rw [hc] at h; cases h
  | some c =>
    rw [hc, unwrap_some, bind_ok] at h
    unfold add32 at h
    split at h
    · rw [bind_ok] at h
      cases hr : LinGraph.domRelax st.dist e with
      | error => rw [hr] at h; cases h
      | ok dist =>
        rw [hr, bind_ok] at h
        refine ⟨c, rfl, ?_⟩
        split at h
        · next hcond =>
          rw [Bool.and_eq_true, decide_eq_true_eq] at hcond
          cases hw : ws.get? e.1 with
          | none => rw [hw] at h; cases h
          | some W =>
            rw [hw, unwrap_some, bind_ok] at h
            cases hf : ((ρ e.1).run W.entries).foldlM LinGraph.domRelax (dist.insert e.1 0) with
            | error => rw [hf] at h; cases h
            | ok dist' =>
              rw [hf] at h
              cases h
              refine ⟨rfl, rfl, fun x => ?_⟩
              rw [HSet.mem_insert]
              have := hcond.1
              tauto
        · next hcond =>
          cases h
          refine ⟨rfl, rfl, fun x => ⟨Or.inl, ?_⟩⟩
          rintro (h | ⟨rfl, h⟩)
          · exact h
          · by_contra hx
            apply hcond
            rw [Bool.and_eq_true, decide_eq_true_eq, Bool.not_eq_true', ← Bool.not_eq_true, HSet.contains_iff]
            exact ⟨h, hx⟩
    · cases h

theorem CntInv.pushes {cutoff : ℕ} {ρ : ℕ → Shuffle (ℕ × ℕ)} {pre : List ℕ} {st st' : LinGraph.DomState} {v : ℕ}
    {dist : HMap ℕ ℕ} (h : CntInv S ord M cutoff pre st) (hv : v ∉ pre) {es : List (ℕ × ℕ)}
    (hnd : (es.map Prod.fst).Nodup) (hes : ∀ x, x ∈ es.map Prod.fst ↔ ∃ d ≤ M, S.WReach ord v x d)
    (hrun : es.foldlM (LinGraph.domPush cutoff ws ρ) ⟨st.domset.insert v, st.scattered.insert v, dist, st.counter⟩ = .ok st') :
    CntInv S ord M cutoff (pre ++ [v]) st' := by
  classical
  have hvs : v ∉ st.scattered := fun hc => hv (h.seen v hc)
  have hfin := foldlM_of_ok (f := LinGraph.domPush cutoff ws ρ) (l := es)
    (fun (p : List (ℕ × ℕ)) (t : LinGraph.DomState) => t.scattered = st.scattered.insert v ∧
      (∀ x ∈ S.V, x ∈ t.counter.keys) ∧
      (∀ x k, t.counter.get? x = some k → k = reachCount S ord M st.scattered x + if x ∈ p.map Prod.fst then 1 else 0) ∧
      ∀ x, x ∈ t.domset ↔ x ∈ t.scattered ∨ ∃ k, t.counter.get? x = some k ∧ cutoff < k) ?_ ?_ hrun
  · obtain ⟨h1, h2, h3, h4⟩ := hfin
    refine ⟨fun x hx => ?_, h2, fun x k hk => ?_, h4⟩
    · rw [h1, HSet.mem_insert] at hx
      rcases hx with rfl | hx
      · simp
      · exact List.mem_append_left _ (h.seen x hx)
    · rw [h3 x k hk, h1, reachCount_insert hvs]
      simp only [hes]
  · refine ⟨rfl, h.keys, fun x k hk => by rw [h.cnt x k hk]; simp, fun x => ?_⟩
    simp only
    rw [HSet.mem_insert, HSet.mem_insert, h.dset, or_assoc]
  · rintro p e post t t' hl ⟨h1, h2, h3, h4⟩ hstep
    obtain ⟨c, hc, e1, e2, e3⟩ := domPush_of_ok hstep
    have hnot : e.1 ∉ p.map Prod.fst := by
      rw [hl, List.map_append, List.map_cons] at hnd
      intro hc
      exact (List.nodup_append.1 hnd).2.2 e.1 hc e.1 (by simp) rfl
    refine ⟨e2.trans h1, fun x hx => ?_, fun x k hk => ?_, fun x => ?_⟩
    · rw [e1, HMap.mem_keys_insert]; exact Or.inr (h2 x hx)
    · rw [e1, HMap.get?_insert] at hk
      split at hk
      · next hx =>
        subst hx
        cases hk
        have := h3 _ _ hc
        rw [if_neg hnot] at this
        rw [if_pos (by simp)]
        omega
      · next hx =>
        rw [h3 x k hk]
        simp [hx]
    · rw [e3, e2, h4, e1]
      simp only [HMap.get?_insert]
      by_cases hx : x = e.1
      · subst hx
        rw [if_pos rfl, hc]
        constructor
        · rintro ((h | ⟨k, h, h'⟩) | ⟨-, h⟩)
          · exact Or.inl h
          · cases h; exact Or.inr ⟨_, rfl, by omega⟩
          · exact Or.inr ⟨_, rfl, h⟩
        · rintro (h | ⟨k, h, h'⟩)
          · exact Or.inl (Or.inl h)
          · cases h; exact Or.inr ⟨rfl, h'⟩
      · rw [if_neg hx]
        simp [hx]

theorem CntInv.round (O : S.Ordering ord) (Tb : LinGraph.LRep.WTab S ord ws M) {ρ : ℕ → Shuffle (ℕ × ℕ)} {cutoff r : ℕ}
    {pre : List ℕ} {v : ℕ} {target : HSet ℕ} {st st' : LinGraph.DomState} (h : CntInv S ord M cutoff pre st)
    (hv : v ∈ S.V) (hvp : v ∉ pre) (hrun : LinGraph.domRound target r cutoff ws ρ st v = .ok st') :
    CntInv S ord M cutoff (pre ++ [v]) st' := by
  obtain ⟨W, hW, hnd, hWm, -⟩ := wtab_entries O Tb (ρ v) hv
  unfold LinGraph.domRound at hrun
  rw [hW, unwrap_some, bind_ok] at hrun
  cases hp : ((ρ v).run W.entries).foldlM (LinGraph.domPull v) st.dist with
  | error => rw [hp] at hrun; cases hrun
  | ok dist =>
    rw [hp, bind_ok] at hrun
    cases hd : dist.get? v with
    | none => rw [hd] at hrun; cases hrun
    | some dv =>
      rw [hd, unwrap_some, bind_ok] at hrun
      split at hrun
      · cases hrun
        exact ⟨fun x hx => List.mem_append_left _ (h.seen x hx), h.keys, h.cnt, h.dset⟩
      · cases ht : target.contains v with
        | false => rw [ht] at hrun; cases hrun
        | true =>
          rw [ht] at hrun
          refine h.pushes hvp hnd (fun x => ?_) hrun
          rw [List.mem_map]
          constructor
          · rintro ⟨e, he, rfl⟩
            exact ⟨e.2, ((hWm e).1 he).2, ((hWm e).1 he).1⟩
          · rintro ⟨d, hd, hr⟩
            exact ⟨(x, d), (hWm _).2 ⟨hr, hd⟩, rfl⟩

theorem CntInv.init {cutoff r u : ℕ} {target : HSet ℕ} {order : List ℕ} (hord : ∀ x, x ∈ order ↔ x ∈ S.V) :
    CntInv S ord M cutoff [] (LinGraph.domInit target r u order) := by
  have hgetc := fun x => get?_foldl_insert (f := fun _ => 0) (l := order) x
  have h0 : (LinGraph.domInit target r u order).scattered = ∅ := rfl
  refine ⟨fun x hx => ?_, fun x hx => ?_, fun x k hk => ?_, fun x => ?_⟩
  · exact absurd hx HSet.not_mem_empty
  · rw [HMap.mem_keys_iff]
    exact ⟨0, by rw [show (LinGraph.domInit target r u order).counter.get? x = _ from hgetc x, if_pos ((hord x).2 hx)]⟩
  · rw [show (LinGraph.domInit target r u order).counter.get? x = _ from hgetc x] at hk
    split at hk
    · cases hk
      rw [h0]
      classical
      unfold reachCount
      symm
      rw [Finset.card_eq_zero, Finset.filter_eq_empty_iff]
      intro s hs
      exact absurd (HSet.mem_toFinset.1 hs) HSet.not_mem_empty
    · cases hk
  · constructor
    · intro h; exact absurd h HSet.not_mem_empty
    · rintro (h | ⟨k, h, h'⟩)
      · exact absurd h HSet.not_mem_empty
      · rw [show (LinGraph.domInit target r u order).counter.get? x = _ from hgetc x] at h
        split at h
        · cases h; omega
        · cases h

/-- The dominating set consists of the scattered vertices and those weakly reachable from more than `cutoff` of them. -/
theorem phase_exact (O : S.Ordering ord) (Tb : LinGraph.LRep.WTab S ord ws M) {ρ : ℕ → Shuffle (ℕ × ℕ)} {cutoff r u : ℕ}
    {target : HSet ℕ} {order : List ℕ} (hnd : order.Nodup) (hord : ∀ x, x ∈ order ↔ x ∈ S.V) {st : LinGraph.DomState}
    (hrun : LinGraph.domPhase target r u cutoff ws ρ order = .ok st) (x : ℕ) (hx : x ∈ S.V) :
    x ∈ st.domset ↔ x ∈ st.scattered ∨ cutoff < reachCount S ord M st.scattered x := by
  unfold LinGraph.domPhase at hrun
  have h := foldlM_of_ok (CntInv S ord M cutoff) ?_ ?_ hrun
  · obtain ⟨k, hk⟩ := HMap.mem_keys_iff.1 (h.keys x hx)
    rw [h.dset, ← h.cnt x k hk]
    constructor
    · rintro (h | ⟨k', h, h'⟩)
      · exact Or.inl h
      · rw [hk] at h; cases h; exact Or.inr h'
    · rintro (h | h')
      · exact Or.inl h
      · exact Or.inr ⟨k, hk, h'⟩
  · exact CntInv.init hord
  · intro pre v post b b' hl hi hstep
    refine hi.round O Tb ((hord v).1 (by rw [hl]; simp)) ?_ hstep
    rw [hl, List.nodup_append] at hnd
    exact fun hc => hnd.2.2 v hc v (by simp) rfl

theorem deg_lt {L : LinGraph} (H : L.LRep S ord) {u : ℕ} (huV : u ∈ S.V) : S.deg u < S.V.card := by
  have h1 : S.nbrs u ⊆ S.V.erase u := by
    intro x hx
    rw [mem_nbrs] at hx
    refine Finset.mem_erase.2 ⟨?_, hx.right⟩
    rintro rfl
    exact H.loopless _ hx
  have h2 := Finset.card_le_card h1
  rw [Finset.card_erase_of_mem huV] at h2
  rw [deg_eq, if_neg (H.loopless u), Nat.add_zero]
  have : 0 < S.V.card := Finset.card_pos.2 ⟨u, huV⟩
  omega

/-- The sorting key. -/
theorem domKey_ok {L : LinGraph} (H : L.LRep S ord) (hn : S.V.card ≤ 2 ^ 31) {u : ℕ} (hu : u ∈ L.vertices) :
    L.domKey u = .ok ((S.before ord u).card * S.V.card + S.deg u) := by
  have huV := (H.rep.vmem u).1 hu
  have hd := deg_lt H huV
  have hb : (S.before ord u).card ≤ S.deg u := by
    have := H.ordering.card_add H.loopless u
    omega
  have hmul : (S.before ord u).card * S.V.card ≤ 2 ^ 31 * 2 ^ 31 := Nat.mul_le_mul (by omega) hn
  unfold LinGraph.domKey
  rw [H.ldeg u huV, bind_ok, H.rep.degree u huV, bind_ok]
  have hnv : L.numVertices = S.V.card := H.rep.nv
  simp only [hnv]
  rw [if_pos (by omega)]
  rfl

/-- The processing order is a permutation of the vertices. -/
theorem order {L : LinGraph} (H : L.LRep S ord) (hn : S.V.card ≤ 2 ^ 31) :
    Ok L.domOrder (fun o => o.Nodup ∧ ∀ x, x ∈ o ↔ x ∈ S.V) := by
  have hkey : ∀ u ∈ L.vertices, L.domKey u = .ok ((S.before ord u).card * S.V.card + S.deg u) := fun u hu => domKey_ok H hn hu
  unfold LinGraph.domOrder
  rw [EditGraph.mapM_ok (h := fun u => ((S.before ord u).card * S.V.card + S.deg u, u)) (fun u hu => by
    show (L.domKey u >>= fun k => pure (k, u)) = _
    rw [hkey u hu]; rfl), bind_ok]
  refine Ok.pure ?_
  have hp := List.perm_insertionSort (fun a b : ℕ × ℕ => b.1 ≤ a.1)
    (L.vertices.map fun u => ((S.before ord u).card * S.V.card + S.deg u, u))
  have hp2 := hp.map Prod.snd
  rw [List.map_map] at hp2
  have hid : L.vertices.map (Prod.snd ∘ fun u => ((S.before ord u).card * S.V.card + S.deg u, u)) = L.vertices := by
    have : (Prod.snd ∘ fun u => ((S.before ord u).card * S.V.card + S.deg u, u)) = (id : ℕ → ℕ) := rfl
    rw [this, List.map_id]
  rw [hid] at hp2
  exact ⟨hp2.nodup_iff.2 H.rep.vnodup, fun x => hp2.mem_iff.trans (H.rep.vmem x)⟩

end Dom
end Verif
