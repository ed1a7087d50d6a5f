import Verif.Lemmas.StableSort
import Verif.Lemmas.DTFDeep
/-!
# Lemmas: `DTFGraph::domset`
-/
namespace Verif.DTFGraph
open Dom
variable {g : DTFGraph} {A : Arcs} {S : SGraph}

theorem weighted_sound (H : Abs g S.V A) (hs : Sound S A) {u k : ℕ} (hu : u ∈ S.V) (hk : k ≤ g.depth) :
    Ok (g.weighted u k) (fun l => (l.map Prod.fst).Nodup ∧ ∀ e ∈ l, e.1 ∈ S.V ∧ Walk S.Adj e.2 u e.1 ∧ 1 ≤ e.2 ∧ e.2 ≤ k) := by
  refine (H.weighted hu hk).mono ?_
  rintro l ⟨h1, h2⟩
  refine ⟨h2 fun x => hs.uniq x u, fun e he => ?_⟩
  obtain ⟨k1, k2, k3⟩ := (h1 e).1 he
  exact ⟨(H.wf _ k3).1, (hs.walk _ _ _ k3).symm fun _ _ => SGraph.Adj.symm, k1, k2⟩

/-- What the loop of `domset` has established after `m` rounds. -/
structure DInv (S : SGraph) (r m : ℕ) (Low : ℕ → Prop) (st : DState) : Prop where
  good : Good S (fun _ => True) r Low (· ∈ st.domset) st.dist
  ckeys : ∀ x, x ∈ st.counter.keys ↔ x ∈ S.V
  count : ∀ x k, st.counter.get? x = some k → k ≤ m
  dom : ∀ x ∈ st.domset, x ∈ S.V

variable {r m : ℕ} {Low : ℕ → Prop}

theorem DInv.pushes (H : Abs g S.V A) (hs : Sound S A) (hr : r ≤ g.depth) (cutoff : ℕ) {v : ℕ}
    (hm : m + 1 < 2 ^ 32) {st : DState} (h : DInv S r m Low st) (hvd : v ∈ st.domset) {es : List (ℕ × ℕ)}
    (hnd : (es.map Prod.fst).Nodup) (hes : ∀ e ∈ es, e.1 ∈ S.V ∧ Walk S.Adj e.2 v e.1) :
    Ok (es.foldlM (g.domPush r cutoff) st) (DInv S r (m + 1) Low) := by
  have hfin := Ok.foldlM (f := g.domPush r cutoff) (l := es) (b := st)
    (fun (pre : List (ℕ × ℕ)) (st' : DState) => DInv S r (m + 1) Low st' ∧ (∀ x ∈ st.domset, x ∈ st'.domset) ∧
      ∀ x, x ∉ pre.map Prod.fst → ∀ k, st'.counter.get? x = some k → k ≤ m)
    ⟨⟨h.good, h.ckeys, fun x k hk => (h.count x k hk).trans (Nat.le_succ _), h.dom⟩,
      fun _ h => h, fun x _ k hk => h.count x k hk⟩ ?_
  · exact hfin.mono fun st' ⟨h1, _, _⟩ => h1
  · rintro pre e post st' hl ⟨h1, h3, h4⟩
    obtain ⟨hx, hw⟩ := hes e (by rw [hl]; simp)
    have hnot : e.1 ∉ pre.map Prod.fst := by
      rw [hl, List.map_append, List.map_cons] at hnd
      intro hc
      exact (List.nodup_append.1 hnd).2.2 e.1 hc e.1 (by simp) rfl
    obtain ⟨c, hc⟩ := HMap.mem_keys_iff.1 ((h1.ckeys e.1).2 hx)
    have hcm := h4 e.1 hnot c hc
    unfold domPush
    rw [hc, unwrap_some, bind_ok, add32_ok (by omega), bind_ok]
    refine (h1.good.relax hx (h3 v hvd) hw).bind ?_
    intro dist hg
    have k1 : ∀ x, x ∈ (st'.counter.insert e.1 (c + 1)).keys ↔ x ∈ S.V := by
      intro x
      rw [HMap.mem_keys_insert, h1.ckeys]
      exact ⟨fun h => h.elim (fun h => h ▸ hx) id, Or.inr⟩
    have k2 : ∀ x k, (st'.counter.insert e.1 (c + 1)).get? x = some k → k ≤ m + 1 := by
      intro x k hk
      rw [HMap.get?_insert] at hk
      split at hk
      · cases hk; omega
      · exact h1.count x k hk
    have k3 : ∀ x, x ∉ (pre ++ [e]).map Prod.fst → ∀ k, (st'.counter.insert e.1 (c + 1)).get? x = some k → k ≤ m := by
      intro x hx k hk
      rw [List.map_append, List.mem_append, not_or] at hx
      rw [HMap.get?_insert, if_neg (by simpa using hx.2)] at hk
      exact h4 x hx.1 k hk
    split
    · obtain ⟨W, hW, -, hWe⟩ := weighted_sound H hs hx hr
      rw [hW, bind_ok]
      have hg' : Good S (fun _ => True) r Low (· ∈ st'.domset.insert e.1) (dist.insert e.1 0) :=
        (hg.mono fun x hx => HSet.mem_insert.2 (Or.inr hx)).insert_zero hx (HSet.mem_insert.2 (Or.inl rfl))
      refine (hg'.relaxAll (c := e.1) (HSet.mem_insert.2 (Or.inl rfl)) fun e' he' => ⟨(hWe e' he').1, (hWe e' he').2.1⟩).bind ?_
      intro dist' hg2
      refine Ok.pure ⟨⟨hg2, k1, k2, ?_⟩, ?_, k3⟩
      · intro x hxd
        rcases HSet.mem_insert.1 hxd with rfl | hxd
        · exact hx
        · exact h1.dom x hxd
      · intro x hxd
        exact HSet.mem_insert.2 (Or.inr (h3 x hxd))
    · exact Ok.pure ⟨⟨hg, k1, k2, h1.dom⟩, h3, k3⟩

theorem DInv.round (H : Abs g S.V A) (hs : Sound S A) (hr : r ≤ g.depth) (cutoff : ℕ) {v : ℕ}
    (hm : m + 1 < 2 ^ 32) (hM : r + (r + 1) < 2 ^ 32) {st : DState} (h : DInv S r m Low st) (hv : v ∈ S.V) :
    Ok (g.domRound r cutoff st v) (DInv S r (m + 1) (fun x => Low x ∨ x = v)) := by
  obtain ⟨W, hW, hnd, hWe⟩ := weighted_sound H hs hv hr
  unfold domRound
  rw [hW, bind_ok]
  have hpull : Ok (W.foldlM (LinGraph.domPull v) st.dist) (Good S (fun _ => True) r Low (· ∈ st.domset)) :=
    Ok.foldlM_inv _ h.good fun e he _ hd =>
      hd.pull hv (hWe e he).1 (hWe e he).2.1 (hWe e he).2.2.1 (hWe e he).2.2.2 hM
  refine hpull.bind ?_
  intro dist hg
  obtain ⟨k, hk⟩ := hg.get hv
  rw [hk, unwrap_some, bind_ok]
  have hupd : ∀ {D : ℕ → Prop} {dist : HMap ℕ ℕ}, Good S (fun _ => True) r Low D dist →
      (∀ k, dist.get? v = some k → k ≤ r) → Good S (fun _ => True) r (fun x => Low x ∨ x = v) D dist := by
    intro D dist hg hle
    refine ⟨hg.keys, hg.le, fun x k' hk' hx => ?_, hg.sound⟩
    rcases hx with hx | rfl
    · exact hg.low x k' hk' hx
    · exact hle k' hk'
  by_cases hkr : k ≤ r
  · rw [if_pos hkr]
    refine Ok.pure ⟨hupd hg fun k' hk' => ?_, h.ckeys, fun x k hk => (h.count x k hk).trans (Nat.le_succ _), h.dom⟩
    rw [hk] at hk'
    cases hk'
    exact hkr
  · rw [if_neg hkr]
    have hgz := (hg.mono (D' := (· ∈ st.domset.insert v)) fun x hx => HSet.mem_insert.2 (Or.inr hx)).insert_zero hv
      (HSet.mem_insert.2 (Or.inl rfl))
    have hgz' := hupd hgz (fun k hk => by rw [HMap.get?_insert, if_pos rfl] at hk; cases hk; omega)
    have hst : DInv S r m (fun x => Low x ∨ x = v) ⟨st.domset.insert v, dist.insert v 0, st.counter⟩ := by
      refine ⟨hgz', h.ckeys, h.count, ?_⟩
      intro x hxd
      rcases HSet.mem_insert.1 hxd with rfl | hxd
      · exact hv
      · exact h.dom x hxd
    exact hst.pushes H hs hr cutoff hm (v := v) (HSet.mem_insert.2 (Or.inl rfl)) hnd
      fun e he => ⟨(hWe e he).1, (hWe e he).2.1⟩

theorem card_in_le (H : Abs g S.V A) (hs : Sound S A) (u : ℕ) : (A.filter (fun e => e.2.1 = u)).card ≤ S.V.card := by
  refine Finset.card_le_card_of_injOn (fun e => e.1) ?_ ?_
  · intro e he
    exact (H.wf _ (Finset.mem_filter.1 he).1).1
  · rintro ⟨a, b, c⟩ he ⟨a', b', c'⟩ he' h
    simp only [Finset.coe_filter, Set.mem_setOf_eq] at he he'
    simp only at h
    obtain ⟨he, rfl⟩ := he
    obtain ⟨he', rfl⟩ := he'
    subst h
    rw [hs.uniq _ _ _ _ he he']

theorem card_out_le (H : Abs g S.V A) (hs : Sound S A) (u : ℕ) : (A.filter (fun e => e.1 = u)).card ≤ S.V.card := by
  refine Finset.card_le_card_of_injOn (fun e => e.2.1) ?_ ?_
  · intro e he
    exact (H.wf _ (Finset.mem_filter.1 he).1).2.1
  · rintro ⟨a, b, c⟩ he ⟨a', b', c'⟩ he' h
    simp only [Finset.coe_filter, Set.mem_setOf_eq] at he he'
    simp only at h
    obtain ⟨he, rfl⟩ := he
    obtain ⟨he', rfl⟩ := he'
    subst h
    rw [hs.uniq _ _ _ _ he he']

/-- The sorting key in terms of the arcs. -/
def arcKey (n : ℕ) (A : Arcs) (u : ℕ) : ℕ := (A.filter (fun e => e.2.1 = u)).card * n +
  ((A.filter (fun e => e.1 = u)).card + (A.filter (fun e => e.2.1 = u)).card)

theorem domOrder_ok (H : Abs g S.V A) (hs : Sound S A) (hn : S.V.card ≤ 2 ^ 31) :
    Ok g.domOrder (fun o => o.Nodup ∧ (∀ x, x ∈ o ↔ x ∈ S.V) ∧
      o.Pairwise (fun a b => arcKey S.V.card A b < arcKey S.V.card A a ∨
        (arcKey S.V.card A b = arcKey S.V.card A a ∧ g.vertices.idxOf a < g.vertices.idxOf b))) := by
  set key : ℕ → ℕ := arcKey S.V.card A with hkd
  have hkey : ∀ u ∈ g.vertices, g.domKey u = .ok (key u) := by
    intro u hu
    have huV := (H.vertices_mem u).1 hu
    unfold domKey
    rw [H.inDegree huV, bind_ok, H.degree huV, bind_ok, H.numVertices]
    have h1 := card_in_le H hs u
    have h2 := card_out_le H hs u
    have hmul : (A.filter (fun e => e.2.1 = u)).card * S.V.card ≤ 2 ^ 31 * 2 ^ 31 := Nat.mul_le_mul (by omega) hn
    rw [if_pos (by omega)]
    rfl
  unfold domOrder
  rw [EditGraph.mapM_ok (h := fun u => (key u, u)) (fun u hu => by
    show (g.domKey u >>= fun k => pure (k, u)) = _
    rw [hkey u hu]; rfl), bind_ok]
  refine Ok.pure ?_
  have hp := List.perm_insertionSort (fun a b : ℕ × ℕ => b.1 ≤ a.1) (g.vertices.map fun u => (key u, u))
  have hp2 := hp.map Prod.snd
  rw [List.map_map] at hp2
  have hid : g.vertices.map (Prod.snd ∘ fun u => (key u, u)) = g.vertices := by
    have : (Prod.snd ∘ fun u => (key u, u)) = (id : ℕ → ℕ) := rfl
    rw [this, List.map_id]
  rw [hid] at hp2
  refine ⟨hp2.nodup_iff.2 H.vertices_nodup, fun x => hp2.mem_iff.trans (H.vertices_mem x), stable_sort H.vertices_nodup key⟩

theorem domset_ok (H : Abs g S.V A) (hs : Sound S A) {ω : ℕ → RoundOrder DeepOrder}
    (hω : ∀ i, (ω i).Good DeepOrder.Good) {lay : DTFGraph → DTFGraph} (hlay : ∀ g, Relayout g (lay g))
    (hn : S.V.card ≤ 2 ^ 31) (hr : r < 2 ^ 15) :
    Ok (g.domset ω lay r) (fun p => (∃ A', Abs p.1 S.V A' ∧ p.1.depth = max r g.depth ∧ A ⊆ A' ∧ Sound S A') ∧
      (∀ x ∈ p.2, x ∈ S.V) ∧ ∀ x ∈ S.V, Near S (· ∈ p.2) r x) := by
  unfold domset
  obtain ⟨g1, hg1, A1, H1, hd1, hsub, -, hs1, -⟩ := augment_ok H hs hω r 2
  rw [hg1, bind_ok]
  have H2 := H1.relayout (hlay g1)
  have hd2 : (lay g1).depth = max r g.depth := by rw [(hlay g1).depth, hd1]
  generalize lay g1 = g2 at H2 hd2
  have hsq : (2 * r) * (2 * r) < 2 ^ 32 :=
    lt_of_le_of_lt (Nat.mul_le_mul (show 2 * r ≤ 2 ^ 16 - 1 by omega) (show 2 * r ≤ 2 ^ 16 - 1 by omega)) (by decide)
  rw [mul32_ok (by omega), bind_ok, mul32_ok hsq, bind_ok]
  obtain ⟨order, ho, hnd, hord, -⟩ := domOrder_ok H2 hs1 hn
  rw [ho, bind_ok, add32_ok (by omega), bind_ok]
  have hget := fun x => get?_foldl_insert (f := fun _ => r + 1) (l := order) x
  have hgetc := fun x => get?_foldl_insert (f := fun _ => 0) (l := order) x
  have hlen : order.length = S.V.card := by
    rw [← List.toFinset_card_of_nodup hnd]
    congr 1
    ext x
    rw [List.mem_toFinset, hord]
  refine Ok.bind (P := DInv S r order.length (fun x => x ∈ order)) ?_ ?_
  · refine Ok.foldlM (fun (pre : List ℕ) (st : DState) => DInv S r pre.length (fun x => x ∈ pre) st) ?_ ?_
    · refine ⟨⟨fun x => ?_, fun x k hk => ?_, fun x k hk hx => ?_, fun x k hk => ?_⟩, fun x => ?_, fun x k hk => ?_, ?_⟩
      · rw [HMap.mem_keys_iff, hget, ← hord]
        by_cases hx : x ∈ order <;> simp [hx]
      · rw [hget] at hk
        split at hk
        · cases hk; exact le_refl _
        · cases hk
      · simp at hx
      · rw [hget] at hk
        split at hk
        · cases hk; exact Or.inl rfl
        · cases hk
      · rw [HMap.mem_keys_iff, hgetc, ← hord]
        by_cases hx : x ∈ order <;> simp [hx]
      · rw [hgetc] at hk
        split at hk
        · cases hk; exact Nat.zero_le _
        · cases hk
      · intro x hx; exact absurd hx HSet.not_mem_empty
    · intro pre v post st hsp h
      have hv : v ∈ S.V := (hord v).1 (by rw [hsp]; simp)
      have hpl : pre.length + 1 < 2 ^ 32 := by
        have : order.length = pre.length + (post.length + 1) := by rw [hsp]; simp
        omega
      refine (h.round H2 hs1 (by omega) _ hpl (by omega) hv).mono fun st' h' => ?_
      rw [List.length_append, List.length_singleton]
      refine ⟨⟨h'.good.keys, h'.good.le, fun x k hk hx => h'.good.low x k hk ?_, h'.good.sound⟩, h'.ckeys, h'.count, h'.dom⟩
      rcases List.mem_append.1 hx with hx | hx
      · exact Or.inl hx
      · exact Or.inr (by simpa using hx)
  · intro st h
    refine Ok.pure ⟨⟨A1, H2, hd2, hsub, hs1⟩, h.dom, fun x hx => ?_⟩
    obtain ⟨k, hk⟩ := h.good.get hx
    have hle := h.good.low x k hk ((hord x).2 hx)
    rcases h.good.sound x k hk with h1 | ⟨h1, -⟩ | ⟨d, hd, n, hn', hw⟩
    · omega
    · exact absurd trivial h1
    · exact ⟨d, hd, n, by omega, hw⟩

end Verif.DTFGraph
