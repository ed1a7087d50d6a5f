import Verif.Lemmas.Domset
import Verif.Lemmas.Operations
import Verif.Props.Linear
/-!
# The auxiliary graph on the scattered vertices
-/
namespace Verif
open SGraph

namespace Dom
variable {S : SGraph} {ord : List ℕ} {ws : HMap ℕ (HMap ℕ ℕ)} {M : ℕ}

/-- `out_neigbhours` is the transposed table. -/
theorem outNeighbours (O : S.Ordering ord) (Tb : LinGraph.LRep.WTab S ord ws M) (ρ : ℕ → Shuffle (ℕ × ℕ)) {xs : List ℕ}
    (hxs : ∀ x ∈ xs, x ∈ S.V) : Ok (LinGraph.outNeighbours ws ρ xs) (fun res =>
      ∀ w x d, (res.getD w ∅).get? x = some d ↔ x ∈ xs ∧ S.WReach ord x w d ∧ d ≤ M) := by
  unfold LinGraph.outNeighbours
  refine Ok.foldlM (fun (pre : List ℕ) (res : HMap ℕ (HMap ℕ ℕ)) =>
    ∀ w x d, (res.getD w ∅).get? x = some d ↔ x ∈ pre ∧ S.WReach ord x w d ∧ d ≤ M) ?_ ?_
  · intro w x d
    simp [HMap.getD]
  · intro pre x post res hs h
    obtain ⟨W, hW, hnd, hmem, -⟩ := wtab_entries O Tb (ρ x) (hxs x (by rw [hs]; simp))
    rw [hW, unwrap_some, bind_ok]
    refine Ok.pure ?_
    have huniq : ∀ w d d', S.WReach ord x w d → S.WReach ord x w d' → d = d' := fun w d d' h1 h2 => h1.2.unique h2.2
    generalize (ρ x).run W.entries = es at hnd hmem
    have key := foldl_inv (l := es) (b := res)
      (f := fun (res : HMap ℕ (HMap ℕ ℕ)) e => res.insert e.1 ((res.getD e.1 ∅).insert x e.2))
      (fun (done : List (ℕ × ℕ)) (res' : HMap ℕ (HMap ℕ ℕ)) => ∀ w y d, (res'.getD w ∅).get? y = some d ↔
        if y = x ∧ w ∈ done.map Prod.fst then (w, d) ∈ done else (res.getD w ∅).get? y = some d)
      (by simp) ?_
    · intro w y d
      rw [key w y d]
      by_cases hy : y = x
      · subst hy
        by_cases hw : w ∈ es.map Prod.fst
        · rw [if_pos ⟨rfl, hw⟩, hmem]
          simp
        · rw [if_neg (fun h => hw h.2), h]
          have : ¬ (S.WReach ord y w d ∧ d ≤ M) := fun h' => hw (List.mem_map.2 ⟨(w, d), (hmem _).2 h', rfl⟩)
          simp only [this, and_false]
      · rw [if_neg (fun h => hy h.1), h]
        simp [hy]
    · rintro done ⟨w0, d0⟩ post' res' hl hi w y d
      have hnot : w0 ∉ done.map Prod.fst := by
        rw [hl, List.map_append, List.map_cons] at hnd
        intro hc
        exact (List.nodup_append.1 hnd).2.2 w0 hc w0 (by simp) rfl
      have hget : (res'.insert w0 ((res'.getD w0 ∅).insert x d0)).getD w ∅ =
          if w = w0 then (res'.getD w0 ∅).insert x d0 else res'.getD w ∅ := by
        unfold HMap.getD
        rw [HMap.get?_insert]
        split <;> rfl
      simp only [hget]
      by_cases hw : w = w0
      · subst hw
        rw [if_pos rfl, HMap.get?_insert]
        by_cases hy : y = x
        · subst hy
          rw [if_pos rfl, if_pos ⟨rfl, by simp⟩]
          simp only [Option.some.injEq, List.mem_append, List.mem_singleton, Prod.mk.injEq, true_and]
          constructor
          · rintro rfl; exact Or.inr rfl
          · rintro (h1 | rfl)
            · exact absurd (List.mem_map.2 ⟨_, h1, rfl⟩) hnot
            · rfl
        · rw [if_neg hy, hi, if_neg (fun h => hy h.1), if_neg (fun h => hy h.1)]
      · rw [if_neg hw, hi]
        have : w ∈ (done ++ [(w0, d0)]).map Prod.fst ↔ w ∈ done.map Prod.fst := by simp [hw]
        have h2 : (w, d) ∈ done ++ [(w0, d0)] ↔ (w, d) ∈ done := by simp [hw]
        simp only [this, h2]

/-- The graph built so far has vertex set `V` and adjacency `R`. -/
def HIs (V : ℕ → Prop) (R : ℕ → ℕ → Prop) (H : EditGraph) : Prop :=
  ∃ T : SGraph, EditGraph.Abs H T ∧ (∀ x, x ∈ T.V ↔ V x) ∧ ∀ x y, T.Adj x y ↔ R x y

theorem HIs.congr {V : ℕ → Prop} {R R' : ℕ → ℕ → Prop} {H : EditGraph} (h : HIs V R H) (hr : ∀ x y, R x y ↔ R' x y) :
    HIs V R' H := by
  obtain ⟨T, h1, h2, h3⟩ := h
  exact ⟨T, h1, h2, fun x y => (h3 x y).trans (hr x y)⟩

theorem HIs.addEdge {V : ℕ → Prop} {R : ℕ → ℕ → Prop} {H : EditGraph} (h : HIs V R H) {a b : ℕ} (ha : V a) (hb : V b) :
    Ok (H.addEdge a b) (fun r => HIs V (fun x y => R x y ∨ (x = a ∧ y = b) ∨ (x = b ∧ y = a)) r.1) := by
  obtain ⟨T, h1, h2, h3⟩ := h
  refine (h1.addEdge a b).mono fun r hr => ⟨_, hr.1, fun x => ?_, fun x y => ?_⟩
  · show x ∈ insert a (insert b T.V) ↔ _
    rw [Finset.mem_insert, Finset.mem_insert, h2]
    constructor
    · rintro (rfl | rfl | h) <;> assumption
    · exact fun h => Or.inr (Or.inr h)
  · rw [SGraph.addEdge_adj, h3]
    tauto

theorem HIs.pairs {V : ℕ → Prop} {R : ℕ → ℕ → Prop} {H : EditGraph} (h : HIs V R H) {limit : ℕ}
    {ps : List ((ℕ × ℕ) × (ℕ × ℕ))} (hps : ∀ p ∈ ps, V p.1.1 ∧ V p.2.1 ∧ p.1.2 + p.2.2 < 2 ^ 32) :
    Ok (ps.foldlM (LinGraph.auxPair limit) H) (HIs V (fun x y => R x y ∨ ∃ p ∈ ps, p.1.2 + p.2.2 ≤ limit ∧
      ((x = p.1.1 ∧ y = p.2.1) ∨ (x = p.2.1 ∧ y = p.1.1)))) := by
  refine Ok.foldlM (fun (pre : List ((ℕ × ℕ) × (ℕ × ℕ))) (H : EditGraph) => HIs V (fun x y => R x y ∨ ∃ p ∈ pre,
    p.1.2 + p.2.2 ≤ limit ∧ ((x = p.1.1 ∧ y = p.2.1) ∨ (x = p.2.1 ∧ y = p.1.1))) H) (h.congr (by simp)) ?_
  intro pre p post H hs h
  obtain ⟨h1, h2, h3⟩ := hps p (by rw [hs]; simp)
  unfold LinGraph.auxPair
  rw [add32_ok h3, bind_ok]
  by_cases hc : p.1.2 + p.2.2 ≤ limit
  · rw [if_pos hc]
    refine (h.addEdge h1 h2).bind ?_
    intro r hr
    refine Ok.pure (hr.congr fun x y => ?_)
    constructor
    · rintro ((h | ⟨q, hq, h⟩) | h)
      · exact Or.inl h
      · exact Or.inr ⟨q, by simp [hq], h⟩
      · exact Or.inr ⟨p, by simp, hc, h⟩
    · rintro (h | ⟨q, hq, h4, h⟩)
      · exact Or.inl (Or.inl h)
      · rcases List.mem_append.1 hq with hq | hq
        · exact Or.inl (Or.inr ⟨q, hq, h4, h⟩)
        · simp only [List.mem_singleton] at hq
          subst hq
          exact Or.inr h
  · rw [if_neg hc]
    refine Ok.pure (h.congr fun x y => ?_)
    constructor
    · rintro (h | ⟨q, hq, h⟩)
      · exact Or.inl h
      · exact Or.inr ⟨q, by simp [hq], h⟩
    · rintro (h | ⟨q, hq, h4, h⟩)
      · exact Or.inl h
      · rcases List.mem_append.1 hq with hq | hq
        · exact Or.inr ⟨q, hq, h4, h⟩
        · simp only [List.mem_singleton] at hq
          subst hq
          exact absurd h4 hc

theorem HIs.edges {V : ℕ → Prop} {R : ℕ → ℕ → Prop} {H : EditGraph} (h : HIs V R H) {strict : Bool} {limit w : ℕ} (hw : V w)
    {es : List (ℕ × ℕ)} (hes : ∀ e ∈ es, V e.1 ∧ (strict = true → e.2 ≤ limit)) :
    Ok (es.foldlM (LinGraph.auxEdge strict limit w) H) (HIs V (fun x y => R x y ∨ ∃ e ∈ es, e.2 ≤ limit ∧
      ((x = w ∧ y = e.1) ∨ (x = e.1 ∧ y = w)))) := by
  refine Ok.foldlM (fun (pre : List (ℕ × ℕ)) (H : EditGraph) => HIs V (fun x y => R x y ∨ ∃ e ∈ pre,
    e.2 ≤ limit ∧ ((x = w ∧ y = e.1) ∨ (x = e.1 ∧ y = w))) H) (h.congr (by simp)) ?_
  intro pre e post H hs h
  obtain ⟨h1, h2⟩ := hes e (by rw [hs]; simp)
  unfold LinGraph.auxEdge
  have hass : (if strict = true then assertR (decide (e.2 ≤ limit)) else pure () : Res Unit) = .ok () := by
    split
    · rename_i hst
      rw [decide_eq_true (h2 hst)]; rfl
    · rfl
  have hgoal : Ok (if e.2 ≤ limit then (do return (← H.addEdge w e.1).1) else pure H : Res EditGraph)
      (HIs V (fun x y => R x y ∨ ∃ e' ∈ pre ++ [e], e'.2 ≤ limit ∧ ((x = w ∧ y = e'.1) ∨ (x = e'.1 ∧ y = w)))) := by
    by_cases hc : e.2 ≤ limit
    · rw [if_pos hc]
      refine (h.addEdge hw h1).bind ?_
      intro r hr
      refine Ok.pure (hr.congr fun x y => ?_)
      constructor
      · rintro ((h | ⟨q, hq, h⟩) | h)
        · exact Or.inl h
        · exact Or.inr ⟨q, by simp [hq], h⟩
        · exact Or.inr ⟨e, by simp, hc, h⟩
      · rintro (h | ⟨q, hq, h4, h⟩)
        · exact Or.inl (Or.inl h)
        · rcases List.mem_append.1 hq with hq | hq
          · exact Or.inl (Or.inr ⟨q, hq, h4, h⟩)
          · simp only [List.mem_singleton] at hq
            subst hq
            exact Or.inr h
    · rw [if_neg hc]
      refine Ok.pure (h.congr fun x y => ?_)
      constructor
      · rintro (h | ⟨q, hq, h⟩)
        · exact Or.inl h
        · exact Or.inr ⟨q, by simp [hq], h⟩
      · rintro (h | ⟨q, hq, h4, h⟩)
        · exact Or.inl h
        · rcases List.mem_append.1 hq with hq | hq
          · exact Or.inr ⟨q, hq, h4, h⟩
          · simp only [List.mem_singleton] at hq
            subst hq
            exact absurd h4 hc
  cases strict with
  | false => exact hgoal
  | true =>
    have : assertR (decide (e.2 ≤ limit)) = .ok () := hass
    simp only [if_true]
    rw [this]
    exact hgoal

/-- The edges contributed by one entry `(w, O)`. -/
def Contrib (V : ℕ → Prop) (limit : ℕ) (w : ℕ) (O : HMap ℕ ℕ) (x y : ℕ) : Prop :=
  (x ≠ y ∧ ∃ dx dy, O.get? x = some dx ∧ O.get? y = some dy ∧ dx + dy ≤ limit) ∨
  (V w ∧ ((x = w ∧ ∃ d ≤ limit, O.get? y = some d) ∨ (y = w ∧ ∃ d ≤ limit, O.get? x = some d)))

theorem HIs.vertex {scattered : HSet ℕ} {R : ℕ → ℕ → Prop} {H : EditGraph} (h : HIs (· ∈ scattered) R H) {strict : Bool}
    {limit : ℕ} (ω : LinGraph.WitnessOrder) {q : ℕ × HMap ℕ ℕ} (hM : 2 * M < 2 ^ 32)
    (hq : ∀ x d, q.2.get? x = some d → x ∈ scattered ∧ d ≤ M ∧ (strict = true → d ≤ limit)) :
    Ok (LinGraph.auxVertex strict limit ω scattered H q)
      (HIs (· ∈ scattered) (fun x y => R x y ∨ Contrib (· ∈ scattered) limit q.1 q.2 x y)) := by
  unfold LinGraph.auxVertex
  simp only
  have hmem : ∀ e, e ∈ (ω.inner q.1).run q.2.entries ↔ q.2.get? e.1 = some e.2 := fun e => by
    rw [(ω.inner q.1).mem]; exact HMap.get?_eq_some.symm
  have hnd : ((ω.inner q.1).run q.2.entries).Nodup :=
    ((ω.inner q.1).perm _).nodup_iff.2 (List.Nodup.of_map Prod.fst q.2.keys_nodup)
  generalize (ω.inner q.1).run q.2.entries = es at hmem hnd
  refine (h.pairs (limit := limit) (ps := Verif.pairs es) fun p hp => ?_).bind ?_
  · obtain ⟨h1, h2, -⟩ := mem_pairs hnd (a := p.1) (b := p.2) hp
    have a1 := hq _ _ ((hmem _).1 h1)
    have a2 := hq _ _ ((hmem _).1 h2)
    exact ⟨a1.1, a2.1, by have := a1.2.1; have := a2.2.1; omega⟩
  · intro H' hH'
    have hpair : ∀ x y, (∃ p ∈ Verif.pairs es, p.1.2 + p.2.2 ≤ limit ∧
        ((x = p.1.1 ∧ y = p.2.1) ∨ (x = p.2.1 ∧ y = p.1.1))) ↔
        (x ≠ y ∧ ∃ dx dy, q.2.get? x = some dx ∧ q.2.get? y = some dy ∧ dx + dy ≤ limit) := by
      intro x y
      constructor
      · rintro ⟨⟨⟨a, da⟩, ⟨b, db⟩⟩, hp, hle, h⟩
        obtain ⟨h1, h2, h3⟩ := mem_pairs hnd hp
        have g1 := (hmem _).1 h1
        have g2 := (hmem _).1 h2
        have hab : a ≠ b := by
          rintro rfl
          simp only at g1 g2
          rw [g1] at g2
          cases g2
          exact h3 rfl
        simp only at h hle g1 g2
        rcases h with ⟨rfl, rfl⟩ | ⟨rfl, rfl⟩
        · exact ⟨hab, da, db, g1, g2, hle⟩
        · exact ⟨hab.symm, db, da, g2, g1, by omega⟩
      · rintro ⟨hxy, dx, dy, g1, g2, hle⟩
        have m1 := (hmem (x, dx)).2 g1
        have m2 := (hmem (y, dy)).2 g2
        rcases exists_pairs m1 m2 (fun h => hxy (congrArg Prod.fst h)) with h | h
        · exact ⟨_, h, hle, Or.inl ⟨rfl, rfl⟩⟩
        · exact ⟨_, h, by simp only; omega, Or.inr ⟨rfl, rfl⟩⟩
    by_cases hc : q.1 ∈ scattered
    · rw [if_pos (HSet.contains_iff.2 hc)]
      refine (hH'.edges (strict := strict) (limit := limit) hc (es := es) fun e he => ?_).mono fun r hr => ?_
      · have := hq _ _ ((hmem e).1 he)
        exact ⟨this.1, this.2.2⟩
      · refine hr.congr fun x y => ?_
        rw [hpair]
        unfold Contrib
        rw [or_assoc]
        refine or_congr_right (or_congr_right ?_)
        simp only [hc, true_and]
        constructor
        · rintro ⟨e, he, hle, ⟨rfl, rfl⟩ | ⟨rfl, rfl⟩⟩
          · exact Or.inl ⟨rfl, _, hle, (hmem e).1 he⟩
          · exact Or.inr ⟨rfl, _, hle, (hmem e).1 he⟩
        · rintro (⟨rfl, d, hle, hd⟩ | ⟨rfl, d, hle, hd⟩)
          · exact ⟨(y, d), (hmem _).2 hd, hle, Or.inl ⟨rfl, rfl⟩⟩
          · exact ⟨(x, d), (hmem _).2 hd, hle, Or.inr ⟨rfl, rfl⟩⟩
    · rw [if_neg (by rw [HSet.contains_iff]; exact hc)]
      refine Ok.pure (hH'.congr fun x y => ?_)
      rw [hpair]
      unfold Contrib
      simp only [hc, false_and, or_false]

theorem _root_.Verif.SGraph.Crowd.card_lt {S : SGraph} {k m : ℕ} {W : Finset ℕ} (h : S.Crowd k m W) : m < W.card := by
  obtain ⟨⟨w, hw⟩, h⟩ := h
  obtain ⟨A, hA, h1, h2, -⟩ := h w hw
  rw [← h1]
  exact Finset.card_lt_card (Finset.ssubset_iff_of_subset hA |>.2 ⟨w, hw, h2⟩)

/-- If no part of the conflict graph is crowded, every part has a vertex of degree less than `m`. -/
theorem _root_.Verif.SGraph.IsConflict.sparse {k m : ℕ} {J : Finset ℕ} {T : SGraph} (h : S.IsConflict k J T)
    (hc : ∀ W ⊆ J, ¬ S.Crowd k (m + 1) W) : ∀ W, W ⊆ T.V → W.Nonempty → ∃ w ∈ W, T.degIn W w ≤ m := by
  intro W hW hne
  by_contra hno
  push Not at hno
  rw [h.1] at hW
  refine hc W hW ⟨hne, fun w hw => ?_⟩
  obtain ⟨A, hA, hA'⟩ := Finset.exists_subset_card_eq (show m + 1 ≤ (W.filter fun x => T.Adj w x).card from hno w hw)
  have hadj : ∀ x ∈ A, T.Adj w x := fun x hx => (Finset.mem_filter.1 (hA hx)).2
  refine ⟨A, hA.trans (Finset.filter_subset _ _), hA', fun hw' => ?_, fun x hx => ((h.2 w x).1 (hadj x hx)).2.2.2⟩
  exact ((h.2 w w).1 (hadj w hw')).2.2.1 rfl

/-- The graph on the scattered vertices joins those at distance at most `limit`. -/
theorem auxGraph (O : S.Ordering ord) (Tb : LinGraph.LRep.WTab S ord ws M) (ρ : ℕ → Shuffle (ℕ × ℕ))
    (ω : LinGraph.WitnessOrder) (hω : ∀ g, EditGraph.Relayout g (ω.lay g)) {strict : Bool} {limit : ℕ} (hlim : limit ≤ M)
    (hst : strict = true → M = limit) (hM : 2 * M < 2 ^ 32) {scattered : HSet ℕ} (hsc : ∀ x ∈ scattered, x ∈ S.V) :
    ∃ (G : Graph) (T : SGraph), G.Rep T ∧ T.Loopless ∧ S.IsConflict limit scattered.toFinset T ∧
      ∀ σ, LinGraph.auxColouring strict limit { ω with degen := σ } ws ρ scattered =
        OrdGraph.byDegeneracy σ G >>= fun OH => OH.lin.colourGreedy := by
  have hrun : ∀ x, x ∈ ω.scat.run scattered.toList ↔ x ∈ scattered := fun x => by
    rw [ω.scat.mem, HSet.mem_toList]
  obtain ⟨out, hout, hspec⟩ := outNeighbours O Tb ρ (xs := ω.scat.run scattered.toList)
    (fun x hx => hsc x ((hrun x).1 hx))
  have hspec' : ∀ w x d, (out.getD w ∅).get? x = some d ↔ x ∈ scattered ∧ S.WReach ord x w d ∧ d ≤ M :=
    fun w x d => by rw [hspec, hrun]
  have hent : ∀ q ∈ ω.outer.run out.entries, out.getD q.1 ∅ = q.2 := by
    intro q hq
    rw [ω.outer.mem] at hq
    unfold HMap.getD
    rw [HMap.get?_eq_some.2 (show (q.1, q.2) ∈ out.entries from hq)]
    rfl
  have h0 : HIs (· ∈ scattered) (fun _ _ => False)
      (EditGraph.new.addVertices (ω.scat.run scattered.toList)).1 := by
    refine ⟨_, (EditGraph.abs_new.addVertices (ω.scat.run scattered.toList)).1, fun x => ?_, fun x y => ?_⟩
    · show x ∈ (∅ : Finset ℕ) ∪ (ω.scat.run scattered.toList).toFinset ↔ _
      rw [Finset.mem_union, List.mem_toFinset, hrun]
      simp
    · rw [SGraph.addVertices_adj]
      exact ⟨fun h => absurd h (by simp [SGraph.Adj, SGraph.empty]), False.elim⟩
  have hloop := Ok.foldlM (f := LinGraph.auxVertex strict limit ω scattered) (l := ω.outer.run out.entries)
    (b := (EditGraph.new.addVertices (ω.scat.run scattered.toList)).1)
    (fun (pre : List (ℕ × HMap ℕ ℕ)) (H : EditGraph) =>
      HIs (· ∈ scattered) (fun x y => ∃ q ∈ pre, Contrib (· ∈ scattered) limit q.1 q.2 x y) H) (h0.congr (by simp)) ?_
  · obtain ⟨H, hH, T, hA, hV, hR⟩ := hloop
    have hadj : ∀ x y, T.Adj x y ↔ x ∈ scattered ∧ y ∈ scattered ∧ x ≠ y ∧ ∃ n ≤ limit, Walk S.Adj n x y := by
      intro x y
      rw [hR]
      constructor
      · rintro ⟨q, hq, hc⟩
        rw [← hent q hq] at hc
        rcases hc with ⟨hne, dx, dy, h1, h2, hle⟩ | ⟨hw, ⟨rfl, d, hle, h1⟩ | ⟨rfl, d, hle, h1⟩⟩
        · obtain ⟨s1, r1, -⟩ := (hspec' _ _ _).1 h1
          obtain ⟨s2, r2, -⟩ := (hspec' _ _ _).1 h2
          exact ⟨s1, s2, hne, dx + dy, hle, (r1.walk O).append ((r2.walk O).symm fun _ _ h => h.symm)⟩
        · obtain ⟨s1, r1, -⟩ := (hspec' _ _ _).1 h1
          refine ⟨hw, s1, ?_, d, hle, (r1.walk O).symm fun _ _ h => h.symm⟩
          rintro he
          have := r1.1
          rw [he] at this
          omega
        · obtain ⟨s1, r1, -⟩ := (hspec' _ _ _).1 h1
          refine ⟨s1, hw, ?_, d, hle, r1.walk O⟩
          rintro he
          have := r1.1
          rw [he] at this
          omega
      · rintro ⟨hx, hy, hne, n, hn, hwk⟩
        have hentry : ∀ w z d, (out.getD w ∅).get? z = some d → ∃ q ∈ ω.outer.run out.entries, q.1 = w ∧ q.2 = out.getD w ∅ := by
          intro w z d hd
          cases hg : out.get? w with
          | none =>
            unfold HMap.getD at hd
            rw [hg] at hd
            simp at hd
          | some m =>
            refine ⟨(w, m), ?_, rfl, ?_⟩
            · rw [ω.outer.mem]; exact HMap.get?_eq_some.1 hg
            · unfold HMap.getD; rw [hg]; rfl
        obtain ⟨w, n1, n2, hw, hs, -, h1, h2⟩ := walk_leftmost (ord := ord) hwk (hsc x hx)
        by_cases ex : x = w
        · subst ex
          obtain ⟨d, hd, hr⟩ := wreach_of_walk O hw h2 (Ne.symm hne)
          have hget := (hspec' x y d).2 ⟨hy, hr, by omega⟩
          obtain ⟨q, hq, e1, e2⟩ := hentry x y d hget
          refine ⟨q, hq, Or.inr ⟨by rw [e1]; exact hx, Or.inl ⟨e1.symm, d, by omega, by rw [e2]; exact hget⟩⟩⟩
        · by_cases ey : y = w
          · subst ey
            obtain ⟨d, hd, hr⟩ := wreach_of_walk O hw h1 ex
            have hget := (hspec' y x d).2 ⟨hx, hr, by omega⟩
            obtain ⟨q, hq, e1, e2⟩ := hentry y x d hget
            refine ⟨q, hq, Or.inr ⟨by rw [e1]; exact hy, Or.inr ⟨e1.symm, d, by omega, by rw [e2]; exact hget⟩⟩⟩
          · obtain ⟨d1, hd1, hr1⟩ := wreach_of_walk O hw h1 ex
            obtain ⟨d2, hd2, hr2⟩ := wreach_of_walk O hw h2 ey
            have g1 := (hspec' w x d1).2 ⟨hx, hr1, by omega⟩
            have g2 := (hspec' w y d2).2 ⟨hy, hr2, by omega⟩
            obtain ⟨q, hq, e1, e2⟩ := hentry w x d1 g1
            exact ⟨q, hq, Or.inl ⟨hne, d1, d2, by rw [e2]; exact g1, by rw [e2]; exact g2, by omega⟩⟩
    have hcard : T.V.card = scattered.len := by
      rw [HSet.len_eq_card]
      congr 1
      ext x
      rw [hV, HSet.mem_toFinset]
    have hTV : T.V ⊆ S.V := fun x hx => hsc x ((hV x).1 hx)
    have hll : T.Loopless := fun x h => ((hadj x x).1 h).2.2.1 rfl
    refine ⟨(ω.lay H).view, T, (hA.relayout (hω H)).rep, hll, ⟨?_, fun x y => ?_⟩, fun σ => ?_⟩
    · ext x
      rw [hV, HSet.mem_toFinset]
    · rw [hadj, HSet.mem_toFinset, HSet.mem_toFinset]
    unfold LinGraph.auxColouring
    rw [hout, bind_ok]
    simp only
    have hH' : (ω.outer.run out.entries).foldlM (LinGraph.auxVertex strict limit { ω with degen := σ } scattered)
        (EditGraph.new.addVertices (ω.scat.run scattered.toList)).1 = .ok H := hH
    rw [hH', bind_ok]
    have hass : (H.numVertices == scattered.len) = true := by
      rw [hA.numVertices, hcard]; simp
    rw [hass]
    rfl
  · intro pre q post H hs h
    have hq : q ∈ ω.outer.run out.entries := by rw [hs]; simp
    refine (h.vertex ω (M := M) hM (strict := strict) (limit := limit) (q := q) fun x d hd => ?_).mono fun r hr => ?_
    · rw [← hent q hq, hspec'] at hd
      refine ⟨hd.1, hd.2.2, fun hs => ?_⟩
      rw [← hst hs]; exact hd.2.2
    · refine hr.congr fun x y => ?_
      constructor
      · rintro (⟨q', h1, h2⟩ | h)
        · exact ⟨q', by simp [h1], h2⟩
        · exact ⟨q, by simp, h⟩
      · rintro ⟨q', h1, h2⟩
        rcases List.mem_append.1 h1 with h1 | h1
        · exact Or.inl ⟨q', h1, h2⟩
        · simp only [List.mem_singleton] at h1
          subst h1
          exact Or.inr h2

/-- The colouring of the scattered vertices is a greedy colouring of the graph joining those at distance at most
`limit`. -/
theorem auxColouring (O : S.Ordering ord) (Tb : LinGraph.LRep.WTab S ord ws M) (ρ : ℕ → Shuffle (ℕ × ℕ))
    (ω : LinGraph.WitnessOrder) (hω : ∀ g, EditGraph.Relayout g (ω.lay g)) {strict : Bool} {limit : ℕ} (hlim : limit ≤ M)
    (hst : strict = true → M = limit) (hM : 2 * M < 2 ^ 32) {scattered : HSet ℕ}
    (hsc : ∀ x ∈ scattered, x ∈ S.V) :
    ∃ (A : LinGraph) (T : SGraph) (o : List ℕ), A.LRep T o ∧ (∀ x, x ∈ T.V ↔ x ∈ scattered) ∧
      (∀ x y, T.Adj x y ↔ x ∈ scattered ∧ y ∈ scattered ∧ x ≠ y ∧ ∃ n ≤ limit, Walk S.Adj n x y) ∧
      ((∀ W ⊆ T.V, ¬ S.Crowd limit 130 W) → LinGraph.LRep.NoJump T o) ∧
      LinGraph.auxColouring strict limit ω ws ρ scattered = A.colourGreedy := by
  obtain ⟨G, T, hG, hll, hC, h⟩ := auxGraph O Tb ρ ω hω hlim hst hM hsc
  obtain ⟨g, o, hg, hrep, hjump⟩ := C43_by_degeneracy_no_jump hG hll ω.degen
  refine ⟨g.lin, T, o, hrep.lin, fun x => by rw [hC.1, HSet.mem_toFinset], fun x y => ?_, fun hc => ?_, ?_⟩
  · rw [hC.2, HSet.mem_toFinset, HSet.mem_toFinset]
  · exact hjump (hC.sparse (by rw [← hC.1]; exact hc))
  · have := h ω.degen
    rw [hg] at this
    exact this

end Dom
end Verif
