import Verif.Props.LinearAlg2
import Verif.Props.DTFDomset
/-!
# C103, C104: the rule followed by the dominating set algorithms
-/
namespace Verif
open SGraph DTFGraph

theorem domset_rule {L : LinGraph} {S : SGraph} {ord : List ℕ} (H : L.LRep S ord) (ω : LinGraph.DomOrder) {r : ℕ}
    (hr : r < 2 ^ 15) (hn : S.V.card ≤ 2 ^ 31) {target : List ℕ} (hne : S.V.Nonempty) (ht : target ≠ []) {w : Bool}
    {D : HSet ℕ} {m : HMap ℕ ℕ} {c : Option (HMap ℕ ℕ)} (h : L.domsetWithTarget ω r w target = .ok (D, m, c)) :
    ∃ o J μ, S.ByLeftDegree ord o ∧
      DomRun S.V (fun v u d => S.WReach ord v u d ∧ d ≤ r) (· ∈ target) r ((2 * r) ^ 2) o.reverse J μ ∧
      (∀ x, x ∈ D ↔ Generated (fun v u d => S.WReach ord v u d ∧ d ≤ r) ((2 * r) ^ 2) J x) ∧
      ∀ x k, m.get? x = some k ↔ x ∈ S.V ∧ k = μ x := by
  have O := H.ordering
  have hc : ¬ (L.isEmpty || (HSet.ofList target).len == 0) = true := by
    rw [Bool.or_eq_true]
    rintro (h | h)
    · rw [lin_isEmpty H] at h
      exact hne.ne_empty h
    · have h1 := Scatter.toList_of_len (by simpa using h)
      obtain ⟨x, l, rfl⟩ := List.exists_cons_of_ne_nil ht
      have h2 : x ∈ HSet.ofList (x :: l) := HSet.mem_ofList.2 (by simp)
      rw [← HSet.mem_toList, h1] at h2
      simp at h2
  obtain ⟨o, ho, -, -⟩ := Dom.order H hn
  obtain ⟨hnd, hbl⟩ := Dom.order_rule H hn ho
  obtain ⟨ws, hws, Tb⟩ := H.wreachSets ω.bfs ω.layers (r := r) (by omega)
  obtain ⟨st, hst, h1, h2, h3, h4, h5, h6⟩ := Dom.phase (target := HSet.ofList target) O Tb ω.wreach
    (2 * r * (2 * r)) (r := r) (by omega) (by omega) hnd hbl.1
  have hcut : 2 * r * (2 * r) < 2 ^ 32 := by
    have : 2 * r * (2 * r) ≤ (2 ^ 16 - 1) * (2 ^ 16 - 1) := Nat.mul_le_mul (by omega) (by omega)
    omega
  have hDm : D = st.domset ∧ m = st.dist := by
    unfold LinGraph.domsetWithTarget at h
    simp only at h
    rw [if_neg hc, mul32_ok (by omega), bind_ok, mul32_ok hcut, bind_ok, ho, bind_ok, add32_ok (by omega), bind_ok,
      hws, bind_ok, hst, bind_ok] at h
    cases w with
    | false => cases h; exact ⟨rfl, rfl⟩
    | true =>
      simp only [Bool.not_true, Bool.false_eq_true, if_false] at h
      rw [bind_ok] at h
      obtain ⟨ws2, hws2, -⟩ := H.wreachSets ω.bfs ω.layers (r := 2 * r) (by omega)
      rw [hws2, bind_ok] at h
      cases ha : LinGraph.auxColouring true (2 * r) ω.witness ws2 ω.wreach2 st.scattered with
      | error => rw [ha] at h; cases h
      | ok col => rw [ha] at h; cases h; exact ⟨rfl, rfl⟩
  obtain ⟨rfl, rfl⟩ := hDm
  obtain ⟨J, μ, g1, -, g2, g3⟩ := Dom.phase_rule O Tb hnd hbl.1 hst
  rw [Nat.pow_two]
  refine ⟨o, J, μ, hbl, ?_, g2, fun x k => ⟨fun hk => ?_, ?_⟩⟩
  · have : (fun x => x ∈ HSet.ofList target) = (· ∈ target) := funext fun x => propext HSet.mem_ofList
    rw [this] at g1
    exact g1
  · have hx := (h4 x).1 (HMap.mem_keys_iff.2 ⟨k, hk⟩)
    rw [g3 x hx] at hk
    cases hk
    exact ⟨hx, rfl⟩
  · rintro ⟨hx, rfl⟩
    exact g3 x hx

/-- **C103.** Whenever `domset_with_target` returns on a non-empty graph with a non-empty target, the set and the distances
are those of the greedy rule `DomRun` with weak `r`-reachability and threshold `(2r)²`, applied to the vertices by decreasing
number of left neighbours, then decreasing degree, then position. -/
theorem C103_domset_with_target_rule {L : LinGraph} {S : SGraph} {ord : List ℕ} (H : L.LRep S ord) (ω : LinGraph.DomOrder)
    {r : ℕ} (hr : r < 2 ^ 15) (hn : S.V.card ≤ 2 ^ 31) {target : List ℕ} (hne : S.V.Nonempty) (ht : target ≠ []) {w : Bool}
    {D : HSet ℕ} {m : HMap ℕ ℕ} {c : Option (HMap ℕ ℕ)} (h : L.domsetWithTarget ω r w target = .ok (D, m, c)) {o : List ℕ}
    (ho : S.ByLeftDegree ord o) {J : Finset ℕ} {μ : ℕ → ℕ}
    (hrun : DomRun S.V (fun v u d => S.WReach ord v u d ∧ d ≤ r) (· ∈ target) r ((2 * r) ^ 2) o.reverse J μ) :
    (∀ x, x ∈ D ↔ Generated (fun v u d => S.WReach ord v u d ∧ d ≤ r) ((2 * r) ^ 2) J x) ∧
      ∀ x k, m.get? x = some k ↔ x ∈ S.V ∧ k = μ x := by
  obtain ⟨o', J', μ', h1, h2, h3, h4⟩ := domset_rule H ω hr hn hne ht h
  obtain rfl := Dom.byLeftDegree_unique ho h1
  obtain ⟨rfl, hμ⟩ := DomRun.unique (fun v u d h => (Dom.wr_props H.ordering v u d h).1)
    (fun v hv => (ho.1 v).1 (List.mem_reverse.1 hv)) hrun h2
  refine ⟨h3, fun x k => (h4 x k).trans (and_congr_right fun hx => ?_)⟩
  rw [hμ x hx]

/-- **C103.** Such an order and such a run of the rule exist. -/
theorem C103_rule_applies {L : LinGraph} {S : SGraph} {ord : List ℕ} (H : L.LRep S ord) (ω : LinGraph.DomOrder)
    (hω : ∀ g, EditGraph.Relayout g (ω.witness.lay g)) {r : ℕ} (hr : r < 2 ^ 15) (hn : S.V.card ≤ 2 ^ 31) {target : List ℕ}
    (hne : S.V.Nonempty) (ht : target ≠ []) : ∃ o J μ, S.ByLeftDegree ord o ∧
      DomRun S.V (fun v u d => S.WReach ord v u d ∧ d ≤ r) (· ∈ target) r ((2 * r) ^ 2) o.reverse J μ := by
  obtain ⟨D, m, h, -⟩ := C56_domset_with_target H ω hω hr hn target
  obtain ⟨o, J, μ, h1, h2, -⟩ := domset_rule H ω hr hn hne ht h
  exact ⟨o, J, μ, h1, h2⟩

/-- `C103_rule_applies` for a triangle with a pendant vertex. -/
example := C103_rule_applies pan_lin.choose_spec.2 idDom relayout_refl (r := 2) (by decide) (by decide) (target := [0, 2])
  (by decide) (by decide)

/-- **C103.** The set and the distances returned depend only on the graph, the ordering, the radius and the elements of the
target: not on the way the tables were filled, on their iteration order, on duplicates in the target or on the witness flag. -/
theorem C103_domset_determined {L L' : LinGraph} {S : SGraph} {ord : List ℕ} (H : L.LRep S ord) (H' : L'.LRep S ord)
    (ω ω' : LinGraph.DomOrder) {r : ℕ} (hr : r < 2 ^ 15) (hn : S.V.card ≤ 2 ^ 31) {target target' : List ℕ}
    (ht : ∀ x, x ∈ target ↔ x ∈ target') {w w' : Bool} {D D' : HSet ℕ} {m m' : HMap ℕ ℕ} {c c' : Option (HMap ℕ ℕ)}
    (h : L.domsetWithTarget ω r w target = .ok (D, m, c)) (h' : L'.domsetWithTarget ω' r w' target' = .ok (D', m', c')) :
    (∀ x, x ∈ D ↔ x ∈ D') ∧ ∀ x, m.get? x = m'.get? x := by
  by_cases h0 : S.V = ∅ ∨ target = []
  · have key : ∀ {L : LinGraph} {ω : LinGraph.DomOrder} {target : List ℕ} {w : Bool} {D : HSet ℕ} {m : HMap ℕ ℕ}
        {c : Option (HMap ℕ ℕ)}, L.LRep S ord → S.V = ∅ ∨ target = [] → L.domsetWithTarget ω r w target = .ok (D, m, c) →
        D = ∅ ∧ m = ∅ := by
      intro L ω target w D m c H h0 h
      have hc : (L.isEmpty || (HSet.ofList target).len == 0) = true := by
        rcases h0 with h0 | rfl
        · rw [(lin_isEmpty H).2 h0]; rfl
        · rw [Bool.or_eq_true]; exact Or.inr rfl
      unfold LinGraph.domsetWithTarget at h
      simp only at h
      rw [if_pos hc] at h
      cases h
      exact ⟨rfl, rfl⟩
    have h0' : S.V = ∅ ∨ target' = [] := by
      refine h0.imp id ?_
      rintro rfl
      exact List.eq_nil_iff_forall_not_mem.2 fun x hx => by simpa using (ht x).2 hx
    obtain ⟨rfl, rfl⟩ := key H h0 h
    obtain ⟨rfl, rfl⟩ := key H' h0' h'
    exact ⟨fun _ => Iff.rfl, fun _ => rfl⟩
  · push Not at h0
    have hT : (· ∈ target) = (· ∈ target') := funext fun x => propext (ht x)
    have ht' : target' ≠ [] := by
      rintro rfl
      exact h0.2 (List.eq_nil_iff_forall_not_mem.2 fun x hx => by simpa using (ht x).1 hx)
    obtain ⟨o, J, μ, h1, h2, h3, h4⟩ := domset_rule H ω hr hn h0.1 h0.2 h
    rw [hT] at h2
    obtain ⟨h5, h6⟩ := C103_domset_with_target_rule H' ω' hr hn h0.1 ht' h' h1 h2
    refine ⟨fun x => (h3 x).trans (h5 x).symm, fun x => ?_⟩
    refine Option.ext fun k => ?_
    rw [h4, h6]

/-- **C103.** With radius 0 the set returned consists of the targets that are vertices of the graph. -/
theorem C103_radius_zero {L : LinGraph} {S : SGraph} {ord : List ℕ} (H : L.LRep S ord) (ω : LinGraph.DomOrder)
    (hω : ∀ g, EditGraph.Relayout g (ω.witness.lay g)) (hn : S.V.card ≤ 2 ^ 31) (target : List ℕ) :
    ∃ D m, L.domsetWithTarget ω 0 false target = .ok (D, m, none) ∧ ∀ x, x ∈ D ↔ x ∈ target ∧ x ∈ S.V := by
  obtain ⟨D, m, A, T, o, h1, -, h2, h3, -, -, -, hT, -, -, -, h4, -⟩ := domset_core H ω hω (r := 0) (by omega) hn target
  refine ⟨D, m, h1, fun x => ⟨fun hx => ⟨?_, h2 x hx⟩, ?_⟩⟩
  · rcases (h4 x (h2 x hx)).1 hx with h | ⟨B, hB, hB'⟩
    · exact hT x h
    · obtain ⟨s, hs⟩ := Finset.card_pos.1 (lt_of_le_of_lt (Nat.zero_le _) hB')
      obtain ⟨-, d, hd, hw⟩ := (hB s).1 hs
      have := hw.pos H.ordering
      omega
  · rintro ⟨hx, hV⟩
    obtain ⟨d, hd, n, hn', hw⟩ := h3 x hx hV
    obtain rfl := Nat.le_zero.1 hn'
    cases hw
    exact hd

/-- Hypotheses of the C103 theorems are met: the path 2-0-1 ordered 2, 0, 1, with radius 1 and target 0, is processed in the
order 0, 1, 2; vertex 0 joins, and 2 gets distance 1. -/
example : ∃ (L : LinGraph) (S : SGraph) (D : HSet ℕ) (m : HMap ℕ ℕ), L.LRep S [2, 0, 1] ∧ S.V.card ≤ 2 ^ 31 ∧ S.V.Nonempty ∧
    L.domsetWithTarget idDom 1 false [0] = .ok (D, m, none) ∧ S.ByLeftDegree [2, 0, 1] [0, 1, 2] ∧ 0 ∈ D ∧ m.get? 2 = some 1 := by
  obtain ⟨o, ho, H⟩ := builtOrd_lin [(2, 0), (0, 1)] [2, 0, 1] (by decide) (by decide) (by decide)
  have h1 : ((builtOrd [(2, 0), (0, 1)] [2, 0, 1]).bind fun o => (o.lin.domsetWithTarget idDom 1 false [0]).map fun r =>
      (r.1.contains 0, r.2.1.get? 2)) = .ok (true, some 1) := by decide
  rw [ho] at h1
  obtain ⟨D, m, h2, -⟩ := C56_domset_with_target H idDom relayout_refl (r := 1) (by omega) (by decide) [0]
  simp only [Except.bind, h2, Except.map, Except.ok.injEq, Prod.mk.injEq] at h1
  have hV : (SGraph.empty.addEdges [(2, 0), (0, 1)]).V = {0, 1, 2} := by decide
  exact ⟨_, _, D, m, H, by decide, ⟨0, by decide⟩, h2, ⟨fun x => by rw [hV]; simp, by decide⟩, HSet.contains_iff.1 h1.1, h1.2⟩

/-- `o` lists the vertices by decreasing in-degree, then decreasing degree, then position in `vertices()`. -/
def DTFGraph.ByInDegree (g : DTFGraph) (V : Finset ℕ) (o : List ℕ) : Prop :=
  (∀ x, x ∈ o ↔ x ∈ V) ∧ o.Pairwise fun a b => ∃ i j d e, g.inDegree a = .ok i ∧ g.inDegree b = .ok j ∧ g.degree a = .ok d ∧
    g.degree b = .ok e ∧ (j < i ∨ j = i ∧ (e < d ∨ e = d ∧ g.vertices.idxOf a < g.vertices.idxOf b))

/-- `u` has an arc of weight `w ≤ r` to `v`. -/
def DTFGraph.InArc (g : DTFGraph) (r v u w : ℕ) : Prop := 1 ≤ w ∧ w ≤ r ∧ g.Arc w u v

/-- **C104.** The set returned by `DTFGraph::domset(r)` is generated by the vertices that join in the greedy rule `DomRun`
applied to the augmentation after the call, with in-neighbours of weight at most `r`, threshold `(2r)²`, all vertices as
targets, and the vertices sorted by decreasing in-degree, then decreasing degree, then position in `vertices()`. -/
theorem C104_domset_rule {S : SGraph} {g : DTFGraph} (hl : S.Loopless) (hg : Of S g) {ω : ℕ → RoundOrder DeepOrder}
    (hω : ∀ i, (ω i).Good DeepOrder.Good) {lay : DTFGraph → DTFGraph} (hlay : ∀ g, DTFGraph.Relayout g (lay g))
    (hn : S.V.card ≤ 2 ^ 31) {r : ℕ} (hr : r < 2 ^ 15) :
    Ok (g.domset ω lay r) (fun p => ∃ o T μ, p.1.ByInDegree S.V o ∧
      DomRun S.V (p.1.InArc r) (fun _ => True) r ((2 * r) ^ 2) o.reverse T μ ∧
      ∀ x, x ∈ p.2 ↔ Generated (p.1.InArc r) ((2 * r) ^ 2) T x) := by
  obtain ⟨A, ha, hs, hb⟩ := hg.abs hl
  obtain ⟨p, hp, -⟩ := domset_ok ha hs hω hlay hn hr
  refine ⟨p, hp, ?_⟩
  obtain ⟨A', T, H, hs', hd, -, hT, -, -, -, -, -, -, o, μ, h1, h2, h3, h4⟩ := domset_struct ha hs hω hlay hn hr hp
  have hR : p.1.InArc r = Ar A' r := by
    funext v u w
    refine propext ⟨fun h => ⟨h.2.1, (H.arc_iff h.1 _ _).1 h.2.2⟩, fun h => ?_⟩
    have hw := (H.wf _ h.2).2.2
    exact ⟨hw, h.1, (H.arc_iff hw _ _).2 h.2⟩
  rw [hR, Nat.pow_two]
  refine ⟨o, T, μ, ⟨h1, h2.imp_of_mem fun {a b} ha hb hab => ?_⟩, h3, h4⟩
  have haV := (h1 a).1 ha
  have hbV := (h1 b).1 hb
  refine ⟨_, _, _, _, H.inDegree haV, H.inDegree hbV, H.degree haV, H.degree hbV, ?_⟩
  rcases hab with hab | ⟨hab, hi⟩
  · rcases arcKey_le H hs' hab.le with h | ⟨h, h'⟩
    · exact Or.inl h
    · refine Or.inr ⟨h, Or.inl ?_⟩
      unfold arcKey at hab
      rw [h] at hab
      omega
  · rcases arcKey_le H hs' hab.le with h | ⟨h, h'⟩
    · exfalso
      rcases arcKey_le H hs' hab.ge with h' | ⟨h', -⟩ <;> omega
    · refine Or.inr ⟨h, Or.inr ⟨?_, hi⟩⟩
      unfold arcKey at hab
      rw [h] at hab
      omega

/-- `C104_domset_rule` for the five-cycle after `augment(2, 1)`. -/
example := C104_domset_rule c5_loopless c5_case.choose_spec.2.1 (ω := fun _ => idRound (deepWith Shuffle.rev)) (fun _ => idRound_good (deepWith_good _))
  (lay := id) (fun g => g.relayout_refl) (by decide) (r := 3) (by decide)

theorem DTFGraph.byInDegree_unique {g : DTFGraph} {V : Finset ℕ} {o o' : List ℕ} (h : g.ByInDegree V o)
    (h' : g.ByInDegree V o') : o = o' := by
  have hanti : ∀ a b, (∃ i j d e, g.inDegree a = .ok i ∧ g.inDegree b = .ok j ∧ g.degree a = .ok d ∧
    g.degree b = .ok e ∧ (j < i ∨ j = i ∧ (e < d ∨ e = d ∧ g.vertices.idxOf a < g.vertices.idxOf b))) →
    (∃ i j d e, g.inDegree b = .ok i ∧ g.inDegree a = .ok j ∧ g.degree b = .ok d ∧
    g.degree a = .ok e ∧ (j < i ∨ j = i ∧ (e < d ∨ e = d ∧ g.vertices.idxOf b < g.vertices.idxOf a))) → False := by
    rintro a b ⟨i, j, d, e, h1, h2, h3, h4, h5⟩ ⟨i', j', d', e', k1, k2, k3, k4, k5⟩
    rw [h1] at k2
    rw [h2] at k1
    rw [h3] at k4
    rw [h4] at k3
    cases k1; cases k2; cases k3; cases k4
    omega
  have hnd : ∀ {o : List ℕ}, g.ByInDegree V o → o.Nodup := by
    intro o h
    exact h.2.imp fun {a b} hab he => by subst he; exact hanti a a hab hab
  have hp : o.Perm o' := (List.perm_ext_iff_of_nodup (hnd h) (hnd h')).2 fun x => (h.1 x).trans (h'.1 x).symm
  refine List.Perm.eq_of_pairwise ?_ h.2 h'.2 hp
  intro a b _ _ h1 h2
  exact (hanti a b h1 h2).elim

/-- **C104.** The set returned is a function of the augmentation after the call: two calls that end with the same augmentation
of a graph return sets with the same elements. -/
theorem C104_domset_determined {S : SGraph} {g g' : DTFGraph} (hl : S.Loopless) (hg : Of S g) (hg' : Of S g')
    {ω ω' : ℕ → RoundOrder DeepOrder} (hω : ∀ i, (ω i).Good DeepOrder.Good) (hω' : ∀ i, (ω' i).Good DeepOrder.Good)
    {lay lay' : DTFGraph → DTFGraph} (hlay : ∀ g, DTFGraph.Relayout g (lay g)) (hlay' : ∀ g, DTFGraph.Relayout g (lay' g))
    (hn : S.V.card ≤ 2 ^ 31) {r : ℕ} (hr : r < 2 ^ 15) {p p' : DTFGraph × HSet ℕ} (h : g.domset ω lay r = .ok p)
    (h' : g'.domset ω' lay' r = .ok p') (hpp : p.1 = p'.1) : ∀ x, x ∈ p.2 ↔ x ∈ p'.2 := by
  obtain ⟨q, hq, o, T, μ, h1, h2, h3⟩ := C104_domset_rule hl hg hω hlay hn hr
  rw [h] at hq
  cases hq
  obtain ⟨q, hq, o', T', μ', k1, k2, k3⟩ := C104_domset_rule hl hg' hω' hlay' hn hr
  rw [h'] at hq
  cases hq
  rw [← hpp] at k1 k2 k3
  obtain rfl := DTFGraph.byInDegree_unique h1 k1
  obtain ⟨A, ha, hs, hb⟩ := hg.abs hl
  obtain ⟨A', -, H, -⟩ := domset_struct ha hs hω hlay hn hr h
  obtain ⟨rfl, -⟩ := DomRun.unique (fun v u d hd => (H.wf _ ((H.arc_iff hd.1 _ _).1 hd.2.2)).1)
    (fun v hv => (h1.1 v).1 (List.mem_reverse.1 hv)) h2 k2
  intro x
  rw [h3, k3]

/-- **C104.** A second call of `domset(r)` changes nothing and returns the same set, whatever the iteration orders during
the (empty) augmentation. -/
theorem C104_domset_repeat {S : SGraph} {g : DTFGraph} (hl : S.Loopless) (hg : Of S g) {ω ω' : ℕ → RoundOrder DeepOrder}
    (hω : ∀ i, (ω i).Good DeepOrder.Good) {lay : DTFGraph → DTFGraph} (hlay : ∀ g, DTFGraph.Relayout g (lay g))
    (hn : S.V.card ≤ 2 ^ 31) {r : ℕ} (hr : r < 2 ^ 15) {p : DTFGraph × HSet ℕ} (h : g.domset ω lay r = .ok p) :
    p.1.domset ω' id r = .ok p := by
  obtain ⟨A, ha, hs, hb⟩ := hg.abs hl
  obtain ⟨q, hq, ⟨A', -, hd, -⟩, -⟩ := domset_ok ha hs hω hlay hn hr
  rw [h] at hq
  cases hq
  have haug : p.1.augment ω' r 2 = .ok p.1 := by
    have h3 : r - p.1.depth = 0 := by omega
    unfold augment augmentBy
    rw [h3]
    unfold augmentLoop
    rw [if_neg (by omega)]
  obtain ⟨g1, hg1, -⟩ := augment_ok ha hs hω r 2
  have hlg : p.1 = lay g1 := by
    have h0 := h
    unfold domset at h0
    rw [hg1, bind_ok] at h0
    have hsq : (2 * r) * (2 * r) < 2 ^ 32 :=
      lt_of_le_of_lt (Nat.mul_le_mul (show 2 * r ≤ 2 ^ 16 - 1 by omega) (show 2 * r ≤ 2 ^ 16 - 1 by omega)) (by decide)
    simp only at h0
    rw [mul32_ok (by omega), bind_ok, mul32_ok hsq, bind_ok] at h0
    cases ho : (lay g1).domOrder with
    | error => rw [ho] at h0; cases h0
    | ok o =>
      rw [ho, bind_ok, add32_ok (by omega), bind_ok] at h0
      cases hf : o.foldlM ((lay g1).domRound r (2 * r * (2 * r))) ⟨∅, o.foldl (fun (m : HMap ℕ ℕ) v => m.insert v (r + 1)) ∅,
        o.foldl (fun (m : HMap ℕ ℕ) v => m.insert v 0) ∅⟩ with
      | error => rw [hf] at h0; cases h0
      | ok st => rw [hf] at h0; cases h0; rfl
  unfold domset
  unfold domset at h
  rw [haug, bind_ok]
  rw [hg1, bind_ok, ← hlg] at h
  exact h

/-- Hypotheses of the C104 theorems are met: on the path 0-1-2-3-4 after `augment(3, 1)`, which has arcs of weight 3,
`domset(3)` returns, with two iteration orders of the augmentation. -/
example : ∃ (g : DTFGraph) (p p' : DTFGraph × HSet ℕ), Of p5G g ∧ p5G.Loopless ∧ g.depth = 3 ∧ p5G.V.card ≤ 2 ^ 31 ∧
    p5G.V.Nonempty ∧ (∀ _ : ℕ, (idRound (deepWith Shuffle.id)).Good DeepOrder.Good) ∧
    (∀ _ : ℕ, (idRound (deepWith Shuffle.rev)).Good DeepOrder.Good) ∧ (∀ g, DTFGraph.Relayout g (id g)) ∧
    g.domset (fun _ => idRound (deepWith Shuffle.id)) id 3 = .ok p ∧
    g.domset (fun _ => idRound (deepWith Shuffle.rev)) id 3 = .ok p' ∧ p.1 = p'.1 := by
  obtain ⟨g, hg, ha, hd, -⟩ := p5_closed
  have key : ∀ σ : Shuffle ℕ, ∃ p, g.domset (fun _ => idRound (deepWith σ)) id 3 = .ok p ∧ p.1 = g := by
    intro σ
    obtain ⟨p, hp, -⟩ := C68_domset p5_loopless ha.of (ω := fun _ => idRound (deepWith σ))
      (fun _ => idRound_good (deepWith_good _)) (lay := id) (fun g => g.relayout_refl) (by decide) (r := 3) (by omega)
    refine ⟨p, hp, ?_⟩
    obtain ⟨g', h1, h2⟩ := augment_of_domset hp
    have h3 : g.augment (fun _ => idRound (deepWith σ)) 3 2 = .ok g := by
      unfold DTFGraph.augment augmentBy
      rw [hd]
      show augmentLoop _ _ 3 0 g = _
      unfold augmentLoop
      rw [if_neg (by omega)]
    rw [h3] at h1
    cases h1
    exact h2
  obtain ⟨p, hp, h1⟩ := key Shuffle.id
  obtain ⟨p', hp', h2⟩ := key Shuffle.rev
  exact ⟨g, p, p', ha.of, p5_loopless, hd, by decide, by decide, fun _ => idRound_good (deepWith_good _),
    fun _ => idRound_good (deepWith_good _), fun g => g.relayout_refl, hp, hp', h1.trans h2.symm⟩

end Verif
