import Verif.Props.LinearAlg2
import Verif.Lemmas.LoopPeel
import Verif.Lemmas.LoopOrder
/-!
# Property C110: degeneracy of graphs with loops
-/
namespace Verif
open EditGraph

theorem SGraph.deg_le {S : SGraph} (u : ℕ) : S.deg u ≤ S.V.card + 1 := by
  rw [SGraph.deg_eq]
  have : (S.nbrs u).card ≤ S.V.card := Finset.card_le_card (Finset.filter_subset _ _)
  split <;> omega

theorem calcIndex_succ_ne {x : ℕ} (hx : x + 1 < 2 ^ 31) : calcIndex (x + 1) ≠ calcIndex x ↔ ¬ SameBucket (x + 1) x := by
  have h1 := calcIndex_le_calcIndex hx (show x < 2 ^ 31 by omega)
  have h2 := calcIndex_mono (show x ≤ x + 1 by omega)
  constructor
  · intro h hs
    exact h (le_antisymm (h1.2 (Or.inr hs)) h2)
  · intro h he
    rcases h1.1 he.le with h3 | h3
    · omega
    · exact h h3

theorem waitsAt_iff {S : SGraph} (hn : S.V.card + 1 < 2 ^ 31) {h : List ℕ} {u x : ℕ} :
    DegenState.WaitsAt S h u x ↔ S.Waits h u x := by
  unfold DegenState.WaitsAt SGraph.Waits
  have hd := S.deg_le u
  refine and_congr_right fun _ => or_congr Iff.rfl ?_
  refine exists_congr fun a => exists_congr fun b => ?_
  refine and_congr_right fun _ => and_congr_right fun _ => and_congr_right fun _ => and_congr_right fun _ => ?_
  exact and_congr_right fun h => calcIndex_succ_ne (by omega)

theorem SGraph.Waits.lt {S : SGraph} (hn : S.V.card + 1 < 2 ^ 31) {h : List ℕ} {u x : ℕ} (hw : S.Waits h u x) :
    x < 2 ^ 31 := by
  have hd := S.deg_le u
  obtain ⟨-, ⟨-, h1⟩ | ⟨a, b, -, -, -, -, h1, -⟩⟩ := hw <;> omega

theorem nextPick_iff {S : SGraph} (hn : S.V.card + 1 < 2 ^ 31) {h : List ℕ} {v : ℕ} :
    (∃ x, DegenState.WaitsAt S h v x ∧ ∀ w y, DegenState.WaitsAt S h w y → calcIndex x ≤ calcIndex y) ↔ S.NextPick h v := by
  simp only [waitsAt_iff hn]
  refine exists_congr fun x => and_congr_right fun hx => ?_
  refine forall_congr' fun w => forall_congr' fun y => forall_congr' fun hy => ?_
  exact calcIndex_le_calcIndex (hx.lt hn) (hy.lt hn)

/-- **C110, full statement.** On every graph, with loops or not, `degeneracy` returns an order of all vertices. -/
def C110_statement : Prop := ∀ (G : Graph) (S : SGraph) (σ : ℕ → Shuffle Vertex), G.Rep S → S.V.card + 1 < 2 ^ 31 →
  ∃ lo up ord core, G.degeneracy σ = .ok (lo, up, ord, core) ∧ ord.Nodup ∧ ∀ u, u ∈ ord ↔ u ∈ S.V

/-- **C110, all outcomes.** Over all hash orders, `degeneracy` returns exactly the reversed removal sequences of the length of
the vertex set in which always a vertex of least degree is taken; a vertex with a loop stays available after its first removal. -/
theorem C110_orders_partial {G : Graph} {S : SGraph} (hG : G.Rep S) (hn : S.V.card + 1 < 2 ^ 31) (ord : List ℕ) :
    (∃ σ lo up core, G.degeneracy σ = .ok (lo, up, ord, core)) ↔ ord.length = S.V.card ∧ S.LoopRun ord.reverse := by
  constructor
  · rintro ⟨σ, lo, up, core, h⟩
    rcases hG.degeneracy_loops σ with ⟨s, h1, I, h2, h3⟩ | ⟨h1, -⟩
    · rw [h] at h1
      simp only [Except.ok.injEq, Prod.mk.injEq] at h1
      obtain ⟨-, -, rfl, -⟩ := h1
      refine ⟨by rw [List.length_reverse, h2], ?_⟩
      rw [List.reverse_reverse]
      intro a v b hab
      obtain ⟨⟨x, h4, h5, -⟩, h6⟩ := h3 a v b hab
      exact ⟨(nextPick_iff hn).1 ⟨x, h4, h5⟩, h6⟩
    · rw [h] at h1; cases h1
  · rintro ⟨hlen, hrun⟩
    have hl : ∀ a v b, ord.reverse = a ++ v :: b → ∃ x, DegenState.WaitsAt S a v x ∧
        ∀ w y, DegenState.WaitsAt S a w y → calcIndex x ≤ calcIndex y :=
      fun a v b hab => (nextPick_iff hn).2 (hrun a v b hab).1
    refine ⟨fun i => Shuffle.front (ord.reverse.getD i 0), ?_⟩
    rcases hG.degeneracy_loops (fun i => Shuffle.front (ord.reverse.getD i 0)) with ⟨s, h1, I, h2, h3⟩ | ⟨h1, h, w, u, h2, h3, h4, h5⟩
    · have := DegenState.follows hl (fun a v b hab => (h3 a v b hab).1) s.order.length
        (by rw [List.length_reverse]; omega) le_rfl
      rw [List.take_length, List.take_of_length_le (by rw [List.length_reverse]; omega)] at this
      rw [h1, this, List.reverse_reverse]
      exact ⟨_, _, _, rfl⟩
    · exfalso
      have hsplit : ∀ a v b, h ++ [w] = a ++ v :: b → DegenState.LPick S (Shuffle.front (ord.reverse.getD a.length 0)) a v := by
        intro a v b hab
        rcases List.eq_nil_or_concat b with rfl | ⟨b', y, rfl⟩
        · obtain ⟨rfl, hw⟩ := List.append_inj' (show h ++ [w] = a ++ [v] from hab) rfl
          cases hw
          exact h4
        · have : h ++ [w] = (a ++ v :: b') ++ [y] := by rw [hab]; simp
          exact (h3 a v b' (List.append_inj' this rfl).1).1
      have := DegenState.follows hl hsplit (h ++ [w]).length (by rw [List.length_reverse, List.length_append]; simp; omega) le_rfl
      rw [List.take_length] at this
      have e : ord.reverse = h ++ w :: ord.reverse.drop (h ++ [w]).length := by
        conv_lhs => rw [← List.take_append_drop (h ++ [w]).length ord.reverse, ← this]
        simp
      exact (hrun _ _ _ e).2 u h5

/-- `C110_orders_partial` for a path with a loop and an isolated vertex. -/
example := C110_orders_partial loopG_rep (by decide) [0, 1, 2, 5]

/-- **C110, failures.** Over all hash orders, `degeneracy` can fail exactly if some such sequence of removals takes a degree
below zero; it then fails with an arithmetic overflow, and never fails in another way. -/
theorem C110_overflow_partial {G : Graph} {S : SGraph} (hG : G.Rep S) (hn : S.V.card + 1 < 2 ^ 31) :
    ((∃ σ, G.degeneracy σ = .error .overflow) ↔
      ∃ h v u, h.length < S.V.card ∧ S.LoopRun h ∧ S.NextPick h v ∧ S.Exhausts h v u) ∧
    ∀ σ f, G.degeneracy σ = .error f → f = .overflow := by
  refine ⟨⟨?_, ?_⟩, ?_⟩
  · rintro ⟨σ, h⟩
    rcases hG.degeneracy_loops σ with ⟨s, h1, -⟩ | ⟨-, h, w, u, h2, h3, ⟨x, h4, h5, -⟩, h6⟩
    · rw [h] at h1; cases h1
    · refine ⟨h, w, u, h2, fun a v b hab => ?_, (nextPick_iff hn).1 ⟨x, h4, h5⟩, h6⟩
      obtain ⟨⟨x, h4, h5, -⟩, h6⟩ := h3 a v b hab
      exact ⟨(nextPick_iff hn).1 ⟨x, h4, h5⟩, h6⟩
  · rintro ⟨h, v, u, hlt, hrun, hnext, hex⟩
    have hl : ∀ a w b, h ++ [v] = a ++ w :: b → ∃ x, DegenState.WaitsAt S a w x ∧
        ∀ w y, DegenState.WaitsAt S a w y → calcIndex x ≤ calcIndex y := by
      intro a w b hab
      rcases List.eq_nil_or_concat b with rfl | ⟨b', y, rfl⟩
      · obtain ⟨rfl, hw⟩ := List.append_inj' (show h ++ [v] = a ++ [w] from hab) rfl
        cases hw
        exact (nextPick_iff hn).2 hnext
      · have : h ++ [v] = (a ++ w :: b') ++ [y] := by rw [hab]; simp
        exact (nextPick_iff hn).2 (hrun a w b' (List.append_inj' this rfl).1).1
    refine ⟨fun i => Shuffle.front ((h ++ [v]).getD i 0), ?_⟩
    rcases hG.degeneracy_loops (fun i => Shuffle.front ((h ++ [v]).getD i 0)) with ⟨s, h1, I, h2, h3⟩ | ⟨h1, -⟩
    · exfalso
      have := DegenState.follows hl (fun a v b hab => (h3 a v b hab).1) (h ++ [v]).length le_rfl
        (by rw [List.length_append]; simp; omega)
      rw [List.take_length] at this
      have e : s.order = h ++ v :: s.order.drop (h ++ [v]).length := by
        conv_lhs => rw [← List.take_append_drop (h ++ [v]).length s.order, this]
        simp
      exact (h3 _ _ _ e).2 u hex
    · exact h1
  · intro σ f h
    rcases hG.degeneracy_loops σ with ⟨s, h1, -⟩ | ⟨h1, -⟩
    · rw [h] at h1; cases h1
    · rw [h] at h1; cases h1; rfl

/-- `C110_overflow_partial` for a path with a loop and an isolated vertex. -/
example := C110_overflow_partial loopG_rep (by decide)

/-- In a possible sequence of removals only vertices with a loop occur more than once, and at most twice. -/
theorem SGraph.LoopRun.count {S : SGraph} {h : List ℕ} (H : S.LoopRun h) (v : ℕ) :
    h.count v ≤ 2 ∧ (h.count v = 2 → S.Adj v v) ∧ (v ∈ h → v ∈ S.V) := by
  have key : ∀ n ≤ h.length, (h.take n).count v ≤ 2 ∧ ((h.take n).count v = 2 → S.Adj v v) ∧ (v ∈ h.take n → v ∈ S.V) := by
    intro n
    induction n with
    | zero => intro; simp
    | succ n ih =>
      intro hn
      obtain ⟨h1, h2, h3⟩ := ih (by omega)
      have e : h = h.take n ++ h[n] :: h.drop (n + 1) := by
        rw [← List.drop_eq_getElem_cons (by omega), List.take_append_drop]
      obtain ⟨⟨x, ⟨hV, hw⟩, -⟩, -⟩ := H _ _ _ e
      rw [List.take_succ_eq_append_getElem (by omega), List.count_append, List.count_singleton]
      by_cases hv : h[n] = v
      · rw [hv] at hw hV ⊢
        rcases hw with ⟨h4, -⟩ | ⟨a, b, h4, h5, h6, h7, -⟩
        · have : (h.take n).count v = 0 := List.count_eq_zero.2 h4
          simp only [this, beq_self_eq_true, if_true]
          exact ⟨by omega, fun h => by omega, fun _ => hV⟩
        · have : (h.take n).count v = 1 := by
            rw [h4, List.count_append, List.count_cons_self, List.count_eq_zero.2 h5, List.count_eq_zero.2 h6]
          simp only [this, beq_self_eq_true, if_true]
          exact ⟨by omega, fun _ => h7, fun _ => hV⟩
      · have : (h[n] == v) = false := by simpa using hv
        rw [this]
        simp only [Bool.false_eq_true, if_false, Nat.add_zero]
        refine ⟨h1, h2, fun hm => ?_⟩
        rw [List.mem_append, List.mem_singleton] at hm
        exact hm.elim h3 fun h => absurd h.symm hv
  have := key h.length le_rfl
  rwa [List.take_length] at this

/-- **C110, partial.** For every hash order `degeneracy` either overflows or returns a list of as many entries as there are
vertices; its entries are vertices, only vertices with a loop are repeated, no vertex occurs more than twice, and core
numbers are given exactly to the vertices listed. -/
theorem C110_degeneracy_partial {G : Graph} {S : SGraph} (hG : G.Rep S) (hn : S.V.card + 1 < 2 ^ 31) (σ : ℕ → Shuffle Vertex) :
    G.degeneracy σ = .error .overflow ∨ ∃ lo up ord core, G.degeneracy σ = .ok (lo, up, ord, core) ∧
      ord.length = S.V.card ∧ (∀ u ∈ ord, u ∈ S.V) ∧ (∀ u, u ∈ core.keys ↔ u ∈ ord) ∧
      ∀ u, ord.count u ≤ 2 ∧ (ord.count u = 2 → S.Adj u u) := by
  rcases hG.degeneracy_loops σ with ⟨s, h1, I, h2, h3⟩ | ⟨h1, -⟩
  · obtain ⟨h4, h5⟩ := (C110_orders_partial hG hn s.order.reverse).1 ⟨σ, _, _, _, h1⟩
    rw [List.reverse_reverse] at h5
    refine Or.inr ⟨_, _, _, _, h1, h4, fun u hu => I.sub u (List.mem_reverse.1 hu), fun u => ?_, fun u => ?_⟩
    · rw [I.keys, List.mem_reverse]
    · rw [List.count_reverse]
      exact ⟨(h5.count u).1, (h5.count u).2.1⟩
  · exact Or.inl h1

/-- `C110_degeneracy_partial` for a path with a loop and an isolated vertex. -/
example := fun σ => C110_degeneracy_partial loopG_rep (by decide) σ

/-- Degree of `u` inside `W`, a loop counted twice. -/
def SGraph.loopDegIn (S : SGraph) (W : Finset ℕ) (u : ℕ) : ℕ := S.degIn W u + if S.Adj u u then 1 else 0

theorem SGraph.taken_nodup {S : SGraph} {a : List ℕ} (ha : a.Nodup) (u : ℕ) :
    S.degIn (S.V \ a.toFinset) u + S.taken a u = (S.nbrs u).card := by
  have h1 : S.taken a u = ((S.nbrs u).filter (fun x => x ∈ a.toFinset)).card := by
    unfold SGraph.taken
    rw [← List.toFinset_card_of_nodup (ha.filter _)]
    congr 1
    ext x
    rw [List.mem_toFinset, List.mem_filter, Finset.mem_filter, SGraph.mem_nbrs, List.mem_toFinset, decide_eq_true_eq]
    exact and_comm
  have h2 : S.degIn (S.V \ a.toFinset) u = ((S.nbrs u).filter (fun x => ¬ x ∈ a.toFinset)).card := by
    unfold SGraph.degIn
    congr 1
    ext x
    rw [Finset.mem_filter, Finset.mem_filter, SGraph.mem_nbrs, Finset.mem_sdiff]
    constructor
    · rintro ⟨⟨_, h1⟩, h2⟩; exact ⟨h2, h1⟩
    · rintro ⟨h1, h2⟩; exact ⟨⟨h1.right, h2⟩, h1⟩
  rw [h1, h2, Nat.add_comm, Finset.card_filter_add_card_filter_not]

/-- **C110, partial.** If no vertex is repeated, the order lists all vertices, and every vertex has least degree, loops counted
twice and up to degrees in the same bucket, among itself and the vertices before it. -/
theorem C110_no_repeat_partial {G : Graph} {S : SGraph} (hG : G.Rep S) (hn : S.V.card + 1 < 2 ^ 31) {σ : ℕ → Shuffle Vertex}
    {lo up : ℕ} {ord : List ℕ} {core : HMap ℕ ℕ} (h : G.degeneracy σ = .ok (lo, up, ord, core)) (hnd : ord.Nodup) :
    (∀ u, u ∈ ord ↔ u ∈ S.V) ∧ ∀ pre v post, ord = pre ++ v :: post → ∀ w ∈ pre,
      S.loopDegIn (insert v pre.toFinset) v ≤ S.loopDegIn (insert v pre.toFinset) w ∨
      SameBucket (S.loopDegIn (insert v pre.toFinset) v) (S.loopDegIn (insert v pre.toFinset) w) := by
  obtain ⟨hlen, hrun⟩ := (C110_orders_partial hG hn ord).1 ⟨σ, _, _, _, h⟩
  have hsub : ord.toFinset ⊆ S.V := fun x hx => (hrun.count x).2.2 (List.mem_reverse.2 (List.mem_toFinset.1 hx))
  have hV : ∀ u, u ∈ ord ↔ u ∈ S.V := by
    have := Finset.eq_of_subset_of_card_le hsub (by rw [List.toFinset_card_of_nodup hnd, hlen])
    intro u
    rw [← this, List.mem_toFinset]
  refine ⟨hV, fun pre v post he w hw => ?_⟩
  have he' : ord.reverse = post.reverse ++ v :: pre.reverse := by rw [he]; simp
  obtain ⟨⟨x, hx, hmin⟩, -⟩ := hrun _ _ _ he'
  have hnd' := hnd
  rw [he, List.nodup_append] at hnd'
  obtain ⟨n1, n2, n3⟩ := hnd'
  obtain ⟨n4, n5⟩ := List.nodup_cons.1 n2
  have hW : S.V \ post.reverse.toFinset = insert v pre.toFinset := by
    ext y
    rw [Finset.mem_sdiff, ← hV, he]
    simp only [List.mem_append, List.mem_cons, List.mem_toFinset, List.mem_reverse, Finset.mem_insert]
    constructor
    · rintro ⟨h1 | h1 | h1, h2⟩
      · exact Or.inr h1
      · exact Or.inl h1
      · exact absurd h1 h2
    · rintro (rfl | h1)
      · exact ⟨Or.inr (Or.inl rfl), n4⟩
      · exact ⟨Or.inl h1, fun h2 => n3 y h1 y (by simp [h2]) rfl⟩
  have hdeg : ∀ u, S.loopDegIn (insert v pre.toFinset) u + S.taken post.reverse u = S.deg u := by
    intro u
    have h1 := SGraph.taken_nodup (S := S) (List.nodup_reverse.2 n5) u
    rw [hW] at h1
    unfold SGraph.loopDegIn
    rw [SGraph.deg_eq]
    omega
  have hxv : x = S.loopDegIn (insert v pre.toFinset) v := by
    obtain ⟨-, ⟨-, h1⟩ | ⟨a, b, h1, -⟩⟩ := hx
    · have := hdeg v; omega
    · exact absurd (by rw [← List.mem_reverse, h1]; simp) n4
  have hww : S.Waits post.reverse w (S.loopDegIn (insert v pre.toFinset) w) := by
    refine ⟨(hV w).1 (by rw [he]; simp [hw]), Or.inl ⟨fun h => ?_, hdeg w⟩⟩
    exact n3 w hw w (by simp [List.mem_reverse.1 h]) rfl
  rw [← hxv]
  exact hmin _ _ hww

theorem missing_of_dup {S : SGraph} {ord : List ℕ} (hlen : ord.length = S.V.card)
    (hd : ¬ ord.Nodup) : ∃ w ∈ S.V, w ∉ ord := by
  by_contra hc
  push Not at hc
  apply hd
  rw [← List.dedup_eq_self]
  refine (List.dedup_sublist ord).eq_of_length_le ?_
  rw [← List.card_toFinset, hlen]
  exact Finset.card_le_card fun x hx => List.mem_toFinset.2 (hc x hx)

/-- **C110, the failure is systematic.** If a vertex with a loop has the smallest degree of all, at most 128, and there is another
vertex, then for every hash order `degeneracy` overflows or lists that vertex twice (and hence misses another one). -/
theorem C110_smallest_loop {G : Graph} {S : SGraph} (hG : G.Rep S) (hn : S.V.card + 1 < 2 ^ 31) {v : ℕ} (hv : S.Adj v v)
    (hmin : ∀ w ∈ S.V, w ≠ v → S.deg v < S.deg w) (hs : S.deg v ≤ 128) (h2 : 2 ≤ S.V.card) (σ : ℕ → Shuffle Vertex) :
    G.degeneracy σ = .error .overflow ∨ ∃ lo up ord core, G.degeneracy σ = .ok (lo, up, ord ++ [v, v], core) ∧
      ∃ w ∈ S.V, w ∉ ord ++ [v, v] := by
  rcases C110_degeneracy_partial hG hn σ with h | ⟨lo, up, ord, core, h, hlen, hsub, -, -⟩
  · exact Or.inl h
  right
  obtain ⟨-, hrun⟩ := (C110_orders_partial hG hn ord).1 ⟨σ, _, _, _, h⟩
  obtain ⟨a, b, l, hl⟩ : ∃ a b l, ord.reverse = a :: b :: l := by
    match hr : ord.reverse with
    | [] => have := congrArg List.length hr; rw [List.length_reverse, List.length_nil] at this; omega
    | [_] => have := congrArg List.length hr; simp at this; omega
    | a :: b :: l => exact ⟨a, b, l, rfl⟩
  have hdpos : 2 ≤ S.deg v := by
    rw [SGraph.deg_eq, if_pos hv]
    have := Finset.card_pos.2 ⟨v, SGraph.mem_nbrs.2 hv⟩
    omega
  have hsb : ∀ x y, y ≤ 128 → ¬ SameBucket x y := by
    rintro x y hy ⟨j, h1, -⟩
    have := Nat.one_le_two_pow (n := j)
    omega
  have ha : a = v := by
    obtain ⟨⟨x, hx, hm⟩, -⟩ := hrun [] a (b :: l) (by rw [hl]; rfl)
    have hw : S.Waits [] v (S.deg v) := ⟨hv.left, Or.inl ⟨by simp, by simp [SGraph.taken]⟩⟩
    obtain ⟨haV, ⟨-, hx⟩ | ⟨p, q, hpq, -⟩⟩ := hx
    · simp only [SGraph.taken, List.filter_nil, List.length_nil, Nat.add_zero] at hx
      by_contra hc
      have := hmin a haV hc
      rcases hm _ _ hw with h3 | h3
      · omega
      · exact hsb _ _ hs h3
    · simp at hpq
  subst ha
  have hb : b = a := by
    obtain ⟨⟨x, hx, hm⟩, -⟩ := hrun [a] b l (by rw [hl]; rfl)
    have hw : S.Waits [a] a (S.deg a - 1) :=
      ⟨hv.left, Or.inr ⟨[], [], rfl, by simp, by simp, hv, by simp [SGraph.taken]; omega, hsb _ _ (by omega)⟩⟩
    by_contra hc
    obtain ⟨hbV, ⟨-, hx⟩ | ⟨p, q, hpq, -⟩⟩ := hx
    · have h4 := hmin b hbV hc
      have : S.taken [a] b ≤ 1 := by
        unfold SGraph.taken
        exact (List.length_filter_le _ _).trans (by simp)
      rcases hm _ _ hw with h3 | h3
      · omega
      · exact hsb _ _ (by omega) h3
    · have : b ∈ [a] := by rw [hpq]; simp
      exact hc (by simpa using this)
  subst hb
  have he : ord = l.reverse ++ [b, b] := by
    have := congrArg List.reverse hl
    simpa using this
  refine ⟨lo, up, l.reverse, core, by rw [h, he], ?_⟩
  by_contra hc
  push Not at hc
  have h1 : S.V ⊆ (b :: l).toFinset := by
    intro x hx
    have := hc x hx
    simp only [List.mem_append, List.mem_reverse, List.mem_cons, List.not_mem_nil, or_false, or_self] at this
    rw [List.mem_toFinset, List.mem_cons]
    exact this.symm
  have h3 := (Finset.card_le_card h1).trans (List.toFinset_card_le _)
  rw [← hlen, he] at h3
  simp at h3

/-- **C110, orientations.** `orient` overflows if `degeneracy` does, panics if `degeneracy` repeats a vertex, and otherwise
directs every edge from the earlier to the later end and keeps the loops. -/
theorem C110_orient_partial {G : Graph} {S : SGraph} (hG : G.Rep S) (hn : S.V.card + 1 < 2 ^ 31) (σ : ℕ → Shuffle Vertex) :
    (G.degeneracy σ = .error .overflow ∧ DTFGraph.orient σ G = .error .overflow) ∨
    ∃ lo up ord core, G.degeneracy σ = .ok (lo, up, ord, core) ∧
      (¬ ord.Nodup → DTFGraph.orient σ G = .error .panic) ∧
      (ord.Nodup → Ok (DTFGraph.orient σ G) fun D => (∀ u, D.contains u = true ↔ u ∈ S.V) ∧ D.numVertices = S.V.card ∧ D.depth = 1 ∧
        ∀ u v, D.hasArc u v = true ↔ S.Adj u v ∧ ord.idxOf u ≤ ord.idxOf v) := by
  rcases C110_degeneracy_partial hG hn σ with h | ⟨lo, up, ord, core, h, hlen, -, -, -⟩
  · left
    refine ⟨h, ?_⟩
    unfold DTFGraph.orient
    rw [h]; rfl
  · refine .inr ⟨lo, up, ord, core, h, fun hd => ?_, fun hnd => ?_⟩
    · exact DTFGraph.orient_missing hG h (missing_of_dup hlen hd)
    · obtain ⟨D, A, h1, h2, h3, h4⟩ := DTFGraph.orient_loops hG h hnd (C110_no_repeat_partial hG hn h hnd).1
      refine ⟨D, h1, h2.contains_iff, h2.numVertices, h3, fun u v => ?_⟩
      rw [h2.hasArc_iff]
      constructor
      · rintro ⟨w, hw⟩; exact ((h4 u v w).1 hw).2
      · intro hw; exact ⟨1, (h4 u v 1).2 ⟨rfl, hw⟩⟩

/-- `C110_orient_partial` for a path with a loop and an isolated vertex. -/
example := fun σ => C110_orient_partial loopG_rep (by decide) σ

/-- **C110, `OrdGraph::by_degeneracy`.** It overflows if `degeneracy` does, panics if `degeneracy` repeats a vertex, and
otherwise returns the graph with that ordering of all vertices. -/
theorem C110_by_degeneracy_partial {G : Graph} {S : SGraph} (hG : G.Rep S) (hn : S.V.card + 1 < 2 ^ 31) (σ : ℕ → Shuffle Vertex) :
    (G.degeneracy σ = .error .overflow ∧ OrdGraph.byDegeneracy σ G = .error .overflow) ∨
    ∃ lo up ord core, G.degeneracy σ = .ok (lo, up, ord, core) ∧
      (¬ ord.Nodup → OrdGraph.byDegeneracy σ G = .error .panic) ∧
      (ord.Nodup → Ok (OrdGraph.byDegeneracy σ G) fun g => g.lin.vertices = ord ∧ ∀ u v, g.adjacent u v = .ok (decide (S.Adj u v))) := by
  rcases C110_degeneracy_partial hG hn σ with h | ⟨lo, up, ord, core, h, hlen, -, -, -⟩
  · left
    refine ⟨h, ?_⟩
    unfold OrdGraph.byDegeneracy
    rw [h]; rfl
  · have e : OrdGraph.byDegeneracy σ G = OrdGraph.withOrdering G ord := by
      unfold OrdGraph.byDegeneracy
      rw [h]; rfl
    refine .inr ⟨lo, up, ord, core, h, fun hd => ?_, fun hnd => ?_⟩
    · rw [e]
      exact (OrdGraph.withOrdering_all hG ord).1 (.inl hd)
    · rw [e]
      refine ((OrdGraph.withOrdering_all hG ord).2 hnd fun u v huv =>
        ((C110_no_repeat_partial hG hn h hnd).1 u).2 huv.left).mono fun g H => ⟨H.vertices, H.adjacent⟩

/-- `C110_by_degeneracy_partial` for a path with a loop and an isolated vertex. -/
example := fun σ => C110_by_degeneracy_partial loopG_rep (by decide) σ

/-- Two triangles, all six vertices with a loop. -/
def loopTriangles : List (ℕ × ℕ) := [(0, 0), (1, 1), (2, 2), (3, 3), (4, 4), (5, 5), (0, 3), (0, 5), (3, 5), (1, 2), (1, 4), (2, 4)]

/-- An isolated loop and a complete graph. -/
def loopK4 : List (ℕ × ℕ) := [(0, 0), (1, 2), (1, 3), (1, 4), (2, 3), (2, 4), (3, 4)]

/-- **C110, refuted.** -/
theorem C110_refuted : ¬ C110_statement := by
  intro h
  obtain ⟨⟨g, k⟩, hg, A, -⟩ := EditGraph.abs_new.addEdges [(0, 0), (1, 1)]
  have hV : (SGraph.empty.addEdges [(0, 0), (1, 1)]).V = {0, 1} := by decide
  obtain ⟨lo, up, ord, core, h1, h2, h3⟩ := h g.view _ (fun _ => Shuffle.id) A.rep (by rw [hV]; decide)
  have e : ((built [(0, 0), (1, 1)]).bind fun g => (g.view.degeneracy fun _ => Shuffle.id).map fun r => r.2.2.1) = .ok [0, 0] := by
    decide +kernel
  unfold built at e
  rw [hg] at e
  have e : (g.view.degeneracy fun _ => Shuffle.id).map (fun r => r.2.2.1) = .ok [0, 0] := e
  rw [h1] at e
  have e : ord = [0, 0] := Except.ok.inj e
  rw [e] at h2
  exact absurd h2 (by decide)

/-- **C110, refuted**, arithmetic: there is a hash order for which `degeneracy` overflows. -/
theorem C110_refuted_overflow : ((built loopTriangles).bind fun g => (g.view.degeneracy fun i =>
    Shuffle.front ([0, 0, 3, 3, 5].getD i 0)).map fun r => r.1) = .error .overflow := by decide +kernel

/-- **C110, refuted**, downstream: `DegenGraph::from_graph` of two isolated loops has only one vertex. -/
theorem C110_refuted_from_graph : ((built [(0, 0), (1, 1)]).bind fun g => (DegenGraph.fromGraph (fun _ => Shuffle.id) g.view).map
    fun D => (D.lin.numVertices, D.lin.contains 0, D.lin.contains 1, D.vertices)) = .ok (1, true, false, [0, 0]) := by decide +kernel

/-- `C110_smallest_loop` applies to an isolated loop beside a complete graph: every hash order repeats the looped vertex. -/
example (σ : ℕ → Shuffle Vertex) : ∃ g, built loopK4 = .ok g ∧ (g.view.degeneracy σ = .error .overflow ∨
    ∃ lo up ord core, g.view.degeneracy σ = .ok (lo, up, ord ++ [0, 0], core)) := by
  obtain ⟨⟨g, k⟩, hg, A, -⟩ := EditGraph.abs_new.addEdges loopK4
  have hV : (SGraph.empty.addEdges loopK4).V = {0, 1, 2, 3, 4} := by decide
  refine ⟨g, by unfold built; rw [hg]; rfl, ?_⟩
  rcases C110_smallest_loop A.rep (by rw [hV]; decide) (v := 0) (by decide) (by rw [hV]; decide) (by decide) (by rw [hV]; decide) σ with
    h | ⟨lo, up, ord, core, h, -⟩
  · exact .inl h
  · exact .inr ⟨lo, up, ord, core, h⟩

/-- The order `1, 0` of an edge with a loop at `0` is a possible outcome: no vertex is repeated. -/
example : ∃ g σ lo up core, built [(0, 0), (0, 1)] = .ok g ∧ g.view.degeneracy σ = .ok (lo, up, [0, 1], core) ∧ [0, 1].Nodup := by
  obtain ⟨⟨g, k⟩, hg, A, -⟩ := EditGraph.abs_new.addEdges [(0, 0), (0, 1)]
  have e : ((built [(0, 0), (0, 1)]).bind fun g => (g.view.degeneracy fun _ => Shuffle.id).map fun r => r.2.2.1) = .ok [0, 1] := by
    decide +kernel
  have hb : built [(0, 0), (0, 1)] = .ok g := by unfold built; rw [hg]; rfl
  rw [hb] at e
  have e : (g.view.degeneracy fun _ => Shuffle.id).map (fun r => r.2.2.1) = .ok [0, 1] := e
  cases h : g.view.degeneracy fun _ => Shuffle.id with
  | error f => rw [h] at e; cases e
  | ok r =>
    rw [h] at e
    obtain ⟨lo, up, ord, core⟩ := r
    have e : ord = [0, 1] := Except.ok.inj e
    subst e
    exact ⟨g, _, lo, up, core, hb, h, by decide⟩

end Verif
