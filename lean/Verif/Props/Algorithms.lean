import Mathlib.Data.Finset.Max
import Verif.Lemmas.Components
import Verif.Lemmas.Degeneracy
import Verif.Lemmas.Bipartite
import Verif.Lemmas.BipartiteRun
import Verif.Lemmas.Generators
import Verif.Lemmas.Linear
import Verif.Props.Operations
import Verif.Spec.Witness
/-!
# Properties C37 – C42: components, degeneracy, bipartiteness

`G.Rep S`: the queries of the `Graph` implementation `G` answer as the abstract graph `S`.
-/
namespace Verif
open EditGraph

/-! ## C37 -/

/-- **C37.** `components` returns nonempty, pairwise disjoint sets covering exactly the vertices; the set of a
vertex consists of the vertices joined to it by a walk. -/
theorem C37_components {G : Graph} {S : SGraph} (hG : G.Rep S) (σ : Shuffle (List Vertex)) :
    ∃ cs, G.components σ = .ok cs ∧ (∀ c ∈ cs, ∃ u, u ∈ c) ∧ cs.Pairwise (fun c d => ∀ a, a ∈ c → ¬ a ∈ d) ∧
      (∀ v, v ∈ S.V ↔ ∃ c ∈ cs, v ∈ c) ∧
      (∀ c ∈ cs, ∀ u, u ∈ c → ∀ v, v ∈ c ↔ ∃ n, Walk S.Adj n u v) := by
  obtain ⟨cs, h, h1, h2, h3, h4⟩ := hG.components σ
  refine ⟨cs, h, fun c hc => ?_, h2, h3, h4⟩
  obtain ⟨a, l, hal⟩ := List.exists_cons_of_ne_nil (h1 c hc)
  exact ⟨a, by rw [← HSet.mem_toList, hal]; simp⟩

example : ∃ G : Graph, G.Rep exS ∧ exS.Adj 1 2 ∧ 7 ∈ exS.V := by
  obtain ⟨g, A⟩ := exAbs
  exact ⟨g.view, A.rep, by decide, by decide⟩

/-! ## C38 – C40 -/

attribute [local irreducible] calcIndex ceilLog2 degeneracyLower

/-- The largest degree that `degeneracy` files in bucket `i` (buckets are exact up to 128 and double
afterwards). -/
def bucketTop (i : ℕ) : ℕ := if i ≤ 128 then i else 127 + 2 ^ (i - 128)

theorem idxOf_lt_iff_of_split {x y : List ℕ} {v w : ℕ} (h : (x ++ v :: y).Nodup) :
    (x ++ v :: y).idxOf w < (x ++ v :: y).idxOf v ↔ w ∈ x := by
  have hv : v ∉ x := by
    intro hv
    rw [List.nodup_append] at h
    exact h.2.2 v hv v (by simp) rfl
  rw [List.idxOf_append_of_notMem hv, List.idxOf_cons_self, Nat.add_zero]
  by_cases hw : w ∈ x
  · rw [List.idxOf_append_of_mem hw]
    exact ⟨fun _ => hw, fun _ => List.idxOf_lt_length_of_mem hw⟩
  · rw [List.idxOf_append_of_notMem hw]
    exact ⟨fun h => absurd h (by omega), fun h => absurd h hw⟩

theorem SGraph.degIn_lt {S : SGraph} {W : Finset ℕ} {u : ℕ} (hl : S.Loopless) (hW : W ⊆ S.V) (hu : u ∈ W) :
    S.degIn W u < S.V.card := by
  refine lt_of_lt_of_le (Finset.card_lt_card (t := W) ?_) (Finset.card_le_card hW)
  rw [Finset.ssubset_iff_of_subset (Finset.filter_subset _ _)]
  exact ⟨u, hu, by simp [hl u]⟩

/-- **C38.** On a loopless graph `degeneracy` terminates without panic; the order lists every vertex exactly
once, the core numbers are defined exactly for the vertices, and every vertex has at most
`bucketTop upper` neighbours before it in the order. -/
theorem C38_degeneracy_order {G : Graph} {S : SGraph} (hG : G.Rep S) (hl : S.Loopless)
    (hn : S.V.card ≤ 2 ^ 31) (σ : ℕ → Shuffle Vertex) :
    ∃ lo up ord core, G.degeneracy σ = .ok (lo, up, ord, core) ∧ ord.Nodup ∧ (∀ u, u ∈ ord ↔ u ∈ S.V) ∧
      (∀ u, core.contains u = true ↔ u ∈ S.V) ∧ ∀ u ∈ S.V, (S.before ord u).card ≤ bucketTop up := by
  obtain ⟨s, hs, I, hmem⟩ := hG.degeneracy hl σ
  refine ⟨_, _, _, _, hs, List.nodup_reverse.2 I.nodup, fun u => by rw [List.mem_reverse, hmem],
    fun u => by rw [HMap.contains_iff, I.keys, hmem], fun v hv => ?_⟩
  obtain ⟨a, b, hab⟩ := List.append_of_mem ((hmem v).2 hv)
  have hrev : s.order.reverse = b.reverse ++ v :: a.reverse := by rw [hab]; simp
  have hnd : (b.reverse ++ v :: a.reverse).Nodup := by rw [← hrev]; exact List.nodup_reverse.2 I.nodup
  have hsub : S.before s.order.reverse v ⊆ (DegenState.rest S (a ++ [v])).filter (fun w => S.Adj v w) := by
    intro w hw
    rw [SGraph.mem_before, hrev, idxOf_lt_iff_of_split hnd, List.mem_reverse] at hw
    rw [Finset.mem_filter, DegenState.mem_rest]
    refine ⟨⟨hw.1.right, ?_⟩, hw.1⟩
    intro hc
    have h1 := I.nodup
    rw [hab, show a ++ v :: b = (a ++ [v]) ++ b by simp, List.nodup_append] at h1
    exact h1.2.2 w hc w hw.2 rfl
  have h1 := Finset.card_le_card hsub
  have h2 := I.left a v b hab
  have hmemv : v ∉ DegenState.rest S (a ++ [v]) := by simp [DegenState.mem_rest]
  have h3 : S.degIn (DegenState.rest S (a ++ [v])) v < 2 ^ 31 := by
    refine lt_of_lt_of_le (lt_of_le_of_lt (SGraph.degIn_mono (Finset.sdiff_subset : _ ⊆ S.V)) ?_) hn
    exact SGraph.degIn_lt hl (Finset.Subset.refl _) hv
  have h4 : s.coreNum < 160 := by
    rcases I.att with h | ⟨u, h⟩
    · omega
    · obtain ⟨⟨W, hW, huW, h5⟩, -⟩ := I.core u _ h
      exact lt_of_le_of_lt (h5 u huW) (calcIndex_lt_160 (lt_of_lt_of_le (SGraph.degIn_lt hl hW huW) hn))
  exact h1.trans ((calcIndex_le_iff h3 h4).1 h2)

/-- `C38_degeneracy_order` for a triangle with a pendant vertex. -/
example := fun σ => C38_degeneracy_order caseG_rep caseS_loopless caseS_card σ

theorem calcIndex_exact {x y : ℕ} (h : calcIndex x ≤ calcIndex y) (hs : x ≤ 129 ∨ y ≤ 129) : x ≤ y := by
  by_contra hc
  have hy : y ≤ 129 := by omega
  have h1 := calcIndex_small y (by omega)
  have h2 := calcIndex_eq_of_le (i := x) (by omega)
  omega

theorem degeneracy_least {S : SGraph} {s : DegenState} (I : DegenState.Inv S s)
    (hmem : ∀ u, u ∈ s.order ↔ u ∈ S.V) {pre post : List ℕ} {v : ℕ} (h : s.order.reverse = pre ++ v :: post) :
    ∀ w ∈ pre, calcIndex (S.degIn (insert v pre.toFinset) v) ≤ calcIndex (S.degIn (insert v pre.toFinset) w) := by
  intro w hw
  have hab : s.order = post.reverse ++ v :: pre.reverse := by
    have := congrArg List.reverse h
    simpa using this
  have hr : DegenState.rest S post.reverse = insert v pre.toFinset := by
    have hn := I.nodup
    rw [hab, List.nodup_append] at hn
    ext x
    rw [DegenState.mem_rest, ← hmem, hab]
    simp only [List.mem_append, List.mem_reverse, List.mem_cons, Finset.mem_insert, List.mem_toFinset]
    constructor
    · rintro ⟨h1 | h1, h2⟩
      · exact absurd h1 h2
      · exact h1
    · intro h1
      refine ⟨Or.inr h1, fun h2 => ?_⟩
      exact hn.2.2 x (by simpa using h2) x (by simpa using h1) rfl
  have := I.least _ _ _ hab w (by rw [hr]; simp [hw])
  rwa [hr] at this

/-- **C38, smallest last.** In the order of `degeneracy`, every vertex has minimum degree in the subgraph induced by
itself and the vertices before it, as long as that minimum is at most 129 (beyond, buckets contain several degrees). -/
theorem C38_smallest_last {G : Graph} {S : SGraph} (hG : G.Rep S) (hl : S.Loopless) (σ : ℕ → Shuffle Vertex) :
    ∃ lo up ord core, G.degeneracy σ = .ok (lo, up, ord, core) ∧ ord.Nodup ∧ (∀ u, u ∈ ord ↔ u ∈ S.V) ∧
      ∀ pre v post, ord = pre ++ v :: post → ∀ w ∈ pre,
        S.degIn (insert v pre.toFinset) v ≤ 129 ∨ S.degIn (insert v pre.toFinset) w ≤ 129 →
        S.degIn (insert v pre.toFinset) v ≤ S.degIn (insert v pre.toFinset) w := by
  obtain ⟨s, hs, I, hmem⟩ := hG.degeneracy hl σ
  exact ⟨_, _, _, _, hs, List.nodup_reverse.2 I.nodup, fun u => by rw [List.mem_reverse, hmem],
    fun pre v post h w hw h' => calcIndex_exact (degeneracy_least I hmem h w hw) h'⟩

/-- `C38_smallest_last` for a triangle with a pendant vertex. -/
example := fun σ => C38_smallest_last caseG_rep caseS_loopless σ

theorem before_split {S : SGraph} (hl : S.Loopless) {ord pre post : List ℕ} {v : ℕ} (hn : ord.Nodup)
    (hV : ∀ u, u ∈ ord ↔ u ∈ S.V) (h : ord = pre ++ v :: post) :
    (S.before ord v).card = S.degIn (insert v pre.toFinset) v := by
  unfold SGraph.degIn
  congr 1
  ext w
  rw [SGraph.mem_before, Finset.mem_filter, h, idxOf_lt_iff_of_split (by rw [← h]; exact hn)]
  simp only [Finset.mem_insert, List.mem_toFinset]
  constructor
  · rintro ⟨h1, h2⟩; exact ⟨Or.inr h2, h1⟩
  · rintro ⟨rfl | h2, h1⟩
    · exact absurd h1 (hl _)
    · exact ⟨h1, h2⟩

/-- **C38, no jumps.** If the degeneracy is at most 129, then along the order of `degeneracy` the number of neighbours
on the left never grows by more than one from a vertex to the next. -/
theorem C38_no_jump {G : Graph} {S : SGraph} (hG : G.Rep S) (hl : S.Loopless) (σ : ℕ → Shuffle Vertex)
    (hd : ∀ W, W ⊆ S.V → W.Nonempty → ∃ w ∈ W, S.degIn W w ≤ 129) :
    ∃ lo up ord core, G.degeneracy σ = .ok (lo, up, ord, core) ∧ ord.Nodup ∧ (∀ u, u ∈ ord ↔ u ∈ S.V) ∧
      ∀ pre u v post, ord = pre ++ u :: v :: post → (S.before ord v).card ≤ (S.before ord u).card + 1 := by
  obtain ⟨lo, up, ord, core, h1, h2, h3, h4⟩ := C38_smallest_last hG hl σ
  refine ⟨lo, up, ord, core, h1, h2, h3, fun pre u v post h => ?_⟩
  have h' : ord = (pre ++ [u]) ++ v :: post := by rw [h]; simp
  rw [before_split hl h2 h3 h', before_split hl h2 h3 h]
  have hvn : v ∉ insert u pre.toFinset := by
    rw [h, List.nodup_append] at h2
    simp only [Finset.mem_insert, List.mem_toFinset, not_or]
    refine ⟨fun e => ?_, fun hv => h2.2.2 v hv v (by simp) rfl⟩
    have := h2.2.1
    rw [List.nodup_cons] at this
    exact this.1 (by simp [e])
  have hW : (insert v (pre ++ [u]).toFinset) = insert v (insert u pre.toFinset) := by
    ext x; simp [or_comm]
  have hsub : insert v (pre ++ [u]).toFinset ⊆ S.V := by
    intro x hx
    rw [← h3, h']
    simp only [Finset.mem_insert, List.mem_toFinset] at hx
    rcases hx with rfl | hx
    · simp
    · exact List.mem_append_left _ hx
  have hle : S.degIn (insert v (pre ++ [u]).toFinset) v ≤ S.degIn (insert v (pre ++ [u]).toFinset) u := by
    refine h4 _ v post h' u (by simp) ?_
    obtain ⟨w, hw, hw'⟩ := hd _ hsub ⟨v, by simp⟩
    simp only [Finset.mem_insert, List.mem_toFinset] at hw
    rcases hw with rfl | hw
    · exact Or.inl hw'
    · exact Or.inl ((h4 _ v post h' w hw (Or.inr hw')).trans hw')
  refine hle.trans ?_
  rw [hW]
  have := SGraph.degIn_erase (S := S) (R := insert v (insert u pre.toFinset)) (u := u) (v := v) (by simp)
  rw [Finset.erase_insert hvn] at this
  split at this <;> omega

/-- `C38_no_jump` for a triangle with a pendant vertex. -/
example := fun σ => C38_no_jump caseG_rep caseS_loopless σ fun W hW hne =>
  (caseS_degeneracy.1 W hW hne).imp fun _ h => ⟨h.1, h.2.trans (by decide)⟩

theorem calcIndex_le_calcIndex {x y : ℕ} (hx : x < 2 ^ 31) (hy : y < 2 ^ 31) :
    calcIndex x ≤ calcIndex y ↔ x ≤ y ∨ SameBucket x y := by
  have hiy := calcIndex_lt_160 hy
  constructor
  · intro h
    by_cases hxy : x ≤ y
    · exact Or.inl hxy
    · right
      by_cases hi : calcIndex y ≤ 128
      · have h1 := calcIndex_eq_of_le (i := x) (by omega)
        have h2 := calcIndex_eq_of_le (i := y) (by omega)
        omega
      · have h1 := (calcIndex_le_iff hx hiy).1 h
        rw [if_neg hi] at h1
        have h2 := mt (calcIndex_le_iff hy (show calcIndex y - 1 < 160 by omega)).2 (by omega)
        refine ⟨calcIndex y - 129, ?_, ?_⟩
        · by_cases h129 : calcIndex y = 129
          · rw [h129] at h2 ⊢
            rw [if_pos (by omega)] at h2
            simp only [Nat.sub_self, Nat.pow_zero]
            omega
          · rw [if_neg (by omega)] at h2
            rw [show calcIndex y - 129 = calcIndex y - 1 - 128 by omega]
            omega
        · rw [show calcIndex y - 129 + 1 = calcIndex y - 128 by omega]
          exact h1
  · rintro (h | ⟨j, h1, h2⟩)
    · exact calcIndex_mono h
    · have hj : j < 31 := by
        by_contra hc
        have := Nat.pow_le_pow_right (show 0 < 2 by omega) (show 31 ≤ j by omega)
        omega
      have h3 := (calcIndex_le_iff hx (show j + 129 < 160 by omega)).2 (by
        rw [if_neg (by omega), show j + 129 - 128 = j + 1 by omega]; exact h2)
      refine h3.trans ?_
      by_contra hc
      have h4 := (calcIndex_le_iff hy (show j + 128 < 160 by omega)).1 (by omega)
      split at h4
      · have : j = 0 := by omega
        subst this
        simp only [Nat.pow_zero] at h1
        omega
      · rw [show j + 128 - 128 = j by omega] at h4
        omega

/-- **C38, all orders.** The orders that `degeneracy` can return, over all iteration orders of its hash tables, are exactly
those in which every vertex has minimum degree, up to degrees in the same bucket, in the subgraph induced by itself
and the vertices before it. -/
theorem C38_orders {G : Graph} {S : SGraph} (hG : G.Rep S) (hl : S.Loopless) (hn : S.V.card ≤ 2 ^ 31) (ord : List ℕ) :
    (∃ σ lo up core, G.degeneracy σ = .ok (lo, up, ord, core)) ↔
      S.Peeled ord := by
  have hsmall : ∀ (pre : List ℕ) v post, (∀ u, u ∈ ord ↔ u ∈ S.V) → ord = pre ++ v :: post →
      ∀ w ∈ insert v pre.toFinset, S.degIn (insert v pre.toFinset) w < 2 ^ 31 := by
    intro pre v post hV h w hw
    refine lt_of_lt_of_le (SGraph.degIn_lt hl ?_ hw) hn
    intro x hx
    rw [← hV, h]
    simp only [Finset.mem_insert, List.mem_toFinset] at hx
    rcases hx with rfl | hx
    · simp
    · exact List.mem_append_left _ hx
  constructor
  · rintro ⟨σ, lo, up, core, h⟩
    obtain ⟨s, hs, I, hmem⟩ := hG.degeneracy hl σ
    rw [h] at hs
    simp only [Except.ok.injEq, Prod.mk.injEq] at hs
    obtain ⟨-, -, rfl, -⟩ := hs
    have hV : ∀ u, u ∈ s.order.reverse ↔ u ∈ S.V := fun u => by rw [List.mem_reverse, hmem]
    refine ⟨List.nodup_reverse.2 I.nodup, hV, fun pre v post h w hw => ?_⟩
    exact (calcIndex_le_calcIndex (hsmall pre v post hV h v (by simp)) (hsmall pre v post hV h w (by simp [hw]))).1
      (degeneracy_least I hmem h w hw)
  · rintro ⟨hnd, hV, hle⟩
    have hleast : ∀ a v b, ord.reverse = a ++ v :: b → ∀ w ∈ DegenState.rest S a,
        calcIndex (S.degIn (DegenState.rest S a) v) ≤ calcIndex (S.degIn (DegenState.rest S a) w) := by
      intro a v b hab w hw
      have h : ord = b.reverse ++ v :: a.reverse := by
        have := congrArg List.reverse hab
        simpa using this
      have hr : DegenState.rest S a = insert v b.reverse.toFinset := by
        rw [h, List.nodup_append] at hnd
        ext x
        rw [DegenState.mem_rest, ← hV, h]
        simp only [List.mem_append, List.mem_cons, List.mem_reverse, Finset.mem_insert, List.mem_toFinset]
        constructor
        · rintro ⟨h1 | h1 | h1, h2⟩
          · exact Or.inr h1
          · exact Or.inl h1
          · exact absurd h1 h2
        · rintro (rfl | h1)
          · refine ⟨Or.inr (Or.inl rfl), fun h2 => ?_⟩
            exact (List.nodup_cons.1 hnd.2.1).1 (by simpa using h2)
          · exact ⟨Or.inl h1, fun h2 => hnd.2.2 x (by simpa using h1) x (by simp [h2]) rfl⟩
      rw [hr] at hw ⊢
      by_cases hwv : w = v
      · rw [hwv]
      · have hwb : w ∈ b.reverse := by
          rcases Finset.mem_insert.1 hw with h1 | h1
          · exact absurd h1 hwv
          · exact List.mem_toFinset.1 h1
        exact (calcIndex_le_calcIndex (hsmall _ v _ hV h v (by simp)) (hsmall _ v _ hV h w hw)).2 (hle _ v _ h w hwb)
    obtain ⟨s, hs⟩ := hG.degeneracy_complete hl (l := ord.reverse) (List.nodup_reverse.2 hnd)
      (fun u => by rw [List.mem_reverse, hV]) hleast
    rw [List.reverse_reverse] at hs
    exact ⟨_, _, _, _, hs⟩

/-- `C38_orders` for a triangle with a pendant vertex. -/
example := C38_orders caseG_rep caseS_loopless caseS_card [2, 1, 0, 3]

/-- The degeneracy exists and is unique; likewise core numbers. -/
theorem SGraph.exists_degeneracy (S : SGraph) : ∃ k, S.IsDegeneracy k := by
  classical
  have h : ∃ k, ∀ W, W ⊆ S.V → W.Nonempty → ∃ w ∈ W, S.degIn W w ≤ k :=
    ⟨S.V.card, fun W hW ⟨w, hw⟩ => ⟨w, hw, (Finset.card_le_card (Finset.filter_subset _ _)).trans
      (Finset.card_le_card hW)⟩⟩
  exact ⟨Nat.find h, Nat.find_spec h, fun k' hk' => Nat.find_min' h hk'⟩

theorem SGraph.exists_core {S : SGraph} {v : ℕ} (hv : v ∈ S.V) : ∃ k, S.IsCore v k := by
  classical
  let P : ℕ → Prop := fun k => ∃ W, S.MinDeg W k ∧ v ∈ W
  have hb : ∀ k, P k → k ≤ S.V.card := by
    rintro k ⟨W, ⟨hW, h1⟩, h2⟩
    exact (h1 v h2).trans ((Finset.card_le_card (Finset.filter_subset _ _)).trans (Finset.card_le_card hW))
  have h0 : P 0 := ⟨{v}, ⟨by simpa using hv, fun _ _ => Nat.zero_le _⟩, by simp⟩
  refine ⟨Nat.findGreatest P S.V.card, Nat.findGreatest_spec (m := 0) (Nat.zero_le _) h0, ?_⟩
  intro W k' h1 h2
  exact Nat.le_findGreatest (hb k' ⟨W, h1, h2⟩) ⟨W, h1, h2⟩

theorem DegenState.Inv.core_eq {S : SGraph} {s : DegenState} (I : Inv S s) {v c k : ℕ}
    (h : s.core.get? v = some c) (hk : S.IsCore v k) : c = calcIndex k := by
  obtain ⟨⟨W, hW, hvW, h1⟩, h2⟩ := I.core v c h
  obtain ⟨⟨W', h3, h4⟩, h5⟩ := hk
  refine le_antisymm ?_ (h2 W' k h3 h4)
  obtain ⟨m, hm, hmin⟩ := Finset.exists_min_image W (S.degIn W) ⟨v, hvW⟩
  exact (h1 m hm).trans (calcIndex_mono (h5 W _ ⟨hW, hmin⟩ hvW))

theorem DegenState.Inv.upper_eq {S : SGraph} {s : DegenState} (I : Inv S s) (hmem : ∀ u, u ∈ s.order ↔ u ∈ S.V)
    {k : ℕ} (hk : S.IsDegeneracy k) : s.coreNum = calcIndex k := by
  obtain ⟨h1, h2⟩ := hk
  refine le_antisymm ?_ ?_
  · rcases I.att with h | ⟨u, h⟩
    · omega
    · obtain ⟨⟨W, hW, huW, h3⟩, -⟩ := I.core u _ h
      obtain ⟨w, hw, h4⟩ := h1 W hW ⟨u, huW⟩
      exact (h3 w hw).trans (calcIndex_mono h4)
  · rcases Nat.eq_zero_or_pos k with rfl | hk
    · rw [calcIndex_zero]; exact Nat.zero_le _
    · have := mt (h2 (k - 1)) (by omega)
      push Not at this
      obtain ⟨W, hW, ⟨w, hw⟩, h3⟩ := this
      exact I.high W k ⟨hW, fun w hw => by have := h3 w hw; omega⟩ ⟨w, hw, (hmem w).2 (hW hw)⟩

/-- **C39, general form.** Whenever the degeneracy is at most 130, both bounds returned by `degeneracy` are equal
to it and every core number is exact. -/
theorem C39_exact_of_degeneracy {G : Graph} {S : SGraph} (hG : G.Rep S) (hl : S.Loopless)
    (σ : ℕ → Shuffle Vertex) {k : ℕ} (hk : S.IsDegeneracy k) (h130 : k ≤ 130) :
    ∃ ord core, G.degeneracy σ = .ok (k, k, ord, core) ∧
      ∀ v ∈ S.V, ∃ c, core.get? v = some c ∧ S.IsCore v c := by
  obtain ⟨s, hs, I, hmem⟩ := hG.degeneracy hl σ
  have h1 : s.coreNum = k := (I.upper_eq hmem hk).trans (calcIndex_small k h130)
  rw [h1, degeneracyLower_small k h130] at hs
  refine ⟨_, _, hs, fun v hv => ?_⟩
  obtain ⟨c, hc⟩ := HMap.mem_keys_iff.1 ((I.keys v).2 ((hmem v).2 hv))
  obtain ⟨j, hj⟩ := SGraph.exists_core hv
  have h2 := I.core_eq hc hj
  refine ⟨c, hc, ?_⟩
  have h3 : j ≤ k := by
    obtain ⟨⟨W, hW, hvW⟩, -⟩ := hj
    obtain ⟨w, hw, h4⟩ := hk.1 W hW.1 ⟨v, hvW⟩
    exact (hW.2 w hw).trans h4
  rw [calcIndex_small j (by omega)] at h2
  rw [h2]; exact hj

/-- `C39_exact_of_degeneracy` for a triangle with a pendant vertex. -/
example := fun σ => C39_exact_of_degeneracy caseG_rep caseS_loopless σ caseS_degeneracy (by decide)

/-- **C39.** If the maximum degree is at most 130 then lower = upper = degeneracy and the core number of each
vertex is the largest `k` such that it lies in a subgraph of minimum degree `k`. -/
theorem C39_exact_small_degree {G : Graph} {S : SGraph} (hG : G.Rep S) (hl : S.Loopless)
    (σ : ℕ → Shuffle Vertex) (hd : ∀ v ∈ S.V, S.deg v ≤ 130) :
    ∃ k ord core, G.degeneracy σ = .ok (k, k, ord, core) ∧ S.IsDegeneracy k ∧
      ∀ v ∈ S.V, ∃ c, core.get? v = some c ∧ S.IsCore v c := by
  obtain ⟨k, hk⟩ := S.exists_degeneracy
  have h130 : k ≤ 130 := by
    refine hk.2 130 fun W hW ⟨w, hw⟩ => ⟨w, hw, (SGraph.degIn_mono hW).trans ?_⟩
    rw [SGraph.degIn_V hl]
    exact hd w (hW hw)
  obtain ⟨ord, core, h1, h2⟩ := C39_exact_of_degeneracy hG hl σ hk h130
  exact ⟨k, ord, core, h1, hk, h2⟩

/-- A loopless graph (the path 0-1-2) for C38 – C40. -/
example : ∃ (G : Graph) (S : SGraph), G.Rep S ∧ S.Loopless ∧ S.V.card ≤ 2 ^ 31 ∧ (∀ v ∈ S.V, S.deg v ≤ 130) ∧
    S.Adj 0 1 ∧ ∃ k, S.IsDegeneracy k ∧ k ≤ 130 := by
  obtain ⟨g, S, A, hl, h01, -, hV, -⟩ := exPath
  have hc : S.V.card = 3 := by rw [hV]; rfl
  have hd : ∀ v ∈ S.V, S.deg v ≤ 130 := by
    intro v hv
    rw [← SGraph.degIn_V hl]
    have := SGraph.degIn_lt hl (Finset.Subset.refl _) hv
    omega
  obtain ⟨k, hk⟩ := S.exists_degeneracy
  refine ⟨g.view, S, A.rep, hl, by rw [hc]; decide, hd, h01, k, hk, ?_⟩
  refine hk.2 130 fun W hW ⟨w, hw⟩ => ⟨w, hw, (SGraph.degIn_mono hW).trans ?_⟩
  rw [SGraph.degIn_V hl]
  exact hd w (hW hw)

/-- Hypotheses of `C38_no_jump` are met by the path 0-1-2. -/
example : ∃ (G : Graph) (S : SGraph), G.Rep S ∧ S.Loopless ∧ S.Adj 0 1 ∧
    ∀ W, W ⊆ S.V → W.Nonempty → ∃ w ∈ W, S.degIn W w ≤ 129 := by
  obtain ⟨g, S, A, hl, h01, -, hV, -⟩ := exPath
  have hc : S.V.card = 3 := by rw [hV]; rfl
  refine ⟨g.view, S, A.rep, hl, h01, fun W hW ⟨w, hw⟩ => ⟨w, hw, ?_⟩⟩
  have := SGraph.degIn_lt hl hW hw
  omega

/-- **C40, as stated.** -/
def C40_statement : Prop := ∀ (G : Graph) (S : SGraph), G.Rep S → S.Loopless → S.V.card ≤ 2 ^ 31 →
  ∀ (σ : ℕ → Shuffle Vertex) lo up ord core, G.degeneracy σ = .ok (lo, up, ord, core) →
    ∀ k, S.IsDegeneracy k → lo ≤ k ∧ k ≤ up

/-- **C40, what holds.** `lower` is a lower bound on the degeneracy; `upper` is an upper bound when the degeneracy
is at most 130, and in general the degeneracy is at most `bucketTop upper`, which is attained up to a factor
less than two.  The last line gives `lower` exactly; it stays below 138 however large the degeneracy is. -/
theorem C40_bounds_partial {G : Graph} {S : SGraph} (hG : G.Rep S) (hl : S.Loopless) (hn : S.V.card ≤ 2 ^ 31)
    (σ : ℕ → Shuffle Vertex) {k : ℕ} (hk : S.IsDegeneracy k) :
    ∃ lo up ord core, G.degeneracy σ = .ok (lo, up, ord, core) ∧ lo ≤ k ∧ (k ≤ 130 → k ≤ up) ∧
      k ≤ bucketTop up ∧ up ≤ k ∧ (0 < up → bucketTop (up - 1) < k) ∧
      lo = if up ≤ 130 then up else if up ≤ 131 then 130 else if up ≤ 135 then 131 else if up ≤ 143 then 133 else 137 := by
  obtain ⟨s, hs, I, hmem⟩ := hG.degeneracy hl σ
  have hk31 : k < 2 ^ 31 := by
    refine lt_of_le_of_lt (hk.2 (2 ^ 31 - 1) fun W hW ⟨w, hw⟩ => ⟨w, hw, ?_⟩) (show 2 ^ 31 - 1 < 2 ^ 31 by decide)
    have := SGraph.degIn_lt hl hW hw
    omega
  have h1 := I.upper_eq hmem hk
  have h160 := calcIndex_lt_160 hk31
  refine ⟨_, _, _, _, hs, by rw [h1]; exact degeneracyLower_le hk31,
    fun h => by rw [h1, calcIndex_small k h], ?_, ?_, ?_, degeneracyLower_table _ (by rw [h1]; exact h160)⟩
  · rw [h1]; exact (calcIndex_le_iff hk31 h160).1 le_rfl
  · rw [h1]
    by_cases h : k < 160
    · refine (calcIndex_le_iff hk31 h).2 ?_
      split
      · exact le_rfl
      · next hc =>
        have : k - 128 < 2 ^ (k - 128) := Nat.lt_two_pow_self
        omega
    · omega
  · intro h0
    rw [h1] at h0 ⊢
    have := mt (calcIndex_le_iff hk31 (show calcIndex k - 1 < 160 by omega)).2 (by omega)
    unfold bucketTop
    omega

/-- `C40_bounds_partial` for a triangle with a pendant vertex. -/
example := fun σ => C40_bounds_partial caseG_rep caseS_loopless caseS_card σ caseS_degeneracy

theorem calcIndex_131 : calcIndex 131 = 130 := by
  refine le_antisymm ((calcIndex_le_iff (by omega) (by omega)).2 (by decide)) ?_
  rw [← calcIndex_small 130 le_rfl]
  exact calcIndex_mono (by omega)

/-- **C40 refuted.** On the complete graph with 132 vertices, whose degeneracy is 131, the returned upper bound
is 130. -/
theorem C40_refuted : ¬ C40_statement := by
  intro h
  obtain ⟨g, -, S, A, hV, hA⟩ := is_clique 132
  beta_reduce at hV hA
  have hl : S.Loopless := fun u hu => ((hA u u).1 hu).2.2 rfl
  have hVr : S.V = Finset.range 132 := by
    ext u; rw [hV, Finset.mem_range]
  have hcard : S.V.card = 132 := by rw [hVr, Finset.card_range]
  have hk : S.IsDegeneracy 131 := by
    refine ⟨fun W hW ⟨w, hw⟩ => ⟨w, hw, ?_⟩, fun k' hk' => ?_⟩
    · have := SGraph.degIn_lt hl hW hw
      omega
    · obtain ⟨w, hw, h1⟩ := hk' S.V (Finset.Subset.refl _) ⟨0, by rw [hV]; omega⟩
      refine le_trans (le_of_eq ?_) h1
      have : S.V.filter (fun v => S.Adj w v) = S.V.erase w := by
        ext u
        rw [Finset.mem_filter, Finset.mem_erase, hV, hA]
        rw [hV] at hw
        constructor
        · rintro ⟨h2, h3⟩; exact ⟨fun h => h3.2.2 h.symm, h2⟩
        · rintro ⟨h2, h3⟩; exact ⟨h3, hw, h3, fun h => h2 h.symm⟩
      unfold SGraph.degIn
      rw [this, Finset.card_erase_of_mem hw, hcard]
  obtain ⟨s, hs, I, hmem⟩ := A.rep.degeneracy hl (fun _ => Shuffle.id)
  have h1 := (h g.view S A.rep hl (by rw [hcard]; decide) _ _ _ _ _ hs 131 hk).2
  rw [I.upper_eq hmem hk, calcIndex_131] at h1
  omega

/-! ## C41 – C42 -/

/-- **C41.** `is_bipartite` terminates without panic.  It returns a bipartition iff the graph is 2-colourable; the
two sides partition the vertices and every edge has one end in each. -/
theorem C41_is_bipartite {G : Graph} {S : SGraph} (hG : G.Rep S) (σ : ℕ → Shuffle Vertex)
    (τ : Shuffle (Vertex × (Bool × Vertex))) :
    ∃ w, G.isBipartite σ τ = .ok w ∧ ((∃ L R, w = .bipartition L R) ↔ S.TwoColourable) ∧
      ∀ L R, w = .bipartition L R → (∀ v, v ∈ S.V ↔ v ∈ L ∨ v ∈ R) ∧ (∀ v, ¬ (v ∈ L ∧ v ∈ R)) ∧
        ∀ u v, S.Adj u v → (u ∈ L ∧ v ∈ R) ∨ (u ∈ R ∧ v ∈ L) := by
  rcases hG.isBipartite σ τ with ⟨L, R, h, h1, h2, h3⟩ | ⟨c, v, a, t, h, hl⟩
  · refine ⟨_, h, ⟨fun _ => ⟨fun v => decide (v ∈ L), fun u v huv => ?_⟩, fun _ => ⟨L, R, rfl⟩⟩, ?_⟩
    · have h4 := h3 u v huv
      have h5 := h3 v u huv.symm
      have h6 := h2 u
      have h7 := h2 v
      have h8 := (h1 u).1 huv.left
      intro he
      have : u ∈ L ↔ v ∈ L := by simpa using he
      tauto
    · rintro L' R' he
      cases he
      refine ⟨h1, h2, fun u v huv => ?_⟩
      have h4 := h3 u v huv
      have h5 := h3 v u huv.symm
      have h8 := (h1 u).1 huv.left
      tauto
  · refine ⟨_, h, ⟨?_, fun hc => absurd hc (Bip.not_twoColourable (Bip.lasso_closedWalk hl).1 (Bip.lasso_closedWalk hl).2)⟩, ?_⟩
    · rintro ⟨L, R, he⟩; cases he
    · rintro L R he; cases he

example : ∃ (G : Graph) (S : SGraph), G.Rep S ∧ S.Adj 0 1 ∧ S.Adj 1 2 := by
  obtain ⟨g, S, A, -, h1, h2, -⟩ := exPath
  exact ⟨g.view, S, A.rep, h1, h2⟩

/-- The order listing the elements of `L` first. -/
def firstShuffle (L : Finset ℕ) : Shuffle ℕ :=
  ⟨fun l => l.filter (fun x => decide (x ∈ L)) ++ l.filter (fun x => !decide (x ∈ L)), fun l => List.filter_append_perm _ l⟩

/-- **C41, all answers.** The bipartitions returned for some iteration order are exactly those in which every vertex of the
second side has a neighbour. -/
theorem C41_outcomes {G : Graph} {S : SGraph} (hG : G.Rep S) (L R : Finset ℕ) :
    (∃ σ τ L' R', G.isBipartite σ τ = .ok (.bipartition L' R') ∧ (∀ v, v ∈ L' ↔ v ∈ L) ∧ ∀ v, v ∈ R' ↔ v ∈ R) ↔
      (∀ v, v ∈ S.V ↔ v ∈ L ∨ v ∈ R) ∧ (∀ v, ¬ (v ∈ L ∧ v ∈ R)) ∧ (∀ u v, S.Adj u v → (u ∈ L ↔ v ∈ R)) ∧
        ∀ v ∈ R, ∃ u, S.Adj v u := by
  constructor
  · rintro ⟨σ, τ, L', R', h, hL, hR⟩
    rcases hG.sees.isBipartite_roots σ τ (Q := fun _ => True) fun _ _ _ _ _ _ => trivial with
      ⟨L₁, R₁, h', h1, h2, h3, h4⟩ | ⟨c, v, a, t, h', -⟩
    · rw [h] at h'; cases h'
      simp only [hL, hR] at h1 h2 h3 h4
      refine ⟨h1, h2, h3, fun v hv => ?_⟩
      obtain ⟨r, l, -, h5, -, h6⟩ := h4 v ((h1 v).2 (Or.inr hv))
      cases l with
      | nil => exact absurd ⟨h6.2 rfl, hv⟩ (h2 v)
      | cons u l => exact ⟨u, h5.rel⟩
    · rw [h] at h'; cases h'
  · rintro ⟨h1, h2, h3, h4⟩
    have hcol : ∀ u v, S.Adj u v → (decide (u ∈ L)) ≠ decide (v ∈ L) := by
      intro u v huv he
      rw [decide_eq_decide] at he
      have h5 := h3 u v huv
      have h6 := h3 v u huv.symm
      have h7 := (h1 u).1 huv.left
      have h8 := h2 u
      have h9 := h2 v
      tauto
    refine ⟨fun _ => firstShuffle L, Shuffle.id, ?_⟩
    rcases hG.sees.isBipartite_roots (fun _ => firstShuffle L) Shuffle.id (Q := fun r => r ∈ L) (by
        intro s n r rest I hr
        have hmem : ∀ x, x ∈ s.unprocessed → x ∈ L → r ∈ L := by
          intro x hx hxL
          have h5 : x ∈ s.unprocessed.toList.filter (fun x => decide (x ∈ L)) := by
            rw [List.mem_filter]; exact ⟨by rwa [HSet.mem_toList], by simpa using hxL⟩
          obtain ⟨y, l, hl⟩ := List.exists_cons_of_ne_nil (List.ne_nil_of_mem h5)
          change s.unprocessed.toList.filter _ ++ s.unprocessed.toList.filter _ = _ at hr
          rw [hl, List.cons_append] at hr
          obtain ⟨rfl, -⟩ := List.cons.inj hr
          have h6 : y ∈ s.unprocessed.toList.filter (fun x => decide (x ∈ L)) := by rw [hl]; simp
          simpa using (List.mem_filter.1 h6).2
        have hru : r ∈ s.unprocessed := by
          rw [← HSet.mem_toList, ← (firstShuffle L).mem, hr]; simp
        obtain ⟨h5, h6⟩ := I.unp r hru
        rcases (h1 r).1 h6 with h7 | h7
        · exact h7
        · obtain ⟨w, hw⟩ := h4 r h7
          have hwL : w ∈ L := (h3 w r hw.symm).2 h7
          by_cases h8 : w ∈ s.unprocessed
          · exact hmem w h8 hwL
          · obtain ⟨⟨c, q⟩, h9⟩ := Option.ne_none_iff_exists'.1 (I.proc w hw.right h8)
            obtain ⟨q', h10⟩ := I.adj w c q r h9 hw.symm
            rw [h5] at h10; cases h10) with ⟨L₁, R₁, h', k1, k2, k3, k4⟩ | ⟨c, v, a, t, h', hl⟩
    · have hL : ∀ v, v ∈ L₁ ↔ v ∈ L := by
        intro v
        by_cases hv : v ∈ S.V
        · obtain ⟨r, l, h5, h6, h7, h8⟩ := k4 v hv
          have h9 := Bip.alternate hcol l v h6 r h7
          rw [h8]
          simp only [h5, decide_true] at h9
          rcases Nat.mod_two_eq_zero_or_one l.length with h10 | h10
          · simp [h10] at h9 ⊢; exact h9
          · simp [h10] at h9 ⊢; exact h9
        · exact ⟨fun h => absurd ((k1 v).2 (Or.inl h)) hv, fun h => absurd ((h1 v).2 (Or.inl h)) hv⟩
      refine ⟨L₁, R₁, h', hL, fun v => ?_⟩
      have h5 := h1 v
      have h6 := h2 v
      have h7 := k1 v
      have h8 := k2 v
      have h9 := hL v
      tauto
    · exact absurd ⟨fun v => decide (v ∈ L), hcol⟩
        (Bip.not_twoColourable (Bip.lasso_closedWalk hl).1 (Bip.lasso_closedWalk hl).2)

/-- Both sides of the equivalence hold for the path 0, 1, 2 with the end vertices on the second side. -/
example : ∃ (G : Graph) (S : SGraph) (L R : Finset ℕ), G.Rep S ∧ R.card = 2 ∧ (∀ v, v ∈ S.V ↔ v ∈ L ∨ v ∈ R) ∧
    (∀ v, ¬ (v ∈ L ∧ v ∈ R)) ∧ (∀ u v, S.Adj u v → (u ∈ L ↔ v ∈ R)) ∧ ∀ v ∈ R, ∃ u, S.Adj v u := by
  obtain ⟨⟨g, k⟩, -, A, -⟩ := abs_new.addEdges [(0, 1), (1, 2)]
  have hV : (SGraph.empty.addEdges [(0, 1), (1, 2)]).V = {0, 1, 2} := by decide
  refine ⟨g.view, _, {1}, {0, 2}, A.rep, by decide, ?_, ?_, ?_, ?_⟩
  · intro v; rw [hV]; simp; omega
  · intro v; simp; omega
  · intro u v h
    have h1 := h.left
    have h2 := h.right
    rw [hV] at h1 h2
    simp only [Finset.mem_insert, Finset.mem_singleton] at h1 h2
    rcases h1 with rfl | rfl | rfl <;> rcases h2 with rfl | rfl | rfl <;> revert h <;> decide
  · intro v hv
    refine ⟨1, ?_⟩
    simp at hv
    rcases hv with rfl | rfl <;> decide

/-- **C42, as stated.** -/
def C42_statement : Prop := ∀ (G : Graph) (S : SGraph), G.Rep S → ∀ σ τ c, G.isBipartite σ τ = .ok (.oddCycle c) →
  c.length % 2 = 1 ∧ S.ClosedWalk c ∧ c.Nodup

/-- **C42, what holds.** The witness is a closed walk of odd length.  (Missing: its vertices need not be
distinct.) -/
theorem C42_odd_cycle_partial {G : Graph} {S : SGraph} (hG : G.Rep S) (σ : ℕ → Shuffle Vertex)
    (τ : Shuffle (Vertex × (Bool × Vertex))) {c : List Vertex} (h : G.isBipartite σ τ = .ok (.oddCycle c)) :
    c.length % 2 = 1 ∧ S.ClosedWalk c := by
  rcases hG.isBipartite σ τ with ⟨L, R, h', -⟩ | ⟨c', v, a, t, h', hl⟩
  · rw [h] at h'; cases h'
  · rw [h] at h'; cases h'
    exact (Bip.lasso_closedWalk hl).symm

/-- **C42, the shape of the witness.** It runs once around an odd cycle, starting in `v`, and then, unless `v` is the vertex
at which the colouring started, from `v` along a path that does not meet the cycle again to that vertex and back to the
vertex next to `v`.  (Missing: the second part should not be there.) -/
theorem C42_shape_partial {G : Graph} {S : SGraph} (hG : G.Rep S) (σ : ℕ → Shuffle Vertex)
    (τ : Shuffle (Vertex × (Bool × Vertex))) {c : List Vertex} (h : G.isBipartite σ τ = .ok (.oddCycle c)) :
    ∃ v a t, S.Lasso c v a t ∧ (c.Nodup ↔ t = []) := by
  rcases hG.isBipartite σ τ with ⟨L, R, h', -⟩ | ⟨c', v, a, t, h', hl⟩
  · rw [h] at h'; cases h'
  · rw [h] at h'; cases h'
    refine ⟨v, a, t, hl, ?_⟩
    obtain ⟨hc, -, -, hnd, -⟩ := hl
    constructor
    · intro h1
      by_contra ht
      rw [hc, if_neg ht, List.cons_append, List.nodup_cons] at h1
      exact h1.1 (by simp)
    · intro ht
      rw [ht] at hnd
      rw [hc, if_pos ht]; exact hnd

/-- **C42, repaired.** The part of the witness before the second occurrence of its first vertex is an odd cycle. -/
theorem C42_cut_partial {G : Graph} {S : SGraph} (hG : G.Rep S) (σ : ℕ → Shuffle Vertex)
    (τ : Shuffle (Vertex × (Bool × Vertex))) {v : Vertex} {c : List Vertex} (h : G.isBipartite σ τ = .ok (.oddCycle (v :: c))) :
    (v :: c.takeWhile (· ≠ v)).length % 2 = 1 ∧ S.ClosedWalk (v :: c.takeWhile (· ≠ v)) ∧ (v :: c.takeWhile (· ≠ v)).Nodup := by
  obtain ⟨w, a, t, ⟨hc, h1, h2, h3, -⟩, -⟩ := C42_shape_partial hG σ τ h
  rw [List.cons_append] at hc
  obtain ⟨rfl, hc⟩ := List.cons.inj hc
  have hnd := List.nodup_append.1 h3
  have ha : ∀ x ∈ a, decide (x ≠ v) = true := by
    intro x hx
    have := (List.nodup_cons.1 hnd.1).1
    simp only [ne_eq, decide_eq_true_eq]
    rintro rfl; exact this hx
  have : c.takeWhile (fun x => decide (x ≠ v)) = a := by
    rw [hc]
    by_cases ht : t = []
    · rw [if_pos ht, List.takeWhile_append_of_pos ha]
      simp
    · rw [if_neg ht, List.takeWhile_append_of_pos ha]
      simp
  rw [this]
  exact ⟨h1, h2, hnd.1⟩

/-- The list inside an odd-cycle witness. -/
def BipartiteWitness.cycle : BipartiteWitness → Option (List Vertex)
  | .oddCycle c => some c
  | .bipartition _ _ => none

/-- The triangle 1, 2, 3 with the pendant vertex 0 at 1. -/
def lollipop : Res EditGraph := do return (← EditGraph.new.addEdges [(0, 1), (1, 2), (2, 3), (3, 1)]).1

theorem lollipop_witness : (lollipop.bind fun g => (g.view.isBipartite (fun _ => Shuffle.id) Shuffle.id).map
    (fun w => w.cycle)) = .ok (some [1, 3, 2, 1, 0]) := by
  decide

theorem lollipop_rep : ∃ g S, lollipop = .ok g ∧ g.view.Rep S := by
  obtain ⟨⟨g, k⟩, h, A, -⟩ := abs_new.addEdges [(0, 1), (1, 2), (2, 3), (3, 1)]
  exact ⟨g, _, by unfold lollipop; rw [h]; rfl, A.rep⟩

theorem lollipop_cycle : ∃ g S, lollipop = .ok g ∧ g.view.Rep S ∧
    g.view.isBipartite (fun _ => Shuffle.id) Shuffle.id = .ok (.oddCycle [1, 3, 2, 1, 0]) := by
  obtain ⟨g, S, h, H⟩ := lollipop_rep
  refine ⟨g, S, h, H, ?_⟩
  have hw := lollipop_witness
  rw [h] at hw
  obtain ⟨w, h', -⟩ := C41_is_bipartite H (fun _ => Shuffle.id) Shuffle.id
  simp only [Except.bind] at hw
  rw [h'] at hw ⊢
  simp only [Except.map, Except.ok.injEq] at hw
  cases w with
  | bipartition L R => cases hw
  | oddCycle c => cases hw; rfl

/-- Hypotheses of `C42_odd_cycle_partial`, `C42_shape_partial` and `C42_cut_partial` are met by the lollipop. -/
example : ∃ (G : Graph) (S : SGraph) (σ : ℕ → Shuffle Vertex) (τ : Shuffle (Vertex × (Bool × Vertex))) (c : List Vertex),
    G.Rep S ∧ G.isBipartite σ τ = .ok (.oddCycle (1 :: c)) := by
  obtain ⟨g, S, -, H, h⟩ := lollipop_cycle
  exact ⟨_, S, _, _, _, H, h⟩

/-- **C42, all witnesses.** Over all layouts of the tables and all iteration orders the lists returned for a graph are exactly
the walks described in `C42_shape_partial`: every odd cycle with every path leading away from it is returned by some run.
(Missing: only those without a path should be returned.) -/
theorem C42_outcomes_partial {g : EditGraph} {S : SGraph} (H : Abs g S) (τ : Shuffle (Vertex × (Bool × Vertex)))
    (c : List Vertex) :
    (∃ g' σ, Relayout g g' ∧ g'.view.isBipartite σ τ = .ok (.oddCycle c)) ↔ ∃ v a t, S.Lasso c v a t := by
  constructor
  · rintro ⟨g', σ, hr, h⟩
    obtain ⟨v, a, t, hl, -⟩ := C42_shape_partial (H.relayout hr).rep σ τ h
    exact ⟨v, a, t, hl⟩
  · rintro ⟨v, a, t, hl⟩
    obtain ⟨g', σ, hA, h⟩ := H.lasso_run hl τ
    exact ⟨g', σ, H.relayout_of hA, h⟩

/-- Both sides hold for the lollipop with the walk `3, 1, 2` and no path, which is not the walk of the run above. -/
example : ∃ (g : EditGraph) (S : SGraph) (c : List Vertex), Abs g S ∧ c = [3, 1, 2] ∧ ∃ v a t, S.Lasso c v a t := by
  obtain ⟨⟨g, k⟩, -, A, -⟩ := abs_new.addEdges [(0, 1), (1, 2), (2, 3), (3, 1)]
  refine ⟨g, _, _, A, rfl, 3, [1, 2], [], rfl, rfl, ⟨by simp, ?_, ?_⟩, by decide, by simp⟩
  · simp only [List.isChain_cons_cons, List.isChain_singleton, and_true]
    exact ⟨by decide, by decide⟩
  · intro x hx y hy
    cases hx; cases hy
    decide

/-- **C42 refuted.** On the lollipop the witness is `1, 3, 2, 1, 0`. -/
theorem C42_refuted : ¬ C42_statement := by
  intro h
  obtain ⟨g, S, -, H, hc⟩ := lollipop_cycle
  exact absurd (h _ S H _ _ _ hc).2.2 (by decide)

end Verif
