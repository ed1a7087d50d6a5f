import Verif.Spec.Width
import Verif.Lemmas.ReachNest
import Verif.Lemmas.Domset
import Mathlib.Data.Finset.Max
/-! # Reachability without a bound on the distance -/
namespace Verif
namespace SGraph
variable {S : SGraph} {ord : List ℕ} {P : ℕ → Prop}

theorem WalkVia.snoc {n u w v : ℕ} (h : S.WalkVia P n u w) (hw : P w) (h' : S.Adj w v) : S.WalkVia P (n + 1) u v :=
  h.append hw (.one h')

theorem WalkVia.symm {n u v : ℕ} (h : S.WalkVia P n u v) : S.WalkVia P n v u := by
  induction h with
  | one h => exact .one h.symm
  | cons h hw _ ih => exact ih.snoc hw h.symm

/-- Strong reachability at any distance. -/
def SR (S : SGraph) (ord : List ℕ) (u v : ℕ) : Prop := ∃ d, S.SReach ord u v d

/-- Weak reachability at any distance. -/
def WR (S : SGraph) (ord : List ℕ) (u v : ℕ) : Prop := ∃ d, S.WReach ord u v d

theorem sr_iff {u v : ℕ} : S.SR ord u v ↔ ord.idxOf v < ord.idxOf u ∧ ∃ n, S.WalkVia (fun x => ord.idxOf u < ord.idxOf x) n u v := by
  constructor
  · rintro ⟨d, h⟩
    obtain ⟨h1, h2⟩ := sreach_walk.1 h
    exact ⟨h1, d, h2.1⟩
  · rintro ⟨h, n, h2⟩
    obtain ⟨d, -, h1⟩ := IsMin.exists_le (P := fun n => S.WalkVia (fun x => ord.idxOf u < ord.idxOf x) n u v) h2
    exact ⟨d, sreach_walk.2 ⟨h, h1⟩⟩

theorem wr_iff {u v : ℕ} : S.WR ord u v ↔ ord.idxOf v < ord.idxOf u ∧ ∃ n, S.WalkVia (fun x => ord.idxOf v < ord.idxOf x) n u v := by
  constructor
  · rintro ⟨d, h⟩
    obtain ⟨h1, h2⟩ := wreach_walk.1 h
    exact ⟨h1, d, h2.1⟩
  · rintro ⟨h, n, h2⟩
    obtain ⟨d, -, h1⟩ := WReach.exists_le h h2
    exact ⟨d, h1⟩

theorem PathVia.length_lt {n u v : ℕ} (h : S.PathVia P n u v) : n < S.V.card := by
  obtain ⟨p, h1, h2, h3, -⟩ := h
  have hs : (u :: (p ++ [v])).toFinset ⊆ S.V := by
    intro x hx
    rw [List.mem_toFinset] at hx
    have key : ∀ (l : List ℕ) (a : ℕ), (a :: l).IsChain S.Adj → l ≠ [] → ∀ x ∈ a :: l, x ∈ S.V := by
      intro l
      induction l with
      | nil => intro _ _ h; exact absurd rfl h
      | cons b l ih =>
        intro a hc _ x hx
        rw [List.isChain_cons_cons] at hc
        rcases List.mem_cons.1 hx with rfl | hx
        · exact hc.1.left
        · cases l with
          | nil => rw [List.mem_singleton] at hx; subst hx; exact hc.1.right
          | cons c l => exact ih b hc.2 (by simp) x hx
    exact key _ _ h1 (by simp) x hx
  have := Finset.card_le_card hs
  rw [List.toFinset_card_of_nodup h2] at this
  simp only [List.length_cons, List.length_append, List.length_nil] at this
  omega

theorem SReach.lt_card {u v d : ℕ} (h : S.SReach ord u v d) : d < S.V.card := h.2.1.length_lt
theorem WReach.lt_card {u v d : ℕ} (h : S.WReach ord u v d) : d < S.V.card := h.2.1.length_lt

theorem sr_le {u v r : ℕ} (hr : S.V.card ≤ r + 1) : (∃ d ≤ r, S.SReach ord u v d) ↔ S.SR ord u v :=
  ⟨fun ⟨d, _, h⟩ => ⟨d, h⟩, fun ⟨d, h⟩ => ⟨d, by have := h.lt_card; omega, h⟩⟩

theorem wr_le {u v r : ℕ} (hr : S.V.card ≤ r + 1) : (∃ d ≤ r, S.WReach ord u v d) ↔ S.WR ord u v :=
  ⟨fun ⟨d, _, h⟩ => ⟨d, h⟩, fun ⟨d, h⟩ => ⟨d, by have := h.lt_card; omega, h⟩⟩

theorem SR.mem (O : S.Ordering ord) {u v : ℕ} (h : S.SR ord u v) : v ∈ S.V := by
  obtain ⟨d, h⟩ := h
  obtain ⟨d', -, h'⟩ := h.weak
  exact h'.left_mem O

theorem WR.mem (O : S.Ordering ord) {u v : ℕ} (h : S.WR ord u v) : v ∈ S.V := by
  obtain ⟨d, h⟩ := h
  exact h.left_mem O

theorem SR.of_adj {u v : ℕ} (h : S.Adj u v) (hlt : ord.idxOf v < ord.idxOf u) : S.SR ord u v := sr_iff.2 ⟨hlt, 1, .one h⟩

theorem WR.of_adj {u v : ℕ} (h : S.Adj u v) (hlt : ord.idxOf v < ord.idxOf u) : S.WR ord u v := wr_iff.2 ⟨hlt, 1, .one h⟩

/-- Two vertices strongly reachable from a third are reachable from each other. -/
theorem SR.clique {v a b : ℕ} (ha : S.SR ord v a) (hb : S.SR ord v b) (hab : ord.idxOf a < ord.idxOf b) : S.SR ord b a := by
  obtain ⟨h1, n, h2⟩ := sr_iff.1 ha
  obtain ⟨h3, m, h4⟩ := sr_iff.1 hb
  exact sr_iff.2 ⟨hab, m + n, (h4.symm.mono fun x hx => lt_trans h3 hx).append h3 (h2.mono fun x hx => lt_trans h3 hx)⟩

theorem WR.chain {v a b : ℕ} (ha : S.WR ord v a) (hb : S.WR ord v b) (hab : ord.idxOf a < ord.idxOf b) : S.WR ord b a := by
  obtain ⟨h1, n, h2⟩ := wr_iff.1 ha
  obtain ⟨h3, m, h4⟩ := wr_iff.1 hb
  exact wr_iff.2 ⟨hab, m + n, (h4.symm.mono fun x hx => lt_trans hab hx).append h1 h2⟩

theorem WR.trans {u w v : ℕ} (h : S.WR ord u w) (h' : S.WR ord w v) : S.WR ord u v := by
  obtain ⟨a, h⟩ := h
  obtain ⟨b, h'⟩ := h'
  obtain ⟨d, -, h⟩ := h.trans h'
  exact ⟨d, h⟩

/-- The symmetric closure of strong reachability is a completion, and the least one. -/
theorem completion_sr (O : S.Ordering ord) (hl : S.Loopless) : S.Completion ord (fun u v => S.SR ord u v ∨ S.SR ord v u) where
  symm u v h := h.symm
  edge u v h := by
    rcases lt_trichotomy (ord.idxOf u) (ord.idxOf v) with hlt | heq | hgt
    · exact Or.inr (.of_adj h.symm hlt)
    · rw [O.idxOf_inj h.left heq] at h
      exact absurd h (hl _)
    · exact Or.inl (.of_adj h hgt)
  clique v a b ha hb hav hbv hab := by
    have side : ∀ {a}, S.SR ord v a ∨ S.SR ord a v → ord.idxOf a < ord.idxOf v → S.SR ord v a := by
      intro a h hlt
      rcases h with h | h
      · exact h
      · have := (sr_iff.1 h).1; omega
    have ha := side ha hav
    have hb := side hb hbv
    rcases lt_trichotomy (ord.idxOf a) (ord.idxOf b) with hlt | heq | hgt
    · exact Or.inr (ha.clique hb hlt)
    · exact absurd (O.idxOf_inj (ha.mem O) heq) hab
    · exact Or.inl (hb.clique ha hgt)

theorem Completion.path (O : S.Ordering ord) {R : ℕ → ℕ → Prop} (C : S.Completion ord R) : ∀ (n : ℕ) (p : List ℕ) (s v : ℕ),
    p.length = n → (s :: (p ++ [v])).IsChain S.Adj → (s :: (p ++ [v])).Nodup →
    (∀ x ∈ p, x ∈ S.V ∧ ord.idxOf s < ord.idxOf x ∧ ord.idxOf v < ord.idxOf x) → R s v := by
  intro n
  induction n using Nat.strong_induction_on with
  | _ n ih =>
    intro p s v hn hc hd hp
    rcases p.eq_nil_or_concat' with rfl | ⟨_, _, hne⟩
    · simp only [List.nil_append, List.isChain_cons_cons] at hc
      exact C.edge _ _ hc.1
    have hne : p.toFinset.Nonempty := by
      rw [List.toFinset_nonempty_iff, hne]; simp
    obtain ⟨w, hw, hmin⟩ := Finset.exists_min_image p.toFinset (fun x => ord.idxOf x) hne
    rw [List.mem_toFinset] at hw
    obtain ⟨a, b, rfl⟩ := List.append_of_mem hw
    obtain ⟨hwV, hsw, hvw⟩ := hp w (by simp)
    simp only [List.append_assoc, List.cons_append] at hc hd
    have hd' := hd
    rw [List.nodup_cons, List.nodup_append] at hd
    obtain ⟨hs, hda, hdb, hdis⟩ := hd
    have hlt : ∀ x ∈ a ++ w :: b, x ≠ w → ord.idxOf w < ord.idxOf x := by
      intro x hx hxw
      have := hmin x (List.mem_toFinset.2 hx)
      rcases Nat.lt_or_eq_of_le this with h | h
      · exact h
      · exact absurd (O.idxOf_inj hwV h).symm hxw
    have haw : ∀ x ∈ a, x ≠ w := by
      rintro x hx rfl
      exact hdis x hx x (by simp) rfl
    have hbw : ∀ x ∈ b, x ≠ w := by
      rintro x hx rfl
      rw [List.nodup_cons] at hdb
      exact hdb.1 (by simp [hx])
    have e1 : R s w := by
      refine ih a.length ?_ a s w rfl ?_ ?_ fun x hx => ?_
      · simp only [List.length_append, List.length_cons] at hn; omega
      · have : s :: (a ++ w :: (b ++ [v])) = (s :: (a ++ [w])) ++ (b ++ [v]) := by simp
        rw [this] at hc
        exact hc.left_of_append
      · have : s :: (a ++ w :: (b ++ [v])) = (s :: (a ++ [w])) ++ (b ++ [v]) := by simp
        rw [this] at hd'
        exact (List.nodup_append.1 hd').1
      · obtain ⟨h1, h2, -⟩ := hp x (by simp [hx])
        exact ⟨h1, h2, hlt x (by simp [hx]) (haw x hx)⟩
    have e2 : R w v := by
      refine ih b.length ?_ b w v rfl ?_ ?_ fun x hx => ?_
      · simp only [List.length_append, List.length_cons] at hn; omega
      · have : s :: (a ++ w :: (b ++ [v])) = (s :: a) ++ (w :: (b ++ [v])) := by simp
        rw [this] at hc
        exact hc.right_of_append
      · exact hdb
      · obtain ⟨h1, -, h2⟩ := hp x (by simp [hx])
        exact ⟨h1, hlt x (by simp [hx]) (hbw x hx), h2⟩
    refine C.clique w s v (C.symm _ _ e1) e2 hsw hvw ?_
    rintro rfl
    exact hs (by simp)

theorem Completion.sr (O : S.Ordering ord) {R : ℕ → ℕ → Prop} (C : S.Completion ord R) {u v : ℕ} (h : S.SR ord u v) : R u v := by
  obtain ⟨d, hlt, ⟨p, h1, h2, -, h4⟩, -⟩ := h
  refine C.path O p.length p u v rfl h1 h2 fun x hx => ⟨?_, h4 x hx, lt_trans hlt (h4 x hx)⟩
  obtain ⟨a, b, rfl⟩ := List.append_of_mem hx
  have : u :: (a ++ x :: b ++ [v]) = (u :: a) ++ (x :: (b ++ [v])) := by simp
  rw [this] at h1
  have h1 := h1.right_of_append
  cases b with
  | nil => simp only [List.nil_append, List.isChain_cons_cons] at h1; exact h1.1.left
  | cons y b => simp only [List.cons_append, List.isChain_cons_cons] at h1; exact h1.1.left

/-- Every key is realised by an ordering that lists smaller keys first. -/
theorem exists_ordering (S : SGraph) (key : ℕ → ℕ) : ∃ ord, S.Ordering ord ∧
    ∀ u ∈ S.V, ∀ v ∈ S.V, ord.idxOf u < ord.idxOf v → key u ≤ key v := by
  let le : ℕ → ℕ → Bool := fun a b => decide (key a ≤ key b)
  have hp : (S.V.toList.mergeSort le).Pairwise (fun a b => le a b = true) :=
    List.pairwise_mergeSort (le := le) (fun a b c h1 h2 => decide_eq_true (le_trans (of_decide_eq_true h1) (of_decide_eq_true h2)))
      (fun a b => by
        rw [Bool.or_eq_true]
        rcases le_total (key a) (key b) with h | h
        · exact Or.inl (decide_eq_true h)
        · exact Or.inr (decide_eq_true h)) _
  have hperm := List.mergeSort_perm S.V.toList le
  have hm : ∀ u, u ∈ S.V.toList.mergeSort le ↔ u ∈ S.V := fun u => by rw [hperm.mem_iff, Finset.mem_toList]
  refine ⟨_, ⟨hperm.nodup_iff.2 S.V.nodup_toList, hm⟩, fun u hu v hv hlt => ?_⟩
  rw [List.pairwise_iff_getElem] at hp
  have h1 := List.idxOf_lt_length_iff.2 ((hm u).2 hu)
  have h2 := List.idxOf_lt_length_iff.2 ((hm v).2 hv)
  have := hp _ _ h1 h2 hlt
  rw [List.getElem_idxOf, List.getElem_idxOf] at this
  exact of_decide_eq_true this

/-! ## Treewidth -/

open Classical in
/-- The strongly reachable sets of an ordering are the bags of a tree decomposition. -/
theorem Ordering.treeDecomp (O : S.Ordering ord) (hl : S.Loopless) : ∃ par depth top,
    S.TreeDecomp (fun t => insert t (S.V.filter (fun v => S.SR ord t v))) par depth top := by
  have hpar : ∀ t, ∃ p, (∃ v, S.SR ord t v) → S.SR ord t p ∧ ∀ v, S.SR ord t v → ord.idxOf v ≤ ord.idxOf p := by
    intro t
    by_cases h : ∃ v, S.SR ord t v
    · obtain ⟨v, hv⟩ := h
      obtain ⟨p, hp, hmax⟩ := Finset.exists_max_image (S.V.filter (fun v => S.SR ord t v)) (fun x => ord.idxOf x)
        ⟨v, Finset.mem_filter.2 ⟨hv.mem O, hv⟩⟩
      exact ⟨p, fun _ => ⟨(Finset.mem_filter.1 hp).2, fun v hv => hmax v (Finset.mem_filter.2 ⟨hv.mem O, hv⟩)⟩⟩
    · exact ⟨t, fun h' => absurd h' h⟩
  choose par hpar using hpar
  refine ⟨par, fun t => ord.idxOf t, id, fun v _ => Finset.mem_insert_self _ _, fun u v h => ?_, fun v t hv hne => ?_⟩
  · rcases lt_trichotomy (ord.idxOf u) (ord.idxOf v) with hlt | heq | hgt
    · exact ⟨v, Finset.mem_insert_of_mem (Finset.mem_filter.2 ⟨h.left, .of_adj h.symm hlt⟩), Finset.mem_insert_self _ _⟩
    · rw [O.idxOf_inj h.left heq] at h
      exact absurd h (hl _)
    · exact ⟨u, Finset.mem_insert_self _ _, Finset.mem_insert_of_mem (Finset.mem_filter.2 ⟨h.right, .of_adj h hgt⟩)⟩
  · rw [Finset.mem_insert] at hv
    rcases hv with rfl | hv
    · exact absurd rfl hne
    obtain ⟨hvV, hv⟩ := Finset.mem_filter.1 hv
    obtain ⟨h1, h2⟩ := hpar t ⟨v, hv⟩
    refine ⟨?_, (sr_iff.1 h1).1⟩
    rw [Finset.mem_insert]
    rcases Nat.lt_or_eq_of_le (h2 v hv) with h | h
    · exact Or.inr (Finset.mem_filter.2 ⟨hvV, hv.clique h1 h⟩)
    · exact Or.inl (O.idxOf_inj hvV h)

variable {bag : ℕ → Finset ℕ} {par depth top : ℕ → ℕ}

theorem TreeDecomp.top_le (D : S.TreeDecomp bag par depth top) (v : ℕ) : ∀ (n t : ℕ), depth t = n → v ∈ bag t →
    depth (top v) ≤ depth t := by
  intro n
  induction n using Nat.strong_induction_on with
  | _ n ih =>
    intro t hn hv
    by_cases ht : t = top v
    · rw [ht]
    · obtain ⟨h1, h2⟩ := D.subtree v t hv ht
      have := ih _ (by omega) (par t) rfl h1
      omega

/-- If the top of `a` is not deeper than that of `v`, a common bag can be moved to the top of `v`. -/
theorem TreeDecomp.climb (D : S.TreeDecomp bag par depth top) {a v : ℕ} (hav : depth (top a) ≤ depth (top v)) :
    ∀ (n t : ℕ), depth t = n → a ∈ bag t → v ∈ bag t → a ∈ bag (top v) := by
  intro n
  induction n using Nat.strong_induction_on with
  | _ n ih =>
    intro t hn ha hv
    by_cases ht : t = top v
    · rwa [← ht]
    · obtain ⟨h1, h2⟩ := D.subtree v t hv ht
      have hta : t ≠ top a := by
        rintro rfl
        have := D.top_le v _ _ rfl h1
        omega
      exact ih _ (by omega) (par t) rfl (D.subtree a t ha hta).1 h1

theorem TreeDecomp.completion (D : S.TreeDecomp bag par depth top)
    (hord : ∀ u ∈ S.V, ∀ v ∈ S.V, ord.idxOf u < ord.idxOf v → depth (top u) ≤ depth (top v)) :
    S.Completion ord (fun u v => u ∈ S.V ∧ v ∈ S.V ∧ ∃ t, u ∈ bag t ∧ v ∈ bag t) where
  symm _ _ := fun ⟨h1, h2, t, h3, h4⟩ => ⟨h2, h1, t, h4, h3⟩
  edge u v h := ⟨h.left, h.right, D.edge u v h⟩
  clique v a b := fun ⟨hv, ha, t, h1, h2⟩ ⟨_, hb, t', h3, h4⟩ hav hbv _ =>
    ⟨ha, hb, top v, D.climb (hord a ha v hv hav) _ t rfl h2 h1, D.climb (hord b hb v hv hbv) _ t' rfl h4 h3⟩

theorem TreeDecomp.sr_mem (D : S.TreeDecomp bag par depth top) (O : S.Ordering ord)
    (hord : ∀ u ∈ S.V, ∀ v ∈ S.V, ord.idxOf u < ord.idxOf v → depth (top u) ≤ depth (top v)) {v a : ℕ} (h : S.SR ord v a) :
    a ∈ bag (top v) := by
  obtain ⟨hv, ha, t, h1, h2⟩ := (D.completion hord).sr O h
  exact D.climb (hord a ha v hv (sr_iff.1 h).1) _ t rfl h2 h1

open Classical in
/-- Orderings whose strongly reachable sets have at most `k` elements exist exactly if the treewidth is at most `k`. -/
theorem treewidth_iff (hl : S.Loopless) (k : ℕ) : S.TreewidthLE k ↔
    ∃ ord, S.Ordering ord ∧ ∀ v ∈ S.V, (S.V.filter (fun u => S.SR ord v u)).card ≤ k := by
  constructor
  · rintro ⟨bag, par, depth, top, D, hk⟩
    obtain ⟨ord, O, hord⟩ := S.exists_ordering (fun v => depth (top v))
    refine ⟨ord, O, fun v hv => ?_⟩
    have : insert v (S.V.filter (fun u => S.SR ord v u)) ⊆ bag (top v) := by
      intro x hx
      rcases Finset.mem_insert.1 hx with rfl | hx
      · exact D.vertex _ hv
      · exact D.sr_mem O hord (Finset.mem_filter.1 hx).2
    have h := (Finset.card_le_card this).trans (hk _)
    rw [Finset.card_insert_of_notMem] at h
    · omega
    · intro h
      have := (sr_iff.1 (Finset.mem_filter.1 h).2).1
      omega
  · rintro ⟨ord, O, h⟩
    obtain ⟨par, depth, top, D⟩ := O.treeDecomp hl
    have hk : ∀ t, (insert t (S.V.filter (fun v => S.SR ord t v))).card ≤ k + 1 := by
      intro t
      refine (Finset.card_insert_le _ _).trans (Nat.add_le_add_right ?_ 1)
      by_cases ht : t ∈ S.V
      · exact h t ht
      · rw [Finset.filter_eq_empty_iff.2]
        · simp
        · intro v _ hv
          obtain ⟨-, n, hw⟩ := sr_iff.1 hv
          cases hw with
          | one h => exact ht h.left
          | cons h _ _ => exact ht h.left
    exact ⟨_, par, depth, top, D, hk⟩

/-! ## Treedepth -/

open Classical in
/-- Orderings whose weakly reachable sets have fewer than `t` elements exist exactly if the treedepth is at most `t`. -/
theorem treedepth_of_wr (O : S.Ordering ord) {t : ℕ} (h : ∀ v ∈ S.V, (S.V.filter (fun u => S.WR ord v u)).card + 1 ≤ t) :
    S.TreedepthLE t := by
  refine ⟨fun u v => S.WR ord v u, fun u hu => ?_, fun u v w h1 h2 => h2.trans h1, fun u v w h1 h2 => ?_, fun u v ha hne => ?_,
    fun v hv X hX hA => ?_⟩
  · have := (wr_iff.1 hu).1; omega
  · rcases lt_trichotomy (ord.idxOf u) (ord.idxOf v) with hlt | heq | hgt
    · exact Or.inr (Or.inl (h1.chain h2 hlt))
    · exact Or.inl (O.idxOf_inj (h1.mem O) heq)
    · exact Or.inr (Or.inr (h2.chain h1 hgt))
  · rcases lt_trichotomy (ord.idxOf u) (ord.idxOf v) with hlt | heq | hgt
    · exact Or.inl (.of_adj ha.symm hlt)
    · exact absurd (O.idxOf_inj ha.left heq) hne
    · exact Or.inr (.of_adj ha hgt)
  · refine le_trans (Nat.add_le_add_right (Finset.card_le_card fun x hx => ?_) 1) (h v hv)
    exact Finset.mem_filter.2 ⟨hX hx, hA x hx⟩

open Classical in
theorem wr_of_treedepth (hl : S.Loopless) {t : ℕ} (h : S.TreedepthLE t) : ∃ ord, S.Ordering ord ∧
    ∀ v ∈ S.V, (S.V.filter (fun u => S.WR ord v u)).card + 1 ≤ t := by
  obtain ⟨anc, hirr, htr, hch, hadj, hcard⟩ := h
  obtain ⟨ord, O, hord⟩ := S.exists_ordering (fun v => (S.V.filter (fun u => anc u v)).card)
  have hext : ∀ u v, u ∈ S.V → v ∈ S.V → anc u v → ¬ ord.idxOf v < ord.idxOf u := by
    intro u v hu hv huv hlt
    have h1 := hord v hv u hu hlt
    have h2 : S.V.filter (fun x => anc x u) ⊂ S.V.filter (fun x => anc x v) := by
      rw [Finset.ssubset_iff_of_subset]
      · exact ⟨u, Finset.mem_filter.2 ⟨hu, huv⟩, fun h => hirr u (Finset.mem_filter.1 h).2⟩
      · intro x hx
        obtain ⟨h3, h4⟩ := Finset.mem_filter.1 hx
        exact Finset.mem_filter.2 ⟨h3, htr _ _ _ h4 huv⟩
    have := Finset.card_lt_card h2
    omega
  have key : ∀ {u n v}, S.WalkVia (fun x => ord.idxOf u < ord.idxOf x) n v u → ord.idxOf u < ord.idxOf v → anc u v := by
    intro u n v h
    generalize hP : (fun x => ord.idxOf u < ord.idxOf x) = P at h
    induction h with
    | @one v u h =>
      intro hlt
      rcases hadj v u h (by rintro rfl; exact hl _ h) with h1 | h1
      · exact absurd hlt (hext _ _ h.left h.right h1)
      · exact h1
    | @cons n v w u h hw _ ih =>
      intro hlt
      have hw' : ord.idxOf u < ord.idxOf w := by rw [← hP] at hw; exact hw
      have h1 := ih hP hw'
      rcases hadj v w h (by rintro rfl; exact hl _ h) with h2 | h2
      · rcases hch u v w h1 h2 with h3 | h3 | h3
        · rw [h3] at hlt; omega
        · exact h3
        · rename_i t
          have hu : u ∈ S.V := by
            cases t.symm with
            | one h => exact h.left
            | cons h _ _ => exact h.left
          exact absurd hlt (hext _ _ h.left hu h3)
      · exact htr _ _ _ h1 h2
  refine ⟨ord, O, fun v hv => hcard v hv _ (Finset.filter_subset _ _) fun x hx => ?_⟩
  obtain ⟨h1, n, h2⟩ := wr_iff.1 (Finset.mem_filter.1 hx).2
  exact key h2 h1

end SGraph
end Verif
