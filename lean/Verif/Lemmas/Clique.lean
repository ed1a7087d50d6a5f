import Verif.Lemmas.Colour
import Verif.Lemmas.Operations
import Verif.Spec.Clique
import Mathlib.Data.Finset.Sort
/-!
# Counting maximal cliques
-/
namespace Verif
open SGraph

namespace Clique
variable {S : SGraph} {ord : List ℕ}

/-- `K` is a maximal clique of the subgraph induced by the vertices in `l`. -/
def MaxCl (S : SGraph) (l : List ℕ) (K : Finset ℕ) : Prop :=
  (∀ a ∈ K, a ∈ l) ∧ (∀ a ∈ K, ∀ b ∈ K, a ≠ b → S.Adj a b) ∧ ∀ x ∈ l, x ∉ K → ∃ y ∈ K, ¬ S.Adj x y

/-- Non-adjacency is transitive within `l`. -/
def CoTrans (S : SGraph) (l : List ℕ) : Prop :=
  ∀ a ∈ l, ∀ b ∈ l, ∀ c ∈ l, ¬ S.Adj a b → ¬ S.Adj b c → ¬ S.Adj a c

theorem maxCl_nil {K : Finset ℕ} : MaxCl S [] K ↔ K = ∅ := by
  constructor
  · intro h
    refine Finset.eq_empty_of_forall_notMem fun x hx => ?_
    exact absurd (h.1 x hx) (by simp)
  · rintro rfl
    exact ⟨by simp, by simp, by simp⟩

/-- Maximal cliques of a complete multipartite graph via the part of `u`. -/
theorem maxCl_pivot (hl : S.Loopless) {l left : List ℕ} {u : ℕ} (hu : u ∈ l) (hct : CoTrans S l)
    (hleft : ∀ x, x ∈ left ↔ x ∈ l ∧ S.Adj u x) {K : Finset ℕ} :
    MaxCl S l K ↔ ∃ w ∈ l, w ∉ left ∧ ∃ K', MaxCl S left K' ∧ K = insert w K' := by
  have hnl : ∀ x ∈ l, x ∉ left → ¬ S.Adj u x := fun x hx h ha => h ((hleft x).2 ⟨hx, ha⟩)
  -- everything outside `left` has the same neighbours
  have hsame : ∀ w ∈ l, w ∉ left → ∀ x ∈ left, S.Adj w x := by
    intro w hw hwl x hx
    by_contra hc
    obtain ⟨h1, h2⟩ := (hleft x).1 hx
    exact hct u hu w hw x h1 (hnl w hw hwl) hc h2
  have hpart : ∀ w ∈ l, w ∉ left → ∀ x ∈ l, x ∉ left → ¬ S.Adj x w := by
    intro w hw hwl x hx hxl
    exact hct x hx u hu w hw (fun h => hnl x hx hxl h.symm) (hnl w hw hwl)
  constructor
  · rintro ⟨h1, h2, h3⟩
    obtain ⟨w, hw, hwl⟩ : ∃ w ∈ K, w ∉ left := by
      by_contra hc
      push Not at hc
      have huK : u ∉ K := fun h => hl u ((hleft u).1 (hc u h)).2
      obtain ⟨y, hy, hn⟩ := h3 u hu huK
      exact hn ((hleft y).1 (hc y hy)).2
    refine ⟨w, h1 w hw, hwl, K.erase w, ⟨?_, ?_, ?_⟩, (Finset.insert_erase hw).symm⟩
    · intro a ha
      obtain ⟨ha1, ha2⟩ := Finset.mem_erase.1 ha
      by_contra hc
      exact hpart w (h1 w hw) hwl a (h1 a ha2) hc (h2 a ha2 w hw ha1)
    · intro a ha b hb
      exact h2 a (Finset.mem_of_mem_erase ha) b (Finset.mem_of_mem_erase hb)
    · intro x hx hxk
      have hxw : x ≠ w := by rintro rfl; exact hwl hx
      obtain ⟨y, hy, hn⟩ := h3 x ((hleft x).1 hx).1 (fun h => hxk (Finset.mem_erase.2 ⟨hxw, h⟩))
      refine ⟨y, Finset.mem_erase.2 ⟨?_, hy⟩, hn⟩
      rintro rfl
      exact hn (hsame y (h1 y hy) hwl x hx).symm
  · rintro ⟨w, hw, hwl, K', ⟨h1, h2, h3⟩, rfl⟩
    refine ⟨?_, ?_, ?_⟩
    · intro a ha
      rcases Finset.mem_insert.1 ha with rfl | ha
      · exact hw
      · exact ((hleft a).1 (h1 a ha)).1
    · intro a ha b hb hab
      rcases Finset.mem_insert.1 ha with rfl | ha' <;> rcases Finset.mem_insert.1 hb with rfl | hb'
      · exact absurd rfl hab
      · exact hsame a hw hwl b (h1 b hb')
      · exact (hsame b hw hwl a (h1 a ha')).symm
      · exact h2 a ha' b hb' hab
    · intro x hx hxk
      by_cases hxl : x ∈ left
      · obtain ⟨y, hy, hn⟩ := h3 x hxl (fun h => hxk (Finset.mem_insert_of_mem h))
        exact ⟨y, Finset.mem_insert_of_mem hy, hn⟩
      · exact ⟨w, Finset.mem_insert_self _ _, hpart w hw hwl x hx hxl⟩

/-- The results hold exactly the sets satisfying `P`, each as its increasing sequence. -/
def Stores (R : HSet (List ℕ)) (P : Finset ℕ → Prop) : Prop := ∀ c, c ∈ R ↔ c.Pairwise (· < ·) ∧ P c.toFinset

theorem Stores.congr {R : HSet (List ℕ)} {P Q : Finset ℕ → Prop} (h : Stores R P) (hq : ∀ F, P F ↔ Q F) : Stores R Q :=
  fun c => (h c).trans (and_congr_right fun _ => hq _)

/-- Effect of recording `I ∪ K` for all `K` with `Q K`. -/
def Eff (v : ℕ) (I : Finset ℕ) (Q P : Finset ℕ → Prop) (F : Finset ℕ) : Prop :=
  (P F ∧ ¬ ∃ K, Q K ∧ F = (I ∪ K).erase v) ∨ ∃ K, Q K ∧ F = I ∪ K

theorem eff_eff {v : ℕ} {I : Finset ℕ} (hv : v ∈ I) {Q1 Q2 P : Finset ℕ → Prop} {F : Finset ℕ} :
    Eff v I Q2 (Eff v I Q1 P) F ↔ Eff v I (fun K => Q1 K ∨ Q2 K) P F := by
  unfold Eff
  constructor
  · rintro (⟨⟨h1, h2⟩ | ⟨K, h1, rfl⟩, h3⟩ | ⟨K, h1, rfl⟩)
    · refine Or.inl ⟨h1, ?_⟩
      rintro ⟨K, hK | hK, he⟩
      · exact h2 ⟨K, hK, he⟩
      · exact h3 ⟨K, hK, he⟩
    · exact Or.inr ⟨K, Or.inl h1, rfl⟩
    · exact Or.inr ⟨K, Or.inr h1, rfl⟩
  · rintro (⟨h1, h2⟩ | ⟨K, h1 | h1, rfl⟩)
    · exact Or.inl ⟨Or.inl ⟨h1, fun ⟨K, hK, he⟩ => h2 ⟨K, Or.inl hK, he⟩⟩, fun ⟨K, hK, he⟩ => h2 ⟨K, Or.inr hK, he⟩⟩
    · refine Or.inl ⟨Or.inr ⟨K, h1, rfl⟩, ?_⟩
      rintro ⟨K', -, he⟩
      have : v ∈ I ∪ K := Finset.mem_union_left _ hv
      rw [he] at this
      simp at this
    · exact Or.inr ⟨K, h1, rfl⟩

theorem btree_spec (I : HSet ℕ) : (LinGraph.btree I).Pairwise (· < ·) ∧ ∀ x, x ∈ LinGraph.btree I ↔ x ∈ I := by
  unfold LinGraph.btree
  have hp := List.perm_insertionSort (fun a b : ℕ => a ≤ b) I.toList
  have i1 : Std.Total (fun a b : ℕ => a ≤ b) := ⟨fun a b => Nat.le_total _ _⟩
  have i2 : IsTrans ℕ (fun a b : ℕ => a ≤ b) := ⟨fun a b c => Nat.le_trans⟩
  have hs := List.pairwise_insertionSort (fun a b : ℕ => a ≤ b) I.toList
  have hn : (I.toList.insertionSort (fun a b : ℕ => a ≤ b)).Nodup := hp.nodup_iff.2 I.nodup
  refine ⟨?_, fun x => by rw [hp.mem_iff, HSet.mem_toList]⟩
  exact (hs.and hn).imp fun h => lt_of_le_of_ne h.1 h.2

theorem eq_btree {I : HSet ℕ} {c : List ℕ} (hc : c.Pairwise (· < ·)) :
    c = LinGraph.btree I ↔ ∀ x, x ∈ c ↔ x ∈ I := by
  obtain ⟨h1, h2⟩ := btree_spec I
  constructor
  · rintro rfl; exact h2
  · intro h
    exact eq_of_sorted_by (f := id) hc h1 fun w => (h w).trans (h2 w).symm

theorem Stores.record {R : HSet (List ℕ)} {P : Finset ℕ → Prop} (h : Stores R P) (hne : ∀ F, P F → F.Nonempty) {v : ℕ}
    {I : HSet ℕ} (hv : v ∈ I) :
    Stores (LinGraph.record v I R) (Eff v I.toList.toFinset (fun K => K = ∅) P) := by
  have hI : ∀ x, x ∈ I.toList.toFinset ↔ x ∈ I := fun x => by rw [List.mem_toFinset, HSet.mem_toList]
  have hEff : ∀ F, Eff v I.toList.toFinset (fun K => K = ∅) P F ↔
      (P F ∧ F ≠ I.toList.toFinset.erase v) ∨ F = I.toList.toFinset := by
    intro F
    unfold Eff
    simp
  intro c
  rw [hEff]
  unfold LinGraph.record
  have hins : c ∈ R.insert (LinGraph.btree I) ↔ c.Pairwise (· < ·) ∧ (P c.toFinset ∨ c.toFinset = I.toList.toFinset) := by
    rw [HSet.mem_insert, h c]
    constructor
    · rintro (rfl | ⟨h1, h2⟩)
      · obtain ⟨h1, h2⟩ := btree_spec I
        refine ⟨h1, Or.inr ?_⟩
        ext x; rw [hI, List.mem_toFinset, h2]
      · exact ⟨h1, Or.inl h2⟩
    · rintro ⟨h1, h2 | h2⟩
      · exact Or.inr ⟨h1, h2⟩
      · left
        rw [eq_btree h1]
        intro x; rw [← hI, ← h2, List.mem_toFinset]
  simp only
  split
  · rw [HSet.mem_remove, hins]
    have hrem : c.Pairwise (· < ·) → (c = LinGraph.btree (I.remove v) ↔ c.toFinset = I.toList.toFinset.erase v) := by
      intro hc
      rw [eq_btree hc, Finset.ext_iff]
      refine forall_congr' fun x => ?_
      rw [HSet.mem_remove, List.mem_toFinset, Finset.mem_erase, hI, and_comm]
    constructor
    · rintro ⟨⟨h1, h2⟩, h3⟩
      refine ⟨h1, ?_⟩
      rcases h2 with h2 | h2
      · exact Or.inl ⟨h2, fun h => h3 ((hrem h1).2 h)⟩
      · exact Or.inr h2
    · rintro ⟨h1, ⟨h2, h3⟩ | h2⟩
      · exact ⟨⟨h1, Or.inl h2⟩, fun h => h3 ((hrem h1).1 h)⟩
      · refine ⟨⟨h1, Or.inr h2⟩, fun h => ?_⟩
        have h4 := (hrem h1).1 h
        rw [h2] at h4
        have : v ∈ I.toList.toFinset := (hI v).2 hv
        rw [h4] at this
        simp at this
  · rename_i hlen
    rw [hins]
    refine and_congr_right fun hc => ?_
    constructor
    · rintro (h2 | h2)
      · refine Or.inl ⟨h2, fun he => ?_⟩
        have hcard : I.toList.toFinset.card ≤ 1 := by
          rw [List.toFinset_card_of_nodup I.nodup]
          have : I.len = I.toList.length := rfl
          omega
        have h0 : I.toList.toFinset.erase v = ∅ := by
          rw [← Finset.card_eq_zero, Finset.card_erase_of_mem ((hI v).2 hv)]
          omega
        rw [h0] at he
        exact absurd (hne _ h2) (by rw [he]; simp)
      · exact Or.inr h2
    · rintro (⟨h2, -⟩ | h2)
      · exact Or.inl h2
      · exact Or.inr h2

theorem eff_nonempty {v : ℕ} {I : Finset ℕ} (hv : v ∈ I) {Q P : Finset ℕ → Prop} (h : ∀ F, P F → F.Nonempty) :
    ∀ F, Eff v I Q P F → F.Nonempty := by
  rintro F (⟨h1, -⟩ | ⟨K, -, rfl⟩)
  · exact h F h1
  · exact ⟨v, Finset.mem_union_left _ hv⟩

theorem find_last {p : ℕ × ℕ → Bool} (l : List ℕ) (u : ℕ) (h : p (u, l.length) = true) :
    (l ++ [u]).zipIdx.reverse.find? p = some (u, l.length) := by
  rw [List.zipIdx_append]
  simp [h]

theorem picks_nil {K : Finset ℕ} : S.Picks [] K ↔ K = ∅ := by
  constructor
  · intro h
    generalize hl : ([] : List ℕ) = l at h
    cases h with
    | nil => rfl
    | cons => simp at hl
  · rintro rfl; exact .nil

theorem picks_concat {l : List ℕ} {u : ℕ} {K : Finset ℕ} : S.Picks (l ++ [u]) K ↔
    ∃ w ∈ l ++ [u], ¬ S.Adj u w ∧ ∃ K', S.Picks (l.filter (fun x => decide (S.Adj u x))) K' ∧ K = insert w K' := by
  constructor
  · intro h
    generalize hl : l ++ [u] = l' at h
    cases h with
    | nil => simp at hl
    | @cons l1 u1 w K' hw hn h =>
      obtain ⟨rfl, h2⟩ := List.append_inj' hl rfl
      obtain rfl : u = u1 := by simpa using h2
      exact ⟨w, hw, hn, K', h, rfl⟩
  · rintro ⟨w, hw, hn, K', h, rfl⟩
    exact .cons hw hn h

/-- If non-adjacency is transitive within `l`, the selections are the maximal cliques. -/
theorem picks_iff_maxCl (hl : S.Loopless) : ∀ (n : ℕ) (l : List ℕ), l.length ≤ n → CoTrans S l →
    ∀ K, S.Picks l K ↔ MaxCl S l K := by
  intro n
  induction n with
  | zero =>
    intro l hn _ K
    obtain rfl := List.length_eq_zero_iff.1 (Nat.le_zero.1 hn)
    rw [picks_nil, maxCl_nil]
  | succ n ih =>
    intro l hn hct K
    rcases List.eq_nil_or_concat l with rfl | ⟨l0, u, rfl⟩
    · rw [picks_nil, maxCl_nil]
    · rw [List.concat_eq_append] at *
      have hleft : ∀ x, x ∈ l0.filter (fun x => decide (S.Adj u x)) ↔ x ∈ l0 ++ [u] ∧ S.Adj u x := by
        intro x
        rw [List.mem_filter, decide_eq_true_eq]
        refine ⟨fun h => ⟨by simp [h.1], h.2⟩, fun ⟨h1, h2⟩ => ⟨?_, h2⟩⟩
        rcases List.mem_append.1 h1 with h | h
        · exact h
        · simp only [List.mem_singleton] at h
          subst h
          exact absurd h2 (hl x)
      have hlen : (l0.filter (fun x => decide (S.Adj u x))).length ≤ n := by
        have := List.length_filter_le (fun x => decide (S.Adj u x)) l0
        simp only [List.length_append, List.length_singleton] at hn
        omega
      have ih' := ih _ hlen (fun a ha b hb c hc => hct a ((hleft a).1 ha).1 b ((hleft b).1 hb).1 c ((hleft c).1 hc).1)
      rw [picks_concat, maxCl_pivot hl (by simp) hct hleft]
      refine exists_congr fun w => and_congr_right fun hw => ?_
      simp only [ih', hleft]
      constructor
      · rintro ⟨h1, h2⟩; exact ⟨fun hc => h1 hc.2, h2⟩
      · rintro ⟨h1, h2⟩; exact ⟨fun hc => h1 ⟨hw, hc⟩, h2⟩

/-- The recursion enumerates the selections from the layers of `l`. -/
theorem bkPivot {L : LinGraph} (H : L.LRep S ord) {v : ℕ} : ∀ (fuel : ℕ) (l : List ℕ) (I maybe excl : HSet ℕ)
    (R : HSet (List ℕ)) (P : Finset ℕ → Prop), l.length < fuel → l.Nodup → (∀ x ∈ l, x ∉ I) → v ∈ I →
    (∀ x, x ∈ maybe ↔ x ∈ l) → (∀ x, x ∉ excl) → Stores R P → (∀ F, P F → F.Nonempty) →
    Ok (L.bkPivot v fuel l I maybe excl R) (fun r => (∀ x, x ∈ r.1 ↔ x ∈ I) ∧
      Stores r.2 (Eff v I.toList.toFinset (S.Picks l) P)) := by
  intro fuel
  induction fuel with
  | zero => intro l _ _ _ _ _ h; omega
  | succ fuel ih =>
    intro l I maybe excl R P hf hnd hdisj hv hmay hexc hR hne
    have hexl : excl.len = 0 := by
      have : excl.toList = [] := List.eq_nil_iff_forall_not_mem.2 fun x hx => hexc x (HSet.mem_toList.1 hx)
      show excl.toList.length = 0
      rw [this]; rfl
    unfold LinGraph.bkPivot
    rcases List.eq_nil_or_concat l with rfl | ⟨l0, u, rfl⟩
    · have hml : maybe.len = 0 := by
        have : maybe.toList = [] := List.eq_nil_iff_forall_not_mem.2 fun x hx => by
          have := (hmay x).1 (HSet.mem_toList.1 hx); simp at this
        show maybe.toList.length = 0
        rw [this]; rfl
      rw [if_pos (by simp [hml, hexl])]
      refine Ok.pure ⟨fun x => Iff.rfl, (hR.record hne hv).congr fun F => ?_⟩
      have : (fun K : Finset ℕ => K = ∅) = S.Picks [] := by funext K; exact propext picks_nil.symm
      rw [this]
    · rw [List.concat_eq_append] at *
      have hum : u ∈ maybe := (hmay u).2 (by simp)
      have hml : maybe.len ≠ 0 := by
        intro h0
        have : maybe.toList = [] := List.length_eq_zero_iff.1 h0
        have h1 := HSet.mem_toList.2 hum
        rw [this] at h1; simp at h1
      rw [if_neg (by simp [hml])]
      rw [find_last l0 u (by simp [HSet.contains_iff, hum]), unwrap_some, bind_ok]
      simp only
      have hadj : ∀ a ∈ l0, (fun w => L.adjacent u w) a = .ok (decide (S.Adj u a)) := fun a _ => H.rep.adjacent u a
      rw [List.take_left' rfl, filterR_ok hadj, bind_ok]
      rw [List.take_of_length_le (by simp)]
      have hu0 : u ∉ l0 := by
        have := List.nodup_append.1 hnd
        intro h
        exact this.2.2 u h u (by simp) rfl
      generalize hleft' : l0.filter (fun a => decide (S.Adj u a)) = left
      have hleft : ∀ x, x ∈ left ↔ x ∈ l0 ++ [u] ∧ S.Adj u x := by
        intro x
        rw [← hleft', List.mem_filter, decide_eq_true_eq]
        refine ⟨fun h => ⟨by simp [h.1], h.2⟩, fun ⟨h1, h2⟩ => ⟨?_, h2⟩⟩
        rcases List.mem_append.1 h1 with h | h
        · exact h
        · simp only [List.mem_singleton] at h
          subst h
          exact absurd h2 (H.loopless x)
      have hlset : ∀ x, (HSet.ofList left).contains x = true ↔ x ∈ left := fun x => by
        rw [HSet.contains_iff, HSet.mem_ofList]
      have hleftlen : left.length ≤ l0.length := by rw [← hleft']; exact List.length_filter_le _ _
      have hleftnd : left.Nodup := by
        rw [← hleft']; exact (List.nodup_append.1 hnd).1.filter _
      have hlen : (l0 ++ [u]).length = l0.length + 1 := by simp
      have hpiv : ∀ K, S.Picks (l0 ++ [u]) K ↔ ∃ w ∈ l0 ++ [u], w ∉ left ∧ ∃ K', S.Picks left K' ∧ K = insert w K' := by
        intro K
        rw [picks_concat, hleft']
        refine exists_congr fun w => and_congr_right fun hw => and_congr_left fun _ => ?_
        rw [hleft]
        exact ⟨fun h hc => h hc.2, fun h hc => h ⟨hw, hc⟩⟩
      generalize l0 ++ [u] = l at *
      have hul : u ∈ l := (hmay u).1 hum
      have hloop := Ok.foldlM (f := LinGraph.bkStep (LinGraph.bkPivot L v fuel left) (HSet.ofList left))
        (l := l.reverse) (b := ⟨I, maybe, excl, R⟩)
        (fun (pre : List ℕ) (st : LinGraph.BKState) => (∀ x, x ∈ st.incl ↔ x ∈ I) ∧
          (∀ x, x ∈ st.maybe ↔ x ∈ l ∧ ¬ (x ∈ pre ∧ x ∉ left)) ∧ (∀ x, x ∈ st.excl ↔ x ∈ pre ∧ x ∉ left) ∧
          Stores st.results (Eff v I.toList.toFinset
            (fun K => ∃ w ∈ pre, w ∉ left ∧ ∃ K', S.Picks left K' ∧ K = insert w K') P))
        ⟨fun x => Iff.rfl, fun x => by simp [hmay], fun x => by simp [hexc], hR.congr fun F => by simp [Eff]⟩ ?_
      · refine hloop.bind ?_
        rintro st ⟨h1, -, -, h4⟩
        refine Ok.pure ⟨h1, h4.congr fun F => ?_⟩
        have : (fun K => ∃ w ∈ l.reverse, w ∉ left ∧ ∃ K', S.Picks left K' ∧ K = insert w K') = S.Picks l := by
          funext K
          refine propext ?_
          rw [hpiv]
          simp only [List.mem_reverse]
        rw [this]
      · intro pre w post st hs ⟨h1, h2, h3, h4⟩
        have hwl : w ∈ l := by rw [← List.mem_reverse, hs]; simp
        have hwpre : w ∉ pre := by
          have := List.nodup_reverse.2 hnd
          rw [hs] at this
          have := List.nodup_append.1 this
          intro h
          exact this.2.2 w h w (by simp) rfl
        unfold LinGraph.bkStep
        by_cases hwleft : w ∈ left
        · rw [if_pos (by simp [(hlset w).2 hwleft])]
          refine Ok.pure ⟨h1, fun x => ?_, fun x => ?_, h4.congr fun F => ?_⟩
          · rw [h2]
            simp only [List.mem_append, List.mem_singleton]
            constructor
            · rintro ⟨hx, hn⟩
              refine ⟨hx, ?_⟩
              rintro ⟨h | rfl, hxl⟩
              · exact hn ⟨h, hxl⟩
              · exact hxl hwleft
            · rintro ⟨hx, hn⟩
              exact ⟨hx, fun h => hn ⟨Or.inl h.1, h.2⟩⟩
          · rw [h3]
            simp only [List.mem_append, List.mem_singleton]
            constructor
            · rintro ⟨h, hxl⟩; exact ⟨Or.inl h, hxl⟩
            · rintro ⟨h | rfl, hxl⟩
              · exact ⟨h, hxl⟩
              · exact absurd hwleft hxl
          · have : (fun K => ∃ w' ∈ pre ++ [w], w' ∉ left ∧ ∃ K', S.Picks left K' ∧ K = insert w' K') =
                (fun K => ∃ w' ∈ pre, w' ∉ left ∧ ∃ K', S.Picks left K' ∧ K = insert w' K') := by
              funext K
              refine propext ⟨?_, ?_⟩
              · rintro ⟨w', hw', hn, hK⟩
                rcases List.mem_append.1 hw' with h | h
                · exact ⟨w', h, hn, hK⟩
                · simp only [List.mem_singleton] at h
                  subst h
                  exact absurd hwleft hn
              · rintro ⟨w', hw', hn, hK⟩
                exact ⟨w', by simp [hw'], hn, hK⟩
            rw [this]
        · have hwm : w ∈ st.maybe := (h2 w).2 ⟨hwl, fun h => hwpre h.1⟩
          have c1 : st.maybe.contains w = true := HSet.contains_iff.2 hwm
          have c2 : (HSet.ofList left).contains w = false := by
            rw [← Bool.not_eq_true, hlset]; exact hwleft
          rw [if_neg (by simp [c1, c2])]
          have hrec := ih left (st.incl.insert w) (st.maybe.retain (fun x => (HSet.ofList left).contains x))
            (st.excl.retain (fun x => (HSet.ofList left).contains x)) st.results _ (by omega) hleftnd
            ?_ ?_ ?_ ?_ h4 (eff_nonempty (by rw [List.mem_toFinset, HSet.mem_toList]; exact hv) hne)
          · refine hrec.bind ?_
            rintro ⟨I', R'⟩ ⟨h5, h6⟩
            have hwI : w ∉ I := hdisj w hwl
            refine Ok.pure ⟨fun x => ?_, fun x => ?_, fun x => ?_, ?_⟩
            · simp only [HSet.mem_remove, h5, HSet.mem_insert, h1]
              constructor
              · rintro ⟨rfl | h, hne⟩
                · exact absurd rfl hne
                · exact h
              · intro h
                exact ⟨Or.inr h, by rintro rfl; exact hwI h⟩
            · simp only [HSet.mem_remove, h2, List.mem_append, List.mem_singleton]
              constructor
              · rintro ⟨⟨hx, hn⟩, hxw⟩
                refine ⟨hx, ?_⟩
                rintro ⟨h | h, hxl⟩
                · exact hn ⟨h, hxl⟩
                · exact hxw h
              · rintro ⟨hx, hn⟩
                refine ⟨⟨hx, fun h => hn ⟨Or.inl h.1, h.2⟩⟩, ?_⟩
                rintro rfl
                exact hn ⟨Or.inr rfl, hwleft⟩
            · simp only [HSet.mem_insert, h3, List.mem_append, List.mem_singleton]
              constructor
              · rintro (rfl | ⟨h, hxl⟩)
                · exact ⟨Or.inr rfl, hwleft⟩
                · exact ⟨Or.inl h, hxl⟩
              · rintro ⟨h | rfl, hxl⟩
                · exact Or.inr ⟨h, hxl⟩
                · exact Or.inl rfl
            · refine h6.congr fun F => ?_
              have hset : (st.incl.insert w).toList.toFinset = insert w I.toList.toFinset := by
                ext x
                simp only [List.mem_toFinset, HSet.mem_toList, HSet.mem_insert, Finset.mem_insert, h1]
              rw [hset]
              have hconv : ∀ P, Eff v (insert w I.toList.toFinset) (S.Picks left) P F ↔
                  Eff v I.toList.toFinset (fun K => ∃ K', S.Picks left K' ∧ K = insert w K') P F := by
                intro P
                have hun : ∀ K : Finset ℕ, insert w I.toList.toFinset ∪ K = I.toList.toFinset ∪ insert w K := by
                  intro K
                  rw [Finset.insert_union, Finset.union_insert]
                unfold Eff
                constructor
                · rintro (⟨hp, hn⟩ | ⟨K, hK, rfl⟩)
                  · refine Or.inl ⟨hp, ?_⟩
                    rintro ⟨_, ⟨K', hK', rfl⟩, rfl⟩
                    exact hn ⟨K', hK', by rw [hun]⟩
                  · exact Or.inr ⟨_, ⟨K, hK, rfl⟩, hun K⟩
                · rintro (⟨hp, hn⟩ | ⟨_, ⟨K, hK, rfl⟩, rfl⟩)
                  · refine Or.inl ⟨hp, ?_⟩
                    rintro ⟨K', hK', rfl⟩
                    exact hn ⟨_, ⟨K', hK', rfl⟩, by rw [hun]⟩
                  · exact Or.inr ⟨K, hK, (hun K).symm⟩
              rw [hconv, eff_eff (by rw [List.mem_toFinset, HSet.mem_toList]; exact hv)]
              have : (fun K => (∃ w' ∈ pre, w' ∉ left ∧ ∃ K', S.Picks left K' ∧ K = insert w' K') ∨
                  ∃ K', S.Picks left K' ∧ K = insert w K') =
                  (fun K => ∃ w' ∈ pre ++ [w], w' ∉ left ∧ ∃ K', S.Picks left K' ∧ K = insert w' K') := by
                funext K
                refine propext ⟨?_, ?_⟩
                · rintro (⟨w', hw', h⟩ | h)
                  · exact ⟨w', by simp [hw'], h⟩
                  · exact ⟨w, by simp, hwleft, h⟩
                · rintro ⟨w', hw', hn, h⟩
                  rcases List.mem_append.1 hw' with hp | hp
                  · exact Or.inl ⟨w', hp, hn, h⟩
                  · simp only [List.mem_singleton] at hp
                    subst hp
                    exact Or.inr h
              rw [this]
          · intro x hx
            rw [HSet.mem_insert, h1]
            rintro (rfl | h)
            · exact hwleft hx
            · exact hdisj x ((hleft x).1 hx).1 h
          · rw [HSet.mem_insert, h1]; exact Or.inr hv
          · intro x
            rw [HSet.mem_retain, hlset, h2]
            constructor
            · rintro ⟨-, h⟩; exact h
            · intro h
              exact ⟨⟨((hleft x).1 h).1, fun h' => h'.2 h⟩, h⟩
          · intro x
            rw [HSet.mem_retain, hlset, h3]
            rintro ⟨⟨-, h⟩, h'⟩
            exact h h'

theorem countMaxCliques {L : LinGraph} (H : L.LRep S ord)
    (hct : ∀ v a b c, a ∈ S.before ord v → b ∈ S.before ord v → c ∈ S.before ord v →
      ¬ S.Adj a b → ¬ S.Adj b c → ¬ S.Adj a c) :
    L.countMaxCliques = .ok S.numMaxCliques := by
  classical
  have O := H.ordering
  unfold LinGraph.countMaxCliques
  have hloop := Ok.foldlM (f := L.cliqueStep) (l := L.vertices) (b := ∅)
    (fun (pre : List ℕ) (R : HSet (List ℕ)) => Stores R (fun F => F.Nonempty ∧ MaxCl S pre F)) ?_ ?_
  · obtain ⟨R, hR, hS⟩ := hloop
    rw [hR, bind_ok]
    show Except.ok R.len = _
    congr 1
    unfold SGraph.numMaxCliques
    have hinj : ∀ a ∈ R.toList, ∀ b ∈ R.toList, a.toFinset = b.toFinset → a = b := by
      intro a ha b hb he
      have h1 := ((hS a).1 (HSet.mem_toList.1 ha)).1
      have h2 := ((hS b).1 (HSet.mem_toList.1 hb)).1
      refine eq_of_sorted_by (f := id) h1 h2 fun w => ?_
      rw [← List.mem_toFinset, he, List.mem_toFinset]
    have hnd : (R.toList.map List.toFinset).Nodup := (List.nodup_map_iff_inj_on R.nodup).2 hinj
    have : R.len = (R.toList.map List.toFinset).length := by rw [List.length_map]; rfl
    rw [this, ← List.toFinset_card_of_nodup hnd]
    congr 1
    ext F
    rw [List.mem_toFinset, List.mem_map, Finset.mem_filter, Finset.mem_powerset]
    have hmax : ∀ F, (F.Nonempty ∧ MaxCl S L.vertices F) ↔ S.IsMaxClique F := by
      intro F
      unfold IsMaxClique MaxCl IsClique
      constructor
      · rintro ⟨hne, h1, h2, h3⟩
        refine ⟨hne, ⟨fun x hx => (H.rep.vmem x).1 (h1 x hx), h2⟩, ?_⟩
        rintro K' ⟨k1, k2⟩ hsub
        refine Finset.Subset.antisymm (fun x hx => ?_) hsub
        by_contra hc
        obtain ⟨y, hy, hn⟩ := h3 x ((H.rep.vmem x).2 (k1 hx)) hc
        exact hn (k2 x hx y (hsub hy) (by rintro rfl; exact hc hy))
      · rintro ⟨hne, ⟨h1, h2⟩, h3⟩
        refine ⟨hne, fun a ha => (H.rep.vmem a).2 (h1 ha), h2, fun x hx hc => ?_⟩
        by_contra hn
        push Not at hn
        have := h3 (insert x F) ⟨?_, ?_⟩ (Finset.subset_insert _ _)
        · exact hc (this ▸ Finset.mem_insert_self x F)
        · intro a ha
          rcases Finset.mem_insert.1 ha with rfl | ha
          · exact (H.rep.vmem a).1 hx
          · exact h1 ha
        · intro a ha b hb hab
          rcases Finset.mem_insert.1 ha with rfl | ha' <;> rcases Finset.mem_insert.1 hb with rfl | hb'
          · exact absurd rfl hab
          · exact hn b hb'
          · exact (hn a ha').symm
          · exact h2 a ha' b hb' hab
    constructor
    · rintro ⟨c, hc, rfl⟩
      have := (hmax _).1 ((hS c).1 (HSet.mem_toList.1 hc)).2
      exact ⟨this.2.1.1, this⟩
    · rintro ⟨-, hF⟩
      refine ⟨F.sort (· ≤ ·), HSet.mem_toList.2 ((hS _).2 ⟨?_, ?_⟩), Finset.sort_toFinset _ _⟩
      · exact Finset.sortedLT_sort F |>.pairwise
      · rw [Finset.sort_toFinset]; exact (hmax F).2 hF
  · intro c
    constructor
    · intro h; exact absurd h HSet.not_mem_empty
    · rintro ⟨-, ⟨x, hx⟩, h, -⟩
      exact absurd (h x hx) (by simp)
  · intro pre v post R hs hR
    rw [H.verts] at hs
    have hv : v ∈ S.V := (O.mem v).1 (by rw [hs]; simp)
    have hvi : ord.idxOf v = pre.length := O.idxOf_eq (by rw [hs]; simp)
    obtain ⟨N, hN, hpw, hmem⟩ := H.left v hv
    have hnd : N.Nodup := hpw.imp fun h he => absurd h (by rw [he]; omega)
    have hbef : ∀ a, a ∈ N ↔ a ∈ S.before ord v := fun a => (hmem a).trans mem_before.symm
    have hpre : ∀ x, x ∈ N ↔ x ∈ pre ∧ S.Adj v x := by
      intro x
      rw [hmem, hvi, Ordering.idxOf_lt_split hs, and_comm]
    have hvpre : v ∉ pre := fun h => absurd ((Ordering.idxOf_lt_split hs).2 h) (by omega)
    unfold LinGraph.cliqueStep
    rw [hN, bind_ok]
    have hpm := picks_iff_maxCl H.loopless N.length N (le_refl _)
      (fun a ha b hb c hc => hct v a b c ((hbef a).1 ha) ((hbef b).1 hb) ((hbef c).1 hc))
    have hpe : S.Picks N = MaxCl S N := by funext K; exact propext (hpm K)
    refine (bkPivot H (v := v) (N.length + 1) N (HSet.empty.insert v) (HSet.ofList N) ∅ R _ (by omega) hnd
      ?_ (by simp [HSet.mem_insert])
      (fun x => HSet.mem_ofList) (fun x => HSet.not_mem_empty) hR (fun F h => h.1)).bind ?_
    · intro x hx
      rw [HSet.mem_insert]
      rintro (rfl | h)
      · exact H.loopless _ ((hmem x).1 hx).1
      · exact absurd h HSet.not_mem_empty
    · rintro ⟨I', R'⟩ ⟨-, h2⟩
      rw [hpe] at h2
      refine Ok.pure (h2.congr fun F => ?_)
      have hset : (HSet.empty.insert v : HSet ℕ).toList.toFinset = {v} := by
        ext x
        rw [List.mem_toFinset, HSet.mem_toList, HSet.mem_insert, Finset.mem_singleton]
        exact ⟨fun h => h.resolve_right HSet.not_mem_empty, Or.inl⟩
      rw [hset]
      have hvN : ∀ {K}, MaxCl S N K → v ∉ K := fun hK h => hvpre ((hpre v).1 (hK.1 v h)).1
      unfold Eff
      constructor
      · rintro (⟨⟨hne, h3, h4, h5⟩, h6⟩ | ⟨K, hK, rfl⟩)
        · refine ⟨hne, fun a ha => by simp [h3 a ha], h4, fun x hx hxF => ?_⟩
          rcases List.mem_append.1 hx with hx | hx
          · exact h5 x hx hxF
          · simp only [List.mem_singleton] at hx
            subst hx
            by_contra hc
            push Not at hc
            refine h6 ⟨F, ⟨fun a ha => (hpre a).2 ⟨h3 a ha, hc a ha⟩, h4, fun y hy => h5 y ((hpre y).1 hy).1⟩, ?_⟩
            ext y
            simp only [Finset.mem_erase, Finset.mem_union, Finset.mem_singleton]
            constructor
            · intro hy
              exact ⟨by rintro rfl; exact hxF hy, Or.inr hy⟩
            · rintro ⟨hy1, rfl | hy2⟩
              · exact absurd rfl hy1
              · exact hy2
        · obtain ⟨k1, k2, k3⟩ := hK
          refine ⟨⟨v, by simp⟩, ?_, ?_, ?_⟩
          · intro a ha
            simp only [Finset.mem_union, Finset.mem_singleton] at ha
            rcases ha with rfl | ha
            · simp
            · simp [((hpre a).1 (k1 a ha)).1]
          · intro a ha b hb hab
            simp only [Finset.mem_union, Finset.mem_singleton] at ha hb
            rcases ha with rfl | ha <;> rcases hb with rfl | hb
            · exact absurd rfl hab
            · exact ((hpre b).1 (k1 b hb)).2
            · exact ((hpre a).1 (k1 a ha)).2.symm
            · exact k2 a ha b hb hab
          · intro x hx hxF
            simp only [Finset.mem_union, Finset.mem_singleton, not_or] at hxF
            have hxp : x ∈ pre := by
              rcases List.mem_append.1 hx with hx | hx
              · exact hx
              · exact absurd (by simpa using hx) hxF.1
            by_cases ha : S.Adj v x
            · obtain ⟨y, hy, hn⟩ := k3 x ((hpre x).2 ⟨hxp, ha⟩) hxF.2
              exact ⟨y, by simp [hy], hn⟩
            · exact ⟨v, by simp, fun h => ha h.symm⟩
      · rintro ⟨hne, h3, h4, h5⟩
        by_cases hvF : v ∈ F
        · right
          refine ⟨F.erase v, ⟨?_, ?_, ?_⟩, ?_⟩
          · intro a ha
            obtain ⟨a1, a2⟩ := Finset.mem_erase.1 ha
            refine (hpre a).2 ⟨?_, h4 v hvF a a2 (Ne.symm a1)⟩
            rcases List.mem_append.1 (h3 a a2) with h | h
            · exact h
            · exact absurd (by simpa using h) a1
          · intro a ha b hb
            exact h4 a (Finset.mem_of_mem_erase ha) b (Finset.mem_of_mem_erase hb)
          · intro x hx hxF
            obtain ⟨x1, x2⟩ := (hpre x).1 hx
            have hxv : x ≠ v := by rintro rfl; exact hvpre x1
            obtain ⟨y, hy, hn⟩ := h5 x (by simp [x1]) (fun h => hxF (Finset.mem_erase.2 ⟨hxv, h⟩))
            refine ⟨y, Finset.mem_erase.2 ⟨?_, hy⟩, hn⟩
            rintro rfl
            exact hn x2.symm
          · rw [Finset.singleton_union, Finset.insert_erase hvF]
        · left
          have h3' : ∀ a ∈ F, a ∈ pre := by
            intro a ha
            rcases List.mem_append.1 (h3 a ha) with h | h
            · exact h
            · simp only [List.mem_singleton] at h
              subst h
              exact absurd ha hvF
          refine ⟨⟨hne, h3', h4, fun x hx => h5 x (by simp [hx])⟩, ?_⟩
          rintro ⟨K, hK, rfl⟩
          have hK' : ({v} ∪ K : Finset ℕ).erase v = K := by
            rw [Finset.singleton_union, Finset.erase_insert (hvN hK)]
          rw [hK'] at h5
          obtain ⟨y, hy, hn⟩ := h5 v (by simp) (hvN hK)
          exact hn ((hpre y).1 (hK.1 y hy)).2

theorem picks_subset : ∀ {l : List ℕ} {K : Finset ℕ}, S.Picks l K → ∀ x ∈ K, x ∈ l := by
  intro l K h
  induction h with
  | nil => simp
  | @cons l u w K hw hn h ih =>
    intro x hx
    rcases Finset.mem_insert.1 hx with rfl | hx
    · exact hw
    · exact List.mem_append_left _ (List.mem_of_mem_filter (ih x hx))

/-- The exact value for every ordering. -/
theorem countMaxCliques_picked {L : LinGraph} (H : L.LRep S ord) : L.countMaxCliques = .ok (S.numPicked ord) := by
  classical
  have O := H.ordering
  have hord : ord.Pairwise (fun a b => ord.idxOf a < ord.idxOf b) := by
    rw [List.pairwise_iff_getElem]
    intro i j hi hj hij
    rw [O.nodup.idxOf_getElem, O.nodup.idxOf_getElem]
    exact hij
  have hll : ∀ v x, x ∈ S.leftList ord v ↔ S.Adj v x ∧ ord.idxOf x < ord.idxOf v := by
    intro v x
    unfold SGraph.leftList
    rw [List.mem_filter, decide_eq_true_eq, mem_before]
    exact ⟨fun h => h.2, fun h => ⟨(O.mem x).2 h.1.right, h⟩⟩
  unfold LinGraph.countMaxCliques
  have hloop := Ok.foldlM (f := L.cliqueStep) (l := L.vertices) (b := ∅)
    (fun (pre : List ℕ) (R : HSet (List ℕ)) => Stores R (fun F =>
      (∃ v ∈ pre, ∃ K, S.Picks (S.leftList ord v) K ∧ F = insert v K) ∧ ¬ ∃ v ∈ pre, S.Picks (S.leftList ord v) F)) ?_ ?_
  · obtain ⟨R, hR, hS⟩ := hloop
    rw [hR, bind_ok]
    show Except.ok R.len = _
    congr 1
    unfold SGraph.numPicked
    have hinj : ∀ a ∈ R.toList, ∀ b ∈ R.toList, a.toFinset = b.toFinset → a = b := by
      intro a ha b hb he
      have h1 := ((hS a).1 (HSet.mem_toList.1 ha)).1
      have h2 := ((hS b).1 (HSet.mem_toList.1 hb)).1
      refine eq_of_sorted_by (f := id) h1 h2 fun w => ?_
      rw [← List.mem_toFinset, he, List.mem_toFinset]
    have hnd : (R.toList.map List.toFinset).Nodup := (List.nodup_map_iff_inj_on R.nodup).2 hinj
    have : R.len = (R.toList.map List.toFinset).length := by rw [List.length_map]; rfl
    rw [this, ← List.toFinset_card_of_nodup hnd]
    congr 1
    ext F
    rw [List.mem_toFinset, List.mem_map, Finset.mem_filter, Finset.mem_powerset]
    have hmax : ((∃ v ∈ L.vertices, ∃ K, S.Picks (S.leftList ord v) K ∧ F = insert v K) ∧
        ¬ ∃ v ∈ L.vertices, S.Picks (S.leftList ord v) F) ↔
        ((∃ v ∈ S.V, ∃ K, S.Picks (S.leftList ord v) K ∧ F = insert v K) ∧ ¬ ∃ v ∈ S.V, S.Picks (S.leftList ord v) F) := by
      simp only [H.rep.vmem]
    constructor
    · rintro ⟨c, hc, rfl⟩
      have hq := ((hS c).1 (HSet.mem_toList.1 hc)).2
      refine ⟨?_, hmax.1 hq⟩
      obtain ⟨⟨v, hv, K, hK, he⟩, -⟩ := hq
      rw [he]
      intro x hx
      rcases Finset.mem_insert.1 hx with rfl | hx
      · exact (H.rep.vmem _).1 hv
      · exact ((hll v x).1 (picks_subset hK x hx)).1.right
    · rintro ⟨-, hF⟩
      refine ⟨F.sort (· ≤ ·), HSet.mem_toList.2 ((hS _).2 ⟨?_, ?_⟩), Finset.sort_toFinset _ _⟩
      · exact Finset.sortedLT_sort F |>.pairwise
      · rw [Finset.sort_toFinset]; exact hmax.2 hF
  · intro c
    constructor
    · intro h; exact absurd h HSet.not_mem_empty
    · rintro ⟨-, ⟨x, hx, -⟩, -⟩
      exact absurd hx (by simp)
  · intro pre v post R hs hR
    rw [H.verts] at hs
    have hv : v ∈ S.V := (O.mem v).1 (by rw [hs]; simp)
    have hvi : ord.idxOf v = pre.length := O.idxOf_eq (by rw [hs]; simp)
    obtain ⟨N, hN, hpw, hmem⟩ := H.left v hv
    have hnd : N.Nodup := hpw.imp fun h he => absurd h (by rw [he]; omega)
    have hvpre : v ∉ pre := fun h => absurd ((Ordering.idxOf_lt_split hs).2 h) (by omega)
    have hNl : S.leftList ord v = N := by
      refine eq_of_sorted_by (f := ord.idxOf) (hord.filter _) hpw fun w => ?_
      rw [hmem]; exact hll v w
    unfold LinGraph.cliqueStep
    rw [hN, bind_ok]
    refine (bkPivot H (v := v) (N.length + 1) N (HSet.empty.insert v) (HSet.ofList N) ∅ R _ (by omega) hnd
      ?_ (by simp [HSet.mem_insert])
      (fun x => HSet.mem_ofList) (fun x => HSet.not_mem_empty) hR ?_).bind ?_
    · intro x hx
      rw [HSet.mem_insert]
      rintro (rfl | h)
      · exact H.loopless _ ((hmem x).1 hx).1
      · exact absurd h HSet.not_mem_empty
    · rintro F ⟨⟨w, -, K, -, rfl⟩, -⟩
      exact ⟨w, Finset.mem_insert_self _ _⟩
    · rintro ⟨I', R'⟩ ⟨-, h2⟩
      refine Ok.pure (h2.congr fun F => ?_)
      have hset : (HSet.empty.insert v : HSet ℕ).toList.toFinset = {v} := by
        ext x
        rw [List.mem_toFinset, HSet.mem_toList, HSet.mem_insert, Finset.mem_singleton]
        exact ⟨fun h => h.resolve_right HSet.not_mem_empty, Or.inl⟩
      rw [hset]
      have hvP : ∀ {w K}, w ∈ pre ++ [v] → S.Picks (S.leftList ord w) K → v ∉ K := by
        intro w K hw hK hvK
        have h1 := ((hll w v).1 (picks_subset hK v hvK)).2
        rcases List.mem_append.1 hw with hw | hw
        · have := (Ordering.idxOf_lt_split hs).2 hw
          omega
        · simp only [List.mem_singleton] at hw
          subst hw
          omega
      have her : ∀ {K}, S.Picks N K → ({v} ∪ K : Finset ℕ).erase v = K := by
        intro K hK
        rw [Finset.singleton_union, Finset.erase_insert (hvP (w := v) (by simp) (by rw [hNl]; exact hK))]
      unfold Eff
      constructor
      · rintro (⟨⟨⟨w, hw, K, hK, rfl⟩, h1⟩, h2⟩ | ⟨K, hK, rfl⟩)
        · refine ⟨⟨w, by simp [hw], K, hK, rfl⟩, ?_⟩
          rintro ⟨w', hw', hp⟩
          rcases List.mem_append.1 hw' with hw' | hw'
          · exact h1 ⟨w', hw', hp⟩
          · simp only [List.mem_singleton] at hw'
            subst hw'
            rw [hNl] at hp
            exact h2 ⟨_, hp, (her hp).symm⟩
        · refine ⟨⟨v, by simp, K, by rw [hNl]; exact hK, Finset.singleton_union _ _⟩, ?_⟩
          rintro ⟨w', hw', hp⟩
          exact hvP hw' hp (by simp)
      · rintro ⟨⟨w, hw, K, hK, rfl⟩, h1⟩
        rcases List.mem_append.1 hw with hw | hw
        · refine Or.inl ⟨⟨⟨w, hw, K, hK, rfl⟩, fun ⟨w', hw', hp⟩ => h1 ⟨w', by simp [hw'], hp⟩⟩, ?_⟩
          rintro ⟨K', hK', he⟩
          rw [her hK'] at he
          exact h1 ⟨v, by simp, by rw [hNl, he]; exact hK'⟩
        · simp only [List.mem_singleton] at hw
          subst hw
          rw [hNl] at hK
          exact Or.inr ⟨K, hK, (Finset.singleton_union _ _).symm⟩

end Clique
end Verif
