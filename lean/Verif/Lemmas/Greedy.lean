import Verif.Lemmas.Colour
import Verif.Spec.Greedy
/-!
# The exact result of the greedy colouring
-/
namespace Verif
open SGraph
variable {S : SGraph} {ord : List ℕ} {L : LinGraph}

namespace SGraph

theorem range_sub_snoc {l : List ℕ} {d p : ℕ} : (List.range (p + 1)).Sublist (l ++ [d]) ↔
    (List.range (p + 1)).Sublist l ∨ ((List.range p).Sublist l ∧ d = p) := by
  constructor
  · intro h
    rw [List.range_succ] at h
    rw [← List.reverse_sublist] at h
    simp only [List.reverse_append, List.reverse_cons, List.reverse_nil, List.nil_append, List.singleton_append] at h
    rcases List.sublist_cons_iff.1 h with h | ⟨r, h1, h2⟩
    · left
      rw [← List.reverse_sublist, List.range_succ]
      simpa using h
    · right
      simp only [List.cons.injEq] at h1
      obtain ⟨rfl, rfl⟩ := h1
      exact ⟨List.reverse_sublist.1 h2, rfl⟩
  · rintro (h | ⟨h, rfl⟩)
    · exact h.trans (List.sublist_append_left _ _)
    · rw [List.range_succ]; exact h.append (List.Sublist.refl _)

theorem range_sub_mono {l : List ℕ} {p q : ℕ} (hpq : p ≤ q) (h : (List.range q).Sublist l) : (List.range p).Sublist l :=
  (List.range_sublist.2 hpq).trans h

theorem LongestRun.nil : LongestRun [] 0 := ⟨by simp, by simp⟩

theorem LongestRun.snoc {l : List ℕ} {p d : ℕ} (h : LongestRun l p) :
    LongestRun (l ++ [d]) (if d = p then p + 1 else p) := by
  split
  · rename_i hd
    refine ⟨range_sub_snoc.2 (Or.inr ⟨h.1, hd⟩), fun hc => ?_⟩
    rcases range_sub_snoc.1 hc with hc | ⟨hc, -⟩
    · exact h.2 (range_sub_mono (by omega) hc)
    · exact h.2 hc
  · rename_i hd
    refine ⟨h.1.trans (List.sublist_append_left _ _), fun hc => ?_⟩
    rcases range_sub_snoc.1 hc with hc | ⟨-, hc⟩
    · exact h.2 hc
    · exact hd hc

theorem LongestRun.unique {l : List ℕ} {p q : ℕ} (hp : LongestRun l p) (hq : LongestRun l q) : p = q := by
  rcases Nat.lt_trichotomy p q with h | h | h
  · exact absurd (range_sub_mono h hq.1) hp.2
  · exact h
  · exact absurd (range_sub_mono h hp.1) hq.2

theorem LongestRun.le_length {l : List ℕ} {p : ℕ} (h : LongestRun l p) : p ≤ l.length := by
  simpa using h.1.length_le

theorem GreedyRule.unique {p d : ℕ} {used : ℕ → Prop} {a b : Option ℕ} (ha : GreedyRule p d used a)
    (hb : GreedyRule p d used b) : a = b := by
  cases a with
  | none =>
    cases b with
    | none => rfl
    | some k =>
      rcases hb with ⟨h1, -⟩ | ⟨-, h1, h2, -⟩
      · exact absurd h1 ha.1
      · exact absurd (ha.2 k h1) h2
  | some j =>
    cases b with
    | none =>
      rcases ha with ⟨h1, -⟩ | ⟨-, h1, h2, -⟩
      · exact absurd h1 hb.1
      · exact absurd (hb.2 j h1) h2
    | some k =>
      rcases ha with ⟨h1, rfl⟩ | ⟨h1, -, h2, h3⟩ <;> rcases hb with ⟨k1, rfl⟩ | ⟨k1, -, k2, k3⟩
      · rfl
      · exact absurd h1 k1
      · exact absurd k1 h1
      · rcases Nat.lt_trichotomy j k with h | h | h
        · exact absurd (k3 j h) h2
        · rw [h]
        · exact absurd (h3 k h) k2

/-- The rule determines the colouring. -/
theorem IsGreedy.unique (O : S.Ordering ord) {χ χ' : ℕ → Option ℕ} (h : S.IsGreedy ord χ) (h' : S.IsGreedy ord χ') : χ = χ' := by
  have key : ∀ n v, v ∈ S.V → ord.idxOf v = n → χ v = χ' v := by
    intro n
    induction n using Nat.strong_induction_on with
    | _ n ih =>
      intro v hv hn
      obtain ⟨p, h1, h2⟩ := h.2 v hv
      obtain ⟨q, h3, h4⟩ := h'.2 v hv
      obtain rfl := h1.unique h3
      have : (fun k => ∃ u ∈ S.before ord v, χ u = some k) = fun k => ∃ u ∈ S.before ord v, χ' u = some k := by
        funext k
        refine propext (exists_congr fun u => and_congr_right fun hu => ?_)
        obtain ⟨a1, a2⟩ := mem_before.1 hu
        rw [ih _ (by omega) u a1.right rfl]
      rw [this] at h2
      exact h2.unique h4
  funext v
  by_cases hv : v ∈ S.V
  · exact key _ v hv rfl
  · rw [h.1 v hv, h'.1 v hv]

end SGraph

namespace LinGraph.LRep

/-- State of the loop after the vertices `pre`. -/
theorem greedy_loop (H : L.LRep S ord) (hn : S.V.card ≤ 2 ^ 32) : ∀ (pre : List ℕ), (∃ post, ord = pre ++ post) →
    ∃ (χ : ℕ → Option ℕ) (p : ℕ), (∀ v, v ∉ pre → χ v = none) ∧
      (LongestRun (S.leftDegs ord pre) p ∧ ∀ k, (∃ v, χ v = some k) ↔ k < p) ∧
      (∀ v ∈ pre, ∃ p, LongestRun (S.leftDegs ord (ord.take (ord.idxOf v))) p ∧
        GreedyRule p (S.before ord v).card (fun k => ∃ u ∈ S.before ord v, χ u = some k) (χ v)) ∧
      ((pre.foldlM L.colourStep (∅, []) = .error .panic ∧ ∃ v ∈ pre, ∃ u ∈ S.before ord v, χ u = none) ∨
        ((∀ v ∈ pre, ∀ u ∈ S.before ord v, χ u ≠ none) ∧ ∃ c, pre.foldlM L.colourStep (∅, []) = .ok (c, List.range p) ∧
          ∀ v, c.get? v = χ v)) := by
  intro pre
  induction pre using List.reverseRecOn with
  | nil =>
    intro _
    exact ⟨fun _ => none, 0, fun _ _ => rfl, ⟨.nil, by simp⟩, by simp, Or.inr ⟨by simp, ∅, rfl, fun v => by simp⟩⟩
  | append_singleton pre v ih =>
    rintro ⟨post, hs⟩
    rw [List.append_assoc, List.singleton_append] at hs
    obtain ⟨χ, p, hout, ⟨hp, hpal⟩, hrule, hres⟩ := ih ⟨_, hs⟩
    have O := H.ordering
    have hv : v ∈ S.V := (O.mem v).1 (by rw [hs]; simp)
    have hvi : ord.idxOf v = pre.length := O.idxOf_eq (by rw [hs]; simp)
    have hvpre : v ∉ pre := fun h => absurd ((Ordering.idxOf_lt_split hs).2 h) (by omega)
    have htake : ord.take (ord.idxOf v) = pre := by rw [hvi, hs]; simp
    have hbpre : ∀ w ∈ pre ++ [v], ∀ u ∈ S.before ord w, u ∈ pre := by
      intro w hw u hu
      obtain ⟨-, h2⟩ := mem_before.1 hu
      refine (Ordering.idxOf_lt_split hs).1 ?_
      rcases List.mem_append.1 hw with hw | hw
      · have := (Ordering.idxOf_lt_split hs).2 hw
        omega
      · rw [List.mem_singleton.1 hw] at h2
        omega
    have hbv : ∀ w ∈ pre ++ [v], ∀ u ∈ S.before ord w, u ≠ v := fun w hw u hu he => hvpre (he ▸ hbpre w hw u hu)
    have hplt : p < 2 ^ 32 := by
      have h1 := hp.le_length
      have h2 : pre.length < S.V.card := by rw [← O.length, hs]; simp
      unfold leftDegs at h1
      rw [List.length_map] at h1
      omega
    have hused : ∀ (o : Option ℕ) w, w ∈ pre ++ [v] → (fun k => ∃ u ∈ S.before ord w, (if u = v then o else χ u) = some k) =
        fun k => ∃ u ∈ S.before ord w, χ u = some k := by
      intro o w hw
      funext k
      refine propext (exists_congr fun u => and_congr_right fun hu => ?_)
      rw [if_neg (hbv w hw u hu)]
    have hrun : LongestRun (S.leftDegs ord (pre ++ [v])) (if (S.before ord v).card = p then p + 1 else p) := by
      have := hp.snoc (d := (S.before ord v).card)
      unfold leftDegs at *
      rwa [List.map_append]
    have hnew : ∀ o : Option ℕ, GreedyRule p (S.before ord v).card (fun k => ∃ u ∈ S.before ord v, χ u = some k) o →
        (∀ w, w ∉ pre ++ [v] → (if w = v then o else χ w) = none) ∧
        (LongestRun (S.leftDegs ord (pre ++ [v])) (if (S.before ord v).card = p then p + 1 else p) ∧
          ∀ k, (∃ w, (if w = v then o else χ w) = some k) ↔ k < if (S.before ord v).card = p then p + 1 else p) ∧
        ∀ w ∈ pre ++ [v], ∃ p, LongestRun (S.leftDegs ord (ord.take (ord.idxOf w))) p ∧
        GreedyRule p (S.before ord w).card (fun k => ∃ u ∈ S.before ord w, (if u = v then o else χ u) = some k)
          (if w = v then o else χ w) := by
      intro o ho
      refine ⟨fun w hw => ?_, ⟨hrun, fun k => ?_⟩, fun w hw => ?_⟩
      · simp only [List.mem_append, List.mem_singleton, not_or] at hw
        rw [if_neg hw.2, hout w hw.1]
      · have h1 : (∃ w, (if w = v then o else χ w) = some k) ↔ o = some k ∨ k < p := by
          rw [← hpal]
          constructor
          · rintro ⟨w, hw⟩
            by_cases he : w = v
            · rw [if_pos he] at hw; exact Or.inl hw
            · rw [if_neg he] at hw; exact Or.inr ⟨w, hw⟩
          · rintro (h | ⟨w, hw⟩)
            · exact ⟨v, by rw [if_pos rfl]; exact h⟩
            · refine ⟨w, ?_⟩
              rw [if_neg (by rintro rfl; rw [hout w hvpre] at hw; cases hw)]
              exact hw
        rw [h1]
        cases o with
        | none => rw [if_neg ho.1]; simp
        | some j =>
          simp only [Option.some.injEq]
          rcases ho with ⟨a1, rfl⟩ | ⟨a1, a2, -⟩
          · rw [if_pos a1]; omega
          · rw [if_neg a1]; omega
      · rw [hused o w hw]
        by_cases he : w = v
        · subst he
          rw [if_pos rfl, htake]
          exact ⟨p, hp, ho⟩
        · rw [if_neg he]
          have : w ∈ pre := by
            rcases List.mem_append.1 hw with h | h
            · exact h
            · exact absurd (List.mem_singleton.1 h) he
          exact hrule w this
    -- some colour that obeys the rule
    have hex : ∃ o, GreedyRule p (S.before ord v).card (fun k => ∃ u ∈ S.before ord v, χ u = some k) o := by
      classical
      by_cases hd : (S.before ord v).card = p
      · exact ⟨some p, Or.inl ⟨hd, rfl⟩⟩
      · by_cases hall : ∀ j < p, ∃ u ∈ S.before ord v, χ u = some j
        · exact ⟨none, hd, hall⟩
        · push Not at hall
          have hP : ∃ j, j < p ∧ ∀ u ∈ S.before ord v, χ u ≠ some j := hall
          refine ⟨some (Nat.find hP), Or.inr ⟨hd, (Nat.find_spec hP).1, ?_, fun j hj => ?_⟩⟩
          · rintro ⟨u, hu, he⟩
            exact (Nat.find_spec hP).2 u hu he
          · have := Nat.find_min hP hj
            push Not at this
            exact this (by have := (Nat.find_spec hP).1; omega)
    rw [List.foldlM_append]
    rcases hres with ⟨hpan, w, hw, u, hu, hnone⟩ | ⟨hcol, c, hc, hcχ⟩
    · obtain ⟨o, ho⟩ := hex
      obtain ⟨h1, h0, h2⟩ := hnew o ho
      refine ⟨fun w => if w = v then o else χ w, _, h1, h0, h2, Or.inl ⟨by rw [hpan]; rfl, w, by simp [hw], u, hu, ?_⟩⟩
      beta_reduce
      rw [if_neg (hbv w (by simp [hw]) u hu)]
      exact hnone
    · obtain ⟨N, hN, hpw, hmem⟩ := H.left v hv
      have hbef : ∀ a, a ∈ N ↔ a ∈ S.before ord v := fun a => (hmem a).trans mem_before.symm
      have hnd : N.Nodup := hpw.imp fun h he => absurd h (by rw [he]; omega)
      have hNl : N.length = (S.before ord v).card := by
        rw [← List.toFinset_card_of_nodup hnd]
        congr 1
        ext w
        rw [List.mem_toFinset, hbef]
      rw [hc, bind_ok]
      simp only [List.foldlM_cons, List.foldlM_nil]
      unfold LinGraph.colourStep
      rw [hN, bind_ok]
      by_cases hnone : ∃ u ∈ N, χ u = none
      · obtain ⟨o, ho⟩ := hex
        obtain ⟨h1, h0, h2⟩ := hnew o ho
        obtain ⟨u, hu, hun⟩ := hnone
        refine ⟨fun w => if w = v then o else χ w, _, h1, h0, h2, Or.inl ⟨?_, v, by simp, u, (hbef u).1 hu, ?_⟩⟩
        · have : N.mapM (fun x => unwrap (c.get? x)) = .error .panic := by
            clear hN hpw hmem hbef hnd hNl
            induction N with
            | nil => simp at hu
            | cons x N ihN =>
              rw [List.mapM_cons]
              cases hx : c.get? x with
              | none => rfl
              | some k =>
                rw [unwrap_some, bind_ok]
                rcases List.mem_cons.1 hu with rfl | hu
                · rw [hcχ, hun] at hx; cases hx
                · rw [ihN hu]; rfl
          rw [this]
          rfl
        · beta_reduce
          rw [if_neg (hbv v (by simp) u ((hbef u).1 hu))]
          exact hun
      · push Not at hnone
        have hm : N.mapM (fun x => unwrap (c.get? x)) = .ok (N.map fun x => (χ x).getD 0) :=
          EditGraph.mapM_ok fun x hx => by
            rw [hcχ]
            have := hnone x hx
            revert this
            generalize χ x = o
            intro h
            cases o with
            | none => exact absurd rfl h
            | some k => rfl
        rw [hm, bind_ok]
        have hcols : ∀ k, k ∈ (N.map fun x => (χ x).getD 0) ↔ ∃ u ∈ S.before ord v, χ u = some k := by
          intro k
          rw [List.mem_map]
          constructor
          · rintro ⟨x, hx, he⟩
            refine ⟨x, (hbef x).1 hx, ?_⟩
            have := hnone x hx
            revert this he
            generalize χ x = o
            intro he h
            cases o with
            | none => exact absurd rfl h
            | some j => simpa using he
          · rintro ⟨u, hu, he⟩
            exact ⟨u, (hbef u).2 hu, by rw [he]; rfl⟩
        have hcol' : ∀ o : Option ℕ, ∀ w ∈ pre ++ [v], ∀ u ∈ S.before ord w, (if u = v then o else χ u) ≠ none := by
          intro o w hw u hu
          rw [if_neg (hbv w hw u hu)]
          rcases List.mem_append.1 hw with h | h
          · exact hcol w h u hu
          · rw [List.mem_singleton.1 h] at hu
            exact hnone u ((hbef u).2 hu)
        have hins : ∀ k w, (c.insert v k).get? w = if w = v then some k else χ w := by
          intro k w
          rw [HMap.get?_insert, ← hcχ]
        by_cases hd : (S.before ord v).card = p
        · obtain ⟨h1, h0, h2⟩ := hnew (some p) (Or.inl ⟨hd, rfl⟩)
          refine ⟨fun w => if w = v then some p else χ w, _, h1, h0, h2, Or.inr ⟨hcol' _, c.insert v p, ?_, hins p⟩⟩
          rw [if_pos (by simp [hNl, hd]), if_pos hd]
          have hc32 : cast32 (List.range p).length = p := by
            rw [List.length_range]; exact Nat.mod_eq_of_lt hplt
          rw [hc32, List.range_succ]
          rfl
        · have hpd : (if (S.before ord v).card = p then p + 1 else p) = p := if_neg hd
          rw [hpd] at hnew
          have hne : ¬ ((N.map fun x => (χ x).getD 0).length == (List.range p).length) = true := by
            simp [hNl, hd]
          simp only [if_neg hne]
          cases hff : (List.range p).find? (fun c => !(N.map fun x => (χ x).getD 0).contains c) with
          | none =>
            rw [List.find?_eq_none] at hff
            obtain ⟨h1, h0, h2⟩ := hnew none ⟨hd, fun j hj => (hcols j).1 (by
              have := hff j (List.mem_range.2 hj)
              simpa only [Bool.not_eq_true', Bool.not_eq_false, List.contains_iff_mem] using this)⟩
            refine ⟨fun w => if w = v then none else χ w, _, h1, h0, h2, Or.inr ⟨hcol' _, c, rfl, fun w => ?_⟩⟩
            rw [hcχ]
            beta_reduce
            split
            · rename_i he; rw [he, hout v hvpre]
            · rfl
          | some k =>
            have hk1 := List.mem_range.1 (List.mem_of_find?_eq_some hff)
            have hk2 := List.find?_some hff
            have hk3 : ∀ j < k, j ∈ (N.map fun x => (χ x).getD 0) := by
              intro j hj
              obtain ⟨-, as, bs, hab, hno⟩ := List.find?_eq_some_iff_append.1 hff
              have hlen : as.length = k := by
                have h1 : (List.range p)[as.length]? = some k := by rw [hab]; simp
                rw [List.getElem?_eq_some_iff] at h1
                obtain ⟨h2, h3⟩ := h1
                simpa using h3
              have hja : j ∈ as := by
                have h1 : (List.range p)[j]? = some j := by
                  rw [List.getElem?_range (by omega)]
                rw [hab, List.getElem?_append_left (by omega)] at h1
                exact List.mem_of_getElem? h1
              have := hno j hja
              simpa using this
            have hk4 : ¬ ∃ u ∈ S.before ord v, χ u = some k := by
              intro hc'
              have := (hcols k).2 hc'
              rw [← List.contains_iff_mem] at this
              rw [this] at hk2
              cases hk2
            obtain ⟨h1, h0, h2⟩ := hnew (some k) (Or.inr ⟨hd, hk1, hk4, fun j hj => (hcols j).1 (hk3 j hj)⟩)
            exact ⟨fun w => if w = v then some k else χ w, _, h1, h0, h2, Or.inr ⟨hcol' _, c.insert v k, rfl, hins k⟩⟩

/-- `colour_greedy` returns the colouring determined by the rule, or panics if a vertex without colour has a right neighbour. -/
theorem colourGreedy_exact (H : L.LRep S ord) (hn : S.V.card ≤ 2 ^ 32) :
    ∃ χ p, S.IsGreedy ord χ ∧ LongestRun (S.leftDegs ord ord) p ∧ (∀ k, (∃ v, χ v = some k) ↔ k < p) ∧
      ((∃ v, ∃ u ∈ S.before ord v, χ u = none) → L.colourGreedy = .error .panic) ∧
      ((∀ v, ∀ u ∈ S.before ord v, χ u ≠ none) → ∃ c, L.colourGreedy = .ok c ∧ ∀ v, c.get? v = χ v) := by
  obtain ⟨χ, p, h1, h2, h3, h4⟩ := H.greedy_loop hn ord ⟨[], by simp⟩
  have O := H.ordering
  refine ⟨χ, p, ⟨fun v hv => h1 v fun h => hv ((O.mem v).1 h), fun v hv => h3 v ((O.mem v).2 hv)⟩, h2.1, h2.2, ?_⟩
  unfold LinGraph.colourGreedy
  rw [H.verts]
  rcases h4 with ⟨h4, v, hv, u, hu, hun⟩ | ⟨h4, c, h5, h6⟩
  · rw [h4]
    exact ⟨fun _ => rfl, fun h => absurd hun (h v u hu)⟩
  · rw [h5]
    refine ⟨?_, fun _ => ⟨c, rfl, h6⟩⟩
    rintro ⟨v, u, hu, hun⟩
    exact absurd hun (h4 v ((O.mem v).2 (mem_before.1 hu).1.left) u hu)

end LinGraph.LRep
end Verif
