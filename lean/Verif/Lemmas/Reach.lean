import Verif.Spec.Reach
import Verif.Model.LinearAlg
import Verif.Lemmas.Linear
/-!
# Walks with restricted inner vertices; correctness of `right_bfs`
-/
namespace Verif

/-- Walk with `n ≥ 1` steps from `u` to `v` all of whose inner vertices satisfy `P`. -/
inductive SGraph.WalkVia (S : SGraph) (P : ℕ → Prop) : ℕ → ℕ → ℕ → Prop
  | one {u v : ℕ} (h : S.Adj u v) : WalkVia S P 1 u v
  | cons {n u w v : ℕ} (h : S.Adj u w) (hw : P w) (t : WalkVia S P n w v) : WalkVia S P (n + 1) u v

theorem IsMin.congr {P Q : ℕ → Prop} {n : ℕ} (h1 : ∀ n, P n → ∃ m ≤ n, Q m) (h2 : ∀ n, Q n → ∃ m ≤ n, P m) :
    IsMin P n ↔ IsMin Q n := by
  have key : ∀ {P Q : ℕ → Prop}, (∀ n, P n → ∃ m ≤ n, Q m) → (∀ n, Q n → ∃ m ≤ n, P m) → IsMin P n → IsMin Q n := by
    intro P Q h1 h2 h
    have hno : ∀ m < n, ¬ Q m := by
      intro m hm hq
      obtain ⟨k, hk, hp⟩ := h2 m hq
      exact h.2 k (by omega) hp
    refine ⟨?_, hno⟩
    obtain ⟨m, hm, hq⟩ := h1 n h.1
    rcases Nat.lt_or_ge m n with hlt | hge
    · exact absurd hq (hno m hlt)
    · rwa [show n = m by omega]
  exact ⟨key h1 h2, key h2 h1⟩

theorem IsMin.unique {P : ℕ → Prop} {n m : ℕ} (h : IsMin P n) (h' : IsMin P m) : n = m := by
  rcases lt_trichotomy n m with hlt | heq | hgt
  · exact absurd h.1 (h'.2 n hlt)
  · exact heq
  · exact absurd h'.1 (h.2 m hgt)

/-- A minimum exists below every witness. -/
theorem IsMin.exists_le {P : ℕ → Prop} : ∀ {n : ℕ}, P n → ∃ m ≤ n, IsMin P m := by
  intro n
  induction n using Nat.strong_induction_on with
  | _ n ih =>
    intro h
    by_cases hc : ∃ m < n, P m
    · obtain ⟨m, hm, hp⟩ := hc
      obtain ⟨k, hk, h3⟩ := ih m hm hp
      exact ⟨k, by omega, h3⟩
    · exact ⟨n, le_refl _, h, fun m hm hp => hc ⟨m, hm, hp⟩⟩

namespace SGraph
variable {S : SGraph} {ord : List ℕ} {P : ℕ → Prop}

theorem PathVia.walk {n u v : ℕ} (h : S.PathVia P n u v) : S.WalkVia P n u v := by
  obtain ⟨p, h1, -, h3, h4⟩ := h
  subst h3
  induction p generalizing u with
  | nil =>
    simp only [List.nil_append, List.isChain_cons_cons] at h1
    exact .one h1.1
  | cons x p ih =>
    simp only [List.cons_append, List.isChain_cons_cons] at h1
    exact .cons h1.1 (h4 x List.mem_cons_self) (ih h1.2 fun y hy => h4 y (List.mem_cons_of_mem _ hy))

theorem WalkVia.path {n u v : ℕ} (h : S.WalkVia P n u v) (huv : u ≠ v) : ∃ m ≤ n, S.PathVia P m u v := by
  induction h with
  | one h => exact ⟨1, le_refl _, [], by simpa using h, by simpa using huv, rfl, by simp⟩
  | @cons n u w v h hw t ih =>
    by_cases hwv : w = v
    · subst hwv
      exact ⟨1, by omega, [], by simpa using h, by simpa using huv, rfl, by simp⟩
    obtain ⟨m, hm, p, h1, h2, h3, h4⟩ := ih hwv
    by_cases hu : u ∈ w :: (p ++ [v])
    · have hu2 : u ∈ w :: p := by
        rw [← List.cons_append, List.mem_append] at hu
        rcases hu with hu | hu
        · exact hu
        · exact absurd (List.mem_singleton.1 hu) huv
      obtain ⟨a, b, hab⟩ := List.append_of_mem hu2
      have hsp : w :: (p ++ [v]) = a ++ u :: (b ++ [v]) := by
        rw [← List.cons_append, hab]; simp
      rw [hsp] at h1 h2
      have hlen := congrArg List.length hab
      simp only [List.length_cons, List.length_append] at hlen
      refine ⟨b.length + 1, by omega, b, h1.right_of_append, (List.nodup_append.1 h2).2.1, rfl, fun x hx => ?_⟩
      have : x ∈ w :: p := by rw [hab]; simp [hx]
      rcases List.mem_cons.1 this with rfl | hxp
      · exact hw
      · exact h4 x hxp
    · refine ⟨m + 1, by omega, w :: p, ?_, ?_, by simp [h3], ?_⟩
      · simp only [List.cons_append, List.isChain_cons_cons]
        exact ⟨h, h1⟩
      · rw [List.nodup_cons]
        exact ⟨hu, h2⟩
      · intro x hx
        rcases List.mem_cons.1 hx with rfl | hxp
        · exact hw
        · exact h4 x hxp

theorem pathVia_min {n u v : ℕ} (huv : u ≠ v) :
    IsMin (fun n => S.PathVia P n u v) n ↔ IsMin (fun n => S.WalkVia P n u v) n :=
  IsMin.congr (fun n h => ⟨n, le_refl _, h.walk⟩) (fun _ h => h.path huv)

theorem RightAdj.symm {r a b : ℕ} (h : S.RightAdj ord r a b) : S.RightAdj ord r b a := ⟨h.1.symm, h.2.2, h.2.1⟩

theorem WalkVia.right {v n u : ℕ} (h : S.WalkVia (fun x => ord.idxOf v < ord.idxOf x) n u v)
    (hu : ord.idxOf v < ord.idxOf u) : Walk (S.RightAdj ord v) n u v := by
  generalize hP : (fun x => ord.idxOf v < ord.idxOf x) = P at h
  induction h with
  | one h => exact Walk.one_iff.2 ⟨h, le_of_lt hu, le_refl _⟩
  | cons h hw _ ih =>
    subst hP
    exact .cons ⟨h, le_of_lt hu, le_of_lt hw⟩ (ih hw rfl)

theorem walk_right (O : S.Ordering ord) {v n u : ℕ} (h : Walk (S.RightAdj ord v) n u v) (huv : u ≠ v) :
    ∃ m ≤ n, S.WalkVia (fun x => ord.idxOf v < ord.idxOf x) m u v := by
  generalize hR : S.RightAdj ord v = R at h
  induction h with
  | nil => exact absurd rfl huv
  | @cons n u w v h t ih =>
    subst hR
    by_cases hw : w = v
    · subst hw
      exact ⟨1, by omega, .one h.1⟩
    · obtain ⟨m, hm, h1⟩ := ih hw rfl
      refine ⟨m + 1, by omega, .cons h.1 ?_ h1⟩
      refine lt_of_le_of_ne h.2.2 fun he => hw (O.idxOf_inj h.1.right he.symm)

/-- Weak reachability in terms of distance in the right part. -/
theorem wreach_iff (O : S.Ordering ord) {u v d : ℕ} :
    S.WReach ord u v d ↔ ord.idxOf v < ord.idxOf u ∧ IsDist (S.RightAdj ord v) v u d := by
  unfold WReach
  refine and_congr_right fun hlt => ?_
  have huv : u ≠ v := by rintro rfl; omega
  rw [pathVia_min huv]
  have hsym : ∀ n, Walk (S.RightAdj ord v) n v u ↔ Walk (S.RightAdj ord v) n u v := fun n =>
    ⟨Walk.symm fun _ _ => RightAdj.symm, Walk.symm fun _ _ => RightAdj.symm⟩
  have : IsDist (S.RightAdj ord v) v u d ↔ IsMin (fun n => Walk (S.RightAdj ord v) n u v) d := by
    unfold IsDist IsMin
    simp only [hsym]
  rw [this]
  exact IsMin.congr (fun n h => ⟨n, le_refl _, h.right hlt⟩) (fun _ h => walk_right O h huv)

theorem walk_strong (O : S.Ordering ord) {u n s w x : ℕ} (h : Walk (S.RightAdj ord u) n s w) (hx : S.Adj w x) :
    S.WalkVia (fun y => ord.idxOf u < ord.idxOf y) (n + 1) s x ∨
    ∃ m ≤ n, S.WalkVia (fun y => ord.idxOf u < ord.idxOf y) m u x := by
  induction h with
  | nil => exact Or.inl (.one hx)
  | @cons n s t w h _ ih =>
    rcases ih hx with h1 | ⟨m, hm, h1⟩
    · by_cases ht : t = u
      · subst ht; exact Or.inr ⟨n + 1, le_refl _, h1⟩
      · exact Or.inl (.cons h.1 (lt_of_le_of_ne h.2.2 fun he => ht (O.idxOf_inj h.1.right he.symm)) h1)
    · exact Or.inr ⟨m, by omega, h1⟩

theorem WalkVia.strong {u n s x : ℕ} (h : S.WalkVia (fun y => ord.idxOf u < ord.idxOf y) n s x)
    (hs : ord.idxOf u ≤ ord.idxOf s) : ∃ w k, n = k + 1 ∧ Walk (S.RightAdj ord u) k s w ∧ S.Adj w x := by
  induction h with
  | @one s x h => exact ⟨s, 0, rfl, .nil _, h⟩
  | @cons n s t x h hw _ ih =>
    obtain ⟨w, k, rfl, h1, h2⟩ := ih (le_of_lt hw)
    exact ⟨w, k + 1, rfl, .cons ⟨h, hs, le_of_lt hw⟩ h1, h2⟩

/-- Strong reachability in terms of distance in the right part. -/
theorem sreach_iff (O : S.Ordering ord) {u x d : ℕ} :
    S.SReach ord u x d ↔ ord.idxOf x < ord.idxOf u ∧
      IsMin (fun n => ∃ w k, n = k + 1 ∧ IsDist (S.RightAdj ord u) u w k ∧ S.Adj w x) d := by
  unfold SReach
  refine and_congr_right fun hlt => ?_
  have hux : u ≠ x := by rintro rfl; omega
  rw [pathVia_min hux]
  refine IsMin.congr (fun n h => ?_) (fun n h => ?_)
  · obtain ⟨w, k, rfl, h1, h2⟩ := h.strong (le_refl _)
    obtain ⟨m, hm, h3⟩ := IsMin.exists_le (P := fun k => Walk (S.RightAdj ord u) k u w) h1
    exact ⟨m + 1, by omega, w, m, rfl, h3, h2⟩
  · obtain ⟨w, k, rfl, h1, h2⟩ := h
    rcases walk_strong O h1.1 h2 with h3 | ⟨m, hm, h3⟩
    · exact ⟨_, le_refl _, h3⟩
    · exact ⟨m, by omega, h3⟩

end SGraph

namespace LinGraph.LRep
variable {L : LinGraph} {S : SGraph} {ord : List ℕ}

theorem visit (H : L.LRep S ord) {root iroot : ℕ} {N : List ℕ} {st : HSet ℕ × HSet ℕ} (hroot : root ∈ S.V)
    (hi : L.indexOf root = .ok iroot) (hN : ∀ v ∈ N, v ∈ S.V) :
    Ok (N.foldlM (L.bfsVisit iroot) st) (fun st' =>
      (∀ v, v ∈ st'.1 ↔ v ∈ st.1 ∨ (v ∈ N ∧ ord.idxOf root < ord.idxOf v ∧ v ∉ st.2)) ∧
      (∀ v, v ∈ st'.2 ↔ v ∈ st.2 ∨ (v ∈ N ∧ ord.idxOf root < ord.idxOf v))) := by
  refine (Ok.foldlM (fun (pre : List ℕ) (st' : HSet ℕ × HSet ℕ) =>
    (∀ v, v ∈ st'.1 ↔ v ∈ st.1 ∨ (v ∈ pre ∧ ord.idxOf root < ord.idxOf v ∧ v ∉ st.2)) ∧
    (∀ v, v ∈ st'.2 ↔ v ∈ st.2 ∨ (v ∈ pre ∧ ord.idxOf root < ord.idxOf v))) ⟨by simp, by simp⟩ ?_)
  rintro pre a post st' rfl ⟨h1, h2⟩
  have ha : a ∈ S.V := hN a (by simp)
  obtain ⟨ia, hia⟩ := H.index a ha
  have hlt := H.index_lt root a iroot ia hroot ha hi hia
  unfold bfsVisit
  rw [hia, bind_ok]
  by_cases hc : iroot < ia
  · by_cases hs : a ∈ st'.2
    · have e : (decide (iroot < ia) && !st'.2.contains a) = false := by
        rw [HSet.contains_iff.2 hs]; simp
      rw [e]
      simp only [Bool.false_eq_true, ↓reduceIte, pure_eq_ok, Ok.ok_iff]
      have hs' := (h2 a).1 hs
      constructor
      · intro v
        rw [h1, List.mem_append, List.mem_singleton]
        constructor
        · rintro (h | h)
          · exact Or.inl h
          · exact Or.inr ⟨Or.inl h.1, h.2⟩
        · rintro (h | ⟨h | rfl, h3, h4⟩)
          · exact Or.inl h
          · exact Or.inr ⟨h, h3, h4⟩
          · rcases hs' with h5 | h5
            · exact absurd h5 h4
            · exact Or.inr ⟨h5.1, h3, h4⟩
      · intro v
        rw [h2, List.mem_append, List.mem_singleton]
        constructor
        · rintro (h | h)
          · exact Or.inl h
          · exact Or.inr ⟨Or.inl h.1, h.2⟩
        · rintro (h | ⟨h | rfl, h3⟩)
          · exact Or.inl h
          · exact Or.inr ⟨h, h3⟩
          · exact hs'
    · have e : (decide (iroot < ia) && !st'.2.contains a) = true := by
        have : st'.2.contains a = false := by
          rw [← Bool.not_eq_true, HSet.contains_iff]; exact hs
        rw [this]; simp [hc]
      rw [e]
      simp only [↓reduceIte, pure_eq_ok, Ok.ok_iff]
      have hna : a ∉ st.2 := fun h => hs ((h2 a).2 (Or.inl h))
      constructor
      · intro v
        rw [HSet.mem_insert, h1, List.mem_append, List.mem_singleton]
        constructor
        · rintro (rfl | h | h)
          · exact Or.inr ⟨Or.inr rfl, hlt.1 hc, hna⟩
          · exact Or.inl h
          · exact Or.inr ⟨Or.inl h.1, h.2⟩
        · rintro (h | ⟨h | rfl, h3⟩)
          · exact Or.inr (Or.inl h)
          · exact Or.inr (Or.inr ⟨h, h3⟩)
          · exact Or.inl rfl
      · intro v
        rw [HSet.mem_insert, h2, List.mem_append, List.mem_singleton]
        constructor
        · rintro (rfl | h | h)
          · exact Or.inr ⟨Or.inr rfl, hlt.1 hc⟩
          · exact Or.inl h
          · exact Or.inr ⟨Or.inl h.1, h.2⟩
        · rintro (h | ⟨h | rfl, h3⟩)
          · exact Or.inr (Or.inl h)
          · exact Or.inr (Or.inr ⟨h, h3⟩)
          · exact Or.inl rfl
  · have e : (decide (iroot < ia) && !st'.2.contains a) = false := by simp [hc]
    rw [e]
    simp only [Bool.false_eq_true, ↓reduceIte, pure_eq_ok, Ok.ok_iff]
    have hn : ¬ ord.idxOf root < ord.idxOf a := fun h => hc (hlt.2 h)
    constructor
    · intro v
      rw [h1, List.mem_append, List.mem_singleton]
      constructor
      · rintro (h | h)
        · exact Or.inl h
        · exact Or.inr ⟨Or.inl h.1, h.2⟩
      · rintro (h | ⟨h | rfl, h3, h4⟩)
        · exact Or.inl h
        · exact Or.inr ⟨h, h3, h4⟩
        · exact absurd h3 hn
    · intro v
      rw [h2, List.mem_append, List.mem_singleton]
      constructor
      · rintro (h | h)
        · exact Or.inl h
        · exact Or.inr ⟨Or.inl h.1, h.2⟩
      · rintro (h | ⟨h | rfl, h3⟩)
        · exact Or.inl h
        · exact Or.inr ⟨h, h3⟩
        · exact absurd h3 hn

theorem layer (H : L.LRep S ord) {root iroot : ℕ} {us : List ℕ} {seen : HSet ℕ} (hroot : root ∈ S.V)
    (hi : L.indexOf root = .ok iroot) (hus : ∀ u ∈ us, u ∈ S.V) :
    Ok (L.bfsLayer iroot us seen) (fun st' =>
      (∀ v, v ∈ st'.1 ↔ (∃ u ∈ us, S.Adj u v) ∧ ord.idxOf root < ord.idxOf v ∧ v ∉ seen) ∧
      (∀ v, v ∈ st'.2 ↔ v ∈ seen ∨ ((∃ u ∈ us, S.Adj u v) ∧ ord.idxOf root < ord.idxOf v))) := by
  unfold bfsLayer
  refine Ok.foldlM (fun (pre : List ℕ) (st' : HSet ℕ × HSet ℕ) =>
    (∀ v, v ∈ st'.1 ↔ (∃ u ∈ pre, S.Adj u v) ∧ ord.idxOf root < ord.idxOf v ∧ v ∉ seen) ∧
    (∀ v, v ∈ st'.2 ↔ v ∈ seen ∨ ((∃ u ∈ pre, S.Adj u v) ∧ ord.idxOf root < ord.idxOf v))) ⟨by simp, by simp⟩ ?_
  rintro pre a post st' rfl ⟨h1, h2⟩
  have ha : a ∈ S.V := hus a (by simp)
  obtain ⟨N, hN, -, hN2⟩ := H.rep.nbrs a ha
  rw [hN, bind_ok]
  refine (H.visit (st := st') hroot hi (fun v hv => ((hN2 v).1 hv).right)).mono ?_
  rintro st'' ⟨k1, k2⟩
  have hex : ∀ v, (∃ u ∈ pre ++ [a], S.Adj u v) ↔ (∃ u ∈ pre, S.Adj u v) ∨ S.Adj a v := by
    intro v
    simp only [List.mem_append, List.mem_singleton]
    constructor
    · rintro ⟨u, h | rfl, h3⟩
      · exact Or.inl ⟨u, h, h3⟩
      · exact Or.inr h3
    · rintro (⟨u, h, h3⟩ | h)
      · exact ⟨u, Or.inl h, h3⟩
      · exact ⟨a, Or.inr rfl, h⟩
  constructor
  · intro v
    rw [k1, h1, h2, hN2, hex]
    generalize (∃ u ∈ pre, S.Adj u v) = Q
    tauto
  · intro v
    rw [k2, h2, hN2, hex]
    generalize (∃ u ∈ pre, S.Adj u v) = Q
    tauto

theorem walk_mem {r n v : ℕ} (hr : r ∈ S.V) (h : Walk (S.RightAdj ord r) n r v) : v ∈ S.V := by
  cases n with
  | zero => rw [← Walk.zero_iff.1 h]; exact hr
  | succ n =>
    obtain ⟨w, -, h2⟩ := Walk.succ_iff_snoc.1 h
    exact h2.1.right

theorem bfsLoop (H : L.LRep S ord) (σ : ℕ → Shuffle ℕ) {root iroot : ℕ} (hroot : root ∈ S.V)
    (hi : L.indexOf root = .ok iroot) (k : ℕ) : ∀ (d : ℕ) (prev seen : HSet ℕ),
    (∀ v, v ∈ prev ↔ IsDist (S.RightAdj ord root) root v d) →
    (∀ v, v ∈ seen ↔ ∃ d' ≤ d, Walk (S.RightAdj ord root) d' root v) →
    Ok (rightBfsLoop σ L iroot k prev seen) (fun ls => ls.length = k ∧
      ∀ (i : ℕ) s, ls[i]? = some s → ∀ v, v ∈ s ↔ IsDist (S.RightAdj ord root) root v (d + 1 + i)) := by
  induction k with
  | zero =>
    intro d prev seen _ _
    exact ⟨[], rfl, rfl, by simp⟩
  | succ k ih =>
    intro d prev seen hp hs
    unfold rightBfsLoop
    have hl := H.layer (us := (σ k).run prev.toList) (seen := seen) hroot hi (fun u hu => by
      rw [Shuffle.mem, HSet.mem_toList, hp] at hu
      exact walk_mem hroot hu.1)
    refine hl.bind ?_
    rintro ⟨next, seen'⟩ ⟨h1, h2⟩
    simp only at h1 h2
    have hstep : ∀ v, (∃ u ∈ (σ k).run prev.toList, S.Adj u v) ∧ ord.idxOf root < ord.idxOf v →
        Walk (S.RightAdj ord root) (d + 1) root v := by
      rintro v ⟨⟨u, hu, ha⟩, hlt⟩
      rw [Shuffle.mem, HSet.mem_toList, hp] at hu
      refine hu.1.snoc ⟨ha, ?_, le_of_lt hlt⟩
      cases d with
      | zero => rw [← Walk.zero_iff.1 hu.1]
      | succ d =>
        obtain ⟨w, -, h⟩ := Walk.succ_iff_snoc.1 hu.1
        exact h.2.2
    have hstep2 : ∀ v, Walk (S.RightAdj ord root) (d + 1) root v → v ∉ seen →
        (∃ u ∈ (σ k).run prev.toList, S.Adj u v) ∧ ord.idxOf root < ord.idxOf v := by
      intro v hw hv
      obtain ⟨u, hu, ha⟩ := Walk.succ_iff_snoc.1 hw
      have hne : v ≠ root := by
        rintro rfl
        exact hv ((hs v).2 ⟨0, Nat.zero_le _, .nil _⟩)
      refine ⟨⟨u, ?_, ha.1⟩, lt_of_le_of_ne ha.2.2 fun he => hne (H.ordering.idxOf_inj ha.1.right he.symm)⟩
      rw [Shuffle.mem, HSet.mem_toList, hp]
      refine ⟨hu, fun d' hd' hw' => hv ((hs v).2 ⟨d' + 1, by omega, hw'.snoc ha⟩)⟩
    have hn : ∀ v, v ∈ next ↔ IsDist (S.RightAdj ord root) root v (d + 1) := by
      intro v
      rw [h1]
      constructor
      · rintro ⟨h3, h4, h5⟩
        exact ⟨hstep v ⟨h3, h4⟩, fun d' hd' hw => h5 ((hs v).2 ⟨d', by omega, hw⟩)⟩
      · rintro ⟨h3, h4⟩
        have hv : v ∉ seen := by
          rw [hs]
          rintro ⟨d', hd', hw⟩
          exact h4 d' (by omega) hw
        obtain ⟨h5, h6⟩ := hstep2 v h3 hv
        exact ⟨h5, h6, hv⟩
    have hsn : ∀ v, v ∈ seen' ↔ ∃ d' ≤ d + 1, Walk (S.RightAdj ord root) d' root v := by
      intro v
      rw [h2]
      constructor
      · rintro (h3 | h3)
        · obtain ⟨d', h4, h5⟩ := (hs v).1 h3
          exact ⟨d', by omega, h5⟩
        · exact ⟨d + 1, le_refl _, hstep v h3⟩
      · rintro ⟨d', h4, h5⟩
        by_cases hv : v ∈ seen
        · exact Or.inl hv
        · rcases Nat.lt_or_ge d d' with h6 | h6
          · obtain rfl : d' = d + 1 := by omega
            exact Or.inr (hstep2 v h5 hv)
          · exact absurd ((hs v).2 ⟨d', h6, h5⟩) hv
    refine (ih (d + 1) next seen' hn hsn).bind ?_
    rintro ls ⟨h3, h4⟩
    refine ⟨next :: ls, rfl, by simp [h3], ?_⟩
    intro i s hi
    cases i with
    | zero =>
      simp only [List.getElem?_cons_zero, Option.some.injEq] at hi
      subst hi
      exact hn
    | succ i =>
      rw [List.getElem?_cons_succ] at hi
      intro v
      rw [h4 i s hi v, show d + 1 + (i + 1) = d + 1 + 1 + i by omega]

theorem rightBfs (H : L.LRep S ord) (σ : ℕ → Shuffle ℕ) {root k : ℕ} (hroot : root ∈ S.V) (hk : k + 1 < 2 ^ 32) :
    Ok (L.rightBfs σ root k) (fun ls => ls.length = k + 1 ∧
      ∀ (d : ℕ) s, ls[d]? = some s → ∀ v, v ∈ s ↔ IsDist (S.RightAdj ord root) root v d) := by
  obtain ⟨i, hi⟩ := H.index root hroot
  unfold LinGraph.rightBfs
  rw [hi, bind_ok, add32_ok hk, bind_ok]
  have h0 : ∀ v, v ∈ (HSet.empty.insert root : HSet ℕ) ↔ IsDist (S.RightAdj ord root) root v 0 := by
    intro v
    rw [HSet.mem_insert]
    constructor
    · rintro (rfl | h)
      · exact ⟨.nil _, fun d' h => absurd h (Nat.not_lt_zero _)⟩
      · exact absurd h HSet.not_mem_empty
    · intro h
      exact Or.inl (Walk.zero_iff.1 h.1).symm
  refine (H.bfsLoop σ hroot hi k 0 _ (HSet.empty.insert root) h0 ?_).bind ?_
  · intro v
    rw [h0]
    constructor
    · intro h; exact ⟨0, le_refl _, h.1⟩
    · rintro ⟨d', h1, h2⟩
      obtain rfl : d' = 0 := by omega
      exact ⟨h2, fun d' h => absurd h (Nat.not_lt_zero _)⟩
  · rintro ls ⟨h1, h2⟩
    refine ⟨_, rfl, by simp [h1], ?_⟩
    intro d s hd
    cases d with
    | zero =>
      simp only [List.getElem?_cons_zero, Option.some.injEq] at hd
      subst hd
      exact h0
    | succ d =>
      rw [List.getElem?_cons_succ] at hd
      intro v
      rw [h2 d s hd v, show 0 + 1 + d = d + 1 by omega]

end LinGraph.LRep
end Verif
