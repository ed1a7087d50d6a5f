import Verif.Lemmas.Witness
import Verif.Props.Maps
/-!
# Scattered colourings
-/
namespace Verif
open SGraph

namespace Scatter
variable {S : SGraph} {ord : List ℕ} {ws : HMap ℕ (HMap ℕ ℕ)} {M limit : ℕ}

/-- Distinct elements of the set are at distance at least `limit`. -/
def Far (S : SGraph) (limit : ℕ) (A : HSet ℕ) : Prop :=
  ∀ x ∈ A, ∀ y ∈ A, x ≠ y → ∀ n, Walk S.Adj n x y → limit ≤ n

/-- Some elements of the two sets are at distance less than `limit`. -/
def Close (S : SGraph) (limit : ℕ) (A B : HSet ℕ) : Prop := ∃ x ∈ A, ∃ y ∈ B, ∃ n < limit, Walk S.Adj n x y

theorem Close.mono {S : SGraph} {limit : ℕ} {A B A' B' : HSet ℕ} (h : Close S limit A B) (hA : ∀ x ∈ A, x ∈ A')
    (hB : ∀ x ∈ B, x ∈ B') : Close S limit A' B' := by
  obtain ⟨x, hx, y, hy, h⟩ := h
  exact ⟨x, hA x hx, y, hB y hy, h⟩

theorem Close.symm {S : SGraph} {limit : ℕ} {A B : HSet ℕ} (h : Close S limit A B) : Close S limit B A := by
  obtain ⟨x, hx, y, hy, n, hn, h⟩ := h
  exact ⟨y, hy, x, hx, n, hn, h.symm fun _ _ h => h.symm⟩

/-- All elements of all sets. -/
def flat (cl : List (HSet ℕ)) : List ℕ := cl.flatMap HSet.toList

@[simp] theorem flat_nil : flat [] = [] := rfl
@[simp] theorem flat_cons {A : HSet ℕ} {cl} : flat (A :: cl) = A.toList ++ flat cl := rfl
@[simp] theorem flat_append {a b : List (HSet ℕ)} : flat (a ++ b) = flat a ++ flat b := List.flatMap_append

theorem mem_flat {cl : List (HSet ℕ)} {x : ℕ} : x ∈ flat cl ↔ ∃ A ∈ cl, x ∈ A := List.mem_flatMap

theorem flat_perm {a b : List (HSet ℕ)} (h : a.Perm b) : (flat a).Perm (flat b) := h.flatMap_right _

@[simp] theorem toList_empty : (∅ : HSet ℕ).toList = [] := rfl

theorem toList_of_len {A : HSet ℕ} (h : A.len = 0) : A.toList = [] := List.length_eq_zero_iff.1 h

theorem flat_nonempties {cl : List (HSet ℕ)} : flat (LinGraph.nonempties cl) = flat cl := by
  induction cl with
  | nil => rfl
  | cons A cl ih =>
    unfold LinGraph.nonempties at ih ⊢
    rw [List.filter_cons]
    by_cases h : A.len = 0
    · rw [if_neg (by simp [h]), ih, flat_cons, toList_of_len h]; rfl
    · rw [if_pos (by simp [h]), flat_cons, ih, flat_cons]

theorem extend_perm {A B : HSet ℕ} (h : (A.toList ++ B.toList).Nodup) :
    (A.extend B.toList).toList.Perm (A.toList ++ B.toList) := by
  rw [List.perm_ext_iff_of_nodup (A.extend B.toList).nodup h]
  intro x
  rw [HSet.mem_toList, HSet.mem_extend, List.mem_append]
  rfl

/-- Merging later classes into a class. -/
theorem mergeInto (O : S.Ordering ord) (Tb : LinGraph.LRep.WTab S ord ws M) (σ : Shuffle ℕ) (hD : 2 * M < 2 ^ 32)
    (hlim : limit ≤ M) : ∀ (rest : List (HSet ℕ)) (set1 : HSet ℕ), (∀ x ∈ flat (set1 :: rest), x ∈ S.V) →
      (flat (set1 :: rest)).Nodup → (∀ A ∈ set1 :: rest, Far S limit A) →
      Ok (LinGraph.mergeInto σ ws M limit set1 rest) (fun r => (flat (r.1 :: r.2.1)).Perm (flat (set1 :: rest)) ∧
        (∀ A ∈ r.1 :: r.2.1, Far S limit A) ∧ (set1.len ≠ 0 → r.1.len ≠ 0) ∧
        (LinGraph.nonempties r.2.1).length + (if r.2.2 then 1 else 0) ≤ (LinGraph.nonempties rest).length ∧ r.2.1.length = rest.length ∧
        (∀ x ∈ set1, x ∈ r.1) ∧ ∀ B ∈ r.2.1, B.len ≠ 0 → B ∈ rest ∧ (set1.len ≠ 0 → Close S limit r.1 B)) := by
  intro rest
  induction rest with
  | nil =>
    intro set1 _ _ hF
    exact Ok.pure (a := (set1, [], false)) ⟨List.Perm.refl _, hF, id, le_refl _, rfl, fun _ h => h, by simp⟩
  | cons set2 rest ih =>
    intro set1 hV hnd hF
    have hskip : (set2.len ≠ 0 → set1.len ≠ 0 → Close S limit set1 set2) → Ok (do
        let (set1, rest, b) ← LinGraph.mergeInto σ ws M limit set1 rest
        return (set1, set2 :: rest, b) : Res (HSet ℕ × List (HSet ℕ) × Bool)) (fun r =>
        (flat (r.1 :: r.2.1)).Perm (flat (set1 :: set2 :: rest)) ∧
        (∀ A ∈ r.1 :: r.2.1, Far S limit A) ∧ (set1.len ≠ 0 → r.1.len ≠ 0) ∧
        (LinGraph.nonempties r.2.1).length + (if r.2.2 then 1 else 0) ≤ (LinGraph.nonempties (set2 :: rest)).length ∧
        r.2.1.length = (set2 :: rest).length ∧
        (∀ x ∈ set1, x ∈ r.1) ∧
        ∀ B ∈ r.2.1, B.len ≠ 0 → B ∈ set2 :: rest ∧ (set1.len ≠ 0 → Close S limit r.1 B)) := by
      intro hclose
      have hsub : (flat (set1 :: rest)).Sublist (flat (set1 :: set2 :: rest)) := by
        simp only [flat_cons]
        exact (List.Sublist.refl _).append (List.sublist_append_right _ _)
      refine (ih set1 (fun x hx => hV x (hsub.subset hx)) (hnd.sublist hsub) (fun A hA => hF A ?_)).bind ?_
      · rcases List.mem_cons.1 hA with rfl | h
        · simp
        · simp [h]
      · rintro ⟨a, r, b⟩ ⟨h1, h2, h3, h4, hl, h5, h6⟩
        simp only at h1 h2 h3 h4 hl h5 h6
        refine Ok.pure ⟨?_, ?_, h3, ?_, by simp [hl], h5, ?_⟩
        · show (flat (a :: set2 :: r)).Perm _
          have e1 : (flat (a :: set2 :: r)).Perm (flat (set2 :: a :: r)) := flat_perm (List.Perm.swap _ _ _)
          have e2 : (flat (set1 :: set2 :: rest)).Perm (flat (set2 :: set1 :: rest)) := flat_perm (List.Perm.swap _ _ _)
          refine e1.trans (List.Perm.trans ?_ e2.symm)
          rw [flat_cons, flat_cons (A := set2)]
          exact h1.append_left _
        · intro A hA
          simp only [List.mem_cons] at hA
          rcases hA with rfl | rfl | hA
          · exact h2 _ (by simp)
          · exact hF _ (by simp)
          · exact h2 _ (by simp [hA])
        · show (LinGraph.nonempties (set2 :: r)).length + _ ≤ _
          by_cases h0 : set2.len = 0
          · have e : ∀ l, LinGraph.nonempties (set2 :: l) = LinGraph.nonempties l := by
              intro l; simp [LinGraph.nonempties, h0]
            rw [e, e]; exact h4
          · have e : ∀ l, LinGraph.nonempties (set2 :: l) = set2 :: LinGraph.nonempties l := by
              intro l; simp [LinGraph.nonempties, h0]
            rw [e, e, List.length_cons, List.length_cons]
            simp only
            omega
        · intro B hB hne
          rcases List.mem_cons.1 hB with rfl | hB
          · exact ⟨by simp, fun h0 => (hclose hne h0).mono h5 fun _ h => h⟩
          · exact ⟨List.mem_cons_of_mem _ (h6 B hB hne).1, (h6 B hB hne).2⟩
    unfold LinGraph.mergeInto
    by_cases he : set2.len = 0
    · rw [if_pos (by simpa using he)]
      exact hskip fun h => absurd he h
    · rw [if_neg (by simpa using he)]
      refine (LinGraph.LRep.smallDistanceSets O σ Tb hD (X := set1.toList) (Y := set2.toList)
        (fun x hx => hV x (by simp [hx])) (fun x hx => hV x (by simp [hx]))).bind ?_
      intro dist hdist
      by_cases hc : dist.any (· < limit) = true
      · rw [if_pos hc]
        refine hskip fun _ _ => ?_
        cases dist with
        | none => cases hc
        | some n =>
          have hlt : n < limit := of_decide_eq_true hc
          obtain ⟨⟨⟨x, hx, y, hy, hw⟩, -⟩, -⟩ := (hdist n).1 rfl
          exact ⟨x, hx, y, hy, n, hlt, hw⟩
      · rw [if_neg hc]
        have happ : (set1.toList ++ set2.toList).Nodup := by
          rw [flat_cons, flat_cons, ← List.append_assoc] at hnd
          exact (List.nodup_append.1 hnd).1
        have hperm : (flat (set1.extend set2.toList :: rest)).Perm (flat (set1 :: set2 :: rest)) := by
          rw [flat_cons, flat_cons, flat_cons, ← List.append_assoc]
          exact (extend_perm happ).append_right _
        have hcross : ∀ x ∈ set1, ∀ y ∈ set2, ∀ n, Walk S.Adj n x y → limit ≤ n := by
          intro x hx y hy n hw
          by_contra hlt
          have hex : ∃ n, ∃ x ∈ set1.toList, ∃ y ∈ set2.toList, Walk S.Adj n x y := ⟨n, x, hx, y, hy, hw⟩
          classical
          have hmin := hdist (Nat.find hex)
          have hle : Nat.find hex ≤ n := Nat.find_min' hex ⟨x, hx, y, hy, hw⟩
          have := hmin.2 ⟨⟨Nat.find_spec hex, fun m hm => Nat.find_min hex hm⟩, by omega⟩
          rw [this] at hc
          refine hc ?_
          show decide (Nat.find hex < limit) = true
          rw [decide_eq_true_eq]
          omega
        have hfar : Far S limit (set1.extend set2.toList) := by
          intro x hx y hy hxy n hw
          rw [HSet.mem_extend] at hx hy
          rcases hx with hx' | hx' <;> rcases hy with hy' | hy'
          · exact hF set1 (by simp) x hx' y hy' hxy n hw
          · exact hcross x hx' y hy' n hw
          · exact hcross y hy' x hx' n (hw.symm fun _ _ h => h.symm)
          · exact hF set2 (by simp) x hx' y hy' hxy n hw
        refine (ih (set1.extend set2.toList) (fun x hx => hV x (hperm.subset hx)) (hperm.nodup_iff.2 hnd)
          (fun A hA => ?_)).bind ?_
        · rcases List.mem_cons.1 hA with rfl | h
          · exact hfar
          · exact hF A (by simp [h])
        · rintro ⟨a, r, b⟩ ⟨h1, h2, h3, h4, hl, h5, h6⟩
          simp only at h1 h2 h3 h4 hl h5 h6
          have hext : (set1.extend set2.toList).len ≠ 0 := by
            intro h0
            have hl := (extend_perm happ).length_eq
            have : (set1.extend set2.toList).toList.length = 0 := h0
            rw [this, List.length_append] at hl
            have h5 : set2.toList.length = set2.len := rfl
            omega
          refine Ok.pure ⟨?_, ?_, fun _ => h3 hext, ?_, by simp [hl],
            fun x hx => h5 x (HSet.mem_extend.2 (Or.inl hx)), ?_⟩
          · exact h1.trans hperm
          · intro A hA
            simp only [List.mem_cons] at hA
            rcases hA with rfl | rfl | hA
            · exact h2 _ (by simp)
            · intro x hx
              exact absurd hx HSet.not_mem_empty
            · exact h2 _ (by simp [hA])
          · have e0 : LinGraph.nonempties (∅ :: r) = LinGraph.nonempties r := by
              simp [LinGraph.nonempties, HSet.len]
            have e1 : LinGraph.nonempties (set2 :: rest) = set2 :: LinGraph.nonempties rest := by
              simp [LinGraph.nonempties, he]
            show (LinGraph.nonempties (∅ :: r)).length + 1 ≤ _
            rw [e0, e1, List.length_cons]
            omega
          · intro B hB hne
            rcases List.mem_cons.1 hB with rfl | hB
            · exact absurd rfl hne
            · exact ⟨List.mem_cons_of_mem _ (h6 B hB hne).1, fun _ => (h6 B hB hne).2 hext⟩

/-- One round of improvements. -/
theorem improveRound (O : S.Ordering ord) (Tb : LinGraph.LRep.WTab S ord ws M) (σ : Shuffle ℕ) (hD : 2 * M < 2 ^ 32)
    (hlim : limit ≤ M) : ∀ (n : ℕ) (cl : List (HSet ℕ)), cl.length ≤ n → (∀ x ∈ flat cl, x ∈ S.V) → (flat cl).Nodup →
      (∀ A ∈ cl, Far S limit A) →
      Ok (LinGraph.improveRound σ ws M limit n cl) (fun r => (flat (r.1 ++ r.2.1)).Perm (flat cl) ∧
        (∀ A ∈ r.1 ++ r.2.1, Far S limit A) ∧ (∀ A ∈ r.2.1, A.len ≠ 0) ∧
        (LinGraph.nonempties r.1).length + (if r.2.2 then 1 else 0) ≤ (LinGraph.nonempties cl).length ∧
        (∀ B ∈ r.1 ++ r.2.1, B.len ≠ 0 → ∃ A ∈ cl, A.len ≠ 0 ∧ ∀ x ∈ A, x ∈ B) ∧
        (LinGraph.nonempties (r.1 ++ r.2.1)).Pairwise (Close S limit)) := by
  intro n
  induction n with
  | zero =>
    intro cl hlen _ _ hF
    obtain rfl : cl = [] := List.length_eq_zero_iff.1 (by omega)
    exact Ok.pure (a := ([], [], false)) ⟨by simp, by simp, by simp, le_refl _, by simp, .nil⟩
  | succ n ih =>
    intro cl hlen hV hnd hF
    cases cl with
    | nil => exact Ok.pure (a := ([], [], false)) ⟨by simp, by simp, by simp, le_refl _, by simp, .nil⟩
    | cons set1 rest =>
      unfold LinGraph.improveRound
      by_cases he : set1.len = 0
      · rw [if_pos (by simpa using he)]
        refine (ih rest (by simpa using hlen) (fun x hx => hV x (by simp [hx])) (by
          rw [flat_cons] at hnd; exact (List.nodup_append.1 hnd).2.1) (fun A hA => hF A (by simp [hA]))).bind ?_
        rintro ⟨cl', un, b⟩ ⟨h1, h2, h3, h4, h5, h6⟩
        have e0 : ∀ l, LinGraph.nonempties (set1 :: l) = LinGraph.nonempties l := by
          intro l; simp [LinGraph.nonempties, he]
        refine Ok.pure ⟨?_, ?_, h3, ?_, ?_, ?_⟩
        · show (flat (set1 :: cl' ++ un)).Perm _
          rw [List.cons_append, flat_cons, flat_cons]
          exact h1.append_left _
        · intro A hA
          simp only [List.cons_append, List.mem_cons] at hA
          rcases hA with rfl | hA
          · exact hF _ (by simp)
          · exact h2 A hA
        · simp only [e0]
          exact h4
        · intro B hB hne
          simp only [List.cons_append, List.mem_cons] at hB
          rcases hB with rfl | hB
          · exact absurd he hne
          · obtain ⟨A, hA, h⟩ := h5 B hB hne
            exact ⟨A, by simp [hA], h⟩
        · rw [List.cons_append, e0]
          exact h6
      · rw [if_neg (by simpa using he)]
        refine (mergeInto O Tb σ hD hlim rest set1 hV hnd hF).bind ?_
        rintro ⟨s, r, cur⟩ ⟨m1, m2, m3, m4, ml, m5, m6⟩
        simp only at m1 m2 m3 m4 ml m5 m6
        have hnd' := m1.nodup_iff.2 hnd
        refine (ih r (by rw [List.length_cons] at hlen; omega) (fun x hx => hV x (m1.subset (by simp [hx]))) (by
          rw [flat_cons] at hnd'; exact (List.nodup_append.1 hnd').2.1) (fun A hA => m2 A (by simp [hA]))).bind ?_
        rintro ⟨cl', un, b⟩ ⟨h1, h2, h3, h4, h5, h6⟩
        simp only at h1 h2 h3 h4 h5 h6
        have hs : ∀ B ∈ LinGraph.nonempties (cl' ++ un), Close S limit s B := by
          intro B hB
          obtain ⟨hB, hne⟩ := List.mem_filter.1 hB
          obtain ⟨A, hA, hA0, hsub⟩ := h5 B hB (by simpa using hne)
          exact ((m6 A hA hA0).2 he).mono (fun _ h => h) hsub
        have hs0 : LinGraph.nonempties (s :: (cl' ++ un)) = s :: LinGraph.nonempties (cl' ++ un) := by
          simp [LinGraph.nonempties, m3 he]
        have hsub : ∀ B ∈ s :: (cl' ++ un), B.len ≠ 0 → ∃ A ∈ set1 :: rest, A.len ≠ 0 ∧ ∀ x ∈ A, x ∈ B := by
          intro B hB hne
          rcases List.mem_cons.1 hB with rfl | hB
          · exact ⟨set1, by simp, he, m5⟩
          · obtain ⟨A, hA, hA0, h⟩ := h5 B hB hne
            exact ⟨A, by simp [(m6 A hA hA0).1], hA0, h⟩
        have hpw : (LinGraph.nonempties (s :: (cl' ++ un))).Pairwise (Close S limit) := by
          rw [hs0]
          exact List.pairwise_cons.2 ⟨hs, h6⟩
        have e1 : LinGraph.nonempties (set1 :: rest) = set1 :: LinGraph.nonempties rest := by
          simp [LinGraph.nonempties, he]
        cases cur with
        | true =>
          refine Ok.pure ⟨?_, ?_, h3, ?_, hsub, hpw⟩
          · show (flat (s :: cl' ++ un)).Perm _
            refine List.Perm.trans ?_ m1
            rw [List.cons_append, flat_cons, flat_cons]
            exact h1.append_left _
          · intro A hA
            simp only [List.cons_append, List.mem_cons] at hA
            rcases hA with rfl | hA
            · exact m2 _ (by simp)
            · exact h2 A hA
          · have e0 : LinGraph.nonempties (s :: cl') = s :: LinGraph.nonempties cl' := by
              simp [LinGraph.nonempties, m3 he]
            simp only [e0, e1, List.length_cons, if_true] at m4 ⊢
            omega
        | false =>
          refine Ok.pure ⟨?_, ?_, ?_, ?_, ?_, ?_⟩
          · show (flat (∅ :: cl' ++ s :: un)).Perm _
            refine List.Perm.trans ?_ m1
            have e2 : flat (∅ :: cl' ++ s :: un) = flat (cl' ++ s :: un) := rfl
            rw [e2]
            refine (flat_perm (List.perm_middle)).trans ?_
            rw [flat_cons, flat_cons]
            exact h1.append_left _
          · intro A hA
            simp only [List.cons_append, List.mem_cons, List.mem_append] at hA
            rcases hA with rfl | hA | rfl | hA
            · intro x hx
              exact absurd hx HSet.not_mem_empty
            · exact h2 A (by simp [hA])
            · exact m2 _ (by simp)
            · exact h2 A (by simp [hA])
          · intro A hA
            simp only [List.mem_cons] at hA
            rcases hA with rfl | hA
            · exact m3 he
            · exact h3 A hA
          · have e0 : LinGraph.nonempties (∅ :: cl') = LinGraph.nonempties cl' := by
              simp [LinGraph.nonempties, HSet.len]
            simp only [e0, e1, List.length_cons] at m4 ⊢
            simp only [Bool.false_eq_true, if_false] at m4 ⊢
            omega
          · intro B hB hne
            refine hsub B ?_ hne
            simp only [List.cons_append, List.mem_cons, List.mem_append] at hB ⊢
            rcases hB with rfl | hB
            · exact absurd rfl hne
            · tauto
          · show (LinGraph.nonempties (cl' ++ s :: un)).Pairwise _
            have hp : (LinGraph.nonempties (cl' ++ s :: un)).Perm (LinGraph.nonempties (s :: (cl' ++ un))) :=
              List.perm_middle.filter _
            exact (hp.pairwise_iff (fun {A B} h => h.symm)).2 hpw

/-- The improvement loop. -/
theorem improveLoop (O : S.Ordering ord) (Tb : LinGraph.LRep.WTab S ord ws M) (σ : Shuffle ℕ) (hD : 2 * M < 2 ^ 32)
    (hlim : limit ≤ M) : ∀ (fuel : ℕ) (cl un : List (HSet ℕ)), (LinGraph.nonempties cl).length < fuel →
      (∀ x ∈ flat cl, x ∈ S.V) → (flat cl).Nodup →
      (∀ A ∈ cl, Far S limit A) → (∀ A ∈ un, Far S limit A) → (∀ A ∈ un, A.len ≠ 0) →
      (∀ A ∈ un, ∀ B ∈ cl, B.len ≠ 0 → Close S limit A B) → un.Pairwise (Close S limit) →
      Ok (LinGraph.improveLoop σ ws M limit fuel cl un) (fun r => (flat r).Perm (flat (cl ++ un)) ∧
        (∀ A ∈ r, Far S limit A) ∧ (∀ A ∈ r, A.len ≠ 0) ∧ r.Pairwise (Close S limit)) := by
  intro fuel
  induction fuel with
  | zero => intro cl un h; omega
  | succ fuel ih =>
    intro cl un hf hV hnd hF hF' hne hcr hpw
    unfold LinGraph.improveLoop
    have hp : ((LinGraph.nonempties cl).insertionSort (fun a b => a.len ≤ b.len)).Perm (LinGraph.nonempties cl) :=
      List.perm_insertionSort _ _
    have hpf : (flat ((LinGraph.nonempties cl).insertionSort (fun a b => a.len ≤ b.len))).Perm (flat cl) := by
      refine (flat_perm hp).trans ?_
      rw [flat_nonempties]
    have hcount : (LinGraph.nonempties ((LinGraph.nonempties cl).insertionSort (fun a b => a.len ≤ b.len))).length =
        (LinGraph.nonempties cl).length := by
      have := (hp.filter (fun S => S.len != 0)).length_eq
      refine this.trans ?_
      unfold LinGraph.nonempties
      rw [List.filter_filter]
      simp
    simp only
    refine (improveRound O Tb σ hD hlim _ _ (le_refl _) (fun x hx => hV x (hpf.subset hx)) (hpf.nodup_iff.2 hnd)
      (fun A hA => hF A (List.mem_of_mem_filter (hp.subset hA)))).bind ?_
    rintro ⟨cl', un', b⟩ ⟨h1, h2, h3, h4, h5, h6⟩
    simp only at h1 h2 h3 h4 h5 h6
    rw [hcount] at h4
    have hcr' : ∀ A ∈ un, ∀ B ∈ cl' ++ un', B.len ≠ 0 → Close S limit A B := by
      intro A hA B hB hB0
      obtain ⟨C, hC, hC0, hsub⟩ := h5 B hB hB0
      exact (hcr A hA C (List.mem_of_mem_filter (hp.subset hC)) hC0).mono (fun _ h => h) hsub
    have hne' : LinGraph.nonempties un' = un' := by
      unfold LinGraph.nonempties
      rw [List.filter_eq_self]
      intro A hA
      simpa using h3 A hA
    have hsplit : LinGraph.nonempties (cl' ++ un') = LinGraph.nonempties cl' ++ un' := by
      conv_rhs => rw [← hne']
      exact List.filter_append _ _
    rw [hsplit, List.pairwise_append] at h6
    obtain ⟨p1, p2, p3⟩ := h6
    have hall' : (un ++ un').Pairwise (Close S limit) := List.pairwise_append.2
      ⟨hpw, p2, fun A hA B hB => hcr' A hA B (by simp [hB]) (h3 B hB)⟩
    have hall : (flat (cl' ++ un')).Perm (flat cl) := h1.trans hpf
    cases b with
    | true =>
      simp only [if_true] at h4 ⊢
      have hsub : ∀ x ∈ flat cl', x ∈ flat (cl' ++ un') := fun x hx => by simp [hx]
      refine (ih cl' (un ++ un') (by omega) (fun x hx => hV x (hall.subset (hsub x hx))) (by
        have := hall.nodup_iff.2 hnd
        rw [flat_append] at this
        exact (List.nodup_append.1 this).1) (fun A hA => h2 A (by simp [hA])) (fun A hA => ?_) (fun A hA => ?_)
        (fun A hA B hB hB0 => ?_) hall').mono ?_
      · rcases List.mem_append.1 hA with h | h
        · exact hF' A h
        · exact h2 A (by simp [h])
      · rcases List.mem_append.1 hA with h | h
        · exact hne A h
        · exact h3 A h
      · rcases List.mem_append.1 hA with h | h
        · exact hcr' A h B (by simp [hB]) hB0
        · exact (p3 B (List.mem_filter.2 ⟨hB, by simpa using hB0⟩) A h).symm
      · rintro r ⟨r1, r2, r3⟩
        refine ⟨r1.trans ?_, r2, r3⟩
        have e1 : (flat (cl' ++ (un ++ un'))).Perm (flat ((cl' ++ un') ++ un)) := by
          rw [List.append_assoc]
          exact flat_perm (List.perm_append_comm.append_left _)
        refine e1.trans ?_
        rw [flat_append, flat_append (a := cl)]
        exact hall.append_right _
    | false =>
      refine Ok.pure ⟨?_, ?_, ?_, ?_⟩
      · show (flat (un ++ un' ++ LinGraph.nonempties cl')).Perm _
        have e1 : (flat (un ++ un' ++ LinGraph.nonempties cl')).Perm (flat ((LinGraph.nonempties cl' ++ un') ++ un)) := by
          refine flat_perm ?_
          refine List.perm_append_comm.trans ?_
          rw [List.append_assoc]
          exact List.perm_append_comm.append_left _
        refine e1.trans ?_
        rw [flat_append, flat_append (a := cl)]
        refine List.Perm.append_right _ (List.Perm.trans ?_ hall)
        rw [flat_append, flat_nonempties, flat_append]
      · intro A hA
        rcases List.mem_append.1 hA with hA | hA
        · rcases List.mem_append.1 hA with hA | hA
          · exact hF' A hA
          · exact h2 A (by simp [hA])
        · exact h2 A (by simp [List.mem_of_mem_filter hA])
      · intro A hA
        rcases List.mem_append.1 hA with hA | hA
        · rcases List.mem_append.1 hA with hA | hA
          · exact hne A hA
          · exact h3 A hA
        · have := (List.mem_filter.1 hA).2
          simpa using this
      · refine List.pairwise_append.2 ⟨hall', p1, fun A hA B hB => ?_⟩
        obtain ⟨hB1, hB0⟩ := List.mem_filter.1 hB
        rcases List.mem_append.1 hA with h | h
        · exact hcr' A h B (by simp [hB1]) (by simpa using hB0)
        · exact (p3 B hB A h).symm

/-- Extending a colouring, with bounds on the new colours. -/
theorem disjointExtend {self other : HMap ℕ ℕ} {B C : ℕ} (hB : ∀ u c, self.get? u = some c → c < B)
    (hC : ∀ u c, other.get? u = some c → c < C) (hBC : B + C < 2 ^ 32) :
    Ok (VertexColouring.disjointExtend self other) (fun r =>
      (∀ u c, self.get? u = some c → r.get? u = some c) ∧
      (∀ u, r.contains u = true ↔ self.contains u = true ∨ other.contains u = true) ∧
      (∀ u, self.get? u = none → ∀ c, r.get? u = some c → ∀ v, self.get? v ≠ some c) ∧
      (∀ u v, self.get? u = none → self.get? v = none → other.contains u = true → other.contains v = true →
        (r.get? u = r.get? v ↔ other.get? u = other.get? v)) ∧
      ∀ u c, r.get? u = some c → c < B + C) := by
  obtain ⟨r, hr, h1, h2, h3, h4⟩ := C30_disjoint_extend self other (fun u c h => ⟨by have := hB u c h; omega,
    fun v d hd => by have := hB u c h; have := hC v d hd; omega⟩) (fun v d hd => by have := hC v d hd; omega)
  refine ⟨r, hr, h1, h2, h3, h4, ?_⟩
  unfold VertexColouring.disjointExtend at hr
  have hoff : Ok (VertexColouring.offset self) (fun off => off ≤ B) := by
    unfold VertexColouring.offset
    simp only
    cases hm : (HSet.ofList self.values).toList.max? with
    | none => simp only; exact Ok.pure (Nat.zero_le _)
    | some m =>
      have hmem : m ∈ (HSet.ofList self.values).toList := List.max?_mem hm
      rw [HSet.mem_toList, HSet.mem_ofList] at hmem
      simp only [HMap.values, List.mem_map, Prod.exists, exists_eq_right] at hmem
      obtain ⟨u, hu⟩ := hmem
      have := hB u m (HMap.get?_eq_some.2 hu)
      simp only [hm]
      rw [add32_ok (by omega)]
      exact Ok.pure (by omega)
  obtain ⟨off, ho, hle⟩ := hoff
  rw [ho, bind_ok] at hr
  refine foldlM_of_ok (fun (_ : List (ℕ × ℕ)) (m : HMap ℕ ℕ) => ∀ u c, m.get? u = some c → c < B + C) ?_ ?_ hr
  · intro u c h
    have := hB u c h
    omega
  · rintro pre ⟨u0, d0⟩ post m m' hs hi hstep u c hc
    have hd := hC u0 d0 (HMap.get?_eq_some.2 (by rw [hs]; simp))
    rw [add32_ok (by simp only; omega)] at hstep
    cases hstep
    split at hc
    · exact hi u c hc
    · rw [HMap.get?_insert] at hc
      split at hc
      · cases hc
        simp only
        omega
      · exact hi u c hc

/-- The state of the first loop: `target` and `colouring` partition the original target, colours are small and colour
classes far apart. -/
structure LInv (S : SGraph) (limit : ℕ) (target0 target : HSet ℕ) (colouring : HMap ℕ ℕ) : Prop where
  cover : ∀ u, u ∈ target0 ↔ u ∈ target ∨ u ∈ colouring.keys
  disj : ∀ u ∈ target, u ∉ colouring.keys
  small : ∀ u c, colouring.get? u = some c → c < colouring.len
  far : ∀ u v c, u ≠ v → colouring.get? u = some c → colouring.get? v = some c → ∀ n, Walk S.Adj n u v → limit < n

theorem keys_card (m : HMap ℕ ℕ) : m.len = (⟨m.keys, m.nodup⟩ : Finset ℕ).card := HMap.len_of_mem_iff fun _ => Iff.rfl

theorem scatterLoop (O : S.Ordering ord) (Tb : LinGraph.LRep.WTab S ord ws M) (ρ : ℕ → Shuffle (ℕ × ℕ)) (cutoff r : ℕ)
    (ω : ℕ → LinGraph.WitnessOrder) (hω : ∀ k g, EditGraph.Relayout g ((ω k).lay g)) (hlim : limit ≤ M)
    (hM : 2 * M < 2 ^ 32) (hM' : M + (r + 1) < 2 ^ 32)
    (hn : S.V.card ≤ 2 ^ 31) {order : List ℕ} (hnd : order.Nodup) (hord : ∀ x, x ∈ order ↔ x ∈ S.V)
    {target0 : HSet ℕ} (hT : ∀ x ∈ target0, x ∈ S.V) : ∀ (fuel : ℕ) (target : HSet ℕ) (colouring : HMap ℕ ℕ),
      target.len ≤ fuel → LInv S limit target0 target colouring →
      SafeIf (∃ W ⊆ target0.toFinset, S.Crowd limit 130 W) (LinGraph.scatterLoop ω ρ r (r + 1) cutoff limit ws order fuel target colouring) (fun c =>
        (∀ u, u ∈ c.keys ↔ u ∈ target0) ∧
        ∀ u v k, u ≠ v → c.get? u = some k → c.get? v = some k → ∀ n, Walk S.Adj n u v → limit < n) := by
  intro fuel
  induction fuel with
  | zero =>
    intro target col hf hi
    unfold LinGraph.scatterLoop
    rw [if_pos (by simpa using hf)]
    refine SafeIf.pure (a := col) ⟨fun u => ?_, hi.far⟩
    rw [hi.cover]
    have : u ∉ target := by
      intro h
      have h0 : target.toList = [] := toList_of_len (by omega)
      rw [← HSet.mem_toList, h0] at h
      simp at h
    simp [this]
  | succ fuel ih =>
    intro target col hf hi
    unfold LinGraph.scatterLoop
    by_cases h0 : target.len = 0
    · rw [if_pos (by simpa using h0)]
      refine SafeIf.pure (a := col) ⟨fun u => ?_, hi.far⟩
      rw [hi.cover]
      have : u ∉ target := by
        intro h
        have h0 : target.toList = [] := toList_of_len h0
        rw [← HSet.mem_toList, h0] at h
        simp at h
      simp [this]
    · rw [if_neg (by simpa using h0)]
      simp only
      obtain ⟨st, hst, h1, h2, h3, h4, h5, h6⟩ := Dom.phase (target := target) O Tb ρ cutoff hM' (by omega) hnd hord
      rw [hst, bind_ok]
      have hscV : ∀ x ∈ st.scattered, x ∈ S.V := fun x hx => h1 x (h2 x hx).1
      obtain ⟨A, T, o, hA, hTV, hTA, hjump, haux⟩ := Dom.auxColouring O Tb ρ (ω fuel) (hω fuel) (strict := false) hlim
        (by simp) hM hscV
      rw [haux]
      have hTsub : T.V ⊆ S.V := fun x hx => hscV x ((hTV x).1 hx)
      have hTcard : T.V.card = st.scattered.len := (HSet.len_of_mem_iff fun a => (hTV a).symm).symm
      have hTn : T.V.card ≤ 2 ^ 31 := (Finset.card_le_card hTsub).trans hn
      have hTt : T.V ⊆ target0.toFinset := by
        intro x hx
        rw [HSet.mem_toFinset, hi.cover]
        exact Or.inl (h2 x ((hTV x).1 hx)).2
      refine (SafeIf.of_safe (hA.colourGreedy_safe (by omega))
        (fun hq => hA.colourGreedy_noJump (by omega) (hjump fun W hW h => hq ⟨W, hW.trans hTt, h⟩))).bind ?_
      rintro cs ⟨⟨c1, c2, c3, -⟩, c4⟩
      have hcolcard : col.len ≤ S.V.card := by
        rw [keys_card]
        exact Finset.card_le_card fun u hu => hT u ((hi.cover u).2 (Or.inr hu))
      have hsum : col.len + T.V.card < 2 ^ 32 := by
        have : col.len + T.V.card ≤ S.V.card := by
          rw [keys_card, ← Finset.card_union_of_disjoint]
          · exact Finset.card_le_card (Finset.union_subset
              (fun u hu => hT u ((hi.cover u).2 (Or.inr hu))) hTsub)
          · rw [Finset.disjoint_left]
            intro u hu hu'
            exact hi.disj u (h2 u ((hTV u).1 hu')).2 hu
        omega
      refine (SafeIf.of_ok (disjointExtend hi.small c3 hsum)).bind ?_
      rintro cr ⟨e1, e2, e3, e4, e5⟩
      refine (SafeIf.assertR (fun hq => ?_)).bind ?_
      · have : cs.len = T.V.card := by
          rw [keys_card]
          congr 1
          ext u
          exact (c4 hq).1 u
        simp [this, hTcard]
      intro _ hlen
      have hlen' : cs.len = st.scattered.len := by simpa using hlen
      -- all scattered vertices got a colour
      have hcs : ∀ u, u ∈ cs.keys ↔ u ∈ st.scattered := by
        have hsub : (⟨cs.keys, cs.nodup⟩ : Finset ℕ) ⊆ T.V := fun u hu => c1 u hu
        have heq := Finset.eq_of_subset_of_card_le hsub (by rw [← keys_card]; omega)
        intro u
        rw [← hTV, ← heq]
        rfl
      have hkeys : ∀ (m : HMap ℕ ℕ) u, m.contains u = true ↔ u ∈ m.keys := fun m u => HMap.contains_iff
      simp only [hkeys] at e2 e4
      have hdisj : ∀ u ∈ cs.keys, col.get? u = none := by
        intro u hu
        rw [HMap.get?_eq_none]
        exact hi.disj u (h2 u ((hcs u).1 hu)).2
      refine ih _ cr ?_ ?_
      · -- progress
        have hne : ∃ x, x ∈ target := by
          by_contra hno
          push Not at hno
          apply h0
          show target.toList.length = 0
          rw [List.length_eq_zero_iff, List.eq_nil_iff_forall_not_mem]
          exact fun x hx => hno x hx
        obtain ⟨x, hx⟩ := hne
        have hxV := hT x ((hi.cover x).2 (Or.inl hx))
        obtain ⟨k, -, hk⟩ := h5 x hxV
        obtain ⟨d, hd, -⟩ := h6 x hx k hk
        obtain ⟨s, hs, -⟩ := h3 d hd
        have hsT := (h2 s hs).2
        have hlt : (target.retain (fun u => !cr.contains u)).len < target.len := by
          rw [HSet.len_eq_card, HSet.len_eq_card]
          refine Finset.card_lt_card (Finset.ssubset_iff_of_subset ?_ |>.2 ⟨s, hsT, ?_⟩)
          · intro u hu
            exact (HSet.mem_retain.1 hu).1
          · intro hu
            have := (HSet.mem_retain.1 hu).2
            simp only [Bool.not_eq_true', ← Bool.not_eq_true] at this
            exact this ((hkeys cr s).2 ((e2 s).2 (Or.inr ((hcs s).2 hs))))
        omega
      · have hret : ∀ u, u ∈ target.retain (fun u => !cr.contains u) ↔ u ∈ target ∧ u ∉ cr.keys := by
          intro u
          rw [HSet.mem_retain, Bool.not_eq_true', ← Bool.not_eq_true, hkeys]
        refine ⟨fun u => ?_, fun u hu => ((hret u).1 hu).2, fun u c hc => ?_, fun u v c huv hu hv => ?_⟩
        · rw [hret, hi.cover, e2]
          have : u ∈ cs.keys → u ∈ target := fun h => (h2 u ((hcs u).1 h)).2
          tauto
        · refine lt_of_lt_of_le (e5 u c hc) ?_
          rw [hTcard, ← hlen', keys_card, keys_card, keys_card, ← Finset.card_union_of_disjoint]
          · refine Finset.card_le_card fun u hu => ?_
            rcases Finset.mem_union.1 hu with h | h
            · exact (e2 u).2 (Or.inl h)
            · exact (e2 u).2 (Or.inr h)
          · rw [Finset.disjoint_left]
            intro u hu hu'
            exact hi.disj u (h2 u ((hcs u).1 hu')).2 hu
        · have hdich : ∀ u c, cr.get? u = some c → col.get? u = some c ∨ (col.get? u = none ∧ u ∈ cs.keys) := by
            intro u c hu
            cases hg : col.get? u with
            | some d =>
              have := e1 u d hg
              rw [hu] at this
              cases this
              exact Or.inl rfl
            | none =>
              refine Or.inr ⟨rfl, ?_⟩
              rcases (e2 u).1 (HMap.mem_keys_iff.2 ⟨c, hu⟩) with h | h
              · obtain ⟨d, hd⟩ := HMap.mem_keys_iff.1 h
                rw [hg] at hd
                cases hd
              · exact h
          rcases hdich u c hu with a1 | ⟨a1, a2⟩ <;> rcases hdich v c hv with b1 | ⟨b1, b2⟩
          · exact hi.far u v c huv a1 b1
          · exact absurd a1 (e3 v b1 c hv u)
          · exact absurd b1 (e3 u a1 c hu v)
          · intro n hw
            have hsame := (e4 u v a1 b1 a2 b2).1 (by rw [hu, hv])
            obtain ⟨k, hk⟩ := HMap.mem_keys_iff.1 a2
            by_contra hle
            have hadj := (hTA u v).2 ⟨(hcs u).1 a2, (hcs v).1 b2, huv, n, by omega, hw⟩
            exact c2 u v k hadj hk (by rw [← hsame]; exact hk)

/-- The classes of a colouring. -/
theorem classes (m : HMap ℕ ℕ) (σ : Shuffle (HSet ℕ)) :
    (flat (σ.run (VertexMap.invert m).values)).Nodup ∧
    (∀ x, x ∈ flat (σ.run (VertexMap.invert m).values) ↔ x ∈ m.keys) ∧
    ∀ A ∈ σ.run (VertexMap.invert m).values, ∃ k, ∀ x, x ∈ A ↔ m.get? x = some k := by
  have hent : ∀ e ∈ (VertexMap.invert m).entries, ∀ x, x ∈ e.2 ↔ m.get? x = some e.1 := fun e he x =>
    (C29_invert m e.1).2 e.2 (HMap.get?_eq_some.2 he) x
  have hp := σ.perm (VertexMap.invert m).values
  refine ⟨?_, fun x => ?_, fun A hA => ?_⟩
  · refine (flat_perm hp).nodup_iff.2 ?_
    unfold flat HMap.values
    rw [List.flatMap_map]
    refine List.nodup_flatMap.2 ⟨fun e _ => e.2.nodup, ?_⟩
    have hpw : (VertexMap.invert m).entries.Pairwise (fun a b => a.1 ≠ b.1) := List.pairwise_map.1 (VertexMap.invert m).nodup
    refine hpw.imp_of_mem fun {a b} ha hb hab => ?_
    intro x hxa hxb
    have h1 := (hent a ha x).1 hxa
    have h2 := (hent b hb x).1 hxb
    rw [h1] at h2
    exact hab (Option.some.inj h2)
  · rw [mem_flat, HMap.mem_keys_iff]
    constructor
    · rintro ⟨A, hA, hx⟩
      rw [σ.mem] at hA
      obtain ⟨e, he, rfl⟩ := List.mem_map.1 hA
      exact ⟨_, (hent e he x).1 hx⟩
    · rintro ⟨k, hk⟩
      obtain ⟨A, hA⟩ := HMap.mem_keys_iff.1 ((C29_invert m k).1.2 ⟨x, hk⟩)
      exact ⟨A, by rw [σ.mem]; exact List.mem_map.2 ⟨_, HMap.get?_eq_some.1 hA, rfl⟩, ((C29_invert m k).2 A hA x).2 hk⟩
  · rw [σ.mem] at hA
    obtain ⟨e, he, rfl⟩ := List.mem_map.1 hA
    exact ⟨e.1, hent e he⟩

/-- Number of nonempty sets. -/
theorem nonempties_le : ∀ cl : List (HSet ℕ), (LinGraph.nonempties cl).length ≤ (flat cl).length := by
  intro cl
  induction cl with
  | nil => exact le_refl _
  | cons A cl ih =>
    unfold LinGraph.nonempties at ih ⊢
    rw [List.filter_cons, flat_cons, List.length_append]
    have h5 : A.toList.length = A.len := rfl
    split
    · rename_i h
      have : A.len ≠ 0 := by simpa using h
      rw [List.length_cons]
      omega
    · omega

end Scatter
end Verif
