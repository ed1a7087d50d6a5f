import Verif.Lemmas.Scatter
import Verif.Spec.Scatter
/-!
# The rule by which classes of a scattered colouring are merged
-/
namespace Verif
open SGraph

namespace Scatter
variable {S : SGraph} {ord : List ℕ} {ws : HMap ℕ (HMap ℕ ℕ)} {M limit : ℕ}

theorem bind_eq_ok {α β : Type} {x : Res α} {f : α → Res β} {b : β} : (x >>= f) = .ok b ↔ ∃ a, x = .ok a ∧ f a = .ok b := by
  cases x with
  | error e => exact ⟨fun h => (by cases h), fun ⟨_, h, _⟩ => (by cases h)⟩
  | ok a => exact ⟨fun h => ⟨a, rfl, h⟩, fun ⟨_, h, h'⟩ => by cases h; exact h'⟩

/-- The nonempty sets of the list. -/
def fin (cl : List (HSet ℕ)) : List (Finset ℕ) := (LinGraph.nonempties cl).map HSet.toFinset

theorem fin_skip {A : HSet ℕ} (h : A.len = 0) (cl : List (HSet ℕ)) : fin (A :: cl) = fin cl := by
  simp [fin, LinGraph.nonempties, h]

theorem fin_cons {A : HSet ℕ} (h : A.len ≠ 0) (cl : List (HSet ℕ)) : fin (A :: cl) = A.toFinset :: fin cl := by
  simp [fin, LinGraph.nonempties, h]

theorem fin_all {cl : List (HSet ℕ)} (h : ∀ A ∈ cl, A.len ≠ 0) : fin cl = cl.map HSet.toFinset := by
  unfold fin LinGraph.nonempties
  rw [List.filter_eq_self.2]
  intro A hA
  simpa using h A hA

theorem len_empty : (∅ : HSet ℕ).len = 0 := rfl

theorem near_iff (O : S.Ordering ord) (Tb : LinGraph.LRep.WTab S ord ws M) (σ : Shuffle ℕ) (hD : 2 * M < 2 ^ 32)
    (hlim : limit ≤ M) {A B : HSet ℕ} (hA : ∀ x ∈ A, x ∈ S.V) (hB : ∀ x ∈ B, x ∈ S.V) {d : Option ℕ}
    (h : smallDistanceSets σ ws M A.toList B.toList = .ok d) : d.any (· < limit) = true ↔ S.Near limit A.toFinset B.toFinset := by
  obtain ⟨d', h1, h2⟩ := LinGraph.LRep.smallDistanceSets O σ Tb hD (X := A.toList) (Y := B.toList) hA hB
  rw [h] at h1
  cases h1
  constructor
  · intro hc
    cases d with
    | none => cases hc
    | some n =>
      obtain ⟨⟨⟨x, hx, y, hy, hw⟩, -⟩, -⟩ := (h2 n).1 rfl
      exact ⟨x, hx, y, hy, n, of_decide_eq_true hc, hw⟩
  · rintro ⟨x, hx, y, hy, n, hn, hw⟩
    have hex : ∃ n, ∃ x ∈ A.toList, ∃ y ∈ B.toList, Walk S.Adj n x y := ⟨n, x, hx, y, hy, hw⟩
    classical
    have hle : Nat.find hex ≤ n := Nat.find_min' hex ⟨x, hx, y, hy, hw⟩
    rw [(h2 (Nat.find hex)).2 ⟨⟨Nat.find_spec hex, fun m hm => Nat.find_min hex hm⟩, by omega⟩]
    show decide (Nat.find hex < limit) = true
    rw [decide_eq_true_eq]
    omega

theorem toFinset_extend {A B : HSet ℕ} : (A.extend B.toList).toFinset = A.toFinset ∪ B.toFinset := by
  ext x
  rw [Finset.mem_union, HSet.mem_toFinset, HSet.mem_toFinset, HSet.mem_toFinset, HSet.mem_extend, HSet.mem_toList]

theorem mergeInto_rule (O : S.Ordering ord) (Tb : LinGraph.LRep.WTab S ord ws M) (σ : Shuffle ℕ) (hD : 2 * M < 2 ^ 32)
    (hlim : limit ≤ M) : ∀ (rest : List (HSet ℕ)) (set1 : HSet ℕ), (∀ x ∈ flat (set1 :: rest), x ∈ S.V) → set1.len ≠ 0 →
      ∀ {s r b}, LinGraph.mergeInto σ ws M limit set1 rest = .ok (s, r, b) →
      Absorb (S.Near limit) set1.toFinset (fin rest) s.toFinset (fin r) ∧
      (if b then (fin r).length < (fin rest).length else s = set1 ∧ r = rest) ∧ s.len ≠ 0 ∧ (∀ x ∈ flat (s :: r), x ∈ S.V) ∧
      r.length = rest.length := by
  intro rest
  induction rest with
  | nil =>
    intro set1 hV h0 s r b h
    cases h
    exact ⟨.nil, ⟨rfl, rfl⟩, h0, hV, rfl⟩
  | cons set2 rest ih =>
    intro set1 hV h0 s r b h
    unfold LinGraph.mergeInto at h
    have hV1 : ∀ x ∈ set1, x ∈ S.V := fun x hx => hV x (by simp [HSet.mem_toList, hx])
    have hV2 : ∀ x ∈ set2, x ∈ S.V := fun x hx => hV x (by simp [HSet.mem_toList, hx])
    have hV3 : ∀ x ∈ flat rest, x ∈ S.V := fun x hx => hV x (by simp [hx])
    have hV4 : ∀ x ∈ flat (set1 :: rest), x ∈ S.V := fun x hx => hV x (by
      rw [flat_cons, List.mem_append] at hx
      rw [flat_cons, flat_cons, List.mem_append, List.mem_append]
      tauto)
    by_cases he : set2.len = 0
    · rw [if_pos (by simpa using he)] at h
      obtain ⟨⟨s', r', b'⟩, hm, h⟩ := bind_eq_ok.1 h
      cases h
      obtain ⟨h1, h2, h3, h4, h5⟩ := ih set1 hV4 h0 hm
      rw [fin_skip he, fin_skip he]
      refine ⟨h1, ?_, h3, fun x hx => ?_, by simp [h5]⟩
      · split
        · rename_i hb; simpa [hb] using h2
        · rename_i hb
          simp only [hb] at h2
          exact ⟨h2.1, by rw [h2.2]⟩
      · simp only [flat_cons, List.mem_append] at hx h4
        rcases hx with hx | hx | hx
        · exact h4 x (Or.inl hx)
        · exact hV2 x hx
        · exact h4 x (Or.inr hx)
    · rw [if_neg (by simpa using he)] at h
      obtain ⟨d, hd, h⟩ := bind_eq_ok.1 h
      have hnear := near_iff O Tb σ hD hlim hV1 hV2 hd
      by_cases hc : d.any (· < limit) = true
      · rw [if_pos hc] at h
        obtain ⟨⟨s', r', b'⟩, hm, h⟩ := bind_eq_ok.1 h
        cases h
        obtain ⟨h1, h2, h3, h4, h5⟩ := ih set1 hV4 h0 hm
        rw [fin_cons he, fin_cons he]
        refine ⟨.keep (hnear.1 hc) h1, ?_, h3, fun x hx => ?_, by simp [h5]⟩
        · split
          · rename_i hb
            simp only [hb, if_true] at h2
            simp only [List.length_cons]
            omega
          · rename_i hb
            simp only [hb] at h2
            exact ⟨h2.1, by rw [h2.2]⟩
        · simp only [flat_cons, List.mem_append] at hx h4
          rcases hx with hx | hx | hx
          · exact h4 x (Or.inl hx)
          · exact hV2 x hx
          · exact h4 x (Or.inr hx)
      · rw [if_neg hc] at h
        obtain ⟨⟨s', r', b'⟩, hm, h⟩ := bind_eq_ok.1 h
        cases h
        have hext : (set1.extend set2.toList).len ≠ 0 := by
          rw [HSet.len_eq_card, toFinset_extend]
          intro h
          rw [Finset.card_eq_zero, Finset.union_eq_empty] at h
          rw [HSet.len_eq_card, h.2] at he
          exact he rfl
        obtain ⟨h1, h2, h3, h4, h5⟩ := ih (set1.extend set2.toList) (fun x hx => by
          rw [flat_cons, List.mem_append, HSet.mem_toList, HSet.mem_extend] at hx
          rcases hx with (hx | hx) | hx
          · exact hV1 x hx
          · exact hV2 x hx
          · exact hV3 x hx) hext hm
        rw [fin_cons he, fin_skip len_empty]
        rw [toFinset_extend] at h1
        refine ⟨.take (fun h => hc (hnear.2 h)) h1, ?_, h3, fun x hx => ?_, by simp [h5]⟩
        · simp only [if_true, List.length_cons]
          have : (fin r').length ≤ (fin rest).length := by
            split at h2
            · omega
            · rw [h2.2]
          omega
        · rw [flat_cons, flat_cons] at hx
          rw [flat_cons] at h4
          exact h4 x (by simpa using hx)

theorem improveRound_rule (O : S.Ordering ord) (Tb : LinGraph.LRep.WTab S ord ws M) (σ : Shuffle ℕ) (hD : 2 * M < 2 ^ 32)
    (hlim : limit ≤ M) : ∀ (n : ℕ) (cl : List (HSet ℕ)), cl.length ≤ n → (∀ x ∈ flat cl, x ∈ S.V) → ∀ {g un b},
      LinGraph.improveRound σ ws M limit n cl = .ok (g, un, b) →
      Sweep (S.Near limit) (fin cl) (fin g) (un.map HSet.toFinset) ∧ (b = true ↔ fin g ≠ []) ∧ (∀ x ∈ flat g, x ∈ S.V) := by
  intro n
  induction n with
  | zero =>
    intro cl hlen _ g un b h
    obtain rfl : cl = [] := List.length_eq_zero_iff.1 (by omega)
    cases h
    exact ⟨.nil, by simp [fin, LinGraph.nonempties], by simp⟩
  | succ n ih =>
    intro cl hlen hV g un b h
    cases cl with
    | nil =>
      cases h
      exact ⟨.nil, by simp [fin, LinGraph.nonempties], by simp⟩
    | cons set1 rest =>
      unfold LinGraph.improveRound at h
      by_cases he : set1.len = 0
      · rw [if_pos (by simpa using he)] at h
        obtain ⟨⟨g', un', b'⟩, hm, h⟩ := bind_eq_ok.1 h
        cases h
        obtain ⟨h1, h2, h3⟩ := ih rest (by simpa using hlen) (fun x hx => hV x (by simp [hx])) hm
        rw [fin_skip he, fin_skip he]
        refine ⟨h1, h2, fun x hx => ?_⟩
        rw [flat_cons, toList_of_len he] at hx
        exact h3 x hx
      · rw [if_neg (by simpa using he)] at h
        obtain ⟨⟨s, r, cur⟩, hmi, h⟩ := bind_eq_ok.1 h
        obtain ⟨m1, m2, m3, m4, m5⟩ := mergeInto_rule O Tb σ hD hlim rest set1 hV he hmi
        obtain ⟨⟨g', un', b'⟩, hm, h⟩ := bind_eq_ok.1 h
        obtain ⟨h1, h2, h3⟩ := ih r (by rw [List.length_cons] at hlen; omega) (fun x hx => m4 x (by simp [hx])) hm
        rw [fin_cons he]
        cases cur with
        | true =>
          cases h
          rw [fin_cons m3]
          refine ⟨.grow m1 m2 h1, by simp, fun x hx => ?_⟩
          rw [flat_cons, List.mem_append] at hx
          rcases hx with hx | hx
          · exact m4 x (by simp [hx])
          · exact h3 x hx
        | false =>
          cases h
          obtain ⟨rfl, rfl⟩ := m2
          rw [fin_skip len_empty]
          exact ⟨.stuck m1 h1, h2, fun x hx => h3 x (by simpa using hx)⟩

theorem fin_sort (cl : List (HSet ℕ)) : fin ((LinGraph.nonempties cl).insertionSort (fun a b => a.len ≤ b.len)) =
    (fin cl).insertionSort fun A B => A.card ≤ B.card := by
  rw [fin_all (fun A hA => by
    have h := (List.mem_filter.1 ((List.perm_insertionSort _ _).subset hA)).2
    simpa using h)]
  exact List.map_insertionSort _ _ _ _ fun A _ B _ => by rw [HSet.len_eq_card, HSet.len_eq_card]

theorem improveLoop_rule (O : S.Ordering ord) (Tb : LinGraph.LRep.WTab S ord ws M) (σ : Shuffle ℕ) (hD : 2 * M < 2 ^ 32)
    (hlim : limit ≤ M) : ∀ (fuel : ℕ) (cl un : List (HSet ℕ)), (∀ x ∈ flat cl, x ∈ S.V) → ∀ {res},
      LinGraph.improveLoop σ ws M limit fuel cl un = .ok res →
      ∃ f, Improve (S.Near limit) (fin cl) f ∧ res.map HSet.toFinset = un.map HSet.toFinset ++ f := by
  intro fuel
  induction fuel with
  | zero => intro cl un _ res h; cases h
  | succ fuel ih =>
    intro cl un hV res h
    unfold LinGraph.improveLoop at h
    simp only at h
    obtain ⟨⟨g, un', b⟩, hm, h⟩ := bind_eq_ok.1 h
    have hpf : (flat ((LinGraph.nonempties cl).insertionSort (fun a b => a.len ≤ b.len))).Perm (flat cl) := by
      refine (flat_perm (List.perm_insertionSort _ _)).trans ?_
      rw [flat_nonempties]
    obtain ⟨h1, h2, h3⟩ := improveRound_rule O Tb σ hD hlim _ _ (le_refl _) (fun x hx => hV x (hpf.subset hx)) hm
    rw [fin_sort] at h1
    cases b with
    | true =>
      obtain ⟨f, h4, h5⟩ := ih g (un ++ un') h3 h
      exact ⟨_, .again h1 (h2.1 rfl) h4, by rw [h5, List.map_append, List.append_assoc]⟩
    | false =>
      have hg : fin g = [] := by
        by_contra hc
        exact absurd (h2.2 hc) (by simp)
      cases h
      rw [hg] at h1
      refine ⟨_, .stop h1, ?_⟩
      have : LinGraph.nonempties g = [] := List.map_eq_nil_iff.1 hg
      rw [this, List.append_nil, List.map_append]

/-! ## Merging is deterministic -/

theorem _root_.Verif.Absorb.unique {near : Finset ℕ → Finset ℕ → Prop} {A A1 : Finset ℕ} {l l1 : List (Finset ℕ)}
    (h : Absorb near A l A1 l1) : ∀ {A2 l2}, Absorb near A l A2 l2 → A1 = A2 ∧ l1 = l2 := by
  induction h with
  | nil => intro A2 l2 h'; cases h'; exact ⟨rfl, rfl⟩
  | keep hn _ ih =>
    intro A2 l2 h'
    cases h' with
    | keep _ t =>
      obtain ⟨h1, h2⟩ := ih t
      exact ⟨h1, by rw [h2]⟩
    | take hn' _ => exact absurd hn hn'
  | take hn _ ih =>
    intro A2 l2 h'
    cases h' with
    | keep hn' _ => exact absurd hn' hn
    | take _ t => exact ih t

theorem _root_.Verif.Sweep.unique {near : Finset ℕ → Finset ℕ → Prop} {l g f : List (Finset ℕ)} (h : Sweep near l g f) :
    ∀ {g' f'}, Sweep near l g' f' → g = g' ∧ f = f' := by
  induction h with
  | nil => intro g' f' h'; cases h'; exact ⟨rfl, rfl⟩
  | stuck ha _ ih =>
    intro g' f' h'
    cases h' with
    | stuck _ t =>
      obtain ⟨h1, h2⟩ := ih t
      exact ⟨h1, by rw [h2]⟩
    | grow ha' hl _ =>
      obtain ⟨-, rfl⟩ := ha.unique ha'
      omega
  | grow ha hl _ ih =>
    intro g' f' h'
    cases h' with
    | stuck ha' _ =>
      obtain ⟨-, rfl⟩ := ha.unique ha'
      omega
    | grow ha' _ t =>
      obtain ⟨rfl, rfl⟩ := ha.unique ha'
      obtain ⟨h1, h2⟩ := ih t
      exact ⟨by rw [h1], h2⟩

theorem _root_.Verif.Improve.unique {near : Finset ℕ → Finset ℕ → Prop} {l f : List (Finset ℕ)} (h : Improve near l f) :
    ∀ {f'}, Improve near l f' → f = f' := by
  induction h with
  | stop h =>
    intro f' h'
    cases h' with
    | stop h' => exact (h.unique h').2
    | again h' hg _ => exact absurd (h.unique h').1.symm hg
  | again h hg _ ih =>
    intro f' h'
    cases h' with
    | stop h' => exact absurd (h.unique h').1 hg
    | again h' _ t =>
      obtain ⟨rfl, rfl⟩ := h.unique h'
      rw [ih t]

end Scatter
end Verif
