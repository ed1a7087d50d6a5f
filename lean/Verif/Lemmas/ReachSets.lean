import Verif.Lemmas.Reach
/-!
# Correctness of the strongly and weakly reachable sets
-/
namespace Verif

theorem zipIdx_split {α : Type} {l : List α} {pre post : List (α × ℕ)} {a : α} {i : ℕ}
    (h : l.zipIdx = pre ++ (a, i) :: post) : i = pre.length ∧ l[i]? = some a := by
  have h1 : l.zipIdx[pre.length]? = some (a, i) := by rw [h]; simp
  rw [List.getElem?_zipIdx] at h1
  cases hl : l[pre.length]? with
  | none => rw [hl] at h1; simp at h1
  | some b =>
    rw [hl] at h1
    simp only [Option.map_some, Nat.zero_add, Option.some.injEq, Prod.mk.injEq] at h1
    obtain ⟨rfl, h2⟩ := h1
    exact ⟨h2.symm, by rw [← h2]; exact hl⟩

theorem cast32_of_lt {n : ℕ} (h : n < 2 ^ 32) : cast32 n = n := Nat.mod_eq_of_lt h

namespace SGraph
variable {S : SGraph} {ord : List ℕ}

/-- Distance in the right part of `r`; everything reached is at or after `r`. -/
theorem walk_right_le {r n v : ℕ} (h : Walk (S.RightAdj ord r) n r v) : ord.idxOf r ≤ ord.idxOf v := by
  cases n with
  | zero => rw [Walk.zero_iff.1 h]
  | succ n =>
    obtain ⟨w, -, h2⟩ := Walk.succ_iff_snoc.1 h
    exact h2.2.2

end SGraph

namespace LinGraph.LRep
variable {L : LinGraph} {S : SGraph} {ord : List ℕ}

theorem sreachVisits (H : L.LRep S ord) {u iu d : ℕ} (hu : u ∈ S.V) (hi : L.indexOf u = .ok iu) {N : List ℕ}
    {res : HMap ℕ ℕ} (hN : ∀ v ∈ N, v ∈ S.V) :
    Ok (N.foldlM (L.sreachVisit iu d) res) (fun res' => ∀ x e, res'.get? x = some e ↔ res.get? x = some e ∨
      (res.get? x = none ∧ x ∈ N ∧ ord.idxOf x < ord.idxOf u ∧ e = cast32 (d + 1))) := by
  refine Ok.foldlM (fun (pre : List ℕ) (res' : HMap ℕ ℕ) => ∀ x e, res'.get? x = some e ↔ res.get? x = some e ∨
      (res.get? x = none ∧ x ∈ pre ∧ ord.idxOf x < ord.idxOf u ∧ e = cast32 (d + 1))) (by simp) ?_
  rintro pre a post res' rfl h
  have ha : a ∈ S.V := hN a (by simp)
  obtain ⟨ia, hia⟩ := H.index a ha
  have hlt := H.index_lt a u ia iu ha hu hia hi
  unfold sreachVisit
  rw [hia, bind_ok]
  by_cases hc : ia < iu
  · by_cases hs : res'.contains a = true
    · have e1 : (decide (ia < iu) && !res'.contains a) = false := by rw [hs]; simp
      rw [e1]
      simp only [Bool.false_eq_true, ↓reduceIte, pure_eq_ok, Ok.ok_iff]
      rw [HMap.contains_iff, HMap.mem_keys_iff] at hs
      obtain ⟨e0, he0⟩ := hs
      intro x e
      rw [h, List.mem_append, List.mem_singleton]
      constructor
      · rintro (h1 | ⟨h1, h2, h3⟩)
        · exact Or.inl h1
        · exact Or.inr ⟨h1, Or.inl h2, h3⟩
      · rintro (h1 | ⟨h1, h2 | rfl, h3, h4⟩)
        · exact Or.inl h1
        · exact Or.inr ⟨h1, h2, h3, h4⟩
        · rcases (h x e0).1 he0 with h5 | h5
          · rw [h1] at h5; cases h5
          · exact Or.inr ⟨h1, h5.2.1, h3, h4⟩
    · have hs' : res'.contains a = false := by simpa using hs
      have e1 : (decide (ia < iu) && !res'.contains a) = true := by rw [hs']; simp [hc]
      rw [e1]
      simp only [↓reduceIte, pure_eq_ok, Ok.ok_iff]
      have hnone : res'.get? a = none := by
        rw [HMap.get?_eq_none, ← HMap.contains_iff]; exact hs
      have hres : res.get? a = none := by
        cases hr : res.get? a with
        | none => rfl
        | some e0 => rw [(h a e0).2 (Or.inl hr)] at hnone; cases hnone
      intro x e
      rw [HMap.get?_insert, List.mem_append, List.mem_singleton]
      by_cases hx : x = a
      · subst hx
        rw [if_pos rfl, hres]
        simp only [Option.some.injEq, reduceCtorEq, false_or, true_and, or_true]
        exact ⟨fun h => ⟨hlt.1 hc, h.symm⟩, fun h => h.2.symm⟩
      · rw [if_neg hx, h]
        simp [hx]
  · have e1 : (decide (ia < iu) && !res'.contains a) = false := by simp [hc]
    rw [e1]
    simp only [Bool.false_eq_true, ↓reduceIte, pure_eq_ok, Ok.ok_iff]
    have hn : ¬ ord.idxOf a < ord.idxOf u := fun h => hc (hlt.2 h)
    intro x e
    rw [h, List.mem_append, List.mem_singleton]
    constructor
    · rintro (h1 | ⟨h1, h2, h3⟩)
      · exact Or.inl h1
      · exact Or.inr ⟨h1, Or.inl h2, h3⟩
    · rintro (h1 | ⟨h1, h2 | rfl, h3, h4⟩)
      · exact Or.inl h1
      · exact Or.inr ⟨h1, h2, h3, h4⟩
      · exact absurd h3 hn

theorem sreachLayer (H : L.LRep S ord) {u iu d : ℕ} (hu : u ∈ S.V) (hi : L.indexOf u = .ok iu) {vs : List ℕ}
    {res : HMap ℕ ℕ} (hvs : ∀ v ∈ vs, v ∈ S.V ∧ ord.idxOf u ≤ ord.idxOf v) :
    Ok (vs.foldlM (fun (res : HMap ℕ ℕ) v => do
      let N ← L.leftNeighbours v
      N.foldlM (L.sreachVisit iu d) res) res) (fun res' => ∀ x e, res'.get? x = some e ↔ res.get? x = some e ∨
      (res.get? x = none ∧ (∃ v ∈ vs, S.Adj v x) ∧ ord.idxOf x < ord.idxOf u ∧ e = cast32 (d + 1))) := by
  refine Ok.foldlM (fun (pre : List ℕ) (res' : HMap ℕ ℕ) => ∀ x e, res'.get? x = some e ↔ res.get? x = some e ∨
      (res.get? x = none ∧ (∃ v ∈ pre, S.Adj v x) ∧ ord.idxOf x < ord.idxOf u ∧ e = cast32 (d + 1))) (by simp) ?_
  rintro pre a post res' rfl h
  obtain ⟨ha, hle⟩ := hvs a (by simp)
  obtain ⟨N, hN, -, hN2⟩ := H.left a ha
  rw [hN, bind_ok]
  refine (H.sreachVisits hu hi (fun v hv => ((hN2 v).1 hv).1.right)).mono ?_
  intro res'' h2 x e
  have hex : (∃ v ∈ pre ++ [a], S.Adj v x) ↔ (∃ v ∈ pre, S.Adj v x) ∨ S.Adj a x := by
    simp only [List.mem_append, List.mem_singleton]
    constructor
    · rintro ⟨v, h | rfl, h3⟩
      · exact Or.inl ⟨v, h, h3⟩
      · exact Or.inr h3
    · rintro (⟨v, h, h3⟩ | h)
      · exact ⟨v, Or.inl h, h3⟩
      · exact ⟨a, Or.inr rfl, h⟩
  have hnone : res'.get? x = none ↔ res.get? x = none ∧ ¬ ((∃ v ∈ pre, S.Adj v x) ∧ ord.idxOf x < ord.idxOf u) := by
    constructor
    · intro hn
      have hr : res.get? x = none := by
        cases hr : res.get? x with
        | none => rfl
        | some e0 => rw [(h x e0).2 (Or.inl hr)] at hn; cases hn
      refine ⟨hr, fun hc => ?_⟩
      rw [(h x _).2 (Or.inr ⟨hr, hc.1, hc.2, rfl⟩)] at hn
      cases hn
    · rintro ⟨hr, hc⟩
      cases hn : res'.get? x with
      | none => rfl
      | some e0 =>
        rcases (h x e0).1 hn with h3 | h3
        · rw [hr] at h3; cases h3
        · exact absurd ⟨h3.2.1, h3.2.2.1⟩ hc
  rw [h2, h, hnone, hN2, hex]
  have himp : ord.idxOf x < ord.idxOf u → ord.idxOf x < ord.idxOf a := fun h => by omega
  generalize (∃ v ∈ pre, S.Adj v x) = Q
  tauto

/-- What `sreach_set` returns. -/
def SSpec (S : SGraph) (ord : List ℕ) (r u : ℕ) (m : HMap ℕ ℕ) : Prop :=
  ∀ x d, m.get? x = some d ↔ S.SReach ord u x d ∧ d ≤ r

theorem sreachSet (H : L.LRep S ord) (σ τ : ℕ → Shuffle ℕ) {u r : ℕ} (hu : u ∈ S.V) (hr : 1 ≤ r) (hk : r < 2 ^ 32) :
    Ok (L.sreachSet σ τ u r) (SSpec S ord r u) := by
  unfold LinGraph.sreachSet SSpec
  rw [usub_ok hr, bind_ok]
  refine (H.rightBfs σ hu (k := r - 1) (by omega)).bind ?_
  rintro ls ⟨hlen, hls⟩
  obtain ⟨iu, hi⟩ := H.index u hu
  rw [hi, bind_ok]
  have O := H.ordering
  have hfin := Ok.foldlM (f := fun (res : HMap ℕ ℕ) (p : HSet ℕ × ℕ) =>
    ((τ p.2).run p.1.toList).foldlM (fun (res : HMap ℕ ℕ) v => do
      let N ← L.leftNeighbours v
      N.foldlM (L.sreachVisit iu p.2) res) res) (l := ls.zipIdx) (b := ∅)
    (fun (pre : List (HSet ℕ × ℕ)) (res : HMap ℕ ℕ) =>
      ∀ x e, res.get? x = some e ↔ S.SReach ord u x e ∧ e ≤ pre.length) ?_ ?_
  · refine hfin.mono ?_
    intro m h x d
    rw [h, List.length_zipIdx, hlen, Nat.sub_add_cancel hr]
  · intro x e
    simp only [HMap.get?_empty, reduceCtorEq, List.length_nil, Nat.le_zero, false_iff, not_and]
    intro h
    rw [SGraph.sreach_iff O] at h
    obtain ⟨w, k, h2, -⟩ := h.2.1
    omega
  · rintro pre ⟨s, i⟩ post res hsp h
    obtain ⟨rfl, hs⟩ := zipIdx_split hsp
    have hlt : pre.length < r := by
      have := (List.getElem?_eq_some_iff.1 hs).1
      omega
    have hmem : ∀ v, v ∈ (τ pre.length).run s.toList ↔ IsDist (S.RightAdj ord u) u v pre.length := by
      intro v
      rw [Shuffle.mem, HSet.mem_toList]
      exact hls _ s hs v
    refine (H.sreachLayer hu hi (d := pre.length) (res := res) (fun v hv => ?_)).mono ?_
    · have := ((hmem v).1 hv).1
      exact ⟨walk_mem hu this, SGraph.walk_right_le this⟩
    intro res' h2 x e
    rw [h2]
    have hnone : res.get? x = none ↔ ∀ e ≤ pre.length, ¬ S.SReach ord u x e := by
      constructor
      · intro hn e he hc
        rw [(h x e).2 ⟨hc, he⟩] at hn
        cases hn
      · intro hn
        cases hr : res.get? x with
        | none => rfl
        | some e => exact absurd ((h x e).1 hr).1 (hn e ((h x e).1 hr).2)
    rw [h, hnone, cast32_of_lt (by omega), List.length_append, List.length_singleton]
    constructor
    · rintro (⟨h3, h4⟩ | ⟨h3, ⟨v, hv, hadj⟩, h5, rfl⟩)
      · exact ⟨h3, by omega⟩
      · refine ⟨?_, le_refl _⟩
        rw [SGraph.sreach_iff O]
        refine ⟨h5, ⟨v, pre.length, rfl, (hmem v).1 hv, hadj⟩, ?_⟩
        rintro m hm ⟨w, k, rfl, hw⟩
        obtain ⟨n, hn, hmin⟩ := IsMin.exists_le
          (P := fun n => ∃ w k, n = k + 1 ∧ IsDist (S.RightAdj ord u) u w k ∧ S.Adj w x) ⟨w, k, rfl, hw⟩
        exact h3 n (by omega) ((SGraph.sreach_iff O).2 ⟨h5, hmin⟩)
    · rintro ⟨h3, h4⟩
      rcases Nat.lt_or_ge pre.length e with h5 | h5
      · obtain rfl : e = pre.length + 1 := by omega
        have h6 := (SGraph.sreach_iff O).1 h3
        obtain ⟨w, k, hk', hw, ha⟩ := h6.2.1
        obtain rfl : k = pre.length := by omega
        refine Or.inr ⟨fun e he hc => ?_, ⟨w, (hmem w).2 hw, ha⟩, h6.1, rfl⟩
        exact absurd (IsMin.unique h3.2 hc.2) (by omega)
      · exact Or.inl ⟨h3, h5⟩

theorem sreachSet_zero (σ τ : ℕ → Shuffle ℕ) {u : ℕ} : L.sreachSet σ τ u 0 = .error .overflow := rfl

theorem sreachSets (H : L.LRep S ord) (σ τ : ℕ → ℕ → Shuffle ℕ) {r : ℕ} (hr : 1 ≤ r) (hk : r < 2 ^ 32) :
    Ok (L.sreachSets σ τ r) (fun m => (∀ u, u ∈ m.keys ↔ u ∈ S.V) ∧
      ∀ u s, m.get? u = some s → SSpec S ord r u s) := by
  unfold LinGraph.sreachSets
  have hfin := Ok.foldlM (f := fun (res : HMap ℕ (HMap ℕ ℕ)) u => do
    let s ← L.sreachSet (σ u) (τ u) u r
    return res.insert u s) (l := L.vertices) (b := ∅)
    (fun (pre : List ℕ) (m : HMap ℕ (HMap ℕ ℕ)) => (∀ u, u ∈ m.keys ↔ u ∈ pre) ∧
      ∀ u s, m.get? u = some s → SSpec S ord r u s) ⟨by simp [HMap.keys], by simp⟩ ?_
  · refine hfin.mono ?_
    rintro m ⟨h1, h2⟩
    exact ⟨fun u => (h1 u).trans (H.rep.vmem u), h2⟩
  · rintro pre a post m hsp ⟨h1, h2⟩
    have ha : a ∈ S.V := (H.rep.vmem a).1 (by rw [hsp]; simp)
    refine (H.sreachSet (σ a) (τ a) ha hr hk).bind ?_
    intro s hs
    refine ⟨_, rfl, ?_, ?_⟩
    · intro u
      rw [HMap.mem_keys_insert, h1, List.mem_append, List.mem_singleton, or_comm]
    · intro u s' hu
      rw [HMap.get?_insert] at hu
      split at hu
      · next he => cases hu; subst he; exact hs
      · exact h2 u s' hu

theorem sreach_le_card (H : L.LRep S ord) {r u : ℕ} {m : HMap ℕ ℕ} (h : SSpec S ord r u m) :
    m.len < S.V.card + 1 := by
  have : m.keys.toFinset ⊆ S.V := by
    intro x hx
    rw [List.mem_toFinset, HMap.mem_keys_iff] at hx
    obtain ⟨d, hd⟩ := hx
    have : S.WalkVia _ d u x := SGraph.PathVia.walk (((h x d).1 hd).1).2.1
    have hx : ∀ {n a b : ℕ} {P : ℕ → Prop}, S.WalkVia P n a b → b ∈ S.V := by
      intro n a b P hw
      induction hw with
      | one h => exact h.right
      | cons _ _ _ ih => exact ih
    exact hx this
  have h2 := Finset.card_le_card this
  rw [List.toFinset_card_of_nodup HMap.keys_nodup, ← HMap.len_eq_length_keys] at h2
  omega

theorem sreachSizes (H : L.LRep S ord) (σ τ : ℕ → ℕ → Shuffle ℕ) {r : ℕ} (hr : 1 ≤ r) (hk : r < 2 ^ 32)
    (hn : S.V.card < 2 ^ 32) :
    Ok (L.sreachSizes σ τ r) (fun m => (∀ u, u ∈ m.keys ↔ u ∈ S.V) ∧
      ∀ u c, m.get? u = some c → ∃ s, SSpec S ord r u s ∧ c = s.len) := by
  unfold LinGraph.sreachSizes
  have hfin := Ok.foldlM (f := fun (res : HMap ℕ ℕ) u => do
    let s ← L.sreachSet (σ u) (τ u) u r
    return res.insert u (cast32 s.len)) (l := L.vertices) (b := ∅)
    (fun (pre : List ℕ) (m : HMap ℕ ℕ) => (∀ u, u ∈ m.keys ↔ u ∈ pre) ∧
      ∀ u c, m.get? u = some c → ∃ s, SSpec S ord r u s ∧ c = s.len) ⟨by simp [HMap.keys], by simp⟩ ?_
  · refine hfin.mono ?_
    rintro m ⟨h1, h2⟩
    exact ⟨fun u => (h1 u).trans (H.rep.vmem u), h2⟩
  · rintro pre a post m hsp ⟨h1, h2⟩
    have ha : a ∈ S.V := (H.rep.vmem a).1 (by rw [hsp]; simp)
    refine (H.sreachSet (σ a) (τ a) ha hr hk).bind ?_
    intro s hs
    refine ⟨_, rfl, ?_, ?_⟩
    · intro u
      rw [HMap.mem_keys_insert, h1, List.mem_append, List.mem_singleton, or_comm]
    · intro u c hu
      rw [HMap.get?_insert] at hu
      split at hu
      · next he =>
        cases hu; subst he
        exact ⟨s, hs, cast32_of_lt (by have := H.sreach_le_card hs; omega)⟩
      · exact h2 u c hu

/-! ## Weak reachability -/

/-- A table of vertex maps: defined exactly on the vertices of `S`, with `Q v u d` iff entry `v` maps `u` to `d`. -/
def Tab (S : SGraph) (res : HMap ℕ (HMap ℕ ℕ)) (Q : ℕ → ℕ → ℕ → Prop) : Prop :=
  (∀ v, v ∈ res.keys ↔ v ∈ S.V) ∧ ∀ v m, res.get? v = some m → ∀ u d, m.get? u = some d ↔ Q v u d

theorem Tab.visit {res : HMap ℕ (HMap ℕ ℕ)} {Q : ℕ → ℕ → ℕ → Prop} (h : Tab S res Q) {u v d : ℕ} (hv : v ∈ S.V)
    (hne : v ≠ u) (hd : d + 1 < 2 ^ 32) (hq : ∀ d', ¬ Q v u d') :
    Ok (wreachVisit u d res v) (fun res' => Tab S res' (fun v' u' d' => Q v' u' d' ∨ (v' = v ∧ u' = u ∧ d' = d + 1))) := by
  unfold wreachVisit assertR
  have : (v != u) = true := by simpa using hne
  rw [this]
  obtain ⟨m, hm⟩ := HMap.mem_keys_iff.1 ((h.1 v).2 hv)
  simp only [↓reduceIte, bind_ok, hm, unwrap_some, pure_eq_ok, Ok.ok_iff]
  constructor
  · intro v'
    rw [HMap.mem_keys_insert, h.1]
    constructor
    · rintro (rfl | h) <;> assumption
    · exact Or.inr
  · intro v' m' hm' u' d'
    rw [HMap.get?_insert] at hm'
    split at hm'
    · next he =>
      cases hm'
      subst he
      rw [HMap.get?_insert, cast32_of_lt hd]
      split
      · next he2 =>
        subst he2
        simp only [Option.some.injEq, true_and]
        constructor
        · intro h; exact Or.inr h.symm
        · rintro (h | h)
          · exact absurd h (hq d')
          · exact h.symm
      · next he2 => rw [h.2 v' m hm]; simp [he2]
    · next he => rw [h.2 v' m' hm']; simp [he]

theorem Tab.congr {res : HMap ℕ (HMap ℕ ℕ)} {Q Q' : ℕ → ℕ → ℕ → Prop} (h : Tab S res Q)
    (hq : ∀ v u d, Q v u d ↔ Q' v u d) : Tab S res Q' :=
  ⟨h.1, fun v m hm u d => (h.2 v m hm u d).trans (hq v u d)⟩

theorem Tab.visits {res : HMap ℕ (HMap ℕ ℕ)} {Q : ℕ → ℕ → ℕ → Prop} (h : Tab S res Q) {u d : ℕ} {vs : List ℕ}
    (hvs : ∀ v ∈ vs, v ∈ S.V ∧ v ≠ u ∧ ∀ d', ¬ Q v u d') (hn : vs.Nodup) (hd : d + 1 < 2 ^ 32) :
    Ok (vs.foldlM (wreachVisit u d) res) (fun res' =>
      Tab S res' (fun v' u' d' => Q v' u' d' ∨ (v' ∈ vs ∧ u' = u ∧ d' = d + 1))) := by
  refine Ok.foldlM (fun (pre : List ℕ) (res' : HMap ℕ (HMap ℕ ℕ)) =>
    Tab S res' (fun v' u' d' => Q v' u' d' ∨ (v' ∈ pre ∧ u' = u ∧ d' = d + 1))) (by simpa using h) ?_
  rintro pre a post res' rfl h'
  obtain ⟨h1, h2, h3⟩ := hvs a (by simp)
  refine (h'.visit h1 h2 hd (u := u) ?_).mono ?_
  · rintro d' (hc | hc)
    · exact h3 d' hc
    · have := (List.nodup_append.1 hn).2.2 a hc.1 a List.mem_cons_self
      exact this rfl
  · intro res'' h4
    refine h4.congr fun v' u' d' => ?_
    rw [List.mem_append, List.mem_singleton]
    tauto

theorem initTab {S : SGraph} {vs : List ℕ} (hv : ∀ u, u ∈ vs ↔ u ∈ S.V) :
    Tab S (vs.foldl (fun (res : HMap ℕ (HMap ℕ ℕ)) u => res.insert u ∅) ∅) (fun _ _ _ => False) := by
  have := foldl_inv (f := fun (res : HMap ℕ (HMap ℕ ℕ)) u => res.insert u ∅) (l := vs) (b := ∅)
    (fun (pre : List ℕ) (res : HMap ℕ (HMap ℕ ℕ)) => (∀ v, v ∈ res.keys ↔ v ∈ pre) ∧
      ∀ v m, res.get? v = some m → m = ∅) ⟨by simp [HMap.keys], by simp⟩ ?_
  · refine ⟨fun v => (this.1 v).trans (hv v), fun v m hm u d => ?_⟩
    rw [this.2 v m hm]
    simp
  · rintro pre a post res rfl ⟨h1, h2⟩
    refine ⟨fun v => ?_, fun v m hm => ?_⟩
    · rw [HMap.mem_keys_insert, h1, List.mem_append, List.mem_singleton, or_comm]
    · rw [HMap.get?_insert] at hm
      split at hm
      · cases hm; rfl
      · exact h2 v m hm

/-- Distance in the right part of `u`, at least one step. -/
theorem wreach_iff' (O : S.Ordering ord) {u v d : ℕ} (hu : u ∈ S.V) :
    S.WReach ord v u d ↔ 1 ≤ d ∧ IsDist (S.RightAdj ord u) u v d := by
  rw [SGraph.wreach_iff O]
  refine and_congr_left fun h => ?_
  constructor
  · intro hlt
    rcases Nat.eq_zero_or_pos d with rfl | h0
    · rw [Walk.zero_iff.1 h.1] at hlt; omega
    · exact h0
  · intro h0
    refine lt_of_le_of_ne (SGraph.walk_right_le h.1) fun he => ?_
    have := O.idxOf_inj hu he
    subst this
    exact h.2 0 (by omega) (.nil _)

theorem wreachSets (H : L.LRep S ord) (σ τ : ℕ → ℕ → Shuffle ℕ) {r : ℕ} (hk : r + 1 < 2 ^ 32) :
    Ok (L.wreachSets σ τ r) (fun m => Tab S m (fun v u d => S.WReach ord v u d ∧ d ≤ r)) := by
  unfold LinGraph.wreachSets
  have O := H.ordering
  have hfin := Ok.foldlM (f := fun (res : HMap ℕ (HMap ℕ ℕ)) u => do
    let bfs ← L.rightBfs (σ u) u r
    (bfs.drop 1).zipIdx.foldlM (fun (res : HMap ℕ (HMap ℕ ℕ)) p =>
      ((τ u p.2).run p.1.toList).foldlM (wreachVisit u p.2) res) res) (l := L.vertices)
    (b := L.vertices.foldl (fun (res : HMap ℕ (HMap ℕ ℕ)) u => res.insert u ∅) ∅)
    (fun (pre : List ℕ) (m : HMap ℕ (HMap ℕ ℕ)) => Tab S m (fun v u d => u ∈ pre ∧ S.WReach ord v u d ∧ d ≤ r))
    ((initTab H.rep.vmem).congr (by simp)) ?_
  · refine hfin.mono ?_
    intro m h
    refine h.congr fun v u d => ⟨And.right, fun h => ⟨?_, h⟩⟩
    rw [H.rep.vmem]
    have hlt := h.1.1
    have : u ∈ ord := by
      by_contra hc
      have h1 := List.idxOf_eq_length hc
      have h2 := List.idxOf_le_length (a := v) (l := ord)
      omega
    exact (O.mem u).1 this
  · rintro pre u post m hsp h
    have hu : u ∈ S.V := (H.rep.vmem u).1 (by rw [hsp]; simp)
    have hupre : u ∉ pre := by
      have := H.rep.vnodup
      rw [hsp] at this
      intro hc
      exact (List.nodup_append.1 this).2.2 u hc u List.mem_cons_self rfl
    refine (H.rightBfs (σ u) hu hk).bind ?_
    rintro ls ⟨hlen, hls⟩
    have hin := Ok.foldlM (f := fun (res : HMap ℕ (HMap ℕ ℕ)) (p : HSet ℕ × ℕ) =>
        ((τ u p.2).run p.1.toList).foldlM (wreachVisit u p.2) res) (l := (ls.drop 1).zipIdx) (b := m)
      (fun (pr : List (HSet ℕ × ℕ)) (m' : HMap ℕ (HMap ℕ ℕ)) => Tab S m' (fun v u' d =>
        (u' ∈ pre ∧ S.WReach ord v u' d ∧ d ≤ r) ∨ (u' = u ∧ S.WReach ord v u d ∧ d ≤ pr.length))) ?_ ?_
    · refine hin.mono ?_
      intro m' h'
      refine h'.congr fun v u' d => ?_
      rw [List.length_zipIdx, List.length_drop, hlen, List.mem_append, List.mem_singleton, Nat.add_sub_cancel]
      constructor
      · rintro (⟨h1, h2⟩ | ⟨rfl, h2⟩)
        · exact ⟨Or.inl h1, h2⟩
        · exact ⟨Or.inr rfl, h2⟩
      · rintro ⟨h1 | rfl, h2⟩
        · exact Or.inl ⟨h1, h2⟩
        · exact Or.inr ⟨rfl, h2⟩
    · refine h.congr fun v u' d => ⟨Or.inl, ?_⟩
      rintro (h1 | ⟨-, h1, h2⟩)
      · exact h1
      · have := ((wreach_iff' O hu).1 h1).1
        simp at h2
        omega
    · rintro pr ⟨s, i⟩ post' m' hsp' h'
      obtain ⟨rfl, hs⟩ := zipIdx_split hsp'
      rw [List.getElem?_drop] at hs
      have hlt : pr.length < r := by
        have := (List.getElem?_eq_some_iff.1 hs).1
        omega
      have hmem : ∀ v, v ∈ (τ u pr.length).run s.toList ↔ S.WReach ord v u (pr.length + 1) := by
        intro v
        rw [Shuffle.mem, HSet.mem_toList, hls _ s hs v, wreach_iff' O hu, Nat.add_comm 1]
        simp
      refine (h'.visits (u := u) (d := pr.length) ?_ ((τ u pr.length).nodup s.nodup) (by omega)).mono ?_
      · intro v hv
        have hw := (hmem v).1 hv
        have hd := ((wreach_iff' O hu).1 hw).2
        refine ⟨walk_mem hu hd.1, ?_, ?_⟩
        · rintro rfl
          exact absurd hw.1 (lt_irrefl _)
        · rintro d' (h1 | ⟨-, h1, h2⟩)
          · exact hupre h1.1
          · have := IsMin.unique h1.2 hw.2
            omega
      · intro m'' h''
        refine h''.congr fun v u' d => ?_
        rw [hmem, List.length_append, List.length_singleton]
        constructor
        · rintro ((h1 | ⟨rfl, h1, h2⟩) | ⟨h1, rfl, rfl⟩)
          · exact Or.inl h1
          · exact Or.inr ⟨rfl, h1, by omega⟩
          · exact Or.inr ⟨rfl, h1, le_refl _⟩
        · rintro (h1 | ⟨rfl, h1, h2⟩)
          · exact Or.inl (Or.inl h1)
          · rcases Nat.lt_or_ge pr.length d with h3 | h3
            · obtain rfl : d = pr.length + 1 := by omega
              exact Or.inr ⟨h1, rfl, rfl⟩
            · exact Or.inl (Or.inr ⟨rfl, h1, h3⟩)

/-- `v` is weakly `r`-reachable from `w`. -/
def Weak (S : SGraph) (ord : List ℕ) (r v u : ℕ) : Prop := ∃ d ≤ r, S.WReach ord v u d

theorem countVisits {res : HMap ℕ ℕ} {f : ℕ → ℕ} (hk : ∀ v, v ∈ res.keys ↔ v ∈ S.V)
    (h : ∀ v ∈ S.V, res.get? v = some (f v)) {vs : List ℕ} (hvs : ∀ v ∈ vs, v ∈ S.V ∧ f v + 1 < 2 ^ 32)
    (hn : vs.Nodup) : Ok (vs.foldlM countVisit res) (fun res' => (∀ v, v ∈ res'.keys ↔ v ∈ S.V) ∧
      ∀ v ∈ S.V, res'.get? v = some (f v + if v ∈ vs then 1 else 0)) := by
  refine Ok.foldlM (fun (pre : List ℕ) (res' : HMap ℕ ℕ) => (∀ v, v ∈ res'.keys ↔ v ∈ S.V) ∧
      ∀ v ∈ S.V, res'.get? v = some (f v + if v ∈ pre then 1 else 0)) ⟨hk, by simpa using h⟩ ?_
  rintro pre a post res' rfl ⟨h1, h2⟩
  obtain ⟨ha, hb⟩ := hvs a (by simp)
  have hpre : a ∉ pre := fun hc => (List.nodup_append.1 hn).2.2 a hc a List.mem_cons_self rfl
  have hg := h2 a ha
  rw [if_neg hpre, Nat.add_zero] at hg
  unfold countVisit HMap.getD
  rw [hg, Option.getD_some, add32_ok hb, bind_ok]
  refine ⟨_, rfl, ?_, ?_⟩
  · intro v
    rw [HMap.mem_keys_insert, h1]
    constructor
    · rintro (rfl | h) <;> assumption
    · exact Or.inr
  · intro v hv
    rw [HMap.get?_insert]
    split
    · next he => subst he; simp
    · next he => rw [h2 v hv]; simp [he]

open Classical in
theorem wreachSizes (H : L.LRep S ord) (σ τ : ℕ → ℕ → Shuffle ℕ) {r : ℕ} (hk : r + 1 < 2 ^ 32)
    (hn : S.V.card < 2 ^ 32) :
    Ok (L.wreachSizes σ τ r) (fun m => (∀ v, v ∈ m.keys ↔ v ∈ S.V) ∧
      ∀ v ∈ S.V, m.get? v = some (S.V.filter (Weak S ord r v)).card) := by
  unfold LinGraph.wreachSizes
  have O := H.ordering
  have hvn := H.rep.vnodup
  have hfin := Ok.foldlM (f := fun (res : HMap ℕ ℕ) u => do
    let bfs ← L.rightBfs (σ u) u r
    (bfs.drop 1).zipIdx.foldlM (fun (res : HMap ℕ ℕ) p =>
      ((τ u p.2).run p.1.toList).foldlM countVisit res) res) (l := L.vertices)
    (b := L.vertices.foldl (fun (res : HMap ℕ ℕ) u => res.insert u 0) ∅)
    (fun (pre : List ℕ) (m : HMap ℕ ℕ) => (∀ v, v ∈ m.keys ↔ v ∈ S.V) ∧
      ∀ v ∈ S.V, m.get? v = some (pre.toFinset.filter (Weak S ord r v)).card) ?_ ?_
  · refine hfin.mono ?_
    rintro m ⟨h1, h2⟩
    refine ⟨h1, fun v hv => ?_⟩
    rw [h2 v hv]
    congr 2
    ext u
    rw [Finset.mem_filter, Finset.mem_filter, List.mem_toFinset, H.rep.vmem]
  · have := foldl_inv (f := fun (res : HMap ℕ ℕ) u => res.insert u 0) (l := L.vertices) (b := ∅)
      (fun (pre : List ℕ) (res : HMap ℕ ℕ) => (∀ v, v ∈ res.keys ↔ v ∈ pre) ∧
        ∀ v c, res.get? v = some c → c = 0) ⟨by simp [HMap.keys], by simp⟩ ?_
    · refine ⟨fun v => (this.1 v).trans (H.rep.vmem v), fun v hv => ?_⟩
      obtain ⟨c, hc⟩ := HMap.mem_keys_iff.1 ((this.1 v).2 ((H.rep.vmem v).2 hv))
      rw [hc, this.2 v c hc]
      simp
    · rintro pre a post res - ⟨h1, h2⟩
      refine ⟨fun v => ?_, fun v m hm => ?_⟩
      · rw [HMap.mem_keys_insert, h1, List.mem_append, List.mem_singleton, or_comm]
      · rw [HMap.get?_insert] at hm
        split at hm
        · cases hm; rfl
        · exact h2 v m hm
  · rintro pre u post m hsp ⟨h1, h2⟩
    have hu : u ∈ S.V := (H.rep.vmem u).1 (by rw [hsp]; simp)
    have hupre : u ∉ pre := by
      rw [hsp] at hvn
      intro hc
      exact (List.nodup_append.1 hvn).2.2 u hc u List.mem_cons_self rfl
    have hpreV : pre.toFinset ⊆ S.V.erase u := by
      intro x hx
      rw [List.mem_toFinset] at hx
      rw [Finset.mem_erase]
      exact ⟨fun h => hupre (h ▸ hx), (H.rep.vmem x).1 (by rw [hsp]; simp [hx])⟩
    have hbound : ∀ v, (pre.toFinset.filter (Weak S ord r v)).card + 1 < 2 ^ 32 := by
      intro v
      have e1 := Finset.card_filter_le pre.toFinset (Weak S ord r v)
      have e2 := Finset.card_le_card hpreV
      rw [Finset.card_erase_of_mem hu] at e2
      have : 0 < S.V.card := Finset.card_pos.2 ⟨u, hu⟩
      omega
    refine (H.rightBfs (σ u) hu hk).bind ?_
    rintro ls ⟨hlen, hls⟩
    have hin := Ok.foldlM (f := fun (res : HMap ℕ ℕ) (p : HSet ℕ × ℕ) =>
        ((τ u p.2).run p.1.toList).foldlM countVisit res) (l := (ls.drop 1).zipIdx) (b := m)
      (fun (pr : List (HSet ℕ × ℕ)) (m' : HMap ℕ ℕ) => (∀ v, v ∈ m'.keys ↔ v ∈ S.V) ∧
        ∀ v ∈ S.V, m'.get? v = some ((pre.toFinset.filter (Weak S ord r v)).card +
          if Weak S ord pr.length v u then 1 else 0)) ?_ ?_
    · refine hin.mono ?_
      rintro m' ⟨k1, k2⟩
      refine ⟨k1, fun v hv => ?_⟩
      rw [k2 v hv, List.length_zipIdx, List.length_drop, hlen, Nat.add_sub_cancel]
      congr 1
      have : (pre ++ [u]).toFinset = insert u pre.toFinset := by
        ext x; simp [or_comm]
      rw [this, Finset.filter_insert]
      split
      · rw [Finset.card_insert_of_notMem]
        rw [Finset.mem_filter, List.mem_toFinset]
        exact fun h => hupre h.1
      · rfl
    · refine ⟨h1, fun v hv => ?_⟩
      rw [h2 v hv, if_neg, Nat.add_zero]
      rintro ⟨d, hd, hw⟩
      have := ((wreach_iff' O hu).1 hw).1
      simp at hd
      omega
    · rintro pr ⟨s, i⟩ post' m' hsp' ⟨k1, k2⟩
      obtain ⟨rfl, hs⟩ := zipIdx_split hsp'
      rw [List.getElem?_drop] at hs
      have hmem : ∀ v, v ∈ (τ u pr.length).run s.toList ↔ S.WReach ord v u (pr.length + 1) := by
        intro v
        rw [Shuffle.mem, HSet.mem_toList, hls _ s hs v, wreach_iff' O hu, Nat.add_comm 1]
        simp
      have hnot : ∀ v, S.WReach ord v u (pr.length + 1) → ¬ Weak S ord pr.length v u := by
        rintro v hw ⟨d, hd, hw'⟩
        have := IsMin.unique hw.2 hw'.2
        omega
      refine (countVisits k1 k2 (vs := (τ u pr.length).run s.toList) ?_ ((τ u pr.length).nodup s.nodup)).mono ?_
      · intro v hv
        have hw := (hmem v).1 hv
        refine ⟨walk_mem hu ((wreach_iff' O hu).1 hw).2.1, ?_⟩
        rw [if_neg (hnot v hw), Nat.add_zero]
        exact hbound v
      · rintro m'' ⟨j1, j2⟩
        refine ⟨j1, fun v hv => ?_⟩
        rw [j2 v hv, Nat.add_assoc, List.length_append, List.length_singleton]
        congr 2
        simp only [hmem]
        by_cases hw : S.WReach ord v u (pr.length + 1)
        · rw [if_neg (hnot v hw), if_pos hw, if_pos ⟨_, le_refl _, hw⟩]
        · rw [if_neg hw, Nat.add_zero]
          congr 1
          apply propext
          constructor
          · rintro ⟨d, hd, h⟩
            exact ⟨d, by omega, h⟩
          · rintro ⟨d, hd, h⟩
            rcases Nat.lt_or_ge pr.length d with h3 | h3
            · obtain rfl : d = pr.length + 1 := by omega
              exact absurd h hw
            · exact ⟨d, h3, h⟩

end LinGraph.LRep
end Verif
