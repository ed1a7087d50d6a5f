import Verif.Lemmas.DTFDeep
/-!
# Lemmas: `small_distance`
-/
namespace Verif.DTFGraph
variable {g : DTFGraph} {V : Finset ℕ} {A : Arcs}

/-- The lengths compared by `small_distance`: direct arcs and common in-neighbours. -/
def Cand (A : Arcs) (u v k : ℕ) : Prop :=
  (u, v, k) ∈ A ∨ (v, u, k) ∈ A ∨ ∃ x a b, (x, u, a) ∈ A ∧ (x, v, b) ∈ A ∧ a + b = k

theorem inNeighboursWithWeights_ok (H : Abs g V A) {u : ℕ} (hu : u ∈ V) (hd : g.depth < 2 ^ 32)
    (hb : ∀ u v w, (u, v, w) ∈ A → w ≤ g.depth) (hq : ∀ x w w', (x, u, w) ∈ A → (x, u, w') ∈ A → w = w') :
    Ok (g.inNeighboursWithWeights u) (fun m => ∀ x w, m.get? x = some w ↔ (x, u, w) ∈ A) := by
  unfold inNeighboursWithWeights
  obtain ⟨l, hl, hm, hn⟩ := H.weighted hu (le_refl g.depth)
  rw [hl, bind_ok]
  refine Ok.pure fun x w => ?_
  have h1 : l.foldl (fun (res : HMap ℕ ℕ) e => res.insert e.1 (cast32 e.2)) ∅ =
      HMap.ofList (l.map (fun e => (e.1, cast32 e.2))) := by
    unfold HMap.ofList; rw [List.foldl_map]
  rw [h1, HMap.get?_ofList (by rw [List.map_map]; exact hn hq), List.mem_map]
  constructor
  · rintro ⟨e, he, h⟩
    obtain ⟨k1, k2, k3⟩ := (hm e).1 he
    rw [cast32_of_lt (by omega)] at h
    cases h
    exact k3
  · intro h
    have hw := hb _ _ _ h
    exact ⟨(x, w), (hm _).2 ⟨(H.wf _ h).2.2, hw, h⟩, by simp only; rw [cast32_of_lt (by omega)]⟩

theorem getArcDepth_ok (H : Abs g V A) (u : ℕ) {v : ℕ} (hv : v ∈ V) (hd : g.depth < 2 ^ 32)
    (hb : ∀ u v w, (u, v, w) ∈ A → w ≤ g.depth) (hq : ∀ u x w w', (x, u, w) ∈ A → (x, u, w') ∈ A → w = w') :
    Ok (g.getArcDepth u v) (fun o => ∀ k, o = some k ↔ (u, v, k) ∈ A) := by
  refine (H.getArcDepth u hv).mono ?_
  rintro o ⟨h1, h2⟩ k
  constructor
  · intro h
    obtain ⟨w, rfl, hw, -⟩ := h1 k h
    rwa [cast32_of_lt (by have := hb _ _ _ hw; omega)]
  · intro h
    cases o with
    | none => exact absurd h (h2 rfl k)
    | some j =>
      obtain ⟨w, rfl, hw, -⟩ := h1 j rfl
      rw [hq _ _ _ _ hw h, cast32_of_lt (by have := hb _ _ _ h; omega)]

theorem startDist_eq (a b : Option ℕ) : startDist a b = min (a.getD (2 ^ 32 - 1)) (b.getD (a.getD (2 ^ 32 - 1))) := by
  cases a <;> cases b <;> simp [startDist]

theorem smallDistance_ok (H : Abs g V A) {u v : ℕ} (hu : u ∈ V) (hv : v ∈ V) (hd : g.depth < 2 ^ 31)
    (hb : ∀ u v w, (u, v, w) ∈ A → w ≤ g.depth) (hq : ∀ u x w w', (x, u, w) ∈ A → (x, u, w') ∈ A → w = w') :
    Ok (g.smallDistance u v) (fun o => (∀ k, o = some k → k ≤ g.depth ∧ Cand A u v k ∧ ∀ k', Cand A u v k' → k ≤ k') ∧
      (o = none → ∀ k, Cand A u v k → g.depth < k)) := by
  unfold smallDistance
  obtain ⟨a, ha, hak⟩ := getArcDepth_ok H u hv (by omega) hb hq
  obtain ⟨b, hbb, hbk⟩ := getArcDepth_ok H v hu (by omega) hb hq
  obtain ⟨m, hm, hmk⟩ := inNeighboursWithWeights_ok H hv (by omega) hb (hq v)
  obtain ⟨l, hl, hlk, -⟩ := H.weighted hu (le_refl g.depth)
  simp only [ha, hbb, hm, hl, bind_ok]
  rw [startDist_eq]
  set d0 := min (a.getD (2 ^ 32 - 1)) (b.getD (a.getD (2 ^ 32 - 1))) with hd0
  -- value before the loop
  have s1 : d0 = 2 ^ 32 - 1 ∨ Cand A u v d0 := by
    cases a with
    | none =>
      cases b with
      | none => left; simp [hd0]
      | some k =>
        have hk := (hbk k).1 rfl
        have := hb _ _ _ hk
        right
        have : d0 = k := by simp only [hd0, Option.getD_none, Option.getD_some]; omega
        rw [this]
        exact Or.inr (Or.inl hk)
    | some j =>
      have hj := (hak j).1 rfl
      right
      cases b with
      | none =>
        have : d0 = j := by simp [hd0]
        rw [this]; exact Or.inl hj
      | some k =>
        have hk := (hbk k).1 rfl
        rcases le_total j k with h | h
        · have : d0 = j := by simp only [hd0, Option.getD_some]; omega
          rw [this]; exact Or.inl hj
        · have : d0 = k := by simp only [hd0, Option.getD_some]; omega
          rw [this]; exact Or.inr (Or.inl hk)
  have s2 : ∀ k, (u, v, k) ∈ A ∨ (v, u, k) ∈ A → d0 ≤ k := by
    rintro k (h | h)
    · have := (hak k).2 h
      subst this
      simp [hd0]
    · have := (hbk k).2 h
      subst this
      simp [hd0]
  refine Ok.bind (P := fun dist => (dist = 2 ^ 32 - 1 ∨ Cand A u v dist) ∧ ∀ k, Cand A u v k → dist ≤ k) ?_ ?_
  · refine (Ok.foldlM (fun (pre : List (ℕ × ℕ)) (dist : ℕ) => (dist = 2 ^ 32 - 1 ∨ Cand A u v dist) ∧
      (∀ k, (u, v, k) ∈ A ∨ (v, u, k) ∈ A → dist ≤ k) ∧
      ∀ x a b, (x, a) ∈ pre → (x, v, b) ∈ A → dist ≤ a + b) ?_ ?_).mono ?_
    · exact ⟨s1, s2, by simp⟩
    · rintro pre ⟨x, a'⟩ post dist hsp ⟨i1, i2, i3⟩
      obtain ⟨k1, k2, k3⟩ := (hlk (x, a')).1 (by rw [hsp]; simp)
      simp only at k1 k2 k3
      unfold distStep
      simp only
      cases hg : m.get? x with
      | none =>
        refine Ok.pure (a := dist) ⟨i1, i2, ?_⟩
        intro x1 a1 b1 hx1 hb1
        rw [List.mem_append, List.mem_singleton] at hx1
        rcases hx1 with h | h
        · exact i3 x1 a1 b1 h hb1
        · cases h
          rw [(hmk _ _).2 hb1] at hg
          cases hg
      | some b' =>
        have hb' := (hmk _ _).1 hg
        have hle := hb _ _ _ hb'
        dsimp only
        rw [cast32_of_lt (by omega), add32_ok (by omega), bind_ok]
        refine Ok.pure (a := min dist (b' + a')) ⟨?_, fun k hk => (min_le_left _ _).trans (i2 k hk), ?_⟩
        · rcases le_total dist (b' + a') with h | h
          · rw [min_eq_left h]; exact i1
          · rw [min_eq_right h]
            exact Or.inr (Or.inr (Or.inr ⟨x, a', b', k3, hb', by omega⟩))
        · intro x1 a1 b1 hx1 hb1
          rw [List.mem_append, List.mem_singleton] at hx1
          rcases hx1 with h | h
          · exact (min_le_left _ _).trans (i3 x1 a1 b1 h hb1)
          · cases h
            have := hq _ _ _ _ hb1 hb'
            omega
    · rintro dist ⟨i1, i2, i3⟩
      refine ⟨i1, ?_⟩
      rintro k (h | h | ⟨x, a', b', h, h', rfl⟩)
      · exact i2 k (Or.inl h)
      · exact i2 k (Or.inr h)
      · exact i3 x a' b' ((hlk _).2 ⟨(H.wf _ h).2.2, hb _ _ _ h, h⟩) h'
  · rintro dist ⟨i1, i2⟩
    rw [cast32_of_lt (by omega)]
    by_cases hlt : g.depth < dist
    · rw [if_pos hlt]
      exact Ok.pure (a := none) ⟨by simp, fun _ k hk => lt_of_lt_of_le hlt (i2 k hk)⟩
    · rw [if_neg hlt]
      refine Ok.pure (a := some dist) ⟨?_, by simp⟩
      intro k hk
      cases hk
      refine ⟨by omega, ?_, i2⟩
      rcases i1 with h | h
      · omega
      · exact h

theorem Cand.walk {S : SGraph} (hs : Sound S A) {u v k : ℕ} (h : Cand A u v k) : Walk S.Adj k u v := by
  have hsym : ∀ a b, S.Adj a b → S.Adj b a := fun _ _ => SGraph.Adj.symm
  rcases h with h | h | ⟨x, a, b, h1, h2, rfl⟩
  · exact hs.walk _ _ _ h
  · exact (hs.walk _ _ _ h).symm hsym
  · exact ((hs.walk _ _ _ h1).symm hsym).append (hs.walk _ _ _ h2)

/-- Closed arc sets know all distances up to the depth. -/
theorem cand_of_dist {S : SGraph} {d : ℕ} (h : AugInv S d A) (hf : FratClosed d A) :
    ∀ k, 1 ≤ k → k ≤ d → ∀ u v, IsDist S.Adj u v k → Cand A u v k := by
  intro k hk
  induction k, hk using Nat.le_induction with
  | base =>
    intro _ u v hd
    rcases h.base.1 u v (Walk.one_iff.1 hd.1) with ⟨h1, -⟩ | ⟨h1, -⟩
    · exact Or.inl h1
    · exact Or.inr (Or.inl h1)
  | succ k hk ih =>
    intro hkd u v hd
    obtain ⟨y, hy, hyv⟩ := Walk.succ_iff_snoc.1 hd.1
    have hdy : IsDist S.Adj u y k := by
      refine ⟨hy, fun d' hd' hw => ?_⟩
      exact hd.2 (d' + 1) (by omega) (hw.snoc hyv)
    have huv : u ≠ v := by
      rintro rfl
      exact hd.2 0 (by omega) (.nil _)
    -- a candidate not longer than the distance has exactly that length
    have exact_ : ∀ w ≤ k + 1, Cand A u v w → Cand A u v (k + 1) := by
      intro w hw hc
      have : ¬ w < k + 1 := fun hlt => hd.2 w hlt (hc.walk h.sound)
      rwa [show k + 1 = w by omega]
    have hedge : (y, v, 1) ∈ A ∨ (v, y, 1) ∈ A := by
      rcases h.base.1 y v hyv with ⟨h1, -⟩ | ⟨h1, -⟩
      · exact Or.inl h1
      · exact Or.inr h1
    rcases ih (by omega) u y hdy with h1 | h1 | ⟨x, a, b, h1, h2, hab⟩
    · rcases hedge with he | he
      · obtain ⟨w, hw, hm⟩ := h.trans u y v k 1 h1 he (by omega) huv
        exact exact_ w hw (Or.inl hm)
      · obtain ⟨w, hw, hm | hm⟩ := hf v u y k he h1 (by omega) huv.symm
        · exact exact_ w hw (Or.inr (Or.inl hm))
        · exact exact_ w hw (Or.inl hm)
    · rcases hedge with he | he
      · exact Or.inr (Or.inr ⟨y, k, 1, h1, he, rfl⟩)
      · obtain ⟨w, hw, hm⟩ := h.trans v y u 1 k he h1 (by omega) huv.symm
        exact exact_ w (by omega) (Or.inr (Or.inl hm))
    · have p1 := h.sound.pos h1
      have p2 := h.sound.pos h2
      have hxv : x ≠ v := by
        rintro rfl
        exact hd.2 a (by omega) ((h.sound.walk _ _ _ h1).symm fun _ _ => SGraph.Adj.symm)
      rcases hedge with he | he
      · obtain ⟨w, hw, hm⟩ := h.trans x y v b 1 h2 he (by omega) hxv
        exact exact_ (a + w) (by omega) (Or.inr (Or.inr ⟨x, a, w, h1, hm, rfl⟩))
      · obtain ⟨w, hw, hm | hm⟩ := hf v x y b he h2 (by omega) hxv.symm
        · obtain ⟨w', hw', hm'⟩ := h.trans v x u w a hm h1 (by omega) huv.symm
          exact exact_ w' (by omega) (Or.inr (Or.inl hm'))
        · exact exact_ (a + w) (by omega) (Or.inr (Or.inr ⟨x, a, w, h1, hm, rfl⟩))

end Verif.DTFGraph
