import Verif.Lemmas.Degeneracy
import Verif.Spec.LoopPeel
/-! # Degeneracy ordering of graphs with loops -/
namespace Verif

theorem SGraph.taken_snoc {S : SGraph} {h : List ℕ} {v u : ℕ} :
    S.taken (h ++ [v]) u = S.taken h u + if S.Adj u v then 1 else 0 := by
  unfold SGraph.taken
  rw [List.filter_append, List.length_append]
  by_cases hv : S.Adj u v <;> simp [hv]

attribute [local irreducible] calcIndex ceilLog2 degeneracyLower

namespace DegenState

/-- The loop over the neighbours of the removed vertex. -/
theorem relax_all (D : ℕ → ℕ) : ∀ (N : List ℕ) (s : DegenState), N.Nodup →
    (∀ u ∈ N, u ∉ s.core.keys → s.degDict.get? u = some (D u)) →
    ((∃ x ∈ N, x ∉ s.core.keys ∧ D x = 0) → N.foldlM relax s = .error .overflow) ∧
    ((∀ x ∈ N, x ∉ s.core.keys → 1 ≤ D x) → Ok (N.foldlM relax s) (fun t => t.core = s.core ∧ t.coreNum = s.coreNum ∧
      t.order = s.order ∧
      (∀ u, t.degDict.get? u = if u ∈ N ∧ u ∉ s.core.keys then some (D u - 1) else s.degDict.get? u) ∧
      ∀ i u, u ∈ t.buckets.getD i ∅ ↔ if u ∈ N ∧ u ∉ s.core.keys ∧ calcIndex (D u) ≠ calcIndex (D u - 1) then
        i = calcIndex (D u - 1) ∨ (u ∈ s.buckets.getD i ∅ ∧ i ≠ calcIndex (D u)) else u ∈ s.buckets.getD i ∅))
  | [], s, _, _ => ⟨(by rintro ⟨x, hx, -⟩; cases hx), fun _ => ⟨s, rfl, rfl, rfl, rfl, by simp, by simp⟩⟩
  | x :: N, s, hN, hD => by
    obtain ⟨hxN, hN'⟩ := List.nodup_cons.1 hN
    rw [List.foldlM_cons]
    by_cases hc : x ∈ s.core.keys
    · have e : relax s x = .ok s := by
        unfold relax
        rw [if_pos (by rw [HMap.contains_iff]; exact hc)]; rfl
      rw [e]
      obtain ⟨h1, h2⟩ := relax_all D N s hN' (fun u hu => hD u (by simp [hu]))
      refine ⟨?_, ?_⟩
      · rintro ⟨y, hy, hy1, hy2⟩
        rcases List.mem_cons.1 hy with rfl | hy
        · exact absurd hc hy1
        · exact h1 ⟨y, hy, hy1, hy2⟩
      · intro hp
        refine Ok.mono (h2 fun y hy => hp y (by simp [hy])) ?_
        rintro t ⟨t1, t2, t3, t4, t5⟩
        have hne : ∀ u, u ∉ s.core.keys → (u ∈ x :: N ↔ u ∈ N) := fun u hu => by
          have : u ≠ x := by rintro rfl; exact hu hc
          simp [this]
        refine ⟨t1, t2, t3, fun u => ?_, fun i u => ?_⟩
        · rw [t4]
          by_cases hu : u ∈ s.core.keys
          · simp [hu]
          · simp only [hne u hu]
        · rw [t5]
          by_cases hu : u ∈ s.core.keys
          · simp [hu]
          · simp only [hne u hu]
    · have hg := hD x (by simp) hc
      have hc' : ¬ s.core.contains x = true := by rw [HMap.contains_iff]; exact hc
      by_cases h0 : D x = 0
      · have e : relax s x = .error .overflow := by
          unfold relax
          rw [if_neg hc', hg, h0]; rfl
        rw [e]
        exact ⟨fun _ => rfl, fun hp => absurd (hp x (by simp) hc) (by omega)⟩
      · set s' : DegenState := { s with
          buckets := if calcIndex (D x) != calcIndex (D x - 1) then
            bucketInsert (bucketRemove s.buckets (calcIndex (D x)) x) (calcIndex (D x - 1)) x else s.buckets,
          degDict := s.degDict.insert x (D x - 1) } with hs'
        have e : relax s x = .ok s' := by
          unfold relax
          rw [if_neg hc', hg]
          simp only [unwrap_some, bind_ok, usub_ok (show 1 ≤ D x by omega)]
          rfl
        rw [e]
        have hne : ∀ u ∈ N, u ≠ x := by rintro u hu rfl; exact hxN hu
        obtain ⟨h1, h2⟩ := relax_all D N s' hN' (fun u hu hk => by
          show (s.degDict.insert x (D x - 1)).get? u = _
          rw [HMap.get?_insert, if_neg (hne u hu)]
          exact hD u (by simp [hu]) hk)
        refine ⟨?_, ?_⟩
        · rintro ⟨y, hy, hy1, hy2⟩
          rcases List.mem_cons.1 hy with rfl | hy
          · exact absurd hy2 h0
          · exact h1 ⟨y, hy, hy1, hy2⟩
        · intro hp
          refine Ok.mono (h2 fun y hy => hp y (by simp [hy])) ?_
          rintro t ⟨t1, t2, t3, t4, t5⟩
          have hk : s'.core.keys = s.core.keys := rfl
          rw [hk] at t4 t5
          refine ⟨t1, t2, t3, fun u => ?_, fun i u => ?_⟩
          · rw [t4]
            show (if _ then _ else (s.degDict.insert x (D x - 1)).get? u) = _
            rw [HMap.get?_insert]
            by_cases hux : u = x
            · subst hux; simp [hxN, hc]
            · simp [hux]
          · have hb : u ∈ s'.buckets.getD i ∅ ↔ if u = x ∧ calcIndex (D x) ≠ calcIndex (D x - 1) then
                i = calcIndex (D x - 1) ∨ (u ∈ s.buckets.getD i ∅ ∧ i ≠ calcIndex (D x)) else u ∈ s.buckets.getD i ∅ := by
              rw [hs']
              simp only
              by_cases hcx : calcIndex (D x) = calcIndex (D x - 1)
              · simp [hcx]
              · rw [if_pos (by simpa using hcx), mem_bucketInsert, mem_bucketRemove]
                by_cases hux : u = x
                · subst hux; simp [hcx]
                · simp [hux]
            rw [t5]
            by_cases hux : u = x
            · subst hux
              simp only [hxN, false_and, if_false, hb, true_and, List.mem_cons, true_or, hc, not_false_eq_true]
            · simp only [hb, hux, false_and, if_false, List.mem_cons, false_or]

/-- Waiting, with bucket numbers. -/
def WaitsAt (S : SGraph) (h : List ℕ) (u x : ℕ) : Prop :=
  u ∈ S.V ∧ ((u ∉ h ∧ x + S.taken h u = S.deg u) ∨
    ∃ a b, h = a ++ u :: b ∧ u ∉ a ∧ u ∉ b ∧ S.Adj u u ∧ x + 1 + S.taken a u = S.deg u ∧ calcIndex (x + 1) ≠ calcIndex x)

/-- Invariant of the main loop, loops allowed. -/
structure LInv (S : SGraph) (s : DegenState) : Prop where
  sub : ∀ u ∈ s.order, u ∈ S.V
  deg : ∀ u ∈ S.V, u ∉ s.order → ∃ x, s.degDict.get? u = some x ∧ x + S.taken s.order u = S.deg u
  bucket : ∀ i u, u ∈ s.buckets.getD i ∅ ↔ ∃ x, WaitsAt S s.order u x ∧ calcIndex x = i
  keys : ∀ u, u ∈ s.core.keys ↔ u ∈ s.order

/-- The vertex picked next by a hash order. -/
def LPick (S : SGraph) (σ : Shuffle Vertex) (h : List ℕ) (v : ℕ) : Prop :=
  ∃ x, WaitsAt S h v x ∧ (∀ w y, WaitsAt S h w y → calcIndex x ≤ calcIndex y) ∧
    ∃ B : HSet ℕ, (σ.run B.toList).head? = some v ∧ ∀ w, w ∈ B ↔ ∃ y, WaitsAt S h w y ∧ calcIndex y = calcIndex x

theorem WaitsAt.eq {S : SGraph} {h : List ℕ} {u x y : ℕ} (h1 : WaitsAt S h u x) (h2 : WaitsAt S h u y) : x = y := by
  obtain ⟨-, ⟨h3, h4⟩ | ⟨a, b, rfl, ha, hb, -, h4, -⟩⟩ := h1
  · obtain ⟨-, ⟨h5, h6⟩ | ⟨a, b, rfl, -⟩⟩ := h2
    · omega
    · exact absurd (by simp) h3
  · obtain ⟨-, ⟨h5, h6⟩ | ⟨a', b', e, ha', hb', -, h6, -⟩⟩ := h2
    · exact absurd (by simp) h5
    · have : a = a' := by
        have e1 := congrArg (List.takeWhile (fun z => z != u)) e
        rw [List.takeWhile_append_of_pos (by intro z hz; simp; rintro rfl; exact ha hz),
          List.takeWhile_append_of_pos (by intro z hz; simp; rintro rfl; exact ha' hz)] at e1
        simpa using e1
      subst this
      omega

theorem lstep {G : Graph} {S : SGraph} (H : G.Rep S) (σ : Shuffle Vertex) {s : DegenState} (I : LInv S s)
    (hne : s.order.length < S.V.card) :
    ∃ v, LPick S σ s.order v ∧
      ((∃ u, S.Exhausts s.order v u) → step σ G s = .error .overflow) ∧
      ((∀ u, ¬ S.Exhausts s.order v u) → Ok (step σ G s) (fun t => LInv S t ∧ t.order = s.order ++ [v])) := by
  obtain ⟨u₀, hu₀, hu₀'⟩ : ∃ u ∈ S.V, u ∉ s.order := by
    by_contra hc
    push Not at hc
    have : S.V ⊆ s.order.toFinset := fun x hx => List.mem_toFinset.2 (hc x hx)
    have := (Finset.card_le_card this).trans (List.toFinset_card_le _)
    omega
  obtain ⟨x₀, -, hx₀⟩ := I.deg u₀ hu₀ hu₀'
  have hw₀ : WaitsAt S s.order u₀ x₀ := ⟨hu₀, Or.inl ⟨hu₀', hx₀⟩⟩
  have hb₀ : bucketNonempty s.buckets (calcIndex x₀) = true :=
    bucketNonempty_iff.2 ⟨u₀, (I.bucket _ _).2 ⟨x₀, hw₀, rfl⟩⟩
  have := calcIndex_le x₀
  obtain ⟨d, hd, hd1, hd2⟩ := findBucket_spec (2 ^ 31) 0 _ (Nat.zero_le _) (by omega) hb₀
  unfold step
  simp only [hd, bind_ok]
  obtain ⟨w₀, hw₀⟩ := bucketNonempty_iff.1 hd1
  obtain ⟨B, hB⟩ : ∃ B, s.buckets.get? d = some B := by
    cases h : s.buckets.get? d with
    | none => unfold HMap.getD at hw₀; rw [h] at hw₀; simp at hw₀
    | some B => exact ⟨B, rfl⟩
  have hBd : s.buckets.getD d ∅ = B := by unfold HMap.getD; rw [hB]; rfl
  simp only [hB, unwrap_some, bind_ok]
  obtain ⟨v, hv⟩ : ∃ v, (σ.run B.toList).head? = some v := by
    cases h : σ.run B.toList with
    | nil =>
      rw [hBd, HSet.mem_def, ← σ.mem, h] at hw₀; cases hw₀
    | cons a l => exact ⟨a, rfl⟩
  have hvB : v ∈ B := by
    have := List.mem_of_mem_head? (Option.mem_def.2 hv)
    rwa [σ.mem] at this
  obtain ⟨x, hvx, hxd⟩ := (I.bucket d v).1 (by rw [hBd]; exact hvB)
  have hmin : ∀ w y, WaitsAt S s.order w y → d ≤ calcIndex y := by
    intro w y hw
    by_contra hc
    have := hd2 _ (Nat.zero_le _) (not_le.1 hc)
    rw [bucketNonempty_iff.2 ⟨w, (I.bucket _ _).2 ⟨y, hw, rfl⟩⟩] at this
    cases this
  obtain ⟨N, hN, hNn, hNm⟩ := H.nbrs v hvx.1
  simp only [hv, unwrap_some, bind_ok, hN]
  refine ⟨v, ⟨x, hvx, fun w y hw => hxd ▸ hmin w y hw, B, hv, fun w => by rw [← hBd, I.bucket, hxd]⟩, ?_⟩
  -- stored degrees
  set D : ℕ → ℕ := fun u => S.deg u - S.taken s.order u with hDdef
  have hDg : ∀ u ∈ S.V, u ∉ s.order → s.degDict.get? u = some (D u) ∧ D u + S.taken s.order u = S.deg u := by
    intro u hu hu'
    obtain ⟨y, h1, h2⟩ := I.deg u hu hu'
    have : D u = y := by rw [hDdef]; simp only; omega
    rw [this]; exact ⟨h1, h2⟩
  set s₁ : DegenState := { s with coreNum := max s.coreNum d, buckets := s.buckets.insert d (B.remove v) } with hs₁
  obtain ⟨r1, r2⟩ := relax_all D N s₁ hNn (fun u hu hk => (hDg u ((hNm u).1 hu).right (fun h => hk ((I.keys u).2 h))).1)
  have hk1 : s₁.core.keys = s.core.keys := rfl
  rw [hk1] at r1 r2
  constructor
  · rintro ⟨u, hu1, hu2, hu3⟩
    rw [r1 ⟨u, (hNm u).2 hu1, by rw [I.keys]; exact hu2, by rw [hDdef]; simp only; omega⟩]
    rfl
  · intro hx
    refine Ok.bind (r2 fun u hu hk => ?_) ?_
    · by_contra hc
      refine hx u ⟨(hNm u).1 hu, by rwa [I.keys] at hk, ?_⟩
      have := (hDg u ((hNm u).1 hu).right (by rwa [I.keys] at hk)).2
      omega
    rintro t ⟨e1, e2, e3, e4, e5⟩
    have e3' : t.order = s.order := e3
    have e1' : t.core = s.core := e1
    have e4 : ∀ u, t.degDict.get? u = if u ∈ N ∧ u ∉ s.core.keys then some (D u - 1) else s.degDict.get? u := e4
    refine Ok.pure ⟨⟨?_, ?_, ?_, ?_⟩, by simp [e3']⟩
    · intro u hu
      simp only [e3', List.mem_append, List.mem_singleton] at hu
      rcases hu with hu | rfl
      · exact I.sub u hu
      · exact hvx.1
    · intro u hu huo
      simp only [e3'] at huo ⊢
      have hu' : u ∉ s.order := fun h => huo (by simp [h])
      obtain ⟨g1, g2⟩ := hDg u hu hu'
      rw [e4]
      rw [SGraph.taken_snoc]
      by_cases ha : S.Adj u v
      · rw [if_pos ⟨(hNm u).2 ha.symm, by rw [I.keys]; exact hu'⟩, if_pos ha]
        have h0 : 1 ≤ D u := by
          by_contra hc
          exact hx u ⟨ha.symm, hu', by omega⟩
        exact ⟨_, rfl, by omega⟩
      · rw [if_neg (fun h => ha ((hNm u).1 h.1).symm), if_neg ha]
        exact ⟨_, g1, by omega⟩
    · intro i u
      simp only [e3']
      rw [e5]
      have hb : u ∈ s₁.buckets.getD i ∅ ↔ u ≠ v ∧ ∃ y, WaitsAt S s.order u y ∧ calcIndex y = i := by
        have hbi := I.bucket i u
        rw [hs₁]
        unfold HMap.getD at hbi ⊢
        simp only
        rw [HMap.get?_insert]
        by_cases hi : i = d
        · subst hi
          rw [hB] at hbi
          simp only [Option.getD_some] at hbi
          simp only [if_true, Option.getD_some, HSet.mem_remove, hbi]
          tauto
        · rw [if_neg hi, hbi]
          constructor
          · rintro ⟨y, h1, h2⟩
            refine ⟨?_, y, h1, h2⟩
            rintro rfl
            rw [h1.eq hvx, hxd] at h2
            exact hi h2.symm
          · exact And.right
      rw [hb]
      by_cases huV : u ∈ S.V
      swap
      · have hnw : ∀ h y, ¬ WaitsAt S h u y := fun h y hw => huV hw.1
        have hnN : u ∉ N := fun h => huV ((hNm u).1 h).right
        simp [hnw, hnN]
      by_cases huv : u = v
      · subst huv
        simp only [ne_eq, not_true_eq_false, false_and, or_false]
        by_cases huo : u ∈ s.order
        · -- removed a second time
          have hk : u ∈ s.core.keys := (I.keys u).2 huo
          simp only [hk, not_true_eq_false, false_and, and_false, if_false, false_iff]
          rintro ⟨y, ⟨-, ⟨h1, -⟩ | ⟨a, b, h1, h2, h3, -⟩⟩, -⟩
          · exact h1 (by simp)
          · rcases List.eq_nil_or_concat b with rfl | ⟨b', z, rfl⟩
            · have : s.order ++ [u] = a ++ [u] := h1
              rw [(List.append_left_inj [u]).1 this] at huo
              exact h2 huo
            · have : s.order ++ [u] = (a ++ u :: b') ++ [z] := by rw [h1]; simp
              have := (List.append_inj' this rfl).2
              simp only [List.cons.injEq, and_true] at this
              exact h3 (by simp [this])
        · have hk : u ∉ s.core.keys := fun h => huo ((I.keys u).1 h)
          obtain ⟨-, g2⟩ := hDg u huV huo
          have hW : ∀ y, WaitsAt S (s.order ++ [u]) u y ↔ S.Adj u u ∧ y + 1 = D u ∧ calcIndex (y + 1) ≠ calcIndex y := by
            intro y
            constructor
            · rintro ⟨-, ⟨h1, -⟩ | ⟨a, b, h1, h2, h3, h4, h5, h6⟩⟩
              · exact absurd (by simp) h1
              · have ha : a = s.order := by
                  rcases List.eq_nil_or_concat b with rfl | ⟨b', z, rfl⟩
                  · have : s.order ++ [u] = a ++ [u] := h1
                    exact ((List.append_left_inj [u]).1 this).symm
                  · have : s.order ++ [u] = (a ++ u :: b') ++ [z] := by rw [h1]; simp
                    have := (List.append_inj' this rfl).1
                    exact absurd (by rw [this]; simp) huo
                subst ha
                exact ⟨h4, by omega, h6⟩
            · rintro ⟨h1, h2, h3⟩
              exact ⟨huV, Or.inr ⟨s.order, [], rfl, huo, by simp, h1, by omega, h3⟩⟩
          simp only [hW, hk, not_false_eq_true, true_and]
          by_cases hl : S.Adj u u
          · have hpos : 1 ≤ D u := by
              by_contra hc
              exact hx u ⟨hl, huo, by omega⟩
            simp only [(hNm u).2 hl, true_and, hl]
            split
            · next hne' =>
              constructor
              · rintro rfl
                exact ⟨D u - 1, ⟨by omega, by rwa [Nat.sub_add_cancel hpos]⟩, rfl⟩
              · rintro ⟨y, ⟨h1, -⟩, h2⟩
                rw [← h1, Nat.add_sub_cancel]; exact h2.symm
            · next hne' =>
              simp only [false_iff]
              rintro ⟨y, ⟨h1, h2⟩, -⟩
              rw [h1, show y = D u - 1 by omega] at h2
              exact hne' h2
          · have hnN : u ∉ N := fun h => hl ((hNm u).1 h)
            simp [hl, hnN]
      · simp only [ne_eq, huv, not_false_eq_true, true_and]
        by_cases huo : u ∈ s.order
        · have hk : u ∈ s.core.keys := (I.keys u).2 huo
          simp only [hk, not_true_eq_false, false_and, and_false, if_false]
          refine exists_congr fun y => and_congr_left fun _ => ?_
          refine and_congr_right fun _ => ?_
          simp only [huo, not_true_eq_false, false_and, false_or, List.mem_append, true_or]
          constructor
          · rintro ⟨a, b, h1, h2, h3, h4⟩
            exact ⟨a, b ++ [v], by rw [h1]; simp, h2, by simp [h3, huv], h4⟩
          · rintro ⟨a, b, h1, h2, h3, h4⟩
            rcases List.eq_nil_or_concat b with rfl | ⟨b', z, rfl⟩
            · have := (List.append_inj' (show s.order ++ [v] = a ++ [u] from h1) rfl).2
              simp only [List.cons.injEq, and_true] at this
              exact absurd this.symm huv
            · have : s.order ++ [v] = (a ++ u :: b') ++ [z] := by rw [h1]; simp
              have := (List.append_inj' this rfl).1
              exact ⟨a, b', this, h2, fun h => h3 (by simp [h]), h4⟩
        · have hk : u ∉ s.core.keys := fun h => huo ((I.keys u).1 h)
          obtain ⟨-, g2⟩ := hDg u huV huo
          have hW : ∀ y, WaitsAt S s.order u y ↔ y = D u := by
            intro y
            constructor
            · rintro ⟨-, ⟨-, h1⟩ | ⟨a, b, h1, -⟩⟩
              · omega
              · exact absurd (by rw [h1]; simp) huo
            · rintro rfl; exact ⟨huV, Or.inl ⟨huo, g2⟩⟩
          have hW' : ∀ y, WaitsAt S (s.order ++ [v]) u y ↔ y + (if S.Adj u v then 1 else 0) = D u := by
            have huo' : u ∉ s.order ++ [v] := by simp [huo, huv]
            intro y
            constructor
            · rintro ⟨-, ⟨-, h1⟩ | ⟨a, b, h1, -⟩⟩
              · rw [SGraph.taken_snoc] at h1; omega
              · exact absurd (by rw [h1]; simp) huo'
            · intro h1
              exact ⟨huV, Or.inl ⟨huo', by rw [SGraph.taken_snoc]; omega⟩⟩
          simp only [hW, hW', hk, not_false_eq_true, true_and, exists_eq_left]
          by_cases ha : S.Adj u v
          · have hpos : 1 ≤ D u := by
              by_contra hc
              exact hx u ⟨ha.symm, huo, by omega⟩
            have e : ∀ y, y + 1 = D u ↔ y = D u - 1 := fun y => by omega
            simp only [(hNm u).2 ha.symm, true_and, ha, if_true, e, exists_eq_left]
            split
            · next hne' =>
              constructor
              · rintro (h | ⟨h1, h2⟩)
                · exact h.symm
                · exact absurd h1.symm h2
              · rintro rfl; exact Or.inl rfl
            · next hne' =>
              rw [not_not] at hne'
              rw [hne']
          · have hnN : u ∉ N := fun h => ha ((hNm u).1 h).symm
            simp [ha, hnN]
    · intro u
      simp only [e1', e3']
      rw [HMap.mem_keys_insert, I.keys]; simp [or_comm]

end DegenState

open DegenState in
/-- The first loop of `degeneracy`. -/
theorem Graph.Rep.degeneracy_start {G : Graph} {S : SGraph} (H : G.Rep S) :
    Ok (G.vertices.foldlM (fun (s : DegenState) v => do
      let d ← G.degree v
      return { s with degDict := s.degDict.insert v d, buckets := DegenState.bucketInsert s.buckets (calcIndex d) v })
      (⟨∅, ∅, ∅, 0, []⟩ : DegenState)) (fun s => LInv S s ∧ s.order = []) := by
  refine Ok.mono (Ok.foldlM (fun pre (s : DegenState) => s.core = ∅ ∧ s.order = [] ∧
    (∀ u ∈ pre, s.degDict.get? u = some (S.deg u)) ∧
    (∀ i u, u ∈ s.buckets.getD i ∅ ↔ u ∈ pre ∧ calcIndex (S.deg u) = i)) ?_ ?_) ?_
  · refine ⟨rfl, rfl, by simp, fun i u => ?_⟩
    unfold HMap.getD; simp
  · rintro pre v post s hl' ⟨h1, h3, h4, h5⟩
    have hv : v ∈ S.V := (H.vmem v).1 (by rw [hl']; simp)
    simp only [H.degree v hv, bind_ok]
    refine Ok.pure ⟨h1, h3, fun u hu => ?_, fun i u => ?_⟩
    · simp only
      rw [HMap.get?_insert]
      by_cases huv : u = v
      · simp [huv]
      · rw [if_neg huv]
        simp only [List.mem_append, List.mem_singleton] at hu
        exact h4 u (hu.resolve_right huv)
    · rw [mem_bucketInsert, h5]
      simp only [List.mem_append, List.mem_singleton]
      constructor
      · rintro (⟨rfl, rfl⟩ | ⟨h, h'⟩)
        · exact ⟨Or.inr rfl, rfl⟩
        · exact ⟨Or.inl h, h'⟩
      · rintro ⟨h | rfl, h'⟩
        · exact Or.inr ⟨h, h'⟩
        · exact Or.inl ⟨h'.symm, rfl⟩
  · rintro s ⟨h1, h3, h4, h5⟩
    refine ⟨⟨by simp [h3], fun u hu _ => ⟨_, h4 u ((H.vmem u).2 hu), by simp [h3, SGraph.taken]⟩, fun i u => ?_, ?_⟩, h3⟩
    · rw [h5, H.vmem]
      constructor
      · rintro ⟨hu, rfl⟩
        exact ⟨S.deg u, ⟨hu, Or.inl ⟨by simp [h3], by simp [h3, SGraph.taken]⟩⟩, rfl⟩
      · rintro ⟨x, ⟨hu, ⟨-, h⟩ | ⟨a, b, h, -⟩⟩, rfl⟩
        · rw [h3] at h
          simp only [SGraph.taken, List.filter_nil, List.length_nil, Nat.add_zero] at h
          rw [h]; exact ⟨hu, rfl⟩
        · rw [h3] at h; simp at h
    · intro u; rw [h1, h3]; simp [HMap.keys]

open DegenState in
/-- Rounds of the main loop, every hash order. -/
theorem Graph.Rep.degeneracy_rounds {G : Graph} {S : SGraph} (H : G.Rep S) (σ : ℕ → Shuffle Vertex) {s₀ : DegenState}
    (I₀ : LInv S s₀) (h₀ : s₀.order = []) : ∀ n ≤ S.V.card,
    ((∃ s, (List.range n).foldlM (fun s i => DegenState.step (σ i) G s) s₀ = .ok s ∧ LInv S s ∧ s.order.length = n ∧
        ∀ a v b, s.order = a ++ v :: b → LPick S (σ a.length) a v ∧ ∀ u, ¬ S.Exhausts a v u) ∨
      ((List.range n).foldlM (fun s i => DegenState.step (σ i) G s) s₀ = .error .overflow ∧
        ∃ h w u, h.length < n ∧ (∀ a v b, h = a ++ v :: b → LPick S (σ a.length) a v ∧ ∀ u, ¬ S.Exhausts a v u) ∧
          LPick S (σ h.length) h w ∧ S.Exhausts h w u))
  | 0, _ => Or.inl ⟨s₀, rfl, I₀, by simp [h₀], by simp [h₀]⟩
  | n + 1, hn => by
    rw [List.range_succ, List.foldlM_append]
    rcases H.degeneracy_rounds σ I₀ h₀ n (by omega) with ⟨s, h1, I, h2, h3⟩ | ⟨h1, h, w, u, h2, h3⟩
    · rw [h1]
      obtain ⟨v, hp, he, hok⟩ := lstep H (σ n) I (by omega)
      simp only [bind_ok, List.foldlM_cons, List.foldlM_nil]
      by_cases hx : ∃ u, S.Exhausts s.order v u
      · right
        rw [he hx]
        obtain ⟨u, hu⟩ := hx
        exact ⟨rfl, s.order, v, u, by omega, h3, by rwa [h2], hu⟩
      · left
        push Not at hx
        obtain ⟨t, ht, It, hto⟩ := hok hx
        refine ⟨t, by rw [ht]; rfl, It, by simp [hto, h2], fun a w b hab => ?_⟩
        rw [hto] at hab
        rcases List.eq_nil_or_concat b with rfl | ⟨b', y, rfl⟩
        · obtain ⟨rfl, hw⟩ := List.append_inj' (show s.order ++ [v] = a ++ [w] from hab) rfl
          cases hw
          rw [h2]
          exact ⟨hp, hx⟩
        · have : s.order ++ [v] = (a ++ w :: b') ++ [y] := by rw [hab]; simp
          exact h3 a w b' (List.append_inj' this rfl).1
    · right
      rw [h1]
      exact ⟨rfl, h, w, u, by omega, h3⟩

open DegenState in
/-- What `degeneracy` does on any graph, for every hash order. -/
theorem Graph.Rep.degeneracy_loops {G : Graph} {S : SGraph} (H : G.Rep S) (σ : ℕ → Shuffle Vertex) :
    (∃ s, G.degeneracy σ = .ok (degeneracyLower s.coreNum, s.coreNum, s.order.reverse, s.core) ∧ LInv S s ∧
        s.order.length = S.V.card ∧
        ∀ a v b, s.order = a ++ v :: b → LPick S (σ a.length) a v ∧ ∀ u, ¬ S.Exhausts a v u) ∨
      (G.degeneracy σ = .error .overflow ∧
        ∃ h w u, h.length < S.V.card ∧ (∀ a v b, h = a ++ v :: b → LPick S (σ a.length) a v ∧ ∀ u, ¬ S.Exhausts a v u) ∧
          LPick S (σ h.length) h w ∧ S.Exhausts h w u) := by
  obtain ⟨s₀, e, I₀, h₀⟩ := H.degeneracy_start
  unfold Graph.degeneracy
  rw [e, bind_ok, H.nv]
  rcases H.degeneracy_rounds σ I₀ h₀ S.V.card le_rfl with ⟨s, h1, I, h2, h3⟩ | ⟨h1, h2⟩
  · exact Or.inl ⟨s, by rw [h1]; rfl, I, h2, h3⟩
  · exact Or.inr ⟨by rw [h1]; rfl, h2⟩

open DegenState in
/-- A hash order that prefers the vertices of `l` in turn follows `l` as far as this is possible. -/
theorem DegenState.follows {S : SGraph} {l h : List ℕ}
    (hl : ∀ a v b, l = a ++ v :: b → ∃ x, WaitsAt S a v x ∧ ∀ w y, WaitsAt S a w y → calcIndex x ≤ calcIndex y)
    (hh : ∀ a v b, h = a ++ v :: b → LPick S (Shuffle.front (l.getD a.length 0)) a v) :
    ∀ n ≤ l.length, n ≤ h.length → h.take n = l.take n
  | 0, _, _ => by simp
  | n + 1, h1, h2 => by
    have ih := DegenState.follows hl hh n (by omega) (by omega)
    have e1 : h = h.take n ++ h[n] :: h.drop (n + 1) := by
      rw [← List.drop_eq_getElem_cons (by omega), List.take_append_drop]
    have e2 : l = l.take n ++ l[n] :: l.drop (n + 1) := by
      rw [← List.drop_eq_getElem_cons (by omega), List.take_append_drop]
    obtain ⟨x, hx, hmin, B, hB, hBm⟩ := hh _ _ _ e1
    obtain ⟨y, hy, hmin'⟩ := hl _ _ _ e2
    rw [ih] at hx hmin hB hBm
    have hlen : (l.take n).length = n := by rw [List.length_take]; omega
    have hget : l.getD n 0 = l[n] := by
      rw [List.getD_eq_getElem?_getD, List.getElem?_eq_getElem (by omega)]; rfl
    rw [hlen, hget] at hB
    have hmem : l[n] ∈ B := (hBm _).2 ⟨y, hy, le_antisymm (hmin' _ _ hx) (hmin _ _ hy)⟩
    rw [Shuffle.front_head (by rwa [HSet.mem_toList])] at hB
    rw [List.take_succ_eq_append_getElem (by omega), List.take_succ_eq_append_getElem (by omega), ih]
    simp only [Option.some.injEq] at hB
    rw [← hB]
end Verif
