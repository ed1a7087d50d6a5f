import Verif.Lemmas.DTFDeep
import Verif.Lemmas.DTFReach
/-! # Every augmentation allowed by the specification is computed for some hash orders -/
namespace Verif
open SGraph DTFGraph

theorem EditGraph.Relayout.refl (g : EditGraph) : EditGraph.Relayout g g :=
  ⟨rfl, List.Perm.refl _, List.Perm.refl _, fun _ N h => ⟨N, h, List.Perm.refl _⟩⟩

theorem DTFGraph.Relayout.refl (g : DTFGraph) : DTFGraph.Relayout g g :=
  ⟨rfl, rfl, List.Perm.refl _, fun _ nd h => ⟨nd, h, rfl, rfl, List.forall₂_same.2 fun _ _ => List.Perm.refl _⟩⟩

theorem Rounds.le {O : SGraph → (ℕ → ℕ → Prop) → Prop} {d e : ℕ} {R R' : ℕ → ℕ → ℕ → Prop} (h : Rounds O d R e R') : d ≤ e := by
  induction h with
  | refl => exact le_refl d
  | step _ _ ih => exact ih.trans (Nat.le_succ _)

/-- The first round can be split off. -/
theorem Rounds.head {O : SGraph → (ℕ → ℕ → Prop) → Prop} {d e : ℕ} {R R' : ℕ → ℕ → ℕ → Prop} (h : Rounds O d R e R') :
    (d = e ∧ R = R') ∨ ∃ R₁, Rounded O R (d + 1) R₁ ∧ Rounds O (d + 1) R₁ e R' := by
  induction h with
  | refl => exact Or.inl ⟨rfl, rfl⟩
  | @step e R' R'' h hs ih =>
    right
    rcases ih with ⟨rfl, rfl⟩ | ⟨R₁, h1, h2⟩
    · exact ⟨R'', hs, .refl⟩
    · exact ⟨R₁, h1, h2.step hs⟩

/-- Only orientations of graphs on at most as many vertices matter. -/
theorem Rounds.restrict {L L' : SGraph → (ℕ → ℕ → Prop) → Prop} {n : ℕ} {V : Finset ℕ} (hV : V.card ≤ n)
    (hL : ∀ S B, S.V.card ≤ n → L S B → L' S B) (hadj : ∀ S B, L S B → ∀ u v, B u v → S.Adj u v) {d e : ℕ}
    {R R' : ℕ → ℕ → ℕ → Prop} (hR : ∀ w u v, R w u v → u ∈ V ∧ v ∈ V) (h : Rounds L d R e R') :
    Rounds L' d R e R' ∧ ∀ w u v, R' w u v → u ∈ V ∧ v ∈ V := by
  induction h with
  | refl => exact ⟨.refl, hR⟩
  | @step e R₁ R₂ h hs ih =>
    obtain ⟨ih1, ih2⟩ := ih
    obtain ⟨F, B, h1, h2, h3, h4⟩ := hs
    have hFV : F.V ⊆ V := by
      intro a ha
      obtain ⟨b, -, -, u, ⟨h5, -⟩ | ⟨h5, -⟩⟩ := (h1 a).1 ha <;> exact (ih2 _ _ _ h5).1
    refine ⟨ih1.step ⟨F, B, h1, h2, hL F B ((Finset.card_le_card hFV).trans hV) h3, h4⟩, fun w u v hw => ?_⟩
    rcases (h4 w u v).1 hw with h5 | ⟨-, ⟨-, -, y, w1, w2, -, h6, h7⟩ | ⟨-, h6⟩⟩
    · exact ih2 _ _ _ h5
    · exact ⟨(ih2 _ _ _ h6).1, (ih2 _ _ _ h7).2⟩
    · have := hadj F B h3 v u h6
      exact ⟨hFV this.right, hFV this.left⟩

theorem SGraph.DeepBy.restrict {L L' : SGraph → (ℕ → ℕ → Prop) → Prop} {n : ℕ} {S : SGraph} (hV : S.V.card ≤ n)
    (hL : ∀ S B, S.V.card ≤ n → L S B → L' S B) (hadj : ∀ S B, L S B → ∀ u v, B u v → S.Adj u v) {k : ℕ} {B : ℕ → ℕ → Prop}
    (h : S.DeepBy L k B) : S.DeepBy L' k B := by
  rcases h with ⟨h1, h2⟩ | ⟨h1, B₀, R, T, B₁, h2, h3, h4, h5, h6, h7⟩
  · exact Or.inl ⟨h1, hL _ _ hV h2⟩
  · refine Or.inr ⟨h1, B₀, R, T, B₁, hL _ _ hV h2, (Rounds.restrict hV hL hadj ?_ h3).1, h4, h5, hL _ _ (by rw [h4]; exact hV) h6, h7⟩
    rintro w u v ⟨-, h⟩
    have := hadj _ _ h2 u v h
    exact ⟨this.left, this.right⟩

namespace DTFGraph
variable {g : DTFGraph} {V : Finset ℕ} {A : Arcs}

/-- Every orientation described by `O`, of graphs with at most `n` vertices, is returned by `orientF` for some admissible orders. -/
def Attains {F : Type} (orientF : F → Graph → Res DTFGraph) (Q : F → Prop) (n : ℕ) (O : SGraph → (ℕ → ℕ → Prop) → Prop) : Prop :=
  ∀ G S B, G.Rep S → S.Loopless → S.V.card ≤ n → O S B → ∃ x, Q x ∧ Ok (orientF x G) (fun D => ∃ A, Abs D S.V A ∧
    (∀ e ∈ A, e.2.2 = 1 ∧ S.Adj e.1 e.2.1) ∧ rel1 A = B)

theorem Abs.unique {A' : Arcs} (H : Abs g V A) (H' : Abs g V A') : A = A' := by
  ext ⟨u, v, w⟩
  constructor
  · intro h
    exact (hasArcAt_iff H' u v (H.wf _ h).2.2).1 ((hasArcAt_iff H u v (H.wf _ h).2.2).2 h)
  · intro h
    exact (hasArcAt_iff H u v (H'.wf _ h).2.2).1 ((hasArcAt_iff H' u v (H'.wf _ h).2.2).2 h)

theorem round_attained {F : Type} {orientF : F → Graph → Res DTFGraph} {Q : F → Prop} {n : ℕ}
    {O : SGraph → (ℕ → ℕ → Prop) → Prop} (hF : Attains orientF Q n O) (H : Abs g V A) (hV : V.card ≤ n)
    (hq : ∀ u x w w', (x, u, w) ∈ A → (x, u, w') ∈ A → w = w') {R' : ℕ → ℕ → ℕ → Prop}
    (h : Rounded O (rel A) (g.depth + 1) R') : ∃ ω : RoundOrder F, ω.Good Q ∧ Ok (augmentRound orientF ω g) (fun g' =>
      ∃ A', Abs g' V A' ∧ g'.depth = g.depth + 1 ∧ rel A' = R') := by
  have hp : ∀ u v w, (u, v, w) ∈ A → 1 ≤ w := fun u v w hw => (H.wf _ hw).2.2
  obtain ⟨G, S, hG, hl, hSV, hS, hrun⟩ := augmentRound_run (lay := id) (fun g => Relayout.refl g) Shuffle.id (frat := id)
    (fun f => EditGraph.Relayout.refl f) (out := id) (fun g => Relayout.refl g) H hq
  obtain ⟨F', B, h1, h2, h3, h4⟩ := h
  have hFS : F' = S := by
    refine SGraph.ext_adj ?_ fun a b => ?_
    · ext a
      rw [h1, hSV]
      exact exists_congr fun b => meeting_iff _ a b
    · rw [h2, hS, meeting_iff, bridged_iff hp, bridged_iff hp]
  subst hFS
  have hFV : F'.V ⊆ V := by
    intro a ha
    obtain ⟨b, -, -, u, ⟨h5, -⟩ | ⟨h5, -⟩⟩ := (h1 a).1 ha <;> exact (H.wf _ h5).1
  obtain ⟨x, hx, D, hD, C, hC1, hC2, rfl⟩ := hF G F' B hG hl ((Finset.card_le_card hFV).trans hV) h3
  refine ⟨⟨id, Shuffle.id, id, x, id⟩, ⟨fun g => Relayout.refl g, fun f => EditGraph.Relayout.refl f, hx, fun g => Relayout.refl g⟩,
    (hrun orientF x D C hD hC1 hC2).mono ?_⟩
  rintro g' ⟨A', k1, k2, k3⟩
  refine ⟨A', k1, k2, ?_⟩
  funext w u v
  refine propext ((k3 u v w).trans (Iff.trans ?_ (h4 w u v).symm))
  have : (v, u, 1) ∈ C ∧ u ≤ v ↔ u < v ∧ rel1 C v u := by
    constructor
    · rintro ⟨h, hle⟩
      refine ⟨lt_of_le_of_ne hle ?_, h⟩
      rintro rfl
      exact hl u (hC2 _ h).2
    · rintro ⟨hlt, h⟩
      exact ⟨h, hlt.le⟩
  rw [this, bridged_iff hp]
  rfl

theorem augmentLoop_congr {F : Type} {orientF : F → Graph → Res DTFGraph} {ω ω' : ℕ → RoundOrder F} {depth : ℕ} :
    ∀ (n : ℕ) (g : DTFGraph), (∀ i < n, ω i = ω' i) → augmentLoop orientF ω depth n g = augmentLoop orientF ω' depth n g
  | 0, g, _ => rfl
  | n + 1, g, h => by
    unfold augmentLoop
    rw [h n (by omega)]
    have : ∀ g1, augmentLoop orientF ω depth n g1 = augmentLoop orientF ω' depth n g1 := fun g1 =>
      augmentLoop_congr n g1 fun i hi => h i (by omega)
    simp only [this]

theorem rounds_attained {F : Type} {orientF : F → Graph → Res DTFGraph} {Q : F → Prop} {n : ℕ}
    {O : SGraph → (ℕ → ℕ → Prop) → Prop} {P : SGraph → Arcs → Prop} (hO : Orients orientF Q P) (hF : Attains orientF Q n O)
    (hQ : ∃ x, Q x) (hV : V.card ≤ n)
    {S : SGraph} {depth : ℕ} {R' : ℕ → ℕ → ℕ → Prop} : ∀ (m : ℕ) (g : DTFGraph) (A : Arcs), depth = g.depth + m → Abs g V A → Sound S A →
      Rounds O g.depth (rel A) depth R' → ∃ ω : ℕ → RoundOrder F, (∀ i, (ω i).Good Q) ∧
        Ok (augmentLoop orientF ω depth m g) (fun g' => ∃ A', Abs g' V A' ∧ g'.depth = depth ∧ Sound S A' ∧ rel A' = R')
  | 0, g, A, hd, H, hs, h => by
    obtain ⟨x, hx⟩ := hQ
    refine ⟨fun _ => ⟨id, Shuffle.id, id, x, id⟩, fun _ => ⟨fun g => Relayout.refl g, fun f => EditGraph.Relayout.refl f, hx,
      fun g => Relayout.refl g⟩, ?_⟩
    unfold augmentLoop
    rw [if_neg (by omega)]
    refine Ok.pure ⟨A, H, by omega, hs, ?_⟩
    rcases h.head with ⟨-, h⟩ | ⟨R₁, -, h⟩
    · exact h
    · exact absurd h.le (by omega)
  | m + 1, g, A, hd, H, hs, h => by
    rcases h.head with ⟨h, -⟩ | ⟨R₁, h1, h2⟩
    · omega
    obtain ⟨ω₀, hω₀, g1, hg1, A1, H1, hd1, rfl⟩ := round_attained hF H hV (fun u x => hs.uniq x u) h1
    have hs1 : Sound S A1 := by
      obtain ⟨g1', hg1', A1', H1', hd1', hr⟩ := augmentRound_ok hO hω₀ H fun u x => hs.uniq x u
      rw [hg1] at hg1'
      cases hg1'
      have : A1' = A1 := H1'.unique H1
      subst this
      exact hs.round (hr.round (by omega))
    rw [← hd1] at h2
    obtain ⟨ω, hω, g2, hg2, h3⟩ := rounds_attained hO hF hQ hV m g1 A1 (by omega) H1 hs1 h2
    refine ⟨Function.update ω m ω₀, fun i => ?_, g2, ?_, h3⟩
    · by_cases hi : i = m
      · rw [hi, Function.update_self]; exact hω₀
      · rw [Function.update_of_ne hi]; exact hω i
    · unfold augmentLoop
      rw [if_pos (by omega), Function.update_self, hg1, bind_ok, ← hg2]
      exact augmentLoop_congr m g1 fun i hi => Function.update_of_ne (by omega) _ _

/-- `orient` with the description of its orders, for graphs with at most `2 ^ 31` vertices. -/
theorem orients_peel : Orients orient (fun _ => True) (Lift fun S B => (S.V.card ≤ 2 ^ 31 → S.PeelOriented B) ∧
    ∀ u v, B u v → S.Adj u v) := by
  intro σ G S _ hG hl
  obtain ⟨lo, up, ord, core, D, A, h1, hD, hn, hm, ha, hd, ho⟩ := orient_ok hG hl σ
  refine ⟨D, hD, A, ha, fun e he => ⟨((ho _ _ _).1 he).1, ((ho _ _ _).1 he).2.1⟩, fun hc => ⟨ord,
    (C38_orders hG hl hc ord).1 ⟨σ, lo, up, core, h1⟩, fun u v => ?_⟩, fun u v h => ((ho _ _ _).1 h).2.1⟩
  unfold rel1
  rw [ho]
  exact ⟨fun h => h.2, fun h => ⟨rfl, h⟩⟩

theorem orient_attains : Attains orient (fun _ => True) (2 ^ 31) SGraph.PeelOriented := by
  rintro G S B hG hl hn ⟨p, hp, hB⟩
  obtain ⟨σ, lo, up, core, h⟩ := (C38_orders hG hl hn p).2 hp
  obtain ⟨lo', up', ord, core', D, A, h1, hD, -, -, ha, -, ho⟩ := orient_ok hG hl σ
  rw [h] at h1
  cases h1
  refine ⟨σ, trivial, D, hD, A, ha, fun e he => ⟨((ho _ _ _).1 he).1, ((ho _ _ _).1 he).2.1⟩, ?_⟩
  funext u v
  refine propext (Iff.trans ?_ (hB u v).symm)
  unfold rel1
  rw [ho]
  exact ⟨fun h => h.2, fun h => ⟨rfl, h⟩⟩

theorem orientDeep_attains (k : ℕ) : Attains (orientDeep k) DeepOrder.Good (2 ^ 31) (fun S => S.DeepBy SGraph.PeelOriented k) := by
  intro G S B hG hl hn h
  have hid : ∀ x : ℕ → Shuffle ℕ, (⟨id, Shuffle.id, id, x, id⟩ : RoundOrder (ℕ → Shuffle ℕ)).Good (fun _ => True) := fun x =>
    ⟨fun g => Relayout.refl g, fun f => EditGraph.Relayout.refl f, trivial, fun g => Relayout.refl g⟩
  rcases h with ⟨hk, h⟩ | ⟨hk, B₀, R, T, B₁, h2, h3, h4, h5, h6, h7⟩
  · obtain ⟨σ, -, D, hD, h1⟩ := orient_attains G S B hG hl hn h
    refine ⟨⟨σ, fun _ => ⟨id, Shuffle.id, id, σ, id⟩, id, id, σ, id⟩, ⟨fun _ => hid σ, fun g => Relayout.refl g,
      fun f => EditGraph.Relayout.refl f, fun g => Relayout.refl g⟩, D, ?_, h1⟩
    unfold orientDeep
    simp only
    rw [hD, bind_ok, if_pos hk]
    rfl
  · obtain ⟨σ₀, -, D, hD, A, ha, harc, rfl⟩ := orient_attains G S B₀ hG hl hn h2
    have hd : D.depth = 1 := by
      obtain ⟨_, _, _, _, D', _, -, hD', -, -, -, hd, -⟩ := orient_ok hG hl σ₀
      rw [hD] at hD'
      cases hD'
      exact hd
    have hs := Sound.of_arcs harc hl
    have hA : rel A = fun w u v => w = 1 ∧ rel1 A u v := by
      funext w u v
      refine propext ⟨fun h => ?_, fun h => by rw [h.1]; exact h.2⟩
      obtain rfl : w = 1 := (harc _ h).1
      exact ⟨rfl, h⟩
    rw [← hA, ← hd] at h3
    obtain ⟨ω, hω, g1, hg1, A1, ha1, hd1, hs1, rfl⟩ := rounds_attained orients_peel orient_attains ⟨fun _ => Shuffle.id, trivial⟩ hn
      (k - D.depth) D A (by omega) ha hs h3
    obtain ⟨U, hU, T', hT, hTV, hTadj⟩ := toUndirected_ok ha1
    have hTT : T = T' := by
      refine SGraph.ext_adj (by rw [h4, hTV]) fun a b => ?_
      rw [h5, hTadj]
      constructor
      · rintro ⟨w, ⟨hlt, h⟩ | ⟨hlt, h⟩⟩
        · exact Or.inl ⟨⟨w, h⟩, hlt.le⟩
        · exact Or.inr ⟨⟨w, h⟩, hlt.le⟩
      · rintro (⟨⟨w, h⟩, hle⟩ | ⟨⟨w, h⟩, hle⟩)
        · exact ⟨w, Or.inl ⟨lt_of_le_of_ne hle fun e => hs1.loop _ _ _ h e.symm, h⟩⟩
        · exact ⟨w, Or.inr ⟨lt_of_le_of_ne hle fun e => hs1.loop _ _ _ h e.symm, h⟩⟩
    subst hTT
    have hlT : T.Loopless := by
      intro u hu
      rcases (hTadj u u).1 hu with ⟨⟨w, hw⟩, -⟩ | ⟨⟨w, hw⟩, -⟩ <;> exact hs1.loop _ _ _ hw rfl
    obtain ⟨σ₁, -, R', hR', C, hc, hcarc, rfl⟩ := orient_attains U.view T B₁ hT.rep hlT (by rw [h4]; exact hn) h6
    obtain ⟨es, hes, hee, -⟩ := hG.edges
    obtain ⟨E, hE, C', hC', -, hCm⟩ := edgeSubgraph_ok hc (es := es)
    have hes' : ∀ u v, (u, v) ∈ es ∨ (v, u) ∈ es ↔ S.Adj u v := by
      intro u v
      constructor
      · rintro (h | h)
        · exact ((hee.mem u v).1 h).2
        · exact ((hee.mem v u).1 h).2.symm
      · intro h
        rcases Nat.le_total u v with h' | h'
        · exact Or.inl ((hee.mem u v).2 ⟨h', h⟩)
        · exact Or.inr ((hee.mem v u).2 ⟨h', h.symm⟩)
    rw [h4] at hC'
    refine ⟨⟨σ₀, ω, id, id, σ₁, id⟩, ⟨hω, fun g => Relayout.refl g, fun f => EditGraph.Relayout.refl f,
      fun g => Relayout.refl g⟩, E, ?_, C', hC', ?_, ?_⟩
    · unfold orientDeep augmentBy
      simp only [id_eq]
      rw [hD, bind_ok, if_neg (by omega), hg1, bind_ok, hU, bind_ok, hR', bind_ok, hes, bind_ok, hE]
    · rintro ⟨u, v, w⟩ he
      obtain ⟨h2, -, h3⟩ := (hCm u v w).1 he
      exact ⟨h2, (hes' u v).1 h3⟩
    · funext u v
      refine propext (Iff.trans ?_ (h7 u v).symm)
      unfold rel1
      rw [hCm, hes']
      constructor
      · rintro ⟨-, ⟨w, h⟩, h'⟩
        obtain rfl : w = 1 := (hcarc _ h).1
        exact ⟨h, h'⟩
      · rintro ⟨h, h'⟩
        exact ⟨rfl, ⟨1, h⟩, h'⟩

end DTFGraph
end Verif
