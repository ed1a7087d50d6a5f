import Verif.Props.DTFGraph
import Verif.Lemmas.DTFOutcomes
/-!
# C105 – C106: what `orient`, `orient_deep` and `augment` compute exactly
-/
namespace Verif
open SGraph DTFGraph

/-- `has_arc_at(u, v, w)` returns true, for a positive weight. -/
def DTFGraph.arcRel (g : DTFGraph) (w u v : ℕ) : Prop := 1 ≤ w ∧ g.Arc w u v

theorem DTFGraph.Abs.arcRel {g : DTFGraph} {V : Finset ℕ} {A : Arcs} (H : Abs g V A) : g.arcRel = rel A := by
  funext w u v
  refine propext ⟨fun h => (H.arc_iff h.1 u v).1 h.2, fun h => ?_⟩
  have hw := (H.wf _ h).2.2
  exact ⟨hw, (H.arc_iff hw u v).2 h⟩

/-! ## C105 -/

/-- **C105, `orient`.** The arcs are the edges directed forward in a smallest-last order. -/
theorem C105_orient {G : Graph} {S : SGraph} (hG : G.Rep S) (hl : S.Loopless) (σ : ℕ → Shuffle ℕ) :
    Ok (orient σ G) (fun D => S.Layered (fun u v => D.hasArc u v = true)) := by
  obtain ⟨D, hD, A, ha, harc, hL⟩ := orients_layered σ G S trivial hG hl
  refine ⟨D, hD, ?_⟩
  have : (fun u v => D.hasArc u v = true) = rel1 A := by
    funext u v
    refine propext ((ha.hasArc_iff u v).trans ⟨?_, fun h => ⟨1, h⟩⟩)
    rintro ⟨w, hw⟩
    obtain rfl : w = 1 := (harc _ hw).1
    exact hw
  beta_reduce
  rw [this]
  exact hL

/-- `C105_orient` for a triangle with a pendant vertex. -/
example := fun σ => C105_orient caseG_rep caseS_loopless σ

/-- **C105, `orient`, all outcomes.** The orientations that `orient` can return, over all iteration orders of the tables of
`degeneracy`, are exactly those directing the edges forward in an order in which every vertex has least degree, up to buckets,
among itself and the vertices before it. -/
theorem C105_orient_outcomes {G : Graph} {S : SGraph} (hG : G.Rep S) (hl : S.Loopless) (hn : S.V.card ≤ 2 ^ 31)
    (B : ℕ → ℕ → Prop) : (∃ σ D, orient σ G = .ok D ∧ ∀ u v, D.hasArc u v = true ↔ B u v) ↔
      ∃ p, S.Peeled p ∧ ∀ u v, B u v ↔ S.Adj u v ∧ p.idxOf u < p.idxOf v := by
  have key : ∀ σ lo up p core, G.degeneracy σ = .ok (lo, up, p, core) → ∃ D, orient σ G = .ok D ∧
      ∀ u v, D.hasArc u v = true ↔ S.Adj u v ∧ p.idxOf u < p.idxOf v := by
    intro σ lo up p core h
    obtain ⟨lo', up', p', core', D, A, h1, hD, -, -, ha, -, ho⟩ := orient_ok hG hl σ
    rw [h] at h1
    cases h1
    refine ⟨D, hD, fun u v => (ha.hasArc_iff u v).trans ⟨?_, fun h => ⟨1, (ho _ _ _).2 ⟨rfl, h⟩⟩⟩⟩
    rintro ⟨w, hw⟩
    exact ((ho _ _ _).1 hw).2
  constructor
  · rintro ⟨σ, D, h1, h2⟩
    obtain ⟨lo, up, p, core, h3, -⟩ := C38_smallest_last hG hl σ
    obtain ⟨D', h4, h5⟩ := key σ lo up p core h3
    rw [h1] at h4
    cases h4
    exact ⟨p, (C38_orders hG hl hn p).1 ⟨σ, lo, up, core, h3⟩, fun u v => (h2 u v).symm.trans (h5 u v)⟩
  · rintro ⟨p, h1, h2⟩
    obtain ⟨σ, lo, up, core, h3⟩ := (C38_orders hG hl hn p).2 h1
    obtain ⟨D, h4, h5⟩ := key σ lo up p core h3
    exact ⟨σ, D, h4, fun u v => (h5 u v).trans (h2 u v).symm⟩

/-- Both orientations of a single edge occur. -/
example : (SGraph.empty.addEdges [(0, 1)]).Peeled [0, 1] ∧ (SGraph.empty.addEdges [(0, 1)]).Peeled [1, 0] := by
  have hV : (SGraph.empty.addEdges [(0, 1)]).V = {0, 1} := by decide
  have key : ∀ p : List ℕ, p.Nodup → (∀ u, u ∈ p ↔ u ∈ (SGraph.empty.addEdges [(0, 1)]).V) → p.length = 2 →
      (SGraph.empty.addEdges [(0, 1)]).Peeled p := by
    intro p h1 h2 h3
    refine ⟨h1, h2, fun pre v post h w hw => Or.inl ?_⟩
    obtain ⟨a, b, rfl⟩ := List.length_eq_two.1 h3
    have ha := (h2 a).1 (by simp)
    have hb := (h2 b).1 (by simp)
    match pre, h, hw with
    | [], _, hw => simp at hw
    | [x], h, hw =>
      simp only [List.cons_append, List.nil_append, List.cons.injEq] at h
      obtain ⟨rfl, rfl, rfl⟩ := h
      simp only [List.mem_singleton] at hw
      subst hw
      have dec : ∀ v ∈ (SGraph.empty.addEdges [(0, 1)]).V, ∀ w ∈ (SGraph.empty.addEdges [(0, 1)]).V,
          (SGraph.empty.addEdges [(0, 1)]).degIn (insert v [w].toFinset) v ≤
          (SGraph.empty.addEdges [(0, 1)]).degIn (insert v [w].toFinset) w := by decide
      exact dec _ hb _ ha
    | x :: y :: pre, h, _ => simp at h
  exact ⟨key _ (by decide) (fun u => by rw [hV]; simp) rfl, key _ (by decide) (fun u => by rw [hV]; simp; omega) rfl⟩

/-- **C105, `orient_deep`.** The arcs are those of the specification. -/
theorem C105_orient_deep {G : Graph} {S : SGraph} (hG : G.Rep S) (hl : S.Loopless) {ω : DeepOrder} (hω : ω.Good) (k : ℕ) :
    Ok (orientDeep k ω G) (fun D => S.DeepOriented k (fun u v => D.hasArc u v = true)) := by
  obtain ⟨D, hD, A, ha, harc, hL⟩ := orients_deep_exact k ω G S hω hG hl
  refine ⟨D, hD, ?_⟩
  have : (fun u v => D.hasArc u v = true) = rel1 A := by
    funext u v
    refine propext ((ha.hasArc_iff u v).trans ⟨?_, fun h => ⟨1, h⟩⟩)
    rintro ⟨w, hw⟩
    obtain rfl : w = 1 := (harc _ hw).1
    exact hw
  beta_reduce
  rw [this]
  exact hL

/-- `C105_orient_deep` for a triangle with a pendant vertex. -/
example := C105_orient_deep caseG_rep caseS_loopless (deepWith_good Shuffle.rev) 2

/-- **C105, `augment`.** The arcs of all weights after the call arise from those before it by the rounds of the specification. -/
theorem C105_augment {S : SGraph} {g : DTFGraph} (hl : S.Loopless) (hg : Of S g) {ω : ℕ → RoundOrder DeepOrder}
    (hω : ∀ i, (ω i).Good DeepOrder.Good) (depth fratDepth : ℕ) :
    Ok (g.augment ω depth fratDepth) (fun g' => g'.depth = max depth g.depth ∧
      Rounds (DeepOriented fratDepth) g.depth g.arcRel g'.depth g'.arcRel) := by
  obtain ⟨A, ha, hs, -⟩ := hg.abs hl
  obtain ⟨g', hg', A', ha', hd, -, hr⟩ := rounds_ok (orients_deep_exact fratDepth) hω ha hs depth
  exact ⟨g', hg', hd, by rw [ha.arcRel, ha'.arcRel]; exact hr⟩

/-- `C105_augment` for the five-cycle after `augment(2, 1)`. -/
example := C105_augment c5_loopless c5_case.choose_spec.2.1 (ω := fun _ => idRound (deepWith Shuffle.rev)) (fun _ => idRound_good (deepWith_good _)) 3 1

/-- **C105, `orient_deep`, all outcomes.** Over all iteration orders, the orientations that `orient_deep` can return are exactly
those of the specification, built from orders in which every vertex has least degree, up to buckets, among itself and the
vertices before it. -/
theorem C105_orient_deep_outcomes {G : Graph} {S : SGraph} (hG : G.Rep S) (hl : S.Loopless) (hn : S.V.card ≤ 2 ^ 31) (k : ℕ)
    (B : ℕ → ℕ → Prop) : (∃ ω D, ω.Good ∧ orientDeep k ω G = .ok D ∧ ∀ u v, D.hasArc u v = true ↔ B u v) ↔
      S.DeepBy SGraph.PeelOriented k B := by
  have key : ∀ D A, Abs D S.V A → (∀ e ∈ A, e.2.2 = 1 ∧ S.Adj e.1 e.2.1) → ∀ u v, D.hasArc u v = true ↔ rel1 A u v := by
    intro D A ha harc u v
    refine (ha.hasArc_iff u v).trans ⟨?_, fun h => ⟨1, h⟩⟩
    rintro ⟨w, hw⟩
    obtain rfl : w = 1 := (harc _ hw).1
    exact hw
  constructor
  · rintro ⟨ω, D, hω, hD, hB⟩
    obtain ⟨D', hD', A, ha, harc, hL⟩ := orients_deep_by orients_peel k ω G S hω hG hl
    rw [hD] at hD'
    cases hD'
    obtain rfl : rel1 A = B := by
      funext u v
      exact propext ((key D A ha harc u v).symm.trans (hB u v))
    exact DeepBy.restrict (L := fun S B => (S.V.card ≤ 2 ^ 31 → S.PeelOriented B) ∧ ∀ u v, B u v → S.Adj u v) hn
      (fun _ _ h1 h2 => h2.1 h1) (fun _ _ h => h.2) hL
  · intro h
    obtain ⟨ω, hω, D, hD, A, ha, harc, rfl⟩ := orientDeep_attains k G S B hG hl hn h
    exact ⟨ω, D, hω, hD, key D A ha harc⟩

/-- `C105_orient_deep_outcomes` for a triangle with a pendant vertex. -/
example := C105_orient_deep_outcomes caseG_rep caseS_loopless caseS_card 2

/-- **C105, `augment`, all outcomes.** Over all iteration orders, the arcs after a call of `augment` are exactly those that arise
from the arcs before it by the rounds of the specification. -/
theorem C105_augment_outcomes {S : SGraph} {g : DTFGraph} (hl : S.Loopless) (hg : Of S g) (hn : S.V.card ≤ 2 ^ 31)
    (depth fratDepth : ℕ) (R : ℕ → ℕ → ℕ → Prop) :
    (∃ ω g', (∀ i, (ω i).Good DeepOrder.Good) ∧ g.augment ω depth fratDepth = .ok g' ∧ g'.arcRel = R) ↔
      Rounds (fun F => F.DeepBy SGraph.PeelOriented fratDepth) g.depth g.arcRel (max depth g.depth) R := by
  obtain ⟨A, ha, hs, -⟩ := hg.abs hl
  rw [ha.arcRel]
  constructor
  · rintro ⟨ω, g', hω, hg', rfl⟩
    obtain ⟨g'', hg'', A', ha', hd, -, hr⟩ := rounds_ok (orients_deep_by orients_peel fratDepth) hω ha hs depth
    have hgg : g' = g'' := by
      have : g.augment ω depth fratDepth = .ok g'' := hg''
      rw [hg'] at this
      exact Except.ok.inj this
    subst hgg
    rw [ha'.arcRel, ← hd]
    refine (Rounds.restrict hn (fun F B h1 h2 => DeepBy.restrict h1 (fun _ _ h1 h2 => h2.1 h1) (fun _ _ h => h.2) h2) ?_ ?_ hr).1
    · rintro F B (⟨-, h⟩ | ⟨-, _, _, _, _, -, -, -, -, -, h⟩) u v hb
      · exact h.2 u v hb
      · exact ((h u v).1 hb).2
    · intro w u v h
      exact ⟨(ha.wf _ h).1, (ha.wf _ h).2.1⟩
  · intro h
    rcases Nat.le_total g.depth depth with hle | hle
    · rw [max_eq_left hle] at h
      obtain ⟨ω, hω, g', hg', A', ha', -, -, h'⟩ := rounds_attained (orients_deep_exact fratDepth) (orientDeep_attains fratDepth)
        ⟨deepWith Shuffle.id, deepWith_good _⟩ hn (depth - g.depth) g A (by omega) ha hs h
      exact ⟨ω, g', hω, hg', by rw [ha'.arcRel, h']⟩
    · rw [max_eq_right hle] at h
      refine ⟨fun _ => idRound (deepWith Shuffle.id), g, fun _ => idRound_good (deepWith_good _), ?_, ?_⟩
      · unfold augment augmentBy
        rw [show depth - g.depth = 0 by omega]
        unfold augmentLoop
        rw [if_neg (by omega)]
      · rw [ha.arcRel]
        rcases h.head with ⟨-, h⟩ | ⟨R₁, -, h⟩
        · exact h
        · exact absurd h.le (by omega)

theorem Rounds.one {O : SGraph → (ℕ → ℕ → Prop) → Prop} {d : ℕ} {R R' : ℕ → ℕ → ℕ → Prop} (h : Rounds O d R (d + 1) R') :
    Rounded O R (d + 1) R' := by
  generalize he : d + 1 = e at h
  cases h with
  | refl => omega
  | @step e _ _ h hs =>
    obtain rfl : d = e := by omega
    cases h with
    | refl => exact hs
    | step h _ => exact absurd h.le (by omega)

/-- **C105, one round.** `augment(depth + 1, fratDepth)` performs exactly one round. -/
theorem C105_round {S : SGraph} {g : DTFGraph} (hl : S.Loopless) (hg : Of S g) {ω : ℕ → RoundOrder DeepOrder}
    (hω : ∀ i, (ω i).Good DeepOrder.Good) (fratDepth : ℕ) :
    Ok (g.augment ω (g.depth + 1) fratDepth) (fun g' => g'.depth = g.depth + 1 ∧
      Rounded (DeepOriented fratDepth) g.arcRel (g.depth + 1) g'.arcRel) := by
  obtain ⟨g', hg', hd, hr⟩ := C105_augment hl hg hω (g.depth + 1) fratDepth
  have hd' : g'.depth = g.depth + 1 := by omega
  rw [hd'] at hr
  exact ⟨g', hg', hd', hr.one⟩

/-- `C105_round` for the five-cycle after `augment(2, 1)`. -/
example := C105_round c5_loopless c5_case.choose_spec.2.1 (ω := fun _ => idRound (deepWith Shuffle.rev)) (fun _ => idRound_good (deepWith_good _)) 1

theorem Layered.adj {S : SGraph} {B : ℕ → ℕ → Prop} (h : S.Layered B) {u v : ℕ} (hb : B u v) : S.Adj u v := by
  obtain ⟨ord, -, h⟩ := h
  exact ((h u v).1 hb).1

theorem DeepOriented.adj {S : SGraph} {B : ℕ → ℕ → Prop} {k : ℕ} (h : S.DeepOriented k B) {u v : ℕ} (hb : B u v) :
    S.Adj u v := by
  rcases h with ⟨-, h⟩ | ⟨-, _, _, _, _, -, -, -, -, -, h⟩
  · exact Layered.adj h hb
  · exact ((h u v).1 hb).2

/-- **C105, kept and lost pairs.** In a round, every bridged pair receives an arc; another new arc joins a meeting pair and goes
from the smaller to the larger vertex.  In particular a pair that is met but not bridged never receives an arc from the
larger to the smaller vertex. -/
theorem C105_ascending {S : SGraph} {g : DTFGraph} (hl : S.Loopless) (hg : Of S g) {ω : ℕ → RoundOrder DeepOrder}
    (hω : ∀ i, (ω i).Good DeepOrder.Good) (fratDepth : ℕ) :
    Ok (g.augment ω (g.depth + 1) fratDepth) (fun g' =>
      (∀ u v, Bridged g.arcRel (g.depth + 1) u v → g'.arcRel (g.depth + 1) u v) ∧
      (∀ w u v, g'.arcRel w u v → ¬ g.arcRel w u v → w = g.depth + 1 ∧ (Bridged g.arcRel (g.depth + 1) u v ∨
        (u < v ∧ Meeting g.arcRel (g.depth + 1) u v ∧ ¬ Bridged g.arcRel (g.depth + 1) v u))) ∧
      ((∀ x y, ¬ Meeting g.arcRel (g.depth + 1) x y) → ∀ w u v,
        g'.arcRel w u v ↔ g.arcRel w u v ∨ (w = g.depth + 1 ∧ Bridged g.arcRel (g.depth + 1) u v))) := by
  obtain ⟨g', hg', -, F, B, -, hF, hB, hR⟩ := C105_round hl hg hω fratDepth
  refine ⟨g', hg', fun u v h => (hR _ _ _).2 (Or.inr ⟨rfl, Or.inl h⟩), fun w u v h hn => ?_, fun hm w u v => ?_⟩
  · rcases (hR w u v).1 h with h | ⟨rfl, h | ⟨h, hb⟩⟩
    · exact absurd h hn
    · exact ⟨rfl, Or.inl h⟩
    · obtain ⟨h1, h2, h3⟩ := (hF u v).1 (DeepOriented.adj hB hb).symm
      exact ⟨rfl, Or.inr ⟨h, h1, h3⟩⟩
  · rw [hR]
    refine or_congr_right (and_congr_right fun _ => ⟨?_, Or.inl⟩)
    rintro (h | ⟨-, hb⟩)
    · exact h
    · exact absurd ((hF _ _).1 (DeepOriented.adj hB hb)).1 (hm _ _)

/-- C105 applies to the five-cycle after `orient`; its round adds arcs of weight two, some for meeting pairs. -/
example : ∃ g, Of c5G g ∧ c5G.Loopless ∧ g.depth = 1 ∧ (∀ i : ℕ, ((fun _ => idRound (deepWith Shuffle.rev)) i).Good DeepOrder.Good) := by
  obtain ⟨g, hg, ha⟩ := orientE_ok Shuffle.id c5 c5_loopless
  refine ⟨g, ha.of, c5_loopless, ?_, fun _ => idRound_good (deepWith_good _)⟩
  have : ((orientE Shuffle.id c5).map fun g => g.depth) = .ok 1 := by decide +kernel
  rw [hg] at this
  exact Except.ok.inj this

/-- The five-cycle after `orient` has two outcomes of `augment`: the pair 1, 4 may or may not receive an arc. -/
example : ∃ g R R', Of c5G g ∧ c5G.Loopless ∧ c5G.V.card ≤ 2 ^ 31 ∧ max 2 g.depth = 2 ∧
    Rounds (fun F => F.DeepBy SGraph.PeelOriented 1) g.depth g.arcRel 2 R ∧
    Rounds (fun F => F.DeepBy SGraph.PeelOriented 1) g.depth g.arcRel 2 R' ∧ R 2 1 4 ∧ ¬ R' 2 1 4 := by
  obtain ⟨g, hg, ha⟩ := orientE_ok Shuffle.id c5 c5_loopless
  have hd : g.depth = 1 := by
    have : ((orientE Shuffle.id c5).map fun g => g.depth) = .ok 1 := by decide +kernel
    rw [hg] at this
    exact Except.ok.inj this
  have hc : c5G.V.card ≤ 2 ^ 31 := le_trans (show c5G.V.card ≤ 5 by decide) (by decide)
  have hm : max 2 g.depth = 2 := by omega
  have key : ∀ σ : Shuffle ℕ, ∃ g', augE σ c5 2 1 = .ok g' ∧
      Rounds (fun F => F.DeepBy SGraph.PeelOriented 1) g.depth g.arcRel 2 g'.arcRel := by
    intro σ
    obtain ⟨g', hg', -⟩ := augE_ok σ c5 c5_loopless 2 1
    refine ⟨g', hg', ?_⟩
    unfold augE at hg'
    rw [hg] at hg'
    have := (C105_augment_outcomes c5_loopless ha.of hc 2 1 g'.arcRel).1 ⟨_, g', fun _ => idRound_good (deepWith_good σ), hg', rfl⟩
    rwa [hm] at this
  obtain ⟨g1, h1, h2⟩ := key Shuffle.id
  obtain ⟨g2, h3, h4⟩ := key Shuffle.rev
  refine ⟨g, g1.arcRel, g2.arcRel, ha.of, c5_loopless, hc, hm, h2, h4, ⟨by decide, ?_⟩, fun h => ?_⟩
  · have : ((augE Shuffle.id c5 2 1).map fun g => decide (g.hasArcAt 1 4 2 = .ok true)) = .ok true := by decide +kernel
    rw [h1] at this
    have := Except.ok.inj this
    exact of_decide_eq_true (p := g1.hasArcAt 1 4 2 = .ok true) this
  · have : ((augE Shuffle.rev c5 2 1).map fun g => decide (g.hasArcAt 1 4 2 = .ok true)) = .ok false := by decide +kernel
    rw [h3] at this
    have := Except.ok.inj this
    exact of_decide_eq_false (p := g2.hasArcAt 1 4 2 = .ok true) this h.2

/-! ## C106 -/

/-- **C106**, full statement: a round adds at most `k` arcs into a vertex for meeting pairs that are not bridged, if these pairs
form a graph of degeneracy `k`. -/
def C106_statement : Prop := ∀ (S : SGraph) (g : DTFGraph), S.Loopless → Of S g → ∀ (ω : ℕ → RoundOrder DeepOrder),
  (∀ i, (ω i).Good DeepOrder.Good) → ∀ g', g.augment ω (g.depth + 1) 1 = .ok g' → ∀ (F : SGraph) (k : ℕ),
  (∀ a b, F.Adj a b ↔ Meeting g.arcRel (g.depth + 1) a b ∧ ¬ Bridged g.arcRel (g.depth + 1) a b ∧
    ¬ Bridged g.arcRel (g.depth + 1) b a) → F.IsDegeneracy k →
  ∀ v (U : Finset ℕ), (∀ u ∈ U, g'.arcRel (g.depth + 1) u v ∧ F.Adj u v) → U.card ≤ k

/-- **C106, what holds:** the bound holds for the arcs leaving a vertex instead (degeneracy at most 129). -/
theorem C106_out_arcs_partial {S : SGraph} {g : DTFGraph} (hl : S.Loopless) (hg : Of S g) {ω : ℕ → RoundOrder DeepOrder}
    (hω : ∀ i, (ω i).Good DeepOrder.Good) {F : SGraph} {k : ℕ}
    (hF : ∀ a b, F.Adj a b ↔ Meeting g.arcRel (g.depth + 1) a b ∧ ¬ Bridged g.arcRel (g.depth + 1) a b ∧
      ¬ Bridged g.arcRel (g.depth + 1) b a) (hk : F.IsDegeneracy k) (h129 : k ≤ 129) :
    Ok (g.augment ω (g.depth + 1) 1) (fun g' => ∀ u (U : Finset ℕ), (∀ v ∈ U, g'.arcRel (g.depth + 1) u v ∧ F.Adj u v) →
      U.card ≤ k ∧ ∀ v ∈ U, u < v) := by
  obtain ⟨g', hg', -, F', B, hV, hF', hB, hR⟩ := C105_round hl hg hω 1
  refine ⟨g', hg', fun u U hU => ?_⟩
  obtain ⟨-, ord, ⟨hn, hm, hsl⟩, ho⟩ | ⟨h, -⟩ := hB
  swap
  · omega
  have hadj : ∀ a b, F'.Adj a b ↔ F.Adj a b := fun a b => by rw [hF', hF]
  have key : ∀ v ∈ U, u < v ∧ F'.Adj v u ∧ ord.idxOf v < ord.idxOf u := by
    intro v hv
    obtain ⟨h1, h2⟩ := hU v hv
    obtain ⟨hmt, hb, -⟩ := (hF u v).1 h2
    rcases (hR _ _ _).1 h1 with h | ⟨-, h | ⟨h, hB⟩⟩
    · exact absurd h (hmt.2.1 _).1
    · exact absurd h hb
    · exact ⟨h, ((ho v u).1 hB).1, ((ho v u).1 hB).2⟩
  refine ⟨?_, fun v hv => (key v hv).1⟩
  rcases U.eq_empty_or_nonempty with rfl | ⟨v0, hv0⟩
  · simp
  have hu : u ∈ ord := (hm u).2 (key v0 hv0).2.1.right
  obtain ⟨pre, post, hsp⟩ := List.append_of_mem hu
  have hup : u ∉ pre := by
    rw [hsp, List.nodup_append] at hn
    exact fun h => hn.2.2 u h u (by simp) rfl
  have hsub : U ⊆ (insert u pre.toFinset).filter (fun v => F'.Adj u v) := by
    intro v hv
    obtain ⟨-, h2, h3⟩ := key v hv
    rw [Finset.mem_filter, Finset.mem_insert, List.mem_toFinset]
    refine ⟨Or.inr ?_, h2.symm⟩
    rw [hsp] at h3 hn
    exact (idxOf_lt_iff_of_split hn).1 h3
  refine (Finset.card_le_card hsub).trans ?_
  obtain ⟨w, hw, hwk⟩ := hk.1 ((insert u pre.toFinset).filter fun x => x ∈ F.V) (fun x hx => (Finset.mem_filter.1 hx).2)
    ⟨u, Finset.mem_filter.2 ⟨Finset.mem_insert_self _ _, ((hadj _ _).1 (key v0 hv0).2.1).right⟩⟩
  have hdeg : F'.degIn (insert u pre.toFinset) w ≤ k := by
    refine le_trans (Finset.card_le_card fun x hx => ?_) hwk
    rw [Finset.mem_filter] at hx ⊢
    have hx' := (hadj _ _).1 hx.2
    exact ⟨Finset.mem_filter.2 ⟨hx.1, hx'.right⟩, hx'⟩
  have hw' := (Finset.mem_filter.1 hw).1
  rw [Finset.mem_insert, List.mem_toFinset] at hw'
  rcases hw' with rfl | hw'
  · exact hdeg
  · exact (hsl pre u post hsp w hw' (Or.inr (by omega))).trans hdeg

/-- Two cliques on `0 - 3` and `7 - 10`; the vertices 4, 5 and 6 join 0, 1 and 2 to 7. -/
abbrev twoK4 : List (ℕ × ℕ) := [(0, 1), (0, 2), (0, 3), (1, 2), (1, 3), (2, 3), (7, 8), (7, 9), (7, 10), (8, 9), (8, 10), (9, 10),
  (4, 0), (5, 1), (6, 2), (4, 7), (5, 7), (6, 7)]

abbrev twoK4G : SGraph := SGraph.empty.addEdges twoK4
theorem twoK4_loopless : twoK4G.Loopless := loopless_addEdges _ (by decide +kernel)

/-- The arcs of `orient` on this graph. -/
def twoK4Arcs : List (ℕ × ℕ) := [(1, 0), (3, 0), (3, 1), (0, 2), (1, 2), (3, 2), (0, 4), (7, 4), (1, 5), (7, 5), (2, 6), (7, 6),
  (8, 7), (9, 7), (10, 7), (9, 8), (10, 8), (10, 9)]

theorem twoK4_arcs {g : DTFGraph} (hg : orientE Shuffle.id twoK4 = .ok g) :
    g.depth = 1 ∧ g.arcRel = fun w u v => w = 1 ∧ (u, v) ∈ twoK4Arcs := by
  have ha := orientE_aug _ hg
  have hd : g.depth = 1 := by
    have : ((orientE Shuffle.id twoK4).map fun g => g.depth) = .ok 1 := by decide +kernel
    rw [hg] at this
    exact Except.ok.inj this
  refine ⟨hd, ?_⟩
  have htab : ((orientE Shuffle.id twoK4).map fun g => (List.range 11).all fun u => (List.range 11).all fun v =>
      decide (g.hasArcAt u v 1 = .ok true ↔ (u, v) ∈ twoK4Arcs)) = .ok true := by decide +kernel
  rw [hg] at htab
  have htab := Except.ok.inj htab
  simp only [List.all_eq_true, List.mem_range, decide_eq_true_eq] at htab
  have hV : ∀ u ∈ twoK4G.V, u < 11 := by decide +kernel
  have hL : ∀ e ∈ twoK4Arcs, e.1 < 11 ∧ e.2 < 11 := by decide
  funext w u v
  refine propext ⟨fun h => ?_, ?_⟩
  · have h1 : w = 1 := by
      have := (C75_transitive twoK4_loopless ha).1 u v w h.1 h.2
      have := h.1
      omega
    subst h1
    obtain ⟨A, hA, hs, -⟩ := ha.of.abs twoK4_loopless
    have hw := hA.wf _ ((hA.arc_iff h.1 u v).1 h.2)
    exact ⟨rfl, (htab u (hV u hw.1) v (hV v hw.2.1)).1 h.2⟩
  · rintro ⟨rfl, h⟩
    exact ⟨le_refl 1, (htab u (hL _ h).1 v (hL _ h).2).2 h⟩

/-- The graph of the meeting pairs. -/
abbrev star7 : SGraph := SGraph.empty.addEdges [(7, 0), (7, 1), (7, 2)]

theorem star7_degeneracy : star7.IsDegeneracy 1 := by
  have h : ∀ W ∈ star7.V.powerset, W.Nonempty → ∃ w ∈ W, star7.degIn W w ≤ 1 := by decide +kernel
  refine ⟨fun W hW => h W (Finset.mem_powerset.2 hW), fun k' hk' => ?_⟩
  obtain ⟨w, hw, hle⟩ := hk' {0, 7} (by decide) (by decide)
  have h2 : ∀ w ∈ ({0, 7} : Finset ℕ), 1 ≤ star7.degIn {0, 7} w := by decide +kernel
  exact (h2 w hw).trans hle

theorem twoK4_pairs (a b : ℕ) : star7.Adj a b ↔ Meeting (fun w u v => w = 1 ∧ (u, v) ∈ twoK4Arcs) 2 a b ∧
    ¬ Bridged (fun w u v => w = 1 ∧ (u, v) ∈ twoK4Arcs) 2 a b ∧ ¬ Bridged (fun w u v => w = 1 ∧ (u, v) ∈ twoK4Arcs) 2 b a := by
  have hM : ∀ a b, Meeting (fun w u v => w = 1 ∧ (u, v) ∈ twoK4Arcs) 2 a b ↔
      a ≠ b ∧ (a, b) ∉ twoK4Arcs ∧ (b, a) ∉ twoK4Arcs ∧ ∃ e ∈ twoK4Arcs, e.1 = a ∧ (b, e.2) ∈ twoK4Arcs := by
    intro a b
    constructor
    · rintro ⟨h1, h2, u, ⟨⟨-, h3⟩, -, h4⟩ | ⟨⟨-, h3⟩, -, h4⟩⟩
      · exact ⟨h1, fun h => (h2 1).1 ⟨rfl, h⟩, fun h => (h2 1).2 ⟨rfl, h⟩, _, h3, rfl, h4⟩
      · exact ⟨h1, fun h => (h2 1).1 ⟨rfl, h⟩, fun h => (h2 1).2 ⟨rfl, h⟩, _, h3, rfl, h4⟩
    · rintro ⟨h1, h2, h3, ⟨c, u⟩, h4, rfl, h5⟩
      exact ⟨h1, fun w => ⟨fun h => h2 h.2, fun h => h3 h.2⟩, u, Or.inl ⟨⟨rfl, h4⟩, rfl, h5⟩⟩
  have hB : ∀ a b, Bridged (fun w u v => w = 1 ∧ (u, v) ∈ twoK4Arcs) 2 a b ↔
      a ≠ b ∧ (a, b) ∉ twoK4Arcs ∧ ∃ e ∈ twoK4Arcs, e.1 = a ∧ (e.2, b) ∈ twoK4Arcs := by
    intro a b
    constructor
    · rintro ⟨h1, h2, y, w, w', -, ⟨-, h3⟩, -, h4⟩
      exact ⟨h1, fun h => h2 1 ⟨rfl, h⟩, _, h3, rfl, h4⟩
    · rintro ⟨h1, h2, ⟨c, u⟩, h4, rfl, h5⟩
      exact ⟨h1, fun w h => h2 h.2, u, 1, 1, rfl, ⟨rfl, h4⟩, rfl, h5⟩
  rw [hM, hB, hB]
  have hL : ∀ e ∈ twoK4Arcs, e.1 < 11 ∧ e.2 < 11 := by decide
  have hV : ∀ u ∈ star7.V, u < 11 := by decide
  set_option synthInstance.maxSize 1000 in
  have hfin : ∀ a < 11, ∀ b < 11, star7.Adj a b ↔ (a ≠ b ∧ (a, b) ∉ twoK4Arcs ∧ (b, a) ∉ twoK4Arcs ∧
      ∃ e ∈ twoK4Arcs, e.1 = a ∧ (b, e.2) ∈ twoK4Arcs) ∧
      ¬ (a ≠ b ∧ (a, b) ∉ twoK4Arcs ∧ ∃ e ∈ twoK4Arcs, e.1 = a ∧ (e.2, b) ∈ twoK4Arcs) ∧
      ¬ (b ≠ a ∧ (b, a) ∉ twoK4Arcs ∧ ∃ e ∈ twoK4Arcs, e.1 = b ∧ (e.2, a) ∈ twoK4Arcs) := by decide +kernel
  constructor
  · intro h
    exact (hfin a (hV _ h.left) b (hV _ h.right)).1 h
  · rintro h
    obtain ⟨⟨-, -, -, e, he, rfl, he'⟩, -⟩ := id h
    exact (hfin _ (hL _ he).1 b (hL _ he').1).2 h

/-- **C106** is false of the code: on the graph above the pairs 7-0, 7-1 and 7-2 are met, which form a star of degeneracy 1, and
the round adds the arcs from 0, 1 and 2 to 7. -/
theorem C106_refuted : ¬ C106_statement := by
  intro h
  obtain ⟨g, hg, ha⟩ := orientE_ok Shuffle.id twoK4 twoK4_loopless
  obtain ⟨hd, hr⟩ := twoK4_arcs hg
  obtain ⟨g', hg', -⟩ := augE_ok Shuffle.rev twoK4 twoK4_loopless 2 1
  have hg'' : g.augment (fun _ => idRound (deepWith Shuffle.rev)) (g.depth + 1) 1 = .ok g' := by
    rw [hd]
    unfold augE at hg'
    rw [hg] at hg'
    exact hg'
  have hp : ∀ a b, star7.Adj a b ↔ Meeting g.arcRel (g.depth + 1) a b ∧ ¬ Bridged g.arcRel (g.depth + 1) a b ∧
      ¬ Bridged g.arcRel (g.depth + 1) b a := by
    rw [hd, hr]
    exact twoK4_pairs
  have := h _ g twoK4_loopless ha.of _ (fun _ => idRound_good (deepWith_good _)) g' hg'' star7 1 hp star7_degeneracy 7 {0, 1, 2} ?_
  · exact absurd this (by decide)
  · have htab : ((augE Shuffle.rev twoK4 2 1).map fun g => decide (∀ u ∈ ({0, 1, 2} : Finset ℕ),
        g.hasArcAt u 7 2 = .ok true)) = .ok true := by decide +kernel
    rw [hg'] at htab
    have htab := of_decide_eq_true (Except.ok.inj htab)
    intro u hu
    rw [hd]
    refine ⟨⟨by decide, htab u hu⟩, ?_⟩
    have : ∀ u ∈ ({0, 1, 2} : Finset ℕ), star7.Adj u 7 := by decide
    exact this u hu

/-- The hypotheses of `C106_out_arcs_partial` on the same graph. -/
example : ∃ g, Of twoK4G g ∧ twoK4G.Loopless ∧ star7.IsDegeneracy 1 ∧ star7.Adj 7 0 ∧
    ∀ a b, star7.Adj a b ↔ Meeting g.arcRel (g.depth + 1) a b ∧ ¬ Bridged g.arcRel (g.depth + 1) a b ∧
      ¬ Bridged g.arcRel (g.depth + 1) b a := by
  obtain ⟨g, hg, ha⟩ := orientE_ok Shuffle.id twoK4 twoK4_loopless
  obtain ⟨hd, hr⟩ := twoK4_arcs hg
  exact ⟨g, ha.of, twoK4_loopless, star7_degeneracy, by decide, by rw [hd, hr]; exact twoK4_pairs⟩

/-! ## C67, exactly -/

/-- **C67** (partial, exact in terms of the arcs).  `small_distance(u, v)` is the smallest of the weights of the arcs between `u`
and `v` and the sums of the weights of two arcs from a common vertex to `u` and to `v`, if this is at most the depth, and `None`
otherwise; also for `u = v`. -/
theorem C67_exact_partial {S : SGraph} {g : DTFGraph} (hl : S.Loopless) (hg : Aug S g) (hd : g.depth < 2 ^ 31)
    {u v : ℕ} (hu : u ∈ S.V) (hv : v ∈ S.V) :
    Ok (g.smallDistance u v) (fun o => ∀ k, o = some k ↔ k ≤ g.depth ∧
      IsMin (fun k => g.arcRel k u v ∨ g.arcRel k v u ∨ ∃ x a b, g.arcRel a x u ∧ g.arcRel b x v ∧ a + b = k) k) := by
  obtain ⟨A, ha, hi⟩ := hg.abs hl
  refine (smallDistance_ok ha hu hv hd hi.bounded fun u x w w' => hi.sound.uniq x u w w').mono ?_
  rintro o ⟨h1, h2⟩ k
  rw [ha.arcRel]
  constructor
  · intro h
    obtain ⟨k1, k2, k3⟩ := h1 k h
    refine ⟨k1, k2, fun m hm hc => ?_⟩
    have := k3 m hc
    omega
  · rintro ⟨hk, hc, hmin⟩
    cases o with
    | none => exact absurd (h2 rfl k hc) (by omega)
    | some j =>
      obtain ⟨k1, k2, k3⟩ := h1 j rfl
      have := k3 k hc
      have : ¬ j < k := fun h => hmin j h k2
      congr 1
      omega

/-- On the five-cycle, where arcs are lost. -/
example : ∃ g, Aug c5G g ∧ g.depth = 2 ∧ 1 ∈ c5G.V ∧ 4 ∈ c5G.V ∧ g.smallDistance 1 4 = .ok none ∧ g.smallDistance 0 0 = .ok (some 2) := by
  obtain ⟨g, hg, ha⟩ := augE_ok Shuffle.rev c5 c5_loopless 2 1
  have h : ((augE Shuffle.rev c5 2 1).map fun g => (g.depth, g.smallDistance 1 4, g.smallDistance 0 0)) =
      .ok (2, .ok none, .ok (some 2)) := by decide +kernel
  rw [hg] at h
  have h := Except.ok.inj h
  exact ⟨g, ha, congrArg Prod.fst h, by decide, by decide, congrArg (fun p => p.2.1) h, congrArg (fun p => p.2.2) h⟩

end Verif
