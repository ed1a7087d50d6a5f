import Verif.Lemmas.DTFDist
import Verif.Lemmas.DTFDomset
/-!
# Lemmas: states of a `DTFGraph` reached through its interface
-/
namespace Verif.DTFGraph
variable {g h : DTFGraph} {V : Finset ℕ} {A : Arcs} {S : SGraph}

/-- Graphs obtained from a loopless graph `S` by `orient`, `augment`, `domset` and `layer`; hash tables may be rearranged at
any time. -/
inductive Of (S : SGraph) : DTFGraph → Prop
  | orient {G : Graph} {σ : ℕ → Shuffle ℕ} {D : DTFGraph} (hG : G.Rep S) (h : orient σ G = .ok D) : Of S D
  | relayout {g h : DTFGraph} (hg : Of S g) (hr : Relayout g h) : Of S h
  | augment {g h : DTFGraph} {ω : ℕ → RoundOrder DeepOrder} {depth fratDepth : ℕ} (hg : Of S g)
      (hω : ∀ i, (ω i).Good DeepOrder.Good) (h' : g.augment ω depth fratDepth = .ok h) : Of S h
  | domset {g : DTFGraph} {ω : ℕ → RoundOrder DeepOrder} {lay : DTFGraph → DTFGraph} {radius : ℕ} {p : DTFGraph × HSet ℕ}
      (hg : Of S g) (hω : ∀ i, (ω i).Good DeepOrder.Good) (hlay : ∀ g, Relayout g (lay g))
      (h' : g.domset ω lay radius = .ok p) : Of S p.1
  | layer {g : DTFGraph} {d : ℕ} (hg : Of S g) (h1 : 1 ≤ d) (hd : d ≤ g.depth + 1) : Of S (g.layer d)

theorem Base.augment {A' : Arcs} {d : ℕ} (h : Base S A) (hd : 1 ≤ d) (hsub : A ⊆ A')
    (hnew : ∀ e ∈ A', e ∉ A → d < e.2.2) : Base S A' := by
  have key : ∀ u v, (u, v, 1) ∈ A' ↔ (u, v, 1) ∈ A := by
    intro u v
    refine ⟨fun h => ?_, fun h => hsub h⟩
    by_contra hn
    have := hnew _ h hn
    simp only at this
    omega
  obtain ⟨h1, ord, h2, h3⟩ := h
  exact ⟨fun u v huv => by rw [key, key]; exact h1 u v huv, ord, h2, fun u v huv => h3 u v ((key u v).1 huv)⟩

theorem augment_of_domset {ω : ℕ → RoundOrder DeepOrder} {lay : DTFGraph → DTFGraph} {radius : ℕ} {p : DTFGraph × HSet ℕ}
    (h : g.domset ω lay radius = .ok p) : ∃ g', g.augment ω radius 2 = .ok g' ∧ p.1 = lay g' := by
  unfold DTFGraph.domset at h
  cases hg : g.augment ω radius 2 with
  | error e => rw [hg] at h; cases h
  | ok g' =>
    refine ⟨g', rfl, ?_⟩
    rw [hg, bind_ok] at h
    cases h1 : mul32 2 radius with
    | error e => rw [h1] at h; cases h
    | ok c =>
      rw [h1, bind_ok] at h
      cases h2 : mul32 c c with
      | error e => rw [h2] at h; cases h
      | ok cc =>
        rw [h2, bind_ok] at h
        cases h3 : (lay g').domOrder with
        | error e => rw [h3] at h; cases h
        | ok o =>
          rw [h3, bind_ok] at h
          cases h4 : add32 radius 1 with
          | error e => rw [h4] at h; cases h
          | ok u =>
            rw [h4, bind_ok] at h
            simp only at h
            cases h5 : (o.foldlM ((lay g').domRound radius cc) ⟨∅, o.foldl (fun (m : HMap ℕ ℕ) v => m.insert v u) ∅,
                o.foldl (fun (m : HMap ℕ ℕ) v => m.insert v 0) ∅⟩ : Res DState) with
            | error e => rw [h5] at h; cases h
            | ok st => rw [h5, bind_ok] at h; cases h; rfl

theorem Of.abs (hl : S.Loopless) (h : Of S g) : ∃ A, Abs g S.V A ∧ Sound S A ∧ Base S A := by
  have aug : ∀ {g g' : DTFGraph} {A : Arcs} {ω : ℕ → RoundOrder DeepOrder} {depth fd : ℕ}, Abs g S.V A → Sound S A → Base S A →
      (∀ i, (ω i).Good DeepOrder.Good) → g.augment ω depth fd = .ok g' → ∃ A', Abs g' S.V A' ∧ Sound S A' ∧ Base S A' := by
    intro g g' A ω depth fd ha hs hb hω h'
    obtain ⟨g'', hg', A', h1, h2, h3, h4, h5, h6⟩ := augment_ok ha hs hω depth fd
    rw [hg'] at h'
    cases h'
    exact ⟨A', h1, h5, hb.augment ha.pos h3 fun e he hn => (h4 e he hn).1⟩
  induction h with
  | @orient G σ D hG h =>
    obtain ⟨lo, up, ord, core, D', A, -, hD, hn, hm, ha, hd, ho⟩ := orient_ok hG hl σ
    rw [hD] at h
    cases h
    have := AugInv.orient hl hn hm ho
    exact ⟨A, ha, this.sound, this.base⟩
  | @relayout g h hg hr ih =>
    obtain ⟨A, ha, hi⟩ := ih
    exact ⟨A, ha.relayout hr, hi⟩
  | @augment g h ω depth fd hg hω h' ih =>
    obtain ⟨A, ha, hs, hb⟩ := ih
    exact aug ha hs hb hω h'
  | @domset g ω lay radius p hg hω hlay h' ih =>
    obtain ⟨A, ha, hs, hb⟩ := ih
    obtain ⟨g', hg', hp⟩ := augment_of_domset h'
    obtain ⟨A', h1, h2, h3⟩ := aug ha hs hb hω hg'
    rw [hp]
    exact ⟨A', h1.relayout (hlay g'), h2, h3⟩
  | @layer g d hg h1 hd ih =>
    obtain ⟨A, ha, hi⟩ := ih
    exact ⟨A, ha.reserveDepth h1 (by have := ha.len; omega), hi⟩

/-- Graphs obtained from those of `Of` by `add_vertex`, `add_arc` and `layer`, with depths at most one larger than the current
one. -/
inductive Built : DTFGraph → Prop
  | of {S : SGraph} {g : DTFGraph} (hl : S.Loopless) (hg : Of S g) : Built g
  | relayout {g h : DTFGraph} (hg : Built g) (hr : Relayout g h) : Built h
  | addVertex {g : DTFGraph} (u : ℕ) (hg : Built g) : Built (g.addVertex u)
  | addArc {g h : DTFGraph} {u v d : ℕ} (hg : Built g) (h1 : 1 ≤ d) (hd : d ≤ g.depth + 1) (h' : g.addArc u v d = .ok h) :
      Built h
  | layer {g : DTFGraph} {d : ℕ} (hg : Built g) (h1 : 1 ≤ d) (hd : d ≤ g.depth + 1) : Built (g.layer d)

theorem Built.abs (h : Built g) : ∃ V A, Abs g V A := by
  induction h with
  | of hl hg => obtain ⟨A, ha, -⟩ := hg.abs hl; exact ⟨_, A, ha⟩
  | relayout hg hr ih => obtain ⟨V, A, ha⟩ := ih; exact ⟨V, A, ha.relayout hr⟩
  | addVertex u hg ih => obtain ⟨V, A, ha⟩ := ih; exact ⟨_, A, ha.addVertex u⟩
  | @addArc g h u v d hg h1 hd h' ih =>
    obtain ⟨V, A, ha⟩ := ih
    obtain ⟨g', hg', hb, -⟩ := ha.addArc h1 (by have := ha.len; omega) u v
    rw [hg'] at h'
    cases h'
    exact ⟨_, _, hb⟩
  | @layer g d hg h1 hd ih =>
    obtain ⟨V, A, ha⟩ := ih
    exact ⟨V, A, ha.reserveDepth h1 (by have := ha.len; omega)⟩

theorem hasArcAt_iff (H : Abs g V A) (u v : ℕ) {w : ℕ} (hw : 1 ≤ w) : g.hasArcAt u v w = .ok true ↔ (u, v, w) ∈ A := by
  rw [H.hasArcAt u v hw]
  simp

theorem Base.card (hs : Sound S A) (hb : Base S A) : (A.filter (fun e => e.2.2 = 1)).card = S.E.card := by
  obtain ⟨h1, ord, -, h3⟩ := hb
  refine Finset.card_bij (fun e _ => s(e.1, e.2.1)) ?_ ?_ ?_
  · rintro ⟨a, b, c⟩ he
    obtain ⟨he, rfl⟩ := Finset.mem_filter.1 he
    exact Walk.one_iff.1 (hs.walk _ _ _ he)
  · rintro ⟨a, b, c⟩ he ⟨a', b', c'⟩ he' heq
    obtain ⟨he, hc⟩ := Finset.mem_filter.1 he
    obtain ⟨he', hc'⟩ := Finset.mem_filter.1 he'
    simp only at hc hc' heq
    subst hc hc'
    rcases Sym2.eq_iff.1 heq with ⟨rfl, rfl⟩ | ⟨rfl, rfl⟩
    · rfl
    · have k1 := h3 _ _ he
      have k2 := h3 _ _ he'
      omega
  · intro e he
    induction e using Sym2.ind with
    | _ u v =>
      rcases h1 u v he with ⟨h, -⟩ | ⟨h, -⟩
      · exact ⟨(u, v, 1), Finset.mem_filter.2 ⟨h, rfl⟩, rfl⟩
      · exact ⟨(v, u, 1), Finset.mem_filter.2 ⟨h, rfl⟩, Sym2.eq_swap⟩

theorem Base.acyclic (hb : Base S A) (u : ℕ) : ¬ Relation.TransGen (fun a b => (a, b, 1) ∈ A) u u := by
  obtain ⟨-, ord, -, h3⟩ := hb
  have key : ∀ v, Relation.TransGen (fun a b => (a, b, 1) ∈ A) u v → ord.idxOf u < ord.idxOf v := by
    intro v h
    induction h with
    | single h => exact h3 _ _ h
    | tail _ h ih => exact lt_trans ih (h3 _ _ h)
  intro h
  have := key u h
  omega

theorem Aug.of (h : Aug S g) : Of S g := by
  induction h with
  | orient hG h => exact .orient hG h
  | relayout hg hr ih => exact .relayout ih hr
  | augment hg hω h' ih => exact .augment ih hω h'

end Verif.DTFGraph
