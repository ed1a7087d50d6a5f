import Verif.Lemmas.DTFReach
import Verif.Props.LinearAlg2
import Verif.Props.Algorithms
/-!
# C65 – C71, C73 – C76: distance-truncated fraternal augmentations

`DTFGraph.Of S g` says that `g` was obtained from the loopless graph `S` by `orient`, `augment`, `domset` and `layer`,
`DTFGraph.Aug S g` by `orient` and `augment` only, `DTFGraph.Built g` that direct calls of `add_vertex` and `add_arc` may
also have been used.  All statements are about the answers of the public queries.
-/
namespace Verif
open SGraph DTFGraph

/-- `has_arc_at(u, v, w)` returns true. -/
def DTFGraph.Arc (g : DTFGraph) (w u v : ℕ) : Prop := g.hasArcAt u v w = .ok true

theorem DTFGraph.Abs.arc_iff {g : DTFGraph} {V : Finset ℕ} {A : Arcs} (H : Abs g V A) {w : ℕ} (hw : 1 ≤ w) (u v : ℕ) :
    g.Arc w u v ↔ (u, v, w) ∈ A := hasArcAt_iff H u v hw

/-! ## Concrete graphs for the examples and counterexamples -/

/-- `orient` of the graph with the given edges. -/
def orientE (σ : Shuffle ℕ) (es : List (ℕ × ℕ)) : Res DTFGraph := (built es).bind fun G => orient (fun _ => σ) G.view

/-- Hash orders that rearrange nothing. -/
def idRound {F : Type} (x : F) : RoundOrder F := ⟨id, Shuffle.id, id, x, id⟩

/-- Orders for `orient_deep` with `first` used in the first call of `orient`. -/
def deepWith (σ : Shuffle ℕ) : DeepOrder :=
  ⟨fun _ => σ, fun _ => idRound (fun _ => Shuffle.id), id, id, fun _ => Shuffle.id, id⟩

/-- `orient`, then `augment(d, f)`. -/
def augE (σ : Shuffle ℕ) (es : List (ℕ × ℕ)) (d f : ℕ) : Res DTFGraph :=
  (orientE Shuffle.id es).bind fun g => g.augment (fun _ => idRound (deepWith σ)) d f

theorem DTFGraph.relayout_refl (g : DTFGraph) : DTFGraph.Relayout g g :=
  ⟨rfl, rfl, .refl _, fun _ nd h => ⟨nd, h, rfl, rfl, List.forall₂_same.2 fun _ _ => .refl _⟩⟩

theorem idRound_good {F : Type} {x : F} {Q : F → Prop} (h : Q x) : (idRound x).Good Q :=
  ⟨fun g => g.relayout_refl, fun f => Verif.relayout_refl f, h, fun g => g.relayout_refl⟩

theorem deepWith_good (σ : Shuffle ℕ) : (deepWith σ).Good :=
  ⟨fun _ => idRound_good trivial, fun g => g.relayout_refl, fun f => Verif.relayout_refl f, fun g => g.relayout_refl⟩

theorem orientE_aug (σ : Shuffle ℕ) {es : List (ℕ × ℕ)} {g : DTFGraph} (h : orientE σ es = .ok g) :
    Aug (SGraph.empty.addEdges es) g := by
  obtain ⟨⟨G, k⟩, hG, A, -⟩ := EditGraph.abs_new.addEdges es
  have hb : built es = .ok G := by unfold built; rw [hG]; rfl
  unfold orientE at h
  rw [hb] at h
  exact .orient A.rep h

theorem augE_aug (σ : Shuffle ℕ) {es : List (ℕ × ℕ)} {d f : ℕ} {g : DTFGraph} (h : augE σ es d f = .ok g) :
    Aug (SGraph.empty.addEdges es) g := by
  unfold augE at h
  cases ho : orientE Shuffle.id es with
  | error e => rw [ho] at h; cases h
  | ok g' =>
    rw [ho] at h
    exact .augment (orientE_aug _ ho) (fun _ => idRound_good (deepWith_good σ)) h

theorem orientE_ok (σ : Shuffle ℕ) (es : List (ℕ × ℕ)) (hl : (SGraph.empty.addEdges es).Loopless) :
    ∃ g, orientE σ es = .ok g ∧ Aug (SGraph.empty.addEdges es) g := by
  obtain ⟨⟨G, k⟩, hG, A, -⟩ := EditGraph.abs_new.addEdges es
  have hb : built es = .ok G := by unfold built; rw [hG]; rfl
  obtain ⟨lo, up, ord, core, D, B, -, hD, -⟩ := orient_ok A.rep hl (fun _ => σ)
  have : orientE σ es = .ok D := by unfold orientE; rw [hb]; exact hD
  exact ⟨D, this, orientE_aug σ this⟩

theorem augE_ok (σ : Shuffle ℕ) (es : List (ℕ × ℕ)) (hl : (SGraph.empty.addEdges es).Loopless) (d f : ℕ) :
    ∃ g, augE σ es d f = .ok g ∧ Aug (SGraph.empty.addEdges es) g := by
  obtain ⟨g, hg, ha⟩ := orientE_ok Shuffle.id es hl
  obtain ⟨A, hA, hi⟩ := ha.abs hl
  obtain ⟨g', hg', -⟩ := augment_ok hA hi.sound (fun _ => idRound_good (deepWith_good σ)) d f
  have : augE σ es d f = .ok g' := by unfold augE; rw [hg]; exact hg'
  exact ⟨g', this, augE_aug σ this⟩

theorem loopless_addEdges (es : List (ℕ × ℕ))
    (hl : ∀ u ∈ (SGraph.empty.addEdges es).V, ¬ (SGraph.empty.addEdges es).Adj u u) : (SGraph.empty.addEdges es).Loopless :=
  fun u h => hl u h.left h

/-- The cycle on five vertices. -/
abbrev c5 : List (ℕ × ℕ) := [(0, 1), (1, 2), (2, 3), (3, 4), (4, 0)]
abbrev c5G : SGraph := SGraph.empty.addEdges c5
theorem c5_loopless : c5G.Loopless := loopless_addEdges _ (by decide)

/-- A single edge. -/
abbrev k2 : List (ℕ × ℕ) := [(0, 1)]
abbrev k2G : SGraph := SGraph.empty.addEdges k2
theorem k2_loopless : k2G.Loopless := loopless_addEdges _ (by decide)

/-- The path on five vertices. -/
abbrev p5 : List (ℕ × ℕ) := [(0, 1), (1, 2), (2, 3), (3, 4)]
abbrev p5G : SGraph := SGraph.empty.addEdges p5
theorem p5_loopless : p5G.Loopless := loopless_addEdges _ (by decide)

/-! ## C65 -/

/-- **C65.** `orient` keeps the vertices, replaces every edge by exactly one of its two arcs, adds no other arc, and creates no
directed cycle. -/
theorem C65_orient {G : Graph} {S : SGraph} (hG : G.Rep S) (hl : S.Loopless) (σ : ℕ → Shuffle ℕ) :
    Ok (orient σ G) (fun D => (∀ u, D.contains u = true ↔ u ∈ S.V) ∧ D.numVertices = S.V.card ∧ D.numEdges = .ok S.E.card ∧
      D.depth = 1 ∧ (∀ u v, D.adjacent u v = true ↔ S.Adj u v) ∧ (∀ u v, D.hasArc u v = true → D.hasArc v u = false) ∧
      ∀ u, ¬ Relation.TransGen (fun a b => D.hasArc a b = true) u u) := by
  obtain ⟨lo, up, ord, core, D, A, -, hD, hn, hm, ha, hd, ho⟩ := orient_ok hG hl σ
  have hi := AugInv.orient hl hn hm ho
  refine ⟨D, hD, ha.contains_iff, ha.numVertices, ?_, hd, fun u v => ?_, fun u v h => ?_, fun u h => ?_⟩
  · rw [ha.numEdges, hi.base.card hi.sound]
  · rw [ha.adjacent_iff]
    constructor
    · rintro ⟨w, h | h⟩
      · exact ((ho _ _ _).1 h).2.1
      · exact ((ho _ _ _).1 h).2.1.symm
    · intro h
      rcases hi.base.1 u v h with h | h
      · exact ⟨1, Or.inl h.1⟩
      · exact ⟨1, Or.inr h.1⟩
  · rw [ha.hasArc_iff] at h
    obtain ⟨w, hw⟩ := h
    rw [Bool.eq_false_iff, ne_eq, ha.hasArc_iff]
    rintro ⟨w', hw'⟩
    have h1 := ((ho _ _ _).1 hw).2.2
    have h2 := ((ho _ _ _).1 hw').2.2
    omega
  · refine hi.base.acyclic u (Relation.TransGen.mono (fun a b hab => ?_) u u h)
    obtain ⟨w, hw⟩ := (ha.hasArc_iff a b).1 hab
    obtain rfl := ((ho _ _ _).1 hw).1
    exact hw

/-- `C65_orient` for a triangle with a pendant vertex. -/
example := fun σ => C65_orient caseG_rep caseS_loopless σ

/-- **C65**, in-degrees: no vertex receives more arcs than the upper bound returned by `degeneracy` (rounded up to the end of
its bucket). -/
theorem C65_in_degree {G : Graph} {S : SGraph} (hG : G.Rep S) (hl : S.Loopless) (hn : S.V.card ≤ 2 ^ 31) (σ : ℕ → Shuffle ℕ) :
    ∃ lo up ord core D, G.degeneracy σ = .ok (lo, up, ord, core) ∧ orient σ G = .ok D ∧
      (∀ u v, D.hasArc u v = true ↔ S.Adj u v ∧ ord.idxOf u < ord.idxOf v) ∧
      ∀ u ∈ S.V, ∃ k, D.inDegree u = .ok k ∧ k ≤ bucketTop up := by
  obtain ⟨lo, up, ord, core, D, A, h1, hD, hnd, hm, ha, hd, ho⟩ := orient_ok hG hl σ
  refine ⟨lo, up, ord, core, D, h1, hD, fun u v => ?_, fun u hu => ⟨_, ha.inDegree hu, ?_⟩⟩
  · rw [ha.hasArc_iff]
    exact ⟨fun ⟨w, hw⟩ => ((ho _ _ _).1 hw).2, fun h => ⟨1, (ho _ _ _).2 ⟨rfl, h⟩⟩⟩
  · obtain ⟨lo', up', ord', core', h2, -, -, -, h3⟩ := C38_degeneracy_order hG hl hn σ
    rw [h1] at h2
    cases h2
    refine le_trans (Finset.card_le_card_of_injOn (fun e => e.1) ?_ ?_) (h3 u hu)
    · rintro ⟨a, b, c⟩ he
      obtain ⟨he, hb⟩ := Finset.mem_filter.1 (Finset.mem_coe.1 he)
      simp only at hb
      subst b
      obtain ⟨-, h5, h6⟩ := (ho _ _ _).1 he
      simp only [Finset.mem_coe]
      rw [SGraph.mem_before]
      exact ⟨h5.symm, h6⟩
    · rintro ⟨a, b, c⟩ he ⟨a', b', c'⟩ he' h
      obtain ⟨he, hb⟩ := Finset.mem_filter.1 (Finset.mem_coe.1 he)
      obtain ⟨he', hb'⟩ := Finset.mem_filter.1 (Finset.mem_coe.1 he')
      simp only at h hb hb'
      rw [((ho _ _ _).1 he).1, ((ho _ _ _).1 he').1, hb, hb', h]

example : ∃ (G : Graph), G.Rep c5G ∧ c5G.Loopless ∧ c5G.Adj 4 0 ∧ c5G.V.card ≤ 2 ^ 31 := by
  obtain ⟨⟨G, k⟩, hG, A, -⟩ := EditGraph.abs_new.addEdges c5
  exact ⟨_, A.rep, c5_loopless, by decide, by decide⟩

/-! ## C66 -/

/-- **C66.** `augment` never fails.  Every arc of weight `w` joins distinct vertices connected by a walk with exactly `w`
edges, no ordered pair carries two weights, the previous arcs are kept and new ones have weights between the old and the new
depth, and the weight-1 arcs remain an acyclic orientation of the graph. -/
theorem C66_augment {S : SGraph} {g : DTFGraph} (hl : S.Loopless) (hg : Of S g) {ω : ℕ → RoundOrder DeepOrder}
    (hω : ∀ i, (ω i).Good DeepOrder.Good) (depth fratDepth : ℕ) :
    Ok (g.augment ω depth fratDepth) (fun g' => g'.depth = max depth g.depth ∧ (∀ u, g'.contains u = true ↔ u ∈ S.V) ∧
      (∀ u v w, 1 ≤ w → g'.Arc w u v → Walk S.Adj w u v ∧ u ≠ v) ∧
      (∀ u v w w', 1 ≤ w → 1 ≤ w' → g'.Arc w u v → g'.Arc w' u v → w = w') ∧
      (∀ u v w, 1 ≤ w → g.Arc w u v → g'.Arc w u v) ∧
      (∀ u v w, 1 ≤ w → g'.Arc w u v → ¬ g.Arc w u v → g.depth < w ∧ w ≤ depth) ∧
      (∀ u v, S.Adj u v ↔ g'.Arc 1 u v ∨ g'.Arc 1 v u) ∧ ∀ u, ¬ Relation.TransGen (g'.Arc 1) u u) := by
  obtain ⟨A, ha, hs, hb⟩ := hg.abs hl
  obtain ⟨g', hg', A', ha', h2, h3, h4, hs', h6⟩ := augment_ok ha hs hω depth fratDepth
  have hb' := hb.augment ha.pos h3 fun e he hn => (h4 e he hn).1
  refine ⟨g', hg', h2, ha'.contains_iff, fun u v w hw h => ?_, fun u v w w' hw hw' h h' => ?_, fun u v w hw h => ?_,
    fun u v w hw h hn => ?_, fun u v => ?_, fun u h => ?_⟩
  · rw [ha'.arc_iff hw] at h
    exact ⟨hs'.walk _ _ _ h, hs'.loop _ _ _ h⟩
  · exact hs'.uniq _ _ _ _ ((ha'.arc_iff hw _ _).1 h) ((ha'.arc_iff hw' _ _).1 h')
  · exact (ha'.arc_iff hw _ _).2 (h3 ((ha.arc_iff hw _ _).1 h))
  · exact h4 (u, v, w) ((ha'.arc_iff hw _ _).1 h) fun hc => hn ((ha.arc_iff hw _ _).2 hc)
  · rw [ha'.arc_iff (le_refl 1), ha'.arc_iff (le_refl 1)]
    constructor
    · intro h
      exact (hb'.1 u v h).imp And.left And.left
    · rintro (h | h)
      · exact Walk.one_iff.1 (hs'.walk _ _ _ h)
      · exact (Walk.one_iff.1 (hs'.walk _ _ _ h)).symm
  · exact hb'.acyclic u (Relation.TransGen.mono (fun a b hab => (ha'.arc_iff (le_refl 1) _ _).1 hab) u u h)

/-- On the five-cycle, augmenting to depth 2 adds three arcs of weight 2. -/
theorem c5_aug : ((augE Shuffle.rev c5 2 1).map fun g => (g.depth, g.ms)) = .ok (2, [5, 3]) := by decide +kernel

/-- The five-cycle after `orient` and `augment(2, 1)`. -/
theorem c5_case : ∃ g, Aug c5G g ∧ Of c5G g ∧ Built g ∧ g.depth = 2 := by
  obtain ⟨g, hg, ha⟩ := augE_ok Shuffle.rev c5 c5_loopless 2 1
  have := c5_aug
  rw [hg] at this
  exact ⟨g, ha, ha.of, .of c5_loopless ha.of, congrArg Prod.fst (Except.ok.inj this)⟩

example : ∃ g, Of c5G g ∧ g.depth = 2 ∧ g.ms = [5, 3] := by
  obtain ⟨g, hg, ha⟩ := augE_ok Shuffle.rev c5 c5_loopless 2 1
  have := c5_aug
  rw [hg] at this
  have h2 := Except.ok.inj this
  exact ⟨g, ha.of, congrArg Prod.fst h2, congrArg Prod.snd h2⟩

example (F : Type) (x : F) : (idRound x).Good (fun _ => True) ∧ (deepWith Shuffle.rev).Good :=
  ⟨idRound_good trivial, deepWith_good _⟩

/-! ## C67 -/

/-- **C67**, full statement. -/
def C67_statement : Prop := ∀ (S : SGraph) (g : DTFGraph), S.Loopless → Aug S g → ∀ u ∈ S.V, ∀ v ∈ S.V,
  Ok (g.smallDistance u v) (fun o => ∀ k, o = some k ↔ IsDist S.Adj u v k ∧ k ≤ g.depth)

theorem c5_small_distance : ((augE Shuffle.rev c5 2 1).bind fun g => g.smallDistance 1 4) = .ok none := by decide +kernel

/-- **C67** is false of the code even for distinct vertices: the vertices 1 and 4 of the five-cycle 0-1-2-3-4 have distance 2,
but after `augment(2, 1)` `small_distance(1, 4)` is `None`.  (The arc for this pair is computed, but the arc iterator used to
transfer it skips arcs from a smaller to a larger vertex.) -/
theorem C67_refuted : ¬ C67_statement := by
  intro h
  obtain ⟨g, hg, ha⟩ := augE_ok Shuffle.rev c5 c5_loopless 2 1
  have hd : g.depth = 2 := by
    have := c5_aug
    rw [hg] at this
    exact congrArg Prod.fst (Except.ok.inj this)
  have hs : g.smallDistance 1 4 = .ok none := by
    have := c5_small_distance
    rw [hg] at this
    exact this
  obtain ⟨o, ho, hk⟩ := h c5G g c5_loopless ha 1 (by decide) 4 (by decide)
  rw [hs] at ho
  cases ho
  have : IsDist c5G.Adj 1 4 2 := by
    refine ⟨Walk.snoc (Walk.one_iff.2 (by decide : c5G.Adj 1 0)) (by decide : c5G.Adj 0 4), fun m hlt hm => ?_⟩
    have h14 : ¬ c5G.Adj 1 4 := by decide
    rcases (by omega : m = 0 ∨ m = 1) with rfl | rfl
    · exact absurd (Walk.zero_iff.1 hm) (by decide)
    · exact h14 (Walk.one_iff.1 hm)
  have := (hk 2).2 ⟨this, by omega⟩
  cases this

/-- **C67** is also false on the diagonal: a vertex of a single edge is not at distance `Some(0)` from itself. -/
theorem C67_refuted_diagonal : ((orientE Shuffle.id k2).bind fun g => g.smallDistance 1 1) = .ok none := by decide +kernel

/-- **C67** (partial: upper bounds only).  `small_distance` succeeds; `Some(k)` means that there is a walk with `k ≤ depth`
edges, hence `None` is returned for distances above the depth; neighbours have `Some(1)`. -/
theorem C67_small_distance_partial {S : SGraph} {g : DTFGraph} (hl : S.Loopless) (hg : Aug S g) (hd : g.depth < 2 ^ 31)
    {u v : ℕ} (hu : u ∈ S.V) (hv : v ∈ S.V) :
    Ok (g.smallDistance u v) (fun o => (∀ k, o = some k → Walk S.Adj k u v ∧ 1 ≤ k ∧ k ≤ g.depth) ∧
      (o = some 1 ↔ S.Adj u v)) := by
  obtain ⟨A, ha, hi⟩ := hg.abs hl
  refine (smallDistance_ok ha hu hv hd hi.bounded fun u x w w' => hi.sound.uniq x u w w').mono ?_
  rintro o ⟨h1, h2⟩
  have hpos : ∀ k, Cand A u v k → 1 ≤ k := by
    rintro k (h | h | ⟨x, a, b, ha, hb, rfl⟩)
    · exact hi.sound.pos h
    · exact hi.sound.pos h
    · have := hi.sound.pos ha; omega
  refine ⟨fun k hk => ⟨(h1 k hk).2.1.walk hi.sound, hpos k (h1 k hk).2.1, (h1 k hk).1⟩, fun h => ?_, fun h => ?_⟩
  · exact Walk.one_iff.1 ((h1 1 h).2.1.walk hi.sound)
  · have hc : Cand A u v 1 := by
      rcases hi.base.1 u v h with h | h
      · exact Or.inl h.1
      · exact Or.inr (Or.inl h.1)
    cases o with
    | none => have := h2 rfl 1 hc; have := ha.pos; omega
    | some k =>
      have := (h1 k rfl).2.2 1 hc
      have := hpos k (h1 k rfl).2.1
      congr 1
      omega

/-- `C67_small_distance_partial` for the five-cycle after `augment(2, 1)`. -/
example := C67_small_distance_partial c5_loopless c5_case.choose_spec.1 (by rw [c5_case.choose_spec.2.2.2]; decide)
  (u := 1) (v := 4) (by decide) (by decide)

/-- **C67** (partial: for fraternally closed states and distinct vertices).  If whenever two vertices send arcs to a common
vertex, one of them of weight 1 and with total weight at most the depth, some arc of at most that weight joins them, then
`small_distance` is the distance, cut off at the depth. -/
theorem C67_closed_partial {S : SGraph} {g : DTFGraph} (hl : S.Loopless) (hg : Aug S g) (hd : g.depth < 2 ^ 31)
    (hc : ∀ x y u w, 1 ≤ w → g.Arc 1 x u → g.Arc w y u → w + 1 ≤ g.depth → x ≠ y →
      ∃ w', 1 ≤ w' ∧ w' ≤ w + 1 ∧ (g.Arc w' x y ∨ g.Arc w' y x))
    {u v : ℕ} (hu : u ∈ S.V) (hv : v ∈ S.V) (huv : u ≠ v) :
    Ok (g.smallDistance u v) (fun o => ∀ k, o = some k ↔ IsDist S.Adj u v k ∧ k ≤ g.depth) := by
  obtain ⟨A, ha, hi⟩ := hg.abs hl
  have hf : FratClosed g.depth A := by
    intro x y u w h1 h2 hle hne
    obtain ⟨w', hw', hle', h⟩ := hc x y u w (hi.sound.pos h2) ((ha.arc_iff (le_refl 1) _ _).2 h1)
      ((ha.arc_iff (hi.sound.pos h2) _ _).2 h2) hle hne
    rw [ha.arc_iff hw', ha.arc_iff hw'] at h
    exact ⟨w', hle', h⟩
  refine (smallDistance_ok ha hu hv hd hi.bounded fun u x w w' => hi.sound.uniq x u w w').mono ?_
  rintro o ⟨h1, h2⟩ k
  have hmin : ∀ m, IsDist S.Adj u v m → m ≤ g.depth → Cand A u v m := by
    intro m hm hle
    refine cand_of_dist hi hf m ?_ hle u v hm
    rcases Nat.eq_zero_or_pos m with rfl | h
    · exact absurd (Walk.zero_iff.1 hm.1) huv
    · exact h
  constructor
  · intro h
    obtain ⟨h3, h4, h5⟩ := h1 k h
    refine ⟨⟨h4.walk hi.sound, fun m hlt hm => ?_⟩, h3⟩
    classical
    have hex : ∃ m, Walk S.Adj m u v := ⟨m, hm⟩
    have hmd : IsDist S.Adj u v (Nat.find hex) := ⟨Nat.find_spec hex, fun m hm => Nat.find_min hex hm⟩
    have hle := Nat.find_min' hex hm
    have := h5 _ (hmin _ hmd (by omega))
    omega
  · rintro ⟨h3, h4⟩
    have hcand := hmin k h3 h4
    cases o with
    | none => have := h2 rfl k hcand; omega
    | some k' =>
      have h5 := (h1 k' rfl).2.2 k hcand
      have h6 : ¬ k' < k := fun hlt => h3.2 k' hlt ((h1 k' rfl).2.1.walk hi.sound)
      congr 1
      omega

/-- The arcs of the path 0-1-2-3-4 after `augment(3, 1)`. -/
theorem p5_aug : ((augE Shuffle.id p5 3 1).map fun g =>
    (g.depth, (List.range 5).all fun u => (List.range 5).all fun v => [1, 2, 3].all fun w =>
      decide (g.hasArcAt u v w = .ok (decide (u = v + w))))) = .ok (3, true) := by decide +kernel

/-- The condition of `C67_closed_partial` holds there. -/
theorem p5_closed : ∃ g, augE Shuffle.id p5 3 1 = .ok g ∧ Aug p5G g ∧ g.depth = 3 ∧ ∀ x y u w, 1 ≤ w → g.Arc 1 x u → g.Arc w y u → w + 1 ≤ g.depth → x ≠ y →
      ∃ w', 1 ≤ w' ∧ w' ≤ w + 1 ∧ (g.Arc w' x y ∨ g.Arc w' y x) := by
  obtain ⟨g, hg, ha⟩ := augE_ok Shuffle.id p5 p5_loopless 3 1
  have h := p5_aug
  rw [hg] at h
  have h2 := Except.ok.inj h
  have hd : g.depth = 3 := congrArg Prod.fst h2
  have h3 := congrArg Prod.snd h2
  simp only [List.all_eq_true, decide_eq_true_eq] at h3
  obtain ⟨A, hA, hi⟩ := ha.abs p5_loopless
  have hV : ∀ x, x ∈ p5G.V ↔ x < 5 := by
    intro x
    have : p5G.V = {0, 1, 2, 3, 4} := by decide
    rw [this]
    simp only [Finset.mem_insert, Finset.mem_singleton]
    omega
  have key : ∀ u v w, 1 ≤ w → (g.Arc w u v ↔ u < 5 ∧ v < 5 ∧ w ≤ 3 ∧ u = v + w) := by
    intro u v w hw
    constructor
    · intro h
      have hm := (hA.arc_iff hw _ _).1 h
      have hu := (hV u).1 (hA.wf _ hm).1
      have hv := (hV v).1 (hA.wf _ hm).2.1
      have hw3 := hi.bounded _ _ _ hm
      rw [hd] at hw3
      have := h3 u (List.mem_range.2 hu) v (List.mem_range.2 hv) w (by simp; omega)
      unfold Arc at h
      rw [h] at this
      have := Except.ok.inj this
      exact ⟨hu, hv, hw3, by simpa using this.symm⟩
    · rintro ⟨hu, hv, hw3, rfl⟩
      have := h3 _ (List.mem_range.2 hu) v (List.mem_range.2 hv) w (by simp; omega)
      unfold Arc
      rw [this]
      simp
  refine ⟨g, hg, ha, hd, fun x y u w hw h1 h2 hle hne => ?_⟩
  rw [key _ _ _ (le_refl 1)] at h1
  rw [key _ _ _ hw] at h2
  refine ⟨w - 1, ?_, by omega, Or.inr ?_⟩
  · by_contra hc
    exact hne (by omega)
  · have : 1 ≤ w - 1 := by
      by_contra hc
      exact hne (by omega)
    rw [key _ _ _ this]
    omega

/-! ## C68 -/

/-- **C68.** `domset(r)` returns vertices of the graph such that every vertex is within distance `r` of one of them, from any
previous augmentation. -/
theorem C68_domset {S : SGraph} {g : DTFGraph} (hl : S.Loopless) (hg : Of S g) {ω : ℕ → RoundOrder DeepOrder}
    (hω : ∀ i, (ω i).Good DeepOrder.Good) {lay : DTFGraph → DTFGraph} (hlay : ∀ g, DTFGraph.Relayout g (lay g))
    (hn : S.V.card ≤ 2 ^ 31) {r : ℕ} (hr : r < 2 ^ 15) :
    Ok (g.domset ω lay r) (fun p => p.1.depth = max r g.depth ∧ (∀ x ∈ p.2, x ∈ S.V) ∧
      ∀ x ∈ S.V, ∃ y ∈ p.2, ∃ k ≤ r, Walk S.Adj k y x) := by
  obtain ⟨A, ha, hs, hb⟩ := hg.abs hl
  refine (domset_ok ha hs hω hlay hn hr).mono ?_
  rintro p ⟨⟨A', -, h2, -⟩, h3, h4⟩
  refine ⟨h2, h3, fun x hx => ?_⟩
  exact h4 x hx

/-- `C68_domset` for the five-cycle after `augment(2, 1)`. -/
example := C68_domset c5_loopless c5_case.choose_spec.2.1 (ω := fun _ => idRound (deepWith Shuffle.rev)) (fun _ => idRound_good (deepWith_good _))
  (lay := id) (fun g => g.relayout_refl) (by decide) (r := 3) (by decide)

/-- Beyond this range the computation of `(2r)^2` overflows. -/
theorem C68_overflow {S : SGraph} {g : DTFGraph} (hl : S.Loopless) (hg : Of S g) {ω : ℕ → RoundOrder DeepOrder}
    (hω : ∀ i, (ω i).Good DeepOrder.Good) {lay : DTFGraph → DTFGraph} {r : ℕ} (hr : 2 ^ 15 ≤ r) :
    g.domset ω lay r = .error .overflow := by
  obtain ⟨A, ha, hs, hb⟩ := hg.abs hl
  obtain ⟨g', hg', -⟩ := augment_ok ha hs hω r 2
  unfold DTFGraph.domset
  rw [hg', bind_ok]
  by_cases h : 2 * r < 2 ^ 32
  · have h1 : mul32 2 r = .ok (2 * r) := if_pos h
    have h2 : mul32 (2 * r) (2 * r) = .error .overflow := if_neg fun hc => by
      have := Nat.mul_le_mul (Nat.mul_le_mul_left 2 hr) (Nat.mul_le_mul_left 2 hr)
      omega
    simp only [h1, h2, bind_ok]
    rfl
  · have h1 : mul32 2 r = .error .overflow := if_neg h
    simp only [h1]
    rfl

example : ∃ g, Of c5G g ∧ g.depth = 2 ∧ c5G.V.card ≤ 2 ^ 31 := by
  obtain ⟨g, hg, ha⟩ := augE_ok Shuffle.rev c5 c5_loopless 2 1
  have := c5_aug
  rw [hg] at this
  exact ⟨g, ha.of, congrArg Prod.fst (Except.ok.inj this), by decide⟩

/-! ## C69 -/

/-- **C69**, full statement. -/
def C69_statement : Prop := ∀ (S : SGraph) (g : DTFGraph), S.Loopless → Of S g → ∀ d, 1 ≤ d →
  g.depth ≤ (g.layer d).depth ∧ (∀ w, 1 ≤ w → (g.layer d).numArcsAtDepth w = g.numArcsAtDepth w) ∧
  ∀ u v, Ok (g.addArc u v d) (fun g' => g.depth ≤ g'.depth)

/-- **C69** is false of the code: after `augment(2, 1)` on the five-cycle, `layer(1)` hides the three arcs of weight 2. -/
theorem C69_refuted : ¬ C69_statement := by
  intro h
  obtain ⟨g, hg, ha⟩ := augE_ok Shuffle.rev c5 c5_loopless 2 1
  have hd : g.depth = 2 := by
    have := c5_aug
    rw [hg] at this
    exact congrArg Prod.fst (Except.ok.inj this)
  have := (h c5G g c5_loopless ha.of 1 (le_refl 1)).1
  have : (g.layer 1).depth = 1 := Abs.reserveDepth_depth 1
  omega

theorem C69_refuted_count : ((augE Shuffle.rev c5 2 1).bind fun g => g.numArcsAtDepth 2) = .ok 3 ∧
    ((augE Shuffle.rev c5 2 1).bind fun g => (g.layer 1).numArcsAtDepth 2) = .ok 0 := by decide +kernel

/-- `add_arc` with a depth two larger than the current one panics. -/
theorem C69_refuted_panic : ((orientE Shuffle.id k2).bind fun g => (g.addArc 0 1 3).map DTFGraph.depth) = .error .panic := by
  decide +kernel

/-- **C69** (partial: depths at most one larger than the current one, and no claim that the depth is kept).  `layer(d)` changes
no arc and no vertex, and keeps the counts of the visible weights. -/
theorem C69_layer_partial {g : DTFGraph} (hg : Built g) {d : ℕ} (h1 : 1 ≤ d) (hd : d ≤ g.depth + 1) :
    (g.layer d).depth = d ∧ (∀ u, (g.layer d).contains u = g.contains u) ∧
      (∀ u v w, 1 ≤ w → ((g.layer d).Arc w u v ↔ g.Arc w u v)) ∧ (∀ u v, (g.layer d).hasArc u v = g.hasArc u v) ∧
      (∀ u, g.contains u = true → (g.layer d).degree u = g.degree u) ∧
      ∀ w, 1 ≤ w → w ≤ d → w ≤ g.depth → (g.layer d).numArcsAtDepth w = g.numArcsAtDepth w := by
  obtain ⟨V, A, ha⟩ := hg.abs
  have hb : Abs (g.layer d) V A := ha.reserveDepth h1 (by have := ha.len; omega)
  have hdep : (g.layer d).depth = d := Abs.reserveDepth_depth d
  refine ⟨hdep, fun u => ?_, fun u v w hw => ?_, fun u v => ?_, fun u hu => ?_, fun w hw hwd hwg => ?_⟩
  · rw [Bool.eq_iff_iff, hb.contains_iff, ha.contains_iff]
  · rw [hb.arc_iff hw, ha.arc_iff hw]
  · rw [Bool.eq_iff_iff, hb.hasArc_iff, ha.hasArc_iff]
  · rw [ha.contains_iff] at hu
    rw [hb.degree hu, ha.degree hu]
  · rw [hb.numArcsAt hw (by omega), ha.numArcsAt hw hwg]

/-- `C69_layer_partial` for the five-cycle after `augment(2, 1)`. -/
example := C69_layer_partial c5_case.choose_spec.2.2.1 (d := 2) (by decide) (by rw [c5_case.choose_spec.2.2.2]; decide)

/-- **C69** (partial: depths at most one larger than the current one, and no claim that the depth is kept).  `add_arc`
succeeds, adds exactly the given arc and its end points, and sets the depth to that of the arc. -/
theorem C69_add_arc_partial {g : DTFGraph} (hg : Built g) {d : ℕ} (h1 : 1 ≤ d) (hd : d ≤ g.depth + 1) (u v : ℕ) :
    Ok (g.addArc u v d) (fun g' => g'.depth = d ∧ (∀ x, g'.contains x = true ↔ x = u ∨ x = v ∨ g.contains x = true) ∧
      ∀ a b w, 1 ≤ w → (g'.Arc w a b ↔ g.Arc w a b ∨ (a = u ∧ b = v ∧ w = d))) := by
  obtain ⟨V, A, ha⟩ := hg.abs
  refine (ha.addArc h1 (by have := ha.len; omega) u v).mono ?_
  rintro g' ⟨hb, hdep⟩
  refine ⟨hdep, fun x => ?_, fun a b w hw => ?_⟩
  · rw [hb.contains_iff, ha.contains_iff, Finset.mem_insert, Finset.mem_insert]
  · rw [hb.arc_iff hw, ha.arc_iff hw, Finset.mem_insert, Prod.mk.injEq, Prod.mk.injEq]
    tauto

example : ∃ g g', Built g ∧ g.depth = 2 ∧ g.addArc 0 7 3 = .ok g' ∧ Built g' := by
  obtain ⟨g, hg, ha⟩ := augE_ok Shuffle.rev c5 c5_loopless 2 1
  have := c5_aug
  rw [hg] at this
  have hd : g.depth = 2 := congrArg Prod.fst (Except.ok.inj this)
  have hb : Built g := .of c5_loopless ha.of
  obtain ⟨g', hg', -⟩ := C69_add_arc_partial hb (d := 3) (by decide) (by omega) 0 7
  exact ⟨g, g', hb, hd, hg', .addArc hb (by decide) (by omega) hg'⟩

/-! ## C70 -/

/-- **C70**, full statement. -/
def C70_statement : Prop := ∀ (S : SGraph) (g : DTFGraph), S.Loopless → Of S g →
  ∃ l s, DTFArcIter.new g none = .ok s ∧ Drains (DTFArcIter.next g) s l ∧ l.Nodup ∧ ∀ u v, (u, v) ∈ l ↔ g.hasArc u v = true

theorem k2_up : ((orientE Shuffle.rev k2).map fun g => (g.hasArc 0 1, g.hasArc 1 0)) = .ok (true, false) ∧
    ((orientE Shuffle.rev k2).bind fun g => g.arcList none) = .ok [] := by decide +kernel

/-- The same edge oriented the other way: the pair is (head, tail). -/
theorem k2_down : ((orientE Shuffle.id k2).map fun g => (g.hasArc 0 1, g.hasArc 1 0)) = .ok (false, true) ∧
    ((orientE Shuffle.id k2).bind fun g => g.arcList none) = .ok [(0, 1)] := by decide +kernel

/-- **C70** is false of the code: if the edge 0-1 is oriented from 0 to 1 then `arcs()` yields nothing; if it is oriented from 1
to 0 then `arcs()` yields the reversed pair (`k2_down`). -/
theorem C70_refuted : ¬ C70_statement := by
  intro h
  obtain ⟨g, hg, ha⟩ := orientE_ok Shuffle.rev k2 k2_loopless
  have h1 := k2_up.1
  have h2 := k2_up.2
  rw [hg] at h1 h2
  have h1 : g.hasArc 0 1 = true := congrArg Prod.fst (Except.ok.inj h1)
  have h2 : g.arcList none = .ok [] := h2
  obtain ⟨l, s, hs, hdr, -, hm⟩ := h k2G g k2_loopless ha.of
  obtain ⟨A, hA, -⟩ := ha.abs k2_loopless
  obtain ⟨l', s', hl', hs', hdr', -⟩ := hA.arcs_drains
  rw [h2] at hl'
  cases hl'
  rw [hs] at hs'
  cases hs'
  obtain rfl := hdr.unique hdr'
  have := (hm 0 1).2 h1
  simp at this

/-- **C70** (partial: only arcs whose head is not larger than the tail, as (head, tail)). -/
theorem C70_arcs_at_partial {g : DTFGraph} (hg : Built g) {d : ℕ} (h1 : 1 ≤ d) (hd : d ≤ g.depth) :
    ∃ l s, DTFArcIter.new g (some d) = .ok s ∧ Drains (DTFArcIter.next g) s l ∧ l.Nodup ∧
      ∀ v u, (v, u) ∈ l ↔ g.Arc d u v ∧ v ≤ u := by
  obtain ⟨V, A, ha⟩ := hg.abs
  obtain ⟨l, s, -, h2, h3, h4, h5⟩ := ha.arcs_at_drains h1 hd
  exact ⟨l, s, h2, h3, h4, fun v u => by rw [ha.arc_iff h1, h5]⟩

/-- `C70_arcs_at_partial` for the five-cycle after `augment(2, 1)`. -/
example := C70_arcs_at_partial c5_case.choose_spec.2.2.1 (d := 2) (by decide) (by rw [c5_case.choose_spec.2.2.2])

/-- **C70** (partial: only arcs whose head is not larger than the tail, as (head, tail)). -/
theorem C70_arcs_partial {S : SGraph} {g : DTFGraph} (hl : S.Loopless) (hg : Of S g) :
    ∃ l s, DTFArcIter.new g none = .ok s ∧ Drains (DTFArcIter.next g) s l ∧ l.Nodup ∧
      ∀ v u, (v, u) ∈ l ↔ g.hasArc u v = true ∧ v < u := by
  obtain ⟨A, ha, hs, -⟩ := hg.abs hl
  obtain ⟨l, s, -, h2, h3, h4, h5⟩ := ha.arcs_drains
  refine ⟨l, s, h2, h3, h4 fun v x w w' => hs.uniq x v w w', fun v u => ?_⟩
  rw [ha.hasArc_iff, h5]
  constructor
  · rintro ⟨⟨w, h⟩, hle⟩
    have := hs.loop _ _ _ h
    exact ⟨⟨w, h⟩, by omega⟩
  · rintro ⟨h, hlt⟩
    exact ⟨h, hlt.le⟩

/-- `C70_arcs_partial` for the five-cycle after `augment(2, 1)`. -/
example := C70_arcs_partial c5_loopless c5_case.choose_spec.2.1

/-! ## C71 -/

/-- **C71**, full statement. -/
def C71_statement : Prop := ∀ (S : SGraph) (g : DTFGraph), S.Loopless → Of S g → ∀ d, 1 ≤ d → d ≤ g.depth + 1 →
  ∀ u v, ((⟨g.layer d, d⟩ : Layer).adjacent u v = true ↔ g.Arc d u v ∨ g.Arc d v u)

/-- **C71** is false of the code: the second layer of an oriented edge has no arc, but its end points are adjacent there and
have degree 1. -/
theorem C71_refuted : ¬ C71_statement := by
  intro h
  obtain ⟨g, hg, ha⟩ := orientE_ok Shuffle.id k2 k2_loopless
  obtain ⟨A, hA, hi⟩ := ha.abs k2_loopless
  have hd : g.depth = 1 := by
    have : ((orientE Shuffle.id k2).map DTFGraph.depth) = .ok 1 := by decide +kernel
    rw [hg] at this
    exact Except.ok.inj this
  have h0 := (h k2G g k2_loopless ha.of 2 (by decide) (by omega) 0 1).1 (by
    have : ((orientE Shuffle.id k2).map fun g => (⟨g.layer 2, 2⟩ : Layer).adjacent 0 1) = .ok true := by decide +kernel
    rw [hg] at this
    exact Except.ok.inj this)
  rw [hA.arc_iff (by decide), hA.arc_iff (by decide)] at h0
  rcases h0 with h0 | h0 <;> · have := hi.bounded _ _ _ h0; omega

theorem C71_refuted_degree : ((orientE Shuffle.id k2).bind fun g => (⟨g.layer 2, 2⟩ : Layer).degree 0) = .ok 1 ∧
    ((orientE Shuffle.id k2).bind fun g => (⟨g.layer 2, 2⟩ : Layer).inDegree 0) = .ok 1 ∧
    ((orientE Shuffle.id k2).bind fun g => (⟨g.layer 2, 2⟩ : Layer).outDegree 1) = .ok 1 := by decide +kernel

/-- **C71** (partial: only for `has_arc`, `in_neighbours`, `num_edges` and `vertices`). -/
theorem C71_layer_partial {g : DTFGraph} (hg : Built g) {d : ℕ} (h1 : 1 ≤ d) (hd : d ≤ g.depth + 1) :
    (∀ u v, (⟨g.layer d, d⟩ : Layer).hasArc u v = .ok true ↔ g.Arc d u v) ∧
      (∀ u, u ∈ (⟨g.layer d, d⟩ : Layer).vertices ↔ g.contains u = true) ∧
      (∀ u, g.contains u = true → Ok ((⟨g.layer d, d⟩ : Layer).inNeighbours u) fun l => l.Nodup ∧ ∀ x, x ∈ l ↔ g.Arc d x u) ∧
      ∃ X : Finset (ℕ × ℕ), (∀ p, p ∈ X ↔ g.Arc d p.1 p.2) ∧ (⟨g.layer d, d⟩ : Layer).numEdges = .ok X.card := by
  obtain ⟨V, A, ha⟩ := hg.abs
  have hb : Abs (g.layer d) V A := ha.reserveDepth h1 (by have := ha.len; omega)
  have hdep : (g.layer d).depth = d := Abs.reserveDepth_depth d
  refine ⟨fun u v => ?_, fun u => ?_, fun u hu => ?_, (A.filter (fun e => e.2.2 = d)).image (fun e => (e.1, e.2.1)),
    fun p => ?_, ?_⟩
  · rw [ha.arc_iff h1]
    exact hasArcAt_iff hb u v h1
  · rw [ha.contains_iff]
    exact hb.vertices_mem u
  · refine (hb.inNeighboursAt ((ha.contains_iff u).1 hu) h1 (by omega)).mono ?_
    rintro l ⟨hn, hm⟩
    exact ⟨hn, fun x => by rw [hm, ha.arc_iff h1]⟩
  · rw [ha.arc_iff h1, Finset.mem_image]
    constructor
    · rintro ⟨⟨a, b, c⟩, he, rfl⟩
      obtain ⟨hA, rfl⟩ := Finset.mem_filter.1 he
      exact hA
    · intro h
      exact ⟨(p.1, p.2, d), Finset.mem_filter.2 ⟨h, rfl⟩, rfl⟩
  · rw [Finset.card_image_of_injOn]
    · exact hb.numArcsAt h1 (by rw [hdep])
    · rintro ⟨a, b, c⟩ he ⟨a', b', c'⟩ he' heq
      have h1 := (Finset.mem_filter.1 (Finset.mem_coe.1 he)).2
      have h2 := (Finset.mem_filter.1 (Finset.mem_coe.1 he')).2
      simp only [Prod.mk.injEq] at h1 h2 heq ⊢
      omega

/-- `C71_layer_partial` for the five-cycle after `augment(2, 1)`. -/
example := C71_layer_partial c5_case.choose_spec.2.2.1 (d := 2) (by decide) (by rw [c5_case.choose_spec.2.2.2]; decide)

/-- **C71, the other queries** (partial: they answer for the whole graph, not for the layer).  `get_depth` becomes the depth of
the layer; `vertices`, `contains` and `num_vertices` are those of the graph; `adjacent` and the degrees ignore the weight. -/
theorem C71_layer_whole_partial {g : DTFGraph} (hg : Built g) {d : ℕ} (h1 : 1 ≤ d) (hd : d ≤ g.depth + 1) :
    (g.layer d).getDepth = d ∧
      (∀ u, (⟨g.layer d, d⟩ : Layer).contains u = g.contains u) ∧
      (∃ V : Finset ℕ, (∀ u, u ∈ V ↔ g.contains u = true) ∧ (⟨g.layer d, d⟩ : Layer).numVertices = V.card ∧
        (⟨g.layer d, d⟩ : Layer).vertices.Nodup) ∧
      (∀ u v, (⟨g.layer d, d⟩ : Layer).adjacent u v = true ↔ ∃ w, 1 ≤ w ∧ (g.Arc w u v ∨ g.Arc w v u)) ∧
      ∀ u, g.contains u = true → (⟨g.layer d, d⟩ : Layer).degree u = g.degree u ∧
        (⟨g.layer d, d⟩ : Layer).inDegree u = g.inDegree u ∧ (⟨g.layer d, d⟩ : Layer).outDegree u = g.outDegree u := by
  obtain ⟨V, A, ha⟩ := hg.abs
  have hb : Abs (g.layer d) V A := ha.reserveDepth h1 (by have := ha.len; omega)
  refine ⟨Abs.reserveDepth_depth d, fun u => ?_, ⟨V, fun u => (ha.contains_iff u).symm, hb.numVertices, hb.vertices_nodup⟩,
    fun u v => ?_, fun u hu => ?_⟩
  · show (g.layer d).contains u = _
    rw [Bool.eq_iff_iff, hb.contains_iff, ha.contains_iff]
  · show ((g.layer d).hasArc u v || (g.layer d).hasArc v u) = true ↔ _
    rw [Bool.or_eq_true, hb.hasArc_iff, hb.hasArc_iff]
    constructor
    · rintro (⟨w, h⟩ | ⟨w, h⟩)
      · have hw : 1 ≤ w := (ha.wf _ h).2.2
        exact ⟨w, hw, Or.inl ((ha.arc_iff hw _ _).2 h)⟩
      · have hw : 1 ≤ w := (ha.wf _ h).2.2
        exact ⟨w, hw, Or.inr ((ha.arc_iff hw _ _).2 h)⟩
    · rintro ⟨w, hw, h | h⟩
      · exact Or.inl ⟨w, (ha.arc_iff hw _ _).1 h⟩
      · exact Or.inr ⟨w, (ha.arc_iff hw _ _).1 h⟩
  · rw [ha.contains_iff] at hu
    refine ⟨?_, ?_, ?_⟩
    · show (g.layer d).degree u = _
      rw [hb.degree hu, ha.degree hu]
    · show (g.layer d).inDegree u = _
      rw [hb.inDegree hu, ha.inDegree hu]
    · show (g.layer d).outDegree u = _
      rw [hb.outDegree hu, ha.outDegree hu]

/-- `C71_layer_whole_partial` for the five-cycle after `augment(2, 1)`. -/
example := C71_layer_whole_partial c5_case.choose_spec.2.2.1 (d := 2) (by decide) (by rw [c5_case.choose_spec.2.2.2]; decide)

/-- **C71, `DTFLayer::new`** (partial as above).  Without reserving depth first, a view at a depth that exists shows the arcs
of this weight. -/
theorem C71_layer_new_partial {g : DTFGraph} (hg : Built g) {d : ℕ} (h1 : 1 ≤ d) (hd : d ≤ g.getDepth) :
    (∀ u v, (Layer.new g d).hasArc u v = .ok true ↔ g.Arc d u v) ∧
      (∀ u, (Layer.new g d).contains u = g.contains u) ∧
      ∀ u, g.contains u = true → Ok ((Layer.new g d).inNeighbours u) fun l => l.Nodup ∧ ∀ x, x ∈ l ↔ g.Arc d x u := by
  obtain ⟨V, A, ha⟩ := hg.abs
  refine ⟨fun u v => ?_, fun u => rfl, fun u hu => ?_⟩
  · rw [ha.arc_iff h1]
    exact hasArcAt_iff ha u v h1
  · have := ha.len
    refine (ha.inNeighboursAt ((ha.contains_iff u).1 hu) h1 hd).mono ?_
    rintro l ⟨hn, hm⟩
    exact ⟨hn, fun x => by rw [hm, ha.arc_iff h1]⟩

/-- Hypotheses of the C71 theorems are met by the augmented 5-cycle with `d = 2`. -/
example : ∃ g, Built g ∧ 2 ≤ g.getDepth ∧ 2 ≤ g.depth + 1 := by
  obtain ⟨g, hg, ha⟩ := augE_ok Shuffle.rev c5 c5_loopless 2 1
  have := c5_aug
  rw [hg] at this
  have hd : g.depth = 2 := congrArg Prod.fst (Except.ok.inj this)
  exact ⟨g, .of c5_loopless ha.of, by show 2 ≤ g.depth; omega, by omega⟩

/-! ## C73 -/

/-- **C73.** The counters agree with the arcs: `in_neighbours(u)` lists every vertex sending an arc to `u` once and
`in_degree(u)` is its length, `out_degree(u)` is the number of vertices receiving an arc from `u`, `degree` is their sum, and
`num_arcs_at_depth(w)` is the number of arcs of weight `w`. -/
theorem C73_counters {S : SGraph} {g : DTFGraph} (hl : S.Loopless) (hg : Of S g) :
    (∀ u ∈ S.V, ∃ l, g.inNeighbours u = .ok l ∧ l.Nodup ∧ (∀ x, x ∈ l ↔ g.hasArc x u = true) ∧ g.inDegree u = .ok l.length ∧
      ∃ O : Finset ℕ, (∀ x, x ∈ O ↔ g.hasArc u x = true) ∧ g.outDegree u = .ok O.card ∧
        g.degree u = .ok (l.length + O.card)) ∧
      (∀ w, 1 ≤ w → w ≤ g.depth → ∃ X : Finset (ℕ × ℕ), (∀ p, p ∈ X ↔ g.Arc w p.1 p.2) ∧ g.numArcsAtDepth w = .ok X.card) ∧
      (∀ w, g.depth < w → g.numArcsAtDepth w = .ok 0) ∧ g.numEdges = .ok S.E.card := by
  obtain ⟨A, ha, hs, hb⟩ := hg.abs hl
  refine ⟨fun u hu => ?_, fun w hw hwd => ?_, fun w hw => if_pos hw, by rw [ha.numEdges, hb.card hs]⟩
  · obtain ⟨l, hl', hm, hn⟩ := ha.inNeighbours hu
    have hn := hn fun x w w' => hs.uniq x u w w'
    have hlen : (A.filter (fun e => e.2.1 = u)).card = l.length := by
      rw [← List.toFinset_card_of_nodup hn]
      refine Finset.card_bij (fun e _ => e.1) ?_ ?_ ?_
      · rintro ⟨a, b, c⟩ he
        obtain ⟨hA, rfl⟩ := Finset.mem_filter.1 he
        rw [List.mem_toFinset, hm]
        exact ⟨c, hA⟩
      · rintro ⟨a, b, c⟩ he ⟨a', b', c'⟩ he' heq
        obtain ⟨he, hb⟩ := Finset.mem_filter.1 he
        obtain ⟨he', hb'⟩ := Finset.mem_filter.1 he'
        simp only at hb hb' heq
        subst a' b b'
        rw [hs.uniq _ _ _ _ he he']
      · intro x hx
        obtain ⟨w, hw⟩ := (hm x).1 (List.mem_toFinset.1 hx)
        exact ⟨(x, u, w), Finset.mem_filter.2 ⟨hw, rfl⟩, rfl⟩
    have hout : (A.filter (fun e => e.1 = u)).card = ((A.filter (fun e => e.1 = u)).image (fun e => e.2.1)).card := by
      rw [Finset.card_image_of_injOn]
      rintro ⟨a, b, c⟩ he ⟨a', b', c'⟩ he' heq
      obtain ⟨he, hb⟩ := Finset.mem_filter.1 (Finset.mem_coe.1 he)
      obtain ⟨he', hb'⟩ := Finset.mem_filter.1 (Finset.mem_coe.1 he')
      simp only at hb hb' heq
      subst a a' b'
      rw [hs.uniq _ _ _ _ he he']
    refine ⟨l, hl', hn, fun x => by rw [hm, ha.hasArc_iff], by rw [ha.inDegree hu, hlen],
      (A.filter (fun e => e.1 = u)).image (fun e => e.2.1), fun x => ?_, by rw [ha.outDegree hu, hout], ?_⟩
    · rw [ha.hasArc_iff, Finset.mem_image]
      constructor
      · rintro ⟨⟨a, b, c⟩, he, rfl⟩
        obtain ⟨hA, rfl⟩ := Finset.mem_filter.1 he
        exact ⟨c, hA⟩
      · rintro ⟨w, hw⟩
        exact ⟨(u, x, w), Finset.mem_filter.2 ⟨hw, rfl⟩, rfl⟩
    · rw [ha.degree hu, hlen, hout, Nat.add_comm]
  · refine ⟨(A.filter (fun e => e.2.2 = w)).image (fun e => (e.1, e.2.1)), fun p => ?_, ?_⟩
    · rw [ha.arc_iff hw, Finset.mem_image]
      constructor
      · rintro ⟨⟨a, b, c⟩, he, rfl⟩
        obtain ⟨hA, rfl⟩ := Finset.mem_filter.1 he
        exact hA
      · intro h
        exact ⟨(p.1, p.2, w), Finset.mem_filter.2 ⟨h, rfl⟩, rfl⟩
    · rw [Finset.card_image_of_injOn]
      · exact ha.numArcsAt hw hwd
      · rintro ⟨a, b, c⟩ he ⟨a', b', c'⟩ he' heq
        have h1 := (Finset.mem_filter.1 (Finset.mem_coe.1 he)).2
        have h2 := (Finset.mem_filter.1 (Finset.mem_coe.1 he')).2
        simp only [Prod.mk.injEq] at h1 h2 heq ⊢
        omega

/-- `C73_counters` for the five-cycle after `augment(2, 1)`. -/
example := C73_counters c5_loopless c5_case.choose_spec.2.1

/-! ## C74 -/

/-- **C74**, full statement. -/
def C74_statement : Prop := ∀ (G : Graph) (S : SGraph) (depth : ℕ) (ω : DeepOrder), G.Rep S → S.Loopless → ω.Good →
  Ok (orientDeep depth ω G) (fun D => ∀ u v, D.adjacent u v = true ↔ S.Adj u v)

theorem k2_deep : ((built k2).bind fun G => (orientDeep 2 (deepWith Shuffle.rev) G.view).map fun D =>
    D.adjacent 0 1) = .ok false := by decide +kernel

/-- **C74** is false of the code: `orient_deep(.., 2)` of a single edge may have no arc. -/
theorem C74_refuted : ¬ C74_statement := by
  intro h
  obtain ⟨⟨G, k⟩, hG, A, -⟩ := EditGraph.abs_new.addEdges k2
  have hb : built k2 = .ok G := by unfold built; rw [hG]; rfl
  obtain ⟨D, hD, hadj⟩ := h G.view k2G 2 (deepWith Shuffle.rev) A.rep k2_loopless (deepWith_good _)
  have := k2_deep
  rw [hb] at this
  simp only [Except.bind] at this
  rw [hD] at this
  have h1 := (hadj 0 1).2 (by decide)
  have h2 : D.adjacent 0 1 = false := Except.ok.inj this
  rw [h1] at h2
  cases h2

/-- **C74** (partial: edges may be lost; for `depth ≤ 1` see C65).  `orient_deep` succeeds and returns an acyclic graph on the
same vertices all of whose arcs have weight 1 and join neighbours. -/
theorem C74_orient_deep_partial {G : Graph} {S : SGraph} (hG : G.Rep S) (hl : S.Loopless) {ω : DeepOrder} (hω : ω.Good)
    (depth : ℕ) :
    Ok (orientDeep depth ω G) (fun D => (∀ u, D.contains u = true ↔ u ∈ S.V) ∧
      (∀ u v, D.hasArc u v = true ↔ D.Arc 1 u v) ∧ (∀ u v, D.hasArc u v = true → S.Adj u v) ∧
      (depth ≤ 1 → ∀ u v, S.Adj u v → D.adjacent u v = true) ∧
      ∀ u, ¬ Relation.TransGen (fun a b => D.hasArc a b = true) u u) := by
  obtain ⟨D, hD, A, ha, harc, ord, hn, hm, hf⟩ := orients_deep depth ω G S hω hG hl
  refine ⟨D, hD, ha.contains_iff, fun u v => ?_, fun u v h => ?_, fun hd u v h => ?_, fun u h => ?_⟩
  · rw [ha.hasArc_iff, ha.arc_iff (le_refl 1)]
    exact ⟨fun ⟨w, hw⟩ => by have := (harc _ hw).1; simp only at this; rwa [this] at hw, fun h => ⟨1, h⟩⟩
  · obtain ⟨w, hw⟩ := (ha.hasArc_iff u v).1 h
    exact (harc _ hw).2
  · obtain ⟨D', hD', -, -, -, -, h5, -⟩ := C65_orient hG hl ω.first
    unfold orientDeep at hD
    rw [hD', bind_ok, if_pos hd] at hD
    cases hD
    exact (h5 u v).2 h
  · have key : ∀ v, Relation.TransGen (fun a b => D.hasArc a b = true) u v → ord.idxOf u < ord.idxOf v := by
      intro v h
      induction h with
      | single h => obtain ⟨w, hw⟩ := (ha.hasArc_iff _ _).1 h; exact hf _ _ _ hw
      | tail _ h ih => obtain ⟨w, hw⟩ := (ha.hasArc_iff _ _).1 h; exact lt_trans ih (hf _ _ _ hw)
    exact lt_irrefl _ (key u h)

example : ∃ G : Graph, G.Rep c5G ∧ c5G.Loopless ∧ (deepWith Shuffle.rev).Good := by
  obtain ⟨⟨G, k⟩, hG, A, -⟩ := EditGraph.abs_new.addEdges c5
  exact ⟨_, A.rep, c5_loopless, deepWith_good _⟩

/-! ## C75 -/

/-- **C75.** After `orient` and any number of calls of `augment`, two consecutive arcs from `x` via `y` to `u` of total weight
at most the depth are bridged by an arc from `x` to `u` of at most that weight (unless `x = u`), and no arc is heavier than
the depth. -/
theorem C75_transitive {S : SGraph} {g : DTFGraph} (hl : S.Loopless) (hg : Aug S g) :
    (∀ u v w, 1 ≤ w → g.Arc w u v → w ≤ g.depth) ∧
    ∀ x y u w1 w2, 1 ≤ w1 → 1 ≤ w2 → g.Arc w1 x y → g.Arc w2 y u → w1 + w2 ≤ g.depth → x ≠ u →
      ∃ w, 1 ≤ w ∧ w ≤ w1 + w2 ∧ g.Arc w x u := by
  obtain ⟨A, ha, hi⟩ := hg.abs hl
  refine ⟨fun u v w hw h => hi.bounded _ _ _ ((ha.arc_iff hw _ _).1 h), fun x y u w1 w2 h1 h2 ha1 ha2 hle hne => ?_⟩
  obtain ⟨w, hw, hm⟩ := hi.trans x y u w1 w2 ((ha.arc_iff h1 _ _).1 ha1) ((ha.arc_iff h2 _ _).1 ha2) hle hne
  exact ⟨w, hi.sound.pos hm, hw, (ha.arc_iff (hi.sound.pos hm) _ _).2 hm⟩

example : ∃ g, Aug p5G g ∧ g.depth = 3 := by
  obtain ⟨g, hg, ha⟩ := augE_ok Shuffle.id p5 p5_loopless 3 1
  have h := p5_aug
  rw [hg] at h
  exact ⟨g, ha, congrArg Prod.fst (Except.ok.inj h)⟩

/-! ## C76 -/

/-- **C76.** `in_neighbours_with_weights(u)` maps exactly the vertices that send an arc to `u` to the weights of these arcs, and
`get_arc_depth(x, u)` is the weight of the arc, if there is one. -/
theorem C76_weights {S : SGraph} {g : DTFGraph} (hl : S.Loopless) (hg : Aug S g) (hd : g.depth < 2 ^ 32) {u : ℕ}
    (hu : u ∈ S.V) :
    Ok (g.inNeighboursWithWeights u) (fun m => ∀ x w, m.get? x = some w ↔ 1 ≤ w ∧ g.Arc w x u) ∧
    ∀ x, Ok (g.getArcDepth x u) (fun o => ∀ w, o = some w ↔ 1 ≤ w ∧ g.Arc w x u) := by
  obtain ⟨A, ha, hi⟩ := hg.abs hl
  have key : ∀ x w, (x, u, w) ∈ A ↔ 1 ≤ w ∧ g.Arc w x u := fun x w =>
    ⟨fun h => ⟨hi.sound.pos h, (ha.arc_iff (hi.sound.pos h) _ _).2 h⟩, fun ⟨hw, h⟩ => (ha.arc_iff hw _ _).1 h⟩
  constructor
  · refine (inNeighboursWithWeights_ok ha hu hd hi.bounded fun x w w' => hi.sound.uniq x u w w').mono ?_
    intro m hm x w
    rw [hm, key]
  · intro x
    refine (getArcDepth_ok ha x hu hd hi.bounded fun u x w w' => hi.sound.uniq x u w w').mono ?_
    intro o ho w
    rw [ho, key]

example : ∃ g, Aug p5G g ∧ g.depth < 2 ^ 32 ∧ 2 ∈ p5G.V ∧ g.Arc 2 2 0 := by
  obtain ⟨g, hg, ha⟩ := augE_ok Shuffle.id p5 p5_loopless 3 1
  have h := p5_aug
  rw [hg] at h
  have h2 := Except.ok.inj h
  have h3 := congrArg Prod.snd h2
  simp only [List.all_eq_true, decide_eq_true_eq] at h3
  have hd : g.depth = 3 := congrArg Prod.fst h2
  exact ⟨g, ha, by omega, by decide, h3 2 (by decide) 0 (by decide) 2 (by decide)⟩

/-! ## C77 -/

/-- **C77**, full statement. -/
def C77_statement : Prop := ∀ (S : SGraph) (g : DTFGraph), S.Loopless → Of S g →
  Ok g.toUndirected (fun U => ∀ u v, U.view.adjacent u v = .ok true ↔ g.adjacent u v = true)

theorem k2_undirected : ((orientE Shuffle.rev k2).bind fun g => g.toUndirected.bind fun U => U.view.adjacent 0 1) = .ok false := by
  decide +kernel

/-- **C77** is false of the code: if the edge 0-1 is oriented from 0 to 1, `to_undirected` has no edge. -/
theorem C77_refuted : ¬ C77_statement := by
  intro h
  obtain ⟨g, hg, ha⟩ := orientE_ok Shuffle.rev k2 k2_loopless
  obtain ⟨U, hU, hadj⟩ := h k2G g k2_loopless ha.of
  have h1 := k2_up.1
  have h2 := k2_undirected
  rw [hg] at h1 h2
  have h1 : g.hasArc 0 1 = true := congrArg Prod.fst (Except.ok.inj h1)
  have h2 : (g.toUndirected.bind fun U => U.view.adjacent 0 1) = .ok false := h2
  rw [hU] at h2
  have h2 : U.view.adjacent 0 1 = .ok false := h2
  have := (hadj 0 1).2 (by unfold DTFGraph.adjacent; rw [h1]; rfl)
  rw [h2] at this
  cases this

/-- **C77** (partial: only arcs from a larger to a smaller vertex become edges). -/
theorem C77_to_undirected_partial {S : SGraph} {g : DTFGraph} (hl : S.Loopless) (hg : Of S g) :
    Ok g.toUndirected (fun U => (∀ u, U.view.contains u = true ↔ u ∈ S.V) ∧
      ∀ u v, u < v → ((U.view.adjacent u v = .ok true ↔ g.hasArc v u = true) ∧ (U.view.adjacent v u = .ok true ↔ g.hasArc v u = true))) := by
  obtain ⟨A, ha, hs, -⟩ := hg.abs hl
  refine (toUndirected_ok ha).mono ?_
  rintro U ⟨T, hU, hV, hT⟩
  have key : ∀ u v, U.view.adjacent u v = .ok true ↔ T.Adj u v := fun u v => by rw [hU.rep.adjacent]; simp
  refine ⟨fun u => ?_, fun u v huv => ?_⟩
  · rw [hU.rep.contains, ← hV]
  · rw [key, key, hT, hT, ha.hasArc_iff]
    constructor
    · exact ⟨fun h => h.elim And.left fun h => absurd h.2 (by omega), fun h => Or.inl ⟨h, huv.le⟩⟩
    · exact ⟨fun h => h.elim (fun h => absurd h.2 (by omega)) And.left, fun h => Or.inr ⟨h, huv.le⟩⟩

/-- `C77_to_undirected_partial` for the five-cycle after `augment(2, 1)`. -/
example := C77_to_undirected_partial c5_loopless c5_case.choose_spec.2.1

/-! ## C78 -/

/-- **C78.** `edge_subgraph(es)` keeps all vertices and exactly the arcs, in their direction, whose end points form a pair (in
any order) of `es`, with weight 1. -/
theorem C78_edge_subgraph {g : DTFGraph} (hg : Built g) (es : List Edge) :
    Ok (g.edgeSubgraph es) (fun D => D.depth = 1 ∧ (∀ u, D.contains u = g.contains u) ∧
      (∀ u v, D.hasArc u v = true ↔ D.Arc 1 u v) ∧
      ∀ u v, D.hasArc u v = true ↔ g.hasArc u v = true ∧ ((u, v) ∈ es ∨ (v, u) ∈ es)) := by
  obtain ⟨V, A, ha⟩ := hg.abs
  refine (edgeSubgraph_ok ha (es := es)).mono ?_
  rintro D ⟨B, hB, hd, hm⟩
  refine ⟨hd, fun u => ?_, fun u v => ?_, fun u v => ?_⟩
  · rw [Bool.eq_iff_iff, hB.contains_iff, ha.contains_iff]
  · rw [hB.hasArc_iff, hB.arc_iff (le_refl 1)]
    exact ⟨fun ⟨w, hw⟩ => by rwa [((hm _ _ _).1 hw).1] at hw, fun h => ⟨1, h⟩⟩
  · rw [hB.hasArc_iff, ha.hasArc_iff]
    exact ⟨fun ⟨w, hw⟩ => ((hm _ _ _).1 hw).2, fun h => ⟨1, (hm _ _ _).2 ⟨rfl, h⟩⟩⟩

example : ∃ g, Built g ∧ ∃ u v, g.hasArc u v = true := by
  obtain ⟨g, hg, ha⟩ := orientE_ok Shuffle.rev k2 k2_loopless
  have h1 := k2_up.1
  rw [hg] at h1
  exact ⟨g, .of k2_loopless ha.of, 0, 1, congrArg Prod.fst (Except.ok.inj h1)⟩

end Verif
