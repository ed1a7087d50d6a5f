import Verif.Props.Balls
import Verif.Props.DTFGraph

/-!
# C136: the distance methods agree with one another

`small_distance` of the linear graphs, `r_neighbours` and `components` of the editable graphs, `small_distance` of the
`DTFGraph`s, the distances returned by `domset` and the colours of its witness are computed by different code.  The theorems
here compare the returned values with each other.
-/

namespace Verif
open EditGraph DTFGraph

/-- `small_distance(x, y)` with cut-off `D` returns `r`, whatever the iteration orders of the hash tables. -/
def DistReturns (L : LinGraph) (D x y : ℕ) (r : Option ℕ) : Prop :=
  ∀ σ τ : ℕ → ℕ → Shuffle ℕ, ∃ ws, L.wreachSets σ τ D = .ok ws ∧ smallDistance ws D x y = .ok r

theorem DistReturns.unique {L : LinGraph} {D x y : ℕ} {r r' : Option ℕ} (h : DistReturns L D x y r)
    (h' : DistReturns L D x y r') : r = r' := by
  obtain ⟨w, e1, e2⟩ := h (fun _ _ => Shuffle.id) (fun _ _ => Shuffle.id)
  obtain ⟨w', e3, e4⟩ := h' (fun _ _ => Shuffle.id) (fun _ _ => Shuffle.id)
  rw [e1] at e3
  cases e3
  rw [e2] at e4
  exact Except.ok.inj e4

theorem DistReturns.exists {L : LinGraph} {S : SGraph} {ord : List ℕ} (H : L.LRep S ord) {D : ℕ} (hD : 2 * D < 2 ^ 32)
    {x y : ℕ} (hx : x ∈ S.V) (hy : y ∈ S.V) :
    ∃ r, DistReturns L D x y r ∧ ∀ n, r = some n ↔ IsDist S.Adj x y n ∧ n ≤ D := by
  obtain ⟨-, r, -, -, h⟩ := C60_small_distance H (fun _ _ => Shuffle.id) (fun _ _ => Shuffle.id) hD hx hy
  refine ⟨r, fun σ τ => ?_, h⟩
  obtain ⟨ws, r', h1, h2, h3⟩ := C60_small_distance H σ τ hD hx hy
  have : r' = r := by
    apply Option.ext
    intro n
    rw [h3 n, h n]
  exact ⟨ws, h1, this ▸ h2⟩

theorem DistReturns.iff {L : LinGraph} {S : SGraph} {ord : List ℕ} (H : L.LRep S ord) {D : ℕ} (hD : 2 * D < 2 ^ 32)
    {x y : ℕ} (hx : x ∈ S.V) (hy : y ∈ S.V) {r : Option ℕ} (h : DistReturns L D x y r) (n : ℕ) :
    r = some n ↔ IsDist S.Adj x y n ∧ n ≤ D := by
  obtain ⟨r', h1, h2⟩ := DistReturns.exists H hD hx hy
  rw [h.unique h1]
  exact h2 n

theorem IsDist.of_walk {R : ℕ → ℕ → Prop} {u v n : ℕ} (h : Walk R n u v) : ∃ m ≤ n, IsDist R u v m := by
  classical
  have hex : ∃ n, Walk R n u v := ⟨n, h⟩
  exact ⟨Nat.find hex, Nat.find_min' hex h, Nat.find_spec hex, fun m hm => Nat.find_min hex hm⟩

theorem IsDist.le {R : ℕ → ℕ → Prop} {u v n m : ℕ} (h : IsDist R u v n) (hw : Walk R m u v) : n ≤ m := by
  by_contra hlt
  exact h.2 m (by omega) hw

theorem IsDist.swap {S : SGraph} {u v n : ℕ} (h : IsDist S.Adj u v n) : IsDist S.Adj v u n :=
  ⟨h.1.symm S.adj_symm, fun m hm hw => h.2 m hm (hw.symm S.adj_symm)⟩

/-- **C136.** The result of `small_distance` does not depend on the ordering of the graph, on the iteration orders, or on
the order of the two arguments. -/
theorem C136_order_independent {L L' : LinGraph} {S : SGraph} {ord ord' : List ℕ} (H : L.LRep S ord) (H' : L'.LRep S ord')
    {D : ℕ} (hD : 2 * D < 2 ^ 32) {x y : ℕ} (hx : x ∈ S.V) (hy : y ∈ S.V) :
    ∃ r, DistReturns L D x y r ∧ DistReturns L D y x r ∧ DistReturns L' D x y r ∧ DistReturns L' D y x r := by
  have key : ∀ {M : LinGraph} {o : List ℕ}, M.LRep S o → ∀ r, (∀ n, r = some n ↔ IsDist S.Adj x y n ∧ n ≤ D) →
      DistReturns M D x y r ∧ DistReturns M D y x r := by
    intro M o HM r hr
    obtain ⟨a, ha, ea⟩ := DistReturns.exists HM hD hx hy
    obtain ⟨b, hb, eb⟩ := DistReturns.exists HM hD hy hx
    have h1 : a = r := Option.ext fun n => by rw [ea n, hr n]
    have h2 : b = r := Option.ext fun n => by
      rw [eb n, hr n]
      exact ⟨fun h => ⟨h.1.swap, h.2⟩, fun h => ⟨h.1.swap, h.2⟩⟩
    exact ⟨h1 ▸ ha, h2 ▸ hb⟩
  obtain ⟨r, -, hr⟩ := DistReturns.exists H hD hx hy
  exact ⟨r, (key H r hr).1, (key H r hr).2, (key H' r hr).1, (key H' r hr).2⟩

/-- **C136.** A smaller cut-off only turns distances above it into `None`. -/
theorem C136_cutoff {L : LinGraph} {S : SGraph} {ord : List ℕ} (H : L.LRep S ord) {D D' : ℕ} (hle : D ≤ D')
    (hD : 2 * D' < 2 ^ 32) {x y : ℕ} (hx : x ∈ S.V) (hy : y ∈ S.V) {r : Option ℕ} (h : DistReturns L D' x y r) :
    DistReturns L D x y (r.filter (· ≤ D)) := by
  obtain ⟨q, hq, eq⟩ := DistReturns.exists H (D := D) (by omega) hx hy
  have : q = r.filter (· ≤ D) := Option.ext fun n => by
    have e := h.iff H hD hx hy n
    rw [eq n, Option.filter_eq_some_iff, e]
    simp only [decide_eq_true_eq]
    constructor
    · rintro ⟨h1, h2⟩; exact ⟨⟨h1, by omega⟩, h2⟩
    · rintro ⟨⟨h1, -⟩, h2⟩; exact ⟨h1, h2⟩
  exact this ▸ hq

/-- **C136.** Distance 0 means equality, distance 1 adjacency of distinct vertices, and the triangle inequality holds as far
as the cut-off allows to state it. -/
theorem C136_metric {L : LinGraph} {S : SGraph} {ord : List ℕ} (H : L.LRep S ord) {D : ℕ} (hD : 2 * D < 2 ^ 32) {x y z : ℕ}
    (hx : x ∈ S.V) (hy : y ∈ S.V) (hz : z ∈ S.V) :
    (DistReturns L D x y (some 0) ↔ x = y) ∧
    (1 ≤ D → (DistReturns L D x y (some 1) ↔ x ≠ y ∧ S.Adj x y)) ∧
    ∀ m n, DistReturns L D x y (some m) → DistReturns L D y z (some n) → m + n ≤ D →
      ∃ k, DistReturns L D x z (some k) ∧ k ≤ m + n ∧ m ≤ k + n ∧ n ≤ m + k := by
  have ret : ∀ {x y : ℕ}, x ∈ S.V → y ∈ S.V → ∀ n, DistReturns L D x y (some n) ↔ IsDist S.Adj x y n ∧ n ≤ D := by
    intro x y hx hy n
    obtain ⟨q, hq, eq⟩ := DistReturns.exists H hD hx hy
    rw [← eq n]
    constructor
    · intro h; exact hq.unique h
    · intro h; exact h ▸ hq
  refine ⟨?_, fun h1 => ?_, fun m n hm hn hle => ?_⟩
  · rw [ret hx hy]
    constructor
    · intro h; exact Walk.zero_iff.1 h.1.1
    · rintro rfl; exact ⟨⟨.nil _, by omega⟩, by omega⟩
  · rw [ret hx hy]
    constructor
    · intro h
      exact ⟨fun e => h.1.2 0 (by omega) (Walk.zero_iff.2 e), Walk.one_iff.1 h.1.1⟩
    · rintro ⟨h2, h3⟩
      refine ⟨⟨Walk.one_iff.2 h3, fun d hd hw => ?_⟩, h1⟩
      obtain rfl : d = 0 := by omega
      exact h2 (Walk.zero_iff.1 hw)
  · have am := ((ret hx hy m).1 hm).1
    have an := ((ret hy hz n).1 hn).1
    obtain ⟨k, hk, hd⟩ := IsDist.of_walk (am.1.append an.1)
    refine ⟨k, (ret hx hz k).2 ⟨hd, by omega⟩, hk, ?_, ?_⟩
    · exact am.le (hd.1.append an.swap.1)
    · exact an.le (am.swap.1.append hd.1)

/-- **C136.** `small_distance` is the least radius at which `r_neighbours` of the graph reaches the vertex. -/
theorem C136_balls {L : LinGraph} {G : Graph} {S : SGraph} {ord : List ℕ} (H : L.LRep S ord) (hG : G.Rep S)
    (σ : ℕ → Shuffle Vertex) {D : ℕ} (hD : 2 * D < 2 ^ 32) {x y : ℕ} (hx : x ∈ S.V) (hy : y ∈ S.V) {r : Option ℕ}
    (h : DistReturns L D x y r) (k : ℕ) (hk : k ≤ D) :
    ∃ B, G.rNeighbours σ x k = .ok B ∧ (y ∈ B ↔ ∃ n ≤ k, r = some n) := by
  obtain ⟨B, h1, h2⟩ := (C17_ball hG σ [] (by simp) k).2 x hx
  refine ⟨B, h1, ?_⟩
  rw [h2]
  constructor
  · rintro ⟨d, hd, hw⟩
    obtain ⟨m, hm, hi⟩ := IsDist.of_walk hw
    exact ⟨m, by omega, (h.iff H hD hx hy m).2 ⟨hi, by omega⟩⟩
  · rintro ⟨n, hn, e⟩
    exact ⟨n, hn, ((h.iff H hD hx hy n).1 e).1.1⟩

/-- **C136.** With a cut-off of at least the number of vertices minus one, `small_distance` is `Some` exactly for two vertices
of the same element of `components`. -/
theorem C136_components {L : LinGraph} {G : Graph} {S : SGraph} {ord : List ℕ} (H : L.LRep S ord) (hG : G.Rep S)
    (τ : Shuffle (List Vertex)) {D : ℕ} (hD : 2 * D < 2 ^ 32) (hn : G.numVertices ≤ D + 1) {x y : ℕ} (hx : x ∈ S.V)
    (hy : y ∈ S.V) {r : Option ℕ} (h : DistReturns L D x y r) :
    ∃ cs, G.components τ = .ok cs ∧ (r.isSome ↔ ∃ c ∈ cs, x ∈ c ∧ y ∈ c) := by
  obtain ⟨B, cs, h1, h2, c, hc, hxc, h3⟩ := C99_component hG (fun _ => Shuffle.id) τ hx hn
  obtain ⟨B', h1', h4⟩ := C136_balls H hG (fun _ => Shuffle.id) hD hx hy h D le_rfl
  rw [h1] at h1'
  cases h1'
  obtain ⟨cs', h2', -, hp, -, hw⟩ := C37_components hG τ
  rw [h2] at h2'
  cases h2'
  refine ⟨cs, h2, ?_⟩
  have e : r.isSome ↔ y ∈ B := by
    rw [h4, Option.isSome_iff_exists]
    constructor
    · rintro ⟨n, e⟩; exact ⟨n, ((h.iff H hD hx hy n).1 e).2, e⟩
    · rintro ⟨n, -, e⟩; exact ⟨n, e⟩
  rw [e, h3]
  constructor
  · intro h; exact ⟨c, hc, hxc, h⟩
  · rintro ⟨c', hc', hx', hy'⟩
    exact (hw c hc x hxc y).2 ((hw c' hc' x hx' y).1 hy')

/-- **C136.** `small_distance` of a `DTFGraph` of the same graph never undercuts `small_distance` of the linear graph with
the depth as cut-off; for distinct vertices the two agree on distance 1 and, if the linear graph answers `None`, so does the
`DTFGraph`. -/
theorem C136_dtf {L : LinGraph} {g : DTFGraph} {S : SGraph} {ord : List ℕ} (H : L.LRep S ord) (hl : S.Loopless)
    (hg : Aug S g) (hd : g.depth < 2 ^ 31) {x y : ℕ} (hx : x ∈ S.V) (hy : y ∈ S.V) {r : Option ℕ}
    (h : DistReturns L g.depth x y r) :
    ∃ q, g.smallDistance x y = .ok q ∧ (∀ k, q = some k → ∃ n ≤ k, r = some n) ∧ (r = none → q = none) ∧
      (1 ≤ g.depth → (q = some 1 ↔ r = some 1)) := by
  have hD : 2 * g.depth < 2 ^ 32 := by omega
  have hc := C67_small_distance_partial hl hg hd hx hy
  obtain ⟨q, e, h1, h2⟩ := hc
  have h3 : ∀ k, q = some k → ∃ n ≤ k, r = some n := by
    intro k hk
    obtain ⟨hw, -, hk2⟩ := h1 k hk
    obtain ⟨m, hm, hi⟩ := IsDist.of_walk hw
    exact ⟨m, hm, (h.iff H hD hx hy m).2 ⟨hi, by omega⟩⟩
  refine ⟨q, e, h3, fun hr => ?_, fun hpos => ?_⟩
  · cases q with
    | none => rfl
    | some k =>
      obtain ⟨n, -, e⟩ := h3 k rfl
      rw [hr] at e
      cases e
  · rw [h2, h.iff H hD hx hy 1]
    constructor
    · intro ha
      refine ⟨⟨Walk.one_iff.2 ha, fun d hd hw => ?_⟩, hpos⟩
      obtain rfl : d = 0 := by omega
      obtain rfl := Walk.zero_iff.1 hw
      exact hl _ ha
    · intro ha
      exact Walk.one_iff.1 ha.1.1

/-- **C136.** The distance that `domset_with_target` reports for a target vertex is at least the result of
`small_distance_sets` between the returned set and that vertex, which is never `None`. -/
theorem C136_domset {L L' : LinGraph} {S : SGraph} {ord ord' : List ℕ} (H : L.LRep S ord) (H' : L'.LRep S ord')
    (ω : LinGraph.DomOrder) (hω : ∀ g, EditGraph.Relayout g (ω.witness.lay g)) {r : ℕ} (hr : r < 2 ^ 15)
    (hn : S.V.card ≤ 2 ^ 31) (target : List ℕ) (σ τ : ℕ → ℕ → Shuffle ℕ) (ρ : Shuffle ℕ) :
    ∃ D m, L.domsetWithTarget ω r false target = .ok (D, m, none) ∧
      ∀ x ∈ target, x ∈ S.V → ∃ k ws n, m.get? x = some k ∧ k ≤ r ∧ L'.wreachSets σ τ r = .ok ws ∧
        smallDistanceSets ρ ws r D.toList [x] = .ok (some n) ∧ n ≤ k := by
  obtain ⟨D', m', h1', hD', -⟩ := C56_domset_with_target H ω hω hr hn target
  by_cases hne : ∃ x ∈ target, x ∈ S.V
  · obtain ⟨D, m, h1, h2, h3, h4⟩ := C57_domset_distances_partial H ω hω hr hn target hne
    rw [h1] at h1'
    obtain ⟨rfl, rfl⟩ : D = D' ∧ m = m' := by simpa using h1'
    have hD : ∀ d ∈ D.toList, d ∈ S.V := fun d hd => hD' d (HSet.mem_toList.1 hd)
    refine ⟨D, m, h1, fun x hx hxS => ?_⟩
    obtain ⟨k, hk⟩ := HMap.mem_keys_iff.1 ((h2 x).2 hxS)
    obtain ⟨n, hn', hmin⟩ := h4 x hx k hk
    have hkr := h3 x k hk
    obtain ⟨ws, q, e1, e2, e3⟩ := C60_small_distance_sets H' σ τ ρ (D := r) (by omega) (X := D.toList) (Y := [x]) hD
      (by simpa using hxS)
    have hq : q = some n := by
      rw [e3]
      refine ⟨⟨?_, fun i hi => ?_⟩, by omega⟩
      · obtain ⟨d, hd, hw⟩ := hmin.1
        exact ⟨d, HSet.mem_toList.2 hd, x, by simp, hw⟩
      · rintro ⟨d, hd, y, hy, hw⟩
        simp only [List.mem_singleton] at hy
        subst hy
        exact hmin.2 i hi ⟨d, HSet.mem_toList.1 hd, hw⟩
    exact ⟨k, ws, n, hk, hkr, e1, hq ▸ e2, hn'⟩
  · exact ⟨D', m', h1', fun x hx hxS => absurd ⟨x, hx, hxS⟩ hne⟩

/-- **C136.** Two distinct vertices to which the witness of `domset_with_target` gives the same colour have
`small_distance` `None` for the cut-off `2*radius`. -/
theorem C136_witness {L L' : LinGraph} {S : SGraph} {ord ord' : List ℕ} (H : L.LRep S ord) (H' : L'.LRep S ord')
    (ω : LinGraph.DomOrder) (hω : ∀ g, EditGraph.Relayout g (ω.witness.lay g)) {r : ℕ} (hr : r < 2 ^ 15)
    (hn : S.V.card ≤ 2 ^ 31) (target : List ℕ) {D : HSet ℕ} {m c : HMap ℕ ℕ}
    (h : L.domsetWithTarget ω r true target = .ok (D, m, some c)) {u v k : ℕ} (huv : u ≠ v) (hu : c.get? u = some k)
    (hv : c.get? v = some k) : DistReturns L' (2 * r) u v none := by
  obtain ⟨h0, h2⟩ := C58_witness H ω hω hr hn target h
  have hD : ∀ d ∈ D, d ∈ S.V := by
    obtain ⟨D', m', e1, hD', -⟩ := C56_domset_with_target H ω hω hr hn target
    obtain ⟨D'', m'', e2, h3⟩ := C56_domset_witness H ω hω hr hn target
    rw [e1] at e2
    cases e2
    rcases h3 with ⟨-, h3⟩ | ⟨c', h3⟩ <;> rw [h] at h3 <;> cases h3
    exact hD'
  have huS := hD u (h0 u (HMap.mem_keys_iff.2 ⟨k, hu⟩)).1
  have hvS := hD v (h0 v (HMap.mem_keys_iff.2 ⟨k, hv⟩)).1
  obtain ⟨q, hq, eq⟩ := DistReturns.exists H' (D := 2 * r) (by omega) huS hvS
  cases q with
  | none => exact hq
  | some n =>
    have := (eq n).1 rfl
    have := h2 u v k huv hu hv n this.1.1
    omega

/-- A five-cycle with two orderings, as an editable graph and as linear graphs. -/
theorem c5_two : (∃ o, builtOrd c5 [0, 1, 2, 3, 4] = .ok o ∧ o.lin.LRep c5G [0, 1, 2, 3, 4]) ∧
    (∃ o, builtOrd c5 [2, 0, 4, 1, 3] = .ok o ∧ o.lin.LRep c5G [2, 0, 4, 1, 3]) ∧ ∃ G : Graph, G.Rep c5G := by
  refine ⟨builtOrd_lin _ _ (by decide) (by decide) (by decide), builtOrd_lin _ _ (by decide) (by decide) (by decide), ?_⟩
  obtain ⟨⟨G, k⟩, -, A, -⟩ := EditGraph.abs_new.addEdges c5
  exact ⟨_, A.rep⟩

/-- In the five-cycle, `small_distance(0, 2)` with cut-off 3 is `Some(2)`, and with cut-off 1 it is `None`. -/
theorem c5_dist {L : LinGraph} {ord : List ℕ} (H : L.LRep c5G ord) :
    DistReturns L 3 0 2 (some 2) ∧ DistReturns L 1 0 2 none := by
  have hw : IsDist c5G.Adj 0 2 2 := by
    refine ⟨.cons (v := 1) (by decide) (.cons (by decide) (.nil _)), fun d hd h => ?_⟩
    obtain rfl | rfl : d = 0 ∨ d = 1 := by omega
    · exact absurd (Walk.zero_iff.1 h) (by decide)
    · exact absurd (Walk.one_iff.1 h) (by decide)
  obtain ⟨r, h1, h2⟩ := DistReturns.exists H (D := 3) (x := 0) (y := 2) (by decide) (by decide) (by decide)
  have e := (h2 2).2 ⟨hw, by decide⟩
  subst e
  exact ⟨h1, C136_cutoff H (D := 1) (by decide) (by decide) (by decide) (by decide) h1⟩

/-- The C136 theorems for the five-cycle. -/
example := C136_order_independent c5_two.1.choose_spec.2 c5_two.2.1.choose_spec.2 (D := 3) (x := 0) (y := 2) (by decide)
  (by decide) (by decide)
example := C136_cutoff c5_two.1.choose_spec.2 (D := 1) (D' := 3) (x := 0) (y := 2) (by decide) (by decide) (by decide)
  (by decide) (c5_dist c5_two.1.choose_spec.2).1
example := C136_metric c5_two.1.choose_spec.2 (D := 3) (x := 0) (y := 1) (z := 2) (by decide) (by decide) (by decide)
  (by decide)
example := fun σ k hk => C136_balls c5_two.1.choose_spec.2 c5_two.2.2.choose_spec σ (D := 3) (x := 0) (y := 2) (by decide)
  (by decide) (by decide) (c5_dist c5_two.1.choose_spec.2).1 k hk
example := fun τ hn => C136_components c5_two.1.choose_spec.2 c5_two.2.2.choose_spec τ (D := 3) (x := 0) (y := 2) (by decide)
  hn (by decide) (by decide) (c5_dist c5_two.1.choose_spec.2).1
example : ∃ (G : Graph) (L : LinGraph) (r : Option ℕ), G.Rep c5G ∧ L.LRep c5G [0, 1, 2, 3, 4] ∧ G.numVertices ≤ 4 + 1 ∧
    DistReturns L 4 0 2 r := by
  obtain ⟨r, h, -⟩ := DistReturns.exists c5_two.1.choose_spec.2 (D := 4) (x := 0) (y := 2) (by decide) (by decide) (by decide)
  obtain ⟨G, hG⟩ := c5_two.2.2
  refine ⟨G, _, r, hG, c5_two.1.choose_spec.2, ?_, h⟩
  rw [hG.nv]
  decide
example : ∃ (g : DTFGraph) (L : LinGraph) (r : Option ℕ), Aug c5G g ∧ g.depth < 2 ^ 31 ∧ L.LRep c5G [0, 1, 2, 3, 4] ∧
    DistReturns L g.depth 0 2 r := by
  obtain ⟨g, h1, -, -, h2⟩ := c5_case
  obtain ⟨r, h, -⟩ := DistReturns.exists c5_two.1.choose_spec.2 (D := g.depth) (x := 0) (y := 2) (by omega) (by decide)
    (by decide)
  exact ⟨g, _, r, h1, by omega, c5_two.1.choose_spec.2, h⟩
example := fun σ τ ρ => C136_domset c5_two.1.choose_spec.2 c5_two.2.1.choose_spec.2 idDom relayout_refl (r := 1) (by decide)
  (by decide) [0, 2, 7] σ τ ρ

/-- The path with seven vertices. -/
abbrev path7 : List (ℕ × ℕ) := [(0, 1), (1, 2), (2, 3), (3, 4), (4, 5), (5, 6)]

theorem path7_witness : ((builtOrd path7 [1, 5, 0, 2, 3, 4, 6]).bind fun o =>
    (o.lin.domsetWithTarget idDom 1 true [0, 6]).map fun r => r.2.2.map fun c => (c.get? 0, c.get? 6)) =
      .ok (some (some 0, some 0)) := by decide

/-- Hypotheses of `C136_witness` are met: for the targets 0 and 6 and radius 1, both ends of the path get colour 0. -/
example : ∃ (L : LinGraph) (D : HSet ℕ) (m c : HMap ℕ ℕ), L.LRep (SGraph.empty.addEdges path7) [1, 5, 0, 2, 3, 4, 6] ∧
    L.domsetWithTarget idDom 1 true [0, 6] = .ok (D, m, some c) ∧ c.get? 0 = some 0 ∧ c.get? 6 = some 0 ∧
    DistReturns L (2 * 1) 0 6 none := by
  obtain ⟨o, ho, H⟩ := builtOrd_lin path7 [1, 5, 0, 2, 3, 4, 6] (by decide) (by decide) (by decide)
  have h := path7_witness
  simp only [ho, Except.bind] at h
  cases h1 : o.lin.domsetWithTarget idDom 1 true [0, 6] with
  | error e => rw [h1] at h; cases h
  | ok q =>
    obtain ⟨D, m, _ | c⟩ := q <;> rw [h1] at h
    · cases h
    · simp only [Except.map, Option.map_some, Except.ok.injEq, Option.some.injEq, Prod.mk.injEq] at h
      exact ⟨_, D, m, c, H, h1, h.1, h.2,
        C136_witness H H idDom relayout_refl (by decide) (by decide) [0, 6] h1 (by decide) h.1 h.2⟩

end Verif
