import Verif.Props.ReachGraph
/-!
# C89: what `LinearGraph::index_of` returns
-/
namespace Verif

theorem SGraph.Ordering.sum_take {S : SGraph} {ord : List ℕ} (O : S.Ordering ord) (f : ℕ → ℕ) (u : ℕ) :
    ((ord.take (ord.idxOf u)).map f).sum = ∑ w ∈ S.V.filter (fun w => ord.idxOf w < ord.idxOf u), f w := by
  have hn : (ord.take (ord.idxOf u)).Nodup := O.nodup.sublist (List.take_sublist _ _)
  rw [← List.sum_toFinset f hn]
  refine Finset.sum_congr ?_ fun _ _ => rfl
  ext w
  rw [List.mem_toFinset, Finset.mem_filter, ← O.mem]
  have hs : ord = ord.take (ord.idxOf u) ++ ord.drop (ord.idxOf u) := (List.take_append_drop _ _).symm
  have h := SGraph.Ordering.idxOf_lt_split (w := w) hs
  rw [List.length_take, Nat.min_eq_left List.idxOf_le_length] at h
  rw [h]
  exact ⟨fun h => ⟨List.mem_of_mem_take h, h⟩, fun h => h.2⟩

theorem SGraph.Ordering.card_take {S : SGraph} {ord : List ℕ} (O : S.Ordering ord) {u : ℕ} :
    (S.V.filter (fun w => ord.idxOf w < ord.idxOf u)).card = ord.idxOf u := by
  have h := O.sum_take (fun _ => 1) u
  rw [Finset.sum_const, smul_eq_mul, Nat.mul_one, List.map_const', List.sum_replicate, smul_eq_mul, Nat.mul_one,
    List.length_take, Nat.min_eq_left List.idxOf_le_length] at h
  exact h.symm

/-- **C89, as documented** (`/repo/src/graph.rs:641`): `index_of(u)` is the position of `u` in the ordering, for each of
the three implementations of `LinearGraph`. -/
def C89_statement : Prop := ∀ (S : SGraph) (ord : List ℕ) (u : ℕ), u ∈ S.V →
  (∀ o : OrdGraph, OrdGraph.Built S o ord → o.indexOf u = .ok (ord.idxOf u)) ∧
  (∀ g : DegenGraph, g.Built S ord → g.indexOf u = .ok (ord.idxOf u)) ∧
  ∀ (o : OrdGraph) (k : ReachKind) (σ τ : ℕ → ℕ → Shuffle ℕ) (ρ : ℕ → Shuffle (ℕ × ℕ)) (r : ℕ) (g : ReachGraph),
    OrdGraph.Built S o ord → 1 ≤ r → r + 1 < 2 ^ 32 → k.size S ord r < 2 ^ 32 → k.convert σ τ ρ r o = .ok g →
    g.indexOf u = .ok (ord.idxOf u)

/-- **C89, `OrdGraph`.** `index_of(u)` is the position of `u` in the ordering: the number of vertices before it. -/
theorem C89_ordgraph {S : SGraph} {o : OrdGraph} {ord : List ℕ} (h : OrdGraph.Built S o ord) {u : ℕ} (hu : u ∈ S.V) :
    o.indexOf u = .ok (ord.idxOf u) ∧ (S.V.filter (fun w => ord.idxOf w < ord.idxOf u)).card = ord.idxOf u := by
  refine ⟨?_, h.inv.ordering.card_take⟩
  unfold OrdGraph.indexOf
  rw [h.inv.get hu]
  rfl

/-- `C89_ordgraph` for a triangle with a pendant vertex. -/
example := C89_ordgraph case_ord.choose_spec (u := 0) (by decide)

/-- **C89, `DegenGraph`, what holds.** `index_of(u)` is the offset of the record of `u` in the array: three entries and
the left neighbours for every vertex before `u`.  So it is the position only for the first vertex, and at least three
times the position in general.  Missing: equality with the position (see `C89_refuted`). -/
theorem C89_degengraph_partial {g : DegenGraph} {S : SGraph} {ord : List ℕ} (h : g.Built S ord) {u : ℕ} (hu : u ∈ S.V) :
    ∃ i, g.indexOf u = .ok i ∧
      i = ∑ w ∈ S.V.filter (fun w => ord.idxOf w < ord.idxOf u), (3 + (S.before ord w).card) ∧
      3 * ord.idxOf u ≤ i ∧ (i = ord.idxOf u ↔ ord.idxOf u = 0) := by
  have O := h.inv.ordering
  have he : DegenGraph.pos S ord u = ∑ w ∈ S.V.filter (fun w => ord.idxOf w < ord.idxOf u), (3 + (S.before ord w).card) := by
    rw [← O.sum_take]
    unfold DegenGraph.pos DegenGraph.off
    rw [List.map_map]
    congr 1
    refine List.map_congr_left fun w _ => ?_
    show 3 + (S.lefts ord w).length = _
    rw [O.length_lefts]
  have hge : 3 * ord.idxOf u ≤ DegenGraph.pos S ord u := by
    rw [he, Finset.sum_add_distrib, Finset.sum_const, O.card_take, smul_eq_mul]
    omega
  refine ⟨_, ?_, he, hge, ?_⟩
  · unfold DegenGraph.indexOf
    rw [h.inv.get hu]
    rfl
  · constructor
    · intro h; omega
    · intro h0
      rw [he, h0]
      simp

/-- `C89_degengraph_partial` for a triangle with a pendant vertex. -/
example := C89_degengraph_partial case_degen.choose_spec (u := 0) (by decide)

open Classical in
/-- **C89, `ReachGraph`, what holds.** `index_of(u)` is the offset of the record of `u` in the array: `r + 2` entries and
the reachable set for every vertex before `u`.  Missing: equality with the position (see `C89_refuted`). -/
theorem C89_reachgraph_partial {S : SGraph} {o : OrdGraph} {ord : List ℕ} (h : OrdGraph.Built S o ord) (k : ReachKind)
    (σ τ : ℕ → ℕ → Shuffle ℕ) (ρ : ℕ → Shuffle (ℕ × ℕ)) {r : ℕ} (hr : 1 ≤ r) (hr' : r + 1 < 2 ^ 32)
    (hsz : k.size S ord r < 2 ^ 32) {u : ℕ} (hu : u ∈ S.V) :
    ∃ g i, k.convert σ τ ρ r o = .ok g ∧ g.indexOf u = .ok i ∧
      i = ∑ w ∈ S.V.filter (fun w => ord.idxOf w < ord.idxOf u),
        (r + 2 + (S.V.filter (fun v => ∃ d ≤ r, k.rel S ord w v d)).card) ∧
      (r + 2) * ord.idxOf u ≤ i ∧ (i = ord.idxOf u ↔ ord.idxOf u = 0) := by
  obtain ⟨g, h1, m, I, hs⟩ := ReachGraph.convert_holds h.inv k σ τ ρ hr hr' hsz
  have O := I.ordering
  have he : Blocks.off (ReachGraph.pay ord r m) (ord.take (ord.idxOf u)) =
      ∑ w ∈ S.V.filter (fun w => ord.idxOf w < ord.idxOf u),
        (r + 2 + (S.V.filter (fun v => ∃ d ≤ r, k.rel S ord w v d)).card) := by
    rw [← O.sum_take]
    unfold Blocks.off
    congr 1
    refine List.map_congr_left fun w hw => ?_
    have hw' := (O.mem w).1 (List.mem_of_mem_take hw)
    rw [Blocks.bs, ReachGraph.length_pay,
      show 2 + (r + (ReachGraph.rv ord r m w).length) = r + 2 + (ReachGraph.rv ord r m w).length by omega]
    congr 1
    have hn : (ReachGraph.rv ord r m w).Nodup := (ReachGraph.rv_key O w).imp fun h he => by rw [he] at h; omega
    rw [← List.toFinset_card_of_nodup hn]
    congr 1
    ext x
    rw [List.mem_toFinset, ReachGraph.mem_rv O I.good hw', Finset.mem_filter]
    constructor
    · rintro ⟨d, hd⟩
      have := (hs w hw' x d).1 hd
      exact ⟨(I.good w hw' x d hd).1, d, this.2, this.1⟩
    · rintro ⟨-, d, h1, h2⟩
      exact ⟨d, (hs w hw' x d).2 ⟨h2, h1⟩⟩
  have hge : (r + 2) * ord.idxOf u ≤ Blocks.off (ReachGraph.pay ord r m) (ord.take (ord.idxOf u)) := by
    rw [he, Finset.sum_add_distrib, Finset.sum_const, O.card_take, smul_eq_mul, Nat.mul_comm]
    omega
  refine ⟨g, _, h1, I.indexOf hu, he, hge, ?_⟩
  constructor
  · intro h
    rw [h] at hge
    have := Nat.mul_le_mul_right (ord.idxOf u) (show 3 ≤ r + 2 by omega)
    omega
  · intro h0
    rw [he, h0]
    simp

/-- `C89_reachgraph_partial` for a path with three vertices. -/
example := fun k σ τ ρ u hu => C89_reachgraph_partial exReach.choose_spec.choose_spec.1 k σ τ ρ (by decide) (by decide) (exReach.choose_spec.choose_spec.2.2.1 k) (u := u) hu

/-- **C89, missing vertices.** For a vertex that is not in a `ReachGraph`, `index_of`, `left_neighbours` and `reachables`
panic, and the degrees are 0. -/
theorem C89_reachgraph_missing {S : SGraph} {o : OrdGraph} {ord : List ℕ} (h : OrdGraph.Built S o ord) (k : ReachKind)
    (σ τ : ℕ → ℕ → Shuffle ℕ) (ρ : ℕ → Shuffle (ℕ × ℕ)) {r : ℕ} (hr : 1 ≤ r) (hr' : r + 1 < 2 ^ 32)
    (hsz : k.size S ord r < 2 ^ 32) {u : ℕ} (hu : u ∉ S.V) :
    ∃ g, k.convert σ τ ρ r o = .ok g ∧ g.indexOf u = .error .panic ∧ g.leftNeighbours r u = .error .panic ∧
      g.reachables r u = .error .panic ∧ g.leftDegree r u = .ok 0 ∧ g.rightDegree u = 0 ∧ g.degree r u = .ok 0 := by
  obtain ⟨g, h1, m, I, hs⟩ := ReachGraph.convert_holds h.inv k σ τ ρ hr hr' hsz
  have hn := I.get_none hu
  have e1 : g.indexOf u = .error .panic := by unfold ReachGraph.indexOf; rw [hn]; rfl
  have e2 : g.reachables r u = .error .panic := by unfold ReachGraph.reachables; rw [e1]; rfl
  have e3 : g.leftDegree r u = .ok 0 := by
    unfold ReachGraph.leftDegree LinGraph.defaultLeftDegree
    have : g.indices.contains u = false := by
      cases hc : g.indices.contains u with
      | false => rfl
      | true => exact absurd ((I.contains u).1 hc) hu
    simp [this]
  have e4 : g.rightDegree u = 0 := by
    unfold ReachGraph.rightDegree
    rw [I.rdeg, Finset.card_eq_zero, Finset.eq_empty_iff_forall_notMem]
    intro w hw
    exact hu (SGraph.mem_after.1 hw).1.left
  refine ⟨g, h1, e1, ?_, e2, e3, e4, ?_⟩
  · unfold ReachGraph.leftNeighbours; rw [e2]; rfl
  · unfold ReachGraph.degree; rw [e3, e4]; rfl

/-- `C89_reachgraph_missing` for a path with three vertices. -/
example := fun k σ τ ρ u hu => C89_reachgraph_missing exReach.choose_spec.choose_spec.1 k σ τ ρ (by decide) (by decide) (exReach.choose_spec.choose_spec.2.2.1 k) (u := u) hu

/-- The path 0-1-2 with the ordering 2, 0, 1: `index_of(0)` is 3 in the `DegenGraph`, but 0 has position 1. -/
theorem C89_refuted : ¬ C89_statement := by
  intro hall
  obtain ⟨G, S, h1, h2, h3, h12, h02, h4, h5, h6, -⟩ := exOrd
  obtain ⟨g, h, -⟩ := C45_with_ordering h1 h2 h4 h5 h6
  have B : g.Built S [2, 0, 1] := .make h1 h2 h4 h5 h6 h
  have := (hall S [2, 0, 1] 0 h3.left).2.1 g B
  obtain ⟨i, e, -, h7, -⟩ := C89_degengraph_partial B h3.left
  rw [this] at e
  cases e
  revert h7
  decide

/-- The same for a `ReachGraph`, for strong and for weak reachability. -/
theorem C89_refuted_reachgraph : ∃ (S : SGraph) (o : OrdGraph) (ord : List ℕ) (u : ℕ), OrdGraph.Built S o ord ∧ u ∈ S.V ∧
    ∀ k : ReachKind, k.size S ord 2 < 2 ^ 32 ∧ ∀ σ τ ρ, ∃ g i, k.convert σ τ ρ 2 o = .ok g ∧ g.indexOf u = .ok i ∧
      i ≠ ord.idxOf u := by
  obtain ⟨S, o, h1, h2, h3, -⟩ := exReach
  refine ⟨S, o, _, 0, h1, h2.left, fun k => ⟨h3 k, fun σ τ ρ => ?_⟩⟩
  obtain ⟨g, i, h4, h5, -, -, h6⟩ := C89_reachgraph_partial h1 k σ τ ρ (by decide) (by decide) (h3 k) h2.left
  exact ⟨g, i, h4, h5, fun he => absurd (h6.1 he) (by decide)⟩

/-- Hypotheses of `C89_ordgraph`, `C89_reachgraph_partial` and `C89_reachgraph_missing` are met. -/
example : ∃ (S : SGraph) (o : OrdGraph) (ord : List ℕ), OrdGraph.Built S o ord ∧ 0 ∈ S.V ∧ ord.idxOf 0 = 1 ∧ 5 ∉ S.V ∧
    ∀ k : ReachKind, k.size S ord 2 < 2 ^ 32 := by
  obtain ⟨S, o, h1, h2, h3, -⟩ := exReach
  exact ⟨S, o, _, h1, h2.left, by decide, fun h => absurd ((h1.inv.ordering.mem 5).2 h) (by decide), h3⟩

/-- Hypotheses of `C89_degengraph_partial` are met. -/
example : ∃ (g : DegenGraph) (S : SGraph) (ord : List ℕ), g.Built S ord ∧ 0 ∈ S.V ∧ ord.idxOf 0 = 1 := by
  obtain ⟨G, S, h1, h2, h3, -, -, h4, h5, h6, -⟩ := exOrd
  obtain ⟨g, h, -⟩ := C45_with_ordering h1 h2 h4 h5 h6
  exact ⟨g, S, _, .make h1 h2 h4 h5 h6 h, h3.left, by decide⟩

end Verif
