import Verif.Props.ReachEq
import Verif.Props.Reach
import Verif.Props.Algorithms
import Verif.Props.DegenColour
import Verif.Props.Operations
import Verif.Model.Domset
import Verif.Model.DTFGraph
/-!
# C119: the algorithms on a `ReachGraph`

`ReachGraph` implements `LinearGraph`, but its `neighbours` is `panic!()` (`/repo/src/reachgraph.rs:157-159`).
-/
namespace Verif
open Finset

/-- The graph with another method `neighbours`. -/
def LinGraph.withNeighbours (L : LinGraph) (N : Vertex → Res (List Vertex)) : LinGraph :=
  { L with toGraph := { L.toGraph with neighbours := N } }

/-- Apart from `neighbours`, a `ReachGraph` answers like the ordered graph. -/
theorem ReachGraph.Inv.lrep {g : ReachGraph} {S : SGraph} {ord : List ℕ} {r : ℕ} {m : ℕ → HMap ℕ ℕ}
    (I : ReachGraph.Inv g S ord r m) :
    ((g.lin r).withNeighbours (fun u => .ok ((S.nbrs u).sort (· ≤ ·)))).LRep S ord where
  rep := {
    nv := I.represents.nv
    ne := I.represents.ne
    contains := I.represents.contains
    adjacent := I.represents.adjacent
    degree := I.represents.degree
    vnodup := by
      show (g.lin r).vertices.Nodup
      rw [I.represents.vertices]
      exact I.ordering.nodup
    vmem := fun u => by
      show u ∈ (g.lin r).vertices ↔ _
      rw [I.represents.vertices]
      exact I.ordering.mem u
    nbrs := fun u _ => ⟨_, rfl, Finset.sort_nodup _ _, fun w => by rw [Finset.mem_sort, SGraph.mem_nbrs]⟩ }
  loopless := I.loopless
  verts := I.represents.vertices
  index := I.represents.index
  index_lt := I.represents.index_lt
  left := I.represents.left
  rdeg := I.represents.rdeg
  ldeg := I.represents.ldeg

/-! ## Algorithms that call `neighbours` -/

section Blind
variable {G : Graph} {L : LinGraph}

/-- `neighbours` always panics. -/
def Graph.Blind (G : Graph) : Prop := ∀ u, G.neighbours u = .error .panic

theorem Graph.Blind.edges (hG : G.Blind) (h : G.vertices ≠ []) : G.edges = .error .panic := by
  unfold Graph.edges
  cases hv : G.vertices with
  | nil => exact absurd hv h
  | cons u l =>
    rw [List.foldlM_cons, hG u]
    rfl

theorem Graph.Blind.components (hG : G.Blind) (h : G.vertices ≠ []) (σ : Shuffle (List ℕ)) :
    G.components σ = .error .panic := by
  unfold Graph.components
  rw [hG.edges h]
  rfl

theorem Graph.Blind.isBipartite (hG : G.Blind) (h : G.vertices ≠ []) (σ : ℕ → Shuffle ℕ) (τ) :
    G.isBipartite σ τ = .error .panic := by
  unfold Graph.isBipartite
  have : Bip.outerLoop σ G (G.numVertices + 1) ⟨HSet.ofList G.vertices, ∅, none⟩ = .error .panic := by
    rw [Bip.outerLoop]
    obtain ⟨u, hu⟩ := List.exists_mem_of_ne_nil _ h
    have hu' : u ∈ (σ G.numVertices).run (HSet.ofList G.vertices).toList :=
      ((σ _).perm _).mem_iff.2 (by simpa using hu)
    cases hr : (σ G.numVertices).run (HSet.ofList G.vertices).toList with
    | nil => rw [hr] at hu'; cases hu'
    | cons x l =>
      simp only
      rw [Bip.colourLoop]
      have : (∅ : HMap ℕ (Bool × ℕ)).get? x = none := rfl
      simp only [this, hG x]
      rfl
  rw [this]
  rfl

theorem LinGraph.rightBfs_blind (hL : L.toGraph.Blind) {u i d : ℕ} (hi : L.indexOf u = .ok i) (h1 : 1 ≤ d)
    (hd : d + 1 < 2 ^ 32) (σ : ℕ → Shuffle ℕ) : L.rightBfs σ u d = .error .panic := by
  obtain ⟨k, rfl⟩ : ∃ k, d = k + 1 := ⟨d - 1, by omega⟩
  unfold LinGraph.rightBfs
  rw [hi, bind_ok, add32_ok hd, bind_ok]
  simp only [LinGraph.rightBfsLoop]
  have : (σ k).run (HSet.empty.insert u).toList = [u] := by
    have h1 : (HSet.empty.insert u).toList = [u] := rfl
    rw [h1]
    exact List.perm_singleton.1 ((σ k).perm _)
  rw [this, LinGraph.bfsLayer, List.foldlM_cons, hL u]
  rfl

theorem LinGraph.sreachSet_blind (hL : L.toGraph.Blind) {u i r : ℕ} (hi : L.indexOf u = .ok i) (h1 : 2 ≤ r)
    (hr : r < 2 ^ 32) (σ τ : ℕ → Shuffle ℕ) : L.sreachSet σ τ u r = .error .panic := by
  unfold LinGraph.sreachSet
  rw [usub_ok (by omega), bind_ok, LinGraph.rightBfs_blind hL hi (by omega) (by omega)]
  rfl

theorem LinGraph.wreachSets_blind (hL : L.toGraph.Blind) (hi : ∀ u ∈ L.vertices, ∃ i, L.indexOf u = .ok i)
    (h : L.vertices ≠ []) {r : ℕ} (h1 : 1 ≤ r) (hr : r + 1 < 2 ^ 32) (σ τ : ℕ → ℕ → Shuffle ℕ) :
    L.wreachSets σ τ r = .error .panic ∧ L.wreachSizes σ τ r = .error .panic := by
  unfold LinGraph.wreachSets LinGraph.wreachSizes
  cases hv : L.vertices with
  | nil => exact absurd hv h
  | cons u l =>
    obtain ⟨i, hu⟩ := hi u (by rw [hv]; simp)
    simp only [List.foldlM_cons, LinGraph.rightBfs_blind hL hu h1 hr]
    exact ⟨rfl, rfl⟩

theorem LinGraph.sreachSets_blind (hL : L.toGraph.Blind) (hi : ∀ u ∈ L.vertices, ∃ i, L.indexOf u = .ok i)
    (h : L.vertices ≠ []) {r : ℕ} (h1 : 2 ≤ r) (hr : r < 2 ^ 32) (σ τ : ℕ → ℕ → Shuffle ℕ) :
    L.sreachSets σ τ r = .error .panic ∧ L.sreachSizes σ τ r = .error .panic := by
  unfold LinGraph.sreachSets LinGraph.sreachSizes
  cases hv : L.vertices with
  | nil => exact absurd hv h
  | cons u l =>
    obtain ⟨i, hu⟩ := hi u (by rw [hv]; simp)
    simp only [List.foldlM_cons, LinGraph.sreachSet_blind hL hu h1 hr]
    exact ⟨rfl, rfl⟩

/-- The first vertex removed by `degeneracy` already needs `neighbours`. -/
theorem Graph.Blind.degeneracy (hG : G.Blind) {G' : Graph} (hv : G'.vertices = G.vertices) (hd : G'.degree = G.degree)
    (hn : G'.numVertices = G.numVertices) (h1 : 1 ≤ G.numVertices) {σ : ℕ → Shuffle ℕ} {x}
    (hx : G'.degeneracy σ = .ok x) : G.degeneracy σ = .error .panic := by
  unfold Graph.degeneracy at hx ⊢
  rw [hv, hd, hn] at hx
  obtain ⟨n, hn'⟩ : ∃ n, G.numVertices = n + 1 := ⟨G.numVertices - 1, by omega⟩
  rw [hn', List.range_succ_eq_map] at hx ⊢
  simp only [List.foldlM_cons] at hx ⊢
  revert hx
  generalize List.foldlM (fun (s : DegenState) v => do
    let d ← G.degree v
    return { s with degDict := s.degDict.insert v d, buckets := DegenState.bucketInsert s.buckets (calcIndex d) v })
    (⟨∅, ∅, ∅, 0, []⟩ : DegenState) G.vertices = s0
  intro hx
  cases s0 with
  | error e => cases hx
  | ok s0 =>
    rw [bind_ok] at hx ⊢
    unfold DegenState.step at hx ⊢
    cases h2 : DegenState.findBucket s0.buckets (2 ^ 31) 0 with
    | error e => rw [h2] at hx; cases hx
    | ok d =>
      rw [h2] at hx
      rw [bind_ok] at hx ⊢
      cases h3 : s0.buckets.get? d with
      | none => simp only [h3] at hx; cases hx
      | some B =>
        simp only [h3, unwrap_some, bind_ok] at hx ⊢
        cases h4 : ((σ 0).run B.toList).head? with
        | none => simp only [h4] at hx; cases hx
        | some v =>
          simp only [unwrap_some, bind_ok, hG v]
          rfl

end Blind

/-! ## Algorithms that only use the left neighbours -/

section Left
variable {L L' : LinGraph}

theorem foldlM_congr_mem {α β : Type} {f f' : β → α → Res β} : ∀ (l : List α) (b : β),
    (∀ a ∈ l, ∀ b, f b a = f' b a) → l.foldlM f b = l.foldlM f' b
  | [], _, _ => rfl
  | a :: l, b, h => by
    rw [List.foldlM_cons, List.foldlM_cons, h a (by simp)]
    cases f' b a with
    | error e => rfl
    | ok b' => exact foldlM_congr_mem l b' fun x hx => h x (by simp [hx])

theorem LinGraph.colourGreedy_congr (hv : L.vertices = L'.vertices)
    (hl : ∀ u ∈ L.vertices, L.leftNeighbours u = L'.leftNeighbours u) : L.colourGreedy = L'.colourGreedy := by
  unfold LinGraph.colourGreedy
  rw [← hv, foldlM_congr_mem L.vertices _ fun u hu st => ?_]
  unfold LinGraph.colourStep
  rw [hl u hu]

theorem LinGraph.bkPivot_congr (ha : L.adjacent = L'.adjacent) (v : ℕ) : ∀ fuel, L.bkPivot v fuel = L'.bkPivot v fuel
  | 0 => by
    funext a b c d e
    simp only [LinGraph.bkPivot]
  | fuel + 1 => by
    funext a b c d e
    simp only [LinGraph.bkPivot, ha, LinGraph.bkPivot_congr ha v fuel]

theorem LinGraph.countMaxCliques_congr (hv : L.vertices = L'.vertices) (ha : L.adjacent = L'.adjacent)
    (hl : ∀ u ∈ L.vertices, L.leftNeighbours u = L'.leftNeighbours u) : L.countMaxCliques = L'.countMaxCliques := by
  unfold LinGraph.countMaxCliques
  rw [← hv, foldlM_congr_mem L.vertices _ fun u hu st => ?_]
  unfold LinGraph.cliqueStep
  rw [hl u hu]
  simp only [LinGraph.bkPivot_congr ha]

theorem LinGraph.LRep.left_eq {S : SGraph} {ord : List ℕ} (H : L.LRep S ord) (H' : L'.LRep S ord) {u : ℕ} (hu : u ∈ S.V) :
    L.leftNeighbours u = L'.leftNeighbours u := by
  obtain ⟨l, h1, h2, h3⟩ := H.left u hu
  obtain ⟨l', h1', h2', h3'⟩ := H'.left u hu
  rw [h1, h1', H.ordering.eq_lefts h2 h3, H.ordering.eq_lefts h2' h3']

end Left

theorem ReachGraph.lin_blind (g : ReachGraph) (r : ℕ) : (g.lin r).toGraph.Blind := fun _ => rfl

/-- **C119, what does not work.** On a non-empty `ReachGraph`, every algorithm that needs `neighbours` panics: the iterator
`edges`, the algorithms for arbitrary graphs, the conversions, and the searches of the linear algorithms. -/
theorem C119_panics {S : SGraph} {o : OrdGraph} {ord : List ℕ} (h : OrdGraph.Built S o ord) (k : ReachKind)
    (σ τ : ℕ → ℕ → Shuffle ℕ) (ρ : ℕ → Shuffle (ℕ × ℕ)) {r : ℕ} (hr : 1 ≤ r) (hr' : r + 1 < 2 ^ 32)
    (hsz : k.size S ord r < 2 ^ 32) (hne : S.V.Nonempty) :
    ∃ g, k.convert σ τ ρ r o = .ok g ∧ EdgeIter.new (g.lin r).toGraph = .error .panic ∧
      MixedIter.new (g.lin r).toGraph = .error .panic ∧
      (∀ σ', (g.lin r).components σ' = .error .panic) ∧
      (∀ σ' τ', (g.lin r).isBipartite σ' τ' = .error .panic) ∧
      (∀ σ', (g.lin r).degeneracy σ' = .error .panic ∧ OrdGraph.byDegeneracy σ' (g.lin r).toGraph = .error .panic ∧
        DegenGraph.fromGraph σ' (g.lin r).toGraph = .error .panic ∧ DTFGraph.orient σ' (g.lin r).toGraph = .error .panic) ∧
      (∀ σ' u d, u ∈ S.V → 1 ≤ d → d + 1 < 2 ^ 32 → (g.lin r).rightBfs σ' u d = .error .panic) ∧
      (∀ σ' τ' u d, u ∈ S.V → 2 ≤ d → d < 2 ^ 32 → (g.lin r).sreachSet σ' τ' u d = .error .panic) ∧
      (∀ σ' τ' d, 2 ≤ d → d < 2 ^ 32 → (g.lin r).sreachSets σ' τ' d = .error .panic ∧
        (g.lin r).sreachSizes σ' τ' d = .error .panic) ∧
      (∀ σ' τ' d, 1 ≤ d → d + 1 < 2 ^ 32 → (g.lin r).wreachSets σ' τ' d = .error .panic ∧
        (g.lin r).wreachSizes σ' τ' d = .error .panic) ∧
      (∀ ω w d X, 1 ≤ d → d < 2 ^ 15 → X ≠ [] → (g.lin r).domsetWithTarget ω d w X = .error .panic) ∧
      (∀ ω w d, 1 ≤ d → d < 2 ^ 15 → (g.lin r).domset ω d w = .error .panic) ∧
      (∀ ω fuel d X, 1 ≤ d → d + 1 < 2 ^ 32 → X ≠ [] → (g.lin r).scatteredColouring ω fuel d X = .error .panic) := by
  obtain ⟨g, h1, m, I, -⟩ := ReachGraph.convert_holds h.inv k σ τ ρ hr hr' hsz
  have hv : (g.lin r).vertices = ord := I.represents.vertices
  obtain ⟨u0, hu0⟩ := hne
  have hvne : (g.lin r).vertices ≠ [] := by
    rw [hv]
    exact List.ne_nil_of_mem ((I.ordering.mem u0).2 hu0)
  have hB := g.lin_blind r
  have hidx : ∀ u ∈ (g.lin r).vertices, ∃ i, (g.lin r).indexOf u = .ok i := fun u hu =>
    I.represents.index u ((I.ordering.mem u).1 (hv ▸ hu))
  have hcard : S.V.card ≤ 2 ^ 31 := by
    have : ∑ u ∈ S.V, 3 ≤ k.size S ord r := Finset.sum_le_sum fun u _ => by omega
    rw [Finset.sum_const, smul_eq_mul] at this
    omega
  have hemp : (g.lin r).isEmpty = false := by
    have h1 : (g.lin r).numVertices = S.V.card := I.represents.nv
    have h2 := Finset.card_pos.2 ⟨u0, hu0⟩
    unfold Graph.isEmpty Graph.len
    rw [h1]
    simp
    exact Finset.ne_empty_of_mem hu0
  have hlen : ∀ X : List ℕ, X ≠ [] → ((HSet.ofList X).len == 0) = false := by
    intro X hX
    obtain ⟨x, hx⟩ := List.exists_mem_of_ne_nil X hX
    have : x ∈ (HSet.ofList X).toList := by simpa using hx
    rw [beq_eq_false_iff_ne]
    intro h0
    have h0 : (HSet.ofList X).toList.length = 0 := h0
    rw [List.length_eq_zero_iff.1 h0] at this
    cases this
  have hdom : ∀ ω w d X, 1 ≤ d → d < 2 ^ 15 → X ≠ [] → (g.lin r).domsetWithTarget ω d w X = .error .panic := by
    intro ω w d X hd hd' hX
    obtain ⟨od, ho, -⟩ := Dom.order I.lrep hcard
    have ho : (g.lin r).domOrder = .ok od := ho
    have hm : 2 * d * (2 * d) < 2 ^ 32 := by
      have := Nat.mul_le_mul (show 2 * d ≤ 2 ^ 16 - 2 by omega) (show 2 * d ≤ 2 ^ 16 - 2 by omega)
      omega
    unfold LinGraph.domsetWithTarget
    simp only [hemp, hlen X hX, Bool.or_self, Bool.false_eq_true, if_false]
    rw [mul32_ok (by omega), bind_ok, mul32_ok hm, bind_ok, ho, bind_ok, add32_ok (by omega), bind_ok,
      (LinGraph.wreachSets_blind hB hidx hvne hd (by omega) _ _).1]
    rfl
  refine ⟨g, h1, ?_, ?_, hB.components hvne, hB.isBipartite hvne, ?_, ?_, ?_, ?_, ?_, hdom, ?_, ?_⟩
  · unfold EdgeIter.new EdgeIter.advance
    cases he : (g.lin r).vertices with
    | nil => exact absurd he hvne
    | cons u l => simp only [hB u]; rfl
  · unfold MixedIter.new MixedIter.advance
    cases he : (g.lin r).vertices with
    | nil => exact absurd he hvne
    | cons u l => simp only [hB u]; rfl
  · intro σ'
    obtain ⟨lo, up, od, core, hd, -⟩ := C38_degeneracy_order I.lrep.rep I.loopless hcard σ'
    have h2 : (g.lin r).numVertices = S.V.card := I.represents.nv
    have h4 : 1 ≤ (g.lin r).numVertices := by rw [h2]; exact Finset.card_pos.2 ⟨u0, hu0⟩
    have h3 : (g.lin r).degeneracy σ' = .error .panic := Graph.Blind.degeneracy
      (G' := ((g.lin r).withNeighbours (fun u => .ok ((S.nbrs u).sort (· ≤ ·)))).toGraph) hB rfl rfl rfl h4 hd
    refine ⟨h3, ?_, ?_, ?_⟩
    · unfold OrdGraph.byDegeneracy; rw [h3]; rfl
    · unfold DegenGraph.fromGraph; rw [h3]; rfl
    · unfold DTFGraph.orient; rw [h3]; rfl
  · intro σ' u d hu hd hd'
    obtain ⟨i, hi⟩ := I.represents.index u hu
    exact LinGraph.rightBfs_blind hB hi hd hd' σ'
  · intro σ' τ' u d hu hd hd'
    obtain ⟨i, hi⟩ := I.represents.index u hu
    exact LinGraph.sreachSet_blind hB hi hd hd' σ' τ'
  · exact fun σ' τ' d hd hd' => LinGraph.sreachSets_blind hB hidx hvne hd hd' σ' τ'
  · exact fun σ' τ' d hd hd' => LinGraph.wreachSets_blind hB hidx hvne hd hd' σ' τ'
  · exact fun ω w d hd hd' => hdom ω w d _ hd hd' hvne
  · intro ω fuel d X hd hd' hX
    unfold LinGraph.scatteredColouring
    simp only [hemp, hlen X hX, Bool.or_self, Bool.false_eq_true, if_false]
    rw [(LinGraph.wreachSets_blind hB hidx hvne hd hd' _ _).1]
    rfl

/-- `C119_panics` for a path with three vertices. -/
example := fun k σ τ ρ => C119_panics exReach.choose_spec.choose_spec.1 k σ τ ρ (by decide) (by decide) (exReach.choose_spec.choose_spec.2.2.1 k) ⟨_, exReach.choose_spec.choose_spec.2.1.left⟩

/-- **C119, what works.** `colour_greedy` and `count_max_cliques` on a `ReachGraph` give what they give on the `OrdGraph` it was
made from, `sreach_set(u, 1)` and `sreach_sets(1)` give the left neighbours, and `invert` gives the complement. -/
theorem C119_works {S : SGraph} {o : OrdGraph} {ord : List ℕ} (h : OrdGraph.Built S o ord) (k : ReachKind)
    (σ τ : ℕ → ℕ → Shuffle ℕ) (ρ : ℕ → Shuffle (ℕ × ℕ)) {r : ℕ} (hr : 1 ≤ r) (hr' : r + 1 < 2 ^ 32)
    (hsz : k.size S ord r < 2 ^ 32) :
    ∃ g, k.convert σ τ ρ r o = .ok g ∧ (g.lin r).colourGreedy = o.lin.colourGreedy ∧
      (g.lin r).countMaxCliques = o.lin.countMaxCliques ∧
      (∀ σ' τ', ∀ u ∈ S.V, ∃ s, (g.lin r).sreachSet σ' τ' u 1 = .ok s ∧
        ∀ v d, s.get? v = some d ↔ d = 1 ∧ S.Adj u v ∧ ord.idxOf v < ord.idxOf u) ∧
      (∀ σ' τ', ∃ t, (g.lin r).sreachSets σ' τ' 1 = .ok t ∧ (∀ u, u ∈ t.keys ↔ u ∈ S.V) ∧
        ∀ u s, t.get? u = some s → ∀ v d, s.get? v = some d ↔ d = 1 ∧ S.Adj u v ∧ ord.idxOf v < ord.idxOf u) ∧
      ∃ c, (g.lin r).invert = .ok c ∧ EditGraph.Reachable c ∧ (∀ u, c.contains u = true ↔ u ∈ S.V) ∧
        ∀ a b, c.adjacent a b = true ↔ a ∈ S.V ∧ b ∈ S.V ∧ a ≠ b ∧ ¬ S.Adj a b := by
  obtain ⟨g, h1, m, I, -⟩ := ReachGraph.convert_holds h.inv k σ τ ρ hr hr' hsz
  have H := I.lrep
  have H' : o.lin.LRep S ord := h.inv.lrep
  have hv : (g.lin r).vertices = o.lin.vertices := by rw [I.represents.vertices, H'.verts]
  have hl : ∀ u ∈ (g.lin r).vertices, (g.lin r).leftNeighbours u = o.lin.leftNeighbours u := fun u hu =>
    H.left_eq H' ((H.rep.vmem u).1 hu)
  have ha : (g.lin r).adjacent = o.lin.adjacent := by
    funext u v
    rw [H'.rep.adjacent, I.represents.adjacent]
  have hs1 : ∀ u v d, S.SReach ord u v d ∧ d ≤ 1 ↔ d = 1 ∧ S.Adj u v ∧ ord.idxOf v < ord.idxOf u := by
    intro u v d
    constructor
    · rintro ⟨hS, hd⟩
      obtain rfl : d = 1 := by
        have := (ReachKind.rel_lt (k := .strong) hS).2
        omega
      exact ⟨rfl, (ReachKind.rel_one (k := .strong)).1 hS⟩
    · rintro ⟨rfl, hA⟩
      exact ⟨(ReachKind.rel_one (k := .strong)).2 hA, le_refl _⟩
  have hinv := C19_invert H.rep
  refine ⟨g, h1, LinGraph.colourGreedy_congr hv hl, LinGraph.countMaxCliques_congr hv ha hl, ?_, ?_, hinv⟩
  · intro σ' τ' u hu
    obtain ⟨s, h2, h3⟩ := C52_sreach_set H σ' τ' hu (le_refl 1) (by decide)
    exact ⟨s, h2, fun v d => (h3 v d).trans (hs1 u v d)⟩
  · intro σ' τ'
    obtain ⟨t, h2, h3, h4⟩ := C52_sreach_sets H σ' τ' (le_refl 1) (by decide)
    exact ⟨t, h2, h3, fun u s hs v d => (h4 u s hs v d).trans (hs1 u v d)⟩

/-- `C119_works` for a path with three vertices. -/
example := fun k σ τ ρ => C119_works exReach.choose_spec.choose_spec.1 k σ τ ρ (by decide) (by decide) (exReach.choose_spec.choose_spec.2.2.1 k)

/-- On the empty `ReachGraph` nothing panics: there is no vertex whose neighbours are needed. -/
theorem C119_empty (r : ℕ) : (ReachBuilder.new.g.lin r).degeneracy (fun _ => .id) = .ok (0, 0, [], ∅) ∧
    (ReachBuilder.new.g.lin r).edges = .ok [] ∧ (ReachBuilder.new.g.lin r).colourGreedy = .ok ∅ ∧
    (ReachBuilder.new.g.lin r).countMaxCliques = .ok 0 := ⟨rfl, rfl, rfl, rfl⟩

/-- Hypotheses of `C119_panics` and `C119_works` are met. -/
example : ∃ (S : SGraph) (o : OrdGraph) (ord : List ℕ), OrdGraph.Built S o ord ∧ S.V.Nonempty ∧ S.Adj 0 1 ∧
    ∀ k : ReachKind, k.size S ord 2 < 2 ^ 32 := by
  obtain ⟨S, o, h1, h2, h3, -⟩ := exReach
  exact ⟨S, o, _, h1, ⟨_, h2.left⟩, h2, h3⟩

end Verif
