import Verif.Lemmas.Width
import Verif.Props.ReachNest
import Verif.Props.LinearAlg2
import Verif.Props.Invariance
/-!
# C127, C128: reachable sets, degeneracy, treewidth and treedepth

The sizes of the strongly and weakly reachable sets interpolate between the degeneracy (radius 1), the treewidth and the
treedepth (radius at least the number of vertices minus one).
-/
namespace Verif

open Classical in
theorem LinGraph.LRep.sreach_sizes_eq {L : LinGraph} {S : SGraph} {ord : List ℕ} (H : L.LRep S ord) {σ τ : ℕ → ℕ → Shuffle ℕ} {r : ℕ}
    (hr : 1 ≤ r) (hk : r < 2 ^ 32) (hn : S.V.card < 2 ^ 32) {m : HMap ℕ ℕ} (h : L.sreachSizes σ τ r = .ok m) :
    (∀ u c, m.get? u = some c → u ∈ S.V) ∧
      ∀ u ∈ S.V, m.get? u = some (S.V.filter (fun v => ∃ d ≤ r, S.SReach ord u v d)).card := by
  obtain ⟨m', h', h1, h2⟩ := C52_sreach_sizes H σ τ hr hk hn
  rw [h] at h'
  cases h'
  exact ⟨fun u c hc => (h1 u).1 (HMap.mem_keys_iff.2 ⟨c, hc⟩), h2⟩

open Classical in
theorem LinGraph.LRep.wreach_sizes_eq {L : LinGraph} {S : SGraph} {ord : List ℕ} (H : L.LRep S ord) {σ τ : ℕ → ℕ → Shuffle ℕ} {r : ℕ}
    (hk : r + 1 < 2 ^ 32) (hn : S.V.card < 2 ^ 32) {m : HMap ℕ ℕ} (h : L.wreachSizes σ τ r = .ok m) :
    (∀ u c, m.get? u = some c → u ∈ S.V) ∧
      ∀ u ∈ S.V, m.get? u = some (S.V.filter (fun v => ∃ d ≤ r, S.WReach ord u v d)).card := by
  obtain ⟨m', h', h1, h2⟩ := C53_wreach_sizes H σ τ hk hn
  rw [h] at h'
  cases h'
  exact ⟨fun u c hc => (h1 u).1 (HMap.mem_keys_iff.2 ⟨c, hc⟩), h2⟩

/-! ## C127 -/

/-- **C127, degeneracy.** If no value of `sreach_sizes(r)` exceeds `s`, for any ordering and any radius, then the degeneracy of
the graph is at most `s`. -/
theorem C127_degeneracy {L : LinGraph} {S : SGraph} {ord : List ℕ} (H : L.LRep S ord) {σ τ : ℕ → ℕ → Shuffle ℕ} {r : ℕ}
    (hr : 1 ≤ r) (hk : r < 2 ^ 32) (hn : S.V.card < 2 ^ 32) {m : HMap ℕ ℕ} (h : L.sreachSizes σ τ r = .ok m) {s k : ℕ}
    (hs : ∀ v c, m.get? v = some c → c ≤ s) (hd : S.IsDegeneracy k) : k ≤ s := by
  classical
  obtain ⟨-, hm⟩ := H.sreach_sizes_eq hr hk hn h
  refine hd.2 s fun W hW hne => ?_
  obtain ⟨w, hw, hmax⟩ := Finset.exists_max_image W (fun x => ord.idxOf x) hne
  refine ⟨w, hw, le_trans (Finset.card_le_card fun v hv => ?_) (hs w _ (hm w (hW hw)))⟩
  obtain ⟨hvW, ha⟩ := Finset.mem_filter.1 hv
  have hlt : ord.idxOf v < ord.idxOf w := by
    refine lt_of_le_of_ne (hmax v hvW) fun e => ?_
    rw [H.ordering.idxOf_inj (hW hvW) e] at ha
    exact H.loopless _ ha
  refine Finset.mem_filter.2 ⟨hW hvW, 1, hr, SGraph.sreach_walk.2 ⟨hlt, .one ha, fun n hn hw => ?_⟩⟩
  obtain rfl : n = 0 := by omega
  cases hw

/-- **C127, degeneracy order.** The order computed by `degeneracy` attains this bound for radius 1: if the reported upper bound
is at most 129, it is the largest value of `sreach_sizes(1)`. -/
theorem C127_degeneracy_order {G : Graph} {S : SGraph} (hG : G.Rep S) (hl : S.Loopless) (hn : S.V.card ≤ 2 ^ 31)
    {ρ : ℕ → Shuffle Vertex} {lo up : ℕ} {ord : List ℕ} {core : HMap ℕ ℕ} (hd : G.degeneracy ρ = .ok (lo, up, ord, core))
    (hup : up ≤ 129) : ∃ o, OrdGraph.withOrdering G ord = .ok o ∧ ∀ o', OrdGraph.Relayout o o' →
      ∀ (σ τ : ℕ → ℕ → Shuffle ℕ) m, o'.lin.sreachSizes σ τ 1 = .ok m →
        (∀ v c, m.get? v = some c → c ≤ up) ∧ ((∃ v, v ∈ S.V) → ∃ v, m.get? v = some up) := by
  classical
  obtain ⟨lo', up', ord', core', hd', hnd, hmem, -, hb⟩ := C38_degeneracy_order hG hl hn ρ
  rw [hd] at hd'
  cases hd'
  have hdeg := (hG.degeneracy_exact hl hn hd hup).2
  obtain ⟨o, ho, hR⟩ := C43_with_ordering hG hl hnd hmem
  refine ⟨o, ho, fun o' ho' σ τ m hm => ?_⟩
  have H := (hR o' ho').lin
  obtain ⟨hV, hsz⟩ := H.sreach_sizes_eq (le_refl 1) (by omega) (by omega) hm
  have hle : ∀ v c, m.get? v = some c → c ≤ up := by
    intro v c hc
    have hv := hV v c hc
    rw [hsz v hv] at hc
    cases hc
    have hbt : bucketTop up = up := by
      unfold bucketTop
      split
      · rfl
      · obtain rfl : up = 129 := by omega
        rfl
    have := hb v hv
    rw [hbt] at this
    refine le_trans (Finset.card_le_card fun u hu => ?_) this
    obtain ⟨-, d, hd, h⟩ := Finset.mem_filter.1 hu
    obtain ⟨hlt, h1, -⟩ := SGraph.sreach_walk.1 h
    have ha : S.Adj v u := by
      cases h1 with
      | one h => exact h
      | @cons n _ w _ h hw t =>
        exfalso
        have : ∀ {P : ℕ → Prop} {n a b}, S.WalkVia P n a b → 1 ≤ n := by
          intro P n a b h; cases h <;> omega
        have := this t
        omega
    exact (S.mem_before).2 ⟨ha, hlt⟩
  refine ⟨hle, fun ⟨x, hx⟩ => ?_⟩
  by_contra hno
  push Not at hno
  have h1 : up ≤ up - 1 := C127_degeneracy H (le_refl 1) (by omega) (by omega) hm (s := up - 1) (fun v c hc => by
    have h1 := hle v c hc
    have h2 : c ≠ up := fun e => hno v (by rw [hc, e])
    omega) hdeg
  have h0 : up = 0 := by omega
  have h2 := hsz x hx
  have h3 := hle x _ h2
  exact hno x (by rw [h2]; congr 1; omega)

/-- `C127_degeneracy_order` for a triangle with a pendant vertex. -/
example := fun ρ lo up ord core (h : caseG.view.degeneracy ρ = .ok (lo, up, ord, core)) (hup : up ≤ 129) =>
  C127_degeneracy_order caseG_rep caseS_loopless caseS_card h hup

/-- The graph in which two vertices are joined if one of them is in the set that the map `m` holds for the other. -/
def Joined (m : HMap ℕ (HMap ℕ ℕ)) (u v : ℕ) : Prop :=
  (∃ s d, m.get? u = some s ∧ s.get? v = some d) ∨ ∃ s d, m.get? v = some s ∧ s.get? u = some d

theorem LinGraph.LRep.joined_iff {L : LinGraph} {S : SGraph} {ord : List ℕ} (H : L.LRep S ord) {σ τ : ℕ → ℕ → Shuffle ℕ} {r : ℕ}
    (hr : 1 ≤ r) (hn : S.V.card ≤ r + 1) (hk : r < 2 ^ 32) {m : HMap ℕ (HMap ℕ ℕ)} (h : L.sreachSets σ τ r = .ok m) (u v : ℕ) :
    Joined m u v ↔ S.SR ord u v ∨ S.SR ord v u := by
  obtain ⟨h1, h2⟩ := H.has_sreach hr hk h
  have key : ∀ u v, (∃ s d, m.get? u = some s ∧ s.get? v = some d) ↔ S.SR ord u v := by
    intro u v
    constructor
    · rintro ⟨s, d, hs, hd⟩
      exact ⟨d, ((h2 u s hs v d).1 hd).1⟩
    · rintro ⟨d, hd⟩
      have hu : u ∈ S.V := by
        have := (SGraph.sr_iff.1 ⟨d, hd⟩).2
        obtain ⟨n, hw⟩ := this
        cases hw with
        | one h => exact h.left
        | cons h _ _ => exact h.left
      obtain ⟨s, hs⟩ := HMap.mem_keys_iff.1 ((h1 u).2 hu)
      exact ⟨s, d, hs, (h2 u s hs v d).2 ⟨hd, by have := hd.lt_card; omega⟩⟩
  exact or_congr (key u v) (key v u)

/-- **C127, fill-in.** For a radius of at least the number of vertices minus one, `sreach_sets` computes the least chordal
completion of the graph for which the reversed ordering is a perfect elimination ordering: joining every vertex to its strongly
reachable set gives such a completion, and every other one contains it. -/
theorem C127_fill_in {L : LinGraph} {S : SGraph} {ord : List ℕ} (H : L.LRep S ord) {σ τ : ℕ → ℕ → Shuffle ℕ} {r : ℕ}
    (hr : 1 ≤ r) (hn : S.V.card ≤ r + 1) (hk : r < 2 ^ 32) {m : HMap ℕ (HMap ℕ ℕ)} (h : L.sreachSets σ τ r = .ok m) :
    S.Completion ord (Joined m) ∧ ∀ R, S.Completion ord R → ∀ u v, Joined m u v → R u v := by
  have e : Joined m = fun u v => S.SR ord u v ∨ S.SR ord v u := by
    funext u v
    exact propext (H.joined_iff hr hn hk h u v)
  rw [e]
  refine ⟨SGraph.completion_sr H.ordering H.loopless, fun R C u v => ?_⟩
  rintro (h | h)
  · exact C.sr H.ordering h
  · exact C.symm _ _ (C.sr H.ordering h)

/-- **C127, treewidth from above.** If no value of `sreach_sizes(r)`, for some `r` of at least the number of vertices minus one,
exceeds `k`, then the treewidth is at most `k`. -/
theorem C127_treewidth_upper {L : LinGraph} {S : SGraph} {ord : List ℕ} (H : L.LRep S ord) {σ τ : ℕ → ℕ → Shuffle ℕ} {r : ℕ}
    (hr : 1 ≤ r) (hn : S.V.card ≤ r + 1) (hk : r + 1 < 2 ^ 32) {m : HMap ℕ ℕ} (h : L.sreachSizes σ τ r = .ok m) {k : ℕ}
    (hs : ∀ v c, m.get? v = some c → c ≤ k) : S.TreewidthLE k := by
  classical
  obtain ⟨-, hm⟩ := H.sreach_sizes_eq hr (by omega) (by omega) h
  refine (SGraph.treewidth_iff H.loopless k).2 ⟨ord, H.ordering, fun v hv => ?_⟩
  refine le_trans (Finset.card_le_card fun u hu => ?_) (hs v _ (hm v hv))
  obtain ⟨h1, h2⟩ := Finset.mem_filter.1 hu
  exact Finset.mem_filter.2 ⟨h1, (SGraph.sr_le hn).2 h2⟩

/-- **C127, treewidth attained.** If the treewidth is at most `k`, there is an ordering, accepted by `with_ordering`, for which no
value of `sreach_sizes(r)` exceeds `k`, for any radius. -/
theorem C127_treewidth_attained {G : Graph} {S : SGraph} (hG : G.Rep S) (hl : S.Loopless) (hn : S.V.card < 2 ^ 32) {k : ℕ}
    (hw : S.TreewidthLE k) : ∃ ord o, OrdGraph.withOrdering G ord = .ok o ∧ ∀ o', OrdGraph.Relayout o o' → o'.lin.LRep S ord ∧
      ∀ (σ τ : ℕ → ℕ → Shuffle ℕ) r m, 1 ≤ r → r < 2 ^ 32 → o'.lin.sreachSizes σ τ r = .ok m →
        ∀ v c, m.get? v = some c → c ≤ k := by
  classical
  obtain ⟨ord, O, h⟩ := (SGraph.treewidth_iff hl k).1 hw
  obtain ⟨o, ho, hR⟩ := C43_with_ordering hG hl O.nodup O.mem
  refine ⟨ord, o, ho, fun o' ho' => ⟨(hR o' ho').lin, fun σ τ r m hr hk hm v c hc => ?_⟩⟩
  obtain ⟨h1, h2⟩ := (hR o' ho').lin.sreach_sizes_eq hr hk hn hm
  have hv := h1 v c hc
  rw [h2 v hv] at hc
  cases hc
  refine le_trans (Finset.card_le_card fun u hu => ?_) (h v hv)
  obtain ⟨h3, d, -, h4⟩ := Finset.mem_filter.1 hu
  exact Finset.mem_filter.2 ⟨h3, d, h4⟩

/-- **C127, lower bound.** The lower bound returned by `degeneracy` is at most the treewidth. -/
theorem C127_degeneracy_treewidth {G : Graph} {S : SGraph} (hG : G.Rep S) (hl : S.Loopless) (hn : S.V.card ≤ 2 ^ 31)
    {ρ : ℕ → Shuffle Vertex} {lo up : ℕ} {ord : List ℕ} {core : HMap ℕ ℕ} (hd : G.degeneracy ρ = .ok (lo, up, ord, core))
    {k : ℕ} (hw : S.TreewidthLE k) : lo ≤ k := by
  obtain ⟨d, hk⟩ := S.exists_degeneracy
  obtain ⟨lo', up', ord', core', h', h1, -⟩ := C40_bounds_partial hG hl hn ρ hk
  rw [hd] at h'
  cases h'
  obtain ⟨ord, o, -, ho⟩ := C127_treewidth_attained hG hl (by omega) hw
  obtain ⟨H, h2⟩ := ho o (.refl o)
  obtain ⟨m, hm, -⟩ := C52_sreach_sizes H (fun _ _ => Shuffle.id) (fun _ _ => Shuffle.id) (le_refl 1) (by omega) (by omega)
  exact h1.trans (C127_degeneracy H (le_refl 1) (by omega) (by omega) hm (h2 _ _ 1 m (le_refl 1) (by omega) hm) hk)

/-! ## C128 -/

/-- **C128, elimination forest.** For a radius of at least the number of vertices minus one, `v` is in the set that
`wreach_sets` holds for `u` exactly if `v` is before `u` and the two are connected in the graph induced by `v` and the vertices
after it. -/
theorem C128_components {L : LinGraph} {S : SGraph} {ord : List ℕ} (H : L.LRep S ord) {σ τ : ℕ → ℕ → Shuffle ℕ} {r : ℕ}
    (hn : S.V.card ≤ r + 1) (hk : r + 1 < 2 ^ 32) {m : HMap ℕ (HMap ℕ ℕ)} (h : L.wreachSets σ τ r = .ok m) {u : ℕ}
    {s : HMap ℕ ℕ} (hs : m.get? u = some s) (v : ℕ) :
    (∃ d, s.get? v = some d) ↔ ord.idxOf v < ord.idxOf u ∧ Conn (S.RightAdj ord v) v u := by
  obtain ⟨-, h2⟩ := H.has_wreach hk h
  constructor
  · rintro ⟨d, hd⟩
    obtain ⟨h3, h4⟩ := (SGraph.wreach_iff H.ordering).1 ((h2 u s hs v d).1 hd).1
    exact ⟨h3, d, h4.1⟩
  · rintro ⟨hlt, n, hw⟩
    have hw := hw.symm fun _ _ => SGraph.RightAdj.symm
    obtain ⟨k, -, hw⟩ := SGraph.walk_right H.ordering hw (by rintro rfl; omega)
    obtain ⟨d, -, hd⟩ := SGraph.WReach.exists_le hlt hw
    exact ⟨d, (h2 u s hs v d).2 ⟨hd, by have := hd.lt_card; omega⟩⟩

/-- **C128, treedepth from above.** If all values of `wreach_sizes(r)`, for some `r` of at least the number of vertices minus
one, are below `t`, then the treedepth is at most `t`. -/
theorem C128_treedepth_upper {L : LinGraph} {S : SGraph} {ord : List ℕ} (H : L.LRep S ord) {σ τ : ℕ → ℕ → Shuffle ℕ} {r : ℕ}
    (hn : S.V.card ≤ r + 1) (hk : r + 1 < 2 ^ 32) {m : HMap ℕ ℕ} (h : L.wreachSizes σ τ r = .ok m) {t : ℕ}
    (hs : ∀ v c, m.get? v = some c → c < t) : S.TreedepthLE t := by
  classical
  obtain ⟨-, hm⟩ := H.wreach_sizes_eq hk (by omega) h
  refine SGraph.treedepth_of_wr H.ordering fun v hv => ?_
  refine le_trans (Nat.add_le_add_right (Finset.card_le_card fun u hu => ?_) 1) (hs v _ (hm v hv))
  obtain ⟨h1, h2⟩ := Finset.mem_filter.1 hu
  exact Finset.mem_filter.2 ⟨h1, (SGraph.wr_le hn).2 h2⟩

/-- **C128, treedepth attained.** If the treedepth is at most `t`, there is an ordering, accepted by `with_ordering`, for which all
values of `wreach_sizes(r)` are below `t`, for any radius. -/
theorem C128_treedepth_attained {G : Graph} {S : SGraph} (hG : G.Rep S) (hl : S.Loopless) (hn : S.V.card < 2 ^ 32) {t : ℕ}
    (hw : S.TreedepthLE t) : ∃ ord o, OrdGraph.withOrdering G ord = .ok o ∧ ∀ o', OrdGraph.Relayout o o' → o'.lin.LRep S ord ∧
      ∀ (σ τ : ℕ → ℕ → Shuffle ℕ) r m, r + 1 < 2 ^ 32 → o'.lin.wreachSizes σ τ r = .ok m →
        ∀ v c, m.get? v = some c → c < t := by
  classical
  obtain ⟨ord, O, h⟩ := SGraph.wr_of_treedepth hl hw
  obtain ⟨o, ho, hR⟩ := C43_with_ordering hG hl O.nodup O.mem
  refine ⟨ord, o, ho, fun o' ho' => ⟨(hR o' ho').lin, fun σ τ r m hk hm v c hc => ?_⟩⟩
  obtain ⟨h1, h2⟩ := (hR o' ho').lin.wreach_sizes_eq hk hn hm
  have hv := h1 v c hc
  rw [h2 v hv] at hc
  cases hc
  refine le_trans (Nat.add_le_add_right (Finset.card_le_card fun u hu => ?_) 1) (h v hv)
  obtain ⟨h3, d, -, h4⟩ := Finset.mem_filter.1 hu
  exact Finset.mem_filter.2 ⟨h3, d, h4⟩

/-! ## Examples -/

/-- The path `2 - 0 - 1 - 3`. -/
def widthPath : List (ℕ × ℕ) := [(2, 0), (0, 1), (1, 3)]

/-- Hypotheses of the C127 and C128 theorems are met by a path; with the ends of the middle edge first, the sizes at radius 3
show that its treewidth is at most 1 and its treedepth at most 3. -/
example : ∃ (o : OrdGraph) (S : SGraph), o.lin.LRep S [0, 1, 2, 3] ∧ S.V.card = 3 + 1 ∧ S.Adj 0 1 ∧
    S.TreewidthLE 1 ∧ S.TreedepthLE 3 := by
  obtain ⟨o, ho, H⟩ := builtOrd_lin widthPath [0, 1, 2, 3] (by decide) (by decide) (by decide)
  obtain ⟨m, hm, hk, hv⟩ := C52_sreach_sizes H (fun _ _ => Shuffle.id) (fun _ _ => Shuffle.id) (r := 3) (by omega) (by omega)
    (by decide)
  obtain ⟨m', hm', -⟩ := C53_wreach_sizes H (fun _ _ => Shuffle.id) (fun _ _ => Shuffle.id) (r := 3) (by omega) (by decide)
  have e1 : ((builtOrd widthPath [0, 1, 2, 3]).bind fun o => (o.lin.sreachSizes (fun _ _ => Shuffle.id)
    (fun _ _ => Shuffle.id) 3).map fun m => m.keys.all fun v => decide (m.getD v 9 ≤ 1)) = .ok true := by decide +kernel
  have e2 : ((builtOrd widthPath [0, 1, 2, 3]).bind fun o => (o.lin.wreachSizes (fun _ _ => Shuffle.id)
    (fun _ _ => Shuffle.id) 3).map fun m => m.keys.all fun v => decide (m.getD v 9 < 3)) = .ok true := by decide +kernel
  rw [ho] at e1 e2
  simp only [Except.bind, hm, hm', Except.map, Except.ok.injEq, List.all_eq_true, decide_eq_true_eq] at e1 e2
  refine ⟨o, _, H, by decide, by decide, C127_treewidth_upper H (by omega) (by decide) (by omega) hm fun v c hc => ?_,
    C128_treedepth_upper H (by decide) (by omega) hm' fun v c hc => ?_⟩
  · have := e1 v (HMap.mem_keys_iff.2 ⟨c, hc⟩)
    rwa [HMap.getD, hc] at this
  · have := e2 v (HMap.mem_keys_iff.2 ⟨c, hc⟩)
    rwa [HMap.getD, hc] at this

example : ∃ (G : Graph) (S : SGraph) (lo up : ℕ) (ord : List ℕ) (core : HMap ℕ ℕ), G.Rep S ∧ S.Loopless ∧ S.V.card ≤ 2 ^ 31 ∧
    G.degeneracy (fun _ => Shuffle.id) = .ok (lo, up, ord, core) ∧ up ≤ 129 ∧ 1 ≤ up := by
  obtain ⟨⟨g, k⟩, hg, A, -⟩ := EditGraph.abs_new.addEdges widthPath
  have hl : ∀ u ∈ (SGraph.empty.addEdges widthPath).V, ¬ (SGraph.empty.addEdges widthPath).Adj u u := by decide
  have hl : (SGraph.empty.addEdges widthPath).Loopless := fun u h => hl u h.left h
  obtain ⟨lo, up, ord, core, h, -⟩ := C38_degeneracy_order A.rep hl (by decide) (fun _ => Shuffle.id)
  have e : ((built widthPath).bind fun g => (g.view.degeneracy (fun _ => Shuffle.id)).map fun r => r.2.1) = .ok 1 := by
    decide +kernel
  unfold built at e
  rw [hg] at e
  have e' : (g.view.degeneracy (fun _ => Shuffle.id)).map (fun r => r.2.1) = .ok 1 := e
  rw [h] at e'
  have e' : up = 1 := Except.ok.inj e'
  exact ⟨g.view, _, lo, up, ord, core, A.rep, hl, by decide, h, by omega, by omega⟩

end Verif
