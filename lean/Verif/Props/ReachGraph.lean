import Verif.Lemmas.ReachGraph
import Verif.Props.Reach
import Mathlib.Algebra.Order.BigOperators.Group.Finset
/-!
# C49, C50: `ReachGraph`
-/
namespace Verif

/-! ## Construction -/

theorem SGraph.pathVia_min_one {S : SGraph} {P : ℕ → Prop} {u v : ℕ} (huv : u ≠ v) :
    IsMin (fun n => S.PathVia P n u v) 1 ↔ S.Adj u v := by
  constructor
  · rintro ⟨⟨p, h1, -, h3, -⟩, -⟩
    obtain rfl : p = [] := List.length_eq_zero_iff.1 (by omega)
    simpa using h1
  · intro h
    refine ⟨⟨[], by simpa using h, by simpa using huv, rfl, by simp⟩, ?_⟩
    rintro m hm ⟨p, -, -, h3, -⟩
    omega

theorem SGraph.pathVia_min_pos {S : SGraph} {P : ℕ → Prop} {u v d : ℕ} (h : IsMin (fun n => S.PathVia P n u v) d) :
    1 ≤ d := by
  obtain ⟨⟨p, -, -, h3, -⟩, -⟩ := h
  omega

/-- Strong and weak reachability. -/
inductive ReachKind
  | strong
  | weak

/-- The reachability relation stored by `to_sreach_graph` / `to_wreach_graph`. -/
def ReachKind.rel (S : SGraph) (ord : List ℕ) : ReachKind → ℕ → ℕ → ℕ → Prop
  | .strong => S.SReach ord
  | .weak => S.WReach ord

/-- The conversions `to_sreach_graph` / `to_wreach_graph`. -/
def ReachKind.convert (σ τ : Vertex → Nat → Shuffle Vertex) (ρ : Vertex → Shuffle (Vertex × Nat)) (r : Nat)
    (g : OrdGraph) : ReachKind → Res ReachGraph
  | .strong => g.toSreachGraph σ τ ρ r
  | .weak => g.toWreachGraph σ τ ρ r

theorem ReachKind.rel_lt {S : SGraph} {ord : List ℕ} {k : ReachKind} {u x d : ℕ} (h : k.rel S ord u x d) :
    ord.idxOf x < ord.idxOf u ∧ 1 ≤ d := by
  cases k with
  | strong => exact ⟨h.1, SGraph.pathVia_min_pos h.2⟩
  | weak => exact ⟨h.1, SGraph.pathVia_min_pos h.2⟩

theorem ReachKind.rel_one {S : SGraph} {ord : List ℕ} {k : ReachKind} {u x : ℕ} :
    k.rel S ord u x 1 ↔ S.Adj u x ∧ ord.idxOf x < ord.idxOf u := by
  have : ∀ P, (ord.idxOf x < ord.idxOf u ∧ IsMin (fun n => S.PathVia P n u x) 1) ↔
      S.Adj u x ∧ ord.idxOf x < ord.idxOf u := by
    intro P
    rw [and_comm]
    refine and_congr_left fun h => SGraph.pathVia_min_one ?_
    rintro rfl; omega
  cases k with
  | strong => exact this _
  | weak => exact this _

open Classical in
/-- Number of entries needed to store the reachable sets. -/
noncomputable def ReachKind.size (S : SGraph) (ord : List ℕ) (r : ℕ) (k : ReachKind) : ℕ :=
  ∑ u ∈ S.V, (r + 2 + (S.V.filter (fun v => ∃ d ≤ r, k.rel S ord u v d)).card)

namespace ReachGraph
open Blocks

theorem rv_length {S : SGraph} {ord : List ℕ} {r : ℕ} {m : ℕ → HMap ℕ ℕ} (O : S.Ordering ord) (hm : Good S ord r m)
    {k : ReachKind} (hs : ∀ u ∈ S.V, ∀ x d, (m u).get? x = some d ↔ k.rel S ord u x d ∧ d ≤ r) :
    off (pay ord r m) ord = k.size S ord r := by
  classical
  unfold off ReachKind.size
  have hV : S.V = ord.toFinset := by ext w; rw [List.mem_toFinset, O.mem]
  rw [Finset.sum_congr hV fun _ _ => rfl, List.sum_toFinset _ O.nodup]
  congr 1
  refine List.map_congr_left fun u hu => ?_
  have hu' := (O.mem u).1 hu
  rw [bs, length_pay, show 2 + (r + (rv ord r m u).length) = r + 2 + (rv ord r m u).length by omega]
  congr 1
  have hn : (rv ord r m u).Nodup := (rv_key O u).imp fun h he => by rw [he] at h; omega
  rw [← List.toFinset_card_of_nodup hn]
  congr 1
  ext x
  rw [List.mem_toFinset, mem_rv O hm hu', Finset.mem_filter]
  constructor
  · rintro ⟨d, hd⟩
    have := (hs u hu' x d).1 hd
    exact ⟨(hm u hu' x d hd).1, d, this.2, this.1⟩
  · rintro ⟨-, d, h1, h2⟩
    exact ⟨d, (hs u hu' x d).2 ⟨h2, h1⟩⟩

/-- A graph storing the reachable sets of kind `k`. -/
def Holds (g : ReachGraph) (S : SGraph) (ord : List ℕ) (r : ℕ) (k : ReachKind) : Prop :=
  ∃ m, Inv g S ord r m ∧ ∀ u ∈ S.V, ∀ x d, (m u).get? x = some d ↔ k.rel S ord u x d ∧ d ≤ r

theorem good_of {S : SGraph} {ord : List ℕ} {r : ℕ} {m : ℕ → HMap ℕ ℕ} (O : S.Ordering ord) {k : ReachKind}
    (hs : ∀ u ∈ S.V, ∀ x d, (m u).get? x = some d ↔ k.rel S ord u x d ∧ d ≤ r) : Good S ord r m := by
  intro u hu x d hd
  obtain ⟨h1, h2⟩ := (hs u hu x d).1 hd
  obtain ⟨h3, h4⟩ := ReachKind.rel_lt h1
  refine ⟨(O.mem x).1 ?_, h3, h4, h2⟩
  have := O.idxOf_lt hu
  exact List.idxOf_lt_length_iff.1 (by omega)

theorem convert_holds {S : SGraph} {g : OrdGraph} {ord : List ℕ} (H : OrdGraph.Inv g S ord) (k : ReachKind)
    (σ τ : ℕ → ℕ → Shuffle ℕ) (ρ : ℕ → Shuffle (ℕ × ℕ)) {r : ℕ} (hr : 1 ≤ r) (hr' : r + 1 < 2 ^ 32)
    (hsz : k.size S ord r < 2 ^ 32) : Ok (k.convert σ τ ρ r g) (fun w => Holds w S ord r k) := by
  have O := H.ordering
  have ho : ∀ x ∈ S.V, g.indices.get? x = some (ord.idxOf x) := fun x hx => H.get hx
  have key : ∀ (m : ℕ → HMap ℕ ℕ) (f : ReachBuilder → ℕ → Res ReachBuilder),
      (∀ u ∈ S.V, ∀ x d, (m u).get? x = some d ↔ k.rel S ord u x d ∧ d ≤ r) →
      (∀ b u, u ∈ S.V → f b u = b.append r u ((ρ u).run (m u).entries) g.indices) →
      Ok (do let b ← ord.foldlM f ReachBuilder.new; return b.g) (fun w => Holds w S ord r k) := by
    intro m f hs hf
    have hm := good_of O hs
    have h1 : ∀ u ∈ S.V, ∀ x, (m u).get? x = some 1 ↔ S.Adj u x ∧ ord.idxOf x < ord.idxOf u := by
      intro u hu x
      rw [hs u hu, ReachKind.rel_one]
      exact ⟨And.left, fun h => ⟨h, hr⟩⟩
    exact (build_inv O H.loopless hr hm h1 (by rw [rv_length O hm hs]; exact hsz) ho hf).mono fun w hw => ⟨m, hw, hs⟩
  cases k with
  | strong =>
    show Ok (g.toSreachGraph σ τ ρ r) _
    unfold OrdGraph.toSreachGraph
    rw [show g.lin.vertices = ord from H.vertices, cast32_of_lt (by omega)]
    have hset : ∀ u, ∃ s, u ∈ S.V → g.lin.sreachSet (σ u) (τ u) u r = .ok s ∧
        ∀ v d, s.get? v = some d ↔ S.SReach ord u v d ∧ d ≤ r := by
      intro u
      by_cases hu : u ∈ S.V
      · obtain ⟨s, h1, h2⟩ := H.lrep.sreachSet (σ u) (τ u) hu hr (by omega)
        exact ⟨s, fun _ => ⟨h1, h2⟩⟩
      · exact ⟨∅, fun h => absurd h hu⟩
    choose m hm using hset
    refine key m _ (fun u hu => (hm u hu).2) ?_
    intro b u hu
    rw [(hm u hu).1, bind_ok]
  | weak =>
    show Ok (g.toWreachGraph σ τ ρ r) _
    unfold OrdGraph.toWreachGraph
    rw [show g.lin.vertices = ord from H.vertices, cast32_of_lt (by omega)]
    obtain ⟨ws, h1, h2, h3⟩ := H.lrep.wreachSets σ τ hr'
    rw [h1, bind_ok]
    have hget : ∀ u ∈ S.V, ∃ s, ws.get? u = some s := fun u hu => HMap.mem_keys_iff.1 ((h2 u).2 hu)
    refine key (fun u => (ws.get? u).getD ∅) _ ?_ ?_
    · intro u hu
      obtain ⟨s, hs⟩ := hget u hu
      rw [hs]
      exact h3 u s hs
    · intro b u hu
      obtain ⟨s, hs⟩ := hget u hu
      rw [hs]
      rfl

end ReachGraph

/-! ## C49 -/

/-- `g` stores for every vertex `u` of `S` the vertices `x` with `R u x d`, `1 ≤ d ≤ r`: `reachables(u).at(d)` lists
exactly those of distance `d`, in order; `reachables_all(u)` is the concatenation for `d = 1, …, r`; `iter()` visits all
vertices in order, each with its reachable sets, without panicking. -/
structure ReachGraph.Stores (g : ReachGraph) (S : SGraph) (ord : List ℕ) (r : ℕ) (R : ℕ → ℕ → ℕ → Prop) : Prop where
  sets : ∀ u ∈ S.V, ∃ (B : Reachables) (ls : List (List ℕ)), g.reachables r u = .ok B ∧ B.src = u ∧ ls.length = r ∧
    (∀ (d : ℕ) l, ls[d]? = some l → B.at' (d + 1) = .ok l ∧ l.Pairwise (fun a b => ord.idxOf a < ord.idxOf b) ∧
      ∀ x, x ∈ l ↔ R u x (d + 1)) ∧
    B.len = ls.flatten.length ∧ (B.isEmpty = true ↔ ls.flatten = []) ∧ g.reachablesAll r u = .ok ls.flatten
  iter : ∃ s l, g.iterNew r = .ok s ∧ Drains (g.iterNext r) s l ∧ l.map Prod.fst = ord ∧
    ∀ u B, (u, B) ∈ l → g.reachables r u = .ok B

theorem ReachGraph.Holds.stores {g : ReachGraph} {S : SGraph} {ord : List ℕ} {r : ℕ} {k : ReachKind}
    (h : g.Holds S ord r k) : g.Stores S ord r (k.rel S ord) := by
  obtain ⟨m, I, hs⟩ := h
  constructor
  · intro u hu
    refine ⟨_, (Inv.block ord r m u).segs, I.reachables hu, rfl, by simp [Inv.block], ?_, ?_, ?_, I.reachablesAll hu⟩
    · intro d l hd
      obtain ⟨hlt, hd'⟩ := List.getElem?_eq_some_iff.1 hd
      have hdr : d < r := by simpa [Inv.block] using hlt
      have e := Inv.at_block (ord := ord) (m := m) (u := u) (show 1 ≤ d + 1 by omega) (show d + 1 ≤ r by omega)
      have hl : l = grp ord m u (d + 1) := by
        rw [← hd']
        simp [Inv.block, Nat.add_comm]
      subst hl
      refine ⟨e, I.ordering.pairwise.filter _, fun x => ?_⟩
      rw [mem_grp I.ordering I.good hu, hs u hu]
      exact ⟨And.left, fun h => ⟨h, by omega⟩⟩
    · unfold Reachables.len
      rw [List.length_flatten]
    · unfold Reachables.isEmpty
      rw [List.all_eq_true, List.flatten_eq_nil_iff]
      simp only [List.isEmpty_iff]
  · obtain ⟨s, h1, h2⟩ := I.iter
    refine ⟨s, _, h1, h2, ?_, ?_⟩
    · rw [List.map_map]
      exact List.map_id ord
    · intro u B hB
      obtain ⟨x, hx, he⟩ := List.mem_map.1 hB
      cases he
      exact I.reachables ((I.ordering.mem u).1 hx)

/-- **C49.** `to_sreach_graph::<r>` and `to_wreach_graph::<r>` (`r ≥ 1`, size within `u32`) succeed, and the result stores
exactly the strongly / weakly reachable sets, for all iteration orders of the hash tables used. -/
theorem C49_reach_sets {S : SGraph} {o : OrdGraph} {ord : List ℕ} (h : OrdGraph.Built S o ord) (k : ReachKind)
    (σ τ : ℕ → ℕ → Shuffle ℕ) (ρ : ℕ → Shuffle (ℕ × ℕ)) {r : ℕ} (hr : 1 ≤ r) (hr' : r + 1 < 2 ^ 32)
    (hsz : k.size S ord r < 2 ^ 32) :
    ∃ g, k.convert σ τ ρ r o = .ok g ∧ g.Stores S ord r (k.rel S ord) := by
  obtain ⟨g, h1, h2⟩ := ReachGraph.convert_holds h.inv k σ τ ρ hr hr' hsz
  exact ⟨g, h1, h2.stores⟩

theorem exReach : ∃ (S : SGraph) (o : OrdGraph), OrdGraph.Built S o [2, 0, 1] ∧ S.Adj 0 1 ∧
    (∀ k : ReachKind, k.size S [2, 0, 1] 2 < 2 ^ 32) ∧ ∀ k : ReachKind, k.rel S [2, 0, 1] 0 2 2 := by
  classical
  obtain ⟨G, S, h1, h2, h3, h12, h02, h4, h5, -⟩ := exOrd
  obtain ⟨g, h, -⟩ := C43_with_ordering h1 h2 h4 h5
  have hc : S.V.card = 3 := by
    have : S.V = [2, 0, 1].toFinset := by ext w; rw [List.mem_toFinset, h5]
    rw [this]; rfl
  refine ⟨S, g, .make h1 h2 h4 h5 h, h3, fun k => ?_, fun k => ?_⟩
  · have : k.size S [2, 0, 1] 2 ≤ ∑ u ∈ S.V, 7 := Finset.sum_le_sum fun u _ =>
      (Nat.add_le_add_left (Finset.card_filter_le _ _) _).trans (by rw [hc])
    rw [Finset.sum_const, hc] at this
    exact lt_of_le_of_lt this (by decide)
  · cases k with
    | strong => exact ⟨by decide, exLin_path h3 h12 h02 (by decide)⟩
    | weak => exact ⟨by decide, exLin_path h3 h12 h02 (by decide)⟩

/-- Hypotheses of `C49_reach_sets` are met, with a vertex at distance 2. -/
example : ∃ (S : SGraph) (o : OrdGraph) (ord : List ℕ), OrdGraph.Built S o ord ∧ ∀ k : ReachKind,
    k.size S ord 2 < 2 ^ 32 ∧ k.rel S ord 0 2 2 := by
  obtain ⟨S, o, h1, -, h2, h3⟩ := exReach
  exact ⟨S, o, _, h1, fun k => ⟨h2 k, h3 k⟩⟩

/-! ## C50 -/

/-- `g` (of depth `r`) answers the queries of `Graph` and `LinearGraph`, except `neighbours`, as the loopless graph `S` with
the ordering `ord`. -/
structure ReachGraph.Represents (g : ReachGraph) (S : SGraph) (ord : List ℕ) (r : ℕ) : Prop where
  nv : (g.lin r).numVertices = S.V.card
  ne : (g.lin r).numEdges = S.E.card
  contains : ∀ u, (g.lin r).contains u = true ↔ u ∈ S.V
  adjacent : ∀ u v, (g.lin r).adjacent u v = .ok (decide (S.Adj u v))
  degree : ∀ u ∈ S.V, (g.lin r).degree u = .ok (S.deg u)
  iter : Drains g.orderIterNext g.orderIterNew ord
  vertices : (g.lin r).vertices = ord
  index : ∀ u ∈ S.V, ∃ i, (g.lin r).indexOf u = .ok i
  index_lt : ∀ u v i j, u ∈ S.V → v ∈ S.V → (g.lin r).indexOf u = .ok i → (g.lin r).indexOf v = .ok j →
    (i < j ↔ ord.idxOf u < ord.idxOf v)
  left : ∀ u ∈ S.V, ∃ l, (g.lin r).leftNeighbours u = .ok l ∧ l.Pairwise (fun a b => ord.idxOf a < ord.idxOf b) ∧
    ∀ w, w ∈ l ↔ S.Adj u w ∧ ord.idxOf w < ord.idxOf u
  ldeg : ∀ u ∈ S.V, (g.lin r).leftDegree u = .ok (S.before ord u).card
  rdeg : ∀ u ∈ S.V, (g.lin r).rightDegree u = .ok (S.after ord u).card

theorem ReachGraph.Inv.represents {g : ReachGraph} {S : SGraph} {ord : List ℕ} {r : ℕ} {m : ℕ → HMap ℕ ℕ}
    (I : ReachGraph.Inv g S ord r m) : g.Represents S ord r where
  nv := I.numVertices
  ne := I.numEdges
  contains := I.contains
  adjacent u v := congrArg Except.ok (I.adjacent u v)
  degree u hu := I.degree hu
  iter := I.orderIter
  vertices := I.vertices
  index u hu := ⟨_, I.indexOf hu⟩
  index_lt u v i j hu hv hi hj := by
    have e1 : Except.ok i = Except.ok _ := hi.symm.trans (I.indexOf hu)
    have e2 : Except.ok j = Except.ok _ := hj.symm.trans (I.indexOf hv)
    cases e1; cases e2
    refine ⟨fun h => ?_, I.index_lt hu hv⟩
    rcases Nat.lt_trichotomy (ord.idxOf u) (ord.idxOf v) with h' | h' | h'
    · exact h'
    · rw [h'] at h; omega
    · have := I.index_lt hv hu h'; omega
  left u hu := ⟨_, I.leftNeighbours hu, I.ordering.lefts_pairwise, fun w => I.ordering.mem_lefts⟩
  ldeg u hu := I.leftDegree hu
  rdeg u _ := congrArg Except.ok (I.rdeg u)

/-- **C50.** The results of `to_sreach_graph::<r>` and `to_wreach_graph::<r>` answer the graph queries as the original
loopless graph and ordering.  (`neighbours()` is unsupported and always panics: `C50_neighbours`.) -/
theorem C50_queries {S : SGraph} {o : OrdGraph} {ord : List ℕ} (h : OrdGraph.Built S o ord) (k : ReachKind)
    (σ τ : ℕ → ℕ → Shuffle ℕ) (ρ : ℕ → Shuffle (ℕ × ℕ)) {r : ℕ} (hr : 1 ≤ r) (hr' : r + 1 < 2 ^ 32)
    (hsz : k.size S ord r < 2 ^ 32) :
    ∃ g, k.convert σ τ ρ r o = .ok g ∧ g.Represents S ord r := by
  obtain ⟨g, h1, m, I, -⟩ := ReachGraph.convert_holds h.inv k σ τ ρ hr hr' hsz
  exact ⟨g, h1, I.represents⟩

/-- `C50_queries` for a path with three vertices. -/
example := fun k σ τ ρ => C50_queries exReach.choose_spec.choose_spec.1 k σ τ ρ (by decide) (by decide) (exReach.choose_spec.choose_spec.2.2.1 k)

/-- `neighbours` of a `ReachGraph` panics on every vertex. -/
theorem C50_neighbours (g : ReachGraph) (r u : ℕ) : (g.lin r).neighbours u = .error .panic := rfl

/-- Hypotheses of `C50_queries` are met. -/
example : ∃ (S : SGraph) (o : OrdGraph) (ord : List ℕ), OrdGraph.Built S o ord ∧ S.Adj 0 1 ∧ ∀ k : ReachKind,
    k.size S ord 2 < 2 ^ 32 := by
  obtain ⟨S, o, h1, h2, h3, -⟩ := exReach
  exact ⟨S, o, _, h1, h2, h3⟩

end Verif
