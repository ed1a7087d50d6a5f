import Verif.Props.IndexOf
import Verif.Props.LinearAlg2
/-!
# C118: comparing reachable sets, and their boundaries

`Reachables` derives `PartialEq`, which also compares the private offsets `boundaries`; `get_boundaries` reads them.
-/
namespace Verif
open Finset Blocks

namespace ReachGraph
variable {g g' : ReachGraph} {S S' : SGraph} {ord ord' : List ℕ} {r : ℕ} {m m' : ℕ → HMap ℕ ℕ}

theorem bounds_spec (f : ℕ → ℕ) : ∀ (n j : ℕ),
    bounds (f j) ((List.range' (j + 1) n).map f) = (List.range' (j + 1) n).map (fun i => (f (i - 1), f i))
  | 0, _ => rfl
  | n + 1, j => by
    rw [List.range'_succ, List.map_cons, List.map_cons, bounds, bounds_spec f n (j + 1)]
    rfl

theorem Inv.boundariesAt (H : Inv g S ord r m) {pre post : List ℕ} {u : ℕ} (hs : ord = pre ++ u :: post) :
    g.boundariesAt r (off (pay ord r m) pre) = .ok ((List.range' 1 r).map (fun j =>
      (off (pay ord r m) pre + r + 2 + (upto ord m u (j - 1)).length,
        off (pay ord r m) pre + r + 2 + (upto ord m u j).length))) := by
  unfold ReachGraph.boundariesAt
  have hl := H.len_ge hs
  have e1 : sliceR g.contents (off (pay ord r m) pre + 2) (off (pay ord r m) pre + r + 2) =
      .ok ((List.range' 1 r).map (fun j => off (pay ord r m) pre + r + 2 + (upto ord m u j).length)) := by
    unfold sliceR
    rw [if_pos ⟨by omega, by omega⟩, H.tail hs,
      show off (pay ord r m) pre + r + 2 - (off (pay ord r m) pre + 2) = r by omega]
    rw [List.take_append, List.take_of_length_le (by simp)]
    simp
  rw [e1, bind_ok]
  have := bounds_spec (fun j => off (pay ord r m) pre + r + 2 + (upto ord m u j).length) r 0
  rw [show (upto ord m u 0).length = 0 from rfl, Nat.add_zero, Nat.zero_add] at this
  simp only [this]
  simp [assertR]

theorem Inv.reachablesFull (H : Inv g S ord r m) {u : ℕ} (hu : u ∈ S.V) {i : ℕ} (hi : g.indexOf u = .ok i) :
    g.reachablesFull r u = .ok (Inv.block ord r m u, (List.range' 1 r).map (fun j =>
      (i + r + 2 + (upto ord m u (j - 1)).length, i + r + 2 + (upto ord m u j).length))) := by
  have e := H.indexOf hu
  rw [hi] at e
  cases e
  unfold ReachGraph.reachablesFull
  rw [hi, bind_ok, H.reachablesAt (H.split hu), bind_ok, H.boundariesAt (H.split hu)]
  rfl

/-- The slice of the array between the bounds is the segment. -/
theorem Inv.slice_at (H : Inv g S ord r m) {u : ℕ} (hu : u ∈ S.V) {i : ℕ} (hi : g.indexOf u = .ok i) {d : ℕ} (hd : d < r) :
    sliceR g.contents (i + r + 2 + (upto ord m u d).length) (i + r + 2 + (upto ord m u (d + 1)).length) =
      .ok (grp ord m u (d + 1)) := by
  have e := H.indexOf hu
  rw [hi] at e
  cases e
  have hs := H.split hu
  obtain ⟨t, ht, -⟩ := upto_split (ord := ord) (m := m) (u := u) (j := d + 1) (r - (d + 1))
  rw [show d + 1 + (r - (d + 1)) = r by omega, upto_succ] at ht
  have h2 := H.tail' hs
  rw [ht] at h2
  have := sliceR_mid (c := g.contents) (A := upto ord m u d) (B := grp ord m u (d + 1))
    (b := off (pay ord r m) (ord.take (ord.idxOf u)) + r + 2)
    (by have := H.len_ge hs; omega) (by rw [h2, List.append_assoc])
  rw [upto_succ]
  exact this

end ReachGraph

/-- `get_boundaries(d)` gives the bounds of the segment `at(d)` in the array. -/
def C118_bounds_statement : Prop := ∀ (S : SGraph) (o : OrdGraph) (ord : List ℕ) (k : ReachKind)
    (σ τ : ℕ → ℕ → Shuffle ℕ) (ρ : ℕ → Shuffle (ℕ × ℕ)) (r : ℕ) (g : ReachGraph), OrdGraph.Built S o ord → 1 ≤ r →
    r + 1 < 2 ^ 32 → k.size S ord r < 2 ^ 32 → k.convert σ τ ρ r o = .ok g → ∀ u ∈ S.V, ∀ d, 1 ≤ d → d ≤ r →
    ∃ a b B, g.getBoundaries r u d = .ok (a, b) ∧ g.reachables r u = .ok B ∧ sliceR g.contents a b = B.at' d

/-- Two results of `reachables` are equal iff they come from the same vertex and agree at every depth. -/
def C118_equal_statement : Prop := ∀ (S S' : SGraph) (o o' : OrdGraph) (ord ord' : List ℕ) (k k' : ReachKind)
    (σ τ σ' τ' : ℕ → ℕ → Shuffle ℕ) (ρ ρ' : ℕ → Shuffle (ℕ × ℕ)) (r : ℕ) (g g' : ReachGraph), OrdGraph.Built S o ord →
    OrdGraph.Built S' o' ord' → 1 ≤ r → r + 1 < 2 ^ 32 → k.size S ord r < 2 ^ 32 → k'.size S' ord' r < 2 ^ 32 →
    k.convert σ τ ρ r o = .ok g → k'.convert σ' τ' ρ' r o' = .ok g' → ∀ u ∈ S.V, ∀ u' ∈ S'.V,
    ∃ B B' b, g.reachables r u = .ok B ∧ g'.reachables r u' = .ok B' ∧ g.reachablesEq r u g' u' = .ok b ∧
      (b = true ↔ u = u' ∧ ∀ d, 1 ≤ d → d ≤ r → B.at' d = B'.at' d)

/-- **C118, `get_boundaries`, what holds.** It is one depth off: it gives the bounds of depth `d + 1`, and panics for the
last depth and outside `1 … r`.  (Refuted in the intended form, see `C118_bounds_refuted`.) -/
theorem C118_bounds_partial {S : SGraph} {o : OrdGraph} {ord : List ℕ} (h : OrdGraph.Built S o ord) (k : ReachKind)
    (σ τ : ℕ → ℕ → Shuffle ℕ) (ρ : ℕ → Shuffle (ℕ × ℕ)) {r : ℕ} (hr : 1 ≤ r) (hr' : r + 1 < 2 ^ 32)
    (hsz : k.size S ord r < 2 ^ 32) :
    ∃ g, k.convert σ τ ρ r o = .ok g ∧ ∀ u, (u ∈ S.V → ∀ d, 1 ≤ d → d < r →
        ∃ a b B, g.getBoundaries r u d = .ok (a, b) ∧ g.reachables r u = .ok B ∧
          sliceR g.contents a b = B.at' (d + 1)) ∧
      ∀ d, u ∉ S.V ∨ d = 0 ∨ r ≤ d → g.getBoundaries r u d = .error .panic := by
  obtain ⟨g, h1, m, I, -⟩ := ReachGraph.convert_holds h.inv k σ τ ρ hr hr' hsz
  refine ⟨g, h1, fun u => ⟨fun hu d hd hd' => ?_, fun d hd => ?_⟩⟩
  · have hi := I.indexOf hu
    have hf := I.reachablesFull hu hi
    have hsl := I.slice_at hu hi hd'
    generalize off (ReachGraph.pay ord r m) (ord.take (ord.idxOf u)) = i at *
    refine ⟨_, _, _, ?_, I.reachables hu, hsl.trans (ReachGraph.Inv.at_block (by omega) (by omega)).symm⟩
    unfold ReachGraph.getBoundaries
    rw [hf, bind_ok]
    have : (ReachGraph.Inv.block ord r m u).segs.length = r := by simp [ReachGraph.Inv.block]
    simp only [this]
    rw [show (decide (1 ≤ d) && decide (d < r + 1)) = true by simp; omega]
    simp only [assertR, if_true, bind_ok]
    rw [List.getElem?_map, List.getElem?_range' (by omega)]
    simp only [Option.map_some, unwrap_some, one_mul, Nat.add_comm 1 d]
    rfl
  · by_cases hu : u ∈ S.V
    · obtain ⟨i, hi⟩ : ∃ i, g.indexOf u = .ok i := ⟨_, I.indexOf hu⟩
      have hf := I.reachablesFull hu hi
      unfold ReachGraph.getBoundaries
      rw [hf, bind_ok]
      have : (ReachGraph.Inv.block ord r m u).segs.length = r := by simp [ReachGraph.Inv.block]
      simp only [this]
      rcases hd with hd | hd | hd
      · exact absurd hu hd
      · subst hd
        simp [assertR]
      · by_cases hd' : d = r
        · subst hd'
          rw [show (decide (1 ≤ d) && decide (d < d + 1)) = true by simp; omega]
          simp only [assertR, if_true, bind_ok]
          rw [List.getElem?_eq_none (by simp)]
          rfl
        · rw [show (decide (1 ≤ d) && decide (d < r + 1)) = false by simp; omega]
          rfl
    · have hn := I.get_none hu
      unfold ReachGraph.getBoundaries ReachGraph.reachablesFull ReachGraph.indexOf
      rw [hn]
      rfl

/-- `C118_bounds_partial` for a path with three vertices. -/
example := fun k σ τ ρ => C118_bounds_partial exReach.choose_spec.choose_spec.1 k σ τ ρ (by decide) (by decide) (exReach.choose_spec.choose_spec.2.2.1 k)

/-- **C118, `==`, what holds.** Two results of `reachables` (for graphs of the same depth) are equal iff they come from the
same vertex, agree at every depth, and their records start at the same offset (`C89_reachgraph_partial` gives the offsets). -/
theorem C118_equal_partial {S S' : SGraph} {o o' : OrdGraph} {ord ord' : List ℕ} (h : OrdGraph.Built S o ord)
    (h' : OrdGraph.Built S' o' ord') (k k' : ReachKind) (σ τ σ' τ' : ℕ → ℕ → Shuffle ℕ) (ρ ρ' : ℕ → Shuffle (ℕ × ℕ)) {r : ℕ}
    (hr : 1 ≤ r) (hr' : r + 1 < 2 ^ 32) (hsz : k.size S ord r < 2 ^ 32) (hsz' : k'.size S' ord' r < 2 ^ 32) :
    ∃ g g', k.convert σ τ ρ r o = .ok g ∧ k'.convert σ' τ' ρ' r o' = .ok g' ∧
      (∀ u ∈ S.V, ∀ u' ∈ S'.V, ∃ B B' b i i', g.reachables r u = .ok B ∧ g'.reachables r u' = .ok B' ∧
        g.indexOf u = .ok i ∧ g'.indexOf u' = .ok i' ∧ g.reachablesEq r u g' u' = .ok b ∧
        (b = true ↔ u = u' ∧ (∀ d, 1 ≤ d → d ≤ r → B.at' d = B'.at' d) ∧ i = i')) ∧
      (∀ u u', u ∉ S.V ∨ u' ∉ S'.V → g.reachablesEq r u g' u' = .error .panic) ∧
      (∀ u ∈ S.V, ∀ v ∈ S.V, g.reachablesEq r u g v = .ok (decide (u = v))) := by
  obtain ⟨g, h1, m, I, -⟩ := ReachGraph.convert_holds h.inv k σ τ ρ hr hr' hsz
  obtain ⟨g', h1', m', I', -⟩ := ReachGraph.convert_holds h'.inv k' σ' τ' ρ' hr hr' hsz'
  refine ⟨g, g', h1, h1', fun u hu u' hu' => ?_, fun u u' hu => ?_, fun u hu v hv => ?_⟩
  · obtain ⟨i, hi⟩ : ∃ i, g.indexOf u = .ok i := ⟨_, I.indexOf hu⟩
    obtain ⟨i', hi'⟩ : ∃ i, g'.indexOf u' = .ok i := ⟨_, I'.indexOf hu'⟩
    refine ⟨_, _, ?_, i, i', I.reachables hu, I'.reachables hu', hi, hi', ?_, ?_⟩
    · exact
        ((ReachGraph.Inv.block ord r m u).src == (ReachGraph.Inv.block ord' r m' u').src &&
          ((ReachGraph.Inv.block ord r m u).segs == (ReachGraph.Inv.block ord' r m' u').segs &&
          (List.range' 1 r).map (fun j => (i + r + 2 + (ReachGraph.upto ord m u (j - 1)).length,
            i + r + 2 + (ReachGraph.upto ord m u j).length)) ==
          (List.range' 1 r).map (fun j => (i' + r + 2 + (ReachGraph.upto ord' m' u' (j - 1)).length,
            i' + r + 2 + (ReachGraph.upto ord' m' u' j).length))))
    · unfold ReachGraph.reachablesEq
      rw [I.reachablesFull hu hi, bind_ok, I'.reachablesFull hu' hi']
      rfl
    · rw [Bool.and_eq_true, Bool.and_eq_true, beq_iff_eq, beq_iff_eq, beq_iff_eq]
      have hseg : (ReachGraph.Inv.block ord r m u).segs = (ReachGraph.Inv.block ord' r m' u').segs ↔
          ∀ d, 1 ≤ d → d ≤ r → ReachGraph.grp ord m u d = ReachGraph.grp ord' m' u' d := by
        unfold ReachGraph.Inv.block
        constructor
        · intro e d hd hd'
          have := List.map_inj_left.1 e d (by rw [List.mem_range'_1]; omega)
          exact this
        · intro e
          refine List.map_congr_left fun d hd => ?_
          rw [List.mem_range'_1] at hd
          exact e d (by omega) (by omega)
      have hat : (∀ d, 1 ≤ d → d ≤ r → (ReachGraph.Inv.block ord r m u).at' d = (ReachGraph.Inv.block ord' r m' u').at' d) ↔
          ∀ d, 1 ≤ d → d ≤ r → ReachGraph.grp ord m u d = ReachGraph.grp ord' m' u' d := by
        refine forall_congr' fun d => forall_congr' fun hd => forall_congr' fun hd' => ?_
        rw [ReachGraph.Inv.at_block hd hd', ReachGraph.Inv.at_block hd hd']
        exact ⟨fun e => Except.ok.inj e, fun e => by rw [e]⟩
      rw [hseg, hat]
      constructor
      · rintro ⟨e1, e2, e3⟩
        refine ⟨e1, e2, ?_⟩
        have := List.map_inj_left.1 e3 1 (by rw [List.mem_range'_1]; omega)
        have := (Prod.mk.inj this).1
        simp [ReachGraph.upto] at this
        omega
      · rintro ⟨e1, e2, e3⟩
        refine ⟨e1, e2, ?_⟩
        have hup : ∀ j, j ≤ r → (ReachGraph.upto ord m u j).length = (ReachGraph.upto ord' m' u' j).length := by
          intro j hj
          unfold ReachGraph.upto
          rw [List.flatMap_def, List.flatMap_def]
          congr 2
          refine List.map_congr_left fun d hd => ?_
          rw [List.mem_range] at hd
          exact e2 (d + 1) (by omega) (by omega)
        refine List.map_congr_left fun d hd => ?_
        rw [List.mem_range'_1] at hd
        rw [e3, hup d (by omega), hup (d - 1) (by omega)]
  · unfold ReachGraph.reachablesEq
    by_cases hV : u ∈ S.V
    · obtain ⟨i, hi⟩ : ∃ i, g.indexOf u = .ok i := ⟨_, I.indexOf hV⟩
      have hn := I'.get_none (hu.resolve_left (fun h => h hV))
      rw [I.reachablesFull hV hi, bind_ok]
      unfold ReachGraph.reachablesFull ReachGraph.indexOf
      rw [hn]
      rfl
    · have hn := I.get_none hV
      unfold ReachGraph.reachablesFull ReachGraph.indexOf
      rw [hn]
      rfl
  · obtain ⟨i, hi⟩ : ∃ i, g.indexOf u = .ok i := ⟨_, I.indexOf hu⟩
    obtain ⟨i', hi'⟩ : ∃ i, g.indexOf v = .ok i := ⟨_, I.indexOf hv⟩
    unfold ReachGraph.reachablesEq
    rw [I.reachablesFull hu hi, bind_ok, I.reachablesFull hv hi']
    simp only [bind_ok, pure_eq_ok]
    by_cases he : u = v
    · subst he
      rw [hi] at hi'
      cases hi'
      simp
    · simp [ReachGraph.Inv.block, he]

/-- `C118_equal_partial` for a path with three vertices. -/
example := fun k k' σ τ σ' τ' ρ ρ' => C118_equal_partial exReach.choose_spec.choose_spec.1 exReach.choose_spec.choose_spec.1 k k' σ τ σ' τ' ρ ρ' (by decide) (by decide)
  (exReach.choose_spec.choose_spec.2.2.1 k) (exReach.choose_spec.choose_spec.2.2.1 k')

/-- The path 2-1-0 with the ordering 2, 0, 1 and depth 2: `get_boundaries(2)` panics. -/
theorem C118_bounds_refuted : ¬ C118_bounds_statement := by
  intro hall
  obtain ⟨S, o, h1, h2, h3, -⟩ := exReach
  obtain ⟨g, hg, h4⟩ := C118_bounds_partial h1 .weak (fun _ _ => .id) (fun _ _ => .id) (fun _ => .id) (by decide) (by decide)
    (h3 _)
  obtain ⟨a, b, B, h5, -⟩ := hall S o _ .weak _ _ _ 2 g h1 (by decide) (by decide) (h3 _) hg 0 h2.left 2 (by decide) (by decide)
  rw [(h4 0).2 2 (.inr (.inr (le_refl _)))] at h5
  cases h5

/-- The reach graph of depth 1 of a small graph, with the identity as iteration order. -/
def depthOne (es : List (ℕ × ℕ)) (ord : List ℕ) : Res ReachGraph :=
  (builtOrd es ord).bind fun o => o.toWreachGraph (fun _ _ => .id) (fun _ _ => .id) (fun _ => .id) 1

theorem ReachKind.size_le (k : ReachKind) (S : SGraph) (ord : List ℕ) (r : ℕ) :
    k.size S ord r ≤ S.V.card * (r + 2 + S.V.card) := by
  classical
  have : k.size S ord r ≤ ∑ u ∈ S.V, (r + 2 + S.V.card) := Finset.sum_le_sum fun u _ =>
    Nat.add_le_add_left (Finset.card_filter_le _ _) _
  rwa [Finset.sum_const, smul_eq_mul] at this

/-- The triangle and the path 0-2-1, both with the ordering 0, 1, 2 and depth 1: the vertex 2 has the reachable set {0, 1} in
both, but the results of `reachables` differ, because the record of 1 has different lengths. -/
theorem C118_equal_refuted : ¬ C118_equal_statement := by
  intro hall
  have key : ∀ es, (∀ u ∈ (SGraph.empty.addEdges es).V, ¬ (SGraph.empty.addEdges es).Adj u u) →
      [0, 1, 2].toFinset = (SGraph.empty.addEdges es).V → ∃ o, OrdGraph.Built (SGraph.empty.addEdges es) o [0, 1, 2] ∧
        depthOne es [0, 1, 2] = o.toWreachGraph (fun _ _ => .id) (fun _ _ => .id) (fun _ => .id) 1 := by
    intro es hl hV
    obtain ⟨⟨g, k⟩, h, A, -⟩ := EditGraph.abs_new.addEdges es
    have hm : ∀ u, u ∈ [0, 1, 2] ↔ u ∈ (SGraph.empty.addEdges es).V := fun u => by rw [← hV, List.mem_toFinset]
    obtain ⟨o, ho, -⟩ := C43_with_ordering A.rep (fun u h => hl u h.left h) (by decide : [0, 1, 2].Nodup) hm
    refine ⟨o, .make A.rep (fun u h => hl u h.left h) (by decide) hm ho, ?_⟩
    have : builtOrd es [0, 1, 2] = .ok o := by
      unfold builtOrd built
      rw [h]
      exact ho
    unfold depthOne
    rw [this]
    rfl
  obtain ⟨o, hB, ho⟩ := key [(0, 1), (0, 2), (1, 2)] (by decide) (by decide)
  obtain ⟨o', hB', ho'⟩ := key [(0, 2), (1, 2)] (by decide) (by decide)
  have hsz := lt_of_le_of_lt (ReachKind.weak.size_le (SGraph.empty.addEdges [(0, 1), (0, 2), (1, 2)]) [0, 1, 2] 1)
    (by decide : _ < 2 ^ 32)
  have hsz' := lt_of_le_of_lt (ReachKind.weak.size_le (SGraph.empty.addEdges [(0, 2), (1, 2)]) [0, 1, 2] 1)
    (by decide : _ < 2 ^ 32)
  obtain ⟨g, g', hg, hg', -⟩ := C118_equal_partial hB hB' .weak .weak (fun _ _ => .id) (fun _ _ => .id) (fun _ _ => .id)
    (fun _ _ => .id) (fun _ => .id) (fun _ => .id) (r := 1) (by decide) (by decide) hsz hsz'
  obtain ⟨B, B', b, h1, h2, h3, h4⟩ := hall _ _ o o' _ _ .weak .weak _ _ _ _ _ _ 1 g g' hB hB' (by decide) (by decide) hsz hsz'
    hg hg' 2 (by decide) 2 (by decide)
  have e : depthOne [(0, 1), (0, 2), (1, 2)] [0, 1, 2] = .ok g := ho.trans hg
  have e' : depthOne [(0, 2), (1, 2)] [0, 1, 2] = .ok g' := ho'.trans hg'
  have k1 : ((depthOne [(0, 1), (0, 2), (1, 2)] [0, 1, 2]).bind fun g => g.leftNeighbours 1 2) = .ok [0, 1] := by
    decide +kernel
  have k2 : ((depthOne [(0, 2), (1, 2)] [0, 1, 2]).bind fun g => g.leftNeighbours 1 2) = .ok [0, 1] := by
    decide +kernel
  have k3 : ((depthOne [(0, 1), (0, 2), (1, 2)] [0, 1, 2]).bind fun g =>
      (depthOne [(0, 2), (1, 2)] [0, 1, 2]).bind fun g' => g.reachablesEq 1 2 g' 2) = .ok false := by
    decide +kernel
  rw [e] at k1 k3
  rw [e'] at k2 k3
  have k1 : g.leftNeighbours 1 2 = .ok [0, 1] := k1
  have k2 : g'.leftNeighbours 1 2 = .ok [0, 1] := k2
  have k3 : g.reachablesEq 1 2 g' 2 = .ok false := k3
  unfold ReachGraph.leftNeighbours at k1 k2
  rw [h1, bind_ok] at k1
  rw [h2, bind_ok] at k2
  rw [h3] at k3
  cases k3
  refine absurd (h4.2 ⟨rfl, fun d hd hd' => ?_⟩) (by decide)
  obtain rfl : d = 1 := by omega
  rw [k1, k2]

/-- Hypotheses of `C118_bounds_partial` and `C118_equal_partial` are met, with a depth `d < r`. -/
example : ∃ (S : SGraph) (o : OrdGraph) (ord : List ℕ), OrdGraph.Built S o ord ∧ 0 ∈ S.V ∧ 1 ∈ S.V ∧
    ∀ k : ReachKind, k.size S ord 2 < 2 ^ 32 := by
  obtain ⟨S, o, h1, h2, h3, -⟩ := exReach
  exact ⟨S, o, _, h1, h2.left, h2.right, h3⟩

end Verif
