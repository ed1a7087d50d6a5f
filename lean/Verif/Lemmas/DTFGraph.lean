import Verif.Lemmas.Basic
import Verif.Lemmas.ReachSets
import Verif.Model.DTFGraph
/-!
# Lemmas: the stored arcs of a `DTFGraph`
-/
namespace Verif

/-- Arcs `(tail, head, weight)`. -/
abbrev Arcs := Finset (ℕ × ℕ × ℕ)

theorem HMap.get?_mapVals {κ α : Type} [DecidableEq κ] (m : HMap κ α) (f : α → α) (k : κ) :
    (m.mapVals f).get? k = (m.get? k).map f := by
  unfold HMap.get? HMap.mapVals
  simp only
  induction m.entries with
  | nil => rfl
  | cons e l ih =>
    obtain ⟨a, b⟩ := e
    simp only [List.map_cons, HMap.lookupL]
    split
    · rfl
    · exact ih

theorem HMap.keys_mapVals {κ α : Type} [DecidableEq κ] (m : HMap κ α) (f : α → α) : (m.mapVals f).keys = m.keys := by
  unfold HMap.keys HMap.mapVals
  simp [List.map_map, Function.comp_def]

namespace DTFGraph

/-- The node `nd` of the vertex `u` stores the arcs at `u` and has at least `d` layers. -/
structure NodeIs (A : Arcs) (u d : ℕ) (nd : DTFNode) : Prop where
  inLen : nd.inDegs.length = nd.inArcs.length
  outLen : nd.outDegs.length = nd.inArcs.length
  depth : d ≤ nd.inArcs.length
  sets : ∀ i X, nd.inArcs[i]? = some X → ∀ x, x ∈ X ↔ (x, u, i + 1) ∈ A
  ins : ∀ i k, nd.inDegs[i]? = some k → k = (A.filter (fun e => e.2.1 = u ∧ e.2.2 = i + 1)).card
  outs : ∀ i k, nd.outDegs[i]? = some k → k = (A.filter (fun e => e.1 = u ∧ e.2.2 = i + 1)).card
  inBound : ∀ x w, (x, u, w) ∈ A → w ≤ nd.inArcs.length
  outBound : ∀ x w, (u, x, w) ∈ A → w ≤ nd.inArcs.length

/-- `g` stores the vertices `V` and the arcs `A`. -/
structure Abs (g : DTFGraph) (V : Finset ℕ) (A : Arcs) : Prop where
  keys : ∀ u, u ∈ g.nodes.keys ↔ u ∈ V
  wf : ∀ e ∈ A, e.1 ∈ V ∧ e.2.1 ∈ V ∧ 1 ≤ e.2.2
  pos : 1 ≤ g.depth
  len : g.depth ≤ g.ms.length
  node : ∀ u nd, g.nodes.get? u = some nd → NodeIs A u g.depth nd
  ms : ∀ i m, g.ms[i]? = some m → m = (A.filter (fun e => e.2.2 = i + 1)).card
  msLen : ∀ e ∈ A, e.2.2 ≤ g.ms.length

variable {g h : DTFGraph} {V : Finset ℕ} {A : Arcs}

theorem abs_new : Abs new ∅ ∅ where
  keys u := by simp [new, HMap.mem_keys_iff]
  wf e he := by simp at he
  pos := le_refl _
  len := le_refl _
  node u nd h := by simp [new] at h
  ms i m h := by
    simp only [new] at h
    rcases i with _ | i
    · simpa using h.symm
    · simp at h
  msLen e he := by simp at he

theorem nodeIs_new {u d : ℕ} (hin : ∀ x w, (x, u, w) ∉ A) (hout : ∀ x w, (u, x, w) ∉ A) : NodeIs A u d (DTFNode.new d) where
  inLen := by simp [DTFNode.new]
  outLen := by simp [DTFNode.new]
  depth := by simp [DTFNode.new]
  sets i X h x := by
    rw [DTFNode.new, List.getElem?_replicate] at h
    split at h
    · cases h; simp [hin]
    · cases h
  ins i k h := by
    rw [DTFNode.new, List.getElem?_replicate] at h
    split at h
    · cases h
      symm
      rw [Finset.card_eq_zero, Finset.filter_eq_empty_iff]
      rintro ⟨a, b, c⟩ he ⟨rfl, rfl⟩
      exact hin _ _ he
    · cases h
  outs i k h := by
    rw [DTFNode.new, List.getElem?_replicate] at h
    split at h
    · cases h
      symm
      rw [Finset.card_eq_zero, Finset.filter_eq_empty_iff]
      rintro ⟨a, b, c⟩ he ⟨rfl, rfl⟩
      exact hout _ _ he
    · cases h
  inBound x w hm := absurd hm (hin x w)
  outBound x w hm := absurd hm (hout x w)

namespace Abs

theorem not_in (H : Abs g V A) {u : ℕ} (hu : u ∉ V) : (∀ x w, (x, u, w) ∉ A) ∧ ∀ x w, (u, x, w) ∉ A :=
  ⟨fun _ _ h => hu (H.wf _ h).2.1, fun _ _ h => hu (H.wf _ h).1⟩

theorem get (H : Abs g V A) {u : ℕ} (hu : u ∈ V) : ∃ nd, g.nodes.get? u = some nd ∧ NodeIs A u g.depth nd := by
  obtain ⟨nd, h⟩ := HMap.mem_keys_iff.1 ((H.keys u).2 hu)
  exact ⟨nd, h, H.node u nd h⟩

theorem get_none (H : Abs g V A) {u : ℕ} (hu : u ∉ V) : g.nodes.get? u = none :=
  HMap.get?_eq_none.2 fun h => hu ((H.keys u).1 h)

/-- The node read by `entry(u).or_insert_with(new)`. -/
theorem getD (H : Abs g V A) (u : ℕ) : NodeIs A u g.depth (g.nodes.getD u (DTFNode.new g.depth)) := by
  unfold HMap.getD
  by_cases hu : u ∈ V
  · obtain ⟨nd, h1, h2⟩ := H.get hu
    rw [h1]; exact h2
  · rw [H.get_none hu]
    exact nodeIs_new (H.not_in hu).1 (H.not_in hu).2

theorem relayout (H : Abs g V A) (R : Relayout g h) : Abs h V A where
  keys u := by rw [R.keys.mem_iff, H.keys]
  wf := H.wf
  pos := R.depth ▸ H.pos
  len := by rw [R.depth, R.ms]; exact H.len
  node u nd' h' := by
    obtain ⟨nd, hnd, N⟩ := H.get ((H.keys u).1 (R.keys.mem_iff.1 (HMap.mem_keys_iff.2 ⟨_, h'⟩)))
    obtain ⟨nd2, h2, e1, e2, e3⟩ := R.nodes u nd hnd
    rw [h'] at h2
    cases h2
    have hl := e3.length_eq
    refine ⟨by rw [e1, hl, N.inLen], by rw [e2, hl, N.outLen], by rw [hl, R.depth]; exact N.depth, ?_, ?_, ?_, ?_, ?_⟩
    · intro i X hX x
      have hi : i < nd.inArcs.length := by
        rw [← hl]; exact (List.getElem?_eq_some_iff.1 hX).1
      have := (List.forall₂_iff_get.1 e3).2 i (hl ▸ hi) hi
      have hX' : X = nd'.inArcs[i]'(hl ▸ hi) := by
        have := List.getElem?_eq_some_iff.1 hX
        exact this.2.symm
      rw [← N.sets i nd.inArcs[i] (List.getElem?_eq_getElem hi), hX']
      simp only [List.get_eq_getElem] at this
      exact this.mem_iff
    · rw [e1]; exact N.ins
    · rw [e2]; exact N.outs
    · intro x w hx; rw [hl]; exact N.inBound x w hx
    · intro x w hx; rw [hl]; exact N.outBound x w hx
  ms := by rw [R.ms]; exact H.ms
  msLen := by rw [R.ms]; exact H.msLen

theorem addVertex (H : Abs g V A) (u : ℕ) : Abs (g.addVertex u) (insert u V) A := by
  unfold DTFGraph.addVertex
  by_cases hu : u ∈ V
  · obtain ⟨nd, h1, -⟩ := H.get hu
    rw [h1, Finset.insert_eq_of_mem hu]
    exact H
  · rw [H.get_none hu]
    refine ⟨fun x => ?_, fun e he => ?_, H.pos, H.len, fun x nd hx => ?_, H.ms, H.msLen⟩
    · show x ∈ (g.nodes.insert u _).keys ↔ _
      rw [HMap.mem_keys_insert, H.keys, Finset.mem_insert]
    · have := H.wf e he
      exact ⟨Finset.mem_insert_of_mem this.1, Finset.mem_insert_of_mem this.2.1, this.2.2⟩
    · change (g.nodes.insert u _).get? x = some nd at hx
      rw [HMap.get?_insert] at hx
      split at hx
      · rename_i he
        cases hx
        subst he
        exact nodeIs_new (H.not_in hu).1 (H.not_in hu).2
      · exact H.node x nd hx

theorem addVertex_depth (u : ℕ) : (g.addVertex u).depth = g.depth := by
  unfold DTFGraph.addVertex
  split <;> rfl

end Abs

theorem NodeIs.reserve {u d d' : ℕ} {nd : DTFNode} (N : NodeIs A u d nd) :
    NodeIs A u d' (nd.reserveDepth d') where
  inLen := by simp [DTFNode.reserveDepth, N.inLen]
  outLen := by simp [DTFNode.reserveDepth, N.outLen]
  depth := by simp only [DTFNode.reserveDepth, List.length_append, List.length_replicate]; omega
  sets i X h x := by
    simp only [DTFNode.reserveDepth] at h
    rw [List.getElem?_append] at h
    split at h
    · exact N.sets i X h x
    · rename_i hi
      rw [List.getElem?_replicate] at h
      split at h
      · cases h
        constructor
        · intro hx; exact absurd hx HSet.not_mem_empty
        · intro hx
          have := N.inBound _ _ hx
          omega
      · cases h
  ins i k h := by
    simp only [DTFNode.reserveDepth] at h
    rw [List.getElem?_append] at h
    split at h
    · exact N.ins i k h
    · rename_i hi
      rw [List.getElem?_replicate] at h
      split at h
      · cases h
        symm
        rw [Finset.card_eq_zero, Finset.filter_eq_empty_iff]
        rintro ⟨a, b, c⟩ he ⟨rfl, rfl⟩
        have := N.inBound _ _ he
        rw [N.inLen] at hi
        simp only at *
        omega
      · cases h
  outs i k h := by
    simp only [DTFNode.reserveDepth] at h
    rw [List.getElem?_append] at h
    split at h
    · exact N.outs i k h
    · rename_i hi
      rw [List.getElem?_replicate] at h
      split at h
      · cases h
        symm
        rw [Finset.card_eq_zero, Finset.filter_eq_empty_iff]
        rintro ⟨a, b, c⟩ he ⟨rfl, rfl⟩
        have := N.outBound _ _ he
        rw [N.outLen] at hi
        simp only at *
        omega
      · cases h
  inBound x w hx := by
    have := N.inBound x w hx
    simp only [DTFNode.reserveDepth, List.length_append]
    omega
  outBound x w hx := by
    have := N.outBound x w hx
    simp only [DTFNode.reserveDepth, List.length_append]
    omega

namespace Abs

theorem reserveDepth (H : Abs g V A) {d : ℕ} (h1 : 1 ≤ d) (hd : d ≤ g.ms.length + 1) : Abs (g.reserveDepth d) V A := by
  unfold DTFGraph.reserveDepth
  split
  · rename_i hlt
    refine ⟨fun u => ?_, H.wf, h1, by simp; omega, fun u nd hu => ?_, fun i m hm => ?_, fun e he => ?_⟩
    · show u ∈ (g.nodes.mapVals _).keys ↔ _
      rw [HMap.keys_mapVals, H.keys]
    · change (g.nodes.mapVals _).get? u = some nd at hu
      rw [HMap.get?_mapVals, Option.map_eq_some_iff] at hu
      obtain ⟨nd0, hu, rfl⟩ := hu
      exact (H.node u nd0 hu).reserve
    · change (g.ms ++ [0])[i]? = some m at hm
      rw [List.getElem?_append] at hm
      split at hm
      · exact H.ms i m hm
      · rename_i hi
        have hm0 : m = 0 := by
          rcases Nat.eq_zero_or_pos (i - g.ms.length) with hz | hz
          · rw [hz] at hm; simpa using hm.symm
          · rw [List.getElem?_eq_none (by simp; omega)] at hm
            cases hm
        subst hm0
        symm
        rw [Finset.card_eq_zero, Finset.filter_eq_empty_iff]
        intro e he hc
        have := H.msLen e he
        omega
    · have := H.msLen e he
      show e.2.2 ≤ (g.ms ++ [0]).length
      simp
      omega
  · rename_i hlt
    refine ⟨H.keys, H.wf, h1, by have := H.len; simp only; omega, fun u nd hu => ?_, H.ms, H.msLen⟩
    obtain ⟨a, b, c, d1, d2, d3, d4, d5⟩ := H.node u nd hu
    exact ⟨a, b, by simp only; omega, d1, d2, d3, d4, d5⟩

theorem reserveDepth_depth (d : ℕ) : (g.reserveDepth d).depth = d := by
  unfold DTFGraph.reserveDepth
  split <;> rfl

theorem reserveDepth_ms (H : Abs g V A) {d : ℕ} (hd : d ≤ g.ms.length + 1) : d ≤ (g.reserveDepth d).ms.length := by
  unfold DTFGraph.reserveDepth
  have := H.len
  split
  · simp; omega
  · simp only; omega

end Abs

theorem card_filter_insert {a : ℕ × ℕ × ℕ} (ha : a ∉ A) (p : ℕ × ℕ × ℕ → Prop) [DecidablePred p] :
    ((insert a A).filter p).card = (A.filter p).card + if p a then 1 else 0 := by
  rw [Finset.filter_insert]
  split
  · rw [Finset.card_insert_of_notMem (fun h => ha (Finset.mem_filter.1 h).1)]
  · rfl

/-- Nodes other than the head and the tail are not affected by a new arc. -/
theorem NodeIs.insert_other {x u v w d : ℕ} {nd : DTFNode} (N : NodeIs A x d nd) (ha : (u, v, w) ∉ A) (hu : x ≠ u) (hv : x ≠ v) :
    NodeIs (insert (u, v, w) A) x d nd where
  inLen := N.inLen
  outLen := N.outLen
  depth := N.depth
  sets i X h y := by
    rw [N.sets i X h, Finset.mem_insert]
    constructor
    · exact Or.inr
    · rintro (h | h)
      · simp only [Prod.mk.injEq] at h; exact absurd h.2.1 hv
      · exact h
  ins i k h := by
    rw [card_filter_insert ha, if_neg (fun h => hv h.1.symm)]
    exact N.ins i k h
  outs i k h := by
    rw [card_filter_insert ha, if_neg (fun h => hu h.1.symm)]
    exact N.outs i k h
  inBound y z h := by
    rcases Finset.mem_insert.1 h with h | h
    · simp only [Prod.mk.injEq] at h; exact absurd h.2.1 hv
    · exact N.inBound y z h
  outBound y z h := by
    rcases Finset.mem_insert.1 h with h | h
    · simp only [Prod.mk.injEq] at h; exact absurd h.1 hu
    · exact N.outBound y z h

theorem getElem?_set_some {α : Type} {l : List α} {i j : ℕ} {a b : α} (h : (l.set i a)[j]? = some b) :
    (i = j ∧ b = a) ∨ (i ≠ j ∧ l[j]? = some b) := by
  rw [List.getElem?_set] at h
  split at h
  · split at h
    · cases h; exact Or.inl ⟨by assumption, rfl⟩
    · cases h
  · exact Or.inr ⟨by assumption, h⟩

namespace Abs

theorem addArc (H : Abs g V A) {d : ℕ} (h1 : 1 ≤ d) (hd : d ≤ g.ms.length + 1) (u v : ℕ) :
    Ok (g.addArc u v d) (fun g' => Abs g' (insert u (insert v V)) (insert (u, v, d) A) ∧ g'.depth = d) := by
  have R := H.reserveDepth h1 hd
  have hdep := reserveDepth_depth (g := g) d
  have hms := H.reserveDepth_ms hd
  unfold DTFGraph.addArc
  generalize hg' : g.reserveDepth d = r at *
  simp only
  have NV := R.getD v
  generalize hnv : r.nodes.getD v (DTFNode.new r.depth) = nv at *
  have hi : d - 1 < nv.inArcs.length := by have := NV.depth; omega
  have e1 : d - 1 + 1 = d := by omega
  rw [usub_ok h1, bind_ok, List.getElem?_eq_getElem hi, unwrap_some, bind_ok]
  have hX := NV.sets (d - 1) _ (List.getElem?_eq_getElem hi)
  generalize nv.inArcs[d - 1] = X at *
  rw [e1] at hX
  by_cases hm : u ∈ X
  · rw [if_pos (HSet.contains_iff.2 hm)]
    have hA := (hX u).1 hm
    have hV := R.wf _ hA
    rw [Finset.insert_eq_of_mem hA, Finset.insert_eq_of_mem hV.2.1, Finset.insert_eq_of_mem hV.1]
    refine Ok.pure ⟨⟨fun x => ?_, R.wf, R.pos, R.len, fun x nd hx => ?_, R.ms, R.msLen⟩, hdep⟩
    · show x ∈ (r.nodes.insert v _).keys ↔ _
      rw [HMap.mem_keys_insert, R.keys]
      exact ⟨fun h => h.elim (fun h => h ▸ hV.2.1) id, Or.inr⟩
    · change (r.nodes.insert v _).get? x = some nd at hx
      rw [HMap.get?_insert] at hx
      split at hx
      · rename_i he; cases hx; subst he; exact NV
      · exact R.node x nd hx
  · rw [if_neg (fun h => hm (HSet.contains_iff.1 h))]
    have hA : (u, v, d) ∉ A := fun h => hm ((hX u).2 h)
    have hi2 : d - 1 < nv.inDegs.length := by rw [NV.inLen]; exact hi
    rw [List.getElem?_eq_getElem hi2, unwrap_some, bind_ok]
    have hk := NV.ins (d - 1) _ (List.getElem?_eq_getElem hi2)
    generalize nv.inDegs[d - 1] = k at *
    rw [e1] at hk
    generalize hnv' : ({ nv with inArcs := nv.inArcs.set (d - 1) (X.insert u), inDegs := nv.inDegs.set (d - 1) (k + 1) } : DTFNode) = nv' at *
    -- the node of `u` when its counter is updated
    have hNU : ∃ nu, (r.nodes.insert v nv').getD u (DTFNode.new r.depth) = nu ∧
        nu.inArcs.length = nu.inDegs.length ∧ nu.outDegs.length = nu.inArcs.length ∧ d ≤ nu.inArcs.length ∧
        (∀ i k, nu.outDegs[i]? = some k → k = (A.filter (fun e => e.1 = u ∧ e.2.2 = i + 1)).card) ∧
        (∀ x w, (u, x, w) ∈ A → w ≤ nu.inArcs.length) ∧
        (u = v → nu = nv') ∧ (u ≠ v → NodeIs A u r.depth nu) := by
      by_cases huv : u = v
      · subst huv
        refine ⟨nv', ?_, ?_, ?_, ?_, ?_, ?_, fun _ => rfl, fun h => absurd rfl h⟩
        · unfold HMap.getD; rw [HMap.get?_insert, if_pos rfl]; rfl
        · rw [← hnv']; simp [NV.inLen]
        · rw [← hnv']; simp [NV.outLen]
        · rw [← hnv']; simp; omega
        · rw [← hnv']; exact NV.outs
        · rw [← hnv']; simpa using NV.outBound
      · have N := R.getD u
        refine ⟨_, rfl, ?_⟩
        have he : (r.nodes.insert v nv').getD u (DTFNode.new r.depth) = r.nodes.getD u (DTFNode.new r.depth) := by
          unfold HMap.getD; rw [HMap.get?_insert, if_neg huv]
        rw [he]
        exact ⟨N.inLen.symm, N.outLen, by have := N.depth; omega, N.outs, N.outBound, fun h => absurd h huv, fun _ => N⟩
    obtain ⟨nu, hnu, l1, l2, l3, l4, l5, l6, l7⟩ := hNU
    rw [hnu]
    have hi3 : d - 1 < nu.outDegs.length := by omega
    rw [List.getElem?_eq_getElem hi3, unwrap_some, bind_ok]
    have hl := l4 (d - 1) _ (List.getElem?_eq_getElem hi3)
    generalize nu.outDegs[d - 1] = l at *
    rw [e1] at hl
    have hi4 : d - 1 < r.ms.length := by omega
    rw [List.getElem?_eq_getElem hi4, unwrap_some, bind_ok]
    have hm4 := R.ms (d - 1) _ (List.getElem?_eq_getElem hi4)
    generalize r.ms[d - 1] = m at *
    rw [e1] at hm4
    refine Ok.pure ⟨⟨fun x => ?_, fun e he => ?_, R.pos, ?_, fun x nd hx => ?_, fun i k' hk' => ?_, fun e he => ?_⟩, hdep⟩
    · show x ∈ ((r.nodes.insert v _).insert u _).keys ↔ _
      rw [HMap.mem_keys_insert, HMap.mem_keys_insert, R.keys]
      simp only [Finset.mem_insert]
    · rcases Finset.mem_insert.1 he with rfl | he
      · simp; omega
      · have := R.wf e he
        exact ⟨Finset.mem_insert_of_mem (Finset.mem_insert_of_mem this.1),
          Finset.mem_insert_of_mem (Finset.mem_insert_of_mem this.2.1), this.2.2⟩
    · simp only [List.length_set]; exact R.len
    · change ((r.nodes.insert v _).insert u _).get? x = some nd at hx
      rw [HMap.get?_insert] at hx
      have hsets : ∀ i Y, (nv.inArcs.set (d - 1) (X.insert u))[i]? = some Y → ∀ y, y ∈ Y ↔ (y, v, i + 1) ∈ insert (u, v, d) A := by
        intro i Y hY y
        rcases getElem?_set_some hY with ⟨rfl, rfl⟩ | ⟨hne, hY⟩
        · rw [HSet.mem_insert, hX, Finset.mem_insert, e1]
          simp
        · rw [NV.sets i Y hY, Finset.mem_insert]
          have : ¬ ((y, v, i + 1) = (u, v, d)) := by simp; omega
          simp [this]
      have hins : ∀ i k', (nv.inDegs.set (d - 1) (k + 1))[i]? = some k' →
          k' = ((insert (u, v, d) A).filter (fun e => e.2.1 = v ∧ e.2.2 = i + 1)).card := by
        intro i k' hk'
        rw [card_filter_insert hA]
        rcases getElem?_set_some hk' with ⟨rfl, rfl⟩ | ⟨hne, hk'⟩
        · rw [e1, if_pos ⟨rfl, rfl⟩, hk]
        · rw [if_neg (fun h => by have := h.2; simp only at this; omega)]
          exact NV.ins i k' hk'
      have houts : ∀ i k', (nu.outDegs.set (d - 1) (l + 1))[i]? = some k' →
          k' = ((insert (u, v, d) A).filter (fun e => e.1 = u ∧ e.2.2 = i + 1)).card := by
        intro i k' hk'
        rw [card_filter_insert hA]
        rcases getElem?_set_some hk' with ⟨rfl, rfl⟩ | ⟨hne, hk'⟩
        · rw [e1, if_pos ⟨rfl, rfl⟩, hl]
        · rw [if_neg (fun h => by have := h.2; simp only at this; omega)]
          exact l4 i k' hk'
      by_cases hxu : x = u
      · subst hxu
        rw [if_pos rfl] at hx
        cases hx
        by_cases huv : x = v
        · subst huv
          rw [l6 rfl, ← hnv'] at houts
          rw [l6 rfl, ← hnv']
          refine ⟨by simp [NV.inLen], by simp [NV.outLen], by simp; exact NV.depth, hsets, hins, houts, ?_, ?_⟩
          · intro y w hy
            simp only [List.length_set]
            rcases Finset.mem_insert.1 hy with hy | hy
            · simp only [Prod.mk.injEq] at hy; omega
            · exact NV.inBound y w hy
          · intro y w hy
            simp only [List.length_set]
            rcases Finset.mem_insert.1 hy with hy | hy
            · simp only [Prod.mk.injEq] at hy; omega
            · exact NV.outBound y w hy
        · have N := l7 huv
          refine ⟨N.inLen, by simp [N.outLen], N.depth, ?_, ?_, houts, ?_, ?_⟩
          · intro i Y hY y
            rw [N.sets i Y hY, Finset.mem_insert]
            have : ¬ ((y, x, i + 1) = (x, v, d)) := by simp only [Prod.mk.injEq]; tauto
            simp [this]
          · intro i k' hk'
            rw [card_filter_insert hA, if_neg (fun h => huv h.1.symm)]
            exact N.ins i k' hk'
          · intro y w hy
            rcases Finset.mem_insert.1 hy with hy | hy
            · simp only [Prod.mk.injEq] at hy; exact absurd hy.2.1 huv
            · exact N.inBound y w hy
          · intro y w hy
            rcases Finset.mem_insert.1 hy with hy | hy
            · simp only [Prod.mk.injEq] at hy; simp only; omega
            · exact N.outBound y w hy
      · rw [if_neg hxu, HMap.get?_insert] at hx
        split at hx
        · rename_i hxv
          subst hxv
          cases hx
          rw [← hnv']
          refine ⟨by simp [NV.inLen], by simp [NV.outLen], by simp; exact NV.depth, hsets, hins, ?_, ?_, ?_⟩
          · intro i k' hk'
            rw [card_filter_insert hA, if_neg (fun h => hxu h.1.symm)]
            exact NV.outs i k' hk'
          · intro y w hy
            simp only [List.length_set]
            rcases Finset.mem_insert.1 hy with hy | hy
            · simp only [Prod.mk.injEq] at hy; omega
            · exact NV.inBound y w hy
          · intro y w hy
            simp only [List.length_set]
            rcases Finset.mem_insert.1 hy with hy | hy
            · simp only [Prod.mk.injEq] at hy; exact absurd hy.1 hxu
            · exact NV.outBound y w hy
        · rename_i hxv
          exact (R.node x nd hx).insert_other hA hxu hxv
    · change (r.ms.set (d - 1) (m + 1))[i]? = some k' at hk'
      rw [card_filter_insert hA]
      rcases getElem?_set_some hk' with ⟨rfl, rfl⟩ | ⟨hne, hk'⟩
      · rw [e1, if_pos rfl, hm4]
      · rw [if_neg (fun h => by simp only at h; omega)]
        exact R.ms i k' hk'
    · simp only [List.length_set]
      rcases Finset.mem_insert.1 he with rfl | he
      · exact hms
      · exact R.msLen e he

end Abs
end DTFGraph
end Verif
