import Verif.Lemmas.DTFGraph
/-!
# Lemmas: queries on a `DTFGraph`
-/
namespace Verif
namespace DTFGraph
variable {g h : DTFGraph} {V : Finset ℕ} {A : Arcs}

theorem sum_layers (p : ℕ × ℕ × ℕ → Prop) [DecidablePred p] {l : List ℕ} (hpos : ∀ e ∈ A, 1 ≤ e.2.2)
    (hb : ∀ e ∈ A, p e → e.2.2 ≤ l.length)
    (hl : ∀ i k, l[i]? = some k → k = (A.filter (fun e => p e ∧ e.2.2 = i + 1)).card) : l.sum = (A.filter p).card := by
  have h1 : l = (List.range l.length).map (fun i => (A.filter (fun e => p e ∧ e.2.2 = i + 1)).card) := by
    apply List.ext_getElem (by simp)
    intro i h1 h2
    rw [List.getElem_map, List.getElem_range]
    exact hl i _ (List.getElem?_eq_getElem h1)
  rw [Finset.card_eq_sum_card_fiberwise (f := fun e : ℕ × ℕ × ℕ => e.2.2 - 1) (t := Finset.range l.length)]
  · conv_lhs => rw [h1]
    have hs : ∀ f : ℕ → ℕ, ((List.range l.length).map f).sum = ∑ i ∈ Finset.range l.length, f i := fun f => rfl
    rw [hs]
    refine Finset.sum_congr rfl fun i _ => ?_
    rw [Finset.filter_filter]
    congr 1
    refine Finset.filter_congr fun e he => ?_
    have := hpos e he
    constructor
    · rintro ⟨a, b⟩; exact ⟨a, by omega⟩
    · rintro ⟨a, b⟩; exact ⟨a, by omega⟩
  · intro e he
    have he := Finset.mem_filter.1 (Finset.mem_coe.1 he)
    have := hb e he.1 he.2
    have := hpos e he.1
    simp
    omega

namespace Abs

theorem vertices_mem (H : Abs g V A) (u : ℕ) : u ∈ g.vertices ↔ u ∈ V := H.keys u

theorem vertices_nodup (_H : Abs g V A) : g.vertices.Nodup := g.nodes.keys_nodup

theorem numVertices (H : Abs g V A) : g.numVertices = V.card := HMap.len_of_mem_iff H.keys

theorem contains_iff (H : Abs g V A) (u : ℕ) : g.contains u = true ↔ u ∈ V := by
  unfold DTFGraph.contains
  rw [HMap.contains_iff, H.keys]

theorem pos_arcs (H : Abs g V A) : ∀ e ∈ A, 1 ≤ e.2.2 := fun e he => (H.wf e he).2.2

theorem layer_of {u w d : ℕ} {nd : DTFNode} (N : NodeIs A u d nd) {x : ℕ} (hw : 1 ≤ w) (hx : (x, u, w) ∈ A) :
    ∃ X, nd.inArcs[w - 1]? = some X ∧ x ∈ X := by
  have := N.inBound _ _ hx
  have hi : w - 1 < nd.inArcs.length := by omega
  refine ⟨_, List.getElem?_eq_getElem hi, ?_⟩
  rw [N.sets (w - 1) _ (List.getElem?_eq_getElem hi), show w - 1 + 1 = w by omega]
  exact hx

theorem hasIn {u d : ℕ} {nd : DTFNode} (hpos : ∀ e ∈ A, 1 ≤ e.2.2) (N : NodeIs A u d nd) (x : ℕ) :
    nd.hasInNeighbour x = true ↔ ∃ w, (x, u, w) ∈ A := by
  unfold DTFNode.hasInNeighbour
  rw [List.any_eq_true]
  constructor
  · rintro ⟨X, hX, hx⟩
    obtain ⟨i, hi⟩ := List.mem_iff_getElem?.1 hX
    exact ⟨i + 1, (N.sets i X hi x).1 (HSet.contains_iff.1 hx)⟩
  · rintro ⟨w, hw⟩
    obtain ⟨X, hX, hx⟩ := layer_of N (hpos _ hw) hw
    exact ⟨X, List.mem_of_getElem? hX, HSet.contains_iff.2 hx⟩

theorem hasArc_iff (H : Abs g V A) (u v : ℕ) : g.hasArc u v = true ↔ ∃ w, (u, v, w) ∈ A := by
  unfold DTFGraph.hasArc
  by_cases hv : v ∈ V
  · obtain ⟨nd, h1, N⟩ := H.get hv
    rw [h1]
    exact hasIn H.pos_arcs N u
  · rw [H.get_none hv]
    simp only [Bool.false_eq_true, false_iff, not_exists]
    exact fun w => (H.not_in hv).1 u w

theorem adjacent_iff (H : Abs g V A) (u v : ℕ) : g.adjacent u v = true ↔ ∃ w, (u, v, w) ∈ A ∨ (v, u, w) ∈ A := by
  unfold DTFGraph.adjacent
  rw [Bool.or_eq_true, H.hasArc_iff, H.hasArc_iff, exists_or]

theorem hasArcAt (H : Abs g V A) (u v : ℕ) {w : ℕ} (hw : 1 ≤ w) : g.hasArcAt u v w = .ok (decide ((u, v, w) ∈ A)) := by
  unfold DTFGraph.hasArcAt
  by_cases hv : v ∈ V
  · obtain ⟨nd, h1, N⟩ := H.get hv
    rw [h1]
    unfold DTFNode.hasInNeighbourAt
    simp only
    rw [usub_ok hw, bind_ok]
    cases hX : nd.inArcs[w - 1]? with
    | some X =>
      have := N.sets _ X hX u
      rw [show w - 1 + 1 = w by omega] at this
      simp only [pure_eq_ok, Except.ok.injEq]
      rw [Bool.eq_iff_iff, decide_eq_true_iff, HSet.contains_iff, this]
    | none =>
      simp only [pure_eq_ok, Except.ok.injEq]
      symm
      rw [decide_eq_false_iff_not]
      intro hc
      obtain ⟨X, hX', -⟩ := layer_of N hw hc
      rw [hX] at hX'
      cases hX'
  · rw [H.get_none hv]
    simp only [Except.ok.injEq]
    symm
    rw [decide_eq_false_iff_not]
    exact (H.not_in hv).1 u w

theorem inNeighboursAt (H : Abs g V A) {u w : ℕ} (hu : u ∈ V) (h1 : 1 ≤ w) (hw : w ≤ g.depth) :
    Ok (g.inNeighboursAt u w) (fun l => l.Nodup ∧ ∀ x, x ∈ l ↔ (x, u, w) ∈ A) := by
  obtain ⟨nd, hg, N⟩ := H.get hu
  unfold DTFGraph.inNeighboursAt DTFNode.inNeighboursAt
  have hi : w - 1 < nd.inArcs.length := by have := N.depth; omega
  rw [hg, unwrap_some, bind_ok, usub_ok h1, bind_ok, List.getElem?_eq_getElem hi, unwrap_some, bind_ok]
  refine Ok.pure ⟨HSet.nodup _, fun x => ?_⟩
  have := N.sets (w - 1) _ (List.getElem?_eq_getElem hi) x
  rw [show w - 1 + 1 = w by omega] at this
  exact this

theorem inNeighbours (H : Abs g V A) {u : ℕ} (hu : u ∈ V) :
    Ok (g.inNeighbours u) (fun l => (∀ x, x ∈ l ↔ ∃ w, (x, u, w) ∈ A) ∧
      ((∀ x w w', (x, u, w) ∈ A → (x, u, w') ∈ A → w = w') → l.Nodup)) := by
  obtain ⟨nd, hg, N⟩ := H.get hu
  unfold DTFGraph.inNeighbours
  rw [hg, unwrap_some, bind_ok]
  refine Ok.pure ⟨fun x => ?_, fun huniq => ?_⟩
  · rw [← hasIn H.pos_arcs N]
    unfold DTFNode.inNeighbours DTFNode.hasInNeighbour
    rw [List.mem_flatMap, List.any_eq_true]
    simp only [HSet.contains_iff, HSet.mem_def]
  · unfold DTFNode.inNeighbours
    rw [List.nodup_flatMap]
    refine ⟨fun X _ => X.nodup, ?_⟩
    rw [List.pairwise_iff_getElem]
    intro i j hi hj hij x h1 h2
    have e1 := (N.sets i _ (List.getElem?_eq_getElem hi) x).1 h1
    have e2 := (N.sets j _ (List.getElem?_eq_getElem hj) x).1 h2
    have := huniq _ _ _ e1 e2
    omega

theorem inDegree (H : Abs g V A) {u : ℕ} (hu : u ∈ V) : g.inDegree u = .ok (A.filter (fun e => e.2.1 = u)).card := by
  obtain ⟨nd, hg, N⟩ := H.get hu
  unfold DTFGraph.inDegree DTFNode.inDegree sum1
  have hne : nd.inDegs.isEmpty = false := by
    rw [List.isEmpty_eq_false_iff, ← List.length_pos_iff, N.inLen]
    have := N.depth; have := H.pos; omega
  rw [hg, unwrap_some, bind_ok, hne]
  simp only [Bool.false_eq_true, if_false, Except.ok.injEq]
  refine sum_layers _ H.pos_arcs ?_ N.ins
  rintro ⟨x, y, w⟩ he rfl
  rw [N.inLen]
  exact N.inBound _ _ he

theorem outDegree (H : Abs g V A) {u : ℕ} (hu : u ∈ V) : g.outDegree u = .ok (A.filter (fun e => e.1 = u)).card := by
  obtain ⟨nd, hg, N⟩ := H.get hu
  unfold DTFGraph.outDegree DTFNode.outDegree sum1
  have hne : nd.outDegs.isEmpty = false := by
    rw [List.isEmpty_eq_false_iff, ← List.length_pos_iff, N.outLen]
    have := N.depth; have := H.pos; omega
  rw [hg, unwrap_some, bind_ok, hne]
  simp only [Bool.false_eq_true, if_false, Except.ok.injEq]
  refine sum_layers _ H.pos_arcs ?_ N.outs
  rintro ⟨x, y, w⟩ he rfl
  rw [N.outLen]
  exact N.outBound _ _ he

theorem degree (H : Abs g V A) {u : ℕ} (hu : u ∈ V) :
    g.degree u = .ok ((A.filter (fun e => e.1 = u)).card + (A.filter (fun e => e.2.1 = u)).card) := by
  have h1 := H.inDegree hu
  have h2 := H.outDegree hu
  obtain ⟨nd, hg, -⟩ := H.get hu
  unfold DTFGraph.inDegree at h1
  unfold DTFGraph.outDegree at h2
  unfold DTFGraph.degree DTFNode.degree
  rw [hg, unwrap_some, bind_ok] at h1 h2 ⊢
  rw [h2, bind_ok, h1, bind_ok]
  rfl

theorem numArcsAt (H : Abs g V A) {w : ℕ} (h1 : 1 ≤ w) (hw : w ≤ g.depth) :
    g.numArcsAtDepth w = .ok (A.filter (fun e => e.2.2 = w)).card := by
  unfold DTFGraph.numArcsAtDepth
  rw [if_neg (by omega), usub_ok h1, bind_ok]
  have hi : w - 1 < g.ms.length := by have := H.len; omega
  rw [List.getElem?_eq_getElem hi, unwrap_some, H.ms (w - 1) _ (List.getElem?_eq_getElem hi), show w - 1 + 1 = w by omega]

theorem numEdges (H : Abs g V A) : g.numEdges = .ok (A.filter (fun e => e.2.2 = 1)).card := by
  have := H.numArcsAt (le_refl 1) H.pos
  unfold DTFGraph.numArcsAtDepth at this
  rw [if_neg (by have := H.pos; omega)] at this
  exact this

theorem getArcDepth (H : Abs g V A) (u : ℕ) {v : ℕ} (hv : v ∈ V) :
    Ok (g.getArcDepth u v) (fun o => (∀ k, o = some k → ∃ w, k = cast32 w ∧ (u, v, w) ∈ A ∧ ∀ w', (u, v, w') ∈ A → w ≤ w') ∧
      (o = none → ∀ w, (u, v, w) ∉ A)) := by
  obtain ⟨nd, hg, N⟩ := H.get hv
  unfold DTFGraph.getArcDepth DTFNode.getArcDepthFrom
  rw [hg, unwrap_some, bind_ok]
  refine Ok.pure ⟨fun k hk => ?_, fun hn w hw => ?_⟩
  · rw [Option.map_eq_some_iff] at hk
    obtain ⟨i, hi, rfl⟩ := hk
    rw [List.findIdx?_eq_some_iff_getElem] at hi
    obtain ⟨hlt, hc, hbefore⟩ := hi
    refine ⟨i + 1, rfl, (N.sets i _ (List.getElem?_eq_getElem hlt) u).1 (HSet.contains_iff.1 hc), fun w' hw' => ?_⟩
    by_contra hlt'
    have h1 := H.pos_arcs _ hw'
    simp only at h1
    refine hbefore (w' - 1) (by omega) ?_
    rw [HSet.contains_iff, N.sets (w' - 1) _ (List.getElem?_eq_getElem (by omega)), show w' - 1 + 1 = w' by omega]
    exact hw'
  · rw [Option.map_eq_none_iff, List.findIdx?_eq_none_iff] at hn
    obtain ⟨X, hX, hx⟩ := layer_of N (H.pos_arcs _ hw) hw
    have := hn X (List.mem_of_getElem? hX)
    rw [HSet.contains_iff.2 hx] at this
    cases this

theorem weighted (H : Abs g V A) {u k : ℕ} (hu : u ∈ V) (hk : k ≤ g.depth) :
    Ok (g.weighted u k) (fun l => (∀ e, e ∈ l ↔ 1 ≤ e.2 ∧ e.2 ≤ k ∧ (e.1, u, e.2) ∈ A) ∧
      ((∀ x w w', (x, u, w) ∈ A → (x, u, w') ∈ A → w = w') → (l.map Prod.fst).Nodup)) := by
  unfold DTFGraph.weighted
  have := Ok.foldlM (f := fun (acc : List (ℕ × ℕ)) d => do
      let N ← g.inNeighboursAt u d
      return acc ++ N.map (fun x => (x, d))) (l := List.range' 1 k) (b := [])
    (fun (pre : List ℕ) (l : List (ℕ × ℕ)) => (∀ e, e ∈ l ↔ e.2 ∈ pre ∧ (e.1, u, e.2) ∈ A) ∧
      ((∀ x w w', (x, u, w) ∈ A → (x, u, w') ∈ A → w = w') → (l.map Prod.fst).Nodup)) (by simp) ?_
  · refine this.mono fun l ⟨h1, h2⟩ => ⟨fun e => ?_, h2⟩
    rw [h1, List.mem_range'_1, ← and_assoc]
    have : (1 ≤ e.2 ∧ e.2 < 1 + k) ↔ (1 ≤ e.2 ∧ e.2 ≤ k) := by omega
    rw [this]
  · rintro pre w post l hl ⟨h1, h2⟩
    have hw : w ∈ List.range' 1 k := by rw [hl]; simp
    rw [List.mem_range'_1] at hw
    have hnot : w ∉ pre := by
      have hn : (List.range' 1 k).Nodup := List.nodup_range'
      rw [hl] at hn
      intro hc
      exact (List.nodup_append.1 hn).2.2 w hc w (by simp) rfl
    refine (H.inNeighboursAt hu hw.1 (by omega)).bind fun N hN => Ok.pure ⟨fun e => ?_, fun huniq => ?_⟩
    · rw [List.mem_append, h1, List.mem_map, List.mem_append, List.mem_singleton, or_and_right]
      refine or_congr Iff.rfl ?_
      constructor
      · rintro ⟨x, hx, rfl⟩; exact ⟨rfl, (hN.2 x).1 hx⟩
      · rintro ⟨rfl, hx⟩; exact ⟨e.1, (hN.2 _).2 hx, rfl⟩
    · rw [List.map_append, List.nodup_append]
      refine ⟨h2 huniq, by simpa [List.map_map, Function.comp_def] using hN.1, ?_⟩
      intro x hx y hy hxy
      subst hxy
      obtain ⟨⟨x', w'⟩, he, rfl⟩ := List.mem_map.1 hx
      simp only [List.map_map, List.mem_map, Function.comp] at hy
      obtain ⟨y, hy, rfl⟩ := hy
      have := (h1 _).1 he
      have := huniq _ _ _ this.2 ((hN.2 _).1 hy)
      simp only at this
      subst this
      exact hnot ((h1 _).1 he).1

end Abs
end DTFGraph
end Verif
