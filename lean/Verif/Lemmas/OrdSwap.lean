import Verif.Lemmas.OrdGraph
/-!
# `OrdGraph::swap` on arbitrary pairs of vertices

Every node stores its neighbours, split into `left` and `right` by an arbitrary relation `lft`.
-/
namespace Verif
namespace OrdGraph

/-- The node of every vertex `x = ord[i]` stores the `A`-neighbours of `x`: those with `lft x w` in `left`, the others in
`right`. -/
structure PNodes (ord : List ℕ) (A lft : ℕ → ℕ → Prop) (nodes : List OrdNode) : Prop where
  len : nodes.length = ord.length
  node : ∀ (i x : ℕ), ord[i]? = some x → ∃ n : OrdNode, nodes[i]? = some n ∧ n.v = x ∧ (∀ w, w ∈ n.left ↔ A x w ∧ lft x w) ∧
    ∀ w, w ∈ n.right ↔ A x w ∧ ¬ lft x w

/-- Representation invariant with an arbitrary split. -/
structure PInv (g : OrdGraph) (S : SGraph) (ord : List ℕ) (lft : ℕ → ℕ → Prop) : Prop where
  ordering : S.Ordering ord
  loopless : S.Loopless
  idx : ∀ (u i : ℕ), g.indices.get? u = some i ↔ ord[i]? = some u
  nodes : PNodes ord S.Adj lft g.nodes
  m : g.m = S.E.card

/-- The split after `s` was moved to the key `newI`. -/
def moveLft (ord : List ℕ) (s newI : ℕ) (lft : ℕ → ℕ → Prop) (x w : ℕ) : Prop :=
  if x = s then ord.idxOf w < newI
  else if w = s then (if newI > ord.idxOf x then False else if newI < ord.idxOf x then True else lft x w)
  else lft x w

theorem swapRound_gen {S : SGraph} {ord : List ℕ} (O : S.Ordering ord) (hl : S.Loopless) {indices : HMap ℕ ℕ}
    (hidx : ∀ (u i : ℕ), indices.get? u = some i ↔ ord[i]? = some u) {nodes : List OrdNode} {lft : ℕ → ℕ → Prop}
    (H : PNodes ord S.Adj lft nodes) {s newI : ℕ} (hs : s ∈ S.V) :
    Ok (swapRound indices nodes s (ord.idxOf s) newI) (PNodes ord S.Adj (moveLft ord s newI lft)) := by
  unfold swapRound
  obtain ⟨n, h1, h2, h3, h4⟩ := H.node _ s (O.getElem hs)
  rw [h1]
  simp only [unwrap_some, bind_ok]
  have hN : ∀ x, x ∈ n.neighbours ↔ S.Adj s x := by
    intro x
    unfold OrdNode.neighbours
    rw [List.mem_append, HSet.mem_toList, HSet.mem_toList, h3, h4, ← and_or_left]
    exact ⟨And.left, fun h => ⟨h, Classical.em _⟩⟩
  refine Ok.bind (splitAt_spec (q := fun x => ord.idxOf x) fun x hx =>
    (hidx x _).2 (O.getElem ((hN x).1 hx).right)) ?_
  rintro ⟨l, r, upd⟩ ⟨g1, g2, g3⟩
  simp only at g1 g2 g3 ⊢
  subst g3
  have hss : ∀ x, S.Adj s x → x ≠ s := by rintro x h rfl; exact hl _ h
  refine Ok.mono (Ok.foldlM (fun pre (nodes' : List OrdNode) => nodes'.length = ord.length ∧ ∀ (i x : ℕ), ord[i]? = some x →
    ∃ n, nodes'[i]? = some n ∧ n.v = x ∧
      (∀ w, w ∈ n.left ↔ S.Adj x w ∧ if x = s ∨ i ∈ pre ∨ w ≠ s then moveLft ord s newI lft x w else lft x w) ∧
      (∀ w, w ∈ n.right ↔ S.Adj x w ∧ ¬ if x = s ∨ i ∈ pre ∨ w ≠ s then moveLft ord s newI lft x w else lft x w)) ?_ ?_) ?_
  · refine ⟨by rw [List.length_set, H.len], fun i x hx => ?_⟩
    by_cases hxs : x = s
    · subst hxs
      have hi := O.idxOf_eq hx
      rw [hi, List.getElem?_set_self (by rw [H.len, ← hi]; exact O.idxOf_lt hs)]
      refine ⟨_, rfl, h2, fun w => ?_, fun w => ?_⟩
      · simp only [g1, hN, true_or, if_true, moveLft]
      · simp only [g2, hN, true_or, if_true, moveLft]
    · have hi : i ≠ ord.idxOf s := fun h => hxs (O.idxOf_inj (O.mem_of hx) ((O.idxOf_eq hx).trans h))
      rw [List.getElem?_set_ne (fun h => hi h.symm)]
      obtain ⟨k, k1, k2, k3, k4⟩ := H.node i x hx
      refine ⟨k, k1, k2, fun w => ?_, fun w => ?_⟩
      · rw [k3]
        by_cases hw : w = s
        · simp [hxs, hw]
        · simp [hxs, hw, moveLft]
      · rw [k4]
        by_cases hw : w = s
        · simp [hxs, hw]
        · simp [hxs, hw, moveLft]
  · rintro pre ix post nodes' hsplit ⟨hlen, hnode⟩
    have hixm : ix ∈ n.neighbours.map (fun x => ord.idxOf x) := by rw [hsplit]; simp
    obtain ⟨y, hy, rfl⟩ := List.mem_map.1 hixm
    rw [hN] at hy
    refine Ok.mono (modify_spec (by rw [hlen]; exact O.idxOf_lt hy.right)) ?_
    rintro nodes'' ⟨e1, e2⟩
    refine ⟨by rw [e1, hlen], fun i x hx => ?_⟩
    obtain ⟨k, k1, k2, k3, k4⟩ := hnode i x hx
    have hix := O.idxOf_eq hx
    rw [e2, k1]
    by_cases hxy : x = y
    · subst hxy
      rw [if_pos hix.symm, Option.map_some]
      have hxs := hss x hy
      have hys := hy.symm
      simp only [hxs, false_or, List.mem_append, List.mem_singleton, ← hix, or_true, true_or, if_true] at k3 k4 ⊢
      have o3 : ∀ w, w ≠ s → (w ∈ k.left ↔ S.Adj x w ∧ lft x w) := by
        intro w hw; rw [k3]; simp [hw, moveLft, hxs]
      have o4 : ∀ w, w ≠ s → (w ∈ k.right ↔ S.Adj x w ∧ ¬ lft x w) := by
        intro w hw; rw [k4]; simp [hw, moveLft, hxs]
      have hor : s ∈ k.right ↔ ¬ s ∈ k.left := by
        rw [k3, k4]; simp [hys]
      have hk : ¬ newI > ord.idxOf x → ¬ newI < ord.idxOf x → (s ∈ k.left ↔ lft x s) := by
        intro a b
        rw [k3]
        simp [hys, moveLft, hxs, a, b]
      have ml : ∀ w, w ≠ s → (moveLft ord s newI lft x w ↔ lft x w) := by
        intro w hw; simp [moveLft, hxs, hw]
      have ms : moveLft ord s newI lft x s =
          (if newI > ord.idxOf x then False else if newI < ord.idxOf x then True else lft x s) := by
        simp [moveLft, hxs]
      unfold fixNeighbour
      rcases Nat.lt_trichotomy newI (ord.idxOf x) with hlt | hlt | hlt
      · have t1 : ¬ newI > ord.idxOf x := by omega
        rw [if_neg t1, if_pos hlt] at ms
        rw [if_neg (by simp [t1])]
        by_cases hsr : s ∈ k.right
        · rw [if_pos (by simp [hlt, hsr])]
          refine ⟨_, rfl, k2, fun w => ?_, fun w => ?_⟩
          · simp only [HSet.mem_insert]
            by_cases hw : w = s
            · subst hw; simp [hys, ms]
            · rw [o3 w hw, ml w hw]; simp [hw]
          · simp only [HSet.mem_remove]
            by_cases hw : w = s
            · subst hw; simp [ms]
            · rw [o4 w hw, ml w hw]; simp [hw]
        · rw [if_neg (by simp [hsr])]
          have hsl : s ∈ k.left := by rw [hor] at hsr; exact not_not.1 hsr
          refine ⟨_, rfl, k2, fun w => ?_, fun w => ?_⟩
          · by_cases hw : w = s
            · subst hw; simp [hys, ms, hsl]
            · rw [o3 w hw, ml w hw]
          · by_cases hw : w = s
            · subst hw; simp [ms, hsr]
            · rw [o4 w hw, ml w hw]
      · have t1 : ¬ newI > ord.idxOf x := by omega
        have t2 : ¬ newI < ord.idxOf x := by omega
        rw [if_neg t1, if_neg t2] at ms
        rw [if_neg (by simp [t1]), if_neg (by simp [t2])]
        have hk := hk t1 t2
        refine ⟨_, rfl, k2, fun w => ?_, fun w => ?_⟩
        · by_cases hw : w = s
          · subst hw; simp [hys, ms, hk]
          · rw [o3 w hw, ml w hw]
        · by_cases hw : w = s
          · subst hw; simp [hys, ms, hor, hk]
          · rw [o4 w hw, ml w hw]
      · rw [if_pos (show newI > ord.idxOf x from hlt)] at ms
        by_cases hsl : s ∈ k.left
        · rw [if_pos (by simp [hlt, hsl])]
          refine ⟨_, rfl, k2, fun w => ?_, fun w => ?_⟩
          · simp only [HSet.mem_remove]
            by_cases hw : w = s
            · subst hw; simp [ms]
            · rw [o3 w hw, ml w hw]; simp [hw]
          · simp only [HSet.mem_insert]
            by_cases hw : w = s
            · subst hw; simp [hys, ms]
            · rw [o4 w hw, ml w hw]; simp [hw]
        · have t2 : ¬ newI < ord.idxOf x := by omega
          rw [if_neg (by simp [hsl]), if_neg (by simp [t2])]
          refine ⟨_, rfl, k2, fun w => ?_, fun w => ?_⟩
          · by_cases hw : w = s
            · subst hw; simp [ms, hsl]
            · rw [o3 w hw, ml w hw]
          · by_cases hw : w = s
            · subst hw; simp [hys, ms, hor, hsl]
            · rw [o4 w hw, ml w hw]
    · have hiy : i ≠ ord.idxOf y := fun h => hxy (O.idxOf_inj (O.mem_of hx) (hix.trans h))
      rw [if_neg hiy]
      refine ⟨k, rfl, k2, fun w => ?_, fun w => ?_⟩
      · rw [k3]; simp [hiy]
      · rw [k4]; simp [hiy]
  · rintro nodes' ⟨hlen, hnode⟩
    refine ⟨hlen, fun i x hx => ?_⟩
    obtain ⟨k, k1, k2, k3, k4⟩ := hnode i x hx
    have key : ∀ w, S.Adj x w → (x = s ∨ i ∈ n.neighbours.map (fun x => ord.idxOf x) ∨ w ≠ s) := by
      intro w hw
      by_cases hws : w = s
      · refine Or.inr (Or.inl (List.mem_map.2 ⟨x, (hN x).2 (hws ▸ hw.symm), O.idxOf_eq hx⟩))
      · exact Or.inr (Or.inr hws)
    refine ⟨k, k1, k2, fun w => ?_, fun w => ?_⟩
    · rw [k3]; exact and_congr_right fun h => by rw [if_pos (key w h)]
    · rw [k4]; exact and_congr_right fun h => by rw [if_pos (key w h)]

namespace PInv
variable {g : OrdGraph} {S : SGraph} {ord : List ℕ} {lft : ℕ → ℕ → Prop}

theorem congr (H : PInv g S ord lft) {lft' : ℕ → ℕ → Prop} (h : ∀ x w, S.Adj x w → (lft x w ↔ lft' x w)) :
    PInv g S ord lft' := by
  refine ⟨H.ordering, H.loopless, H.idx, ⟨H.nodes.len, fun i x hx => ?_⟩, H.m⟩
  obtain ⟨n, k1, k2, k3, k4⟩ := H.nodes.node i x hx
  exact ⟨n, k1, k2, fun w => (k3 w).trans (and_congr_right fun a => h x w a),
    fun w => (k4 w).trans (and_congr_right fun a => not_congr (h x w a))⟩

theorem get (H : PInv g S ord lft) {u : ℕ} (hu : u ∈ S.V) : g.indices.get? u = some (ord.idxOf u) :=
  (H.idx u _).2 (H.ordering.getElem hu)

theorem get_none (H : PInv g S ord lft) {u : ℕ} (hu : u ∉ S.V) : g.indices.get? u = none := by
  cases h : g.indices.get? u with
  | none => rfl
  | some i => exact absurd (H.ordering.mem_of ((H.idx u i).1 h)) hu

/-- `swap` of two vertices, adjacent or not. -/
theorem swap (H : PInv g S ord lft) {u v : ℕ} (hu : u ∈ S.V) (hv : v ∈ S.V) (he : u ≠ v) :
    Ok (g.swap u v) (fun g' => PInv g' S (ord.map (exch u v))
      (moveLft ord v (ord.idxOf u) (moveLft ord u (ord.idxOf v) lft))) := by
  unfold OrdGraph.swap
  rw [if_neg (by simpa using he), H.get hu, H.get hv]
  simp only
  have O := H.ordering
  have hiuv : ord.idxOf u ≠ ord.idxOf v := fun h => he (O.idxOf_inj hu h)
  refine Ok.bind (swapRound_gen O H.loopless H.idx H.nodes hu) fun n1 h1 => ?_
  refine Ok.bind (swapRound_gen O H.loopless H.idx h1 hv) fun n2 h2 => ?_
  have hl2 := h2.len
  have hlu : ord.idxOf u < n2.length := by rw [hl2]; exact O.idxOf_lt hu
  have hlv : ord.idxOf v < n2.length := by rw [hl2]; exact O.idxOf_lt hv
  unfold swapNodes
  rw [List.getElem?_eq_getElem hlu, List.getElem?_eq_getElem hlv]
  simp only [unwrap_some, bind_ok]
  have hkey : ∀ x ∈ S.V, (if x = v then ord.idxOf u else if x = u then ord.idxOf v else ord.idxOf x) =
      (ord.map (exch u v)).idxOf x := by
    intro x hx
    rw [idxOf_exch O hu hv hx]
    unfold exch
    split_ifs with h1 h2 <;> first | rfl | simp_all
  refine Ok.pure ⟨ordering_exch O hu hv, H.loopless, ?_, ⟨?_, ?_⟩, H.m⟩
  · intro x i
    simp only [HMap.get?_insert]
    rw [(ordering_exch O hu hv).get_iff]
    constructor
    · intro h
      have hx : x ∈ S.V := by
        split_ifs at h with a b
        · exact a ▸ hv
        · exact b ▸ hu
        · exact O.mem_of ((H.idx x i).1 h)
      refine ⟨hx, ?_⟩
      rw [← hkey x hx]
      split_ifs at h ⊢ with a b
      · exact Option.some.inj h
      · exact Option.some.inj h
      · exact O.idxOf_eq ((H.idx x i).1 h)
    · rintro ⟨hx, h⟩
      rw [← hkey x hx] at h
      split_ifs at h ⊢ with a b
      · rw [h]
      · rw [h]
      · rw [← h, H.get hx]
  · simp [hl2]
  · intro i x hx
    simp only
    rw [List.getElem?_map] at hx
    cases hy : ord[i]? with
    | none => rw [hy] at hx; cases hx
    | some y =>
      rw [hy, Option.map_some] at hx
      have hxy : exch u v y = x := Option.some.inj hx
      have hyV := O.mem_of hy
      have hxV : x ∈ S.V := by rw [← hxy]; unfold exch; split_ifs <;> assumption
      have hyx : y = exch u v x := by rw [← hxy, exch_exch]
      obtain ⟨k, k1, k2, k3, k4⟩ := h2.node _ x (O.getElem hxV)
      refine ⟨k, ?_, k2, k3, k4⟩
      have hiy := O.idxOf_eq hy
      by_cases hxu : x = u
      · subst hxu
        have hyv : y = v := by rw [hyx]; unfold exch; simp
        subst hyv
        rw [← hiy, List.getElem?_set_self (by simpa using hlv)]
        rw [List.getElem?_eq_getElem hlu] at k1; exact k1
      · by_cases hxv : x = v
        · subst hxv
          have hyu : y = u := by rw [hyx]; unfold exch; simp [hxu]
          subst hyu
          rw [← hiy, List.getElem?_set_ne (fun h => hiuv h.symm), List.getElem?_set_self hlu]
          rw [List.getElem?_eq_getElem hlv] at k1; exact k1
        · have : y = x := by rw [hyx]; unfold exch; simp [hxu, hxv]
          subst this
          rw [← hiy]
          rw [List.getElem?_set_ne, List.getElem?_set_ne]
          · exact k1
          · exact fun h => hxu (O.idxOf_inj hu h).symm
          · exact fun h => hxv (O.idxOf_inj hv h).symm

theorem vertices (H : PInv g S ord lft) : g.nodes.map OrdNode.v = ord := by
  apply List.ext_getElem?
  intro i
  rw [List.getElem?_map]
  cases h : ord[i]? with
  | some x =>
    obtain ⟨n, h1, h2, -⟩ := H.nodes.node i x h
    rw [h1, Option.map_some, h2]
  | none =>
    rw [List.getElem?_eq_none_iff, ← H.nodes.len, ← List.getElem?_eq_none_iff] at h
    rw [h]; rfl

theorem contains (H : PInv g S ord lft) (u : ℕ) : g.indices.contains u = true ↔ u ∈ S.V := by
  by_cases hu : u ∈ S.V
  · simp [HMap.contains, H.get hu, hu]
  · simp [HMap.contains, H.get_none hu, hu]

theorem sortByIndex (H : PInv g S ord lft) {l : List ℕ} (hn : l.Nodup) (hl : ∀ a ∈ l, a ∈ S.V) :
    ∃ r, g.sortByIndex l = .ok r ∧ r.Pairwise (fun a b => ord.idxOf a < ord.idxOf b) ∧ ∀ w, w ∈ r ↔ w ∈ l := by
  unfold OrdGraph.sortByIndex
  rw [EditGraph.mapM_ok (h := fun v => (ord.idxOf v, v)) (fun a ha => by rw [H.get (hl a ha)]; rfl)]
  obtain ⟨h1, h2⟩ := sortBy_spec (f := fun v => ord.idxOf v) hn
    (fun a ha b hb he => H.ordering.idxOf_inj (hl a ha) he)
  exact ⟨_, rfl, h1, h2⟩

theorem node (H : PInv g S ord lft) {u : ℕ} (hu : u ∈ S.V) : ∃ n, g.nodes[ord.idxOf u]? = some n ∧ n.v = u ∧
    (∀ w, w ∈ n.left ↔ S.Adj u w ∧ lft u w) ∧ (∀ w, w ∈ n.right ↔ S.Adj u w ∧ ¬ lft u w) :=
  H.nodes.node _ u (H.ordering.getElem hu)

theorem length_eq {s : HSet ℕ} {l : List ℕ} (hl : l.Pairwise (fun a b => ord.idxOf a < ord.idxOf b))
    (h : ∀ w, w ∈ l ↔ w ∈ s) : l.length = s.len := by
  have hn : l.Nodup := hl.imp fun h he => absurd h (by rw [he]; omega)
  rw [← List.toFinset_card_of_nodup hn]
  exact (HSet.len_of_mem_iff fun a => by rw [List.mem_toFinset, h]).symm

theorem leftNeighbours (H : PInv g S ord lft) {u : ℕ} (hu : u ∈ S.V) : ∃ l, g.leftNeighbours u = .ok l ∧
    l.Pairwise (fun a b => ord.idxOf a < ord.idxOf b) ∧ (∀ w, w ∈ l ↔ S.Adj u w ∧ lft u w) ∧
    g.lin.leftDegree u = .ok l.length := by
  obtain ⟨n, h1, -, h3, -⟩ := H.node hu
  obtain ⟨r, h5, h6, h7⟩ := H.sortByIndex n.left.nodup (fun a ha => ((h3 a).1 ha).1.right)
  have hL : g.leftNeighbours u = .ok r := by
    unfold OrdGraph.leftNeighbours OrdGraph.indexOf
    rw [H.get hu]
    simp only [unwrap_some, bind_ok, h1, h5]
  refine ⟨r, hL, h6, fun w => by rw [h7]; exact h3 w, ?_⟩
  show LinGraph.defaultLeftDegree _ _ u = _
  unfold LinGraph.defaultLeftDegree
  rw [if_pos ((H.contains u).2 hu), hL]
  simp only [bind_ok, pure_eq_ok]

theorem rightNeighbours (H : PInv g S ord lft) {u : ℕ} (hu : u ∈ S.V) : ∃ l, g.rightNeighbours u = .ok l ∧
    l.Pairwise (fun a b => ord.idxOf a < ord.idxOf b) ∧ (∀ w, w ∈ l ↔ S.Adj u w ∧ ¬ lft u w) ∧
    g.rightDegree u = .ok l.length := by
  obtain ⟨n, h1, -, -, h3⟩ := H.node hu
  obtain ⟨r, h5, h6, h7⟩ := H.sortByIndex n.right.nodup (fun a ha => ((h3 a).1 ha).1.right)
  refine ⟨r, ?_, h6, fun w => by rw [h7]; exact h3 w, ?_⟩
  · unfold OrdGraph.rightNeighbours
    rw [H.get hu]
    simp only [unwrap_some, bind_ok, h1, h5]
  · unfold OrdGraph.rightDegree
    rw [H.get hu]
    simp only [h1, unwrap_some, bind_ok, pure_eq_ok, length_eq h6 (s := n.right) h7]

/-- The graph queries do not depend on the split. -/
theorem rep (H : PInv g S ord lft) : g.lin.toGraph.Rep S := by
  refine ⟨?_, H.m, H.contains, ?_, ?_, ?_, ?_, ?_⟩
  · exact H.nodes.len.trans H.ordering.length
  · intro u v
    show g.adjacent u v = _
    unfold OrdGraph.adjacent
    by_cases hu : u ∈ S.V
    · obtain ⟨n, h1, -, h3, h4⟩ := H.node hu
      rw [H.get hu]
      simp only [h1, unwrap_some, bind_ok, pure_eq_ok, Except.ok.injEq]
      rw [HSet.contains_eq, HSet.contains_eq, ← Bool.decide_or]
      refine decide_eq_decide.2 ?_
      rw [h3, h4, ← and_or_left]
      exact ⟨And.left, fun h => ⟨h, Classical.em _⟩⟩
    · rw [H.get_none hu]
      simp only [Except.ok.injEq]
      exact (decide_eq_false fun h => hu (SGraph.Adj.left h)).symm
  · intro u hu
    show g.degree u = _
    unfold OrdGraph.degree
    obtain ⟨n, h1, -, h3, h4⟩ := H.node hu
    rw [H.get hu]
    simp only [h1, unwrap_some, bind_ok, pure_eq_ok, Except.ok.injEq]
    rw [SGraph.deg_eq, if_neg (H.loopless u), Nat.add_zero]
    classical
    rw [HSet.len_of_mem_iff (s := n.left) (T := (S.nbrs u).filter (fun w => lft u w))
        (fun a => by rw [h3, Finset.mem_filter, SGraph.mem_nbrs]),
      HSet.len_of_mem_iff (s := n.right) (T := (S.nbrs u).filter (fun w => ¬ lft u w))
        (fun a => by rw [h4, Finset.mem_filter, SGraph.mem_nbrs])]
    exact Finset.card_filter_add_card_filter_not _
  · show (g.nodes.map OrdNode.v).Nodup
    rw [H.vertices]; exact H.ordering.nodup
  · intro u
    show u ∈ g.nodes.map OrdNode.v ↔ _
    rw [H.vertices]; exact H.ordering.mem u
  · intro u hu
    obtain ⟨n, h1, -, h3, h4⟩ := H.node hu
    refine ⟨n.neighbours, ?_, ?_, fun w => ?_⟩
    · show g.neighbours u = _
      unfold OrdGraph.neighbours
      rw [H.get hu]
      simp only [h1, unwrap_some, bind_ok, pure_eq_ok]
    · refine List.nodup_append.2 ⟨n.left.nodup, n.right.nodup, ?_⟩
      rintro a ha b hb rfl
      exact ((h4 a).1 hb).2 ((h3 a).1 ha).2
    · unfold OrdNode.neighbours
      rw [List.mem_append, HSet.mem_toList, HSet.mem_toList, h3, h4, ← and_or_left]
      exact ⟨And.left, fun h => ⟨h, Classical.em _⟩⟩

end PInv

theorem Inv.pinv {g : OrdGraph} {S : SGraph} {ord : List ℕ} (H : Inv g S ord) :
    PInv g S ord (fun x w => ord.idxOf w < ord.idxOf x) := by
  refine ⟨H.ordering, H.loopless, H.idx, ⟨H.nodes.len, fun i x hx => ?_⟩, H.m⟩
  obtain ⟨n, k1, k2, k3, k4⟩ := H.nodes.node i x hx
  refine ⟨n, k1, k2, k3, fun w => (k4 w).trans (and_congr_right fun a => ?_)⟩
  have := H.ordering.adj_cases H.loopless a
  omega

/-- How the set `B` of pairs on which the split is wrong changes with a swap of `u` and `v`. -/
def nextStale (S : SGraph) (u v : ℕ) (B : ℕ → ℕ → Prop) (x w : ℕ) : Prop :=
  (S.Adj x w ∧ (x = u ∧ w = v ∨ x = v ∧ w = u)) ∨ (B x w ∧ x ≠ u ∧ x ≠ v ∧ w ≠ u ∧ w ≠ v)

theorem PInv.swap_stale {g : OrdGraph} {S : SGraph} {ord : List ℕ} {B : ℕ → ℕ → Prop}
    (H : PInv g S ord (fun x w => ord.idxOf w < ord.idxOf x ∧ ¬ B x w)) {u v : ℕ} (hu : u ∈ S.V) (hv : v ∈ S.V)
    (he : u ≠ v) : Ok (g.swap u v) (fun g' => PInv g' S (ord.map (exch u v))
      (fun x w => (ord.map (exch u v)).idxOf w < (ord.map (exch u v)).idxOf x ∧ ¬ nextStale S u v B x w)) := by
  have O := H.ordering
  refine Ok.mono (H.swap hu hv he) fun g' H' => H'.congr fun x w h => ?_
  have hx := h.left
  have hw := h.right
  have hne : ord.idxOf x ≠ ord.idxOf w := by
    rcases O.adj_cases H.loopless h with a | a <;> omega
  have hxw : x ≠ w := fun h => hne (by rw [h])
  have hiuv : ord.idxOf u ≠ ord.idxOf v := fun h => he (O.idxOf_inj hu h)
  rw [idxOf_exch O hu hv hx, idxOf_exch O hu hv hw]
  unfold moveLft nextStale exch
  have hxu : x ≠ u → ord.idxOf x ≠ ord.idxOf u := fun a b => a (O.idxOf_inj hx b)
  have hxv : x ≠ v → ord.idxOf x ≠ ord.idxOf v := fun a b => a (O.idxOf_inj hx b)
  have hwu : w ≠ u → ord.idxOf w ≠ ord.idxOf u := fun a b => a (O.idxOf_inj hw b)
  have hwv : w ≠ v → ord.idxOf w ≠ ord.idxOf v := fun a b => a (O.idxOf_inj hw b)
  by_cases a : x = u
  · subst a
    by_cases b : w = v
    · subst b; simp [h, he]
    · simp [b, he, hxw.symm]
  · by_cases a' : x = v
    · subst a'
      by_cases b : w = u
      · subst b; simp [h]
      · simp [b, a, hxw.symm]
    · have h1 := hxu a
      have h2 := hxv a'
      by_cases b : w = u
      · subst b
        simp [a, a', he]
        omega
      · by_cases b' : w = v
        · subst b'
          simp [a, a', b]
          omega
        · simp [a, a', b, b']

/-- `swap` of two non-adjacent vertices. -/
theorem Inv.swap {g : OrdGraph} {S : SGraph} {ord : List ℕ} (H : Inv g S ord) {u v : ℕ} (hu : u ∈ S.V) (hv : v ∈ S.V)
    (huv : ¬ S.Adj u v) : Ok (g.swap u v) (fun g' => Inv g' S (ord.map (exch u v))) := by
  by_cases he : u = v
  · subst he
    unfold OrdGraph.swap
    simp only [beq_self_eq_true, if_true]
    have : exch u u = id := by funext x; unfold exch; split_ifs <;> simp_all
    rw [this, List.map_id]
    exact Ok.pure H
  · have P : PInv g S ord (fun x w => ord.idxOf w < ord.idxOf x ∧ ¬ False) :=
      H.pinv.congr fun x w _ => (and_iff_left not_false).symm
    refine Ok.mono (PInv.swap_stale P hu hv he) fun g' P' => ?_
    refine ⟨P'.ordering, P'.loopless, P'.idx, ⟨P'.nodes.len, fun i x hx => ?_⟩, P'.m⟩
    obtain ⟨n, k1, k2, k3, k4⟩ := P'.nodes.node i x hx
    have hN : ∀ w, S.Adj x w → ¬ nextStale S u v (fun _ _ => False) x w := by
      rintro w hA (⟨-, ⟨rfl, rfl⟩ | ⟨rfl, rfl⟩⟩ | ⟨h, -⟩)
      · exact huv hA
      · exact huv hA.symm
      · exact h
    refine ⟨n, k1, k2, fun w => (k3 w).trans (and_congr_right fun a => and_iff_left (hN w a)),
      fun w => (k4 w).trans (and_congr_right fun a => ?_)⟩
    rw [and_iff_left (hN w a)]
    have := P'.ordering.adj_cases P'.loopless a
    omega

end OrdGraph
end Verif
