import Verif.Model.OrdGraph
import Verif.Lemmas.Linear
/-!
# `OrdGraph`: representation invariant, construction, `swap`
-/
namespace Verif
namespace OrdGraph

/-- The node of every vertex `x = ord[i]` stores the neighbours of `x` with respect to `A`, split by the keys `p`. -/
structure Nodes (ord : List ℕ) (A : ℕ → ℕ → Prop) (p : ℕ → ℕ) (nodes : List OrdNode) : Prop where
  len : nodes.length = ord.length
  node : ∀ (i x : ℕ), ord[i]? = some x → ∃ n : OrdNode, nodes[i]? = some n ∧ n.v = x ∧ (∀ w, w ∈ n.left ↔ A x w ∧ p w < p x) ∧
    ∀ w, w ∈ n.right ↔ A x w ∧ p x < p w

/-- Representation invariant. -/
structure Inv (g : OrdGraph) (S : SGraph) (ord : List ℕ) : Prop where
  ordering : S.Ordering ord
  loopless : S.Loopless
  idx : ∀ (u i : ℕ), g.indices.get? u = some i ↔ ord[i]? = some u
  nodes : Nodes ord S.Adj (fun x => ord.idxOf x) g.nodes
  m : g.m = S.E.card

theorem modify_spec {nodes : List OrdNode} {i : ℕ} {f : OrdNode → OrdNode} (hi : i < nodes.length) :
    Ok (modify nodes i f) (fun r => r.length = nodes.length ∧
      ∀ j : ℕ, r[j]? = if j = i then nodes[j]?.map f else nodes[j]?) := by
  unfold modify
  rw [List.getElem?_eq_getElem hi]
  refine Ok.pure ⟨List.length_set, fun j => ?_⟩
  by_cases h : j = i
  · subst h
    rw [if_pos rfl, List.getElem?_set_self hi, List.getElem?_eq_getElem hi]; rfl
  · rw [if_neg h, List.getElem?_set_ne (fun h' => h h'.symm)]

theorem Nodes.congr {ord : List ℕ} {A A' : ℕ → ℕ → Prop} {p p' : ℕ → ℕ} {nodes : List OrdNode}
    (H : Nodes ord A p nodes) (hA : ∀ x w, x ∈ ord → (A x w ↔ A' x w))
    (hp : ∀ x w, x ∈ ord → A' x w → (p w < p x ↔ p' w < p' x) ∧ (p x < p w ↔ p' x < p' w)) : Nodes ord A' p' nodes := by
  refine ⟨H.len, fun i x hx => ?_⟩
  obtain ⟨n, h1, h2, h3, h4⟩ := H.node i x hx
  have hm := List.mem_of_getElem? hx
  refine ⟨n, h1, h2, fun w => ?_, fun w => ?_⟩
  · rw [h3, hA x w hm]
    exact and_congr_right fun h => (hp x w hm h).1
  · rw [h4, hA x w hm]
    exact and_congr_right fun h => (hp x w hm h).2

/-- Insert `b` to the right of `a` and `a` to the left of `b`. -/
theorem insertPair {S : SGraph} {ord : List ℕ} (O : S.Ordering ord) {nodes : List OrdNode} {A : ℕ → ℕ → Prop}
    (H : Nodes ord A (fun x => ord.idxOf x) nodes) {a b : ℕ} (ha : a ∈ S.V) (hb : b ∈ S.V)
    (hab : ord.idxOf a < ord.idxOf b) :
    Ok (do let nodes ← modify nodes (ord.idxOf a) (insRight b); modify nodes (ord.idxOf b) (insLeft a))
      (Nodes ord (fun x w => A x w ∨ (x = a ∧ w = b) ∨ (x = b ∧ w = a)) (fun x => ord.idxOf x)) := by
  have hla := O.idxOf_lt ha
  have hlb := O.idxOf_lt hb
  refine Ok.bind (modify_spec (by rw [H.len]; exact hla)) fun n1 ⟨l1, g1⟩ => ?_
  refine Ok.mono (modify_spec (by rw [l1, H.len]; exact hlb)) fun n2 ⟨l2, g2⟩ => ⟨by rw [l2, l1, H.len], ?_⟩
  intro i x hx
  obtain ⟨n, h1, h2, h3, h4⟩ := H.node i x hx
  have hix := O.idxOf_eq hx
  have hxV := O.mem_of hx
  rw [g2, g1, h1]
  by_cases hxb : x = b
  · subst hxb
    rw [if_pos hix.symm, if_neg (by omega)]
    refine ⟨insLeft a n, rfl, h2, fun w => ?_, fun w => ?_⟩
    · show w ∈ n.left.insert a ↔ _
      rw [HSet.mem_insert, h3]
      constructor
      · rintro (rfl | h)
        · exact ⟨Or.inr (Or.inr ⟨rfl, rfl⟩), hab⟩
        · exact ⟨Or.inl h.1, h.2⟩
      · rintro ⟨h | ⟨rfl, rfl⟩ | ⟨-, rfl⟩, h'⟩
        · exact Or.inr ⟨h, h'⟩
        · omega
        · exact Or.inl rfl
    · show w ∈ n.right ↔ _
      rw [h4]
      constructor
      · rintro h; exact ⟨Or.inl h.1, h.2⟩
      · rintro ⟨h | ⟨rfl, rfl⟩ | ⟨-, rfl⟩, h'⟩
        · exact ⟨h, h'⟩
        · omega
        · omega
  · have hib : i ≠ ord.idxOf b := fun h => hxb (O.idxOf_inj hxV (hix.trans h))
    rw [if_neg hib]
    by_cases hxa : x = a
    · subst hxa
      rw [if_pos hix.symm]
      refine ⟨insRight b n, rfl, h2, fun w => ?_, fun w => ?_⟩
      · show w ∈ n.left ↔ _
        rw [h3]
        constructor
        · rintro h; exact ⟨Or.inl h.1, h.2⟩
        · rintro ⟨h | ⟨-, rfl⟩ | ⟨rfl, rfl⟩, h'⟩
          · exact ⟨h, h'⟩
          · omega
          · omega
      · show w ∈ n.right.insert b ↔ _
        rw [HSet.mem_insert, h4]
        constructor
        · rintro (rfl | h)
          · exact ⟨Or.inr (Or.inl ⟨rfl, rfl⟩), hab⟩
          · exact ⟨Or.inl h.1, h.2⟩
        · rintro ⟨h | ⟨-, rfl⟩ | ⟨h, -⟩, h'⟩
          · exact Or.inr ⟨h, h'⟩
          · exact Or.inl rfl
          · exact absurd h hxb
    · have hia : i ≠ ord.idxOf a := fun h => hxa (O.idxOf_inj hxV (hix.trans h))
      rw [if_neg hia]
      refine ⟨n, rfl, h2, fun w => ?_, fun w => ?_⟩
      · rw [h3]; simp [hxa, hxb]
      · rw [h4]; simp [hxa, hxb]

theorem addEdge_spec {S : SGraph} {ord : List ℕ} (O : S.Ordering ord) {nodes : List OrdNode} {A : ℕ → ℕ → Prop}
    {indices : HMap ℕ ℕ} (hidx : ∀ (u i : ℕ), indices.get? u = some i ↔ ord[i]? = some u)
    (H : Nodes ord A (fun x => ord.idxOf x) nodes) {e : ℕ × ℕ} (ha : e.1 ∈ S.V) (hb : e.2 ∈ S.V) (hne : e.1 ≠ e.2) :
    Ok (addEdge indices nodes e)
      (Nodes ord (fun x w => A x w ∨ (x = e.1 ∧ w = e.2) ∨ (x = e.2 ∧ w = e.1)) (fun x => ord.idxOf x)) := by
  unfold addEdge
  have h1 := (hidx e.1 _).2 (O.getElem ha)
  have h2 := (hidx e.2 _).2 (O.getElem hb)
  rw [show indices.contains e.1 = true by unfold HMap.contains; rw [h1]; rfl,
    show indices.contains e.2 = true by unfold HMap.contains; rw [h2]; rfl, h1, h2]
  simp only [assertR, if_true, bind_ok, unwrap_some]
  by_cases hlt : ord.idxOf e.1 < ord.idxOf e.2
  · rw [if_pos hlt]
    exact insertPair O H ha hb hlt
  · rw [if_neg hlt]
    have hlt' : ord.idxOf e.2 < ord.idxOf e.1 := by
      have : ord.idxOf e.1 ≠ ord.idxOf e.2 := fun h => hne (O.idxOf_inj ha h)
      omega
    refine Ok.mono (insertPair O H hb ha hlt') fun r hr => hr.congr (fun x w _ => ?_) (fun x w _ _ => ⟨Iff.rfl, Iff.rfl⟩)
    exact or_congr_right Or.comm

theorem withOrdering_inv {G : Graph} {S : SGraph} {ord : List ℕ} (hG : G.Rep S) (hl : S.Loopless)
    (O : S.Ordering ord) : Ok (withOrdering G ord) (fun g => Inv g S ord) := by
  unfold withOrdering
  have hidx : ∀ (u i : ℕ), (HMap.ofList ord.zipIdx : HMap ℕ ℕ).get? u = some i ↔ ord[i]? = some u :=
    fun u i => get?_positions O.nodup
  generalize (HMap.ofList ord.zipIdx : HMap ℕ ℕ) = indices at hidx
  simp only
  refine Ok.bind (P := fun nodes => nodes = ord.map OrdNode.new) ?_ ?_
  · refine Ok.mono (Ok.foldlM (fun pre nodes => nodes = pre.map OrdNode.new) rfl ?_) (fun _ h => h)
    intro pre a post b hsplit hb
    have : indices.get? a = some pre.length := by
      rw [hidx, hsplit]; simp
    rw [this, hb]
    simp [assertR]
  · rintro _ rfl
    obtain ⟨es, hes, henum, -⟩ := hG.edges
    rw [hes]
    simp only [bind_ok]
    refine Ok.bind (P := Nodes ord S.Adj (fun x => ord.idxOf x)) ?_ fun nodes hn => Ok.pure ⟨O, hl, hidx, hn, hG.ne⟩
    refine Ok.mono (Ok.foldlM (fun pre nodes => Nodes ord (fun x w => (x, w) ∈ pre ∨ (w, x) ∈ pre)
      (fun x => ord.idxOf x) nodes) ?_ ?_) ?_
    · refine ⟨by simp, fun i x hx => ⟨OrdNode.new x, by simp [hx], rfl, fun w => ?_, fun w => ?_⟩⟩
      · show w ∈ (∅ : HSet ℕ) ↔ _; simp
      · show w ∈ (∅ : HSet ℕ) ↔ _; simp
    · intro pre e post nodes hsplit hn
      have he : e ∈ es := by rw [hsplit]; simp
      have hadj := henum.adj he
      refine Ok.mono (addEdge_spec O hidx hn hadj.left hadj.right (fun h => hl e.1 (by rw [← h] at hadj; exact hadj)))
        fun r hr => hr.congr (fun x w _ => ?_) (fun _ _ _ _ => ⟨Iff.rfl, Iff.rfl⟩)
      simp only [List.mem_append, List.mem_singleton, Prod.ext_iff]
      tauto
    · intro nodes hn
      refine hn.congr (fun x w _ => ?_) (fun _ _ _ _ => ⟨Iff.rfl, Iff.rfl⟩)
      rw [henum.mem, henum.mem]
      constructor
      · rintro (h | h)
        · exact h.2
        · exact h.2.symm
      · intro h
        rcases Nat.le_total x w with hab | hab
        · exact Or.inl ⟨hab, h⟩
        · exact Or.inr ⟨hab, h.symm⟩

namespace Inv
variable {g : OrdGraph} {S : SGraph} {ord : List ℕ}

theorem get (H : Inv g S ord) {u : ℕ} (hu : u ∈ S.V) : g.indices.get? u = some (ord.idxOf u) :=
  (H.idx u _).2 (H.ordering.getElem hu)

theorem get_none (H : Inv g S ord) {u : ℕ} (hu : u ∉ S.V) : g.indices.get? u = none := by
  cases h : g.indices.get? u with
  | none => rfl
  | some i => exact absurd (H.ordering.mem_of ((H.idx u i).1 h)) hu

theorem contains (H : Inv g S ord) (u : ℕ) : g.indices.contains u = true ↔ u ∈ S.V := by
  by_cases hu : u ∈ S.V
  · simp [HMap.contains, H.get hu, hu]
  · simp [HMap.contains, H.get_none hu, hu]

/-- The node of a vertex. -/
theorem node (H : Inv g S ord) {u : ℕ} (hu : u ∈ S.V) : ∃ n, g.nodes[ord.idxOf u]? = some n ∧ n.v = u ∧
    (∀ w, w ∈ n.left ↔ S.Adj u w ∧ ord.idxOf w < ord.idxOf u) ∧
    (∀ w, w ∈ n.right ↔ S.Adj u w ∧ ord.idxOf u < ord.idxOf w) :=
  H.nodes.node _ u (H.ordering.getElem hu)

theorem vertices (H : Inv g S ord) : g.nodes.map OrdNode.v = ord := by
  apply List.ext_getElem?
  intro i
  rw [List.getElem?_map]
  cases h : ord[i]? with
  | some x =>
    obtain ⟨n, h1, h2, -⟩ := H.nodes.node i x h
    rw [h1, Option.map_some, h2]
  | none =>
    rw [List.getElem?_eq_none_iff, ← H.nodes.len, ← List.getElem?_eq_none_iff] at h
    rw [h]; rfl

theorem sortByIndex (H : Inv g S ord) {l : List ℕ} (hn : l.Nodup) (hl : ∀ a ∈ l, a ∈ S.V) :
    ∃ r, g.sortByIndex l = .ok r ∧ r.Pairwise (fun a b => ord.idxOf a < ord.idxOf b) ∧ ∀ w, w ∈ r ↔ w ∈ l := by
  unfold OrdGraph.sortByIndex
  rw [EditGraph.mapM_ok (h := fun v => (ord.idxOf v, v)) (fun a ha => by rw [H.get (hl a ha)]; rfl)]
  obtain ⟨h1, h2⟩ := sortBy_spec (f := fun v => ord.idxOf v) hn
    (fun a ha b hb he => H.ordering.idxOf_inj (hl a ha) he)
  exact ⟨_, rfl, h1, h2⟩

theorem leftNeighbours (H : Inv g S ord) {u : ℕ} (hu : u ∈ S.V) : ∃ l, g.leftNeighbours u = .ok l ∧
    l.Pairwise (fun a b => ord.idxOf a < ord.idxOf b) ∧ ∀ w, w ∈ l ↔ S.Adj u w ∧ ord.idxOf w < ord.idxOf u := by
  obtain ⟨n, h1, -, h3, -⟩ := H.node hu
  obtain ⟨r, h5, h6, h7⟩ := H.sortByIndex n.left.nodup (fun a ha => ((h3 a).1 ha).1.right)
  refine ⟨r, ?_, h6, fun w => by rw [h7]; exact h3 w⟩
  unfold OrdGraph.leftNeighbours OrdGraph.indexOf
  rw [H.get hu]
  simp only [unwrap_some, bind_ok, h1, h5]

theorem rightNeighbours (H : Inv g S ord) {u : ℕ} (hu : u ∈ S.V) : ∃ l, g.rightNeighbours u = .ok l ∧
    l.Pairwise (fun a b => ord.idxOf a < ord.idxOf b) ∧ ∀ w, w ∈ l ↔ S.Adj u w ∧ ord.idxOf u < ord.idxOf w := by
  obtain ⟨n, h1, -, -, h3⟩ := H.node hu
  obtain ⟨r, h5, h6, h7⟩ := H.sortByIndex n.right.nodup (fun a ha => ((h3 a).1 ha).1.right)
  refine ⟨r, ?_, h6, fun w => by rw [h7]; exact h3 w⟩
  unfold OrdGraph.rightNeighbours
  rw [H.get hu]
  simp only [unwrap_some, bind_ok, h1, h5]

theorem len_left {u : ℕ} {s : HSet ℕ} (h : ∀ w, w ∈ s ↔ S.Adj u w ∧ ord.idxOf w < ord.idxOf u) :
    s.len = (S.before ord u).card := HSet.len_of_mem_iff fun a => by rw [h, SGraph.mem_before]

theorem len_right {u : ℕ} {s : HSet ℕ} (h : ∀ w, w ∈ s ↔ S.Adj u w ∧ ord.idxOf u < ord.idxOf w) :
    s.len = (S.after ord u).card := HSet.len_of_mem_iff fun a => by rw [h, SGraph.mem_after]

theorem length_left {u : ℕ} {l : List ℕ} (hn : l.Nodup) (h : ∀ w, w ∈ l ↔ S.Adj u w ∧ ord.idxOf w < ord.idxOf u) :
    l.length = (S.before ord u).card := by
  rw [← List.toFinset_card_of_nodup hn]
  congr 1
  ext w
  rw [List.mem_toFinset, h, SGraph.mem_before]

theorem lrep (H : Inv g S ord) : g.lin.LRep S ord := by
  refine ⟨⟨?_, H.m, H.contains, ?_, ?_, ?_, ?_, ?_⟩, H.loopless, H.vertices, ?_, ?_, ?_, ?_, ?_⟩
  · exact H.nodes.len.trans H.ordering.length
  · intro u v
    show g.adjacent u v = _
    unfold OrdGraph.adjacent
    by_cases hu : u ∈ S.V
    · obtain ⟨n, h1, -, h3, h4⟩ := H.node hu
      rw [H.get hu]
      simp only [h1, unwrap_some, bind_ok, pure_eq_ok, Except.ok.injEq]
      rw [HSet.contains_eq, HSet.contains_eq, ← Bool.decide_or]
      refine decide_eq_decide.2 ?_
      rw [h3, h4, ← and_or_left]
      exact ⟨And.left, fun h => ⟨h, (H.ordering.adj_cases H.loopless h).symm⟩⟩
    · rw [H.get_none hu]
      simp only [Except.ok.injEq]
      exact (decide_eq_false fun h => hu (SGraph.Adj.left h)).symm
  · intro u hu
    show g.degree u = _
    unfold OrdGraph.degree
    obtain ⟨n, h1, -, h3, h4⟩ := H.node hu
    rw [H.get hu]
    simp only [h1, unwrap_some, bind_ok, pure_eq_ok, len_left h3, len_right h4]
    rw [H.ordering.card_add H.loopless]
  · show (g.nodes.map OrdNode.v).Nodup
    rw [H.vertices]; exact H.ordering.nodup
  · intro u
    show u ∈ g.nodes.map OrdNode.v ↔ _
    rw [H.vertices]; exact H.ordering.mem u
  · intro u hu
    obtain ⟨n, h1, -, h3, h4⟩ := H.node hu
    refine ⟨n.neighbours, ?_, ?_, fun w => ?_⟩
    · show g.neighbours u = _
      unfold OrdGraph.neighbours
      rw [H.get hu]
      simp only [h1, unwrap_some, bind_ok, pure_eq_ok]
    · refine List.nodup_append.2 ⟨n.left.nodup, n.right.nodup, ?_⟩
      rintro a ha b hb rfl
      have := ((h3 a).1 ha).2
      have := ((h4 a).1 hb).2
      omega
    · unfold OrdNode.neighbours
      rw [List.mem_append, HSet.mem_toList, HSet.mem_toList, h3, h4, ← and_or_left]
      exact ⟨And.left, fun h => ⟨h, (H.ordering.adj_cases H.loopless h).symm⟩⟩
  · intro u hu
    exact ⟨ord.idxOf u, by show unwrap (g.indices.get? u) = _; rw [H.get hu]; rfl⟩
  · intro u v i j hu hv h1 h2
    have h1 : unwrap (g.indices.get? u) = .ok i := h1
    have h2 : unwrap (g.indices.get? v) = .ok j := h2
    rw [H.get hu] at h1
    rw [H.get hv] at h2
    cases h1; cases h2
    exact Iff.rfl
  · intro u hu; exact H.leftNeighbours hu
  · intro u hu
    obtain ⟨n, h1, -, h3, h4⟩ := H.node hu
    show g.rightDegree u = _
    unfold OrdGraph.rightDegree
    rw [H.get hu]
    simp only [h1, unwrap_some, bind_ok, pure_eq_ok, len_right h4]
  · intro u hu
    obtain ⟨l, h1, h2, h3⟩ := H.leftNeighbours hu
    show LinGraph.defaultLeftDegree _ _ u = _
    unfold LinGraph.defaultLeftDegree
    rw [if_pos ((H.contains u).2 hu), h1]
    simp only [bind_ok, pure_eq_ok]
    rw [length_left _ h3]
    exact h2.imp fun h he => absurd h (by rw [he]; omega)

end Inv

/-! ## `swap` -/

/-- Exchange `u` and `v`. -/
def exch (u v x : ℕ) : ℕ := if x = u then v else if x = v then u else x

theorem exch_exch {u v x : ℕ} : exch u v (exch u v x) = x := by
  unfold exch; split_ifs <;> simp_all

theorem exch_inj {u v x y : ℕ} (h : exch u v x = exch u v y) : x = y := by
  rw [← exch_exch (u := u) (v := v) (x := x), h, exch_exch]

theorem splitAt_spec {indices : HMap ℕ ℕ} {q : ℕ → ℕ} {newI : ℕ} {N : List ℕ}
    (hN : ∀ x ∈ N, indices.get? x = some (q x)) :
    Ok (splitAt indices newI N) (fun r => (∀ w, w ∈ r.1 ↔ w ∈ N ∧ q w < newI) ∧
      (∀ w, w ∈ r.2.1 ↔ w ∈ N ∧ ¬ q w < newI) ∧ r.2.2 = N.map q) := by
  unfold splitAt
  refine Ok.foldlM (fun pre (r : HSet ℕ × HSet ℕ × List ℕ) => (∀ w, w ∈ r.1 ↔ w ∈ pre ∧ q w < newI) ∧
      (∀ w, w ∈ r.2.1 ↔ w ∈ pre ∧ ¬ q w < newI) ∧ r.2.2 = pre.map q) ?_ ?_
  · simp
  · rintro pre x post ⟨l, r, upd⟩ hsplit ⟨h1, h2, h3⟩
    simp only at h1 h2 h3
    rw [hN x (by rw [hsplit]; simp)]
    simp only [unwrap_some, bind_ok]
    by_cases hx : q x < newI
    · rw [if_pos hx]
      refine Ok.pure ⟨fun w => ?_, fun w => ?_, by simp [h3]⟩
      · simp only [HSet.mem_insert, h1, List.mem_append, List.mem_singleton]
        constructor
        · rintro (rfl | h)
          · exact ⟨Or.inr rfl, hx⟩
          · exact ⟨Or.inl h.1, h.2⟩
        · rintro ⟨h | rfl, h'⟩
          · exact Or.inr ⟨h, h'⟩
          · exact Or.inl rfl
      · simp only [h2, List.mem_append, List.mem_singleton]
        constructor
        · rintro h; exact ⟨Or.inl h.1, h.2⟩
        · rintro ⟨h | rfl, h'⟩
          · exact ⟨h, h'⟩
          · exact absurd hx h'
    · rw [if_neg hx]
      refine Ok.pure ⟨fun w => ?_, fun w => ?_, by simp [h3]⟩
      · simp only [h1, List.mem_append, List.mem_singleton]
        constructor
        · rintro h; exact ⟨Or.inl h.1, h.2⟩
        · rintro ⟨h | rfl, h'⟩
          · exact ⟨h, h'⟩
          · exact absurd h' hx
      · simp only [HSet.mem_insert, h2, List.mem_append, List.mem_singleton]
        constructor
        · rintro (rfl | h)
          · exact ⟨Or.inr rfl, hx⟩
          · exact ⟨Or.inl h.1, h.2⟩
        · rintro ⟨h | rfl, h'⟩
          · exact Or.inr ⟨h, h'⟩
          · exact Or.inl rfl

theorem ordering_exch {S : SGraph} {ord : List ℕ} (O : S.Ordering ord) {u v : ℕ} (hu : u ∈ S.V) (hv : v ∈ S.V) :
    S.Ordering (ord.map (exch u v)) := by
  refine ⟨O.nodup.map (fun a b => exch_inj), fun w => ?_⟩
  rw [List.mem_map]
  constructor
  · rintro ⟨x, hx, rfl⟩
    rw [O.mem] at hx
    unfold exch; split_ifs <;> assumption
  · intro hw
    refine ⟨exch u v w, ?_, exch_exch⟩
    rw [O.mem]
    unfold exch; split_ifs <;> assumption

theorem idxOf_exch {S : SGraph} {ord : List ℕ} (O : S.Ordering ord) {u v x : ℕ} (hu : u ∈ S.V) (hv : v ∈ S.V)
    (hx : x ∈ S.V) : (ord.map (exch u v)).idxOf x = ord.idxOf (exch u v x) := by
  refine (ordering_exch O hu hv).idxOf_eq ?_
  have : exch u v x ∈ S.V := by unfold exch; split_ifs <;> assumption
  rw [List.getElem?_map, O.getElem this, Option.map_some, exch_exch]

end OrdGraph
end Verif
