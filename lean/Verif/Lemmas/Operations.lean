import Verif.Model.Operations
import Verif.Lemmas.Is
/-! # Lemmas about graph operations -/
namespace Verif
open EditGraph

theorem mem_pairs {α : Type} {l : List α} (hl : l.Nodup) {a b : α} (h : (a, b) ∈ pairs l) :
    a ∈ l ∧ b ∈ l ∧ a ≠ b := by
  induction l with
  | nil => simp [pairs] at h
  | cons x l ih =>
    rw [List.nodup_cons] at hl
    simp only [pairs, List.mem_append, List.mem_map, Prod.mk.injEq] at h
    rcases h with ⟨y, hy, rfl, rfl⟩ | h
    · exact ⟨by simp, by simp [hy], fun he => hl.1 (he ▸ hy)⟩
    · have := ih hl.2 h
      exact ⟨by simp [this.1], by simp [this.2.1], this.2.2⟩

theorem exists_pairs {α : Type} {l : List α} {a b : α} (ha : a ∈ l) (hb : b ∈ l) (hab : a ≠ b) :
    (a, b) ∈ pairs l ∨ (b, a) ∈ pairs l := by
  induction l with
  | nil => simp at ha
  | cons x l ih =>
    simp only [pairs, List.mem_append, List.mem_map, Prod.mk.injEq]
    rcases List.mem_cons.1 ha with rfl | ha'
    · rcases List.mem_cons.1 hb with rfl | hb'
      · exact absurd rfl hab
      · exact Or.inl (Or.inl ⟨b, hb', rfl, rfl⟩)
    · rcases List.mem_cons.1 hb with rfl | hb'
      · exact Or.inr (Or.inl ⟨a, ha', rfl, rfl⟩)
      · exact (ih ha' hb').imp Or.inr Or.inr

theorem filterR_ok {α : Type} {p : α → Res Bool} {q : α → Bool} {l : List α}
    (h : ∀ a ∈ l, p a = .ok (q a)) : Graph.filterR p l = .ok (l.filter q) := by
  induction l with
  | nil => rfl
  | cons a l ih =>
    unfold Graph.filterR
    rw [h a (by simp), ih (fun b hb => h b (by simp [hb]))]
    simp only [bind_ok, pure_eq_ok, List.filter_cons]

theorem allR_ok {α : Type} {p : α → Res Bool} {q : α → Bool} {l : List α}
    (h : ∀ a ∈ l, p a = .ok (q a)) : allR p l = .ok (l.all q) := by
  induction l with
  | nil => rfl
  | cons a l ih =>
    unfold allR
    rw [h a (by simp), ih (fun b hb => h b (by simp [hb]))]
    simp only [bind_ok, pure_eq_ok, List.all_cons]
    cases q a <;> rfl

namespace Graph.Rep
variable {G H : Graph} {S T : SGraph}

theorem invert (hG : G.Rep S) : Ok G.invert (fun h => Is h (· ∈ S.V)
    (fun a b => a ∈ S.V ∧ b ∈ S.V ∧ a ≠ b ∧ ¬ S.Adj a b)) := by
  unfold Graph.invert
  refine Ok.mono ((Is.new.addVertices G.vertices).fold
    (fun p w => ¬ S.Adj p.1 p.2 ∧ (w = p.1 ∨ w = p.2))
    (fun p a b => ¬ S.Adj p.1 p.2 ∧ ((a = p.1 ∧ b = p.2) ∨ (a = p.2 ∧ b = p.1))) ?_) fun h hh => hh.congr ?_ ?_
  · intro p hp g P R hg
    rw [hG.adjacent]
    simp only [bind_ok]
    by_cases ha : S.Adj p.1 p.2
    · simp only [ha, decide_true, Bool.not_true, Bool.false_eq_true, if_false, not_true_eq_false, false_and, or_false]
      exact Ok.pure hg
    · simp only [ha, decide_false, Bool.not_false, if_true, not_false_eq_true, true_and]
      exact hg.addEdge' p.1 p.2
  · intro u
    simp only [false_or, hG.vmem]
    constructor
    · rintro (h | ⟨⟨a, b⟩, hp, -, rfl | rfl⟩)
      · exact h
      · exact (hG.vmem _).1 (mem_pairs hG.vnodup hp).1
      · exact (hG.vmem _).1 (mem_pairs hG.vnodup hp).2.1
    · exact Or.inl
  · intro a b
    simp only [false_or]
    constructor
    · rintro ⟨⟨x, y⟩, hp, hn, ⟨rfl, rfl⟩ | ⟨rfl, rfl⟩⟩
      · have := mem_pairs hG.vnodup hp
        exact ⟨(hG.vmem _).1 this.1, (hG.vmem _).1 this.2.1, this.2.2, hn⟩
      · have := mem_pairs hG.vnodup hp
        exact ⟨(hG.vmem _).1 this.2.1, (hG.vmem _).1 this.1, this.2.2.symm, fun h => hn h.symm⟩
    · rintro ⟨h1, h2, h3, h4⟩
      rcases exists_pairs ((hG.vmem a).2 h1) ((hG.vmem b).2 h2) h3 with h | h
      · exact ⟨(a, b), h, h4, Or.inl ⟨rfl, rfl⟩⟩
      · exact ⟨(b, a), h, fun h => h4 h.symm, Or.inr ⟨rfl, rfl⟩⟩

theorem _root_.Verif.EdgeEnum.adj_iff {l : List Edge} (hl : EdgeEnum l S) {a b : ℕ} :
    S.Adj a b ↔ (a, b) ∈ l ∨ (b, a) ∈ l := by
  rw [hl.mem, hl.mem]
  constructor
  · intro h
    rcases Nat.le_total a b with hab | hab
    · exact Or.inl ⟨hab, h⟩
    · exact Or.inr ⟨hab, h.symm⟩
  · rintro (h | h)
    · exact h.2
    · exact h.2.symm

theorem merge (hG : G.Rep S) (hH : H.Rep T) : Ok (G.merge H) (fun h => Is h (fun u => u ∈ S.V ∨ u ∈ T.V)
    (fun a b => S.Adj a b ∨ T.Adj a b)) := by
  unfold Graph.merge
  obtain ⟨es, hes, he, -⟩ := hG.edges
  obtain ⟨fs, hfs, hf, -⟩ := hH.edges
  simp only [hes, hfs, bind_ok]
  refine Ok.bind (((Is.new.addVertices G.vertices).addVertices H.vertices).addEdges es) fun r hr => ?_
  refine Ok.bind (hr.addEdges fs) fun r' hr' => Ok.pure (hr'.congr ?_ ?_)
  · intro u
    simp only [false_or, hG.vmem, hH.vmem]
    constructor
    · rintro ((h | ⟨e, h, rfl | rfl⟩) | ⟨e, h, rfl | rfl⟩)
      · exact h
      · exact Or.inl (he.left_mem h)
      · exact Or.inl (he.right_mem h)
      · exact Or.inr (hf.left_mem h)
      · exact Or.inr (hf.right_mem h)
    · exact fun h => Or.inl (Or.inl h)
  · intro a b
    rw [he.adj_iff, hf.adj_iff]
    simp only [false_or]

theorem intersect (hG : G.Rep S) (hH : H.Rep T) : Ok (G.intersect H) (fun h =>
    Is h (fun u => u ∈ S.V ∧ u ∈ T.V) (fun a b => S.Adj a b ∧ T.Adj a b)) := by
  unfold Graph.intersect
  obtain ⟨es, hes, he, -⟩ := hG.edges
  simp only [hes, bind_ok]
  rw [filterR_ok (q := fun e => decide (T.Adj e.1 e.2)) (fun e _ => hH.adjacent e.1 e.2)]
  simp only [bind_ok]
  refine Ok.bind ((Is.new.addVertices _).addEdges _) fun r hr => Ok.pure (hr.congr ?_ ?_)
  · intro u
    simp only [false_or, List.mem_filter, hG.vmem, hH.contains, decide_eq_true_eq]
    constructor
    · rintro (h | ⟨e, ⟨h, h'⟩, rfl | rfl⟩)
      · exact h
      · exact ⟨he.left_mem h, h'.left⟩
      · exact ⟨he.right_mem h, h'.right⟩
    · exact Or.inl
  · intro a b
    simp only [false_or, List.mem_filter, decide_eq_true_eq]
    rw [he.adj_iff]
    constructor
    · rintro (⟨h1, h2⟩ | ⟨h1, h2⟩)
      · exact ⟨Or.inl h1, h2⟩
      · exact ⟨Or.inr h1, h2.symm⟩
    · rintro ⟨h1 | h1, h2⟩
      · exact Or.inl ⟨h1, h2⟩
      · exact Or.inr ⟨h1, h2.symm⟩

/-! ### Products -/

theorem getElem?_snoc {α : Type} {l : List α} {a p : α} {i : ℕ} :
    (l ++ [a])[i]? = some p ↔ (i = l.length ∧ p = a) ∨ l[i]? = some p := by
  rw [List.getElem?_append]
  split
  · next h =>
    constructor
    · exact Or.inr
    · rintro (⟨rfl, -⟩ | h')
      · omega
      · exact h'
  · next h =>
    have h0 : l[i]? = none := by rw [List.getElem?_eq_none_iff]; omega
    rw [h0]
    rcases Nat.eq_zero_or_pos (i - l.length) with hz | hz
    · rw [hz]
      simp only [List.getElem?_cons_zero, Option.some.injEq, reduceCtorEq, or_false]
      constructor
      · intro h'; exact ⟨by omega, h'.symm⟩
      · intro h'; exact h'.2.symm
    · obtain ⟨d, hd⟩ : ∃ d, i - l.length = d + 1 := ⟨i - l.length - 1, by omega⟩
      rw [hd]
      simp only [List.getElem?_cons_succ, List.getElem?_nil, reduceCtorEq, or_false, false_iff]
      omega

/-- All pairs in the order in which `productIds` numbers them. -/
def prodList (G H : Graph) : List (Vertex × Vertex) := G.vertices.flatMap (fun u => H.vertices.map (fun v => (u, v)))

theorem foldlM_prod {α β γ : Type} (l : List α) (k : List β) (f : γ → α → β → Res γ) (s : γ) :
    l.foldlM (fun s u => k.foldlM (fun s v => f s u v) s) s
      = (l.flatMap (fun u => k.map (fun v => (u, v)))).foldlM (fun s p => f s p.1 p.2) s := by
  induction l generalizing s with
  | nil => rfl
  | cons a l ih =>
    rw [List.foldlM_cons, List.flatMap_cons, List.foldlM_append, List.foldlM_map]
    congr 1
    funext s'
    exact ih s'

theorem mem_prodList {G H : Graph} {p : Vertex × Vertex} :
    p ∈ prodList G H ↔ p.1 ∈ G.vertices ∧ p.2 ∈ H.vertices := by
  obtain ⟨a, b⟩ := p
  simp [prodList]

theorem nodup_prodList {G H : Graph} (h1 : G.vertices.Nodup) (h2 : H.vertices.Nodup) :
    (prodList G H).Nodup := by
  unfold prodList
  rw [List.nodup_flatMap]
  refine ⟨fun x _ => h2.map (fun a b h => by simpa using h), ?_⟩
  refine h1.imp fun {a b} hab => ?_
  show List.Disjoint _ _
  rw [List.disjoint_left]
  intro p hp hp'
  simp only [List.mem_map] at hp hp'
  obtain ⟨x, -, rfl⟩ := hp
  obtain ⟨y, -, h⟩ := hp'
  exact hab (by simpa using (Prod.mk.inj h).1.symm)

theorem length_prodList {G H : Graph} : (prodList G H).length = G.vertices.length * H.vertices.length := by
  unfold prodList
  induction G.vertices with
  | nil => simp
  | cons a l ih => simp [List.flatMap_cons, ih, Nat.add_mul, Nat.add_comm]

theorem productIds (h1 : G.vertices.Nodup) (h2 : H.vertices.Nodup)
    (hn : G.vertices.length * H.vertices.length < 2 ^ 32) :
    Ok (G.productIds H) (fun r => (∀ p i, r.1.get? p = some i ↔ (prodList G H)[i]? = some p) ∧
      (∀ i p, r.2.1.get? i = some p ↔ (prodList G H)[i]? = some p)) := by
  unfold Graph.productIds
  rw [foldlM_prod (f := fun (s : HMap (Vertex × Vertex) Vertex × HMap Vertex (Vertex × Vertex) × Vertex) u v => do
      let free ← add32 s.2.2 1
      return (s.1.insert (u, v) s.2.2, s.2.1.insert s.2.2 (u, v), free))]
  change Ok ((prodList G H).foldlM _ _) _
  have hnd := nodup_prodList h1 h2
  rw [← length_prodList] at hn
  refine Ok.mono (Ok.foldlM (fun pre (s : HMap (Vertex × Vertex) Vertex × HMap Vertex (Vertex × Vertex) × Vertex) =>
    (∀ p i, s.1.get? p = some i ↔ pre[i]? = some p) ∧ (∀ i p, s.2.1.get? i = some p ↔ pre[i]? = some p) ∧
      s.2.2 = pre.length) ?_ ?_) fun r hr => ⟨hr.1, hr.2.1⟩
  · simp
  · rintro pre ⟨u, v⟩ post ⟨m, m', k⟩ hl ⟨hm, hm', hk⟩
    simp only at hm hm' hk
    subst hk
    have hlt : pre.length + 1 < 2 ^ 32 := by
      rw [hl, List.length_append, List.length_cons] at hn; omega
    simp only [add32_ok hlt, bind_ok]
    have hnot : (u, v) ∉ pre := by
      rw [hl] at hnd
      have := (List.nodup_append.1 hnd).2.2
      exact fun h => this (u, v) h (u, v) (by simp) rfl
    refine Ok.pure ⟨fun p i => ?_, fun i p => ?_, by simp⟩
    · simp only [HMap.get?_insert]
      rw [getElem?_snoc]
      by_cases hp : p = (u, v)
      · subst hp
        simp only [if_true, Option.some.injEq, and_true]
        constructor
        · intro h; exact Or.inl h.symm
        · rintro (h | h)
          · exact h.symm
          · exact absurd (List.mem_of_getElem? h) hnot
      · simp only [hp, if_false, hm, and_false, false_or]
    · simp only [HMap.get?_insert]
      rw [getElem?_snoc]
      by_cases hi : i = pre.length
      · subst hi
        simp [eq_comm]
      · simp only [hi, if_false, hm', false_and, false_or]

/-- The graph on the product ids in which `i ~ j` iff `i ≠ ...` satisfy `Q` for the pairs they stand for. -/
def ProdIs (h : EditGraph) (L : List (Vertex × Vertex)) (Q : Vertex × Vertex → Vertex × Vertex → Prop) : Prop :=
  Is h (fun i => ∃ (p : Vertex × Vertex) (j : ℕ) (q : Vertex × Vertex), L[i]? = some p ∧ L[j]? = some q ∧ Q p q)
    (fun i j => ∃ p q, L[i]? = some p ∧ L[j]? = some q ∧ Q p q)

theorem card_eq_length (hG : G.Rep S) : S.V.card = G.vertices.length := by
  have : S.V = ⟨G.vertices, hG.vnodup⟩ := by
    ext u; exact (hG.vmem u).symm
  rw [this]; rfl

theorem cartesianProduct (hG : G.Rep S) (hH : H.Rep T) (σ : Shuffle ((Vertex × Vertex) × Vertex))
    (hn : S.V.card * T.V.card < 2 ^ 32) :
    Ok (G.cartesianProduct σ H) (fun r => (∀ i p, r.2.get? i = some p ↔ (prodList G H)[i]? = some p) ∧
      ProdIs r.1 (prodList G H)
        (fun p q => (p.1 = q.1 ∧ T.Adj p.2 q.2) ∨ (p.2 = q.2 ∧ S.Adj p.1 q.1))) := by
  unfold Graph.cartesianProduct
  rw [hG.card_eq_length, hH.card_eq_length] at hn
  refine Ok.bind (productIds hG.vnodup hH.vnodup hn) ?_
  rintro ⟨m, inv, k⟩ ⟨hm, hinv⟩
  simp only at hm hinv
  have hnd := nodup_prodList hG.vnodup hH.vnodup
  set L := prodList G H with hL
  have hmem : ∀ p : Vertex × Vertex, p.1 ∈ S.V → p.2 ∈ T.V → ∃ i : ℕ, L[i]? = some p := by
    intro p h1 h2
    exact List.mem_iff_getElem?.1 (mem_prodList.2 ⟨(hG.vmem _).2 h1, (hH.vmem _).2 h2⟩)
  have hmem' : ∀ (p : Vertex × Vertex) (i : ℕ), L[i]? = some p → p.1 ∈ S.V ∧ p.2 ∈ T.V := by
    intro p i hi
    have := mem_prodList.1 (List.mem_of_getElem? hi)
    exact ⟨(hG.vmem _).1 this.1, (hH.vmem _).1 this.2⟩
  have hinj : ∀ {a b : ℕ} {x : Vertex × Vertex}, L[b]? = some x → (L[a]? = some x ↔ a = b) := by
    intro a b x hb
    refine ⟨fun h => ?_, fun h => h ▸ hb⟩
    exact (List.getElem?_inj (List.getElem?_eq_some_iff.1 h).1 hnd).1 (h.trans hb.symm)
  refine Ok.bind (Is.new.fold
    (fun e i => ∃ q j, ((e.1.1 = q.1 ∧ T.Adj e.1.2 q.2) ∨ (e.1.2 = q.2 ∧ S.Adj e.1.1 q.1)) ∧
      L[j]? = some q ∧ (i = e.2 ∨ i = j))
    (fun e i j => ∃ q, ((e.1.1 = q.1 ∧ T.Adj e.1.2 q.2) ∨ (e.1.2 = q.2 ∧ S.Adj e.1.1 q.1)) ∧
      ((i = e.2 ∧ L[j]? = some q) ∨ (j = e.2 ∧ L[i]? = some q))) ?_) ?_
  · rintro ⟨⟨u, v⟩, x⟩ he g P R hg
    rw [Shuffle.mem, ← HMap.get?_eq_some, hm] at he
    obtain ⟨hu, hv⟩ := hmem' _ _ he
    obtain ⟨Nv, hNv, -, hNvm⟩ := hH.nbrs v hv
    obtain ⟨Nu, hNu, -, hNum⟩ := hG.nbrs u hu
    simp only [hNv, hNu, bind_ok]
    refine Ok.bind (hg.fold (fun w i => ∃ j : ℕ, L[j]? = some (u, w) ∧ (i = x ∨ i = j))
      (fun w i j => (i = x ∧ L[j]? = some (u, w)) ∨ (j = x ∧ L[i]? = some (u, w))) ?_) fun g' hg' => ?_
    · intro w hw g P R hg
      obtain ⟨j, hj⟩ := hmem (u, w) hu ((hNvm w).1 hw).right
      rw [(hm _ _).2 hj]
      simp only [unwrap_some, bind_ok]
      refine Ok.mono (hg.addEdge' x j) fun g' hg' => hg'.congr (fun i => ?_) (fun a b => ?_)
      · refine or_congr_right ⟨fun h => ⟨j, hj, h⟩, ?_⟩
        rintro ⟨j', hj', h⟩
        rw [(hinj hj).1 hj'] at h; exact h
      · rw [hinj hj, hinj hj]; exact or_congr_right (or_congr_right and_comm)
    · refine Ok.mono (hg'.fold (fun w i => ∃ j : ℕ, L[j]? = some (w, v) ∧ (i = x ∨ i = j))
        (fun w i j => (i = x ∧ L[j]? = some (w, v)) ∨ (j = x ∧ L[i]? = some (w, v))) ?_)
        fun g'' hg'' => hg''.congr ?_ ?_
      · intro w hw g P R hg
        obtain ⟨j, hj⟩ := hmem (w, v) ((hNum w).1 hw).right hv
        rw [(hm _ _).2 hj]
        simp only [unwrap_some, bind_ok]
        refine Ok.mono (hg.addEdge' x j) fun g' hg' => hg'.congr (fun i => ?_) (fun a b => ?_)
        · refine or_congr_right ⟨fun h => ⟨j, hj, h⟩, ?_⟩
          rintro ⟨j', hj', h⟩
          rw [(hinj hj).1 hj'] at h; exact h
        · rw [hinj hj, hinj hj]; exact or_congr_right (or_congr_right and_comm)
      · intro i
        simp only [hNvm, hNum]
        constructor
        · rintro ((h | ⟨w, hw, j, hj, h⟩) | ⟨w, hw, j, hj, h⟩)
          · exact Or.inl h
          · exact Or.inr ⟨(u, w), j, Or.inl ⟨rfl, hw⟩, hj, h⟩
          · exact Or.inr ⟨(w, v), j, Or.inr ⟨rfl, hw⟩, hj, h⟩
        · rintro (h | ⟨⟨a, b⟩, j, ⟨rfl, hw⟩ | ⟨rfl, hw⟩, hj, h⟩)
          · exact Or.inl (Or.inl h)
          · exact Or.inl (Or.inr ⟨b, hw, j, hj, h⟩)
          · exact Or.inr ⟨a, hw, j, hj, h⟩
      · intro i j
        simp only [hNvm, hNum]
        constructor
        · rintro ((h | ⟨w, hw, h⟩) | ⟨w, hw, h⟩)
          · exact Or.inl h
          · exact Or.inr ⟨(u, w), Or.inl ⟨rfl, hw⟩, h⟩
          · exact Or.inr ⟨(w, v), Or.inr ⟨rfl, hw⟩, h⟩
        · rintro (h | ⟨⟨a, b⟩, ⟨rfl, hw⟩ | ⟨rfl, hw⟩, h⟩)
          · exact Or.inl (Or.inl h)
          · exact Or.inl (Or.inr ⟨b, hw, h⟩)
          · exact Or.inr ⟨a, hw, h⟩
  · intro h hh
    refine Ok.pure ⟨hinv, Is.congr hh ?_ ?_⟩
    · intro i
      simp only [false_or, Shuffle.mem]
      constructor
      · rintro ⟨⟨p, x⟩, he, q, j, hQ, hj, h⟩
        rw [← HMap.get?_eq_some, hm] at he
        rcases h with rfl | rfl
        · exact ⟨p, j, q, he, hj, hQ⟩
        · refine ⟨q, x, p, hj, he, ?_⟩
          rcases hQ with ⟨h1, h2⟩ | ⟨h1, h2⟩
          · exact Or.inl ⟨h1.symm, h2.symm⟩
          · exact Or.inr ⟨h1.symm, h2.symm⟩
      · rintro ⟨p, j, q, hp, hq, hQ⟩
        exact ⟨(p, i), HMap.get?_eq_some.1 ((hm _ _).2 hp), q, j, hQ, hq, Or.inl rfl⟩
    · intro i j
      simp only [false_or, Shuffle.mem]
      constructor
      · rintro ⟨⟨p, x⟩, he, q, hQ, ⟨rfl, hj⟩ | ⟨rfl, hj⟩⟩
        · rw [← HMap.get?_eq_some, hm] at he
          exact ⟨p, q, he, hj, hQ⟩
        · rw [← HMap.get?_eq_some, hm] at he
          refine ⟨q, p, hj, he, ?_⟩
          rcases hQ with ⟨h1, h2⟩ | ⟨h1, h2⟩
          · exact Or.inl ⟨h1.symm, h2.symm⟩
          · exact Or.inr ⟨h1.symm, h2.symm⟩
      · rintro ⟨p, q, hp, hq, hQ⟩
        exact ⟨(p, i), HMap.get?_eq_some.1 ((hm _ _).2 hp), q, hQ, Or.inl ⟨rfl, hq⟩⟩

theorem lexicographicProduct (hG : G.Rep S) (hH : H.Rep T) (σ : Shuffle ((Vertex × Vertex) × Vertex))
    (hn : S.V.card * T.V.card < 2 ^ 32) :
    Ok (G.lexicographicProduct σ H) (fun r => (∀ i p, r.2.get? i = some p ↔ (prodList G H)[i]? = some p) ∧
      ProdIs r.1 (prodList G H)
        (fun p q => T.Adj p.2 q.2 ∨ (p.2 = q.2 ∧ S.Adj p.1 q.1))) := by
  unfold Graph.lexicographicProduct
  rw [hG.card_eq_length, hH.card_eq_length] at hn
  refine Ok.bind (productIds hG.vnodup hH.vnodup hn) ?_
  rintro ⟨m, inv, k⟩ ⟨hm, hinv⟩
  simp only at hm hinv
  have hnd := nodup_prodList hG.vnodup hH.vnodup
  set L := prodList G H with hL
  have hmem : ∀ p : Vertex × Vertex, p.1 ∈ S.V → p.2 ∈ T.V → ∃ i : ℕ, L[i]? = some p := by
    intro p h1 h2
    exact List.mem_iff_getElem?.1 (mem_prodList.2 ⟨(hG.vmem _).2 h1, (hH.vmem _).2 h2⟩)
  have hmem' : ∀ (p : Vertex × Vertex) (i : ℕ), L[i]? = some p → p.1 ∈ S.V ∧ p.2 ∈ T.V := by
    intro p i hi
    have := mem_prodList.1 (List.mem_of_getElem? hi)
    exact ⟨(hG.vmem _).1 this.1, (hH.vmem _).1 this.2⟩
  have hinj : ∀ {a b : ℕ} {x : Vertex × Vertex}, L[b]? = some x → (L[a]? = some x ↔ a = b) := by
    intro a b x hb
    refine ⟨fun h => ?_, fun h => h ▸ hb⟩
    exact (List.getElem?_inj (List.getElem?_eq_some_iff.1 h).1 hnd).1 (h.trans hb.symm)
  -- adding the edge from `x` to the id of `p`
  have hstep : ∀ (x : ℕ) (p : Vertex × Vertex), p.1 ∈ S.V → p.2 ∈ T.V → ∀ (g : EditGraph) (P : ℕ → Prop)
      (R : ℕ → ℕ → Prop), Is g P R → Ok (do
        let y ← unwrap (m.get? p)
        return (← g.addEdge x y).1 : Res EditGraph) (fun g' => Is g'
          (fun i => P i ∨ ∃ j : ℕ, L[j]? = some p ∧ (i = x ∨ i = j))
          (fun i j => R i j ∨ (i = x ∧ L[j]? = some p) ∨ (j = x ∧ L[i]? = some p))) := by
    intro x p h1 h2 g P R hg
    obtain ⟨j, hj⟩ := hmem p h1 h2
    rw [(hm _ _).2 hj]
    simp only [unwrap_some, bind_ok]
    refine Ok.mono (hg.addEdge' x j) fun g' hg' => hg'.congr (fun i => ?_) (fun a b => ?_)
    · refine or_congr_right ⟨fun h => ⟨j, hj, h⟩, ?_⟩
      rintro ⟨j', hj', h⟩
      rw [(hinj hj).1 hj'] at h; exact h
    · rw [hinj hj, hinj hj]; exact or_congr_right (or_congr_right and_comm)
  refine Ok.bind (Is.new.fold
    (fun e i => ∃ q j, (T.Adj e.1.2 q.2 ∨ (e.1.2 = q.2 ∧ S.Adj e.1.1 q.1)) ∧
      L[j]? = some q ∧ (i = e.2 ∨ i = j))
    (fun e i j => ∃ q, (T.Adj e.1.2 q.2 ∨ (e.1.2 = q.2 ∧ S.Adj e.1.1 q.1)) ∧
      ((i = e.2 ∧ L[j]? = some q) ∨ (j = e.2 ∧ L[i]? = some q))) ?_) ?_
  · rintro ⟨⟨u, v⟩, x⟩ he g P R hg
    rw [Shuffle.mem, ← HMap.get?_eq_some, hm] at he
    obtain ⟨hu, hv⟩ := hmem' _ _ he
    obtain ⟨Nv, hNv, -, hNvm⟩ := hH.nbrs v hv
    obtain ⟨Nu, hNu, -, hNum⟩ := hG.nbrs u hu
    simp only [hNv, hNu, bind_ok]
    refine Ok.bind (hg.fold (fun w i => ∃ j : ℕ, L[j]? = some (w, v) ∧ (i = x ∨ i = j))
      (fun w i j => (i = x ∧ L[j]? = some (w, v)) ∨ (j = x ∧ L[i]? = some (w, v))) ?_) fun g' hg' => ?_
    · intro w hw g P R hg
      exact hstep x (w, v) ((hNum w).1 hw).right hv g P R hg
    · refine Ok.mono (hg'.fold (fun w i => ∃ a ∈ G.vertices, ∃ j : ℕ, L[j]? = some (a, w) ∧ (i = x ∨ i = j))
        (fun w i j => ∃ a ∈ G.vertices, (i = x ∧ L[j]? = some (a, w)) ∨ (j = x ∧ L[i]? = some (a, w))) ?_)
        fun g'' hg'' => hg''.congr ?_ ?_
      · intro w hw g P R hg
        refine hg.fold (fun a i => ∃ j : ℕ, L[j]? = some (a, w) ∧ (i = x ∨ i = j))
          (fun a i j => (i = x ∧ L[j]? = some (a, w)) ∨ (j = x ∧ L[i]? = some (a, w))) ?_
        intro a ha g P R hg
        exact hstep x (a, w) ((hG.vmem a).1 ha) ((hNvm w).1 hw).right g P R hg
      · intro i
        simp only [hNvm, hNum]
        constructor
        · rintro ((h | ⟨w, hw, j, hj, h⟩) | ⟨w, hw, a, ha, j, hj, h⟩)
          · exact Or.inl h
          · exact Or.inr ⟨(w, v), j, Or.inr ⟨rfl, hw⟩, hj, h⟩
          · exact Or.inr ⟨(a, w), j, Or.inl hw, hj, h⟩
        · rintro (h | ⟨⟨a, b⟩, j, hw | ⟨rfl, hw⟩, hj, h⟩)
          · exact Or.inl (Or.inl h)
          · exact Or.inr ⟨b, hw, a, (hG.vmem a).2 (hmem' _ _ hj).1, j, hj, h⟩
          · exact Or.inl (Or.inr ⟨a, hw, j, hj, h⟩)
      · intro i j
        simp only [hNvm, hNum]
        constructor
        · rintro ((h | ⟨w, hw, h⟩) | ⟨w, hw, a, ha, h⟩)
          · exact Or.inl h
          · exact Or.inr ⟨(w, v), Or.inr ⟨rfl, hw⟩, h⟩
          · exact Or.inr ⟨(a, w), Or.inl hw, h⟩
        · rintro (h | ⟨⟨a, b⟩, hw | ⟨rfl, hw⟩, h⟩)
          · exact Or.inl (Or.inl h)
          · have ha : a ∈ S.V := by
              rcases h with h | h
              · exact (hmem' _ _ h.2).1
              · exact (hmem' _ _ h.2).1
            exact Or.inr ⟨b, hw, a, (hG.vmem a).2 ha, h⟩
          · exact Or.inl (Or.inr ⟨a, hw, h⟩)
  · intro h hh
    have hQs : ∀ p q : Vertex × Vertex, (T.Adj p.2 q.2 ∨ (p.2 = q.2 ∧ S.Adj p.1 q.1)) →
        (T.Adj q.2 p.2 ∨ (q.2 = p.2 ∧ S.Adj q.1 p.1)) := by
      rintro p q (h | ⟨h1, h2⟩)
      · exact Or.inl h.symm
      · exact Or.inr ⟨h1.symm, h2.symm⟩
    refine Ok.pure ⟨hinv, Is.congr hh ?_ ?_⟩
    · intro i
      simp only [false_or, Shuffle.mem]
      constructor
      · rintro ⟨⟨p, x⟩, he, q, j, hQ, hj, h⟩
        rw [← HMap.get?_eq_some, hm] at he
        rcases h with rfl | rfl
        · exact ⟨p, j, q, he, hj, hQ⟩
        · exact ⟨q, x, p, hj, he, hQs _ _ hQ⟩
      · rintro ⟨p, j, q, hp, hq, hQ⟩
        exact ⟨(p, i), HMap.get?_eq_some.1 ((hm _ _).2 hp), q, j, hQ, hq, Or.inl rfl⟩
    · intro i j
      simp only [false_or, Shuffle.mem]
      constructor
      · rintro ⟨⟨p, x⟩, he, q, hQ, ⟨rfl, hj⟩ | ⟨rfl, hj⟩⟩
        · rw [← HMap.get?_eq_some, hm] at he
          exact ⟨p, q, he, hj, hQ⟩
        · rw [← HMap.get?_eq_some, hm] at he
          exact ⟨q, p, hj, he, hQs _ _ hQ⟩
      · rintro ⟨p, q, hp, hq, hQ⟩
        exact ⟨(p, i), HMap.get?_eq_some.1 ((hm _ _).2 hp), q, hQ, Or.inl ⟨rfl, hq⟩⟩

end Graph.Rep
end Verif
