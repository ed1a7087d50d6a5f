import Verif.Lemmas.EditGraph
/-! # Lemmas about the generic iterators and default methods -/
namespace Verif

theorem EdgeIter.scan_none {v : Vertex} {it : List Vertex} :
    EdgeIter.scan v it = none ↔ it.filter (fun u => v ≤ u) = [] := by
  induction it with
  | nil => simp [scan]
  | cons u it ih =>
    unfold scan
    by_cases h : v > u
    · simp only [h, if_true, ih]; rw [List.filter_cons_of_neg (by simpa using h)]
    · simp only [h, if_false]; rw [List.filter_cons_of_pos (by simpa using h)]; simp

theorem EdgeIter.scan_some {v u : Vertex} {it it' : List Vertex} (h : EdgeIter.scan v it = some (u, it')) :
    it.filter (fun u => v ≤ u) = u :: it'.filter (fun u => v ≤ u) := by
  induction it with
  | nil => simp [scan] at h
  | cons x it ih =>
    unfold scan at h
    by_cases hx : v > x
    · simp only [hx, if_true] at h; rw [List.filter_cons_of_neg (by simpa using hx)]; exact ih h
    · simp only [hx, if_false, Option.some.injEq, Prod.mk.injEq] at h
      obtain ⟨rfl, rfl⟩ := h
      rw [List.filter_cons_of_pos (by simpa using hx)]

/-- Edges contributed by vertex `v` with neighbour list `N`. -/
def edgesAt (v : Vertex) (N : List Vertex) : List Edge := (N.filter (fun u => v ≤ u)).map (fun u => (v, u))

/-- All edges contributed by a list of vertices, given their neighbour lists. -/
def edgesOf (N : Vertex → List Vertex) (vs : List Vertex) : List Edge := vs.flatMap (fun v => edgesAt v (N v))

theorem EdgeIter.nextFrom_spec {G : Graph} {N : Vertex → List Vertex} :
    ∀ (rest : List Vertex) (v : Vertex) (it : List Vertex),
      (∀ w ∈ rest, G.neighbours w = .ok (N w)) →
      (edgesAt v it ++ edgesOf N rest = [] ∧ nextFrom G rest v it = .ok none) ∨
      (∃ e v' it' rest', nextFrom G rest v it = .ok (some (e, ⟨rest', some v', some it'⟩)) ∧
        (∀ w ∈ rest', G.neighbours w = .ok (N w)) ∧
        edgesAt v it ++ edgesOf N rest = e :: (edgesAt v' it' ++ edgesOf N rest')) := by
  intro rest
  induction rest with
  | nil =>
    intro v it _
    unfold nextFrom
    cases hs : scan v it with
    | none => left; simp [edgesAt, scan_none.1 hs, edgesOf]
    | some p =>
      obtain ⟨u, it'⟩ := p
      right
      exact ⟨(v, u), v, it', [], rfl, by simp, by simp [edgesAt, scan_some hs]⟩
  | cons w rest ih =>
    intro v it hN
    unfold nextFrom
    cases hs : scan v it with
    | some p =>
      obtain ⟨u, it'⟩ := p
      right
      exact ⟨(v, u), v, it', w :: rest, rfl, hN, by simp [edgesAt, scan_some hs]⟩
    | none =>
      simp only [hN w (by simp), bind_ok]
      have h0 : edgesAt v it = [] := by simp [edgesAt, scan_none.1 hs]
      have h1 : edgesOf N (w :: rest) = edgesAt w (N w) ++ edgesOf N rest := rfl
      rw [h0, h1, List.nil_append]
      exact ih w (N w) fun x hx => hN x (by simp [hx])

theorem EdgeIter.drains_from {G : Graph} {N : Vertex → List Vertex} :
    ∀ (l : List Edge) (rest : List Vertex) (v : Vertex) (it : List Vertex),
      (∀ w ∈ rest, G.neighbours w = .ok (N w)) → l = edgesAt v it ++ edgesOf N rest →
      Drains (EdgeIter.next G) ⟨rest, some v, some it⟩ l := by
  intro l
  induction l with
  | nil =>
    intro rest v it hN hl
    rcases nextFrom_spec rest v it hN with h | ⟨e, v', it', rest', _, _, h⟩
    · exact .done h.2
    · rw [← hl] at h; cases h
  | cons e l ih =>
    intro rest v it hN hl
    rcases nextFrom_spec rest v it hN with h | ⟨e', v', it', rest', h1, h2, h3⟩
    · rw [← hl] at h; cases h.1
    · rw [← hl] at h3
      injection h3 with h3 h4
      subst h3
      exact .step h1 (ih rest' v' it' h2 h4)

/-- The `EdgeIterator` state machine yields exactly the sequence `Graph.edges`. -/
theorem edges_drains {G : Graph} {N : Vertex → List Vertex}
    (hN : ∀ w ∈ G.vertices, G.neighbours w = .ok (N w)) :
    G.edges = .ok (edgesOf N G.vertices) ∧
    ∃ s, EdgeIter.new G = .ok s ∧ Drains (EdgeIter.next G) s (edgesOf N G.vertices) := by
  constructor
  · unfold Graph.edges
    have key : ∀ (vs : List Vertex) (acc : List Edge), (∀ w ∈ vs, G.neighbours w = .ok (N w)) →
        vs.foldlM (fun acc v => do
          let N ← G.neighbours v
          return acc ++ (N.filter (fun u => v ≤ u)).map (fun u => (v, u))) acc
          = (.ok (acc ++ edgesOf N vs) : Res (List Edge)) := by
      intro vs
      induction vs with
      | nil => intro acc _; simp [edgesOf]
      | cons v vs ih =>
        intro acc h
        rw [List.foldlM_cons, h v (by simp)]
        refine (ih _ fun w hw => h w (by simp [hw])).trans ?_
        simp [edgesOf, edgesAt]
    simpa using key G.vertices [] hN
  · unfold EdgeIter.new EdgeIter.advance
    cases hv : G.vertices with
    | nil => exact ⟨_, rfl, .done rfl⟩
    | cons v rest =>
      rw [hv] at hN
      simp only [hN v (by simp), bind_ok, pure_eq_ok]
      exact ⟨_, rfl, EdgeIter.drains_from _ rest v (N v) (fun w hw => hN w (by simp [hw])) rfl⟩

namespace Graph.Rep
variable {G : Graph} {S : SGraph}

/-- The neighbour lists of a represented graph. -/
theorem exists_nbrs (H : G.Rep S) : ∃ N : Vertex → List Vertex,
    (∀ u ∈ S.V, G.neighbours u = .ok (N u)) ∧ (∀ u ∈ S.V, (N u).Nodup) ∧
    (∀ u ∈ S.V, ∀ w, w ∈ N u ↔ S.Adj u w) := by
  classical
  have : ∀ u, ∃ l : List Vertex, u ∈ S.V →
      G.neighbours u = .ok l ∧ l.Nodup ∧ ∀ w, w ∈ l ↔ S.Adj u w := by
    intro u
    by_cases hu : u ∈ S.V
    · obtain ⟨l, hl⟩ := H.nbrs u hu
      exact ⟨l, fun _ => hl⟩
    · exact ⟨[], fun h => absurd h hu⟩
  choose N hN using this
  exact ⟨N, fun u hu => (hN u hu).1, fun u hu => (hN u hu).2.1, fun u hu => (hN u hu).2.2⟩

end Graph.Rep

theorem mem_edgesOf {N : Vertex → List Vertex} {vs : List Vertex} {a b : Vertex} :
    (a, b) ∈ edgesOf N vs ↔ a ∈ vs ∧ b ∈ N a ∧ a ≤ b := by
  unfold edgesOf edgesAt
  simp only [List.mem_flatMap, List.mem_map, List.mem_filter, decide_eq_true_eq, Prod.mk.injEq]
  constructor
  · rintro ⟨v, hv, u, ⟨hu, hle⟩, rfl, rfl⟩; exact ⟨hv, hu, hle⟩
  · rintro ⟨ha, hb, hle⟩; exact ⟨a, ha, b, ⟨hb, hle⟩, rfl, rfl⟩

theorem nodup_edgesOf {N : Vertex → List Vertex} {vs : List Vertex} (hv : vs.Nodup)
    (hN : ∀ v ∈ vs, (N v).Nodup) : (edgesOf N vs).Nodup := by
  unfold edgesOf
  rw [List.nodup_flatMap]
  constructor
  · intro v hvv
    unfold edgesAt
    exact ((hN v hvv).filter _).map fun a b h => (Prod.mk.inj h).2
  · refine hv.imp ?_
    intro a b hab
    rw [Function.onFun, List.disjoint_left]
    intro e he he'
    unfold edgesAt at he he'
    simp only [List.mem_map] at he he'
    obtain ⟨_, _, rfl⟩ := he
    obtain ⟨_, _, h⟩ := he'
    exact hab (Prod.mk.inj h).1.symm

/-- A list of pairs `(a,b)`, `a ≤ b`, enumerating the edges of `S` without repetition. -/
structure EdgeEnum (l : List Edge) (S : SGraph) : Prop where
  nodup : l.Nodup
  mem : ∀ a b, (a, b) ∈ l ↔ a ≤ b ∧ S.Adj a b

namespace EdgeEnum
variable {l : List Edge} {S : SGraph}

theorem toFinset_map (H : EdgeEnum l S) : (l.map (fun e => s(e.1, e.2))).toFinset = S.E := by
  ext e
  simp only [List.mem_toFinset, List.mem_map]
  induction e using Sym2.ind with
  | _ u v =>
    constructor
    · rintro ⟨⟨a, b⟩, hab, he⟩
      rw [← he]
      exact ((H.mem a b).1 hab).2
    · intro h
      rcases Nat.le_total u v with huv | huv
      · exact ⟨(u, v), (H.mem u v).2 ⟨huv, h⟩, rfl⟩
      · exact ⟨(v, u), (H.mem v u).2 ⟨huv, SGraph.Adj.symm h⟩, Sym2.eq_swap⟩

theorem map_nodup (H : EdgeEnum l S) : (l.map (fun e => s(e.1, e.2))).Nodup := by
  apply List.Nodup.map_on _ H.nodup
  rintro ⟨a, b⟩ hab ⟨c, d⟩ hcd h
  have h1 := ((H.mem a b).1 hab).1
  have h2 := ((H.mem c d).1 hcd).1
  simp only at h1 h2 h
  rw [Sym2.eq_iff] at h
  rcases h with ⟨rfl, rfl⟩ | ⟨rfl, rfl⟩
  · rfl
  · have : a = b := le_antisymm h1 h2
    subst this; rfl

theorem length (H : EdgeEnum l S) : l.length = S.E.card := by
  have h1 := List.toFinset_card_of_nodup H.map_nodup
  rw [H.toFinset_map] at h1
  rw [h1, List.length_map]

theorem left_mem (H : EdgeEnum l S) {e : Edge} (he : e ∈ l) : e.1 ∈ S.V := ((H.mem e.1 e.2).1 he).2.left
theorem right_mem (H : EdgeEnum l S) {e : Edge} (he : e ∈ l) : e.2 ∈ S.V := ((H.mem e.1 e.2).1 he).2.right
theorem adj (H : EdgeEnum l S) {e : Edge} (he : e ∈ l) : S.Adj e.1 e.2 := ((H.mem e.1 e.2).1 he).2

end EdgeEnum

theorem Graph.Rep.edges {G : Graph} {S : SGraph} (H : G.Rep S) : ∃ l, G.edges = .ok l ∧ EdgeEnum l S ∧
    ∃ s, EdgeIter.new G = .ok s ∧ Drains (EdgeIter.next G) s l := by
  obtain ⟨N, h1, h2, h3⟩ := H.exists_nbrs
  obtain ⟨he, hd⟩ := edges_drains (G := G) (N := N) fun w hw => h1 w ((H.vmem w).1 hw)
  refine ⟨_, he, ⟨nodup_edgesOf H.vnodup fun v hv => h2 v ((H.vmem v).1 hv), fun a b => ?_⟩, hd⟩
  rw [mem_edgesOf, H.vmem]
  constructor
  · rintro ⟨ha, hb, hle⟩; exact ⟨hle, (h3 a ha b).1 hb⟩
  · rintro ⟨hle, ha⟩; exact ⟨ha.left, (h3 a ha.left b).2 ha, hle⟩

theorem Graph.Rep.sees {G : Graph} {S : SGraph} (H : G.Rep S) : G.Sees S where
  vnodup := H.vnodup
  vmem := H.vmem
  nbrs u hu := (H.nbrs u hu).imp fun _ h => ⟨h.1, h.2.2⟩
  nv := H.nv
  short u hu l hl := by
    obtain ⟨l', h1, h2, h3⟩ := H.nbrs u hu
    rw [h1] at hl; cases hl
    have : l.toFinset ⊆ S.V := fun x hx => by
      rw [List.mem_toFinset, h3] at hx
      exact hx.right
    have := Finset.card_le_card this
    rw [List.toFinset_card_of_nodup h2] at this
    omega

theorem Graph.Sees.edges {G : Graph} {S : SGraph} (H : G.Sees S) : ∃ l, G.edges = .ok l ∧
    ∀ a b, (a, b) ∈ l ↔ a ≤ b ∧ S.Adj a b := by
  classical
  have : ∀ u, ∃ l : List Vertex, u ∈ S.V → G.neighbours u = .ok l ∧ ∀ w, w ∈ l ↔ S.Adj u w := by
    intro u
    by_cases hu : u ∈ S.V
    · obtain ⟨l, hl⟩ := H.nbrs u hu
      exact ⟨l, fun _ => hl⟩
    · exact ⟨[], fun h => absurd h hu⟩
  choose N hN using this
  obtain ⟨h1, -⟩ := edges_drains (G := G) (N := N) fun w hw => (hN w ((H.vmem w).1 hw)).1
  refine ⟨_, h1, fun a b => ?_⟩
  rw [mem_edgesOf, H.vmem]
  constructor
  · rintro ⟨ha, hb, hle⟩; exact ⟨hle, ((hN a ha).2 b).1 hb⟩
  · rintro ⟨hle, h⟩; exact ⟨h.left, ((hN a h.left).2 b).2 h, hle⟩

/-! ## MixedIterator -/

theorem MixedIter.scan_none {v : Vertex} {it : List Vertex} :
    MixedIter.scan v it = none ↔ it.filter (fun u => v < u) = [] := by
  induction it with
  | nil => simp [scan]
  | cons u it ih =>
    unfold scan
    by_cases h : v < u
    · simp only [h, if_true]; rw [List.filter_cons_of_pos (by simpa using h)]; simp
    · simp only [h, if_false, ih]; rw [List.filter_cons_of_neg (by simpa using h)]

theorem MixedIter.scan_some {v u : Vertex} {it it' : List Vertex} (h : MixedIter.scan v it = some (u, it')) :
    it.filter (fun u => v < u) = u :: it'.filter (fun u => v < u) := by
  induction it with
  | nil => simp [scan] at h
  | cons x it ih =>
    unfold scan at h
    by_cases hx : v < x
    · simp only [hx, if_true, Option.some.injEq, Prod.mk.injEq] at h
      obtain ⟨rfl, rfl⟩ := h
      rw [List.filter_cons_of_pos (by simpa using hx)]
    · simp only [hx, if_false] at h; rw [List.filter_cons_of_neg (by simpa using hx)]; exact ih h

/-- Items contributed by the rest of the neighbourhood of `v`. -/
def mixedAt (v : Vertex) (N : List Vertex) : List VertexOrEdge :=
  (N.filter (fun u => v < u)).map (fun u => .E (v, u))

/-- Items contributed by a list of vertices. -/
def mixedOf (N : Vertex → List Vertex) (vs : List Vertex) : List VertexOrEdge :=
  vs.flatMap (fun v => .V v :: mixedAt v (N v))

theorem MixedIter.drains_from {G : Graph} {N : Vertex → List Vertex} :
    ∀ (l : List VertexOrEdge) (rest : List Vertex) (v : Vertex) (it : List Vertex),
      (∀ w ∈ rest, G.neighbours w = .ok (N w)) → l = mixedAt v it ++ mixedOf N rest →
      Drains (MixedIter.next G) ⟨rest, true, some v, some it⟩ l := by
  intro l
  induction l with
  | nil =>
    intro rest v it hN hl
    have h1 := List.append_eq_nil_iff.1 hl.symm
    apply Drains.done
    unfold next
    have hs : scan v it = none := by
      rw [scan_none]; simpa [mixedAt] using h1.1
    have hr : rest = [] := by
      cases rest with
      | nil => rfl
      | cons w r => simp [mixedOf] at h1
    subst hr
    simp [hs, advance]
  | cons e l ih =>
    intro rest v it hN hl
    cases hs : scan v it with
    | some p =>
      obtain ⟨u, it'⟩ := p
      have h2 : mixedAt v it = .E (v, u) :: mixedAt v it' := by
        unfold mixedAt; rw [scan_some hs]; rfl
      rw [h2] at hl
      injection hl with h3 h4
      subst h3
      refine .step (s' := ⟨rest, true, some v, some it'⟩) ?_ (ih rest v it' hN h4)
      simp [next, hs]
    | none =>
      have h2 : mixedAt v it = [] := by unfold mixedAt; rw [scan_none.1 hs]; rfl
      rw [h2, List.nil_append] at hl
      cases rest with
      | nil => cases hl
      | cons w r =>
        have h5 : mixedOf N (w :: r) = .V w :: (mixedAt w (N w) ++ mixedOf N r) := by simp [mixedOf]
        rw [h5] at hl
        injection hl with h3 h4
        subst h3
        refine .step (s' := ⟨r, true, some w, some (N w)⟩) ?_
          (ih r w (N w) (fun x hx => hN x (by simp [hx])) h4)
        simp [next, hs, advance, hN w (by simp)]

theorem MixedIter.drains_new {G : Graph} {N : Vertex → List Vertex}
    (hN : ∀ w ∈ G.vertices, G.neighbours w = .ok (N w)) :
    ∃ s, MixedIter.new G = .ok s ∧ Drains (MixedIter.next G) s (mixedOf N G.vertices) := by
  unfold MixedIter.new MixedIter.advance
  cases hv : G.vertices with
  | nil => exact ⟨_, rfl, .done rfl⟩
  | cons v rest =>
    rw [hv] at hN
    simp only [hN v (by simp), bind_ok, pure_eq_ok]
    refine ⟨_, rfl, ?_⟩
    have h5 : mixedOf N (v :: rest) = .V v :: (mixedAt v (N v) ++ mixedOf N rest) := by simp [mixedOf]
    rw [h5]
    refine .step (s' := ⟨rest, true, some v, some (N v)⟩) rfl ?_
    exact MixedIter.drains_from _ rest v (N v) (fun w hw => hN w (by simp [hw])) rfl

theorem mem_mixedOf_V {N : Vertex → List Vertex} {vs : List Vertex} {a : Vertex} :
    VertexOrEdge.V a ∈ mixedOf N vs ↔ a ∈ vs := by
  simp [mixedOf, mixedAt]

theorem mem_mixedOf_E {N : Vertex → List Vertex} {vs : List Vertex} {a b : Vertex} :
    VertexOrEdge.E (a, b) ∈ mixedOf N vs ↔ a ∈ vs ∧ b ∈ N a ∧ a < b := by
  simp only [mixedOf, mixedAt, List.mem_flatMap, List.mem_cons, reduceCtorEq, List.mem_map,
    List.mem_filter, decide_eq_true_eq, VertexOrEdge.E.injEq, Prod.mk.injEq, false_or]
  constructor
  · rintro ⟨v, hv, u, ⟨hu, hlt⟩, rfl, rfl⟩; exact ⟨hv, hu, hlt⟩
  · rintro ⟨h1, h2, h3⟩; exact ⟨a, h1, b, ⟨h2, h3⟩, rfl, rfl⟩

theorem nodup_mixedOf {N : Vertex → List Vertex} {vs : List Vertex} (hv : vs.Nodup)
    (hN : ∀ v ∈ vs, (N v).Nodup) : (mixedOf N vs).Nodup := by
  unfold mixedOf
  rw [List.nodup_flatMap]
  constructor
  · intro v hvv
    rw [List.nodup_cons]
    refine ⟨by simp [mixedAt], ?_⟩
    unfold mixedAt
    exact ((hN v hvv).filter _).map fun a b h => (Prod.mk.inj (VertexOrEdge.E.inj h)).2
  · refine hv.imp ?_
    intro a b hab
    rw [Function.onFun, List.disjoint_left]
    intro e he he'
    unfold mixedAt at he he'
    simp only [List.mem_cons, List.mem_map] at he he'
    rcases he with rfl | ⟨_, _, rfl⟩ <;> rcases he' with h | ⟨_, _, h⟩
    · exact hab (VertexOrEdge.V.inj h)
    · cases h
    · cases h
    · exact hab (Prod.mk.inj (VertexOrEdge.E.inj h)).1.symm

end Verif
