import Verif.Props.EditOps
import Verif.Props.Operations
/-!
# C130: laws of the operations on graphs

Two calls that should do the same return graphs that are equal (`==`).
-/
namespace Verif
open EditGraph

theorem EditGraph.Is.eq_of {g h : EditGraph} {P P' : ℕ → Prop} {R R' : ℕ → ℕ → Prop} (H : Is g P R) (H' : Is h P' R')
    (hP : ∀ u, P u ↔ P' u) (hR : ∀ a b, R a b ↔ R' a b) : g.eq h = true := by
  obtain ⟨S, h1, h2, h3⟩ := H
  obtain ⟨T, h1', h2', h3'⟩ := H'
  rw [h1.eq_iff h1']
  exact SGraph.ext_adj (by ext u; rw [h2, h2', hP]) fun a b => by rw [h3, h3', hR]

theorem SGraph.mem_union_V {S T : SGraph} {u : ℕ} : u ∈ (S.union T).V ↔ u ∈ S.V ∨ u ∈ T.V := Finset.mem_union

/-- **C130, removals.** Removing vertices one after the other is taking the subgraph of the others; the order of the removals does
not matter. -/
theorem C130_remove_vertices {g : EditGraph} (hg : Reachable g) (D X : List Vertex)
    (hX : ∀ u, u ∈ X ↔ g.contains u = true ∧ u ∉ D) (σ : Shuffle Vertex) (τ : Vertex → Shuffle Vertex) :
    ∃ h k, D.foldlM (fun (g : EditGraph) u => (g.removeVertex u).map Prod.fst) g = .ok h ∧ g.view.subgraph σ τ X = .ok k ∧
      h.eq k = true := by
  obtain ⟨S, A⟩ := hg.abs
  have tr : ∀ u, g.contains u = true ↔ u ∈ S.V := fun u => by rw [A.contains, decide_eq_true_eq]
  have h1 : Ok (D.foldlM (fun (g : EditGraph) u => (g.removeVertex u).map Prod.fst) g)
      (fun h => Is h (fun u => u ∈ S.V ∧ u ∉ D) (fun a b => S.Adj a b ∧ a ∉ D ∧ b ∉ D)) := by
    refine Ok.foldlM (fun pre h => Is h (fun u => u ∈ S.V ∧ u ∉ pre) (fun a b => S.Adj a b ∧ a ∉ pre ∧ b ∉ pre)) ?_ ?_
    · exact (Is.of_abs A).congr (by simp) (by simp)
    · rintro pre u post h - ⟨T, B, hV, hA⟩
      obtain ⟨r, hr, C, -⟩ := B.removeVertex u
      rw [hr]
      refine ⟨_, rfl, _, C, fun w => ?_, fun a b => ?_⟩
      · rw [SGraph.removeVertex_V, Finset.mem_erase, hV]
        simp only [List.mem_append, List.mem_singleton]
        tauto
      · have : (T.removeVertex u).Adj a b ↔ T.Adj a b ∧ a ≠ u ∧ b ≠ u := by
          show s(a, b) ∈ T.E.filter (fun e => u ∉ e) ↔ _
          rw [Finset.mem_filter, Sym2.mem_iff]
          refine and_congr_right fun _ => ?_
          constructor
          · intro h; exact ⟨fun e => h (.inl e.symm), fun e => h (.inr e.symm)⟩
          · rintro ⟨h1, h2⟩ (e | e)
            · exact h1 e.symm
            · exact h2 e.symm
        rw [this, hA]
        simp only [List.mem_append, List.mem_singleton]
        tauto
  obtain ⟨h, hh, I⟩ := h1
  obtain ⟨k, hk, J⟩ := A.rep.subgraph σ τ (X := X) fun x hx => (tr x).1 ((hX x).1 hx).1
  refine ⟨h, k, hh, hk, I.eq_of J (fun u => by rw [hX, tr]) fun a b => ?_⟩
  rw [hX, hX, tr, tr]
  constructor
  · rintro ⟨h1, h2, h3⟩; exact ⟨⟨h1.left, h2⟩, ⟨h1.right, h3⟩, h1⟩
  · rintro ⟨⟨-, h2⟩, ⟨-, h3⟩, h1⟩; exact ⟨h1, h2, h3⟩

/-- `C130_remove_vertices` for a path with a loop and an isolated vertex. -/
example := fun σ τ => C130_remove_vertices loopG_reachable [1, 7] [0, 2, 5] (fun u => by
  rw [loopG_contains]; simp only [List.mem_cons, List.not_mem_nil, or_false]; omega) σ τ

/-- **C130, subgraphs.** A subgraph of a subgraph is a subgraph; complementing and taking a subgraph can be exchanged. -/
theorem C130_subgraph {G : Graph} {S : SGraph} (hG : G.Rep S) (σ : ℕ → Shuffle Vertex) (τ : ℕ → Vertex → Shuffle Vertex)
    (X Y : List Vertex) (hX : ∀ x ∈ X, x ∈ S.V) (hY : ∀ y ∈ Y, y ∈ X) :
    ∃ hX hXY hY i iX Xi, G.subgraph (σ 0) (τ 0) X = .ok hX ∧ hX.view.subgraph (σ 1) (τ 1) Y = .ok hXY ∧
      G.subgraph (σ 2) (τ 2) Y = .ok hY ∧ hXY.eq hY = true ∧
      G.invert = .ok i ∧ i.view.subgraph (σ 3) (τ 3) X = .ok iX ∧ hX.view.invert = .ok Xi ∧ iX.eq Xi = true := by
  obtain ⟨h1, e1, I1⟩ := hG.subgraph (σ 0) (τ 0) hX
  obtain ⟨T, A, hV, hA⟩ := id I1
  obtain ⟨h2, e2, I2⟩ := A.rep.subgraph (σ 1) (τ 1) (X := Y) fun y hy => (hV y).2 (hY y hy)
  obtain ⟨h3, e3, I3⟩ := hG.subgraph (σ 2) (τ 2) (X := Y) fun y hy => hX y (hY y hy)
  obtain ⟨i, ei, ri, iV, iA⟩ := C19_invert hG
  obtain ⟨U, B⟩ := ri.abs
  have trU : ∀ u, u ∈ U.V ↔ u ∈ S.V := fun u => by rw [← iV, B.contains, decide_eq_true_eq]
  have taU : ∀ a b, U.Adj a b ↔ a ∈ S.V ∧ b ∈ S.V ∧ a ≠ b ∧ ¬ S.Adj a b := fun a b => by
    rw [← iA, B.adjacent, decide_eq_true_eq]
  obtain ⟨iX, eiX, IX⟩ := B.rep.subgraph (σ 3) (τ 3) (X := X) fun x hx => (trU x).2 (hX x hx)
  obtain ⟨Xi, eXi, rXi, XiV, XiA⟩ := C19_invert A.rep
  refine ⟨h1, h2, h3, i, iX, Xi, e1, e2, e3, I2.eq_of I3 (fun _ => Iff.rfl) (fun a b => ?_), ei, eiX, eXi, ?_⟩
  · rw [hA]
    constructor
    · rintro ⟨p, q, -, -, r⟩; exact ⟨p, q, r⟩
    · rintro ⟨p, q, r⟩; exact ⟨p, q, hY a p, hY b q, r⟩
  · rw [C06_eq IX.reachable rXi]
    refine ⟨fun u => Bool.eq_iff_iff.2 ?_, fun a b => Bool.eq_iff_iff.2 ?_⟩
    · rw [IX.contains, XiV, hV]
    · rw [IX.adjacent, XiA, hV, hV, hA, taU]
      constructor
      · rintro ⟨p, q, -, -, r, s⟩; exact ⟨p, q, r, fun h => s h.2.2⟩
      · rintro ⟨p, q, r, s⟩; exact ⟨p, q, hX a p, hX b q, r, fun h => s ⟨p, q, h⟩⟩

/-- `C130_subgraph` for a path with a loop and an isolated vertex. -/
example := fun σ τ => C130_subgraph loopG_rep σ τ [0, 1, 5] [1, 5] (by decide) (by decide)

/-- **C130, neighbourhoods.** The open neighbourhood is the closed one without the set itself. -/
theorem C130_neighbourhood {G : Graph} {S : SGraph} (hG : G.Rep S) (σ : Shuffle Vertex) (X : List Vertex)
    (hX : ∀ x ∈ X, x ∈ S.V) : ∃ s c, G.neighbourhood σ X = .ok s ∧ G.closedNeighbourhood X = .ok c ∧
      (∀ v, v ∈ s ↔ v ∈ c ∧ v ∉ X) ∧ (∀ v, v ∈ c ↔ v ∈ s ∨ v ∈ X) ∧ c.len = s.len + X.toFinset.card := by
  obtain ⟨⟨s, h1, h2⟩, c, h3, h4⟩ := C16_neighbourhood hG σ X hX
  have hs : ∀ v, v ∈ s ↔ v ∈ c ∧ v ∉ X := fun v => by rw [h2, h4]; tauto
  have hc : ∀ v, v ∈ c ↔ v ∈ s ∨ v ∈ X := fun v => by
    rw [h2, h4]
    by_cases hv : v ∈ X <;> simp [hv]
  refine ⟨s, c, h1, h3, hs, hc, ?_⟩
  have e : c.toFinset = s.toFinset ∪ X.toFinset := by
    ext v
    rw [Finset.mem_union, HSet.mem_toFinset, HSet.mem_toFinset, List.mem_toFinset, hc]
  rw [HSet.len_eq_card, HSet.len_eq_card, e, Finset.card_union_of_disjoint]
  refine Finset.disjoint_left.2 fun v hv hv' => ?_
  rw [HSet.mem_toFinset] at hv
  exact ((hs v).1 hv).2 (List.mem_toFinset.1 hv')

/-- `C130_neighbourhood` for a path with a loop and an isolated vertex. -/
example := fun σ => C130_neighbourhood loopG_rep σ [1, 5] (by decide)

/-- **C130, normalize.** Normalising a second time changes nothing, and the map is the identity. -/
theorem C130_normalize {g : EditGraph} (hg : Reachable g) (σ σ' : Shuffle (Vertex × Vertex)) :
    ∃ h m k m', g.normalize σ = .ok (h, m) ∧ h.normalize σ' = .ok (k, m') ∧ k.eq h = true ∧
      ∀ i v, m'.get? i = some v ↔ i = v ∧ h.contains v = true := by
  obtain ⟨S, A⟩ := hg.abs
  obtain ⟨⟨h, m⟩, e1, -, I⟩ := A.normalize σ
  obtain ⟨T, B, hV, hA⟩ := id I
  obtain ⟨⟨k, m'⟩, e2, hm, J⟩ := B.normalize σ'
  have hsort : sortIds h.vertices = List.range S.V.card := by
    refine List.Perm.eq_of_pairwise (le := (· < ·)) (fun a b _ _ h1 h2 => ?_) (sortIds_lt B.vertices_nodup)
      List.pairwise_lt_range ?_
    · exact absurd h1 (by omega)
    · refine (List.perm_ext_iff_of_nodup (nodup_sortIds B.vertices_nodup) List.nodup_range).2 fun u => ?_
      rw [mem_sortIds, B.mem_vertices, hV, List.mem_range]
  have hget : ∀ i v : ℕ, (sortIds h.vertices)[i]? = some v ↔ i = v ∧ v < S.V.card := by
    intro i v
    rw [hsort, List.getElem?_eq_some_iff]
    simp only [List.length_range, List.getElem_range]
    constructor
    · rintro ⟨h1, rfl⟩; exact ⟨rfl, h1⟩
    · rintro ⟨rfl, h1⟩; exact ⟨h1, rfl⟩
  have hc : T.V.card = S.V.card := by
    have : T.V = Finset.range S.V.card := by ext u; rw [hV, Finset.mem_range]
    rw [this, Finset.card_range]
  refine ⟨h, m, k, m', e1, e2, J.eq_of (Is.of_abs B) (fun u => by rw [hV, hc]) (fun a b => ?_), fun i v => ?_⟩
  · constructor
    · rintro ⟨u, v, h1, h2, h3⟩
      obtain ⟨rfl, -⟩ := (hget a u).1 h1
      obtain ⟨rfl, -⟩ := (hget b v).1 h2
      exact h3
    · intro h3
      exact ⟨a, b, (hget a a).2 ⟨rfl, (hV a).1 h3.left⟩, (hget b b).2 ⟨rfl, (hV b).1 h3.right⟩, h3⟩
  · rw [hm, hget, I.contains]

/-- `C130_normalize` for a path with a loop and an isolated vertex. -/
example := fun σ σ' => C130_normalize loopG_reachable σ σ'

/-- **C130, contractions of one set.** Contracting one vertex is `contract_pair`; contracting a set in two steps is contracting it
at once. -/
theorem C130_contract_steps {g : EditGraph} (hg : Reachable g) (σ : ℕ → Shuffle Vertex) (c : Vertex) (X Y : List Vertex)
    (hc : g.contains c = true) (hX : ∀ x ∈ X, g.contains x = true) (hY : ∀ y ∈ Y, g.contains y = true)
    (hd : ∀ y ∈ Y, y ∉ X ∨ y = c) :
    (∃ a b d, g.contractInto (σ 0) (σ 1) (σ 2) c X = .ok a ∧ a.contractInto (σ 3) (σ 4) (σ 5) c Y = .ok b ∧
      g.contractInto (σ 6) (σ 7) (σ 8) c (X ++ Y) = .ok d ∧ b.eq d = true) ∧
    ∀ x, g.contains x = true → x ≠ c → ∃ a b, g.contractInto (σ 0) (σ 1) (σ 2) c [x] = .ok a ∧
      g.contractPair (σ 3) c x = .ok b ∧ a.eq b = true := by
  obtain ⟨S, A⟩ := hg.abs
  have tr : ∀ u, g.contains u = true ↔ u ∈ S.V := fun u => by rw [A.contains, decide_eq_true_eq]
  simp only [tr] at hc hX hY ⊢
  constructor
  · obtain ⟨a, e1, I1⟩ := A.contractInto (σ 0) (σ 1) (σ 2) hc hX
    obtain ⟨T, B, hV, hA⟩ := id I1
    obtain ⟨b, e2, I2⟩ := B.contractInto (σ 3) (σ 4) (σ 5) (c := c) (X := Y) ((hV c).2 ⟨hc, .inr rfl⟩) fun y hy =>
      (hV y).2 ⟨hY y hy, hd y hy⟩
    obtain ⟨d, e3, I3⟩ := A.contractInto (σ 6) (σ 7) (σ 8) hc (X := X ++ Y) fun x hx => by
      rcases List.mem_append.1 hx with h | h
      · exact hX x h
      · exact hY x h
    refine ⟨a, b, d, e1, e2, e3, I2.eq_of I3 (fun u => ?_) fun u v => ?_⟩
    · rw [hV, List.mem_append]; tauto
    · -- edges at `c` before the second step
      have key : ∀ w, w ≠ c → (w ∉ X ∧ w ∉ Y) → ((T.Adj c w ∨ ∃ y ∈ Y, T.Adj y w) ↔ (S.Adj c w ∨ ∃ x ∈ X ++ Y, S.Adj x w)) := by
        rintro w hw ⟨hwX, hwY⟩
        simp only [hA, List.mem_append]
        constructor
        · rintro (⟨-, -, h | ⟨-, -, x, hx, h⟩ | ⟨rfl, -⟩⟩ | ⟨y, hy, -, -, h | ⟨rfl, -, x, hx, h⟩ | ⟨rfl, -⟩⟩)
          · exact .inl h
          · exact .inr ⟨x, .inl hx, h⟩
          · exact absurd rfl hw
          · exact .inr ⟨y, .inr hy, h⟩
          · exact .inr ⟨x, .inl hx, h⟩
          · exact absurd rfl hw
        · rintro (h | ⟨x, hx | hx, h⟩)
          · exact .inl ⟨.inr trivial, .inl hwX, .inl h⟩
          · exact .inl ⟨.inr trivial, .inl hwX, .inr (.inl ⟨trivial, hw, x, hx, h⟩)⟩
          · exact .inr ⟨x, hx, hd x hx, .inl hwX, .inl h⟩
      have hsymm : ∀ {x y}, S.Adj x y ↔ S.Adj y x := fun {x y} => SGraph.adj_comm
      by_cases hu : u = c
      · subst hu
        by_cases hv : v = u
        · subst hv
          simp only [hA]
          constructor
          · rintro ⟨-, -, ⟨-, -, h | ⟨-, h, -⟩ | ⟨-, h, -⟩⟩ | ⟨-, h, -⟩ | ⟨-, h, -⟩⟩
            · exact ⟨.inr trivial, .inr trivial, .inl h⟩
            all_goals exact absurd rfl h
          · rintro ⟨-, -, h | ⟨-, h, -⟩ | ⟨-, h, -⟩⟩
            · exact ⟨.inr trivial, .inr trivial, .inl ⟨.inr trivial, .inr trivial, .inl h⟩⟩
            all_goals exact absurd rfl h
        · by_cases hvX : v ∈ X ∨ v ∈ Y
          · constructor
            · rintro ⟨-, h1, h2⟩
              have hvY := h1.resolve_right hv
              have hvX := hvX.resolve_right hvY
              rcases h2 with h | ⟨-, -, y, hy, h⟩ | ⟨h, -⟩
              · exact absurd (((hA u v).1 h).2.1.resolve_right hv) (fun h => h hvX)
              · exact absurd (((hA y v).1 h).2.1.resolve_right hv) (fun h => h hvX)
              · exact absurd h hv
            · rintro ⟨-, h1, -⟩
              exact absurd (List.mem_append.2 hvX) (h1.resolve_right hv)
          · push Not at hvX
            have := key v hv hvX
            constructor
            · rintro ⟨-, -, h⟩
              have h' : S.Adj u v ∨ ∃ x ∈ X ++ Y, S.Adj x v := this.1 (by
                rcases h with h | ⟨-, -, h⟩ | ⟨h, -⟩
                · exact .inl h
                · exact .inr h
                · exact absurd h hv)
              refine ⟨.inr rfl, .inl (by rw [List.mem_append]; tauto), ?_⟩
              rcases h' with h' | h'
              · exact .inl h'
              · exact .inr (.inl ⟨rfl, hv, h'⟩)
            · rintro ⟨-, -, h⟩
              have h' := this.2 (by
                rcases h with h | ⟨-, -, h⟩ | ⟨h, -⟩
                · exact .inl h
                · exact .inr h
                · exact absurd h hv)
              refine ⟨.inr rfl, .inl hvX.2, ?_⟩
              rcases h' with h' | h'
              · exact .inl h'
              · exact .inr (.inl ⟨rfl, hv, h'⟩)
      · by_cases hv : v = c
        · subst hv
          by_cases huX : u ∈ X ∨ u ∈ Y
          · constructor
            · rintro ⟨h1, -, h2⟩
              have huY := h1.resolve_right hu
              have huX := huX.resolve_right huY
              rcases h2 with h | ⟨h, -⟩ | ⟨-, -, y, hy, h⟩
              · exact absurd (((hA u v).1 h).1.resolve_right hu) (fun h => h huX)
              · exact absurd h hu
              · exact absurd (((hA y u).1 h).2.1.resolve_right hu) (fun h => h huX)
            · rintro ⟨h1, -, -⟩
              exact absurd (List.mem_append.2 huX) (h1.resolve_right hu)
          · push Not at huX
            have := key u hu huX
            have hT : T.Adj u v ↔ T.Adj v u := SGraph.adj_comm
            constructor
            · rintro ⟨-, -, h⟩
              have h' : S.Adj v u ∨ ∃ x ∈ X ++ Y, S.Adj x u := this.1 (by
                rcases h with h | ⟨h, -⟩ | ⟨-, -, h⟩
                · exact .inl (hT.1 h)
                · exact absurd h hu
                · exact .inr h)
              refine ⟨.inl (by rw [List.mem_append]; tauto), .inr rfl, ?_⟩
              rcases h' with h' | h'
              · exact .inl (hsymm.1 h')
              · exact .inr (.inr ⟨rfl, hu, h'⟩)
            · rintro ⟨-, -, h⟩
              have h' := this.2 (by
                rcases h with h | ⟨h, -⟩ | ⟨-, -, h⟩
                · exact .inl (hsymm.1 h)
                · exact absurd h hu
                · exact .inr h)
              refine ⟨.inl huX.2, .inr rfl, ?_⟩
              rcases h' with h' | h'
              · exact .inl (hT.2 h')
              · exact .inr (.inr ⟨rfl, hu, h'⟩)
        · simp only [hA, hu, hv, or_false, false_and, List.mem_append]
          tauto
  · intro x hx hxc
    obtain ⟨a, e1, I1⟩ := A.contractInto (σ 0) (σ 1) (σ 2) hc (X := [x]) (by simpa using hx)
    obtain ⟨b, e2, I2⟩ := A.contractPair (σ 3) hc hx
    refine ⟨a, b, e1, e2, I1.eq_of I2 (fun u => ?_) fun u v => ?_⟩
    · simp only [List.mem_singleton]
      have : u = c → u ≠ x := fun h => by rw [h]; exact hxc.symm
      tauto
    · have h1 : u = c → u ≠ x := fun h => by rw [h]; exact hxc.symm
      have h2 : v = c → v ≠ x := fun h => by rw [h]; exact hxc.symm
      simp only [List.mem_singleton, exists_eq_left]
      tauto

/-- `C130_contract_steps` for a path with a loop and an isolated vertex. -/
example := fun σ => C130_contract_steps loopG_reachable σ 1 [0] [2, 5] (by decide) (by decide) (by decide) (by decide)

/-- **C130, disjoint unions.** The empty graph is neutral, and the union of three graphs does not depend on the bracketing. -/
theorem C130_disj_union {g h k : EditGraph} (hg : Reachable g) (hh : Reachable h) (hk : Reachable k) {a b c : ℕ}
    (ha : ∀ u : ℕ, g.contains u = true → u < a) (hb : ∀ u : ℕ, h.contains u = true → u < b)
    (hc : ∀ u : ℕ, k.contains u = true → u < c) (hsum : a + b + c < 2 ^ 32) :
    (∃ p, g.disjUnion EditGraph.new.view = .ok p ∧ p.eq g = true) ∧
    (∃ p, EditGraph.new.disjUnion g.view = .ok p ∧ p.eq g = true) ∧
    ∃ p q r s, g.disjUnion h.view = .ok p ∧ p.disjUnion k.view = .ok q ∧ h.disjUnion k.view = .ok r ∧
      g.disjUnion r.view = .ok s ∧ q.eq s = true := by
  obtain ⟨S, A⟩ := hg.abs
  obtain ⟨T, B⟩ := hh.abs
  obtain ⟨U, C⟩ := hk.abs
  have hbound : ∀ {g : EditGraph} {S : SGraph} {a : ℕ}, Abs g S → (∀ u : ℕ, g.contains u = true → u < a) →
      offsetOf S ≤ a := fun {g S a} A h => Finset.sup_le fun u hu => h u (by rw [A.contains, decide_eq_true_eq]; exact hu)
  have ra := hbound A ha
  have rb := hbound B hb
  have rc := hbound C hc
  have hlt : ∀ {S : SGraph} {u : ℕ}, u ∈ S.V → u < offsetOf S := fun hu => lt_offsetOf hu
  have hempty : SGraph.empty.shift (offsetOf S) = SGraph.empty := SGraph.ext_adj (by
    ext u; rw [SGraph.mem_shift_V]; simp) fun x y => by rw [SGraph.shift_adj]; simp [SGraph.Adj]
  refine ⟨?_, ?_, ?_⟩
  · obtain ⟨p, e, P⟩ := A.disjUnion abs_new.rep (by omega) (by simp)
    refine ⟨p, e, ?_⟩
    rw [P.eq_iff A, hempty]
    exact SGraph.ext_adj (by ext u; rw [SGraph.mem_union_V]; simp) fun x y => by rw [SGraph.union_adj]; simp [SGraph.Adj]
  · have h0 : offsetOf SGraph.empty = 0 := rfl
    obtain ⟨p, e, P⟩ := abs_new.disjUnion A.rep (by rw [h0]; decide) (by
      intro v hv
      have := hlt hv
      rw [h0]; omega)
    refine ⟨p, e, ?_⟩
    rw [P.eq_iff A, h0]
    refine SGraph.ext_adj ?_ fun x y => ?_
    · ext u; rw [SGraph.mem_union_V, SGraph.mem_shift_V]; simp
    · rw [SGraph.union_adj, SGraph.shift_adj]
      simp [SGraph.Adj]
  · obtain ⟨p, e1, P⟩ := A.disjUnion B.rep (by omega) (by
      intro v hv
      have := hlt hv
      omega)
    have hoff : ∀ {S T : SGraph}, T.V.Nonempty → offsetOf (S.union (T.shift (offsetOf S))) = offsetOf T + offsetOf S := by
      intro S T hT
      unfold offsetOf
      refine le_antisymm (Finset.sup_le fun u hu => ?_) ?_
      · rw [SGraph.mem_union_V, SGraph.mem_shift_V] at hu
        rcases hu with hu | ⟨v, hv, rfl⟩
        · have := Finset.le_sup (f := (· + 1)) hu
          omega
        · have := Finset.le_sup (f := (· + 1)) hv
          omega
      · obtain ⟨v, hv, hmax⟩ := Finset.exists_mem_eq_sup T.V hT (· + 1)
        rw [hmax]
        have : v + offsetOf S ∈ (S.union (T.shift (offsetOf S))).V := by
          rw [SGraph.mem_union_V, SGraph.mem_shift_V]; exact .inr ⟨v, hv, rfl⟩
        have := Finset.le_sup (f := (· + 1)) this
        unfold offsetOf at this
        omega
    have hoff' : ∀ {S T : SGraph}, T.V = ∅ → offsetOf (S.union (T.shift (offsetOf S))) = offsetOf S := by
      intro S T hT
      unfold offsetOf
      congr 1
      ext u
      rw [SGraph.mem_union_V, SGraph.mem_shift_V, hT]
      simp
    have hle : offsetOf (S.union (T.shift (offsetOf S))) ≤ offsetOf T + offsetOf S := by
      rcases T.V.eq_empty_or_nonempty with h | h
      · rw [hoff' h]; omega
      · rw [hoff h]
    obtain ⟨q, e2, Q⟩ := P.disjUnion C.rep (by omega) (by
      intro v hv
      have := hlt hv
      omega)
    obtain ⟨r, e3, R⟩ := B.disjUnion C.rep (by omega) (by
      intro v hv
      have := hlt hv
      omega)
    obtain ⟨s, e4, W⟩ := A.disjUnion R.rep (by omega) (by
      intro v hv
      rw [SGraph.mem_union_V, SGraph.mem_shift_V] at hv
      rcases hv with hv | ⟨v, hv, rfl⟩
      · have := hlt hv; omega
      · have := hlt hv; omega)
    refine ⟨p, q, r, s, e1, e2, e3, e4, ?_⟩
    rw [Q.eq_iff W]
    have hT : T.V = ∅ → offsetOf T = 0 := fun h => by unfold offsetOf; rw [h]; rfl
    have hsum : offsetOf (S.union (T.shift (offsetOf S))) = offsetOf T + offsetOf S := by
      rcases T.V.eq_empty_or_nonempty with h | h
      · rw [hoff' h, hT h]; omega
      · rw [hoff h]
    rw [hsum]
    refine SGraph.ext_adj ?_ fun x y => ?_
    · ext u
      simp only [SGraph.mem_union_V, SGraph.mem_shift_V]
      constructor
      · rintro ((h | ⟨v, hv, rfl⟩) | ⟨v, hv, rfl⟩)
        · exact .inl h
        · exact .inr ⟨v, .inl hv, rfl⟩
        · exact .inr ⟨v + offsetOf T, .inr ⟨v, hv, rfl⟩, by omega⟩
      · rintro (h | ⟨v, hv | ⟨w, hw, rfl⟩, rfl⟩)
        · exact .inl (.inl h)
        · exact .inl (.inr ⟨v, hv, rfl⟩)
        · exact .inr ⟨w, hw, by omega⟩
    · simp only [SGraph.union_adj, SGraph.shift_adj]
      constructor
      · rintro ((h | ⟨u, v, hv, rfl, rfl⟩) | ⟨u, v, hv, rfl, rfl⟩)
        · exact .inl h
        · exact .inr ⟨u, v, .inl hv, rfl, rfl⟩
        · exact .inr ⟨_, _, .inr ⟨u, v, hv, rfl, rfl⟩, by omega, by omega⟩
      · rintro (h | ⟨u, v, hv | ⟨u, v, hv, rfl, rfl⟩, rfl, rfl⟩)
        · exact .inl (.inl h)
        · exact .inl (.inr ⟨u, v, hv, rfl, rfl⟩)
        · exact .inr ⟨u, v, hv, by omega, by omega⟩

/-- Hypotheses are met. -/
example : ∃ g : EditGraph, Reachable g ∧ g.contains 7 = true ∧ (∀ x ∈ [1, 3], g.contains x = true) ∧
    (∀ y ∈ [2, 7], g.contains y = true) ∧ (∀ y ∈ [2, 7], y ∉ [1, 3] ∨ y = 7) ∧ (∀ u : ℕ, g.contains u = true → u < 100) ∧
    (∀ u, u ∈ [1, 2] ↔ g.contains u = true ∧ u ∉ [3, 7]) := by
  obtain ⟨g, H⟩ := exAbs
  have hV : exS.V = {1, 2, 3, 7} := by decide
  refine ⟨g, H.reachable, by rw [H.contains]; decide, fun x hx => by rw [H.contains]; revert x; decide,
    fun x hx => by rw [H.contains]; revert x; decide, by decide, fun u hu => ?_, fun u => ?_⟩
  · rw [H.contains, decide_eq_true_eq, hV] at hu
    simp only [Finset.mem_insert, Finset.mem_singleton] at hu
    omega
  · rw [H.contains, decide_eq_true_eq, hV]
    simp only [Finset.mem_insert, Finset.mem_singleton, List.mem_cons, List.not_mem_nil, or_false]
    omega

example : ∃ G : Graph, G.Rep exS ∧ (∀ x ∈ [2, 7, 2], x ∈ exS.V) ∧ (∀ y ∈ [7], y ∈ [2, 7, 2]) := by
  obtain ⟨g, H⟩ := exAbs
  exact ⟨g.view, H.rep, by decide, by decide⟩

end Verif
