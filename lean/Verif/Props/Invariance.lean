import Verif.Props.Compose
/-!
# C124: how analyses change under modifications

`degeneracy`, `is_bipartite`, `components` and `r_neighbours` before and after `normalize`, `disj_union`, `subgraph`,
`add_edge`, `remove_edge` and `remove_vertex`.
-/
namespace Verif
open EditGraph

namespace SGraph
variable {S T : SGraph}

theorem degIn_le_of_adj (h : ∀ u v, T.Adj u v → S.Adj u v) (W : Finset ℕ) (w : ℕ) : T.degIn W w ≤ S.degIn W w :=
  Finset.card_le_card fun v hv => by
    rw [Finset.mem_filter] at hv ⊢
    exact ⟨hv.1, h w v hv.2⟩

/-- Subgraphs have no larger degeneracy. -/
theorem IsDegeneracy.mono {k l : ℕ} (hS : S.IsDegeneracy k) (hT : T.IsDegeneracy l) (hV : T.V ⊆ S.V)
    (hA : ∀ u v, T.Adj u v → S.Adj u v) : l ≤ k :=
  hT.2 k fun W hW hne => by
    obtain ⟨w, hw, h1⟩ := hS.1 W (hW.trans hV) hne
    exact ⟨w, hw, (degIn_le_of_adj hA W w).trans h1⟩

/-- Deleting a vertex lowers the degeneracy by at most 1. -/
theorem IsDegeneracy.delete {k l v : ℕ} (hS : S.IsDegeneracy k) (hT : T.IsDegeneracy l) (hV : ∀ u, u ∈ T.V ↔ u ∈ S.V ∧ u ≠ v)
    (hA : ∀ u w, T.Adj u w ↔ S.Adj u w ∧ u ≠ v ∧ w ≠ v) : k ≤ l + 1 :=
  hS.2 (l + 1) fun W hW hne => by
    by_cases he : (W.erase v).Nonempty
    · obtain ⟨w, hw, h1⟩ := hT.1 (W.erase v) (fun u hu => (hV u).2
        ⟨hW (Finset.mem_of_mem_erase hu), Finset.ne_of_mem_erase hu⟩) he
      refine ⟨w, Finset.mem_of_mem_erase hw, le_trans ?_ (Nat.add_le_add_right h1 1)⟩
      refine le_trans (Finset.card_le_card (t := insert v ((W.erase v).filter fun x => T.Adj w x)) fun x hx => ?_)
        (Finset.card_insert_le _ _)
      rw [Finset.mem_filter] at hx
      rw [Finset.mem_insert]
      by_cases hxv : x = v
      · exact .inl hxv
      · exact .inr (Finset.mem_filter.2 ⟨Finset.mem_erase.2 ⟨hxv, hx.1⟩, (hA w x).2 ⟨hx.2, Finset.ne_of_mem_erase hw, hxv⟩⟩)
    · obtain ⟨w, hw⟩ := hne
      refine ⟨w, hw, le_trans (Finset.card_le_card (t := {v}) fun x hx => ?_) (by simp)⟩
      rw [Finset.mem_singleton]
      by_contra hxv
      exact he ⟨x, Finset.mem_erase.2 ⟨hxv, (Finset.mem_filter.1 hx).1⟩⟩

/-- Adding an edge raises the degeneracy by at most 1. -/
theorem IsDegeneracy.addEdge {k l a b : ℕ} (hS : S.IsDegeneracy k) (hT : T.IsDegeneracy l) (hV : T.V = S.V)
    (hA : ∀ u w, T.Adj u w → S.Adj u w ∨ (u = a ∧ w = b) ∨ (u = b ∧ w = a)) (hab : a ≠ b) : l ≤ k + 1 :=
  hT.2 (k + 1) fun W hW hne => by
    obtain ⟨w, hw, h1⟩ := hS.1 W (hV ▸ hW) hne
    refine ⟨w, hw, le_trans ?_ (Nat.add_le_add_right h1 1)⟩
    refine le_trans (Finset.card_le_card
      (t := insert (if w = a then b else a) (W.filter fun x => S.Adj w x)) fun x hx => ?_) (Finset.card_insert_le _ _)
    rw [Finset.mem_filter] at hx
    rw [Finset.mem_insert]
    rcases hA w x hx.2 with h | ⟨rfl, rfl⟩ | ⟨rfl, rfl⟩
    · exact .inr (Finset.mem_filter.2 ⟨hx.1, h⟩)
    · exact .inl (if_pos rfl).symm
    · exact .inl (if_neg hab.symm).symm

/-- A copy of `S` inside `T`: `φ` is injective on the vertices and preserves and reflects edges. -/
structure Embeds (S T : SGraph) (φ : ℕ → ℕ) : Prop where
  mem : ∀ u ∈ S.V, φ u ∈ T.V
  inj : ∀ u ∈ S.V, ∀ v ∈ S.V, φ u = φ v → u = v
  adj : ∀ u ∈ S.V, ∀ v ∈ S.V, T.Adj (φ u) (φ v) ↔ S.Adj u v

theorem Embeds.degIn {φ : ℕ → ℕ} (E : S.Embeds T φ) {W : Finset ℕ} (hW : W ⊆ S.V) {w : ℕ} (hw : w ∈ S.V) :
    T.degIn (W.image φ) (φ w) = S.degIn W w := by
  unfold SGraph.degIn
  have : (W.image φ).filter (fun v => T.Adj (φ w) v) = (W.filter fun v => S.Adj w v).image φ := by
    ext y
    simp only [Finset.mem_filter, Finset.mem_image]
    constructor
    · rintro ⟨⟨x, hx, rfl⟩, h⟩
      exact ⟨x, ⟨hx, (E.adj w hw x (hW hx)).1 h⟩, rfl⟩
    · rintro ⟨x, ⟨hx, h⟩, rfl⟩
      exact ⟨⟨x, hx, rfl⟩, (E.adj w hw x (hW hx)).2 h⟩
  rw [this]
  exact Finset.card_image_of_injOn fun x hx y hy h =>
    E.inj x (hW (Finset.mem_filter.1 hx).1) y (hW (Finset.mem_filter.1 hy).1) h

theorem Embeds.degeneracy_le {φ : ℕ → ℕ} (E : S.Embeds T φ) {k l : ℕ} (hS : S.IsDegeneracy k) (hT : T.IsDegeneracy l) : k ≤ l :=
  hS.2 l fun W hW hne => by
    obtain ⟨y, hy, h1⟩ := hT.1 (W.image φ) (fun y hy => by
      obtain ⟨x, hx, rfl⟩ := Finset.mem_image.1 hy
      exact E.mem x (hW hx)) (hne.image φ)
    obtain ⟨x, hx, rfl⟩ := Finset.mem_image.1 hy
    exact ⟨x, hx, (E.degIn hW (hW hx)).symm.trans_le h1⟩

theorem Embeds.twoColourable {φ : ℕ → ℕ} (E : S.Embeds T φ) (h : T.TwoColourable) : S.TwoColourable := by
  obtain ⟨f, hf⟩ := h
  exact ⟨fun u => f (φ u), fun u v huv => hf _ _ ((E.adj u huv.left v huv.right).2 huv)⟩

/-- A disjoint union has the larger of the two degeneracies. -/
theorem IsDegeneracy.union {A B X : SGraph} {φ : ℕ → ℕ} {k l m : ℕ} (hA : A.IsDegeneracy k) (hB : B.IsDegeneracy l)
    (hX : X.IsDegeneracy m) (EA : A.Embeds X id) (EB : B.Embeds X φ) (hV : ∀ w ∈ X.V, w ∈ A.V ∨ ∃ v ∈ B.V, w = φ v)
    (hadj : ∀ a b, X.Adj a b → (a ∈ A.V ∧ b ∈ A.V) ∨ ∃ u ∈ B.V, ∃ v ∈ B.V, a = φ u ∧ b = φ v)
    (hd : ∀ v ∈ B.V, φ v ∉ A.V) : m = max k l := by
  classical
  refine le_antisymm (hX.2 _ fun W hW hne => ?_) (max_le (EA.degeneracy_le hA hX) (EB.degeneracy_le hB hX))
  by_cases h1 : (W.filter (· ∈ A.V)).Nonempty
  · obtain ⟨w, hw, hk⟩ := hA.1 (W.filter (· ∈ A.V)) (fun x hx => (Finset.mem_filter.1 hx).2) h1
    have hwA := (Finset.mem_filter.1 hw).2
    refine ⟨w, (Finset.mem_filter.1 hw).1, le_trans (Finset.card_le_card fun x hx => ?_) (hk.trans (le_max_left _ _))⟩
    rw [Finset.mem_filter] at hx
    have hxA : x ∈ A.V := by
      rcases hadj w x hx.2 with ⟨-, h⟩ | ⟨u, hu, v, hv, rfl, -⟩
      · exact h
      · exact absurd hwA (hd u hu)
    exact Finset.mem_filter.2 ⟨Finset.mem_filter.2 ⟨hx.1, hxA⟩, (EA.adj w hwA x hxA).1 hx.2⟩
  · have hall : ∀ w ∈ W, ∃ v ∈ B.V, w = φ v := fun w hw => (hV w (hW hw)).resolve_left fun h =>
      h1 ⟨w, Finset.mem_filter.2 ⟨hw, h⟩⟩
    have hWne : (B.V.filter (fun v => φ v ∈ W)).Nonempty := by
      obtain ⟨w, hw⟩ := hne
      obtain ⟨v, hv, rfl⟩ := hall w hw
      exact ⟨v, Finset.mem_filter.2 ⟨hv, hw⟩⟩
    obtain ⟨v, hv, hl⟩ := hB.1 _ (Finset.filter_subset _ _) hWne
    obtain ⟨hvB, hvW⟩ := Finset.mem_filter.1 hv
    have himg : (B.V.filter (fun v => φ v ∈ W)).image φ = W := by
      ext w
      rw [Finset.mem_image]
      constructor
      · rintro ⟨v, hv, rfl⟩
        exact (Finset.mem_filter.1 hv).2
      · intro hw
        obtain ⟨v, hv, rfl⟩ := hall w hw
        exact ⟨v, Finset.mem_filter.2 ⟨hv, hw⟩, rfl⟩
    refine ⟨φ v, hvW, ?_⟩
    have := EB.degIn (Finset.filter_subset (fun v => φ v ∈ W) _) hvB
    rw [himg] at this
    rw [this]
    exact hl.trans (le_max_right _ _)

/-- `φ` is an isomorphism from `S` to `T`. -/
structure IsoVia (S T : SGraph) (φ : ℕ → ℕ) : Prop extends S.Embeds T φ where
  surj : ∀ w ∈ T.V, ∃ u ∈ S.V, φ u = w

theorem IsoVia.inv {φ : ℕ → ℕ} (I : S.IsoVia T φ) : ∃ ψ, T.IsoVia S ψ ∧ ∀ u ∈ S.V, ψ (φ u) = u := by
  classical
  have : ∀ w, ∃ u, w ∈ T.V → u ∈ S.V ∧ φ u = w := fun w => by
    by_cases hw : w ∈ T.V
    · obtain ⟨u, hu, h⟩ := I.surj w hw
      exact ⟨u, fun _ => ⟨hu, h⟩⟩
    · exact ⟨0, fun h => absurd h hw⟩
  choose ψ hψ using this
  have hid : ∀ u ∈ S.V, ψ (φ u) = u := fun u hu => I.inj _ (hψ _ (I.mem u hu)).1 u hu (hψ _ (I.mem u hu)).2
  refine ⟨ψ, ⟨⟨fun w hw => (hψ w hw).1, fun a ha b hb h => ?_, fun a ha b hb => ?_⟩, fun u hu => ⟨φ u, I.mem u hu, hid u hu⟩⟩,
    hid⟩
  · rw [← (hψ a ha).2, h, (hψ b hb).2]
  · rw [← I.adj _ (hψ a ha).1 _ (hψ b hb).1, (hψ a ha).2, (hψ b hb).2]

theorem Embeds.walk {φ : ℕ → ℕ} (E : S.Embeds T φ) : ∀ {n u v}, Walk S.Adj n u v → Walk T.Adj n (φ u) (φ v) := by
  intro n u v h
  induction h with
  | nil u => exact .nil _
  | cons h _ ih => exact .cons ((E.adj _ h.left _ h.right).2 h) ih

theorem IsoVia.walk_iff {φ : ℕ → ℕ} (I : S.IsoVia T φ) {n u v : ℕ} (hu : u ∈ S.V) (hv : v ∈ S.V) :
    Walk T.Adj n (φ u) (φ v) ↔ Walk S.Adj n u v := by
  refine ⟨fun h => ?_, I.toEmbeds.walk⟩
  obtain ⟨ψ, J, hid⟩ := I.inv
  have := J.toEmbeds.walk h
  rwa [hid u hu, hid v hv] at this

theorem IsoVia.degeneracy {φ : ℕ → ℕ} (I : S.IsoVia T φ) {k l : ℕ} (hS : S.IsDegeneracy k) (hT : T.IsDegeneracy l) : l = k := by
  obtain ⟨ψ, J, -⟩ := I.inv
  exact le_antisymm (J.toEmbeds.degeneracy_le hT hS) (I.toEmbeds.degeneracy_le hS hT)

theorem Embeds.core_le {φ : ℕ → ℕ} (E : S.Embeds T φ) {u k l : ℕ} (hS : S.IsCore u k) (hT : T.IsCore (φ u) l) :
    k ≤ l := by
  obtain ⟨W, hW, huW⟩ := hS.1
  refine hT.2 (W.image φ) k ⟨fun y hy => ?_, fun y hy => ?_⟩ (Finset.mem_image_of_mem φ huW)
  · obtain ⟨x, hx, rfl⟩ := Finset.mem_image.1 hy
    exact E.mem x (hW.1 hx)
  · obtain ⟨x, hx, rfl⟩ := Finset.mem_image.1 hy
    rw [E.degIn hW.1 (hW.1 hx)]
    exact hW.2 x hx

theorem IsoVia.comps {φ : ℕ → ℕ} (I : S.IsoVia T φ) : T.comps.card = S.comps.card :=
  card_comps_of_map φ I.mem (fun u hu v hv => exists_congr fun n => (I.walk_iff hu hv).symm) fun w hw => by
    obtain ⟨u, hu, rfl⟩ := I.surj w hw
    exact ⟨u, hu, 0, .nil _⟩

end SGraph

/-- A returned upper bound of at most 129 is the degeneracy, as is the lower bound. -/
theorem Graph.Rep.degeneracy_exact {G : Graph} {S : SGraph} (hG : G.Rep S) (hl : S.Loopless) (hn : S.V.card ≤ 2 ^ 31)
    {σ : ℕ → Shuffle Vertex} {lo up : ℕ} {ord : List ℕ} {core : HMap ℕ ℕ} (h : G.degeneracy σ = .ok (lo, up, ord, core))
    (hup : up ≤ 129) : lo = up ∧ S.IsDegeneracy up := by
  obtain ⟨k, hk⟩ := S.exists_degeneracy
  obtain ⟨lo', up', ord', core', h', -, -, h1, h2, -, h3⟩ := C40_bounds_partial hG hl hn σ hk
  rw [h] at h'
  cases h'
  rw [if_pos (by omega)] at h3
  have hb : bucketTop up = up := by
    unfold bucketTop
    split
    · rfl
    · obtain rfl : up = 129 := by omega
      rfl
  obtain rfl : k = up := by omega
  exact ⟨h3, hk⟩

theorem EditGraph.Abs.adj_iff {g : EditGraph} {S : SGraph} (A : Abs g S) (u v : ℕ) : g.adjacent u v = true ↔ S.Adj u v := by
  rw [A.adjacent, decide_eq_true_eq]

theorem EditGraph.Abs.mem_iff {g : EditGraph} {S : SGraph} (A : Abs g S) (u : ℕ) : g.contains u = true ↔ u ∈ S.V := by
  rw [A.contains, decide_eq_true_eq]

/-- **C124, normalize.** After relabelling, `is_bipartite`, the number of components and `degeneracy` are unchanged, and balls
and core numbers are the same up to the renaming. -/
theorem C124_normalize {g : EditGraph} (hg : Reachable g) (ρ : Shuffle (Vertex × Vertex)) (σ σ' : ℕ → Shuffle Vertex)
    (τ τ' : Shuffle (Vertex × (Bool × Vertex))) (κ κ' : Shuffle (List Vertex)) :
    ∃ h m w w' cg ch, g.normalize ρ = .ok (h, m) ∧ g.view.isBipartite σ τ = .ok w ∧ h.view.isBipartite σ' τ' = .ok w' ∧
      ((∃ L R, w' = .bipartition L R) ↔ ∃ L R, w = .bipartition L R) ∧
      g.view.components κ = .ok cg ∧ h.view.components κ' = .ok ch ∧ ch.length = cg.length ∧
      (∀ i u n, m.get? i = some u → ∃ B B', g.view.rNeighbours σ u n = .ok B ∧ h.view.rNeighbours σ' i n = .ok B' ∧
        ∀ j v, m.get? j = some v → (j ∈ B' ↔ v ∈ B)) ∧
      ∀ lo up ord core, (∀ u, g.adjacent u u = false) → g.numVertices ≤ 2 ^ 31 →
        g.view.degeneracy σ = .ok (lo, up, ord, core) → up ≤ 129 →
        ∃ ord' core', h.view.degeneracy σ' = .ok (lo, up, ord', core') ∧
          ∀ i u, m.get? i = some u → core'.get? i = core.get? u := by
  obtain ⟨h, m, hh, hr, h1, h2, h3, h4, h5, -⟩ := C13_normalize hg ρ
  obtain ⟨S, A⟩ := hg.abs
  obtain ⟨T, B⟩ := hr.abs
  have I : T.IsoVia S (fun i => (m.get? i).getD 0) := by
    have hm : ∀ i ∈ T.V, ∃ u, m.get? i = some u := fun i hi => (h2 i).1 ((h1 i).1 ((B.mem_iff i).2 hi))
    refine ⟨⟨fun i hi => ?_, fun i hi j hj he => ?_, fun i hi j hj => ?_⟩, fun u hu => ?_⟩
    · obtain ⟨u, hu⟩ := hm i hi
      rw [hu]
      exact (A.mem_iff u).1 ((h3 u).2 ⟨i, hu⟩)
    · obtain ⟨u, hu⟩ := hm i hi
      obtain ⟨v, hv⟩ := hm j hj
      rw [hu, hv] at he
      replace he : u = v := he
      rcases lt_trichotomy i j with hlt | rfl | hlt
      · have := h4 i j u v hu hv hlt
        omega
      · rfl
      · have := h4 j i v u hv hu hlt
        omega
    · obtain ⟨u, hu⟩ := hm i hi
      obtain ⟨v, hv⟩ := hm j hj
      rw [hu, hv, ← A.adj_iff, ← B.adj_iff, h5 i j u v hu hv]
      rfl
    · obtain ⟨i, hi⟩ := (h3 u).1 ((A.mem_iff u).2 hu)
      exact ⟨i, (B.mem_iff i).1 ((h1 i).2 ((h2 i).2 ⟨u, hi⟩)), by rw [hi]; rfl⟩
  have hφ : ∀ i u, m.get? i = some u → i ∈ T.V ∧ (m.get? i).getD 0 = u := fun i u hi =>
    ⟨(B.mem_iff i).1 ((h1 i).2 ((h2 i).2 ⟨u, hi⟩)), by rw [hi]; rfl⟩
  obtain ⟨w, e1, b1, -⟩ := C41_is_bipartite A.rep σ τ
  obtain ⟨w', e2, b2, -⟩ := C41_is_bipartite B.rep σ' τ'
  obtain ⟨cg, e3, l3⟩ := A.rep.components_length κ
  obtain ⟨ch, e4, l4⟩ := B.rep.components_length κ'
  obtain ⟨ψ, J, -⟩ := I.inv
  refine ⟨h, m, w, w', cg, ch, hh, e1, e2, ?_, e3, e4, by rw [l3, l4, I.comps], fun i u n hi => ?_,
    fun lo up ord core hl hn hd hup => ?_⟩
  · rw [b1, b2]
    exact ⟨J.toEmbeds.twoColourable, I.toEmbeds.twoColourable⟩
  · obtain ⟨hiT, rfl⟩ := hφ i u hi
    obtain ⟨b, q1, q2⟩ := (C17_ball A.rep σ [] (by simp) n).2 _ (I.mem i hiT)
    obtain ⟨b', q3, q4⟩ := (C17_ball B.rep σ' [] (by simp) n).2 _ hiT
    refine ⟨b, b', q1, q3, fun j v hj => ?_⟩
    obtain ⟨hjT, rfl⟩ := hφ j v hj
    rw [q2, q4]
    exact exists_congr fun d => and_congr_right fun _ => (I.walk_iff hiT hjT).symm
  · have hlS : S.Loopless := fun u hu => by
      have := (A.adj_iff u u).2 hu
      rw [hl u] at this
      cases this
    have hlT : T.Loopless := fun i hi => hlS _ ((I.adj i hi.left i hi.left).2 hi)
    obtain ⟨rfl, hk⟩ := A.rep.degeneracy_exact hlS (by rw [← A.numVertices]; exact hn) hd hup
    obtain ⟨l, hk'⟩ := T.exists_degeneracy
    obtain rfl := I.degeneracy hk' hk
    obtain ⟨ord', core', q1, q2⟩ := C39_exact_of_degeneracy B.rep hlT σ' hk' (by omega)
    obtain ⟨ord'', core'', q3, q4⟩ := C39_exact_of_degeneracy A.rep hlS σ hk (by omega)
    rw [hd] at q3
    cases q3
    refine ⟨ord', core', q1, fun i u hi => ?_⟩
    obtain ⟨hiT, rfl⟩ := hφ i u hi
    obtain ⟨c, hc, hc'⟩ := q2 i hiT
    obtain ⟨d, hd, hd'⟩ := q4 _ (I.mem i hiT)
    obtain ⟨ψ, J, hid⟩ := I.inv
    rw [hc, hd]
    refine congrArg some (le_antisymm (I.toEmbeds.core_le hc' hd') (J.toEmbeds.core_le hd' ?_))
    have := hid i hiT
    beta_reduce at this
    rw [this]
    exact hc'

/-- `C124_normalize` for a path with a loop and an isolated vertex. -/
example := fun ρ σ σ' τ τ' κ κ' => C124_normalize loopG_reachable ρ σ σ' τ τ' κ κ'

/-- **C124, disj_union.** A disjoint union is bipartite iff both graphs are, and its degeneracy is the larger one. -/
theorem C124_disj_union {g : EditGraph} (hg : Reachable g) {G : Graph} {T : SGraph} (hG : G.Rep T)
    (h1 : ∀ u : ℕ, g.contains u = true → u + 1 < 2 ^ 32) (h0 : ∀ v ∈ T.V, v < 2 ^ 32)
    (h2 : ∀ u v : ℕ, g.contains u = true → v ∈ T.V → u + 1 + v < 2 ^ 32) (σ σ' σ'' : ℕ → Shuffle Vertex)
    (τ τ' τ'' : Shuffle (Vertex × (Bool × Vertex))) :
    ∃ h w w' w'', g.disjUnion G = .ok h ∧ g.view.isBipartite σ τ = .ok w ∧ G.isBipartite σ' τ' = .ok w' ∧
      h.view.isBipartite σ'' τ'' = .ok w'' ∧
      ((∃ L R, w'' = .bipartition L R) ↔ (∃ L R, w = .bipartition L R) ∧ ∃ L R, w' = .bipartition L R) ∧
      ∀ lo up ord core lo' up' ord' core', (∀ u, g.adjacent u u = false) → T.Loopless → g.numVertices ≤ 2 ^ 31 →
        G.numVertices ≤ 2 ^ 31 → g.view.degeneracy σ = .ok (lo, up, ord, core) → up ≤ 129 →
        G.degeneracy σ' = .ok (lo', up', ord', core') → up' ≤ 129 →
        ∃ ord'' core'', h.view.degeneracy σ'' = .ok (max up up', max up up', ord'', core'') := by
  obtain ⟨h, k, hh, hr, hk, hc, ha, -⟩ := C12_disj_union hg hG h1 h0 h2
  obtain ⟨S, A⟩ := hg.abs
  obtain ⟨X, B⟩ := hr.abs
  simp only [A.mem_iff, A.adj_iff, B.mem_iff, B.adj_iff] at hk hc ha
  have hd : ∀ v ∈ T.V, v + k ∉ S.V := fun v _ hv => by have := hk _ hv; omega
  have ES : S.Embeds X id := by
    refine ⟨fun u hu => (hc u).2 (.inl hu), fun u _ v _ e => e, fun u hu v hv => ?_⟩
    rw [id, id, ha]
    constructor
    · rintro (h | ⟨a, b, hab, rfl, -⟩)
      · exact h
      · exact absurd hu (hd a hab.left)
    · exact .inl
  have ET : T.Embeds X (· + k) := by
    refine ⟨fun u hu => (hc _).2 (.inr ⟨u, hu, rfl⟩), fun u _ v _ e => Nat.add_right_cancel e, fun u hu v hv => ?_⟩
    rw [ha]
    constructor
    · rintro (h | ⟨a, b, hab, e1, e2⟩)
      · exact absurd h.left (hd u hu)
      · obtain rfl : u = a := Nat.add_right_cancel e1
        obtain rfl : v = b := Nat.add_right_cancel e2
        exact hab
    · exact fun h => .inr ⟨u, v, h, rfl, rfl⟩
  obtain ⟨w, e1, b1, -⟩ := C41_is_bipartite A.rep σ τ
  obtain ⟨w', e2, b2, -⟩ := C41_is_bipartite hG σ' τ'
  obtain ⟨w'', e3, b3, -⟩ := C41_is_bipartite B.rep σ'' τ''
  refine ⟨h, w, w', w'', hh, e1, e2, e3, ?_, fun lo up ord core lo' up' ord' core' hl hl' hn hn' q1 q2 q3 q4 => ?_⟩
  · rw [b1, b2, b3]
    refine ⟨fun h => ⟨ES.twoColourable h, ET.twoColourable h⟩, ?_⟩
    rintro ⟨⟨f, hf⟩, f', hf'⟩
    refine ⟨fun u => if u < k then f u else f' (u - k), fun u v huv => ?_⟩
    rcases (ha u v).1 huv with h | ⟨a, b, hab, rfl, rfl⟩
    · simp only [hk u h.left, hk v h.right, if_true]
      exact hf u v h
    · simp only [Nat.not_lt.2 (Nat.le_add_left k _), if_false, Nat.add_sub_cancel]
      exact hf' a b hab
  · have hlS : S.Loopless := fun u hu => by
      have := (A.adj_iff u u).2 hu
      rw [hl u] at this
      cases this
    obtain ⟨-, p1⟩ := A.rep.degeneracy_exact hlS (by rw [← A.numVertices]; exact hn) q1 q2
    obtain ⟨-, p2⟩ := hG.degeneracy_exact hl' (by rw [← hG.nv]; exact hn') q3 q4
    obtain ⟨l, p3⟩ := X.exists_degeneracy
    have hl'' : X.Loopless := fun u hu => by
      rcases (ha u u).1 hu with h | ⟨a, b, hab, e1, e2⟩
      · exact hlS u h
      · obtain rfl : a = b := Nat.add_right_cancel (e1.symm.trans e2)
        exact hl' a hab
    have hmax := p1.union p2 p3 ES ET (fun w hw => (hc w).1 hw) (fun a b hab => by
      rcases (ha a b).1 hab with h | ⟨u, v, huv, rfl, rfl⟩
      · exact .inl ⟨h.left, h.right⟩
      · exact .inr ⟨u, huv.left, v, huv.right, rfl, rfl⟩) hd
    subst hmax
    obtain ⟨ord'', core'', p4, -⟩ := C39_exact_of_degeneracy B.rep hl'' σ'' p3 (by omega)
    exact ⟨ord'', core'', p4⟩

/-- `C124_disj_union` for two graphs with four vertices each. -/
example := fun σ σ' σ'' τ τ' τ'' => C124_disj_union caseG_reachable loopG_rep
  (fun _ h => by have := caseG_contains.1 h; omega) (fun _ h => by have := loopS_mem.1 h; omega)
  (fun _ _ h h' => by have := caseG_contains.1 h; have := loopS_mem.1 h'; omega) σ σ' σ'' τ τ' τ''

/-- **C124, subgraph.** An induced subgraph of a bipartite graph is bipartite, has no larger degeneracy and no larger balls. -/
theorem C124_subgraph {G : Graph} {S : SGraph} (hG : G.Rep S) (ρ : Shuffle Vertex) (π : Vertex → Shuffle Vertex)
    (X : List Vertex) (hX : ∀ x ∈ X, x ∈ S.V) (σ σ' : ℕ → Shuffle Vertex) (τ τ' : Shuffle (Vertex × (Bool × Vertex))) :
    ∃ h w w', G.subgraph ρ π X = .ok h ∧ G.isBipartite σ τ = .ok w ∧ h.view.isBipartite σ' τ' = .ok w' ∧
      ((∃ L R, w = .bipartition L R) → ∃ L R, w' = .bipartition L R) ∧
      (∀ x ∈ X, ∀ n, ∃ B B', G.rNeighbours σ x n = .ok B ∧ h.view.rNeighbours σ' x n = .ok B' ∧ ∀ y, y ∈ B' → y ∈ B) ∧
      ∀ lo up ord core, S.Loopless → G.numVertices ≤ 2 ^ 31 → G.degeneracy σ = .ok (lo, up, ord, core) → up ≤ 129 →
        ∃ k ≤ up, ∃ ord' core', h.view.degeneracy σ' = .ok (k, k, ord', core') := by
  obtain ⟨h, hh, hr, hc, ha⟩ := C18_subgraph hG ρ π X hX
  obtain ⟨T, B⟩ := hr.abs
  simp only [B.mem_iff, B.adj_iff] at hc ha
  have E : T.Embeds S id := ⟨fun u hu => hX u ((hc u).1 hu), fun u _ v _ e => e, fun u hu v hv => by
    rw [ha]
    exact ⟨fun h => ⟨(hc u).1 hu, (hc v).1 hv, h⟩, fun h => h.2.2⟩⟩
  obtain ⟨w, e1, b1, -⟩ := C41_is_bipartite hG σ τ
  obtain ⟨w', e2, b2, -⟩ := C41_is_bipartite B.rep σ' τ'
  refine ⟨h, w, w', hh, e1, e2, ?_, fun x hx n => ?_, fun lo up ord core hl hn hd hup => ?_⟩
  · rw [b1, b2]
    exact E.twoColourable
  · obtain ⟨b, q1, q2⟩ := (C17_ball hG σ [] (by simp) n).2 x (hX x hx)
    obtain ⟨b', q3, q4⟩ := (C17_ball B.rep σ' [] (by simp) n).2 x ((hc x).2 hx)
    refine ⟨b, b', q1, q3, fun y hy => ?_⟩
    obtain ⟨d, hd, hw⟩ := (q4 y).1 hy
    exact (q2 y).2 ⟨d, hd, E.walk hw⟩
  · obtain ⟨-, p1⟩ := hG.degeneracy_exact hl (by rw [← hG.nv]; exact hn) hd hup
    obtain ⟨k, p2⟩ := T.exists_degeneracy
    have hk := E.degeneracy_le p2 p1
    obtain ⟨ord', core', p3, -⟩ := C39_exact_of_degeneracy B.rep (fun u hu => hl u ((ha u u).1 hu).2.2) σ' p2 (by omega)
    exact ⟨k, hk, ord', core', p3⟩

/-- `C124_subgraph` for a triangle with a pendant vertex. -/
example := fun ρ π σ σ' τ τ' => C124_subgraph caseG_rep ρ π [0, 1, 3] (by decide) σ σ' τ τ'

/-- **C124, single edits.** Adding an edge between vertices of the graph raises the degeneracy by at most 1, removing an edge
or a vertex lowers it by at most 1; it never changes in the other direction. -/
theorem C124_edits {g : EditGraph} (hg : Reachable g) (hl : ∀ u, g.adjacent u u = false) (hn : g.numVertices ≤ 2 ^ 31)
    (σ σ' : ℕ → Shuffle Vertex) {lo up : ℕ} {ord : List ℕ} {core : HMap ℕ ℕ}
    (hd : g.view.degeneracy σ = .ok (lo, up, ord, core)) (hup : up ≤ 129) (u v : ℕ) :
    (u ≠ v → g.contains u = true → g.contains v = true → ∃ r k ord' core', g.addEdge u v = .ok r ∧
      r.1.view.degeneracy σ' = .ok (k, k, ord', core') ∧ up ≤ k ∧ k ≤ up + 1) ∧
    (∃ r k ord' core', g.removeEdge u v = .ok r ∧
      r.1.view.degeneracy σ' = .ok (k, k, ord', core') ∧ k ≤ up ∧ up ≤ k + 1) ∧
    ∃ r k ord' core', g.removeVertex u = .ok r ∧
      r.1.view.degeneracy σ' = .ok (k, k, ord', core') ∧ k ≤ up ∧ up ≤ k + 1 := by
  obtain ⟨S, A⟩ := hg.abs
  have hlS : S.Loopless := fun u hu => by
    have := (A.adj_iff u u).2 hu
    rw [hl u] at this
    cases this
  obtain ⟨-, p⟩ := A.rep.degeneracy_exact hlS (by rw [← A.numVertices]; exact hn) hd hup
  refine ⟨fun huv hu hv => ?_, ?_, ?_⟩
  · obtain ⟨r, hr, B, -⟩ := A.addEdge u v
    rw [A.mem_iff] at hu hv
    have hV : (S.addEdge u v).V = S.V := by
      show insert u (insert v S.V) = S.V
      rw [Finset.insert_eq_self.2 hv, Finset.insert_eq_self.2 hu]
    have hA : ∀ x y, (S.addEdge u v).Adj x y ↔ S.Adj x y ∨ (x = u ∧ y = v) ∨ (x = v ∧ y = u) := fun x y => by
      show s(x, y) ∈ insert s(u, v) S.E ↔ s(x, y) ∈ S.E ∨ _
      rw [Finset.mem_insert, Sym2.eq_iff]
      tauto
    obtain ⟨k, q⟩ := (S.addEdge u v).exists_degeneracy
    have h1 := q.mono p hV.symm.subset fun x y h => (hA x y).2 (.inl h)
    have h2 := p.addEdge q hV (fun x y h => (hA x y).1 h) huv
    obtain ⟨ord', core', h3, -⟩ := C39_exact_of_degeneracy B.rep (fun x hx => by
      rcases (hA x x).1 hx with h | ⟨rfl, h⟩ | ⟨rfl, h⟩
      · exact hlS x h
      · exact huv h
      · exact huv h.symm) σ' q (by omega)
    exact ⟨r, k, ord', core', hr, h3, h1, h2⟩
  · obtain ⟨r, hr, B, -⟩ := A.removeEdge u v
    have hA : ∀ x y, (S.removeEdge u v).Adj x y ↔ S.Adj x y ∧ ¬ ((x = u ∧ y = v) ∨ (x = v ∧ y = u)) := fun x y => by
      show s(x, y) ∈ S.E.erase s(u, v) ↔ s(x, y) ∈ S.E ∧ _
      rw [Finset.mem_erase, ne_eq, Sym2.eq_iff]
      tauto
    obtain ⟨k, q⟩ := (S.removeEdge u v).exists_degeneracy
    have h1 := p.mono q (Finset.Subset.refl _) fun x y h => ((hA x y).1 h).1
    have h2 : up ≤ k + 1 := by
      by_cases huv : u = v
      · have h2 := q.mono p (Finset.Subset.refl _) fun x y h => (hA x y).2 ⟨h, by
          rintro (⟨rfl, rfl⟩ | ⟨rfl, rfl⟩)
          · exact hlS _ (huv ▸ h)
          · exact hlS _ (huv ▸ h)⟩
        omega
      · exact q.addEdge p rfl (a := u) (b := v) (fun x y h => by
          by_cases hc : (x = u ∧ y = v) ∨ (x = v ∧ y = u)
          · exact .inr hc
          · exact .inl ((hA x y).2 ⟨h, hc⟩)) huv
    obtain ⟨ord', core', h3, -⟩ := C39_exact_of_degeneracy B.rep (fun x hx => hlS x ((hA x x).1 hx).1) σ' q (by omega)
    exact ⟨r, k, ord', core', hr, h3, h1, h2⟩
  · obtain ⟨r, hr, B, -⟩ := A.removeVertex u
    have hV : ∀ x, x ∈ (S.removeVertex u).V ↔ x ∈ S.V ∧ x ≠ u := fun x => by
      show x ∈ S.V.erase u ↔ _
      rw [Finset.mem_erase, and_comm]
    have hA : ∀ x y, (S.removeVertex u).Adj x y ↔ S.Adj x y ∧ x ≠ u ∧ y ≠ u := fun x y => by
      show s(x, y) ∈ S.E.filter (fun e => u ∉ e) ↔ _
      rw [Finset.mem_filter, Sym2.mem_iff]
      refine and_congr_right fun _ => ?_
      constructor
      · exact fun h => ⟨fun e => h (.inl e.symm), fun e => h (.inr e.symm)⟩
      · rintro ⟨h1, h2⟩ (e | e)
        · exact h1 e.symm
        · exact h2 e.symm
    obtain ⟨k, q⟩ := (S.removeVertex u).exists_degeneracy
    have h1 := p.mono q (fun x hx => ((hV x).1 hx).1) fun x y h => ((hA x y).1 h).1
    have h2 := p.delete q hV hA
    obtain ⟨ord', core', h3, -⟩ := C39_exact_of_degeneracy B.rep (fun x hx => hlS x ((hA x x).1 hx).1) σ' q (by omega)
    exact ⟨r, k, ord', core', hr, h3, h1, h2⟩

/-- Hypotheses of the C124 theorems are met by the path 0-1-2, used for both graphs of the disjoint union. -/
example : ∃ (g : EditGraph) (S : SGraph) (up : ℕ) (ord : List ℕ) (core : HMap ℕ ℕ), Reachable g ∧ g.view.Rep S ∧ S.Loopless ∧
    (∀ u, g.adjacent u u = false) ∧ g.numVertices ≤ 2 ^ 31 ∧ (∀ u v : ℕ, g.contains u = true → v ∈ S.V → u + 1 + v < 2 ^ 32) ∧
    g.view.degeneracy (fun _ => .id) = .ok (up, up, ord, core) ∧ up ≤ 129 ∧ g.contains 0 = true ∧ g.contains 2 = true ∧
    g.adjacent 0 1 = true := by
  obtain ⟨g, S, A, hl, h01, h12, hV, -⟩ := exPath
  have hc : S.V.card = 3 := by rw [hV]; rfl
  obtain ⟨k, hk⟩ := S.exists_degeneracy
  have h3 : k ≤ 3 := hk.2 3 fun W hW ⟨w, hw⟩ => ⟨w, hw, by have := SGraph.degIn_lt hl hW hw; omega⟩
  obtain ⟨ord, core, hd, -⟩ := C39_exact_of_degeneracy A.rep hl (fun _ => .id) hk (by omega)
  refine ⟨g, S, k, ord, core, A.reachable, A.rep, hl, fun u => ?_, by rw [A.numVertices, hc]; decide, fun u v hu hv => ?_, hd,
    by omega, (A.mem_iff 0).2 h01.left, (A.mem_iff 2).2 h12.right, (A.adj_iff 0 1).2 h01⟩
  · rw [A.adjacent]
    simpa using hl u
  · rw [A.mem_iff, hV] at hu
    rw [hV] at hv
    simp only [Finset.mem_insert, Finset.mem_singleton] at hu hv
    omega

end Verif
