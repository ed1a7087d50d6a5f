import Verif.Lemmas.SubdivDist
import Verif.Lemmas.CompCount
import Verif.Props.EditOps
import Verif.Props.Operations
import Verif.Props.Algorithms
/-!
# Properties C97 – C98: analyses of modified graphs

How the results of `r_neighbours`, `is_bipartite`, `degeneracy` and `components` change when a graph is modified.
-/
namespace Verif
open EditGraph

theorem Graph.Rep.subdivData {G : Graph} {S : SGraph} (hG : G.Rep S) (t : ℕ)
    (ht : ∀ v ∈ S.V, v + 1 + t * S.E.card < 2 ^ 32) :
    ∃ h S' es b, G.subdivide t = .ok h ∧ Abs h S' ∧ Subdiv.Data S S' es b t := by
  obtain ⟨h, hh, S', es, b, A, he, hb, hV, hA, -⟩ := hG.subdivide t ht
  exact ⟨h, S', es, b, hh, A, he, hb, hV, hA⟩

/-! ## C97 -/

/-- **C97, distances.** In the graph with every edge subdivided `t` times a vertex `v` of the old graph lies in the ball of
radius `n` around the old vertex `u` iff it lies in the ball of radius `n / (t + 1)` in the old graph: distances
between old vertices are multiplied by `t + 1`. -/
theorem C97_distances {G : Graph} {S : SGraph} (hG : G.Rep S) (t : ℕ) (ht : ∀ v ∈ S.V, v + 1 + t * S.E.card < 2 ^ 32)
    (σ τ : ℕ → Shuffle Vertex) :
    ∃ h, G.subdivide t = .ok h ∧ ∀ u ∈ S.V, ∀ n, ∃ B B', G.rNeighbours σ u (n / (t + 1)) = .ok B ∧
      h.view.rNeighbours τ u n = .ok B' ∧ ∀ v ∈ S.V, (v ∈ B' ↔ v ∈ B) := by
  obtain ⟨h, S', es, b, hh, A, D⟩ := hG.subdivData t ht
  refine ⟨h, hh, fun u hu n => ?_⟩
  obtain ⟨B, hB, h1⟩ := (C17_ball hG σ [] (by simp) (n / (t + 1))).2 u hu
  obtain ⟨B', hB', h2⟩ := (C17_ball A.rep τ [] (by simp) n).2 u ((D.verts u).2 (Or.inl hu))
  exact ⟨B, B', hB, hB', fun v hv => by rw [h1, h2, D.walk_iff hu hv]⟩

/-- `C97_distances` for a path with a loop and an isolated vertex. -/
example := fun σ τ => C97_distances loopG_rep 2 (fun v hv => by
  have := loopS_mem.1 hv
  have e : loopS.E.card = 3 := by decide
  rw [e]; omega) σ τ

/-- **C97, bipartiteness.** After subdividing every edge `t` times `is_bipartite` finds a bipartition iff `t` is odd or it
finds one for the old graph. -/
theorem C97_bipartite {G : Graph} {S : SGraph} (hG : G.Rep S) (t : ℕ) (ht : ∀ v ∈ S.V, v + 1 + t * S.E.card < 2 ^ 32)
    (σ σ' : ℕ → Shuffle Vertex) (τ τ' : Shuffle (Vertex × (Bool × Vertex))) :
    ∃ h w w', G.subdivide t = .ok h ∧ G.isBipartite σ τ = .ok w ∧ h.view.isBipartite σ' τ' = .ok w' ∧
      ((∃ L R, w' = .bipartition L R) ↔ t % 2 = 1 ∨ ∃ L R, w = .bipartition L R) := by
  obtain ⟨h, S', es, b, hh, A, D⟩ := hG.subdivData t ht
  obtain ⟨w, hw, h1, -⟩ := C41_is_bipartite hG σ τ
  obtain ⟨w', hw', h2, -⟩ := C41_is_bipartite A.rep σ' τ'
  exact ⟨h, w, w', hh, hw, hw', by rw [h1, h2, D.twoColourable]⟩

/-- `C97_bipartite` for a path with a loop and an isolated vertex. -/
example := fun σ σ' τ τ' => C97_bipartite loopG_rep 2 (fun v hv => by
  have := loopS_mem.1 hv
  have e : loopS.E.card = 3 := by decide
  rw [e]; omega) σ σ' τ τ'

theorem Subdiv.Data.degIn_le {S S' : SGraph} {es : List (ℕ × ℕ)} {b t : ℕ} (D : Subdiv.Data S S' es b t) (ht : 1 ≤ t)
    {W : Finset ℕ} (hW : W ⊆ S'.V) (hne : W.Nonempty) : ∃ w ∈ W, S'.degIn W w ≤ 2 := by
  by_cases hf : ∃ w ∈ W, w ∉ S.V
  · obtain ⟨w, hw, hwS⟩ := hf
    refine ⟨w, hw, ?_⟩
    obtain ⟨i, hi, j, hj1, hj2, hwe⟩ := D.fresh_pos (hW hw) hwS
    have hwi := hwe
    rw [Subdiv.pos_inner hi hj1 hj2] at hwi
    have key : ∀ i' j', i' < es.length → j' ≤ t + 1 → w = subdivVertex es b t i' j' → i' = i ∧ j' = j := by
      intro i' j' hi' hj' he
      by_cases hc : j' = 0 ∨ j' = t + 1
      · exfalso
        apply hwS
        rcases hc with rfl | rfl
        · rw [he, Subdiv.pos_zero hi']; exact D.old_left hi'
        · rw [he, Subdiv.pos_last hi']; exact D.old_right hi'
      · rw [he, Subdiv.pos_inner hi' (by omega) (by omega)] at hwi
        exact Subdiv.inner_unique (by omega) (by omega) hj1 hj2 hwi
    have hsub : W.filter (fun v => S'.Adj w v) ⊆ {subdivVertex es b t i (j - 1), subdivVertex es b t i (j + 1)} := by
      intro x hx
      rw [Finset.mem_insert, Finset.mem_singleton]
      obtain ⟨i', hi', j', hj', ⟨h1, h2⟩ | ⟨h1, h2⟩⟩ := (D.adj _ _).1 (Finset.mem_filter.1 hx).2
      · obtain ⟨rfl, rfl⟩ := key i' j' hi' (by omega) h1
        exact Or.inr h2
      · obtain ⟨rfl, rfl⟩ := key i' (j' + 1) hi' (by omega) h1
        exact Or.inl h2
    exact (Finset.card_le_card hsub).trans Finset.card_le_two
  · -- two old vertices are never adjacent
    obtain ⟨w, hw⟩ := hne
    refine ⟨w, hw, ?_⟩
    have hold : ∀ x ∈ W, x ∈ S.V := fun x hx => by
      by_contra hc; exact hf ⟨x, hx, hc⟩
    have hemp : W.filter (fun v => S'.Adj w v) = ∅ := by
      rw [Finset.filter_eq_empty_iff]
      intro x hx hadj
      obtain ⟨i, hi, j, hj, ⟨h1, h2⟩ | ⟨h1, h2⟩⟩ := (D.adj _ _).1 hadj
      · have p1 := D.pos_old hi (j := j) (by omega) (h1 ▸ hold w hw)
        have p2 := D.pos_old hi (j := j + 1) (by omega) (h2 ▸ hold x hx)
        omega
      · have p1 := D.pos_old hi (j := j + 1) (by omega) (h1 ▸ hold w hw)
        have p2 := D.pos_old hi (j := j) (by omega) (h2 ▸ hold x hx)
        omega
    unfold SGraph.degIn
    rw [hemp]; simp

theorem Subdiv.Data.loopless {S S' : SGraph} {es : List (ℕ × ℕ)} {b t : ℕ} (D : Subdiv.Data S S' es b t) (ht : 1 ≤ t) :
    S'.Loopless := by
  intro w hadj
  have key : ∀ i j, i < es.length → j ≤ t → subdivVertex es b t i j ≠ subdivVertex es b t i (j + 1) := by
    intro i j hi hj he
    by_cases h0 : j = 0
    · subst h0
      rw [Subdiv.pos_zero hi, Subdiv.pos_inner hi (by omega) (by omega)] at he
      have := D.fresh _ (D.old_left hi)
      omega
    · by_cases h1 : j = t
      · rw [h1, Subdiv.pos_last hi, Subdiv.pos_inner hi (by omega) (by omega)] at he
        have := D.fresh _ (D.old_right hi)
        omega
      · rw [Subdiv.pos_inner hi (by omega) (by omega), Subdiv.pos_inner hi (by omega) (by omega)] at he
        omega
  obtain ⟨i, hi, j, hj, ⟨h1, h2⟩ | ⟨h1, h2⟩⟩ := (D.adj _ _).1 hadj
  · exact key i j hi hj (h1.symm.trans h2)
  · exact key i j hi hj (h2.symm.trans h1)

/-- **C97, degeneracy.** After subdividing every edge at least once both bounds of `degeneracy` are exact and at most 2, for
every graph. -/
theorem C97_degeneracy {G : Graph} {S : SGraph} (hG : G.Rep S) (t : ℕ) (ht1 : 1 ≤ t)
    (ht : ∀ v ∈ S.V, v + 1 + t * S.E.card < 2 ^ 32) (σ : ℕ → Shuffle Vertex) :
    ∃ h k ord core, G.subdivide t = .ok h ∧ h.view.degeneracy σ = .ok (k, k, ord, core) ∧ k ≤ 2 := by
  obtain ⟨h, S', es, b, hh, A, D⟩ := hG.subdivData t ht
  obtain ⟨k, hk⟩ := S'.exists_degeneracy
  have h2 : k ≤ 2 := hk.2 2 fun W hW hne => D.degIn_le ht1 hW hne
  obtain ⟨ord, core, hd, -⟩ := C39_exact_of_degeneracy A.rep (D.loopless ht1) σ hk (by omega)
  exact ⟨h, k, ord, core, hh, hd, h2⟩

/-- The graph `exS` (which has edges) meets the hypotheses of C97. -/
example : ∃ G : Graph, G.Rep exS ∧ exS.Adj 1 2 ∧ ∀ v ∈ exS.V, v + 1 + 3 * exS.E.card < 2 ^ 32 := by
  obtain ⟨g, A⟩ := exAbs
  exact ⟨g.view, A.rep, by decide, by decide⟩

/-! ## C98 -/

theorem Graph.Rep.components_length {G : Graph} {S : SGraph} (hG : G.Rep S) (σ : Shuffle (List Vertex)) :
    ∃ cs, G.components σ = .ok cs ∧ cs.length = S.comps.card := by
  obtain ⟨cs, h, h1, h2, h3, h4⟩ := C37_components hG σ
  exact ⟨cs, h, SGraph.length_comps h1 h2 h3 h4⟩

/-- **C98, disj_union.** A disjoint union has as many components as both graphs together. -/
theorem C98_disj_union {g : EditGraph} (hg : Reachable g) {G : Graph} {T : SGraph} (hG : G.Rep T)
    (h1 : ∀ u : ℕ, g.contains u = true → u + 1 < 2 ^ 32) (h0 : ∀ v ∈ T.V, v < 2 ^ 32)
    (h2 : ∀ u v : ℕ, g.contains u = true → v ∈ T.V → u + 1 + v < 2 ^ 32) (σ₁ σ₂ σ₃ : Shuffle (List Vertex)) :
    ∃ h cg cG ch, g.disjUnion G = .ok h ∧ g.view.components σ₁ = .ok cg ∧ G.components σ₂ = .ok cG ∧
      h.view.components σ₃ = .ok ch ∧ ch.length = cg.length + cG.length := by
  obtain ⟨h, k, hh, hr, hk, hc, ha, -⟩ := C12_disj_union hg hG h1 h0 h2
  obtain ⟨S, A⟩ := hg.abs
  obtain ⟨X, A'⟩ := hr.abs
  obtain ⟨cg, e1, l1⟩ := A.rep.components_length σ₁
  obtain ⟨cG, e2, l2⟩ := hG.components_length σ₂
  obtain ⟨ch, e3, l3⟩ := A'.rep.components_length σ₃
  refine ⟨h, cg, cG, ch, hh, e1, e2, e3, ?_⟩
  rw [l1, l2, l3]
  refine SGraph.card_comps_union (fun v => v + k) (fun w => ?_) (fun v _ hv => ?_) (fun u _ v _ he => ?_) (fun a b => ?_)
  · have := hc w
    rwa [A'.contains, A.contains, decide_eq_true_eq, decide_eq_true_eq] at this
  · have := hk (v + k) (by rw [A.contains, decide_eq_true_eq]; exact hv)
    omega
  · exact Nat.add_right_cancel he
  · have := ha a b
    rwa [A'.adjacent, A.adjacent, decide_eq_true_eq, decide_eq_true_eq] at this

/-- `C98_disj_union` for two graphs with four vertices each. -/
example := fun σ₁ σ₂ σ₃ => C98_disj_union caseG_reachable loopG_rep
  (fun _ h => by have := caseG_contains.1 h; omega) (fun _ h => by have := loopS_mem.1 h; omega)
  (fun _ _ h h' => by have := caseG_contains.1 h; have := loopS_mem.1 h'; omega) σ₁ σ₂ σ₃

/-- **C98, add_edge.** Adding an edge between two vertices of the graph leaves the number of components unchanged if they
are in the same component, and lowers it by one otherwise. -/
theorem C98_add_edge {g : EditGraph} (hg : Reachable g) {u v : ℕ} (hu : g.contains u = true) (hv : g.contains v = true)
    (σ₁ σ₂ : Shuffle (List Vertex)) :
    ∃ r cg ch, g.addEdge u v = .ok r ∧ g.view.components σ₁ = .ok cg ∧ r.1.view.components σ₂ = .ok ch ∧
      ch.length + (if ∃ c ∈ cg, u ∈ c ∧ v ∈ c then 0 else 1) = cg.length := by
  obtain ⟨S, A⟩ := hg.abs
  rw [A.contains, decide_eq_true_eq] at hu hv
  obtain ⟨r, hr, A', -⟩ := A.addEdge u v
  obtain ⟨cg, e1, q1, q2, q3, q4⟩ := C37_components A.rep σ₁
  obtain ⟨ch, e2, l2⟩ := A'.rep.components_length σ₂
  refine ⟨r, cg, ch, hr, e1, e2, ?_⟩
  rw [l2, SGraph.length_comps q1 q2 q3 q4]
  have key := SGraph.card_comps_addEdge (S := S) (X := S.addEdge u v) hu hv
    (by show insert u (insert v S.V) = S.V
        rw [Finset.insert_eq_self.2 hv, Finset.insert_eq_self.2 hu])
    (fun x y => by
      show s(x, y) ∈ insert s(u, v) S.E ↔ s(x, y) ∈ S.E ∨ _
      rw [Finset.mem_insert, Sym2.eq_iff]
      tauto)
  have hiff : (∃ c ∈ cg, u ∈ c ∧ v ∈ c) ↔ Conn S.Adj u v := by
    constructor
    · rintro ⟨c, hc, h1, h2⟩
      exact (q4 c hc u h1 v).1 h2
    · intro h
      obtain ⟨c, hc, h1⟩ := (q3 u).1 hu
      exact ⟨c, hc, h1, (q4 c hc u h1 v).2 h⟩
  by_cases h : ∃ c ∈ cg, u ∈ c ∧ v ∈ c
  · rw [if_pos h, key.1 (hiff.1 h)]; rfl
  · rw [if_neg h]; exact key.2 fun hc => h (hiff.2 hc)

/-- `C98_add_edge` for a path with a loop and an isolated vertex. -/
example := fun σ₁ σ₂ => C98_add_edge loopG_reachable (loopG_contains.2 (Or.inl (by decide : 0 < 3))) (loopG_contains.2 (Or.inr rfl)) σ₁ σ₂

/-- **C98, subdivide.** Subdividing edges does not change the number of components. -/
theorem C98_subdivide {G : Graph} {S : SGraph} (hG : G.Rep S) (t : ℕ) (ht : ∀ v ∈ S.V, v + 1 + t * S.E.card < 2 ^ 32)
    (σ₁ σ₂ : Shuffle (List Vertex)) :
    ∃ h cg ch, G.subdivide t = .ok h ∧ G.components σ₁ = .ok cg ∧ h.view.components σ₂ = .ok ch ∧
      ch.length = cg.length := by
  obtain ⟨h, S', es, b, hh, A, D⟩ := hG.subdivData t ht
  obtain ⟨cg, e1, l1⟩ := hG.components_length σ₁
  obtain ⟨ch, e2, l2⟩ := A.rep.components_length σ₂
  refine ⟨h, cg, ch, hh, e1, e2, ?_⟩
  rw [l1, l2]
  refine SGraph.card_comps_of_map id (fun u hu => (D.verts u).2 (Or.inl hu)) (fun u hu v hv => ?_) (fun w hw => ?_)
  · constructor
    · rintro ⟨n, h⟩; exact ⟨_, D.walk_up h⟩
    · rintro ⟨n, h⟩
      obtain ⟨d, -, h⟩ := (D.walk_iff hu hv n).1 ⟨n, le_refl _, h⟩
      exact ⟨d, h⟩
  · by_cases hwS : w ∈ S.V
    · exact ⟨w, hwS, .refl w⟩
    · obtain ⟨i, hi, j, hj1, hj2, rfl⟩ := D.fresh_pos hw hwS
      refine ⟨es[i].1, D.old_left hi, j, ?_⟩
      have := D.walk_to hi 0 j (by omega)
      rwa [Subdiv.pos_zero hi, Nat.zero_add] at this

/-- `C98_subdivide` for a path with a loop and an isolated vertex. -/
example := fun σ₁ σ₂ => C98_subdivide loopG_rep 2 (fun v hv => by
  have := loopS_mem.1 hv
  have e : loopS.E.card = 3 := by decide
  rw [e]; omega) σ₁ σ₂

/-- **C98, contract_into.** Contracting vertices of one component into one of them does not change the number of
components. -/
theorem C98_contract {g : EditGraph} (hg : Reachable g) (σ₁ σ₂ σ₃ : Shuffle Vertex) (c : Vertex) (X : List Vertex)
    (τ₁ τ₂ : Shuffle (List Vertex)) {cg : List (HSet Vertex)} (hcg : g.view.components τ₁ = .ok cg)
    {K : HSet Vertex} (hK : K ∈ cg) (hc : c ∈ K) (hX : ∀ x ∈ X, x ∈ K) :
    ∃ h ch, g.contractInto σ₁ σ₂ σ₃ c X = .ok h ∧ h.view.components τ₂ = .ok ch ∧ ch.length = cg.length := by
  obtain ⟨S, A⟩ := hg.abs
  obtain ⟨cg', e1, q1, q2, q3, q4⟩ := C37_components A.rep τ₁
  rw [hcg] at e1
  cases e1
  have hcS : c ∈ S.V := (q3 c).2 ⟨K, hK, hc⟩
  have hXS : ∀ x ∈ X, x ∈ S.V := fun x hx => (q3 x).2 ⟨K, hK, hX x hx⟩
  have hcx : ∀ x ∈ X, Conn S.Adj c x := fun x hx => (q4 K hK c hc x).1 (hX x hx)
  have tr : ∀ u, g.contains u = true ↔ u ∈ S.V := fun u => by rw [A.contains, decide_eq_true_eq]
  have ta : ∀ u v, g.adjacent u v = true ↔ S.Adj u v := fun u v => by rw [A.adjacent, decide_eq_true_eq]
  obtain ⟨h, hh, hr, hV, hA1, hA2, hA3⟩ := C15_contract_into hg σ₁ σ₂ σ₃ c X ((tr c).2 hcS) fun x hx => (tr x).2 (hXS x hx)
  obtain ⟨T, A'⟩ := hr.abs
  have tr' : ∀ u, h.contains u = true ↔ u ∈ T.V := fun u => by rw [A'.contains, decide_eq_true_eq]
  have ta' : ∀ u v, h.adjacent u v = true ↔ T.Adj u v := fun u v => by rw [A'.adjacent, decide_eq_true_eq]
  simp only [tr, ta, tr', ta'] at hV hA1 hA2
  obtain ⟨ch, e2, l2⟩ := A'.rep.components_length τ₂
  refine ⟨h, ch, hh, e2, ?_⟩
  rw [l2, SGraph.length_comps q1 q2 q3 q4]
  -- an edge of the result joins connected vertices
  have back1 : ∀ b, T.Adj c b → Conn S.Adj c b := by
    intro b hb
    by_cases hbc : b = c
    · subst hbc; exact .refl b
    · rcases (hA2 b hbc).1 hb with ⟨-, h | ⟨x, hx, h⟩⟩
      · exact .single h
      · exact (hcx x hx).trans (.single h)
  have back : ∀ a b, T.Adj a b → Conn S.Adj a b := by
    intro a b hab
    by_cases ha : a = c
    · subst ha; exact back1 b hab
    · by_cases hb : b = c
      · subst hb; exact (back1 a hab.symm).symm S.adj_symm
      · exact .single ((hA1 a b ha hb).1 hab).1
  let φ : ℕ → ℕ := fun x => if x ∈ X then c else x
  have hφ : ∀ u ∈ S.V, Conn S.Adj u (φ u) := by
    intro u _
    by_cases hu : u ∈ X
    · simp only [φ, if_pos hu]; exact (hcx u hu).symm S.adj_symm
    · simp only [φ, if_neg hu]; exact .refl u
  have fwd : ∀ a b, S.Adj a b → Conn T.Adj (φ a) (φ b) := by
    intro a b hab
    by_cases e : φ a = φ b
    · rw [e]; exact .refl _
    · have hside : ∀ a b, S.Adj a b → φ a = c → φ b ≠ c → T.Adj (φ a) (φ b) := by
        intro a b hab ha hb
        have hbX : b ∉ X := fun hbX => hb (by simp only [φ, if_pos hbX])
        have hbe : φ b = b := by simp only [φ, if_neg hbX]
        rw [ha, hbe]
        rw [hbe] at hb
        rw [hA2 b hb]
        refine ⟨hbX, ?_⟩
        by_cases haX : a ∈ X
        · exact Or.inr ⟨a, haX, hab⟩
        · have hae : φ a = a := by simp only [φ, if_neg haX]
          rw [hae] at ha
          exact Or.inl (ha ▸ hab)
      by_cases ha : φ a = c
      · exact .single (hside a b hab ha fun hb => e (ha.trans hb.symm))
      · by_cases hb : φ b = c
        · exact .single (hside b a hab.symm hb ha).symm
        · have haX : a ∉ X := fun haX => ha (by simp only [φ, if_pos haX])
          have hbX : b ∉ X := fun hbX => hb (by simp only [φ, if_pos hbX])
          have hae : φ a = a := by simp only [φ, if_neg haX]
          have hbe : φ b = b := by simp only [φ, if_neg hbX]
          rw [hae] at ha ⊢
          rw [hbe] at hb ⊢
          exact .single ((hA1 a b ha hb).2 ⟨hab, haX, hbX⟩)
  refine SGraph.card_comps_of_map φ (fun u hu => ?_) (fun u hu v hv => ?_) (fun w hw => ?_)
  · by_cases huX : u ∈ X
    · simp only [φ, if_pos huX]; exact (hV c).2 ⟨hcS, Or.inr rfl⟩
    · simp only [φ, if_neg huX]; exact (hV u).2 ⟨hu, Or.inl huX⟩
  · constructor
    · rintro ⟨n, h⟩
      clear hu hv
      induction h with
      | nil u => exact .refl _
      | cons h _ ih => exact (fwd _ _ h).trans ih
    · intro h
      refine ((hφ u hu).trans ?_).trans ((hφ v hv).symm S.adj_symm)
      obtain ⟨n, h⟩ := h
      generalize φ u = x at h
      generalize φ v = y at h
      induction h with
      | nil u => exact .refl _
      | cons h _ ih => exact (back _ _ h).trans ih
  · obtain ⟨hwS, hw'⟩ := (hV w).1 hw
    by_cases hwX : w ∈ X
    · have := hw'.resolve_left (fun h => h hwX)
      subst this
      exact ⟨w, hwS, by simp only [φ, if_pos hwX]; exact .refl w⟩
    · exact ⟨w, hwS, by simp only [φ, if_neg hwX]; exact .refl w⟩

/-- **C98, counts.** A graph has at least `num_vertices - num_edges` components, and exactly `num_vertices` if there are no
edges. -/
theorem C98_count {G : Graph} {S : SGraph} (hG : G.Rep S) (σ : Shuffle (List Vertex)) :
    ∃ cs, G.components σ = .ok cs ∧ G.numVertices ≤ G.numEdges + cs.length ∧ cs.length ≤ G.numVertices ∧
      (G.numEdges = 0 → cs.length = G.numVertices) := by
  classical
  obtain ⟨cs, h, hl⟩ := hG.components_length σ
  refine ⟨cs, h, ?_, ?_, fun h0 => ?_⟩
  · rw [hl, hG.nv, hG.ne]; exact S.card_le_comps
  · rw [hl, hG.nv]; exact Finset.card_image_le
  · rw [hl, hG.nv]
    refine SGraph.card_comps_edgeless (Finset.card_eq_zero.1 ?_)
    rw [← hG.ne, h0]

/-- The path 0-1-2: it is reachable, small, and 0, 1 and 2 lie in one component; `exS` can be appended to it. -/
example : ∃ g : EditGraph, Reachable g ∧ (∀ u : ℕ, g.contains u = true → u + 1 < 2 ^ 32) ∧ g.adjacent 0 1 = true ∧
    (∀ u v : ℕ, g.contains u = true → v ∈ exS.V → u + 1 + v < 2 ^ 32) ∧
    ∃ cg, g.view.components .id = .ok cg ∧ ∃ K ∈ cg, 0 ∈ K ∧ ∀ x ∈ [1, 2], x ∈ K := by
  obtain ⟨g, S, A, -, h01, h12, hV, -⟩ := exPath
  obtain ⟨cs, h, -, -, h3, h4⟩ := C37_components A.rep .id
  obtain ⟨K, hK, h0⟩ := (h3 0).1 h01.left
  have tr : ∀ u : ℕ, g.contains u = true → u ≤ 2 := by
    intro u hu
    rw [A.contains, decide_eq_true_eq, hV] at hu
    revert hu
    simp only [Finset.mem_insert, Finset.mem_singleton]
    omega
  have hex : ∀ v ∈ exS.V, v < 100 := by decide
  refine ⟨g, A.reachable, fun u hu => ?_, by rw [A.adjacent, decide_eq_true_eq]; exact h01, fun u v hu hv => ?_, cs, h,
    K, hK, h0, fun x hx => ?_⟩
  · have := tr u hu; omega
  · have := tr u hu
    have := hex v hv
    omega
  · rw [h4 K hK 0 h0]
    simp only [List.mem_cons, List.not_mem_nil, or_false] at hx
    rcases hx with rfl | rfl
    · exact ⟨1, .cons h01 (.nil _)⟩
    · exact ⟨2, .cons h01 (.cons h12 (.nil _))⟩

end Verif
