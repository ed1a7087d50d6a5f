import Verif.Props.Width
import Verif.Props.EditOps
/-!
# C131: removing and contracting

Graphs obtained by `remove_vertex`, `remove_edge` and `contract_pair` on adjacent vertices, i.e. minors.
-/
namespace Verif
open EditGraph

/-- `h` is the outcome of a history of removals and of contractions of edges that starts with `g`. -/
inductive MinorOf (g : EditGraph) : EditGraph → Prop
  | refl : MinorOf g g
  | removeVertex {h : EditGraph} {r : EditGraph × Bool} (u : ℕ) (p : MinorOf g h) (e : h.removeVertex u = .ok r) : MinorOf g r.1
  | removeEdge {h : EditGraph} {r : EditGraph × Bool} (u v : ℕ) (p : MinorOf g h) (e : h.removeEdge u v = .ok r) : MinorOf g r.1
  | contract {h k : EditGraph} (σ : Shuffle ℕ) (u v : ℕ) (p : MinorOf g h) (hne : u ≠ v) (ha : h.adjacent u v = true)
      (e : h.contractPair σ u v = .ok k) : MinorOf g k

namespace SGraph
variable {S T : SGraph}

/-- `T` arises by removals from `S`. -/
def Sub (T S : SGraph) : Prop := T.V ⊆ S.V ∧ ∀ a b, T.Adj a b → S.Adj a b

/-- `T` arises from `S` by contracting the edge between `u` and `v` into `u`. -/
structure Contracts (T S : SGraph) (u v : ℕ) : Prop where
  ne : u ≠ v
  adj : S.Adj u v
  verts : ∀ w, w ∈ T.V ↔ w ∈ S.V ∧ w ≠ v
  edges : ∀ a b, T.Adj a b ↔ a ≠ v ∧ b ≠ v ∧ (S.Adj a b ∨ (a = u ∧ b ≠ u ∧ S.Adj v b) ∨ (b = u ∧ a ≠ u ∧ S.Adj v a))

theorem Sub.treewidth (h : T.Sub S) {k : ℕ} (hw : S.TreewidthLE k) : T.TreewidthLE k := by
  obtain ⟨bag, par, depth, top, D, hk⟩ := hw
  exact ⟨bag, par, depth, top, ⟨fun v hv => D.vertex v (h.1 hv), fun u v he => D.edge u v (h.2 u v he), D.subtree⟩, hk⟩

theorem Sub.treedepth (h : T.Sub S) {t : ℕ} (hw : S.TreedepthLE t) : T.TreedepthLE t := by
  obtain ⟨anc, h1, h2, h3, h4, h5⟩ := hw
  exact ⟨anc, h1, h2, h3, fun u v he => h4 u v (h.2 u v he), fun v hv X hX => h5 v (h.1 hv) X (hX.trans h.1)⟩

theorem Contracts.treewidth {u v : ℕ} (h : T.Contracts S u v) {k : ℕ} (hw : S.TreewidthLE k) : T.TreewidthLE k := by
  classical
  obtain ⟨bag, par, depth, top, D, hk⟩ := hw
  obtain ⟨t₀, hu₀, hv₀⟩ := D.edge u v h.adj
  let φ : ℕ → ℕ := fun x => if x = v then u else x
  have hφ : ∀ x y, x ≠ v → x ≠ u → (φ y = x ↔ y = x) := by
    intro x y hx hx'
    by_cases hy : y = v
    · simp only [φ, if_pos hy]
      exact ⟨fun e => absurd e.symm hx', fun e => absurd (e.symm.trans hy) hx⟩
    · simp only [φ, if_neg hy]
  have hφu : ∀ y, φ y = u ↔ y = u ∨ y = v := by
    intro y
    by_cases hy : y = v
    · rw [show φ y = u from if_pos hy]; exact ⟨fun _ => .inr hy, fun _ => rfl⟩
    · simp only [φ, if_neg hy]; exact ⟨.inl, fun e => e.resolve_right hy⟩
  have hφv : ∀ y, φ y ≠ v := by
    intro y
    by_cases hy : y = v
    · simp only [φ, if_pos hy]; exact h.ne
    · simp only [φ, if_neg hy]; exact hy
  have hmem : ∀ x t, x ≠ v → x ≠ u → (x ∈ (bag t).image φ ↔ x ∈ bag t) := by
    intro x t hx hx'
    rw [Finset.mem_image]
    constructor
    · rintro ⟨y, hy, e⟩; rw [hφ x y hx hx'] at e; rwa [← e]
    · intro hy; exact ⟨x, hy, (hφ x x hx hx').2 rfl⟩
  have hmemu : ∀ t, u ∈ (bag t).image φ ↔ u ∈ bag t ∨ v ∈ bag t := by
    intro t
    rw [Finset.mem_image]
    constructor
    · rintro ⟨y, hy, e⟩
      rcases (hφu y).1 e with rfl | rfl
      · exact .inl hy
      · exact .inr hy
    · rintro (hy | hy)
      · exact ⟨u, hy, (hφu u).2 (.inl rfl)⟩
      · exact ⟨v, hy, (hφu v).2 (.inr rfl)⟩
  have hmemv : ∀ t, v ∉ (bag t).image φ := by
    intro t ht
    obtain ⟨y, -, e⟩ := Finset.mem_image.1 ht
    exact hφv y e
  let tu : ℕ := if depth (top u) ≤ depth (top v) then top u else top v
  have htu : u ∈ S.V := h.adj.left
  have htv : v ∈ S.V := h.adj.right
  refine ⟨fun t => (bag t).image φ, par, depth, fun x => if x = u then tu else top x, ⟨?_, ?_, ?_⟩, fun t =>
    Finset.card_image_le.trans (hk t)⟩
  · intro x hx
    obtain ⟨hxS, hxv⟩ := (h.verts x).1 hx
    by_cases hxu : x = u
    · subst hxu
      simp only [tu, if_true]
      rw [hmemu]
      split
      · exact .inl (D.vertex x htu)
      · exact .inr (D.vertex v htv)
    · simp only [if_neg hxu]
      exact (hmem x _ hxv hxu).2 (D.vertex x hxS)
  · intro a b hab
    have key : ∀ {a b}, S.Adj a b → a ≠ v → b ≠ v → ∃ t, a ∈ (bag t).image φ ∧ b ∈ (bag t).image φ := by
      intro a b hab ha hb
      obtain ⟨t, h1, h2⟩ := D.edge a b hab
      refine ⟨t, Finset.mem_image.2 ⟨a, h1, ?_⟩, Finset.mem_image.2 ⟨b, h2, ?_⟩⟩
      · simp only [φ, if_neg ha]
      · simp only [φ, if_neg hb]
    have key' : ∀ {b}, S.Adj v b → b ≠ v → ∃ t, u ∈ (bag t).image φ ∧ b ∈ (bag t).image φ := by
      intro b hvb hb
      obtain ⟨t, h1, h2⟩ := D.edge v b hvb
      refine ⟨t, (hmemu t).2 (.inr h1), Finset.mem_image.2 ⟨b, h2, ?_⟩⟩
      simp only [φ, if_neg hb]
    obtain ⟨ha, hb, h1 | ⟨rfl, -, h1⟩ | ⟨rfl, -, h1⟩⟩ := (h.edges a b).1 hab
    · exact key h1 ha hb
    · exact key' h1 hb
    · obtain ⟨t, h2, h3⟩ := key' h1 ha
      exact ⟨t, h3, h2⟩
  · intro x t hx ht
    by_cases hxv : x = v
    · subst hxv; exact absurd hx (hmemv t)
    by_cases hxu : x = u
    · subst hxu
      simp only [tu, if_true] at ht
      simp only [hmemu] at hx ⊢
      split at ht
      · next hd =>
        have hux : x ∈ bag (top v) := D.climb hd _ t₀ rfl hu₀ hv₀
        rcases hx with hx | hx
        · obtain ⟨p, q⟩ := D.subtree x t hx ht
          exact ⟨.inl p, q⟩
        · by_cases hv : t = top v
          · subst hv
            obtain ⟨p, q⟩ := D.subtree x _ hux ht
            exact ⟨.inl p, q⟩
          · obtain ⟨p, q⟩ := D.subtree v t hx hv
            exact ⟨.inr p, q⟩
      · next hd =>
        have hux : v ∈ bag (top x) := D.climb (by omega) _ t₀ rfl hv₀ hu₀
        rcases hx with hx | hx
        · by_cases hv : t = top x
          · subst hv
            obtain ⟨p, q⟩ := D.subtree v _ hux ht
            exact ⟨.inr p, q⟩
          · obtain ⟨p, q⟩ := D.subtree x t hx hv
            exact ⟨.inl p, q⟩
        · obtain ⟨p, q⟩ := D.subtree v t hx ht
          exact ⟨.inr p, q⟩
    · simp only [if_neg hxu] at ht
      simp only [hmem x _ hxv hxu] at hx ⊢
      exact D.subtree x t hx ht

theorem Contracts.treedepth {u v : ℕ} (h : T.Contracts S u v) {t : ℕ} (hw : S.TreedepthLE t) : T.TreedepthLE t := by
  classical
  obtain ⟨anc, h1, h2, h3, h4, h5⟩ := hw
  -- the upper one of the two vertices
  obtain ⟨π, hπ, hπu, hπo⟩ : ∃ π : ℕ → ℕ, (∀ x y, π x = π y → x = y) ∧
      ((π u = u ∧ π v = v ∧ anc u v) ∨ (π u = v ∧ π v = u ∧ anc v u)) ∧ ∀ x, x ≠ u → x ≠ v → π x = x := by
    rcases h4 u v h.adj h.ne with ha | ha
    · exact ⟨id, fun _ _ e => e, .inl ⟨rfl, rfl, ha⟩, fun _ _ _ => rfl⟩
    · have hne := h.ne
      refine ⟨Equiv.swap u v, (Equiv.swap u v).injective, .inr ⟨Equiv.swap_apply_left u v, Equiv.swap_apply_right u v, ha⟩,
        fun x hx hx' => Equiv.swap_apply_of_ne_of_ne hx hx'⟩
  have hup : anc (π u) (π v) := by
    rcases hπu with ⟨e1, e2, h⟩ | ⟨e1, e2, h⟩ <;> rw [e1, e2] <;> exact h
  have hVu : π u ∈ S.V := by
    rcases hπu with ⟨e1, -, -⟩ | ⟨e1, -, -⟩ <;> rw [e1]
    · exact h.adj.left
    · exact h.adj.right
  have hT : ∀ x ∈ T.V, π x ∈ S.V := by
    intro x hx
    obtain ⟨hx, hxv⟩ := (h.verts x).1 hx
    by_cases hxu : x = u
    · rw [hxu]; exact hVu
    · rw [hπo x hxu hxv]; exact hx
  refine ⟨fun x y => anc (π x) (π y), fun x => h1 _, fun x y z => h2 _ _ _, fun x y z hx hy => ?_, fun a b hab hne => ?_,
    fun x hx X hX hanc => ?_⟩
  · rcases h3 _ _ _ hx hy with e | e | e
    · exact .inl (hπ _ _ e)
    · exact .inr (.inl e)
    · exact .inr (.inr e)
  · show anc (π a) (π b) ∨ anc (π b) (π a)
    -- an edge at the lower vertex moves to the upper one
    have low : ∀ b, b ≠ u → b ≠ v → S.Adj u b ∨ S.Adj v b → anc (π u) b ∨ anc b (π u) := by
      intro b hbu hbv hb
      have hlow : anc (π v) b ∨ anc b (π v) → anc (π u) b ∨ anc b (π u) := by
        rintro (e | e)
        · exact .inl (h2 _ _ _ hup e)
        · rcases h3 _ _ _ hup e with e' | e' | e'
          · exfalso
            rcases hπu with ⟨e1, -, -⟩ | ⟨e1, -, -⟩
            · exact hbu (e'.symm.trans e1)
            · exact hbv (e'.symm.trans e1)
          · exact .inl e'
          · exact .inr e'
      rcases hπu with ⟨e1, e2, -⟩ | ⟨e1, e2, -⟩ <;> rw [e1, e2] at hlow <;> rw [e1]
      · rcases hb with hb | hb
        · exact h4 u b hb hbu.symm
        · exact hlow (h4 v b hb hbv.symm)
      · rcases hb with hb | hb
        · exact hlow (h4 u b hb hbu.symm)
        · exact h4 v b hb hbv.symm
    obtain ⟨ha, hb, he⟩ := (h.edges a b).1 hab
    by_cases hau : a = u
    · subst hau
      rw [hπo b hne.symm hb]
      refine low b hne.symm hb ?_
      rcases he with he | ⟨-, -, he⟩ | ⟨e, -⟩
      · exact .inl he
      · exact .inr he
      · exact absurd e.symm hne
    · by_cases hbu : b = u
      · subst hbu
        rw [hπo a hne ha]
        refine (low a hne ha ?_).symm
        rcases he with he | ⟨e, -⟩ | ⟨-, -, he⟩
        · exact .inl he.symm
        · exact absurd e hne
        · exact .inr he
      · rw [hπo a hau ha, hπo b hbu hb]
        rcases he with he | ⟨e, -⟩ | ⟨e, -⟩
        · exact h4 a b he hne
        · exact absurd e hau
        · exact absurd e hbu
  · have := h5 (π x) (hT x hx) (X.image π) (fun y hy => by
      obtain ⟨z, hz, rfl⟩ := Finset.mem_image.1 hy
      exact hT z (hX hz)) (fun y hy => by
      obtain ⟨z, hz, rfl⟩ := Finset.mem_image.1 hy
      exact hanc z hz)
    rwa [Finset.card_image_of_injOn fun a _ b _ e => hπ a b e] at this

theorem Contracts.loopless {u v : ℕ} (h : T.Contracts S u v) (hl : S.Loopless) : T.Loopless := by
  intro a ha
  obtain ⟨-, -, h1 | ⟨e, h1, -⟩ | ⟨e, h1, -⟩⟩ := (h.edges a a).1 ha
  · exact hl a h1
  · exact h1 e
  · exact h1 e

end SGraph

/-- Every property of graphs that removals and contractions keep holds for all minors. -/
theorem MinorOf.induct {g h : EditGraph} (m : MinorOf g h) {S : SGraph} (A : Abs g S) (P : SGraph → Prop) (hS : P S)
    (h1 : ∀ S T : SGraph, T.Sub S → P S → P T) (h2 : ∀ (S T : SGraph) u v, T.Contracts S u v → P S → P T) :
    ∃ T, Abs h T ∧ P T := by
  induction m with
  | refl => exact ⟨S, A, hS⟩
  | removeVertex u p e ih =>
    obtain ⟨T, B, hT⟩ := ih
    obtain ⟨r, hr, C, -⟩ := B.removeVertex u
    rw [e] at hr
    cases hr
    refine ⟨_, C, h1 _ _ ⟨fun x hx => Finset.mem_of_mem_erase hx, fun a b hab => ?_⟩ hT⟩
    exact (Finset.mem_filter.1 (show s(a, b) ∈ T.E.filter (fun e => u ∉ e) from hab)).1
  | removeEdge u v p e ih =>
    obtain ⟨T, B, hT⟩ := ih
    obtain ⟨r, hr, C, -⟩ := B.removeEdge u v
    rw [e] at hr
    cases hr
    refine ⟨_, C, h1 T _ ⟨fun x hx => hx, fun a b hab => ?_⟩ hT⟩
    exact Finset.mem_of_mem_erase (show s(a, b) ∈ T.E.erase s(u, v) from hab)
  | contract σ u v p hne ha e ih =>
    obtain ⟨T, B, hT⟩ := ih
    rw [B.adjacent, decide_eq_true_eq] at ha
    obtain ⟨r, hr, U, C, hV, hA⟩ := B.contractPair σ ha.left ha.right
    rw [e] at hr
    cases hr
    exact ⟨U, C, h2 _ _ u v ⟨hne, ha, hV, hA⟩ hT⟩

theorem MinorOf.small {g h : EditGraph} (m : MinorOf g h) {S : SGraph} (A : Abs g S) (hl : S.Loopless) (P : SGraph → Prop)
    (hS : P S) (h1 : ∀ S T : SGraph, T.Sub S → P S → P T) (h2 : ∀ (S T : SGraph) u v, T.Contracts S u v → P S → P T) :
    ∃ T, Abs h T ∧ T.Loopless ∧ T.V.card ≤ S.V.card ∧ P T := by
  refine m.induct A (fun T => T.Loopless ∧ T.V.card ≤ S.V.card ∧ P T) ⟨hl, le_refl _, hS⟩ ?_ ?_
  · rintro U T hs ⟨p1, p2, p3⟩
    exact ⟨fun a ha => p1 a (hs.2 a a ha), (Finset.card_le_card hs.1).trans p2, h1 U T hs p3⟩
  · rintro U T u v hc ⟨p1, p2, p3⟩
    exact ⟨hc.loopless p1, (Finset.card_le_card fun w hw => ((hc.verts w).1 hw).1).trans p2, h2 U T u v hc p3⟩

/-- **C131, strong reachability.** If some ordering of a graph gives only values up to `k` in `sreach_sizes(r)`, `r` being at least
the number of vertices minus one, then every minor has such an ordering too; and the lower bound that `degeneracy` returns for
the minor is at most `k`. -/
theorem C131_sreach {g h : EditGraph} (m : MinorOf g h) (hg : Reachable g) (hl : ∀ u, g.adjacent u u = false)
    (hn : g.numVertices ≤ 2 ^ 31) {ord : List ℕ} (hnd : ord.Nodup) (hord : ∀ u, u ∈ ord ↔ g.contains u = true)
    {o : OrdGraph} (ho : OrdGraph.withOrdering g.view ord = .ok o) {σ τ : ℕ → ℕ → Shuffle ℕ} {r : ℕ} (hr : 1 ≤ r) (hr' : g.numVertices ≤ r + 1) (hk : r + 1 < 2 ^ 32) {s : HMap ℕ ℕ}
    (hs : o.lin.sreachSizes σ τ r = .ok s) {k : ℕ} (hsk : ∀ v c, s.get? v = some c → c ≤ k) :
    (∃ ord' q, OrdGraph.withOrdering h.view ord' = .ok q ∧ ∀ q', OrdGraph.Relayout q q' →
      ∀ (σ τ : ℕ → ℕ → Shuffle ℕ) r s, 1 ≤ r → r < 2 ^ 32 → q'.lin.sreachSizes σ τ r = .ok s →
        ∀ v c, s.get? v = some c → c ≤ k) ∧
    ∀ (ρ : ℕ → Shuffle ℕ) lo up ord core, h.view.degeneracy ρ = .ok (lo, up, ord, core) → lo ≤ k := by
  obtain ⟨S, A⟩ := hg.abs
  have hlS : S.Loopless := fun u hu => by
    have := hl u
    rw [A.adjacent] at this
    exact absurd hu (of_decide_eq_false this)
  obtain ⟨o₁, ho₁, hR⟩ := C43_with_ordering A.rep hlS hnd fun u => by rw [hord, A.contains, decide_eq_true_eq]
  rw [ho] at ho₁
  cases ho₁
  have H := (hR o (.refl o)).lin
  rw [A.numVertices] at hn hr'
  have hw := C127_treewidth_upper H hr hr' hk hs hsk
  obtain ⟨T, B, hlT, hc, hwT⟩ := m.small A hlS (fun T => T.TreewidthLE k) hw (fun _ _ h => h.treewidth)
    fun _ _ _ _ h => h.treewidth
  refine ⟨?_, fun ρ lo up ord core hd => C127_degeneracy_treewidth B.rep hlT (hc.trans hn) hd hwT⟩
  obtain ⟨ord', o, h1, h2⟩ := C127_treewidth_attained B.rep hlT (by omega) hwT
  exact ⟨ord', o, h1, fun o' ho' => (h2 o' ho').2⟩

/-- **C131, weak reachability.** If some ordering of a graph gives only values below `t` in `wreach_sizes(r)`, `r` being at least
the number of vertices minus one, then every minor has such an ordering too. -/
theorem C131_wreach {g h : EditGraph} (m : MinorOf g h) (hg : Reachable g) (hl : ∀ u, g.adjacent u u = false)
    (hn : g.numVertices < 2 ^ 32) {ord : List ℕ} (hnd : ord.Nodup) (hord : ∀ u, u ∈ ord ↔ g.contains u = true)
    {o : OrdGraph} (ho : OrdGraph.withOrdering g.view ord = .ok o) {σ τ : ℕ → ℕ → Shuffle ℕ} {r : ℕ} (hr' : g.numVertices ≤ r + 1) (hk : r + 1 < 2 ^ 32) {s : HMap ℕ ℕ}
    (hs : o.lin.wreachSizes σ τ r = .ok s) {t : ℕ} (hst : ∀ v c, s.get? v = some c → c < t) :
    ∃ ord' q, OrdGraph.withOrdering h.view ord' = .ok q ∧ ∀ q', OrdGraph.Relayout q q' →
      ∀ (σ τ : ℕ → ℕ → Shuffle ℕ) r s, r + 1 < 2 ^ 32 → q'.lin.wreachSizes σ τ r = .ok s →
        ∀ v c, s.get? v = some c → c < t := by
  obtain ⟨S, A⟩ := hg.abs
  have hlS : S.Loopless := fun u hu => by
    have := hl u
    rw [A.adjacent] at this
    exact absurd hu (of_decide_eq_false this)
  obtain ⟨o₁, ho₁, hR⟩ := C43_with_ordering A.rep hlS hnd fun u => by rw [hord, A.contains, decide_eq_true_eq]
  rw [ho] at ho₁
  cases ho₁
  have H := (hR o (.refl o)).lin
  rw [A.numVertices] at hn hr'
  have hw := C128_treedepth_upper H hr' hk hs hst
  obtain ⟨T, B, hlT, hc, hwT⟩ := m.small A hlS (fun T => T.TreedepthLE t) hw (fun _ _ h => h.treedepth)
    fun _ _ _ _ h => h.treedepth
  obtain ⟨ord', o, h1, h2⟩ := C128_treedepth_attained B.rep hlT (by omega) hwT
  exact ⟨ord', o, h1, fun o' ho' => (h2 o' ho').2⟩

/-- **C131, distances.** Contracting an edge does not push vertices apart, and brings them closer by at most the factor 2 and one
step: for the ball of radius `r` around `x`, the vertex `v` being read as `u` in the contracted graph. -/
theorem C131_balls {g : EditGraph} (hg : Reachable g) {u v : ℕ} (hne : u ≠ v) (ha : g.adjacent u v = true) (σ : Shuffle ℕ)
    (τ τ' : ℕ → Shuffle ℕ) {x : ℕ} (hx : g.contains x = true) (r : ℕ) :
    ∃ h b b' c, g.contractPair σ u v = .ok h ∧ g.view.rNeighbours τ x r = .ok b ∧
      h.view.rNeighbours τ' (if x = v then u else x) r = .ok b' ∧ g.view.rNeighbours τ x (2 * r + 1) = .ok c ∧
      (∀ w, w ∈ b → (if w = v then u else w) ∈ b') ∧ ∀ w, g.contains w = true → (if w = v then u else w) ∈ b' → w ∈ c := by
  obtain ⟨S, A⟩ := hg.abs
  rw [A.adjacent, decide_eq_true_eq] at ha
  rw [A.contains, decide_eq_true_eq] at hx
  obtain ⟨h, hh, T, B, hV, hA⟩ := A.contractPair σ ha.left ha.right
  have C : T.Contracts S u v := ⟨hne, ha, hV, hA⟩
  have hφV : ∀ w ∈ S.V, (if w = v then u else w) ∈ T.V := by
    intro w hw
    rw [hV]
    split
    · exact ⟨ha.left, hne⟩
    · next h => exact ⟨hw, h⟩
  obtain ⟨b, hb, hb'⟩ := (C17_ball A.rep τ [] (by simp) r).2 x hx
  obtain ⟨c, hc, hc'⟩ := (C17_ball A.rep τ [] (by simp) (2 * r + 1)).2 x hx
  obtain ⟨b', hd, hd'⟩ := (C17_ball B.rep τ' [] (by simp) r).2 _ (hφV x hx)
  refine ⟨h, b, b', c, hh, hb, hd, hc, fun w hw => ?_, fun w hw hwb => ?_⟩
  · obtain ⟨d, hdr, hwalk⟩ := (hb' w).1 hw
    clear hw hx hb hb' hc hc' hd
    have : ∃ d' ≤ d, Walk T.Adj d' (if x = v then u else x) (if w = v then u else w) := by
      clear hd' hdr
      induction hwalk with
      | nil y => exact ⟨0, le_refl _, .nil _⟩
      | @cons n y z w hyz _ ih =>
        obtain ⟨d', hd', ht⟩ := ih
        by_cases hsame : (if y = v then u else y) = (if z = v then u else z)
        · exact ⟨d', by omega, hsame ▸ ht⟩
        · refine ⟨d' + 1, by omega, .cons ?_ ht⟩
          rw [hA]
          by_cases hy : y = v
          · subst hy
            have hz : z ≠ y := fun e => hsame (by rw [e])
            rw [if_pos rfl, if_neg hz] at hsame ⊢
            exact ⟨hne, hz, .inr (.inl ⟨rfl, fun e => hsame e.symm, hyz⟩)⟩
          · rw [if_neg hy] at hsame ⊢
            by_cases hz : z = v
            · subst hz
              rw [if_pos rfl] at hsame ⊢
              exact ⟨hy, hne, .inr (.inr ⟨rfl, hsame, hyz.symm⟩)⟩
            · rw [if_neg hz] at hsame ⊢
              exact ⟨hy, hz, .inl hyz⟩
    obtain ⟨d', h1, h2⟩ := this
    exact (hd' _).2 ⟨d', by omega, h2⟩
  · obtain ⟨d, hdr, hwalk⟩ := (hd' _).1 hwb
    -- walks in the contracted graph, lifted
    have lift : ∀ {n y z}, Walk T.Adj n y z → y ≠ v → (y = u → ∃ d ≤ 2 * n, Walk S.Adj d u z ∨ Walk S.Adj d v z) ∧
        (y ≠ u → ∃ d ≤ 2 * n, Walk S.Adj d y z) := by
      intro n y z hw
      induction hw with
      | nil y => exact fun _ => ⟨fun e => ⟨0, by omega, .inl (e ▸ .nil _)⟩, fun _ => ⟨0, by omega, .nil _⟩⟩
      | @cons n y z w hyz _ ih =>
        intro hyv
        obtain ⟨-, hzv, he⟩ := (hA y z).1 hyz
        obtain ⟨i1, i2⟩ := ih hzv
        -- from either end of the edge one more step reaches both
        have both : z = u → ∀ q, (q = u ∨ q = v) → ∃ d ≤ 2 * n + 1, Walk S.Adj d q w := by
          rintro rfl q hq
          obtain ⟨d, hd, h | h⟩ := i1 rfl
          · rcases hq with rfl | rfl
            · exact ⟨d, by omega, h⟩
            · exact ⟨d + 1, by omega, .cons ha.symm h⟩
          · rcases hq with rfl | rfl
            · exact ⟨d + 1, by omega, .cons ha h⟩
            · exact ⟨d, by omega, h⟩
        constructor
        · rintro rfl
          by_cases hzu : z = y
          · obtain ⟨d, hd, h⟩ := both hzu y (.inl rfl)
            exact ⟨d, by omega, .inl h⟩
          · obtain ⟨d, hd, h⟩ := i2 hzu
            rcases he with he | ⟨-, -, he⟩ | ⟨e, -⟩
            · exact ⟨d + 1, by omega, .inl (.cons he h)⟩
            · exact ⟨d + 1, by omega, .inr (.cons he h)⟩
            · exact absurd e hzu
        · intro hyu
          by_cases hzu : z = u
          · rcases he with he | ⟨e, -⟩ | ⟨-, -, he⟩
            · obtain ⟨d, hd, h⟩ := both hzu u (.inl rfl)
              exact ⟨d + 1, by omega, .cons (hzu ▸ he) h⟩
            · exact absurd e hyu
            · obtain ⟨d, hd, h⟩ := both hzu v (.inr rfl)
              exact ⟨d + 1, by omega, .cons he.symm h⟩
          · obtain ⟨d, hd, h⟩ := i2 hzu
            rcases he with he | ⟨e, -⟩ | ⟨e, -⟩
            · exact ⟨d + 1, by omega, .cons he h⟩
            · exact absurd e hyu
            · exact absurd e hzu
    refine (hc' w).2 ?_
    by_cases hxv : x = v
    · rw [if_pos hxv] at hwalk
      by_cases hwv : w = v
      · exact ⟨0, by omega, by rw [hxv, hwv]; exact .nil _⟩
      · rw [if_neg hwv] at hwalk
        obtain ⟨e, he, h | h⟩ := (lift hwalk hne).1 rfl
        · exact ⟨e + 1, by omega, hxv ▸ .cons ha.symm h⟩
        · exact ⟨e, by omega, hxv ▸ h⟩
    · rw [if_neg hxv] at hwalk
      by_cases hwv : w = v
      · rw [if_pos hwv] at hwalk
        subst hwv
        by_cases hxu : x = u
        · exact ⟨1, by omega, by rw [hxu]; exact .cons ha (.nil _)⟩
        · obtain ⟨e, he, h⟩ := (lift hwalk hxv).2 hxu
          exact ⟨e + 1, by omega, h.append (.cons ha (.nil _))⟩
      · rw [if_neg hwv] at hwalk
        by_cases hxu : x = u
        · obtain ⟨e, he, h | h⟩ := (lift hwalk hxv).1 hxu
          · exact ⟨e, by omega, hxu ▸ h⟩
          · exact ⟨e + 1, by omega, by rw [hxu]; exact .cons ha h⟩
        · obtain ⟨e, he, h⟩ := (lift hwalk hxv).2 hxu
          exact ⟨e, by omega, h⟩

/-- Hypotheses are met: the path `2 - 0 - 1 - 3` with the ordering `0, 1, 2, 3`, and the path obtained by contracting its middle
edge. -/
example : ∃ (g h : EditGraph) (o : OrdGraph), Reachable g ∧ (∀ u, g.adjacent u u = false) ∧ g.numVertices = 3 + 1 ∧
    MinorOf g h ∧ h.numVertices = 3 ∧ (∀ u, u ∈ [0, 1, 2, 3] ↔ g.contains u = true) ∧
    OrdGraph.withOrdering g.view [0, 1, 2, 3] = .ok o ∧ g.adjacent 0 1 = true := by
  obtain ⟨⟨g, k⟩, hg, A, -⟩ := EditGraph.abs_new.addEdges widthPath
  have hl : (SGraph.empty.addEdges widthPath).Loopless := by
    intro u hu
    have : ∀ u ∈ (SGraph.empty.addEdges widthPath).V, ¬ (SGraph.empty.addEdges widthPath).Adj u u := by decide
    exact this u hu.left hu
  have hV : (SGraph.empty.addEdges widthPath).V = {0, 1, 2, 3} := by decide
  obtain ⟨o, ho, -⟩ := C43_with_ordering A.rep hl (ord := [0, 1, 2, 3]) (by decide) (by rw [hV]; simp)
  obtain ⟨h, hh, T, B, hT, -⟩ := A.contractPair .id (u := 0) (v := 1) (by decide) (by decide)
  have ha : g.adjacent 0 1 = true := by rw [A.adjacent]; decide
  refine ⟨g, h, o, A.reachable, fun u => ?_, by rw [A.numVertices]; decide, .contract .id 0 1 .refl (by decide) ha hh, ?_,
    fun u => ?_, ho, ha⟩
  · rw [A.adjacent]; exact decide_eq_false (hl u)
  · have : T.V = {0, 2, 3} := by
      ext u
      rw [hT, hV]
      simp only [Finset.mem_insert, Finset.mem_singleton]
      omega
    rw [B.numVertices, this]
    decide
  · rw [A.contains, decide_eq_true_eq, hV]; simp

end Verif
