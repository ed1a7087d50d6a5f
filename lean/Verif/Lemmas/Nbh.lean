import Verif.Lemmas.Is
/-! # Neighbourhoods, induced subgraphs, contractions -/
namespace Verif
variable {G : Graph} {S : SGraph}

namespace Graph.Sees

theorem neighbourhood (H : G.Sees S) (σ : Shuffle Vertex) {X : List Vertex} (hX : ∀ x ∈ X, x ∈ S.V) :
    Ok (G.neighbourhood σ X) (fun s => ∀ v, v ∈ s ↔ v ∉ X ∧ ∃ x ∈ X, S.Adj x v) := by
  unfold Graph.neighbourhood
  refine Ok.bind (Ok.foldlM (fun pre (s : HSet Vertex) => ∀ v, v ∈ s ↔ ∃ x ∈ pre, S.Adj x v) ?_ ?_) ?_
  · simp
  · intro pre x post s hl hs
    have hx : x ∈ S.V := hX x (by
      have : x ∈ σ.run (HSet.ofList X).toList := by rw [hl]; simp
      simpa using this)
    obtain ⟨N, hN, hm⟩ := H.nbrs x hx
    simp only [hN, bind_ok]
    refine Ok.pure fun v => ?_
    rw [HSet.mem_extend, hs, hm]
    simp only [List.mem_append, List.mem_singleton]
    constructor
    · rintro (⟨y, hy, h⟩ | h)
      · exact ⟨y, Or.inl hy, h⟩
      · exact ⟨x, Or.inr rfl, h⟩
    · rintro ⟨y, hy | rfl, h⟩
      · exact Or.inl ⟨y, hy, h⟩
      · exact Or.inr h
  · intro s hs
    refine Ok.pure fun v => ?_
    rw [HSet.mem_retain, hs]
    simp only [Shuffle.mem, HSet.mem_toList, HSet.mem_ofList, HSet.contains_eq, Bool.not_eq_true',
      decide_eq_false_iff_not]
    exact and_comm

theorem closedNeighbourhood (H : G.Sees S) {X : List Vertex} (hX : ∀ x ∈ X, x ∈ S.V) :
    Ok (G.closedNeighbourhood X) (fun s => ∀ v, v ∈ s ↔ v ∈ X ∨ ∃ x ∈ X, S.Adj x v) := by
  unfold Graph.closedNeighbourhood
  refine Ok.foldlM (fun pre (s : HSet Vertex) => ∀ v, v ∈ s ↔ v ∈ pre ∨ ∃ x ∈ pre, S.Adj x v) ?_ ?_
  · simp
  · intro pre x post s hl hs
    obtain ⟨N, hN, hm⟩ := H.nbrs x (hX x (by rw [hl]; simp))
    simp only [hN, bind_ok]
    refine Ok.pure fun v => ?_
    rw [HSet.mem_insert, HSet.mem_extend, hs, hm]
    simp only [List.mem_append, List.mem_singleton]
    constructor
    · rintro (h | (h | ⟨y, hy, h⟩) | h)
      · exact Or.inl (Or.inr h)
      · exact Or.inl (Or.inl h)
      · exact Or.inr ⟨y, Or.inl hy, h⟩
      · exact Or.inr ⟨x, Or.inr rfl, h⟩
    · rintro ((h | h) | ⟨y, hy | rfl, h⟩)
      · exact Or.inr (Or.inl (Or.inl h))
      · exact Or.inl h
      · exact Or.inr (Or.inl (Or.inr ⟨y, hy, h⟩))
      · exact Or.inr (Or.inr h)

theorem rNeighbourhoodLoop (H : G.Sees S) (σ : ℕ → Shuffle Vertex) {X : List Vertex}
    (hX : ∀ x ∈ X, x ∈ S.V) (r k : ℕ) {res : HSet Vertex}
    (hres : ∀ v, v ∈ res ↔ ∃ x ∈ X, ∃ d ≤ k, Walk S.Adj d x v) :
    Ok (G.rNeighbourhoodLoop σ r res) (fun s => ∀ v, v ∈ s ↔ ∃ x ∈ X, ∃ d ≤ k + r, Walk S.Adj d x v) := by
  induction r generalizing res k with
  | zero => exact Ok.pure hres
  | succ r ih =>
    unfold Graph.rNeighbourhoodLoop
    have hV : ∀ x ∈ (σ r).run res.toList, x ∈ S.V := by
      intro v hv
      rw [Shuffle.mem, HSet.mem_toList, hres] at hv
      obtain ⟨x, hx, d, -, hw⟩ := hv
      cases d with
      | zero => rw [Walk.zero_iff] at hw; subst hw; exact hX x hx
      | succ d =>
        obtain ⟨y, -, h⟩ := Walk.succ_iff_snoc.1 hw
        exact h.right
    refine Ok.bind (H.closedNeighbourhood hV) fun ext hext => ?_
    have : k + (r + 1) = (k + 1) + r := by omega
    rw [this]
    refine ih (k + 1) fun v => ?_
    rw [HSet.mem_extend, HSet.mem_toList, hext]
    simp only [Shuffle.mem, HSet.mem_toList, hres]
    constructor
    · rintro (⟨x, hx, d, hd, hw⟩ | ⟨x, hx, d, hd, hw⟩ | ⟨y, ⟨x, hx, d, hd, hw⟩, hy⟩)
      · exact ⟨x, hx, d, by omega, hw⟩
      · exact ⟨x, hx, d, by omega, hw⟩
      · exact ⟨x, hx, d + 1, by omega, hw.snoc hy⟩
    · rintro ⟨x, hx, d, hd, hw⟩
      by_cases hdk : d ≤ k
      · exact Or.inl ⟨x, hx, d, hdk, hw⟩
      · have : d = k + 1 := by omega
        subst this
        obtain ⟨y, hw', hy⟩ := Walk.succ_iff_snoc.1 hw
        exact Or.inr (Or.inr ⟨y, ⟨x, hx, k, le_refl _, hw'⟩, hy⟩)

theorem rNeighbourhood (H : G.Sees S) (σ : ℕ → Shuffle Vertex) {X : List Vertex}
    (hX : ∀ x ∈ X, x ∈ S.V) (r : ℕ) :
    Ok (G.rNeighbourhood σ X r) (fun s => ∀ v, v ∈ s ↔ ∃ x ∈ X, ∃ d ≤ r, Walk S.Adj d x v) := by
  unfold Graph.rNeighbourhood
  have := H.rNeighbourhoodLoop σ hX r 0 (res := HSet.ofList X) (fun v => by
    rw [HSet.mem_ofList]
    constructor
    · intro hv; exact ⟨v, hv, 0, le_refl _, .nil _⟩
    · rintro ⟨x, hx, d, hd, hw⟩
      obtain rfl : d = 0 := by omega
      rw [Walk.zero_iff] at hw; subst hw; exact hx)
  simpa using this

theorem subgraph (H : G.Sees S) (σ : Shuffle Vertex) (τ : Vertex → Shuffle Vertex) {X : List Vertex}
    (hX : ∀ x ∈ X, x ∈ S.V) :
    Ok (G.subgraph σ τ X) (fun h => EditGraph.Is h (· ∈ X) (fun a b => a ∈ X ∧ b ∈ X ∧ S.Adj a b)) := by
  unfold Graph.subgraph
  refine Ok.mono (EditGraph.Is.new.fold
    (fun v w => w = v ∨ (w ∈ X ∧ S.Adj v w))
    (fun v a b => (a = v ∧ b ∈ X ∧ S.Adj v b) ∨ (b = v ∧ a ∈ X ∧ S.Adj v a)) ?_) fun h hh => hh.congr ?_ ?_
  · intro v hv g P R hg
    obtain ⟨N, hN, hm⟩ := H.nbrs v (hX v (by simpa using hv))
    simp only [hN, bind_ok]
    refine Ok.mono ((hg.addVertex v).foldAdd _ (fun u => u) (fun _ => v)) fun h hh => hh.congr ?_ ?_
    · intro w
      simp only [Shuffle.mem, List.mem_filter, HSet.mem_toList, HSet.mem_ofList, HSet.contains_iff, hm]
      constructor
      · rintro ((h | h) | ⟨x, hx, h | h⟩)
        · exact Or.inl h
        · exact Or.inr (Or.inl h)
        · subst h; exact Or.inr (Or.inr ⟨hx.2, hx.1⟩)
        · exact Or.inr (Or.inl h)
      · rintro (h | h | h)
        · exact Or.inl (Or.inl h)
        · exact Or.inl (Or.inr h)
        · exact Or.inr ⟨w, ⟨h.2, h.1⟩, Or.inl rfl⟩
    · intro a b
      simp only [Shuffle.mem, List.mem_filter, HSet.mem_toList, HSet.mem_ofList, HSet.contains_iff, hm]
      constructor
      · rintro (h | ⟨x, hx, ⟨rfl, rfl⟩ | ⟨rfl, rfl⟩⟩)
        · exact Or.inl h
        · exact Or.inr (Or.inr ⟨rfl, hx.2, hx.1⟩)
        · exact Or.inr (Or.inl ⟨rfl, hx.2, hx.1⟩)
      · rintro (h | ⟨rfl, h⟩ | ⟨rfl, h⟩)
        · exact Or.inl h
        · exact Or.inr ⟨b, ⟨h.2, h.1⟩, Or.inr ⟨rfl, rfl⟩⟩
        · exact Or.inr ⟨a, ⟨h.2, h.1⟩, Or.inl ⟨rfl, rfl⟩⟩
  · intro u
    simp only [Shuffle.mem, HSet.mem_toList, HSet.mem_ofList, false_or]
    constructor
    · rintro ⟨x, hx, rfl | h⟩
      · exact hx
      · exact h.1
    · intro hu; exact ⟨u, hu, Or.inl rfl⟩
  · intro a b
    simp only [Shuffle.mem, HSet.mem_toList, HSet.mem_ofList, false_or]
    constructor
    · rintro ⟨x, hx, ⟨rfl, h⟩ | ⟨rfl, h⟩⟩
      · exact ⟨hx, h⟩
      · exact ⟨h.1, hx, h.2.symm⟩
    · rintro ⟨h1, h2, h3⟩; exact ⟨a, h1, Or.inl ⟨rfl, h2, h3⟩⟩

end Graph.Sees

namespace Graph.Rep

theorem neighbourhood (H : G.Rep S) (σ : Shuffle Vertex) {X : List Vertex} (hX : ∀ x ∈ X, x ∈ S.V) :
    Ok (G.neighbourhood σ X) (fun s => ∀ v, v ∈ s ↔ v ∉ X ∧ ∃ x ∈ X, S.Adj x v) := H.sees.neighbourhood σ hX

theorem closedNeighbourhood (H : G.Rep S) {X : List Vertex} (hX : ∀ x ∈ X, x ∈ S.V) :
    Ok (G.closedNeighbourhood X) (fun s => ∀ v, v ∈ s ↔ v ∈ X ∨ ∃ x ∈ X, S.Adj x v) := H.sees.closedNeighbourhood hX

theorem rNeighbourhood (H : G.Rep S) (σ : ℕ → Shuffle Vertex) {X : List Vertex}
    (hX : ∀ x ∈ X, x ∈ S.V) (r : ℕ) :
    Ok (G.rNeighbourhood σ X r) (fun s => ∀ v, v ∈ s ↔ ∃ x ∈ X, ∃ d ≤ r, Walk S.Adj d x v) := H.sees.rNeighbourhood σ hX r

theorem subgraph (H : G.Rep S) (σ : Shuffle Vertex) (τ : Vertex → Shuffle Vertex) {X : List Vertex}
    (hX : ∀ x ∈ X, x ∈ S.V) :
    Ok (G.subgraph σ τ X) (fun h => EditGraph.Is h (· ∈ X) (fun a b => a ∈ X ∧ b ∈ X ∧ S.Adj a b)) :=
  H.sees.subgraph σ τ hX

end Graph.Rep

namespace EditGraph
variable {g : EditGraph}

theorem Abs.contractPair (H : Abs g S) (σ : Shuffle Vertex) {u v : Vertex} (hu : u ∈ S.V) (hv : v ∈ S.V) :
    Ok (g.contractPair σ u v) (fun h => Is h (fun w => w ∈ S.V ∧ w ≠ v)
      (fun a b => a ≠ v ∧ b ≠ v ∧ (S.Adj a b ∨ (a = u ∧ b ≠ u ∧ S.Adj v b) ∨ (b = u ∧ a ≠ u ∧ S.Adj v a)))) := by
  unfold EditGraph.contractPair
  have hb : (!g.contains u || !g.contains v) = false := by simp [H.contains, hu, hv]
  obtain ⟨N, hN, -, hm⟩ := H.neighbours hv
  simp only [hb, Bool.false_eq_true, if_false, hN, bind_ok, pure_eq_ok]
  refine Ok.bind ((Is.of_abs H).foldAdd _ (fun _ => u) (fun x => x)) fun h hh => ?_
  refine Ok.bind (hh.removeVertex v) fun r hr => Ok.pure (hr.congr ?_ ?_)
  · intro w
    simp only [Shuffle.mem, HSet.mem_toList, HSet.mem_remove, HSet.mem_ofList, hm]
    refine and_congr_left fun hw => ?_
    constructor
    · rintro (h | ⟨x, hx, h | h⟩)
      · exact h
      · rw [h]; exact hu
      · rw [h]; exact hx.1.right
    · exact Or.inl
  · intro a b
    simp only [Shuffle.mem, HSet.mem_toList, HSet.mem_remove, HSet.mem_ofList, hm]
    constructor
    · rintro ⟨h | ⟨x, hx, ⟨rfl, rfl⟩ | ⟨rfl, rfl⟩⟩, h1, h2⟩
      · exact ⟨h1, h2, Or.inl h⟩
      · exact ⟨h1, h2, Or.inr (Or.inl ⟨rfl, hx.2, hx.1⟩)⟩
      · exact ⟨h1, h2, Or.inr (Or.inr ⟨rfl, hx.2, hx.1⟩)⟩
    · rintro ⟨h1, h2, h | ⟨rfl, h3, h4⟩ | ⟨rfl, h3, h4⟩⟩
      · exact ⟨Or.inl h, h1, h2⟩
      · exact ⟨Or.inr ⟨b, ⟨h4, h3⟩, Or.inl ⟨rfl, rfl⟩⟩, h1, h2⟩
      · exact ⟨Or.inr ⟨a, ⟨h4, h3⟩, Or.inr ⟨rfl, rfl⟩⟩, h1, h2⟩

theorem contractPair_panic {σ : Shuffle Vertex} {u v : Vertex}
    (h : g.contains u = false ∨ g.contains v = false) : g.contractPair σ u v = .error .panic := by
  unfold EditGraph.contractPair
  have h1 : (!g.contains u || !g.contains v) = true := by
    rcases h with h | h <;> simp [h]
  simp only [h1, if_true]
  rfl

theorem Is.removeAll {P : ℕ → Prop} {R : ℕ → ℕ → Prop} (H : Is g P R) (l : List Vertex) :
    Ok (l.foldlM (fun (g : EditGraph) v => do return (← g.removeVertex v).1) g) (fun h =>
      Is h (fun w => P w ∧ w ∉ l) (fun a b => R a b ∧ a ∉ l ∧ b ∉ l)) := by
  refine Ok.foldlM (fun pre h => Is h (fun w => P w ∧ w ∉ pre) (fun a b => R a b ∧ a ∉ pre ∧ b ∉ pre)) ?_ ?_
  · exact H.congr (by simp) (by simp)
  · intro pre x post h hl hh
    refine Ok.bind (hh.removeVertex x) fun r hr => Ok.pure (hr.congr ?_ ?_)
    · intro w; simp only [List.mem_append, List.mem_singleton]; tauto
    · intro a b; simp only [List.mem_append, List.mem_singleton]; tauto

theorem Abs.contractInto (H : Abs g S) (σ₁ σ₂ σ₃ : Shuffle Vertex) {c : Vertex} {X : List Vertex}
    (hc : c ∈ S.V) (hX : ∀ x ∈ X, x ∈ S.V) :
    Ok (g.contractInto σ₁ σ₂ σ₃ c X) (fun h => Is h (fun w => w ∈ S.V ∧ (w ∉ X ∨ w = c))
      (fun a b => (a ∉ X ∨ a = c) ∧ (b ∉ X ∨ b = c) ∧
        (S.Adj a b ∨ (a = c ∧ b ≠ c ∧ ∃ x ∈ X, S.Adj x b) ∨ (b = c ∧ a ≠ c ∧ ∃ x ∈ X, S.Adj x a)))) := by
  unfold EditGraph.contractInto
  refine Ok.bind (H.rep.neighbourhood σ₁ (X := ((HSet.ofList X).remove c).toList)
    (fun x hx => hX x (by simp at hx; exact hx.1))) fun N hN => ?_
  have hNm : ∀ v, v ∈ N.remove c ↔ (v ∉ X ∧ v ≠ c) ∧ ∃ x ∈ X, x ≠ c ∧ S.Adj x v := by
    intro v
    rw [HSet.mem_remove, hN]
    simp only [HSet.mem_toList, HSet.mem_remove, HSet.mem_ofList, not_and, not_not]
    constructor
    · rintro ⟨⟨h1, x, hx, h2⟩, h3⟩
      exact ⟨⟨fun h => h3 (h1 h), h3⟩, x, hx.1, hx.2, h2⟩
    · rintro ⟨⟨h1, h2⟩, x, hx, h3, h4⟩
      exact ⟨⟨fun h => absurd h h1, x, ⟨hx, h3⟩, h4⟩, h2⟩
  refine Ok.bind ((Is.of_abs H).foldAdd _ (fun _ => c) (fun x => x)) fun h hh => ?_
  refine Ok.mono (hh.removeAll _) fun r hr => hr.congr ?_ ?_
  · intro w
    simp only [Shuffle.mem, HSet.mem_toList, hNm, HSet.mem_remove, HSet.mem_ofList]
    constructor
    · rintro ⟨h | ⟨x, hx, h | h⟩, h2⟩
      · exact ⟨h, by tauto⟩
      · subst h; exact ⟨hc, Or.inr rfl⟩
      · subst h
        obtain ⟨y, hy, -, ha⟩ := hx.2
        exact ⟨ha.right, by tauto⟩
    · rintro ⟨h1, h2⟩; exact ⟨Or.inl h1, by tauto⟩
  · intro a b
    simp only [Shuffle.mem, HSet.mem_toList, hNm, HSet.mem_remove, HSet.mem_ofList]
    constructor
    · rintro ⟨h | ⟨x, ⟨⟨hx1, hx2⟩, y, hy, hyc, ha⟩, ⟨rfl, rfl⟩ | ⟨rfl, rfl⟩⟩, h1, h2⟩
      · exact ⟨by tauto, by tauto, Or.inl h⟩
      · exact ⟨by tauto, by tauto, Or.inr (Or.inl ⟨rfl, hx2, y, hy, ha⟩)⟩
      · exact ⟨by tauto, by tauto, Or.inr (Or.inr ⟨rfl, hx2, y, hy, ha⟩)⟩
    · rintro ⟨h1, h2, h | ⟨rfl, h3, x, hx, h4⟩ | ⟨rfl, h3, x, hx, h4⟩⟩
      · exact ⟨Or.inl h, by tauto, by tauto⟩
      · refine ⟨?_, by tauto, by tauto⟩
        by_cases hxa : x = a
        · subst hxa; exact Or.inl h4
        · exact Or.inr ⟨b, ⟨⟨by tauto, h3⟩, x, hx, hxa, h4⟩, Or.inl ⟨rfl, rfl⟩⟩
      · refine ⟨?_, by tauto, by tauto⟩
        by_cases hxa : x = b
        · subst hxa; exact Or.inl h4.symm
        · exact Or.inr ⟨a, ⟨⟨by tauto, h3⟩, x, hx, hxa, h4⟩, Or.inr ⟨rfl, rfl⟩⟩

end EditGraph
end Verif
