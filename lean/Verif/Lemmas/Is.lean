import Verif.Lemmas.Build
/-! # Building graphs described by predicates -/
namespace Verif.EditGraph

/-- `h` stores the graph with vertex predicate `P` and adjacency relation `R`. -/
def Is (h : EditGraph) (P : ℕ → Prop) (R : ℕ → ℕ → Prop) : Prop :=
  ∃ S, Abs h S ∧ (∀ u, u ∈ S.V ↔ P u) ∧ (∀ a b, S.Adj a b ↔ R a b)

namespace Is
variable {h : EditGraph} {P P' : ℕ → Prop} {R R' : ℕ → ℕ → Prop}

theorem congr (H : Is h P R) (hP : ∀ u, P u ↔ P' u) (hR : ∀ a b, R a b ↔ R' a b) : Is h P' R' := by
  obtain ⟨S, h1, h2, h3⟩ := H
  exact ⟨S, h1, fun u => (h2 u).trans (hP u), fun a b => (h3 a b).trans (hR a b)⟩

theorem of_abs {S : SGraph} (H : Abs h S) : Is h (· ∈ S.V) S.Adj := ⟨S, H, fun _ => Iff.rfl, fun _ _ => Iff.rfl⟩

theorem abs_of {S : SGraph} (H : Is h P R) (hP : ∀ u, P u ↔ u ∈ S.V) (hR : ∀ a b, R a b ↔ S.Adj a b) :
    Abs h S := by
  obtain ⟨T, h1, h2, h3⟩ := H
  have : T = S := SGraph.ext_adj (by ext u; rw [h2, hP]) fun a b => by rw [h3, hR]
  rw [← this]; exact h1

theorem contains (H : Is h P R) (u : Vertex) : h.contains u = true ↔ P u := by
  obtain ⟨S, h1, h2, h3⟩ := H
  rw [h1.contains, decide_eq_true_eq, h2]

theorem adjacent (H : Is h P R) (u v : Vertex) : h.adjacent u v = true ↔ R u v := by
  obtain ⟨S, h1, h2, h3⟩ := H
  rw [h1.adjacent, decide_eq_true_eq, h3]

theorem reachable (H : Is h P R) : Reachable h := by
  obtain ⟨S, h1, -⟩ := H; exact h1.reachable

theorem new : Is new (fun _ => False) (fun _ _ => False) := ⟨_, abs_new, by simp, by simp⟩

theorem addVertex (H : Is h P R) (u : Vertex) : Is (h.addVertex u).1 (fun w => P w ∨ w = u) R := by
  obtain ⟨S, h1, h2, h3⟩ := H
  refine ⟨_, (h1.addVertex u).1, fun w => ?_, fun a b => ?_⟩
  · rw [SGraph.addVertex_V, Finset.mem_insert, h2, or_comm]
  · rw [SGraph.addVertex_adj, h3]

theorem addVertices (H : Is h P R) (l : List Vertex) :
    Is (h.addVertices l).1 (fun w => P w ∨ w ∈ l) R := by
  obtain ⟨S, h1, h2, h3⟩ := H
  refine ⟨_, (h1.addVertices l).1, fun w => ?_, fun a b => ?_⟩
  · show w ∈ S.V ∪ _ ↔ _
    rw [Finset.mem_union, h2, List.mem_toFinset]
  · exact h3 a b

theorem addEdge (H : Is h P R) (u v : Vertex) : Ok (h.addEdge u v) (fun r =>
    Is r.1 (fun w => P w ∨ w = u ∨ w = v) (fun a b => R a b ∨ (a = u ∧ b = v) ∨ (a = v ∧ b = u))) := by
  obtain ⟨S, h1, h2, h3⟩ := H
  refine Ok.mono (h1.addEdge u v) fun r hr => ⟨_, hr.1, fun w => ?_, fun a b => ?_⟩
  · rw [SGraph.addEdge_V, Finset.mem_insert, Finset.mem_insert, h2]; tauto
  · rw [SGraph.addEdge_adj, h3]; tauto

theorem addEdge' (H : Is h P R) (u v : Vertex) :
    Ok (do return (← h.addEdge u v).1 : Res EditGraph) (fun r =>
    Is r (fun w => P w ∨ w = u ∨ w = v) (fun a b => R a b ∨ (a = u ∧ b = v) ∨ (a = v ∧ b = u))) :=
  Ok.bind (H.addEdge u v) fun _ hr => Ok.pure hr

theorem addEdges (H : Is h P R) (l : List Edge) : Ok (h.addEdges l) (fun r =>
    Is r.1 (fun w => P w ∨ ∃ e ∈ l, w = e.1 ∨ w = e.2) (fun a b => R a b ∨ (a, b) ∈ l ∨ (b, a) ∈ l)) := by
  obtain ⟨S, h1, h2, h3⟩ := H
  refine Ok.mono (h1.addEdges l) fun r hr => ⟨_, hr.1, fun w => ?_, fun a b => ?_⟩
  · rw [mem_addEdges_V, h2]
  · rw [SGraph.addEdges_adj, h3]

theorem removeVertex (H : Is h P R) (u : Vertex) : Ok (h.removeVertex u) (fun r =>
    Is r.1 (fun w => P w ∧ w ≠ u) (fun a b => R a b ∧ a ≠ u ∧ b ≠ u)) := by
  obtain ⟨S, h1, h2, h3⟩ := H
  refine Ok.mono (h1.removeVertex u) fun r hr => ⟨_, hr.1, fun w => ?_, fun a b => ?_⟩
  · rw [SGraph.removeVertex_V, Finset.mem_erase, h2]; tauto
  · rw [SGraph.removeVertex_adj, h3]; tauto

/-- `for x in l { h.add_edge(f₁(x), f₂(x)) }`. -/
theorem foldAdd (H : Is h P R) {α : Type} (l : List α) (f₁ f₂ : α → Vertex) :
    Ok (l.foldlM (fun (g : EditGraph) x => do return (← g.addEdge (f₁ x) (f₂ x)).1) h) (fun r =>
      Is r (fun w => P w ∨ ∃ x ∈ l, w = f₁ x ∨ w = f₂ x)
        (fun a b => R a b ∨ ∃ x ∈ l, (a = f₁ x ∧ b = f₂ x) ∨ (a = f₂ x ∧ b = f₁ x))) := by
  obtain ⟨S, h1, h2, h3⟩ := H
  refine Ok.mono (h1.foldAdd l f₁ f₂) fun r hr => ⟨_, hr, fun w => ?_, fun a b => ?_⟩
  · rw [mem_addEdges_V, h2]
    simp only [List.mem_map]
    constructor
    · rintro (h | ⟨_, ⟨x, hx, rfl⟩, h⟩)
      · exact Or.inl h
      · exact Or.inr ⟨x, hx, h⟩
    · rintro (h | ⟨x, hx, h⟩)
      · exact Or.inl h
      · exact Or.inr ⟨_, ⟨x, hx, rfl⟩, h⟩
  · rw [SGraph.addEdges_adj, h3]
    simp only [List.mem_map, Prod.mk.injEq]
    constructor
    · rintro (h | ⟨x, hx, rfl, rfl⟩ | ⟨x, hx, rfl, rfl⟩)
      · exact Or.inl h
      · exact Or.inr ⟨x, hx, Or.inl ⟨rfl, rfl⟩⟩
      · exact Or.inr ⟨x, hx, Or.inr ⟨rfl, rfl⟩⟩
    · rintro (h | ⟨x, hx, ⟨rfl, rfl⟩ | ⟨rfl, rfl⟩⟩)
      · exact Or.inl h
      · exact Or.inr (Or.inl ⟨x, hx, rfl, rfl⟩)
      · exact Or.inr (Or.inr ⟨x, hx, rfl, rfl⟩)

/-- General build loop: each round adds vertices `p x` and edges `r x`. -/
theorem fold (H : Is h P R) {α : Type} {l : List α} {f : EditGraph → α → Res EditGraph}
    (p : α → ℕ → Prop) (r : α → ℕ → ℕ → Prop)
    (hf : ∀ x ∈ l, ∀ (g : EditGraph) (P : ℕ → Prop) (R : ℕ → ℕ → Prop), Is g P R →
      Ok (f g x) (fun g' => Is g' (fun w => P w ∨ p x w) (fun a b => R a b ∨ r x a b))) :
    Ok (l.foldlM f h) (fun g' => Is g' (fun w => P w ∨ ∃ x ∈ l, p x w) (fun a b => R a b ∨ ∃ x ∈ l, r x a b)) := by
  refine Ok.foldlM (fun pre g' => Is g' (fun w => P w ∨ ∃ x ∈ pre, p x w)
    (fun a b => R a b ∨ ∃ x ∈ pre, r x a b)) ?_ ?_
  · exact H.congr (by simp) (by simp)
  · intro pre x post g hl hg
    refine Ok.mono (hf x (by simp [hl]) g _ _ hg) fun g' hg' => hg'.congr ?_ ?_
    · intro w
      simp only [List.mem_append, List.mem_singleton]
      constructor
      · rintro ((h | ⟨y, hy, h⟩) | h)
        · exact Or.inl h
        · exact Or.inr ⟨y, Or.inl hy, h⟩
        · exact Or.inr ⟨x, Or.inr rfl, h⟩
      · rintro (h | ⟨y, (hy | rfl), h⟩)
        · exact Or.inl (Or.inl h)
        · exact Or.inl (Or.inr ⟨y, hy, h⟩)
        · exact Or.inr h
    · intro a b
      simp only [List.mem_append, List.mem_singleton]
      constructor
      · rintro ((h | ⟨y, hy, h⟩) | h)
        · exact Or.inl h
        · exact Or.inr ⟨y, Or.inl hy, h⟩
        · exact Or.inr ⟨x, Or.inr rfl, h⟩
      · rintro (h | ⟨y, (hy | rfl), h⟩)
        · exact Or.inl (Or.inl h)
        · exact Or.inl (Or.inr ⟨y, hy, h⟩)
        · exact Or.inr h

end Is
end Verif.EditGraph
