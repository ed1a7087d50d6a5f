import Verif.Lemmas.History
/-! # Loops that build a graph by adding edges -/
namespace Verif.EditGraph
variable {g h : EditGraph} {S T : SGraph}

/-- `for x in l { g.add_edge(f(x)) }`. -/
theorem Abs.foldAdd (H : Abs g S) {α : Type} (l : List α) (f₁ f₂ : α → Vertex) :
    Ok (l.foldlM (fun (g : EditGraph) x => do return (← g.addEdge (f₁ x) (f₂ x)).1) g)
      (fun h => Abs h (S.addEdges (l.map (fun x => (f₁ x, f₂ x))))) := by
  have := H.addAll (l.map (fun x => (f₁ x, f₂ x)))
  unfold EditGraph.addAll at this
  rw [List.foldlM_map] at this
  exact this

theorem mem_addEdges_V {l : List Edge} {u : ℕ} :
    u ∈ (S.addEdges l).V ↔ u ∈ S.V ∨ ∃ e ∈ l, u = e.1 ∨ u = e.2 := by
  show u ∈ S.V ∪ _ ↔ _
  rw [Finset.mem_union, SGraph.mem_endpoints]

theorem Abs.clone (H : Abs g S) : Ok g.clone (fun h => Abs h S) := by
  unfold EditGraph.clone
  refine Ok.mono (Ok.foldlM (fun pre (h : EditGraph) => ∃ T, Abs h T ∧
      (∀ u, u ∈ T.V ↔ u ∈ pre ∨ ∃ v ∈ pre, S.Adj u v) ∧
      (∀ a b, T.Adj a b ↔ S.Adj a b ∧ (a ∈ pre ∨ b ∈ pre))) ?_ ?_) ?_
  · exact ⟨_, abs_new, by simp, by simp⟩
  · rintro pre v post h hl ⟨T, hT, hV, hE⟩
    have hv : v ∈ S.V := (H.mem_vertices v).1 (by rw [hl]; simp)
    obtain ⟨N, hN, -, hm⟩ := H.neighbours hv
    simp only [hN, bind_ok]
    refine Ok.mono ((hT.addVertex v).1.foldAdd N (fun u => u) (fun _ => v)) ?_
    intro h' H'
    refine ⟨_, H', ?_, ?_⟩
    · intro u
      rw [mem_addEdges_V]
      simp only [SGraph.addVertex_V, Finset.mem_insert, hV, List.mem_map, List.mem_append,
        List.mem_singleton]
      constructor
      · rintro ((rfl | hp | ⟨w, hw, ha⟩) | ⟨_, ⟨x, hx, rfl⟩, (rfl | rfl)⟩)
        · tauto
        · tauto
        · exact Or.inr ⟨w, Or.inl hw, ha⟩
        · exact Or.inr ⟨v, Or.inr rfl, ((hm _).1 hx).symm⟩
        · tauto
      · rintro ((hp | rfl) | ⟨w, (hw | rfl), ha⟩)
        · tauto
        · tauto
        · exact Or.inl (Or.inr (Or.inr ⟨w, hw, ha⟩))
        · exact Or.inr ⟨_, ⟨u, (hm u).2 ha.symm, rfl⟩, Or.inl rfl⟩
    · intro a b
      rw [SGraph.addEdges_adj, SGraph.addVertex_adj, hE]
      simp only [List.mem_map, Prod.mk.injEq, List.mem_append, List.mem_singleton]
      constructor
      · rintro (⟨h1, h2⟩ | ⟨x, hx, rfl, rfl⟩ | ⟨x, hx, rfl, rfl⟩)
        · exact ⟨h1, by tauto⟩
        · exact ⟨((hm _).1 hx).symm, by tauto⟩
        · exact ⟨(hm _).1 hx, by tauto⟩
      · rintro ⟨h1, (hp | rfl) | (hp | rfl)⟩
        · exact Or.inl ⟨h1, Or.inl hp⟩
        · exact Or.inr (Or.inr ⟨b, (hm b).2 h1, rfl, rfl⟩)
        · exact Or.inl ⟨h1, Or.inr hp⟩
        · exact Or.inr (Or.inl ⟨a, (hm a).2 h1.symm, rfl, rfl⟩)
  · rintro h ⟨T, hT, hV, hE⟩
    have : T = S := by
      refine SGraph.ext_adj ?_ ?_
      · ext u
        rw [hV, H.mem_vertices]
        constructor
        · rintro (h | ⟨v, _, h⟩)
          · exact h
          · exact h.left
        · exact Or.inl
      · intro a b
        rw [hE, H.mem_vertices, H.mem_vertices]
        exact ⟨And.left, fun h => ⟨h, Or.inl h.left⟩⟩
    rw [← this]; exact hT

theorem abs_fromIter (l : List Edge) : Ok (fromIter l) (fun h => Abs h (SGraph.empty.addEdges l)) :=
  abs_new.addAll l

end Verif.EditGraph
