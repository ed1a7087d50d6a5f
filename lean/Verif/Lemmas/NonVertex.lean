import Verif.Lemmas.Nbh
import Verif.Lemmas.LoopOrder
/-! # Neighbourhoods, induced subgraphs and contractions for lists that contain non-vertices -/
namespace Verif
variable {G : Graph} {S : SGraph}

namespace Graph

/-- Every call of `neighbours` returns a list or panics. -/
def Answers (G : Graph) : Prop := ∀ u, (∃ l, G.neighbours u = .ok l) ∨ G.neighbours u = .error .panic

theorem neighbourhood_panics (hd : G.Answers) (σ : Shuffle Vertex) {X : List Vertex}
    (hx : ∃ x ∈ X, G.neighbours x = .error .panic) : G.neighbourhood σ X = .error .panic := by
  unfold Graph.neighbourhood
  obtain ⟨x, hx, hp⟩ := hx
  have e := foldlM_panics (l := σ.run (HSet.ofList X).toList) (f := fun (res : HSet Vertex) v => do
    let N ← G.neighbours v
    return res.extend N) (fun _ _ => True) (σ.run (HSet.ofList X).toList) [] ∅ rfl trivial
    (fun pre a post b _ _ => by
      rcases hd a with ⟨l, hl⟩ | hl
      · right; simp only [hl, bind_ok]; exact Ok.pure trivial
      · left; simp only [hl]; rfl)
    ⟨x, by simpa using hx, fun b => by simp only [hp]; rfl⟩
  simp only [e]
  rfl

theorem closedNeighbourhood_panics (hd : G.Answers) {X : List Vertex}
    (hx : ∃ x ∈ X, G.neighbours x = .error .panic) : G.closedNeighbourhood X = .error .panic := by
  unfold Graph.closedNeighbourhood
  obtain ⟨x, hx, hp⟩ := hx
  exact foldlM_panics (l := X) (fun _ _ => True) X [] ∅ rfl trivial
    (fun pre a post b _ _ => by
      rcases hd a with ⟨l, hl⟩ | hl
      · right; simp only [hl, bind_ok]; exact Ok.pure trivial
      · left; simp only [hl]; rfl)
    ⟨x, hx, fun b => by simp only [hp]; rfl⟩

theorem rNeighbourhood_panics (hd : G.Answers) (σ : ℕ → Shuffle Vertex) {X : List Vertex}
    (hx : ∃ x ∈ X, G.neighbours x = .error .panic) (r : ℕ) : G.rNeighbourhood σ X (r + 1) = .error .panic := by
  obtain ⟨x, hx, hp⟩ := hx
  unfold Graph.rNeighbourhood Graph.rNeighbourhoodLoop
  rw [closedNeighbourhood_panics hd (X := (σ r).run (HSet.ofList X).toList) ⟨x, by simpa using hx, hp⟩]
  rfl

theorem subgraph_panics (hd : G.Answers) (σ : Shuffle Vertex) (τ : Vertex → Shuffle Vertex) {X : List Vertex}
    (hx : ∃ x ∈ X, G.neighbours x = .error .panic) : G.subgraph σ τ X = .error .panic := by
  unfold Graph.subgraph
  obtain ⟨x, hx, hp⟩ := hx
  refine foldlM_panics (l := σ.run (HSet.ofList X).toList) (fun _ g => ∃ P R, EditGraph.Is g P R) _ [] _ rfl
    ⟨_, _, EditGraph.Is.new⟩ (fun pre a post g _ hg => ?_) ⟨x, by simpa using hx, fun b => by simp only [hp]; rfl⟩
  rcases hd a with ⟨l, hl⟩ | hl
  · right
    obtain ⟨P, R, hg⟩ := hg
    simp only [hl, bind_ok]
    exact Ok.mono ((hg.addVertex a).foldAdd _ (fun u => u) (fun _ => a)) fun h hh => ⟨_, _, hh⟩
  · left; simp only [hl]; rfl

/-- The graph `S` with the members of `X` as further vertices. -/
def _root_.Verif.SGraph.withVertices (S : SGraph) (X : List ℕ) : SGraph :=
  ⟨S.V ∪ X.toFinset, S.E, fun e he u hu => Finset.mem_union_left _ (S.wf e he u hu)⟩

/-- `G` with another vertex list; none of the functions of this file reads it. -/
noncomputable def widen (G : Graph) (S : SGraph) (X : List ℕ) : Graph :=
  { G with vertices := (S.withVertices X).V.toList, numVertices := (S.withVertices X).V.card }

theorem widen_loop (σ : ℕ → Shuffle Vertex) (X : List ℕ) : ∀ (r : ℕ) (res : HSet Vertex),
    (G.widen S X).rNeighbourhoodLoop σ r res = G.rNeighbourhoodLoop σ r res
  | 0, _ => rfl
  | r + 1, res => by
    unfold Graph.rNeighbourhoodLoop
    have e : (G.widen S X).closedNeighbourhood ((σ r).run res.toList) = G.closedNeighbourhood ((σ r).run res.toList) := rfl
    rw [e]
    congr 1
    funext ext
    exact widen_loop σ X r _

theorem Rep.widen (H : G.Rep S) (hm : ∀ u, u ∉ S.V → G.neighbours u = .ok []) (X : List ℕ) :
    (G.widen S X).Sees (S.withVertices X) where
  vnodup := Finset.nodup_toList _
  vmem := fun u => Finset.mem_toList
  nbrs := fun u hu => by
    by_cases h : u ∈ S.V
    · exact H.sees.nbrs u h
    · refine ⟨[], hm u h, fun w => ⟨fun h' => (by cases h'), fun h' => absurd (SGraph.Adj.left (S := S) h') h⟩⟩
  nv := rfl
  short := fun u hu l hl => by
    by_cases h : u ∈ S.V
    · refine (H.sees.short u h l hl).trans (Nat.mul_le_mul_left 2 (Finset.card_le_card ?_))
      exact Finset.subset_union_left
    · have hl : G.neighbours u = .ok l := hl
      rw [hm u h] at hl; cases hl; exact Nat.zero_le _

end Graph

namespace EditGraph
variable {g : EditGraph}

theorem Abs.answers (H : Abs g S) : g.view.Answers := fun u => by
  by_cases hu : u ∈ S.V
  · obtain ⟨l, h, -⟩ := H.neighbours hu; exact .inl ⟨l, h⟩
  · exact .inr (H.neighbours_none hu)

theorem Abs.contractInto_panics (H : Abs g S) (σ₁ σ₂ σ₃ : Shuffle Vertex) {c : Vertex} {X : List Vertex}
    (hx : ∃ x ∈ X, x ≠ c ∧ x ∉ S.V) : g.contractInto σ₁ σ₂ σ₃ c X = .error .panic := by
  obtain ⟨x, hx, hc, hV⟩ := hx
  unfold EditGraph.contractInto
  have e := Graph.neighbourhood_panics H.answers σ₁ (X := ((HSet.ofList X).remove c).toList)
    ⟨x, by simp [hx, hc], H.neighbours_none hV⟩
  simp only [e]
  rfl

/-- `contract_into` when every member of `X` other than the centre is a vertex; the centre may be missing. -/
theorem Abs.contractInto_all (H : Abs g S) (σ₁ σ₂ σ₃ : Shuffle Vertex) {c : Vertex} {X : List Vertex}
    (hX : ∀ x ∈ X, x ≠ c → x ∈ S.V) :
    Ok (g.contractInto σ₁ σ₂ σ₃ c X) (fun h => Is h
      (fun w => (w ∈ S.V ∧ (w ∉ X ∨ w = c)) ∨ (w = c ∧ ∃ x ∈ X, ∃ v, x ≠ c ∧ v ∉ X ∧ v ≠ c ∧ S.Adj x v))
      (fun a b => (a ∉ X ∨ a = c) ∧ (b ∉ X ∨ b = c) ∧
        (S.Adj a b ∨ (a = c ∧ b ≠ c ∧ ∃ x ∈ X, S.Adj x b) ∨ (b = c ∧ a ≠ c ∧ ∃ x ∈ X, S.Adj x a)))) := by
  unfold EditGraph.contractInto
  refine Ok.bind (H.rep.neighbourhood σ₁ (X := ((HSet.ofList X).remove c).toList)
    (fun x hx => hX x (by simp at hx; exact hx.1) (by simp at hx; exact hx.2))) fun N hN => ?_
  have hNm : ∀ v, v ∈ N.remove c ↔ (v ∉ X ∧ v ≠ c) ∧ ∃ x ∈ X, x ≠ c ∧ S.Adj x v := by
    intro v
    rw [HSet.mem_remove, hN]
    simp only [HSet.mem_toList, HSet.mem_remove, HSet.mem_ofList, not_and, not_not]
    constructor
    · rintro ⟨⟨h1, x, hx, h2⟩, h3⟩
      exact ⟨⟨fun h => h3 (h1 h), h3⟩, x, hx.1, hx.2, h2⟩
    · rintro ⟨⟨h1, h2⟩, x, hx, h3, h4⟩
      exact ⟨⟨fun h => absurd h h1, x, ⟨hx, h3⟩, h4⟩, h2⟩
  refine Ok.bind ((Is.of_abs H).foldAdd _ (fun _ => c) (fun x => x)) fun h hh => ?_
  refine Ok.mono (hh.removeAll _) fun r hr => hr.congr ?_ ?_
  · intro w
    simp only [Shuffle.mem, HSet.mem_toList, hNm, HSet.mem_remove, HSet.mem_ofList]
    constructor
    · rintro ⟨h | ⟨x, hx, h | h⟩, h2⟩
      · exact .inl ⟨h, by tauto⟩
      · obtain ⟨⟨hx1, hx2⟩, y, hy, hyc, ha⟩ := hx
        exact .inr ⟨h, y, hy, x, hyc, hx1, hx2, ha⟩
      · subst h
        obtain ⟨y, hy, -, ha⟩ := hx.2
        exact .inl ⟨ha.right, by tauto⟩
    · rintro (⟨h1, h2⟩ | ⟨rfl, x, hx, v, h1, h2, h3, h4⟩)
      · exact ⟨Or.inl h1, by tauto⟩
      · exact ⟨.inr ⟨v, ⟨⟨h2, h3⟩, x, hx, h1, h4⟩, .inl rfl⟩, by tauto⟩
  · intro a b
    simp only [Shuffle.mem, HSet.mem_toList, hNm, HSet.mem_remove, HSet.mem_ofList]
    constructor
    · rintro ⟨h | ⟨x, ⟨⟨hx1, hx2⟩, y, hy, hyc, ha⟩, ⟨rfl, rfl⟩ | ⟨rfl, rfl⟩⟩, h1, h2⟩
      · exact ⟨by tauto, by tauto, Or.inl h⟩
      · exact ⟨by tauto, by tauto, Or.inr (Or.inl ⟨rfl, hx2, y, hy, ha⟩)⟩
      · exact ⟨by tauto, by tauto, Or.inr (Or.inr ⟨rfl, hx2, y, hy, ha⟩)⟩
    · rintro ⟨h1, h2, h | ⟨rfl, h3, x, hx, h4⟩ | ⟨rfl, h3, x, hx, h4⟩⟩
      · exact ⟨Or.inl h, by tauto, by tauto⟩
      · refine ⟨?_, by tauto, by tauto⟩
        by_cases hxa : x = a
        · subst hxa; exact Or.inl h4
        · exact Or.inr ⟨b, ⟨⟨by tauto, h3⟩, x, hx, hxa, h4⟩, Or.inl ⟨rfl, rfl⟩⟩
      · refine ⟨?_, by tauto, by tauto⟩
        by_cases hxa : x = b
        · subst hxa; exact Or.inl h4.symm
        · exact Or.inr ⟨a, ⟨⟨by tauto, h3⟩, x, hx, hxa, h4⟩, Or.inr ⟨rfl, rfl⟩⟩

end EditGraph
end Verif
