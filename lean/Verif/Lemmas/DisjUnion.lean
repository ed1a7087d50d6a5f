import Verif.Lemmas.Is
import Mathlib.Data.Finset.Lattice.Fold
/-! # Disjoint unions and normalization -/
namespace Verif

/-- Specification: the copy of `T` in which every vertex `v` is renamed to `v + k`. -/
def SGraph.shift (T : SGraph) (k : ℕ) : SGraph where
  V := T.V.image (· + k)
  E := T.E.image (Sym2.map (· + k))
  wf := by
    intro e he u hu
    rw [Finset.mem_image] at he ⊢
    obtain ⟨f, hf, rfl⟩ := he
    rw [Sym2.mem_map] at hu
    obtain ⟨v, hv, rfl⟩ := hu
    exact ⟨v, T.wf f hf v hv, rfl⟩

/-- Specification: union of two graphs. -/
def SGraph.union (S T : SGraph) : SGraph where
  V := S.V ∪ T.V
  E := S.E ∪ T.E
  wf := by
    intro e he u hu
    rw [Finset.mem_union] at he ⊢
    exact he.imp (fun h => S.wf e h u hu) (fun h => T.wf e h u hu)

namespace SGraph
variable {S T : SGraph}

theorem mem_shift_V {k w : ℕ} : w ∈ (T.shift k).V ↔ ∃ v ∈ T.V, w = v + k := by
  show w ∈ Finset.image _ _ ↔ _
  rw [Finset.mem_image]
  exact exists_congr fun v => and_congr_right fun _ => eq_comm

theorem shift_adj {k a b : ℕ} : (T.shift k).Adj a b ↔ ∃ u v, T.Adj u v ∧ a = u + k ∧ b = v + k := by
  show s(a, b) ∈ Finset.image _ _ ↔ _
  rw [Finset.mem_image]
  constructor
  · rintro ⟨e, he, h⟩
    induction e using Sym2.ind with
    | _ u v =>
      rw [Sym2.map_mk, Sym2.eq_iff] at h
      rcases h with ⟨h1, h2⟩ | ⟨h1, h2⟩
      · exact ⟨u, v, he, h1.symm, h2.symm⟩
      · exact ⟨v, u, Adj.symm he, h2.symm, h1.symm⟩
  · rintro ⟨u, v, h, rfl, rfl⟩
    exact ⟨s(u, v), h, by rw [Sym2.map_mk]⟩

theorem union_adj {a b : ℕ} : (S.union T).Adj a b ↔ S.Adj a b ∨ T.Adj a b := Finset.mem_union

theorem shift_card_V {k : ℕ} : (T.shift k).V.card = T.V.card :=
  Finset.card_image_of_injective _ (fun a b h => by simpa using h)

theorem shift_card_E {k : ℕ} : (T.shift k).E.card = T.E.card :=
  Finset.card_image_of_injective _ (Sym2.map.injective (fun a b h => by simpa using h))

theorem union_card_V (h : Disjoint S.V T.V) : (S.union T).V.card = S.V.card + T.V.card :=
  Finset.card_union_of_disjoint h

theorem union_card_E (h : Disjoint S.V T.V) : (S.union T).E.card = S.E.card + T.E.card := by
  refine Finset.card_union_of_disjoint ?_
  rw [Finset.disjoint_left] at h ⊢
  intro e he he'
  induction e using Sym2.ind with
  | _ u v => exact h (Adj.left he) (Adj.left he')

end SGraph

namespace EditGraph
variable {g : EditGraph} {S T : SGraph} {G : Graph}

theorem mapM_ok {α β : Type} {f : α → Res β} {h : α → β} {l : List α} (hf : ∀ a ∈ l, f a = .ok (h a)) :
    l.mapM f = .ok (l.map h) := by
  induction l with
  | nil => rfl
  | cons a l ih =>
    rw [List.mapM_cons, hf a (by simp), ih (fun b hb => hf b (by simp [hb]))]
    rfl

/-- One more than the largest id, 0 for the empty graph. -/
def offsetOf (S : SGraph) : ℕ := S.V.sup (· + 1)

theorem lt_offsetOf {u : ℕ} (hu : u ∈ S.V) : u < offsetOf S :=
  Nat.lt_of_succ_le (Finset.le_sup (f := (· + 1)) hu)

theorem Abs.unionOffset (H : Abs g S) (hS : offsetOf S < 2 ^ 32) : g.unionOffset = .ok (offsetOf S) := by
  unfold EditGraph.unionOffset
  cases h : g.vertices.max? with
  | none =>
    rw [List.max?_eq_none_iff] at h
    have : S.V = ∅ := by
      ext u
      rw [← H.mem_vertices, h]; simp
    simp [offsetOf, this]
  | some x =>
    obtain ⟨h1, h2⟩ := List.max?_eq_some_iff.1 h
    have hx := lt_offsetOf ((H.mem_vertices x).1 h1)
    have : offsetOf S = x + 1 := by
      refine le_antisymm (Finset.sup_le fun u hu => ?_) hx
      exact Nat.succ_le_succ (h2 u ((H.mem_vertices u).2 hu))
    rw [this] at hS ⊢
    exact add32_ok hS

theorem Abs.disjUnion (H : Abs g S) (HG : G.Rep T) 
    (hS : offsetOf S < 2 ^ 32) (hT : ∀ v ∈ T.V, v + offsetOf S < 2 ^ 32) :
    Ok (g.disjUnion G) (fun h => Abs h (S.union (T.shift (offsetOf S)))) := by
  unfold EditGraph.disjUnion
  rw [H.unionOffset hS]
  generalize offsetOf S = k at hS hT
  obtain ⟨es, hes, henum, -⟩ := H.rep.edges
  obtain ⟨fs, hfs, hfenum, -⟩ := HG.edges
  have hvs : G.vertices.mapM (fun v => add32 v k) = .ok (G.vertices.map (· + k)) :=
    mapM_ok fun v hv => add32_ok (hT v ((HG.vmem v).1 hv))
  have hfs' : fs.mapM (fun e => do return ((← add32 e.1 k), (← add32 e.2 k)) : Edge → Res Edge)
      = .ok (fs.map (fun e => (e.1 + k, e.2 + k))) := by
    refine mapM_ok fun e he => ?_
    rw [add32_ok (hT _ (hfenum.left_mem he)), add32_ok (hT _ (hfenum.right_mem he))]
    rfl
  simp only [bind_ok, hes, hfs]
  refine Ok.bind ((Is.new.addVertices g.vertices).addEdges es) fun r hr => ?_
  simp only [hvs, hfs', bind_ok]
  refine Ok.bind ((hr.addVertices _).addEdges _) fun r' hr' => Ok.pure (hr'.abs_of ?_ ?_)
  · intro u
    show _ ↔ u ∈ S.V ∪ (T.shift k).V
    rw [Finset.mem_union, SGraph.mem_shift_V]
    simp only [H.mem_vertices, List.mem_map, false_or, HG.vmem]
    constructor
    · rintro (((h | ⟨e, he, rfl | rfl⟩) | ⟨v, hv, rfl⟩) | ⟨_, ⟨e, he, rfl⟩, h | h⟩)
      · exact Or.inl h
      · exact Or.inl (henum.left_mem he)
      · exact Or.inl (henum.right_mem he)
      · exact Or.inr ⟨v, hv, rfl⟩
      · exact Or.inr ⟨_, hfenum.left_mem he, h⟩
      · exact Or.inr ⟨_, hfenum.right_mem he, h⟩
    · rintro (h | ⟨v, hv, rfl⟩)
      · exact Or.inl (Or.inl (Or.inl h))
      · exact Or.inl (Or.inr ⟨v, hv, rfl⟩)
  · intro a b
    rw [SGraph.union_adj, SGraph.shift_adj]
    simp only [List.mem_map, false_or, Prod.mk.injEq, henum.mem]
    constructor
    · rintro ((h | h) | ⟨e, he, rfl, rfl⟩ | ⟨e, he, rfl, rfl⟩)
      · exact Or.inl h.2
      · exact Or.inl h.2.symm
      · exact Or.inr ⟨_, _, hfenum.adj he, rfl, rfl⟩
      · exact Or.inr ⟨_, _, (hfenum.adj he).symm, rfl, rfl⟩
    · rintro (h | ⟨u, v, h, rfl, rfl⟩)
      · rcases Nat.le_total a b with hab | hab
        · exact Or.inl (Or.inl ⟨hab, h⟩)
        · exact Or.inl (Or.inr ⟨hab, h.symm⟩)
      · rcases Nat.le_total u v with hab | hab
        · exact Or.inr (Or.inl ⟨(u, v), (hfenum.mem u v).2 ⟨hab, h⟩, rfl, rfl⟩)
        · exact Or.inr (Or.inr ⟨(v, u), (hfenum.mem v u).2 ⟨hab, h.symm⟩, rfl, rfl⟩)

theorem offsetOf_union_le {B k : ℕ} (hk : offsetOf S ≤ k) (hB : ∀ v ∈ T.V, v < B) :
    offsetOf (S.union (T.shift (offsetOf S))) ≤ k + B := by
  refine Finset.sup_le fun u hu => ?_
  rcases Finset.mem_union.1 hu with hu | hu
  · have := lt_offsetOf hu; omega
  · obtain ⟨v, hv, rfl⟩ := SGraph.mem_shift_V.1 hu
    have := hB v hv; omega

theorem disjoint_shift : Disjoint S.V (T.shift (offsetOf S)).V := by
  rw [Finset.disjoint_left]
  intro u hu hu'
  obtain ⟨v, -, rfl⟩ := SGraph.mem_shift_V.1 hu'
  have := lt_offsetOf hu
  omega

end EditGraph
end Verif
