import Verif.Model.Linear
import Verif.Spec.Core
import Verif.Lemmas.EditGraph
import Verif.Lemmas.DisjUnion
/-!
# Linear graphs: representation of an ordered graph
-/
namespace Verif

/-- Neighbours of `u` that occur after `u` in the list `l`. -/
def SGraph.after (S : SGraph) (l : List ℕ) (u : ℕ) : Finset ℕ :=
  (S.nbrs u).filter (fun v => l.idxOf u < l.idxOf v)

/-- `ord` lists every vertex of `S` exactly once. -/
structure SGraph.Ordering (S : SGraph) (ord : List ℕ) : Prop where
  nodup : ord.Nodup
  mem : ∀ u, u ∈ ord ↔ u ∈ S.V

/-- A `LinearGraph` implementation answers all queries as the loopless abstract graph `S` with the vertex ordering
`ord`. -/
structure LinGraph.LRep (L : LinGraph) (S : SGraph) (ord : List ℕ) : Prop where
  rep : L.toGraph.Rep S
  loopless : S.Loopless
  verts : L.vertices = ord
  index : ∀ u ∈ S.V, ∃ i, L.indexOf u = .ok i
  index_lt : ∀ u v i j, u ∈ S.V → v ∈ S.V → L.indexOf u = .ok i → L.indexOf v = .ok j →
    (i < j ↔ ord.idxOf u < ord.idxOf v)
  left : ∀ u ∈ S.V, ∃ l, L.leftNeighbours u = .ok l ∧ l.Pairwise (fun a b => ord.idxOf a < ord.idxOf b) ∧
    ∀ w, w ∈ l ↔ S.Adj u w ∧ ord.idxOf w < ord.idxOf u
  rdeg : ∀ u ∈ S.V, L.rightDegree u = .ok (S.after ord u).card
  ldeg : ∀ u ∈ S.V, L.leftDegree u = .ok (S.before ord u).card

namespace SGraph
variable {S : SGraph} {ord : List ℕ}

theorem mem_before {l : List ℕ} {u v : ℕ} : v ∈ S.before l u ↔ S.Adj u v ∧ l.idxOf v < l.idxOf u := by
  unfold before
  rw [Finset.mem_filter, mem_nbrs]

theorem mem_after {l : List ℕ} {u v : ℕ} : v ∈ S.after l u ↔ S.Adj u v ∧ l.idxOf u < l.idxOf v := by
  unfold after
  rw [Finset.mem_filter, mem_nbrs]

namespace Ordering

theorem getElem (H : S.Ordering ord) {u : ℕ} (hu : u ∈ S.V) : ord[ord.idxOf u]? = some u :=
  List.getElem?_idxOf ((H.mem u).2 hu)

theorem idxOf_eq (H : S.Ordering ord) {u i : ℕ} (h : ord[i]? = some u) : ord.idxOf u = i := by
  obtain ⟨hi, rfl⟩ := List.getElem?_eq_some_iff.1 h
  exact H.nodup.idxOf_getElem i hi

theorem mem_of (H : S.Ordering ord) {u i : ℕ} (h : ord[i]? = some u) : u ∈ S.V :=
  (H.mem u).1 (List.mem_of_getElem? h)

theorem get_iff (H : S.Ordering ord) {u i : ℕ} : ord[i]? = some u ↔ u ∈ S.V ∧ ord.idxOf u = i :=
  ⟨fun h => ⟨H.mem_of h, H.idxOf_eq h⟩, fun ⟨h1, h2⟩ => h2 ▸ H.getElem h1⟩

theorem idxOf_inj (H : S.Ordering ord) {u v : ℕ} (hu : u ∈ S.V) (h : ord.idxOf u = ord.idxOf v) : u = v :=
  (List.idxOf_inj ((H.mem u).2 hu)).1 h

theorem length (H : S.Ordering ord) : ord.length = S.V.card := by
  rw [← List.toFinset_card_of_nodup H.nodup]
  congr 1
  ext u
  rw [List.mem_toFinset, H.mem]

theorem idxOf_lt (H : S.Ordering ord) {u : ℕ} (hu : u ∈ S.V) : ord.idxOf u < ord.length :=
  List.idxOf_lt_length_of_mem ((H.mem u).2 hu)

/-- Every neighbour is either before or after. -/
theorem adj_cases (H : S.Ordering ord) (hl : S.Loopless) {u v : ℕ} (h : S.Adj u v) :
    ord.idxOf u < ord.idxOf v ∨ ord.idxOf v < ord.idxOf u := by
  rcases lt_trichotomy (ord.idxOf u) (ord.idxOf v) with h1 | h1 | h1
  · exact Or.inl h1
  · exact absurd h (H.idxOf_inj h.left h1 ▸ hl u)
  · exact Or.inr h1

theorem card_add (H : S.Ordering ord) (hl : S.Loopless) (u : ℕ) :
    (S.before ord u).card + (S.after ord u).card = S.deg u := by
  rw [deg_eq, if_neg (hl u), Nat.add_zero, ← Finset.card_union_of_disjoint]
  · congr 1
    ext v
    rw [Finset.mem_union, mem_before, mem_after, mem_nbrs]
    constructor
    · rintro (h | h) <;> exact h.1
    · intro h
      rcases H.adj_cases hl h with h1 | h1
      · exact Or.inr ⟨h, h1⟩
      · exact Or.inl ⟨h, h1⟩
  · rw [Finset.disjoint_left]
    intro v h1 h2
    rw [mem_before] at h1
    rw [mem_after] at h2
    omega

/-- Every edge is counted once at its right end. -/
theorem sum_before (H : S.Ordering ord) (hl : S.Loopless) : ∑ u ∈ S.V, (S.before ord u).card = S.E.card := by
  rw [← Finset.card_sigma]
  refine Finset.card_bij (fun p _ => s(p.1, p.2)) ?_ ?_ ?_
  · rintro ⟨u, v⟩ h
    rw [Finset.mem_sigma, mem_before] at h
    exact h.2.1
  · rintro ⟨u, v⟩ h ⟨u', v'⟩ h' he
    rw [Finset.mem_sigma, mem_before] at h h'
    simp only at h h' he
    rw [Sym2.eq_iff] at he
    rcases he with ⟨rfl, rfl⟩ | ⟨rfl, rfl⟩
    · rfl
    · have := h.2.2; have := h'.2.2; omega
  · intro e he
    induction e using Sym2.ind with
    | _ u v =>
      rcases H.adj_cases hl (u := u) (v := v) he with h1 | h1
      · refine ⟨⟨v, u⟩, ?_, Sym2.eq_swap⟩
        rw [Finset.mem_sigma, mem_before]
        exact ⟨Adj.right he, Adj.symm he, h1⟩
      · refine ⟨⟨u, v⟩, ?_, rfl⟩
        rw [Finset.mem_sigma, mem_before]
        exact ⟨Adj.left he, he, h1⟩

end Ordering
end SGraph

/-- `order.iter().enumerate().map(|(i,u)| (u,i)).collect()`. -/
theorem get?_positions {ord : List ℕ} (hn : ord.Nodup) {u i : ℕ} :
    (HMap.ofList ord.zipIdx : HMap ℕ ℕ).get? u = some i ↔ ord[i]? = some u := by
  rw [HMap.get?_ofList (by rw [List.zipIdx_map_fst]; exact hn)]
  exact List.mem_zipIdx_iff_getElem?

namespace LinGraph.LRep
variable {L : LinGraph} {S : SGraph} {ord : List ℕ}

theorem ordering (H : L.LRep S ord) : S.Ordering ord :=
  ⟨H.verts ▸ H.rep.vnodup, fun u => by rw [← H.verts]; exact H.rep.vmem u⟩

end LinGraph.LRep

/-! ## Stable sorting by a key -/

theorem sortBy_spec {f : ℕ → ℕ} {l : List ℕ} (hn : l.Nodup) (hf : ∀ a ∈ l, ∀ b ∈ l, f a = f b → a = b) :
    (((l.map (fun v => (f v, v))).insertionSort (fun a b => a.1 ≤ b.1)).map Prod.snd).Pairwise
      (fun a b => f a < f b) ∧
    ∀ w, w ∈ ((l.map (fun v => (f v, v))).insertionSort (fun a b => a.1 ≤ b.1)).map Prod.snd ↔ w ∈ l := by
  have hp := List.perm_insertionSort (fun a b : ℕ × ℕ => a.1 ≤ b.1) (l.map (fun v => (f v, v)))
  have i1 : Std.Total (fun a b : ℕ × ℕ => a.1 ≤ b.1) := ⟨fun a b => Nat.le_total _ _⟩
  have i2 : IsTrans (ℕ × ℕ) (fun a b : ℕ × ℕ => a.1 ≤ b.1) := ⟨fun a b c => Nat.le_trans⟩
  have hs := List.pairwise_insertionSort (fun a b : ℕ × ℕ => a.1 ≤ b.1) (l.map (fun v => (f v, v)))
  generalize (l.map (fun v => (f v, v))).insertionSort (fun a b : ℕ × ℕ => a.1 ≤ b.1) = r at hp hs
  have hp2 : (r.map Prod.snd).Perm l := by
    have := hp.map Prod.snd
    rwa [List.map_map, show (Prod.snd ∘ fun v => (f v, v)) = id from rfl, List.map_id] at this
  have hr : ∀ p ∈ r, p.1 = f p.2 ∧ p.2 ∈ l := by
    intro p hpr
    have := hp.mem_iff.1 hpr
    rw [List.mem_map] at this
    obtain ⟨v, hv, rfl⟩ := this
    exact ⟨rfl, hv⟩
  refine ⟨?_, fun w => hp2.mem_iff⟩
  have hnd : (r.map Prod.snd).Nodup := hp2.nodup_iff.2 hn
  rw [List.pairwise_map]
  unfold List.Nodup at hnd
  rw [List.pairwise_map] at hnd
  refine (hs.and hnd).imp_of_mem ?_
  rintro a b ha hb ⟨h1, h2⟩
  rw [(hr a ha).1, (hr b hb).1] at h1
  exact lt_of_le_of_ne h1 fun h => h2 (hf _ (hr a ha).2 _ (hr b hb).2 h)

end Verif
