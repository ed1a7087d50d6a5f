import Verif.Spec.SGraph
import Mathlib.Tactic.Ring
/-! # Degree bookkeeping on specification graphs -/
namespace Verif.SGraph

theorem deg_addEdge {S : SGraph} {u v w : ℕ} (h : ¬ S.Adj u v) :
    (S.addEdge u v).deg w = S.deg w + (if w = u then 1 else 0) + (if w = v then 1 else 0) := by
  unfold deg
  have hne : s(u, v) ∉ S.E := h
  have hcard : ((S.addEdge u v).E.filter (fun e => w ∈ e)).card
      = (S.E.filter (fun e => w ∈ e)).card + if w = u ∨ w = v then 1 else 0 := by
    rw [addEdge_E, Finset.filter_insert]
    by_cases hw : w = u ∨ w = v
    · rw [if_pos (Sym2.mem_iff.2 hw), if_pos hw, Finset.card_insert_of_notMem]
      intro hc; exact hne (Finset.mem_filter.1 hc).1
    · rw [if_neg (fun hh => hw (Sym2.mem_iff.1 hh)), if_neg hw, Nat.add_zero]
  have hloop : (if s(w, w) ∈ (S.addEdge u v).E then 1 else 0)
      = (if s(w, w) ∈ S.E then 1 else 0) + if w = u ∧ w = v then 1 else 0 := by
    by_cases hw : w = u ∧ w = v
    · obtain ⟨rfl, rfl⟩ := hw
      simp [hne]
    · have : s(w, w) ≠ s(u, v) := by
        rw [Ne, Sym2.eq_iff]
        rintro (hh | hh)
        · exact hw hh
        · exact hw ⟨hh.2, hh.1⟩
      simp [hw, this]
  rw [hcard, hloop]
  by_cases h1 : w = u <;> by_cases h2 : w = v <;> simp [h1, h2] <;> ring

theorem removeEdge_addEdge {S : SGraph} {u v : ℕ} (h : S.Adj u v) :
    (S.removeEdge u v).addEdge u v = S := by
  refine ext ?_ ?_
  · simp [h.left, h.right]
  · simp only [addEdge_E, removeEdge_E]; exact Finset.insert_erase h

theorem not_adj_removeEdge {S : SGraph} {u v : ℕ} : ¬ (S.removeEdge u v).Adj u v := by
  simp [Adj]

theorem deg_removeEdge {S : SGraph} {u v w : ℕ} (h : S.Adj u v) :
    S.deg w = (S.removeEdge u v).deg w + (if w = u then 1 else 0) + (if w = v then 1 else 0) := by
  have := deg_addEdge (S := S.removeEdge u v) (u := u) (v := v) (w := w) not_adj_removeEdge
  rwa [removeEdge_addEdge h] at this

theorem card_addEdge {S : SGraph} {u v : ℕ} (h : ¬ S.Adj u v) : (S.addEdge u v).E.card = S.E.card + 1 := by
  rw [addEdge_E, Finset.card_insert_of_notMem h]

theorem card_removeEdge {S : SGraph} {u v : ℕ} (h : S.Adj u v) :
    (S.removeEdge u v).E.card + 1 = S.E.card := by
  rw [removeEdge_E]; exact Finset.card_erase_add_one h

theorem deg_addVertex {S : SGraph} {u w : ℕ} : (S.addVertex u).deg w = S.deg w := rfl

theorem card_removeVertex {S : SGraph} {u : ℕ} :
    (S.removeVertex u).E.card + (S.nbrs u).card = S.E.card := by
  rw [← card_filter_mem, removeVertex_E, Nat.add_comm]
  exact Finset.card_filter_add_card_filter_not _

theorem deg_removeVertex {S : SGraph} {u w : ℕ} (h : w ≠ u) :
    S.deg w = (S.removeVertex u).deg w + if S.Adj w u then 1 else 0 := by
  rw [deg_eq, deg_eq]
  have h1 : (S.removeVertex u).Adj w w ↔ S.Adj w w := by rw [removeVertex_adj]; simp [h]
  have h2 : (S.removeVertex u).nbrs w = (S.nbrs w).erase u := by
    ext x
    rw [mem_nbrs, removeVertex_adj, Finset.mem_erase, mem_nbrs]
    simp [h]
  simp only [h1, h2]
  by_cases ha : S.Adj w u
  · have := Finset.card_erase_add_one (s := S.nbrs w) (a := u) (by simpa using ha)
    simp only [ha, if_true]; omega
  · rw [Finset.erase_eq_of_notMem (by simpa using ha)]
    simp [ha]

theorem nbrs_card_le {S : SGraph} {u : ℕ} : (S.nbrs u).card ≤ S.E.card := by
  rw [← card_filter_mem]; exact Finset.card_filter_le _ _

theorem deg_pos_of_adj {S : SGraph} {u v : ℕ} (h : S.Adj u v) : 0 < S.deg u := by
  rw [deg_eq]
  have : 0 < (S.nbrs u).card := Finset.card_pos.2 ⟨v, mem_nbrs.2 h⟩
  omega

theorem deg_eq_zero {S : SGraph} {u : ℕ} : S.deg u = 0 ↔ ∀ v, ¬ S.Adj u v := by
  constructor
  · intro h v hv; have := deg_pos_of_adj hv; omega
  · intro h
    rw [deg_eq]
    have : S.nbrs u = ∅ := by
      ext v; rw [mem_nbrs]; exact ⟨fun hv => absurd hv (h v), fun hv => absurd hv (Finset.notMem_empty _)⟩
    rw [this]; simp [h u]

end Verif.SGraph
