import Mathlib.Data.List.Sort
/-!
# Lemmas: stable sorting by a key
-/
namespace Verif

theorem idxOf_lt_of_sublist {α : Type} [DecidableEq α] {l : List α} (hl : l.Nodup) {a b : α} (h : [a, b].Sublist l) :
    l.idxOf a < l.idxOf b := by
  have hp : l.Pairwise (fun x y => l.idxOf x < l.idxOf y) := by
    rw [List.pairwise_iff_getElem]
    intro i j hi hj hij
    rw [hl.idxOf_getElem, hl.idxOf_getElem]
    exact hij
  exact List.pairwise_iff_forall_sublist.1 hp h

/-- A stable sort by decreasing key. -/
theorem stable_sort {l : List ℕ} (hl : l.Nodup) (f : ℕ → ℕ) :
    (((l.map fun u => (f u, u)).insertionSort (fun a b => b.1 ≤ a.1)).map Prod.snd).Pairwise
      (fun a b => f b < f a ∨ (f b = f a ∧ l.idxOf a < l.idxOf b)) := by
  have hp := List.perm_insertionSort (fun a b : ℕ × ℕ => b.1 ≤ a.1) (l.map fun u => (f u, u))
  have hnd : (l.map fun u => (f u, u)).Nodup := hl.map fun a b h => (Prod.mk.inj h).2
  haveI : Std.Total (fun a b : ℕ × ℕ => b.1 ≤ a.1) := ⟨fun a b => Nat.le_total _ _⟩
  haveI : IsTrans (ℕ × ℕ) (fun a b : ℕ × ℕ => b.1 ≤ a.1) := ⟨fun a b c h1 h2 => le_trans h2 h1⟩
  have hs := List.pairwise_insertionSort (fun a b : ℕ × ℕ => b.1 ≤ a.1) (l.map fun u => (f u, u))
  rw [List.pairwise_map, List.pairwise_iff_forall_sublist]
  intro a b hab
  have hle : b.1 ≤ a.1 := List.pairwise_iff_forall_sublist.1 hs hab
  have hm : ∀ c ∈ [a, b], c.2 ∈ l ∧ c.1 = f c.2 := by
    intro c hc
    have := hp.mem_iff.1 (hab.subset hc)
    obtain ⟨u, hu, rfl⟩ := List.mem_map.1 this
    exact ⟨hu, rfl⟩
  obtain ⟨ha, hfa⟩ := hm a (by simp)
  obtain ⟨hb, hfb⟩ := hm b (by simp)
  rw [hfa, hfb] at hle
  rcases Nat.lt_or_eq_of_le hle with hlt | heq
  · exact Or.inl hlt
  · refine Or.inr ⟨heq, ?_⟩
    have hi := idxOf_lt_of_sublist (hp.nodup_iff.2 hnd) hab
    by_contra hno
    rcases Nat.lt_or_eq_of_le (Nat.le_of_not_lt hno) with hlt | he
    · have hsub : [b.2, a.2].Sublist l := by
        have h1 : l = l.take (l.idxOf a.2) ++ l.drop (l.idxOf a.2) := (List.take_append_drop _ _).symm
        rw [h1]
        show ([b.2] ++ [a.2]).Sublist _
        refine List.Sublist.append ?_ ?_
        · rw [List.singleton_sublist, List.mem_take_iff_getElem]
          exact ⟨l.idxOf b.2, by have := List.idxOf_lt_length_of_mem hb; omega, List.getElem_idxOf _⟩
        · rw [List.singleton_sublist, List.drop_eq_getElem_cons (List.idxOf_lt_length_of_mem ha), List.getElem_idxOf]
          simp
      have h2 := hsub.map (fun u => (f u, u))
      have h3 : ([b.2, a.2].map fun u => (f u, u)) = [b, a] := by
        simp only [List.map_cons, List.map_nil, ← hfa, ← hfb]
      rw [h3] at h2
      have := idxOf_lt_of_sublist (hp.nodup_iff.2 hnd) (List.pair_sublist_insertionSort (r := fun a b : ℕ × ℕ => b.1 ≤ a.1)
        (by show a.1 ≤ b.1; rw [hfa, hfb, heq]) h2)
      omega
    · have h2 := (List.idxOf_inj hb).1 he
      have : a = b := Prod.ext (by rw [hfa, hfb, h2]) h2.symm
      rw [this] at hi
      exact lt_irrefl _ hi

end Verif
