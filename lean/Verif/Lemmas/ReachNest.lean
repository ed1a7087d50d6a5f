import Verif.Lemmas.Reach
/-!
# How strong and weak reachability relate
-/
namespace Verif
namespace SGraph
variable {S : SGraph} {ord : List ℕ} {P Q : ℕ → Prop}

theorem WalkVia.mono {n u v : ℕ} (h : S.WalkVia P n u v) (hPQ : ∀ x, P x → Q x) : S.WalkVia Q n u v := by
  induction h with
  | one h => exact .one h
  | cons h hw _ ih => exact .cons h (hPQ _ hw) ih

theorem WalkVia.append {n m u w v : ℕ} (h : S.WalkVia P n u w) (hw : P w) (h' : S.WalkVia P m w v) :
    S.WalkVia P (n + m) u v := by
  induction h with
  | one h => rw [Nat.add_comm]; exact .cons h hw h'
  | cons h hx _ ih => rw [Nat.add_right_comm]; exact .cons h hx (ih hw h')

/-- A walk that may return to `u` can be shortened to one that does not. -/
theorem WalkVia.leave (O : S.Ordering ord) {u n s x : ℕ} (h : S.WalkVia (fun y => ord.idxOf u ≤ ord.idxOf y) n s x) :
    S.WalkVia (fun y => ord.idxOf u < ord.idxOf y) n s x ∨
    ∃ m < n, S.WalkVia (fun y => ord.idxOf u < ord.idxOf y) m u x := by
  induction h with
  | one h => exact Or.inl (.one h)
  | @cons n s t x h hw _ ih =>
    rcases ih with h1 | ⟨m, hm, h1⟩
    · by_cases ht : t = u
      · subst ht; exact Or.inr ⟨n, by omega, h1⟩
      · exact Or.inl (.cons h (lt_of_le_of_ne hw fun he => ht (O.idxOf_inj h.right he.symm)) h1)
    · exact Or.inr ⟨m, by omega, h1⟩

/-- A walk either stays right of `u` or first enters the part left of `u` at some inner vertex. -/
theorem WalkVia.enter {u n s x : ℕ} (h : S.WalkVia P n s x) :
    S.WalkVia (fun y => ord.idxOf u ≤ ord.idxOf y) n s x ∨
    ∃ w a b, a + b = n ∧ P w ∧ ord.idxOf w < ord.idxOf u ∧ S.WalkVia (fun y => ord.idxOf u ≤ ord.idxOf y) a s w ∧
      S.WalkVia P b w x := by
  induction h with
  | one h => exact Or.inl (.one h)
  | @cons n s t x h hw ht ih =>
    by_cases hlt : ord.idxOf t < ord.idxOf u
    · exact Or.inr ⟨t, 1, n, by omega, hw, hlt, .one h, ht⟩
    · rcases ih with h1 | ⟨w, a, b, hab, hp, hl, h1, h2⟩
      · exact Or.inl (.cons h (not_lt.1 hlt) h1)
      · exact Or.inr ⟨w, a + 1, b, by omega, hp, hl, .cons h (not_lt.1 hlt) h1, h2⟩

theorem sreach_walk {u v d : ℕ} : S.SReach ord u v d ↔ ord.idxOf v < ord.idxOf u ∧
    IsMin (fun n => S.WalkVia (fun x => ord.idxOf u < ord.idxOf x) n u v) d :=
  and_congr_right fun h => pathVia_min (by rintro rfl; omega)

theorem wreach_walk {u v d : ℕ} : S.WReach ord u v d ↔ ord.idxOf v < ord.idxOf u ∧
    IsMin (fun n => S.WalkVia (fun x => ord.idxOf v < ord.idxOf x) n u v) d :=
  and_congr_right fun h => pathVia_min (by rintro rfl; omega)

theorem WReach.exists_le {u v n : ℕ} (hlt : ord.idxOf v < ord.idxOf u)
    (h : S.WalkVia (fun x => ord.idxOf v < ord.idxOf x) n u v) : ∃ d ≤ n, S.WReach ord u v d := by
  obtain ⟨d, hd, h1⟩ := IsMin.exists_le (P := fun n => S.WalkVia (fun x => ord.idxOf v < ord.idxOf x) n u v) h
  exact ⟨d, hd, wreach_walk.2 ⟨hlt, h1⟩⟩

theorem SReach.weak {u v d : ℕ} (h : S.SReach ord u v d) : ∃ d' ≤ d, S.WReach ord u v d' := by
  obtain ⟨hlt, h1⟩ := sreach_walk.1 h
  exact WReach.exists_le hlt (h1.1.mono fun x hx => lt_trans hlt hx)

theorem WReach.trans {u w v a b : ℕ} (h : S.WReach ord u w a) (h' : S.WReach ord w v b) :
    ∃ d ≤ a + b, S.WReach ord u v d := by
  obtain ⟨h1, h2⟩ := wreach_walk.1 h
  obtain ⟨h3, h4⟩ := wreach_walk.1 h'
  exact WReach.exists_le (lt_trans h3 h1) ((h2.1.mono fun x hx => lt_trans h3 hx).append h3 h4.1)

theorem WReach.unique {u v a b : ℕ} (h : S.WReach ord u v a) (h' : S.WReach ord u v b) : a = b := h.2.unique h'.2

/-- Weak reachability is generated by strong reachability. -/
theorem WReach.decompose (O : S.Ordering ord) {u v d : ℕ} (h : S.WReach ord u v d) :
    S.SReach ord u v d ∨ ∃ w a b, a + b = d ∧ S.SReach ord u w a ∧ S.WReach ord w v b := by
  obtain ⟨hlt, h1⟩ := wreach_walk.1 h
  have strip : ∀ {n x}, ord.idxOf x < ord.idxOf u → S.WalkVia (fun y => ord.idxOf u ≤ ord.idxOf y) n u x →
      ∃ m ≤ n, S.SReach ord u x m := by
    intro n x hx hw
    have : ∃ m ≤ n, S.WalkVia (fun y => ord.idxOf u < ord.idxOf y) m u x := by
      rcases hw.leave O with h3 | ⟨m, hm, h3⟩
      · exact ⟨n, le_refl _, h3⟩
      · exact ⟨m, by omega, h3⟩
    obtain ⟨m, hm, h3⟩ := this
    obtain ⟨k, hk, h4⟩ := IsMin.exists_le (P := fun n => S.WalkVia (fun y => ord.idxOf u < ord.idxOf y) n u x) h3
    exact ⟨k, by omega, sreach_walk.2 ⟨hx, h4⟩⟩
  rcases h1.1.enter (u := u) (ord := ord) with h2 | ⟨w, a, b, hab, hp, hl, h2, h3⟩
  · obtain ⟨m, hm, hs⟩ := strip hlt h2
    obtain ⟨k, hk, hk'⟩ := hs.weak
    have := hk'.unique h
    obtain rfl : m = d := by omega
    exact Or.inl hs
  · obtain ⟨a', ha, hs⟩ := strip hl h2
    obtain ⟨b', hb, hw⟩ := WReach.exists_le hp h3
    obtain ⟨a'', ha', hw'⟩ := hs.weak
    obtain ⟨d', hd, hd'⟩ := hw'.trans hw
    have := hd'.unique h
    exact Or.inr ⟨w, a', b', by omega, hs, hw⟩

end SGraph
end Verif
