import Verif.Props.DigraphRelations
import Mathlib.Data.List.Induction
/-! # C143: the ids given to the members of a list by `disj_unions` -/
namespace Verif

/-- `k` is one more than the largest number satisfying `p`, and 0 if there is none. -/
def IsSpan (p : ℕ → Prop) (k : ℕ) : Prop := (∀ u, p u → u < k) ∧ (k = 0 ∨ p (k - 1))

/-- Sum of the spans of the members of the list before position `i`. -/
def startOf {α : Type} (k : α → ℕ) (l : List α) (i : ℕ) : ℕ := ((l.take i).map k).sum

theorem startOf_append {α : Type} {k : α → ℕ} {l l' : List α} {i : ℕ} (h : i ≤ l.length) :
    startOf k (l ++ l') i = startOf k l i := by
  unfold startOf
  rw [List.take_append_of_le_length h]

theorem startOf_length {α : Type} (k : α → ℕ) (l : List α) : startOf k l l.length = (l.map k).sum := by
  unfold startOf
  rw [List.take_length]

/-- Positions of a list with one more member. -/
theorem exists_append_one {α : Type} {k : α → ℕ} {l : List α} {a : α} {Q : ℕ → α → Prop} :
    (∃ i g, (l ++ [a])[i]? = some g ∧ Q (startOf k (l ++ [a]) i) g) ↔
      (∃ i g, l[i]? = some g ∧ Q (startOf k l i) g) ∨ Q (l.map k).sum a := by
  constructor
  · rintro ⟨i, g, h1, h2⟩
    by_cases hi : i < l.length
    · rw [List.getElem?_append_left hi] at h1
      rw [startOf_append hi.le] at h2
      exact .inl ⟨i, g, h1, h2⟩
    · have hi' : i = l.length := by
        have := (List.getElem?_eq_some_iff.1 h1).1
        rw [List.length_append, List.length_singleton] at this
        omega
      rw [hi', List.getElem?_append_right (le_refl _), Nat.sub_self] at h1
      simp only [List.getElem?_cons_zero, Option.some.injEq] at h1
      rw [hi', startOf_append (le_refl _), startOf_length, ← h1] at h2
      exact .inr h2
  · rintro (⟨i, g, h1, h2⟩ | h)
    · have hi := (List.getElem?_eq_some_iff.1 h1).1
      exact ⟨i, g, by rw [List.getElem?_append_left hi]; exact h1, by rw [startOf_append hi.le]; exact h2⟩
    · refine ⟨l.length, a, ?_, ?_⟩
      · rw [List.getElem?_append_right (le_refl _), Nat.sub_self]; rfl
      · rw [startOf_append (le_refl _), startOf_length]; exact h

theorem IsSpan.append {p q : ℕ → Prop} {a b : ℕ} (hp : IsSpan p a) (hq : IsSpan q b) :
    IsSpan (fun w => p w ∨ a ≤ w ∧ q (w - a)) (a + b) := by
  refine ⟨fun u hu => ?_, ?_⟩
  · rcases hu with h | h
    · have := hp.1 u h; omega
    · have := hq.1 _ h.2; omega
  · rcases hq.2 with h | h
    · rcases hp.2 with h' | h'
      · exact .inl (by omega)
      · exact .inr (.inl (by rw [h]; exact h'))
    · by_cases hb : b = 0
      · rcases hp.2 with h' | h'
        · exact .inl (by omega)
        · exact .inr (.inl (by rw [hb]; exact h'))
      · exact .inr (.inr ⟨by omega, by rwa [show a + b - 1 - a = b - 1 by omega]⟩)

theorem IsSpan.congr {p q : ℕ → Prop} {a : ℕ} (hp : IsSpan p a) (h : ∀ u, p u ↔ q u) : IsSpan q a :=
  ⟨fun u hu => hp.1 u ((h u).2 hu), hp.2.imp id (h _).1⟩

/-- **C143 (graphs).** Each graph of the list is shifted by the sum of the spans of the graphs before it, a span being
one more than the largest id, 0 for an empty graph. -/
theorem C143_graphs (k : EditGraph → ℕ) (l : List EditGraph) (hl : ∀ g ∈ l, EditGraph.Reachable g)
    (hk : ∀ g ∈ l, IsSpan (fun u => g.contains u = true) (k g)) (hs : (l.map k).sum < 2 ^ 32) :
    Generates (EditGraph.disjUnions (l.map EditGraph.view))
      (fun w => ∃ i g, l[i]? = some g ∧ startOf k l i ≤ w ∧ g.contains (w - startOf k l i) = true)
      (fun a b => ∃ i g, l[i]? = some g ∧ startOf k l i ≤ a ∧ startOf k l i ≤ b ∧
        g.adjacent (a - startOf k l i) (b - startOf k l i) = true) ∧
    IsSpan (fun w => ∃ i g, l[i]? = some g ∧ startOf k l i ≤ w ∧ g.contains (w - startOf k l i) = true)
      (l.map k).sum := by
  induction l using List.reverseRecOn with
  | nil =>
    refine ⟨(Generates.of_is ⟨_, rfl, EditGraph.Is.new⟩).congr (fun w => ?_) fun a b => ?_, ?_, .inl rfl⟩
    · simp
    · simp
    · rintro u ⟨i, g, h, -⟩; simp at h
  | append_singleton l g ih =>
    have hsum : ((l ++ [g]).map k).sum = (l.map k).sum + k g := by simp
    rw [hsum] at hs ⊢
    obtain ⟨⟨h, h1, h2, h3, h4⟩, h5⟩ := ih (fun x hx => hl x (by simp [hx])) (fun x hx => hk x (by simp [hx]))
      (by omega)
    have hg := hl g (by simp)
    have hkg := hk g (by simp)
    obtain ⟨T, A⟩ := hg.abs
    have hc : ∀ u : ℕ, u ∈ T.V ↔ g.contains u = true := fun u => by rw [A.contains, decide_eq_true_eq]
    have ha : ∀ u v : ℕ, T.Adj u v ↔ g.adjacent u v = true := fun u v => by rw [A.adjacent, decide_eq_true_eq]
    have hP : ∀ w, (∃ i x, (l ++ [g])[i]? = some x ∧ startOf k (l ++ [g]) i ≤ w ∧
        x.contains (w - startOf k (l ++ [g]) i) = true) ↔ _ := fun w =>
      exists_append_one (k := k) (l := l) (a := g) (Q := fun s x => s ≤ w ∧ x.contains (w - s) = true)
    have hR : ∀ a b, (∃ i x, (l ++ [g])[i]? = some x ∧ startOf k (l ++ [g]) i ≤ a ∧ startOf k (l ++ [g]) i ≤ b ∧
        x.adjacent (a - startOf k (l ++ [g]) i) (b - startOf k (l ++ [g]) i) = true) ↔ _ := fun a b =>
      exists_append_one (k := k) (l := l) (a := g)
        (Q := fun s x => s ≤ a ∧ s ≤ b ∧ x.adjacent (a - s) (b - s) = true)
    refine ⟨?_, (h5.append hkg).congr fun w => (hP w).symm⟩
    have h5' := h5.congr fun u => (h3 u).symm
    have key := C141_offset h2 A.rep h5'.1 h5'.2 (by omega) fun v hv => by
      have := hkg.1 v ((hc v).1 hv); omega
    have hfold : EditGraph.disjUnions ((l ++ [g]).map EditGraph.view) = h.disjUnion g.view := by
      unfold EditGraph.disjUnions at h1 ⊢
      rw [List.map_append, List.foldlM_append, h1, bind_ok, List.map_singleton, List.foldlM_cons]
      exact bind_pure _
    rw [hfold]
    refine key.congr (fun w => ?_) fun a b => ?_
    · rw [hP, h3, hc]
    · rw [hR, h4, ha]

/-- Three graphs, the second one empty: spans 3, 0 and 2, so the ids are `0..4`. -/
example : ∃ g h, EditGraph.path 3 = .ok g ∧ EditGraph.clique 2 = .ok h ∧ ∃ k : EditGraph → ℕ,
    Generates (EditGraph.disjUnions ([g, EditGraph.new, h].map EditGraph.view))
      (fun w => ∃ i x, [g, EditGraph.new, h][i]? = some x ∧ startOf k [g, EditGraph.new, h] i ≤ w ∧
        x.contains (w - startOf k [g, EditGraph.new, h] i) = true)
      (fun a b => ∃ i x, [g, EditGraph.new, h][i]? = some x ∧ startOf k [g, EditGraph.new, h] i ≤ a ∧
        startOf k [g, EditGraph.new, h] i ≤ b ∧
        x.adjacent (a - startOf k [g, EditGraph.new, h] i) (b - startOf k [g, EditGraph.new, h] i) = true) := by
  obtain ⟨g, g1, g2, g3, -⟩ := C11_path 3
  obtain ⟨h, h1, h2, h3, -⟩ := C11_clique 2
  have hg : IsSpan (fun u => g.contains u = true) 3 := ⟨fun u hu => (g3 u).1 hu, .inr ((g3 2).2 (by decide))⟩
  have hh : IsSpan (fun u => h.contains u = true) 2 := ⟨fun u hu => (h3 u).1 hu, .inr ((h3 1).2 (by decide))⟩
  have hn : IsSpan (fun u => EditGraph.new.contains u = true) 0 := ⟨fun u hu => absurd hu Bool.false_ne_true, .inl rfl⟩
  let k : EditGraph → ℕ := fun x => if x.contains 2 then 3 else if x.contains 1 then 2 else 0
  have kg : k g = 3 := if_pos ((g3 2).2 (by decide))
  have kh : k h = 2 := by
    show (if _ then _ else _) = _
    rw [if_neg (fun e => absurd ((h3 2).1 e) (by decide)), if_pos ((h3 1).2 (by decide))]
  have kn : k EditGraph.new = 0 := rfl
  refine ⟨g, h, g1, h1, k, (C143_graphs k _ ?_ ?_ ?_).1⟩
  · intro x hx
    simp only [List.mem_cons, List.not_mem_nil, or_false] at hx
    rcases hx with e | e | e
    · rw [e]; exact g2
    · rw [e]; exact EditGraph.Is.new.reachable
    · rw [e]; exact h2
  · intro x hx
    simp only [List.mem_cons, List.not_mem_nil, or_false] at hx
    rcases hx with e | e | e
    · rw [e, kg]; exact hg
    · rw [e, kn]; exact hn
    · rw [e, kh]; exact hh
  · simp only [List.map_cons, List.map_nil, kg, kh, kn]; decide

/-- **C143 (digraphs).** The same offsets; every pair joined by an arc is joined by the arc from the smaller to the
larger id. -/
theorem C143_digraphs (k : EditDigraph → ℕ) (l : List EditDigraph) (hl : ∀ g ∈ l, EditDigraph.Reachable g)
    (hk : ∀ g ∈ l, IsSpan (fun u => g.contains u = true) (k g)) (hs : (l.map k).sum < 2 ^ 32) :
    DGenerates (EditDigraph.disjUnions (l.map fun g => g.view.toGraph))
      (fun w => ∃ i g, l[i]? = some g ∧ startOf k l i ≤ w ∧ g.contains (w - startOf k l i) = true)
      (fun a b => ∃ i g, l[i]? = some g ∧ startOf k l i ≤ a ∧ a ≤ b ∧
        (g.hasArc (a - startOf k l i) (b - startOf k l i) = true ∨
          g.hasArc (b - startOf k l i) (a - startOf k l i) = true)) ∧
    IsSpan (fun w => ∃ i g, l[i]? = some g ∧ startOf k l i ≤ w ∧ g.contains (w - startOf k l i) = true)
      (l.map k).sum := by
  induction l using List.reverseRecOn with
  | nil =>
    refine ⟨(DGenerates.of_is ⟨_, rfl, EditDigraph.Is.new⟩).congr (fun w => ?_) fun a b => ?_, ?_, .inl rfl⟩
    · simp
    · simp
    · rintro u ⟨i, g, h, -⟩; simp at h
  | append_singleton l g ih =>
    have hsum : ((l ++ [g]).map k).sum = (l.map k).sum + k g := by simp
    rw [hsum] at hs ⊢
    obtain ⟨⟨h, h1, h2, h3, h4⟩, h5⟩ := ih (fun x hx => hl x (by simp [hx])) (fun x hx => hk x (by simp [hx]))
      (by omega)
    have hkg := hk g (by simp)
    have hP : ∀ w, (∃ i x, (l ++ [g])[i]? = some x ∧ startOf k (l ++ [g]) i ≤ w ∧
        x.contains (w - startOf k (l ++ [g]) i) = true) ↔ _ := fun w =>
      exists_append_one (k := k) (l := l) (a := g) (Q := fun s x => s ≤ w ∧ x.contains (w - s) = true)
    have hR : ∀ a b, (∃ i x, (l ++ [g])[i]? = some x ∧ startOf k (l ++ [g]) i ≤ a ∧ a ≤ b ∧
        (x.hasArc (a - startOf k (l ++ [g]) i) (b - startOf k (l ++ [g]) i) = true ∨
          x.hasArc (b - startOf k (l ++ [g]) i) (a - startOf k (l ++ [g]) i) = true)) ↔ _ := fun a b =>
      exists_append_one (k := k) (l := l) (a := g)
        (Q := fun s x => s ≤ a ∧ a ≤ b ∧ (x.hasArc (a - s) (b - s) = true ∨ x.hasArc (b - s) (a - s) = true))
    refine ⟨?_, (h5.append hkg).congr fun w => (hP w).symm⟩
    have h5' := h5.congr fun u => (h3 u).symm
    have key := C142_offset h2 (hl g (by simp)) h5'.1 h5'.2 (by omega) fun v hv => by
      have := hkg.1 v hv; omega
    have hfold : EditDigraph.disjUnions ((l ++ [g]).map fun g => g.view.toGraph) = h.disjUnion g.view.toGraph := by
      unfold EditDigraph.disjUnions at h1 ⊢
      rw [List.map_append, List.foldlM_append, h1, bind_ok, List.map_singleton, List.foldlM_cons]
      exact bind_pure _
    rw [hfold]
    refine key.congr (fun w => ?_) fun a b => ?_
    · rw [hP, h3]
    · rw [hR, h4, h4]
      constructor
      · rintro ⟨hab, (h | h) | h⟩
        · exact .inl h
        · obtain ⟨i, x, e1, e2, e3, e4⟩ := h
          have e : a = b := by omega
          rw [e]
          exact .inl ⟨i, x, e1, e2, le_refl _, by rw [e] at e4; exact e4⟩
        · exact .inr ⟨h.1, hab, h.2⟩
      · rintro (h | h)
        · obtain ⟨i, x, e1, e2, e3, e4⟩ := h
          exact ⟨e3, .inl (.inl ⟨i, x, e1, e2, e3, e4⟩)⟩
        · exact ⟨h.2.1, .inr ⟨h.1, h.2.2⟩⟩

/-- Two copies of the directed path on three vertices. -/
example : ∃ g, EditDigraph.path 3 = .ok g ∧ DGenerates (EditDigraph.disjUnions ([g, g].map fun g => g.view.toGraph))
      (fun w => ∃ i x, [g, g][i]? = some x ∧ startOf (fun _ => 3) [g, g] i ≤ w ∧
        x.contains (w - startOf (fun _ => 3) [g, g] i) = true)
      (fun a b => ∃ i x, [g, g][i]? = some x ∧ startOf (fun _ => 3) [g, g] i ≤ a ∧ a ≤ b ∧
        (x.hasArc (a - startOf (fun _ => 3) [g, g] i) (b - startOf (fun _ => 3) [g, g] i) = true ∨
          x.hasArc (b - startOf (fun _ => 3) [g, g] i) (a - startOf (fun _ => 3) [g, g] i) = true)) := by
  obtain ⟨g, g1, g2, g3, -⟩ := C36_path_partial 3 (by decide)
  refine ⟨g, g1, (C143_digraphs (fun _ => 3) [g, g] (by simpa using g2) ?_ (by simp)).1⟩
  intro x hx
  have e : x = g := by simpa using hx
  rw [e]
  exact ⟨fun u hu => (g3 u).1 hu, .inr ((g3 2).2 (by decide))⟩

end Verif
