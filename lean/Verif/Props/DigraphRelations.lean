import Verif.Props.EditDigraph
import Verif.Props.GenRelations
/-! # C142: the named digraphs, their undirected counterparts, disjoint unions and normal forms -/
namespace Verif
open EditDigraph

/-- The digraph has the same vertices as the graph and exactly one of the two arcs for every edge. -/
def Orients (r : Res EditDigraph) (r' : Res EditGraph) : Prop :=
  ∃ D g, r = .ok D ∧ r' = .ok g ∧ (∀ u, D.contains u = g.contains u) ∧
    (∀ u v, g.adjacent u v = true ↔ D.hasArc u v = true ∨ D.hasArc v u = true) ∧
    ∀ u v, ¬ (D.hasArc u v = true ∧ D.hasArc v u = true)

theorem DGenerates.orients {r : Res EditDigraph} {r' : Res EditGraph} {P P' : ℕ → Prop} {R R' : ℕ → ℕ → Prop}
    (H : DGenerates r P R) (H' : Generates r' P' R') (hP : ∀ u, P u ↔ P' u)
    (hR : ∀ u v, R' u v ↔ R u v ∨ R v u) (hn : ∀ u v, ¬ (R u v ∧ R v u)) : Orients r r' := by
  obtain ⟨D, h1, h2, h3, h4⟩ := H
  obtain ⟨g, k1, k2, k3, k4⟩ := H'
  refine ⟨D, g, h1, k1, fun u => ?_, fun u v => ?_, fun u v => ?_⟩
  · rw [Bool.eq_iff_iff, h3, k3, hP]
  · rw [k4, h4, h4, hR]
  · rw [h4, h4]; exact hn u v

/-- **C142 (orientations).** Every digraph generator orients the graph of the same name. -/
theorem C142_orient :
    (∀ n, 2 ≤ n → Orients (EditDigraph.path n) (EditGraph.path n)) ∧
    (∀ n, 3 ≤ n → Orients (EditDigraph.cycle n) (EditGraph.cycle n)) ∧
    (∀ n, 2 * n ≤ 2 ^ 32 → Orients (EditDigraph.matching n) (EditGraph.matching n)) ∧
    (∀ n, n ≠ 1 → Orients (EditDigraph.clique n) (EditGraph.clique n)) ∧
    (∀ n, Orients (.ok (EditDigraph.independent n)) (.ok (EditGraph.independent n))) ∧
    (∀ s t, 0 < s → 0 < t → s + t < 2 ^ 32 → Orients (EditDigraph.biclique s t) (EditGraph.biclique s t)) ∧
    (∀ n, 0 < n → n + 1 < 2 ^ 32 → Orients (EditDigraph.star n) (EditGraph.star n)) ∧
    (∀ s t, s * t < 2 ^ 32 → ¬ (s = 1 ∧ t = 1) → Orients (EditDigraph.grid s t) (EditGraph.grid s t)) := by
  refine ⟨fun n hn => ?_, fun n hn => ?_, fun n hn => ?_, fun n hn => ?_, fun n => ?_, fun s t hs ht h => ?_,
    fun n hn h => ?_, fun s t h h1 => ?_⟩
  · exact (C36_path_partial n hn).orients (C11_path n) (fun _ => Iff.rfl) (fun u v => by omega) fun u v => by omega
  · refine (C36_cycle n).orients (C11_cycle n) (fun _ => Iff.rfl) (fun u v => ?_) fun u v => ?_
    · constructor
      · rintro ⟨hu, hv, h | h⟩
        · exact .inl ⟨hu, h⟩
        · exact .inr ⟨hv, h⟩
      · rintro (⟨hu, h⟩ | ⟨hu, h⟩)
        · exact ⟨hu, by rw [h]; exact Nat.mod_lt _ (by omega), .inl h⟩
        · exact ⟨by rw [h]; exact Nat.mod_lt _ (by omega), hu, .inr h⟩
    · rintro ⟨⟨hu, h⟩, hv, h'⟩
      rw [cycle_next hu] at h
      rw [cycle_next hv] at h'
      split_ifs at h h' <;> omega
  · exact (C36_matching n hn).orients (C11_matching n hn) (fun _ => Iff.rfl) (fun u v => by omega)
      fun u v => by omega
  · exact (C36_clique_partial n hn).orients (C11_clique n) (fun _ => Iff.rfl) (fun u v => by omega)
      fun u v => by omega
  · exact (C36_independent n).orients (C11_independent n) (fun _ => Iff.rfl) (fun u v => by simp)
      fun u v h => h.1
  · exact (C36_biclique_partial s t (by omega) h).orients (C11_biclique_partial s t hs ht h) (fun _ => Iff.rfl)
      (fun u v => by omega) fun u v => by omega
  · exact (C36_star_partial n hn h).orients (C11_star_partial n hn h) (fun _ => Iff.rfl)
      (fun u v => by omega) fun u v => by omega
  · refine (C36_grid_partial s t h h1).orients (C11_grid_partial s t h h1) (fun _ => Iff.rfl) (fun u v => ?_)
      fun u v => ?_
    · generalize u / t = a, v / t = b, u % t = c, v % t = d; omega
    · generalize u / t = a, v / t = b, u % t = c, v % t = d; omega

/-- **C142 (the numbers of a disjoint union).** The second digraph is shifted by exactly one more than the largest id
of the first one, by nothing if the first one is empty; every pair joined by an arc is joined by the arc from the
smaller to the larger id. -/
theorem C142_offset {g h : EditDigraph} (hg : EditDigraph.Reachable g) (hh : EditDigraph.Reachable h) {k : ℕ}
    (hk : ∀ u : ℕ, g.contains u = true → u < k) (hk' : k = 0 ∨ g.contains (k - 1) = true) (hk2 : k < 2 ^ 32)
    (hT : ∀ v : ℕ, h.contains v = true → v + k < 2 ^ 32) :
    DGenerates (g.disjUnion h.view.toGraph) (fun w => g.contains w = true ∨ k ≤ w ∧ h.contains (w - k) = true)
      (fun a b => a ≤ b ∧ ((g.hasArc a b = true ∨ g.hasArc b a = true) ∨
        (k ≤ a ∧ (h.hasArc (a - k) (b - k) = true ∨ h.hasArc (b - k) (a - k) = true)))) := by
  obtain ⟨S, A⟩ := hg.abs
  obtain ⟨T, B⟩ := hh.abs
  have hc : ∀ u : ℕ, g.contains u = true ↔ u ∈ S.V := fun u => by rw [A.contains, decide_eq_true_eq]
  have hc' : ∀ u : ℕ, h.contains u = true ↔ u ∈ T.V := fun u => by rw [B.contains, decide_eq_true_eq]
  have ha : ∀ u v : ℕ, g.hasArc u v = true ↔ (u, v) ∈ S.A := fun u v => by rw [A.hasArc, decide_eq_true_eq]
  have ha' : ∀ u v : ℕ, h.hasArc u v = true ↔ (u, v) ∈ T.A := fun u v => by rw [B.hasArc, decide_eq_true_eq]
  have hoff : offsetOf S = k := by
    refine le_antisymm (Finset.sup_le fun u hu => hk u ((hc u).2 hu)) ?_
    rcases hk' with h | h
    · omega
    · have h1 := lt_offsetOf ((hc _).1 h)
      omega
  refine (DGenerates.of_is (A.disjUnion B.lists (by omega) (by
    rw [hoff]; exact fun v hv => hT v ((hc' v).2 hv)))).congr (fun w => ?_) fun a b => ?_
  · rw [hoff, hc, hc']
    refine or_congr Iff.rfl ⟨?_, ?_⟩
    · rintro ⟨v, hv, rfl⟩
      exact ⟨by omega, by rwa [Nat.add_sub_cancel]⟩
    · rintro ⟨hw, hv⟩
      exact ⟨_, hv, by omega⟩
  · rw [hoff, ha, ha, ha', ha']
    constructor
    · rintro (h | ⟨x, y, hxy, h, rfl, rfl⟩)
      · exact ⟨h.1, .inl h.2⟩
      · exact ⟨by omega, .inr ⟨by omega, by simpa only [Nat.add_sub_cancel] using h⟩⟩
    · rintro ⟨h1, h | ⟨h2, h3⟩⟩
      · exact .inl ⟨h1, h⟩
      · exact .inr ⟨a - k, b - k, by omega, h3, by omega, by omega⟩

/-- `C142_orient` for a cycle, `C142_offset` for two directed paths. -/
example : Orients (EditDigraph.cycle 4) (EditGraph.cycle 4) ∧ ∃ g, EditDigraph.path 3 = .ok g ∧
    DGenerates (g.disjUnion g.view.toGraph) (fun w => g.contains w = true ∨ 3 ≤ w ∧ g.contains (w - 3) = true)
      (fun a b => a ≤ b ∧ ((g.hasArc a b = true ∨ g.hasArc b a = true) ∨
        (3 ≤ a ∧ (g.hasArc (a - 3) (b - 3) = true ∨ g.hasArc (b - 3) (a - 3) = true)))) := by
  obtain ⟨g, h1, h2, h3, -⟩ := C36_path_partial 3 (by decide)
  exact ⟨C142_orient.2.1 4 (by decide), g, h1, C142_offset h2 h2 (fun u hu => (h3 u).1 hu)
    (.inr ((h3 2).2 (by decide))) (by decide) fun v hv => by have := (h3 v).1 hv; omega⟩

/-- An increasing function from `0..n-1` into itself is the identity. -/
theorem increasing_eq {n : ℕ} {f : ℕ → ℕ} (hf : ∀ i, i < n → f i < n) (hm : ∀ i j, i < j → j < n → f i < f j) :
    ∀ i, i < n → f i = i := by
  have h1 : ∀ i, i < n → i ≤ f i := by
    intro i
    induction i with
    | zero => intro _; omega
    | succ i ih =>
      intro hi
      have := ih (by omega)
      have := hm i (i + 1) (by omega) hi
      omega
  have h2 : ∀ j i, i + j + 1 = n → f i ≤ i := by
    intro j
    induction j with
    | zero => intro i hi; have := hf i (by omega); omega
    | succ j ih =>
      intro i hi
      have := ih (i + 1) (by omega)
      have := hm i (i + 1) (by omega) (by omega)
      omega
  intro i hi
  have := h1 i hi
  have := h2 (n - 1 - i) i (by omega)
  omega

/-- **C142 (normal form).** On a digraph with vertices `0..n-1`, `normalize` returns the identity and joins every
joined pair by the arc from the smaller to the larger id; so does the union of the empty digraph with it. -/
theorem C142_normalize {r : Res EditDigraph} {n : ℕ} {R : ℕ → ℕ → Prop} (H : DGenerates r (· < n) R)
    (σ : Shuffle (Vertex × Vertex)) :
    ∃ g h m, r = .ok g ∧ g.normalize σ = .ok (h, m) ∧ (∀ i v, m.get? i = some v ↔ i < n ∧ v = i) ∧
      DGenerates (.ok h) (· < n) (fun i j => i ≤ j ∧ (R i j ∨ R j i)) ∧
      (n ≤ 2 ^ 32 → DGenerates (EditDigraph.new.disjUnion g.view.toGraph) (· < n)
        (fun i j => i ≤ j ∧ (R i j ∨ R j i))) := by
  obtain ⟨g, hg, hr, hc, ha⟩ := H
  replace hc : ∀ u : ℕ, g.contains u = true ↔ u < n := hc
  obtain ⟨h, m, h1, h2, h3, h4, h5, h6, h7⟩ := C34_normalize_arcs hr σ
  obtain ⟨S, A⟩ := hr.abs
  have hn : g.numVertices = n := by
    have : S.V = Finset.range n := by
      ext u
      rw [Finset.mem_range, ← hc u, A.contains, decide_eq_true_eq]
    rw [A.numVertices, this, Finset.card_range]
  rw [hn] at h3 h4
  have hid : ∀ i, i < n → m.get? i = some i := by
    have hv : ∀ i, i < n → m.get? i = some ((m.get? i).getD 0) := by
      intro i hi
      obtain ⟨v, hv⟩ := (h4 i).1 hi
      rw [hv]; rfl
    have := increasing_eq (n := n) (f := fun i => (m.get? i).getD 0)
      (fun i hi => (hc _).1 ((h5 _).2 ⟨i, hv i hi⟩))
      (fun i j hij hj => h6 i j _ _ (hv i (by omega)) (hv j hj) hij)
    intro i hi
    rw [hv i hi]
    exact congrArg some (this i hi)
  have hin : ∀ a b : ℕ, h.hasArc a b = true → a < n ∧ b < n := by
    intro a b hab
    obtain ⟨T, B⟩ := h2.abs
    rw [B.hasArc, decide_eq_true_eq] at hab
    have := T.wf _ hab
    rw [← h3, ← h3, B.contains, B.contains, decide_eq_true_eq, decide_eq_true_eq]
    exact this
  have hin' : ∀ a b : ℕ, R a b → a < n ∧ b < n := by
    intro a b hab
    rw [← ha, A.hasArc, decide_eq_true_eq] at hab
    have := S.wf _ hab
    rw [← hc, ← hc, A.contains, A.contains, decide_eq_true_eq, decide_eq_true_eq]
    exact this
  refine ⟨g, h, m, hg, h1, fun i v => ⟨fun hi => ?_, ?_⟩, ⟨h, rfl, h2, h3, fun a b => ?_⟩, fun hn => ?_⟩
  · have hin := (h4 i).2 ⟨v, hi⟩
    rw [hid i hin, Option.some.injEq] at hi
    exact ⟨hin, hi.symm⟩
  · rintro ⟨hi, rfl⟩
    exact hid _ hi
  · by_cases hab : a < n ∧ b < n
    · rw [h7 a b a b (hid a hab.1) (hid b hab.2), ha, ha]
    · refine ⟨fun h => (hab (hin a b h)).elim, fun h => (hab ?_).elim⟩
      rcases h.2 with h | h
      · exact hin' _ _ h
      · exact (hin' _ _ h).symm
  · have h0 : ∀ u, EditDigraph.new.contains u = false := fun u => rfl
    have h0' : ∀ u v, EditDigraph.new.hasArc u v = false := fun u v => rfl
    refine (C142_offset (k := 0) EditDigraph.Is.new.reachable hr (fun u hu => by rw [h0] at hu; cases hu) (.inl rfl)
      (by decide) fun v hv => by have := (hc v).1 hv; omega).congr (fun w => ?_) fun a b => ?_
    · simp [h0, hc]
    · simp [h0', ha]

/-- `normalize` and the union of the empty digraph with it leave the digraph as it is. -/
def Kept (r : Res EditDigraph) : Prop := ∀ σ : Shuffle (Vertex × Vertex), ∃ g h m k, r = .ok g ∧
  g.normalize σ = .ok (h, m) ∧ h.eq g = true ∧ EditDigraph.new.disjUnion g.view.toGraph = .ok k ∧ k.eq g = true

theorem DGenerates.kept {r : Res EditDigraph} {n : ℕ} {R : ℕ → ℕ → Prop} (H : DGenerates r (· < n) R)
    (hn : n ≤ 2 ^ 32) (up : ∀ a b, R a b → a ≤ b) : Kept r := by
  intro σ
  obtain ⟨g, h, m, h1, h2, -, h3, h4⟩ := C142_normalize H σ
  obtain ⟨k, k1, k2, k3, k4⟩ := h4 hn
  obtain ⟨h', e, e2, e3, e4⟩ := h3
  cases e
  obtain ⟨g', f1, f2, f3, f4⟩ := H
  rw [h1] at f1
  cases f1
  have key : ∀ a b, (a ≤ b ∧ (R a b ∨ R b a)) ↔ R a b := by
    intro a b
    constructor
    · rintro ⟨hab, h | h⟩
      · exact h
      · have := up _ _ h
        have e : a = b := by omega
        rw [e] at h ⊢; exact h
    · exact fun h => ⟨up _ _ h, .inl h⟩
  refine ⟨g, h, m, k, h1, h2, (C35_eq e2 f2).2 ⟨fun u => ?_, fun a b => ?_⟩, k1,
    (C35_eq k2 f2).2 ⟨fun u => ?_, fun a b => ?_⟩⟩
  · rw [Bool.eq_iff_iff, e3, f3]
  · rw [Bool.eq_iff_iff, e4, f4]; exact key a b
  · rw [Bool.eq_iff_iff, k3, f3]
  · rw [Bool.eq_iff_iff, k4, f4]; exact key a b

/-- **C142 (named digraphs and their normal forms).** All named digraphs except cycles are kept; a directed cycle on at
least three vertices is not: both operations turn its last arc round. -/
theorem C142_kept :
    (∀ n, 2 ≤ n → n ≤ 2 ^ 32 → Kept (EditDigraph.path n)) ∧
    (∀ n, 2 * n ≤ 2 ^ 32 → Kept (EditDigraph.matching n)) ∧
    (∀ n, n ≠ 1 → n ≤ 2 ^ 32 → Kept (EditDigraph.clique n)) ∧
    (∀ n, n ≤ 2 ^ 32 → Kept (.ok (EditDigraph.independent n))) ∧
    (∀ s t, 0 < s → 0 < t → s + t < 2 ^ 32 → Kept (EditDigraph.biclique s t)) ∧
    (∀ n, 0 < n → n + 1 < 2 ^ 32 → Kept (EditDigraph.star n)) ∧
    (∀ s t, s * t < 2 ^ 32 → ¬ (s = 1 ∧ t = 1) → Kept (EditDigraph.grid s t)) ∧
    (∀ n, 3 ≤ n → n ≤ 2 ^ 32 → ∀ σ, ∃ g h m k, EditDigraph.cycle n = .ok g ∧ g.normalize σ = .ok (h, m) ∧
      EditDigraph.new.disjUnion g.view.toGraph = .ok k ∧ h.eq g = false ∧ k.eq g = false ∧ h.eq k = true ∧
      ∀ a b, h.hasArc a b = true ↔ b < n ∧ (b = a + 1 ∨ a = 0 ∧ b = n - 1)) := by
  refine ⟨fun n hn h => ?_, fun n hn => ?_, fun n hn h => ?_, fun n hn => ?_, fun s t hs ht h => ?_,
    fun n hn h => ?_, fun s t h h1 => ?_, fun n hn h σ => ?_⟩
  · exact (C36_path_partial n hn).kept h fun a b => by omega
  · exact (C36_matching n hn).kept hn fun a b => by omega
  · exact (C36_clique_partial n hn).kept h fun a b => by omega
  · exact (C36_independent n).kept hn fun a b => False.elim
  · exact (C36_biclique_partial s t (by omega) h).kept (by omega) fun a b => by omega
  · exact ((C36_star_partial n hn h).congr (P' := (· < n + 1)) (fun u => by omega) fun _ _ => Iff.rfl).kept
      (by omega) fun a b => by omega
  · refine (C36_grid_partial s t h h1).kept (by omega) fun a b hab => ?_
    rw [← Nat.div_add_mod a t, ← Nat.div_add_mod b t]
    rcases hab.2.2 with ⟨e1, e2⟩ | ⟨e1, e2⟩
    · rw [e1, e2]; omega
    · rw [e1, e2, Nat.mul_add]; omega
  · have Hc : DGenerates (EditDigraph.cycle n) (· < n)
        (fun u v => u < n ∧ v = if u + 1 = n then 0 else u + 1) :=
      (C36_cycle n).congr (fun _ => Iff.rfl) fun u v => and_congr_right fun hu => by rw [cycle_next hu]
    obtain ⟨g, h', m, h1, h2, -, h3, h4⟩ := C142_normalize Hc σ
    obtain ⟨k, k1, k2, k3, k4⟩ := h4 h
    obtain ⟨h'', e, e2, e3, e4⟩ := h3
    cases e
    obtain ⟨g', f1, f2, f3, f4⟩ := Hc
    rw [h1] at f1
    cases f1
    replace e4 : ∀ u v : ℕ, h'.hasArc u v = true ↔ u ≤ v ∧ ((u < n ∧ v = if u + 1 = n then 0 else u + 1) ∨
      (v < n ∧ u = if v + 1 = n then 0 else v + 1)) := e4
    replace k4 : ∀ u v : ℕ, k.hasArc u v = true ↔ u ≤ v ∧ ((u < n ∧ v = if u + 1 = n then 0 else u + 1) ∨
      (v < n ∧ u = if v + 1 = n then 0 else v + 1)) := k4
    replace f4 : ∀ u v : ℕ, g.hasArc u v = true ↔ u < n ∧ v = if u + 1 = n then 0 else u + 1 := f4
    have hdown : g.hasArc (n - 1) 0 = true := by
      rw [f4, if_pos (by omega)]; omega
    refine ⟨g, h', m, k, h1, h2, k1, ?_, ?_, (C35_eq e2 k2).2 ⟨fun u => ?_, fun a b => ?_⟩, fun a b => ?_⟩
    · rw [Bool.eq_false_iff]
      intro hh
      rw [← ((C35_eq e2 f2).1 hh).2, e4] at hdown
      omega
    · rw [Bool.eq_false_iff]
      intro hh
      rw [← ((C35_eq k2 f2).1 hh).2, k4] at hdown
      omega
    · rw [Bool.eq_iff_iff, e3, k3]
    · rw [Bool.eq_iff_iff, e4, k4]
    · rw [e4]
      split_ifs <;> omega

/-- `C142_kept` for a path and a cycle on four vertices. -/
example : Kept (EditDigraph.path 4) ∧ ∃ g, EditDigraph.cycle 4 = .ok g ∧ ∃ k, 
    EditDigraph.new.disjUnion g.view.toGraph = .ok k ∧ k.eq g = false := by
  obtain ⟨g, -, -, k, h1, -, h2, -, h3, -⟩ := C142_kept.2.2.2.2.2.2.2 4 (by decide) (by decide) Shuffle.id
  exact ⟨C142_kept.1 4 (by decide) (by decide), g, h1, k, h2, h3⟩

end Verif
