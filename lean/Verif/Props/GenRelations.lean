import Verif.Props.GenCounts
import Verif.Props.EditOps
import Verif.Props.Operations
/-! # C141: how the named graphs arise from one another -/
namespace Verif
open EditGraph

/-- The two calls return graphs that `==` calls equal. -/
def SameGraph (r r' : Res EditGraph) : Prop := ∃ g h, r = .ok g ∧ r' = .ok h ∧ g.eq h = true

theorem Generates.same {r r' : Res EditGraph} {P P' : ℕ → Prop} {R R' : ℕ → ℕ → Prop}
    (H : Generates r P R) (H' : Generates r' P' R') (hP : ∀ u, P u ↔ P' u) (hR : ∀ u v, R u v ↔ R' u v) :
    SameGraph r r' := by
  obtain ⟨g, h1, h2, h3, h4⟩ := H
  obtain ⟨h, k1, k2, k3, k4⟩ := H'
  refine ⟨g, h, h1, k1, (C06_eq h2 k2).2 ⟨fun u => ?_, fun u v => ?_⟩⟩
  · rw [Bool.eq_iff_iff, h3, k3, hP]
  · rw [Bool.eq_iff_iff, h4, k4, hR]

theorem Generates.is {r : Res EditGraph} {P : ℕ → Prop} {R : ℕ → ℕ → Prop} (H : Generates r P R) :
    ∃ g, r = .ok g ∧ Is g P R := by
  obtain ⟨g, S, hg, A, hV, hA⟩ := H.abs
  exact ⟨g, hg, S, A, hV, hA⟩

theorem partOf_replicate_one : ∀ (n : ℕ) {u : ℕ}, u < n → partOf (List.replicate n 1) u = u
  | 0, u, h => by omega
  | n + 1, u, h => by
    rw [List.replicate_succ, partOf]
    by_cases h0 : u < 1
    · rw [if_pos h0]; omega
    · rw [if_neg h0, partOf_replicate_one n (by omega)]; omega

/-- **C141 (the same graph under two names).** -/
theorem C141_names :
    (∀ s t, 0 < s → 0 < t → s + t < 2 ^ 32 → SameGraph (biclique s t) (completeKpartite [s, t])) ∧
    (∀ n, 2 ≤ n → n < 2 ^ 32 → SameGraph (clique n) (completeKpartite (List.replicate n 1))) ∧
    (∀ n, 0 < n → n + 1 < 2 ^ 32 → SameGraph (EditGraph.star n) (completeKpartite [1, n])) ∧
    (∀ n, 2 ≤ n → n < 2 ^ 32 → SameGraph (grid 1 n) (path n) ∧ SameGraph (grid n 1) (path n)) ∧
    SameGraph (cycle 3) (clique 3) ∧ SameGraph (path 2) (clique 2) ∧ SameGraph (matching 1) (path 2) := by
  refine ⟨fun s t hs ht h => ?_, fun n hn h => ?_, fun n hn h => ?_, fun n hn h => ⟨?_, ?_⟩, ?_, ?_, ?_⟩
  · refine (C11_biclique_partial s t hs ht h).same (C11_kpartite_partial [s, t] (by simpa using h) ?_) ?_ ?_
    · simp [hs, ht]
    · intro u; simp
    · intro u v
      simp only [List.sum_cons, List.sum_nil, partOf]
      split_ifs <;> omega
  · have hs : (List.replicate n 1).sum = n := by simp
    refine (C11_clique n).same (C11_kpartite_partial (List.replicate n 1) (by omega) ?_) ?_ ?_
    · rw [List.filter_replicate]; simpa using hn
    · intro u; rw [hs]
    · intro u v
      rw [hs]
      refine and_congr_right fun hu => and_congr_right fun hv => ?_
      rw [partOf_replicate_one n hu, partOf_replicate_one n hv]
  · refine (C11_star_partial n hn h).same (C11_kpartite_partial [1, n] (by simpa [Nat.add_comm] using h) ?_) ?_ ?_
    · simp [hn]
    · intro u; simp only [List.sum_cons, List.sum_nil]; omega
    · intro u v
      simp only [List.sum_cons, List.sum_nil, partOf]
      split_ifs <;> omega
  · refine (C11_grid_partial 1 n (by omega) (by omega)).same (C11_path n) ?_ ?_
    · intro u; rw [Nat.one_mul]
    · intro u v
      rw [Nat.one_mul]
      refine and_congr_right fun hu => and_congr_right fun hv => ?_
      rw [Nat.div_eq_of_lt hu, Nat.div_eq_of_lt hv, Nat.mod_eq_of_lt hu, Nat.mod_eq_of_lt hv]
      omega
  · refine (C11_grid_partial n 1 (by omega) (by omega)).same (C11_path n) ?_ ?_
    · intro u; rw [Nat.mul_one]
    · intro u v
      rw [Nat.mul_one, Nat.div_one, Nat.div_one, Nat.mod_one, Nat.mod_one]
      omega
  · exact (C11_cycle 3).same (C11_clique 3) (fun _ => Iff.rfl) fun u v => by omega
  · exact (C11_path 2).same (C11_clique 2) (fun _ => Iff.rfl) fun u v => by omega
  · exact (C11_matching 1 (by decide)).same (C11_path 2) (fun _ => by omega) fun u v => by omega

/-- The smallest cases of `C141_names`: `K_{2,3}` and the triangle. -/
example : SameGraph (biclique 2 3) (completeKpartite [2, 3]) ∧ SameGraph (clique 3) (completeKpartite [1, 1, 1]) :=
  ⟨C141_names.1 2 3 (by decide) (by decide) (by decide), C141_names.2.1 3 (by decide) (by decide)⟩

/-- What a call leaves behind: `op` applied to the graph returned by `r` gives the graph returned by `r'`. -/
def Becomes (r : Res EditGraph) (op : EditGraph → Res EditGraph) (r' : Res EditGraph) : Prop :=
  ∃ g, r = .ok g ∧ SameGraph (op g) r'

theorem Generates.becomes {r r' : Res EditGraph} {P P' P₁ : ℕ → Prop} {R R' R₁ : ℕ → ℕ → Prop}
    {op : EditGraph → Res EditGraph}
    (H : Generates r P R) (hop : ∀ g, Is g P R → Generates (op g) P₁ R₁) (H' : Generates r' P' R')
    (hP : ∀ u, P₁ u ↔ P' u) (hR : ∀ u v, R₁ u v ↔ R' u v) : Becomes r op r' := by
  obtain ⟨g, hg, A⟩ := H.is
  exact ⟨g, hg, (hop g A).same H' hP hR⟩

/-- `g.remove_vertex(u)`, keeping only the graph. -/
def dropV (u : Vertex) (g : EditGraph) : Res EditGraph := do return (← g.removeVertex u).1

/-- `g.add_edge(u, v)`, keeping only the graph. -/
def putE (u v : Vertex) (g : EditGraph) : Res EditGraph := do return (← g.addEdge u v).1

theorem dropV_gen {g : EditGraph} {P : ℕ → Prop} {R : ℕ → ℕ → Prop} (u : Vertex) (H : Is g P R) :
    Generates (dropV u g) (fun w => P w ∧ w ≠ u) (fun a b => R a b ∧ a ≠ u ∧ b ≠ u) :=
  .of_is (Ok.bind (H.removeVertex u) fun _ hr => Ok.pure hr)

theorem putE_gen {g : EditGraph} {P : ℕ → Prop} {R : ℕ → ℕ → Prop} (u v : Vertex) (H : Is g P R) :
    Generates (putE u v g) (fun w => P w ∨ w = u ∨ w = v)
      (fun a b => R a b ∨ (a = u ∧ b = v) ∨ (a = v ∧ b = u)) :=
  .of_is (H.addEdge' u v)

theorem cycle_next {n u : ℕ} (hu : u < n) : (u + 1) % n = if u + 1 = n then 0 else u + 1 := by
  split_ifs with h
  · rw [h, Nat.mod_self]
  · exact Nat.mod_eq_of_lt (by omega)

/-- The cycle, its wrap-around written out. -/
theorem cycle_gen (n : ℕ) : Generates (cycle n) (fun u => u < n) (fun u v => u < n ∧ v < n ∧
    (v = (if u + 1 = n then 0 else u + 1) ∨ u = (if v + 1 = n then 0 else v + 1))) := by
  refine (C11_cycle n).congr (fun _ => Iff.rfl) fun u v => ?_
  refine and_congr_right fun hu => and_congr_right fun hv => ?_
  rw [cycle_next hu, cycle_next hv]

/-- **C141 (one vertex or edge more or less).** Deleting the last vertex of a path, clique, star or grid row
leaves the next smaller one, of a cycle a path; joining the two ends of a path closes a cycle; and the other
way round for appending. -/
theorem C141_steps (n : ℕ) :
    Becomes (path (n + 1)) (dropV n) (path n) ∧
    Becomes (cycle (n + 1)) (dropV n) (path n) ∧
    Becomes (clique (n + 1)) (dropV n) (clique n) ∧
    (2 ≤ n → n + 1 < 2 ^ 32 → Becomes (EditGraph.star n) (dropV n) (EditGraph.star (n - 1))) ∧
    (n + 1 < 2 ^ 32 → 0 < n → Becomes (EditGraph.star n) (dropV 0)
      (do let g ← .ok (independent (n + 1)); dropV 0 g)) ∧
    (3 ≤ n → Becomes (path n) (putE 0 (n - 1)) (cycle n)) ∧
    (1 ≤ n → Becomes (path n) (putE (n - 1) n) (path (n + 1))) ∧
    (1 ≤ n → n + 2 < 2 ^ 32 → Becomes (EditGraph.star n) (putE (n + 1) 0) (EditGraph.star (n + 1))) := by
  refine ⟨?_, ?_, ?_, ?_, ?_, ?_, ?_, ?_⟩
  · exact (C11_path _).becomes (fun _ => dropV_gen n) (C11_path n) (fun u => by omega) fun u v => by omega
  · refine (cycle_gen _).becomes (fun _ => dropV_gen n) (C11_path n) (fun u => by omega) fun u v => ?_
    split_ifs <;> omega
  · exact (C11_clique _).becomes (fun _ => dropV_gen n) (C11_clique n) (fun u => by omega) fun u v => by omega
  · intro h2 h
    exact (C11_star_partial n (by omega) h).becomes (fun _ => dropV_gen n)
      (C11_star_partial (n - 1) (by omega) (by omega)) (fun u => by omega) fun u v => by omega
  · intro h h0
    exact (C11_star_partial n h0 h).becomes (fun _ => dropV_gen 0)
      (dropV_gen 0 (is_independent (n + 1))) (fun u => by omega)
      fun u v => ⟨fun h => by omega, fun h => h.1.elim⟩
  · intro h3
    refine (C11_path n).becomes (fun _ => putE_gen 0 (n - 1)) (cycle_gen n) (fun u => by omega) fun u v => ?_
    split_ifs <;> omega
  · intro h1
    exact (C11_path n).becomes (fun _ => putE_gen (n - 1) n) (C11_path (n + 1)) (fun u => by omega)
      fun u v => by omega
  · intro h1 h
    exact (C11_star_partial n h1 (by omega)).becomes (fun _ => putE_gen (n + 1) 0)
      (C11_star_partial (n + 1) (by omega) (by omega)) (fun u => by omega) fun u v => by omega

/-- `C141_steps` for the path, cycle and star of size 4. -/
example : Becomes (path 4) (putE 0 3) (cycle 4) ∧ Becomes (cycle 5) (dropV 4) (path 4) :=
  ⟨(C141_steps 4).2.2.2.2.2.1 (by decide), (C141_steps 4).2.1⟩

theorem contract_gen {g : EditGraph} {P : ℕ → Prop} {R : ℕ → ℕ → Prop} (σ : Shuffle Vertex) {u v : Vertex}
    (H : Is g P R) (hu : P u) (hv : P v) (huv : u ≠ v) (hl : ∀ w, ¬ R w w) (hs : ∀ a b, R a b → R b a) :
    Generates (g.contractPair σ u v) (fun w => P w ∧ w ≠ v) (fun a b => a ≠ v ∧ b ≠ v ∧ a ≠ b ∧
      (R a b ∨ (a = u ∧ R v b) ∨ (b = u ∧ R v a))) := by
  obtain ⟨h, h1, h2, h3, h4, h5, h6⟩ := (C14_contract_pair_partial H.reachable σ u v).1
    ⟨(H.contains u).2 hu, (H.contains v).2 hv, huv⟩
  have hsym : ∀ a b, h.adjacent a b = h.adjacent b a := by
    intro a b
    obtain ⟨S, A⟩ := h2.abs
    rw [A.adjacent, A.adjacent, decide_eq_decide]
    exact ⟨fun x => x.symm, fun x => x.symm⟩
  refine ⟨h, h1, h2, fun w => by rw [h3, H.contains], fun a b => ?_⟩
  have key : ∀ b, b ≠ u → (h.adjacent u b = true ↔ b ≠ v ∧ (R u b ∨ R v b)) := fun b hb => by
    rw [h5 b hb, H.adjacent, H.adjacent]
  by_cases ha : a = u
  · subst ha
    by_cases hb : b = a
    · subst hb
      rw [h6, H.adjacent]
      simp [hl]
    · rw [key b hb]
      have : a ≠ b := fun h => hb h.symm
      tauto
  · by_cases hb : b = u
    · subst hb
      rw [hsym, key a ha]
      have := hs a b
      have := hs b a
      tauto
    · rw [h4 a b ha hb, H.adjacent]
      have : R a b → a ≠ b := fun h e => hl a (by rw [← e] at h; exact h)
      tauto

/-- **C141 (contractions).** Contracting an edge of a path, cycle or clique gives the next smaller one. -/
theorem C141_contract (n : ℕ) (σ : Shuffle Vertex) :
    (1 ≤ n → Becomes (path (n + 1)) (fun g => g.contractPair σ (n - 1) n) (path n)) ∧
    (3 ≤ n → Becomes (cycle (n + 1)) (fun g => g.contractPair σ (n - 1) n) (cycle n)) ∧
    (3 ≤ n → Becomes (cycle (n + 1)) (fun g => g.contractPair σ 0 n) (cycle n)) ∧
    (∀ u, u < n → Becomes (clique (n + 1)) (fun g => g.contractPair σ u n) (clique n)) ∧
    (2 ≤ n → n + 1 < 2 ^ 32 →
      Becomes (EditGraph.star n) (fun g => g.contractPair σ 0 n) (EditGraph.star (n - 1))) := by
  refine ⟨fun h1 => ?_, fun h3 => ?_, fun h3 => ?_, fun u hu => ?_, fun h2 h => ?_⟩
  · exact (C11_path _).becomes (fun _ H => contract_gen σ H (by omega) (by omega) (by omega)
      (fun w => by omega) fun a b => by omega) (C11_path n) (fun u => by omega) fun u v => by omega
  · refine (cycle_gen _).becomes (fun _ H => contract_gen σ H (by omega) (by omega) (by omega)
      (fun w => by split_ifs <;> omega) fun a b => by tauto) (cycle_gen n) (fun u => by omega) fun u v => ?_
    split_ifs <;> omega
  · refine (cycle_gen _).becomes (fun _ H => contract_gen σ H (by omega) (by omega) (by omega)
      (fun w => by split_ifs <;> omega) fun a b => by tauto) (cycle_gen n) (fun u => by omega) fun u v => ?_
    split_ifs <;> omega
  · exact (C11_clique _).becomes (fun _ H => contract_gen σ H (by omega) (by omega) (by omega)
      (fun w => by omega) fun a b => by omega) (C11_clique n) (fun u => by omega) fun u v => by omega
  · exact (C11_star_partial n (by omega) h).becomes (fun _ H => contract_gen σ H (by omega) (by omega) (by omega)
      (fun w => by omega) fun a b => by omega) (C11_star_partial (n - 1) (by omega) (by omega))
      (fun u => by omega) fun u v => by omega

/-- `C141_contract` on the five-cycle and on `K_4`. -/
example (σ : Shuffle Vertex) : Becomes (cycle 5) (fun g => g.contractPair σ 3 4) (cycle 4) ∧
    Becomes (clique 4) (fun g => g.contractPair σ 1 3) (clique 3) :=
  ⟨(C141_contract 4 σ).2.1 (by decide), (C141_contract 3 σ).2.2.2.1 1 (by decide)⟩

theorem invert_gen {g : EditGraph} {P : ℕ → Prop} {R : ℕ → ℕ → Prop} (H : Is g P R) :
    Generates g.view.invert P (fun a b => P a ∧ P b ∧ a ≠ b ∧ ¬ R a b) := by
  obtain ⟨S, A, hV, hA⟩ := H
  obtain ⟨h, h1, h2, h3, h4⟩ := C19_invert A.rep
  exact ⟨h, h1, h2, fun u => by rw [h3, hV], fun a b => by rw [h4, hV, hV, hA]⟩

theorem subgraph_gen {g : EditGraph} {P : ℕ → Prop} {R : ℕ → ℕ → Prop} (σ : Shuffle Vertex)
    (τ : Vertex → Shuffle Vertex) (X : List Vertex) (hX : ∀ x ∈ X, P x) (H : Is g P R) :
    Generates (g.view.subgraph σ τ X) (fun u => u ∈ X) (fun a b => a ∈ X ∧ b ∈ X ∧ R a b) := by
  obtain ⟨S, A, hV, hA⟩ := H
  obtain ⟨h, h1, h2, h3, h4⟩ := C18_subgraph A.rep σ τ X fun x hx => (hV x).2 (hX x hx)
  exact ⟨h, h1, h2, h3, fun a b => by rw [h4, hA]⟩

/-- **C141 (the numbers of a disjoint union).** `disj_union` shifts the second graph by exactly one more than
the largest id of the first one, by nothing if the first one is empty. -/
theorem C141_offset {g : EditGraph} (hg : Reachable g) {G : Graph} {T : SGraph} (hG : G.Rep T) {k : ℕ}
    (hk : ∀ u : ℕ, g.contains u = true → u < k) (hk' : k = 0 ∨ g.contains (k - 1) = true) (hk2 : k < 2 ^ 32)
    (hT : ∀ v ∈ T.V, v + k < 2 ^ 32) :
    Generates (g.disjUnion G) (fun w => g.contains w = true ∨ k ≤ w ∧ w - k ∈ T.V)
      (fun a b => g.adjacent a b = true ∨ (k ≤ a ∧ k ≤ b ∧ T.Adj (a - k) (b - k))) := by
  obtain ⟨S, A⟩ := hg.abs
  have hc : ∀ u : ℕ, g.contains u = true ↔ u ∈ S.V := fun u => by rw [A.contains, decide_eq_true_eq]
  have ha : ∀ u v : ℕ, g.adjacent u v = true ↔ S.Adj u v := fun u v => by rw [A.adjacent, decide_eq_true_eq]
  have hoff : offsetOf S = k := by
    refine le_antisymm (Finset.sup_le fun u hu => hk u ((hc u).2 hu)) ?_
    rcases hk' with h | h
    · omega
    · have h1 := lt_offsetOf ((hc _).1 h)
      omega
  obtain ⟨h, h1, h2⟩ := A.disjUnion hG (by omega) (by rw [hoff]; exact hT)
  rw [hoff] at h2
  refine ⟨h, h1, h2.reachable, fun w => ?_, fun a b => ?_⟩
  · rw [h2.contains, decide_eq_true_eq]
    show w ∈ S.V ∪ _ ↔ _ ∨ _
    rw [hc, Finset.mem_union, SGraph.mem_shift_V]
    refine or_congr Iff.rfl ⟨?_, ?_⟩
    · rintro ⟨v, hv, rfl⟩
      exact ⟨by omega, by rwa [Nat.add_sub_cancel]⟩
    · rintro ⟨hw, hv⟩
      exact ⟨_, hv, by omega⟩
  · rw [h2.adjacent, decide_eq_true_eq]
    show _ ↔ _ ∨ _
    rw [ha, SGraph.union_adj, SGraph.shift_adj]
    refine or_congr Iff.rfl ⟨?_, ?_⟩
    · rintro ⟨u, v, hv, rfl, rfl⟩
      exact ⟨by omega, by omega, by rwa [Nat.add_sub_cancel, Nat.add_sub_cancel]⟩
    · rintro ⟨ha, hb, hv⟩
      exact ⟨_, _, hv, by omega, by omega⟩

/-- `C141_offset` on two triangles. -/
example : ∃ g T, clique 3 = .ok g ∧ g.view.Rep T ∧ Generates (g.disjUnion g.view)
    (fun w => g.contains w = true ∨ 3 ≤ w ∧ w - 3 ∈ T.V)
    (fun a b => g.adjacent a b = true ∨ (3 ≤ a ∧ 3 ≤ b ∧ T.Adj (a - 3) (b - 3))) := by
  obtain ⟨g, S, hg, A, hV, hA⟩ := (C11_clique 3).abs
  have hc : ∀ u : ℕ, g.contains u = true ↔ u < 3 := fun u => by rw [A.contains, decide_eq_true_eq, hV]
  exact ⟨g, S, hg, A.rep, C141_offset A.reachable A.rep (fun u hu => (hc u).1 hu) (.inr ((hc 2).2 (by decide)))
    (by decide) fun v hv => by have := (hV v).1 hv; omega⟩

theorem union_gen {g h : EditGraph} {a b : ℕ} {R R' : ℕ → ℕ → Prop} (H : Is g (· < a) R) (H' : Is h (· < b) R')
    (hab : a + b < 2 ^ 32) :
    Generates (g.disjUnion h.view) (· < a + b) (fun u v => R u v ∨ (a ≤ u ∧ a ≤ v ∧ R' (u - a) (v - a))) := by
  obtain ⟨T, A, hV, hA⟩ := H'
  refine (C141_offset H.reachable A.rep (k := a) (fun u hu => (H.contains u).1 hu) ?_ (by omega) ?_).congr ?_ ?_
  · by_cases h0 : a = 0
    · exact .inl h0
    · exact .inr ((H.contains _).2 (by omega))
  · intro v hv
    have := (hV v).1 hv
    omega
  · intro u
    rw [H.contains, hV]; omega
  · intro u v
    rw [H.adjacent, hA]

theorem partOf_append_left : ∀ (l l' : List ℕ) {u : ℕ}, u < l.sum → partOf (l ++ l') u = partOf l u
  | [], _, u, h => by simp at h
  | a :: l, l', u, h => by
    rw [List.sum_cons] at h
    rw [List.cons_append, partOf, partOf]
    by_cases hu : u < a
    · rw [if_pos hu, if_pos hu]
    · rw [if_neg hu, if_neg hu, partOf_append_left l l' (by omega)]

theorem partOf_lt : ∀ (l : List ℕ) {u : ℕ}, u < l.sum → partOf l u < l.length
  | [], u, h => by simp at h
  | a :: l, u, h => by
    rw [List.sum_cons] at h
    rw [partOf, List.length_cons]
    by_cases hu : u < a
    · rw [if_pos hu]; omega
    · rw [if_neg hu]
      have := partOf_lt l (u := u - a) (by omega)
      omega

theorem partOf_append_last : ∀ (l : List ℕ) {a u : ℕ}, l.sum ≤ u → u < l.sum + a → partOf (l ++ [a]) u = l.length
  | [], a, u, h, h' => by
    rw [List.nil_append, partOf, if_pos (by simpa using h')]; rfl
  | b :: l, a, u, h, h' => by
    rw [List.sum_cons] at h h'
    rw [List.cons_append, partOf, if_neg (by omega), partOf_append_last l (by omega) (by omega), List.length_cons]

/-- Cliques placed one after the other. -/
theorem is_cliqueUnion {sizes : List ℕ} {gs : List EditGraph}
    (F : List.Forall₂ (fun n g => clique n = .ok g) sizes gs) : ∀ (p : List ℕ) (acc : EditGraph),
    (p ++ sizes).sum < 2 ^ 32 →
    Is acc (· < p.sum) (fun u v => u < p.sum ∧ v < p.sum ∧ u ≠ v ∧ partOf p u = partOf p v) →
    Ok ((gs.map EditGraph.view).foldlM (fun (g : EditGraph) G => g.disjUnion G) acc) (fun h =>
      Is h (· < (p ++ sizes).sum) (fun u v => u < (p ++ sizes).sum ∧ v < (p ++ sizes).sum ∧ u ≠ v ∧
        partOf (p ++ sizes) u = partOf (p ++ sizes) v)) := by
  induction F with
  | nil => intro p acc hs H; simpa using Ok.pure H
  | @cons n g sizes gs hg F ih =>
    intro p acc hs H
    obtain ⟨g', hg', Hg⟩ := (C11_clique n).is
    rw [hg] at hg'
    cases hg'
    have hsum : (p ++ [n]).sum = p.sum + n := by simp
    have hs' : (p ++ n :: sizes) = (p ++ [n]) ++ sizes := by simp
    rw [hs'] at hs ⊢
    have hlt : p.sum + n < 2 ^ 32 := by
      rw [List.sum_append, hsum] at hs; omega
    obtain ⟨h, h1, h2⟩ := (union_gen H Hg hlt).is
    rw [List.map_cons, List.foldlM_cons, h1]
    refine ih (p ++ [n]) h hs (h2.congr (fun u => by rw [hsum]) fun u v => ?_)
    rw [hsum]
    by_cases hu : u < p.sum <;> by_cases hv : v < p.sum
    · rw [partOf_append_left p [n] hu, partOf_append_left p [n] hv]
      omega
    · have := partOf_lt p hu
      rw [partOf_append_left p [n] hu]
      refine ⟨fun h => by omega, fun ⟨_, h5, _, h6⟩ => ?_⟩
      rw [partOf_append_last p (by omega) h5] at h6
      omega
    · have := partOf_lt p hv
      rw [partOf_append_left p [n] hv]
      refine ⟨fun h => by omega, fun ⟨h5, _, _, h6⟩ => ?_⟩
      rw [partOf_append_last p (by omega) h5] at h6
      omega
    · refine ⟨fun h => ?_, fun h => by omega⟩
      have h5 : u < p.sum + n ∧ v < p.sum + n ∧ u ≠ v := by omega
      rw [partOf_append_last p (by omega) h5.1, partOf_append_last p (by omega) h5.2.1]
      exact ⟨h5.1, h5.2.1, h5.2.2, rfl⟩

/-- **C141 (complements).** The complement of a clique is edgeless and conversely; the complement of a complete
multipartite graph is what `disj_unions` makes of the cliques on its parts. -/
theorem C141_invert :
    (∀ n, Becomes (clique n) (fun g => g.view.invert) (.ok (independent n))) ∧
    (∀ n, Becomes (.ok (independent n)) (fun g => g.view.invert) (clique n)) ∧
    (∀ sizes : List ℕ, sizes.sum < 2 ^ 32 → 2 ≤ (sizes.filter (0 < ·)).length →
      ∃ gs, sizes.mapM clique = .ok gs ∧
        Becomes (completeKpartite sizes) (fun g => g.view.invert) (disjUnions (gs.map EditGraph.view))) := by
  refine ⟨fun n => ?_, fun n => ?_, fun sizes h h2 => ?_⟩
  · exact (C11_clique n).becomes (fun _ => invert_gen) (C11_independent n) (fun _ => Iff.rfl)
      fun u v => ⟨fun h => by omega, False.elim⟩
  · exact (C11_independent n).becomes (fun _ => invert_gen) (C11_clique n) (fun _ => Iff.rfl)
      fun u v => ⟨fun h => ⟨h.1, h.2.1, h.2.2.1⟩, fun h => ⟨h.1, h.2.1, h.2.2, id⟩⟩
  · obtain ⟨gs, hgs, F⟩ := Ok.mapM (f := clique) (l := sizes) (R := fun n g => clique n = .ok g) (fun n _ => by
      obtain ⟨g, hg, -⟩ := C11_clique n
      exact ⟨g, hg, hg⟩)
    refine ⟨gs, hgs, ?_⟩
    have key := is_cliqueUnion F [] EditGraph.new h (Is.new.congr (fun u => by simp) fun u v => by simp)
    refine (C11_kpartite_partial sizes h h2).becomes (fun _ => invert_gen) (Generates.of_is key)
      (fun u => Iff.rfl) fun u v => ?_
    simp only [List.nil_append]
    tauto

/-- `C141_invert` on `K_{2,3}`, whose complement is an edge and a triangle. -/
example : ∃ gs, [2, 3].mapM clique = .ok gs ∧
    Becomes (completeKpartite [2, 3]) (fun g => g.view.invert) (disjUnions (gs.map EditGraph.view)) :=
  C141_invert.2.2 [2, 3] (by decide) (by decide)

/-- **C141 (disjoint unions).** Two edgeless graphs make one edgeless graph, and adding the edge between the last
vertex of the first and the first vertex of the second path makes one path of two. -/
theorem C141_unions (a b : ℕ) (h : a + b < 2 ^ 32) :
    SameGraph ((independent a).disjUnion (independent b).view) (.ok (independent (a + b))) ∧
    (0 < a → 0 < b → ∃ g k, path a = .ok g ∧ path b = .ok k ∧
      Becomes (g.disjUnion k.view) (putE (a - 1) a) (path (a + b))) := by
  constructor
  · exact (union_gen (is_independent a) (is_independent b) h).same (C11_independent (a + b)) (fun _ => Iff.rfl)
      fun u v => by simp
  · intro ha hb
    obtain ⟨g, hg, H⟩ := (C11_path a).is
    obtain ⟨k, hk, K⟩ := (C11_path b).is
    exact ⟨g, k, hg, hk, (union_gen H K h).becomes (fun _ => putE_gen (a - 1) a) (C11_path (a + b))
      (fun u => by omega) fun u v => by omega⟩

/-- `C141_unions` on sizes 2 and 3. -/
example := C141_unions 2 3 (by decide)

/-- **C141 (induced subgraphs).** The first `k` vertices induce a path in a longer path or cycle, a clique in a
clique, a star in a star, and the first `k * t` vertices of a grid with `t` columns induce the grid with `k`
rows. -/
theorem C141_subgraph (σ : Shuffle Vertex) (τ : Vertex → Shuffle Vertex) (n k : ℕ) (h : k ≤ n) :
    Becomes (path n) (fun g => g.view.subgraph σ τ (List.range k)) (path k) ∧
    (k < n → Becomes (cycle n) (fun g => g.view.subgraph σ τ (List.range k)) (path k)) ∧
    Becomes (clique n) (fun g => g.view.subgraph σ τ (List.range k)) (clique k) ∧
    (2 ≤ k → n < 2 ^ 32 → Becomes (EditGraph.star (n - 1)) (fun g => g.view.subgraph σ τ (List.range k))
      (EditGraph.star (k - 1))) ∧
    (∀ t, 2 ≤ t → n * t < 2 ^ 32 → Becomes (grid n t)
      (fun g => g.view.subgraph σ τ (List.range (k * t))) (grid k t)) := by
  refine ⟨?_, fun hk => ?_, ?_, fun h2 hn => ?_, fun t ht hn => ?_⟩
  · refine (C11_path n).becomes (fun _ => subgraph_gen σ τ _ fun x hx => ?_) (C11_path k) (fun u => List.mem_range)
      fun u v => ?_
    · have := List.mem_range.1 hx; omega
    · rw [List.mem_range, List.mem_range]; omega
  · refine (cycle_gen n).becomes (fun _ => subgraph_gen σ τ _ fun x hx => ?_) (C11_path k) (fun u => List.mem_range)
      fun u v => ?_
    · have := List.mem_range.1 hx; omega
    · rw [List.mem_range, List.mem_range]; split_ifs <;> omega
  · refine (C11_clique n).becomes (fun _ => subgraph_gen σ τ _ fun x hx => ?_) (C11_clique k)
      (fun u => List.mem_range) fun u v => ?_
    · have := List.mem_range.1 hx; omega
    · rw [List.mem_range, List.mem_range]; omega
  · refine (C11_star_partial (n - 1) (by omega) (by omega)).becomes (fun _ => subgraph_gen σ τ _ fun x hx => ?_)
      (C11_star_partial (k - 1) (by omega) (by omega)) (fun u => ?_) fun u v => ?_
    · have := List.mem_range.1 hx; omega
    · rw [List.mem_range]; omega
    · rw [List.mem_range, List.mem_range]; omega
  · have hkn : k * t ≤ n * t := Nat.mul_le_mul_right t h
    refine (C11_grid_partial n t hn (by omega)).becomes (fun _ => subgraph_gen σ τ _ fun x hx => ?_)
      (C11_grid_partial k t (by omega) (by omega)) (fun u => List.mem_range) fun u v => ?_
    · have := List.mem_range.1 hx; omega
    · rw [List.mem_range, List.mem_range]
      refine and_congr_right fun hu => and_congr_right fun hv => ?_
      exact ⟨fun h => h.2.2, fun h => ⟨by omega, by omega, h⟩⟩

/-- `C141_subgraph` for four of seven vertices and four of seven rows. -/
example (σ : Shuffle Vertex) (τ : Vertex → Shuffle Vertex) := C141_subgraph σ τ 7 4 (by decide)

end Verif
