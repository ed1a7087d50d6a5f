import Verif.Props.Generators
import Verif.Props.EditOps
import Verif.Props.EditDigraph
/-!
# C114: generators and disjoint unions outside the intended range of their arguments

`C11`, `C12`, `C34` and `C36` describe the generators and the disjoint union for arguments for which the advertised graph
is produced.  Together with the statements of this file every call is described: which sizes produce an empty graph and
which calls overflow (a panic in builds with overflow checks).
-/
namespace Verif
open EditGraph

/-- A loop whose steps succeed or fail with the fault `e`, one of them always failing, fails with `e`. -/
theorem foldlM_faults {α β : Type} {f : β → α → Res β} (e : Fault) (I : β → Prop) :
    ∀ (l : List α) (b : β), I b → (∀ a ∈ l, ∀ b, I b → f b a = .error e ∨ Ok (f b a) I) →
    (∃ a ∈ l, ∀ b, I b → f b a = .error e) → l.foldlM f b = .error e := by
  intro l
  induction l with
  | nil => rintro b - - ⟨a, ha, -⟩; cases ha
  | cons a l ih =>
    intro b hb hf hbad
    rw [List.foldlM_cons]
    rcases hf a (by simp) b hb with h | ⟨b', h, hb'⟩
    · rw [h]; rfl
    · rw [h, bind_ok]
      refine ih b' hb' (fun x hx => hf x (by simp [hx])) ?_
      obtain ⟨x, hx, hx'⟩ := hbad
      rcases List.mem_cons.1 hx with rfl | hx
      · rw [hx' b hb] at h; cases h
      · exact ⟨x, hx, hx'⟩

theorem foldlM_stays {α β : Type} {f : β → α → Res β} {b : β} : ∀ (l : List α), (∀ a ∈ l, f b a = .ok b) →
    l.foldlM f b = .ok b
  | [], _ => rfl
  | a :: l, h => by
    rw [List.foldlM_cons, h a (by simp), bind_ok]
    exact foldlM_stays l fun x hx => h x (by simp [hx])

theorem add32_overflow {a b : ℕ} (h : 2 ^ 32 ≤ a + b) : add32 a b = .error .overflow := if_neg (by omega)

theorem mul32_overflow {a b : ℕ} (h : 2 ^ 32 ≤ a * b) : mul32 a b = .error .overflow := if_neg (by omega)

/-! ## Undirected generators -/

/-- **C114 (biclique, star).**  More than `2^32 - 1` vertices overflow; if one of the sides is empty the graph is
returned without any vertex. -/
theorem C114_biclique (s t : ℕ) :
    (2 ^ 32 ≤ s + t → biclique s t = .error .overflow) ∧
    (s + t < 2 ^ 32 → s = 0 ∨ t = 0 → biclique s t = .ok new) ∧
    (2 ^ 32 ≤ t + 1 → EditGraph.star t = .error .overflow) ∧ EditGraph.star 0 = .ok new := by
  have ho : ∀ s t, 2 ^ 32 ≤ s + t → biclique s t = .error .overflow := fun s t h => by
    unfold biclique; rw [add32_overflow h]; rfl
  refine ⟨ho s t, ?_, fun h => ho 1 t (by omega), rfl⟩
  intro h h0
  unfold biclique
  rw [add32_ok h, bind_ok]
  unfold EditGraph.addBlock
  rcases h0 with rfl | rfl
  · rfl
  · refine foldlM_stays _ fun u _ => ?_
    have : s + 0 - s = 0 := by omega
    rw [this]; rfl

/-- `C114_biclique` for 0 and 5. -/
example := C114_biclique 0 5

/-- **C114 (matching).**  It overflows exactly if there are more than `2^32` vertices. -/
theorem C114_matching (n : ℕ) (h : 2 ^ 32 < 2 * n) : matching n = .error .overflow := by
  unfold matching
  refine foldlM_faults .overflow (fun g => ∃ P R, Is g P R) _ _ ⟨_, _, Is.new⟩ (fun u _ g hg => ?_)
    ⟨n - 1, List.mem_range.2 (by omega), fun g _ => by rw [add32_overflow (by omega)]; rfl⟩
  by_cases hu : u + n < 2 ^ 32
  · right
    obtain ⟨P, R, hg⟩ := hg
    rw [add32_ok hu, bind_ok]
    exact Ok.mono (hg.addEdge' u (u + n)) fun r hr => ⟨_, _, hr⟩
  · left; rw [add32_overflow (by omega)]; rfl

/-- `C114_matching` for one edge more than there are ids. -/
example := C114_matching (2 ^ 31 + 1) (by decide)

theorem kpartiteRanges_overflow {sizes : List ℕ} (h : 2 ^ 32 ≤ sizes.sum) : kpartiteRanges sizes = .error .overflow := by
  unfold kpartiteRanges
  have key : ∀ (l : List ℕ) (acc : List (ℕ × ℕ)) (left : ℕ), left < 2 ^ 32 → 2 ^ 32 ≤ left + l.sum →
      l.foldlM (fun (s : List (Nat × Nat) × Nat) size => do
        let right ← add32 s.2 size
        return (s.1 ++ [(s.2, right)], right)) (acc, left)
      = (.error .overflow : Res (List (ℕ × ℕ) × ℕ)) := by
    intro l
    induction l with
    | nil => intro acc left h1 h2; simp at h2; omega
    | cons a l ih =>
      intro acc left h1 h2
      rw [List.sum_cons] at h2
      rw [List.foldlM_cons]
      by_cases ha : left + a < 2 ^ 32
      · simp only [add32_ok ha, bind_ok, pure_eq_ok]
        exact ih _ _ ha (by omega)
      · simp only [add32_overflow (show 2 ^ 32 ≤ left + a by omega)]
        rfl
  exact key sizes [] 0 (by decide) (by omega)

theorem partOf_eq_of_one {sizes : List ℕ} (h : (sizes.filter (0 < ·)).length ≤ 1) {u v : ℕ} (hu : u < sizes.sum)
    (hv : v < sizes.sum) : partOf sizes u = partOf sizes v := by
  induction sizes generalizing u v with
  | nil => simp at hu
  | cons a l ih =>
    rw [List.sum_cons] at hu hv
    by_cases ha : a = 0
    · subst ha
      have := ih (by simpa using h) (u := u) (v := v) (by omega) (by omega)
      simpa [partOf] using this
    · rw [List.filter_cons_of_pos (by simp; omega), List.length_cons] at h
      have hl : l.sum = 0 := by
        have h0 : l.filter (0 < ·) = [] := List.length_eq_zero_iff.1 (by omega)
        rw [List.filter_eq_nil_iff] at h0
        refine List.sum_eq_zero fun x hx => ?_
        have := h0 x hx
        simp at this; exact this
      have h1 : u < a := by omega
      have h2 : v < a := by omega
      simp [partOf, h1, h2]

/-- **C114 (complete k-partite).**  With at least two sizes: more than `2^32 - 1` vertices overflow, and if at most one
part is nonempty the graph is returned without any vertex.  A single size gives a clique. -/
theorem C114_kpartite (sizes : List ℕ) :
    (sizes.length ≠ 1 → 2 ^ 32 ≤ sizes.sum → completeKpartite sizes = .error .overflow) ∧
    (sizes.length ≠ 1 → sizes.sum < 2 ^ 32 → (sizes.filter (0 < ·)).length ≤ 1 →
      Generates (completeKpartite sizes) (fun _ => False) (fun _ _ => False)) ∧
    (∀ n, sizes = [n] → Generates (completeKpartite sizes) (fun u => u < n) (fun u v => u < n ∧ v < n ∧ u ≠ v)) := by
  refine ⟨fun h1 h2 => ?_, fun h1 h2 h3 => ?_, ?_⟩
  · match sizes, h1, h2 with
    | [], _, h2 => simp at h2
    | [_], h1, _ => simp at h1
    | a :: b :: l, _, h2 =>
      show (do let (ranges, _) ← kpartiteRanges (a :: b :: l); kpartiteBlocks ranges new) = _
      rw [kpartiteRanges_overflow h2]; rfl
  · refine (Generates.of_is (is_completeKpartite sizes h1 h2)).congr (fun u => ?_) (fun u v => ?_)
    · simp only [iff_false]
      rintro ⟨hu, v, hv, h⟩
      exact h (partOf_eq_of_one h3 hu hv)
    · simp only [iff_false]
      rintro ⟨hu, hv, h⟩
      exact h (partOf_eq_of_one h3 hu hv)
  · rintro n rfl
    exact C11_clique n

/-- `C114_kpartite` for one nonempty part. -/
example := C114_kpartite [0, 3, 0]

/-- **C114 (grid).**  `2^32` or more cells overflow, the `1 × 1` grid is returned without its vertex. -/
theorem C114_grid (s t : ℕ) :
    (2 ^ 32 ≤ s * t → grid s t = .error .overflow) ∧ grid 1 1 = .ok new := by
  refine ⟨fun h => ?_, rfl⟩
  unfold grid
  rw [mul32_overflow h]; rfl

/-- `C114_grid` for a grid with too many vertices. -/
example := C114_grid (2 ^ 16) (2 ^ 16)

/-! ## Directed generators -/

/-- **C114, digraphs (path, clique, biclique, star, grid).** -/
theorem C114_digraph (s t : ℕ) :
    EditDigraph.path 1 = .ok EditDigraph.new ∧ EditDigraph.clique 1 = .ok EditDigraph.new ∧
    (2 ^ 32 ≤ s + t → EditDigraph.biclique s t = .error .overflow) ∧
    (s + t < 2 ^ 32 → s = 0 ∨ t = 0 → EditDigraph.biclique s t = .ok EditDigraph.new) ∧
    (2 ^ 32 ≤ t + 1 → EditDigraph.star t = .error .overflow) ∧ EditDigraph.star 0 = .ok EditDigraph.new ∧
    (2 ^ 32 ≤ s * t → EditDigraph.grid s t = .error .overflow) ∧ EditDigraph.grid 1 1 = .ok EditDigraph.new := by
  have ho : ∀ s t, 2 ^ 32 ≤ s + t → EditDigraph.biclique s t = .error .overflow := fun s t h => by
    unfold EditDigraph.biclique; rw [add32_overflow h]; rfl
  refine ⟨rfl, rfl, ho s t, ?_, fun h => ho 1 t (by omega), rfl, fun h => ?_, rfl⟩
  · intro h h0
    unfold EditDigraph.biclique
    rw [add32_ok h, bind_ok]
    rcases h0 with rfl | rfl
    · rfl
    · refine foldlM_stays _ fun u _ => ?_
      have : s + 0 - s = 0 := by omega
      rw [this]; rfl
  · unfold EditDigraph.grid
    rw [mul32_overflow h]; rfl

/-- `C114_digraph` for 0 and 5. -/
example := C114_digraph 0 5

theorem C114_digraph_matching (n : ℕ) (h : 2 ^ 32 < 2 * n) : EditDigraph.matching n = .error .overflow := by
  unfold EditDigraph.matching
  refine foldlM_faults .overflow (fun g => ∃ P R, EditDigraph.Is g P R) _ _ ⟨_, _, EditDigraph.Is.new⟩ (fun u _ g hg => ?_)
    ⟨n - 1, List.mem_range.2 (by omega), fun g _ => by rw [add32_overflow (by omega)]; rfl⟩
  by_cases hu : u + n < 2 ^ 32
  · right
    obtain ⟨P, R, hg⟩ := hg
    rw [add32_ok hu, bind_ok]
    exact Ok.bind (hg.addArc u (u + n)) fun r hr => Ok.pure ⟨_, _, hr⟩
  · left; rw [add32_overflow (by omega)]; rfl

/-- `C114_digraph_matching` for one edge more than there are ids. -/
example := C114_digraph_matching (2 ^ 31 + 1) (by decide)

/-! ## Disjoint union -/

theorem mapM_overflow {l : List ℕ} {k : ℕ} (h : ∃ v ∈ l, 2 ^ 32 ≤ v + k) :
    l.mapM (fun v => add32 v k) = .error .overflow := by
  induction l with
  | nil => obtain ⟨v, hv, -⟩ := h; cases hv
  | cons a l ih =>
    rw [List.mapM_cons]
    by_cases ha : 2 ^ 32 ≤ a + k
    · rw [add32_overflow ha]; rfl
    · obtain ⟨v, hv, hk⟩ := h
      rcases List.mem_cons.1 hv with rfl | hv
      · exact absurd hk ha
      · rw [add32_ok (by omega), ih ⟨v, hv, hk⟩]; rfl

/-- **C114 (disjoint union).**  Complement of `C12_disj_union`: `disj_union` overflows if the largest id of the first
graph is `2^32 - 1`, or if that id plus one plus the largest id of the second graph is not below `2^32`. -/
theorem C114_disj_union {g : EditGraph} (hg : Reachable g) {G : Graph} {T : SGraph} (hG : G.Rep T)
    (h : (∃ u : ℕ, g.contains u = true ∧ 2 ^ 32 ≤ u + 1) ∨
      ∃ u v : ℕ, g.contains u = true ∧ v ∈ T.V ∧ 2 ^ 32 ≤ u + 1 + v) : g.disjUnion G = .error .overflow := by
  obtain ⟨S, H⟩ := hg.abs
  simp only [H.contains, decide_eq_true_eq] at h
  unfold EditGraph.disjUnion
  by_cases hS : offsetOf S < 2 ^ 32
  · rw [H.unionOffset hS]
    obtain ⟨u, v, hu, hv, h⟩ : ∃ u v : ℕ, u ∈ S.V ∧ v ∈ T.V ∧ 2 ^ 32 ≤ u + 1 + v := by
      rcases h with ⟨u, hu, h⟩ | h
      · have := lt_offsetOf hu; omega
      · exact h
    obtain ⟨es, hes, -⟩ := H.rep.edges
    simp only [bind_ok, hes]
    obtain ⟨r, hr, -⟩ := (Is.new.addVertices g.vertices).addEdges es
    have hk := lt_offsetOf hu
    simp only [hr, bind_ok, mapM_overflow (k := offsetOf S) ⟨v, (hG.vmem v).2 hv, by omega⟩]
    rfl
  · unfold EditGraph.unionOffset
    cases e : g.vertices.max? with
    | none =>
      rw [List.max?_eq_none_iff] at e
      have : S.V = ∅ := by ext u; rw [← H.mem_vertices, e]; simp
      simp [offsetOf, this] at hS
    | some x =>
      obtain ⟨h1, h2⟩ := List.max?_eq_some_iff.1 e
      have : offsetOf S ≤ x + 1 := Finset.sup_le fun u hu => Nat.succ_le_succ (h2 u ((H.mem_vertices u).2 hu))
      simp only [add32_overflow (show 2 ^ 32 ≤ x + 1 by omega)]
      rfl

/-- **C114 (disjoint union of digraphs).** -/
theorem C114_digraph_disj_union {g h : EditDigraph} (hg : EditDigraph.Reachable g) (hh : EditDigraph.Reachable h)
    (ho : (∃ u : ℕ, g.contains u = true ∧ 2 ^ 32 ≤ u + 1) ∨
      ∃ u v : ℕ, g.contains u = true ∧ h.contains v = true ∧ 2 ^ 32 ≤ u + 1 + v) :
    g.disjUnion h.view.toGraph = .error .overflow := by
  obtain ⟨S, H⟩ := hg.abs
  obtain ⟨T, H'⟩ := hh.abs
  simp only [H.contains, H'.contains, decide_eq_true_eq] at ho
  unfold EditDigraph.disjUnion
  by_cases hS : EditDigraph.offsetOf S < 2 ^ 32
  · rw [H.unionOffset hS]
    obtain ⟨u, v, hu, hv, ho⟩ : ∃ u v : ℕ, u ∈ S.V ∧ v ∈ T.V ∧ 2 ^ 32 ≤ u + 1 + v := by
      rcases ho with ⟨u, hu, h⟩ | h
      · have := EditDigraph.lt_offsetOf hu; omega
      · exact h
    obtain ⟨es, hes, -⟩ := H.edges
    simp only [bind_ok, hes]
    obtain ⟨r, hr, -⟩ := (EditDigraph.Is.new.addVertices g.vertices).addArcs es
    have hk := EditDigraph.lt_offsetOf hu
    have e : h.view.toGraph.vertices.mapM (fun v => add32 v (EditDigraph.offsetOf S)) = .error .overflow :=
      mapM_overflow ⟨v, (H'.mem_vertices v).2 hv, by omega⟩
    simp only [hr, bind_ok, e]
    rfl
  · unfold EditDigraph.unionOffset
    cases e : g.vertices.max? with
    | none =>
      rw [List.max?_eq_none_iff] at e
      have : S.V = ∅ := by ext u; rw [← H.mem_vertices, e]; simp
      simp [EditDigraph.offsetOf, this] at hS
    | some x =>
      obtain ⟨h1, h2⟩ := List.max?_eq_some_iff.1 e
      have : EditDigraph.offsetOf S ≤ x + 1 := Finset.sup_le fun u hu => Nat.succ_le_succ (h2 u ((H.mem_vertices u).2 hu))
      simp only [add32_overflow (show 2 ^ 32 ≤ x + 1 by omega)]
      rfl

/-- The hypotheses are met: an edge whose larger end is `2^32 - 1`, and the part sizes `0, 3, 0`. -/
example : ∃ g : EditGraph, Reachable g ∧ g.adjacent 0 (2 ^ 32 - 1) = true ∧ ∃ u : ℕ, g.contains u = true ∧ 2 ^ 32 ≤ u + 1 := by
  obtain ⟨⟨g, k⟩, hg, A, -⟩ := abs_new.addEdges [(0, 2 ^ 32 - 1)]
  refine ⟨g, A.reachable, by rw [A.adjacent]; decide, 2 ^ 32 - 1, by rw [A.contains]; decide, by decide⟩

example : [0, 3, 0].length ≠ 1 ∧ [0, 3, 0].sum < 2 ^ 32 ∧ ([0, 3, 0].filter (0 < ·)).length ≤ 1 ∧
    2 ^ 32 ≤ [2 ^ 31, 2 ^ 31].sum ∧ 2 ^ 32 < 2 * (2 ^ 31 + 1) ∧ 2 ^ 32 ≤ 2 ^ 16 * 2 ^ 16 := by decide

example : ∃ g : EditDigraph, EditDigraph.Reachable g ∧ ∃ u v : ℕ, g.contains u = true ∧ g.contains v = true ∧
    2 ^ 32 ≤ u + 1 + v := by
  obtain ⟨⟨g, k⟩, hg, A, -⟩ := EditDigraph.abs_new.addArcs [(0, 2 ^ 31)]
  exact ⟨g, A.reachable, 2 ^ 31, 2 ^ 31, by rw [A.contains]; decide, by rw [A.contains]; decide, by decide⟩

end Verif
