import Verif.Lemmas.OrdSwap
import Verif.Props.Linear
/-!
# C44, continued: what `OrdGraph` answers after arbitrary swaps
-/
namespace Verif
namespace OrdGraph

/-- The ordering after a sequence of swaps; swaps with a missing vertex do nothing. -/
def swappedOrder (S : SGraph) (ord : List ℕ) (ops : List (ℕ × ℕ)) : List ℕ :=
  ops.foldl (fun ord e => if e.1 ∈ S.V ∧ e.2 ∈ S.V then ord.map (fun x => if x = e.1 then e.2 else if x = e.2 then e.1 else x)
    else ord) ord

/-- `x` and `w` are adjacent, they were swapped with each other, and neither was swapped with anything afterwards. -/
def Stale (S : SGraph) (ops : List (ℕ × ℕ)) (x w : ℕ) : Prop :=
  S.Adj x w ∧ ∃ pre e post, ops = pre ++ e :: post ∧ (e = (x, w) ∨ e = (w, x)) ∧
    ∀ f ∈ post, f.1 ∈ S.V → f.2 ∈ S.V → f.1 ≠ f.2 → f.1 ≠ x ∧ f.1 ≠ w ∧ f.2 ≠ x ∧ f.2 ≠ w

/-- The `OrdGraph`s obtained from `with_ordering` by arbitrary swaps (in any layout), with the swaps made, oldest first. -/
inductive Swapped (S : SGraph) (ord : List ℕ) : OrdGraph → List (ℕ × ℕ) → Prop
  | make {G : Graph} {g : OrdGraph} (hG : G.Rep S) (hl : S.Loopless) (hn : ord.Nodup)
      (hV : ∀ u, u ∈ ord ↔ u ∈ S.V) (h : withOrdering G ord = .ok g) : Swapped S ord g []
  | relayout {g g' : OrdGraph} {ops : List (ℕ × ℕ)} (h : Swapped S ord g ops) (hr : Relayout g g') : Swapped S ord g' ops
  | swap {g g' : OrdGraph} {ops : List (ℕ × ℕ)} {u v : ℕ} (h : Swapped S ord g ops) (hs : g.swap u v = .ok g') :
      Swapped S ord g' (ops ++ [(u, v)])

/-- The answers of `g` are those of the graph `S` with ordering `ord`, except that for a pair in `B` the earlier end
counts as a right neighbour of the later one (and not as a left neighbour). -/
structure Answers (g : OrdGraph) (S : SGraph) (ord : List ℕ) (B : ℕ → ℕ → Prop) : Prop where
  rep : g.lin.toGraph.Rep S
  verts : g.lin.vertices = ord
  index : ∀ u ∈ S.V, g.indexOf u = .ok (ord.idxOf u)
  lefts : ∀ u ∈ S.V, ∃ l, g.leftNeighbours u = .ok l ∧ g.lin.leftDegree u = .ok l.length ∧
    l.Pairwise (fun a b => ord.idxOf a < ord.idxOf b) ∧
    ∀ w, w ∈ l ↔ S.Adj u w ∧ ord.idxOf w < ord.idxOf u ∧ ¬ B u w
  rights : ∀ u ∈ S.V, ∃ l, g.rightNeighbours u = .ok l ∧ g.rightDegree u = .ok l.length ∧
    l.Pairwise (fun a b => ord.idxOf a < ord.idxOf b) ∧
    ∀ w, w ∈ l ↔ S.Adj u w ∧ (ord.idxOf u < ord.idxOf w ∨ B u w)
  missing : ∀ u, u ∉ S.V → g.indexOf u = .error .panic ∧ g.degree u = .ok 0 ∧ g.rightDegree u = .ok 0 ∧
    g.lin.leftDegree u = .ok 0 ∧ g.neighbours u = .ok []

theorem PInv.relayout {g g' : OrdGraph} {S : SGraph} {ord : List ℕ} {lft : ℕ → ℕ → Prop} (H : PInv g S ord lft)
    (h : Relayout g g') : PInv g' S ord lft := by
  obtain ⟨h1, h2, h3, h4⟩ := h
  refine ⟨H.ordering, H.loopless, fun u i => by rw [h1]; exact H.idx u i, ⟨h3.trans H.nodes.len, ?_⟩, h2.trans H.m⟩
  intro i x hx
  obtain ⟨n, k1, k2, k3, k4⟩ := H.nodes.node i x hx
  have hlt : i < g'.nodes.length := by rw [h3]; exact (List.getElem?_eq_some_iff.1 k1).1
  obtain ⟨e1, e2, e3⟩ := h4 i n _ k1 (List.getElem?_eq_getElem hlt)
  exact ⟨_, List.getElem?_eq_getElem hlt, e1.trans k2, fun w => (e2 w).trans (k3 w), fun w => (e3 w).trans (k4 w)⟩

theorem PInv.answers {g : OrdGraph} {S : SGraph} {ord : List ℕ} {B : ℕ → ℕ → Prop}
    (H : PInv g S ord (fun x w => ord.idxOf w < ord.idxOf x ∧ ¬ B x w)) : Answers g S ord B := by
  refine ⟨H.rep, H.vertices, fun u hu => by unfold indexOf; rw [H.get hu]; rfl, fun u hu => ?_, fun u hu => ?_,
    fun u hu => ?_⟩
  · obtain ⟨l, h1, h2, h3, h4⟩ := H.leftNeighbours hu
    exact ⟨l, h1, h4, h2, h3⟩
  · obtain ⟨l, h1, h2, h3, h4⟩ := H.rightNeighbours hu
    refine ⟨l, h1, h4, h2, fun w => (h3 w).trans (and_congr_right fun h => ?_)⟩
    have := H.ordering.adj_cases H.loopless h
    by_cases hB : B u w
    · simp [hB]
    · simp only [hB, not_false_eq_true, and_true, or_false]; omega
  · have h := H.get_none hu
    refine ⟨?_, ?_, ?_, ?_, ?_⟩
    · unfold indexOf; rw [h]; rfl
    · unfold degree; rw [h]
    · unfold rightDegree; rw [h]
    · show LinGraph.defaultLeftDegree _ _ u = _
      unfold LinGraph.defaultLeftDegree
      rw [if_neg]
      simp [HMap.contains, h]
    · unfold neighbours; rw [h]

theorem swappedOrder_append {S : SGraph} {ord : List ℕ} {ops : List (ℕ × ℕ)} {u v : ℕ} :
    swappedOrder S ord (ops ++ [(u, v)]) =
      if u ∈ S.V ∧ v ∈ S.V then (swappedOrder S ord ops).map (exch u v) else swappedOrder S ord ops := by
  unfold swappedOrder
  rw [List.foldl_append]
  rfl

/-- A swap that changes nothing does not change the stale pairs. -/
theorem stale_noop {S : SGraph} {ops : List (ℕ × ℕ)} {u v x w : ℕ} (hn : u ∉ S.V ∨ v ∉ S.V ∨ u = v)
    (hl : S.Loopless) : Stale S (ops ++ [(u, v)]) x w ↔ Stale S ops x w := by
  unfold Stale
  refine and_congr_right fun hA => ?_
  constructor
  · rintro ⟨pre, e, post, h1, h2, h3⟩
    rcases post.eq_nil_or_concat with rfl | ⟨post', f, rfl⟩
    · obtain ⟨-, h⟩ := List.append_inj' h1 rfl
      cases h
      exfalso
      rcases h2 with h2 | h2 <;> cases h2
      · rcases hn with h | h | h
        · exact h hA.left
        · exact h hA.right
        · exact hl _ (h ▸ hA)
      · rcases hn with h | h | h
        · exact h hA.right
        · exact h hA.left
        · exact hl _ (h ▸ hA)
    · refine ⟨pre, e, post', ?_, h2, fun f' hf => h3 f' (by simp [hf])⟩
      rw [List.concat_eq_append, ← List.cons_append, ← List.append_assoc] at h1
      exact (List.append_inj' h1 rfl).1
  · rintro ⟨pre, e, post, rfl, h2, h3⟩
    refine ⟨pre, e, post ++ [(u, v)], by simp, h2, fun f hf => ?_⟩
    rcases List.mem_append.1 hf with h | h
    · exact h3 f h
    · rw [List.mem_singleton] at h
      subst h
      rintro a b c
      rcases hn with h | h | h
      · exact absurd a h
      · exact absurd b h
      · exact absurd h c

theorem stale_step {S : SGraph} {ops : List (ℕ × ℕ)} {u v x w : ℕ} (hu : u ∈ S.V) (hv : v ∈ S.V) (he : u ≠ v) :
    Stale S (ops ++ [(u, v)]) x w ↔ nextStale S u v (Stale S ops) x w := by
  unfold nextStale
  constructor
  · rintro ⟨hA, pre, e, post, h1, h2, h3⟩
    rcases post.eq_nil_or_concat with rfl | ⟨post', f, rfl⟩
    · obtain ⟨-, h⟩ := List.append_inj' h1 rfl
      cases h
      refine Or.inl ⟨hA, ?_⟩
      rcases h2 with h2 | h2 <;> cases h2
      · exact Or.inl ⟨rfl, rfl⟩
      · exact Or.inr ⟨rfl, rfl⟩
    · rw [List.concat_eq_append, ← List.cons_append, ← List.append_assoc] at h1
      obtain ⟨h4, h5⟩ := List.append_inj' h1 rfl
      cases h5
      have := h3 (u, v) (by simp) hu hv he
      refine Or.inr ⟨⟨hA, pre, e, post', h4, h2, fun f' hf => h3 f' (by simp [hf])⟩, ?_⟩
      simp only at this
      exact ⟨this.1.symm, this.2.2.1.symm, this.2.1.symm, this.2.2.2.symm⟩
  · rintro (⟨hA, h⟩ | ⟨⟨hA, pre, e, post, rfl, h2, h3⟩, h4, h5, h6, h7⟩)
    · refine ⟨hA, ops, (u, v), [], rfl, ?_, by simp⟩
      rcases h with ⟨rfl, rfl⟩ | ⟨rfl, rfl⟩
      · exact Or.inl rfl
      · exact Or.inr rfl
    · refine ⟨hA, pre, e, post ++ [(u, v)], by simp, h2, fun f hf => ?_⟩
      rcases List.mem_append.1 hf with h | h
      · exact h3 f h
      · rw [List.mem_singleton] at h
        subst h
        intros
        exact ⟨h4.symm, h6.symm, h5.symm, h7.symm⟩

theorem PInv.swap_noop {g : OrdGraph} {S : SGraph} {ord : List ℕ} {lft : ℕ → ℕ → Prop} (H : PInv g S ord lft) {u v : ℕ}
    (hn : u ∉ S.V ∨ v ∉ S.V ∨ u = v) : g.swap u v = .ok g := by
  unfold OrdGraph.swap
  split
  · rfl
  · rename_i he
    rcases hn with hu | hv | h
    · rw [H.get_none hu]
    · rw [H.get_none hv]
      cases g.indices.get? u <;> rfl
    · exact absurd h (by simpa using he)

theorem exch_self {u : ℕ} {l : List ℕ} : l.map (exch u u) = l := by
  have : exch u u = id := by funext x; unfold exch; split_ifs <;> simp_all
  rw [this, List.map_id]

theorem PInv.swap_any {g : OrdGraph} {S : SGraph} {ord : List ℕ} {ops : List (ℕ × ℕ)}
    (H : PInv g S (swappedOrder S ord ops) (fun x w => (swappedOrder S ord ops).idxOf w < (swappedOrder S ord ops).idxOf x ∧
      ¬ Stale S ops x w)) (u v : ℕ) : Ok (g.swap u v) (fun g' => PInv g' S (swappedOrder S ord (ops ++ [(u, v)]))
      (fun x w => (swappedOrder S ord (ops ++ [(u, v)])).idxOf w < (swappedOrder S ord (ops ++ [(u, v)])).idxOf x ∧
      ¬ Stale S (ops ++ [(u, v)]) x w)) := by
  by_cases hn : u ∉ S.V ∨ v ∉ S.V ∨ u = v
  · rw [H.swap_noop hn]
    have ho : swappedOrder S ord (ops ++ [(u, v)]) = swappedOrder S ord ops := by
      rw [swappedOrder_append]
      split_ifs with h
      · rcases hn with a | a | a
        · exact absurd h.1 a
        · exact absurd h.2 a
        · subst a; exact exch_self
      · rfl
    rw [ho]
    exact Ok.pure (H.congr fun x w _ => and_congr_right fun _ => not_congr (stale_noop hn H.loopless).symm)
  · simp only [not_or, not_not] at hn
    obtain ⟨hu, hv, he⟩ := hn
    rw [swappedOrder_append, if_pos ⟨hu, hv⟩]
    exact Ok.mono (H.swap_stale hu hv he) fun g' H' => H'.congr fun x w _ =>
      and_congr_right fun _ => not_congr (stale_step hu hv he).symm

theorem Swapped.pinv {S : SGraph} {ord : List ℕ} {g : OrdGraph} {ops : List (ℕ × ℕ)} (h : Swapped S ord g ops) :
    PInv g S (swappedOrder S ord ops) (fun x w => (swappedOrder S ord ops).idxOf w < (swappedOrder S ord ops).idxOf x ∧
      ¬ Stale S ops x w) := by
  induction h with
  | make hG hl hn hV h =>
    obtain ⟨g, h', I⟩ := OrdGraph.withOrdering_inv hG hl ⟨hn, hV⟩
    rw [h] at h'; cases h'
    refine I.pinv.congr fun x w _ => (and_iff_left ?_).symm
    rintro ⟨-, pre, e, post, h, -⟩
    simp at h
  | relayout _ hr ih => exact ih.relayout hr
  | swap _ hs ih =>
    obtain ⟨g, h', I⟩ := ih.swap_any _ _
    rw [hs] at h'; cases h'; exact I

end OrdGraph

/-- **C44, all swaps.** After any sequence of swaps (of adjacent, non-adjacent, equal or missing vertices) a further swap
does not panic, and all answers are those for the ordering in which the vertices were exchanged, except for the stale pairs:
if two adjacent vertices were swapped with each other and not swapped with anything since, the earlier one is reported as
right neighbour of the later one instead of as left neighbour.  Missing from C44 as stated: exactly these pairs. -/
theorem C44_any_swaps_partial {S : SGraph} {ord : List ℕ} {g : OrdGraph} {ops : List (ℕ × ℕ)}
    (h : OrdGraph.Swapped S ord g ops) :
    g.Answers S (OrdGraph.swappedOrder S ord ops) (OrdGraph.Stale S ops) ∧ ∀ u v, ∃ g', g.swap u v = .ok g' :=
  ⟨h.pinv.answers, fun u v => by
    obtain ⟨g', h', -⟩ := h.pinv.swap_any u v
    exact ⟨g', h'⟩⟩

/-- **C44, when swapping is right.** If after every swap of two adjacent vertices at least one of the two was swapped
again with something else, all queries are answered for the exchanged ordering. -/
theorem C44_repaired_partial {S : SGraph} {ord : List ℕ} {g : OrdGraph} {ops : List (ℕ × ℕ)}
    (h : OrdGraph.Swapped S ord g ops) (hs : ∀ x w, ¬ OrdGraph.Stale S ops x w) :
    ∀ u ∈ S.V, (∃ l, g.leftNeighbours u = .ok l ∧ ∀ w, w ∈ l ↔ S.Adj u w ∧
        (OrdGraph.swappedOrder S ord ops).idxOf w < (OrdGraph.swappedOrder S ord ops).idxOf u) ∧
      (∃ l, g.rightNeighbours u = .ok l ∧ ∀ w, w ∈ l ↔ S.Adj u w ∧
        (OrdGraph.swappedOrder S ord ops).idxOf u < (OrdGraph.swappedOrder S ord ops).idxOf w) := by
  have A := h.pinv.answers
  intro u hu
  obtain ⟨l, h1, -, -, h2⟩ := A.lefts u hu
  obtain ⟨r, h3, -, -, h4⟩ := A.rights u hu
  exact ⟨⟨l, h1, fun w => by rw [h2]; simp [hs]⟩, ⟨r, h3, fun w => by rw [h4]; simp [hs]⟩⟩

/-- Hypotheses are met: the path 0-1-2 with ordering 2, 0, 1 after swapping 0 and 1 (adjacent, so stale) and after
swapping 1 and 2 as well (1 and 2 are now stale, 0 and 1 are not) and then 2 and 0 (nothing is stale). -/
example : ∃ (S : SGraph) (g1 g2 g3 : OrdGraph), OrdGraph.Swapped S [2, 0, 1] g1 [(0, 1)] ∧
    OrdGraph.Swapped S [2, 0, 1] g2 [(0, 1), (1, 2)] ∧ OrdGraph.Swapped S [2, 0, 1] g3 [(0, 1), (1, 2), (2, 0)] ∧
    OrdGraph.Stale S [(0, 1)] 0 1 ∧ OrdGraph.Stale S [(0, 1), (1, 2)] 2 1 ∧ ¬ OrdGraph.Stale S [(0, 1), (1, 2)] 0 1 ∧
    (∀ x w, ¬ OrdGraph.Stale S [(0, 1), (1, 2), (2, 0)] x w) ∧
    OrdGraph.swappedOrder S [2, 0, 1] [(0, 1), (1, 2), (2, 0)] = [1, 0, 2] := by
  obtain ⟨G, S, h1, h2, h01, h12, h02, h4, h5, -⟩ := exOrd
  obtain ⟨g, h, -⟩ := C43_with_ordering h1 h2 h4 h5
  have W0 : OrdGraph.Swapped S [2, 0, 1] g [] := .make h1 h2 h4 h5 h
  obtain ⟨g1, e1⟩ := (C44_any_swaps_partial W0).2 0 1
  have W1 : OrdGraph.Swapped S [2, 0, 1] g1 [(0, 1)] := .swap W0 e1
  obtain ⟨g2, e2⟩ := (C44_any_swaps_partial W1).2 1 2
  have W2 : OrdGraph.Swapped S [2, 0, 1] g2 [(0, 1), (1, 2)] := .swap W1 e2
  obtain ⟨g3, e3⟩ := (C44_any_swaps_partial W2).2 2 0
  have W3 : OrdGraph.Swapped S [2, 0, 1] g3 [(0, 1), (1, 2), (2, 0)] := .swap W2 e3
  have v0 := h01.left
  have v1 := h01.right
  have v2 := h12.right
  have s0 : ∀ x w, ¬ OrdGraph.Stale S [] x w := by
    rintro x w ⟨-, pre, e, post, h, -⟩; simp at h
  have s1 : ∀ x w, OrdGraph.Stale S [(0, 1)] x w ↔ _ := fun x w => OrdGraph.stale_step (ops := []) v0 v1 (by decide)
  have s2 : ∀ x w, OrdGraph.Stale S [(0, 1), (1, 2)] x w ↔ _ :=
    fun x w => OrdGraph.stale_step (ops := [(0, 1)]) v1 v2 (by decide)
  have s3 : ∀ x w, OrdGraph.Stale S [(0, 1), (1, 2), (2, 0)] x w ↔ _ :=
    fun x w => OrdGraph.stale_step (ops := [(0, 1), (1, 2)]) v2 v0 (by decide)
  refine ⟨S, g1, g2, g3, W1, W2, W3, ?_, ?_, ?_, ?_, ?_⟩
  · rw [s1]; exact Or.inl ⟨h01, Or.inl ⟨rfl, rfl⟩⟩
  · rw [s2]; exact Or.inl ⟨h12.symm, Or.inr ⟨rfl, rfl⟩⟩
  · rw [s2]; simp [OrdGraph.nextStale]
  · intro x w h
    rw [s3] at h
    rcases h with ⟨hA, ⟨rfl, rfl⟩ | ⟨rfl, rfl⟩⟩ | ⟨h, h3, h4, h5, h6⟩
    · exact h02 hA.symm
    · exact h02 hA
    · rw [s2] at h
      rcases h with ⟨hA, ⟨rfl, rfl⟩ | ⟨rfl, rfl⟩⟩ | ⟨h, h3', h4', h5', h6'⟩
      · exact h5 rfl
      · exact h3 rfl
      · rw [s1] at h
        rcases h with ⟨hA, ⟨rfl, rfl⟩ | ⟨rfl, rfl⟩⟩ | ⟨h, -⟩
        · exact h4 rfl
        · exact h6 rfl
        · exact s0 _ _ h
  · simp [OrdGraph.swappedOrder, v0, v1, v2]

end Verif
