import Verif.Lemmas.DegenBuilder
import Verif.Props.Linear
/-!
# C91: the public `DegenGraphBuilder`
-/
namespace Verif
namespace DegenGraph

/-- `new()`, then `append(u, N)` for every pair of the list, then `build()`. -/
def appendAll (bs : List (ℕ × List ℕ)) : Res DegenGraph := do
  let b ← bs.foldlM (fun (b : DegenBuilder) e => b.append e.1 e.2) DegenBuilder.new
  return b.build

theorem off_eq (bs : List (ℕ × List ℕ)) : off bs = 3 * bs.length + (bs.map fun e => e.2.length).sum := by
  induction bs with
  | nil => rfl
  | cons e bs ih => rw [off_cons, bsize, ih, List.map_cons, List.sum_cons, List.length_cons]; omega

theorem RInv.relayout {g g' : DegenGraph} {l l' : Option ℕ} {bs : List (ℕ × List ℕ)} (H : RInv ⟨l, g⟩ bs)
    (h : Relayout g g') (hl : l' = l) : RInv ⟨l', g'⟩ bs := by
  obtain ⟨h1, h2, h3, h4, h5⟩ := h
  refine ⟨h3.trans H.cont, hl.trans H.last, fun u => by rw [h1]; exact H.none u,
    fun pre u N post hs hu => by rw [h1]; exact H.idx pre u N post hs hu, fun u => (h4 u).trans (H.rkeys u),
    fun u R hR w => ?_, h2.trans H.m⟩
  cases hg : g.right.get? u with
  | none => rw [(h4 u).2 hg] at hR; cases hR
  | some R' => rw [h5 u R' R hg hR w, H.right u R' hg w]

theorem appendAll_ok {bs : List (ℕ × List ℕ)} (hsz : 3 * bs.length + (bs.map fun e => e.2.length).sum ≤ 2 ^ 32) :
    ∃ g, appendAll bs = .ok g ∧ ∀ g', Relayout g g' → ∃ l, RInv ⟨l, g'⟩ bs := by
  obtain ⟨b, h, H⟩ := RInv.appends (bs := bs) (by rw [off_eq]; exact hsz)
  refine ⟨b.g, ?_, fun g' hr => ⟨b.lastIndex, RInv.relayout (g := b.g) H hr rfl⟩⟩
  unfold appendAll
  rw [h]
  rfl

end DegenGraph

/-- **C91.** Whatever is appended (total size at most `2^32` words), building succeeds, and the graph returns what was
appended: both iterators replay the calls; `left_neighbours_slice`, `left_degree` and `index_of` refer to the last
record of the vertex; right neighbours and adjacency are what the lists say; unknown vertices panic or give 0.  Nothing
reads outside the array. -/
theorem C91_appends (bs : List (ℕ × List ℕ)) (hsz : 3 * bs.length + (bs.map fun e => e.2.length).sum ≤ 2 ^ 32) :
    ∃ g₀, DegenGraph.appendAll bs = .ok g₀ ∧ ∀ g, DegenGraph.Relayout g₀ g →
      (Drains g.iterNext g.iterNew bs ∧ Drains g.orderIterNext g.orderIterNew (bs.map Prod.fst) ∧
        g.vertices = bs.map Prod.fst ∧ g.first = bs.head?.map Prod.fst) ∧
      (g.lin.numVertices = (bs.map Prod.fst).toFinset.card ∧ g.lin.numEdges = (bs.map fun e => e.2.length).sum ∧
        ∀ u, g.lin.contains u = true ↔ u ∈ bs.map Prod.fst) ∧
      (∀ pre u N post, bs = pre ++ (u, N) :: post → u ∉ post.map Prod.fst →
        g.leftSlice u = .ok N ∧ g.leftDegree u = .ok N.length ∧
        g.indexOf u = .ok (3 * pre.length + (pre.map fun e => e.2.length).sum)) ∧
      (∀ u, u ∉ bs.map Prod.fst → g.leftSlice u = .error .panic ∧ g.indexOf u = .error .panic ∧
        g.leftDegree u = .ok 0) ∧
      (∀ v, v ∈ bs.map Prod.fst ∨ (∃ e ∈ bs, v ∈ e.2) → ∃ R, g.rightNeighbours v = .ok R ∧
        (∀ w, w ∈ R ↔ ∃ N, (w, N) ∈ bs ∧ v ∈ N) ∧ g.rightDegree v = R.len) ∧
      (∀ v, ¬ (v ∈ bs.map Prod.fst ∨ ∃ e ∈ bs, v ∈ e.2) → g.rightNeighbours v = .error .panic ∧ g.rightDegree v = 0) ∧
      (∀ v w, g.adjacentOrdered v w = true ↔ ∃ N, (w, N) ∈ bs ∧ v ∈ N) ∧
      ∀ v w, ∃ t, g.adjacent v w = .ok t ∧
        (t = true ↔ (∃ N, (w, N) ∈ bs ∧ v ∈ N) ∨ ∃ N, (v, N) ∈ bs ∧ w ∈ N) := by
  obtain ⟨g₀, h, H⟩ := DegenGraph.appendAll_ok hsz
  refine ⟨g₀, h, fun g hr => ?_⟩
  obtain ⟨l, I⟩ := H g hr
  refine ⟨⟨I.iter, I.orderIter, I.vertices, I.first⟩, ⟨I.numVertices, I.m, I.contains⟩,
    fun pre u N post hs hu => ⟨I.leftSlice hs hu, I.leftDegree hs hu, ?_⟩, fun u hu => ?_, fun v hv => ?_, fun v hv => ?_,
    I.adjacentOrdered, fun v w => ⟨_, I.adjacent v w, ?_⟩⟩
  · unfold DegenGraph.indexOf
    rw [← DegenGraph.off_eq]
    have : g.indices.get? u = _ := I.idx pre u N post hs hu
    rw [this]; rfl
  · have : g.indices.get? u = none := (I.none u).2 hu
    refine ⟨?_, ?_, ?_⟩
    · unfold DegenGraph.leftSlice DegenGraph.indexOf; rw [this]; rfl
    · unfold DegenGraph.indexOf; rw [this]; rfl
    · unfold DegenGraph.leftDegree; rw [this]
  · obtain ⟨R, h1, h2⟩ := (I.rightNeighbours v).2 hv
    refine ⟨R, h1, h2, ?_⟩
    have h1 : unwrap (g.right.get? v) = .ok R := h1
    unfold DegenGraph.rightDegree
    cases hg : g.right.get? v with
    | none => rw [hg] at h1; cases h1
    | some R' => rw [hg] at h1; cases h1; rfl
  · have : g.right.get? v = none :=
      (I.rkeys v).2 ⟨fun h => hv (.inl h), fun e he h => hv (.inr ⟨e, he, h⟩)⟩
    refine ⟨?_, ?_⟩
    · unfold DegenGraph.rightNeighbours; rw [this]; rfl
    · unfold DegenGraph.rightDegree; rw [this]
  · rw [Bool.or_eq_true]
    exact or_congr (I.adjacentOrdered v w) (I.adjacentOrdered w v)

/-- `C91_appends` for three blocks, the last repeating a vertex. -/
example := C91_appends [(4, []), (2, [4]), (4, [2, 4])] (by decide)

/-- The calls describe the loopless graph `S`: distinct vertices, and each list names distinct earlier vertices. -/
structure RecordsOf (bs : List (ℕ × List ℕ)) (S : SGraph) : Prop where
  distinct : (bs.map Prod.fst).Nodup
  earlier : ∀ pre u N post, bs = pre ++ (u, N) :: post → N.Nodup ∧ ∀ w ∈ N, w ∈ pre.map Prod.fst
  verts : ∀ u, u ∈ S.V ↔ u ∈ bs.map Prod.fst
  adj : ∀ v w, S.Adj v w ↔ (∃ N, (w, N) ∈ bs ∧ v ∈ N) ∨ ∃ N, (v, N) ∈ bs ∧ w ∈ N

namespace RecordsOf
variable {bs : List (ℕ × List ℕ)} {S : SGraph}

theorem ordering (h : RecordsOf bs S) : S.Ordering (bs.map Prod.fst) := ⟨h.distinct, fun u => (h.verts u).symm⟩

theorem idx_lt (h : RecordsOf bs S) {u w : ℕ} {N : List ℕ} (hN : (u, N) ∈ bs) (hw : w ∈ N) :
    (bs.map Prod.fst).idxOf w < (bs.map Prod.fst).idxOf u := by
  obtain ⟨pre, post, hs⟩ := List.append_of_mem hN
  have h1 := (h.earlier pre u N post hs).2 w hw
  have hu : (bs.map Prod.fst)[(pre.map Prod.fst).length]? = some u := by rw [hs]; simp
  rw [h.ordering.idxOf_eq hu]
  refine (SGraph.Ordering.idxOf_lt_split (post := ((u, N) :: post).map Prod.fst) ?_).2 h1
  rw [hs, List.map_append]

theorem loopless (h : RecordsOf bs S) : S.Loopless := by
  intro u hu
  rcases (h.adj u u).1 hu with ⟨N, h1, h2⟩ | ⟨N, h1, h2⟩
  · exact absurd (h.idx_lt h1 h2) (lt_irrefl _)
  · exact absurd (h.idx_lt h1 h2) (lt_irrefl _)

/-- A record lists exactly the earlier neighbours. -/
theorem mem (h : RecordsOf bs S) {u w : ℕ} {N : List ℕ} (hN : (u, N) ∈ bs) :
    w ∈ N ↔ S.Adj u w ∧ (bs.map Prod.fst).idxOf w < (bs.map Prod.fst).idxOf u := by
  constructor
  · intro hw
    exact ⟨(h.adj u w).2 (.inr ⟨N, hN, hw⟩), h.idx_lt hN hw⟩
  · rintro ⟨h1, h2⟩
    rcases (h.adj u w).1 h1 with ⟨M, h3, h4⟩ | ⟨M, h3, h4⟩
    · have := h.idx_lt h3 h4; omega
    · have : (u, N) = (u, M) := List.inj_on_of_nodup_map h.distinct hN h3 rfl
      cases this
      exact h4

theorem length (h : RecordsOf bs S) {u : ℕ} {N : List ℕ} (hN : (u, N) ∈ bs) :
    N.length = (S.before (bs.map Prod.fst) u).card := by
  obtain ⟨pre, post, hs⟩ := List.append_of_mem hN
  rw [← List.toFinset_card_of_nodup (h.earlier pre u N post hs).1]
  congr 1
  ext w
  rw [List.mem_toFinset, h.mem hN, SGraph.mem_before]

theorem later (h : RecordsOf bs S) {v w : ℕ} :
    (∃ N, (w, N) ∈ bs ∧ v ∈ N) ↔ S.Adj v w ∧ (bs.map Prod.fst).idxOf v < (bs.map Prod.fst).idxOf w := by
  constructor
  · rintro ⟨N, h1, h2⟩
    have := (h.mem h1).1 h2
    exact ⟨this.1.symm, this.2⟩
  · rintro ⟨h1, h2⟩
    have hw : w ∈ bs.map Prod.fst := (h.verts w).1 h1.right
    obtain ⟨e, he, rfl⟩ := List.mem_map.1 hw
    exact ⟨e.2, he, (h.mem (u := e.1) he).2 ⟨h1.symm, h2⟩⟩

theorem split (h : RecordsOf bs S) {u : ℕ} (hu : u ∈ S.V) :
    ∃ pre N post, bs = pre ++ (u, N) :: post ∧ u ∉ post.map Prod.fst ∧ (u, N) ∈ bs := by
  obtain ⟨pre, N, post, h1, h2⟩ := DegenGraph.RInv.last_split ((h.verts u).1 hu)
  exact ⟨pre, N, post, h1, h2, by rw [h1]; simp⟩

theorem sum (h : RecordsOf bs S) : (bs.map fun e => e.2.length).sum = S.E.card := by
  rw [← h.ordering.sum_lefts h.loopless, List.map_map]
  congr 1
  refine List.map_congr_left fun e he => ?_
  rw [Function.comp, h.ordering.length_lefts]
  exact h.length (u := e.1) he

theorem exists_mentioned (h : RecordsOf bs S) {v : ℕ} : (v ∈ bs.map Prod.fst ∨ ∃ e ∈ bs, v ∈ e.2) ↔ v ∈ S.V := by
  rw [h.verts]
  refine ⟨?_, Or.inl⟩
  rintro (hv | ⟨e, he, hv⟩)
  · exact hv
  · exact (h.verts v).1 ((h.mem (u := e.1) he).1 hv).1.right

end RecordsOf

/-- **C91, graphs.** If the calls append distinct vertices, each with a list of distinct vertices appended before, the
result is the graph with these edges and the order of the calls; a list comes back in the order in which it was given.  If
every list is sorted along the order of the calls, the result represents the ordered graph in the sense of all theorems
about `LinearGraph`. -/
theorem C91_graph {bs : List (ℕ × List ℕ)} {S : SGraph} (hS : RecordsOf bs S)
    (hsz : 3 * S.V.card + S.E.card ≤ 2 ^ 32) :
    ∃ g₀, DegenGraph.appendAll bs = .ok g₀ ∧ ∀ g, DegenGraph.Relayout g₀ g →
      g.lin.toGraph.Rep S ∧ g.lin.vertices = bs.map Prod.fst ∧
      (∀ u N, (u, N) ∈ bs → g.leftSlice u = .ok N) ∧
      (∀ v w, g.adjacentOrdered v w = true ↔ S.Adj v w ∧ (bs.map Prod.fst).idxOf v < (bs.map Prod.fst).idxOf w) ∧
      ((∀ u N, (u, N) ∈ bs → N.Pairwise (fun a b => (bs.map Prod.fst).idxOf a < (bs.map Prod.fst).idxOf b)) →
        g.Represents S (bs.map Prod.fst)) := by
  have hlen : bs.length = S.V.card := by rw [← hS.ordering.length, List.length_map]
  obtain ⟨g₀, h, H⟩ := DegenGraph.appendAll_ok (bs := bs) (by rw [hlen, hS.sum]; exact hsz)
  refine ⟨g₀, h, fun g hr => ?_⟩
  obtain ⟨l, I⟩ := H g hr
  have hslice : ∀ u N, (u, N) ∈ bs → g.leftSlice u = .ok N := by
    intro u N hN
    obtain ⟨pre, M, post, h1, h2, h3⟩ := hS.split (u := u) ((hS.verts u).2 (List.mem_map.2 ⟨_, hN, rfl⟩))
    have : (u, N) = (u, M) := List.inj_on_of_nodup_map hS.distinct hN h3 rfl
    cases this
    exact I.leftSlice h1 h2
  have hord : ∀ v w, g.adjacentOrdered v w = true ↔
      S.Adj v w ∧ (bs.map Prod.fst).idxOf v < (bs.map Prod.fst).idxOf w := fun v w =>
    (I.adjacentOrdered v w).trans hS.later
  have hright : ∀ v R, g.right.get? v = some R → ∀ w, w ∈ R ↔
      S.Adj v w ∧ (bs.map Prod.fst).idxOf v < (bs.map Prod.fst).idxOf w := fun v R hR w =>
    (I.right v R hR w).trans hS.later
  have hkeys : ∀ v, g.right.get? v = none ↔ v ∉ S.V := by
    intro v
    rw [I.rkeys v, ← hS.exists_mentioned]
    simp only [not_or, not_exists, not_and]
  refine ⟨⟨I.numVertices.trans ?_, I.m.trans hS.sum, fun u => (I.contains u).trans (hS.verts u).symm, fun v w => ?_,
    fun u hu => ?_, ?_, fun u => ?_, fun u hu => ?_⟩, I.vertices, hslice, hord, fun hp => ?_⟩
  · congr 1
    ext u
    rw [List.mem_toFinset, hS.verts]
  · show g.adjacent v w = _
    rw [I.adjacent v w]
    congr 1
    rw [Bool.eq_iff_iff, Bool.or_eq_true, decide_eq_true_eq, hS.adj]
    exact or_congr (I.adjacentOrdered v w) (I.adjacentOrdered w v)
  · obtain ⟨pre, N, post, h1, h2, h3⟩ := hS.split hu
    show g.degree u = _
    unfold DegenGraph.degree
    have e1 : g.leftDegree u = _ := I.leftDegree h1 h2
    rw [e1, hS.length h3, ← hS.ordering.card_add hS.loopless]
    simp only [bind_ok, pure_eq_ok]
    congr 2
    unfold DegenGraph.rightDegree
    cases hg : g.right.get? u with
    | none => exact absurd hu ((hkeys u).1 hg)
    | some R => exact HSet.len_of_mem_iff fun a => by rw [hright u R hg, SGraph.mem_after]
  · show g.vertices.Nodup
    rw [I.vertices]; exact hS.distinct
  · show u ∈ g.vertices ↔ _
    rw [I.vertices, hS.verts]
  · obtain ⟨pre, N, post, h1, h2, h3⟩ := hS.split hu
    cases hg : g.right.get? u with
    | none => exact absurd hu ((hkeys u).1 hg)
    | some R =>
      refine ⟨N ++ R.toList, ?_, ?_, fun w => ?_⟩
      · show g.neighbours u = _
        unfold DegenGraph.neighbours
        rw [hslice u N h3, hg]
        rfl
      · refine List.nodup_append.2 ⟨(hS.earlier pre u N post h1).1, R.nodup, ?_⟩
        rintro a ha b hb rfl
        have := ((hS.mem h3).1 ha).2
        have := ((hright u R hg a).1 hb).2
        omega
      · rw [List.mem_append, HSet.mem_toList, hS.mem h3, hright u R hg, ← and_or_left]
        exact ⟨And.left, fun h => ⟨h, (hS.ordering.adj_cases hS.loopless h).symm⟩⟩
  · have hb : bs = (bs.map Prod.fst).map (DegenGraph.blk S (bs.map Prod.fst)) := by
      rw [List.map_map]
      conv_lhs => rw [← List.map_id bs]
      refine List.map_congr_left fun e he => ?_
      show e = (e.1, S.lefts _ e.1)
      rw [← hS.ordering.eq_lefts (hp e.1 e.2 he) (fun w => hS.mem (u := e.1) he)]
    have : DegenGraph.Inv g S (bs.map Prod.fst) := by
      refine ⟨hS.ordering, hS.loopless, ?_, fun u i => ?_, hkeys, hright, I.m.trans hS.sum⟩
      · rw [← hb]; exact I.cont
      · constructor
        · intro hi
          have hu : u ∈ S.V := by
            rw [hS.verts]
            by_contra hc
            have : g.indices.get? u = none := (I.none u).2 hc
            rw [this] at hi; cases hi
          refine ⟨hu, ?_⟩
          obtain ⟨pre, N, post, h1, h2, h3⟩ := hS.split hu
          have e : g.indices.get? u = _ := I.idx pre u N post h1 h2
          rw [hi] at e
          cases e
          have e2 : (bs.map Prod.fst).idxOf u = pre.length :=
            hS.ordering.idxOf_eq (by rw [h1]; simp)
          rw [e2, List.map_take, ← hb, h1, List.take_left]
        · rintro ⟨hu, rfl⟩
          obtain ⟨pre, N, post, h1, h2, h3⟩ := hS.split hu
          have e : g.indices.get? u = _ := I.idx pre u N post h1 h2
          have e2 : (bs.map Prod.fst).idxOf u = pre.length :=
            hS.ordering.idxOf_eq (by rw [h1]; simp)
          rw [e, e2, List.map_take, ← hb]
          conv_rhs => rw [h1, List.take_left]
    exact this.represents

/-- Non-trivial instance: a repeated vertex and a list naming a vertex that was never appended. -/
example : ∃ g, DegenGraph.appendAll [(7, []), (3, [7]), (7, [3, 9])] = .ok g ∧ g.vertices = [7, 3, 7] ∧
    g.lin.numVertices = 2 ∧ g.lin.numEdges = 3 ∧ g.leftSlice 7 = .ok [3, 9] ∧ g.adjacent 9 7 = .ok true ∧
    g.lin.contains 9 = false := ⟨_, rfl, by decide, by decide, by decide, by decide, by decide, by decide⟩

/-- Hypotheses of `C91_graph` are met by a triangle whose last list is not sorted. -/
example : ∃ S : SGraph, RecordsOf [(7, []), (3, [7]), (5, [3, 7])] S ∧ 3 * S.V.card + S.E.card ≤ 2 ^ 32 ∧ S.Adj 5 7 := by
  refine ⟨⟨{7, 3, 5}, {s(7, 3), s(5, 3), s(5, 7)}, by simp⟩, ⟨by decide, ?_, ?_, ?_⟩, by decide, by decide⟩
  · intro pre u N post h
    match pre, h with
    | [], h => cases h; decide
    | [_], h => cases h; decide
    | [_, _], h => cases h; decide
    | _ :: _ :: _ :: pre, h =>
      have := congrArg List.length h
      simp at this
  · intro u
    simp
  · intro v w
    simp only [SGraph.Adj, Finset.mem_insert, Finset.mem_singleton, Sym2.eq_iff, List.mem_cons, Prod.mk.injEq,
      List.not_mem_nil, or_false]
    constructor
    · rintro ((⟨rfl, rfl⟩ | ⟨rfl, rfl⟩) | (⟨rfl, rfl⟩ | ⟨rfl, rfl⟩) | ⟨rfl, rfl⟩ | ⟨rfl, rfl⟩) <;> simp
    · rintro (⟨N, ⟨rfl, rfl⟩ | ⟨rfl, rfl⟩ | ⟨rfl, rfl⟩, h⟩ | ⟨N, ⟨rfl, rfl⟩ | ⟨rfl, rfl⟩ | ⟨rfl, rfl⟩, h⟩) <;>
        simp_all <;> omega

end Verif
