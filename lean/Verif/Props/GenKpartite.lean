import Verif.Props.GenColours
/-!
# C139: complete multipartite graphs

What the analyses, the reachable sets and the greedy colouring give for the graphs of `complete_kpartite`, with at least two
nonempty parts.
-/
namespace Verif
open SGraph EditGraph

/-! ## Specification -/

/-- Specification: first vertex of the part containing `u`. -/
def partStart : List ℕ → ℕ → ℕ
  | [], _ => 0
  | a :: l, u => if u < a then 0 else a + partStart l (u - a)

/-- Specification: number of nonempty parts before the one containing `u`. -/
def partRank : List ℕ → ℕ → ℕ
  | [], _ => 0
  | a :: l, u => if u < a then 0 else (if a = 0 then 0 else 1) + partRank l (u - a)

/-- Specification: number of nonempty parts. -/
def partCount (sizes : List ℕ) : ℕ := (sizes.filter (0 < ·)).length

/-- Specification: number of nonempty parts up to and including the first one with more than one vertex. -/
def leadCount : List ℕ → ℕ
  | [] => 0
  | a :: l => if a = 0 then leadCount l else if a = 1 then leadCount l + 1 else 1

/-- Specification: number of vertices of the part containing `u`. -/
def partSize : List ℕ → ℕ → ℕ
  | [], _ => 0
  | a :: l, u => if u < a then a else partSize l (u - a)

/-- Specification: number of vertices of a largest part. -/
def maxPart : List ℕ → ℕ
  | [] => 0
  | a :: l => max a (maxPart l)

/-! ## Arithmetic of the parts -/

theorem partCount_cons (a : ℕ) (l : List ℕ) : partCount (a :: l) = (if a = 0 then 0 else 1) + partCount l := by
  unfold partCount
  rw [List.filter_cons]
  by_cases h : a = 0
  · rw [if_neg (by simp [h]), if_pos h, Nat.zero_add]
  · rw [if_pos (by simp; omega), if_neg h, List.length_cons, Nat.add_comm]

theorem partRank_lt : ∀ (l : List ℕ) {u : ℕ}, u < l.sum → partRank l u < partCount l
  | [], u, h => by simp at h
  | a :: l, u, h => by
    rw [partCount_cons]
    rw [List.sum_cons] at h
    unfold partRank
    by_cases hu : u < a
    · rw [if_pos hu, if_neg (by omega)]; omega
    · rw [if_neg hu]
      have := partRank_lt l (u := u - a) (by omega)
      omega

theorem partRank_surj : ∀ (l : List ℕ) {i : ℕ}, i < partCount l → ∃ u < l.sum, partRank l u = i
  | [], i, h => by simp [partCount] at h
  | a :: l, i, h => by
    rw [partCount_cons] at h
    have key : ∀ j, j < partCount l → ∃ u < (a :: l).sum, partRank (a :: l) u = (if a = 0 then 0 else 1) + j := fun j hj => by
      obtain ⟨u, h1, h2⟩ := partRank_surj l hj
      refine ⟨u + a, by rw [List.sum_cons]; omega, ?_⟩
      unfold partRank
      rw [if_neg (by omega), Nat.add_sub_cancel, h2]
    by_cases ha : a = 0
    · rw [if_pos ha] at h key
      obtain ⟨u, h1, h2⟩ := key i (by omega)
      exact ⟨u, h1, by omega⟩
    · rw [if_neg ha] at h key
      rcases Nat.eq_zero_or_pos i with rfl | hi
      · refine ⟨0, by rw [List.sum_cons]; omega, ?_⟩
        unfold partRank
        rw [if_pos (by omega)]
      · obtain ⟨u, h1, h2⟩ := key (i - 1) (by omega)
        exact ⟨u, h1, by omega⟩

theorem partRank_eq : ∀ (l : List ℕ) {u v : ℕ}, u < l.sum → v < l.sum → (partRank l u = partRank l v ↔ partOf l u = partOf l v)
  | [], u, v, h, _ => by simp at h
  | a :: l, u, v, hu, hv => by
    rw [List.sum_cons] at hu hv
    unfold partRank partOf
    by_cases h1 : u < a <;> by_cases h2 : v < a
    · simp only [if_pos h1, if_pos h2]
    · rw [if_pos h1, if_neg h2, if_pos h1, if_neg h2, if_neg (by omega)]; omega
    · rw [if_neg h1, if_pos h2, if_neg h1, if_pos h2, if_neg (by omega)]; omega
    · rw [if_neg h1, if_neg h2, if_neg h1, if_neg h2]
      have := partRank_eq l (u := u - a) (v := v - a) (by omega) (by omega)
      omega

theorem partStart_le : ∀ (l : List ℕ) (u : ℕ), partStart l u ≤ u
  | [], u => Nat.zero_le _
  | a :: l, u => by
    unfold partStart
    have := partStart_le l (u - a)
    split <;> omega

theorem partRank_lt_iff : ∀ (l : List ℕ) {u v : ℕ}, v < u → u < l.sum →
    (partRank l v < partRank l u ↔ v < partStart l u) ∧ partRank l v ≤ partRank l u
  | [], u, v, _, h => by simp at h
  | a :: l, u, v, hvu, hu => by
    rw [List.sum_cons] at hu
    unfold partRank partStart
    by_cases h1 : u < a
    · rw [if_pos h1, if_pos h1, if_pos (by omega)]; omega
    · rw [if_neg h1, if_neg h1]
      by_cases h2 : v < a
      · rw [if_pos h2, if_neg (by omega)]; omega
      · rw [if_neg h2]
        have := partRank_lt_iff l (u := u - a) (v := v - a) (by omega) (by omega)
        omega

theorem leadCount_spec : ∀ (l : List ℕ) {u : ℕ}, u < l.sum → (u < leadCount l → partStart l u = u) ∧
    (partRank l u < leadCount l → partStart l u = partRank l u) ∧ (leadCount l ≤ partRank l u → leadCount l < partStart l u)
  | [], u, h => by simp at h
  | a :: l, u, hu => by
    rw [List.sum_cons] at hu
    unfold leadCount partStart partRank
    by_cases h1 : u < a
    · rw [if_pos h1, if_pos h1, if_neg (by omega)]
      split <;> omega
    · rw [if_neg h1, if_neg h1]
      have := leadCount_spec l (u := u - a) (by omega)
      by_cases h2 : a = 0
      · simp only [if_pos h2]; subst h2; simp only [Nat.zero_add, Nat.sub_zero] at *; exact this
      · rw [if_neg h2, if_neg h2]
        by_cases h3 : a = 1
        · rw [if_pos h3]; omega
        · rw [if_neg h3]; omega

theorem leadCount_le : ∀ (l : List ℕ), leadCount l ≤ l.sum
  | [] => Nat.zero_le _
  | a :: l => by
    have := leadCount_le l
    rw [List.sum_cons]
    unfold leadCount
    split
    · omega
    · split <;> omega

theorem partOf_eq_iff : ∀ (l : List ℕ) {u v : ℕ}, u < l.sum → partStart l u + partSize l u ≤ l.sum ∧
    (partOf l v = partOf l u ↔ partStart l u ≤ v ∧ v < partStart l u + partSize l u)
  | [], u, v, h => by simp at h
  | a :: l, u, v, hu => by
    rw [List.sum_cons] at hu ⊢
    unfold partOf partStart partSize
    by_cases h1 : u < a
    · simp only [if_pos h1]
      split <;> omega
    · simp only [if_neg h1]
      have := partOf_eq_iff l (u := u - a) (v := v - a) (by omega)
      split
      · omega
      · omega

theorem partSize_le : ∀ (l : List ℕ) (u : ℕ), partSize l u ≤ maxPart l
  | [], u => Nat.zero_le _
  | a :: l, u => by
    unfold partSize maxPart
    have := partSize_le l (u - a)
    split <;> omega

theorem exists_maxPart : ∀ (l : List ℕ), 0 < l.sum → ∃ u < l.sum, partSize l u = maxPart l ∧ 0 < maxPart l
  | [], h => by simp at h
  | a :: l, h => by
    rw [List.sum_cons] at h ⊢
    unfold maxPart
    by_cases h0 : 0 < l.sum
    · obtain ⟨u, hu, h1, h2⟩ := exists_maxPart l h0
      by_cases h3 : maxPart l ≤ a
      · refine ⟨0, by omega, ?_, by omega⟩
        unfold partSize
        rw [if_pos (by omega)]; omega
      · refine ⟨u + a, by omega, ?_, by omega⟩
        unfold partSize
        rw [if_neg (by omega), Nat.add_sub_cancel]; omega
    · have h4 := partSize_le l 0
      have hm : maxPart l = 0 := by
        clear h4 h
        induction l with
        | nil => rfl
        | cons b l ih =>
          rw [List.sum_cons] at h0
          unfold maxPart
          have := ih (by omega)
          omega
      refine ⟨0, by omega, ?_, by omega⟩
      unfold partSize
      rw [if_pos (by omega)]; omega

/-! ## C139 -/

/-- **C139 (bipartiteness and components).** A complete multipartite graph with at least two nonempty parts is connected, and
`is_bipartite` reports a bipartition exactly if there are two of them. -/
theorem C139_analysed (sizes : List ℕ) (h : sizes.sum < 2 ^ 32) (h2 : 2 ≤ partCount sizes) :
    Analysed (completeKpartite sizes) (partCount sizes = 2) 1 := by
  refine (C11_kpartite_partial sizes h h2).analysed ⟨fun ⟨f, hf⟩ => ?_, fun h => ⟨fun u => decide (partRank sizes u = 0), ?_⟩⟩ ?_
  · by_contra hne
    obtain ⟨x, hx, ex⟩ := partRank_surj sizes (i := 0) (by omega)
    obtain ⟨y, hy, ey⟩ := partRank_surj sizes (i := 1) (by omega)
    obtain ⟨z, hz, ez⟩ := partRank_surj sizes (i := 2) (by omega)
    have h1 := hf x y ⟨hx, hy, (partRank_eq sizes hx hy).not.1 (by omega)⟩
    have h2 := hf x z ⟨hx, hz, (partRank_eq sizes hx hz).not.1 (by omega)⟩
    have h3 := hf y z ⟨hy, hz, (partRank_eq sizes hy hz).not.1 (by omega)⟩
    revert h1 h2 h3
    cases f x <;> cases f y <;> cases f z <;> simp
  · rintro u v ⟨hu, hv, hne⟩ he
    rw [decide_eq_decide] at he
    have h1 := partRank_lt sizes hu
    have h2 := partRank_lt sizes hv
    exact hne ((partRank_eq sizes hu hv).1 (by omega))
  · intro S hV hA
    obtain ⟨x, hx, ex⟩ := partRank_surj sizes (i := 0) (by omega)
    obtain ⟨y, hy, ey⟩ := partRank_surj sizes (i := 1) (by omega)
    refine S.comps_one (a := x) ((hV x).2 hx) fun u hu => ?_
    rw [hV] at hu
    rw [hA]
    by_cases hu0 : partRank sizes u = 0
    · exact .trans (v := y) (.single ⟨hu, hy, (partRank_eq sizes hu hy).not.1 (by omega)⟩)
        (.single ⟨hy, hx, (partRank_eq sizes hy hx).not.1 (by omega)⟩)
    · exact .single ⟨hu, hx, (partRank_eq sizes hu hx).not.1 (by omega)⟩

/-- `C139_analysed` for three nonempty parts and an empty one. -/
example := C139_analysed [2, 0, 3, 1] (by decide) (by decide)

/-- **C139 (degeneracy).** Both bounds of `degeneracy` are the number of vertices outside a largest part. -/
theorem C139_degeneracy (sizes : List ℕ) (h : sizes.sum < 2 ^ 32) (h2 : 2 ≤ partCount sizes)
    (hm : sizes.sum - maxPart sizes ≤ 130) : HasDegeneracy (completeKpartite sizes) (sizes.sum - maxPart sizes) := by
  refine (C11_kpartite_partial sizes h h2).degeneracy (fun u h => h.2.2 rfl) hm fun S hV hA => ?_
  obtain ⟨x, hx, -⟩ := partRank_surj sizes (i := 0) (by omega)
  have hX : ∀ u < sizes.sum, ∀ v, v ∈ Finset.range sizes.sum \ Finset.Ico (partStart sizes u) (partStart sizes u + partSize sizes u) ↔
      v < sizes.sum ∧ partOf sizes v ≠ partOf sizes u := fun u hu v => by
    rw [Finset.mem_sdiff, Finset.mem_range, Finset.mem_Ico, ← (partOf_eq_iff sizes (v := v) hu).2]
  have hXc : ∀ u < sizes.sum, (Finset.range sizes.sum \
      Finset.Ico (partStart sizes u) (partStart sizes u + partSize sizes u)).card = sizes.sum - partSize sizes u := fun u hu => by
    rw [Finset.card_sdiff_of_subset, Finset.card_range, Nat.card_Ico, Nat.add_sub_cancel_left]
    intro v hv
    rw [Finset.mem_Ico] at hv
    have := (partOf_eq_iff sizes (v := v) hu).1
    rw [Finset.mem_range]; omega
  refine .of (fun W hW hne => ?_) S.V (Finset.Subset.refl _) ⟨x, (hV x).2 hx⟩ (fun w hw => ?_)
  · obtain ⟨q, hq, eq, -⟩ := exists_maxPart sizes (by omega)
    rw [← eq, ← hXc q hq]
    by_cases h1 : ∃ w ∈ W, partOf sizes w = partOf sizes q
    · obtain ⟨w, hw, e⟩ := h1
      refine ⟨w, hw, S.degIn_le_of fun v hv h => ?_⟩
      rw [hA] at h
      rw [hX q hq, ← e]
      exact ⟨h.2.1, fun e => h.2.2 e.symm⟩
    · obtain ⟨w, hw⟩ := hne
      refine ⟨w, hw, S.degIn_le_of fun v hv h => ?_⟩
      rw [hX q hq]
      exact ⟨(hV v).1 (hW hv), fun e => h1 ⟨v, hv, e⟩⟩
  · have hw := (hV w).1 hw
    refine le_trans ?_ (S.le_degIn_of (X := Finset.range sizes.sum \
      Finset.Ico (partStart sizes w) (partStart sizes w + partSize sizes w)) fun v hv => ?_)
    · rw [hXc w hw]
      have := partSize_le sizes w
      omega
    · rw [hX w hw] at hv
      exact ⟨(hV v).2 hv.1, (hA w v).2 ⟨hw, hv.1, fun e => hv.2 e.symm⟩⟩

/-- `C139_degeneracy` for three nonempty parts and an empty one: value 3. -/
example : HasDegeneracy (completeKpartite [2, 0, 3, 1]) 3 := C139_degeneracy [2, 0, 3, 1] (by decide) (by decide) (by decide)

/-- **C139 (reachable sets).** In natural order a vertex of the last nonempty part reaches exactly the vertices of the other
parts; every other vertex reaches the vertices of the preceding parts and, for radius at least two, all its predecessors. Strong
and weak reachability agree. -/
theorem C139_sizes (sizes : List ℕ) (h : sizes.sum < 2 ^ 32) (h2 : 2 ≤ partCount sizes) :
    NaturalSizes (completeKpartite sizes) sizes.sum
      (fun k v => if k = 1 ∨ partRank sizes v + 1 = partCount sizes then partStart sizes v else v)
      (fun k v => if k = 1 ∨ partRank sizes v + 1 = partCount sizes then partStart sizes v else v) := by
  refine (C11_kpartite_partial sizes h h2).sizes (fun u h => h.2.2 rfl) h
    (fun k v => Finset.range (if k = 1 ∨ partRank sizes v + 1 = partCount sizes then partStart sizes v else v))
    (fun k v => Finset.range (if k = 1 ∨ partRank sizes v + 1 = partCount sizes then partStart sizes v else v))
    (fun S hV hA k u v hk hu hvu => ?_) (fun k u hk hu => ?_)
  · have hadj : ∀ a b, S.Adj a b ↔ a < sizes.sum ∧ b < sizes.sum ∧ partRank sizes a ≠ partRank sizes b := fun a b => by
      rw [hA]
      constructor
      · rintro ⟨h1, h2, h3⟩; exact ⟨h1, h2, (partRank_eq sizes h1 h2).not.2 h3⟩
      · rintro ⟨h1, h2, h3⟩; exact ⟨h1, h2, (partRank_eq sizes h1 h2).not.1 h3⟩
    have hlt := partRank_lt_iff sizes hvu hu
    have main : ∀ P : ℕ → Prop, (∀ x, u < x → P x) → (∀ x, P x → v < x) → ((∃ j ≤ k, S.WalkVia P j u v) ↔
        v ∈ Finset.range (if k = 1 ∨ partRank sizes u + 1 = partCount sizes then partStart sizes u else u)) := by
      intro P h3 h4
      rw [Finset.mem_range]
      by_cases hs : v < partStart sizes u
      · have : v < (if k = 1 ∨ partRank sizes u + 1 = partCount sizes then partStart sizes u else u) := by split <;> omega
        exact ⟨fun _ => this, fun _ => ⟨1, hk, .one ((hadj _ _).2 ⟨hu, by omega, by omega⟩)⟩⟩
      · by_cases hc : k = 1 ∨ partRank sizes u + 1 = partCount sizes
        · rw [if_pos hc]
          refine ⟨fun ⟨j, hj, w⟩ => ?_, fun h => absurd h hs⟩
          cases w with
          | one e => have := (hadj _ _).1 e; omega
          | @cons _ _ x _ e hx w =>
            rcases hc with rfl | hc
            · cases w <;> omega
            · have h5 := (hadj _ _).1 e
              have h6 := partRank_lt sizes h5.2.1
              have h7 := (partRank_lt_iff sizes (h4 x hx) h5.2.1).2
              omega
        · rw [if_neg hc]
          refine ⟨fun _ => hvu, fun _ => ?_⟩
          have := partRank_lt sizes hu
          obtain ⟨x, hx, ex⟩ := partRank_surj sizes (i := partRank sizes u + 1) (by omega)
          have hux : u < x := by
            by_contra hn
            rcases Nat.lt_or_ge x u with hlt | hge
            · have := (partRank_lt_iff sizes hlt hu).2; omega
            · obtain rfl : x = u := by omega
              omega
          exact ⟨2, by omega, .cons (w := x) ((hadj _ _).2 ⟨hu, hx, by omega⟩) (h3 x hux)
            (.one ((hadj _ _).2 ⟨hx, by omega, by omega⟩))⟩
    exact ⟨main _ (fun x hx => hx) (fun x hx => by omega), main _ (fun x hx => by omega) (fun x hx => hx)⟩
  · have := partStart_le sizes u
    have key : ∀ v ∈ Finset.range (if k = 1 ∨ partRank sizes u + 1 = partCount sizes then partStart sizes u else u), v < u := by
      intro v hv
      rw [Finset.mem_range] at hv
      split at hv <;> omega
    exact ⟨key, key, Finset.card_range _, Finset.card_range _⟩

/-- `C139_sizes` for three nonempty parts and an empty one. -/
example := C139_sizes [2, 0, 3, 1] (by decide) (by decide)

/-- The colouring that `colour_greedy` gives: each part up to and including the first one with more than one vertex has its own
colour, all other vertices have none. -/
def kpartiteColour (sizes : List ℕ) (v : ℕ) : Option ℕ :=
  if v < sizes.sum ∧ partRank sizes v < leadCount sizes then some (partRank sizes v) else none

theorem kpartite_greedy {sizes : List ℕ} {S : SGraph} (hV : S.OnRange sizes.sum)
    (hA : ∀ a b, S.Adj a b ↔ a < sizes.sum ∧ b < sizes.sum ∧ partOf sizes a ≠ partOf sizes b) :
    S.IsGreedy (List.range sizes.sum) (kpartiteColour sizes) := by
  have hle := leadCount_le sizes
  have hself : ∀ j, j < leadCount sizes → kpartiteColour sizes j = some j := fun j hj => by
    have h1 := leadCount_spec sizes (u := j) (by omega)
    have h2 := h1.1 hj
    have h3 : partRank sizes j < leadCount sizes := by
      by_contra hn
      have := h1.2.2 (by omega)
      omega
    unfold kpartiteColour
    rw [if_pos ⟨by omega, h3⟩, ← h1.2.1 h3, h2]
  refine hV.greedy _ (partStart sizes) (fun v => min v (leadCount sizes)) (fun v => Finset.range (partStart sizes v))
    (fun v hv u => ?_) (fun v hv => Finset.card_range _) (Nat.zero_min _) (fun v hv => ?_) (fun v hv => ?_)
    (fun v hv => if_neg (by omega))
  · rw [Finset.mem_range, hA]
    constructor
    · rintro ⟨⟨h1, h2, h3⟩, h4⟩
      have h5 := partRank_lt_iff sizes h4 hv
      have h6 := (partRank_eq sizes h1 h2).not.2 h3
      omega
    · intro h
      have h4 : u < v := lt_of_lt_of_le h (partStart_le _ _)
      have h5 := partRank_lt_iff sizes h4 hv
      exact ⟨⟨hv, by omega, (partRank_eq sizes hv (by omega)).not.1 (by omega)⟩, h4⟩
  · have h1 := leadCount_spec sizes (u := v) (by omega)
    split <;> omega
  · have h1 := leadCount_spec sizes hv
    by_cases hvl : v < leadCount sizes
    · rw [hself v hvl]
      exact .inl ⟨by omega, by omega⟩
    · have hm : min v (leadCount sizes) = leadCount sizes := by omega
      rw [hm]
      by_cases hr : partRank sizes v < leadCount sizes
      · have : kpartiteColour sizes v = some (partRank sizes v) := if_pos ⟨hv, hr⟩
        rw [this]
        have h2 := h1.2.1 hr
        refine .inr ⟨by omega, hr, ?_, fun j hj => ⟨j, Finset.mem_range.2 (by omega), hself j (by omega)⟩⟩
        rintro ⟨u, hu, e⟩
        rw [Finset.mem_range] at hu
        rw [hself u (by omega)] at e
        have := Option.some.inj e
        omega
      · have : kpartiteColour sizes v = none := if_neg (fun h => hr h.2)
        rw [this]
        have h2 := h1.2.2 (by omega)
        exact ⟨by omega, fun j hj => ⟨j, Finset.mem_range.2 (by omega), hself j hj⟩⟩

/-- The generator call `r` succeeds, its result can be laid out in the order `0..n-1`, and for every memory layout
`colour_greedy` panics. -/
def NaturalColourPanic (r : Res EditGraph) (n : ℕ) : Prop :=
  ∃ g, r = .ok g ∧ ∀ g', EditGraph.Relayout g g' → ∃ o, OrdGraph.withOrdering g'.view (List.range n) = .ok o ∧
    ∀ o', OrdGraph.Relayout o o' → o'.lin.colourGreedy = .error .panic

/-- **C139 (greedy colouring).** In natural order `colour_greedy` returns the colouring that gives each part its own colour up
to and including the first part with more than one vertex, and leaves out all other vertices, if at most one nonempty part
follows that one; otherwise it panics. -/
theorem C139_colours (sizes : List ℕ) (h : sizes.sum < 2 ^ 32) (h2 : 2 ≤ partCount sizes) :
    (partCount sizes ≤ leadCount sizes + 1 → NaturalColours (completeKpartite sizes) sizes.sum (kpartiteColour sizes)) ∧
    (leadCount sizes + 1 < partCount sizes → NaturalColourPanic (completeKpartite sizes) sizes.sum) := by
  obtain ⟨g, S, hg, A, hV, hA⟩ := (C11_kpartite_partial sizes h h2).abs
  have hV' : S.OnRange sizes.sum := hV
  have hlo : S.Loopless := fun u e => ((hA u u).1 e).2.2 rfl
  have key : ∀ g', EditGraph.Relayout g g' → ∃ o, OrdGraph.withOrdering g'.view (List.range sizes.sum) = .ok o ∧
    ∀ o', OrdGraph.Relayout o o' →
      ((∃ v, ∃ u ∈ S.before (List.range sizes.sum) v, kpartiteColour sizes u = none) → o'.lin.colourGreedy = .error .panic) ∧
      ((∀ v, ∀ u ∈ S.before (List.range sizes.sum) v, kpartiteColour sizes u ≠ none) →
        ∃ c, o'.lin.colourGreedy = .ok c ∧ ∀ v, c.get? v = kpartiteColour sizes v) := by
    intro g' hg'
    obtain ⟨o, ho, hR⟩ := C43_with_ordering (A.relayout hg').rep hlo hV'.ordering.nodup hV'.ordering.mem
    refine ⟨o, ho, fun o' ho' => ?_⟩
    obtain ⟨χ', q, h1, -, -, h3, h4⟩ := C55_colour_greedy_exact_partial (hR o' ho').lin (by rw [hV'.card]; omega)
    obtain rfl := (h1 _).1 (kpartite_greedy hV' hA)
    exact ⟨h3, h4⟩
  have hbef : ∀ v u, u ∈ S.before (List.range sizes.sum) v ↔ S.Adj v u ∧ u < v := fun v u => by
    rw [mem_before]
    refine and_congr_right fun e => ?_
    rw [idxOf_range ((hV' v).1 e.left), idxOf_range ((hV' u).1 e.right)]
  constructor
  · intro hc
    refine ⟨g, hg, fun g' hg' => ?_⟩
    obtain ⟨o, ho, h5⟩ := key g' hg'
    refine ⟨o, ho, fun o' ho' => (h5 o' ho').2 fun v u hu hn => ?_⟩
    obtain ⟨e, hlt⟩ := (hbef v u).1 hu
    obtain ⟨h6, h7, h8⟩ := (hA v u).1 e
    have h9 := partRank_lt_iff sizes hlt h6
    have h10 := (partRank_eq sizes h6 h7).not.2 h8
    have h11 := partRank_lt sizes h6
    rw [kpartiteColour, if_pos ⟨h7, by omega⟩] at hn
    simp at hn
  · intro hc
    refine ⟨g, hg, fun g' hg' => ?_⟩
    obtain ⟨o, ho, h5⟩ := key g' hg'
    refine ⟨o, ho, fun o' ho' => (h5 o' ho').1 ?_⟩
    obtain ⟨u, hu, eu⟩ := partRank_surj sizes (i := leadCount sizes) (by omega)
    obtain ⟨v, hv, ev⟩ := partRank_surj sizes (i := leadCount sizes + 1) hc
    have huv : u < v := by
      by_contra hn
      rcases Nat.lt_or_ge v u with hlt | hge
      · have := (partRank_lt_iff sizes hlt hu).2; omega
      · obtain rfl : u = v := by omega
        omega
    refine ⟨v, u, (hbef v u).2 ⟨(hA v u).2 ⟨hv, hu, (partRank_eq sizes hv hu).not.1 (by omega)⟩, huv⟩, if_neg fun h => ?_⟩
    omega

/-- `C139_colours` where a colouring is returned: the parts `0`, `{1}`, `{2, 3}` get the colours 0, 1, 2 and the last part
`{4}` gets none. -/
example : NaturalColours (completeKpartite [1, 1, 2, 1]) 5
    (fun v => if v < 4 then some (min v 2) else none) := by
  have := (C139_colours [1, 1, 2, 1] (by decide) (by decide)).1 (by decide)
  have e : kpartiteColour [1, 1, 2, 1] = fun v => if v < 4 then some (min v 2) else none := by
    funext v
    by_cases hv : v < 5
    · have : v = 0 ∨ v = 1 ∨ v = 2 ∨ v = 3 ∨ v = 4 := by omega
      rcases this with rfl | rfl | rfl | rfl | rfl <;> rfl
    · rw [if_neg (by omega)]
      exact if_neg fun h => hv h.1
  rwa [e] at this

/-- `C139_colours` where the method panics: parts of sizes 2, 1, 1. -/
example : NaturalColourPanic (completeKpartite [2, 1, 1]) 4 :=
  (C139_colours [2, 1, 1] (by decide) (by decide)).2 (by decide)

end Verif
