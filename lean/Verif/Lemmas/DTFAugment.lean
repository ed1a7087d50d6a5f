import Verif.Lemmas.DTFOrient
import Verif.Lemmas.Operations
/-!
# Lemmas: transitive tails, fraternal pairs and one round of `augment`
-/
namespace Verif.DTFGraph

/-- Specification: `x` reaches `u` through an intermediate vertex with total weight `d`, and is neither `u` nor an in-neighbour
of `u`. -/
def Transitive (A : Arcs) (d x u : ℕ) : Prop :=
  x ≠ u ∧ (∀ w, (x, u, w) ∉ A) ∧ ∃ y w, 1 ≤ w ∧ w < d ∧ (y, u, w) ∈ A ∧ (x, y, d - w) ∈ A

/-- Specification: `x ≠ y` are not joined by an arc in either direction. -/
def Apart (A : Arcs) (x y : ℕ) : Prop := x ≠ y ∧ ∀ w, (x, y, w) ∉ A ∧ (y, x, w) ∉ A

theorem Apart.symm {A : Arcs} {x y : ℕ} (h : Apart A x y) : Apart A y x := ⟨h.1.symm, fun w => (h.2 w).symm⟩

/-- Specification: `x` and `y` are apart and have a common out-neighbour, with weights that sum to `d`. -/
def Fraternal (A : Arcs) (d x y : ℕ) : Prop := Apart A x y ∧ ∃ u w w', (x, u, w) ∈ A ∧ (y, u, w') ∈ A ∧ w + w' = d

theorem Fraternal.symm {A : Arcs} {d x y : ℕ} (h : Fraternal A d x y) : Fraternal A d y x := by
  obtain ⟨h1, u, w, w', h2, h3, h4⟩ := h
  exact ⟨h1.symm, u, w', w, h3, h2, by omega⟩

/-- Specification: `x` and `y` are apart and have a common out-neighbour, with weights `1` and `d - 1`. -/
def Meets (A : Arcs) (d x y : ℕ) : Prop :=
  Apart A x y ∧ ∃ u, ((x, u, 1) ∈ A ∧ (y, u, d - 1) ∈ A) ∨ ((x, u, d - 1) ∈ A ∧ (y, u, 1) ∈ A)

theorem Meets.symm {A : Arcs} {d x y : ℕ} (h : Meets A d x y) : Meets A d y x := by
  obtain ⟨h1, u, h | h⟩ := h
  · exact ⟨h1.symm, u, Or.inr h.symm⟩
  · exact ⟨h1.symm, u, Or.inl h.symm⟩

theorem Meets.fraternal {A : Arcs} {d x y : ℕ} (h : Meets A d x y) (hd : 1 ≤ d) : Fraternal A d x y := by
  obtain ⟨h1, u, h | h⟩ := h
  · exact ⟨h1, u, 1, d - 1, h.1, h.2, by omega⟩
  · exact ⟨h1, u, d - 1, 1, h.1, h.2, by omega⟩

variable {g : DTFGraph} {V : Finset ℕ} {A : Arcs}

theorem transTails_ok (H : Abs g V A) {u d : ℕ} (hu : u ∈ V) (hd : d ≤ g.depth + 1) :
    Ok (g.transTails u d) (fun T => ∀ x, x ∈ T ↔ Transitive A d x u) := by
  unfold transTails
  refine Ok.bind (P := fun T => ∀ x, x ∈ T ↔ ∃ y w, 1 ≤ w ∧ w < d ∧ (y, u, w) ∈ A ∧ (x, y, d - w) ∈ A) ?_ fun T hT => ?_
  · refine (Ok.foldlM (fun (pre : List ℕ) (T : HSet ℕ) => ∀ x, x ∈ T ↔ ∃ y, ∃ w ∈ pre, (y, u, w) ∈ A ∧ (x, y, d - w) ∈ A)
      ?_ ?_).mono ?_
    · intro x; simp
    · intro pre wy post T hsp hT
      have hwy : wy ∈ List.range' 1 (d - 1) := by rw [hsp]; simp
      rw [List.mem_range'_1] at hwy
      obtain ⟨N, hN, hNn, hNm⟩ := H.inNeighboursAt hu hwy.1 (by omega)
      rw [hN, bind_ok]
      refine (Ok.foldlM (fun (pre' : List ℕ) (T' : HSet ℕ) => ∀ x, x ∈ T' ↔ x ∈ T ∨ ∃ y ∈ pre', (x, y, d - wy) ∈ A)
        ?_ ?_).mono ?_
      · intro x; simp
      · intro pre' y post' T' hsp' hT'
        have hy : y ∈ N := by rw [hsp']; simp
        have hyV := (H.wf _ ((hNm y).1 hy)).1
        obtain ⟨M, hM, -, hMm⟩ := H.inNeighboursAt hyV (show 1 ≤ d - wy by omega) (by omega)
        rw [hM, bind_ok]
        refine Ok.pure fun x => ?_
        rw [HSet.mem_extend, hT', hMm]
        simp only [List.mem_append, List.mem_singleton]
        constructor
        · rintro ((h | ⟨y', h1, h2⟩) | h)
          · exact Or.inl h
          · exact Or.inr ⟨y', Or.inl h1, h2⟩
          · exact Or.inr ⟨y, Or.inr rfl, h⟩
        · rintro (h | ⟨y', h1 | rfl, h2⟩)
          · exact Or.inl (Or.inl h)
          · exact Or.inl (Or.inr ⟨y', h1, h2⟩)
          · exact Or.inr h2
      · intro T' hT' x
        rw [hT', hT]
        simp only [List.mem_append, List.mem_singleton]
        constructor
        · rintro (⟨y, w, hw, h⟩ | ⟨y, hy, h⟩)
          · exact ⟨y, w, Or.inl hw, h⟩
          · exact ⟨y, wy, Or.inr rfl, (hNm y).1 hy, h⟩
        · rintro ⟨y, w, hw | rfl, h1, h2⟩
          · exact Or.inl ⟨y, w, hw, h1, h2⟩
          · exact Or.inr ⟨y, (hNm y).2 h1, h2⟩
    · intro T hT x
      rw [hT]
      constructor
      · rintro ⟨y, w, hw, h1, h2⟩
        rw [List.mem_range'_1] at hw
        exact ⟨y, w, hw.1, by omega, h1, h2⟩
      · rintro ⟨y, w, hw, hw', h1, h2⟩
        exact ⟨y, w, by rw [List.mem_range'_1]; omega, h1, h2⟩
  · obtain ⟨N, hN, hNm, -⟩ := H.inNeighbours hu
    rw [hN, bind_ok]
    refine Ok.pure fun x => ?_
    rw [HSet.mem_retain, hT]
    have : (((HSet.ofList N).insert u).contains x) = false ↔ x ≠ u ∧ ∀ w, (x, u, w) ∉ A := by
      rw [← Bool.not_eq_true, HSet.contains_iff, HSet.mem_insert, HSet.mem_ofList, hNm]
      push Not
      rfl
    rw [Bool.not_eq_true', this]
    exact ⟨fun h => ⟨h.2.1, h.2.2, h.1⟩, fun h => ⟨h.2.2, h.1, h.2.1⟩⟩

theorem mem_fratFold (l : List Edge) (res : HSet Edge) (p : Edge) :
    p ∈ l.foldl g.fratStep res ↔ p ∈ res ∨ (p ∈ l ∧ g.adjacent p.1 p.2 = false) := by
  induction l generalizing res with
  | nil => simp
  | cons q l ih =>
    rw [List.foldl_cons, ih, List.mem_cons]
    unfold fratStep
    by_cases hq : g.adjacent q.1 q.2 = true
    · rw [if_pos hq]
      constructor
      · tauto
      · rintro (h | ⟨rfl | h, h'⟩)
        · exact Or.inl h
        · rw [hq] at h'; cases h'
        · exact Or.inr ⟨h, h'⟩
    · rw [if_neg hq, HSet.mem_insert]
      constructor
      · rintro ((rfl | h) | h)
        · exact Or.inr ⟨Or.inl rfl, by simpa using hq⟩
        · exact Or.inl h
        · exact Or.inr ⟨Or.inr h.1, h.2⟩
      · tauto

theorem not_adjacent_iff (H : Abs g V A) (x y : ℕ) : g.adjacent x y = false ↔ ∀ w, (x, y, w) ∉ A ∧ (y, x, w) ∉ A := by
  rw [← Bool.not_eq_true, H.adjacent_iff]
  push Not
  rfl

theorem fratPairs2_ok (H : Abs g V A) {u : ℕ} (hu : u ∈ V) :
    Ok (g.fratPairs2 u) (fun P => (∀ x y, (x, y) ∈ P → Apart A x y ∧ (x, u, 1) ∈ A ∧ (y, u, 1) ∈ A) ∧
      ∀ x y, Apart A x y → (x, u, 1) ∈ A → (y, u, 1) ∈ A → (x, y) ∈ P ∨ (y, x) ∈ P) := by
  unfold fratPairs2
  obtain ⟨N, hN, hNn, hNm⟩ := H.inNeighboursAt hu (le_refl 1) H.pos
  rw [hN, bind_ok]
  refine Ok.pure ⟨fun x y h => ?_, fun x y ha hx hy => ?_⟩
  · rw [mem_fratFold] at h
    rcases h with h | ⟨h1, h2⟩
    · simp at h
    · obtain ⟨k1, k2, k3⟩ := mem_pairs hNn h1
      exact ⟨⟨k3, (not_adjacent_iff H x y).1 h2⟩, (hNm x).1 k1, (hNm y).1 k2⟩
  · rcases exists_pairs ((hNm x).2 hx) ((hNm y).2 hy) ha.1 with h | h
    · left; rw [mem_fratFold]; exact Or.inr ⟨h, (not_adjacent_iff H x y).2 ha.2⟩
    · right; rw [mem_fratFold]; exact Or.inr ⟨h, (not_adjacent_iff H y x).2 ha.symm.2⟩

theorem fratPairs_ok (H : Abs g V A) {u d : ℕ} (hu : u ∈ V) (h3 : 3 ≤ d) (hd : d ≤ g.depth + 1) :
    Ok (g.fratPairs u d) (fun P => ∀ x y, (x, y) ∈ P ↔ (∀ w, (x, y, w) ∉ A ∧ (y, x, w) ∉ A) ∧
      (((x, u, 1) ∈ A ∧ (y, u, d - 1) ∈ A) ∨ ((x, u, d - 1) ∈ A ∧ (y, u, 1) ∈ A))) := by
  unfold fratPairs
  have h2 : (d != 2) = true := by simp; omega
  rw [h2]
  simp only [assertR, if_true, bind_ok]
  rw [usub_ok (by omega : 1 ≤ d), bind_ok]
  refine (Ok.foldlM (fun (pre : List ℕ) (P : HSet Edge) => ∀ x y, (x, y) ∈ P ↔ (∀ w, (x, y, w) ∉ A ∧ (y, x, w) ∉ A) ∧
      ∃ w ∈ pre, (x, u, w) ∈ A ∧ (y, u, d - w) ∈ A) ?_ ?_).mono ?_
  · intro x y; simp
  · intro pre wx post P hsp hP
    have hwx : wx ∈ [1, d - 1] := by rw [hsp]; simp
    have hb : 1 ≤ wx ∧ wx ≤ g.depth ∧ 1 ≤ d - wx ∧ d - wx ≤ g.depth ∧ wx ≤ d := by
      simp only [List.mem_cons, List.not_mem_nil, or_false] at hwx
      omega
    rw [usub_ok hb.2.2.2.2, bind_ok]
    obtain ⟨X, hX, hXn, hXm⟩ := H.inNeighboursAt hu hb.1 hb.2.1
    rw [hX, bind_ok]
    refine (Ok.foldlM (fun (pre' : List ℕ) (P' : HSet Edge) => ∀ x y, (x, y) ∈ P' ↔ (x, y) ∈ P ∨
      ((∀ w, (x, y, w) ∉ A ∧ (y, x, w) ∉ A) ∧ x ∈ pre' ∧ (y, u, d - wx) ∈ A)) ?_ ?_).mono ?_
    · intro x y; simp
    · intro pre' x0 post' P' hsp' hP'
      obtain ⟨Y, hY, hYn, hYm⟩ := H.inNeighboursAt hu hb.2.2.1 hb.2.2.2.1
      rw [hY, bind_ok]
      refine Ok.pure fun x y => ?_
      have hfold : Y.foldl (fun res y => g.fratStep res (x0, y)) P' = (Y.map (fun y => (x0, y))).foldl g.fratStep P' := by
        rw [List.foldl_map]
      rw [hfold, mem_fratFold, hP', not_adjacent_iff H]
      have hm : (x, y) ∈ Y.map (fun y => (x0, y)) ↔ x = x0 ∧ (y, u, d - wx) ∈ A := by
        rw [List.mem_map, ← hYm]
        constructor
        · rintro ⟨z, hz, he⟩; cases he; exact ⟨rfl, hz⟩
        · rintro ⟨rfl, hz⟩; exact ⟨y, hz, rfl⟩
      rw [hm]
      simp only [List.mem_append, List.mem_singleton]
      generalize (∀ w, (x, y, w) ∉ A ∧ (y, x, w) ∉ A) = Q
      tauto
    · intro P' hP' x y
      rw [hP', hP, hXm]
      simp only [List.mem_append, List.mem_singleton]
      constructor
      · rintro (⟨h1, w, hw, h⟩ | ⟨h1, h, h'⟩)
        · exact ⟨h1, w, Or.inl hw, h⟩
        · exact ⟨h1, wx, Or.inr rfl, h, h'⟩
      · rintro ⟨h1, w, hw | rfl, h⟩
        · exact Or.inl ⟨h1, w, hw, h⟩
        · exact Or.inr ⟨h1, h⟩
  · intro P hP x y
    rw [hP]
    have : d - (d - 1) = 1 := by omega
    simp only [List.mem_cons, List.not_mem_nil, or_false, exists_eq_or_imp, exists_eq_left, this]

/-- The fraternal pairs found at `u`, for either function. -/
theorem frat_ok (H : Abs g V A) {u d : ℕ} (hu : u ∈ V) (h2 : 2 ≤ d) (hd : d ≤ g.depth + 1)
    (hq : ∀ x w w', (x, u, w) ∈ A → (x, u, w') ∈ A → w = w') :
    Ok (g.fratAt u d) (fun P => ∀ x y, ((x, y) ∈ P ∨ (y, x) ∈ P) ↔ Apart A x y ∧
      (((x, u, 1) ∈ A ∧ (y, u, d - 1) ∈ A) ∨ ((x, u, d - 1) ∈ A ∧ (y, u, 1) ∈ A))) := by
  unfold fratAt
  by_cases hd2 : d = 2
  · rw [if_pos hd2]
    subst hd2
    refine (fratPairs2_ok H hu).mono ?_
    rintro P ⟨h1, h2⟩
    refine fun x y => ⟨?_, ?_⟩
    · rintro (h | h)
      · exact ⟨(h1 x y h).1, Or.inl (h1 x y h).2⟩
      · exact ⟨(h1 y x h).1.symm, Or.inl (h1 y x h).2.symm⟩
    · rintro ⟨ha, h | h⟩
      · exact h2 x y ha h.1 h.2
      · exact h2 x y ha h.1 h.2
  · rw [if_neg hd2]
    refine (fratPairs_ok H hu (by omega) hd).mono ?_
    intro P hP
    have key : ∀ x y, (x, y) ∈ P → Apart A x y ∧
        (((x, u, 1) ∈ A ∧ (y, u, d - 1) ∈ A) ∨ ((x, u, d - 1) ∈ A ∧ (y, u, 1) ∈ A)) := by
      intro x y h
      obtain ⟨h1, h⟩ := (hP x y).1 h
      refine ⟨⟨?_, h1⟩, h⟩
      rintro rfl
      rcases h with h | h
      · have := hq _ _ _ h.1 h.2
        omega
      · have := hq _ _ _ h.1 h.2
        omega
    refine fun x y => ⟨?_, fun h => Or.inl ((hP x y).2 ⟨h.1.2, h.2⟩)⟩
    rintro (h | h)
    · exact key x y h
    · obtain ⟨h1, h | h⟩ := key y x h
      · exact ⟨h1.symm, Or.inr h.symm⟩
      · exact ⟨h1.symm, Or.inl h.symm⟩

theorem addPairs_ok {f : EditGraph} {P : ℕ → Prop} {R : ℕ → ℕ → Prop} (hf : EditGraph.Is f P R) (l : List Edge) :
    Ok (addPairs f l) (fun f' => EditGraph.Is f' (fun w => P w ∨ ∃ x ∈ l, w = x.1 ∨ w = x.2)
      (fun a b => R a b ∨ (a, b) ∈ l ∨ (b, a) ∈ l)) := by
  refine (hf.foldAdd l Prod.fst Prod.snd).mono fun f' h => h.congr (fun _ => Iff.rfl) fun a b => ?_
  constructor
  · rintro (h | ⟨⟨c, d⟩, hx, ⟨rfl, rfl⟩ | ⟨rfl, rfl⟩⟩)
    · exact Or.inl h
    · exact Or.inr (Or.inl hx)
    · exact Or.inr (Or.inr hx)
  · rintro (h | h | h)
    · exact Or.inl h
    · exact Or.inr ⟨_, h, Or.inl ⟨rfl, rfl⟩⟩
    · exact Or.inr ⟨_, h, Or.inr ⟨rfl, rfl⟩⟩

/-- The loop that collects the new arcs of a round. -/
theorem collect_ok (H : Abs g V A) (h2 : 2 ≤ g.depth) (hq : ∀ u x w w', (x, u, w) ∈ A → (x, u, w') ∈ A → w = w') :
    Ok (g.vertices.foldlM g.collect (∅, EditGraph.new)) (fun st => (∀ x u, (x, u) ∈ st.1 ↔ Transitive A g.depth x u) ∧
      ∃ S, EditGraph.Abs st.2 S ∧ (∀ a, a ∈ S.V ↔ ∃ b, Meets A g.depth a b) ∧ ∀ a b, S.Adj a b ↔ Meets A g.depth a b) := by
  have main : Ok (g.vertices.foldlM g.collect (∅, EditGraph.new)) (fun st =>
      (∀ x u, (x, u) ∈ st.1 ↔ u ∈ g.vertices ∧ Transitive A g.depth x u) ∧
      ∃ P R, EditGraph.Is st.2 P R ∧ (∀ a, P a ↔ ∃ b, R a b) ∧ ∀ a b, R a b ↔ Apart A a b ∧ ∃ u ∈ g.vertices,
        ((a, u, 1) ∈ A ∧ (b, u, g.depth - 1) ∈ A) ∨ ((a, u, g.depth - 1) ∈ A ∧ (b, u, 1) ∈ A)) := by
    refine Ok.foldlM (fun (pre : List ℕ) (st : HSet Edge × EditGraph) =>
      (∀ x u, (x, u) ∈ st.1 ↔ u ∈ pre ∧ Transitive A g.depth x u) ∧
      ∃ P R, EditGraph.Is st.2 P R ∧ (∀ a, P a ↔ ∃ b, R a b) ∧ ∀ a b, R a b ↔ Apart A a b ∧ ∃ u ∈ pre,
        ((a, u, 1) ∈ A ∧ (b, u, g.depth - 1) ∈ A) ∨ ((a, u, g.depth - 1) ∈ A ∧ (b, u, 1) ∈ A)) ?_ ?_
    · exact ⟨by simp, _, _, EditGraph.Is.new, by simp, by simp⟩
    · rintro pre u post ⟨t, f⟩ hsp ⟨ht, P, R, hf, hP, hR⟩
      have hu : u ∈ V := (H.vertices_mem u).1 (by rw [hsp]; simp)
      unfold collect
      obtain ⟨T, hT, hTm⟩ := transTails_ok H hu (show g.depth ≤ g.depth + 1 by omega)
      rw [hT, bind_ok]
      obtain ⟨Q, hQ, hQm⟩ := frat_ok H hu h2 (by omega) (hq u)
      rw [hQ, bind_ok]
      refine Ok.bind (addPairs_ok hf Q.toList) fun f' hf' => Ok.pure (a := (_, f')) ⟨fun x v => ?_, _, _, hf', ?_, ?_⟩
      · have hfold : ∀ (l : List ℕ) (t : HSet Edge), (x, v) ∈ l.foldl (fun (t : HSet Edge) x => t.insert (x, u)) t ↔
            (x, v) ∈ t ∨ (x ∈ l ∧ v = u) := by
          intro l
          induction l with
          | nil => simp
          | cons a l ih =>
            intro t
            rw [List.foldl_cons, ih, HSet.mem_insert, List.mem_cons, Prod.mk.injEq]
            tauto
        simp only [hfold]
        rw [ht, List.mem_append, List.mem_singleton]
        have : x ∈ T.toList ↔ Transitive A g.depth x u := hTm x
        rw [this]
        constructor
        · rintro (h | ⟨h, rfl⟩)
          · exact ⟨Or.inl h.1, h.2⟩
          · exact ⟨Or.inr rfl, h⟩
        · rintro ⟨h | rfl, h'⟩
          · exact Or.inl ⟨h, h'⟩
          · exact Or.inr ⟨h', rfl⟩
      · intro a
        rw [hP]
        constructor
        · rintro (⟨b, h⟩ | ⟨⟨c, d⟩, h, rfl | rfl⟩)
          · exact ⟨b, Or.inl h⟩
          · exact ⟨d, Or.inr (Or.inl h)⟩
          · exact ⟨c, Or.inr (Or.inr h)⟩
        · rintro ⟨b, h | h | h⟩
          · exact Or.inl ⟨b, h⟩
          · exact Or.inr ⟨_, h, Or.inl rfl⟩
          · exact Or.inr ⟨_, h, Or.inr rfl⟩
      · intro a b
        have : ((a, b) ∈ Q.toList ∨ (b, a) ∈ Q.toList) ↔ _ := hQm a b
        rw [this, hR]
        constructor
        · rintro (⟨h, v, hv, h'⟩ | ⟨h, h'⟩)
          · exact ⟨h, v, List.mem_append_left _ hv, h'⟩
          · exact ⟨h, u, by simp, h'⟩
        · rintro ⟨h, v, hv, h'⟩
          rw [List.mem_append, List.mem_singleton] at hv
          rcases hv with hv | rfl
          · exact Or.inl ⟨h, v, hv, h'⟩
          · exact Or.inr ⟨h, h'⟩
  refine main.mono ?_
  rintro ⟨t, f⟩ ⟨h1, P, R, ⟨S, hS, hSP, hSR⟩, hP, hR⟩
  have hR' : ∀ a b, R a b ↔ Meets A g.depth a b := by
    intro a b
    rw [hR]
    constructor
    · rintro ⟨h, u, -, h'⟩; exact ⟨h, u, h'⟩
    · rintro ⟨h, u, h'⟩
      refine ⟨h, u, (H.vertices_mem u).2 ?_, h'⟩
      rcases h' with h' | h'
      · exact (H.wf _ h'.1).2.1
      · exact (H.wf _ h'.1).2.1
  refine ⟨fun x u => ?_, S, hS, fun a => ?_, fun a b => by rw [hSR, hR']⟩
  swap
  · rw [hSP, hP]
    exact exists_congr (hR' a)
  rw [h1]
  constructor
  · exact And.right
  · intro h
    obtain ⟨-, -, y, w, -, -, hy, -⟩ := id h
    exact ⟨(H.vertices_mem u).2 (H.wf _ hy).2.1, h⟩

/-- Inserting a list of arcs of weight `depth`. -/
theorem addTrans_ok (H : Abs g V A) {f : EditGraph} {S : SGraph} (hf : EditGraph.Abs f S) {l : List Edge}
    (hl : ∀ e ∈ l, e.1 ∈ V ∧ e.2 ∈ V) :
    Ok (l.foldlM addTrans (g, f)) (fun st => ∃ A' S', Abs st.1 V A' ∧ st.1.depth = g.depth ∧ EditGraph.Abs st.2 S' ∧
      (∀ u v w, (u, v, w) ∈ A' ↔ (u, v, w) ∈ A ∨ (w = g.depth ∧ (u, v) ∈ l)) ∧ S'.V = S.V ∧
      ∀ a b, S'.Adj a b ↔ S.Adj a b ∧ (a, b) ∉ l ∧ (b, a) ∉ l) := by
  refine Ok.foldlM (fun (pre : List Edge) (st : DTFGraph × EditGraph) => ∃ A' S', Abs st.1 V A' ∧ st.1.depth = g.depth ∧
    EditGraph.Abs st.2 S' ∧ (∀ u v w, (u, v, w) ∈ A' ↔ (u, v, w) ∈ A ∨ (w = g.depth ∧ (u, v) ∈ pre)) ∧ S'.V = S.V ∧
      ∀ a b, S'.Adj a b ↔ S.Adj a b ∧ (a, b) ∉ pre ∧ (b, a) ∉ pre) ?_ ?_
  · exact ⟨A, S, H, rfl, hf, by simp, rfl, by simp⟩
  · rintro pre ⟨s, t⟩ post ⟨g', f'⟩ hsp ⟨A', S', h1, h2, h3, h4, hV', h5⟩
    obtain ⟨hs, ht⟩ := hl (s, t) (by rw [hsp]; simp)
    simp only at h1 h2 h3
    unfold addTrans
    simp only
    obtain ⟨g'', hg'', k1, k2⟩ := h1.addArc h1.pos (by have := h1.len; omega) s t
    rw [hg'', bind_ok]
    obtain ⟨r, hr, k3, -⟩ := h3.removeEdge s t
    rw [hr, bind_ok]
    refine Ok.pure (a := (g'', r.1)) ⟨insert (s, t, g'.depth) A', _, ?_, ?_, k3, fun u v w => ?_, hV', fun a b => ?_⟩
    · have hV : insert s (insert t V) = V := by
        rw [Finset.insert_eq_of_mem ht, Finset.insert_eq_of_mem hs]
      rw [hV] at k1
      exact k1
    · simp only [k2]; exact h2
    · rw [Finset.mem_insert, h4, h2]
      simp only [List.mem_append, List.mem_singleton, Prod.mk.injEq]
      tauto
    · rw [SGraph.removeEdge_adj, h5]
      simp only [List.mem_append, List.mem_singleton, Prod.mk.injEq]
      tauto

theorem addArcs_ok (H : Abs g V A) {l : List Edge} (hl : ∀ e ∈ l, e.1 ∈ V ∧ e.2 ∈ V) :
    Ok (l.foldlM (fun (g : DTFGraph) a => g.addArc a.1 a.2 g.depth) g) (fun g' => ∃ A', Abs g' V A' ∧ g'.depth = g.depth ∧
      (∀ u v w, (u, v, w) ∈ A' ↔ (u, v, w) ∈ A ∨ (w = g.depth ∧ (u, v) ∈ l))) := by
  refine Ok.foldlM (fun (pre : List Edge) (g' : DTFGraph) => ∃ A', Abs g' V A' ∧ g'.depth = g.depth ∧
    (∀ u v w, (u, v, w) ∈ A' ↔ (u, v, w) ∈ A ∨ (w = g.depth ∧ (u, v) ∈ pre))) ?_ ?_
  · exact ⟨A, H, rfl, by simp⟩
  · rintro pre ⟨s, t⟩ post g' hsp ⟨A', h1, h2, h4⟩
    obtain ⟨hs, ht⟩ := hl (s, t) (by rw [hsp]; simp)
    refine (h1.addArc h1.pos (by have := h1.len; omega) s t).mono ?_
    rintro g'' ⟨k1, k2⟩
    refine ⟨insert (s, t, g'.depth) A', ?_, ?_, fun u v w => ?_⟩
    · have hV : insert s (insert t V) = V := by
        rw [Finset.insert_eq_of_mem ht, Finset.insert_eq_of_mem hs]
      rw [hV] at k1
      exact k1
    · rw [k2]; exact h2
    · rw [Finset.mem_insert, h4, h2]
      simp only [List.mem_append, List.mem_singleton, Prod.mk.injEq]
      tauto

/-! ## Rounds -/

/-- `orientF` returns, for all loopless graphs and all admissible orders, a set of weight-1 arcs between neighbours, with the
property `P`. -/
def Orients {F : Type} (orientF : F → Graph → Res DTFGraph) (Q : F → Prop) (P : SGraph → Arcs → Prop) : Prop :=
  ∀ x G S, Q x → G.Rep S → S.Loopless → Ok (orientF x G) (fun D => ∃ A, Abs D S.V A ∧
    (∀ e ∈ A, e.2.2 = 1 ∧ S.Adj e.1 e.2.1) ∧ P S A)

/-- Admissible hash orders for a round. -/
structure RoundOrder.Good {F : Type} (ω : RoundOrder F) (Q : F → Prop) : Prop where
  lay : ∀ g, Relayout g (ω.lay g)
  frat : ∀ f, EditGraph.Relayout f (ω.frat f)
  inner : Q ω.inner
  out : ∀ g, Relayout g (ω.out g)

/-- Every arc is a path of length equal to its weight; no loops; one weight per pair. -/
structure Sound (S : SGraph) (A : Arcs) : Prop where
  walk : ∀ u v w, (u, v, w) ∈ A → Walk S.Adj w u v
  loop : ∀ u v w, (u, v, w) ∈ A → u ≠ v
  uniq : ∀ u v w w', (u, v, w) ∈ A → (u, v, w') ∈ A → w = w'

/-- Result of one round of `augment` on the arcs `A`, at the new depth `d`. -/
structure Round (A : Arcs) (d : ℕ) (A' : Arcs) : Prop where
  old : A ⊆ A'
  new : ∀ u v w, (u, v, w) ∈ A' → (u, v, w) ∉ A → w = d ∧ (Transitive A d u v ∨ Fraternal A d u v)
  trans : ∀ u v, Transitive A d u v → (u, v, d) ∈ A'

/-- Exact result of one round: `P` relates the graph of the remaining fraternal pairs to its orientation. -/
def RoundBy (P : SGraph → Arcs → Prop) (A : Arcs) (d : ℕ) (A' : Arcs) : Prop :=
  ∃ F B, (∀ a, a ∈ F.V ↔ ∃ b, Meets A d a b) ∧
    (∀ a b, F.Adj a b ↔ Meets A d a b ∧ ¬ Transitive A d a b ∧ ¬ Transitive A d b a) ∧
    (∀ e ∈ B, e.2.2 = 1 ∧ F.Adj e.1 e.2.1) ∧ P F B ∧
    ∀ u v w, (u, v, w) ∈ A' ↔ (u, v, w) ∈ A ∨ w = d ∧ (Transitive A d u v ∨ (v, u, 1) ∈ B ∧ u ≤ v)

theorem RoundBy.round {P : SGraph → Arcs → Prop} {A A' : Arcs} {d : ℕ} (hd : 1 ≤ d) (h : RoundBy P A d A') :
    Round A d A' := by
  obtain ⟨F, B, -, hF, hB, -, hA⟩ := h
  refine ⟨?_, ?_, ?_⟩
  · rintro ⟨u, v, w⟩ h
    exact (hA u v w).2 (Or.inl h)
  · intro u v w h hn
    rcases (hA u v w).1 h with h | ⟨rfl, h | ⟨h, -⟩⟩
    · exact absurd h hn
    · exact ⟨rfl, Or.inl h⟩
    · exact ⟨rfl, Or.inr (((hF _ _).1 (hB _ h).2).1.symm.fraternal hd)⟩
  · intro u v h
    exact (hA _ _ _).2 (Or.inr ⟨rfl, Or.inl h⟩)

/-- What a round does before and after the orientation of the fraternal pairs. -/
theorem augmentRound_run {lay : DTFGraph → DTFGraph} (hlay : ∀ g, Relayout g (lay g)) (arcs : Shuffle Edge)
    {frat : EditGraph → EditGraph} (hfrat : ∀ f, EditGraph.Relayout f (frat f)) {out : DTFGraph → DTFGraph}
    (hout : ∀ g, Relayout g (out g)) (H : Abs g V A) (hq : ∀ u x w w', (x, u, w) ∈ A → (x, u, w') ∈ A → w = w') :
    ∃ (G : Graph) (S : SGraph), G.Rep S ∧ S.Loopless ∧ (∀ a, a ∈ S.V ↔ ∃ b, Meets A (g.depth + 1) a b) ∧
      (∀ a b, S.Adj a b ↔ Meets A (g.depth + 1) a b ∧ ¬ Transitive A (g.depth + 1) a b ∧ ¬ Transitive A (g.depth + 1) b a) ∧
      ∀ {F : Type} (orientF : F → Graph → Res DTFGraph) (x : F) (D : DTFGraph) (B : Arcs), orientF x G = .ok D →
        Abs D S.V B → (∀ e ∈ B, e.2.2 = 1 ∧ S.Adj e.1 e.2.1) →
        Ok (augmentRound orientF ⟨lay, arcs, frat, x, out⟩ g) (fun g' => ∃ A', Abs g' V A' ∧ g'.depth = g.depth + 1 ∧
          ∀ u v w, (u, v, w) ∈ A' ↔ (u, v, w) ∈ A ∨
            w = g.depth + 1 ∧ (Transitive A (g.depth + 1) u v ∨ (v, u, 1) ∈ B ∧ u ≤ v)) := by
  unfold augmentRound
  simp only
  have H1 : Abs ((lay g).reserveDepth (g.depth + 1)) V A := by
    refine (H.relayout (hlay g)).reserveDepth (by omega) ?_
    rw [(hlay g).ms]
    have := H.len
    omega
  have hd1 : ((lay g).reserveDepth (g.depth + 1)).depth = g.depth + 1 := Abs.reserveDepth_depth _
  generalize (lay g).reserveDepth (g.depth + 1) = g1 at H1 hd1
  have hpos := H.pos
  obtain ⟨⟨t, f⟩, hcol, ht, S, hf, hSV, hS⟩ := collect_ok H1 (by omega) hq
  simp only at ht hf
  rw [hd1] at ht hSV hS
  have htm : ∀ a b, (a, b) ∈ arcs.run t.toList ↔ Transitive A (g.depth + 1) a b :=
    fun a b => (arcs.mem _ (a, b)).trans (ht a b)
  have hfrV : ∀ a b, S.Adj a b → a ∈ V ∧ b ∈ V := by
    intro a b h
    obtain ⟨-, u, k | k⟩ := (hS a b).1 h
    · exact ⟨(H.wf _ k.1).1, (H.wf _ k.2).1⟩
    · exact ⟨(H.wf _ k.1).1, (H.wf _ k.2).1⟩
  obtain ⟨⟨g2, f2⟩, hat, A2, S2, H2, hd2, hf2, hA2, hV2, hS2⟩ := addTrans_ok H1 hf (l := arcs.run t.toList) (by
    rintro ⟨x, u⟩ he
    rw [htm] at he
    obtain ⟨-, -, y, w, -, -, k1, k2⟩ := he
    exact ⟨(H.wf _ k2).1, (H.wf _ k1).2.1⟩)
  simp only at H2 hd2 hf2
  rw [hd1] at hd2 hA2
  have hl2 : S2.Loopless := fun u hu => ((hS u u).1 ((hS2 u u).1 hu).1).1.1 rfl
  refine ⟨(frat f2).view, S2, (hf2.relayout (hfrat f2)).rep, hl2, fun a => by rw [hV2, hSV],
    fun a b => by rw [hS2, hS, htm, htm], fun {F} orientF x D B hD HB hB => ?_⟩
  rw [hcol, bind_ok]
  simp only
  rw [hat, bind_ok]
  simp only
  rw [hD, bind_ok]
  obtain ⟨arcs', s, ha, -, -, -, hm⟩ := (HB.relayout (hout D)).arcs_at_drains (le_refl 1) (HB.relayout (hout D)).pos
  rw [ha, bind_ok]
  refine (addArcs_ok H2 (l := arcs') ?_).mono ?_
  · rintro ⟨v, u⟩ he
    have := (hB _ ((hm v u).1 he).1).2
    exact (hfrV _ _ ((hS2 _ _).1 this).1).symm
  rintro g3 ⟨A3, H3, hd3, hA3⟩
  rw [hd2] at hd3 hA3
  refine ⟨A3, H3, hd3, fun u v w => ?_⟩
  rw [hA3, hA2, htm, hm]
  tauto

theorem augmentRound_ok {F : Type} {orientF : F → Graph → Res DTFGraph} {Q : F → Prop} {P : SGraph → Arcs → Prop}
    (hF : Orients orientF Q P) {ω : RoundOrder F} (hω : ω.Good Q) (H : Abs g V A)
    (hq : ∀ u x w w', (x, u, w) ∈ A → (x, u, w') ∈ A → w = w') :
    Ok (augmentRound orientF ω g) (fun g' => ∃ A', Abs g' V A' ∧ g'.depth = g.depth + 1 ∧
      RoundBy P A (g.depth + 1) A') := by
  obtain ⟨G, S, hG, hl, hV, hS, hrun⟩ := augmentRound_run hω.lay ω.arcs hω.frat hω.out H hq
  obtain ⟨D, hD, B, HB, hB, hPB⟩ := hF ω.inner G S hω.inner hG hl
  refine (hrun orientF ω.inner D B hD HB hB).mono ?_
  rintro g' ⟨A', h1, h2, h3⟩
  exact ⟨A', h1, h2, S, B, hV, hS, hB, hPB, h3⟩

theorem Sound.round {S : SGraph} {A A' : Arcs} {d : ℕ} (h : Sound S A) (hr : Round A d A') : Sound S A' where
  walk u v w hw := by
    by_cases hn : (u, v, w) ∈ A
    · exact h.walk u v w hn
    · obtain ⟨rfl, ht | hf⟩ := hr.new u v w hw hn
      · obtain ⟨-, -, y, w', h1, h2, h3, h4⟩ := ht
        have := (h.walk _ _ _ h4).append (h.walk _ _ _ h3)
        rwa [show w - w' + w' = w by omega] at this
      · obtain ⟨-, y, w1, w2, h3, h4, rfl⟩ := hf
        exact (h.walk _ _ _ h3).append ((h.walk _ _ _ h4).symm fun _ _ => SGraph.Adj.symm)
  loop u v w hw := by
    by_cases hn : (u, v, w) ∈ A
    · exact h.loop u v w hn
    · obtain ⟨-, ht | hf⟩ := hr.new u v w hw hn
      · exact ht.1
      · exact hf.1.1
  uniq u v w w' hw hw' := by
    have key : ∀ k, (u, v, k) ∈ A' → (u, v, k) ∉ A → ∀ j, (u, v, j) ∉ A := by
      intro k hk hn j
      obtain ⟨-, ht | hf⟩ := hr.new u v k hk hn
      · exact ht.2.1 j
      · exact (hf.1.2 j).1
    by_cases hn : (u, v, w) ∈ A
    · by_cases hn' : (u, v, w') ∈ A
      · exact h.uniq u v w w' hn hn'
      · exact absurd hn (key _ hw' hn' _)
    · by_cases hn' : (u, v, w') ∈ A
      · exact absurd hn' (key _ hw hn _)
      · rw [(hr.new u v w hw hn).1, (hr.new u v w' hw' hn').1]

/-- The loop of `augment`, for an invariant preserved by rounds. -/
theorem augmentLoop_ok {F : Type} {orientF : F → Graph → Res DTFGraph} {Q : F → Prop} {P : SGraph → Arcs → Prop}
    (hF : Orients orientF Q P) {ω : ℕ → RoundOrder F} (hω : ∀ i, (ω i).Good Q) {S : SGraph} (I : ℕ → Arcs → Prop)
    (hI : ∀ d A A', 1 ≤ d → Sound S A → I d A → RoundBy P A (d + 1) A' → I (d + 1) A')
    {depth : ℕ} : ∀ (n : ℕ) (g : DTFGraph) (A : Arcs), depth ≤ g.depth + n → Abs g V A → Sound S A → I g.depth A →
      Ok (augmentLoop orientF ω depth n g) (fun g' => ∃ A', Abs g' V A' ∧ g'.depth = max depth g.depth ∧ A ⊆ A' ∧
        (∀ e ∈ A', e ∉ A → g.depth < e.2.2 ∧ e.2.2 ≤ depth) ∧ Sound S A' ∧ I g'.depth A') := by
  intro n
  induction n with
  | zero =>
    intro g A hle H hs hi
    unfold augmentLoop
    rw [if_neg (by omega)]
    exact Ok.pure (a := g) ⟨A, H, by omega, Finset.Subset.refl _, fun e he hn => absurd he hn, hs, hi⟩
  | succ n ih =>
    intro g A hle H hs hi
    unfold augmentLoop
    by_cases hlt : g.depth < depth
    · rw [if_pos hlt]
      refine Ok.bind (augmentRound_ok hF (hω n) H fun u x => hs.uniq x u) ?_
      rintro g1 ⟨A1, H1, hd1, hfr⟩
      have hr := hfr.round (by omega)
      have hi1 : I g1.depth A1 := by rw [hd1]; exact hI _ _ _ H.pos hs hi hfr
      refine (ih g1 A1 (by omega) H1 (hs.round hr) hi1).mono ?_
      rintro g2 ⟨A2, H2, hd2, hsub, hnew, hs2, hi2⟩
      refine ⟨A2, H2, by omega, hr.old.trans hsub, ?_, hs2, hi2⟩
      rintro ⟨a, b, c⟩ he hn
      by_cases h1 : (a, b, c) ∈ A1
      · have := (hr.new a b c h1 hn).1
        simp only
        omega
      · have := hnew _ he h1
        omega
    · rw [if_neg hlt]
      exact Ok.pure (a := g) ⟨A, H, by omega, Finset.Subset.refl _, fun e he hn => absurd he hn, hs, hi⟩

end Verif.DTFGraph
