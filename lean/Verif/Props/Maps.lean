import Verif.Model.Maps
import Verif.Lemmas.Basic
/-!
# Properties C28 – C30: `VertexOrEdge`, vertex maps, vertex colourings
-/
namespace Verif

/-! ## C28 -/

/-- The vertices of a mixed object. -/
def objVerts : VertexOrEdge → Set ℕ
  | .V v => {v}
  | .E (a, b) => {a, b}

/-- **C28.** `intersection` is `None` iff the objects are disjoint, otherwise it has exactly the shared vertices. -/
theorem C28_intersection (s t : VertexOrEdge) :
    ((s.intersection t = none ↔ ∀ x, ¬ (x ∈ objVerts s ∧ x ∈ objVerts t))) ∧
    (∀ o, s.intersection t = some o → ∀ x, x ∈ objVerts o ↔ x ∈ objVerts s ∧ x ∈ objVerts t) ∧
    (s.intersects t = true ↔ ∃ x, x ∈ objVerts s ∧ x ∈ objVerts t) ∧
    s.intersects t = t.intersects s := by
  have key : (∃ o, s.intersection t = some o ∧ (∀ x, x ∈ objVerts o ↔ x ∈ objVerts s ∧ x ∈ objVerts t)) ∨
      (s.intersection t = none ∧ ∀ x, ¬ (x ∈ objVerts s ∧ x ∈ objVerts t)) := by
    rcases s with x | ⟨a, b⟩ <;> rcases t with y | ⟨c, d⟩ <;>
      simp only [VertexOrEdge.intersection, objVerts, Set.mem_insert_iff, Set.mem_singleton_iff, Prod.mk.injEq] <;>
      split_ifs <;> simp only [Option.some.injEq, exists_eq_left', reduceCtorEq, false_and, exists_false, true_and,
        false_or, or_false, objVerts, Set.mem_insert_iff, Set.mem_singleton_iff] <;> intro z <;> omega
  have key' : s.intersects t = true ↔ ∃ x, x ∈ objVerts s ∧ x ∈ objVerts t := by
    unfold VertexOrEdge.intersects
    rcases key with ⟨o, ho, hx⟩ | ⟨hn, hx⟩
    · rw [ho]
      simp only [Option.isSome_some, true_iff]
      rcases o with y | ⟨c, d⟩
      · exact ⟨y, (hx y).1 rfl⟩
      · exact ⟨c, (hx c).1 (Or.inl rfl)⟩
    · rw [hn]; simp [hx]
  refine ⟨?_, ?_, key', ?_⟩
  · rcases key with ⟨o, ho, hx⟩ | ⟨hn, hx⟩
    · rw [ho]
      simp only [reduceCtorEq, false_iff, not_forall, not_not]
      rcases o with y | ⟨c, d⟩
      · exact ⟨y, (hx y).1 rfl⟩
      · exact ⟨c, (hx c).1 (Or.inl rfl)⟩
    · simp [hn, hx]
  · intro o ho
    rcases key with ⟨o', ho', hx⟩ | ⟨hn, -⟩
    · rw [ho'] at ho; cases ho; exact hx
    · rw [hn] at ho; simp at ho
  · rcases s with x | ⟨a, b⟩ <;> rcases t with y | ⟨c, d⟩ <;>
      simp only [VertexOrEdge.intersects, VertexOrEdge.intersection, Prod.mk.injEq] <;>
      split_ifs <;> first | rfl | omega

example : (VertexOrEdge.E (1, 1)).intersection (.E (1, 2)) = some (.V 1) := by decide

/-- **C28, conversions.** `as_vertex`/`as_edge`/`is_vertex`/`is_edge` are consistent. -/
theorem C28_conversions (s : VertexOrEdge) :
    (s.isVertex = true ↔ ∃ v, s.asVertex = some v ∧ s = .V v) ∧
    (s.isEdge = true ↔ ∃ e, s.asEdge = some e ∧ s = .E e) ∧ (s.isVertex ≠ s.isEdge) := by
  cases s <;> simp [VertexOrEdge.isVertex, VertexOrEdge.isEdge, VertexOrEdge.asVertex, VertexOrEdge.asEdge]

/-- `C28_conversions` for an edge. -/
example := C28_conversions (.E (3, 5))

/-! ## C29 -/
section
variable {τ : Type} [DecidableEq τ]

/-- **C29, invert.** The value `t` is a key of the inverted map iff it occurs, and its set is exactly the set of
vertices mapped to `t`. -/
theorem C29_invert (m : HMap ℕ τ) (t : τ) :
    (t ∈ (VertexMap.invert m).keys ↔ ∃ u, m.get? u = some t) ∧
    (∀ s, (VertexMap.invert m).get? t = some s → ∀ u, u ∈ s ↔ m.get? u = some t) := by
  have key := foldl_inv (l := m.entries) (b := (∅ : HMap τ (HSet ℕ)))
    (f := fun res e => res.insert e.2 ((res.getD e.2 ∅).insert e.1))
    (fun pre res => (∀ t, t ∈ res.keys ↔ ∃ u, (u, t) ∈ pre) ∧
      (∀ t s, res.get? t = some s → ∀ u, u ∈ s ↔ (u, t) ∈ pre))
    (by constructor
        · intro t; simp [HMap.keys]
        · simp)
    (by
      rintro pre ⟨u₀, t₀⟩ post res - ⟨h1, h2⟩
      refine ⟨fun t => ?_, fun t s => ?_⟩
      · rw [HMap.mem_keys_insert, h1]
        simp only [List.mem_append, List.mem_singleton, Prod.mk.injEq]
        constructor
        · rintro (rfl | ⟨u, hu⟩)
          · exact ⟨u₀, Or.inr ⟨rfl, rfl⟩⟩
          · exact ⟨u, Or.inl hu⟩
        · rintro ⟨u, hu | ⟨-, rfl⟩⟩
          · exact Or.inr ⟨u, hu⟩
          · exact Or.inl rfl
      · rw [HMap.get?_insert]
        simp only [List.mem_append, List.mem_singleton, Prod.mk.injEq]
        split
        · next he =>
          subst he
          intro hs u
          cases hs
          rw [HSet.mem_insert]
          have : u ∈ res.getD t ∅ ↔ (u, t) ∈ pre := by
            unfold HMap.getD
            cases hg : res.get? t with
            | none =>
              have : t ∉ res.keys := HMap.get?_eq_none.1 hg
              rw [h1] at this
              simp only [Option.getD_none, HSet.not_mem_empty, false_iff]
              exact fun h => this ⟨u, h⟩
            | some s => exact h2 t s hg u
          rw [this]; tauto
        · next he =>
          intro hs u
          rw [h2 t s hs u]; tauto)
  have e : ∀ u t, m.get? u = some t ↔ (u, t) ∈ m.entries := fun u t => HMap.get?_eq_some
  exact ⟨by simp only [e]; exact key.1 t, by simp only [e]; exact key.2 t⟩

/-- **C29, majority_set.** For every iteration order: `None` iff the map is empty, otherwise a value and exactly the
vertices mapped to it, and no value has a larger class (`s'` ranges over duplicate-free lists of vertices with equal value). -/
theorem C29_majority (σ : Shuffle (τ × HSet ℕ)) (m : HMap ℕ τ) (hlen : m.len < 2 ^ 64) :
    ∃ r, VertexMap.majoritySet σ m = .ok r ∧ (r = none ↔ ∀ u, m.get? u = none) ∧
      ∀ s t, r = some (s, t) → (∃ u, u ∈ s) ∧ (∀ u, u ∈ s ↔ m.get? u = some t) ∧
        ∀ t' (s' : List ℕ), s'.Nodup → (∀ u ∈ s', m.get? u = some t') → s'.length ≤ s.len := by
  have hle : ∀ t (s' : List ℕ), s'.Nodup → (∀ u ∈ s', m.get? u = some t) → s'.length ≤ m.len := by
    intro t s' hn hs
    rw [HMap.len_eq_length_keys]
    exact (List.subperm_of_subset hn (fun u hu => HMap.mem_keys_iff.2 ⟨_, hs u hu⟩)).length_le
  unfold VertexMap.majoritySet
  by_cases h0 : m.len = 0
  · rw [if_pos h0]
    refine ⟨none, rfl, ?_, by simp⟩
    have : m.entries = [] := List.length_eq_zero_iff.1 h0
    simp [HMap.get?, this, HMap.lookupL]
  · rw [if_neg h0]
    have hne : ∃ u t, m.get? u = some t := by
      cases he : m.entries with
      | nil => exact absurd (by simp [HMap.len, he]) h0
      | cons e l => exact ⟨e.1, e.2, HMap.get?_eq_some.2 (by rw [he]; simp)⟩
    set I := VertexMap.invert m with hI
    have hent : ∀ t s, (t, s) ∈ I.entries → (∀ u, u ∈ s ↔ m.get? u = some t) := fun t s h =>
      (C29_invert m t).2 s (HMap.get?_eq_some.2 h)
    have hslen : ∀ t s, (t, s) ∈ I.entries → s.len ≤ m.len := fun t s h =>
      hle t s.toList s.nodup (fun u hu => (hent t s h u).1 hu)
    have hmap : ∀ l : List (ℕ × τ × HSet ℕ), (∀ x ∈ l, x.1 < 2 ^ 64) →
        l.mapM (fun t => do
          let k ← usub (2 ^ 64 - 1) t.1
          return (k, t)) = (.ok (l.map (fun t => (2 ^ 64 - 1 - t.1, t))) : Res _) := by
      intro l hl
      induction l with
      | nil => rfl
      | cons x l ih =>
        have hx : x.1 < 2 ^ 64 := hl x (by simp)
        rw [List.mapM_cons, ih (fun y hy => hl y (by simp [hy])), usub_ok (by omega)]
        rfl
    simp only []
    rw [hmap _ (by
      intro x hx
      obtain ⟨e, he, rfl⟩ := List.mem_map.1 hx
      rw [Shuffle.mem] at he
      exact lt_of_le_of_lt (hslen _ _ he) hlen), bind_ok]
    set K := ((σ.run I.entries).map (fun e => (e.2.len, e.1, e.2))).map (fun t => (2 ^ 64 - 1 - t.1, t)) with hK
    have hmemK : ∀ x, x ∈ K ↔ ∃ t s, (t, s) ∈ I.entries ∧ x = (2 ^ 64 - 1 - s.len, s.len, t, s) := by
      intro x
      simp only [hK, List.map_map, List.mem_map, Shuffle.mem, Function.comp, Prod.exists]
      constructor
      · rintro ⟨t, s, h, rfl⟩; exact ⟨t, s, h, rfl⟩
      · rintro ⟨t, s, h, rfl⟩; exact ⟨t, s, h, rfl⟩
    have hsort := List.pairwise_insertionSort (fun a b : ℕ × ℕ × τ × HSet ℕ => a.1 ≤ b.1) K
    have hmemS : ∀ x, x ∈ K.insertionSort (fun a b => a.1 ≤ b.1) ↔ x ∈ K := fun x => List.mem_insertionSort _
    cases hs : K.insertionSort (fun a b => a.1 ≤ b.1) with
    | nil =>
      exfalso
      obtain ⟨u, t, ht⟩ := hne
      obtain ⟨s, hs'⟩ := HMap.mem_keys_iff.1 ((C29_invert m t).1.2 ⟨u, ht⟩)
      have := (hmemS _).2 ((hmemK _).2 ⟨t, s, HMap.get?_eq_some.1 hs', rfl⟩)
      rw [hs] at this
      simp at this
    | cons x l =>
      rw [hs] at hsort hmemS
      obtain ⟨t, s, hts, rfl⟩ := (hmemK x).1 ((hmemS x).1 (by simp))
      refine ⟨some (s, t), rfl, ?_, ?_⟩
      · simp only [reduceCtorEq, false_iff, not_forall]
        obtain ⟨u, t, ht⟩ := hne
        exact ⟨u, by simp [ht]⟩
      · rintro s₁ t₁ h
        simp only [Option.some.injEq, Prod.mk.injEq] at h
        obtain ⟨rfl, rfl⟩ := h
        have hS := hent t s hts
        refine ⟨?_, hS, ?_⟩
        · obtain ⟨u, hu⟩ := (C29_invert m t).1.1 (HMap.mem_keys_iff.2 ⟨s, HMap.get?_eq_some.2 hts⟩)
          exact ⟨u, (hS u).2 hu⟩
        · intro t' s' hn hs'
          cases s' with
          | nil => simp
          | cons v s' =>
            have hv := hs' v (by simp)
            obtain ⟨S', hS'⟩ := HMap.mem_keys_iff.1 ((C29_invert m t').1.2 ⟨v, hv⟩)
            have hS'' := HMap.get?_eq_some.1 hS'
            have h1 : (v :: s').length ≤ S'.len :=
              (List.subperm_of_subset hn (fun u hu => (hent t' S' hS'' u).2 (hs' u hu))).length_le
            have h2 := (hmemS _).2 ((hmemK _).2 ⟨t', S', hS'', rfl⟩)
            have h3 : 2 ^ 64 - 1 - s.len ≤ 2 ^ 64 - 1 - S'.len := by
              rcases List.mem_cons.1 h2 with h | h
              · exact le_of_eq (Prod.mk.inj h).1.symm
              · exact (List.pairwise_cons.1 hsort).1 _ h
            have h4 := hslen _ _ hts
            have h5 := hslen _ _ hS''
            omega

end

example : (HMap.ofList [(1, true), (2, false), (3, true)] : HMap ℕ Bool).len < 2 ^ 64 ∧
    (VertexMap.majoritySet Shuffle.rev (HMap.ofList [(1, true), (2, false), (3, true)])).map
      (fun r => r.map (fun p => (p.1.toList.insertionSort (· ≤ ·), p.2))) = .ok (some ([1, 3], true)) := by
  decide

/-! ## C30 -/

/-- **C30, disjoint_extend.** If no sum overflows, the call succeeds; existing colours are unchanged; the coloured
vertices are those of both colourings; newly coloured vertices get colours not used before; and two of them share a
colour iff they do in `other`. -/
theorem C30_disjoint_extend (self other : HMap ℕ ℕ)
    (hov : ∀ u c, self.get? u = some c → c + 1 < 2 ^ 32 ∧ ∀ v d, other.get? v = some d → d + (c + 1) < 2 ^ 32)
    (hother : ∀ v d, other.get? v = some d → d < 2 ^ 32) :
    ∃ r, VertexColouring.disjointExtend self other = .ok r ∧
      (∀ u c, self.get? u = some c → r.get? u = some c) ∧
      (∀ u, r.contains u = true ↔ self.contains u = true ∨ other.contains u = true) ∧
      (∀ u, self.get? u = none → ∀ c, r.get? u = some c → ∀ v, self.get? v ≠ some c) ∧
      (∀ u v, self.get? u = none → self.get? v = none → other.contains u = true → other.contains v = true →
        (r.get? u = r.get? v ↔ other.get? u = other.get? v)) := by
  have hoff : ∃ off, VertexColouring.offset self = .ok off ∧ (∀ v d, other.get? v = some d → d + off < 2 ^ 32) ∧
      ∀ u c, self.get? u = some c → c < off := by
    unfold VertexColouring.offset
    have hmem : ∀ c, c ∈ (HSet.ofList self.values).toList ↔ ∃ u, self.get? u = some c := by
      intro c
      rw [HSet.mem_toList, HSet.mem_ofList]
      simp only [HMap.values, List.mem_map, Prod.exists, exists_eq_right, HMap.get?_eq_some]
    cases hm : (HSet.ofList self.values).toList.max? with
    | none =>
      refine ⟨0, by simp [hm], fun v d hd => by simpa using hother v d hd, fun u c hc => ?_⟩
      rw [List.max?_eq_none_iff] at hm
      have := (hmem c).2 ⟨u, hc⟩
      rw [hm] at this
      simp at this
    | some x =>
      rw [List.max?_eq_some_iff] at hm
      obtain ⟨u, hu⟩ := (hmem x).1 hm.1
      have hx := hov u x hu
      refine ⟨x + 1, by
        simp only [List.max?_eq_some_iff.2 hm]
        exact add32_ok hx.1, hx.2, fun v c hc => ?_⟩
      have := hm.2 c ((hmem c).2 ⟨v, hc⟩)
      omega
  obtain ⟨off, h1, h2, h3⟩ := hoff
  have hfold := Ok.foldlM (l := other.entries) (b := self)
    (f := fun m e => do
      let c ← add32 e.2 off
      return if m.contains e.1 then m else m.insert e.1 c)
    (fun pre r => ∀ u, r.get? u = (self.get? u).or ((HMap.lookupL u pre).map (· + off)))
    (by intro u; simp [HMap.lookupL])
    (by
      rintro pre ⟨u₀, c₀⟩ post r hl hr
      have hmem : (u₀, c₀) ∈ other.entries := by rw [hl]; simp
      simp only []
      rw [add32_ok (h2 u₀ c₀ (HMap.get?_eq_some.2 hmem))]
      simp only [bind_ok, pure_eq_ok, Ok.ok_iff]
      have happ : ∀ (l : List (ℕ × ℕ)) (u : ℕ), HMap.lookupL u (l ++ [(u₀, c₀)])
          = (HMap.lookupL u l).or (if u₀ = u then some c₀ else none) := by
        intro l u
        induction l with
        | nil => simp [HMap.lookupL]
        | cons x l ih => obtain ⟨a, b⟩ := x; simp only [List.cons_append, HMap.lookupL]; split <;> simp [ih]
      have hpre : HMap.lookupL u₀ pre = none := by
        rw [HMap.lookupL_none]
        have hn := other.nodup
        rw [hl, List.map_append, List.map_cons, List.nodup_append] at hn
        intro hc
        exact hn.2.2 _ hc u₀ (by simp) rfl
      intro u
      rw [happ]
      by_cases he : u₀ = u
      · subst he
        have h0 := hr u₀
        rw [hpre] at h0 ⊢
        simp only [Option.map_none, Option.or_none] at h0
        by_cases hc : r.contains u₀ = true
        · rw [if_pos hc, h0]
          obtain ⟨c, hcc⟩ := HMap.mem_keys_iff.1 (HMap.contains_iff.1 hc)
          rw [hcc] at h0
          rw [← h0]; rfl
        · rw [if_neg hc, HMap.get?_insert]
          have : self.get? u₀ = none := by
            rw [← h0, HMap.get?_eq_none]
            exact fun hh => hc (HMap.contains_iff.2 hh)
          rw [this]; simp
      · have h0 := hr u
        rw [if_neg he, Option.or_none, ← h0]
        split
        · rfl
        · rw [HMap.get?_insert, if_neg (fun h => he h.symm)])
  obtain ⟨r, hr, hget⟩ := hfold
  have hget' : ∀ u, r.get? u = (self.get? u).or ((other.get? u).map (· + off)) := hget
  refine ⟨r, ?_, ?_, ?_, ?_, ?_⟩
  · unfold VertexColouring.disjointExtend
    rw [h1, bind_ok]
    exact hr
  · intro u c hc
    rw [hget', hc]; rfl
  · intro u
    unfold HMap.contains
    rw [hget']
    cases self.get? u <;> cases other.get? u <;> simp
  · intro u hu c hc v hv
    rw [hget', hu] at hc
    cases ho : other.get? u with
    | none => simp [ho] at hc
    | some d =>
      simp [ho] at hc
      have := h3 v c hv
      omega
  · intro u v hu hv hou hov'
    rw [hget', hget', hu, hv]
    unfold HMap.contains at hou hov'
    obtain ⟨a, ha⟩ := Option.isSome_iff_exists.1 hou
    obtain ⟨b, hb⟩ := Option.isSome_iff_exists.1 hov'
    simp [ha, hb]

example : (VertexColouring.disjointExtend (HMap.ofList [(1, 5), (2, 0)]) (HMap.ofList [(2, 1), (3, 1), (4, 0)])).map
    (fun r => [1, 2, 3, 4].map r.get?) = .ok [some 5, some 0, some 7, some 6] := by decide

example : ∃ self other : HMap ℕ ℕ,
    (∀ u c, self.get? u = some c → c + 1 < 2 ^ 32 ∧ ∀ v d, other.get? v = some d → d + (c + 1) < 2 ^ 32) ∧
    (∀ v d, other.get? v = some d → d < 2 ^ 32) ∧ self.get? 1 = some 5 ∧ other.get? 3 = some 1 := by
  refine ⟨HMap.ofList [(1, 5), (2, 0)], HMap.ofList [(2, 1), (3, 1)], ?_, ?_, by decide, by decide⟩
  · intro u c hc
    have hc' : c ≤ 5 := by
      rw [HMap.get?_ofList (by decide)] at hc
      simp only [List.mem_cons, Prod.mk.injEq, List.not_mem_nil, or_false] at hc
      omega
    refine ⟨by omega, fun v d hd => ?_⟩
    rw [HMap.get?_ofList (by decide)] at hd
    simp only [List.mem_cons, Prod.mk.injEq, List.not_mem_nil, or_false] at hd
    omega
  · intro v d hd
    rw [HMap.get?_ofList (by decide)] at hd
    simp only [List.mem_cons, Prod.mk.injEq, List.not_mem_nil, or_false] at hd
    omega

/-- **C30, subset.** `subset` is the restriction to the given vertices. -/
theorem C30_subset {τ : Type} (self : HMap ℕ τ) (vs : List ℕ) (u : ℕ) :
    (u ∈ vs → (VertexColouring.subset self vs).get? u = self.get? u) ∧
    (u ∉ vs → (VertexColouring.subset self vs).get? u = none) := by
  have key := foldl_inv (l := vs) (b := (∅ : HMap ℕ τ))
    (f := fun res v => match self.get? v with
      | some col => res.insert v col
      | none => res)
    (fun pre res => ∀ u, res.get? u = if u ∈ pre then self.get? u else none)
    (by simp)
    (by
      rintro pre a post res - h u
      simp only [List.mem_append, List.mem_singleton]
      cases hg : self.get? a with
      | none =>
        simp only [h]
        by_cases h1 : u ∈ pre
        · simp [h1]
        · by_cases h2 : u = a
          · subst h2; simp [hg]
          · simp [h1, h2]
      | some c =>
        simp only [HMap.get?_insert, h]
        by_cases h2 : u = a
        · subst h2; simp [hg]
        · simp [h2])
  exact ⟨fun h => (key u).trans (by simp [h]), fun h => (key u).trans (by simp [h])⟩

example : (VertexColouring.subset (HMap.ofList [(1, 5), (2, 0)]) [2, 9]).entries = [(2, 0)] := by decide

/-- **C30, from_sets.** Each vertex gets the index of the last set containing it; other vertices are not coloured. -/
theorem C30_from_sets (sets : List (HSet ℕ)) (hlen : sets.length ≤ 2 ^ 32) (u : ℕ) :
    (∀ i, (∃ s, sets[i]? = some s ∧ u ∈ s) → (∀ j s, i < j → sets[j]? = some s → u ∉ s) →
      (VertexColouring.fromSets sets).get? u = some i) ∧
    ((∀ s ∈ sets, u ∉ s) → (VertexColouring.fromSets sets).get? u = none) := by
  have inner : ∀ (l : List ℕ) (c : ℕ) (col : HMap ℕ ℕ) (u : ℕ),
      (l.foldl (fun col v => col.insert v c) col).get? u = if u ∈ l then some c else col.get? u := by
    intro l c
    induction l with
    | nil => simp
    | cons v l ih =>
      intro col u
      rw [List.foldl_cons, ih, HMap.get?_insert]
      by_cases h1 : u ∈ l
      · simp [h1]
      · simp [h1]
  have key := foldl_inv (l := sets.zipIdx) (b := (∅ : HMap ℕ ℕ))
    (f := fun col p => p.1.toList.foldl (fun col v => col.insert v (p.2 % 2 ^ 32)) col)
    (fun pre col => (∀ i s, (s, i) ∈ pre → u ∈ s → (∀ j s', i < j → (s', j) ∈ pre → u ∉ s') → col.get? u = some i) ∧
      ((∀ p ∈ pre, u ∉ p.1) → col.get? u = none))
    (by simp)
    (by
      rintro pre ⟨s₀, i₀⟩ post col hl ⟨h1, h2⟩
      have hlt : i₀ < 2 ^ 32 := by
        have : (s₀, i₀) ∈ sets.zipIdx := by rw [hl]; simp
        have := (List.mem_zipIdx_iff_getElem?.1 this)
        have := (List.getElem?_eq_some_iff.1 this).1
        exact lt_of_lt_of_le this hlen
      have hpre : ∀ s i, (s, i) ∈ pre → i < i₀ := by
        intro s i hsi
        have hp : (sets.zipIdx.map Prod.snd).Pairwise (· < ·) := by
          rw [List.zipIdx_map_snd]; exact List.pairwise_lt_range'
        rw [hl, List.map_append, List.map_cons, List.pairwise_append] at hp
        exact hp.2.2 i (List.mem_map.2 ⟨_, hsi, rfl⟩) i₀ (by simp)
      refine ⟨fun i s hs hu hlast => ?_, fun hn => ?_⟩
      · simp only [inner, HSet.mem_toList, Nat.mod_eq_of_lt hlt]
        by_cases hu0 : u ∈ s₀
        · rw [if_pos hu0]
          rcases List.mem_append.1 hs with hs | hs
          · exact absurd hu0 (hlast i₀ s₀ (hpre _ _ hs) (by simp))
          · simp at hs; rw [hs.2]
        · rw [if_neg hu0]
          rcases List.mem_append.1 hs with hs | hs
          · exact h1 i s hs hu (fun j s' hj hm => hlast j s' hj (by simp [hm]))
          · simp at hs; rw [hs.1] at hu; exact absurd hu hu0
      · simp only [inner, HSet.mem_toList]
        rw [if_neg (hn (s₀, i₀) (by simp)), h2 (fun p hp => hn p (by simp [hp]))])
  refine ⟨fun i ⟨s, hs, hu⟩ hlast => key.1 i s (List.mem_zipIdx_iff_getElem?.2 hs) hu
    (fun j s' hj hm => hlast j s' hj (List.mem_zipIdx_iff_getElem?.1 hm)), fun hn => key.2 ?_⟩
  rintro ⟨s, i⟩ hp
  exact hn s (List.mem_of_getElem? (List.mem_zipIdx_iff_getElem?.1 hp))

example : [1, 2, 3, 4].map (VertexColouring.fromSets [HSet.ofList [1, 2], HSet.ofList [2, 3]]).get?
    = [some 0, some 1, some 1, none] := by decide

end Verif
