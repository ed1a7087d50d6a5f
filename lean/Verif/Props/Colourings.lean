import Verif.Props.Maps
/-!
# C90: `VertexColouring` as a finite map
-/
namespace Verif
variable {τ : Type}

/-- The colour assigned to `u` by the last pair of the sequence that mentions `u`. -/
def LastColour (l : List (ℕ × τ)) (u : ℕ) (c : τ) : Prop :=
  ∃ pre post, l = pre ++ (u, c) :: post ∧ ∀ d, (u, d) ∉ post

theorem lookupL_reverse {l : List (ℕ × τ)} {u : ℕ} {c : τ} :
    HMap.lookupL u l.reverse = some c ↔ LastColour l u c := by
  induction l using List.reverseRecOn with
  | nil =>
    refine ⟨fun h => (by cases h), ?_⟩
    rintro ⟨pre, post, h, -⟩
    simp at h
  | append_singleton l e ih =>
    obtain ⟨w, d⟩ := e
    rw [List.reverse_append, List.reverse_singleton, List.singleton_append, HMap.lookupL]
    by_cases hw : w = u
    · subst hw
      rw [if_pos rfl]
      constructor
      · intro h
        cases h
        exact ⟨l, [], rfl, by simp⟩
      · rintro ⟨pre, post, h, hp⟩
        rcases List.eq_nil_or_concat post with rfl | ⟨post', x, rfl⟩
        · have := List.append_inj_right' h rfl
          simp at this
          rw [this]
        · exfalso
          rw [show pre ++ (w, c) :: (post'.concat x) = (pre ++ (w, c) :: post') ++ [x] by simp] at h
          have := List.append_inj_right' h rfl
          simp only [List.cons.injEq, and_true] at this
          exact hp d (by simp [← this])
    · rw [if_neg hw, ih]
      constructor
      · rintro ⟨pre, post, rfl, hp⟩
        refine ⟨pre, post ++ [(w, d)], by simp, fun d' h => ?_⟩
        rw [List.mem_append, List.mem_singleton] at h
        rcases h with h | h
        · exact hp d' h
        · cases h; exact hw rfl
      · rintro ⟨pre, post, h, hp⟩
        rcases List.eq_nil_or_concat post with rfl | ⟨post', x, rfl⟩
        · have := List.append_inj_right' h rfl
          simp at this
          exact absurd this.1 hw
        · rw [show pre ++ (u, c) :: (post'.concat x) = (pre ++ (u, c) :: post') ++ [x] by simp] at h
          have h1 := List.append_inj_left' h rfl
          exact ⟨pre, post', h1, fun d' hd => hp d' (by simp [hd])⟩

theorem mem_unique [DecidableEq τ] (l : List τ) : (unique l).Nodup ∧ ∀ a, a ∈ unique l ↔ a ∈ l := by
  suffices h : ∀ (l seen : List τ), seen.Nodup →
      (l.foldl (fun seen a => if a ∈ seen then seen else seen ++ [a]) seen).Nodup ∧
      ∀ a, a ∈ l.foldl (fun seen a => if a ∈ seen then seen else seen ++ [a]) seen ↔ a ∈ seen ∨ a ∈ l by
    have := h l [] List.nodup_nil
    exact ⟨this.1, fun a => by rw [unique, this.2]; simp⟩
  intro l
  induction l with
  | nil => intro seen hs; exact ⟨hs, fun a => by simp⟩
  | cons b l ih =>
    intro seen hs
    rw [List.foldl_cons]
    by_cases hb : b ∈ seen
    · rw [if_pos hb]
      refine ⟨(ih seen hs).1, fun a => ?_⟩
      rw [(ih seen hs).2, List.mem_cons]
      constructor
      · rintro (h | h) <;> tauto
      · rintro (h | rfl | h)
        · exact .inl h
        · exact .inl hb
        · exact .inr h
    · rw [if_neg hb]
      have hs' : (seen ++ [b]).Nodup := by
        rw [List.nodup_append]
        refine ⟨hs, by simp, ?_⟩
        rintro x hx y hy rfl
        rw [List.mem_singleton] at hy
        exact hb (hy ▸ hx)
      refine ⟨(ih _ hs').1, fun a => ?_⟩
      rw [(ih _ hs').2, List.mem_append, List.mem_singleton, List.mem_cons]
      tauto

/-- **C90, from_iter.** A vertex has the colour of the last pair that mentions it; all other vertices are uncoloured. -/
theorem C90_from_iter (l : List (ℕ × τ)) (u : ℕ) (c : τ) :
    VertexColouring.get (VertexColouring.fromIter l) u = some c ↔ LastColour l u c := by
  unfold VertexColouring.get VertexColouring.fromIter HMap.ofList
  rw [HMap.get?_ofList_foldl, HMap.get?_empty, Option.or_none]
  exact lookupL_reverse

/-- `C90_from_iter` for a list that colours a vertex twice. -/
example := C90_from_iter [(3, 1), (5, 0), (3, 2)] 3 2

/-- **C90, insert.** `insert(v, c)` returns the previous colour of `v`, gives `v` the colour `c`, changes nothing else, and
the size grows by one iff `v` was uncoloured. -/
theorem C90_insert (m : HMap ℕ τ) (v : ℕ) (c : τ) :
    (VertexColouring.insert m v c).2 = VertexColouring.get m v ∧
    (∀ u, VertexColouring.get (VertexColouring.insert m v c).1 u = if u = v then some c else VertexColouring.get m u) ∧
    VertexColouring.len (VertexColouring.insert m v c).1 =
      if VertexColouring.get m v = none then VertexColouring.len m + 1 else VertexColouring.len m := by
  refine ⟨rfl, fun u => HMap.get?_insert, ?_⟩
  unfold VertexColouring.insert VertexColouring.len VertexColouring.get
  dsimp only
  have hk : ∀ a, a ∈ (m.insert v c).keys ↔ a ∈ Insert.insert v m.keys.toFinset := by
    intro a
    rw [HMap.mem_keys_insert, Finset.mem_insert, List.mem_toFinset]
  rw [HMap.len_of_mem_iff hk]
  have hc : m.len = m.keys.toFinset.card := HMap.len_of_mem_iff fun a => by rw [List.mem_toFinset]
  by_cases h : m.get? v = none
  · rw [if_pos h, hc, Finset.card_insert_of_notMem]
    rw [List.mem_toFinset]
    exact HMap.get?_eq_none.1 h
  · rw [if_neg h, hc, Finset.insert_eq_of_mem]
    rw [List.mem_toFinset]
    by_contra hn
    exact h (HMap.get?_eq_none.2 hn)

/-- `C90_insert` for a new colour of a coloured vertex. -/
example := C90_insert (VertexColouring.fromIter [(3, 1), (5, 0)]) 3 7

/-- **C90, queries.** `vertices()` lists every coloured vertex exactly once, `iter()` every coloured vertex with its colour
exactly once, `colours()` every colour in use exactly once; `contains`, `len` and indexing agree with `get`, and indexing
panics exactly on uncoloured vertices. -/
theorem C90_queries [DecidableEq τ] (m : HMap ℕ τ) :
    (VertexColouring.vertices m).Nodup ∧
    (∀ u, u ∈ VertexColouring.vertices m ↔ ∃ c, VertexColouring.get m u = some c) ∧
    ((VertexColouring.iter m).map Prod.fst).Nodup ∧
    (∀ u c, (u, c) ∈ VertexColouring.iter m ↔ VertexColouring.get m u = some c) ∧
    (VertexColouring.colours m).Nodup ∧
    (∀ c, c ∈ VertexColouring.colours m ↔ ∃ u, VertexColouring.get m u = some c) ∧
    (∀ u, VertexColouring.contains m u = true ↔ ∃ c, VertexColouring.get m u = some c) ∧
    VertexColouring.len m = (VertexColouring.vertices m).length ∧
    (∀ u c, VertexColouring.index m u = .ok c ↔ VertexColouring.get m u = some c) ∧
    (∀ u, VertexColouring.index m u = .error .panic ↔ VertexColouring.get m u = none) := by
  refine ⟨HMap.keys_nodup, fun u => HMap.mem_keys_iff, m.nodup, fun u c => HMap.get?_eq_some.symm, (mem_unique _).1,
    fun c => ?_, fun u => HMap.contains_iff.trans HMap.mem_keys_iff, HMap.len_eq_length_keys, fun u c => ?_, fun u => ?_⟩
  · unfold VertexColouring.colours
    rw [(mem_unique _).2, HMap.values, List.mem_map]
    constructor
    · rintro ⟨⟨u, d⟩, h, rfl⟩
      exact ⟨u, HMap.get?_eq_some.2 h⟩
    · rintro ⟨u, h⟩
      exact ⟨(u, c), HMap.get?_eq_some.1 h, rfl⟩
  · unfold VertexColouring.index VertexColouring.get
    cases m.get? u with
    | none => simp [unwrap]
    | some d => simp [unwrap]
  · unfold VertexColouring.index VertexColouring.get
    cases m.get? u with
    | none => simp [unwrap]
    | some d => simp [unwrap]

/-- `C90_queries` for a colouring of two vertices. -/
example := C90_queries (VertexColouring.fromIter [(3, 1), (5, 0), (3, 2)])

/-- **C90, equality.** Two colourings compare equal iff they give every vertex the same colour, independently of the order
in which they were filled. -/
theorem C90_eq [DecidableEq τ] (m m' : HMap ℕ τ) :
    VertexColouring.eq m m' = true ↔ ∀ u, VertexColouring.get m u = VertexColouring.get m' u := by
  unfold VertexColouring.eq VertexColouring.get
  rw [HMap.eqv_iff]
  refine forall_congr' fun u => ?_
  cases m.get? u <;> cases m'.get? u <;> simp

/-- A colouring with two vertices of the same colour, one of them recoloured. -/
example : VertexColouring.colours (VertexColouring.fromIter [(3, 7), (1, 5), (2, 7), (1, 7)]) = [7] ∧
    VertexColouring.len (VertexColouring.fromIter [(3, 7), (1, 5), (2, 7), (1, 7)]) = 3 ∧
    VertexColouring.index (VertexColouring.fromIter [(3, 7), (1, 5), (2, 7), (1, 7)]) 4 = .error .panic ∧
    (VertexColouring.insert (VertexColouring.fromIter [(3, 7), (1, 5)]) 1 6).2 = some 5 := by
  refine ⟨by decide, by decide, rfl, by decide⟩

end Verif
