import Verif.Lemmas.Is
/-! # Normalization -/
namespace Verif.EditGraph
variable {g : EditGraph} {S T : SGraph}

theorem mem_sortIds {l : List Vertex} {u : Vertex} : u ∈ sortIds l ↔ u ∈ l :=
  (List.perm_insertionSort (· ≤ ·) l).mem_iff

theorem length_sortIds {l : List Vertex} : (sortIds l).length = l.length :=
  List.length_insertionSort _ l

theorem nodup_sortIds {l : List Vertex} (h : l.Nodup) : (sortIds l).Nodup :=
  (List.perm_insertionSort (· ≤ ·) l).nodup_iff.2 h

theorem sorted_sortIds (l : List Vertex) : (sortIds l).Pairwise (· ≤ ·) :=
  List.pairwise_insertionSort (· ≤ ·) l

theorem sortIds_lt {l : List Vertex} (h : l.Nodup) : (sortIds l).Pairwise (· < ·) := by
  have := (sorted_sortIds l).and (nodup_sortIds h)
  exact this.imp fun h => lt_of_le_of_ne h.1 h.2

/-- `l.enumerate().collect()` maps indices to elements. -/
theorem get?_enum {l : List Vertex} {i v : Vertex} :
    (HMap.ofList (l.zipIdx.map (fun p => (p.2, p.1))) : HMap Vertex Vertex).get? i = some v ↔ l[i]? = some v := by
  rw [HMap.get?_ofList]
  · rw [List.mem_map]
    constructor
    · rintro ⟨⟨a, b⟩, h, he⟩
      rw [Prod.mk.injEq] at he
      obtain ⟨rfl, rfl⟩ := he
      exact List.mem_zipIdx_iff_getElem?.1 h
    · intro h; exact ⟨(v, i), List.mem_zipIdx_iff_getElem?.2 h, rfl⟩
  · rw [List.map_map]
    have : (Prod.fst ∘ fun p : ℕ × ℕ => (p.2, p.1)) = Prod.snd := rfl
    rw [this, List.zipIdx_map_snd]
    exact List.nodup_range'

/-- The reversed map. -/
theorem get?_enum_inv {l : List Vertex} (hl : l.Nodup) (σ : Shuffle (Vertex × Vertex)) {i v : Vertex} :
    (HMap.ofList ((σ.run (HMap.ofList (l.zipIdx.map (fun p => (p.2, p.1))) : HMap Vertex Vertex).entries).map
      (fun p => (p.2, p.1))) : HMap Vertex Vertex).get? v = some i ↔ l[i]? = some v := by
  set m := (HMap.ofList (l.zipIdx.map (fun p => (p.2, p.1))) : HMap Vertex Vertex) with hm
  have hmem : ∀ p : Vertex × Vertex, p ∈ m.entries ↔ l[p.1]? = some p.2 := by
    rintro ⟨a, b⟩
    rw [← HMap.get?_eq_some, hm, get?_enum]
  have hnd : m.entries.Nodup := List.Nodup.of_map _ m.nodup
  rw [HMap.get?_ofList]
  · rw [List.mem_map]
    constructor
    · rintro ⟨⟨a, b⟩, h, he⟩
      rw [Prod.mk.injEq] at he
      obtain ⟨rfl, rfl⟩ := he
      rw [Shuffle.mem, hmem] at h
      exact h
    · intro h; exact ⟨(i, v), by rw [Shuffle.mem, hmem]; exact h, rfl⟩
  · rw [List.map_map]
    have : (Prod.fst ∘ fun p : ℕ × ℕ => (p.2, p.1)) = Prod.snd := rfl
    rw [this]
    refine List.Nodup.map_on ?_ (σ.nodup hnd)
    rintro ⟨a, b⟩ h ⟨c, d⟩ h' he
    simp only at he
    subst he
    rw [Shuffle.mem, hmem] at h h'
    have := (List.getElem?_inj (List.getElem?_eq_some_iff.1 h).1 hl).1 (h.trans h'.symm)
    simp only at this
    rw [this]

theorem Abs.normalize (H : Abs g S) (σ : Shuffle (Vertex × Vertex)) :
    Ok (g.normalize σ) (fun r => (∀ i v, r.2.get? i = some v ↔ (sortIds g.vertices)[i]? = some v) ∧
      Is r.1 (fun i => i < S.V.card) (fun i j => ∃ u v, (sortIds g.vertices)[i]? = some u ∧
        (sortIds g.vertices)[j]? = some v ∧ S.Adj u v)) := by
  unfold EditGraph.normalize
  have hnd := nodup_sortIds H.vertices_nodup
  have hinv : ∀ (i v : Vertex), _ ↔ _ := fun i v => get?_enum_inv hnd σ (i := i) (v := v)
  set order := sortIds g.vertices with horder
  have hlen : order.length = S.V.card := by
    rw [horder, length_sortIds, ← H.numVertices]
    exact (HMap.len_eq_length_keys).symm
  have hmem : ∀ u : ℕ, u ∈ S.V ↔ ∃ i : ℕ, order[i]? = some u := by
    intro (u : ℕ)
    rw [← H.mem_vertices, ← mem_sortIds, ← horder, List.mem_iff_getElem?]
  have hlt : ∀ i : ℕ, i < S.V.card ↔ ∃ u, order[i]? = some u := by
    intro i
    rw [← hlen, ← Option.isSome_iff_exists]
    simp
  set vex2id := (HMap.ofList ((σ.run (HMap.ofList (order.zipIdx.map (fun p => (p.2, p.1))) :
    HMap Vertex Vertex).entries).map (fun p => (p.2, p.1))) : HMap Vertex Vertex) with hv2i
  obtain ⟨es, hes, henum, -⟩ := H.rep.edges
  refine Ok.bind (Is.new.fold (fun u i => order[i]? = some u) (fun _ _ _ => False) ?_) fun h hh => ?_
  · intro u hu k P R hk
    obtain ⟨i, hi⟩ := (hmem u).1 ((H.mem_vertices u).1 hu)
    rw [(hinv i u).2 hi]
    simp only [unwrap_some, bind_ok]
    refine Ok.pure ((hk.addVertex i).congr (fun w => ?_) (by simp))
    refine or_congr_right ⟨fun h => h ▸ hi, fun h => ?_⟩
    exact (List.getElem?_inj (List.getElem?_eq_some_iff.1 h).1 hnd).1 (h.trans hi.symm)
  · simp only [hes, bind_ok]
    refine Ok.bind (hh.fold (fun e i => order[i]? = some e.1 ∨ order[i]? = some e.2)
      (fun e i j => (order[i]? = some e.1 ∧ order[j]? = some e.2) ∨ (order[i]? = some e.2 ∧ order[j]? = some e.1))
      ?_) fun h' hh' => Ok.pure ⟨fun i v => get?_enum, hh'.congr ?_ ?_⟩
    · intro e he k P R hk
      obtain ⟨i, hi⟩ := (hmem e.1).1 (henum.left_mem he)
      obtain ⟨j, hj⟩ := (hmem e.2).1 (henum.right_mem he)
      rw [(hinv i e.1).2 hi, (hinv j e.2).2 hj]
      simp only [unwrap_some, bind_ok]
      have key : ∀ {a b : ℕ} {x : Vertex}, order[b]? = some x → (order[a]? = some x ↔ a = b) := by
        intro a b x hb
        refine ⟨fun h => ?_, fun h => h ▸ hb⟩
        exact (List.getElem?_inj (List.getElem?_eq_some_iff.1 h).1 hnd).1 (h.trans hb.symm)
      refine Ok.mono (hk.addEdge' i j) fun k' hk' => hk'.congr (fun w => ?_) (fun a b => ?_)
      · rw [key hi, key hj]
      · rw [key hi, key hj, key hi, key hj]
    · intro i
      rw [hlt]
      simp only [false_or]
      constructor
      · rintro (⟨u, hu, h⟩ | ⟨e, he, h | h⟩) <;> exact ⟨_, h⟩
      · rintro ⟨u, hu⟩
        exact Or.inl ⟨u, (H.mem_vertices u).2 ((hmem u).2 ⟨i, hu⟩), hu⟩
    · intro i j
      simp only [and_false, exists_false, or_false, false_or]
      constructor
      · rintro ⟨e, he, ⟨h1, h2⟩ | ⟨h1, h2⟩⟩
        · exact ⟨_, _, h1, h2, henum.adj he⟩
        · exact ⟨_, _, h1, h2, (henum.adj he).symm⟩
      · rintro ⟨u, v, h1, h2, h3⟩
        rcases Nat.le_total u v with hab | hab
        · exact ⟨(u, v), (henum.mem u v).2 ⟨hab, h3⟩, Or.inl ⟨h1, h2⟩⟩
        · exact ⟨(v, u), (henum.mem v u).2 ⟨hab, h3.symm⟩, Or.inr ⟨h1, h2⟩⟩

end Verif.EditGraph
