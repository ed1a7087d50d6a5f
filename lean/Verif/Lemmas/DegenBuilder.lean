import Verif.Lemmas.DegenGraph
/-!
# `DegenGraphBuilder`: arbitrary sequences of `append`
-/
namespace Verif
namespace DegenGraph

/-- State of the builder after appending the records `bs` (vertex, list), in this order. -/
structure RInv (b : DegenBuilder) (bs : List (ℕ × List ℕ)) : Prop where
  cont : b.g.contents = lay 0 bs
  last : b.lastIndex = if bs = [] then none else some (off bs.dropLast)
  none : ∀ u, b.g.indices.get? u = none ↔ u ∉ bs.map Prod.fst
  idx : ∀ pre u N post, bs = pre ++ (u, N) :: post → u ∉ post.map Prod.fst → b.g.indices.get? u = some (off pre)
  rkeys : ∀ u, b.g.right.get? u = .none ↔ u ∉ bs.map Prod.fst ∧ ∀ e ∈ bs, u ∉ e.2
  right : ∀ u R, b.g.right.get? u = some R → ∀ w, w ∈ R ↔ ∃ N, (w, N) ∈ bs ∧ u ∈ N
  m : b.g.m = (bs.map (fun e => e.2.length)).sum

theorem RInv.new : RInv DegenBuilder.new [] :=
  ⟨rfl, rfl, by simp [DegenBuilder.new], by simp, by simp [DegenBuilder.new], by simp [DegenBuilder.new], rfl⟩

theorem RInv.append {b : DegenBuilder} {bs : List (ℕ × List ℕ)} {u : ℕ} {N : List ℕ} (H : RInv b bs)
    (hsz : off (bs ++ [(u, N)]) ≤ 2 ^ 32) : Ok (b.append u N) (fun b' => RInv b' (bs ++ [(u, N)])) := by
  have hpos : off bs + 3 + N.length ≤ 2 ^ 32 := by
    rw [off_append, off_cons, bsize] at hsz
    simp only at hsz
    omega
  have hlen : b.g.contents.length = off bs := by rw [H.cont, length_lay]
  set q := off bs with hq
  unfold DegenBuilder.append
  simp only
  have c1 : cast32 ((b.g.contents ++ [u]).length - 1) = q := by
    unfold cast32
    rw [List.length_append, List.length_singleton, Nat.add_sub_cancel, hlen, Nat.mod_eq_of_lt (by omega)]
  rw [c1, add32_ok (by omega)]
  have c2 : cast32 ((b.g.contents ++ [u] ++ [q]).length - 1) = q + 1 := by
    unfold cast32
    rw [List.length_append, List.length_singleton, Nat.add_sub_cancel, List.length_append, hlen,
      List.length_singleton, Nat.mod_eq_of_lt (by omega)]
  rw [c2]
  simp only [bind_ok, beq_self_eq_true, assertR, if_true]
  have c3 : DegenBuilder.link (b.g.contents ++ [u] ++ [q]) b.lastIndex q = .ok (enc 0 bs ++ [u, q]) := by
    rw [H.last]
    rcases List.eq_nil_or_concat bs with rfl | ⟨pre', v, rfl⟩
    · simp [DegenBuilder.link, H.cont, lay, enc]
    · rw [List.concat_eq_append] at *
      rw [if_neg (by simp)]
      unfold DegenBuilder.link
      simp only
      have hq' : q = off pre' + bsize v := by
        rw [hq, off_append]; simp [off]
      rw [List.dropLast_concat, add32_ok (by rw [bsize] at hq'; omega)]
      simp only [bind_ok]
      unfold setIdx
      rw [if_pos (by simp only [List.length_append, hlen]; rw [bsize] at hq'; omega)]
      rw [H.cont, lay_append (by simp), enc_append]
      simp only [lay, enc, if_true, List.append_nil, Nat.zero_add, List.append_assoc]
      rw [List.set_append_right _ _ (by rw [length_enc]; omega), length_enc]
      simp only [Nat.add_sub_cancel_left, List.cons_append, List.set_cons_succ, List.set_cons_zero, ← hq',
        List.append_assoc, List.nil_append]
  rw [c3]
  simp only [bind_ok]
  refine Ok.bind addRight_spec fun r' hr' => Ok.pure ⟨?_, ?_, ?_, ?_, ?_, ?_, ?_⟩
  · show enc 0 bs ++ [u, q] ++ [cast32 _] ++ N = _
    rw [lay_append (by simp)]
    simp only [lay, if_true, Nat.zero_add, ← hq, List.append_assoc]
    unfold cast32
    rw [Nat.mod_eq_of_lt (by omega)]
    simp
  · simp [hq]
  · intro w
    show (b.g.indices.insert u q).get? w = _ ↔ _
    rw [HMap.get?_insert]
    by_cases hw : w = u
    · subst hw; simp
    · rw [if_neg hw, H.none]
      simp [hw]
  · intro pre w M post hs hw
    show (b.g.indices.insert u q).get? w = _
    rw [HMap.get?_insert]
    rcases List.eq_nil_or_concat post with rfl | ⟨post', e, rfl⟩
    · have := List.append_inj' hs rfl
      obtain ⟨h1, h2⟩ := this
      cases h2
      rw [if_pos rfl, hq, h1]
    · rw [List.concat_eq_append, ← List.cons_append, ← List.append_assoc] at hs
      have := List.append_inj' hs rfl
      obtain ⟨h1, h2⟩ := this
      cases h2
      rw [List.concat_eq_append] at hw
      rw [if_neg (by rintro rfl; simp at hw)]
      exact H.idx pre w M post' h1 (by intro h; exact hw (by rw [List.map_append]; exact List.mem_append_left _ h))
  · intro w
    rw [(hr' w).1, get?_entry]
    by_cases hw : w = u
    · subst hw; simp
    · rw [if_neg hw, H.rkeys]
      simp only [List.map_append, List.map_cons, List.map_nil, List.mem_append, List.mem_singleton, hw, or_false]
      constructor
      · rintro ⟨⟨h1, h2⟩, h3⟩
        refine ⟨h1, ?_⟩
        rintro e (h | rfl)
        · exact h2 e h
        · exact h3
      · rintro ⟨h1, h2⟩
        exact ⟨⟨h1, fun e he => h2 e (.inl he)⟩, h2 _ (.inr rfl)⟩
  · intro v R hR w
    rw [(hr' v).2 R hR w]
    have key : (∃ R₀, (DegenBuilder.entry b.g.right u).get? v = some R₀ ∧ w ∈ R₀) ↔ ∃ M, (w, M) ∈ bs ∧ v ∈ M := by
      rw [get?_entry]
      cases hg : b.g.right.get? v with
      | none =>
        have h1 : ¬ ∃ M, (w, M) ∈ bs ∧ v ∈ M := by
          rintro ⟨M, h1, h2⟩
          exact ((H.rkeys v).1 hg).2 _ h1 h2
        refine iff_of_false ?_ h1
        by_cases hv : v = u
        · subst hv
          rw [if_pos rfl, hg]
          rintro ⟨R₀, h1, h2⟩
          cases h1
          simp at h2
        · rw [if_neg hv]
          rintro ⟨R₀, h1, h2⟩
          cases h1
      | some R₁ =>
        have := H.right v R₁ hg w
        by_cases hv : v = u
        · subst hv
          rw [if_pos rfl, hg]
          simpa using this
        · rw [if_neg hv]
          simpa using this
    rw [key]
    constructor
    · rintro (⟨M, h1, h2⟩ | ⟨h1, rfl⟩)
      · exact ⟨M, List.mem_append_left _ h1, h2⟩
      · exact ⟨N, by simp, h1⟩
    · rintro ⟨M, h1, h2⟩
      rcases List.mem_append.1 h1 with h | h
      · exact .inl ⟨M, h, h2⟩
      · simp only [List.mem_singleton, Prod.mk.injEq] at h
        obtain ⟨rfl, rfl⟩ := h
        exact .inr ⟨h2, rfl⟩
  · simp [H.m]

theorem RInv.appends {bs : List (ℕ × List ℕ)} (hsz : off bs ≤ 2 ^ 32) :
    Ok (bs.foldlM (fun (b : DegenBuilder) e => b.append e.1 e.2) DegenBuilder.new) (fun b => RInv b bs) := by
  refine Ok.foldlM (fun pre b => RInv b pre) RInv.new ?_
  intro pre e post b hs hb
  refine hb.append ?_
  rw [hs, show pre ++ e :: post = (pre ++ [e]) ++ post by simp, off_append] at hsz
  exact le_trans (Nat.le_add_right _ _) hsz

namespace RInv
variable {b : DegenBuilder} {bs : List (ℕ × List ℕ)}

/-- The last record of a vertex. -/
theorem last_split {bs : List (ℕ × List ℕ)} {u : ℕ} (h : u ∈ bs.map Prod.fst) :
    ∃ pre N post, bs = pre ++ (u, N) :: post ∧ u ∉ post.map Prod.fst := by
  induction bs with
  | nil => simp at h
  | cons e bs ih =>
    by_cases hb : u ∈ bs.map Prod.fst
    · obtain ⟨pre, N, post, h1, h2⟩ := ih hb
      exact ⟨e :: pre, N, post, by rw [h1]; rfl, h2⟩
    · rw [List.map_cons, List.mem_cons] at h
      rcases h with h | h
      · exact ⟨[], e.2, bs, by rw [h]; rfl, hb⟩
      · exact absurd h hb

theorem contains (H : RInv b bs) (u : ℕ) : b.g.indices.contains u = true ↔ u ∈ bs.map Prod.fst := by
  rw [HMap.contains]
  cases hg : b.g.indices.get? u with
  | none => simpa using (H.none u).1 hg
  | some i =>
    have : ¬ u ∉ bs.map Prod.fst := fun h => by rw [(H.none u).2 h] at hg; cases hg
    simpa using this

theorem numVertices (H : RInv b bs) : b.g.indices.len = (bs.map Prod.fst).toFinset.card :=
  HMap.len_of_mem_iff fun u => by rw [← HMap.contains_iff, H.contains, List.mem_toFinset]

theorem leftSlice (H : RInv b bs) {pre post : List (ℕ × List ℕ)} {u : ℕ} {N : List ℕ} (hs : bs = pre ++ (u, N) :: post)
    (hu : u ∉ post.map Prod.fst) : b.g.leftSlice u = .ok N := by
  unfold DegenGraph.leftSlice DegenGraph.indexOf
  rw [H.idx pre u N post hs hu]
  have h : b.g.contents = lay 0 (pre ++ (u, N) :: post) := by rw [H.cont, hs]
  simp only [unwrap_some, bind_ok, get0 h, get2 h]
  simp only [beq_self_eq_true, assertR, if_true, bind_ok]
  exact slice h

theorem leftDegree (H : RInv b bs) {pre post : List (ℕ × List ℕ)} {u : ℕ} {N : List ℕ} (hs : bs = pre ++ (u, N) :: post)
    (hu : u ∉ post.map Prod.fst) : b.g.leftDegree u = .ok N.length := by
  unfold DegenGraph.leftDegree
  rw [H.idx pre u N post hs hu]
  have h : b.g.contents = lay 0 (pre ++ (u, N) :: post) := by rw [H.cont, hs]
  simp only [get2 h, unwrap_some]

theorem adjacentOrdered (H : RInv b bs) (v w : ℕ) : b.g.adjacentOrdered v w = true ↔ ∃ N, (w, N) ∈ bs ∧ v ∈ N := by
  unfold DegenGraph.adjacentOrdered
  cases h : b.g.right.get? v with
  | some R => simp only [HSet.contains_iff]; exact H.right v R h w
  | none =>
    have := ((H.rkeys v).1 h).2
    simp only [Bool.false_eq_true, false_iff]
    rintro ⟨N, h1, h2⟩
    exact this _ h1 h2

theorem adjacent (H : RInv b bs) (v w : ℕ) :
    b.g.adjacent v w = .ok (b.g.adjacentOrdered v w || b.g.adjacentOrdered w v) := by
  have h1 := H.adjacentOrdered v w
  have h2 := H.adjacentOrdered w v
  unfold DegenGraph.adjacent
  rw [HMap.contains, HMap.contains]
  cases hv : b.g.right.get? v with
  | none =>
    have e1 : b.g.adjacentOrdered v w = false := by unfold DegenGraph.adjacentOrdered; rw [hv]
    have e2 : b.g.adjacentOrdered w v = false := by
      rw [Bool.eq_false_iff, Ne, h2]
      rintro ⟨N, h3, -⟩
      exact ((H.rkeys v).1 hv).1 (List.mem_map.2 ⟨_, h3, rfl⟩)
    rw [e1, e2]
    simp
  | some R =>
    cases hw : b.g.right.get? w with
    | none =>
      have e1 : b.g.adjacentOrdered w v = false := by unfold DegenGraph.adjacentOrdered; rw [hw]
      have e2 : b.g.adjacentOrdered v w = false := by
        rw [Bool.eq_false_iff, Ne, h1]
        rintro ⟨N, h3, -⟩
        exact ((H.rkeys w).1 hw).1 (List.mem_map.2 ⟨_, h3, rfl⟩)
      rw [e1, e2]
      simp
    | some R' =>
      have e1 : b.g.adjacentOrdered v w = R.contains w := by unfold DegenGraph.adjacentOrdered; rw [hv]
      have e2 : b.g.adjacentOrdered w v = R'.contains v := by unfold DegenGraph.adjacentOrdered; rw [hw]
      rw [e1, e2]
      simp only [Option.isSome_some, Bool.not_true, Bool.or_self, Bool.false_eq_true, if_false, unwrap_some, bind_ok]
      cases R.contains w <;> simp

theorem rightNeighbours (H : RInv b bs) (v : ℕ) :
    (v ∉ bs.map Prod.fst → (∀ e ∈ bs, v ∉ e.2) → b.g.rightNeighbours v = .error .panic) ∧
    (v ∈ bs.map Prod.fst ∨ (∃ e ∈ bs, v ∈ e.2) →
      ∃ R, b.g.rightNeighbours v = .ok R ∧ ∀ w, w ∈ R ↔ ∃ N, (w, N) ∈ bs ∧ v ∈ N) := by
  unfold DegenGraph.rightNeighbours
  constructor
  · intro h1 h2
    rw [(H.rkeys v).2 ⟨h1, h2⟩]; rfl
  · intro h
    cases hg : b.g.right.get? v with
    | none =>
      exfalso
      obtain ⟨h1, h2⟩ := (H.rkeys v).1 hg
      rcases h with h | ⟨e, he, h⟩
      · exact h1 h
      · exact h2 e he h
    | some R => exact ⟨R, rfl, H.right v R hg⟩

theorem rightDegree (H : RInv b bs) (v : ℕ) :
    b.g.rightDegree v = ((bs.filter (fun e => decide (v ∈ e.2))).map Prod.fst).toFinset.card := by
  unfold DegenGraph.rightDegree
  cases h : b.g.right.get? v with
  | some R =>
    refine HSet.len_of_mem_iff fun a => ?_
    rw [H.right v R h a]
    simp
  | none =>
    have := ((H.rkeys v).1 h).2
    symm
    rw [Finset.card_eq_zero, Finset.eq_empty_iff_forall_notMem]
    intro w hw
    simp only [List.mem_toFinset, List.mem_map, List.mem_filter, decide_eq_true_eq] at hw
    obtain ⟨e, ⟨h1, h2⟩, -⟩ := hw
    exact this e h1 h2

theorem orderIter_from (H : RInv b bs) {pre post : List (ℕ × List ℕ)} {e : ℕ × List ℕ} (hs : bs = pre ++ e :: post) :
    Drains b.g.orderIterNext (some (off pre)) ((e :: post).map Prod.fst) := by
  induction post generalizing pre e with
  | nil =>
    have h : b.g.contents = lay 0 (pre ++ e :: []) := by rw [H.cont, hs]
    refine Drains.step (s' := .none) ?_ (Drains.done rfl)
    unfold DegenGraph.orderIterNext
    simp only [get0 h, get1 h, unwrapUnchecked_some, bind_ok]
    simp
  | cons v post ih =>
    have h : b.g.contents = lay 0 (pre ++ e :: v :: post) := by rw [H.cont, hs]
    refine Drains.step (s' := some (off (pre ++ [e]))) ?_ (ih (pre := pre ++ [e]) (by rw [hs]; simp))
    unfold DegenGraph.orderIterNext
    simp only [get0 h, get1 h, unwrapUnchecked_some, bind_ok]
    rw [if_neg (show ¬ v :: post = [] by simp), off_append]
    have : (off pre + bsize e == off pre) = false := by
      rw [beq_eq_false_iff_ne, bsize]; omega
    rw [this]
    simp [off]

theorem iter_from (H : RInv b bs) {pre post : List (ℕ × List ℕ)} {e : ℕ × List ℕ} (hs : bs = pre ++ e :: post) :
    Drains b.g.iterNext (some (off pre)) (e :: post) := by
  induction post generalizing pre e with
  | nil =>
    have h : b.g.contents = lay 0 (pre ++ e :: []) := by rw [H.cont, hs]
    refine Drains.step (s' := .none) ?_ (Drains.done rfl)
    unfold DegenGraph.iterNext
    simp only [get0 h, get1 h, get2 h, unwrapUnchecked_some, bind_ok, slice h]
    simp
  | cons v post ih =>
    have h : b.g.contents = lay 0 (pre ++ e :: v :: post) := by rw [H.cont, hs]
    refine Drains.step (s' := some (off (pre ++ [e]))) ?_ (ih (pre := pre ++ [e]) (by rw [hs]; simp))
    unfold DegenGraph.iterNext
    simp only [get0 h, get1 h, get2 h, unwrapUnchecked_some, bind_ok, slice h]
    rw [if_neg (show ¬ v :: post = [] by simp), off_append]
    have : (off pre + bsize e == off pre) = false := by
      rw [beq_eq_false_iff_ne, bsize]; omega
    rw [this]
    simp [off]

theorem start (H : RInv b bs) : b.g.orderIterNew = if bs = [] then .none else some 0 := by
  unfold DegenGraph.orderIterNew
  rw [H.numVertices]
  cases bs with
  | nil => rfl
  | cons e bs => simp

theorem orderIter (H : RInv b bs) : Drains b.g.orderIterNext b.g.orderIterNew (bs.map Prod.fst) := by
  rw [H.start]
  cases hb : bs with
  | nil => exact Drains.done rfl
  | cons e bs' => exact H.orderIter_from (pre := []) hb

theorem iter (H : RInv b bs) : Drains b.g.iterNext b.g.iterNew bs := by
  rw [show b.g.iterNew = b.g.orderIterNew from rfl, H.start]
  cases hb : bs with
  | nil => exact Drains.done rfl
  | cons e bs' => exact H.iter_from (pre := []) hb

theorem vertices (H : RInv b bs) : b.g.vertices = bs.map Prod.fst := by
  unfold DegenGraph.vertices
  rw [Inv.drainOrder_of H.orderIter]
  rw [H.cont, length_lay, List.length_map]
  have := Inv.length_le bs
  omega

theorem first (H : RInv b bs) : b.g.first = bs.head?.map Prod.fst := by
  unfold DegenGraph.first
  rw [H.cont]
  cases bs <;> rfl

end RInv
end DegenGraph
end Verif
