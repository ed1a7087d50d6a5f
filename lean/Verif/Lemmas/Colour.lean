import Verif.Lemmas.DegenGraph
import Verif.Lemmas.DisjUnion
import Verif.Model.LinearAlg2
/-!
# Greedy colouring
-/
namespace Verif
open SGraph

/-- The computation returns a value with property `P` or panics; it neither overflows nor runs out of fuel. -/
def Safe {α : Type} (x : Res α) (P : α → Prop) : Prop :=
  match x with
  | .ok a => P a
  | .error e => e = .panic

namespace Safe
variable {α β : Type} {x : Res α} {P Q : α → Prop}

theorem of_ok (h : Ok x P) : Safe x P := by
  obtain ⟨a, rfl, h⟩ := h
  exact h

theorem pure {a : α} (h : P a) : Safe (Pure.pure a : Res α) P := h

theorem mono (h : Safe x P) (hpq : ∀ a, P a → Q a) : Safe x Q := by
  cases x with
  | error e => exact h
  | ok a => exact hpq a h

theorem bind {f : α → Res β} {R : β → Prop} (h : Safe x P) (hf : ∀ a, P a → Safe (f a) R) : Safe (x >>= f) R := by
  cases x with
  | error e => exact h
  | ok a => exact hf a h

theorem unwrap (o : Option α) : Safe (Verif.unwrap o) (fun a => o = some a) := by
  cases o with
  | none => exact rfl
  | some a => exact rfl

theorem assertR (b : Bool) : Safe (Verif.assertR b) (fun _ => b = true) := by
  cases b with
  | false => exact rfl
  | true => exact rfl

theorem elim (h : Safe x P) : x = .error .panic ∨ ∃ a, x = .ok a ∧ P a := by
  cases x with
  | error e => exact Or.inl (congrArg _ h)
  | ok a => exact Or.inr ⟨a, rfl, h⟩

theorem foldlM {f : β → α → Res β} {l : List α} {b : β} (Inv : List α → β → Prop) (h0 : Inv [] b)
    (hstep : ∀ pre a post b, l = pre ++ a :: post → Inv pre b → Safe (f b a) (Inv (pre ++ [a]))) :
    Safe (l.foldlM f b) (Inv l) := by
  have key : ∀ (post pre : List α) (b : β), l = pre ++ post → Inv pre b → Safe (post.foldlM f b) (Inv l) := by
    intro post
    induction post with
    | nil =>
      intro pre b hl hi
      rw [List.append_nil] at hl
      rw [hl]; exact hi
    | cons a post ih =>
      intro pre b hl hi
      rw [List.foldlM_cons]
      exact (hstep pre a post b hl hi).bind fun b' hb' => ih (pre ++ [a]) b' (by simp [hl]) hb'
  exact key l [] b rfl h0

theorem mapM {f : α → Res β} {l : List α} (h : ∀ a ∈ l, Safe (f a) (fun _ => True)) :
    Safe (l.mapM f) (fun r => l.mapM f = .ok r) := by
  have key : Safe (l.mapM f) (fun _ => True) := by
    induction l with
    | nil => exact trivial
    | cons a l ih =>
      rw [List.mapM_cons]
      exact (h a (by simp)).bind fun b _ => (ih fun x hx => h x (by simp [hx])).bind fun r _ => trivial
  revert key
  generalize l.mapM f = x
  cases x with
  | error e => exact id
  | ok r => exact fun _ => rfl

end Safe

/-- The computation returns a value with property `P`, or `q` holds and it panics; it neither overflows nor runs out of
fuel. -/
def SafeIf {α : Type} (q : Prop) (x : Res α) (P : α → Prop) : Prop :=
  match x with
  | .ok a => P a
  | .error e => q ∧ e = .panic

namespace SafeIf
variable {α β : Type} {q : Prop} {x : Res α} {P Q : α → Prop}

theorem of_ok (h : Ok x P) : SafeIf q x P := by
  obtain ⟨a, rfl, h⟩ := h
  exact h

/-- Safety, and success without `q`. -/
theorem of_safe (h : Safe x P) (h' : ¬ q → Ok x Q) : SafeIf q x (fun a => P a ∧ (¬ q → Q a)) := by
  by_cases hq : q
  · cases x with
    | error e => exact ⟨hq, h⟩
    | ok a => exact ⟨h, fun hc => absurd hq hc⟩
  · obtain ⟨a, rfl, ha⟩ := h' hq
    exact ⟨h, fun _ => ha⟩

theorem pure {a : α} (h : P a) : SafeIf q (Pure.pure a : Res α) P := h

theorem mono (h : SafeIf q x P) (hpq : ∀ a, P a → Q a) : SafeIf q x Q := by
  cases x with
  | error e => exact h
  | ok a => exact hpq a h

theorem bind {f : α → Res β} {R : β → Prop} (h : SafeIf q x P) (hf : ∀ a, P a → SafeIf q (f a) R) : SafeIf q (x >>= f) R := by
  cases x with
  | error e => exact h
  | ok a => exact hf a h

theorem assertR {b : Bool} (h : ¬ q → b = true) : SafeIf q (Verif.assertR b) (fun _ => b = true) := by
  cases b with
  | true => exact rfl
  | false =>
    refine ⟨?_, rfl⟩
    by_contra hq
    exact absurd (h hq) (by simp)

theorem elim (h : SafeIf q x P) : (q ∧ x = .error .panic) ∨ ∃ a, x = .ok a ∧ P a := by
  cases x with
  | error e => exact Or.inl ⟨h.1, congrArg _ h.2⟩
  | ok a => exact Or.inr ⟨a, rfl, h⟩

end SafeIf

/-- Partial correctness of a loop. -/
theorem foldlM_of_ok {α β : Type} {f : β → α → Res β} {l : List α} {b c : β} (Inv : List α → β → Prop) (h0 : Inv [] b)
    (hstep : ∀ pre a post b b', l = pre ++ a :: post → Inv pre b → f b a = .ok b' → Inv (pre ++ [a]) b')
    (h : l.foldlM f b = .ok c) : Inv l c := by
  have key : ∀ (post pre : List α) (b : β), l = pre ++ post → Inv pre b → post.foldlM f b = .ok c → Inv l c := by
    intro post
    induction post with
    | nil =>
      intro pre b hl hi h
      rw [List.append_nil] at hl
      rw [List.foldlM_nil] at h
      cases h
      rw [hl]; exact hi
    | cons a post ih =>
      intro pre b hl hi h
      rw [List.foldlM_cons] at h
      cases hf : f b a with
      | error e => rw [hf] at h; cases h
      | ok b' =>
        rw [hf] at h
        exact ih (pre ++ [a]) b' (by simp [hl]) (hstep pre a post b b' hl hi hf) h
  exact key l [] b rfl h0 h

theorem mapM_of_ok {α β : Type} {f : α → Res β} {l : List α} {r : List β} (h : l.mapM f = .ok r) :
    r.length = l.length ∧ ∀ a ∈ l, ∃ b ∈ r, f a = .ok b := by
  induction l generalizing r with
  | nil => rw [List.mapM_nil] at h; cases h; simp
  | cons a l ih =>
    rw [List.mapM_cons] at h
    cases hf : f a with
    | error e => rw [hf] at h; cases h
    | ok b =>
      rw [hf] at h
      cases hl : l.mapM f with
      | error e => rw [hl] at h; cases h
      | ok r' =>
        rw [hl] at h
        cases h
        obtain ⟨h1, h2⟩ := ih hl
        refine ⟨by simp [h1], fun x hx => ?_⟩
        rcases List.mem_cons.1 hx with rfl | hx
        · exact ⟨b, by simp, hf⟩
        · obtain ⟨c, h3, h4⟩ := h2 x hx
          exact ⟨c, by simp [h3], h4⟩

namespace LinGraph.LRep
variable {L : LinGraph} {S : SGraph} {ord : List ℕ}

/-- Colours in use and the proper partial colouring of the vertices seen so far. -/
structure CInv (S : SGraph) (pre : List ℕ) (st : HMap ℕ ℕ × List ℕ) : Prop where
  used : st.2 = List.range st.2.length
  small : st.2.length ≤ pre.length
  dom : ∀ u c, st.1.get? u = some c → u ∈ pre ∧ c < st.2.length
  proper : ∀ u v c, S.Adj u v → st.1.get? u = some c → st.1.get? v ≠ some c

theorem CInv.extend (O : S.Ordering ord) (hl : S.Loopless) {pre post : List ℕ} {v c : ℕ} {st : HMap ℕ ℕ × List ℕ}
    (hs : ord = pre ++ v :: post) (h : CInv S pre st) {used : List ℕ} (hu : used = List.range used.length)
    (hsm : used.length ≤ pre.length + 1) (hle : st.2.length ≤ used.length) (hc : c < used.length)
    (hN : ∀ w, S.Adj v w → ord.idxOf w < ord.idxOf v → st.1.get? w ≠ some c) :
    CInv S (pre ++ [v]) (st.1.insert v c, used) := by
  have hvi : ord.idxOf v = pre.length := O.idxOf_eq (by rw [hs]; simp)
  have hw : ∀ w, S.Adj v w → st.1.get? w ≠ some c := by
    intro w hw hg
    have hp := (h.dom w c hg).1
    have := (Ordering.idxOf_lt_split hs).2 hp
    exact hN w hw (by omega) hg
  refine ⟨hu, by simpa using hsm, ?_, ?_⟩
  · intro u d hd
    simp only [HMap.get?_insert] at hd
    split at hd
    · rename_i he
      cases hd
      exact ⟨by simp [he], hc⟩
    · obtain ⟨h1, h2⟩ := h.dom u d hd
      exact ⟨by simp [h1], lt_of_lt_of_le h2 hle⟩
  · intro a b d hab ha hb
    simp only [HMap.get?_insert] at ha hb
    split at ha <;> split at hb
    · rename_i h1 h2
      subst h1; subst h2
      exact hl _ hab
    · rename_i h1 h2
      subst h1
      cases ha
      exact hw b hab hb
    · rename_i h1 h2
      subst h2
      cases hb
      exact hw a hab.symm ha
    · exact h.proper a b d hab ha hb

/-- `colour_greedy` only ever panics, and returns proper colourings with colours below the number of vertices;
if colour `k` occurs then every number up to `k` is the number of left neighbours of some vertex. -/
theorem colourGreedy_safe (H : L.LRep S ord) (hn : S.V.card ≤ 2 ^ 32) :
    Safe L.colourGreedy (fun c => (∀ u ∈ c.keys, u ∈ S.V) ∧ (∀ u v k, S.Adj u v → c.get? u = some k → c.get? v ≠ some k) ∧
      (∀ u k, c.get? u = some k → k < S.V.card) ∧
      ∀ u k, c.get? u = some k → ∀ j ≤ k, ∃ v ∈ S.V, (S.before ord v).card = j) := by
  unfold LinGraph.colourGreedy
  have O := H.ordering
  have hf := Safe.foldlM (f := L.colourStep) (l := L.vertices) (b := (∅, []))
    (fun (pre : List ℕ) (st : HMap ℕ ℕ × List ℕ) => CInv S pre st ∧ ∀ k < st.2.length, ∃ v ∈ S.V, (S.before ord v).card = k)
    ⟨⟨rfl, by simp, by simp, by simp⟩, by simp⟩ ?_
  · refine hf.bind fun st ⟨hi, hat⟩ => ?_
    refine Safe.pure ⟨fun u hu => ?_, hi.proper, fun u k hk => ?_, fun u k hk j hj => hat j (lt_of_le_of_lt hj (hi.dom u k hk).2)⟩
    · obtain ⟨k, hk⟩ := HMap.mem_keys_iff.1 hu
      exact (H.rep.vmem u).1 (hi.dom u k hk).1
    · have h1 := (hi.dom u k hk).2
      have h2 := hi.small
      rw [H.verts, O.length] at h2
      omega
  · intro pre v post st hs ⟨hi, hat⟩
    rw [H.verts] at hs
    have hv : v ∈ S.V := (O.mem v).1 (by rw [hs]; simp)
    obtain ⟨N, hN, hpw, hmem⟩ := H.left v hv
    have hnd : N.Nodup := hpw.imp fun h he => absurd h (by rw [he]; omega)
    have hNl : N.length = (S.before ord v).card := by
      rw [← List.toFinset_card_of_nodup hnd]
      congr 1
      ext w
      rw [List.mem_toFinset, hmem, mem_before]
    have hlen : pre.length < S.V.card := by rw [← O.length, hs]; simp
    unfold LinGraph.colourStep
    rw [hN, bind_ok]
    refine (Safe.mapM (f := fun x => Verif.unwrap (st.1.get? x)) (l := N)
      fun x _ => (Safe.unwrap _).mono fun _ _ => trivial).bind fun cs hm => ?_
    obtain ⟨hcl, hcs⟩ := mapM_of_ok hm
    have hcs' : ∀ w, S.Adj v w → ord.idxOf w < ord.idxOf v → ∀ d, st.1.get? w = some d → d ∈ cs := by
      intro w h1 h2 d hd
      obtain ⟨b, hb, he⟩ := hcs w ((hmem w).2 ⟨h1, h2⟩)
      rw [hd] at he
      cases he
      exact hb
    have hsm := hi.small
    split
    · have hc : cast32 st.2.length = st.2.length := Nat.mod_eq_of_lt (by omega)
      rw [hc]
      rename_i heq
      have heq : cs.length = st.2.length := by simpa using heq
      refine Safe.pure ⟨hi.extend O H.loopless hs ?_ (by simp; omega) (by simp) (by simp) ?_, fun k hk => ?_⟩
      · conv_lhs => rw [hi.used]
        simp [List.range_succ]
      · intro w h1 h2 hg
        exact absurd (hi.dom w _ hg).2 (by omega)
      · simp only [List.length_append, List.length_singleton] at hk
        rcases Nat.lt_succ_iff_lt_or_eq.1 hk with hk | hk
        · exact hat k hk
        · exact ⟨v, hv, by omega⟩
    · cases hff : st.2.find? (fun c => !cs.contains c) with
      | none =>
        exact Safe.pure ⟨⟨hi.used, by simp; omega, fun u c hc => ⟨by simp [(hi.dom u c hc).1], (hi.dom u c hc).2⟩, hi.proper⟩,
          hat⟩
      | some k =>
        have h1 := List.mem_of_find?_eq_some hff
        have h2 := List.find?_some hff
        refine Safe.pure ⟨hi.extend O H.loopless hs hi.used (by omega) (le_refl _) ?_ ?_, hat⟩
        · rw [hi.used] at h1; simpa using h1
        · intro w h3 h4 hg
          have := hcs' w h3 h4 k hg
          simp [this] at h2

/-- Whatever `colour_greedy` returns is a proper colouring of the vertices it colours. -/
theorem colourGreedy_of_ok (H : L.LRep S ord) (hn : S.V.card ≤ 2 ^ 32) {c : HMap ℕ ℕ} (h : L.colourGreedy = .ok c) :
    (∀ u ∈ c.keys, u ∈ S.V) ∧ ∀ u v k, S.Adj u v → c.get? u = some k → c.get? v ≠ some k := by
  have := H.colourGreedy_safe hn
  rw [h] at this
  exact ⟨this.1, this.2.1⟩

/-- If all left neighbourhoods are cliques, `colour_greedy` succeeds and is optimal. -/
theorem colourGreedy_cliques (H : L.LRep S ord) (hn : S.V.card ≤ 2 ^ 32)
    (hcl : ∀ v a b, S.Adj v a → S.Adj v b → ord.idxOf a < ord.idxOf v → ord.idxOf b < ord.idxOf v → a ≠ b → S.Adj a b) :
    Ok L.colourGreedy (fun c => (∀ u, u ∈ c.keys ↔ u ∈ S.V) ∧
      (∀ u v k, S.Adj u v → c.get? u = some k → c.get? v ≠ some k) ∧
      ∀ u k, c.get? u = some k → ∃ v ∈ S.V, (S.before ord v).card = k) := by
  unfold LinGraph.colourGreedy
  have O := H.ordering
  have hf := Ok.foldlM (f := L.colourStep) (l := L.vertices) (b := (∅, []))
    (fun (pre : List ℕ) (st : HMap ℕ ℕ × List ℕ) => CInv S pre st ∧ (∀ u ∈ pre, u ∈ st.1.keys) ∧
      ∀ k < st.2.length, ∃ v ∈ S.V, (S.before ord v).card = k) ⟨⟨rfl, by simp, by simp, by simp⟩, by simp, by simp⟩ ?_
  · refine hf.bind ?_
    rintro ⟨c, used⟩ ⟨h1, h2, h3⟩
    refine Ok.pure ⟨fun u => ⟨fun hu => ?_, fun hu => h2 u ((H.rep.vmem u).2 hu)⟩, h1.proper, fun u k hk => ?_⟩
    · obtain ⟨k, hk⟩ := HMap.mem_keys_iff.1 hu
      exact (H.rep.vmem u).1 (h1.dom u k hk).1
    · exact h3 k (h1.dom u k hk).2
  · intro pre v post st hs ⟨hi, htot, hcol⟩
    rw [H.verts] at hs
    have hv : v ∈ S.V := (O.mem v).1 (by rw [hs]; simp)
    have hvi : ord.idxOf v = pre.length := O.idxOf_eq (by rw [hs]; simp)
    obtain ⟨N, hN, hpw, hmem⟩ := H.left v hv
    have hlen : pre.length < S.V.card := by rw [← O.length, hs]; simp
    have hsm := hi.small
    unfold LinGraph.colourStep
    rw [hN, bind_ok]
    have hpre : ∀ x ∈ N, x ∈ pre := fun x hx => (Ordering.idxOf_lt_split hs).1 (by have := ((hmem x).1 hx).2; omega)
    have hget : ∀ x ∈ N, st.1.get? x = some ((st.1.get? x).getD 0) := by
      intro x hx
      obtain ⟨k, hk⟩ := HMap.mem_keys_iff.1 (htot x (hpre x hx))
      rw [hk]; rfl
    have hm : N.mapM (fun x => unwrap (st.1.get? x)) = .ok (N.map fun x => (st.1.get? x).getD 0) :=
      EditGraph.mapM_ok fun x hx => by
        have := hget x hx
        revert this
        generalize st.1.get? x = o
        rintro h
        cases o with
        | none => cases h
        | some k => rfl
    rw [hm, bind_ok]
    have hnd : N.Nodup := hpw.imp fun h he => absurd h (by rw [he]; omega)
    have hcnd : (N.map fun x => (st.1.get? x).getD 0).Nodup := by
      rw [List.nodup_map_iff_inj_on hnd]
      intro x hx y hy he
      by_contra hne
      have hadj := hcl v x y ((hmem x).1 hx).1 ((hmem y).1 hy).1 ((hmem x).1 hx).2 ((hmem y).1 hy).2 hne
      exact hi.proper x y _ hadj (hget x hx) (by rw [he]; exact hget y hy)
    have hsub : ∀ c ∈ N.map fun x => (st.1.get? x).getD 0, c < st.2.length := by
      intro c hc
      obtain ⟨x, hx, rfl⟩ := List.mem_map.1 hc
      exact (hi.dom x _ (hget x hx)).2
    have hNl : N.length = (S.before ord v).card := by
      rw [← List.toFinset_card_of_nodup hnd]
      congr 1
      ext w
      rw [List.mem_toFinset, hmem, mem_before]
    have htot' : ∀ c, ∀ u ∈ pre ++ [v], u ∈ (st.1.insert v c).keys := by
      intro c u hu
      rw [HMap.mem_keys_insert]
      rcases List.mem_append.1 hu with h | h
      · exact Or.inr (htot u h)
      · exact Or.inl (by simpa using h)
    by_cases heq : N.length = st.2.length
    · rw [if_pos (by simpa using heq)]
      have hc : cast32 st.2.length = st.2.length := Nat.mod_eq_of_lt (by omega)
      rw [hc]
      refine Ok.pure ⟨hi.extend O H.loopless hs ?_ (by simp; omega) (by simp) (by simp) ?_, htot' _, ?_⟩
      · conv_lhs => rw [hi.used]
        simp [List.range_succ]
      · intro w h1 h2 hg
        exact absurd (hi.dom w _ hg).2 (by omega)
      · intro k hk
        simp only [List.length_append, List.length_singleton] at hk
        rcases Nat.lt_succ_iff_lt_or_eq.1 hk with hk | hk
        · exact hcol k hk
        · exact ⟨v, hv, by omega⟩
    · rw [if_neg (by simpa using heq)]
      cases hff : st.2.find? (fun c => !(N.map fun x => (st.1.get? x).getD 0).contains c) with
      | none =>
        exfalso
        rw [List.find?_eq_none] at hff
        have h1 : st.2.toFinset ⊆ (N.map fun x => (st.1.get? x).getD 0).toFinset := by
          intro c hc
          have := hff c (List.mem_toFinset.1 hc)
          simp only [Bool.not_eq_true', Bool.not_eq_false, List.contains_iff_mem] at this
          exact List.mem_toFinset.2 this
        have h2 : (N.map fun x => (st.1.get? x).getD 0).toFinset ⊆ st.2.toFinset := by
          intro c hc
          have := hsub c (List.mem_toFinset.1 hc)
          rw [List.mem_toFinset, hi.used]
          simpa using this
        have h3 := congrArg Finset.card (Finset.Subset.antisymm h2 h1)
        rw [List.toFinset_card_of_nodup hcnd, List.length_map, List.toFinset_card_of_nodup] at h3
        · exact heq h3
        · rw [hi.used]; exact List.nodup_range
      | some k =>
        have h1 := List.mem_of_find?_eq_some hff
        have h2 := List.find?_some hff
        refine Ok.pure ⟨hi.extend O H.loopless hs hi.used (by omega) (le_refl _) ?_ ?_, htot' k, hcol⟩
        · rw [hi.used] at h1; simpa using h1
        · intro w h3 h4 hg
          have hw := (hmem w).2 ⟨h3, h4⟩
          have : k ∈ N.map fun x => (st.1.get? x).getD 0 := List.mem_map.2 ⟨w, hw, by rw [hg]; rfl⟩
          simp [this] at h2

/-- The number of left neighbours never grows by more than one from a vertex to the next. -/
def NoJump (S : SGraph) (ord : List ℕ) : Prop :=
  ∀ pre u v post, ord = pre ++ u :: v :: post → (S.before ord v).card ≤ (S.before ord u).card + 1

/-- If the number of left neighbours never grows by more than one from a vertex to the next, `colour_greedy` succeeds,
colours every vertex, and uses at most one colour more than the largest number of left neighbours. -/
theorem colourGreedy_noJump (H : L.LRep S ord) (hn : S.V.card ≤ 2 ^ 32)
    (hj : NoJump S ord) :
    Ok L.colourGreedy (fun c => (∀ u, u ∈ c.keys ↔ u ∈ S.V) ∧
      (∀ u v k, S.Adj u v → c.get? u = some k → c.get? v ≠ some k) ∧
      ∀ u k, c.get? u = some k → ∃ v ∈ S.V, (S.before ord v).card = k) := by
  unfold LinGraph.colourGreedy
  have O := H.ordering
  have hf := Ok.foldlM (f := L.colourStep) (l := L.vertices) (b := (∅, []))
    (fun (pre : List ℕ) (st : HMap ℕ ℕ × List ℕ) => CInv S pre st ∧ (∀ u ∈ pre, u ∈ st.1.keys) ∧
      (∀ k < st.2.length, ∃ v ∈ S.V, (S.before ord v).card = k) ∧ ∀ u ∈ pre, (S.before ord u).card < st.2.length)
    ⟨⟨rfl, by simp, by simp, by simp⟩, by simp, by simp, by simp⟩ ?_
  · refine hf.bind ?_
    rintro ⟨c, used⟩ ⟨h1, h2, h3, -⟩
    refine Ok.pure ⟨fun u => ⟨fun hu => ?_, fun hu => h2 u ((H.rep.vmem u).2 hu)⟩, h1.proper, fun u k hk => ?_⟩
    · obtain ⟨k, hk⟩ := HMap.mem_keys_iff.1 hu
      exact (H.rep.vmem u).1 (h1.dom u k hk).1
    · exact h3 k (h1.dom u k hk).2
  · intro pre v post st hs ⟨hi, htot, hcol, hlow⟩
    rw [H.verts] at hs
    have hv : v ∈ S.V := (O.mem v).1 (by rw [hs]; simp)
    have hvi : ord.idxOf v = pre.length := O.idxOf_eq (by rw [hs]; simp)
    obtain ⟨N, hN, hpw, hmem⟩ := H.left v hv
    have hlen : pre.length < S.V.card := by rw [← O.length, hs]; simp
    have hsm := hi.small
    unfold LinGraph.colourStep
    rw [hN, bind_ok]
    have hpre : ∀ x ∈ N, x ∈ pre := fun x hx => (Ordering.idxOf_lt_split hs).1 (by have := ((hmem x).1 hx).2; omega)
    have hget : ∀ x ∈ N, st.1.get? x = some ((st.1.get? x).getD 0) := by
      intro x hx
      obtain ⟨k, hk⟩ := HMap.mem_keys_iff.1 (htot x (hpre x hx))
      rw [hk]; rfl
    have hm : N.mapM (fun x => unwrap (st.1.get? x)) = .ok (N.map fun x => (st.1.get? x).getD 0) :=
      EditGraph.mapM_ok fun x hx => by
        have := hget x hx
        revert this
        generalize st.1.get? x = o
        rintro h
        cases o with
        | none => cases h
        | some k => rfl
    rw [hm, bind_ok]
    have hnd : N.Nodup := hpw.imp fun h he => absurd h (by rw [he]; omega)
    have hNl : N.length = (S.before ord v).card := by
      rw [← List.toFinset_card_of_nodup hnd]
      congr 1
      ext w
      rw [List.mem_toFinset, hmem, mem_before]
    have hNu : N.length ≤ st.2.length := by
      rcases List.eq_nil_or_concat pre with rfl | ⟨pre', u, rfl⟩
      · cases N with
        | nil => simp
        | cons x N => exact absurd (hpre x (by simp)) (by simp)
      · have h1 := hj pre' u v post (by rw [hs]; simp)
        have h2 := hlow u (by simp)
        omega
    have htot' : ∀ c, ∀ u ∈ pre ++ [v], u ∈ (st.1.insert v c).keys := by
      intro c u hu
      rw [HMap.mem_keys_insert]
      rcases List.mem_append.1 hu with h | h
      · exact Or.inr (htot u h)
      · exact Or.inl (by simpa using h)
    by_cases heq : N.length = st.2.length
    · rw [if_pos (by simpa using heq)]
      have hc : cast32 st.2.length = st.2.length := Nat.mod_eq_of_lt (by omega)
      rw [hc]
      refine Ok.pure ⟨hi.extend O H.loopless hs ?_ (by simp; omega) (by simp) (by simp) ?_, htot' _, ?_, ?_⟩
      · conv_lhs => rw [hi.used]
        simp [List.range_succ]
      · intro w h1 h2 hg
        exact absurd (hi.dom w _ hg).2 (by omega)
      · intro k hk
        simp only [List.length_append, List.length_singleton] at hk
        rcases Nat.lt_succ_iff_lt_or_eq.1 hk with hk | hk
        · exact hcol k hk
        · exact ⟨v, hv, by omega⟩
      · intro u hu
        simp only [List.length_append, List.length_singleton]
        rcases List.mem_append.1 hu with h | h
        · exact Nat.lt_succ_of_lt (hlow u h)
        · rw [List.mem_singleton.1 h, ← hNl]; omega
    · rw [if_neg (by simpa using heq)]
      cases hff : st.2.find? (fun c => !(N.map fun x => (st.1.get? x).getD 0).contains c) with
      | none =>
        exfalso
        rw [List.find?_eq_none] at hff
        have h1 : st.2.toFinset ⊆ (N.map fun x => (st.1.get? x).getD 0).toFinset := by
          intro c hc
          have := hff c (List.mem_toFinset.1 hc)
          simp only [Bool.not_eq_true', Bool.not_eq_false, List.contains_iff_mem] at this
          exact List.mem_toFinset.2 this
        have h3 := Finset.card_le_card h1
        rw [List.toFinset_card_of_nodup (by rw [hi.used]; exact List.nodup_range)] at h3
        have h4 := List.toFinset_card_le (N.map fun x => (st.1.get? x).getD 0)
        rw [List.length_map] at h4
        omega
      | some k =>
        have h1 := List.mem_of_find?_eq_some hff
        have h2 := List.find?_some hff
        refine Ok.pure ⟨hi.extend O H.loopless hs hi.used (by omega) (le_refl _) ?_ ?_, htot' k, hcol, ?_⟩
        · rw [hi.used] at h1; simpa using h1
        · intro w h3 h4 hg
          have hw := (hmem w).2 ⟨h3, h4⟩
          have : k ∈ N.map fun x => (st.1.get? x).getD 0 := List.mem_map.2 ⟨w, hw, by rw [hg]; rfl⟩
          simp [this] at h2
        · intro u hu
          rcases List.mem_append.1 hu with h | h
          · exact hlow u h
          · rw [List.mem_singleton.1 h, ← hNl]; show N.length < st.2.length; omega

end LinGraph.LRep
end Verif
