import Verif.Model.Algorithms
import Verif.Spec.Core
import Verif.Lemmas.Iter
import Mathlib.Data.List.Chain
/-! # Bipartiteness test -/
namespace Verif

theorem HMap.len_insert_new {κ α : Type} [DecidableEq κ] {m : HMap κ α} {k : κ} {a : α} (h : m.get? k = none) :
    (m.insert k a).len = m.len + 1 := by
  have hk : k ∉ m.entries.map Prod.fst := HMap.get?_eq_none.1 h
  unfold HMap.insert
  rw [dif_neg hk]; rfl

namespace Bip
variable {S : SGraph}

abbrev Colours := HMap ℕ (Bool × ℕ)

/-- Following parents from `v` visits the list `l` and ends in the root `r`. -/
inductive Climb (C : Colours) : ℕ → List ℕ → ℕ → Prop
  | root {r : ℕ} (h : C.get? r = some (true, r)) : Climb C r [] r
  | step {v p r : ℕ} {c : Bool} {l : List ℕ} (h : C.get? v = some (c, p)) (hp : p ≠ v) (t : Climb C p l r) :
      Climb C v (p :: l) r

theorem Climb.insert {C : Colours} {v r x : ℕ} {l : List ℕ} {a : Bool × ℕ} (h : Climb C v l r)
    (hx : C.get? x = none) : Climb (C.insert x a) v l r := by
  induction h with
  | root h =>
    refine .root ?_
    rw [HMap.get?_insert, if_neg]
    · exact h
    · rintro rfl; rw [hx] at h; cases h
  | step h hp _ ih =>
    refine .step (Eq.trans ?_ h) hp ih
    rw [HMap.get?_insert, if_neg]
    rintro rfl; rw [hx] at h; cases h

theorem Climb.get_root {C : Colours} {v r : ℕ} {l : List ℕ} (h : Climb C v l r) : C.get? r = some (true, r) := by
  induction h with
  | root h => exact h
  | step _ _ _ ih => exact ih

theorem Climb.getLast {C : Colours} {v r : ℕ} {l : List ℕ} (h : Climb C v l r) : (v :: l).getLast? = some r := by
  induction h with
  | root h => rfl
  | step _ _ _ ih => rw [List.getLast?_cons_cons]; exact ih

theorem Climb.ne_root {C : Colours} {v p r : ℕ} {l : List ℕ} (h : Climb C v (p :: l) r) : v ≠ r := by
  have h2 := h.get_root
  cases h with
  | step h hp t =>
    rintro rfl
    rw [h] at h2
    cases h2
    exact hp rfl

theorem Climb.climb {C : Colours} {v r : ℕ} {l : List ℕ} (h : Climb C v l r) :
    ∀ fuel, l.length < fuel → Bip.climb C fuel v = .ok l := by
  induction h with
  | root h =>
    rintro (_ | fuel) hf
    · simp at hf
    · unfold Bip.climb; simp [h]
  | step h hp _ ih =>
    rintro (_ | fuel) hf
    · simp at hf
    · unfold Bip.climb
      have := ih fuel (by simpa using hf)
      simp [h, hp, this]

theorem Climb.unique {C : Colours} {v r r' : ℕ} {l l' : List ℕ} (h : Climb C v l r) (h' : Climb C v l' r') :
    l = l' ∧ r = r' := by
  induction h generalizing l' with
  | root h =>
    cases h' with
    | root => exact ⟨rfl, rfl⟩
    | step h1 hp _ => rw [h] at h1; cases h1; exact absurd rfl hp
  | step h hp _ ih =>
    cases h' with
    | root h1 => rw [h] at h1; cases h1; exact absurd rfl hp
    | step h1 _ t' =>
      rw [h] at h1; cases h1
      obtain ⟨h2, h3⟩ := ih t'
      exact ⟨by rw [h2], h3⟩

/-- The path up from a vertex passed on the way. -/
theorem Climb.split {C : Colours} {v r x : ℕ} {l : List ℕ} (h : Climb C v l r) (hx : x ∈ v :: l) :
    ∃ a l', v :: l = a ++ x :: l' ∧ Climb C x l' r := by
  induction h with
  | root h => rw [List.mem_singleton] at hx; subst hx; exact ⟨[], [], rfl, .root h⟩
  | @step v p r c l h hp t ih =>
    rcases List.mem_cons.1 hx with rfl | hx
    · exact ⟨[], p :: l, rfl, .step h hp t⟩
    · obtain ⟨a, l', h1, h2⟩ := ih hx
      exact ⟨v :: a, l', by rw [h1]; rfl, h2⟩

theorem Climb.nodup {C : Colours} {v r : ℕ} {l : List ℕ} (h : Climb C v l r) : (v :: l).Nodup := by
  induction h with
  | root h => simp
  | @step v p r c l h hp t ih =>
    refine List.nodup_cons.2 ⟨fun hv => ?_, ih⟩
    obtain ⟨a, l', h1, h2⟩ := t.split hv
    have h3 := (Climb.step h hp t).unique h2
    have h4 := congrArg List.length h1
    rw [← h3.1] at h4
    simp only [List.length_cons, List.length_append] at h4
    omega

/-- `x` is `v` or lies on the path up from `v`. -/
def Above (C : Colours) (v x : ℕ) : Prop := ∃ l r, Climb C v l r ∧ x ∈ v :: l

theorem Above.insert {C : Colours} {v x y : ℕ} {a : Bool × ℕ} (h : Above C v x) (hy : C.get? y = none) :
    Above (C.insert y a) v x := by
  obtain ⟨l, r, h1, h2⟩ := h
  exact ⟨l, r, h1.insert hy, h2⟩

theorem Above.step {C : Colours} {v p x : ℕ} {c : Bool} (hv : C.get? v = some (c, p)) (hp : p ≠ v) (h : Above C p x) :
    Above C v x := by
  obtain ⟨l, r, h1, h2⟩ := h
  exact ⟨p :: l, r, .step hv hp h1, List.mem_cons_of_mem _ h2⟩

/-- What is known about every coloured vertex. -/
structure Info (S : SGraph) (C : Colours) (v : ℕ) (c : Bool) (r : ℕ) (l : List ℕ) : Prop where
  climb : Climb C v l r
  par : c = decide (l.length % 2 = 0)
  chain : (v :: l).IsChain S.Adj
  len : l.length < C.len

theorem Info.insert {C : Colours} {v r x : ℕ} {c : Bool} {l : List ℕ} {a : Bool × ℕ} (h : Info S C v c r l)
    (hx : C.get? x = none) : Info S (C.insert x a) v c r l :=
  ⟨h.climb.insert hx, h.par, h.chain, by rw [HMap.len_insert_new hx]; exact Nat.lt_succ_of_lt h.len⟩

/-- A conflict from which the witness is built. -/
structure Conf (S : SGraph) (C : Colours) (p v q : ℕ) : Prop where
  adj : S.Adj p v
  ex : ∃ c r lp lv, Info S C p c r lp ∧ Info S C v c r lv ∧ C.get? v = some (c, q)
  above : Above C p v

theorem Conf.witness {C : Colours} {p v q : ℕ} (h : Conf S C p v q) :
    Ok (Bip.witness C p v q) (fun c => ∃ a t l r, S.Lasso c v a t ∧ Climb C p l r ∧ p :: l = a ++ v :: t) := by
  obtain ⟨hadj, ⟨c, r, lp, lv, hp, hv, hq⟩, habove⟩ := h
  obtain ⟨lp', r', hcp, hvp⟩ := habove
  obtain ⟨e1, e2⟩ := hp.climb.unique hcp
  subst e1; subst e2
  obtain ⟨a, lv', hA, hcv⟩ := hp.climb.split hvp
  obtain ⟨e1, -⟩ := hv.climb.unique hcv
  subst e1
  have hnd := hp.climb.nodup
  have hchp := hp.chain
  rw [hA] at hnd hchp
  have hlen := congrArg List.length hA
  simp only [List.length_cons, List.length_append] at hlen
  have hodd : (v :: a).length % 2 = 1 := by
    have h1 := hp.par
    rw [hv.par, decide_eq_decide] at h1
    rw [List.length_cons]; omega
  have hch1 : (v :: a ++ [v]).IsChain S.Adj := by
    have h1 : (v :: p :: lp).IsChain S.Adj := List.isChain_cons_cons.2 ⟨hadj.symm, hp.chain⟩
    rw [hA, ← List.cons_append, show v :: lv = [v] ++ lv from rfl, ← List.append_assoc] at h1
    exact h1.left_of_append
  have hcw : S.ClosedWalk (v :: a) := by
    refine ⟨by simp, hch1.left_of_append, ?_⟩
    intro x hx y hy
    simp only [List.head?_cons, Option.mem_def, Option.some.injEq] at hx
    subst hx
    exact (List.isChain_append.1 hch1).2.2 y hy v (by simp)
  have hchv : (v :: lv).IsChain S.Adj := hv.chain
  have hnd' : (v :: a ++ lv).Nodup := by
    refine List.Nodup.of_append_left (l₂ := []) ?_
    rw [List.append_nil]
    exact (List.perm_middle (a := v) (l₁ := a) (l₂ := lv)).nodup_iff.1 hnd
  unfold Bip.witness
  rw [hp.climb.climb _ (by have := hp.len; omega)]
  simp only [bind_ok]
  rw [hA]
  have hl1 : (v :: (a ++ v :: lv)).getLast? = some r := by
    rw [← hA, List.getLast?_cons_cons]; exact hp.climb.getLast
  have hcl := hv.climb
  cases hcl with
  | root h =>
    rw [h] at hq
    cases hq
    rw [hv.climb.climb _ (by simp)]
    simp only [bind_ok, hl1]
    have : assertR ((some v : Option ℕ) == [v].getLast?) = .ok () := by simp [assertR]
    rw [this]
    simp only [bind_ok]
    have hcl : closed (v :: (a ++ [v])) = true := by
      unfold closed; rw [hl1]; simp
    rw [if_pos hcl]
    refine Ok.pure ⟨a, [], _, _, ⟨?_, hodd, hcw, hnd', hchv⟩, hp.climb, hA⟩
    rw [if_pos rfl, List.append_nil, ← List.cons_append, List.dropLast_concat]
  | @step _ p' _ c' l h hne t =>
    rw [h] at hq
    cases hq
    have hlv := hv.len
    simp only [List.length_cons] at hlv
    rw [t.climb _ (by omega)]
    simp only [bind_ok, hl1, t.getLast]
    have : assertR ((some r : Option ℕ) == some r) = .ok () := by simp [assertR]
    rw [this]
    simp only [bind_ok]
    have hn1 : ¬ closed (v :: (a ++ v :: q :: l)) = true := by
      unfold closed; rw [hl1]; simp [hv.climb.ne_root]
    have hn2 : ¬ closed (q :: l) = true := by
      unfold closed; rw [t.getLast]
      cases l with
      | nil => simp
      | cons y l => simp [t.ne_root]
    rw [if_neg hn1, if_neg hn2]
    refine Ok.pure ⟨a, q :: l, _, _, ⟨?_, hodd, hcw, hnd', hchv⟩, hp.climb, hA⟩
    rw [if_neg (by simp)]
    simp

theorem lasso_closedWalk {c : List ℕ} {v : ℕ} {a t : List ℕ} (h : S.Lasso c v a t) : S.ClosedWalk c ∧ c.length % 2 = 1 := by
  obtain ⟨hc, hodd, hcw, -, hch⟩ := h
  by_cases ht : t = []
  · rw [if_pos ht, List.append_nil] at hc
    subst hc; exact ⟨hcw, hodd⟩
  · rw [if_neg ht] at hc
    obtain ⟨y, r, rfl⟩ : ∃ y r, t = y ++ [r] := ⟨t.dropLast, t.getLast ht, (List.dropLast_append_getLast ht).symm⟩
    rw [List.dropLast_concat] at hc
    have hlast : S.Adj ((v :: a).getLast (by simp)) v := hcw.2.2 v rfl _ (List.getLast?_eq_some_getLast (by simp))
    have hrev : (r :: y.reverse).IsChain S.Adj := by
      have h1 : (y ++ [r]).reverse.IsChain S.Adj := by
        rw [List.isChain_reverse]
        exact hch.tail.imp fun a b h => h.symm
      simpa using h1
    have hwalk : (v :: (y ++ [r]) ++ y.reverse).IsChain S.Adj := by
      have h1 : ((v :: y) ++ [r]).IsChain S.Adj := by simpa using hch
      have := h1.append_overlap (l₃ := y.reverse) (by simpa using hrev) (by simp)
      simpa using this
    subst hc
    refine ⟨⟨by simp, ?_, ?_⟩, ?_⟩
    · refine List.isChain_append.2 ⟨hcw.2.1, hwalk, ?_⟩
      intro x hx z hz
      simp only [List.cons_append, List.head?_cons, Option.mem_def, Option.some.injEq] at hz
      subst hz
      exact hcw.2.2 v rfl x hx
    · intro x hx z hz
      simp only [List.cons_append, List.head?_cons, Option.mem_def, Option.some.injEq] at hx
      subst hx
      cases y with
      | nil =>
        have hz' : z = r := by
          rw [List.nil_append, List.reverse_nil, List.append_nil, show v :: a ++ [v, r] = (v :: a ++ [v]) ++ [r] by simp,
            List.getLast?_concat] at hz
          simpa using hz.symm
        subst hz'
        exact (List.isChain_cons_cons.1 hch).1.symm
      | cons b y =>
        have hz' : z = b := by
          rw [List.reverse_cons, ← List.append_assoc, ← List.append_assoc, List.getLast?_concat] at hz
          simpa using hz.symm
        subst hz'
        exact (List.isChain_cons_cons.1 hch).1.symm
    · simp only [List.length_append, List.length_cons, List.length_reverse, List.length_nil] at hodd ⊢
      omega

/-- Along a chain of edges a proper 2-colouring alternates. -/
theorem alternate {f : ℕ → Bool} (hf : ∀ u v, S.Adj u v → f u ≠ f v) : ∀ (l : List ℕ) (x : ℕ), (x :: l).IsChain S.Adj →
    ∀ y ∈ (x :: l).getLast?, f y = (f x == decide (l.length % 2 = 0))
  | [], x, _, y, hy => by
    simp only [List.getLast?_singleton, Option.mem_def, Option.some.injEq] at hy
    subst hy; simp
  | z :: l, x, h, y, hy => by
    have h1 := alternate hf l z h.tail y (by rwa [List.getLast?_cons_cons] at hy)
    have h2 := hf x z h.rel
    rw [h1, List.length_cons]
    have h3 : f z = !f x := by cases hz : f z <;> cases hx : f x <;> simp_all
    rw [h3]
    rcases Nat.mod_two_eq_zero_or_one l.length with h4 | h4
    · have h5 : (l.length + 1) % 2 = 1 := by omega
      simp [h4, h5]
    · have h5 : (l.length + 1) % 2 = 0 := by omega
      simp [h4, h5]

theorem not_twoColourable {c : List ℕ} (h : S.ClosedWalk c) (hodd : c.length % 2 = 1) : ¬ S.TwoColourable := by
  rintro ⟨f, hf⟩
  obtain ⟨hne, hch, hcl⟩ := h
  obtain ⟨x, l, rfl⟩ := List.exists_cons_of_ne_nil hne
  obtain ⟨y, hy⟩ : ∃ y, (x :: l).getLast? = some y := ⟨_, List.getLast?_eq_some_getLast hne⟩
  have h1 := alternate hf l x hch y (by rw [hy]; rfl)
  have h2 := hf y x (hcl x (by simp) y (by rw [hy]; rfl))
  rw [List.length_cons] at hodd
  have : l.length % 2 = 0 := by omega
  rw [this] at h1
  simp at h1
  exact h2 h1

/-- Invariant of the inner loop: `O` are the vertices coloured before, `r` is the current root, `Q` holds for all roots. -/
structure Inv (S : SGraph) (Q O : ℕ → Prop) (r : ℕ) (stack : List (Bool × ℕ × ℕ)) (s : State) : Prop where
  cnone : s.conflict = none
  keys : ∀ v a, s.colours.get? v = some a → v ∈ S.V
  info : ∀ v c p, s.colours.get? v = some (c, p) → ∃ r' l, Info S s.colours v c r' l ∧ (¬ O v → r' = r) ∧ Q r'
  old : ∀ v, O v → s.colours.get? v ≠ none
  closed : ∀ v w, O v → S.Adj v w → O w
  adj : ∀ v c p w, s.colours.get? v = some (c, p) → S.Adj v w →
    (∃ q, s.colours.get? w = some (!c, q)) ∨ (!c, w, v) ∈ stack
  stk : ∀ c v p, (c, v, p) ∈ stack → v ∈ S.V ∧
    ((∃ q, s.colours.get? p = some (!c, q) ∧ S.Adj p v ∧ ¬ O p) ∨
      (c = true ∧ v = r ∧ p = r ∧ s.colours.get? r = none ∧ stack = [(true, r, r)]))
  root : s.colours.get? r ≠ none ∨ stack = [(true, r, r)]
  unp : ∀ v, v ∈ s.unprocessed → s.colours.get? v = none ∧ v ∈ S.V ∧ v ≠ r
  proc : ∀ v ∈ S.V, ¬ v ∈ s.unprocessed → s.colours.get? v ≠ none ∨ v = r
  nest : stack.Pairwise (fun e f => Above s.colours e.2.2 f.2.2)
  back : ∀ pre c x w post, stack = pre ++ (c, x, w) :: post → ∀ q, s.colours.get? x = some (!c, q) →
    Above s.colours w x ∨ (c, w, x) ∈ pre

theorem colourLoop_spec {G : Graph} (H : G.Sees S) {Q O : ℕ → Prop} {r : ℕ} (hQ : Q r) : ∀ (fuel : ℕ) (stack : List (Bool × ℕ × ℕ))
    (s : State), Inv S Q O r stack s → stack.length + (S.V.card - s.colours.len) * (2 * S.V.card) < fuel →
    Ok (colourLoop G fuel stack s) (fun t => (∀ v, v ∈ t.unprocessed → v ∈ s.unprocessed) ∧
      (Inv S Q O r [] t ∨ ∃ p v q, t.conflict = some (p, v, q) ∧ Conf S t.colours p v q))
  | 0, _, _, _, hf => absurd hf (by omega)
  | fuel + 1, [], s, I, hf => by
    unfold colourLoop
    exact Ok.pure ⟨fun _ h => h, Or.inl I⟩
  | fuel + 1, (c, v, p) :: stack, s, I, hf => by
    unfold colourLoop
    obtain ⟨hvV, hstk⟩ := I.stk c v p (by simp)
    cases hv : s.colours.get? v with
    | some a =>
      obtain ⟨cc, q⟩ := a
      simp only
      have hleft : ∃ q, s.colours.get? p = some (!c, q) ∧ S.Adj p v ∧ ¬ O p := by
        refine hstk.resolve_right ?_
        rintro ⟨-, rfl, -, h, -⟩; rw [hv] at h; cases h
      obtain ⟨q', hp, hpv, hOp⟩ := hleft
      by_cases hcc : cc = c
      · subst hcc
        rw [if_neg (by simp)]
        refine Ok.mono (colourLoop_spec H (O := O) (r := r) hQ fuel stack _ ?_ ?_) ?_
        · refine ⟨I.cnone, I.keys, I.info, I.old, I.closed, ?_, ?_, ?_, ?_, ?_, (List.pairwise_cons.1 I.nest).2, ?_⟩
          · intro v' c' p' w h1 h2
            rcases I.adj v' c' p' w h1 h2 with h | h
            · exact Or.inl h
            · rcases List.mem_cons.1 h with h | h
              · rw [Prod.mk.injEq, Prod.mk.injEq] at h
                obtain ⟨h3, rfl, -⟩ := h
                exact Or.inl ⟨q, by rw [h3]; exact hv⟩
              · exact Or.inr h
          · intro c' v' p' h
            obtain ⟨h1, h2⟩ := I.stk c' v' p' (List.mem_cons_of_mem _ h)
            refine ⟨h1, Or.inl (h2.resolve_right ?_)⟩
            rintro ⟨-, -, -, -, h3⟩
            rw [(List.cons.inj h3).2] at h; cases h
          · left
            rcases I.root with h | h
            · exact h
            · have := (List.cons.inj h).1
              rw [Prod.mk.injEq, Prod.mk.injEq] at this
              rw [← this.2.1, hv]; simp
          · intro w hw
            simp only [HSet.mem_remove] at hw
            exact I.unp w hw.1
          · intro w hw hw'
            simp only [HSet.mem_remove, not_and, not_not] at hw'
            by_cases h : w ∈ s.unprocessed
            · rw [hw' h, hv]; simp
            · exact I.proc w hw h
          · intro pre c' x w post he q'' hx
            refine (I.back ((cc, v, p) :: pre) c' x w post (by rw [he]; rfl) q'' hx).imp_right fun h => ?_
            refine (List.mem_cons.1 h).resolve_left fun h => ?_
            rw [Prod.mk.injEq, Prod.mk.injEq] at h
            obtain ⟨rfl, rfl, rfl⟩ := h
            rw [hp] at hx
            obtain ⟨-, h2⟩ := I.stk c' x w (by rw [he]; simp)
            rcases h2 with ⟨q2, h3, -, -⟩ | ⟨-, -, -, -, h3⟩
            · rw [hv] at h3
              cases c' <;> simp at h3
            · have := congrArg List.length h3
              rw [he] at this; simp at this
        · simp only [List.length_cons] at hf ⊢; omega
        · rintro t ⟨h1, h2⟩
          refine ⟨fun w hw => ?_, h2⟩
          have := h1 w hw
          simp only [HSet.mem_remove] at this
          exact this.1
      · rw [if_pos (by simpa using hcc)]
        have hcc' : cc = !c := by cases cc <;> cases c <;> simp_all
        subst hcc'
        refine Ok.pure ⟨fun _ h => h, Or.inr ⟨p, v, q, rfl, hpv, ?_, (I.back [] c v p stack rfl q hv).resolve_right (by simp)⟩⟩
        have hOv : ¬ O v := fun h => hOp (I.closed v p h hpv.symm)
        obtain ⟨r1, l1, hi1, hr1, -⟩ := I.info p _ _ hp
        obtain ⟨r2, l2, hi2, hr2, -⟩ := I.info v _ _ hv
        have hr1 := hr1 hOp
        have hr2 := hr2 hOv
        subst hr1; subst hr2
        exact ⟨!c, _, l1, l2, hi1, hi2, hv⟩
    | none =>
      simp only
      obtain ⟨N, hN, hNm⟩ := H.nbrs v hvV
      simp only [hN, bind_ok]
      have hOv : ¬ O v := fun h => I.old v h hv
      have hlen : s.colours.len < S.V.card := by
        have h1 : s.colours.keys.toFinset ⊆ S.V.erase v := by
          intro x hx
          rw [List.mem_toFinset, HMap.mem_keys_iff] at hx
          obtain ⟨a, ha⟩ := hx
          refine Finset.mem_erase.2 ⟨?_, I.keys x a ha⟩
          rintro rfl; rw [hv] at ha; cases ha
        have h2 := Finset.card_le_card h1
        rw [List.toFinset_card_of_nodup HMap.keys_nodup, ← HMap.len_eq_length_keys,
          Finset.card_erase_of_mem hvV] at h2
        have := Finset.card_pos.2 ⟨v, hvV⟩
        omega
      have hNlen : N.length ≤ 2 * S.V.card := H.short v hvV N hN
      have hget : ∀ x, (s.colours.insert v (c, p)).get? x = if x = v then some (c, p) else s.colours.get? x :=
        fun x => HMap.get?_insert
      have hold : ∀ x a, s.colours.get? x = some a → (s.colours.insert v (c, p)).get? x = some a := by
        intro x a hx
        rw [hget, if_neg]
        · exact hx
        · rintro rfl; rw [hv] at hx; cases hx
      refine Ok.mono (colourLoop_spec H (O := O) (r := r) hQ fuel _ _ ?_ ?_) ?_
      · have hnest := List.pairwise_cons.1 I.nest
        have hself : Above (s.colours.insert v (c, p)) v v ∧ ∀ e ∈ stack, Above (s.colours.insert v (c, p)) v e.2.2 := by
          have hg : (s.colours.insert v (c, p)).get? v = some (c, p) := by rw [hget, if_pos rfl]
          rcases hstk with ⟨q, hp, hpv, hOp⟩ | ⟨hct, hvr, hpr, -, hs⟩
          · have hpx : p ≠ v := by rintro rfl; rw [hv] at hp; cases hp
            obtain ⟨r', l, hi, -⟩ := I.info p _ _ hp
            exact ⟨⟨p :: l, r', .step hg hpx (hi.climb.insert hv), by simp⟩, fun e he => ((hnest.1 e he).insert hv).step hg hpx⟩
          · rw [(List.cons.inj hs).2]
            rw [hct, hpr, ← hvr] at hg ⊢
            exact ⟨⟨[], v, .root hg, by simp⟩, by simp⟩
        refine ⟨I.cnone, ?_, ?_, ?_, I.closed, ?_, ?_, ?_, ?_, ?_, ?_, ?_⟩
        · intro x a hx
          simp only [hget] at hx
          by_cases hxv : x = v
          · rw [hxv]; exact hvV
          · rw [if_neg hxv] at hx; exact I.keys x a hx
        · intro x c' p' hx
          simp only [hget] at hx
          by_cases hxv : x = v
          · subst hxv
            rw [if_pos rfl] at hx
            cases hx
            rcases hstk with ⟨q, hp, hpv, hOp⟩ | ⟨rfl, hxr, hpr, -, -⟩
            · obtain ⟨r', l, hi, hr, -⟩ := I.info p _ _ hp
              have hr := hr hOp
              subst hr
              have hpx : p ≠ x := by rintro rfl; rw [hv] at hp; cases hp
              have hi' := hi.insert (a := (c, p)) hv
              refine ⟨_, p :: l, ⟨.step (by rw [hget, if_pos rfl]) hpx hi'.climb, ?_, ?_, ?_⟩, fun _ => rfl, hQ⟩
              · have := hi.par
                rw [List.length_cons]
                rcases Nat.mod_two_eq_zero_or_one l.length with h4 | h4
                · have h5 : (l.length + 1) % 2 = 1 := by omega
                  rw [h4] at this; rw [h5]; simpa using this
                · have h5 : (l.length + 1) % 2 = 0 := by omega
                  rw [h4] at this; rw [h5]; simpa using this
              · exact List.isChain_cons_cons.2 ⟨hpv.symm, hi.chain⟩
              · rw [HMap.len_insert_new hv, List.length_cons]
                have := hi.len; omega
            · subst hxr; subst hpr
              refine ⟨_, [], ⟨.root (by rw [hget, if_pos rfl]), by simp, by simp, ?_⟩, fun _ => rfl, hQ⟩
              rw [HMap.len_insert_new hv]; simp
          · rw [if_neg hxv] at hx
            obtain ⟨r', l, hi, hr⟩ := I.info x c' p' hx
            exact ⟨r', l, hi.insert hv, hr⟩
        · intro x hx
          obtain ⟨a, ha⟩ := Option.ne_none_iff_exists'.1 (I.old x hx)
          simp only [hold x a ha]; simp
        · intro x c' p' w hx hw
          simp only [hget] at hx
          by_cases hxv : x = v
          · subst hxv
            rw [if_pos rfl] at hx
            cases hx
            right
            simp only [List.mem_append, List.mem_reverse, List.mem_map]
            exact Or.inl ⟨w, (hNm w).2 hw, rfl⟩
          · rw [if_neg hxv] at hx
            rcases I.adj x c' p' w hx hw with ⟨q, h⟩ | h
            · exact Or.inl ⟨q, hold _ _ h⟩
            · rcases List.mem_cons.1 h with h | h
              · rw [Prod.mk.injEq, Prod.mk.injEq] at h
                obtain ⟨h3, rfl, -⟩ := h
                exact Or.inl ⟨p, by rw [hget, if_pos rfl, h3]⟩
              · exact Or.inr (List.mem_append_right _ h)
        · intro c' v' p' h
          simp only [List.mem_append, List.mem_reverse, List.mem_map] at h
          rcases h with ⟨u, hu, he⟩ | h
          · rw [Prod.mk.injEq, Prod.mk.injEq] at he
            obtain ⟨rfl, rfl, rfl⟩ := he
            have hadj := (hNm u).1 hu
            exact ⟨hadj.right, Or.inl ⟨p, by simp only [hget]; simp, hadj, hOv⟩⟩
          · obtain ⟨h1, h2⟩ := I.stk c' v' p' (List.mem_cons_of_mem _ h)
            refine ⟨h1, Or.inl ?_⟩
            rcases h2 with ⟨q, h3, h4, h5⟩ | ⟨-, -, -, -, h3⟩
            · exact ⟨q, hold _ _ h3, h4, h5⟩
            · rw [(List.cons.inj h3).2] at h; cases h
        · left
          simp only [hget]
          rcases I.root with h | h
          · split
            · simp
            · exact h
          · have := (List.cons.inj h).1
            rw [Prod.mk.injEq, Prod.mk.injEq] at this
            rw [if_pos this.2.1.symm]; simp
        · intro w hw
          simp only [HSet.mem_remove] at hw
          simp only [hget, if_neg hw.2]
          exact I.unp w hw.1
        · intro w hw hw'
          simp only [HSet.mem_remove, not_and, not_not] at hw'
          simp only [hget]
          by_cases hwv : w = v
          · simp [hwv]
          · rw [if_neg hwv]
            exact I.proc w hw fun h => hwv (hw' h)
        · refine List.pairwise_append.2 ⟨?_, hnest.2.imp fun h => h.insert hv, ?_⟩
          · rw [List.pairwise_reverse, List.pairwise_map]
            exact List.pairwise_of_forall fun _ _ => hself.1
          · intro e he f hf'
            simp only [List.mem_reverse, List.mem_map] at he
            obtain ⟨u, -, rfl⟩ := he
            exact hself.2 f hf'
        · intro pre c' x w post he q' hx
          simp only [hget] at hx
          have hcase : (∃ as, pre = (N.map (fun u => (!c, u, v))).reverse ++ as ∧ stack = as ++ (c', x, w) :: post) ∨
              (c', x, w) ∈ (N.map (fun u => (!c, u, v))).reverse := by
            rcases List.append_eq_append_iff.1 he with ⟨as, h1, h2⟩ | ⟨_ | ⟨b, bs⟩, h1, h2⟩
            · exact Or.inl ⟨as, h1, h2⟩
            · exact Or.inl ⟨[], by rw [h1]; simp, by simpa using h2.symm⟩
            · right
              rw [h1, (List.cons.inj h2).1]; simp
          rcases hcase with ⟨as, h1, h2⟩ | hnew
          · have hst : (c', x, w) ∈ stack := by rw [h2]; simp
            obtain ⟨-, h3⟩ := I.stk c' x w (List.mem_cons_of_mem _ hst)
            have h3 := h3.resolve_right (by rintro ⟨-, -, -, -, h3⟩; rw [(List.cons.inj h3).2] at hst; cases hst)
            obtain ⟨q3, h4, h5, -⟩ := h3
            by_cases hxv : x = v
            · subst hxv
              rw [if_pos rfl] at hx
              right
              rw [h1, List.mem_append, List.mem_reverse, List.mem_map]
              refine Or.inl ⟨w, (hNm w).2 h5.symm, ?_⟩
              have : c = !c' := by simpa using congrArg (fun o => o.map Prod.fst) hx
              rw [this, Bool.not_not]
            · rw [if_neg hxv] at hx
              rcases I.back ((c, v, p) :: as) c' x w post (by rw [h2]; rfl) q' hx with h6 | h6
              · exact Or.inl (h6.insert hv)
              · right
                rw [h1, List.mem_append]
                refine Or.inr ((List.mem_cons.1 h6).resolve_left fun h => ?_)
                rw [Prod.mk.injEq, Prod.mk.injEq] at h
                rw [h.2.1, hv] at h4; cases h4
          · left
            simp only [List.mem_reverse, List.mem_map, Prod.mk.injEq] at hnew
            obtain ⟨u, hu, hcc, rfl, rfl⟩ := hnew
            by_cases hxv : u = v
            · rw [hxv]; exact hself.1
            · rw [if_neg hxv] at hx
              rcases I.adj u (!c') q' v hx ((hNm u).1 hu).symm with ⟨q2, h⟩ | h
              · rw [hv] at h; cases h
              · rcases List.mem_cons.1 h with h | h
                · rw [Prod.mk.injEq, Bool.not_not] at h
                  rw [h.1] at hcc; cases c <;> cases hcc
                · exact hself.2 _ h
      · simp only [List.length_append, List.length_reverse, List.length_map, List.length_cons] at hf ⊢
        rw [HMap.len_insert_new hv]
        obtain ⟨k, hk⟩ : ∃ k, S.V.card - s.colours.len = k + 1 := ⟨S.V.card - s.colours.len - 1, by omega⟩
        rw [hk, Nat.add_mul, Nat.one_mul] at hf
        rw [show S.V.card - (s.colours.len + 1) = k by omega]
        omega
      · rintro t ⟨h1, h2⟩
        refine ⟨fun w hw => ?_, h2⟩
        have := h1 w hw
        simp only [HSet.mem_remove] at this
        exact this.1

/-- Invariant of the outer loop. -/
structure OInv (S : SGraph) (Q : ℕ → Prop) (s : State) : Prop where
  cnone : s.conflict = none
  keys : ∀ v a, s.colours.get? v = some a → v ∈ S.V
  info : ∀ v c p, s.colours.get? v = some (c, p) → ∃ r' l, Info S s.colours v c r' l ∧ Q r'
  adj : ∀ v c p w, s.colours.get? v = some (c, p) → S.Adj v w → ∃ q, s.colours.get? w = some (!c, q)
  unp : ∀ v, v ∈ s.unprocessed → s.colours.get? v = none ∧ v ∈ S.V
  proc : ∀ v ∈ S.V, ¬ v ∈ s.unprocessed → s.colours.get? v ≠ none

theorem outerLoop_spec {G : Graph} (H : G.Sees S) (σ : ℕ → Shuffle Vertex) {Q : ℕ → Prop}
    (hQ : ∀ s n r rest, OInv S Q s → (σ n).run s.unprocessed.toList = r :: rest → Q r) : ∀ (fuel : ℕ) (s : State),
    s.unprocessed.len < fuel →
    (OInv S Q s ∨ ∃ p v q, s.conflict = some (p, v, q) ∧ Conf S s.colours p v q) →
    Ok (outerLoop σ G fuel s) (fun t => (OInv S Q t ∧ t.unprocessed.toList = []) ∨
      ∃ p v q, t.conflict = some (p, v, q) ∧ Conf S t.colours p v q)
  | 0, _, hf, _ => absurd hf (by omega)
  | fuel + 1, s, hf, I => by
    unfold outerLoop
    rcases I with I | ⟨p, v, q, hc, hC⟩
    · cases hu : (σ fuel).run s.unprocessed.toList with
      | nil =>
        simp only
        refine Ok.pure (Or.inl ⟨I, ?_⟩)
        have := ((σ fuel).perm s.unprocessed.toList).length_eq
        rw [hu] at this
        exact List.length_eq_zero_iff.1 this.symm
      | cons r rest =>
        have hr : r ∈ s.unprocessed := by
          rw [← HSet.mem_toList, ← (σ fuel).mem, hu]; simp
        obtain ⟨hrn, hrV⟩ := I.unp r hr
        rw [I.cnone]
        simp only
        refine Ok.bind (colourLoop_spec H (O := fun v => s.colours.get? v ≠ none) (r := r) (hQ s fuel r rest I hu) _ [(true, r, r)]
          { s with unprocessed := s.unprocessed.remove r, conflict := none } ?_ ?_) ?_
        · refine ⟨rfl, I.keys, ?_, fun v hv => hv, ?_, ?_, ?_, Or.inr rfl, ?_, ?_, List.pairwise_singleton _ _, ?_⟩
          · intro v c p hv
            obtain ⟨r', l, hi, hr'⟩ := I.info v c p hv
            exact ⟨r', l, hi, fun h => absurd (show s.colours.get? v ≠ none by rw [hv]; simp) h, hr'⟩
          · intro v w hv hvw
            obtain ⟨⟨c, p⟩, ha⟩ := Option.ne_none_iff_exists'.1 hv
            obtain ⟨q, hq⟩ := I.adj v c p w ha hvw
            rw [hq]; simp
          · intro v c p w hv hvw; exact Or.inl (I.adj v c p w hv hvw)
          · intro c v p h
            simp only [List.mem_singleton, Prod.mk.injEq] at h
            obtain ⟨rfl, rfl, rfl⟩ := h
            exact ⟨hrV, Or.inr ⟨rfl, rfl, rfl, hrn, rfl⟩⟩
          · intro v hv
            simp only [HSet.mem_remove] at hv
            exact ⟨(I.unp v hv.1).1, (I.unp v hv.1).2, hv.2⟩
          · intro v hv hv'
            simp only [HSet.mem_remove, not_and, not_not] at hv'
            by_cases h : v ∈ s.unprocessed
            · exact Or.inr (hv' h)
            · exact Or.inl (I.proc v hv h)
          · intro pre c x w post he q hx
            have hmem : (c, x, w) ∈ [(true, r, r)] := by rw [he]; simp
            simp only [List.mem_singleton, Prod.mk.injEq] at hmem
            rw [hmem.2.1, hrn] at hx; cases hx
        · simp only [List.length_singleton, H.nv]
          have : (S.V.card - s.colours.len) * (2 * S.V.card) ≤ S.V.card * (2 * S.V.card) := Nat.mul_le_mul_right _ (by omega)
          omega
        · rintro t ⟨h1, h2⟩
          have hlen : t.unprocessed.len < fuel := by
            have h3 : t.unprocessed.toFinset ⊆ s.unprocessed.toFinset.erase r := by
              intro x hx
              have := h1 x hx
              simp only [HSet.mem_remove] at this
              exact Finset.mem_erase.2 ⟨this.2, this.1⟩
            have h4 := Finset.card_le_card h3
            rw [Finset.card_erase_of_mem (HSet.mem_toFinset.2 hr), ← HSet.len_eq_card, ← HSet.len_eq_card] at h4
            have h5 : 0 < s.unprocessed.len := by
              rw [HSet.len_eq_card]; exact Finset.card_pos.2 ⟨r, hr⟩
            omega
          refine outerLoop_spec H σ hQ fuel t hlen ?_
          refine h2.imp_left fun J => ⟨J.cnone, J.keys, ?_, ?_, ?_, ?_⟩
          · intro v c p hv
            obtain ⟨r', l, hi, -, hr'⟩ := J.info v c p hv
            exact ⟨r', l, hi, hr'⟩
          · intro v c p w hv hvw
            exact (J.adj v c p w hv hvw).resolve_right (by simp)
          · intro v hv; exact ⟨(J.unp v hv).1, (J.unp v hv).2.1⟩
          · intro v hv hv'
            rcases J.proc v hv hv' with h | rfl
            · exact h
            · exact J.root.resolve_right (by simp)
    · rw [hc]
      cases (σ fuel).run s.unprocessed.toList with
      | nil => exact Ok.pure (Or.inr ⟨p, v, q, hc, hC⟩)
      | cons _ _ => exact Ok.pure (Or.inr ⟨p, v, q, hc, hC⟩)

end Bip

open Bip in
theorem Graph.Sees.isBipartite_roots {G : Graph} {S : SGraph} (H : G.Sees S) (σ : ℕ → Shuffle Vertex)
    (τ : Shuffle (Vertex × (Bool × Vertex))) {Q : ℕ → Prop}
    (hQ : ∀ s n r rest, OInv S Q s → (σ n).run s.unprocessed.toList = r :: rest → Q r) :
    (∃ L R, G.isBipartite σ τ = .ok (.bipartition L R) ∧ (∀ v, v ∈ S.V ↔ v ∈ L ∨ v ∈ R) ∧
      (∀ v, ¬ (v ∈ L ∧ v ∈ R)) ∧ (∀ u v, S.Adj u v → (u ∈ L ↔ v ∈ R)) ∧
      ∀ v ∈ S.V, ∃ r l, Q r ∧ (v :: l).IsChain S.Adj ∧ (v :: l).getLast? = some r ∧ (v ∈ L ↔ l.length % 2 = 0)) ∨
    (∃ c v a t, G.isBipartite σ τ = .ok (.oddCycle c) ∧ S.Lasso c v a t) := by
  unfold Graph.isBipartite
  have h0 : OInv S Q ⟨HSet.ofList G.vertices, ∅, none⟩ := by
    refine ⟨rfl, by simp, by simp, by simp, ?_, ?_⟩
    · intro v hv
      simp only [HSet.mem_ofList] at hv
      exact ⟨by simp, (H.vmem v).1 hv⟩
    · intro v hv hv'
      simp only [HSet.mem_ofList] at hv'
      exact absurd ((H.vmem v).2 hv) hv'
  obtain ⟨s, hs, h⟩ := outerLoop_spec H σ hQ (G.numVertices + 1) ⟨HSet.ofList G.vertices, ∅, none⟩
    (by
      have := HSet.len_of_mem_iff (s := HSet.ofList G.vertices) (T := S.V) (fun a => by simp [H.vmem])
      simp only [this, H.nv]; omega) (Or.inl h0)
  rw [hs]
  simp only [bind_ok]
  rcases h with ⟨I, hu⟩ | ⟨p, v, q, hc, hC⟩
  · left
    rw [I.cnone]
    simp only
    set r := (τ.run s.colours.entries).foldl (fun (r : HSet ℕ × HSet ℕ) e =>
      if e.2.1 then (r.1.insert e.1, r.2) else (r.1, r.2.insert e.1)) (∅, ∅) with hr
    have key : (∀ v, v ∈ r.1 ↔ ∃ p, (v, (true, p)) ∈ τ.run s.colours.entries) ∧
        (∀ v, v ∈ r.2 ↔ ∃ p, (v, (false, p)) ∈ τ.run s.colours.entries) := by
      rw [hr]
      refine foldl_inv (fun pre (r : HSet ℕ × HSet ℕ) => (∀ v, v ∈ r.1 ↔ ∃ p, (v, (true, p)) ∈ pre) ∧
        (∀ v, v ∈ r.2 ↔ ∃ p, (v, (false, p)) ∈ pre)) (by simp) ?_
      rintro pre ⟨w, c, p⟩ post b - ⟨h1, h2⟩
      cases c
      · simp only [Bool.false_eq_true, if_false, HSet.mem_insert, h1, h2, List.mem_append, List.mem_singleton,
          Prod.mk.injEq]
        refine ⟨fun v => by simp, fun v => ?_⟩
        constructor
        · rintro (rfl | ⟨p', h⟩)
          · exact ⟨p, by simp⟩
          · exact ⟨p', Or.inl h⟩
        · rintro ⟨p', h | h⟩
          · exact Or.inr ⟨p', h⟩
          · exact Or.inl h.1
      · simp only [if_true, HSet.mem_insert, h1, h2, List.mem_append, List.mem_singleton,
          Prod.mk.injEq]
        refine ⟨fun v => ?_, fun v => by simp⟩
        constructor
        · rintro (rfl | ⟨p', h⟩)
          · exact ⟨p, by simp⟩
          · exact ⟨p', Or.inl h⟩
        · rintro ⟨p', h | h⟩
          · exact Or.inr ⟨p', h⟩
          · exact Or.inl h.1
    simp only [Shuffle.mem, ← HMap.get?_eq_some] at key
    obtain ⟨k1, k2⟩ := key
    refine ⟨r.1, r.2, rfl, fun v => ?_, fun v => ?_, fun u v huv => ?_, fun v hv => ?_⟩
    · rw [k1, k2]
      constructor
      · intro hv
        obtain ⟨⟨c, p⟩, ha⟩ := Option.ne_none_iff_exists'.1 (I.proc v hv (by rw [HSet.mem_def, hu]; simp))
        cases c
        · exact Or.inr ⟨p, ha⟩
        · exact Or.inl ⟨p, ha⟩
      · rintro (⟨p, h⟩ | ⟨p, h⟩) <;> exact I.keys v _ h
    · rw [k1, k2]
      rintro ⟨⟨p, h⟩, ⟨p', h'⟩⟩
      rw [h] at h'; cases h'
    · rw [k1, k2]
      constructor
      · rintro ⟨p, h⟩; exact I.adj u true p v h huv
      · rintro ⟨p, h⟩; exact I.adj v false p u h huv.symm
    · obtain ⟨⟨c, p⟩, ha⟩ := Option.ne_none_iff_exists'.1 (I.proc v hv (by rw [HSet.mem_def, hu]; simp))
      obtain ⟨r', l, hi, hr'⟩ := I.info v c p ha
      refine ⟨r', l, hr', hi.chain, hi.climb.getLast, ?_⟩
      rw [k1, ha]
      have := hi.par
      cases c <;> simp_all
  · right
    rw [hc]
    simp only
    obtain ⟨c, h1, a, t, -, -, h2, -⟩ := hC.witness
    rw [h1]
    exact ⟨c, v, a, t, rfl, h2⟩

theorem Graph.Sees.isBipartite {G : Graph} {S : SGraph} (H : G.Sees S) (σ : ℕ → Shuffle Vertex)
    (τ : Shuffle (Vertex × (Bool × Vertex))) :
    (∃ L R, G.isBipartite σ τ = .ok (.bipartition L R) ∧ (∀ v, v ∈ S.V ↔ v ∈ L ∨ v ∈ R) ∧
      (∀ v, ¬ (v ∈ L ∧ v ∈ R)) ∧ ∀ u v, S.Adj u v → (u ∈ L ↔ v ∈ R)) ∨
    (∃ c v a t, G.isBipartite σ τ = .ok (.oddCycle c) ∧ S.Lasso c v a t) := by
  refine (H.isBipartite_roots σ τ (Q := fun _ => True) fun _ _ _ _ _ _ => trivial).imp_left ?_
  rintro ⟨L, R, h1, h2, h3, h4, -⟩
  exact ⟨L, R, h1, h2, h3, h4⟩

theorem Graph.Rep.isBipartite {G : Graph} {S : SGraph} (H : G.Rep S) (σ : ℕ → Shuffle Vertex)
    (τ : Shuffle (Vertex × (Bool × Vertex))) :
    (∃ L R, G.isBipartite σ τ = .ok (.bipartition L R) ∧ (∀ v, v ∈ S.V ↔ v ∈ L ∨ v ∈ R) ∧
      (∀ v, ¬ (v ∈ L ∧ v ∈ R)) ∧ ∀ u v, S.Adj u v → (u ∈ L ↔ v ∈ R)) ∨
    (∃ c v a t, G.isBipartite σ τ = .ok (.oddCycle c) ∧ S.Lasso c v a t) :=
  H.sees.isBipartite σ τ

end Verif
