import Verif.Lemmas.Bipartite
import Verif.Lemmas.History
import Verif.Lemmas.Degeneracy
import Mathlib.Logic.Function.Basic
/-! # Bipartiteness test: reaching every odd closed walk of the right shape -/
namespace Verif

/-- The set with `x` moved to the end of the iteration order. -/
def HSet.toLast {κ : Type} [DecidableEq κ] (x : κ) (N : HSet κ) : HSet κ :=
  if h : x ∈ N.toList then ⟨N.toList.erase x ++ [x], by
    have h1 : (N.toList.erase x ++ [x]).Perm N.toList :=
      (List.perm_append_comm).trans (List.perm_cons_erase h).symm
    exact h1.nodup_iff.2 N.nodup⟩
  else N

theorem HSet.mem_toLast {κ : Type} [DecidableEq κ] (x a : κ) (N : HSet κ) : a ∈ N.toLast x ↔ a ∈ N := by
  unfold HSet.toLast
  split
  · next h =>
    have h1 : (N.toList.erase x ++ [x]).Perm N.toList :=
      (List.perm_append_comm).trans (List.perm_cons_erase h).symm
    exact h1.mem_iff
  · rfl

/-- The graph in which the neighbour `nx u` of `u` comes last. -/
def EditGraph.lastNbr (g : EditGraph) (nx : Vertex → Vertex) : EditGraph :=
  ⟨⟨g.adj.entries.map (fun e => (e.1, e.2.toLast (nx e.1))), by
    rw [List.map_map]; exact g.adj.nodup⟩, g.degs, g.m⟩

theorem EditGraph.lastNbr_get (g : EditGraph) (nx : Vertex → Vertex) (u : Vertex) :
    (g.lastNbr nx).adj.get? u = (g.adj.get? u).map (fun N => N.toLast (nx u)) := by
  cases h : g.adj.get? u with
  | none =>
    rw [HMap.get?_eq_none] at h
    rw [Option.map_none, HMap.get?_eq_none]
    intro h1
    apply h
    unfold EditGraph.lastNbr HMap.keys at h1
    rw [List.map_map] at h1
    exact h1
  | some N =>
    rw [HMap.get?_eq_some] at h
    rw [Option.map_some, HMap.get?_eq_some]
    exact List.mem_map.2 ⟨(u, N), h, rfl⟩

theorem EditGraph.Abs.lastNbr {g : EditGraph} {S : SGraph} (H : Abs g S) (nx : Vertex → Vertex) : Abs (g.lastNbr nx) S where
  adjNone u hu := by rw [g.lastNbr_get, H.adjNone u hu]; rfl
  adjSome u hu := by
    obtain ⟨N, h1, h2⟩ := H.adjSome u hu
    refine ⟨N.toLast (nx u), by rw [g.lastNbr_get, h1]; rfl, fun w => ?_⟩
    rw [HSet.mem_toLast, h2]
  degs := H.degs
  m := H.m

theorem EditGraph.Abs.lastNbr_nbrs {g : EditGraph} {S : SGraph} (H : Abs g S) {nx : Vertex → Vertex} {u : Vertex}
    (hu : S.Adj u (nx u)) : ∃ M, (g.lastNbr nx).view.neighbours u = .ok (M ++ [nx u]) := by
  obtain ⟨N, h1, h2⟩ := H.adjSome u hu.left
  refine ⟨N.toList.erase (nx u), ?_⟩
  show (g.lastNbr nx).neighbours u = _
  unfold EditGraph.neighbours
  rw [g.lastNbr_get, h1]
  simp only [Option.map_some]
  unfold HSet.toLast
  have h3 : nx u ∈ N.toList := (h2 _).2 hu
  rw [dif_pos h3]

/-- A successor function along a list without repetitions. -/
theorem exists_next {v : ℕ} : ∀ (d : List ℕ) (x : ℕ), (x :: d).Nodup →
    ∃ nx : ℕ → ℕ, (x :: d).IsChain (fun a b => nx a = b) ∧ ∀ y ∈ (x :: d).getLast?, nx y = v
  | [], x, _ => ⟨fun _ => v, by simp, by simp⟩
  | y :: d, x, h => by
    obtain ⟨nx, h1, h2⟩ := exists_next d y (List.nodup_cons.1 h).2
    have hne : ∀ z ∈ y :: d, Function.update nx x y z = nx z := by
      intro z hz
      refine Function.update_of_ne ?_ _ _
      rintro rfl; exact (List.nodup_cons.1 h).1 hz
    refine ⟨Function.update nx x y, List.isChain_cons_cons.2 ⟨by simp, ?_⟩, ?_⟩
    · refine (h1.imp_of_mem_imp (S := fun a b => Function.update nx x y a = b) ?_)
      intro a b ha _ hab
      rw [hne a ha]; exact hab
    · intro z hz
      rw [List.getLast?_cons_cons] at hz
      rw [hne z (List.mem_of_getLast? hz)]
      exact h2 z hz

namespace Bip
variable {S : SGraph}

theorem split_unique {v : ℕ} : ∀ {a a' t t' : List ℕ}, (a ++ v :: t).Nodup → a ++ v :: t = a' ++ v :: t' → a = a' ∧ t = t'
  | [], [], _, _, _, h => ⟨rfl, (List.cons.inj h).2⟩
  | [], b :: a', t, t', hnd, h => by
    rw [List.nil_append, List.cons_append] at h
    obtain ⟨rfl, h2⟩ := List.cons.inj h
    rw [List.nil_append, List.nodup_cons, h2] at hnd
    exact absurd (by simp) hnd.1
  | b :: a, [], t, t', hnd, h => by
    rw [List.nil_append, List.cons_append] at h
    obtain ⟨rfl, h2⟩ := List.cons.inj h
    rw [List.cons_append, List.nodup_cons] at hnd
    exact absurd (by simp) hnd.1
  | b :: a, b' :: a', t, t', hnd, h => by
    rw [List.cons_append, List.cons_append] at h
    obtain ⟨rfl, h2⟩ := List.cons.inj h
    rw [List.cons_append, List.nodup_cons] at hnd
    obtain ⟨h3, h4⟩ := split_unique hnd.2 h2
    exact ⟨by rw [h3], h4⟩

theorem chain_mem : ∀ (l : List ℕ) (x : ℕ), (x :: l).IsChain S.Adj → ∀ z ∈ l, z ∈ S.V
  | y :: l, x, h, z, hz => by
    rcases List.mem_cons.1 hz with rfl | hz
    · exact h.rel.right
    · exact chain_mem l y h.tail z hz

/-- The search runs straight down a path whose next vertex is always the last neighbour. -/
theorem descend {G : Graph} {nx : ℕ → ℕ} {r : ℕ} : ∀ (d : List ℕ) (x : ℕ) (c : Bool) (l : List ℕ) (s : State)
    (stack : List (Bool × ℕ × ℕ)) (fuel : ℕ), Info S s.colours x c r l → (∃ q, s.colours.get? x = some (c, q)) →
    (∀ z c p, s.colours.get? z = some (c, p) → ∃ r' l, Info S s.colours z c r' l) →
    (x :: d).IsChain (fun a b => nx a = b) → (x :: d).IsChain S.Adj → d.Nodup → (∀ y ∈ d, s.colours.get? y = none) →
    (∀ y ∈ d, ∃ M, G.neighbours y = .ok (M ++ [nx y])) →
    ∃ y c' l' s' stack', colourLoop G (fuel + d.length) ((!c, nx x, x) :: stack) s =
        colourLoop G fuel ((!c', nx y, y) :: stack') s' ∧ Info S s'.colours y c' r l' ∧
      (∀ z c p, s'.colours.get? z = some (c, p) → ∃ r' l, Info S s'.colours z c r' l) ∧ y :: l' = d.reverse ++ x :: l
  | [], x, c, l, s, stack, fuel, hi, _, hall, _, _, _, _, _ => ⟨x, c, l, s, stack, rfl, hi, hall, rfl⟩
  | y :: d, x, c, l, s, stack, fuel, hi, ⟨q, hq⟩, hall, hch, hadj, hnd, hnone, hnb => by
    obtain ⟨M, hM⟩ := hnb y (by simp)
    have hy := hnone y (by simp)
    have hnx : nx x = y := hch.rel
    have hget : ∀ z, (s.colours.insert y (!c, x)).get? z = if z = y then some (!c, x) else s.colours.get? z :=
      fun z => HMap.get?_insert
    have hxy : x ≠ y := by rintro rfl; rw [hy] at hq; cases hq
    have hiy : Info S (s.colours.insert y (!c, x)) y (!c) r (x :: l) := by
      refine ⟨.step (by rw [hget, if_pos rfl]) hxy (hi.climb.insert hy), ?_, ?_, ?_⟩
      · have := hi.par
        rw [List.length_cons]
        rcases Nat.mod_two_eq_zero_or_one l.length with h4 | h4
        · have h5 : (l.length + 1) % 2 = 1 := by omega
          rw [h4] at this; rw [h5]; simpa using this
        · have h5 : (l.length + 1) % 2 = 0 := by omega
          rw [h4] at this; rw [h5]; simpa using this
      · exact List.isChain_cons_cons.2 ⟨hadj.rel.symm, hi.chain⟩
      · rw [HMap.len_insert_new hy, List.length_cons]
        have := hi.len; omega
    obtain ⟨y', c', l', s', stack', h1, h2, h3, h4⟩ := descend (G := G) (nx := nx) (r := r) d y (!c) (x :: l)
      { s with colours := s.colours.insert y (!c, x), unprocessed := s.unprocessed.remove y }
      ((M.map (fun u => (!!c, u, y))).reverse ++ stack) fuel hiy ⟨x, by simp only [hget, if_true]⟩ (by
        intro z c' p hz
        simp only [hget] at hz
        by_cases hzy : z = y
        · subst hzy
          rw [if_pos rfl] at hz
          cases hz
          exact ⟨_, _, hiy⟩
        · rw [if_neg hzy] at hz
          obtain ⟨r', l', h⟩ := hall z c' p hz
          exact ⟨r', l', h.insert hy⟩) hch.tail hadj.tail (List.nodup_cons.1 hnd).2 (by
        intro z hz
        simp only [hget]
        rw [if_neg]
        · exact hnone z (List.mem_cons_of_mem _ hz)
        · rintro rfl; exact (List.nodup_cons.1 hnd).1 hz) (fun z hz => hnb z (List.mem_cons_of_mem _ hz))
    refine ⟨y', c', l', s', stack', ?_, h2, h3, ?_⟩
    · rw [← h1, List.length_cons, ← Nat.add_assoc, hnx]
      conv_lhs => unfold colourLoop
      rw [hy]
      simp only [hM, bind_ok, List.map_append, List.map_cons, List.map_nil, List.reverse_append, List.reverse_cons,
        List.reverse_nil, List.nil_append, List.cons_append]
    · rw [h4, List.reverse_cons, List.append_assoc]; rfl

/-- If the last neighbour along a path is always the next vertex of the path and the last vertex leads back to `v`, the walk
around the cycle and up the path is returned. -/
theorem run_lasso {G : Graph} (H : G.Sees S) {c : List ℕ} {v : ℕ} {a t : List ℕ} (hl : S.Lasso c v a t) {nx : ℕ → ℕ} {x : ℕ}
    {d : List ℕ} (hd : (x :: d).reverse = a ++ v :: t) (hnx : (x :: d).IsChain (fun a b => nx a = b))
    (hlast : ∀ y ∈ (x :: d).getLast?, nx y = v) (hnb : ∀ y ∈ x :: d, ∃ M, G.neighbours y = .ok (M ++ [nx y]))
    (τ : Shuffle (Vertex × (Bool × Vertex))) : G.isBipartite (fun _ => Shuffle.front x) τ = .ok (.oddCycle c) := by
  obtain ⟨hc, hodd, hcw, hnd, hcht⟩ := hl
  have hnd2 : (a ++ v :: t).Nodup := (List.perm_middle (a := v) (l₁ := a) (l₂ := t)).nodup_iff.2 hnd
  have hndx : (x :: d).Nodup := by rw [← List.nodup_reverse, hd]; exact hnd2
  have hup : (a ++ v :: t).IsChain S.Adj := by
    refine List.isChain_append.2 ⟨hcw.2.1.tail, hcht, ?_⟩
    intro y hy z hz
    simp only [List.head?_cons, Option.mem_def, Option.some.injEq] at hz
    subst hz
    refine hcw.2.2 v rfl y ?_
    cases a with
    | nil => cases hy
    | cons b a => rw [List.getLast?_cons_cons]; exact hy
  have hdown : (x :: d).IsChain S.Adj := by
    have h1 : (a ++ v :: t).reverse.IsChain S.Adj := by
      rw [List.isChain_reverse]
      exact hup.imp fun a b h => h.symm
    rw [← hd, List.reverse_reverse] at h1
    exact h1
  have hV : ∀ y ∈ x :: d, y ∈ S.V := by
    intro y hy
    rw [← List.mem_reverse, hd] at hy
    refine chain_mem _ v ?_ y hy
    cases a with
    | nil => exact List.isChain_cons_cons.2 ⟨hcw.2.2 v rfl v rfl, hcht⟩
    | cons b a => exact List.isChain_cons_cons.2 ⟨hcw.2.1.rel, hup⟩
  have hcard : (x :: d).length ≤ S.V.card := by
    rw [← List.toFinset_card_of_nodup hndx]
    exact Finset.card_le_card fun y hy => hV y (List.mem_toFinset.1 hy)
  have hpos : 0 < S.V.card := lt_of_lt_of_le (by simp) hcard
  -- the inner loop
  obtain ⟨M, hM⟩ := hnb x (by simp)
  have hx0 : (∅ : Colours).get? x = none := HMap.get?_empty
  have hget : ∀ z, ((∅ : Colours).insert x (true, x)).get? z = if z = x then some (true, x) else none := by
    intro z; rw [HMap.get?_insert, HMap.get?_empty]
  have hix : Info S ((∅ : Colours).insert x (true, x)) x true x [] := by
    refine ⟨.root (by rw [hget, if_pos rfl]), by simp, by simp, ?_⟩
    rw [HMap.len_insert_new hx0]; simp
  obtain ⟨f, hf⟩ : ∃ f, G.numVertices * (2 * G.numVertices) + 2 = (f + 1 + d.length) + 1 := by
    rw [H.nv]
    refine ⟨S.V.card * (2 * S.V.card) - d.length, ?_⟩
    rw [List.length_cons] at hcard
    have : S.V.card * 1 ≤ S.V.card * (2 * S.V.card) := Nat.mul_le_mul (le_refl _) (by omega)
    omega
  set U := ((HSet.ofList G.vertices).remove x) with hU
  obtain ⟨y, c', l', s', stack', h1, h2, h3, h4⟩ := descend (S := S) (G := G) (nx := nx) (r := x) d x true []
    ⟨U.remove x, (∅ : Colours).insert x (true, x), none⟩ (M.map (fun u => (!true, u, x))).reverse (f + 1)
    hix ⟨x, by simp only [hget, if_true]⟩ (by
      intro z c p hz
      simp only [hget] at hz
      by_cases hzx : z = x
      · subst hzx
        rw [if_pos rfl] at hz
        cases hz
        exact ⟨_, _, hix⟩
      · rw [if_neg hzx] at hz; cases hz) hnx hdown (List.nodup_cons.1 hndx).2 (by
      intro z hz
      simp only [hget]
      rw [if_neg]
      rintro rfl; exact (List.nodup_cons.1 hndx).1 hz) (fun z hz => hnb z (List.mem_cons_of_mem _ hz))
  rw [← List.reverse_cons, hd] at h4
  have hyl : (x :: d).getLast? = some y := by
    have := congrArg List.head? h4
    rw [List.head?_cons, ← hd, List.head?_reverse] at this
    exact this.symm
  have hnxy : nx y = v := hlast y (by rw [hyl]; rfl)
  -- the colour of v
  obtain ⟨a', lv, e1, e2⟩ := h2.climb.split (x := v) (by rw [h4]; simp)
  rw [h4] at e1
  obtain ⟨rfl, rfl⟩ := split_unique hnd2 e1
  have hcv : ∃ q, s'.colours.get? v = some (c', q) := by
    obtain ⟨cv, q, hv⟩ : ∃ cv q, s'.colours.get? v = some (cv, q) := by
      cases e2 with
      | root h => exact ⟨_, _, h⟩
      | step h _ _ => exact ⟨_, _, h⟩
    obtain ⟨r', l2, hi2⟩ := h3 v cv q hv
    obtain ⟨e3, e4⟩ := hi2.climb.unique e2
    subst e3
    refine ⟨q, ?_⟩
    rw [hv, hi2.par, h2.par]
    have h5 := congrArg List.length h4
    simp only [List.length_cons, List.length_append] at h5 hodd
    congr 2
    rw [decide_eq_decide]
    omega
  obtain ⟨q, hq⟩ := hcv
  have hyv : S.Adj y v := by
    have h5 := congrArg List.head? h4
    cases a with
    | nil =>
      simp only [List.head?_cons, List.nil_append, Option.some.injEq] at h5
      subst h5
      exact hcw.2.2 y rfl y rfl
    | cons b a =>
      simp only [List.head?_cons, List.cons_append, Option.some.injEq] at h5
      subst h5
      exact (hcw.2.1.rel).symm
  have hconf : Conf S s'.colours y v q := by
    refine ⟨hyv, ?_, ⟨l', x, h2.climb, by rw [h4]; simp⟩⟩
    obtain ⟨r', l2, hi2⟩ := h3 v c' q hq
    obtain ⟨e3, e4⟩ := hi2.climb.unique e2
    subst e4
    exact ⟨c', _, l', l2, h2, hi2, hq⟩
  have hinner : colourLoop G (G.numVertices * (2 * G.numVertices) + 2) [(true, x, x)] ⟨U, ∅, none⟩ =
      .ok { s' with conflict := some (y, v, q) } := by
    rw [hf]
    conv_lhs => unfold colourLoop
    simp only [HMap.get?_empty, hM, bind_ok, List.map_append, List.map_cons, List.map_nil, List.reverse_append,
      List.reverse_cons, List.reverse_nil, List.nil_append, List.singleton_append, List.append_nil]
    rw [h1, hnxy]
    conv_lhs => unfold colourLoop
    rw [hq]
    simp
  have houter : outerLoop (fun _ => Shuffle.front x) G (G.numVertices + 1) ⟨HSet.ofList G.vertices, ∅, none⟩ =
      .ok { s' with conflict := some (y, v, q) } := by
    obtain ⟨n, hn⟩ : ∃ n, G.numVertices = n + 1 := ⟨G.numVertices - 1, by rw [H.nv]; omega⟩
    have hxm : x ∈ (HSet.ofList G.vertices).toList := by
      rw [HSet.mem_toList, HSet.mem_ofList, H.vmem]; exact hV x (by simp)
    conv_lhs => unfold outerLoop
    obtain ⟨rest, hrest⟩ : ∃ rest, (Shuffle.front x).run (HSet.ofList G.vertices).toList = x :: rest :=
      ⟨_, if_pos hxm⟩
    simp only [hrest]
    rw [hinner, bind_ok, hn]
    unfold outerLoop
    simp
  unfold Graph.isBipartite
  rw [houter]
  simp only [bind_ok]
  obtain ⟨w, hw, a2, t2, l2, r2, hL, hC, hE⟩ := hconf.witness
  rw [hw]
  obtain ⟨e3, e4⟩ := hC.unique h2.climb
  subst e3
  rw [h4] at hE
  obtain ⟨rfl, rfl⟩ := split_unique hnd2 hE
  rw [bind_ok, hL.1, ← hc]
  rfl

end Bip

/-- Every walk of the right shape is returned for some layout. -/
theorem EditGraph.Abs.lasso_run {g : EditGraph} {S : SGraph} (H : Abs g S) {c : List ℕ} {v : ℕ} {a t : List ℕ}
    (hl : S.Lasso c v a t) (τ : Shuffle (Vertex × (Bool × Vertex))) :
    ∃ (g' : EditGraph) (σ : ℕ → Shuffle Vertex), Abs g' S ∧ g'.view.isBipartite σ τ = .ok (.oddCycle c) := by
  obtain ⟨x, d, hd⟩ : ∃ x d, (a ++ v :: t).reverse = x :: d := List.exists_cons_of_ne_nil (by simp)
  have hd' : (x :: d).reverse = a ++ v :: t := by rw [← hd, List.reverse_reverse]
  obtain ⟨-, -, hcw, hnd, hcht⟩ := id hl
  have hnd2 : (a ++ v :: t).Nodup := (List.perm_middle (a := v) (l₁ := a) (l₂ := t)).nodup_iff.2 hnd
  have hndx : (x :: d).Nodup := by rw [← hd, List.nodup_reverse]; exact hnd2
  obtain ⟨nx, h1, h2⟩ := exists_next (v := v) d x hndx
  refine ⟨g.lastNbr nx, fun _ => Shuffle.front x, H.lastNbr nx,
    Bip.run_lasso (H.lastNbr nx).rep.sees hl hd' h1 h2 (fun y hy => H.lastNbr_nbrs ?_) τ⟩
  -- the circular walk down the path and back to `v`
  have hcyc : (v :: (a ++ v :: t)).IsChain S.Adj := by
    have h3 : (v :: a ++ [v]).IsChain S.Adj := by
      refine List.isChain_append.2 ⟨hcw.2.1, by simp, ?_⟩
      intro y hy z hz
      simp only [List.head?_cons, Option.mem_def, Option.some.injEq] at hz
      subst hz
      exact hcw.2.2 v rfl y hy
    have := h3.append_overlap (l₃ := t) (by simpa using hcht) (by simp)
    simpa using this
  have hdown : (x :: d ++ [v]).IsChain S.Adj := by
    have h3 : (v :: (a ++ v :: t)).reverse.IsChain S.Adj := by
      rw [List.isChain_reverse]
      exact hcyc.imp fun a b h => h.symm
    rw [List.reverse_cons, hd] at h3
    exact h3
  have hnx : (x :: d ++ [v]).IsChain (fun a b => nx a = b) := by
    refine List.isChain_append.2 ⟨h1, by simp, ?_⟩
    intro y hy z hz
    simp only [List.head?_cons, Option.mem_def, Option.some.injEq] at hz
    subst hz
    exact h2 y hy
  obtain ⟨p, q, hpq⟩ := List.append_of_mem hy
  have hne : ∃ z q', q ++ [v] = z :: q' := List.exists_cons_of_ne_nil (by simp)
  obtain ⟨z, q', hq⟩ := hne
  rw [hpq, List.append_assoc, List.cons_append, hq] at hdown hnx
  have h3 := hdown.right_of_append.rel
  have h4 := hnx.right_of_append.rel
  rw [h4]; exact h3

end Verif
