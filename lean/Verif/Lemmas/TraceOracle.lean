import Verif.Model.TraceOracle
import Verif.Lemmas.Hist
import Verif.Lemmas.DegenGraph
import Verif.Lemmas.ReachSets
/-!
# The trace oracle: bit sets, contexts, construction
-/
namespace Verif

/-! ## Sorting -/

theorem dedup_of_nodup : ∀ {l : List ℕ}, l.Nodup → dedup l = l
  | [], _ => rfl
  | [_], _ => rfl
  | a :: b :: l, h => by
    have h1 : a ≠ b := fun he => by simp [he] at h
    rw [dedup, if_neg h1, dedup_of_nodup (List.nodup_cons.1 h).2]

namespace DegenGraph.Inv
variable {g : DegenGraph} {S : SGraph} {ord : List ℕ}

theorem indexOf (H : Inv g S ord) {u : ℕ} (hu : u ∈ S.V) : g.indexOf u = .ok (pos S ord u) := by
  unfold DegenGraph.indexOf
  rw [H.get hu]
  rfl

theorem sortByIndex (H : Inv g S ord) {l : List ℕ} (hn : l.Nodup) (hV : ∀ u ∈ l, u ∈ S.V) :
    Ok (g.sortByIndex l) (fun r => r.Pairwise (fun a b => ord.idxOf a < ord.idxOf b) ∧ ∀ w, w ∈ r ↔ w ∈ l) := by
  unfold DegenGraph.sortByIndex
  have h1 : l.mapM (fun v => do return (← g.indexOf v, v)) = .ok (l.map (fun v => (pos S ord v, v))) := by
    refine EditGraph.mapM_ok fun v hv => ?_
    rw [H.indexOf (hV v hv)]
    rfl
  rw [h1, bind_ok]
  obtain ⟨h2, h3⟩ := sortBy_spec (f := pos S ord) hn (fun a ha b hb hab => by
    by_contra hne
    have hi : ord.idxOf a ≠ ord.idxOf b := fun h => hne (H.ordering.idxOf_inj (hV a ha) h)
    rcases Nat.lt_or_gt_of_ne hi with h | h
    · have := pos_lt H.ordering (hV a ha) (hV b hb) h; omega
    · have := pos_lt H.ordering (hV b hb) (hV a ha) h; omega)
  refine Ok.pure ⟨?_, h3⟩
  refine h2.imp_of_mem fun {a b} ha hb h => ?_
  exact (pos_lt_iff H.ordering (hV a ((h3 a).1 ha)) (hV b ((h3 b).1 hb))).1 h

/-- Sorting a list that is already strictly sorted. -/
theorem sortByIndex_self (H : Inv g S ord) {l : List ℕ} (hp : l.Pairwise (fun a b => ord.idxOf a < ord.idxOf b))
    (hV : ∀ u ∈ l, u ∈ S.V) : g.sortByIndex l = .ok l := by
  obtain ⟨r, h1, h2, h3⟩ := H.sortByIndex (l := l) (hp.imp fun h he => absurd h (by rw [he]; omega)) hV
  rw [h1, eq_of_sorted_by h2 hp h3]

theorem assertSorted (H : Inv g S ord) {l : List ℕ} (hp : l.Pairwise (fun a b => ord.idxOf a < ord.idxOf b))
    (hV : ∀ u ∈ l, u ∈ S.V) : g.assertSorted l = .ok () := by
  unfold DegenGraph.assertSorted
  rw [EditGraph.mapM_ok (h := pos S ord) fun v hv => H.indexOf (hV v hv), bind_ok]
  have : (l.map (pos S ord)).IsChain (· ≤ ·) := by
    refine List.Pairwise.isChain ?_
    rw [List.pairwise_map]
    refine hp.imp_of_mem fun {a b} ha hb h => ?_
    exact Nat.le_of_lt (pos_lt H.ordering (hV a ha) (hV b hb) h)
  simp [assertR, this]

end DegenGraph.Inv

/-! ## Bit sets -/

namespace SReachContext

/-- `c` has the context `C`, and `indices` holds the positions in it. -/
structure Is (c : SReachContext) (C : List ℕ) : Prop where
  context : c.context = C
  nodup : C.Nodup
  indices : ∀ u i, c.indices.get? u = some i ↔ C[i]? = some u

theorem is_new {C : List ℕ} (hn : C.Nodup) : (new C).Is C :=
  ⟨rfl, hn, fun _ _ => get?_positions hn⟩

variable {c : SReachContext} {C : List ℕ}

theorem set_bit {C : List ℕ} (hn : C.Nodup) {p : ℕ → Bool} {i u : ℕ} (h : C[i]? = some u) :
    setBit (C.map p) i = .ok (C.map (fun w => p w || decide (w = u))) := by
  obtain ⟨hi, hu⟩ := List.getElem?_eq_some_iff.1 h
  unfold setBit
  rw [if_pos (by simpa using hi)]
  congr 1
  refine List.ext_getElem (by simp) fun j h1 h2 => ?_
  have hj : j < C.length := by simpa using h2
  rw [List.getElem_set]
  simp only [List.getElem_map]
  by_cases hij : i = j
  · subst hij
    simp [hu]
  · have hne : ¬ C[j] = u := fun he => hij ((hn.getElem_inj_iff).1 (hu.trans he.symm))
    simp [hij, hne]

theorem Is.toBitset (H : c.Is C) (T : List ℕ) : c.toBitset T = .ok (C.map (fun u => decide (u ∈ T))) := by
  unfold SReachContext.toBitset
  rw [H.context]
  have key := Ok.foldlM (f := fun (bits : List Bool) u => match c.indices.get? u with
      | some ix => setBit bits ix
      | none => .ok bits) (l := T) (b := List.replicate C.length false)
    (fun pre bits => bits = C.map (fun u => decide (u ∈ pre))) (by simp) ?_
  · obtain ⟨b, h1, rfl⟩ := key
    exact h1
  · rintro pre a post _ hs rfl
    show Ok (match c.indices.get? a with
      | some ix => setBit (C.map (fun u => decide (u ∈ pre))) ix
      | none => .ok (C.map (fun u => decide (u ∈ pre)))) _
    cases ha : c.indices.get? a with
    | some i =>
      simp only
      rw [set_bit H.nodup ((H.indices a i).1 ha)]
      refine Ok.pure ?_
      refine List.map_congr_left fun w _ => ?_
      simp
    | none =>
      simp only
      refine Ok.pure ?_
      refine List.map_congr_left fun w hw => ?_
      have : w ≠ a := by
        rintro rfl
        obtain ⟨i, hi⟩ := List.mem_iff_getElem?.1 hw
        rw [(H.indices w i).2 hi] at ha
        cases ha
      simp [this]

theorem Is.singletonBitset (H : c.Is C) {u : ℕ} (hu : u ∈ C) :
    c.singletonBitset u = .ok (C.map (fun w => decide (w = u))) := by
  unfold SReachContext.singletonBitset
  obtain ⟨i, hi⟩ := List.mem_iff_getElem?.1 hu
  rw [(H.indices u i).2 hi, H.context]
  simp only
  rw [show List.replicate C.length false = C.map (fun _ => false) by simp, set_bit H.nodup hi]
  simp

theorem Is.toVecset (H : c.Is C) (p : ℕ → Bool) : c.toVecset (C.map p) = .ok (C.filter p) := by
  unfold SReachContext.toVecset
  rw [H.context]
  have key : ∀ (post pre : List ℕ), C = pre ++ post →
      (((post.map p).zipIdx pre.length).filter (fun q => q.1)).mapM (fun q => unwrap C[q.2]?) =
        (.ok (post.filter p) : Res (List ℕ)) := by
    intro post
    induction post with
    | nil => intro pre _; rfl
    | cons a post ih =>
      intro pre hs
      have ih := ih (pre ++ [a]) (by simp [hs])
      rw [List.length_append, List.length_singleton] at ih
      rw [List.map_cons, List.zipIdx_cons, List.filter_cons, List.filter_cons]
      cases hp : p a with
      | true =>
        simp only [if_true]
        rw [List.mapM_cons, ih]
        have : C[pre.length]? = some a := by simp [hs]
        rw [this]
        rfl
      | false => simpa using ih
  exact key C [] rfl

theorem bitAnd_map {C : List ℕ} {p q : ℕ → Bool} : bitAnd (C.map p) (C.map q) = C.map (fun u => p u && q u) := by
  unfold bitAnd
  rw [List.zipWith_map, List.zipWith_self]

/-- `insert`. -/
theorem Is.insert (H : c.Is C) (T : List ℕ) : ∃ c', c.insert T = .ok c' ∧ c'.Is C ∧
    c'.right = c.right.insert (C.map (fun u => decide (u ∈ T))) (c.right.getD (C.map (fun u => decide (u ∈ T))) 0 + 1) := by
  unfold SReachContext.insert
  rw [H.toBitset, bind_ok]
  exact ⟨_, rfl, ⟨H.context, H.nodup, H.indices⟩, rfl⟩

/-- `count_neighbours` regroups the stored sets by their intersection with the target. -/
theorem Is.countNeighbours (H : c.Is C) {W : List ℕ} {p : ℕ → ℕ → Bool} (hh : Hist c.right W (fun y => C.map (p y)))
    (σ τ : Shuffle (List Bool × ℕ)) (T : List ℕ) :
    Ok (c.countNeighbours σ τ T) (fun m => Hist m W (fun y => C.filter (fun u => decide (u ∈ T) && p y u))) := by
  unfold SReachContext.countNeighbours
  rw [H.toBitset, bind_ok]
  have h1 := foldl_inv (f := countStep (C.map (fun u => decide (u ∈ T)))) (l := σ.run c.right.entries) (b := ∅)
    (fun pre m => Hist m (Hist.part W (fun y => C.map (p y)) (pre.map Prod.fst))
      (fun y => bitAnd (C.map (fun u => decide (u ∈ T))) (C.map (p y)))) Hist.empty' (by
    intro pre e post m hs hm
    obtain ⟨h1, h2, h3⟩ := hh.entry (σ.perm _) hs
    rw [List.map_append]
    exact Hist.addStep (f := fun y => C.map (p y)) (g := fun b => bitAnd (C.map (fun u => decide (u ∈ T))) b) hm h1 h2 h3)
  rw [hh.filter_all (σ.perm _)] at h1
  simp only
  generalize (σ.run c.right.entries).foldl (countStep (C.map (fun u => decide (u ∈ T)))) ∅ = counts at h1 ⊢
  simp only [bitAnd_map] at h1
  have key := Ok.foldlM (f := fun (res : HMap (List ℕ) ℕ) (e : List Bool × ℕ) => do
      let set ← c.toVecset e.1
      return res.insert set e.2) (l := τ.run counts.entries) (b := ∅)
    (fun pre m => Hist m (Hist.part W (fun y => C.map (fun u => decide (u ∈ T) && p y u)) (pre.map Prod.fst))
      (fun y => C.filter (fun u => decide (u ∈ T) && p y u))) Hist.empty' ?_
  · refine key.mono fun m hm => ?_
    rwa [h1.filter_all (τ.perm _)] at hm
  · intro pre e post m hs hm
    obtain ⟨h2, h3, h4⟩ := h1.entry (τ.perm _) hs
    obtain ⟨y, hy, hye⟩ := List.countP_pos_iff.1 (h3 ▸ h4)
    have hye := of_decide_eq_true hye
    show Ok (c.toVecset e.1 >>= fun set => .ok (m.insert set e.2)) _
    rw [← hye, H.toVecset, bind_ok]
    refine Ok.pure ?_
    rw [List.map_append]
    -- the filter determines the bits
    let q : List Bool → List ℕ := fun b => (C.zip b).filterMap (fun x => if x.2 then some x.1 else none)
    have hq : ∀ (C : List ℕ) (r : ℕ → Bool), (C.zip (C.map r)).filterMap (fun x => if x.2 then some x.1 else none) = C.filter r := by
      intro C r
      induction C with
      | nil => rfl
      | cons a C ih =>
        rw [List.map_cons, List.zip_cons_cons, List.filterMap_cons, ih, List.filter_cons]
        cases r a <;> rfl
    have hm' : Hist m (Hist.part W (fun y => C.map (fun u => decide (u ∈ T) && p y u)) (pre.map Prod.fst))
        (fun y => q (C.map (fun u => decide (u ∈ T) && p y u))) := hm.congr fun z _ => (hq _ _).symm
    have hstep := Hist.addStep hm' h2 h3 h4
    have h0 : m.getD (q e.1) 0 = 0 := by
      rw [hm'.getD, List.countP_eq_zero]
      intro z hz hc
      rw [Hist.mem_part] at hz
      apply h2
      have he : q (C.map (fun u => decide (u ∈ T) && p z u)) = q e.1 := of_decide_eq_true hc
      rw [← hye] at he ⊢
      simp only [q, hq] at he
      have : C.map (fun u => decide (u ∈ T) && p z u) = C.map (fun u => decide (u ∈ T) && p y u) := by
        refine List.map_congr_left fun u hu => ?_
        have h5 : u ∈ C.filter (fun u => decide (u ∈ T) && p z u) ↔ u ∈ C.filter (fun u => decide (u ∈ T) && p y u) := by rw [he]
        rw [List.mem_filter, List.mem_filter] at h5
        have h6 := (and_congr_right_iff.1 h5) hu
        exact Bool.eq_iff_iff.2 h6
      rw [← this]
      exact hz.2
    rw [h0, Nat.zero_add] at hstep
    have hfin := hstep.congr (f' := fun y => C.filter (fun u => decide (u ∈ T) && p y u)) fun z _ => hq _ _
    have he : q e.1 = C.filter (fun u => decide (u ∈ T) && p y u) := by rw [← hye]; exact hq _ _
    rwa [he] at hfin

end SReachContext

/-! ## Construction -/

theorem mem_take_sorted {f : ℕ → ℕ} {N : List ℕ} (hN : N.Pairwise (fun a b => f a < f b)) {j x u : ℕ}
    (hj : N[j]? = some x) : u ∈ N.take (j + 1) ↔ u ∈ N ∧ f u ≤ f x := by
  obtain ⟨hjl, hjx⟩ := List.getElem?_eq_some_iff.1 hj
  rw [List.pairwise_iff_getElem] at hN
  rw [List.mem_take_iff_getElem]
  constructor
  · rintro ⟨i, hi, rfl⟩
    refine ⟨List.getElem_mem _, ?_⟩
    rcases Nat.lt_or_ge i j with h | h
    · exact Nat.le_of_lt (hjx ▸ hN i j _ _ h)
    · obtain rfl : i = j := by omega
      rw [hjx]
  · rintro ⟨hu, hle⟩
    obtain ⟨i, hi, rfl⟩ := List.getElem_of_mem hu
    refine ⟨i, ?_, rfl⟩
    by_contra hc
    have := hN j i hjl hi (by omega)
    rw [hjx] at this
    omega

/-- What the context of `x` has to contain. -/
structure CtxOK (S : SGraph) (ord : List ℕ) (x : ℕ) (C : List ℕ) : Prop where
  sorted : C.Pairwise (fun a b => ord.idxOf a < ord.idxOf b)
  verts : ∀ u ∈ C, u ∈ S.V
  self : x ∈ C
  le : ∀ u ∈ C, ord.idxOf u ≤ ord.idxOf x
  reach : ∀ y u, S.Adj y x → ord.idxOf x < ord.idxOf y → S.Adj y u → ord.idxOf u ≤ ord.idxOf x → u ∈ C

/-- The context of `x` stores the vertices `W`. -/
def CtxIs (S : SGraph) (ord : List ℕ) (x : ℕ) (W : List ℕ) (c : SReachContext) : Prop :=
  ∃ C, c.Is C ∧ CtxOK S ord x C ∧ Hist c.right W (fun y => C.map (fun u => decide (S.Adj y u)))

namespace TraceOracle
variable {g : DegenGraph} {S : SGraph} {ord : List ℕ}

theorem makeContext_ok (H : g.Inv S ord) (σ τ : ℕ → Shuffle ℕ) (ρ : Shuffle ℕ) {x : ℕ} (hx : x ∈ S.V) :
    Ok (makeContext σ τ ρ g x) (CtxIs S ord x []) := by
  unfold makeContext
  have O := H.ordering
  refine (H.lrep.sreachSet σ τ hx (r := 2) (by omega) (by omega)).bind fun s hs => ?_
  have hk : ∀ u, u ∈ ρ.run s.keys ↔ ∃ d, S.SReach ord x u d ∧ d ≤ 2 := by
    intro u
    rw [Shuffle.mem, HMap.mem_keys_iff]
    exact exists_congr fun d => hs u d
  have hlt : ∀ u ∈ ρ.run s.keys, ord.idxOf u < ord.idxOf x := by
    intro u hu
    obtain ⟨d, hd, -⟩ := (hk u).1 hu
    exact hd.1
  have hV : ∀ u ∈ ρ.run s.keys ++ [x], u ∈ S.V := by
    intro u hu
    rcases List.mem_append.1 hu with hu | hu
    · rw [← O.mem]
      exact List.idxOf_lt_length_iff.1 ((hlt u hu).trans_le List.idxOf_le_length)
    · rw [List.mem_singleton.1 hu]; exact hx
  have hn : (ρ.run s.keys ++ [x]).Nodup := by
    rw [List.nodup_append]
    refine ⟨ρ.nodup s.keys_nodup, by simp, ?_⟩
    rintro a ha b hb rfl
    have := hlt a ha
    rw [List.mem_singleton.1 hb] at this
    omega
  refine (H.sortByIndex hn hV).bind fun r hr => ?_
  obtain ⟨hp, hm⟩ := hr
  have hrn : r.Nodup := hp.imp fun h he => absurd h (by rw [he]; omega)
  rw [dedup_of_nodup hrn]
  refine Ok.pure ⟨r, SReachContext.is_new hrn, ?_, Hist.empty⟩
  refine ⟨hp, fun u hu => hV u ((hm u).1 hu), (hm x).2 (by simp), ?_, ?_⟩
  · intro u hu
    rcases List.mem_append.1 ((hm u).1 hu) with hu | hu
    · exact Nat.le_of_lt (hlt u hu)
    · rw [List.mem_singleton.1 hu]
  · intro y u h1 h2 h3 h4
    rw [hm]
    by_cases hux : u = x
    · subst hux; simp
    have hlt : ord.idxOf u < ord.idxOf x := by
      refine lt_of_le_of_ne h4 fun he => hux (O.idxOf_inj h3.right he)
    have hpath : S.PathVia (fun z => ord.idxOf x < ord.idxOf z) 2 x u := by
      refine ⟨[y], by simp [h1.symm, h3], ?_, rfl, by simpa using h2⟩
      have e1 : x ≠ y := by rintro rfl; omega
      have e2 : y ≠ u := by rintro rfl; omega
      have e3 : x ≠ u := fun h => hux h.symm
      simp [e1, e2, e3]
    obtain ⟨d, hd, hmin⟩ := IsMin.exists_le (P := fun n => S.PathVia (fun z => ord.idxOf x < ord.idxOf z) n x u) hpath
    exact List.mem_append_left _ ((hk u).2 ⟨d, ⟨hlt, hmin⟩, hd⟩)

/-- The map `contexts` holds for every vertex `x` a context storing the vertices `W x`. -/
def MIs (S : SGraph) (ord : List ℕ) (W : ℕ → List ℕ) (m : HMap ℕ SReachContext) : Prop :=
  ∀ x ∈ S.V, ∃ c, m.get? x = some c ∧ CtxIs S ord x (W x) c

theorem MIs.congr {W W' : ℕ → List ℕ} {m : HMap ℕ SReachContext} (h : MIs S ord W m) (he : ∀ x ∈ S.V, W x = W' x) :
    MIs S ord W' m := by
  intro x hx
  rw [← he x hx]
  exact h x hx

theorem insertPrefix_ok (H : g.Inv S ord) {W : ℕ → List ℕ} {m : HMap ℕ SReachContext} (hm : MIs S ord W m) {y j x : ℕ}
    (hj : (S.lefts ord y)[j]? = some x) :
    Ok (insertPrefix (S.lefts ord y) m j) (MIs S ord (fun z => W z ++ if z = x then [y] else [])) := by
  unfold insertPrefix
  have O := H.ordering
  have hx := O.mem_lefts.1 (List.mem_of_getElem? hj)
  obtain ⟨c, hc, C, h1, h2, h3⟩ := hm x hx.1.right
  rw [hj, unwrap_some, bind_ok, hc, unwrap_some, bind_ok]
  obtain ⟨c', h4, h5, h6⟩ := h1.insert ((S.lefts ord y).take (j + 1))
  rw [h4, bind_ok]
  refine Ok.pure fun z hz => ?_
  rw [HMap.get?_insert]
  by_cases hzx : z = x
  · subst hzx
    rw [if_pos rfl]
    refine ⟨c', rfl, C, h5, h2, ?_⟩
    have hbits : C.map (fun u => decide (u ∈ (S.lefts ord y).take (j + 1))) = C.map (fun u => decide (S.Adj y u)) := by
      refine List.map_congr_left fun u hu => ?_
      have := h2.le u hu
      rw [decide_eq_decide, mem_take_sorted O.lefts_pairwise hj, O.mem_lefts]
      exact ⟨fun h => h.1.1, fun h => ⟨⟨h, by omega⟩, this⟩⟩
    rw [h6, hbits]
    simpa using h3.push y
  · rw [if_neg hzx]
    simpa [hzx] using hm z hz

theorem insertVertex_ok (H : g.Inv S ord) {W : ℕ → List ℕ} {m : HMap ℕ SReachContext} (hm : MIs S ord W m) {y : ℕ}
    (hy : y ∈ S.V) :
    Ok (insertVertex g m y) (MIs S ord (fun x => W x ++ if x ∈ S.lefts ord y then [y] else [])) := by
  unfold insertVertex
  have O := H.ordering
  rw [H.leftSlice hy, bind_ok, H.sortByIndex_self O.lefts_pairwise (fun u hu => (O.mem_lefts.1 hu).1.right), bind_ok]
  have hn : (S.lefts ord y).Nodup := O.nodup.filter _
  have key := Ok.foldlM (f := TraceOracle.insertPrefix (S.lefts ord y)) (l := List.range (S.lefts ord y).length) (b := m)
    (fun pre m => MIs S ord (fun x => W x ++ if x ∈ (S.lefts ord y).take pre.length then [y] else []) m)
    (hm.congr fun x _ => by simp) ?_
  · simpa using key
  · intro pre j post m' hs hm'
    have hjl : j < (S.lefts ord y).length := List.mem_range.1 (by rw [hs]; simp)
    have hpj : pre.length = j := by
      have := congrArg (fun l : List ℕ => l[pre.length]?) hs
      simp only [List.getElem?_append_right (Nat.le_refl _), Nat.sub_self, List.getElem?_cons_zero] at this
      rw [List.getElem?_eq_some_iff] at this
      obtain ⟨h1, h2⟩ := this
      simpa using h2
    obtain ⟨x, hx⟩ : ∃ x, (S.lefts ord y)[j]? = some x := ⟨_, List.getElem?_eq_getElem hjl⟩
    refine (insertPrefix_ok H hm' hx).mono fun m'' hm'' => hm''.congr fun z _ => ?_
    rw [hpj]
    have h1 : (S.lefts ord y).take (j + 1) = (S.lefts ord y).take j ++ [x] := by
      rw [List.take_add_one, hx]; rfl
    have h2 : x ∉ (S.lefts ord y).take j := by
      intro hc
      have := hn.sublist (List.take_sublist (j + 1) _)
      rw [h1, List.nodup_append] at this
      exact this.2.2 x hc x (by simp) rfl
    rw [List.length_append, hpj, List.length_singleton, h1]
    by_cases hz : z = x
    · subst hz; simp [h2]
    · simp [hz]

/-- The oracle: the context of `x` stores the right neighbours of `x`. -/
def Is (o : TraceOracle) (S : SGraph) (ord : List ℕ) : Prop :=
  MIs S ord (fun x => ord.filter (fun y => decide (x ∈ S.lefts ord y))) o.contexts

theorem forGraph_ok (H : g.Inv S ord) (σ τ : ℕ → ℕ → Shuffle ℕ) (ρ : ℕ → Shuffle ℕ) :
    Ok (forGraph σ τ ρ g) (fun o => o.Is S ord) := by
  unfold forGraph
  have O := H.ordering
  rw [H.vertices]
  refine Ok.bind (P := MIs S ord (fun _ => [])) ?_ fun m hm => ?_
  · refine (Ok.foldlM (f := fun (m : HMap ℕ SReachContext) x => do
      let c ← TraceOracle.makeContext (σ x) (τ x) (ρ x) g x
      return m.insert x c) (l := ord) (b := ∅)
      (fun pre m => ∀ x ∈ pre, ∃ c, m.get? x = some c ∧ CtxIs S ord x [] c) (by simp) ?_).mono ?_
    · intro pre a post m hs hm
      have ha : a ∈ S.V := (O.mem a).1 (by rw [hs]; simp)
      refine (makeContext_ok H (σ a) (τ a) (ρ a) ha).bind fun c hc => Ok.pure fun x hx => ?_
      rw [HMap.get?_insert]
      by_cases hxa : x = a
      · subst hxa; exact ⟨c, by simp, hc⟩
      · rw [if_neg hxa]
        refine hm x ?_
        simpa [hxa] using hx
    · intro m hm x hx
      exact hm x ((O.mem x).2 hx)
  · refine Ok.bind (P := MIs S ord (fun x => ord.filter (fun y => decide (x ∈ S.lefts ord y)))) ?_ fun m hm => Ok.pure hm
    refine Ok.foldlM (f := TraceOracle.insertVertex g)
      (fun pre m => MIs S ord (fun x => pre.filter (fun y => decide (x ∈ S.lefts ord y))) m) hm ?_
    intro pre y post m hs hm
    have hy : y ∈ S.V := (O.mem y).1 (by rw [hs]; simp)
    refine (insertVertex_ok H hm hy).mono fun m' hm' => hm'.congr fun x _ => ?_
    rw [List.filter_append, List.filter_singleton]
    by_cases h : x ∈ S.lefts ord y <;> simp [h]

end TraceOracle
end Verif
