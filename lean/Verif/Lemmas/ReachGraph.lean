import Verif.Model.ReachGraph
import Verif.Lemmas.Blocks
import Verif.Lemmas.ReachSets
import Verif.Lemmas.DegenGraph
/-!
# `ReachGraph`: layout, construction, queries and iterators
-/
namespace Verif
namespace ReachGraph
open Blocks

variable {S : SGraph} {ord : List ℕ} {r : ℕ} {m : ℕ → HMap ℕ ℕ}

/-- The reachable sets to be stored: left of `u`, distances between 1 and `r`. -/
def Good (S : SGraph) (ord : List ℕ) (r : ℕ) (m : ℕ → HMap ℕ ℕ) : Prop :=
  ∀ u ∈ S.V, ∀ x d, (m u).get? x = some d → x ∈ S.V ∧ ord.idxOf x < ord.idxOf u ∧ 1 ≤ d ∧ d ≤ r

/-- Vertices stored for `u` at distance `d`, in order. -/
def grp (ord : List ℕ) (m : ℕ → HMap ℕ ℕ) (u d : ℕ) : List ℕ := ord.filter (fun x => decide ((m u).get? x = some d))

/-- All vertices stored for `u`, in order of distance. -/
def rv (ord : List ℕ) (r : ℕ) (m : ℕ → HMap ℕ ℕ) (u : ℕ) : List ℕ := (List.range r).flatMap (fun i => grp ord m u (i + 1))

/-- Distance of `x` from `u`. -/
def rd (m : ℕ → HMap ℕ ℕ) (u x : ℕ) : ℕ := (m u).getD x 0

/-- Payload of the block of `u` at offset `p`. -/
def pay (ord : List ℕ) (r : ℕ) (m : ℕ → HMap ℕ ℕ) (p u : ℕ) : List ℕ :=
  (List.range' 1 r).map (fun j => p + r + 2 + (rv ord r m u).countP (fun x => decide (rd m u x ≤ j))) ++ rv ord r m u

theorem pay_const : Const (pay ord r m) := by
  intro p u
  simp [pay]

theorem length_pay {p u : ℕ} : (pay ord r m p u).length = r + (rv ord r m u).length := by simp [pay]

theorem mem_grp (O : S.Ordering ord) (hm : Good S ord r m) {u d x : ℕ} (hu : u ∈ S.V) :
    x ∈ grp ord m u d ↔ (m u).get? x = some d := by
  unfold grp
  rw [List.mem_filter, decide_eq_true_iff]
  exact ⟨And.right, fun h => ⟨(O.mem x).2 (hm u hu x d h).1, h⟩⟩

theorem mem_rv (O : S.Ordering ord) (hm : Good S ord r m) {u x : ℕ} (hu : u ∈ S.V) :
    x ∈ rv ord r m u ↔ ∃ d, (m u).get? x = some d := by
  unfold rv
  rw [List.mem_flatMap]
  constructor
  · rintro ⟨i, -, h⟩
    exact ⟨_, (mem_grp O hm hu).1 h⟩
  · rintro ⟨d, h⟩
    have := (hm u hu x d h).2.2
    refine ⟨d - 1, List.mem_range.2 (by omega), (mem_grp O hm hu).2 ?_⟩
    rw [h, show d - 1 + 1 = d by omega]

theorem rd_eq {u x d : ℕ} (h : (m u).get? x = some d) : rd m u x = d := by
  unfold rd HMap.getD; rw [h]; rfl

theorem rv_sorted (O : S.Ordering ord) :
    ∀ u, (rv ord r m u).Pairwise (fun a b => rd m u a < rd m u b ∨ (rd m u a = rd m u b ∧ ord.idxOf a < ord.idxOf b)) := by
  intro u
  have hg : ∀ d x, x ∈ grp ord m u d → rd m u x = d := by
    intro d x hx
    unfold grp at hx
    rw [List.mem_filter, decide_eq_true_iff] at hx
    exact rd_eq hx.2
  unfold rv
  rw [List.pairwise_flatMap]
  constructor
  · intro i _
    refine ((O.pairwise).filter _).imp_of_mem ?_
    intro a b ha hb h
    right
    exact ⟨by rw [hg _ a ha, hg _ b hb], h⟩
  · refine List.pairwise_lt_range.imp ?_
    intro i j hij x hx y hy
    left
    rw [hg _ x hx, hg _ y hy]
    omega

/-- Combined sorting key. -/
def key (ord : List ℕ) (m : ℕ → HMap ℕ ℕ) (u x : ℕ) : ℕ := rd m u x * (ord.length + 1) + ord.idxOf x

theorem key_lt {u a b : ℕ} (ha : ord.idxOf a ≤ ord.length)
    (h : rd m u a < rd m u b ∨ (rd m u a = rd m u b ∧ ord.idxOf a < ord.idxOf b)) : key ord m u a < key ord m u b := by
  unfold key
  rcases h with h | ⟨h, h'⟩
  · have : (rd m u a + 1) * (ord.length + 1) ≤ rd m u b * (ord.length + 1) := Nat.mul_le_mul_right _ h
    rw [Nat.add_mul] at this
    omega
  · rw [h]; omega

theorem rv_key (O : S.Ordering ord) (u : ℕ) : (rv ord r m u).Pairwise (fun a b => key ord m u a < key ord m u b) :=
  (rv_sorted O u).imp fun h => key_lt List.idxOf_le_length h

/-! ## Index table -/

theorem pushEnds_spec {indexU base offset n : ℕ} : ∀ (c : List ℕ) (index : ℕ),
    base + offset < 2 ^ 32 → c.length = indexU + index → indexU + index + n ≤ 2 ^ 32 →
    ReachBuilder.pushEnds indexU base offset n (c, index) =
      .ok (c ++ List.replicate n (base + offset), index + n) := by
  induction n with
  | zero => intro c index _ _ _; simp [ReachBuilder.pushEnds]
  | succ n ih =>
    intro c index h1 h2 h3
    unfold ReachBuilder.pushEnds
    simp only
    have e1 : cast32 offset = offset := cast32_of_lt (by omega)
    have e2 : cast32 ((c ++ [base + offset]).length - 1) = indexU + index := by
      rw [List.length_append, List.length_singleton, Nat.add_sub_cancel, h2]
      exact cast32_of_lt (by omega)
    rw [e1, add32_ok h1, bind_ok, add32_ok (by omega), bind_ok, e2]
    simp only [beq_self_eq_true, assertR, if_true, bind_ok]
    rw [ih _ _ h1 (by simp [h2]; omega) (by omega)]
    simp [List.replicate_succ, Nat.add_assoc, Nat.add_comm 1]

theorem indexLoop_spec {indexU base r : ℕ} : ∀ (ds : List ℕ) (offset curr : ℕ) (c : List ℕ),
    ds.Pairwise (· ≤ ·) → (∀ d ∈ ds, curr ≤ d ∧ d ≤ r) → 1 ≤ curr → curr ≤ r + 1 →
    base + offset + ds.length < 2 ^ 32 → c.length = indexU + (curr + 1) → indexU + r + 2 ≤ 2 ^ 32 →
    ReachBuilder.indexLoop indexU base offset curr (ds ++ [r + 1]) (c, curr + 1) =
      .ok (c ++ (List.range' curr (r + 1 - curr)).map (fun j => base + offset + ds.countP (fun d => decide (d ≤ j))),
        r + 2) := by
  intro ds
  induction ds with
  | nil =>
    intro offset curr c _ _ h1 h2 h3 h4 h5
    simp only [List.nil_append, ReachBuilder.indexLoop, List.countP_nil, Nat.add_zero]
    rw [pushEnds_spec c (curr + 1) (by simpa using h3) h4 (by omega), bind_ok]
    congr 2
    · congr 1
      rw [List.map_const', List.length_range']
    · omega
  | cons x ds ih =>
    intro offset curr c hs hb h1 h2 h3 h4 h5
    obtain ⟨hx1, hx2⟩ := hb x (by simp)
    rw [List.pairwise_cons] at hs
    simp only [List.length_cons] at h3
    simp only [List.cons_append, ReachBuilder.indexLoop]
    rw [pushEnds_spec c (curr + 1) (by omega) h4 (by omega), bind_ok, Nat.max_eq_right hx1,
      show curr + 1 + (x - curr) = x + 1 by omega]
    rw [ih (offset + 1) x _ hs.2 (fun d hd => ⟨hs.1 d hd, (hb d (by simp [hd])).2⟩) (by omega) (by omega) (by omega)
      (by simp; omega) h5]
    congr 2
    rw [List.append_assoc]
    congr 1
    have e : List.range' curr (r + 1 - curr) = List.range' curr (x - curr) ++ List.range' x (r + 1 - x) := by
      have := List.range'_append_1 (s := curr) (m := x - curr) (n := r + 1 - x)
      rw [show curr + (x - curr) = x by omega, show x - curr + (r + 1 - x) = r + 1 - curr by omega] at this
      exact this.symm
    rw [e, List.map_append]
    congr 1
    · have : ∀ j ∈ List.range' curr (x - curr), base + offset + (x :: ds).countP (fun d => decide (d ≤ j)) = base + offset := by
        intro j hj
        rw [List.mem_range'_1] at hj
        have : (x :: ds).countP (fun d => decide (d ≤ j)) = 0 := by
          rw [List.countP_eq_zero]
          intro d hd
          rw [decide_eq_true_iff]
          rcases List.mem_cons.1 hd with rfl | hd
          · omega
          · have := hs.1 d hd; omega
        omega
      rw [List.map_congr_left this, List.map_const', List.length_range']
    · refine List.map_congr_left fun j hj => ?_
      rw [List.mem_range'_1] at hj
      rw [List.countP_cons_of_pos (by rw [decide_eq_true_iff]; omega)]
      omega

/-! ## Sorting the reachable set -/

theorem tripleLe_total : Std.Total ReachBuilder.tripleLe :=
  ⟨fun a b => by unfold ReachBuilder.tripleLe; omega⟩

theorem tripleLe_trans : IsTrans (ℕ × ℕ × ℕ) ReachBuilder.tripleLe :=
  ⟨fun a b c h1 h2 => by unfold ReachBuilder.tripleLe at *; omega⟩

theorem neighbourOrder_spec (O : S.Ordering ord) (hm : Good S ord r m) {u : ℕ} (hu : u ∈ S.V) {order : HMap ℕ ℕ}
    (ho : ∀ x ∈ S.V, order.get? x = some (ord.idxOf x)) {es : List (ℕ × ℕ)} (hes : es.Perm (m u).entries) :
    ReachBuilder.neighbourOrder order es =
      .ok ((rv ord r m u).map (fun x => (rd m u x, ord.idxOf x, x))) := by
  have hmem : ∀ x d, (x, d) ∈ es ↔ (m u).get? x = some d := by
    intro x d
    rw [hes.mem_iff, HMap.get?_eq_some]
  unfold ReachBuilder.neighbourOrder
  have h1 : es.mapM (fun e => do
      let i ← unwrap (order.get? e.1)
      return (e.2, i, e.1)) = .ok (es.map (fun e => (e.2, ord.idxOf e.1, e.1))) := by
    refine EditGraph.mapM_ok fun e he => ?_
    have := (hm u hu e.1 e.2 ((hmem _ _).1 he)).1
    rw [ho e.1 this]
    rfl
  rw [h1, bind_ok, pure_eq_ok]
  congr 1
  have hp := List.perm_insertionSort ReachBuilder.tripleLe (es.map (fun e => (e.2, ord.idxOf e.1, e.1)))
  have i1 := tripleLe_total
  have i2 := tripleLe_trans
  have hs := List.pairwise_insertionSort ReachBuilder.tripleLe (es.map (fun e => (e.2, ord.idxOf e.1, e.1)))
  generalize (es.map (fun e => (e.2, ord.idxOf e.1, e.1))).insertionSort ReachBuilder.tripleLe = t at hp hs
  have ht : ∀ p ∈ t, p = (rd m u p.2.2, ord.idxOf p.2.2, p.2.2) ∧ p.2.2 ∈ S.V ∧ ∃ d, (m u).get? p.2.2 = some d := by
    intro p hpt
    have := hp.mem_iff.1 hpt
    rw [List.mem_map] at this
    obtain ⟨e, he, rfl⟩ := this
    have hg := (hmem e.1 e.2).1 he
    refine ⟨?_, (hm u hu _ _ hg).1, _, hg⟩
    simp only [rd_eq hg]
  have hnd : (t.map (fun p => p.2.2)).Nodup := by
    have := hp.map (fun p => p.2.2)
    rw [List.map_map] at this
    rw [this.nodup_iff]
    have h2 := hes.map Prod.fst
    exact h2.nodup_iff.2 (m u).nodup
  have hkey : (t.map (fun p => p.2.2)).Pairwise (fun a b => key ord m u a < key ord m u b) := by
    rw [List.pairwise_map]
    unfold List.Nodup at hnd
    rw [List.pairwise_map] at hnd
    refine (hs.and hnd).imp_of_mem ?_
    rintro a b ha hb ⟨h3, h4⟩
    obtain ⟨e1, v1, -⟩ := ht a ha
    obtain ⟨e2, -, -⟩ := ht b hb
    refine key_lt List.idxOf_le_length ?_
    have hne : ord.idxOf a.2.2 ≠ ord.idxOf b.2.2 := fun h => h4 (O.idxOf_inj v1 h)
    unfold ReachBuilder.tripleLe at h3
    rw [e1, e2] at h3
    simp only at h3
    omega
  have heq : t.map (fun p => p.2.2) = rv ord r m u := by
    refine eq_of_sorted_by hkey (rv_key O u) fun w => ?_
    rw [mem_rv O hm hu]
    constructor
    · intro hw
      obtain ⟨p, hp', rfl⟩ := List.mem_map.1 hw
      exact (ht p hp').2.2
    · rintro ⟨d, hd⟩
      refine List.mem_map.2 ⟨(d, ord.idxOf w, w), hp.mem_iff.2 (List.mem_map.2 ⟨(w, d), (hmem w d).2 hd, rfl⟩), rfl⟩
  rw [← heq, List.map_map]
  conv_lhs => rw [← List.map_id t]
  refine List.map_congr_left fun p hp' => ?_
  exact (ht p hp').1

/-! ## Edges and right degrees -/

theorem countEdges_spec {u : ℕ} {es : List (ℕ × ℕ)} (hn : (es.map Prod.fst).Nodup) {rg : HMap ℕ ℕ} {E : HSet (ℕ × ℕ)}
    (hb : ∀ x, rg.getD x 0 + 1 < 2 ^ 32) :
    Ok (es.foldlM (ReachBuilder.countEdge u) (rg, E)) (fun st =>
      (∀ x, st.1.getD x 0 = rg.getD x 0 + if (x, 1) ∈ es then 1 else 0) ∧
      ∀ p, p ∈ st.2 ↔ p ∈ E ∨ ∃ x, (x, 1) ∈ es ∧ p = (min u x, max u x)) := by
  refine Ok.foldlM (fun (pre : List (ℕ × ℕ)) (st : HMap ℕ ℕ × HSet (ℕ × ℕ)) =>
      (∀ x, st.1.getD x 0 = rg.getD x 0 + if (x, 1) ∈ pre then 1 else 0) ∧
      ∀ p, p ∈ st.2 ↔ p ∈ E ∨ ∃ x, (x, 1) ∈ pre ∧ p = (min u x, max u x)) ⟨by simp, by simp⟩ ?_
  rintro pre ⟨a, d⟩ post ⟨rg', E'⟩ rfl ⟨h1, h2⟩
  simp only at h1 h2
  unfold ReachBuilder.countEdge
  simp only
  by_cases hd : d = 1
  · subst hd
    simp only [bne_self_eq_false, Bool.false_eq_true, if_false]
    have hpre : ∀ d', (a, d') ∉ pre := by
      intro d' hc
      rw [List.map_append, List.map_cons, List.nodup_append] at hn
      exact hn.2.2 a (List.mem_map.2 ⟨_, hc, rfl⟩) a List.mem_cons_self rfl
    have ha := h1 a
    rw [if_neg (hpre 1), Nat.add_zero] at ha
    rw [ha, add32_ok (hb a), bind_ok]
    refine ⟨_, rfl, ?_, ?_⟩
    · intro x
      simp only [HMap.getD]
      rw [HMap.get?_insert]
      by_cases hx : x = a
      · subst hx; simp
      · rw [if_neg hx]
        have := h1 x
        simp only [HMap.getD] at this
        rw [this]
        simp [hx]
    · intro p
      have : (if u < a then E'.insert (u, a) else E'.insert (a, u)) = E'.insert (min u a, max u a) := by
        split
        · next h => rw [Nat.min_eq_left (by omega), Nat.max_eq_right (by omega)]
        · next h => rw [Nat.min_eq_right (by omega), Nat.max_eq_left (by omega)]
      simp only
      rw [this, HSet.mem_insert, h2]
      constructor
      · rintro (rfl | h | ⟨x, h, rfl⟩)
        · exact Or.inr ⟨a, by simp, rfl⟩
        · exact Or.inl h
        · exact Or.inr ⟨x, by simp [h], rfl⟩
      · rintro (h | ⟨x, h, rfl⟩)
        · exact Or.inr (Or.inl h)
        · rw [List.mem_append, List.mem_singleton] at h
          rcases h with h | h
          · exact Or.inr (Or.inr ⟨x, h, rfl⟩)
          · cases h; exact Or.inl rfl
  · have : (d != 1) = true := by simpa using hd
    rw [this]
    simp only [if_true, Ok.ok_iff]
    have he : ∀ x, (x, 1) ∈ pre ++ [(a, d)] ↔ (x, 1) ∈ pre := by
      intro x
      rw [List.mem_append, List.mem_singleton]
      refine ⟨?_, Or.inl⟩
      rintro (h | h)
      · exact h
      · cases h; exact absurd rfl hd
    simp only [he]
    exact ⟨h1, h2⟩

/-! ## Builder -/

/-- Builder state after appending the vertices `pre`. -/
structure BInv (b : ReachBuilder) (S : SGraph) (ord : List ℕ) (r : ℕ) (m : ℕ → HMap ℕ ℕ) (pre : List ℕ) : Prop where
  cont : b.g.contents = lay (pay ord r m) 0 pre
  last : b.lastIndex = if pre = [] then none else some (off (pay ord r m) pre.dropLast)
  idx : ∀ u i, b.g.indices.get? u = some i ↔ u ∈ pre ∧ i = off (pay ord r m) (ord.take (ord.idxOf u))
  rdeg : ∀ x, b.g.rightDegrees.getD x 0 = pre.countP (fun w => decide ((m w).get? x = some 1))
  edges : ∀ p, p ∈ b.g.edges ↔ ∃ u ∈ pre, ∃ x, (m u).get? x = some 1 ∧ p = (min u x, max u x)

theorem BInv.new : BInv ReachBuilder.new S ord r m [] :=
  ⟨rfl, rfl, by simp [ReachBuilder.new], by simp [ReachBuilder.new, HMap.getD], by simp [ReachBuilder.new]⟩

theorem BInv.append {b : ReachBuilder} {pre post : List ℕ} {u : ℕ} (O : S.Ordering ord) (hr : 1 ≤ r)
    (hm : Good S ord r m) (hsz : off (pay ord r m) ord < 2 ^ 32) (H : BInv b S ord r m pre) (hs : ord = pre ++ u :: post)
    {order : HMap ℕ ℕ} (ho : ∀ x ∈ S.V, order.get? x = some (ord.idxOf x)) {es : List (ℕ × ℕ)}
    (hes : es.Perm (m u).entries) :
    Ok (b.append r u es order) (fun b' => BInv b' S ord r m (pre ++ [u])) := by
  have hu : u ∈ S.V := (O.mem u).1 (by rw [hs]; simp)
  have hpos : off (pay ord r m) pre + (2 + (r + (rv ord r m u).length)) < 2 ^ 32 := by
    have : off (pay ord r m) ord = off (pay ord r m) pre + (2 + (r + (rv ord r m u).length) + off (pay ord r m) post) := by
      have e : ∀ F : ℕ → ℕ → List ℕ, off F ord = off F pre + (bs F u + off F post) := by
        intro F; rw [hs, off_append, off_cons]
      rw [e, bs, length_pay]
    omega
  have hpl : 2 * pre.length ≤ off (pay ord r m) pre := length_le pre
  have hlen : b.g.contents.length = off (pay ord r m) pre := by rw [H.cont, length_lay pay_const]
  set q := off (pay ord r m) pre with hq
  have hidxu : ord.idxOf u = pre.length := O.idxOf_eq (by conv_lhs => rw [hs]
                                                          simp)
  unfold ReachBuilder.append
  simp only
  have c1 : cast32 ((b.g.contents ++ [u]).length - 1) = q := by
    rw [List.length_append, List.length_singleton, Nat.add_sub_cancel, hlen]
    exact cast32_of_lt (by omega)
  rw [c1, add32_ok (by omega)]
  have c2 : cast32 ((b.g.contents ++ [u] ++ [q]).length - 1) = q + 1 := by
    rw [List.length_append, List.length_singleton, Nat.add_sub_cancel, List.length_append, hlen, List.length_singleton]
    exact cast32_of_lt (by omega)
  rw [c2]
  simp only [bind_ok, beq_self_eq_true, assertR, if_true]
  have c3 : DegenBuilder.link (b.g.contents ++ [u] ++ [q]) b.lastIndex q =
      .ok (enc (pay ord r m) 0 pre ++ [u, q]) := by
    rw [H.last]
    rcases List.eq_nil_or_concat pre with rfl | ⟨pre', v, rfl⟩
    · simp [DegenBuilder.link, H.cont, lay, enc]
    · rw [List.concat_eq_append] at *
      rw [if_neg (by simp)]
      unfold DegenBuilder.link
      simp only
      have hq' : q = off (pay ord r m) pre' + bs (pay ord r m) v := by
        rw [hq, off_append]; simp [off]
      rw [List.dropLast_concat, add32_ok (by rw [bs] at hq'; omega)]
      simp only [bind_ok]
      unfold setIdx
      rw [if_pos (by simp only [List.length_append, hlen]; rw [bs] at hq'; omega)]
      rw [H.cont, lay_append (by simp), enc_append]
      simp only [lay, enc, if_true, List.append_nil, Nat.zero_add, List.append_assoc]
      rw [List.set_append_right _ _ (by rw [length_enc pay_const]; omega), length_enc pay_const]
      simp only [Nat.add_sub_cancel_left, List.cons_append, List.set_cons_succ, List.set_cons_zero, ← hq',
        List.append_assoc, List.nil_append]
  rw [c3]
  simp only [bind_ok]
  rw [neighbourOrder_spec O hm hu ho hes, bind_ok]
  have hnd : (es.map Prod.fst).Nodup := (hes.map Prod.fst).nodup_iff.2 (m u).nodup
  refine Ok.bind (countEdges_spec (u := u) hnd (rg := b.g.rightDegrees) (E := b.g.edges) ?_) ?_
  · intro x
    rw [H.rdeg]
    have := List.countP_le_length (p := fun w => decide ((m w).get? x = some 1)) (l := pre)
    omega
  rintro ⟨rg', E'⟩ ⟨hrg, hE⟩
  simp only at hrg hE ⊢
  rw [cast32_of_lt (show r < 2 ^ 32 by omega), add32_ok (by omega), bind_ok, add32_ok (by omega), bind_ok,
    add32_ok (by omega), bind_ok, List.map_map]
  have hloop := indexLoop_spec (indexU := q) (base := q + r + 2) (r := r)
    ((rv ord r m u).map (fun x => rd m u x)) 0 1 (enc (pay ord r m) 0 pre ++ [u, q]) ?_ ?_ (le_refl _) (by omega)
    (by rw [List.length_map]; omega) (by simp [length_enc pay_const, ← hq]) (by omega)
  rotate_left
  · rw [List.pairwise_map]
    exact (rv_sorted O u).imp fun h => by omega
  · intro d hd
    obtain ⟨x, hx, rfl⟩ := List.mem_map.1 hd
    obtain ⟨d, hd'⟩ := (mem_rv O hm hu).1 hx
    have := hm u hu x d hd'
    rw [rd_eq hd']
    exact this.2.2
  rw [show ((fun t : ℕ × ℕ × ℕ => t.1) ∘ fun x => (rd m u x, ord.idxOf x, x)) = fun x => rd m u x from rfl]
  rw [show (1 : ℕ) + 1 = 2 from rfl] at hloop
  rw [hloop, bind_ok]
  simp only
  rw [add32_ok (by omega), bind_ok, List.length_append, List.length_append, length_enc pay_const, List.length_map,
    List.length_range', ← hq]
  have c4 : cast32 (q + [u, q].length + (r + 1 - 1) - 1) = q + r + 1 := by
    rw [show q + [u, q].length + (r + 1 - 1) - 1 = q + r + 1 by simp; omega]
    exact cast32_of_lt (by omega)
  rw [c4]
  simp only [beq_self_eq_true, if_true, bind_ok]
  refine Ok.pure ⟨?_, ?_, ?_, ?_, ?_⟩
  · show _ ++ _ ++ _ = _
    rw [lay_append (by simp), List.map_map,
      show ((fun t : ℕ × ℕ × ℕ => t.2.2) ∘ fun x => (rd m u x, ord.idxOf x, x)) = id from rfl, List.map_id]
    simp only [lay, if_true, Nat.zero_add, ← hq, List.append_nil, pay, Nat.add_zero, List.append_assoc,
      List.cons_append, List.nil_append, Nat.add_sub_cancel, List.countP_map]
    rfl
  · simp [hq]
  · intro w i
    rw [HMap.get?_insert]
    by_cases hw : w = u
    · subst hw
      rw [if_pos rfl, hidxu]
      have : ord.take pre.length = pre := by conv_lhs => rw [hs]
                                             simp
      rw [this, ← hq]
      simp [eq_comm]
    · rw [if_neg hw, H.idx]
      simp [hw]
  · intro x
    show rg'.getD x 0 = _
    rw [hrg, H.rdeg, List.countP_append]
    congr 1
    have : (x, 1) ∈ es ↔ (m u).get? x = some 1 := by rw [hes.mem_iff, HMap.get?_eq_some]
    by_cases h : (m u).get? x = some 1 <;> simp [this, h]
  · intro p
    show p ∈ E' ↔ _
    rw [hE, H.edges]
    have : ∀ x, (x, 1) ∈ es ↔ (m u).get? x = some 1 := fun x => by rw [hes.mem_iff, HMap.get?_eq_some]
    constructor
    · rintro (⟨w, hw, x, h1, h2⟩ | ⟨x, h1, h2⟩)
      · exact ⟨w, by simp [hw], x, h1, h2⟩
      · exact ⟨u, by simp, x, (this x).1 h1, h2⟩
    · rintro ⟨w, hw, x, h1, h2⟩
      rw [List.mem_append, List.mem_singleton] at hw
      rcases hw with hw | rfl
      · exact Or.inl ⟨w, hw, x, h1, h2⟩
      · exact Or.inr ⟨x, (this x).2 h1, h2⟩

/-! ## Representation invariant -/

/-- Invariant of a finished graph storing the sets `m`. -/
structure Inv (g : ReachGraph) (S : SGraph) (ord : List ℕ) (r : ℕ) (m : ℕ → HMap ℕ ℕ) : Prop where
  ordering : S.Ordering ord
  loopless : S.Loopless
  pos : 1 ≤ r
  good : Good S ord r m
  one : ∀ u ∈ S.V, ∀ x, (m u).get? x = some 1 ↔ S.Adj u x ∧ ord.idxOf x < ord.idxOf u
  size : off (pay ord r m) ord < 2 ^ 32
  cont : g.contents = lay (pay ord r m) 0 ord
  idx : ∀ u i, g.indices.get? u = some i ↔ u ∈ S.V ∧ i = off (pay ord r m) (ord.take (ord.idxOf u))
  rdeg : ∀ x, g.rightDegrees.getD x 0 = (S.after ord x).card
  edges : ∀ a b, (a, b) ∈ g.edges ↔ a < b ∧ S.Adj a b

theorem BInv.inv {b : ReachBuilder} (O : S.Ordering ord) (hl : S.Loopless) (hr : 1 ≤ r) (hm : Good S ord r m)
    (hone : ∀ u ∈ S.V, ∀ x, (m u).get? x = some 1 ↔ S.Adj u x ∧ ord.idxOf x < ord.idxOf u)
    (hsz : off (pay ord r m) ord < 2 ^ 32) (H : BInv b S ord r m ord) : Inv b.g S ord r m := by
  refine ⟨O, hl, hr, hm, hone, hsz, H.cont, fun u i => by rw [← O.mem]; exact H.idx u i, ?_, ?_⟩
  · intro x
    rw [H.rdeg, List.countP_eq_length_filter, ← List.toFinset_card_of_nodup (O.nodup.filter _)]
    congr 1
    ext w
    rw [List.mem_toFinset, List.mem_filter, decide_eq_true_iff, SGraph.mem_after, O.mem]
    constructor
    · rintro ⟨hw, h⟩
      have := (hone w hw x).1 h
      exact ⟨this.1.symm, this.2⟩
    · rintro ⟨h1, h2⟩
      exact ⟨h1.right, (hone w h1.right x).2 ⟨h1.symm, h2⟩⟩
  · intro a b'
    rw [H.edges]
    constructor
    · rintro ⟨u, hu, x, h1, h2⟩
      rw [Prod.mk.injEq] at h2
      obtain ⟨h3, h4⟩ := (hone u ((O.mem u).1 hu) x).1 h1
      have hne : u ≠ x := by rintro rfl; omega
      rcases Nat.lt_or_ge u x with h | h
      · rw [Nat.min_eq_left h.le, Nat.max_eq_right h.le] at h2
        obtain ⟨rfl, rfl⟩ := h2
        exact ⟨h, h3⟩
      · rw [Nat.min_eq_right h, Nat.max_eq_left h] at h2
        obtain ⟨rfl, rfl⟩ := h2
        exact ⟨by omega, h3.symm⟩
    · rintro ⟨h1, h2⟩
      rcases O.adj_cases hl h2 with h | h
      · exact ⟨b', (O.mem _).2 h2.right, a, (hone b' h2.right a).2 ⟨h2.symm, h⟩, by
          rw [Nat.min_eq_right h1.le, Nat.max_eq_left h1.le]⟩
      · exact ⟨a, (O.mem _).2 h2.left, b', (hone a h2.left b').2 ⟨h2, h⟩, by
          rw [Nat.min_eq_left h1.le, Nat.max_eq_right h1.le]⟩

/-- Building from any function that appends the sets `m`. -/
theorem build_inv (O : S.Ordering ord) (hl : S.Loopless) (hr : 1 ≤ r) (hm : Good S ord r m)
    (hone : ∀ u ∈ S.V, ∀ x, (m u).get? x = some 1 ↔ S.Adj u x ∧ ord.idxOf x < ord.idxOf u)
    (hsz : off (pay ord r m) ord < 2 ^ 32) {order : HMap ℕ ℕ} (ho : ∀ x ∈ S.V, order.get? x = some (ord.idxOf x))
    {ρ : ℕ → Shuffle (ℕ × ℕ)} {f : ReachBuilder → ℕ → Res ReachBuilder}
    (hf : ∀ b u, u ∈ S.V → f b u = b.append r u ((ρ u).run (m u).entries) order) :
    Ok (do let b ← ord.foldlM f ReachBuilder.new; return b.g) (fun g => Inv g S ord r m) := by
  refine Ok.bind (Ok.foldlM (fun pre b => BInv b S ord r m pre) BInv.new ?_) fun b hb =>
    Ok.pure (hb.inv O hl hr hm hone hsz)
  intro pre u post b hs hb
  rw [hf b u ((O.mem u).1 (by rw [hs]; simp))]
  exact hb.append O hr hm hsz hs ho ((ρ u).perm _)

/-! ## Groups -/

/-- The vertices stored for `u` up to distance `j`. -/
def upto (ord : List ℕ) (m : ℕ → HMap ℕ ℕ) (u j : ℕ) : List ℕ := (List.range j).flatMap (fun i => grp ord m u (i + 1))

theorem upto_succ {u j : ℕ} : upto ord m u (j + 1) = upto ord m u j ++ grp ord m u (j + 1) := by
  simp [upto, List.range_succ]

theorem rd_of_mem_upto {u j x : ℕ} (h : x ∈ upto ord m u j) : rd m u x ≤ j := by
  unfold upto at h
  rw [List.mem_flatMap] at h
  obtain ⟨i, hi, h⟩ := h
  unfold grp at h
  rw [List.mem_filter, decide_eq_true_iff] at h
  rw [rd_eq h.2]
  exact List.mem_range.1 hi

theorem upto_split {u j : ℕ} : ∀ k, ∃ t, upto ord m u (j + k) = upto ord m u j ++ t ∧ ∀ x ∈ t, j < rd m u x
  | 0 => ⟨[], by simp⟩
  | k + 1 => by
    obtain ⟨t, h1, h2⟩ := upto_split (u := u) (j := j) k
    refine ⟨t ++ grp ord m u (j + k + 1), ?_, ?_⟩
    · rw [← Nat.add_assoc, upto_succ, h1, List.append_assoc]
    · intro x hx
      rcases List.mem_append.1 hx with h | h
      · exact h2 x h
      · unfold grp at h
        rw [List.mem_filter, decide_eq_true_iff] at h
        rw [rd_eq h.2]
        omega

theorem countP_rv {u j : ℕ} (h : j ≤ r) :
    (rv ord r m u).countP (fun x => decide (rd m u x ≤ j)) = (upto ord m u j).length := by
  obtain ⟨t, h1, h2⟩ := upto_split (ord := ord) (m := m) (u := u) (j := j) (r - j)
  rw [show j + (r - j) = r by omega] at h1
  rw [show rv ord r m u = upto ord m u r from rfl, h1, List.countP_append]
  have e1 : (upto ord m u j).countP (fun x => decide (rd m u x ≤ j)) = (upto ord m u j).length := by
    rw [List.countP_eq_length]
    intro x hx
    exact decide_eq_true (rd_of_mem_upto hx)
  have e2 : t.countP (fun x => decide (rd m u x ≤ j)) = 0 := by
    rw [List.countP_eq_zero]
    intro x hx
    have := h2 x hx
    simp; omega
  omega

theorem sliceR_mid {c A B C : List ℕ} {b : ℕ} (hb : b ≤ c.length) (h : c.drop b = A ++ B ++ C) :
    sliceR c (b + A.length) (b + (A ++ B).length) = .ok B := by
  have hlen : c.length - b = A.length + B.length + C.length := by
    rw [← List.length_drop, h]; simp; omega
  unfold sliceR
  rw [if_pos ⟨by simp, by simp; omega⟩, ← List.drop_drop, h, List.length_append,
    show b + (A.length + B.length) - (b + A.length) = B.length by omega]
  simp

theorem segments_spec {c rest : List ℕ} {u b : ℕ} (hb : b ≤ c.length) (hc : c.drop b = upto ord m u r ++ rest) :
    ∀ (n k : ℕ), k + n = r →
      segments c (b + (upto ord m u k).length) ((List.range' (k + 1) n).map (fun j => b + (upto ord m u j).length)) =
        .ok ((List.range' (k + 1) n).map (grp ord m u))
  | 0, k, _ => rfl
  | n + 1, k, h => by
    obtain ⟨t, h1, -⟩ := upto_split (ord := ord) (m := m) (u := u) (j := k + 1) n
    rw [show k + 1 + n = r by omega, upto_succ] at h1
    have e : sliceR c (b + (upto ord m u k).length) (b + (upto ord m u (k + 1)).length) = .ok (grp ord m u (k + 1)) := by
      rw [upto_succ]
      refine sliceR_mid (C := t ++ rest) hb ?_
      rw [hc, h1]; simp
    simp only [List.range'_succ, List.map_cons, segments]
    rw [e, bind_ok, segments_spec hb hc n (k + 1) (by omega)]
    rfl

/-! ## Queries -/

namespace Inv
variable {g : ReachGraph}

theorem get (H : Inv g S ord r m) {u : ℕ} (hu : u ∈ S.V) :
    g.indices.get? u = some (off (pay ord r m) (ord.take (ord.idxOf u))) := (H.idx u _).2 ⟨hu, rfl⟩

theorem get_none (H : Inv g S ord r m) {u : ℕ} (hu : u ∉ S.V) : g.indices.get? u = none := by
  cases h : g.indices.get? u with
  | none => rfl
  | some i => exact absurd ((H.idx u i).1 h).1 hu

theorem contains (H : Inv g S ord r m) (u : ℕ) : g.indices.contains u = true ↔ u ∈ S.V := by
  by_cases hu : u ∈ S.V
  · simp [HMap.contains, H.get hu, hu]
  · simp [HMap.contains, H.get_none hu, hu]

theorem numVertices (H : Inv g S ord r m) : g.indices.len = S.V.card :=
  HMap.len_of_mem_iff fun u => by rw [← HMap.contains_iff, H.contains]

theorem split (H : Inv g S ord r m) {u : ℕ} (hu : u ∈ S.V) :
    ord = ord.take (ord.idxOf u) ++ u :: ord.drop (ord.idxOf u + 1) := by
  have h := H.ordering.idxOf_lt hu
  have e : ord[ord.idxOf u] = u := List.getElem_idxOf h
  conv_rhs => rw [show u :: ord.drop (ord.idxOf u + 1) = ord[ord.idxOf u] :: ord.drop (ord.idxOf u + 1) by rw [e]]
  rw [List.getElem_cons_drop, List.take_append_drop]

theorem layout (H : Inv g S ord r m) {pre post : List ℕ} {u : ℕ} (hs : ord = pre ++ u :: post) :
    g.contents = lay (pay ord r m) 0 (pre ++ u :: post) := by
  rw [H.cont]
  generalize pay ord r m = F
  rw [hs]

theorem index_lt (H : Inv g S ord r m) {u v : ℕ} (hu : u ∈ S.V) (hv : v ∈ S.V) (h : ord.idxOf u < ord.idxOf v) :
    off (pay ord r m) (ord.take (ord.idxOf u)) < off (pay ord r m) (ord.take (ord.idxOf v)) := by
  have h1 := H.ordering.idxOf_lt hu
  have h2 := H.ordering.idxOf_lt hv
  refine off_lt ?_ ?_
  · simp only [List.length_take]; omega
  · exact List.take_prefix_take_left (by omega)

/-- The sets returned for `u`. -/
def block (ord : List ℕ) (r : ℕ) (m : ℕ → HMap ℕ ℕ) (u : ℕ) : Reachables := ⟨u, (List.range' 1 r).map (grp ord m u)⟩

theorem tail (H : Inv g S ord r m) {pre post : List ℕ} {u : ℕ} (hs : ord = pre ++ u :: post) :
    g.contents.drop (off (pay ord r m) pre + 2) =
      (List.range' 1 r).map (fun j => off (pay ord r m) pre + r + 2 + (upto ord m u j).length) ++
      (upto ord m u r ++ lay (pay ord r m) (off (pay ord r m) pre + bs (pay ord r m) u) post) := by
  rw [payload pay_const (H.layout hs)]
  conv_lhs => rw [pay]
  rw [List.append_assoc]
  congr 1
  refine List.map_congr_left fun j hj => ?_
  rw [List.mem_range'_1] at hj
  rw [countP_rv (by omega)]

theorem len_ge (H : Inv g S ord r m) {pre post : List ℕ} {u : ℕ} (hs : ord = pre ++ u :: post) :
    off (pay ord r m) pre + r + 2 + (upto ord m u r).length ≤ g.contents.length := by
  have := length_ge pay_const (H.layout hs)
  rw [length_pay] at this
  have e : rv ord r m u = upto ord m u r := rfl
  rw [e] at this
  omega

theorem tail' (H : Inv g S ord r m) {pre post : List ℕ} {u : ℕ} (hs : ord = pre ++ u :: post) :
    g.contents.drop (off (pay ord r m) pre + r + 2) =
      upto ord m u r ++ lay (pay ord r m) (off (pay ord r m) pre + bs (pay ord r m) u) post := by
  rw [show off (pay ord r m) pre + r + 2 = off (pay ord r m) pre + 2 + r by omega, ← List.drop_drop, H.tail hs]
  rw [List.drop_append, List.drop_eq_nil_of_le (by simp)]
  simp

theorem reachablesAt (H : Inv g S ord r m) {pre post : List ℕ} {u : ℕ} (hs : ord = pre ++ u :: post) :
    g.reachablesAt r (off (pay ord r m) pre) = .ok (block ord r m u) := by
  unfold ReachGraph.reachablesAt
  rw [get0 pay_const (H.layout hs), unwrap_some, bind_ok]
  have hl := H.len_ge hs
  have e1 : sliceR g.contents (off (pay ord r m) pre + 2) (off (pay ord r m) pre + r + 2) =
      .ok ((List.range' 1 r).map (fun j => off (pay ord r m) pre + r + 2 + (upto ord m u j).length)) := by
    unfold sliceR
    rw [if_pos ⟨by omega, by omega⟩, H.tail hs,
      show off (pay ord r m) pre + r + 2 - (off (pay ord r m) pre + 2) = r by omega]
    rw [List.take_append, List.take_of_length_le (by simp)]
    simp
  rw [e1, bind_ok]
  have e2 := segments_spec (c := g.contents) (u := u) (b := off (pay ord r m) pre + r + 2)
    (by omega) (H.tail' hs) r 0 (by omega)
  rw [show (upto ord m u 0).length = 0 from rfl, Nat.add_zero, Nat.zero_add] at e2
  rw [e2, bind_ok]
  simp [assertR, block]

theorem indexOf (H : Inv g S ord r m) {u : ℕ} (hu : u ∈ S.V) :
    g.indexOf u = .ok (off (pay ord r m) (ord.take (ord.idxOf u))) := by
  unfold ReachGraph.indexOf
  rw [H.get hu, unwrap_some]

theorem reachables (H : Inv g S ord r m) {u : ℕ} (hu : u ∈ S.V) : g.reachables r u = .ok (block ord r m u) := by
  unfold ReachGraph.reachables
  rw [H.indexOf hu, bind_ok]
  exact H.reachablesAt (H.split hu)

theorem reachablesAll (H : Inv g S ord r m) {u : ℕ} (hu : u ∈ S.V) :
    g.reachablesAll r u = .ok (block ord r m u).segs.flatten := by
  have hs := H.split hu
  unfold ReachGraph.reachablesAll
  rw [H.indexOf hu, bind_ok, get0 pay_const (H.layout hs), unwrap_some, bind_ok]
  simp only [beq_self_eq_true, assertR, if_true, bind_ok]
  generalize ord.take (ord.idxOf u) = pre at hs
  have hr := H.pos
  have e1 : g.contents[off (pay ord r m) pre + r + 2 - 1]? =
      some (off (pay ord r m) pre + r + 2 + (upto ord m u r).length) := by
    rw [show off (pay ord r m) pre + r + 2 - 1 = off (pay ord r m) pre + 2 + (r - 1) by omega]
    refine get_of_drop (H.tail hs) ?_
    rw [List.getElem?_append_left (by simp; omega), List.getElem?_map, List.getElem?_range' (by omega)]
    simp only [Option.map_some, show 1 + 1 * (r - 1) = r by omega]
  rw [e1, unwrap_some, bind_ok]
  have := sliceR_mid (c := g.contents) (A := []) (B := upto ord m u r) (b := off (pay ord r m) pre + r + 2)
    (by have := H.len_ge hs; omega) (H.tail' hs)
  rw [List.length_nil, Nat.add_zero, List.nil_append] at this
  rw [this]
  congr 1
  unfold upto block
  rw [List.flatMap_def, List.range'_eq_map_range, List.map_map]
  congr 2
  funext i
  simp [Nat.add_comm]

theorem at_block {u d : ℕ} (h1 : 1 ≤ d) (h2 : d ≤ r) : (block ord r m u).at' d = .ok (grp ord m u d) := by
  unfold Reachables.at' block
  simp only [List.length_map, List.length_range']
  rw [show (decide (1 ≤ d) && decide (d ≤ r)) = true by simp [h1, h2]]
  simp only [assertR, if_true, bind_ok]
  rw [List.getElem?_map, List.getElem?_range' (by omega), show 1 + 1 * (d - 1) = d by omega]
  rfl

theorem leftNeighbours (H : Inv g S ord r m) {u : ℕ} (hu : u ∈ S.V) : g.leftNeighbours r u = .ok (S.lefts ord u) := by
  unfold ReachGraph.leftNeighbours
  rw [H.reachables hu, bind_ok, at_block (le_refl _) H.pos]
  congr 1
  refine H.ordering.eq_lefts (H.ordering.pairwise.filter _) fun w => ?_
  rw [mem_grp H.ordering H.good hu, H.one u hu]

theorem leftDegree (H : Inv g S ord r m) {u : ℕ} (hu : u ∈ S.V) : g.leftDegree r u = .ok (S.before ord u).card := by
  unfold ReachGraph.leftDegree LinGraph.defaultLeftDegree
  rw [if_pos ((H.contains u).2 hu), H.leftNeighbours hu, bind_ok, H.ordering.length_lefts]
  rfl

theorem degree (H : Inv g S ord r m) {u : ℕ} (hu : u ∈ S.V) : g.degree r u = .ok (S.deg u) := by
  unfold ReachGraph.degree ReachGraph.rightDegree
  have h1 := H.ordering.card_add H.loopless u
  have h2 : (S.nbrs u).card ≤ S.V.card := Finset.card_le_card (Finset.filter_subset _ _)
  have h3 := length_le (F := pay ord r m) ord
  have h4 := H.size
  rw [H.ordering.length] at h3
  rw [H.leftDegree hu, bind_ok, H.rdeg]
  have h5 : (S.before ord u).card + (S.after ord u).card < 2 ^ 32 := by
    have e1 : (S.before ord u).card ≤ S.V.card := Finset.card_le_card fun x hx => (SGraph.mem_before.1 hx).1.right
    have e2 : (S.after ord u).card ≤ S.V.card := Finset.card_le_card fun x hx => (SGraph.mem_after.1 hx).1.right
    omega
  rw [add32_ok h5, h1]

theorem adjacent (H : Inv g S ord r m) (u v : ℕ) : g.adjacent u v = decide (S.Adj u v) := by
  unfold ReachGraph.adjacent
  rw [HSet.contains_eq, HSet.contains_eq, ← Bool.decide_or]
  refine decide_eq_decide.2 ?_
  rw [H.edges, H.edges]
  constructor
  · rintro (h | h)
    · exact h.2
    · exact h.2.symm
  · intro h
    rcases Nat.lt_trichotomy u v with h' | h' | h'
    · exact Or.inl ⟨h', h⟩
    · subst h'; exact absurd h (H.loopless u)
    · exact Or.inr ⟨h', h.symm⟩

theorem numEdges (H : Inv g S ord r m) : g.edges.len = S.E.card := by
  rw [HSet.len_eq_card]
  refine Finset.card_bij (fun p _ => s(p.1, p.2)) ?_ ?_ ?_
  · rintro ⟨a, b⟩ h
    exact ((H.edges a b).1 (HSet.mem_toFinset.1 h)).2
  · rintro ⟨a, b⟩ h ⟨c, d⟩ h' he
    have h1 := ((H.edges a b).1 (HSet.mem_toFinset.1 h)).1
    have h2 := ((H.edges c d).1 (HSet.mem_toFinset.1 h')).1
    rw [Sym2.eq_iff] at he
    simp only at he
    rcases he with ⟨rfl, rfl⟩ | ⟨rfl, rfl⟩
    · rfl
    · omega
  · intro e he
    induction e using Sym2.ind with
    | _ a b =>
      have hadj : S.Adj a b := he
      rcases Nat.lt_trichotomy a b with h' | h' | h'
      · exact ⟨(a, b), HSet.mem_toFinset.2 ((H.edges a b).2 ⟨h', hadj⟩), rfl⟩
      · subst h'; exact absurd hadj (H.loopless a)
      · exact ⟨(b, a), HSet.mem_toFinset.2 ((H.edges b a).2 ⟨h', hadj.symm⟩), Sym2.eq_swap⟩

/-! ### Iterators -/

theorem next_ne {p u : ℕ} : (p + bs (pay ord r m) u == p) = false := by
  rw [beq_eq_false_iff_ne, bs]; omega

theorem orderIter_from (H : Inv g S ord r m) {pre post : List ℕ} {u : ℕ} (hs : ord = pre ++ u :: post) :
    Drains g.orderIterNext (some (off (pay ord r m) pre)) (u :: post) := by
  induction post generalizing pre u with
  | nil =>
    refine Drains.step (s' := none) ?_ (Drains.done rfl)
    unfold ReachGraph.orderIterNext
    simp only [get0 pay_const (H.layout hs), get1 pay_const (H.layout hs), unwrap_some, bind_ok]
    simp
  | cons v post ih =>
    refine Drains.step (s' := some (off (pay ord r m) (pre ++ [u]))) ?_ (ih (pre := pre ++ [u]) (by rw [hs]; simp))
    unfold ReachGraph.orderIterNext
    simp only [get0 pay_const (H.layout hs), get1 pay_const (H.layout hs), unwrap_some, bind_ok]
    rw [if_neg (show ¬ v :: post = [] by simp), next_ne, off_append]
    simp [off]

theorem orderIter (H : Inv g S ord r m) : Drains g.orderIterNext g.orderIterNew ord := by
  unfold ReachGraph.orderIterNew
  rw [H.numVertices, ← H.ordering.length]
  cases ho : ord with
  | nil => exact Drains.done rfl
  | cons u post =>
    have := H.orderIter_from (pre := []) ho
    exact this

theorem drainOrder_of {g : ReachGraph} {s : Option ℕ} {l : List ℕ} (h : Drains g.orderIterNext s l) {fuel : ℕ}
    (hf : l.length < fuel) : g.drainOrder fuel s = .ok l := by
  induction h generalizing fuel with
  | done h =>
    cases fuel with
    | zero => omega
    | succ k => rw [ReachGraph.drainOrder, h]; rfl
  | step h t ih =>
    cases fuel with
    | zero => omega
    | succ k =>
      rw [ReachGraph.drainOrder, h]
      simp only [bind_ok]
      rw [ih (by simpa using hf)]
      rfl

theorem vertices (H : Inv g S ord r m) : g.vertices = ord := by
  unfold ReachGraph.vertices
  rw [drainOrder_of H.orderIter]
  rw [H.cont, length_lay pay_const]
  have := length_le (F := pay ord r m) ord
  omega

theorem nextReachables (H : Inv g S ord r m) {pre post : List ℕ} {u : ℕ} (hs : ord = pre ++ u :: post) :
    g.nextReachables r u = .ok (post.head?.map (block ord r m)) := by
  have hu : u ∈ S.V := (H.ordering.mem u).1 (by rw [hs]; simp)
  have hi : ord.take (ord.idxOf u) = pre := by
    have : ord.idxOf u = pre.length := H.ordering.idxOf_eq (by conv_lhs => rw [hs]
                                                               simp)
    rw [this]
    conv_lhs => rw [hs]
    simp
  unfold ReachGraph.nextReachables
  rw [H.indexOf hu, bind_ok, hi, get0 pay_const (H.layout hs), unwrap_some, bind_ok]
  simp only [beq_self_eq_true, assertR, if_true, bind_ok]
  rw [get1 pay_const (H.layout hs), unwrap_some, bind_ok]
  cases post with
  | nil => simp
  | cons v post =>
    rw [if_neg (show ¬ v :: post = [] by simp), next_ne]
    simp only [Bool.false_eq_true, if_false]
    have h2 : ord = (pre ++ [u]) ++ v :: post := by rw [hs]; simp
    have := H.reachablesAt h2
    rw [off_append, show off (pay ord r m) [u] = bs (pay ord r m) u by simp [off]] at this
    rw [this]
    rfl

theorem iter_from (H : Inv g S ord r m) {pre post : List ℕ} {u : ℕ} (hs : ord = pre ++ u :: post) :
    Drains (g.iterNext r) (some (block ord r m u)) ((u :: post).map (fun v => (v, block ord r m v))) := by
  induction post generalizing pre u with
  | nil =>
    refine Drains.step (s' := none) ?_ (Drains.done rfl)
    unfold ReachGraph.iterNext
    simp only [show (block ord r m u).src = u from rfl]
    rw [H.nextReachables hs]
    rfl
  | cons v post ih =>
    refine Drains.step (s' := some (block ord r m v)) ?_ (ih (pre := pre ++ [u]) (by rw [hs]; simp))
    unfold ReachGraph.iterNext
    simp only [show (block ord r m u).src = u from rfl]
    rw [H.nextReachables hs]
    rfl

theorem iter (H : Inv g S ord r m) : ∃ s, g.iterNew r = .ok s ∧
    Drains (g.iterNext r) s (ord.map (fun v => (v, block ord r m v))) := by
  unfold ReachGraph.iterNew ReachGraph.first
  have hc := H.cont
  cases ho : ord with
  | nil =>
    subst ho
    rw [hc]
    exact ⟨none, rfl, Drains.done rfl⟩
  | cons u post =>
    have hu : u ∈ S.V := (H.ordering.mem u).1 (by rw [ho]; simp)
    have hh : g.contents.head? = some u := by
      rw [hc]
      generalize pay ord r m = F
      rw [ho]; rfl
    rw [hh]
    simp only
    rw [H.reachables hu, bind_ok]
    refine ⟨_, rfl, ?_⟩
    rw [← ho]
    have := H.iter_from (pre := []) ho
    rw [← ho] at this
    exact this

end Inv

end ReachGraph
end Verif
