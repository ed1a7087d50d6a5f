import Verif.Model.Algorithms
import Verif.Spec.Core
import Verif.Lemmas.Iter
/-! # Connected components -/
namespace Verif

namespace Conn
variable {R R' : ℕ → ℕ → Prop} {u v w : ℕ}

theorem refl (u : ℕ) : Conn R u u := ⟨0, .nil u⟩
theorem trans (h : Conn R u v) (h' : Conn R v w) : Conn R u w := by
  obtain ⟨n, h⟩ := h; obtain ⟨m, h'⟩ := h'; exact ⟨_, h.append h'⟩
theorem symm (hs : ∀ a b, R a b → R b a) (h : Conn R u v) : Conn R v u := by
  obtain ⟨n, h⟩ := h; exact ⟨n, h.symm hs⟩
theorem single (h : R u v) : Conn R u v := ⟨1, Walk.one_iff.2 h⟩
theorem mono (hs : ∀ a b, R a b → R' a b) (h : Conn R u v) : Conn R' u v := by
  obtain ⟨n, h⟩ := h; exact ⟨n, h.mono hs⟩

/-- Connectivity after adding one edge. -/
theorem insert_iff (hs : ∀ a b, R a b → R b a) {a b : ℕ} :
    Conn (fun x y => R x y ∨ (x = a ∧ y = b) ∨ (x = b ∧ y = a)) u v ↔
      Conn R u v ∨ (Conn R u a ∧ Conn R b v) ∨ (Conn R u b ∧ Conn R a v) := by
  constructor
  · rintro ⟨n, h⟩
    induction h with
    | nil u => exact Or.inl (refl u)
    | cons hr _ ih =>
      rcases hr with hr | ⟨rfl, rfl⟩ | ⟨rfl, rfl⟩
      · have hc : Conn R _ _ := single hr
        rcases ih with h | ⟨h1, h2⟩ | ⟨h1, h2⟩
        · exact Or.inl (hc.trans h)
        · exact Or.inr (Or.inl ⟨hc.trans h1, h2⟩)
        · exact Or.inr (Or.inr ⟨hc.trans h1, h2⟩)
      · rcases ih with h | ⟨h1, h2⟩ | ⟨h1, h2⟩
        · exact Or.inr (Or.inl ⟨refl _, h⟩)
        · exact Or.inr (Or.inl ⟨refl _, h2⟩)
        · exact Or.inl h2
      · rcases ih with h | ⟨h1, h2⟩ | ⟨h1, h2⟩
        · exact Or.inr (Or.inr ⟨refl _, h⟩)
        · exact Or.inl h2
        · exact Or.inr (Or.inr ⟨refl _, h2⟩)
  · have hm : ∀ {x y}, Conn R x y → Conn (fun x y => R x y ∨ (x = a ∧ y = b) ∨ (x = b ∧ y = a)) x y :=
      fun h => h.mono fun _ _ h => Or.inl h
    rintro (h | ⟨h1, h2⟩ | ⟨h1, h2⟩)
    · exact hm h
    · exact ((hm h1).trans (single (Or.inr (Or.inl ⟨rfl, rfl⟩)))).trans (hm h2)
    · exact ((hm h1).trans (single (Or.inr (Or.inr ⟨rfl, rfl⟩)))).trans (hm h2)

end Conn

/-- The union-find structure holds the partition of `V` into the classes of `P`. -/
structure DisjointSets.Part (D : DisjointSets) (V : ℕ → Prop) (P : ℕ → ℕ → Prop) : Prop where
  cover : ∀ v, V v ↔ ∃ c ∈ D.classes, v ∈ c
  cls : ∀ c ∈ D.classes, ∀ v ∈ c, ∀ w, w ∈ c ↔ V w ∧ P v w
  ne : ∀ c ∈ D.classes, c ≠ []
  disj : D.classes.Pairwise (fun c d => ∀ a ∈ c, a ∉ d)

namespace DisjointSets
variable {D : DisjointSets} {V : ℕ → Prop} {P : ℕ → ℕ → Prop}

theorem Part.classOf (H : D.Part V P) {v : ℕ} (hv : V v) :
    ∃ c, D.classOf v = some c ∧ c ∈ D.classes ∧ v ∈ c := by
  obtain ⟨c, hc, hvc⟩ := (H.cover v).1 hv
  have : (D.classes.find? (fun c => decide (v ∈ c))).isSome = true := by
    rw [List.find?_isSome]; exact ⟨c, hc, by simpa using hvc⟩
  obtain ⟨d, hd⟩ := Option.isSome_iff_exists.1 this
  exact ⟨d, hd, List.mem_of_find?_eq_some hd, by simpa using List.find?_some hd⟩

theorem Part.findSet (H : D.Part V P) (hs : ∀ a b, P a b → P b a) (ht : ∀ a b c, P a b → P b c → P a c)
    {u v : ℕ} (hu : V u) (hv : V v) :
    ∃ a b, D.findSet u = .ok a ∧ D.findSet v = .ok b ∧ (a = b ↔ P u v) := by
  obtain ⟨c, h1, h2, h3⟩ := H.classOf hu
  obtain ⟨d, h4, h5, h6⟩ := H.classOf hv
  obtain ⟨a, c', rfl⟩ := List.exists_cons_of_ne_nil (H.ne c h2)
  obtain ⟨b, d', rfl⟩ := List.exists_cons_of_ne_nil (H.ne d h5)
  refine ⟨a, b, by simp [DisjointSets.findSet, h1], by simp [DisjointSets.findSet, h4], ?_⟩
  have ha := ((H.cls _ h2 u h3 a).1 (by simp))
  have hb := ((H.cls _ h5 v h6 b).1 (by simp))
  constructor
  · rintro rfl; exact ht _ _ _ ha.2 (hs _ _ hb.2)
  · intro huv
    have hvc : v ∈ a :: c' := (H.cls _ h2 u h3 v).2 ⟨hv, huv⟩
    by_cases he : (a :: c') = (b :: d')
    · exact (List.cons.inj he).1
    · have : Std.Symm (fun c d : List ℕ => ∀ a ∈ c, a ∉ d) := ⟨fun _ _ h x hx hx' => h x hx' hx⟩
      exact absurd h6 (H.disj.forall h2 h5 he v hvc)

theorem Part.congr {V' : ℕ → Prop} {P' : ℕ → ℕ → Prop} (H : D.Part V P) (hV : ∀ v, V v ↔ V' v)
    (hP : ∀ u v, V u → V v → (P u v ↔ P' u v)) : D.Part V' P' where
  cover v := (hV v).symm.trans (H.cover v)
  cls c hc v hv w := by
    rw [H.cls c hc v hv w, ← hV]
    exact and_congr_right fun hw => hP v w ((H.cover v).2 ⟨c, hc, hv⟩) hw
  ne := H.ne
  disj := H.disj

theorem Part.makeSet (H : D.Part V (fun a b => a = b)) (v : ℕ) :
    (D.makeSet v).Part (fun w => V w ∨ w = v) (fun a b => a = b) := by
  unfold DisjointSets.makeSet
  by_cases hv : V v
  · have : (D.classes.any fun c => decide (v ∈ c)) = true := by
      rw [List.any_eq_true]
      obtain ⟨c, hc, h⟩ := (H.cover v).1 hv
      exact ⟨c, hc, by simpa using h⟩
    rw [if_pos this]
    refine H.congr (fun w => ⟨Or.inl, ?_⟩) (fun _ _ _ _ => Iff.rfl)
    rintro (h | rfl)
    · exact h
    · exact hv
  · have : ¬ (D.classes.any fun c => decide (v ∈ c)) = true := by
      rw [List.any_eq_true]
      rintro ⟨c, hc, h⟩
      exact hv ((H.cover v).2 ⟨c, hc, by simpa using h⟩)
    rw [if_neg this]
    refine ⟨fun w => ?_, fun c hc x hx w => ?_, fun c hc => ?_, ?_⟩
    · simp only [List.mem_cons, exists_eq_or_imp, List.not_mem_nil, or_false]
      rw [H.cover w, or_comm]
    · rcases List.mem_cons.1 hc with rfl | hc
      · simp only [List.mem_singleton] at hx ⊢
        subst hx
        constructor
        · rintro rfl; exact ⟨Or.inr rfl, rfl⟩
        · rintro ⟨-, h⟩; exact h.symm
      · rw [H.cls c hc x hx w]
        have hxV := (H.cover x).2 ⟨c, hc, hx⟩
        constructor
        · rintro ⟨h1, h2⟩; exact ⟨Or.inl h1, h2⟩
        · rintro ⟨-, rfl⟩; exact ⟨hxV, rfl⟩
    · rcases List.mem_cons.1 hc with rfl | hc
      · simp
      · exact H.ne c hc
    · refine List.pairwise_cons.2 ⟨fun d hd a ha had => ?_, H.disj⟩
      rw [List.mem_singleton] at ha
      subst ha
      exact hv ((H.cover a).2 ⟨d, hd, had⟩)

theorem Part.union (H : D.Part V P) (hs : ∀ a b, P a b → P b a)
    (ht : ∀ a b c, P a b → P b c → P a c) {u v : ℕ} (hu : V u) (hv : V v) :
    (D.union u v).Part V (fun x y => P x y ∨ (P x u ∧ P v y) ∨ (P x v ∧ P u y)) := by
  obtain ⟨c, h1, h2, h3⟩ := H.classOf hu
  obtain ⟨d, h4, h5, h6⟩ := H.classOf hv
  have hD : D.union u v = ⟨(c ++ d) :: D.classes.filter (fun e => decide (u ∉ e) && decide (v ∉ e))⟩ := by
    unfold DisjointSets.union; rw [h1, h4]
  rw [hD]
  have hc : ∀ w, w ∈ c ↔ V w ∧ P u w := H.cls c h2 u h3
  have hd : ∀ w, w ∈ d ↔ V w ∧ P v w := H.cls d h5 v h6
  refine ⟨fun w => ?_, fun e he x hx w => ?_, fun e he => ?_, ?_⟩
  · simp only [List.mem_cons, exists_eq_or_imp, List.mem_filter, Bool.and_eq_true, decide_eq_true_eq,
      List.mem_append]
    constructor
    · intro hw
      obtain ⟨e, he, hwe⟩ := (H.cover w).1 hw
      by_cases hue : u ∈ e
      · left; left; exact (hc w).2 ((H.cls e he u hue w).1 hwe)
      · by_cases hve : v ∈ e
        · left; right; exact (hd w).2 ((H.cls e he v hve w).1 hwe)
        · right; exact ⟨e, ⟨he, hue, hve⟩, hwe⟩
    · rintro ((h | h) | ⟨e, ⟨he, -⟩, hwe⟩)
      · exact ((hc w).1 h).1
      · exact ((hd w).1 h).1
      · exact (H.cover w).2 ⟨e, he, hwe⟩
  · rcases List.mem_cons.1 he with rfl | he
    · rw [List.mem_append, hc, hd] at hx ⊢
      constructor
      · rintro (⟨hw, h⟩ | ⟨hw, h⟩)
        · refine ⟨hw, ?_⟩
          rcases hx with ⟨-, hx⟩ | ⟨-, hx⟩
          · exact Or.inl (ht _ _ _ (hs _ _ hx) h)
          · exact Or.inr (Or.inr ⟨hs _ _ hx, h⟩)
        · refine ⟨hw, ?_⟩
          rcases hx with ⟨-, hx⟩ | ⟨-, hx⟩
          · exact Or.inr (Or.inl ⟨hs _ _ hx, h⟩)
          · exact Or.inl (ht _ _ _ (hs _ _ hx) h)
      · rintro ⟨hw, h | ⟨-, h⟩ | ⟨-, h⟩⟩
        · rcases hx with ⟨-, hx⟩ | ⟨-, hx⟩
          · exact Or.inl ⟨hw, ht _ _ _ hx h⟩
          · exact Or.inr ⟨hw, ht _ _ _ hx h⟩
        · exact Or.inr ⟨hw, h⟩
        · exact Or.inl ⟨hw, h⟩
    · simp only [List.mem_filter, Bool.and_eq_true, decide_eq_true_eq] at he
      obtain ⟨he, hue, hve⟩ := he
      rw [H.cls e he x hx w]
      refine and_congr_right fun hw => ⟨Or.inl, ?_⟩
      rintro (h | ⟨h, -⟩ | ⟨h, -⟩)
      · exact h
      · exact absurd ((H.cls e he x hx u).2 ⟨hu, h⟩) hue
      · exact absurd ((H.cls e he x hx v).2 ⟨hv, h⟩) hve
  · rcases List.mem_cons.1 he with rfl | he
    · intro h
      rw [List.append_eq_nil_iff] at h
      rw [h.1] at h3; cases h3
    · exact H.ne e (List.mem_filter.1 he).1
  · refine List.pairwise_cons.2 ⟨fun e he a ha hae => ?_, H.disj.filter _⟩
    simp only [List.mem_filter, Bool.and_eq_true, decide_eq_true_eq] at he
    obtain ⟨he, hue, hve⟩ := he
    rw [List.mem_append, hc, hd] at ha
    rcases ha with ⟨-, ha⟩ | ⟨-, ha⟩
    · exact hue ((H.cls e he a hae u).2 ⟨hu, hs _ _ ha⟩)
    · exact hve ((H.cls e he a hae v).2 ⟨hv, hs _ _ ha⟩)

end DisjointSets

theorem Graph.Sees.components {G : Graph} {S : SGraph} (H : G.Sees S) (σ : Shuffle (List Vertex)) :
    Ok (G.components σ) (fun cs => (∀ c ∈ cs, c.toList ≠ []) ∧
      cs.Pairwise (fun c d => ∀ a, a ∈ c → ¬ a ∈ d) ∧
      (∀ v, v ∈ S.V ↔ ∃ c ∈ cs, v ∈ c) ∧
      (∀ c ∈ cs, ∀ u, u ∈ c → ∀ v, v ∈ c ↔ Conn S.Adj u v)) := by
  unfold Graph.components
  have h0 : (G.vertices.foldl (fun (D : DisjointSets) v => D.makeSet v) ⟨[]⟩).Part (fun v => v ∈ S.V)
      (fun a b => a = b) := by
    have := foldl_inv (l := G.vertices) (b := (⟨[]⟩ : DisjointSets)) (f := fun D v => D.makeSet v)
      (fun pre D => D.Part (fun v => v ∈ pre) (fun a b => a = b))
      ⟨by simp, by simp, by simp, by simp⟩
      (fun pre a post b _ hb => (hb.makeSet a).congr (by simp) (fun _ _ _ _ => Iff.rfl))
    exact this.congr H.vmem (fun _ _ _ _ => Iff.rfl)
  obtain ⟨es, hes, henum⟩ := H.edges
  simp only [hes, bind_ok]
  have hsym : ∀ pre : List Edge, ∀ a b, ((a, b) ∈ pre ∨ (b, a) ∈ pre) → ((b, a) ∈ pre ∨ (a, b) ∈ pre) :=
    fun _ _ _ h => h.symm
  refine Ok.bind (Ok.foldlM (fun pre (D : DisjointSets) => D.Part (fun v => v ∈ S.V)
    (Conn (fun a b => (a, b) ∈ pre ∨ (b, a) ∈ pre))) ?_ ?_) ?_
  · refine h0.congr (fun _ => Iff.rfl) fun u v _ _ => ?_
    constructor
    · rintro rfl; exact Conn.refl _
    · rintro ⟨n, h⟩
      cases h with
      | nil => rfl
      | cons h _ => simp at h
  · intro pre e post D hl hD
    have he : e ∈ es := by rw [hl]; simp
    have hu := ((henum e.1 e.2).1 he).2.left
    have hv := ((henum e.1 e.2).1 he).2.right
    obtain ⟨a, b, ha, hb, hab⟩ := hD.findSet (fun _ _ h => h.symm (hsym pre)) (fun _ _ _ h h' => h.trans h') hu hv
    simp only [ha, hb, bind_ok]
    have key : ∀ u v, Conn (fun a b => (a, b) ∈ pre ++ [e] ∨ (b, a) ∈ pre ++ [e]) u v ↔
        Conn (fun a b => (a, b) ∈ pre ∨ (b, a) ∈ pre) u v ∨
        (Conn (fun a b => (a, b) ∈ pre ∨ (b, a) ∈ pre) u e.1 ∧ Conn (fun a b => (a, b) ∈ pre ∨ (b, a) ∈ pre) e.2 v) ∨
        (Conn (fun a b => (a, b) ∈ pre ∨ (b, a) ∈ pre) u e.2 ∧ Conn (fun a b => (a, b) ∈ pre ∨ (b, a) ∈ pre) e.1 v) := by
      intro u v
      rw [← Conn.insert_iff (hsym pre)]
      have : (fun a b => (a, b) ∈ pre ++ [e] ∨ (b, a) ∈ pre ++ [e]) =
          (fun x y => ((x, y) ∈ pre ∨ (y, x) ∈ pre) ∨ (x = e.1 ∧ y = e.2) ∨ (x = e.2 ∧ y = e.1)) := by
        funext x y
        obtain ⟨e1, e2⟩ := e
        simp only [List.mem_append, List.mem_singleton, Prod.mk.injEq, eq_iff_iff]
        constructor
        · rintro ((h | h) | (h | h))
          · exact Or.inl (Or.inl h)
          · exact Or.inr (Or.inl h)
          · exact Or.inl (Or.inr h)
          · exact Or.inr (Or.inr ⟨h.2, h.1⟩)
        · rintro ((h | h) | h | h)
          · exact Or.inl (Or.inl h)
          · exact Or.inr (Or.inl h)
          · exact Or.inl (Or.inr h)
          · exact Or.inr (Or.inr ⟨h.2, h.1⟩)
      rw [this]
    by_cases hab' : a = b
    · have : (a == b) = true := by simpa using hab'
      rw [if_pos this]
      refine Ok.pure (hD.congr (fun _ => Iff.rfl) fun x y _ _ => ?_)
      have he' := hab.1 hab'
      rw [key]
      refine ⟨Or.inl, ?_⟩
      rintro (h | ⟨h1, h2⟩ | ⟨h1, h2⟩)
      · exact h
      · exact (h1.trans he').trans h2
      · exact (h1.trans (he'.symm (hsym pre))).trans h2
    · have : ¬ (a == b) = true := by simpa using hab'
      rw [if_neg this]
      refine Ok.pure ((hD.union (fun _ _ h => h.symm (hsym pre))
        (fun _ _ _ h h' => h.trans h') hu hv).congr (fun _ => Iff.rfl) fun x y _ _ => (key x y).symm)
  · intro D hD
    have hD' : D.Part (fun v => v ∈ S.V) (Conn S.Adj) := by
      refine hD.congr (fun _ => Iff.rfl) fun x y _ _ => ?_
      have : (fun a b => (a, b) ∈ es ∨ (b, a) ∈ es) = S.Adj := by
        funext a b
        rw [eq_iff_iff, henum, henum]
        constructor
        · rintro (h | h)
          · exact h.2
          · exact h.2.symm
        · intro h
          rcases Nat.le_total a b with hab | hab
          · exact Or.inl ⟨hab, h⟩
          · exact Or.inr ⟨hab, h.symm⟩
      rw [this]
    refine Ok.pure ⟨?_, ?_, ?_, ?_⟩
    · intro c hc
      rw [List.mem_map] at hc
      obtain ⟨d, hd, rfl⟩ := hc
      rw [Shuffle.mem] at hd
      obtain ⟨a, d', rfl⟩ := List.exists_cons_of_ne_nil (hD'.ne d hd)
      intro h
      have : a ∈ (HSet.ofList (a :: d')).toList := by simp
      rw [h] at this; cases this
    · rw [List.pairwise_map]
      refine ((σ.perm D.classes).symm.pairwise hD'.disj ?_).imp ?_
      · intro c d h a ha ha'; exact h a ha' ha
      · intro c d h a ha; simpa using h a (by simpa using ha)
    · intro v
      rw [hD'.cover]
      simp
    · intro c hc u hu v
      rw [List.mem_map] at hc
      obtain ⟨d, hd, rfl⟩ := hc
      rw [Shuffle.mem] at hd
      rw [HSet.mem_ofList] at hu ⊢
      rw [hD'.cls d hd u hu v]
      refine ⟨And.right, fun h => ⟨?_, h⟩⟩
      obtain ⟨n, h⟩ := h
      cases n with
      | zero => rw [Walk.zero_iff] at h; subst h; exact (hD'.cover u).2 ⟨d, hd, hu⟩
      | succ n =>
        obtain ⟨w, -, hw⟩ := Walk.succ_iff_snoc.1 h
        exact hw.right

theorem Graph.Rep.components {G : Graph} {S : SGraph} (H : G.Rep S) (σ : Shuffle (List Vertex)) :
    Ok (G.components σ) (fun cs => (∀ c ∈ cs, c.toList ≠ []) ∧
      cs.Pairwise (fun c d => ∀ a, a ∈ c → ¬ a ∈ d) ∧
      (∀ v, v ∈ S.V ↔ ∃ c ∈ cs, v ∈ c) ∧
      (∀ c ∈ cs, ∀ u, u ∈ c → ∀ v, v ∈ c ↔ Conn S.Adj u v)) := H.sees.components σ

end Verif
