import Verif.Spec.Core
import Verif.Lemmas.Components
import Verif.Props.Operations
import Mathlib.Data.Finset.Prod
import Mathlib.Algebra.BigOperators.Ring.Finset
import Mathlib.Algebra.Order.BigOperators.Group.Finset
/-!
# Products of graphs: degrees, walks, colourings, degeneracy
-/
namespace Verif
open EditGraph

/-- `P` is a product of `S` and `T` with adjacency `Q`, where `e` names the pair of each id below `N`; ids without
neighbours need not be vertices of `P`. -/
structure IsProduct (P S T : SGraph) (Q : ℕ × ℕ → ℕ × ℕ → Prop) (e : ℕ → ℕ × ℕ) (N : ℕ) : Prop where
  inj : ∀ i j, i < N → j < N → e i = e j → i = j
  surj : ∀ p : ℕ × ℕ, p.1 ∈ S.V → p.2 ∈ T.V → ∃ i < N, e i = p
  left : ∀ i < N, (e i).1 ∈ S.V
  right : ∀ i < N, (e i).2 ∈ T.V
  adj : ∀ i j, P.Adj i j ↔ i < N ∧ j < N ∧ Q (e i) (e j)
  verts : ∀ i, i ∈ P.V ↔ ∃ j, P.Adj i j

theorem ProductMap.isProduct {h : EditGraph} {inv : HMap Vertex (Vertex × Vertex)} {P S T : SGraph} (A : Abs h P)
    (hM : ProductMap inv S T) {Q : ℕ × ℕ → ℕ × ℕ → Prop} (hA : ProductAdj h inv Q)
    (hV : ∀ i, h.contains i = true ↔ i < S.V.card * T.V.card ∧ ∃ j, h.adjacent i j = true) :
    ∃ e, IsProduct P S T Q e (S.V.card * T.V.card) ∧ ∀ i p, inv.get? i = some p ↔ i < S.V.card * T.V.card ∧ e i = p := by
  obtain ⟨h1, h2, h3⟩ := hM
  have hadj : ∀ i j, h.adjacent i j = true ↔ P.Adj i j := fun i j => by rw [A.adjacent, decide_eq_true_eq]
  have hcon : ∀ i, h.contains i = true ↔ i ∈ P.V := fun i => by rw [A.contains, decide_eq_true_eq]
  have he : ∀ i p, inv.get? i = some p ↔ i < S.V.card * T.V.card ∧ (inv.get? i).getD (0, 0) = p := by
    intro i p
    rw [← h1 i]
    constructor
    · intro h; exact ⟨⟨p, h⟩, by rw [h]; rfl⟩
    · rintro ⟨⟨p', h⟩, h'⟩; rw [h] at h' ⊢; exact congrArg some h'
  refine ⟨fun i => (inv.get? i).getD (0, 0), ⟨?_, ?_, ?_, ?_, ?_, ?_⟩, he⟩
  · intro i j hi hj hij
    exact h3 i j _ ((he i _).2 ⟨hi, hij⟩) ((he j _).2 ⟨hj, rfl⟩)
  · intro p hp1 hp2
    obtain ⟨i, hi⟩ := (h2 p).2 ⟨hp1, hp2⟩
    exact ⟨i, ((he i p).1 hi).1, ((he i p).1 hi).2⟩
  · intro i hi; exact ((h2 _).1 ⟨i, (he i _).2 ⟨hi, rfl⟩⟩).1
  · intro i hi; exact ((h2 _).1 ⟨i, (he i _).2 ⟨hi, rfl⟩⟩).2
  · intro i j
    rw [← hadj, hA i j]
    constructor
    · rintro ⟨p, q, hp, hq, hQ⟩
      obtain ⟨q1, q2⟩ := (he i p).1 hp
      obtain ⟨q3, q4⟩ := (he j q).1 hq
      exact ⟨q1, q3, by rw [q2, q4]; exact hQ⟩
    · rintro ⟨hi, hj, hQ⟩
      exact ⟨_, _, (he i _).2 ⟨hi, rfl⟩, (he j _).2 ⟨hj, rfl⟩, hQ⟩
  · intro i
    rw [← hcon, hV i]
    simp only [hadj]
    constructor
    · exact fun h => h.2
    · rintro ⟨j, hj⟩
      refine ⟨?_, j, hj⟩
      obtain ⟨p, -, hp, -⟩ := (hA i j).1 ((hadj i j).2 hj)
      exact ((he i p).1 hp).1

namespace IsProduct
variable {P S T : SGraph} {Q : ℕ × ℕ → ℕ × ℕ → Prop} {e : ℕ → ℕ × ℕ} {N : ℕ}

theorem lt (I : IsProduct P S T Q e N) {i : ℕ} (hi : i ∈ P.V) : i < N := by
  obtain ⟨j, hj⟩ := (I.verts i).1 hi
  exact ((I.adj i j).1 hj).1

/-- The neighbours of `i`, as pairs. -/
theorem nbrs_card [DecidableRel Q] (I : IsProduct P S T Q e N) {i : ℕ} (hi : i < N) :
    (P.nbrs i).card = ((S.V ×ˢ T.V).filter (fun q => Q (e i) q)).card := by
  refine Finset.card_bij (fun j _ => e j) ?_ ?_ ?_
  · intro j hj
    obtain ⟨-, q2, q3⟩ := (I.adj i j).1 (SGraph.mem_nbrs.1 hj)
    rw [Finset.mem_filter, Finset.mem_product]
    exact ⟨⟨I.left j q2, I.right j q2⟩, q3⟩
  · intro j hj j' hj' he
    exact I.inj j j' ((I.adj i j).1 (SGraph.mem_nbrs.1 hj)).2.1 ((I.adj i j').1 (SGraph.mem_nbrs.1 hj')).2.1 he
  · intro q hq
    rw [Finset.mem_filter, Finset.mem_product] at hq
    obtain ⟨j, hj, rfl⟩ := I.surj q hq.1.1 hq.1.2
    exact ⟨j, SGraph.mem_nbrs.2 ((I.adj i j).2 ⟨hi, hj, hq.2⟩), rfl⟩

theorem sum_nbrs [DecidableRel Q] (I : IsProduct P S T Q e N) :
    ∑ i ∈ P.V, (P.nbrs i).card = ∑ p ∈ S.V ×ˢ T.V, ((S.V ×ˢ T.V).filter (fun q => Q p q)).card := by
  have h1 : ∑ i ∈ P.V, (P.nbrs i).card = ∑ i ∈ Finset.range N, (P.nbrs i).card := by
    refine Finset.sum_subset (fun i hi => Finset.mem_range.2 (I.lt hi)) ?_
    intro i _ hi
    rw [Finset.card_eq_zero, Finset.eq_empty_iff_forall_notMem]
    intro j hj
    exact hi ((I.verts i).2 ⟨j, SGraph.mem_nbrs.1 hj⟩)
  rw [h1]
  refine Finset.sum_bij (fun i _ => e i) ?_ ?_ ?_ ?_
  · intro i hi
    rw [Finset.mem_product]
    exact ⟨I.left i (Finset.mem_range.1 hi), I.right i (Finset.mem_range.1 hi)⟩
  · intro i hi j hj hij
    exact I.inj i j (Finset.mem_range.1 hi) (Finset.mem_range.1 hj) hij
  · intro q hq
    rw [Finset.mem_product] at hq
    obtain ⟨j, hj, rfl⟩ := I.surj q hq.1 hq.2
    exact ⟨j, Finset.mem_range.2 hj, rfl⟩
  · intro i hi
    exact I.nbrs_card (Finset.mem_range.1 hi)

end IsProduct

instance (S T : SGraph) : DecidableRel (CartAdj S T) := fun p q => by unfold CartAdj; infer_instance
instance (S T : SGraph) : DecidableRel (LexAdj S T) := fun p q => by unfold LexAdj; infer_instance

theorem cart_card {S T : SGraph} (hS : S.Loopless) {p : ℕ × ℕ} (h1 : p.1 ∈ S.V) (h2 : p.2 ∈ T.V) :
    ((S.V ×ˢ T.V).filter (fun q => CartAdj S T p q)).card = (S.nbrs p.1).card + (T.nbrs p.2).card := by
  have he : (S.V ×ˢ T.V).filter (fun q => CartAdj S T p q) = (S.nbrs p.1 ×ˢ {p.2}) ∪ ({p.1} ×ˢ T.nbrs p.2) := by
    ext ⟨a, b⟩
    rw [Finset.mem_filter]
    simp only [Finset.mem_product, Finset.mem_union, Finset.mem_singleton, SGraph.mem_nbrs, CartAdj]
    constructor
    · rintro ⟨-, ⟨rfl, h⟩ | ⟨rfl, h⟩⟩
      · exact Or.inr ⟨rfl, h⟩
      · exact Or.inl ⟨h, rfl⟩
    · rintro (⟨h, rfl⟩ | ⟨rfl, h⟩)
      · exact ⟨⟨h.right, h2⟩, Or.inr ⟨rfl, h⟩⟩
      · exact ⟨⟨h1, h.right⟩, Or.inl ⟨rfl, h⟩⟩
  rw [he, Finset.card_union_of_disjoint, Finset.card_product, Finset.card_product, Finset.card_singleton,
    Finset.card_singleton, Nat.mul_one, Nat.one_mul]
  rw [Finset.disjoint_left]
  rintro ⟨a, b⟩ ha hb
  simp only [Finset.mem_product, Finset.mem_singleton, SGraph.mem_nbrs] at ha hb
  exact hS _ (hb.1 ▸ ha.1)

theorem lex_card {S T : SGraph} (hT : T.Loopless) {p : ℕ × ℕ} (h2 : p.2 ∈ T.V) :
    ((S.V ×ˢ T.V).filter (fun q => LexAdj S T p q)).card = (S.nbrs p.1).card + S.V.card * (T.nbrs p.2).card := by
  have he : (S.V ×ˢ T.V).filter (fun q => LexAdj S T p q) = (S.nbrs p.1 ×ˢ {p.2}) ∪ (S.V ×ˢ T.nbrs p.2) := by
    ext ⟨a, b⟩
    rw [Finset.mem_filter]
    simp only [Finset.mem_product, Finset.mem_union, Finset.mem_singleton, SGraph.mem_nbrs, LexAdj]
    constructor
    · rintro ⟨hV, h | ⟨rfl, h⟩⟩
      · exact Or.inr ⟨hV.1, h⟩
      · exact Or.inl ⟨h, rfl⟩
    · rintro (⟨h, rfl⟩ | ⟨hV, h⟩)
      · exact ⟨⟨h.right, h2⟩, Or.inr ⟨rfl, h⟩⟩
      · exact ⟨⟨hV, h.right⟩, Or.inl h⟩
  rw [he, Finset.card_union_of_disjoint, Finset.card_product, Finset.card_product, Finset.card_singleton, Nat.mul_one]
  rw [Finset.disjoint_left]
  rintro ⟨a, b⟩ ha hb
  simp only [Finset.mem_product, Finset.mem_singleton, SGraph.mem_nbrs] at ha hb
  exact hT _ (ha.2 ▸ hb.2)

theorem SGraph.Loopless.deg {S : SGraph} (h : S.Loopless) (u : ℕ) : S.deg u = (S.nbrs u).card := by
  rw [SGraph.deg_eq, if_neg (h u), Nat.add_zero]

theorem SGraph.Loopless.sum_nbrs {S : SGraph} (h : S.Loopless) : ∑ u ∈ S.V, (S.nbrs u).card = 2 * S.E.card := by
  rw [← SGraph.sum_deg]
  exact Finset.sum_congr rfl fun u _ => (h.deg u).symm

namespace IsProduct
variable {P S T : SGraph} {e : ℕ → ℕ × ℕ} {N : ℕ}

theorem loopless_cart (I : IsProduct P S T (CartAdj S T) e N) (hS : S.Loopless) (hT : T.Loopless) : P.Loopless := by
  intro i hi
  rcases ((I.adj i i).1 hi).2.2 with ⟨-, h⟩ | ⟨-, h⟩
  · exact hT _ h
  · exact hS _ h

theorem loopless_lex (I : IsProduct P S T (LexAdj S T) e N) (hS : S.Loopless) (hT : T.Loopless) : P.Loopless := by
  intro i hi
  rcases ((I.adj i i).1 hi).2.2 with h | ⟨-, h⟩
  · exact hT _ h
  · exact hS _ h

theorem edges_cart (I : IsProduct P S T (CartAdj S T) e N) (hS : S.Loopless) (hT : T.Loopless) :
    P.E.card = S.V.card * T.E.card + T.V.card * S.E.card := by
  have h := (I.loopless_cart hS hT).sum_nbrs
  rw [I.sum_nbrs, Finset.sum_congr rfl (g := fun p => (S.nbrs p.1).card + (T.nbrs p.2).card)
    (fun p hp => cart_card hS (Finset.mem_product.1 hp).1 (Finset.mem_product.1 hp).2), Finset.sum_add_distrib,
    Finset.sum_product_right, Finset.sum_product] at h
  simp only [hS.sum_nbrs, hT.sum_nbrs, Finset.sum_const, smul_eq_mul] at h
  have e1 : T.V.card * (2 * S.E.card) = 2 * (T.V.card * S.E.card) := by ac_rfl
  have e2 : S.V.card * (2 * T.E.card) = 2 * (S.V.card * T.E.card) := by ac_rfl
  omega

theorem edges_lex (I : IsProduct P S T (LexAdj S T) e N) (hS : S.Loopless) (hT : T.Loopless) :
    P.E.card = S.V.card * S.V.card * T.E.card + T.V.card * S.E.card := by
  have h := (I.loopless_lex hS hT).sum_nbrs
  rw [I.sum_nbrs, Finset.sum_congr rfl (g := fun p => (S.nbrs p.1).card + S.V.card * (T.nbrs p.2).card)
    (fun p hp => lex_card hT (Finset.mem_product.1 hp).2), Finset.sum_add_distrib,
    Finset.sum_product_right, Finset.sum_product] at h
  have e3 : ∑ y ∈ T.V, S.V.card * (T.nbrs y).card = S.V.card * (2 * T.E.card) := by
    rw [← Finset.mul_sum, hT.sum_nbrs]
  simp only [hS.sum_nbrs, e3, Finset.sum_const, smul_eq_mul] at h
  have e1 : T.V.card * (2 * S.E.card) = 2 * (T.V.card * S.E.card) := by ac_rfl
  have e2 : S.V.card * (S.V.card * (2 * T.E.card)) = 2 * (S.V.card * S.V.card * T.E.card) := by ac_rfl
  omega

/-- Walks of the Cartesian product interleave walks of the factors. -/
theorem walk_cart (I : IsProduct P S T (CartAdj S T) e N) {i j n : ℕ} (hi : i < N) (hj : j < N) :
    Walk P.Adj n i j ↔ ∃ a b, a + b = n ∧ Walk S.Adj a (e i).1 (e j).1 ∧ Walk T.Adj b (e i).2 (e j).2 := by
  constructor
  · intro h
    induction h with
    | nil u => exact ⟨0, 0, rfl, .nil _, .nil _⟩
    | @cons n u w v h t ih =>
      obtain ⟨-, hw, hQ⟩ := (I.adj u w).1 h
      obtain ⟨a, b, hab, h1, h2⟩ := ih hw hj
      rcases hQ with ⟨q1, q2⟩ | ⟨q1, q2⟩
      · exact ⟨a, b + 1, by omega, q1 ▸ h1, .cons q2 h2⟩
      · exact ⟨a + 1, b, by omega, .cons q2 h1, q1 ▸ h2⟩
  · rintro ⟨a, b, rfl, h1, h2⟩
    have first : ∀ {a u v}, Walk S.Adj a u v → ∀ i k, i < N → k < N → (e i).1 = u → (e k).1 = v → (e i).2 = (e k).2 →
        Walk P.Adj a i k := by
      intro a u v h
      induction h with
      | nil u =>
        intro i k hi hk h1 h2 h3
        obtain rfl : i = k := I.inj i k hi hk (Prod.ext (h1.trans h2.symm) h3)
        exact .nil _
      | @cons n u w v h t ih =>
        intro i k hi hk h1 h2 h3
        obtain ⟨l, hl, hle⟩ := I.surj (w, (e i).2) h.right (I.right i hi)
        refine .cons ((I.adj i l).2 ⟨hi, hl, Or.inr ?_⟩) (ih l k hl hk (by rw [hle]) h2 (by rw [hle]; exact h3))
        rw [hle]; exact ⟨rfl, h1 ▸ h⟩
    have second : ∀ {b x y}, Walk T.Adj b x y → ∀ i k, i < N → k < N → (e i).2 = x → (e k).2 = y → (e i).1 = (e k).1 →
        Walk P.Adj b i k := by
      intro b x y h
      induction h with
      | nil u =>
        intro i k hi hk h1 h2 h3
        obtain rfl : i = k := I.inj i k hi hk (Prod.ext h3 (h1.trans h2.symm))
        exact .nil _
      | @cons n u w v h t ih =>
        intro i k hi hk h1 h2 h3
        obtain ⟨l, hl, hle⟩ := I.surj ((e i).1, w) (I.left i hi) h.right
        refine .cons ((I.adj i l).2 ⟨hi, hl, Or.inl ?_⟩) (ih l k hl hk (by rw [hle]) h2 (by rw [hle]; exact h3))
        rw [hle]; exact ⟨rfl, h1 ▸ h⟩
    obtain ⟨l, hl, hle⟩ := I.surj ((e j).1, (e i).2) (I.left j hj) (I.right i hi)
    exact (first h1 i l hi hl rfl (by rw [hle]) (by rw [hle])).append
      (second h2 l j hl hj (by rw [hle]) rfl (by rw [hle]))

theorem twoColourable_cart (I : IsProduct P S T (CartAdj S T) e N) (hS : S.V.Nonempty) (hT : T.V.Nonempty) :
    P.TwoColourable ↔ S.TwoColourable ∧ T.TwoColourable := by
  classical
  constructor
  · rintro ⟨f, hf⟩
    obtain ⟨a, ha⟩ := hS
    obtain ⟨b, hb⟩ := hT
    have hx : ∀ p : ℕ × ℕ, ∃ i, p.1 ∈ S.V → p.2 ∈ T.V → i < N ∧ e i = p := by
      intro p
      by_cases h : p.1 ∈ S.V ∧ p.2 ∈ T.V
      · obtain ⟨i, hi⟩ := I.surj p h.1 h.2
        exact ⟨i, fun _ _ => hi⟩
      · exact ⟨0, fun h1 h2 => absurd ⟨h1, h2⟩ h⟩
    choose d hd using hx
    constructor
    · refine ⟨fun u => f (d (u, b)), fun u v h => hf _ _ ?_⟩
      obtain ⟨q1, q2⟩ := hd (u, b) h.left hb
      obtain ⟨q3, q4⟩ := hd (v, b) h.right hb
      exact (I.adj _ _).2 ⟨q1, q3, Or.inr (by rw [q2, q4]; exact ⟨rfl, h⟩)⟩
    · refine ⟨fun u => f (d (a, u)), fun u v h => hf _ _ ?_⟩
      obtain ⟨q1, q2⟩ := hd (a, u) ha h.left
      obtain ⟨q3, q4⟩ := hd (a, v) ha h.right
      exact (I.adj _ _).2 ⟨q1, q3, Or.inl (by rw [q2, q4]; exact ⟨rfl, h⟩)⟩
  · rintro ⟨⟨f, hf⟩, g, hg⟩
    refine ⟨fun i => f (e i).1 ^^ g (e i).2, fun i j h => ?_⟩
    beta_reduce
    rcases ((I.adj i j).1 h).2.2 with ⟨q1, q2⟩ | ⟨q1, q2⟩
    · have := hg _ _ q2
      rw [q1]
      cases hx : f (e j).1 <;> cases hy : g (e i).2 <;> cases hz : g (e j).2 <;> simp_all
    · have := hf _ _ q2
      rw [q1]
      cases hx : g (e j).2 <;> cases hy : f (e i).1 <;> cases hz : f (e j).1 <;> simp_all

/-- If the degeneracy is `k`, some nonempty set of vertices induces minimum degree at least `k`. -/
theorem _root_.Verif.SGraph.IsDegeneracy.attained {S : SGraph} {k : ℕ} (h : S.IsDegeneracy k) (hS : S.V.Nonempty) :
    ∃ W, W ⊆ S.V ∧ W.Nonempty ∧ ∀ w ∈ W, k ≤ S.degIn W w := by
  rcases Nat.eq_zero_or_pos k with rfl | hk
  · exact ⟨S.V, Finset.Subset.refl _, hS, fun _ _ => Nat.zero_le _⟩
  · have := mt (h.2 (k - 1)) (by omega)
    push Not at this
    obtain ⟨W, hW, hne, h3⟩ := this
    exact ⟨W, hW, hne, fun w hw => by have := h3 w hw; omega⟩

/-- The degeneracy of a Cartesian product is the sum of the degeneracies. -/
theorem degeneracy_cart (I : IsProduct P S T (CartAdj S T) e N) (hSl : S.Loopless) (hS : S.V.Nonempty)
    (hT : T.V.Nonempty) {c d : ℕ} (hc : S.IsDegeneracy c) (hd : T.IsDegeneracy d) : P.IsDegeneracy (c + d) := by
  classical
  constructor
  · intro W hW hne
    have hne' : (W.image (fun i => (e i).1)).Nonempty := hne.image _
    have hsub : W.image (fun i => (e i).1) ⊆ S.V := by
      intro u hu
      obtain ⟨i, hi, rfl⟩ := Finset.mem_image.1 hu
      exact I.left i (I.lt (hW hi))
    obtain ⟨u, hu, hud⟩ := hc.1 _ hsub hne'
    obtain ⟨i₀, hi₀, hiu⟩ := Finset.mem_image.1 hu
    have hfib : ((W.filter (fun i => (e i).1 = u)).image (fun i => (e i).2)).Nonempty :=
      ⟨(e i₀).2, Finset.mem_image.2 ⟨i₀, Finset.mem_filter.2 ⟨hi₀, hiu⟩, rfl⟩⟩
    have hfsub : (W.filter (fun i => (e i).1 = u)).image (fun i => (e i).2) ⊆ T.V := by
      intro x hx
      obtain ⟨i, hi, rfl⟩ := Finset.mem_image.1 hx
      exact I.right i (I.lt (hW (Finset.mem_filter.1 hi).1))
    obtain ⟨x, hx, hxd⟩ := hd.1 _ hfsub hfib
    obtain ⟨i, hi, hix⟩ := Finset.mem_image.1 hx
    rw [Finset.mem_filter] at hi
    refine ⟨i, hi.1, ?_⟩
    refine le_trans ?_ (Nat.add_le_add hud hxd)
    unfold SGraph.degIn
    have hinj : ∀ (Z : Finset ℕ), (∀ k ∈ Z, k < N) → (Z.image e).card = Z.card := by
      intro Z hZ
      exact Finset.card_image_of_injOn fun a ha b hb hab => I.inj a b (hZ a ha) (hZ b hb) hab
    rw [← hinj _ (fun k hk => ((I.adj i k).1 (Finset.mem_filter.1 hk).2).2.1)]
    have hincl : (W.filter (fun v => P.Adj i v)).image e ⊆
        (((W.image (fun i => (e i).1)).filter (fun v => S.Adj u v)) ×ˢ {x}) ∪
        ({u} ×ˢ (((W.filter (fun i => (e i).1 = u)).image (fun i => (e i).2)).filter (fun v => T.Adj x v))) := by
      intro q hq
      obtain ⟨k, hk, rfl⟩ := Finset.mem_image.1 hq
      rw [Finset.mem_filter] at hk
      simp only [Finset.mem_union, Finset.mem_product, Finset.mem_filter, Finset.mem_singleton, Finset.mem_image]
      rcases ((I.adj i k).1 hk.2).2.2 with ⟨q1, q2⟩ | ⟨q1, q2⟩
      · exact Or.inr ⟨by rw [← q1, hi.2], ⟨k, ⟨hk.1, by rw [← q1, hi.2]⟩, rfl⟩, hix ▸ q2⟩
      · exact Or.inl ⟨⟨⟨k, hk.1, rfl⟩, hi.2 ▸ q2⟩, by rw [← q1, hix]⟩
    refine (Finset.card_le_card hincl).trans ((Finset.card_union_le _ _).trans ?_)
    rw [Finset.card_product, Finset.card_product, Finset.card_singleton, Finset.card_singleton, Nat.mul_one, Nat.one_mul]
  · intro k' hk'
    obtain ⟨A, hA, ⟨a, ha⟩, hAd⟩ := hc.attained hS
    obtain ⟨B, hB, ⟨b, hb⟩, hBd⟩ := hd.attained hT
    rcases Nat.eq_zero_or_pos (c + d) with h0 | hpos
    · omega
    let W := (Finset.range N).filter (fun i => (e i).1 ∈ A ∧ (e i).2 ∈ B)
    have hdeg : ∀ i ∈ W, c + d ≤ P.degIn W i := by
      intro i hi
      obtain ⟨hiN, hiA, hiB⟩ := Finset.mem_filter.1 hi
      rw [Finset.mem_range] at hiN
      refine (Nat.add_le_add (hAd _ hiA) (hBd _ hiB)).trans ?_
      unfold SGraph.degIn
      have hdisj : Disjoint ((A.filter (fun v => S.Adj (e i).1 v)) ×ˢ {(e i).2})
          ({(e i).1} ×ˢ (B.filter (fun v => T.Adj (e i).2 v))) := by
        rw [Finset.disjoint_left]
        rintro ⟨x, y⟩ hx hy
        simp only [Finset.mem_product, Finset.mem_singleton, Finset.mem_filter] at hx hy
        exact hSl _ (hy.1 ▸ hx.1.2)
      have hcard := Finset.card_union_of_disjoint hdisj
      rw [Finset.card_product, Finset.card_product, Finset.card_singleton, Finset.card_singleton, Nat.mul_one,
        Nat.one_mul] at hcard
      rw [← hcard]
      refine le_trans (Finset.card_le_card ?_) (Finset.card_image_le (f := e))
      rintro ⟨x, y⟩ hq
      simp only [Finset.mem_union, Finset.mem_product, Finset.mem_filter, Finset.mem_singleton] at hq
      rw [Finset.mem_image]
      rcases hq with ⟨⟨q1, q2⟩, rfl⟩ | ⟨rfl, q1, q2⟩
      · obtain ⟨k, hk, hke⟩ := I.surj (x, (e i).2) (hA q1) (I.right i hiN)
        refine ⟨k, ?_, hke⟩
        rw [Finset.mem_filter]
        refine ⟨Finset.mem_filter.2 ⟨Finset.mem_range.2 hk, ?_⟩, (I.adj i k).2 ⟨hiN, hk, Or.inr ?_⟩⟩
        · rw [hke]; exact ⟨q1, hiB⟩
        · rw [hke]; exact ⟨rfl, q2⟩
      · obtain ⟨k, hk, hke⟩ := I.surj ((e i).1, y) (I.left i hiN) (hB q1)
        refine ⟨k, ?_, hke⟩
        rw [Finset.mem_filter]
        refine ⟨Finset.mem_filter.2 ⟨Finset.mem_range.2 hk, ?_⟩, (I.adj i k).2 ⟨hiN, hk, Or.inl ?_⟩⟩
        · rw [hke]; exact ⟨hiA, q1⟩
        · rw [hke]; exact ⟨rfl, q2⟩
    have hWV : W ⊆ P.V := by
      intro i hi
      have := hdeg i hi
      have hpos' : 0 < P.degIn W i := by omega
      obtain ⟨j, hj⟩ := Finset.card_pos.1 hpos'
      exact (I.verts i).2 ⟨j, (Finset.mem_filter.1 hj).2⟩
    obtain ⟨i, hi, hie⟩ := I.surj (a, b) (hA ha) (hB hb)
    have hne : W.Nonempty := ⟨i, Finset.mem_filter.2 ⟨Finset.mem_range.2 hi, by rw [hie]; exact ⟨ha, hb⟩⟩⟩
    obtain ⟨w, hw, hwd⟩ := hk' W hWV hne
    exact (hdeg w hw).trans hwd

end IsProduct
end Verif
