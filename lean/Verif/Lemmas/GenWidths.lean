import Verif.Lemmas.Width
import Mathlib.Order.Interval.Finset.Nat
/-!
# Reachable sets for the natural ordering of `0..n-1`
-/
namespace Verif
namespace SGraph
variable {S : SGraph} {P : ℕ → Prop} {n : ℕ}

theorem idxOf_range {u : ℕ} (h : u < n) : (List.range n).idxOf u = u := by
  have h1 : (List.range n)[u]'(by simpa using h) = u := List.getElem_range _
  have := List.nodup_range (n := n) |>.idxOf_getElem u (by simpa using h)
  rwa [h1] at this

/-- The graph has the vertices `0..n-1`. -/
def OnRange (S : SGraph) (n : ℕ) : Prop := ∀ u, u ∈ S.V ↔ u < n

theorem OnRange.card (h : S.OnRange n) : S.V.card = n := by
  have : S.V = Finset.range n := by ext u; rw [h u, Finset.mem_range]
  rw [this, Finset.card_range]

theorem OnRange.ordering (h : S.OnRange n) : S.Ordering (List.range n) :=
  ⟨List.nodup_range, fun u => by rw [List.mem_range, h u]⟩

theorem WalkVia.natural (h : S.OnRange n) {a : ℕ} (ha : a < n) {k u v : ℕ} :
    S.WalkVia (fun x => (List.range n).idxOf a < (List.range n).idxOf x) k u v ↔ S.WalkVia (fun x => a < x) k u v := by
  constructor
  · intro w
    induction w with
    | one e => exact .one e
    | cons e hw w ih =>
      refine .cons e ?_ ih
      have := (h _).1 e.right
      rwa [idxOf_range ha, idxOf_range this] at hw
  · intro w
    induction w with
    | one e => exact .one e
    | cons e hw w ih =>
      refine .cons e ?_ ih
      have := (h _).1 e.right
      rwa [idxOf_range ha, idxOf_range this]

/-- Strong reachability within distance `r` for the natural ordering. -/
theorem sreach_natural (h : S.OnRange n) {u v r : ℕ} (hu : u < n) (hv : v < n) :
    (∃ d ≤ r, S.SReach (List.range n) u v d) ↔ v < u ∧ ∃ k ≤ r, S.WalkVia (fun x => u < x) k u v := by
  constructor
  · rintro ⟨d, hd, hs⟩
    obtain ⟨h1, h2⟩ := sreach_walk.1 hs
    rw [idxOf_range hu, idxOf_range hv] at h1
    exact ⟨h1, d, hd, (WalkVia.natural h hu).1 h2.1⟩
  · rintro ⟨h1, k, hk, w⟩
    obtain ⟨d, hd, hm⟩ := IsMin.exists_le (P := fun k => S.WalkVia (fun x => (List.range n).idxOf u < (List.range n).idxOf x) k u v)
      ((WalkVia.natural h hu).2 w)
    exact ⟨d, hd.trans hk, sreach_walk.2 ⟨by rwa [idxOf_range hu, idxOf_range hv], hm⟩⟩

/-- Weak reachability within distance `r` for the natural ordering. -/
theorem wreach_natural (h : S.OnRange n) {u v r : ℕ} (hu : u < n) (hv : v < n) :
    (∃ d ≤ r, S.WReach (List.range n) u v d) ↔ v < u ∧ ∃ k ≤ r, S.WalkVia (fun x => v < x) k u v := by
  constructor
  · rintro ⟨d, hd, hs⟩
    obtain ⟨h1, h2⟩ := wreach_walk.1 hs
    rw [idxOf_range hu, idxOf_range hv] at h1
    exact ⟨h1, d, hd, (WalkVia.natural h hv).1 h2.1⟩
  · rintro ⟨h1, k, hk, w⟩
    obtain ⟨d, hd, hm⟩ := IsMin.exists_le (P := fun k => S.WalkVia (fun x => (List.range n).idxOf v < (List.range n).idxOf x) k u v)
      ((WalkVia.natural h hv).2 w)
    exact ⟨d, hd.trans hk, wreach_walk.2 ⟨by rwa [idxOf_range hu, idxOf_range hv], hm⟩⟩

variable {ord : List ℕ}

/-- If every edge spans at most `b` positions of the ordering, a walk through later vertices ends within `b` positions. -/
theorem WalkVia.span {b : ℕ} (hb : ∀ u v, S.Adj u v → ord.idxOf v < ord.idxOf u → ord.idxOf u ≤ ord.idxOf v + b) {c k u v : ℕ}
    (w : S.WalkVia (fun x => ord.idxOf c < ord.idxOf x) k u v) (hu : ord.idxOf c ≤ ord.idxOf u) (hv : ord.idxOf v < ord.idxOf c) :
    ord.idxOf c ≤ ord.idxOf v + b := by
  induction w with
  | one e => have := hb _ _ e (by omega); omega
  | cons e hw w ih => exact ih (by omega) hv

theorem WalkVia.span_mul {b : ℕ} (hb : ∀ u v, S.Adj u v → ord.idxOf v < ord.idxOf u → ord.idxOf u ≤ ord.idxOf v + b) {k u v : ℕ}
    (w : S.WalkVia P k u v) : ord.idxOf u ≤ ord.idxOf v + k * b := by
  have key : ∀ u v, S.Adj u v → ord.idxOf u ≤ ord.idxOf v + b := fun u v e => by
    by_cases h : ord.idxOf v < ord.idxOf u
    · exact hb u v e h
    · omega
  induction w with
  | one e => have := key _ _ e; omega
  | @cons n u w v e hw t ih =>
    have := key _ _ e
    rw [Nat.succ_mul]
    omega

/-- Few vertices lie within `b` positions before a given one. -/
theorem Ordering.card_near (O : S.Ordering ord) (u b : ℕ) {X : Finset ℕ} (hX : X ⊆ S.V)
    (h : ∀ v ∈ X, ord.idxOf v < ord.idxOf u ∧ ord.idxOf u ≤ ord.idxOf v + b) : X.card ≤ b := by
  have h1 : X.card ≤ (Finset.Ico (ord.idxOf u - b) (ord.idxOf u)).card := by
    refine Finset.card_le_card_of_injOn (fun v => ord.idxOf v) (fun v hv => ?_) (fun v hv v' _ e => O.idxOf_inj (hX hv) e)
    have := h v hv
    refine Finset.mem_coe.2 (Finset.mem_Ico.2 (?_ : ord.idxOf u - b ≤ ord.idxOf v ∧ ord.idxOf v < ord.idxOf u))
    omega
  rw [Nat.card_Ico] at h1
  omega

/-- A graph of treewidth at most `k` has a vertex of degree at most `k` in every non-empty part. -/
theorem TreewidthLE.degIn {k : ℕ} (hl : S.Loopless) (h : S.TreewidthLE k) {W : Finset ℕ} (hW : W ⊆ S.V) (hne : W.Nonempty) :
    ∃ w ∈ W, S.degIn W w ≤ k := by
  classical
  obtain ⟨ord, O, h⟩ := (treewidth_iff hl k).1 h
  obtain ⟨w, hw, hmax⟩ := Finset.exists_max_image W (fun x => ord.idxOf x) hne
  refine ⟨w, hw, le_trans (Finset.card_le_card fun v hv => ?_) (h w (hW hw))⟩
  obtain ⟨hvW, ha⟩ := Finset.mem_filter.1 hv
  refine Finset.mem_filter.2 ⟨hW hvW, .of_adj ha (lt_of_le_of_ne (hmax v hvW) fun e => ?_)⟩
  rw [O.idxOf_inj (hW hvW) e] at ha
  exact hl _ ha

/-- The treewidth is less than the treedepth. -/
theorem TreedepthLE.treewidth {k : ℕ} (hl : S.Loopless) (h : S.TreedepthLE (k + 1)) : S.TreewidthLE k := by
  classical
  obtain ⟨ord, O, h⟩ := wr_of_treedepth hl h
  refine (treewidth_iff hl k).2 ⟨ord, O, fun v hv => ?_⟩
  refine le_trans (Finset.card_le_card fun u hu => ?_) (Nat.le_of_succ_le_succ (h v hv))
  obtain ⟨h1, d, h2⟩ := Finset.mem_filter.1 hu
  obtain ⟨d', -, h3⟩ := h2.weak
  exact Finset.mem_filter.2 ⟨h1, d', h3⟩

end SGraph
end Verif
