import Verif.Lemmas.DomsetSize
import Verif.Lemmas.StableSort
import Verif.Spec.DomRule
/-!
# The greedy rule followed by the domination loops
-/
namespace Verif
open SGraph

theorem IsMin.of_iff {P Q : ℕ → Prop} {k : ℕ} (h : IsMin P k) (hpq : ∀ k, P k ↔ Q k) : IsMin Q k := by
  obtain rfl : P = Q := funext fun k => propext (hpq k)
  exact h

theorem IsMin.le {P : ℕ → Prop} {k j : ℕ} (h : IsMin P k) (hj : P j) : k ≤ j := Nat.le_of_not_lt fun hlt => h.2 j hlt hj

theorem IsMin.of {P : ℕ → Prop} {k : ℕ} (h : P k) (hle : ∀ j, P j → k ≤ j) : IsMin P k :=
  ⟨h, fun m hm hp => absurd (hle m hp) (by omega)⟩

theorem IsMin.or_eq {P : ℕ → Prop} {k b : ℕ} (h : IsMin P k) : IsMin (fun j => P j ∨ j = b) (min k b) := by
  refine .of ?_ ?_
  · rcases Nat.le_total k b with hle | hle
    · rw [Nat.min_eq_left hle]; exact Or.inl h.1
    · rw [Nat.min_eq_right hle]; exact Or.inr rfl
  · rintro j (hj | rfl)
    · exact (min_le_left _ _).trans (h.le hj)
    · exact min_le_right _ _

/-! ## Determinism of the rule -/

section
variable {V : Finset ℕ} {R : ℕ → ℕ → ℕ → Prop} {T : ℕ → Prop} {r c : ℕ}

theorem DomStep.unique (hR : ∀ v u d, R v u d → u ∈ V) {J J1 J2 : Finset ℕ} {μ ν μ1 μ2 : ℕ → ℕ} {v : ℕ} (hv : v ∈ V)
    (hμ : ∀ x ∈ V, μ x = ν x) (h1 : DomStep V R r c J μ v J1 μ1) (h2 : DomStep V R r c J ν v J2 μ2) :
    J1 = J2 ∧ ∀ x ∈ V, μ1 x = μ2 x := by
  obtain ⟨k, hk, h1⟩ := h1
  obtain ⟨j, hj, h2⟩ := h2
  have hkj : k = j := by
    refine hk.unique (hj.of_iff fun i => ?_)
    rw [hμ v hv]
    refine or_congr_right (exists_congr fun u => exists_congr fun d => and_congr_right fun h => ?_)
    rw [hμ u (hR v u d h)]
  subst hkj
  rcases h1 with ⟨a1, rfl, a3⟩ | ⟨a1, rfl, a3⟩ <;> rcases h2 with ⟨b1, rfl, b3⟩ | ⟨b1, rfl, b3⟩
  · refine ⟨rfl, fun x hx => ?_⟩
    rw [a3 x hx, b3 x hx, hμ x hx]
  · omega
  · omega
  · refine ⟨rfl, fun x hx => (a3 x hx).unique ?_⟩
    rw [hμ x hx]
    exact b3 x hx

theorem DomRun.unique (hR : ∀ v u d, R v u d → u ∈ V) : ∀ {l : List ℕ} {J J' : Finset ℕ} {μ μ' : ℕ → ℕ}, (∀ v ∈ l, v ∈ V) →
    DomRun V R T r c l J μ → DomRun V R T r c l J' μ' → J = J' ∧ ∀ x ∈ V, μ x = μ' x := by
  intro l
  induction l with
  | nil =>
    intro J J' μ μ' _ h h'
    cases h with
    | nil a1 a2 =>
      cases h' with
      | nil b1 b2 =>
        refine ⟨rfl, fun x hx => ?_⟩
        by_cases ht : T x
        · rw [a1 x hx ht, b1 x hx ht]
        · rw [a2 x hx ht, b2 x hx ht]
  | cons v l ih =>
    intro J J' μ μ' hl h h'
    cases h with
    | cons a1 a2 =>
      cases h' with
      | cons b1 b2 =>
        obtain ⟨rfl, h2⟩ := ih (fun x hx => hl x (by simp [hx])) a1 b1
        exact a2.unique hR (hl v (by simp)) h2 b2

end

namespace Dom

/-- The value of `x` is the least number satisfying `P`. -/
def Has (dist : HMap ℕ ℕ) (x : ℕ) (P : ℕ → Prop) : Prop := ∃ k, dist.get? x = some k ∧ IsMin P k

theorem Has.congr {dist : HMap ℕ ℕ} {x : ℕ} {P Q : ℕ → Prop} (h : Has dist x P) (hpq : ∀ k, P k ↔ Q k) : Has dist x Q := by
  obtain ⟨k, h1, h2⟩ := h
  exact ⟨k, h1, h2.of_iff hpq⟩

theorem Has.insert_min {dist : HMap ℕ ℕ} {a k b x : ℕ} {P : ℕ → Prop} (hk : dist.get? a = some k) (h : Has dist x P) :
    Has (dist.insert a (min k b)) x (fun j => P j ∨ (x = a ∧ j = b)) := by
  obtain ⟨k', h1, h2⟩ := h
  by_cases hx : x = a
  · subst hx
    rw [hk] at h1
    cases h1
    refine ⟨min k b, by rw [HMap.get?_insert, if_pos rfl], h2.or_eq.of_iff fun j => ?_⟩
    simp
  · refine ⟨k', by rw [HMap.get?_insert, if_neg hx]; exact h1, h2.of_iff fun j => ?_⟩
    simp [hx]

theorem Has.relax {dist dist' : HMap ℕ ℕ} {e : ℕ × ℕ} {x : ℕ} {P : ℕ → Prop} (hr : LinGraph.domRelax dist e = .ok dist')
    (h : Has dist x P) : Has dist' x (fun j => P j ∨ (x, j) = e) := by
  obtain ⟨k, hk, rfl⟩ := domRelax_of_ok hr
  refine (h.insert_min (b := e.2) hk).congr fun j => ?_
  rw [Prod.ext_iff]

theorem Has.relaxAll {dist dist' : HMap ℕ ℕ} {es : List (ℕ × ℕ)} {x : ℕ} {P : ℕ → Prop}
    (hr : es.foldlM LinGraph.domRelax dist = .ok dist') (h : Has dist x P) : Has dist' x (fun j => P j ∨ (x, j) ∈ es) := by
  refine foldlM_of_ok (fun (p : List (ℕ × ℕ)) (m : HMap ℕ ℕ) => Has m x (fun j => P j ∨ (x, j) ∈ p)) (h.congr (by simp)) ?_ hr
  intro pre a post m m' _ h1 h2
  refine (h1.relax h2).congr fun j => ?_
  rw [List.mem_append, List.mem_singleton, or_assoc]

theorem Has.zero {dist : HMap ℕ ℕ} {x a : ℕ} {P : ℕ → Prop} (ha : ∃ k, dist.get? a = some k) (h : Has dist x P) :
    Has (dist.insert a 0) x (fun j => P j ∨ (j = 0 ∧ x = a)) := by
  obtain ⟨k, hk⟩ := ha
  have := h.insert_min (b := 0) hk
  rw [Nat.min_zero] at this
  exact this.congr fun j => or_congr_right and_comm

/-- Looking at all in-neighbours of `v`. -/
theorem Has.pull {dist dist' : HMap ℕ ℕ} {es : List (ℕ × ℕ)} {v : ℕ} {kv : ℕ} (hv : dist.get? v = some kv)
    (hes : ∀ e ∈ es, e.1 ≠ v) (hr : es.foldlM (LinGraph.domPull v) dist = .ok dist') :
    (∀ x, x ≠ v → dist'.get? x = dist.get? x) ∧
      Has dist' v (fun k => k = kv ∨ ∃ e ∈ es, ∃ ku, dist.get? e.1 = some ku ∧ k = e.2 + ku) := by
  refine foldlM_of_ok (fun (p : List (ℕ × ℕ)) (m : HMap ℕ ℕ) => (∀ x, x ≠ v → m.get? x = dist.get? x) ∧
    Has m v (fun k => k = kv ∨ ∃ e ∈ p, ∃ ku, dist.get? e.1 = some ku ∧ k = e.2 + ku)) ⟨fun _ _ => rfl, kv, hv, ?_⟩ ?_ hr
  · exact .of (Or.inl rfl) (by simp)
  · rintro pre a post m m' hl ⟨h1, h2⟩ hstep
    obtain ⟨k, ku, hk, hu, rfl⟩ := domPull_of_ok hstep
    have hav : a.1 ≠ v := hes a (by rw [hl]; simp)
    refine ⟨fun x hx => by rw [HMap.get?_insert, if_neg hx]; exact h1 x hx, ?_⟩
    refine (h2.insert_min (b := a.2 + ku) hk).congr fun j => ?_
    rw [h1 a.1 hav] at hu
    constructor
    · rintro ((h | ⟨e, he, h⟩) | ⟨-, h⟩)
      · exact Or.inl h
      · exact Or.inr ⟨e, by simp [he], h⟩
      · exact Or.inr ⟨a, by simp, ku, hu, h⟩
    · rintro (h | ⟨e, he, ku', h', h⟩)
      · exact Or.inl (Or.inl h)
      · rcases List.mem_append.1 he with he | he
        · exact Or.inl (Or.inr ⟨e, he, ku', h', h⟩)
        · rw [List.mem_singleton] at he
          subst he
          rw [hu] at h'
          cases h'
          exact Or.inr ⟨rfl, h⟩

/-- Effect of one in-neighbour `e` of a vertex that joins, on the set and the distances. -/
def Pushed (R : ℕ → ℕ → ℕ → Prop) (e : ℕ × ℕ) (D : HSet ℕ) (dist : HMap ℕ ℕ) (D' : HSet ℕ) (dist' : HMap ℕ ℕ) : Prop :=
  ∃ d1, LinGraph.domRelax dist e = .ok d1 ∧ ((D' = D ∧ dist' = d1) ∨
    (e.1 ∉ D ∧ D' = D.insert e.1 ∧ ∃ es : List (ℕ × ℕ), (∀ x k, (x, k) ∈ es ↔ R e.1 x k) ∧
      es.foldlM LinGraph.domRelax (d1.insert e.1 0) = .ok dist'))

variable {V : Finset ℕ} {R : ℕ → ℕ → ℕ → Prop} {T : ℕ → Prop} {r c : ℕ}

theorem pushes {β : Type} {f : β → ℕ × ℕ → Res β} (dom : β → HSet ℕ) (dst : β → HMap ℕ ℕ)
    (hf : ∀ b e b', e.1 ∈ V → f b e = .ok b' → Pushed R e (dom b) (dst b) (dom b') (dst b')) {es : List (ℕ × ℕ)} (hes : ∀ e ∈ es, e.1 ∈ V)
    {b b' : β} (hrun : es.foldlM f b = .ok b') (h0 : ∀ x ∈ V, ∃ k, (dst b).get? x = some k) :
    (∀ x, x ∈ dom b → x ∈ dom b') ∧ ∀ x ∈ V, Has (dst b') x (fun k => (dst b).get? x = some k ∨ (x, k) ∈ es ∨
      ∃ a, a ∈ dom b' ∧ a ∉ dom b ∧ ((k = 0 ∧ x = a) ∨ R a x k)) := by
  refine foldlM_of_ok (fun (p : List (ℕ × ℕ)) (t : β) => (∀ x, x ∈ dom b → x ∈ dom t) ∧ ∀ x ∈ V, Has (dst t) x (fun k =>
    (dst b).get? x = some k ∨ (x, k) ∈ p ∨ ∃ a, a ∈ dom t ∧ a ∉ dom b ∧ ((k = 0 ∧ x = a) ∨ R a x k)))
    ⟨fun _ h => h, fun x hx => ?_⟩ ?_ hrun
  · obtain ⟨k, hk⟩ := h0 x hx
    refine ⟨k, hk, .of (Or.inl hk) ?_⟩
    rintro j (hj | hj | ⟨a, h1, h2, -⟩)
    · rw [hk] at hj; cases hj; exact le_refl _
    · simp at hj
    · exact absurd h1 h2
  · rintro pre e post t t' hl ⟨h1, h2⟩ hstep
    have heV := hes e (by rw [hl]; simp)
    obtain ⟨d1, hd1, hcase⟩ := hf t e t' heV hstep
    rcases hcase with ⟨hD, hd⟩ | ⟨heD, hD, es', hes', hd⟩
    · rw [hD, hd]
      refine ⟨h1, fun x hx => ((h2 x hx).relax hd1).congr fun j => ?_⟩
      rw [List.mem_append, List.mem_singleton]
      generalize (∃ a, a ∈ dom t ∧ a ∉ dom b ∧ ((j = 0 ∧ x = a) ∨ R a x j)) = q
      tauto
    · rw [hD]
      refine ⟨fun x hx => HSet.mem_insert.2 (Or.inr (h1 x hx)), fun x hx => ?_⟩
      have hk1 : ∃ k, d1.get? e.1 = some k := by
        obtain ⟨k, hk, rfl⟩ := domRelax_of_ok hd1
        exact ⟨_, by rw [HMap.get?_insert, if_pos rfl]⟩
      refine ((((h2 x hx).relax hd1).zero hk1).relaxAll hd).congr fun j => ?_
      rw [hes', List.mem_append, List.mem_singleton]
      constructor
      · rintro ((((h | h | ⟨a, a1, a2, a3⟩) | h) | ⟨h, h'⟩) | h)
        · exact Or.inl h
        · exact Or.inr (Or.inl (Or.inl h))
        · exact Or.inr (Or.inr ⟨a, HSet.mem_insert.2 (Or.inr a1), a2, a3⟩)
        · exact Or.inr (Or.inl (Or.inr h))
        · exact Or.inr (Or.inr ⟨e.1, HSet.mem_insert.2 (Or.inl rfl), fun hc => heD (h1 _ hc), Or.inl ⟨h, h'⟩⟩)
        · exact Or.inr (Or.inr ⟨e.1, HSet.mem_insert.2 (Or.inl rfl), fun hc => heD (h1 _ hc), Or.inr h⟩)
      · rintro (h | (h | h) | ⟨a, a1, a2, a3⟩)
        · exact Or.inl (Or.inl (Or.inl (Or.inl h)))
        · exact Or.inl (Or.inl (Or.inl (Or.inr (Or.inl h))))
        · exact Or.inl (Or.inl (Or.inr h))
        · rcases HSet.mem_insert.1 a1 with rfl | a1
          · rcases a3 with a3 | a3
            · exact Or.inl (Or.inr a3)
            · exact Or.inr a3
          · exact Or.inl (Or.inl (Or.inl (Or.inr (Or.inr ⟨a, a1, a2, a3⟩))))

/-- The set and the distances after processing `pre`. -/
structure RunInv (V : Finset ℕ) (R : ℕ → ℕ → ℕ → Prop) (T : ℕ → Prop) (r c : ℕ) (pre : List ℕ) (J : Finset ℕ) (D : HSet ℕ)
    (dist : HMap ℕ ℕ) : Prop where
  run : ∃ μ, DomRun V R T r c pre.reverse J μ ∧ ∀ x ∈ V, dist.get? x = some (μ x)
  zero : ∀ x ∈ D, dist.get? x = some 0
  hop : ∀ s ∈ D, ∀ x k, R s x k → ∃ j ≤ k, dist.get? x = some j
  dset : ∀ x, x ∈ D ↔ Generated R c J x
  dom : ∀ x ∈ D, x ∈ V

/-- A vertex that is dominated already. -/
theorem RunInv.skip {pre : List ℕ} {J : Finset ℕ} {D : HSet ℕ} {dist dist' : HMap ℕ ℕ} {v : ℕ} {es : List (ℕ × ℕ)}
    (h : RunInv V R T r c pre J D dist) (hv : v ∈ V) (hR : ∀ v u d, R v u d → u ∈ V ∧ u ≠ v) (hes : ∀ x k, (x, k) ∈ es ↔ R v x k)
    (hrun : es.foldlM (LinGraph.domPull v) dist = .ok dist') {k : ℕ} (hk : dist'.get? v = some k) (hkr : k ≤ r) :
    RunInv V R T r c (pre ++ [v]) J D dist' := by
  obtain ⟨μ, h1, h2⟩ := h.run
  obtain ⟨h3, k', hk', h4⟩ := Has.pull (h2 v hv) (fun e he => (hR v e.1 e.2 ((hes _ _).1 he)).2) hrun
  rw [hk] at hk'
  cases hk'
  have hmin : IsMin (fun k => k = μ v ∨ ∃ u d, R v u d ∧ k = d + μ u) k := by
    refine h4.of_iff fun j => or_congr_right ⟨?_, ?_⟩
    · rintro ⟨e, he, ku, hku, rfl⟩
      have he' := (hes e.1 e.2).1 he
      rw [h2 e.1 (hR _ _ _ he').1] at hku
      cases hku
      exact ⟨e.1, e.2, he', rfl⟩
    · rintro ⟨u, d, hud, rfl⟩
      exact ⟨(u, d), (hes u d).2 hud, _, h2 u (hR _ _ _ hud).1, rfl⟩
  have hdown : ∀ x j, dist.get? x = some j → ∃ i ≤ j, dist'.get? x = some i := by
    intro x j hj
    by_cases hx : x = v
    · subst hx
      rw [h2 x hv] at hj
      cases hj
      exact ⟨k, hmin.le (Or.inl rfl), hk⟩
    · exact ⟨j, le_refl _, by rw [h3 x hx]; exact hj⟩
  refine ⟨⟨fun x => if x = v then k else μ x, ?_, fun x hx => ?_⟩, fun x hx => ?_, fun s hs x j hj => ?_, h.dset, h.dom⟩
  · rw [List.reverse_append]
    exact .cons h1 ⟨k, hmin, Or.inl ⟨hkr, rfl, fun x _ => rfl⟩⟩
  · beta_reduce
    split
    · rename_i he; rw [he]; exact hk
    · rename_i he; rw [h3 x he]; exact h2 x hx
  · obtain ⟨i, hi, hi'⟩ := hdown x 0 (h.zero x hx)
    rw [hi', Nat.le_zero.1 hi]
  · obtain ⟨i, hi, hi'⟩ := h.hop s hs x j hj
    obtain ⟨i', hi1, hi2⟩ := hdown x i hi'
    exact ⟨i', by omega, hi2⟩

/-- A vertex that joins. -/
theorem RunInv.join {β : Type} {f : β → ℕ × ℕ → Res β} (dom : β → HSet ℕ) (dst : β → HMap ℕ ℕ)
    (hf : ∀ b e b', e.1 ∈ V → f b e = .ok b' → Pushed R e (dom b) (dst b) (dom b') (dst b'))
    {pre : List ℕ} {J : Finset ℕ} {D : HSet ℕ} {dist dist' : HMap ℕ ℕ} {v : ℕ} {es : List (ℕ × ℕ)}
    (h : RunInv V R T r c pre J D dist) (hv : v ∈ V) (hR : ∀ v u d, R v u d → u ∈ V ∧ u ≠ v) (hes : ∀ x k, (x, k) ∈ es ↔ R v x k)
    (hpull : es.foldlM (LinGraph.domPull v) dist = .ok dist') {k : ℕ} (hk : dist'.get? v = some k) (hkr : r < k)
    {b b' : β} (hbD : dom b = D.insert v) (hbd : dst b = dist'.insert v 0) (hrun : es.foldlM f b = .ok b')
    (hset : ∀ x, x ∈ dom b' ↔ Generated R c (insert v J) x) :
    RunInv V R T r c (pre ++ [v]) (insert v J) (dom b') (dst b') := by
  obtain ⟨μ, h1, h2⟩ := h.run
  obtain ⟨h3, k', hk', h4⟩ := Has.pull (h2 v hv) (fun e he => (hR v e.1 e.2 ((hes _ _).1 he)).2) hpull
  rw [hk] at hk'
  cases hk'
  have hmin : IsMin (fun k => k = μ v ∨ ∃ u d, R v u d ∧ k = d + μ u) k := by
    refine h4.of_iff fun j => or_congr_right ⟨?_, ?_⟩
    · rintro ⟨e, he, ku, hku, rfl⟩
      have he' := (hes e.1 e.2).1 he
      rw [h2 e.1 (hR _ _ _ he').1] at hku
      cases hku
      exact ⟨e.1, e.2, he', rfl⟩
    · rintro ⟨u, d, hud, rfl⟩
      exact ⟨(u, d), (hes u d).2 hud, _, h2 u (hR _ _ _ hud).1, rfl⟩
  have hb0 : ∀ x ∈ V, (dst b).get? x = some (if x = v then 0 else μ x) := by
    intro x hx
    rw [hbd, HMap.get?_insert]
    split
    · rfl
    · rename_i he; rw [h3 x he, h2 x hx]
  obtain ⟨hsub, hfin⟩ := pushes dom dst hf (fun e he => (hR v e.1 e.2 ((hes _ _).1 he)).1) hrun (fun x hx => ⟨_, hb0 x hx⟩)
  have hvD : v ∈ dom b' := hsub v (by rw [hbD]; exact HSet.mem_insert.2 (Or.inl rfl))
  have hDD : ∀ x ∈ D, x ∈ dom b' := fun x hx => hsub x (by rw [hbD]; exact HSet.mem_insert.2 (Or.inr hx))
  have hgV : ∀ x, x ∈ dom b' → x ∈ V := by
    intro x hx
    rcases (hset x).1 hx with hx | ⟨A, hA, hA'⟩
    · rcases Finset.mem_insert.1 hx with rfl | hx
      · exact hv
      · exact h.dom x ((h.dset x).2 (Or.inl hx))
    · obtain ⟨s, hs⟩ := Finset.card_pos.1 (lt_of_le_of_lt (Nat.zero_le _) hA')
      obtain ⟨-, d, hd⟩ := (hA s).1 hs
      exact (hR s x d hd).1
  have hfin' : ∀ x ∈ V, Has (dst b') x (fun k => k = μ x ∨ (k = 0 ∧ Generated R c (insert v J) x) ∨
      ∃ s, Generated R c (insert v J) s ∧ R s x k) := by
    intro x hx
    obtain ⟨j, hj, hm⟩ := hfin x hx
    refine ⟨j, hj, .of ?_ ?_⟩
    · rcases hm.1 with h5 | h5 | ⟨a, a1, -, a3⟩
      · rw [hb0 x hx] at h5
        cases h5
        split
        · rename_i he; subst he; exact Or.inr (Or.inl ⟨rfl, (hset x).1 hvD⟩)
        · exact Or.inl rfl
      · exact Or.inr (Or.inr ⟨v, (hset v).1 hvD, (hes _ _).1 h5⟩)
      · rcases a3 with ⟨a3, rfl⟩ | a3
        · exact Or.inr (Or.inl ⟨a3, (hset x).1 a1⟩)
        · exact Or.inr (Or.inr ⟨a, (hset a).1 a1, a3⟩)
    · have hb1 : j ≤ (if x = v then 0 else μ x) := hm.le (Or.inl (hb0 x hx))
      have hbμ : j ≤ μ x := by
        split at hb1
        · omega
        · exact hb1
      rintro i (rfl | ⟨rfl, hi⟩ | ⟨s, hs, hi⟩)
      · exact hbμ
      · have hxD := (hset x).2 hi
        by_cases hxb : x ∈ dom b
        · rw [hbD] at hxb
          rcases HSet.mem_insert.1 hxb with rfl | hxb
          · rw [if_pos rfl] at hb1; exact hb1
          · have := h.zero x hxb
            rw [h2 x hx, Option.some_inj] at this
            omega
        · exact hm.le (Or.inr (Or.inr ⟨x, hxD, hxb, Or.inl ⟨rfl, rfl⟩⟩))
      · have hsD := (hset s).2 hs
        by_cases hsb : s ∈ dom b
        · rw [hbD] at hsb
          rcases HSet.mem_insert.1 hsb with rfl | hsb
          · exact hm.le (Or.inr (Or.inl ((hes _ _).2 hi)))
          · obtain ⟨i', hi1, hi2⟩ := h.hop s hsb x i hi
            rw [h2 x hx] at hi2
            cases hi2
            omega
        · exact hm.le (Or.inr (Or.inr ⟨s, hsD, hsb, Or.inr hi⟩))
  refine ⟨⟨fun x => ((dst b').get? x).getD 0, ?_, fun x hx => ?_⟩, fun x hx => ?_, fun s hs x j hj => ?_, hset, hgV⟩
  · rw [List.reverse_append]
    refine .cons h1 ⟨k, hmin, Or.inr ⟨hkr, rfl, fun x hx => ?_⟩⟩
    obtain ⟨j, hj, hm⟩ := hfin' x hx
    beta_reduce
    rw [hj]
    exact hm
  · obtain ⟨j, hj, -⟩ := hfin' x hx
    beta_reduce
    rw [hj]
    rfl
  · obtain ⟨j, hj, hm⟩ := hfin' x (hgV x hx)
    have := hm.le (Or.inr (Or.inl ⟨rfl, (hset x).1 hx⟩))
    rw [hj, Nat.le_zero.1 this]
  · obtain ⟨i, hi, hm⟩ := hfin' x (hR s x j hj).1
    exact ⟨i, hm.le (Or.inr (Or.inr ⟨s, (hset s).1 hs, hj⟩)), hi⟩

/-! ## Linear graphs -/

section
variable {S : SGraph} {ord : List ℕ} {ws : HMap ℕ (HMap ℕ ℕ)} {M : ℕ}

/-- Weak reachability within `M` steps. -/
def Wr (S : SGraph) (ord : List ℕ) (M v u d : ℕ) : Prop := S.WReach ord v u d ∧ d ≤ M

theorem wr_props (O : S.Ordering ord) (v u d : ℕ) (h : Wr S ord M v u d) : u ∈ S.V ∧ u ≠ v := by
  refine ⟨h.1.left_mem O, ?_⟩
  rintro rfl
  exact lt_irrefl _ h.1.1

theorem domPush_pushed (O : S.Ordering ord) (Tb : LinGraph.LRep.WTab S ord ws M) {cutoff : ℕ} {ρ : ℕ → Shuffle (ℕ × ℕ)}
    (st : LinGraph.DomState) (e : ℕ × ℕ) (st' : LinGraph.DomState) (heV : e.1 ∈ S.V)
    (h : LinGraph.domPush cutoff ws ρ st e = .ok st') : Pushed (Wr S ord M) e st.domset st.dist st'.domset st'.dist := by
  obtain ⟨W', hW', -, hWm, -⟩ := wtab_entries O Tb (ρ e.1) heV
  unfold LinGraph.domPush at h
  cases hc : st.counter.get? e.1 with
  | none => rw [hc] at h; cases h
  | some c =>
    rw [hc, unwrap_some, bind_ok] at h
    unfold add32 at h
    split at h
    · rw [bind_ok] at h
      cases hr : LinGraph.domRelax st.dist e with
      | error => rw [hr] at h; cases h
      | ok dist =>
        rw [hr, bind_ok] at h
        split at h
        · next hcond =>
          rw [hW', unwrap_some, bind_ok] at h
          cases hf : ((ρ e.1).run W'.entries).foldlM LinGraph.domRelax (dist.insert e.1 0) with
          | error => rw [hf] at h; cases h
          | ok dist' =>
            rw [hf] at h
            cases h
            rw [Bool.and_eq_true, Bool.not_eq_true', ← Bool.not_eq_true, HSet.contains_iff] at hcond
            exact ⟨dist, hr, Or.inr ⟨hcond.2, rfl, _, fun x k => hWm (x, k), hf⟩⟩
        · cases h
          exact ⟨dist, hr, Or.inl ⟨rfl, rfl⟩⟩
    · cases h

theorem generated_of_cnt (O : S.Ordering ord) {cutoff : ℕ} {pre : List ℕ} {st : LinGraph.DomState}
    (h : CntInv S ord M cutoff pre st) {J : Finset ℕ} (hJ : ∀ x, x ∈ J ↔ x ∈ st.scattered) (x : ℕ) :
    x ∈ st.domset ↔ Generated (Wr S ord M) cutoff J x := by
  classical
  have hset : ∀ s, s ∈ st.scattered.toFinset.filter (fun s => ∃ d ≤ M, S.WReach ord s x d) ↔
      s ∈ J ∧ ∃ d, Wr S ord M s x d := by
    intro s
    rw [Finset.mem_filter, HSet.mem_toFinset, hJ]
    exact and_congr_right fun _ => exists_congr fun d => and_comm
  unfold Generated
  rw [h.dset x, hJ]
  refine or_congr_right ⟨?_, ?_⟩
  · rintro ⟨k, hk, hk'⟩
    refine ⟨_, hset, ?_⟩
    rw [h.cnt x k hk] at hk'
    exact hk'
  · rintro ⟨A, hA, hA'⟩
    have hAe : A = st.scattered.toFinset.filter (fun s => ∃ d ≤ M, S.WReach ord s x d) := by
      ext s
      rw [hA, hset]
    obtain ⟨s, hs⟩ := Finset.card_pos.1 (lt_of_le_of_lt (Nat.zero_le _) hA')
    obtain ⟨-, d, hd⟩ := (hA s).1 hs
    obtain ⟨k, hk⟩ := HMap.mem_keys_iff.1 (h.keys x (wr_props O s x d hd).1)
    refine ⟨k, hk, ?_⟩
    rw [h.cnt x k hk]
    rw [hAe] at hA'
    exact hA'

theorem phase_rule (O : S.Ordering ord) (Tb : LinGraph.LRep.WTab S ord ws M) {ρ : ℕ → Shuffle (ℕ × ℕ)} {cutoff r : ℕ}
    {target : HSet ℕ} {order : List ℕ} (hnd : order.Nodup) (hord : ∀ x, x ∈ order ↔ x ∈ S.V) {st : LinGraph.DomState}
    (hrun : LinGraph.domPhase target r (r + 1) cutoff ws ρ order = .ok st) :
    ∃ J μ, DomRun S.V (Wr S ord M) (· ∈ target) r cutoff order.reverse J μ ∧ (∀ x, x ∈ J ↔ x ∈ st.scattered) ∧
      (∀ x, x ∈ st.domset ↔ Generated (Wr S ord M) cutoff J x) ∧ ∀ x ∈ S.V, st.dist.get? x = some (μ x) := by
  unfold LinGraph.domPhase at hrun
  have h := foldlM_of_ok (fun (pre : List ℕ) (st : LinGraph.DomState) => CntInv S ord M cutoff pre st ∧
    ∃ J, (∀ x, x ∈ J ↔ x ∈ st.scattered) ∧ RunInv S.V (Wr S ord M) (· ∈ target) r cutoff pre J st.domset st.dist) ?_ ?_ hrun
  · obtain ⟨-, J, h1, h2⟩ := h
    obtain ⟨μ, h3, h4⟩ := h2.run
    exact ⟨J, μ, h3, h1, h2.dset, h4⟩
  · refine ⟨CntInv.init hord, ∅, fun x => ?_, ⟨⟨fun x => if target.contains x then r + 1 else r, .nil ?_ ?_, fun x hx => ?_⟩, ?_, ?_, fun x => ?_, ?_⟩⟩
    · simp only [Finset.notMem_empty, false_iff]
      exact HSet.not_mem_empty
    · intro x _ hx
      rw [if_pos (HSet.contains_iff.2 hx)]
    · intro x _ hx
      rw [if_neg (fun hc => hx (HSet.contains_iff.1 hc))]
    · have := get?_foldl_insert (f := fun v => if target.contains v then r + 1 else r) (l := order) x
      rw [if_pos ((hord x).2 hx)] at this
      exact this
    · intro x hx; exact absurd hx HSet.not_mem_empty
    · intro x hx; exact absurd hx HSet.not_mem_empty
    · refine ⟨fun hx => absurd hx HSet.not_mem_empty, ?_⟩
      rintro (hx | ⟨A, hA, hA'⟩)
      · exact absurd hx (Finset.notMem_empty x)
      · obtain ⟨s, hs⟩ := Finset.card_pos.1 (lt_of_le_of_lt (Nat.zero_le _) hA')
        exact absurd ((hA s).1 hs).1 (Finset.notMem_empty s)
    · intro x hx; exact absurd hx HSet.not_mem_empty
  · rintro pre v post st st' hl ⟨h1, J, hJ, h2⟩ hstep
    have hv : v ∈ S.V := (hord v).1 (by rw [hl]; simp)
    have hvp : v ∉ pre := by
      rw [hl, List.nodup_append] at hnd
      exact fun hc => hnd.2.2 v hc v (by simp) rfl
    have h1' := h1.round O Tb hv hvp hstep
    refine ⟨h1', ?_⟩
    obtain ⟨W, hW, -, hWm, -⟩ := wtab_entries O Tb (ρ v) hv
    unfold LinGraph.domRound at hstep
    rw [hW, unwrap_some, bind_ok] at hstep
    cases hp : ((ρ v).run W.entries).foldlM (LinGraph.domPull v) st.dist with
    | error => rw [hp] at hstep; cases hstep
    | ok dist =>
      rw [hp, bind_ok] at hstep
      cases hd : dist.get? v with
      | none => rw [hd] at hstep; cases hstep
      | some dv =>
        rw [hd, unwrap_some, bind_ok] at hstep
        split at hstep
        · next hle =>
          cases hstep
          exact ⟨J, hJ, h2.skip hv (wr_props O) (fun x k => hWm (x, k)) hp hd hle⟩
        · next hle =>
          cases ht : target.contains v with
          | false => rw [ht] at hstep; cases hstep
          | true =>
            rw [ht] at hstep
            have hsc : st'.scattered = st.scattered.insert v := by
              refine foldlM_of_ok (fun (_ : List (ℕ × ℕ)) (t : LinGraph.DomState) => t.scattered = st.scattered.insert v) rfl ?_ hstep
              intro _ e _ t t' _ ht hpu
              obtain ⟨c, -, -, h3, -⟩ := domPush_of_ok hpu
              rw [h3, ht]
            have hJ' : ∀ x, x ∈ insert v J ↔ x ∈ st'.scattered := by
              intro x
              rw [hsc, HSet.mem_insert, Finset.mem_insert, hJ]
            exact ⟨insert v J, hJ', h2.join LinGraph.DomState.domset LinGraph.DomState.dist
              (fun b e b' => domPush_pushed O Tb b e b') hv (wr_props O) (fun x k => hWm (x, k)) hp hd (by omega) rfl rfl hstep
              (generated_of_cnt O h1' hJ')⟩

/-- The processing order. -/
theorem order_rule {L : LinGraph} (H : L.LRep S ord) (hn : S.V.card ≤ 2 ^ 31) {o : List ℕ} (ho : L.domOrder = .ok o) :
    o.Nodup ∧ S.ByLeftDegree ord o := by
  obtain ⟨o', ho', h1, h2⟩ := order H hn
  rw [ho] at ho'
  cases ho'
  refine ⟨h1, h2, ?_⟩
  unfold LinGraph.domOrder at ho
  rw [EditGraph.mapM_ok (h := fun u => ((S.before ord u).card * S.V.card + S.deg u, u)) (fun u hu => by
    show (L.domKey u >>= fun k => pure (k, u)) = _
    rw [domKey_ok H hn hu]; rfl), bind_ok] at ho
  cases ho
  have hst := stable_sort H.rep.vnodup (fun u => (S.before ord u).card * S.V.card + S.deg u)
  refine hst.imp_of_mem fun {a b} ha hb hab => ?_
  have hda := deg_lt H ((h2 a).1 ha)
  have hdb := deg_lt H ((h2 b).1 hb)
  rw [H.verts] at hab
  rcases Nat.lt_trichotomy (S.before ord b).card (S.before ord a).card with hlt | heq | hgt
  · exact Or.inl hlt
  · refine Or.inr ⟨heq, ?_⟩
    rw [heq] at hab
    omega
  · exfalso
    have := Nat.mul_le_mul_right S.V.card hgt
    rw [Nat.succ_mul] at this
    omega

theorem byLeftDegree_unique {o o' : List ℕ} (h : S.ByLeftDegree ord o) (h' : S.ByLeftDegree ord o') : o = o' := by
  have hnd : ∀ {o : List ℕ}, S.ByLeftDegree ord o → o.Nodup := by
    intro o h
    exact h.2.imp fun {a b} hab he => by subst he; omega
  have hp : o.Perm o' := (List.perm_ext_iff_of_nodup (hnd h) (hnd h')).2 fun x => (h.1 x).trans (h'.1 x).symm
  refine List.Perm.eq_of_pairwise ?_ h.2 h'.2 hp
  intro a b _ _ h1 h2
  omega

end

end Dom
end Verif
