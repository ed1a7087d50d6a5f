import Verif.Lemmas.GenWidths
import Verif.Props.Width
import Verif.Props.GenAnalyses
import Mathlib.Order.Interval.Finset.Nat
/-!
# C134: reachable sets of the named graphs in their natural ordering

The exact values of `sreach_sizes` and `wreach_sizes` for every radius when a generated graph is laid out by
`with_ordering` in the order `0, 1, …, n-1`, and the bound given by the length of the longest edge of any ordering.
-/
namespace Verif
open SGraph EditGraph

/-- The generator call `r` succeeds, its result can be laid out in the order `0..n-1`, and for every memory layout, every
iteration order and every radius `k ≥ 1` the methods `sreach_sizes(k)` and `wreach_sizes(k)` return the maps with the keys
`0..n-1` and the values `s k v` and `w k v`. -/
def NaturalSizes (r : Res EditGraph) (n : ℕ) (s w : ℕ → ℕ → ℕ) : Prop :=
  ∃ g, r = .ok g ∧ ∀ g', EditGraph.Relayout g g' → ∃ o, OrdGraph.withOrdering g'.view (List.range n) = .ok o ∧
    ∀ o', OrdGraph.Relayout o o' → ∀ (σ τ : ℕ → ℕ → Shuffle ℕ) k, 1 ≤ k → k + 1 < 2 ^ 32 →
      (∃ m, o'.lin.sreachSizes σ τ k = .ok m ∧ ∀ v, m.get? v = if v < n then some (s k v) else none) ∧
      ∃ m, o'.lin.wreachSizes σ τ k = .ok m ∧ ∀ v, m.get? v = if v < n then some (w k v) else none

theorem Generates.sizes {r : Res EditGraph} {n : ℕ} {R : ℕ → ℕ → Prop} (h : Generates r (fun u => u < n) R)
    (hl : ∀ u, ¬ R u u) (hn : n < 2 ^ 32) {s w : ℕ → ℕ → ℕ} (T U : ℕ → ℕ → Finset ℕ)
    (hs : ∀ S : SGraph, S.OnRange n → (∀ a b, S.Adj a b ↔ R a b) → ∀ k u v, 1 ≤ k → u < n → v < u →
      ((∃ j ≤ k, S.WalkVia (fun x => u < x) j u v) ↔ v ∈ T k u) ∧ ((∃ j ≤ k, S.WalkVia (fun x => v < x) j u v) ↔ v ∈ U k u))
    (hT : ∀ k u, 1 ≤ k → u < n → (∀ v ∈ T k u, v < u) ∧ (∀ v ∈ U k u, v < u) ∧ (T k u).card = s k u ∧ (U k u).card = w k u) :
    NaturalSizes r n s w := by
  classical
  obtain ⟨g, hg, hr, hc, ha⟩ := h
  refine ⟨g, hg, fun g' hg' => ?_⟩
  obtain ⟨S, A⟩ := hr.abs
  have A' := A.relayout hg'
  have hV : S.OnRange n := fun u => by
    have := hc u
    rw [A.contains] at this
    simpa using this
  have hA : ∀ a b, S.Adj a b ↔ R a b := fun a b => by rw [← ha a b, A.adjacent]; simp
  have hlo : S.Loopless := fun u e => hl u ((hA u u).1 e)
  obtain ⟨o, ho, hR⟩ := C43_with_ordering A'.rep hlo hV.ordering.nodup hV.ordering.mem
  refine ⟨o, ho, fun o' ho' σ τ k hk hk' => ?_⟩
  have H := (hR o' ho').lin
  have hcard : S.V.card < 2 ^ 32 := by rw [hV.card]; exact hn
  constructor
  · obtain ⟨m, hm, h1, h2⟩ := C52_sreach_sizes H σ τ hk (by omega) hcard
    refine ⟨m, hm, fun v => ?_⟩
    split
    · rename_i hv
      rw [h2 v ((hV v).2 hv), ← (hT k v hk hv).2.2.1]
      congr 2
      ext x
      rw [Finset.mem_filter, hV x]
      constructor
      · rintro ⟨hx, h3⟩
        obtain ⟨h4, h5⟩ := (sreach_natural hV hv hx).1 h3
        exact (hs S hV hA k v x hk hv h4).1.1 h5
      · intro hx
        have hxv := (hT k v hk hv).1 x hx
        exact ⟨by omega, (sreach_natural hV hv (by omega)).2 ⟨hxv, (hs S hV hA k v x hk hv hxv).1.2 hx⟩⟩
    · rename_i hv
      exact HMap.get?_eq_none.2 fun hx => hv ((hV v).1 ((h1 v).1 hx))
  · obtain ⟨m, hm, h1, h2⟩ := C53_wreach_sizes H σ τ hk' hcard
    refine ⟨m, hm, fun v => ?_⟩
    split
    · rename_i hv
      rw [h2 v ((hV v).2 hv), ← (hT k v hk hv).2.2.2]
      congr 2
      ext x
      rw [Finset.mem_filter, hV x]
      constructor
      · rintro ⟨hx, h3⟩
        obtain ⟨h4, h5⟩ := (wreach_natural hV hv hx).1 h3
        exact (hs S hV hA k v x hk hv h4).2.1 h5
      · intro hx
        have hxv := (hT k v hk hv).2.1 x hx
        exact ⟨by omega, (wreach_natural hV hv (by omega)).2 ⟨hxv, (hs S hV hA k v x hk hv hxv).2.2 hx⟩⟩
    · rename_i hv
      exact HMap.get?_eq_none.2 fun hx => hv ((hV v).1 ((h1 v).1 hx))

/-- **C134 (path).** Every vertex but the first strongly reaches exactly its predecessor, for every radius, and weakly
reaches its last `k` predecessors. -/
theorem C134_path (n : ℕ) (hn : n < 2 ^ 32) : NaturalSizes (path n) n (fun _ v => min v 1) (fun k v => min v k) := by
  refine (C11_path n).sizes (fun u h => by omega) hn (fun _ u => Finset.Ico (u - 1) u) (fun k u => Finset.Ico (u - k) u)
    (fun S hV hA k u v hk hu hvu => ?_) (fun k u hk hu => ?_)
  · constructor
    · constructor
      · rintro ⟨j, hj, w⟩
        rw [Finset.mem_Ico]
        suffices key : ∀ {j a b}, S.WalkVia (fun x => u < x) j a b → u ≤ a → b < u → u ≤ b + 1 by
          have := key w le_rfl hvu; omega
        intro j a b w
        induction w with
        | one e => have := (hA _ _).1 e; omega
        | cons e hw w ih => intro h1 h2; exact ih (by omega) h2
      · intro hv
        rw [Finset.mem_Ico] at hv
        exact ⟨1, hk, .one ((hA u v).2 (by omega))⟩
    · constructor
      · rintro ⟨j, hj, w⟩
        rw [Finset.mem_Ico]
        suffices key : ∀ {j a b}, S.WalkVia (fun x => v < x) j a b → a ≤ b + j by
          have := key w; omega
        intro j a b w
        induction w with
        | one e => have := (hA _ _).1 e; omega
        | cons e hw w ih => have := (hA _ _).1 e; omega
      · intro hv
        rw [Finset.mem_Ico] at hv
        suffices key : ∀ j, v + j + 1 ≤ u → S.WalkVia (fun x => v < x) (j + 1) (v + j + 1) v by
          have e : v + (u - v - 1) + 1 = u := by omega
          have := key (u - v - 1) (by omega)
          rw [e] at this
          exact ⟨u - v - 1 + 1, by omega, this⟩
        intro j
        induction j with
        | zero => intro _; exact .one ((hA _ _).2 (by omega))
        | succ j ih => intro h; exact .cons ((hA _ _).2 (by omega)) (by omega) (ih (by omega))
  · refine ⟨fun v hv => (Finset.mem_Ico.1 hv).2, fun v hv => (Finset.mem_Ico.1 hv).2, ?_, ?_⟩ <;>
      rw [Nat.card_Ico] <;> omega

/-- `C134_path` for a small size. -/
example := C134_path 5 (by decide)

/-- **C134 (clique).** Every vertex reaches exactly its predecessors, for every radius. -/
theorem C134_clique (n : ℕ) (hn : n < 2 ^ 32) : NaturalSizes (clique n) n (fun _ v => v) (fun _ v => v) := by
  refine (C11_clique n).sizes (fun u h => h.2.2 rfl) hn (fun _ u => Finset.range u) (fun _ u => Finset.range u)
    (fun S hV hA k u v hk hu hvu => ?_) (fun k u hk hu => ?_)
  · have e := (hA u v).2 (by omega)
    exact ⟨⟨fun _ => Finset.mem_range.2 hvu, fun _ => ⟨1, hk, .one e⟩⟩, ⟨fun _ => Finset.mem_range.2 hvu, fun _ => ⟨1, hk, .one e⟩⟩⟩
  · exact ⟨fun v hv => Finset.mem_range.1 hv, fun v hv => Finset.mem_range.1 hv, Finset.card_range u, Finset.card_range u⟩

/-- `C134_clique` for a small size. -/
example := C134_clique 5 (by decide)

/-- **C134 (independent set).** No vertex reaches another one. -/
theorem C134_independent (n : ℕ) (hn : n < 2 ^ 32) :
    NaturalSizes (.ok (independent n)) n (fun _ _ => 0) (fun _ _ => 0) := by
  refine (C11_independent n).sizes (fun u h => h) hn (fun _ u => ∅) (fun _ u => ∅)
    (fun S hV hA k u v hk hu hvu => ?_) (fun k u hk hu => ⟨by simp, by simp, by simp, by simp⟩)
  have key : ∀ {P j a b}, ¬ S.WalkVia P j a b := by
    intro P j a b w
    cases w with
    | one e => exact (hA _ _).1 e
    | cons e _ _ => exact (hA _ _).1 e
  exact ⟨⟨fun ⟨j, _, w⟩ => (key w).elim, by simp⟩, ⟨fun ⟨j, _, w⟩ => (key w).elim, by simp⟩⟩

/-- `C134_independent` for a small size. -/
example := C134_independent 5 (by decide)

/-- **C134 (matching).** A vertex of the second half reaches exactly its partner, one of the first half nothing. -/
theorem C134_matching (n : ℕ) (hn : 2 * n < 2 ^ 32) : NaturalSizes (matching n) (2 * n)
    (fun _ v => if v < n then 0 else 1) (fun _ v => if v < n then 0 else 1) := by
  classical
  refine (C11_matching n (by omega)).sizes (fun u h => by omega) hn
    (fun _ u => if u < n then ∅ else {u - n}) (fun _ u => if u < n then ∅ else {u - n})
    (fun S hV hA k u v hk hu hvu => ?_) (fun k u hk hu => ?_)
  · have key : ∀ {P j a b}, S.WalkVia P j a b → b < 2 * n ∧ (b = a ∨ b + n = a ∨ a + n = b) := by
      intro P j a b w
      induction w with
      | one e => have := (hA _ _).1 e; omega
      | cons e hw w ih => have := (hA _ _).1 e; have := (hV _).1 e.left; have := (hV _).1 e.right; omega
    have main : ∀ P : ℕ → Prop, (∃ j ≤ k, S.WalkVia P j u v) ↔ v ∈ (if u < n then (∅ : Finset ℕ) else {u - n}) := by
      intro P
      constructor
      · rintro ⟨j, -, w⟩
        have := key w
        rw [if_neg (by omega), Finset.mem_singleton]
        omega
      · intro hv
        split at hv
        · simp at hv
        · rw [Finset.mem_singleton] at hv
          exact ⟨1, hk, .one ((hA _ _).2 (by omega))⟩
    exact ⟨main _, main _⟩
  · have : ∀ v ∈ (if u < n then (∅ : Finset ℕ) else {u - n}), v < u := by
      intro v hv
      split at hv
      · simp at hv
      · rw [Finset.mem_singleton] at hv; omega
    refine ⟨this, this, ?_, ?_⟩ <;> split <;> simp

/-- `C134_matching` for a small size. -/
example := C134_matching 5 (by decide)

/-- **C134 (biclique).** A vertex of the second side reaches exactly the first side; one of the first side reaches its
predecessors, but only for radius at least two. -/
theorem C134_biclique (s t : ℕ) (hs : 0 < s) (ht : 0 < t) (h : s + t < 2 ^ 32) : NaturalSizes (biclique s t) (s + t)
    (fun k v => if v < s then (if k = 1 then 0 else v) else s) (fun k v => if v < s then (if k = 1 then 0 else v) else s) := by
  classical
  refine (C11_biclique_partial s t hs ht h).sizes (fun u h => h.2.2 Iff.rfl) h
    (fun k u => if u < s then (if k = 1 then ∅ else Finset.range u) else Finset.range s)
    (fun k u => if u < s then (if k = 1 then ∅ else Finset.range u) else Finset.range s)
    (fun S hV hA k u v hk hu hvu => ?_) (fun k u hk hu => ?_)
  · have main : ∀ P : ℕ → Prop, (∀ x, s ≤ x → u < s → P x) → (s ≤ v → ∀ x, P x → v < x) → ((∃ j ≤ k, S.WalkVia P j u v) ↔
        v ∈ (if u < s then (if k = 1 then (∅ : Finset ℕ) else Finset.range u) else Finset.range s)) := by
      intro P h1 h2
      by_cases hus : u < s
      · rw [if_pos hus]
        constructor
        · rintro ⟨j, hj, w⟩
          rw [if_neg, Finset.mem_range]
          · exact hvu
          · rintro rfl
            cases w with
            | one e => have := (hA _ _).1 e; omega
            | cons e hw w => cases w <;> omega
        · intro hv
          split at hv
          · simp at hv
          · refine ⟨2, by omega, .cons (w := s) ((hA _ _).2 (by omega)) (h1 s le_rfl hus) (.one ((hA _ _).2 (by omega)))⟩
      · rw [if_neg hus, Finset.mem_range]
        constructor
        · rintro ⟨j, -, w⟩
          by_contra hv
          cases w with
          | one e => have := (hA _ _).1 e; omega
          | cons e hw w =>
            have := (hA _ _).1 e
            have := h2 (by omega) _ hw
            omega
        · intro hv
          exact ⟨1, hk, .one ((hA _ _).2 (by omega))⟩
    exact ⟨main _ (fun x hx hus => by omega) (fun hv x hx => by omega), main _ (fun x hx hus => by omega) (fun hv x hx => hx)⟩
  · have : ∀ v ∈ (if u < s then (if k = 1 then (∅ : Finset ℕ) else Finset.range u) else Finset.range s), v < u := by
      intro v hv
      split at hv
      · split at hv
        · simp at hv
        · exact Finset.mem_range.1 hv
      · have := Finset.mem_range.1 hv; omega
    refine ⟨this, this, ?_, ?_⟩ <;> split <;> [split; skip; split; skip] <;> simp

/-- `C134_biclique` for a small size. -/
example := C134_biclique 3 4 (by decide) (by decide) (by decide)

/-- **C134 (star).** Every leaf reaches exactly the centre, for every radius. -/
theorem C134_star (n : ℕ) (h0 : 0 < n) (h : n + 1 < 2 ^ 32) :
    NaturalSizes (EditGraph.star n) (n + 1) (fun _ v => min v 1) (fun _ v => min v 1) := by
  classical
  refine ((C11_star_partial n h0 h).congr (P' := fun u => u < n + 1) (fun u => by omega) (fun _ _ => Iff.rfl)).sizes
    (fun u h => h.2.2.1 rfl) h (fun _ u => Finset.range (min u 1)) (fun _ u => Finset.range (min u 1))
    (fun S hV hA k u v hk hu hvu => ?_) (fun k u hk hu => ?_)
  · have main : ∀ P : ℕ → Prop, (∀ x, P x → 0 < x) → ((∃ j ≤ k, S.WalkVia P j u v) ↔ v ∈ Finset.range (min u 1)) := by
      intro P hP
      rw [Finset.mem_range]
      constructor
      · rintro ⟨j, -, w⟩
        cases w with
        | one e => have := (hA _ _).1 e; omega
        | cons e hw w =>
          have := (hA _ _).1 e
          have := hP _ hw
          omega
      · intro hv
        exact ⟨1, hk, .one ((hA _ _).2 (by omega))⟩
    exact ⟨main _ (fun x hx => by omega), main _ (fun x hx => by omega)⟩
  · exact ⟨fun v hv => by have := Finset.mem_range.1 hv; omega, fun v hv => by have := Finset.mem_range.1 hv; omega,
      Finset.card_range _, Finset.card_range _⟩

/-- `C134_star` for a small size. -/
example := C134_star 5 (by decide) (by decide)

/-- **C134 (cycle).** A vertex after the first strongly reaches its predecessor, and also the first vertex if the radius
suffices to go round the end of the cycle; it weakly reaches its last `k` predecessors and, again round the end, the first
vertex. -/
theorem C134_cycle (n : ℕ) (h3 : 3 ≤ n) (hn : n < 2 ^ 32) : NaturalSizes (cycle n) n
    (fun k v => if 2 ≤ v ∧ n - v ≤ k then 2 else min v 1)
    (fun k v => if k < v ∧ n - v ≤ k then k + 1 else min v k) := by
  classical
  have hR : ∀ u v : ℕ, (u < n ∧ v < n ∧ (v = (u + 1) % n ∨ u = (v + 1) % n)) ↔
      (u < n ∧ v < n ∧ (v = u + 1 ∨ u = v + 1 ∨ (u = 0 ∧ v + 1 = n) ∨ (v = 0 ∧ u + 1 = n))) := by
    have key : ∀ u v : ℕ, u < n → v < n → (v = (u + 1) % n ↔ v = u + 1 ∨ (v = 0 ∧ u + 1 = n)) := by
      intro u v hu hv
      rcases Nat.lt_or_ge (u + 1) n with h | h
      · rw [Nat.mod_eq_of_lt h]; omega
      · have e : u + 1 = n := by omega
        rw [e, Nat.mod_self]; omega
    intro u v
    refine and_congr_right fun hu => and_congr_right fun hv => ?_
    rw [key u v hu hv, key v u hv hu]
    omega
  refine ((C11_cycle n).congr (fun _ => Iff.rfl) hR).sizes (fun u h => by omega) hn
    (fun k u => if 2 ≤ u ∧ n - u ≤ k then insert 0 (Finset.Ico (u - 1) u) else Finset.Ico (u - 1) u)
    (fun k u => if k < u ∧ n - u ≤ k then insert 0 (Finset.Ico (u - k) u) else Finset.Ico (u - k) u)
    (fun S hV hA k u v hk hu hvu => ?_) (fun k u hk hu => ?_)
  · have up : ∀ P : ℕ → Prop, (∀ x, u < x → P x) → 0 < u → n - u ≤ k → ∃ j ≤ k, S.WalkVia P j u 0 := by
      intro P hP h0 hk
      suffices key : ∀ j a, u ≤ a → a + j + 1 = n → S.WalkVia P (j + 1) a 0 from
        ⟨n - u - 1 + 1, by omega, key (n - u - 1) u le_rfl (by omega)⟩
      intro j
      induction j with
      | zero => intro a h1 h2; exact .one ((hA _ _).2 (by omega))
      | succ j ih => intro a h1 h2; exact .cons (w := a + 1) ((hA _ _).2 (by omega)) (hP _ (by omega)) (ih _ (by omega) (by omega))
    constructor
    · have hT : v ∈ (if 2 ≤ u ∧ n - u ≤ k then insert 0 (Finset.Ico (u - 1) u) else Finset.Ico (u - 1) u) ↔
          (v = 0 ∧ 2 ≤ u ∧ n - u ≤ k) ∨ v + 1 = u := by
        split
        · rw [Finset.mem_insert, Finset.mem_Ico]; omega
        · rw [Finset.mem_Ico]; omega
      rw [hT]
      constructor
      · rintro ⟨j, hj, w⟩
        have key : ∀ {j a b}, S.WalkVia (fun x => u < x) j a b → u < a → b < u → (b = 0 ∧ n - a ≤ j) ∨ b + 1 = u := by
          intro j a b w
          induction w with
          | one e => have := (hA _ _).1 e; omega
          | cons e hw w ih => have := (hA _ _).1 e; intro h1 h2; have := ih hw h2; omega
        cases w with
        | one e => have := (hA _ _).1 e; omega
        | cons e hw w => have := (hA _ _).1 e; have := key w hw hvu; omega
      · rintro (⟨rfl, h1, h2⟩ | h1)
        · exact up _ (fun x hx => hx) (by omega) h2
        · exact ⟨1, hk, .one ((hA _ _).2 (by omega))⟩
    · have hT : v ∈ (if k < u ∧ n - u ≤ k then insert 0 (Finset.Ico (u - k) u) else Finset.Ico (u - k) u) ↔
          (v = 0 ∧ n - u ≤ k) ∨ u ≤ v + k := by
        split
        · rw [Finset.mem_insert, Finset.mem_Ico]; omega
        · rw [Finset.mem_Ico]; omega
      rw [hT]
      constructor
      · rintro ⟨j, hj, w⟩
        have key : ∀ {j a b}, S.WalkVia (fun x => v < x) j a b → v < a → b = v → (b = 0 ∧ n - a ≤ j) ∨ a ≤ b + j := by
          intro j a b w
          induction w with
          | one e => have := (hA _ _).1 e; omega
          | cons e hw w ih => have := (hA _ _).1 e; intro h1 h2; have := ih hw h2; omega
        have := key w hvu rfl
        omega
      · rintro (⟨rfl, h1⟩ | h1)
        · exact up _ (fun x hx => by omega) (by omega) h1
        · suffices key : ∀ j, v + j + 1 ≤ u → S.WalkVia (fun x => v < x) (j + 1) (v + j + 1) v by
            have e : v + (u - v - 1) + 1 = u := by omega
            have := key (u - v - 1) (by omega)
            rw [e] at this
            exact ⟨u - v - 1 + 1, by omega, this⟩
          intro j
          induction j with
          | zero => intro _; exact .one ((hA _ _).2 (by omega))
          | succ j ih => intro h; exact .cons ((hA _ _).2 (by omega)) (by omega) (ih (by omega))
  · refine ⟨fun v hv => ?_, fun v hv => ?_, ?_, ?_⟩
    · split at hv
      · rw [Finset.mem_insert, Finset.mem_Ico] at hv; omega
      · rw [Finset.mem_Ico] at hv; omega
    · split at hv
      · rw [Finset.mem_insert, Finset.mem_Ico] at hv; omega
      · rw [Finset.mem_Ico] at hv; omega
    · split
      · rw [Finset.card_insert_of_notMem (by rw [Finset.mem_Ico]; omega), Nat.card_Ico]; omega
      · rw [Nat.card_Ico]; omega
    · split
      · rw [Finset.card_insert_of_notMem (by rw [Finset.mem_Ico]; omega), Nat.card_Ico]; omega
      · rw [Nat.card_Ico]; omega

/-- `C134_cycle` for a small size. -/
example := C134_cycle 5 (by decide) (by decide)

/-! ## Orderings with short edges -/

/-- **C134 (short edges).** If every edge joins two vertices at most `b` positions apart, then for every radius `k` all values
of `sreach_sizes(k)` are at most `b` and all values of `wreach_sizes(k)` at most `k * b`; the treewidth is at most `b`. -/
theorem C134_span {L : LinGraph} {S : SGraph} {ord : List ℕ} (H : L.LRep S ord) {b : ℕ}
    (hb : ∀ u v, S.Adj u v → ord.idxOf v < ord.idxOf u → ord.idxOf u ≤ ord.idxOf v + b) (σ τ : ℕ → ℕ → Shuffle ℕ) {k : ℕ}
    (hk : 1 ≤ k) (hk' : k + 1 < 2 ^ 32) (hn : S.V.card < 2 ^ 32) :
    (∃ m, L.sreachSizes σ τ k = .ok m ∧ ∀ v c, m.get? v = some c → c ≤ b) ∧
    (∃ m, L.wreachSizes σ τ k = .ok m ∧ ∀ v c, m.get? v = some c → c ≤ k * b) ∧ S.TreewidthLE b := by
  classical
  refine ⟨?_, ?_, ?_⟩
  · obtain ⟨m, hm, h1, h2⟩ := C52_sreach_sizes H σ τ hk (by omega) hn
    refine ⟨m, hm, fun v c hc => ?_⟩
    rw [h2 v ((h1 v).1 (HMap.mem_keys_iff.2 ⟨c, hc⟩))] at hc
    cases hc
    refine H.ordering.card_near v b (Finset.filter_subset _ _) fun x hx => ?_
    obtain ⟨-, d, -, hd⟩ := Finset.mem_filter.1 hx
    obtain ⟨h3, h4⟩ := sreach_walk.1 hd
    exact ⟨h3, h4.1.span hb le_rfl h3⟩
  · obtain ⟨m, hm, h1, h2⟩ := C53_wreach_sizes H σ τ hk' hn
    refine ⟨m, hm, fun v c hc => ?_⟩
    rw [h2 v ((h1 v).1 (HMap.mem_keys_iff.2 ⟨c, hc⟩))] at hc
    cases hc
    refine H.ordering.card_near v (k * b) (Finset.filter_subset _ _) fun x hx => ?_
    obtain ⟨-, d, hdk, hd⟩ := Finset.mem_filter.1 hx
    obtain ⟨h3, h4⟩ := wreach_walk.1 hd
    have := Nat.mul_le_mul_right b hdk
    exact ⟨h3, (h4.1.span_mul hb).trans (by omega)⟩
  · refine (treewidth_iff H.loopless b).2 ⟨ord, H.ordering, fun v hv => ?_⟩
    refine H.ordering.card_near v b (Finset.filter_subset _ _) fun x hx => ?_
    obtain ⟨h3, d, h4⟩ := sr_iff.1 (Finset.mem_filter.1 hx).2
    exact ⟨h3, h4.span hb le_rfl h3⟩

/-- `C134_span` for the triangle with a pendant vertex: the longest edge spans three positions. -/
example (σ τ : ℕ → ℕ → Shuffle ℕ) := C134_span pan_lin.choose_spec.2 (b := 3) (by
  have key : ∀ u ∈ pan.V, ∀ v ∈ pan.V, [0, 1, 2, 3].idxOf u ≤ [0, 1, 2, 3].idxOf v + 3 := by decide
  exact fun u v h _ => key u h.left v h.right) σ τ (k := 2) (by decide) (by decide) (by decide)

/-- **C134 (grid).** In the row by row ordering of the `s × t` grid all values of `sreach_sizes(k)` are at most `t` and all
values of `wreach_sizes(k)` at most `k * t`, and the grid has treewidth at most `t`. -/
theorem C134_grid (s t : ℕ) (h : s * t < 2 ^ 32) (h1 : ¬ (s = 1 ∧ t = 1)) : ∃ g S, grid s t = .ok g ∧ g.view.Rep S ∧
    S.TreewidthLE t ∧ ∃ o, OrdGraph.withOrdering g.view (List.range (s * t)) = .ok o ∧ ∀ o', OrdGraph.Relayout o o' →
      ∀ (σ τ : ℕ → ℕ → Shuffle ℕ) k, 1 ≤ k → k + 1 < 2 ^ 32 →
        (∃ m, o'.lin.sreachSizes σ τ k = .ok m ∧ ∀ v c, m.get? v = some c → c ≤ t) ∧
        ∃ m, o'.lin.wreachSizes σ τ k = .ok m ∧ ∀ v c, m.get? v = some c → c ≤ k * t := by
  obtain ⟨g, S, hg, A, hV, hA⟩ := (C11_grid_partial s t h h1).abs
  have hV' : S.OnRange (s * t) := hV
  have hl : S.Loopless := fun u e => by have := (hA u u).1 e; omega
  obtain ⟨o, ho, hR⟩ := C43_with_ordering A.rep hl hV'.ordering.nodup hV'.ordering.mem
  have hcard : S.V.card < 2 ^ 32 := by rw [hV'.card]; exact h
  have hb : ∀ u v, S.Adj u v → (List.range (s * t)).idxOf v < (List.range (s * t)).idxOf u →
      (List.range (s * t)).idxOf u ≤ (List.range (s * t)).idxOf v + t := by
    intro u v e
    obtain ⟨hu, hv, e⟩ := (hA u v).1 e
    rw [idxOf_range hu, idxOf_range hv]
    intro hlt
    have ht : 0 < t := by
      rcases Nat.eq_zero_or_pos t with rfl | ht
      · simp at hu
      · exact ht
    rcases ((grid_cell t u v).2 ⟨e, ht⟩).1 with ⟨_, e | e⟩ | e | e <;> omega
  have main := fun o' (ho' : OrdGraph.Relayout o o') => C134_span (hR o' ho').lin hb
  refine ⟨g, S, hg, A.rep, ?_, o, ho, fun o' ho' σ τ k hk hk' => ?_⟩
  · exact (main o (.refl o) (fun _ _ => Shuffle.id) (fun _ _ => Shuffle.id) (le_refl 1) (by decide) hcard).2.2
  · exact ⟨(main o' ho' σ τ hk hk' hcard).1, (main o' ho' σ τ hk hk' hcard).2.1⟩

/-- `C134_grid` for a small size. -/
example := C134_grid 3 4 (by decide) (by decide)

/-! ## Treewidth and treedepth -/

/-- The generated graph has treewidth exactly `k`. -/
def HasTreewidth (r : Res EditGraph) (k : ℕ) : Prop := ∃ g S, r = .ok g ∧ g.view.Rep S ∧ ∀ j, S.TreewidthLE j ↔ k ≤ j

/-- The generated graph has treedepth exactly `t`. -/
def HasTreedepth (r : Res EditGraph) (t : ℕ) : Prop := ∃ g S, r = .ok g ∧ g.view.Rep S ∧ ∀ j, S.TreedepthLE j ↔ t ≤ j

theorem NaturalSizes.widths {r : Res EditGraph} {n : ℕ} {s w : ℕ → ℕ → ℕ} (N : NaturalSizes r n s w) {R : ℕ → ℕ → Prop}
    (h : Generates r (fun u => u < n) R) (hl : ∀ u, ¬ R u u) (hn : n + 1 < 2 ^ 32) : ∃ g S, r = .ok g ∧ g.view.Rep S ∧
      S.OnRange n ∧ S.Loopless ∧ (∀ a b, S.Adj a b ↔ R a b) ∧ (∀ t, (∀ k, ∀ v < n, s k v ≤ t) → S.TreewidthLE t) ∧
      ∀ t, (∀ k, ∀ v < n, w k v < t) → S.TreedepthLE t := by
  obtain ⟨g, S, hg, A, hV, hA⟩ := h.abs
  have hV' : S.OnRange n := hV
  have hlo : S.Loopless := fun u e => hl u ((hA u u).1 e)
  obtain ⟨g1, hg1, h1⟩ := N
  obtain rfl : g = g1 := by rw [hg] at hg1; exact Except.ok.inj hg1
  obtain ⟨o, ho, h2⟩ := h1 g (A.relayout_of A)
  obtain ⟨o1, ho1, h3⟩ := C43_with_ordering A.rep hlo hV'.ordering.nodup hV'.ordering.mem
  obtain rfl : o = o1 := by rw [ho] at ho1; exact Except.ok.inj ho1
  have H := (h3 o (.refl o)).lin
  obtain ⟨⟨m, hm, h4⟩, m', hm', h5⟩ := h2 o (.refl o) (fun _ _ => Shuffle.id) (fun _ _ => Shuffle.id) (max 1 n) (by omega) (by omega)
  have hc := hV'.card
  refine ⟨g, S, hg, A.rep, hV', hlo, hA, fun t ht => ?_, fun t ht => ?_⟩
  · refine C127_treewidth_upper H (r := max 1 n) (by omega) (by omega) (by omega) hm fun v c hvc => ?_
    rw [h4 v] at hvc
    split at hvc
    · rename_i hv
      cases hvc
      exact ht _ v hv
    · cases hvc
  · refine C128_treedepth_upper H (r := max 1 n) (by omega) (by omega) hm' fun v c hvc => ?_
    rw [h5 v] at hvc
    split at hvc
    · rename_i hv
      cases hvc
      exact ht _ v hv
    · cases hvc

theorem SGraph.TreewidthLE.le {S : SGraph} {j k : ℕ} (hl : S.Loopless) (h : S.TreewidthLE j) {W : Finset ℕ} (hW : W ⊆ S.V)
    (hne : W.Nonempty) (hd : ∀ w ∈ W, k ≤ S.degIn W w) : k ≤ j := by
  obtain ⟨w, hw, h1⟩ := h.degIn hl hW hne
  exact (hd w hw).trans h1

theorem SGraph.TreedepthLE.le {S : SGraph} {j k : ℕ} (hl : S.Loopless) (h : S.TreedepthLE j) {W : Finset ℕ} (hW : W ⊆ S.V)
    (hne : W.Nonempty) (hd : ∀ w ∈ W, k ≤ S.degIn W w) : k + 1 ≤ j := by
  cases j with
  | zero =>
    obtain ⟨anc, -, -, -, -, h⟩ := h
    obtain ⟨w, hw⟩ := hne
    have := h w (hW hw) ∅ (Finset.empty_subset _) (by simp)
    omega
  | succ j => exact Nat.succ_le_succ ((h.treewidth hl).le hl hW hne hd)

theorem SGraph.TreewidthLE.mono {S : SGraph} {j k : ℕ} (h : S.TreewidthLE j) (hjk : j ≤ k) : S.TreewidthLE k := by
  obtain ⟨bag, par, depth, top, D, hk⟩ := h
  exact ⟨bag, par, depth, top, D, fun t => (hk t).trans (by omega)⟩

theorem SGraph.TreedepthLE.mono {S : SGraph} {j k : ℕ} (h : S.TreedepthLE j) (hjk : j ≤ k) : S.TreedepthLE k := by
  obtain ⟨anc, h1, h2, h3, h4, h5⟩ := h
  exact ⟨anc, h1, h2, h3, h4, fun v hv X hX hx => (h5 v hv X hX hx).trans hjk⟩

/-- **C134 (treewidth of paths).** -/
theorem C134_treewidth_path (n : ℕ) (h2 : 2 ≤ n) (hn : n + 1 < 2 ^ 32) : HasTreewidth (path n) 1 := by
  classical
  obtain ⟨g, S, hg, hr, hV, hl, hA, h3, -⟩ := (C134_path n (by omega)).widths (C11_path n) (fun u h => by omega) hn
  refine ⟨g, S, hg, hr, fun j => ⟨fun h => ?_, fun h => (h3 1 fun k v _ => by omega).mono h⟩⟩
  refine h.le hl (W := {0, 1}) (fun u hu => ?_) ⟨0, by simp⟩ fun w hw => ?_
  · simp only [Finset.mem_insert, Finset.mem_singleton] at hu
    exact (hV u).2 (by omega)
  · simp only [Finset.mem_insert, Finset.mem_singleton] at hw
    have : ({1 - w} : Finset ℕ).card ≤ S.degIn {0, 1} w := le_degIn_of fun v hv => by
      rw [Finset.mem_singleton] at hv
      refine ⟨?_, (hA _ _).2 (by omega)⟩
      simp only [Finset.mem_insert, Finset.mem_singleton]
      omega
    simpa using this

/-- `C134_treewidth_path` for a small size. -/
example := C134_treewidth_path 5 (by decide) (by decide)

/-- **C134 (treewidth and treedepth of cliques).** -/
theorem C134_treewidth_clique (n : ℕ) (h0 : 0 < n) (hn : n + 1 < 2 ^ 32) :
    HasTreewidth (clique n) (n - 1) ∧ HasTreedepth (clique n) n := by
  classical
  obtain ⟨g, S, hg, hr, hV, hl, hA, h3, h4⟩ := (C134_clique n (by omega)).widths (C11_clique n) (fun u h => h.2.2 rfl) hn
  have hd : ∀ w ∈ S.V, n - 1 ≤ S.degIn S.V w := fun w hw => by
    have : (S.V.erase w).card ≤ S.degIn S.V w := le_degIn_of fun v hv => by
      rw [Finset.mem_erase] at hv
      exact ⟨hv.2, (hA _ _).2 ⟨(hV w).1 hw, (hV v).1 hv.2, fun e => hv.1 e.symm⟩⟩
    rwa [Finset.card_erase_of_mem hw, hV.card] at this
  have hne : S.V.Nonempty := ⟨0, (hV 0).2 h0⟩
  refine ⟨⟨g, S, hg, hr, fun j => ⟨fun h => h.le hl subset_rfl hne hd, fun h => (h3 (n - 1) fun k v hv => by omega).mono h⟩⟩,
    ⟨g, S, hg, hr, fun j => ⟨fun h => ?_, fun h => (h4 n fun k v hv => hv).mono h⟩⟩⟩
  have := h.le hl subset_rfl hne hd
  omega

/-- `C134_treewidth_clique` for a small size. -/
example := C134_treewidth_clique 5 (by decide) (by decide)

/-- **C134 (treewidth of cycles).** -/
theorem C134_treewidth_cycle (n : ℕ) (h3 : 3 ≤ n) (hn : n + 1 < 2 ^ 32) : HasTreewidth (cycle n) 2 := by
  classical
  have hm : ∀ u, u < n → (u + 1) % n = if u + 1 = n then 0 else u + 1 := fun u hu => by
    split
    · rename_i e; rw [e, Nat.mod_self]
    · exact Nat.mod_eq_of_lt (by omega)
  obtain ⟨g, S, hg, hr, hV, hl, hA, h4, -⟩ := (C134_cycle n h3 (by omega)).widths (C11_cycle n) (fun u h => by
    have := hm u h.1
    split at this <;> omega) hn
  refine ⟨g, S, hg, hr, fun j => ⟨fun h => ?_, fun h => (h4 2 fun k v _ => by split <;> omega).mono h⟩⟩
  refine h.le hl subset_rfl ⟨0, (hV 0).2 (by omega)⟩ fun w hw => ?_
  have hwn := (hV w).1 hw
  have : ({(w + 1) % n, if w = 0 then n - 1 else w - 1} : Finset ℕ).card ≤ S.degIn S.V w := le_degIn_of fun v hv => by
    simp only [Finset.mem_insert, Finset.mem_singleton] at hv
    have h5 := Nat.mod_lt (w + 1) (show 0 < n by omega)
    have hvn : v < n := by
      rcases hv with hv | hv
      · omega
      · split at hv <;> omega
    refine ⟨(hV v).2 hvn, (hA _ _).2 ⟨hwn, hvn, ?_⟩⟩
    rcases hv with hv | hv
    · exact .inl hv
    · right
      rw [hm v hvn]
      split at hv
      · rw [if_pos (by omega)]; omega
      · rw [if_neg (by omega)]; omega
  rwa [Finset.card_pair] at this
  rw [hm w hwn]
  split <;> split <;> omega

/-- `C134_treewidth_cycle` for a small size. -/
example := C134_treewidth_cycle 5 (by decide) (by decide)

/-- **C134 (treewidth and treedepth of bicliques).** -/
theorem C134_treewidth_biclique (s t : ℕ) (hs : 0 < s) (hst : s ≤ t) (hn : s + t + 1 < 2 ^ 32) :
    HasTreewidth (biclique s t) s ∧ HasTreedepth (biclique s t) (s + 1) := by
  classical
  obtain ⟨g, S, hg, hr, hV, hl, hA, h3, h4⟩ := (C134_biclique s t hs (by omega) (by omega)).widths
    (C11_biclique_partial s t hs (by omega) (by omega)) (fun u h => h.2.2 Iff.rfl) hn
  have hd : ∀ w ∈ S.V, s ≤ S.degIn S.V w := fun w hw => by
    have hwn := (hV w).1 hw
    by_cases h : w < s
    · have : (Finset.Ico s (s + t)).card ≤ S.degIn S.V w := le_degIn_of fun v hv => by
        rw [Finset.mem_Ico] at hv
        exact ⟨(hV v).2 hv.2, (hA _ _).2 (by omega)⟩
      rw [Nat.card_Ico] at this
      omega
    · have : (Finset.range s).card ≤ S.degIn S.V w := le_degIn_of fun v hv => by
        rw [Finset.mem_range] at hv
        exact ⟨(hV v).2 (by omega), (hA _ _).2 (by omega)⟩
      rwa [Finset.card_range] at this
  have hne : S.V.Nonempty := ⟨0, (hV 0).2 (by omega)⟩
  refine ⟨⟨g, S, hg, hr, fun j => ⟨fun h => h.le hl subset_rfl hne hd, fun h => (h3 s fun k v hv => ?_).mono h⟩⟩,
    ⟨g, S, hg, hr, fun j => ⟨fun h => h.le hl subset_rfl hne hd, fun h => (h4 (s + 1) fun k v hv => ?_).mono h⟩⟩⟩
  · split
    · split <;> omega
    · omega
  · split
    · split <;> omega
    · omega

/-- `C134_treewidth_biclique` for a small size. -/
example := C134_treewidth_biclique 3 4 (by decide) (by decide) (by decide)

end Verif
