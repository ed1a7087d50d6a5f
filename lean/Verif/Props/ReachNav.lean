import Verif.Props.ReachBuilders
/-!
# C94: walking through a `ReachGraph`
-/
namespace Verif
namespace ReachGraph
open Blocks

namespace Inv
variable {g : ReachGraph} {S : SGraph} {ord : List ℕ} {r : ℕ} {m : ℕ → HMap ℕ ℕ}

theorem first_eq (H : Inv g S ord r m) : g.first = ord.head? := by
  unfold ReachGraph.first
  rw [H.cont]
  generalize pay ord r m = F
  cases ord <;> rfl

theorem take_eq (H : Inv g S ord r m) {pre post : List ℕ} {u : ℕ} (hs : ord = pre ++ u :: post) :
    ord.take (ord.idxOf u) = pre := by
  have : ord.idxOf u = pre.length := H.ordering.idxOf_eq (by conv_lhs => rw [hs]
                                                             simp)
  rw [this]
  conv_lhs => rw [hs]
  simp

theorem segment (H : Inv g S ord r m) {pre post : List ℕ} {u : ℕ} (hs : ord = pre ++ u :: post) :
    g.segment r u = .ok (u :: (if post = [] then off (pay ord r m) pre else off (pay ord r m) pre + bs (pay ord r m) u) ::
      ((List.range' 1 r).map (fun j => off (pay ord r m) pre + r + 2 + (upto ord m u j).length) ++ upto ord m u r)) := by
  have hu : u ∈ S.V := (H.ordering.mem u).1 (by rw [hs]; simp)
  unfold ReachGraph.segment
  rw [H.indexOf hu, bind_ok, H.take_eq hs, get0 pay_const (H.layout hs), unwrap_some, bind_ok]
  simp only [beq_self_eq_true, assertR, if_true, bind_ok]
  have hr := H.pos
  have e1 : g.contents[off (pay ord r m) pre + r + 1]? =
      some (off (pay ord r m) pre + r + 2 + (upto ord m u r).length) := by
    rw [show off (pay ord r m) pre + r + 1 = off (pay ord r m) pre + 2 + (r - 1) by omega]
    refine get_of_drop (H.tail hs) ?_
    rw [List.getElem?_append_left (by simp; omega), List.getElem?_map, List.getElem?_range' (by omega)]
    simp only [Option.map_some, show 1 + 1 * (r - 1) = r by omega]
  rw [e1, unwrap_some, bind_ok]
  have hl := H.len_ge hs
  have g0 := get0 pay_const (H.layout hs)
  have g1 := get1 pay_const (H.layout hs)
  have ht := H.tail hs
  generalize off (pay ord r m) pre = p at *
  generalize hx : (if post = [] then p else p + bs (pay ord r m) u) = x at *
  have hd : g.contents.drop p = u :: x :: g.contents.drop (p + 2) := by
    rw [List.drop_eq_getElem_cons (by omega), List.drop_eq_getElem_cons (i := p + 1) (by omega)]
    rw [List.getElem?_eq_getElem (by omega)] at g0 g1
    rw [Option.some.inj g0, Option.some.inj g1]
  rw [ht] at hd
  have := sliceR_mid (c := g.contents) (A := []) (b := p)
    (B := u :: x :: ((List.range' 1 r).map (fun j => p + r + 2 + (upto ord m u j).length) ++ upto ord m u r))
    (C := lay (pay ord r m) (p + bs (pay ord r m) u) post) (by omega) (by rw [hd]; simp)
  rw [← this]
  congr 1
  simp
  omega

end Inv

/-- Walking through `g` along `ord` works: `first` is the first vertex, `next_reachables` of a vertex are the reachables of the
following one (`None` for the last), blocks are adjacent in memory and contain the reachable vertices at their end, `depth` is
the depth `r`, and everything else panics. -/
structure Navigates (g : ReachGraph) (ord : List ℕ) (r : ℕ) : Prop where
  first : g.first = ord.head?
  depth : g.depth r = r
  next : ∀ pre u v post, ord = pre ++ u :: v :: post →
    ∃ B, g.reachables r v = .ok B ∧ B.src = v ∧ g.nextReachables r u = .ok (some B)
  last : ∀ pre u, ord = pre ++ [u] → g.nextReachables r u = .ok none
  segment : ∀ u ∈ ord, ∃ hd l, g.reachablesAll r u = .ok l ∧ g.segment r u = .ok (u :: (hd ++ l)) ∧ hd.length = r + 1
  packed : ∀ pre u v post, ord = pre ++ u :: v :: post →
    ∃ i s, g.indexOf u = .ok i ∧ g.segment r u = .ok s ∧ g.indexOf v = .ok (i + s.length)
  start : ∀ u, ord.head? = some u → g.indexOf u = .ok 0
  range : ∀ u ∈ ord, ∀ B, g.reachables r u = .ok B → ∀ d, (d = 0 ∨ r < d) → B.at' d = .error .panic
  missing : ∀ u, u ∉ ord → g.reachables r u = .error .panic ∧ g.reachablesAll r u = .error .panic ∧
    g.nextReachables r u = .error .panic ∧ g.segment r u = .error .panic

theorem Inv.navigates {g : ReachGraph} {S : SGraph} {ord : List ℕ} {r : ℕ} {m : ℕ → HMap ℕ ℕ} (H : Inv g S ord r m) :
    g.Navigates ord r := by
  refine ⟨H.first_eq, rfl, ?_, ?_, ?_, ?_, ?_, ?_, ?_⟩
  · intro pre u v post hs
    have hv : v ∈ S.V := (H.ordering.mem v).1 (by rw [hs]; simp)
    exact ⟨_, H.reachables hv, rfl, H.nextReachables hs⟩
  · intro pre u hs
    exact H.nextReachables hs
  · intro u hu
    have hV := (H.ordering.mem u).1 hu
    have hseg := H.segment (H.split hV)
    rw [← List.cons_append] at hseg
    refine ⟨_, upto ord m u r, ?_, hseg, by simp⟩
    rw [H.reachablesAll hV]
    congr 1
    unfold upto Inv.block
    rw [List.flatMap_def, List.range'_eq_map_range, List.map_map]
    simp only [Function.comp_def, Nat.add_comm]
  · intro pre u v post hs
    have hu : u ∈ S.V := (H.ordering.mem u).1 (by rw [hs]; simp)
    have hv : v ∈ S.V := (H.ordering.mem v).1 (by rw [hs]; simp)
    refine ⟨_, _, H.indexOf hu, H.segment hs, ?_⟩
    rw [H.indexOf hv, H.take_eq hs, H.take_eq (pre := pre ++ [u]) (post := post) (by rw [hs]; simp), off_append]
    congr 2
    rw [show off (pay ord r m) [u] = bs (pay ord r m) u by simp [off]]
    have := length_pay (ord := ord) (r := r) (m := m) (p := 0) (u := u)
    have e : rv ord r m u = upto ord m u r := rfl
    unfold bs
    rw [this, e]
    simp
    omega
  · intro u hu
    cases ho : ord with
    | nil => rw [ho] at hu; cases hu
    | cons v post =>
      rw [ho] at hu
      cases hu
      have hV : u ∈ S.V := (H.ordering.mem u).1 (by rw [ho]; simp)
      rw [H.indexOf hV, H.take_eq (pre := []) ho]
      rfl
  · intro u hu B hB d hd
    rw [H.reachables ((H.ordering.mem u).1 hu)] at hB
    cases hB
    unfold Reachables.at' Inv.block
    simp only [List.length_map, List.length_range']
    rw [show (decide (1 ≤ d) && decide (d ≤ r)) = false by
      rw [Bool.and_eq_false_iff, decide_eq_false_iff_not, decide_eq_false_iff_not]; omega]
    rfl
  · intro u hu
    have h := H.get_none (fun h => hu ((H.ordering.mem u).2 h))
    unfold ReachGraph.reachables ReachGraph.reachablesAll ReachGraph.nextReachables ReachGraph.segment ReachGraph.indexOf
    rw [h]
    exact ⟨rfl, rfl, rfl, rfl⟩

end ReachGraph

/-- **C94.** The graph made by `to_wreach_graph` or `to_sreach_graph` can be walked through along the ordering. -/
theorem C94_navigation {S : SGraph} {o : OrdGraph} {ord : List ℕ} (h : OrdGraph.Built S o ord) (k : ReachKind)
    (σ τ : ℕ → ℕ → Shuffle ℕ) (ρ : ℕ → Shuffle (ℕ × ℕ)) {r : ℕ} (hr : 1 ≤ r) (hr' : r + 1 < 2 ^ 32)
    (hsz : k.size S ord r < 2 ^ 32) : ∃ g, k.convert σ τ ρ r o = .ok g ∧ g.Navigates ord r := by
  obtain ⟨g, h1, m, I, -⟩ := ReachGraph.convert_holds h.inv k σ τ ρ hr hr' hsz
  exact ⟨g, h1, I.navigates⟩

/-- `C94_navigation` for a path with three vertices. -/
example := fun k σ τ ρ => C94_navigation exReach.choose_spec.choose_spec.1 k σ τ ρ (by decide) (by decide) (exReach.choose_spec.choose_spec.2.2.1 k)

/-- **C94, builder.** So can a graph made with `ReachGraphBuilder`. -/
theorem C94_builder {r : ℕ} {ord : List ℕ} {m : ℕ → HMap ℕ ℕ} {S : SGraph} (h : ReachGraph.Described ord r m S)
    (hr : 1 ≤ r) (hsz : (ord.map fun u => r + 2 + (m u).len).sum < 2 ^ 32) {order : HMap ℕ ℕ}
    (ho : ∀ x ∈ ord, order.get? x = some (ord.idxOf x)) (ρ : ℕ → Shuffle (ℕ × ℕ)) :
    ∃ g, ReachGraph.appendAll r ord m order ρ = .ok g ∧ g.Navigates ord r := by
  obtain ⟨g, h1, I⟩ := ReachGraph.build_inv h.ordering h.loopless hr h.good h.one (by rw [h.size]; exact hsz)
    (order := order) (fun x hx => ho x ((h.verts x).1 hx)) (ρ := ρ)
    (f := fun b u => b.append r u ((ρ u).run (m u).entries) order) (fun _ _ _ => rfl)
  exact ⟨g, h1, I.navigates⟩

/-- Hypotheses of `C94_navigation` are met for the path 0-1-2 with the ordering 2, 0, 1 and depth 2. -/
example : ∃ (S : SGraph) (o : OrdGraph), OrdGraph.Built S o [2, 0, 1] ∧ S.Adj 0 1 ∧ ∀ k : ReachKind,
    k.size S [2, 0, 1] 2 < 2 ^ 32 := by
  obtain ⟨S, o, h1, h2, h3, -⟩ := exReach
  exact ⟨S, o, h1, h2, h3⟩

/-- Hypotheses of `C94_builder` are met. -/
example : ∃ (S : SGraph) (m : ℕ → HMap ℕ ℕ), ReachGraph.Described [5, 6] 1 m S ∧ S.Adj 5 6 ∧
    ([5, 6].map fun u => 1 + 2 + (m u).len).sum < 2 ^ 32 := by
  refine ⟨⟨{5, 6}, {s(5, 6)}, by simp⟩, fun u => if u = 6 then HMap.ofList [(5, 1)] else ∅, ⟨by decide, ?_, fun u => by simp, ?_⟩,
    by decide, by decide⟩
  · intro u hu x d h
    simp only [List.mem_cons, List.not_mem_nil, or_false] at hu
    rcases hu with rfl | rfl
    · cases h
    · simp only [if_true] at h
      rw [show HMap.ofList [(5, 1)] = (∅ : HMap ℕ ℕ).insert 5 1 from rfl, HMap.get?_insert] at h
      split_ifs at h with hx
      · subst hx; cases h; decide
      · cases h
  · intro u x
    have key : ∀ u x, (u ∈ [5, 6] ∧ ((if u = 6 then HMap.ofList [(5, 1)] else ∅ : HMap ℕ ℕ)).get? x = some 1) ↔ u = 6 ∧ x = 5 := by
      intro u x
      by_cases hu : u = 6
      · subst hu
        simp only [if_true]
        rw [show HMap.ofList [(5, 1)] = (∅ : HMap ℕ ℕ).insert 5 1 from rfl, HMap.get?_insert]
        by_cases hx : x = 5
        · simp [hx]
        · rw [if_neg hx]; simp [hx]
      · rw [if_neg hu]
        simp only [hu, false_and, iff_false]
        rintro ⟨-, h⟩; cases h
    rw [key, key]
    show s(u, x) ∈ ({s(5, 6)} : Finset (Sym2 ℕ)) ↔ _
    rw [Finset.mem_singleton, Sym2.eq_iff]
    tauto

end Verif
