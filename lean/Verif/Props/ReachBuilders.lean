import Verif.Props.ReachGraph
import Verif.Lemmas.Colour
/-!
# C92: the public `ReachGraphBuilder`
-/
namespace Verif
namespace ReachGraph

/-- `new()`, then `append(u, reachable[u], order)` for every `u` of `ord`, then `build()`; `ρ u` is the iteration order of
the map `m u`. -/
def appendAll (r : ℕ) (ord : List ℕ) (m : ℕ → HMap ℕ ℕ) (order : HMap ℕ ℕ) (ρ : ℕ → Shuffle (ℕ × ℕ)) : Res ReachGraph := do
  let b ← ord.foldlM (fun (b : ReachBuilder) u => b.append r u ((ρ u).run (m u).entries) order) ReachBuilder.new
  return b.g

/-- The sets `m` to be stored for the vertices `ord`: each names vertices that were appended before, at distances from 1
to `r`; `S` is the graph of the pairs at distance 1. -/
structure Described (ord : List ℕ) (r : ℕ) (m : ℕ → HMap ℕ ℕ) (S : SGraph) : Prop where
  distinct : ord.Nodup
  range : ∀ u ∈ ord, ∀ x d, (m u).get? x = some d → ord.idxOf x < ord.idxOf u ∧ 1 ≤ d ∧ d ≤ r
  verts : ∀ u, u ∈ S.V ↔ u ∈ ord
  adj : ∀ u x, S.Adj u x ↔ (u ∈ ord ∧ (m u).get? x = some 1) ∨ (x ∈ ord ∧ (m x).get? u = some 1)

namespace Described
variable {ord : List ℕ} {r : ℕ} {m : ℕ → HMap ℕ ℕ} {S : SGraph}

theorem ordering (h : Described ord r m S) : S.Ordering ord := ⟨h.distinct, fun u => (h.verts u).symm⟩

theorem good (h : Described ord r m S) : Good S ord r m := by
  intro u hu x d hd
  have := h.range u ((h.verts u).1 hu) x d hd
  refine ⟨(h.verts x).2 ?_, this⟩
  have h2 := h.ordering.idxOf_lt hu
  exact List.idxOf_lt_length_iff.1 (by omega)

theorem loopless (h : Described ord r m S) : S.Loopless := by
  intro u hu
  have : u ∈ ord ∧ (m u).get? u = some 1 := by
    rcases (h.adj u u).1 hu with h | h <;> exact h
  have := h.range u this.1 u 1 this.2
  omega

theorem one (h : Described ord r m S) : ∀ u ∈ S.V, ∀ x, (m u).get? x = some 1 ↔ S.Adj u x ∧ ord.idxOf x < ord.idxOf u := by
  intro u hu x
  have hu' := (h.verts u).1 hu
  constructor
  · intro h1
    exact ⟨(h.adj u x).2 (.inl ⟨hu', h1⟩), (h.range u hu' x 1 h1).1⟩
  · rintro ⟨h1, h2⟩
    rcases (h.adj u x).1 h1 with h3 | h3
    · exact h3.2
    · have := (h.range x h3.1 u 1 h3.2).1
      omega

theorem rv_len (h : Described ord r m S) {u : ℕ} (hu : u ∈ ord) : (rv ord r m u).length = (m u).len := by
  have hn : (rv ord r m u).Nodup := (rv_key h.ordering u).imp fun h he => by rw [he] at h; omega
  rw [← List.toFinset_card_of_nodup hn]
  refine (HMap.len_of_mem_iff fun x => ?_).symm
  rw [List.mem_toFinset, mem_rv h.ordering h.good ((h.verts u).2 hu), HMap.mem_keys_iff]

theorem size (h : Described ord r m S) : Blocks.off (pay ord r m) ord = (ord.map fun u => r + 2 + (m u).len).sum := by
  unfold Blocks.off
  congr 1
  refine List.map_congr_left fun u hu => ?_
  rw [Blocks.bs, length_pay, h.rv_len hu]
  omega

end Described

theorem Inv.stores {g : ReachGraph} {S : SGraph} {ord : List ℕ} {r : ℕ} {m : ℕ → HMap ℕ ℕ} (I : Inv g S ord r m) :
    g.Stores S ord r (fun u x d => (m u).get? x = some d) := by
  constructor
  · intro u hu
    refine ⟨_, (Inv.block ord r m u).segs, I.reachables hu, rfl, by simp [Inv.block], ?_, ?_, ?_, I.reachablesAll hu⟩
    · intro d l hd
      obtain ⟨hlt, hd'⟩ := List.getElem?_eq_some_iff.1 hd
      have hdr : d < r := by simpa [Inv.block] using hlt
      have e := Inv.at_block (ord := ord) (m := m) (u := u) (show 1 ≤ d + 1 by omega) (show d + 1 ≤ r by omega)
      have hl : l = grp ord m u (d + 1) := by
        rw [← hd']
        simp [Inv.block, Nat.add_comm]
      subst hl
      exact ⟨e, I.ordering.pairwise.filter _, fun x => mem_grp I.ordering I.good hu⟩
    · unfold Reachables.len
      rw [List.length_flatten]
    · unfold Reachables.isEmpty
      rw [List.all_eq_true, List.flatten_eq_nil_iff]
      simp only [List.isEmpty_iff]
  · obtain ⟨s, h1, h2⟩ := I.iter
    refine ⟨s, _, h1, h2, ?_, ?_⟩
    · rw [List.map_map]
      exact List.map_id ord
    · intro u B hB
      obtain ⟨x, hx, he⟩ := List.mem_map.1 hB
      cases he
      exact I.reachables ((I.ordering.mem u).1 hx)

end ReachGraph

/-- **C92.** Appending, for distinct vertices, arbitrary sets of earlier vertices at distances from 1 to `r` (`order` gives
the positions, `r ≥ 1`, total size below `2^32` words) succeeds for every iteration order of the maps, and the graph
returns exactly the appended sets, each sorted by distance and then by position; the edges are the pairs at distance 1. -/
theorem C92_appends {r : ℕ} {ord : List ℕ} {m : ℕ → HMap ℕ ℕ} {S : SGraph} (h : ReachGraph.Described ord r m S)
    (hr : 1 ≤ r) (hsz : (ord.map fun u => r + 2 + (m u).len).sum < 2 ^ 32) {order : HMap ℕ ℕ}
    (ho : ∀ x ∈ ord, order.get? x = some (ord.idxOf x)) (ρ : ℕ → Shuffle (ℕ × ℕ)) :
    ∃ g, ReachGraph.appendAll r ord m order ρ = .ok g ∧ g.Represents S ord r ∧
      g.Stores S ord r (fun u x d => (m u).get? x = some d) := by
  obtain ⟨g, h1, I⟩ := ReachGraph.build_inv h.ordering h.loopless hr h.good h.one (by rw [h.size]; exact hsz)
    (order := order) (fun x hx => ho x ((h.verts x).1 hx)) (ρ := ρ)
    (f := fun b u => b.append r u ((ρ u).run (m u).entries) order) (fun _ _ _ => rfl)
  exact ⟨g, h1, I.represents, I.stores⟩

/-- Hypotheses of `C92_appends` are met with distances 1 and 2 that do not come from any graph. -/
example : ∃ (S : SGraph) (m : ℕ → HMap ℕ ℕ), ReachGraph.Described [2, 0, 1] 2 m S ∧ (m 1).get? 2 = some 2 ∧
    ([2, 0, 1].map fun u => 2 + 2 + (m u).len).sum < 2 ^ 32 ∧ S.Adj 0 1 ∧ ¬ S.Adj 0 2 := by
  refine ⟨⟨{2, 0, 1}, {s(1, 0)}, by simp⟩, fun u => if u = 1 then HMap.ofList [(0, 1), (2, 2)] else ∅,
    ⟨by decide, ?_, fun u => by simp, ?_⟩, by decide, by decide, by decide, by decide⟩
  · intro u hu x d hd
    by_cases h1 : u = 1
    · subst h1
      have hm : (x, d) ∈ (HMap.ofList [(0, 1), (2, 2)] : HMap ℕ ℕ).entries := HMap.get?_eq_some.1 hd
      have he : (HMap.ofList [(0, 1), (2, 2)] : HMap ℕ ℕ).entries = [(0, 1), (2, 2)] ∨
        (HMap.ofList [(0, 1), (2, 2)] : HMap ℕ ℕ).entries = [(2, 2), (0, 1)] := by decide
      rcases he with he | he <;>
      · rw [he] at hm
        simp only [List.mem_cons, Prod.mk.injEq, List.not_mem_nil, or_false] at hm
        rcases hm with ⟨rfl, rfl⟩ | ⟨rfl, rfl⟩ <;> decide
    · rw [if_neg h1] at hd
      simp at hd
  · intro u x
    have key : ∀ a b : ℕ, (a ∈ [2, 0, 1] ∧
        (if a = 1 then HMap.ofList [(0, 1), (2, 2)] else (∅ : HMap ℕ ℕ)).get? b = some 1) ↔ a = 1 ∧ b = 0 := by
      intro a b
      constructor
      · rintro ⟨-, h⟩
        by_cases h1 : a = 1
        · refine ⟨h1, ?_⟩
          rw [if_pos h1] at h
          have hm : (b, 1) ∈ (HMap.ofList [(0, 1), (2, 2)] : HMap ℕ ℕ).entries := HMap.get?_eq_some.1 h
          have he : (HMap.ofList [(0, 1), (2, 2)] : HMap ℕ ℕ).entries = [(0, 1), (2, 2)] ∨
            (HMap.ofList [(0, 1), (2, 2)] : HMap ℕ ℕ).entries = [(2, 2), (0, 1)] := by decide
          rcases he with he | he <;>
          · rw [he] at hm
            simpa using hm
        · rw [if_neg h1] at h
          simp at h
      · rintro ⟨rfl, rfl⟩
        decide
    beta_reduce
    rw [key u x, key x u]
    simp only [SGraph.Adj, Finset.mem_singleton, Sym2.eq_iff]
    tauto

/-! ## Distances out of range -/

namespace ReachBuilder

theorem pushEnds_count {indexU base offset : ℕ} : ∀ (n : ℕ) (c : List ℕ) (index : ℕ) (c' : List ℕ) (index' : ℕ),
    pushEnds indexU base offset n (c, index) = .ok (c', index') →
    index' = index + n ∧ (n = 0 → c' = c) ∧ (0 < n → add32 indexU (index' - 1) = .ok (cast32 (c'.length - 1))) := by
  intro n
  induction n with
  | zero =>
    intro c index c' index' h
    rw [pushEnds] at h
    cases h
    exact ⟨rfl, fun _ => rfl, fun h => by omega⟩
  | succ n ih =>
    intro c index c' index' h
    rw [pushEnds] at h
    cases h1 : add32 base (cast32 offset) with
    | error e => rw [h1] at h; cases h
    | ok x =>
      rw [h1, bind_ok] at h
      cases h2 : add32 indexU index with
      | error e => rw [h2] at h; cases h
      | ok i =>
        rw [h2, bind_ok] at h
        unfold assertR at h
        by_cases h3 : (cast32 ((c ++ [x]).length - 1) == i) = true
        · rw [if_pos h3, bind_ok] at h
          obtain ⟨k1, k2, k3⟩ := ih _ _ _ _ h
          refine ⟨by omega, by omega, fun _ => ?_⟩
          rcases Nat.eq_zero_or_pos n with hn | hn
          · rw [k2 hn, show index' - 1 = index by omega, h2, ← eq_of_beq h3]
          · exact k3 hn
        · rw [if_neg h3] at h
          cases h

theorem indexLoop_count {indexU base : ℕ} : ∀ (ds : List ℕ) (offset curr : ℕ) (c : List ℕ) (index : ℕ) (c' : List ℕ)
    (index' : ℕ), indexLoop indexU base offset curr ds (c, index) = .ok (c', index') →
    curr ≤ index + 1 → ∃ top, index' = index + (top - curr) ∧ curr ≤ top ∧ (∀ d ∈ ds, d ≤ top) ∧ (top = curr → c' = c) ∧
      (curr < top → add32 indexU (index' - 1) = .ok (cast32 (c'.length - 1))) := by
  intro ds
  induction ds with
  | nil =>
    intro offset curr c index c' index' h _
    rw [indexLoop] at h
    cases h
    exact ⟨curr, by omega, le_refl _, by simp, fun _ => rfl, fun h => absurd h (lt_irrefl _)⟩
  | cons x ds ih =>
    intro offset curr c index c' index' h hc
    rw [indexLoop] at h
    cases h1 : pushEnds indexU base offset (x - curr) (c, index) with
    | error e => rw [h1] at h; cases h
    | ok st =>
      obtain ⟨c₁, i₁⟩ := st
      rw [h1, bind_ok] at h
      obtain ⟨k1, k2, k3⟩ := pushEnds_count _ _ _ _ _ h1
      obtain ⟨top, l1, l2, l3, l4, l5⟩ := ih _ _ _ _ _ _ h (by omega)
      refine ⟨top, by omega, by omega, ?_, ?_, ?_⟩
      · intro d hd
        rcases List.mem_cons.1 hd with rfl | hd
        · omega
        · exact l3 d hd
      · intro ht
        rw [l4 (by omega), k2 (by omega)]
      · intro ht
        by_cases h2 : max curr x < top
        · exact l5 h2
        · have e : c' = c₁ := l4 (by omega)
          rw [e, show index' = i₁ by omega]
          exact k3 (by omega)

end ReachBuilder

/-- **C92, distances beyond `r + 1`.** If the map contains a distance above `r + 1`, `append` fails, in every state of the
builder, for every `order` and every iteration order. -/
theorem C92_too_far (r : ℕ) (b : ReachBuilder) (u : ℕ) (es : List (ℕ × ℕ)) (order : HMap ℕ ℕ) {x d : ℕ}
    (hx : (x, d) ∈ es) (hd : r + 1 < d) : ∀ b', b.append r u es order ≠ .ok b' := by
  intro b' h
  unfold ReachBuilder.append at h
  simp only at h
  generalize cast32 ((b.g.contents ++ [u]).length - 1) = q at h
  cases h1 : add32 q 1 with
  | error e => rw [h1] at h; cases h
  | ok i1 =>
  rw [h1, bind_ok] at h
  unfold assertR at h
  by_cases h2 : (cast32 ((b.g.contents ++ [u] ++ [q]).length - 1) == i1) = true
  case neg => rw [if_neg h2] at h; cases h
  rw [if_pos h2, bind_ok] at h
  cases h3 : DegenBuilder.link (b.g.contents ++ [u] ++ [q]) b.lastIndex q with
  | error e => rw [h3] at h; cases h
  | ok c =>
  rw [h3, bind_ok] at h
  cases h4 : ReachBuilder.neighbourOrder order es with
  | error e => rw [h4] at h; cases h
  | ok no =>
  rw [h4, bind_ok] at h
  cases h5 : es.foldlM (ReachBuilder.countEdge u) (b.g.rightDegrees, b.g.edges) with
  | error e => rw [h5] at h; cases h
  | ok st =>
  rw [h5, bind_ok] at h
  cases h6 : add32 q (cast32 r) with
  | error e => rw [h6] at h; cases h
  | ok b1 =>
  rw [h6, bind_ok] at h
  cases h7 : add32 b1 2 with
  | error e => rw [h7] at h; cases h
  | ok base =>
  rw [h7, bind_ok] at h
  cases h8 : add32 (cast32 r) 1 with
  | error e => rw [h8] at h; cases h
  | ok guard =>
  rw [h8, bind_ok] at h
  cases h9 : ReachBuilder.indexLoop q base 0 1 (no.map (fun t => t.1) ++ [guard]) (c, 2) with
  | error e => rw [h9] at h; cases h
  | ok st2 =>
  rw [h9, bind_ok] at h
  cases h10 : add32 b1 1 with
  | error e => simp only [h10] at h; cases h
  | ok i2 =>
  simp only [h10, bind_ok] at h
  by_cases h11 : (cast32 (st2.1.length - 1) == i2) = true
  case neg => rw [if_neg h11] at h; cases h
  obtain ⟨top, l1, l2, l3, -, l5⟩ := ReachBuilder.indexLoop_count _ _ _ _ _ _ _ h9 (by omega)
  have hmem : d ∈ no.map (fun t => t.1) := by
    unfold ReachBuilder.neighbourOrder at h4
    cases k1 : es.mapM (fun e => do
        let i ← unwrap (order.get? e.1)
        return (e.2, i, e.1)) with
    | error e => rw [k1] at h4; cases h4
    | ok ts =>
      rw [k1, bind_ok] at h4
      cases h4
      have hp : ∀ (es : List (ℕ × ℕ)) (ts : List (ℕ × ℕ × ℕ)), es.mapM (fun e => do
          let i ← unwrap (order.get? e.1)
          return (e.2, i, e.1)) = .ok ts → (x, d) ∈ es → ∃ i, (d, i, x) ∈ ts := by
        intro es
        induction es with
        | nil => intro ts _ hx; cases hx
        | cons e es ih =>
          intro ts ht hx
          rw [List.mapM_cons] at ht
          cases k2 : order.get? e.1 with
          | none => rw [k2] at ht; cases ht
          | some i =>
            rw [k2] at ht
            simp only [unwrap_some, bind_ok, pure_eq_ok] at ht
            cases k3 : es.mapM (fun e => do
                let i ← unwrap (order.get? e.1)
                return (e.2, i, e.1)) with
            | error f =>
              simp only [pure_eq_ok] at k3
              rw [k3] at ht; cases ht
            | ok ts' =>
              have k4 := k3
              simp only [pure_eq_ok] at k3
              rw [k3, bind_ok] at ht
              cases ht
              rcases List.mem_cons.1 hx with rfl | hx
              · exact ⟨i, List.mem_cons_self⟩
              · obtain ⟨j, hj⟩ := ih ts' k4 hx
                exact ⟨j, List.mem_cons_of_mem _ hj⟩
      obtain ⟨i, hi⟩ := hp es ts k1 hx
      exact List.mem_map.2 ⟨_, ((List.perm_insertionSort _ ts).mem_iff).2 hi, rfl⟩
  have htop := l3 d (List.mem_append_left _ hmem)
  have hidx : st2.2 = top + 1 := by omega
  have hlast := l5 (by omega)
  rw [hidx, Nat.add_sub_cancel] at hlast
  have e1 := eq_of_beq h11
  rw [e1] at hlast
  have hval : ∀ a b c : ℕ, add32 a b = .ok c → c = a + b := by
    intro a b c h
    unfold add32 at h
    split at h
    · cases h; rfl
    · cases h
  have a1 := hval _ _ _ hlast
  have a2 := hval _ _ _ h10
  have a3 := hval _ _ _ h6
  have : cast32 r ≤ r := Nat.mod_le _ _
  omega

/-- Hypotheses of `C92_too_far` are met. -/
example : ReachBuilder.append 1 ReachBuilder.new 6 [(5, 3)] (HMap.ofList [(5, 0)]) = .error .panic := rfl

/-- **C92, distances 0 and `r + 1`.** They are accepted silently, for `r = 1`: a vertex at distance 0 is listed at distance
1 although the pair is no edge, and a vertex at distance `r + 1` is stored but not returned by any query. -/
theorem C92_borderline :
    (∃ g, ReachGraph.appendAll 1 [5, 6] (fun u => if u = 6 then HMap.ofList [(5, 0)] else ∅) (HMap.ofList [(5, 0), (6, 1)])
      (fun _ => Shuffle.id) = .ok g ∧ g.leftNeighbours 1 6 = .ok [5] ∧ g.adjacent 5 6 = false ∧
      g.rightDegree 5 = 0) ∧
    ∃ g, ReachGraph.appendAll 1 [5, 6] (fun u => if u = 6 then HMap.ofList [(5, 2)] else ∅) (HMap.ofList [(5, 0), (6, 1)])
      (fun _ => Shuffle.id) = .ok g ∧ g.reachablesAll 1 6 = .ok [] ∧ g.leftNeighbours 1 6 = .ok [] ∧
      g.contents = [5, 3, 3, 6, 3, 6, 5] :=
  ⟨⟨_, rfl, by decide, by decide, by decide⟩, ⟨_, rfl, by decide, by decide, by decide⟩⟩

end Verif
