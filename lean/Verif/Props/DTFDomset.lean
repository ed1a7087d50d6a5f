import Verif.Lemmas.DTFDomsetSize
import Verif.Props.DTFGraph
/-!
# C96: what `DTFGraph::domset` returns

`p.1` is the augmentation after the call, `p.2` the set returned.  `Arc w x s` means that `has_arc_at(x, s, w)` is true.
-/
namespace Verif
open SGraph DTFGraph

/-- `x` has an arc of weight at most `r` to `s`. -/
def DTFGraph.SendsTo (g : DTFGraph) (r x s : ℕ) : Prop := ∃ w, 1 ≤ w ∧ w ≤ r ∧ g.Arc w x s

theorem DTFGraph.Abs.sendsTo_iff {g : DTFGraph} {V : Finset ℕ} {A : Arcs} (H : Abs g V A) (r x s : ℕ) :
    g.SendsTo r x s ↔ InNb A r s x := by
  constructor
  · rintro ⟨w, h1, h2, h3⟩
    exact ⟨w, h2, (H.arc_iff h1 _ _).1 h3⟩
  · rintro ⟨w, h2, h3⟩
    have h1 := (H.wf _ h3).2.2
    exact ⟨w, h1, h2, (H.arc_iff h1 _ _).2 h3⟩

/-- **C96.** The set returned by `domset(r)` consists of a set `T` and of the vertices that send arcs of weight at most `r` to
more than `(2r)²` vertices of `T`.  No two vertices of `T` are joined by an arc of weight at most `r` or by two arcs of total
weight at most `r` from a common in-neighbour, no vertex is in the closed in-neighbourhoods of more than `(2r)² + 1` vertices
of `T`, and `T` contains a vertex with maximum in-degree and, among these, maximum degree. -/
theorem C96_structure {S : SGraph} {g : DTFGraph} (hl : S.Loopless) (hg : Of S g) {ω : ℕ → RoundOrder DeepOrder}
    (hω : ∀ i, (ω i).Good DeepOrder.Good) {lay : DTFGraph → DTFGraph} (hlay : ∀ g, DTFGraph.Relayout g (lay g))
    (hn : S.V.card ≤ 2 ^ 31) {r : ℕ} (hr : r < 2 ^ 15) :
    Ok (g.domset ω lay r) (fun p => ∃ T : Finset ℕ, T ⊆ S.V ∧
      (∀ x, x ∈ p.2 ↔ x ∈ T ∨ ∃ B : Finset ℕ, (∀ s, s ∈ B ↔ s ∈ T ∧ p.1.SendsTo r x s) ∧ (2 * r) ^ 2 < B.card) ∧
      (∀ s ∈ T, ∀ t ∈ T, ¬ p.1.SendsTo r s t) ∧
      (∀ s ∈ T, ∀ t ∈ T, s ≠ t → ∀ x a b, 1 ≤ a → 1 ≤ b → p.1.Arc a x s → p.1.Arc b x t → r < a + b) ∧
      (∀ x ∈ S.V, ∀ B : Finset ℕ, (∀ s ∈ B, s ∈ T ∧ (s = x ∨ p.1.SendsTo r x s)) → B.card ≤ (2 * r) ^ 2 + 1) ∧
      (S.V.Nonempty → ∃ m ∈ T, ∀ u ∈ S.V, ∃ i j d e, p.1.inDegree m = .ok i ∧ p.1.inDegree u = .ok j ∧
        p.1.degree m = .ok d ∧ p.1.degree u = .ok e ∧ (j < i ∨ j = i ∧ e ≤ d))) := by
  classical
  obtain ⟨A, ha, hs, hb⟩ := hg.abs hl
  obtain ⟨p, hp, -⟩ := domset_ok ha hs hω hlay hn hr
  refine ⟨p, hp, ?_⟩
  obtain ⟨A', T, H, hs', hd, -, hT, hset, hfew, harc, hcom, hmax, hdom, -⟩ := domset_struct ha hs hω hlay hn hr hp
  have hsq : (2 * r) ^ 2 = 2 * r * (2 * r) := Nat.pow_two _
  refine ⟨T, hT, fun x => ?_, fun s hs t ht h => harc t ht s hs ((H.sendsTo_iff _ _ _).1 h), ?_, ?_, ?_⟩
  · by_cases hx : x ∈ S.V
    · rw [hset x hx, hsq]
      refine or_congr_right ⟨fun h => ⟨T.filter fun s => InNb A' r s x, fun s => ?_, h⟩, ?_⟩
      · rw [Finset.mem_filter, H.sendsTo_iff]
      · rintro ⟨B, h1, h2⟩
        unfold outCount
        refine h2.trans_le (Finset.card_le_card fun s hs => ?_)
        rw [Finset.mem_filter, ← H.sendsTo_iff]
        exact (h1 s).1 hs
    · refine ⟨fun h => absurd (hdom x h) hx, ?_⟩
      rintro (h | ⟨B, h1, h2⟩)
      · exact absurd (hT h) hx
      · obtain ⟨s, hsB⟩ := Finset.card_pos.1 (lt_of_le_of_lt (Nat.zero_le _) h2)
        obtain ⟨w, -, h3⟩ := (H.sendsTo_iff _ _ _).1 ((h1 s).1 hsB).2
        exact absurd (H.wf _ h3).1 hx
  · intro s hs t ht hne x a b ha' hb' h1 h2
    exact hcom s hs t ht hne x a b ((H.arc_iff ha' _ _).1 h1) ((H.arc_iff hb' _ _).1 h2)
  · intro x hx B hB
    rw [hsq]
    refine le_trans (Finset.card_le_card fun s hs => ?_) (hfew x hx)
    obtain ⟨h1, h2⟩ := hB s hs
    rw [H.sendsTo_iff] at h2
    exact Finset.mem_filter.2 ⟨h1, h2⟩
  · intro hne
    obtain ⟨m, hm, hmu⟩ := hmax hne
    refine ⟨m, hm, fun u hu => ⟨_, _, _, _, H.inDegree (hT hm), H.inDegree hu, H.degree (hT hm), H.degree hu, ?_⟩⟩
    exact arcKey_le H hs' (hmu u hu)

/-- `C96_structure` for the five-cycle after `augment(2, 1)`. -/
example := C96_structure c5_loopless c5_case.choose_spec.2.1 (ω := fun _ => idRound (deepWith Shuffle.rev)) (fun _ => idRound_good (deepWith_good _))
  (lay := id) (fun g => g.relayout_refl) (by decide) (r := 3) (by decide)

/-- **C96.** If every in-degree of the augmentation after the call is less than `c` and `small_distance` gives a value for all
pairs of distinct vertices at distance at most `r`, then the set returned by `domset(r)` has at most `c·(c + (2r)²)` times as
many elements as any set `X` that has every vertex within distance `r`. -/
theorem C96_size {S : SGraph} {g : DTFGraph} (hl : S.Loopless) (hg : Aug S g) {ω : ℕ → RoundOrder DeepOrder}
    (hω : ∀ i, (ω i).Good DeepOrder.Good) {lay : DTFGraph → DTFGraph} (hlay : ∀ g, DTFGraph.Relayout g (lay g))
    (hn : S.V.card ≤ 2 ^ 31) {r : ℕ} (hr : r < 2 ^ 15) (hgd : g.depth ≤ r) {p : DTFGraph × HSet ℕ}
    (h : g.domset ω lay r = .ok p)
    (hsd : ∀ u ∈ S.V, ∀ v ∈ S.V, u ≠ v → (∃ n ≤ r, Walk S.Adj n u v) → ∃ k, p.1.smallDistance u v = .ok (some k)) {c : ℕ}
    (hc : ∀ v ∈ S.V, ∀ d, p.1.inDegree v = .ok d → d < c) (X : Finset ℕ)
    (hX : ∀ x ∈ S.V, ∃ d ∈ X, ∃ n ≤ r, Walk S.Adj n d x) : p.2.len ≤ X.card * (c * (c + (2 * r) ^ 2)) := by
  classical
  obtain ⟨A, ha, hi⟩ := hg.abs hl
  obtain ⟨A', T, H, hs', hd, hai, hT, hset, hfew, -, -, -, hdom, -⟩ := domset_struct ha hi.sound hω hlay hn hr h
  have hi' := hai hi
  have hd' : p.1.depth = r := by omega
  have hb := size_bound_rel (R := InNb A' r) (V := S.V) (T := T) (E := p.2.toFinset \ T) (X := X)
    (k := 2 * r * (2 * r) + 1) (c := c) (by omega) hT ?_ ?_ ?_ ?_
  · have hTD : T ⊆ p.2.toFinset := fun x hx => HSet.mem_toFinset.2 ((hset x (hT hx)).2 (Or.inl hx))
    rw [Finset.union_sdiff_of_subset hTD, ← HSet.len_eq_card, Nat.add_sub_cancel, ← Nat.pow_two] at hb
    exact hb
  · intro s hs
    obtain ⟨o, ho, n, hnr, hw⟩ := hX s (hT hs)
    have hoV : o ∈ S.V := by
      cases hw with
      | nil => exact hT hs
      | cons h _ => exact h.left
    refine ⟨o, ho, hoV, ?_⟩
    by_cases heq : o = s
    · exact ⟨o, hoV, Or.inl rfl, Or.inl heq.symm⟩
    · obtain ⟨k, hk⟩ := hsd o hoV s (hT hs) heq ⟨n, hnr, hw⟩
      obtain ⟨o', ho', h1, -⟩ := smallDistance_ok H hoV (hT hs) (by omega) hi'.bounded fun u x w w' => hs'.uniq x u w w'
      rw [hk] at ho'
      cases ho'
      obtain ⟨h2, h3, -⟩ := h1 k rfl
      rw [hd'] at h2
      rcases h3 with h3 | h3 | ⟨x, a, b, h3, h4, rfl⟩
      · exact ⟨o, hoV, Or.inl rfl, Or.inr ⟨k, h2, h3⟩⟩
      · exact ⟨s, hT hs, Or.inr ⟨k, h2, h3⟩, Or.inl rfl⟩
      · exact ⟨x, (H.wf _ h3).1, Or.inr ⟨a, by omega, h3⟩, Or.inr ⟨b, by omega, h4⟩⟩
  · intro v hv W hW
    refine lt_of_le_of_lt ?_ (hc v hv _ (H.inDegree hv))
    refine le_trans ?_ (Finset.card_image_le (f := fun e : ℕ × ℕ × ℕ => e.1))
    refine Finset.card_le_card fun u hu => ?_
    obtain ⟨w, -, h1⟩ := hW u hu
    exact Finset.mem_image.2 ⟨(u, v, w), Finset.mem_filter.2 ⟨h1, rfl⟩, rfl⟩
  · intro x hx B hB
    exact le_trans (Finset.card_le_card fun s hs => Finset.mem_filter.2 (hB s hs)) (hfew x hx)
  · intro x hx
    rw [Finset.mem_sdiff, HSet.mem_toFinset] at hx
    have h1 := ((hset x (hdom x hx.1)).1 hx.1).resolve_left hx.2
    exact ⟨T.filter fun s => InNb A' r s x, fun s hs => Finset.mem_filter.1 hs, h1⟩

/-- Hypotheses of the C96 theorems are met: on the path 0-1-2-3-4 after `augment(3, 1)` all in-degrees are less than 4,
`small_distance` is right, and the vertex 2 alone dominates with radius 3. -/
example : ∃ (g : DTFGraph) (p : DTFGraph × HSet ℕ), Aug p5G g ∧ p5G.Loopless ∧ g.depth ≤ 3 ∧ p5G.V.card ≤ 2 ^ 31 ∧
    p5G.V.Nonempty ∧ (∀ _ : ℕ, (idRound (deepWith Shuffle.id)).Good DeepOrder.Good) ∧ (∀ g, DTFGraph.Relayout g (id g)) ∧
    g.domset (fun _ => idRound (deepWith Shuffle.id)) id 3 = .ok p ∧
    (∀ u ∈ p5G.V, ∀ v ∈ p5G.V, u ≠ v → (∃ n ≤ 3, Walk p5G.Adj n u v) → ∃ k, p.1.smallDistance u v = .ok (some k)) ∧
    (∀ v ∈ p5G.V, ∀ d, p.1.inDegree v = .ok d → d < 4) ∧ ∀ x ∈ p5G.V, ∃ d ∈ ({2} : Finset ℕ), ∃ n ≤ 3, Walk p5G.Adj n d x := by
  obtain ⟨g, hg, ha, hd, hcl⟩ := p5_closed
  obtain ⟨p, hp, -⟩ := C68_domset p5_loopless ha.of (ω := fun _ => idRound (deepWith Shuffle.id))
    (fun _ => idRound_good (deepWith_good _)) (lay := id) (fun g => g.relayout_refl) (by decide) (r := 3) (by omega)
  have hp1 : p.1 = g := by
    obtain ⟨g', h1, h2⟩ := augment_of_domset hp
    have h3 : g.augment (fun _ => idRound (deepWith Shuffle.id)) 3 2 = .ok g := by
      unfold DTFGraph.augment augmentBy
      rw [hd]
      show augmentLoop _ _ 3 0 g = _
      unfold augmentLoop
      rw [if_neg (by omega)]
    rw [h3] at h1
    cases h1
    exact h2
  have hdeg : ((augE Shuffle.id p5 3 1).map fun g => (List.range 5).all fun u => decide (g.inDegree u = .ok (min 3 (4 - u))))
      = .ok true := by decide +kernel
  refine ⟨g, p, ha, p5_loopless, by omega, by decide, by decide, fun _ => idRound_good (deepWith_good _),
    fun g => g.relayout_refl, hp, ?_, ?_, ?_⟩
  · rw [hp1]
    intro u hu v hv huv hw
    classical
    obtain ⟨n, hn, hw⟩ := hw
    have hex : ∃ m, Walk p5G.Adj m u v := ⟨n, hw⟩
    obtain ⟨o, ho, h1⟩ := C67_closed_partial p5_loopless ha (by omega) hcl hu hv huv
    have hle := Nat.find_min' hex hw
    have := (h1 (Nat.find hex)).2 ⟨⟨Nat.find_spec hex, fun m hm => Nat.find_min hex hm⟩, by omega⟩
    exact ⟨_, ho.trans (congrArg _ this)⟩
  · rw [hp1]
    intro v hv d hvd
    rw [hg] at hdeg
    have h1 := Except.ok.inj hdeg
    rw [List.all_eq_true] at h1
    have hv5 : v < 5 := by
      have : ∀ v ∈ p5G.V, v < 5 := by decide
      exact this v hv
    have h2 := of_decide_eq_true (h1 v (List.mem_range.2 hv5))
    rw [hvd] at h2
    have := Except.ok.inj h2
    omega
  · have h1 : ∀ x ∈ p5G.V, x = 2 ∨ p5G.Adj 2 x ∨ ∃ y ∈ p5G.V, p5G.Adj 2 y ∧ p5G.Adj y x := by decide
    intro x hx
    refine ⟨2, by simp, ?_⟩
    rcases h1 x hx with rfl | h | ⟨y, -, h, h'⟩
    · exact ⟨0, by omega, .nil _⟩
    · exact ⟨1, by omega, Walk.one_iff.2 h⟩
    · exact ⟨2, by omega, .cons h (Walk.one_iff.2 h')⟩

end Verif
