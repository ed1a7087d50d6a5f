import Mathlib.Data.Finset.Image
import Verif.Spec.Components
import Verif.Lemmas.Components
/-! # Counting connected components -/
namespace Verif

theorem card_image_congr {α β γ : Type} [DecidableEq β] [DecidableEq γ] {s : Finset α} {f : α → β} {g : α → γ}
    (h : ∀ a ∈ s, ∀ b ∈ s, f a = f b ↔ g a = g b) : (s.image f).card = (s.image g).card := by
  classical
  have h1 : (s.image f) = (s.image (fun a => (f a, g a))).image Prod.fst := by
    rw [Finset.image_image]; rfl
  have h2 : (s.image g) = (s.image (fun a => (f a, g a))).image Prod.snd := by
    rw [Finset.image_image]; rfl
  have i1 : Set.InjOn Prod.fst (s.image (fun a => (f a, g a)) : Set (β × γ)) := by
    intro x hx y hy he
    rw [Finset.mem_coe, Finset.mem_image] at hx hy
    obtain ⟨a, ha, rfl⟩ := hx
    obtain ⟨b, hb, rfl⟩ := hy
    exact Prod.ext he ((h a ha b hb).1 he)
  have i2 : Set.InjOn Prod.snd (s.image (fun a => (f a, g a)) : Set (β × γ)) := by
    intro x hx y hy he
    rw [Finset.mem_coe, Finset.mem_image] at hx hy
    obtain ⟨a, ha, rfl⟩ := hx
    obtain ⟨b, hb, rfl⟩ := hy
    exact Prod.ext ((h a ha b hb).2 he) he
  rw [h1, h2, Finset.card_image_of_injOn i1, Finset.card_image_of_injOn i2]

namespace SGraph
variable {S T : SGraph} {u v : ℕ}

theorem adj_symm (S : SGraph) : ∀ a b, S.Adj a b → S.Adj b a := fun _ _ => Adj.symm

theorem conn_mem (h : Conn S.Adj u v) (hu : u ∈ S.V) : v ∈ S.V := by
  obtain ⟨n, h⟩ := h
  induction h with
  | nil u => exact hu
  | cons h _ ih => exact ih h.right

@[simp] theorem mem_comp : v ∈ S.comp u ↔ v ∈ S.V ∧ Conn S.Adj u v := by
  classical
  simp [comp]

theorem comp_eq_iff (hu : u ∈ S.V) : S.comp v = S.comp u ↔ Conn S.Adj v u := by
  constructor
  · intro h
    have : u ∈ S.comp v := by rw [h, mem_comp]; exact ⟨hu, .refl u⟩
    exact (mem_comp.1 this).2
  · intro h
    ext w
    rw [mem_comp, mem_comp]
    exact and_congr_right fun _ => ⟨fun h' => (h.symm S.adj_symm).trans h', fun h' => h.trans h'⟩

theorem mem_comps {c : Finset ℕ} : c ∈ S.comps ↔ ∃ u ∈ S.V, S.comp u = c := by
  classical
  simp [comps]

/-- The listing returned by `components` has one entry per component. -/
theorem comps_eq {cs : List (HSet ℕ)} (h1 : ∀ c ∈ cs, ∃ u, u ∈ c) (h3 : ∀ v, v ∈ S.V ↔ ∃ c ∈ cs, v ∈ c)
    (h4 : ∀ c ∈ cs, ∀ u, u ∈ c → ∀ v, v ∈ c ↔ Conn S.Adj u v) (d : Finset ℕ) :
    d ∈ S.comps ↔ ∃ c ∈ cs, c.toFinset = d := by
  have key : ∀ c ∈ cs, ∀ u, u ∈ c → c.toFinset = S.comp u := by
    intro c hc u hu
    ext w
    rw [HSet.mem_toFinset, mem_comp, h4 c hc u hu]
    exact ⟨fun h => ⟨conn_mem h ((h3 u).2 ⟨c, hc, hu⟩), h⟩, fun h => h.2⟩
  rw [mem_comps]
  constructor
  · rintro ⟨u, hu, rfl⟩
    obtain ⟨c, hc, huc⟩ := (h3 u).1 hu
    exact ⟨c, hc, key c hc u huc⟩
  · rintro ⟨c, hc, rfl⟩
    obtain ⟨u, hu⟩ := h1 c hc
    exact ⟨u, (h3 u).2 ⟨c, hc, hu⟩, (key c hc u hu).symm⟩

theorem length_comps {cs : List (HSet ℕ)} (h1 : ∀ c ∈ cs, ∃ u, u ∈ c)
    (h2 : cs.Pairwise (fun c d => ∀ a, a ∈ c → ¬ a ∈ d)) (h3 : ∀ v, v ∈ S.V ↔ ∃ c ∈ cs, v ∈ c)
    (h4 : ∀ c ∈ cs, ∀ u, u ∈ c → ∀ v, v ∈ c ↔ Conn S.Adj u v) : cs.length = S.comps.card := by
  classical
  have hn : (cs.map HSet.toFinset).Nodup := by
    rw [List.nodup_iff_pairwise_ne, List.pairwise_map]
    refine (List.Pairwise.and_mem.1 h2).imp ?_
    rintro c d ⟨hc, hd, hcd⟩ he
    obtain ⟨u, hu⟩ := h1 c hc
    have : u ∈ d.toFinset := by rw [← he]; exact hu
    exact hcd u hu this
  have : S.comps = (cs.map HSet.toFinset).toFinset := by
    ext d
    rw [comps_eq h1 h3 h4, List.mem_toFinset, List.mem_map]
  rw [this, List.toFinset_card_of_nodup hn, List.length_map]

/-- A map that respects and reflects connectivity and reaches every component preserves the number of
components. -/
theorem card_comps_of_map (φ : ℕ → ℕ) (h1 : ∀ u ∈ S.V, φ u ∈ T.V)
    (h2 : ∀ u ∈ S.V, ∀ v ∈ S.V, Conn S.Adj u v ↔ Conn T.Adj (φ u) (φ v))
    (h3 : ∀ w ∈ T.V, ∃ u ∈ S.V, Conn T.Adj (φ u) w) : T.comps.card = S.comps.card := by
  classical
  have : T.comps = S.V.image (fun u => T.comp (φ u)) := by
    ext d
    rw [mem_comps, Finset.mem_image]
    constructor
    · rintro ⟨w, hw, rfl⟩
      obtain ⟨u, hu, h⟩ := h3 w hw
      exact ⟨u, hu, (comp_eq_iff hw).2 h⟩
    · rintro ⟨u, hu, rfl⟩
      exact ⟨φ u, h1 u hu, rfl⟩
  rw [this, comps]
  refine card_image_congr fun a ha b hb => ?_
  rw [comp_eq_iff (h1 b hb), comp_eq_iff hb, h2 a ha b hb]

/-- Number of components of a disjoint union. -/
theorem card_comps_union {X : SGraph} (φ : ℕ → ℕ) (hV : ∀ w, w ∈ X.V ↔ w ∈ S.V ∨ ∃ v ∈ T.V, w = φ v)
    (hd : ∀ v ∈ T.V, φ v ∉ S.V) (hinj : ∀ u ∈ T.V, ∀ v ∈ T.V, φ u = φ v → u = v)
    (hA : ∀ a b, X.Adj a b ↔ S.Adj a b ∨ ∃ u v, T.Adj u v ∧ a = φ u ∧ b = φ v) :
    X.comps.card = S.comps.card + T.comps.card := by
  classical
  have c1 : ∀ {n u v}, Walk X.Adj n u v → u ∈ S.V → Conn S.Adj u v := by
    intro n u v h
    induction h with
    | nil u => exact fun _ => .refl u
    | @cons n u w v h _ ih =>
      intro hu
      rcases (hA _ _).1 h with h' | ⟨x, y, h', rfl, -⟩
      · exact (Conn.single h').trans (ih h'.right)
      · exact absurd hu (hd x h'.left)
  have c2 : ∀ {n a b}, Walk X.Adj n a b → ∀ u ∈ T.V, a = φ u → ∃ v ∈ T.V, b = φ v ∧ Conn T.Adj u v := by
    intro n a b h
    induction h with
    | nil a => exact fun u hu he => ⟨u, hu, he, .refl u⟩
    | @cons n a c b h _ ih =>
      rintro u hu rfl
      rcases (hA _ _).1 h with h' | ⟨x, y, h', e, rfl⟩
      · exact absurd h'.left (hd u hu)
      · obtain rfl := hinj u hu x h'.left e
        obtain ⟨v, hv, he, hc⟩ := ih y h'.right rfl
        exact ⟨v, hv, he, (Conn.single h').trans hc⟩
  have d1 : ∀ u ∈ S.V, ∀ v, Conn X.Adj u v ↔ Conn S.Adj u v := by
    intro u hu v
    exact ⟨fun ⟨n, h⟩ => c1 h hu, fun h => h.mono fun a b h => (hA a b).2 (Or.inl h)⟩
  have d2 : ∀ u ∈ T.V, ∀ v ∈ T.V, Conn X.Adj (φ u) (φ v) ↔ Conn T.Adj u v := by
    intro u hu v hv
    constructor
    · rintro ⟨n, h⟩
      obtain ⟨v', hv', he, hc⟩ := c2 h u hu rfl
      rwa [hinj v hv v' hv' he]
    · rintro ⟨n, h⟩
      clear hu hv
      induction h with
      | nil u => exact .refl _
      | cons h _ ih => exact (Conn.single ((hA _ _).2 (Or.inr ⟨_, _, h, rfl, rfl⟩))).trans ih
  have hX : X.comps = S.V.image X.comp ∪ T.V.image (fun v => X.comp (φ v)) := by
    ext d
    rw [mem_comps, Finset.mem_union, Finset.mem_image, Finset.mem_image]
    constructor
    · rintro ⟨w, hw, rfl⟩
      rcases (hV w).1 hw with h | ⟨v, hv, rfl⟩
      · exact Or.inl ⟨w, h, rfl⟩
      · exact Or.inr ⟨v, hv, rfl⟩
    · rintro (⟨w, hw, rfl⟩ | ⟨v, hv, rfl⟩)
      · exact ⟨w, (hV w).2 (Or.inl hw), rfl⟩
      · exact ⟨φ v, (hV _).2 (Or.inr ⟨v, hv, rfl⟩), rfl⟩
  rw [hX, Finset.card_union_of_disjoint]
  · congr 1
    · rw [comps]
      refine card_image_congr fun a ha b hb => ?_
      rw [comp_eq_iff ((hV b).2 (Or.inl hb)), comp_eq_iff hb, d1 a ha]
    · rw [comps]
      refine card_image_congr fun a ha b hb => ?_
      rw [comp_eq_iff ((hV _).2 (Or.inr ⟨b, hb, rfl⟩)), comp_eq_iff hb, d2 a ha b hb]
  · rw [Finset.disjoint_left]
    intro d h1 h2
    rw [Finset.mem_image] at h1 h2
    obtain ⟨u, hu, rfl⟩ := h1
    obtain ⟨v, hv, he⟩ := h2
    have := (comp_eq_iff ((hV u).2 (Or.inl hu))).1 he
    have := (d1 u hu (φ v)).1 (this.symm X.adj_symm)
    exact hd v hv (conn_mem this hu)

/-- Adding an edge inside a component changes nothing, adding one between two components merges them. -/
theorem card_comps_addEdge {X : SGraph} {a b : ℕ} (ha : a ∈ S.V) (hb : b ∈ S.V) (hV : X.V = S.V)
    (hA : ∀ x y, X.Adj x y ↔ S.Adj x y ∨ (x = a ∧ y = b) ∨ (x = b ∧ y = a)) :
    (Conn S.Adj a b → X.comps.card = S.comps.card) ∧ (¬ Conn S.Adj a b → X.comps.card + 1 = S.comps.card) := by
  classical
  have hX : X.Adj = fun x y => S.Adj x y ∨ (x = a ∧ y = b) ∨ (x = b ∧ y = a) := by
    funext x y; exact propext (hA x y)
  have hc : ∀ u v, Conn X.Adj u v ↔ Conn S.Adj u v ∨ (Conn S.Adj u a ∧ Conn S.Adj b v) ∨
      (Conn S.Adj u b ∧ Conn S.Adj a v) := by
    intro u v; rw [hX, Conn.insert_iff S.adj_symm]
  constructor
  · intro h
    refine card_comps_of_map id (fun u hu => hV ▸ hu) (fun u _ v _ => ?_) (fun w hw => ⟨w, hV ▸ hw, .refl w⟩)
    rw [id, id, hc]
    constructor
    · exact Or.inl
    · rintro (h1 | ⟨h1, h2⟩ | ⟨h1, h2⟩)
      · exact h1
      · exact (h1.trans h).trans h2
      · exact (h1.trans (h.symm S.adj_symm)).trans h2
  · intro h
    have e1 : X.comps = (S.V \ S.comp b).image X.comp := by
      ext d
      rw [mem_comps, Finset.mem_image, hV]
      constructor
      · rintro ⟨w, hw, rfl⟩
        by_cases hwb : w ∈ S.comp b
        · refine ⟨a, ?_, ?_⟩
          · rw [Finset.mem_sdiff, mem_comp]
            exact ⟨ha, fun hc' => h (hc'.2.symm S.adj_symm)⟩
          · rw [comp_eq_iff (hV ▸ hw), hc]
            exact Or.inr (Or.inl ⟨.refl a, (mem_comp.1 hwb).2⟩)
        · exact ⟨w, Finset.mem_sdiff.2 ⟨hw, hwb⟩, rfl⟩
      · rintro ⟨w, hw, rfl⟩
        exact ⟨w, (Finset.mem_sdiff.1 hw).1, rfl⟩
    have e2 : S.comps.erase (S.comp b) = (S.V \ S.comp b).image S.comp := by
      ext d
      rw [Finset.mem_erase, mem_comps, Finset.mem_image]
      constructor
      · rintro ⟨hd, w, hw, rfl⟩
        refine ⟨w, Finset.mem_sdiff.2 ⟨hw, fun hwb => hd ?_⟩, rfl⟩
        rw [comp_eq_iff hb]
        exact (mem_comp.1 hwb).2.symm S.adj_symm
      · rintro ⟨w, hw, rfl⟩
        rw [Finset.mem_sdiff] at hw
        refine ⟨fun he => hw.2 (mem_comp.2 ⟨hw.1, ?_⟩), w, hw.1, rfl⟩
        exact ((comp_eq_iff hb).1 he).symm S.adj_symm
    have e3 : X.comps.card = (S.comps.erase (S.comp b)).card := by
      rw [e1, e2]
      refine card_image_congr fun x hx y hy => ?_
      rw [Finset.mem_sdiff, mem_comp] at hx hy
      rw [comp_eq_iff (hV ▸ hy.1), comp_eq_iff hy.1, hc]
      constructor
      · rintro (h1 | ⟨h1, h2⟩ | ⟨h1, h2⟩)
        · exact h1
        · exact absurd ⟨hy.1, h2⟩ hy.2
        · exact absurd ⟨hx.1, h1.symm S.adj_symm⟩ hx.2
      · exact Or.inl
    have hmem : S.comp b ∈ S.comps := mem_comps.2 ⟨b, hb, rfl⟩
    rw [e3, Finset.card_erase_of_mem hmem]
    have := Finset.card_pos.2 ⟨_, hmem⟩
    omega

/-- A graph without edges has one component per vertex. -/
theorem card_comps_edgeless (h : S.E = ∅) : S.comps.card = S.V.card := by
  classical
  rw [comps, Finset.card_image_of_injOn]
  intro u _ v hv he
  obtain ⟨n, hw⟩ := (comp_eq_iff hv).1 he
  cases hw with
  | nil => rfl
  | cons h' _ =>
    unfold Adj at h'
    rw [h] at h'
    simp at h'

/-- There are at least `n - m` components. -/
theorem card_le_comps (S : SGraph) : S.V.card ≤ S.E.card + S.comps.card := by
  obtain ⟨V, E, wf⟩ := S
  induction E using Finset.induction_on with
  | empty => rw [card_comps_edgeless rfl]; omega
  | @insert e E he ih =>
    have wf' : ∀ e ∈ E, ∀ u ∈ e, u ∈ V := fun e he => wf e (Finset.mem_insert_of_mem he)
    have := ih wf'
    induction e using Sym2.ind with
    | _ a b =>
      have ha : a ∈ V := wf s(a, b) (Finset.mem_insert_self _ _) a (by simp)
      have hb : b ∈ V := wf s(a, b) (Finset.mem_insert_self _ _) b (by simp)
      have key := card_comps_addEdge (S := ⟨V, E, wf'⟩) (X := ⟨V, insert s(a, b) E, wf⟩) ha hb rfl (by
        intro x y
        show s(x, y) ∈ insert s(a, b) E ↔ s(x, y) ∈ E ∨ _
        rw [Finset.mem_insert, Sym2.eq_iff]
        tauto)
      rw [Finset.card_insert_of_notMem he]
      by_cases hc : Conn (SGraph.mk V E wf').Adj a b
      · have := key.1 hc
        simp only at *
        omega
      · have := key.2 hc
        simp only at *
        omega

end SGraph
end Verif
