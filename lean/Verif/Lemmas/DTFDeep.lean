import Verif.Lemmas.DTFAugment
import Verif.Spec.Augment
import Verif.Props.Algorithms
/-!
# Lemmas: `to_undirected`, `edge_subgraph`, `orient_deep` and states reached by `augment`

`orient`, `orient_deep` and `augment` follow the specification of fraternal augmentations exactly.
-/
namespace Verif.DTFGraph
variable {g : DTFGraph} {V : Finset ℕ} {A : Arcs}

theorem toUndirected_ok (H : Abs g V A) :
    Ok g.toUndirected (fun U => ∃ T, EditGraph.Abs U T ∧ T.V = V ∧
      ∀ a b, T.Adj a b ↔ (∃ w, (b, a, w) ∈ A) ∧ a ≤ b ∨ (∃ w, (a, b, w) ∈ A) ∧ b ≤ a) := by
  unfold toUndirected
  obtain ⟨l, s, hl, -, -, -, hm⟩ := H.arcs_drains
  have hv : EditGraph.Is (g.vertices.foldl (fun (r : EditGraph) u => (r.addVertex u).1) EditGraph.new) (fun w => w ∈ g.vertices)
      (fun _ _ => False) := by
    refine foldl_inv (fun (pre : List ℕ) (r : EditGraph) => EditGraph.Is r (fun w => w ∈ pre) (fun _ _ => False)) ?_ ?_
    · exact EditGraph.Is.new.congr (by simp) (by simp)
    · intro pre a post r _ hr
      exact (hr.addVertex a).congr (fun w => by simp) fun _ _ => Iff.rfl
  simp only [hl, bind_ok]
  refine (addPairs_ok hv l).mono ?_
  rintro U ⟨T, h1, h2, h3⟩
  simp only at h2 h3
  refine ⟨T, h1, ?_, fun a b => ?_⟩
  · ext u
    rw [h2, H.vertices_mem]
    constructor
    · rintro (h | ⟨⟨v, x⟩, hx, h⟩)
      · exact h
      · obtain ⟨⟨w, hw⟩, -⟩ := (hm v x).1 hx
        rcases h with rfl | rfl
        · exact (H.wf _ hw).2.1
        · exact (H.wf _ hw).1
    · exact Or.inl
  · rw [h3, hm, hm]
    simp

theorem edgeSubgraph_ok (H : Abs g V A) {es : List Edge} :
    Ok (g.edgeSubgraph es) (fun D => ∃ B, Abs D V B ∧ D.depth = 1 ∧
      ∀ u v w, (u, v, w) ∈ B ↔ w = 1 ∧ (∃ w', (u, v, w') ∈ A) ∧ ((u, v) ∈ es ∨ (v, u) ∈ es)) := by
  unfold edgeSubgraph
  have hstart : Abs (g.vertices.foldl (fun r v => r.addVertex v) new) V ∅ ∧
      (g.vertices.foldl (fun r v => r.addVertex v) new).depth = 1 := by
    have := foldl_inv (f := fun (r : DTFGraph) v => r.addVertex v) (l := g.vertices) (b := new)
      (fun (pre : List ℕ) (r : DTFGraph) => Abs r pre.toFinset ∅ ∧ r.depth = 1) ⟨by simpa using abs_new, rfl⟩ ?_
    · have hV : g.vertices.toFinset = V := by ext u; rw [List.mem_toFinset, H.vertices_mem]
      rwa [hV] at this
    · rintro pre a post r - ⟨h1, h2⟩
      refine ⟨?_, by rw [Abs.addVertex_depth]; exact h2⟩
      have : (pre ++ [a]).toFinset = insert a pre.toFinset := by ext; simp [or_comm]
      rw [this]
      exact h1.addVertex a
  have hin : ∀ u v w, (u, v, w) ∈ A → insert u (insert v V) = V := by
    intro u v w h
    have := H.wf _ h
    rw [Finset.insert_eq_of_mem this.2.1, Finset.insert_eq_of_mem this.1]
  -- one conditional insertion
  have step : ∀ (u v : ℕ) (res : DTFGraph) (B : Arcs), Abs res V B → res.depth = 1 →
      Ok (if g.hasArc u v then res.addArc u v 1 else .ok res) (fun r => ∃ B', Abs r V B' ∧ r.depth = 1 ∧
        ∀ a b w, (a, b, w) ∈ B' ↔ (a, b, w) ∈ B ∨ (w = 1 ∧ a = u ∧ b = v ∧ ∃ w', (u, v, w') ∈ A)) := by
    intro u v res B hr hd
    by_cases h : g.hasArc u v = true
    · rw [if_pos h]
      rw [H.hasArc_iff] at h
      obtain ⟨w, hw⟩ := h
      refine (hr.addArc (le_refl 1) (by omega) u v).mono ?_
      rintro r ⟨k1, k2⟩
      rw [hin u v w hw] at k1
      refine ⟨_, k1, k2, fun a b c => ?_⟩
      rw [Finset.mem_insert, Prod.mk.injEq, Prod.mk.injEq]
      constructor
      · rintro (⟨rfl, rfl, rfl⟩ | h)
        · exact Or.inr ⟨rfl, rfl, rfl, w, hw⟩
        · exact Or.inl h
      · rintro (h | ⟨rfl, rfl, rfl, -⟩)
        · exact Or.inr h
        · exact Or.inl ⟨rfl, rfl, rfl⟩
    · rw [if_neg h]
      rw [H.hasArc_iff] at h
      refine Ok.pure (a := res) ⟨B, hr, hd, fun a b c => ?_⟩
      constructor
      · exact Or.inl
      · rintro (h' | ⟨-, -, -, h'⟩)
        · exact h'
        · exact absurd h' h
  refine (Ok.foldlM (fun (pre : List Edge) (D : DTFGraph) => ∃ B, Abs D V B ∧ D.depth = 1 ∧
    ∀ u v w, (u, v, w) ∈ B ↔ w = 1 ∧ (∃ w', (u, v, w') ∈ A) ∧ ((u, v) ∈ pre ∨ (v, u) ∈ pre)) ?_ ?_)
  · exact ⟨∅, hstart.1, hstart.2, by simp⟩
  · rintro pre ⟨x, y⟩ post D - ⟨B, h1, h2, h3⟩
    unfold subgraphStep
    have key := Ok.bind (step x y D B h1 h2) (f := fun res => if g.hasArc y x then res.addArc y x 1 else .ok res)
      (Q := fun D => ∃ B, Abs D V B ∧ D.depth = 1 ∧
        ∀ u v w, (u, v, w) ∈ B ↔ w = 1 ∧ (∃ w', (u, v, w') ∈ A) ∧ ((u, v) ∈ pre ++ [(x, y)] ∨ (v, u) ∈ pre ++ [(x, y)])) ?_
    · by_cases hxy : g.hasArc x y = true
      · simp only [hxy, if_true] at key ⊢
        exact key
      · simp only [hxy, if_false] at key ⊢
        exact key
    · rintro r ⟨B1, k1, k2, k3⟩
      refine (step y x r B1 k1 k2).mono ?_
      rintro r' ⟨B2, m1, m2, m3⟩
      refine ⟨B2, m1, m2, fun u v w => ?_⟩
      rw [m3, k3, h3]
      simp only [List.mem_append, List.mem_singleton, Prod.mk.injEq]
      constructor
      · rintro ((⟨rfl, h, h'⟩ | ⟨rfl, rfl, rfl, h⟩) | ⟨rfl, rfl, rfl, h⟩)
        · exact ⟨rfl, h, by tauto⟩
        · exact ⟨rfl, h, by tauto⟩
        · exact ⟨rfl, h, by tauto⟩
      · rintro ⟨rfl, h, (h' | ⟨rfl, rfl⟩) | (h' | ⟨rfl, rfl⟩)⟩
        · exact Or.inl (Or.inl ⟨rfl, h, Or.inl h'⟩)
        · exact Or.inl (Or.inr ⟨rfl, rfl, rfl, h⟩)
        · exact Or.inl (Or.inl ⟨rfl, h, Or.inr h'⟩)
        · exact Or.inr ⟨rfl, rfl, rfl, h⟩

/-- All arcs go forward in some order of the vertices. -/
def Forward (S : SGraph) (A : Arcs) : Prop :=
  ∃ ord : List ℕ, ord.Nodup ∧ (∀ u, u ∈ ord ↔ u ∈ S.V) ∧ ∀ u v w, (u, v, w) ∈ A → ord.idxOf u < ord.idxOf v

/-- Admissible hash orders for `orient_deep`. -/
structure DeepOrder.Good (ω : DeepOrder) : Prop where
  aug : ∀ i, (ω.aug i).Good (fun _ => True)
  lay : ∀ g, Relayout g (ω.lay g)
  undirected : ∀ f, EditGraph.Relayout f (ω.undirected f)
  out : ∀ g, Relayout g (ω.out g)

theorem Sound.of_arcs {S : SGraph} (h : ∀ e ∈ A, e.2.2 = 1 ∧ S.Adj e.1 e.2.1) (hl : S.Loopless) : Sound S A where
  walk u v w hw := by
    obtain ⟨h1, h2⟩ := h _ hw
    simp only at h1 h2
    subst h1
    exact Walk.one_iff.2 h2
  loop u v w hw := by
    rintro rfl
    exact hl _ (h _ hw).2
  uniq u v w w' hw hw' := by
    have h1 := (h _ hw).1
    have h2 := (h _ hw').1
    simp only at h1 h2
    omega

theorem Sound.pos {S : SGraph} (h : Sound S A) {u v w : ℕ} (hw : (u, v, w) ∈ A) : 1 ≤ w := by
  rcases Nat.eq_zero_or_pos w with rfl | hp
  · exact absurd (Walk.zero_iff.1 (h.walk _ _ _ hw)) (h.loop _ _ _ hw)
  · exact hp

/-- The arcs as a relation. -/
def rel (A : Arcs) (w u v : ℕ) : Prop := (u, v, w) ∈ A

/-- The weight-1 arcs as a relation. -/
def rel1 (A : Arcs) (u v : ℕ) : Prop := (u, v, 1) ∈ A

/-- Lift a specification of orientations to arc sets. -/
def Lift (O : SGraph → (ℕ → ℕ → Prop) → Prop) (S : SGraph) (B : Arcs) : Prop := O S (rel1 B)

theorem bridged_iff (hp : ∀ u v w, (u, v, w) ∈ A → 1 ≤ w) (d x u : ℕ) : Bridged (rel A) d x u ↔ Transitive A d x u := by
  refine and_congr_right fun _ => and_congr_right fun _ => ?_
  constructor
  · rintro ⟨y, w, w', rfl, h1, h2⟩
    have p1 := hp _ _ _ h1
    have p2 := hp _ _ _ h2
    refine ⟨y, w', p2, by omega, h2, ?_⟩
    rw [Nat.add_sub_cancel]
    exact h1
  · rintro ⟨y, w, h1, h2, h3, h4⟩
    exact ⟨y, d - w, w, by omega, h4, h3⟩

theorem meeting_iff (d x y : ℕ) : Meeting (rel A) d x y ↔ Meets A d x y :=
  ⟨fun ⟨h1, h2, h3⟩ => ⟨⟨h1, h2⟩, h3⟩, fun ⟨⟨h1, h2⟩, h3⟩ => ⟨h1, h2, h3⟩⟩

theorem RoundBy.rounded {O : SGraph → (ℕ → ℕ → Prop) → Prop} {A' : Arcs} {d : ℕ} (hp : ∀ u v w, (u, v, w) ∈ A → 1 ≤ w)
    (h : RoundBy (Lift O) A d A') : Rounded O (rel A) d (rel A') := by
  obtain ⟨F, B, h1, h2, h3, h4, h5⟩ := h
  refine ⟨F, rel1 B, fun a => ?_, fun a b => ?_, h4, fun w u v => ?_⟩
  · rw [h1]
    exact exists_congr fun b => (meeting_iff d a b).symm
  · rw [h2, meeting_iff, bridged_iff hp, bridged_iff hp]
  · unfold rel rel1
    rw [h5]
    have e : Bridged (fun w u v => (u, v, w) ∈ A) d u v ↔ Transitive A d u v := bridged_iff hp d u v
    rw [e]
    have : (v, u, 1) ∈ B ∧ u ≤ v ↔ u < v ∧ (v, u, 1) ∈ B := by
      constructor
      · rintro ⟨h, hle⟩
        refine ⟨lt_of_le_of_ne hle ?_, h⟩
        rintro rfl
        exact ((h2 _ _).1 (h3 _ h).2).1.1.1 rfl
      · rintro ⟨hlt, h⟩
        exact ⟨h, hlt.le⟩
    rw [this]

theorem orients_layered : Orients orient (fun _ => True) (Lift SGraph.Layered) := by
  intro σ G S _ hG hl
  obtain ⟨lo, up, ord, core, D, A, h1, hD, hn, hm, ha, hd, ho⟩ := orient_ok hG hl σ
  obtain ⟨lo', up', ord', core', h1', h2, h3, h4⟩ := C38_smallest_last hG hl σ
  rw [h1] at h1'
  cases h1'
  refine ⟨D, hD, A, ha, fun e he => ⟨((ho _ _ _).1 he).1, ((ho _ _ _).1 he).2.1⟩, ord, ⟨h2, h3, h4⟩, fun u v => ?_⟩
  unfold rel1
  rw [ho]
  exact ⟨fun h => h.2, fun h => ⟨rfl, h⟩⟩

theorem rounds_ok {F : Type} {orientF : F → Graph → Res DTFGraph} {Q : F → Prop} {O : SGraph → (ℕ → ℕ → Prop) → Prop}
    (hF : Orients orientF Q (Lift O)) {ω : ℕ → RoundOrder F} (hω : ∀ i, (ω i).Good Q) {S : SGraph} (H : Abs g V A)
    (hs : Sound S A) (depth : ℕ) :
    Ok (augmentBy orientF ω g depth) (fun g' => ∃ A', Abs g' V A' ∧ g'.depth = max depth g.depth ∧ Sound S A' ∧
      Rounds O g.depth (rel A) g'.depth (rel A')) := by
  refine (augmentLoop_ok hF hω (S := S) (fun e A' => Rounds O g.depth (rel A) e (rel A'))
    (fun d A A' hd hs hi hr => hi.step (hr.rounded fun u v w h => hs.pos h)) (depth := depth) (depth - g.depth) g A
    (by omega) H hs Rounds.refl).mono ?_
  rintro g' ⟨A', h1, h2, -, -, h5, h6⟩
  exact ⟨A', h1, h2, h5, h6⟩

theorem orients_deep_by {L : SGraph → (ℕ → ℕ → Prop) → Prop} (hL : Orients orient (fun _ => True) (Lift L)) (k : ℕ) :
    Orients (orientDeep k) DeepOrder.Good (Lift fun S => S.DeepBy L k) := by
  intro ω G S hω hG hl
  unfold orientDeep
  obtain ⟨D, hD, A, ha, harc, hfw⟩ := hL ω.first G S trivial hG hl
  have hd : D.depth = 1 := by
    obtain ⟨_, _, _, _, D', _, -, hD', -, -, -, hd, -⟩ := orient_ok hG hl ω.first
    rw [hD] at hD'
    cases hD'
    exact hd
  rw [hD, bind_ok]
  by_cases h1 : k ≤ 1
  · rw [if_pos h1]
    exact Ok.pure ⟨A, ha, harc, Or.inl ⟨h1, hfw⟩⟩
  · rw [if_neg h1]
    have hs := Sound.of_arcs harc hl
    obtain ⟨g1, hg1, A1, ha1, hd1, hs1, hr⟩ := rounds_ok hL hω.aug ha hs k
    rw [hg1, bind_ok]
    have hk : g1.depth = k := by omega
    rw [hk, hd] at hr
    have hA : rel A = fun w u v => w = 1 ∧ rel1 A u v := by
      funext w u v
      refine propext ⟨fun h => ?_, fun h => by rw [h.1]; exact h.2⟩
      obtain rfl : w = 1 := (harc _ h).1
      exact ⟨rfl, h⟩
    rw [hA] at hr
    obtain ⟨U, hU, T, hT, hTV, hTadj⟩ := toUndirected_ok (ha1.relayout (hω.lay g1))
    rw [hU, bind_ok]
    have hlT : T.Loopless := by
      intro u hu
      rcases (hTadj u u).1 hu with ⟨⟨w, hw⟩, -⟩ | ⟨⟨w, hw⟩, -⟩ <;> exact hs1.loop _ _ _ hw rfl
    obtain ⟨R, hR, B, hb, hbarc, hfw'⟩ :=
      hL ω.second _ T trivial (hT.relayout (hω.undirected U)).rep hlT
    rw [hR, bind_ok]
    obtain ⟨es, hes, hee, -⟩ := hG.edges
    rw [hes, bind_ok]
    refine (edgeSubgraph_ok (hb.relayout (hω.out R)) (es := es)).mono ?_
    rintro E ⟨C, hC, -, hCm⟩
    rw [hTV] at hC
    have hes' : ∀ u v, (u, v) ∈ es ∨ (v, u) ∈ es ↔ S.Adj u v := by
      intro u v
      constructor
      · rintro (h | h)
        · exact ((hee.mem u v).1 h).2
        · exact ((hee.mem v u).1 h).2.symm
      · intro h
        rcases Nat.le_total u v with h' | h'
        · exact Or.inl ((hee.mem u v).2 ⟨h', h⟩)
        · exact Or.inr ((hee.mem v u).2 ⟨h', h.symm⟩)
    refine ⟨C, hC, ?_, Or.inr ⟨by omega, rel1 A, rel A1, T, rel1 B, hfw, hr, hTV, fun a b => ?_, hfw', fun u v => ?_⟩⟩
    · rintro ⟨u, v, w⟩ he
      obtain ⟨h2, -, h3⟩ := (hCm u v w).1 he
      exact ⟨h2, (hes' u v).1 h3⟩
    · rw [hTadj]
      constructor
      · rintro (⟨⟨w, h⟩, hle⟩ | ⟨⟨w, h⟩, hle⟩)
        · exact ⟨w, Or.inl ⟨lt_of_le_of_ne hle fun e => hs1.loop _ _ _ h e.symm, h⟩⟩
        · exact ⟨w, Or.inr ⟨lt_of_le_of_ne hle fun e => hs1.loop _ _ _ h e.symm, h⟩⟩
      · rintro ⟨w, ⟨hlt, h⟩ | ⟨hlt, h⟩⟩
        · exact Or.inl ⟨⟨w, h⟩, hlt.le⟩
        · exact Or.inr ⟨⟨w, h⟩, hlt.le⟩
    · unfold rel1
      rw [hCm, hes']
      constructor
      · rintro ⟨-, ⟨w, h⟩, h'⟩
        obtain rfl : w = 1 := (hbarc _ h).1
        exact ⟨h, h'⟩
      · rintro ⟨h, h'⟩
        exact ⟨rfl, ⟨1, h⟩, h'⟩

theorem orients_deep_exact (k : ℕ) : Orients (orientDeep k) DeepOrder.Good (Lift (SGraph.DeepOriented k)) :=
  orients_deep_by orients_layered k

theorem Orients.mono {F : Type} {orientF : F → Graph → Res DTFGraph} {Q : F → Prop} {P P' : SGraph → Arcs → Prop}
    (h : Orients orientF Q P) (hP : ∀ S B, (∀ e ∈ B, e.2.2 = 1 ∧ S.Adj e.1 e.2.1) → P S B → P' S B) : Orients orientF Q P' := by
  intro x G S hx hG hl
  obtain ⟨D, hD, A, h1, h2, h3⟩ := h x G S hx hG hl
  exact ⟨D, hD, A, h1, h2, hP S A h2 h3⟩

theorem orients_deep (depth : ℕ) : Orients (orientDeep depth) DeepOrder.Good Forward := by
  refine (orients_deep_exact depth).mono fun S B hB h => ?_
  have hw : ∀ u v w, (u, v, w) ∈ B → rel1 B u v := fun u v w h => by
    obtain rfl : w = 1 := (hB _ h).1
    exact h
  rcases h with ⟨-, ord, ⟨hn, hm, -⟩, ho⟩ | ⟨-, _, _, T, B₁, -, -, hV, -, ⟨ord, ⟨hn, hm, -⟩, ho⟩, hR⟩
  · exact ⟨ord, hn, hm, fun u v w h => ((ho u v).1 (hw u v w h)).2⟩
  · exact ⟨ord, hn, fun u => by rw [hm, hV], fun u v w h => ((ho u v).1 ((hR u v).1 (hw u v w h)).1).2⟩

/-! ## Reached states -/

/-- Graphs obtained from a loopless graph `S` by `orient` and calls of `augment`; hash tables may be rearranged at any time. -/
inductive Aug (S : SGraph) : DTFGraph → Prop
  | orient {G : Graph} {σ : ℕ → Shuffle ℕ} {D : DTFGraph} (hG : G.Rep S) (h : orient σ G = .ok D) : Aug S D
  | relayout {g h : DTFGraph} (hg : Aug S g) (hr : Relayout g h) : Aug S h
  | augment {g h : DTFGraph} {ω : ℕ → RoundOrder DeepOrder} {depth fratDepth : ℕ} (hg : Aug S g)
      (hω : ∀ i, (ω i).Good DeepOrder.Good) (h' : g.augment ω depth fratDepth = .ok h) : Aug S h

/-- The weight-1 arcs of `A` orient every edge exactly once. -/
def Base (S : SGraph) (A : Arcs) : Prop :=
  (∀ u v, S.Adj u v → ((u, v, 1) ∈ A ∧ (v, u, 1) ∉ A) ∨ ((v, u, 1) ∈ A ∧ (u, v, 1) ∉ A)) ∧
    ∃ ord : List ℕ, ord.Nodup ∧ ∀ u v, (u, v, 1) ∈ A → ord.idxOf u < ord.idxOf v

/-- Two consecutive arcs of total weight at most `d` are bridged by an arc. -/
def TransClosed (d : ℕ) (A : Arcs) : Prop :=
  ∀ x y u w1 w2, (x, y, w1) ∈ A → (y, u, w2) ∈ A → w1 + w2 ≤ d → x ≠ u → ∃ w ≤ w1 + w2, (x, u, w) ∈ A

/-- Two arcs into a vertex, one of weight 1, of total weight at most `d` are bridged by an arc. -/
def FratClosed (d : ℕ) (A : Arcs) : Prop :=
  ∀ x y u w, (x, u, 1) ∈ A → (y, u, w) ∈ A → w + 1 ≤ d → x ≠ y → ∃ w' ≤ w + 1, (x, y, w') ∈ A ∨ (y, x, w') ∈ A

theorem Base.round {S : SGraph} {A A' : Arcs} {d : ℕ} (h : Base S A) (hd : 1 ≤ d) (hr : Round A (d + 1) A') : Base S A' := by
  have key : ∀ u v, (u, v, 1) ∈ A' ↔ (u, v, 1) ∈ A := by
    intro u v
    refine ⟨fun h => ?_, fun h => hr.old h⟩
    by_contra hn
    have := (hr.new u v 1 h hn).1
    omega
  obtain ⟨h1, ord, h2, h3⟩ := h
  refine ⟨fun u v huv => by rw [key, key]; exact h1 u v huv, ord, h2, fun u v huv => h3 u v ((key u v).1 huv)⟩

theorem bounded_round {A A' : Arcs} {d : ℕ} (h : ∀ u v w, (u, v, w) ∈ A → w ≤ d) (hr : Round A (d + 1) A') :
    ∀ u v w, (u, v, w) ∈ A' → w ≤ d + 1 := by
  intro u v w hw
  by_cases hn : (u, v, w) ∈ A
  · have := h u v w hn
    omega
  · exact (hr.new u v w hw hn).1.le

theorem old_of_le {A A' : Arcs} {d : ℕ} (hr : Round A (d + 1) A') {u v w : ℕ} (hw : (u, v, w) ∈ A') (hle : w ≤ d) :
    (u, v, w) ∈ A := by
  by_contra hn
  have := (hr.new u v w hw hn).1
  omega

theorem TransClosed.round {S : SGraph} {A A' : Arcs} {d : ℕ} (h : TransClosed d A) (hs : Sound S A)
    (hb : ∀ u v w, (u, v, w) ∈ A → w ≤ d) (hr : Round A (d + 1) A') : TransClosed (d + 1) A' := by
  intro x y u w1 w2 h1 h2 hle hne
  have hs' := hs.round hr
  have p1 := hs'.pos h1
  have p2 := hs'.pos h2
  have o1 := old_of_le hr h1 (by omega)
  have o2 := old_of_le hr h2 (by omega)
  by_cases hsum : w1 + w2 ≤ d
  · obtain ⟨w, hw, hm⟩ := h x y u w1 w2 o1 o2 hsum hne
    exact ⟨w, hw, hr.old hm⟩
  · by_cases hex : ∃ w, (x, u, w) ∈ A
    · obtain ⟨w, hw⟩ := hex
      exact ⟨w, by have := hb _ _ _ hw; omega, hr.old hw⟩
    · push Not at hex
      refine ⟨d + 1, by omega, hr.trans x u ⟨hne, hex, y, w2, p2, by omega, o2, ?_⟩⟩
      rwa [show d + 1 - w2 = w1 by omega]

/-- What is known about the arcs of an augmented graph. -/
structure AugInv (S : SGraph) (d : ℕ) (A : Arcs) : Prop where
  sound : Sound S A
  base : Base S A
  bounded : ∀ u v w, (u, v, w) ∈ A → w ≤ d
  trans : TransClosed d A

theorem AugInv.round {S : SGraph} {A A' : Arcs} {d : ℕ} (h : AugInv S d A) (hd : 1 ≤ d) (hr : Round A (d + 1) A') :
    AugInv S (d + 1) A' :=
  ⟨h.sound.round hr, h.base.round hd hr, bounded_round h.bounded hr, h.trans.round h.sound h.bounded hr⟩

theorem AugInv.orient {S : SGraph} {ord : List ℕ} (hl : S.Loopless) (hn : ord.Nodup) (hm : ∀ u, u ∈ ord ↔ u ∈ S.V)
    (ho : Oriented S ord A) : AugInv S 1 A where
  sound := Sound.of_arcs (fun e he => ⟨((ho _ _ _).1 he).1, ((ho _ _ _).1 he).2.1⟩) hl
  base := by
    refine ⟨fun u v huv => ?_, ord, hn, fun u v h => ((ho u v 1).1 h).2.2⟩
    have hne : ord.idxOf u ≠ ord.idxOf v := by
      intro hc
      have : u = v := List.idxOf_inj ((hm u).2 huv.left) |>.1 hc
      subst this
      exact hl _ huv
    rw [ho, ho]
    rcases lt_or_gt_of_ne hne with h | h
    · exact Or.inl ⟨⟨rfl, huv, h⟩, fun hc => by have := hc.2.2; omega⟩
    · exact Or.inr ⟨⟨rfl, huv.symm, h⟩, fun hc => by have := hc.2.2; omega⟩
  bounded u v w h := ((ho u v w).1 h).1.le
  trans x y u w1 w2 h1 h2 hle := by
    rw [ho] at h1 h2
    omega

/-- `augment` of a graph with arcs `A`. -/
theorem augment_ok {S : SGraph} (H : Abs g S.V A) (hs : Sound S A) {ω : ℕ → RoundOrder DeepOrder}
    (hω : ∀ i, (ω i).Good DeepOrder.Good) (depth fratDepth : ℕ) :
    Ok (g.augment ω depth fratDepth) (fun g' => ∃ A', Abs g' S.V A' ∧ g'.depth = max depth g.depth ∧ A ⊆ A' ∧
      (∀ e ∈ A', e ∉ A → g.depth < e.2.2 ∧ e.2.2 ≤ depth) ∧ Sound S A' ∧ (AugInv S g.depth A → AugInv S g'.depth A')) := by
  by_cases hi : AugInv S g.depth A
  · refine (augmentLoop_ok (orients_deep fratDepth) hω (S := S) (AugInv S)
      (fun d A A' hd _ hi hr => hi.round hd (hr.round (by omega))) (depth := depth) (depth - g.depth) g A (by omega) H hs hi).mono ?_
    rintro g' ⟨A', h1, h2, h3, h4, h5, h6⟩
    exact ⟨A', h1, h2, h3, h4, h5, fun _ => h6⟩
  · refine (augmentLoop_ok (orients_deep fratDepth) hω (S := S) (fun _ _ => True)
      (fun _ _ _ _ _ _ _ => trivial) (depth := depth) (depth - g.depth) g A (by omega) H hs trivial).mono ?_
    rintro g' ⟨A', h1, h2, h3, h4, h5, h6⟩
    exact ⟨A', h1, h2, h3, h4, h5, fun h => absurd h hi⟩

theorem Aug.abs {S : SGraph} (hl : S.Loopless) (h : Aug S g) : ∃ A, Abs g S.V A ∧ AugInv S g.depth A := by
  induction h with
  | @orient G σ D hG h =>
    obtain ⟨lo, up, ord, core, D', A, -, hD, hn, hm, ha, hd, ho⟩ := orient_ok hG hl σ
    rw [hD] at h
    cases h
    exact ⟨A, ha, by rw [hd]; exact AugInv.orient hl hn hm ho⟩
  | @relayout g h hg hr ih =>
    obtain ⟨A, ha, hi⟩ := ih
    exact ⟨A, ha.relayout hr, by rw [hr.depth]; exact hi⟩
  | @augment g h ω depth fd hg hω h' ih =>
    obtain ⟨A, ha, hi⟩ := ih
    obtain ⟨g', hg', A', h1, h2, h3, h4, h5, h6⟩ := augment_ok ha hi.sound hω depth fd
    rw [hg'] at h'
    cases h'
    exact ⟨A', h1, h6 hi⟩

end Verif.DTFGraph
