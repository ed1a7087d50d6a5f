import Verif.Props.Files
import Verif.Props.DegenColour
import Verif.Props.DomsetSize
/-!
# C132: whole programs, from an edge list in a file to a vertex set in a file
-/
namespace Verif
open SGraph Verif.IO Verif.Files

/-- The ids that occur in a list of pairs. -/
def idsOf (es : List (ℕ × ℕ)) : Finset ℕ := (es.map Prod.fst ++ es.map Prod.snd).toFinset

/-- The pair `uv` is listed, in one of its two forms. -/
def Listed (es : List (ℕ × ℕ)) (u v : ℕ) : Prop := (u, v) ∈ es ∨ (v, u) ∈ es

instance (es : List (ℕ × ℕ)) (u v : ℕ) : Decidable (Listed es u v) := inferInstanceAs (Decidable (_ ∨ _))

/-- Every nonempty set of listed ids has a member that is listed together with at most `d` others of the set. -/
def ListedDegenerate (es : List (ℕ × ℕ)) (d : ℕ) : Prop :=
  ∀ W, W ⊆ idsOf es → W.Nonempty → ∃ w ∈ W, (W.filter (fun v => Listed es w v)).card ≤ d

/-- The file `name` holds the pairs `es`, one per line, as text if the name ends in `.txt` and compressed if it ends in `.gz`. -/
def HoldsPairs (C : Codec) (fs : Store) (name : List Char) (es : List (ℕ × ℕ)) : Prop :=
  ∃ b t ls, Utf8 b t ∧ RawLines t ls ∧ List.Forall₂ EdgeLine ls es ∧
    (TxtName name ∧ fs name = some b ∨ GzName name ∧ ∃ z, fs name = some z ∧ C.gunzip z = ⟨b, false⟩)

theorem mem_idsOf {es : List (ℕ × ℕ)} {u : ℕ} : u ∈ idsOf es ↔ ∃ e ∈ es, u = e.1 ∨ u = e.2 := by
  simp only [idsOf, List.mem_toFinset, List.mem_append, List.mem_map]
  constructor
  · rintro (⟨e, he, rfl⟩ | ⟨e, he, rfl⟩)
    · exact ⟨e, he, Or.inl rfl⟩
    · exact ⟨e, he, Or.inr rfl⟩
  · rintro ⟨e, he, rfl | rfl⟩
    · exact Or.inl ⟨e, he, rfl⟩
    · exact Or.inr ⟨e, he, rfl⟩

theorem HoldsPairs.load {C : Codec} {fs : Store} {name : List Char} {es : List (ℕ × ℕ)} (h : HoldsPairs C fs name es) :
    ∃ g S, fromFile C graphFromBuf fs name = .ok (some g) ∧ EditGraph.Abs g S ∧ S.V = idsOf es ∧
      ∀ u v, S.Adj u v ↔ Listed es u v := by
  obtain ⟨b, t, ls, hb, hl, he, hf⟩ := h
  obtain ⟨g, hg, hr, hc, ha⟩ := (C84_graph_text hb hl).1 es he
  obtain ⟨S, A⟩ := hr.abs
  refine ⟨g, S, ?_, A, ?_, fun u v => ?_⟩
  · rw [← hg]
    unfold fromFile openReader
    rcases hf with ⟨hn, hf⟩ | ⟨hn, z, hf, hz⟩
    · rw [ext_txt hn]; simp [hf, Files.load, plain]
    · rw [ext_gz hn]; simp [hf, Files.load, hz]
  · ext u
    rw [mem_idsOf, ← hc u, A.contains, decide_eq_true_eq]
  · rw [← decide_eq_true_iff (p := S.Adj u v), ← A.adjacent, ha]; rfl

theorem HoldsPairs.small {C : Codec} {fs : Store} {name : List Char} {es : List (ℕ × ℕ)} (h : HoldsPairs C fs name es)
    {u : ℕ} (hu : u ∈ idsOf es) : u < 2 ^ 32 := by
  obtain ⟨_, _, ls, -, -, he, -⟩ := h
  obtain ⟨e, hm, hu⟩ := mem_idsOf.1 hu
  have : ∀ {ls : List (List Char)} {es : List (ℕ × ℕ)}, List.Forall₂ EdgeLine ls es → ∀ e ∈ es, e.1 < 2 ^ 32 ∧ e.2 < 2 ^ 32 := by
    intro ls es H
    induction H with
    | nil => simp
    | cons h _ ih =>
      intro e he
      rcases List.mem_cons.1 he with rfl | he
      · obtain ⟨_, _, _, _, _, -, -, -, -, -, ⟨_, -, -, -, -, h1⟩, ⟨_, -, -, -, -, h2⟩⟩ := h
        exact ⟨h1, h2⟩
      · exact ih e he
  have := this he e hm
  rcases hu with rfl | rfl
  · exact this.1
  · exact this.2

/-- Weakly reachable within distance one are the left neighbours. -/
theorem wreach_one {S : SGraph} {ord : List ℕ} {v u : ℕ} (h : ∃ d ≤ 1, S.WReach ord v u d) : u ∈ S.before ord v := by
  obtain ⟨d, hd, h1, ⟨p, hp, -, hl, -⟩, -⟩ := h
  have : p = [] := List.eq_nil_of_length_eq_zero (by omega)
  subst this
  simp only [before, Finset.mem_filter, mem_nbrs]
  refine ⟨?_, h1⟩
  simpa using hp

theorem walk_congr {P Q : ℕ → ℕ → Prop} (h : ∀ u v, P u v → Q u v) {n u v : ℕ} (w : Walk P n u v) : Walk Q n u v := by
  induction w with
  | nil u => exact .nil u
  | cons h1 _ ih => exact .cons (h _ _ h1) ih

/-- **C132.** Load a file of pairs of distinct ids, order the graph with `OrdGraph::by_degeneracy`, call `domset`, write the
resulting set to another file and read that file: no step fails, the ids in the new file are among the listed ones, every
listed id is reached by at most `radius` listed pairs from one of them, and no other file is changed.  If the pairs are
`d`-degenerate for some `d ≤ 129` and the radius is 1, the set has at most `(d+1)(d+5)` times as many elements as any other set
with this property. -/
theorem C132_domset (C : Codec) (fs : Store) {name out : List Char} {es : List (ℕ × ℕ)} (hin : HoldsPairs C fs name es)
    (hne : ∀ e ∈ es, e.1 ≠ e.2) (hn : es.length ≤ 2 ^ 30) {r : ℕ} (hr : r < 2 ^ 15) :
    ∃ g, fromFile C graphFromBuf fs name = .ok (some g) ∧ ∀ g', EditGraph.Relayout g g' → ∀ σ : ℕ → Shuffle Vertex,
    ∃ o, OrdGraph.byDegeneracy σ g'.view = .ok o ∧ ∀ o', OrdGraph.Relayout o o' →
    ∀ ω : LinGraph.DomOrder, (∀ g, EditGraph.Relayout g (ω.witness.lay g)) →
    ∃ D m, o'.lin.domset ω r false = .ok (D, m, none) ∧ ∀ D' : HSet Vertex, D'.toList.Perm D.toList →
    ∃ s : HSet ℕ, fromTxt Files.setFromBuf (writeTxt fs out (writeVertices D'.toList)) out = .ok (some s) ∧
      (∀ x ∈ s, x ∈ idsOf es) ∧
      (∀ x ∈ idsOf es, ∃ d ∈ s, ∃ n ≤ r, Walk (Listed es) n d x) ∧
      (∀ n, n ≠ out → writeTxt fs out (writeVertices D'.toList) n = fs n) ∧
      ∀ d ≤ 129, ListedDegenerate es d → r = 1 → ∀ X : Finset ℕ,
        (∀ x ∈ idsOf es, ∃ y ∈ X, ∃ n ≤ 1, Walk (Listed es) n y x) → s.len ≤ X.card * ((d + 1) * (d + 5)) := by
  obtain ⟨g, S, hg, A, hV, hA⟩ := hin.load
  have hA' : S.Adj = Listed es := by funext u v; exact propext (hA u v)
  have hcard : S.V.card ≤ 2 ^ 31 := by
    rw [hV]
    refine (List.toFinset_card_le _).trans ?_
    simp; omega
  have hl : S.Loopless := fun u h => by
    rcases (hA u u).1 h with h | h <;> exact hne _ h rfl
  refine ⟨g, hg, fun g' hr' σ => ?_⟩
  have A' := A.relayout hr'
  obtain ⟨lo, up, ord, core, h1, h2, h3, -, h5⟩ := C38_degeneracy_order A'.rep hl hcard σ
  obtain ⟨o, ho, I⟩ := OrdGraph.withOrdering_inv A'.rep hl ⟨h2, h3⟩
  refine ⟨o, byDegeneracy_eq h1 ho, fun o' ho' ω hω => ?_⟩
  have H := (I.relayout ho').lrep
  obtain ⟨D, m, hD, hDV, hdom⟩ := C56_domset H ω hω hr hcard
  refine ⟨D, m, hD, fun D' hp => ?_⟩
  have hmem : ∀ x, x ∈ D' ↔ x ∈ D := fun x => hp.mem_iff
  obtain ⟨s, hs, hs', h6, -⟩ := (C86_vertex_files C fs out [] (by simp) D' fun x hx => hin.small (by
    rw [← hV]; exact hDV x ((hmem x).1 hx))).2
  refine ⟨s, h6, fun x hx => ?_, fun x hx => ?_, fun n hn => ?_, ?_⟩
  · rw [← hV]; exact hDV x ((hmem x).1 ((hs' x).1 hx))
  · obtain ⟨d, hd, n, hn, w⟩ := hdom x (by rw [hV]; exact hx)
    exact ⟨d, (hs' d).2 ((hmem d).2 hd), n, hn, by rw [← hA']; exact w⟩
  · exact ((C86_files C Files.setFromBuf fs out (writeVertices D'.toList)).2.2.2.2 n hn).1
  · rintro d hd hdeg rfl X hX
    have hdeg' : ∀ W, W ⊆ S.V → W.Nonempty → ∃ w ∈ W, S.degIn W w ≤ d := by
      intro W hW hne
      obtain ⟨w, hw, hle⟩ := hdeg W (by rw [← hV]; exact hW) hne
      refine ⟨w, hw, le_of_eq_of_le (congrArg Finset.card (Finset.filter_congr fun v _ => ?_)) hle⟩
      exact hA w v
    obtain ⟨k, hk⟩ := S.exists_degeneracy
    have hkd : k ≤ d := hk.2 d hdeg'
    obtain ⟨_, _, h7, -⟩ := C39_exact_of_degeneracy A'.rep hl σ hk (by omega)
    rw [h1] at h7
    obtain rfl : up = k := by cases h7; rfl
    have hb : ∀ u ∈ S.V, (S.before ord u).card ≤ d := fun u hu => (h5 u hu).trans (by
      unfold bucketTop
      split
      · exact hkd
      · obtain rfl : up = 129 := by omega
        exact hkd)
    obtain ⟨D2, m2, hD2, hlen⟩ := C93_domset_with_target_size H ω hω hr hcard o'.lin.vertices (c := d + 1)
      (fun v hv W hW => Nat.lt_succ_of_le ((Finset.card_le_card fun u hu => wreach_one (hW u hu)).trans (hb v hv))) X
      (fun x _ hx => by rw [hA']; exact hX x (by rw [← hV]; exact hx))
    have hD' : o'.lin.domsetWithTarget ω 1 false o'.lin.vertices = .ok (D, m, none) := hD
    rw [hD'] at hD2
    obtain rfl : D = D2 := by cases hD2; rfl
    have e : s.len = D.len := by
      rw [HSet.len_of_mem_iff (T := D.toFinset) fun a => ?_, HSet.len_eq_card]
      rw [hs', hmem, HSet.mem_toFinset]
    rw [e]
    exact hlen

/-- **C132.** From a file of pairs of distinct ids to a colouring: if the pairs are `d`-degenerate for some `d ≤ 129`, loading the
file, ordering the graph with `OrdGraph::by_degeneracy` and calling `colour_greedy` does not fail; every listed id gets a colour
at most `d`, nothing else gets a colour, and listed pairs get different colours. -/
theorem C132_colouring (C : Codec) (fs : Store) {name : List Char} {es : List (ℕ × ℕ)} (hin : HoldsPairs C fs name es)
    (hne : ∀ e ∈ es, e.1 ≠ e.2) (hn : es.length ≤ 2 ^ 30) {d : ℕ} (hd : d ≤ 129) (hdeg : ListedDegenerate es d) :
    ∃ g, fromFile C graphFromBuf fs name = .ok (some g) ∧ ∀ g', EditGraph.Relayout g g' → ∀ σ : ℕ → Shuffle Vertex,
    ∃ o, OrdGraph.byDegeneracy σ g'.view = .ok o ∧ ∀ o', OrdGraph.Relayout o o' →
    ∃ c, o'.lin.colourGreedy = .ok c ∧ (∀ u, u ∈ idsOf es → ∃ k ≤ d, c.get? u = some k) ∧
      (∀ u, u ∉ idsOf es → c.get? u = none) ∧ ∀ e ∈ es, c.get? e.1 ≠ c.get? e.2 := by
  obtain ⟨g, S, hg, A, hV, hA⟩ := hin.load
  have hcard : S.V.card ≤ 2 ^ 31 := by
    rw [hV]
    refine (List.toFinset_card_le _).trans ?_
    simp; omega
  have hl : S.Loopless := fun u h => by
    rcases (hA u u).1 h with h | h <;> exact hne _ h rfl
  have hdeg' : ∀ W, W ⊆ S.V → W.Nonempty → ∃ w ∈ W, S.degIn W w ≤ d := by
    intro W hW hne
    obtain ⟨w, hw, hle⟩ := hdeg W (by rw [← hV]; exact hW) hne
    refine ⟨w, hw, le_of_eq_of_le (congrArg Finset.card (Finset.filter_congr fun v _ => ?_)) hle⟩
    exact hA w v
  refine ⟨g, hg, fun g' hr' σ => ?_⟩
  have A' := A.relayout hr'
  obtain ⟨lo, up, ord, core, h1, h2, h3, h4⟩ := C38_smallest_last A'.rep hl σ
  obtain ⟨o, ho, I⟩ := OrdGraph.withOrdering_inv A'.rep hl ⟨h2, h3⟩
  refine ⟨o, byDegeneracy_eq h1 ho, fun o' ho' => ?_⟩
  have H := (I.relayout ho').lrep
  obtain ⟨_, _, _, _, h5, -, -, h6⟩ := C38_no_jump A'.rep hl σ fun W hW hne => by
    obtain ⟨w, hw, hle⟩ := hdeg' W hW hne
    exact ⟨w, hw, by omega⟩
  rw [h1] at h5
  cases h5
  obtain ⟨c, c1, c2, c3, c4⟩ := H.colourGreedy_noJump (by omega) h6
  have c5 : ∀ u k, c.get? u = some k → k ≤ d := by
    intro u k hk
    obtain ⟨v, hv, rfl⟩ := c4 u k hk
    obtain ⟨pre, post, hs⟩ := List.append_of_mem ((h3 v).2 hv)
    rw [before_split hl h2 h3 hs]
    have hsub : insert v pre.toFinset ⊆ S.V := by
      intro x hx
      rw [← h3, hs]
      simp only [Finset.mem_insert, List.mem_toFinset] at hx
      rcases hx with rfl | hx
      · simp
      · exact List.mem_append_left _ hx
    obtain ⟨w, hw, hle⟩ := hdeg' _ hsub ⟨v, by simp⟩
    rcases Finset.mem_insert.1 hw with rfl | hw
    · exact hle
    · exact (h4 pre v post hs w (List.mem_toFinset.1 hw) (Or.inr (by omega))).trans hle
  refine ⟨c, c1, fun u hu => ?_, fun u hu => ?_, fun e he h => ?_⟩
  · rw [← hV, ← c2, HMap.mem_keys_iff] at hu
    obtain ⟨k, hk⟩ := hu
    exact ⟨k, c5 u k hk, hk⟩
  · rw [← hV, ← c2] at hu
    exact HMap.get?_eq_none.2 hu
  · have hu : e.1 ∈ c.keys := by rw [c2, hV, mem_idsOf]; exact ⟨e, he, Or.inl rfl⟩
    rw [HMap.mem_keys_iff] at hu
    obtain ⟨k, hk⟩ := hu
    exact c3 e.1 e.2 k ((hA _ _).2 (Or.inl he)) hk (by rw [← h, hk])

/-- **C132.** From a file of pairs of ids, loops allowed, to a partition into two sets: loading the file and calling
`is_bipartite` does not fail.  It answers with two disjoint sets of which every listed pair meets both, and otherwise with an
odd closed walk along listed pairs; the former exactly if such sets exist. -/
theorem C132_bipartite (C : Codec) (fs : Store) {name : List Char} {es : List (ℕ × ℕ)} (hin : HoldsPairs C fs name es) :
    ∃ g, fromFile C graphFromBuf fs name = .ok (some g) ∧ ∀ g', EditGraph.Relayout g g' → ∀ (σ : ℕ → Shuffle Vertex)
      (τ : Shuffle (Vertex × (Bool × Vertex))), ∃ w, g'.view.isBipartite σ τ = .ok w ∧
      ((∃ L R, w = .bipartition L R) ↔ ∃ f : ℕ → Bool, ∀ e ∈ es, f e.1 ≠ f e.2) ∧
      (∀ L R, w = .bipartition L R → (∀ v, v ∈ idsOf es ↔ v ∈ L ∨ v ∈ R) ∧ (∀ v, ¬ (v ∈ L ∧ v ∈ R)) ∧
        ∀ e ∈ es, (e.1 ∈ L ∧ e.2 ∈ R) ∨ (e.1 ∈ R ∧ e.2 ∈ L)) ∧
      ∀ c, w = .oddCycle c → c.length % 2 = 1 ∧ c.IsChain (Listed es) ∧ ∀ a b, c.head? = some a → c.getLast? = some b → Listed es b a := by
  obtain ⟨g, S, hg, A, hV, hA⟩ := hin.load
  refine ⟨g, hg, fun g' hr' σ τ => ?_⟩
  have A' := A.relayout hr'
  obtain ⟨w, hw, h1, h2⟩ := C41_is_bipartite A'.rep σ τ
  refine ⟨w, hw, h1.trans ⟨?_, ?_⟩, fun L R e => ?_, fun c e => ?_⟩
  · rintro ⟨f, hf⟩
    exact ⟨f, fun e he => hf _ _ ((hA _ _).2 (Or.inl he))⟩
  · rintro ⟨f, hf⟩
    refine ⟨f, fun u v h => ?_⟩
    rcases (hA u v).1 h with h | h
    · exact hf _ h
    · exact (hf _ h).symm
  · obtain ⟨h3, h4, h5⟩ := h2 L R e
    exact ⟨fun v => by rw [← hV]; exact h3 v, h4, fun e he => h5 _ _ ((hA _ _).2 (Or.inl he))⟩
  · subst e
    obtain ⟨h3, h4⟩ := C42_odd_cycle_partial A'.rep σ τ hw
    have hA' : S.Adj = Listed es := by funext u v; exact propext (hA u v)
    rw [ClosedWalk, hA'] at h4
    exact ⟨h3, h4.2.1, fun a b ha hb => h4.2.2 a ha b hb⟩

/-- A file with the lines `1 2`, `2 3` and `1 3`. -/
def exPairs : List Char := ['1', ' ', '2', '\n', '2', ' ', '3', '\n', '1', ' ', '3', '\n']

/-- Hypotheses of the theorems above are met by a file with three lines. -/
example : HoldsPairs exCodec (fun n => if n = ['a', '.', 't', 'x', 't'] then some (exPairs.flatMap String.utf8EncodeChar) else none)
    ['a', '.', 't', 'x', 't'] [(1, 2), (2, 3), (1, 3)] ∧ (∀ e ∈ [(1, 2), (2, 3), (1, 3)], e.1 ≠ e.2) ∧
    ListedDegenerate [(1, 2), (2, 3), (1, 3)] 2 := by
  have tok : ∀ (c : Char) (n : ℕ), 48 ≤ c.toNat → c.toNat ≤ 57 → n = decValue [c] → n < 2 ^ 32 → DecToken [c] n :=
    fun c n h1 h2 h3 h4 => ⟨[c], by simp, by simpa using ⟨h1, h2⟩, Or.inl rfl, h3, h4⟩
  have line : ∀ (a b : Char) (m n : ℕ), DecToken [a] m → DecToken [b] n → EdgeLine [a, ' ', b] (m, n) :=
    fun a b m n h1 h2 => ⟨[], [a], [' '], [b], [], rfl, by simp,
      fun c hc => by rw [List.mem_singleton.1 hc]; exact Or.inr (Or.inl rfl), by simp, by simp, h1, h2⟩
  have t1 := tok '1' 1 (by decide) (by decide) (by decide) (by decide)
  have t2 := tok '2' 2 (by decide) (by decide) (by decide) (by decide)
  have t3 := tok '3' 3 (by decide) (by decide) (by decide) (by decide)
  refine ⟨⟨_, exPairs, [['1', ' ', '2'], ['2', ' ', '3'], ['1', ' ', '3']], rfl,
    .line (l := ['1', ' ', '2']) (by decide) (.line (l := ['2', ' ', '3']) (by decide)
      (.line (l := ['1', ' ', '3']) (by decide) .nil)), ?_, Or.inl ⟨⟨['a'], by decide, by decide, Or.inl rfl⟩, if_pos rfl⟩⟩,
    by decide, fun W hW hne => ?_⟩
  · exact .cons (line _ _ _ _ t1 t2) (.cons (line _ _ _ _ t2 t3) (.cons (line _ _ _ _ t1 t3) .nil))
  · have key : ∀ W ∈ (idsOf [(1, 2), (2, 3), (1, 3)]).powerset, W.Nonempty → ∃ w ∈ W,
        (W.filter (fun v => Listed [(1, 2), (2, 3), (1, 3)] w v)).card ≤ 2 := by decide
    exact key W (Finset.mem_powerset.2 hW) hne

end Verif
