import Verif.Lemmas.IO
import Verif.Props.Operations
/-!
# Properties C25 – C27: reading and writing

`fromBuf t = .ok (some g)` is `Ok(g)`, `fromBuf t = .ok none` is `Err(io::Error)`; any other result would be
a panic.
-/
namespace Verif
open EditGraph Verif.IO

/-! ## C27 -/

/-- **C27.** Every text has lines `ls`; if they are all well formed, with edges `es`, then `from_buf` returns the graph
with exactly the edges `es` and their endpoints; if some line is malformed it returns an error. -/
theorem C27_parser (t : List Char) :
    (∃ ls, RawLines t ls) ∧ ∀ ls, RawLines t ls →
      (∀ es, List.Forall₂ EdgeLine ls es → ∃ g, fromBuf t = .ok (some g) ∧ Reachable g ∧
        (∀ u, g.contains u = true ↔ ∃ e ∈ es, u = e.1 ∨ u = e.2) ∧
        (∀ u v, g.adjacent u v = true ↔ (u, v) ∈ es ∨ (v, u) ∈ es)) ∧
      ((¬ ∃ es, List.Forall₂ EdgeLine ls es) → fromBuf t = .ok none) := by
  refine ⟨raw_exists t, fun ls hls => ⟨fun es hes => ?_, fun h => ?_⟩⟩
  · obtain ⟨r, hr, g, rfl, A⟩ := fromLines_ok hes (lines_of_raw hls) abs_new
    refine ⟨g, hr, A.reachable, fun u => ?_, fun u v => ?_⟩
    · rw [A.contains, decide_eq_true_eq]
      show u ∈ ∅ ∪ SGraph.endpoints es ↔ _
      rw [Finset.empty_union, SGraph.mem_endpoints]
    · rw [A.adjacent, decide_eq_true_eq, SGraph.addEdges_adj]
      simp
  · exact fromLines_err h (lines_of_raw hls) abs_new

/-- **C27, uniqueness.** The lines of a text and the edges of well-formed lines are unique, so C27 determines the
result for every text. -/
theorem C27_parser_unique {t : List Char} {ls ls' : List (List Char)} (h : RawLines t ls) (h' : RawLines t ls') :
    ls = ls' ∧ ∀ es es', List.Forall₂ EdgeLine ls es → List.Forall₂ EdgeLine ls es' → es = es' := by
  constructor
  · induction h generalizing ls' with
    | nil =>
      generalize ht : ([] : List Char) = t at h'
      cases h' with
      | nil => rfl
      | last h0 _ => exact absurd ht.symm h0
      | line => simp at ht
    | @last l h0 hn =>
      cases h' with
      | nil => exact absurd rfl h0
      | last => rfl
      | line => exact absurd (by simp) hn
    | @line l t ls hn _ ih =>
      generalize ht : l ++ '\n' :: t = t' at h'
      cases h' with
      | nil => simp at ht
      | last _ hn' => exact absurd (by rw [← ht]; simp) hn'
      | @line l' s ls' hn' hs =>
        have : l = l' ∧ t = s := by
          clear ih hs
          induction l generalizing l' with
          | nil =>
            cases l' with
            | nil => simpa using ht
            | cons c l' => simp at ht; exact absurd (by rw [← ht.1]; simp) hn'
          | cons c l ihl =>
            cases l' with
            | nil => simp at ht; exact absurd (by simp [ht.1]) hn
            | cons d l' =>
              simp only [List.cons_append, List.cons.injEq] at ht
              have := ihl (fun h => hn (by simp [h])) (fun h => hn' (by simp [h])) ht.2
              exact ⟨by rw [ht.1, this.1], this.2⟩
        obtain ⟨rfl, rfl⟩ := this
        rw [ih hs]
  · intro es es' he he'
    clear h h'
    induction he generalizing es' with
    | nil => cases he'; rfl
    | @cons l e ls es h1 _ ih =>
      cases he' with
      | @cons _ e' _ es' h1' h2' =>
      rw [ih es' h2']
      have a := parseEdgeLine_iff.2 h1
      rw [parseEdgeLine_iff.2 h1'] at a
      rw [Option.some.inj a]

example : ∃ ls es, RawLines ['0', ' ', '1', '\n', '1', '\t', '+', '2', '\r', '\n'] ls ∧
    List.Forall₂ EdgeLine ls es ∧ es = [(0, 1), (1, 2)] := by
  refine ⟨[['0', ' ', '1'], ['1', '\t', '+', '2', '\r']], [(0, 1), (1, 2)], ?_, ?_, rfl⟩
  · exact RawLines.line (l := ['0', ' ', '1']) (by decide) (RawLines.line (l := ['1', '\t', '+', '2', '\r']) (by decide) .nil)
  · refine .cons (parseEdgeLine_iff.1 (by decide)) (.cons (parseEdgeLine_iff.1 (by decide)) .nil)

example : (fromBuf ['0', ' ', '1', '\n', '2', '\n']).map (·.isNone) = .ok true := by decide
example : (fromBuf ['0', ' ', 'x', '\n']).map (·.isNone) = .ok true := by decide
example : (fromBuf ['0', ' ', '1', '\n', '1', ' ', '2']).map (fun r => r.map (fun g => (g.numVertices, g.numEdges)))
    = .ok (some (3, 2)) := by decide

/-! ## C25 -/

/-- **C25.** For every graph with 32-bit ids and every iteration order: reading what was written gives the same edges and
exactly the non-isolated vertices. -/
theorem C25_graph_roundtrip {G : Graph} {S : SGraph} (hG : G.Rep S) (hb : ∀ u ∈ S.V, u < 2 ^ 32) :
    ∃ t g, writeGraph G = .ok t ∧ fromBuf t = .ok (some g) ∧ Reachable g ∧
      (∀ u, g.contains u = true ↔ ∃ v, S.Adj u v) ∧ (∀ u v, g.adjacent u v = true ↔ S.Adj u v) := by
  obtain ⟨es, hes, he, -⟩ := hG.edges
  have hraw := raw_flatMap es (fun e => render e.1 ++ ' ' :: render e.2) (fun e hee => by
    have h1 := render_no_nl (hb _ (he.left_mem hee))
    have h2 := render_no_nl (hb _ (he.right_mem hee))
    simp [h1, h2])
  have hall : List.Forall₂ EdgeLine (es.map (fun e => render e.1 ++ ' ' :: render e.2)) es := by
    have : ∀ l : List (ℕ × ℕ), (∀ e ∈ l, e ∈ es) →
        List.Forall₂ EdgeLine (l.map (fun e => render e.1 ++ ' ' :: render e.2)) l := by
      intro l hl
      induction l with
      | nil => exact .nil
      | cons e l ih =>
        exact .cons (render_edgeLine (hb _ (he.left_mem (hl e (by simp)))) (hb _ (he.right_mem (hl e (by simp)))))
          (ih (fun e' h' => hl e' (by simp [h'])))
    exact this es (fun _ h => h)
  obtain ⟨g, hg, hr, hc, ha⟩ := ((C27_parser _).2 _ hraw).1 es hall
  have ha' : ∀ u v, g.adjacent u v = true ↔ S.Adj u v := fun u v => by rw [ha, he.adj_iff]
  refine ⟨_, g, by unfold writeGraph; rw [hes]; rfl, ?_, hr, fun u => ?_, ha'⟩
  · simpa using hg
  · rw [hc]
    constructor
    · rintro ⟨e, hee, rfl | rfl⟩
      · exact ⟨_, he.adj hee⟩
      · exact ⟨_, (he.adj hee).symm⟩
    · rintro ⟨v, hv⟩
      rcases he.adj_iff.1 hv with h | h
      · exact ⟨_, h, Or.inl rfl⟩
      · exact ⟨_, h, Or.inr rfl⟩

/-- `C25_graph_roundtrip` for a path with a loop and an isolated vertex. -/
example := C25_graph_roundtrip loopG_rep (fun u h => by have := loopS_mem.1 h; omega)

/-- **C25, equality.** For an `EditGraph` the result of the round trip equals the original iff the original has no
isolated vertex. -/
theorem C25_roundtrip_eq {g : EditGraph} (hg : Reachable g) (hb : ∀ u : ℕ, g.contains u = true → u < 2 ^ 32) :
    ∃ t g', writeGraph g.view = .ok t ∧ fromBuf t = .ok (some g') ∧
      (g'.eq g = true ↔ ∀ u, g.contains u = true → ∃ v, g.adjacent u v = true) := by
  obtain ⟨S, A⟩ := hg.abs
  obtain ⟨t, g', ht, hg', hr, hc, ha⟩ := C25_graph_roundtrip A.rep
    (fun u hu => hb u (by rw [A.contains]; simpa using hu))
  obtain ⟨S', A'⟩ := hr.abs
  refine ⟨t, g', ht, hg', ?_⟩
  have hV : ∀ u, u ∈ S'.V ↔ ∃ v, S.Adj u v := fun u => by rw [← hc, A'.contains, decide_eq_true_eq]
  have hA : ∀ u v, S'.Adj u v ↔ S.Adj u v := fun u v => by rw [← ha, A'.adjacent, decide_eq_true_eq]
  simp only [A.contains, A.adjacent, decide_eq_true_eq]
  rw [A'.eq_iff A]
  constructor
  · rintro rfl u hu; exact (hV u).1 hu
  · intro h
    refine SGraph.ext_adj ?_ hA
    ext u
    rw [hV]
    exact ⟨fun ⟨v, hv⟩ => hv.left, h u⟩

example : ∃ g : EditGraph, g.view.Rep exS ∧ (∀ u ∈ exS.V, u < 2 ^ 32) ∧ (∃ u ∈ exS.V, ∀ v ∈ exS.V, ¬ exS.Adj u v) := by
  obtain ⟨g, A⟩ := exAbs
  exact ⟨g, A.rep, by decide, 7, by decide, by decide⟩

example : ∃ g : EditGraph, Reachable g ∧ (∀ u : ℕ, g.contains u = true → u < 2 ^ 32) ∧ g.adjacent 0 1 = true := by
  obtain ⟨g, S, A, -, h01, -, hV, -⟩ := exPath
  refine ⟨g, A.reachable, fun u hu => ?_, by rw [A.adjacent]; simpa using h01⟩
  rw [A.contains, decide_eq_true_eq, hV] at hu
  simp only [Finset.mem_insert, Finset.mem_singleton] at hu
  omega

/-! ## C26 -/

theorem writeVertices_lines {l : List ℕ} (hb : ∀ u ∈ l, u < 2 ^ 32) :
    RawLines (writeVertices l) (l.map render) ∧ List.Forall₂ VertexLine (l.map render) l := by
  refine ⟨raw_flatMap l render (fun u hu => render_no_nl (hb u hu)), ?_⟩
  induction l with
  | nil => exact .nil
  | cons u l ih => exact .cons (render_vertexLine (hb u (by simp))) (ih (fun v hv => hb v (by simp [hv])))

/-- **C26, lists.** A written vertex list is read back unchanged. -/
theorem C26_vec_roundtrip {l : List ℕ} (hb : ∀ u ∈ l, u < 2 ^ 32) : vecFromBuf (writeVertices l) = some l := by
  obtain ⟨h1, h2⟩ := writeVertices_lines hb
  have := vecFromLines_ok h2 (lines_of_raw h1) []
  simpa [vecFromBuf] using this

/-- `C26_vec_roundtrip` for a list that repeats a vertex. -/
example := C26_vec_roundtrip (l := [7, 0, 7]) (by decide)

/-- **C26, sets.** A written vertex set, in any iteration order, is read back as an equal set. -/
theorem C26_set_roundtrip (s : HSet ℕ) (hb : ∀ u ∈ s, u < 2 ^ 32) :
    ∃ s', setFromBuf (writeVertices s.toList) = some s' ∧ s'.eqv s = true ∧ ∀ u, u ∈ s' ↔ u ∈ s := by
  have h1 := C26_vec_roundtrip (l := s.toList) hb
  have h2 := setFromLines_eq (lines (writeVertices s.toList)) ∅ []
  have h3 : setFromBuf (writeVertices s.toList) = some ((∅ : HSet ℕ).extend s.toList) := by
    unfold setFromBuf
    have e : ((∅ : HSet ℕ).extend []) = ∅ := rfl
    rw [e] at h2
    rw [h2]
    unfold vecFromBuf at h1
    rw [h1]; rfl
  have hm : ∀ u, u ∈ (∅ : HSet ℕ).extend s.toList ↔ u ∈ s := by
    intro u
    rw [HSet.mem_extend]
    constructor
    · rintro (h | h)
      · exact absurd h (by simp)
      · exact h
    · exact Or.inr
  exact ⟨_, h3, by rw [HSet.eqv_iff]; exact hm, hm⟩

/-- **C26, parser.** A vertex list is read iff every line is one decimal 32-bit number, otherwise an error is
returned; the sequence is the one in the file. -/
theorem C26_vec_parser {t : List Char} {ls : List (List Char)} (h : RawLines t ls) :
    (∀ us, List.Forall₂ VertexLine ls us → vecFromBuf t = some us) ∧
    ((¬ ∃ us, List.Forall₂ VertexLine ls us) → vecFromBuf t = none) := by
  refine ⟨fun us hus => ?_, fun hn => vecFromLines_err hn (lines_of_raw h) []⟩
  have := vecFromLines_ok hus (lines_of_raw h) []
  simpa [vecFromBuf] using this

example : (∀ u ∈ [0, 4294967295, 17, 17], u < 2 ^ 32) ∧
    vecFromBuf (writeVertices [0, 4294967295, 17, 17]) = some [0, 4294967295, 17, 17] := by
  have h : ∀ u ∈ [0, 4294967295, 17, 17], u < 2 ^ 32 := by decide
  exact ⟨h, C26_vec_roundtrip h⟩

end Verif
