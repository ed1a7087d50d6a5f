import Verif.Lemmas.Files
import Verif.Props.IO
/-!
# Properties C84 – C87: bytes and files

`.ok (some x)` is `Ok(x)`, `.ok none` is `Err(io::Error)` and `.error .panic` is a panic.
-/
namespace Verif
open EditGraph Verif.IO Verif.Files

theorem graphItems_some (ls : List (List Char)) (g : EditGraph) : graphFromItems (ls.map some) g = fromLines ls g := by
  induction ls generalizing g with
  | nil => rfl
  | cons l ls ih =>
    rw [List.map_cons, graphFromItems, fromLines]
    cases parseEdgeLine l with
    | none => rfl
    | some e => simp only [ih]

theorem vecItems_some (ls : List (List Char)) (us : List ℕ) :
    vecFromItems (ls.map some) us = .ok (vecFromLines ls us) := by
  induction ls generalizing us with
  | nil => rfl
  | cons l ls ih =>
    rw [List.map_cons, vecFromItems, vecFromLines]
    cases parseVertex (trim l) with
    | none => rfl
    | some u => exact ih _

theorem setItems_some (ls : List (List Char)) (us : HSet ℕ) :
    setFromItems (ls.map some) us = .ok (setFromLines ls us) := by
  induction ls generalizing us with
  | nil => rfl
  | cons l ls ih =>
    rw [List.map_cons, setFromItems, setFromLines]
    cases parseVertex (trim l) with
    | none => rfl
    | some u => exact ih _

theorem graph_of_text (t : List Char) : graphFromBuf ⟨encode t, false⟩ = fromBuf t := by
  unfold graphFromBuf; rw [lines_encode, graphItems_some]; rfl

theorem vec_of_text (t : List Char) : Files.vecFromBuf ⟨encode t, false⟩ = .ok (IO.vecFromBuf t) := by
  unfold Files.vecFromBuf; rw [lines_encode, vecItems_some]; rfl

theorem set_of_text (t : List Char) : Files.setFromBuf ⟨encode t, false⟩ = .ok (IO.setFromBuf t) := by
  unfold Files.setFromBuf; rw [lines_encode, setItems_some]; rfl

/-! ## C84 -/

/-- **C84, graphs.** On the UTF-8 encoding `b` of any text with the lines `ls`, `EditGraph::from_buf` returns the graph
with exactly the edges of the lines if they are all well formed and an error otherwise; it never panics. -/
theorem C84_graph_text {b : List UInt8} {t : List Char} {ls : List (List Char)} (hb : Utf8 b t) (h : RawLines t ls) :
    (∀ es, List.Forall₂ EdgeLine ls es → ∃ g, graphFromBuf ⟨b, false⟩ = .ok (some g) ∧ Reachable g ∧
      (∀ u, g.contains u = true ↔ ∃ e ∈ es, u = e.1 ∨ u = e.2) ∧
      (∀ u v, g.adjacent u v = true ↔ (u, v) ∈ es ∨ (v, u) ∈ es)) ∧
    ((¬ ∃ es, List.Forall₂ EdgeLine ls es) → graphFromBuf ⟨b, false⟩ = .ok none) := by
  have : b = encode t := hb
  subst this
  rw [graph_of_text]
  exact (C27_parser t).2 ls h

/-- **C84, vertex lists.** -/
theorem C84_vec_text {b : List UInt8} {t : List Char} {ls : List (List Char)} (hb : Utf8 b t) (h : RawLines t ls) :
    (∀ us, List.Forall₂ VertexLine ls us → Files.vecFromBuf ⟨b, false⟩ = .ok (some us)) ∧
    ((¬ ∃ us, List.Forall₂ VertexLine ls us) → Files.vecFromBuf ⟨b, false⟩ = .ok none) := by
  have : b = encode t := hb
  subst this
  rw [vec_of_text]
  obtain ⟨h1, h2⟩ := C26_vec_parser h
  exact ⟨fun us hus => by rw [h1 us hus], fun hn => by rw [h2 hn]⟩

/-- **C84, vertex sets.** -/
theorem C84_set_text {b : List UInt8} {t : List Char} {ls : List (List Char)} (hb : Utf8 b t) (h : RawLines t ls) :
    (∀ us, List.Forall₂ VertexLine ls us → ∃ s, Files.setFromBuf ⟨b, false⟩ = .ok (some s) ∧ ∀ u, u ∈ s ↔ u ∈ us) ∧
    ((¬ ∃ us, List.Forall₂ VertexLine ls us) → Files.setFromBuf ⟨b, false⟩ = .ok none) := by
  have : b = encode t := hb
  subst this
  rw [set_of_text]
  obtain ⟨h1, h2⟩ := C26_vec_parser h
  have h3 : IO.setFromBuf t = (IO.vecFromBuf t).map (fun us => (∅ : HSet ℕ).extend us) :=
    setFromLines_eq (IO.lines t) ∅ []
  refine ⟨fun us hus => ⟨(∅ : HSet ℕ).extend us, by rw [h3, h1 us hus]; rfl, fun u => ?_⟩,
    fun hn => by rw [h3, h2 hn]; rfl⟩
  rw [HSet.mem_extend]
  simp

/-- Two lines, the second with a no-break space (two bytes in UTF-8) between the numbers. -/
def exText : List Char := ['0', ' ', '1', '\n', '1', '\u00a0', '2']

example : ∃ b ls es, Utf8 b exText ∧ RawLines exText ls ∧ List.Forall₂ EdgeLine ls es ∧ es = [(0, 1), (1, 2)] ∧
    b = [48, 32, 49, 10, 49, 194, 160, 50] := by
  refine ⟨[48, 32, 49, 10, 49, 194, 160, 50], [['0', ' ', '1'], ['1', '\u00a0', '2']], [(0, 1), (1, 2)], ?_, ?_, ?_, rfl, rfl⟩
  · unfold Utf8; decide
  · exact .line (l := ['0', ' ', '1']) (by decide) (.last (by decide) (by decide))
  · exact .cons (parseEdgeLine_iff.1 (by decide)) (.cons (parseEdgeLine_iff.1 (by decide)) .nil)

example : (graphFromBuf ⟨[48, 32, 49, 10, 49, 194, 160, 50], false⟩).map
    (fun r => r.map (fun g => (g.numVertices, g.numEdges))) = .ok (some (3, 2)) := by decide +kernel

/-! ## C85 -/

/-- **C85, refuted.** "Reading input that is not in the format returns an error" is false: a line that is not UTF-8, or a
read error, makes all three readers panic. -/
theorem C85_panics :
    graphFromBuf ⟨[0xFF], false⟩ = .error .panic ∧ Files.vecFromBuf ⟨[0xFF], false⟩ = .error .panic ∧
    Files.setFromBuf ⟨[0xFF], false⟩ = .error .panic ∧ graphFromBuf ⟨[], true⟩ = .error .panic := by
  have h : (ByteArray.mk #[0xFF]).utf8Decode? = none := by decide +kernel
  have h' : lines ⟨[0xFF], false⟩ = [none] := by
    show [Option.map _ (Option.map _ (ByteArray.mk #[0xFF]).utf8Decode?)] = _
    rw [h]; rfl
  refine ⟨?_, ?_, ?_, rfl⟩
  · unfold graphFromBuf; rw [h']; rfl
  · unfold Files.vecFromBuf; rw [h']; rfl
  · unfold Files.setFromBuf; rw [h']; rfl

/-- **C85, refuted for files.** Loading a plain text file as a gzip file panics instead of returning an error. -/
theorem C85_gzip_panics (C : Codec) (fs : Store) (name : List Char) {x : UInt8} {b : List UInt8}
    (hx : x ≠ 0x1f) (h : fs name = some (x :: b)) :
    fromGzipped C graphFromBuf fs name = .error .panic ∧ fromGzipped C Files.vecFromBuf fs name = .error .panic ∧
    fromGzipped C Files.setFromBuf fs name = .error .panic := by
  have e : openGzip C fs name = some ⟨[], true⟩ := by unfold openGzip; rw [h, Option.map_some, C.header x b hx]
  unfold fromGzipped
  rw [e]
  exact ⟨rfl, rfl, rfl⟩

theorem edge_same : ∀ t t' e, SameLine t t' → (parseEdgeLine t' = some e ↔ EdgeLine t e) := by
  intro t t' e h
  rw [same_edge h, parseEdgeLine_iff]

theorem vertex_same : ∀ t t' u, SameLine t t' → (parseVertex (trim t') = some u ↔ VertexLine t u) := by
  intro t t' u h
  rw [same_trim h, parseVertexLine_iff]

theorem addEdge_step : ∀ (g : EditGraph) (e : ℕ × ℕ), (∃ S, Abs g S) →
    ∃ g', (do let r ← g.addEdge e.1 e.2; return r.1 : Res EditGraph) = .ok g' ∧ ∃ S, Abs g' S := by
  rintro g e ⟨S, A⟩
  obtain ⟨r, hr, A', -⟩ := A.addEdge e.1 e.2
  exact ⟨r.1, by rw [hr]; rfl, _, A'⟩

theorem addEdge_fold (es : List (ℕ × ℕ)) {g : EditGraph} {S : SGraph} (A : Abs g S) :
    ∃ g', es.foldlM (fun (g : EditGraph) (e : ℕ × ℕ) => (do let r ← g.addEdge e.1 e.2; return r.1 : Res EditGraph)) g
      = .ok g' ∧ Abs g' (S.addEdges es) := by
  induction es generalizing g S with
  | nil => exact ⟨g, rfl, by rw [SGraph.addEdges_nil]; exact A⟩
  | cons e es ih =>
    obtain ⟨r, hr, A', -⟩ := A.addEdge e.1 e.2
    obtain ⟨g', h', A''⟩ := ih A'
    refine ⟨g', ?_, by rw [addEdges_cons]; exact A''⟩
    rw [List.foldlM_cons, hr]
    exact h'

/-- **C85, graphs, the exact behaviour.** Every input has byte lines; `EditGraph::from_buf` on an input with the
byte lines `ls` and unterminated rest `r` succeeds iff the input does not break off and every line is UTF-8 and well
formed, and then returns the graph of the lines; it returns an error iff the first line that is not well formed is
UTF-8; and it panics iff the first line that is not well formed is not UTF-8, or all lines are well formed and the
input breaks off. -/
theorem C85_graph_bytes_partial (s : Stream) :
    (∃ ls r, ByteLines s.data ls r) ∧ ∀ ls r, ByteLines s.data ls r →
      (∀ es, List.Forall₂ (ByteLine EdgeLine) (delivered s.broken ls r) es → s.broken = false →
        ∃ g, graphFromBuf s = .ok (some g) ∧ Reachable g ∧
          (∀ u, g.contains u = true ↔ ∃ e ∈ es, u = e.1 ∨ u = e.2) ∧
          (∀ u v, g.adjacent u v = true ↔ (u, v) ∈ es ∨ (v, u) ∈ es)) ∧
      ((∃ g, graphFromBuf s = .ok (some g)) ↔
        s.broken = false ∧ ∀ l ∈ delivered s.broken ls r, ∃ e, ByteLine EdgeLine l e) ∧
      (graphFromBuf s = .ok none ↔ FirstBad EdgeLine (delivered s.broken ls r) (fun l => ∃ t, Utf8 l t)) ∧
      (graphFromBuf s = .error .panic ↔ FirstBad EdgeLine (delivered s.broken ls r) (fun l => ¬ ∃ t, Utf8 l t) ∨
        s.broken = true ∧ ∀ l ∈ delivered s.broken ls r, ∃ e, ByteLine EdgeLine l e) := by
  refine ⟨byteLines_exists _, fun ls r h => ?_⟩
  obtain ⟨is, his, hl⟩ := lines_items h
  have hs := run_spec (I := fun g : EditGraph => ∃ S, Abs g S) edge_same addEdge_step his s.broken
    (s := EditGraph.new) ⟨_, abs_new⟩
  have e : graphFromBuf s = run parseEdgeLine (fun g e => do let r ← g.addEdge e.1 e.2; return r.1)
      (is ++ if s.broken then [none] else []) EditGraph.new := by
    unfold graphFromBuf; rw [hl, graphFromItems_eq]
  refine ⟨fun es hes hbr => ?_, ?_⟩
  · obtain ⟨g', hg', A⟩ := addEdge_fold es abs_new
    rw [e, run_good edge_same his hes, hg', hbr]
    refine ⟨g', rfl, A.reachable, fun u => ?_, fun u v => ?_⟩
    · rw [A.contains, decide_eq_true_eq]
      show u ∈ ∅ ∪ SGraph.endpoints es ↔ _
      rw [Finset.empty_union, SGraph.mem_endpoints]
    · rw [A.adjacent, decide_eq_true_eq, SGraph.addEdges_adj]
      simp
  · rw [e]
    exact ⟨hs.2.2, hs.2.1, hs.1⟩

/-- **C85, vertex lists.** -/
theorem C85_vec_bytes_partial (s : Stream) {ls : List (List UInt8)} {r : List UInt8} (h : ByteLines s.data ls r) :
    (∀ us, List.Forall₂ (ByteLine VertexLine) (delivered s.broken ls r) us → s.broken = false →
      Files.vecFromBuf s = .ok (some us)) ∧
    (Files.vecFromBuf s = .ok none ↔ FirstBad VertexLine (delivered s.broken ls r) (fun l => ∃ t, Utf8 l t)) ∧
    (Files.vecFromBuf s = .error .panic ↔ FirstBad VertexLine (delivered s.broken ls r) (fun l => ¬ ∃ t, Utf8 l t) ∨
      s.broken = true ∧ ∀ l ∈ delivered s.broken ls r, ∃ u, ByteLine VertexLine l u) := by
  obtain ⟨is, his, hl⟩ := lines_items h
  have hs := run_spec (I := fun _ : List ℕ => True) vertex_same
    (step := fun (g : List ℕ) (u : ℕ) => (.ok (g ++ [u]) : Res (List ℕ))) (fun s e _ => ⟨_, rfl, trivial⟩) his s.broken
    (s := []) trivial
  have e : Files.vecFromBuf s = run (fun l => parseVertex (trim l)) (fun g u => .ok (g ++ [u]))
      (is ++ if s.broken then [none] else []) [] := by
    unfold Files.vecFromBuf; rw [hl, vecFromItems_eq]
  have hf : ∀ us acc : List ℕ, us.foldlM (fun (g : List ℕ) (u : ℕ) => (.ok (g ++ [u]) : Res (List ℕ))) acc
      = .ok (acc ++ us) := by
    intro us
    induction us with
    | nil => intro acc; rw [List.append_nil]; rfl
    | cons u us ih => intro acc; rw [List.foldlM_cons, bind_ok, ih]; simp
  refine ⟨fun us hus hbr => ?_, ?_⟩
  · rw [e, run_good vertex_same his hus, hf, hbr]; rfl
  · rw [e]; exact ⟨hs.2.1, hs.1⟩

/-- **C85, vertex sets.** -/
theorem C85_set_bytes_partial (s : Stream) {ls : List (List UInt8)} {r : List UInt8} (h : ByteLines s.data ls r) :
    (∀ us, List.Forall₂ (ByteLine VertexLine) (delivered s.broken ls r) us → s.broken = false →
      ∃ S, Files.setFromBuf s = .ok (some S) ∧ ∀ u, u ∈ S ↔ u ∈ us) ∧
    (Files.setFromBuf s = .ok none ↔ FirstBad VertexLine (delivered s.broken ls r) (fun l => ∃ t, Utf8 l t)) ∧
    (Files.setFromBuf s = .error .panic ↔ FirstBad VertexLine (delivered s.broken ls r) (fun l => ¬ ∃ t, Utf8 l t) ∨
      s.broken = true ∧ ∀ l ∈ delivered s.broken ls r, ∃ u, ByteLine VertexLine l u) := by
  obtain ⟨is, his, hl⟩ := lines_items h
  have hs := run_spec (I := fun _ : HSet ℕ => True) vertex_same
    (step := fun (g : HSet ℕ) (u : ℕ) => (.ok (g.insert u) : Res (HSet ℕ))) (fun s e _ => ⟨_, rfl, trivial⟩) his s.broken
    (s := ∅) trivial
  have e : Files.setFromBuf s = run (fun l => parseVertex (trim l)) (fun g u => .ok (g.insert u))
      (is ++ if s.broken then [none] else []) ∅ := by
    unfold Files.setFromBuf; rw [hl, setFromItems_eq]
  have hf : ∀ (us : List ℕ) (acc : HSet ℕ), us.foldlM (fun (g : HSet ℕ) (u : ℕ) => (.ok (g.insert u) : Res (HSet ℕ))) acc
      = .ok (acc.extend us) := by
    intro us
    induction us with
    | nil => intro acc; rfl
    | cons u us ih => intro acc; rw [List.foldlM_cons, bind_ok, ih]; rfl
  refine ⟨fun us hus hbr => ⟨(∅ : HSet ℕ).extend us, ?_, fun u => ?_⟩, ?_⟩
  · rw [e, run_good vertex_same his hus, hf, hbr]; rfl
  · rw [HSet.mem_extend]; simp
  · rw [e]; exact ⟨hs.2.1, hs.1⟩

/-- A good line, then a byte that is no UTF-8, then a line with one token. -/
def exBytes : List UInt8 := [48, 32, 49, 10, 0xFF, 10, 50]

example : ByteLines exBytes [[48, 32, 49], [0xFF]] [50] ∧ delivered false [[48, 32, 49], [0xFF]] [50] ≠ [] ∧
    FirstBad EdgeLine (delivered false [[48, 32, 49], [0xFF]] [50]) (fun l => ¬ ∃ t, Utf8 l t) := by
  have hff : ¬ ∃ t, Utf8 [0xFF] t := decode_none.1 (by decide +kernel)
  refine ⟨.line (l := [48, 32, 49]) (by decide) (.line (l := [0xFF]) (by decide) (.rest (by decide))), by decide,
    [[48, 32, 49]], [0xFF], [[50]], rfl, ?_, fun e ⟨t, ht, _⟩ => hff ⟨t, ht⟩, hff⟩
  simp only [List.mem_singleton, forall_eq]
  exact ⟨(0, 1), ['0', ' ', '1'], by unfold Utf8; decide, parseEdgeLine_iff.1 (by decide)⟩

/-! ## C86 -/

/-- A file name with the extension `.txt`. -/
def TxtName (p : List Char) : Prop := ∃ stem, stem ≠ [] ∧ NamedFile p (stem ++ ['.', 't', 'x', 't'])

/-- A file name with the extension `.gz`. -/
def GzName (p : List Char) : Prop := ∃ stem, stem ≠ [] ∧ NamedFile p (stem ++ ['.', 'g', 'z'])

theorem ext_txt {p : List Char} (h : TxtName p) : extension p = some ['t', 'x', 't'] := by
  obtain ⟨stem, h0, hn⟩ := h
  refine (extension_iff hn (by simp) ?_ (by simp)).2 ⟨stem, h0, rfl, by decide⟩
  intro h
  have := congrArg List.length h
  simp at this

theorem ext_gz {p : List Char} (h : GzName p) : extension p = some ['g', 'z'] := by
  obtain ⟨stem, h0, hn⟩ := h
  refine (extension_iff hn (by simp) ?_ (by simp)).2 ⟨stem, h0, rfl, by decide⟩
  intro h
  have := congrArg List.length h
  simp at this

/-- **C86, all types.** What `write_txt` writes, `from_txt` reads, and what `write_gzipped` writes, `from_gzipped` reads,
under any name; `from_file` reads both if the name has the extension `.txt` or `.gz` respectively.  Other files are
not changed. -/
theorem C86_files (C : Codec) {α : Type} (ld : Stream → Res (Option α)) (fs : Store) (name t : List Char) :
    fromTxt ld (writeTxt fs name t) name = ld ⟨t.flatMap String.utf8EncodeChar, false⟩ ∧
    fromGzipped C ld (writeGzipped C fs name t) name = ld ⟨t.flatMap String.utf8EncodeChar, false⟩ ∧
    (TxtName name → fromFile C ld (writeTxt fs name t) name = ld ⟨t.flatMap String.utf8EncodeChar, false⟩) ∧
    (GzName name → fromFile C ld (writeGzipped C fs name t) name = ld ⟨t.flatMap String.utf8EncodeChar, false⟩) ∧
    (∀ n, n ≠ name → writeTxt fs name t n = fs n ∧ writeGzipped C fs name t n = fs n) := by
  refine ⟨?_, ?_, fun h => ?_, fun h => ?_, fun n hn => ?_⟩
  · simp [fromTxt, openTxt, writeTxt, Store.put, load, plain, encode]
  · simp [fromGzipped, openGzip, writeGzipped, Store.put, load, C.gunzip_gzip, encode]
  · unfold fromFile openReader
    rw [ext_txt h]
    simp [writeTxt, Store.put, load, plain, encode]
  · unfold fromFile openReader
    rw [ext_gz h]
    simp [writeGzipped, Store.put, load, C.gunzip_gzip, encode]
  · simp [writeTxt, writeGzipped, Store.put, hn]

/-- **C86, graphs.** Writing an `EditGraph` to a text or gzip file and loading it from there gives the same edges and
exactly the non-isolated vertices, so an equal graph iff there is no isolated vertex. -/
theorem C86_graph_files (C : Codec) (fs : Store) (name : List Char) {g : EditGraph} (hg : Reachable g)
    (hb : ∀ u : ℕ, g.contains u = true → u < 2 ^ 32) :
    ∃ t g', writeGraph g.view = .ok t ∧ Reachable g' ∧
      fromTxt graphFromBuf (writeTxt fs name t) name = .ok (some g') ∧
      fromGzipped C graphFromBuf (writeGzipped C fs name t) name = .ok (some g') ∧
      (TxtName name → fromFile C graphFromBuf (writeTxt fs name t) name = .ok (some g')) ∧
      (GzName name → fromFile C graphFromBuf (writeGzipped C fs name t) name = .ok (some g')) ∧
      (∀ u v, g'.adjacent u v = g.adjacent u v) ∧
      (∀ u, g'.contains u = true ↔ ∃ v, g.adjacent u v = true) ∧
      (g'.eq g = true ↔ ∀ u, g.contains u = true → ∃ v, g.adjacent u v = true) := by
  obtain ⟨S, A⟩ := hg.abs
  obtain ⟨t, g', ht, hg', hr, hc, ha⟩ := C25_graph_roundtrip A.rep
    (fun u hu => hb u (by rw [A.contains]; simpa using hu))
  obtain ⟨t2, g2, ht2, hg2, heq⟩ := C25_roundtrip_eq hg hb
  obtain rfl : t = t2 := by rw [ht] at ht2; exact Except.ok.inj ht2
  obtain rfl : g' = g2 := by rw [hg'] at hg2; exact Option.some.inj (Except.ok.inj hg2)
  obtain ⟨h1, h2, h3, h4, -⟩ := C86_files C graphFromBuf fs name t
  have e : graphFromBuf ⟨t.flatMap String.utf8EncodeChar, false⟩ = .ok (some g') := by
    rw [← hg']; exact graph_of_text t
  refine ⟨t, g', ht, hr, by rw [h1, e], by rw [h2, e], fun h => by rw [h3 h, e], fun h => by rw [h4 h, e],
    fun u v => ?_, fun u => ?_, heq⟩
  · rw [Bool.eq_iff_iff, ha, A.adjacent, decide_eq_true_eq]
  · rw [hc]; simp only [A.adjacent, decide_eq_true_eq]

/-- `C86_graph_files` for a path with a loop and an isolated vertex. -/
example := fun C fs => C86_graph_files C fs ['a', '.', 't', 'x', 't'] loopG_reachable (fun u h => by have := loopG_contains.1 h; omega)

/-- **C86, vertex lists and sets.** -/
theorem C86_vertex_files (C : Codec) (fs : Store) (name : List Char) (l : List ℕ) (hl : ∀ u ∈ l, u < 2 ^ 32) (s : HSet ℕ)
    (hs : ∀ u ∈ s, u < 2 ^ 32) :
    (fromTxt Files.vecFromBuf (writeTxt fs name (writeVertices l)) name = .ok (some l) ∧
      fromGzipped C Files.vecFromBuf (writeGzipped C fs name (writeVertices l)) name = .ok (some l) ∧
      (TxtName name → fromFile C Files.vecFromBuf (writeTxt fs name (writeVertices l)) name = .ok (some l)) ∧
      (GzName name → fromFile C Files.vecFromBuf (writeGzipped C fs name (writeVertices l)) name = .ok (some l))) ∧
    ∃ s' : HSet ℕ, s'.eqv s = true ∧ (∀ u, u ∈ s' ↔ u ∈ s) ∧
      fromTxt Files.setFromBuf (writeTxt fs name (writeVertices s.toList)) name = .ok (some s') ∧
      fromGzipped C Files.setFromBuf (writeGzipped C fs name (writeVertices s.toList)) name = .ok (some s') ∧
      (TxtName name → fromFile C Files.setFromBuf (writeTxt fs name (writeVertices s.toList)) name = .ok (some s')) ∧
      (GzName name →
        fromFile C Files.setFromBuf (writeGzipped C fs name (writeVertices s.toList)) name = .ok (some s')) := by
  constructor
  · obtain ⟨h1, h2, h3, h4, -⟩ := C86_files C Files.vecFromBuf fs name (writeVertices l)
    have e : Files.vecFromBuf ⟨(writeVertices l).flatMap String.utf8EncodeChar, false⟩ = .ok (some l) := by
      rw [← C26_vec_roundtrip hl]; exact vec_of_text _
    exact ⟨by rw [h1, e], by rw [h2, e], fun h => by rw [h3 h, e], fun h => by rw [h4 h, e]⟩
  · obtain ⟨s', hs', h5, h6⟩ := C26_set_roundtrip s hs
    obtain ⟨h1, h2, h3, h4, -⟩ := C86_files C Files.setFromBuf fs name (writeVertices s.toList)
    have e : Files.setFromBuf ⟨(writeVertices s.toList).flatMap String.utf8EncodeChar, false⟩ = .ok (some s') := by
      rw [← hs']; exact set_of_text _
    exact ⟨s', h5, h6, by rw [h1, e], by rw [h2, e], fun h => by rw [h3 h, e], fun h => by rw [h4 h, e]⟩

/-- A codec: a two-byte magic number before the data. -/
def exCodec : Codec where
  gzip b := 0x1f :: 0x8b :: b
  gunzip b := match b with
    | 0x1f :: 0x8b :: t => ⟨t, false⟩
    | _ => ⟨[], true⟩
  gunzip_gzip _ := rfl
  header x b hx := by
    split
    · next h => exact absurd (List.cons.inj h).1 hx
    · rfl

example : TxtName ['d', '/', 'a', '.', 't', 'x', 't'] ∧ GzName ['a', '.', 't', 'x', 't', '.', 'g', 'z'] :=
  ⟨⟨['a'], by decide, by decide, Or.inr ⟨['d'], rfl⟩⟩, ⟨['a', '.', 't', 'x', 't'], by decide, by decide, Or.inl rfl⟩⟩

example : fromFile exCodec Files.vecFromBuf
    (writeGzipped exCodec (fun _ => none) ['a', '.', 'g', 'z'] (writeVertices [3, 1, 3])) ['a', '.', 'g', 'z']
    = .ok (some [3, 1, 3]) :=
  (C86_vertex_files exCodec (fun _ => none) _ [3, 1, 3] (by decide) ∅ (by simp)).1.2.2.2
    ⟨['a'], by decide, by decide, Or.inl rfl⟩

/-! ## C87 -/

/-- **C87.** `from_file` is decided by the extension of the last path component `n`: with the extension `.txt` it is
`from_txt`, with `.gz` it is `from_gzipped` (whatever comes before), and with any other name it returns an error
without looking at the file; for missing files all three return an error. -/
theorem C87_from_file (C : Codec) {α : Type} (ld : Stream → Res (Option α)) (fs : Store) {p n : List Char}
    (hn : NamedFile p n) (h0 : n ≠ []) (h1 : n ≠ ['.']) :
    ((∃ stem, stem ≠ [] ∧ n = stem ++ ['.', 't', 'x', 't']) → fromFile C ld fs p = fromTxt ld fs p) ∧
    ((∃ stem, stem ≠ [] ∧ n = stem ++ ['.', 'g', 'z']) → fromFile C ld fs p = fromGzipped C ld fs p) ∧
    ((¬ ∃ stem, stem ≠ [] ∧ (n = stem ++ ['.', 't', 'x', 't'] ∨ n = stem ++ ['.', 'g', 'z'])) →
      fromFile C ld fs p = .ok none) ∧
    (fs p = none → fromTxt ld fs p = .ok none ∧ fromGzipped C ld fs p = .ok none ∧ fromFile C ld fs p = .ok none) := by
  refine ⟨?_, ?_, fun h => ?_, fun h => ?_⟩
  · rintro ⟨stem, hs, rfl⟩
    unfold fromFile openReader fromTxt openTxt
    rw [ext_txt ⟨stem, hs, hn⟩]
    rfl
  · rintro ⟨stem, hs, rfl⟩
    unfold fromFile openReader fromGzipped openGzip
    rw [ext_gz ⟨stem, hs, hn⟩]
    rfl
  · unfold fromFile openReader
    split
    · next he =>
      obtain ⟨stem, hs, he, -⟩ := (extension_iff hn h0 h1 (by simp)).1 he
      exact absurd ⟨stem, hs, Or.inl he⟩ h
    · next he =>
      obtain ⟨stem, hs, he, -⟩ := (extension_iff hn h0 h1 (by simp)).1 he
      exact absurd ⟨stem, hs, Or.inr he⟩ h
    · rfl
  · refine ⟨by simp [fromTxt, openTxt, h, load], by simp [fromGzipped, openGzip, h, load], ?_⟩
    unfold fromFile openReader
    rw [h]
    split <;> rfl

example : NamedFile ['a', '.', 't', 'x', 't', '/', '.', 't', 'x', 't'] ['.', 't', 'x', 't'] ∧
    (¬ ∃ stem : List Char, stem ≠ [] ∧ (['.', 't', 'x', 't'] = stem ++ ['.', 't', 'x', 't'] ∨
      ['.', 't', 'x', 't'] = stem ++ ['.', 'g', 'z'])) := by
  refine ⟨⟨by decide, Or.inr ⟨['a', '.', 't', 'x', 't'], rfl⟩⟩, ?_⟩
  rintro ⟨stem, h0, h | h⟩
  · exact h0 (by simpa using h)
  · have := congrArg List.reverse h
    simp at this

end Verif
