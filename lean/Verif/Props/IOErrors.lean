import Verif.Model.IOErrors
import Verif.Props.Files
/-!
# C129: the errors reported by the readers
-/
namespace Verif
open Verif.IO Verif.Files

/-! ## Specification -/

/-- The line consists of the two words `a` and `b`. -/
def TwoWords (l a b : List Char) : Prop :=
  ∃ w₀ w₁ w₂ : List Char, l = w₀ ++ a ++ w₁ ++ b ++ w₂ ∧ (∀ c ∈ w₀, IsWs c) ∧ (∀ c ∈ w₁, IsWs c) ∧ (∀ c ∈ w₂, IsWs c) ∧
    w₁ ≠ [] ∧ a ≠ [] ∧ b ≠ [] ∧ (∀ c ∈ a, ¬ IsWs c) ∧ ∀ c ∈ b, ¬ IsWs c

/-- `a` is the line without the whitespace at both ends. -/
def Stripped (l a : List Char) : Prop :=
  ∃ w₀ w₁ : List Char, l = w₀ ++ a ++ w₁ ∧ (∀ c ∈ w₀, IsWs c) ∧ (∀ c ∈ w₁, IsWs c) ∧
    (∀ c t, a = c :: t → ¬ IsWs c) ∧ ∀ c t, a = t ++ [c] → ¬ IsWs c

/-- The text of the report that `s` in line `i` is no vertex id. -/
def badId (s : List Char) (i : ℕ) : List Char :=
  "Cannot parse vertex id ".toList ++ s ++ " at input line ".toList ++ Nat.toDigits 10 i

/-- The report about the line `l` with the number `i` of an edge list. -/
def EdgeReport (l : List Char) (i : ℕ) (msg : List Char) : Prop :=
  ((¬ ∃ a b, TwoWords l a b) ∧
    msg = "Line ".toList ++ Nat.toDigits 10 i ++ " does not contain two tokens".toList) ∨
  ∃ a b, TwoWords l a b ∧ ((¬ ∃ n, DecToken a n) ∧ msg = badId a i ∨
    (∃ n, DecToken a n) ∧ (¬ ∃ n, DecToken b n) ∧ msg = badId b i)

/-- The report about the line `l` with the number `i` of a vertex list. -/
def VertexReport (l : List Char) (i : ℕ) (msg : List Char) : Prop :=
  ∃ a, Stripped l a ∧ (¬ ∃ n, DecToken a n) ∧ msg = badId a i

/-- The first line that is not well formed has a number, counted from 0, and a text with the given report. -/
def Reported {β : Type} (Line : List Char → β → Prop) (Report : List Char → ℕ → List Char → Prop) (all : List (List UInt8))
    (msg : List Char) : Prop :=
  ∃ pre l post t, all = pre ++ l :: post ∧ (∀ x ∈ pre, ∃ e, ByteLine Line x e) ∧ Utf8 l t ∧ Report t pre.length msg

/-! ## Lemmas -/

theorem render_eq (n : ℕ) : render n = Nat.toDigits 10 n := by
  induction n using Nat.strong_induction_on with
  | _ n ih =>
    have hc : ∀ d < 10, Char.ofNat (48 + d) = d.digitChar := by decide
    by_cases h : n < 10
    · rw [Nat.toDigits_of_lt_base h]
      unfold render
      split
      · next h => subst h; rfl
      · next h0 =>
        rw [Nat.digits_of_lt 10 n h0 h]
        simp [hc n h]
    · have h0 : n ≠ 0 := by omega
      have h1 : n / 10 ≠ 0 := by omega
      rw [Nat.toDigits_of_base_le (by omega) (by omega), ← ih (n / 10) (by omega)]
      unfold render
      rw [if_neg h0, if_neg h1, Nat.digits_def' (by omega) (by omega)]
      simp [hc (n % 10) (by omega)]

theorem isWs_false {c : Char} : isWs c = false ↔ ¬ IsWs c := by rw [← isWs_iff]; simp

theorem tokens_two {l a b : List Char} : tokens l = [a, b] ↔ TwoWords l a b := by
  rw [tokens_eq_two]
  unfold TwoWords
  simp only [isWs_iff, isWs_false]

theorem stripped_trim (l : List Char) : Stripped l (trim l) := by
  obtain ⟨w₀, w₁, hl, h0, h1⟩ := trim_decomp l
  refine ⟨w₀, w₁, hl, fun c hc => isWs_iff.1 (h0 c hc), fun c hc => isWs_iff.1 (h1 c hc), fun c t e => ?_, fun c t e => ?_⟩
  · rw [← isWs_false]
    unfold trim at e
    set d := l.dropWhile isWs with hd
    have hs : d = (d.reverse.dropWhile isWs).reverse ++ (d.reverse.takeWhile isWs).reverse := by
      rw [← List.reverse_append, List.takeWhile_append_dropWhile, List.reverse_reverse]
    rw [e] at hs
    have hne : d ≠ [] := by rw [hs]; simp
    have := List.head_dropWhile_not isWs (l := l) (hd ▸ hne)
    have h2 : d.head hne = c := by
      have : d.head? = some c := by rw [hs]; rfl
      rw [List.head?_eq_some_head hne] at this
      exact Option.some.inj this
    rw [← h2]
    simpa [← hd] using this
  · rw [← isWs_false]
    unfold trim at e
    set d := (l.dropWhile isWs).reverse with hd
    have e' : d.dropWhile isWs = c :: t.reverse := by
      have := congrArg List.reverse e
      simpa using this
    have hne : d.dropWhile isWs ≠ [] := by rw [e']; simp
    have := List.head_dropWhile_not isWs hne
    simpa [e'] using this

theorem Stripped.unique {l a b : List Char} (ha : Stripped l a) (hb : Stripped l b) : a = b := by
  have key : ∀ {l a : List Char}, Stripped l a → trim l = a := by
    rintro l a ⟨w₀, w₁, rfl, h0, h1, hf, hl⟩
    have h0 : ∀ c ∈ w₀, isWs c = true := fun c hc => isWs_iff.2 (h0 c hc)
    have h1 : ∀ c ∈ w₁, isWs c = true := fun c hc => isWs_iff.2 (h1 c hc)
    have d0 : w₀.dropWhile isWs = [] := List.dropWhile_eq_nil_iff.2 h0
    have d1 : w₁.reverse.dropWhile isWs = [] := List.dropWhile_eq_nil_iff.2 (by simpa using h1)
    have d1' : w₁.dropWhile isWs = [] := List.dropWhile_eq_nil_iff.2 h1
    unfold trim
    rw [List.append_assoc, List.dropWhile_append, d0]
    simp only [List.isEmpty_nil, if_true]
    rcases List.eq_nil_or_concat' a with rfl | ⟨t, c, rfl⟩
    · simp [d1']
    · have hc := isWs_false.2 (hl c t rfl)
      have e : (t ++ [c] ++ w₁).dropWhile isWs = t ++ [c] ++ w₁ := by
        cases t with
        | nil => simp [hc]
        | cons x t =>
          have := isWs_false.2 (hf x (t ++ [c]) rfl)
          simp [this]
      rw [e]
      rw [List.reverse_append, List.dropWhile_append, d1]
      simp [hc]
  rw [← key ha, ← key hb]

theorem tokens_same {l l' : List Char} (h : SameLine l l') : tokens l' = tokens l := by
  rcases h with rfl | rfl
  · rfl
  · exact (tokensAux_snoc_ws (by decide) l' []).symm

theorem parseVertex_none {s : List Char} : parseVertex s = none ↔ ¬ ∃ n, DecToken s n := by
  simp only [← parseVertex_iff, Option.eq_none_iff_forall_ne_some, ne_eq, not_exists]

theorem parseVertexE_error {s : List Char} {i : ℕ} {e : IoError} :
    parseVertexE s i = .error e ↔ (¬ ∃ n, DecToken s n) ∧ e.kind = .invalidData ∧ e.msg = badId s i := by
  unfold parseVertexE
  rw [← parseVertex_none]
  cases h : parseVertex s with
  | some x => simp
  | none =>
    obtain ⟨k, m⟩ := e
    have hv : vertexError s i = ⟨.invalidData, badId s i⟩ := by unfold vertexError badId; rw [render_eq]
    show Except.error (vertexError s i) = Except.error (⟨k, m⟩ : IoError) ↔ _
    rw [hv]
    constructor
    · intro h'
      injection h' with h'
      injection h' with h1 h2
      exact ⟨rfl, h1.symm, h2.symm⟩
    · rintro ⟨-, h1, h2⟩
      rw [show k = _ from h1, show m = _ from h2]

theorem parseVertexE_ok {s : List Char} {i : ℕ} {u : ℕ} : parseVertexE s i = .ok u ↔ parseVertex s = some u := by
  unfold parseVertexE
  cases h : parseVertex s with
  | some x => simp
  | none => simp

theorem parseEdgeLineE_ok {l : List Char} {i : ℕ} {e : ℕ × ℕ} : parseEdgeLineE l i = .ok e ↔ parseEdgeLine l = some e := by
  unfold parseEdgeLineE parseEdgeLine
  generalize tokens l = w
  split
  · next a b =>
    simp only [parseVertexE]
    cases parseVertex a with
    | none => simp [bind, Except.bind]
    | some u =>
      cases parseVertex b with
      | none => simp [bind, Except.bind]
      | some v => simp [bind, Except.bind, pure, Except.pure]
  · simp

theorem parseEdgeLineE_error {t l : List Char} (hl : SameLine t l) {i : ℕ} {e : IoError} :
    parseEdgeLineE l i = .error e ↔ e.kind = .invalidData ∧ EdgeReport t i e.msg := by
  have ht : ∀ a b, TwoWords t a b ↔ tokens l = [a, b] := fun a b => by rw [← tokens_two, tokens_same hl]
  unfold parseEdgeLineE EdgeReport
  simp only [ht]
  split
  · next a b h =>
    have hd : ∀ n, parseVertexE a i = .ok n → ∃ n, DecToken a n := fun n h => ⟨n, parseVertex_iff.1 (parseVertexE_ok.1 h)⟩
    cases hp : parseVertexE a i with
    | error e' =>
      have h1 := parseVertexE_error.1 hp
      simp only [bind, Except.bind, Except.error.injEq]
      constructor
      · rintro rfl
        exact ⟨h1.2.1, Or.inr ⟨a, b, h, Or.inl ⟨h1.1, h1.2.2⟩⟩⟩
      · rintro ⟨hk, ⟨h2, -⟩ | ⟨a', b', h3, h4⟩⟩
        · exact absurd ⟨a, b, h⟩ h2
        · rw [h] at h3
          injection h3 with h5 h6
          injection h6 with h6 _
          subst h5
          rcases h4 with ⟨-, hm⟩ | ⟨h7, -⟩
          · have := parseVertexE_error.2 ⟨h1.1, hk, hm⟩
            rw [hp] at this
            exact Except.error.inj this
          · exact absurd h7 h1.1
    | ok u =>
      have h1 := hd u hp
      cases hq : parseVertexE b i with
      | error e' =>
        have h2 := parseVertexE_error.1 hq
        simp only [bind, Except.bind, Except.error.injEq]
        constructor
        · rintro rfl
          exact ⟨h2.2.1, Or.inr ⟨a, b, h, Or.inr ⟨h1, h2.1, h2.2.2⟩⟩⟩
        · rintro ⟨hk, ⟨h3, -⟩ | ⟨a', b', h3, h4⟩⟩
          · exact absurd ⟨a, b, h⟩ h3
          · rw [h] at h3
            injection h3 with h5 h6
            injection h6 with h6 _
            subst h5 h6
            rcases h4 with ⟨h7, -⟩ | ⟨-, -, hm⟩
            · exact absurd h1 h7
            · have := parseVertexE_error.2 ⟨h2.1, hk, hm⟩
              rw [hq] at this
              exact Except.error.inj this
      | ok v =>
        have h2 : ∃ n, DecToken b n := ⟨v, parseVertex_iff.1 (parseVertexE_ok.1 hq)⟩
        simp only [bind, Except.bind, pure, Except.pure, reduceCtorEq, false_iff]
        rintro ⟨hk, ⟨h3, -⟩ | ⟨a', b', h3, h4⟩⟩
        · exact h3 ⟨a, b, h⟩
        · rw [h] at h3
          injection h3 with h5 h6
          injection h6 with h6 _
          subst h5 h6
          rcases h4 with ⟨h7, -⟩ | ⟨-, h7, -⟩
          · exact h7 h1
          · exact h7 h2
  · next h =>
    obtain ⟨k, m⟩ := e
    simp only [Except.error.injEq, tokenError, IoError.mk.injEq, render_eq]
    constructor
    · rintro ⟨rfl, rfl⟩
      exact ⟨rfl, Or.inl ⟨fun ⟨a, b, h'⟩ => h a b h', rfl⟩⟩
    · rintro ⟨rfl, ⟨-, rfl⟩ | ⟨a, b, h', -⟩⟩
      · exact ⟨rfl, rfl⟩
      · exact absurd h' (h a b)

theorem parseVertexLineE_error {t l : List Char} (hl : SameLine t l) {i : ℕ} {e : IoError} :
    parseVertexE (trim l) i = .error e ↔ e.kind = .invalidData ∧ VertexReport t i e.msg := by
  rw [parseVertexE_error, same_trim hl]
  constructor
  · rintro ⟨h1, h2, h3⟩
    exact ⟨h2, _, stripped_trim t, h1, h3⟩
  · rintro ⟨h2, a, ha, h1, h3⟩
    obtain rfl := (stripped_trim t).unique ha
    exact ⟨h1, h2, h3⟩

/-- The common shape of the three reading loops, with line numbers. -/
def runE {σ β : Type} (p : List Char → ℕ → Except IoError β) (step : σ → β → Res σ) :
    ℕ → List (Option (List Char)) → σ → Res (Except IoError σ)
  | _, [], s => .ok (.ok s)
  | _, none :: _, _ => .error .panic
  | i, some l :: ls, s =>
    match p l i with
    | .error e => .ok (.error e)
    | .ok e => do
      let s' ← step s e
      runE p step (i + 1) ls s'

theorem graphFromItemsE_eq (i : ℕ) (is : List (Option (List Char))) (g : EditGraph) :
    graphFromItemsE i is g = runE parseEdgeLineE (fun g e => do let r ← g.addEdge e.1 e.2; return r.1) i is g := by
  induction is generalizing g i with
  | nil => rfl
  | cons x is ih =>
    cases x with
    | none => rfl
    | some l =>
      rw [graphFromItemsE, runE]
      cases parseEdgeLineE l i with
      | error e => rfl
      | ok e =>
        simp only [ih]
        cases g.addEdge e.1 e.2 <;> rfl

theorem vecFromItemsE_eq (i : ℕ) (is : List (Option (List Char))) (us : List ℕ) :
    vecFromItemsE i is us = runE (fun l i => parseVertexE (trim l) i) (fun us u => .ok (us ++ [u])) i is us := by
  induction is generalizing us i with
  | nil => rfl
  | cons x is ih =>
    cases x with
    | none => rfl
    | some l =>
      rw [vecFromItemsE, runE]
      cases parseVertexE (trim l) i with
      | error e => rfl
      | ok e => exact ih _ _

theorem setFromItemsE_eq (i : ℕ) (is : List (Option (List Char))) (us : HSet ℕ) :
    setFromItemsE i is us = runE (fun l i => parseVertexE (trim l) i) (fun us u => .ok (us.insert u)) i is us := by
  induction is generalizing us i with
  | nil => rfl
  | cons x is ih =>
    cases x with
    | none => rfl
    | some l =>
      rw [setFromItemsE, runE]
      cases parseVertexE (trim l) i with
      | error e => rfl
      | ok e => exact ih _ _

/-- Forgetting the reports. -/
theorem runE_run {σ β : Type} {p : List Char → ℕ → Except IoError β} {q : List Char → Option β} {step : σ → β → Res σ}
    (hpq : ∀ l i, (p l i).toOption = q l) (i : ℕ) (is : List (Option (List Char))) (s : σ) :
    (runE p step i is s).map Except.toOption = run q step is s := by
  induction is generalizing s i with
  | nil => rfl
  | cons x is ih =>
    cases x with
    | none => rfl
    | some l =>
      rw [runE, run, ← hpq l i]
      cases p l i with
      | error e => rfl
      | ok e =>
        show Except.map _ (step s e >>= fun s' => runE p step (i + 1) is s') = (step s e >>= fun s' => run q step is s')
        cases step s e with
        | error f => rfl
        | ok s' => exact ih _ _

theorem runE_error {σ β : Type} {p : List Char → ℕ → Except IoError β} {step : σ → β → Res σ} {Line : List Char → β → Prop}
    {Report : List Char → ℕ → List Char → Prop}
    (hok : ∀ t t' i e, SameLine t t' → (p t' i = .ok e ↔ Line t e))
    (herr : ∀ t t' i e, SameLine t t' → (p t' i = .error e ↔ e.kind = .invalidData ∧ Report t i e.msg))
    {I : σ → Prop} (hstep : ∀ s e, I s → ∃ s', step s e = .ok s' ∧ I s') {all : List (List UInt8)}
    {is : List (Option (List Char))} (his : List.Forall₂ ItemOf all is) (br : Bool) {s : σ} (hs : I s) (i : ℕ) (e : IoError) :
    runE p step i (is ++ if br then [none] else []) s = .ok (.error e) ↔ e.kind = .invalidData ∧
      ∃ pre l post t, all = pre ++ l :: post ∧ (∀ x ∈ pre, ∃ e, ByteLine Line x e) ∧ Utf8 l t ∧ Report t (i + pre.length) e.msg := by
  induction his generalizing s i with
  | nil =>
    constructor
    · intro h
      cases br <;> cases h
    · rintro ⟨-, pre, l, post, t, h, -⟩
      cases pre <;> cases h
  | @cons l x all is hx his ih =>
    rcases hx with ⟨t, t', ht, hst, rfl⟩ | ⟨hn, rfl⟩
    · rw [List.cons_append, runE]
      cases hp : p t' i with
      | error e' =>
        have h1 := (herr _ _ _ _ hst).1 hp
        constructor
        · intro h
          cases Except.error.inj (Except.ok.inj h)
          exact ⟨h1.1, [], l, all, t, rfl, by simp, ht, h1.2⟩
        · rintro ⟨hk, pre, l', post, t2, h2, h3, h4, h5⟩
          cases pre with
          | nil =>
            obtain ⟨rfl, -⟩ := List.cons.inj h2
            obtain rfl := utf8_unique h4 ht
            have := (herr _ _ _ _ hst).2 ⟨hk, h5⟩
            rw [List.length_nil, Nat.add_zero, hp] at this
            rw [Except.error.inj this]
          | cons y pre =>
            obtain ⟨rfl, -⟩ := List.cons.inj h2
            obtain ⟨b, t3, h6, h7⟩ := h3 l (by simp)
            obtain rfl := utf8_unique h6 ht
            have := (hok _ _ i _ hst).2 h7
            rw [hp] at this
            cases this
      | ok b =>
        have h1 := (hok _ _ _ _ hst).1 hp
        obtain ⟨s', hs', hI⟩ := hstep s b hs
        simp only [hs', bind_ok]
        rw [ih hI (i + 1)]
        constructor
        · rintro ⟨hk, pre, l', post, t2, h2, h3, h4, h5⟩
          refine ⟨hk, l :: pre, l', post, t2, by rw [h2]; rfl, ?_, h4, ?_⟩
          · intro x hx
            rcases List.mem_cons.1 hx with rfl | hx
            · exact ⟨b, t, ht, h1⟩
            · exact h3 x hx
          · rw [List.length_cons, show i + (pre.length + 1) = i + 1 + pre.length by omega]; exact h5
        · rintro ⟨hk, pre, l', post, t2, h2, h3, h4, h5⟩
          cases pre with
          | nil =>
            obtain ⟨rfl, -⟩ := List.cons.inj h2
            obtain rfl := utf8_unique h4 ht
            have := (herr _ _ _ _ hst).2 ⟨hk, h5⟩
            rw [List.length_nil, Nat.add_zero, hp] at this
            cases this
          | cons y pre =>
            obtain ⟨rfl, h6⟩ := List.cons.inj h2
            refine ⟨hk, pre, l', post, t2, h6, fun x hx => h3 x (by simp [hx]), h4, ?_⟩
            rw [List.length_cons, show i + (pre.length + 1) = i + 1 + pre.length by omega] at h5; exact h5
    · rw [List.cons_append, runE]
      constructor
      · intro h; cases h
      · rintro ⟨hk, pre, l', post, t2, h2, h3, h4, h5⟩
        exfalso
        cases pre with
        | nil =>
          obtain ⟨rfl, -⟩ := List.cons.inj h2
          exact hn ⟨t2, h4⟩
        | cons y pre =>
          obtain ⟨rfl, -⟩ := List.cons.inj h2
          obtain ⟨b, t3, h6, -⟩ := h3 l (by simp)
          exact hn ⟨t3, h6⟩

/-! ## C129 -/

/-- **C129, edge lists.** `EditGraph::from_buf` (and `from_txt`, `from_gzipped`, which use the same loop) returns an error
exactly if the first line that is not well formed is UTF-8.  The error is of kind `InvalidData` and names this line, counting
from 0; it says that the line does not have two tokens or, if it has, quotes the first token that is no vertex id. -/
theorem C129_graph_report (s : Stream) {ls : List (List UInt8)} {r : List UInt8} (h : ByteLines s.data ls r) (e : IoError) :
    graphFromBufE s = .ok (.error e) ↔ e.kind = .invalidData ∧ Reported EdgeLine EdgeReport (delivered s.broken ls r) e.msg := by
  obtain ⟨is, his, hl⟩ := lines_items h
  unfold graphFromBufE Reported
  rw [hl, graphFromItemsE_eq, runE_error (I := fun g : EditGraph => ∃ S, EditGraph.Abs g S) (Line := EdgeLine) (Report := EdgeReport)
    (fun t t' i e hs => by rw [parseEdgeLineE_ok]; exact edge_same t t' e hs) (fun t t' i e hs => parseEdgeLineE_error hs)
    addEdge_step his s.broken ⟨_, EditGraph.abs_new⟩]
  simp only [Nat.zero_add]

/-- **C129, vertex lists.** `Vec<Vertex>::from_buf` reports the first line that is no vertex id, counting from 0, and quotes it
without the whitespace at its ends. -/
theorem C129_vec_report (s : Stream) {ls : List (List UInt8)} {r : List UInt8} (h : ByteLines s.data ls r) (e : IoError) :
    vecFromBufE s = .ok (.error e) ↔ e.kind = .invalidData ∧ Reported VertexLine VertexReport (delivered s.broken ls r) e.msg := by
  obtain ⟨is, his, hl⟩ := lines_items h
  unfold vecFromBufE Reported
  rw [hl, vecFromItemsE_eq, runE_error (I := fun _ : List ℕ => True) (Line := VertexLine) (Report := VertexReport)
    (fun t t' i e hs => by rw [parseVertexE_ok]; exact vertex_same t t' e hs) (fun t t' i e hs => parseVertexLineE_error hs)
    (fun s e _ => ⟨_, rfl, trivial⟩) his s.broken trivial]
  simp only [Nat.zero_add]

/-- **C129, vertex sets.** -/
theorem C129_set_report (s : Stream) {ls : List (List UInt8)} {r : List UInt8} (h : ByteLines s.data ls r) (e : IoError) :
    setFromBufE s = .ok (.error e) ↔ e.kind = .invalidData ∧ Reported VertexLine VertexReport (delivered s.broken ls r) e.msg := by
  obtain ⟨is, his, hl⟩ := lines_items h
  unfold setFromBufE Reported
  rw [hl, setFromItemsE_eq, runE_error (I := fun _ : HSet ℕ => True) (Line := VertexLine) (Report := VertexReport)
    (fun t t' i e hs => by rw [parseVertexE_ok]; exact vertex_same t t' e hs) (fun t t' i e hs => parseVertexLineE_error hs)
    (fun s e _ => ⟨_, rfl, trivial⟩) his s.broken trivial]
  simp only [Nat.zero_add]

/-- **C129, outcomes.** Apart from the reports, the readers are those of C84 – C87. -/
theorem C129_outcomes (s : Stream) : (graphFromBufE s).map Except.toOption = graphFromBuf s ∧
    (vecFromBufE s).map Except.toOption = Files.vecFromBuf s ∧ (setFromBufE s).map Except.toOption = Files.setFromBuf s := by
  have key : ∀ {α : Type} (x : Except IoError α) (y : Option α), (∀ a, x = .ok a ↔ y = some a) → x.toOption = y := by
    intro α x y h
    cases y with
    | some a => rw [(h a).2 rfl]; rfl
    | none =>
      cases x with
      | error e => rfl
      | ok a => exact absurd ((h a).1 rfl) (by simp)
  refine ⟨?_, ?_, ?_⟩
  · unfold graphFromBufE graphFromBuf
    rw [graphFromItemsE_eq, graphFromItems_eq]
    exact runE_run (p := parseEdgeLineE) (fun l i => key (parseEdgeLineE l i) _ fun a => parseEdgeLineE_ok) _ _ _
  · unfold vecFromBufE Files.vecFromBuf
    rw [vecFromItemsE_eq, vecFromItems_eq]
    exact runE_run (p := fun l i => parseVertexE (trim l) i) (fun l i => key (parseVertexE (trim l) i) _ fun a => parseVertexE_ok) _ _ _
  · unfold setFromBufE Files.setFromBuf
    rw [setFromItemsE_eq, setFromItems_eq]
    exact runE_run (p := fun l i => parseVertexE (trim l) i) (fun l i => key (parseVertexE (trim l) i) _ fun a => parseVertexE_ok) _ _ _

/-- **C129, files.** A missing file is reported by the operating system.  `from_file` reports an error of kind `InvalidInput`, quoting
the file name, exactly for names without the extensions `.txt` and `.gz`; then the file is not opened.  In all other cases the
result is that of `from_buf` on the contents. -/
theorem C129_files (C : Codec) (dbg : List Char → List Char) {α : Type} (ld : Stream → Res (Except IoError α)) (fs : Store)
    {p n : List Char} (hn : NamedFile p n) (h0 : n ≠ []) (h1 : n ≠ ['.']) :
    (∀ b, fs p = some b → fromTxtE ld fs p = ld ⟨b, false⟩ ∧ fromGzippedE C ld fs p = ld (C.gunzip b)) ∧
    (fs p = none → fromTxtE ld fs p = .ok (.error osError) ∧ fromGzippedE C ld fs p = .ok (.error osError)) ∧
    ((∃ stem, stem ≠ [] ∧ n = stem ++ ['.', 't', 'x', 't']) → fromFileE C dbg ld fs p = fromTxtE ld fs p) ∧
    ((∃ stem, stem ≠ [] ∧ n = stem ++ ['.', 'g', 'z']) → fromFileE C dbg ld fs p = fromGzippedE C ld fs p) ∧
    ((¬ ∃ stem, stem ≠ [] ∧ (n = stem ++ ['.', 't', 'x', 't'] ∨ n = stem ++ ['.', 'g', 'z'])) →
      fromFileE C dbg ld fs p = .ok (.error ⟨.invalidInput, "Invalid file `".toList ++ dbg p ++
        "`. The supported formats are `.txt.gz` and `.txt`.".toList⟩)) := by
  refine ⟨fun b hb => ?_, fun hb => ?_, ?_, ?_, fun h => ?_⟩
  · unfold fromTxtE fromGzippedE openE
    rw [hb]; exact ⟨rfl, rfl⟩
  · unfold fromTxtE fromGzippedE openE
    rw [hb]; exact ⟨rfl, rfl⟩
  · rintro ⟨stem, hs, rfl⟩
    unfold fromFileE openReaderE fromTxtE
    rw [ext_txt ⟨stem, hs, hn⟩]
    rfl
  · rintro ⟨stem, hs, rfl⟩
    unfold fromFileE openReaderE fromGzippedE
    rw [ext_gz ⟨stem, hs, hn⟩]
    rfl
  · unfold fromFileE openReaderE
    split
    · next he =>
      obtain ⟨stem, hs, e, -⟩ := (extension_iff hn h0 h1 (by simp)).1 he
      exact absurd ⟨stem, hs, Or.inl e⟩ h
    · next he =>
      obtain ⟨stem, hs, e, -⟩ := (extension_iff hn h0 h1 (by simp)).1 he
      exact absurd ⟨stem, hs, Or.inr e⟩ h
    · rfl

/-! ## Examples -/

/-- `"0 1\n2 x\n"`: the report is about line 1, the second line. -/
example : ByteLines [48, 32, 49, 10, 50, 32, 120, 10] [[48, 32, 49], [50, 32, 120]] [] ∧
    Reported EdgeLine EdgeReport (delivered false [[48, 32, 49], [50, 32, 120]] [])
      "Cannot parse vertex id x at input line 1".toList := by
  refine ⟨.line (l := [48, 32, 49]) (by decide) (.line (l := [50, 32, 120]) (by decide) (.rest (by decide))),
    [[48, 32, 49]], [50, 32, 120], [], ['2', ' ', 'x'], rfl, ?_, by unfold Utf8; decide,
    Or.inr ⟨['2'], ['x'], tokens_two.1 (by decide), Or.inr ⟨⟨2, parseVertex_iff.1 (by decide)⟩, parseVertex_none.1 (by decide),
      by decide⟩⟩⟩
  simp only [List.mem_singleton, forall_eq]
  exact ⟨(0, 1), ['0', ' ', '1'], by unfold Utf8; decide, parseEdgeLine_iff.1 (by decide)⟩

/-- A blank first line is reported as line 0. -/
example : (graphFromBufE ⟨[10], false⟩).map (fun r => match r with | .error e => e.msg | .ok _ => []) =
    .ok "Line 0 does not contain two tokens".toList := by decide +kernel

/-- A line with two vertices of a vertex list is quoted as a whole. -/
example : vecFromBufE ⟨[49, 10, 32, 50, 32, 51, 13, 10], false⟩ =
    .ok (.error ⟨.invalidData, "Cannot parse vertex id 2 3 at input line 1".toList⟩) := by decide +kernel

example : NamedFile ['d', '/', 'a', '.', 'c', 's', 'v'] ['a', '.', 'c', 's', 'v'] := ⟨by decide, Or.inr ⟨['d'], rfl⟩⟩

end Verif
