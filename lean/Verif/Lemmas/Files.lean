import Verif.Model.Files
import Verif.Spec.Bytes
import Verif.Lemmas.IO
/-! # Lemmas about the byte-level readers and the files -/
namespace Verif.Files
open Verif.IO

/-! ### UTF-8 -/

theorem encode_toByteArray (t : List Char) : ByteArray.mk (encode t).toArray = t.utf8Encode := by
  unfold List.utf8Encode
  apply ByteArray.ext
  rw [List.data_toByteArray]
  rfl

theorem decode_encode (t : List Char) : decode (encode t) = some t := by
  unfold decode
  rw [encode_toByteArray, List.utf8Decode?_utf8Encode]
  simp

theorem decode_iff {b : Bytes} {t : List Char} : decode b = some t ↔ Utf8 b t := by
  constructor
  · intro h
    unfold decode at h
    rw [Option.map_eq_some_iff] at h
    obtain ⟨a, ha, rfl⟩ := h
    have h1 := @ByteArray.utf8Encode_get_utf8Decode? (ByteArray.mk b.toArray) (by rw [ha]; rfl)
    simp only [ha, Option.get_some] at h1
    rw [← encode_toByteArray] at h1
    have h2 := congrArg (fun x : ByteArray => x.data.toList) h1
    show b = _
    simpa [encode] using h2.symm
  · rintro rfl
    exact decode_encode t

theorem decode_none {b : Bytes} : decode b = none ↔ ¬ ∃ t, Utf8 b t := by
  rw [Option.eq_none_iff_forall_not_mem]
  constructor
  · rintro h ⟨t, ht⟩; exact h t (decode_iff.2 ht)
  · intro h t ht; exact h ⟨t, decode_iff.1 ht⟩

theorem encode_append (s t : List Char) : encode (s ++ t) = encode s ++ encode t := by simp [encode]

theorem encode_cons (c : Char) (t : List Char) : encode (c :: t) = String.utf8EncodeChar c ++ encode t := rfl

theorem encode_nl : String.utf8EncodeChar '\n' = [10] := by decide

/-- The newline byte occurs only in the encoding of the newline. -/
theorem nl_not_mem {c : Char} (hc : c ≠ '\n') : 10 ∉ String.utf8EncodeChar c := by
  have key : ∀ n, n % 256 ≠ 10 → (10 : UInt8) ≠ UInt8.ofNat n := by
    intro n hn h
    have := congrArg UInt8.toNat h
    simp at this
    omega
  have hv : c.val.toNat ≠ 10 := by
    intro h
    apply hc
    apply Char.ext
    apply UInt32.toNat_inj.1
    rw [h]; decide
  unfold String.utf8EncodeChar
  simp only
  split
  · simp only [List.mem_singleton]
    exact key _ (by omega)
  · split
    · simp only [List.mem_cons, List.not_mem_nil, or_false, not_or]
      exact ⟨key _ (by omega), key _ (by omega)⟩
    · split
      · simp only [List.mem_cons, List.not_mem_nil, or_false, not_or]
        exact ⟨key _ (by omega), key _ (by omega), key _ (by omega)⟩
      · simp only [List.mem_cons, List.not_mem_nil, or_false, not_or]
        exact ⟨key _ (by omega), key _ (by omega), key _ (by omega), key _ (by omega)⟩

theorem nl_not_mem_encode {t : List Char} (ht : '\n' ∉ t) : 10 ∉ encode t := by
  intro h
  obtain ⟨c, hc, h⟩ := List.mem_flatMap.1 h
  exact nl_not_mem (fun e => ht (e ▸ hc)) h

theorem encode_eq_nil {t : List Char} : encode t = [] ↔ t = [] := by
  constructor
  · intro h
    have := decode_encode t
    rw [h, show decode [] = some [] from decode_encode []] at this
    exact (Option.some.inj this).symm
  · rintro rfl; rfl

/-! ### Lines -/

theorem linesAux_word {l : Bytes} (hl : 10 ∉ l) (br : Bool) (acc t : Bytes) :
    linesAux br acc (l ++ t) = linesAux br (l.reverse ++ acc) t := by
  induction l generalizing acc with
  | nil => rfl
  | cons c l ih =>
    have hc : c ≠ 10 := by rintro rfl; simp at hl
    rw [List.cons_append, linesAux, if_neg hc, ih (fun h => hl (by simp [h]))]
    simp

theorem readLine_nl (t : List Char) : readLine (encode t ++ [10]) = some (stripCR t.reverse) := by
  have : encode t ++ [10] = encode (t ++ ['\n']) := by rw [encode_append]; rfl
  unfold readLine
  rw [this, decode_encode]
  simp [chomp]

theorem readLine_last {t : List Char} (ht : '\n' ∉ t) : readLine (encode t) = some t := by
  unfold readLine
  rw [decode_encode]
  simp only [Option.map_some, Option.some.injEq]
  unfold chomp
  split
  · next h => exact absurd (by rw [← List.mem_reverse, h]; simp) ht
  · simp

theorem linesAux_encode (t : List Char) : ∀ acc : List Char, '\n' ∉ acc →
    linesAux false (encode acc).reverse (encode t) = (IO.linesAux acc.reverse t).map some := by
  induction t with
  | nil =>
    intro acc ha
    rw [show encode [] = [] from rfl, linesAux, IO.linesAux]
    simp only [Bool.false_eq_true, if_false, List.reverse_eq_nil_iff, encode_eq_nil, List.reverse_reverse]
    split
    · rfl
    · simp [readLine_last ha]
  | cons c t ih =>
    intro acc ha
    rw [encode_cons, IO.linesAux]
    by_cases hc : c = '\n'
    · subst hc
      rw [encode_nl, List.singleton_append, linesAux, if_pos rfl, if_pos rfl, List.map_cons]
      rw [show (10 :: (encode acc).reverse).reverse = encode acc ++ [10] by simp, readLine_nl]
      congr 1
      exact ih [] (by simp)
    · rw [if_neg hc, linesAux_word (nl_not_mem hc), ← List.reverse_append]
      have e : encode acc ++ String.utf8EncodeChar c = encode (acc ++ [c]) := by
        rw [encode_append, encode_cons]; simp [encode]
      rw [e, ih (acc ++ [c]) (by simp only [List.mem_append, List.mem_singleton, not_or]; exact ⟨ha, fun h => hc h.symm⟩)]
      simp

theorem lines_encode (t : List Char) : lines ⟨encode t, false⟩ = (IO.lines t).map some :=
  linesAux_encode t [] (by simp)

/-- The last item of `BufRead::lines`. -/
def lastItem (br : Bool) (r : Bytes) : List (Option (List Char)) :=
  if br then [none] else if r = [] then [] else [readLine r]

theorem lines_of_bytes {b : Bytes} {ls : List Bytes} {r : Bytes} (h : ByteLines b ls r) (br : Bool) :
    lines ⟨b, br⟩ = ls.map (fun l => readLine (l ++ [10])) ++ lastItem br r := by
  unfold lines
  induction h with
  | @rest r h =>
    have := linesAux_word h br [] []
    simp only [List.append_nil] at this
    simp only [List.map_nil, List.nil_append]
    rw [this, linesAux, lastItem]
    simp
  | @line l t r ls hn h ih =>
    simp only at ih ⊢
    rw [linesAux_word hn, List.append_nil, linesAux, if_pos rfl, ih]
    simp

theorem byteLines_exists (b : Bytes) : ∃ ls r, ByteLines b ls r := by
  induction b with
  | nil => exact ⟨[], [], .rest (by simp)⟩
  | cons x b ih =>
    obtain ⟨ls, r, h⟩ := ih
    by_cases hx : x = 10
    · subst hx
      exact ⟨[] :: ls, r, .line (l := []) (by simp) h⟩
    · cases h with
      | rest hr => exact ⟨[], x :: b, .rest (by simp [hr, Ne.symm hx])⟩
      | @line l t r ls hn h => exact ⟨(x :: l) :: ls, r, .line (l := x :: l) (by simp [hn, Ne.symm hx]) h⟩

/-- What the item `i` of `BufRead::lines` says about the bytes `l` of a line. -/
def ItemOf (l : Bytes) (i : Option (List Char)) : Prop :=
  (∃ t t', Utf8 l t ∧ SameLine t t' ∧ i = some t') ∨ ((¬ ∃ t, Utf8 l t) ∧ i = none)

theorem utf8_snoc_nl {l : Bytes} : (∃ t, Utf8 (l ++ [10]) t) → ∃ t, Utf8 l t := by
  rintro ⟨t, ht⟩
  have h : l ++ [10] = encode t := ht
  rcases List.eq_nil_or_concat t with rfl | ⟨s, c, rfl⟩
  · simp [encode] at h
  · rw [List.concat_eq_append, encode_append] at h
    have e : encode [c] = String.utf8EncodeChar c := by simp [encode]
    rw [e] at h
    by_cases hc : c = '\n'
    · subst hc
      rw [encode_nl] at h
      exact ⟨s, List.append_cancel_right h⟩
    · exfalso
      rcases List.eq_nil_or_concat (String.utf8EncodeChar c) with h0 | ⟨m, x, hx⟩
      · have := encode_eq_nil (t := [c]); rw [e, h0] at this; simp at this
      · rw [hx, List.concat_eq_append, ← List.append_assoc] at h
        have h3 := List.append_inj_right' h rfl
        have : (10 : UInt8) ∈ String.utf8EncodeChar c := by rw [hx]; simp at h3; simp [h3]
        exact nl_not_mem hc this

theorem itemOf_line {l : Bytes} : ItemOf l (readLine (l ++ [10])) := by
  by_cases h : ∃ t, Utf8 l t
  · obtain ⟨t, ht⟩ := h
    refine Or.inl ⟨t, stripCR t.reverse, ht, ?_, ?_⟩
    · unfold stripCR
      split
      · next r hr =>
        right
        have := congrArg List.reverse hr
        simpa using this
      · left; simp
    · have : l = encode t := ht
      rw [this, readLine_nl]
  · refine Or.inr ⟨h, ?_⟩
    unfold readLine
    rw [decode_none.2 (fun h' => h (utf8_snoc_nl h'))]
    rfl

theorem itemOf_rest {l : Bytes} (hl : 10 ∉ l) : ItemOf l (readLine l) := by
  by_cases h : ∃ t, Utf8 l t
  · obtain ⟨t, ht⟩ := h
    have hl' : l = encode t := ht
    have hn : '\n' ∉ t := by
      intro hm
      apply hl
      rw [hl']
      exact List.mem_flatMap.2 ⟨_, hm, by rw [encode_nl]; simp⟩
    exact Or.inl ⟨t, t, ht, Or.inl rfl, by rw [hl', readLine_last hn]⟩
  · refine Or.inr ⟨h, ?_⟩
    unfold readLine
    rw [decode_none.2 h]
    rfl

theorem _root_.Verif.ByteLines.rest_nl {b : Bytes} {ls : List Bytes} {r : Bytes} (h : ByteLines b ls r) : 10 ∉ r := by
  induction h with
  | rest h => exact h
  | line _ _ ih => exact ih

/-! ### The reading loops -/

/-- The common shape of the three reading loops. -/
def run {σ β : Type} (p : List Char → Option β) (step : σ → β → Res σ) :
    List (Option (List Char)) → σ → Res (Option σ)
  | [], s => .ok (some s)
  | none :: _, _ => .error .panic
  | some l :: ls, s =>
    match p l with
    | none => .ok none
    | some e => do
      let s' ← step s e
      run p step ls s'

theorem graphFromItems_eq (is : List (Option (List Char))) (g : EditGraph) :
    graphFromItems is g = run parseEdgeLine (fun g e => do let r ← g.addEdge e.1 e.2; return r.1) is g := by
  induction is generalizing g with
  | nil => rfl
  | cons i is ih =>
    cases i with
    | none => rfl
    | some l =>
      rw [graphFromItems, run]
      cases parseEdgeLine l with
      | none => rfl
      | some e => simp only [bind_assoc, pure_bind, ih]

theorem vecFromItems_eq (is : List (Option (List Char))) (g : List ℕ) :
    vecFromItems is g = run (fun l => parseVertex (trim l)) (fun g u => .ok (g ++ [u])) is g := by
  induction is generalizing g with
  | nil => rfl
  | cons i is ih =>
    cases i with
    | none => rfl
    | some l =>
      rw [vecFromItems, run]
      cases parseVertex (trim l) with
      | none => rfl
      | some e => simp only [bind_ok, ih]

theorem setFromItems_eq (is : List (Option (List Char))) (g : HSet ℕ) :
    setFromItems is g = run (fun l => parseVertex (trim l)) (fun g u => .ok (g.insert u)) is g := by
  induction is generalizing g with
  | nil => rfl
  | cons i is ih =>
    cases i with
    | none => rfl
    | some l =>
      rw [setFromItems, run]
      cases parseVertex (trim l) with
      | none => rfl
      | some e => simp only [bind_ok, ih]

section run
variable {σ β : Type} {p : List Char → Option β} {step : σ → β → Res σ} {Line : List Char → β → Prop}
  {I : σ → Prop}

theorem utf8_unique {l : Bytes} {t t' : List Char} (h : Utf8 l t) (h' : Utf8 l t') : t = t' := by
  rw [← decode_iff] at h h'
  rw [h] at h'; exact Option.some.inj h'

theorem item_good (hp : ∀ t t' e, SameLine t t' → (p t' = some e ↔ Line t e)) {l : Bytes} {i : Option (List Char)} {e : β}
    (hi : ItemOf l i) (h : ByteLine Line l e) : ∃ t', i = some t' ∧ p t' = some e := by
  obtain ⟨t, ht, hl⟩ := h
  rcases hi with ⟨s, s', hs, hss, rfl⟩ | ⟨h, -⟩
  · obtain rfl := utf8_unique ht hs
    exact ⟨s', rfl, (hp _ _ _ hss).2 hl⟩
  · exact absurd ⟨t, ht⟩ h

theorem run_good (hp : ∀ t t' e, SameLine t t' → (p t' = some e ↔ Line t e)) {all : List Bytes}
    {is : List (Option (List Char))} (his : List.Forall₂ ItemOf all is) {es : List β}
    (hes : List.Forall₂ (ByteLine Line) all es) (fin : List (Option (List Char))) (s : σ) :
    run p step (is ++ fin) s = es.foldlM step s >>= run p step fin := by
  induction hes generalizing is s with
  | nil => cases his; rfl
  | @cons l e all es h1 _ ih =>
    cases his with
    | @cons _ i _ is hi his =>
    obtain ⟨t', rfl, ht'⟩ := item_good hp hi h1
    rw [List.cons_append, run, ht', List.foldlM_cons, bind_assoc]
    simp only [ih his]

theorem all_good {all : List Bytes} (h : ∀ l ∈ all, ∃ e, ByteLine Line l e) : ∃ es, List.Forall₂ (ByteLine Line) all es := by
  induction all with
  | nil => exact ⟨[], .nil⟩
  | cons l all ih =>
    obtain ⟨e, he⟩ := h l (by simp)
    obtain ⟨es, hes⟩ := ih (fun x hx => h x (by simp [hx]))
    exact ⟨e :: es, .cons he hes⟩

theorem foldlM_total (hstep : ∀ s e, I s → ∃ s', step s e = .ok s' ∧ I s') (es : List β) {s : σ} (hs : I s) :
    ∃ s', es.foldlM step s = .ok s' ∧ I s' := by
  induction es generalizing s with
  | nil => exact ⟨s, rfl, hs⟩
  | cons e es ih =>
    obtain ⟨s', h', hs'⟩ := hstep s e hs
    obtain ⟨s'', h'', hs''⟩ := ih hs'
    exact ⟨s'', by rw [List.foldlM_cons, h', bind_ok, h''], hs''⟩

theorem trichotomy (Line : List Char → β → Prop) (all : List Bytes) : (∀ l ∈ all, ∃ e, ByteLine Line l e) ∨
    FirstBad Line all (fun l => ¬ ∃ t, Utf8 l t) ∨ FirstBad Line all (fun l => ∃ t, Utf8 l t) := by
  induction all with
  | nil => left; simp
  | cons l all ih =>
    by_cases hu : ∃ t, Utf8 l t
    · obtain ⟨t, ht⟩ := hu
      by_cases he : ∃ e, Line t e
      · obtain ⟨e, he⟩ := he
        have hg : ∃ e, ByteLine Line l e := ⟨e, t, ht, he⟩
        rcases ih with h | ⟨pre, m, post, rfl, h1, h2⟩ | ⟨pre, m, post, rfl, h1, h2⟩
        · left
          intro x hx
          rcases List.mem_cons.1 hx with rfl | hx
          · exact hg
          · exact h x hx
        · refine Or.inr (Or.inl ⟨l :: pre, m, post, rfl, fun x hx => ?_, h2⟩)
          rcases List.mem_cons.1 hx with rfl | hx
          · exact hg
          · exact h1 x hx
        · refine Or.inr (Or.inr ⟨l :: pre, m, post, rfl, fun x hx => ?_, h2⟩)
          rcases List.mem_cons.1 hx with rfl | hx
          · exact hg
          · exact h1 x hx
      · exact Or.inr (Or.inr ⟨[], l, all, rfl, by simp, fun e ⟨t', ht', h⟩ => he ⟨e, utf8_unique ht ht' ▸ h⟩, t, ht⟩)
    · exact Or.inr (Or.inl ⟨[], l, all, rfl, by simp, fun e ⟨t', ht', _⟩ => hu ⟨t', ht'⟩, hu⟩)

theorem run_first (hp : ∀ t t' e, SameLine t t' → (p t' = some e ↔ Line t e))
    (hstep : ∀ s e, I s → ∃ s', step s e = .ok s' ∧ I s') {all : List Bytes}
    {is : List (Option (List Char))} (his : List.Forall₂ ItemOf all is) (fin : List (Option (List Char))) {s : σ}
    (hs : I s) {P : Bytes → Prop} (h : FirstBad Line all P) :
    ∃ l i is' s', ((∀ e, ¬ ByteLine Line l e) ∧ P l) ∧ ItemOf l i ∧ run p step (is ++ fin) s = run p step (i :: is') s' := by
  obtain ⟨pre, l, post, rfl, h1, h2⟩ := h
  obtain ⟨es, hes⟩ := all_good h1
  obtain ⟨is1, is2, h3, h4, rfl⟩ : ∃ is1 is2, List.Forall₂ ItemOf pre is1 ∧ List.Forall₂ ItemOf (l :: post) is2 ∧
      is = is1 ++ is2 := by
    clear hes h1
    induction pre generalizing is with
    | nil => exact ⟨[], is, .nil, his, rfl⟩
    | cons x pre ih =>
      cases his with
      | @cons _ i _ is hi his =>
      obtain ⟨is1, is2, h3, h4, rfl⟩ := ih his
      exact ⟨i :: is1, is2, .cons hi h3, h4, rfl⟩
  cases h4 with
  | @cons _ i _ is' hi his' =>
  obtain ⟨s', hs', -⟩ := foldlM_total hstep es hs
  refine ⟨l, i, is' ++ fin, s', h2, hi, ?_⟩
  rw [List.append_assoc, run_good hp h3 hes, hs', bind_ok]
  rfl

theorem run_spec (hp : ∀ t t' e, SameLine t t' → (p t' = some e ↔ Line t e))
    (hstep : ∀ s e, I s → ∃ s', step s e = .ok s' ∧ I s') {all : List Bytes}
    {is : List (Option (List Char))} (his : List.Forall₂ ItemOf all is) (br : Bool) {s : σ} (hs : I s) :
    (run p step (is ++ if br then [none] else []) s = .error .panic ↔
      FirstBad Line all (fun l => ¬ ∃ t, Utf8 l t) ∨ (br = true ∧ ∀ l ∈ all, ∃ e, ByteLine Line l e)) ∧
    (run p step (is ++ if br then [none] else []) s = .ok none ↔
      FirstBad Line all (fun l => ∃ t, Utf8 l t)) ∧
    ((∃ s', run p step (is ++ if br then [none] else []) s = .ok (some s')) ↔
      br = false ∧ ∀ l ∈ all, ∃ e, ByteLine Line l e) := by
  set R := run p step (is ++ if br then [none] else []) s with hR
  have hA : FirstBad Line all (fun l => ¬ ∃ t, Utf8 l t) → R = .error .panic := by
    intro h
    obtain ⟨l, i, is', s', ⟨-, h1⟩, h2, h3⟩ := run_first hp hstep his (if br then [none] else []) hs h
    rw [hR, h3]
    rcases h2 with ⟨t, -, ht, -⟩ | ⟨-, rfl⟩
    · exact absurd ⟨t, ht⟩ h1
    · rfl
  have hB : FirstBad Line all (fun l => ∃ t, Utf8 l t) → R = .ok none := by
    intro h
    obtain ⟨l, i, is', s', ⟨hn, t, ht⟩, h2, h3⟩ := run_first hp hstep his (if br then [none] else []) hs h
    rw [hR, h3]
    rcases h2 with ⟨u, u', hu, huu, rfl⟩ | ⟨h', -⟩
    · obtain rfl := utf8_unique ht hu
      have : p u' = none := by
        rw [Option.eq_none_iff_forall_not_mem]
        intro e he
        exact hn e ⟨_, ht, (hp _ _ _ huu).1 he⟩
      rw [run, this]
    · exact absurd ⟨t, ht⟩ h'
  have hC : (∀ l ∈ all, ∃ e, ByteLine Line l e) → br = true → R = .error .panic := by
    intro h hbr
    obtain ⟨es, hes⟩ := all_good h
    obtain ⟨s', hs', -⟩ := foldlM_total hstep es hs
    rw [hR, run_good hp his hes, hs', bind_ok, hbr]
    rfl
  have hD : (∀ l ∈ all, ∃ e, ByteLine Line l e) → br = false → ∃ s', R = .ok (some s') := by
    intro h hbr
    obtain ⟨es, hes⟩ := all_good h
    obtain ⟨s', hs', -⟩ := foldlM_total hstep es hs
    rw [hR, run_good hp his hes, hs', bind_ok, hbr]
    exact ⟨s', rfl⟩
  have hbr : br = true ∨ br = false := by cases br <;> simp
  refine ⟨⟨fun h => ?_, ?_⟩, ⟨fun h => ?_, hB⟩, ⟨?_, fun h => hD h.2 h.1⟩⟩
  · rcases trichotomy Line all with h' | h' | h'
    · rcases hbr with hbr | hbr
      · exact Or.inr ⟨hbr, h'⟩
      · obtain ⟨s', hs'⟩ := hD h' hbr
        rw [hs'] at h; cases h
    · exact Or.inl h'
    · rw [hB h'] at h; cases h
  · rintro (h | ⟨h, h'⟩)
    · exact hA h
    · exact hC h' h
  · rcases trichotomy Line all with h' | h' | h'
    · rcases hbr with hbr | hbr
      · rw [hC h' hbr] at h; cases h
      · obtain ⟨s', hs'⟩ := hD h' hbr
        rw [hs'] at h; cases h
    · rw [hA h'] at h; cases h
    · exact h'
  · rintro ⟨s', h⟩
    rcases trichotomy Line all with h' | h' | h'
    · rcases hbr with hbr | hbr
      · rw [hC h' hbr] at h; cases h
      · exact ⟨hbr, h'⟩
    · rw [hA h'] at h; cases h
    · rw [hB h'] at h; cases h

end run

/-- All items of a stream: one for each delivered line, and an error at the end of a broken stream. -/
theorem lines_items {s : Stream} {ls : List Bytes} {r : Bytes} (h : ByteLines s.data ls r) :
    ∃ is, List.Forall₂ ItemOf (delivered s.broken ls r) is ∧ lines s = is ++ if s.broken then [none] else [] := by
  obtain ⟨b, br⟩ := s
  simp only at h ⊢
  have key : ∀ ls : List Bytes, List.Forall₂ ItemOf ls (ls.map (fun l => readLine (l ++ [10]))) := by
    intro ls
    induction ls with
    | nil => exact .nil
    | cons l ls ih => exact .cons itemOf_line ih
  rw [lines_of_bytes h, lastItem]
  unfold delivered
  cases br with
  | true => exact ⟨_, by rw [if_pos (Or.inl rfl)]; exact key ls, by simp⟩
  | false =>
    by_cases hr : r = []
    · exact ⟨_, by rw [if_pos (Or.inr hr)]; exact key ls, by simp [hr]⟩
    · refine ⟨ls.map (fun l => readLine (l ++ [10])) ++ [readLine r], ?_, by simp [hr]⟩
      simp only [hr, or_false, Bool.false_eq_true, if_false]
      exact List.rel_append (key ls) (.cons (itemOf_rest h.rest_nl) .nil)

/-! ### Extensions -/

theorem splitAux_word {sep : Char} {l : List Char} (hl : sep ∉ l) (acc t : List Char) :
    splitAux sep acc (l ++ t) = splitAux sep (l.reverse ++ acc) t := by
  induction l generalizing acc with
  | nil => rfl
  | cons c l ih =>
    have hc : c ≠ sep := by rintro rfl; simp at hl
    rw [List.cons_append, splitAux, if_neg hc, ih (fun h => hl (by simp [h]))]
    simp

theorem splitAux_last {sep : Char} {n : List Char} (hn : sep ∉ n) (d acc : List Char) :
    ∃ X, splitAux sep acc (d ++ sep :: n) = X ++ [n] := by
  induction d generalizing acc with
  | nil =>
    refine ⟨[acc.reverse], ?_⟩
    have := splitAux_word hn [] []
    rw [List.append_nil, List.append_nil] at this
    rw [List.nil_append, splitAux, if_pos rfl, this, splitAux]
    simp
  | cons c d ih =>
    rw [List.cons_append, splitAux]
    split
    · obtain ⟨X, hX⟩ := ih []
      exact ⟨acc.reverse :: X, by rw [hX]; rfl⟩
    · exact ih (c :: acc)

theorem fileName_of {p n : List Char} (h : NamedFile p n) (h0 : n ≠ []) (h1 : n ≠ ['.']) :
    fileName p = if n = ['.', '.'] then none else some n := by
  have key : ∃ X, splitAux '/' [] p = X ++ [n] := by
    obtain ⟨hn, rfl | ⟨d, rfl⟩⟩ := h
    · refine ⟨[], ?_⟩
      have := splitAux_word hn [] []
      rw [List.append_nil, List.append_nil] at this
      rw [this, splitAux]; simp
    · exact splitAux_last hn d []
  obtain ⟨X, hX⟩ := key
  unfold fileName components
  rw [hX, List.filter_append]
  simp [h0, h1]

theorem extAux_dot {w : List Char} (hw : '.' ∉ w) (acc t : List Char) :
    extAux acc (w ++ '.' :: t) = if t = [] then none else some (w.reverse ++ acc) := by
  induction w generalizing acc with
  | nil => simp [extAux]
  | cons c w ih =>
    have hc : c ≠ '.' := by rintro rfl; simp at hw
    rw [List.cons_append, extAux, if_neg hc, ih (fun h => hw (by simp [h]))]
    simp

theorem extAux_none {w : List Char} (hw : '.' ∉ w) (acc : List Char) : extAux acc w = none := by
  induction w generalizing acc with
  | nil => rfl
  | cons c w ih =>
    have hc : c ≠ '.' := by rintro rfl; simp at hw
    rw [extAux, if_neg hc, ih (fun h => hw (by simp [h]))]

theorem exists_last_dot {n : List Char} (h : '.' ∈ n) : ∃ stem x, n = stem ++ '.' :: x ∧ '.' ∉ x := by
  induction n with
  | nil => simp at h
  | cons c n ih =>
    by_cases hn : '.' ∈ n
    · obtain ⟨stem, x, rfl, hx⟩ := ih hn
      exact ⟨c :: stem, x, rfl, hx⟩
    · rcases List.mem_cons.1 h with rfl | h
      · exact ⟨[], n, rfl, hn⟩
      · exact absurd h hn

theorem extAux_iff {n x : List Char} :
    extAux [] n.reverse = some x ↔ ∃ stem, stem ≠ [] ∧ n = stem ++ '.' :: x ∧ '.' ∉ x := by
  have key : ∀ stem x : List Char, '.' ∉ x →
      extAux [] (stem ++ '.' :: x).reverse = if stem = [] then none else some x := by
    intro stem x hx
    have := extAux_dot (w := x.reverse) (by simpa using hx) [] stem.reverse
    simpa using this
  constructor
  · intro h
    by_cases hd : '.' ∈ n
    · obtain ⟨stem, y, rfl, hy⟩ := exists_last_dot hd
      rw [key stem y hy] at h
      split at h
      · cases h
      · next hs => cases h; exact ⟨stem, hs, rfl, hy⟩
    · rw [extAux_none (by simpa using hd)] at h; cases h
  · rintro ⟨stem, hs, rfl, hx⟩
    rw [key stem x hx, if_neg hs]

theorem extension_iff {p n x : List Char} (h : NamedFile p n) (h0 : n ≠ []) (h1 : n ≠ ['.']) (hx : x ≠ []) :
    extension p = some x ↔ ∃ stem, stem ≠ [] ∧ n = stem ++ '.' :: x ∧ '.' ∉ x := by
  unfold extension
  rw [fileName_of h h0 h1]
  by_cases h2 : n = ['.', '.']
  · subst h2
    simp only [if_true]
    constructor
    · intro h; cases h
    · rintro ⟨stem, hs, he, hd⟩
      rcases stem with _ | ⟨a, _ | ⟨b, stem⟩⟩
      · exact absurd rfl hs
      · simp at he; exact absurd he.2 hx
      · simp at he
  · rw [if_neg h2]
    exact extAux_iff

end Verif.Files
