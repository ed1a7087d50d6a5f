import Mathlib.Data.Nat.Digits.Defs
import Verif.Model.EditGraph
/-!
# Model of `/repo/src/io.rs`

Texts are lists of characters (i.e. valid UTF-8; on invalid UTF-8 the code panics in `line.unwrap()`).
Files, buffering, gzip and the capacity estimates are not modelled.  An `io::Error` result is `none`.
-/
namespace Verif.IO

/-- `char::is_whitespace` (Unicode `White_Space`), used by `str::split_whitespace` and `str::trim`. -/
def isWs (c : Char) : Bool :=
  (9 ≤ c.toNat && c.toNat ≤ 13) || c.toNat == 0x20 || c.toNat == 0x85 || c.toNat == 0xA0 || c.toNat == 0x1680 ||
    (0x2000 ≤ c.toNat && c.toNat ≤ 0x200A) || c.toNat == 0x2028 || c.toNat == 0x2029 || c.toNat == 0x202F ||
    c.toNat == 0x205F || c.toNat == 0x3000

/-- Drop one `\r` at the end of a line (`rev` is the line, reversed), as `BufRead::lines` does. -/
def stripCR (rev : List Char) : List Char :=
  match rev with
  | '\r' :: rev' => rev'.reverse
  | _ => rev.reverse

/-- `BufRead::lines` (used in `/repo/src/io.rs:55, 78, 116, 186`): split at `\n`, drop one `\r` before it.
`acc` is the current line, reversed. -/
def linesAux (acc : List Char) : List Char → List (List Char)
  | [] => if acc = [] then [] else [acc.reverse]
  | c :: t =>
    if c = '\n' then stripCR acc :: linesAux [] t
    else linesAux (c :: acc) t

/-- `BufRead::lines`. -/
def lines (t : List Char) : List (List Char) := linesAux [] t

/-- `str::split_whitespace` (`/repo/src/io.rs:118, 188`).  `acc` is the current token, reversed. -/
def tokensAux (acc : List Char) : List Char → List (List Char)
  | [] => if acc = [] then [] else [acc.reverse]
  | c :: t =>
    if isWs c then (if acc = [] then tokensAux [] t else acc.reverse :: tokensAux [] t)
    else tokensAux (c :: acc) t

/-- `str::split_whitespace`. -/
def tokens (l : List Char) : List (List Char) := tokensAux [] l

/-- `str::trim` (`/repo/src/io.rs:57, 80`). -/
def trim (l : List Char) : List Char := ((l.dropWhile isWs).reverse.dropWhile isWs).reverse

/-- Digit loop of `u32::from_str_radix(_, 10)` with overflow check. -/
def parseDigits (acc : Nat) : List Char → Option Nat
  | [] => some acc
  | c :: t =>
    if 48 ≤ c.toNat ∧ c.toNat ≤ 57 then
      let n := acc * 10 + (c.toNat - 48)
      if n < 2 ^ 32 then parseDigits n t else none
    else none

/-- `parse_vertex`, `/repo/src/io.rs:239-245`, i.e. `str::parse::<u32>`: empty input is an error, one leading
`+` is skipped if something follows. -/
def parseVertex (s : List Char) : Option Vertex :=
  match s with
  | [] => none
  | ['+'] => none
  | '+' :: t => parseDigits 0 t
  | s => parseDigits 0 s

/-- Body of the loop of `EditGraph::from_buf`, `/repo/src/io.rs:188-196`. -/
def parseEdgeLine (l : List Char) : Option Edge :=
  match tokens l with
  | [a, b] => do
    let u ← parseVertex a
    let v ← parseVertex b
    return (u, v)
  | _ => none

/-- Loop of `EditGraph::from_buf`, `/repo/src/io.rs:186-199`. -/
def fromLines : List (List Char) → EditGraph → Res (Option EditGraph)
  | [], g => .ok (some g)
  | l :: ls, g =>
    match parseEdgeLine l with
    | none => .ok none
    | some e => do
      let r ← g.addEdge e.1 e.2
      fromLines ls r.1

/-- `EditGraph::from_buf`, `/repo/src/io.rs:184-201`, and `from_buf_with_estimate`,
`/repo/src/io.rs:114-131` (same loop). -/
def fromBuf (t : List Char) : Res (Option EditGraph) := fromLines (lines t) EditGraph.new

/-- Loop of `Vec<Vertex>::from_buf`, `/repo/src/io.rs:75-86`. -/
def vecFromLines : List (List Char) → List Vertex → Option (List Vertex)
  | [], res => some res
  | l :: ls, res => do
    let u ← parseVertex (trim l)
    vecFromLines ls (res ++ [u])

/-- `Vec<Vertex>::from_buf`, `/repo/src/io.rs:75-86`. -/
def vecFromBuf (t : List Char) : Option (List Vertex) := vecFromLines (lines t) []

/-- Loop of `VertexSet::from_buf`, `/repo/src/io.rs:52-63`. -/
def setFromLines : List (List Char) → HSet Vertex → Option (HSet Vertex)
  | [], res => some res
  | l :: ls, res => do
    let u ← parseVertex (trim l)
    setFromLines ls (res.insert u)

/-- `VertexSet::from_buf`, `/repo/src/io.rs:52-63`. -/
def setFromBuf (t : List Char) : Option (HSet Vertex) := setFromLines (lines t) ∅

/-- `format!("{u}")` for an unsigned integer. -/
def render (n : Nat) : List Char :=
  if n = 0 then ['0'] else (Nat.digits 10 n).reverse.map (fun d => Char.ofNat (48 + d))

/-- `Vec<Vertex>::write_buf` and `VertexSet::write_buf`, `/repo/src/io.rs:65-97` (in iteration order). -/
def writeVertices (l : List Vertex) : List Char := l.flatMap (fun u => render u ++ ['\n'])

/-- `write_buf` for graphs, `/repo/src/io.rs:99-108`. -/
def writeGraph (G : Graph) : Res (List Char) := do
  let es ← G.edges
  return es.flatMap (fun e => render e.1 ++ ' ' :: render e.2 ++ ['\n'])

end Verif.IO
