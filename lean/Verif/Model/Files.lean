import Verif.Model.IO
/-!
# Model of `/repo/src/io.rs`: bytes, readers and files

`Verif.Model.IO` works on characters.  Here the input of the readers is a stream of bytes, so that invalid UTF-8
and read errors (for example of the gzip decoder) are visible; `line.unwrap()` turns both into a panic.

Simplifications: a file system is a partial function from file names to contents; `File::create` and writing never
fail; `File::open` fails iff the name has no contents; `metadata` never fails; the capacity estimates are dropped.
The gzip encoder and decoder of the `flate2` crate are parameters (`Codec`).
-/
namespace Verif.Files
open Verif.IO

/-- A byte string. -/
abbrev Bytes := List UInt8

/-- What a `BufRead` delivers: the bytes `data`, then the end of the input or, if `broken`, an `io::Error`. -/
structure Stream where
  data : Bytes
  broken : Bool

/-- `str::as_bytes`. -/
def encode (t : List Char) : Bytes := t.flatMap String.utf8EncodeChar

/-- `str::from_utf8`. -/
def decode (b : Bytes) : Option (List Char) := (ByteArray.mk b.toArray).utf8Decode?.map Array.toList

/-- Drop `\n` or `\r\n` at the end of a line (`rev` is the line, reversed), as `BufRead::lines` does. -/
def chomp (rev : List Char) : List Char :=
  match rev with
  | '\n' :: rev' => stripCR rev'
  | _ => rev.reverse

/-- The item of `BufRead::lines` for the bytes `raw` of one line (with its terminator); `none` is
`Err(InvalidData)` for a line that is not UTF-8. -/
def readLine (raw : Bytes) : Option (List Char) := (decode raw).map (fun l => chomp l.reverse)

/-- `BufRead::lines` on a stream; `acc` is the current line, reversed.  `none` is an `Err` item.  A line that is cut
off by a read error is lost. -/
def linesAux (broken : Bool) (acc : Bytes) : Bytes → List (Option (List Char))
  | [] => if broken then [none] else if acc = [] then [] else [readLine acc.reverse]
  | b :: t =>
    if b = 10 then readLine (b :: acc).reverse :: linesAux broken [] t
    else linesAux broken (b :: acc) t

/-- `BufRead::lines`. -/
def lines (s : Stream) : List (Option (List Char)) := linesAux s.broken [] s.data

/-- Loop of `EditGraph::from_buf`, `/repo/src/io.rs:186-199`, with `line.unwrap()` in line 187. -/
def graphFromItems : List (Option (List Char)) → EditGraph → Res (Option EditGraph)
  | [], g => .ok (some g)
  | none :: _, _ => .error .panic
  | some l :: ls, g =>
    match parseEdgeLine l with
    | none => .ok none
    | some e => do
      let r ← g.addEdge e.1 e.2
      graphFromItems ls r.1

/-- `EditGraph::from_buf`, `/repo/src/io.rs:184-201`, and `from_buf_with_estimate`,
`/repo/src/io.rs:114-131` (same loop). -/
def graphFromBuf (s : Stream) : Res (Option EditGraph) := graphFromItems (lines s) EditGraph.new

/-- Loop of `Vec<Vertex>::from_buf`, `/repo/src/io.rs:78-82`, with `line.unwrap()` in line 79. -/
def vecFromItems : List (Option (List Char)) → List Vertex → Res (Option (List Vertex))
  | [], res => .ok (some res)
  | none :: _, _ => .error .panic
  | some l :: ls, res =>
    match parseVertex (trim l) with
    | none => .ok none
    | some u => vecFromItems ls (res ++ [u])

/-- `Vec<Vertex>::from_buf`, `/repo/src/io.rs:75-86`. -/
def vecFromBuf (s : Stream) : Res (Option (List Vertex)) := vecFromItems (lines s) []

/-- Loop of `VertexSet::from_buf`, `/repo/src/io.rs:55-59`, with `line.unwrap()` in line 56. -/
def setFromItems : List (Option (List Char)) → HSet Vertex → Res (Option (HSet Vertex))
  | [], res => .ok (some res)
  | none :: _, _ => .error .panic
  | some l :: ls, res =>
    match parseVertex (trim l) with
    | none => .ok none
    | some u => setFromItems ls (res.insert u)

/-- `VertexSet::from_buf`, `/repo/src/io.rs:52-63`. -/
def setFromBuf (s : Stream) : Res (Option (HSet Vertex)) := setFromItems (lines s) ∅

/-- The contents of the files. -/
abbrev Store := List Char → Option Bytes

/-- `File::create(filename)` and writing the bytes `b`, `/repo/src/io.rs:18-20, 24-27`. -/
def Store.put (fs : Store) (name : List Char) (b : Bytes) : Store := fun n => if n = name then some b else fs n

/-- The gzip encoder and decoder of `flate2` (`/repo/src/io.rs:10-12`).  Only two facts are assumed: decoding an encoded
byte string gives it back, and input that does not start with the first byte of the gzip magic number is reported as
an error on the first read. -/
structure Codec where
  gzip : Bytes → Bytes
  gunzip : Bytes → Stream
  gunzip_gzip : ∀ b, gunzip (gzip b) = ⟨b, false⟩
  header : ∀ x b, x ≠ 0x1f → gunzip (x :: b) = ⟨[], true⟩

/-- `BufReader::new(file)` for a file with the contents `b`. -/
def plain (b : Bytes) : Stream := ⟨b, false⟩

/-- `open_reader_txt`, `/repo/src/io.rs:226-230`; `none` is an `io::Error`. -/
def openTxt (fs : Store) (name : List Char) : Option Stream := (fs name).map plain

/-- `open_reader_gzip`, `/repo/src/io.rs:232-237`. -/
def openGzip (C : Codec) (fs : Store) (name : List Char) : Option Stream := (fs name).map C.gunzip

/-- Split at a character. -/
def splitAux (sep : Char) (acc : List Char) : List Char → List (List Char)
  | [] => [acc.reverse]
  | c :: t => if c = sep then acc.reverse :: splitAux sep [] t else splitAux sep (c :: acc) t

/-- `Path::components` (Unix) without the root and the `.` components. -/
def components (p : List Char) : List (List Char) :=
  (splitAux '/' [] p).filter (fun c => decide (c ≠ [] ∧ c ≠ ['.']))

/-- `Path::file_name` (Unix): the last component unless it is `..`. -/
def fileName (p : List Char) : Option (List Char) :=
  match (components p).getLast? with
  | none => none
  | some c => if c = ['.', '.'] then none else some c

/-- `Path::extension` on a file name (reversed): what follows the last `.`, unless there is none or it is the first
character. -/
def extAux (acc : List Char) : List Char → Option (List Char)
  | [] => none
  | c :: t => if c = '.' then (if t = [] then none else some acc) else extAux (c :: acc) t

/-- `Path::extension`, used in `/repo/src/io.rs:206`. -/
def extension (p : List Char) : Option (List Char) :=
  match fileName p with
  | none => none
  | some n => extAux [] n.reverse

/-- `open_reader`, `/repo/src/io.rs:204-224`. -/
def openReader (C : Codec) (fs : Store) (name : List Char) : Option Stream :=
  match extension name with
  | some ['t', 'x', 't'] => (fs name).map plain
  | some ['g', 'z'] => (fs name).map C.gunzip
  | _ => none

/-- Opening a reader and passing it on: `let buf = open…(filename)?; Self::from_buf(buf)`. -/
def load {α : Type} (fromBuf : Stream → Res (Option α)) : Option Stream → Res (Option α)
  | none => .ok none
  | some s => fromBuf s

/-- `LoadFromFile::from_txt`, `/repo/src/io.rs:34-37`, and `EditGraph::from_txt`, `/repo/src/io.rs:157-167`. -/
def fromTxt {α : Type} (fromBuf : Stream → Res (Option α)) (fs : Store) (name : List Char) : Res (Option α) :=
  load fromBuf (openTxt fs name)

/-- `LoadFromFile::from_gzipped`, `/repo/src/io.rs:39-42`, and `EditGraph::from_gzipped`, `/repo/src/io.rs:171-182`. -/
def fromGzipped {α : Type} (C : Codec) (fromBuf : Stream → Res (Option α)) (fs : Store) (name : List Char) :
    Res (Option α) :=
  load fromBuf (openGzip C fs name)

/-- `LoadFromFile::from_file`, `/repo/src/io.rs:44-47`. -/
def fromFile {α : Type} (C : Codec) (fromBuf : Stream → Res (Option α)) (fs : Store) (name : List Char) :
    Res (Option α) :=
  load fromBuf (openReader C fs name)

/-- `WriteToFile::write_txt`, `/repo/src/io.rs:17-21`, for an object with the text `t`. -/
def writeTxt (fs : Store) (name : List Char) (t : List Char) : Store := fs.put name (encode t)

/-- `WriteToFile::write_gzipped`, `/repo/src/io.rs:23-28`. -/
def writeGzipped (C : Codec) (fs : Store) (name : List Char) (t : List Char) : Store := fs.put name (C.gzip (encode t))

end Verif.Files
