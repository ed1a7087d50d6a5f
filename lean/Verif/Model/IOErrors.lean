import Verif.Model.Files
/-!
# Model of `/repo/src/io.rs`: the reported errors

`Verif.Model.Files` only says whether a reader returns an error.  Here the `io::Error` values themselves are modelled: their kind
and their text.  Errors that come from the operating system (`File::open`) have the kind `os`; their text is not modelled.
-/
namespace Verif.Files
open Verif.IO

/-- `io::ErrorKind`, as far as `/repo/src/io.rs:120, 190, 218, 242` sets it; `os` stands for the kinds of the errors of
`File::open`. -/
inductive ErrorKind
  | invalidData
  | invalidInput
  | os
  deriving DecidableEq

/-- An `io::Error`. -/
structure IoError where
  kind : ErrorKind
  msg : List Char
  deriving DecidableEq

/-- `/repo/src/io.rs:120-121, 190-191`. -/
def tokenError (lineno : Nat) : IoError :=
  ⟨.invalidData, "Line ".toList ++ render lineno ++ " does not contain two tokens".toList⟩

/-- `/repo/src/io.rs:242-243`. -/
def vertexError (s : List Char) (lineno : Nat) : IoError :=
  ⟨.invalidData, "Cannot parse vertex id ".toList ++ s ++ " at input line ".toList ++ render lineno⟩

/-- `/repo/src/io.rs:218-219`; `dbg` is the `Debug` formatting of strings. -/
def extensionError (dbg : List Char → List Char) (name : List Char) : IoError :=
  ⟨.invalidInput, "Invalid file `".toList ++ dbg name ++ "`. The supported formats are `.txt.gz` and `.txt`.".toList⟩

/-- An error of `File::open`. -/
def osError : IoError := ⟨.os, []⟩

/-- `parse_vertex`, `/repo/src/io.rs:239-245`. -/
def parseVertexE (s : List Char) (lineno : Nat) : Except IoError Vertex :=
  match parseVertex s with
  | some x => .ok x
  | none => .error (vertexError s lineno)

/-- Body of the loop of `EditGraph::from_buf`, `/repo/src/io.rs:188-196`. -/
def parseEdgeLineE (l : List Char) (lineno : Nat) : Except IoError Edge :=
  match tokens l with
  | [a, b] => do
    let u ← parseVertexE a lineno
    let v ← parseVertexE b lineno
    return (u, v)
  | _ => .error (tokenError lineno)

/-- Loop of `EditGraph::from_buf`, `/repo/src/io.rs:186-199`, and of `from_buf_with_estimate`, `/repo/src/io.rs:116-128`, with
`enumerate()`. -/
def graphFromItemsE : Nat → List (Option (List Char)) → EditGraph → Res (Except IoError EditGraph)
  | _, [], g => .ok (.ok g)
  | _, none :: _, _ => .error .panic
  | lineno, some l :: ls, g =>
    match parseEdgeLineE l lineno with
    | .error e => .ok (.error e)
    | .ok e => do
      let r ← g.addEdge e.1 e.2
      graphFromItemsE (lineno + 1) ls r.1

/-- `EditGraph::from_buf`, `/repo/src/io.rs:184-201`, and `from_buf_with_estimate`, `/repo/src/io.rs:114-131`. -/
def graphFromBufE (s : Stream) : Res (Except IoError EditGraph) := graphFromItemsE 0 (lines s) EditGraph.new

/-- Loop of `Vec<Vertex>::from_buf`, `/repo/src/io.rs:78-82`. -/
def vecFromItemsE : Nat → List (Option (List Char)) → List Vertex → Res (Except IoError (List Vertex))
  | _, [], res => .ok (.ok res)
  | _, none :: _, _ => .error .panic
  | i, some l :: ls, res =>
    match parseVertexE (trim l) i with
    | .error e => .ok (.error e)
    | .ok u => vecFromItemsE (i + 1) ls (res ++ [u])

/-- `Vec<Vertex>::from_buf`, `/repo/src/io.rs:75-86`. -/
def vecFromBufE (s : Stream) : Res (Except IoError (List Vertex)) := vecFromItemsE 0 (lines s) []

/-- Loop of `VertexSet::from_buf`, `/repo/src/io.rs:55-59`. -/
def setFromItemsE : Nat → List (Option (List Char)) → HSet Vertex → Res (Except IoError (HSet Vertex))
  | _, [], res => .ok (.ok res)
  | _, none :: _, _ => .error .panic
  | i, some l :: ls, res =>
    match parseVertexE (trim l) i with
    | .error e => .ok (.error e)
    | .ok u => setFromItemsE (i + 1) ls (res.insert u)

/-- `VertexSet::from_buf`, `/repo/src/io.rs:52-63`. -/
def setFromBufE (s : Stream) : Res (Except IoError (HSet Vertex)) := setFromItemsE 0 (lines s) ∅

/-- `File::open` (`/repo/src/io.rs:209, 213, 228, 234`), then the reader. -/
def openE (fs : Store) (rd : Bytes → Stream) (name : List Char) : Except IoError Stream :=
  match fs name with
  | none => .error osError
  | some b => .ok (rd b)

/-- `open_reader`, `/repo/src/io.rs:204-224`. -/
def openReaderE (C : Codec) (dbg : List Char → List Char) (fs : Store) (name : List Char) : Except IoError Stream :=
  match extension name with
  | some ['t', 'x', 't'] => openE fs plain name
  | some ['g', 'z'] => openE fs C.gunzip name
  | _ => .error (extensionError dbg name)

/-- Opening a reader and passing it on: `let buf = open…(filename)?; Self::from_buf(buf)`. -/
def loadE {α : Type} (fromBuf : Stream → Res (Except IoError α)) : Except IoError Stream → Res (Except IoError α)
  | .error e => .ok (.error e)
  | .ok s => fromBuf s

/-- `LoadFromFile::from_txt`, `/repo/src/io.rs:34-37`, and `EditGraph::from_txt`, `/repo/src/io.rs:157-167`. -/
def fromTxtE {α : Type} (fromBuf : Stream → Res (Except IoError α)) (fs : Store) (name : List Char) : Res (Except IoError α) :=
  loadE fromBuf (openE fs plain name)

/-- `LoadFromFile::from_gzipped`, `/repo/src/io.rs:39-42`, and `EditGraph::from_gzipped`, `/repo/src/io.rs:171-182`. -/
def fromGzippedE {α : Type} (C : Codec) (fromBuf : Stream → Res (Except IoError α)) (fs : Store) (name : List Char) :
    Res (Except IoError α) :=
  loadE fromBuf (openE fs C.gunzip name)

/-- `LoadFromFile::from_file`, `/repo/src/io.rs:44-47`. -/
def fromFileE {α : Type} (C : Codec) (dbg : List Char → List Char) (fromBuf : Stream → Res (Except IoError α)) (fs : Store)
    (name : List Char) : Res (Except IoError α) :=
  loadE fromBuf (openReaderE C dbg fs name)

end Verif.Files
