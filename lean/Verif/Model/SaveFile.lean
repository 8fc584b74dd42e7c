/-
Files that the library and the command line tools write.

Modelled code: `tket/src/rewrite/ecc_rewriter.rs:127-184` (`save_binary`, `load_binary`),
`tket/src/portmatching/matcher.rs:326-368`, `tket/src/serialize/pytket.rs:188-216`
(`save_tk1_json_file`), `compile-rewriter/src/main.rs:38-77` and `load_optimiser`,
`badger-optimiser/src/main.rs:201-207`.

From the standard library of Rust: `BufWriter` (`write_all`, `flush_buf`, `Drop`, which ignores
errors) and `Path::{file_stem, extension}`, `PathBuf::set_extension`.  zstd, MessagePack and JSON are
parameters: the chunks of bytes that they write, and decoding.  A device takes a number of bytes and
reports an error when it is full.  Characters of file names are any; a path is its parent (a token)
and its last component.
-/
namespace Verif.SaveFile

abbrev Bytes := List Nat

/-! ### Writing -/

/-- An open file: what was written, and how many more bytes the device takes. -/
structure Dev where
  content : Bytes
  room : Nat
deriving DecidableEq

/-- `File::write_all`: writes what fits; `false` for the error. -/
def Dev.write (d : Dev) (bs : Bytes) : Bool × Dev :=
  (decide (bs.length ≤ d.room), ⟨d.content ++ bs.take d.room, d.room - bs.length⟩)

/-- `BufWriter` with its buffer. -/
structure Buf where
  buf : Bytes
  dev : Dev
deriving DecidableEq

/-- `flush_buf`: what was written is removed from the buffer, also if there is an error. -/
def Buf.flush (b : Buf) : Bool × Buf :=
  let r := b.dev.write b.buf
  (r.1, ⟨b.buf.drop b.dev.room, r.2⟩)

/-- `BufWriter::write_all` with a buffer of the capacity (8 KiB in the standard library). -/
def Buf.write (cap : Nat) (b : Buf) (bs : Bytes) : Bool × Buf :=
  if bs.length < cap - b.buf.length then (true, ⟨b.buf ++ bs, b.dev⟩)
  else
    let f := if bs.length > cap - b.buf.length then b.flush else (true, b)
    if f.1 then
      if bs.length ≥ cap then
        let r := f.2.dev.write bs
        (r.1, ⟨f.2.buf, r.2⟩)
      else (true, ⟨f.2.buf ++ bs, f.2.dev⟩)
    else f

/-- Writing chunks up to the first error. -/
def Buf.writes (cap : Nat) : Buf → List Bytes → Bool × Buf
  | b, [] => (true, b)
  | b, c :: cs =>
    let r := b.write cap c
    if r.1 then r.2.writes cap cs else r

/-- `Drop` of `BufWriter`: flushes and ignores the error. -/
def Buf.close (b : Buf) : Dev := b.flush.2.dev

/-- Writing chunks through a buffer and closing: the result that is returned, and the file. -/
def buffered (cap : Nat) (chunks : List Bytes) (room : Nat) : Bool × Bytes :=
  let r := Buf.writes cap ⟨[], ⟨[], room⟩⟩ chunks
  (r.1, r.2.close.content)

/-- Writing chunks without a buffer, as for matchers. -/
def direct (chunks : List Bytes) (room : Nat) : Bool × Bytes :=
  let rec go : Dev → List Bytes → Bool × Dev
    | d, [] => (true, d)
    | d, c :: cs =>
      let r := d.write c
      if r.1 then go r.2 cs else r
  let r := go ⟨[], room⟩ chunks
  (r.1, r.2.content)

/-! ### Names -/

abbrev Name := List Char

/-- What is before and after the last dot. -/
def splitDot : Name → Option (Name × Name)
  | [] => none
  | c :: cs =>
    match splitDot cs with
    | some (b, a) => some (c :: b, a)
    | none => if c = '.' then some ([], cs) else none

/-- `file_stem` of a file name: a dot at the beginning does not count. -/
def stem (n : Name) : Name :=
  match splitDot n with
  | some ([], _) => n
  | some (b, _) => b
  | none => n

/-- `extension` of a file name. -/
def ext (n : Name) : Option Name :=
  match splitDot n with
  | some ([], _) => none
  | some (_, a) => some a
  | none => none

/-- Paths: a parent and the name of the file; no name for the empty path and for paths that end in
`..` or at the root. -/
structure Path where
  dir : Nat
  name : Option Name
deriving DecidableEq

/-- `Path::extension`. -/
def Path.ext (p : Path) : Option Name := p.name.bind SaveFile.ext

/-- `PathBuf::set_extension`: nothing happens without a name. -/
def Path.setExt (p : Path) (e : Name) : Path :=
  match p.name with
  | some n => ⟨p.dir, some (stem n ++ '.' :: e)⟩
  | none => p

/-! ### Saving -/

/-- What is at a path. -/
inductive Entry
  | dir
  | file (content : Bytes)
deriving DecidableEq

/-- A file system; which files can be created; and the room for a new file. -/
structure FS where
  at_ : Path → Option Entry
  creatable : Path → Bool
  room : Nat

/-- The file at the path has the content. -/
def FS.set (fs : FS) (p : Path) (bs : Bytes) : FS :=
  { fs with at_ := fun q => if q = p then some (.file bs) else fs.at_ q }

/-- `File::create`, then writing. -/
def FS.save (fs : FS) (p : Path) (w : Nat → Bool × Bytes) : Bool × FS :=
  if fs.creatable p then
    let r := w fs.room
    (r.1, fs.set p r.2)
  else (false, fs)

/-- The extension of rewriters. -/
def rwr : Name := ['r', 'w', 'r']

/-- The extension of matchers. -/
def bin : Name := ['b', 'i', 'n']

/-- The extension of JSON files. -/
def json : Name := ['j', 's', 'o', 'n']

/-- `ECCRewriter::save_binary`: the path if there was no error. -/
def saveRewriter (cap : Nat) (fs : FS) (p : Path) (chunks : List Bytes) : Option Path × FS :=
  let p := p.setExt rwr
  let r := fs.save p (buffered cap chunks)
  (if r.1 then some p else none, r.2)

/-- `PatternMatcher::save_binary`. -/
def saveMatcher (fs : FS) (p : Path) (chunks : List Bytes) : Option Path × FS :=
  let p := p.setExt bin
  let r := fs.save p (direct chunks)
  (if r.1 then some p else none, r.2)

/-- `save_tk1_json_file`: the file is created, and then the circuit is encoded (`none` if this is an
error) and written. -/
def saveCircuit (cap : Nat) (fs : FS) (p : Path) (encoded : Option (List Bytes)) : Bool × FS :=
  if fs.creatable p then
    match encoded with
    | none => (false, fs.set p [])
    | some chunks => fs.save p (buffered cap chunks)
  else (false, fs)

/-! ### Tools -/

/-- What a tool is given: reading sets of equivalent circuits, and rewriters as bytes. -/
structure Codec (R : Type) where
  compile : Bytes → Option R
  encode : R → List Bytes
  decode : Bytes → Option R

/-- How `compile-rewriter` ends. -/
inductive End
  | panic
  | exit1
  | written (p : Path)
deriving DecidableEq

/-- The name of the file if the output is a directory; `sub` gives the number of the directory as a
parent. -/
def matcherRwr (sub : Path → Nat) (p : Path) : Path :=
  ⟨sub p, some (['m', 'a', 't', 'c', 'h', 'e', 'r', '.'] ++ rwr)⟩

/-- `main` of `compile-rewriter`, `main.rs:38-77`. -/
def compileTool {R : Type} (cap : Nat) (co : Codec R) (sub : Path → Nat) (fs : FS)
    (input output : Path) : End × FS :=
  match fs.at_ input with
  | some (.file bs) =>
    match input.ext with
    | none => (.panic, fs)
    | some e =>
      if e = json then
        match co.compile bs with
        | none => (.exit1, fs)
        | some r =>
          let out := if fs.at_ output = some .dir then matcherRwr sub output else output
          match saveRewriter cap fs out (co.encode r) with
          | (some p, fs) => (.written p, fs)
          | (none, fs) => (.panic, fs)
      else (.panic, fs)
  | _ => (.panic, fs)

/-- `load_optimiser`, `badger-optimiser/src/main.rs:201-207`: the rewriter, by the extension. -/
def loadTool {R : Type} (co : Codec R) (fs : FS) (p : Path) : Option R :=
  match p.ext with
  | none => none
  | some e =>
    if e = json then
      match fs.at_ p with
      | some (.file bs) => co.compile bs
      | _ => none
    else if e = rwr then
      match fs.at_ p with
      | some (.file bs) => co.decode bs
      | _ => none
    else none

end Verif.SaveFile
