/-!
# Model of the parameter files, `manta-parameters/src/lib.rs`, `manta-parameters/build.rs`, `manta-pay/src/parameters.rs`

Files are byte lists. BLAKE3 is a parameter `hash`. The answers of the servers are data: any body, also an error page
(the status code is not looked at), or a failure after some bytes.
-/

namespace Verif.Params

abbrev Bytes := List UInt8

/-- A directory tree: the contents of every path, `none` if there is no file. -/
abbrev Disk (Path : Type) := Path → Option Bytes

/-- Answer to one request, as seen by `attohttpc::get(url).send()?.write_to(file)?`, lib.rs:131-135. -/
inductive Reply where
  /-- `send` fails: nothing is written. -/
  | refused
  /-- The connection breaks after these bytes were written. -/
  | broken (sent : Bytes)
  /-- A complete body. -/
  | body (b : Bytes)
deriving DecidableEq, Repr

/-- Position and contents of the open file. -/
structure Handle where
  contents : Bytes
  pos : Nat
deriving DecidableEq, Repr

/-- `write` on a file opened for writing: bytes from the position on are replaced. -/
def Handle.write (f : Handle) (b : Bytes) : Handle :=
  ⟨f.contents.take f.pos ++ b ++ f.contents.drop (f.pos + b.length), f.pos + b.length⟩

/-- `download_from`, lib.rs:131-135: the number of bytes, `none` for an error. -/
def downloadFrom (r : Reply) (f : Handle) : Handle × Option Nat :=
  match r with
  | .refused => (f, none)
  | .broken b => (f.write b, none)
  | .body b => (f.write b, some b.length)

/-- The two servers, lib.rs:115-129: for one branch and path. -/
structure Web where
  lfs : Reply
  raw : Reply
deriving DecidableEq, Repr

/-- `OpenOptions::new().create(true).write(true).open(path)`, lib.rs:148: the file is not truncated. -/
def openWrite (old : Option Bytes) : Handle := ⟨old.getD [], 0⟩

/-- `download_unchecked`, lib.rs:137-153, on the file at the path: contents afterwards and success. -/
def fetch (w : Web) (old : Option Bytes) : Bytes × Bool :=
  let (f, n) := downloadFrom w.lfs (openWrite old)
  match n with
  | none => (f.contents, false)
  | some 0 =>
    let (g, k) := downloadFrom w.raw f
    (g.contents, k.isSome)
  | some _ => (f.contents, true)

inductive Error where
  /-- The file cannot be opened or created. -/
  | io
  /-- A request failed. -/
  | network
  /-- The checksum did not match. -/
  | checksum
deriving DecidableEq, Repr

variable {Path Digest : Type} [DecidableEq Path] [DecidableEq Digest]

def Disk.set (d : Disk Path) (p : Path) (b : Bytes) : Disk Path := fun q => if q = p then some b else d q

/-- `verify`, lib.rs:173-177. -/
def verify (hash : Bytes → Digest) (data : Bytes) (checksum : Digest) : Bool := hash data == checksum

/-- `verify_file`, lib.rs:179-188: `none` if the file cannot be read. -/
def verifyFile (hash : Bytes → Digest) (d : Disk Path) (p : Path) (checksum : Digest) : Option Bool :=
  (d p).map fun b => verify hash b checksum

/-- `github::download`, lib.rs:155-170. `writable` says whether the path can be opened for writing. -/
def download (hash : Bytes → Digest) (writable : Path → Bool) (w : Web) (p : Path) (checksum : Digest)
    (d : Disk Path) : Disk Path × Option Error :=
  if writable p then
    let (b, ok) := fetch w (d p)
    let d' := d.set p b
    if ok then
      match verifyFile hash d' p checksum with
      | none => (d', some .io)
      | some true => (d', none)
      | some false => (d', some .checksum)
    else (d', some .network)
  else (d, some .io)

/-- `Download::download_if_invalid`, lib.rs:266-279. -/
def downloadIfInvalid (hash : Bytes → Digest) (writable : Path → Bool) (w : Web) (p : Path) (checksum : Digest)
    (d : Disk Path) : Disk Path × Option Error :=
  match verifyFile hash d p checksum with
  | some true => (d, none)
  | _ => download hash writable w p checksum d

/-- Repeated calls, each with its own answers. -/
def downloads (hash : Bytes → Digest) (writable : Path → Bool) (p : Path) (checksum : Digest) :
    List Web → Disk Path → Disk Path × List (Option Error)
  | [], d => (d, [])
  | w :: ws, d =>
    let (d₁, e) := downloadIfInvalid hash writable w p checksum d
    let (d₂, es) := downloads hash writable p checksum ws d₁
    (d₂, e :: es)

/-- `Get::get`, lib.rs:214-235. -/
def get (hash : Bytes → Digest) (data : Bytes) (checksum : Digest) : Option Bytes :=
  if verify hash data checksum then some data else none

/-! ## Loading the proving contexts -/

/-- One of the three proving contexts: where it is stored and its checksum. -/
structure Asset (Path Digest : Type) where
  path : Path
  checksum : Digest

/-- How loading ends. Every failure is an `expect`. -/
inductive Loaded (α : Type) where
  | ok (contexts : List α)
  | panic

/-- The downloads of `load_proving_context` and `try_load_proving_context`, manta-pay/src/parameters.rs:134-173, in
order; the first failure panics. `fetcher` is `download` or `download_if_invalid`. -/
def fetchAll (fetcher : Web → Asset Path Digest → Disk Path → Disk Path × Option Error) :
    List (Asset Path Digest × Web) → Disk Path → Disk Path × Bool
  | [], d => (d, true)
  | (a, w) :: as, d =>
    match fetcher w a d with
    | (d', some _) => (d', false)
    | (d', none) => fetchAll fetcher as d'

/-- `decode_proving_context`, parameters.rs:175-199: every file is opened and decoded. The decoder reads from the start
and does not look at what follows. -/
def decodeAll {α : Type} (decode : Bytes → Option α) (d : Disk Path) : List Path → Loaded α
  | [] => .ok []
  | p :: ps =>
    match (d p).bind decode, decodeAll decode d ps with
    | some x, .ok xs => .ok (x :: xs)
    | _, _ => .panic

/-- `load_proving_context` (with `download`) or `try_load_proving_context` (with `download_if_invalid`). -/
def loadContexts {α : Type} (fetcher : Web → Asset Path Digest → Disk Path → Disk Path × Option Error)
    (decode : Bytes → Option α) (as : List (Asset Path Digest × Web)) (d : Disk Path) : Disk Path × Loaded α :=
  match fetchAll fetcher as d with
  | (d', false) => (d', .panic)
  | (d', true) => (d', decodeAll decode d' (as.map fun a => a.1.path))

end Verif.Params
