import Verif.Fs.Load

/-!
# Model of the encrypted file, `manta-accounting/src/fs/mod.rs:361-452` and `forks/cocoon/src/{mini,format,header}.rs`

The cipher (ChaCha20-Poly1305 or AES-256-GCM) and the key derivation are parameters. The random generator is the
function from its seed to the first 12 bytes it returns: `encrypt` works on a clone, so no later bytes are ever used.
-/

namespace Verif.Fs

open Verif.Codec (Bytes toLE fromLE toLE_length fromLE_toLE)

/-- A cipher with associated data: detached sealing and opening, key derivation and generator. -/
structure Prims where
  encrypt : Bytes → Bytes → Bytes → Bytes → Bytes × Bytes
  decrypt : Bytes → Bytes → Bytes → Bytes → Bytes → Option Bytes
  kdf : Bytes → Bytes → Bytes
  gen : Bytes → Bytes

/-- What the parameters guarantee. -/
structure Prims.Ok (P : Prims) : Prop where
  correct : ∀ k n a m, P.decrypt k n a (P.encrypt k n a m).1 (P.encrypt k n a m).2 = some m
  length : ∀ k n a m, (P.encrypt k n a m).1.length = m.length
  tag : ∀ k n a m, (P.encrypt k n a m).2.length = 16
  nonce : ∀ s, (P.gen s).length = 12

/-- `MiniCocoon`, mini.rs:24-28: the key and the nonce that the cloned generator returns. -/
structure Cocoon where
  key : Bytes
  nonce : Bytes

/-- `from_password`, mini.rs:131-143. -/
def Cocoon.fromPassword (P : Prims) (password seed : Bytes) : Cocoon := ⟨P.kdf seed password, P.gen seed⟩

/-- `File::new`, fs/mod.rs:407-418: the seed is constant. -/
def Cocoon.ofFile (P : Prims) (password : Bytes) : Cocoon := .fromPassword P password (List.replicate 32 0)

/-- `MiniCocoonHeader::serialize_into`, header.rs:305-311: nonce and big-endian length. -/
def header (nonce : Bytes) (len : Nat) : Bytes := nonce ++ (toLE 8 len).reverse

/-- `encrypt` and `dump`, mini.rs:233-240, 264-291, format.rs:113-124. -/
def dump (P : Prims) (c : Cocoon) (m : Bytes) : Bytes :=
  let h := header c.nonce m.length
  let s := P.encrypt c.key c.nonce h m
  h ++ s.2 ++ s.1

/-- Outcome of reading a container. `tooShort` is also what the end of the file gives, error.rs:22-29. -/
inductive Parsed where
  | ok (m rest : Bytes)
  | tooShort
  | cryptography
  | panic

/-- `parse`, mini.rs:365-376, `deserialize_from` format.rs:143-152, `decrypt_parsed` 405-440. A length above
`isize::MAX` panics in `Vec::with_capacity`. The capacity is taken to be what was asked for. -/
def parse (P : Prims) (c : Cocoon) (b : Bytes) : Parsed :=
  if b.length < 20 then .tooShort
  else if b.length < 36 then .tooShort
  else
    let nonce := b.take 12
    let len := fromLE ((b.drop 12).take 8).reverse
    let tag := (b.drop 20).take 16
    let body := b.drop 36
    if len ≥ 2 ^ 63 then .panic
    else if body.length < len then .tooShort
    else
      match P.decrypt c.key nonce (b.take 20) (body.take len) tag with
      | none => .cryptography
      | some m => .ok m (body.drop len)

/-- How reading of blocks ends. `finished` is `None` from `read`. -/
inductive Stop where
  | finished
  | tooShort
  | cryptography
  | panic
deriving DecidableEq, Repr

/-- `read`, fs/mod.rs:443-450, until it does not return a block: an empty block and one that is too long are taken for
the end of the file. The fuel bounds the number of containers. -/
def readBlocks (P : Prims) (c : Cocoon) (B : Nat) : Nat → Bytes → List Bytes × Stop
  | 0, _ => ([], .tooShort)
  | n + 1, b =>
    match parse P c b with
    | .tooShort => ([], .tooShort)
    | .cryptography => ([], .cryptography)
    | .panic => ([], .panic)
    | .ok m rest =>
      if m.isEmpty then ([], .finished)
      else if m.length > B then ([], .finished)
      else
        let r := readBlocks P c B n rest
        (pad B m :: r.1, r.2)

/-- Blocks of a file. -/
def blocks (P : Prims) (c : Cocoon) (B : Nat) (b : Bytes) : List Bytes × Stop := readBlocks P c B (b.length + 1) b

/-- Bytes of the file after `save` with a password, fs/mod.rs:328-341. -/
def saveFile (P : Prims) (password : Bytes) (B : Nat) (s : Sch) (v : s.Val) : Bytes :=
  (save B s v).flatMap (dump P (.ofFile P password))

/-- Outcome of a load. -/
inductive Loaded (α : Type) where
  | ok (v : α)
  | invalid (e : DErr)
  | stopped (e : Stop)

/-- `File::load`, fs/mod.rs:347-359. -/
def loadFile (P : Prims) (password : Bytes) (B : Nat) (s : Sch) (file : Bytes) : Loaded s.Val :=
  let r := blocks P (.ofFile P password) B file
  match load s r.1 with
  | .ok v => .ok v
  | .error .eof => .stopped r.2
  | .error e => .invalid e

end Verif.Fs
