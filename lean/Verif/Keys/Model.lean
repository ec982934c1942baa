import Verif.Codec.Model
import Mathlib.Algebra.Ring.Defs

/-!
# Model of the encodings of keys and proofs

`manta-crypto/src/arkworks/{serialize,groth16,pairing,algebra}.rs`, `constraint/fp.rs`, and the contexts of
`manta-accounting/src/transfer/canonical.rs`.

The arkworks encodings of points, field elements, vectors and keys are parameters. A reader of arkworks is a program that fills
buffers with `read_exact`; a writer is the list of byte strings that it passes to `write_all`.
-/

namespace Verif.Keys

open Verif.Codec (Bytes)

/-! ## Arkworks encodings -/

/-- The three pairs of methods of `CanonicalSerialize` and `CanonicalDeserialize`. -/
inductive Mode where
  | compressed
  | uncompressed
  | unchecked
deriving DecidableEq

/-- A reader of arkworks: programs over `read_exact`. -/
inductive Prog (α : Type) where
  | done (a : α)
  | fail
  | read (n : Nat) (k : Bytes → Prog α)

/-- The `?` operator. -/
def Prog.bind {α β : Type} : Prog α → (α → Prog β) → Prog β
  | .done a, f => f a
  | .fail, _ => .fail
  | .read n k, f => .read n fun bs => (k bs).bind f

/-- `CanonicalSerialize` and `CanonicalDeserialize` of a type. -/
structure Canon (α : Type) where
  write : Mode → α → List Bytes
  read : Mode → Prog α
  serializedSize : α → Nat
  uncompressedSize : α → Nat

/-! ## Readers and writers, serialize.rs:42-178 -/

/-- `ReadExactError`, codec.rs:322-335. -/
inductive ReadFail (ε : Type) where
  | unexpectedEnd (missing : Nat)
  | read (e : ε)

/-- `read_exact` of a reader `R` with errors `ε`, codec.rs:76-80. -/
abbrev ReadExact (R ε : Type) := R → Nat → Except (ReadFail ε) Bytes × R

/-- Errors of arkworks: input and output, or invalid data. -/
inductive ArkErr where
  | io
  | invalid
deriving DecidableEq

/-- A reader of arkworks on an `ArkReader`, serialize.rs:42-113. The state is the reader or its first error; the end of the data
is an error of the call, but not of the state. -/
def Prog.run {α R ε : Type} (rd : ReadExact R ε) : Prog α → Except ε R → Except ArkErr α × Except ε R
  | .done a, s => (.ok a, s)
  | .fail, s => (.error .invalid, s)
  | .read _ _, .error e => (.error .io, .error e)
  | .read n k, .ok r =>
    match rd r n with
    | (.ok bs, r') => (k bs).run rd (.ok r')
    | (.error (.unexpectedEnd _), r') => (.error .io, .ok r')
    | (.error (.read e), _) => (.error .io, .error e)

/-- Outcome of `Decode::decode`, codec.rs:1036-1047. -/
inductive Decoded (α R ε : Type) where
  | ok (v : α) (r : R)
  | readError (e : ε)
  | decodeError (e : ArkErr)

/-- `decode` of `ProvingContext`, `VerifyingContext`, `Group` and `Fp`: groth16.rs:275-287, 510-523, algebra.rs:295-308,
fp.rs:104-118. -/
def decode {α R ε : Type} (rd : ReadExact R ε) (p : Prog α) (r : R) : Decoded α R ε :=
  match p.run rd (.ok r) with
  | (.ok v, .ok r') => .ok v r'
  | (.ok _, .error e) => .readError e
  | (.error e, _) => .decodeError e

/-- `write_all` on an `ArkWriter`, serialize.rs:119-178: `wr` is the `write` of the writer, its count is ignored; after an error
the state stays at that error. The flag is the result of the call. -/
def writeAll {W ε : Type} (wr : W → Bytes → Except ε W) : Except ε W → Bytes → Bool × Except ε W
  | .error e, _ => (false, .error e)
  | .ok w, bs =>
    match wr w bs with
    | .ok w' => (true, .ok w')
    | .error e => (false, .error e)

/-- A writer of arkworks stops at the first error. -/
def writeChunks {W ε : Type} (wr : W → Bytes → Except ε W) : List Bytes → Except ε W → Except ε W
  | [], s => s
  | c :: cs, s =>
    match writeAll wr s c with
    | (true, s') => writeChunks wr cs s'
    | (false, s') => s'

/-- `encode` of the same types: groth16.rs:295-303, 531-539, algebra.rs:315-323, fp.rs:126-133. The result of the writer of arkworks is
dropped, the state is returned. -/
def encode {W ε : Type} (wr : W → Bytes → Except ε W) (cs : List Bytes) (w : W) : Except ε W := writeChunks wr cs (.ok w)

/-- `read_exact` of a slice and of a vector, codec.rs:165-181, 246-259. -/
def readBytes : ReadExact Bytes Empty := fun r n =>
  if n ≤ r.length then (.ok (r.take n), r.drop n) else (.error (.unexpectedEnd (n - r.length)), r)

/-- `write` of a vector, codec.rs:437-442. -/
def writeVec : Bytes → Bytes → Except Empty Bytes := fun w bs => .ok (w ++ bs)

/-! ## Verifying contexts -/

/-- `G2Prepared`, pairing.rs:122-133. -/
structure Prepared (C : Type) where
  ells : List C
  infinity : Bool
deriving DecidableEq

/-- `PreparedVerifyingKey` of arkworks. -/
structure Pvk (V T C : Type) where
  vk : V
  alphaBeta : T
  gammaNeg : Prepared C
  deltaNeg : Prepared C
deriving DecidableEq

section

variable {V T C : Type} (cV : Canon V) (cT : Canon T) (cE : Canon (List C)) (cB : Canon Bool)

/-- `serialize` of `G2PreparedRef`, pairing.rs:172-232. -/
def Prepared.write : Mode → Prepared C → List Bytes
  | .compressed, p => cE.write .compressed p.ells ++ cB.write .compressed p.infinity
  | .uncompressed, p => cE.write .uncompressed p.ells ++ cB.write .uncompressed p.infinity
  | .unchecked, p => cE.write .unchecked p.ells ++ cB.write .unchecked p.infinity

/-- The derived `deserialize` of `G2Prepared`, pairing.rs:123: the fields in order. -/
def Prepared.read (m : Mode) : Prog (Prepared C) :=
  (cE.read m).bind fun e => (cB.read m).bind fun i => .done ⟨e, i⟩

/-- The encoding of prepared points, with `serialized_size` and `uncompressed_size`. -/
def Prepared.canon : Canon (Prepared C) where
  write := Prepared.write cE cB
  read := Prepared.read cE cB
  serializedSize p := cE.serializedSize p.ells + cB.serializedSize p.infinity
  uncompressedSize p := cE.uncompressedSize p.ells + cB.uncompressedSize p.infinity

variable (cP : Canon (Prepared C))

/-- `serialize`, `serialize_uncompressed` and `serialize_unchecked` of `VerifyingContext`, groth16.rs:342-361, 378-416. -/
def Pvk.write : Mode → Pvk V T C → List Bytes
  | .compressed, p => cV.write .compressed p.vk ++ cT.write .compressed p.alphaBeta ++
      cP.write .compressed p.gammaNeg ++ cP.write .compressed p.deltaNeg
  | .uncompressed, p => cV.write .uncompressed p.vk ++ cT.write .uncompressed p.alphaBeta ++
      cP.write .uncompressed p.gammaNeg ++ cP.write .uncompressed p.deltaNeg
  | .unchecked, p => cV.write .unchecked p.vk ++ cT.write .unchecked p.alphaBeta ++
      cP.write .unchecked p.gammaNeg ++ cP.write .unchecked p.deltaNeg

/-- `deserialize`, `deserialize_uncompressed` and `deserialize_unchecked` of `VerifyingContext`, groth16.rs:440-500. -/
def Pvk.read : Mode → Prog (Pvk V T C)
  | .compressed => (cV.read .compressed).bind fun vk => (cT.read .compressed).bind fun ab =>
      (cP.read .compressed).bind fun g => (cP.read .compressed).bind fun d => .done ⟨vk, ab, g, d⟩
  | .uncompressed => (cV.read .uncompressed).bind fun vk => (cT.read .uncompressed).bind fun ab =>
      (cP.read .uncompressed).bind fun g => (cP.read .uncompressed).bind fun d => .done ⟨vk, ab, g, d⟩
  | .unchecked => (cV.read .unchecked).bind fun vk => (cT.read .unchecked).bind fun ab =>
      (cP.read .unchecked).bind fun g => (cP.read .unchecked).bind fun d => .done ⟨vk, ab, g, d⟩

/-- The encoding of a verifying context; sizes: groth16.rs:363-376, 419-432. -/
def Pvk.canon : Canon (Pvk V T C) where
  write := Pvk.write cV cT cP
  read := Pvk.read cV cT cP
  serializedSize p := cV.serializedSize p.vk + cT.serializedSize p.alphaBeta + cP.serializedSize p.gammaNeg +
    cP.serializedSize p.deltaNeg
  uncompressedSize p := cV.uncompressedSize p.vk + cT.uncompressedSize p.alphaBeta + cP.uncompressedSize p.gammaNeg +
    cP.uncompressedSize p.deltaNeg

end

/-! ## Contexts for all shapes, canonical.rs:536-765 -/

/-- `TransferShape`, canonical.rs:238-247. -/
inductive Kind where
  | toPrivate
  | privateTransfer
  | toPublic
deriving DecidableEq

/-- `MultiProvingContext` and `MultiVerifyingContext`, canonical.rs:560-573, 610-622. -/
structure Multi (α : Type) where
  toPrivate : α
  privateTransfer : α
  toPublic : α
deriving DecidableEq

/-- `select`, canonical.rs:580-587, 727-734. -/
def Multi.select {α : Type} (m : Multi α) : Kind → α
  | .toPrivate => m.toPrivate
  | .privateTransfer => m.privateTransfer
  | .toPublic => m.toPublic

variable {α : Type}

/-- `serialize` and its variants of `MultiVerifyingContext`, canonical.rs:632-671. -/
def Multi.write (c : Canon α) : Mode → Multi α → List Bytes
  | .compressed, m => c.write .compressed m.toPrivate ++ c.write .compressed m.privateTransfer ++ c.write .compressed m.toPublic
  | .uncompressed, m =>
    c.write .uncompressed m.toPrivate ++ c.write .uncompressed m.privateTransfer ++ c.write .uncompressed m.toPublic
  | .unchecked, m => c.write .unchecked m.toPrivate ++ c.write .unchecked m.privateTransfer ++ c.write .unchecked m.toPublic

/-- `deserialize` and its variants, canonical.rs:685-719. -/
def Multi.read (c : Canon α) : Mode → Prog (Multi α)
  | .compressed => (c.read .compressed).bind fun x => (c.read .compressed).bind fun y => (c.read .compressed).bind fun z =>
      .done ⟨x, y, z⟩
  | .uncompressed => (c.read .uncompressed).bind fun x => (c.read .uncompressed).bind fun y =>
      (c.read .uncompressed).bind fun z => .done ⟨x, y, z⟩
  | .unchecked => (c.read .unchecked).bind fun x => (c.read .unchecked).bind fun y => (c.read .unchecked).bind fun z =>
      .done ⟨x, y, z⟩

/-- The encoding of a context for all shapes; sizes: canonical.rs:644-648, 673-677. -/
def Multi.canon (c : Canon α) : Canon (Multi α) where
  write := Multi.write c
  read := Multi.read c
  serializedSize m := c.serializedSize m.toPrivate + c.serializedSize m.privateTransfer + c.serializedSize m.toPublic
  uncompressedSize m := c.uncompressedSize m.toPrivate + c.uncompressedSize m.privateTransfer + c.uncompressedSize m.toPublic

/-- `generate_context`, canonical.rs:738-764: `gen` makes the pair of contexts of a shape from the state of the generator. -/
def generateContext {PC VC S E : Type} (gen : Kind → S → Except E ((PC × VC) × S)) (s : S) :
    Except E ((Multi PC × Multi VC) × S) :=
  match gen .toPrivate s with
  | .error e => .error e
  | .ok (a, s) =>
    match gen .privateTransfer s with
    | .error e => .error e
    | .ok (b, s) =>
      match gen .toPublic s with
      | .error e => .error e
      | .ok (c, s) => .ok ((⟨a.1, b.1, c.1⟩, ⟨a.2, b.2, c.2⟩), s)

/-! ## Encodings that are used -/

/-- `Encode for ProvingContext`, groth16.rs:295-303, `Decode`, groth16.rs:275-287: without compression and checks. -/
def encodeProving {W ε : Type} (c : Canon α) (wr : W → Bytes → Except ε W) (k : α) (w : W) : Except ε W :=
  encode wr (c.write .unchecked k) w

def decodeProving {R ε : Type} (c : Canon α) (rd : ReadExact R ε) (r : R) : Decoded α R ε := decode rd (c.read .unchecked) r

/-- `Encode for VerifyingContext`, groth16.rs:531-539, `Decode`, groth16.rs:510-523; `Group`, algebra.rs:295-323;
`Fp`, fp.rs:104-133. -/
def encodeChecked {W ε : Type} (c : Canon α) (wr : W → Bytes → Except ε W) (k : α) (w : W) : Except ε W :=
  encode wr (c.write .compressed k) w

def decodeChecked {R ε : Type} (c : Canon α) (rd : ReadExact R ε) (r : R) : Decoded α R ε := decode rd (c.read .compressed) r

/-- `proof_as_bytes`, groth16.rs:186-195, `affine_point_as_bytes`, algebra.rs:96-105, `field_element_as_bytes`, fp.rs:248-253. -/
def asBytes (c : Canon α) (v : α) : Bytes := (c.write .compressed v).flatten

/-- The bytes read by a program from the front of a slice. -/
def Prog.parse {α : Type} : Prog α → Bytes → Option (α × Bytes)
  | .done a, bs => some (a, bs)
  | .fail, _ => none
  | .read n k, bs => if n ≤ bs.length then (k (bs.take n)).parse (bs.drop n) else none

/-- `TryFrom<Vec<u8>>` of `Proof`, groth16.rs:172-182, of `Group`, algebra.rs:388-398, and of `Fp`, fp.rs:233-243; what remains of
the bytes is dropped. Also `canonical_deserialize`, serialize.rs:211-219. -/
def tryFrom (c : Canon α) (bs : Bytes) : Option α := ((c.read .compressed).parse bs).map Prod.fst

/-- `Encode for Proof`, groth16.rs:164-169: the bytes as a vector. -/
def encProof (c : Canon α) : Verif.Codec.Enc α := fun v => Verif.Codec.encVec (Verif.Codec.encUInt 1) ((asBytes c v).map UInt8.toNat)

/-! ## Verification -/

/-- `verify`, groth16.rs:603-609, with the verifier of arkworks on discrete logarithms: the input is combined with the points
of the key, everything else comes from the prepared part. `none` is an error. -/
def verify {F V T C : Type} [CommRing F] [DecidableEq F] (abc : V → List F) (gt : T → F) (val : Prepared C → F) (p : Pvk V T C)
    (input : List F) (a b c : F) : Option Bool :=
  if input.length + 1 = (abc p.vk).length then
    some (decide (a * b + ((List.zipWith (· * ·) (1 :: input) (abc p.vk)).foldr (· + ·) 0) * val p.gammaNeg + c * val p.deltaNeg =
      gt p.alphaBeta))
  else none

end Verif.Keys
