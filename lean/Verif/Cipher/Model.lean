import Verif.Util.Model
import Verif.Codec.Model

/-!
# Duplex-sponge encryption and note encodings

Models the permutation sponge (`manta-crypto/src/permutation/sponge.rs`), the duplexer
(`manta-crypto/src/permutation/duplex.rs`), its Poseidon block format
(`manta-pay/src/crypto/poseidon/encryption.rs`), AES-GCM with fixed nonce
(`manta-pay/src/crypto/encryption/aes.rs`) and the converters between note plaintexts and cipher plaintexts
(`manta-pay/src/config/utxo.rs:560-735, 884-1032, 1630-1778`).

The permutation, AES-GCM itself, and the hash that turns a group element into an AES key are parameters.
`none` in an outer `Option` is a panic. Only the native (`COM = ()`) execution is modelled.
-/

namespace Verif.Cipher

open Verif.Codec (Bytes toLE fromLE)

/-! ## Sponge -/

/-- `Sponge::absorb`, sponge.rs:83-91: write, then permute. -/
def absorb {B S O : Type} (write : B → S → Option (O × S)) (perm : S → S) (b : B) (s : S) :
    Option (O × S) :=
  match write b s with
  | none => none
  | some (o, s') => some (o, perm s')

/-- `Sponge::absorb_all`, sponge.rs:96-107. -/
def absorbAll {B S O : Type} (write : B → S → Option (O × S)) (perm : S → S) :
    List B → S → Option (List O × S)
  | [], s => some ([], s)
  | b :: bs, s =>
    match absorb write perm b s with
    | none => none
    | some (o, s') =>
      match absorbAll write perm bs s' with
      | none => none
      | some (os, s'') => some (o :: os, s'')

/-! ## Poseidon blocks -/

variable {F : Type}

/-- The loop `for (i, elem) in state.iter_mut().skip(1).enumerate() { *elem = elem.add(&self.0[i]) }` on the
part of the state after the first element (encryption.rs:95-97, 153-155); `none` is the index panic. -/
def addBlock [Add F] : List F → List F → Option (List F)
  | [], _ => some []
  | _ :: _, [] => none
  | e :: es, b :: bs =>
    match addBlock es bs with
    | none => none
    | some r => some ((e + b) :: r)

/-- The loop of `CiphertextBlock::write`, encryption.rs:269-274: recovered plaintext and new state part. -/
def takeBlock [Sub F] : List F → List F → Option (List F × List F)
  | [], _ => some ([], [])
  | _ :: _, [] => none
  | e :: es, b :: bs =>
    match takeBlock es bs with
    | none => none
    | some (p, r) => some ((b - e) :: p, b :: r)

/-- `SetupBlock::write`, encryption.rs:93-98. -/
def writeSetup [Add F] (b : List F) (s : List F) : Option (Unit × List F) :=
  match addBlock (s.drop 1) b with
  | none => none
  | some r => some ((), s.take 1 ++ r)

/-- `PlaintextBlock::write`, encryption.rs:152-158: the ciphertext block is the new state after its first
element. -/
def writePlain [Add F] (b : List F) (s : List F) : Option (List F × List F) :=
  match addBlock (s.drop 1) b with
  | none => none
  | some r => some (r, s.take 1 ++ r)

/-- `CiphertextBlock::write`, encryption.rs:268-276. -/
def writeCipher [Sub F] (b : List F) (s : List F) : Option (List F × List F) :=
  match takeBlock (s.drop 1) b with
  | none => none
  | some (p, r) => some (p, s.take 1 ++ r)

/-- `FixedDuplexer`: permutation with its width, and `FixedEncryption` (the initial state),
encryption.rs:560-600 and duplex.rs:218-235. -/
structure Duplexer (F : Type) where
  width : Nat
  perm : List F → List F
  initial : List F

/-- `FixedEncryption::setup`, encryption.rs:679-694. -/
def setupBlocks [OfNat F 0] (width : Nat) (key header : List F) : Option (List (List F)) :=
  match Util.paddedChunksWith key (width - 1) 0, Util.paddedChunksWith header (width - 1) 0 with
  | some ks, some hs => some (ks ++ hs)
  | _, _ => none

/-- `Duplexer::setup`, duplex.rs:254-263. -/
def Duplexer.setup [Add F] [OfNat F 0] (D : Duplexer F) (key header : List F) : Option (List F) :=
  match setupBlocks D.width key header with
  | none => none
  | some bs =>
    match absorbAll writeSetup D.perm bs D.initial with
    | none => none
    | some (_, s) => some s

/-- `Duplexer::encrypt`, duplex.rs:267-283 and 444-463: tag and ciphertext blocks. `Tag::read` is `state[1]`
(encryption.rs:498-501). -/
def Duplexer.encrypt [Add F] [OfNat F 0] (D : Duplexer F) (key header : List F) (plain : List (List F)) :
    Option (F × List (List F)) :=
  match D.setup key header with
  | none => none
  | some s =>
    match absorbAll writePlain D.perm plain s with
    | none => none
    | some (c, s') =>
      match s'[1]? with
      | none => none
      | some t => some (t, c)

/-- `Duplexer::decrypt`, duplex.rs:287-303 and 466-485, with `FixedEncryption::verify`
(encryption.rs:705-712). -/
def Duplexer.decrypt [Add F] [Sub F] [OfNat F 0] [DecidableEq F] (D : Duplexer F) (key header : List F)
    (c : F × List (List F)) : Option (Bool × List (List F)) :=
  match D.setup key header with
  | none => none
  | some s =>
    match absorbAll writeCipher D.perm c.2 s with
    | none => none
    | some (p, s') =>
      match s'[1]? with
      | none => none
      | some t => some (decide (c.1 = t), p)

/-! ## Note plaintexts -/

/-- `IncomingPlaintext` and `Asset` of manta-pay: field elements modulo `p` and a `u128` value. -/
structure Note (p : Nat) where
  rand : Fin p
  id : Fin p
  value : Nat
deriving DecidableEq

structure OutNote (p : Nat) where
  id : Fin p
  value : Nat
deriving DecidableEq

/-- `IncomingEncryptionSchemeConverter::as_target` for keys, utxo.rs:605-612: the coordinates. -/
def keyBlocks {p : Nat} (xy : Fin p × Fin p) : List (Fin p) := [xy.1, xy.2]

/-- `IncomingEncryptionSchemeConverter::as_target` for plaintexts, utxo.rs:670-683. -/
def Note.blocks {p : Nat} [NeZero p] (n : Note p) : List (List (Fin p)) :=
  [[n.rand, n.id, Fin.ofNat p n.value]]

/-- `try_into_u128`, manta-crypto/src/arkworks/ff.rs:25-55: the comparison is with the field element
`2^128`, the result is read from the low 16 bytes. -/
def tryIntoU128 {p : Nat} (x : Fin p) : Option Nat :=
  if x.val < 2 ^ 128 % p then some (x.val % 2 ^ 128) else none

/-- `IncomingEncryptionSchemeConverter::into_source`, utxo.rs:711-731. -/
def noteOfBlocks {p : Nat} (t : Bool × List (List (Fin p))) : Option (Note p) :=
  if t.1 then
    match t.2 with
    | [[r, i, v]] =>
      match tryIntoU128 v with
      | none => none
      | some v => some ⟨r, i, v⟩
    | _ => none
  else none

/-- Encryption of an incoming note: utxo.rs:536-560 with the converters. -/
def encNote {p : Nat} [NeZero p] (D : Duplexer (Fin p)) (key : Fin p × Fin p) (n : Note p) :
    Option (Fin p × List (List (Fin p))) :=
  D.encrypt (keyBlocks key) [] n.blocks

/-- Decryption of an incoming note. -/
def decNote {p : Nat} [NeZero p] (D : Duplexer (Fin p)) (key : Fin p × Fin p)
    (c : Fin p × List (List (Fin p))) : Option (Option (Note p)) :=
  match D.decrypt (keyBlocks key) [] c with
  | none => none
  | some t => some (noteOfBlocks t)

/-! ## AES notes -/

/-- AES-256-GCM under the fixed nonce, aes.rs:56-65, with the hash of the group element into the key
(`Blake2s256`, utxo.rs:926-931) folded into the key type. -/
structure Aes (K : Type) where
  enc : K → Bytes → Bytes
  dec : K → Bytes → Option Bytes

/-- What is assumed of AES-GCM: authenticated decryption inverts encryption, and plaintexts are 16 bytes
shorter than ciphertexts. -/
structure Aes.Laws {K : Type} (A : Aes K) : Prop where
  inv : ∀ k m, A.dec k (A.enc k m) = some m
  encLen : ∀ k m, (A.enc k m).length = m.length + 16
  decLen : ∀ k c m, A.dec k c = some m → c.length = m.length + 16

/-- `Fp::to_vec`, fp.rs:121-134: 32 bytes, little endian. -/
def fpBytes {p : Nat} (x : Fin p) : Bytes := toLE 32 x.val

/-- `Fp::from_vec`, fp.rs:99-119 and codec.rs:775-779, on 32 bytes: an error when the number is not below the
modulus (`F::deserialize`). -/
def fpOfBytes (p : Nat) (bs : Bytes) : Option (Fin p) :=
  if h : fromLE bs < p then some ⟨fromLE bs, h⟩ else none

/-- `IncomingAESConverter::as_target`, utxo.rs:975-990, before the length assertion. -/
def Note.bytes {p : Nat} (n : Note p) : Bytes := fpBytes n.rand ++ fpBytes n.id ++ toLE 16 n.value

/-- `Array::from_unchecked` on a vector, manta-util/src/array.rs:262-267: panics on another length. -/
def arrayUnchecked (n : Nat) (bs : Bytes) : Option Bytes := if bs.length = n then some bs else none

/-- `FixedNonceAesGcm::encrypt` after the converter, aes.rs:96-113 and utxo.rs:975-990. -/
def encLight {p : Nat} {K : Type} (A : Aes K) (key : K) (n : Note p) : Option Bytes :=
  match arrayUnchecked 80 n.bytes with
  | none => none
  | some m => arrayUnchecked 96 (A.enc key m)

/-- `IncomingAESConverter::into_source` on decrypted bytes, utxo.rs:1011-1031. The slices are in bounds for 80
bytes; both field conversions are `expect`ed, in this order. -/
def noteOfBytes (p : Nat) (bs : Bytes) : Option (Note p) :=
  match fpOfBytes p (bs.take 32) with
  | none => none
  | some r =>
    match fpOfBytes p ((bs.drop 32).take 32) with
    | none => none
    | some i => some ⟨r, i, fromLE ((bs.drop 64).take 16)⟩

/-- Decryption of a light incoming note, aes.rs:117-131 and utxo.rs:1011-1031. -/
def decLight (p : Nat) {K : Type} (A : Aes K) (key : K) (c : Bytes) : Option (Option (Note p)) :=
  match A.dec key c with
  | none => some none
  | some m =>
    match arrayUnchecked 80 m with
    | none => none
    | some m =>
      match noteOfBytes p m with
      | none => none
      | some n => some (some n)

/-- `OutgoingAESConverter::as_target`, utxo.rs:1726-1738. -/
def OutNote.bytes {p : Nat} (n : OutNote p) : Bytes := fpBytes n.id ++ toLE 16 n.value

def encOut {p : Nat} {K : Type} (A : Aes K) (key : K) (n : OutNote p) : Option Bytes :=
  match arrayUnchecked 48 n.bytes with
  | none => none
  | some m => arrayUnchecked 64 (A.enc key m)

/-- `OutgoingAESConverter::into_source`, utxo.rs:1761-1776. -/
def outOfBytes (p : Nat) (bs : Bytes) : Option (OutNote p) :=
  match fpOfBytes p (bs.take 32) with
  | none => none
  | some i => some ⟨i, fromLE ((bs.drop 32).take 16)⟩

def decOut (p : Nat) {K : Type} (A : Aes K) (key : K) (c : Bytes) : Option (Option (OutNote p)) :=
  match A.dec key c with
  | none => some none
  | some m =>
    match arrayUnchecked 48 m with
    | none => none
    | some m =>
      match outOfBytes p m with
      | none => none
      | some n => some (some n)

end Verif.Cipher
