/-!
# Model of `manta-util/src/codec.rs`

Readers, writers, encoders and decoders over byte lists.
A panic is the explicit value `panic` (`Res`) or `none` (writers).
-/

namespace Verif.Codec

abbrev Bytes := List UInt8

/-! ## Little-endian integers -/

/-- `to_le_bytes` of an unsigned integer of `w` bytes (codec.rs:614). -/
def toLE : Nat → Nat → Bytes
  | 0, _ => []
  | w + 1, v => UInt8.ofNat v :: toLE w (v / 256)

/-- `from_le_bytes` (codec.rs:821, 838, 855, 872). -/
def fromLE : Bytes → Nat
  | [] => 0
  | b :: bs => b.toNat + 256 * fromLE bs

/-! ## Readers -/

/-- Outcome of the plain `read` method: `none` is a slice-index panic. -/
abbrev ReadOut (R : Type) := Option (Bytes × R)

/-- The `Read` trait, codec.rs:65-100. `readExact r n` fills a buffer of `n` bytes; the error is
`UnexpectedEnd(missing)`. -/
class Reader (R : Type) where
  read : R → Nat → ReadOut R
  readExact : R → Nat → Except Nat (Bytes × R)

/-- `&[u8]` as reader. -/
structure Slice where
  bytes : Bytes
deriving DecidableEq

/-- `Read for &[u8]`, codec.rs:151-181. `read` slices `&self[..output_len]`, which panics when the
output is longer than the source. -/
instance : Reader Slice where
  read r n := if n ≤ r.bytes.length then some (r.bytes.take n, ⟨r.bytes.drop n⟩) else none
  readExact r n :=
    if n > r.bytes.length then .error (n - r.bytes.length)
    else .ok (r.bytes.take n, ⟨r.bytes.drop n⟩)

/-- `[u8; N]` as reader. -/
structure Arr where
  bytes : Bytes
deriving DecidableEq

/-- `Read for [u8; N]`, codec.rs:192-220. The source is never advanced. -/
instance : Reader Arr where
  read r n := if n ≤ r.bytes.length then some (r.bytes.take n, r) else none
  readExact r n :=
    if n > r.bytes.length then .error (n - r.bytes.length)
    else .ok (r.bytes.take n, r)

/-- `Vec<u8>` as reader. -/
structure VecR where
  bytes : Bytes
deriving DecidableEq

/-- `Read for Vec<u8>`, codec.rs:233-259: read from `as_slice`, then
`drain(..(self.len() - len))` where `len` is what the slice has left. -/
instance : Reader VecR where
  read r n :=
    match Reader.read (Slice.mk r.bytes) n with
    | none => none
    | some (out, s) => some (out, ⟨r.bytes.drop (r.bytes.length - s.bytes.length)⟩)
  readExact r n :=
    match Reader.readExact (Slice.mk r.bytes) n with
    | .error e => .error e
    | .ok (out, s) => .ok (out, ⟨r.bytes.drop (r.bytes.length - s.bytes.length)⟩)

/-! ## Writers -/

/-- The `Write` trait, codec.rs:339-384. `write w input` returns the count, the new writer and the
value the `input` slice is reset to; `none` is a panic. -/
class Writer (W : Type) where
  write : W → Bytes → Option (Nat × W × Bytes)

/-- `write_ref`, codec.rs:354-361: returns the bytes that were not written. -/
def writeRef [Writer W] (w : W) (input : Bytes) : Option (Bytes × W) :=
  match Writer.write w input with
  | none => none
  | some (_, w', rest) => some (rest, w')

/-- The default `write_drain`, codec.rs:372-377. Returns the count, the writer and the drained
input vector. -/
def writeDrainDefault [Writer W] (w : W) (input : Bytes) : Option (Nat × W × Bytes) :=
  match writeRef w input with
  | none => none
  | some (rest, w') => some (input.length - rest.length, w', input.drop (input.length - rest.length))

/-- `Vec<u8>` as writer. -/
structure VecW where
  bytes : Bytes
deriving DecidableEq

/-- `Write for Vec<u8>`, codec.rs:433-442: appends the input, but leaves the `input` slice as is. -/
instance : Writer VecW where
  write w input := some (input.length, ⟨w.bytes ++ input⟩, input)

/-- `write_drain` of `Vec<u8>`, codec.rs:445-449 (`Vec::append` empties the input). -/
def VecW.writeDrain (w : VecW) (input : Bytes) : Nat × VecW × Bytes :=
  (input.length, ⟨w.bytes ++ input⟩, [])

/-- `[u8]` and `[u8; N]` as writers. -/
structure ArrW where
  bytes : Bytes
deriving DecidableEq

/-- `Write for [u8]` / `[u8; N]`, codec.rs:413-429: `input.read(self)`, i.e. the whole buffer is
overwritten from its start with the first bytes of the input (panic if the input is shorter). -/
instance : Writer ArrW where
  write w input :=
    match Reader.read (Slice.mk input) w.bytes.length with
    | none => none
    | some (out, s) => some (w.bytes.length, ⟨out⟩, s.bytes)

/-- `IoWriter` over an infallible sink, codec.rs:465-478. -/
structure IoW where
  bytes : Bytes
deriving DecidableEq

instance : Writer IoW where
  write w input := some (input.length, ⟨w.bytes ++ input⟩, [])

/-- `ReadExt::read_all` of `&[u8]`, codec.rs:187-189: `output.write(self)`. Returns the count, the
output and what is left of the source. -/
def Slice.readAll (r : Slice) (output : VecW) : Option (Nat × VecW × Slice) :=
  match Writer.write output r.bytes with
  | none => none
  | some (n, w, rest) => some (n, w, ⟨rest⟩)

/-- `ReadExt::read_all` of `Vec<u8>`, codec.rs:263-268: `output.write_drain(self)`. -/
def VecR.readAll (r : VecR) (output : VecW) : Nat × VecW × VecR :=
  let x := output.writeDrain r.bytes
  (x.1, x.2.1, ⟨x.2.2⟩)

/-! ## Encoders

An encoder is the list of byte strings it passes to `write_ref`, one per call, in order. The
bytes reported back as "not written" are ignored by every encoder (codec.rs:614), so an encoder
is determined by this list. -/

abbrev Enc (α : Type) := α → List Bytes

/-- Runs an encoder on a writer (`Encode::encode`, codec.rs:567); `none` is a panic. -/
def encodeTo [Writer W] : List Bytes → W → Option W
  | [], w => some w
  | c :: cs, w =>
    match writeRef w c with
    | none => none
    | some (_, w') => encodeTo cs w'

/-- `Encode::to_vec`, codec.rs:575-580. -/
def toVec (enc : Enc α) (v : α) : Option Bytes :=
  match encodeTo (enc v) (VecW.mk []) with
  | none => none
  | some w => some w.bytes

/-- `EncodeExactSize::to_array`, codec.rs:754-759. -/
def toArray (N : Nat) (enc : Enc α) (v : α) : Option Bytes :=
  match encodeTo (enc v) (ArrW.mk (List.replicate N 0)) with
  | none => none
  | some w => some w.bytes

/-- `Encode` for an unsigned integer of `w` bytes, codec.rs:605-622. -/
def encUInt (w : Nat) : Enc Nat := fun v => [toLE w v]

/-- `Encode for bool`, codec.rs:594-602. -/
def encBool : Enc Bool := fun b => encUInt 1 (if b then 1 else 0)

/-- `impl_empty_codec! { () }` and `PhantomData`, codec.rs:49-62, 583-592. -/
def encUnit : Enc Unit := fun _ => []

/-- `Encode for [T; N]`, codec.rs:641-655: no length prefix. -/
def encArray (enc : Enc α) : Enc (List α) := fun xs => (xs.map enc).flatten

/-- `Encode for [T]`, `Vec<T>`, `Box<[T]>`, codec.rs:624-706. `self.len() as u64`. -/
def encVec (enc : Enc α) : Enc (List α) := fun xs => encUInt 8 xs.length ++ (xs.map enc).flatten

/-- `Encode for Option<T>`, codec.rs:708-725. -/
def encOption (enc : Enc α) : Enc (Option α)
  | some v => encUInt 1 1 ++ enc v
  | none => encUInt 1 0

/-- `Encode for Result<T, E>`, codec.rs:727-748. -/
def encResult (enc : Enc α) (encE : Enc ε) : Enc (Except ε α)
  | .ok v => encUInt 1 1 ++ enc v
  | .error e => encUInt 1 0 ++ encE e

/-- Two fields in sequence: `Encode for Asset<I, V>` (manta-accounting/src/asset.rs:282-296), and the
same pattern in `SenderPost`, `ReceiverPost`, `AuthorizationSignature`, `EncryptedMessage`,
hybrid `Ciphertext`, merkle tree `Parameters`. -/
def encPair (enc : Enc α) (enc' : Enc β) : Enc (α × β) := fun p => enc p.1 ++ enc' p.2

/-! ## Decoders -/

/-- Outcome of a decoder: value with the advanced reader, a decode error, or a panic. The reader
state after an error is not modelled. -/
inductive Res (ε α R : Type) where
  | ok (v : α) (r : R)
  | err (e : ε)
  | panic
deriving DecidableEq

/-- A decoder, generic in the reader (codec.rs:763-770). The read errors of the modelled readers
are `Infallible`, so only `DecodeError::Decode` remains. -/
abbrev Dec (ε α : Type) := (R : Type) → [Reader R] → R → Res ε α R

/-- `Decode for u8/u16/u32/u64/u128`, codec.rs:795-877. -/
def decUInt (w : Nat) : Dec Unit Nat := fun _ _ r =>
  match Reader.readExact r w with
  | .error _ => .err ()
  | .ok (bs, r') => .ok (fromLE bs) r'

/-- `Decode` for `()` and `PhantomData`, codec.rs:34-47, 782-793. -/
def decUnit : Dec Empty Unit := fun _ _ r => .ok () r

/-- The `for _ in 0..n` decoding loop with error mapping `map_decode(Some)`,
codec.rs:893-895, 915-917. -/
def decLoop (dec : Dec ε α) : Nat → Dec (Option ε) (List α)
  | 0 => fun _ _ r => .ok [] r
  | n + 1 => fun R _ r =>
    match dec R r with
    | .err e => .err (some e)
    | .panic => .panic
    | .ok v r' =>
      match decLoop dec n R r' with
      | .err e => .err e
      | .panic => .panic
      | .ok vs r'' => .ok (v :: vs) r''

/-- `Decode for [T; N]`, codec.rs:881-898. -/
def decArray (N : Nat) (dec : Dec ε α) : Dec (Option ε) (List α) := decLoop dec N

/-- Rust's limit on the bytes of one allocation (`isize::MAX` on 64 bit). -/
def isizeMax : Nat := 2 ^ 63 - 1

/-- `Decode for Vec<T>` / `Box<[T]>`, codec.rs:902-937. `sz` is the in-memory size of `T`;
`Vec::with_capacity(len)` panics with "capacity overflow" when `len * sz > isize::MAX`
(smaller but unavailable allocations abort the process; not modelled). -/
def decVec (sz : Nat) (dec : Dec ε α) : Dec (Option ε) (List α) := fun R _ r =>
  match decUInt 8 R r with
  | .err _ => .err none
  | .panic => .panic
  | .ok len r' => if len * sz > isizeMax then .panic else decLoop dec len R r'

/-- `OptionDecodeError`, codec.rs:941-950. -/
inductive OptErr (ε : Type) where
  | missingByte
  | invalidByte (b : Nat)
  | someError (e : ε)
deriving DecidableEq

/-- `Decode for Option<T>`, codec.rs:952-973. -/
def decOption (dec : Dec ε α) : Dec (OptErr ε) (Option α) := fun R _ r =>
  match decUInt 1 R r with
  | .err _ => .err .missingByte
  | .panic => .panic
  | .ok tag r' =>
    if tag = 0 then
      match dec R r' with
      | .err e => .err (.someError e)
      | .panic => .panic
      | .ok v r'' => .ok (some v) r''
    else if tag = 1 then .ok none r'
    else .err (.invalidByte tag)

/-- `ResultDecodeError`, codec.rs:977-989. -/
inductive ResErr (ε ε' : Type) where
  | missingByte
  | invalidByte (b : Nat)
  | okError (e : ε)
  | errError (e : ε')
deriving DecidableEq

/-- `Decode for Result<T, E>`, codec.rs:991-1015. -/
def decResult (dec : Dec ε α) (decE : Dec ε' β) : Dec (ResErr ε ε') (Except β α) := fun R _ r =>
  match decUInt 1 R r with
  | .err _ => .err .missingByte
  | .panic => .panic
  | .ok tag r' =>
    if tag = 0 then
      match dec R r' with
      | .err e => .err (.okError e)
      | .panic => .panic
      | .ok v r'' => .ok (.ok v) r''
    else if tag = 1 then
      match decE R r' with
      | .err e => .err (.errError e)
      | .panic => .panic
      | .ok v r'' => .ok (.error v) r''
    else .err (.invalidByte tag)

/-- `AssetDecodeError` (asset.rs:307-318), and `ParameterDecodeError` (tree.rs:755-764). -/
abbrev PairErr (ε ε' : Type) := Sum ε ε'

/-- `Decode for Asset<I, V>`, manta-accounting/src/asset.rs:320-346; same pattern
`Decode for Parameters`, manta-crypto/src/merkle_tree/tree.rs:766-790. -/
def decPair (dec : Dec ε α) (dec' : Dec ε' β) : Dec (PairErr ε ε') (α × β) := fun R _ r =>
  match dec R r with
  | .err e => .err (.inl e)
  | .panic => .panic
  | .ok v r' =>
    match dec' R r' with
    | .err e => .err (.inr e)
    | .panic => .panic
    | .ok w r'' => .ok (v, w) r''

/-- `Decode::from_vec`, codec.rs:776-779 (trailing bytes are dropped with the buffer). -/
def fromVec (dec : Dec ε α) (bs : Bytes) : Option (Except ε α) :=
  match dec VecR ⟨bs⟩ with
  | .ok v _ => some (.ok v)
  | .err e => some (.error e)
  | .panic => none

/-- `DecodeExactSize::from_array`, codec.rs:1021-1025; `none` is the `expect` panic. -/
def fromArray (dec : Dec ε α) (bs : Bytes) : Option α :=
  match dec Arr ⟨bs⟩ with
  | .ok v _ => some v
  | _ => none

/-! ## The message covered by a transfer signature -/

/-- Body of a transfer post as far as the encoder sees it: `TransferPostBody`,
manta-accounting/src/transfer/mod.rs:1469-1490. `S`, `R` are sender and receiver posts. -/
structure Body (I V S R P : Type) where
  assetId : Option I
  sources : List V
  senderPosts : List S
  receiverPosts : List R
  sinks : List V
  proof : P
deriving DecidableEq

/-- `Encode for TransferPostBody`, transfer/mod.rs:1547-1569. -/
def encBody (encI : Enc I) (encV : Enc V) (encS : Enc S) (encR : Enc R) (encP : Enc P) :
    Enc (Body I V S R P) := fun b =>
  encOption encI b.assetId ++ encVec encV b.sources ++ encVec encS b.senderPosts ++
    encVec encR b.receiverPosts ++ encVec encV b.sinks ++ encP b.proof

/-- `Encode for BodyWithAccountsRef`, transfer/mod.rs:1621-1636: the signed message. -/
def encSigned (encI : Enc I) (encV : Enc V) (encS : Enc S) (encR : Enc R) (encP : Enc P)
    (encA : Enc A) : Enc (Body I V S R P × List A) := fun b =>
  encBody encI encV encS encR encP b.1 ++ encVec encA b.2

/-- `TransferPost`, transfer/mod.rs:1675-1691. -/
structure Post (K I V S R P A : Type) where
  signature : Option K
  body : Body I V S R P
  sinkAccounts : List A
deriving DecidableEq

/-- `Encode for TransferPost`, transfer/mod.rs:1918-1933: sink accounts are not written. -/
def encPost (encK : Enc K) (encI : Enc I) (encV : Enc V) (encS : Enc S) (encR : Enc R)
    (encP : Enc P) : Enc (Post K I V S R P A) := fun p =>
  encOption encK p.signature ++ encBody encI encV encS encR encP p.body

end Verif.Codec
