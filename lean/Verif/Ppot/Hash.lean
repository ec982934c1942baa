import Verif.Ppot.Model

/-!
# Model of hashing to the second group

`manta-trusted-setup/src/groth16/ppot/hashing.rs` and `hash_to_group` of `util.rs`. Blake2b and ChaCha20 are
parameters: a function from bytes to bytes, and one from seeds to sequences of 32-bit words. Sampling loops until it
succeeds; the model stops after `fuel` rounds with `none`.
-/

namespace Verif.Ppot

open Verif.Codec (Bytes toLE fromLE)

/-- The words an `RngCore` returns, by position. -/
abbrev Words := ℕ → UInt32

/-- `u64::sample`, hashing.rs:126-133. -/
def sampleU64 (w : Words) (i : ℕ) : UInt64 := ((w i).toUInt64 <<< 32) ||| (w (i + 1)).toUInt64

/-- `bool::sample`, hashing.rs:135-142. -/
def sampleBool (w : Words) (i : ℕ) : Bool := (w i).toUInt8 &&& 1 == 1

/-- The number of a `BigInteger256`. -/
def bigValue (l0 l1 l2 l3 : UInt64) : ℕ :=
  l0.toNat + 2 ^ 64 * l1.toNat + 2 ^ 128 * l2.toNat + 2 ^ 192 * l3.toNat

/-- The body of the loop of `Fq::sample`, hashing.rs:92-100; `BigInteger256::sample`, hashing.rs:112-124. `Fp256::new`
takes the number for the Montgomery representation of the element. `shave` is `REPR_SHAVE_BITS`. -/
def fieldAttempt {q : ℕ} (shave : UInt64) (w : Words) (i : ℕ) : Option (ZMod q) :=
  let v := bigValue (sampleU64 w i) (sampleU64 w (i + 2)) (sampleU64 w (i + 4))
    (sampleU64 w (i + 6) &&& (0xffffffffffffffff >>> shave))
  if v < q then some ((v : ZMod q) * ((2 : ZMod q) ^ 256)⁻¹) else none

/-- `Fq::sample`, hashing.rs:87-102. -/
def sampleField {q : ℕ} (shave : UInt64) (w : Words) : ℕ → ℕ → Option (ZMod q × ℕ)
  | 0, _ => none
  | fuel + 1, i =>
    match fieldAttempt shave w i with
    | some x => some (x, i + 8)
    | none => sampleField shave w fuel (i + 8)

/-- The arguments of `Fq2::new`, hashing.rs:103-110, from the first to the last. -/
def sampleCoords {q : ℕ} (shave : UInt64) (w : Words) (fuel : ℕ) : ℕ → ℕ → Option (List (ZMod q) × ℕ)
  | 0, i => some ([], i)
  | n + 1, i =>
    match sampleField shave w fuel i with
    | none => none
    | some (x, j) =>
      match sampleCoords shave w fuel n j with
      | none => none
      | some (xs, k) => some (x :: xs, k)

section
variable {q : ℕ} {K L : Type} [Field K] [DecidableEq K] [Field L] [DecidableEq L]

/-- `GroupAffine::sample`, hashing.rs:65-85, with `scale_by_cofactor` as parameter. -/
def samplePoint (C : Curve q K) (scale : Point K → Point K) (shave : UInt64) (w : Words) (fuel : ℕ) :
    ℕ → ℕ → Option (Point K × ℕ)
  | 0, _ => none
  | rounds + 1, i =>
    match sampleCoords shave w fuel C.n i with
    | none => none
    | some (x, j) =>
      match pointFromX C (C.ofCoords x) (sampleBool w j) with
      | none => samplePoint C scale shave w fuel rounds (j + 1)
      | some p => if scale p = .zero then samplePoint C scale shave w fuel rounds (j + 1) else some (scale p, j + 1)

/-- The seed that `hash_to_group` makes of the digest, util.rs:426-434: each of the first eight words reversed. -/
def seedOf (digest : Bytes) : Bytes :=
  (List.range 8).flatMap fun k => ((digest.drop (4 * k)).take 4).reverse

/-- What `PpotHasher::hash` feeds to Blake, hashing.rs:49-55. -/
def hashInput (C : Curve q K) (tag : UInt8) (challenge : Bytes) (p p' : Point K) : Bytes :=
  tag :: challenge ++ uncompressed C p ++ uncompressed C p'

/-- `PpotHasher::hash`, hashing.rs:42-58, and `hash_to_group`, util.rs:417-436. -/
def hashToGroup (C : Curve q K) (D : Curve q L) (scale : Point L → Point L) (blake : Bytes → Bytes) (chacha : Bytes → Words)
    (fuel rounds : ℕ) (tag : UInt8) (challenge : Bytes) (p p' : Point K) : Option (Point L) :=
  (samplePoint D scale 2 (chacha (seedOf (blake (hashInput C tag challenge p p')))) fuel rounds 0).map Prod.fst

end
end Verif.Ppot
