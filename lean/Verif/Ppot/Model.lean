import Mathlib.Data.ZMod.Basic
import Mathlib.Algebra.Field.Basic
import Verif.Codec.Model

/-!
# Model of the powers-of-tau files

Curve points, accumulators and proofs as bytes
(`manta-trusted-setup/src/groth16/ppot/serialization.rs`, `groth16/kzg.rs:279-412,526-690`, `util.rs:53-236`),
and the places in the files of the Perpetual Powers of Tau where they are found.

The two implementations for `G1Affine` and `G2Affine` are the same code over one and two coordinates of 32 bytes;
they are modelled once, for a curve whose coordinates consist of `n` numbers modulo `q`.
-/

namespace Verif.Ppot

open Verif.Codec (Bytes toLE fromLE)

/-- `GroupAffine`: the point at infinity, or two coordinates. -/
inductive Point (K : Type)
  | zero
  | affine (x y : K)
deriving DecidableEq

/-- What the code uses of `ark-bn254` and `ark-ec`: a curve `y² = x³ + b` over the field `K`, whose elements are lists
of `n` numbers modulo `q` (`c0`, `c1`), a square root, and the subgroup test. -/
structure Curve (q : ℕ) (K : Type) where
  n : ℕ
  coords : K → List (ZMod q)
  ofCoords : List (ZMod q) → K
  b : K
  sqrt : K → Option K
  inSubgroup : Point K → Bool

/-- `PointDeserializeError`, serialization.rs:383-398. -/
inductive PointError
  | expectedCompressed
  | expectedUncompressed
  | pointAtInfinity
  | extraYCoordinate
  | notOnCurve
  | notInSubgroup
  | wrongCurve
deriving DecidableEq, Repr

/-! ## Readers -/

/-- An `io::Read`: the pieces that successive calls of `read` can return. A slice has one piece. -/
abbrev Stream := List Bytes

/-- What is left of a piece, before the other pieces. -/
def Stream.push (c : Bytes) (s : Stream) : Stream := if c = [] then s else c :: s

/-- `&[u8]` as a reader. -/
def slice (bs : Bytes) : Stream := Stream.push bs []

/-- `let mut copy = [0u8; n]; let _ = reader.read(&mut copy);` (serialization.rs:59-60, 113-114, 151-152, 210-211): one
call of `read`, whose count is ignored. -/
def readInto (n : ℕ) : Stream → Bytes × Stream
  | [] => (List.replicate n 0, [])
  | c :: s => (c.take n ++ List.replicate (n - c.length) 0, Stream.push (c.drop n) s)

section
variable {q : ℕ} {K : Type} [Field K] [DecidableEq K]

/-! ## Field elements -/

/-- `ToBytes::write` of a field element: the coordinates in order, each little-endian in 32 bytes. -/
def fieldBytes (C : Curve q K) (k : K) : Bytes := (C.coords k).flatMap fun c => toLE 32 c.val

/-- `from_be_bytes_mod_order`. -/
def beField (bs : Bytes) : ZMod q := (fromLE bs.reverse : ℕ)

/-- The slices `copy[..32]`, `copy[32..64]`, … -/
def blocks : ℕ → Bytes → List Bytes
  | 0, _ => []
  | n + 1, bs => bs.take 32 :: blocks n (bs.drop 32)

/-- `BaseFieldG1Type::from_be_bytes_mod_order(..)` or `BaseFieldG2Type::new(x_c0, x_c1)` of big-endian blocks with the
last coordinate first, serialization.rs:91-92, 136, 183-189, 233-236. -/
def beCoords (C : Curve q K) (bs : Bytes) : K := C.ofCoords ((blocks C.n bs).map beField).reverse

/-- The order of field elements: canonical integers, for extensions the last coordinate first (`Ord` of `Fp256` and
`QuadExtField`). -/
def fieldLt (C : Curve q K) (k l : K) : Bool :=
  decide (((C.coords k).map ZMod.val).reverse < ((C.coords l).map ZMod.val).reverse)

/-- `is_on_curve`. -/
def onCurve (C : Curve q K) : Point K → Bool
  | .zero => true
  | .affine x y => decide (y * y = x * x * x + C.b)

/-- `GroupAffine::get_point_from_x`. -/
def pointFromX (C : Curve q K) (x : K) (greatest : Bool) : Option (Point K) :=
  match C.sqrt (x * x * x + C.b) with
  | none => none
  | some y => some (.affine x (if xor (fieldLt C y (-y)) greatest then y else -y))

/-! ## Points -/

/-- `res[last] |= f`, then `res.reverse()`. -/
def flagReverse (f : UInt8) (res : Bytes) : Bytes :=
  match res.reverse with
  | [] => []
  | b :: bs => (b ||| f) :: bs

/-- `serialize_unchecked` and `serialize_compressed`, serialization.rs:245-274, 299-304, 312-342, 369-374. -/
def compress (C : Curve q K) : Point K → Bytes
  | .zero => flagReverse ((1 : UInt8) <<< 6) (List.replicate (32 * C.n) 0)
  | .affine x y => flagReverse (if fieldLt C (-y) y then (1 : UInt8) <<< 7 else 0) (fieldBytes C x)

/-- `serialize_uncompressed`, serialization.rs:276-293, 344-363. -/
def uncompressed (C : Curve q K) : Point K → Bytes
  | .zero => flagReverse ((1 : UInt8) <<< 6) (List.replicate (64 * C.n) 0)
  | .affine x y => (fieldBytes C y ++ fieldBytes C x).reverse

/-- `copy[0] &= 0x3f`. -/
def mask : Bytes → Bytes
  | [] => []
  | b :: bs => (b &&& 0x3f) :: bs

/-- `copy[0] & (1 << i) != 0`. -/
def flag (i : UInt8) (copy : Bytes) : Bool := copy.headD 0 &&& (1 <<< i) != 0

/-- The branch for the infinity flag: everything else must be zero. -/
def infinity (copy : Bytes) : Except PointError (Point K) :=
  if (mask copy).all (· == 0) then .ok .zero else .error .pointAtInfinity

/-- `deserialize_unchecked`, serialization.rs:55-96, 147-193. -/
def readUnchecked (C : Curve q K) (r : Stream) : Except PointError (Point K) × Stream :=
  let (copy, r') := readInto (64 * C.n) r
  if flag 7 copy then (.error .expectedUncompressed, r')
  else if flag 6 copy then (infinity copy, r')
  else if flag 7 copy then (.error .extraYCoordinate, r')
  else
    let copy := mask copy
    (.ok (.affine (beCoords C (copy.take (32 * C.n))) (beCoords C (copy.drop (32 * C.n)))), r')

/-- `check`, serialization.rs:98-105, 195-202, and `curve_point_checks`, serialization.rs:416-426. -/
def check (C : Curve q K) (p : Point K) : Except PointError Unit :=
  if !onCurve C p then .error .notOnCurve
  else if !C.inSubgroup p then .error .notInSubgroup
  else .ok ()

/-- `deserialize_uncompressed`, util.rs:131-139 (the default of the trait). -/
def readUncompressed (C : Curve q K) (r : Stream) : Except PointError (Point K) × Stream :=
  match readUnchecked C r with
  | (.error e, r') => (.error e, r')
  | (.ok p, r') =>
    match check C p with
    | .error e => (.error e, r')
    | .ok () => (.ok p, r')

/-- `deserialize_compressed`, serialization.rs:109-141, 206-241. -/
def readCompressed (C : Curve q K) (r : Stream) : Except PointError (Point K) × Stream :=
  let (copy, r') := readInto (32 * C.n) r
  if flag 6 copy then (infinity copy, r')
  else
    match pointFromX C (beCoords C (mask copy)) (flag 7 copy) with
    | none => (.error .notOnCurve, r')
    | some p => (.ok p, r')

/-! ## Lists of points -/

/-- `for elem in xs { C::serialize_*(elem, &mut writer)? }`. -/
def writeAll (w : Point K → Bytes) (xs : List (Point K)) : Bytes := xs.flatMap w

/-- `for _ in 0..n { xs.push(read(&mut reader)?) }` and `Vec::try_allocate_with`. -/
def readMany {ε α : Type} (rd : Stream → Except ε α × Stream) : ℕ → Stream → Except ε (List α) × Stream
  | 0, r => (.ok [], r)
  | n + 1, r =>
    match rd r with
    | (.error e, r') => (.error e, r')
    | (.ok p, r') =>
      match readMany rd n r' with
      | (.error e, r'') => (.error e, r'')
      | (.ok ps, r'') => (.ok (p :: ps), r'')

end

/-! ## Accumulators and proofs -/

/-- `Compressed`, serialization.rs:430-435. -/
inductive Compressed
  | no
  | yes
deriving DecidableEq, Repr

/-- `Accumulator`, kzg.rs:417-435. -/
structure Accumulator (K L : Type) where
  tauG1 : List (Point K)
  tauG2 : List (Point L)
  alphaTau : List (Point K)
  betaTau : List (Point K)
  betaG2 : Point L
deriving DecidableEq

/-- `RatioProof`, ratio.rs. -/
structure Ratio (K L : Type) where
  ratio : Point K × Point K
  matching : Point L
deriving DecidableEq

/-- `Proof`, kzg.rs:206-220. -/
structure Proof (K L : Type) where
  tau : Ratio K L
  alpha : Ratio K L
  beta : Ratio K L
deriving DecidableEq

section
variable {q : ℕ} {K L : Type} [Field K] [DecidableEq K] [Field L] [DecidableEq L]

/-- The serializer that belongs to a compression. -/
def writePoint (C : Curve q K) : Compressed → Point K → Bytes
  | .no => uncompressed C
  | .yes => compress C

/-- The sequencing of readers by `?`. -/
def andThen {ε α β : Type} (x : Except ε α × Stream) (f : α → Stream → Except ε β × Stream) :
    Except ε β × Stream :=
  match x with
  | (.error e, r) => (.error e, r)
  | (.ok a, r) => f a r

/-- `CanonicalSerialize for Accumulator`, kzg.rs:530-550 and 568-588. -/
def Accumulator.bytes (C : Curve q K) (D : Curve q L) (c : Compressed) (a : Accumulator K L) : Bytes :=
  writeAll (writePoint C c) a.tauG1 ++ writeAll (writePoint D c) a.tauG2 ++ writeAll (writePoint C c) a.alphaTau ++
    writeAll (writePoint C c) a.betaTau ++ writePoint D c a.betaG2

/-- The five reads of an accumulator with `n1` and `n2` powers. -/
def Accumulator.readWith (rd : Stream → Except PointError (Point K) × Stream)
    (rd' : Stream → Except PointError (Point L) × Stream) (n1 n2 : ℕ) (r : Stream) :
    Except PointError (Accumulator K L) × Stream :=
  andThen (readMany rd n1 r) fun t1 r =>
  andThen (readMany rd' n2 r) fun t2 r =>
  andThen (readMany rd n2 r) fun a r =>
  andThen (readMany rd n2 r) fun b r =>
  andThen (rd' r) fun b2 r => (.ok ⟨t1, t2, a, b, b2⟩, r)

/-- `Accumulator::deserialize`, kzg.rs:613-641. -/
def Accumulator.readCompressed (C : Curve q K) (D : Curve q L) (n1 n2 : ℕ) (r : Stream) :
    Except PointError (Accumulator K L) × Stream :=
  Accumulator.readWith (Ppot.readCompressed C) (Ppot.readCompressed D) n1 n2 r

/-- `Accumulator::deserialize_unchecked`, kzg.rs:666-689. -/
def Accumulator.readUnchecked (C : Curve q K) (D : Curve q L) (n1 n2 : ℕ) (r : Stream) :
    Except PointError (Accumulator K L) × Stream :=
  Accumulator.readWith (Ppot.readUnchecked C) (Ppot.readUnchecked D) n1 n2 r

/-- `cfg_iter!(points).try_for_each(f)`: the first error (of a sequential run). -/
def tryEach {α : Type} (f : α → Except PointError Unit) : List α → Except PointError Unit
  | [] => .ok ()
  | x :: xs =>
    match f x with
    | .error e => .error e
    | .ok () => tryEach f xs

/-- The five checks of kzg.rs:649-661. -/
def Accumulator.check (C : Curve q K) (D : Curve q L) (a : Accumulator K L) : Except PointError Unit :=
  match tryEach (Ppot.check C) a.tauG1 with
  | .error e => .error e
  | .ok () =>
    match tryEach (Ppot.check D) a.tauG2 with
    | .error e => .error e
    | .ok () =>
      match tryEach (Ppot.check C) a.alphaTau with
      | .error e => .error e
      | .ok () =>
        match tryEach (Ppot.check C) a.betaTau with
        | .error e => .error e
        | .ok () => Ppot.check D a.betaG2

/-- `Accumulator::deserialize_uncompressed`, kzg.rs:644-663. -/
def Accumulator.readUncompressed (C : Curve q K) (D : Curve q L) (n1 n2 : ℕ) (r : Stream) :
    Except PointError (Accumulator K L) × Stream :=
  match Accumulator.readUnchecked C D n1 n2 r with
  | (.error e, r') => (.error e, r')
  | (.ok a, r') =>
    match a.check C D with
    | .error e => (.error e, r')
    | .ok () => (.ok a, r')

/-- `NonZeroError`, util.rs:153-160. -/
inductive NonZeroError
  | isZero
  | error (e : PointError)
deriving DecidableEq

/-- `NonZero::deserialize_*`, util.rs:206-235. -/
def readNonZero (rd : Stream → Except PointError (Point K) × Stream) (r : Stream) :
    Except NonZeroError (Point K) × Stream :=
  match rd r with
  | (.error e, r') => (.error (.error e), r')
  | (.ok .zero, r') => (.error .isZero, r')
  | (.ok (.affine x y), r') => (.ok (.affine x y), r')

/-- `CanonicalSerialize for Proof`, kzg.rs:283-299 and 313-329. -/
def Proof.bytes (C : Curve q K) (D : Curve q L) (c : Compressed) (π : Proof K L) : Bytes :=
  writePoint C c π.tau.ratio.1 ++ writePoint C c π.tau.ratio.2 ++
  writePoint C c π.alpha.ratio.1 ++ writePoint C c π.alpha.ratio.2 ++
  writePoint C c π.beta.ratio.1 ++ writePoint C c π.beta.ratio.2 ++
  writePoint D c π.tau.matching ++ writePoint D c π.alpha.matching ++ writePoint D c π.beta.matching

/-- `CanonicalDeserialize for Proof`, kzg.rs:348-379 and 381-411. -/
def Proof.readWith (rd : Stream → Except PointError (Point K) × Stream)
    (rd' : Stream → Except PointError (Point L) × Stream) (r : Stream) :
    Except NonZeroError (Proof K L) × Stream :=
  andThen (readNonZero rd r) fun t1 r =>
  andThen (readNonZero rd r) fun t2 r =>
  andThen (readNonZero rd r) fun a1 r =>
  andThen (readNonZero rd r) fun a2 r =>
  andThen (readNonZero rd r) fun b1 r =>
  andThen (readNonZero rd r) fun b2 r =>
  andThen (readNonZero rd' r) fun t r =>
  andThen (readNonZero rd' r) fun a r =>
  andThen (readNonZero rd' r) fun b r =>
    (.ok ⟨⟨(t1, t2), t⟩, ⟨(a1, a2), a⟩, ⟨(b1, b2), b⟩⟩, r)

/-- The deserializer that belongs to a compression. -/
def readPoint (C : Curve q K) : Compressed → Stream → Except PointError (Point K) × Stream
  | .no => Ppot.readUncompressed C
  | .yes => Ppot.readCompressed C

/-- `Proof::deserialize` and `Proof::deserialize_uncompressed`. -/
def Proof.read (C : Curve q K) (D : Curve q L) (c : Compressed) (r : Stream) :
    Except NonZeroError (Proof K L) × Stream :=
  Proof.readWith (readPoint C c) (readPoint D c) r

/-! ## Files -/

/-- `REQUIRED_POWER`, serialization.rs:451; `PPOT_POWERS`, ppot/kzg.rs:197. Below it is a parameter `r`. -/
def requiredPower : ℕ := 28

/-- `TAU_POWERS_LENGTH`, serialization.rs:452. -/
def tauPowers (r : ℕ) : ℕ := 1 <<< r

/-- `TAU_POWERS_G1_LENGTH`, serialization.rs:453, and `G1_POWERS`, ppot/kzg.rs:43. -/
def g1Powers (m : ℕ) : ℕ := (m <<< 1) - 1

/-- `ElementType`, serialization.rs:515-526. -/
inductive Element
  | tauG1
  | tauG2
  | alphaG1
  | betaG1
  | betaG2
deriving DecidableEq, Repr

/-- `is_g1_type`, serialization.rs:563-565. -/
def Element.isG1 : Element → Bool
  | .tauG2 | .betaG2 => false
  | _ => true

/-- `get_size`, serialization.rs:531-548. -/
def Element.size (e : Element) : Compressed → ℕ
  | .no => if e.isG1 then 64 else 128
  | .yes => if e.isG1 then 32 else 64

/-- `num_powers`, serialization.rs:551-560, for a ceremony with `m` powers in the second group. -/
def Element.numPowers (m : ℕ) : Element → ℕ
  | .betaG2 => 1
  | .tauG1 => g1Powers m
  | _ => m

/-- `calculate_mmap_position`, serialization.rs:441-511; `none` is a failed assertion. -/
def position (r index : ℕ) (e : Element) (c : Compressed) : Option ℕ :=
  let (s1, s2) := match c with
    | .no => (64, 128)
    | .yes => (32, 64)
  let t1 := g1Powers (tauPowers r)
  let t := tauPowers r
  match e with
  | .tauG1 => if index < t1 then some (s1 * index + 64) else none
  | .tauG2 => if index < t then some (s1 * t1 + s2 * index + 64) else none
  | .alphaG1 => if index < t then some (s1 * t1 + s2 * t + s1 * index + 64) else none
  | .betaG1 => if index < t then some (s1 * t1 + s2 * t + s1 * t + s1 * index + 64) else none
  | .betaG2 => some (s1 * t1 + s2 * t + s1 * t + s1 * t + 64)

/-- What can go wrong when a file is read: an error value, or a panic (a slice beyond the end of the file, the
`unwrap` of a point check). -/
inductive FileError
  | point (e : PointError)
  | panic
deriving DecidableEq

/-- The loop of `read_g1_powers` and `read_g2_powers`, serialization.rs:582-605, 635-658: `k` elements of the given size
from `start` on. -/
def readElements (rd : Stream → Except PointError (Point K) × Stream) (ok : Bool) (file : Bytes) (size : ℕ) :
    ℕ → ℕ → Except FileError (List (Point K))
  | 0, _ => .ok []
  | k + 1, start =>
    if start + size ≤ file.length then
      if ok then
        match (rd (slice ((file.drop start).take size))).1 with
        | .error e => .error (.point e)
        | .ok p =>
          match readElements rd ok file size k (start + size) with
          | .error e => .error e
          | .ok ps => .ok (p :: ps)
      else .error (.point .wrongCurve)
    else .error .panic

/-- The checks after the loop, serialization.rs:608-617, 660-669: uncompressed points are checked with `unwrap`,
compressed ones only for the subgroup. -/
def checkElements (C : Curve q K) (c : Compressed) (ps : List (Point K)) : Except FileError (List (Point K)) :=
  match c with
  | .no => if ps.all fun p => (check C p).isOk then .ok ps else .error .panic
  | .yes => if ps.all fun p => C.inSubgroup p then .ok ps else .error (.point .notInSubgroup)

/-- `read_g1_powers` (`g1 = true`) and `read_g2_powers`, serialization.rs:570-672. -/
def readPowers (r : ℕ) (C : Curve q K) (g1 : Bool) (m : ℕ) (file : Bytes) (e : Element) (c : Compressed) :
    Except FileError (List (Point K)) :=
  match position r 0 e c with
  | none => .error .panic
  | some start =>
    let rd := match c with
      | .no => readUnchecked C
      | .yes => readCompressed C
    match readElements rd (e.isG1 == g1) file (e.size c) (e.numPowers m) start with
    | .error err => .error err
    | .ok ps => checkElements C c ps

/-- `read_subaccumulator`, serialization.rs:688-702. -/
def readSubaccumulator (r : ℕ) (C : Curve q K) (D : Curve q L) (m : ℕ) (file : Bytes) (c : Compressed) :
    Except FileError (Accumulator K L) :=
  match readPowers r C true m file .tauG1 c with
  | .error e => .error e
  | .ok t1 =>
    match readPowers r D false m file .tauG2 c with
    | .error e => .error e
    | .ok t2 =>
      match readPowers r C true m file .alphaG1 c with
      | .error e => .error e
      | .ok a =>
        match readPowers r C true m file .betaG1 c with
        | .error e => .error e
        | .ok b =>
          match readPowers r D false m file .betaG2 c with
          | .error e => .error e
          | .ok [] => .error .panic
          | .ok (b2 :: _) => .ok ⟨t1, t2, a, b, b2⟩

/-- `read_kzg_proof`, serialization.rs:678-684; `none` is a slice beyond the end of the file. -/
def readKzgProof (r : ℕ) (C : Curve q K) (D : Curve q L) (file : Bytes) : Option (Except NonZeroError (Proof K L)) :=
  let position := 64 + (g1Powers (tauPowers r) + 2 * tauPowers r) * 32 + (tauPowers r + 1) * 64
  let size := 6 * 64 + 3 * 128
  if position + size ≤ file.length then some (Proof.read C D .no (slice ((file.drop position).take size))).1 else none

end
end Verif.Ppot
