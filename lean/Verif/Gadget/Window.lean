import Mathlib.Algebra.Group.Nat.Defs
import Mathlib.Algebra.Group.Basic
import Mathlib.Algebra.Group.Int.Defs
import Verif.Util.Model

/-!
# Scalar multiplication

manta-crypto/src/algebra/mod.rs (tables of precomputed multiples, windows), the table selection of
eclair/bool.rs and the fixed-base and variable-base multiplications of arkworks/algebra.rs.

Group elements are the elements of an arbitrary additive monoid: the laws of the curve group are
the trusted part, the bookkeeping of the loops is what is modelled. The same loops run natively and
inside of a circuit; inside of a circuit the model describes the values the variables have.
-/

namespace Verif.Gadget

/-- The panics of the code below. -/
inductive Panic
  /-- `assert!(window_size > 0)`, algebra/mod.rs:168 -/
  | windowSize
  /-- `2usize.pow(..)` or `1 << ..` overflows -/
  | overflow
  /-- "Table length must equal 2^(number of bits).", eclair/bool.rs:117-121 -/
  | tableLength
  /-- `take_first` of an empty vector -/
  | takeFirst
  /-- `chunks_exact(0)` -/
  | chunkSize
  /-- `&self.table[0..n]` out of range -/
  | slice
  /-- "The modulus of the embedded scalar field is larger than that of the constraint field." -/
  | modulus
  deriving DecidableEq, Repr

/-! ## Specification -/

/-- The number with the bits `b`, least significant first. -/
def leValue : List Bool → Nat
  | [] => 0
  | b :: bs => b.toNat + 2 * leValue bs

/-- The number with the bits `b`, most significant first. -/
def beValue (bits : List Bool) : Nat := leValue bits.reverse

/-! ## Table selection -/

/-- `chunk_by::<2>` collected, manta-util/src/iter/mod.rs:67-72 (see `pairs_drain`). -/
def pairs : List α → List (α × α)
  | x :: y :: rest => (x, y) :: pairs rest
  | _ => []

/-- `ConditionalSelect::select`: `true_value` when the bit is set, eclair/bool.rs:99-100,
arkworks/algebra.rs:404-414 and 534-548. -/
def select (bit : Bool) (trueValue falseValue : G) : G := if bit then trueValue else falseValue

/-- One pass of the loop of `select_from_table`, eclair/bool.rs:123-133. -/
def selectPass (bit : Bool) (table : List G) : List G :=
  (pairs table).map fun xy => select bit xy.2 xy.1

/-- `ConditionalSelect::select_from_table`, eclair/bool.rs:106-141. -/
def selectFromTable (bits : List Bool) (table : List G) : Except Panic G :=
  if bits.length ≥ 64 then .error .overflow
  else if table.length ≠ 2 ^ bits.length then .error .tableLength
  else
    match bits with
    | first :: bits =>
      match bits.foldl (fun table bit => selectPass bit table) (selectPass first table) with
      | x :: _ => .ok x
      | [] => .error .takeFirst
    | [] =>
      match table with
      | x :: _ => .ok x
      | [] => .error .takeFirst

/-! ## Windows -/

/-- `Window`, algebra/mod.rs:137-140. -/
structure Window (G : Type u) where
  table : List G

/-- The loop `for _ in 2..table_length` of `Window::new`, algebra/mod.rs:173-175. -/
def pushMultiples [Add G] (point : G) : Nat → List G → List G
  | 0, table => table
  | n + 1, table => pushMultiples point n (table ++ (table.getLast?.map (· + point)).toList)

/-- `Window::new`, algebra/mod.rs:164-177. -/
def Window.new [Add G] [Zero G] (windowSize : Nat) (point : G) : Except Panic (Window G) :=
  if windowSize = 0 then .error .windowSize
  else if windowSize ≥ 64 then .error .overflow
  else .ok ⟨pushMultiples point (2 ^ windowSize - 2) [0, point]⟩

/-- `usize::trailing_zeros` for a positive number. -/
def trailingZeros (n : Nat) : Nat :=
  if h : n = 0 then 64
  else if n % 2 = 0 then trailingZeros (n / 2) + 1 else 0
termination_by n
decreasing_by omega

/-- `Window::window_size`, algebra/mod.rs:181-183. -/
def Window.windowSize (w : Window G) : Nat := trailingZeros w.table.length

/-- `Group::repeated_double_assign`, algebra/mod.rs:51-57. -/
def repeatedDouble [Add G] : Nat → G → G
  | 0, g => g
  | k + 1, g => repeatedDouble k (g + g)

/-- `Window::scalar_mul_round`, algebra/mod.rs:199-216. -/
def scalarMulRound [Add G] (windowSize : Nat) (table : List G) (chunk : List Bool) (result : G) :
    Except Panic G :=
  match selectFromTable chunk.reverse table with
  | .error e => .error e
  | .ok selected => .ok (repeatedDouble windowSize result + selected)

/-- The loop over `chunks_exact` and the remainder, algebra/mod.rs:231-243. `n` is positive. -/
def mulLoop [Add G] (n : Nat) (table : List G) (bits : List Bool) (result : G) : Except Panic G :=
  if h : 0 < n ∧ n ≤ bits.length then
    match scalarMulRound n table (bits.take n) result with
    | .error e => .error e
    | .ok result => mulLoop n table (bits.drop n) result
  else if 2 ^ bits.length > table.length then .error .slice
  else scalarMulRound bits.length (table.take (2 ^ bits.length)) bits result
termination_by bits.length
decreasing_by simp only [List.length_drop]; omega

/-- `Window::scalar_mul`, algebra/mod.rs:223-245. -/
def Window.scalarMul [Add G] [Zero G] (w : Window G) (bits : List Bool) : Except Panic G :=
  if w.windowSize = 0 then .error .chunkSize
  else mulLoop w.windowSize w.table bits 0

/-- `Window::new` followed by `scalar_mul`, as in algebra/mod.rs:319-339. -/
def windowMul [Add G] [Zero G] (windowSize : Nat) (point : G) (bits : List Bool) : Except Panic G :=
  match Window.new windowSize point with
  | .error e => .error e
  | .ok w => w.scalarMul bits

/-! ## Fixed-base multiplication -/

/-- `PrecomputedBaseTable::from_base`, algebra/mod.rs:121-132. -/
def fromBase [Add G] (base : G) : Nat → List G
  | 0 => []
  | n + 1 => base :: fromBase (base + base) n

/-- `fixed_base_scalar_mul`, arkworks/algebra.rs:663-684, for a scalar with the bits `bits`. -/
def fixedBase [Add G] [Zero G] (bases : List G) (bits : List Bool) : G :=
  (bits.zip bases).foldl (fun result x => select x.1 (result + x.2) result) 0

/-! ## Variable-base multiplication inside of a circuit -/

/-- `scalar_mul_le` of `CurveVar` (ark-r1cs-std), called at arkworks/algebra.rs:489-499: double and add. -/
def doubleAndAdd [Add G] : List Bool → G → G → G
  | [], _, result => result
  | b :: bs, multiple, result => doubleAndAdd bs (multiple + multiple) (select b (result + multiple) result)

/-- `to_bits_le` of a field element: its `n` bits, `n` the bit length of the modulus. -/
def bitsLe : Nat → Nat → List Bool
  | 0, _ => []
  | n + 1, v => (v % 2 = 1) :: bitsLe n (v / 2)

/-- `scalar_mul` of `GroupVar`, arkworks/algebra.rs:487-500; `v` is the value of the scalar variable, an
element of the constraint field of `n` bits. -/
def circuitMul [Add G] [Zero G] (n : Nat) (point : G) (v : Nat) : G := doubleAndAdd (bitsLe n v) point 0

/-- `fixed_base_scalar_mul` of `GroupVar`, with a table of `m` bases of `point`. -/
def circuitFixedMul [Add G] [Zero G] (n m : Nat) (point : G) (v : Nat) : G :=
  fixedBase (fromBase point m) (bitsLe n v)

/-! ## Moving scalars between the two fields

A field is given by its modulus; `limbs` is the number of 64-bit limbs of its integer type. -/

/-- A prime field of arkworks: modulus and number of limbs. -/
structure Field where
  modulus : Nat
  limbs : Nat

/-- The integer type is large enough for the modulus. -/
def Field.Fits (f : Field) : Prop := 1 < f.modulus ∧ f.modulus < 2 ^ (64 * f.limbs)

/-- `num_bits` of an integer. -/
def numBits (n : Nat) : Nat := if n = 0 then 0 else n.log2 + 1

/-- `convert_bits`, arkworks/algebra.rs:68-76: the bits beyond the limbs of the target are dropped. -/
def convertBits (n : Nat) (f : Field) : Nat := n % 2 ^ (64 * f.limbs)

/-- `modulus_is_smaller`, arkworks/algebra.rs:78-93. -/
def modulusIsSmaller (a b : Field) : Bool :=
  if numBits a.modulus ≤ numBits b.modulus then decide (convertBits a.modulus b < b.modulus)
  else decide (a.modulus < convertBits b.modulus a)

/-- `lift_embedded_scalar`, arkworks/algebra.rs:126-139. -/
def liftScalar (r p : Field) (s : Nat) : Except Panic Nat :=
  if modulusIsSmaller r p then .ok (s % p.modulus) else .error .modulus

/-- `rem_mod_prime`, arkworks/constraint/mod.rs:522-552. -/
def remModPrime (r : Field) (v : Nat) : Nat := v % r.modulus

/-- `scalar_mul` of `Group`, arkworks/algebra.rs:362-364. -/
def nativeMul [AddMonoid G] (point : G) (s : Nat) : G := s • point

end Verif.Gadget
