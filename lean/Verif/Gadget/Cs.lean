import Mathlib.Data.ZMod.Basic
import Mathlib.Algebra.Field.ZMod
import Verif.Gadget.Window

/-!
# Constraint systems and the gadgets of the compiler

manta-crypto/src/arkworks/constraint/mod.rs and eclair/num.rs: the compiler `R1CS<F>` with its
booleans, field variables and unsigned integers. A constraint system is a number of allocated variables and
a list of equations; an assignment gives every variable a value of the field `ZMod p`. Public inputs
and witnesses are both just variables here.

The equations of the gadgets of ark-r1cs-std (which is not part of the repository) are part of the trusted
base: they are written out below, at the place where the code of the repository calls them.
-/

namespace Verif.Gadget

variable {p : Nat}

/-- An assignment of field elements to the variables. -/
abbrev Asg (p : Nat) := Nat → ZMod p

/-- `FpVar`: a linear combination of variables; `Boolean` is one whose value is 0 or 1. -/
abbrev Lc (p : Nat) := Asg p → ZMod p

/-- `R1CS`, constraint/mod.rs:91-94: the next free variable and the constraints. -/
structure Cs (p : Nat) where
  next : Nat
  rows : List (Asg p → Prop)

/-- The constraint system without variables and constraints (`for_contexts`, `for_proofs`,
constraint/mod.rs:109-127). -/
def Cs.empty : Cs p := ⟨0, []⟩

/-- `is_satisfied`, constraint/mod.rs:131-136, for the assignment `z`. -/
def Cs.Sat (cs : Cs p) (z : Asg p) : Prop := ∀ c ∈ cs.rows, c z

/-- Allocates `k` variables and adds constraints. -/
def Cs.ext (cs : Cs p) (k : Nat) (rows : List (Asg p → Prop)) : Cs p := ⟨cs.next + k, rows ++ cs.rows⟩

/-- What is not fixed about ark-r1cs-std: the constraints that make a bit decomposition the canonical one
(`enforce_in_field_le`). They accept the canonical decomposition; nothing else is used. -/
structure Ark (p : Nat) where
  inField : List (ZMod p) → Prop
  canonical : ∀ v < p, inField ((bitsLe (numBits p) v).map fun b => if b then 1 else 0)

/-! ## Allocation and booleans -/

/-- `FpVar::new_witness`, `new_input`: one unconstrained variable, constraint/mod.rs:350-386. -/
def allocFp (cs : Cs p) : Cs p × Lc p := (cs.ext 1 [], fun z => z cs.next)

/-- `Boolean::new_witness`, `new_input`: `x * (1 - x) = 0`, constraint/mod.rs:225-267. -/
def allocBool (cs : Cs p) : Cs p × Lc p :=
  (cs.ext 1 [fun z => z cs.next * (1 - z cs.next) = 0], fun z => z cs.next)

/-- `Boolean::and`: `a * b = r`, constraint/mod.rs:269-281. -/
def gAnd (cs : Cs p) (a b : Lc p) : Cs p × Lc p :=
  (cs.ext 1 [fun z => a z * b z = z cs.next], fun z => z cs.next)

/-- `Boolean::or`: `(1 - a) * (1 - b) = 1 - r`, constraint/mod.rs:283-293. -/
def gOr (cs : Cs p) (a b : Lc p) : Cs p × Lc p :=
  (cs.ext 1 [fun z => (1 - a z) * (1 - b z) = 1 - z cs.next], fun z => z cs.next)

/-- `Boolean::is_eq`, constraint/mod.rs:295-305: the negation of `xor`, `2a * b = a + b - r`. -/
def gBoolEq (cs : Cs p) (a b : Lc p) : Cs p × Lc p :=
  (cs.ext 1 [fun z => (a z + a z) * b z = a z + b z - z cs.next], fun z => 1 - z cs.next)

/-- `Assert::assert`, constraint/mod.rs:155-163: `b = 1`. -/
def gAssert (cs : Cs p) (b : Lc p) : Cs p := cs.ext 0 [fun z => b z = 1]

/-! ## Field variables -/

/-- `FpVar::is_eq`, constraint/mod.rs:388-398: a boolean `b` and a multiplier `m` with
`(x - y) * m = b` and `(x - y) * (1 - b) = 0`; the result is `1 - b`. -/
def gEq (cs : Cs p) (x y : Lc p) : Cs p × Lc p :=
  (cs.ext 2
    [fun z => z cs.next * (1 - z cs.next) = 0,
     fun z => (x z - y z) * z (cs.next + 1) = z cs.next,
     fun z => (x z - y z) * (1 - z cs.next) = 0],
   fun z => 1 - z cs.next)

/-- `ConditionalSelect::select`, constraint/mod.rs:78-88, 400-414: `b * (t - f) = r - f`. -/
def gSelect (cs : Cs p) (b t f : Lc p) : Cs p × Lc p :=
  (cs.ext 1 [fun z => b z * (t z - f z) = z cs.next - f z], fun z => z cs.next)

/-- `ConditionalSwap::swap`, constraint/mod.rs:416-429. -/
def gSwap (cs : Cs p) (b l r : Lc p) : Cs p × Lc p × Lc p :=
  let (cs, x) := gSelect cs b r l
  let (cs, y) := gSelect cs b l r
  (cs, x, y)

/-- `Add`, constraint/mod.rs:431-442. -/
def gAdd (x y : Lc p) : Lc p := fun z => x z + y z

/-- `Zero::zero`, constraint/mod.rs:444-456. -/
def gZero : Lc p := fun _ => 0

/-- `Zero::is_zero`, constraint/mod.rs:458-462: equality with the constant zero. -/
def gIsZero (cs : Cs p) (x : Lc p) : Cs p × Lc p := gEq cs x gZero

/-- Multiplication of two field variables: one variable and one constraint. There is no `Mul` for `FpVar` in
the repository; it is needed to say what `Mul for UnsignedInteger` would do. -/
def gMul (cs : Cs p) (x y : Lc p) : Cs p × Lc p :=
  (cs.ext 1 [fun z => x z * y z = z cs.next], fun z => z cs.next)

/-! ## Ranges -/

/-- The number packed into the `n` variables from `k` on, least significant first. -/
def packAt (z : Asg p) : Nat → Nat → ZMod p
  | _, 0 => 0
  | k, n + 1 => z k + 2 * packAt z (k + 1) n

/-- The constraints of `to_bits_le` for the variables from `k` on: booleans which sum up to `v` and are the
canonical decomposition. -/
def bitRows (A : Ark p) (v : Lc p) (k n : Nat) : List (Asg p → Prop) :=
  (List.range n).map (fun i z => z (k + i) * (1 - z (k + i)) = 0) ++
    [fun z => packAt z k n = v z, fun z => A.inField ((List.range n).map fun i => z (k + i))]

/-- `AssertWithinBitRange::assert_within_range`, constraint/mod.rs:308-327. -/
def assertRange (A : Ark p) (bits : Nat) (cs : Cs p) (v : Lc p) : Except Panic (Cs p) :=
  if bits < numBits p then
    .ok (cs.ext (numBits p)
      (bitRows A v cs.next (numBits p) ++
        ((List.range (numBits p)).drop bits).map fun i z => z (cs.next + i) = 0))
  else .error .modulus

/-! ## Unsigned integers, eclair/num.rs -/

/-- `UnsignedInteger::new`, num.rs:137-143. -/
def uNew (A : Ark p) (bits : Nat) (cs : Cs p) (v : Lc p) : Except Panic (Cs p × Lc p) :=
  match assertRange A bits cs v with
  | .error e => .error e
  | .ok cs => .ok (cs, v)

/-- `Variable::new_known`, `new_unknown` for `UnsignedInteger`, num.rs:387-396. -/
def uAlloc (A : Ark p) (bits : Nat) (cs : Cs p) : Except Panic (Cs p × Lc p) :=
  let (cs, v) := allocFp cs
  uNew A bits cs v

/-- `Add for UnsignedInteger`, `AddAssign` (through `mutate`), num.rs:162-171, 208-230. -/
def uAdd (A : Ark p) (bits : Nat) (cs : Cs p) (x y : Lc p) : Except Panic (Cs p × Lc p) :=
  uNew A bits cs (gAdd x y)

/-- `Mul for UnsignedInteger`, `MulAssign`, num.rs:232-254. -/
def uMul (A : Ark p) (bits : Nat) (cs : Cs p) (x y : Lc p) : Except Panic (Cs p × Lc p) :=
  let (cs, v) := gMul cs x y
  uNew A bits cs v

/-! ## Circuits

A circuit over unsigned integers and booleans: a sequence of calls; the results are kept in two growing
lists of registers. -/

/-- A call. The numbers are registers of integers (`i`, `j`) or booleans (`a`, `b`). -/
inductive Op
  | int
  | bool
  | zero
  | add (i j : Nat)
  | mul (i j : Nat)
  | select (b i j : Nat)
  | swap (b i j : Nat)
  | eq (i j : Nat)
  | isZero (i : Nat)
  | and (a b : Nat)
  | or (a b : Nat)
  | boolEq (a b : Nat)
  | assert (b : Nat)
  | assertEq (i j : Nat)
  deriving DecidableEq, Repr

/-- The registers while the circuit is built. -/
structure Regs (p : Nat) where
  ints : List (Lc p)
  bools : List (Lc p)

/-- Why a circuit cannot be built: a panic, or a register that does not exist (which Rust's types rule
out). -/
inductive BuildError
  | panic (e : Panic)
  | register
  deriving DecidableEq, Repr

def pushInt (r : Regs p) : Except Panic (Cs p × Lc p) → Except BuildError (Cs p × Regs p)
  | .error e => .error (.panic e)
  | .ok (cs, v) => .ok (cs, { r with ints := r.ints ++ [v] })

def pushBool (r : Regs p) (x : Cs p × Lc p) : Except BuildError (Cs p × Regs p) :=
  .ok (x.1, { r with bools := r.bools ++ [x.2] })

/-- One call of the circuit. `assert_equal` is the default of eclair/cmp.rs:49-57: `eq`, then `assert`. -/
def buildOp (A : Ark p) (bits : Nat) (cs : Cs p) (r : Regs p) : Op → Except BuildError (Cs p × Regs p)
  | .int => pushInt r (uAlloc A bits cs)
  | .bool => pushBool r (allocBool cs)
  | .zero => pushInt r (.ok (cs, gZero))
  | .add i j =>
    match r.ints[i]?, r.ints[j]? with
    | some x, some y => pushInt r (uAdd A bits cs x y)
    | _, _ => .error .register
  | .mul i j =>
    match r.ints[i]?, r.ints[j]? with
    | some x, some y => pushInt r (uMul A bits cs x y)
    | _, _ => .error .register
  | .select b i j =>
    match r.bools[b]?, r.ints[i]?, r.ints[j]? with
    | some b, some x, some y => pushInt r (.ok (gSelect cs b x y))
    | _, _, _ => .error .register
  | .swap b i j =>
    match r.bools[b]?, r.ints[i]?, r.ints[j]? with
    | some b, some x, some y =>
      let (cs, x, y) := gSwap cs b x y
      .ok (cs, { r with ints := r.ints ++ [x, y] })
    | _, _, _ => .error .register
  | .eq i j =>
    match r.ints[i]?, r.ints[j]? with
    | some x, some y => pushBool r (gEq cs x y)
    | _, _ => .error .register
  | .isZero i =>
    match r.ints[i]? with
    | some x => pushBool r (gIsZero cs x)
    | _ => .error .register
  | .and a b =>
    match r.bools[a]?, r.bools[b]? with
    | some x, some y => pushBool r (gAnd cs x y)
    | _, _ => .error .register
  | .or a b =>
    match r.bools[a]?, r.bools[b]? with
    | some x, some y => pushBool r (gOr cs x y)
    | _, _ => .error .register
  | .boolEq a b =>
    match r.bools[a]?, r.bools[b]? with
    | some x, some y => pushBool r (gBoolEq cs x y)
    | _, _ => .error .register
  | .assert b =>
    match r.bools[b]? with
    | some x => .ok (gAssert cs x, r)
    | _ => .error .register
  | .assertEq i j =>
    match r.ints[i]?, r.ints[j]? with
    | some x, some y =>
      let (cs, b) := gEq cs x y
      .ok (gAssert cs b, r)
    | _, _ => .error .register

/-- A whole circuit. -/
def build (A : Ark p) (bits : Nat) : Cs p → Regs p → List Op → Except BuildError (Cs p × Regs p)
  | cs, r, [] => .ok (cs, r)
  | cs, r, op :: ops =>
    match buildOp A bits cs r op with
    | .error e => .error e
    | .ok (cs, r) => build A bits cs r ops

/-! ## Specification: the circuit as a computation with natural numbers -/

/-- The registers of the computation. -/
structure Ideal where
  ints : List Nat
  bools : List Bool
  deriving DecidableEq

/-- One call, with natural numbers: sums and products that do not fit and assertions that do not hold have
no next state; allocated values are free. -/
inductive IdealStep (bits : Nat) : Ideal → Op → Ideal → Prop
  | int (s v) (h : v < 2 ^ bits) : IdealStep bits s .int ⟨s.ints ++ [v], s.bools⟩
  | bool (s b) : IdealStep bits s .bool ⟨s.ints, s.bools ++ [b]⟩
  | zero (s) : IdealStep bits s .zero ⟨s.ints ++ [0], s.bools⟩
  | add (s : Ideal) (i j x y : Nat) (hx : s.ints[i]? = some x) (hy : s.ints[j]? = some y) (h : x + y < 2 ^ bits) :
      IdealStep bits s (.add i j) ⟨s.ints ++ [x + y], s.bools⟩
  | mul (s : Ideal) (i j x y : Nat) (hx : s.ints[i]? = some x) (hy : s.ints[j]? = some y) (h : x * y < 2 ^ bits) :
      IdealStep bits s (.mul i j) ⟨s.ints ++ [x * y], s.bools⟩
  | select (s : Ideal) (k i j x y : Nat) (b : Bool) (hb : s.bools[k]? = some b) (hx : s.ints[i]? = some x)
      (hy : s.ints[j]? = some y) : IdealStep bits s (.select k i j) ⟨s.ints ++ [if b then x else y], s.bools⟩
  | swap (s : Ideal) (k i j x y : Nat) (b : Bool) (hb : s.bools[k]? = some b) (hx : s.ints[i]? = some x)
      (hy : s.ints[j]? = some y) :
      IdealStep bits s (.swap k i j) ⟨s.ints ++ (if b then [y, x] else [x, y]), s.bools⟩
  | eq (s : Ideal) (i j x y : Nat) (hx : s.ints[i]? = some x) (hy : s.ints[j]? = some y) :
      IdealStep bits s (.eq i j) ⟨s.ints, s.bools ++ [decide (x = y)]⟩
  | isZero (s : Ideal) (i x : Nat) (hx : s.ints[i]? = some x) :
      IdealStep bits s (.isZero i) ⟨s.ints, s.bools ++ [decide (x = 0)]⟩
  | and (s : Ideal) (i j : Nat) (a b : Bool) (ha : s.bools[i]? = some a) (hb : s.bools[j]? = some b) :
      IdealStep bits s (.and i j) ⟨s.ints, s.bools ++ [a && b]⟩
  | or (s : Ideal) (i j : Nat) (a b : Bool) (ha : s.bools[i]? = some a) (hb : s.bools[j]? = some b) :
      IdealStep bits s (.or i j) ⟨s.ints, s.bools ++ [a || b]⟩
  | boolEq (s : Ideal) (i j : Nat) (a b : Bool) (ha : s.bools[i]? = some a) (hb : s.bools[j]? = some b) :
      IdealStep bits s (.boolEq i j) ⟨s.ints, s.bools ++ [decide (a = b)]⟩
  | assert (s : Ideal) (i : Nat) (hb : s.bools[i]? = some true) : IdealStep bits s (.assert i) s
  | assertEq (s : Ideal) (i j x : Nat) (hx : s.ints[i]? = some x) (hy : s.ints[j]? = some x) :
      IdealStep bits s (.assertEq i j) s

/-- A whole computation. -/
inductive IdealRun (bits : Nat) : Ideal → List Op → Ideal → Prop
  | nil (s) : IdealRun bits s [] s
  | cons (s op s' ops s'') (h : IdealStep bits s op s') (t : IdealRun bits s' ops s'') :
      IdealRun bits s (op :: ops) s''

/-- The field elements in the registers stand for these numbers and truth values. -/
def Reads [NeZero p] (r : Regs p) (z : Asg p) (s : Ideal) : Prop :=
  r.ints.map (fun x => (x z).val) = s.ints ∧ r.bools.map (fun b => b z) = s.bools.map fun b => if b then 1 else 0

end Verif.Gadget
