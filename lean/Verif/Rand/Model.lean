/-!
# Sampling and fuzzing

Models `manta-crypto/src/rand.rs`: the samplers of primitive types (253-326), `sample_iter` (446-454, with `DistIter`, 357-407),
`select_item` (508-523), and the module `fuzz` (537-661) with `div_rem` (`manta-crypto/src/arkworks/ff.rs:56-75`).

A sampler is a program that asks a generator for words and for numbers below a bound.  The generator is not modelled.
`gen_range` (rand.rs:500-507) calls the crate `rand`; it is the question `upTo`, and it panics for the empty range.
Integers are natural numbers and integers of the range of their type.  Big integers are their bits, the highest first, as
`to_bits_be` and `from_bits_be` of arkworks have them.  Not modelled: samplers of arkworks types (`arkworks/rand.rs`, all of them
calls of `UniformRand`), wrappers of generators (rand.rs:50-190), `Sampled` and the fallible samplers.
-/

namespace Verif.Rand

/-- What a sampler asks of a generator: `next_u32`, `next_u64`, `gen_range(0..n)`; `panic` ends the program. -/
inductive Draw (α : Type) : Type
  | done (a : α)
  | panic
  | u32 (k : Fin (2 ^ 32) → Draw α)
  | u64 (k : Fin (2 ^ 64) → Draw α)
  | upTo (n : Nat) (k : Fin n → Draw α)

namespace Draw

/-- One sampler after another. -/
def bind {α β : Type} : Draw α → (α → Draw β) → Draw β
  | done a, f => f a
  | panic, _ => panic
  | u32 k, f => u32 fun w => (k w).bind f
  | u64 k, f => u64 fun w => (k w).bind f
  | upTo n k, f => upTo n fun w => (k w).bind f

/-- A function of a sample. -/
def map {α β : Type} (d : Draw α) (f : α → β) : Draw β := d.bind fun a => done (f a)

end Draw

/-- `gen_range(0..n)` (rand.rs:500). -/
def genRange (n : Nat) : Draw (Fin n) := if n = 0 then .panic else .upTo n .done

/-- `<bool as Sample>::sample` (rand.rs:254-270): the word as a signed number is negative. -/
def sampleBool : Draw Bool := .u32 fun w => .done (decide (2 ^ 31 ≤ w.val))

/-- `sample` of `u8`, `u16` and `u32` (rand.rs:272-289): `as` keeps the low bits. -/
def sampleUnsigned (bits : Nat) : Draw Nat := .u32 fun w => .done (w.val % 2 ^ bits)

/-- `sample` of `i8`, `i16` and `i32` (rand.rs:272-289): the low bits as two's complement. -/
def sampleSigned (bits : Nat) : Draw Int := .u32 fun w =>
  let r := w.val % 2 ^ bits
  .done (if 2 * r < 2 ^ bits then (r : Int) else (r : Int) - (2 ^ bits : Nat))

/-- `<u64 as Sample>::sample` (rand.rs:291-299). -/
def sampleU64 : Draw Nat := .u64 fun w => .done w.val

/-- `<u128 as Sample>::sample` (rand.rs:301-309): the first word is the high one. -/
def sampleU128 : Draw Nat := .u64 fun a => .u64 fun b => .done ((a.val <<< 64) ||| b.val)

/-- `sample_iter` (rand.rs:446-454) collected: one sample for each distribution, in this order. -/
def sampleIter {D T : Type} (sample : D → Draw T) : List D → Draw (List T)
  | [] => .done []
  | d :: ds => (sample d).bind fun t => (sampleIter sample ds).bind fun ts => .done (t :: ts)

/-- `sample` of an array (rand.rs:311-326). -/
def sampleArray {D T : Type} (sample : D → Draw T) (n : Nat) (d : D) : Draw (List T) := sampleIter sample (List.replicate n d)

/-- `select_item` (rand.rs:508-523). -/
def selectItem {T : Type} (l : List T) : Draw (Option T) :=
  if l.length = 0 then .done none else (genRange l.length).map fun i => l[i.val]?

/-! ## Fuzzing -/

/-- `<bool as Fuzz>::fuzz` (rand.rs:552-561). -/
def fuzzBool (b : Bool) : Draw Bool := .done (b ^^ true)

/-- `<Vec<T> as Fuzz>::fuzz` (rand.rs:604-620). -/
def fuzzVec {T : Type} (fuzz : T → Draw T) (l : List T) : Draw (List T) :=
  (genRange l.length).bind fun i => (fuzz l[i]).map fun t => l.set i t

/-- `to_bits_le` (rand.rs:563-574). -/
def toBitsLe (n : Nat) : List Bool := (List.range 8).map fun i => decide (0 < (2 ^ i) &&& n)

/-- The loop of `from_bits_le` (rand.rs:576-586) from the bit `i` on. -/
def fromBitsLoop : List Bool → Nat → Nat → Nat
  | [], _, r => r
  | b :: bs, i, r => fromBitsLoop bs (i + 1) (if b then r ||| 1 <<< i else r)

/-- `from_bits_le` (rand.rs:576-586). -/
def fromBitsLe (bs : List Bool) : Nat := fromBitsLoop bs 0 0

/-- `<u8 as Fuzz>::fuzz` (rand.rs:588-602). -/
def fuzzU8 (n : Nat) : Draw Nat := (fuzzVec fuzzBool (toBitsLe n)).map fromBitsLe

/-- `to_bits_be` of arkworks for a number of so many bits. -/
def toBitsBe (bits n : Nat) : List Bool := (List.range bits).reverse.map n.testBit

/-- `from_bits_be` of arkworks. -/
def fromBitsBe (bs : List Bool) : Nat := bs.foldl (fun n b => 2 * n + b.toNat) 0

/-- `fuzz` of a big integer (rand.rs:626-639). -/
def fuzzBig (bits n : Nat) : Draw Nat := (fuzzVec fuzzBool (toBitsBe bits n)).map fromBitsBe

/-- `fuzz` of an element of a prime field (rand.rs:645-660), represented by big integers of so many bits; the remainder is
that of `div_rem` (ff.rs:56-75). -/
def fuzzField (bits p x : Nat) : Draw Nat := (fuzzBig bits x).map fun n => n % p

end Verif.Rand
