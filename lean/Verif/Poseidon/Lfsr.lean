/-!
# Model of the constant generator (manta-pay/src/crypto/poseidon/{lfsr,round_constants}.rs)

The unbounded loops (`while !bit` in `next`, `loop` in `sample_field_element`) have a fuel parameter; `none` means that
the fuel did not suffice.
-/

namespace Verif.Poseidon

/-- `GrainLFSR`, lfsr.rs:30-37; `SIZE` is 80 (lfsr.rs:40). -/
structure Lfsr where
  state : List Bool
  head : Nat
deriving DecidableEq, Repr

/-- `set_next`, lfsr.rs:77-82. -/
def Lfsr.setNext (s : Lfsr) (next : Bool) : Bool × Lfsr := (next, ⟨s.state.set s.head next, (s.head + 1) % 80⟩)

/-- `bit`, lfsr.rs:86-88. -/
def Lfsr.bit (s : Lfsr) (index : Nat) : Bool := s.state.getD ((index + s.head) % 80) false

/-- `update`, lfsr.rs:91-95. -/
def Lfsr.update (s : Lfsr) : Bool × Lfsr :=
  s.setNext (s.bit 62 ^^ s.bit 51 ^^ s.bit 38 ^^ s.bit 23 ^^ s.bit 13 ^^ s.bit 0)

/-- `append_seed_bits`, lfsr.rs:60-64: the lowest `n` bits, the highest of them first. -/
def Lfsr.appendSeedBits (s : Lfsr) (n bits : Nat) : Lfsr :=
  (List.range n).reverse.foldl (fun s i => (s.setNext (bits.testBit i)).2) s

/-- `skip_updates`, lfsr.rs:68-72. -/
def Lfsr.skipUpdates (s : Lfsr) (n : Nat) : Lfsr := (List.range n).foldl (fun s _ => s.update.2) s

/-- `from_seed`, lfsr.rs:44-57. -/
def Lfsr.fromSeed (seed : List (Nat × Nat)) : Lfsr :=
  (seed.foldl (fun (s : Lfsr) nb => s.appendSeedBits nb.1 nb.2) ⟨List.replicate 80 false, 0⟩).skipUpdates (80 * 2)

/-- The loop of `next`, lfsr.rs:104-108. -/
def Lfsr.seek : Nat → Bool → Lfsr → Option Lfsr
  | _, true, s => some s
  | 0, false, _ => none
  | fuel + 1, false, s =>
    let s1 := s.update.2
    let b := s1.update
    Lfsr.seek fuel b.1 b.2

/-- `next`, lfsr.rs:103-110. -/
def Lfsr.next (fuel : Nat) (s : Lfsr) : Option (Bool × Lfsr) :=
  let b := s.update
  (Lfsr.seek fuel b.1 b.2).map fun s => s.update

/-- `iter.take(n).collect()`, round_constants.rs:33. -/
def Lfsr.takeBits (fuel : Nat) : Nat → Lfsr → Option (List Bool × Lfsr)
  | 0, s => some ([], s)
  | n + 1, s =>
    match s.next fuel with
    | none => none
    | some (b, s) =>
      match Lfsr.takeBits fuel n s with
      | none => none
      | some (bs, s) => some (b :: bs, s)

/-- `sample_field_element`, round_constants.rs:26-38. `fromBits` is `try_from_bits_be`, `modulusBits` the number of bits
of the modulus. -/
def sampleField {F : Type} (fromBits : List Bool → Option F) (modulusBits fuel : Nat) : Nat → Lfsr → Option (F × Lfsr)
  | 0, _ => none
  | tries + 1, s =>
    match s.takeBits fuel modulusBits with
    | none => none
    | some (bits, s) =>
      match fromBits bits with
      | some f => some (f, s)
      | none => sampleField fromBits modulusBits fuel tries s

/-- `generate_lfsr`, round_constants.rs:43-58. -/
def generateLfsr (modulusBits width full part : Nat) : Lfsr :=
  .fromSeed [(2, 1), (4, 0), (12, modulusBits), (12, width), (10, full), (10, part),
    (30, 0b111111111111111111111111111111)]

/-- `take(n).collect()` of field elements, round_constants.rs:72-74. -/
def sampleMany {F : Type} (fromBits : List Bool → Option F) (modulusBits fuel tries : Nat) :
    Nat → Lfsr → Option (List F × Lfsr)
  | 0, s => some ([], s)
  | n + 1, s =>
    match sampleField fromBits modulusBits fuel tries s with
    | none => none
    | some (f, s) =>
      match sampleMany fromBits modulusBits fuel tries n s with
      | none => none
      | some (fs, s) => some (f :: fs, s)

/-- `generate_round_constants`, round_constants.rs:63-75. -/
def generateRoundConstants {F : Type} (fromBits : List Bool → Option F) (modulusBits fuel tries width full part : Nat) :
    Option (List F) :=
  (sampleMany fromBits modulusBits fuel tries (width * (full + part)) (generateLfsr modulusBits width full part)).map
    Prod.fst

end Verif.Poseidon
