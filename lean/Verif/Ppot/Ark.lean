import Verif.Ppot.PointProps
import Verif.Ppot.Curves

/-!
# C109: the serializer over the arkworks encodings

`ArkworksSerialization` of `manta-trusted-setup/src/groth16/ppot/serialization.rs`, with the arkworks encodings of points
as a parameter.
-/

namespace Verif.Ppot

open Verif.Codec (Bytes)

/-- `CanonicalSerialize` and `CanonicalDeserialize` of a type of points: writing, and reading from the front of a slice.
The three methods `serialize`, `serialize_uncompressed`, `serialize_unchecked` with their readers. -/
structure Canonical (P : Type) where
  serialize : P → Bytes
  serializeUncompressed : P → Bytes
  serializeUnchecked : P → Bytes
  deserialize : Bytes → Option (P × Bytes)
  deserializeUncompressed : Bytes → Option (P × Bytes)
  deserializeUnchecked : Bytes → Option (P × Bytes)

/-- The three writers of a `Serializer` and the three readers of a `Deserializer`, util.rs:40-142. -/
structure Serializer (P : Type) where
  writeUnchecked : P → Bytes
  writeUncompressed : P → Bytes
  writeCompressed : P → Bytes
  readUnchecked : Bytes → Option (P × Bytes)
  readUncompressed : Bytes → Option (P × Bytes)
  readCompressed : Bytes → Option (P × Bytes)

/-- The default `check` of a `Deserializer`, util.rs:109-112. -/
def defaultCheck {P : Type} (_ : P) : Bool := true

/-- `ArkworksSerialization`, serialization.rs:707-769; `deserialize_uncompressed` is the default of the trait,
util.rs:128-135. -/
def arkworksSerialization {P : Type} (A : Canonical P) : Serializer P where
  writeUnchecked := A.serializeUnchecked
  writeUncompressed := A.serializeUncompressed
  writeCompressed := A.serialize
  readUnchecked := A.deserializeUnchecked
  readUncompressed b :=
    match A.deserializeUnchecked b with
    | none => none
    | some (p, rest) => if defaultCheck p then some (p, rest) else none
  readCompressed := A.deserializeUncompressed

/-! ## Specification -/

/-- What is assumed of the encodings: readers give back what was written for valid points, `Valid` is what the checking
readers check, the reader without checks gives back every point, and reading an uncompressed point takes a number of bytes that is more than a
compressed point has. -/
structure Canonical.Lawful {P : Type} (A : Canonical P) (Valid : P → Prop) : Prop where
  compressed : ∀ p, Valid p → ∀ rest, A.deserialize (A.serialize p ++ rest) = some (p, rest)
  uncompressed : ∀ p, Valid p → ∀ rest, A.deserializeUncompressed (A.serializeUncompressed p ++ rest) = some (p, rest)
  checked : ∀ b p rest, A.deserializeUncompressed b = some (p, rest) → Valid p
  unchecked : ∀ p rest, A.deserializeUnchecked (A.serializeUncompressed p ++ rest) = some (p, rest)
  same : ∀ p, A.serializeUnchecked p = A.serializeUncompressed p
  short : ∀ p b, b.length ≤ (A.serialize p).length → A.deserializeUncompressed b = none

/-! ## The property -/

variable {P : Type} {A : Canonical P} {Valid : P → Prop}

/-- Uncompressed and unchecked encodings are read back, whatever follows. -/
theorem c109_uncompressed_partial (h : A.Lawful Valid) (p : P) (rest : Bytes) :
    let S := arkworksSerialization A
    S.readUncompressed (S.writeUncompressed p ++ rest) = some (p, rest) ∧
    S.readUnchecked (S.writeUnchecked p ++ rest) = some (p, rest) := by
  simp only [arkworksSerialization, h.same, h.unchecked, defaultCheck, if_true, and_self]

/-- No compressed encoding can be read: the reader for compressed points reads uncompressed ones. Written on its own, a
compressed point is an error; and whatever is read from a stream of them is not the point unless the stream happens to be
the uncompressed encoding. -/
theorem c109_compressed_violated (h : A.Lawful Valid) (p : P) :
    let S := arkworksSerialization A
    S.readCompressed (S.writeCompressed p) = none := h.short p _ (Nat.le_refl _)

/-- It reads uncompressed encodings instead. -/
theorem c109_swapped_violated (h : A.Lawful Valid) (p : P) (hp : Valid p) (rest : Bytes) :
    let S := arkworksSerialization A
    S.readCompressed (S.writeUncompressed p ++ rest) = some (p, rest) := h.uncompressed p hp rest

/-- The reader with validity checks accepts every point, also one that is not valid, which the arkworks reader would
refuse. -/
theorem c109_checked_violated (h : A.Lawful Valid) (p : P) (hp : ¬ Valid p) (rest : Bytes) :
    let S := arkworksSerialization A
    S.readUncompressed (S.writeUncompressed p ++ rest) = some (p, rest) ∧
    A.deserializeUncompressed (A.serializeUncompressed p ++ rest) ≠ some (p, rest) :=
  ⟨(c109_uncompressed_partial h p rest).1, fun e => hp (h.checked _ _ _ e)⟩

/-! ## Example -/

/-- Bytes as points, one byte if compressed, two if not; `Valid` are the points below 200. -/
def exCanonical : Canonical UInt8 where
  serialize p := [p]
  serializeUncompressed p := [p, p]
  serializeUnchecked p := [p, p]
  deserialize
    | p :: rest => if p < 200 then some (p, rest) else none
    | [] => none
  deserializeUncompressed
    | p :: p' :: rest => if p = p' ∧ p < 200 then some (p, rest) else none
    | _ => none
  deserializeUnchecked
    | p :: _ :: rest => some (p, rest)
    | _ => none

theorem exCanonical_lawful : exCanonical.Lawful (· < 200) where
  compressed p hp rest := by simp [exCanonical, hp]
  uncompressed p hp rest := by simp [exCanonical, hp]
  checked b p rest e := by
    unfold exCanonical at e
    simp only at e
    split at e
    · split at e
      · rename_i h; cases e; exact h.2
      · cases e
    · cases e
  unchecked p rest := by simp [exCanonical]
  same p := rfl
  short p b h := by
    match b, h with
    | [], _ => rfl
    | [_], _ => rfl

example : (arkworksSerialization exCanonical).readCompressed ((arkworksSerialization exCanonical).writeCompressed 7) = none :=
  c109_compressed_violated exCanonical_lawful 7

example : (arkworksSerialization exCanonical).readUncompressed [250, 250] = some (250, []) ∧
    exCanonical.deserializeUncompressed [250, 250] ≠ some (250, []) :=
  c109_checked_violated exCanonical_lawful 250 (by decide) []

end Verif.Ppot
