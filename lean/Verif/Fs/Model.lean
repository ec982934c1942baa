import Verif.Codec.Model

/-!
# Model of the encrypting serializer, `manta-accounting/src/fs/{mod,serde}.rs`

Values are described by the part of the serde data model that a derived implementation uses. Integers and floats
are their bit patterns. The block size is a parameter `B` (`Block::SIZE` is 8192). Writing to the file does not
influence the serializer, so the file is the list of blocks written; a failing write ends the save with the blocks
written before it (C90). `usize` has 64 bits, so `u64_as_usize` never fails.
-/

namespace Verif.Fs

open Verif.Codec (Bytes toLE fromLE)

/-- `Block::SIZE`, fs/mod.rs:240. -/
def SIZE : Nat := 8192

/-! ## Types of values -/

mutual
/-- A type as seen by serde: primitive types, strings, byte buffers, `()` and unit structs, options, sequences,
maps, newtype structs, tuples and structs, enums. -/
inductive Sch where
  | bool
  | bits (w : Nat)
  | char
  | str
  | bytes
  | unit
  | option (s : Sch)
  | seq (s : Sch)
  | map (k v : Sch)
  | newtype (s : Sch)
  | prod (fs : Fields)
  | enum (vs : Variants)

/-- Fields of a tuple or struct. -/
inductive Fields where
  | nil
  | cons (s : Sch) (fs : Fields)

/-- Variants of an enum, in order of their index. -/
inductive Variants where
  | nil
  | unit (vs : Variants)
  | newtype (s : Sch) (vs : Variants)
  | prod (fs : Fields) (vs : Variants)
end

mutual
/-- Values of a type. Lengths fit into `usize`. -/
@[reducible] def Sch.Val : Sch → Type
  | .bool => Bool
  | .bits w => BitVec (8 * w)
  | .char => Char
  | .str => {s : String // s.toByteArray.data.toList.length < 2 ^ 64}
  | .bytes => {b : Bytes // b.length < 2 ^ 64}
  | .unit => Unit
  | .option s => Option s.Val
  | .seq s => {l : List s.Val // l.length < 2 ^ 64}
  | .map k v => {l : List (k.Val × v.Val) // l.length < 2 ^ 64}
  | .newtype s => s.Val
  | .prod fs => fs.Val
  | .enum vs => vs.Val
@[reducible] def Fields.Val : Fields → Type
  | .nil => Unit
  | .cons s fs => s.Val × fs.Val
@[reducible] def Variants.Val : Variants → Type
  | .nil => Empty
  | .unit vs => Unit ⊕ vs.Val
  | .newtype s vs => s.Val ⊕ vs.Val
  | .prod fs vs => fs.Val ⊕ vs.Val
end

/-! ## Serializer -/

/-- `Serializer`, fs/serde.rs:118-130: blocks written, `block_data`, `recursion_depth`. -/
structure Ser where
  file : List Bytes
  data : Bytes
  depth : Nat
deriving DecidableEq, Repr

/-- `Block::new_unchecked`, fs/mod.rs:249-261, for at most `B` bytes. -/
def pad (B : Nat) (b : Bytes) : Bytes := b ++ List.replicate (B - b.length) 0

/-- `flush_intermediate`, serde.rs:163-170, `Block::parse_full`, fs/mod.rs:271-276. The fuel bounds the number of
blocks. -/
def fullBlocks (B : Nat) : Nat → List Bytes → Bytes → List Bytes × Bytes
  | 0, file, data => (file, data)
  | n + 1, file, data =>
    if data.length ≥ B then fullBlocks B n (file ++ [pad B (data.take B)]) (data.drop B) else (file, data)

/-- `flush_end`, serde.rs:173-179, `Block::parse`, fs/mod.rs:263-268. -/
def allBlocks (B : Nat) : Nat → List Bytes → Bytes → List Bytes × Bytes
  | 0, file, data => (file, data)
  | n + 1, file, data =>
    if data.isEmpty then (file, data)
    else allBlocks B n (file ++ [pad B (data.take (min data.length B))]) (data.drop (min data.length B))

namespace Ser

/-- `new`, serde.rs:138-145. -/
def new : Ser := ⟨[], [], 0⟩

/-- `extend`, serde.rs:148-151. -/
def extend (σ : Ser) (b : Bytes) : Ser := {σ with data := σ.data ++ b}

/-- `flush`, serde.rs:183-191. -/
def flush (B : Nat) (σ : Ser) : Ser :=
  let r := if σ.depth = 0 then allBlocks B σ.data.length σ.file σ.data
    else fullBlocks B σ.data.length σ.file σ.data
  {σ with file := r.1, data := r.2}

/-- `write_bytes`, serde.rs:195-202. -/
def writeBytes (B : Nat) (σ : Ser) (b : Bytes) : Ser := (σ.extend b).flush B

/-- `start_struct`, serde.rs:219-223. -/
def startStruct (σ : Ser) : Ser := {σ with depth := σ.depth + 1}

/-- `start_sequence`, serde.rs:205-216, for a known length. -/
def startSequence (σ : Ser) (len : Nat) : Ser := ({σ with depth := σ.depth + 1} : Ser).extend (toLE 8 len)

/-- `start_struct_with_variant`, serde.rs:227-246. -/
def startVariant (σ : Ser) (i : Nat) : Ser := ({σ with depth := σ.depth + 1} : Ser).extend (toLE 4 i)

/-- `end_compound`, serde.rs:249-252. -/
def endCompound (B : Nat) (σ : Ser) : Ser := ({σ with depth := σ.depth - 1} : Ser).flush B

end Ser

mutual
/-- `Serialize` of a value into the serializer, serde.rs:255-657. -/
def ser (B : Nat) : (s : Sch) → s.Val → Ser → Ser
  | .bool, b, σ => σ.writeBytes B [if b then 1 else 0]
  | .bits w, x, σ => σ.writeBytes B (toLE w x.toNat)
  | .char, c, σ => σ.writeBytes B (toLE 4 c.toNat)
  -- serde.rs:341-343: the bytes as a sequence of `u8`
  | .str, s, σ =>
    let l := s.1.toByteArray.data.toList
    Ser.endCompound B (l.foldl (fun σ b => σ.writeBytes B [b]) (σ.startSequence l.length))
  -- serde.rs:346-350
  | .bytes, b, σ => ((σ.extend (toLE 8 b.1.length)).extend b.1).flush B
  | .unit, _, σ => σ
  | .option s, v, σ =>
    match v with
    | none => σ.writeBytes B [0]
    | some x => ser B s x (σ.extend [1])
  | .seq s, l, σ => Ser.endCompound B (l.1.foldl (fun σ x => ser B s x σ) (σ.startSequence l.1.length))
  | .map k v, l, σ =>
    Ser.endCompound B (l.1.foldl (fun σ x => ser B v x.2 (ser B k x.1 σ)) (σ.startSequence l.1.length))
  | .newtype s, x, σ => ser B s x σ
  | .prod fs, x, σ => Ser.endCompound B (serFields B fs x σ.startStruct)
  | .enum vs, x, σ => serVariants B vs 0 x σ
def serFields (B : Nat) : (fs : Fields) → fs.Val → Ser → Ser
  | .nil, _, σ => σ
  | .cons s fs, x, σ => serFields B fs x.2 (ser B s x.1 σ)
/-- The variant with its index: unit 378-386, newtype 402-415, tuple and struct 439-448, 466-475. -/
def serVariants (B : Nat) : (vs : Variants) → Nat → vs.Val → Ser → Ser
  | .nil, _, x, _ => nomatch x
  | .unit vs, i, x, σ =>
    match x with
    | .inl _ => σ.writeBytes B (toLE 4 i)
    | .inr y => serVariants B vs (i + 1) y σ
  | .newtype s vs, i, x, σ =>
    match x with
    | .inl y => ser B s y (σ.extend (toLE 4 i))
    | .inr y => serVariants B vs (i + 1) y σ
  | .prod fs vs, i, x, σ =>
    match x with
    | .inl y => Ser.endCompound B (serFields B fs y (σ.startVariant i))
    | .inr y => serVariants B vs (i + 1) y σ
end

/-- `File::save`, fs/mod.rs:323-338: the blocks in the file afterwards; what is left in `block_data` is lost. -/
def save (B : Nat) (s : Sch) (v : s.Val) : List Bytes := (ser B s v Ser.new).file

/-! ## Deserializer -/

/-- `de::Error`, serde.rs:680-710. `eof` is `MissingBytes`; with the cocoon file it is an I/O error, because its `read`
reports the end of the file as an error (fs/mod.rs:443-450, cocoon mini.rs:369-380). -/
inductive DErr where
  | eof
  | boolTag
  | optionTag
  | badChar
  | badUtf8
  | badVariant
deriving DecidableEq, Repr

/-- `Deserializer`, serde.rs:768-777: blocks not read yet and `block_data`. -/
structure De where
  file : List Bytes
  data : Bytes
deriving DecidableEq, Repr

abbrev DRes (α : Type) := Except DErr (α × De)

/-- `load_bytes`, serde.rs:795-817. -/
def loadBytes (n : Nat) : List Bytes → Bytes → Option De
  | [], data => if data.length < n then none else some ⟨[], data⟩
  | b :: file, data => if data.length < n then loadBytes n file (data ++ b) else some ⟨b :: file, data⟩

namespace De

/-- `read_exact`, serde.rs:820-827. -/
def readExact (δ : De) (n : Nat) : DRes Bytes :=
  match loadBytes n δ.file δ.data with
  | none => .error .eof
  | some δ' => .ok (δ'.data.take n, {δ' with data := δ'.data.drop n})

/-- `read_bytes` for integers, serde.rs:836-842. -/
def readInt (δ : De) (w : Nat) : DRes Nat :=
  match δ.readExact w with
  | .error e => .error e
  | .ok (b, δ') => .ok (fromLE b, δ')

/-- `read_byte_buf`, serde.rs:851-855. -/
def readByteBuf (δ : De) : DRes Bytes :=
  match δ.readInt 8 with
  | .error e => .error e
  | .ok (n, δ') => δ'.readExact n

end De

/-- The loop of a sequence visitor over `LengthAccess`, serde.rs:1178-1202. -/
def deSeq {α : Type} (f : De → DRes α) : Nat → De → DRes (List α)
  | 0, δ => .ok ([], δ)
  | n + 1, δ =>
    match f δ with
    | .error e => .error e
    | .ok (x, δ1) =>
      match deSeq f n δ1 with
      | .error e => .error e
      | .ok (xs, δ2) => .ok (x :: xs, δ2)

/-- A key and its value, serde.rs:1204-1231. -/
def dePair {α β : Type} (f : De → DRes α) (g : De → DRes β) (δ : De) : DRes (α × β) :=
  match f δ with
  | .error e => .error e
  | .ok (x, δ1) =>
    match g δ1 with
    | .error e => .error e
    | .ok (y, δ2) => .ok ((x, y), δ2)

/-- Applies a function to the value of a result. -/
def mapRes {α β : Type} (f : α → β) : DRes α → DRes β
  | .error e => .error e
  | .ok (x, δ) => .ok (f x, δ)

/-- Packs a list with its length, which fits because it was read from 8 bytes; the error is not reachable. -/
def packList {α : Type} : DRes (List α) → DRes {l : List α // l.length < 2 ^ 64}
  | .error e => .error e
  | .ok (l, δ) => if h : l.length < 2 ^ 64 then .ok (⟨l, h⟩, δ) else .error .eof

/-- `from_utf8`, serde.rs:858-861. -/
def toStr : DRes Bytes → DRes {s : String // s.toByteArray.data.toList.length < 2 ^ 64}
  | .error e => .error e
  | .ok (b, δ) =>
    match String.fromUTF8? b.toByteArray with
    | none => .error .badUtf8
    | some s => if h : s.toByteArray.data.toList.length < 2 ^ 64 then .ok (⟨s, h⟩, δ) else .error .eof

mutual
/-- `Deserialize` of a value, serde.rs:863-1292. -/
def de : (s : Sch) → De → DRes s.Val
  | .bool, δ =>
    match δ.readInt 1 with
    | .error e => .error e
    | .ok (0, δ') => .ok (false, δ')
    | .ok (1, δ') => .ok (true, δ')
    | .ok (_, _) => .error .boolTag
  | .bits w, δ => mapRes (BitVec.ofNat (8 * w)) (δ.readInt w)
  | .char, δ =>
    match δ.readInt 4 with
    | .error e => .error e
    | .ok (n, δ') => if n.isValidChar then .ok (Char.ofNat n, δ') else .error .badChar
  | .str, δ => toStr δ.readByteBuf
  | .bytes, δ => packList δ.readByteBuf
  | .unit, δ => .ok ((), δ)
  | .option s, δ =>
    match δ.readInt 1 with
    | .error e => .error e
    | .ok (0, δ') => .ok (none, δ')
    | .ok (1, δ') => mapRes some (de s δ')
    | .ok (_, _) => .error .optionTag
  | .seq s, δ =>
    match δ.readInt 8 with
    | .error e => .error e
    | .ok (n, δ') => packList (deSeq (de s) n δ')
  | .map k v, δ =>
    match δ.readInt 8 with
    | .error e => .error e
    | .ok (n, δ') => packList (deSeq (dePair (de k) (de v)) n δ')
  | .newtype s, δ => de s δ
  | .prod fs, δ => deFields fs δ
  | .enum vs, δ =>
    match δ.readInt 4 with
    | .error e => .error e
    | .ok (n, δ') => deVariants vs n δ'
def deFields : (fs : Fields) → De → DRes fs.Val
  | .nil, δ => .ok ((), δ)
  | .cons s fs, δ =>
    match de s δ with
    | .error e => .error e
    | .ok (x, δ1) =>
      match deFields fs δ1 with
      | .error e => .error e
      | .ok (y, δ2) => .ok ((x, y), δ2)
/-- The derived visitor picks the variant by the index, serde.rs:1233-1292. -/
def deVariants : (vs : Variants) → Nat → De → DRes vs.Val
  | .nil, _, _ => .error .badVariant
  | .unit _, 0, δ => .ok (.inl (), δ)
  | .newtype s _, 0, δ => mapRes .inl (de s δ)
  | .prod fs _, 0, δ => mapRes .inl (deFields fs δ)
  | .unit vs, i + 1, δ => mapRes .inr (deVariants vs i δ)
  | .newtype _ vs, i + 1, δ => mapRes .inr (deVariants vs i δ)
  | .prod _ vs, i + 1, δ => mapRes .inr (deVariants vs i δ)
end

/-- `File::load`, fs/mod.rs:343-357, from the blocks of the file. -/
def load (s : Sch) (file : List Bytes) : Except DErr s.Val :=
  match de s ⟨file, []⟩ with
  | .error e => .error e
  | .ok (v, _) => .ok v

end Verif.Fs
