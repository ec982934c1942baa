import Verif.Codec.Model

/-!
# Properties of the codec (C12, C13, C14, C15)
-/

namespace Verif.Codec

/-! ## Specification -/

/-- A reader that hands out a byte string from front to back. -/
class LawfulReader (R : Type) [Reader R] where
  /-- what is still unread -/
  left : R → Bytes
  ok : ∀ (r : R) (n : Nat), n ≤ (left r).length →
    ∃ r', Reader.readExact r n = .ok ((left r).take n, r') ∧ left r' = (left r).drop n
  short : ∀ (r : R) (n : Nat), (left r).length < n →
    Reader.readExact r n = .error (n - (left r).length)

/-- The bytes an encoder produces. -/
def bytesOf (enc : Enc α) (v : α) : Bytes := (enc v).flatten

/-- Round trip: on every lawful reader whose unread bytes start with the encoding of `v`, the
decoder returns `v` and leaves exactly the trailing bytes. `P` is the set of values of the Rust type. -/
def RoundTrip (P : α → Prop) (enc : Enc α) (dec : Dec ε α) : Prop :=
  ∀ v, P v → ∀ (R : Type) [Reader R] [LawfulReader R] (r : R) (rest : Bytes),
    LawfulReader.left r = bytesOf enc v ++ rest →
    ∃ r', dec R r = .ok v r' ∧ LawfulReader.left r' = rest

/-- Unambiguity: an encoding followed by anything determines value and continuation. -/
def PrefixFree (P : α → Prop) (enc : Enc α) : Prop :=
  ∀ v w, P v → P w → ∀ r s, bytesOf enc v ++ r = bytesOf enc w ++ s → v = w ∧ r = s

/-! ## The slice and vector readers are lawful -/

instance : LawfulReader Slice where
  left r := r.bytes
  ok r n h := ⟨⟨r.bytes.drop n⟩, by simp [Reader.readExact]; omega, rfl⟩
  short r n h := by simp [Reader.readExact]; omega

instance : LawfulReader VecR where
  left r := r.bytes
  ok r n h := by
    refine ⟨⟨r.bytes.drop n⟩, ?_, rfl⟩
    have hn : ¬ (n > r.bytes.length) := by omega
    simp only [Reader.readExact, hn, if_false, List.length_drop]
    rw [show r.bytes.length - (r.bytes.length - n) = n from by omega]
  short r n h := by
    have hn : n > r.bytes.length := by omega
    simp [Reader.readExact, hn]

/-! ## Integers -/

theorem toLE_length (w v : Nat) : (toLE w v).length = w := by
  induction w generalizing v with
  | zero => rfl
  | succ w ih => simp [toLE, ih]

theorem fromLE_toLE (w v : Nat) (h : v < 256 ^ w) : fromLE (toLE w v) = v := by
  induction w generalizing v with
  | zero => simp at h; simp [toLE, fromLE, h]
  | succ w ih =>
    simp only [toLE, fromLE]
    rw [ih (v / 256) (by rw [Nat.pow_succ] at h; omega)]
    simp only [UInt8.toNat_ofNat']
    omega

theorem toLE_fromLE (bs : Bytes) : toLE bs.length (fromLE bs) = bs := by
  induction bs with
  | nil => rfl
  | cons b bs ih =>
    simp only [List.length_cons, toLE, fromLE]
    have hb : b.toNat < 256 := b.toNat_lt
    have h1 : (b.toNat + 256 * fromLE bs) / 256 = fromLE bs := by omega
    rw [h1, ih]
    congr 1
    apply UInt8.toNat_inj.mp
    simp

/-- C12, integers of any width: exact inverse of each other on both sides. -/
theorem c12_uint (w : Nat) : RoundTrip (fun v => v < 256 ^ w) (encUInt w) (decUInt w) := by
  intro v hv R _ _ r rest hleft
  have hlen : (toLE w v).length = w := toLE_length w v
  simp only [bytesOf, encUInt, List.flatten_cons, List.flatten_nil, List.append_nil] at hleft
  obtain ⟨r', h1, h2⟩ := LawfulReader.ok r w (by rw [hleft]; simp [hlen])
  refine ⟨r', ?_, ?_⟩
  · simp only [decUInt, h1, hleft]
    rw [List.take_left' hlen, fromLE_toLE w v hv]
  · rw [h2, hleft, List.drop_left' hlen]

/-- C12, error branch: an integer decoder fails (and does not panic) exactly when fewer than `w`
bytes are left. -/
theorem c12_uint_short (w : Nat) (R : Type) [Reader R] [LawfulReader R] (r : R) :
    (decUInt w R r = .err () ↔ (LawfulReader.left r).length < w) ∧ decUInt w R r ≠ .panic := by
  by_cases h : (LawfulReader.left r).length < w
  · simp [decUInt, LawfulReader.short r w h, h]
  · obtain ⟨r', h1, _⟩ := LawfulReader.ok r w (by omega)
    simp [decUInt, h1, h]

/-- C12, the other direction: every value an integer decoder returns is in range, and encoding it
gives back exactly the bytes that were consumed (canonical encoding). -/
theorem c12_uint_canonical (w : Nat) (R : Type) [Reader R] [LawfulReader R] (r r' : R) (v : Nat)
    (h : decUInt w R r = .ok v r') :
    v < 256 ^ w ∧ LawfulReader.left r = bytesOf (encUInt w) v ++ LawfulReader.left r' := by
  by_cases hs : (LawfulReader.left r).length < w
  · simp [decUInt, LawfulReader.short r w hs] at h
  · obtain ⟨r1, h1, h2⟩ := LawfulReader.ok r w (by omega)
    simp only [decUInt, h1, Res.ok.injEq] at h
    obtain ⟨rfl, rfl⟩ := h
    have hlen : ((LawfulReader.left r).take w).length = w := by simp; omega
    constructor
    · have : ∀ bs : Bytes, fromLE bs < 256 ^ bs.length := by
        intro bs
        induction bs with
        | nil => simp [fromLE]
        | cons b bs ih =>
          have hb : b.toNat < 256 := b.toNat_lt
          simp only [fromLE, List.length_cons, Nat.pow_succ]
          omega
      have := this ((LawfulReader.left r).take w)
      rwa [hlen] at this
    · simp only [bytesOf, encUInt, List.flatten_cons, List.flatten_nil, List.append_nil]
      have := toLE_fromLE ((LawfulReader.left r).take w)
      rw [hlen] at this
      rw [this, h2, List.take_append_drop]

theorem c12_unit : RoundTrip (fun _ => True) encUnit decUnit := by
  intro v _ R _ _ r rest hleft
  exact ⟨r, rfl, by simpa [bytesOf, encUnit] using hleft⟩

/-- Booleans have an encoder only; reading the byte back as `u8` gives 1 or 0. -/
theorem c12_bool (b : Bool) (R : Type) [Reader R] [LawfulReader R] (r : R) (rest : Bytes)
    (h : LawfulReader.left r = bytesOf encBool b ++ rest) :
    ∃ r', decUInt 1 R r = .ok (if b then 1 else 0) r' ∧ LawfulReader.left r' = rest := by
  refine c12_uint 1 _ ?_ R r rest h
  split <;> simp

/-! ## Composition -/

theorem c12_pair {P : α → Prop} {Q : β → Prop} {enc : Enc α} {enc' : Enc β} {dec : Dec ε α}
    {dec' : Dec ε' β} (h : RoundTrip P enc dec) (h' : RoundTrip Q enc' dec') :
    RoundTrip (fun p => P p.1 ∧ Q p.2) (encPair enc enc') (decPair dec dec') := by
  intro v hv R _ _ r rest hleft
  have : bytesOf (encPair enc enc') v = bytesOf enc v.1 ++ bytesOf enc' v.2 := by
    simp [bytesOf, encPair]
  rw [this, List.append_assoc] at hleft
  obtain ⟨r1, h1, h2⟩ := h v.1 hv.1 R r _ hleft
  obtain ⟨r2, h3, h4⟩ := h' v.2 hv.2 R r1 _ h2
  exact ⟨r2, by simp [decPair, h1, h3], h4⟩

theorem bytesOf_encArray_cons (enc : Enc α) (x : α) (xs : List α) :
    bytesOf (encArray enc) (x :: xs) = bytesOf enc x ++ bytesOf (encArray enc) xs := by
  simp [bytesOf, encArray]

theorem bytesOf_encVec (enc : Enc α) (xs : List α) :
    bytesOf (encVec enc) xs = bytesOf (encUInt 8) xs.length ++ bytesOf (encArray enc) xs := by
  simp [bytesOf, encVec, encArray]

theorem c12_array {P : α → Prop} {enc : Enc α} {dec : Dec ε α} (h : RoundTrip P enc dec)
    (N : Nat) :
    RoundTrip (fun xs => xs.length = N ∧ ∀ x ∈ xs, P x) (encArray enc) (decArray N dec) := by
  intro v hv R _ _ r rest hleft
  induction v generalizing N r with
  | nil =>
    obtain ⟨rfl, _⟩ := hv
    exact ⟨r, rfl, by simpa [bytesOf, encArray] using hleft⟩
  | cons x xs ih =>
    obtain ⟨rfl, hP⟩ := hv
    rw [bytesOf_encArray_cons, List.append_assoc] at hleft
    obtain ⟨r1, h1, h2⟩ := h x (hP x List.mem_cons_self) R r _ hleft
    obtain ⟨r2, h3, h4⟩ := ih xs.length ⟨rfl, fun y hy => hP y (List.mem_cons_of_mem _ hy)⟩ r1 h2
    refine ⟨r2, ?_, h4⟩
    simp only [decArray, List.length_cons, decLoop, h1] at h3 ⊢
    rw [h3]

/-- C12, vectors. The side condition is the one every Rust vector meets: its length fits `usize`
and its buffer fits `isize::MAX` bytes. -/
theorem c12_vec {P : α → Prop} {enc : Enc α} {dec : Dec ε α} (h : RoundTrip P enc dec) (sz : Nat) :
    RoundTrip (fun xs => xs.length < 2 ^ 64 ∧ xs.length * sz ≤ isizeMax ∧ ∀ x ∈ xs, P x)
      (encVec enc) (decVec sz dec) := by
  intro v hv R _ _ r rest hleft
  rw [bytesOf_encVec, List.append_assoc] at hleft
  obtain ⟨r1, h1, h2⟩ := c12_uint 8 v.length (by have := hv.1; simpa using this) R r _ hleft
  obtain ⟨r2, h3, h4⟩ := c12_array h v.length v ⟨rfl, hv.2.2⟩ R r1 rest h2
  refine ⟨r2, ?_, h4⟩
  have : ¬ (v.length * sz > isizeMax) := by omega
  simp only [decVec, h1, this, if_false]
  exact h3

/-- Nested instance: vectors of (id, value) assets with a `u128` value and 32-byte id, both through the
slice reader (network input) and through `from_vec`. -/
theorem c12_asset_vec (assets : List (List Nat × Nat)) (rest : Bytes)
    (hlen : assets.length * 48 ≤ isizeMax)
    (hP : ∀ a ∈ assets, (a.1.length = 32 ∧ ∀ b ∈ a.1, b < 256) ∧ a.2 < 2 ^ 128) :
    decVec 48 (decPair (decArray 32 (decUInt 1)) (decUInt 16)) Slice
      ⟨bytesOf (encVec (encPair (encArray (encUInt 1)) (encUInt 16))) assets ++ rest⟩ =
      .ok assets ⟨rest⟩ ∧
    fromVec (decVec 48 (decPair (decArray 32 (decUInt 1)) (decUInt 16)))
      (bytesOf (encVec (encPair (encArray (encUInt 1)) (encUInt 16))) assets ++ rest) =
      some (.ok assets) := by
  have hrt := c12_vec (c12_pair (c12_array (c12_uint 1) 32) (c12_uint 16)) 48
  have hp : assets.length < 2 ^ 64 ∧ assets.length * 48 ≤ isizeMax ∧
      ∀ x ∈ assets, (x.1.length = 32 ∧ ∀ y ∈ x.1, y < 256 ^ 1) ∧ x.2 < 256 ^ 16 := by
    refine ⟨by simp [isizeMax] at hlen; omega, hlen, ?_⟩
    intro a ha
    simpa using hP a ha
  constructor
  · obtain ⟨⟨b⟩, h1, h2⟩ := hrt assets hp Slice
      ⟨bytesOf (encVec (encPair (encArray (encUInt 1)) (encUInt 16))) assets ++ rest⟩ rest rfl
    have : b = rest := h2
    rw [h1, this]
  · obtain ⟨⟨b⟩, h1, h2⟩ := hrt assets hp VecR
      ⟨bytesOf (encVec (encPair (encArray (encUInt 1)) (encUInt 16))) assets ++ rest⟩ rest rfl
    simp [fromVec, h1]

/-- `from_vec` of an unsigned integer returns the first bytes of a vector that is long enough and otherwise the error of the
reader; there is no panic. -/
theorem c12_from_vec (w : Nat) (bs : Bytes) :
    fromVec (decUInt w) bs = some (if w ≤ bs.length then .ok (fromLE (bs.take w)) else .error ()) := by
  by_cases h : w ≤ bs.length
  · have h' : ¬ bs.length < w := by omega
    simp [fromVec, decUInt, Reader.readExact, h, h']
  · have h' : bs.length < w := by omega
    simp [fromVec, decUInt, Reader.readExact, h, h']

/-- `to_vec` produces exactly the concatenated bytes and never panics. -/
theorem c12_to_vec (enc : Enc α) (v : α) : toVec enc v = some (bytesOf enc v) := by
  have : ∀ (cs : List Bytes) (w : VecW), encodeTo cs w = some ⟨w.bytes ++ cs.flatten⟩ := by
    intro cs
    induction cs with
    | nil => intro w; simp [encodeTo]
    | cons c cs ih => intro w; simp [encodeTo, writeRef, Writer.write, ih]
  simp [toVec, this, bytesOf]

example : decVec 16 (decUInt 16) Slice ⟨bytesOf (encVec (encUInt 16)) [5, 2 ^ 127, 7] ++ [9, 9]⟩ =
    .ok [5, 2 ^ 127, 7] ⟨[9, 9]⟩ := by
  obtain ⟨⟨b⟩, h1, h2⟩ := c12_vec (c12_uint 16) 16 [5, 2 ^ 127, 7] (by simp [isizeMax]) Slice
    ⟨bytesOf (encVec (encUInt 16)) [5, 2 ^ 127, 7] ++ [9, 9]⟩ [9, 9] rfl
  have : b = [9, 9] := h2
  rw [h1, this]

/-! ## C13 optional and fallible values: violated -/

theorem readTag (R : Type) [Reader R] [LawfulReader R] (r : R) (t : Nat) (ht : t < 256)
    (rest : Bytes) (h : LawfulReader.left r = bytesOf (encUInt 1) t ++ rest) :
    ∃ r', decUInt 1 R r = .ok t r' ∧ LawfulReader.left r' = rest :=
  c12_uint 1 t (by simpa using ht) R r rest h

/-- C13 is false: for *every* payload codec and *every* value, decoding an encoded `Some v` returns
`None` and leaves the bytes of `v` unread. -/
theorem c13_option_some_decodes_to_none (enc : Enc α) (dec : Dec ε α) (v : α)
    (R : Type) [Reader R] [LawfulReader R] (r : R) (rest : Bytes)
    (h : LawfulReader.left r = bytesOf (encOption enc) (some v) ++ rest) :
    ∃ r', decOption dec R r = .ok none r' ∧ LawfulReader.left r' = bytesOf enc v ++ rest := by
  have : bytesOf (encOption enc) (some v) = bytesOf (encUInt 1) 1 ++ bytesOf enc v := by
    simp [bytesOf, encOption]
  rw [this, List.append_assoc] at h
  obtain ⟨r', h1, h2⟩ := readTag R r 1 (by omega) _ h
  exact ⟨r', by simp [decOption, h1], h2⟩

/-- C13 is false: the round-trip statement fails for every payload codec that can encode anything. -/
theorem c13_option_roundtrip_false (P : α → Prop) (enc : Enc α) (dec : Dec ε α) (v : α) (hv : P v) :
    ¬ RoundTrip (fun o => ∀ x, o = some x → P x) (encOption enc) (decOption dec) := by
  intro hrt
  obtain ⟨r', h1, h2⟩ := hrt (some v) (by rintro x ⟨⟩; exact hv) Slice
    ⟨bytesOf (encOption enc) (some v) ++ []⟩ [] rfl
  obtain ⟨r'', h3, h4⟩ := c13_option_some_decodes_to_none enc dec v Slice
    ⟨bytesOf (encOption enc) (some v) ++ []⟩ [] rfl
  rw [h3] at h1
  cases h1

/-- C13: an encoded `Ok v` is decoded with the *error* decoder and vice versa. -/
theorem c13_result_swapped (enc : Enc α) (encE : Enc β) (dec : Dec ε α) (decE : Dec ε' β)
    (R : Type) [Reader R] [LawfulReader R] (r : R) (rest : Bytes) :
    (∀ v, LawfulReader.left r = bytesOf (encResult enc encE) (.ok v) ++ rest →
      ∀ w r', decResult dec decE R r ≠ .ok (.ok w) r') ∧
    (∀ e, LawfulReader.left r = bytesOf (encResult enc encE) (.error e) ++ rest →
      ∀ w r', decResult dec decE R r ≠ .ok (.error w) r') := by
  constructor
  · intro v h w r'
    have hb : bytesOf (encResult enc encE) (.ok v) = bytesOf (encUInt 1) 1 ++ bytesOf enc v := by
      simp [bytesOf, encResult]
    rw [hb, List.append_assoc] at h
    obtain ⟨r1, h1, h2⟩ := readTag R r 1 (by omega) _ h
    simp only [decResult, h1]
    rcases decE R r1 with _ | _ | _ <;> simp
  · intro v h w r'
    have hb : bytesOf (encResult enc encE) (.error v) = bytesOf (encUInt 1) 0 ++ bytesOf encE v := by
      simp [bytesOf, encResult]
    rw [hb, List.append_assoc] at h
    obtain ⟨r1, h1, h2⟩ := readTag R r 0 (by omega) _ h
    simp only [decResult, h1]
    rcases dec R r1 with _ | _ | _ <;> simp

/-- What does hold (C13, partial; the full statement is `RoundTrip` for `encOption`/`decOption`, refuted
above): the decoder never confuses tags silently with anything but the swap, i.e. it is an inverse of
the encoder that uses tag 0 for `Some` and 1 for `None`, and rejects every other tag. -/
theorem c13_option_partial {P : α → Prop} {enc : Enc α} {dec : Dec ε α} (h : RoundTrip P enc dec)
    (R : Type) [Reader R] [LawfulReader R] (r : R) (rest : Bytes) :
    (∀ v, P v → LawfulReader.left r = 0 :: (bytesOf enc v ++ rest) →
      ∃ r', decOption dec R r = .ok (some v) r' ∧ LawfulReader.left r' = rest) ∧
    (LawfulReader.left r = 1 :: rest →
      ∃ r', decOption dec R r = .ok none r' ∧ LawfulReader.left r' = rest) ∧
    (∀ b : UInt8, 2 ≤ b.toNat → LawfulReader.left r = b :: rest →
      decOption dec R r = .err (.invalidByte b.toNat)) ∧
    (LawfulReader.left r = [] → decOption dec R r = .err .missingByte) := by
  have hb : ∀ b : UInt8, bytesOf (encUInt 1) b.toNat = [b] := by
    intro b
    simp [bytesOf, encUInt, toLE]
  refine ⟨?_, ?_, ?_, ?_⟩
  · intro v hv hl
    obtain ⟨r1, h1, h2⟩ := readTag R r (0 : UInt8).toNat (by decide) (bytesOf enc v ++ rest)
      (by rw [hb]; simpa using hl)
    obtain ⟨r2, h3, h4⟩ := h v hv R r1 rest h2
    exact ⟨r2, by simp [decOption, h1, h3], h4⟩
  · intro hl
    obtain ⟨r1, h1, h2⟩ := readTag R r (1 : UInt8).toNat (by decide) rest
      (by rw [hb]; simpa using hl)
    exact ⟨r1, by simp [decOption, h1], h2⟩
  · intro b hb2 hl
    obtain ⟨r1, h1, h2⟩ := readTag R r b.toNat b.toNat_lt rest
      (by rw [hb]; simpa using hl)
    have h0 : b.toNat ≠ 0 := by omega
    have h1' : b.toNat ≠ 1 := by omega
    simp only [decOption, h1, if_neg h0, if_neg h1']
  · intro hl
    have := (c12_uint_short 1 R r).1.mpr (by simp [hl])
    simp [decOption, this]

example : decOption (decUInt 1) Slice ⟨bytesOf (encOption (encUInt 1)) (some 7)⟩ =
    .ok none ⟨[7]⟩ := by decide

/-! ## C14 byte sources and sinks -/

/-- C14 holds for `read_exact` of the slice reader and the vector reader (this is what all decoders
use): success iff enough bytes, the returned bytes are the next ones, the source advances by exactly
that many, and the error carries the number of missing bytes. -/
theorem c14_read_exact_partial (bs : Bytes) (n : Nat) :
    (n ≤ bs.length → Reader.readExact (Slice.mk bs) n = .ok (bs.take n, ⟨bs.drop n⟩) ∧
      Reader.readExact (VecR.mk bs) n = .ok (bs.take n, ⟨bs.drop n⟩)) ∧
    (bs.length < n → Reader.readExact (Slice.mk bs) n = .error (n - bs.length) ∧
      Reader.readExact (VecR.mk bs) n = .error (n - bs.length)) := by
  constructor
  · intro h
    have hn : ¬ (n > bs.length) := by omega
    simp only [Reader.readExact, hn, if_false, List.length_drop]
    rw [show bs.length - (bs.length - n) = n from by omega]
    simp
  · intro h
    simp [Reader.readExact, h]

/-- C14 violated: plain `read` panics on every source that is shorter than the output buffer,
although the trait says the reader "need not fill the output buffer". -/
theorem c14_read_panics_iff_short (bs : Bytes) (n : Nat) :
    (Reader.read (Slice.mk bs) n = none ↔ bs.length < n) ∧
    (Reader.read (VecR.mk bs) n = none ↔ bs.length < n) ∧
    (Reader.read (Arr.mk bs) n = none ↔ bs.length < n) := by
  by_cases h : n ≤ bs.length
  · simp [Reader.read, h]
  · simp [Reader.read, h]; omega

/-- C14 violated: a fixed array used as reader never advances, so two reads return the same bytes. -/
theorem c14_array_reader_never_advances (bs : Bytes) (n : Nat) (out : Bytes) (r : Arr)
    (h : Reader.readExact (Arr.mk bs) n = .ok (out, r)) : r = ⟨bs⟩ := by
  simp only [Reader.readExact] at h
  split at h
  · cases h
  · simp only [Except.ok.injEq, Prod.mk.injEq] at h
    exact h.2.symm

/-- Consequence: decoding a pair from a fixed array gives the second field the bytes of the first. -/
theorem c14_from_array_pair_wrong (w a b : Nat) (ha : a < 256 ^ w) :
    fromArray (decPair (decUInt w) (decUInt w))
      (bytesOf (encPair (encUInt w) (encUInt w)) (a, b)) = some (a, a) := by
  have hlen : (toLE w a).length = w := toLE_length w a
  have hlen' : (toLE w b).length = w := toLE_length w b
  simp only [fromArray, bytesOf, encPair, encUInt, List.cons_append, List.nil_append,
    List.flatten_cons, List.flatten_nil, List.append_nil, decPair, decUInt, Reader.readExact]
  have hn : ¬ (w > (toLE w a ++ toLE w b).length) := by simp [hlen]
  simp only [hn, if_false]
  rw [List.take_left' hlen, fromLE_toLE w a ha]

/-- C14 violated: the vector sink appends everything but reports all of it as not written, so a
caller that repeats with the remaining input never finishes. -/
theorem c14_vec_write_ref_reports_all_unwritten (w : VecW) (input : Bytes) :
    writeRef w input = some (input, ⟨w.bytes ++ input⟩) := by
  simp [writeRef, Writer.write]

/-- The retry loop of such a caller: after `n` rounds the input is unchanged and was appended `n`
times. -/
def retry [Writer W] : Nat → W → Bytes → Option (W × Bytes)
  | 0, w, input => some (w, input)
  | n + 1, w, input =>
    if input = [] then some (w, input)
    else match writeRef w input with
      | none => none
      | some (rest, w') => retry n w' rest

theorem c14_vec_retry_diverges (n : Nat) (w : VecW) (input : Bytes) (h : input ≠ []) :
    ∃ w', retry n w input = some (w', input) ∧
      w'.bytes = w.bytes ++ (List.replicate n input).flatten := by
  induction n generalizing w with
  | zero => exact ⟨w, rfl, by simp⟩
  | succ n ih =>
    obtain ⟨w', h1, h2⟩ := ih ⟨w.bytes ++ input⟩
    refine ⟨w', ?_, ?_⟩
    · simp [retry, h, c14_vec_write_ref_reports_all_unwritten, h1]
    · rw [h2]; simp [List.replicate_succ]

/-- The I/O writer behaves as documented: one round writes everything once. -/
theorem c14_io_write_partial (n : Nat) (w : IoW) (input : Bytes) :
    retry (n + 1) w input = some (⟨w.bytes ++ input⟩, []) := by
  by_cases h : input = []
  · subst h; cases w; simp [retry]
  · cases n <;> simp [retry, h, writeRef, Writer.write]

/-- `write_drain`: the specialised vector version moves all bytes exactly once; the default version
run on the same sink would leave the input undrained. -/
theorem c14_vec_write_drain (w : VecW) (input : Bytes) :
    w.writeDrain input = (input.length, ⟨w.bytes ++ input⟩, []) ∧
    writeDrainDefault w input = some (0, ⟨w.bytes ++ input⟩, input) := by
  simp [VecW.writeDrain, writeDrainDefault, writeRef, Writer.write]

/-- `read_all`: from a vector it drains the source; from a slice the source keeps all bytes, so the same
bytes can be read again. -/
theorem c14_read_all (bs : Bytes) (out : VecW) :
    VecR.readAll ⟨bs⟩ out = (bs.length, ⟨out.bytes ++ bs⟩, ⟨[]⟩) ∧
    Slice.readAll ⟨bs⟩ out = some (bs.length, ⟨out.bytes ++ bs⟩, ⟨bs⟩) := by
  simp [VecR.readAll, VecW.writeDrain, Slice.readAll, Writer.write]

/-- Exact behaviour of a fixed buffer used as sink: it panics iff some written chunk is shorter than
the buffer; otherwise it ends up holding the first `N` bytes of the *last* chunk. -/
theorem c14_to_array (N : Nat) (enc : Enc α) (v : α) :
    (toArray N enc v = none ↔ ∃ c ∈ enc v, c.length < N) ∧
    ∀ out, toArray N enc v = some out →
      out = match (enc v).getLast? with
        | none => List.replicate N 0
        | some c => c.take N := by
  have key : ∀ (cs : List Bytes) (w : ArrW), w.bytes.length = N →
      (encodeTo cs w = none ↔ ∃ c ∈ cs, c.length < N) ∧
      ∀ w', encodeTo cs w = some w' → w'.bytes = match cs.getLast? with
        | none => w.bytes
        | some c => c.take N := by
    intro cs
    induction cs with
    | nil => intro w hw; simp [encodeTo]
    | cons c cs ih =>
      intro w hw
      by_cases hc : N ≤ c.length
      · have hstep : writeRef w c = some (c.drop N, ⟨c.take N⟩) := by
          simp [writeRef, Writer.write, Reader.read, hw, hc]
        obtain ⟨h1, h2⟩ := ih ⟨c.take N⟩ (by simp [hc])
        constructor
        · simp only [encodeTo, hstep, h1, List.mem_cons]
          constructor
          · rintro ⟨d, hd, hl⟩; exact ⟨d, Or.inr hd, hl⟩
          · rintro ⟨d, rfl | hd, hl⟩
            · omega
            · exact ⟨d, hd, hl⟩
        · intro w' hw'
          simp only [encodeTo, hstep] at hw'
          have := h2 w' hw'
          rw [this]
          cases hcs : cs with
          | nil => simp
          | cons d ds => simp [List.getLast?_cons_cons]; rfl
      · have hstep : writeRef w c = none := by
          simp [writeRef, Writer.write, Reader.read, hw, hc]
        constructor
        · simp only [encodeTo, hstep, true_iff]
          exact ⟨c, List.mem_cons_self, by omega⟩
        · intro w' hw'
          simp [encodeTo, hstep] at hw'
  obtain ⟨h1, h2⟩ := key (enc v) ⟨List.replicate N 0⟩ (by simp)
  unfold toArray
  rcases he : encodeTo (enc v) (ArrW.mk (List.replicate N 0)) with _ | w
  · simp only [he, true_iff] at h1
    exact ⟨by simpa using h1, by simp⟩
  · rw [he] at h1
    refine ⟨by simpa using h1, ?_⟩
    intro out hout
    simp only [Option.some.injEq] at hout
    subst hout
    exact h2 w he

/-- C14 violated for composite values: a pair of non-empty fields never fits its exact-size array. -/
theorem c14_to_array_pair_panics (w w' a b : Nat) (hw' : 0 < w') :
    toArray (w + w') (encPair (encUInt w) (encUInt w')) (a, b) = none := by
  rw [(c14_to_array _ _ _).1]
  exact ⟨toLE w a, by simp [encPair, encUInt], by rw [toLE_length]; omega⟩

/-- Integers do fit (C14, the part of `to_array` that holds). -/
theorem c14_to_array_uint_partial (w v : Nat) : toArray w (encUInt w) v = some (toLE w v) := by
  have h := c14_to_array w (encUInt w) v
  rcases ht : toArray w (encUInt w) v with _ | out
  · have := h.1.mp ht
    simp [encUInt, toLE_length] at this
  · have := h.2 out ht
    rw [this]
    simp [encUInt, List.take_of_length_le (Nat.le_of_eq (toLE_length w v))]

/-- A length prefix above the allocation limit makes the vector decoder panic instead of returning an
error, whatever follows. -/
theorem c14_vec_decode_panics (sz len : Nat) (dec : Dec ε α) (rest : Bytes)
    (hl : len < 2 ^ 64) (hs : len * sz > isizeMax) :
    decVec sz dec Slice ⟨bytesOf (encUInt 8) len ++ rest⟩ = .panic := by
  obtain ⟨r', h1, _⟩ := c12_uint 8 len (by simpa using hl) Slice
    ⟨bytesOf (encUInt 8) len ++ rest⟩ rest rfl
  simp [decVec, h1, hs]

example : decVec 16 (decUInt 16) Slice ⟨[255, 255, 255, 255, 255, 255, 255, 255]⟩ = .panic := by
  decide

/-! ## C15 unambiguity -/

theorem c15_of_roundtrip {P : α → Prop} {enc : Enc α} {dec : Dec ε α} (h : RoundTrip P enc dec) :
    PrefixFree P enc := by
  intro v w hv hw r s heq
  obtain ⟨r1, h1, h2⟩ := h v hv Slice ⟨bytesOf enc v ++ r⟩ r rfl
  obtain ⟨r2, h3, h4⟩ := h w hw Slice ⟨bytesOf enc v ++ r⟩ s heq
  rw [h1] at h3
  cases h3
  exact ⟨rfl, h2.symm.trans h4⟩

theorem c15_uint (w : Nat) : PrefixFree (fun v => v < 256 ^ w) (encUInt w) :=
  c15_of_roundtrip (c12_uint w)

theorem c15_bool : PrefixFree (fun _ => True) encBool := by
  intro v w _ _ r s h
  have := c15_uint 1 _ _ (by split <;> simp) (by split <;> simp) r s h
  refine ⟨?_, this.2⟩
  revert this
  cases v <;> cases w <;> simp

theorem c15_unit : PrefixFree (fun _ => True) encUnit := c15_of_roundtrip c12_unit

theorem c15_pair {P : α → Prop} {Q : β → Prop} {enc : Enc α} {enc' : Enc β}
    (h : PrefixFree P enc) (h' : PrefixFree Q enc') :
    PrefixFree (fun p => P p.1 ∧ Q p.2) (encPair enc enc') := by
  intro v w hv hw r s heq
  have hb : ∀ p, bytesOf (encPair enc enc') p = bytesOf enc p.1 ++ bytesOf enc' p.2 := by
    intro p; simp [bytesOf, encPair]
  rw [hb, hb, List.append_assoc, List.append_assoc] at heq
  obtain ⟨h1, h2⟩ := h v.1 w.1 hv.1 hw.1 _ _ heq
  obtain ⟨h3, h4⟩ := h' v.2 w.2 hv.2 hw.2 _ _ h2
  exact ⟨Prod.ext h1 h3, h4⟩

theorem c15_array {P : α → Prop} {enc : Enc α} (h : PrefixFree P enc) (N : Nat) :
    PrefixFree (fun xs => xs.length = N ∧ ∀ x ∈ xs, P x) (encArray enc) := by
  intro v
  induction v generalizing N with
  | nil =>
    intro w hv hw r s heq
    have : w = [] := List.eq_nil_of_length_eq_zero (hw.1.trans hv.1.symm)
    subst this
    exact ⟨rfl, by simpa [bytesOf, encArray] using heq⟩
  | cons x xs ih =>
    intro w hv hw r s heq
    cases w with
    | nil => have := hv.1; have := hw.1; simp at *; omega
    | cons y ys =>
      rw [bytesOf_encArray_cons, bytesOf_encArray_cons, List.append_assoc, List.append_assoc] at heq
      obtain ⟨h1, h2⟩ := h x y (hv.2 x List.mem_cons_self) (hw.2 y List.mem_cons_self) _ _ heq
      have hl : ys.length = xs.length := by
        have := hv.1; have := hw.1; simp at *; omega
      obtain ⟨h3, h4⟩ := ih xs.length ys ⟨rfl, fun z hz => hv.2 z (List.mem_cons_of_mem _ hz)⟩
        ⟨hl, fun z hz => hw.2 z (List.mem_cons_of_mem _ hz)⟩ _ _ h2
      exact ⟨by rw [h1, h3], h4⟩

theorem c15_vec {P : α → Prop} {enc : Enc α} (h : PrefixFree P enc) :
    PrefixFree (fun xs => xs.length < 2 ^ 64 ∧ ∀ x ∈ xs, P x) (encVec enc) := by
  intro v w hv hw r s heq
  rw [bytesOf_encVec, bytesOf_encVec, List.append_assoc, List.append_assoc] at heq
  obtain ⟨h1, h2⟩ := c15_uint 8 v.length w.length (by simpa using hv.1) (by simpa using hw.1) _ _ heq
  exact c15_array h v.length v w ⟨rfl, hv.2⟩ ⟨h1.symm, hw.2⟩ _ _ h2

theorem c15_option {P : α → Prop} {enc : Enc α} (h : PrefixFree P enc) :
    PrefixFree (fun o => ∀ x, o = some x → P x) (encOption enc) := by
  have hs : ∀ v, bytesOf (encOption enc) (some v) = bytesOf (encUInt 1) 1 ++ bytesOf enc v := by
    intro v; simp [bytesOf, encOption]
  have hn : bytesOf (encOption enc) none = bytesOf (encUInt 1) 0 := by
    simp [bytesOf, encOption]
  intro v w hv hw r s heq
  cases v with
  | none =>
    cases w with
    | none =>
      rw [hn] at heq
      exact ⟨rfl, List.append_cancel_left heq⟩
    | some y =>
      rw [hn, hs, List.append_assoc] at heq
      have := (c15_uint 1 0 1 (by simp) (by simp) _ _ heq).1
      cases this
  | some x =>
    cases w with
    | none =>
      rw [hn, hs, List.append_assoc] at heq
      have := (c15_uint 1 1 0 (by simp) (by simp) _ _ heq).1
      cases this
    | some y =>
      rw [hs, hs, List.append_assoc, List.append_assoc] at heq
      obtain ⟨h1, h2⟩ := h x y (hv x rfl) (hw y rfl) _ _ (List.append_cancel_left heq)
      exact ⟨by rw [h1], h2⟩

theorem c15_result {P : α → Prop} {Q : β → Prop} {enc : Enc α} {encE : Enc β}
    (h : PrefixFree P enc) (h' : PrefixFree Q encE) :
    PrefixFree (fun o => (∀ x, o = .ok x → P x) ∧ ∀ e, o = .error e → Q e) (encResult enc encE) := by
  have hs : ∀ v, bytesOf (encResult enc encE) (.ok v) = bytesOf (encUInt 1) 1 ++ bytesOf enc v := by
    intro v; simp [bytesOf, encResult]
  have hn : ∀ v, bytesOf (encResult enc encE) (.error v) = bytesOf (encUInt 1) 0 ++ bytesOf encE v := by
    intro v; simp [bytesOf, encResult]
  intro v w hv hw r s heq
  cases v with
  | error e =>
    cases w with
    | error e' =>
      rw [hn, hn, List.append_assoc, List.append_assoc] at heq
      obtain ⟨h1, h2⟩ := h' e e' (hv.2 e rfl) (hw.2 e' rfl) _ _ (List.append_cancel_left heq)
      exact ⟨by rw [h1], h2⟩
    | ok y =>
      rw [hn, hs, List.append_assoc, List.append_assoc] at heq
      have := (c15_uint 1 0 1 (by simp) (by simp) _ _ heq).1
      cases this
  | ok x =>
    cases w with
    | error y =>
      rw [hn, hs, List.append_assoc, List.append_assoc] at heq
      have := (c15_uint 1 1 0 (by simp) (by simp) _ _ heq).1
      cases this
    | ok y =>
      rw [hs, hs, List.append_assoc, List.append_assoc] at heq
      obtain ⟨h1, h2⟩ := h x y (hv.1 x rfl) (hw.1 y rfl) _ _ (List.append_cancel_left heq)
      exact ⟨by rw [h1], h2⟩

/-- Values a Rust transfer body can hold, given value sets of its component types. -/
def BodyOk (PI : I → Prop) (PV : V → Prop) (PS : S → Prop) (PR : R → Prop) (PP : P → Prop)
    (b : Body I V S R P) : Prop :=
  (∀ x, b.assetId = some x → PI x) ∧ (b.sources.length < 2 ^ 64 ∧ ∀ x ∈ b.sources, PV x) ∧
  (b.senderPosts.length < 2 ^ 64 ∧ ∀ x ∈ b.senderPosts, PS x) ∧
  (b.receiverPosts.length < 2 ^ 64 ∧ ∀ x ∈ b.receiverPosts, PR x) ∧
  (b.sinks.length < 2 ^ 64 ∧ ∀ x ∈ b.sinks, PV x) ∧ PP b.proof

theorem c15_body {PI : I → Prop} {PV : V → Prop} {PS : S → Prop} {PR : R → Prop} {PP : P → Prop}
    {encI : Enc I} {encV : Enc V} {encS : Enc S} {encR : Enc R} {encP : Enc P}
    (hI : PrefixFree PI encI) (hV : PrefixFree PV encV) (hS : PrefixFree PS encS)
    (hR : PrefixFree PR encR) (hP : PrefixFree PP encP) :
    PrefixFree (BodyOk PI PV PS PR PP) (encBody encI encV encS encR encP) := by
  intro v w hv hw r s heq
  have hb : ∀ b, bytesOf (encBody encI encV encS encR encP) b =
      bytesOf (encOption encI) b.assetId ++ (bytesOf (encVec encV) b.sources ++
        (bytesOf (encVec encS) b.senderPosts ++ (bytesOf (encVec encR) b.receiverPosts ++
          (bytesOf (encVec encV) b.sinks ++ bytesOf encP b.proof)))) := by
    intro b; simp [bytesOf, encBody]
  rw [hb, hb] at heq
  simp only [List.append_assoc] at heq
  obtain ⟨h1, heq⟩ := c15_option hI _ _ hv.1 hw.1 _ _ heq
  obtain ⟨h2, heq⟩ := c15_vec hV _ _ hv.2.1 hw.2.1 _ _ heq
  obtain ⟨h3, heq⟩ := c15_vec hS _ _ hv.2.2.1 hw.2.2.1 _ _ heq
  obtain ⟨h4, heq⟩ := c15_vec hR _ _ hv.2.2.2.1 hw.2.2.2.1 _ _ heq
  obtain ⟨h5, heq⟩ := c15_vec hV _ _ hv.2.2.2.2.1 hw.2.2.2.2.1 _ _ heq
  obtain ⟨h6, heq⟩ := hP _ _ hv.2.2.2.2.2 hw.2.2.2.2.2 _ _ heq
  refine ⟨?_, heq⟩
  cases v; cases w
  simp_all

/-- C15: the byte string that a spending key signs determines the whole body of the post and the
list of sink accounts. -/
theorem c15_signed_message {PI : I → Prop} {PV : V → Prop} {PS : S → Prop} {PR : R → Prop}
    {PP : P → Prop} {PA : A → Prop}
    {encI : Enc I} {encV : Enc V} {encS : Enc S} {encR : Enc R} {encP : Enc P} {encA : Enc A}
    (hI : PrefixFree PI encI) (hV : PrefixFree PV encV) (hS : PrefixFree PS encS)
    (hR : PrefixFree PR encR) (hP : PrefixFree PP encP) (hA : PrefixFree PA encA)
    (b b' : Body I V S R P) (as as' : List A)
    (hb : BodyOk PI PV PS PR PP b) (hb' : BodyOk PI PV PS PR PP b')
    (ha : as.length < 2 ^ 64 ∧ ∀ a ∈ as, PA a) (ha' : as'.length < 2 ^ 64 ∧ ∀ a ∈ as', PA a)
    (h : toVec (encSigned encI encV encS encR encP encA) (b, as) =
      toVec (encSigned encI encV encS encR encP encA) (b', as')) : b = b' ∧ as = as' := by
  rw [c12_to_vec, c12_to_vec] at h
  simp only [Option.some.injEq] at h
  have hbytes : ∀ p, bytesOf (encSigned encI encV encS encR encP encA) p =
      bytesOf (encBody encI encV encS encR encP) p.1 ++ bytesOf (encVec encA) p.2 := by
    intro p; simp [bytesOf, encSigned]
  rw [hbytes, hbytes] at h
  obtain ⟨h1, h2⟩ := c15_body hI hV hS hR hP b b' hb hb' _ _ h
  have h2' : bytesOf (encVec encA) as ++ [] = bytesOf (encVec encA) as' ++ [] := by simpa using h2
  exact ⟨h1, (c15_vec hA as as' ha ha' [] [] h2').1⟩

/-- C15 does not hold for a whole `TransferPost`: its encoding ignores the sink accounts, so two posts
that differ only there have the same bytes. -/
theorem c15_post_encoding_ignores_accounts (encK : Enc K) (encI : Enc I) (encV : Enc V)
    (encS : Enc S) (encR : Enc R) (encP : Enc P) (p : Post K I V S R P A) (as : List A) :
    bytesOf (encPost encK encI encV encS encR encP) { p with sinkAccounts := as } =
      bytesOf (encPost encK encI encV encS encR encP) p := rfl

/-- C54, what holds: two posts have the same bytes exactly if they agree in the signature and in the
whole body; only the sink accounts are lost. -/
theorem c54_post_partial {PK : K → Prop} {PI : I → Prop} {PV : V → Prop} {PS : S → Prop}
    {PR : R → Prop} {PP : P → Prop} {encK : Enc K}
    {encI : Enc I} {encV : Enc V} {encS : Enc S} {encR : Enc R} {encP : Enc P}
    (hK : PrefixFree PK encK) (hI : PrefixFree PI encI) (hV : PrefixFree PV encV)
    (hS : PrefixFree PS encS) (hR : PrefixFree PR encR) (hP : PrefixFree PP encP)
    (p q : Post K I V S R P A)
    (hp : (∀ x, p.signature = some x → PK x) ∧ BodyOk PI PV PS PR PP p.body)
    (hq : (∀ x, q.signature = some x → PK x) ∧ BodyOk PI PV PS PR PP q.body) :
    bytesOf (encPost encK encI encV encS encR encP) p =
      bytesOf (encPost encK encI encV encS encR encP) q ↔
    p.signature = q.signature ∧ p.body = q.body := by
  have hbytes : ∀ p : Post K I V S R P A, bytesOf (encPost encK encI encV encS encR encP) p =
      bytesOf (encOption encK) p.signature ++ bytesOf (encBody encI encV encS encR encP) p.body := by
    intro p; simp [bytesOf, encPost]
  rw [hbytes, hbytes]
  constructor
  · intro h
    obtain ⟨h1, h2⟩ := c15_option hK _ _ hp.1 hq.1 _ _ h
    have h2' : bytesOf (encBody encI encV encS encR encP) p.body ++ [] =
        bytesOf (encBody encI encV encS encR encP) q.body ++ [] := by simpa using h2
    exact ⟨h1, (c15_body hI hV hS hR hP _ _ hp.2 hq.2 [] [] h2').1⟩
  · rintro ⟨h1, h2⟩
    rw [h1, h2]

/-- Non-vacuity of `c54_post_partial`: the coders of unsigned numbers are prefix free. -/
example : bytesOf (encPost (A := Nat) (encUInt 64) (encUInt 32) (encUInt 16) (encUInt 32)
      (encUInt 32) (encUInt 32)) ⟨some 9, ⟨some 5, [], [1, 2], [3], [10], 0⟩, [77]⟩ ≠
    bytesOf (encPost (encUInt 64) (encUInt 32) (encUInt 16) (encUInt 32)
      (encUInt 32) (encUInt 32)) ⟨some 8, ⟨some 5, [], [1, 2], [3], [10], 0⟩, [77]⟩ := by
  intro h
  have := (c54_post_partial (c15_uint 64) (c15_uint 32) (c15_uint 16) (c15_uint 32) (c15_uint 32)
    (c15_uint 32) _ _ (by simp [BodyOk]) (by simp [BodyOk])).mp h
  simp at this

theorem c15_post_not_injective :
    ∃ p q : Post Nat Nat Nat Nat Nat Nat Nat, p ≠ q ∧
      bytesOf (encPost (encUInt 1) (encUInt 1) (encUInt 1) (encUInt 1) (encUInt 1) (encUInt 1)) p =
      bytesOf (encPost (encUInt 1) (encUInt 1) (encUInt 1) (encUInt 1) (encUInt 1) (encUInt 1)) q :=
  ⟨⟨some 1, ⟨some 5, [], [1, 2], [3], [10], 0⟩, [77]⟩, ⟨some 1, ⟨some 5, [], [1, 2], [3], [10], 0⟩, [78]⟩,
    by decide, by decide⟩

example : BodyOk (fun v => v < 256 ^ 32) (fun v => v < 256 ^ 16) (fun v => v < 256 ^ 32)
    (fun v => v < 256 ^ 32) (fun v => v < 256 ^ 32)
    ⟨some 5, [], [1, 2], [3], [10], 0⟩ := by
  simp [BodyOk]

end Verif.Codec
