import Verif.Ppot.Model
import Verif.Codec.Props
import Mathlib.Tactic.Ring

/-!
# C106: curve points survive the powers-of-tau encoding
-/

set_option linter.unusedSectionVars false

namespace Verif.Ppot

open Verif.Codec (Bytes toLE fromLE toLE_length fromLE_toLE)

/-- What is assumed of the curve: coordinates represent field elements, square roots are right, and the modulus leaves
two bits of the 32 bytes. -/
structure Curve.Lawful {q : ℕ} {K : Type} [Field K] (C : Curve q K) : Prop where
  pos : 0 < C.n
  len : ∀ k, (C.coords k).length = C.n
  back : ∀ k, C.ofCoords (C.coords k) = k
  forth : ∀ l, l.length = C.n → C.coords (C.ofCoords l) = l
  sqrt_some : ∀ a y, C.sqrt a = some y → y * y = a
  sqrt_none : ∀ a, C.sqrt a = none → ∀ y, y * y ≠ a
  modulus : 0 < q
  small : q < 2 ^ 254

/-! ## Bytes -/

theorem byte_cases (P : UInt8 → Prop) (h : ∀ i : Fin 256, P (UInt8.ofFin i)) (b : UInt8) : P b := by
  have := h b.toFin
  simpa using this

theorem small_flag6 (b : UInt8) (h : b.toNat < 64) : b &&& ((1 : UInt8) <<< 6) = 0 ∧ b &&& ((1 : UInt8) <<< 7) = 0 ∧ b &&& 0x3f = b := by
  revert h; revert b; exact byte_cases _ (by decide +kernel)

theorem small_flag7 (b : UInt8) (h : b.toNat < 64) :
    (b ||| (1 : UInt8) <<< 7) &&& ((1 : UInt8) <<< 6) = 0 ∧ (b ||| (1 : UInt8) <<< 7) &&& ((1 : UInt8) <<< 7) ≠ 0 ∧
      (b ||| (1 : UInt8) <<< 7) &&& 0x3f = b := by
  revert h; revert b; exact byte_cases _ (by decide +kernel)

theorem blocks_append (n : ℕ) (x rest : Bytes) (h : x.length = 32 * n) : blocks n (x ++ rest) = blocks n x := by
  induction n generalizing x with
  | zero => rfl
  | succ n ih =>
    simp only [blocks]
    rw [List.take_append_of_le_length (by omega), List.drop_append_of_le_length (by omega)]
    rw [ih _ (by rw [List.length_drop]; omega)]

theorem blocks_flatMap {α : Type} (f : α → Bytes) (l : List α) (h : ∀ a ∈ l, (f a).length = 32) :
    blocks l.length (l.flatMap f) = l.map f := by
  induction l with
  | nil => rfl
  | cons a l ih =>
    have ha := h a (by simp)
    simp only [List.length_cons, blocks, List.flatMap_cons, List.map_cons]
    rw [List.take_append_of_le_length (by omega), List.drop_append_of_le_length (by omega),
      List.take_of_length_le (by omega), List.drop_eq_nil_of_le (by omega), List.nil_append,
      ih (fun b hb => h b (by simp [hb]))]

theorem flatMap_reverse {α : Type} (f : α → Bytes) (l : List α) :
    (l.flatMap f).reverse = l.reverse.flatMap fun a => (f a).reverse := by
  induction l with
  | nil => rfl
  | cons a l ih => simp [List.flatMap_append, ih]

theorem flatMap_length {α : Type} (f : α → Bytes) (l : List α) (k : ℕ) (h : ∀ a ∈ l, (f a).length = k) :
    (l.flatMap f).length = k * l.length := by
  induction l with
  | nil => rfl
  | cons a l ih =>
    rw [List.flatMap_cons, List.length_append, h a (by simp), ih (fun b hb => h b (by simp [hb])), List.length_cons,
      Nat.mul_succ]
    omega

section
variable {q : ℕ} {K : Type} [Field K] [DecidableEq K] {C : Curve q K}

theorem val_lt (hC : C.Lawful) (c : ZMod q) : c.val < 2 ^ 254 := by
  have : NeZero q := ⟨by have := hC.modulus; omega⟩
  have := c.val_lt
  have := hC.small
  omega

theorem toLE_succ (w v : ℕ) : toLE (w + 1) v = toLE w v ++ [UInt8.ofNat (v / 256 ^ w)] := by
  induction w generalizing v with
  | zero => simp [toLE]
  | succ w ih =>
    rw [toLE, ih, toLE, List.cons_append, Nat.div_div_eq_div_mul, Nat.pow_succ, Nat.mul_comm]

/-- The big-endian bytes of a field element. -/
def be (C : Curve q K) (x : K) : Bytes := (fieldBytes C x).reverse

theorem fieldBytes_length (hC : C.Lawful) (x : K) : (fieldBytes C x).length = 32 * C.n := by
  rw [fieldBytes, flatMap_length _ _ 32 (fun _ _ => toLE_length _ _), hC.len]

theorem be_length (hC : C.Lawful) (x : K) : (be C x).length = 32 * C.n := by
  rw [be, List.length_reverse, fieldBytes_length hC]

theorem beCoords_flatMap (C : Curve q K) (vs : List ℕ) (hn : vs.length = C.n) (h : ∀ v ∈ vs, v < 256 ^ 32) :
    beCoords C (vs.flatMap fun v => toLE 32 v).reverse = C.ofCoords (vs.map fun v => ((v : ℕ) : ZMod q)) := by
  have hb : blocks C.n (vs.flatMap fun v => toLE 32 v).reverse = vs.reverse.map fun v => (toLE 32 v).reverse := by
    have := blocks_flatMap (fun v : ℕ => (toLE 32 v).reverse) vs.reverse
      (fun _ _ => by rw [List.length_reverse, toLE_length])
    rw [List.length_reverse, hn] at this
    rw [flatMap_reverse, this]
  rw [beCoords, hb, List.map_map, ← List.map_reverse, List.reverse_reverse]
  refine congrArg C.ofCoords (List.map_congr_left fun v hv => ?_)
  show ((fromLE (toLE 32 v).reverse.reverse : ℕ) : ZMod q) = (v : ZMod q)
  rw [List.reverse_reverse, fromLE_toLE _ _ (h v hv)]

theorem fieldBytes_eq (C : Curve q K) (x : K) :
    fieldBytes C x = ((C.coords x).map ZMod.val).flatMap fun v => toLE 32 v := by
  rw [fieldBytes, List.flatMap_map]

theorem be_coords (hC : C.Lawful) (x : K) : beCoords C (be C x) = x := by
  have hq : NeZero q := ⟨by have := hC.modulus; omega⟩
  rw [be, fieldBytes_eq, beCoords_flatMap C _ (by rw [List.length_map, hC.len]), List.map_map]
  · have : ((fun v : ℕ => (v : ZMod q)) ∘ ZMod.val) = id := by
      funext c
      exact ZMod.natCast_zmod_val c
    rw [this, List.map_id, hC.back]
  · intro v hv
    obtain ⟨c, -, rfl⟩ := List.mem_map.mp hv
    have hc := val_lt hC c
    have : (2:ℕ) ^ 254 ≤ 256 ^ 32 := by decide
    omega

theorem be_head (hC : C.Lawful) (x : K) : ∃ (b : UInt8) (t : Bytes), be C x = b :: t ∧ b.toNat < 64 := by
  have hl := hC.len x
  have hp := hC.pos
  rcases h : (C.coords x).reverse with _ | ⟨c, cs⟩
  · have := congrArg List.length h
    simp at this
    rw [this] at hl
    simp at hl
    omega
  · rw [be, fieldBytes, flatMap_reverse, h, List.flatMap_cons, toLE_succ 31, List.reverse_append]
    refine ⟨UInt8.ofNat (c.val / 256 ^ 31), _, by
      simp only [List.reverse_cons, List.reverse_nil, List.nil_append, List.cons_append]; rfl, ?_⟩
    have hc := val_lt hC c
    have : c.val / 256 ^ 31 < 64 := by
      apply Nat.div_lt_of_lt_mul
      have : 256 ^ 31 * 64 = (2 : ℕ) ^ 254 := by decide
      omega
    rw [UInt8.toNat_ofNat']
    omega

/-! ## The order of field elements -/

theorem key_inj (hC : C.Lawful) {x y : K}
    (h : ((C.coords x).map ZMod.val).reverse = ((C.coords y).map ZMod.val).reverse) : x = y := by
  have hq : NeZero q := ⟨by have := hC.modulus; omega⟩
  rw [List.reverse_inj] at h
  have := List.map_injective_iff.mpr (ZMod.val_injective q) h
  rw [← hC.back x, this, hC.back]

/-- Of two different elements exactly one is smaller. -/
theorem lt_xor (hC : C.Lawful) {x y : K} (h : x ≠ y) : fieldLt C x y = !fieldLt C y x := by
  unfold fieldLt
  have hk : ((C.coords x).map ZMod.val).reverse ≠ ((C.coords y).map ZMod.val).reverse := fun e => h (key_inj hC e)
  generalize ((C.coords x).map ZMod.val).reverse = a at *
  generalize ((C.coords y).map ZMod.val).reverse = b at *
  by_cases hab : a < b
  · have : ¬ b < a := List.lt_asymm hab
    simp [hab, this]
  · have : b < a := by
      rcases List.le_iff_lt_or_eq.mp (List.not_lt.mp hab) with h | h
      · exact h
      · exact absurd h.symm hk
    simp [hab, this]

/-! ## Reading what was written -/

theorem readInto_slice (n : ℕ) (B rest : Bytes) (hn : 0 < n) (h : B.length = n) :
    readInto n (slice (B ++ rest)) = (B, slice rest) := by
  have hB : B ++ rest ≠ [] := by
    intro e
    rw [List.append_eq_nil_iff] at e
    rw [e.1] at h
    simp at h
    omega
  simp only [slice, Stream.push, hB, if_false, readInto]
  rw [List.take_append_of_le_length (by omega), List.take_of_length_le (by omega), List.drop_append_of_le_length (by omega),
    List.drop_eq_nil_of_le (by omega)]
  simp [h]

theorem compress_affine (hC : C.Lawful) (x y : K) : ∃ (b : UInt8) (t : Bytes), be C x = b :: t ∧ b.toNat < 64 ∧
    compress C (.affine x y) = (b ||| (if fieldLt C (-y) y then (1 : UInt8) <<< 7 else 0)) :: t := by
  obtain ⟨b, t, h, hb⟩ := be_head hC x
  refine ⟨b, t, h, hb, ?_⟩
  have : (fieldBytes C x).reverse = b :: t := h
  simp only [compress, flagReverse, this]

theorem flagReverse_zero (f : UInt8) (n : ℕ) (h : 0 < n) :
    flagReverse f (List.replicate n 0) = f :: List.replicate (n - 1) 0 := by
  obtain ⟨n, rfl⟩ := Nat.exists_eq_succ_of_ne_zero (Nat.ne_of_gt h)
  rw [flagReverse, List.reverse_replicate, List.replicate_succ]
  simp

theorem flagReverse_length (f : UInt8) (bs : Bytes) : (flagReverse f bs).length = bs.length := by
  unfold flagReverse
  rcases h : bs.reverse with _ | ⟨b, t⟩ <;> have := congrArg List.length h <;> simp_all

/-- The sizes announced by `compressed_size` and `uncompressed_size` are those of the encodings. -/
theorem c106_size (hC : C.Lawful) (p : Point K) :
    (compress C p).length = 32 * C.n ∧ (uncompressed C p).length = 64 * C.n := by
  cases p with
  | zero => simp [compress, uncompressed, flagReverse_length]
  | affine x y =>
    simp only [compress, uncompressed, flagReverse_length, List.length_reverse, List.length_append,
      fieldBytes_length hC, true_and]
    omega

theorem infinity_zero (n : ℕ) :
    infinity (K := K) (((1 : UInt8) <<< 6) :: List.replicate (n - 1) 0) = .ok .zero := by
  have : (((1 : UInt8) <<< 6) &&& 0x3f) = 0 := by decide
  simp [infinity, mask, this]

/-- Every point of the curve is read back from its compressed encoding, whatever follows it. -/
theorem c106_compressed (hC : C.Lawful) (p : Point K) (hp : onCurve C p = true) (rest : Bytes) :
    readCompressed C (slice (compress C p ++ rest)) = (.ok p, slice rest) := by
  have hn := hC.pos
  unfold readCompressed
  rw [readInto_slice _ _ _ (by omega) (c106_size hC p).1]
  cases p with
  | zero =>
    simp only [compress, flagReverse_zero _ (32 * C.n) (by omega)]
    have h1 : flag 6 (((1 : UInt8) <<< 6) :: List.replicate (32 * C.n - 1) 0) = true := by
      simp only [flag, List.headD_cons]; decide
    simp only [h1, if_true, infinity_zero (K := K) (32 * C.n)]
  | affine x y =>
    obtain ⟨b, t, hbe, hb, hc⟩ := compress_affine hC x y
    have h6 : flag 6 (compress C (.affine x y)) = false := by
      rw [hc, flag, List.headD_cons]
      split
      · simp [(small_flag7 b hb).1]
      · simp [(small_flag6 b hb).1]
    have h7 : flag 7 (compress C (.affine x y)) = fieldLt C (-y) y := by
      rw [hc, flag, List.headD_cons]
      rcases hlt : fieldLt C (-y) y
      · simp [(small_flag6 b hb).2.1]
      · simp [(small_flag7 b hb).2.1]
    have hm : mask (compress C (.affine x y)) = be C x := by
      rw [hc, mask, hbe]
      split
      · rw [(small_flag7 b hb).2.2]
      · rw [UInt8.or_zero, (small_flag6 b hb).2.2]
    simp only [h6, hm, h7, be_coords hC, pointFromX]
    have hcurve : y * y = x * x * x + C.b := by simpa [onCurve] using hp
    rcases hs : C.sqrt (x * x * x + C.b) with _ | z
    · exact absurd hcurve (hC.sqrt_none _ hs y)
    · have hz := hC.sqrt_some _ _ hs
      have hyz : z = y ∨ z = -y := by
        have : (z - y) * (z + y) = 0 := by
          have : (z - y) * (z + y) = z * z - y * y := by ring
          rw [this, hz, hcurve, sub_self]
        rcases mul_eq_zero.mp this with h | h
        · exact .inl (sub_eq_zero.mp h)
        · exact .inr (eq_neg_of_add_eq_zero_left h)
      by_cases hne : y = -y
      · have : z = y := by
          rcases hyz with h | h
          · exact h
          · rw [h, ← hne]
        subst this
        simp [← hne]
      · have hx := lt_xor hC hne
        rcases hyz with h | h
        · subst h
          simp only [hx]
          cases fieldLt C (-z) z <;> simp
        · subst h
          simp only [neg_neg]
          cases fieldLt C (-y) y <;> simp

/-- Every pair of coordinates is read back from its uncompressed encoding. -/
theorem readUnchecked_uncompressed (hC : C.Lawful) (p : Point K) (rest : Bytes) :
    readUnchecked C (slice (uncompressed C p ++ rest)) = (.ok p, slice rest) := by
  have hn := hC.pos
  unfold readUnchecked
  rw [readInto_slice _ _ _ (by omega) (c106_size hC p).2]
  cases p with
  | zero =>
    simp only [uncompressed, flagReverse_zero _ (64 * C.n) (by omega)]
    have h1 : flag 6 (((1 : UInt8) <<< 6) :: List.replicate (64 * C.n - 1) 0) = true := by
      simp only [flag, List.headD_cons]; decide
    have h2 : flag 7 (((1 : UInt8) <<< 6) :: List.replicate (64 * C.n - 1) 0) = false := by
      simp only [flag, List.headD_cons]; decide
    simp only [h1, h2, if_true, infinity_zero (K := K) (64 * C.n)]
    rfl
  | affine x y =>
    obtain ⟨b, t, hbe, hb⟩ := be_head hC x
    have hu : uncompressed C (.affine x y) = be C x ++ be C y := by simp [uncompressed, be]
    have h6 : flag 6 (be C x ++ be C y) = false := by
      rw [hbe, List.cons_append, flag, List.headD_cons]; simp [(small_flag6 b hb).1]
    have h7 : flag 7 (be C x ++ be C y) = false := by
      rw [hbe, List.cons_append, flag, List.headD_cons]; simp [(small_flag6 b hb).2.1]
    have hm : mask (be C x ++ be C y) = be C x ++ be C y := by
      rw [hbe, List.cons_append, mask, (small_flag6 b hb).2.2]
    have hl := be_length hC x
    simp only [hu, h6, h7, hm]
    rw [List.take_append_of_le_length (by omega), List.take_of_length_le (by omega),
      List.drop_append_of_le_length (by omega), List.drop_eq_nil_of_le (by omega), List.nil_append, be_coords hC,
      be_coords hC]
    rfl

/-- Reading an uncompressed encoding gives the point back and all that follows it, if the point is valid; otherwise it
gives the reason. -/
theorem c106_uncompressed (hC : C.Lawful) (p : Point K) (rest : Bytes) :
    readUncompressed C (slice (uncompressed C p ++ rest)) =
      (if onCurve C p = false then .error .notOnCurve
        else if C.inSubgroup p = false then .error .notInSubgroup else .ok p, slice rest) := by
  unfold readUncompressed
  rw [readUnchecked_uncompressed hC]
  simp only [check]
  cases onCurve C p <;> cases C.inSubgroup p <;> rfl

/-- Different points of the curve have different encodings. -/
theorem c106_injective (hC : C.Lawful) (p p' : Point K) :
    (uncompressed C p = uncompressed C p' → p = p') ∧
    (onCurve C p = true → onCurve C p' = true → compress C p = compress C p' → p = p') := by
  refine ⟨fun h => ?_, fun hp hp' h => ?_⟩
  · have h1 := readUnchecked_uncompressed hC p []
    rw [h, readUnchecked_uncompressed hC p' []] at h1
    simpa using h1.symm
  · have h1 := c106_compressed hC p hp []
    rw [h, c106_compressed hC p' hp' []] at h1
    simpa using h1.symm

/-- What is read with checks is valid; what is read compressed lies at least on the curve. -/
theorem c106_valid (hC : C.Lawful) (r r' : Stream) (p : Point K) :
    (readUncompressed C r = (.ok p, r') → onCurve C p = true ∧ C.inSubgroup p = true) ∧
    (readCompressed C r = (.ok p, r') → onCurve C p = true) := by
  refine ⟨fun h => ?_, fun h => ?_⟩
  · unfold readUncompressed at h
    rcases hr : readUnchecked C r with ⟨e | p', s⟩ <;> rw [hr] at h
    · simp at h
    · simp only [check] at h
      rcases h1 : onCurve C p' <;> rcases h2 : C.inSubgroup p' <;> simp [h1, h2] at h
      obtain ⟨rfl, rfl⟩ := h
      exact ⟨h1, h2⟩
  · unfold readCompressed at h
    rcases hr : readInto (32 * C.n) r with ⟨copy, s⟩
    rw [hr] at h
    simp only at h
    split at h
    · unfold infinity at h
      split at h <;> simp at h
      obtain ⟨rfl, rfl⟩ := h
      rfl
    · unfold pointFromX at h
      rcases hs : C.sqrt (beCoords C (mask copy) * beCoords C (mask copy) * beCoords C (mask copy) + C.b) with _ | z
      · simp [hs] at h
      · simp only [hs, Prod.mk.injEq, Except.ok.injEq] at h
        obtain ⟨rfl, rfl⟩ := h
        have hz := hC.sqrt_some _ _ hs
        simp only [onCurve, decide_eq_true_eq]
        split
        · exact hz
        · rw [neg_mul_neg]; exact hz

/-! ## What does not hold -/

/-- The checked reader of compressed points does not check the subgroup, the one of uncompressed points does. -/
theorem c106_subgroup_violated (hC : C.Lawful) (p : Point K) (hp : onCurve C p = true) (hs : C.inSubgroup p = false)
    (rest : Bytes) :
    readCompressed C (slice (compress C p ++ rest)) = (.ok p, slice rest) ∧
    readUncompressed C (slice (uncompressed C p ++ rest)) = (.error .notInSubgroup, slice rest) := by
  refine ⟨c106_compressed hC p hp rest, ?_⟩
  rw [c106_uncompressed hC]
  simp [hp, hs]

/-- Encodings are not unique: every affine point has a second one, in which a coordinate is not reduced, and infinity
is also read from bytes that carry the flag of the greater root. -/
theorem c106_canonical_violated (hC : C.Lawful) (x y : K) (rest : Bytes) :
    (∃ bs : Bytes, bs.length = 64 * C.n ∧ bs ≠ uncompressed C (.affine x y) ∧
      readUnchecked C (slice (bs ++ rest)) = (.ok (.affine x y), slice rest)) ∧
    (∃ bs : Bytes, bs.length = 32 * C.n ∧ bs ≠ compress C .zero ∧
      readCompressed C (slice (bs ++ rest)) = (.ok .zero, slice rest)) := by
  have hn := hC.pos
  have hq : NeZero q := ⟨by have := hC.modulus; omega⟩
  constructor
  · have hl := hC.len y
    rcases hy : C.coords y with _ | ⟨c, cs⟩
    · rw [hy] at hl; simp at hl; omega
    · have hlt : ∀ v ∈ (c.val + q) :: cs.map ZMod.val, v < 256 ^ 32 := by
        have h2 : (2 : ℕ) ^ 254 + 2 ^ 254 ≤ 256 ^ 32 := by decide
        have := hC.small
        intro v hv
        rcases List.mem_cons.mp hv with rfl | hv
        · have := val_lt hC c; omega
        · obtain ⟨d, -, rfl⟩ := List.mem_map.mp hv
          have := val_lt hC d; omega
      let alt : Bytes := (((c.val + q) :: cs.map ZMod.val).flatMap fun v => toLE 32 v).reverse
      have hlen : ((c.val + q) :: cs.map ZMod.val).length = C.n := by rw [hy] at hl; simpa using hl
      have halt : beCoords C alt = y := by
        rw [beCoords_flatMap C _ hlen hlt]
        have : ((fun v : ℕ => (v : ZMod q)) ∘ ZMod.val) = id := by
          funext c
          exact ZMod.natCast_zmod_val c
        rw [List.map_cons, List.map_map, this, List.map_id, Nat.cast_add, ZMod.natCast_self, add_zero,
          ZMod.natCast_zmod_val, ← hy, hC.back]
      have haltl : alt.length = 32 * C.n := by
        rw [List.length_reverse, flatMap_length _ _ 32 (fun _ _ => toLE_length _ _), hlen]
      have hne : alt ≠ be C y := by
        intro e
        rw [be, List.reverse_inj, fieldBytes_eq, hy, List.map_cons, List.flatMap_cons, List.flatMap_cons] at e
        have e1 := congrArg (List.take 32) e
        rw [List.take_left' (toLE_length _ _), List.take_left' (toLE_length _ _)] at e1
        have e2 := congrArg fromLE e1
        have h1 := hlt _ (List.mem_cons_self ..)
        rw [fromLE_toLE _ _ h1, fromLE_toLE _ _ (by omega)] at e2
        have := hC.modulus
        omega
      refine ⟨be C x ++ alt, by rw [List.length_append, be_length hC, haltl]; omega, ?_, ?_⟩
      · have hu : uncompressed C (.affine x y) = be C x ++ be C y := by simp [uncompressed, be]
        rw [hu]
        intro e
        exact hne (List.append_cancel_left e)
      · obtain ⟨b, t, hbe, hb⟩ := be_head hC x
        unfold readUnchecked
        rw [readInto_slice _ _ _ (by omega) (by rw [List.length_append, be_length hC, haltl]; omega)]
        have h6 : flag 6 (be C x ++ alt) = false := by
          rw [hbe, List.cons_append, flag, List.headD_cons]; simp [(small_flag6 b hb).1]
        have h7 : flag 7 (be C x ++ alt) = false := by
          rw [hbe, List.cons_append, flag, List.headD_cons]; simp [(small_flag6 b hb).2.1]
        have hm : mask (be C x ++ alt) = be C x ++ alt := by
          rw [hbe, List.cons_append, mask, (small_flag6 b hb).2.2]
        have hl := be_length hC x
        simp only [h6, h7, hm]
        rw [List.take_append_of_le_length (by omega), List.take_of_length_le (by omega),
          List.drop_append_of_le_length (by omega), List.drop_eq_nil_of_le (by omega), List.nil_append, be_coords hC,
          halt]
        rfl
  · refine ⟨0xC0 :: List.replicate (32 * C.n - 1) 0, by rw [List.length_cons, List.length_replicate]; omega, ?_, ?_⟩
    · rw [compress, flagReverse_zero _ _ (by omega)]
      intro e
      have := (List.cons.inj e).1
      revert this
      decide
    · unfold readCompressed
      rw [readInto_slice _ _ _ (by omega) (by rw [List.length_cons, List.length_replicate]; omega)]
      have h1 : flag 6 ((0xC0 : UInt8) :: List.replicate (32 * C.n - 1) 0) = true := by
        simp only [flag, List.headD_cons]; decide
      have h2 : ((0xC0 : UInt8) &&& 0x3f) = 0 := by decide
      simp only [h1, if_true, infinity, mask, h2]
      simp

/-- Short reads are not noticed: if the reader returns all bytes of a point but the last one, the missing byte is taken
to be zero, so another point or a misleading error results, whatever the reader has afterwards. -/
theorem c106_short_read_violated (hC : C.Lawful) (hq : 256 ≤ q) (x y : K) (c : ZMod q) (cs : List (ZMod q))
    (hx : C.coords x = c :: cs) (hc : c.val % 256 ≠ 0) (s : Stream) :
    (compress C (.affine x y)).dropLast ++ [UInt8.ofNat c.val] = compress C (.affine x y) ∧
    (readCompressed C ((compress C (.affine x y)).dropLast :: s)).1 ≠ .ok (.affine x y) := by
  have hq0 : NeZero q := ⟨by omega⟩
  have hn := hC.pos
  have hlx := hC.len x
  rw [hx] at hlx
  obtain ⟨b, t, hbe, hb, hcomp⟩ := compress_affine hC x y
  have hmask : (b ||| (if fieldLt C (-y) y then (1 : UInt8) <<< 7 else 0)) &&& 0x3f = b := by
    split
    · exact (small_flag7 b hb).2.2
    · rw [UInt8.or_zero]; exact (small_flag6 b hb).2.2
  have hflag : (b ||| (if fieldLt C (-y) y then (1 : UInt8) <<< 7 else 0)) &&& ((1 : UInt8) <<< 6) = 0 := by
    split
    · exact (small_flag7 b hb).1
    · rw [UInt8.or_zero]; exact (small_flag6 b hb).1
  generalize (b ||| (if fieldLt C (-y) y then (1 : UInt8) <<< 7 else 0)) = f at *
  -- the bytes without the last one
  let R : Bytes := cs.flatMap fun c => toLE 32 c.val
  let P : Bytes := R.reverse ++ (toLE 31 (c.val / 256)).reverse
  have hR : R.length = 32 * cs.length := flatMap_length _ _ 32 (fun _ _ => toLE_length _ _)
  have hP : P.length + 1 = 32 * C.n := by
    simp only [P, List.length_append, List.length_reverse, toLE_length, hR]
    simp only [List.length_cons] at hlx
    omega
  have hle : ∀ v : ℕ, toLE 32 v = UInt8.ofNat v :: toLE 31 (v / 256) := fun v => rfl
  have hbeP : be C x = P ++ [UInt8.ofNat c.val] := by
    simp only [be, fieldBytes, hx, List.flatMap_cons, hle, P, List.reverse_append, List.reverse_cons,
      List.append_assoc, R]
  obtain ⟨b', t', hPt⟩ : ∃ b' t', P = b' :: t' := by
    rcases hP' : P with _ | ⟨b', t'⟩
    · rw [hP'] at hP; simp at hP; omega
    · exact ⟨b', t', rfl⟩
  rw [hPt] at hbeP hP
  rw [hbe, List.cons_append, List.cons.injEq] at hbeP
  obtain ⟨rfl, rfl⟩ := hbeP
  have hdrop : (compress C (.affine x y)).dropLast = f :: t' := by
    rw [hcomp, ← List.cons_append, List.dropLast_concat]
  refine ⟨by rw [hdrop, hcomp, List.cons_append], ?_⟩
  rw [hdrop]
  unfold readCompressed
  have hbuf : readInto (32 * C.n) ((f :: t') :: s) = (f :: t' ++ [0], s) := by
    simp only [List.length_cons] at hP
    simp only [readInto, List.length_cons]
    rw [List.take_of_length_le (by simp only [List.length_cons]; omega),
      List.drop_eq_nil_of_le (by simp only [List.length_cons]; omega),
      show 32 * C.n - (t'.length + 1) = 1 by omega]
    rfl
  have h6 : flag 6 (f :: t' ++ [0]) = false := by
    rw [List.cons_append, flag, List.headD_cons]; simp [hflag]
  have hm : mask (f :: t' ++ [0]) = P ++ [0] := by
    rw [List.cons_append, mask, hmask, hPt, List.cons_append]
  rw [hbuf]
  simp only [h6, hm, Bool.false_eq_true, if_false]
  have hv := ZMod.val_lt c
  have hP0 : P ++ [0] = (((c.val - c.val % 256) :: cs.map ZMod.val).flatMap fun v => toLE 32 v).reverse := by
    have h1 : UInt8.ofNat (c.val - c.val % 256) = 0 := by
      apply UInt8.toNat_inj.mp
      rw [UInt8.toNat_ofNat']
      show (c.val - c.val % 256) % 256 = 0
      omega
    have h2 : (c.val - c.val % 256) / 256 = c.val / 256 := by omega
    rw [List.flatMap_cons, hle, h1, h2, List.flatMap_map]
    simp [P, R]
  have hx' : beCoords C (P ++ [0]) = C.ofCoords (((c.val - c.val % 256 : ℕ) : ZMod q) :: cs) := by
    rw [hP0, beCoords_flatMap C _ (by simpa using hlx)]
    · have : ((fun v : ℕ => (v : ZMod q)) ∘ ZMod.val) = id := by
        funext c
        exact ZMod.natCast_zmod_val c
      rw [List.map_cons, List.map_map, this, List.map_id]
    · have h2 : (2 : ℕ) ^ 254 ≤ 256 ^ 32 := by decide
      intro v hv
      rcases List.mem_cons.mp hv with rfl | hv
      · have := val_lt hC c; omega
      · obtain ⟨d, -, rfl⟩ := List.mem_map.mp hv
        have := val_lt hC d; omega
  have hne : beCoords C (P ++ [0]) ≠ x := by
    rw [hx']
    intro e
    have e1 := congrArg C.coords e
    rw [hC.forth _ (by simpa using hlx), hx, List.cons.injEq] at e1
    have e2 := congrArg ZMod.val e1.1
    rw [ZMod.val_natCast, Nat.mod_eq_of_lt (by omega)] at e2
    omega
  unfold pointFromX
  rcases C.sqrt (beCoords C (P ++ [0]) * beCoords C (P ++ [0]) * beCoords C (P ++ [0]) + C.b) with _ | z
  · simp
  · simp only [ne_eq, Except.ok.injEq, Point.affine.injEq, not_and]
    exact fun h => absurd h hne

end
end Verif.Ppot
