import Verif.Ppot.Hash
import Verif.Ppot.FileProps
import Verif.Ppot.Curves

/-!
# C108: hashing to the second group
-/

set_option linter.unusedSectionVars false

namespace Verif.Ppot

open Verif.Codec (Bytes toLE fromLE)

/-! ## Specification -/

/-- The number that eight words make up: four groups of two, the first group least significant, within a group the first
word most significant. -/
def number (w : Words) (i : ℕ) : ℕ :=
  let pair := fun j => (w (i + 2 * j)).toNat * 2 ^ 32 + (w (i + 2 * j + 1)).toNat
  pair 0 + pair 1 * 2 ^ 64 + pair 2 * 2 ^ 128 + pair 3 * 2 ^ 192

/-! ## Words -/

theorem sampleU64_toNat (w : Words) (i : ℕ) : (sampleU64 w i).toNat = (w i).toNat * 2 ^ 32 + (w (i + 1)).toNat := by
  unfold sampleU64
  have h1 := (w i).toNat_lt
  have h2 := (w (i + 1)).toNat_lt
  rw [UInt64.toNat_or, UInt64.toNat_shiftLeft]
  simp only [UInt32.toNat_toUInt64]
  have : (32 : UInt64).toNat % 64 = 32 := by decide
  rw [this, Nat.mod_eq_of_lt (by rw [Nat.shiftLeft_eq]; omega), ← Nat.shiftLeft_add_eq_or_of_lt h2, Nat.shiftLeft_eq]

theorem mask64 (a : UInt64) (s : UInt64) (hs : s.toNat < 64) :
    (a &&& (0xffffffffffffffff >>> s)).toNat = a.toNat % 2 ^ (64 - s.toNat) := by
  rw [UInt64.toNat_and, UInt64.toNat_shiftRight]
  have : (0xffffffffffffffff : UInt64).toNat = 2 ^ 64 - 1 := by decide
  rw [this, Nat.mod_eq_of_lt hs]
  have h2 : (2 ^ 64 - 1) >>> s.toNat = 2 ^ (64 - s.toNat) - 1 := by
    rw [Nat.shiftRight_eq_div_pow]
    generalize s.toNat = k at hs
    have e : 2 ^ 64 = 2 ^ (64 - k) * 2 ^ k := by rw [← Nat.pow_add]; congr 1; omega
    rw [e]
    have ha := Nat.two_pow_pos (64 - k)
    have hb := Nat.two_pow_pos k
    generalize 2 ^ (64 - k) = a at *
    generalize 2 ^ k = b at *
    refine Nat.div_eq_of_lt_le ?_ ?_
    · rw [Nat.sub_mul]; omega
    · rw [Nat.sub_add_cancel ha]
      have : 0 < a * b := Nat.mul_pos ha hb
      omega
  rw [h2, Nat.and_two_pow_sub_one_eq_mod]

theorem number_lt (w : Words) (i : ℕ) : number w i < 2 ^ 256 := by
  have h := fun j => (w j).toNat_lt
  unfold number
  simp only
  have h0 := h (i + 2 * 0)
  have h1 := h (i + 2 * 0 + 1)
  have h2 := h (i + 2 * 1)
  have h3 := h (i + 2 * 1 + 1)
  have h4 := h (i + 2 * 2)
  have h5 := h (i + 2 * 2 + 1)
  have h6 := h (i + 2 * 3)
  have h7 := h (i + 2 * 3 + 1)
  omega

theorem mask_mod (a b c l m : ℕ) (ha : a < 2 ^ 64) (hb : b < 2 ^ 64) (hc : c < 2 ^ 64) :
    a + b * 2 ^ 64 + c * 2 ^ 128 + l % m * 2 ^ 192 = (a + b * 2 ^ 64 + c * 2 ^ 128 + l * 2 ^ 192) % (2 ^ 192 * m) := by
  rw [Nat.mod_mul]
  have e1 : (a + b * 2 ^ 64 + c * 2 ^ 128 + l * 2 ^ 192) % 2 ^ 192 = a + b * 2 ^ 64 + c * 2 ^ 128 := by omega
  have e2 : (a + b * 2 ^ 64 + c * 2 ^ 128 + l * 2 ^ 192) / 2 ^ 192 = l := by omega
  rw [e1, e2, Nat.mul_comm (2 ^ 192)]

/-- The candidate of one round is the number of its words without the upper bits. -/
theorem bigValue_eq (w : Words) (i : ℕ) (s : UInt64) (hs : s.toNat < 64) :
    bigValue (sampleU64 w i) (sampleU64 w (i + 2)) (sampleU64 w (i + 4))
      (sampleU64 w (i + 6) &&& (0xffffffffffffffff >>> s)) = number w i % 2 ^ (256 - s.toNat) := by
  unfold bigValue number
  rw [mask64 _ _ hs]
  simp only [sampleU64_toNat]
  have e : 2 ^ (256 - s.toNat) = 2 ^ 192 * 2 ^ (64 - s.toNat) := by rw [← Nat.pow_add]; congr 1; omega
  rw [e]
  have hb : ∀ j, (w j).toNat * 2 ^ 32 + (w (j + 1)).toNat < 2 ^ 64 := fun j => by
    have h1 := (w j).toNat_lt
    have h2 := (w (j + 1)).toNat_lt
    omega
  rw [Nat.mul_comm (2 ^ 64), Nat.mul_comm (2 ^ 128), Nat.mul_comm (2 ^ 192)]
  exact mask_mod _ _ _ _ _ (hb i) (hb (i + 2)) (hb (i + 4))

/-! ## The property -/

section
variable {q : ℕ} {K L : Type} [Field K] [DecidableEq K] [Field L] [DecidableEq L] {C : Curve q K} {D : Curve q L}

theorem tag_split {A B : UInt8} {a b c d : Bytes} (hl : a.length = b.length) (h : A :: a ++ c = B :: b ++ d) :
    A = B ∧ a = b ∧ c = d := by
  simp only [List.cons_append, List.cons.injEq] at h
  exact ⟨h.1, List.append_inj h.2 hl⟩

/-- What is hashed determines the domain tag, the challenge and both points. -/
theorem c108_input (hC : C.Lawful) {tag tag' : UInt8} {ch ch' : Bytes} {p p' r r' : Point K} (hl : ch.length = ch'.length)
    (h : hashInput C tag ch p p' = hashInput C tag' ch' r r') : tag = tag' ∧ ch = ch' ∧ p = r ∧ p' = r' := by
  unfold hashInput at h
  rw [List.append_assoc, List.append_assoc] at h
  obtain ⟨h1, h2, h3⟩ := tag_split hl h
  obtain ⟨h4, h5⟩ := List.append_inj h3 (by rw [(c106_size hC p).2, (c106_size hC r).2])
  exact ⟨h1, h2, (c106_injective hC p r).1 h4, (c106_injective hC p' r').1 h5⟩

/-- The little-endian words of the seed are the first eight big-endian words of the digest; nothing of them is lost and
nothing else is used. -/
theorem c108_seed (d d' : Bytes) (h : d.length = 64) (h' : d'.length = 64) :
    (seedOf d).length = 32 ∧
    (∀ k < 8, fromLE (((seedOf d).drop (4 * k)).take 4) = fromLE ((d.drop (4 * k)).take 4).reverse) ∧
    (seedOf d = seedOf d' ↔ d.take 32 = d'.take 32) := by
  have hs : ∀ d : Bytes, d.length = 64 → (seedOf d).length = 32 ∧
      ∀ k < 8, ((seedOf d).drop (4 * k)).take 4 = ((d.drop (4 * k)).take 4).reverse := by
    intro d h
    have hd : ∃ l : List Bytes, l.length = 8 ∧ (∀ x ∈ l, x.length = 4) ∧ seedOf d = l.flatten ∧
        ∀ k < 8, l[k]? = some ((d.drop (4 * k)).take 4).reverse := by
      refine ⟨(List.range 8).map fun k => ((d.drop (4 * k)).take 4).reverse, by simp, fun x hx => ?_, ?_, fun k hk => ?_⟩
      · obtain ⟨k, hk, rfl⟩ := List.mem_map.mp hx
        have := List.mem_range.mp hk
        simp only [List.length_reverse, List.length_take, List.length_drop]
        omega
      · rw [seedOf, List.flatMap_def]
      · simp [hk]
    obtain ⟨l, h8, h4, he, hk⟩ := hd
    rw [he]
    have flat : ∀ (l : List Bytes), (∀ x ∈ l, x.length = 4) → l.flatten.length = 4 * l.length ∧
        ∀ k x, l[k]? = some x → (l.flatten.drop (4 * k)).take 4 = x := by
      intro l
      induction l with
      | nil => intro _; simp
      | cons y l ih =>
        intro hx
        obtain ⟨i1, i2⟩ := ih fun x h => hx x (by simp [h])
        have hy := hx y (by simp)
        refine ⟨by simp [i1, hy]; omega, fun k x hk => ?_⟩
        cases k with
        | zero =>
          simp only [List.getElem?_cons_zero, Option.some.injEq] at hk
          subst hk
          rw [List.flatten_cons, Nat.mul_zero, List.drop_zero, List.take_append_of_le_length (by omega),
            List.take_of_length_le (by omega)]
        | succ k =>
          rw [List.getElem?_cons_succ] at hk
          rw [List.flatten_cons, show 4 * (k + 1) = y.length + 4 * k by omega, List.drop_length_add_append]
          exact i2 k x hk
    obtain ⟨f1, f2⟩ := flat l h4
    exact ⟨by rw [f1, h8], fun k h => f2 k _ (hk k h)⟩
  obtain ⟨l1, w1⟩ := hs d h
  obtain ⟨l2, w2⟩ := hs d' h'
  refine ⟨l1, fun k hk => by rw [w1 k hk], fun e => ?_, fun e => ?_⟩
  · have hw : ∀ k < 8, (d.drop (4 * k)).take 4 = (d'.drop (4 * k)).take 4 := fun k hk => by
      have := w1 k hk
      rw [e, w2 k hk, List.reverse_inj] at this
      exact this.symm
    apply List.ext_getElem?
    intro i
    rcases Nat.lt_or_ge i 32 with hi | hi
    · have := congrArg (fun l => l[i % 4]?) (hw (i / 4) (by omega))
      rw [List.getElem?_take_of_lt (by omega), List.getElem?_take_of_lt (by omega), List.getElem?_drop,
        List.getElem?_drop, show 4 * (i / 4) + i % 4 = i by omega] at this
      rw [List.getElem?_take_of_lt hi, List.getElem?_take_of_lt hi]
      exact this
    · rw [List.getElem?_eq_none (by simp; omega), List.getElem?_eq_none (by simp; omega)]
  · unfold seedOf
    rw [List.flatMap_def, List.flatMap_def]
    congr 1
    apply List.map_congr_left
    intro k hk
    have := List.mem_range.mp hk
    have key : ∀ d : Bytes, (d.drop (4 * k)).take 4 = ((d.take 32).drop (4 * k)).take 4 := by
      intro d
      rw [List.drop_take, List.take_take, Nat.min_eq_left (by omega)]
    rw [key d, key d', e]

/-- Different words make up different numbers, and every number of 256 bits is made up. -/
theorem c108_words : (∀ (w w' : Words) (i : ℕ), number w i = number w' i → ∀ j < 8, w (i + j) = w' (i + j)) ∧
    (∀ v < 2 ^ 256, ∀ i, ∃ w : Words, number w i = v) := by
  constructor
  · intro w w' i h
    have hb := fun j => (w j).toNat_lt
    have hb' := fun j => (w' j).toNat_lt
    unfold number at h
    simp only [Nat.mul_zero, Nat.add_zero, Nat.mul_one, show 2 * 2 = 4 from rfl, show 2 * 3 = 6 from rfl] at h
    have b0 := hb i; have b1 := hb (i + 1); have b2 := hb (i + 2); have b3 := hb (i + 2 + 1)
    have b4 := hb (i + 4); have b5 := hb (i + 4 + 1); have b6 := hb (i + 6); have b7 := hb (i + 6 + 1)
    have c0 := hb' i; have c1 := hb' (i + 1); have c2 := hb' (i + 2); have c3 := hb' (i + 2 + 1)
    have c4 := hb' (i + 4); have c5 := hb' (i + 4 + 1); have c6 := hb' (i + 6); have c7 := hb' (i + 6 + 1)
    intro j hj
    rw [← UInt32.toNat_inj]
    have : j = 0 ∨ j = 1 ∨ j = 2 ∨ j = 3 ∨ j = 4 ∨ j = 5 ∨ j = 6 ∨ j = 7 := by omega
    rcases this with rfl | rfl | rfl | rfl | rfl | rfl | rfl | rfl
    · show (w i).toNat = (w' i).toNat; omega
    · omega
    · omega
    · show (w (i + 2 + 1)).toNat = (w' (i + 2 + 1)).toNat; omega
    · omega
    · show (w (i + 4 + 1)).toNat = (w' (i + 4 + 1)).toNat; omega
    · omega
    · show (w (i + 6 + 1)).toNat = (w' (i + 6 + 1)).toNat; omega
  · intro v hv i
    let ds : List ℕ := [v / 2 ^ 32, v, v / 2 ^ 96, v / 2 ^ 64, v / 2 ^ 160, v / 2 ^ 128, v / 2 ^ 224, v / 2 ^ 192]
    refine ⟨fun k => UInt32.ofNat ((ds.getD (k - i) 0)), ?_⟩
    unfold number
    simp only [UInt32.toNat_ofNat']
    have hk : ∀ k, i + k - i = k := fun k => by omega
    simp only [Nat.mul_zero, Nat.add_zero, Nat.mul_one, show 2 * 2 = 4 from rfl, show 2 * 3 = 6 from rfl, Nat.add_assoc, hk,
      Nat.sub_self, ds, show 2 + 1 = 3 from rfl, show 4 + 1 = 5 from rfl, show 6 + 1 = 7 from rfl, List.getD_cons_zero,
      List.getD_cons_succ]
    omega

/-- One round of sampling a field element: every element comes from the same number of candidates, `2 ^ shave`, and all
other candidates are rejected. -/
theorem c108_uniform (hq : 1 < q) (hodd : Nat.Coprime 2 q) (s : UInt64) (hs : s.toNat < 64) (hsq : q ≤ 2 ^ (256 - s.toNat))
    (w : Words) (i : ℕ) (x : ZMod q) :
    fieldAttempt s w i = some x ↔
      ∃ k < 2 ^ s.toNat, number w i = (x * (2 : ZMod q) ^ 256).val + k * 2 ^ (256 - s.toNat) := by
  have : NeZero q := ⟨by omega⟩
  have hinv : ((2 : ZMod q) ^ 256) * ((2 : ZMod q) ^ 256)⁻¹ = 1 := by
    have h := ZMod.coe_mul_inv_eq_one (n := q) (2 ^ 256) (Nat.Coprime.pow_left 256 hodd)
    rwa [Nat.cast_pow, Nat.cast_ofNat] at h
  unfold fieldAttempt
  simp only [bigValue_eq w i s hs]
  have hn := number_lt w i
  generalize number w i = v at hn
  have hpow : 2 ^ 256 = 2 ^ s.toNat * 2 ^ (256 - s.toNat) := by rw [← Nat.pow_add]; congr 1; omega
  have hpos := Nat.two_pow_pos (256 - s.toNat)
  generalize hm : 2 ^ (256 - s.toNat) = m at *
  constructor
  · intro h
    split at h
    · rename_i hlt
      cases h
      refine ⟨v / m, ?_, ?_⟩
      · rw [Nat.div_lt_iff_lt_mul hpos, ← hpow]; exact hn
      · rw [mul_assoc, mul_comm _ ((2 : ZMod q) ^ 256), hinv, mul_one, ZMod.val_natCast, Nat.mod_eq_of_lt hlt,
          Nat.mul_comm, Nat.mod_add_div]
    · cases h
  · rintro ⟨k, hk, rfl⟩
    have hlt := ZMod.val_lt (x * (2 : ZMod q) ^ 256)
    have e : ((x * (2 : ZMod q) ^ 256).val + k * m) % m = (x * (2 : ZMod q) ^ 256).val := by
      rw [Nat.add_mul_mod_self_right, Nat.mod_eq_of_lt (by omega)]
    rw [e, if_pos hlt, ZMod.natCast_zmod_val, mul_assoc, hinv, mul_one]

/-- A sampled field element is that of the first accepted candidate. -/
theorem c108_first (s : UInt64) (w : Words) (fuel i j : ℕ) (x : ZMod q) :
    sampleField s w fuel i = some (x, j) ↔
      ∃ m < fuel, j = i + 8 * m + 8 ∧ fieldAttempt s w (i + 8 * m) = some x ∧
        ∀ m' < m, (fieldAttempt s w (i + 8 * m') : Option (ZMod q)) = none := by
  induction fuel generalizing i with
  | zero => simp [sampleField]
  | succ fuel ih =>
    rw [sampleField]
    rcases h : (fieldAttempt s w i : Option (ZMod q)) with _ | y
    · simp only
      rw [ih]
      constructor
      · rintro ⟨m, hm, rfl, h1, h2⟩
        refine ⟨m + 1, by omega, by omega, by rw [show i + 8 * (m + 1) = i + 8 + 8 * m by omega]; exact h1, fun m' hm' => ?_⟩
        cases m' with
        | zero => exact h
        | succ m' => rw [show i + 8 * (m' + 1) = i + 8 + 8 * m' by omega]; exact h2 m' (by omega)
      · rintro ⟨m, hm, rfl, h1, h2⟩
        cases m with
        | zero => rw [Nat.mul_zero, Nat.add_zero, h] at h1; cases h1
        | succ m =>
          refine ⟨m, by omega, by omega, by rw [show i + 8 + 8 * m = i + 8 * (m + 1) by omega]; exact h1, fun m' hm' => ?_⟩
          rw [show i + 8 + 8 * m' = i + 8 * (m' + 1) by omega]
          exact h2 (m' + 1) (by omega)
    · simp only [Option.some.injEq, Prod.mk.injEq]
      constructor
      · rintro ⟨rfl, rfl⟩
        exact ⟨0, by omega, by omega, h, fun m' hm' => absurd hm' (Nat.not_lt_zero m')⟩
      · rintro ⟨m, hm, rfl, h1, h2⟩
        cases m with
        | zero =>
          rw [Nat.mul_zero, Nat.add_zero, h] at h1
          exact ⟨Option.some.inj h1, rfl⟩
        | succ m =>
          have := h2 0 (by omega)
          rw [Nat.mul_zero, Nat.add_zero, h] at this
          cases this

/-- The coordinates are sampled one after the other, the first one first. -/
theorem c108_coords (s : UInt64) (w : Words) (fuel n i k : ℕ) (xs : List (ZMod q)) :
    sampleCoords s w fuel n i = some (xs, k) ↔
      xs.length = n ∧ ∃ pos : ℕ → ℕ, pos 0 = i ∧ pos n = k ∧
        ∀ t < n, ∃ x, xs[t]? = some x ∧ sampleField s w fuel (pos t) = some (x, pos (t + 1)) := by
  induction n generalizing i xs with
  | zero =>
    simp only [sampleCoords, Option.some.injEq, Prod.mk.injEq]
    constructor
    · rintro ⟨rfl, rfl⟩; exact ⟨rfl, fun _ => i, rfl, rfl, fun t ht => absurd ht (by omega)⟩
    · rintro ⟨h1, pos, rfl, rfl, _⟩; exact ⟨(List.length_eq_zero_iff.mp h1).symm, rfl⟩
  | succ n ih =>
    rw [sampleCoords]
    constructor
    · intro h
      rcases h1 : (sampleField s w fuel i : Option (ZMod q × ℕ)) with _ | ⟨x, j⟩ <;> simp only [h1] at h
      · cases h
      rcases h2 : (sampleCoords s w fuel n j : Option (List (ZMod q) × ℕ)) with _ | ⟨ys, k'⟩ <;> simp only [h2] at h
      · cases h
      cases h
      obtain ⟨l, pos, p0, pn, hp⟩ := (ih j ys).mp h2
      refine ⟨by rw [List.length_cons, l], fun t => if t = 0 then i else pos (t - 1), rfl, by simpa using pn, ?_⟩
      intro t ht
      cases t with
      | zero => exact ⟨x, rfl, by simpa [p0] using h1⟩
      | succ t =>
        obtain ⟨y, y1, y2⟩ := hp t (by omega)
        exact ⟨y, by simpa using y1, by simpa using y2⟩
    · rintro ⟨l, pos, rfl, pn, hp⟩
      obtain ⟨x, x1, x2⟩ := hp 0 (by omega)
      cases xs with
      | nil => cases x1
      | cons x' ys =>
        simp only [List.getElem?_cons_zero, Option.some.injEq] at x1
        subst x1
        have h2 := (ih (pos (0 + 1)) ys).mpr ⟨by simpa using l, fun t => pos (t + 1), rfl, pn, fun t ht => by
          obtain ⟨y, y1, y2⟩ := hp (t + 1) (by omega)
          exact ⟨y, by simpa using y1, y2⟩⟩
        simp only [x2, h2]

/-- Every affine point of the curve is the candidate for its first coordinate and a sign; if it is not its own inverse,
for exactly one sign. -/
theorem c108_candidates (hD : D.Lawful) (x y : L) (h : onCurve D (.affine x y) = true) :
    (∃ g, pointFromX D x g = some (.affine x y)) ∧
    (y ≠ -y → ∀ g g', pointFromX D x g = some (.affine x y) → pointFromX D x g' = some (.affine x y) → g = g') := by
  simp only [onCurve, decide_eq_true_eq] at h
  unfold pointFromX
  rcases hs : D.sqrt (x * x * x + D.b) with _ | z
  · exact absurd h (hD.sqrt_none _ hs y)
  have hz := hD.sqrt_some _ _ hs
  have hyz : y = z ∨ y = -z := by
    have : (y - z) * (y + z) = 0 := by
      rw [← sub_eq_zero] at h hz
      have : y * y = z * z := by rw [sub_eq_zero] at h hz; rw [h, hz]
      ring_nf
      rw [pow_two, pow_two, this, sub_self]
    rcases mul_eq_zero.mp this with e | e
    · exact .inl (sub_eq_zero.mp e)
    · exact .inr (eq_neg_of_add_eq_zero_left e)
  simp only [Option.some.injEq, Point.affine.injEq, true_and]
  constructor
  · rcases hyz with rfl | rfl
    · exact ⟨!fieldLt D y (-y), by cases fieldLt D y (-y) <;> simp⟩
    · exact ⟨fieldLt D z (-z), by cases fieldLt D z (-z) <;> simp⟩
  · intro hne g g' e e'
    have hzne : z ≠ -z := by
      rcases hyz with rfl | rfl
      · exact hne
      · intro e; apply hne; rw [neg_neg]; exact e.symm
    revert e e'
    cases fieldLt D z (-z) <;> cases g <;> cases g' <;> simp <;> intro a b <;>
      first | exact hzne (a.trans b.symm) | exact hzne (b.trans a.symm)

theorem pointFromX_onCurve (hD : D.Lawful) (x : L) (g : Bool) (p : Point L) (h : pointFromX D x g = some p) :
    onCurve D p = true := by
  unfold pointFromX at h
  rcases hs : D.sqrt (x * x * x + D.b) with _ | z <;> simp only [hs] at h
  · cases h
  · cases h
    have hz := hD.sqrt_some _ _ hs
    simp only [onCurve, decide_eq_true_eq]
    split
    · exact hz
    · rw [neg_mul_neg]; exact hz

/-- What is sampled is a point of the group other than the identity. -/
theorem c108_sampled (hD : D.Lawful) (scale : Point L → Point L) (hsc : ∀ p, onCurve D p = true → Good D (scale p))
    (s : UInt64) (w : Words) (fuel rounds i j : ℕ) (p : Point L)
    (h : samplePoint D scale s w fuel rounds i = some (p, j)) : Good D p ∧ p ≠ .zero := by
  induction rounds generalizing i with
  | zero => cases h
  | succ rounds ih =>
    rw [samplePoint] at h
    rcases h1 : (sampleCoords s w fuel D.n i : Option (List (ZMod q) × ℕ)) with _ | ⟨x, k⟩ <;> simp only [h1] at h
    · cases h
    rcases h2 : pointFromX D (D.ofCoords x) (sampleBool w k) with _ | r <;> simp only [h2] at h
    · exact ih _ h
    split at h
    · exact ih _ h
    · rename_i hne
      cases h
      exact ⟨hsc r (pointFromX_onCurve hD _ _ _ h2), hne⟩

/-- The sign of a candidate is the parity of one word. -/
theorem c108_sign (w : Words) (i : ℕ) : sampleBool w i = decide ((w i).toNat % 2 = 1) := by
  unfold sampleBool
  rw [Bool.eq_iff_iff, beq_iff_eq, decide_eq_true_eq, ← UInt8.toNat_inj, UInt8.toNat_and, UInt32.toNat_toUInt8]
  show (w i).toNat % 2 ^ 8 &&& 1 = 1 ↔ _
  rw [Nat.and_one_is_mod]
  omega

/-- What a candidate is worth: a point of the curve, times the cofactor, unless that is the identity. -/
def worth (D : Curve q L) (scale : Point L → Point L) (x : L) (g : Bool) : Option (Point L) :=
  ((pointFromX D x g).map scale).filter fun p => decide (p ≠ .zero)

/-- The sampled point is that of the first candidate that is worth something; candidates follow one another in the
sequence of words, each the coordinates and one word for the sign. -/
theorem c108_point (scale : Point L → Point L) (s : UInt64) (w : Words) (fuel rounds i j : ℕ) (p : Point L) :
    samplePoint D scale s w fuel rounds i = some (p, j) ↔
      ∃ t < rounds, ∃ (sign : ℕ → ℕ) (xs : ℕ → List (ZMod q)),
        (∀ u ≤ t, sampleCoords s w fuel D.n (if u = 0 then i else sign (u - 1) + 1) = some (xs u, sign u)) ∧
        (∀ u < t, worth D scale (D.ofCoords (xs u)) (decide ((w (sign u)).toNat % 2 = 1)) = none) ∧
        worth D scale (D.ofCoords (xs t)) (decide ((w (sign t)).toNat % 2 = 1)) = some p ∧ j = sign t + 1 := by
  induction rounds generalizing i with
  | zero => simp [samplePoint]
  | succ rounds ih =>
    have hw : ∀ x k, worth D scale (D.ofCoords x) (decide ((w k).toNat % 2 = 1)) =
        match pointFromX D (D.ofCoords x) (sampleBool w k) with
        | none => none
        | some r => if scale r = .zero then none else some (scale r) := by
      intro x k
      unfold worth
      rw [← c108_sign]
      rcases pointFromX D (D.ofCoords x) (sampleBool w k) with _ | r
      · rfl
      · by_cases hz : scale r = .zero <;> simp [Option.filter, hz]
    have hstep : samplePoint D scale s w fuel (rounds + 1) i =
        match (sampleCoords s w fuel D.n i : Option (List (ZMod q) × ℕ)) with
        | none => none
        | some (x, k) =>
          match worth D scale (D.ofCoords x) (decide ((w k).toNat % 2 = 1)) with
          | none => samplePoint D scale s w fuel rounds (k + 1)
          | some r => some (r, k + 1) := by
      rw [samplePoint]
      rcases (sampleCoords s w fuel D.n i : Option (List (ZMod q) × ℕ)) with _ | ⟨x, k⟩
      · rfl
      · simp only [hw]
        rcases pointFromX D (D.ofCoords x) (sampleBool w k) with _ | r
        · rfl
        · by_cases hz : scale r = .zero <;> simp [hz]
    rw [hstep]
    rcases hc : (sampleCoords s w fuel D.n i : Option (List (ZMod q) × ℕ)) with _ | ⟨x, k⟩
    · simp only [reduceCtorEq, false_iff]
      rintro ⟨t, -, sign, xs, h1, -⟩
      have := h1 0 (Nat.zero_le _)
      rw [if_pos rfl, hc] at this
      cases this
    · simp only
      rcases hr : worth D scale (D.ofCoords x) (decide ((w k).toNat % 2 = 1)) with _ | r
      · simp only
        rw [ih]
        constructor
        · rintro ⟨t, ht, sign, xs, h1, h2, h3, h4⟩
          refine ⟨t + 1, by omega, fun u => if u = 0 then k else sign (u - 1), fun u => if u = 0 then x else xs (u - 1), ?_, ?_, ?_, ?_⟩
          · intro u hu
            cases u with
            | zero => exact hc
            | succ u =>
              have := h1 u (by omega)
              simp only [Nat.succ_ne_zero, if_false, Nat.add_sub_cancel]
              cases u with
              | zero => exact this
              | succ u => exact this
          · intro u hu
            cases u with
            | zero => exact hr
            | succ u => exact h2 u (by omega)
          · exact h3
          · exact h4
        · rintro ⟨t, ht, sign, xs, h1, h2, h3, h4⟩
          have h0 := h1 0 (Nat.zero_le _)
          rw [if_pos rfl, hc] at h0
          simp only [Option.some.injEq, Prod.mk.injEq] at h0
          obtain ⟨rfl, rfl⟩ := h0
          cases t with
          | zero => rw [hr] at h3; cases h3
          | succ t =>
            refine ⟨t, by omega, fun u => sign (u + 1), fun u => xs (u + 1), fun u hu => ?_, fun u hu => h2 (u + 1) (by omega), h3, h4⟩
            have := h1 (u + 1) (by omega)
            rw [if_neg (Nat.succ_ne_zero u), Nat.add_sub_cancel] at this
            cases u with
            | zero => exact this
            | succ u => exact this
      · simp only [Option.some.injEq, Prod.mk.injEq]
        constructor
        · rintro ⟨rfl, rfl⟩
          exact ⟨0, by omega, fun _ => k, fun _ => x, fun u hu => by rw [if_pos (by omega)]; exact hc,
            fun u hu => absurd hu (Nat.not_lt_zero u), hr, rfl⟩
        · rintro ⟨t, ht, sign, xs, h1, h2, h3, h4⟩
          have h0 := h1 0 (Nat.zero_le _)
          rw [if_pos rfl, hc] at h0
          simp only [Option.some.injEq, Prod.mk.injEq] at h0
          obtain ⟨rfl, rfl⟩ := h0
          cases t with
          | zero => rw [hr] at h3; exact ⟨Option.some.inj h3, h4.symm⟩
          | succ t =>
            have := h2 0 (by omega)
            rw [hr] at this
            cases this

theorem sampleField_mono (s : UInt64) (w : Words) {fuel fuel' i : ℕ} {r : ZMod q × ℕ} (hf : fuel ≤ fuel')
    (h : sampleField s w fuel i = some r) : sampleField s w fuel' i = some r := by
  obtain ⟨x, j⟩ := r
  rw [c108_first] at h ⊢
  obtain ⟨m, hm, h⟩ := h
  exact ⟨m, by omega, h⟩

theorem sampleCoords_mono (s : UInt64) (w : Words) {fuel fuel' : ℕ} (hf : fuel ≤ fuel') (n : ℕ) {i : ℕ}
    {r : List (ZMod q) × ℕ} (h : sampleCoords s w fuel n i = some r) : sampleCoords s w fuel' n i = some r := by
  induction n generalizing i r with
  | zero => exact h
  | succ n ih =>
    rw [sampleCoords] at h ⊢
    rcases h1 : (sampleField s w fuel i : Option (ZMod q × ℕ)) with _ | ⟨x, j⟩ <;> simp only [h1] at h
    · cases h
    rw [sampleField_mono s w hf h1]
    rcases h2 : (sampleCoords s w fuel n j : Option (List (ZMod q) × ℕ)) with _ | ⟨xs, k⟩ <;> simp only [h2] at h
    · cases h
    simp only
    rw [ih h2]
    exact h

theorem samplePoint_mono (scale : Point L → Point L) (s : UInt64) (w : Words) {fuel fuel' rounds rounds' : ℕ}
    (hf : fuel ≤ fuel') (hr : rounds ≤ rounds') {i : ℕ} {r : Point L × ℕ}
    (h : samplePoint D scale s w fuel rounds i = some r) : samplePoint D scale s w fuel' rounds' i = some r := by
  induction rounds generalizing i rounds' with
  | zero => cases h
  | succ rounds ih =>
    obtain ⟨rounds', rfl⟩ : ∃ k, rounds' = k + 1 := ⟨rounds' - 1, by omega⟩
    rw [samplePoint] at h ⊢
    rcases h1 : (sampleCoords s w fuel D.n i : Option (List (ZMod q) × ℕ)) with _ | ⟨x, j⟩ <;> simp only [h1] at h
    · cases h
    rw [sampleCoords_mono s w hf _ h1]
    rcases h2 : pointFromX D (D.ofCoords x) (sampleBool w j) with _ | p <;> simp only [h2] at h ⊢
    · exact ih (by omega) h
    split at h
    · rename_i hz; rw [if_pos hz]; exact ih (by omega) h
    · rename_i hz; rw [if_neg hz]; exact h

/-- The hash is a point of the group other than the identity; it does not depend on how long one is ready to wait; and if
it differs for two inputs, so do the inputs (it is a function), while inputs that differ in the tag, the challenge or a
point give different strings to Blake, so the same seed means two strings with the same first half of the digest. -/
theorem c108_hash (hC : C.Lawful) (hD : D.Lawful) (scale : Point L → Point L)
    (hsc : ∀ p, onCurve D p = true → Good D (scale p)) (blake : Bytes → Bytes) (hb : ∀ x, (blake x).length = 64)
    (chacha : Bytes → Words) (tag : UInt8) (ch : Bytes) (p p' : Point K) :
    (∀ fuel rounds r, hashToGroup C D scale blake chacha fuel rounds tag ch p p' = some r → Good D r ∧ r ≠ .zero) ∧
    (∀ fuel rounds fuel' rounds' r r', hashToGroup C D scale blake chacha fuel rounds tag ch p p' = some r →
      hashToGroup C D scale blake chacha fuel' rounds' tag ch p p' = some r' → r = r') ∧
    (∀ tag' ch' u u', ch.length = ch'.length → (tag, ch, p, p') ≠ (tag', ch', u, u') →
      seedOf (blake (hashInput C tag ch p p')) = seedOf (blake (hashInput C tag' ch' u u')) →
      hashInput C tag ch p p' ≠ hashInput C tag' ch' u u' ∧
        (blake (hashInput C tag ch p p')).take 32 = (blake (hashInput C tag' ch' u u')).take 32) := by
  refine ⟨fun fuel rounds r h => ?_, fun fuel rounds fuel' rounds' r r' h h' => ?_, fun tag' ch' u u' hl hne hs => ⟨fun e => ?_, ?_⟩⟩
  · obtain ⟨⟨r, j⟩, h1, rfl⟩ := Option.map_eq_some_iff.mp h
    exact c108_sampled hD scale hsc _ _ _ _ _ _ _ h1
  · obtain ⟨a, h1, rfl⟩ := Option.map_eq_some_iff.mp h
    obtain ⟨b, h2, rfl⟩ := Option.map_eq_some_iff.mp h'
    have e1 := samplePoint_mono scale 2 _ (Nat.le_max_left fuel fuel') (Nat.le_max_left rounds rounds') h1
    have e2 := samplePoint_mono scale 2 _ (Nat.le_max_right fuel fuel') (Nat.le_max_right rounds rounds') h2
    rw [e1] at e2
    rw [Option.some.inj e2]
  · obtain ⟨rfl, rfl, rfl, rfl⟩ := c108_input hC hl e
    exact hne rfl
  · exact (c108_seed _ _ (hb _) (hb _)).2.2.mp hs

/-- The hash reads the stream of the seed from its start: candidates are tried one after the other, and the first that
is worth something is the result. -/
theorem c108_start (scale : Point L → Point L) (blake : Bytes → Bytes) (chacha : Bytes → Words) (fuel rounds : ℕ)
    (tag : UInt8) (ch : Bytes) (p p' : Point K) (r : Point L) :
    let w := chacha (seedOf (blake (tag :: ch ++ uncompressed C p ++ uncompressed C p')))
    hashToGroup C D scale blake chacha fuel rounds tag ch p p' = some r ↔
      ∃ t < rounds, ∃ (sign : ℕ → ℕ) (xs : ℕ → List (ZMod q)),
        (∀ u ≤ t, sampleCoords 2 w fuel D.n (if u = 0 then 0 else sign (u - 1) + 1) = some (xs u, sign u)) ∧
        (∀ u < t, worth D scale (D.ofCoords (xs u)) (decide ((w (sign u)).toNat % 2 = 1)) = none) ∧
        worth D scale (D.ofCoords (xs t)) (decide ((w (sign t)).toNat % 2 = 1)) = some r := by
  intro w
  unfold hashToGroup
  rw [Option.map_eq_some_iff]
  constructor
  · rintro ⟨⟨r', j⟩, h, rfl⟩
    obtain ⟨t, ht, sg, xs, h1, h2, h3, -⟩ := (c108_point scale 2 _ fuel rounds 0 j r').1 h
    exact ⟨t, ht, sg, xs, h1, h2, h3⟩
  · rintro ⟨t, ht, sg, xs, h1, h2, h3⟩
    exact ⟨(r, sg t + 1), (c108_point scale 2 _ fuel rounds 0 _ r).2 ⟨t, ht, sg, xs, h1, h2, h3, rfl⟩, rfl⟩

end

/-! ## Examples -/

/-- Words for the number `2 ^ 256 mod 307`, behind a number that is too large; the element is one. -/
def exWords : Words := fun i => if i = 7 then 1 else if i = 9 then UInt32.ofNat (2 ^ 256 % 307) else if i = 16 then 2 else 0

/-- The first candidate is refused, the second is the one. -/
example : sampleField 2 exWords 5 0 = some ((1 : ZMod 307), 16) := by decide +kernel

example : ∃ m < 5, 16 = 0 + 8 * m + 8 ∧ fieldAttempt 2 exWords (0 + 8 * m) = some (1 : ZMod 307) ∧
    ∀ m' < m, (fieldAttempt 2 exWords (0 + 8 * m') : Option (ZMod 307)) = none :=
  (c108_first 2 exWords 5 0 16 1).mp (by decide +kernel)

example : ∃ k < 2 ^ (2 : UInt64).toNat,
    number exWords 8 = ((1 : ZMod 307) * (2 : ZMod 307) ^ 256).val + k * 2 ^ (256 - (2 : UInt64).toNat) :=
  (c108_uniform (by decide) (by decide) 2 (by decide) (by
    show 307 ≤ 2 ^ 254
    exact Nat.le_trans (by decide) (Nat.pow_le_pow_right (by decide) (show 9 ≤ 254 by decide))) exWords 8 1).mp
    (by decide +kernel)

/-- Maps the point that is refused to one that is not. -/
def exScale (p : Point (ZMod 307)) : Point (ZMod 307) := if p = .affine 1 305 then .affine 1 2 else p

theorem exScale_good (p : Point (ZMod 307)) (h : onCurve ex1 p = true) : Good ex1 (exScale p) := by
  unfold exScale
  split
  · exact ⟨by decide +kernel, by decide +kernel⟩
  · rename_i hne
    exact ⟨h, decide_eq_true hne⟩

/-- A hash whose inputs are all different and a generator that returns the words above. -/
def exBlake (x : Bytes) : Bytes := (x ++ List.replicate 64 0).take 64

example : (hashToGroup ex1 ex1 exScale exBlake (fun _ => exWords) 5 3 0 (List.replicate 64 9) (.affine 1 2) .zero).map
    (fun p => decide (p = .affine 1 2)) = some true := by decide +kernel

example (r : Point (ZMod 307)) (h : hashToGroup ex1 ex1 exScale exBlake (fun _ => exWords) 5 3 0 (List.replicate 64 9)
    (.affine 1 2) .zero = some r) : Good ex1 r ∧ r ≠ .zero :=
  (c108_hash ex1_lawful ex1_lawful exScale exScale_good exBlake (by intro x; simp [exBlake]) (fun _ => exWords) 0
    (List.replicate 64 9) (.affine 1 2) .zero).1 5 3 r h

/-- A digest and its seed. -/
example : seedOf ((List.range 64).map UInt8.ofNat) = [3, 2, 1, 0, 7, 6, 5, 4, 11, 10, 9, 8, 15, 14, 13, 12,
    19, 18, 17, 16, 23, 22, 21, 20, 27, 26, 25, 24, 31, 30, 29, 28] := by decide

example : (∃ g, pointFromX ex1 1 g = some (.affine 1 305)) ∧
    ((305 : ZMod 307) ≠ -305 → ∀ g g', pointFromX ex1 1 g = some (.affine 1 305) →
      pointFromX ex1 1 g' = some (.affine 1 305) → g = g') :=
  c108_candidates ex1_lawful 1 305 (by decide +kernel)

example : hashInput ex1 0 [1] (.affine 1 2) .zero ≠ hashInput ex1 0 [1] (.affine 1 2) (.affine 1 305) := fun h => by
  have := (c108_input ex1_lawful rfl h).2.2.2
  cases this

end Verif.Ppot
