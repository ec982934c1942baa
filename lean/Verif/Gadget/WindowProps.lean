import Mathlib.Data.ZMod.Basic
import Verif.Gadget.Window

/-!
# Scalar multiplication is correct (C103)
-/

namespace Verif.Gadget

/-! ## Bits -/

theorem leValue_append (a b : List Bool) : leValue (a ++ b) = leValue a + 2 ^ a.length * leValue b := by
  induction a with
  | nil => simp [leValue]
  | cons x xs ih =>
    simp only [List.cons_append, leValue, ih, List.length_cons, Nat.pow_succ]
    rw [Nat.mul_add, Nat.mul_comm (2 ^ xs.length) 2, Nat.mul_assoc]
    omega

theorem leValue_lt (a : List Bool) : leValue a < 2 ^ a.length := by
  induction a with
  | nil => simp [leValue]
  | cons x xs ih =>
    simp only [leValue, List.length_cons, Nat.pow_succ]
    have : x.toNat ≤ 1 := by cases x <;> simp
    omega

theorem beValue_append (a b : List Bool) : beValue (a ++ b) = 2 ^ b.length * beValue a + beValue b := by
  unfold beValue
  rw [List.reverse_append, leValue_append, List.length_reverse]
  omega

theorem length_bitsLe (n v : Nat) : (bitsLe n v).length = n := by
  induction n generalizing v with
  | zero => rfl
  | succ n ih => simp [bitsLe, ih]

theorem leValue_bitsLe (n v : Nat) : leValue (bitsLe n v) = v % 2 ^ n := by
  induction n generalizing v with
  | zero => simp [bitsLe, leValue, Nat.mod_one]
  | succ n ih =>
    simp only [bitsLe, leValue, ih, Nat.pow_succ]
    rw [Nat.mul_comm (2 ^ n) 2, Nat.mod_mul]
    rcases Nat.mod_two_eq_zero_or_one v with h | h <;> simp [h]

theorem leValue_take (bits : List Bool) (n : Nat) : leValue (bits.take n) = leValue bits % 2 ^ n := by
  by_cases h : n ≤ bits.length
  · have e := leValue_append (bits.take n) (bits.drop n)
    rw [List.take_append_drop, List.length_take, Nat.min_eq_left h] at e
    have l := leValue_lt (bits.take n)
    rw [List.length_take, Nat.min_eq_left h] at l
    rw [e, Nat.add_mul_mod_self_left, Nat.mod_eq_of_lt l]
  · rw [List.take_of_length_le (by omega), Nat.mod_eq_of_lt]
    exact Nat.lt_of_lt_of_le (leValue_lt bits) (Nat.pow_le_pow_right (by omega) (by omega))

/-! ## Table selection -/

/-- `pairs` is what the iterator of manta-util yields. -/
theorem pairs_drain (l : List α) (fuel : Nat) (h : l.length < fuel) :
    ((Util.ChunkBy.new l).drain 2 fuel).1 = (pairs l).map fun xy => [xy.1, xy.2] := by
  induction fuel generalizing l with
  | zero => omega
  | succ fuel ih =>
    match l with
    | [] => simp [Util.ChunkBy.drain, Util.ChunkBy.next, Util.ChunkBy.new, Util.pull, pairs]
    | [x] => simp [Util.ChunkBy.drain, Util.ChunkBy.next, Util.ChunkBy.new, Util.pull, pairs]
    | x :: y :: rest =>
      have := ih rest (by simp only [List.length_cons] at h; omega)
      simp only [Util.ChunkBy.new] at this
      simp [Util.ChunkBy.drain, Util.ChunkBy.next, Util.ChunkBy.new, Util.pull, pairs, this]

theorem length_pairs (l : List α) : (pairs l).length = l.length / 2 := by
  fun_induction pairs l with
  | case1 x y rest ih => simp only [List.length_cons, ih]; omega
  | case2 l h =>
    match l, h with
    | [], _ => simp
    | [x], _ => simp
    | x :: y :: r, h => exact absurd rfl (h x y r)

theorem getElem?_selectPass (b : Bool) (l : List α) (i : Nat) (h : 2 * i + 1 < l.length) :
    (selectPass b l)[i]? = l[b.toNat + 2 * i]? := by
  induction i generalizing l with
  | zero =>
    match l, h with
    | x :: y :: r, _ => cases b <;> simp [selectPass, pairs, select]
  | succ i ih =>
    match l, h with
    | x :: y :: r, h =>
      have := ih r (by simp only [List.length_cons] at h; omega)
      simp only [selectPass] at this
      simp only [selectPass, pairs, List.map_cons, List.getElem?_cons_succ, this]
      rw [show b.toNat + 2 * (i + 1) = (b.toNat + 2 * i) + 1 + 1 by omega]
      simp

theorem length_selectPass (b : Bool) (l : List α) : (selectPass b l).length = l.length / 2 := by
  simp [selectPass, length_pairs]

theorem selectLoop (bits : List Bool) (table : List G) (h : table.length = 2 ^ bits.length) :
    (bits.foldl (fun table bit => selectPass bit table) table)[0]? = table[leValue bits]? ∧
      (bits.foldl (fun table bit => selectPass bit table) table).length = 1 := by
  induction bits generalizing table with
  | nil => simpa [leValue] using h
  | cons b bs ih =>
    simp only [List.foldl_cons, leValue]
    simp only [List.length_cons, Nat.pow_succ] at h
    have := ih (selectPass b table) (by rw [length_selectPass, h]; omega)
    refine ⟨?_, this.2⟩
    rw [this.1]
    apply getElem?_selectPass
    have := leValue_lt bs
    omega

theorem selectFromTable_eq (bits : List Bool) (table : List G) (h64 : bits.length < 64)
    (h : table.length = 2 ^ bits.length) :
    ∃ x, table[leValue bits]? = some x ∧ selectFromTable bits table = .ok x := by
  have hl := selectLoop bits table h
  have hlt : leValue bits < table.length := by rw [h]; exact leValue_lt bits
  refine ⟨table[leValue bits], by simp [hlt], ?_⟩
  unfold selectFromTable
  rw [if_neg (by omega), if_neg (by simp [h])]
  match bits, hl, h, hlt with
  | [], _, h, hlt =>
    match table, h with
    | x :: _, _ => simp [leValue]
  | b :: bs, hl, h, hlt =>
    simp only [List.foldl_cons] at hl
    generalize hr : List.foldl (fun table bit => selectPass bit table) (selectPass b table) bs = r at hl
    match r, hl with
    | x :: _, hl =>
      simp only [hr]
      have := hl.1
      rw [List.getElem?_cons_zero, List.getElem?_eq_getElem hlt] at this
      injection this with this
      rw [this]

/-! ## Windows -/

variable [AddMonoid G]

theorem repeatedDouble_eq (k n : Nat) (P : G) : repeatedDouble k (n • P) = (2 ^ k * n) • P := by
  induction k generalizing n with
  | zero => simp [repeatedDouble]
  | succ k ih =>
    rw [repeatedDouble, ← add_nsmul, ih, Nat.pow_succ]
    congr 1
    rw [Nat.mul_assoc]; congr 1; omega

theorem pushMultiples_eq (P : G) (n m : Nat) :
    pushMultiples P n ((List.range (m + 1)).map (· • P)) = (List.range (m + 1 + n)).map (· • P) := by
  induction n generalizing m with
  | zero => rfl
  | succ n ih =>
    rw [pushMultiples]
    have : (List.map (fun x => x • P) (List.range (m + 1))).getLast? = some (m • P) := by
      rw [List.range_succ]; simp
    rw [this]
    simp only [Option.map_some, Option.toList_some]
    have e : List.map (fun x => x • P) (List.range (m + 1)) ++ [m • P + P]
        = List.map (fun x => x • P) (List.range (m + 1 + 1)) := by
      rw [List.range_succ (n := m + 1), List.map_append, List.map_singleton, succ_nsmul]
    rw [e, ih (m + 1)]
    congr 2; omega

theorem Window.new_eq (w : Nat) (P : G) (h0 : 0 < w) (h1 : w < 64) :
    Window.new w P = .ok ⟨(List.range (2 ^ w)).map (· • P)⟩ := by
  unfold Window.new
  rw [if_neg (by omega), if_neg (by omega)]
  have e : [0, P] = (List.range (1 + 1)).map (· • P) := by
    simp [List.range_succ]
  rw [e, pushMultiples_eq]
  have : 2 ≤ 2 ^ w := by
    calc 2 = 2 ^ 1 := rfl
      _ ≤ 2 ^ w := Nat.pow_le_pow_right (by omega) h0
  rw [show 1 + 1 + (2 ^ w - 2) = 2 ^ w by omega]

theorem trailingZeros_pow (w : Nat) : trailingZeros (2 ^ w) = w := by
  induction w with
  | zero => unfold trailingZeros; simp
  | succ w ih =>
    rw [trailingZeros]
    have h0 : 2 ^ (w + 1) ≠ 0 := by simp
    rw [dif_neg h0, Nat.pow_succ, if_pos (by omega), Nat.mul_div_cancel _ (by omega), ih]

theorem scalarMulRound_eq (P : G) (n k : Nat) (chunk : List Bool) (hn : chunk.length = n) (h64 : n < 64) :
    scalarMulRound n ((List.range (2 ^ n)).map (· • P)) chunk (k • P)
      = .ok ((2 ^ n * k + beValue chunk) • P) := by
  unfold scalarMulRound
  obtain ⟨x, hx, hs⟩ := selectFromTable_eq chunk.reverse ((List.range (2 ^ n)).map (· • P)) (by simp; omega)
    (by simp [hn])
  rw [hs]
  have hlt : leValue chunk.reverse < 2 ^ n := by
    have := leValue_lt chunk.reverse; simpa [hn] using this
  rw [List.getElem?_map, List.getElem?_range hlt] at hx
  simp only [Option.map_some, Option.some.injEq] at hx
  simp only [repeatedDouble_eq, ← hx, add_nsmul, beValue]

theorem mulLoop_eq (P : G) (n : Nat) (h0 : 0 < n) (h64 : n < 64) (bits : List Bool) (k : Nat) :
    mulLoop n ((List.range (2 ^ n)).map (· • P)) bits (k • P)
      = .ok ((2 ^ bits.length * k + beValue bits) • P) := by
  induction hl : bits.length using Nat.strongRecOn generalizing bits k with
  | ind m ih =>
    subst hl
    rw [mulLoop]
    by_cases h : n ≤ bits.length
    · rw [dif_pos ⟨h0, h⟩, scalarMulRound_eq P n k _ (by simp; omega) h64]
      simp only
      rw [ih _ (by simp; omega) (bits.drop n) _ rfl]
      congr 2
      have e := beValue_append (bits.take n) (bits.drop n)
      rw [List.take_append_drop] at e
      rw [e, Nat.mul_add, ← Nat.mul_assoc, ← Nat.pow_add]
      have : (bits.drop n).length + n = bits.length := by simp; omega
      rw [this]
      omega
    · rw [dif_neg (fun c => h c.2)]
      have hp : 2 ^ bits.length ≤ 2 ^ n := Nat.pow_le_pow_right (by omega) (by omega)
      rw [if_neg (by simp; omega)]
      rw [← List.map_take, List.take_range, Nat.min_eq_left hp]
      exact scalarMulRound_eq P _ k bits rfl (by omega)

/-! ## Fixed base -/

theorem fixedBase_loop (P : G) (bits : List Bool) (n a c : Nat) :
    (bits.zip (fromBase (c • P) n)).foldl (fun result x => select x.1 (result + x.2) result) (a • P)
      = (a + c * leValue (bits.take n)) • P := by
  induction n generalizing bits a c with
  | zero => simp [fromBase, leValue]
  | succ n ih =>
    match bits with
    | [] => simp [leValue]
    | b :: bs =>
      simp only [fromBase, List.zip_cons_cons, List.foldl_cons, List.take_succ_cons, leValue]
      rw [← add_nsmul, ← add_nsmul]
      have : select b ((a + c) • P) (a • P) = (a + c * b.toNat) • P := by cases b <;> simp [select]
      rw [this, ih]
      congr 1
      rw [Nat.mul_add, Nat.add_assoc, ← Nat.mul_assoc, Nat.mul_two]

theorem doubleAndAdd_eq (P : G) (bits : List Bool) (a c : Nat) :
    doubleAndAdd bits (c • P) (a • P) = (a + c * leValue bits) • P := by
  induction bits generalizing a c with
  | nil => simp [doubleAndAdd, leValue]
  | cons b bs ih =>
    simp only [doubleAndAdd, leValue]
    rw [← add_nsmul, ← add_nsmul]
    have : select b ((a + c) • P) (a • P) = (a + c * b.toNat) • P := by cases b <;> simp [select]
    rw [this, ih]
    congr 1
    rw [Nat.mul_add, Nat.add_assoc, ← Nat.mul_assoc, Nat.mul_two]

/-! ## C103 -/

omit [AddMonoid G] in
/-- **C103** (selection): with as many entries as there are bit patterns, the selection returns the entry
whose index has the given bits, least significant bit first; with any other number of entries it
panics. -/
theorem c103_select (bits : List Bool) (table : List G) (h64 : bits.length < 64) :
    (table.length = 2 ^ bits.length → ∃ x, table[leValue bits]? = some x ∧ selectFromTable bits table = .ok x) ∧
      (table.length ≠ 2 ^ bits.length → selectFromTable bits table = .error .tableLength) := by
  refine ⟨selectFromTable_eq bits table h64, fun h => ?_⟩
  unfold selectFromTable
  rw [if_neg (by omega), if_pos h]

example : selectFromTable [true, true, false] [10, 11, 12, 13, 14, 15, 16, 17] = .ok 13 := rfl

/-- **C103** (order of the bits, the documentation of `select_from_table` is wrong): read most significant
bit first, as documented, the bits do not name the entry that is returned. -/
theorem c103_select_order_violated :
    ¬ ∀ (bits : List Bool) (table : List Nat), bits.length < 64 → table.length = 2 ^ bits.length →
      ∃ x, table[beValue bits]? = some x ∧ selectFromTable bits table = .ok x := by
  intro h
  obtain ⟨x, hx, hs⟩ := h [true, false] [0, 1, 2, 3] (by decide) rfl
  have e : selectFromTable [true, false] [0, 1, 2, 3] = .ok 1 := rfl
  have e2 : ([0, 1, 2, 3] : List Nat)[beValue [true, false]]? = some 2 := by decide
  rw [e] at hs
  rw [e2] at hx
  injection hs with hs
  injection hx with hx
  omega

/-- **C103** (windows): multiplication with a window of any size gives the multiple named by the bits, most
significant bit first, whatever the number of bits. -/
theorem c103_window (w : Nat) (P : G) (bits : List Bool) (h0 : 0 < w) (h64 : w < 64) :
    windowMul w P bits = .ok (beValue bits • P) := by
  unfold windowMul
  rw [Window.new_eq w P h0 h64]
  simp only [Window.scalarMul, Window.windowSize, List.length_map, List.length_range, trailingZeros_pow]
  rw [if_neg (by omega)]
  have := mulLoop_eq P w h0 h64 bits 0
  simpa using this

example : (windowMul 3 (5 : Int) [true, false, true, true, false, false, true]).toOption = some (89 * 5) := by
  decide +kernel

/-- **C103** (no window): the window size zero is refused. -/
theorem c103_window_zero (P : G) (bits : List Bool) : windowMul 0 P bits = .error .windowSize := by
  simp [windowMul, Window.new]

/-- **C103** (multiplication inside of a circuit): for every value of the scalar variable. -/
theorem c103_circuit (n : Nat) (P : G) (v : Nat) (h : v < 2 ^ n) : circuitMul n P v = v • P := by
  have := doubleAndAdd_eq P (bitsLe n v) 0 1
  rw [one_nsmul, zero_nsmul, leValue_bitsLe, Nat.mod_eq_of_lt h] at this
  simpa [circuitMul] using this

theorem circuitFixedMul_eq (n m : Nat) (P : G) (v : Nat) :
    circuitFixedMul n m P v = (v % 2 ^ n % 2 ^ m) • P := by
  have := fixedBase_loop P (bitsLe n v) m 0 1
  rw [one_nsmul, zero_nsmul, leValue_take, leValue_bitsLe] at this
  simpa [circuitFixedMul, fixedBase] using this

/-- **C103** (fixed base, partial: only for scalars that have no more bits than the table has entries). -/
theorem c103_fixed_partial (n m : Nat) (P : G) (v : Nat) (hn : v < 2 ^ n) (hm : v < 2 ^ m) :
    circuitFixedMul n m P v = v • P := by
  rw [circuitFixedMul_eq, Nat.mod_eq_of_lt hn, Nat.mod_eq_of_lt hm]

example : circuitFixedMul 5 4 (7 : Int) 13 = 91 := by decide +kernel

/-- **C103** (fixed base, longer scalars): for a point of prime order `r > 2` and a table of `m` entries,
every scalar variable with a value from `2 ^ m` on (up to `r * 2 ^ m`) is multiplied wrongly, silently. -/
theorem c103_fixed_violated {H : Type u} [AddGroup H] (n m r : Nat) (P : H) (v : Nat) (hr : r.Coprime 2)
    (hP : ∀ k : Nat, k • P = 0 → r ∣ k) (hn : v < 2 ^ n) (h1 : 2 ^ m ≤ v) (h2 : v < r * 2 ^ m) :
    circuitFixedMul n m P v ≠ v • P := by
  rw [circuitFixedMul_eq, Nat.mod_eq_of_lt hn]
  intro h
  have e : v = v % 2 ^ m + 2 ^ m * (v / 2 ^ m) := (Nat.mod_add_div v (2 ^ m)).symm
  have h' : (2 ^ m * (v / 2 ^ m)) • P = 0 := by
    have : (v % 2 ^ m) • P + (2 ^ m * (v / 2 ^ m)) • P = (v % 2 ^ m) • P + 0 := by
      rw [← add_nsmul, ← e, add_zero, h]
    exact add_left_cancel this
  have hd := hP _ h'
  have hc : r.Coprime (2 ^ m) := Nat.Coprime.pow_right m hr
  have hd := hc.dvd_of_dvd_mul_left hd
  have hpos : 0 < v / 2 ^ m := Nat.div_pos h1 (Nat.two_pow_pos m)
  have := Nat.le_of_dvd hpos hd
  have : v / 2 ^ m < r := (Nat.div_lt_iff_lt_mul (Nat.two_pow_pos m)).2 h2
  omega

example : ∃ P : ZMod 11, (∀ k : Nat, k • P = 0 → 11 ∣ k) ∧ circuitFixedMul 5 4 P 21 = 5 • P ∧ circuitMul 5 P 21 = 21 • P :=
  ⟨1, fun k h => by
    rw [nsmul_eq_mul, mul_one] at h
    exact (ZMod.natCast_eq_zero_iff k 11).1 h, by decide, by decide⟩

/-! ### The two fields -/

/-- **C103** (comparison of moduli): whatever the sizes of the two integer types. -/
theorem c103_modulus (a b : Field) (ha : a.Fits) (hb : b.Fits) :
    modulusIsSmaller a b = true ↔ a.modulus < b.modulus := by
  have key : ∀ n m : Nat, 1 < n → 1 < m → numBits n ≤ numBits m → ∀ k, m < 2 ^ k → n < 2 ^ k := by
    intro n m h1 h2 h k hk
    unfold numBits at h
    rw [if_neg (by omega), if_neg (by omega)] at h
    have hm : m.log2 < k := (Nat.log2_lt (by omega)).2 hk
    exact (Nat.log2_lt (by omega)).1 (by omega)
  unfold modulusIsSmaller convertBits
  split
  · rename_i h
    rw [Nat.mod_eq_of_lt (key _ _ ha.1 hb.1 h _ hb.2)]
    simp
  · rename_i h
    rw [Nat.mod_eq_of_lt (key _ _ hb.1 ha.1 (by omega) _ ha.2)]
    simp

example : modulusIsSmaller ⟨11, 1⟩ ⟨2 ^ 64 + 13, 2⟩ = true ∧ modulusIsSmaller ⟨2 ^ 64 + 13, 2⟩ ⟨13, 1⟩ = false := by
  decide +kernel

/-- **C103** (a scalar taken into the circuit): lifting succeeds exactly when the scalar field is the smaller
one, and then the circuit computes the same multiple as the native code, for the whole scalar field. -/
theorem c103_scalar (r p : Field) (hr : r.Fits) (hp : p.Fits) (n : Nat) (hn : p.modulus ≤ 2 ^ n) (P : G) (s : Nat)
    (hs : s < r.modulus) :
    (r.modulus < p.modulus → ∃ v, liftScalar r p s = .ok v ∧ circuitMul n P v = nativeMul P s) ∧
      (¬ r.modulus < p.modulus → liftScalar r p s = .error .modulus) := by
  refine ⟨fun h => ?_, fun h => ?_⟩
  · refine ⟨s, ?_, ?_⟩
    · rw [liftScalar, if_pos ((c103_modulus r p hr hp).2 h), Nat.mod_eq_of_lt (by omega)]
    · rw [c103_circuit n P s (by omega), nativeMul]
  · rw [liftScalar, if_neg (fun c => h ((c103_modulus r p hr hp).1 c))]

/-- **C103** (a hash used as scalar): natively the hash is reduced modulo the group order, inside of the
circuit it is not. For points whose order divides the modulus of the scalar field the multiples agree. -/
theorem c103_hash_scalar (r : Field) (n : Nat) (P : G) (hP : r.modulus • P = 0) (h : Nat) (hn : h < 2 ^ n) :
    circuitMul n P h = nativeMul P (remModPrime r h) := by
  rw [c103_circuit n P h hn, nativeMul, remModPrime]
  conv => lhs; rw [← Nat.mod_add_div h r.modulus]
  rw [add_nsmul, mul_nsmul, hP, nsmul_zero, add_zero]

example : ∃ P : ZMod 11, P ≠ 0 ∧ (⟨11, 1⟩ : Field).modulus • P = 0 ∧ circuitMul 5 P 30 = 8 • P :=
  ⟨1, by decide, by decide, by decide⟩

/-- **C103** (a hash used as scalar, other points): the hypothesis on the order is needed. -/
theorem c103_hash_scalar_order_violated :
    ∃ (r : Field) (n : Nat) (P : Int) (h : Nat), h < 2 ^ n ∧ circuitMul n P h ≠ nativeMul P (remModPrime r h) :=
  ⟨⟨5, 1⟩, 3, 1, 7, by decide, by decide +kernel⟩

end Verif.Gadget
