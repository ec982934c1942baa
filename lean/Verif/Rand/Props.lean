import Verif.Rand.Model
import Mathlib.Algebra.BigOperators.Fin
import Mathlib.Algebra.BigOperators.Field
import Mathlib.Algebra.Order.BigOperators.Group.Finset
import Mathlib.Algebra.Order.Ring.Rat
import Mathlib.Data.Int.CardIntervalMod
import Mathlib.Tactic.FieldSimp
import Mathlib.Tactic.Ring

/-!
# C138: random values are uniform, fuzzed values differ

Specification: `prob`, the probability of a result if all words of the generator are independent and uniform.
-/

namespace Verif.Rand

open Finset

/-- The probability that a sampler returns a value, if the answers of the generator are independent and uniform. -/
def prob {α : Type} [DecidableEq α] : Draw α → α → ℚ
  | .done a, v => if a = v then 1 else 0
  | .panic, _ => 0
  | .u32 k, v => (∑ w, prob (k w) v) / 2 ^ 32
  | .u64 k, v => (∑ w, prob (k w) v) / 2 ^ 64
  | .upTo n k, v => (∑ w, prob (k w) v) / n

/-- The `n` values with the property `P` are the results, and all are equally likely. -/
structure Uniform {α : Type} [DecidableEq α] (d : Draw α) (P : α → Prop) (n : Nat) : Prop where
  on : ∀ v, P v → prob d v = 1 / n
  off : ∀ v, ¬ P v → prob d v = 0

section
variable {α β : Type} [DecidableEq α] [DecidableEq β]

theorem prob_bind (d : Draw α) (f : α → Draw β) (v : β) (t : α) (c : ℚ) (h : ∀ a, prob (f a) v = if a = t then c else 0) :
    prob (d.bind f) v = prob d t * c := by
  induction d with
  | done a => simp only [Draw.bind, prob, h]; split <;> simp
  | panic => simp [Draw.bind, prob]
  | u32 k ih => simp only [Draw.bind, prob, ih, ← Finset.sum_mul]; ring
  | u64 k ih => simp only [Draw.bind, prob, ih, ← Finset.sum_mul]; ring
  | upTo n k ih => simp only [Draw.bind, prob, ih, ← Finset.sum_mul]; ring

theorem prob_bind_zero (d : Draw α) (f : α → Draw β) (v : β) (h : ∀ a, prob (f a) v = 0) : prob (d.bind f) v = 0 := by
  induction d with
  | done a => exact h a
  | panic => rfl
  | u32 k ih => simp [Draw.bind, prob, ih]
  | u64 k ih => simp [Draw.bind, prob, ih]
  | upTo n k ih => simp [Draw.bind, prob, ih]

theorem prob_map (d : Draw α) (f : α → β) (v : β) (t : α) (h : ∀ a, f a = v ↔ a = t) : prob (d.map f) v = prob d t := by
  rw [Draw.map, prob_bind d _ v t 1, mul_one]
  intro a
  simp only [prob, h]

theorem prob_map_zero (d : Draw α) (f : α → β) (v : β) (h : ∀ a, f a ≠ v) : prob (d.map f) v = 0 :=
  prob_bind_zero d _ v fun a => by simp only [prob, if_neg (h a)]

end

/-! ## Words -/

theorem count_mod {j k : Nat} (hk : k ≤ j) {v : Nat} (hv : v < 2 ^ k) :
    (∑ w : Fin (2 ^ j), if w.val % 2 ^ k = v then (1 : ℚ) else 0) = 2 ^ (j - k) := by
  rw [Fin.sum_univ_eq_sum_range (fun w => if w % 2 ^ k = v then (1 : ℚ) else 0), Finset.sum_boole]
  have h := Nat.count_modEq_card (b := 2 ^ j) (r := 2 ^ k) (Nat.two_pow_pos k) v
  rw [Nat.count_eq_card_filter_range] at h
  have hp : 2 ^ j = 2 ^ k * 2 ^ (j - k) := by rw [← Nat.pow_add]; congr 1; omega
  have h0 : 2 ^ j % 2 ^ k = 0 := by rw [hp]; exact Nat.mul_mod_right _ _
  have hd : 2 ^ j / 2 ^ k = 2 ^ (j - k) := by rw [hp]; exact Nat.mul_div_cancel_left _ (Nat.two_pow_pos k)
  rw [h0, if_neg (Nat.not_lt_zero _), Nat.add_zero, hd] at h
  have he : (range (2 ^ j)).filter (fun w => w % 2 ^ k = v) = (range (2 ^ j)).filter (fun w => w ≡ v [MOD 2 ^ k]) := by
    refine Finset.filter_congr fun w _ => ?_
    rw [Nat.ModEq, Nat.mod_eq_of_lt hv]
  rw [he, h]
  norm_cast

theorem pow_split {k : Nat} (hk : k ≤ 32) : (2 : ℚ) ^ (32 - k) / 2 ^ 32 = 1 / 2 ^ k := by
  have : (2 : ℚ) ^ 32 = 2 ^ k * 2 ^ (32 - k) := by rw [← pow_add]; congr 1; omega
  rw [this]
  field_simp

/-- **C138, integers.** `u8`, `u16` and `u32`. -/
theorem c138_unsigned {k : Nat} (hk : k ≤ 32) : Uniform (sampleUnsigned k) (· < 2 ^ k) (2 ^ k) where
  on v hv := by
    simp only [sampleUnsigned, prob, count_mod hk hv]
    rw [pow_split hk]; norm_cast
  off v hv := by
    simp only [sampleUnsigned, prob]
    rw [Finset.sum_eq_zero, zero_div]
    intro w _
    exact if_neg fun h : w.val % 2 ^ k = v => hv (h ▸ Nat.mod_lt _ (Nat.two_pow_pos k))

/-- **C138, signed integers.** `i8`, `i16` and `i32`. -/
theorem c138_signed {k : Nat} (h0 : 0 < k) (hk : k ≤ 32) :
    Uniform (sampleSigned k) (fun v => -(2 ^ (k - 1) : Int) ≤ v ∧ v < 2 ^ (k - 1)) (2 ^ k) := by
  have hp : (2 : Nat) ^ k = 2 * 2 ^ (k - 1) := by
    rw [← Nat.pow_succ']; congr 1; omega
  have hc : ((2 ^ (k - 1) : Nat) : Int) = 2 ^ (k - 1) := by norm_cast
  have hpos := Nat.two_pow_pos (k - 1)
  have hcast : ((2 ^ k : Nat) : Int) = 2 * (2 ^ (k - 1) : Nat) := by rw [hp]; norm_cast
  rw [← hc]
  generalize 2 ^ (k - 1) = m at *
  constructor
  · rintro v ⟨h1, h2⟩
    -- the residue that gives the value
    obtain ⟨r, hr, hv⟩ : ∃ r : Nat, r < 2 ^ k ∧ ∀ x : Nat, x < 2 ^ k →
        ((if 2 * x < 2 ^ k then (x : Int) else (x : Int) - (2 ^ k : Nat)) = v ↔ x = r) := by
      by_cases hs : 0 ≤ v
      · refine ⟨v.toNat, by omega, fun x hx => ?_⟩
        split <;> omega
      · refine ⟨(v + (2 ^ k : Nat)).toNat, by omega, fun x hx => ?_⟩
        split <;> omega
    simp only [sampleSigned, prob]
    rw [Finset.sum_congr rfl (g := fun w : Fin (2 ^ 32) => if w.val % 2 ^ k = r then (1 : ℚ) else 0)
      fun w _ => if_congr (hv _ (Nat.mod_lt _ (Nat.two_pow_pos k))) rfl rfl, count_mod hk hr, pow_split hk]
    norm_cast
  · intro v hv
    simp only [sampleSigned, prob]
    rw [Finset.sum_eq_zero, zero_div]
    intro w _
    refine if_neg fun h => hv ?_
    have := Nat.mod_lt w.val (Nat.two_pow_pos k)
    generalize w.val % 2 ^ k = x at *
    split at h <;> omega

/-- **C138, booleans.** -/
theorem c138_bool : Uniform sampleBool (fun _ => True) 2 where
  on v _ := by
    have h1 : ∀ b, prob sampleBool b = (∑ w : Fin (2 ^ 32), if decide (2 ^ 31 ≤ w.val) = b then (1 : ℚ) else 0) / 2 ^ 32 :=
      fun b => rfl
    have ht : prob sampleBool true = 1 / 2 := by
      rw [h1, Fin.sum_univ_eq_sum_range (fun w => if decide (2 ^ 31 ≤ w) = true then (1 : ℚ) else 0), Finset.sum_boole]
      have : (range (2 ^ 32)).filter (fun w => decide (2 ^ 31 ≤ w) = true) = Finset.Ico (2 ^ 31) (2 ^ 32) := by
        ext w; simp only [Finset.mem_filter, Finset.mem_range, decide_eq_true_eq, Finset.mem_Ico]; omega
      rw [this, Nat.card_Ico]
      norm_num
    have hf : prob sampleBool false = 1 / 2 := by
      rw [h1, Fin.sum_univ_eq_sum_range (fun w => if decide (2 ^ 31 ≤ w) = false then (1 : ℚ) else 0), Finset.sum_boole]
      have : (range (2 ^ 32)).filter (fun w => decide (2 ^ 31 ≤ w) = false) = range (2 ^ 31) := by
        ext w; simp only [Finset.mem_filter, Finset.mem_range, decide_eq_false_iff_not]; omega
      rw [this, Finset.card_range]
      norm_num
    cases v
    · exact hf
    · exact ht
  off v h := absurd trivial h

/-- **C138, `u64`.** -/
theorem c138_u64 : Uniform sampleU64 (· < 2 ^ 64) (2 ^ 64) where
  on v hv := by
    simp only [sampleU64, prob]
    rw [Finset.sum_congr rfl (g := fun w => if w = (⟨v, hv⟩ : Fin (2 ^ 64)) then (1 : ℚ) else 0)
      fun w _ => if_congr (by rw [Fin.ext_iff]) rfl rfl, Finset.sum_ite_eq', if_pos (Finset.mem_univ _)]
    norm_cast
  off v hv := by
    simp only [sampleU64, prob]
    rw [Finset.sum_eq_zero, zero_div]
    intro w _
    exact if_neg fun h : w.val = v => hv (h ▸ w.isLt)

/-- **C138, `u128`.** -/
theorem c138_u128 : Uniform sampleU128 (· < 2 ^ 128) (2 ^ 128) := by
  have hval : ∀ a b : Fin (2 ^ 64), (a.val <<< 64) ||| b.val = a.val * 2 ^ 64 + b.val := by
    intro a b
    rw [← Nat.shiftLeft_add_eq_or_of_lt b.isLt, Nat.shiftLeft_eq]
  constructor
  · intro v hv
    simp only [sampleU128, prob, hval]
    have ha : v / 2 ^ 64 < 2 ^ 64 := by omega
    have hb : v % 2 ^ 64 < 2 ^ 64 := by omega
    have hin : ∀ a : Fin (2 ^ 64), (∑ b : Fin (2 ^ 64), if a.val * 2 ^ 64 + b.val = v then (1 : ℚ) else 0) =
        if a = ⟨v / 2 ^ 64, ha⟩ then 1 else 0 := by
      intro a
      by_cases h : a = ⟨v / 2 ^ 64, ha⟩
      · rw [if_pos h, Finset.sum_congr rfl (g := fun b => if b = (⟨v % 2 ^ 64, hb⟩ : Fin (2 ^ 64)) then (1 : ℚ) else 0)
          fun b _ => if_congr (by rw [Fin.ext_iff, h]; simp only; have := b.isLt; omega) rfl rfl, Finset.sum_ite_eq',
          if_pos (Finset.mem_univ _)]
      · rw [if_neg h, Finset.sum_eq_zero]
        intro b _
        refine if_neg fun hh => h (Fin.ext ?_)
        have := b.isLt
        simp only
        omega
    simp only [hin, ← Finset.sum_div, Finset.sum_ite_eq', if_pos (Finset.mem_univ _)]
    norm_num
  · intro v hv
    simp only [sampleU128, prob, hval]
    rw [Finset.sum_eq_zero, zero_div]
    intro a _
    rw [Finset.sum_eq_zero, zero_div]
    intro b _
    refine if_neg fun h => hv ?_
    have := a.isLt
    have := b.isLt
    omega

/-! ## Arrays -/

section
variable {D T : Type} [DecidableEq T]

theorem prob_iter (s : D → Draw T) : ∀ (ds : List D) (ts : List T), prob (sampleIter s ds) ts =
    if ds.length = ts.length then ((ds.zip ts).map fun x => prob (s x.1) x.2).prod else 0
  | [], [] => by simp [sampleIter, prob]
  | [], t :: ts => by simp [sampleIter, prob]
  | d :: ds, [] => by
    rw [if_neg (by simp)]
    exact prob_bind_zero _ _ _ fun a => prob_bind_zero _ _ _ fun b => by simp [prob]
  | d :: ds, t :: ts => by
    have ih := prob_iter s ds ts
    rw [sampleIter, prob_bind (s d) _ (t :: ts) t (prob (sampleIter s ds) ts)]
    · rw [ih]
      simp only [List.length_cons, Nat.add_right_cancel_iff, List.zip_cons_cons, List.map_cons, List.prod_cons]
      split <;> simp
    · intro a
      by_cases h : a = t
      · subst h
        rw [if_pos rfl]
        exact prob_map (sampleIter s ds) (fun ts => a :: ts) (a :: ts) ts fun b => by simp
      · rw [if_neg h]
        exact prob_map_zero (sampleIter s ds) (fun ts => a :: ts) (t :: ts) fun b => by simp [h]

/-- **C138, iterators.** The samples are independent: the probability of a sequence is the product. -/
theorem c138_independent (s : D → Draw T) (ds : List D) (ts : List T) (h : ds.length = ts.length) :
    prob (sampleIter s ds) ts = ((ds.zip ts).map fun x => prob (s x.1) x.2).prod := by
  rw [prob_iter, if_pos h]

/-- **C138, arrays.** Arrays of uniform entries are uniform; so are arrays of arrays. -/
theorem c138_array {s : D → Draw T} {d : D} {P : T → Prop} {m : Nat} (hs : Uniform (s d) P m) (n : Nat) :
    Uniform (sampleArray s n d) (fun l => l.length = n ∧ ∀ x ∈ l, P x) (m ^ n) := by
  have key : ∀ (l : List T) (n : Nat), l.length = n →
      ((∀ x ∈ l, P x) → (((List.replicate n d).zip l).map fun x => prob (s x.1) x.2).prod = 1 / (m ^ n : Nat)) ∧
      ((∃ x ∈ l, ¬ P x) → (((List.replicate n d).zip l).map fun x => prob (s x.1) x.2).prod = 0) := by
    intro l
    induction l with
    | nil =>
      rintro n rfl
      exact ⟨fun _ => by simp, fun ⟨x, hx, _⟩ => (by cases hx)⟩
    | cons t ts ih =>
      rintro n rfl
      obtain ⟨h1, h2⟩ := ih ts.length rfl
      simp only [List.length_cons, List.replicate_succ, List.zip_cons_cons, List.map_cons, List.prod_cons]
      refine ⟨fun h => ?_, fun ⟨x, hx, hP⟩ => ?_⟩
      · rw [h1 fun x hx => h x (List.mem_cons_of_mem _ hx), hs.on t (h t List.mem_cons_self)]
        push_cast
        rw [pow_succ']
        rw [one_div_mul_one_div]
      · rcases List.mem_cons.1 hx with rfl | hx
        · rw [hs.off _ hP, zero_mul]
        · rw [h2 ⟨x, hx, hP⟩, mul_zero]
  constructor
  · rintro l ⟨hl, hP⟩
    rw [sampleArray, prob_iter, List.length_replicate, if_pos hl.symm, (key l n hl).1 hP]
  · intro l hl
    rw [sampleArray, prob_iter, List.length_replicate]
    split
    · rename_i hn
      refine (key l n hn.symm).2 ?_
      by_contra hne
      exact hl ⟨hn.symm, fun x hx => by by_contra hx'; exact hne ⟨x, hx, hx'⟩⟩
    · rfl

end

/-! ## Selection -/

/-- **C138, selection.** Nothing is selected from nothing; otherwise an item is selected as often as it occurs. -/
theorem c138_select {T : Type} [DecidableEq T] (l : List T) :
    (l = [] → selectItem l = .done none) ∧
    (l ≠ [] → prob (selectItem l) none = 0 ∧ ∀ t, prob (selectItem l) (some t) = (l.count t : ℚ) / l.length) := by
  refine ⟨fun h => by subst h; rfl, fun h => ?_⟩
  have hn : l.length ≠ 0 := fun h' => h (List.length_eq_zero_iff.1 h')
  have hs : ∀ o, prob (selectItem l) o = (∑ i : Fin l.length, if l[i.val]? = o then (1 : ℚ) else 0) / l.length := by
    intro o
    simp only [selectItem, if_neg hn, genRange, Draw.map, Draw.bind, prob]
  refine ⟨?_, fun t => ?_⟩
  · rw [hs, Finset.sum_eq_zero, zero_div]
    intro i _
    exact if_neg (by simp)
  · rw [hs]
    congr 1
    have : ∀ l : List T, (∑ i : Fin l.length, if l[i.val]? = some t then (1 : ℚ) else 0) = l.count t := by
      intro l
      induction l with
      | nil => simp
      | cons a as ih =>
        have := Fin.sum_univ_succ (n := as.length) fun i : Fin (as.length + 1) => if (a :: as)[i.val]? = some t then (1 : ℚ) else 0
        rw [show (∑ i : Fin (a :: as).length, if (a :: as)[i.val]? = some t then (1 : ℚ) else 0) = _ from this]
        simp only [Fin.val_zero, List.getElem?_cons_zero, Option.some.injEq, Fin.val_succ, List.getElem?_cons_succ, ih,
          List.count_cons, beq_iff_eq]
        split <;> simp [add_comm]
    exact this l

/-! ## Fuzzing -/

theorem fuzzVec_det {T : Type} (fuzz : T → Draw T) (f : T → T) (l : List T) (hl : l ≠ []) (h : ∀ t, fuzz t = .done (f t)) :
    fuzzVec fuzz l = .upTo l.length fun i => .done (l.set i (f l[i])) := by
  have hn : l.length ≠ 0 := fun h' => hl (List.length_eq_zero_iff.1 h')
  simp only [fuzzVec, genRange, if_neg hn, Draw.bind, h, Draw.map]

theorem fromBitsBe_concat (l : List Bool) (b : Bool) : fromBitsBe (l ++ [b]) = 2 * fromBitsBe l + b.toNat := by
  simp [fromBitsBe, List.foldl_append]

theorem testBit_fromBitsBe (l : List Bool) (j : Nat) : (fromBitsBe l).testBit j = l.reverse.getD j false := by
  induction l using List.reverseRecOn generalizing j with
  | nil => simp [fromBitsBe]
  | append_singleton l b ih =>
    rw [fromBitsBe_concat, List.reverse_append]
    cases j with
    | zero => cases b <;> simp [Nat.testBit_zero]
    | succ j =>
      rw [Nat.testBit_succ, show (2 * fromBitsBe l + b.toNat) / 2 = fromBitsBe l by cases b <;> simp <;> omega, ih]
      simp

theorem testBit_fromBitsLoop (l : List Bool) : ∀ (i r j : Nat), (fromBitsLoop l i r).testBit j =
    (r.testBit j || (decide (i ≤ j) && l.getD (j - i) false)) := by
  induction l with
  | nil => intro i r j; simp [fromBitsLoop]
  | cons b bs ih =>
    intro i r j
    rw [fromBitsLoop, ih]
    by_cases hij : i = j
    · subst hij
      have : ¬ i + 1 ≤ i := by omega
      cases b <;> simp [this, Nat.testBit_or, Nat.testBit_shiftLeft]
    · have hr : (if b = true then r ||| 1 <<< i else r).testBit j = r.testBit j := by
        cases b
        · rfl
        · rw [if_pos rfl, Nat.testBit_or, Nat.one_shiftLeft, Nat.testBit_two_pow_of_ne hij, Bool.or_false]
      rw [hr]
      by_cases hlt : i < j
      · obtain ⟨d, rfl⟩ : ∃ d, j = i + 1 + d := ⟨j - (i + 1), by omega⟩
        rw [show i + 1 + d - (i + 1) = d by omega, show i + 1 + d - i = d + 1 by omega]
        have h1 : i + 1 ≤ i + 1 + d := by omega
        have h2 : i ≤ i + 1 + d := by omega
        simp [h1, h2]
      · have h1 : ¬ i + 1 ≤ j := by omega
        have h2 : ¬ i ≤ j := by omega
        simp [h1, h2]

theorem and_two_pow (n i : Nat) : n &&& 2 ^ i = if n.testBit i then 2 ^ i else 0 := by
  refine Nat.eq_of_testBit_eq fun j => ?_
  rw [Nat.testBit_and, Nat.testBit_two_pow]
  by_cases h : i = j
  · subst h
    cases hn : n.testBit i <;> simp
  · cases hn : n.testBit i <;> simp [h]

theorem add_eq_xor (a : Nat) : ∀ b, a &&& b = 0 → a + b = a ^^^ b := by
  induction a using Nat.strongRecOn with
  | _ a ih =>
    intro b h
    by_cases ha : a = 0
    · subst ha; simp
    · have h1 := ih (a / 2) (by omega) (b / 2) (by rw [← Nat.and_div_two, h])
      rw [← Nat.xor_div_two] at h1
      have h2 : (a &&& b).testBit 0 = false := by rw [h]; rfl
      rw [Nat.testBit_and] at h2
      have h3 : (a ^^^ b).testBit 0 = (a.testBit 0 ^^ b.testBit 0) := Nat.testBit_xor ..
      simp only [Nat.testBit_zero] at h3
      have h4 : (a ^^^ b) % 2 = (a % 2 + b % 2) % 2 := by
        rcases Nat.mod_two_eq_zero_or_one a with ha | ha <;> rcases Nat.mod_two_eq_zero_or_one b with hb | hb <;>
          rcases Nat.mod_two_eq_zero_or_one (a ^^^ b) with hc | hc <;> simp [ha, hb, hc] at h3 ⊢
      simp only [Nat.testBit_zero, Bool.and_eq_false_iff, decide_eq_false_iff_not] at h2
      omega

theorem getElem_toBitsLe (n i : Nat) (hi : i < (toBitsLe n).length) : (toBitsLe n)[i] = n.testBit i := by
  simp only [toBitsLe, List.getElem_map, List.getElem_range]
  rw [Nat.and_comm, and_two_pow]
  cases n.testBit i <;> simp

theorem lt_of_bits {n k : Nat} (hn : n < 2 ^ k) {j : Nat} (hj : k ≤ j) : n.testBit j = false :=
  Nat.testBit_lt_two_pow (Nat.lt_of_lt_of_le hn (Nat.pow_le_pow_right (by omega) hj))

theorem flipLe (n i : Nat) (hn : n < 2 ^ 8) (hi : i < 8) :
    fromBitsLe ((toBitsLe n).set i ((n.testBit i) ^^ true)) = n ^^^ 2 ^ i := by
  have hlen : (toBitsLe n).length = 8 := rfl
  refine Nat.eq_of_testBit_eq fun j => ?_
  rw [fromBitsLe, testBit_fromBitsLoop, Nat.testBit_xor, Nat.testBit_two_pow]
  simp only [Nat.zero_testBit, Nat.zero_le, decide_true, Bool.true_and, Bool.false_or, Nat.sub_zero]
  rw [List.getD_eq_getElem?_getD, List.getElem?_set]
  by_cases hij : i = j
  · subst hij
    simp [hlen, hi]
  · rw [if_neg hij]
    simp only [hij, decide_false, Bool.xor_false]
    by_cases hj : j < 8
    · rw [List.getElem?_eq_getElem (by rw [hlen]; exact hj), Option.getD_some, getElem_toBitsLe]
    · rw [List.getElem?_eq_none (by rw [hlen]; omega), lt_of_bits hn (by omega)]; rfl

theorem length_toBitsBe (bits n : Nat) : (toBitsBe bits n).length = bits := by simp [toBitsBe]

theorem getElem_toBitsBe (bits n i : Nat) (hi : i < (toBitsBe bits n).length) : (toBitsBe bits n)[i] = n.testBit (bits - 1 - i) := by
  rw [length_toBitsBe] at hi
  simp [toBitsBe]

theorem flipBe (bits n i : Nat) (hn : n < 2 ^ bits) (hi : i < bits) :
    fromBitsBe ((toBitsBe bits n).set i ((n.testBit (bits - 1 - i)) ^^ true)) = n ^^^ 2 ^ (bits - 1 - i) := by
  refine Nat.eq_of_testBit_eq fun j => ?_
  rw [testBit_fromBitsBe, Nat.testBit_xor, Nat.testBit_two_pow, List.getD_eq_getElem?_getD]
  by_cases hj : j < bits
  · rw [List.getElem?_reverse (by rw [List.length_set, length_toBitsBe]; exact hj), List.length_set, length_toBitsBe,
      List.getElem?_set, length_toBitsBe]
    by_cases hij : i = bits - 1 - j
    · have hji : bits - 1 - i = j := by omega
      rw [if_pos hij, if_pos hi, hji]
      simp
    · have hne : bits - 1 - i ≠ j := by omega
      rw [if_neg hij, List.getElem?_eq_getElem (by rw [length_toBitsBe]; omega), Option.getD_some, getElem_toBitsBe]
      simp only [hne, decide_false, Bool.xor_false]
      congr 1
      omega
  · have hne : bits - 1 - i ≠ j := by omega
    rw [List.getElem?_eq_none (by rw [List.length_reverse, List.length_set, length_toBitsBe]; omega), lt_of_bits hn (by omega)]
    simp [hne]

/-- A value is got by changing one of the bits, all with the same probability, and in no other way. -/
structure OneBit (d : Draw Nat) (bits n : Nat) : Prop where
  each : ∀ i < bits, prob d (n ^^^ 2 ^ i) = 1 / bits
  only : ∀ v, prob d v ≠ 0 → ∃ i < bits, v = n ^^^ 2 ^ i

theorem xor_inj {n i j : Nat} (h : n ^^^ 2 ^ i = n ^^^ 2 ^ j) : i = j := by
  have h2 : (2 : Nat) ^ i = 2 ^ j := by
    have := congrArg (n ^^^ ·) h
    simpa [← Nat.xor_assoc] using this
  exact Nat.pow_right_injective (le_refl 2) h2

theorem oneBit_of {d : Draw Nat} {bits n : Nat} (f : Fin bits → Fin bits) (hf : Function.Bijective f)
    (h : d = .upTo bits fun i => .done (n ^^^ 2 ^ (f i).val)) : OneBit d bits n := by
  subst h
  constructor
  · intro i hi
    obtain ⟨k, hk⟩ := hf.2 ⟨i, hi⟩
    simp only [prob]
    rw [Finset.sum_congr rfl (g := fun w => if w = k then (1 : ℚ) else 0) fun w _ => if_congr ?_ rfl rfl, Finset.sum_ite_eq',
      if_pos (Finset.mem_univ _)]
    constructor
    · intro h
      refine hf.1 (Fin.ext ?_)
      rw [hk]
      exact xor_inj h
    · rintro rfl
      rw [hk]
  · intro v hv
    by_contra hno
    refine hv ?_
    simp only [prob]
    rw [Finset.sum_eq_zero, zero_div]
    intro w _
    exact if_neg fun h => hno ⟨(f w).val, (f w).isLt, h.symm⟩

/-- **C138, fuzzing of bytes.** -/
theorem c138_fuzz_u8 (n : Nat) (hn : n < 2 ^ 8) : OneBit (fuzzU8 n) 8 n := by
  refine oneBit_of id Function.bijective_id ?_
  rw [fuzzU8, fuzzVec_det fuzzBool (· ^^ true) (toBitsLe n) (by simp [toBitsLe]) (fun _ => rfl)]
  simp only [Draw.map, Draw.bind]
  have h8 : (toBitsLe n).length = 8 := rfl
  refine congrArg (Draw.upTo 8) (funext fun i => congrArg Draw.done ?_)
  have := getElem_toBitsLe n i i.isLt
  simp only [Fin.getElem_fin, this]
  exact flipLe n i hn i.isLt

/-- **C138, fuzzing of big integers.** -/
theorem c138_fuzz_big (bits n : Nat) (hb : 0 < bits) (hn : n < 2 ^ bits) :
    OneBit (fuzzBig bits n) bits n ∧
    fuzzBig bits n = .upTo bits fun i => .done (n ^^^ 2 ^ (Fin.rev i).val) := by
  have key : fuzzBig bits n = .upTo bits fun i => .done (n ^^^ 2 ^ (Fin.rev i).val) := by
    have hne : toBitsBe bits n ≠ [] := fun h => by
      have := length_toBitsBe bits n
      rw [h] at this
      simp at this
      omega
    rw [fuzzBig, fuzzVec_det fuzzBool (· ^^ true) (toBitsBe bits n) hne (fun _ => rfl)]
    simp only [Draw.map, Draw.bind]
    have hfun : ∀ i : Fin (toBitsBe bits n).length, fromBitsBe ((toBitsBe bits n).set i ((toBitsBe bits n)[i] ^^ true)) =
        n ^^^ 2 ^ (bits - 1 - i.val) := by
      intro i
      have := getElem_toBitsBe bits n i i.isLt
      simp only [Fin.getElem_fin, this]
      exact flipBe bits n i hn (Nat.lt_of_lt_of_eq i.isLt (length_toBitsBe bits n))
    simp only [hfun]
    have gen : ∀ m, m = bits → Draw.upTo m (fun i : Fin m => Draw.done (n ^^^ 2 ^ (bits - 1 - i.val))) =
        Draw.upTo bits (fun i : Fin bits => Draw.done (n ^^^ 2 ^ (Fin.rev i).val)) := by
      rintro m rfl
      refine congrArg (Draw.upTo m) (funext fun i => congrArg Draw.done ?_)
      rw [Fin.val_rev]
      congr 2
      omega
    exact gen _ (length_toBitsBe bits n)
  exact ⟨oneBit_of Fin.rev Fin.rev_bijective key, key⟩

/-- **C138, fuzzing of vectors.** One position is chosen, each with the same probability, and the entry there is fuzzed; the
empty vector panics. -/
theorem c138_fuzz_vec {T : Type} [DecidableEq T] (fuzz : T → Draw T) (l : List T) :
    (l = [] → fuzzVec fuzz l = .panic) ∧
    (l ≠ [] → ∀ v, prob (fuzzVec fuzz l) v = (∑ i : Fin l.length, prob ((fuzz l[i]).map (l.set i ·)) v) / l.length) ∧
    (∀ v, prob (fuzzVec fuzz l) v ≠ 0 → ∃ i, ∃ _ : i < l.length, ∃ t, prob (fuzz l[i]) t ≠ 0 ∧ v = l.set i t) := by
  have hmain : l ≠ [] → ∀ v, prob (fuzzVec fuzz l) v = (∑ i : Fin l.length, prob ((fuzz l[i]).map (l.set i ·)) v) / l.length := by
    intro h v
    have hn : l.length ≠ 0 := fun h' => h (List.length_eq_zero_iff.1 h')
    simp only [fuzzVec, genRange, if_neg hn, Draw.bind, prob]
  refine ⟨fun h => by subst h; rfl, hmain, fun v hv => ?_⟩
  have hl : l ≠ [] := fun h => by subst h; exact hv rfl
  rw [hmain hl] at hv
  have : ∃ i : Fin l.length, prob ((fuzz l[i]).map (l.set i ·)) v ≠ 0 := by
    by_contra hno
    refine hv ?_
    rw [Finset.sum_eq_zero, zero_div]
    intro i _
    by_contra hi
    exact hno ⟨i, hi⟩
  obtain ⟨i, hi⟩ := this
  refine ⟨i, i.isLt, ?_⟩
  by_cases hex : ∃ t, v = l.set i t
  · obtain ⟨t, rfl⟩ := hex
    refine ⟨t, ?_, rfl⟩
    rw [prob_map (fuzz l[i]) (l.set i ·) _ t] at hi
    · exact hi
    · intro a
      refine ⟨fun h => ?_, fun h => by rw [h]⟩
      have := congrArg (·[i.val]?) h
      simpa using this
  · exact absurd (prob_map_zero _ _ _ fun a h => hex ⟨a, h.symm⟩) hi

/-- **C138, fuzzing of field elements.** For an odd modulus that fits, the result is an element of the field, and never the
element itself. -/
theorem c138_fuzz_field (bits p x : Nat) (hb : 0 < bits) (ho : p % 2 = 1) (hp : 1 < p) (hx : x < p) (hfit : p ≤ 2 ^ bits) :
    prob (fuzzField bits p x) x = 0 ∧
    (∀ v, prob (fuzzField bits p x) v ≠ 0 → v < p ∧ ∃ i < bits, v = (x ^^^ 2 ^ i) % p) ∧
    ∀ i < bits, 1 / bits ≤ prob (fuzzField bits p x) ((x ^^^ 2 ^ i) % p) := by
  have key : fuzzField bits p x = .upTo bits fun i => .done ((x ^^^ 2 ^ (Fin.rev i).val) % p) := by
    rw [fuzzField, (c138_fuzz_big bits x hb (Nat.lt_of_lt_of_le hx hfit)).2]
    rfl
  have hne : ∀ i, (x ^^^ 2 ^ i) % p ≠ x := by
    intro i h
    -- one bit more or less is a power of two more or less
    have hd : x ^^^ 2 ^ i = x + 2 ^ i ∨ x = (x ^^^ 2 ^ i) + 2 ^ i := by
      by_cases ht : x.testBit i
      · right
        have : (x ^^^ 2 ^ i) &&& 2 ^ i = 0 := by
          refine Nat.eq_of_testBit_eq fun j => ?_
          rw [Nat.testBit_and, Nat.testBit_xor, Nat.testBit_two_pow, Nat.zero_testBit]
          by_cases hj : i = j
          · subst hj; simp [ht]
          · simp [hj]
        rw [add_eq_xor _ _ this, Nat.xor_assoc, Nat.xor_self, Nat.xor_zero]
      · left
        have : x &&& 2 ^ i = 0 := by
          rw [and_two_pow]; simp [ht]
        rw [add_eq_xor _ _ this]
    have hcop : Nat.Coprime p (2 ^ i) := Nat.Coprime.pow_right i (by
      rw [Nat.coprime_comm, Nat.Coprime, Nat.gcd_rec, ho]; simp)
    have hdiv : p ∣ 2 ^ i := by
      rcases hd with hd | hd
      · rw [hd] at h
        have h' : (x + 2 ^ i) % p = x % p := by rw [h, Nat.mod_eq_of_lt hx]
        have := (Nat.modEq_iff_dvd' (Nat.le_add_right x (2 ^ i))).1 (show x ≡ x + 2 ^ i [MOD p] from h'.symm)
        simpa using this
      · have := Nat.two_pow_pos i
        have hlt : x ^^^ 2 ^ i < p := by omega
        rw [Nat.mod_eq_of_lt hlt] at h
        omega
    have := Nat.Coprime.eq_one_of_dvd hcop hdiv
    omega
  refine ⟨?_, fun v hv => ?_, fun i hi => ?_⟩
  · rw [key]
    simp only [prob]
    rw [Finset.sum_eq_zero, zero_div]
    intro i _
    exact if_neg (hne _)
  · rw [key] at hv
    by_contra hno
    refine hv ?_
    simp only [prob]
    rw [Finset.sum_eq_zero, zero_div]
    intro i _
    refine if_neg fun h => hno ⟨?_, (Fin.rev i).val, (Fin.rev i).isLt, h.symm⟩
    rw [← h]
    exact Nat.mod_lt _ (by omega)
  · rw [key]
    simp only [prob]
    refine div_le_div_of_nonneg_right ?_ (Nat.cast_nonneg _)
    have := Finset.single_le_sum (f := fun w : Fin bits => if (x ^^^ 2 ^ (Fin.rev w).val) % p = (x ^^^ 2 ^ i) % p then (1 : ℚ) else 0)
      (fun w _ => by split <;> simp) (Finset.mem_univ (Fin.rev ⟨i, hi⟩))
    simpa using this

/-- C138 is violated for field elements: "changes one bit of `self`" does not hold of the scalars of BN254.  Zero becomes, with
probability 1/256 at least, the remainder of `2^255`, which differs from zero in more than one bit. -/
theorem c138_fuzz_field_violated :
    ∃ v, 1 / 256 ≤ prob (fuzzField 256 21888242871839275222246405745257275088548364400416034343698204186575808495617 0) v ∧
      ∀ i, v ≠ 0 ^^^ 2 ^ i := by
  refine ⟨2 ^ 255 % 21888242871839275222246405745257275088548364400416034343698204186575808495617, ?_, fun i h => ?_⟩
  · have := (c138_fuzz_field 256 21888242871839275222246405745257275088548364400416034343698204186575808495617 0 (by decide)
      (by decide) (by decide) (by decide) (by decide)).2.2 255 (by decide)
    rw [Nat.zero_xor] at this
    exact this
  · rw [Nat.zero_xor] at h
    have h1 : (2 ^ i).testBit 0 = false := by rw [← h]; decide
    have h2 : (2 ^ i).testBit i = true := Nat.testBit_two_pow_self
    have h3 : ∀ j, (2 ^ i).testBit j = true → j = i := fun j hj => by
      rw [Nat.testBit_two_pow] at hj
      simpa using (of_decide_eq_true hj).symm
    have ha : (2 ^ i).testBit 252 = true := by rw [← h]; decide
    have hb : (2 ^ i).testBit 251 = true := by rw [← h]; decide
    have := h3 252 ha
    have := h3 251 hb
    omega

/-! ## Instances -/

/-- An array of two arrays of bytes. -/
example : prob (sampleArray (fun _ : Unit => sampleArray (fun _ : Unit => sampleUnsigned 8) 2 ()) 2 ()) [[1, 2], [255, 0]] =
    1 / 2 ^ 32 := by
  have h := (c138_array (s := fun _ : Unit => sampleArray (fun _ : Unit => sampleUnsigned 8) 2 ()) (d := ())
    (c138_array (s := fun _ : Unit => sampleUnsigned 8) (d := ()) (c138_unsigned (k := 8) (by decide)) 2) 2).on
    [[1, 2], [255, 0]] ⟨rfl, by decide⟩
  rw [h]
  norm_num

/-- A byte of four possible results. -/
example : prob (fuzzU8 0b1010) 0b1011 = 1 / 8 ∧ prob (fuzzU8 0b1010) 0b1000 = 1 / 8 ∧ prob (fuzzU8 0b1010) 0b1010 = 0 := by
  have h := c138_fuzz_u8 0b1010 (by decide)
  refine ⟨h.each 0 (by decide), h.each 1 (by decide), ?_⟩
  by_contra hne
  obtain ⟨i, hi, he⟩ := h.only _ hne
  have : ∀ i < 8, 0b1010 ≠ 0b1010 ^^^ 2 ^ i := by decide
  exact this i hi he

/-- An item that occurs twice among three. -/
example : prob (selectItem ["a", "b", "a"]) (some "a") = 2 / 3 := by
  rw [((c138_select ["a", "b", "a"]).2 (by simp)).2]
  norm_num [show List.count "a" ["a", "b", "a"] = 2 from by decide]

/-- A field of 7 elements: five becomes four, seven (which is zero) or one. -/
example : (5 ^^^ 2 ^ 0) % 7 = 4 ∧ (5 ^^^ 2 ^ 1) % 7 = 0 ∧ (5 ^^^ 2 ^ 2) % 7 = 1 ∧ prob (fuzzField 3 7 5) 5 = 0 :=
  ⟨by decide, by decide, by decide,
    (c138_fuzz_field 3 7 5 (by decide) (by decide) (by decide) (by decide) (by decide)).1⟩

end Verif.Rand
