import Mathlib.NumberTheory.LucasPrimality
import Mathlib.Algebra.BigOperators.Group.List.Basic
import Mathlib.Data.Nat.Prime.Basic
import Mathlib.Tactic.NormNum.Prime

/-!
# The order of BN254 is prime

The constraint field of manta-pay is the scalar field of BN254 (manta-pay/src/config/mod.rs:67). Its modulus is prime,
so the theorems about circuits over prime fields can be used for it. Pratt certificates, checked by the kernel.
-/

namespace Verif.Circuit

/-- Power modulo `m`, by squaring. -/
def powMod (m a : Nat) : Nat → Nat → Nat
  | 0, _ => 1 % m
  | f + 1, n => if n % 2 = 0 then powMod m a f (n / 2) ^ 2 % m else powMod m a f (n / 2) ^ 2 % m * a % m

theorem powMod_eq (m a : Nat) (f n : Nat) (h : n < 2 ^ f) : powMod m a f n = a ^ n % m := by
  induction f generalizing n with
  | zero =>
    have : n = 0 := by simpa using h
    simp [powMod, this]
  | succ f ih =>
    have e := ih (n / 2) (by rw [Nat.pow_succ] at h; omega)
    unfold powMod
    rw [e, ← Nat.pow_mod, ← Nat.pow_mul]
    split
    · congr 2
      omega
    · rw [Nat.mod_mul_mod, ← Nat.pow_succ]
      congr 2
      omega

/-- The certificate: `a` has order `n - 1` modulo `n`, whose prime factors are given. -/
def certified (n a f : Nat) (fs : List Nat) : Bool :=
  decide (1 < n) && decide (n - 1 < 2 ^ f) && decide (fs.foldr (· * ·) 1 = n - 1) &&
    decide (powMod n a f (n - 1) = 1) && fs.all fun q => decide (powMod n a f ((n - 1) / q) ≠ 1)

theorem mem_of_dvd {q : Nat} (hq : q.Prime) (fs : List Nat) (hp : ∀ x ∈ fs, x.Prime)
    (h : q ∣ fs.foldr (· * ·) 1) : q ∈ fs := by
  induction fs with
  | nil => exact absurd (Nat.dvd_one.1 h) hq.one_lt.ne'
  | cons x fs ih =>
    rcases (Nat.Prime.dvd_mul hq).1 h with h | h
    · rw [(Nat.prime_dvd_prime_iff_eq hq (hp x (by simp))).1 h]
      simp
    · exact List.mem_cons_of_mem _ (ih (fun y hy => hp y (by simp [hy])) h)

theorem prime_of_certified {n a f : Nat} {fs : List Nat} (hp : ∀ x ∈ fs, x.Prime) (h : certified n a f fs = true) :
    n.Prime := by
  simp only [certified, Bool.and_eq_true, decide_eq_true_eq, List.all_eq_true] at h
  obtain ⟨⟨⟨⟨h1, hf⟩, hm⟩, h2⟩, h3⟩ := h
  have key : ∀ k, k < 2 ^ f → ((a : ZMod n) ^ k = 1 ↔ powMod n a f k = 1) := by
    intro k hk
    rw [powMod_eq n a f k hk, ← Nat.cast_pow]
    have : (1 : ZMod n) = ((1 : Nat) : ZMod n) := by simp
    rw [this, ZMod.natCast_eq_natCast_iff', Nat.mod_eq_of_lt h1]
  refine lucas_primality n (a : ZMod n) ((key _ hf).2 h2) fun q hq hd => ?_
  rw [Ne, key _ (Nat.lt_of_le_of_lt (Nat.div_le_self _ _) hf)]
  exact h3 q (mem_of_dvd hq fs hp (by rw [hm]; exact hd))

theorem prime1 : (405928799 : Nat).Prime := by
  refine prime_of_certified (a := 22) (f := 29) (fs := [2, 11, 3691, 4999]) ?_ (by decide +kernel)
  simp only [List.mem_cons, List.not_mem_nil, or_false]
  rintro x (rfl | rfl | rfl | rfl)
  · norm_num
  · norm_num
  · norm_num
  · norm_num

theorem prime2 : (12048837557 : Nat).Prime := by
  refine prime_of_certified (a := 2) (f := 34) (fs := [2, 2, 7, 7, 661, 93001]) ?_ (by decide +kernel)
  simp only [List.mem_cons, List.not_mem_nil, or_false]
  rintro x (rfl | rfl | rfl | rfl | rfl | rfl)
  · norm_num
  · norm_num
  · norm_num
  · norm_num
  · norm_num
  · norm_num

theorem prime3 : (5156902474397 : Nat).Prime := by
  refine prime_of_certified (a := 2) (f := 43) (fs := [2, 2, 107, 12048837557]) ?_ (by decide +kernel)
  simp only [List.mem_cons, List.not_mem_nil, or_false]
  rintro x (rfl | rfl | rfl | rfl)
  · norm_num
  · norm_num
  · norm_num
  · exact prime2

theorem prime4 : (1670836401704629 : Nat).Prime := by
  refine prime_of_certified (a := 2) (f := 51) (fs := [2, 2, 3, 3, 3, 3, 5156902474397]) ?_ (by decide +kernel)
  simp only [List.mem_cons, List.not_mem_nil, or_false]
  rintro x (rfl | rfl | rfl | rfl | rfl | rfl | rfl)
  · norm_num
  · norm_num
  · norm_num
  · norm_num
  · norm_num
  · norm_num
  · exact prime3

theorem prime5 : (639533339 : Nat).Prime := by
  refine prime_of_certified (a := 2) (f := 30) (fs := [2, 229, 853, 1637]) ?_ (by decide +kernel)
  simp only [List.mem_cons, List.not_mem_nil, or_false]
  rintro x (rfl | rfl | rfl | rfl)
  · norm_num
  · norm_num
  · norm_num
  · norm_num

theorem prime6 : (65865678001877903 : Nat).Prime := by
  refine prime_of_certified (a := 5) (f := 56) (fs := [2, 83, 379, 1637, 639533339]) ?_ (by decide +kernel)
  simp only [List.mem_cons, List.not_mem_nil, or_false]
  rintro x (rfl | rfl | rfl | rfl | rfl)
  · norm_num
  · norm_num
  · norm_num
  · norm_num
  · exact prime5

theorem prime7 : (13818364434197438864469338081 : Nat).Prime := by
  refine prime_of_certified (a := 3) (f := 94) (fs := [2, 2, 2, 2, 2, 5, 823, 1593227, 65865678001877903]) ?_ (by decide +kernel)
  simp only [List.mem_cons, List.not_mem_nil, or_false]
  rintro x (rfl | rfl | rfl | rfl | rfl | rfl | rfl | rfl | rfl)
  · norm_num
  · norm_num
  · norm_num
  · norm_num
  · norm_num
  · norm_num
  · norm_num
  · norm_num
  · exact prime6

/-- The order of BN254. -/
def bn254 : Nat := 21888242871839275222246405745257275088548364400416034343698204186575808495617

theorem bn254_prime : bn254.Prime := by
  refine prime_of_certified (a := 5) (f := 254) (fs := List.replicate 28 2 ++
      [3, 3, 13, 29, 983, 11003, 237073, 405928799, 1670836401704629, 13818364434197438864469338081]) ?_ (by decide +kernel)
  simp only [List.mem_append, List.mem_replicate, List.mem_cons, List.not_mem_nil, or_false]
  rintro x (⟨_, rfl⟩ | rfl | rfl | rfl | rfl | rfl | rfl | rfl | rfl | rfl | rfl)
  · norm_num
  · norm_num
  · norm_num
  · norm_num
  · norm_num
  · norm_num
  · norm_num
  · norm_num
  · exact prime1
  · exact prime4
  · exact prime7

instance : Fact bn254.Prime := ⟨bn254_prime⟩

end Verif.Circuit
