/-!
# C117: round numbers, `manta-pay/src/crypto/poseidon/constants.rs`

The floating point formulas are evaluated exactly (`f32` is not modelled, except for the margin in `c117_float`; both agree
for widths below 200): `ceil x ≤ n` is `x ≤ n`, and
`0.43 * m + log2 w ≤ k` is `w ^ 100 * 2 ^ (43 * m) ≤ 2 ^ (100 * k)`. The cast of a negative number to `usize` is 0, so a
bound below zero always holds. Overflow of `usize` is excluded by a bound on the width.
-/

namespace Verif.Poseidon

set_option exponentiation.threshold 20000

/-! ## Model -/

/-- `Constants`, constants.rs:33-43. -/
structure Constants where
  width : Nat
  full : Nat
  part : Nat
deriving DecidableEq, Repr

/-- `StatisticalAttack`, constants.rs:179-192. -/
def statistical (width n m : Nat) : Nat := if m ≤ (n - 3) * (width + 1) then 6 else 10

/-- `InterpolationAttack`, constants.rs:194-205: `ceil (0.43 m + log2 w - rp) ≤ rf`. -/
def interpolationOk (full width part m : Nat) : Bool := width ^ 100 * 2 ^ (43 * m) ≤ 2 ^ (100 * (full + part))

/-- `GrobnerBasisFullPermutationAttack`, constants.rs:207-218: `ceil (0.21 n - rp) ≤ rf`. -/
def permutationOk (full part n : Nat) : Bool := 21 * n ≤ 100 * (full + part)

/-- `GrobnerBasisPartialSBoxAttack`, constants.rs:220-231: `ceil ((0.14 n - 1 - rp) / (w - 1)) ≤ rf`; for width 1 the
quotient is infinite, of the sign of the numerator. -/
def sboxOk (full width part n : Nat) : Bool := 14 * n ≤ 100 + 100 * part + 100 * full * (width - 1)

/-- `Full` and `is_secure`, constants.rs:174-176, 240-275: the maximum of the bounds is at most the number of full
rounds. -/
def isSecure (full width part n m : Nat) : Bool :=
  statistical width n m ≤ full && interpolationOk full width part m && permutationOk full part n &&
    sboxOk full width part n

/-- `are_secure`, constants.rs:144-152, for 255 bits and level 128. -/
def Constants.areSecure (c : Constants) : Bool := isSecure c.full c.width c.part 255 128

/-- `(1.075 * rp as f32).ceil() as usize`, constants.rs:80. -/
def margin (part : Nat) : Nat := (1075 * part + 999) / 1000

/-- The best constants so far and their number of S-boxes. -/
structure Best where
  full : Nat
  part : Nat
  count : Nat
deriving DecidableEq, Repr

/-- The update, constants.rs:81-88. -/
def Best.try (width : Nat) (b : Best) (full part : Nat) : Best :=
  if width * full + part < b.count ∨ (width * full + part = b.count ∧ full < b.full) then
    ⟨full, part, width * full + part⟩
  else b

/-- The inner loop, constants.rs:71-90: `full` is a variable of the outer loop, so it keeps growing by two with every
number of partial rounds that is secure. -/
def innerLoop (secure : Nat → Nat → Bool) (width : Nat) : List Nat → Nat → Best → Best
  | [], _, b => b
  | part :: ps, full, b =>
    if secure full part then innerLoop secure width ps (full + 2) (b.try width (full + 2) (margin part))
    else innerLoop secure width ps full b

/-- The outer loop over `(2..=1000).step_by(2)`; the inner one over `4..200`. -/
def outerLoop (secure : Nat → Nat → Bool) (width : Nat) : List Nat → Best → Best
  | [], b => b
  | full :: fs, b => outerLoop secure width fs (innerLoop secure width (List.range' 4 196) full b)

/-- `from_arity`, constants.rs:57-94. -/
def fromArity (arity : Nat) : Constants :=
  let w := arity + 1
  let b := outerLoop (fun f p => (Constants.mk w f p).areSecure) w (List.range' 2 500 2) ⟨0, 0, 2 ^ 64 - 1⟩
  ⟨w, b.full, b.part⟩

/-- `strengthened`, constants.rs:118-124. -/
def Constants.strengthened (c : Constants) : Constants := ⟨c.width, c.full, (5 * c.part + 3) / 4⟩

/-- `Spec<N>`, manta-pay/src/config/poseidon.rs:24-48, by arity. -/
def shipped : Nat → Option Constants
  | 2 => some ⟨3, 8, 55⟩
  | 3 => some ⟨4, 8, 55⟩
  | 4 => some ⟨5, 8, 56⟩
  | 5 => some ⟨6, 8, 56⟩
  | _ => none

/-! ## Specification -/

/-- The numbers of rounds that are searched. -/
def InRange (full part : Nat) : Prop := 2 ≤ full ∧ full ≤ 1000 ∧ full % 2 = 0 ∧ 4 ≤ part ∧ part < 200

/-- Number of S-boxes with the security margin added. -/
def cost (width full part : Nat) : Nat := width * (full + 2) + margin part

/-- `(full, part)` is secure and the cheapest choice, with the fewest full rounds among the cheapest. -/
def Cheapest (secure : Nat → Nat → Bool) (width full part : Nat) : Prop :=
  InRange full part ∧ secure full part = true ∧ ∀ f p, InRange f p → secure f p = true →
    cost width full part < cost width f p ∨ (cost width full part = cost width f p ∧ full ≤ f)

/-- More rounds are not less secure. -/
def Monotone (secure : Nat → Nat → Bool) : Prop :=
  ∀ f p f' p', f ≤ f' → p ≤ p' → secure f p = true → secure f' p' = true

/-! ## Helpers -/

theorem margin_mono {a b : Nat} (h : a ≤ b) : margin a ≤ margin b := by unfold margin; omega

theorem le_margin (a : Nat) : a ≤ margin a := by unfold margin; omega

/-- Lexicographic order on (count, full). -/
def Best.le (b : Best) (count full : Nat) : Prop := b.count < count ∨ (b.count = count ∧ b.full ≤ full)

theorem Best.try_le (w : Nat) (b : Best) (f p : Nat) : (b.try w f p).le (w * f + p) f := by
  unfold Best.try Best.le
  split
  · right; simp
  · rename_i h
    omega

theorem Best.try_mono (w : Nat) (b : Best) (f p : Nat) {c k : Nat} (h : b.le c k) : (b.try w f p).le c k := by
  unfold Best.try
  split
  · rename_i h'
    unfold Best.le at *
    simp only
    omega
  · exact h

theorem Best.try_eq (w : Nat) (b : Best) (f p : Nat) (h : b.le (w * f + p) f) : b.try w f p = b := by
  unfold Best.try
  rw [if_neg]
  unfold Best.le at h
  omega

/-- If the best so far is at least as good as everything that can still come, the inner loop keeps it. -/
theorem inner_keep (secure : Nat → Nat → Bool) (w : Nat) (ps : List Nat) (full : Nat) (b : Best)
    (h : ∀ p ∈ ps, b.le (w * (full + 2) + margin p) (full + 2)) : innerLoop secure w ps full b = b := by
  induction ps generalizing full with
  | nil => rfl
  | cons p ps ih =>
    have hp := h p (by simp)
    have up : ∀ q ∈ ps, b.le (w * (full + 2 + 2) + margin q) (full + 2 + 2) := by
      intro q hq
      have := h q (by simp [hq])
      have e : w * (full + 2 + 2) = w * (full + 2) + w * 2 := Nat.mul_add w (full + 2) 2
      unfold Best.le at *
      omega
    unfold innerLoop
    split
    · rw [Best.try_eq w b _ _ hp]
      exact ih (full + 2) up
    · exact ih full fun q hq => h q (by simp [hq])

/-- The inner loop on an increasing list tries exactly the first secure number of partial rounds. -/
theorem inner_first (secure : Nat → Nat → Bool) (w : Nat) (ps : List Nat) (hs : ps.Pairwise (· < ·)) (full : Nat)
    (b : Best) :
    innerLoop secure w ps full b =
      match ps.find? (secure full) with
      | none => b
      | some p => b.try w (full + 2) (margin p) := by
  induction ps generalizing b with
  | nil => rfl
  | cons p ps ih =>
    rw [List.pairwise_cons] at hs
    unfold innerLoop
    by_cases h : secure full p
    · rw [if_pos h, List.find?_cons_of_pos h]
      refine inner_keep _ _ _ _ _ fun q hq => ?_
      have hm := margin_mono (Nat.le_of_lt (hs.1 q hq))
      have ht := Best.try_le w b (full + 2) (margin p)
      have e : w * (full + 2 + 2) = w * (full + 2) + w * 2 := Nat.mul_add w (full + 2) 2
      unfold Best.le at *
      omega
    · rw [if_neg h, List.find?_cons_of_neg h]
      exact ih hs.2 b

/-- The candidate of one round of the outer loop. -/
def firstPart (secure : Nat → Nat → Bool) (full : Nat) : Option Nat := (List.range' 4 196).find? (secure full)

theorem firstPart_some {secure : Nat → Nat → Bool} {full p : Nat} (h : firstPart secure full = some p) :
    secure full p = true ∧ 4 ≤ p ∧ p < 200 := by
  unfold firstPart at h
  have h₁ := List.find?_some h
  have h₂ := List.mem_of_find?_eq_some h
  simp only [List.mem_range'_1] at h₂
  exact ⟨h₁, by omega, by omega⟩

theorem firstPart_least {secure : Nat → Nat → Bool} {full q : Nat} (hq : 4 ≤ q ∧ q < 200)
    (hs : secure full q = true) : ∃ p, firstPart secure full = some p ∧ p ≤ q := by
  unfold firstPart
  have hmem : q ∈ List.range' 4 196 := by simp only [List.mem_range'_1]; omega
  cases h : (List.range' 4 196).find? (secure full) with
  | none => exact absurd hs (by simpa using List.find?_eq_none.1 h q hmem)
  | some p =>
    refine ⟨p, rfl, ?_⟩
    obtain ⟨_, as, bs, e, hn⟩ := List.find?_eq_some_iff_append.1 h
    have hmem' := hmem
    rw [e] at hmem'
    rcases List.mem_append.1 hmem' with ha | hb
    · have := hn q ha; simp [hs] at this
    · rcases List.mem_cons.1 hb with rfl | hb
      · exact Nat.le_refl _
      · have hp : (List.range' 4 196).Pairwise (· < ·) := List.pairwise_lt_range' (s := 4) (n := 196) (step := 1)
        rw [e] at hp
        have := (List.pairwise_append.1 hp).2.1
        rw [List.pairwise_cons] at this
        exact Nat.le_of_lt (this.1 q hb)

theorem outer_le (secure : Nat → Nat → Bool) (w : Nat) (fs : List Nat) (b : Best) :
    (∀ c k, b.le c k → (outerLoop secure w fs b).le c k) ∧
    (∀ f ∈ fs, ∀ p, firstPart secure f = some p →
      (outerLoop secure w fs b).le (w * (f + 2) + margin p) (f + 2)) ∧
    (outerLoop secure w fs b = b ∨ ∃ f ∈ fs, ∃ p, firstPart secure f = some p ∧
      outerLoop secure w fs b = ⟨f + 2, margin p, w * (f + 2) + margin p⟩) := by
  induction fs generalizing b with
  | nil => exact ⟨fun _ _ h => h, (fun f hf => by cases hf), .inl rfl⟩
  | cons f fs ih =>
    have hinner := inner_first secure w (List.range' 4 196)
      (List.pairwise_lt_range' (s := 4) (n := 196) (step := 1)) f b
    change innerLoop secure w (List.range' 4 196) f b =
      (match firstPart secure f with | none => b | some p => b.try w (f + 2) (margin p)) at hinner
    simp only [outerLoop]
    rw [hinner]
    cases h : firstPart secure f with
    | none =>
      obtain ⟨i₁, i₂, i₃⟩ := ih b
      refine ⟨i₁, fun g hg p hp => ?_, ?_⟩
      · rcases List.mem_cons.1 hg with rfl | hg
        · simp [h] at hp
        · exact i₂ g hg p hp
      · rcases i₃ with e | ⟨g, hg, p, hp, e⟩
        · exact .inl e
        · exact .inr ⟨g, by simp [hg], p, hp, e⟩
    | some q =>
      obtain ⟨i₁, i₂, i₃⟩ := ih (b.try w (f + 2) (margin q))
      refine ⟨fun c k hc => i₁ c k (Best.try_mono _ _ _ _ hc), fun g hg p hp => ?_, ?_⟩
      · rcases List.mem_cons.1 hg with rfl | hg
        · rw [h] at hp; cases hp
          exact i₁ _ _ (Best.try_le _ _ _ _)
        · exact i₂ g hg p hp
      · rcases i₃ with e | ⟨g, hg, p, hp, e⟩
        · simp only at e ⊢
          rw [e]
          unfold Best.try
          split
          · exact .inr ⟨f, by simp, q, h, rfl⟩
          · exact .inl rfl
        · exact .inr ⟨g, by simp [hg], p, hp, e⟩

theorem mem_fulls {f : Nat} : f ∈ List.range' 2 500 2 ↔ 2 ≤ f ∧ f ≤ 1000 ∧ f % 2 = 0 := by
  rw [List.mem_range']
  constructor
  · rintro ⟨i, hi, rfl⟩; omega
  · rintro ⟨h₁, h₂, h₃⟩
    exact ⟨(f - 2) / 2, by omega, by omega⟩

theorem isSecure_mono {w n m : Nat} : Monotone fun f p => isSecure f w p n m := by
  intro f p f' p' hf hp h
  simp only [isSecure, Bool.and_eq_true, decide_eq_true_eq, interpolationOk, permutationOk, sboxOk] at h ⊢
  obtain ⟨⟨⟨h₁, h₂⟩, h₃⟩, h₄⟩ := h
  refine ⟨⟨⟨by omega, ?_⟩, by omega⟩, ?_⟩
  · exact Nat.le_trans h₂ (Nat.pow_le_pow_right (by omega) (by omega))
  · have : 100 * f * (w - 1) ≤ 100 * f' * (w - 1) := Nat.mul_le_mul_right _ (by omega)
    omega

/-! ## Properties -/

/-- The search finds the cheapest secure numbers of rounds and adds the margin, although its loop variable grows while it
runs; for every security condition, also one that is not monotone. If nothing in the range is secure, the result has no
rounds. -/
theorem c117_search (secure : Nat → Nat → Bool) {w : Nat} (hw : w * 1002 + 300 < 2 ^ 64) :
    (∀ f p, Cheapest secure w f p →
      outerLoop secure w (List.range' 2 500 2) ⟨0, 0, 2 ^ 64 - 1⟩ = ⟨f + 2, margin p, cost w f p⟩) ∧
    ((∃ f p, InRange f p ∧ secure f p = true) → ∃ f p, Cheapest secure w f p) ∧
    ((∀ f p, InRange f p → secure f p = false) →
      outerLoop secure w (List.range' 2 500 2) ⟨0, 0, 2 ^ 64 - 1⟩ = ⟨0, 0, 2 ^ 64 - 1⟩) := by
  obtain ⟨_, h₂, h₃⟩ := outer_le secure w (List.range' 2 500 2) ⟨0, 0, 2 ^ 64 - 1⟩
  generalize hr : outerLoop secure w (List.range' 2 500 2) ⟨0, 0, 2 ^ 64 - 1⟩ = r at *
  -- everything in the range is at least as bad as the result
  have worse : ∀ f p, InRange f p → secure f p = true → r.le (cost w f p) (f + 2) := by
    intro f p hin hs
    obtain ⟨q, hq, hle⟩ := firstPart_least ⟨hin.2.2.2.1, hin.2.2.2.2⟩ hs
    have := h₂ f (mem_fulls.2 ⟨hin.1, hin.2.1, hin.2.2.1⟩) q hq
    have hm := margin_mono hle
    unfold Best.le cost at *
    omega
  have bound : ∀ f p, InRange f p → cost w f p < 2 ^ 64 - 1 := by
    intro f p hin
    have h₁ : margin p ≤ 299 := by unfold margin InRange at *; omega
    have h₂ : w * (f + 2) ≤ w * 1002 := Nat.mul_le_mul_left _ (by unfold InRange at hin; omega)
    unfold cost
    omega
  have found : (∃ f p, InRange f p ∧ secure f p = true) → ∃ f p, InRange f p ∧ secure f p = true ∧
      r = ⟨f + 2, margin p, cost w f p⟩ := by
    rintro ⟨f, p, hin, hs⟩
    rcases h₃ with e | ⟨g, hg, q, hq, e⟩
    · have h := worse f p hin hs
      have hb := bound f p hin
      rw [e] at h
      unfold Best.le at h
      simp only at h
      omega
    · obtain ⟨a, b, c⟩ := firstPart_some hq
      have := mem_fulls.1 hg
      exact ⟨g, q, ⟨this.1, this.2.1, this.2.2, b, c⟩, a, e⟩
  refine ⟨fun f p hc => ?_, fun hex => ?_, fun hno => ?_⟩
  · obtain ⟨g, q, hin, hs, e⟩ := found ⟨f, p, hc.1, hc.2.1⟩
    have h₁ := worse f p hc.1 hc.2.1
    have h₂ := hc.2.2 g q hin hs
    rw [e] at h₁
    unfold Best.le at h₁
    simp only at h₁
    have hfg : f = g := by omega
    subst hfg
    have hcost : cost w f p = cost w f q := by omega
    have : margin q = margin p := by unfold cost at hcost; omega
    rw [e, hcost, this]
  · obtain ⟨g, q, hin, hs, e⟩ := found hex
    refine ⟨g, q, hin, hs, fun f p hin' hs' => ?_⟩
    have := worse f p hin' hs'
    rw [e] at this
    unfold Best.le at this
    simp only at this
    omega
  · rcases h₃ with e | ⟨g, hg, q, hq, e⟩
    · exact e
    · obtain ⟨a, b, c⟩ := firstPart_some hq
      have := mem_fulls.1 hg
      have := hno g q ⟨this.1, this.2.1, this.2.2, b, c⟩
      simp [a] at this

/-- Rounding up `55.04 + log2 w`: the number of rounds that resist interpolation. -/
def Level (w l : Nat) : Prop :=
  w ^ 100 * 2 ^ 5504 ≤ 2 ^ (100 * l) ∧ ∀ k, w ^ 100 * 2 ^ 5504 ≤ 2 ^ (100 * k) → l ≤ k

theorem level_ge {w l : Nat} (hw : 2 ≤ w) (h : w ^ 100 * 2 ^ 5504 ≤ 2 ^ (100 * l)) : 57 ≤ l := by
  have h₁ : 2 ^ 100 * 2 ^ 5504 ≤ w ^ 100 * 2 ^ 5504 := Nat.mul_le_mul_right _ (Nat.pow_le_pow_left hw 100)
  rw [← Nat.pow_add] at h₁
  have h₂ := (Nat.pow_le_pow_iff_right (a := 2) (by omega)).1 (Nat.le_trans h₁ h)
  omega

theorem level_le {w l : Nat} (hw : w < 2 ^ 54) (h : Level w l) : l ≤ 110 := by
  apply h.2
  have h₁ : w ^ 100 * 2 ^ 5504 ≤ (2 ^ 54) ^ 100 * 2 ^ 5504 :=
    Nat.mul_le_mul_right _ (Nat.pow_le_pow_left (Nat.le_of_lt hw) 100)
  rw [← Nat.pow_mul, ← Nat.pow_add] at h₁
  exact Nat.le_trans h₁ (Nat.pow_le_pow_right (by omega) (by omega))

/-- Which numbers of rounds are secure, for widths from 2. -/
theorem secure_iff {w l : Nat} (hw : 2 ≤ w) (hl : Level w l) (f p : Nat) :
    (Constants.mk w f p).areSecure = true ↔ 6 ≤ f ∧ l ≤ f + p := by
  have h6 : statistical w 255 128 = 6 := by unfold statistical; rw [if_pos]; omega
  have hl' := level_ge hw hl.1
  simp only [Constants.areSecure, isSecure, h6, Bool.and_eq_true, decide_eq_true_eq, interpolationOk, permutationOk,
    sboxOk]
  have e : 43 * 128 = 5504 := rfl
  rw [e]
  constructor
  · rintro ⟨⟨⟨a, b⟩, _⟩, _⟩; exact ⟨a, hl.2 _ b⟩
  · rintro ⟨a, b⟩
    have hf : 100 * f ≤ 100 * f * (w - 1) := Nat.le_mul_of_pos_right _ (by omega)
    refine ⟨⟨⟨a, Nat.le_trans hl.1 (Nat.pow_le_pow_right (by omega) (by omega))⟩, by omega⟩, by omega⟩

/-- The closed form of the result, for every arity from 1: eight full rounds, and the partial rounds that interpolation
needs besides six full ones, with 7.5 % added. -/
theorem c117_closed {arity l : Nat} (ha : 1 ≤ arity) (hb : arity + 1 < 2 ^ 53) (hl : Level (arity + 1) l) :
    fromArity arity = ⟨arity + 1, 8, margin (l - 6)⟩ := by
  have h₁ := level_ge (by omega) hl.1
  have h₂ := level_le (by omega) hl
  have hc : Cheapest (fun f p => (Constants.mk (arity + 1) f p).areSecure) (arity + 1) 6 (l - 6) := by
    refine ⟨⟨by omega, by omega, rfl, by omega, by omega⟩, (secure_iff (by omega) hl _ _).2 ⟨by omega, by omega⟩, ?_⟩
    intro f p hin hs
    obtain ⟨hf, hfp⟩ := (secure_iff (by omega) hl f p).1 hs
    obtain ⟨k, rfl⟩ : ∃ k, f = 6 + 2 * k := ⟨(f - 6) / 2, by unfold InRange at hin; omega⟩
    have hmul : (arity + 1) * (6 + 2 * k + 2) = (arity + 1) * 8 + 2 * ((arity + 1) * k) := by
      rw [show 6 + 2 * k + 2 = 8 + 2 * k by omega, Nat.mul_add, Nat.mul_left_comm]
    have hk : 2 * k ≤ (arity + 1) * k := Nat.mul_le_mul_right k (by omega)
    unfold cost margin
    rw [hmul]
    omega
  have := (c117_search (fun f p => (Constants.mk (arity + 1) f p).areSecure) (w := arity + 1) (by omega)).1 6 (l - 6) hc
  unfold fromArity
  simp only [this]

/-- The nearest multiple of `2 ^ s`, in case of doubt the even one, divided by `2 ^ s`. -/
def nearestEven (n s : Nat) : Nat :=
  let q := n / 2 ^ s
  let r := n % 2 ^ s
  if 2 * r < 2 ^ s then q else if 2 * r > 2 ^ s then q + 1 else q + q % 2

/-- The product of the `f32` nearest to 1.075, which is `9017754 / 2 ^ 23`, and a number of partial rounds in `f32`
arithmetic, in units of `2 ^ -23`: the exact product rounded to 24 significant bits. -/
def floatMargin (part : Nat) : Nat :=
  let s := (9017754 * part).log2 + 1 - 24
  nearestEven (9017754 * part) s * 2 ^ s

/-- For all numbers of partial rounds that the search tries, the multiplication in `f32` and rounding up gives the
number of the model: the error is never carried over an integer. At 40 and 160 the exact product of the `f32` numbers
lies between two `f32` numbers, one of them the integer, which is chosen for being even. -/
theorem c117_float (part : Nat) (h : part < 200) : (floatMargin part + (2 ^ 23 - 1)) / 2 ^ 23 = margin part := by
  have : ∀ p ∈ List.range 200, (floatMargin p + (2 ^ 23 - 1)) / 2 ^ 23 = margin p := by decide +kernel
  exact this part (List.mem_range.mpr h)

/-- The bounds against the two Gröbner basis attacks are the rounded up quotients of the code. -/
theorem c117_bounds (full width part n : Nat) (hw : 2 ≤ width) :
    (permutationOk full part n = true ↔ ((21 / 100 : Rat) * n - part).ceil ≤ full) ∧
    (sboxOk full width part n = true ↔ (((14 / 100 : Rat) * n - 1 - part) / (width - 1)).ceil ≤ full) := by
  refine ⟨?_, ?_⟩
  · rw [Rat.ceil_le_iff, permutationOk, decide_eq_true_eq, ← Rat.natCast_le_natCast, Rat.intCast_natCast]
    simp only [Rat.natCast_mul, Rat.natCast_add]
    grind
  · obtain ⟨v, rfl⟩ : ∃ v, width = v + 2 := ⟨width - 2, by omega⟩
    rw [Rat.ceil_le_iff, sboxOk, decide_eq_true_eq, ← Rat.natCast_le_natCast, Rat.intCast_natCast]
    have h0 : (0 : Rat) ≤ (v : Rat) := by exact_mod_cast Nat.zero_le v
    have hpos : (0 : Rat) < ((v + 2 : Nat) : Rat) - 1 := by rw [Rat.natCast_add]; grind
    have hd : ∀ x y : Rat, x / (((v + 2 : Nat) : Rat) - 1) ≤ y ↔ x ≤ y * (((v + 2 : Nat) : Rat) - 1) := by
      intro x y
      have hx : x / (((v + 2 : Nat) : Rat) - 1) * (((v + 2 : Nat) : Rat) - 1) = x :=
        Rat.div_mul_cancel (by grind)
      constructor
      · intro h
        have := Rat.mul_le_mul_of_nonneg_right h (Rat.le_of_lt hpos)
        rwa [hx] at this
      · intro h
        refine Rat.le_of_mul_le_mul_right ?_ hpos
        rwa [hx]
    rw [hd, show v + 2 - 1 = v + 1 from rfl]
    simp only [Rat.natCast_mul, Rat.natCast_add]
    grind

/-- The margin in numbers: the partial rounds are the least number that is at least 1.075 times those that interpolation needs. -/
theorem c117_margin {arity l : Nat} (ha : 1 ≤ arity) (hb : arity + 1 < 2 ^ 53) (hl : Level (arity + 1) l) :
    1075 * (l - 6) ≤ 1000 * (fromArity arity).part ∧ ∀ q, 1075 * (l - 6) ≤ 1000 * q → (fromArity arity).part ≤ q := by
  rw [c117_closed ha hb hl]
  simp only [margin]
  exact ⟨by omega, fun q hq => by omega⟩

/-- The result is secure, and so is the strengthened one, which has the same full rounds and a quarter more
partial ones, rounded up. -/
theorem c117_secure {arity : Nat} {l : Nat} (ha : 1 ≤ arity) (hb : arity + 1 < 2 ^ 53) (hl : Level (arity + 1) l) :
    (fromArity arity).areSecure = true ∧ (fromArity arity).strengthened.areSecure = true ∧
      (fromArity arity).strengthened.full = (fromArity arity).full ∧
      5 * (fromArity arity).part ≤ 4 * (fromArity arity).strengthened.part ∧
      4 * (fromArity arity).strengthened.part < 5 * (fromArity arity).part + 4 := by
  have h₁ := level_ge (by omega) hl.1
  have hm := le_margin (l - 6)
  rw [c117_closed ha hb hl]
  refine ⟨(secure_iff (by omega) hl _ _).2 ⟨by omega, by omega⟩,
    (secure_iff (by omega) hl _ _).2 ⟨by simp only; omega, ?_⟩, rfl, ?_, ?_⟩
  · simp only; omega
  · simp only [Constants.strengthened]; omega
  · simp only [Constants.strengthened]; omega

/-- Every width has a level, so the theorems apply to all arities. -/
theorem c117_level (w : Nat) : ∃ l, Level w l := by
  have hex : ∃ l, w ^ 100 * 2 ^ 5504 ≤ 2 ^ (100 * l) := by
    refine ⟨w + 56, ?_⟩
    have h₁ : w ^ 100 ≤ (2 ^ w) ^ 100 := Nat.pow_le_pow_left (Nat.le_of_lt Nat.lt_two_pow_self) 100
    have h₂ : w ^ 100 * 2 ^ 5504 ≤ (2 ^ w) ^ 100 * 2 ^ 5504 := Nat.mul_le_mul_right _ h₁
    rw [← Nat.pow_mul, ← Nat.pow_add] at h₂
    exact Nat.le_trans h₂ (Nat.pow_le_pow_right (by omega) (by omega))
  obtain ⟨l, hl⟩ := hex
  induction l using Nat.strongRecOn with
  | _ l ih =>
    by_cases h : ∃ k, k < l ∧ w ^ 100 * 2 ^ 5504 ≤ 2 ^ (100 * k)
    · obtain ⟨k, hk, hk'⟩ := h
      exact ih k hk hk'
    · exact ⟨l, hl, fun k hk => Nat.not_lt.1 fun hlt => h ⟨k, hlt, hk⟩⟩

theorem level_of {w l : Nat} (h₁ : w ^ 100 * 2 ^ 5504 ≤ 2 ^ (100 * l)) (h₂ : ¬ w ^ 100 * 2 ^ 5504 ≤ 2 ^ (100 * (l - 1)))
    (hpos : 0 < l) : Level w l := by
  refine ⟨h₁, fun k hk => Nat.not_lt.1 fun hlt => h₂ (Nat.le_trans hk (Nat.pow_le_pow_right (by omega) (by omega)))⟩

theorem level_3 : Level 3 57 := level_of (by decide +kernel) (by decide +kernel) (by omega)
theorem level_4 : Level 4 58 := level_of (by decide +kernel) (by decide +kernel) (by omega)
theorem level_5 : Level 5 58 := level_of (by decide +kernel) (by decide +kernel) (by omega)
theorem level_6 : Level 6 58 := level_of (by decide +kernel) (by decide +kernel) (by omega)

/-- The constants of the payment protocol are those the search recommends for arities 2, 4 and 5. -/
theorem c117_shipped_partial {arity : Nat} {c : Constants} (hs : shipped arity = some c) (h3 : arity ≠ 3) :
    c = fromArity arity ∧ c.areSecure = true := by
  unfold shipped at hs
  split at hs
  · cases hs
    have h := c117_closed (arity := 2) (by omega) (by omega) level_3
    exact ⟨h.symm, h ▸ (c117_secure (arity := 2) (by omega) (by omega) level_3).1⟩
  · exact absurd rfl h3
  · cases hs
    have h := c117_closed (arity := 4) (by omega) (by omega) level_5
    exact ⟨h.symm, h ▸ (c117_secure (arity := 4) (by omega) (by omega) level_5).1⟩
  · cases hs
    have h := c117_closed (arity := 5) (by omega) (by omega) level_6
    exact ⟨h.symm, h ▸ (c117_secure (arity := 5) (by omega) (by omega) level_6).1⟩
  · cases hs

/-- The gap: for arity 3 the protocol has one partial round less than the search recommends. The numbers meet the bare
security conditions, but lack the margin: whatever secure numbers of rounds one starts from, adding the margin gives more
S-boxes. -/
theorem c117_shipped_violated :
    shipped 3 = some ⟨4, 8, 55⟩ ∧ fromArity 3 = ⟨4, 8, 56⟩ ∧ (Constants.mk 4 8 55).areSecure = true ∧
      ∀ f p, InRange f p → (Constants.mk 4 f p).areSecure = true → 4 * 8 + 55 < cost 4 f p := by
  refine ⟨rfl, c117_closed (arity := 3) (by omega) (by omega) level_4,
    (secure_iff (by omega) level_4 _ _).2 ⟨by omega, by omega⟩, fun f p hin hs => ?_⟩
  obtain ⟨hf, hfp⟩ := (secure_iff (by omega) level_4 f p).1 hs
  unfold cost margin
  omega

/-! ## Instances -/

example : fromArity 15 = ⟨16, 8, 59⟩ :=
  c117_closed (arity := 15) (by omega) (by omega)
    (level_of (l := 60) (by decide +kernel) (by decide +kernel) (by omega))

example : fromArity 64 = ⟨65, 8, 61⟩ :=
  c117_closed (arity := 64) (by omega) (by omega)
    (level_of (l := 62) (by decide +kernel) (by decide +kernel) (by omega))

/-- A security condition with a cheapest choice that is not at the boundary of the range. -/
example : Cheapest (fun f p => decide (20 ≤ f + p)) 3 2 18 := by
  refine ⟨⟨by omega, by omega, rfl, by omega, by omega⟩, by decide, fun f p hin hs => ?_⟩
  have : 20 ≤ f + p := by simpa using hs
  unfold cost margin InRange at *
  omega

end Verif.Poseidon
