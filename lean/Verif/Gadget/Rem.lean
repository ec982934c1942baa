import Verif.Gadget.CsProps

/-!
# Reduction modulo another prime (C105)

`rem_mod_prime`, used natively for the viewing key (manta-pay/src/config/utxo.rs:533), and the gadget
`Rem<PrimeModulus<R>> for FpVar`, manta-crypto/src/arkworks/constraint/mod.rs:466-552.
-/

namespace Verif.Gadget

variable {p : Nat}

/-- `div_rem_mod_prime`, constraint/mod.rs:522-540: the quotient goes back to `F` through
`from_le_bytes_mod_order`, the remainder is an integer. -/
def divRemModPrime (r p v : Nat) : Nat × Nat := (v / r % p, v % r)

/-- The constraints of `enforce_cmp(.., Ordering::Less, false)` of ark-r1cs-std: both sides are at most
`(p - 1) / 2`, and the first is smaller. -/
def lessRow (a b : ZMod p) : Prop := a.val ≤ (p - 1) / 2 ∧ b.val ≤ (p - 1) / 2 ∧ a.val < b.val

/-- `Rem::rem`, constraint/mod.rs:481-517: two witnesses, `x = q * r + m`, and `m < r`. The values the honest
prover assigns are those of `div_rem_mod_prime`. -/
def gRem (r f : Field) (cs : Cs f.modulus) (x : Lc f.modulus) : Except Panic (Cs f.modulus × Lc f.modulus) :=
  if modulusIsSmaller r f then
    .ok (cs.ext 2
      [fun z => x z = z cs.next * (r.modulus : ZMod f.modulus) + z (cs.next + 1),
       fun z => lessRow (z (cs.next + 1)) (r.modulus : ZMod f.modulus)],
     fun z => z (cs.next + 1))
  else .error .modulus

/-- The assignment of the honest prover, constraint/mod.rs:487-507. -/
def honestRem (r f : Field) (cs : Cs f.modulus) (x : Lc f.modulus) (z : Asg f.modulus) : Asg f.modulus :=
  upd (upd z cs.next ((divRemModPrime r.modulus f.modulus (x z).val).1 : ZMod f.modulus)) (cs.next + 1)
    ((divRemModPrime r.modulus f.modulus (x z).val).2 : ZMod f.modulus)

/-- **C105** (native): the remainder of the canonical representative, a canonical scalar; the quotient is not
changed by the way back to the field. -/
theorem c105_native (r f : Field) (hr : r.Fits) (v : Nat) (hv : v < f.modulus) :
    remModPrime r v < r.modulus ∧ (∃ q, v = q * r.modulus + remModPrime r v) ∧
      divRemModPrime r.modulus f.modulus v = (v / r.modulus, remModPrime r v) := by
  have hr1 := hr.1
  refine ⟨Nat.mod_lt _ (by omega), ⟨v / r.modulus, ?_⟩, ?_⟩
  · show v = v / r.modulus * r.modulus + v % r.modulus
    rw [Nat.mul_comm]
    exact (Nat.div_add_mod v r.modulus).symm
  · show (v / r.modulus % f.modulus, v % r.modulus) = _
    rw [Nat.mod_eq_of_lt (Nat.lt_of_le_of_lt (Nat.div_le_self _ _) hv)]
    rfl

/-- The extended assignment satisfies the gadget when the two equations hold. -/
theorem gRem_sat (r f : Field) (hf : f.Fits) (hr : r.modulus ≤ (f.modulus - 1) / 2) (cs cs' : Cs f.modulus)
    (x y : Lc f.modulus) (h : gRem r f cs x = .ok (cs', y)) (hx : Scoped cs.next x)
    (hw : ∀ c ∈ cs.rows, Scoped cs.next c) (z : Asg f.modulus) (hs : cs.Sat z) (q : ZMod f.modulus) (m : Nat)
    (hm : m < r.modulus) (e : x z = q * (r.modulus : ZMod f.modulus) + (m : ZMod f.modulus)) :
    cs'.Sat (upd (upd z cs.next q) (cs.next + 1) (m : ZMod f.modulus)) ∧
      Agree cs.next z (upd (upd z cs.next q) (cs.next + 1) (m : ZMod f.modulus)) ∧
      (y (upd (upd z cs.next q) (cs.next + 1) (m : ZMod f.modulus))).val = m := by
  have hf1 := hf.1
  have : NeZero f.modulus := ⟨by omega⟩
  unfold gRem at h
  split at h
  · simp only [Except.ok.injEq, Prod.mk.injEq] at h
    obtain ⟨rfl, rfl⟩ := h
    have ag : Agree cs.next z (upd (upd z cs.next q) (cs.next + 1) (m : ZMod f.modulus)) :=
      (agree_upd z cs.next cs.next q (Nat.le_refl _)).trans (agree_upd _ cs.next (cs.next + 1) _ (by omega))
    have e0 : upd (upd z cs.next q) (cs.next + 1) (m : ZMod f.modulus) cs.next = q := by
      rw [upd_other _ _ (by omega), upd_same]
    have e1 : upd (upd z cs.next q) (cs.next + 1) (m : ZMod f.modulus) (cs.next + 1) = (m : ZMod f.modulus) :=
      upd_same _ _ _
    have hvr : ((r.modulus : Nat) : ZMod f.modulus).val = r.modulus := by
      rw [ZMod.val_natCast, Nat.mod_eq_of_lt (by omega)]
    have hvm : ((m : Nat) : ZMod f.modulus).val = m := by
      rw [ZMod.val_natCast, Nat.mod_eq_of_lt (by omega)]
    refine ⟨sat_ext.2 ⟨fun c hc => ?_, sat_agree hw ag hs⟩, ag, ?_⟩
    · simp only [List.mem_cons, List.not_mem_nil, or_false] at hc
      rcases hc with rfl | rfl
      · simp only [e0, e1, ← hx z _ ag]
        exact e
      · simp only [e1, lessRow, hvr, hvm]
        omega
    · show (upd (upd z cs.next q) (cs.next + 1) (m : ZMod f.modulus) (cs.next + 1)).val = m
      rw [e1, hvm]
  · cases h

/-- **C105** (honest prover): for a modulus of at most half the field the honest assignment satisfies the gadget, and
the result is the remainder that the native code computes. -/
theorem c105_honest (r f : Field) (hr : r.Fits) (hf : f.Fits) (hrf : r.modulus ≤ (f.modulus - 1) / 2)
    (cs : Cs f.modulus) (x : Lc f.modulus) (hx : Scoped cs.next x)
    (hw : ∀ c ∈ cs.rows, Scoped cs.next c) (z : Asg f.modulus) (hs : cs.Sat z) :
    ∃ cs' y, gRem r f cs x = .ok (cs', y) ∧ cs'.Sat (honestRem r f cs x z) ∧
      (y (honestRem r f cs x z)).val = remModPrime r (x z).val := by
  have hf1 := hf.1
  have : NeZero f.modulus := ⟨by omega⟩
  have hsm : modulusIsSmaller r f = true := (c103_modulus r f hr hf).2 (by omega)
  obtain ⟨cs', y, h⟩ : ∃ cs' y, gRem r f cs x = .ok (cs', y) := by
    unfold gRem
    rw [if_pos hsm]
    exact ⟨_, _, rfl⟩
  have hv : (x z).val < f.modulus := ZMod.val_lt _
  obtain ⟨h1, _, h3⟩ := c105_native r f hr (x z).val hv
  obtain ⟨g1, _, g3⟩ := gRem_sat r f hf hrf cs cs' x y h hx hw z hs
    ((divRemModPrime r.modulus f.modulus (x z).val).1 : ZMod f.modulus) (divRemModPrime r.modulus f.modulus (x z).val).2
    (by rw [h3]; exact h1) (by
      rw [h3]
      show x z = _
      have e : (x z).val = (x z).val / r.modulus * r.modulus + (x z).val % r.modulus := by
        rw [Nat.mul_comm]; exact (Nat.div_add_mod _ _).symm
      calc x z = (((x z).val : Nat) : ZMod f.modulus) := (ZMod.natCast_zmod_val _).symm
        _ = (((x z).val / r.modulus * r.modulus + (x z).val % r.modulus : Nat) : ZMod f.modulus) := by rw [← e]
        _ = _ := by rw [Nat.cast_add, Nat.cast_mul]; rfl)
  refine ⟨cs', y, h, g1, ?_⟩
  exact g3.trans (by rw [h3])

/-- **C105** (partial: only when the quotient is small enough): a satisfying assignment whose quotient does not make
`q * r + m` exceed the modulus gives the remainder. Missing: that the constraints force this. -/
theorem c105_sound_partial (r f : Field) (hf : f.Fits) (cs cs' : Cs f.modulus) (x y : Lc f.modulus)
    (h : gRem r f cs x = .ok (cs', y)) (z : Asg f.modulus) (hs : cs'.Sat z)
    (hrf : r.modulus < f.modulus) (hq : (z cs.next).val * r.modulus + (y z).val < f.modulus) :
    (y z).val = remModPrime r (x z).val := by
  have hf1 := hf.1
  have : NeZero f.modulus := ⟨by omega⟩
  unfold gRem at h
  split at h
  · simp only [Except.ok.injEq, Prod.mk.injEq] at h
    obtain ⟨rfl, rfl⟩ := h
    obtain ⟨h1, _⟩ := sat_ext.1 hs
    have e1 := h1 _ List.mem_cons_self
    have e2 := h1 _ (List.mem_cons_of_mem _ List.mem_cons_self)
    simp only [lessRow] at e2
    have hvr : ((r.modulus : Nat) : ZMod f.modulus).val = r.modulus := by
      rw [ZMod.val_natCast, Nat.mod_eq_of_lt hrf]
    rw [hvr] at e2
    simp only at hq ⊢
    have : (x z).val = (z cs.next).val * r.modulus + (z (cs.next + 1)).val := by
      have hmul : (z cs.next * (r.modulus : ZMod f.modulus)).val = (z cs.next).val * r.modulus := by
        rw [ZMod.val_mul, hvr, Nat.mod_eq_of_lt (by omega)]
      rw [e1, ZMod.val_add, hmul, Nat.mod_eq_of_lt hq]
    rw [remModPrime, this, Nat.mul_add_mod_self_right, Nat.mod_eq_of_lt e2.2.2]
  · cases h

/-- **C105** (any prover): the quotient is not bounded, so every number below the modulus is accepted as the
remainder of every value. -/
theorem c105_sound_violated (r f : Field) (hp : f.modulus.Prime) (hr : r.Fits) (hf : f.Fits)
    (hrf : r.modulus ≤ (f.modulus - 1) / 2) (cs : Cs f.modulus) (x : Lc f.modulus) (hx : Scoped cs.next x)
    (hw : ∀ c ∈ cs.rows, Scoped cs.next c) (z : Asg f.modulus) (hs : cs.Sat z) (m : Nat) (hm : m < r.modulus) :
    ∃ cs' y, gRem r f cs x = .ok (cs', y) ∧ ∃ z', Agree cs.next z z' ∧ cs'.Sat z' ∧ (y z').val = m := by
  have hf1 := hf.1
  have hr1 := hr.1
  have : Fact f.modulus.Prime := ⟨hp⟩
  have : NeZero f.modulus := ⟨by omega⟩
  have hsm : modulusIsSmaller r f = true := (c103_modulus r f hr hf).2 (by omega)
  obtain ⟨cs', y, h⟩ : ∃ cs' y, gRem r f cs x = .ok (cs', y) := by
    unfold gRem
    rw [if_pos hsm]
    exact ⟨_, _, rfl⟩
  have hne : (r.modulus : ZMod f.modulus) ≠ 0 := by
    intro c
    have := congrArg ZMod.val c
    rw [ZMod.val_natCast, Nat.mod_eq_of_lt (by omega), ZMod.val_zero] at this
    omega
  obtain ⟨g1, g2, g3⟩ := gRem_sat r f hf hrf cs cs' x y h hx hw z hs
    ((x z - (m : ZMod f.modulus)) * (r.modulus : ZMod f.modulus)⁻¹) m hm (by
      rw [mul_assoc, inv_mul_cancel₀ hne, mul_one, sub_add_cancel])
  exact ⟨cs', y, h, _, g2, g1, g3⟩

/-- **C105** (large moduli): when the modulus exceeds half the field, the gadget cannot be satisfied. -/
theorem c105_large (r f : Field) (hf : f.Fits) (hrf : r.modulus < f.modulus)
    (hbig : (f.modulus - 1) / 2 < r.modulus) (cs cs' : Cs f.modulus) (x y : Lc f.modulus)
    (h : gRem r f cs x = .ok (cs', y)) (z : Asg f.modulus) : ¬ cs'.Sat z := by
  have hf1 := hf.1
  have : NeZero f.modulus := ⟨by omega⟩
  intro hs
  unfold gRem at h
  split at h
  · simp only [Except.ok.injEq, Prod.mk.injEq] at h
    obtain ⟨rfl, rfl⟩ := h
    obtain ⟨h1, _⟩ := sat_ext.1 hs
    have e2 := h1 _ (List.mem_cons_of_mem _ List.mem_cons_self)
    simp only [lessRow] at e2
    have hvr : ((r.modulus : Nat) : ZMod f.modulus).val = r.modulus := by
      rw [ZMod.val_natCast, Nat.mod_eq_of_lt hrf]
    rw [hvr] at e2
    omega
  · cases h

/-! ## Examples -/

/-- In the field with 17 elements and modulo 5, the value 13 has the remainder 3, and the gadget also accepts 1. -/
example : ∃ (cs : Cs 17) (x : Lc 17) (z : Asg 17), cs.Sat z ∧ (x z).val = 13 ∧ remModPrime ⟨5, 1⟩ (x z).val = 3 ∧
    ∃ cs' y, gRem ⟨5, 1⟩ ⟨17, 1⟩ cs x = .ok (cs', y) ∧ ∃ z', x z' = x z ∧ cs'.Sat z' ∧ (y z').val = 1 := by
  refine ⟨⟨1, []⟩, fun z => z 0, fun _ => 13, fun c hc => by (cases hc), by decide, by decide, ?_⟩
  obtain ⟨cs', y, h, z', ag, hs, hv⟩ := c105_sound_violated ⟨5, 1⟩ ⟨17, 1⟩ (by decide +kernel) ⟨by decide, by decide⟩ ⟨by decide, by decide⟩ (by decide)
    ⟨1, []⟩ (fun z => z 0) (scoped_var (by decide)) (fun c hc => by cases hc) (fun _ => 13) (fun c hc => by cases hc) 1
    (by decide)
  exact ⟨cs', y, h, z', (ag 0 (by decide)).symm, hs, hv⟩

end Verif.Gadget
