import Mathlib.Tactic.Ring
import Mathlib.Tactic.LinearCombination
import Verif.Gadget.Cs
import Verif.Gadget.WindowProps

/-!
# Circuits over unsigned integers compute with natural numbers (C104)
-/

namespace Verif.Gadget

variable {p : Nat}

/-! ## Constraint systems -/

/-- Depends only on the first `n` variables. -/
def Scoped {α : Sort u} (n : Nat) (f : Asg p → α) : Prop := ∀ z z' : Asg p, (∀ i < n, z i = z' i) → f z = f z'

theorem Scoped.mono {α : Sort u} {n m : Nat} {f : Asg p → α} (h : Scoped n f) (hm : n ≤ m) : Scoped m f :=
  fun z z' e => h z z' fun i hi => e i (by omega)

theorem scoped_var {n k : Nat} (h : k < n) : Scoped n (fun z : Asg p => z k) := fun _ _ e => e k h

/-- The constraints and registers use allocated variables only. -/
structure WF (cs : Cs p) (r : Regs p) : Prop where
  rows : ∀ c ∈ cs.rows, Scoped cs.next c
  ints : ∀ x ∈ r.ints, Scoped cs.next x
  bools : ∀ x ∈ r.bools, Scoped cs.next x

theorem sat_ext {cs : Cs p} {k : Nat} {rows : List (Asg p → Prop)} {z : Asg p} :
    (cs.ext k rows).Sat z ↔ (∀ c ∈ rows, c z) ∧ cs.Sat z := by
  simp [Cs.Sat, Cs.ext, or_imp, forall_and]

/-- Agreement on the variables below `n`. -/
def Agree (n : Nat) (z z' : Asg p) : Prop := ∀ i < n, z i = z' i

theorem sat_agree {cs : Cs p} (h : ∀ c ∈ cs.rows, Scoped cs.next c) {z z' : Asg p} (e : Agree cs.next z z')
    (hs : cs.Sat z) : cs.Sat z' := fun c hc => (h c hc z z' e) ▸ hs c hc

theorem reads_agree [NeZero p] {cs : Cs p} {r : Regs p} (w : WF cs r) {z z' : Asg p} (e : Agree cs.next z z') {s : Ideal}
    (h : Reads r z s) : Reads r z' s := by
  refine ⟨?_, ?_⟩
  · rw [← h.1]
    exact List.map_congr_left fun x hx => by rw [w.ints x hx z z' e]
  · rw [← h.2]
    exact List.map_congr_left fun x hx => by rw [w.bools x hx z z' e]

/-- Changes one variable. -/
def upd (z : Asg p) (k : Nat) (v : ZMod p) : Asg p := fun i => if i = k then v else z i

theorem agree_upd (z : Asg p) (n k : Nat) (v : ZMod p) (h : n ≤ k) : Agree n z (upd z k v) := by
  intro i hi
  simp [upd, show i ≠ k by omega]

@[simp] theorem upd_same (z : Asg p) (k : Nat) (v : ZMod p) : upd z k v k = v := by simp [upd]

theorem upd_other (z : Asg p) {k i : Nat} (v : ZMod p) (h : i ≠ k) : upd z k v i = z i := by simp [upd, h]

theorem Agree.trans {n : Nat} {a b c : Asg p} (h : Agree n a b) (g : Agree n b c) : Agree n a c :=
  fun i hi => (h i hi).trans (g i hi)

/-! ## Bits in the field -/

/-- A bit as field element. -/
def fbit (b : Bool) : ZMod p := if b then 1 else 0

theorem bit_cases [Fact p.Prime] {x : ZMod p} (h : x * (1 - x) = 0) : ∃ b : Bool, x = fbit b := by
  rcases mul_eq_zero.1 h with h | h
  · exact ⟨false, h⟩
  · exact ⟨true, (sub_eq_zero.1 h).symm⟩

theorem fbit_inj [Fact p.Prime] {a b : Bool} (h : (fbit a : ZMod p) = fbit b) : a = b := by
  cases a <;> cases b <;> simp [fbit] at h <;> rfl

/-- The variables from `k` on carry bits. -/
theorem pack_bits [Fact p.Prime] (z : Asg p) (k n : Nat) (h : ∀ i < n, z (k + i) * (1 - z (k + i)) = 0) :
    ∃ bs : List Bool, bs.length = n ∧ (∀ i < n, ∃ b, bs[i]? = some b ∧ z (k + i) = fbit b) ∧
      packAt z k n = (leValue bs : ZMod p) := by
  induction n generalizing k with
  | zero => exact ⟨[], rfl, fun i hi => by omega, by simp [packAt, leValue]⟩
  | succ n ih =>
    obtain ⟨b, hb⟩ := bit_cases (h 0 (by omega))
    obtain ⟨bs, h1, h2, h3⟩ := ih (k + 1) fun i hi => by
      have := h (i + 1) (by omega)
      rwa [show k + (i + 1) = k + 1 + i by omega] at this
    refine ⟨b :: bs, by simp [h1], fun i hi => ?_, ?_⟩
    · cases i with
      | zero => exact ⟨b, rfl, hb⟩
      | succ i =>
        obtain ⟨c, hc, hz⟩ := h2 i (by omega)
        exact ⟨c, by simpa using hc, by rw [show k + (i + 1) = k + 1 + i by omega]; exact hz⟩
    · rw [packAt, h3, leValue]
      rw [Nat.add_zero] at hb
      rw [hb]
      cases b <;> simp [fbit]

theorem leValue_zeros (bs : List Bool) (m : Nat) (h : ∀ i, m ≤ i → i < bs.length → bs[i]? = some false) :
    leValue bs < 2 ^ m := by
  induction bs generalizing m with
  | nil => simp [leValue]
  | cons b bs ih =>
    cases m with
    | zero =>
      have hb := h 0 (by omega) (by simp)
      have := ih 0 fun i _ hi => by
        have := h (i + 1) (by omega) (by simpa using hi)
        simpa using this
      simp only [List.getElem?_cons_zero, Option.some.injEq] at hb
      simp only [leValue, hb, Bool.toNat_false]
      simp at this ⊢
      omega
    | succ m =>
      have := ih m fun i h1 hi => by
        have := h (i + 1) (by omega) (by simpa using hi)
        simpa using this
      have hb : b.toNat ≤ 1 := by cases b <;> simp
      simp only [leValue, Nat.pow_succ]
      omega

theorem two_pow_lt_of_bits {m : Nat} (hp : 0 < p) (h : m < numBits p) : 2 ^ m ≤ p := by
  unfold numBits at h
  rw [if_neg (by omega)] at h
  exact (Nat.le_log2 (by omega)).1 (by omega)

theorem lt_two_pow_numBits (hp : 0 < p) : p < 2 ^ numBits p := by
  unfold numBits
  rw [if_neg (by omega)]
  exact Nat.lt_log2_self

/-- Whatever the values of the bit variables: a satisfied range assertion bounds the value. -/
theorem assertRange_sound [Fact p.Prime] (A : Ark p) (bits : Nat) (cs cs' : Cs p) (v : Lc p)
    (h : assertRange A bits cs v = .ok cs') (z : Asg p) (hs : cs'.Sat z) : cs.Sat z ∧ (v z).val < 2 ^ bits := by
  have hp0 : 0 < p := (Fact.out : p.Prime).pos
  unfold assertRange at h
  by_cases hb : bits < numBits p
  · rw [if_pos hb] at h
    injection h with h
    subst h
    obtain ⟨h1, h2⟩ := sat_ext.1 hs
    refine ⟨h2, ?_⟩
    have hbits : ∀ i < numBits p, z (cs.next + i) * (1 - z (cs.next + i)) = 0 := by
      intro i hi
      exact h1 (fun z => z (cs.next + i) * (1 - z (cs.next + i)) = 0)
        (List.mem_append_left _ (List.mem_append_left _ (List.mem_map.2 ⟨i, by simp [hi], rfl⟩)))
    have hpack : packAt z cs.next (numBits p) = v z :=
      h1 (fun z => packAt z cs.next (numBits p) = v z)
        (List.mem_append_left _ (List.mem_append_right _ (by simp)))
    have hzero : ∀ i, bits ≤ i → i < numBits p → z (cs.next + i) = 0 := by
      intro i h3 h4
      refine h1 (fun z => z (cs.next + i) = 0) (List.mem_append_right _ (List.mem_map.2 ⟨i, ?_, rfl⟩))
      rw [List.mem_drop_iff_getElem]
      exact ⟨i - bits, by simp; omega, by simp; omega⟩
    obtain ⟨bs, hl, hbs, hv⟩ := pack_bits z cs.next (numBits p) hbits
    have hlt : leValue bs < 2 ^ bits := by
      apply leValue_zeros
      intro i h3 h4
      obtain ⟨b, hb1, hb2⟩ := hbs i (by omega)
      rw [hzero i h3 (by omega)] at hb2
      have : (fbit false : ZMod p) = fbit b := hb2
      rw [hb1, ← fbit_inj this]
    rw [← hpack, hv, ZMod.val_natCast, Nat.mod_eq_of_lt (Nat.lt_of_lt_of_le hlt (two_pow_lt_of_bits hp0 hb))]
    exact hlt
  · rw [if_neg hb] at h
    cases h

/-- Writes bits into the variables from `k` on. -/
def writeBits (z : Asg p) (k : Nat) (bs : List Bool) : Asg p :=
  fun i => if k ≤ i then match bs[i - k]? with | some b => fbit b | none => z i else z i

theorem agree_writeBits (z : Asg p) (k : Nat) (bs : List Bool) : Agree k z (writeBits z k bs) := by
  intro i hi
  simp [writeBits, show ¬ k ≤ i by omega]

theorem writeBits_at (z : Asg p) (k i : Nat) (bs : List Bool) (b : Bool) (h : bs[i]? = some b) :
    writeBits z k bs (k + i) = fbit b := by
  simp [writeBits, h]

theorem packAt_bits (z : Asg p) (k : Nat) (bs : List Bool) (h : ∀ i b, bs[i]? = some b → z (k + i) = fbit b) :
    packAt z k bs.length = (leValue bs : ZMod p) := by
  induction bs generalizing k with
  | nil => simp [packAt, leValue]
  | cons b bs ih =>
    rw [List.length_cons, packAt, leValue, ih (k + 1)]
    · have := h 0 b rfl
      rw [Nat.add_zero] at this
      rw [this]
      cases b <;> simp [fbit]
    · intro i c hc
      rw [show k + 1 + i = k + (i + 1) by omega]
      exact h (i + 1) c (by simpa using hc)

theorem getElem?_bitsLe (n v i : Nat) (h : i < n) : (bitsLe n v)[i]? = some (decide (v / 2 ^ i % 2 = 1)) := by
  induction n generalizing v i with
  | zero => omega
  | succ n ih =>
    cases i with
    | zero => simp [bitsLe]
    | succ i =>
      rw [bitsLe, List.getElem?_cons_succ, ih _ _ (by omega), Nat.div_div_eq_div_mul, Nat.pow_succ, Nat.mul_comm 2]

theorem assertRange_complete [Fact p.Prime] (A : Ark p) (bits : Nat) (cs cs' : Cs p) (v : Lc p)
    (h : assertRange A bits cs v = .ok cs') (hv : Scoped cs.next v) (hw : ∀ c ∈ cs.rows, Scoped cs.next c)
    (z : Asg p) (hs : cs.Sat z) (hlt : (v z).val < 2 ^ bits) :
    ∃ z', Agree cs.next z z' ∧ cs'.Sat z' := by
  have hp0 : 0 < p := (Fact.out : p.Prime).pos
  have : NeZero p := ⟨by omega⟩
  unfold assertRange at h
  by_cases hb : bits < numBits p
  · rw [if_pos hb] at h
    injection h with h
    subst h
    let bs := bitsLe (numBits p) (v z).val
    have hl : bs.length = numBits p := length_bitsLe _ _
    have ag := agree_writeBits z cs.next bs
    have hat : ∀ i b, bs[i]? = some b → writeBits z cs.next bs (cs.next + i) = fbit b :=
      fun i b hi => writeBits_at z cs.next i bs b hi
    refine ⟨writeBits z cs.next bs, ag, sat_ext.2 ⟨?_, sat_agree hw ag hs⟩⟩
    have hval : (v z).val < 2 ^ numBits p := Nat.lt_trans (ZMod.val_lt _) (lt_two_pow_numBits hp0)
    intro c hc
    rcases List.mem_append.1 hc with hc | hc
    · rcases List.mem_append.1 hc with hc | hc
      · obtain ⟨i, hi, rfl⟩ := List.mem_map.1 hc
        have hi : i < numBits p := List.mem_range.1 hi
        have := hat i _ (getElem?_bitsLe _ _ i hi)
        simp only [this]
        cases decide ((v z).val / 2 ^ i % 2 = 1) <;> simp [fbit]
      · simp only [List.mem_cons, List.not_mem_nil, or_false] at hc
        rcases hc with rfl | rfl
        · show packAt _ _ _ = _
          rw [← hl, packAt_bits _ _ bs hat, leValue_bitsLe, Nat.mod_eq_of_lt hval, ← hv z _ ag]
          exact ZMod.natCast_zmod_val (v z)
        · show A.inField _
          have := A.canonical (v z).val (ZMod.val_lt _)
          convert this using 1
          apply List.ext_getElem?
          intro i
          by_cases hi : i < numBits p
          · have e := getElem?_bitsLe (numBits p) (v z).val i hi
            rw [List.getElem?_map, List.getElem?_map, List.getElem?_range hi, e]
            simp only [Option.map_some, Option.some.injEq]
            exact hat i _ e
          · rw [List.getElem?_eq_none (by simp; omega), List.getElem?_eq_none (by simp [length_bitsLe]; omega)]
    · obtain ⟨i, hi, rfl⟩ := List.mem_map.1 hc
      rw [List.mem_drop_iff_getElem] at hi
      obtain ⟨j, hj, rfl⟩ := hi
      simp only [List.getElem_range, List.length_range] at hj ⊢
      rw [hat (bits + j) _ (getElem?_bitsLe _ _ (bits + j) (by omega))]
      rw [Nat.div_eq_of_lt (Nat.lt_of_lt_of_le hlt (Nat.pow_le_pow_right (by omega) (by omega)))]
      simp [fbit]
  · rw [if_neg hb] at h
    cases h

theorem packAt_congr (k n m : Nat) (h : k + n ≤ m) (z z' : Asg p) (e : ∀ i < m, z i = z' i) :
    packAt z k n = packAt z' k n := by
  induction n generalizing k with
  | zero => rfl
  | succ n ih =>
    show z k + 2 * packAt z (k + 1) n = z' k + 2 * packAt z' (k + 1) n
    rw [e k (by omega), ih (k + 1) (by omega)]

theorem assertRange_scoped (A : Ark p) (bits : Nat) (cs cs' : Cs p) (v : Lc p)
    (h : assertRange A bits cs v = .ok cs') (hv : Scoped cs.next v) (hw : ∀ c ∈ cs.rows, Scoped cs.next c) :
    cs.next ≤ cs'.next ∧ ∀ c ∈ cs'.rows, Scoped cs'.next c := by
  unfold assertRange at h
  by_cases hb : bits < numBits p
  · rw [if_pos hb] at h
    injection h with h
    subst h
    refine ⟨Nat.le_add_right _ _, fun c hc => ?_⟩
    show Scoped (cs.next + numBits p) c
    rcases List.mem_append.1 hc with hc | hc
    · rcases List.mem_append.1 hc with hc | hc
      · rcases List.mem_append.1 hc with hc | hc
        · obtain ⟨i, hi, rfl⟩ := List.mem_map.1 hc
          have hi : i < numBits p := List.mem_range.1 hi
          intro z z' e
          simp only
          rw [e (cs.next + i) (by omega)]
        · simp only [List.mem_cons, List.not_mem_nil, or_false] at hc
          rcases hc with rfl | rfl
          · intro z z' e
            show (_ = _) = (_ = _)
            rw [packAt_congr cs.next (numBits p) _ (Nat.le_refl _) z z' e, (hv.mono (Nat.le_add_right _ _)) z z' e]
          · intro z z' e
            show A.inField _ = A.inField _
            congr 1
            refine List.map_congr_left fun i hi => e _ ?_
            have := List.mem_range.1 hi
            omega
      · obtain ⟨i, hi, rfl⟩ := List.mem_map.1 hc
        have hi : i < numBits p := List.mem_range.1 (List.mem_of_mem_drop hi)
        intro z z' e
        simp only
        rw [e (cs.next + i) (by omega)]
    · exact (hw c hc).mono (Nat.le_add_right _ _)
  · rw [if_neg hb] at h
    cases h

/-! ## One call -/

/-- All integers of the computation fit. -/
def Ideal.Bounded (bits : Nat) (s : Ideal) : Prop := ∀ v ∈ s.ints, v < 2 ^ bits

section
variable [Fact p.Prime]

local instance : NeZero p := ⟨(Fact.out : p.Prime).pos.ne'⟩

theorem Reads.int {r : Regs p} {z : Asg p} {s : Ideal} (h : Reads r z s) {i : Nat} {x : Lc p}
    (hx : r.ints[i]? = some x) : s.ints[i]? = some (x z).val := by
  rw [← h.1, List.getElem?_map, hx]
  rfl

theorem Reads.bool {r : Regs p} {z : Asg p} {s : Ideal} (h : Reads r z s) {i : Nat} {x : Lc p}
    (hx : r.bools[i]? = some x) : ∃ b, s.bools[i]? = some b ∧ x z = fbit b := by
  have := congrArg (·[i]?) h.2
  simp only [List.getElem?_map, hx, Option.map_some] at this
  cases hb : s.bools[i]? with
  | none => rw [hb] at this; cases this
  | some b =>
    rw [hb] at this
    simp only [Option.map_some, Option.some.injEq] at this
    exact ⟨b, rfl, this⟩

theorem Reads.pushInt {r : Regs p} {z : Asg p} {s : Ideal} (h : Reads r z s) {x : Lc p} {v : Nat} (hv : (x z).val = v) :
    Reads { r with ints := r.ints ++ [x] } z ⟨s.ints ++ [v], s.bools⟩ := by
  refine ⟨?_, h.2⟩
  simp only [List.map_append, List.map_cons, List.map_nil, h.1, hv]

theorem Reads.pushBool {r : Regs p} {z : Asg p} {s : Ideal} (h : Reads r z s) {x : Lc p} {b : Bool} (hv : x z = fbit b) :
    Reads { r with bools := r.bools ++ [x] } z ⟨s.ints, s.bools ++ [b]⟩ := by
  refine ⟨h.1, ?_⟩
  simp only [List.map_append, List.map_cons, List.map_nil, h.2, hv]
  rfl

theorem Ideal.Bounded.push {bits : Nat} {s : Ideal} (h : s.Bounded bits) {v : Nat} {bs : List Bool} (hv : v < 2 ^ bits) :
    Ideal.Bounded bits ⟨s.ints ++ [v], bs⟩ := by
  intro x hx
  simp only [List.mem_append, List.mem_singleton] at hx
  rcases hx with hx | rfl
  · exact h x hx
  · exact hv

theorem Ideal.Bounded.at {bits : Nat} {s : Ideal} (h : s.Bounded bits) {i v : Nat} (hv : s.ints[i]? = some v) :
    v < 2 ^ bits := h v (List.mem_of_getElem? hv)

/-- The integers stay bounded. -/
theorem IdealStep.bounded {bits : Nat} {s s' : Ideal} {op : Op} (t : IdealStep bits s op s') (h : s.Bounded bits) :
    s'.Bounded bits := by
  cases t with
  | int v hv => exact h.push hv
  | bool b => exact h
  | zero => exact h.push (Nat.two_pow_pos bits)
  | add i j x y hx hy hs => exact h.push hs
  | mul i j x y hx hy hs => exact h.push hs
  | select k i j x y b hb hx hy =>
    apply h.push
    cases b
    · exact h.at hy
    · exact h.at hx
  | swap k i j x y b hb hx hy =>
    have h1 := h.at hx
    have h2 := h.at hy
    intro v hv
    rcases List.mem_append.1 hv with hv | hv
    · exact h v hv
    · cases b <;> simp at hv <;> rcases hv with rfl | rfl <;> assumption
  | eq => exact h
  | isZero => exact h
  | and => exact h
  | or => exact h
  | boolEq => exact h
  | assert => exact h
  | assertEq => exact h

/-- Is this call a multiplication? -/
def Op.isMul : Op → Bool
  | .mul _ _ => true
  | _ => false

/-! ### Soundness -/

omit [Fact p.Prime] in
theorem sat_of_assertRange {A : Ark p} {bits : Nat} {cs cs' : Cs p} {v : Lc p} (h : assertRange A bits cs v = .ok cs')
    {z : Asg p} (hs : cs'.Sat z) : cs.Sat z := by
  unfold assertRange at h
  split at h
  · injection h with h
    subst h
    exact (sat_ext.1 hs).2
  · cases h


omit [Fact p.Prime] in
theorem uNew_ok {A : Ark p} {bits : Nat} {cs cs' : Cs p} {v x : Lc p} (h : uNew A bits cs v = .ok (cs', x)) :
    assertRange A bits cs v = .ok cs' ∧ x = v := by
  unfold uNew at h
  cases hr : assertRange A bits cs v with
  | error e => rw [hr] at h; cases h
  | ok c =>
    rw [hr] at h
    simp only [Except.ok.injEq, Prod.mk.injEq] at h
    exact ⟨by rw [h.1], h.2.symm⟩

omit [Fact p.Prime] in
theorem pushInt_ok {r r' : Regs p} {cs' : Cs p} {e : Except Panic (Cs p × Lc p)} (h : pushInt r e = .ok (cs', r')) :
    ∃ x, e = .ok (cs', x) ∧ r' = { r with ints := r.ints ++ [x] } := by
  match e with
  | .error e => cases h
  | .ok (cs, v) =>
    simp only [Verif.Gadget.pushInt, Except.ok.injEq, Prod.mk.injEq] at h
    exact ⟨v, by rw [h.1], h.2.symm⟩

omit [Fact p.Prime] in
theorem pushBool_ok {r r' : Regs p} {cs' : Cs p} {e : Cs p × Lc p} (h : pushBool r e = .ok (cs', r')) :
    cs' = e.1 ∧ r' = { r with bools := r.bools ++ [e.2] } := by
  simp only [Verif.Gadget.pushBool, Except.ok.injEq, Prod.mk.injEq] at h
  exact ⟨h.1.symm, h.2.symm⟩

theorem gEq_sound {cs : Cs p} {x y : Lc p} {z : Asg p} (h : (gEq cs x y).1.Sat z) :
    cs.Sat z ∧ (gEq cs x y).2 z = fbit (decide ((x z).val = (y z).val)) := by
  obtain ⟨h1, h2⟩ := sat_ext.1 h
  refine ⟨h2, ?_⟩
  have e1 := h1 _ List.mem_cons_self
  have e2 := h1 _ (List.mem_cons_of_mem _ List.mem_cons_self)
  have e3 := h1 _ (List.mem_cons_of_mem _ (List.mem_cons_of_mem _ List.mem_cons_self))
  show 1 - z cs.next = _
  by_cases hxy : x z = y z
  · rw [hxy, sub_self, zero_mul] at e2
    simp [hxy, fbit, ← e2]
  · have hne : (x z).val ≠ (y z).val := fun c => hxy (ZMod.val_injective p c)
    have : (1 - z cs.next) = 0 := by
      rcases mul_eq_zero.1 e3 with e | e
      · exact absurd (sub_eq_zero.1 e) hxy
      · exact e
    simp [hne, fbit, this]

theorem gSelect_sound {cs : Cs p} {b x y : Lc p} {z : Asg p} (h : (gSelect cs b x y).1.Sat z) (c : Bool)
    (hb : b z = fbit c) : cs.Sat z ∧ (gSelect cs b x y).2 z = if c then x z else y z := by
  obtain ⟨h1, h2⟩ := sat_ext.1 h
  refine ⟨h2, ?_⟩
  have e := h1 _ List.mem_cons_self
  simp only [hb] at e
  show z cs.next = _
  cases c
  · simp only [fbit] at e ⊢
    simp at e ⊢
    linear_combination -e
  · simp only [fbit] at e ⊢
    simp at e ⊢
    linear_combination -e

theorem val_add_lt {a b : ZMod p} {m : Nat} (hp : 2 ^ (m + 1) ≤ p) (ha : a.val < 2 ^ m) (hb : b.val < 2 ^ m) :
    (a + b).val = a.val + b.val := by
  rw [ZMod.val_add, Nat.mod_eq_of_lt]
  rw [Nat.pow_succ] at hp
  omega

theorem val_mul_lt {a b : ZMod p} {m : Nat} (hp : 2 ^ (2 * m) ≤ p) (ha : a.val < 2 ^ m) (hb : b.val < 2 ^ m) :
    (a * b).val = a.val * b.val := by
  rw [ZMod.val_mul, Nat.mod_eq_of_lt]
  refine Nat.lt_of_lt_of_le (Nat.mul_lt_mul_of_lt_of_le ha (Nat.le_of_lt hb) (Nat.two_pow_pos m)) ?_
  rw [← Nat.pow_add, ← Nat.two_mul]
  exact hp

omit [Fact p.Prime] in
theorem sat_of_buildOp (A : Ark p) (bits : Nat) (cs cs' : Cs p) (r r' : Regs p) (op : Op)
    (h : buildOp A bits cs r op = .ok (cs', r')) (z : Asg p) (hs : cs'.Sat z) : cs.Sat z := by
  cases op with
  | int =>
    obtain ⟨x, h1, rfl⟩ := pushInt_ok h
    obtain ⟨h2, rfl⟩ := uNew_ok (show uNew A bits (allocFp cs).1 (allocFp cs).2 = .ok (cs', x) from h1)
    exact (sat_ext.1 (sat_of_assertRange h2 hs)).2
  | zero =>
    obtain ⟨x, h1, rfl⟩ := pushInt_ok (e := .ok (cs, gZero)) h
    simp only [Except.ok.injEq, Prod.mk.injEq] at h1
    obtain ⟨rfl, rfl⟩ := h1
    exact hs
  | bool =>
    obtain ⟨rfl, rfl⟩ := pushBool_ok h
    exact (sat_ext.1 hs).2
  | add i j =>
    simp only [buildOp] at h
    split at h
    · obtain ⟨v, h1, rfl⟩ := pushInt_ok h
      obtain ⟨h2, rfl⟩ := uNew_ok h1
      exact sat_of_assertRange h2 hs
    · cases h
  | mul i j =>
    simp only [buildOp] at h
    split at h
    · rename_i x y hx hy
      obtain ⟨v, h1, rfl⟩ := pushInt_ok h
      obtain ⟨h2, rfl⟩ := uNew_ok (show uNew A bits (gMul cs x y).1 (gMul cs x y).2 = .ok (cs', v) from h1)
      exact (sat_ext.1 (sat_of_assertRange h2 hs)).2
    · cases h
  | select k i j =>
    simp only [buildOp] at h
    split at h
    · rename_i b x y hk hx hy
      obtain ⟨v, h1, rfl⟩ := pushInt_ok h
      simp only [Except.ok.injEq] at h1
      have h1a : (gSelect cs b x y).1 = cs' := by rw [h1]
      subst h1a
      exact (sat_ext.1 hs).2
    · cases h
  | swap k i j =>
    simp only [buildOp] at h
    split at h
    · simp only [gSwap, Except.ok.injEq, Prod.mk.injEq] at h
      obtain ⟨rfl, rfl⟩ := h
      exact (sat_ext.1 (sat_ext.1 hs).2).2
    · cases h
  | eq i j | and i j | or i j | boolEq i j =>
    simp only [buildOp] at h
    split at h
    · obtain ⟨rfl, rfl⟩ := pushBool_ok h
      exact (sat_ext.1 hs).2
    · cases h
  | isZero i =>
    simp only [buildOp] at h
    split at h
    · obtain ⟨rfl, rfl⟩ := pushBool_ok h
      exact (sat_ext.1 hs).2
    · cases h
  | assert i =>
    simp only [buildOp] at h
    split at h
    · simp only [Except.ok.injEq, Prod.mk.injEq] at h
      obtain ⟨rfl, rfl⟩ := h
      exact (sat_ext.1 hs).2
    · cases h
  | assertEq i j =>
    simp only [buildOp] at h
    split at h
    · simp only [Except.ok.injEq, Prod.mk.injEq] at h
      obtain ⟨rfl, rfl⟩ := h
      exact (sat_ext.1 (sat_ext.1 hs).2).2
    · cases h

theorem step_sound (A : Ark p) (bits : Nat) (hp : 2 ^ (bits + 1) ≤ p) (cs cs' : Cs p) (r r' : Regs p) (op : Op)
    (hm : op.isMul = true → 2 ^ (2 * bits) ≤ p) (h : buildOp A bits cs r op = .ok (cs', r')) (z : Asg p) (s : Ideal)
    (hs : cs'.Sat z) (hr : Reads r z s) (hb : s.Bounded bits) :
    cs.Sat z ∧ ∃ s', IdealStep bits s op s' ∧ Reads r' z s' := by
  cases op with
  | int =>
    obtain ⟨x, h1, rfl⟩ := pushInt_ok h
    obtain ⟨h2, rfl⟩ := uNew_ok (show uNew A bits (allocFp cs).1 (allocFp cs).2 = .ok (cs', x) from h1)
    obtain ⟨h3, h4⟩ := assertRange_sound A bits _ cs' _ h2 z hs
    exact ⟨(sat_ext.1 h3).2, _, .int s _ h4, hr.pushInt rfl⟩
  | bool =>
    obtain ⟨rfl, rfl⟩ := pushBool_ok h
    obtain ⟨h1, h2⟩ := sat_ext.1 hs
    obtain ⟨b, hb⟩ := bit_cases (h1 _ List.mem_cons_self)
    exact ⟨h2, _, .bool s b, hr.pushBool hb⟩
  | zero =>
    obtain ⟨x, h1, rfl⟩ := pushInt_ok (e := .ok (cs, gZero)) h
    simp only [Except.ok.injEq, Prod.mk.injEq] at h1
    obtain ⟨rfl, rfl⟩ := h1
    exact ⟨hs, _, .zero s, hr.pushInt (by simp [gZero])⟩
  | add i j =>
    simp only [buildOp] at h
    split at h
    · rename_i x y hx hy
      obtain ⟨v, h1, rfl⟩ := pushInt_ok h
      obtain ⟨h2, rfl⟩ := uNew_ok h1
      obtain ⟨h3, h4⟩ := assertRange_sound A bits _ cs' _ h2 z hs
      have bx := hb.at (hr.int hx)
      have by' := hb.at (hr.int hy)
      have e : (gAdd x y z).val = (x z).val + (y z).val := val_add_lt hp bx by'
      rw [e] at h4
      exact ⟨h3, _, .add s i j _ _ (hr.int hx) (hr.int hy) h4, hr.pushInt e⟩
    · cases h
  | mul i j =>
    simp only [buildOp] at h
    split at h
    · rename_i x y hx hy
      obtain ⟨v, h1, rfl⟩ := pushInt_ok h
      obtain ⟨h2, rfl⟩ := uNew_ok (show uNew A bits (gMul cs x y).1 (gMul cs x y).2 = .ok (cs', v) from h1)
      obtain ⟨h3, h4⟩ := assertRange_sound A bits _ cs' _ h2 z hs
      obtain ⟨h5, h6⟩ := sat_ext.1 h3
      have hz := h5 _ List.mem_cons_self
      have e : ((gMul cs x y).2 z).val = (x z).val * (y z).val := by
        show (z cs.next).val = _
        rw [← hz]
        exact val_mul_lt (hm rfl) (hb.at (hr.int hx)) (hb.at (hr.int hy))
      rw [e] at h4
      exact ⟨h6, _, .mul s i j _ _ (hr.int hx) (hr.int hy) h4, hr.pushInt e⟩
    · cases h
  | select k i j =>
    simp only [buildOp] at h
    split at h
    · rename_i b x y hk hx hy
      obtain ⟨v, h1, rfl⟩ := pushInt_ok h
      simp only [Except.ok.injEq] at h1
      obtain ⟨c, hc, hcz⟩ := hr.bool hk
      have h1a : (gSelect cs b x y).1 = cs' := by rw [h1]
      have h1b : (gSelect cs b x y).2 = v := by rw [h1]
      subst h1a
      subst h1b
      obtain ⟨h2, h3⟩ := gSelect_sound hs c hcz
      refine ⟨h2, _, .select s k i j _ _ c hc (hr.int hx) (hr.int hy), hr.pushInt ?_⟩
      rw [h3]
      cases c <;> rfl
    · cases h
  | swap k i j =>
    simp only [buildOp] at h
    split at h
    · rename_i b x y hk hx hy
      simp only [gSwap, Except.ok.injEq, Prod.mk.injEq] at h
      obtain ⟨rfl, rfl⟩ := h
      obtain ⟨c, hc, hcz⟩ := hr.bool hk
      obtain ⟨h2, h3⟩ := gSelect_sound hs c hcz
      obtain ⟨h4, h5⟩ := gSelect_sound h2 c hcz
      refine ⟨h4, _, .swap s k i j _ _ c hc (hr.int hx) (hr.int hy), ?_, hr.2⟩
      simp only [List.map_append, List.map_cons, List.map_nil, hr.1, h3, h5]
      cases c <;> rfl
    · cases h
  | eq i j =>
    simp only [buildOp] at h
    split at h
    · rename_i x y hx hy
      obtain ⟨rfl, rfl⟩ := pushBool_ok h
      obtain ⟨h1, h2⟩ := gEq_sound hs
      exact ⟨h1, _, .eq s i j _ _ (hr.int hx) (hr.int hy), hr.pushBool h2⟩
    · cases h
  | isZero i =>
    simp only [buildOp] at h
    split at h
    · rename_i x hx
      obtain ⟨rfl, rfl⟩ := pushBool_ok h
      obtain ⟨h1, h2⟩ := gEq_sound (y := gZero) hs
      refine ⟨h1, _, .isZero s i _ (hr.int hx), hr.pushBool ?_⟩
      simpa [gZero, gIsZero] using h2
    · cases h
  | and i j =>
    simp only [buildOp] at h
    split at h
    · rename_i x y hx hy
      obtain ⟨rfl, rfl⟩ := pushBool_ok h
      obtain ⟨h1, h2⟩ := sat_ext.1 hs
      have e := h1 _ List.mem_cons_self
      obtain ⟨a, ha, haz⟩ := hr.bool hx
      obtain ⟨b, hb', hbz⟩ := hr.bool hy
      refine ⟨h2, _, .and s i j a b ha hb', hr.pushBool ?_⟩
      simp only [haz, hbz] at e
      show z cs.next = _
      rw [← e]
      cases a <;> cases b <;> simp [fbit]
    · cases h
  | or i j =>
    simp only [buildOp] at h
    split at h
    · rename_i x y hx hy
      obtain ⟨rfl, rfl⟩ := pushBool_ok h
      obtain ⟨h1, h2⟩ := sat_ext.1 hs
      have e := h1 _ List.mem_cons_self
      obtain ⟨a, ha, haz⟩ := hr.bool hx
      obtain ⟨b, hb', hbz⟩ := hr.bool hy
      refine ⟨h2, _, .or s i j a b ha hb', hr.pushBool ?_⟩
      simp only [haz, hbz] at e
      show z cs.next = _
      have : z cs.next = 1 - (1 - fbit a) * (1 - fbit b) := by rw [e]; ring
      rw [this]
      cases a <;> cases b <;> simp [fbit]
    · cases h
  | boolEq i j =>
    simp only [buildOp] at h
    split at h
    · rename_i x y hx hy
      obtain ⟨rfl, rfl⟩ := pushBool_ok h
      obtain ⟨h1, h2⟩ := sat_ext.1 hs
      have e := h1 _ List.mem_cons_self
      obtain ⟨a, ha, haz⟩ := hr.bool hx
      obtain ⟨b, hb', hbz⟩ := hr.bool hy
      refine ⟨h2, _, .boolEq s i j a b ha hb', hr.pushBool ?_⟩
      simp only [haz, hbz] at e
      show 1 - z cs.next = _
      have : z cs.next = fbit a + fbit b - (fbit a + fbit a) * fbit b := by rw [e]; ring
      rw [this]
      cases a <;> cases b <;> simp [fbit]
    · cases h
  | assert i =>
    simp only [buildOp] at h
    split at h
    · rename_i x hx
      simp only [Except.ok.injEq, Prod.mk.injEq] at h
      obtain ⟨rfl, rfl⟩ := h
      obtain ⟨h1, h2⟩ := sat_ext.1 hs
      have e := h1 _ List.mem_cons_self
      obtain ⟨a, ha, haz⟩ := hr.bool hx
      simp only [haz] at e
      have : a = true := fbit_inj (p := p) e
      subst this
      exact ⟨h2, _, .assert s i ha, hr⟩
    · cases h
  | assertEq i j =>
    simp only [buildOp] at h
    split at h
    · rename_i x y hx hy
      simp only [Except.ok.injEq, Prod.mk.injEq] at h
      obtain ⟨rfl, rfl⟩ := h
      obtain ⟨h1, h2⟩ := sat_ext.1 hs
      have e := h1 _ List.mem_cons_self
      obtain ⟨h3, h4⟩ := gEq_sound h2
      simp only [h4] at e
      have := fbit_inj (p := p) (b := true) e
      simp only [decide_eq_true_eq] at this
      refine ⟨h3, _, .assertEq s i j _ (hr.int hx) ?_, hr⟩
      rw [this]
      exact hr.int hy
    · cases h

/-! ### Scopes -/

omit [Fact p.Prime] in
theorem WF.ext {cs : Cs p} {r : Regs p} (w : WF cs r) (k : Nat) (rows : List (Asg p → Prop))
    (h : ∀ c ∈ rows, Scoped (cs.next + k) c) : WF (cs.ext k rows) r where
  rows c hc := by
    rcases List.mem_append.1 hc with hc | hc
    · exact h c hc
    · exact (w.rows c hc).mono (Nat.le_add_right _ _)
  ints x hx := (w.ints x hx).mono (Nat.le_add_right _ _)
  bools x hx := (w.bools x hx).mono (Nat.le_add_right _ _)

omit [Fact p.Prime] in
theorem WF.pushInt {cs : Cs p} {r : Regs p} (w : WF cs r) {x : Lc p} (h : Scoped cs.next x) :
    WF cs { r with ints := r.ints ++ [x] } where
  rows := w.rows
  ints y hy := by
    rcases List.mem_append.1 hy with hy | hy
    · exact w.ints y hy
    · rw [List.mem_singleton.1 hy]; exact h
  bools := w.bools

omit [Fact p.Prime] in
theorem WF.pushBool {cs : Cs p} {r : Regs p} (w : WF cs r) {x : Lc p} (h : Scoped cs.next x) :
    WF cs { r with bools := r.bools ++ [x] } where
  rows := w.rows
  ints := w.ints
  bools y hy := by
    rcases List.mem_append.1 hy with hy | hy
    · exact w.bools y hy
    · rw [List.mem_singleton.1 hy]; exact h

omit [Fact p.Prime] in
theorem WF.int {cs : Cs p} {r : Regs p} (w : WF cs r) {i : Nat} {x : Lc p} (h : r.ints[i]? = some x) :
    Scoped cs.next x := w.ints x (List.mem_of_getElem? h)

omit [Fact p.Prime] in
theorem WF.bool {cs : Cs p} {r : Regs p} (w : WF cs r) {i : Nat} {x : Lc p} (h : r.bools[i]? = some x) :
    Scoped cs.next x := w.bools x (List.mem_of_getElem? h)

omit [Fact p.Prime] in
theorem WF.range {A : Ark p} {bits : Nat} {cs cs' : Cs p} {r : Regs p} (w : WF cs r) {v : Lc p} (hv : Scoped cs.next v)
    (h : assertRange A bits cs v = .ok cs') : WF cs' { r with ints := r.ints ++ [v] } := by
  obtain ⟨h1, h2⟩ := assertRange_scoped A bits cs cs' v h hv w.rows
  have w' : WF cs' r := ⟨h2, fun x hx => (w.ints x hx).mono h1, fun x hx => (w.bools x hx).mono h1⟩
  exact w'.pushInt (hv.mono h1)

omit [Fact p.Prime] in
theorem gEq_wf {cs : Cs p} {r : Regs p} (w : WF cs r) {x y : Lc p} (hx : Scoped cs.next x) (hy : Scoped cs.next y) :
    WF (gEq cs x y).1 r ∧ Scoped (gEq cs x y).1.next (gEq cs x y).2 := by
  refine ⟨w.ext 2 _ ?_, ?_⟩
  · intro c hc z z' e
    have ex := hx.mono (Nat.le_add_right _ 2) z z' e
    have ey := hy.mono (Nat.le_add_right _ 2) z z' e
    have e0 := e cs.next (by omega)
    have e1 := e (cs.next + 1) (by omega)
    simp only [List.mem_cons, List.not_mem_nil, or_false] at hc
    rcases hc with rfl | rfl | rfl <;> simp only [ex, ey, e0, e1]
  · intro z z' e
    show 1 - z cs.next = 1 - z' cs.next
    rw [e cs.next (by show cs.next < cs.next + 2; omega)]

omit [Fact p.Prime] in
theorem gSelect_wf {cs : Cs p} {r : Regs p} (w : WF cs r) {b x y : Lc p} (hb : Scoped cs.next b) (hx : Scoped cs.next x)
    (hy : Scoped cs.next y) : WF (gSelect cs b x y).1 r ∧ Scoped (gSelect cs b x y).1.next (gSelect cs b x y).2 := by
  refine ⟨w.ext 1 _ ?_, scoped_var (by show cs.next < cs.next + 1; omega)⟩
  intro c hc z z' e
  simp only [List.mem_cons, List.not_mem_nil, or_false] at hc
  subst hc
  simp only [hb.mono (Nat.le_add_right _ 1) z z' e, hx.mono (Nat.le_add_right _ 1) z z' e,
    hy.mono (Nat.le_add_right _ 1) z z' e, e cs.next (by omega)]

omit [Fact p.Prime] in
theorem step_wf (A : Ark p) (bits : Nat) (cs cs' : Cs p) (r r' : Regs p) (op : Op)
    (h : buildOp A bits cs r op = .ok (cs', r')) (w : WF cs r) : WF cs' r' := by
  have two : ∀ (x y : Lc p), Scoped cs.next x → Scoped cs.next y → ∀ (f : ZMod p → ZMod p → ZMod p → Prop),
      WF (cs.ext 1 [fun z => f (x z) (y z) (z cs.next)]) r := by
    intro x y hx hy f
    refine w.ext 1 _ fun c hc z z' e => ?_
    simp only [List.mem_cons, List.not_mem_nil, or_false] at hc
    subst hc
    simp only [hx.mono (Nat.le_add_right _ 1) z z' e, hy.mono (Nat.le_add_right _ 1) z z' e, e cs.next (by omega)]
  cases op with
  | int =>
    obtain ⟨x, h1, rfl⟩ := pushInt_ok h
    obtain ⟨h2, rfl⟩ := uNew_ok (show uNew A bits (allocFp cs).1 (allocFp cs).2 = .ok (cs', x) from h1)
    exact (w.ext 1 [] (by simp)).range (scoped_var (by show cs.next < cs.next + 1; omega)) h2
  | bool =>
    obtain ⟨rfl, rfl⟩ := pushBool_ok h
    refine (w.ext 1 _ fun c hc z z' e => ?_).pushBool (scoped_var (by show cs.next < cs.next + 1; omega))
    simp only [List.mem_cons, List.not_mem_nil, or_false] at hc
    subst hc
    simp only [e cs.next (by omega)]
  | zero =>
    obtain ⟨x, h1, rfl⟩ := pushInt_ok (e := .ok (cs, gZero)) h
    simp only [Except.ok.injEq, Prod.mk.injEq] at h1
    obtain ⟨rfl, rfl⟩ := h1
    exact w.pushInt fun _ _ _ => rfl
  | add i j =>
    simp only [buildOp] at h
    split at h
    · rename_i x y hx hy
      obtain ⟨v, h1, rfl⟩ := pushInt_ok h
      obtain ⟨h2, rfl⟩ := uNew_ok h1
      refine w.range (fun z z' e => ?_) h2
      show x z + y z = x z' + y z'
      rw [w.int hx z z' e, w.int hy z z' e]
    · cases h
  | mul i j =>
    simp only [buildOp] at h
    split at h
    · rename_i x y hx hy
      obtain ⟨v, h1, rfl⟩ := pushInt_ok h
      obtain ⟨h2, rfl⟩ := uNew_ok (show uNew A bits (gMul cs x y).1 (gMul cs x y).2 = .ok (cs', v) from h1)
      exact (two x y (w.int hx) (w.int hy) (fun a b c => a * b = c)).range
        (scoped_var (by show cs.next < cs.next + 1; omega)) h2
    · cases h
  | select k i j =>
    simp only [buildOp] at h
    split at h
    · rename_i b x y hk hx hy
      obtain ⟨v, h1, rfl⟩ := pushInt_ok h
      simp only [Except.ok.injEq] at h1
      have h1a : (gSelect cs b x y).1 = cs' := by rw [h1]
      have h1b : (gSelect cs b x y).2 = v := by rw [h1]
      subst h1a
      subst h1b
      obtain ⟨h2, h3⟩ := gSelect_wf w (w.bool hk) (w.int hx) (w.int hy)
      exact h2.pushInt h3
    · cases h
  | swap k i j =>
    simp only [buildOp] at h
    split at h
    · rename_i b x y hk hx hy
      simp only [gSwap, Except.ok.injEq, Prod.mk.injEq] at h
      obtain ⟨rfl, rfl⟩ := h
      obtain ⟨h2, h3⟩ := gSelect_wf w (w.bool hk) (w.int hy) (w.int hx)
      have h4 := h2.pushInt h3
      obtain ⟨h5, h6⟩ := gSelect_wf h4 (h2.bool hk) (h2.int hx) (h2.int hy)
      have h7 := h5.pushInt h6
      simpa using h7
    · cases h
  | eq i j =>
    simp only [buildOp] at h
    split at h
    · rename_i x y hx hy
      obtain ⟨rfl, rfl⟩ := pushBool_ok h
      obtain ⟨h1, h2⟩ := gEq_wf w (w.int hx) (w.int hy)
      exact h1.pushBool h2
    · cases h
  | isZero i =>
    simp only [buildOp] at h
    split at h
    · rename_i x hx
      obtain ⟨rfl, rfl⟩ := pushBool_ok h
      obtain ⟨h1, h2⟩ := gEq_wf (y := gZero) w (w.int hx) (fun _ _ _ => rfl)
      exact h1.pushBool h2
    · cases h
  | and i j =>
    simp only [buildOp] at h
    split at h
    · rename_i x y hx hy
      obtain ⟨rfl, rfl⟩ := pushBool_ok h
      exact (two x y (w.bool hx) (w.bool hy) (fun a b c => a * b = c)).pushBool
        (scoped_var (by show cs.next < cs.next + 1; omega))
    · cases h
  | or i j =>
    simp only [buildOp] at h
    split at h
    · rename_i x y hx hy
      obtain ⟨rfl, rfl⟩ := pushBool_ok h
      exact (two x y (w.bool hx) (w.bool hy) (fun a b c => (1 - a) * (1 - b) = 1 - c)).pushBool
        (scoped_var (by show cs.next < cs.next + 1; omega))
    · cases h
  | boolEq i j =>
    simp only [buildOp] at h
    split at h
    · rename_i x y hx hy
      obtain ⟨rfl, rfl⟩ := pushBool_ok h
      refine (two x y (w.bool hx) (w.bool hy) (fun a b c => (a + a) * b = a + b - c)).pushBool fun z z' e => ?_
      show 1 - z cs.next = 1 - z' cs.next
      rw [e cs.next (by show cs.next < cs.next + 1; omega)]
    · cases h
  | assert i =>
    simp only [buildOp] at h
    split at h
    · rename_i x hx
      simp only [Except.ok.injEq, Prod.mk.injEq] at h
      obtain ⟨rfl, rfl⟩ := h
      refine w.ext 0 _ fun c hc z z' e => ?_
      simp only [List.mem_cons, List.not_mem_nil, or_false] at hc
      subst hc
      simp only [w.bool hx z z' e]
    · cases h
  | assertEq i j =>
    simp only [buildOp] at h
    split at h
    · rename_i x y hx hy
      simp only [Except.ok.injEq, Prod.mk.injEq] at h
      obtain ⟨rfl, rfl⟩ := h
      obtain ⟨h1, h2⟩ := gEq_wf w (w.int hx) (w.int hy)
      refine h1.ext 0 _ fun c hc z z' e => ?_
      simp only [List.mem_cons, List.not_mem_nil, or_false] at hc
      subst hc
      simp only [h2 z z' e]
    · cases h

/-! ### Completeness -/

theorem gEq_complete {cs : Cs p} {r : Regs p} (w : WF cs r) {x y : Lc p} (hx : Scoped cs.next x) (hy : Scoped cs.next y)
    {z : Asg p} (hs : cs.Sat z) : ∃ z', Agree cs.next z z' ∧ (gEq cs x y).1.Sat z' := by
  have key : ∀ b m : ZMod p, b * (1 - b) = 0 → (x z - y z) * m = b → (x z - y z) * (1 - b) = 0 →
      ∃ z', Agree cs.next z z' ∧ (gEq cs x y).1.Sat z' := by
    intro b m h1 h2 h3
    have ag : Agree cs.next z (upd (upd z cs.next b) (cs.next + 1) m) :=
      (agree_upd z cs.next cs.next b (Nat.le_refl _)).trans (agree_upd _ cs.next (cs.next + 1) m (by omega))
    have e0 : upd (upd z cs.next b) (cs.next + 1) m cs.next = b := by
      rw [upd_other _ _ (by omega), upd_same]
    have e1 : upd (upd z cs.next b) (cs.next + 1) m (cs.next + 1) = m := upd_same _ _ _
    generalize upd (upd z cs.next b) (cs.next + 1) m = z' at ag e0 e1
    refine ⟨z', ag, sat_ext.2 ⟨?_, sat_agree w.rows ag hs⟩⟩
    intro c hc
    simp only [List.mem_cons, List.not_mem_nil, or_false] at hc
    rcases hc with rfl | rfl | rfl <;> simp only [e0, e1, ← hx z z' ag, ← hy z z' ag] <;> assumption
  by_cases hxy : x z = y z
  · exact key 0 0 (by simp) (by simp) (by simp [hxy])
  · exact key 1 (x z - y z)⁻¹ (by simp) (mul_inv_cancel₀ (sub_ne_zero.2 hxy)) (by simp)

theorem step_complete (A : Ark p) (bits : Nat) (hp : 2 ^ bits ≤ p) (cs cs' : Cs p) (r r' : Regs p) (op : Op)
    (h : buildOp A bits cs r op = .ok (cs', r')) (w : WF cs r) (z : Asg p) (s s' : Ideal)
    (hs : cs.Sat z) (hr : Reads r z s) (t : IdealStep bits s op s') :
    ∃ z', cs'.Sat z' ∧ Reads r' z' s' := by
  have one : ∀ (v : ZMod p) (c : Asg p → Prop), (∀ z', Agree cs.next z z' → z' cs.next = v → c z') →
      ∃ z', Agree cs.next z z' ∧ z' cs.next = v ∧ (cs.ext 1 [c]).Sat z' := by
    intro v c h
    have ag := agree_upd z cs.next cs.next v (Nat.le_refl _)
    refine ⟨_, ag, upd_same _ _ _, sat_ext.2 ⟨fun d hd => ?_, sat_agree w.rows ag hs⟩⟩
    simp only [List.mem_cons, List.not_mem_nil, or_false] at hd
    subst hd
    exact h _ ag (upd_same _ _ _)
  have castval : ∀ v : Nat, v < 2 ^ bits → ((v : ZMod p)).val = v := by
    intro v hv
    rw [ZMod.val_natCast, Nat.mod_eq_of_lt (by omega)]
  cases t with
  | int v hv =>
    obtain ⟨x, h1, rfl⟩ := pushInt_ok h
    obtain ⟨h2, rfl⟩ := uNew_ok (show uNew A bits (allocFp cs).1 (allocFp cs).2 = .ok (cs', x) from h1)
    have ag := agree_upd z cs.next cs.next (v : ZMod p) (Nat.le_refl _)
    have hs1 : (cs.ext 1 []).Sat (upd z cs.next (v : ZMod p)) := sat_ext.2 ⟨by simp, sat_agree w.rows ag hs⟩
    have w1 := w.ext 1 [] (by simp)
    obtain ⟨z', ag', hs'⟩ := assertRange_complete A bits _ cs' _ h2
      (scoped_var (by show cs.next < cs.next + 1; omega)) w1.rows _ hs1
      (by show (upd z cs.next (v : ZMod p) cs.next).val < _; rw [upd_same, castval v hv]; exact hv)
    refine ⟨z', hs', ?_⟩
    have rr := reads_agree w1 ag' (reads_agree w ag hr)
    refine rr.pushInt ?_
    show (z' cs.next).val = v
    rw [← ag' cs.next (by show cs.next < cs.next + 1; omega), upd_same, castval v hv]
  | bool b =>
    obtain ⟨rfl, rfl⟩ := pushBool_ok h
    obtain ⟨z', ag, hv, hs'⟩ := one (fbit b) (fun z => z cs.next * (1 - z cs.next) = 0)
      (fun z' _ e => by simp only [e]; cases b <;> simp [fbit])
    exact ⟨z', hs', (reads_agree w ag hr).pushBool hv⟩
  | zero =>
    obtain ⟨x, h1, rfl⟩ := pushInt_ok (e := .ok (cs, gZero)) h
    simp only [Except.ok.injEq, Prod.mk.injEq] at h1
    obtain ⟨rfl, rfl⟩ := h1
    exact ⟨z, hs, hr.pushInt (by simp [gZero])⟩
  | add i j vx vy hvx hvy hv =>
    simp only [buildOp] at h
    split at h
    · rename_i x y hx hy
      obtain ⟨v, h1, rfl⟩ := pushInt_ok h
      obtain ⟨h2, rfl⟩ := uNew_ok h1
      have ex : (x z).val = vx := Option.some.inj ((hr.int hx).symm.trans hvx)
      have ey : (y z).val = vy := Option.some.inj ((hr.int hy).symm.trans hvy)
      have hsc : Scoped cs.next (gAdd x y) := fun z z' e => by
        show x z + y z = x z' + y z'
        rw [w.int hx z z' e, w.int hy z z' e]
      have e : (gAdd x y z).val = vx + vy := by
        show (x z + y z).val = _
        rw [ZMod.val_add, ex, ey, Nat.mod_eq_of_lt (by omega)]
      obtain ⟨z', ag, hs'⟩ := assertRange_complete A bits cs cs' _ h2 hsc w.rows z hs (by rw [e]; exact hv)
      refine ⟨z', hs', (reads_agree w ag hr).pushInt ?_⟩
      rw [← hsc z z' ag, e]
    · cases h
  | mul i j vx vy hvx hvy hv =>
    simp only [buildOp] at h
    split at h
    · rename_i x y hx hy
      obtain ⟨v, h1, rfl⟩ := pushInt_ok h
      obtain ⟨h2, rfl⟩ := uNew_ok (show uNew A bits (gMul cs x y).1 (gMul cs x y).2 = .ok (cs', v) from h1)
      have ex : (x z).val = vx := Option.some.inj ((hr.int hx).symm.trans hvx)
      have ey : (y z).val = vy := Option.some.inj ((hr.int hy).symm.trans hvy)
      have e : (x z * y z).val = vx * vy := by
        rw [ZMod.val_mul, ex, ey, Nat.mod_eq_of_lt (by omega)]
      obtain ⟨z1, ag1, hv1, hs1⟩ := one (x z * y z) (fun z => x z * y z = z cs.next)
        (fun z' a e => by simp only [e, ← w.int hx z z' a, ← w.int hy z z' a])
      have w1 : WF (gMul cs x y).1 r := by
        refine w.ext 1 _ fun c hc z z' e => ?_
        simp only [List.mem_cons, List.not_mem_nil, or_false] at hc
        subst hc
        simp only [(w.int hx).mono (Nat.le_add_right _ 1) z z' e, (w.int hy).mono (Nat.le_add_right _ 1) z z' e,
          e cs.next (by omega)]
      obtain ⟨z', ag, hs'⟩ := assertRange_complete A bits _ cs' _ h2
        (scoped_var (by show cs.next < cs.next + 1; omega)) w1.rows z1 hs1
        (by show (z1 cs.next).val < _; rw [hv1, e]; exact hv)
      refine ⟨z', hs', (reads_agree w1 ag (reads_agree w ag1 hr)).pushInt ?_⟩
      show (z' cs.next).val = _
      rw [← ag cs.next (by show cs.next < cs.next + 1; omega), hv1, e]
    · cases h
  | select k i j vx vy b hk' hvx hvy =>
    simp only [buildOp] at h
    split at h
    · rename_i bb x y hk hx hy
      obtain ⟨v, h1, rfl⟩ := pushInt_ok h
      simp only [Except.ok.injEq] at h1
      obtain ⟨c, hc, hcz⟩ := hr.bool hk
      obtain rfl : c = b := Option.some.inj (hc.symm.trans hk')
      have ex : (x z).val = vx := Option.some.inj ((hr.int hx).symm.trans hvx)
      have ey : (y z).val = vy := Option.some.inj ((hr.int hy).symm.trans hvy)
      have h1a : (gSelect cs bb x y).1 = cs' := by rw [h1]
      have h1b : (gSelect cs bb x y).2 = v := by rw [h1]
      subst h1a
      subst h1b
      obtain ⟨z', ag, hv, hs'⟩ := one (if c then x z else y z) (fun z => bb z * (x z - y z) = z cs.next - y z)
        (fun z' a e => by
          simp only [e, ← w.int hx z z' a, ← w.int hy z z' a, ← w.bool hk z z' a, hcz]
          cases c <;> simp [fbit])
      refine ⟨z', hs', (reads_agree w ag hr).pushInt ?_⟩
      show (z' cs.next).val = _
      rw [hv]
      cases c
      · exact ey
      · exact ex
    · cases h
  | swap k i j vx vy b hk' hvx hvy =>
    simp only [buildOp] at h
    split at h
    · rename_i bb x y hk hx hy
      simp only [gSwap, Except.ok.injEq, Prod.mk.injEq] at h
      obtain ⟨rfl, rfl⟩ := h
      obtain ⟨c, hc, hcz⟩ := hr.bool hk
      obtain rfl : c = b := Option.some.inj (hc.symm.trans hk')
      have ex : (x z).val = vx := Option.some.inj ((hr.int hx).symm.trans hvx)
      have ey : (y z).val = vy := Option.some.inj ((hr.int hy).symm.trans hvy)
      obtain ⟨z1, ag1, hv1, hs1⟩ := one (if c then y z else x z) (fun z => bb z * (y z - x z) = z cs.next - x z)
        (fun z' a e => by
          simp only [e, ← w.int hx z z' a, ← w.int hy z z' a, ← w.bool hk z z' a, hcz]
          cases c <;> simp [fbit])
      obtain ⟨w1, sc1⟩ := gSelect_wf w (w.bool hk) (w.int hy) (w.int hx)
      let k1 := (gSelect cs bb y x).1.next
      let v2 : ZMod p := if c then x z else y z
      have ag2 : Agree k1 z1 (upd z1 k1 v2) := agree_upd z1 k1 k1 v2 (Nat.le_refl _)
      have ag : Agree cs.next z (upd z1 k1 v2) := ag1.trans fun i hi => ag2 i (Nat.lt_succ_of_lt hi)
      have hat : upd z1 k1 v2 k1 = v2 := upd_same _ _ _
      refine ⟨upd z1 k1 v2, sat_ext.2 ⟨fun d hd => ?_, sat_agree w1.rows ag2 hs1⟩, ?_⟩
      · simp only [List.mem_cons, List.not_mem_nil, or_false] at hd
        subst hd
        show bb (upd z1 k1 v2) * (x (upd z1 k1 v2) - y (upd z1 k1 v2)) = upd z1 k1 v2 k1 - y (upd z1 k1 v2)
        rw [hat, ← w.int hx z _ ag, ← w.int hy z _ ag, ← w.bool hk z _ ag, hcz]
        cases c <;> simp [fbit, v2]
      · have rr := reads_agree w ag hr
        refine ⟨?_, rr.2⟩
        have g1 : (gSelect cs bb y x).2 (upd z1 k1 v2) = if c then y z else x z := by
          rw [← sc1 z1 _ ag2]
          exact hv1
        have g2 : (gSelect (gSelect cs bb y x).1 bb x y).2 (upd z1 k1 v2) = v2 := hat
        simp only [List.map_append, List.map_cons, List.map_nil, rr.1, g1, g2]
        cases c <;> simp [v2, ex, ey]
    · cases h
  | eq i j vx vy hvx hvy =>
    simp only [buildOp] at h
    split at h
    · rename_i x y hx hy
      obtain ⟨rfl, rfl⟩ := pushBool_ok h
      have ex : (x z).val = vx := Option.some.inj ((hr.int hx).symm.trans hvx)
      have ey : (y z).val = vy := Option.some.inj ((hr.int hy).symm.trans hvy)
      obtain ⟨z', ag, hs'⟩ := gEq_complete w (w.int hx) (w.int hy) hs
      refine ⟨z', hs', (reads_agree w ag hr).pushBool ?_⟩
      rw [(gEq_sound hs').2, ← w.int hx z z' ag, ← w.int hy z z' ag, ex, ey]
    · cases h
  | isZero i vx hvx =>
    simp only [buildOp] at h
    split at h
    · rename_i x hx
      obtain ⟨rfl, rfl⟩ := pushBool_ok h
      have ex : (x z).val = vx := Option.some.inj ((hr.int hx).symm.trans hvx)
      obtain ⟨z', ag, hs'⟩ := gEq_complete (y := gZero) w (w.int hx) (fun _ _ _ => rfl) hs
      refine ⟨z', hs', (reads_agree w ag hr).pushBool ?_⟩
      have := (gEq_sound hs').2
      rw [← w.int hx z z' ag, ex] at this
      simpa [gIsZero, gZero] using this
    · cases h
  | and i j a b ha hb' =>
    simp only [buildOp] at h
    split at h
    · rename_i x y hx hy
      obtain ⟨rfl, rfl⟩ := pushBool_ok h
      obtain ⟨a', ha', haz⟩ := hr.bool hx
      obtain ⟨b', hb'', hbz⟩ := hr.bool hy
      obtain rfl : a' = a := Option.some.inj (ha'.symm.trans ha)
      obtain rfl : b' = b := Option.some.inj (hb''.symm.trans hb')
      obtain ⟨z', ag, hv, hs'⟩ := one (fbit (a' && b')) (fun z => x z * y z = z cs.next)
        (fun z' c e => by
          simp only [e, ← w.bool hx z z' c, ← w.bool hy z z' c, haz, hbz]
          cases a' <;> cases b' <;> simp [fbit])
      exact ⟨z', hs', (reads_agree w ag hr).pushBool hv⟩
    · cases h
  | or i j a b ha hb' =>
    simp only [buildOp] at h
    split at h
    · rename_i x y hx hy
      obtain ⟨rfl, rfl⟩ := pushBool_ok h
      obtain ⟨a', ha', haz⟩ := hr.bool hx
      obtain ⟨b', hb'', hbz⟩ := hr.bool hy
      obtain rfl : a' = a := Option.some.inj (ha'.symm.trans ha)
      obtain rfl : b' = b := Option.some.inj (hb''.symm.trans hb')
      obtain ⟨z', ag, hv, hs'⟩ := one (fbit (a' || b')) (fun z => (1 - x z) * (1 - y z) = 1 - z cs.next)
        (fun z' c e => by
          simp only [e, ← w.bool hx z z' c, ← w.bool hy z z' c, haz, hbz]
          cases a' <;> cases b' <;> simp [fbit])
      exact ⟨z', hs', (reads_agree w ag hr).pushBool hv⟩
    · cases h
  | boolEq i j a b ha hb' =>
    simp only [buildOp] at h
    split at h
    · rename_i x y hx hy
      obtain ⟨rfl, rfl⟩ := pushBool_ok h
      obtain ⟨a', ha', haz⟩ := hr.bool hx
      obtain ⟨b', hb'', hbz⟩ := hr.bool hy
      obtain rfl : a' = a := Option.some.inj (ha'.symm.trans ha)
      obtain rfl : b' = b := Option.some.inj (hb''.symm.trans hb')
      obtain ⟨z', ag, hv, hs'⟩ := one (fbit (xor a' b')) (fun z => (x z + x z) * y z = x z + y z - z cs.next)
        (fun z' c e => by
          simp only [e, ← w.bool hx z z' c, ← w.bool hy z z' c, haz, hbz]
          cases a' <;> cases b' <;> simp [fbit])
      refine ⟨z', hs', (reads_agree w ag hr).pushBool ?_⟩
      show 1 - z' cs.next = _
      rw [hv]
      cases a' <;> cases b' <;> simp [fbit]
    · cases h
  | assert i ha =>
    simp only [buildOp] at h
    split at h
    · rename_i x hx
      simp only [Except.ok.injEq, Prod.mk.injEq] at h
      obtain ⟨rfl, rfl⟩ := h
      obtain ⟨a', ha', haz⟩ := hr.bool hx
      obtain rfl : a' = true := Option.some.inj (ha'.symm.trans ha)
      refine ⟨z, sat_ext.2 ⟨fun d hd => ?_, hs⟩, hr⟩
      simp only [List.mem_cons, List.not_mem_nil, or_false] at hd
      subst hd
      exact haz
    · cases h
  | assertEq i j vx hvx hvy =>
    simp only [buildOp] at h
    split at h
    · rename_i x y hx hy
      simp only [Except.ok.injEq, Prod.mk.injEq] at h
      obtain ⟨rfl, rfl⟩ := h
      have ex : (x z).val = vx := Option.some.inj ((hr.int hx).symm.trans hvx)
      have ey : (y z).val = vx := Option.some.inj ((hr.int hy).symm.trans hvy)
      obtain ⟨z', ag, hs'⟩ := gEq_complete w (w.int hx) (w.int hy) hs
      refine ⟨z', sat_ext.2 ⟨fun d hd => ?_, hs'⟩, reads_agree w ag hr⟩
      simp only [List.mem_cons, List.not_mem_nil, or_false] at hd
      subst hd
      show (gEq cs x y).2 z' = 1
      rw [(gEq_sound hs').2, ← w.int hx z z' ag, ← w.int hy z z' ag, ex, ey]
      simp [fbit]
    · cases h

/-! ## Whole circuits -/

theorem build_sound (A : Ark p) (bits : Nat) (hp : 2 ^ (bits + 1) ≤ p) (ops : List Op)
    (hm : ∀ op ∈ ops, op.isMul = true → 2 ^ (2 * bits) ≤ p) (cs cs' : Cs p) (r r' : Regs p)
    (h : build A bits cs r ops = .ok (cs', r')) (z : Asg p) (hs : cs'.Sat z) :
    cs.Sat z ∧ ∀ s, Reads r z s → s.Bounded bits → ∃ s', IdealRun bits s ops s' ∧ Reads r' z s' := by
  induction ops generalizing cs r with
  | nil =>
    simp only [build, Except.ok.injEq, Prod.mk.injEq] at h
    obtain ⟨rfl, rfl⟩ := h
    exact ⟨hs, fun s hr _ => ⟨s, .nil s, hr⟩⟩
  | cons op ops ih =>
    simp only [build] at h
    split at h
    · cases h
    · rename_i cs1 r1 h1
      obtain ⟨hs1, hrest⟩ := ih (fun o ho => hm o (List.mem_cons_of_mem _ ho)) cs1 r1 h
      have hop := hm op List.mem_cons_self
      refine ⟨?_, fun s hr hb => ?_⟩
      · -- the constraints of the earlier calls are kept
        exact sat_of_buildOp A bits cs cs1 r r1 op h1 z hs1
      · obtain ⟨_, s1, t, hr1⟩ := step_sound A bits hp cs cs1 r r1 op hop h1 z s hs1 hr hb
        obtain ⟨s', t', hr'⟩ := hrest s1 hr1 (t.bounded hb)
        exact ⟨s', .cons _ _ _ _ _ t t', hr'⟩

theorem build_complete (A : Ark p) (bits : Nat) (hp : 2 ^ bits ≤ p) (ops : List Op) (cs cs' : Cs p) (r r' : Regs p)
    (h : build A bits cs r ops = .ok (cs', r')) (w : WF cs r) (z : Asg p) (s s' : Ideal) (hs : cs.Sat z)
    (hr : Reads r z s) (t : IdealRun bits s ops s') : ∃ z', cs'.Sat z' ∧ Reads r' z' s' := by
  induction ops generalizing cs r z s with
  | nil =>
    simp only [build, Except.ok.injEq, Prod.mk.injEq] at h
    obtain ⟨rfl, rfl⟩ := h
    cases t
    exact ⟨z, hs, hr⟩
  | cons op ops ih =>
    simp only [build] at h
    split at h
    · cases h
    · rename_i cs1 r1 h1
      cases t with
      | cons _ _ s1 _ _ t1 t2 =>
        obtain ⟨z1, hs1, hr1⟩ := step_complete A bits hp cs cs1 r r1 op h1 w z s s1 hs hr t1
        exact ih cs1 r1 h (step_wf A bits cs cs1 r r1 op h1 w) z1 s1 hs1 hr1 t2

/-- **C104** (range assertion): a value passes exactly when it is smaller than `2 ^ bits`, whatever the
prover assigns to the bit variables. -/
theorem c104_range (A : Ark p) (bits : Nat) (cs cs' : Cs p) (v : Lc p) (h : assertRange A bits cs v = .ok cs')
    (hv : Scoped cs.next v) (hw : ∀ c ∈ cs.rows, Scoped cs.next c) (z : Asg p) (hs : cs.Sat z) :
    (∃ z', Agree cs.next z z' ∧ cs'.Sat z') ↔ (v z).val < 2 ^ bits := by
  refine ⟨fun ⟨z', ag, hs'⟩ => ?_, assertRange_complete A bits cs cs' v h hv hw z hs⟩
  rw [hv z z' ag]
  exact (assertRange_sound A bits cs cs' v h z' hs').2

omit [Fact p.Prime] in
/-- **C104** (range assertion, when it can be made): exactly for fewer bits than the modulus has. -/
theorem c104_range_panic (A : Ark p) (bits : Nat) (cs : Cs p) (v : Lc p) (hp : 1 < p) :
    (∃ cs', assertRange A bits cs v = .ok cs') ↔ 2 ^ bits ≤ p := by
  have : bits < numBits p ↔ 2 ^ bits ≤ p := by
    refine ⟨two_pow_lt_of_bits (by omega), fun h => ?_⟩
    unfold numBits
    rw [if_neg (by omega)]
    have := (Nat.le_log2 (show p ≠ 0 by omega)).2 h
    omega
  rw [← this]
  unfold assertRange
  by_cases h : bits < numBits p
  · simp [h]
  · simp [h]

/-- **C104** (circuits): the register contents of the satisfying assignments of a circuit are exactly those of
the computations with natural numbers, for every circuit. -/
theorem c104_circuit (A : Ark p) (bits : Nat) (hp : 2 ^ (bits + 1) ≤ p) (ops : List Op)
    (hm : ∀ op ∈ ops, op.isMul = true → 2 ^ (2 * bits) ≤ p) (cs : Cs p) (r : Regs p)
    (h : build A bits Cs.empty ⟨[], []⟩ ops = .ok (cs, r)) (s : Ideal) :
    (∃ z, cs.Sat z ∧ Reads r z s) ↔ IdealRun bits ⟨[], []⟩ ops s := by
  have r0 : ∀ z : Asg p, Reads ⟨[], []⟩ z ⟨[], []⟩ := fun z => ⟨rfl, rfl⟩
  constructor
  · rintro ⟨z, hs, hr⟩
    obtain ⟨_, hall⟩ := build_sound A bits hp ops hm Cs.empty cs ⟨[], []⟩ r h z hs
    obtain ⟨s', t, hr'⟩ := hall ⟨[], []⟩ (r0 z) (fun v hv => by cases hv)
    have e : s' = s := by
      cases s; cases s'
      simp only [Reads] at hr hr'
      congr 1
      · exact hr'.1.symm.trans hr.1
      · have := hr'.2.symm.trans hr.2
        exact List.map_injective_iff.2 (fun a b hab => fbit_inj (p := p) hab) this
    exact e ▸ t
  · intro t
    have hp' : 2 ^ bits ≤ p := Nat.le_trans (Nat.pow_le_pow_right (by omega) (by omega)) hp
    exact build_complete A bits hp' ops Cs.empty cs ⟨[], []⟩ r h
      ⟨(fun c hc => by cases hc), (fun c hc => by cases hc), (fun c hc => by cases hc)⟩ (fun _ => 0) ⟨[], []⟩ s
      (fun c hc => by cases hc) (r0 _) t

/-! ### Wrapping -/

omit [Fact p.Prime] in
theorem wf_empty : WF (Cs.empty : Cs p) ⟨[], []⟩ :=
  ⟨(fun c hc => by cases hc), (fun c hc => by cases hc), (fun c hc => by cases hc)⟩

omit [Fact p.Prime] in
theorem build_append (A : Ark p) (bits : Nat) (ops : List Op) (op : Op) (cs cs1 cs' : Cs p) (r r1 r' : Regs p)
    (h1 : build A bits cs r ops = .ok (cs1, r1)) (h2 : buildOp A bits cs1 r1 op = .ok (cs', r')) :
    build A bits cs r (ops ++ [op]) = .ok (cs', r') := by
  induction ops generalizing cs r with
  | nil =>
    simp only [build, Except.ok.injEq, Prod.mk.injEq] at h1
    obtain ⟨rfl, rfl⟩ := h1
    simp [build, h2]
  | cons o ops ih =>
    simp only [build] at h1
    split at h1
    · cases h1
    · rename_i cs2 r2 h3
      simp only [List.cons_append, build, h3]
      exact ih cs2 r2 h1

/-- Two allocated integers can have any values in range. -/
theorem two_ints (A : Ark p) (bits : Nat) (hb : 2 ^ bits ≤ p) :
    ∃ cs r, build A bits (Cs.empty : Cs p) ⟨[], []⟩ [.int, .int] = .ok (cs, r) ∧ WF cs r ∧
      ∀ a b, a < 2 ^ bits → b < 2 ^ bits → ∃ z, cs.Sat z ∧ Reads r z ⟨[a, b], []⟩ := by
  have hp1 : 1 < p := (Fact.out : p.Prime).one_lt
  have hint : ∀ (cs : Cs p) (r : Regs p), ∃ cs' r', buildOp A bits cs r .int = .ok (cs', r') := by
    intro cs r
    obtain ⟨cs', h⟩ := (c104_range_panic A bits (allocFp cs).1 (allocFp cs).2 hp1).2 hb
    exact ⟨cs', _, by simp only [buildOp, uAlloc, uNew, h, pushInt]; rfl⟩
  obtain ⟨cs1, r1, h1⟩ := hint Cs.empty ⟨[], []⟩
  obtain ⟨cs2, r2, h2⟩ := hint cs1 r1
  have h : build A bits (Cs.empty : Cs p) ⟨[], []⟩ [.int, .int] = .ok (cs2, r2) := by simp [build, h1, h2]
  refine ⟨cs2, r2, h, step_wf A bits _ _ _ _ _ h2 (step_wf A bits _ _ _ _ _ h1 wf_empty), fun a b ha hb' => ?_⟩
  exact build_complete A bits hb _ _ _ _ _ h wf_empty (fun _ => 0) ⟨[], []⟩ ⟨[a, b], []⟩ (fun c hc => by cases hc) ⟨rfl, rfl⟩
    (.cons _ _ _ _ _ (.int ⟨[], []⟩ a ha) (.cons _ _ _ _ _ (.int ⟨[a], []⟩ b hb') (.nil _)))

/-- **C104** (the permitted width is one bit too large for sums): for a modulus of `bits + 1` bits, other than
`2 ^ (bits + 1) - 1`, the compiler accepts integers of `bits` bits, and the circuit that adds two of them has a
satisfying assignment in which the sum of two integers with the sum `p` is zero. -/
theorem c104_add_violated (A : Ark p) (bits : Nat) (hb : 2 ^ bits ≤ p) (hp : p + 2 ≤ 2 ^ (bits + 1)) :
    ∃ cs r, build A bits (Cs.empty : Cs p) ⟨[], []⟩ [.int, .int, .add 0 1] = .ok (cs, r) ∧
      ∃ z, cs.Sat z ∧ ∃ a b, a + b = p ∧ Reads r z ⟨[a, b, 0], []⟩ ∧
        ¬ IdealRun bits ⟨[], []⟩ [.int, .int, .add 0 1] ⟨[a, b, 0], []⟩ := by
  have hp1 : 1 < p := (Fact.out : p.Prime).one_lt
  obtain ⟨cs, r, h, w, hz⟩ := two_ints A bits hb
  rw [Nat.pow_succ] at hp
  obtain ⟨z, hs, hr⟩ := hz (2 ^ bits - 1) (p - (2 ^ bits - 1)) (by omega) (by omega)
  have hlen : r.ints.length = 2 := by have := congrArg List.length hr.1; simpa using this
  obtain ⟨x, y, hxy⟩ : ∃ x y, r.ints = [x, y] := by
    match hi : r.ints, hlen with
    | [x, y], _ => exact ⟨x, y, rfl⟩
  have hx : r.ints[0]? = some x := by simp [hxy]
  have hy : r.ints[1]? = some y := by simp [hxy]
  have ex : (x z).val = 2 ^ bits - 1 := Option.some.inj ((hr.int hx).symm.trans rfl)
  have ey : (y z).val = p - (2 ^ bits - 1) := Option.some.inj ((hr.int hy).symm.trans rfl)
  have e : (gAdd x y z).val = 0 := by
    show (x z + y z).val = 0
    rw [ZMod.val_add, ex, ey, show 2 ^ bits - 1 + (p - (2 ^ bits - 1)) = p by omega, Nat.mod_self]
  obtain ⟨cs', h'⟩ := (c104_range_panic A bits cs (gAdd x y) hp1).2 hb
  have hop : buildOp A bits cs r (.add 0 1) = .ok (cs', { r with ints := r.ints ++ [gAdd x y] }) := by
    simp only [buildOp, hx, hy, uAdd, uNew, h', pushInt]
  have hsc : Scoped cs.next (gAdd x y) := fun z z' e => by
    show x z + y z = x z' + y z'
    rw [w.int hx z z' e, w.int hy z z' e]
  obtain ⟨z', ag, hs'⟩ := assertRange_complete A bits cs cs' _ h' hsc w.rows z hs (by rw [e]; exact Nat.two_pow_pos bits)
  refine ⟨cs', _, build_append A bits [.int, .int] (.add 0 1) _ _ _ _ _ _ h hop, z', hs', _, _, ?_,
    (reads_agree w ag hr).pushInt (by rw [← hsc z z' ag, e]), ?_⟩
  · omega
  · intro t
    cases t with
    | cons _ _ s1 _ _ t1 t =>
      cases t with
      | cons _ _ s2 _ _ t2 t =>
        cases t with
        | cons _ _ s3 _ _ t3 t =>
          cases t
          cases t1
          cases t2
          generalize hq : (⟨[2 ^ bits - 1, p - (2 ^ bits - 1), 0], []⟩ : Ideal) = q at t3
          cases t3 with
          | add i j vx vy hvx hvy hv =>
            simp at hvx hvy hq
            omega

/-- **C104** (products): when the square of the largest integer reaches the modulus, the circuit that multiplies
two integers has a satisfying assignment with a wrong product. -/
theorem c104_mul_violated (A : Ark p) (bits : Nat) (hb : 2 ^ bits ≤ p) (hp : p ≤ (2 ^ bits - 1) * (2 ^ bits - 1)) :
    ∃ cs r, build A bits (Cs.empty : Cs p) ⟨[], []⟩ [.int, .int, .mul 0 1] = .ok (cs, r) ∧
      ∃ z, cs.Sat z ∧ ∃ a b c, a * b = c + p ∧ Reads r z ⟨[a, b, c], []⟩ := by
  have hp1 : 1 < p := (Fact.out : p.Prime).one_lt
  obtain ⟨cs, r, h, w, hz⟩ := two_ints A bits hb
  generalize hm : 2 ^ bits - 1 = m at hp
  have hm0 : 0 < m := by
    rcases Nat.eq_zero_or_pos m with h0 | h0
    · rw [h0] at hp; omega
    · exact h0
  -- the smallest multiple of `m` from `p` on
  let b := (p + m - 1) / m
  have hdm := Nat.div_add_mod (p + m - 1) m
  have hlt := Nat.mod_lt (p + m - 1) hm0
  have hb1 : p ≤ m * b := by show p ≤ m * ((p + m - 1) / m); omega
  have hb2 : m * b < p + m := by show m * ((p + m - 1) / m) < p + m; omega
  have hb3 : b ≤ m := by
    apply Nat.le_of_lt_succ
    apply (Nat.div_lt_iff_lt_mul hm0).2
    rw [Nat.succ_mul]
    omega
  obtain ⟨z, hs, hr⟩ := hz m b (by omega) (by omega)
  have hlen : r.ints.length = 2 := by have := congrArg List.length hr.1; simpa using this
  obtain ⟨x, y, hxy⟩ : ∃ x y, r.ints = [x, y] := by
    match hi : r.ints, hlen with
    | [x, y], _ => exact ⟨x, y, rfl⟩
  have hx : r.ints[0]? = some x := by simp [hxy]
  have hy : r.ints[1]? = some y := by simp [hxy]
  have ex : (x z).val = m := Option.some.inj ((hr.int hx).symm.trans rfl)
  have ey : (y z).val = b := Option.some.inj ((hr.int hy).symm.trans rfl)
  have e : (x z * y z).val = m * b - p := by
    have hmp : m < p := by omega
    rw [ZMod.val_mul, ex, ey, Nat.mod_eq_sub_mod hb1, Nat.mod_eq_of_lt (by omega)]
  obtain ⟨cs', h'⟩ := (c104_range_panic A bits (gMul cs x y).1 (gMul cs x y).2 hp1).2 hb
  have hop : buildOp A bits cs r (.mul 0 1) = .ok (cs', { r with ints := r.ints ++ [(gMul cs x y).2] }) := by
    simp only [buildOp, hx, hy, uMul, uNew, h', pushInt]
  have ag1 := agree_upd z cs.next cs.next (x z * y z) (Nat.le_refl _)
  have hv1 : upd z cs.next (x z * y z) cs.next = x z * y z := upd_same _ _ _
  generalize upd z cs.next (x z * y z) = z1 at ag1 hv1
  have hs1 : (gMul cs x y).1.Sat z1 := by
    refine sat_ext.2 ⟨fun d hd => ?_, sat_agree w.rows ag1 hs⟩
    simp only [List.mem_cons, List.not_mem_nil, or_false] at hd
    subst hd
    simp only [hv1, ← w.int hx z z1 ag1, ← w.int hy z z1 ag1]
  have w1 : WF (gMul cs x y).1 r := by
    refine w.ext 1 _ fun c hc z z' e => ?_
    simp only [List.mem_cons, List.not_mem_nil, or_false] at hc
    subst hc
    simp only [(w.int hx).mono (Nat.le_add_right _ 1) z z' e, (w.int hy).mono (Nat.le_add_right _ 1) z z' e,
      e cs.next (by omega)]
  obtain ⟨z', ag, hs'⟩ := assertRange_complete A bits _ cs' _ h'
    (scoped_var (by show cs.next < cs.next + 1; omega)) w1.rows z1 hs1
    (by show (z1 cs.next).val < _; rw [hv1, e]; omega)
  refine ⟨cs', _, build_append A bits [.int, .int] (.mul 0 1) _ _ _ _ _ _ h hop, z', hs', m, b, m * b - p, ?_,
    (reads_agree w1 ag (reads_agree w ag1 hr)).pushInt ?_⟩
  · omega
  · show (z' cs.next).val = _
    rw [← ag cs.next (by show cs.next < cs.next + 1; omega), hv1, e]

end

/-! ### Examples -/

/-- A decomposition gadget without the check for canonicity: even that is enough. -/
def laxArk (p : Nat) : Ark p := ⟨fun _ => True, fun _ _ => trivial⟩

local instance : Fact (Nat.Prime 17) := ⟨by decide +kernel⟩

local instance : NeZero 17 := ⟨by decide⟩

/-- The circuit of a small transfer: two inputs, their sum equals an output. -/
example : ∃ cs r, build (laxArk 17) 3 Cs.empty ⟨[], []⟩ [.int, .int, .add 0 1, .int, .assertEq 2 3, .isZero 3] = .ok (cs, r) ∧
    (∃ z, cs.Sat z ∧ Reads r z ⟨[2, 5, 7, 7], [false]⟩) ∧ ¬ ∃ z, cs.Sat z ∧ Reads r z ⟨[6, 5, 3, 3], [false]⟩ := by
  refine ⟨_, _, rfl, ?_, ?_⟩
  · rw [c104_circuit (laxArk 17) 3 (by decide) [.int, .int, .add 0 1, .int, .assertEq 2 3, .isZero 3] (by decide) _ _ rfl]
    exact .cons _ _ _ _ _ (.int ⟨[], []⟩ 2 (by decide)) (.cons _ _ _ _ _ (.int ⟨[2], []⟩ 5 (by decide))
      (.cons _ _ _ _ _ (.add ⟨[2, 5], []⟩ 0 1 2 5 rfl rfl (by decide)) (.cons _ _ _ _ _ (.int ⟨[2, 5, 7], []⟩ 7 (by decide))
        (.cons _ _ _ _ _ (.assertEq ⟨[2, 5, 7, 7], []⟩ 2 3 7 rfl rfl)
          (.cons _ _ _ _ _ (.isZero ⟨[2, 5, 7, 7], []⟩ 3 7 rfl) (.nil _))))))
  · rw [c104_circuit (laxArk 17) 3 (by decide) [.int, .int, .add 0 1, .int, .assertEq 2 3, .isZero 3] (by decide) _ _ rfl]
    intro t
    cases t with
    | cons _ _ s1 _ _ t1 t =>
    cases t with
    | cons _ _ s2 _ _ t2 t =>
    cases t with
    | cons _ _ s3 _ _ t3 t =>
    cases t with
    | cons _ _ s4 _ _ t4 t =>
    cases t with
    | cons _ _ s5 _ _ t5 t =>
    cases t with
    | cons _ _ s6 _ _ t6 t =>
    cases t
    cases t1
    cases t2
    cases t3 with
    | add i j vx vy hvx hvy hv =>
    cases t4
    cases t5
    generalize hq : (⟨[6, 5, 3, 3], [false]⟩ : Ideal) = q at t6
    cases t6
    simp at hvx hvy hq
    omega

example : ∃ cs r, build (laxArk 17) 4 (Cs.empty : Cs 17) ⟨[], []⟩ [.int, .int, .add 0 1] = .ok (cs, r) ∧
    ∃ z, cs.Sat z ∧ ∃ a b, a + b = 17 ∧ Reads r z ⟨[a, b, 0], []⟩ := by
  obtain ⟨cs, r, h, z, hs, a, b, e, hr, _⟩ := c104_add_violated (laxArk 17) 4 (by decide) (by decide)
  exact ⟨cs, r, h, z, hs, a, b, e, hr⟩

end Verif.Gadget
