/-!
# Measuring constraint systems

`manta-crypto/src/constraint.rs:136-386` (module `measure`): sizes, their sum and difference, measuring after a call,
and the instrument which attaches a label to the growth of the system during each call; with
`arkworks/constraint/mod.rs:165-199`, the counts of `R1CS`. Counts are natural numbers; overflow of `usize` is not
modelled. The instrument's sums never exceed the size of the system itself (`c141_totals`).
-/

namespace Verif.Circuit.Measure

/-- `Size`, constraint.rs:205-225; a count that the system does not keep is `none`. -/
structure Size where
  constraints : Nat := 0
  constants : Option Nat := none
  publics : Option Nat := none
  secrets : Option Nat := none
  deriving DecidableEq, Repr

/-- `usize::checked_sub`. -/
def natSub (l r : Nat) : Option Nat := if r ≤ l then some (l - r) else none

/-- One optional count of `checked_sub`, constraint.rs:235-239; the outer `none` is the `?`. -/
def subCount : Option Nat → Option Nat → Option (Option Nat)
  | some l, some r => (natSub l r).map some
  | some l, none => some (some l)
  | none, _ => some none

/-- `Size::checked_sub`, constraint.rs:227-253. -/
def Size.checkedSub (a b : Size) : Option Size := do
  let c ← natSub a.constraints b.constraints
  let k ← subCount a.constants b.constants
  let p ← subCount a.publics b.publics
  let s ← subCount a.secrets b.secrets
  return ⟨c, k, p, s⟩

/-- One optional count of `add_assign`, constraint.rs:269-273. -/
def addCount : Option Nat → Option Nat → Option Nat
  | some l, some r => some (l + r)
  | some l, none => some l
  | none, r => r

/-- `Add`, `AddAssign`, constraint.rs:255-291. -/
def Size.add (a b : Size) : Size :=
  ⟨a.constraints + b.constraints, addCount a.constants b.constants, addCount a.publics b.publics,
    addCount a.secrets b.secrets⟩

variable {σ : Type}

/-- `Measure::after`, constraint.rs:176-186, for a call `f` which may panic. -/
def after (meas : σ → Size) (m : Size) (f : σ → Option σ) (s : σ) : Option (σ × Size) :=
  (f s).map fun s' => (s', m.add (meas s'))

/-- `Measure::after_ignore`, constraint.rs:188-199. -/
def afterIgnore (meas : σ → Size) (f : σ → Option σ) (s : σ) : Option (σ × Size) := after meas {} f s

/-- `Instrument`, constraint.rs:317-327. -/
structure Inst (σ : Type) where
  base : σ
  ms : List (String × Size) := []

/-- One use of an instrument: a call with a label, or a call on the system itself through `DerefMut`. -/
inductive Use (σ : Type)
  | measured (label : String) (f : σ → Option σ)
  | direct (f : σ → Option σ)

/-- The call. -/
def Use.call : Use σ → σ → Option σ
  | .measured _ f => f
  | .direct f => f

/-- The label. -/
def Use.label : Use σ → Option String
  | .measured l _ => some l
  | .direct _ => none

/-- `Instrument::measure`, constraint.rs:342-361, and `deref_mut`, 376-384; `none` is a panic. -/
def Inst.step (meas : σ → Size) (i : Inst σ) : Use σ → Option (Inst σ)
  | .measured l f =>
    let before := meas i.base
    match f i.base with
    | none => none
    | some b =>
      match (meas b).checkedSub before with
      | none => none
      | some d => some ⟨b, i.ms ++ [(l, d)]⟩
  | .direct f => (f i.base).map fun b => { i with base := b }

/-- Uses one after the other. -/
def Inst.run (meas : σ → Size) (i : Inst σ) (us : List (Use σ)) : Option (Inst σ) :=
  us.foldlM (Inst.step meas) i

/-- `print_measurement`, constraint.rs:293-315: the size that is printed. -/
def printed (meas : σ → Size) (f : σ → Option σ) (s : σ) : Option (σ × Size) :=
  (f s).bind fun s' => ((meas s').checkedSub (meas s)).map fun d => (s', d)

/-! ## Specification: four quantities -/

/-- What is counted. -/
inductive Quantity
  | constraints
  | constants
  | publics
  | secrets
  deriving DecidableEq, Repr

/-- The count, if it is kept. -/
def Size.count (s : Size) : Quantity → Option Nat
  | .constraints => some s.constraints
  | .constants => s.constants
  | .publics => s.publics
  | .secrets => s.secrets

/-- The count; 0 if it is not kept. -/
def Size.val (s : Size) (q : Quantity) : Nat := (s.count q).getD 0

/-- The count is kept. -/
def Size.known (s : Size) (q : Quantity) : Prop := (s.count q).isSome

/-- Some count that both keep is lower in the first. -/
def Smaller (a b : Size) : Prop := ∃ q, a.known q ∧ b.known q ∧ a.val q < b.val q

/-- What is kept does not depend on the state. -/
def Keeps (meas : σ → Size) : Prop := ∀ s s' q, (meas s).known q ↔ (meas s').known q

theorem Size.ext_count {a b : Size} (h : ∀ q, a.count q = b.count q) : a = b := by
  have h1 := h .constraints
  have h2 := h .constants
  have h3 := h .publics
  have h4 := h .secrets
  cases a; cases b
  simp only [Size.count, Option.some.injEq] at h1 h2 h3 h4
  subst h1 h2 h3 h4
  rfl

theorem add_count (a b : Size) (q : Quantity) : (a.add b).count q = addCount (a.count q) (b.count q) := by
  cases q <;> rfl

theorem addCount_comm (x y : Option Nat) : addCount x y = addCount y x := by
  cases x <;> cases y <;> simp [addCount, Nat.add_comm]

theorem addCount_assoc (x y z : Option Nat) : addCount (addCount x y) z = addCount x (addCount y z) := by
  cases x <;> cases y <;> cases z <;> simp [addCount, Nat.add_assoc]

theorem sub_count (a b d : Size) (h : a.checkedSub b = some d) (q : Quantity) :
    subCount (a.count q) (b.count q) = some (d.count q) := by
  unfold Size.checkedSub at h
  simp only [Option.bind_eq_bind, Option.bind_eq_some_iff] at h
  obtain ⟨c, hc, k, hk, p, hp, s, hs, h⟩ := h
  cases h
  cases q
  · simp [Size.count, subCount, hc]
  · exact hk
  · exact hp
  · exact hs

theorem sub_none (a b : Size) (h : a.checkedSub b = none) : ∃ q, subCount (a.count q) (b.count q) = none := by
  apply Classical.byContradiction
  intro hn
  have hq : ∀ q, subCount (a.count q) (b.count q) ≠ none := fun q hc => hn ⟨q, hc⟩
  have h1 := hq .constraints
  have h2 := hq .constants
  have h3 := hq .publics
  have h4 := hq .secrets
  simp only [Size.count] at h1 h2 h3 h4
  unfold Size.checkedSub at h
  cases e2 : subCount a.constants b.constants with
  | none => exact h2 e2
  | some k =>
    cases e3 : subCount a.publics b.publics with
    | none => exact h3 e3
    | some p =>
      cases e4 : subCount a.secrets b.secrets with
      | none => exact h4 e4
      | some s =>
        rw [e2, e3, e4] at h
        cases e1 : natSub a.constraints b.constraints with
        | none => rw [subCount, e1] at h1; exact h1 rfl
        | some c => rw [e1] at h; cases h

theorem subCount_none (x y : Option Nat) :
    subCount x y = none ↔ x.isSome ∧ y.isSome ∧ x.getD 0 < y.getD 0 := by
  cases x <;> cases y <;> simp [subCount, natSub]

theorem subCount_some (x y d : Option Nat) (h : subCount x y = some d) :
    (d.isSome ↔ x.isSome) ∧ d.getD 0 = x.getD 0 - y.getD 0 := by
  cases x <;> cases y <;> simp only [subCount] at h
  · cases h; simp
  · cases h; simp
  · cases h; simp
  · simp only [natSub] at h
    split at h
    · cases h; simp
    · cases h

/-! ## C141 -/

/-- C141, sums: they add every count, a count is kept as soon as one side keeps it, and neither order nor grouping
matters. -/
theorem c141_sum (a b c : Size) :
    (∀ q, (a.add b).val q = a.val q + b.val q) ∧ (∀ q, (a.add b).known q ↔ a.known q ∨ b.known q) ∧
    a.add b = b.add a ∧ (a.add b).add c = a.add (b.add c) ∧ a.add {} = a := by
  refine ⟨fun q => ?_, fun q => ?_, ?_, ?_, ?_⟩
  · unfold Size.val
    rw [add_count]
    cases a.count q <;> cases b.count q <;> simp [addCount]
  · unfold Size.known
    rw [add_count]
    cases a.count q <;> cases b.count q <;> simp [addCount]
  · exact Size.ext_count fun q => by rw [add_count, add_count, addCount_comm]
  · exact Size.ext_count fun q => by simp only [add_count, addCount_assoc]
  · apply Size.ext_count
    intro q
    rw [add_count]
    cases q
    · rfl
    · show addCount a.constants none = a.constants
      cases a.constants <;> rfl
    · show addCount a.publics none = a.publics
      cases a.publics <;> rfl
    · show addCount a.secrets none = a.secrets
      cases a.secrets <;> rfl

/-- C141, differences: there is none exactly if a count that both sides keep would become negative; otherwise every
count is the difference and the counts of the first side are kept. -/
theorem c141_difference (a b : Size) :
    (a.checkedSub b = none ↔ Smaller a b) ∧
    ∀ d, a.checkedSub b = some d → ∀ q, (d.known q ↔ a.known q) ∧ d.val q = a.val q - b.val q := by
  refine ⟨⟨fun h => ?_, ?_⟩, fun d h q => subCount_some _ _ _ (sub_count a b d h q)⟩
  · obtain ⟨q, hq⟩ := sub_none a b h
    exact ⟨q, (subCount_none _ _).1 hq⟩
  · rintro ⟨q, hq⟩
    cases hd : a.checkedSub b with
    | none => rfl
    | some d =>
      have := sub_count a b d hd q
      rw [(subCount_none _ _).2 hq] at this
      cases this

/-- C141: subtracting what was added always succeeds and gives back every count; the very same size comes back
exactly if every count the added size keeps was already kept. -/
theorem c141_inverse (a b : Size) :
    ∃ d, (a.add b).checkedSub b = some d ∧ (∀ q, d.val q = a.val q) ∧
      (d = a ↔ ∀ q, b.known q → a.known q) := by
  cases hd : (a.add b).checkedSub b with
  | none =>
    obtain ⟨q, _, _, hlt⟩ := (c141_difference (a.add b) b).1.1 hd
    rw [(c141_sum a b a).1 q] at hlt
    omega
  | some d =>
    have hs := (c141_difference (a.add b) b).2 d hd
    refine ⟨d, rfl, fun q => ?_, ?_⟩
    · rw [(hs q).2, (c141_sum a b a).1 q]; omega
    · constructor
      · rintro rfl q hb
        exact (hs q).1.2 (((c141_sum d b d).2.1 q).2 (.inr hb))
      · intro hk
        apply Size.ext_count
        intro q
        have h1 : d.known q ↔ a.known q := by
          rw [(hs q).1, (c141_sum a b a).2.1 q]
          exact ⟨fun h => h.elim id (hk q), .inl⟩
        have h2 : d.val q = a.val q := by rw [(hs q).2, (c141_sum a b a).1 q]; omega
        unfold Size.known at h1
        unfold Size.val at h2
        cases e1 : d.count q <;> cases e2 : a.count q <;> rw [e1, e2] at h1 h2 <;> simp_all

/-- C141, one use of an instrument: it panics exactly if the call does or if a measured call made a count smaller. -/
theorem c141_panics (meas : σ → Size) (i : Inst σ) (u : Use σ) :
    i.step meas u = none ↔
      u.call i.base = none ∨
        (u.label.isSome ∧ ∃ b, u.call i.base = some b ∧ Smaller (meas b) (meas i.base)) := by
  cases u with
  | direct f => simp [Inst.step, Use.call, Use.label]
  | measured l f =>
    simp only [Inst.step, Use.call, Use.label]
    cases hf : f i.base with
    | none => simp
    | some b =>
      simp only [Option.isSome_some, true_and, reduceCtorEq, false_or, Option.some.injEq, exists_eq_left']
      rw [← (c141_difference (meas b) (meas i.base)).1]
      cases (meas b).checkedSub (meas i.base) <;> simp

/-- C141, one use of an instrument that succeeds: the system is as after the call alone; a measured call appends its
label with the growth of every count that is kept, a direct call appends nothing. -/
theorem c141_use (meas : σ → Size) (i i' : Inst σ) (u : Use σ) (h : i.step meas u = some i') :
    u.call i.base = some i'.base ∧
    match u.label with
    | none => i'.ms = i.ms
    | some l => ∃ d, i'.ms = i.ms ++ [(l, d)] ∧
        ∀ q, (d.known q ↔ (meas i'.base).known q) ∧
          ((meas i'.base).known q → (meas i.base).known q → (meas i.base).val q + d.val q = (meas i'.base).val q) := by
  cases u with
  | direct f =>
    simp only [Inst.step, Option.map_eq_some_iff] at h
    obtain ⟨b, hb, rfl⟩ := h
    exact ⟨hb, rfl⟩
  | measured l f =>
    simp only [Inst.step] at h
    split at h
    · cases h
    · rename_i b hb
      split at h
      · cases h
      · rename_i d hd
        cases h
        refine ⟨hb, d, rfl, fun q => ?_⟩
        have hs := (c141_difference _ _).2 d hd q
        refine ⟨hs.1, fun k1 k2 => ?_⟩
        have : ¬ Smaller (meas b) (meas i.base) := by rw [← (c141_difference _ _).1, hd]; simp
        have h3 : (meas i.base).val q ≤ (meas b).val q := by
          apply Nat.le_of_not_lt
          exact fun hlt => this ⟨q, k1, k2, hlt⟩
        have h2 := hs.2
        show (meas i.base).val q + d.val q = (meas b).val q
        omega

/-- The calls alone, without an instrument. -/
def calls (us : List (Use σ)) (s : σ) : Option σ := us.foldlM (fun s u => u.call s) s

/-- C141, any sequence of uses: the system is as after the calls alone, and the labels are those of the measured calls
in order, after what was there before. -/
theorem c141_uses (meas : σ → Size) (us : List (Use σ)) :
    ∀ i i' : Inst σ, i.run meas us = some i' →
      calls us i.base = some i'.base ∧
      ∃ new, i'.ms = i.ms ++ new ∧ new.map Prod.fst = us.filterMap Use.label := by
  induction us with
  | nil =>
    intro i i' h
    simp only [Inst.run, List.foldlM_nil, Option.pure_def, Option.some.injEq] at h
    subst h
    exact ⟨rfl, [], by simp, rfl⟩
  | cons u us ih =>
    intro i i' h
    simp only [Inst.run, List.foldlM_cons, Option.bind_eq_bind, Option.bind_eq_some_iff] at h
    obtain ⟨j, hj, h⟩ := h
    obtain ⟨h1, h2⟩ := c141_use meas i j u hj
    obtain ⟨h3, new, h4, h5⟩ := ih j i' h
    refine ⟨?_, ?_⟩
    · simp only [calls, List.foldlM_cons, Option.bind_eq_bind, h1, Option.bind_some]
      exact h3
    · cases hl : u.label with
      | none =>
        rw [hl] at h2
        exact ⟨new, by rw [h4, h2], by simp [hl, h5]⟩
      | some l =>
        rw [hl] at h2
        obtain ⟨d, h6, -⟩ := h2
        exact ⟨(l, d) :: new, by rw [h4, h6]; simp, by simp [hl, h5]⟩

/-- Sum of one count over measurements. -/
def total (ms : List (String × Size)) (q : Quantity) : Nat := (ms.map fun m => m.2.val q).sum

/-- The call does not make any count smaller. -/
def Grows (meas : σ → Size) (f : σ → Option σ) : Prop :=
  ∀ s s', f s = some s' → ∀ q, (meas s).val q ≤ (meas s').val q

/-- C141, totals: with only measured calls the measurements add up to the growth of the system; with direct calls in
between that do not make it smaller they add up to at most that. -/
theorem c141_totals (meas : σ → Size) (hk : Keeps meas) (us : List (Use σ)) :
    ∀ i i' : Inst σ, i.run meas us = some i' → ∀ q,
      ((∀ u ∈ us, u.label.isSome) → (meas i.base).val q + total i'.ms q = (meas i'.base).val q + total i.ms q) ∧
      ((∀ u ∈ us, u.label = none → Grows meas u.call) →
        (meas i.base).val q + total i'.ms q ≤ (meas i'.base).val q + total i.ms q) := by
  induction us with
  | nil =>
    intro i i' h q
    simp only [Inst.run, List.foldlM_nil, Option.pure_def, Option.some.injEq] at h
    subst h
    simp
  | cons u us ih =>
    intro i i' h q
    simp only [Inst.run, List.foldlM_cons, Option.bind_eq_bind, Option.bind_eq_some_iff] at h
    obtain ⟨j, hj, h⟩ := h
    obtain ⟨h1, h2⟩ := c141_use meas i j u hj
    obtain ⟨h3, h4⟩ := ih j i' h q
    have hstep : u.label.isSome → (meas i.base).val q + total j.ms q = (meas j.base).val q + total i.ms q := by
      intro hu
      obtain ⟨l, hl⟩ := Option.isSome_iff_exists.1 hu
      rw [hl] at h2
      obtain ⟨d, h6, h7⟩ := h2
      have ht : total j.ms q = total i.ms q + d.val q := by simp [total, h6]
      by_cases k : (meas j.base).known q
      · have := (h7 q).2 k ((hk _ _ q).1 k)
        omega
      · have k1 : ¬ (meas i.base).known q := fun h => k ((hk _ _ q).1 h)
        have k2 : ¬ d.known q := fun h => k ((h7 q).1.1 h)
        have z : ∀ x : Size, ¬ x.known q → x.val q = 0 := by
          intro x hx
          unfold Size.known at hx
          unfold Size.val
          cases hc : x.count q with
          | none => rfl
          | some v => rw [hc] at hx; simp at hx
        rw [ht, z _ k, z _ k1, z _ k2]
        omega
    refine ⟨fun hm => ?_, fun hm => ?_⟩
    · have e1 := hstep (hm u (by simp))
      have e2 := h3 fun v hv => hm v (by simp [hv])
      omega
    · have e2 := h4 fun v hv => hm v (by simp [hv])
      cases hl : u.label with
      | some l =>
        have e1 := hstep (by simp [hl])
        omega
      | none =>
        rw [hl] at h2
        have h2 : j.ms = i.ms := h2
        have e1 := hm u (by simp) hl _ _ h1 q
        rw [h2] at e2
        omega

/-- C141: if no call makes a count smaller, an instrument panics only if one of the calls does. -/
theorem c141_safe (meas : σ → Size) (us : List (Use σ)) (hg : ∀ u ∈ us, Grows meas u.call) :
    ∀ i : Inst σ, (i.run meas us = none ↔ calls us i.base = none) := by
  induction us with
  | nil => intro i; simp [Inst.run, calls]
  | cons u us ih =>
    intro i
    cases hj : i.step meas u with
    | none =>
      have hp := (c141_panics meas i u).1 hj
      have hc : u.call i.base = none := by
        rcases hp with h | ⟨_, b, hb, q, _, _, hlt⟩
        · exact h
        · have := hg u (by simp) _ _ hb q
          omega
      simp [Inst.run, calls, hj, hc]
    | some j =>
      have h1 := (c141_use meas i j u hj).1
      have := ih (fun v hv => hg v (by simp [hv])) j
      simpa [Inst.run, calls, hj, h1] using this

/-- C141, measuring after a call: the size of the whole system after the call is added, whatever the system held before
it. So a second call on the same system counts what the first one left again. -/
theorem c141_after (meas : σ → Size) (m : Size) (f g : σ → Option σ) (s s' s'' : σ) (m' m'' n : Size)
    (h : after meas m f s = some (s', m')) (h' : after meas m' g s' = some (s'', m''))
    (hn : afterIgnore meas f s = some (s', n)) :
    f s = some s' ∧ g s' = some s'' ∧ n = meas s' ∧
    ∀ q, m'.val q = m.val q + (meas s').val q ∧ m''.val q = m.val q + (meas s').val q + (meas s'').val q := by
  simp only [after, afterIgnore, Option.map_eq_some_iff, Prod.mk.injEq] at h h' hn
  obtain ⟨_, h1, rfl, rfl⟩ := h
  obtain ⟨_, h2, rfl, rfl⟩ := h'
  obtain ⟨_, h3, rfl, rfl⟩ := hn
  refine ⟨h1, h2, ?_, fun q => ⟨(c141_sum _ _ {}).1 q, ?_⟩⟩
  · rw [(c141_sum {} (meas _) {}).2.2.1, (c141_sum (meas _) {} {}).2.2.2.2]
  · rw [(c141_sum _ _ {}).1 q, (c141_sum _ _ {}).1 q]

/-- C141: a printed measurement is the one an instrument would record, and panics in the same cases. -/
theorem c141_printed (meas : σ → Size) (f : σ → Option σ) (s : σ) (l : String) :
    (printed meas f s).map (fun r => (⟨r.1, [(l, r.2)]⟩ : Inst σ)) =
      (⟨s, []⟩ : Inst σ).step meas (.measured l f) := by
  simp only [printed, Inst.step]
  cases f s with
  | none => rfl
  | some b =>
    simp only [Option.bind_some]
    cases (meas b).checkedSub (meas s) <;> rfl

/-! ## The compiler of the circuits -/

/-- The numbers of an `R1CS`: `num_constraints`, `num_instance_variables`, `num_witness_variables`. -/
structure Counts where
  rows : Nat
  inst : Nat
  wit : Nat
  deriving DecidableEq, Repr

/-- A new system; the constant one is an instance variable (ark-relations). -/
def Counts.new : Counts := ⟨0, 1, 0⟩

/-- `Count` and `Measure` for `R1CS`, arkworks/constraint/mod.rs:165-199: constants are not counted. -/
def Counts.measure (s : Counts) : Size := ⟨s.rows, none, some s.inst, some s.wit⟩

/-- What gadgets do to the system: a constraint, an input or a witness. -/
inductive Prim
  | row
  | input
  | witness
  deriving DecidableEq

/-- One of them. -/
def Prim.apply (s : Counts) : Prim → Counts
  | .row => { s with rows := s.rows + 1 }
  | .input => { s with inst := s.inst + 1 }
  | .witness => { s with wit := s.wit + 1 }

/-- Any number of them. -/
def build (ps : List Prim) (s : Counts) : Option Counts := some (ps.foldl Prim.apply s)

theorem build_grows (ps : List Prim) : ∀ s, s.rows ≤ (ps.foldl Prim.apply s).rows ∧
    s.inst ≤ (ps.foldl Prim.apply s).inst ∧ s.wit ≤ (ps.foldl Prim.apply s).wit := by
  induction ps with
  | nil => simp
  | cons p ps ih =>
    intro s
    have := ih (p.apply s)
    cases p <;> simp only [Prim.apply, List.foldl_cons] at this ⊢ <;> omega

/-- Specification: the quantity that one of them adds to. -/
def Prim.quantity : Prim → Quantity
  | .row => .constraints
  | .input => .publics
  | .witness => .secrets

theorem build_counts (ps : List Prim) (q : Quantity) : ∀ s : Counts,
    (ps.foldl Prim.apply s).measure.val q = s.measure.val q + ps.countP fun p => p.quantity = q := by
  induction ps with
  | nil => simp
  | cons p ps ih =>
    intro s
    rw [List.foldl_cons, ih, List.countP_cons]
    cases p <;> cases q <;> simp [Prim.apply, Prim.quantity, Counts.measure, Size.val, Size.count] <;> omega

/-- C141 for the compiler of the circuits: what it counts never changes, gadgets only make it grow, and so measuring
them never panics; the measurements of a circuit built under labels add up to the numbers of its constraints, inputs and
witnesses, which is its size except for the input that a new system starts with. -/
theorem c141_compiler (us : List (String × List Prim)) :
    Keeps Counts.measure ∧ (∀ ps, Grows Counts.measure (build ps)) ∧
    ∃ i', (⟨Counts.new, []⟩ : Inst Counts).run Counts.measure (us.map fun u => .measured u.1 (build u.2)) = some i' ∧
      i'.ms.map Prod.fst = us.map Prod.fst ∧
      (∀ q, total i'.ms q + (if q = .publics then 1 else 0) = i'.base.measure.val q) ∧
      ∀ q, total i'.ms q = (us.flatMap Prod.snd).countP fun p => p.quantity = q := by
  have hkeep : Keeps Counts.measure := by intro s s' q; cases q <;> simp [Counts.measure, Size.known, Size.count]
  have hgrow : ∀ ps, Grows Counts.measure (build ps) := by
    intro ps s s' h q
    simp only [build, Option.some.injEq] at h
    subst h
    have := build_grows ps s
    cases q <;> simp [Counts.measure, Size.val, Size.count] <;> omega
  refine ⟨hkeep, hgrow, ?_⟩
  have hc : ∀ (us : List (String × List Prim)) s,
      calls (us.map fun u => Use.measured u.1 (build u.2)) s ≠ none := by
    intro us
    induction us with
    | nil => intro s; simp [calls]
    | cons u us ih =>
      intro s
      have := ih (u.2.foldl Prim.apply s)
      simpa [calls, Use.call, build] using this
  cases hr : (⟨Counts.new, []⟩ : Inst Counts).run Counts.measure (us.map fun u => .measured u.1 (build u.2)) with
  | none =>
    exfalso
    refine hc us Counts.new ((c141_safe Counts.measure _ ?_ _).1 hr)
    intro u hu
    obtain ⟨v, _, rfl⟩ := List.mem_map.1 hu
    exact hgrow v.2
  | some i' =>
    have htotal : ∀ q, total i'.ms q + (if q = .publics then 1 else 0) = i'.base.measure.val q := by
      intro q
      have := (c141_totals _ hkeep _ _ _ hr q).1 (by
        intro u hu
        obtain ⟨v, _, rfl⟩ := List.mem_map.1 hu
        rfl)
      cases q <;> simp [Counts.measure, Size.val, Size.count, total, Counts.new] at this ⊢ <;> omega
    refine ⟨i', rfl, ?_, htotal, fun q => ?_⟩
    · obtain ⟨-, new, h1, h2⟩ := c141_uses _ _ _ _ hr
      rw [h1]
      simp only [List.nil_append]
      rw [h2]
      clear hr h1 h2
      induction us with
      | nil => rfl
      | cons u us ih =>
        simp only [List.map_cons, List.filterMap_cons, Use.label]
        exact congrArg _ ih
    · have hb : ∀ (us : List (String × List Prim)) (s : Counts),
          calls (us.map fun u => Use.measured u.1 (build u.2)) s =
            some ((us.flatMap Prod.snd).foldl Prim.apply s) := by
        intro us
        induction us with
        | nil => intro s; rfl
        | cons u us ih =>
          intro s
          have := ih (u.2.foldl Prim.apply s)
          simpa [calls, Use.call, build] using this
      have h1 := (c141_uses _ _ _ _ hr).1
      rw [hb] at h1
      have h2 := htotal q
      rw [← Option.some.inj h1, build_counts] at h2
      cases q <;> simp [Counts.measure, Size.val, Size.count, Counts.new] at h2 ⊢ <;> omega

/-! ## Cases -/

example : Size.checkedSub ⟨5, none, some 3, some 4⟩ ⟨2, some 9, none, some 4⟩ = some ⟨3, none, some 3, some 0⟩ ∧
    Size.checkedSub ⟨5, none, some 3, some 4⟩ ⟨2, none, some 4, some 4⟩ = none ∧
    Smaller ⟨5, none, some 3, some 4⟩ ⟨2, none, some 4, some 4⟩ :=
  ⟨by decide, by decide, .publics, rfl, rfl, by decide⟩

/-- The size does not come back if the added one keeps a count that was not kept. -/
example : (Size.add ⟨1, none, none, none⟩ ⟨2, some 3, none, none⟩).checkedSub ⟨2, some 3, none, none⟩ =
    some ⟨1, some 0, none, none⟩ := by decide

example : ((⟨Counts.new, []⟩ : Inst Counts).run Counts.measure
      [.measured "a" (build [.input, .row]), .direct (build [.row]), .measured "b" (build [.witness, .row])]).map
      (fun i => (i.ms, i.base)) =
    some ([("a", ⟨1, none, some 1, some 0⟩), ("b", ⟨1, none, some 0, some 1⟩)], ⟨3, 2, 1⟩) := by decide

/-- A call that removes a constraint makes the instrument panic. -/
example : (⟨⟨3, 1, 1⟩, []⟩ : Inst Counts).step Counts.measure
    (.measured "c" fun s => some { s with rows := s.rows - 1 }) = none := by rfl

example : after Counts.measure {} (build [.row]) Counts.new = some (⟨1, 1, 0⟩, ⟨1, none, some 1, some 0⟩) ∧
    after Counts.measure ⟨1, none, some 1, some 0⟩ (build [.row]) ⟨1, 1, 0⟩ =
      some (⟨2, 1, 0⟩, ⟨3, none, some 2, some 0⟩) := by decide

end Verif.Circuit.Measure
