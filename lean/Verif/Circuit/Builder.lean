import Verif.Gadget.CsProps

/-!
# Building constraint systems with public inputs

The compiler `R1CS<F>` of manta-crypto/src/arkworks/constraint/mod.rs as a state that circuits are written into. The
state is a constraint system (`Verif.Gadget.Cs`) and the list of the variables which are public inputs, in the order
in which they were allocated. Building does not see the values of the variables. `none` is a panic.
-/

namespace Verif.Circuit

open Verif.Gadget

variable {p : Nat}

/-- The compiler: the constraint system and its instance variables in order. -/
structure St (p : Nat) where
  cs : Cs p
  pub : List Nat

/-- The compiler as it is created, constraint/mod.rs:109-127. -/
def St.empty : St p := ⟨Cs.empty, []⟩

/-- A function that takes `compiler: &mut R1CS<F>`. -/
abbrev B (p : Nat) (α : Type) := StateT (St p) Option α

/-- A gadget that cannot panic. -/
def lift {α : Type} (f : Cs p → Cs p × α) : B p α := fun st => some ((f st.cs).2, ⟨(f st.cs).1, st.pub⟩)

/-- A gadget that may panic. -/
def liftE {α : Type} (f : Cs p → Except Panic (Cs p × α)) : B p α := fun st =>
  match f st.cs with
  | .error _ => none
  | .ok r => some (r.2, ⟨r.1, st.pub⟩)

/-- A value that may be a panic. -/
def ofOption {α : Type} (x : Option α) : B p α := fun st => x.map fun a => (a, st)

/-- The allocation modes, eclair/alloc.rs:395-460. -/
inductive Mode
  | pub
  | sec
  deriving DecidableEq, Repr

/-- `FpVar::new_input` and `new_witness`, constraint/mod.rs:350-386. -/
def allocF (m : Mode) : B p (Lc p) := fun st =>
  some ((allocFp st.cs).2, ⟨(allocFp st.cs).1, match m with | .pub => st.pub ++ [st.cs.next] | .sec => st.pub⟩)

/-- `Boolean::new_input` and `new_witness`, constraint/mod.rs:225-267. -/
def allocB (m : Mode) : B p (Lc p) := fun st =>
  some ((allocBool st.cs).2, ⟨(allocBool st.cs).1, match m with | .pub => st.pub ++ [st.cs.next] | .sec => st.pub⟩)

/-- `UnsignedInteger` with 128 bits: the variable, then its range, eclair/num.rs:376-400. The bits are witnesses. -/
def allocU (A : Ark p) (m : Mode) : B p (Lc p) := do
  let v ← allocF m
  liftE fun cs => uNew A 128 cs v

/-- `assert_eq` for field elements, booleans and integers: `eq`, then `assert` (eclair/cmp.rs:49-57). -/
def assertEqF (x y : Lc p) : B p Unit := do
  let b ← lift fun cs => gEq cs x y
  lift fun cs => (gAssert cs b, ())

/-- `assert_eq` for booleans. -/
def assertEqB (x y : Lc p) : B p Unit := do
  let b ← lift fun cs => gBoolEq cs x y
  lift fun cs => (gAssert cs b, ())

/-! ## What a piece of circuit does

A world is a state of the compiler together with a condition on assignments: the assignments which give the variables
allocated so far the values of a fixed native object. -/

/-- The assignments of a world. -/
def Holds (G : Asg p → Prop) (st : St p) (z : Asg p) : Prop := st.cs.Sat z ∧ G z

/-- Constraints and condition use allocated variables only. -/
structure Ok (G : Asg p → Prop) (st : St p) : Prop where
  rows : ∀ c ∈ st.cs.rows, Scoped st.cs.next c
  cond : Scoped st.cs.next G

/-- The second world is an extension of the first one. -/
structure Le (G : Asg p → Prop) (st : St p) (G' : Asg p → Prop) (st' : St p) : Prop where
  next : st.cs.next ≤ st'.cs.next
  sat : ∀ z, st'.cs.Sat z → st.cs.Sat z
  back : ∀ z, Holds G' st' z → Holds G st z

theorem Le.refl (G : Asg p → Prop) (st : St p) : Le G st G st := ⟨Nat.le_refl _, fun _ h => h, fun _ h => h⟩

theorem Le.trans {G G' G'' : Asg p → Prop} {st st' st'' : St p} (h : Le G st G' st') (g : Le G' st' G'' st'') :
    Le G st G'' st'' :=
  ⟨Nat.le_trans h.next g.next, fun z hz => h.sat z (g.sat z hz), fun z hz => h.back z (g.back z hz)⟩

/-- One or more calls: exactly the assignments of the first world with `φ` can be extended to the second one, and there
are no new public inputs. -/
structure Step (G : Asg p → Prop) (st : St p) (G' : Asg p → Prop) (st' : St p) (φ : Prop) : Prop where
  ok : Ok G' st'
  le : Le G st G' st'
  sound : ∀ z, Holds G' st' z → φ
  complete : ∀ z, Holds G st z → φ → ∃ z', Agree st.cs.next z z' ∧ Holds G' st' z'
  pub : st'.pub = st.pub

theorem Step.trans {G G' G'' : Asg p → Prop} {st st' st'' : St p} {φ ψ : Prop}
    (h : Step G st G' st' φ) (g : Step G' st' G'' st'' ψ) : Step G st G'' st'' (φ ∧ ψ) := by
  refine ⟨g.ok, h.le.trans g.le, fun z hz => ⟨h.sound z (g.le.back z hz), g.sound z hz⟩, ?_, g.pub.trans h.pub⟩
  rintro z hz ⟨h1, h2⟩
  obtain ⟨z', e, hz'⟩ := h.complete z hz h1
  obtain ⟨z'', e', hz''⟩ := g.complete z' hz' h2
  exact ⟨z'', fun i hi => (e i hi).trans (e' i (Nat.lt_of_lt_of_le hi h.le.next)), hz''⟩

theorem Step.of_iff {G G' : Asg p → Prop} {st st' : St p} {φ ψ : Prop}
    (h : Step G st G' st' φ) (e : φ ↔ ψ) : Step G st G' st' ψ := by
  rw [propext e] at h
  exact h

theorem Step.refl {G : Asg p → Prop} {st : St p} (h : Ok G st) : Step G st G st True :=
  ⟨h, Le.refl G st, fun _ _ => trivial, fun z hz _ => ⟨z, fun _ _ => rfl, hz⟩, rfl⟩

/-- The variable has this value in all assignments of the world. -/
def Kn (G : Asg p → Prop) (st : St p) (a : Lc p) (v : ZMod p) : Prop :=
  Scoped st.cs.next a ∧ ∀ z, Holds G st z → a z = v

theorem Kn.up {G G' : Asg p → Prop} {st st' : St p} {a : Lc p} {v : ZMod p} (h : Kn G st a v)
    (l : Le G st G' st') : Kn G' st' a v := ⟨h.1.mono l.next, fun z hz => h.2 z (l.back z hz)⟩

theorem Kn.const (G : Asg p → Prop) (st : St p) (v : ZMod p) : Kn G st (fun _ => v) v :=
  ⟨fun _ _ _ => rfl, fun _ _ => rfl⟩

theorem Kn.comp₂ {G : Asg p → Prop} {st : St p} {a b : Lc p} {v w : ZMod p} (h : Kn G st a v) (g : Kn G st b w)
    (f : ZMod p → ZMod p → ZMod p) : Kn G st (fun z => f (a z) (b z)) (f v w) :=
  ⟨fun z z' e => by beta_reduce; rw [h.1 z z' e, g.1 z z' e], fun z hz => by beta_reduce; rw [h.2 z hz, g.2 z hz]⟩

theorem Kn.comp {G : Asg p → Prop} {st : St p} {a : Lc p} {v : ZMod p} (h : Kn G st a v)
    (f : ZMod p → ZMod p) : Kn G st (fun z => f (a z)) (f v) :=
  ⟨fun z z' e => by beta_reduce; rw [h.1 z z' e], fun z hz => by beta_reduce; rw [h.2 z hz]⟩

/-- The variables have these values. -/
inductive KnL (G : Asg p → Prop) (st : St p) : List (Lc p) → List (ZMod p) → Prop
  | nil : KnL G st [] []
  | cons {x : Lc p} {v : ZMod p} {xs : List (Lc p)} {vs : List (ZMod p)} :
      Kn G st x v → KnL G st xs vs → KnL G st (x :: xs) (v :: vs)

theorem KnL.up {G G' : Asg p → Prop} {st st' : St p} {xs : List (Lc p)} {vs : List (ZMod p)} (h : KnL G st xs vs)
    (l : Le G st G' st') : KnL G' st' xs vs := by
  induction h with
  | nil => exact .nil
  | cons h _ ih => exact .cons (h.up l) ih

theorem KnL.length {G : Asg p → Prop} {st : St p} {xs : List (Lc p)} {vs : List (ZMod p)} (h : KnL G st xs vs) :
    xs.length = vs.length := by
  induction h with
  | nil => rfl
  | cons _ _ ih => simp [ih]

theorem KnL.append {G : Asg p → Prop} {st : St p} {xs ys : List (Lc p)} {vs ws : List (ZMod p)}
    (h : KnL G st xs vs) (g : KnL G st ys ws) : KnL G st (xs ++ ys) (vs ++ ws) := by
  induction h with
  | nil => exact g
  | cons h _ ih => exact .cons h ih

theorem KnL.get {G : Asg p → Prop} {st : St p} {xs : List (Lc p)} {vs : List (ZMod p)} (h : KnL G st xs vs) {i : Nat}
    {v : ZMod p} (hv : vs[i]? = some v) : ∃ x, xs[i]? = some x ∧ Kn G st x v := by
  induction h generalizing i with
  | nil => simp at hv
  | @cons x w xs vs h _ ih =>
    cases i with
    | zero => exact ⟨x, rfl, by simp at hv; exact hv ▸ h⟩
    | succ i => simpa using ih (by simpa using hv)

theorem KnL.drop {G : Asg p → Prop} {st : St p} {xs : List (Lc p)} {vs : List (ZMod p)} (h : KnL G st xs vs)
    (n : Nat) : KnL G st (xs.drop n) (vs.drop n) := by
  induction h generalizing n with
  | nil => simpa using KnL.nil
  | cons h t ih =>
    cases n with
    | zero => exact .cons h t
    | succ n => exact ih n

theorem KnL.take {G : Asg p → Prop} {st : St p} {xs : List (Lc p)} {vs : List (ZMod p)} (h : KnL G st xs vs)
    (n : Nat) : KnL G st (xs.take n) (vs.take n) := by
  induction h generalizing n with
  | nil => simpa using KnL.nil
  | cons h t ih =>
    cases n with
    | zero => exact .nil
    | succ n => exact .cons h (ih n)

theorem KnL.consts (G : Asg p → Prop) (st : St p) (vs : List (ZMod p)) : KnL G st (vs.map fun v _ => v) vs := by
  induction vs with
  | nil => exact .nil
  | cons v vs ih => exact .cons (Kn.const G st v) ih

/-- A gadget: it does not panic, adds no public inputs, is satisfiable exactly when `φ`, and its result is as
described. -/
def Gad {α : Type} (G : Asg p → Prop) (st : St p) (m : B p α) (φ : Prop) (Q : St p → α → Prop) : Prop :=
  Ok G st → ∃ a st', m st = some (a, st') ∧ Step G st G st' φ ∧ Q st' a

theorem Gad.pure {α : Type} {G : Asg p → Prop} {st : St p} {a : α} {Q : St p → α → Prop} (h : Q st a) :
    Gad G st (Pure.pure a) True Q := fun ok => ⟨a, st, rfl, Step.refl ok, h⟩

theorem Gad.bind {α β : Type} {G : Asg p → Prop} {st : St p} {m : B p α} {f : α → B p β} {φ ψ : Prop}
    {Q : St p → α → Prop} {R : St p → β → Prop} (h : Gad G st m φ Q)
    (k : ∀ a st', Le G st G st' → Q st' a → Gad G st' (f a) ψ R) : Gad G st (m >>= f) (φ ∧ ψ) R := by
  intro ok
  obtain ⟨a, st', e, s, q⟩ := h ok
  obtain ⟨b, st'', e', s', r⟩ := k a st' s.le q s.ok
  refine ⟨b, st'', ?_, by simpa using s.trans s', r⟩
  show (m st).bind _ = _
  rw [e]
  exact e'

theorem Gad.imp {α : Type} {G : Asg p → Prop} {st : St p} {m : B p α} {φ ψ : Prop} {Q R : St p → α → Prop}
    (h : Gad G st m φ Q) (e : φ ↔ ψ) (q : ∀ st' a, Le G st G st' → Q st' a → R st' a) : Gad G st m ψ R := by
  intro ok
  obtain ⟨a, st', e1, s, h1⟩ := h ok
  exact ⟨a, st', e1, s.of_iff e, q st' a s.le h1⟩

/-- Sequence where the first part is always satisfiable. -/
theorem Gad.seq {α β : Type} {G : Asg p → Prop} {st : St p} {m : B p α} {f : α → B p β} {ψ : Prop}
    {Q : St p → α → Prop} {R : St p → β → Prop} (h : Gad G st m True Q)
    (k : ∀ a st', Le G st G st' → Q st' a → Gad G st' (f a) ψ R) : Gad G st (m >>= f) ψ R :=
  (h.bind k).imp (by simp) fun _ _ _ h => h

theorem Gad.option {α β : Type} {G : Asg p → Prop} {st : St p} {x : Option α} {a : α} {f : α → B p β} {ψ : Prop}
    {R : St p → β → Prop} (hx : x = some a) (h : Gad G st (f a) ψ R) : Gad G st (ofOption x >>= f) ψ R := by
  intro ok
  obtain ⟨b, st', e, s, q⟩ := h ok
  refine ⟨b, st', ?_, s, q⟩
  show (ofOption x st).bind _ = _
  rw [ofOption, hx]
  exact e

theorem Gad.some {α : Type} {G : Asg p → Prop} {st : St p} {x : Option α} {a : α} {Q : St p → α → Prop}
    (hx : x = some a) (h : Q st a) : Gad G st (ofOption x) True Q := fun ok =>
  ⟨a, st, by simp [Circuit.ofOption, hx], Step.refl ok, h⟩

/-- Adding constraints and variables, in general. -/
theorem Step.ext {G : Asg p → Prop} {st : St p} (ok : Ok G st) (k : Nat) (rows : List (Asg p → Prop)) (φ : Prop)
    (hr : ∀ c ∈ rows, Scoped (st.cs.next + k) c)
    (sound : ∀ z, Holds G st z → (∀ c ∈ rows, c z) → φ)
    (complete : ∀ z, Holds G st z → φ → ∃ z', Agree st.cs.next z z' ∧ ∀ c ∈ rows, c z') :
    Step G st G ⟨st.cs.ext k rows, st.pub⟩ φ := by
  have back : ∀ z, Holds G ⟨st.cs.ext k rows, st.pub⟩ z → Holds G st z := fun z hz => ⟨(sat_ext.1 hz.1).2, hz.2⟩
  refine ⟨⟨fun c hc => ?_, ok.cond.mono (Nat.le_add_right _ _)⟩, ⟨Nat.le_add_right _ _, fun z hz => (sat_ext.1 hz).2, back⟩,
    fun z hz => ?_, ?_, rfl⟩
  · simp only [Cs.ext, List.mem_append] at hc
    rcases hc with hc | hc
    · exact hr c hc
    · exact (ok.rows c hc).mono (Nat.le_add_right _ _)
  · exact sound z (back z hz) (sat_ext.1 hz.1).1
  · intro z hz hφ
    obtain ⟨z', e, hz'⟩ := complete z hz hφ
    exact ⟨z', e, sat_ext.2 ⟨hz', sat_agree ok.rows e hz.1⟩, (ok.cond z z' e) ▸ hz.2⟩

/-! ## Gadgets of the compiler -/

section

variable [Fact p.Prime] {G : Asg p → Prop} {st : St p}

theorem and_gad {a b : Lc p} {u v : Bool} (ha : Kn G st a (fbit u)) (hb : Kn G st b (fbit v)) :
    Gad G st (lift fun cs => gAnd cs a b) True fun st' c => Kn G st' c (fbit (u && v)) := by
  intro ok
  refine ⟨_, _, rfl, Step.ext ok 1 _ True ?_ (fun _ _ _ => trivial) ?_, ?_, ?_⟩
  · intro c hc z z' e
    simp only [List.mem_singleton] at hc
    subst hc
    beta_reduce
    rw [ha.1 z z' fun i hi => e i (by omega), hb.1 z z' fun i hi => e i (by omega), e _ (by omega)]
  · intro z hz _
    refine ⟨upd z st.cs.next (a z * b z), agree_upd _ _ _ _ (Nat.le_refl _), fun c hc => ?_⟩
    have e := agree_upd z st.cs.next st.cs.next (a z * b z) (Nat.le_refl _)
    simp only [List.mem_singleton] at hc
    subst hc
    show _ = _
    rw [← ha.1 z _ e, ← hb.1 z _ e, upd_same]
  · exact scoped_var (by show _ < st.cs.next + 1; omega)
  · intro z hz
    have h := (sat_ext.1 hz.1).1 _ (List.mem_singleton.2 rfl)
    have hz' : Holds G st z := ⟨(sat_ext.1 hz.1).2, hz.2⟩
    rw [ha.2 z hz', hb.2 z hz'] at h
    show z st.cs.next = _
    rw [← h]
    cases u <;> cases v <;> simp [fbit]

theorem or_gad {a b : Lc p} {u v : Bool} (ha : Kn G st a (fbit u)) (hb : Kn G st b (fbit v)) :
    Gad G st (lift fun cs => gOr cs a b) True fun st' c => Kn G st' c (fbit (u || v)) := by
  intro ok
  refine ⟨_, _, rfl, Step.ext ok 1 _ True ?_ (fun _ _ _ => trivial) ?_, ?_, ?_⟩
  · intro c hc z z' e
    simp only [List.mem_singleton] at hc
    subst hc
    beta_reduce
    rw [ha.1 z z' fun i hi => e i (by omega), hb.1 z z' fun i hi => e i (by omega), e _ (by omega)]
  · intro z hz _
    refine ⟨upd z st.cs.next (1 - (1 - a z) * (1 - b z)), agree_upd _ _ _ _ (Nat.le_refl _), fun c hc => ?_⟩
    have e := agree_upd z st.cs.next st.cs.next (1 - (1 - a z) * (1 - b z)) (Nat.le_refl _)
    simp only [List.mem_singleton] at hc
    subst hc
    show _ = _
    rw [← ha.1 z _ e, ← hb.1 z _ e, upd_same]
    ring
  · exact scoped_var (by show _ < st.cs.next + 1; omega)
  · intro z hz
    have h := (sat_ext.1 hz.1).1 _ (List.mem_singleton.2 rfl)
    have hz' : Holds G st z := ⟨(sat_ext.1 hz.1).2, hz.2⟩
    rw [ha.2 z hz', hb.2 z hz'] at h
    show z st.cs.next = _
    have : z st.cs.next = 1 - (1 - fbit u) * (1 - fbit v) := by rw [h]; ring
    rw [this]
    cases u <;> cases v <;> simp [fbit]

theorem boolEq_gad {a b : Lc p} {u v : Bool} (ha : Kn G st a (fbit u)) (hb : Kn G st b (fbit v)) :
    Gad G st (lift fun cs => gBoolEq cs a b) True fun st' c => Kn G st' c (fbit (decide (u = v))) := by
  intro ok
  refine ⟨_, _, rfl, Step.ext ok 1 _ True ?_ (fun _ _ _ => trivial) ?_, ?_, ?_⟩
  · intro c hc z z' e
    simp only [List.mem_singleton] at hc
    subst hc
    beta_reduce
    rw [ha.1 z z' fun i hi => e i (by omega), hb.1 z z' fun i hi => e i (by omega), e _ (by omega)]
  · intro z hz _
    refine ⟨upd z st.cs.next (a z + b z - (a z + a z) * b z), agree_upd _ _ _ _ (Nat.le_refl _), fun c hc => ?_⟩
    have e := agree_upd z st.cs.next st.cs.next (a z + b z - (a z + a z) * b z) (Nat.le_refl _)
    simp only [List.mem_singleton] at hc
    subst hc
    show _ = _
    rw [← ha.1 z _ e, ← hb.1 z _ e, upd_same]
    ring
  · intro z z' e
    show 1 - z st.cs.next = 1 - z' st.cs.next
    rw [e _ (by show _ < st.cs.next + 1; omega)]
  · intro z hz
    have h := (sat_ext.1 hz.1).1 _ (List.mem_singleton.2 rfl)
    have hz' : Holds G st z := ⟨(sat_ext.1 hz.1).2, hz.2⟩
    rw [ha.2 z hz', hb.2 z hz'] at h
    show 1 - z st.cs.next = _
    have : z st.cs.next = fbit u + fbit v - (fbit u + fbit u) * fbit v := by rw [h]; ring
    rw [this]
    cases u <;> cases v <;> simp [fbit]

theorem assert_gad {b : Lc p} {u : Bool} (hb : Kn G st b (fbit u)) :
    Gad G st (lift fun cs => (gAssert cs b, ())) (u = true) fun _ _ => True := by
  intro ok
  refine ⟨(), _, rfl, Step.ext ok 0 _ _ ?_ ?_ ?_, trivial⟩
  · intro c hc z z' e
    simp only [List.mem_singleton] at hc
    subst hc
    beta_reduce
    rw [hb.1 z z' fun i hi => e i (by omega)]
  · intro z hz hc
    have h := hc _ (List.mem_singleton.2 rfl)
    rw [hb.2 z hz] at h
    cases u
    · simp [fbit] at h
    · rfl
  · intro z hz hu
    refine ⟨z, fun _ _ => rfl, fun c hc => ?_⟩
    simp only [List.mem_singleton] at hc
    subst hc
    show b z = 1
    rw [hb.2 z hz, hu]
    rfl

theorem eq_gad {x y : Lc p} {v w : ZMod p} (hx : Kn G st x v) (hy : Kn G st y w) :
    Gad G st (lift fun cs => gEq cs x y) True fun st' c => Kn G st' c (fbit (decide (v = w))) := by
  intro ok
  refine ⟨_, _, rfl, Step.ext ok 2 _ True ?_ (fun _ _ _ => trivial) ?_, ?_, ?_⟩
  · intro c hc z z' e
    simp only [List.mem_cons, List.not_mem_nil, or_false] at hc
    rcases hc with rfl | rfl | rfl
    · beta_reduce
      rw [e st.cs.next (by omega)]
    · beta_reduce
      rw [hx.1 z z' fun i hi => e i (by omega), hy.1 z z' fun i hi => e i (by omega), e st.cs.next (by omega),
        e (st.cs.next + 1) (by omega)]
    · beta_reduce
      rw [hx.1 z z' fun i hi => e i (by omega), hy.1 z z' fun i hi => e i (by omega), e _ (by omega)]
  · intro z hz _
    let d := x z - y z
    let b : ZMod p := if d = 0 then 0 else 1
    let m : ZMod p := if d = 0 then 0 else d⁻¹
    have e : Agree st.cs.next z (upd (upd z st.cs.next b) (st.cs.next + 1) m) :=
      (agree_upd z _ _ b (Nat.le_refl _)).trans (agree_upd _ _ _ m (by omega))
    refine ⟨_, e, fun c hc => ?_⟩
    have hb : upd (upd z st.cs.next b) (st.cs.next + 1) m st.cs.next = b := by
      rw [upd_other _ _ (by omega), upd_same]
    have hm : upd (upd z st.cs.next b) (st.cs.next + 1) m (st.cs.next + 1) = m := upd_same _ _ _
    simp only [List.mem_cons, List.not_mem_nil, or_false] at hc
    rcases hc with rfl | rfl | rfl
    · show _ = _
      rw [hb]
      by_cases hd : d = 0 <;> simp [b, hd]
    · show _ = _
      rw [hb, hm, ← hx.1 z _ e, ← hy.1 z _ e]
      by_cases hd : d = 0
      · simp [b, m, hd]
      · simp only [b, m, hd, if_false]
        exact mul_inv_cancel₀ hd
    · show _ = _
      rw [hb, ← hx.1 z _ e, ← hy.1 z _ e]
      by_cases hd : d = 0
      · have : x z - y z = 0 := hd
        rw [this]
        ring
      · simp [b, hd]
  · intro z z' e
    show 1 - z st.cs.next = 1 - z' st.cs.next
    rw [e _ (by show _ < st.cs.next + 2; omega)]
  · intro z hz
    have hr := (sat_ext.1 hz.1).1
    have h1 := hr _ (List.mem_cons_self ..)
    have h2 := hr _ (List.mem_cons_of_mem _ (List.mem_cons_self ..))
    have h3 := hr _ (List.mem_cons_of_mem _ (List.mem_cons_of_mem _ (List.mem_cons_self ..)))
    have hz' : Holds G st z := ⟨(sat_ext.1 hz.1).2, hz.2⟩
    rw [hx.2 z hz', hy.2 z hz'] at h2 h3
    show 1 - z st.cs.next = _
    by_cases h : v = w
    · rw [h, sub_self, zero_mul] at h2
      simp [← h2, h, fbit]
    · rcases mul_eq_zero.1 h3 with h3 | h3
      · exact absurd (sub_eq_zero.1 h3) h
      · rw [h3]
        simp [h, fbit]

theorem select_gad {b x y : Lc p} {u : Bool} {v w : ZMod p} (hb : Kn G st b (fbit u)) (hx : Kn G st x v)
    (hy : Kn G st y w) :
    Gad G st (lift fun cs => gSelect cs b x y) True fun st' c => Kn G st' c (if u then v else w) := by
  intro ok
  refine ⟨_, _, rfl, Step.ext ok 1 _ True ?_ (fun _ _ _ => trivial) ?_, ?_, ?_⟩
  · intro c hc z z' e
    simp only [List.mem_singleton] at hc
    subst hc
    beta_reduce
    rw [hb.1 z z' fun i hi => e i (by omega), hx.1 z z' fun i hi => e i (by omega),
      hy.1 z z' fun i hi => e i (by omega), e _ (by omega)]
  · intro z hz _
    have e := agree_upd z st.cs.next st.cs.next (b z * (x z - y z) + y z) (Nat.le_refl _)
    refine ⟨_, e, fun c hc => ?_⟩
    simp only [List.mem_singleton] at hc
    subst hc
    show _ = _
    rw [← hb.1 z _ e, ← hx.1 z _ e, ← hy.1 z _ e, upd_same]
    ring
  · exact scoped_var (by show _ < st.cs.next + 1; omega)
  · intro z hz
    have h := (sat_ext.1 hz.1).1 _ (List.mem_singleton.2 rfl)
    have hz' : Holds G st z := ⟨(sat_ext.1 hz.1).2, hz.2⟩
    rw [hb.2 z hz', hx.2 z hz', hy.2 z hz'] at h
    show z st.cs.next = _
    have : z st.cs.next = fbit u * (v - w) + w := by rw [h]; ring
    rw [this]
    cases u <;> simp [fbit]

theorem mul_gad {x y : Lc p} {v w : ZMod p} (hx : Kn G st x v) (hy : Kn G st y w) :
    Gad G st (lift fun cs => gMul cs x y) True fun st' c => Kn G st' c (v * w) := by
  intro ok
  refine ⟨_, _, rfl, Step.ext ok 1 _ True ?_ (fun _ _ _ => trivial) ?_, ?_, ?_⟩
  · intro c hc z z' e
    simp only [List.mem_singleton] at hc
    subst hc
    beta_reduce
    rw [hx.1 z z' fun i hi => e i (by omega), hy.1 z z' fun i hi => e i (by omega), e _ (by omega)]
  · intro z hz _
    have e := agree_upd z st.cs.next st.cs.next (x z * y z) (Nat.le_refl _)
    refine ⟨_, e, fun c hc => ?_⟩
    simp only [List.mem_singleton] at hc
    subst hc
    show _ = _
    rw [← hx.1 z _ e, ← hy.1 z _ e, upd_same]
  · exact scoped_var (by show _ < st.cs.next + 1; omega)
  · intro z hz
    have h := (sat_ext.1 hz.1).1 _ (List.mem_singleton.2 rfl)
    have hz' : Holds G st z := ⟨(sat_ext.1 hz.1).2, hz.2⟩
    rw [hx.2 z hz', hy.2 z hz'] at h
    exact h.symm

theorem assertEqF_gad {x y : Lc p} {v w : ZMod p} (hx : Kn G st x v) (hy : Kn G st y w) :
    Gad G st (assertEqF x y) (v = w) fun _ _ => True :=
  ((eq_gad hx hy).bind fun _ _ _ hb => assert_gad hb).imp (by simp) fun _ _ _ h => h

theorem assertEqB_gad {x y : Lc p} {u v : Bool} (hx : Kn G st x (fbit u)) (hy : Kn G st y (fbit v)) :
    Gad G st (assertEqB x y) (u = v) fun _ _ => True :=
  ((boolEq_gad hx hy).bind fun _ _ _ hb => assert_gad hb).imp (by simp) fun _ _ _ h => h

theorem uNew_gad (A : Ark p) (hp : 128 < numBits p) {x : Lc p} {v : ZMod p} (hx : Kn G st x v) :
    Gad G st (liftE fun cs => uNew A 128 cs x) (v.val < 2 ^ 128) fun st' c => Kn G st' c v := by
  intro ok
  obtain ⟨cs, h⟩ : ∃ cs, assertRange A 128 st.cs x = .ok cs := by
    unfold assertRange
    rw [if_pos hp]
    exact ⟨_, rfl⟩
  have sc := assertRange_scoped A 128 _ _ _ h hx.1 ok.rows
  have so : ∀ z, Holds G ⟨cs, st.pub⟩ z → Holds G st z ∧ v.val < 2 ^ 128 := by
    intro z hz
    have := assertRange_sound A 128 _ _ _ h z hz.1
    refine ⟨⟨this.1, hz.2⟩, ?_⟩
    rw [← hx.2 z ⟨this.1, hz.2⟩]
    exact this.2
  have le : Le G st G ⟨cs, st.pub⟩ := 
    ⟨sc.1, fun z hz => (assertRange_sound A 128 _ _ _ h z hz).1, fun z hz => (so z hz).1⟩
  refine ⟨x, ⟨cs, st.pub⟩, by simp [liftE, uNew, h], ⟨⟨sc.2, ok.cond.mono sc.1⟩, le, fun z hz => (so z hz).2, ?_,
    rfl⟩, hx.up le⟩
  intro z hz hv
  obtain ⟨z', e, hz'⟩ := assertRange_complete A 128 _ _ _ h hx.1 ok.rows z hz.1 (by rw [hx.2 z hz]; exact hv)
  exact ⟨z', e, hz', (ok.cond z z' e) ▸ hz.2⟩

end

end Verif.Circuit
