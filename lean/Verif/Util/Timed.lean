import Verif.Ceremony.Model

/-!
# C148: values with the time of their last modification, `manta-util/src/time/lock.rs`

The clock (`Instant::now`) is read by the operations; each reading is an argument. An operation with a time limit reads it
twice, for the comparison and for the new time of modification.
-/

namespace Verif.Util

/-- `Timed`, lock.rs:31-39. Times are distances from some fixed instant. -/
structure Timed (T : Type) where
  value : T
  instant : Nat
deriving DecidableEq, Repr

namespace Timed

variable {T R : Type}

/-- `new`, lock.rs:43-46; also `Default`, lock.rs:184-195, with the default value. -/
def new (v : T) (now : Nat) : Timed T := ⟨v, now⟩

/-- `elapsed`, lock.rs:70-73: zero if the clock is behind. -/
def elapsed (t : Timed T) (now : Nat) : Nat := now - t.instant

/-- `has_expired`, lock.rs:77-80. -/
def hasExpired (t : Timed T) (timeout now : Nat) : Bool := decide (t.elapsed now ≥ timeout)

/-- `tap`, lock.rs:84-86. -/
def tap (t : Timed T) (now : Nat) : Timed T := { t with instant := now }

/-- `mutate_timed`, lock.rs:107-114. -/
def mutateTimed (t : Timed T) (f : T → Nat → R × T) (now : Nat) : R × Timed T :=
  let r := f t.value t.instant
  (r.1, ({ t with value := r.2 } : Timed T).tap now)

/-- `mutate`, lock.rs:97-102. -/
def mutate (t : Timed T) (f : T → R × T) (now : Nat) : R × Timed T := t.mutateTimed (fun v _ => f v) now

/-- `set`, lock.rs:90-92. -/
def set (t : Timed T) (v : T) (now : Nat) : T × Timed T := t.mutate (fun old => (old, v)) now

/-- `mutate_if_expired`, lock.rs:119-128: the clock shows `check` at the comparison and `now` at the modification. -/
def mutateIfExpired (t : Timed T) (timeout : Nat) (f : T → R × T) (check now : Nat) : Option R × Timed T :=
  if t.hasExpired timeout check then
    let r := t.mutate f now
    (some r.1, r.2)
  else (none, t)

/-- `set_with_if_expired` and `set_if_expired`, lock.rs:133-145. -/
def setIfExpired (t : Timed T) (timeout : Nat) (v : T) (check now : Nat) : Option T × Timed T :=
  t.mutateIfExpired timeout (fun old => (old, v)) check now

/-- `clone`, lock.rs:172-176, and reading a written value back (`serde(skip, default = "Instant::now")`, 37): the time
starts anew. -/
def clone (t : Timed T) (now : Nat) : Timed T := new t.value now

end Timed

/-- Operations of a user. `clone` goes on with the copy. -/
inductive TOp (T : Type) where
  | tap
  | set (v : T)
  | mutate (f : T → T)
  | setIfExpired (timeout : Nat) (v : T)
  | mutateIfExpired (timeout : Nat) (f : T → T)
  | clone

/-- An operation and what the clock shows when it looks. -/
structure TEvent (T : Type) where
  op : TOp T
  check : Nat
  now : Nat

variable {T : Type}

/-- One operation: the former value if the operation took effect. -/
def tstep (t : Timed T) (e : TEvent T) : Option T × Timed T :=
  match e.op with
  | .tap => (some t.value, t.tap e.now)
  | .set v => let r := t.set v e.now; (some r.1, r.2)
  | .mutate f => let r := t.mutate (fun old => (old, f old)) e.now; (some r.1, r.2)
  | .setIfExpired d v => t.setIfExpired d v e.check e.now
  | .mutateIfExpired d f => t.mutateIfExpired d (fun old => (old, f old)) e.check e.now
  | .clone => (some t.value, t.clone e.now)

def trun : Timed T → List (TEvent T) → List (Option T) × Timed T
  | t, [] => ([], t)
  | t, e :: es =>
    let r := tstep t e
    let s := trun r.2 es
    (r.1 :: s.1, s.2)

/-! ## Specification -/

/-- The clock does not go backwards. -/
def Clock : Nat → List (TEvent T) → Prop
  | _, [] => True
  | now, e :: es => now ≤ e.check ∧ e.check ≤ e.now ∧ Clock e.now es

/-- Times of the operations that took effect, by the answers. -/
def times : List (TEvent T) → List (Option T) → List Nat
  | e :: es, some _ :: as => e.now :: times es as
  | _ :: es, none :: as => times es as
  | _, _ => []

/-- The limit of an operation that has one. -/
def TOp.limit : TOp T → Option Nat
  | .setIfExpired d _ => some d
  | .mutateIfExpired d _ => some d
  | _ => none

/-- What an operation makes of the value. -/
def TOp.new : TOp T → T → T
  | .set v, _ => v
  | .mutate f, old => f old
  | .setIfExpired _ v, _ => v
  | .mutateIfExpired _ f, old => f old
  | .tap, old => old
  | .clone, old => old

/-- The value after a history in which the operations answered `some _` took effect. -/
def held : T → List (TEvent T) → List (Option T) → T
  | v, e :: es, some _ :: as => held (e.op.new v) es as
  | v, _ :: es, none :: as => held v es as
  | v, _, _ => v

/-! ## Helpers -/

theorem expired_iff (t : Timed T) (d c : Nat) : t.hasExpired d c = true ↔ d ≤ c - t.instant := by
  simp [Timed.hasExpired, Timed.elapsed]

theorem tstep_effect (t : Timed T) (e : TEvent T) :
    tstep t e = (some t.value, ⟨e.op.new t.value, e.now⟩) ∨
      tstep t e = (none, t) ∧ ∃ d, e.op.limit = some d ∧ ¬ t.instant + d ≤ e.check ∧ e.check - t.instant < d := by
  obtain ⟨op, c, n⟩ := e
  cases op with
  | tap => exact .inl rfl
  | set v => exact .inl rfl
  | mutate f => exact .inl rfl
  | clone => exact .inl rfl
  | setIfExpired d v =>
    simp only [tstep, Timed.setIfExpired, Timed.mutateIfExpired]
    by_cases h : t.hasExpired d c = true
    · rw [if_pos h]; exact .inl rfl
    · rw [if_neg h]
      rw [expired_iff, Nat.not_le] at h
      exact .inr ⟨rfl, d, rfl, by omega, h⟩
  | mutateIfExpired d f =>
    simp only [tstep, Timed.mutateIfExpired]
    by_cases h : t.hasExpired d c = true
    · rw [if_pos h]; exact .inl rfl
    · rw [if_neg h]
      rw [expired_iff, Nat.not_le] at h
      exact .inr ⟨rfl, d, rfl, by omega, h⟩

theorem tstep_limit (t : Timed T) (e : TEvent T) {d : Nat} (hd : e.op.limit = some d) (h : t.instant ≤ e.check) :
    (tstep t e).1.isSome ↔ t.instant + d ≤ e.check := by
  obtain ⟨op, c, n⟩ := e
  cases op with
  | tap => cases hd
  | set v => cases hd
  | mutate f => cases hd
  | clone => cases hd
  | setIfExpired d' v =>
    cases hd
    simp only [tstep, Timed.setIfExpired, Timed.mutateIfExpired]
    dsimp only at h
    by_cases h' : t.hasExpired d c = true
    · rw [if_pos h']
      rw [expired_iff] at h'
      simp only [Option.isSome_some, true_iff]; omega
    · rw [if_neg h']
      rw [expired_iff] at h'
      simp only [Option.isSome_none, Bool.false_eq_true, false_iff]; omega
  | mutateIfExpired d' f =>
    cases hd
    simp only [tstep, Timed.mutateIfExpired]
    dsimp only at h
    by_cases h' : t.hasExpired d c = true
    · rw [if_pos h']
      rw [expired_iff] at h'
      simp only [Option.isSome_some, true_iff]; omega
    · rw [if_neg h']
      rw [expired_iff] at h'
      simp only [Option.isSome_none, Bool.false_eq_true, false_iff]; omega

/-- The stored time is the latest of the times of modification. -/
theorem trun_instant (es : List (TEvent T)) (t : Timed T) (now : Nat) (ht : t.instant ≤ now) (hc : Clock now es) :
    (trun t es).2.instant ∈ t.instant :: times es (trun t es).1 ∧
      (∀ m ∈ t.instant :: times es (trun t es).1, m ≤ (trun t es).2.instant) ∧
      ∀ c, (∀ e ∈ es, e.now ≤ c) → now ≤ c → (trun t es).2.instant ≤ c := by
  induction es generalizing t now with
  | nil => exact ⟨List.mem_cons_self, by simp [times, trun], fun c _ h => Nat.le_trans ht h⟩
  | cons e es ih =>
    obtain ⟨h₁, h₂, h₃⟩ := hc
    simp only [trun]
    rcases tstep_effect t e with he | ⟨he, -⟩
    · rw [he]
      obtain ⟨a, b, c⟩ := ih ⟨e.op.new t.value, e.now⟩ e.now (Nat.le_refl _) h₃
      simp only [times]
      refine ⟨List.mem_cons_of_mem _ a, ?_, fun x hx _ => c x (fun e' h' => hx e' (by simp [h'])) (hx e (by simp))⟩
      intro m hm
      rcases List.mem_cons.1 hm with rfl | hm
      · have := b e.now List.mem_cons_self
        omega
      · exact b m hm
    · rw [he]
      obtain ⟨a, b, c⟩ := ih t e.now (by omega) h₃
      simp only [times]
      exact ⟨a, b, fun x hx _ => c x (fun e' h' => hx e' (by simp [h'])) (hx e (by simp))⟩

theorem trun_append (es fs : List (TEvent T)) (t : Timed T) :
    trun t (es ++ fs) = ((trun t es).1 ++ (trun (trun t es).2 fs).1, (trun (trun t es).2 fs).2) := by
  induction es generalizing t with
  | nil => rfl
  | cons e es ih => simp only [List.cons_append, trun, ih]

theorem clock_last {es : List (TEvent T)} {e : TEvent T} {rest : List (TEvent T)} {now : Nat}
    (h : Clock now (es ++ e :: rest)) :
    Clock now es ∧ (∀ x ∈ es, x.now ≤ e.check) ∧ now ≤ e.check ∧ e.check ≤ e.now := by
  induction es generalizing now with
  | nil => exact ⟨trivial, by simp, h.1, h.2.1⟩
  | cons x es ih =>
    obtain ⟨a, b, c⟩ := h
    obtain ⟨i, j, k, l⟩ := ih c
    refine ⟨⟨a, b, i⟩, ?_, by omega, l⟩
    intro y hy
    rcases List.mem_cons.1 hy with rfl | hy
    · exact k
    · exact j y hy

theorem trun_length (es : List (TEvent T)) (t : Timed T) : (trun t es).1.length = es.length := by
  induction es generalizing t with
  | nil => rfl
  | cons e es ih => simp [trun, ih]

theorem times_append (es fs : List (TEvent T)) (as bs : List (Option T)) (h : as.length = es.length) :
    times (es ++ fs) (as ++ bs) = times es as ++ times fs bs := by
  induction es generalizing as with
  | nil =>
    cases as with
    | nil => simp [times]
    | cons a as => simp at h
  | cons e es ih =>
    cases as with
    | nil => simp at h
    | cons a as =>
      have h' : as.length = es.length := by simpa using h
      cases a with
      | none => simp only [List.cons_append, times]; exact ih as h'
      | some a => simp only [List.cons_append, times]; rw [ih as h']

/-! ## Properties -/

/-- **C148, limits.** In every history an operation with a time limit takes effect exactly if since the creation of the
value and since every earlier operation that took effect the limit has passed; one without a limit always does. -/
theorem c148_limit (v : T) (start : Nat) (pre : List (TEvent T)) (e : TEvent T) (post : List (TEvent T))
    (hc : Clock start (pre ++ e :: post)) :
    ∃ before after a, (trun (Timed.new v start) (pre ++ e :: post)).1 = before ++ a :: after ∧
      before = (trun (Timed.new v start) pre).1 ∧ before.length = pre.length ∧
      (e.op.limit = none → a.isSome) ∧
      (∀ d, e.op.limit = some d → (a.isSome ↔ ∀ m ∈ start :: times pre before, m + d ≤ e.check)) := by
  obtain ⟨h₁, h₂, h₃, h₄⟩ := clock_last hc
  obtain ⟨i₁, i₂, i₃⟩ := trun_instant pre (Timed.new v start) start (Nat.le_refl _) h₁
  refine ⟨_, (trun (tstep (trun (Timed.new v start) pre).2 e).2 post).1, (tstep (trun (Timed.new v start) pre).2 e).1,
    ?_, rfl, trun_length _ _, ?_, ?_⟩
  · rw [trun_append]; rfl
  · intro hn
    rcases tstep_effect (trun (Timed.new v start) pre).2 e with he | ⟨_, d, hd, _⟩
    · rw [he]; rfl
    · rw [hn] at hd; cases hd
  · intro d hd
    rw [tstep_limit _ _ hd (i₃ _ h₂ h₃)]
    constructor
    · intro h m hm
      have := i₂ m hm
      omega
    · intro h
      exact h _ i₁

/-- **C148, exclusion.** Whatever happens between, the value that an operation put in place is not taken away by an
operation with the limit `d` until `d` has passed. -/
theorem c148_exclusive (v : T) (start : Nat) (pre mid post : List (TEvent T)) (e f : TEvent T) (d : Nat)
    (hc : Clock start (pre ++ e :: mid ++ f :: post)) (hf : f.op.limit = some d)
    (he : ((trun (Timed.new v start) (pre ++ e :: mid ++ f :: post)).1[pre.length]?).any Option.isSome)
    (hfe : ((trun (Timed.new v start) (pre ++ e :: mid ++ f :: post)).1[pre.length + 1 + mid.length]?).any
      Option.isSome) : e.now + d ≤ f.check := by
  obtain ⟨before, after, a, h₁, h₂, h₃, _, h₅⟩ := c148_limit v start (pre ++ e :: mid) f post hc
  have hl : before.length = pre.length + 1 + mid.length := by rw [h₃]; simp; omega
  rw [h₁] at he hfe
  rw [List.getElem?_append_right (by omega), hl, Nat.sub_self] at hfe
  have ha : a.isSome := by simpa using hfe
  refine (h₅ d hf).1 ha e.now (List.mem_cons_of_mem _ ?_)
  rw [List.getElem?_append_left (by omega), h₂, trun_append] at he
  rw [h₂, trun_append, times_append _ _ _ _ (trun_length _ _)]
  refine List.mem_append.2 (.inr ?_)
  rw [List.getElem?_append_right (by rw [trun_length]; omega), trun_length, Nat.sub_self] at he
  simp only [trun, List.getElem?_cons_zero, Option.any_some] at he
  obtain ⟨x, hx⟩ := Option.isSome_iff_exists.1 he
  simp only [trun, hx, times, List.mem_cons, true_or]

/-- **C148, values.** The value is what the operations that took effect make of the first one, in order; each answers
with the value before it, and the time of modification is that of the last of them. -/
theorem c148_value (v : T) (start : Nat) (es : List (TEvent T)) :
    (trun (Timed.new v start) es).2.value = held v es (trun (Timed.new v start) es).1 ∧
    (trun (Timed.new v start) es).2.instant = ((times es (trun (Timed.new v start) es).1).getLast?).getD start ∧
    ∀ pre e post a, es = pre ++ e :: post → (trun (Timed.new v start) es).1[pre.length]? = some (some a) →
      a = held v pre (trun (Timed.new v start) pre).1 := by
  have key : ∀ (es : List (TEvent T)) (t : Timed T), (trun t es).2.value = held t.value es (trun t es).1 ∧
      (trun t es).2.instant = ((times es (trun t es).1).getLast?).getD t.instant := by
    intro es
    induction es with
    | nil => intro t; exact ⟨rfl, rfl⟩
    | cons e es ih =>
      intro t
      simp only [trun]
      rcases tstep_effect t e with he | ⟨he, -⟩
      · rw [he]
        obtain ⟨a, b⟩ := ih ⟨e.op.new t.value, e.now⟩
        simp only [held, times]
        refine ⟨a, ?_⟩
        rw [b, List.getLast?_cons]
        cases (times es (trun ⟨e.op.new t.value, e.now⟩ es).1).getLast? <;> rfl
      · rw [he]
        obtain ⟨a, b⟩ := ih t
        exact ⟨a, b⟩
  refine ⟨(key es _).1, (key es _).2, ?_⟩
  rintro pre e post a rfl h
  rw [trun_append, List.getElem?_append_right (by rw [trun_length]; omega), trun_length, Nat.sub_self] at h
  simp only [trun, List.getElem?_cons_zero, Option.some.injEq] at h
  have hv := (key pre (Timed.new v start)).1
  rcases tstep_effect (trun (Timed.new v start) pre).2 e with he | ⟨he, -⟩
  · rw [he] at h
    simp only [Option.some.injEq] at h
    rw [← h]; exact hv
  · rw [he] at h; cases h

/-- The lock of the ceremony in `Verif.Ceremony` is such a value: its expiry is that of the timed value, and moving it on sets the
value with the time of the call. -/
theorem lock_timed {I VK : Type} [DecidableEq I] (q : Ceremony.LockQueue I) (r : Ceremony.Registry I VK) (limit now : Nat) :
    (q.hasExpired limit now = ((⟨q.lock, q.since⟩ : Timed (Option I)).hasExpired limit now || q.lock.isNone)) ∧
    (let u := q.updateExpired r now
     (u.1, (⟨u.2.1.lock, u.2.1.since⟩ : Timed (Option I))) =
      (⟨q.lock, q.since⟩ : Timed (Option I)).set q.queue.popFront.1 now) :=
  ⟨rfl, rfl⟩

/-! ## A concrete case -/

/-- Created at 0 and set at 3; a limit of 5 has not passed at 7, but at 8; a copy starts the time anew. -/
def exEvents : List (TEvent Nat) :=
  [⟨.set 10, 2, 3⟩, ⟨.setIfExpired 5 20, 7, 7⟩, ⟨.setIfExpired 5 30, 8, 9⟩, ⟨.clone, 13, 13⟩,
   ⟨.mutateIfExpired 5 (· + 1), 14, 14⟩, ⟨.mutateIfExpired 5 (· + 1), 18, 19⟩]

example : Clock 0 exEvents ∧
    trun (Timed.new 1 0) exEvents = ([some 1, none, some 10, some 30, none, some 30], ⟨31, 19⟩) := by
  refine ⟨by simp [Clock, exEvents], by decide⟩

end Verif.Util
