/-!
# C143: the locks of the ceremony server

`manta-trusted-setup/src/groth16/ceremony/server.rs` keeps its data behind three locks. A request is a list of actions: taking
and releasing locks, using what is behind them, waiting for a closure given to `spawn_blocking`. Any number of requests
run on any number of threads of the runtime, in any order; a thread that waits for a lock (`parking_lot::Mutex`) is blocked and
cannot do anything else, a request that waits for a closure gives its thread back.

What is computed is not part of this model (it is in `Ceremony/Model.lean`, whose steps are the sections below): only how a
request ends matters, since this decides which locks it takes.
-/

namespace Verif.Ceremony.Locks

/-! ## Model -/

/-- What a request does. -/
inductive Act
  /-- `lock()` -/
  | lock (l : Nat)
  /-- access to what is behind a lock -/
  | use (l : Nat)
  /-- the end of the life of a guard -/
  | unlock (l : Nat)
  /-- `spawn_blocking(..).await` -/
  | off
  /-- the end of the closure -/
  | back
  deriving DecidableEq, Repr

/-- `registry`, server.rs:68-69. -/
def registry : Nat := 0
/-- `lock_queue`, server.rs:65-66. -/
def lockQueue : Nat := 1
/-- `sclp`, server.rs:71-72. -/
def sclp : Nat := 2

/-- How a query ends. -/
inductive Query
  /-- signature or nonce are wrong, server.rs:265 -/
  | refused
  /-- the participant has the lock, server.rs:273-280 -/
  | state
  /-- the participant is in the queue, server.rs:281-289 -/
  | queued
  deriving DecidableEq

/-- How an update ends. -/
inductive Update
  /-- signature or nonce are wrong, server.rs:393 -/
  | refused
  /-- the participant does not have the lock, server.rs:399 -/
  | noLock
  /-- the contribution is rejected, or the closure panics, server.rs:416-424 -/
  | rejected
  /-- the participant is not in the registry any more, server.rs:430-437 -/
  | missing
  /-- the contribution is accepted, server.rs:428-460 -/
  | accepted
  deriving DecidableEq

/-- `Server::query`, server.rs:256-290. Guards that are variables live until the end of the function, those that are
temporaries until the end of the statement. -/
def Query.acts : Query → List Act
  | .refused => [.lock registry, .use registry, .unlock registry]
  | .state => [.lock registry, .use registry, .lock lockQueue, .use lockQueue, .use registry,
      .lock sclp, .use sclp, .unlock sclp, .unlock lockQueue, .unlock registry]
  | .queued => [.lock registry, .use registry, .lock lockQueue, .use lockQueue, .use registry, .use lockQueue,
      .unlock lockQueue, .unlock registry]

/-- The first section of `Server::update`, server.rs:391-405, when it succeeds. -/
def Update.check : List Act :=
  [.lock registry, .use registry, .lock lockQueue, .use lockQueue, .use registry, .unlock lockQueue, .use registry,
   .unlock registry]

/-- `Server::update`, server.rs:375-461. -/
def Update.acts : Update → List Act
  | .refused => [.lock registry, .use registry, .unlock registry]
  | .noLock => [.lock registry, .use registry, .lock lockQueue, .use lockQueue, .use registry, .unlock lockQueue,
      .unlock registry]
  | .rejected => Update.check ++ [.off, .lock sclp, .use sclp, .unlock sclp, .back]
  | .missing => Update.check ++ [.off, .lock sclp, .use sclp, .unlock sclp, .back] ++
      [.off, .lock registry, .use registry, .unlock registry, .back]
  | .accepted => Update.check ++ [.off, .lock sclp, .use sclp, .unlock sclp, .back] ++
      [.off, .lock registry, .use registry, .lock lockQueue, .use lockQueue, .use registry, .unlock lockQueue,
       .use registry, .unlock registry, .back]

/-- `Server::update_registry`, server.rs:330-371, for a number of rounds of its loop. -/
def reload : Nat → List Act
  | 0 => []
  | n + 1 => [.off, .lock registry, .use registry, .unlock registry, .back] ++ reload n

/-- Everything that runs in the server. -/
inductive Task
  /-- `Server::start`, server.rs:235-241 -/
  | start
  | query (q : Query)
  | update (u : Update)
  | reload (n : Nat)

def Task.acts : Task → List Act
  | .start => []
  | .query q => q.acts
  | .update u => u.acts
  | .reload n => Locks.reload n

/-- Where a request is. -/
inductive Place
  /-- it waits for a thread of the runtime -/
  | ready
  /-- it has one -/
  | worker
  /-- its closure waits for a thread for blocking tasks -/
  | pending
  /-- its closure runs -/
  | pool
  /-- it is answered -/
  | gone
  deriving DecidableEq, Repr

structure Req where
  todo : List Act
  held : List Nat := []
  place : Place := .ready

/-- Number of requests at a place. -/
def at_ (rs : List Req) (p : Place) : Nat := (rs.filter fun r => r.place = p).length

/-- Whether a request has a thread. -/
def Req.runs (r : Req) : Prop := r.place = .worker ∨ r.place = .pool

/-- One step of request `r` among `rs`, with `W` threads of the runtime and `B` for closures. -/
inductive Move (W B : Nat) (rs : List Req) (r : Req) : Req → Prop
  | start : r.place = .ready → at_ rs .worker < W → Move W B rs r { r with place := .worker }
  | enter : r.place = .pending → at_ rs .pool < B → Move W B rs r { r with place := .pool }
  | lock (l : Nat) (t : List Act) : r.runs → r.todo = .lock l :: t → (∀ q ∈ rs, l ∉ q.held) →
      Move W B rs r { r with todo := t, held := l :: r.held }
  | use (l : Nat) (t : List Act) : r.runs → r.todo = .use l :: t → Move W B rs r { r with todo := t }
  | unlock (l : Nat) (t : List Act) : r.runs → r.todo = .unlock l :: t →
      Move W B rs r { r with todo := t, held := r.held.erase l }
  | off (t : List Act) : r.place = .worker → r.todo = .off :: t → Move W B rs r { r with todo := t, place := .pending }
  | back (t : List Act) : r.place = .pool → r.todo = .back :: t → Move W B rs r { r with todo := t, place := .ready }
  | finish : r.place = .worker → r.todo = [] → Move W B rs r { r with place := .gone }

/-- One step of the server: of one of the requests, or a new request. The number is that of steps of requests. -/
inductive Step (W B : Nat) (rs : List Req) : Nat → List Req → Prop
  | move (i : Nat) (r r' : Req) : rs[i]? = some r → Move W B rs r r' → Step W B rs 1 (rs.set i r')
  | arrive (t : Task) : Step W B rs 0 (rs ++ [{ todo := t.acts }])

/-- Executions. -/
inductive Steps (W B : Nat) : Nat → List Req → List Req → Prop
  | refl (rs : List Req) : Steps W B 0 rs rs
  | tail {n k : Nat} {rs ts us : List Req} : Steps W B n rs ts → Step W B ts k us → Steps W B (n + k) rs us

/-! ## Specification -/

/-- A discipline for the use of locks: each is taken only while holding smaller ones, used while holding it, released by who
holds it, and nothing is held while waiting for a thread or at the end. `b` tells whether the closure runs. -/
def Disciplined (N : Nat) : Bool → List Nat → List Act → Prop
  | b, h, [] => h = [] ∧ b = false
  | b, h, .lock l :: t => l < N ∧ (∀ x ∈ h, x < l) ∧ Disciplined N b (l :: h) t
  | b, h, .use l :: t => l ∈ h ∧ Disciplined N b h t
  | b, h, .unlock l :: t => l ∈ h ∧ Disciplined N b (h.erase l) t
  | b, h, .off :: t => h = [] ∧ b = false ∧ Disciplined N true [] t
  | b, h, .back :: t => h = [] ∧ b = true ∧ Disciplined N false [] t

/-- All requests are answered. -/
def Idle (rs : List Req) : Prop := ∀ r ∈ rs, r.place = .gone

/-- Steps a request can take. -/
def Req.work (r : Req) : Nat :=
  3 * r.todo.length + match r.place with
    | .ready => 2
    | .worker => 1
    | .pending => 2
    | .pool => 1
    | .gone => 0

def work (rs : List Req) : Nat := (rs.map Req.work).sum

/-! ## Proofs -/

theorem disciplined_append {N : Nat} {b : Bool} {h : List Nat} {s t : List Act}
    (hs : Disciplined N b h s) (ht : Disciplined N false [] t) : Disciplined N b h (s ++ t) := by
  induction s generalizing b h with
  | nil =>
    obtain ⟨rfl, rfl⟩ := hs
    exact ht
  | cons a s ih =>
    cases a with
    | lock l => exact ⟨hs.1, hs.2.1, ih hs.2.2⟩
    | use l => exact ⟨hs.1, ih hs.2⟩
    | unlock l => exact ⟨hs.1, ih hs.2⟩
    | off => exact ⟨hs.1, hs.2.1, ih hs.2.2⟩
    | back => exact ⟨hs.1, hs.2.1, ih hs.2.2⟩

theorem task_disciplined (t : Task) : Disciplined 3 false [] t.acts := by
  cases t with
  | start => exact ⟨rfl, rfl⟩
  | query q => cases q <;> simp [Task.acts, Query.acts, Disciplined, registry, lockQueue, sclp]
  | update u =>
    cases u <;> simp [Task.acts, Update.acts, Update.check, Disciplined, registry, lockQueue, sclp]
  | reload n =>
    induction n with
    | zero => exact ⟨rfl, rfl⟩
    | succ n ih =>
      refine disciplined_append ?_ ih
      simp [Disciplined, registry]

/-- What holds of a request. -/
structure Req.Ok (r : Req) : Prop where
  runs : r.held ≠ [] → r.runs
  disc : r.place ≠ .gone → Disciplined 3 (r.place = .pending ∨ r.place = .pool) r.held r.todo
  over : r.place = .gone → r.todo = []

/-- The invariant: locks have one holder. -/
structure Inv (rs : List Req) : Prop where
  ok : ∀ r ∈ rs, r.Ok
  excl : ∀ (i j : Nat) (r q : Req) (l : Nat), rs[i]? = some r → rs[j]? = some q → l ∈ r.held → l ∈ q.held → i = j
  nodup : ∀ r ∈ rs, r.held.Nodup

theorem task_ok (t : Task) : Req.Ok { todo := t.acts } where
  runs h := absurd rfl h
  disc _ := by simpa using task_disciplined t
  over h := by cases h

theorem move_ok {W B : Nat} {rs : List Req} {r r' : Req} (h : r.Ok) (m : Move W B rs r r') : r'.Ok := by
  cases m with
  | start hp _ =>
    have := h.disc (by rw [hp]; decide)
    have hh : r.held = [] := by
      apply Decidable.byContradiction
      intro hne
      rcases h.runs hne with e | e <;> rw [hp] at e <;> cases e
    refine ⟨fun hne => absurd hh hne, fun _ => ?_, fun hc => by cases hc⟩
    simpa [hp] using this
  | enter hp _ =>
    have := h.disc (by rw [hp]; decide)
    have hh : r.held = [] := by
      apply Decidable.byContradiction
      intro hne
      rcases h.runs hne with e | e <;> rw [hp] at e <;> cases e
    refine ⟨fun hne => absurd hh hne, fun _ => ?_, fun hc => by cases hc⟩
    simpa [hp] using this
  | lock l t hr ht hf =>
    have hg : r.place ≠ .gone := by rcases hr with e | e <;> rw [e] <;> decide
    have := h.disc hg
    rw [ht] at this
    exact ⟨fun _ => hr, fun _ => this.2.2, fun hc => absurd hc hg⟩
  | use l t hr ht =>
    have hg : r.place ≠ .gone := by rcases hr with e | e <;> rw [e] <;> decide
    have := h.disc hg
    rw [ht] at this
    exact ⟨fun _ => hr, fun _ => this.2, fun hc => absurd hc hg⟩
  | unlock l t hr ht =>
    have hg : r.place ≠ .gone := by rcases hr with e | e <;> rw [e] <;> decide
    have := h.disc hg
    rw [ht] at this
    exact ⟨fun _ => hr, fun _ => this.2, fun hc => absurd hc hg⟩
  | off t hp ht =>
    have := h.disc (by rw [hp]; decide)
    rw [ht] at this
    refine ⟨fun hne => absurd this.1 hne, fun _ => ?_, fun hc => by cases hc⟩
    show Disciplined 3 _ r.held t
    rw [this.1]
    simpa using this.2.2
  | back t hp ht =>
    have := h.disc (by rw [hp]; decide)
    rw [ht] at this
    refine ⟨fun hne => absurd this.1 hne, fun _ => ?_, fun hc => by cases hc⟩
    show Disciplined 3 _ r.held t
    rw [this.1]
    simpa using this.2.2
  | finish hp ht =>
    have := h.disc (by rw [hp]; decide)
    rw [ht] at this
    exact ⟨fun hne => absurd this.1 hne, fun hc => absurd rfl hc, fun _ => ht⟩

/-- A step of a request takes a free lock or none. -/
theorem move_held {W B : Nat} {rs : List Req} {r r' : Req} (m : Move W B rs r r') (hn : r.held.Nodup) (hr : r ∈ rs) :
    r'.held.Nodup ∧ ∀ l ∈ r'.held, l ∈ r.held ∨ ∀ q ∈ rs, l ∉ q.held := by
  cases m with
  | lock l t _ _ hf =>
    refine ⟨List.nodup_cons.2 ⟨hf r hr, hn⟩, fun x hx => ?_⟩
    rcases List.mem_cons.1 hx with rfl | hx
    · exact Or.inr hf
    · exact Or.inl hx
  | unlock l t _ _ => exact ⟨hn.erase l, fun x hx => Or.inl (List.mem_of_mem_erase hx)⟩
  | start _ _ => exact ⟨hn, fun _ h => Or.inl h⟩
  | enter _ _ => exact ⟨hn, fun _ h => Or.inl h⟩
  | use _ _ _ _ => exact ⟨hn, fun _ h => Or.inl h⟩
  | off _ _ _ => exact ⟨hn, fun _ h => Or.inl h⟩
  | back _ _ _ => exact ⟨hn, fun _ h => Or.inl h⟩
  | finish _ _ => exact ⟨hn, fun _ h => Or.inl h⟩

theorem step_inv {W B k : Nat} {rs ts : List Req} (h : Inv rs) (s : Step W B rs k ts) : Inv ts := by
  cases s with
  | move i r r' hi m =>
    have hr : r ∈ rs := List.mem_of_getElem? hi
    have hlt : i < rs.length := (List.getElem?_eq_some_iff.1 hi).1
    obtain ⟨n1, n2⟩ := move_held m (h.nodup r hr) hr
    have hmem : ∀ q ∈ rs.set i r', q ∈ rs ∨ q = r' := fun q hq => List.mem_or_eq_of_mem_set hq
    refine ⟨fun q hq => ?_, ?_, fun q hq => ?_⟩
    · rcases hmem q hq with hq | rfl
      · exact h.ok q hq
      · exact move_ok (h.ok r hr) m
    · intro a b x y l ha hb hx hy
      rw [List.getElem?_set] at ha hb
      by_cases e1 : i = a
      · by_cases e2 : i = b
        · exact e1 ▸ e2
        · rw [if_pos e1, if_pos hlt] at ha
          rw [if_neg e2] at hb
          cases ha
          rcases n2 l hx with hl | hl
          · exact absurd (h.excl i b r y l hi hb hl hy) e2
          · exact absurd hy (hl y (List.mem_of_getElem? hb))
      · rw [if_neg e1] at ha
        by_cases e2 : i = b
        · rw [if_pos e2, if_pos hlt] at hb
          cases hb
          rcases n2 l hy with hl | hl
          · exact absurd (h.excl i a r x l hi ha hl hx) e1
          · exact absurd hx (hl x (List.mem_of_getElem? ha))
        · rw [if_neg e2] at hb
          exact h.excl a b x y l ha hb hx hy
    · rcases hmem q hq with hq | rfl
      · exact h.nodup q hq
      · exact n1
  | arrive t =>
    have hmem : ∀ q ∈ rs ++ [({ todo := t.acts } : Req)], q ∈ rs ∨ q = { todo := t.acts } := by
      intro q hq
      simpa using hq
    have hget : ∀ (a : Nat) (x : Req) (l : Nat), (rs ++ [({ todo := t.acts } : Req)])[a]? = some x → l ∈ x.held →
        rs[a]? = some x := by
      intro a x l ha hx
      rw [List.getElem?_append] at ha
      split at ha
      · exact ha
      · have : x = { todo := t.acts } := List.mem_singleton.1 (List.mem_of_getElem? ha)
        rw [this] at hx
        simp at hx
    refine ⟨fun q hq => ?_, ?_, fun q hq => ?_⟩
    · rcases hmem q hq with hq | rfl
      · exact h.ok q hq
      · exact task_ok t
    · intro a b x y l ha hb hx hy
      exact h.excl a b x y l (hget a x l ha hx) (hget b y l hb hy) hx hy
    · rcases hmem q hq with hq | rfl
      · exact h.nodup q hq
      · exact List.nodup_nil

theorem inv_nil : Inv [] := ⟨by simp, by simp, by simp⟩

theorem steps_inv {W B n : Nat} {rs ts : List Req} (s : Steps W B n rs ts) (h : Inv rs) : Inv ts := by
  induction s with
  | refl => exact h
  | tail _ st ih => exact step_inv (ih h) st

/-- A request that waits for a lock waits for somebody who can do something. -/
theorem unblocked {W B : Nat} {rs : List Req} (h : Inv rs) :
    ∀ k, ∀ r ∈ rs, ∀ l t, r.runs → r.todo = .lock l :: t → 3 ≤ l + k →
      ∃ q ∈ rs, ∃ q', Move W B rs q q' := by
  intro k
  induction k with
  | zero =>
    intro r hr l t hrun ht hk
    have := (h.ok r hr).disc (by rcases hrun with e | e <;> rw [e] <;> decide)
    rw [ht] at this
    have := this.1
    omega
  | succ k ih =>
    intro r hr l t hrun ht hk
    by_cases hf : ∀ q ∈ rs, l ∉ q.held
    · exact ⟨r, hr, _, .lock l t hrun ht hf⟩
    · have : ∃ q ∈ rs, l ∈ q.held := by
        apply Classical.byContradiction
        intro hc
        exact hf fun q hq hl => hc ⟨q, hq, hl⟩
      obtain ⟨q, hq, hl⟩ := this
      have hne : q.held ≠ [] := by intro e; rw [e] at hl; simp at hl
      have hqr := (h.ok q hq).runs hne
      have hd := (h.ok q hq).disc (by rcases hqr with e | e <;> rw [e] <;> decide)
      cases hto : q.todo with
      | nil => rw [hto] at hd; exact absurd hd.1 hne
      | cons a u =>
        rw [hto] at hd
        cases a with
        | lock l' =>
          have := hd.2.1 l hl
          exact ih q hq l' u hqr hto (by omega)
        | use l' => exact ⟨q, hq, _, .use l' u hqr hto⟩
        | unlock l' => exact ⟨q, hq, _, .unlock l' u hqr hto⟩
        | off => exact absurd hd.1 hne
        | back => exact absurd hd.1 hne

/-- A request that has a thread can do something, or somebody else can. -/
theorem running {W B : Nat} {rs : List Req} (h : Inv rs) (r : Req) (hr : r ∈ rs) (hrun : r.runs) :
    ∃ q ∈ rs, ∃ q', Move W B rs q q' := by
  have hd := (h.ok r hr).disc (by rcases hrun with e | e <;> rw [e] <;> decide)
  cases hto : r.todo with
  | nil =>
    rw [hto] at hd
    rcases hrun with e | e
    · exact ⟨r, hr, _, .finish e hto⟩
    · simp [Disciplined, e] at hd
  | cons a u =>
    rw [hto] at hd
    cases a with
    | lock l => exact unblocked h 3 r hr l u hrun hto (by omega)
    | use l => exact ⟨r, hr, _, .use l u hrun hto⟩
    | unlock l => exact ⟨r, hr, _, .unlock l u hrun hto⟩
    | off =>
      rcases hrun with e | e
      · exact ⟨r, hr, _, .off u e hto⟩
      · simp [Disciplined, e] at hd
    | back =>
      rcases hrun with e | e
      · simp [Disciplined, e] at hd
      · exact ⟨r, hr, _, .back u e hto⟩

theorem at_zero {rs : List Req} {p : Place} (h : ¬ ∃ r ∈ rs, r.place = p) : at_ rs p = 0 := by
  unfold at_
  rw [List.length_eq_zero_iff, List.filter_eq_nil_iff]
  intro r hr hp
  exact h ⟨r, hr, by simpa using hp⟩

theorem move_work {W B : Nat} {rs : List Req} {r r' : Req} (m : Move W B rs r r') : r'.work + 1 ≤ r.work := by
  cases m with
  | start hp _ => simp [Req.work, hp]
  | enter hp _ => simp [Req.work, hp]
  | lock l t hr ht _ => simp only [Req.work, ht, List.length_cons]; omega
  | use l t hr ht => simp only [Req.work, ht, List.length_cons]; omega
  | unlock l t hr ht => simp only [Req.work, ht, List.length_cons]; omega
  | off t hp ht => simp only [Req.work, ht, hp, List.length_cons]; omega
  | back t hp ht => simp only [Req.work, ht, hp, List.length_cons]; omega
  | finish hp ht => simp [Req.work, hp, ht]

theorem set_work {rs : List Req} {i : Nat} {r r' : Req} (hi : rs[i]? = some r) :
    work (rs.set i r') + r.work = work rs + r'.work := by
  induction rs generalizing i with
  | nil => simp at hi
  | cons q rs ih =>
    cases i with
    | zero =>
      simp only [List.getElem?_cons_zero, Option.some.injEq] at hi
      subst hi
      simp only [work, List.set_cons_zero, List.map_cons, List.sum_cons]
      omega
    | succ i =>
      rw [List.getElem?_cons_succ] at hi
      have := ih hi
      simp only [work, List.set_cons_succ, List.map_cons, List.sum_cons] at this ⊢
      omega

/-! ## The claims -/

/-- **C143, exclusion.** Whoever uses the registry, the queue or the state holds its lock, and nobody else does. -/
theorem c143_exclusive {W B n : Nat} {rs : List Req} (s : Steps W B n [] rs) (i j : Nat) (r q : Req) (l : Nat) (t : List Act)
    (hi : rs[i]? = some r) (hj : rs[j]? = some q) (hij : i ≠ j) (hu : r.todo = .use l :: t) (hrun : r.place ≠ .gone) :
    l ∈ r.held ∧ l ∉ q.held ∧ ∀ u, q.todo ≠ .use l :: u := by
  have h := steps_inv s inv_nil
  have hd := (h.ok r (List.mem_of_getElem? hi)).disc hrun
  rw [hu] at hd
  have hq : l ∉ q.held := fun hl => hij (h.excl i j r q l hi hj hd.1 hl)
  refine ⟨hd.1, hq, fun u hu' => ?_⟩
  by_cases hg : q.place = .gone
  · rw [(h.ok q (List.mem_of_getElem? hj)).over hg] at hu'
    cases hu'
  · have := (h.ok q (List.mem_of_getElem? hj)).disc hg
    rw [hu'] at this
    exact hq this.1

/-- **C143, nothing is kept.** A request that has no thread, because it waits for one or is answered, holds no lock. -/
theorem c143_suspended {W B n : Nat} {rs : List Req} (s : Steps W B n [] rs) (r : Req) (hr : r ∈ rs)
    (hp : r.place ≠ .worker ∧ r.place ≠ .pool) : r.held = [] := by
  apply Decidable.byContradiction
  intro hne
  rcases ((steps_inv s inv_nil).ok r hr).runs hne with e | e
  · exact hp.1 e
  · exact hp.2 e

/-- **C143, no deadlock.** With at least one thread of each kind, however many requests there are and whatever they have done so
far: if not all of them are answered, one of them can go on. -/
theorem c143_progress {W B n : Nat} (hW : 0 < W) (hB : 0 < B) {rs : List Req} (s : Steps W B n [] rs) (hn : ¬ Idle rs) :
    ∃ ts, Step W B rs 1 ts := by
  have h := steps_inv s inv_nil
  have key : ∃ q ∈ rs, ∃ q', Move W B rs q q' := by
    by_cases hr : ∃ r ∈ rs, r.runs
    · obtain ⟨r, hr, hrun⟩ := hr
      exact running h r hr hrun
    · have hw : at_ rs .worker = 0 := at_zero fun ⟨r, hr', e⟩ => hr ⟨r, hr', Or.inl e⟩
      have hp : at_ rs .pool = 0 := at_zero fun ⟨r, hr', e⟩ => hr ⟨r, hr', Or.inr e⟩
      have : ∃ r ∈ rs, r.place ≠ .gone := by
        apply Classical.byContradiction
        intro hc
        exact hn fun r hr' => Decidable.byContradiction fun e => hc ⟨r, hr', e⟩
      obtain ⟨r, hr', e⟩ := this
      cases hpl : r.place with
      | ready => exact ⟨r, hr', _, .start hpl (by omega)⟩
      | pending => exact ⟨r, hr', _, .enter hpl (by omega)⟩
      | worker => exact absurd ⟨r, hr', Or.inl hpl⟩ hr
      | pool => exact absurd ⟨r, hr', Or.inr hpl⟩ hr
      | gone => exact absurd hpl e
  obtain ⟨q, hq, q', m⟩ := key
  obtain ⟨i, hi⟩ := List.mem_iff_getElem?.1 hq
  exact ⟨_, .move i q q' hi m⟩

/-- **C143, no endless waiting.** The requests that have arrived take only so many steps, whatever the order: after that they
are all answered. -/
theorem c143_drains {W B n : Nat} {rs ts : List Req} (s : Steps W B n rs ts) (hl : ts.length = rs.length) :
    n + work ts ≤ work rs := by
  have key : ∀ {m : Nat} {as us : List Req}, Steps W B m as us → as.length ≤ us.length ∧
      (us.length = as.length → m + work us ≤ work as) := by
    intro m as us st
    induction st with
    | refl => exact ⟨Nat.le_refl _, fun _ => by omega⟩
    | tail _ st ih =>
      cases st with
      | move i r r' hi mv =>
        refine ⟨by rw [List.length_set]; exact ih.1, fun hl => ?_⟩
        rw [List.length_set] at hl
        have h1 := ih.2 hl
        have h2 := set_work (r' := r') hi
        have h3 := move_work mv
        omega
      | arrive t =>
        have := ih.1
        refine ⟨by rw [List.length_append]; omega, fun hl => ?_⟩
        rw [List.length_append, List.length_singleton] at hl
        omega
  exact (key s).2 hl

/-- **C143, every request is answered.** From every state of the server, if no new request arrives, there is a way to answer all
requests, and there is no other end. -/
theorem c143_answers {W B n : Nat} (hW : 0 < W) (hB : 0 < B) {rs : List Req} (s : Steps W B n [] rs) :
    (∃ m ts, Steps W B m rs ts ∧ ts.length = rs.length ∧ Idle ts) ∧
    ∀ m ts, Steps W B m rs ts → ts.length = rs.length → (∀ us, ¬ Step W B ts 1 us) → Idle ts := by
  have app : ∀ {m k : Nat} {as bs cs : List Req}, Steps W B m as bs → Steps W B k bs cs → Steps W B (m + k) as cs := by
    intro m k as bs cs h1 h2
    induction h2 with
    | refl => exact h1
    | tail _ st ih => rw [← Nat.add_assoc]; exact .tail (ih h1) st
  refine ⟨?_, fun m ts st _ hs => ?_⟩
  · have key : ∀ w, ∀ n rs, Steps W B n [] rs → work rs ≤ w → ∃ m ts, Steps W B m rs ts ∧ ts.length = rs.length ∧ Idle ts := by
      intro w
      induction w with
      | zero =>
        intro n rs s hw
        by_cases hi : Idle rs
        · exact ⟨0, rs, .refl rs, rfl, hi⟩
        · obtain ⟨ts, st⟩ := c143_progress hW hB s hi
          cases st with
          | move i r r' hi mv =>
            have h2 := set_work (r' := r') hi
            have h3 := move_work mv
            omega
      | succ w ih =>
        intro n rs s hw
        by_cases hi : Idle rs
        · exact ⟨0, rs, .refl rs, rfl, hi⟩
        · obtain ⟨ts, st⟩ := c143_progress hW hB s hi
          cases st with
          | move i r r' hi mv =>
            have h2 := set_work (r' := r') hi
            have h3 := move_work mv
            obtain ⟨m, us, h4, h5, h6⟩ := ih _ _ (.tail s (.move i r r' hi mv)) (by omega)
            refine ⟨_, us, app (.tail (.refl rs) (.move i r r' hi mv)) h4, ?_, h6⟩
            rw [h5, List.length_set]
    exact key _ n rs s (Nat.le_refl _)
  · apply Classical.byContradiction
    intro hi
    obtain ⟨us, st⟩ := c143_progress hW hB (app s st) hi
    exact hs us st

/-! ## Examples -/

/-- A query by the participant who has the lock and an update, on one thread of the runtime each: the query holds the registry, the
update waits for it. -/
def busy : List Req :=
  [{ todo := (Query.acts .state).drop 1, held := [registry], place := .worker },
   { todo := Update.acts .accepted, place := .worker }]

theorem busy_reached : Steps 2 1 3 [] busy :=
  .tail (.tail (.tail (.tail (.tail (.refl []) (.arrive (.query .state))) (.arrive (.update .accepted)))
    (.move 0 { todo := Query.acts .state } { todo := Query.acts .state, place := .worker } rfl (.start rfl (by decide))))
    (.move 1 { todo := Update.acts .accepted } { todo := Update.acts .accepted, place := .worker } rfl
      (.start rfl (by decide))))
    (.move 0 { todo := Query.acts .state, place := .worker } _ rfl (.lock registry _ (Or.inl rfl) rfl (by decide)))

/-- The update is blocked, the server is not. -/
example : (¬ ∃ r', Move 2 1 busy { todo := Update.acts .accepted, place := .worker } r') ∧ ¬ Idle busy ∧
    work busy = 98 ∧ ∃ ts, Step 2 1 busy 1 ts := by
  have hn : ¬ Idle busy := fun h => by
    have := h { todo := Update.acts .accepted, place := .worker } (by simp [busy])
    cases this
  refine ⟨?_, hn, by decide, c143_progress (by decide) (by decide) busy_reached hn⟩
  rintro ⟨r', m⟩
  generalize hq : ({ todo := Update.acts .accepted, place := .worker } : Req) = q at m
  cases m with
  | start hp _ => rw [← hq] at hp; cases hp
  | enter hp _ => rw [← hq] at hp; cases hp
  | lock l t _ ht hf =>
    rw [← hq] at ht
    cases ht
    exact hf _ (by simp only [busy]; exact List.mem_cons_self) (by decide)
  | use l t _ ht => rw [← hq] at ht; cases ht
  | unlock l t _ ht => rw [← hq] at ht; cases ht
  | off t _ ht => rw [← hq] at ht; cases ht
  | back t _ ht => rw [← hq] at ht; cases ht
  | finish _ ht => rw [← hq] at ht; cases ht

/-- Exclusion, in this state: the query is about to use the registry. -/
example : registry ∈ ([registry] : List Nat) ∧ registry ∉ ([] : List Nat) :=
  let h := c143_exclusive busy_reached 0 1 _ _ registry _ rfl rfl (by decide) rfl (by decide)
  ⟨h.1, h.2.1⟩

/-- Why guards must not live across `await`: a request that did would not be disciplined, nor would one that takes the queue
before the registry. -/
example : ¬ Disciplined 3 false [] [.lock registry, .off, .lock sclp, .unlock sclp, .back, .unlock registry] ∧
    ¬ Disciplined 3 false [] [.lock lockQueue, .lock registry, .unlock registry, .unlock lockQueue] := by
  simp [Disciplined, registry, lockQueue]

end Verif.Ceremony.Locks
