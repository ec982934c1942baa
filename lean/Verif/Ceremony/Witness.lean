import Verif.Ceremony.Recovery

/-!
# Concrete ceremonies

A small ceremony in which everything can be computed: it shows that the hypotheses of the theorems
on C41 to C45 can be met, and that the claims which are not proved in full are really violated.
-/

namespace Verif.Ceremony

open Verif.Util

/-- Keys and identifiers are numbers; the signature is the pair of key and nonce; a state is a number,
a contribution adds something to it and the proof is the summand together with the challenge it
answers; the time limit is 10. -/
def toy : Config Nat (Nat × Nat) Nat Nat (Nat × Nat) where
  verifySig key n _ sig := sig == (key, n)
  checkState n := n != 0
  challenge c _ n _ := c * 100 + n
  verifyTransform c s n p := n == s + p.1 && p.2 == c && p.1 != 0
  limit := 10

abbrev ToyServer := Server Nat Nat Nat Nat (Nat × Nat) String
abbrev ToyEvent := Event Nat Nat (Nat × Nat) Nat (Nat × Nat)

/-- Participants 1 (high priority), 2 and 3. -/
def toyRegistry : Registry Nat Nat :=
  [(1, ⟨.high, 11, 0, false⟩), (2, ⟨.normal, 12, 0, false⟩), (3, ⟨.normal, 13, 0, false⟩)]

def toyMpc : Sclp Nat Nat (Nat × Nat) := ⟨[5, 6], [1, 1], none, 0⟩

/-- The directory written by `prepare`. -/
def toyDisk : Disk Nat Nat Nat Nat (Nat × Nat) String :=
  (({ state := fun _ _ => none, challenge := fun _ _ => none, proof := fun _ _ => none,
      registry := fun _ => none, names := some ["a", "b"], roundNumber := none } :
    Disk Nat Nat Nat Nat (Nat × Nat) String).writes (toyMpc.saveWrites ["a", "b"])).write
      (.registry 0 toyRegistry)

def toyServer : ToyServer :=
  { reg := toyRegistry, lq := { queue := MDeque.empty 2, lock := none, since := 0 }, mpc := toyMpc,
    disk := toyDisk, started := [], applied := [] }

/-- The first participant queries twice (getting the lock the second time) and contributes. -/
def honest : List ToyEvent :=
  [.query 0 1 (11, 0), .query 1 1 (11, 1), .start 2 1 [7, 9] [(2, 1), (3, 1)] (11, 2), .apply 0,
   .finish 3 0]

/-- Then the second one does. -/
def honest2 : List ToyEvent :=
  honest ++ [.query 4 2 (12, 0), .query 5 2 (12, 1),
    .start 6 2 [8, 10] [(1, 107), (1, 109)] (12, 2), .apply 0, .finish 7 0]

theorem toy_prepared : Prepared toyServer ["a", "b"] where
  nodup := by decide
  shape := ⟨rfl, rfl, fun _ => rfl, fun h => absurd rfl h⟩
  holds := ⟨rfl, rfl, rfl, fun _ => rfl, fun h => absurd rfl h⟩
  idle := ⟨rfl, rfl⟩
  registry := by simp [toyServer, toyDisk, toyMpc, Disk.write]
  later k hk := by
    simp only [toyServer, toyMpc] at hk
    simp only [toyServer, toyDisk, Disk.write]
    rw [if_neg (by omega), write_registry _ _ fun k r => saveWrites_no_registry _ _ k r]

/-! ## C41 -/

theorem toy_nonce_binding : NonceBinding toy := by
  intro key n n' b sig h h'
  simp only [toy, beq_iff_eq] at h h'
  rw [h] at h'
  simp only [Prod.mk.injEq] at h'
  exact h'.2

theorem toy_nonces64 : Nonces64 toyServer.reg := by
  intro i p h
  simp only [toyServer, toyRegistry, Registry.get] at h
  split at h
  · simp only [Option.some.injEq] at h; subst h; decide
  · split at h
    · simp only [Option.some.injEq] at h; subst h; decide
    · split at h
      · simp only [Option.some.injEq] at h; subst h; decide
      · cases h

/-- The hypotheses of the theorems on C41 hold for the honest history, and all its six requests are
admitted. -/
example : NoRestart honest2 ∧ Rows64 honest2 ∧
    ((admittedLog toy toyServer honest2).map fun x => (x.1, x.2.1)) =
      [(1, 0), (1, 1), (1, 2), (2, 0), (2, 1), (2, 2)] := by
  refine ⟨by simp [NoRestart, honest2, honest], by simp [Rows64, honest2, honest], by decide⟩

/-- **C41 is violated across restarts.** The registry is only saved when a contribution is completed, so
a request answered since then can be replayed after a restart: here the same signed query is
let through twice. -/
theorem c41_violated : ∃ (s : ToyServer) (names : List String) (es : List ToyEvent),
    Prepared s names ∧
    ¬ (((admittedLog toy s es).filter (fun x => x.1 = 1)).map fun x => x.2.2.2).Nodup :=
  ⟨toyServer, ["a", "b"], [.query 0 1 (11, 0), .restart 1, .query 2 1 (11, 0)], toy_prepared, by
    decide⟩

/-! ## C42 -/

/-- The hypotheses of `c42_once_partial` hold for the honest history. -/
example : Fresh toyServer ∧ Punctual toy toyServer honest2 := by
  refine ⟨⟨rfl, rfl⟩, ?_⟩
  simp only [Punctual, honest2, honest, LateQuery, List.cons_append, List.nil_append, and_true,
    not_false_eq_true, true_and]
  decide

/-- **C42 is violated.** The first participant, of high priority, holds the lock for too long while
the second one waits, and then queries: the query takes the lock and the high priority away
but still enqueues at the high level. The next query enqueues at the normal level as well. -/
theorem c42_violated : ∃ (s : ToyServer) (es : List ToyEvent), Fresh s ∧ NoRestart es ∧
    (s.run toy es).line = [2, 1, 1] :=
  ⟨toyServer, [.query 0 1 (11, 0), .query 1 1 (11, 1), .query 2 2 (12, 0), .query 20 1 (11, 2),
    .query 21 1 (11, 3)], ⟨rfl, rfl⟩, by simp [NoRestart], by decide⟩

/-! ## C43 -/

/-- The hypotheses of `c43_once_partial` and `c43_restart_partial` hold for a history with two
contributions and a crash. -/
example : Idle toyServer ∧ Serial toy toyServer honest2 ∧
    OneAtATime toy toyServer (honest2 ++ [.restart 9, .query 10 3 (13, 0)]) ∧
    credited toy toyServer honest2 = [1, 2] := by
  refine ⟨⟨rfl, rfl⟩, ?_, ?_, by decide⟩
  · simp only [Serial, honest2, honest, List.cons_append, List.nil_append]
    decide
  · simp only [OneAtATime, honest2, honest, List.cons_append, List.nil_append]
    decide

/-- **C43 is violated.** The holder of the lock sends two contributions, the second one on top of the
first. Both pass the first step before either is completed; the participant is credited with two
rounds. -/
theorem c43_violated : ∃ (s : ToyServer) (es : List ToyEvent), Idle s ∧ NoRestart es ∧
    credited toy s es = [1, 1] ∧ (s.run toy es).mpc.round = 2 :=
  ⟨toyServer, [.query 0 1 (11, 0), .query 1 1 (11, 1), .start 2 1 [7, 9] [(2, 1), (3, 1)] (11, 2),
    .start 2 1 [8, 10] [(1, 107), (1, 109)] (11, 3), .apply 0, .apply 0, .finish 3 0, .finish 4 0],
    ⟨rfl, rfl⟩, by simp [NoRestart], by decide, by decide⟩

/-- **C43 is violated across restarts** even if no participant overlaps their own contributions. The
contribution of participant 1 becomes round 1 but its last step is delayed; participant 2, who got
the lock meanwhile, completes round 2, saving a registry in which participant 1 has not
contributed. After a crash participant 1 can contribute again. -/
theorem c43_restart_violated : ∃ (s : ToyServer) (names : List String) (es : List ToyEvent),
    Prepared s names ∧ Serial toy s es ∧ credited toy s es = [1, 2, 1] :=
  ⟨toyServer, ["a", "b"],
    [.query 0 1 (11, 0), .query 1 1 (11, 1), .start 2 1 [7, 9] [(2, 1), (3, 1)] (11, 2),
     .query 2 2 (12, 0), .query 15 2 (12, 1), .apply 0, .query 16 2 (12, 2),
     .start 16 2 [8, 10] [(1, 107), (1, 109)] (12, 3), .apply 0, .finish 17 1, .restart 18,
     .query 19 1 (11, 3), .query 20 1 (11, 4),
     .start 21 1 [9, 11] [(1, 10708), (1, 10910)] (11, 5), .apply 0], toy_prepared, by
      simp only [Serial]; decide, by decide⟩

/-! ## C44 -/

/-- The hypotheses of `c44_violated` hold for a contribution that is good for the first circuit
and bad for the second. -/
example : toyMpc.Aligned ∧ Passes toy toyMpc [7, 9] [(2, 1), (4, 1)] 0 ∧
    ¬ Passes toy toyMpc [7, 9] [(2, 1), (4, 1)] 1 := by
  refine ⟨rfl, ⟨5, 1, 7, (2, 1), rfl, rfl, rfl, rfl, by decide, by decide⟩, ?_⟩
  rintro ⟨s, c, n, p, h1, h2, h3, h4, h5, h6⟩
  simp only [toyMpc, List.getElem?_cons_succ, List.getElem?_cons_zero, Option.some.injEq] at h1 h2 h3 h4
  subst h1; subst h2; subst h3; subst h4
  revert h6; decide

/-- The hypothesis of `c44_unchanged_partial`: the first circuit is bad. -/
example : 0 < toyMpc.state.length ∧ ¬ Passes toy toyMpc [8, 9] [(2, 1), (3, 1)] 0 := by
  refine ⟨by decide, ?_⟩
  rintro ⟨s, c, n, p, h1, h2, h3, h4, h5, h6⟩
  simp only [toyMpc, List.getElem?_cons_zero, Option.some.injEq] at h1 h2 h3 h4
  subst h1; subst h2; subst h3; subst h4
  revert h6; decide

/-- **C44, what a rejected contribution leads to.** After a contribution that is rejected because of the
second circuit, an honest contributor continues from the state the server hands out; the server
accepts, saves and completes the round. But the saved files of the first circuit do not form a
valid transition from the saved initial state: the transcript of the ceremony can never be verified,
although every accepted contribution was honest. -/
theorem c44_breaks_transcript : ∃ (s : ToyServer) (names : List String) (es : List ToyEvent),
    Prepared s names ∧ NoRestart es ∧ Serial toy s es ∧ credited toy s es = [2] ∧
    ∃ s0 c0 s1 p1,
      (s.run toy es).disk.state "a" 0 = some s0 ∧ (s.run toy es).disk.challenge "a" 0 = some c0 ∧
      (s.run toy es).disk.state "a" 1 = some s1 ∧ (s.run toy es).disk.proof "a" 1 = some p1 ∧
      toy.verifyTransform c0 s0 s1 p1 = false :=
  ⟨toyServer, ["a", "b"],
    [.query 0 1 (11, 0), .query 1 1 (11, 1), .start 2 1 [7, 9] [(2, 1), (4, 1)] (11, 2), .apply 0,
     .query 12 2 (12, 0), .query 13 2 (12, 1), .start 14 2 [8, 8] [(1, 107), (2, 1)] (12, 2),
     .apply 0, .finish 15 0], toy_prepared, by simp [NoRestart], by simp only [Serial]; decide,
     by decide, 5, 1, 8, (1, 107), by decide, by decide, by decide, by decide, by decide⟩

/-! ## C45 -/

/-- The hypotheses of the theorems on C45: a directory after two rounds recovers to round 2, and a
crash before the last step of the second contribution makes recovery fail (see `c45_violated`). -/
example : (toyServer.run toy honest2).applied = [] ∧
    ((lastSaved toy toyServer toyServer.mpc honest2).state, (lastSaved toy toyServer toyServer.mpc
      honest2).round) = ([8, 10], 2) ∧
    creditedAt toy (toyServer.run toy (honest2.take 8)) (.apply 0) ≠ [] := by
  decide

example : ((toyServer.run toy (honest2.take 9)).disk.recover 2).toOption.isNone = true := by decide

/-! ## C71: the lock -/

section Lock

variable {I VK Sig St Ch Pf Nm : Type} [DecidableEq I] [DecidableEq Nm]

/-- The time of an event, if it has one. -/
def Event.time : Event I VK Sig St Pf → Option Nat
  | .query now _ _ => some now
  | .start now _ _ _ _ => some now
  | .finish now _ => some now
  | .restart now => some now
  | _ => none

omit [DecidableEq Nm] in
theorem hasLock_fresh (q : LockQueue I) (r : Registry I VK) (limit now : Nat) (i j : I)
    (hl : q.lock = some i) (ht : now - q.since < limit) :
    (q.hasLock r limit now j).2.1 = q := by
  have hx : q.hasExpired limit now = false := by
    simp [LockQueue.hasExpired, hl, ht]
  simp only [LockQueue.hasLock, LockQueue.updateLock, hx, Bool.false_eq_true, if_false]
  split
  · rfl
  · split <;> rfl

/-- **C71, while no contribution is completed.** As long as the time of the holder of the lock has not
run out, no request of anybody, no reload and no state transition takes the lock away or shortens
the time. Missing for the full claim: the last step of a contribution, see `c71_violated`. -/
theorem c71_keep_partial (cfg : Config VK Sig St Ch Pf) (s : Server I VK St Ch Pf Nm)
    (e : Event I VK Sig St Pf) (i : I) (hl : s.lq.lock = some i)
    (ht : ∀ now, e.time = some now → now - s.lq.since < cfg.limit)
    (hf : ∀ now k, e ≠ .finish now k) (hr : ∀ now, e ≠ .restart now) :
    (s.step cfg e).2.lq.lock = some i ∧ (s.step cfg e).2.lq.since = s.lq.since := by
  cases e with
  | query now j sig =>
    simp only [Server.step, Server.query]
    generalize preprocess cfg s.reg j .query sig = x
    obtain ⟨res, r⟩ := x
    cases res with
    | error e => exact ⟨hl, rfl⟩
    | ok pr =>
      have h := hasLock_fresh s.lq r cfg.limit now i j hl (ht now rfl)
      simp only
      generalize s.lq.hasLock r cfg.limit now j = y at h
      obtain ⟨res, q, r'⟩ := y
      simp only at h
      subst h
      cases res with
      | ok u => exact ⟨hl, rfl⟩
      | error e =>
        simp only
        split <;> exact ⟨hl, rfl⟩
  | start now j st pf sig =>
    simp only [Server.step, Server.start]
    generalize preprocess cfg s.reg j (.contribute st pf) sig = x
    obtain ⟨res, r⟩ := x
    cases res with
    | error e => exact ⟨hl, rfl⟩
    | ok pr =>
      have h := hasLock_fresh s.lq r cfg.limit now i j hl (ht now rfl)
      simp only
      generalize s.lq.hasLock r cfg.limit now j = y at h
      obtain ⟨res, q, r'⟩ := y
      simp only at h
      subst h
      cases res <;> exact ⟨hl, rfl⟩
  | apply k =>
    simp only [Server.step, Server.apply]
    split
    · exact ⟨hl, rfl⟩
    · split <;> exact ⟨hl, rfl⟩
  | finish now k => exact absurd rfl (hf now k)
  | reload rows => exact ⟨hl, rfl⟩
  | restart now => exact absurd rfl (hr now)

/-- **C71 is violated** by every contribution that takes longer than the time limit: whoever holds the
lock when its last step runs loses the lock and high priority, no matter how little of their time is
used up. -/
theorem c71_violated (cfg : Config VK Sig St Ch Pf) (s : Server I VK St Ch Pf Nm) (now k : Nat)
    (i j : I) (round : Nat) (hk : s.applied[k]? = some (j, round)) (hj : s.reg.get j ≠ none)
    (hl : s.lq.lock = some i) (hs : s.line.Nodup) (p : Participant VK) (hp : s.reg.get i = some p) :
    (s.step cfg (.finish now k)).2.lq.lock ≠ some i ∧
    (s.step cfg (.finish now k)).2.priorityOf i = some .normal := by
  cases hg : s.reg.get j with
  | none => exact absurd hg hj
  | some q =>
    simp only [Server.step, Server.finish, hk, hg]
    refine ⟨?_, ?_⟩
    · intro h
      have h' : s.lq.queue.popFront.1 = some i := by simpa [LockQueue.updateExpired] using h
      have hm : i ∈ s.lq.queue.flatten := by
        rw [← popFront_flatten, h']
        simp
      simp only [Server.line, hl, Option.toList_some, List.singleton_append, List.nodup_cons] at hs
      exact hs.1 hm
    · simp only [Server.priorityOf, updateExpired_get, Registry.get_modify, hl, if_true]
      split <;> simp [hp]

end Lock

/-- The hypotheses of `c71_violated` occur: participant 1 is slow, participant 2 got the lock
after the time limit, and loses it at once, to participant 3. -/
example :
    let s := toyServer.run toy [.query 0 1 (11, 0), .query 1 1 (11, 1),
      .start 2 1 [7, 9] [(2, 1), (3, 1)] (11, 2), .query 2 2 (12, 0), .query 3 3 (13, 0),
      .query 15 2 (12, 1), .apply 0]
    s.applied[0]? = some (1, 1) ∧ s.lq.lock = some 2 ∧ s.lq.since = 15 ∧ s.line.Nodup ∧
    (s.step toy (.finish 16 0)).2.lq.lock = some 3 := by
  decide

/-- The hypotheses of `c71_keep_partial` occur. -/
example :
    let s := toyServer.run toy [.query 0 1 (11, 0), .query 1 1 (11, 1)]
    s.lq.lock = some 1 ∧ s.lq.since = 1 ∧
    (s.step toy (.query 10 2 (12, 0))).2.lq.lock = some 1 ∧
    (s.step toy (.query 11 2 (12, 0))).2.lq.lock ≠ some 1 := by
  decide

end Verif.Ceremony
