import Verif.Ceremony.Requests
import Verif.Util.Props

/-!
# C42: nobody waits twice
-/

namespace Verif.Ceremony

open Verif.Util

section Queue

variable {I VK Sig St Ch Pf Nm : Type} [DecidableEq I] [DecidableEq Nm]

/-- Everybody who holds the lock or waits, in the order of their turns. -/
def Server.line (s : Server I VK St Ch Pf Nm) : List I := s.lq.lock.toList ++ s.lq.queue.flatten

/-- The priority the server holds for `i`. -/
def Server.priorityOf (s : Server I VK St Ch Pf Nm) (i : I) : Option Priority :=
  (s.reg.get i).map Participant.priority

/-- The event is a query whose own sender loses high priority by it: the sender held the lock for too
long, and asks again. -/
def LateQuery (cfg : Config VK Sig St Ch Pf) (s : Server I VK St Ch Pf Nm) :
    Event I VK Sig St Pf → Prop
  | .query now i sig => s.priorityOf i = some .high ∧
      (s.step cfg (.query now i sig)).2.priorityOf i = some .normal
  | _ => False

/-- No event of the history is a late query. -/
def Punctual (cfg : Config VK Sig St Ch Pf) (s : Server I VK St Ch Pf Nm) :
    List (Event I VK Sig St Pf) → Prop
  | [] => True
  | e :: es => ¬ LateQuery cfg s e ∧ Punctual cfg (s.step cfg e).2 es

/-- The queue has the two levels of the ceremony configuration, nobody occurs twice, and those who
wait and may still send requests wait at the level of their priority. -/
structure LineInv (q : LockQueue I) (r : Registry I VK) : Prop where
  two : q.queue.length = 2
  once : (q.lock.toList ++ q.queue.flatten).Nodup
  level : ∀ l xs i p, q.queue[l]? = some xs → i ∈ xs → r.get i = some p → p.contributed = false →
    p.priority.level = l

theorem popFront_flatten (q : MDeque I) :
    q.popFront.1.toList ++ q.popFront.2.flatten = q.flatten := by
  induction q with
  | nil => rfl
  | cons l q ih =>
    cases l with
    | nil => simpa [MDeque.popFront] using ih
    | cons x l => simp [MDeque.popFront]

theorem popFront_sub (q : MDeque I) (l : Nat) (xs : List I) (h : q.popFront.2[l]? = some xs) :
    ∃ ys, q[l]? = some ys ∧ ∀ x ∈ xs, x ∈ ys := by
  induction q generalizing l with
  | nil => simp [MDeque.popFront] at h
  | cons z q ih =>
    cases z with
    | nil =>
      cases l with
      | zero =>
        simp only [MDeque.popFront, List.getElem?_cons_zero, Option.some.injEq] at h
        exact ⟨[], rfl, by simp [← h]⟩
      | succ l =>
        simp only [MDeque.popFront, List.getElem?_cons_succ] at h
        simpa using ih l h
    | cons x z =>
      cases l with
      | zero =>
        simp only [MDeque.popFront, List.getElem?_cons_zero, Option.some.injEq] at h
        exact ⟨x :: z, rfl, by intro y hy; rw [← h] at hy; exact List.mem_cons_of_mem _ hy⟩
      | succ l =>
        simp only [MDeque.popFront, List.getElem?_cons_succ] at h
        exact ⟨xs, by simpa using h, fun _ h => h⟩

theorem popFront_length (q : MDeque I) : q.popFront.2.length = q.length := by
  induction q with
  | nil => rfl
  | cons z q ih => cases z <;> simp [MDeque.popFront, ih]

/-- Advancing the lock keeps the invariant, the previous holder is out of the line, and so is
everybody who was not in it. -/
theorem lineInv_updateExpired (q : LockQueue I) (r : Registry I VK) (now : Nat)
    (h : LineInv q r) :
    LineInv (q.updateExpired r now).2.1 (q.updateExpired r now).2.2 ∧
    (∀ i, q.lock = some i → i ∉ (q.updateExpired r now).2.1.lock.toList ++
      (q.updateExpired r now).2.1.queue.flatten) ∧
    (∀ i, i ∈ (q.updateExpired r now).2.1.lock.toList ++
      (q.updateExpired r now).2.1.queue.flatten → i ∈ q.queue.flatten) := by
  have hline : (q.updateExpired r now).2.1.lock.toList ++
      (q.updateExpired r now).2.1.queue.flatten = q.queue.flatten := popFront_flatten q.queue
  have hno := h.once
  rw [List.nodup_append] at hno
  have hout : ∀ i, q.lock = some i → i ∉ q.queue.flatten := by
    intro i hi hm
    exact hno.2.2 i (by simp [hi]) i hm rfl
  refine ⟨⟨?_, ?_, ?_⟩, ?_, ?_⟩
  · simp only [LockQueue.updateExpired, popFront_length]; exact h.two
  · rw [hline]; exact hno.2.1
  · intro l xs i p hl hi hp hc
    obtain ⟨ys, hy, hsub⟩ := popFront_sub q.queue l xs hl
    rw [updateExpired_get] at hp
    cases hg : r.get i with
    | none => rw [hg] at hp; cases hp
    | some p0 =>
      rw [hg] at hp
      have hmem : i ∈ q.queue.flatten :=
        List.mem_flatten.2 ⟨ys, List.mem_of_getElem? hy, hsub i hi⟩
      have hne : q.lock ≠ some i := fun hk => hout i hk hmem
      simp only [Option.map_some, if_neg hne, Option.some.injEq] at hp
      subst hp
      exact h.level l ys i p0 hy (hsub i hi) hg hc
  · intro i hi
    rw [hline]
    exact hout i hi
  · intro i hi
    rw [hline] at hi
    exact hi

theorem lineInv_reg (q : LockQueue I) (r r' : Registry I VK) (h : LineInv q r)
    (hr : ∀ i p', i ∈ q.queue.flatten → r'.get i = some p' → p'.contributed = false →
      ∃ p, r.get i = some p ∧ p.priority = p'.priority ∧ p.contributed = false) : LineInv q r' := by
  refine ⟨h.two, h.once, ?_⟩
  intro l xs i p hl hi hp hc
  obtain ⟨p0, h0, h1, h2⟩ := hr i p (List.mem_flatten.2 ⟨xs, List.mem_of_getElem? hl, hi⟩) hp hc
  rw [← h1]
  exact h.level l xs i p0 hl hi h0 h2

/-- `has_lock` keeps the invariant; a refusal means that the requester does not hold the lock. -/
theorem lineInv_hasLock (q : LockQueue I) (r : Registry I VK) (limit now : Nat) (i : I)
    (h : LineInv q r) :
    LineInv (q.hasLock r limit now i).2.1 (q.hasLock r limit now i).2.2 ∧
    (∀ e, (q.hasLock r limit now i).1 = .error e →
      (q.hasLock r limit now i).2.1.lock ≠ some i) := by
  rw [hasLock_reg]
  unfold LockQueue.hasLock LockQueue.updateLock
  by_cases hx : q.hasExpired limit now = true
  · simp only [hx, if_true]
    obtain ⟨h1, h2, h3⟩ := lineInv_updateExpired q r now h
    refine ⟨h1, ?_⟩
    intro e he
    by_cases ht : (q.updateExpired r now).1 = some i
    · have ho := h2 i (by simpa [LockQueue.updateExpired] using ht)
      simp only [List.mem_append, not_or] at ho
      intro hl
      exact ho.1 (by simp [hl])
    · rw [if_neg ht] at he
      by_cases hk : (q.updateExpired r now).2.1.lock = some i
      · rw [if_pos hk] at he; cases he
      · exact hk
  · rw [if_neg hx]
    refine ⟨h, ?_⟩
    intro e he
    simp only [reduceCtorEq, if_false] at he
    by_cases hk : q.lock = some i
    · simp only [if_pos hk] at he; cases he
    · exact hk

theorem mem_two {q : MDeque I} {i : I} (h : i ∈ q.flatten) :
    ∃ (l : Nat) (xs : List I), q[l]? = some xs ∧ i ∈ xs := by
  obtain ⟨xs, hx, hi⟩ := List.mem_flatten.1 h
  obtain ⟨l, hl, he⟩ := List.getElem_of_mem hx
  exact ⟨l, xs, by rw [List.getElem?_eq_getElem hl, he], hi⟩

theorem flatten_set_append (q : MDeque I) (l : Nat) (xs : List I) (i : I)
    (h : q[l]? = some xs) : (q.set l (xs ++ [i])).flatten.Perm (i :: q.flatten) := by
  induction q generalizing l with
  | nil => simp at h
  | cons z q ih =>
    cases l with
    | zero =>
      simp only [List.getElem?_cons_zero, Option.some.injEq] at h
      subst h
      simp only [List.set_cons_zero, List.flatten_cons, List.append_assoc, List.singleton_append]
      exact List.perm_middle
    | succ l =>
      simp only [List.getElem?_cons_succ] at h
      simp only [List.set_cons_succ, List.flatten_cons]
      exact ((ih l h).append_left z).trans List.perm_middle

/-- Joining the line at the level of one's priority. -/
theorem lineInv_push (q : LockQueue I) (r : Registry I VK) (i : I) (p : Participant VK)
    (queue : MDeque I) (b : Bool) (pos : Nat) (h : LineInv q r) (hp : r.get i = some p)
    (hc : p.contributed = false) (hl : q.lock ≠ some i)
    (hpush : q.queue.pushBackIfMissing p.priority.level i = some ((b, pos), queue)) :
    LineInv { q with queue := queue } r := by
  obtain ⟨_, hb, hfalse, htrue⟩ := MDeque.c50_push_back_if_missing q.queue queue _ i b pos hpush
  cases b with
  | false => rw [hfalse rfl]; exact h
  | true =>
    have hpb := htrue rfl
    have hmiss := hb.1 rfl
    unfold MDeque.pushBack at hpb
    cases hq : q.queue[p.priority.level]? with
    | none => rw [hq] at hpb; cases hpb
    | some xs =>
      rw [hq] at hpb
      simp only [Option.some.injEq] at hpb
      subst hpb
      have hnew : i ∉ q.queue.flatten := by
        intro hm
        obtain ⟨l, ys, hy, hi⟩ := mem_two hm
        have := h.level l ys i p hy hi hp hc
        rw [← this] at hy
        exact hmiss ys hy hi
      have hperm := flatten_set_append q.queue p.priority.level xs i hq
      have hno := h.once
      rw [List.nodup_append] at hno
      refine ⟨by simpa using h.two, ?_, ?_⟩
      · rw [List.nodup_append]
        refine ⟨hno.1, ?_, ?_⟩
        · rw [hperm.nodup_iff, List.nodup_cons]
          exact ⟨hnew, hno.2.1⟩
        · intro a ha b hb' hab
          subst hab
          rcases List.mem_cons.1 (hperm.mem_iff.1 hb') with rfl | hb'
          · simp only [Option.mem_toList] at ha
            exact hl ha
          · exact hno.2.2 a ha a hb' rfl
      · intro l ys j p' hy hj hp' hc'
        simp only [List.getElem?_set] at hy
        split at hy
        · split at hy
          · simp only [Option.some.injEq] at hy
            subst hy
            rename_i hlev _
            rcases List.mem_append.1 hj with hj | hj
            · rw [← hlev]
              exact h.level _ xs j p' hq hj hp' hc'
            · simp only [List.mem_singleton] at hj
              subst hj
              rw [hp] at hp'
              simp only [Option.some.injEq] at hp'
              subst hp'
              exact hlev
          · cases hy
        · exact h.level l ys j p' hy hj hp' hc'

theorem level_eq_high {p q : Priority} (h : p.level = q.level) : p = q := by
  cases p <;> cases q <;> first | rfl | cases h

theorem push_total (q : MDeque I) (l : Nat) (i : I) (h : l < q.length) :
    ∃ b pos queue, q.pushBackIfMissing l i = some ((b, pos), queue) := by
  unfold MDeque.pushBackIfMissing MDeque.position MDeque.pushBack
  rw [List.getElem?_eq_getElem h]
  simp only
  cases q[l].findIdx? (fun y => decide (y = i)) with
  | none =>
    simp only [List.getElem?_set]
    simp [h]
  | some p => exact ⟨_, _, _, rfl⟩

/-- One event keeps the invariant, unless it is a late query. -/
theorem lineInv_step (cfg : Config VK Sig St Ch Pf) (s : Server I VK St Ch Pf Nm)
    (e : Event I VK Sig St Pf) (h : LineInv s.lq s.reg)
    (hreg : ∀ i ∈ s.lq.queue.flatten, s.reg.get i ≠ none) (hl : ¬ LateQuery cfg s e) :
    LineInv (s.step cfg e).2.lq (s.step cfg e).2.reg := by
  have hnonce : ∀ i, LineInv s.lq (s.reg.modify i fun p => { p with nonce := incNonce p.nonce }) := by
    intro i
    refine lineInv_reg s.lq s.reg _ h ?_
    intro j p' _ hj hc
    rw [Registry.get_modify] at hj
    by_cases hji : j = i
    · rw [if_pos hji] at hj
      cases hg : s.reg.get j with
      | none => rw [hg] at hj; cases hj
      | some p =>
        rw [hg] at hj
        simp only [Option.map_some, Option.some.injEq] at hj
        subst hj
        exact ⟨p, rfl, rfl, hc⟩
    · rw [if_neg hji] at hj
      exact ⟨p', hj, rfl, hc⟩
  cases e with
  | query now i sig =>
    have hl' := hl
    simp only [LateQuery, Server.priorityOf] at hl'
    simp only [Server.step, Server.query] at hl' ⊢
    rcases preprocess_cases cfg s.reg i .query sig with ⟨e, hp, _⟩ | ⟨p, hg, hc, _, _, hp⟩
    · simp only [hp]; exact h
    · simp only [hp] at hl' ⊢
      obtain ⟨h1, h2⟩ := lineInv_hasLock s.lq _ cfg.limit now i (hnonce i)
      have hlat := hasLock_reg s.lq (s.reg.modify i fun p => { p with nonce := incNonce p.nonce })
        cfg.limit now i
      have hget := updateLock_get s.lq
        (s.reg.modify i fun p => { p with nonce := incNonce p.nonce }) cfg.limit now i
      rw [← hlat, Registry.get_modify, if_pos rfl, hg] at hget
      generalize hq : s.lq.hasLock
        (s.reg.modify i fun p => { p with nonce := incNonce p.nonce }) cfg.limit now i = x
        at h1 h2 hl' hget ⊢
      obtain ⟨res, q, r'⟩ := x
      cases res with
      | ok u => exact h1
      | error e' =>
        have hlock := h2 e' rfl
        simp only [Option.map_some] at hget h1 hl' ⊢
        obtain ⟨b, pos, queue, hpush⟩ := push_total q.queue p.priority.level i (by
          rw [h1.two]; cases p.priority <;> decide)
        simp only [hpush] at hl' ⊢
        -- the priority the requester is left with is the one they are enqueued with
        obtain ⟨p', hp', hpr, hpc⟩ : ∃ p', r'.get i = some p' ∧ p'.priority = p.priority ∧
            p'.contributed = false := by
          split at hget
          · refine ⟨_, hget, ?_, hc⟩
            simp only
            rw [hg, hget] at hl'
            simp only [Option.map_some, and_true, Option.some.injEq] at hl'
            cases hpp : p.priority with
            | high => exact absurd hpp hl'
            | normal => rfl
          · exact ⟨_, hget, rfl, hc⟩
        rw [← hpr] at hpush
        exact lineInv_push q r' i p' queue b pos h1 hp' hpc hlock hpush
  | start now i st pf sig =>
    simp only [Server.step, Server.start]
    rcases preprocess_cases cfg s.reg i (.contribute st pf) sig with
      ⟨e, hp, _⟩ | ⟨p, hg, hc, _, _, hp⟩
    · simp only [hp]; exact h
    · simp only [hp]
      obtain ⟨h1, _⟩ := lineInv_hasLock s.lq _ cfg.limit now i (hnonce i)
      generalize s.lq.hasLock
        (s.reg.modify i fun p => { p with nonce := incNonce p.nonce }) cfg.limit now i = x at h1 ⊢
      obtain ⟨res, q, r'⟩ := x
      cases res <;> exact h1
  | apply k =>
    simp only [Server.step, Server.apply]
    split
    · exact h
    · split <;> exact h
  | finish now k =>
    simp only [Server.step, Server.finish]
    split
    · exact h
    · split
      · exact h
      · refine (lineInv_updateExpired _ _ _ (lineInv_reg s.lq s.reg _ h ?_)).1
        intro j p' _ hj hc
        rw [Registry.get_modify] at hj
        split at hj
        · cases hg : s.reg.get j with
          | none => rw [hg] at hj; cases hj
          | some p =>
            rw [hg] at hj
            simp only [Option.map_some, Option.some.injEq] at hj
            subst hj
            cases hc
        · exact ⟨p', hj, rfl, hc⟩
  | reload rows =>
    simp only [Server.step]
    refine lineInv_reg s.lq s.reg _ h ?_
    intro i p' hi hp' hc
    simp only [Registry.loadAppend, Registry.get_loadLoop] at hp'
    cases hg : s.reg.get i with
    | none => exact absurd hg (hreg i hi)
    | some p =>
      rw [hg] at hp'
      simp only [Option.some.injEq] at hp'
      subst hp'
      exact ⟨p, rfl, rfl, hc⟩
  | restart now =>
    simp only [Server.step, Server.restart]
    split
    · exact h
    · refine ⟨rfl, by simp [MDeque.empty], ?_⟩
      intro l xs i p hx hi
      simp only [MDeque.empty] at hx
      have : xs = [] := by
        rw [List.getElem?_replicate] at hx
        split at hx
        · simpa using hx.symm
        · cases hx
      subst this
      cases hi

/-- Whoever waits is registered. -/
def Known (s : Server I VK St Ch Pf Nm) : Prop :=
  ∀ i ∈ s.line, s.reg.get i ≠ none

theorem known_step (cfg : Config VK Sig St Ch Pf) (s : Server I VK St Ch Pf Nm)
    (e : Event I VK Sig St Pf) (h : Known s) : Known (s.step cfg e).2 := by
  have keep : ∀ (e : Event I VK Sig St Pf), (∀ now, e ≠ .restart now) → ∀ i, s.reg.get i ≠ none →
      (s.step cfg e).2.reg.get i ≠ none := by
    intro e he i hi
    cases hg : s.reg.get i with
    | none => exact absurd hg hi
    | some p =>
      obtain ⟨q, hq, _⟩ := step_later cfg s e he i p hg
      rw [hq]; simp
  have expired : ∀ (q : LockQueue I) (r : Registry I VK) (now : Nat) (i : I),
      i ∈ (q.updateExpired r now).2.1.lock.toList ++ (q.updateExpired r now).2.1.queue.flatten →
      i ∈ q.lock.toList ++ q.queue.flatten := by
    intro q r now i hi
    have : (q.updateExpired r now).2.1.lock.toList ++
      (q.updateExpired r now).2.1.queue.flatten = q.queue.flatten := popFront_flatten q.queue
    rw [this] at hi
    exact List.mem_append_right _ hi
  have locked : ∀ (q : LockQueue I) (r : Registry I VK) (limit now : Nat) (i j : I),
      j ∈ (q.hasLock r limit now i).2.1.lock.toList ++ (q.hasLock r limit now i).2.1.queue.flatten →
      j ∈ q.lock.toList ++ q.queue.flatten := by
    intro q r limit now i j hj
    rw [hasLock_reg] at hj
    unfold LockQueue.updateLock at hj
    split at hj
    · exact expired q r now j hj
    · exact hj
  cases e with
  | query now i sig =>
    intro j hj
    have hk := keep (.query now i sig) (by simp) j
    suffices h' : j ∈ s.line ∨ j = i ∧ s.reg.get i ≠ none by
      rcases h' with h' | ⟨h', h''⟩
      · exact hk (h j h')
      · exact hk (by rw [h']; exact h'')
    unfold Server.line at hj
    simp only [Server.step, Server.query] at hj
    rcases preprocess_cases cfg s.reg i .query sig with ⟨e, hp, _⟩ | ⟨p, hg, hc, _, _, hp⟩
    · simp only [hp] at hj; exact .inl hj
    · simp only [hp] at hj
      have hl := locked s.lq (s.reg.modify i fun p => { p with nonce := incNonce p.nonce })
        cfg.limit now i j
      generalize s.lq.hasLock
        (s.reg.modify i fun p => { p with nonce := incNonce p.nonce }) cfg.limit now i = x at hl hj
      obtain ⟨res, q, r'⟩ := x
      cases res with
      | ok u => exact .inl (hl hj)
      | error e' =>
        simp only at hj hl
        split at hj
        · rename_i b pos queue hpush
          obtain ⟨_, _, hfalse, htrue⟩ := MDeque.c50_push_back_if_missing _ _ _ _ _ _ hpush
          cases b with
          | false =>
            rw [hfalse rfl] at hj
            exact .inl (hl hj)
          | true =>
            have hpb := htrue rfl
            unfold MDeque.pushBack at hpb
            split at hpb
            · cases hpb
            · rename_i xs hxs
              simp only [Option.some.injEq] at hpb
              rcases List.mem_append.1 hj with hj | hj
              · exact .inl (hl (List.mem_append_left _ hj))
              · rw [← hpb] at hj
                rcases List.mem_cons.1 ((flatten_set_append _ _ _ i hxs).mem_iff.1 hj) with hj | hj
                · exact .inr ⟨hj, by rw [hg]; simp⟩
                · exact .inl (hl (List.mem_append_right _ hj))
        · exact .inl (hl hj)
  | start now i st pf sig =>
    intro j hj
    refine keep (.start now i st pf sig) (by simp) j (h j ?_)
    unfold Server.line at hj
    simp only [Server.step, Server.start] at hj
    rcases preprocess_cases cfg s.reg i (.contribute st pf) sig with
      ⟨e, hp, _⟩ | ⟨p, hg, hc, _, _, hp⟩
    · simp only [hp] at hj; exact hj
    · simp only [hp] at hj
      have hl := locked s.lq (s.reg.modify i fun p => { p with nonce := incNonce p.nonce })
        cfg.limit now i j
      generalize s.lq.hasLock
        (s.reg.modify i fun p => { p with nonce := incNonce p.nonce }) cfg.limit now i = x at hl hj
      obtain ⟨res, q, r'⟩ := x
      cases res <;> exact hl hj
  | apply k =>
    intro j hj
    refine keep (.apply k) (by simp) j (h j ?_)
    unfold Server.line at hj
    simp only [Server.step, Server.apply] at hj
    split at hj
    · exact hj
    · split at hj <;> exact hj
  | finish now k =>
    intro j hj
    refine keep (.finish now k) (by simp) j (h j ?_)
    unfold Server.line at hj
    simp only [Server.step, Server.finish] at hj
    split at hj
    · exact hj
    · split at hj
      · exact hj
      · rename_i i _ _ _ _ _
        exact expired s.lq (s.reg.modify i fun p => { p with contributed := true }) now j hj
  | reload rows =>
    intro j hj
    exact keep (.reload rows) (by simp) j (h j hj)
  | restart now =>
    intro j hj
    unfold Server.line at hj
    simp only [Server.step, Server.restart] at hj ⊢
    split at hj
    · rename_i e he
      simp only [he]
      exact h j hj
    · simp [MDeque.empty, List.replicate] at hj

theorem lineInv_run (cfg : Config VK Sig St Ch Pf) (es : List (Event I VK Sig St Pf))
    (s : Server I VK St Ch Pf Nm) (h : LineInv s.lq s.reg) (hk : Known s)
    (hp : Punctual cfg s es) : LineInv (s.run cfg es).lq (s.run cfg es).reg := by
  induction es generalizing s with
  | nil => exact h
  | cons e es ih =>
    refine ih _ (lineInv_step cfg s e h ?_ hp.1) (known_step cfg s e hk) hp.2
    exact fun i hi => hk i (List.mem_append_right _ hi)

/-- A server with nobody in line. -/
def Fresh (s : Server I VK St Ch Pf Nm) : Prop := s.lq.lock = none ∧ s.lq.queue = MDeque.empty 2

theorem fresh_inv (s : Server I VK St Ch Pf Nm) (h : Fresh s) : LineInv s.lq s.reg ∧ Known s := by
  refine ⟨⟨by rw [h.2]; rfl, by rw [h.1, h.2]; simp [MDeque.empty], ?_⟩, ?_⟩
  · intro l xs i p hx hi
    rw [h.2] at hx
    simp only [MDeque.empty, List.getElem?_replicate] at hx
    split at hx
    · simp only [Option.some.injEq] at hx
      subst hx
      cases hi
    · cases hx
  · intro i hi
    simp [Server.line, h.1, h.2, MDeque.empty] at hi

/-- **C42, without late queries.** From an empty line on, after every history of queries,
interleaved steps of contributions, timeouts, reloads and restarts in which no query makes its own
sender lose high priority, nobody occurs twice in lock and queue together. In particular this
covers every ceremony in which all participants have normal priority
(`c42_all_normal`). Missing for the full claim: late queries, see `c42_violated`. -/
theorem c42_once_partial (cfg : Config VK Sig St Ch Pf) (s : Server I VK St Ch Pf Nm)
    (hs : Fresh s) (es : List (Event I VK Sig St Pf)) (hes : Punctual cfg s es) :
    (s.run cfg es).line.Nodup :=
  (lineInv_run cfg es s (fresh_inv s hs).1 (fresh_inv s hs).2 hes).once

/-- Nobody in the registry has high priority, now or in the recovery files. -/
def AllNormal (s : Server I VK St Ch Pf Nm) : Prop :=
  (∀ i p, s.reg.get i = some p → p.priority = .normal) ∧
  ∀ k r, s.disk.registry k = some r → ∀ i p, r.get i = some p → p.priority = .normal

theorem write_registry (d : Disk I VK St Ch Pf Nm) (ws : List (Write I VK St Ch Pf Nm))
    (h : ∀ k r, Write.registry k r ∉ ws) : (d.writes ws).registry = d.registry := by
  induction ws generalizing d with
  | nil => rfl
  | cons w ws ih =>
    have := ih (d.write w) (fun k r hm => h k r (List.mem_cons_of_mem _ hm))
    simp only [Disk.writes, List.foldl_cons] at this ⊢
    rw [this]
    cases w with
    | registry k r => exact absurd (List.mem_cons_self ..) (h k r)
    | state _ _ _ => rfl
    | challenge _ _ _ => rfl
    | proof _ _ _ => rfl
    | roundNumber _ => rfl

theorem stateWrites_mem (k : Nat) (l : List (St × Ch)) (nms : List Nm)
    (w : Write I VK St Ch Pf Nm) (h : w ∈ stateWrites k l nms) :
    ∃ nm, nm ∈ nms ∧ ((∃ s, w = .state nm k s) ∨ ∃ c, w = .challenge nm k c) := by
  induction l generalizing nms with
  | nil => simp [stateWrites] at h
  | cons x l ih =>
    cases nms with
    | nil => simp [stateWrites] at h
    | cons nm nms =>
      simp only [stateWrites, List.mem_cons] at h
      rcases h with rfl | rfl | h
      · exact ⟨nm, by simp, .inl ⟨_, rfl⟩⟩
      · exact ⟨nm, by simp, .inr ⟨_, rfl⟩⟩
      · obtain ⟨nm', h1, h2⟩ := ih nms h
        exact ⟨nm', by simp [h1], h2⟩

theorem proofWrites_mem (k : Nat) (l : List Pf) (nms : List Nm)
    (w : Write I VK St Ch Pf Nm) (h : w ∈ proofWrites k l nms) :
    ∃ nm, nm ∈ nms ∧ ∃ p, w = .proof nm k p := by
  induction l generalizing nms with
  | nil => simp [proofWrites] at h
  | cons x l ih =>
    cases nms with
    | nil => simp [proofWrites] at h
    | cons nm nms =>
      simp only [proofWrites, List.mem_cons] at h
      rcases h with rfl | h
      · exact ⟨nm, by simp, _, rfl⟩
      · obtain ⟨nm', h1, h2⟩ := ih nms h
        exact ⟨nm', by simp [h1], h2⟩

theorem saveWrites_no_registry (m : Sclp St Ch Pf) (names : List Nm) (k : Nat)
    (r : Registry I VK) : Write.registry k r ∉ m.saveWrites names := by
  unfold Sclp.saveWrites
  intro h
  simp only [List.mem_append, List.mem_singleton, reduceCtorEq, or_false] at h
  rcases h with h | h
  · obtain ⟨nm, _, h | h⟩ := stateWrites_mem _ _ _ _ h <;> obtain ⟨_, h⟩ := h <;> cases h
  · split at h
    · obtain ⟨nm, _, _, h⟩ := proofWrites_mem _ _ _ _ h; cases h
    · cases h

/-- What a successful `recover` has read. -/
theorem recover_ok {d : Disk I VK St Ch Pf Nm} {N : Nat} {m : Sclp St Ch Pf} {r : Registry I VK}
    (h : d.recover N = .ok (m, r)) :
    ∃ k names ss cs ps, d.roundNumber = some k ∧ d.names = some names ∧ names.length = N ∧
      recoverLoop d k names = some (ss, cs, ps) ∧ d.registry k = some r ∧
      m = { state := ss, challenge := cs, proof := if k = 0 then none else some ps, round := k } := by
  unfold Disk.recover at h
  cases hk : d.roundNumber with
  | none => rw [hk] at h; cases h
  | some k =>
    cases hn : d.names with
    | none => rw [hk, hn] at h; cases h
    | some names =>
      rw [hk, hn] at h
      simp only at h
      by_cases hN : names.length = N
      · rw [if_neg (by simp [hN])] at h
        cases hl : recoverLoop d k names with
        | none => rw [hl] at h; cases h
        | some x =>
          obtain ⟨ss, cs, ps⟩ := x
          rw [hl] at h
          simp only at h
          cases hr : d.registry k with
          | none => rw [hr] at h; cases h
          | some r' =>
            rw [hr] at h
            simp only [Except.ok.injEq, Prod.mk.injEq] at h
            obtain ⟨h1, h2⟩ := h
            subst h2
            exact ⟨k, names, ss, cs, ps, rfl, rfl, hN, hl, hr, h1.symm⟩
      · rw [if_pos (by simpa using hN)] at h; cases h

/-- Registration files without high-priority rows. -/
def RowsNormal (es : List (Event I VK Sig St Pf)) : Prop :=
  ∀ rows, Event.reload rows ∈ es → ∀ i p, some (i, p) ∈ rows → p.priority = .normal

theorem allNormal_step (cfg : Config VK Sig St Ch Pf) (s : Server I VK St Ch Pf Nm)
    (e : Event I VK Sig St Pf) (hs : AllNormal s) (hr : RowsNormal [e]) :
    AllNormal (s.step cfg e).2 := by
  have mod : ∀ (r : Registry I VK) (i : I) (f : Participant VK → Participant VK),
      (∀ p, p.priority = .normal → (f p).priority = .normal) →
      (∀ i p, r.get i = some p → p.priority = .normal) →
      ∀ j p, (r.modify i f).get j = some p → p.priority = .normal := by
    intro r i f hf h j p hj
    rw [Registry.get_modify] at hj
    split at hj
    · cases hg : r.get j with
      | none => rw [hg] at hj; cases hj
      | some q =>
        rw [hg] at hj
        simp only [Option.map_some, Option.some.injEq] at hj
        subst hj
        exact hf q (h j q hg)
    · exact h j p hj
  have expired : ∀ (q : LockQueue I) (r : Registry I VK) (now : Nat),
      (∀ i p, r.get i = some p → p.priority = .normal) →
      ∀ i p, (q.updateExpired r now).2.2.get i = some p → p.priority = .normal := by
    intro q r now h i p hp
    rw [updateExpired_get] at hp
    cases hg : r.get i with
    | none => rw [hg] at hp; cases hp
    | some p0 =>
      rw [hg] at hp
      simp only [Option.map_some, Option.some.injEq] at hp
      subst hp
      split
      · rfl
      · exact h i p0 hg
  have locked : ∀ (q : LockQueue I) (r : Registry I VK) (limit now : Nat) (x : I),
      (∀ i p, r.get i = some p → p.priority = .normal) →
      ∀ i p, (q.hasLock r limit now x).2.2.get i = some p → p.priority = .normal := by
    intro q r limit now x h i p hp
    rw [hasLock_reg, updateLock_get] at hp
    cases hg : r.get i with
    | none => rw [hg] at hp; cases hp
    | some p0 =>
      rw [hg] at hp
      simp only [Option.map_some, Option.some.injEq] at hp
      subst hp
      split
      · rfl
      · exact h i p0 hg
  cases e with
  | query now i sig =>
    simp only [Server.step, Server.query]
    rcases preprocess_cases cfg s.reg i .query sig with ⟨e, hp, _⟩ | ⟨p, hg, hc, _, _, hp⟩
    · simp only [hp]; exact hs
    · simp only [hp]
      have hl := locked s.lq (s.reg.modify i fun p => { p with nonce := incNonce p.nonce })
        cfg.limit now i (by exact mod _ _ _ (fun _ h => h) hs.1)
      generalize s.lq.hasLock
        (s.reg.modify i fun p => { p with nonce := incNonce p.nonce }) cfg.limit now i = x at hl ⊢
      obtain ⟨res, q, r'⟩ := x
      cases res with
      | ok u => exact ⟨hl, hs.2⟩
      | error e' =>
        simp only
        split
        · exact ⟨hl, hs.2⟩
        · exact ⟨hl, hs.2⟩
  | start now i st pf sig =>
    simp only [Server.step, Server.start]
    rcases preprocess_cases cfg s.reg i (.contribute st pf) sig with
      ⟨e, hp, _⟩ | ⟨p, hg, hc, _, _, hp⟩
    · simp only [hp]; exact hs
    · simp only [hp]
      have hl := locked s.lq (s.reg.modify i fun p => { p with nonce := incNonce p.nonce })
        cfg.limit now i (by exact mod _ _ _ (fun _ h => h) hs.1)
      generalize s.lq.hasLock
        (s.reg.modify i fun p => { p with nonce := incNonce p.nonce }) cfg.limit now i = x at hl ⊢
      obtain ⟨res, q, r'⟩ := x
      cases res <;> exact ⟨hl, hs.2⟩
  | apply k =>
    simp only [Server.step, Server.apply]
    split
    · exact hs
    · split
      · refine ⟨hs.1, ?_⟩
        simp only [write_registry _ _ (saveWrites_no_registry _ _)]
        exact hs.2
      · exact hs
  | finish now k =>
    simp only [Server.step, Server.finish]
    split
    · exact hs
    · split
      · exact hs
      · rename_i i _ _ _ _ _
        have hreg := expired s.lq
          (s.reg.modify i fun p => { p with contributed := true }) now
          (mod s.reg i (fun p => { p with contributed := true }) (fun _ h => h) hs.1)
        refine ⟨hreg, ?_⟩
        intro k' r hk
        simp only [Disk.write] at hk
        split at hk
        · simp only [Option.some.injEq] at hk
          subst hk
          exact hreg
        · exact hs.2 k' r hk
  | reload rows =>
    refine ⟨?_, hs.2⟩
    intro i p hp
    simp only [Server.step, Registry.loadAppend, Registry.get_loadLoop] at hp
    cases hg : s.reg.get i with
    | some q =>
      rw [hg] at hp
      simp only [Option.some.injEq] at hp
      subst hp
      exact hs.1 i q hg
    | none =>
      rw [hg] at hp
      simp only [Registry.firstRecord, Option.map_eq_some_iff] at hp
      obtain ⟨x, hx, rfl⟩ := hp
      have hm := List.mem_of_find?_eq_some hx
      rw [List.mem_filterMap] at hm
      obtain ⟨y, hy, hye⟩ := hm
      simp only [id_eq] at hye
      subst hye
      exact hr rows (by simp) x.1 x.2 hy
  | restart now =>
    simp only [Server.step, Server.restart]
    split
    · exact hs
    · rename_i m r hrec
      refine ⟨?_, hs.2⟩
      obtain ⟨k, _, _, _, _, _, _, _, _, hk, _⟩ := recover_ok hrec
      exact hs.2 _ _ hk

/-- A ceremony in which everybody has normal priority has no late queries. -/
theorem punctual_of_normal (cfg : Config VK Sig St Ch Pf) (es : List (Event I VK Sig St Pf))
    (s : Server I VK St Ch Pf Nm) (hs : AllNormal s) (hr : RowsNormal es) : Punctual cfg s es := by
  induction es generalizing s with
  | nil => trivial
  | cons e es ih =>
    refine ⟨?_, ih _ (allNormal_step cfg s e hs ?_) fun rows h => hr rows (by simp [h])⟩
    · intro hl
      cases e with
      | query now i sig =>
        obtain ⟨h, _⟩ := hl
        unfold Server.priorityOf at h
        rw [Option.map_eq_some_iff] at h
        obtain ⟨p, hp, he⟩ := h
        rw [hs.1 i p hp] at he
        cases he
      | _ => exact hl
    · intro rows h
      simp only [List.mem_singleton] at h
      exact hr rows (by simp [h])

/-- **C42 for ceremonies with one priority.** -/
theorem c42_all_normal (cfg : Config VK Sig St Ch Pf) (s : Server I VK St Ch Pf Nm)
    (hs : Fresh s) (hn : AllNormal s) (es : List (Event I VK Sig St Pf)) (hr : RowsNormal es) :
    (s.run cfg es).line.Nodup :=
  c42_once_partial cfg s hs es (punctual_of_normal cfg es s hn hr)

end Queue

end Verif.Ceremony
