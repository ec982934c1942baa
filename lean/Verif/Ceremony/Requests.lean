import Verif.Ceremony.Model

/-!
# C41 and C47: nonces and the registry
-/

namespace Verif.Ceremony

open Verif.Util

namespace Registry

variable {I VK : Type} [DecidableEq I]

theorem get_modify (r : Registry I VK) (i j : I) (f : Participant VK → Participant VK) :
    (r.modify i f).get j = if j = i then (r.get j).map f else r.get j := by
  induction r with
  | nil => simp [modify, get]
  | cons x r ih =>
    obtain ⟨k, p⟩ := x
    simp only [modify]
    by_cases hk : k = i
    · rw [if_pos hk]
      simp only [get]
      by_cases hj : k = j
      · rw [if_pos hj, if_pos hj, if_pos (by rw [← hj, hk])]; rfl
      · rw [if_neg hj, if_neg hj, if_neg (by intro h; exact hj (by rw [h, hk]))]
    · rw [if_neg hk]
      simp only [get]
      by_cases hj : k = j
      · rw [if_pos hj, if_pos hj, if_neg (by intro h; exact hk (by rw [hj, h]))]
      · rw [if_neg hj, if_neg hj, ih]

theorem map_modify (r : Registry I VK) (i : I) (f : Participant VK → Participant VK) :
    (r.modify i f).map Prod.fst = r.map Prod.fst := by
  induction r with
  | nil => rfl
  | cons x r ih =>
    obtain ⟨k, p⟩ := x
    simp only [modify]
    split
    · simp
    · simp [ih]

theorem get_append (r r' : Registry I VK) (i : I) :
    get (r ++ r') i = match get r i with | some p => some p | none => get r' i := by
  induction r with
  | nil => simp [get]
  | cons x r ih =>
    obtain ⟨k, p⟩ := x
    simp only [List.cons_append, get]
    by_cases h : k = i
    · simp [h]
    · simp only [if_neg h, ih]

theorem get_none_iff (r : Registry I VK) (i : I) : get r i = none ↔ i ∉ r.map Prod.fst := by
  induction r with
  | nil => simp [get]
  | cons x r ih =>
    obtain ⟨k, p⟩ := x
    simp only [get, List.map_cons, List.mem_cons, not_or]
    by_cases h : k = i
    · simp [h]
    · simp only [if_neg h, ih]
      exact ⟨fun h' => ⟨fun e => h e.symm, h'⟩, fun h' => h'.2⟩

/-- The rows of a registration file that speak about `i`, first one first. -/
def firstRecord (rows : List (Option (I × Participant VK))) (i : I) : Option (Participant VK) :=
  ((rows.filterMap id).find? fun x => x.1 = i).map Prod.snd

theorem get_insert (r : Registry I VK) (i j : I) (p : Participant VK) :
    (r.insert i p).2.get j =
      match r.get j with | some q => some q | none => if i = j then some p else none := by
  unfold insert
  cases hi : get r i with
  | none =>
    simp only [get_append, get]
  | some q =>
    simp only
    cases hj : get r j with
    | some q' => rfl
    | none =>
      simp only
      rw [if_neg]
      intro h; rw [h, hj] at hi; cases hi

theorem get_loadLoop (rows : List (Option (I × Participant VK))) (r : Registry I VK) (i : I) :
    (r.loadLoop rows).get i =
      match r.get i with | some p => some p | none => firstRecord rows i := by
  induction rows generalizing r with
  | nil =>
    simp only [loadLoop, firstRecord, List.filterMap_nil, List.find?_nil, Option.map_none]
    cases get r i <;> rfl
  | cons x rows ih =>
    cases x with
    | none =>
      simp only [loadLoop, ih]
      rfl
    | some jp =>
      obtain ⟨j, p⟩ := jp
      simp only [loadLoop, ih, get_insert]
      cases get r i with
      | some q => rfl
      | none =>
        simp only [firstRecord, List.filterMap_cons, id_eq, List.find?_cons]
        by_cases h : j = i
        · simp [h]
        · simp [h]

theorem loadLoop_grows (rows : List (Option (I × Participant VK))) (r : Registry I VK) :
    ∃ added : Registry I VK, r.loadLoop rows = r ++ added := by
  induction rows generalizing r with
  | nil => exact ⟨[], by simp [loadLoop]⟩
  | cons x rows ih =>
    cases x with
    | none => exact ih r
    | some jp =>
      obtain ⟨j, p⟩ := jp
      simp only [loadLoop]
      obtain ⟨a, ha⟩ := ih (insert r j p).2
      rw [ha]
      unfold insert
      cases get r j with
      | none => exact ⟨(j, p) :: a, by simp⟩
      | some q => exact ⟨a, by simp⟩

theorem loadLoop_nodup (rows : List (Option (I × Participant VK))) (r : Registry I VK)
    (h : (r.map Prod.fst).Nodup) : ((r.loadLoop rows).map Prod.fst).Nodup := by
  induction rows generalizing r with
  | nil => exact h
  | cons x rows ih =>
    cases x with
    | none => exact ih r h
    | some jp =>
      obtain ⟨j, p⟩ := jp
      simp only [loadLoop]
      refine ih _ ?_
      unfold insert
      cases hj : get r j with
      | some q => exact h
      | none =>
        have := (get_none_iff r j).1 hj
        simp only [List.map_append, List.map_cons, List.map_nil]
        rw [List.nodup_append]
        refine ⟨h, by simp, ?_⟩
        intro a ha b hb he
        simp only [List.mem_singleton] at hb
        subst hb; subst he
        exact this ha

/-- **C47.** A registration succeeds exactly if the identifier is new. -/
theorem c47_register (r : Registry I VK) (i : I) (p : Participant VK) :
    ((r.insert i p).1 = true ↔ r.get i = none) ∧
    (r.get i = none → (r.insert i p).2.get i = some p) ∧
    (∀ q, r.get i = some q → (r.insert i p).2 = r) ∧ ∀ j, j ≠ i → (r.insert i p).2.get j = r.get j := by
  refine ⟨?_, fun h => ?_, fun q h => ?_, fun j h => ?_⟩
  · unfold insert
    cases get r i <;> simp
  · rw [get_insert, h, if_pos rfl]
  · unfold insert; rw [h]
  · rw [get_insert, if_neg (Ne.symm h)]
    cases get r j <;> rfl

/-- **C47.** Reloading keeps every existing entry as it is, gives every new identifier its first
valid record, adds nobody else, and reports exactly the number of new identifiers. -/
theorem c47_reload (r : Registry I VK) (rows : List (Option (I × Participant VK)))
    (hr : (r.map Prod.fst).Nodup) :
    (∀ i p, r.get i = some p → (r.loadAppend rows).2.get i = some p) ∧
    (∀ i, r.get i = none → (r.loadAppend rows).2.get i = firstRecord rows i) ∧
    ∃ new : List I, new.Nodup ∧
      (∀ i, i ∈ new ↔ r.get i = none ∧ firstRecord rows i ≠ none) ∧
      (r.loadAppend rows).1 = new.length := by
  refine ⟨?_, ?_, ?_⟩
  · intro i p h
    simp only [loadAppend, get_loadLoop, h]
  · intro i h
    simp only [loadAppend, get_loadLoop, h]
  · obtain ⟨added, ha⟩ := loadLoop_grows rows r
    have hn := loadLoop_nodup rows r hr
    rw [ha, List.map_append, List.nodup_append] at hn
    refine ⟨added.map Prod.fst, hn.2.1, ?_, ?_⟩
    · intro i
      have hg := get_loadLoop rows r i
      rw [ha, get_append] at hg
      constructor
      · intro hi
        have hir : get r i = none :=
          (get_none_iff r i).2 fun h => hn.2.2 i h i hi rfl
        refine ⟨hir, ?_⟩
        rw [hir] at hg
        simp only at hg
        rw [← hg]
        exact fun h => (get_none_iff added i).1 h hi
      · rintro ⟨hir, hf⟩
        rw [hir] at hg
        simp only at hg
        rw [← hg] at hf
        exact Classical.byContradiction fun h => hf ((get_none_iff added i).2 h)
    · simp [loadAppend, ha]

/-- Non-vacuity: a registry with one participant, a file with a row for that participant, a row that
does not parse, and two rows of another participant. -/
example :
    let p (n : Nat) : Participant Unit := ⟨.normal, (), n, false⟩
    let r : Registry Nat Unit := [(1, p 7)]
    r.loadAppend [some (1, p 0), none, some (2, p 5), some (2, p 6)] =
      (1, [(1, p 7), (2, p 5)]) := by
  decide

end Registry

section Nonces

variable {I VK Sig St Ch Pf Nm : Type} [DecidableEq I] [DecidableEq Nm]

/-- The signed request an event carries. -/
def Event.request : Event I VK Sig St Pf → Option (I × Body St Pf × Sig)
  | .query _ i sig => some (i, .query, sig)
  | .start _ i st pf sig => some (i, .contribute st pf, sig)
  | _ => none

/-- A response shows that the request was let through: anything but the errors about registration,
contribution, nonce and signature. -/
def Resp.admitted : Resp St Ch → Bool
  | .error e => e == .timeout || e == .notYourTurn
  | .none => false
  | _ => true

/-- The nonce the server holds for `i`. -/
def Server.nonceOf (s : Server I VK St Ch Pf Nm) (i : I) : Option Nat :=
  (s.reg.get i).map Participant.nonce

/-- The key the server holds for `i`. -/
def Server.keyOf (s : Server I VK St Ch Pf Nm) (i : I) : Option VK :=
  (s.reg.get i).map Participant.key

/-- The requests let through by an event, with the nonce held when they were. -/
def admittedAt (cfg : Config VK Sig St Ch Pf) (s : Server I VK St Ch Pf Nm)
    (e : Event I VK Sig St Pf) : List (I × Nat × Body St Pf × Sig) :=
  match e.request with
  | none => []
  | some (i, b, sig) => if (s.step cfg e).1.admitted then [(i, (s.nonceOf i).getD 0, b, sig)] else []

/-- The requests let through in a history. -/
def admittedLog (cfg : Config VK Sig St Ch Pf) (s : Server I VK St Ch Pf Nm) :
    List (Event I VK Sig St Pf) → List (I × Nat × Body St Pf × Sig)
  | [] => []
  | e :: es => admittedAt cfg s e ++ admittedLog cfg (s.step cfg e).2 es

/-- The process is never restarted. -/
def NoRestart (es : List (Event I VK Sig St Pf)) : Prop := ∀ now, Event.restart now ∉ es

/-- Key and contributed flag aside, what a step may do to the entry of `i`. -/
theorem updateExpired_get (q : LockQueue I) (r : Registry I VK) (now : Nat) (i : I) :
    (q.updateExpired r now).2.2.get i =
      (r.get i).map fun p =>
        if q.lock = some i then { p with priority := .normal } else p := by
  unfold LockQueue.updateExpired
  cases hl : q.lock with
  | none => simp
  | some j =>
    simp only [Registry.get_modify]
    by_cases h : i = j
    · subst h; simp
    · rw [if_neg h]
      have : ¬ (some j = some i) := by simpa using fun e => h e.symm
      simp [this]

theorem updateLock_get (q : LockQueue I) (r : Registry I VK) (limit now : Nat) (i : I) :
    (q.updateLock r limit now).2.2.get i =
      (r.get i).map fun p =>
        if q.hasExpired limit now = true ∧ q.lock = some i then { p with priority := .normal }
        else p := by
  unfold LockQueue.updateLock
  by_cases h : q.hasExpired limit now = true
  · simp only [h, if_true, true_and]
    exact updateExpired_get q r now i
  · simp [h]

theorem hasLock_reg (q : LockQueue I) (r : Registry I VK) (limit now : Nat) (i : I) :
    (q.hasLock r limit now i).2 = (q.updateLock r limit now).2 := by
  unfold LockQueue.hasLock
  simp only
  split
  · rfl
  · split <;> rfl

/-- An entry that survives with the same key and a nonce that is not smaller. -/
def Later (p q : Participant VK) : Prop := q.key = p.key ∧ p.nonce ≤ q.nonce

theorem hasLock_later (q : LockQueue I) (r : Registry I VK) (limit now : Nat) (i j : I)
    (p : Participant VK) (h : r.get j = some p) :
    ∃ p', (q.hasLock r limit now i).2.2.get j = some p' ∧ p'.key = p.key ∧ p'.nonce = p.nonce ∧
      p'.contributed = p.contributed := by
  rw [hasLock_reg, updateLock_get, h]
  simp only [Option.map_some]
  split
  · exact ⟨_, rfl, rfl, rfl, rfl⟩
  · exact ⟨_, rfl, rfl, rfl, rfl⟩

theorem preprocess_cases (cfg : Config VK Sig St Ch Pf) (r : Registry I VK) (i : I)
    (b : Body St Pf) (sig : Sig) :
    (∃ e, preprocess cfg r i b sig = (.error e, r) ∧ e ≠ .timeout ∧ e ≠ .notYourTurn) ∨
    (∃ p, r.get i = some p ∧ p.contributed = false ∧ p.nonce ≠ nonceMax ∧
      cfg.verifySig p.key p.nonce b sig = true ∧
      preprocess cfg r i b sig =
        (.ok p.priority, r.modify i fun p => { p with nonce := incNonce p.nonce })) := by
  unfold preprocess
  cases hg : r.get i with
  | none => exact .inl ⟨_, rfl, by decide, by decide⟩
  | some p =>
    simp only
    by_cases hc : p.contributed = true
    · exact .inl ⟨_, if_pos hc, by decide, by decide⟩
    · rw [if_neg hc]
      by_cases hv : validNonce p.nonce = true
      · by_cases hs : cfg.verifySig p.key p.nonce b sig = true
        · refine .inr ⟨p, rfl, by simpa using hc, by simpa [validNonce] using hv, hs, ?_⟩
          simp [hv, hs]
        · exact .inl ⟨.invalidSignature p.nonce, by simp [hv, hs], by simp, by simp⟩
      · exact .inl ⟨.allNoncesUsed, by simp [hv], by decide, by decide⟩

/-- What a request does to the registry. -/
theorem request_spec (cfg : Config VK Sig St Ch Pf) (s : Server I VK St Ch Pf Nm)
    (e : Event I VK Sig St Pf) (i : I) (b : Body St Pf) (sig : Sig)
    (he : e.request = some (i, b, sig)) :
    ((s.step cfg e).1.admitted = false ∧ (s.step cfg e).2.reg = s.reg) ∨
    ((s.step cfg e).1.admitted = true ∧
      ∃ p, s.reg.get i = some p ∧ p.contributed = false ∧ p.nonce ≠ nonceMax ∧
        cfg.verifySig p.key p.nonce b sig = true ∧
        ∀ j q, s.reg.get j = some q → ∃ q', (s.step cfg e).2.reg.get j = some q' ∧
          q'.key = q.key ∧ q'.contributed = q.contributed ∧
          q'.nonce = if j = i then incNonce q.nonce else q.nonce) := by
  have later : ∀ (r : Registry I VK) (p : Participant VK) (now : Nat),
      s.reg.get i = some p →
      r = s.reg.modify i (fun p => { p with nonce := incNonce p.nonce }) →
      ∀ j q, s.reg.get j = some q → ∃ q', (s.lq.hasLock r cfg.limit now i).2.2.get j = some q' ∧
          q'.key = q.key ∧ q'.contributed = q.contributed ∧
          q'.nonce = if j = i then incNonce q.nonce else q.nonce := by
    intro r p now hp hr j q hj
    have hm : r.get j = some (if j = i then { q with nonce := incNonce q.nonce } else q) := by
      rw [hr, Registry.get_modify, hj]
      by_cases h : j = i <;> simp [h]
    obtain ⟨p', h1, h2, h3, h4⟩ := hasLock_later s.lq r cfg.limit now i j _ hm
    refine ⟨p', h1, ?_, ?_, ?_⟩
    · rw [h2]; split <;> rfl
    · rw [h4]; split <;> rfl
    · rw [h3]; split <;> rfl
  cases e with
  | query now i' sig' =>
    simp only [Event.request, Option.some.injEq, Prod.mk.injEq] at he
    obtain ⟨rfl, rfl, rfl⟩ := he
    simp only [Server.step, Server.query]
    rcases preprocess_cases cfg s.reg i' .query sig' with ⟨e, h, hne⟩ | ⟨p, hp, hc, hn, hv, h⟩
    · left
      simp only [h]
      refine ⟨?_, trivial⟩
      simp [Resp.admitted, hne.1, hne.2]
    · right
      simp only [h]
      have hl := later _ p now hp rfl
      generalize hq : s.lq.hasLock
        (s.reg.modify i' fun p => { p with nonce := incNonce p.nonce }) cfg.limit now i' = hl' at hl ⊢
      obtain ⟨res, q, r'⟩ := hl'
      cases res with
      | ok u => exact ⟨rfl, p, hp, hc, hn, hv, hl⟩
      | error e' =>
        simp only
        split
        · exact ⟨rfl, p, hp, hc, hn, hv, hl⟩
        · exact ⟨rfl, p, hp, hc, hn, hv, hl⟩
  | start now i' st pf sig' =>
    simp only [Event.request, Option.some.injEq, Prod.mk.injEq] at he
    obtain ⟨rfl, rfl, rfl⟩ := he
    simp only [Server.step, Server.start]
    rcases preprocess_cases cfg s.reg i' (.contribute st pf) sig' with
      ⟨e, h, hne⟩ | ⟨p, hp, hc, hn, hv, h⟩
    · left
      simp only [h]
      refine ⟨?_, trivial⟩
      simp [Resp.admitted, hne.1, hne.2]
    · right
      simp only [h]
      have hl := later _ p now hp rfl
      generalize hq : s.lq.hasLock
        (s.reg.modify i' fun p => { p with nonce := incNonce p.nonce }) cfg.limit now i' = hl' at hl ⊢
      obtain ⟨res, q, r'⟩ := hl'
      cases res with
      | ok u => exact ⟨rfl, p, hp, hc, hn, hv, hl⟩
      | error e' =>
        refine ⟨?_, p, hp, hc, hn, hv, hl⟩
        simp only [Resp.admitted]
        unfold LockQueue.hasLock at hq
        simp only at hq
        split at hq
        · simp only [Prod.mk.injEq, Except.error.injEq] at hq
          rw [← hq.1]; rfl
        · split at hq
          · simp at hq
          · simp only [Prod.mk.injEq, Except.error.injEq] at hq
            rw [← hq.1]; rfl
  | apply k => cases he
  | finish now k => cases he
  | reload rows => cases he
  | restart now => cases he

/-- Every event but a restart keeps all entries, their keys and their nonces, apart from the nonce of
an admitted requester. -/
theorem step_later (cfg : Config VK Sig St Ch Pf) (s : Server I VK St Ch Pf Nm)
    (e : Event I VK Sig St Pf) (he : ∀ now, e ≠ .restart now) (j : I) (q : Participant VK)
    (hj : s.reg.get j = some q) :
    ∃ q', (s.step cfg e).2.reg.get j = some q' ∧ q'.key = q.key ∧ q.nonce ≤ q'.nonce ∧
      (q.contributed = true → q'.contributed = true) := by
  have incLe : ∀ n, n ≤ incNonce n := by intro n; unfold incNonce; split <;> omega
  cases hr : e.request with
  | some x =>
    obtain ⟨i, b, sig⟩ := x
    rcases request_spec cfg s e i b sig hr with ⟨_, h⟩ | ⟨_, p, _, _, _, _, h⟩
    · exact ⟨q, by rw [h, hj], rfl, Nat.le_refl _, id⟩
    · obtain ⟨q', h1, h2, h3, h4⟩ := h j q hj
      refine ⟨q', h1, h2, ?_, fun hc => by rw [h3, hc]⟩
      rw [h4]
      split
      · exact incLe _
      · exact Nat.le_refl _
  | none =>
    cases e with
    | query now i sig => cases hr
    | start now i st pf sig => cases hr
    | apply k =>
      refine ⟨q, ?_, rfl, Nat.le_refl _, id⟩
      simp only [Server.step, Server.apply]
      split
      · exact hj
      · split <;> exact hj
    | finish now k =>
      simp only [Server.step, Server.finish]
      split
      · exact ⟨q, hj, rfl, Nat.le_refl _, id⟩
      · split
        · exact ⟨q, hj, rfl, Nat.le_refl _, id⟩
        · simp only [updateExpired_get, Registry.get_modify]
          rename_i i round _ _ _ _
          by_cases h : j = i
          · rw [if_pos h, hj]
            simp only [Option.map_some]
            refine ⟨_, rfl, ?_, ?_, ?_⟩
            · split <;> rfl
            · split <;> exact Nat.le_refl _
            · intro _; split <;> rfl
          · rw [if_neg h, hj]
            simp only [Option.map_some]
            refine ⟨_, rfl, ?_, ?_, ?_⟩
            · split <;> rfl
            · split <;> exact Nat.le_refl _
            · intro hc; split <;> exact hc
    | reload rows =>
      refine ⟨q, ?_, rfl, Nat.le_refl _, id⟩
      simp only [Server.step, Registry.loadAppend, Registry.get_loadLoop, hj]
    | restart now => exact absurd rfl (he now)

/-- What is known about the requests of a history that were let through. -/
theorem log_spec (cfg : Config VK Sig St Ch Pf) (es : List (Event I VK Sig St Pf))
    (s : Server I VK St Ch Pf Nm) (hes : NoRestart es) :
    (∀ x ∈ admittedLog cfg s es, x.2.1 < nonceMax ∨ nonceMax < x.2.1) ∧
    (∀ i q, s.reg.get i = some q → ∀ x ∈ admittedLog cfg s es, x.1 = i →
      q.nonce ≤ x.2.1 ∧ cfg.verifySig q.key x.2.1 x.2.2.1 x.2.2.2 = true) ∧
    (∀ x ∈ admittedLog cfg s es, ∃ key, cfg.verifySig key x.2.1 x.2.2.1 x.2.2.2 = true) ∧
    (∀ i, ((admittedLog cfg s es).filter (fun x => x.1 = i)).Pairwise fun x y =>
      x.2.1 < y.2.1 ∨ nonceMax < x.2.1) := by
  induction es generalizing s with
  | nil => simp [admittedLog]
  | cons e es ih =>
    have he : ∀ now, e ≠ .restart now := fun now h => hes now (by simp [h])
    obtain ⟨ih1, ih2, ih3, ih4⟩ := ih (s.step cfg e).2 (fun now h => hes now (by simp [h]))
    simp only [admittedLog]
    -- the head of the log
    have head : ∀ x ∈ admittedAt cfg s e, ∃ p, s.reg.get x.1 = some p ∧ p.nonce ≠ nonceMax ∧
        x.2.1 = p.nonce ∧ cfg.verifySig p.key p.nonce x.2.2.1 x.2.2.2 = true ∧
        ∃ q', (s.step cfg e).2.reg.get x.1 = some q' ∧ q'.nonce = incNonce p.nonce := by
      intro x hx
      unfold admittedAt at hx
      cases hr : e.request with
      | none => rw [hr] at hx; simp at hx
      | some y =>
        obtain ⟨i, b, sig⟩ := y
        rw [hr] at hx
        simp only at hx
        split at hx
        · rename_i hadm
          simp only [List.mem_singleton] at hx
          subst hx
          rcases request_spec cfg s e i b sig hr with ⟨h, _⟩ | ⟨_, p, hp, hc, hn, hv, hl⟩
          · rw [h] at hadm; cases hadm
          · obtain ⟨q', h1, _, _, h4⟩ := hl i p hp
            refine ⟨p, hp, hn, ?_, hv, q', h1, ?_⟩
            · simp [Server.nonceOf, hp]
            · simpa using h4
        · simp at hx
    refine ⟨?_, ?_, ?_, ?_⟩
    · intro x hx
      rcases List.mem_append.1 hx with hx | hx
      · obtain ⟨p, _, hn, hxe, _⟩ := head x hx
        rw [hxe]
        omega
      · exact ih1 x hx
    · intro i q hq x hx hxi
      rcases List.mem_append.1 hx with hx | hx
      · obtain ⟨p, hp, hn, hxe, hv, _⟩ := head x hx
        rw [hxi, hq] at hp
        simp only [Option.some.injEq] at hp
        subst hp
        exact ⟨by omega, by rw [hxe]; exact hv⟩
      · obtain ⟨q', h1, h2, h3, _⟩ := step_later cfg s e he i q hq
        obtain ⟨h4, h5⟩ := ih2 i q' h1 x hx hxi
        exact ⟨by omega, by rw [← h2]; exact h5⟩
    · intro x hx
      rcases List.mem_append.1 hx with hx | hx
      · obtain ⟨p, _, _, hxe, hv, _⟩ := head x hx
        exact ⟨p.key, by rw [hxe]; exact hv⟩
      · exact ih3 x hx
    · intro i
      rw [List.filter_append, List.pairwise_append]
      refine ⟨?_, ih4 i, ?_⟩
      · have : (admittedAt cfg s e).length ≤ 1 := by
          unfold admittedAt
          split
          · simp
          · split <;> simp
        refine List.Pairwise.filter _ ?_
        match admittedAt cfg s e, this with
        | [], _ => exact List.Pairwise.nil
        | [x], _ => exact List.pairwise_singleton _ _
      · intro x hx y hy
        simp only [List.mem_filter, decide_eq_true_eq] at hx hy
        obtain ⟨p, hp, hn, hxe, hv, q', hq', hqn⟩ := head x hx.1
        rw [hx.2] at hq'
        obtain ⟨h4, _⟩ := ih2 i q' hq' y hy.1 hy.2
        rw [hqn] at h4
        rw [hxe]
        unfold incNonce at h4
        by_cases hlt : p.nonce < nonceMax
        · rw [if_pos hlt] at h4; left; omega
        · right; omega

/-- Nonces are 64-bit numbers. -/
def Nonces64 (r : Registry I VK) : Prop := ∀ i p, r.get i = some p → p.nonce ≤ nonceMax

/-- Registration files only hold 64-bit nonces. -/
def Rows64 (es : List (Event I VK Sig St Pf)) : Prop :=
  ∀ rows, Event.reload rows ∈ es → ∀ i p, some (i, p) ∈ rows → p.nonce ≤ nonceMax

theorem nonces64_step (cfg : Config VK Sig St Ch Pf) (s : Server I VK St Ch Pf Nm)
    (e : Event I VK Sig St Pf) (he : ∀ now, e ≠ .restart now) (hs : Nonces64 s.reg)
    (hrows : Rows64 [e]) : Nonces64 (s.step cfg e).2.reg := by
  have incLe : ∀ n, n ≤ nonceMax → incNonce n ≤ nonceMax := by
    intro n; unfold incNonce; split <;> omega
  -- the registry only changes entries in place, except for a reload
  have inPlace : ∀ (r' : Registry I VK),
      (∀ j, r'.get j = none ∨ ∃ q q', s.reg.get j = some q ∧ r'.get j = some q' ∧
        (q'.nonce = q.nonce ∨ q'.nonce = incNonce q.nonce)) → Nonces64 r' := by
    intro r' h i p hp
    rcases h i with h | ⟨q, q', h1, h2, h3⟩
    · rw [h] at hp; cases hp
    · rw [h2] at hp
      simp only [Option.some.injEq] at hp
      subst hp
      have := hs i q h1
      rcases h3 with h3 | h3
      · rw [h3]; exact this
      · rw [h3]; exact incLe _ this
  have lockNone : ∀ (q : LockQueue I) (r : Registry I VK) (limit now : Nat) (i j : I),
      r.get j = none → (q.hasLock r limit now i).2.2.get j = none := by
    intro q r limit now i j h
    rw [hasLock_reg, updateLock_get, h]; rfl
  have req : ∀ i b sig, e.request = some (i, b, sig) → Nonces64 (s.step cfg e).2.reg := by
    intro i b sig hr
    rcases request_spec cfg s e i b sig hr with ⟨_, h⟩ | ⟨hadm, p, hp, _, _, _, h⟩
    · rw [h]; exact hs
    · refine inPlace _ fun j => ?_
      cases hj : s.reg.get j with
      | some q =>
        obtain ⟨q', h1, _, _, h4⟩ := h j q hj
        refine .inr ⟨q, q', rfl, h1, ?_⟩
        by_cases hji : j = i
        · right; rw [h4, if_pos hji]
        · left; rw [h4, if_neg hji]
      | none =>
        left
        have hne : (s.reg.modify i fun p => { p with nonce := incNonce p.nonce }).get j = none := by
          rw [Registry.get_modify, hj]; simp
        cases e with
        | query now i' sig' =>
          simp only [Event.request, Option.some.injEq, Prod.mk.injEq] at hr
          obtain ⟨rfl, rfl, rfl⟩ := hr
          simp only [Server.step, Server.query]
          rcases preprocess_cases cfg s.reg i' .query sig' with ⟨e, h, _⟩ | ⟨_, _, _, _, _, h⟩
          · simp only [h]; exact hj
          · simp only [h]
            have hl := lockNone s.lq _ cfg.limit now i' j hne
            generalize s.lq.hasLock
              (s.reg.modify i' fun p => { p with nonce := incNonce p.nonce }) cfg.limit now i' = x
              at hl ⊢
            obtain ⟨res, q, r'⟩ := x
            cases res with
            | ok u => exact hl
            | error e' => simp only; split <;> exact hl
        | start now i' st pf sig' =>
          simp only [Event.request, Option.some.injEq, Prod.mk.injEq] at hr
          obtain ⟨rfl, rfl, rfl⟩ := hr
          simp only [Server.step, Server.start]
          rcases preprocess_cases cfg s.reg i' (.contribute st pf) sig' with
            ⟨e, h, _⟩ | ⟨_, _, _, _, _, h⟩
          · simp only [h]; exact hj
          · simp only [h]
            have hl := lockNone s.lq _ cfg.limit now i' j hne
            generalize s.lq.hasLock
              (s.reg.modify i' fun p => { p with nonce := incNonce p.nonce }) cfg.limit now i' = x
              at hl ⊢
            obtain ⟨res, q, r'⟩ := x
            cases res with
            | ok u => exact hl
            | error e' => exact hl
        | apply k => cases hr
        | finish now k => cases hr
        | reload rows => cases hr
        | restart now => cases hr
  cases e with
  | query now i sig => exact req _ _ _ rfl
  | start now i st pf sig => exact req _ _ _ rfl
  | apply k =>
    simp only [Server.step, Server.apply]
    split
    · exact hs
    · split <;> exact hs
  | finish now k =>
    simp only [Server.step, Server.finish]
    split
    · exact hs
    · split
      · exact hs
      · refine inPlace _ fun j => ?_
        simp only [updateExpired_get, Registry.get_modify]
        cases hj : s.reg.get j with
        | none => left; simp
        | some q =>
          right
          rename_i i _ _ _ _ _
          by_cases h : j = i
          · rw [if_pos h]
            exact ⟨q, _, rfl, rfl, .inl (by split <;> rfl)⟩
          · rw [if_neg h]
            exact ⟨q, _, rfl, rfl, .inl (by split <;> rfl)⟩
  | reload rows =>
    intro i p hp
    simp only [Server.step, Registry.loadAppend, Registry.get_loadLoop] at hp
    cases hi : s.reg.get i with
    | some q =>
      rw [hi] at hp
      simp only [Option.some.injEq] at hp
      subst hp
      exact hs i q hi
    | none =>
      rw [hi] at hp
      simp only [Registry.firstRecord, Option.map_eq_some_iff] at hp
      obtain ⟨x, hx, rfl⟩ := hp
      have hm := List.mem_of_find?_eq_some hx
      rw [List.mem_filterMap] at hm
      obtain ⟨y, hy, hye⟩ := hm
      simp only [id_eq] at hye
      subst hye
      exact hrows rows (by simp) x.1 x.2 hy
  | restart now => exact absurd rfl (he now)

theorem log_bounded (cfg : Config VK Sig St Ch Pf) (es : List (Event I VK Sig St Pf))
    (s : Server I VK St Ch Pf Nm) (hes : NoRestart es) (hs : Nonces64 s.reg) (hrows : Rows64 es) :
    ∀ x ∈ admittedLog cfg s es, x.2.1 ≤ nonceMax := by
  induction es generalizing s with
  | nil => simp [admittedLog]
  | cons e es ih =>
    have he : ∀ now, e ≠ .restart now := fun now h => hes now (by simp [h])
    intro x hx
    rcases List.mem_append.1 hx with hx | hx
    · unfold admittedAt at hx
      split at hx
      · simp at hx
      · split at hx
        · simp only [List.mem_singleton] at hx
          subst hx
          rename_i i b sig _ _
          simp only [Server.nonceOf]
          cases hi : s.reg.get i with
          | none => simp
          | some p => simpa using hs i p hi
        · simp at hx
    · refine ih (s.step cfg e).2 (fun now h => hes now (by simp [h])) ?_ ?_ x hx
      · exact nonces64_step cfg s e he hs fun rows h => hrows rows (by
          simp only [List.mem_singleton] at h; simp [h])
      · exact fun rows h => hrows rows (by simp [h])

/-- **C41, without restarts.** In every history of queries, interleaved steps of contributions,
timeouts and registry reloads, the requests of a participant that are let through carry strictly
increasing nonces below `u64::MAX`, and each is a valid signature under the registered key for
exactly the nonce the server held. Missing for the full claim: restarts, see `c41_violated`. -/
theorem c41_nonces_partial (cfg : Config VK Sig St Ch Pf) (s : Server I VK St Ch Pf Nm)
    (es : List (Event I VK Sig St Pf)) (hes : NoRestart es) (hs : Nonces64 s.reg)
    (hrows : Rows64 es) (i : I) (p : Participant VK) (hp : s.reg.get i = some p) :
    (((admittedLog cfg s es).filter (fun x => x.1 = i)).map fun x => x.2.1).Pairwise (· < ·) ∧
    ∀ x ∈ admittedLog cfg s es, x.1 = i →
      p.nonce ≤ x.2.1 ∧ x.2.1 < nonceMax ∧ cfg.verifySig p.key x.2.1 x.2.2.1 x.2.2.2 = true := by
  obtain ⟨h1, h2, _, h4⟩ := log_spec cfg es s hes
  have hb := log_bounded cfg es s hes hs hrows
  refine ⟨?_, ?_⟩
  · rw [List.pairwise_map]
    refine List.Pairwise.imp_of_mem ?_ (h4 i)
    intro x y hx hy hxy
    have := hb x (List.mem_filter.1 hx).1
    omega
  · intro x hx hxi
    obtain ⟨h5, h6⟩ := h2 i p hp x hx hxi
    have := hb x hx
    have := h1 x hx
    exact ⟨h5, by omega, h6⟩

/-- A signature is valid for one nonce only. -/
def NonceBinding (cfg : Config VK Sig St Ch Pf) : Prop :=
  ∀ key n n' b sig, cfg.verifySig key n b sig = true → cfg.verifySig key n' b sig = true → n = n'

/-- **C41, without restarts.** No signed request of a registered participant is let through twice. -/
theorem c41_no_replay_partial (cfg : Config VK Sig St Ch Pf) (hcfg : NonceBinding cfg)
    (s : Server I VK St Ch Pf Nm) (es : List (Event I VK Sig St Pf)) (hes : NoRestart es)
    (hs : Nonces64 s.reg) (hrows : Rows64 es) (i : I) (p : Participant VK)
    (hp : s.reg.get i = some p) :
    (((admittedLog cfg s es).filter (fun x => x.1 = i)).map fun x => x.2.2).Nodup := by
  obtain ⟨h1, h2⟩ := c41_nonces_partial cfg s es hes hs hrows i p hp
  rw [List.Nodup, List.pairwise_map]
  rw [List.pairwise_map] at h1
  refine List.Pairwise.imp_of_mem ?_ h1
  intro x y hx hy hlt heq
  simp only [List.mem_filter, decide_eq_true_eq] at hx hy
  have hvx := (h2 x hx.1 hx.2).2.2
  have hvy := (h2 y hy.1 hy.2).2.2
  rw [heq] at hvx
  have := hcfg _ _ _ _ _ hvx hvy
  omega

/-- **C41.** With its nonces used up, a participant is refused for good. -/
theorem c41_exhausted (cfg : Config VK Sig St Ch Pf) (s : Server I VK St Ch Pf Nm)
    (es : List (Event I VK Sig St Pf)) (hes : NoRestart es) (hs : Nonces64 s.reg)
    (hrows : Rows64 es) (i : I) (p : Participant VK) (hp : s.reg.get i = some p)
    (hn : p.nonce = nonceMax) : ∀ x ∈ admittedLog cfg s es, x.1 ≠ i := by
  intro x hx hxi
  obtain ⟨h1, h2, _⟩ := (c41_nonces_partial cfg s es hes hs hrows i p hp).2 x hx hxi
  omega

/-- **C41.** A participant who has contributed is refused for good, restarts aside. -/
theorem c41_contributed_refused (cfg : Config VK Sig St Ch Pf) (es : List (Event I VK Sig St Pf))
    (s : Server I VK St Ch Pf Nm) (hes : NoRestart es) (i : I) (p : Participant VK)
    (hp : s.reg.get i = some p) (hc : p.contributed = true) :
    ∀ x ∈ admittedLog cfg s es, x.1 ≠ i := by
  induction es generalizing s p with
  | nil => simp [admittedLog]
  | cons e es ih =>
    have he : ∀ now, e ≠ .restart now := fun now h => hes now (by simp [h])
    intro x hx hxi
    rcases List.mem_append.1 hx with hx | hx
    · unfold admittedAt at hx
      cases hr : e.request with
      | none => rw [hr] at hx; simp at hx
      | some y =>
        obtain ⟨i', b, sig⟩ := y
        rw [hr] at hx
        simp only at hx
        split at hx
        · rename_i hadm
          simp only [List.mem_singleton] at hx
          subst hx
          simp only at hxi
          subst hxi
          rcases request_spec cfg s e i' b sig hr with ⟨h, _⟩ | ⟨_, q, hq, hqc, _⟩
          · rw [h] at hadm; cases hadm
          · rw [hp] at hq
            simp only [Option.some.injEq] at hq
            subst hq
            rw [hc] at hqc; cases hqc
        · simp at hx
    · obtain ⟨q', h1, _, _, h4⟩ := step_later cfg s e he i p hp
      exact ih (s.step cfg e).2 (fun now h => hes now (by simp [h])) q' h1 (h4 hc) x hx hxi

end Nonces

end Verif.Ceremony
