import Verif.Ceremony.ClientOutcome

/-!
# An honest client gets its contribution in

C102, third part: the window of a participant. Also the concrete histories for all parts of C102.
-/

namespace Verif.Ceremony

section Accepted

variable {I VK Sig St Ch Pf Nm R : Type} [DecidableEq I] [DecidableEq Nm]

/-! ## Specification -/

/-- `mpc::contribute` works, and the coordinator accepts what it makes. -/
def Honest (cfg : Config VK Sig St Ch Pf) (P : Party I Sig St Ch Pf R) : Prop :=
  ∀ r c s, ∃ n p, P.contribute r c s = some (n, p) ∧ cfg.checkState n = true ∧ cfg.verifyTransform c s n p = true

/-- The time of an action. -/
def Act.time : Act I VK Sig St Pf R → Option Nat
  | .query now => some now
  | .update now _ => some now
  | .rebuild => none
  | .env e => e.time

/-- Everything happens within the time of the holder of the lock, and the participant does not start the client again. -/
def InTime (cfg : Config VK Sig St Ch Pf) (since : Nat) (as : List (Act I VK Sig St Pf R)) : Prop :=
  ∀ a ∈ as, a ≠ .rebuild ∧ ∀ now, a.time = some now → now - since < cfg.limit

/-- The client has just been given the current state, and nothing is being processed. -/
structure Turn (P : Party I Sig St Ch Pf R) (vk : VK) (x : Sys I VK St Ch Pf Nm) : Prop where
  phase : x.client.phase = .computing x.server.mpc.state x.server.mpc.challenge
  aligned : x.server.mpc.state.length = x.server.mpc.challenge.length
  lock : x.server.lq.lock = some P.id
  idle : Idle x.server
  registered : ∃ p, x.server.reg.get P.id = some p ∧ p.contributed = false ∧ p.key = vk ∧
    p.nonce = x.client.nonce ∧ validNonce p.nonce = true

/-! ## Proof -/

omit [DecidableEq I] in
theorem honest_update (cfg : Config VK Sig St Ch Pf) (P : Party I Sig St Ch Pf R) (hh : Honest cfg P) (rs : Nat → R)
    (ss : List St) : ∀ (cs : List Ch) (j : Nat), ss.length = cs.length →
      ∃ ns ps, computeUpdate P rs j ss cs = some (ns, ps) ∧ ns.length = ss.length ∧ ps.length = ss.length ∧
        (applyAll cfg ss cs (ns.zip ps)).1 = true := by
  induction ss with
  | nil => intro cs j h; exact ⟨[], [], rfl, rfl, rfl, by cases cs <;> rfl⟩
  | cons s ss ih =>
    intro cs j h
    cases cs with
    | nil => cases h
    | cons c cs =>
      obtain ⟨n, p, h1, h2, h3⟩ := hh (rs j) c s
      obtain ⟨ns, ps, g1, g2, g3, g4⟩ := ih cs (j + 1) (by simpa using h)
      refine ⟨n :: ns, p :: ps, by simp [computeUpdate, h1, g1], by simp [g2], by simp [g3], ?_⟩
      simp [applyAll, h2, h3, g4]

/-- Where the client can be in its window; `m` is the state it was given. -/
inductive Window (cfg : Config VK Sig St Ch Pf) (P : Party I Sig St Ch Pf R) (vk : VK) (m : Sclp St Ch Pf) (since : Nat)
    (x : Sys I VK St Ch Pf Nm) : Prop
  | computing (h : Turn P vk x) (hm : x.server.mpc = m) (hs : x.server.lq.since = since)
  | started (st : List St) (ch : List Ch) (st' : List St) (pf : List Pf) (hp : x.client.phase = .sent st ch st' pf)
      (hm : x.server.mpc = m) (hl : x.server.lq.lock = some P.id) (hs : x.server.lq.since = since)
      (h1 : x.server.started = [(P.id, st', pf)]) (h2 : x.server.applied = [])
      (hu : (m.update cfg st' pf).1 = .ok (m.round + 1))
      (hr : ∃ p, x.server.reg.get P.id = some p)
  | applied (st : List St) (ch : List Ch) (st' : List St) (pf : List Pf) (hp : x.client.phase = .sent st ch st' pf)
      (hl : x.server.lq.lock = some P.id) (hs : x.server.lq.since = since)
      (h1 : x.server.started = []) (h2 : x.server.applied = [(P.id, m.round + 1)])
      (hr : ∃ p, x.server.reg.get P.id = some p)
  | done (hp : x.client.phase = .done (m.round + 1))

/-- Nobody else starts a contribution. -/
theorem window_request (cfg : Config VK Sig St Ch Pf) (P : Party I Sig St Ch Pf R) (s : Server I VK St Ch Pf Nm)
    (hl : s.lq.lock = some P.id) (e : Event I VK Sig St Pf) (hf : Foreign cfg P s e)
    (ht : ∀ now, e.time = some now → now - s.lq.since < cfg.limit) (j : I) (b : Body St Pf) (sig : Sig)
    (hq : e.request = some (j, b, sig)) : (s.step cfg e).2.started = s.started := by
  by_cases hj : j = P.id
  · subst hj; rw [foreign_request cfg P s e b sig hq hf]
  · cases e with
    | query now i sig' =>
      simp only [Server.step, Server.query]
      split
      · rfl
      · split
        · rfl
        · split <;> rfl
    | start now i st pf sig' =>
      simp only [Event.request, Option.some.injEq, Prod.mk.injEq] at hq
      obtain ⟨rfl, -, -⟩ := hq
      simp only [Server.step, Server.start]
      split
      · rfl
      · rename_i r _
        have hx : s.lq.hasExpired cfg.limit now = false := by
          simp [LockQueue.hasExpired, hl, ht now rfl]
        have hno : (s.lq.hasLock r cfg.limit now i).1 ≠ .ok () := by
          simp only [LockQueue.hasLock, LockQueue.updateLock, hx, Bool.false_eq_true, if_false, hl, Option.some.injEq]
          rw [if_neg (by simp), if_neg (fun h => hj h.symm)]
          exact fun h => by cases h
        generalize s.lq.hasLock r cfg.limit now i = y at hno
        obtain ⟨res, q, r'⟩ := y
        cases res with
        | ok u => exact absurd rfl hno
        | error er => rfl
    | apply k => cases hq
    | finish now k => cases hq
    | reload rows => cases hq
    | restart now => cases hq

theorem window_env (cfg : Config VK Sig St Ch Pf) (P : Party I Sig St Ch Pf R) (vk : VK) (m : Sclp St Ch Pf) (since : Nat)
    (x : Sys I VK St Ch Pf Nm) (h : Window cfg P vk m since x) (e : Event I VK Sig St Pf) (hf : Foreign cfg P x.server e)
    (hre : ∀ now, e ≠ .restart now) (ht : ∀ now, e.time = some now → now - since < cfg.limit) :
    Window cfg P vk m since (x.step cfg P (.env e)) := by
  have hstep : x.step cfg P (.env e) = ⟨deliver P x e (x.server.step cfg e).1, (x.server.step cfg e).2⟩ := rfl
  rw [hstep]
  -- events that keep everything
  have hkeep : (∀ k now, x.client.phase = .done (m.round + 1) ∨ (e ≠ .apply k ∧ e ≠ .finish now k)) →
      Window cfg P vk m since ⟨deliver P x e (x.server.step cfg e).1, (x.server.step cfg e).2⟩ := by
    intro hna
    by_cases hd : x.client.phase = .done (m.round + 1)
    · refine .done ?_
      have : deliver P x e (x.server.step cfg e).1 = x.client := by
        unfold deliver; rw [hd]
      simp only [this, hd]
    · have hna' : ∀ k now, e ≠ .apply k ∧ e ≠ .finish now k := fun k now => (hna k now).resolve_left hd
      have hdel : deliver P x e (x.server.step cfg e).1 = x.client := by
        cases e with
        | apply k => exact absurd rfl (hna' k 0).1
        | finish now k => exact absurd rfl (hna' k now).2
        | restart now => exact absurd rfl (hre now)
        | _ => unfold deliver; cases x.client.phase <;> rfl
      have hmpc : (x.server.step cfg e).2.mpc = x.server.mpc := by
        cases hq : e.request with
        | some y => exact (request_mpc cfg x.server e y.1 y.2.1 y.2.2 hq).1
        | none =>
          cases e with
          | reload rows => rfl
          | apply k => exact absurd rfl (hna' k 0).1
          | finish now k => exact absurd rfl (hna' k now).2
          | restart now => exact absurd rfl (hre now)
          | query now i sig => cases hq
          | start now i st pf sig => cases hq
      have happ : (x.server.step cfg e).2.applied = x.server.applied := by
        cases hq : e.request with
        | some y => exact (request_flight cfg x.server e y.1 y.2.1 y.2.2 hq).1
        | none =>
          cases e with
          | reload rows => rfl
          | apply k => exact absurd rfl (hna' k 0).1
          | finish now k => exact absurd rfl (hna' k now).2
          | restart now => exact absurd rfl (hre now)
          | query now i sig => cases hq
          | start now i st pf sig => cases hq
      have hsta : ∀ (hl : x.server.lq.lock = some P.id) (hs : x.server.lq.since = since),
          (x.server.step cfg e).2.started = x.server.started := by
        intro hl hs
        cases hq : e.request with
        | some y => exact window_request cfg P x.server hl e hf (by rw [hs]; exact ht) y.1 y.2.1 y.2.2 hq
        | none =>
          cases e with
          | reload rows => rfl
          | apply k => exact absurd rfl (hna' k 0).1
          | finish now k => exact absurd rfl (hna' k now).2
          | restart now => exact absurd rfl (hre now)
          | query now i sig => cases hq
          | start now i st pf sig => cases hq
      have hlock : ∀ (hl : x.server.lq.lock = some P.id) (hs : x.server.lq.since = since),
          (x.server.step cfg e).2.lq.lock = some P.id ∧ (x.server.step cfg e).2.lq.since = since := by
        intro hl hs
        have := c71_keep_partial cfg x.server e P.id hl (by rw [hs]; exact ht) (fun now k => (hna' k now).2) hre
        rw [hs] at this
        exact this
      have hreg : ∀ p, x.server.reg.get P.id = some p → ∃ q, (x.server.step cfg e).2.reg.get P.id = some q ∧
          q.key = p.key ∧ q.contributed = p.contributed := by
        intro p hp
        cases hq : e.request with
        | some y =>
          obtain ⟨f, h1, h2⟩ := request_get cfg x.server e y.1 y.2.1 y.2.2 hq P.id
          exact ⟨f p, by rw [h1, hp]; rfl, (h2 p).1, (h2 p).2⟩
        | none =>
          cases e with
          | reload rows =>
            exact ⟨p, by simp only [Server.step, Registry.loadAppend, Registry.get_loadLoop, hp], rfl, rfl⟩
          | apply k => exact absurd rfl (hna' k 0).1
          | finish now k => exact absurd rfl (hna' k now).2
          | restart now => exact absurd rfl (hre now)
          | query now i sig => cases hq
          | start now i st pf sig => cases hq
      rw [hdel]
      cases h with
      | done hp => exact absurd hp hd
      | computing ht' hm hs =>
        obtain ⟨p, g1, g2, g3, g4, g5⟩ := ht'.registered
        obtain ⟨q, q1, q2, q3⟩ := hreg p g1
        have hn := nonce_step cfg P x.server e hf hre p.nonce (by simp [Server.nonceOf, g1])
        simp only [Server.nonceOf, q1, Option.map_some, Option.some.injEq] at hn
        obtain ⟨l1, l2⟩ := hlock ht'.lock hs
        refine .computing ⟨?_, ?_, l1, ⟨?_, ?_⟩, q, q1, ?_, ?_, ?_, ?_⟩ (by simp only [hmpc, hm]) l2
        · simp only [hmpc]; exact ht'.phase
        · simp only [hmpc]; exact ht'.aligned
        · simp only [hsta ht'.lock hs]; exact ht'.idle.1
        · simp only [happ]; exact ht'.idle.2
        · rw [q3, g2]
        · rw [q2, g3]
        · rw [hn, g4]
        · rw [hn, g5]
      | started st ch st' pf hp hm hl hs h1 h2 hu hr =>
        obtain ⟨p, hr⟩ := hr
        obtain ⟨q, hq, -⟩ := hreg p hr
        obtain ⟨l1, l2⟩ := hlock hl hs
        exact .started st ch st' pf hp (by simp only [hmpc, hm]) l1 l2 (by simp only [hsta hl hs, h1])
          (by simp only [happ, h2]) hu ⟨q, hq⟩
      | applied st ch st' pf hp hl hs h1 h2 hr =>
        obtain ⟨p, hr⟩ := hr
        obtain ⟨q, hq, -⟩ := hreg p hr
        obtain ⟨l1, l2⟩ := hlock hl hs
        exact .applied st ch st' pf hp l1 l2 (by simp only [hsta hl hs, h1])
          (by simp only [happ, h2]) ⟨q, hq⟩
  have hsame : (x.server.step cfg e).2 = x.server → deliver P x e (x.server.step cfg e).1 = x.client →
      Window cfg P vk m since ⟨deliver P x e (x.server.step cfg e).1, (x.server.step cfg e).2⟩ := by
    intro h1 h2
    rw [h1, h2]
    exact h
  cases e with
  | query now i sig => exact hkeep fun _ _ => .inr ⟨by simp, by simp⟩
  | start now i st pf sig => exact hkeep fun _ _ => .inr ⟨by simp, by simp⟩
  | reload rows => exact hkeep fun _ _ => .inr ⟨by simp, by simp⟩
  | restart now => exact absurd rfl (hre now)
  | apply k =>
    cases h with
    | done hp => exact hkeep fun _ _ => .inl hp
    | computing ht' hm hs =>
      have hk : x.server.started[k]? = none := by rw [ht'.idle.1]; rfl
      exact hsame (by simp only [Server.step, Server.apply, hk]) (deliver_apply P x k _ (by simp [hk]))
    | applied st ch st' pf hp hl hs h1 h2 hr =>
      have hk : x.server.started[k]? = none := by rw [h1]; rfl
      exact hsame (by simp only [Server.step, Server.apply, hk]) (deliver_apply P x k _ (by simp [hk]))
    | started st ch st' pf hp hm hl hs h1 h2 hu hr =>
      cases k with
      | succ k =>
        have hk : x.server.started[k + 1]? = none := by rw [h1]; rfl
        exact hsame (by simp only [Server.step, Server.apply, hk]) (deliver_apply P x (k + 1) _ (by simp [hk]))
      | zero =>
        have hk : x.server.started[0]? = some (P.id, st', pf) := by rw [h1]; rfl
        obtain ⟨a1, a2, -⟩ := apply_reg cfg x.server 0
        rcases hy : x.server.mpc.update cfg st' pf with ⟨res, m'⟩
        rw [← hm, hy] at hu
        simp only at hu
        subst hu
        have hs' : x.server.step cfg (.apply 0) = (.round (x.server.mpc.round + 1), { x.server with
            mpc := m'
            disk := x.server.disk.writes (m'.saveWrites (x.server.disk.names.getD []))
            started := x.server.started.eraseIdx 0
            applied := x.server.applied ++ [(P.id, x.server.mpc.round + 1)] }) := by
          simp only [Server.step, Server.apply, hk, hy]
        have hd : deliver P x (.apply 0 : Event I VK Sig St Pf) (.round (x.server.mpc.round + 1)) = x.client := by
          unfold deliver
          simp only [hp]
          split <;> rfl
        rw [hs']
        simp only [hd]
        exact .applied st ch st' pf hp hl hs (by simp [h1]) (by simp [h2, hm]) hr
  | finish now k =>
    cases h with
    | done hp => exact hkeep fun _ _ => .inl hp
    | computing ht' hm hs =>
      have hk : x.server.applied[k]? = none := by rw [ht'.idle.2]; rfl
      exact hsame (by simp only [Server.step, Server.finish, hk]) (deliver_finish P x now k _ (by simp [hk]))
    | started st ch st' pf hp hm hl hs h1 h2 hu hr =>
      have hk : x.server.applied[k]? = none := by rw [h2]; rfl
      exact hsame (by simp only [Server.step, Server.finish, hk]) (deliver_finish P x now k _ (by simp [hk]))
    | applied st ch st' pf hp hl hs h1 h2 hr =>
      cases k with
      | succ k =>
        have hk : x.server.applied[k + 1]? = none := by rw [h2]; rfl
        exact hsame (by simp only [Server.step, Server.finish, hk]) (deliver_finish P x now (k + 1) _ (by simp [hk]))
      | zero =>
        have hk : x.server.applied[0]? = some (P.id, m.round + 1) := by rw [h2]; rfl
        obtain ⟨p, hr⟩ := hr
        have hresp : (x.server.step cfg (.finish now 0)).1 = .round (m.round + 1) := by
          simp only [Server.step, Server.finish, hk, hr]
        refine .done ?_
        rw [hresp]
        unfold deliver
        simp only [hp, hk, Option.map_some, if_true, Client.updateAnswer]

theorem window_step (cfg : Config VK Sig St Ch Pf) (P : Party I Sig St Ch Pf R) (vk : VK) (hsig : SigOk cfg P vk)
    (hh : Honest cfg P) (m : Sclp St Ch Pf) (since : Nat)
    (x : Sys I VK St Ch Pf Nm) (h : Window cfg P vk m since x) (a : Act I VK Sig St Pf R)
    (hw : ∀ e, a = .env e → Foreign cfg P x.server e ∧ ∀ now, e ≠ .restart now)
    (hr : a ≠ .rebuild) (ht : ∀ now, a.time = some now → now - since < cfg.limit) :
    Window cfg P vk m since (x.step cfg P a) ∧
      ((∃ now rs, a = .update now rs) → ∀ st ch, (x.step cfg P a).client.phase ≠ .computing st ch) := by
  cases a with
  | rebuild => exact absurd rfl hr
  | env e =>
    exact ⟨window_env cfg P vk m since x h e (hw e rfl).1 (hw e rfl).2 ht, by rintro ⟨now, rs, h⟩; cases h⟩
  | query now =>
    have hs : x.step cfg P (.query now) = x := by
      have hne : x.client.phase ≠ .ready := by
        cases h with
        | computing ht' _ _ => rw [ht'.phase]; simp
        | started _ _ _ _ hp => rw [hp]; simp
        | applied _ _ _ _ hp => rw [hp]; simp
        | done hp => rw [hp]; simp
      have he : (Act.query now : Act I VK Sig St Pf R).event P x.client = none := by
        cases hp : x.client.phase with
        | ready => exact absurd hp hne
        | _ => simp only [Act.event, hp]
      cases hp : x.client.phase with
      | ready => exact absurd hp hne
      | _ => simp only [Sys.step, he, Act.client, hp]
    rw [hs]
    exact ⟨h, by rintro ⟨now, rs, h⟩; cases h⟩
  | update now rs =>
    have hnoop : (∀ st ch, x.client.phase ≠ .computing st ch) → x.step cfg P (.update now rs) = x := by
      intro hne
      have he : (Act.update now rs : Act I VK Sig St Pf R).event P x.client = none := by
        cases hp : x.client.phase with
        | computing st ch => exact absurd hp (hne st ch)
        | _ => simp only [Act.event, hp]
      cases hp : x.client.phase with
      | computing st ch => exact absurd hp (hne st ch)
      | _ => simp only [Sys.step, he, Act.client, hp]
    cases h with
    | started st ch st' pf hp hm hl hs h1 h2 hu hr =>
      have hne : ∀ st ch, x.client.phase ≠ .computing st ch := by rw [hp]; simp
      rw [hnoop hne]
      exact ⟨.started st ch st' pf hp hm hl hs h1 h2 hu hr, fun _ => hne⟩
    | applied st ch st' pf hp hl hs h1 h2 hr =>
      have hne : ∀ st ch, x.client.phase ≠ .computing st ch := by rw [hp]; simp
      rw [hnoop hne]
      exact ⟨.applied st ch st' pf hp hl hs h1 h2 hr, fun _ => hne⟩
    | done hp =>
      have hne : ∀ st ch, x.client.phase ≠ .computing st ch := by rw [hp]; simp
      rw [hnoop hne]
      exact ⟨.done hp, fun _ => hne⟩
    | computing ht' hm hs =>
      obtain ⟨p, g1, g2, g3, g4, g5⟩ := ht'.registered
      obtain ⟨ns, ps, c1, c2, c3, c4⟩ := honest_update cfg P hh rs _ _ 0 ht'.aligned
      have hev : (Act.update now rs : Act I VK Sig St Pf R).event P x.client =
          some (.start now P.id ns ps (P.sign x.client.nonce (.contribute ns ps))) := by
        simp only [Act.event, ht'.phase, c1, Option.map_some]
      have hpre : preprocess cfg x.server.reg P.id (.contribute ns ps) (P.sign x.client.nonce (.contribute ns ps)) =
          (.ok p.priority, x.server.reg.modify P.id fun p => { p with nonce := incNonce p.nonce }) := by
        have hv : cfg.verifySig p.key p.nonce (.contribute ns ps) (P.sign x.client.nonce (.contribute ns ps)) = true := by
          rw [g3, hsig]; simp [g4]
        simp [preprocess, g1, g2, g5, hv]
      have hx : x.server.lq.hasExpired cfg.limit now = false := by
        have := ht now rfl
        simp [LockQueue.hasExpired, ht'.lock, hs, this]
      have hlk : ∀ r : Registry I VK, x.server.lq.hasLock r cfg.limit now P.id = (.ok (), x.server.lq, r) := by
        intro r
        simp [LockQueue.hasLock, LockQueue.updateLock, hx, ht'.lock]
      have hst : x.server.step cfg (.start now P.id ns ps (P.sign x.client.nonce (.contribute ns ps))) =
          (.ok, { x.server with
            reg := x.server.reg.modify P.id fun p => { p with nonce := incNonce p.nonce }
            started := x.server.started ++ [(P.id, ns, ps)] }) := by
        simp only [Server.step, Server.start, hpre, hlk]
      have hfin : x.step cfg P (.update now rs) =
          ⟨{ x.client.signed with phase := .sent x.server.mpc.state x.server.mpc.challenge ns ps }, { x.server with
            reg := x.server.reg.modify P.id fun p => { p with nonce := incNonce p.nonce }
            started := x.server.started ++ [(P.id, ns, ps)] }⟩ := by
        simp only [Sys.step, Sys.answer, hev, hst, Act.client, ht'.phase, c1]
      rw [hfin]
      refine ⟨.started _ _ ns ps rfl hm ht'.lock hs (by simp [ht'.idle.1]) ht'.idle.2 ?_ ?_, fun _ st ch h => by cases h⟩
      · rw [← hm]
        simp only [Sclp.update, if_pos (And.intro c2 c3), if_pos c4]
      · simp only [Registry.get_modify, if_true, g1]
        exact ⟨_, rfl⟩

/-- **C102, the window.** When it is the client's turn, nothing of anybody is being processed, and contributions are honest, then
whatever others do within the time limit the client neither fails nor loses its turn; the only round it can report is the next one;
and whenever it then contributes (if it has not yet) and the coordinator completes the contribution, it does report that round.
Missing for the full claim: contributions of others that are still being processed (`c102_race_violated`). -/
theorem c102_accepted_partial (cfg : Config VK Sig St Ch Pf) (P : Party I Sig St Ch Pf R) (vk : VK) (hsig : SigOk cfg P vk)
    (hh : Honest cfg P) (x : Sys I VK St Ch Pf Nm) (ht : Turn P vk x) (as : List (Act I VK Sig St Pf R))
    (hw : Undisturbed cfg P x as) (hin : InTime cfg x.server.lq.since as) :
    let y := x.run cfg P as
    (∀ e, y.client.phase ≠ .failed e) ∧ y.client.phase ≠ .ready ∧
    (∀ k, y.client.phase = .done k → k = x.server.mpc.round + 1) ∧
    ∀ now now' rs, now - x.server.lq.since < cfg.limit → now' - x.server.lq.since < cfg.limit →
      (y.run cfg P [.update now rs, .env (.apply 0), .env (.finish now' 0)]).client.phase = .done (x.server.mpc.round + 1) := by
  intro y
  have hrun : ∀ (as : List (Act I VK Sig St Pf R)) (z : Sys I VK St Ch Pf Nm),
      Window cfg P vk x.server.mpc x.server.lq.since z → Undisturbed cfg P z as → InTime cfg x.server.lq.since as →
      Window cfg P vk x.server.mpc x.server.lq.since (z.run cfg P as) := by
    intro as
    induction as with
    | nil => intro z hz _ _; exact hz
    | cons a as ih =>
      intro z hz hw hin
      have ha := hin a List.mem_cons_self
      exact ih _ (window_step cfg P vk hsig hh _ _ z hz a hw.1 ha.1 ha.2).1 hw.2
        fun b hb => hin b (List.mem_cons_of_mem _ hb)
  have hy : Window cfg P vk x.server.mpc x.server.lq.since y := hrun as x (.computing ht rfl rfl) hw hin
  refine ⟨?_, ?_, ?_, ?_⟩
  · intro e he
    cases hy with
    | computing h _ _ => rw [h.phase] at he; cases he
    | started _ _ _ _ hp => rw [hp] at he; cases he
    | applied _ _ _ _ hp => rw [hp] at he; cases he
    | done hp => rw [hp] at he; cases he
  · intro he
    cases hy with
    | computing h _ _ => rw [h.phase] at he; cases he
    | started _ _ _ _ hp => rw [hp] at he; cases he
    | applied _ _ _ _ hp => rw [hp] at he; cases he
    | done hp => rw [hp] at he; cases he
  · intro k he
    cases hy with
    | computing h _ _ => rw [h.phase] at he; cases he
    | started _ _ _ _ hp => rw [hp] at he; cases he
    | applied _ _ _ _ hp => rw [hp] at he; cases he
    | done hp => rw [hp] at he; cases he; rfl
  · intro now now' rs hn hn'
    have fA : ∀ (z : Sys I VK St Ch Pf Nm) (k : Nat), Foreign cfg P z.server (.apply k) := fun z k b sig h => by cases h
    have fF : ∀ (z : Sys I VK St Ch Pf Nm) (t k : Nat), Foreign cfg P z.server (.finish t k) := fun z t k b sig h => by cases h
    obtain ⟨w1, n1⟩ := window_step cfg P vk hsig hh _ _ y hy (.update now rs) (fun e h => by cases h) (by simp)
      (fun t h => by cases h; exact hn)
    have n1 := n1 ⟨now, rs, rfl⟩
    simp only [Sys.run]
    generalize y.step cfg P (.update now rs) = y1 at w1 n1
    have w2 := window_env cfg P vk _ _ y1 w1 (.apply 0) (fA y1 0) (by simp) (fun t h => by cases h)
    have n2 : (∀ st ch, (y1.step cfg P (.env (.apply 0))).client.phase ≠ .computing st ch) ∧
        (y1.step cfg P (.env (.apply 0))).server.started.length ≤ y1.server.started.length - 1 ∨
        ∃ k, (y1.step cfg P (.env (.apply 0))).client.phase = .done k := by
      cases w1 with
      | computing h _ _ => exact absurd h.phase (n1 _ _)
      | done hp =>
        right
        refine ⟨x.server.mpc.round + 1, ?_⟩
        show (deliver P y1 (.apply 0) _).phase = _
        unfold deliver
        simp only [hp]
      | started st ch st' pf hp hm hl hs h1 h2 hu hr =>
        left
        have hk : y1.server.started[0]? = some (P.id, st', pf) := by rw [h1]; rfl
        refine ⟨?_, ?_⟩
        · cases w2 with
          | computing h _ _ =>
            have := h.idle.2
            rcases hy' : y1.server.mpc.update cfg st' pf with ⟨res, m'⟩
            rw [← hm, hy'] at hu
            simp only at hu
            subst hu
            have : (y1.step cfg P (.env (.apply 0))).server.applied = y1.server.applied ++ [(P.id, y1.server.mpc.round + 1)] := by
              show (y1.server.step cfg (.apply 0)).2.applied = _
              simp only [Server.step, Server.apply, hk, hy']
            rw [h.idle.2] at this
            simp at this
          | started _ _ _ _ hp' => rw [hp']; simp
          | applied _ _ _ _ hp' => rw [hp']; simp
          | done hp' => rw [hp']; simp
        · show (y1.server.step cfg (.apply 0)).2.started.length ≤ _
          simp only [Server.step, Server.apply, hk]
          split <;> simp [h1]
      | applied st ch st' pf hp hl hs h1 h2 hr =>
        left
        have hk : y1.server.started[0]? = none := by rw [h1]; rfl
        have e1 : (y1.step cfg P (.env (.apply 0))) = y1 := by
          show (⟨deliver P y1 (.apply 0) _, (y1.server.step cfg (.apply 0)).2⟩ : Sys I VK St Ch Pf Nm) = y1
          rw [deliver_apply P y1 0 _ (by simp [hk])]
          simp only [Server.step, Server.apply, hk]
        rw [e1]
        exact ⟨n1, by simp [h1]⟩
    have n2' : (∃ st ch st' pf, (y1.step cfg P (.env (.apply 0))).client.phase = .sent st ch st' pf ∧
          (y1.step cfg P (.env (.apply 0))).server.applied = [(P.id, x.server.mpc.round + 1)] ∧
          ∃ p, (y1.step cfg P (.env (.apply 0))).server.reg.get P.id = some p) ∨
        (y1.step cfg P (.env (.apply 0))).client.phase = .done (x.server.mpc.round + 1) := by
      cases w2 with
      | computing h _ _ =>
        rcases n2 with ⟨n2, -⟩ | ⟨k, n2⟩
        · exact absurd h.phase (n2 _ _)
        · rw [h.phase] at n2; cases n2
      | done hp => exact .inr hp
      | applied st ch st' pf hp hl hs h1 h2 hr => exact .inl ⟨st, ch, st', pf, hp, h2, hr⟩
      | started st ch st' pf hp hm hl hs h1 h2 hu hr =>
        exfalso
        rcases n2 with ⟨-, n2⟩ | ⟨k, n2⟩
        · rw [h1] at n2
          have h3 : y1.server.started.length ≤ 1 := by
            cases w1 with
            | computing h _ _ => rw [h.idle.1]; simp
            | started _ _ _ _ _ _ _ _ h1' => rw [h1']; simp
            | applied _ _ _ _ _ _ _ h1' => rw [h1']; simp
            | done hp' =>
              exfalso
              have : (y1.step cfg P (.env (.apply 0))).client.phase = y1.client.phase := by
                show (deliver P y1 (.apply 0) _).phase = _
                unfold deliver
                simp only [hp']
              rw [this, hp'] at hp
              cases hp
          simp only [List.length_singleton] at n2
          omega
        · rw [hp] at n2; cases n2
    generalize y1.step cfg P (.env (.apply 0)) = y2 at n2'
    show (deliver P y2 (.finish now' 0) (y2.server.step cfg (.finish now' 0)).1).phase = _
    rcases n2' with ⟨st, ch, st', pf, hp, h2, p, hr⟩ | hp
    · have hk : y2.server.applied[0]? = some (P.id, x.server.mpc.round + 1) := by rw [h2]; rfl
      have hresp : (y2.server.step cfg (.finish now' 0)).1 = .round (x.server.mpc.round + 1) := by
        simp only [Server.step, Server.finish, hk, hr]
      rw [hresp]
      unfold deliver
      simp only [hp, hk, Option.map_some, if_true, Client.updateAnswer]
    · unfold deliver
      simp only [hp]

end Accepted

/-! ## Concrete histories -/

/-- Participant `i` of `toyServer`, who adds `r + 1` to every state. -/
def toyParty (i : Nat) : Party Nat (Nat × Nat) Nat Nat (Nat × Nat) Nat where
  id := i
  sign n _ := (10 + i, n)
  contribute r c s := some (s + (r + 1), (r + 1, c))
  sizeOk st := st.length == 2

abbrev ToyAct := Act Nat Nat (Nat × Nat) Nat (Nat × Nat) Nat
abbrev ToySys := Sys Nat Nat Nat Nat (Nat × Nat) String

theorem toy_honest (i : Nat) : Honest toy (toyParty i) := by
  intro r c s
  exact ⟨_, _, rfl, by simp [toy], by simp [toy]⟩

theorem toy_sigOk (i : Nat) : SigOk toy (toyParty i) (10 + i) := by
  intro n n' b
  by_cases h : n = n'
  · simp [toy, toyParty, h]
  · have : n' ≠ n := fun h' => h h'.symm
    simp [toy, toyParty, h, this]

/-- What a phase is, for evaluation. -/
def Phase.tag {St Ch Pf : Type} : Phase St Ch Pf → Nat × Nat
  | .ready => (0, 0)
  | .computing _ _ => (1, 0)
  | .sent _ _ _ _ => (2, 0)
  | .done k => (3, k)
  | .failed (.server .badRequest) => (4, 0)
  | .failed (.server .alreadyContributed) => (4, 1)
  | .failed .http => (4, 2)
  | .failed _ => (4, 3)

theorem Phase.tag_done {St Ch Pf : Type} {p : Phase St Ch Pf} {k : Nat} (h : p.tag = (3, k)) : p = .done k := by
  unfold Phase.tag at h
  split at h <;> simp_all

theorem Phase.tag_bad {St Ch Pf : Type} {p : Phase St Ch Pf} (h : p.tag = (4, 0)) : p = .failed (.server .badRequest) := by
  unfold Phase.tag at h
  split at h <;> simp_all

theorem Phase.tag_http {St Ch Pf : Type} {p : Phase St Ch Pf} (h : p.tag = (4, 2)) : p = .failed .http := by
  unfold Phase.tag at h
  split at h <;> simp_all

/-- Participant 2 waits behind participant 1, who is slow, and then contributes; meanwhile participant 3 queries. The client
was started with nonce 0 although the registry had 7, and is started again after the first query. -/
def toyHistory : List ToyAct :=
  [.env (.query 0 1 (11, 0)), .env (.query 0 1 (11, 1)), .query 1, .query 2, .rebuild, .query 3, .query 4,
   .env (.query 5 3 (13, 0)), .query 12, .env (.query 13 3 (13, 1)), .update 14 (fun j => j), .env (.apply 0),
   .env (.query 15 2 (99, 99)), .env (.finish 15 0), .env (.query 16 3 (13, 2))]

/-- `toyServer` with nonce 7 for participant 2. -/
def toyServer7 : ToyServer :=
  { toyServer with reg := [(1, ⟨.high, 11, 0, false⟩), (2, ⟨.normal, 12, 7, false⟩), (3, ⟨.normal, 13, 0, false⟩)] }

theorem toy7_keyInv : KeyInv 12 (toyParty 2).id toyServer7 := by
  have hmem : ∀ (r : Registry Nat Nat), (r = toyServer7.reg ∨ r = toyRegistry) → ∀ p, Registry.get r 2 = some p → p.key = 12 := by
    rintro r (rfl | rfl) p hp
    · simp only [toyServer7, Registry.get] at hp
      simp at hp
      rw [← hp]
    · simp only [toyRegistry, Registry.get] at hp
      simp at hp
      rw [← hp]
  refine ⟨hmem _ (.inl rfl), ?_⟩
  intro k r hr p hp
  simp only [toyServer7, toyServer, toyDisk, Disk.write] at hr
  split at hr
  · simp only [Option.some.injEq] at hr
    exact hmem r (.inr hr.symm) p hp
  · rw [write_registry _ _ fun k r => saveWrites_no_registry _ _ k r] at hr
    cases hr

/-- The assumptions of `c102_nonces` and `c102_outcome_partial` hold in that history: two refusals (one per start of the client),
and the client ends with round 1. -/
example :
    World toy (toyParty 2) 12 ⟨.build, toyServer7⟩ toyHistory ∧
    Undisturbed toy (toyParty 2) ⟨.build, toyServer7⟩ toyHistory ∧
    rejections toy (toyParty 2) ⟨.build, toyServer7⟩ toyHistory = 2 ∧
    (toyHistory.map Act.resets).sum = 1 ∧
    (toyParty 2).id ∉ toyServer7.inFlight ∧
    (Sys.run toy (toyParty 2) ⟨.build, toyServer7⟩ toyHistory).client.phase = .done 1 := by
  have hf : ∀ (s : ToyServer) (e : ToyEvent), (∀ b sig, e.request = some (2, b, sig) → sig.1 = 99) →
      KeyInv 12 (toyParty 2).id s → Foreign toy (toyParty 2) s e := by
    intro s e h hk b sig he p hp
    have h1 := h b sig he
    have h2 := hk.1 p hp
    simp only [toy, beq_eq_false_iff_ne, ne_eq]
    intro h3
    rw [h3, h2] at h1
    cases h1
  have hw : ∀ (as : List ToyAct), (∀ e, Act.env e ∈ as → (∀ b sig, e.request = some (2, b, sig) → sig.1 = 99) ∧
      (∀ now, e ≠ .restart now) ∧ ∀ rows, e ≠ .reload rows) → ∀ x : ToySys, KeyInv 12 (toyParty 2).id x.server →
      World toy (toyParty 2) 12 x as ∧ Undisturbed toy (toyParty 2) x as := by
    intro as
    induction as with
    | nil => intro _ x _; exact ⟨trivial, trivial⟩
    | cons a as ih =>
      intro h x hk
      have hrow : ∀ e, a = .env e → RowsKey 12 (toyParty 2).id e := by
        rintro e rfl
        have := (h e List.mem_cons_self).2.2
        cases e with
        | reload rows => exact absurd rfl (this rows)
        | _ => trivial
      have hk' : KeyInv 12 (toyParty 2).id (x.step toy (toyParty 2) a).server :=
        (debt_step toy (toyParty 2) 12 (toy_sigOk 2) x hk a fun e he => ⟨hf _ _ (h e (he ▸ List.mem_cons_self)).1 hk, hrow e he⟩).2
      obtain ⟨i1, i2⟩ := ih (fun e he => h e (List.mem_cons_of_mem _ he)) _ hk'
      exact ⟨⟨fun e he => ⟨hf _ _ (h e (he ▸ List.mem_cons_self)).1 hk, hrow e he⟩, i1⟩,
        ⟨fun e he => ⟨hf _ _ (h e (he ▸ List.mem_cons_self)).1 hk, (h e (he ▸ List.mem_cons_self)).2.1⟩, i2⟩⟩
  obtain ⟨w1, w2⟩ := hw toyHistory (by
    intro e he
    simp only [toyHistory, List.mem_cons, Act.env.injEq, reduceCtorEq, false_or, List.not_mem_nil, or_false] at he
    rcases he with rfl | rfl | rfl | rfl | rfl | rfl | rfl | rfl <;>
      simp [Event.request]) ⟨.build, toyServer7⟩ toy7_keyInv
  exact ⟨w1, w2, by decide +kernel, by decide, by decide, Phase.tag_done (by decide +kernel)⟩

/-- The hypotheses of `c102_accepted_partial` hold when participant 2 has been given the state, and the rest of the history is within
their time. -/
example :
    let x := Sys.run toy (toyParty 2) ⟨.build, toyServer7⟩ (toyHistory.take 9)
    x.client.phase = .computing x.server.mpc.state x.server.mpc.challenge ∧ x.server.lq.lock = some 2 ∧
    x.server.started.length = 0 ∧ x.server.applied.length = 0 ∧ x.server.lq.since = 12 ∧
    InTime toy 12 (toyHistory.drop 9) := by
  refine ⟨?_, by decide +kernel, by decide +kernel, by decide +kernel, by decide +kernel, ?_⟩
  · have h : ∀ p : Phase Nat Nat (Nat × Nat), (match p with
        | .computing st ch => decide (st = [5, 6] ∧ ch = [1, 1])
        | _ => false) = true → p = .computing [5, 6] [1, 1] := by
      intro p hp
      cases p <;> simp_all
    have h1 : (Sys.run toy (toyParty 2) ⟨.build, toyServer7⟩ (toyHistory.take 9)).server.mpc.state = [5, 6] := by decide +kernel
    have h2 : (Sys.run toy (toyParty 2) ⟨.build, toyServer7⟩ (toyHistory.take 9)).server.mpc.challenge = [1, 1] := by
      decide +kernel
    simp only [h1, h2]
    exact h _ (by decide +kernel)
  · intro a ha
    simp only [toyHistory, List.drop_succ_cons, List.drop_zero, List.mem_cons, List.not_mem_nil, or_false] at ha
    rcases ha with rfl | rfl | rfl | rfl | rfl | rfl <;> simp [Act.time, Event.time, toy]

/-- Participant 1 is slow. -/
def toyRace : List ToyAct :=
  [.env (.query 0 1 (11, 0)), .env (.query 0 1 (11, 1)), .query 1, .env (.start 9 1 [7, 9] [(2, 1), (3, 1)] (11, 2)),
   .query 11, .env (.apply 0), .update 12 (fun j => j), .env (.apply 0)]

/-- **C102 is false of the code while a contribution of somebody else is being processed.** Participant 1 sends a contribution in
time, and their time runs out while it is being verified. Participant 2 is given the lock and the state, everything they do is
in time, and nobody signs for them. Then the contribution of participant 1 is applied, the contribution of
participant 2 no longer fits, and the client ends with `BadRequest`. -/
theorem c102_race_violated :
    ∃ (P : Party Nat (Nat × Nat) Nat Nat (Nat × Nat) Nat) (s : ToyServer) (as : List ToyAct),
      Honest toy P ∧ SigOk toy P 12 ∧ KeyInv 12 P.id s ∧ Prepared s ["a", "b"] ∧ Undisturbed toy P ⟨.build, s⟩ as ∧
      (∃ bs cs, as = bs ++ cs ∧ (Sys.run toy P ⟨.build, s⟩ bs).client.phase =
          .computing (Sys.run toy P ⟨.build, s⟩ bs).server.mpc.state (Sys.run toy P ⟨.build, s⟩ bs).server.mpc.challenge ∧
        (Sys.run toy P ⟨.build, s⟩ bs).server.lq.lock = some P.id ∧
        InTime toy (Sys.run toy P ⟨.build, s⟩ bs).server.lq.since cs) ∧
      (Sys.run toy P ⟨.build, s⟩ as).client.phase = .failed (.server .badRequest) := by
  refine ⟨toyParty 2, toyServer, toyRace, toy_honest 2, toy_sigOk 2, ?_, toy_prepared, ?_, ⟨toyRace.take 5, toyRace.drop 5,
    by simp, ?_, by decide +kernel, ?_⟩, Phase.tag_bad (by decide +kernel)⟩
  · refine ⟨?_, ?_⟩
    · intro p hp
      simp only [toyServer, toyRegistry, Registry.get, toyParty] at hp
      simp at hp
      rw [← hp]
    · intro k r hr p hp
      simp only [toyServer, toyDisk, Disk.write] at hr
      split at hr
      · simp only [Option.some.injEq] at hr
        subst hr
        simp only [toyRegistry, Registry.get, toyParty] at hp
        simp at hp
        rw [← hp]
      · rw [write_registry _ _ fun k r => saveWrites_no_registry _ _ k r] at hr
        cases hr
  · have : ∀ (as : List ToyAct), (∀ e, Act.env e ∈ as → (∀ b sig, e.request ≠ some (2, b, sig)) ∧
        ∀ now, e ≠ .restart now) → ∀ x : ToySys, Undisturbed toy (toyParty 2) x as := by
      intro as
      induction as with
      | nil => intro _ x; trivial
      | cons a as ih =>
        intro h x
        exact ⟨fun e he => ⟨fun b sig hb => absurd hb ((h e (he ▸ List.mem_cons_self)).1 b sig),
          (h e (he ▸ List.mem_cons_self)).2⟩, ih (fun e he => h e (List.mem_cons_of_mem _ he)) _⟩
    apply this
    intro e he
    simp only [toyRace, List.mem_cons, Act.env.injEq, reduceCtorEq, false_or, List.not_mem_nil, or_false] at he
    rcases he with rfl | rfl | rfl | rfl | rfl <;> simp [Event.request]
  · have h : ∀ p : Phase Nat Nat (Nat × Nat), (match p with
        | .computing st ch => decide (st = [5, 6] ∧ ch = [1, 1])
        | _ => false) = true → p = .computing [5, 6] [1, 1] := by
      intro p hp
      cases p <;> simp_all
    have h1 : (Sys.run toy (toyParty 2) ⟨.build, toyServer⟩ (toyRace.take 5)).server.mpc.state = [5, 6] := by decide +kernel
    have h2 : (Sys.run toy (toyParty 2) ⟨.build, toyServer⟩ (toyRace.take 5)).server.mpc.challenge = [1, 1] := by
      decide +kernel
    simp only [h1, h2]
    exact h _ (by decide +kernel)
  · have h1 : (Sys.run toy (toyParty 2) ⟨.build, toyServer⟩ (toyRace.take 5)).server.lq.since = 11 := by decide +kernel
    rw [h1]
    intro a ha
    simp only [toyRace, List.drop_succ_cons, List.drop_zero, List.mem_cons, List.not_mem_nil, or_false] at ha
    rcases ha with rfl | rfl | rfl <;> simp [Act.time, Event.time, toy]

/-- **C102 is false of the code when the coordinator is killed between the state transition and the answer.** The contribution of
participant 2 has become round 1, which is on disk, and their client reports a failure. -/
theorem c102_lost_answer_violated :
    ∃ (as : List ToyAct),
      (Sys.run toy (toyParty 2) ⟨.build, toyServer⟩ as).client.phase = .failed .http ∧
      granted toy 2 toyServer (Sys.events toy (toyParty 2) ⟨.build, toyServer⟩ as) = [1] ∧
      (Sys.run toy (toyParty 2) ⟨.build, toyServer⟩ as).server.disk.roundNumber = some 1 := by
  refine ⟨[.query 0, .query 1, .update 2 (fun j => j), .env (.apply 0), .env (.restart 3)], ?_, ?_, ?_⟩
  · exact Phase.tag_http (by decide +kernel)
  · decide +kernel
  · decide +kernel

end Verif.Ceremony
