import Verif.Ceremony.Verifier

/-!
# The ceremony client

`groth16/ceremony/client.rs`: the loop that a participant runs against the coordinator, together with the
coordinator and with anything that other participants do in between.

Sources: /repo/manta-trusted-setup/src/groth16/ceremony/client.rs:110-319, ceremony/signature.rs:300-385 (`Signer`),
groth16/ceremony/server.rs:235-241 (`start`).

Simplifications: signing does not fail; requests arrive, and only a restart of the coordinator loses an answer; the
participant does not kill the client while an update is being processed (they may do so at any other time);
`contribute` for one circuit is a function of its randomness.
-/

namespace Verif.Ceremony

section Client

variable {I VK Sig St Ch Pf Nm R : Type} [DecidableEq I] [DecidableEq Nm]

/-- What the participant brings along. -/
structure Party (I Sig St Ch Pf R : Type) where
  id : I
  /-- `sign` with the signing key, ceremony/signature.rs:111-130. -/
  sign : Nat → Body St Pf → Sig
  /-- `mpc::contribute`, groth16/mpc.rs. -/
  contribute : R → Ch → St → Option (St × Pf)
  /-- `CeremonySize::matches` for the size in the metadata. -/
  sizeOk : List St → Bool

/-- How `contribute` ends with an error. -/
inductive ClientErr
  | server (e : Err)
  | incorrectStateSize
  | failedContribution
  | allNoncesUsed
  | http
  deriving DecidableEq

/-- Where the client is: before a query, between the answer to it and the update, waiting for the answer to the update
(with what it was computed from), or finished. -/
inductive Phase (St Ch Pf : Type)
  | ready
  | computing (st : List St) (ch : List Ch)
  | sent (st : List St) (ch : List Ch) (st' : List St) (pf : List Pf)
  | done (round : Nat)
  | failed (e : ClientErr)

/-- `Client`, client.rs:77-90. -/
structure Client (St Ch Pf : Type) where
  nonce : Nat
  phase : Phase St Ch Pf

/-- `Client::build`, client.rs:151-170, with the answer of the `start` endpoint, server.rs:235-241: the nonce is the
default one, whatever is in the registry. -/
def Client.build : Client St Ch Pf := ⟨0, .ready⟩

/-- The loop in `compute_update`, client.rs:207-219. The index into the challenges cannot fail after `with_valid_shape`. -/
def computeUpdate (P : Party I Sig St Ch Pf R) (rs : Nat → R) : Nat → List St → List Ch → Option (List St × List Pf)
  | _, [], _ => some ([], [])
  | _, _ :: _, [] => none
  | j, s :: ss, c :: cs =>
    match P.contribute (rs j) c s with
    | none => none
    | some (n, p) =>
      match computeUpdate P rs (j + 1) ss cs with
      | none => none
      | some (ns, ps) => some (n :: ns, p :: ps)

/-- The error branches of `contribute`, client.rs:308-317, with `update_nonce` 110-117. -/
def Client.refused (c : Client St Ch Pf) : Err → Client St Ch Pf
  | .invalidSignature n => if validNonce n then ⟨n, .ready⟩ else { c with phase := .failed .allNoncesUsed }
  | e => { c with phase := .failed (.server e) }

/-- `query`, client.rs:185-199, and the first `match` of `try_contribute`, client.rs:263-270. -/
def Client.queryAnswer (P : Party I Sig St Ch Pf R) (c : Client St Ch Pf) : Resp St Ch → Client St Ch Pf
  | .state st ch =>
    if st.length = ch.length ∧ P.sizeOk st then { c with phase := .computing st ch }
    else { c with phase := .failed .incorrectStateSize }
  | .position _ => { c with phase := .ready }
  | .error .timeout => { c with phase := .ready }
  | .error e => c.refused e
  | _ => { c with phase := .failed .http }

/-- The last `match` of `try_contribute`, client.rs:274-280. -/
def Client.updateAnswer (c : Client St Ch Pf) : Resp St Ch → Client St Ch Pf
  | .round k => { c with phase := .done k }
  | .error .timeout => { c with phase := .ready }
  | .error .notYourTurn => { c with phase := .ready }
  | .error e => c.refused e
  | _ => { c with phase := .failed .http }

/-- A client and the coordinator. -/
structure Sys (I VK St Ch Pf Nm : Type) where
  client : Client St Ch Pf
  server : Server I VK St Ch Pf Nm

/-- What can happen next. -/
inductive Act (I VK Sig St Pf R : Type)
  /-- The client queries. -/
  | query (now : Nat)
  /-- The client contributes. -/
  | update (now : Nat) (rs : Nat → R)
  /-- The participant starts the client again. -/
  | rebuild
  /-- Anything else at the coordinator: requests of others, later steps of requests, reloads, restarts. -/
  | env (e : Event I VK Sig St Pf)

/-- The answers that later steps of an update give to the client; killing the coordinator ends the connection, whether or not
`recover` then works. -/
def deliver (P : Party I Sig St Ch Pf R) (x : Sys I VK St Ch Pf Nm) (e : Event I VK Sig St Pf) (r : Resp St Ch) :
    Client St Ch Pf :=
  match x.client.phase, e with
  | .sent _ _ _ _, .apply k =>
    if (x.server.started[k]?).map (·.1) = some P.id then
      match r with
      | .error er => x.client.updateAnswer (.error er)
      | _ => x.client
    else x.client
  | .sent _ _ _ _, .finish _ k =>
    if (x.server.applied[k]?).map (·.1) = some P.id then x.client.updateAnswer r else x.client
  | .sent _ _ _ _, .restart _ => { x.client with phase := .failed .http }
  | _, _ => x.client

/-- `sign` of the client increments the nonce, client.rs:121-136. -/
def Client.signed (c : Client St Ch Pf) : Client St Ch Pf := ⟨incNonce c.nonce, .ready⟩

/-- The request that the client makes in an action, if any: `query`, client.rs:185, `compute_update` and `send_update`
client.rs:202-243. -/
def Act.event (P : Party I Sig St Ch Pf R) (c : Client St Ch Pf) : Act I VK Sig St Pf R → Option (Event I VK Sig St Pf)
  | .query now =>
    match c.phase with
    | .ready => some (.query now P.id (P.sign c.nonce .query))
    | _ => none
  | .update now rs =>
    match c.phase with
    | .computing st ch =>
      (computeUpdate P rs 0 st ch).map fun u => .start now P.id u.1 u.2 (P.sign c.nonce (.contribute u.1 u.2))
    | _ => none
  | .rebuild => none
  | .env e => some e

/-- One action: the client's side of it. -/
def Act.client (P : Party I Sig St Ch Pf R) (x : Sys I VK St Ch Pf Nm) (r : Resp St Ch) :
    Act I VK Sig St Pf R → Client St Ch Pf
  | .query _ =>
    match x.client.phase with
    | .ready => x.client.signed.queryAnswer P r
    | _ => x.client
  | .update _ rs =>
    match x.client.phase with
    | .computing st ch =>
      match computeUpdate P rs 0 st ch with
      | none => { x.client with phase := .failed .failedContribution }
      | some (st', pf) =>
        match r with
        | .ok => { x.client.signed with phase := .sent st ch st' pf }
        | r => x.client.signed.updateAnswer r
    | _ => x.client
  | .rebuild =>
    match x.client.phase with
    | .sent _ _ _ _ => x.client
    | _ => .build
  | .env e => deliver P x e r

/-- The answer of the coordinator to an action. -/
def Sys.answer (cfg : Config VK Sig St Ch Pf) (P : Party I Sig St Ch Pf R) (x : Sys I VK St Ch Pf Nm)
    (a : Act I VK Sig St Pf R) : Resp St Ch :=
  match a.event P x.client with
  | some e => (x.server.step cfg e).1
  | none => .none

/-- One action. -/
def Sys.step (cfg : Config VK Sig St Ch Pf) (P : Party I Sig St Ch Pf R) (x : Sys I VK St Ch Pf Nm)
    (a : Act I VK Sig St Pf R) : Sys I VK St Ch Pf Nm :=
  ⟨a.client P x (x.answer cfg P a),
    match a.event P x.client with
    | some e => (x.server.step cfg e).2
    | none => x.server⟩

/-- A history. -/
def Sys.run (cfg : Config VK Sig St Ch Pf) (P : Party I Sig St Ch Pf R) (x : Sys I VK St Ch Pf Nm) :
    List (Act I VK Sig St Pf R) → Sys I VK St Ch Pf Nm
  | [] => x
  | a :: as => (x.step cfg P a).run cfg P as

/-- The events of the coordinator in a history. -/
def Sys.events (cfg : Config VK Sig St Ch Pf) (P : Party I Sig St Ch Pf R) (x : Sys I VK St Ch Pf Nm) :
    List (Act I VK Sig St Pf R) → List (Event I VK Sig St Pf)
  | [] => []
  | a :: as => (a.event P x.client).toList ++ (x.step cfg P a).events cfg P as

/-- The coordinator sees a history of requests like any other, so everything proved about it applies. -/
theorem run_server (cfg : Config VK Sig St Ch Pf) (P : Party I Sig St Ch Pf R) (as : List (Act I VK Sig St Pf R)) :
    ∀ x : Sys I VK St Ch Pf Nm, (x.run cfg P as).server = x.server.run cfg (x.events cfg P as) := by
  induction as with
  | nil => intro x; rfl
  | cons a as ih =>
    intro x
    simp only [Sys.run, Sys.events, ih]
    cases h : a.event P x.client with
    | none => simp only [Sys.step, h, Option.toList_none, List.nil_append]
    | some e => simp only [Sys.step, h, Option.toList_some, List.cons_append, List.nil_append, Server.run]

/-! ## Assumptions on the rest of the world -/

/-- Nobody else has a signature of the participant for the nonce that the coordinator expects. -/
def Foreign (cfg : Config VK Sig St Ch Pf) (P : Party I Sig St Ch Pf R) (s : Server I VK St Ch Pf Nm)
    (e : Event I VK Sig St Pf) : Prop :=
  ∀ b sig, e.request = some (P.id, b, sig) → ∀ p, s.reg.get P.id = some p → cfg.verifySig p.key p.nonce b sig = false

/-- Reloads register the participant only with their key. -/
def RowsKey (vk : VK) (i : I) : Event I VK Sig St Pf → Prop
  | .reload rows => ∀ p, Registry.firstRecord rows i = some p → p.key = vk
  | _ => True

/-- Both, along a history. -/
def World (cfg : Config VK Sig St Ch Pf) (P : Party I Sig St Ch Pf R) (vk : VK) (x : Sys I VK St Ch Pf Nm) :
    List (Act I VK Sig St Pf R) → Prop
  | [] => True
  | a :: as =>
    (∀ e, a = .env e → Foreign cfg P x.server e ∧ RowsKey vk P.id e) ∧ World cfg P vk (x.step cfg P a) as

/-- The key of the participant is the registered one, now and in all saved registries. -/
def KeyInv (vk : VK) (i : I) (s : Server I VK St Ch Pf Nm) : Prop :=
  (∀ p, s.reg.get i = some p → p.key = vk) ∧
  ∀ k r, s.disk.registry k = some r → ∀ p, Registry.get r i = some p → p.key = vk

/-- Signatures are bound to key and nonce. -/
def SigOk (cfg : Config VK Sig St Ch Pf) (P : Party I Sig St Ch Pf R) (vk : VK) : Prop :=
  ∀ n n' b, cfg.verifySig vk n b (P.sign n' b) = decide (n = n')

/-! ## The registry entry of one participant -/

/-- A request keeps keys and flags, and registers nobody. -/
theorem request_get (cfg : Config VK Sig St Ch Pf) (s : Server I VK St Ch Pf Nm) (e : Event I VK Sig St Pf) (j : I)
    (b : Body St Pf) (sig : Sig) (he : e.request = some (j, b, sig)) (i : I) :
    ∃ f : Participant VK → Participant VK, (s.step cfg e).2.reg.get i = (s.reg.get i).map f ∧
      ∀ p, (f p).key = p.key ∧ (f p).contributed = p.contributed := by
  have hid : ∃ f : Participant VK → Participant VK, s.reg.get i = (s.reg.get i).map f ∧
      ∀ p, (f p).key = p.key ∧ (f p).contributed = p.contributed := ⟨id, by simp, fun _ => ⟨rfl, rfl⟩⟩
  have hl : ∀ now, ∃ f : Participant VK → Participant VK,
      (s.lq.hasLock (s.reg.modify j fun p => { p with nonce := incNonce p.nonce }) cfg.limit now j).2.2.get i =
        (s.reg.get i).map f ∧ ∀ p, (f p).key = p.key ∧ (f p).contributed = p.contributed := by
    intro now
    rw [hasLock_reg, updateLock_get, Registry.get_modify]
    by_cases h : i = j
    · rw [if_pos h, Option.map_map]
      exact ⟨_, rfl, fun p => by simp only [Function.comp_apply]; split <;> exact ⟨rfl, rfl⟩⟩
    · rw [if_neg h]
      exact ⟨_, rfl, fun p => by split <;> exact ⟨rfl, rfl⟩⟩
  cases e with
  | query now i' sig' =>
    simp only [Event.request, Option.some.injEq, Prod.mk.injEq] at he
    obtain ⟨rfl, rfl, rfl⟩ := he
    simp only [Server.step, Server.query]
    rcases preprocess_cases cfg s.reg i' .query sig' with ⟨e, h, -⟩ | ⟨p, -, -, -, -, h⟩
    · simp only [h]; exact hid
    · simp only [h]
      have := hl now
      generalize s.lq.hasLock _ cfg.limit now i' = y at this
      obtain ⟨res, q, r'⟩ := y
      cases res with
      | ok u => exact this
      | error e' => simp only; split <;> exact this
  | start now i' st pf sig' =>
    simp only [Event.request, Option.some.injEq, Prod.mk.injEq] at he
    obtain ⟨rfl, rfl, rfl⟩ := he
    simp only [Server.step, Server.start]
    rcases preprocess_cases cfg s.reg i' (.contribute st pf) sig' with ⟨e, h, -⟩ | ⟨p, -, -, -, -, h⟩
    · simp only [h]; exact hid
    · simp only [h]
      have := hl now
      generalize s.lq.hasLock _ cfg.limit now i' = y at this
      obtain ⟨res, q, r'⟩ := y
      cases res <;> exact this
  | apply k => cases he
  | finish now k => cases he
  | reload rows => cases he
  | restart now => cases he

theorem apply_reg (cfg : Config VK Sig St Ch Pf) (s : Server I VK St Ch Pf Nm) (k : Nat) :
    (s.step cfg (.apply k)).2.reg = s.reg ∧ (s.step cfg (.apply k)).2.lq = s.lq ∧
    (s.step cfg (.apply k)).2.disk.registry = s.disk.registry := by
  simp only [Server.step, Server.apply]
  split
  · exact ⟨rfl, rfl, rfl⟩
  · split
    · exact ⟨rfl, rfl, write_registry _ _ fun k r => saveWrites_no_registry _ _ k r⟩
    · exact ⟨rfl, rfl, rfl⟩

/-- The last step of a contribution sets the flag of its sender and keeps keys and nonces. -/
theorem finish_get (cfg : Config VK Sig St Ch Pf) (s : Server I VK St Ch Pf Nm) (now k : Nat) (i : I) :
    ∃ f : Participant VK → Participant VK, (s.step cfg (.finish now k)).2.reg.get i = (s.reg.get i).map f ∧
      (∀ p, (f p).key = p.key ∧ (f p).nonce = p.nonce) ∧
      ∀ p, (f p).contributed = (p.contributed || decide ((s.applied[k]?).map (·.1) = some i)) := by
  simp only [Server.step, Server.finish]
  cases hk : s.applied[k]? with
  | none => exact ⟨id, by simp, fun _ => ⟨rfl, rfl⟩, fun p => by simp⟩
  | some x =>
    obtain ⟨j, round⟩ := x
    simp only
    cases hg : s.reg.get j with
    | none =>
      by_cases hij : i = j
      · refine ⟨fun p => { p with contributed := p.contributed || decide (((some (j, round)).map (·.1)) = some i) },
          ?_, fun _ => ⟨rfl, rfl⟩, fun p => rfl⟩
        simp only
        rw [hij, hg]; rfl
      · refine ⟨id, by simp, fun _ => ⟨rfl, rfl⟩, fun p => ?_⟩
        have : ¬ (j = i) := fun h => hij h.symm
        simp [this]
    | some q =>
      simp only [updateExpired_get, Registry.get_modify]
      by_cases hij : i = j
      · rw [if_pos hij, Option.map_map]
        refine ⟨_, rfl, fun p => ?_, fun p => ?_⟩
        · simp only [Function.comp_apply]; split <;> exact ⟨rfl, rfl⟩
        · simp only [Function.comp_apply]
          split <;> simp [hij]
      · rw [if_neg hij]
        refine ⟨_, rfl, fun p => ?_, fun p => ?_⟩
        · split <;> exact ⟨rfl, rfl⟩
        · have : ¬ (j = i) := fun h => hij h.symm
          split <;> simp [this]

theorem keyInv_step (cfg : Config VK Sig St Ch Pf) (vk : VK) (i : I) (s : Server I VK St Ch Pf Nm)
    (e : Event I VK Sig St Pf) (h : KeyInv vk i s) (hr : RowsKey vk i e) : KeyInv vk i (s.step cfg e).2 := by
  have hmap : ∀ (r : Option (Participant VK)) (f : Participant VK → Participant VK),
      (∀ p, r = some p → p.key = vk) → (∀ p, (f p).key = p.key) → ∀ p, r.map f = some p → p.key = vk := by
    intro r f h1 h2 p hp
    cases r with
    | none => cases hp
    | some q => cases hp; rw [h2]; exact h1 q rfl
  cases hq : e.request with
  | some x =>
    obtain ⟨j, b, sig⟩ := x
    obtain ⟨f, h1, h2⟩ := request_get cfg s e j b sig hq i
    refine ⟨?_, ?_⟩
    · rw [h1]; exact hmap _ f h.1 fun p => (h2 p).1
    · rw [(request_mpc cfg s e j b sig hq).2]; exact h.2
  | none =>
    cases e with
    | query now i sig => cases hq
    | start now i st pf sig => cases hq
    | apply k =>
      obtain ⟨a1, -, a3⟩ := apply_reg cfg s k
      exact ⟨by rw [a1]; exact h.1, by rw [a3]; exact h.2⟩
    | finish now k =>
      obtain ⟨f, h1, h2, -⟩ := finish_get cfg s now k i
      have hreg : ∀ p, (s.step cfg (.finish now k)).2.reg.get i = some p → p.key = vk := by
        rw [h1]; exact hmap _ f h.1 fun p => (h2 p).1
      refine ⟨hreg, ?_⟩
      revert hreg
      simp only [Server.step, Server.finish]
      split
      · exact fun _ => h.2
      · split
        · exact fun _ => h.2
        · intro hreg k' r' hr' p hp
          simp only [Disk.write] at hr'
          split at hr'
          · cases hr'; exact hreg p hp
          · exact h.2 k' r' hr' p hp
    | reload rows =>
      refine ⟨?_, h.2⟩
      intro p hp
      simp only [Server.step, Registry.loadAppend, Registry.get_loadLoop] at hp
      cases hg : s.reg.get i with
      | some q =>
        rw [hg] at hp
        simp only [Option.some.injEq] at hp
        exact hp ▸ h.1 q hg
      | none => rw [hg] at hp; exact hr p hp
    | restart now =>
      simp only [Server.step, Server.restart]
      split
      · exact h
      · rename_i m r hrec
        obtain ⟨k, names, ss, cs, ps, -, -, -, -, hr', -⟩ := recover_ok hrec
        exact ⟨h.2 k r hr', h.2⟩

/-- Events other than restarts that are not admitted requests of `i` keep the nonce of `i`. -/
theorem nonce_step (cfg : Config VK Sig St Ch Pf) (P : Party I Sig St Ch Pf R) (s : Server I VK St Ch Pf Nm)
    (e : Event I VK Sig St Pf) (hf : Foreign cfg P s e) (hr : ∀ now, e ≠ .restart now) (n : Nat)
    (h : s.nonceOf P.id = some n) : (s.step cfg e).2.nonceOf P.id = some n := by
  unfold Server.nonceOf at h ⊢
  cases hg : s.reg.get P.id with
  | none => rw [hg] at h; cases h
  | some q =>
    rw [hg] at h
    simp only [Option.map_some, Option.some.injEq] at h
    cases hq : e.request with
    | some x =>
      obtain ⟨j, b, sig⟩ := x
      rcases request_spec cfg s e j b sig hq with ⟨-, h1⟩ | ⟨-, p, h2, -, -, h5, h6⟩
      · rw [h1, hg]; simp [h]
      · have hj : P.id ≠ j := by
          rintro rfl
          have := hf b sig hq p h2
          rw [h5] at this
          cases this
        obtain ⟨q', g1, -, -, g4⟩ := h6 P.id q hg
        rw [if_neg hj] at g4
        rw [g1]; simp [g4, h]
    | none =>
      cases e with
      | query now i sig => cases hq
      | start now i st pf sig => cases hq
      | apply k => rw [(apply_reg cfg s k).1, hg]; simp [h]
      | finish now k =>
        obtain ⟨f, h1, h2, -⟩ := finish_get cfg s now k P.id
        rw [h1, hg]; simp [(h2 q).2, h]
      | reload rows => simp only [Server.step, Registry.loadAppend, Registry.get_loadLoop, hg]; simp [h]
      | restart now => exact absurd rfl (hr now)

/-! ## Nonces -/

/-- Client and coordinator agree on the next nonce. -/
def Agree (P : Party I Sig St Ch Pf R) (x : Sys I VK St Ch Pf Nm) : Prop :=
  x.server.nonceOf P.id = some x.client.nonce

/-- The client has ended. -/
def Phase.ended : Phase St Ch Pf → Bool
  | .done _ => true
  | .failed _ => true
  | _ => false

/-- Whether an own request was refused because of its signature. -/
def rejected (cfg : Config VK Sig St Ch Pf) (P : Party I Sig St Ch Pf R) (x : Sys I VK St Ch Pf Nm)
    (a : Act I VK Sig St Pf R) : Nat :=
  match a with
  | .env _ => 0
  | a =>
    match x.answer cfg P a with
    | .error (.invalidSignature _) => 1
    | _ => 0

/-- The number of such refusals in a history. -/
def rejections (cfg : Config VK Sig St Ch Pf) (P : Party I Sig St Ch Pf R) (x : Sys I VK St Ch Pf Nm) :
    List (Act I VK Sig St Pf R) → Nat
  | [] => 0
  | a :: as => rejected cfg P x a + rejections cfg P (x.step cfg P a) as

/-- Restarts of the client or the coordinator. -/
def Act.resets : Act I VK Sig St Pf R → Nat
  | .rebuild => 1
  | .env (.restart _) => 1
  | _ => 0

open Classical in
/-- 1 if a refusal may still come. -/
noncomputable def debt (P : Party I Sig St Ch Pf R) (x : Sys I VK St Ch Pf Nm) : Nat :=
  if Agree P x ∨ x.client.phase.ended = true then 0 else 1

omit [DecidableEq Nm] in
theorem debt_le (P : Party I Sig St Ch Pf R) (x : Sys I VK St Ch Pf Nm) : debt P x ≤ 1 := by
  unfold debt; split <;> omega

omit [DecidableEq Nm] in
theorem debt_zero (P : Party I Sig St Ch Pf R) (x : Sys I VK St Ch Pf Nm) (h : Agree P x ∨ x.client.phase.ended = true) :
    debt P x = 0 := by
  unfold debt; exact if_pos h

/-- The answer to an own request. -/
theorem own_request (cfg : Config VK Sig St Ch Pf) (P : Party I Sig St Ch Pf R) (vk : VK) (hsig : SigOk cfg P vk)
    (s : Server I VK St Ch Pf Nm) (hk : KeyInv vk P.id s) (n : Nat) (e : Event I VK Sig St Pf) (b : Body St Pf)
    (he : e.request = some (P.id, b, P.sign n b)) :
    ((s.step cfg e).1.admitted = true ∧ s.nonceOf P.id = some n ∧
      (s.step cfg e).2.nonceOf P.id = some (incNonce n)) ∨
    (∃ m, m ≠ n ∧ validNonce m = true ∧ (s.step cfg e).1 = .error (.invalidSignature m) ∧
      (s.step cfg e).2.nonceOf P.id = some m) ∨
    (s.step cfg e).1 = .error .notRegistered ∨ (s.step cfg e).1 = .error .alreadyContributed ∨
    (s.step cfg e).1 = .error .allNoncesUsed := by
  have hpre : (∃ p, preprocess cfg s.reg P.id b (P.sign n b) = (.ok p.priority, s.reg.modify P.id fun p =>
        { p with nonce := incNonce p.nonce }) ∧ s.reg.get P.id = some p ∧ p.nonce = n) ∨
      (∃ m, m ≠ n ∧ validNonce m = true ∧ s.nonceOf P.id = some m ∧
        preprocess cfg s.reg P.id b (P.sign n b) = (.error (.invalidSignature m), s.reg)) ∨
      (∃ er, preprocess cfg s.reg P.id b (P.sign n b) = (.error er, s.reg) ∧
        (er = .notRegistered ∨ er = .alreadyContributed ∨ er = .allNoncesUsed)) := by
    unfold preprocess
    cases hg : s.reg.get P.id with
    | none => exact .inr (.inr ⟨_, rfl, .inl rfl⟩)
    | some p =>
      simp only
      by_cases hc : p.contributed = true
      · rw [if_pos hc]; exact .inr (.inr ⟨_, rfl, .inr (.inl rfl)⟩)
      · rw [if_neg hc]
        by_cases hv : validNonce p.nonce = true
        · have hs := hsig p.nonce n b
          rw [← hk.1 p hg] at hs
          by_cases hn : p.nonce = n
          · left
            refine ⟨p, ?_, rfl, hn⟩
            rw [if_neg (by simp [hv]), if_neg (by rw [hs]; simp [hn])]
          · right; left
            refine ⟨p.nonce, hn, hv, by simp [Server.nonceOf, hg], ?_⟩
            simp [hv, hs, hn]
        · right; right
          exact ⟨_, by simp [hv], .inr (.inr rfl)⟩
  have hspec := request_spec cfg s e P.id b (P.sign n b) he
  have herr : ∀ er, preprocess cfg s.reg P.id b (P.sign n b) = (.error er, s.reg) →
      (s.step cfg e).1 = .error er ∧ (s.step cfg e).2.reg = s.reg := by
    intro er hp
    cases e with
    | query now i' sig' =>
      simp only [Event.request, Option.some.injEq, Prod.mk.injEq] at he
      obtain ⟨rfl, rfl, rfl⟩ := he
      simp only [Server.step, Server.query, hp, and_self]
    | start now i' st pf sig' =>
      simp only [Event.request, Option.some.injEq, Prod.mk.injEq] at he
      obtain ⟨rfl, rfl, rfl⟩ := he
      simp only [Server.step, Server.start, hp, and_self]
    | apply k => cases he
    | finish now k => cases he
    | reload rows => cases he
    | restart now => cases he
  rcases hpre with ⟨p, hp, hg, hn⟩ | ⟨m, hm, hv, hno, hp⟩ | ⟨er, hp, her⟩
  · left
    rcases hspec with ⟨h1, -⟩ | ⟨h1, p', -, -, -, -, h6⟩
    · exfalso
      have : (s.step cfg e).1.admitted = true := by
        cases e with
        | query now i' sig' =>
          simp only [Event.request, Option.some.injEq, Prod.mk.injEq] at he
          obtain ⟨rfl, rfl, rfl⟩ := he
          simp only [Server.step, Server.query, hp]
          split
          · rfl
          · split <;> rfl
        | start now i' st pf sig' =>
          simp only [Event.request, Option.some.injEq, Prod.mk.injEq] at he
          obtain ⟨rfl, rfl, rfl⟩ := he
          simp only [Server.step, Server.start, hp]
          generalize hy : s.lq.hasLock _ cfg.limit now P.id = y
          obtain ⟨res, q, r'⟩ := y
          cases res with
          | ok u => rfl
          | error e' =>
            unfold LockQueue.hasLock at hy
            simp only at hy
            split at hy
            · simp only [Prod.mk.injEq, Except.error.injEq] at hy
              rw [← hy.1]; rfl
            · split at hy
              · simp at hy
              · simp only [Prod.mk.injEq, Except.error.injEq] at hy
                rw [← hy.1]; rfl
        | apply k => cases he
        | finish now k => cases he
        | reload rows => cases he
        | restart now => cases he
      rw [this] at h1; cases h1
    · obtain ⟨q', g1, -, -, g4⟩ := h6 P.id p hg
      refine ⟨h1, by simp [Server.nonceOf, hg, hn], ?_⟩
      simp [Server.nonceOf, g1, g4, hn]
  · right; left
    obtain ⟨h1, h2⟩ := herr _ hp
    exact ⟨m, hm, hv, h1, by simp only [Server.nonceOf] at hno ⊢; rw [h2]; exact hno⟩
  · right; right
    obtain ⟨h1, -⟩ := herr _ hp
    rcases her with rfl | rfl | rfl
    · exact .inl h1
    · exact .inr (.inl h1)
    · exact .inr (.inr h1)

theorem refused_signature (c : Client St Ch Pf) (m : Nat) (h : validNonce m = true) :
    c.refused (.invalidSignature m) = ⟨m, .ready⟩ := by
  simp [Client.refused, h]

theorem refused_other (c : Client St Ch Pf) (er : Err) (h : ∀ m, er ≠ .invalidSignature m) :
    c.refused er = { c with phase := .failed (.server er) } := by
  unfold Client.refused
  split
  · exact absurd rfl (h _)
  · rfl

omit [DecidableEq I] in
theorem queryAnswer_admitted (P : Party I Sig St Ch Pf R) (c : Client St Ch Pf) (r : Resp St Ch)
    (h : r.admitted = true) : (c.queryAnswer P r).nonce = c.nonce := by
  cases r with
  | state st ch => simp only [Client.queryAnswer]; split <;> rfl
  | error er =>
    simp only [Resp.admitted, Bool.or_eq_true, beq_iff_eq] at h
    rcases h with rfl | rfl <;> rfl
  | position _ => rfl
  | round _ => rfl
  | ok => rfl
  | panic => rfl
  | none => rfl

theorem updateAnswer_admitted (c : Client St Ch Pf) (r : Resp St Ch)
    (h : r.admitted = true) : (c.updateAnswer r).nonce = c.nonce := by
  cases r with
  | error er =>
    simp only [Resp.admitted, Bool.or_eq_true, beq_iff_eq] at h
    rcases h with rfl | rfl <;> rfl
  | state _ _ => rfl
  | position _ => rfl
  | round _ => rfl
  | ok => rfl
  | panic => rfl
  | none => rfl

omit [DecidableEq Nm] in
/-- Later answers to an update leave the nonce alone, unless they end the client. -/
theorem deliver_nonce (P : Party I Sig St Ch Pf R) (x : Sys I VK St Ch Pf Nm) (e : Event I VK Sig St Pf) (r : Resp St Ch)
    (hr : ∀ m, r ≠ .error (.invalidSignature m)) : (deliver P x e r).nonce = x.client.nonce := by
  have hu : ∀ r : Resp St Ch, (∀ m, r ≠ .error (.invalidSignature m)) → (x.client.updateAnswer r).nonce = x.client.nonce := by
    intro r hr
    cases r with
    | error er =>
      simp only [Client.updateAnswer]
      split
      · cases ‹Resp.error _ = _›
      · rfl
      · rfl
      · rename_i er' _ _ heq
        cases heq
        rw [refused_other _ _ fun m hm => hr m (by rw [hm])]
      · rfl
    | state _ _ => rfl
    | position _ => rfl
    | round _ => rfl
    | ok => rfl
    | panic => rfl
    | none => rfl
  unfold deliver
  split
  · split
    · split
      · exact hu _ hr
      · rfl
    · rfl
  · split
    · exact hu _ hr
    · rfl
  · rfl
  · rfl

/-- Steps that are not requests do not complain about signatures. -/
theorem step_signature (cfg : Config VK Sig St Ch Pf) (s : Server I VK St Ch Pf Nm) (e : Event I VK Sig St Pf)
    (he : e.request = none) (m : Nat) : (s.step cfg e).1 ≠ .error (.invalidSignature m) := by
  cases e with
  | query now i sig => cases he
  | start now i st pf sig => cases he
  | apply k =>
    simp only [Server.step, Server.apply]
    split
    · exact fun h => by cases h
    · split
      · exact fun h => by cases h
      · rename_i hu
        intro h
        unfold Sclp.update at hu
        split at hu
        · simp only at hu
          split at hu
          · simp at hu
          · simp only [Prod.mk.injEq, Except.error.injEq] at hu
            rw [← hu.1] at h
            cases h
        · simp only [Prod.mk.injEq, Except.error.injEq] at hu
          rw [← hu.1] at h
          cases h
  | finish now k =>
    simp only [Server.step, Server.finish]
    split
    · exact fun h => by cases h
    · split <;> exact fun h => by cases h
  | reload rows => exact fun h => by cases h
  | restart now =>
    simp only [Server.step, Server.restart]
    split
    · rename_i er hrec
      intro h
      simp only [Resp.error.injEq] at h
      subst h
      unfold Disk.recover at hrec
      split at hrec
      · cases hrec
      · split at hrec
        · cases hrec
        · split at hrec
          · cases hrec
          · split at hrec
            · cases hrec
            · split at hrec <;> cases hrec
    · exact fun h => by cases h

theorem debt_step (cfg : Config VK Sig St Ch Pf) (P : Party I Sig St Ch Pf R) (vk : VK) (hsig : SigOk cfg P vk)
    (x : Sys I VK St Ch Pf Nm) (hk : KeyInv vk P.id x.server) (a : Act I VK Sig St Pf R)
    (hw : ∀ e, a = .env e → Foreign cfg P x.server e ∧ RowsKey vk P.id e) :
    rejected cfg P x a + debt P (x.step cfg P a) ≤ debt P x + a.resets ∧ KeyInv vk P.id (x.step cfg P a).server := by
  -- own requests
  have own : ∀ (e : Event I VK Sig St Pf) (b : Body St Pf), a.event P x.client = some e →
      (∀ e', a ≠ .env e') → a ≠ .rebuild → e.request = some (P.id, b, P.sign x.client.nonce b) →
      (x.client.phase.ended = false) →
      (∀ r, r.admitted = true → (a.client P x r).nonce = incNonce x.client.nonce) →
      (∀ m, validNonce m = true → a.client P x (.error (.invalidSignature m)) = ⟨m, .ready⟩) →
      (∀ er, (∀ m, er ≠ .invalidSignature m) → er ≠ .timeout → er ≠ .notYourTurn →
        (a.client P x (.error er)).phase.ended = true) →
      rejected cfg P x a + debt P (x.step cfg P a) ≤ debt P x + a.resets ∧ KeyInv vk P.id (x.step cfg P a).server := by
    intro e b he hne hnr hreq hend hadm hinv hother
    have hsv : (x.step cfg P a).server = (x.server.step cfg e).2 := by simp only [Sys.step, he]
    have hans : x.answer cfg P a = (x.server.step cfg e).1 := by simp only [Sys.answer, he]
    have hcl : (x.step cfg P a).client = a.client P x (x.server.step cfg e).1 := by simp only [Sys.step, hans]
    have hres : a.resets = 0 := by cases a <;> simp_all [Act.resets]
    have hrej : rejected cfg P x a = match (x.server.step cfg e).1 with
        | .error (.invalidSignature _) => 1
        | _ => 0 := by
      rw [← hans]
      cases a with
      | env e' => exact absurd rfl (hne e')
      | query now => rfl
      | update now rs => rfl
      | rebuild => rfl
    have hrow : RowsKey vk P.id e := by
      cases e <;> first | trivial | cases hreq
    refine ⟨?_, by rw [hsv]; exact keyInv_step cfg vk P.id x.server e hk hrow⟩
    rcases own_request cfg P vk hsig x.server hk x.client.nonce e b hreq with ⟨h1, h2, h3⟩ | ⟨m, hm, hv, h1, h2⟩ | h1 | h1 | h1
    · have : debt P (x.step cfg P a) = 0 := debt_zero _ _ (.inl (by
        unfold Agree
        rw [hsv, hcl, hadm _ h1]; exact h3))
      have hr0 : rejected cfg P x a = 0 := by
        rw [hrej]
        split
        · rename_i heq
          rw [heq] at h1; cases h1
        · rfl
      omega
    · have hd : debt P (x.step cfg P a) = 0 := debt_zero _ _ (.inl (by
        unfold Agree
        rw [hsv, hcl, h1, hinv m hv]; exact h2))
      have hr1 : rejected cfg P x a = 1 := by rw [hrej, h1]
      have hdx : debt P x = 1 := by
        unfold debt
        rw [if_neg]
        rintro (hag | hag)
        · -- agreeing nonces are not refused
          have hsame : (x.server.step cfg e).2.reg = x.server.reg := by
            rcases request_spec cfg x.server e P.id b _ hreq with ⟨-, g⟩ | ⟨g, -⟩
            · exact g
            · rw [h1] at g; cases g
          have : x.server.nonceOf P.id = some m := by
            rw [← h2]; simp only [Server.nonceOf, hsame]
          unfold Agree at hag
          rw [this] at hag
          simp only [Option.some.injEq] at hag
          exact hm hag
        · rw [hend] at hag; cases hag
      omega
    all_goals
      have hd : debt P (x.step cfg P a) = 0 := debt_zero _ _ (.inr (by
        rw [hcl, h1]
        exact hother _ (by simp) (by simp) (by simp)))
      have hr0 : rejected cfg P x a = 0 := by rw [hrej, h1]
      omega
  cases a with
  | query now =>
    cases hp : x.client.phase with
    | ready =>
      refine own (.query now P.id (P.sign x.client.nonce .query)) .query (by simp only [Act.event, hp]) (by simp) (by simp)
        rfl (by rw [hp]; rfl) ?_ ?_ ?_
      · intro r hr
        simp only [Act.client, hp]
        rw [queryAnswer_admitted P _ r hr]; rfl
      · intro m hm
        simp only [Act.client, hp, Client.queryAnswer]
        exact refused_signature _ m hm
      · intro er h1 h2 h3
        simp only [Act.client, hp, Client.queryAnswer]
        rw [refused_other _ _ h1]; rfl
    | _ =>
      have he : (Act.query now : Act I VK Sig St Pf R).event P x.client = none := by simp only [Act.event, hp]
      have hs : x.step cfg P (.query now) = x := by
        simp only [Sys.step, he, Act.client, hp]
      rw [hs]
      refine ⟨?_, hk⟩
      simp [rejected, Sys.answer, he, Act.resets]
  | update now rs =>
    cases hp : x.client.phase with
    | computing st ch =>
      cases hc : computeUpdate P rs 0 st ch with
      | none =>
        have he : (Act.update now rs : Act I VK Sig St Pf R).event P x.client = none := by simp only [Act.event, hp, hc, Option.map_none]
        have hs : (x.step cfg P (.update now rs)).client.phase.ended = true := by
          simp only [Sys.step, Act.client, hp, hc]; rfl
        have hs2 : (x.step cfg P (.update now rs)).server = x.server := by simp only [Sys.step, he]
        refine ⟨?_, by rw [hs2]; exact hk⟩
        rw [debt_zero _ _ (.inr hs)]
        simp [rejected, Sys.answer, he]
      | some u =>
        obtain ⟨st', pf⟩ := u
        refine own (.start now P.id st' pf (P.sign x.client.nonce (.contribute st' pf))) (.contribute st' pf)
          (by simp only [Act.event, hp, hc, Option.map_some]) (by simp) (by simp) rfl (by rw [hp]; rfl) ?_ ?_ ?_
        · intro r hr
          simp only [Act.client, hp, hc]
          cases r with
          | ok => rfl
          | _ => exact updateAnswer_admitted _ _ hr
        · intro m hm
          simp only [Act.client, hp, hc, Client.updateAnswer]
          exact refused_signature _ m hm
        · intro er h1 h2 h3
          simp only [Act.client, hp, hc, Client.updateAnswer]
          rw [refused_other _ _ h1]; rfl
    | _ =>
      have he : (Act.update now rs : Act I VK Sig St Pf R).event P x.client = none := by simp only [Act.event, hp]
      have hs : x.step cfg P (.update now rs) = x := by
        simp only [Sys.step, he, Act.client, hp]
      rw [hs]
      refine ⟨?_, hk⟩
      simp [rejected, Sys.answer, he, Act.resets]
  | rebuild =>
    refine ⟨?_, hk⟩
    have := debt_le P (x.step cfg P .rebuild)
    simp only [rejected, Sys.answer, Act.event, Act.resets]
    omega
  | env e =>
    obtain ⟨hf, hrow⟩ := hw e rfl
    refine ⟨?_, keyInv_step cfg vk P.id x.server e hk hrow⟩
    by_cases hre : ∃ now, e = .restart now
    · obtain ⟨now, rfl⟩ := hre
      have := debt_le P (x.step cfg P (.env (.restart now)))
      simp only [rejected, Act.resets]
      omega
    · have hre' : ∀ now, e ≠ .restart now := fun now h => hre ⟨now, h⟩
      have hd : debt P (x.step cfg P (.env e)) ≤ debt P x := by
        by_cases hx : Agree P x ∨ x.client.phase.ended = true
        · rw [debt_zero P x hx]
          refine Nat.le_of_eq (debt_zero _ _ ?_)
          rcases hx with hx | hx
          · left
            have hn := nonce_step cfg P x.server e hf hre' _ hx
            unfold Agree
            show (x.server.step cfg e).2.nonceOf P.id = some (deliver P x e (x.server.step cfg e).1).nonce
            rw [hn]
            cases hq : e.request with
            | none => rw [deliver_nonce P x e _ fun m => step_signature cfg x.server e hq m]
            | some y =>
              have : deliver P x e (x.server.step cfg e).1 = x.client := by
                unfold deliver
                cases e <;> first | (cases hq; done) | (cases x.client.phase <;> rfl)
              rw [this]
          · right
            show (deliver P x e (x.server.step cfg e).1).phase.ended = true
            have : deliver P x e (x.server.step cfg e).1 = x.client := by
              unfold deliver
              cases hp : x.client.phase with
              | sent _ _ _ _ => rw [hp] at hx; cases hx
              | _ => rfl
            rw [this]; exact hx
        · have h1 : debt P x = 1 := by unfold debt; exact if_neg hx
          have := debt_le P (x.step cfg P (.env e))
          omega
      simp only [rejected]
      omega

/-- **C102, nonces.** However the history goes, and whatever nonce the registry holds, the client is refused because of its
signature at most once, plus once for every restart of the client or of the coordinator. -/
theorem c102_nonces (cfg : Config VK Sig St Ch Pf) (P : Party I Sig St Ch Pf R) (vk : VK) (hsig : SigOk cfg P vk)
    (as : List (Act I VK Sig St Pf R)) : ∀ (x : Sys I VK St Ch Pf Nm), KeyInv vk P.id x.server → World cfg P vk x as →
      rejections cfg P x as ≤ 1 + (as.map Act.resets).sum := by
  have key : ∀ (x : Sys I VK St Ch Pf Nm), KeyInv vk P.id x.server → World cfg P vk x as →
      rejections cfg P x as ≤ debt P x + (as.map Act.resets).sum := by
    induction as with
    | nil => intro x _ _; simp [rejections]
    | cons a as ih =>
      intro x hk hw
      obtain ⟨h1, h2⟩ := debt_step cfg P vk hsig x hk a hw.1
      have h3 := ih _ h2 hw.2
      simp only [rejections, List.map_cons, List.sum_cons]
      omega
  intro x hk hw
  have := key x hk hw
  have := debt_le P x
  omega

end Client

end Verif.Ceremony
