import Verif.Util.Model

/-!
# The trusted-setup ceremony server

A model of the coordinator of the phase 2 ceremony: the participant registry, the waiting queue with
its timed lock, the three steps of an `update` request (which run under separate mutexes, so that
steps of different requests interleave), the per-circuit state transition, the files written for
recovery, and `recover` itself.

Sources (all under /repo/manta-trusted-setup/src): ceremony/signature.rs, ceremony/participant.rs,
ceremony/registry/{mod,csv}.rs, groth16/ceremony/{coordinator,server,client}.rs,
groth16/ceremony/config/ppot.rs; and /repo/manta-util/src/time/lock.rs.

Simplifications:
* identifiers, keys, signatures, states, challenges, proofs and circuit names are arbitrary types,
  and signature verification, `check_state`, `challenge` and `verify_transform` arbitrary functions;
* nonces are natural numbers up to `u64::MAX`, round numbers are unbounded;
* `Instant::now()` is a natural number that comes with the event;
* a file is either absent or holds one complete value (writing one file is atomic); file names are
  the pairs they are formatted from (`Verif.Ceremony.Files` proves the format injective);
* requests are not cancelled between their steps.
-/

namespace Verif.Ceremony

open Verif.Util

/-! ## Nonces, participants and the registry -/

/-- `u64::MAX`. -/
def nonceMax : Nat := 2 ^ 64 - 1

/-- `Nonce::increment` for `u64`: `saturating_add(1)`, ceremony/signature.rs:46-49. -/
def incNonce (n : Nat) : Nat := if n < nonceMax then n + 1 else n

/-- `Nonce::is_valid` for `u64`, ceremony/signature.rs:51-54. -/
def validNonce (n : Nat) : Bool := n != nonceMax

/-- `Priority`, config/ppot.rs:84-90. -/
inductive Priority
  | high
  | normal
  deriving DecidableEq, Repr

/-- `impl From<Priority> for usize`, config/ppot.rs:92-101. -/
def Priority.level : Priority → Nat
  | .high => 0
  | .normal => 1

/-- `Participant`, config/ppot.rs; the Twitter account is left out (it is only displayed). -/
structure Participant (VK : Type) where
  priority : Priority
  key : VK
  nonce : Nat
  contributed : Bool
  deriving DecidableEq

/-- `HashMap<Identifier, Participant>` as an association list without duplicate keys. -/
abbrev Registry (I VK : Type) := List (I × Participant VK)

namespace Registry

variable {I VK : Type} [DecidableEq I]

/-- `Registry::get`, registry/mod.rs:215-218. -/
def get : Registry I VK → I → Option (Participant VK)
  | [], _ => none
  | (j, p) :: r, i => if j = i then some p else get r i

/-- A mutation through `Registry::get_mut`, registry/mod.rs:220-223; nothing happens to an
identifier that is not registered. -/
def modify : Registry I VK → I → (Participant VK → Participant VK) → Registry I VK
  | [], _, _ => []
  | (j, p) :: r, i, f => if j = i then (j, f p) :: r else (j, p) :: modify r i f

/-- `Registry::insert`, registry/mod.rs:204-213: only a vacant entry is filled. -/
def insert (r : Registry I VK) (i : I) (p : Participant VK) : Bool × Registry I VK :=
  match get r i with
  | some _ => (false, r)
  | none => (true, r ++ [(i, p)])

/-- The loop of `load_append_entries`, registry/csv.rs:86-99, over the rows of the file that
deserialize; `none` is a row that `Record::parse` rejects. -/
def loadLoop : Registry I VK → List (Option (I × Participant VK)) → Registry I VK
  | r, [] => r
  | r, none :: rows => loadLoop r rows
  | r, some (i, p) :: rows => loadLoop (insert r i p).2 rows

/-- `load_append_entries`, registry/csv.rs:74-101: also returns `len() - length`. -/
def loadAppend (r : Registry I VK) (rows : List (Option (I × Participant VK))) :
    Nat × Registry I VK :=
  ((loadLoop r rows).length - r.length, loadLoop r rows)

end Registry

/-! ## Requests -/

/-- The body of a signed request: `QueryRequest` or `ContributeRequest`, ceremony/message.rs. -/
inductive Body (St Pf : Type)
  | query
  | contribute (state : List St) (proof : List Pf)

/-- The parameters of the ceremony. -/
structure Config (VK Sig St Ch Pf : Type) where
  /-- `SignedMessage::verify(nonce, key)`, ceremony/signature.rs:153-175, 270-283. -/
  verifySig : VK → Nat → Body St Pf → Sig → Bool
  /-- `Ceremony::check_state`, config/ppot.rs:872. -/
  checkState : St → Bool
  /-- `Configuration::challenge`, config/ppot.rs:789-808. -/
  challenge : Ch → St → St → Pf → Ch
  /-- `verify_transform(challenge, prev, next, proof).is_ok()`, groth16/mpc.rs; the state returned on
  success is `next`. -/
  verifyTransform : Ch → St → St → Pf → Bool
  /-- `Metadata::contribution_time_limit`. -/
  limit : Nat

/-- `CeremonyError`, ceremony/message.rs. -/
inductive Err
  | notRegistered
  | alreadyContributed
  | allNoncesUsed
  | invalidSignature (expected : Nat)
  | timeout
  | notYourTurn
  | badRequest
  /-- A panic in a spawned task, `UnexpectedError::TaskError`. -/
  | taskError
  | missingParticipant
  /-- `UnexpectedError::Serialization`: a file cannot be read. -/
  | serialization
  | incorrectStateSize
  deriving DecidableEq, Repr

section Server

variable {I VK Sig St Ch Pf Nm : Type} [DecidableEq I] [DecidableEq Nm]

/-- `preprocess_request`, coordinator.rs:375-401. -/
def preprocess (cfg : Config VK Sig St Ch Pf) (r : Registry I VK) (i : I) (b : Body St Pf)
    (s : Sig) : Except Err Priority × Registry I VK :=
  match r.get i with
  | none => (.error .notRegistered, r)
  | some p =>
    if p.contributed then (.error .alreadyContributed, r)
    else if !validNonce p.nonce then (.error .allNoncesUsed, r)
    else if !cfg.verifySig p.key p.nonce b s then (.error (.invalidSignature p.nonce), r)
    else (.ok p.priority, r.modify i fun p => { p with nonce := incNonce p.nonce })

/-- `LockQueue`, coordinator.rs:63-72, with `Timed` (time/lock.rs) spelled out: `since` is the time
of the last modification of the lock. -/
structure LockQueue (I : Type) where
  queue : MDeque I
  lock : Option I
  since : Nat

/-- `LockQueue::has_expired`, coordinator.rs:92-96, with `Timed::has_expired`, lock.rs:79-81. -/
def LockQueue.hasExpired (q : LockQueue I) (limit now : Nat) : Bool :=
  decide (limit ≤ now - q.since) || q.lock.isNone

/-- `LockQueue::update_expired_lock`, coordinator.rs:148-160. Returns the previous holder. -/
def LockQueue.updateExpired (q : LockQueue I) (r : Registry I VK) (now : Nat) :
    Option I × LockQueue I × Registry I VK :=
  let r' := match q.lock with
    | some i => r.modify i fun p => { p with priority := .normal }
    | none => r
  (q.lock, { queue := q.queue.popFront.2, lock := q.queue.popFront.1, since := now }, r')

/-- `LockQueue::update_lock`, coordinator.rs:100-113. -/
def LockQueue.updateLock (q : LockQueue I) (r : Registry I VK) (limit now : Nat) :
    (Bool × Option I) × LockQueue I × Registry I VK :=
  if q.hasExpired limit now then
    let u := q.updateExpired r now
    ((true, u.1), u.2)
  else ((false, none), q, r)

/-- `LockQueue::has_lock`, coordinator.rs:117-142. -/
def LockQueue.hasLock (q : LockQueue I) (r : Registry I VK) (limit now : Nat) (i : I) :
    Except Err Unit × LockQueue I × Registry I VK :=
  let u := q.updateLock r limit now
  if u.1.2 = some i then (.error .timeout, u.2)
  else if u.2.1.lock = some i then (.ok (), u.2)
  else (.error .notYourTurn, u.2)

/-- `StateChallengeProof`, coordinator.rs:183-198. -/
structure Sclp (St Ch Pf : Type) where
  state : List St
  challenge : List Ch
  proof : Option (List Pf)
  round : Nat

/-- The loop of `StateChallengeProof::update`, coordinator.rs:286-293: circuit by circuit, in place,
leaving with `?` at the first circuit that fails. -/
def applyAll (cfg : Config VK Sig St Ch Pf) :
    List St → List Ch → List (St × Pf) → Bool × List St × List Ch
  | s :: ss, c :: cs, (n, p) :: rest =>
    if cfg.checkState n && cfg.verifyTransform c s n p then
      let r := applyAll cfg ss cs rest
      (r.1, n :: r.2.1, cfg.challenge c s n p :: r.2.2)
    else (false, s :: ss, c :: cs)
  | ss, cs, _ => (true, ss, cs)

/-- The body of `StateChallengeProof::update`, coordinator.rs:277-299, without the files, together
with the conversions of the two vectors into arrays (server.rs:417-419) which panic on a wrong
length. -/
def Sclp.update (cfg : Config VK Sig St Ch Pf) (m : Sclp St Ch Pf) (state : List St)
    (proof : List Pf) : Except Err Nat × Sclp St Ch Pf :=
  if state.length = m.state.length ∧ proof.length = m.state.length then
    let r := applyAll cfg m.state m.challenge (state.zip proof)
    if r.1 then
      (.ok (m.round + 1),
        { state := r.2.1, challenge := r.2.2, proof := some proof, round := m.round + 1 })
    else (.error .badRequest, { m with state := r.2.1, challenge := r.2.2 })
  else (.error .taskError, m)

/-! ## The recovery directory -/

/-- The files of the recovery directory. -/
structure Disk (I VK St Ch Pf Nm : Type) where
  state : Nm → Nat → Option St
  challenge : Nm → Nat → Option Ch
  proof : Nm → Nat → Option Pf
  registry : Nat → Option (Registry I VK)
  names : Option (List Nm)
  roundNumber : Option Nat

/-- One file being written. -/
inductive Write (I VK St Ch Pf Nm : Type)
  | state (name : Nm) (round : Nat) (s : St)
  | challenge (name : Nm) (round : Nat) (c : Ch)
  | proof (name : Nm) (round : Nat) (p : Pf)
  | registry (round : Nat) (r : Registry I VK)
  | roundNumber (round : Nat)

/-- `serialize_into_file`. -/
def Disk.write (d : Disk I VK St Ch Pf Nm) : Write I VK St Ch Pf Nm → Disk I VK St Ch Pf Nm
  | .state nm k s => { d with
      state := fun nm' k' => if nm' = nm ∧ k' = k then some s else d.state nm' k' }
  | .challenge nm k c => { d with
      challenge := fun nm' k' => if nm' = nm ∧ k' = k then some c else d.challenge nm' k' }
  | .proof nm k p => { d with
      proof := fun nm' k' => if nm' = nm ∧ k' = k then some p else d.proof nm' k' }
  | .registry k r => { d with registry := fun k' => if k' = k then some r else d.registry k' }
  | .roundNumber k => { d with roundNumber := some k }

def Disk.writes (d : Disk I VK St Ch Pf Nm) (ws : List (Write I VK St Ch Pf Nm)) :
    Disk I VK St Ch Pf Nm := ws.foldl Disk.write d

/-- The files written for states and challenges, coordinator.rs:311-340. -/
def stateWrites (round : Nat) : List (St × Ch) → List Nm → List (Write I VK St Ch Pf Nm)
  | (s, c) :: rest, nm :: nms => .state nm round s :: .challenge nm round c ::
      stateWrites round rest nms
  | _, _ => []

/-- The files written for proofs, coordinator.rs:343-361. -/
def proofWrites (round : Nat) : List Pf → List Nm → List (Write I VK St Ch Pf Nm)
  | p :: rest, nm :: nms => .proof nm round p :: proofWrites round rest nms
  | _, _ => []

/-- `StateChallengeProof::save`, coordinator.rs:303-370, in the order of the writes. (The panic of
`latest_proof.unwrap()` cannot occur in `update`, which sets it just before.) -/
def Sclp.saveWrites (m : Sclp St Ch Pf) (names : List Nm) : List (Write I VK St Ch Pf Nm) :=
  stateWrites m.round (m.state.zip m.challenge) names ++
    (if m.round > 0 then proofWrites m.round (m.proof.getD []) names else []) ++
    [.roundNumber m.round]

/-- The loop of `Server::recover` over the circuit names, server.rs:153-192; `none` if a file is
missing. -/
def recoverLoop (d : Disk I VK St Ch Pf Nm) (round : Nat) :
    List Nm → Option (List St × List Ch × List Pf)
  | [] => some ([], [], [])
  | nm :: nms =>
    match d.state nm round, d.challenge nm round with
    | some s, some c =>
      if round > 0 then
        match d.proof nm round with
        | none => none
        | some p => (recoverLoop d round nms).map fun r => (s :: r.1, c :: r.2.1, p :: r.2.2)
      else (recoverLoop d round nms).map fun r => (s :: r.1, c :: r.2.1, r.2.2)
    | _, _ => none

/-- `Server::recover`, server.rs:118-225: the state and the registry read from the directory. The
lock queue starts empty. `N` is the number of circuits the server is compiled for. -/
def Disk.recover (d : Disk I VK St Ch Pf Nm) (N : Nat) :
    Except Err (Sclp St Ch Pf × Registry I VK) :=
  match d.roundNumber with
  | none => .error .serialization
  | some k =>
    match d.names with
    | none => .error .serialization
    | some names =>
      if names.length ≠ N then .error .incorrectStateSize
      else
        match recoverLoop d k names with
        | none => .error .serialization
        | some (ss, cs, ps) =>
          match d.registry k with
          | none => .error .serialization
          | some r =>
            .ok ({ state := ss, challenge := cs, proof := if k = 0 then none else some ps,
                   round := k }, r)

/-! ## The server -/

/-- The server, server.rs:60-90, with the requests that are between two of their steps. -/
structure Server (I VK St Ch Pf Nm : Type) where
  reg : Registry I VK
  lq : LockQueue I
  mpc : Sclp St Ch Pf
  disk : Disk I VK St Ch Pf Nm
  /-- `update` requests after their first step (server.rs:391-405). -/
  started : List (I × List St × List Pf)
  /-- `update` requests after their second step (server.rs:416-424), with their round. -/
  applied : List (I × Nat)

/-- What can happen next. -/
inductive Event (I VK Sig St Pf : Type)
  /-- A `query` request arrives at time `now`. -/
  | query (now : Nat) (i : I) (sig : Sig)
  /-- The first step of an `update` request. -/
  | start (now : Nat) (i : I) (state : List St) (proof : List Pf) (sig : Sig)
  /-- The second step of the `k`-th started request. -/
  | apply (k : Nat)
  /-- The last step of the `k`-th applied request. -/
  | finish (now : Nat) (k : Nat)
  /-- `update_registry` reloads the registry file. -/
  | reload (rows : List (Option (I × Participant VK)))
  /-- The process is killed and restarted with `recover` at time `now`; nothing happens if `recover`
  fails. -/
  | restart (now : Nat)

/-- What the requester sees. -/
inductive Resp (St Ch : Type)
  | state (s : List St) (c : List Ch)
  | position (p : Nat)
  | round (k : Nat)
  | ok
  | error (e : Err)
  /-- A panic inside the handler. -/
  | panic
  /-- The event does not exist in this state. -/
  | none

/-- `Server::query`, server.rs:256-290. -/
def Server.query (cfg : Config VK Sig St Ch Pf) (s : Server I VK St Ch Pf Nm) (now : Nat) (i : I)
    (sig : Sig) : Resp St Ch × Server I VK St Ch Pf Nm :=
  match preprocess cfg s.reg i .query sig with
  | (.error e, r) => (.error e, { s with reg := r })
  | (.ok pr, r) =>
    match s.lq.hasLock r cfg.limit now i with
    | (.ok (), q, r') => (.state s.mpc.state s.mpc.challenge, { s with reg := r', lq := q })
    | (.error _, q, r') =>
      match q.queue.pushBackIfMissing pr.level i with
      | some ((_, p), queue) => (.position p, { s with reg := r', lq := { q with queue := queue } })
      | none => (.panic, { s with reg := r', lq := q })

/-- The first step of `Server::update`, server.rs:391-405. -/
def Server.start (cfg : Config VK Sig St Ch Pf) (s : Server I VK St Ch Pf Nm) (now : Nat) (i : I)
    (state : List St) (proof : List Pf) (sig : Sig) : Resp St Ch × Server I VK St Ch Pf Nm :=
  match preprocess cfg s.reg i (.contribute state proof) sig with
  | (.error e, r) => (.error e, { s with reg := r })
  | (.ok _, r) =>
    match s.lq.hasLock r cfg.limit now i with
    | (.ok (), q, r') =>
      (.ok, { s with reg := r', lq := q, started := s.started ++ [(i, state, proof)] })
    | (.error e, q, r') => (.error e, { s with reg := r', lq := q })

/-- The second step of `Server::update`, server.rs:416-424: the state transition and the files. -/
def Server.apply (cfg : Config VK Sig St Ch Pf) (s : Server I VK St Ch Pf Nm) (k : Nat) :
    Resp St Ch × Server I VK St Ch Pf Nm :=
  match s.started[k]? with
  | none => (.none, s)
  | some (i, state, proof) =>
    match s.mpc.update cfg state proof with
    | (.ok round, m) =>
      (.round round, { s with
        mpc := m
        disk := s.disk.writes (m.saveWrites (s.disk.names.getD []))
        started := s.started.eraseIdx k
        applied := s.applied ++ [(i, round)] })
    | (.error e, m) => (.error e, { s with mpc := m, started := s.started.eraseIdx k })

/-- The last step of `Server::update`, server.rs:428-443. -/
def Server.finish (s : Server I VK St Ch Pf Nm) (now k : Nat) :
    Resp St Ch × Server I VK St Ch Pf Nm :=
  match s.applied[k]? with
  | none => (.none, s)
  | some (i, round) =>
    match s.reg.get i with
    | none => (.error .missingParticipant, { s with applied := s.applied.eraseIdx k })
    | some _ =>
      let u := s.lq.updateExpired (s.reg.modify i fun p => { p with contributed := true }) now
      (.round round, { s with
        reg := u.2.2
        lq := u.2.1
        disk := s.disk.write (.registry round u.2.2)
        applied := s.applied.eraseIdx k })

/-- Killing the process and `Server::recover`. -/
def Server.restart (s : Server I VK St Ch Pf Nm) (now : Nat) :
    Resp St Ch × Server I VK St Ch Pf Nm :=
  match s.disk.recover s.mpc.state.length with
  | .error e => (.error e, s)
  | .ok (m, r) =>
    (.ok, { reg := r, lq := { queue := MDeque.empty 2, lock := none, since := now }, mpc := m,
            disk := s.disk, started := [], applied := [] })

/-- One event. -/
def Server.step (cfg : Config VK Sig St Ch Pf) (s : Server I VK St Ch Pf Nm) :
    Event I VK Sig St Pf → Resp St Ch × Server I VK St Ch Pf Nm
  | .query now i sig => s.query cfg now i sig
  | .start now i state proof sig => s.start cfg now i state proof sig
  | .apply k => s.apply cfg k
  | .finish now k => s.finish now k
  | .reload rows => (.ok, { s with reg := (s.reg.loadAppend rows).2 })
  | .restart now => s.restart now

/-- A history of events. -/
def Server.run (cfg : Config VK Sig St Ch Pf) (s : Server I VK St Ch Pf Nm) :
    List (Event I VK Sig St Pf) → Server I VK St Ch Pf Nm
  | [] => s
  | e :: es => (s.step cfg e).2.run cfg es

/-- The responses of a history. -/
def Server.responses (cfg : Config VK Sig St Ch Pf) (s : Server I VK St Ch Pf Nm) :
    List (Event I VK Sig St Pf) → List (Resp St Ch)
  | [] => []
  | e :: es => (s.step cfg e).1 :: (s.step cfg e).2.responses cfg es

end Server

end Verif.Ceremony
