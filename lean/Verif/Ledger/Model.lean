import Verif.Transfer.Model
import Verif.Util.Props
import Verif.Asset.Lemmas

/-!
# The simulation ledger

Models `manta-pay/src/simulation/ledger/mod.rs:121-700` together with the validation of posts,
`manta-accounting/src/transfer/mod.rs:1790-1912`, and posting keys, `mod.rs:2045-2092`.

* `accounts` are association lists (`HashMap`), balances are `Nat` below `2^128`.
* The 256 shards and trees are functions from the `u8` tree index (`shards` is filled for every index when the
  ledger is built, line 167, so the lookup in `register` never fails).
* A tree of the forest is the list of its leaves; its root is a parameter, pushing to a full tree has no
  effect (C03).
* Looking up a nullifier in the `IndexSet` is a parameter constrained by `Lookup`, because the key type does
  not satisfy the contract between hashing and equality.
* A panic leaves the ledger as it was at that moment: the lock around it (`tokio::sync::RwLock`) is not
  poisoned.
-/

namespace Verif.Ledger

open Verif.Asset (Asset mget merase)
open Verif.Transfer

/-- Tree index, `u8` (manta-pay/src/config/utxo.rs:1323-1337). -/
abbrev Ix := Fin 256

/-- What the ledger uses from outside. -/
structure Env (T : Ty) where
  crypto : Crypto T
  enc : InputEnc T
  /-- `MerkleTreeConfiguration::tree_index` -/
  treeIndex : T.Item → Ix
  /-- root of the tree with these leaves (C01) -/
  root : List T.Item → T.Root
  /-- `UtxoAccumulatorOutput::default()` -/
  defaultRoot : T.Root
  /-- leaves a tree can hold -/
  capacity : Nat
  /-- `ProofSystem::verify`: `none` is `Err`, otherwise the boolean it returns -/
  verifyProof : Shape → List T.In → T.Proof → Option Bool
  /-- `IndexSet::contains` for nullifiers -/
  contains : List (Nul T) → Nul T → Bool
  /-- whether arithmetic wraps (release) or panics (debug) on overflow -/
  wraps : Bool

/-- Contract of the `IndexSet` lookup: an entry with the same hash that compares equal is found, and only an
entry that compares equal is found. The hash covers commitment and outgoing note (protocol.rs:2750-2761,
derived `Hash`), equality only the commitment. -/
structure Lookup {T : Ty} (hash : Nul T → Nat) (contains : List (Nul T) → Nul T → Bool) : Prop where
  found : ∀ l n m, m ∈ l → hash m = hash n → m.cm = n.cm → contains l n = true
  sound : ∀ l n, contains l n = true → ∃ m ∈ l, m.cm = n.cm

/-- `HashMap::insert`, and overwriting through `get_mut`; the order of entries has no meaning. -/
def mput {W : Type} (m : List (Nat × W)) (k : Nat) (w : W) : List (Nat × W) := (k, w) :: merase m k

/-- `Ledger`, mod.rs:121-152. -/
structure State (T : Ty) where
  nullifiers : List (Nul T)
  utxos : List (Utxo T)
  shards : Ix → List (Utxo T × FullNote T)
  forest : Ix → List T.Item
  accounts : List (Nat × List (Nat × Nat))

variable {T : Ty}

/-- `Ledger::new`, mod.rs:157-175. -/
def State.new : State T := ⟨[], [], fun _ => [], fun _ => [], []⟩

/-- `set_public_balance`, mod.rs:195-199; `none` is the failed assertion. -/
def setBalance (s : State T) (account id value : Nat) : Option (State T) :=
  if id = 0 then none else
    some {s with accounts := mput s.accounts account (mput ((mget s.accounts account).getD []) id value)}

/-- `has_matching_utxo_accumulator_output`, mod.rs:489-502. -/
def matching (env : Env T) (s : State T) (r : T.Root) : Bool :=
  decide (r = env.defaultRoot) || (List.finRange 256).any fun i => decide (env.root (s.forest i) = r)

/-- One entry of `check_source_accounts`, mod.rs:559-600. -/
def sourceOk (s : State T) (id : Nat) (x : Nat × Nat) : Bool :=
  match mget s.accounts x.1 with
  | none => false
  | some m =>
    match mget m id with
    | none => false
    | some b => decide (b ≥ x.2)

/-- One entry of `check_sink_accounts`, mod.rs:602-624. -/
def sinkOk (s : State T) (x : Nat × Nat) : Bool := (mget s.accounts x.1).isSome

/-- Errors of validation, transfer/mod.rs:1290-1345. -/
inductive PostError where
  | signature (e : SigError)
  | invalidShape
  | sourceAccount
  | sinkAccount
  | duplicateSpend
  | duplicateMint
  | invalidRoot
  | spent
  | registered
  | invalidProof
deriving DecidableEq, Repr

/-- `check_public_participants`, transfer/mod.rs:1793-1832. -/
def checkPublic (s : State T) (b : Body T) (sourceAcc sinkAcc : List Nat) :
    Except PostError (List (Nat × Nat) × List (Nat × Nat)) :=
  if hasPublicParticipants b.sources.length b.sinks.length ≠ b.assetId.isSome then .error .invalidShape
  else if sourceAcc.length ≠ b.sources.length then .error .invalidShape
  else if sinkAcc.length ≠ b.sinks.length then .error .invalidShape
  else
    let so := sourceAcc.zip b.sources
    let si := sinkAcc.zip b.sinks
    -- the id is present when there is a source or sink
    let id := b.assetId.getD 0
    if !(so.all (sourceOk s id)) then .error .sourceAccount
    else if !(si.all (sinkOk s)) then .error .sinkAccount
    else .ok (so, si)

/-- First error of `SenderPost::validate` over the senders, sender.rs:658-671. -/
def checkSenders (env : Env T) (s : State T) : List (SenderPost T) → Except PostError Unit
  | [] => .ok ()
  | p :: ps =>
    if !(matching env s p.root) then .error .invalidRoot
    else if env.contains s.nullifiers p.nul then .error .spent
    else checkSenders env s ps

/-- `ReceiverPost::validate` over the receivers, receiver.rs:354-365, mod.rs:523-530. -/
def checkReceivers (s : State T) (l : List (ReceiverPost T)) : Except PostError Unit :=
  if l.any (fun p => decide (p.utxo ∈ s.utxos)) then .error .registered else .ok ()

/-- `is_valid`, mod.rs:626-651. The boolean returned by the verifier is dropped. -/
def isValid (env : Env T) (authKey : Option T.Grp) (b : Body T) (so si : List (Nat × Nat)) :
    Except PostError Unit :=
  match Shape.select authKey.isSome b.assetId.isSome so.length b.senders.length b.receivers.length si.length with
  | none => .error .invalidShape
  | some shape =>
    match env.verifyProof shape (keyRefInput env.enc authKey b.assetId so b.senders b.receivers si) b.proof with
    | none => .error .invalidProof
    | some _ => .ok ()

/-- `TransferPostingKey`, transfer/mod.rs:2010-2050. -/
structure PostingKey (T : Ty) where
  assetId : Option Nat
  sources : List (Nat × Nat)
  senders : List (SenderPost T)
  receivers : List (ReceiverPost T)
  sinks : List (Nat × Nat)

/-- `TransferPost::validate`, transfer/mod.rs:1837-1896. -/
def validate (env : Env T) (s : State T) (p : Post T) (sourceAcc sinkAcc : List Nat) :
    Except PostError (PostingKey T) :=
  match p.checkSig env.crypto with
  | .error e => .error (.signature e)
  | .ok () =>
    match checkPublic s p.body sourceAcc sinkAcc with
    | .error e => .error e
    | .ok (so, si) =>
      if !(Verif.Util.allUnequal (fun a b => Nul.related a.nul b.nul) p.body.senders) then
        .error .duplicateSpend
      else if !(Verif.Util.allUnequal (fun a b => decide (a.utxo = b.utxo)) p.body.receivers) then
        .error .duplicateMint
      else
        match checkSenders env s p.body.senders with
        | .error e => .error e
        | .ok () =>
          match checkReceivers s p.body.receivers with
          | .error e => .error e
          | .ok () =>
            match isValid env (p.sig.map AuthSig.key) p.body so si with
            | .error e => .error e
            | .ok () => .ok ⟨p.body.assetId, so, p.body.senders, p.body.receivers, si⟩

/-- `spend`, mod.rs:505-515: `IndexSet::insert` appends when the lookup finds nothing. -/
def spend (env : Env T) (s : State T) (p : SenderPost T) : State T :=
  if env.contains s.nullifiers p.nul then s else {s with nullifiers := s.nullifiers ++ [p.nul]}

/-- Update of one index of a shard or forest function. -/
def upd {α : Type} (f : Ix → α) (i : Ix) (x : α) : Ix → α := fun j => if j = i then x else f j

/-- `register`, mod.rs:532-548: shard, UTXO set and forest; a full tree drops the leaf silently. -/
def register (env : Env T) (s : State T) (p : ReceiverPost T) : State T :=
  let item := env.crypto.item p.utxo
  let i := env.treeIndex item
  { s with
    shards := if (p.utxo, p.note) ∈ s.shards i then s.shards
      else upd s.shards i (s.shards i ++ [(p.utxo, p.note)])
    utxos := if p.utxo ∈ s.utxos then s.utxos else s.utxos ++ [p.utxo]
    forest := if (s.forest i).length < env.capacity then upd s.forest i (s.forest i ++ [item])
      else s.forest }

/-- Outcome of applying a posting key. -/
inductive Applied where
  | ok
  | err
  | panic
deriving DecidableEq, Repr

/-- Outcome with the account table. -/
abbrev AccRes := Applied × List (Nat × List (Nat × Nat))

/-- Result of a subtraction on `u128`: `none` is the panic. -/
def sub128 (wraps : Bool) (a b : Nat) : Option Nat :=
  if b ≤ a then some (a - b) else if wraps then some (a + 2 ^ 128 - b) else none

/-- Result of an addition on `u128`. -/
def add128 (wraps : Bool) (a b : Nat) : Option Nat :=
  if a + b < 2 ^ 128 then some (a + b) else if wraps then some ((a + b) % 2 ^ 128) else none

/-- First loop of `update_public_balances`, mod.rs:663-682. -/
def withdrawAll (wraps : Bool) (id : Nat) (accounts : List (Nat × List (Nat × Nat))) :
    List (Nat × Nat) → AccRes
  | [] => (.ok, accounts)
  | (a, w) :: rest =>
    match mget accounts a with
    | none => (.err, accounts)
    | some m =>
      match mget m id with
      | none => (.err, accounts)
      | some b =>
        match sub128 wraps b w with
        | none => (.panic, accounts)
        | some b' => withdrawAll wraps id (mput accounts a (mput m id b')) rest

/-- Second loop, mod.rs:683-696. `entry(..).or_default()` is inserted before the addition. -/
def depositAll (wraps : Bool) (id : Nat) (accounts : List (Nat × List (Nat × Nat))) :
    List (Nat × Nat) → AccRes
  | [] => (.ok, accounts)
  | (a, d) :: rest =>
    match mget accounts a with
    | none => (.err, accounts)
    | some m =>
      match add128 wraps ((mget m id).getD 0) d with
      | none => (.panic, mput accounts a (mput m id ((mget m id).getD 0)))
      | some b' => depositAll wraps id (mput accounts a (mput m id b')) rest

/-- `update_public_balances`, mod.rs:654-700. -/
def updateBalances (wraps : Bool) (id : Nat) (accounts : List (Nat × List (Nat × Nat)))
    (so si : List (Nat × Nat)) : AccRes :=
  match withdrawAll wraps id accounts so with
  | (.ok, acc) => depositAll wraps id acc si
  | r => r

/-- `TransferPostingKey::post`, transfer/mod.rs:2066-2090, `post_all` sender.rs:815-830. -/
def applyKey (env : Env T) (s : State T) (k : PostingKey T) : Applied × State T :=
  let s1 := k.senders.foldl (spend env) s
  let s2 := k.receivers.foldl (register env) s1
  match k.assetId with
  | none => (.ok, s2)
  | some id =>
    let (r, acc) := updateBalances env.wraps id s2.accounts k.sources k.sinks
    (r, {s2 with accounts := acc})

/-- Outcome of a push: `true`, `false`, or a panic. -/
inductive Outcome where
  | accepted
  | rejected
  | panicked
deriving DecidableEq, Repr

/-- The accounts that `push` attaches to a post of this shape, mod.rs:231-236. -/
def participants (shape : Shape) (account : Nat) : List Nat × List Nat :=
  match shape with
  | .toPrivate => ([account], [])
  | .privateTransfer => ([], [])
  | .toPublic => ([], [account])

/-- One iteration of the loop in `push`, mod.rs:230-243. The `unwrap` of a failed post is a panic. -/
def submit (env : Env T) (s : State T) (account : Nat) (p : Post T) : Outcome × State T :=
  match Shape.fromPost p with
  | none => (.rejected, s)
  | some shape =>
    match validate env s p (participants shape account).1 (participants shape account).2 with
    | .error _ => (.rejected, s)
    | .ok k =>
      match applyKey env s k with
      | (.ok, s') => (.accepted, s')
      | (_, s') => (.panicked, s')

/-- `Ledger::push`, mod.rs:229-246. -/
def push (env : Env T) (s : State T) (account : Nat) : List (Post T) → Outcome × State T
  | [] => (.accepted, s)
  | p :: ps =>
    match submit env s account p with
    | (.accepted, s') => push env s' account ps
    | r => r

/-! ## Reading -/

/-- `Checkpoint`, manta-pay/src/config/utxo.rs:2024-2040. -/
structure Checkpoint where
  receiver : Ix → Nat
  sender : Nat

/-- `Ledger::pull`, mod.rs:202-226. -/
def pull (s : State T) (c : Checkpoint) : List (Utxo T × FullNote T) × List (Nul T) :=
  ((List.finRange 256).flatMap fun i => (s.shards i).drop (c.receiver i), s.nullifiers.drop c.sender)

/-- UTXOs of `Ledger::initial_read`, mod.rs:268-276: the loop enumerates `0..256` and uses the element as
the first index. -/
def initialRead (s : State T) : List (Utxo T) :=
  (List.finRange 256).flatMap fun i => ((s.shards i).drop i.val).map Prod.fst

end Verif.Ledger
