import Verif.Asset.Model
import Verif.Util.Model

/-!
# Transfers, transfer posts and the transfer circuit

Models `manta-accounting/src/transfer/mod.rs`, `transfer/canonical.rs:40-345`, `transfer/sender.rs`,
`transfer/receiver.rs`, the UTXO protocol `transfer/utxo/protocol.rs` and `transfer/utxo/auth.rs`.

Asset ids and values are `Nat`. Everything cryptographic is a parameter (`Crypto`). The const generics
`SOURCES, SENDERS, RECEIVERS, SINKS` are the lengths of the four lists of a transfer.
Random numbers are explicit arguments. The caches inside `AuthorizationContext`
(protocol.rs:2198-2203) hold values of pure functions and are left out.
-/

namespace Verif.Transfer

open Verif.Asset (Asset)

/-- Carrier types of the configuration (transfer/mod.rs:104-330, protocol.rs:180-420). -/
structure Ty where
  /-- scalars: spending keys, viewing keys, randomizers -/
  Scal : Type
  /-- group elements: proof authorization keys, receiving keys, authorization keys -/
  Grp : Type
  /-- accumulator output (Merkle root) and witness (Merkle path) -/
  Root : Type
  Wit : Type
  /-- randomness of UTXO commitments, of encryptions -/
  Rand : Type
  ERand : Type
  /-- UTXO commitment, accumulator item, nullifier commitment -/
  UCm : Type
  Item : Type
  NCm : Type
  /-- outgoing note, incoming note, light incoming note, address partition -/
  ONote : Type
  INote : Type
  LNote : Type
  Part : Type
  /-- proofs, public input elements, signatures -/
  Proof : Type
  In : Type
  Sig : Type
  [dGrp : DecidableEq Grp]
  [dRoot : DecidableEq Root]
  [dUCm : DecidableEq UCm]
  [dNCm : DecidableEq NCm]
  [dONote : DecidableEq ONote]
  [dINote : DecidableEq INote]
  [dLNote : DecidableEq LNote]
  [dPart : DecidableEq Part]

attribute [instance] Ty.dGrp Ty.dRoot Ty.dUCm Ty.dNCm Ty.dONote Ty.dINote Ty.dLNote Ty.dPart

variable {T : Ty}

/-- `Utxo`, protocol.rs:1799-1813. Its equality is equality of all three fields (1842-1852). -/
structure Utxo (T : Ty) where
  transparent : Bool
  pubAsset : Asset
  cm : T.UCm
deriving DecidableEq

/-- `FullNullifier`, protocol.rs:2762-2771. -/
structure Nul (T : Ty) where
  cm : T.NCm
  note : T.ONote

/-- `Independence::is_independent` negated (protocol.rs:2859-2869), which is also `PartialEq::eq`
(2806-2814): only the commitments are compared. -/
def Nul.related (a b : Nul T) : Bool := decide (a.cm = b.cm)

/-- `FullIncomingNote`, protocol.rs:1692-1704. -/
structure FullNote (T : Ty) where
  part : T.Part
  inote : T.INote
  lnote : T.LNote
deriving DecidableEq

/-- `IncomingPlaintext`. -/
structure Plain (T : Ty) where
  rand : T.Rand
  asset : Asset

/-- `Sender` with its `SpendSecret`, sender.rs:300-318 and protocol.rs:2500-2530. The membership proof is
the witness and the accumulator output. -/
structure Sender (T : Ty) where
  orand : T.ERand
  plain : Plain T
  utxo : Utxo T
  wit : T.Wit
  root : T.Root
  nul : Nul T

/-- `Receiver` with its `MintSecret`, receiver.rs:50-70 and protocol.rs:1985-2005. -/
structure Receiver (T : Ty) where
  rk : T.Grp
  irand : T.ERand
  plain : Plain T
  utxo : Utxo T
  note : FullNote T

/-- `Authorization`: context and proof, auth.rs:200-213, protocol.rs:2198, 2335-2342. -/
structure Auth (T : Ty) where
  pak : T.Grp
  rand : T.Scal
  rpak : T.Grp

/-- `Field::get` / `Field::into` of an authorization, auth.rs:257-275, protocol.rs:2360-2378. -/
def Auth.key (a : Auth T) : T.Grp := a.rpak

/-- `Transfer`, mod.rs:500-527. -/
structure Transfer (T : Ty) where
  auth : Option (Auth T)
  assetId : Option Nat
  sources : List Nat
  senders : List (Sender T)
  receivers : List (Receiver T)
  sinks : List Nat

/-! ## Shapes -/

/-- mod.rs:81-83. -/
def hasPublicParticipants (sources sinks : Nat) : Bool := decide (sources + sinks > 0)

/-- mod.rs:93-95. -/
def requiresAuthorization (senders : Nat) : Bool := decide (senders > 0)

/-- mod.rs:99-101. -/
def hasSinks (sinks : Nat) : Bool := decide (sinks > 0)

/-- `check_shape`, mod.rs:551-611; `false` is the failed assertion. -/
def checkShape (hasAuth hasId : Bool) (sources senders receivers sinks : Nat) : Bool :=
  decide (sources + senders ≠ 0) && decide (receivers + sinks ≠ 0) &&
  (if requiresAuthorization senders then hasAuth else !hasAuth) &&
  (if hasPublicParticipants sources sinks then hasId else !hasId)

/-- `Transfer::new`, mod.rs:535-548; `none` is a panic. -/
def Transfer.new (auth : Option (Auth T)) (assetId : Option Nat) (sources : List Nat)
    (senders : List (Sender T)) (receivers : List (Receiver T)) (sinks : List Nat) :
    Option (Transfer T) :=
  if checkShape auth.isSome assetId.isSome sources.length senders.length receivers.length sinks.length
  then some ⟨auth, assetId, sources, senders, receivers, sinks⟩ else none

/-- `TransferShape`, canonical.rs:226-236. -/
inductive Shape where
  | toPrivate
  | privateTransfer
  | toPublic
deriving DecidableEq, Repr

/-- `TransferShape::select`, canonical.rs:241-305. The constants are written through the same functions. -/
def Shape.select (hasAuth hasId : Bool) (sources senders receivers sinks : Nat) : Option Shape :=
  if hasAuth = requiresAuthorization 0 ∧ hasId = hasPublicParticipants 1 0 ∧
      sources = 1 ∧ senders = 0 ∧ receivers = 1 ∧ sinks = 0 then some .toPrivate
  else if hasAuth = requiresAuthorization 2 ∧ hasId = hasPublicParticipants 0 0 ∧
      sources = 0 ∧ senders = 2 ∧ receivers = 2 ∧ sinks = 0 then some .privateTransfer
  else if hasAuth = requiresAuthorization 2 ∧ hasId = hasPublicParticipants 0 (0 + 1) ∧
      sources = 0 ∧ senders = 2 ∧ receivers = 2 - 1 ∧ sinks = 0 + 1 then some .toPublic
  else none

/-! ## Posts -/

/-- `SenderPost`, sender.rs:625-636. -/
structure SenderPost (T : Ty) where
  root : T.Root
  nul : Nul T

/-- `ReceiverPost`, receiver.rs:326-337. -/
structure ReceiverPost (T : Ty) where
  utxo : Utxo T
  note : FullNote T

/-- `TransferPostBody`, mod.rs:1466-1487. -/
structure Body (T : Ty) where
  assetId : Option Nat
  sources : List Nat
  senders : List (SenderPost T)
  receivers : List (ReceiverPost T)
  sinks : List Nat
  proof : T.Proof

/-- `AuthorizationSignature`, auth.rs:340-350. -/
structure AuthSig (T : Ty) where
  key : T.Grp
  sig : T.Sig

/-- `TransferPost`, mod.rs:1671-1684. -/
structure Post (T : Ty) where
  sig : Option (AuthSig T)
  body : Body T
  sinkAccounts : List Nat

/-- `Sender::into_post`, sender.rs:382-384. -/
def Sender.intoPost (s : Sender T) : SenderPost T := ⟨s.root, s.nul⟩

/-- `Receiver::into_post`, receiver.rs:134-136. -/
def Receiver.intoPost (r : Receiver T) : ReceiverPost T := ⟨r.utxo, r.note⟩

/-- `TransferPostBody::build`, mod.rs:1495-1520. -/
def Body.build (proof : T.Proof) (t : Transfer T) : Body T :=
  ⟨t.assetId, t.sources, t.senders.map Sender.intoPost, t.receivers.map Receiver.intoPost, t.sinks, proof⟩

/-- `TransferShape::from_post`, canonical.rs:308-321. -/
def Shape.fromPost (p : Post T) : Option Shape :=
  Shape.select p.sig.isSome p.body.assetId.isSome p.body.sources.length p.body.senders.length
    p.body.receivers.length p.body.sinks.length

/-- The cryptographic functions used by transfers. -/
structure Crypto (T : Ty) where
  /-- generator and scalar multiplication of the group -/
  gen : T.Grp
  smul : T.Grp → T.Scal → T.Grp
  /-- product of scalars (`Ring` on `C::Scalar`) -/
  mul : T.Scal → T.Scal → T.Scal
  /-- viewing key derivation -/
  viewKey : T.Grp → T.Scal
  /-- `utxo_commitment_scheme.commit(randomness, id, value, receiving_key)` -/
  commit : T.Rand → Nat → Nat → T.Grp → T.UCm
  /-- `item_hash` -/
  item : Utxo T → T.Item
  /-- `nullifier_commitment_scheme.commit(proof_authorization_key, item)` -/
  nullCommit : T.Grp → T.Item → T.NCm
  /-- incoming note: hybrid encryption of the plaintext to the receiving key -/
  encIn : T.Grp → T.ERand → Plain T → T.INote
  /-- membership verification of the accumulator model -/
  member : T.Item → T.Wit → T.Root → Bool
  /-- signatures over body and sink accounts (`message.to_vec()`; encodings are C53) -/
  sign : T.Scal → Body T → List Nat → T.Sig
  verifySig : T.Grp → Body T → List Nat → T.Sig → Bool
  /-- `ProofSystem::prove` over the known constraints; `none` is an error -/
  prove : Transfer T → Option T.Proof

/-- `VerifyAuthorization::verify`, protocol.rs:1041-1059. -/
def Auth.verify (c : Crypto T) (a : Auth T) (sk : T.Scal) : Bool :=
  decide (a.pak = c.smul c.gen sk) && decide (a.rpak = c.smul a.pak a.rand)

/-- `auth::sign` with `AuthorizationSignature::generate`, auth.rs:296-320, 366-390, and
`derive_signing_key`, protocol.rs:1067-1076. -/
def authSign (c : Crypto T) (sk : T.Scal) (a : Auth T) (b : Body T) (accounts : List Nat) :
    Option (AuthSig T) :=
  if a.verify c sk then some ⟨a.key, c.sign (c.mul sk a.rand) b accounts⟩ else none

/-- Result of `into_post`. -/
inductive PostResult (T : Ty) where
  /-- `Err`: the proof could not be generated -/
  | proofError
  /-- `Ok(None)` -/
  | refused
  | made (p : Post T)

/-- `Transfer::into_post`, mod.rs:739-789. -/
def Transfer.intoPost (c : Crypto T) (t : Transfer T) (sk : Option T.Scal) (accounts : List Nat) :
    PostResult T :=
  match requiresAuthorization t.senders.length, t.auth, sk with
  | true, some a, some k =>
    match c.prove t with
    | none => .proofError
    | some π =>
      let body := Body.build π t
      match authSign c k a body accounts with
      | some s => .made (if hasSinks t.sinks.length then ⟨some s, body, accounts⟩ else ⟨some s, body, []⟩)
      | none => .refused
  | false, none, none =>
    match c.prove t with
    | none => .proofError
    | some π => .made ⟨none, Body.build π t, []⟩
  | _, _, _ => .refused

/-- Outcome of the signature check, `InvalidAuthorizationSignature` mod.rs:1177-1190. -/
inductive SigError where
  | badSignature
  | invalidShape
  | missingSignature
deriving DecidableEq, Repr

/-- `has_valid_authorization_signature`, mod.rs:1767-1788. -/
def Post.checkSig (c : Crypto T) (p : Post T) : Except SigError Unit :=
  match p.sig, requiresAuthorization p.body.senders.length with
  | some s, true => if c.verifySig s.key p.body p.sinkAccounts s.sig then .ok () else .error .badSignature
  | some _, false => .error .invalidShape
  | none, true => .error .missingSignature
  | none, false => .ok ()

/-! ## Public inputs -/

/-- How single values extend the public input (`HasInput` implementations of the proof system). The
nullifier contributes its commitment only (protocol.rs:2889-2898), the note its incoming note only
(1744-1753). -/
structure InputEnc (T : Ty) where
  grp : T.Grp → List T.In
  id : Nat → List T.In
  value : Nat → List T.In
  root : T.Root → List T.In
  ncm : T.NCm → List T.In
  utxo : Utxo T → List T.In
  inote : T.INote → List T.In

variable (e : InputEnc T)

/-- `Input for Option<_>` fields: `if let Some(x)`. -/
def optIn (f : α → List β) : Option α → List β
  | some x => f x
  | none => []

/-- `Input for Sender` / `SenderPost`, sender.rs:387-397, 680-690. -/
def inSender (root : T.Root) (n : Nul T) : List T.In := e.root root ++ e.ncm n.cm

/-- `Input for Receiver` / `ReceiverPost`, receiver.rs:139-149, 385-395. -/
def inReceiver (u : Utxo T) (n : FullNote T) : List T.In := e.utxo u ++ e.inote n.inote

/-- `Transfer::generate_proof_input`, mod.rs:652-658, 792-819. -/
def Transfer.input (t : Transfer T) : List T.In :=
  optIn (fun a => e.grp (Auth.key a)) t.auth ++ optIn e.id t.assetId ++ t.sources.flatMap e.value ++
  t.senders.flatMap (fun s => inSender e s.root s.nul) ++
  t.receivers.flatMap (fun r => inReceiver e r.utxo r.note) ++ t.sinks.flatMap e.value

/-- `Input for TransferPostBody`, mod.rs:1571-1593. -/
def Body.input (b : Body T) : List T.In :=
  optIn e.id b.assetId ++ b.sources.flatMap e.value ++
  b.senders.flatMap (fun s => inSender e s.root s.nul) ++
  b.receivers.flatMap (fun r => inReceiver e r.utxo r.note) ++ b.sinks.flatMap e.value

/-- `TransferPost::generate_proof_input`, mod.rs:1726-1731, 1935-1946. -/
def Post.input (p : Post T) : List T.In :=
  optIn (fun s => e.grp (AuthSig.key s)) p.sig ++ Body.input e p.body

/-- `TransferPostingKeyRef::generate_proof_input`, mod.rs:2160-2205. Source and sink posting keys are pairs
of account and value (`AsRef` gives the value). -/
def keyRefInput (authKey : Option T.Grp) (assetId : Option Nat) (sources : List (Nat × Nat))
    (senders : List (SenderPost T)) (receivers : List (ReceiverPost T)) (sinks : List (Nat × Nat)) :
    List T.In :=
  optIn e.grp authKey ++ optIn e.id assetId ++ sources.flatMap (fun s => e.value s.2) ++
  senders.flatMap (fun s => inSender e s.root s.nul) ++
  receivers.flatMap (fun r => inReceiver e r.utxo r.note) ++ sinks.flatMap (fun s => e.value s.2)

/-! ## Circuit

Field elements are represented by their canonical natural number; `p` is the modulus. `Bool` results
collect the assertions: `true` when all are satisfied by the assignment. -/

/-- `assert_within_range` for `U128`, eclair/num.rs:118-121, arkworks/constraint/mod.rs:308-326. -/
def inRange (v : Nat) : Bool := decide (v < 2 ^ 128)

/-- `Add for UnsignedInteger`, eclair/num.rs:208-219: field addition, then the range assertion. -/
def addU (p l r : Nat) : Nat × Bool := ((l + r) % p, inRange ((l + r) % p))

/-- `value_sum`, mod.rs:976-984: `reduce`; `none` is the failing `unwrap`. -/
def valueSum (p : Nat) : List Nat → Option (Nat × Bool)
  | [] => none
  | v :: vs => some (vs.foldl (fun acc r => ((addU p acc.1 r).1, acc.2 && (addU p acc.1 r).2)) (v, true))

/-- `Asset::is_empty`, asset.rs:112-122. -/
def isEmptyAsset (a : Asset) : Bool := decide (a.id = 0) && decide (a.value = 0)

/-- Conditional selection of the asset, protocol.rs:2592-2597, 2087-2092. -/
def selectAsset (u : Utxo T) (pl : Plain T) : Asset := if u.transparent then u.pubAsset else pl.asset

/-- `AuthorizationContext::receiving_key`, protocol.rs:2253-2270. -/
def receivingKey (c : Crypto T) (pak : T.Grp) : T.Grp := c.smul c.gen (c.viewKey pak)

/-- `Sender::well_formed_asset`, sender.rs:347-364, with `SpendSecret::well_formed_asset`,
protocol.rs:2578-2620. -/
def senderWF (c : Crypto T) (pak : T.Grp) (s : Sender T) : Asset × Bool :=
  let asset := selectAsset s.utxo s.plain
  (asset,
    decide (s.utxo.transparent = isEmptyAsset s.plain.asset) &&
    decide (s.utxo.cm = c.commit s.plain.rand s.plain.asset.id s.plain.asset.value (receivingKey c pak)) &&
    (decide (asset.value = 0) || c.member (c.item s.utxo) s.wit s.root) &&
    decide (s.nul.cm = c.nullCommit pak (c.item s.utxo)))

/-- `Receiver::well_formed_asset` with `MintSecret::well_formed_asset`, protocol.rs:2073-2098. -/
def receiverWF (c : Crypto T) (r : Receiver T) : Asset × Bool :=
  (selectAsset r.utxo r.plain,
    decide (r.utxo.transparent = isEmptyAsset r.plain.asset) &&
    decide (r.utxo.cm = c.commit r.plain.rand r.plain.asset.id r.plain.asset.value r.rk) &&
    decide (r.note.inote = c.encIn r.rk r.irand r.plain))

/-- Allocation of the variables, mod.rs:987-1046: every `U128` is range checked when allocated
(eclair/num.rs:376-400). -/
def allocOk (t : Transfer T) : Bool :=
  t.sources.all inRange && t.sinks.all inRange &&
  t.senders.all (fun s => inRange s.plain.asset.value && inRange s.utxo.pubAsset.value) &&
  t.receivers.all (fun r => inRange r.plain.asset.value && inRange r.utxo.pubAsset.value)

/-- `assert_all_eq_to_base`, eclair/bool.rs:67-76. -/
def allEqTo (b : Nat) (l : List Nat) : Bool := l.all fun x => decide (b = x)

/-- `assert_all_eq`, eclair/bool.rs:80-89. -/
def allEq : List Nat → Bool
  | [] => true
  | x :: xs => allEqTo x xs

/-- `input_sum`, mod.rs:919-950: sum, ids of the senders, assertions. -/
def inputSum (c : Crypto T) (p : Nat) (t : Transfer T) : Option (Nat × List Nat × Bool) :=
  match t.auth with
  | some a =>
    let wf := t.senders.map (senderWF c a.pak)
    match valueSum p (wf.map (fun x => x.1.value) ++ t.sources) with
    | none => none
    | some (s, ok) =>
      some (s, wf.map (fun x => x.1.id), decide (c.smul a.pak a.rand = a.rpak) && wf.all (fun x => x.2) && ok)
  | none =>
    match valueSum p t.sources with
    | none => none
    | some (s, ok) => some (s, [], ok)

/-- `output_sum`, mod.rs:953-972. -/
def outputSum (c : Crypto T) (p : Nat) (t : Transfer T) : Option (Nat × List Nat × Bool) :=
  let wf := t.receivers.map (receiverWF c)
  match valueSum p (wf.map (fun x => x.1.value) ++ t.sinks) with
  | none => none
  | some (s, ok) => some (s, wf.map (fun x => x.1.id), wf.all (fun x => x.2) && ok)

/-- `build_validity_constraints`, mod.rs:889-915, on an assignment: `some true` when satisfied, `none` is a
panic (a side without participants). -/
def circuit (c : Crypto T) (p : Nat) (t : Transfer T) : Option Bool :=
  match inputSum c p t, outputSum c p t with
  | some (i, ids, ok), some (o, ids', ok') =>
    some (allocOk t && ok && ok' && decide (i = o) &&
      (match t.assetId with
       | some a => allEqTo a (ids ++ ids')
       | none => allEq (ids ++ ids')))
  | _, _ => none

end Verif.Transfer
