import Verif.Circuit.Builder
import Verif.Poseidon.Perm
import Verif.Cipher.Model
import Verif.Merkle.Model
import Verif.Transfer.Model

/-!
# The transfer circuit as a constraint system

The allocation of the variables of a transfer (transfer/mod.rs:987-1046) and `build_validity_constraints`
(transfer/mod.rs:889-984) with everything they call, down to the single constraints: the UTXO protocol
(transfer/utxo/protocol.rs), its configuration (manta-pay/src/config/utxo.rs), Merkle paths (merkle_tree/path.rs:930-1173),
Poseidon (manta-pay/src/crypto/poseidon/{mod,hash,arkworks,encryption}.rs) and the duplex sponge
(manta-crypto/src/permutation/{sponge,duplex}.rs) for the compiler `R1CS`.

Two gadgets of ark-r1cs-std are not opened up: the allocation of a curve point and the multiplication of a point by a
scalar. Each is one constraint that states what it enforces. Simplification: constants are linear combinations like all
others, so an operation on constants only, which ark folds, allocates a variable here.
-/

namespace Verif.Circuit

open Verif.Gadget
open Verif.Asset (Asset)
open Verif.Transfer (Ty Utxo Nul FullNote Plain Sender Receiver Auth Transfer Crypto InputEnc)

/-! ## The native side -/

/-- The embedded curve in affine coordinates over the constraint field, with the order `r` of the prime order
subgroup. -/
structure Curve (p r : Nat) where
  E : Type
  [grp : AddCommGroup E]
  [dec : DecidableEq E]
  x : E → ZMod p
  y : E → ZMod p
  inj : ∀ g h, x g = x h → y g = y h → g = h

attribute [instance] Curve.grp Curve.dec

/-- `Hasher`, poseidon/hash.rs:60-85. `tag` is the stored domain tag, `ownTag` the one that `T::domain_tag()` returns,
`expo` the `SBOX_EXPONENT`. -/
structure Hasher (p : Nat) where
  c : Poseidon.Consts
  perm : Poseidon.Perm (ZMod p)
  expo : Nat
  tag : ZMod p
  ownTag : ZMod p

/-- The parameters: generator, hashers (config/utxo.rs:350-420, 480-560, 1130-1275, 1440-1510), the permutation and
initial state of the incoming note encryption, and the number of inner digests in a Merkle path. -/
structure Params {p r : Nat} (C : Curve p r) where
  ark : Ark p
  gen : C.E
  vk : Hasher p
  cm : Hasher p
  item : Hasher p
  nul : Hasher p
  node : Hasher p
  encC : Poseidon.Consts
  encPerm : Poseidon.Perm (ZMod p)
  encExpo : Nat
  encInit : List (ZMod p)
  h : Nat

/-- The types of a transfer that the circuit does not see. -/
structure Rest where
  ONote : Type
  LNote : Type
  Part : Type
  Proof : Type
  Sig : Type
  [dONote : DecidableEq ONote]
  [dLNote : DecidableEq LNote]
  [dPart : DecidableEq Part]
  [iONote : Inhabited ONote]
  [iLNote : Inhabited LNote]
  [iPart : Inhabited Part]

attribute [instance] Rest.dONote Rest.dLNote Rest.dPart Rest.iONote Rest.iLNote Rest.iPart

variable {p r : Nat}

/-- The types of manta-pay/src/config/utxo.rs. An incoming note is the ephemeral key, the tag and the blocks. -/
@[reducible] def ty (C : Curve p r) (R : Rest) : Ty where
  Scal := ZMod r
  Grp := C.E
  Root := ZMod p
  Wit := Merkle.Path (ZMod p) (ZMod p)
  Rand := ZMod p
  ERand := ZMod r
  UCm := ZMod p
  Item := ZMod p
  NCm := ZMod p
  ONote := R.ONote
  INote := C.E × ZMod p × List (List (ZMod p))
  LNote := R.LNote
  Part := R.Part
  Proof := R.Proof
  In := ZMod p
  Sig := R.Sig

/-- `hash` of a hasher outside of circuits, hash.rs:150-152. -/
def Hasher.run [Fact p.Prime] (h : Hasher p) (xs : List (ZMod p)) : Option (ZMod p) :=
  Poseidon.hash h.c (fun x => x ^ h.expo) h.perm h.tag xs

/-- The same with a value in place of a panic, which does not happen for the right number of inputs (C84). -/
def Hasher.get [Fact p.Prime] (h : Hasher p) (xs : List (ZMod p)) : ZMod p := (h.run xs).getD 0

variable {C : Curve p r}

/-- The permutation of the incoming note encryption. -/
def Params.permute [Fact p.Prime] (P : Params C) (xs : List (ZMod p)) : Option (List (ZMod p)) :=
  Poseidon.permute P.encC (fun x => x ^ P.encExpo) P.encPerm xs

/-- The duplexer of the incoming note encryption. -/
def Params.duplexer [Fact p.Prime] (P : Params C) : Cipher.Duplexer (ZMod p) :=
  ⟨P.encC.width, fun xs => (P.permute xs).getD [], P.encInit⟩

/-- `IncomingPlaintext` as plaintext blocks, config/utxo.rs:668-706. -/
def plainBlocks (rand : ZMod p) (a : Asset) : List (List (ZMod p)) := [[rand, (a.id : ZMod p), (a.value : ZMod p)]]

/-- Hybrid encryption of the incoming plaintext, protocol.rs:2025-2045 and encryption/hybrid.rs:448-472. -/
def Params.encIn [Fact p.Prime] (P : Params C) (rk : C.E) (esk : ZMod r) (rand : ZMod p) (a : Asset) :
    C.E × ZMod p × List (List (ZMod p)) :=
  let k := esk.val • rk
  (esk.val • P.gen, (P.duplexer.encrypt [C.x k, C.y k] [] (plainBlocks rand a)).getD (0, []))

/-- The hash of the Merkle tree; leaves are hashed by the identity, config/utxo.rs:1188-1275. -/
def Params.tree [Fact p.Prime] (P : Params C) : Merkle.Hash (ZMod p) (ZMod p) where
  dD := 0
  dN := 0
  joinL := fun a b => P.node.get [a, b]
  join := fun a b => P.node.get [a, b]

/-- The functions of the configuration outside of circuits. Signatures and proofs, which the circuit does not use, are
arguments. -/
@[reducible] def crypto [Fact p.Prime] (P : Params C) (R : Rest)
    (sign : ZMod r → Verif.Transfer.Body (ty C R) → List Nat → R.Sig)
    (verifySig : C.E → Verif.Transfer.Body (ty C R) → List Nat → R.Sig → Bool)
    (prove : Transfer (ty C R) → Option R.Proof) : Crypto (ty C R) where
  gen := P.gen
  smul := fun g s => s.val • g
  mul := fun a b => a * b
  viewKey := fun g => ((P.vk.get [C.x g, C.y g]).val : ZMod r)
  commit := fun rand id value rk => P.cm.get [rand, (id : ZMod p), (value : ZMod p), C.x rk, C.y rk]
  item := fun u => P.item.get [fbit u.transparent, (u.pubAsset.id : ZMod p), (u.pubAsset.value : ZMod p), u.cm]
  nullCommit := fun pak item => P.nul.get [C.x pak, C.y pak, item]
  encIn := fun rk esk pl => P.encIn rk esk pl.rand pl.asset
  member := fun item w root => Merkle.Path.verify P.tree w root item
  sign := sign
  verifySig := verifySig
  prove := prove

/-- The encoding of public inputs: group elements by their coordinates, UTXOs by flag, asset and commitment
(protocol.rs:1927-1938), notes by ephemeral key, tag and message (hybrid.rs:325-337, duplex.rs:204-214). -/
@[reducible] def enc (C : Curve p r) (R : Rest) : InputEnc (ty C R) where
  grp := fun g => [C.x g, C.y g]
  id := fun n => [(n : ZMod p)]
  value := fun n => [(n : ZMod p)]
  root := fun x => [x]
  ncm := fun x => [x]
  utxo := fun u => [fbit u.transparent, (u.pubAsset.id : ZMod p), (u.pubAsset.value : ZMod p), u.cm]
  inote := fun n => [C.x n.1, C.y n.1, n.2.1] ++ n.2.2.flatten

/-! ## Variables -/

/-- A point: `GroupVar`. -/
structure PtV (p : Nat) where
  x : Lc p
  y : Lc p

/-- `Asset` with variables. -/
structure AssetV (p : Nat) where
  id : Lc p
  value : Lc p

/-- `IncomingPlaintext` with variables. -/
structure PlainV (p : Nat) where
  rand : Lc p
  asset : AssetV p

/-- `Utxo` with variables. -/
structure UtxoV (p : Nat) where
  transparent : Lc p
  pubAsset : AssetV p
  cm : Lc p

/-- `PathVar`, path.rs:943-958, 1072-1084. -/
structure PathV (p : Nat) where
  sib : Lc p
  leaf : Lc p
  inner : List (Lc p)
  path : List (Lc p)

/-- `Sender` with variables, sender.rs:300-318. -/
structure SenderV (p : Nat) where
  orand : Lc p
  plain : PlainV p
  utxo : UtxoV p
  wit : PathV p
  root : Lc p
  nul : Lc p

/-- `IncomingNote` with variables. -/
structure NoteV (p : Nat) where
  epk : PtV p
  tag : Lc p
  blocks : List (List (Lc p))

/-- `Receiver` with variables, receiver.rs:50-70. -/
structure ReceiverV (p : Nat) where
  rk : PtV p
  irand : Lc p
  plain : PlainV p
  utxo : UtxoV p
  note : NoteV p

/-- `Authorization` with variables. -/
structure AuthV (p : Nat) where
  pak : PtV p
  rand : Lc p
  rpak : PtV p

/-- `TransferVar`, mod.rs:851-880. -/
structure TransferV (p : Nat) where
  auth : Option (AuthV p)
  assetId : Option (Lc p)
  sources : List (Lc p)
  senders : List (SenderV p)
  receivers : List (ReceiverV p)
  sinks : List (Lc p)

/-! ## Allocation -/

/-- A loop that collects. -/
def mapB {α β : Type} (f : α → B p β) : List α → B p (List β)
  | [] => pure []
  | x :: xs => do
    let y ← f x
    let ys ← mapB f xs
    pure (y :: ys)

/-- The same allocation for every element of a range. -/
def repB {β : Type} (n : Nat) (m : B p β) : B p (List β) := mapB (fun _ => m) (List.range n)

/-- `GroupVar`, algebra.rs:595-652: two variables with the coordinates of a point of the curve. As a witness the point is
in the prime order subgroup, as an input that is left out (ark-r1cs-std). -/
def allocPt (C : Curve p r) (m : Mode) : B p (PtV p) := fun st =>
  some (⟨fun z => z st.cs.next, fun z => z (st.cs.next + 1)⟩,
    ⟨st.cs.ext 2
      [fun z => ∃ g : C.E, C.x g = z st.cs.next ∧ C.y g = z (st.cs.next + 1) ∧ (m = .sec → r • g = 0)],
     match m with | .pub => st.pub ++ [st.cs.next, st.cs.next + 1] | .sec => st.pub⟩)

/-- `Asset`, asset.rs:246-280. -/
def allocAsset (A : Ark p) (m : Mode) : B p (AssetV p) := do
  let id ← allocF m
  let value ← allocU A m
  pure ⟨id, value⟩

/-- `IncomingPlaintext`, protocol.rs:1635-1660. -/
def allocPlain (A : Ark p) : B p (PlainV p) := do
  let rand ← allocF .sec
  let asset ← allocAsset A .sec
  pure ⟨rand, asset⟩

/-- `Utxo`, protocol.rs:1868-1896. -/
def allocUtxo (A : Ark p) (m : Mode) : B p (UtxoV p) := do
  let t ← allocB m
  let a ← allocAsset A m
  let c ← allocF m
  pure ⟨t, a, c⟩

/-- `PathVar`, path.rs:1034-1069, 1146-1172; `n` is the number of inner digests. -/
def allocPath (h n : Nat) : B p (PathV p) := do
  let sib ← allocF .sec
  let leaf ← allocB .sec
  let inner ← repB h (allocB .sec)
  let path ← repB n (allocF .sec)
  pure ⟨sib, leaf, inner, path⟩

/-- `Sender`, sender.rs:399-441, with `SpendSecret` (protocol.rs:2653-2680), `MembershipProof`
(accumulator.rs:378-399) and `Nullifier` (protocol.rs:2839-2857). -/
def allocSender (P : Params C) (n : Nat) : B p (SenderV p) := do
  let orand ← allocF .sec
  let plain ← allocPlain P.ark
  let utxo ← allocUtxo P.ark .sec
  let wit ← allocPath P.h n
  let root ← allocF .pub
  let nul ← allocF .pub
  pure ⟨orand, plain, utxo, wit, root, nul⟩

/-- `IncomingNote`, hybrid.rs:260-305, duplex.rs:170-190, encryption.rs:300-325, 444-460, 516-535; `lens` are the lengths of the
blocks. -/
def allocNote (C : Curve p r) (lens : List Nat) : B p (NoteV p) := do
  let epk ← allocPt C .pub
  let tag ← allocF .pub
  let blocks ← mapB (fun n => repB n (allocF .pub)) lens
  pure ⟨epk, tag, blocks⟩

/-- `Receiver`, receiver.rs:151-180, with `MintSecret` (protocol.rs:2141-2175). -/
def allocReceiver (P : Params C) (lens : List Nat) : B p (ReceiverV p) := do
  let rk ← allocPt C .sec
  let irand ← allocF .sec
  let plain ← allocPlain P.ark
  let utxo ← allocUtxo P.ark .pub
  let note ← allocNote C lens
  pure ⟨rk, irand, plain, utxo, note⟩

/-- `Authorization`, auth.rs:271-292, with `AuthorizationContext` and `AuthorizationProof` (protocol.rs:2291-2312,
2383-2412). -/
def allocAuth (C : Curve p r) : B p (AuthV p) := do
  let pak ← allocPt C .sec
  let rand ← allocF .sec
  let rpak ← allocPt C .pub
  pure ⟨pak, rand, rpak⟩

/-- An optional variable. -/
def optB {β : Type} (b : Bool) (m : B p β) : B p (Option β) :=
  if b then do
    let x ← m
    pure (some x)
  else pure none

/-- The const generics of a transfer. -/
structure Shape where
  sources : Nat
  senders : Nat
  receivers : Nat
  sinks : Nat

/-- `TransferVar::new_unknown`, mod.rs:994-1013. The block of a note has `WIDTH - 1` elements. -/
def unknown (P : Params C) (s : Shape) : B p (TransferV p) := do
  let auth ← optB (Transfer.requiresAuthorization s.senders) (allocAuth C)
  let assetId ← optB (Transfer.hasPublicParticipants s.sources s.sinks) (allocF .pub)
  let sources ← repB s.sources (allocU P.ark .pub)
  let senders ← repB s.senders (allocSender P P.h)
  let receivers ← repB s.receivers (allocReceiver P [P.encC.width - 1])
  let sinks ← repB s.sinks (allocU P.ark .pub)
  pure ⟨auth, assetId, sources, senders, receivers, sinks⟩

/-- `TransferVar::new_known`, mod.rs:1015-1045: the same allocations, their number taken from the transfer. -/
def known {R : Rest} (P : Params C) (t : Transfer (ty C R)) : B p (TransferV p) := do
  let auth ← optB t.auth.isSome (allocAuth C)
  let assetId ← optB t.assetId.isSome (allocF .pub)
  let sources ← mapB (fun _ => allocU P.ark .pub) t.sources
  let senders ← mapB (fun s => allocSender P (Merkle.Path.path s.wit).length) t.senders
  let receivers ← mapB (fun r => allocReceiver P (r.note.inote.2.2.map List.length)) t.receivers
  let sinks ← mapB (fun _ => allocU P.ark .pub) t.sinks
  pure ⟨auth, assetId, sources, senders, receivers, sinks⟩

/-! ## Poseidon in the circuit -/

/-- `pow_by_constant` of ark-r1cs-std, as called at arkworks.rs:205-209: over the bits of the exponent from the most
significant one on, a squaring for every bit but the first and a multiplication for every further one. -/
def powC (x : Lc p) (e : Nat) : B p (Lc p) :=
  if h : e ≤ 1 then pure x
  else do
    let a ← powC x (e / 2)
    let s ← lift fun cs => gMul cs a a
    if e % 2 = 1 then lift fun cs => gMul cs s x else pure s
termination_by e
decreasing_by omega

/-- `mds_matrix_multiply`, poseidon/mod.rs:361-382, with `mul_const` and `add` of arkworks.rs:166-198. -/
def mdsC (c : Poseidon.Consts) (perm : Poseidon.Perm (ZMod p)) (state : List (Lc p)) : Option (List (Lc p)) :=
  Poseidon.collect ((List.range c.width).map fun i =>
    (Poseidon.collect (state.zipIdx.map fun ej =>
      (perm.mds[c.width * i + ej.2]?).map fun m => (fun z => ej.1 z * m : Lc p))).bind fun l =>
      match l with
      | [] => none
      | x :: xs => some (xs.foldl (fun acc next => gAdd acc next) x))

/-- Adding a key and the S-box for all elements of a state. -/
def keysC (keys : List (ZMod p)) (e : Nat) (state : List (Lc p)) : B p (List (Lc p)) :=
  mapB (fun ei => do
    let k ← ofOption keys[ei.2]?
    powC (fun z => ei.1 z + k) e) state.zipIdx

/-- `full_round`, mod.rs:385-392. -/
def fullRoundC (c : Poseidon.Consts) (e : Nat) (perm : Poseidon.Perm (ZMod p)) (round : Nat) (state : List (Lc p)) :
    B p (List (Lc p)) := do
  let keys ← ofOption (Poseidon.additiveKeys c perm round)
  let s ← keysC keys e state
  ofOption (mdsC c perm s)

/-- `partial_round`, mod.rs:396-403. -/
def partialRoundC (c : Poseidon.Consts) (e : Nat) (perm : Poseidon.Perm (ZMod p)) (round : Nat) (state : List (Lc p)) :
    B p (List (Lc p)) := do
  let keys ← ofOption (Poseidon.additiveKeys c perm round)
  let s ← ofOption (Poseidon.collect (state.zipIdx.map fun ei =>
    (keys[ei.2]?).map fun k => (fun z => ei.1 z + k : Lc p)))
  match s with
  | [] => ofOption none
  | x :: xs => do
    let x ← powC x e
    ofOption (mdsC c perm (x :: xs))

/-- A loop over rounds. -/
def roundsC (f : Nat → List (Lc p) → B p (List (Lc p))) : List Nat → List (Lc p) → B p (List (Lc p))
  | [], s => pure s
  | i :: is, s => do
    let s ← f i s
    roundsC f is s

/-- `permute_without_first_round`, mod.rs:407-420. -/
def permuteRestC (c : Poseidon.Consts) (e : Nat) (perm : Poseidon.Perm (ZMod p)) (state : List (Lc p)) :
    B p (List (Lc p)) := do
  let s ← roundsC (fullRoundC c e perm) (List.range' 1 (c.half - 1)) state
  let s ← roundsC (partialRoundC c e perm) (List.range' c.half c.part) s
  roundsC (fullRoundC c e perm) (List.range' (c.half + c.part) (c.full + c.part - (c.half + c.part))) s

/-- `permute`, mod.rs:514-517. -/
def permuteC (c : Poseidon.Consts) (e : Nat) (perm : Poseidon.Perm (ZMod p)) (state : List (Lc p)) :
    B p (List (Lc p)) := do
  let s ← fullRoundC c e perm 0 state
  permuteRestC c e perm s

/-- `hash` in the circuit, hash.rs:113-123, 150-152, and `first_round_with_domain_tag_unchecked`, mod.rs:424-441. The
domain tag is the one of `from_permutation`, because `new_constant` (hash.rs:139-141) takes over the permutation only. -/
def hashC (h : Hasher p) (input : List (Lc p)) : B p (Lc p) := do
  let s ← keysC h.perm.keys h.expo ((fun _ => h.ownTag) :: input)
  let s ← ofOption (mdsC h.c h.perm s)
  let s ← permuteRestC h.c h.expo h.perm s
  ofOption s.head?

/-! ## Sponge in the circuit -/

/-- `absorb_all`, sponge.rs:96-107. -/
def absorbAllC {O : Type} (write : List (Lc p) → List (Lc p) → Option (O × List (Lc p)))
    (perm : List (Lc p) → B p (List (Lc p))) : List (List (Lc p)) → List (Lc p) → B p (List O × List (Lc p))
  | [], s => pure ([], s)
  | b :: bs, s => do
    let os ← ofOption (write b s)
    let s ← perm os.2
    let r ← absorbAllC write perm bs s
    pure (os.1 :: r.1, r.2)

/-- `duplex_encryption`, duplex.rs:254-283, with `FixedEncryption::setup` (encryption.rs:679-694) and `Tag::read`
(encryption.rs:498-501). -/
def encryptC (P : Params C) (key : List (Lc p)) (plain : List (List (Lc p))) : B p (Lc p × List (List (Lc p))) := do
  let bs ← ofOption (Cipher.setupBlocks P.encC.width key [])
  let init : List (Lc p) := P.encInit.map fun v _ => v
  let s ← absorbAllC Cipher.writeSetup (permuteC P.encC P.encExpo P.encPerm) bs init
  let c ← absorbAllC Cipher.writePlain (permuteC P.encC P.encExpo P.encPerm) plain s.2
  let t ← ofOption c.2[1]?
  pure (t, c.1)

/-! ## Points in the circuit -/

/-- A constant point, algebra.rs:576-592. -/
def constPt (C : Curve p r) (g : C.E) : PtV p := ⟨fun _ => C.x g, fun _ => C.y g⟩

/-- `scalar_mul`, algebra.rs:479-502: bits of the scalar variable, which is an element of the constraint field, and
double and add. One constraint on the coordinates of the result. -/
def scalarMulC (C : Curve p r) (P : PtV p) (s : Lc p) : B p (PtV p) := fun st =>
  some (⟨fun z => z st.cs.next, fun z => z (st.cs.next + 1)⟩,
    ⟨st.cs.ext 2
      [fun z => ∃ g : C.E, C.x g = P.x z ∧ C.y g = P.y z ∧
        z st.cs.next = C.x ((s z).val • g) ∧ z (st.cs.next + 1) = C.y ((s z).val • g)], st.pub⟩)

/-- `assert_eq` for points, algebra.rs:523-535. -/
def assertEqPt (P Q : PtV p) : B p Unit := do
  let a ← lift fun cs => gEq cs P.x Q.x
  let b ← lift fun cs => gEq cs P.y Q.y
  let c ← lift fun cs => gAnd cs a b
  lift fun cs => (gAssert cs c, ())

/-! ## The protocol in the circuit -/

/-- `Asset::is_empty`, asset.rs:112-122. -/
def isEmptyC (a : AssetV p) : B p (Lc p) := do
  let i ← lift fun cs => gIsZero cs a.id
  let v ← lift fun cs => gIsZero cs a.value
  lift fun cs => gAnd cs i v

/-- `Asset::select`, asset.rs:207-220. -/
def selectC (b : Lc p) (t f : AssetV p) : B p (AssetV p) := do
  let i ← lift fun cs => gSelect cs b t.id f.id
  let v ← lift fun cs => gSelect cs b t.value f.value
  pure ⟨i, v⟩

/-- `InnerPathVar::fold`, path.rs:1004-1031. -/
def foldC (H : Hasher p) : List (Lc p × Lc p) → Lc p → B p (Lc p)
  | [], acc => pure acc
  | bd :: l, acc => do
    let lr ← lift fun cs => gSwap cs bd.1 acc bd.2
    let acc ← hashC H [lr.1, lr.2]
    foldC H l acc

/-- `PathVar::verify`, path.rs:981-1002, 1094-1143. -/
def verifyC (H : Hasher p) (w : PathV p) (root leaf : Lc p) : B p (Lc p) := do
  let lr ← lift fun cs => gSwap cs w.leaf leaf w.sib
  let base ← hashC H [lr.1, lr.2]
  let computed ← foldC H (w.inner.zip w.path) base
  lift fun cs => gEq cs root computed

/-- `AuthorizationContext::receiving_key`, protocol.rs:2225-2271, with its cache; config/utxo.rs:547-561. -/
def receivingKeyC (P : Params C) (pak : PtV p) : Option (PtV p) → B p (PtV p)
  | some rk => pure rk
  | none => do
    let vk ← hashC P.vk [pak.x, pak.y]
    scalarMulC C (constPt C P.gen) vk

/-- `utxo_commitment`, config/utxo.rs:396-425. -/
def commitC (P : Params C) (pl : PlainV p) (rk : PtV p) : B p (Lc p) :=
  hashC P.cm [pl.rand, pl.asset.id, pl.asset.value, rk.x, rk.y]

/-- `Sender::well_formed_asset`, sender.rs:347-364, and `SpendSecret::well_formed_asset`, protocol.rs:2578-2620. Returns
the asset and the receiving key that the authorization context now holds. -/
def senderC (P : Params C) (pak : PtV p) (cache : Option (PtV p)) (s : SenderV p) : B p (AssetV p × PtV p) := do
  let e ← isEmptyC s.plain.asset
  assertEqB s.utxo.transparent e
  let asset ← selectC s.utxo.transparent s.utxo.pubAsset s.plain.asset
  let rk ← receivingKeyC P pak cache
  let cm ← commitC P s.plain rk
  assertEqF s.utxo.cm cm
  let item ← hashC P.item [s.utxo.transparent, s.utxo.pubAsset.id, s.utxo.pubAsset.value, s.utxo.cm]
  let zero ← lift fun cs => gIsZero cs asset.value
  let mem ← verifyC P.node s.wit s.root item
  let valid ← lift fun cs => gOr cs zero mem
  lift fun cs => (gAssert cs valid, ())
  let nul ← hashC P.nul [pak.x, pak.y, item]
  assertEqF s.nul nul
  pure (asset, rk)

/-- The senders of `input_sum`, mod.rs:930-942. -/
def sendersC (P : Params C) (pak : PtV p) : Option (PtV p) → List (SenderV p) → B p (List (AssetV p))
  | _, [] => pure []
  | cache, s :: ss => do
    let a ← senderC P pak cache s
    let as ← sendersC P pak (some a.2) ss
    pure (a.1 :: as)

/-- `assert_eq` for the elements of two blocks, eclair/cmp.rs:141-154. -/
def assertBlock (xs ys : List (Lc p)) : B p Unit :=
  if xs.length ≠ ys.length then lift fun cs => (gAssert cs (fun _ => 0), ())
  else do
    let _ ← mapB (fun xy => assertEqF xy.1 xy.2) (xs.zip ys)
    pure ()

/-- `assert_eq` for incoming notes, hybrid.rs:250-257, duplex.rs:160-168, cmp.rs:198-206. -/
def assertNote (a : NoteV p) (b : NoteV p) : B p Unit := do
  assertEqPt a.epk b.epk
  assertEqF a.tag b.tag
  let _ ← mapB (fun xy => assertBlock xy.1 xy.2) (a.blocks.zip b.blocks)
  pure ()

/-- `incoming_note`, protocol.rs:2025-2045 and hybrid.rs:448-472. -/
def noteC (P : Params C) (rk : PtV p) (esk : Lc p) (pl : PlainV p) : B p (NoteV p) := do
  let epk ← scalarMulC C (constPt C P.gen) esk
  let k ← scalarMulC C rk esk
  let c ← encryptC P [k.x, k.y] [[pl.rand, pl.asset.id, pl.asset.value]]
  pure ⟨epk, c.1, c.2⟩

/-- `MintSecret::well_formed_asset`, protocol.rs:2073-2098. -/
def receiverC (P : Params C) (r : ReceiverV p) : B p (AssetV p) := do
  let e ← isEmptyC r.plain.asset
  assertEqB r.utxo.transparent e
  let asset ← selectC r.utxo.transparent r.utxo.pubAsset r.plain.asset
  let cm ← commitC P r.plain r.rk
  assertEqF r.utxo.cm cm
  let note ← noteC P r.rk r.irand r.plain
  assertNote r.note note
  pure asset

/-- The loop of `value_sum`. -/
def sumFromC (A : Ark p) : Lc p → List (Lc p) → B p (Lc p)
  | acc, [] => pure acc
  | acc, v :: vs => do
    let acc ← liftE fun cs => uAdd A 128 cs acc v
    sumFromC A acc vs

/-- `value_sum`, mod.rs:976-984. -/
def valueSumC (A : Ark p) : List (Lc p) → B p (Lc p)
  | [] => ofOption none
  | v :: vs => sumFromC A v vs

/-- `assert_authorized`, auth.rs:243-248 and protocol.rs:637-650. -/
def authC (C : Curve p r) (a : AuthV p) : B p Unit := do
  let k ← scalarMulC C a.pak a.rand
  assertEqPt k a.rpak

/-- `input_sum`, mod.rs:919-950: the sum and the ids pushed. -/
def inputSumC (P : Params C) (t : TransferV p) : B p (Lc p × List (Lc p)) :=
  match t.auth with
  | some a => do
    authC C a
    let as ← sendersC P a.pak none t.senders
    let s ← valueSumC P.ark (as.map AssetV.value ++ t.sources)
    pure (s, as.map AssetV.id)
  | none => do
    let s ← valueSumC P.ark t.sources
    pure (s, [])

/-- `output_sum`, mod.rs:953-972. -/
def outputSumC (P : Params C) (t : TransferV p) : B p (Lc p × List (Lc p)) := do
  let as ← mapB (receiverC P) t.receivers
  let s ← valueSumC P.ark (as.map AssetV.value ++ t.sinks)
  pure (s, as.map AssetV.id)

/-- `assert_all_eq_to_base`, eclair/bool.rs:67-76. -/
def allEqToC (b : Lc p) (l : List (Lc p)) : B p Unit := do
  let _ ← mapB (fun x => assertEqF b x) l
  pure ()

/-- `assert_all_eq`, eclair/bool.rs:80-89. -/
def allEqC : List (Lc p) → B p Unit
  | [] => pure ()
  | x :: xs => allEqToC x xs

/-- `build_validity_constraints`, mod.rs:889-915. -/
def build (P : Params C) (t : TransferV p) : B p Unit := do
  let i ← inputSumC P t
  let o ← outputSumC P t
  assertEqF i.1 o.1
  match t.assetId with
  | some a => allEqToC a (i.2 ++ o.2)
  | none => allEqC (i.2 ++ o.2)

/-- `unknown_constraints`, mod.rs:660-667; `none` is a panic. -/
def unknownConstraints (P : Params C) (s : Shape) : Option (St p) :=
  (do let t ← unknown P s; build P t : B p Unit).run St.empty |>.map Prod.snd

/-- `known_constraints`, mod.rs:669-677. -/
def knownConstraints {R : Rest} (P : Params C) (t : Transfer (ty C R)) : Option (St p) :=
  (do let t ← known P t; build P t : B p Unit).run St.empty |>.map Prod.snd

end Verif.Circuit
