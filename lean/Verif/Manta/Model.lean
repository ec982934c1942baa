import Verif.Net.Props
import Verif.Circuit.Props

/-!
# The configuration of manta-pay

The UTXO protocol, the wallets and the ledger of the other modules take cryptography as parameters. Here they get the
functions that manta-pay/src/config/{mod,utxo}.rs chooses: Poseidon for viewing keys, commitments, items, nullifiers and
Merkle trees, the duplex cipher for the notes that the circuit checks, AES for the others, Blake2s for partitions, shards,
symmetric keys and challenges, and proofs for the compiled circuits of `Verif.Circuit`. Parameters that remain: the
constants of Poseidon, the curve, Blake2s, AES-GCM, the encoding of points, and the proof system, which is given a
constraint system and an assignment.
-/

set_option linter.unusedSectionVars false

namespace Verif.Manta

open Verif.Codec (Bytes toLE fromLE)
open Verif.Asset (Asset BinSearch Layout)
open Verif.Transfer (Prim Kit Ty Utxo Nul FullNote Plain Sender Receiver Auth Transfer Body InputEnc)
open Verif.Gadget (Asg fbit)
open Verif.Circuit (Curve Params Rest St dims unknownConstraints knownConstraints plainBlocks)
open Verif.Merkle
open Verif.Settle (Grove Acc)

variable {p r : Nat} [Fact p.Prime] [NeZero r]

/-- Points of the prime order subgroup. `Group` (config/mod.rs:61, algebra.rs:251) can hold any point of the curve; the
generator has this order, and wallets only use its multiples and addresses that are multiples of it. -/
abbrev Sub (C : Curve p r) : Type := {g : C.E // r • g = 0}

theorem Sub.smul_mem {C : Curve p r} (g : Sub C) (n : Nat) : r • n • g.1 = 0 := by
  rw [smul_comm, g.2, smul_zero]

theorem Sub.add_mem {C : Curve p r} (g h : Sub C) : r • (g.1 + h.1) = 0 := by
  rw [smul_add, g.2, h.2, add_zero]

/-- Scalar multiplication and addition, algebra.rs:340-371 (arkworks). -/
def Sub.smul {C : Curve p r} (g : Sub C) (s : ZMod r) : Sub C := ⟨s.val • g.1, g.smul_mem _⟩
def Sub.add {C : Curve p r} (g h : Sub C) : Sub C := ⟨g.1 + h.1, g.add_mem h⟩

/-- The types, config/utxo.rs:88-160. A Merkle path is restricted to `h` inner digests, which the paths of these trees have;
path.rs:66-77 has a vector. Randomness of the symmetric schemes is `()`. -/
@[reducible] def prim (C : Curve p r) (gen : Sub C) (h : Nat) (Pf : Type) : Prim where
  Scal := ZMod r
  Grp := Sub C
  Root := ZMod p
  Wit := {w : Path (ZMod p) (ZMod p) // w.path.length = h}
  Rand := ZMod p
  SRand := Unit
  UCm := ZMod p
  Item := ZMod p
  NCm := ZMod p
  CI := ZMod p × List (List (ZMod p))
  CL := Bytes
  CO := Bytes
  Part := Fin 256
  Proof := Pf
  In := ZMod p
  gen := gen
  smul := Sub.smul
  gadd := Sub.add
  mul := fun a b => a * b
  add := fun a b => a + b

/-- The types the circuit does not see. -/
@[reducible] def rest (C : Curve p r) (Pf : Type) : Rest where
  ONote := Sub C × Bytes
  LNote := Sub C × Bytes
  Part := Fin 256
  Proof := Pf
  Sig := ZMod r × Sub C
  iONote := ⟨(⟨0, smul_zero _⟩, [])⟩
  iLNote := ⟨(⟨0, smul_zero _⟩, [])⟩

/-- A proof system: `compile`, `prove` with an assignment, `verify` (constraint.rs:47-103; groth16.rs:548-613). The outer
`none` of `verify` is an error. -/
structure Snark (p : Nat) where
  Pk : Type
  Vk : Type
  Pf : Type
  compile : St p → Pk × Vk
  prove : Pk → St p → Asg p → Option Pf
  verify : Vk → List (ZMod p) → Pf → Option Bool

/-- Completeness: a satisfying assignment is proved, and the proof is valid for its public part. -/
def Snark.Complete (S : Snark p) : Prop := ∀ st z, st.cs.Sat z →
  ∃ π, S.prove (S.compile st).1 st z = some π ∧ S.verify (S.compile st).2 (st.pub.map z) π = some true

/-- What remains a parameter. -/
structure Config (p r : Nat) [Fact p.Prime] [NeZero r] where
  C : Curve p r
  params : Params C
  gen : r • params.gen = 0
  height : 1 ≤ params.h
  /-- `affine_point_as_bytes` and `serialize_unchecked` of a point -/
  point : C.E → Bytes
  /-- `Blake2sVar::new(1)`, `Blake2s256` -/
  blake1 : Bytes → Fin 256
  blake32 : Bytes → Bytes
  aes : Cipher.Aes Bytes
  snark : Snark p
  /-- the assignment that is computed while the constraints are generated -/
  assign : Transfer (Circuit.ty C (rest C snark.Pf)) → Asg p
  /-- body and sink accounts as signed (C53) -/
  encode : Body (prim C ⟨params.gen, gen⟩ params.h snark.Pf).ty → List Nat → List Nat
  /-- lookup in the nullifier set of the ledger, `UtxoAccumulatorOutput::default()`, overflow of balances -/
  contains : List (Nul (prim C ⟨params.gen, gen⟩ params.h snark.Pf).ty) → Nul (prim C ⟨params.gen, gen⟩ params.h snark.Pf).ty → Bool
  wraps : Bool
  /-- leaf stores of the branches and of the base of the signer's trees -/
  kind : Kind
  kind' : Kind

namespace Config

variable (c : Config p r)

@[reducible] def prim : Prim := Manta.prim c.C ⟨c.params.gen, c.gen⟩ c.params.h c.snark.Pf
@[reducible] def rest : Rest := Manta.rest c.C c.snark.Pf

/-! ## What the circuit sees of a transfer -/

/-- The same UTXO. -/
def eraseUtxo (u : Utxo c.prim.ty) : Utxo (Circuit.ty c.C c.rest) := ⟨u.transparent, u.pubAsset, u.cm⟩
/-- The same plaintext. -/
def erasePlain (x : Plain c.prim.ty) : Plain (Circuit.ty c.C c.rest) := ⟨x.rand, x.asset⟩
/-- Points are points of the curve, paths are paths, randomness of the symmetric schemes is dropped. -/
def eraseSender (s : Sender c.prim.ty) : Sender (Circuit.ty c.C c.rest) :=
  ⟨s.orand.1, c.erasePlain s.plain, c.eraseUtxo s.utxo, s.wit.1, s.root, ⟨s.nul.cm, s.nul.note⟩⟩
/-- As for senders. -/
def eraseReceiver (x : Receiver c.prim.ty) : Receiver (Circuit.ty c.C c.rest) :=
  ⟨x.rk.1, x.irand.1, c.erasePlain x.plain, c.eraseUtxo x.utxo, ⟨x.note.part, (x.note.inote.1.1, x.note.inote.2), x.note.lnote⟩⟩
/-- As for senders. -/
def eraseAuth (a : Auth c.prim.ty) : Auth (Circuit.ty c.C c.rest) := ⟨a.pak.1, a.rand, a.rpak.1⟩
/-- As for senders. -/
def erase (t : Transfer c.prim.ty) : Transfer (Circuit.ty c.C c.rest) :=
  ⟨t.auth.map c.eraseAuth, t.assetId, t.sources, t.senders.map c.eraseSender, t.receivers.map c.eraseReceiver, t.sinks⟩

/-! ## The functions -/

/-- `b"..."`. -/
def tag (s : String) : Bytes := s.toUTF8.data.toList

/-- `AddressPartitionFunction::partition`, utxo.rs:1808-1831. -/
def partition (g : Sub c.C) : Fin 256 :=
  c.blake1 (tag "manta-v1.0.0/address-partition-function" ++ c.point g.1)

/-- `tree_index`, utxo.rs:1319-1336; field elements are written as 32 bytes, little endian. -/
def treeIndex (x : ZMod p) : Fin 256 :=
  c.blake1 (tag "manta-v1.0.0/merkle-tree-shard-function" ++ toLE 32 x.val)

/-- `SchnorrHashFunction::hash`, utxo.rs:1875-1906: reduced modulo the order. -/
def challenge (vk nonce : Sub c.C) (message : List Nat) : ZMod r :=
  (fromLE (c.blake32 (tag "manta-pay/1.0.0/Schnorr-hash" ++ c.point vk.1 ++ c.point nonce.1 ++ message.map UInt8.ofNat)) : Nat)

/-- Key of the AES schemes, utxo.rs:907-917, 1661-1671. -/
def aesKey (g : Sub c.C) : Bytes := c.blake32 (c.point g.1)

/-- `ViewingKeyDerivationFunction::viewing_key`, utxo.rs:540-561: the digest as a scalar. -/
def viewKey (g : Sub c.C) : ZMod r := ((c.params.vk.get [c.C.x g.1, c.C.y g.1]).val : ZMod r)

/-- `UtxoCommitmentScheme::commit`, utxo.rs:396-425. -/
def commit (rand : ZMod p) (id value : Nat) (rk : Sub c.C) : ZMod p :=
  c.params.cm.get [rand, (id : ZMod p), (value : ZMod p), c.C.x rk.1, c.C.y rk.1]

/-- `UtxoAccumulatorItemHash::hash`, utxo.rs:1130-1165. -/
def item (u : Utxo c.prim.ty) : ZMod p :=
  c.params.item.get [fbit u.transparent, (u.pubAsset.id : ZMod p), (u.pubAsset.value : ZMod p), u.cm]

/-- `NullifierCommitmentScheme::commit`, utxo.rs:1440-1510. -/
def nullCommit (pak : Sub c.C) (x : ZMod p) : ZMod p := c.params.nul.get [c.C.x pak.1, c.C.y pak.1, x]

/-- The duplex cipher with the shared point as key, utxo.rs:605-706. -/
def encI (k : Sub c.C) (m : Plain c.prim.ty) : ZMod p × List (List (ZMod p)) :=
  (c.params.duplexer.encrypt [c.C.x k.1, c.C.y k.1] [] (plainBlocks m.rand m.asset)).getD (0, [])

/-- A field element as `Verif.Cipher` has them. -/
def fin (x : ZMod p) : Fin p := ⟨x.val, ZMod.val_lt x⟩

instance : NeZero p := ⟨(Fact.out : p.Prime).ne_zero⟩

/-- Proving keys and verifying keys are made from the unknown constraints of the shape (mod.rs:656-690); `none` is a
panic. -/
def keys (sh : Transfer.Shape) : Option (c.snark.Pk × c.snark.Vk) :=
  (unknownConstraints c.params (dims sh)).map c.snark.compile

/-- `Transfer::into_post`, mod.rs:739-789, as far as the proof goes, with the key that `MultiProvingContext::select`
(canonical.rs:581-587) gives for the shape. -/
def prove (t : Transfer c.prim.ty) : Option c.snark.Pf :=
  (Transfer.Shape.select t.auth.isSome t.assetId.isSome t.sources.length t.senders.length t.receivers.length t.sinks.length).bind
    fun sh => (c.keys sh).bind fun k => (knownConstraints c.params (c.erase t)).bind fun st =>
      c.snark.prove k.1 st (c.assign (c.erase t))

/-- The protocol with these functions. A panic of the AES schemes counts as no result, see C67. -/
def kit : Kit c.prim where
  viewKey := c.viewKey
  commit := c.commit
  item := c.item
  nullCommit := c.nullCommit
  member := fun x w root => w.1.verify c.params.tree root x
  partition := c.partition
  encI := fun k _ m => c.encI k m
  encL := fun k _ m => (Cipher.encLight c.aes (c.aesKey k) ⟨fin m.rand, Fin.ofNat p m.asset.id, m.asset.value⟩).getD []
  decL := fun k x => ((Cipher.decLight p c.aes (c.aesKey k) x).getD none).map
    fun n => ⟨(n.rand.val : ZMod p), ⟨n.id.val, n.value⟩⟩
  encO := fun k _ a => (Cipher.encOut c.aes (c.aesKey k) ⟨Fin.ofNat p a.id, a.value⟩).getD []
  decO := fun k x => ((Cipher.decOut p c.aes (c.aesKey k) x).getD none).map fun n => ⟨n.id.val, n.value⟩
  challenge := c.challenge
  encode := c.encode
  prove := c.prove

/-- Public inputs, as `Circuit.enc`. -/
def enc : InputEnc c.prim.ty where
  grp := fun g => [c.C.x g.1, c.C.y g.1]
  id := fun n => [(n : ZMod p)]
  value := fun n => [(n : ZMod p)]
  root := fun x => [x]
  ncm := fun x => [x]
  utxo := fun u => [fbit u.transparent, (u.pubAsset.id : ZMod p), (u.pubAsset.value : ZMod p), u.cm]
  inote := fun n => [c.C.x n.1.1, c.C.y n.1.1, n.2.1] ++ n.2.2.flatten

/-- The trees of signer and ledger. -/
@[reducible] def grove : Grove c.prim.Item c.prim.Root where
  H := c.params.tree
  h := c.params.h
  K := c.kind
  K' := c.kind'
  ix := c.treeIndex
  pos := c.height

/-- The simulation ledger. -/
def ledger : Ledger.Env c.prim.ty where
  crypto := c.kit.crypto 0
  enc := c.enc
  treeIndex := c.treeIndex
  root := specRoot c.params.tree c.params.h
  defaultRoot := (0 : ZMod p)
  capacity := 2 ^ (c.params.h + 1)
  verifyProof := fun sh x π => (c.keys sh).bind fun k => c.snark.verify k.2 x π
  contains := c.contains
  wraps := c.wraps

/-- Wallets that use this configuration, on one ledger. -/
def net {ι : Type} (bs : BinSearch) (layout : Layout (Settle.Ident c.prim) (List Asset)) (member : ι → Net.Member c.prim c.grove) :
    Net.Net c.prim c.grove ι where
  kit := c.kit
  ledger := c.ledger
  modulus := p
  pathWit := fun w => if h : w.path.length = c.params.h then ⟨w, h⟩ else ⟨⟨0, 0, List.replicate c.params.h 0⟩, List.length_replicate⟩
  noWit := ⟨⟨0, 0, List.replicate c.params.h 0⟩, List.length_replicate⟩
  bs := bs
  layout := layout
  member := member

end Config

end Verif.Manta
