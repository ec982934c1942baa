import Verif.Settle.Ledger
import Verif.Sign.Flow
import Verif.Transfer.Protocol

/-!
# From signing requests to posts on the ledger

The signer of `Verif.Sign` works with abstract transfers and a prover that is a parameter. Here the transfers are
built with the UTXO protocol of `Verif.Transfer.Protocol`, turned into posts by `into_post`, and the prover of the
signer is the proof system that `into_post` calls: manta-accounting/src/wallet/signer/functions.rs:422-490, 548-612
(`build_pre_sender`, `receiver`, `build_post`) and transfer/canonical.rs:109-228.
-/

namespace Verif.Settle

open Verif.Asset (Asset)
open Verif.Transfer (Prim Kit SpendPlan MintPlan honest utxoReconstruct)
open Verif.Ledger (Ix)

variable {P : Prim} {A : Type}

/-- Identifiers of the protocol: transparency flag and commitment randomness (protocol.rs:1230-1245). -/
abbrev Ident (P : Prim) := Bool × P.Rand

/-- A transfer of the signer over the identifiers and addresses of the protocol. -/
abbrev TxOf (P : Prim) (A : Type) := Sign.Tx (Ident P) A P.Grp Nat

/-- A signer connected to the protocol and to a ledger. Randomness used while building a post is a function of what
is built; the functions are arbitrary. -/
structure Wire (P : Prim) (A : Type) where
  kit : Kit P
  /-- spending key of the signer -/
  sk : P.Scal
  ledger : Ledger.Env P.ty
  /-- modulus of the proof system's field -/
  modulus : Nat
  /-- the signer's accumulator (`Accumulator::insert`, whether `prove` succeeds, `Rollback::rollback`) -/
  insert : A → P.Item → Bool × A
  contains : A → P.Item → Bool
  rollback : A → A
  /-- leaves of the shards of the signer's accumulator -/
  view : A → Ix → List P.Item
  /-- witness of the membership proof; the witness of the default proof -/
  wit : A → P.Item → P.Wit
  noWit : P.Wit
  /-- commitment randomness drawn from the random generator -/
  rand : Nat → P.Rand
  randomizer : TxOf P A → P.Scal
  nonce : TxOf P A → P.Scal
  spendRand : Sign.Sender (Ident P) A → P.Scal × P.SRand
  mintRand : Sign.Receiver (Ident P) P.Grp → P.Scal × P.SRand

namespace Wire

variable (W : Wire P A)

/-- Proof authorization key and address of the signer (protocol.rs:1004-1018, 2253-2270). -/
def pak : P.Grp := P.smul P.gen W.sk
def address : P.Grp := P.smul P.gen (W.kit.viewKey W.pak)

/-- Accumulator item of an own coin, `utxo_reconstruct` and `item_hash` (protocol.rs:1463-1490). -/
def leaf (k : Ident P) (a : Asset) : P.Item := W.kit.item (utxoReconstruct W.kit a k W.address)

/-- `build_pre_sender` with `try_upgrade` or `upgrade_unchecked(Default::default())`, functions.rs:422-441,
sender.rs:150-181. The output of a membership proof is the root of the shard the coin is in. -/
def spendPlan (s : Sign.Sender (Ident P) A) : SpendPlan P :=
  match s.proof with
  | some acc => ⟨s.key, s.asset, W.spendRand s, W.wit acc (W.leaf s.key s.asset),
      W.ledger.root (W.view acc (W.ledger.treeIndex (W.leaf s.key s.asset)))⟩
  | none => ⟨s.key, s.asset, W.spendRand s, W.noWit, W.ledger.defaultRoot⟩

/-- `receiver` and `default_receiver`, functions.rs:443-472. -/
def mintPlan (r : Sign.Receiver (Ident P) P.Grp) : MintPlan P :=
  ⟨match r.owner with
    | .self => W.address
    | .other b => b,
   r.key.1, r.asset, W.mintRand r, r.key.2⟩

/-- Public asset id of the transfer, canonical.rs:111-113, 182, 220-222: taken from the public asset if there is one. -/
def assetId (tx : TxOf P A) : Option Nat := ((tx.sources ++ tx.sinks).head?).map Asset.id

/-- `ToPrivate::build`, `PrivateTransfer::build`, `ToPublic::build`, canonical.rs:109-113, 175-183,
212-228. -/
def transfer (tx : TxOf P A) : Transfer.Transfer P.ty :=
  honest W.kit W.sk (W.randomizer tx) (assetId tx) (tx.sources.map Asset.value) (tx.senders.map W.spendPlan)
    (tx.receivers.map W.mintPlan) (tx.sinks.map Asset.value)

/-- `build_post`, functions.rs:548-612: the spending key is given iff there is something to authorize. -/
def publish (tx : TxOf P A) : Transfer.PostResult P.ty :=
  (W.transfer tx).intoPost (W.kit.crypto (W.nonce tx)) (if tx.senders.isEmpty then none else some W.sk) tx.accounts

/-- The post, if there is one. -/
def post? (tx : TxOf P A) : Option (Transfer.Post P.ty) :=
  match W.publish tx with
  | .made p => some p
  | _ => none

/-- Posts handed out for the transfers of a request. -/
def posts (txs : List (TxOf P A)) : List (Transfer.Post P.ty) := txs.filterMap W.post?

/-- The parameters of signing: fresh identifiers are opaque (`Visibility::default`), values have 128 bits, proving
succeeds when `into_post` makes a post (a refusal, which is a panic at functions.rs:574, counts as failure). -/
def sign : Sign.Env (Ident P) P.Item A P.Grp Nat where
  leaf := W.leaf
  insert := W.insert
  contains := W.contains
  rollback := W.rollback
  fresh i := (false, W.rand i)
  prove tx := (W.post? tx).isSome
  max := 2 ^ 128 - 1
  ids := W.modulus

end Wire

end Verif.Settle
