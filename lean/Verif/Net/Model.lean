import Verif.World.Props
import Verif.Settle.ForestWallet
import Verif.Settle.Paid

/-!
# Wallets with forests on the simulation ledger

The wallets of `Verif.Pay`, with the UTXO protocol (`Verif.Settle`) and forests of Merkle trees as accumulators, on the
ledger of `Verif.Ledger`: manta-pay/src/simulation/mod.rs:107-213 and manta-pay/src/simulation/ledger/mod.rs:202-246, 930-984,
where wallets read with their checkpoint and the ledger applies the posts of a request until one is rejected. Nothing
about ledger and wallets is assumed here that their models do not have; who made which coin is recorded beside.
-/

set_option linter.unusedSectionVars false

namespace Verif.Net

open Verif.Asset (Asset BinSearch Layout)
open Verif.Transfer (Prim Kit ReceiverPost Nul openWithCheck)
open Verif.Ledger (Ix pull push pushLog)
open Verif.Merkle
open Verif.Settle (Wire Ident TxOf Grove Acc)
open Verif.Sign (Receiver Owner Tx Transaction made spent)
open Verif.Wallet (SyncData)
open Verif.Pay (Sys)

variable {P : Prim} [DecidableEq P.Item] [DecidableEq P.Root] [DecidableEq P.Rand] {G : Grove P.Item P.Root}
variable {ι : Type} [DecidableEq ι]

/-- What belongs to one wallet: spending key, randomness, public account. -/
structure Member (P : Prim) [DecidableEq P.Item] [DecidableEq P.Root] (G : Grove P.Item P.Root) where
  sk : P.Scal
  rand : Nat → P.Rand
  randomizer : TxOf P (Acc G) → P.Scal
  nonce : TxOf P (Acc G) → P.Scal
  spendRand : Sign.Sender (Ident P) (Acc G) → P.Scal × P.SRand
  mintRand : Sign.Receiver (Ident P) P.Grp → P.Scal × P.SRand
  /-- `can_be_opened` with the wallet's key, of a nullifier given by its commitment -/
  known : P.NCm → Bool
  account : Nat
  /-- positions of the random stream that are used at most -/
  bound : Nat

/-- Wallets that share protocol, proof system and ledger. -/
structure Net (P : Prim) [DecidableEq P.Item] [DecidableEq P.Root] (G : Grove P.Item P.Root) (ι : Type) where
  kit : Kit P
  ledger : Ledger.Env P.ty
  modulus : Nat
  /-- witness of a Merkle path, of the default proof -/
  pathWit : Path P.Item P.Root → P.Wit
  noWit : P.Wit
  bs : BinSearch
  layout : Layout (Ident P) (List Asset)
  member : ι → Member P G

variable (N : Net P G ι)

/-- The signer of a wallet. -/
def Net.wire (i : ι) : Wire P (Acc G) where
  kit := N.kit
  sk := (N.member i).sk
  ledger := N.ledger
  modulus := N.modulus
  insert := Acc.insert
  contains := Acc.contains
  rollback := Acc.rollback
  view := Acc.view
  wit a l := match a.prove l with
    | some p => N.pathWit p
    | none => N.noWit
  noWit := N.noWit
  rand := (N.member i).rand
  randomizer := (N.member i).randomizer
  nonce := (N.member i).nonce
  spendRand := (N.member i).spendRand
  mintRand := (N.member i).mintRand

/-- Viewing key of a wallet (protocol.rs:1004-1018). -/
def Net.view (i : ι) : P.Scal := N.kit.viewKey (P.smul P.gen (N.member i).sk)

/-- A wallet: coins are opened with the viewing key, accumulator calls act on the forest. -/
def Net.env (i : ι) : Pay.Env (ReceiverPost P.ty) P.NCm (Ident P) P.Item (Acc G) P.Grp Nat where
  bs := N.bs
  layout := N.layout
  par :=
    { openNote := fun x => openWithCheck N.kit (N.view i) x
      nullifier := (N.wire i).nullifier
      openable := (N.member i).known
      leaf := fun x => N.kit.item x.utxo
      spendLeaf := (N.wire i).leaf }
  shard := G.at
  sign := (N.wire i).sign
  apply := Acc.call
  commit := Acc.commit
  lens a := List.ofFn fun i : Ix => (a.view i).length

/-- The wallets as a world of `Verif.World`, which has its own idea of a ledger. -/
def Net.world : World.World ι (ReceiverPost P.ty) P.NCm (Ident P) P.Item (Acc G) P.Grp Nat where
  env := N.env
  utxo i r := ((N.wire i).mintPlan r).post N.kit
  addr i := (N.wire i).address
  acct i := (N.member i).account
  acc0 _ := Acc.empty G
  free _ := Acc.free
  sound _ := G.Sound
  capacity _ := 2 ^ (G.h + 1)
  width _ := 256
  bound i := (N.member i).bound

/-- The ledger and the wallets. The lists are a record of what happened, which nobody uses: coins with who made them, spent
coins with who spent them, what every wallet has read. -/
structure St (P : Prim) [DecidableEq P.Item] [DecidableEq P.Root] (G : Grove P.Item P.Root) (ι : Type) where
  ledger : Ledger.State P.ty
  sys : ι → Sys P.NCm (Ident P) P.Item (Acc G)
  log : List (ι × Receiver (Ident P) P.Grp)
  slog : List (ι × Ident P × Asset)
  seenU : ι → List (ReceiverPost P.ty)
  seenN : ι → List P.NCm

/-- Answer of the ledger to a wallet with this checkpoint, simulation/ledger/mod.rs:202-226: `should_continue` is
false, so there is one answer per synchronization (wallet/mod.rs:266-273). -/
def serve (s : Ledger.State P.ty) (c : Wallet.Checkpoint) : SyncData (ReceiverPost P.ty) P.NCm :=
  let d := pull s ⟨fun i => c.recv.getD i.val 0, c.send⟩
  ⟨d.1.map fun x => ⟨x.1, x.2⟩, d.2.map Nul.cm⟩

/-- What wallet `i` reads when it synchronizes. -/
def St.data (st : St P G ι) (i : ι) : SyncData (ReceiverPost P.ty) P.NCm := serve st.ledger (st.sys i).wallet.checkpoint

/-- Posts of wallet `i` that the ledger applies: `push` stops at the first that it rejects. -/
def Net.applied (st : St P G ι) (i : ι) (txs : List (TxOf P (Acc G))) : List (TxOf P (Acc G)) :=
  txs.take (pushLog N.ledger st.ledger (N.member i).account ((N.wire i).posts txs)).length

/-- Wallet `i` has synchronized, is now `s`, and has pushed its posts. -/
def Net.settle (st : St P G ι) (i : ι) (s : Sys P.NCm (Ident P) P.Item (Acc G)) (txs : List (TxOf P (Acc G))) : St P G ι where
  ledger := (push N.ledger st.ledger (N.member i).account ((N.wire i).posts txs)).2
  sys j := if j = i then s else st.sys j
  log := st.log ++ (made (N.applied st i txs)).map fun r => (i, r)
  slog := st.slog ++ (spent (N.applied st i txs)).map fun c => (i, c)
  seenU j := if j = i then st.seenU i ++ (st.data i).utxos else st.seenU j
  seenN j := if j = i then st.seenN i ++ (st.data i).nulls else st.seenN j

/-- What users do. -/
inductive Action (P : Prim) (ι : Type) where
  /-- `Wallet::sync` -/
  | read (i : ι)
  /-- `Wallet::post` -/
  | post (i : ι) (t : Transaction P.Grp Nat)
  /-- `Wallet::post_consolidation` -/
  | consolidate (i : ι) (req : List (Ident P × Asset))
  /-- the signer draws from new entropy -/
  | restart (i : ι) (skip : Nat)

/-- What an action does, with what is observed. -/
def Net.step (st : St P G ι) : Action P ι → World.Event ι P.Grp Nat × St P G ι
  | .read i => (.read i, N.settle st i (Pay.syncAll (N.env i) (st.sys i) [st.data i]).2 [])
  | .post i t =>
    let r := Pay.post (N.env i) (st.sys i) [st.data i] t
    (World.observed i t r.1.handed (N.applied st i r.1.handed), N.settle st i r.2 r.1.handed)
  | .consolidate i req =>
    let r := Pay.postConsolidation (N.env i) (st.sys i) [st.data i] req
    (.consolidate i, N.settle st i r.2 r.1.handed)
  | .restart i skip =>
    (.restart i, { st with sys := fun j => if j = i then { st.sys i with next := (st.sys i).next + skip } else st.sys j })

/-- New wallets on a ledger that has only public accounts. -/
def St.start (accounts : List (Nat × List (Nat × Nat))) : St P G ι where
  ledger := { Ledger.State.new with accounts := accounts }
  sys _ := ⟨(Verif.Wallet.sysInit (N := P.NCm) (K := Ident P) (Leaf := P.Item) 256).1,
    (Verif.Wallet.sysInit 256).2, Acc.empty G, true, true, 0⟩
  log := []
  slog := []
  seenU _ := []
  seenN _ := []

/-- `Simulation::setup`, simulation/mod.rs:132-147, on a ledger without accounts; `none` is a failed assertion of
`set_public_balance`. The account of actor `i` is the number `i`. -/
def setup (actors ids value : Nat) : Option (Ledger.State P.ty) :=
  ((List.range actors).flatMap fun i => (List.range ids).map fun id => (i, id)).foldlM
    (fun s x => Ledger.setBalance s x.1 (x.2 + 1) value) Ledger.State.new

end Verif.Net
