import Verif.Net.Model

/-! # Wallets on the simulation ledger: specification -/

set_option linter.unusedSectionVars false

namespace Verif.Net

open Verif.Asset (Asset)
open Verif.Transfer (Prim Kit ReceiverPost Nul openWithCheck circuit Canonical visSecret Collision)
open Verif.Ledger (Ix balance)
open Verif.Merkle
open Verif.Settle (Wire Ident TxOf Grove Acc)
open Verif.Sign (Receiver Owner Tx Transaction made spent)
open Verif.Pay (total unspent)
open Verif.World (owned used Event Book)

variable {P : Prim} [DecidableEq P.Item] [DecidableEq P.Root] [DecidableEq P.Rand] {G : Grove P.Item P.Root}
variable {ι : Type} [DecidableEq ι]

/-- What is assumed of the shared parts and of keys and randomness: the group laws, one set of primitives, a complete proof
system, a nullifier set that finds only what is there, decryption that inverts encryption for the assets `V`, and that
ledger and wallets have the same trees; different addresses, random streams that repeat neither themselves nor each
other. -/
structure Sane (N : Net P G ι) (V : Asset → Prop) : Prop where
  laws : P.Laws
  same : ∃ n, N.ledger.crypto = N.kit.crypto n
  modulus : 2 ^ 128 ≤ N.modulus
  complete : ∀ t shape, Settle.Ids N.modulus t → (∀ n, circuit (N.kit.crypto n) N.modulus t = some true) →
    Canonical shape t.auth.isSome t.assetId.isSome t.sources.length t.senders.length t.receivers.length t.sinks.length →
    ∃ π, N.kit.prove t = some π ∧ N.ledger.verifyProof shape (t.input N.ledger.enc) π ≠ none
  lookup : ∀ l n, N.ledger.contains l n = true → ∃ m ∈ l, m.cm = n.cm
  correct : N.kit.Correct V
  ix : N.ledger.treeIndex = G.ix
  capacity : N.ledger.capacity = 2 ^ (G.h + 1)
  root : ∀ xs, xs ≠ [] → N.ledger.root xs = specRoot G.H G.h xs
  path : ∀ l p r, p.path.length = G.h → p.verify G.H r l = true → N.kit.member l (N.pathWit p) r = true
  known : ∀ i k a, (N.member i).known ((N.wire i).nullifier k a) = true
  addrs : ∀ i j, (N.wire i).address = (N.wire j).address → i = j
  stream : ∀ i j n m, n < (N.member i).bound → m < (N.member j).bound → (N.member i).rand n = (N.member j).rand m →
    i = j ∧ n = m

/-- The published coin of a record. -/
def Net.coin (N : Net P G ι) (x : ι × Receiver (Ident P) P.Grp) : ReceiverPost P.ty := ((N.wire x.1).mintPlan x.2).post N.kit

/-- The record without the ledger; the funds are those of the ledger. -/
def St.abs (st : St P G ι) : World.St ι (ReceiverPost P.ty) P.NCm (Ident P) P.Item (Acc G) P.Grp Nat where
  log := st.log
  slog := st.slog
  funds := balance st.ledger.accounts
  sys := st.sys
  seenU := st.seenU
  seenN := st.seenN

/-- What did not happen: among the values that were computed in the history, no two commitments, nullifiers or
accumulator items of different coins coincide, and no inner node of the ledger's trees was ever the default digest. Assets are encodable, and nobody's coins of one asset ever made add up
to more than values can represent. -/
structure NoAccident (N : Net P G ι) (V : Asset → Prop) (st : St P G ι) : Prop where
  valid : ∀ x ∈ st.log, V x.2.asset
  /-- commitments recomputed by a wallet that opens a coin -/
  commit : ∀ x ∈ st.log, ∀ j k a, openWithCheck N.kit (N.view j) (N.coin x) = some (k, a) →
    ¬ Collision (fun y : P.Rand × Nat × Nat × P.Grp => N.kit.commit y.1 y.2.1 y.2.2.1 y.2.2.2)
      (x.2.key.2, (visSecret x.2.key.1 x.2.asset).id, (visSecret x.2.key.1 x.2.asset).value, N.world.target x)
      (k.2, (visSecret k.1 a).id, (visSecret k.1 a).value, (N.wire j).address)
  nulls : ∀ i, ∀ c ∈ owned N.world st.log i ++ used st.slog i, ∀ j, ∀ c' ∈ owned N.world st.log j ++ used st.slog j,
    (N.wire i).nullifier c.1 c.2 = (N.wire j).nullifier c'.1 c'.2 → i = j ∧ c = c'
  items : ∀ x ∈ st.log, ∀ y ∈ st.log, N.kit.item (N.coin x).utxo = N.kit.item (N.coin y).utxo →
    (N.coin x).utxo = (N.coin y).utxo
  clear : ∀ x, G.Clear (st.ledger.forest x)
  fits : ∀ i id, total (owned N.world st.log i) id < 2 ^ 128

/-- There is still room for a request of wallet `i`: leaves in the trees, positions in its random stream. -/
def Room (N : Net P G ι) (st : St P G ι) (i : ι) : Prop :=
  st.log.length + 2 * (unspent (N.env i).par (st.abs.us N.world) (st.abs.ns N.world)).length ≤ 2 ^ (G.h + 1) ∧
  (st.sys i).next + (2 * (Verif.Wallet.opened (N.env i).par (st.abs.us N.world)).length + 4) ≤ (N.member i).bound

/-- Requests that are considered: there is room in the trees and in the random stream, asset ids are not zero, amounts can
be represented, withdrawals go to the wallet's account. -/
def Allowed (N : Net P G ι) (st : St P G ι) : Action P ι → Prop
  | .read _ => True
  | .post i t => Room N st i ∧ ((World.assetOf t).id ≠ 0 ∧ (World.assetOf t).id < N.modulus) ∧
    match t with
    | .toPrivate a => a.value < 2 ^ 128
    | .privateTransfer _ _ => True
    | .toPublic a p => p = (N.member i).account ∧ balance st.ledger.accounts p a.id + a.value < 2 ^ 128
  | .consolidate i req => Room N st i ∧ Sign.consolidationOk req = true ∧
    (∀ c ∈ req, c ∈ unspent (N.env i).par (st.abs.us N.world) (st.abs.ns N.world)) ∧ ∀ c ∈ req, c.2.id ≠ 0 ∧ c.2.id < N.modulus
  | .restart i skip => (st.sys i).next + skip ≤ (N.member i).bound

/-- Histories. -/
inductive Reach (N : Net P G ι) (V : Asset → Prop) (st0 : St P G ι) : List (Event ι P.Grp Nat) → St P G ι → Prop
  | nil : Reach N V st0 [] st0
  | snoc {es : List (Event ι P.Grp Nat)} {st : St P G ι} (h : Reach N V st0 es st) (act : Action P ι)
      (ha : Allowed N st act) (hn : NoAccident N V (N.step st act).2) : Reach N V st0 (es ++ [(N.step st act).1]) (N.step st act).2

/-- The coins of wallet `j` on the ledger: what it can open in any shard and what is not nullified. -/
def Net.coins (N : Net P G ι) (s : Ledger.State P.ty) (j : ι) : List (Ident P × Asset) :=
  (((List.finRange 256).flatMap s.shards).filterMap fun x => openWithCheck N.kit (N.view j) ⟨x.1, x.2⟩).filter
    fun c => decide ((N.wire j).nullifier c.1 c.2 ∉ s.nullifiers.map Nul.cm)

end Verif.Net
