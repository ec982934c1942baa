import Verif.Pay.Fresh

/-!
# Many wallets on one ledger

Any number of wallets of `Verif.Pay` share a ledger: manta-accounting/src/wallet/test/mod.rs:932-1056 (`measure_balances`,
`Config::run`) with the actions of `Actor` (test/mod.rs:484-770), which call wallet/mod.rs:264-273, 631-683. The
ledger keeps what it accepted; which posts of a request it accepts is not decided here (see C112, C114), any number of the
first posts may be. Posts are accepted before anything else is posted: posts with outdated roots are rejected.
-/

namespace Verif.World

open Verif.Asset
open Verif.Pay (Env Sys)
open Verif.Wallet (SyncData allUtxos allNulls nfc)
open Verif.Sign (Receiver Owner Tx Transaction made spent)

/-- The wallets, what their posts look like on the ledger, and how long their data structures last. -/
structure World (ι U N K Leaf A Addr Acct : Type) where
  env : ι → Env U N K Leaf A Addr Acct
  /-- UTXO that a wallet makes for a receiver -/
  utxo : ι → Receiver K Addr → U
  addr : ι → Addr
  /-- public account -/
  acct : ι → Acct
  /-- the empty accumulator, its free places, leaves for which it works, how many leaves and shards it has -/
  acc0 : ι → A
  free : ι → A → Nat
  sound : ι → List Leaf → Prop
  capacity : ι → Nat
  width : ι → Nat
  /-- positions of the random stream that are used at most -/
  bound : ι → Nat

/-- State of ledger and wallets. UTXOs and nullifiers are kept together with what they stand for and who posted
them, which the ledger does not know; `seenU`, `seenN` is what a wallet has read. -/
structure St (ι U N K Leaf A Addr Acct : Type) where
  log : List (ι × Receiver K Addr)
  slog : List (ι × K × Asset)
  funds : Acct → Nat → Nat
  sys : ι → Sys N K Leaf A
  seenU : ι → List U
  seenN : ι → List N

/-- What happens, as far as accounts are concerned. -/
inductive Event (ι Addr Acct : Type) where
  | read (i : ι)
  | mint (i : ι) (a : Asset) (ok : Bool)
  | pay (i : ι) (a : Asset) (o : Owner Addr) (ok : Bool)
  /-- `w` is what arrives at the account, which is less than requested if the ledger does not accept all posts -/
  | withdraw (i : ι) (a : Asset) (p : Acct) (w : Nat)
  | consolidate (i : ι)
  | restart (i : ι)
deriving DecidableEq

variable {ι U N K Leaf A Addr Acct : Type} [DecidableEq ι] [DecidableEq N] [DecidableEq K] [DecidableEq Addr]
  [DecidableEq Acct]

/-- Address that an output is for. -/
def World.target (W : World ι U N K Leaf A Addr Acct) (x : ι × Receiver K Addr) : Addr :=
  match x.2.owner with
  | .self => W.addr x.1
  | .other b => b

/-- UTXOs of the ledger. -/
def St.us (W : World ι U N K Leaf A Addr Acct) (st : St ι U N K Leaf A Addr Acct) : List U :=
  st.log.map fun x => W.utxo x.1 x.2

/-- Nullifiers of the ledger. -/
def St.ns (W : World ι U N K Leaf A Addr Acct) (st : St ι U N K Leaf A Addr Acct) : List N :=
  st.slog.map fun x => nfc (W.env x.1).par x.2

/-- Wallet `i` has read `ds` and is now `s`. -/
def St.view (st : St ι U N K Leaf A Addr Acct) (i : ι) (ds : List (SyncData U N)) (s : Sys N K Leaf A) :
    St ι U N K Leaf A Addr Acct :=
  { st with
    sys := fun j => if j = i then s else st.sys j
    seenU := fun j => if j = i then st.seenU i ++ allUtxos ds else st.seenU j
    seenN := fun j => if j = i then st.seenN i ++ allNulls ds else st.seenN j }

/-- Amounts of `id` that posts pay to account `p`. -/
def credit (posts : List (Tx K A Addr Acct)) (p : Acct) (id : Nat) : Nat :=
  bal (posts.flatMap fun tx => (tx.accounts.zip tx.sinks).filterMap fun x => if x.1 = p then some x.2 else none) id

/-- The ledger accepts posts of wallet `i`: outputs and nullifiers are added, the wallet's account pays for the sources,
the named accounts receive the sinks (manta-pay/src/simulation/ledger/mod.rs:229-245, 505-556, 654-700). -/
def St.accept (W : World ι U N K Leaf A Addr Acct) (st : St ι U N K Leaf A Addr Acct) (i : ι)
    (posts : List (Tx K A Addr Acct)) : St ι U N K Leaf A Addr Acct :=
  { st with
    log := st.log ++ (made posts).map fun r => (i, r)
    slog := st.slog ++ (spent posts).map fun c => (i, c)
    funds := fun p id => st.funds p id - (if p = W.acct i then bal (posts.flatMap Tx.sources) id else 0) +
      credit posts p id }

/-- The data a wallet gets when it reads everything (C37: in some order). -/
def Current (W : World ι U N K Leaf A Addr Acct) (st : St ι U N K Leaf A Addr Acct) (i : ι) (ds : List (SyncData U N)) :
    Prop :=
  (st.seenU i ++ allUtxos ds).Perm (st.us W) ∧ st.seenN i ++ allNulls ds = st.ns W

/-- The account of wallet `i` has what posts take from it (C36). -/
def Funded (W : World ι U N K Leaf A Addr Acct) (st : St ι U N K Leaf A Addr Acct) (i : ι)
    (posts : List (Tx K A Addr Acct)) : Prop :=
  ∀ id, bal (posts.flatMap Tx.sources) id ≤ st.funds (W.acct i) id

/-- What is observed when the first posts `acc` of the posts `all` of a request are accepted. -/
def observed (i : ι) (t : Transaction Addr Acct) (all acc : List (Tx K A Addr Acct)) : Event ι Addr Acct :=
  match t with
  | .toPrivate a => .mint i a (!acc.isEmpty)
  | .privateTransfer a o => .pay i a o (!all.isEmpty && acc.length == all.length)
  | .toPublic a p => .withdraw i a p (bal (acc.flatMap Tx.sinks) a.id)

/-- The asset of a request. -/
def assetOf : Transaction Addr Acct → Asset
  | .toPrivate a => a
  | .privateTransfer a _ => a
  | .toPublic a _ => a

/-- There is still room for a request of wallet `i`: leaves in its accumulator, positions in its stream; and its
accumulator works for the leaves that it will have read. -/
def Room (W : World ι U N K Leaf A Addr Acct) (st : St ι U N K Leaf A Addr Acct) (i : ι) (ds : List (SyncData U N)) : Prop :=
  st.log.length + 2 * (Pay.unspent (W.env i).par (st.us W) (st.ns W)).length ≤ W.capacity i ∧
  (st.sys i).next + (2 * (Verif.Wallet.opened (W.env i).par (st.us W)).length + 4) ≤ W.bound i ∧
  W.sound i ((st.seenU i ++ allUtxos ds).map (W.env i).par.leaf)

/-- One action. -/
inductive Step (W : World ι U N K Leaf A Addr Acct) :
    St ι U N K Leaf A Addr Acct → Event ι Addr Acct → St ι U N K Leaf A Addr Acct → Prop
  /-- `sync` against a ledger that answers with some of what it has -/
  | read (st : St ι U N K Leaf A Addr Acct) (i : ι) (ds : List (SyncData U N)) (restU : List U) (restN : List N)
      (hu : (st.seenU i ++ allUtxos ds ++ restU).Perm (st.us W)) (hn : st.seenN i ++ allNulls ds ++ restN = st.ns W) :
      Step W st (.read i) (st.view i ds (Pay.syncAll (W.env i) (st.sys i) ds).2)
  /-- `post` -/
  | post (st : St ι U N K Leaf A Addr Acct) (i : ι) (ds : List (SyncData U N)) (t : Transaction Addr Acct) (n : Nat)
      (hd : Current W st i ds) (hr : Room W st i ds) (hid : (assetOf t).id ≠ 0 ∧ (assetOf t).id < (W.env i).sign.ids)
      (hmax : ∀ a, t = .toPrivate a → a.value ≤ (W.env i).sign.max)
      (hf : Funded W st i ((Pay.post (W.env i) (st.sys i) ds t).1.handed.take n)) :
      Step W st (observed i t (Pay.post (W.env i) (st.sys i) ds t).1.handed
          ((Pay.post (W.env i) (st.sys i) ds t).1.handed.take n))
        ((st.view i ds (Pay.post (W.env i) (st.sys i) ds t).2).accept W i
          ((Pay.post (W.env i) (st.sys i) ds t).1.handed.take n))
  /-- `post_consolidation` of coins of the wallet -/
  | consolidate (st : St ι U N K Leaf A Addr Acct) (i : ι) (ds : List (SyncData U N)) (req : List (K × Asset)) (n : Nat)
      (hd : Current W st i ds) (hr : Room W st i ds) (hreq : Verif.Sign.consolidationOk req = true)
      (hst : ∀ c ∈ req, c ∈ Pay.unspent (W.env i).par (st.us W) (st.ns W)) (hid : ∀ c ∈ req, c.2.id ≠ 0 ∧ c.2.id < (W.env i).sign.ids) :
      Step W st (.consolidate i)
        ((st.view i ds (Pay.postConsolidation (W.env i) (st.sys i) ds req).2).accept W i
          ((Pay.postConsolidation (W.env i) (st.sys i) ds req).1.handed.take n))
  /-- the signer draws from new entropy -/
  | restart (st : St ι U N K Leaf A Addr Acct) (i : ι) (skip : Nat) (hr : (st.sys i).next + skip ≤ W.bound i) :
      Step W st (.restart i)
        { st with sys := fun j => if j = i then { st.sys i with next := (st.sys i).next + skip } else st.sys j }

/-- New wallets on an empty ledger. -/
def World.start (W : World ι U N K Leaf A Addr Acct) (funds : Acct → Nat → Nat) : St ι U N K Leaf A Addr Acct where
  log := []
  slog := []
  funds := funds
  sys i := ⟨(Verif.Wallet.sysInit (N := N) (K := K) (Leaf := Leaf) (W.width i)).1,
    (Verif.Wallet.sysInit (W.width i)).2, W.acc0 i, true, true, 0⟩
  seenU _ := []
  seenN _ := []

end Verif.World
