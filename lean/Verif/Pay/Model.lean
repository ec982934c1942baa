import Verif.Wallet.Props
import Verif.Sign.Flow

/-!
# Payments: wallet, signer and ledger data together

Models `manta-accounting/src/wallet/mod.rs:264-273, 424-497, 537-683` and
`manta-accounting/src/transfer/canonical.rs:384-402` on top of the models of synchronization (`Verif.Wallet`)
and signing (`Verif.Sign`). The connections to signer and ledger do not fail. What the ledger does with posts is not
part of this model; the data it serves afterwards is a parameter.
-/

namespace Verif.Pay

open Verif.Asset
open Verif.Wallet (BalanceUpdate Params SyncData SyncError SyncResponse TreeOp Wallet WalletError)

/-- Wallet with its signer. `acc` is the accumulator of the signer, `next` the position in its random stream. -/
structure Sys (N K Leaf A : Type) where
  wallet : Wallet
  signer : Verif.Wallet.Signer N K Leaf
  acc : A
  accounts : Bool
  authorization : Bool
  next : Nat

/-- Functions the model is parameterised over. -/
structure Env (U N K Leaf A Addr Acct : Type) where
  bs : BinSearch
  layout : Layout K (List Asset)
  par : Params U N K Leaf
  shard : Leaf → Nat
  sign : Verif.Sign.Env K Leaf A Addr Acct
  /-- effect of an accumulator call -/
  apply : A → TreeOp Leaf → A
  /-- `commit` -/
  commit : A → A
  /-- numbers of leaves in the shards, committed or not -/
  lens : A → List Nat

variable {U N K Leaf A Addr Acct : Type} [DecidableEq N] [DecidableEq K]

/-- Outcome of synchronizing. -/
inductive SyncOut where
  | ok
  | err (e : WalletError)
  | panic
deriving DecidableEq, Repr

/-- `sync_with` with `signer_sync`, wallet/mod.rs:424-440, 443-497. The signer commits its accumulator
(signer/functions.rs:1051) unless it refused the request. -/
def syncOnce (E : Env U N K Leaf A Addr Acct) (s : Sys N K Leaf A) (d : SyncData U N) : SyncOut × Sys N K Leaf A :=
  match Verif.Wallet.sync E.bs E.layout E.par E.sign.max E.shard s.signer s.wallet.checkpoint d with
  | (res, g) =>
    let acc := match res with
      | .err (.inconsistentSync _) => s.acc
      | _ => E.commit ((g.tree.drop s.signer.tree.length).foldl E.apply s.acc)
    let s' : Sys N K Leaf A := { s with signer := g, acc := acc }
    let resp : Option (Except SyncError SyncResponse) :=
      match res with
      | .ok r => some (.ok r)
      | .err e => some (.error e)
      | .panic => none
    match resp with
    | none => (.panic, s')
    | some resp =>
      match Verif.Wallet.processSync E.bs E.sign.max s.wallet resp with
      | none => (.panic, s')
      | some (.ok (), w) => (.ok, { s' with wallet := w })
      | some (.error e, w) => (.err e, { s' with wallet := w })

/-- `sync`, wallet/mod.rs:266-273: reads until the ledger has no more data; `ds` are the answers. -/
def syncAll (E : Env U N K Leaf A Addr Acct) : Sys N K Leaf A → List (SyncData U N) → SyncOut × Sys N K Leaf A
  | s, [] => (.ok, s)
  | s, d :: ds =>
    match syncOnce E s d with
    | (.ok, s') => syncAll E s' ds
    | r => r

/-- `TransactionKind`, canonical.rs:433-463. -/
inductive Kind where
  | deposit (a : Asset)
  | withdraw (a : Asset)
deriving DecidableEq, Repr

/-- `Transaction::check`, canonical.rs:384-402, with `Wallet::check`, wallet/mod.rs:536-545. -/
def check (bs : BinSearch) (w : Wallet) : Verif.Sign.Transaction Addr Acct → Except Asset Kind
  | .toPrivate a => .ok (.deposit a)
  | .privateTransfer a _ => if AList.contains bs w.assets a then .ok (.withdraw a) else .error a
  | .toPublic a _ => if AList.contains bs w.assets a then .ok (.withdraw a) else .error a

/-- Outcome of `sign`, `consolidate`, `post`. -/
inductive Out (P : Type) where
  /-- the posts, for `post` as handed to the ledger -/
  | ok (posts : P)
  | sync (e : WalletError)
  | insufficientBalance (a : Asset)
  | sign (e : Verif.Sign.SignError)
  | panic

/-- The signer as seen by a signing request. -/
def Sys.signing (s : Sys N K Leaf A) : Verif.Sign.Signer K A :=
  ⟨s.accounts, s.authorization, s.signer.assets, s.acc, s.next⟩

/-- State after a signing request. -/
def Sys.signed (E : Env U N K Leaf A Addr Acct) (s : Sys N K Leaf A) (g : Verif.Sign.Signer K A) : Sys N K Leaf A :=
  { s with signer := { s.signer with lens := E.lens g.acc }, acc := g.acc, next := g.next }

/-- Translation of the signer's answer, wallet/mod.rs:558-565. -/
def answer (E : Env U N K Leaf A Addr Acct) (s : Sys N K Leaf A)
    (r : Verif.Sign.Res (List (Verif.Sign.Tx K A Addr Acct)) × Verif.Sign.Signer K A) :
    Out (List (Verif.Sign.Tx K A Addr Acct)) × Sys N K Leaf A :=
  match r with
  | (.ok posts, g) => (.ok posts, s.signed E g)
  | (.err e, g) => (.sign e, s.signed E g)
  | (.panic, g) => (.panic, s.signed E g)

/-- `Wallet::sign`, wallet/mod.rs:550-566. -/
def sign (E : Env U N K Leaf A Addr Acct) (s : Sys N K Leaf A) (t : Verif.Sign.Transaction Addr Acct) :
    Out (List (Verif.Sign.Tx K A Addr Acct)) × Sys N K Leaf A :=
  match check E.bs s.wallet t with
  | .error a => (.insufficientBalance a, s)
  | .ok _ => answer E s (Verif.Sign.sign E.sign s.signing t)

/-- `Wallet::consolidate`, wallet/mod.rs:572-581. -/
def consolidate (E : Env U N K Leaf A Addr Acct) (s : Sys N K Leaf A) (req : List (K × Asset)) :
    Out (List (Verif.Sign.Tx K A Addr Acct)) × Sys N K Leaf A :=
  answer E s (Verif.Sign.consolidate E.sign s.signing req)

/-- `Wallet::post`, wallet/mod.rs:631-647; `reads` are the ledger's answers while synchronizing. -/
def post (E : Env U N K Leaf A Addr Acct) (s : Sys N K Leaf A) (reads : List (SyncData U N))
    (t : Verif.Sign.Transaction Addr Acct) : Out (List (Verif.Sign.Tx K A Addr Acct)) × Sys N K Leaf A :=
  match syncAll E s reads with
  | (.ok, s') => sign E s' t
  | (.err e, s') => (.sync e, s')
  | (.panic, s') => (.panic, s')

/-- `Wallet::post_consolidation`, wallet/mod.rs:666-683. -/
def postConsolidation (E : Env U N K Leaf A Addr Acct) (s : Sys N K Leaf A) (reads : List (SyncData U N))
    (req : List (K × Asset)) : Out (List (Verif.Sign.Tx K A Addr Acct)) × Sys N K Leaf A :=
  match syncAll E s reads with
  | (.ok, s') => consolidate E s' req
  | (.err e, s') => (.sync e, s')
  | (.panic, s') => (.panic, s')

end Verif.Pay
