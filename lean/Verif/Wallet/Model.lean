import Verif.Asset.Model

/-!
# Model of wallet and signer synchronization

Sources: `manta-accounting/src/wallet/signer/functions.rs`, `manta-accounting/src/wallet/mod.rs`,
`manta-accounting/src/wallet/signer/nullifier_map.rs`, `manta-pay/src/signer/base.rs`.
-/

namespace Verif.Wallet

open Verif.Asset

/-! ## Normalization of balance updates -/

/-- The `for` loop of `sum_values`, functions.rs:301-312. `none` is `InconsistentBalance`
(`checked_add` beyond `max`). -/
def sumLoop (max : Nat) : List Asset → List Asset → Option (List Asset)
  | result, [] => some result
  | result, a :: rest =>
    match result.findIdx? (fun e => decide (e.id = a.id)) with
    | some j =>
      match result[j]? with
      | none => none
      | some e =>
        if e.value + a.value ≤ max then sumLoop max (result.set j ⟨e.id, e.value + a.value⟩) rest
        else none
    | none => sumLoop max (result ++ [⟨a.id, a.value⟩]) rest

/-- `sum_values`, functions.rs:294-319. -/
def sumValues (max : Nat) (assets : List Asset) : Option (List Asset) := sumLoop max [] assets

/-- The `while` loop of `normalize_assets`, functions.rs:338-371. The two `checked_sub` calls cannot
fail under their guards. A failing index (impossible) ends the loop. -/
def normLoop (dep wit : List Asset) (i : Nat) : List Asset × List Asset :=
  if h : i < dep.length then
    match wit.findIdx? (fun a => decide (a.id = dep[i].id)) with
    | some j =>
      match wit[j]? with
      | none => (dep, wit)
      | some w =>
        if dep[i].value > w.value then
          normLoop (dep.set i ⟨dep[i].id, dep[i].value - w.value⟩) (wit.eraseIdx j) (i + 1)
        else if dep[i].value < w.value then
          normLoop (dep.eraseIdx i) (wit.set j ⟨w.id, w.value - dep[i].value⟩) i
        else normLoop (dep.eraseIdx i) (wit.eraseIdx j) (i + 1)
    | none => normLoop dep wit (i + 1)
  else (dep, wit)
termination_by dep.length - i
decreasing_by
  all_goals simp_wf
  all_goals (try simp only [List.length_eraseIdx])
  all_goals (try split)
  all_goals omega

/-- `normalize_assets`, functions.rs:328-373. -/
def normalize (max : Nat) (dep wit : List Asset) : Option (List Asset × List Asset) :=
  match sumValues max dep with
  | none => none
  | some d =>
    match sumValues max wit with
    | none => none
    | some w => some (normLoop d w 0)

/-! ## Signer synchronization -/

/-- External functions used by synchronization. `U` is a UTXO with its note. -/
structure Params (U N K Leaf : Type) where
  /-- `open_with_check` with the signer's decryption key -/
  openNote : U → Option (K × Asset)
  /-- nullifier of `derive_spend`; equality of nullifiers is equality of commitments
  (protocol.rs:2807-2815, 2859-2868), so the randomised outgoing note is left out -/
  nullifier : K → Asset → N
  /-- `can_be_opened` -/
  openable : N → Bool
  /-- `item_hash` of a UTXO -/
  leaf : U → Leaf
  /-- `item_hash` of the UTXO of `derive_spend` -/
  spendLeaf : K → Asset → Leaf

/-- Calls made on the UTXO accumulator. -/
inductive TreeOp (Leaf : Type) where
  | insert (l : Leaf)
  | insertNonprovable (l : Leaf)
  | batchNonprovable (ls : List Leaf)
  | removeProof (l : Leaf)
deriving DecidableEq, Repr

/-- `NullifierMap::remove` of `Vec`, nullifier_map.rs:81-88: removes the first occurrence. -/
def nullRemove [DecidableEq N] (nulls : List N) (n : N) : Bool × List N :=
  if n ∈ nulls then (true, nulls.erase n) else (false, nulls)

/-- Mutable state of `sync_with`. -/
structure SyncSt (N K Leaf : Type) where
  assets : AMap K
  nulls : List N
  log : List (TreeOp Leaf)
  buf : List Leaf
  deposit : List Asset
  withdraw : List Asset

variable {U N K Leaf : Type} [DecidableEq N] [DecidableEq K]

/-- `batch_insert_nonprovable` of the buffer followed by `clear`, functions.rs:244-247, 260-262. -/
def flush (s : SyncSt N K Leaf) : SyncSt N K Leaf :=
  if s.buf.isEmpty then s
  else { s with log := s.log ++ [.batchNonprovable s.buf], buf := [] }

/-- `insert_next_item`, functions.rs:147-177. -/
def insertNext (bs : BinSearch) (L : Layout K (List Asset)) (P : Params U N K Leaf)
    (s : SyncSt N K Leaf) (k : K) (a : Asset) : SyncSt N K Leaf :=
  match nullRemove s.nulls (P.nullifier k a) with
  | (true, nulls) =>
    { s with nulls := nulls, log := s.log ++ [.insertNonprovable (P.spendLeaf k a)] }
  | (false, nulls) =>
    { s with nulls := nulls, log := s.log ++ [.insert (P.spendLeaf k a)]
             deposit := if a.value = 0 then s.deposit else s.deposit ++ [a]
             assets := AMap.insert bs L s.assets k a }

/-- Body of the `for` loop of `sync_with`, functions.rs:241-259. -/
def syncStep (bs : BinSearch) (L : Layout K (List Asset)) (P : Params U N K Leaf)
    (s : SyncSt N K Leaf) (u : U) : SyncSt N K Leaf :=
  match P.openNote u with
  | some (k, a) => insertNext bs L P (flush s) k a
  | none => { s with buf := s.buf ++ [P.leaf u] }

/-- State threaded through the `retain` closure. -/
structure RetSt (N Leaf : Type) where
  nulls : List N
  log : List (TreeOp Leaf)
  withdraw : List Asset

/-- `is_asset_unspent`, functions.rs:181-206. -/
def isUnspent (P : Params U N K Leaf) (k : K) (a : Asset) (s : RetSt N Leaf) : Bool × RetSt N Leaf :=
  match nullRemove s.nulls (P.nullifier k a) with
  | (true, nulls) =>
    (false, { nulls := nulls, log := s.log ++ [.removeProof (P.spendLeaf k a)]
              withdraw := if a.value = 0 then s.withdraw else s.withdraw ++ [a] })
  | (false, nulls) => (true, { s with nulls := nulls })

/-- Inner `assets.retain`, functions.rs:264-275. -/
def retainList (P : Params U N K Leaf) (k : K) : List Asset → RetSt N Leaf → List Asset × RetSt N Leaf
  | [], s => ([], s)
  | a :: as, s =>
    let r := isUnspent P k a s
    let q := retainList P k as r.2
    (if r.1 then a :: q.1 else q.1, q.2)

/-- Outer `assets.retain`, functions.rs:263-277. -/
def retainMap (P : Params U N K Leaf) : AMap K → RetSt N Leaf → AMap K × RetSt N Leaf
  | [], s => ([], s)
  | e :: m, s =>
    let r := retainList P e.1 e.2 s
    let q := retainMap P m r.2
    (if r.1.isEmpty then q.1 else (e.1, r.1) :: q.1, q.2)

/-- `sync_with` up to (and without) the checkpoint update, functions.rs:229-277. -/
def syncCore (bs : BinSearch) (L : Layout K (List Asset)) (P : Params U N K Leaf)
    (assets : AMap K) (nulls : List N) (inserts : List U) (nullData : List N) : SyncSt N K Leaf :=
  let s0 : SyncSt N K Leaf :=
    { assets := assets, nulls := nulls ++ nullData.filter P.openable, log := [], buf := []
      deposit := [], withdraw := [] }
  let s1 := flush (inserts.foldl (syncStep bs L P) s0)
  let r := retainMap P s1.assets ⟨s1.nulls, s1.log, s1.withdraw⟩
  { s1 with assets := r.1, nulls := r.2.nulls, log := r.2.log, withdraw := r.2.withdraw }

/-! ## Checkpoints and pruning -/

/-- `Checkpoint`, manta-pay/src/config/utxo.rs:2024-2030. -/
structure Checkpoint where
  recv : List Nat
  send : Nat
deriving DecidableEq, Repr

/-- Derived `Ord` on arrays: lexicographic. -/
def lexLt : List Nat → List Nat → Bool
  | [], [] => false
  | [], _ :: _ => true
  | _ :: _, [] => false
  | a :: as, b :: bs => decide (a < b) || (decide (a = b) && lexLt as bs)

/-- Derived `Ord` of `Checkpoint`, utxo.rs:2023. -/
def Checkpoint.lt (a b : Checkpoint) : Bool :=
  lexLt a.recv b.recv || (decide (a.recv = b.recv) && decide (a.send < b.send))

/-- `SyncData`, wallet/signer/mod.rs:360-370. -/
structure SyncData (U N : Type) where
  utxos : List U
  nulls : List N
deriving DecidableEq, Repr

/-- Adding the data to a checkpoint: one UTXO to its shard. -/
def addRecv (shard : U → Nat) (recv : List Nat) (us : List U) : List Nat :=
  us.foldl (fun r u => r.modify (shard u) (· + 1)) recv

/-- The loop over shards in `prune`, base.rs:180-202. `none` is a panic. Shards are visited in order. -/
def pruneShards (shard : U → Nat) (us : List U) : Nat → List Nat → List Nat → Option (List U × Bool)
  | i, o :: os, s :: ss =>
    if o ≤ s then
      match pruneShards shard us (i + 1) os ss with
      | none => none
      | some (rest, b) =>
        let entries := us.filter fun u => decide (shard u = i)
        if entries.isEmpty then some (rest, b)
        else some (entries.drop (s - o) ++ rest, b || decide (0 < s - o))
    else none
  | _, _, _ => some ([], false)

/-- `Checkpoint::prune`, base.rs:136-205. Result: remaining data and `has_pruned`; `none` is a panic
(`drain` out of range, or a negative difference). -/
def prune (shard : U → Nat) (data : SyncData U N) (origin signer : Checkpoint) :
    Option (SyncData U N × Bool) :=
  if origin.lt signer = false then some (data, false)
  else
    let updated : Checkpoint := ⟨addRecv shard origin.recv data.utxos, origin.send + data.nulls.length⟩
    if updated.lt signer then some (⟨[], []⟩, true)
    else if origin.send ≤ signer.send then
      let diff := signer.send - origin.send
      if diff ≤ data.nulls.length then
        match pruneShards shard data.utxos 0 origin.recv signer.recv with
        | none => none
        | some (us, b) => some (⟨us, data.nulls.drop diff⟩, decide (0 < diff) || b)
      else none
    else none

/-- Outcome of a signer request. -/
inductive Res (ε α : Type) where
  | ok (a : α)
  | err (e : ε)
  | panic
deriving DecidableEq, Repr

/-- `SyncError`, wallet/signer/mod.rs:642-655 (`MissingProofAuthorizationKey` is raised before this
code, mod.rs:1580-1600). -/
inductive SyncError where
  | inconsistentSync (checkpoint : Checkpoint)
  | inconsistentBalance
  | missingKey
deriving DecidableEq, Repr

/-- `prune_sync_request`, functions.rs:957-981. -/
def pruneRequest (shard : U → Nat) (signer origin : Checkpoint) (data : SyncData U N) :
    Res SyncError (Bool × SyncData U N) :=
  if signer.lt origin then .err (.inconsistentSync signer)
  else
    match prune shard data origin signer with
    | none => .panic
    | some (d, b) => .ok (b, d)

/-- `BalanceUpdate`, wallet/signer/mod.rs:605-620. -/
inductive BalanceUpdate where
  | partialUpdate (deposit withdraw : List Asset)
  | full (assets : List Asset)
deriving DecidableEq, Repr

/-- `SyncResponse`, wallet/signer/mod.rs:590-597. -/
structure SyncResponse where
  checkpoint : Checkpoint
  update : BalanceUpdate
deriving DecidableEq, Repr

/-- The part of the signer state that synchronization touches. `lens` are the tree lengths of the UTXO
accumulator, `tree` everything done to it so far. -/
structure Signer (N K Leaf : Type) where
  assets : AMap K
  nulls : List N
  checkpoint : Checkpoint
  tree : List (TreeOp Leaf)
  lens : List Nat
deriving DecidableEq

/-- Leaves inserted by a list of accumulator calls. -/
def inserted : List (TreeOp Leaf) → List Leaf
  | [] => []
  | .insert l :: ops => l :: inserted ops
  | .insertNonprovable l :: ops => l :: inserted ops
  | .batchNonprovable ls :: ops => ls ++ inserted ops
  | .removeProof _ :: ops => inserted ops

/-- `sync`, functions.rs:1018-1054 with `sync_with` 278-290. The new signer state is returned in
every case: an error of `normalize_assets` is reported after the state was changed and committed.
`max` bounds the value type; `none` in the totals of a full update is an overflow panic.
Simplification: trees do not reach capacity, so every insertion adds one leaf to its shard. -/
def sync (bs : BinSearch) (L : Layout K (List Asset)) (P : Params U N K Leaf) (max : Nat)
    (shard : Leaf → Nat) (g : Signer N K Leaf) (origin : Checkpoint) (data : SyncData U N) :
    Res SyncError SyncResponse × Signer N K Leaf :=
  match pruneRequest (fun u => shard (P.leaf u)) g.checkpoint origin data with
  | .panic => (.panic, g)
  | .err e => (.err e, g)
  | .ok (hasPruned, d) =>
    let s := syncCore bs L P g.assets g.nulls d.utxos d.nulls
    let lens := addRecv shard g.lens (inserted s.log)
    let cp : Checkpoint :=
      ⟨List.zipWith Nat.max g.checkpoint.recv lens, g.checkpoint.send + d.nulls.length⟩
    let g' : Signer N K Leaf := ⟨s.assets, s.nulls, cp, g.tree ++ s.log, lens⟩
    match normalize max s.deposit s.withdraw with
    | none => (.err .inconsistentBalance, g')
    | some (dep, wit) =>
      if hasPruned then
        match AMap.assets bs max s.assets with
        | none => (.panic, g')
        | some as => (.ok ⟨cp, .full as⟩, g')
      else (.ok ⟨cp, .partialUpdate dep wit⟩, g')

/-- `sbt_sync`, functions.rs:985-1014 with `sbt_sync_with` 378-423: `utxo_count` is taken from the
request before pruning. -/
def sbtSync (bs : BinSearch) (L : Layout K (List Asset)) (P : Params U N K Leaf) (max : Nat)
    (shard : Leaf → Nat) (g : Signer N K Leaf) (origin : Checkpoint) (data : SyncData U N) :
    Res SyncError SyncResponse × Signer N K Leaf :=
  match pruneRequest (fun u => shard (P.leaf u)) g.checkpoint origin data with
  | .panic => (.panic, g)
  | .err e => (.err e, g)
  | .ok (hasPruned, d) =>
    let opened := d.utxos.filterMap P.openNote
    let assets := opened.foldl (fun m p => AMap.insert bs L m p.1 p.2) g.assets
    let deposit := (opened.map Prod.snd).filter fun a => decide (a.value ≠ 0)
    let cp : Checkpoint :=
      ⟨addRecv (fun u => shard (P.leaf u)) g.checkpoint.recv data.utxos,
       g.checkpoint.send + d.nulls.length⟩
    let g' : Signer N K Leaf := { g with assets := assets, checkpoint := cp }
    if hasPruned then
      match AMap.assets bs max assets with
      | none => (.panic, g')
      | some as => (.ok ⟨cp, .full as⟩, g')
    else (.ok ⟨cp, .partialUpdate deposit []⟩, g')

/-! ## Wallet -/

/-- Wallet state touched by synchronization (wallet/mod.rs:112-131), with the list balance store. -/
structure Wallet where
  checkpoint : Checkpoint
  assets : AList
deriving DecidableEq, Repr

/-- Wallet errors of `process_sync_response`. -/
inductive WalletError where
  | walletBalance
  | signerSynchronization
  | missingKey
deriving DecidableEq, Repr

/-- `process_sync_response`, wallet/mod.rs:444-484: result and new wallet; `none` is an overflow
panic while depositing. -/
def processSync (bs : BinSearch) (max : Nat) (w : Wallet) :
    Except SyncError SyncResponse → Option (Except WalletError Unit × Wallet)
  | .ok ⟨cp, .partialUpdate dep wit⟩ =>
    match AList.depositAll bs max w.assets dep with
    | none => none
    | some l =>
      match AList.withdrawAll bs max l wit with
      | none => none
      | some (true, l') => some (.ok (), ⟨cp, l'⟩)
      | some (false, l') => some (.error .walletBalance, { w with assets := l' })
  | .ok ⟨cp, .full as⟩ =>
    match AList.depositAll bs max [] as with
    | none => none
    | some l => some (.ok (), ⟨cp, l⟩)
  | .error (.inconsistentSync cp) =>
    some (.error .signerSynchronization, { w with checkpoint := if cp.lt w.checkpoint then cp else w.checkpoint })
  | .error .missingKey => some (.error .missingKey, w)
  | .error .inconsistentBalance => some (.error .walletBalance, w)

end Verif.Wallet
