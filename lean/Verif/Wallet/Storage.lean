import Verif.Wallet.Props

/-!
# C97 (storage and copies of a signer), C98 (restart of a wallet), C99 (initial synchronization)

Models `SignerState` and `StorageState` of `manta-accounting/src/wallet/signer/mod.rs:1269-1434, 2004-2105`, the wrappers
`new_signer`, `get_storage`, `set_storage` of `manta-pay/src/signer/functions.rs:36-66`, `Wallet::restart` and
`Wallet::initial_sync` of `manta-accounting/src/wallet/mod.rs:178-241, 324-351`, and `intial_sync` of
`manta-accounting/src/wallet/signer/functions.rs:1462-1525`.
-/

set_option linter.unusedSectionVars false

namespace Verif.Wallet

open Verif.Asset Verif.Asset.AMap

variable {U N K Leaf Acct Auth : Type} [DecidableEq N] [DecidableEq K]

/-! ## Model -/

/-- `SignerState`, signer/mod.rs:1269-1303. The random number generator is left out. -/
structure State (N K Leaf Acct Auth : Type) where
  accounts : Option Acct
  auth : Option Auth
  core : Signer N K Leaf

/-- `from_utxo_accumulator`, signer/mod.rs:1088-1092 with `update_from_utxo_accumulator`, base.rs:107-114. -/
def fromAccumulator (width : Nat) (lens : List Nat) : Checkpoint :=
  ⟨List.zipWith Nat.max (List.replicate width 0) lens, 0⟩

/-- `SignerState::build`, signer/mod.rs:1309-1325. -/
def State.build (width : Nat) (tree : List (TreeOp Leaf)) (lens : List Nat) (assets : AMap K) (nulls : List N) :
    State N K Leaf Acct Auth :=
  ⟨none, none, ⟨assets, nulls, fromAccumulator width lens, tree, lens⟩⟩

/-- `Signer::new` over an empty accumulator, signer/mod.rs:1497-1513; `new_signer_from_model`,
manta-pay/src/signer/functions.rs:92-102. -/
def State.new (width : Nat) : State N K Leaf Acct Auth := .build width [] (List.replicate width 0) [] []

/-- `Clone for SignerState`, signer/mod.rs:1408-1434. -/
def State.clone (width : Nat) (st : State N K Leaf Acct Auth) : State N K Leaf Acct Auth :=
  let c : State N K Leaf Acct Auth := .build width st.core.tree st.core.lens st.core.assets st.core.nulls
  { c with accounts := st.accounts, auth := st.auth }

/-- `Signer::load_accounts`, signer/mod.rs:1527-1531 with `update_authorization_context` 1554-1566; `authOf` is
`default_authorization_context`. -/
def State.loadAccounts (authOf : Acct → Auth) (a : Acct) (st : State N K Leaf Acct Auth) : State N K Leaf Acct Auth :=
  { st with accounts := some a, auth := some (authOf a) }

/-- `Signer::drop_accounts`, signer/mod.rs:1535-1537. -/
def State.dropAccounts (st : State N K Leaf Acct Auth) : State N K Leaf Acct Auth := { st with accounts := none }

/-- `Signer::drop_authorization_context`, signer/mod.rs:1570-1573. -/
def State.dropAuth (st : State N K Leaf Acct Auth) : State N K Leaf Acct Auth :=
  { st with auth := none, accounts := none }

/-- `Signer::sync`, signer/mod.rs:1577-1597; the keys that open notes belong to the authorization context. -/
def State.sync (bs : BinSearch) (L : Layout K (List Asset)) (P : Auth → Params U N K Leaf) (max : Nat)
    (shard : Leaf → Nat) (st : State N K Leaf Acct Auth) (origin : Checkpoint) (d : SyncData U N) :
    Res SyncError SyncResponse × State N K Leaf Acct Auth :=
  match st.auth with
  | none => (.err .missingKey, st)
  | some a =>
    let r := Wallet.sync bs L (P a) max shard st.core origin d
    (r.1, { st with core := r.2 })

/-- `StorageState`, signer/mod.rs:2004-2021. -/
structure Storage (N K Leaf : Type) where
  checkpoint : Checkpoint
  tree : List (TreeOp Leaf)
  lens : List Nat
  assets : AMap K
  nulls : List N

/-- `from_signer`, signer/mod.rs:2054-2066; `get_storage`, functions.rs:54-56. -/
def Storage.fromSigner (st : State N K Leaf Acct Auth) : Storage N K Leaf :=
  ⟨st.core.checkpoint, st.core.tree, st.core.lens, st.core.assets, st.core.nulls⟩

/-- `update_signer`, signer/mod.rs:2069-2080; `set_storage`, functions.rs:60-66. -/
def Storage.updateSigner (x : Storage N K Leaf) (st : State N K Leaf Acct Auth) : State N K Leaf Acct Auth :=
  { st with core := ⟨x.assets, x.nulls, x.checkpoint, x.tree, x.lens⟩ }

/-- `initialize_signer`, signer/mod.rs:2083-2102; `new_signer` with a storage state, functions.rs:36-50. -/
def Storage.initializeSigner (width : Nat) (x : Storage N K Leaf) : State N K Leaf Acct Auth :=
  x.updateSigner (.build width x.tree x.lens [] [])

/-- `signer_sync`, wallet/mod.rs:487-498: one request with its errors; `none` is a panic. -/
def walletSync (bs : BinSearch) (L : Layout K (List Asset)) (P : Params U N K Leaf) (max : Nat)
    (shard : Leaf → Nat) (s : Wallet × Signer N K Leaf) (d : SyncData U N) :
    Option (Except WalletError Unit × Wallet × Signer N K Leaf) :=
  match sync bs L P max shard s.2 s.1.checkpoint d with
  | (.ok r, g') => (processSync bs max s.1 (.ok r)).map fun x => (x.1, x.2, g')
  | (.err e, g') => (processSync bs max s.1 (.error e)).map fun x => (x.1, x.2, g')
  | (.panic, _) => none

/-- `reset_state`, wallet/mod.rs:178-181. -/
def resetWallet (width : Nat) : Wallet := ⟨⟨List.replicate width 0, 0⟩, []⟩

/-- `load_initial_state`, wallet/mod.rs:239-241, after `reset_state`: a request with the default checkpoint and no
data. -/
def restart (bs : BinSearch) (L : Layout K (List Asset)) (P : Params U N K Leaf) (max : Nat)
    (shard : Leaf → Nat) (width : Nat) (g : Signer N K Leaf) : Option (Except WalletError Unit × Wallet × Signer N K Leaf) :=
  walletSync bs L P max shard (resetWallet width, g) ⟨[], []⟩

/-! ## Initial synchronization -/

/-- `InitialSyncRequest`, signer/mod.rs:251-268. The witnesses are only counted here (see C100 for their use). -/
structure InitialRequest (Leaf : Type) where
  items : List (List Leaf)
  witnesses : Nat
  count : Nat

/-- `sort_items`, manta-crypto/src/merkle_tree/forest.rs:594-603. -/
def sortItems (width : Nat) (shard : Leaf → Nat) (ls : List Leaf) : List (List Leaf) :=
  ls.foldl (fun r l => r.modify (shard l) (· ++ [l])) (List.replicate width [])

/-- `InitialSyncData`, signer/mod.rs:195-213. -/
structure InitialData (U : Type) where
  utxos : List U
  witnesses : Nat
  count : Nat

/-- `from_initial_sync_data`, signer/mod.rs:276-287. -/
def InitialRequest.ofData (P : Params U N K Leaf) (width : Nat) (shard : Leaf → Nat) (d : InitialData U) :
    InitialRequest Leaf :=
  ⟨sortItems width shard (d.utxos.map P.leaf), d.witnesses, d.count⟩

/-- `extend`, signer/mod.rs:291-298. -/
def InitialRequest.extend (r more : InitialRequest Leaf) : InitialRequest Leaf :=
  ⟨List.zipWith (· ++ ·) r.items more.items ++ r.items.drop more.items.length, more.witnesses, more.count⟩

/-- The loop of `Wallet::initial_sync`, wallet/mod.rs:331-348, over the answers of the ledger. -/
def InitialRequest.collect (P : Params U N K Leaf) (width : Nat) (shard : Leaf → Nat) (ds : List (InitialData U)) :
    InitialRequest Leaf :=
  ds.foldl (fun r d => r.extend (.ofData P width shard d)) ⟨List.replicate width [], width, 0⟩

/-- `intial_sync`, functions.rs:1464-1525, with the assertion of `from_items_and_witnesses`, forest.rs:586; `none` is a
panic. All leaves of the new accumulator are without proof. -/
def initialSync (width : Nat) (g : Signer N K Leaf) (r : InitialRequest Leaf) : Option (SyncResponse × Signer N K Leaf) :=
  if r.witnesses = width ∧ r.items.length = width then
    let lens := r.items.map List.length
    let cp : Checkpoint := ⟨List.zipWith Nat.max (List.replicate width 0) lens, r.count % 2 ^ 64⟩
    some (⟨cp, .full []⟩, ⟨[], g.nulls, cp, r.items.flatten.map .insertNonprovable, lens⟩)
  else none

/-- `Wallet::initial_sync`, wallet/mod.rs:324-351. -/
def walletInitial (bs : BinSearch) (P : Params U N K Leaf) (max width : Nat) (shard : Leaf → Nat)
    (s : Wallet × Signer N K Leaf) (ds : List (InitialData U)) : Option (Except WalletError Unit × Wallet × Signer N K Leaf) :=
  match initialSync width s.2 (.collect P width shard ds) with
  | none => none
  | some (r, g') => (processSync bs max s.1 (.ok r)).map fun x => (x.1, x.2, g')

/-! ## C97 -/

/-- C97: a signer that is built from the storage state of another one, and gets its accounts, is in the same state, so
it answers every further request alike; this does not depend on what was in the signer that is overwritten. -/
theorem c97_restored (authOf : Acct → Auth) (a : Acct) (width : Nat) (st st0 : State N K Leaf Acct Auth) :
    ((Storage.fromSigner st).updateSigner st0).loadAccounts authOf a = st.loadAccounts authOf a ∧
    ((Storage.fromSigner st).initializeSigner width).loadAccounts authOf a = st.loadAccounts authOf a := ⟨rfl, rfl⟩

/-- C97: a new signer is the start of the histories of C56, locked: nothing received, every shard at position zero. -/
theorem c97_fresh (width : Nat) :
    (State.new width : State N K Leaf Acct Auth).core = (sysInit width).2 ∧
    (State.new width : State N K Leaf Acct Auth).core.checkpoint = ⟨List.replicate width 0, 0⟩ ∧
    (State.new width : State N K Leaf Acct Auth).auth = none ∧
    (State.new width : State N K Leaf Acct Auth).accounts = none := by
  refine ⟨?_, ?_, rfl, rfl⟩ <;> simp [State.new, State.build, sysInit, fromAccumulator]

/-- C97: a restored signer has no keys: until accounts are loaded it refuses to synchronize and keeps its state. The same after the keys were dropped, which removes
the accounts with them; dropping only the accounts keeps the ability to synchronize. Nothing else is lost. -/
theorem c97_locked (bs : BinSearch) (L : Layout K (List Asset)) (P : Auth → Params U N K Leaf) (max : Nat)
    (shard : Leaf → Nat) (width : Nat) (x : Storage N K Leaf) (st : State N K Leaf Acct Auth) (origin : Checkpoint)
    (d : SyncData U N) :
    State.sync bs L P max shard (x.initializeSigner width : State N K Leaf Acct Auth) origin d =
      (.err .missingKey, x.initializeSigner width) ∧
    State.sync bs L P max shard st.dropAuth origin d = (.err .missingKey, st.dropAuth) ∧
    (st.dropAuth.auth = none ∧ st.dropAuth.accounts = none ∧
      Storage.fromSigner st.dropAuth = Storage.fromSigner st) ∧
    (st.dropAccounts.accounts = none ∧ st.dropAccounts.auth = st.auth ∧
      Storage.fromSigner st.dropAccounts = Storage.fromSigner st) ∧
    (State.sync bs L P max shard st.dropAccounts origin d).1 = (State.sync bs L P max shard st origin d).1 := by
  refine ⟨rfl, rfl, ⟨rfl, rfl, rfl⟩, ⟨rfl, rfl, rfl⟩, ?_⟩
  unfold State.sync State.dropAccounts
  cases st.auth <;> rfl

theorem zipWith_zero (lens : List Nat) :
    List.zipWith Nat.max (List.replicate lens.length 0) lens = lens := by
  induction lens with
  | nil => rfl
  | cons a l ih =>
    rw [List.length_cons, List.replicate_succ, List.zipWith_cons_cons, ih]
    simp

theorem lexLt_irrefl' (a : List Nat) : lexLt a a = false := by
  induction a with
  | nil => rfl
  | cons x a ih => simp [lexLt, ih]

/-- What a history leaves behind. -/
theorem run_inv (bs : BinSearch) (L : Layout K (List Asset)) {P : Params U N K Leaf} {max : Nat}
    {shard : Leaf → Nat} {width : Nat} {ds : List (SyncData U N)} (hl : Ledger P (allUtxos ds))
    (hmax : ∀ id, bal (((allUtxos ds).filterMap P.openNote).map Prod.snd) id ≤ max)
    {s : Wallet × Signer N K Leaf} (h : sysAll bs L P max shard (sysInit width) ds = some s) :
    WInv P shard width (allUtxos ds) (allNulls ds) s ∧ s.2.lens.length = width := by
  obtain ⟨s', h1, h2⟩ := sysAll_inv bs L max shard width ds [] [] _ (winv_init P shard width)
    (by simpa using hl) (by simpa [opened] using hmax)
  rw [h] at h1
  cases h1
  simp only [List.nil_append] at h2
  exact ⟨h2, by rw [h2.lens, addRecv_length, List.length_replicate]⟩

/-- The synchronized part of a copy. -/
def cloneCore (width : Nat) (g : Signer N K Leaf) : Signer N K Leaf :=
  { g with checkpoint := fromAccumulator width g.lens }

theorem clone_core (width : Nat) (st : State N K Leaf Acct Auth) :
    (st.clone width).core = cloneCore width st.core ∧ (st.clone width).accounts = st.accounts ∧
    (st.clone width).auth = st.auth := ⟨rfl, rfl, rfl⟩

/-- C97: a copy of a signer that has seen no nullifier is the signer itself. -/
theorem c97_clone_partial (bs : BinSearch) (L : Layout K (List Asset)) (P : Params U N K Leaf) (max : Nat)
    (shard : Leaf → Nat) (width : Nat) (ds : List (SyncData U N)) (hl : Ledger P (allUtxos ds))
    (hmax : ∀ id, bal (((allUtxos ds).filterMap P.openNote).map Prod.snd) id ≤ max)
    (w : Wallet) (st : State N K Leaf Acct Auth)
    (h : sysAll bs L P max shard (sysInit width) ds = some (w, st.core)) (hn : allNulls ds = []) :
    st.clone width = st := by
  obtain ⟨h1, h2⟩ := run_inv bs L hl hmax h
  obtain ⟨acc, auth, ⟨assets, nulls, ⟨recv, send⟩, tree, lens⟩⟩ := st
  simp only at h1 h2
  have e1 := h1.recv
  have e2 := h1.send
  simp only [hn, List.length_nil] at e1 e2
  subst e1 e2
  simp only [State.clone, State.build, fromAccumulator, ← h2, zipWith_zero]

/-- C97 fails for copies: after any history with a nullifier, the copy reports to be behind the wallet. Whatever the
ledger returns, the first synchronization fails, and the wallet falls back to a checkpoint before the first
nullifier. -/
theorem c97_clone_violated (bs : BinSearch) (L : Layout K (List Asset)) (P : Params U N K Leaf) (max : Nat)
    (shard : Leaf → Nat) (width : Nat) (ds : List (SyncData U N)) (hl : Ledger P (allUtxos ds))
    (hmax : ∀ id, bal (((allUtxos ds).filterMap P.openNote).map Prod.snd) id ≤ max)
    (w : Wallet) (st : State N K Leaf Acct Auth)
    (h : sysAll bs L P max shard (sysInit width) ds = some (w, st.core)) (hn : allNulls ds ≠ []) (d : SyncData U N) :
    st.clone width ≠ st ∧
    (∃ r, walletSync bs L P max shard (w, st.core) ⟨[], []⟩ = some (.ok (), r)) ∧
    walletSync bs L P max shard (w, (st.clone width).core) d =
      some (.error .signerSynchronization, ⟨⟨w.checkpoint.recv, 0⟩, w.assets⟩, (st.clone width).core) := by
  obtain ⟨h1, h2⟩ := run_inv bs L hl hmax h
  have hrecv : (st.clone width).core.checkpoint = ⟨w.checkpoint.recv, 0⟩ := by
    have := h1.recv
    have := h1.same
    simp only at *
    simp only [State.clone, State.build, fromAccumulator, ← h2, zipWith_zero]
    simp_all
  have hsend : w.checkpoint.send ≠ 0 := by
    have e1 := h1.send
    have e2 := h1.same
    simp only at e1 e2
    rw [e2, e1]
    simpa using hn
  have hlt : Checkpoint.lt ⟨w.checkpoint.recv, 0⟩ w.checkpoint = true := by
    simp only [Checkpoint.lt, lexLt_irrefl', decide_true, Bool.true_and, Bool.false_or, decide_eq_true_eq]
    omega
  refine ⟨?_, ?_, ?_⟩
  · intro he
    have := congrArg (fun s : State N K Leaf Acct Auth => s.core.checkpoint.send) he
    simp only [hrecv] at this
    have e2 := h1.same
    simp only at e2
    rw [e2] at hsend
    exact hsend this.symm
  · obtain ⟨⟨w', g'⟩, e1, e2, _⟩ := wcore_step bs L max shard width h1.toWCore ⟨[], []⟩ (by simpa using hl)
      (by simpa [opened] using hmax)
    refine ⟨(w', g'), ?_⟩
    unfold sysStep at e1
    unfold walletSync
    split at e1
    · rename_i r g'' hr
      simp only at hr
      rw [hr]
      split at e1
      · rename_i hp
        simp only at hp
        cases e1
        simp only [hp, Option.map_some]
      · cases e1
    · cases e1
  · simp only [walletSync, sync, pruneRequest, hrecv, hlt, if_true, processSync, Option.map_some]

/-- C97: what happens then: the wallet with its lowered checkpoint and the copy follow the ledger, which sends all
nullifiers again, without further errors and with right balances. -/
theorem c97_clone_recovers (bs : BinSearch) (L : Layout K (List Asset)) (P : Params U N K Leaf) (max : Nat)
    (shard : Leaf → Nat) (width : Nat) (ds es : List (SyncData U N)) (hl : Ledger P (allUtxos ds ++ allUtxos es))
    (hmax : ∀ id, bal (((allUtxos ds ++ allUtxos es).filterMap P.openNote).map Prod.snd) id ≤ max)
    (w : Wallet) (st : State N K Leaf Acct Auth)
    (h : sysAll bs L P max shard (sysInit width) ds = some (w, st.core))
    (hsub : ∀ n ∈ allNulls ds, n ∈ allNulls es) :
    ∃ w' g', sysAll bs L P max shard (⟨⟨w.checkpoint.recv, 0⟩, w.assets⟩, (st.clone width).core) es = some (w', g') ∧
      w'.checkpoint = g'.checkpoint ∧ w'.checkpoint.send = (allNulls es).length ∧
      ∀ id, AList.value bs w'.assets id =
        bal ((((allUtxos ds ++ allUtxos es).filterMap P.openNote).filter fun c =>
          decide (¬ P.nullifier c.1 c.2 ∈ (allNulls es).filter P.openable)).map Prod.snd) id := by
  have hmax' : ∀ id, bal ((opened P (allUtxos ds ++ allUtxos es)).map Prod.snd) id ≤ max := hmax
  obtain ⟨h1, h2⟩ := run_inv bs L (ledger_prefix hl) (fun id =>
      Nat.le_trans (bal_sublist_le (by
        rw [opened_append]; exact List.Sublist.map _ (List.sublist_append_left _ _)) id) (hmax' id)) h
  have hcp : (st.clone width).core.checkpoint = ⟨w.checkpoint.recv, 0⟩ := by
    have e1 := h1.recv
    have e2 := h1.same
    simp only at e1 e2 h2
    simp only [State.clone, State.build, fromAccumulator, ← h2, zipWith_zero]
    rw [e2, e1]
  have hc : WCore P shard width (allUtxos ds) (allNulls ds)
      (⟨⟨w.checkpoint.recv, 0⟩, w.assets⟩, (st.clone width).core) := by
    refine ⟨h1.signer, h1.wf, h1.agree, hcp.symm, h1.lens, ?_⟩
    simp only [hcp]
    have e1 := h1.recv
    have e2 := h1.same
    simp only at e1 e2
    rw [e2, e1]; rfl
  obtain ⟨⟨w', g'⟩, e1, e2, e3⟩ := sysAll_core bs L max shard width es _ _ _ hc hl hmax'
  refine ⟨w', g', e1, e2.same, ?_, ?_⟩
  · have := e2.same
    simp only at this e3
    rw [this, e3, hcp]
    simp only [Nat.zero_add]
  · intro id
    have := wcore_value bs e2 hl id
    simp only at this
    rw [this]
    congr 2
    refine List.filter_congr fun c _ => ?_
    have : P.nullifier c.1 c.2 ∈ (allNulls ds ++ allNulls es).filter P.openable ↔
        P.nullifier c.1 c.2 ∈ (allNulls es).filter P.openable := by
      simp only [List.mem_filter, List.mem_append]
      constructor
      · rintro ⟨hm | hm, ho⟩
        · exact ⟨hsub _ hm, ho⟩
        · exact ⟨hm, ho⟩
      · rintro ⟨hm, ho⟩; exact ⟨.inr hm, ho⟩
    simp only [this]

/-! ## C98 -/

theorem lexLt_zero (n : Nat) (l : List Nat) (h : l.length = n) : lexLt l (List.replicate n 0) = false := by
  induction l generalizing n with
  | nil => subst h; rfl
  | cons a l ih =>
    subst h
    rw [List.length_cons, List.replicate_succ]
    simp only [lexLt, Nat.not_lt_zero, decide_false, Bool.false_or, ih _ rfl, Bool.and_false]

theorem lexLt_total (a b : List Nat) (h : lexLt a b = false) (h' : lexLt b a = false) : a = b := by
  induction a generalizing b with
  | nil => cases b with
    | nil => rfl
    | cons => cases h
  | cons x a ih => cases b with
    | nil => cases h'
    | cons y b =>
      simp only [lexLt, Bool.or_eq_false_iff, decide_eq_false_iff_not, Bool.and_eq_false_iff] at h h'
      have : x = y := by omega
      subst this
      rw [ih b (by simpa using h.2) (by simpa using h'.2)]

theorem Checkpoint.lt_total (a b : Checkpoint) (h : a.lt b = false) (h' : b.lt a = false) : a = b := by
  obtain ⟨r, n⟩ := a
  obtain ⟨r', n'⟩ := b
  simp only [Checkpoint.lt, Bool.or_eq_false_iff, Bool.and_eq_false_iff, decide_eq_false_iff_not] at h h'
  have := lexLt_total r r' h.1 h'.1
  subst this
  have h1 := h.2.resolve_left (by simp)
  have h2 := h'.2.resolve_left (by simp)
  have : n = n' := by omega
  rw [this]

theorem addRecv_zero (shard : Leaf → Nat) (width : Nat) (hsh : ∀ l, shard l < width) (ls : List Leaf)
    (h : addRecv shard (List.replicate width 0) ls = List.replicate width 0) : ls = [] := by
  cases ls with
  | nil => rfl
  | cons l ls =>
    have h1 := addRecv_get shard (l :: ls) (List.replicate width 0) (shard l)
    rw [h] at h1
    simp [List.getElem?_replicate, hsh l, perShard] at h1

theorem walletSync_of_sysStep {bs : BinSearch} {L : Layout K (List Asset)} {P : Params U N K Leaf} {max : Nat}
    {shard : Leaf → Nat} {s s' : Wallet × Signer N K Leaf} {d : SyncData U N}
    (h : sysStep bs L P max shard s d = some s') : walletSync bs L P max shard s d = some (.ok (), s') := by
  obtain ⟨w', g'⟩ := s'
  unfold sysStep at h
  unfold walletSync
  split at h
  · rename_i r g'' hr
    rw [hr]
    split at h
    · rename_i hp
      cases h
      simp only [hp, Option.map_some]
    · cases h
  · cases h

/-- C98: a restarted wallet gets, without reading from the ledger, the checkpoint and the balances of its signer; and
from there it follows every further history. -/
theorem c98_restart (bs : BinSearch) (L : Layout K (List Asset)) (P : Params U N K Leaf) (max : Nat)
    (shard : Leaf → Nat) (width : Nat) (hsh : ∀ l, shard l < width) (ds es : List (SyncData U N)) (hl : Ledger P (allUtxos ds ++ allUtxos es))
    (hmax : ∀ id, bal (((allUtxos ds ++ allUtxos es).filterMap P.openNote).map Prod.snd) id ≤ max)
    (w : Wallet) (g : Signer N K Leaf) (h : sysAll bs L P max shard (sysInit width) ds = some (w, g)) :
    ∃ w' g', restart bs L P max shard width g = some (.ok (), w', g') ∧
      w'.checkpoint = w.checkpoint ∧ (∀ id, AList.value bs w'.assets id = AList.value bs w.assets id) ∧
      ∃ w'' g'', sysAll bs L P max shard (w', g') es = some (w'', g'') ∧
        w''.checkpoint = g''.checkpoint ∧
        w''.checkpoint.send = (allNulls ds).length + (allNulls es).length ∧
        ∀ id, AList.value bs w''.assets id =
          bal ((((allUtxos ds ++ allUtxos es).filterMap P.openNote).filter fun c =>
            decide (¬ P.nullifier c.1 c.2 ∈ (allNulls ds ++ allNulls es).filter P.openable)).map Prod.snd) id := by
  have hmax' : ∀ id, bal ((opened P (allUtxos ds ++ allUtxos es)).map Prod.snd) id ≤ max := hmax
  have hmax0 : ∀ id, bal ((opened P (allUtxos ds)).map Prod.snd) id ≤ max := fun id =>
    Nat.le_trans (bal_sublist_le (by
      rw [opened_append]; exact List.Sublist.map _ (List.sublist_append_left _ _)) id) (hmax' id)
  obtain ⟨h1, h2⟩ := run_inv bs L (ledger_prefix hl) hmax0 h
  have key : ∃ s', sysStep bs L P max shard (resetWallet width, g) ⟨[], []⟩ = some s' ∧
      WCore P shard width (allUtxos ds) (allNulls ds) s' ∧ s'.2.checkpoint.send = g.checkpoint.send := by
    have hnot : g.checkpoint.lt ⟨List.replicate width 0, 0⟩ = false := by
      have hz := lexLt_zero width g.lens h2
      have hr := h1.recv
      simp only at hr
      simp only [Checkpoint.lt, hr, hz, Nat.not_lt_zero, decide_false, Bool.and_false, Bool.or_false]
    by_cases hlt : Checkpoint.lt ⟨List.replicate width 0, 0⟩ g.checkpoint = true
    · have hp : pruneRequest (fun u => shard (P.leaf u)) g.checkpoint (resetWallet width).checkpoint
          (⟨[], []⟩ : SyncData U N) = .ok (true, ⟨[], []⟩) := by
        simp [pruneRequest, resetWallet, hnot, prune, hlt, addRecv]
      obtain ⟨s', e1, e2, e3⟩ := wcore_full bs L max shard width h1.signer h1.lens h1.recv (resetWallet width) ⟨[], []⟩
        ⟨[], []⟩ hp (by simpa using ledger_prefix hl) (by simpa using hmax0)
      exact ⟨s', e1, by simpa using e2, e3⟩
    · have hlt : Checkpoint.lt ⟨List.replicate width 0, 0⟩ g.checkpoint = false := by simpa using hlt
      have hcp : g.checkpoint = ⟨List.replicate width 0, 0⟩ := Checkpoint.lt_total _ _ hnot hlt
      have hus : allUtxos ds = [] := by
        have hr := h1.recv
        have hle := h1.lens
        simp only at hr hle
        rw [hcp] at hr
        simp only at hr
        rw [← hr] at hle
        simpa using addRecv_zero shard width hsh _ hle.symm
      have hst : ∀ id, stock g.assets id = 0 := by
        intro id
        have := sinv_stock_le h1.signer (ledger_prefix hl) id
        rw [hus] at this
        simpa [opened] using this
      have hc : WCore P shard width (allUtxos ds) (allNulls ds) (resetWallet width, g) :=
        ⟨h1.signer, wf_nil, fun id => (hst id).symm, hcp.symm, h1.lens, h1.recv⟩
      obtain ⟨s', e1, e2, e3⟩ := wcore_step bs L max shard width hc ⟨[], []⟩ (by simpa using ledger_prefix hl)
        (by simpa using hmax0)
      exact ⟨s', e1, by simpa using e2, e3⟩
  obtain ⟨⟨w', g'⟩, e1, e2, e3⟩ := key
  obtain ⟨⟨w2, g2⟩, f1, f2, f3⟩ := sysAll_core bs L max shard width es _ _ _ e2 hl hmax'
  have hsend : g'.checkpoint.send = (allNulls ds).length := by
    have := h1.send
    simp only at e3 this
    rw [e3, this]
  refine ⟨w', g', walletSync_of_sysStep e1, ?_, ?_, w2, g2, f1, f2.same, ?_, ?_⟩
  · have a1 := e2.same
    have a2 := e2.recv
    have a3 := e2.lens
    have b1 := h1.same
    have b2 := h1.recv
    have b3 := h1.lens
    have b4 := h1.send
    simp only at a1 a2 a3 b1 b2 b3 b4
    rw [a1, b1]
    have hr : g'.checkpoint.recv = g.checkpoint.recv := by rw [a2, a3, b2, b3]
    have hn : g'.checkpoint.send = g.checkpoint.send := by rw [hsend, b4]
    show (⟨g'.checkpoint.recv, g'.checkpoint.send⟩ : Checkpoint) = ⟨g.checkpoint.recv, g.checkpoint.send⟩
    rw [hr, hn]
  · intro id
    rw [wcore_value bs e2 (ledger_prefix hl) id, wcore_value bs h1.toWCore (ledger_prefix hl) id]
  · have := f2.same
    simp only at this f3
    rw [this, f3, hsend]
  · exact fun id => wcore_value bs f2 hl id

/-! ## C99 -/

theorem sortItems_spec (width : Nat) (shard : Leaf → Nat) (ls : List Leaf) :
    sortItems width shard ls = (List.range width).map fun i => perShard shard ls i := by
  suffices h : ∀ (ls pre : List Leaf), ls.foldl (fun r l => r.modify (shard l) (· ++ [l]))
      ((List.range width).map fun i => perShard shard pre i) =
        (List.range width).map fun i => perShard shard (pre ++ ls) i by
    have := h ls []
    rw [List.nil_append] at this
    rw [← this, sortItems]
    congr 1
    apply List.ext_getElem? 
    intro i
    simp [List.getElem?_replicate, List.getElem?_map, perShard]
    by_cases hi : i < width
    · simp [hi, List.getElem?_range hi]
    · simp [hi]
  intro ls
  induction ls with
  | nil => intro pre; simp
  | cons l ls ih =>
    intro pre
    rw [List.foldl_cons]
    have : (((List.range width).map fun i => perShard shard pre i).modify (shard l) (· ++ [l])) =
        (List.range width).map fun i => perShard shard (pre ++ [l]) i := by
      apply List.ext_getElem?
      intro i
      rw [List.getElem?_modify]
      simp only [List.getElem?_map, perShard, List.filter_append]
      rcases Nat.lt_or_ge i width with hi | hi
      · rw [List.getElem?_range hi]
        by_cases he : shard l = i
        · simp [he]
        · simp [he]
      · rw [List.getElem?_eq_none (by simpa using hi)]
        simp
    rw [this, ih, List.append_assoc]
    rfl

theorem collect_spec (P : Params U N K Leaf) (width : Nat) (shard : Leaf → Nat) (ds : List (InitialData U)) :
    (InitialRequest.collect P width shard ds).items =
      (List.range width).map fun i => perShard shard ((ds.flatMap InitialData.utxos).map P.leaf) i := by
  suffices h : ∀ (ds : List (InitialData U)) (pre : List Leaf) (r : InitialRequest Leaf),
      r.items = ((List.range width).map fun i => perShard shard pre i) →
      (ds.foldl (fun r d => r.extend (.ofData P width shard d)) r).items =
        (List.range width).map fun i => perShard shard (pre ++ (ds.flatMap InitialData.utxos).map P.leaf) i by
    have := h ds [] ⟨List.replicate width [], width, 0⟩ (by simp [perShard, List.map_const'])
    rw [List.nil_append] at this
    exact this
  intro ds
  induction ds with
  | nil => intro pre r h; simpa using h
  | cons d ds ih =>
    intro pre r h
    rw [List.foldl_cons, ih (pre ++ d.utxos.map P.leaf)]
    · simp
    · simp only [InitialRequest.extend, InitialRequest.ofData, sortItems_spec, h]
      rw [List.drop_eq_nil_of_le (by simp), List.append_nil]
      apply List.ext_getElem?
      intro i
      simp only [List.getElem?_zipWith, List.getElem?_map, perShard, List.filter_append]
      rcases Nat.lt_or_ge i width with hi | hi
      · rw [List.getElem?_range hi]; rfl
      · rw [List.getElem?_eq_none (by simpa using hi)]; rfl

theorem pruneShards_mem (shard : U → Nat) (us : List U) (os ss : List Nat) : ∀ (i : Nat) (r : List U) (b : Bool),
    pruneShards shard us i os ss = some (r, b) → ∀ u ∈ r, u ∈ us := by
  induction os generalizing ss with
  | nil => intro i r b h u hu; simp only [pruneShards] at h; cases h; cases hu
  | cons o os ih =>
    cases ss with
    | nil => intro i r b h u hu; simp only [pruneShards] at h; cases h; cases hu
    | cons x ss =>
      intro i r b h u hu
      simp only [pruneShards] at h
      split at h
      · split at h
        · cases h
        · rename_i rest b' hr
          split at h
          · cases h
            exact ih ss _ _ _ hr u hu
          · cases h
            rcases List.mem_append.1 hu with hu | hu
            · exact (List.mem_filter.1 (List.mem_of_mem_drop hu)).1
            · exact ih ss _ _ _ hr u hu
      · cases h

theorem pruneRequest_mem (shard : U → Nat) (signer origin : Checkpoint) (data d : SyncData U N) (b : Bool)
    (h : pruneRequest shard signer origin data = .ok (b, d)) : ∀ u ∈ d.utxos, u ∈ data.utxos := by
  intro u hu
  unfold pruneRequest at h
  split at h
  · cases h
  · split at h
    · cases h
    · rename_i d' b' hp
      cases h
      unfold prune at hp
      split at hp
      · cases hp; exact hu
      · simp only at hp
        split at hp
        · cases hp; cases hu
        · split at hp
          · split at hp
            · split at hp
              · cases hp
              · rename_i hr
                cases hp
                exact pruneShards_mem _ _ _ _ _ _ _ hr u hu
            · cases hp
          · cases hp

/-- `P` without the notes of certain UTXOs. -/
noncomputable def Params.hide (P : Params U N K Leaf) (H : U → Prop) : Params U N K Leaf :=
  { P with openNote := fun u => open Classical in if H u then none else P.openNote u }

theorem hide_retainList (P : Params U N K Leaf) (H : U → Prop) (k : K) (as : List Asset) (s : RetSt N Leaf) :
    retainList (P.hide H) k as s = retainList P k as s := by
  induction as generalizing s with
  | nil => rfl
  | cons a as ih => simp only [retainList, ih]; rfl

theorem hide_retainMap (P : Params U N K Leaf) (H : U → Prop) (m : AMap K) (s : RetSt N Leaf) :
    retainMap (P.hide H) m s = retainMap P m s := by
  induction m generalizing s with
  | nil => rfl
  | cons a as ih => simp only [retainMap, ih, hide_retainList]

theorem hide_core (bs : BinSearch) (L : Layout K (List Asset)) (P : Params U N K Leaf) (H : U → Prop)
    (m : AMap K) (nulls : List N) (us : List U) (nd : List N) (h : ∀ u ∈ us, ¬ H u) :
    syncCore bs L (P.hide H) m nulls us nd = syncCore bs L P m nulls us nd := by
  have hf : ∀ (us : List U) (s : SyncSt N K Leaf), (∀ u ∈ us, ¬ H u) →
      us.foldl (syncStep bs L (P.hide H)) s = us.foldl (syncStep bs L P) s := by
    intro us
    induction us with
    | nil => intro s _; rfl
    | cons u us ih =>
      intro s hu
      rw [List.foldl_cons, List.foldl_cons, ih _ fun u hu' => hu u (List.mem_cons_of_mem _ hu')]
      congr 1
      have : (P.hide H).openNote u = P.openNote u := if_neg (hu u List.mem_cons_self)
      simp only [syncStep, this]
      rfl
  unfold syncCore
  simp only [hide_retainMap, hf us _ h]
  rfl

theorem hide_sync (bs : BinSearch) (L : Layout K (List Asset)) (P : Params U N K Leaf) (H : U → Prop) (max : Nat)
    (shard : Leaf → Nat) (g : Signer N K Leaf) (origin : Checkpoint) (d : SyncData U N)
    (h : ∀ u ∈ d.utxos, ¬ H u) : sync bs L (P.hide H) max shard g origin d = sync bs L P max shard g origin d := by
  have hp : pruneRequest (fun u => shard ((P.hide H).leaf u)) g.checkpoint origin d =
    pruneRequest (fun u => shard (P.leaf u)) g.checkpoint origin d := rfl
  unfold sync
  rw [hp]
  split
  · rfl
  · rfl
  · rename_i b d' hd
    rw [hide_core bs L P H _ _ _ _ fun u hu => h u (pruneRequest_mem _ _ _ _ _ _ hd u hu)]

theorem hide_sysAll (bs : BinSearch) (L : Layout K (List Asset)) (P : Params U N K Leaf) (H : U → Prop) (max : Nat)
    (shard : Leaf → Nat) (ds : List (SyncData U N)) (h : ∀ u ∈ allUtxos ds, ¬ H u) (s : Wallet × Signer N K Leaf) :
    sysAll bs L (P.hide H) max shard s ds = sysAll bs L P max shard s ds := by
  induction ds generalizing s with
  | nil => rfl
  | cons d ds ih =>
    have h1 : ∀ u ∈ d.utxos, ¬ H u := fun u hu => h u (by simp [allUtxos, hu])
    have h2 : ∀ u ∈ allUtxos ds, ¬ H u := fun u hu => h u (by
      simp only [allUtxos, List.flatMap_cons, List.mem_append]; exact .inr hu)
    have e : sysStep bs L (P.hide H) max shard s d = sysStep bs L P max shard s d := by
      unfold sysStep
      rw [hide_sync bs L P H max shard _ _ _ h1]
    unfold sysAll at ih ⊢
    rw [List.foldlM_cons, List.foldlM_cons, e]
    congr 1
    funext s'
    exact ih h2 s'

theorem hide_opened (P : Params U N K Leaf) (H : U → Prop) (us : List U) (h : ∀ u ∈ us, H u) :
    opened (P.hide H) us = [] := by
  rw [opened, List.filterMap_eq_nil_iff]
  intro u hu
  exact if_pos (h u hu)

theorem hide_opened_rest (P : Params U N K Leaf) (H : U → Prop) (us : List U) (h : ∀ u ∈ us, ¬ H u) :
    opened (P.hide H) us = opened P us := by
  induction us with
  | nil => rfl
  | cons u us ih =>
    have e : (P.hide H).openNote u = P.openNote u := if_neg (h u List.mem_cons_self)
    have ih := ih fun u hu => h u (List.mem_cons_of_mem _ hu)
    unfold opened at ih ⊢
    rw [List.filterMap_cons, List.filterMap_cons, e, ih]

theorem collect_last (P : Params U N K Leaf) (width : Nat) (shard : Leaf → Nat) (ds : List (InitialData U))
    (x : InitialData U) :
    (InitialRequest.collect P width shard (ds ++ [x])).witnesses = x.witnesses ∧
    (InitialRequest.collect P width shard (ds ++ [x])).count = x.count := by
  unfold InitialRequest.collect
  rw [List.foldl_append]
  exact ⟨rfl, rfl⟩

theorem inserted_flat (ls : List Leaf) : inserted (ls.map TreeOp.insertNonprovable) = ls := inserted_nonprovable ls

/-- Grouping by shard loses nothing: the groups are the lists of the single shards. -/
theorem grouped_shard (P : Params U N K Leaf) (shard : Leaf → Nat) (width : Nat) (us : List U) (i : Nat)
    (hi : i < width) :
    perShard shard (((List.range width).flatMap fun j => perShard (fun u => shard (P.leaf u)) us j).map P.leaf) i =
      perShard shard (us.map P.leaf) i := by
  have key : ∀ l : List Nat, l.Nodup → perShard shard
      ((l.flatMap fun j => perShard (fun u => shard (P.leaf u)) us j).map P.leaf) i =
        if i ∈ l then perShard shard (us.map P.leaf) i else [] := by
    intro l hl
    induction l with
    | nil => rfl
    | cons j l ih =>
      rw [List.nodup_cons] at hl
      have ih := ih hl.2
      simp only [perShard, List.flatMap_cons, List.map_append, List.filter_append] at ih ⊢
      rw [ih]
      have e : ((us.filter fun u => decide (shard (P.leaf u) = j)).map P.leaf).filter (fun l => decide (shard l = i)) =
          if i = j then (us.map P.leaf).filter (fun l => decide (shard l = i)) else [] := by
        rw [List.filter_map, List.filter_map, List.filter_filter]
        by_cases hij : i = j
        · subst hij
          simp [Function.comp_def]
        · rw [if_neg hij, List.map_eq_nil_iff, List.filter_eq_nil_iff]
          intro u _
          simp only [Function.comp_def, Bool.and_eq_true, decide_eq_true_eq, not_and]
          intro h1 h2
          exact hij (h1.symm.trans h2)
      rw [e]
      by_cases hij : i = j
      · subst hij
        simp [hl.1]
      · simp [hij]
  rw [key _ List.nodup_range, if_pos (List.mem_range.2 hi)]

/-- C99: an initial synchronization, whatever wallet and signer held before, ends with a checkpoint that counts exactly
the UTXOs that the ledger listed, per shard, and the nullifiers; with empty balances; and with a state from which wallet
and signer follow every further history: the coins that arrive later are tracked exactly. -/
theorem c99_initial (bs : BinSearch) (L : Layout K (List Asset)) (P : Params U N K Leaf) (max : Nat)
    (shard : Leaf → Nat) (width : Nat) (s : Wallet × Signer N K Leaf) (hs : ∀ n ∈ s.2.nulls, P.openable n = true)
    (ds : List (InitialData U)) (x : InitialData U) (hx : x.witnesses = width) :
    ∃ w g, walletInitial bs P max width shard s (ds ++ [x]) = some (.ok (), w, g) ∧
      w.checkpoint = g.checkpoint ∧ w.checkpoint.send = x.count % 2 ^ 64 ∧ w.checkpoint.recv.length = width ∧
      (∀ i, i < width → w.checkpoint.recv[i]? =
        some ((((ds ++ [x]).flatMap InitialData.utxos).filter fun u => decide (shard (P.leaf u) = i)).length)) ∧
      (∀ id, AList.value bs w.assets id = 0) ∧
      ∀ es : List (SyncData U N), Ledger P (allUtxos es) →
        (∀ u ∈ allUtxos es, u ∉ (ds ++ [x]).flatMap InitialData.utxos) →
        (∀ id, bal (((allUtxos es).filterMap P.openNote).map Prod.snd) id ≤ max) →
        ∃ w' g', sysAll bs L P max shard (w, g) es = some (w', g') ∧ w'.checkpoint = g'.checkpoint ∧
          w'.checkpoint.send = x.count % 2 ^ 64 + (allNulls es).length ∧
          ∀ id, AList.value bs w'.assets id =
            bal ((((allUtxos es).filterMap P.openNote).filter fun c =>
              decide (¬ P.nullifier c.1 c.2 ∈ (s.2.nulls ++ allNulls es).filter P.openable)).map Prod.snd) id := by
  obtain ⟨w0, g0⟩ := s
  have hit := collect_spec P width shard (ds ++ [x])
  obtain ⟨hw, hc⟩ := collect_last P width shard ds x
  unfold walletInitial
  generalize InitialRequest.collect P width shard (ds ++ [x]) = r at hit hw hc ⊢
  generalize (ds ++ [x]).flatMap InitialData.utxos = us at hit ⊢
  have hlen : r.items.length = width := by rw [hit]; simp
  have hlens : (r.items.map List.length).length = width := by rw [List.length_map, hlen]
  have hz : List.zipWith Nat.max (List.replicate width 0) (r.items.map List.length) = r.items.map List.length := by
    have := zipWith_zero (r.items.map List.length)
    rwa [hlens] at this
  have hget : ∀ i, i < width → (r.items.map List.length)[i]? =
      some ((us.filter fun u => decide (shard (P.leaf u) = i)).length) := by
    intro i hi
    rw [hit, List.map_map, List.getElem?_map, List.getElem?_range hi]
    simp [perShard, List.filter_map, Function.comp_def]
  simp only [initialSync, hw, hx, hlen, and_self, if_true, hz, hc, processSync, AList.depositAll, Option.map_some]
  refine ⟨_, _, rfl, rfl, rfl, hlens, hget, fun id => by rw [AList.c16_value bs _ wf_nil]; rfl, ?_⟩
  intro es hl hdis hmax
  let us' := (List.range width).flatMap fun j => perShard (fun u => shard (P.leaf u)) us j
  have hmem : ∀ u ∈ us', u ∈ us := by
    intro u hu
    obtain ⟨j, _, hu⟩ := List.mem_flatMap.1 hu
    exact (List.mem_filter.1 hu).1
  have hleaf : r.items.flatten = us'.map P.leaf := by
    rw [hit, List.map_flatMap, List.flatMap_def]
    congr 1
    refine List.map_congr_left fun i _ => ?_
    simp only [perShard, List.filter_map, Function.comp_def]
  have ho : opened (P.hide (· ∈ us)) us' = [] := hide_opened P _ us' hmem
  have he : opened (P.hide (· ∈ us)) (us' ++ allUtxos es) = opened P (allUtxos es) := by
    rw [opened_append, ho, List.nil_append, hide_opened_rest P _ _ hdis]
  have hcore : WCore (P.hide (· ∈ us)) shard width us' g0.nulls
      ((⟨⟨r.items.map List.length, x.count % 2 ^ 64⟩, []⟩ : Wallet),
        (⟨[], g0.nulls, ⟨r.items.map List.length, x.count % 2 ^ 64⟩, r.items.flatten.map .insertNonprovable,
          r.items.map List.length⟩ : Signer N K Leaf)) := by
    refine ⟨⟨⟨List.nodup_nil, by simp, by simp⟩, by simp [ho, Stored], ?_, ?_, ?_, by simp [Stored]⟩, wf_nil,
      fun id => rfl, rfl, ?_, rfl⟩
    · intro n hn
      exact List.mem_filter.2 ⟨hn, hs n hn⟩
    · intro n _ hn
      exact (List.mem_filter.1 hn).1
    · simp only
      rw [inserted_flat, hleaf]; rfl
    · simp only
      apply List.ext_getElem?
      intro i
      rw [addRecv_get]
      rcases Nat.lt_or_ge i width with hi | hi
      · rw [hget i hi, List.getElem?_replicate, if_pos hi, Option.map_some, Nat.zero_add]
        have := grouped_shard P shard width us i hi
        show _ = some (perShard shard (us'.map P.leaf) i).length
        rw [this]
        simp [perShard, List.filter_map, Function.comp_def]
      · rw [List.getElem?_eq_none (by rw [hlens]; exact hi), List.getElem?_eq_none (by simpa using hi)]
        rfl
  have hled : Ledger (P.hide (· ∈ us)) (us' ++ allUtxos es) := by
    refine ⟨?_, by rw [he]; exact hl.once, by rw [he]; exact hl.nullifiers, by rw [he]; exact hl.leaves⟩
    intro u hu k a hk
    rcases List.mem_append.1 hu with hu | hu
    · have : (P.hide (· ∈ us)).openNote u = none := if_pos (hmem u hu)
      rw [this] at hk; cases hk
    · have : (P.hide (· ∈ us)).openNote u = P.openNote u := if_neg (hdis u hu)
      rw [this] at hk
      exact hl.leaf u hu k a hk
  obtain ⟨⟨w', g'⟩, f1, f2, f3⟩ := sysAll_core bs L max shard width es _ _ _ hcore hled (by
    intro id; rw [he]; exact hmax id)
  rw [hide_sysAll bs L P _ max shard es hdis] at f1
  refine ⟨w', g', f1, f2.same, ?_, ?_⟩
  · have := f2.same
    simp only at this f3
    rw [this, f3]
  · intro id
    have := wcore_value bs f2 hled id
    simp only at this
    have he' : (us' ++ allUtxos es).filterMap (P.hide (· ∈ us)).openNote = (allUtxos es).filterMap P.openNote := he
    rw [this, he']
    rfl

/-- C99: it panics unless the last answer of the ledger brings one membership proof per shard. -/
theorem c99_panics_iff (bs : BinSearch) (P : Params U N K Leaf) (max : Nat) (shard : Leaf → Nat) (width : Nat)
    (s : Wallet × Signer N K Leaf) (ds : List (InitialData U)) (x : InitialData U) :
    walletInitial bs P max width shard s (ds ++ [x]) = none ↔ x.witnesses ≠ width := by
  obtain ⟨hw, hc⟩ := collect_last P width shard ds x
  have hlen : (InitialRequest.collect P width shard (ds ++ [x])).items.length = width := by
    rw [collect_spec]; simp
  unfold walletInitial
  generalize InitialRequest.collect P width shard (ds ++ [x]) = r at hw hlen ⊢
  by_cases h : x.witnesses = width
  · simp [initialSync, hw, hlen, h, processSync, AList.depositAll]
  · simp [initialSync, hw, h]

/-! ## Concrete cases -/

/-- A signer after the three batches of `toyData`, with a copy and a wallet. -/
def toyState : State Nat Nat Nat Nat Nat :=
  match sysAll linSearch idLayout toy 100 (· % 2) (sysInit 2) toyData with
  | some s => ⟨some 1, some 2, s.2⟩
  | none => .new 2

example : toyState.core.checkpoint = ⟨[2, 4], 3⟩ ∧ (toyState.clone 2).core.checkpoint = ⟨[2, 4], 0⟩ ∧
    (toyState.clone 2).auth = some 2 := by decide +kernel

/-- The hypotheses of `c97_clone_violated` and `c98_restart`. -/
example : (∃ w, sysAll linSearch idLayout toy 100 (· % 2) (sysInit 2) toyData = some (w, toyState.core)) ∧
    allNulls toyData ≠ [] ∧ ∀ l, (fun l : Nat => l % 2) l < 2 := by
  refine ⟨⟨⟨⟨[2, 4], 3⟩, [⟨1, 16⟩]⟩, by decide +kernel⟩, by decide, fun l => ?_⟩
  simp only
  omega

/-- Then the ledger sends all nullifiers again, and a coin 11. -/
example : (sysAll linSearch idLayout toy 100 (· % 2) (⟨⟨[2, 4], 0⟩, [⟨1, 16⟩]⟩, (toyState.clone 2).core)
    [⟨[11], [5, 2, 3]⟩]).map (fun s => (AList.value linSearch s.1.assets 1, s.1.checkpoint)) =
      some (27, ⟨[2, 5], 3⟩) := by decide +kernel

example : (restart linSearch idLayout toy 100 (· % 2) 2 toyState.core).map (fun r => r.2.1) =
    some ⟨⟨[2, 4], 3⟩, [⟨1, 16⟩]⟩ := by decide +kernel

/-- An initial synchronization in two answers, then coins 21 and 23, of which 21 is spent. -/
example : (walletInitial linSearch toy 100 2 (· % 2) (sysInit 2) [⟨[3, 4], 2, 0⟩, ⟨[5, 7, 8], 2, 6⟩]).bind
    (fun r => (sysAll linSearch idLayout toy 100 (· % 2) r.2 [⟨[21, 23], [3, 21]⟩]).map fun s =>
      (r.2.1.checkpoint, s.1.checkpoint, AList.value linSearch s.1.assets 1)) =
      some (⟨[2, 3], 6⟩, ⟨[2, 5], 8⟩, 23) := by decide +kernel

example : Ledger toy [21, 23] ∧ (∀ u ∈ [21, 23], u ∉ [3, 4, 5, 7, 8]) :=
  ⟨⟨by
    intro u _ k a h
    simp only [toy] at h ⊢
    split at h
    · simp only [Option.some.injEq, Prod.mk.injEq] at h; exact h.1.symm
    · (cases h), by decide, by decide, by decide⟩, by decide⟩

/-- C57: an error of the signer can come after its state has changed: here the deposits of one request add up to more
than the value type holds; the signer has moved on and stored the coins, the wallet reports an error and keeps its
checkpoint. -/
theorem c57_failed_violated :
    let s := (sysInit 1 : Wallet × Signer Nat Nat Nat)
    (walletSync linSearch idLayout toy 100 (fun _ => 0) s ⟨[55, 65], []⟩).map (fun r =>
      (r.1.isOk, r.2.1.checkpoint, r.2.2.checkpoint, assetVector r.2.2.assets)) =
      some (false, ⟨[0], 0⟩, ⟨[2], 0⟩, [(65, ⟨1, 65⟩), (55, ⟨1, 55⟩)]) := by decide +kernel

end Verif.Wallet
