import Verif.Wallet.Sync
import Verif.Wallet.Prune
import Verif.Asset.Props

/-!
# C25 (wallet follows the signer), C55 (coin tracking), C56 (balances over histories), C57 (checkpoints)
-/

set_option linter.unusedSectionVars false

namespace Verif.Wallet

open Verif.Asset Verif.Asset.AMap

variable {U N K Leaf : Type} [DecidableEq N] [DecidableEq K]

/-! ## C25 -/

/-- A full update replaces all balances by the totals of the reported assets. -/
theorem c25_full (bs : BinSearch) (max : Nat) (w : Wallet) (cp : Checkpoint) (as : List Asset)
    (ha : ∀ a ∈ as, a.value ≤ max) (hb : ∀ id, bal as id ≤ max) :
    ∃ w', processSync bs max w (.ok ⟨cp, .full as⟩) = some (.ok (), w') ∧ w'.checkpoint = cp ∧
      WF w'.assets ∧ ∀ id, AList.value bs w'.assets id = bal as id := by
  obtain ⟨h1, h2⟩ := AList.depositAll_spec bs max as [] wf_nil (by simp) ha
  rcases hd : AList.depositAll bs max [] as with _ | l
  · obtain ⟨id, hid⟩ := h1.mp hd
    have := hb id
    simp only [bal_nil] at hid
    omega
  · obtain ⟨k1, k2⟩ := h2 l hd
    refine ⟨⟨cp, l⟩, by simp [processSync, hd], rfl, k1, ?_⟩
    intro id
    rw [AList.c16_value bs l k1, k2]; simp

/-- A partial update: accepted iff the withdrawals are covered by old balance plus deposits; then every
balance changes by deposits minus withdrawals and the checkpoint is the reported one. Otherwise the error
is reported and the checkpoint stays. -/
theorem c25_partial_update (bs : BinSearch) (max : Nat) (w : Wallet) (cp : Checkpoint) (dep wit : List Asset)
    (hw : WF w.assets) (hd : ∀ a ∈ dep, a.value ≤ max) (hwi : ∀ a ∈ wit, a.value ≤ max)
    (hb : ∀ id, bal w.assets id + bal dep id ≤ max) (hbw : ∀ id, bal wit id ≤ max) :
    ∃ res w', processSync bs max w (.ok ⟨cp, .partialUpdate dep wit⟩) = some (res, w') ∧ WF w'.assets ∧
      ((∀ id, bal wit id ≤ AList.value bs w.assets id + bal dep id) →
        res = .ok () ∧ w'.checkpoint = cp ∧
        ∀ id, AList.value bs w'.assets id + bal wit id = AList.value bs w.assets id + bal dep id) ∧
      ((∃ id, AList.value bs w.assets id + bal dep id < bal wit id) →
        res = .error .walletBalance ∧ w'.checkpoint = w.checkpoint) := by
  obtain ⟨h1, h2⟩ := AList.depositAll_spec bs max dep w.assets hw (fun id => by have := hb id; omega) hd
  rcases hdp : AList.depositAll bs max w.assets dep with _ | l
  · obtain ⟨id, hid⟩ := h1.mp hdp
    have := hb id; omega
  · obtain ⟨k1, k2⟩ := h2 l hdp
    obtain ⟨ok, l', e1, e2, e3, e4⟩ := AList.c19_withdraw_all_partial bs max l k1 wit hwi hbw
    cases ok with
    | true =>
      have hall := e3.mp rfl
      refine ⟨.ok (), ⟨cp, l'⟩, by simp [processSync, hdp, e1], e2, ?_, ?_⟩
      · intro _
        refine ⟨rfl, rfl, ?_⟩
        intro id
        rw [AList.c16_value bs l' e2, AList.c16_value bs w.assets hw, e4 rfl, k2]
      · rintro ⟨id, hid⟩
        rw [AList.c16_value bs w.assets hw] at hid
        have := hall id
        rw [k2] at this; omega
    | false =>
      refine ⟨.error .walletBalance, { w with assets := l' }, by simp [processSync, hdp, e1], e2, ?_, ?_⟩
      · intro hc
        have : false = true := e3.mpr (by
          intro id
          have := hc id
          rw [AList.c16_value bs w.assets hw] at this
          rw [k2]; exact this)
        cases this
      · intro _; exact ⟨rfl, rfl⟩

/-- The checkpoint moves only on success, to the reported one; on an error it never moves forward. A signer
that is behind lowers it to the signer's checkpoint. -/
theorem c25_checkpoint (bs : BinSearch) (max : Nat) (w w' : Wallet)
    (resp : Except SyncError SyncResponse) (res : Except WalletError Unit)
    (h : processSync bs max w resp = some (res, w')) :
    (res = .ok () → ∃ r, resp = .ok r ∧ w'.checkpoint = r.checkpoint) ∧
    (∀ e, res = .error e → w.checkpoint.lt w'.checkpoint = false) ∧
    (∀ cp, resp = .error (.inconsistentSync cp) → (∃ e, res = .error e) ∧ w'.assets = w.assets ∧
      (cp.lt w.checkpoint = true → w'.checkpoint = cp) ∧
      (cp.lt w.checkpoint = false → w'.checkpoint = w.checkpoint)) ∧
    (∀ e, resp = .error e → (∃ e', res = .error e') ∧ w'.assets = w.assets) := by
  have hirr := Checkpoint.lt_irrefl w.checkpoint
  rcases resp with (⟨cp⟩ | _ | _) | ⟨cp, ⟨dep, wit⟩ | ⟨as⟩⟩
  · simp only [processSync, Option.some.injEq, Prod.mk.injEq] at h
    obtain ⟨rfl, rfl⟩ := h
    refine ⟨by simp, ?_, ?_, by simp⟩
    · intro e _
      simp only
      split
      · rename_i hlt; exact Checkpoint.lt_asymm _ _ hlt
      · exact hirr
    · intro cp' hcp
      cases hcp
      refine ⟨⟨_, rfl⟩, rfl, ?_, ?_⟩
      · intro hlt; simp [hlt]
      · intro hlt; simp [hlt]
  · simp only [processSync, Option.some.injEq, Prod.mk.injEq] at h
    obtain ⟨rfl, rfl⟩ := h
    exact ⟨by simp, fun _ _ => hirr, by simp, by simp⟩
  · simp only [processSync, Option.some.injEq, Prod.mk.injEq] at h
    obtain ⟨rfl, rfl⟩ := h
    exact ⟨by simp, fun _ _ => hirr, by simp, by simp⟩
  · simp only [processSync] at h
    rcases hd : AList.depositAll bs max w.assets dep with _ | l
    · simp only [hd] at h; cases h
    · simp only [hd] at h
      rcases hw : AList.withdrawAll bs max l wit with _ | ⟨_ | _, l'⟩
      · simp only [hw] at h; cases h
      · simp only [hw, Option.some.injEq, Prod.mk.injEq] at h
        obtain ⟨rfl, rfl⟩ := h
        exact ⟨by simp, fun _ _ => hirr, by simp, by simp⟩
      · simp only [hw, Option.some.injEq, Prod.mk.injEq] at h
        obtain ⟨rfl, rfl⟩ := h
        exact ⟨fun _ => ⟨_, rfl, rfl⟩, by simp, by simp, by simp⟩
  · simp only [processSync] at h
    rcases hd : AList.depositAll bs max [] as with _ | l
    · simp only [hd] at h; cases h
    · simp only [hd, Option.some.injEq, Prod.mk.injEq] at h
      obtain ⟨rfl, rfl⟩ := h
      exact ⟨fun _ => ⟨_, rfl, rfl⟩, by simp, by simp, by simp⟩

example : processSync linSearch 100 ⟨⟨[3], 1⟩, [⟨1, 5⟩]⟩ (.ok ⟨⟨[4], 2⟩, .partialUpdate [⟨2, 7⟩] [⟨1, 2⟩]⟩) =
    some (.ok (), ⟨⟨[4], 2⟩, [⟨1, 3⟩, ⟨2, 7⟩]⟩) := by rfl

/-! ## C55: coins tracked over a history of batches -/

/-- A signer fed with ledger batches: coins, stored nullifiers, calls made on the accumulator. -/
def coreAll (bs : BinSearch) (L : Layout K (List Asset)) (P : Params U N K Leaf) :
    List (SyncData U N) → AMap K × List N × List (TreeOp Leaf) → AMap K × List N × List (TreeOp Leaf)
  | [], s => s
  | d :: ds, s =>
    let r := syncCore bs L P s.1 s.2.1 d.utxos d.nulls
    coreAll bs L P ds (r.assets, r.nulls, s.2.2 ++ r.log)

/-- All UTXOs and all nullifiers of a history. -/
def allUtxos (ds : List (SyncData U N)) : List U := ds.flatMap SyncData.utxos
def allNulls (ds : List (SyncData U N)) : List N := ds.flatMap SyncData.nulls

/-- Facts about ledger data the signer relies on: an opened note reconstructs its UTXO, no coin is listed
twice, distinct coins have distinct nullifiers and distinct leaves. -/
structure Ledger (P : Params U N K Leaf) (us : List U) : Prop where
  leaf : ∀ u ∈ us, ∀ k a, P.openNote u = some (k, a) → P.spendLeaf k a = P.leaf u
  once : (opened P us).Nodup
  nullifiers : ∀ c ∈ opened P us, ∀ c' ∈ opened P us,
    P.nullifier c.1 c.2 = P.nullifier c'.1 c'.2 → c = c'
  leaves : ∀ c ∈ opened P us, ∀ c' ∈ opened P us,
    P.spendLeaf c.1 c.2 = P.spendLeaf c'.1 c'.2 → c = c'

/-- Invariant of the signer after the data `us`, `ns`. -/
structure SInv (P : Params U N K Leaf) (us : List U) (ns : List N)
    (s : AMap K × List N × List (TreeOp Leaf)) : Prop where
  wf : MWF s.1
  coins : ∀ k a, Stored s.1 k a ↔ (k, a) ∈ opened P us ∧ P.nullifier k a ∉ ns.filter P.openable
  sub : ∀ n ∈ s.2.1, n ∈ ns.filter P.openable
  nulls : ∀ n, (∀ c ∈ opened P us, P.nullifier c.1 c.2 ≠ n) → n ∈ ns.filter P.openable → n ∈ s.2.1
  leaves : inserted s.2.2 = us.map P.leaf
  marked : ∀ k a, Stored s.1 k a → marks (fun _ => False) s.2.2 (P.spendLeaf k a)

theorem opened_append (P : Params U N K Leaf) (us vs : List U) :
    opened P (us ++ vs) = opened P us ++ opened P vs := by simp [opened]

theorem ledger_honest {P : Params U N K Leaf} {us vs : List U} (h : Ledger P (us ++ vs)) {ns : List N}
    {s : AMap K × List N × List (TreeOp Leaf)} (hi : SInv P us ns s) : Honest P s.1 vs := by
  have hsub : ∀ c : K × Asset, (Stored s.1 c.1 c.2 ∨ c ∈ opened P vs) → c ∈ opened P (us ++ vs) := by
    intro c hc
    rw [opened_append, List.mem_append]
    rcases hc with hc | hc
    · exact .inl ((hi.coins c.1 c.2).mp hc).1
    · exact .inr hc
  have ho := h.once
  rw [opened_append, List.nodup_append] at ho
  refine ⟨fun u hu => h.leaf u (List.mem_append.mpr (.inr hu)), ?_, ho.2.1, ?_⟩
  · intro c hc hst
    exact ho.2.2 c ((hi.coins c.1 c.2).mp hst).1 c hc rfl
  · intro c c' hc hc' he
    exact h.nullifiers c (hsub c hc) c' (hsub c' hc') he

theorem sinv_step (bs : BinSearch) (L : Layout K (List Asset)) {P : Params U N K Leaf} {us : List U}
    {ns : List N} {s : AMap K × List N × List (TreeOp Leaf)} (hi : SInv P us ns s) (d : SyncData U N)
    (h : Ledger P (us ++ d.utxos)) :
    SInv P (us ++ d.utxos) (ns ++ d.nulls)
      ((syncCore bs L P s.1 s.2.1 d.utxos d.nulls).assets, (syncCore bs L P s.1 s.2.1 d.utxos d.nulls).nulls,
        s.2.2 ++ (syncCore bs L P s.1 s.2.1 d.utxos d.nulls).log) := by
  have hh := ledger_honest h hi
  have hs := syncCore_spec bs L P s.1 s.2.1 d.utxos d.nulls hi.wf hh
  generalize syncCore bs L P s.1 s.2.1 d.utxos d.nulls = r at hs
  have ho := h.once
  rw [opened_append, List.nodup_append] at ho
  have hnew : ∀ c ∈ opened P d.utxos, ∀ c' ∈ opened P us, P.nullifier c'.1 c'.2 ≠ P.nullifier c.1 c.2 := by
    intro c hc c' hc' he
    have := h.nullifiers c' (by rw [opened_append, List.mem_append]; exact .inl hc')
      c (by rw [opened_append, List.mem_append]; exact .inr hc) he
    subst this
    exact ho.2.2 c' hc' c' hc rfl
  have hcoins : ∀ k a, Stored r.assets k a ↔
      (k, a) ∈ opened P (us ++ d.utxos) ∧ P.nullifier k a ∉ (ns ++ d.nulls).filter P.openable := by
    intro k a
    rw [hs.coins, opened_append, List.mem_append, List.filter_append, List.mem_append, List.mem_append]
    constructor
    · rintro ⟨h1 | h1, h2⟩
      · obtain ⟨a1, a2⟩ := (hi.coins k a).mp h1
        exact ⟨.inl a1, by simp only [not_or] at h2 ⊢; exact ⟨a2, h2.2⟩⟩
      · refine ⟨.inr h1, ?_⟩
        simp only [not_or] at h2 ⊢
        refine ⟨?_, h2.2⟩
        exact fun hx => h2.1 (hi.nulls _ (fun c' hc' => hnew (k, a) h1 c' hc') hx)
    · rintro ⟨h1 | h1, h2⟩
      · simp only [not_or] at h2 ⊢
        exact ⟨.inl ((hi.coins k a).mpr ⟨h1, h2.1⟩), fun hc => h2.1 (hi.sub _ hc), h2.2⟩
      · simp only [not_or] at h2 ⊢
        exact ⟨.inr h1, fun hc => h2.1 (hi.sub _ hc), h2.2⟩
  refine ⟨hs.wf, hcoins, ?_, ?_, ?_, ?_⟩
  · intro n hn
    rw [List.filter_append, List.mem_append]
    have hpos : 0 < r.nulls.count n := List.count_pos_iff.mpr hn
    have hN : n ∈ s.2.1 ++ d.nulls.filter P.openable := by
      rw [← List.count_pos_iff]
      obtain ⟨h1, h2⟩ := hs.nulls n
      by_cases hex : ∃ c : K × Asset, (Stored s.1 c.1 c.2 ∨ c ∈ opened P d.utxos) ∧ P.nullifier c.1 c.2 = n
      · rw [h1 hex] at hpos; omega
      · rw [h2 hex] at hpos; exact hpos
    rcases List.mem_append.mp hN with hN | hN
    · exact .inl (hi.sub n hN)
    · exact .inr hN
  · intro n hn hx
    obtain ⟨_, h2⟩ := hs.nulls n
    simp only
    rw [← List.count_pos_iff, h2, List.count_pos_iff, List.mem_append]
    · rw [List.filter_append, List.mem_append] at hx
      refine hx.imp_left fun hx => hi.nulls n ?_ hx
      intro c hc
      exact hn c (by rw [opened_append, List.mem_append]; exact .inl hc)
    · rintro ⟨c, hc, he⟩
      refine hn c ?_ he
      rw [opened_append, List.mem_append]
      rcases hc with hc | hc
      · exact .inl ((hi.coins _ _).mp hc).1
      · exact .inr hc
  · rw [inserted_append, hs.leaves, hi.leaves, List.map_append]
  · intro k a hst
    simp only at hst ⊢
    rw [marks_append, hs.marked]
    obtain ⟨c1, c2⟩ := (hs.coins k a).mp hst
    refine ⟨?_, ?_⟩
    · rcases c1 with c1 | c1
      · exact .inl (hi.marked k a c1)
      · exact .inr ⟨(k, a), c1, c2, rfl⟩
    · rintro ⟨c, b1, b2, b3⟩
      have e := h.leaves (k, a) ((hcoins k a).mp hst).1 c
        (by rw [opened_append, List.mem_append]; exact .inl ((hi.coins _ _).mp b1).1) b3
      subst e
      exact c2 b2

theorem sinv_nil (P : Params U N K Leaf) : SInv P [] [] (([] : AMap K), ([] : List N), []) :=
  ⟨⟨List.nodup_nil, by simp, by simp⟩, by simp [opened, Stored], by simp, by simp, rfl, by simp [Stored]⟩

theorem ledger_prefix {P : Params U N K Leaf} {us vs : List U} (h : Ledger P (us ++ vs)) : Ledger P us := by
  have hm : ∀ c ∈ opened P us, c ∈ opened P (us ++ vs) := fun c hc => by
    rw [opened_append, List.mem_append]; exact .inl hc
  refine ⟨fun u hu => h.leaf u (List.mem_append.mpr (.inl hu)), ?_, fun c hc c' hc' =>
    h.nullifiers c (hm c hc) c' (hm c' hc'), fun c hc c' hc' => h.leaves c (hm c hc) c' (hm c' hc')⟩
  have := h.once
  rw [opened_append, List.nodup_append] at this
  exact this.1

theorem coreAll_inv (bs : BinSearch) (L : Layout K (List Asset)) {P : Params U N K Leaf}
    (ds : List (SyncData U N)) : ∀ (us : List U) (ns : List N) (s : AMap K × List N × List (TreeOp Leaf)),
    SInv P us ns s → Ledger P (us ++ allUtxos ds) →
    SInv P (us ++ allUtxos ds) (ns ++ allNulls ds) (coreAll bs L P ds s) := by
  induction ds with
  | nil => intro us ns s h _; simpa [allUtxos, allNulls, coreAll] using h
  | cons d ds ih =>
    intro us ns s h hl
    have e1 : us ++ allUtxos (d :: ds) = (us ++ d.utxos) ++ allUtxos ds := by simp [allUtxos]
    have e2 : ns ++ allNulls (d :: ds) = (ns ++ d.nulls) ++ allNulls ds := by simp [allNulls]
    rw [e1] at hl ⊢
    rw [e2]
    exact ih _ _ _ (sinv_step bs L h d (ledger_prefix hl)) hl

/-- C55: however the ledger data is split into batches (and whether a nullifier arrives before or after its
UTXO), the signer ends with exactly the coins it can open whose nullifier was not published; the accumulator
received every UTXO once, in order; every coin it holds has a membership proof. -/
theorem c55_coins (bs : BinSearch) (L : Layout K (List Asset)) (P : Params U N K Leaf)
    (ds : List (SyncData U N)) (h : Ledger P (allUtxos ds)) :
    (∀ k a, (k, a) ∈ assetVector (coreAll bs L P ds ([], [], [])).1 ↔
      (∃ u ∈ allUtxos ds, P.openNote u = some (k, a)) ∧
      ¬ (P.nullifier k a ∈ allNulls ds ∧ P.openable (P.nullifier k a) = true)) ∧
    (assetVector (coreAll bs L P ds ([], [], [])).1).Nodup ∧
    inserted (coreAll bs L P ds ([], [], [])).2.2 = (allUtxos ds).map P.leaf ∧
    ∀ k a, (k, a) ∈ assetVector (coreAll bs L P ds ([], [], [])).1 →
      marks (fun _ => False) (coreAll bs L P ds ([], [], [])).2.2 (P.spendLeaf k a) := by
  have hi := coreAll_inv bs L ds [] [] _ (sinv_nil P) (by simpa using h)
  simp only [List.nil_append] at hi
  refine ⟨?_, assetVector_nodup _ hi.wf, hi.leaves, ?_⟩
  · intro k a
    rw [mem_assetVector, hi.coins, List.mem_filter]
    simp only [opened, List.mem_filterMap]
  · intro k a hc
    exact hi.marked k a ((mem_assetVector _ _ _).mp hc)

/-! ## C56, C57: wallet and signer together -/

/-- One wallet synchronization: the request's origin is the wallet's checkpoint (wallet/mod.rs:414-440). -/
def sysStep (bs : BinSearch) (L : Layout K (List Asset)) (P : Params U N K Leaf) (max : Nat)
    (shard : Leaf → Nat) (s : Wallet × Signer N K Leaf) (d : SyncData U N) :
    Option (Wallet × Signer N K Leaf) :=
  match sync bs L P max shard s.2 s.1.checkpoint d with
  | (.ok r, g') =>
    match processSync bs max s.1 (.ok r) with
    | some (.ok (), w') => some (w', g')
    | _ => none
  | _ => none

/-- A history of synchronizations, all successful (`none` otherwise). -/
def sysAll (bs : BinSearch) (L : Layout K (List Asset)) (P : Params U N K Leaf) (max : Nat)
    (shard : Leaf → Nat) (s : Wallet × Signer N K Leaf) (ds : List (SyncData U N)) :
    Option (Wallet × Signer N K Leaf) := ds.foldlM (sysStep bs L P max shard) s

/-- Fresh wallet and signer with `width` shards. -/
def sysInit (width : Nat) : Wallet × Signer N K Leaf :=
  (⟨⟨List.replicate width 0, 0⟩, []⟩, ⟨[], [], ⟨List.replicate width 0, 0⟩, [], List.replicate width 0⟩)

/-- Invariant of the combined system, apart from the number of nullifiers. -/
structure WCore (P : Params U N K Leaf) (shard : Leaf → Nat) (width : Nat) (us : List U) (ns : List N)
    (s : Wallet × Signer N K Leaf) : Prop where
  signer : SInv P us ns (s.2.assets, s.2.nulls, s.2.tree)
  wf : WF s.1.assets
  agree : ∀ id, bal s.1.assets id = stock s.2.assets id
  same : s.1.checkpoint = s.2.checkpoint
  lens : s.2.lens = addRecv shard (List.replicate width 0) (us.map P.leaf)
  recv : s.2.checkpoint.recv = s.2.lens

/-- Invariant of the combined system. -/
structure WInv (P : Params U N K Leaf) (shard : Leaf → Nat) (width : Nat) (us : List U) (ns : List N)
    (s : Wallet × Signer N K Leaf) : Prop extends WCore P shard width us ns s where
  send : s.2.checkpoint.send = ns.length

theorem bal_sublist_le {l l' : List Asset} (h : l.Sublist l') (id : Nat) : bal l id ≤ bal l' id := by
  induction h with
  | slnil => simp
  | cons a _ ih => rw [bal_cons]; omega
  | cons_cons a _ ih => rw [bal_cons, bal_cons]; omega

theorem sinv_perm {P : Params U N K Leaf} {us : List U} {ns : List N}
    {s : AMap K × List N × List (TreeOp Leaf)} (h : SInv P us ns s) (hl : Ledger P us) :
    (assetVector s.1).Perm ((opened P us).filter fun c => decide (nfc P c ∉ ns.filter P.openable)) := by
  rw [List.perm_ext_iff_of_nodup (assetVector_nodup _ h.wf) (hl.once.sublist List.filter_sublist)]
  rintro ⟨k, a⟩
  rw [mem_assetVector, h.coins, List.mem_filter (as := opened P us), decide_eq_true_eq]; rfl

theorem sinv_stock_le {P : Params U N K Leaf} {us : List U} {ns : List N}
    {s : AMap K × List N × List (TreeOp Leaf)} (h : SInv P us ns s) (hl : Ledger P us) (id : Nat) :
    stock s.1 id ≤ bal ((opened P us).map Prod.snd) id := by
  rw [stock_eq, bal_perm ((sinv_perm h hl).map Prod.snd)]
  exact bal_sublist_le (List.Sublist.map _ List.filter_sublist) id

theorem value_le_bal {l : List Asset} {a : Asset} (h : a ∈ l) : a.value ≤ bal l a.id := by
  induction l with
  | nil => cases h
  | cons b l ih =>
    rw [bal_cons]
    rcases List.mem_cons.mp h with rfl | h
    · rw [if_pos rfl]; omega
    · have := ih h; omega

theorem zipWith_max_of_le {a b : List Nat} (h : PwLe a b) : List.zipWith Nat.max a b = b := by
  induction h with
  | nil => rfl
  | cons h _ ih => simp only [List.zipWith_cons_cons, ih]; congr 1; exact Nat.max_eq_right h

theorem pwLe_addRecv (shard : U → Nat) (us : List U) (r : List Nat) : PwLe r (addRecv shard r us) := by
  rw [pwLe_iff_get]
  refine ⟨(addRecv_length _ _ _).symm, ?_⟩
  intro i x y hx hy
  rw [addRecv_get, hx] at hy
  simp at hy; omega

theorem deposit_le (bs : BinSearch) (L : Layout K (List Asset)) (P : Params U N K Leaf) (m : AMap K)
    (nulls : List N) (us : List U) (nd : List N) (hm : MWF m) (h : Honest P m us) (id : Nat) :
    bal (syncCore bs L P m nulls us nd).deposit id ≤ bal ((opened P us).map Prod.snd) id := by
  have h0 : LoopInv P m (nulls ++ nd.filter P.openable) []
      ({ assets := m, nulls := nulls ++ nd.filter P.openable, log := [], buf := []
         deposit := [], withdraw := [] } : SyncSt N K Leaf) :=
    ⟨hm, by simp [opened], by simp [opened], rfl, rfl, rfl, by simp [marks, opened]⟩
  have hnd : ((opened P us).map (nfc P)).Nodup :=
    nodup_map_of_inj _ _ h.once fun c hc c' hc' he => h.nullifiers c c' (.inr hc) (.inr hc') he
  have h1 := loop_inv bs L us [] _ h0 h.leaf
    (fun c hc hx => h.fresh c hc ((mem_assetVector _ _ _).mp hx)) (by simpa using hnd)
  rw [List.nil_append] at h1
  obtain ⟨h2, _⟩ := flush_inv h1
  unfold syncCore
  simp only
  rw [h2.deposit, bal_nonzero]
  exact bal_sublist_le (List.Sublist.map _ List.filter_sublist) id

theorem wcore_step (bs : BinSearch) (L : Layout K (List Asset)) {P : Params U N K Leaf} (max : Nat)
    (shard : Leaf → Nat) (width : Nat) {us : List U} {ns : List N} {s : Wallet × Signer N K Leaf}
    (h : WCore P shard width us ns s) (d : SyncData U N) (hl : Ledger P (us ++ d.utxos))
    (hmax : ∀ id, bal ((opened P (us ++ d.utxos)).map Prod.snd) id ≤ max) :
    ∃ s', sysStep bs L P max shard s d = some s' ∧
      WCore P shard width (us ++ d.utxos) (ns ++ d.nulls) s' ∧
      s'.2.checkpoint.send = s.2.checkpoint.send + d.nulls.length := by
  obtain ⟨w, g⟩ := s
  obtain ⟨hs, hwf, hag, hsame, hlens, hrecv⟩ := h
  simp only at hs hwf hag hsame hlens hrecv
  have hh := ledger_honest hl hs
  have hstep := sinv_step bs L hs d hl
  have hcs := syncCore_spec bs L P g.assets g.nulls d.utxos d.nulls hs.wf hh
  have hdl := deposit_le bs L P g.assets g.nulls d.utxos d.nulls hs.wf hh
  have hprune : pruneRequest (fun u => shard (P.leaf u)) g.checkpoint w.checkpoint d = .ok (false, d) := by
    simp [pruneRequest, hsame, Checkpoint.lt_irrefl, prune]
  simp only [sysStep, sync, hprune]
  simp only at hstep hcs hdl
  generalize syncCore bs L P g.assets g.nulls d.utxos d.nulls = r at hcs hdl hstep ⊢
  have hsup : ∀ id, stock g.assets id + bal r.deposit id ≤ max := by
    intro id
    have h1 := sinv_stock_le hs (ledger_prefix hl) id
    have h2 := hdl id
    have h3 := hmax id
    rw [opened_append, List.map_append, bal_append] at h3
    simp only at h1
    omega
  have hwsup : ∀ id, bal r.withdraw id ≤ max := by
    intro id
    have h1 := hcs.net id; have h2 := hsup id
    omega
  obtain ⟨hn1, hn2⟩ := c24_net max r.deposit r.withdraw
  obtain ⟨⟨dep, wit⟩, hnorm⟩ := Option.isSome_iff_exists.mp (hn1 fun id => ⟨by have := hsup id; omega, hwsup id⟩)
  obtain ⟨e1, e2, e3, _, _⟩ := hn2 dep wit hnorm
  have hle := normalize_le max _ _ dep wit hnorm
  have hwle : ∀ id, bal wit id ≤ max := by
    intro id
    have h1 := e1 id; have h2 := hle id; have h3 := hwsup id
    omega
  simp only [hnorm, Bool.false_eq_true, if_false]
  obtain ⟨res, w', p1, p2, p3, _⟩ := c25_partial_update bs max w
    ⟨List.zipWith Nat.max g.checkpoint.recv (addRecv shard g.lens (inserted r.log)),
      g.checkpoint.send + d.nulls.length⟩ dep wit hwf
    (fun a ha => by
      have h1 := value_le_bal ha; have h2 := hle a.id; have h3 := hsup a.id; omega)
    (fun a ha => by have h1 := value_le_bal ha; have h2 := hwle a.id; omega)
    (fun id => by rw [hag]; have h2 := hle id; have h3 := hsup id; omega) hwle
  obtain ⟨q1, q2, q3⟩ := p3 (by
    intro id
    rw [AList.c16_value bs w.assets hwf, hag]
    have h1 := e1 id; have h2 := hcs.net id
    omega)
  subst q1
  simp only [p1]
  refine ⟨_, rfl, ⟨hstep, p2, ?_, q2, ?_, ?_⟩, rfl⟩
  · intro id
    have h1 := q3 id; have h2 := hcs.net id; have h3 := e1 id
    rw [AList.c16_value bs w.assets hwf, AList.c16_value bs w'.assets p2, hag] at h1
    simp only
    omega
  · simp only [hcs.leaves, List.map_append, addRecv_append, hlens]
  · simp only [hrecv]
    exact zipWith_max_of_le (pwLe_addRecv _ _ _)

theorem winv_step (bs : BinSearch) (L : Layout K (List Asset)) {P : Params U N K Leaf} (max : Nat)
    (shard : Leaf → Nat) (width : Nat) {us : List U} {ns : List N} {s : Wallet × Signer N K Leaf}
    (h : WInv P shard width us ns s) (d : SyncData U N) (hl : Ledger P (us ++ d.utxos))
    (hmax : ∀ id, bal ((opened P (us ++ d.utxos)).map Prod.snd) id ≤ max) :
    ∃ s', sysStep bs L P max shard s d = some s' ∧
      WInv P shard width (us ++ d.utxos) (ns ++ d.nulls) s' := by
  obtain ⟨s', h1, h2, h3⟩ := wcore_step bs L max shard width h.toWCore d hl hmax
  exact ⟨s', h1, h2, by rw [h3, h.send, List.length_append]⟩

theorem winv_init (P : Params U N K Leaf) (shard : Leaf → Nat) (width : Nat) :
    WInv P shard width [] [] (sysInit width) :=
  ⟨⟨sinv_nil P, wf_nil, by intro id; rfl, rfl, rfl, rfl⟩, rfl⟩

theorem sysAll_core (bs : BinSearch) (L : Layout K (List Asset)) {P : Params U N K Leaf} (max : Nat)
    (shard : Leaf → Nat) (width : Nat) (ds : List (SyncData U N)) :
    ∀ (us : List U) (ns : List N) (s : Wallet × Signer N K Leaf),
    WCore P shard width us ns s → Ledger P (us ++ allUtxos ds) →
    (∀ id, bal ((opened P (us ++ allUtxos ds)).map Prod.snd) id ≤ max) →
    ∃ s', sysAll bs L P max shard s ds = some s' ∧
      WCore P shard width (us ++ allUtxos ds) (ns ++ allNulls ds) s' ∧
      s'.2.checkpoint.send = s.2.checkpoint.send + (allNulls ds).length := by
  induction ds with
  | nil => intro us ns s h _ _; exact ⟨s, rfl, by simpa [allUtxos, allNulls] using h, rfl⟩
  | cons d ds ih =>
    intro us ns s h hl hmax
    have e1 : us ++ allUtxos (d :: ds) = (us ++ d.utxos) ++ allUtxos ds := by simp [allUtxos]
    have e2 : ns ++ allNulls (d :: ds) = (ns ++ d.nulls) ++ allNulls ds := by simp [allNulls]
    rw [e1] at hl hmax ⊢
    rw [e2]
    obtain ⟨s1, h1, h2, h2'⟩ := wcore_step bs L max shard width h d (ledger_prefix hl) (by
      intro id
      refine Nat.le_trans (bal_sublist_le ?_ id) (hmax id)
      rw [opened_append P (us ++ d.utxos)]
      exact List.Sublist.map _ (List.sublist_append_left _ _))
    obtain ⟨s2, h3, h4, h4'⟩ := ih _ _ s1 h2 hl hmax
    refine ⟨s2, ?_, h4, ?_⟩
    · unfold sysAll at h3 ⊢
      rw [List.foldlM_cons, h1]
      exact h3
    · rw [h4', h2', show allNulls (d :: ds) = d.nulls ++ allNulls ds from rfl, List.length_append, Nat.add_assoc]

theorem sysAll_inv (bs : BinSearch) (L : Layout K (List Asset)) {P : Params U N K Leaf} (max : Nat)
    (shard : Leaf → Nat) (width : Nat) (ds : List (SyncData U N)) (us : List U) (ns : List N)
    (s : Wallet × Signer N K Leaf) (h : WInv P shard width us ns s) (hl : Ledger P (us ++ allUtxos ds))
    (hmax : ∀ id, bal ((opened P (us ++ allUtxos ds)).map Prod.snd) id ≤ max) :
    ∃ s', sysAll bs L P max shard s ds = some s' ∧
      WInv P shard width (us ++ allUtxos ds) (ns ++ allNulls ds) s' := by
  obtain ⟨s', h1, h2, h3⟩ := sysAll_core bs L max shard width ds us ns s h.toWCore hl hmax
  exact ⟨s', h1, h2, by rw [h3, h.send, List.length_append]⟩

/-- C56: starting from scratch, every history of synchronizations over honest ledger data succeeds, and the
balance the wallet reports for an asset id is the total of the coins received and not yet spent. -/
theorem c56_balances (bs : BinSearch) (L : Layout K (List Asset)) (P : Params U N K Leaf) (max : Nat)
    (shard : Leaf → Nat) (width : Nat) (ds : List (SyncData U N)) (hl : Ledger P (allUtxos ds))
    (hmax : ∀ id, bal (((allUtxos ds).filterMap P.openNote).map Prod.snd) id ≤ max) :
    ∃ w g, sysAll bs L P max shard (sysInit width) ds = some (w, g) ∧
      ∀ id, AList.value bs w.assets id =
        bal ((((allUtxos ds).filterMap P.openNote).filter fun c =>
          decide (¬ P.nullifier c.1 c.2 ∈ (allNulls ds).filter P.openable)).map Prod.snd) id := by
  obtain ⟨⟨w, g⟩, h1, h2⟩ := sysAll_inv bs L max shard width ds [] [] _ (winv_init P shard width)
    (by simpa using hl) (by simpa [opened] using hmax)
  simp only [List.nil_append] at h2
  refine ⟨w, g, h1, ?_⟩
  intro id
  rw [AList.c16_value bs _ h2.wf, h2.agree, stock_eq, bal_perm ((sinv_perm h2.signer hl).map Prod.snd)]
  rfl

/-- C57: after any such history wallet and signer agree on the checkpoint, which counts exactly the UTXOs of
every shard and the nullifiers processed so far. -/
theorem c57_checkpoint (bs : BinSearch) (L : Layout K (List Asset)) (P : Params U N K Leaf) (max : Nat)
    (shard : Leaf → Nat) (width : Nat) (ds : List (SyncData U N)) (hl : Ledger P (allUtxos ds))
    (hmax : ∀ id, bal (((allUtxos ds).filterMap P.openNote).map Prod.snd) id ≤ max)
    (w : Wallet) (g : Signer N K Leaf)
    (h : sysAll bs L P max shard (sysInit width) ds = some (w, g)) :
    w.checkpoint = g.checkpoint ∧ g.checkpoint.send = (allNulls ds).length ∧
    g.checkpoint.recv.length = width ∧
    ∀ i, i < width → g.checkpoint.recv[i]? =
      some (((allUtxos ds).filter fun u => decide (shard (P.leaf u) = i)).length) := by
  obtain ⟨⟨w', g'⟩, h1, h2⟩ := sysAll_inv bs L max shard width ds [] [] _ (winv_init P shard width)
    (by simpa using hl) (by simpa [opened] using hmax)
  rw [h] at h1
  cases h1
  simp only [List.nil_append] at h2
  refine ⟨h2.same, h2.send, ?_, ?_⟩
  · rw [h2.recv, h2.lens, addRecv_length]; simp
  · intro i hi
    rw [h2.recv, h2.lens, addRecv_get]
    simp only [List.getElem?_replicate, hi, if_true, Option.map_some, Nat.zero_add, perShard,
      List.filter_map, List.length_map]
    rfl

/-! ### A non-trivial instance and the violations -/

/-- Toy ledger: UTXOs are numbers, odd ones belong to the signer and hold their number of asset 1. -/
def toy : Params Nat Nat Nat Nat :=
  ⟨fun u => if u % 2 = 1 then some (u, ⟨1, u⟩) else none, fun k _ => k, fun n => decide (n % 2 = 1), id,
    fun k _ => k⟩

/-- Three batches; the nullifier of coin 5 arrives one batch before the coin. -/
def toyData : List (SyncData Nat Nat) := [⟨[3, 4], [5]⟩, ⟨[5, 7, 8], [2]⟩, ⟨[9], [3]⟩]

theorem toy_ledger : Ledger toy (allUtxos toyData) :=
  ⟨by
    intro u _ k a h
    simp only [toy] at h ⊢
    split at h
    · simp only [Option.some.injEq, Prod.mk.injEq] at h; exact h.1.symm
    · (cases h), by decide, by decide, by decide⟩

example : ∀ id, bal (((allUtxos toyData).filterMap toy.openNote).map Prod.snd) id ≤ 100 := by
  intro id
  have : ((allUtxos toyData).filterMap toy.openNote).map Prod.snd = [⟨1, 3⟩, ⟨1, 5⟩, ⟨1, 7⟩, ⟨1, 9⟩] := by
    decide
  rw [this]
  simp only [bal_cons, bal_nil]
  by_cases h : 1 = id <;> simp only [h, if_true, if_false] <;> omega

example : (sysAll linSearch idLayout toy 100 (· % 2) (sysInit 2) toyData).map
    (fun s => (AList.value linSearch s.1.assets 1, s.1.checkpoint, assetVector s.2.assets)) =
    some (16, ⟨[2, 4], 3⟩, [(9, ⟨1, 9⟩), (7, ⟨1, 7⟩)]) := by decide +kernel

/-- C56 is violated for a wallet that is behind its signer (for example a fresh wallet next to a signer that
already synchronized): the signer answers with a partial update if the request has no entry of the shard in
which it is ahead. Here the signer knows coin 3 (shard 1), the wallet does not; the request brings only
UTXO 4 (shard 0). The wallet then has the signer's checkpoint but a balance of 0 instead of 3. -/
theorem c56_behind_violated :
    ∃ (w : Wallet) (g : Signer Nat Nat Nat),
      (do
        let s ← sysAll linSearch idLayout toy 100 (· % 2) (sysInit 2) [⟨[3], []⟩]
        sysStep linSearch idLayout toy 100 (· % 2) ((sysInit 2 : Wallet × Signer Nat Nat Nat).1, s.2) ⟨[4], []⟩) =
        some (w, g) ∧
      w.checkpoint = g.checkpoint ∧ AList.value linSearch w.assets 1 = 0 ∧ stock g.assets 1 = 3 :=
  ⟨⟨⟨[1, 1], 0⟩, []⟩,
    ⟨[(3, [⟨1, 3⟩])], [], ⟨[1, 1], 0⟩, [.insert 3, .batchNonprovable [4]], [1, 1]⟩, by decide +kernel, rfl, rfl, rfl⟩

/-- A full update makes the wallet agree with the signer whatever the wallet held before. -/
theorem c56_full_agrees (bs : BinSearch) (max : Nat) (w : Wallet) (cp : Checkpoint) (m : AMap K)
    (hm : MWF m) (hv : ∀ id, stock m id ≤ max) :
    ∃ as w', AMap.assets bs max m = some as ∧
      processSync bs max w (.ok ⟨cp, .full as⟩) = some (.ok (), w') ∧ w'.checkpoint = cp ∧ WF w'.assets ∧
      ∀ id, AList.value bs w'.assets id = stock m id := by
  have hb : ∀ id, bal (m.flatMap Prod.snd) id = stock m id := by
    intro id
    rw [stock_eq]
    congr 1
    simp [assetVector, List.map_flatMap, Function.comp_def]
  obtain ⟨h1, h2⟩ := AList.c16_from_iter bs max (m.flatMap Prod.snd) (by
    intro a ha
    have e1 := value_le_bal ha; have e2 := hb a.id; have e3 := hv a.id; omega)
  rcases hf : AList.fromIter bs max (m.flatMap Prod.snd) with _ | as
  · obtain ⟨id, hid⟩ := h1.mp hf
    have := hb id; have := hv id; omega
  · obtain ⟨k1, k2⟩ := h2 as hf
    have hbal : ∀ id, bal as id = stock m id := fun id => by rw [← AList.c16_value bs as k1, k2, hb]
    obtain ⟨w', p1, p2, p4, p3⟩ := c25_full bs max w cp as (by
      intro a ha
      have e1 := value_le_bal ha; have e2 := hbal a.id; have e3 := hv a.id; omega)
      (fun id => by rw [hbal]; exact hv id)
    exact ⟨as, w', hf, p1, p2, p4, fun id => by rw [p3, hbal]⟩

theorem wcore_full (bs : BinSearch) (L : Layout K (List Asset)) {P : Params U N K Leaf} (max : Nat)
    (shard : Leaf → Nat) (width : Nat) {us : List U} {ns : List N} {g : Signer N K Leaf}
    (hs : SInv P us ns (g.assets, g.nulls, g.tree))
    (hlens : g.lens = addRecv shard (List.replicate width 0) (us.map P.leaf)) (hrecv : g.checkpoint.recv = g.lens)
    (w : Wallet) (req d : SyncData U N)
    (hp : pruneRequest (fun u => shard (P.leaf u)) g.checkpoint w.checkpoint req = .ok (true, d))
    (hl : Ledger P (us ++ d.utxos)) (hmax : ∀ id, bal ((opened P (us ++ d.utxos)).map Prod.snd) id ≤ max) :
    ∃ s', sysStep bs L P max shard (w, g) req = some s' ∧
      WCore P shard width (us ++ d.utxos) (ns ++ d.nulls) s' ∧
      s'.2.checkpoint.send = g.checkpoint.send + d.nulls.length := by
  have hh := ledger_honest hl hs
  have hstep := sinv_step bs L hs d hl
  have hcs := syncCore_spec bs L P g.assets g.nulls d.utxos d.nulls hs.wf hh
  have hdl := deposit_le bs L P g.assets g.nulls d.utxos d.nulls hs.wf hh
  simp only [sysStep, sync, hp]
  simp only at hstep hcs hdl
  generalize syncCore bs L P g.assets g.nulls d.utxos d.nulls = r at hcs hdl hstep ⊢
  have hsup : ∀ id, stock g.assets id + bal r.deposit id ≤ max := by
    intro id
    have h1 := sinv_stock_le hs (ledger_prefix hl) id
    have h2 := hdl id
    have h3 := hmax id
    rw [opened_append, List.map_append, bal_append] at h3
    simp only at h1
    omega
  have hwsup : ∀ id, bal r.withdraw id ≤ max := by
    intro id
    have h1 := hcs.net id; have h2 := hsup id
    omega
  obtain ⟨hn1, -⟩ := c24_net max r.deposit r.withdraw
  obtain ⟨⟨dep, wit⟩, hnorm⟩ := Option.isSome_iff_exists.mp (hn1 fun id => ⟨by have := hsup id; omega, hwsup id⟩)
  simp only [hnorm, if_true]
  obtain ⟨as, w', e1, e2, e3, e4, e5⟩ := c56_full_agrees bs max w
    ⟨List.zipWith Nat.max g.checkpoint.recv (addRecv shard g.lens (inserted r.log)),
      g.checkpoint.send + d.nulls.length⟩ r.assets hstep.wf
    (fun id => Nat.le_trans (sinv_stock_le hstep hl id) (hmax id))
  simp only [e1, e2]
  refine ⟨_, rfl, ⟨hstep, e4, ?_, e3, ?_, ?_⟩, rfl⟩
  · intro id
    simp only
    rw [← e5, AList.c16_value bs _ e4]
  · simp only [hcs.leaves, List.map_append, addRecv_append, hlens]
  · simp only [hrecv]
    exact zipWith_max_of_le (pwLe_addRecv _ _ _)

theorem wcore_value (bs : BinSearch) {P : Params U N K Leaf} {shard : Leaf → Nat} {width : Nat} {us : List U}
    {ns : List N} {s : Wallet × Signer N K Leaf} (h : WCore P shard width us ns s) (hl : Ledger P us) (id : Nat) :
    AList.value bs s.1.assets id = bal (((us.filterMap P.openNote).filter fun c =>
      decide (¬ P.nullifier c.1 c.2 ∈ ns.filter P.openable)).map Prod.snd) id := by
  rw [AList.c16_value bs _ h.wf, h.agree, stock_eq, bal_perm ((sinv_perm h.signer hl).map Prod.snd)]
  rfl

/-- C56, wallet behind its signer: whatever the wallet holds, if the signer drops a part of the request because it has
seen it before and keeps `d`, the synchronization succeeds and the wallet ends with the total of the coins received
and not yet spent. (`c56_behind_violated` is the case where nothing is recognized as seen.) -/
theorem c56_pruned_partial (bs : BinSearch) (L : Layout K (List Asset)) (P : Params U N K Leaf) (max : Nat)
    (shard : Leaf → Nat) (width : Nat) (ds : List (SyncData U N)) (w0 : Wallet) (g : Signer N K Leaf)
    (hrun : sysAll bs L P max shard (sysInit width) ds = some (w0, g)) (w : Wallet) (req d : SyncData U N)
    (hp : pruneRequest (fun u => shard (P.leaf u)) g.checkpoint w.checkpoint req = .ok (true, d))
    (hl : Ledger P (allUtxos ds ++ d.utxos))
    (hmax : ∀ id, bal (((allUtxos ds ++ d.utxos).filterMap P.openNote).map Prod.snd) id ≤ max) :
    ∃ w' g', sysStep bs L P max shard (w, g) req = some (w', g') ∧ w'.checkpoint = g'.checkpoint ∧
      ∀ id, AList.value bs w'.assets id =
        bal ((((allUtxos ds ++ d.utxos).filterMap P.openNote).filter fun c =>
          decide (¬ P.nullifier c.1 c.2 ∈ (allNulls ds ++ d.nulls).filter P.openable)).map Prod.snd) id := by
  have hmax' : ∀ id, bal ((opened P (allUtxos ds ++ d.utxos)).map Prod.snd) id ≤ max := hmax
  obtain ⟨⟨w1, g1⟩, h1, h2⟩ := sysAll_inv bs L max shard width ds [] [] _ (winv_init P shard width)
    (by simpa using ledger_prefix hl) (by
      intro id
      refine Nat.le_trans (bal_sublist_le ?_ id) (hmax' id)
      rw [List.nil_append, opened_append]
      exact List.Sublist.map _ (List.sublist_append_left _ _))
  rw [hrun] at h1
  cases h1
  simp only [List.nil_append] at h2
  obtain ⟨⟨w', g'⟩, e1, e2, _⟩ := wcore_full bs L max shard width h2.signer h2.lens h2.recv w req d hp hl hmax
  exact ⟨w', g', e1, e2.same, fun id => wcore_value bs e2 hl id⟩

/-- The hypotheses: a fresh wallet next to a signer that saw the first two batches asks for everything. -/
example : (sysAll linSearch idLayout toy 100 (· % 2) (sysInit 2) (toyData.take 2)).map (fun s =>
    pruneRequest (fun u => toy.leaf u % 2) s.2.checkpoint ⟨[0, 0], 0⟩ ⟨allUtxos toyData, allNulls toyData⟩) =
    some (.ok (true, ⟨[9], [3]⟩)) := by decide +kernel


/-- C57 for `sbt_sync` when the request starts at the signer's checkpoint: the receiver counts grow by exactly
the UTXOs of the request. -/
theorem c57_sbt_partial (bs : BinSearch) (L : Layout K (List Asset)) (P : Params U N K Leaf) (max : Nat)
    (shard : Leaf → Nat) (g : Signer N K Leaf) (data : SyncData U N) :
    ∃ r, (sbtSync bs L P max shard g g.checkpoint data).1 = .ok r ∧
      (sbtSync bs L P max shard g g.checkpoint data).2.checkpoint = r.checkpoint ∧
      r.checkpoint.send = g.checkpoint.send + data.nulls.length ∧
      ∀ i, r.checkpoint.recv[i]? = (g.checkpoint.recv[i]?).map fun n =>
        n + (data.utxos.filter fun u => decide (shard (P.leaf u) = i)).length := by
  have hp : pruneRequest (fun u => shard (P.leaf u)) g.checkpoint g.checkpoint data = .ok (false, data) := by
    simp [pruneRequest, Checkpoint.lt_irrefl, prune]
  simp only [sbtSync, hp, Bool.false_eq_true, if_false]
  refine ⟨_, rfl, rfl, rfl, ?_⟩
  intro i
  exact addRecv_get _ _ _ _

/-- C57 is violated by `sbt_sync` when part of the request is already known: repeating a request whose only
UTXO the signer has seen moves the signer's checkpoint past it a second time, so the next UTXO of that shard
is skipped. -/
theorem c57_sbt_violated :
    let g0 : Signer Nat Nat Nat := (sysInit 1 : Wallet × Signer Nat Nat Nat).2
    let g1 := (sbtSync linSearch idLayout toy 100 (fun _ => 0) g0 ⟨[0], 0⟩ ⟨[3], []⟩).2
    let g2 := (sbtSync linSearch idLayout toy 100 (fun _ => 0) g1 ⟨[0], 0⟩ ⟨[3], []⟩).2
    let g3 := (sbtSync linSearch idLayout toy 100 (fun _ => 0) g2 ⟨[0], 0⟩ ⟨[3, 5], []⟩).2
    g1.checkpoint = ⟨[1], 0⟩ ∧ g2.checkpoint = ⟨[2], 0⟩ ∧ assetVector g3.assets = [(3, ⟨1, 3⟩)] := by
  decide +kernel

end Verif.Wallet
