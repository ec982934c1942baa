import Verif.Pay.Model

/-! # Specification of payments and lemmas -/

set_option linter.unusedSectionVars false

namespace Verif.Pay

open Verif.Asset Verif.Asset.AMap
open Verif.Wallet (BalanceUpdate Params SyncData SyncError SyncResponse TreeOp Wallet WalletError Ledger SInv WCore
  allUtxos allNulls opened nfc marks inserted sysStep bal_perm bal_nonzero nonzero)
open Verif.Sign (Laws Prover Ready Good GoodSeq PrivateBatch PublicBatch FreshFrom draws spent made Receiver Owner Tx)

variable {U N K Leaf A Addr Acct : Type} [DecidableEq N] [DecidableEq K]

/-! ## Specification -/

/-- The accumulator after synchronizations with the calls `batches`, from the empty one. -/
def replay (E : Env U N K Leaf A Addr Acct) (acc0 : A) (batches : List (List (TreeOp Leaf))) : A :=
  batches.foldl (fun a ops => E.commit (ops.foldl E.apply a)) acc0

/-- Wallet and signer have seen exactly the ledger data `us`, `ns`; the signer's accumulator is what its calls made
of the empty one, `acc0`. -/
structure Synced (E : Env U N K Leaf A Addr Acct) (acc0 : A) (width : Nat) (us : List U) (ns : List N)
    (s : Sys N K Leaf A) : Prop where
  core : WCore E.par E.shard width us ns (s.wallet, s.signer)
  acc : ∃ batches, batches.flatten = s.signer.tree ∧ s.acc = replay E acc0 batches

/-- What is assumed of the accumulator: up to `capacity` insertions of different leaves it has every leaf that was
inserted to be proved and not removed since, knows how many there are in each shard, has room for the rest, and
synchronization leaves nothing uncommitted. The accumulator may fail for leaves that are not `sound`. -/
structure AccLaws (E : Env U N K Leaf A Addr Acct) (acc0 : A) (free : A → Nat) (sound : List Leaf → Prop)
    (capacity width : Nat) : Prop where
  laws : Laws E.sign free
  holds : ∀ batches l, sound (inserted batches.flatten) → (inserted batches.flatten).length ≤ capacity → (inserted batches.flatten).Nodup →
    marks (fun _ => False) batches.flatten l → E.sign.contains (replay E acc0 batches) l = true
  counts : ∀ batches, (inserted batches.flatten).length ≤ capacity →
    E.lens (replay E acc0 batches) = Verif.Wallet.addRecv E.shard (List.replicate width 0) (inserted batches.flatten)
  room : ∀ batches, sound (inserted batches.flatten) → capacity ≤ (inserted batches.flatten).length + free (replay E acc0 batches)
  committed : ∀ batches, sound (inserted batches.flatten) → E.sign.rollback (replay E acc0 batches) = replay E acc0 batches

/-- What the parts of a wallet agree on: the accumulator item of a coin, and that its nullifier is recognised. -/
structure Base (E : Env U N K Leaf A Addr Acct) : Prop where
  leaf : ∀ k a, E.sign.leaf k a = E.par.spendLeaf k a
  openable : ∀ k a, E.par.openable (E.par.nullifier k a) = true

/-- How the posts of a signer are read by the same signer: its own outputs open, nothing else does. `Addr` are the
addresses of others; payments to the own address are part of C131. -/
structure Link (E : Env U N K Leaf A Addr Acct) (utxo : Receiver K Addr → U) : Prop extends Base E where
  own : ∀ k a, E.par.openNote (utxo ⟨k, a, .self⟩) = some (k, a)
  others : ∀ k a b, E.par.openNote (utxo ⟨k, a, .other b⟩) = none

/-- Coins received and not spent according to ledger data. -/
def unspent (P : Params U N K Leaf) (us : List U) (ns : List N) : List (K × Asset) :=
  (us.filterMap P.openNote).filter fun c => decide (P.nullifier c.1 c.2 ∉ ns)

/-- Total of one asset id in coins. -/
def total (cs : List (K × Asset)) (id : Nat) : Nat := bal (cs.map Prod.snd) id

/-- Amount of `a` counted for `id`. -/
def amount (a : Asset) (id : Nat) : Nat := if id = a.id then a.value else 0

/-- The ledger data `ds` that follows `us`, `ns` when `posts` have been accepted: their outputs and nullifiers, mixed
with the UTXOs `restU` and nullifiers `restN` of others. Coins have different nullifiers, nobody else
publishes nullifiers of the wallet's coins, totals do not overflow. -/
structure Settles (E : Env U N K Leaf A Addr Acct) (utxo : Receiver K Addr → U) (us : List U) (ns : List N)
    (posts : List (Tx K A Addr Acct)) (ds : List (SyncData U N)) (restU : List U) (restN : List N) : Prop where
  utxos : (allUtxos ds).Perm ((made posts).map utxo ++ restU)
  nulls : ∀ n, n ∈ allNulls ds ↔ n ∈ (spent posts).map (nfc E.par) ∨ n ∈ restN
  ledger : Ledger E.par (us ++ allUtxos ds)
  new : ∀ c ∈ opened E.par (allUtxos ds), nfc E.par c ∉ ns
  mine : ∀ c ∈ opened E.par (us ++ allUtxos ds), nfc E.par c ∉ restN
  apart : ∀ c ∈ opened E.par (us ++ allUtxos ds), ∀ s ∈ spent posts, nfc E.par c = nfc E.par s → c = s
  fits : ∀ id, bal ((opened E.par (us ++ allUtxos ds)).map Prod.snd) id ≤ E.sign.max

/-- Posts that keep the total of every asset id. -/
def Balanced (posts : List (Tx K A Addr Acct)) : Prop :=
  ∀ id, bal (posts.flatMap Tx.sources) id + total (spent posts) id =
    bal ((made posts).map Receiver.asset) id + bal (posts.flatMap Tx.sinks) id

/-- Outputs of posts that do not belong to the signer. -/
def given (posts : List (Tx K A Addr Acct)) : List Asset :=
  (made posts).filterMap fun r => match r.owner with
    | .self => none
    | .other _ => some r.asset

/-- Outputs of posts that belong to the signer. -/
def kept (posts : List (Tx K A Addr Acct)) : List (K × Asset) :=
  (made posts).filterMap fun r => match r.owner with
    | .self => some (r.key, r.asset)
    | .other _ => none

/-! ## Totals -/

theorem total_minus (C S : List (K × Asset)) (hC : C.Nodup) (hS : S.Nodup)
    (h : ∀ s ∈ S, s.2.value ≠ 0 → s ∈ C) (id : Nat) :
    total (C.filter fun c => decide (c ∉ S)) id + total S id = total C id := by
  have hp : C.Perm ((C.filter fun c => decide (c ∉ S)) ++ C.filter fun c => !decide (c ∉ S)) :=
    (List.filter_append_perm _ _).symm
  have h1 : total C id = total (C.filter fun c => decide (c ∉ S)) id + total (C.filter fun c => !decide (c ∉ S)) id := by
    unfold total
    rw [bal_perm (hp.map Prod.snd), List.map_append, bal_append]
  have h2 : total (C.filter fun c => !decide (c ∉ S)) id = total S id := by
    have nz : ∀ l : List (K × Asset), total l id = total (l.filter fun c => decide (c.2.value ≠ 0)) id := by
      intro l
      unfold total
      rw [← bal_nonzero l]
      congr 1
      unfold nonzero
      rw [List.filter_map]
      rfl
    rw [nz, nz S]
    unfold total
    refine bal_perm (List.Perm.map _ ?_) id
    rw [List.perm_ext_iff_of_nodup ((hC.sublist List.filter_sublist).sublist List.filter_sublist)
      (hS.sublist List.filter_sublist)]
    intro c
    simp only [List.mem_filter, decide_not, Bool.not_not, decide_eq_true_eq, Bool.not_eq_eq_eq_not, Bool.not_true,
      decide_eq_false_iff_not]
    exact ⟨fun h => ⟨h.1.2, h.2⟩, fun h' => ⟨⟨h c h'.1 h'.2, h'.1⟩, h'.2⟩⟩
  omega

theorem bal_filterMap_split (rs : List (Receiver K Addr)) (id : Nat) :
    bal (rs.map Receiver.asset) id =
      total (rs.filterMap fun r => match r.owner with
        | .self => some (r.key, r.asset)
        | .other _ => none) id +
      bal (rs.filterMap fun r => match r.owner with
        | .self => none
        | .other _ => some r.asset) id := by
  unfold total
  induction rs with
  | nil => rfl
  | cons r rs ih =>
    obtain ⟨k, a, o⟩ := r
    cases o with
    | self => simp only [List.map_cons, List.filterMap_cons, bal_cons, ih]; omega
    | other b => simp only [List.map_cons, List.filterMap_cons, bal_cons, ih]; omega

theorem made_split (posts : List (Tx K A Addr Acct)) (id : Nat) :
    bal ((made posts).map Receiver.asset) id = total (kept posts) id + bal (given posts) id :=
  bal_filterMap_split _ _

/-- Values of one id as a sum. -/
theorem bal_sum {α : Type} (f : α → Asset) (l : List α) (aid id : Nat) (h : ∀ x ∈ l, (f x).id = aid) :
    bal (l.map f) id = if id = aid then (l.map fun x => (f x).value).sum else 0 := by
  induction l with
  | nil => simp
  | cons x l ih =>
    have hx := h x (by simp)
    rw [List.map_cons, bal_cons, ih fun y hy => h y (by simp [hy])]
    by_cases e : id = aid
    · simp [e, hx]
    · have : ¬ (f x).id = id := by rw [hx]; exact fun h => e h.symm
      simp [e, this]

theorem good_balanced {E : Verif.Sign.Env K Leaf A Addr Acct} {aid : Nat} {acc : A} {tx : Tx K A Addr Acct}
    (h : Good E aid acc tx) (id : Nat) :
    bal tx.sources id + total (spent [tx]) id = bal (tx.receivers.map Receiver.asset) id + bal tx.sinks id := by
  obtain ⟨⟨i1, i2, i3, i4⟩, hb, _⟩ := h
  have e1 := bal_sum (fun a => a) tx.sources aid id i1
  have e2 := bal_sum (fun s : Verif.Sign.Sender K A => s.asset) tx.senders aid id i2
  have e3 := bal_sum Receiver.asset tx.receivers aid id i3
  have e4 := bal_sum (fun a => a) tx.sinks aid id i4
  have e5 : total (spent [tx]) id = bal (tx.senders.map fun s => s.asset) id := by
    simp [total, spent, Function.comp_def]
  rw [List.map_id'] at e1
  rw [List.map_id'] at e4
  rw [e1, e5, e2, e3, e4]
  split
  · simpa using hb
  · rfl

theorem balanced_nil : Balanced ([] : List (Tx K A Addr Acct)) := by intro id; rfl

theorem balanced_cons {tx : Tx K A Addr Acct} {txs : List (Tx K A Addr Acct)}
    (h : ∀ id, bal tx.sources id + total (spent [tx]) id =
      bal (tx.receivers.map Receiver.asset) id + bal tx.sinks id) (hb : Balanced txs) : Balanced (tx :: txs) := by
  intro id
  have h1 := h id
  have h2 := hb id
  have e : total (spent (tx :: txs)) id = total (spent [tx]) id + total (spent txs) id := by
    rw [show tx :: txs = [tx] ++ txs from rfl, Verif.Sign.spent_append]
    unfold total
    rw [List.map_append, bal_append]
  have e' : bal ((made (tx :: txs)).map Receiver.asset) id =
      bal (tx.receivers.map Receiver.asset) id + bal ((made txs).map Receiver.asset) id := by
    rw [show made (tx :: txs) = tx.receivers ++ made txs from rfl, List.map_append, bal_append]
  rw [e, e', List.flatMap_cons, List.flatMap_cons, bal_append, bal_append]
  omega

theorem balanced_all {E : Verif.Sign.Env K Leaf A Addr Acct} {aid : Nat} {acc : A} (txs : List (Tx K A Addr Acct))
    (h : ∀ tx ∈ txs, Good E aid acc tx) : Balanced txs := by
  induction txs with
  | nil => exact balanced_nil
  | cons tx txs ih => exact balanced_cons (good_balanced (h tx (by simp))) (ih fun t ht => h t (by simp [ht]))

theorem balanced_seq {E : Verif.Sign.Env K Leaf A Addr Acct} {aid : Nat} (txs : List (Tx K A Addr Acct)) :
    ∀ acc, GoodSeq E aid acc txs → Balanced txs := by
  induction txs with
  | nil => intro _ _; exact balanced_nil
  | cons tx txs ih => intro acc h; exact balanced_cons (good_balanced h.1) (ih _ h.2)

/-! ## Synchronization -/

theorem synced_step (E : Env U N K Leaf A Addr Acct) {acc0 : A} {width : Nat} {us : List U} {ns : List N}
    {s : Sys N K Leaf A} (h : Synced E acc0 width us ns s) (d : SyncData U N) (hl : Ledger E.par (us ++ d.utxos))
    (hmax : ∀ id, bal ((opened E.par (us ++ d.utxos)).map Prod.snd) id ≤ E.sign.max) :
    ∃ s', syncOnce E s d = (.ok, s') ∧ Synced E acc0 width (us ++ d.utxos) (ns ++ d.nulls) s' ∧
      s'.accounts = s.accounts ∧ s'.authorization = s.authorization ∧ s'.next = s.next := by
  obtain ⟨⟨w', g'⟩, h1, h2, _⟩ := Verif.Wallet.wcore_step E.bs E.layout E.sign.max E.shard width h.core d hl hmax
  have htree : ∃ log, (Verif.Wallet.sync E.bs E.layout E.par E.sign.max E.shard s.signer s.wallet.checkpoint d).2.tree
      = s.signer.tree ++ log := by
    unfold Verif.Wallet.sync
    split
    · exact ⟨[], by simp⟩
    · exact ⟨[], by simp⟩
    · dsimp only
      split
      · exact ⟨_, rfl⟩
      · split
        · split <;> exact ⟨_, rfl⟩
        · exact ⟨_, rfl⟩
  unfold sysStep at h1
  dsimp only at h1
  unfold syncOnce
  rcases hr : Verif.Wallet.sync E.bs E.layout E.par E.sign.max E.shard s.signer s.wallet.checkpoint d with ⟨res, g⟩
  rw [hr] at h1 htree
  obtain ⟨log, hlog⟩ := htree
  rcases res with r | e | _
  · dsimp only at h1 ⊢
    split at h1
    · rename_i w1 hp
      cases h1
      rw [hp]
      obtain ⟨bs, hb1, hb2⟩ := h.acc
      refine ⟨_, rfl, ⟨h2, bs ++ [log], ?_, ?_⟩, rfl, rfl, rfl⟩
      · dsimp only at hlog ⊢
        rw [hlog, List.flatten_append, hb1]
        simp
      · dsimp only at hlog ⊢
        rw [hlog, List.drop_left, hb2]
        simp [replay]
    · cases h1
  · cases h1
  · cases h1

theorem synced_all (E : Env U N K Leaf A Addr Acct) {acc0 : A} {width : Nat} (ds : List (SyncData U N)) :
    ∀ (us : List U) (ns : List N) (s : Sys N K Leaf A), Synced E acc0 width us ns s →
    Ledger E.par (us ++ allUtxos ds) → (∀ id, bal ((opened E.par (us ++ allUtxos ds)).map Prod.snd) id ≤ E.sign.max) →
    ∃ s', syncAll E s ds = (.ok, s') ∧ Synced E acc0 width (us ++ allUtxos ds) (ns ++ allNulls ds) s' ∧
      s'.accounts = s.accounts ∧ s'.authorization = s.authorization ∧ s'.next = s.next := by
  induction ds with
  | nil => intro us ns s h _ _; exact ⟨s, rfl, by simpa [allUtxos, allNulls] using h, rfl, rfl, rfl⟩
  | cons d ds ih =>
    intro us ns s h hl hmax
    have e1 : us ++ allUtxos (d :: ds) = (us ++ d.utxos) ++ allUtxos ds := by simp [allUtxos]
    have e2 : ns ++ allNulls (d :: ds) = (ns ++ d.nulls) ++ allNulls ds := by simp [allNulls]
    rw [e1] at hl hmax ⊢
    rw [e2]
    obtain ⟨s1, h1, h2, k1, k2, k3⟩ := synced_step E h d (Verif.Wallet.ledger_prefix hl) (by
      intro id
      refine Nat.le_trans (Verif.Wallet.bal_sublist_le ?_ id) (hmax id)
      rw [Verif.Wallet.opened_append E.par (us ++ d.utxos)]
      exact List.Sublist.map _ (List.sublist_append_left _ _))
    obtain ⟨s2, h3, h4, k4, k5, k6⟩ := ih _ _ s1 h2 hl hmax
    refine ⟨s2, ?_, h4, by rw [k4, k1], by rw [k5, k2], by rw [k6, k3]⟩
    rw [syncAll, h1]
    exact h3

theorem synced_init (E : Env U N K Leaf A Addr Acct) (acc0 : A) (width : Nat) (ac au : Bool) (n : Nat) :
    Synced E acc0 width [] []
      ⟨(Verif.Wallet.sysInit (N := N) (K := K) (Leaf := Leaf) width).1, (Verif.Wallet.sysInit width).2, acc0, ac, au, n⟩ :=
  ⟨(Verif.Wallet.winv_init E.par E.shard width).toWCore, [], rfl, rfl⟩

/-- The balance a synchronized wallet reports. -/
theorem synced_value {E : Env U N K Leaf A Addr Acct} (hk : Base E) {acc0 : A}
    {width : Nat} {us : List U} {ns : List N} {s : Sys N K Leaf A} (h : Synced E acc0 width us ns s)
    (hl : Ledger E.par us) (id : Nat) :
    AList.value E.bs s.wallet.assets id = total (unspent E.par us ns) id := by
  rw [Verif.Wallet.wcore_value E.bs h.core hl]
  unfold total unspent
  congr 2
  refine List.filter_congr ?_
  intro c _
  have := hk.openable c.1 c.2
  simp [this]

theorem synced_stock {E : Env U N K Leaf A Addr Acct} (hk : Base E) {acc0 : A}
    {width : Nat} {us : List U} {ns : List N} {s : Sys N K Leaf A} (h : Synced E acc0 width us ns s)
    (hl : Ledger E.par us) (id : Nat) : stock s.signer.assets id = total (unspent E.par us ns) id := by
  have h1 := h.core.agree id
  have h2 := AList.c16_value E.bs _ h.core.wf id
  have h3 := synced_value hk h hl id
  simp only at h1 h2
  omega

theorem mem_unspent {P : Params U N K Leaf} {us : List U} {ns : List N} {c : K × Asset} :
    c ∈ unspent P us ns ↔ c ∈ opened P us ∧ nfc P c ∉ ns := by
  unfold unspent
  rw [List.mem_filter, decide_eq_true_eq]
  rfl

theorem synced_stored {E : Env U N K Leaf A Addr Acct} (hk : Base E) {acc0 : A}
    {width : Nat} {us : List U} {ns : List N} {s : Sys N K Leaf A} (h : Synced E acc0 width us ns s)
    (k : K) (a : Asset) : Stored s.signer.assets k a ↔ (k, a) ∈ unspent E.par us ns := by
  rw [h.core.signer.coins, mem_unspent, List.mem_filter]
  simp [hk.openable, nfc]

/-- A synchronized signer is ready to sign. -/
theorem synced_ready {E : Env U N K Leaf A Addr Acct} (hk : Base E) {acc0 : A}
    {free : A → Nat} {sound : List Leaf → Prop} {capacity : Nat} {width : Nat}
    (ha : AccLaws E acc0 free sound capacity width) {us : List U} {ns : List N} {s : Sys N K Leaf A} (h : Synced E acc0 width us ns s)
    (hacc : s.accounts = true) (hc : us.length ≤ capacity) (hn : (us.map E.par.leaf).Nodup)
    (hs : sound (us.map E.par.leaf))
    (hf : FreshFrom E.sign s.next (s.next + draws s.signer.assets) fun k => ∃ a, (k, a) ∈ opened E.par us) :
    Ready E.sign s.signing := by
  have hlen : (inserted s.signer.tree).length = us.length := by
    have := h.core.signer.leaves
    simp only at this
    rw [this, List.length_map]
  obtain ⟨bs, hb1, hb2⟩ := h.acc
  have hl : inserted s.signer.tree = us.map E.par.leaf := h.core.signer.leaves
  refine ⟨hacc, h.core.signer.wf, ?_, ⟨hf.1, ?_⟩, ?_⟩
  · intro k a hst
    rw [hk.leaf]
    show E.sign.contains s.acc _ = true
    rw [hb2]
    exact ha.holds _ _ (by rw [hb1, hl]; exact hs) (by rw [hb1]; omega) (by rw [hb1, hl]; exact hn) (by rw [hb1]; exact h.core.signer.marked k a hst)
  · rintro i hi hi' ⟨a, hst⟩
    exact hf.2 i hi hi' ⟨a, ((h.core.signer.coins _ _).mp hst).1⟩
  · show E.sign.rollback s.acc = s.acc
    rw [hb2]
    exact ha.committed _ (by rw [hb1, hl]; exact hs)

/-- A synchronized signer whose accumulator comes back unchanged is unchanged. -/
theorem signed_signer {E : Env U N K Leaf A Addr Acct} {acc0 : A} {free : A → Nat} {sound : List Leaf → Prop} {capacity width : Nat}
    (ha : AccLaws E acc0 free sound capacity width) {us : List U} {ns : List N} {s : Sys N K Leaf A}
    (h : Synced E acc0 width us ns s) (hc : us.length ≤ capacity) {g : Verif.Sign.Signer K A} (hg : g.acc = s.acc) :
    (s.signed E g).wallet = s.wallet ∧ (s.signed E g).signer = s.signer ∧ (s.signed E g).acc = s.acc := by
  refine ⟨rfl, ?_, hg⟩
  obtain ⟨bs, hb1, hb2⟩ := h.acc
  have hlen : (inserted s.signer.tree).length = us.length := by
    have := h.core.signer.leaves
    simp only at this
    rw [this, List.length_map]
  have h1 := ha.counts bs (by rw [hb1]; omega)
  have h2 := h.core.lens
  have h3 := h.core.signer.leaves
  simp only at h2 h3
  have e : E.lens g.acc = s.signer.lens := by rw [hg, hb2, h1, hb1, h3, h2]
  simp only [Sys.signed, e]

/-! ## Settlement -/

theorem opened_made {E : Env U N K Leaf A Addr Acct} {utxo : Receiver K Addr → U} (hk : Link E utxo)
    (posts : List (Tx K A Addr Acct)) : opened E.par ((made posts).map utxo) = kept posts := by
  unfold opened kept
  rw [List.filterMap_map]
  congr 1
  funext r
  obtain ⟨k, a, o⟩ := r
  cases o with
  | self => exact hk.own k a
  | other b => exact hk.others k a b

/-- After posts with known provenance have settled, what was in the wallet, what came in from outside and from
public sources is either still in the wallet or was given away or published. -/
theorem settled_total {E : Env U N K Leaf A Addr Acct} {utxo : Receiver K Addr → U} (hk : Link E utxo)
    {us : List U} {ns : List N} {m : AMap K} (hm : ∀ k a, Stored m k a ↔ (k, a) ∈ unspent E.par us ns)
    {n n' : Nat} {outs : List Nat} {posts : List (Tx K A Addr Acct)}
    (hp : Verif.Sign.Prov E.sign m n n' outs posts) (honce : (spent posts).Nodup) (hb : Balanced posts)
    {ds : List (SyncData U N)} {restU : List U} {restN : List N}
    (hs : Settles E utxo us ns posts ds restU restN) (id : Nat) :
    total (unspent E.par (us ++ allUtxos ds) (ns ++ allNulls ds)) id + bal (given posts) id +
        bal (posts.flatMap Tx.sinks) id =
      total (unspent E.par us ns) id + bal (posts.flatMap Tx.sources) id + total (opened E.par restU) id := by
  have hop : (opened E.par (allUtxos ds)).Perm (kept posts ++ opened E.par restU) := by
    have := hs.utxos.filterMap E.par.openNote
    rw [List.filterMap_append] at this
    rw [← opened_made hk]
    exact this
  have hnd : (opened E.par us ++ opened E.par (allUtxos ds)).Nodup := by
    rw [← Verif.Wallet.opened_append]; exact hs.ledger.once
  let C := unspent E.par us ns ++ (kept posts ++ opened E.par restU)
  have hC : C.Nodup := by
    have h1 : (opened E.par us ++ (kept posts ++ opened E.par restU)).Nodup :=
      (List.Perm.nodup_iff (List.Perm.append_left _ hop)).mp hnd
    exact h1.sublist (List.Sublist.append (List.filter_sublist (l := opened E.par us)) (List.Sublist.refl _))
  have hin : ∀ c ∈ spent posts, c.2.value ≠ 0 → c ∈ C := by
    intro c hc h0
    rcases hp.inputs c hc with (h | h) | ⟨h, _⟩
    · exact List.mem_append.mpr (.inl ((hm _ _).mp h))
    · refine List.mem_append.mpr (.inr (List.mem_append.mpr (.inl ?_)))
      exact List.mem_filterMap.mpr ⟨_, h, rfl⟩
    · exact absurd h h0
  have hfin : (unspent E.par (us ++ allUtxos ds) (ns ++ allNulls ds)).Perm
      (C.filter fun c => decide (c ∉ spent posts)) := by
    have hu : (unspent E.par (us ++ allUtxos ds) (ns ++ allNulls ds)).Nodup :=
      hs.ledger.once.sublist List.filter_sublist
    rw [List.perm_ext_iff_of_nodup hu (hC.sublist List.filter_sublist)]
    intro c
    rw [mem_unspent, List.mem_filter, decide_eq_true_eq]
    constructor
    · rintro ⟨h1, h2⟩
      have h3 : nfc E.par c ∉ ns := fun h => h2 (List.mem_append.mpr (.inl h))
      refine ⟨?_, fun hsp => h2 (List.mem_append.mpr (.inr ((hs.nulls _).mpr (.inl (List.mem_map.mpr ⟨c, hsp, rfl⟩)))))⟩
      rw [Verif.Wallet.opened_append, List.mem_append] at h1
      refine List.mem_append.mpr ?_
      rcases h1 with h1 | h1
      · exact .inl (mem_unspent.mpr ⟨h1, h3⟩)
      · exact .inr (hop.mem_iff.mp h1)
    · rintro ⟨h1, h2⟩
      have hall : c ∈ opened E.par (us ++ allUtxos ds) ∧ nfc E.par c ∉ ns := by
        rw [Verif.Wallet.opened_append, List.mem_append]
        rcases List.mem_append.mp h1 with h1 | h1
        · exact ⟨.inl (mem_unspent.mp h1).1, (mem_unspent.mp h1).2⟩
        · exact ⟨.inr (hop.mem_iff.mpr h1), hs.new c (hop.mem_iff.mpr h1)⟩
      refine ⟨hall.1, ?_⟩
      intro h
      rcases List.mem_append.mp h with h | h
      · exact hall.2 h
      · rcases (hs.nulls _).mp h with h | h
        · obtain ⟨x, hx, e⟩ := List.mem_map.mp h
          have := hs.apart c hall.1 x hx e.symm
          exact h2 (this ▸ hx)
        · exact hs.mine c hall.1 h
  have h1 := total_minus C (spent posts) hC honce hin id
  have h2 : total (unspent E.par (us ++ allUtxos ds) (ns ++ allNulls ds)) id =
      total (C.filter fun c => decide (c ∉ spent posts)) id := bal_perm (hfin.map Prod.snd) id
  have h3 : total C id = total (unspent E.par us ns) id + (total (kept posts) id + total (opened E.par restU) id) := by
    simp only [total, C, List.map_append, bal_append]
  have h4 := hb id
  have h5 := made_split posts id
  omega

end Verif.Pay
