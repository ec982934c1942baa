import Verif.World.Settle

/-! # Many wallets: the account book that they implement -/

set_option linter.unusedSectionVars false

namespace Verif.World

open Verif.Asset Verif.Asset.AMap
open Verif.Pay (Env Sys Base AccLaws Synced Ground Balanced unspent total amount)
open Verif.Wallet (SyncData allUtxos allNulls nfc opened Ledger bal_perm)
open Verif.Sign (Receiver Owner Tx Transaction made spent Prov Prover GoodSeq)

variable {ι U N K Leaf A Addr Acct : Type} [DecidableEq ι] [DecidableEq N] [DecidableEq K] [DecidableEq Addr]
  [DecidableEq Acct]

/-! ## Specification -/

/-- Private balances of users and public balances of accounts, by asset id. -/
structure Book (ι Acct : Type) where
  priv : ι → Nat → Nat
  pub : Acct → Nat → Nat

/-- Address that a request pays to. -/
def dest (addr : ι → Addr) (i : ι) : Owner Addr → Addr
  | .self => addr i
  | .other b => b

/-- What an event means for the balances. -/
def Book.step (addr : ι → Addr) (acct : ι → Acct) (b : Book ι Acct) : Event ι Addr Acct → Book ι Acct
  | .mint i a true =>
    ⟨fun j id => b.priv j id + if j = i then amount a id else 0,
     fun p id => b.pub p id - if p = acct i then amount a id else 0⟩
  | .pay i a o true =>
    ⟨fun j id => b.priv j id - (if j = i then amount a id else 0) + if addr j = dest addr i o then amount a id else 0,
     b.pub⟩
  | .withdraw i a p w =>
    ⟨fun j id => b.priv j id - if j = i then amount ⟨a.id, w⟩ id else 0,
     fun q id => b.pub q id + if q = p then amount ⟨a.id, w⟩ id else 0⟩
  | _ => b

/-- The book after some events. -/
def Book.after (addr : ι → Addr) (acct : ι → Acct) (b : Book ι Acct) (es : List (Event ι Addr Acct)) : Book ι Acct :=
  es.foldl (Book.step addr acct) b

/-- An event takes from nobody more than they have, and not more than was requested. -/
def Book.Covers (acct : ι → Acct) (b : Book ι Acct) : Event ι Addr Acct → Prop
  | .mint i a true => a.value ≤ b.pub (acct i) a.id
  | .pay i a _ true => a.value ≤ b.priv i a.id
  | .withdraw i a _ w => w ≤ a.value ∧ w ≤ b.priv i a.id
  | _ => True

/-! ## Lemmas -/

variable {W : World ι U N K Leaf A Addr Acct} {st : St ι U N K Leaf A Addr Acct}

theorem Signed.front {i : ι} {ds : List (SyncData U N)} {s1 s2 : Sys N K Leaf A} {pre suf : List (Tx K A Addr Acct)}
    (h : Signed W st i ds s1 s2 (pre ++ suf)) : Signed W st i ds s1 s2 pre := by
  obtain ⟨outs, hp⟩ := h.prov
  refine ⟨h.synced, h.same, h.keys, h.later, h.bound, hp.front, ?_⟩
  have := h.once
  rw [Verif.Sign.spent_append] at this
  exact (List.nodup_append.mp this).1

theorem Signed.take {i : ι} {ds : List (SyncData U N)} {s1 s2 : Sys N K Leaf A} {posts : List (Tx K A Addr Acct)}
    (h : Signed W st i ds s1 s2 posts) (n : Nat) : Signed W st i ds s1 s2 (posts.take n) := by
  rw [← List.take_append_drop n posts] at h
  exact h.front

theorem goodSeq_front {E : Verif.Sign.Env K Leaf A Addr Acct} {aid : Nat} (pre suf : List (Tx K A Addr Acct)) :
    ∀ acc, GoodSeq E aid acc (pre ++ suf) → GoodSeq E aid acc pre := by
  induction pre with
  | nil => intro _ _; trivial
  | cons tx pre ih => intro acc h; exact ⟨h.1, ih _ h.2⟩

theorem owned_self (hW : Sound W) (i : ι) (rs : List (Receiver K Addr)) (h : ∀ r ∈ rs, r.owner = .self) (j : ι) (id : Nat) :
    total (owned W (rs.map fun r => (i, r)) j) id = if j = i then bal (rs.map Receiver.asset) id else 0 := by
  induction rs with
  | nil => simp [owned, total]
  | cons r rs ih =>
    have h1 := ih fun x hx => h x (List.mem_cons_of_mem _ hx)
    have h2 := h r (by simp)
    unfold owned at h1 ⊢
    rw [List.map_cons, List.filterMap_cons, List.map_cons, bal_cons]
    have ht : W.target (i, r) = W.addr i := by simp only [World.target, h2]
    by_cases e : j = i
    · subst e
      simp only [ht, if_true] at h1 ⊢
      rw [← h1]
      unfold total
      rw [List.map_cons, bal_cons]
    · rw [if_neg e] at h1 ⊢
      rw [ht, if_neg fun e' => e (hW.addrs _ _ e').symm]
      exact h1

theorem owned_two (i j : ι) (l l' : List (Receiver K Addr)) (id : Nat) :
    total (owned W ((l ++ l').map fun r => (i, r)) j) id =
      total (owned W (l.map fun r => (i, r)) j) id + total (owned W (l'.map fun r => (i, r)) j) id := by
  rw [List.map_append, owned_append]
  unfold total
  rw [List.map_append, bal_append]

theorem owned_one (i j : ι) (r : Receiver K Addr) (id : Nat) :
    total (owned W ([r].map fun r => (i, r)) j) id =
      if W.addr j = dest W.addr i r.owner then amount r.asset id else 0 := by
  have ht : W.target (i, r) = dest W.addr i r.owner := by
    unfold World.target dest
    cases r.owner <;> rfl
  unfold owned total
  rw [List.map_cons, List.filterMap_cons, ht]
  by_cases e : W.addr j = dest W.addr i r.owner
  · rw [if_pos e, if_pos e.symm]
    exact Verif.Pay.bal_one id
  · rw [if_neg e, if_neg fun e' => e e'.symm]
    rfl

theorem credit_none {posts : List (Tx K A Addr Acct)} (h : ∀ tx ∈ posts, tx.sinks = []) (p : Acct) (id : Nat) :
    credit posts p id = 0 := by
  unfold credit
  have : (posts.flatMap fun tx => (tx.accounts.zip tx.sinks).filterMap fun x => if x.1 = p then some x.2 else none) = [] := by
    rw [List.flatMap_eq_nil_iff]
    intro tx ht
    rw [h tx ht, List.zip_nil_right]
    rfl
  rw [this]
  rfl

theorem credit_one {posts : List (Tx K A Addr Acct)} {p : Acct}
    (h : ∀ tx ∈ posts, tx.accounts = [p] ∧ ∃ a, tx.sinks = [a]) (q : Acct) (id : Nat) :
    credit posts q id = if q = p then bal (posts.flatMap Tx.sinks) id else 0 := by
  induction posts with
  | nil => simp [credit]
  | cons tx posts ih =>
    have h1 := ih fun x hx => h x (List.mem_cons_of_mem _ hx)
    obtain ⟨e1, a, e2⟩ := h tx (by simp)
    unfold credit at h1 ⊢
    rw [List.flatMap_cons, bal_append, h1, List.flatMap_cons, bal_append, e1, e2]
    by_cases e : q = p
    · subst e; simp
    · have e' : ¬ p = q := fun h => e h.symm
      simp [e, e']

theorem flat_nil {posts : List (Tx K A Addr Acct)} {f : Tx K A Addr Acct → List Asset} (h : ∀ tx ∈ posts, f tx = []) :
    posts.flatMap f = [] := List.flatMap_eq_nil_iff.mpr h

theorem made_self {posts : List (Tx K A Addr Acct)} (h : ∀ tx ∈ posts, ∀ r ∈ tx.receivers, r.owner = .self) :
    ∀ r ∈ made posts, r.owner = .self := by
  intro r hr
  obtain ⟨tx, ht, hr⟩ := List.mem_flatMap.mp hr
  exact h tx ht r hr

/-- Posts that neither pay anybody else nor touch public accounts. -/
structure Inner (posts : List (Tx K A Addr Acct)) : Prop where
  own : ∀ r ∈ made posts, r.owner = .self
  sources : ∀ tx ∈ posts, tx.sources = []
  sinks : ∀ tx ∈ posts, tx.sinks = []
  balanced : Balanced posts

theorem funds_same (i : ι) (ds : List (SyncData U N)) (s2 : Sys N K Leaf A) (posts : List (Tx K A Addr Acct))
    (h1 : ∀ tx ∈ posts, tx.sources = []) (h2 : ∀ tx ∈ posts, tx.sinks = []) :
    ((st.view i ds s2).accept W i posts).funds = st.funds := by
  funext p id
  simp only [St.accept, St.view]
  rw [flat_nil h1, credit_none h2]
  simp

theorem inner_settle (hW : Sound W) (hi : Inv W st) {i : ι} {ds : List (SyncData U N)} {s1 s2 : Sys N K Leaf A}
    {posts : List (Tx K A Addr Acct)} (hd : Current W st i ds) (h : Signed W st i ds s1 s2 posts) (hin : Inner posts)
    (hh' : Honest W ((st.view i ds s2).accept W i posts)) (j : ι) (id : Nat) :
    left W ((st.view i ds s2).accept W i posts) j id = left W st j id := by
  have h1 := h.settle hW hi hd hh' j id
  have h2 := hin.balanced id
  rw [flat_nil hin.sources, flat_nil hin.sinks] at h2
  unfold news at h1
  rw [owned_self hW i _ hin.own] at h1
  simp only [bal_nil] at h2
  split at h1 <;> omega

/-! ## Requests -/

theorem signed_of (hW : Sound W) (hi : Inv W st) (hh : Honest W st) {i : ι} {ds : List (SyncData U N)}
    (hd : Current W st i ds) (hr : Room W st i ds) {s1 : Sys N K Leaf A}
    (h1 : Synced (W.env i) (W.acc0 i) (W.width i) (st.seenU i ++ allUtxos ds) (st.seenN i ++ allNulls ds) s1)
    (hk : s1.accounts = true ∧ s1.authorization = true) (hn : s1.next = (st.sys i).next)
    {g : Verif.Sign.Signer K A} (hg : g.acc = s1.acc) {posts : List (Tx K A Addr Acct)} {outs : List Nat}
    (hnext : g.next ≤ s1.next + Verif.Sign.draws s1.signer.assets) (hle : s1.next ≤ g.next)
    (hp : Prov (W.env i).sign s1.signer.assets s1.next g.next outs posts)
    (honce : (spent posts).Nodup) : Signed W st i ds s1 (s1.signed (W.env i) g) posts := by
  have hG := hi.ground hW hh hd hr
  have hlen : (assetVector s1.signer.assets).length ≤ (opened (W.env i).par (st.us W)).length := by
    have hs := hG.ledger.once
    have hperm : (assetVector s1.signer.assets).Perm
        (unspent (W.env i).par (st.seenU i ++ allUtxos ds) (st.seenN i ++ allNulls ds)) := by
      have hu : (unspent (W.env i).par (st.seenU i ++ allUtxos ds) (st.seenN i ++ allNulls ds)).Nodup :=
        hs.sublist List.filter_sublist
      have hv : (assetVector s1.signer.assets).Nodup := assetVector_nodup _ h1.core.signer.wf
      rw [List.perm_ext_iff_of_nodup hv hu]
      rintro ⟨k, a⟩
      rw [mem_assetVector]
      exact Verif.Pay.synced_stored (hW.base i) h1 k a
    have hl : (opened (W.env i).par (st.us W)).length =
        (opened (W.env i).par (st.seenU i ++ allUtxos ds)).length := (hd.1.filterMap _).length_eq.symm
    rw [hperm.length_eq, hl]
    exact List.length_filter_le _ _
  refine ⟨h1, Verif.Pay.signed_signer (hW.acc i) h1 ?_ hg, hk, ?_, ?_, ⟨outs, by rw [← hn]; exact hp⟩, honce⟩
  · have := hG.room
    omega
  · show (st.sys i).next ≤ g.next
    omega
  · show g.next ≤ W.bound i
    have := hr.2.1
    unfold Verif.Sign.draws at hnext
    omega

/-- The wallet after it has read everything. -/
theorem ready (hW : Sound W) (hi : Inv W st) (hh : Honest W st) {i : ι} {ds : List (SyncData U N)}
    (hd : Current W st i ds) (hr : Room W st i ds) :
    ∃ s1, Verif.Pay.syncAll (W.env i) (st.sys i) ds = (.ok, s1) ∧
      Synced (W.env i) (W.acc0 i) (W.width i) (st.seenU i ++ allUtxos ds) (st.seenN i ++ allNulls ds) s1 ∧
      (s1.accounts = true ∧ s1.authorization = true) ∧ s1.next = (st.sys i).next ∧
      Verif.Sign.Ready (W.env i).sign s1.signing ∧
      (∀ id, stock s1.signer.assets id ≤ (W.env i).sign.max) ∧
      (∀ id, stock s1.signer.assets id = left W st i id) ∧
      (∀ a : Asset, AList.contains (W.env i).bs s1.wallet.assets a = true ↔ a.value ≤ left W st i a.id) ∧
      ∀ id, 2 * (assetVectorWithId s1.signer.assets id).length ≤ W.free i s1.acc := by
  have hG := hi.ground hW hh hd hr
  obtain ⟨s1, e1, e2, e3, e4, e5, e6, e7, e8⟩ := hG.sync
  obtain ⟨s1', f1, _, f3, f4, f5⟩ := Verif.Pay.synced_all (W.env i) ds _ _ _ hG.synced hG.ledger hG.fits
  rw [e1] at f1
  cases f1
  have hst : ∀ id, stock s1.signer.assets id = left W st i id := by
    intro id
    rw [Verif.Pay.synced_stock (hW.base i) e2 hG.ledger, hd.2]
    exact total_perm (unspent_perm hd.1 _) id
  refine ⟨s1, e1, e2, ?_, f5, e3, e5, hst, ?_, e8⟩
  · rw [f3, f4]; exact hi.keys i
  · intro a
    rw [e7, hst]

/-- `post` after synchronization. -/
theorem post_synced {E : Env U N K Leaf A Addr Acct} {s s1 : Sys N K Leaf A} {ds : List (SyncData U N)}
    (h : Verif.Pay.syncAll E s ds = (.ok, s1)) (t : Transaction Addr Acct) :
    Verif.Pay.post E s ds t = Verif.Pay.sign E s1 t := by
  unfold Verif.Pay.post
  rw [h]

/-- A request that the balance does not cover. -/
theorem post_refused (hW : Sound W) (hi : Inv W st) (hh : Honest W st) {i : ι} {ds : List (SyncData U N)}
    (hd : Current W st i ds) (hr : Room W st i ds) (t : Transaction Addr Acct) (a : Asset)
    (ht : (∃ o, t = .privateTransfer a o) ∨ ∃ p, t = .toPublic a p) (hc : left W st i a.id < a.value) :
    ∃ s1, Verif.Pay.post (W.env i) (st.sys i) ds t = (.insufficientBalance a, s1) ∧ Signed W st i ds s1 s1 [] := by
  obtain ⟨s1, e1, e2, e3, e4, e5, e6, e7, e8, _⟩ := ready hW hi hh hd hr
  have hn : ¬ AList.contains (W.env i).bs s1.wallet.assets a = true := by rw [e8]; omega
  have hb := hi.bounds i
  refine ⟨s1, ?_, e2, ⟨rfl, rfl, rfl⟩, e3, by omega, by omega, ⟨[], ?_⟩, by simp [spent]⟩
  · rw [post_synced e1]
    rcases ht with ⟨o, rfl⟩ | ⟨p, rfl⟩ <;>
      simp only [Verif.Pay.sign, Verif.Pay.check, hn, if_false, Bool.false_eq_true]
  · rw [e4]; exact Verif.Sign.prov_nil _ _ _

/-- A payment that the balance covers. -/
theorem post_pays (hW : Sound W) (hi : Inv W st) (hh : Honest W st) {i : ι} {ds : List (SyncData U N)}
    (hd : Current W st i ds) (hr : Room W st i ds) (a : Asset) (hid : a.id ≠ 0 ∧ a.id < (W.env i).sign.ids) (o : Owner Addr)
    (hc : a.value ≤ left W st i a.id) :
    ∃ s1 s2 front l k k' change, Verif.Pay.post (W.env i) (st.sys i) ds (.privateTransfer a o) = (.ok (front ++ [l]), s2) ∧
      Signed W st i ds s1 s2 (front ++ [l]) ∧ (∀ tx ∈ front, Verif.Sign.IsJoin tx) ∧ l.sources = [] ∧ l.sinks = [] ∧
      l.receivers = [⟨k, ⟨a.id, change⟩, .self⟩, ⟨k', a, o⟩] ∧
      (∀ pre suf, front ++ [l] = pre ++ suf → Balanced pre) := by
  obtain ⟨s1, e1, e2, e3, e4, e5, e6, e7, e8, e9⟩ := ready hW hi hh hd hr
  obtain ⟨cs, change, posts, g', q1, q2, q3, q4, q5, q6, q7, q8⟩ :=
    Verif.Sign.c27_private_transfer (hW.acc i).laws (hW.prover i) s1.signing e5 a hid o (e6 _) (e9 _) (by
      show a.value ≤ stock s1.signer.assets a.id
      rw [e7]; exact hc)
  obtain ⟨outs, hp⟩ := Verif.Sign.sign_flow (W.env i).sign _ _ e5.coins _ _ q1
  obtain ⟨front, l, rfl, hj, l1, l2, _, l3, k, k', hl⟩ := q5.last
  have hle := (Verif.Sign.c128_sign (W.env i).sign s1.signing (.privateTransfer a o)).1
  rw [q1] at hle
  refine ⟨s1, s1.signed (W.env i) g', front, l, k, k', change, ?_, ?_, hj, l1, l2, hl, ?_⟩
  · rw [post_synced e1]
    simp only [Verif.Pay.sign, Verif.Pay.check, (e8 a).mpr hc, if_true]
    rw [q1]
    rfl
  · exact signed_of hW hi hh hd hr e2 e3 e4 q6 q8 hle hp q5.once
  · intro pre suf e
    have := q5.seq
    rw [e] at this
    exact Verif.Pay.balanced_seq _ _ (goodSeq_front _ _ _ this)

/-- A withdrawal that the balance covers. -/
theorem post_withdraws (hW : Sound W) (hi : Inv W st) (hh : Honest W st) {i : ι} {ds : List (SyncData U N)}
    (hd : Current W st i ds) (hr : Room W st i ds) (a : Asset) (hid : a.id ≠ 0 ∧ a.id < (W.env i).sign.ids) (p : Acct)
    (hc : a.value ≤ left W st i a.id) :
    ∃ s1 s2 posts, Verif.Pay.post (W.env i) (st.sys i) ds (.toPublic a p) = (.ok posts, s2) ∧
      Signed W st i ds s1 s2 posts ∧ (∀ tx ∈ posts, tx.sources = [] ∧ tx.accounts = [p] ∧
        (∃ k v, tx.receivers = [⟨k, ⟨a.id, v⟩, .self⟩]) ∧ ∃ v, tx.sinks = [⟨a.id, v⟩]) ∧
      (∀ pre suf, posts = pre ++ suf → Balanced pre) ∧
      (posts.map fun tx => (tx.sinks.map Asset.value).sum).sum = a.value := by
  obtain ⟨s1, e1, e2, e3, e4, e5, e6, e7, e8, e9⟩ := ready hW hi hh hd hr
  obtain ⟨cs, change, posts, g', q1, q2, q3, q4, q5, q6, q7, q8⟩ :=
    Verif.Sign.c28_to_public (hW.prover i) s1.signing e5 a hid p (e6 _) (by
      show a.value ≤ stock s1.signer.assets a.id
      rw [e7]; exact hc)
  obtain ⟨outs, hp⟩ := Verif.Sign.sign_flow (W.env i).sign _ _ e5.coins _ _ q1
  have hle := (Verif.Sign.c128_sign (W.env i).sign s1.signing (.toPublic a p)).1
  rw [q1] at hle
  refine ⟨s1, s1.signed (W.env i) g', posts, ?_, ?_, ?_, ?_, q5.published⟩
  · rw [post_synced e1]
    simp only [Verif.Pay.sign, Verif.Pay.check, (e8 a).mpr hc, if_true]
    rw [q1]
    rfl
  · exact signed_of hW hi hh hd hr e2 e3 e4 q6 q8 hle hp q5.once
  · intro tx ht
    obtain ⟨h1, _, h3, h4, h5⟩ := q5.shape tx ht
    exact ⟨h1, h3, h4, h5⟩
  · intro pre suf e
    refine Verif.Pay.balanced_all (E := (W.env i).sign) (aid := a.id) (acc := s1.signing.acc) _ fun tx ht => q5.good tx ?_
    rw [e]
    exact List.mem_append.mpr (.inl ht)

/-- Minting. -/
theorem post_mints (hW : Sound W) (hi : Inv W st) (hh : Honest W st) {i : ι} {ds : List (SyncData U N)}
    (hd : Current W st i ds) (hr : Room W st i ds) (a : Asset) (hid : a.id ≠ 0 ∧ a.id < (W.env i).sign.ids) (hmax : a.value ≤ (W.env i).sign.max) :
    ∃ s1 s2 k, Verif.Pay.post (W.env i) (st.sys i) ds (.toPrivate a) = (.ok [⟨[a], [], [⟨k, a, .self⟩], [], []⟩], s2) ∧
      Signed W st i ds s1 s2 [⟨[a], [], [⟨k, a, .self⟩], [], []⟩] := by
  obtain ⟨s1, e1, e2, e3, e4, e5, e6, e7, e8, e9⟩ := ready hW hi hh hd hr
  obtain ⟨k, q1⟩ := Verif.Sign.c28_to_private (hW.prover i) s1.signing a hid hmax e3.2
  obtain ⟨outs, hp⟩ := Verif.Sign.sign_flow (W.env i).sign _ _ e5.coins _ _ q1
  refine ⟨s1, s1.signed (W.env i) { s1.signing with acc := (W.env i).sign.rollback s1.acc, next := s1.next + 1 }, k, ?_, ?_⟩
  · rw [post_synced e1]
    simp only [Verif.Pay.sign, Verif.Pay.check]
    rw [q1]
    rfl
  · refine signed_of hW hi hh hd hr e2 e3 e4 e5.committed ?_ ?_ hp (by simp [spent])
    · show s1.next + 1 ≤ s1.next + Verif.Sign.draws s1.signer.assets
      unfold Verif.Sign.draws
      omega
    · exact Nat.le_succ _

/-- A request to merge coins asks for no more than there is. -/
theorem request_fits (hW : Sound W) (hi : Inv W st) (hh : Honest W st) {i : ι} {ds : List (SyncData U N)}
    (hd : Current W st i ds) (req : List (K × Asset)) (hreq : Verif.Sign.consolidationOk req = true)
    (hst : ∀ c ∈ req, c ∈ unspent (W.env i).par (st.us W) (st.ns W)) {s1 : Sys N K Leaf A}
    (e2 : Synced (W.env i) (W.acc0 i) (W.width i) (st.seenU i ++ allUtxos ds) (st.seenN i ++ allNulls ds) s1)
    (e6 : ∀ id, stock s1.signer.assets id ≤ (W.env i).sign.max) (e7 : ∀ id, stock s1.signer.assets id = left W st i id)
    (e9 : ∀ id, 2 * (assetVectorWithId s1.signer.assets id).length ≤ W.free i s1.acc) :
    (∀ c ∈ req, Stored s1.signer.assets c.1 c.2) ∧ 2 * req.length ≤ W.free i s1.acc ∧
      (req.map fun c => c.2.value).sum ≤ (W.env i).sign.max := by
  obtain ⟨r1, r2, r3, r4⟩ := (Verif.Sign.c58_request_partial req).mp hreq
  have hstored : ∀ c ∈ req, Stored s1.signer.assets c.1 c.2 := by
    intro c hc
    rw [Verif.Pay.synced_stored (hW.base i) e2, hd.2]
    exact (unspent_perm hd.1 _).mem_iff.mpr (hst c hc)
  obtain ⟨c0, rest, hreqe⟩ : ∃ c0 rest, req = c0 :: rest := by
    cases req with
    | nil => cases hreq
    | cons c r => exact ⟨c, r, rfl⟩
  have hid : ∀ c ∈ req, c.2.id = c0.2.id := fun c hc => r3 c hc c0 (by rw [hreqe]; simp)
  have hperm : req.Perm ((assetVectorWithId s1.signer.assets c0.2.id).filter fun c => decide (c ∈ req)) := by
    have hnd : (assetVectorWithId s1.signer.assets c0.2.id).Nodup :=
      (assetVector_nodup _ e2.core.signer.wf).sublist List.filter_sublist
    rw [List.perm_ext_iff_of_nodup r2 (hnd.sublist List.filter_sublist)]
    intro c
    rw [List.mem_filter, decide_eq_true_eq]
    exact ⟨fun hc => ⟨(c20_asset_vector_with_id _ _ _ _).mpr ⟨hstored c hc, hid c hc⟩, hc⟩, fun h => h.2⟩
  have hlen : 2 * req.length ≤ W.free i s1.acc := by
    have h1 : req.length ≤ (assetVectorWithId s1.signer.assets c0.2.id).length := by
      rw [hperm.length_eq]
      exact List.length_filter_le _ _
    have := e9 c0.2.id
    omega
  have hsum : (req.map fun c => c.2.value).sum ≤ (W.env i).sign.max := by
    have h1 : (req.map fun c => c.2.value).sum = total req c0.2.id := by
      unfold total
      rw [Verif.Pay.bal_sum Prod.snd req c0.2.id c0.2.id hid, if_pos rfl]
    have h2 : total req c0.2.id ≤ left W st i c0.2.id := by
      unfold left
      have hsub : req.Perm ((unspent (W.env i).par (st.us W) (st.ns W)).filter fun c => decide (c ∈ req)) := by
        have hu : (unspent (W.env i).par (st.us W) (st.ns W)).Nodup :=
          (ledger_us hi hh i).once.sublist List.filter_sublist
        rw [List.perm_ext_iff_of_nodup r2 (hu.sublist List.filter_sublist)]
        intro c
        rw [List.mem_filter, decide_eq_true_eq]
        exact ⟨fun hc => ⟨hst c hc, hc⟩, fun h => h.2⟩
      rw [total_perm hsub]
      exact Verif.Wallet.bal_sublist_le (List.Sublist.map _ List.filter_sublist) _
    have h3 := e6 c0.2.id
    rw [e7] at h3
    omega
  exact ⟨hstored, hlen, hsum⟩

/-- Consolidation. -/
theorem post_consolidates (hW : Sound W) (hi : Inv W st) (hh : Honest W st) {i : ι} {ds : List (SyncData U N)}
    (hd : Current W st i ds) (hr : Room W st i ds) (req : List (K × Asset)) (hreq : Verif.Sign.consolidationOk req = true)
    (hst : ∀ c ∈ req, c ∈ unspent (W.env i).par (st.us W) (st.ns W)) (hid0 : ∀ c ∈ req, c.2.id ≠ 0 ∧ c.2.id < (W.env i).sign.ids) :
    ∃ s1 s2 posts, Verif.Pay.postConsolidation (W.env i) (st.sys i) ds req = (.ok posts, s2) ∧
      Signed W st i ds s1 s2 posts ∧ ∀ pre suf, posts = pre ++ suf → Inner pre := by
  obtain ⟨s1, e1, e2, e3, e4, e5, e6, e7, e8, e9⟩ := ready hW hi hh hd hr
  obtain ⟨hstored, hlen, hsum⟩ := request_fits hW hi hh hd req hreq hst e2 e6 e7 e9
  obtain ⟨posts, g', id, q1, q2, q5, q6, q7, q8⟩ := Verif.Sign.c58_consolidate (hW.acc i).laws (hW.prover i) s1.signing e5
    req hreq hstored hsum hlen hid0
  obtain ⟨outs, hp⟩ := Verif.Sign.consolidate_flow (W.env i).sign _ _ _ _ q1
  have hle := (Verif.Sign.c128_consolidate (W.env i).sign s1.signing req).1
  rw [q1] at hle
  refine ⟨s1, s1.signed (W.env i) g', posts, ?_, signed_of hW hi hh hd hr e2 e3 e4 q6 q8 hle hp q5.once, ?_⟩
  · unfold Verif.Pay.postConsolidation
    rw [e1]
    simp only [Verif.Pay.consolidate]
    rw [q1]
    rfl
  · intro pre suf e
    have hbal := q5.seq
    rw [e] at hbal
    obtain ⟨front, l, rfl, hj, l1, l2, _, l3, k, k', hl⟩ := q5.last
    have hmem : ∀ tx ∈ pre, tx ∈ front ++ [l] := fun tx ht => by rw [e]; exact List.mem_append.mpr (.inl ht)
    have hall : ∀ tx ∈ front ++ [l], tx.sources = [] ∧ tx.sinks = [] ∧ ∀ r ∈ tx.receivers, r.owner = .self := by
      intro tx ht
      rcases List.mem_append.mp ht with ht | ht
      · have := hj tx ht
        exact ⟨this.1, this.2.2.2.1, this.2.2.2.2.2⟩
      · rw [List.mem_singleton] at ht
        subst ht
        refine ⟨l1, l2, ?_⟩
        intro r hr
        rw [hl] at hr
        simp only [List.mem_cons, List.not_mem_nil, or_false] at hr
        rcases hr with rfl | rfl <;> rfl
    exact ⟨made_self fun tx ht => (hall tx (hmem tx ht)).2.2, fun tx ht => (hall tx (hmem tx ht)).1,
      fun tx ht => (hall tx (hmem tx ht)).2.1, Verif.Pay.balanced_seq _ _ (goodSeq_front _ _ _ hbal)⟩

end Verif.World
