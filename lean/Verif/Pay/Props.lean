import Verif.Pay.Lemmas

/-! # C111: payments from request to balance -/

set_option linter.unusedSectionVars false

namespace Verif.Pay

open Verif.Asset Verif.Asset.AMap
open Verif.Wallet (Params SyncData SyncResponse TreeOp Wallet Ledger WCore allUtxos allNulls opened nfc marks inserted
  bal_perm)
open Verif.Sign (Laws Prover Ready PrivateBatch PublicBatch FreshFrom draws spent made Receiver Owner Tx)

variable {U N K Leaf A Addr Acct : Type} [DecidableEq N] [DecidableEq K]

/-- What is known before a request: a synchronized wallet `s`, honest ledger data `ds` waiting for it, keys loaded,
identifiers still to be drawn are new, room in the accumulator. -/
structure Ground (E : Env U N K Leaf A Addr Acct) (acc0 : A) (free : A → Nat) (sound : List Leaf → Prop)
    (capacity width : Nat) (us : List U) (ns : List N) (s : Sys N K Leaf A) (ds : List (SyncData U N)) : Prop where
  base : Base E
  acc : AccLaws E acc0 free sound capacity width
  prover : Prover E.sign
  synced : Synced E acc0 width us ns s
  ledger : Ledger E.par (us ++ allUtxos ds)
  /-- the ledger accepts a UTXO once (C34), and the accumulator items of different UTXOs differ -/
  items : ((us ++ allUtxos ds).map E.par.leaf).Nodup
  /-- leaves for which the accumulator works -/
  sound : sound ((us ++ allUtxos ds).map E.par.leaf)
  fits : ∀ id, bal ((opened E.par (us ++ allUtxos ds)).map Prod.snd) id ≤ E.sign.max
  keys : s.accounts = true ∧ s.authorization = true
  fresh : FreshFrom E.sign s.next (s.next + (2 * (opened E.par (us ++ allUtxos ds)).length + 4))
    fun k => ∃ a, (k, a) ∈ opened E.par (us ++ allUtxos ds)
  room : (us ++ allUtxos ds).length +
    2 * (unspent E.par (us ++ allUtxos ds) (ns ++ allNulls ds)).length ≤ capacity

/-- The same, and the signer reads its own posts as it should. -/
structure Before (E : Env U N K Leaf A Addr Acct) (utxo : Receiver K Addr → U) (acc0 : A) (free : A → Nat) (sound : List Leaf → Prop)
    (capacity width : Nat) (us : List U) (ns : List N) (s : Sys N K Leaf A) (ds : List (SyncData U N)) : Prop extends
    Ground E acc0 free sound capacity width us ns s ds where
  link : Link E utxo

/-- Outcome of a request for which `posts` were written, `s1` being the state in which it was signed and `s2` the one
in which it returned. -/
structure Done (E : Env U N K Leaf A Addr Acct) (utxo : Receiver K Addr → U) (acc0 : A) (width : Nat)
    (us : List U) (ns : List N) (s1 s2 : Sys N K Leaf A) (posts : List (Tx K A Addr Acct))
    (gain loss : Nat → Nat) : Prop where
  /-- until the ledger reports the posts nothing has changed, so the request can be repeated -/
  again : s2.wallet = s1.wallet ∧ s2.signer = s1.signer ∧ s2.acc = s1.acc
  /-- once the ledger reports them, in whatever portions and among whatever else, synchronization succeeds and every
  balance is as expected -/
  settled : ∀ ds restU restN, Settles E utxo us ns posts ds restU restN →
    ∃ s3, syncAll E s2 ds = (.ok, s3) ∧ Synced E acc0 width (us ++ allUtxos ds) (ns ++ allNulls ds) s3 ∧
      ∀ id, AList.value E.bs s3.wallet.assets id + loss id =
        AList.value E.bs s1.wallet.assets id + gain id + total (opened E.par restU) id

/-! ## Lemmas -/

section
variable {E : Env U N K Leaf A Addr Acct} {utxo : Receiver K Addr → U} {acc0 : A} {free : A → Nat} {sound : List Leaf → Prop}
  {capacity width : Nat} {us : List U} {ns : List N}

theorem ledger_nil {P : Params U N K Leaf} {us : List U} {ds : List (SyncData U N)} (h : Ledger P (us ++ allUtxos ds)) :
    Ledger P us := Verif.Wallet.ledger_prefix h

theorem done_of (hk : Link E utxo) {s1 s2 : Sys N K Leaf A} (h : Synced E acc0 width us ns s1) (hl : Ledger E.par us)
    (h2 : s2.wallet = s1.wallet ∧ s2.signer = s1.signer ∧ s2.acc = s1.acc) {n n' : Nat} {outs : List Nat}
    {posts : List (Tx K A Addr Acct)} (hp : Verif.Sign.Prov E.sign s1.signer.assets n n' outs posts)
    (honce : (spent posts).Nodup) (hb : Balanced posts) (gain loss : Nat → Nat)
    (hg : ∀ id, bal (posts.flatMap Tx.sources) id = gain id)
    (hlo : ∀ id, bal (given posts) id + bal (posts.flatMap Tx.sinks) id = loss id) :
    Done E utxo acc0 width us ns s1 s2 posts gain loss := by
  refine ⟨h2, ?_⟩
  intro ds restU restN hs
  obtain ⟨w, g, ac, a1, a2, n2⟩ := s2
  obtain ⟨rfl, rfl, rfl⟩ := h2
  have hsy : Synced E acc0 width us ns (⟨s1.wallet, s1.signer, s1.acc, a1, a2, n2⟩ : Sys N K Leaf A) :=
    ⟨h.core, h.acc⟩
  obtain ⟨s3, e1, e2, _⟩ := synced_all E ds us ns _ hsy hs.ledger hs.fits
  refine ⟨s3, e1, e2, ?_⟩
  intro id
  rw [synced_value hk.toBase e2 hs.ledger, synced_value hk.toBase h hl]
  have := settled_total hk (synced_stored hk.toBase h) hp honce hb hs id
  have h4 := hg id
  have h5 := hlo id
  omega

theorem Ground.sync {s : Sys N K Leaf A} {ds : List (SyncData U N)}
    (h : Ground E acc0 free sound capacity width us ns s ds) :
    ∃ s1, syncAll E s ds = (.ok, s1) ∧ Synced E acc0 width (us ++ allUtxos ds) (ns ++ allNulls ds) s1 ∧
      Ready E.sign s1.signing ∧ s1.authorization = true ∧
      (∀ id, stock s1.signer.assets id ≤ E.sign.max) ∧
      (∀ id, stock s1.signer.assets id = AList.value E.bs s1.wallet.assets id) ∧
      (∀ a : Asset, AList.contains E.bs s1.wallet.assets a = true ↔ a.value ≤ stock s1.signer.assets a.id) ∧
      ∀ id, 2 * (assetVectorWithId s1.signer.assets id).length ≤ free s1.acc := by
  obtain ⟨s1, e1, e2, k1, k2, k3⟩ := synced_all E ds us ns s h.synced h.ledger h.fits
  have hlen : (assetVector s1.signer.assets).length =
      (unspent E.par (us ++ allUtxos ds) (ns ++ allNulls ds)).length := by
    refine List.Perm.length_eq ?_
    have hu : (unspent E.par (us ++ allUtxos ds) (ns ++ allNulls ds)).Nodup :=
      h.ledger.once.sublist List.filter_sublist
    rw [List.perm_ext_iff_of_nodup (assetVector_nodup _ e2.core.signer.wf) hu]
    rintro ⟨k, a⟩
    rw [mem_assetVector]
    exact synced_stored h.base e2 k a
  have hins : (inserted s1.signer.tree).length = (us ++ allUtxos ds).length := by
    have := e2.core.signer.leaves
    simp only at this
    rw [this, List.length_map]
  refine ⟨s1, e1, e2, ?_, by rw [k2]; exact h.keys.2, ?_, ?_, ?_, ?_⟩
  · refine synced_ready h.base h.acc e2 (by rw [k1]; exact h.keys.1) ?_ h.items h.sound ?_
    have := h.room; omega
    have hd : draws s1.signer.assets ≤ 2 * (opened E.par (us ++ allUtxos ds)).length + 4 := by
      have : (unspent E.par (us ++ allUtxos ds) (ns ++ allNulls ds)).length ≤
          (opened E.par (us ++ allUtxos ds)).length := List.length_filter_le _ _
      unfold draws; omega
    rw [k3]
    exact ⟨fun i j a b c d => h.fresh.1 i j a (by omega) c (by omega), fun i a b => h.fresh.2 i a (by omega)⟩
  · intro id
    exact Nat.le_trans (Verif.Wallet.sinv_stock_le e2.core.signer h.ledger id) (h.fits id)
  · intro id
    rw [synced_value h.base e2 h.ledger, synced_stock h.base e2 h.ledger]
  · intro a
    rw [AList.c16_contains E.bs _ e2.core.wf]
    have := e2.core.agree a.id
    simp only at this
    rw [this]
  · intro id
    have h1 : (assetVectorWithId s1.signer.assets id).length ≤ (assetVector s1.signer.assets).length :=
      List.length_filter_le _ _
    obtain ⟨bs, hb1, hb2⟩ := e2.acc
    have h2 := h.acc.room bs (by
      have hl : inserted s1.signer.tree = _ := e2.core.signer.leaves
      rw [hb1, hl]; exact h.sound)
    rw [← hb2, hb1] at h2
    have h3 := h.room
    omega

theorem bal_one {a : Asset} (id : Nat) : bal [a] id = amount a id := by
  rw [bal_cons, bal_nil]
  unfold amount
  by_cases hid : id = a.id
  · simp [hid]
  · rw [if_neg hid, if_neg fun e => hid e.symm]

end

/-! ## C111 -/

/-- C111, refusal: if the balance after synchronization does not cover the amount, `post` reports that and writes
nothing; the wallet stays as synchronized. The signer, asked directly, refuses too. -/
theorem c111_refused {E : Env U N K Leaf A Addr Acct} {utxo : Receiver K Addr → U} {acc0 : A} {free : A → Nat} {sound : List Leaf → Prop}
    {capacity width : Nat} {us : List U} {ns : List N} {s : Sys N K Leaf A} {ds : List (SyncData U N)}
    (h : Before E utxo acc0 free sound capacity width us ns s ds) (a : Asset) (t : Verif.Sign.Transaction Addr Acct)
    (ht : (∃ addr, t = .privateTransfer a addr) ∨ ∃ p, t = .toPublic a p)
    (hc : total (unspent E.par (us ++ allUtxos ds) (ns ++ allNulls ds)) a.id < a.value) :
    ∃ s1, syncAll E s ds = (.ok, s1) ∧ post E s ds t = (.insufficientBalance a, s1) ∧
      Verif.Sign.sign E.sign s1.signing t = (.err .insufficientBalance, s1.signing) := by
  obtain ⟨s1, e1, e2, e3, _, e4, e5, e6, _⟩ := h.sync
  rw [← synced_stock h.base e2 h.ledger] at hc
  have hn : ¬ AList.contains E.bs s1.wallet.assets a = true := by rw [e6]; omega
  refine ⟨s1, e1, ?_, Verif.Sign.c27_insufficient _ e3.keys a t ht (e4 _) hc⟩
  unfold post
  rw [e1]
  rcases ht with ⟨addr, rfl⟩ | ⟨p, rfl⟩ <;> simp only [sign, check, hn, if_false, Bool.false_eq_true]

/-- C111, payment: if the balance covers the amount, `post` writes posts of which exactly one output, the
requested amount for the requested address, leaves the wallet. -/
theorem c111_paid {E : Env U N K Leaf A Addr Acct} {utxo : Receiver K Addr → U} {acc0 : A} {free : A → Nat} {sound : List Leaf → Prop}
    {capacity width : Nat} {us : List U} {ns : List N} {s : Sys N K Leaf A} {ds : List (SyncData U N)}
    (h : Before E utxo acc0 free sound capacity width us ns s ds) (a : Asset) (hid : a.id ≠ 0 ∧ a.id < E.sign.ids) (b : Addr)
    (hc : a.value ≤ total (unspent E.par (us ++ allUtxos ds) (ns ++ allNulls ds)) a.id) :
    ∃ s1 s2 posts k, syncAll E s ds = (.ok, s1) ∧ post E s ds (.privateTransfer a (.other b)) = (.ok posts, s2) ∧
      (made posts).filter (fun r => match r.owner with | .self => false | .other _ => true) = [⟨k, a, .other b⟩] ∧
      (∀ tx ∈ posts, tx.sources = [] ∧ tx.sinks = []) ∧
      Done E utxo acc0 width (us ++ allUtxos ds) (ns ++ allNulls ds) s1 s2 posts (fun _ => 0) (amount a) := by
  obtain ⟨s1, e1, e2, e3, _, e4, e5, e6, e7⟩ := h.sync
  rw [← synced_stock h.base e2 h.ledger] at hc
  obtain ⟨cs, change, posts, g', q1, q2, q3, q4, q5, q6, q7⟩ :=
    Verif.Sign.c27_private_transfer h.acc.laws h.prover s1.signing e3 a hid (.other b) (e4 _) (e7 _) hc
  obtain ⟨outs, hp⟩ := Verif.Sign.sign_flow E.sign _ _ e3.coins _ _ q1
  obtain ⟨front, l, rfl, hj, l1, l2, _, l3, k, k', hr⟩ := q5.last
  have hfront : ∀ (fs : List (Tx K A Addr Acct)), (∀ tx ∈ fs, Verif.Sign.IsJoin tx) →
      (made fs).filter (fun r => match r.owner with | .self => false | .other _ => true) = [] := by
    intro fs hfs
    rw [List.filter_eq_nil_iff]
    intro r hrm
    obtain ⟨tx, ht, hrt⟩ := List.mem_flatMap.mp hrm
    rw [(hfs tx ht).2.2.2.2.2 r hrt]
    simp
  have hout : (made (front ++ [l])).filter (fun r => match r.owner with | .self => false | .other _ => true) =
      [⟨k', a, .other b⟩] := by
    rw [Verif.Sign.made_append, List.filter_append, hfront front hj, show made [l] = l.receivers by simp [made], hr]
    rfl
  have hsrc : ∀ tx ∈ front ++ [l], tx.sources = [] ∧ tx.sinks = [] := by
    intro tx ht
    rcases List.mem_append.mp ht with ht | ht
    · exact ⟨(hj tx ht).1, (hj tx ht).2.2.2.1⟩
    · simp only [List.mem_singleton] at ht; subst ht; exact ⟨l1, l2⟩
  have hgiven : given (front ++ [l]) = [a] := by
    have e : given (front ++ [l]) = ((made (front ++ [l])).filter
        (fun r => match r.owner with | .self => false | .other _ => true)).filterMap fun r => match r.owner with
          | .self => none
          | .other _ => some r.asset := by
      unfold given
      rw [List.filterMap_filter]
      congr 1
      funext r
      obtain ⟨_, _, o⟩ := r
      cases o <;> rfl
    rw [e, hout]
    rfl
  refine ⟨s1, s1.signed E g', front ++ [l], k', e1, ?_, hout, hsrc, ?_⟩
  · unfold post
    rw [e1]
    simp only [sign, check, if_pos ((e6 a).mpr hc)]
    rw [q1]
    rfl
  · refine done_of (s2 := s1.signed E g') h.link e2 h.ledger
      (signed_signer h.acc e2 (by have := h.room; omega) q6) hp q5.once (balanced_seq _ _ q5.seq) _ _ ?_ ?_
    · intro id
      have : (front ++ [l]).flatMap Tx.sources = [] := by
        rw [List.flatMap_eq_nil_iff]; exact fun tx ht => (hsrc tx ht).1
      rw [this]; rfl
    · intro id
      have : (front ++ [l]).flatMap Tx.sinks = [] := by
        rw [List.flatMap_eq_nil_iff]; exact fun tx ht => (hsrc tx ht).2
      rw [this, hgiven, bal_nil]
      exact bal_one id

theorem given_nil {posts : List (Tx K A Addr Acct)} (h : ∀ r ∈ made posts, r.owner = .self) : given posts = [] := by
  unfold given
  rw [List.filterMap_eq_nil_iff]
  intro r hr
  rw [h r hr]

/-- C111, withdrawal: if the balance covers the amount, `post` writes posts whose outputs all belong to the wallet
and whose public amounts, all for the requested account, add up to the requested amount. -/
theorem c111_withdrawn {E : Env U N K Leaf A Addr Acct} {utxo : Receiver K Addr → U} {acc0 : A} {free : A → Nat} {sound : List Leaf → Prop}
    {capacity width : Nat} {us : List U} {ns : List N} {s : Sys N K Leaf A} {ds : List (SyncData U N)}
    (h : Before E utxo acc0 free sound capacity width us ns s ds) (a : Asset) (hid : a.id ≠ 0 ∧ a.id < E.sign.ids) (p : Acct)
    (hc : a.value ≤ total (unspent E.par (us ++ allUtxos ds) (ns ++ allNulls ds)) a.id) :
    ∃ s1 s2 posts, syncAll E s ds = (.ok, s1) ∧ post E s ds (.toPublic a p) = (.ok posts, s2) ∧
      (∀ r ∈ made posts, r.owner = .self) ∧ (∀ tx ∈ posts, tx.sources = [] ∧ tx.accounts = [p]) ∧
      (∀ id, bal (posts.flatMap Tx.sinks) id = amount a id) ∧
      Done E utxo acc0 width (us ++ allUtxos ds) (ns ++ allNulls ds) s1 s2 posts (fun _ => 0) (amount a) := by
  obtain ⟨s1, e1, e2, e3, _, e4, e5, e6, e7⟩ := h.sync
  rw [← synced_stock h.base e2 h.ledger] at hc
  obtain ⟨cs, change, posts, g', q1, q2, q3, q4, q5, q6, q7⟩ :=
    Verif.Sign.c28_to_public h.prover s1.signing e3 a hid p (e4 _) hc
  obtain ⟨outs, hp⟩ := Verif.Sign.sign_flow E.sign _ _ e3.coins _ _ q1
  have hown : ∀ r ∈ made posts, r.owner = .self := by
    intro r hr
    obtain ⟨tx, ht, hrt⟩ := List.mem_flatMap.mp hr
    obtain ⟨_, _, _, ⟨k, v, e⟩, _⟩ := q5.shape tx ht
    rw [e] at hrt
    simp only [List.mem_singleton] at hrt
    rw [hrt]
  have hsink : ∀ id, bal (posts.flatMap Tx.sinks) id = amount a id := by
    intro id
    have hids : ∀ x ∈ posts.flatMap Tx.sinks, x.id = a.id := by
      intro x hx
      obtain ⟨tx, ht, hxt⟩ := List.mem_flatMap.mp hx
      exact (q5.good tx ht).ids.2.2.2 x hxt
    have h1 := bal_sum (fun x => x) (posts.flatMap Tx.sinks) a.id id hids
    rw [List.map_id'] at h1
    rw [h1]
    unfold amount
    have h2 : ((posts.flatMap Tx.sinks).map fun x => x.value).sum = a.value := by
      rw [← q5.published, List.map_flatMap]
      generalize posts = ps
      induction ps with
      | nil => rfl
      | cons tx ps ih => simp only [List.flatMap_cons, List.sum_append, List.map_cons, List.sum_cons, ih]
    rw [h2]
  refine ⟨s1, s1.signed E g', posts, e1, ?_, hown, fun tx ht => ⟨(q5.shape tx ht).1, (q5.shape tx ht).2.2.1⟩, hsink, ?_⟩
  · unfold post
    rw [e1]
    simp only [sign, check, if_pos ((e6 a).mpr hc)]
    rw [q1]
    rfl
  · refine done_of (s2 := s1.signed E g') h.link e2 h.ledger
      (signed_signer h.acc e2 (by have := h.room; omega) q6) hp q5.once (balanced_all _ q5.good) _ _ ?_ ?_
    · intro id
      have : posts.flatMap Tx.sources = [] := by
        rw [List.flatMap_eq_nil_iff]; exact fun tx ht => (q5.shape tx ht).1
      rw [this]; rfl
    · intro id
      rw [given_nil hown, hsink, bal_nil, Nat.zero_add]

/-- C111, minting: signed with one post, whose only public input is the asset. -/
theorem c111_minted {E : Env U N K Leaf A Addr Acct} {utxo : Receiver K Addr → U} {acc0 : A} {free : A → Nat} {sound : List Leaf → Prop}
    {capacity width : Nat} {us : List U} {ns : List N} {s : Sys N K Leaf A} {ds : List (SyncData U N)}
    (h : Before E utxo acc0 free sound capacity width us ns s ds) (a : Asset) (hid : a.id ≠ 0 ∧ a.id < E.sign.ids)
    (hmax : a.value ≤ E.sign.max) :
    ∃ s1 s2 k, syncAll E s ds = (.ok, s1) ∧
      post E s ds (.toPrivate a) = (.ok [⟨[a], [], [⟨k, a, .self⟩], [], []⟩], s2) ∧
      Done E utxo acc0 width (us ++ allUtxos ds) (ns ++ allNulls ds) s1 s2 [⟨[a], [], [⟨k, a, .self⟩], [], []⟩]
        (amount a) (fun _ => 0) := by
  obtain ⟨s1, e1, e2, e3, e3', _⟩ := h.sync
  obtain ⟨k, q1⟩ := Verif.Sign.c28_to_private h.prover s1.signing a hid hmax e3'
  obtain ⟨outs, hp⟩ := Verif.Sign.sign_flow E.sign _ _ e3.coins _ _ q1
  refine ⟨s1, s1.signed E { s1.signing with acc := E.sign.rollback s1.acc, next := s1.next + 1 }, k, e1, ?_, ?_⟩
  · unfold post
    rw [e1]
    simp only [sign, check]
    rw [q1]
    rfl
  · refine done_of (s2 := s1.signed E { s1.signing with acc := E.sign.rollback s1.acc, next := s1.next + 1 })
      h.link e2 h.ledger
      (signed_signer h.acc e2 (by have := h.room; omega) e3.committed) hp (by simp [spent]) ?_ _ _ ?_ ?_
    · intro id
      simp [spent, made, total]
    · intro id
      simp only [List.flatMap_cons, List.flatMap_nil, List.append_nil]
      exact bal_one id
    · intro id
      simp [given, made]

/-- C111, consolidation: an admissible request is signed, every output belongs to the wallet, one of them carries the
whole amount, and no balance changes. -/
theorem c111_consolidated {E : Env U N K Leaf A Addr Acct} {utxo : Receiver K Addr → U} {acc0 : A} {free : A → Nat} {sound : List Leaf → Prop}
    {capacity width : Nat} {us : List U} {ns : List N} {s : Sys N K Leaf A} {ds : List (SyncData U N)}
    (h : Before E utxo acc0 free sound capacity width us ns s ds) (req : List (K × Asset))
    (hreq : Verif.Sign.consolidationOk req = true)
    (hst : ∀ c ∈ req, c ∈ unspent E.par (us ++ allUtxos ds) (ns ++ allNulls ds))
    (hid0 : ∀ c ∈ req, c.2.id ≠ 0 ∧ c.2.id < E.sign.ids) :
    ∃ s1 s2 posts id, syncAll E s ds = (.ok, s1) ∧ postConsolidation E s ds req = (.ok posts, s2) ∧
      (∀ r ∈ made posts, r.owner = .self) ∧ (∃ k, (⟨k, ⟨id, (req.map fun c => c.2.value).sum⟩, .self⟩ :
        Receiver K Addr) ∈ made posts) ∧ (∀ c ∈ req, c.2.id = id ∧ c ∈ spent posts) ∧
      (∀ tx ∈ posts, tx.sources = [] ∧ tx.sinks = []) ∧
      Done E utxo acc0 width (us ++ allUtxos ds) (ns ++ allNulls ds) s1 s2 posts (fun _ => 0) (fun _ => 0) := by
  obtain ⟨s1, e1, e2, e3, _, e4, e5, e6, e7⟩ := h.sync
  obtain ⟨r1, r2, r3, r4⟩ := (Verif.Sign.c58_request_partial req).mp hreq
  have hstored : ∀ c ∈ req, Stored s1.signer.assets c.1 c.2 := fun c hc => (synced_stored h.base e2 _ _).mpr (hst c hc)
  obtain ⟨c0, rest, hreqe⟩ : ∃ c0 rest, req = c0 :: rest := by
    cases req with
    | nil => cases hreq
    | cons c r => exact ⟨c, r, rfl⟩
  have hid : ∀ c ∈ req, c.2.id = c0.2.id := fun c hc => r3 c hc c0 (by rw [hreqe]; simp)
  have hlen : 2 * req.length ≤ free s1.acc := by
    have h1 : req.length ≤ (assetVectorWithId s1.signer.assets c0.2.id).length := by
      have hp : req.Perm ((assetVectorWithId s1.signer.assets c0.2.id).filter fun c => decide (c ∈ req)) := by
        have hnd : (assetVectorWithId s1.signer.assets c0.2.id).Nodup :=
          (assetVector_nodup _ e2.core.signer.wf).sublist List.filter_sublist
        rw [List.perm_ext_iff_of_nodup r2 (hnd.sublist List.filter_sublist)]
        intro c
        rw [List.mem_filter, decide_eq_true_eq]
        exact ⟨fun hc => ⟨(c20_asset_vector_with_id _ _ _ _).mpr ⟨hstored c hc, hid c hc⟩, hc⟩, fun h => h.2⟩
      rw [hp.length_eq]
      exact List.length_filter_le _ _
    have := e7 c0.2.id
    omega
  have hmax : (req.map fun c => c.2.value).sum ≤ E.sign.max := by
    have h0 := total_minus (assetVector s1.signer.assets) req (assetVector_nodup _ e2.core.signer.wf) r2
      (fun c hc _ => (mem_assetVector _ _ _).mpr (hstored c hc)) c0.2.id
    have h1 : total req c0.2.id = (req.map fun c => c.2.value).sum := by
      unfold total
      rw [bal_sum Prod.snd req c0.2.id c0.2.id hid, if_pos rfl]
    have h2 := e4 c0.2.id
    rw [Verif.Wallet.stock_eq] at h2
    unfold total at h0 h1
    omega
  obtain ⟨posts, g', id, q1, q2, q5, q6, q7, _⟩ := Verif.Sign.c58_consolidate h.acc.laws h.prover s1.signing e3 req hreq
    hstored hmax hlen hid0
  obtain ⟨outs, hp⟩ := Verif.Sign.consolidate_flow E.sign _ _ _ _ q1
  obtain ⟨front, l, rfl, hj, l1, l2, _, l3, k, k', hr⟩ := q5.last
  have hown : ∀ r ∈ made (front ++ [l]), r.owner = .self := by
    intro r hrm
    obtain ⟨tx, ht, hrt⟩ := List.mem_flatMap.mp hrm
    rcases List.mem_append.mp ht with ht | ht
    · exact (hj tx ht).2.2.2.2.2 r hrt
    · simp only [List.mem_singleton] at ht
      subst ht
      rw [hr] at hrt
      simp only [List.mem_cons, List.not_mem_nil, or_false] at hrt
      rcases hrt with rfl | rfl <;> rfl
  have hsrc : ∀ tx ∈ front ++ [l], tx.sources = [] ∧ tx.sinks = [] := by
    intro tx ht
    rcases List.mem_append.mp ht with ht | ht
    · exact ⟨(hj tx ht).1, (hj tx ht).2.2.2.1⟩
    · simp only [List.mem_singleton] at ht; subst ht; exact ⟨l1, l2⟩
  refine ⟨s1, s1.signed E g', front ++ [l], id, e1, ?_, hown, ⟨k', ?_⟩, ?_, hsrc, ?_⟩
  · unfold postConsolidation
    rw [e1]
    simp only [consolidate]
    rw [q1]
    rfl
  · rw [Verif.Sign.made_append, show made [l] = l.receivers by simp [made], hr]
    simp
  · intro c hc
    refine ⟨q2 c hc, ?_⟩
    have := q5.all (c.1, c.2.value) (List.mem_map.mpr ⟨c, hc, rfl⟩)
    simp only at this
    have e : (⟨id, c.2.value⟩ : Asset) = c.2 := by rw [← q2 c hc]
    rw [e] at this
    exact this
  · refine done_of (s2 := s1.signed E g') h.link e2 h.ledger
      (signed_signer h.acc e2 (by have := h.room; omega) q6) hp q5.once (balanced_seq _ _ q5.seq) _ _ ?_ ?_
    · intro i
      have : (front ++ [l]).flatMap Tx.sources = [] := by
        rw [List.flatMap_eq_nil_iff]; exact fun tx ht => (hsrc tx ht).1
      rw [this]; rfl
    · intro i
      have : (front ++ [l]).flatMap Tx.sinks = [] := by
        rw [List.flatMap_eq_nil_iff]; exact fun tx ht => (hsrc tx ht).2
      rw [this, given_nil hown]; rfl

/-- C111, receipt: a wallet that opens exactly those of the posts' outputs that carry its address `b` gains exactly
what the payment gave to that address, on top of what else came in. -/
theorem c111_received {E : Env U N K Leaf A Addr Acct} {utxo : Receiver K Addr → U} {acc0 : A} {width : Nat}
    {us : List U} {ns : List N} {r : Sys N K Leaf A} (hopen : ∀ k a, E.par.openable (E.par.nullifier k a) = true)
    (h : Synced E acc0 width us ns r) (a : Asset) (b : Addr) (k : K) (posts : List (Tx K A Addr Acct))
    (hpay : (made posts).filter (fun r => match r.owner with | .self => false | .other _ => true) = [⟨k, a, .other b⟩])
    (hb : ∀ k a, E.par.openNote (utxo ⟨k, a, .other b⟩) = some (k, a))
    (hself : ∀ k a, E.par.openNote (utxo ⟨k, a, .self⟩) = none)
    (ds : List (SyncData U N)) (restU : List U) (hu : (allUtxos ds).Perm ((made posts).map utxo ++ restU))
    (hl : Ledger E.par (us ++ allUtxos ds))
    (hfit : ∀ id, bal ((opened E.par (us ++ allUtxos ds)).map Prod.snd) id ≤ E.sign.max)
    (hnew : ∀ c ∈ opened E.par (allUtxos ds), nfc E.par c ∉ ns)
    (hmine : ∀ c ∈ opened E.par (us ++ allUtxos ds), nfc E.par c ∉ allNulls ds) :
    ∃ r', syncAll E r ds = (.ok, r') ∧ Synced E acc0 width (us ++ allUtxos ds) (ns ++ allNulls ds) r' ∧
      ∀ id, AList.value E.bs r'.wallet.assets id =
        AList.value E.bs r.wallet.assets id + amount a id + total (opened E.par restU) id := by
  obtain ⟨r', e1, e2, _⟩ := synced_all E ds us ns r h hl hfit
  refine ⟨r', e1, e2, ?_⟩
  intro id
  have hval : ∀ {us : List U} {ns : List N} {s : Sys N K Leaf A}, Synced E acc0 width us ns s → Ledger E.par us →
      AList.value E.bs s.wallet.assets id = total (unspent E.par us ns) id := by
    intro us ns s h hl
    rw [Verif.Wallet.wcore_value E.bs h.core hl]
    unfold total unspent
    congr 2
    refine List.filter_congr ?_
    intro c _
    have := hopen c.1 c.2
    simp [this]
  rw [hval e2 hl, hval h (Verif.Wallet.ledger_prefix hl)]
  have hmade : opened E.par ((made posts).map utxo) = [(k, a)] := by
    have e : opened E.par ((made posts).map utxo) = opened E.par (((made posts).filter
        (fun r => match r.owner with | .self => false | .other _ => true)).map utxo) := by
      unfold opened
      rw [List.filterMap_map, List.filterMap_map, List.filterMap_filter]
      congr 1
      funext r
      obtain ⟨k, a, o⟩ := r
      cases o with
      | self => simp [hself]
      | other b => simp
    rw [e, hpay]
    simp [opened, hb]
  have h1 : unspent E.par (us ++ allUtxos ds) (ns ++ allNulls ds) =
      unspent E.par us ns ++ opened E.par (allUtxos ds) := by
    unfold unspent
    rw [List.filterMap_append, List.filter_append]
    congr 1
    · refine List.filter_congr ?_
      intro c hc
      have := hmine c (by rw [Verif.Wallet.opened_append]; exact List.mem_append.mpr (.inl hc))
      simp only [decide_eq_decide, List.mem_append, not_or]
      exact ⟨fun h => h.1, fun h => ⟨h, this⟩⟩
    · rw [List.filter_eq_self.mpr]
      · rfl
      · intro c hc
        have h1 := hmine c (by rw [Verif.Wallet.opened_append]; exact List.mem_append.mpr (.inr hc))
        have h2 := hnew c hc
        simp only [decide_eq_true_eq, List.mem_append, not_or]
        exact ⟨h2, h1⟩
  have h2 : (opened E.par (allUtxos ds)).Perm ([(k, a)] ++ opened E.par restU) := by
    have := hu.filterMap E.par.openNote
    rw [List.filterMap_append] at this
    rw [← hmade]
    exact this
  rw [h1]
  unfold total
  rw [List.map_append, bal_append, bal_perm (h2.map Prod.snd), List.map_append, bal_append,
    show ([(k, a)] : List (K × Asset)).map Prod.snd = [a] from rfl, bal_one]
  omega

/-! ## A concrete instance -/

/-- Committed leaves with proof, number of committed leaves, pending leaves and whether they have a proof. -/
structure ToyAcc where
  base : List (Receiver Nat Nat)
  count : Nat
  extra : List (Receiver Nat Nat × Bool)
deriving DecidableEq

def toyApply (a : ToyAcc) : TreeOp (Receiver Nat Nat) → ToyAcc
  | .insert l => { a with extra := a.extra ++ [(l, true)] }
  | .insertNonprovable l => { a with extra := a.extra ++ [(l, false)] }
  | .batchNonprovable ls => { a with extra := a.extra ++ ls.map (·, false) }
  | .removeProof l => { a with
      base := a.base.filter fun x => decide (x ≠ l)
      extra := a.extra.map fun x => if x.1 = l then (x.1, false) else x }

def toyCommit (a : ToyAcc) : ToyAcc :=
  ⟨a.base ++ (a.extra.filter Prod.snd).map Prod.fst, a.count + a.extra.length, []⟩

/-- UTXOs and leaves are the outputs themselves, nullifiers the coins. -/
def toyPar : Params (Receiver Nat Nat) (Nat × Asset) Nat (Receiver Nat Nat) where
  openNote r := match r.owner with
    | .self => some (r.key, r.asset)
    | .other _ => none
  nullifier := Prod.mk
  openable _ := true
  leaf := id
  spendLeaf k a := ⟨k, a, .self⟩

def toySign : Verif.Sign.Env Nat (Receiver Nat Nat) ToyAcc Nat Nat where
  leaf k a := ⟨k, a, .self⟩
  insert a l := if a.count + a.extra.length < 100 then (true, { a with extra := a.extra ++ [(l, true)] }) else (false, a)
  contains a l := decide (l ∈ a.base ∨ (l, true) ∈ a.extra)
  rollback a := { a with extra := [] }
  fresh i := 1000 + i
  prove _ := true
  max := 10000
  ids := 1000

def toyEnv : Env (Receiver Nat Nat) (Nat × Asset) Nat (Receiver Nat Nat) ToyAcc Nat Nat where
  bs := linSearch
  layout := idLayout
  par := toyPar
  shard _ := 0
  sign := toySign
  apply := toyApply
  commit := toyCommit
  lens a := [a.count + a.extra.length]

def toyFree (a : ToyAcc) : Nat := 100 - (a.count + a.extra.length)

theorem toy_link : Link toyEnv id := ⟨⟨fun _ _ => rfl, fun _ _ => rfl⟩, fun _ _ => rfl, fun _ _ _ => rfl⟩

theorem toy_fold (ops : List (TreeOp (Receiver Nat Nat))) : ∀ (a : ToyAcc),
    (ops.foldl toyApply a).count = a.count ∧
    (ops.foldl toyApply a).extra.length = a.extra.length + (inserted ops).length ∧
    ∀ (M : Receiver Nat Nat → Prop) l, (∀ l, M l → l ∈ a.base ∨ (l, true) ∈ a.extra) → marks M ops l →
      l ∈ (ops.foldl toyApply a).base ∨ (l, true) ∈ (ops.foldl toyApply a).extra := by
  induction ops with
  | nil => intro a; exact ⟨rfl, rfl, fun M l h hm => h l hm⟩
  | cons o ops ih =>
    intro a
    obtain ⟨h1, h2, h3⟩ := ih (toyApply a o)
    cases o with
    | insert x =>
      refine ⟨h1, ?_, fun M l h hm => h3 _ l ?_ hm⟩
      · rw [List.foldl_cons, h2]
        simp only [toyApply, inserted, List.length_cons, List.length_append, List.length_nil]; omega
      · intro y hy
        simp only [toyApply, List.mem_append, List.mem_singleton]
        rcases hy with hy | rfl
        · exact (h y hy).imp id .inl
        · exact .inr (.inr rfl)
    | insertNonprovable x =>
      refine ⟨h1, ?_, fun M l h hm => h3 M l ?_ hm⟩
      · rw [List.foldl_cons, h2]
        simp only [toyApply, inserted, List.length_cons, List.length_append, List.length_nil]; omega
      · intro y hy
        simp only [toyApply, List.mem_append, List.mem_singleton]
        exact (h y hy).imp id .inl
    | batchNonprovable xs =>
      refine ⟨h1, ?_, fun M l h hm => h3 M l ?_ hm⟩
      · rw [List.foldl_cons, h2]
        simp only [toyApply, inserted, List.length_append, List.length_map]; omega
      · intro y hy
        simp only [toyApply, List.mem_append]
        exact (h y hy).imp id .inl
    | removeProof x =>
      refine ⟨h1, ?_, fun M l h hm => h3 _ l ?_ hm⟩
      · rw [List.foldl_cons, h2]; simp only [toyApply, inserted, List.length_map]
      · rintro y ⟨hy, hn⟩
        simp only [toyApply, List.mem_filter, decide_eq_true_eq, List.mem_map]
        refine (h y hy).imp (fun h => ⟨h, hn⟩) fun h => ⟨(y, true), h, ?_⟩
        rw [if_neg hn]

theorem toy_replay (bs : List (List (TreeOp (Receiver Nat Nat)))) : ∀ (a : ToyAcc), a.extra = [] →
    (replay toyEnv a bs).count = a.count + (inserted bs.flatten).length ∧ (replay toyEnv a bs).extra = [] ∧
    ∀ (M : Receiver Nat Nat → Prop) l, (∀ l, M l → l ∈ a.base) → marks M bs.flatten l →
      l ∈ (replay toyEnv a bs).base := by
  induction bs with
  | nil => intro a h; exact ⟨rfl, h, fun M l h hm => h l hm⟩
  | cons ops bs ih =>
    intro a ha
    obtain ⟨h1, h2, h3⟩ := toy_fold ops a
    obtain ⟨k1, k2, k3⟩ := ih (toyCommit (ops.foldl toyApply a)) rfl
    rw [List.flatten_cons, Verif.Wallet.inserted_append]
    refine ⟨?_, k2, ?_⟩
    · refine k1.trans ?_
      simp only [toyCommit, h1, h2, ha, List.length_nil, List.length_append]
      omega
    · intro M l hM hm
      rw [Verif.Wallet.marks_append] at hm
      refine k3 _ l ?_ hm
      intro y hy
      rcases h3 M y (fun z hz => .inl (hM z hz)) hy with h | h
      · exact List.mem_append.mpr (.inl h)
      · refine List.mem_append.mpr (.inr (List.mem_map.mpr ⟨_, List.mem_filter.mpr ⟨h, rfl⟩, rfl⟩))

theorem toy_addRecv (ls : List (Receiver Nat Nat)) : ∀ n, Verif.Wallet.addRecv (fun _ => 0) [n] ls = [n + ls.length] := by
  induction ls with
  | nil => intro n; rfl
  | cons l ls ih =>
    intro n
    show Verif.Wallet.addRecv (fun _ => 0) [n + 1] ls = _
    rw [ih, List.length_cons]
    congr 1
    omega

theorem toy_acc : AccLaws toyEnv ⟨[], 0, []⟩ toyFree (fun _ => True) 100 1 := by
  refine ⟨⟨?_, ?_, ?_, ?_⟩, ?_, ?_, ?_, ?_⟩
  · intro a l h
    simp only [toyFree, toyEnv, toySign] at h ⊢
    rw [if_pos (by omega)]
    simp only [List.length_append, List.length_singleton]
    exact ⟨trivial, by omega⟩
  · intro a l _ h
    simp only [toyEnv, toySign] at h ⊢
    split at h
    · rename_i hc; rw [if_pos hc]; simp
    · cases h
  · intro a l x h
    simp only [toyEnv, toySign, decide_eq_true_eq] at h ⊢
    split
    · simp only [List.mem_append] at h ⊢
      exact h.imp id .inl
    · exact h
  · intro a l
    simp only [toyEnv, toySign]
    split <;> rfl
  · intro bs l _ _ _ hm
    simp only [toyEnv, toySign, decide_eq_true_eq]
    exact .inl ((toy_replay bs ⟨[], 0, []⟩ rfl).2.2 _ l (fun _ h => h.elim) hm)
  · intro bs _
    obtain ⟨h1, h2, _⟩ := toy_replay bs ⟨[], 0, []⟩ rfl
    refine Eq.trans ?_ (toy_addRecv _ 0).symm
    show [(replay toyEnv ⟨[], 0, []⟩ bs).count + (replay toyEnv ⟨[], 0, []⟩ bs).extra.length] = _
    rw [h1, h2]
    simp
  · intro bs _
    obtain ⟨h1, h2, _⟩ := toy_replay bs ⟨[], 0, []⟩ rfl
    simp only [toyFree, h1, h2, List.length_nil]
    omega
  · intro bs _
    have h2 := (toy_replay bs ⟨[], 0, []⟩ rfl).2.1
    generalize replay toyEnv ⟨[], 0, []⟩ bs = a at h2
    obtain ⟨x, y, z⟩ := a
    simp only at h2
    subst h2
    rfl

theorem toy_ledger (us : List (Receiver Nat Nat)) (h : (opened toyPar us).Nodup) : Ledger toyPar us := by
  refine ⟨?_, h, fun c _ c' _ e => e, fun c _ c' _ e => ?_⟩
  · rintro ⟨k, a, o⟩ _ k' a' e
    cases o with
    | self => cases e; rfl
    | other b => cases e
  · simp only [toyPar, Receiver.mk.injEq, and_true] at e
    exact Prod.ext e.1 e.2

theorem toy_fits (cs : List (Nat × Asset)) (h1 : ∀ c ∈ cs, c.2.id = 7)
    (h2 : (cs.map fun c => c.2.value).sum ≤ 10000) (id : Nat) : bal (cs.map Prod.snd) id ≤ 10000 := by
  rw [bal_sum Prod.snd cs 7 id h1]
  split
  · exact h2
  · omega

/-- A new wallet and signer. -/
def toySys : Sys (Nat × Asset) Nat (Receiver Nat Nat) ToyAcc :=
  ⟨(Verif.Wallet.sysInit (N := Nat × Asset) (K := Nat) (Leaf := Receiver Nat Nat) 1).1, (Verif.Wallet.sysInit 1).2,
    ⟨[], 0, []⟩, true, true, 0⟩

/-- Four coins of asset 7 worth 100, one of which has been spent, and a coin of someone else, in two reads. -/
def toyReads : List (SyncData (Receiver Nat Nat) (Nat × Asset)) :=
  [⟨[⟨1, ⟨7, 10⟩, .self⟩, ⟨2, ⟨7, 20⟩, .self⟩], []⟩,
   ⟨[⟨9, ⟨7, 99⟩, .other 5⟩, ⟨3, ⟨7, 30⟩, .self⟩, ⟨4, ⟨7, 40⟩, .self⟩], [(2, ⟨7, 20⟩)]⟩]

theorem toy_before : Before toyEnv id ⟨[], 0, []⟩ toyFree (fun _ => True) 100 1 [] [] toySys toyReads := by
  refine ⟨⟨toy_link.toBase, toy_acc, fun _ _ _ _ _ _ _ => rfl, synced_init toyEnv _ 1 true true 0, ?_, by decide, trivial, ?_, ⟨rfl, rfl⟩,
    ⟨?_, ?_⟩, by decide⟩, toy_link⟩
  · exact toy_ledger _ (by decide)
  · exact toy_fits _ (by decide) (by decide)
  · intro i j _ _ _ _ e
    simp only [toyEnv, toySign] at e
    omega
  · rintro i _ _ ⟨a, h⟩
    have h' : (1000 + i, a) ∈ [(1, (⟨7, 10⟩ : Asset)), (2, ⟨7, 20⟩), (3, ⟨7, 30⟩), (4, ⟨7, 40⟩)] := h
    simp only [List.mem_cons, Prod.mk.injEq, List.not_mem_nil, or_false] at h'
    omega

/-- Payment of 75 from 80 in three coins: two posts. -/
def toyPosts : List (Tx Nat ToyAcc Nat Nat) :=
  match (post toyEnv toySys toyReads (.privateTransfer ⟨7, 75⟩ (.other 6))).1 with
  | .ok posts => posts
  | _ => []

example : toyPosts.map (fun tx => (tx.senders.map fun s => s.asset.value, tx.receivers.map fun r => r.asset.value)) =
    [([40, 30], [70, 0]), ([70, 10], [5, 75])] := by decide +kernel

/-- The ledger reports them in two portions, between them a payment of 8 to the wallet by someone else. -/
def toyAfter : List (SyncData (Receiver Nat Nat) (Nat × Asset)) :=
  [⟨(made toyPosts).take 2 ++ [⟨11, ⟨7, 8⟩, .self⟩], (spent toyPosts).take 2 ++ [(77, ⟨7, 1⟩)]⟩,
   ⟨(made toyPosts).drop 2, (spent toyPosts).drop 2⟩]

theorem toy_settles : Settles toyEnv id ([] ++ allUtxos toyReads) ([] ++ allNulls toyReads) toyPosts toyAfter
    [⟨11, ⟨7, 8⟩, .self⟩] [(77, ⟨7, 1⟩)] := by
  refine ⟨by decide +kernel, ?_, toy_ledger _ (by decide +kernel), by decide +kernel, by decide +kernel,
    fun c _ x _ e => e, toy_fits _ (by decide +kernel) (by decide +kernel)⟩
  intro n
  have e : allNulls toyAfter = (spent toyPosts).take 2 ++ [(77, ⟨7, 1⟩)] ++ (spent toyPosts).drop 2 := by
    simp [allNulls, toyAfter]
  have e2 : (spent toyPosts).map (nfc toyEnv.par) = spent toyPosts := List.map_id' _
  rw [e, e2]
  conv => rhs; rw [← List.take_append_drop 2 (spent toyPosts)]
  simp only [List.mem_append]
  constructor
  · rintro ((h | h) | h)
    · exact .inl (.inl h)
    · exact .inr h
    · exact .inl (.inr h)
  · rintro ((h | h) | h)
    · exact .inl (.inl h)
    · exact .inr h
    · exact .inl (.inr h)

/-- 80 - 75 + 8. -/
example : (AList.value linSearch (syncAll toyEnv
    (post toyEnv toySys toyReads (.privateTransfer ⟨7, 75⟩ (.other 6))).2 toyAfter).2.wallet.assets 7) = 13 := by
  decide +kernel

/-- The premises of the payment, withdrawal and consolidation theorems, and of the refusal. -/
example : total (unspent toyPar ([] ++ allUtxos toyReads) ([] ++ allNulls toyReads)) 7 = 80 ∧
    Verif.Sign.consolidationOk [((1 : Nat), (⟨7, 10⟩ : Asset)), (4, ⟨7, 40⟩)] = true ∧
    ∀ c ∈ [((1 : Nat), (⟨7, 10⟩ : Asset)), (4, ⟨7, 40⟩)],
      c.2.id ≠ 0 ∧ c ∈ unspent toyPar ([] ++ allUtxos toyReads) ([] ++ allNulls toyReads) := by decide +kernel

/-- The payee's view: only outputs for address 6 open. -/
def toyPayee : Env (Receiver Nat Nat) (Nat × Asset) Nat (Receiver Nat Nat) ToyAcc Nat Nat :=
  { toyEnv with par := { toyPar with
      openNote := fun r => if r.owner = .other 6 then some (r.key, r.asset) else none
      spendLeaf := fun k a => ⟨k, a, .other 6⟩ } }

example : (AList.value linSearch (syncAll toyPayee toySys (toyReads ++ toyAfter)).2.wallet.assets 7) = 75 ∧
    (∀ k a, toyPayee.par.openNote ⟨k, a, .other 6⟩ = some (k, a)) ∧
    (∀ k a, toyPayee.par.openNote ⟨k, a, .self⟩ = none) ∧
    (made toyPosts).filter (fun r => match r.owner with | .self => false | .other _ => true) =
      [⟨1003, ⟨7, 75⟩, .other 6⟩] :=
  ⟨by decide +kernel, fun _ _ => rfl, fun _ _ => rfl, by decide +kernel⟩

/-! ## After an error -/

/-- The answer of a ledger with one shard holding `us` and `ns` (simulation/ledger/mod.rs `pull`, C37). -/
def readFrom (us : List U) (ns : List N) (s : Sys N K Leaf A) : SyncData U N :=
  ⟨us.drop s.wallet.checkpoint.recv.sum, ns.drop s.wallet.checkpoint.send⟩

/-- The signer's error in an outcome. -/
def Out.signError {P : Type} : Out P → Option Verif.Sign.SignError
  | .sign e => some e
  | _ => none

theorem syncAll_next (E : Env U N K Leaf A Addr Acct) (ds : List (SyncData U N)) (s : Sys N K Leaf A) :
    (syncAll E s ds).2.next = s.next := by
  have once : ∀ (s : Sys N K Leaf A) d, (syncOnce E s d).2.next = s.next := by
    intro s d
    unfold syncOnce
    simp only
    split
    · rfl
    · split <;> rfl
  induction ds generalizing s with
  | nil => rfl
  | cons d ds ih =>
    unfold syncAll
    split
    · rename_i s' h
      rw [ih]
      have := once s d
      rw [h] at this
      exact this
    · exact once s d

/-- **C111, failed synchronization.** If the signer refuses one of the reads, or the wallet cannot take out what the signer says was
spent, then `post` and `post_consolidation` report that and sign nothing: no randomness is used, and later reads are not asked
for. -/
theorem c111_unsynced (E : Env U N K Leaf A Addr Acct) (s : Sys N K Leaf A) (ds ds' : List (SyncData U N)) (d : SyncData U N)
    (t : Verif.Sign.Transaction Addr Acct) (req : List (K × Asset)) (s1 : Sys N K Leaf A) (hs : syncAll E s ds = (.ok, s1))
    (h : (∃ e, (Verif.Wallet.sync E.bs E.layout E.par E.sign.max E.shard s1.signer s1.wallet.checkpoint d).1 = .err e) ∨
      ∃ cp dep wit l l',
        (Verif.Wallet.sync E.bs E.layout E.par E.sign.max E.shard s1.signer s1.wallet.checkpoint d).1 =
          .ok ⟨cp, .partialUpdate dep wit⟩ ∧
        AList.depositAll E.bs E.sign.max s1.wallet.assets dep = some l ∧
        AList.withdrawAll E.bs E.sign.max l wit = some (false, l')) :
    ∃ e, post E s (ds ++ d :: ds') t = (.sync e, (syncOnce E s1 d).2) ∧
      postConsolidation E s (ds ++ d :: ds') req = (.sync e, (syncOnce E s1 d).2) ∧ (syncOnce E s1 d).2.next = s.next ∧
      (syncOnce E s1 d).1 = .err e := by
  have hone : ∃ e, (syncOnce E s1 d).1 = .err e := by
    unfold syncOnce
    generalize Verif.Wallet.sync E.bs E.layout E.par E.sign.max E.shard s1.signer s1.wallet.checkpoint d = r at h
    obtain ⟨res, g⟩ := r
    rcases h with ⟨e, rfl⟩ | ⟨cp, dep, wit, l, l', rfl, h1, h2⟩
    · cases e <;> exact ⟨_, rfl⟩
    · refine ⟨.walletBalance, ?_⟩
      simp only [Verif.Wallet.processSync, h1, h2]
  obtain ⟨e, he⟩ := hone
  have hall : ∀ (ds : List (SyncData U N)) (s : Sys N K Leaf A), syncAll E s ds = (.ok, s1) →
      syncAll E s (ds ++ d :: ds') = syncOnce E s1 d := by
    intro ds
    induction ds with
    | nil =>
      intro s hs
      simp only [syncAll, Prod.mk.injEq, true_and] at hs
      subst hs
      simp only [List.nil_append, syncAll]
      generalize syncOnce E s d = r at he
      obtain ⟨o, s'⟩ := r
      simp only at he
      subst he
      rfl
    | cons d0 ds ih =>
      intro s hs
      simp only [List.cons_append, syncAll] at hs ⊢
      generalize syncOnce E s d0 = r at hs
      obtain ⟨o, s'⟩ := r
      cases o with
      | ok => exact ih s' hs
      | err e => simp at hs
      | panic => simp at hs
  refine ⟨e, ?_, ?_, ?_, he⟩
  · unfold post
    rw [hall ds s hs]
    generalize syncOnce E s1 d = r at he
    obtain ⟨o, s'⟩ := r
    simp only at he
    subst he
    rfl
  · unfold postConsolidation
    rw [hall ds s hs]
    generalize syncOnce E s1 d = r at he
    obtain ⟨o, s'⟩ := r
    simp only at he
    subst he
    rfl
  · rw [← hall ds s hs, syncAll_next]

/-- The premise: after the five reads a wallet that claims to be far ahead is refused. -/
example : (match (post toyEnv { toySys with wallet := { toySys.wallet with checkpoint := ⟨[9], 9⟩ } } toyReads
      (.privateTransfer ⟨7, 75⟩ (.other 6))).1 with | .sync .signerSynchronization => true | _ => false) = true := by
  decide +kernel

/-- C111 is violated after an error: "the internal state of the wallet is kept consistent between calls" does not hold
if a proof fails in the middle of a batch. The outputs of the batch, never posted, stay in the accumulator (C52), the
next synchronization commits them and counts them as received, and the wallet then asks the ledger for data from a position
that is too far: a coin of 50 that arrives in between is skipped for good, every call reporting success. -/
theorem c111_error_violated :
    let E : Env (Receiver Nat Nat) (Nat × Asset) Nat (Receiver Nat Nat) ToyAcc Nat Nat := { toyEnv with sign := { toySign with
      prove := fun tx => decide ((tx.senders.map fun s => s.asset.value).sum ≤ 70) } }
    let r := post E toySys toyReads (.privateTransfer ⟨7, 75⟩ (.other 6))
    let us := allUtxos toyReads ++ [⟨12, ⟨7, 1⟩, .other 5⟩]
    let us' := us ++ [⟨13, ⟨7, 50⟩, .self⟩, ⟨14, ⟨7, 1⟩, .other 5⟩]
    let ns := allNulls toyReads
    let a := syncOnce E r.2 (readFrom us ns r.2)
    let b := syncOnce E a.2 (readFrom us' ns a.2)
    r.1.signError = some .proofSystem ∧
    r.2.wallet.checkpoint.recv = [5] ∧ a.1 = .ok ∧ us.length = 6 ∧ a.2.wallet.checkpoint.recv = [8] ∧
    b.1 = .ok ∧ us'.length = 8 ∧ b.2.wallet.checkpoint.recv = [8] ∧
    AList.value linSearch b.2.wallet.assets 7 = 80 ∧ total (unspent toyPar us' ns) 7 = 130 := by
  decide +kernel

/-- The same history without the failing request. -/
example :
    let r := syncAll toyEnv toySys toyReads
    let us := allUtxos toyReads ++ [⟨12, ⟨7, 1⟩, .other 5⟩]
    let us' := us ++ [⟨13, ⟨7, 50⟩, .self⟩, ⟨14, ⟨7, 1⟩, .other 5⟩]
    let ns := allNulls toyReads
    let a := syncOnce toyEnv r.2 (readFrom us ns r.2)
    let b := syncOnce toyEnv a.2 (readFrom us' ns a.2)
    AList.value linSearch b.2.wallet.assets 7 = 130 := by decide +kernel

end Verif.Pay
