import Verif.Net.Ledger

/-! # Wallets on the simulation ledger: they are a world -/

set_option linter.unusedSectionVars false

namespace Verif.World

open Verif.Asset Verif.Asset.AMap
open Verif.Pay (Env Sys)
open Verif.Wallet (SyncData nfc)
open Verif.Sign (Tx spent Prov)

variable {ι U N K Leaf A Addr Acct : Type} [DecidableEq ι] [DecidableEq N] [DecidableEq K] [DecidableEq Addr]
  [DecidableEq Acct]
variable {W : World ι U N K Leaf A Addr Acct} {st : St ι U N K Leaf A Addr Acct}

/-- The nullifiers of signed posts are new and different. -/
theorem Signed.new (hW : Sound W) (hi : Inv W st) {i : ι} {ds : List (SyncData U N)} {s1 s2 : Sys N K Leaf A}
    {acc : List (Tx K A Addr Acct)} (hd : Current W st i ds) (h : Signed W st i ds s1 s2 acc)
    (hh' : Honest W ((st.view i ds s2).accept W i acc)) :
    (∀ c ∈ spent acc, nfc (W.env i).par c ∉ st.ns W) ∧ ((spent acc).map (nfc (W.env i).par)).Nodup := by
  have hus : ∀ c ∈ spent acc, c ∈ owned W ((st.view i ds s2).accept W i acc).log i ++
      used ((st.view i ds s2).accept W i acc).slog i := by
    intro c hc
    refine List.mem_append.mpr (.inr (mem_used.mpr ?_))
    exact List.mem_append.mpr (.inr (List.mem_map.mpr ⟨c, hc, rfl⟩))
  refine ⟨?_, ?_⟩
  · intro c hc hm
    obtain ⟨⟨j, c'⟩, hx, e⟩ := List.mem_map.mp hm
    obtain ⟨rfl, rfl⟩ := hh'.nulls j c' (List.mem_append.mpr (.inr (mem_used.mpr
      (List.mem_append.mpr (.inl hx))))) i c (hus c hc) e
    obtain ⟨outs, hp⟩ := h.prov
    have hold : ∀ n, (st.sys j).next ≤ n → n < s2.next → c'.1 = (W.env j).sign.fresh n → False := by
      intro n h1 h2 h3
      have hb := h.bound
      rcases hi.spent _ hx with h' | ⟨m, h4, h5⟩
      · obtain ⟨y, hy, _, e⟩ := mem_owned.mp h'
        obtain ⟨m, h4, h5⟩ := hi.drawn y hy
        have h6 := hi.bounds y.1
        have h7 : y.2.key = c'.1 := congrArg Prod.fst e
        obtain ⟨e1, e2⟩ := hW.stream y.1 j m n (by omega) (by omega) (by rw [← h5, h7, h3])
        rw [e1] at h4
        omega
      · have h6 := hi.bounds j
        simp only at h4 h5
        obtain ⟨_, e2⟩ := hW.stream j j m n (by omega) (by omega) (by rw [← h5, h3])
        omega
    rcases hp.inputs c' hc with (h' | h') | ⟨_, n, h1, h2, _, h3⟩
    · have := (h.stored hW hd _ _).mp h'
      exact (Verif.Pay.mem_unspent.mp this).2 hm
    · have : c'.1 ∈ (Verif.Sign.made acc).map Verif.Sign.Receiver.key := List.mem_map.mpr ⟨_, h', rfl⟩
      rw [hp.keys] at this
      obtain ⟨n, hn, e⟩ := List.mem_map.mp this
      exact hold n (hp.range n hn).1 (hp.range n hn).2 e.symm
    · exact hold n h1 h2 h3
  · unfold List.Nodup
    rw [List.pairwise_map]
    refine List.Pairwise.imp_of_mem ?_ h.once
    intro a b ha hb hne e
    exact hne (hh'.nulls i a (hus a ha) i b (hus b hb) e).2

end Verif.World

namespace Verif.Pay

open Verif.Asset
open Verif.Wallet (SyncData opened Ledger)

variable {U N K Leaf A Addr Acct : Type} [DecidableEq N] [DecidableEq K]

/-- The position in the nullifiers after one answer. -/
theorem synced_send (E : Env U N K Leaf A Addr Acct) {acc0 : A} {width : Nat} {us : List U} {ns : List N}
    {s : Sys N K Leaf A} (h : Synced E acc0 width us ns s) (d : SyncData U N) (hl : Ledger E.par (us ++ d.utxos))
    (hmax : ∀ id, bal ((opened E.par (us ++ d.utxos)).map Prod.snd) id ≤ E.sign.max) :
    (syncAll E s [d]).2.wallet.checkpoint.send = s.wallet.checkpoint.send + d.nulls.length := by
  obtain ⟨⟨w', g'⟩, h1, h2, h3⟩ := Verif.Wallet.wcore_step E.bs E.layout E.sign.max E.shard width h.core d hl hmax
  have e0 := h.core.same
  have e1 := h2.same
  simp only at e0 e1 h3
  rw [e0, ← h3, ← e1]
  unfold Verif.Wallet.sysStep at h1
  dsimp only at h1
  unfold syncAll syncOnce
  rcases hr : Verif.Wallet.sync E.bs E.layout E.par E.sign.max E.shard s.signer s.wallet.checkpoint d with ⟨res, g⟩
  rw [hr] at h1
  rcases res with r | e | _
  · dsimp only at h1 ⊢
    split at h1
    · rename_i w1 hp
      cases h1
      rw [hp]
      rfl
    · cases h1
  · cases h1
  · cases h1

theorem answer_wallet (E : Env U N K Leaf A Addr Acct) (s : Sys N K Leaf A)
    (r : Verif.Sign.Res (List (Verif.Sign.Tx K A Addr Acct)) × Verif.Sign.Signer K A) :
    (answer E s r).2.wallet = s.wallet := by
  unfold answer
  split <;> rfl

theorem post_wallet (E : Env U N K Leaf A Addr Acct) (s : Sys N K Leaf A) (ds : List (SyncData U N))
    (t : Verif.Sign.Transaction Addr Acct) : (post E s ds t).2.wallet = (syncAll E s ds).2.wallet := by
  unfold post
  split
  · rename_i e; rw [e]
    unfold sign
    split
    · rfl
    · exact answer_wallet E _ _
  · rename_i e; rw [e]
  · rename_i e; rw [e]

theorem postConsolidation_wallet (E : Env U N K Leaf A Addr Acct) (s : Sys N K Leaf A) (ds : List (SyncData U N))
    (req : List (K × Asset)) : (postConsolidation E s ds req).2.wallet = (syncAll E s ds).2.wallet := by
  unfold postConsolidation
  split
  · rename_i e; rw [e]
    exact answer_wallet E _ _
  · rename_i e; rw [e]
  · rename_i e; rw [e]

theorem answer_ok {E : Env U N K Leaf A Addr Acct} {s s' : Sys N K Leaf A}
    {r : Verif.Sign.Res (List (Verif.Sign.Tx K A Addr Acct)) × Verif.Sign.Signer K A} {txs : List (Verif.Sign.Tx K A Addr Acct)}
    (h : answer E s r = (.ok txs, s')) : ∃ g', r = (.ok txs, g') := by
  unfold answer at h
  split at h
  · cases h; exact ⟨_, rfl⟩
  · cases h
  · cases h

theorem post_ok {E : Env U N K Leaf A Addr Acct} {s s' : Sys N K Leaf A} {ds : List (SyncData U N)}
    {t : Verif.Sign.Transaction Addr Acct} {txs : List (Verif.Sign.Tx K A Addr Acct)} (h : post E s ds t = (.ok txs, s')) :
    ∃ g g', Verif.Sign.sign E.sign g t = (.ok txs, g') := by
  unfold post at h
  split at h
  · unfold sign at h
    split at h
    · cases h
    · exact ⟨_, answer_ok h⟩
  · cases h
  · cases h

theorem postConsolidation_ok {E : Env U N K Leaf A Addr Acct} {s s' : Sys N K Leaf A} {ds : List (SyncData U N)}
    {req : List (K × Asset)} {txs : List (Verif.Sign.Tx K A Addr Acct)} (h : postConsolidation E s ds req = (.ok txs, s')) :
    ∃ g g', Verif.Sign.consolidate E.sign g req = (.ok txs, g') := by
  unfold postConsolidation at h
  split at h
  · exact ⟨_, answer_ok h⟩
  · cases h
  · cases h

end Verif.Pay

namespace Verif.Net

open Verif.Asset (Asset bal bal_append bal_cons bal_nil)
open Verif.Transfer (Ty Prim Kit Post Nul Body SenderPost ReceiverPost MintPlan openWithCheck visSecret Collision)
open Verif.Ledger (Ix Env State Coins push pushLog balance ix inShard)
open Verif.Merkle
open Verif.Settle (Wire Ident TxOf Grove Acc paidOut Planted Rest Housed c113_wallet)
open Verif.Sign (Receiver Owner Tx Transaction made spent)
open Verif.Wallet (SyncData allUtxos allNulls nfc addRecv)
open Verif.Pay (Sys total unspent)
open Verif.World (owned used Event Book credit Current Signed Honest Inv Funded)

section Lists

theorem inj_of_nodup_map {α β : Type} (f : α → β) : ∀ l : List α, (l.map f).Nodup → ∀ x ∈ l, ∀ y ∈ l, f x = f y → x = y := by
  intro l
  induction l with
  | nil => intro _ x hx; cases hx
  | cons a l ih =>
    intro h x hx y hy e
    rw [List.map_cons, List.nodup_cons] at h
    rcases List.mem_cons.mp hx with rfl | hx <;> rcases List.mem_cons.mp hy with rfl | hy
    · rfl
    · exact absurd (List.mem_map.mpr ⟨y, hy, e.symm⟩) h.1
    · exact absurd (List.mem_map.mpr ⟨x, ‹x ∈ l›, e⟩) h.1
    · exact ih h.2 x hx y hy e

/-- Lists that agree on every part of a partition. -/
theorem perm_of_parts {α β : Type} [DecidableEq β] (f : α → β) (l m : List α)
    (h : ∀ b, (l.filter fun x => decide (f x = b)) = m.filter fun x => decide (f x = b)) : l.Perm m := by
  classical
  rw [List.perm_iff_count]
  intro a
  rw [← List.count_filter (p := fun x => decide (f x = f a)) (by simp), h, List.count_filter (by simp)]

end Lists

variable {P : Prim} [DecidableEq P.Item] [DecidableEq P.Root] [DecidableEq P.Rand]
variable {G : Grove P.Item P.Root} {ι : Type} [DecidableEq ι] {N : Net P G ι} {V : Asset → Prop} {st : St P G ι}

theorem planted (h : Sane N V) (i : ι) : Planted (N.wire i) N.pathWit :=
  ⟨rfl, rfl, rfl, rfl, fun a l p e => by simp only [Net.wire, e], h.ix, h.capacity, h.root, h.path⟩

theorem fine (h : Sane N V) (i : ι) : (N.wire i).Fine :=
  Rest.fine ⟨h.laws, h.same, h.modulus, h.complete, h.lookup⟩ (planted h i)

theorem housed (i : ι) : Housed (N.wire i) (N.env i) := ⟨rfl, rfl, rfl, rfl, by simp only [Net.env]⟩

theorem sound (h : Sane N V) : World.Sound N.world where
  base i := ⟨fun _ _ => rfl, fun k a => h.known i k a⟩
  acc i := c113_wallet (planted h i) (housed i)
  prover i := Settle.prover (fine h i)
  addrs i j e := h.addrs i j e
  stream i j n m hn hm e := h.stream i j n m hn hm (Prod.mk.inj e).2

theorem address_eq (x : ι × Receiver (Ident P) P.Grp) : ((N.wire x.1).mintPlan x.2).address = N.world.target x := by
  obtain ⟨i, k, a, o⟩ := x
  cases o <;> rfl

theorem honest_of (h : Sane N V) (hn : NoAccident N V st) (hc : Coins N.ledger st.ledger (st.log.map N.coin))
    (ho : ∀ x ∈ st.log, x.2.key.1 = false) : Honest N.world st.abs := by
  have hleaf : ∀ x ∈ st.log, ∀ j, N.world.target x = N.world.addr j →
      (N.wire j).leaf x.2.key x.2.asset = N.kit.item (N.coin x).utxo := by
    intro x hx j ht
    have : N.coin x = ((N.wire x.1).mintPlan x.2).post N.kit := rfl
    have e : (N.coin x).utxo = Transfer.utxoReconstruct N.kit x.2.asset x.2.key ((N.wire x.1).mintPlan x.2).address := rfl
    rw [e, address_eq, ht]
    rfl
  have hnd : (st.log.map fun x => (N.coin x).utxo).Nodup := by
    have := hc.nodup
    rwa [List.map_map] at this
  refine ⟨?_, hleaf, hn.nulls, ?_, ?_, ?_⟩
  · intro x hx j
    show openWithCheck N.kit (N.view j) (N.coin x) = _
    by_cases ht : N.world.target x = N.world.addr j
    · rw [if_pos ht]
      have := Transfer.open_own h.laws N.kit h.correct (N.view j) ((N.wire x.1).mintPlan x.2) (hn.valid x hx)
        (by rw [address_eq, ht]; rfl) (ho x hx)
      refine Eq.trans this ?_
      have hk := ho x hx
      obtain ⟨i, ⟨k1, k2⟩, a, o⟩ := x
      simp only at hk
      subst hk
      rfl
    · rw [if_neg ht]
      rcases hopen : openWithCheck N.kit (N.view j) (N.coin x) with _ | ⟨k, a⟩
      · rfl
      · exfalso
        refine hn.commit x hx j k a hopen ?_
        unfold openWithCheck at hopen
        split at hopen
        · cases hopen
        · split at hopen
          · rename_i hu
            cases hopen
            have hcm := congrArg Transfer.Utxo.cm (of_decide_eq_true hu)
            refine ⟨fun e => ht ?_, ?_⟩
            · simp only [Prod.mk.injEq] at e
              exact e.2.2.2
            · rw [← address_eq]
              exact hcm.symm
          · cases hopen
  · intro i c hc' c' hc'' e
    obtain ⟨x, hx, tx, rfl⟩ := World.mem_owned.mp hc'
    obtain ⟨y, hy, ty, rfl⟩ := World.mem_owned.mp hc''
    have e' : (N.wire i).leaf x.2.key x.2.asset = (N.wire i).leaf y.2.key y.2.asset := e
    rw [hleaf x hx i tx, hleaf y hy i ty] at e'
    have := inj_of_nodup_map _ _ hnd x hx y hy (hn.items x hx y hy e')
    rw [this]
  · intro i
    show ((st.log.map N.coin).map fun x => N.kit.item x.utxo).Nodup
    rw [List.map_map]
    unfold List.Nodup at hnd ⊢
    rw [List.pairwise_map] at hnd ⊢
    exact hnd.imp_of_mem fun {x y} hx hy hne e => hne (hn.items x hx y hy e)
  · intro i id
    have := hn.fits i id
    show _ ≤ 2 ^ 128 - 1
    exact Nat.le_sub_one_of_lt this

/-! ## What wallets read -/

/-- The record agrees with the ledger. -/
structure Fits (N : Net P G ι) (st : St P G ι) : Prop where
  coins : Coins N.ledger st.ledger (st.log.map N.coin)
  nulls : st.ledger.nullifiers.map Nul.cm = st.abs.ns N.world
  small : ∀ b id, balance st.ledger.accounts b id < 2 ^ 128
  drawn : ∀ x ∈ st.log, x.2.key.1 = false
  seen : ∀ i x, ((st.seenU i).filter fun r => decide (ix N.ledger r.utxo = x)) <+: inShard N.ledger (st.log.map N.coin) x
  seenN : ∀ i, st.seenN i <+: st.abs.ns N.world
  pos : ∀ i, (st.sys i).wallet.checkpoint.send = (st.seenN i).length
  clear : ∀ x, G.Clear (st.ledger.forest x)

theorem ix_eq (h : Sane N V) (u : Transfer.Utxo P.ty) : ix N.ledger u = G.ix (N.kit.item u) := by
  obtain ⟨n, e⟩ := h.same
  unfold ix
  rw [h.ix, e]
  rfl

/-- The checkpoint of a wallet says how much of every shard it has read. -/
theorem recv_eq (h : Sane N V) (hi : Inv N.world st.abs) (i : ι) (x : Ix) :
    (st.sys i).wallet.checkpoint.recv.getD x.val 0 = ((st.seenU i).filter fun r => decide (ix N.ledger r.utxo = x)).length := by
  have hc := (hi.view i).core
  have h1 : (st.sys i).wallet.checkpoint.recv =
      addRecv G.at (List.replicate 256 0) ((st.seenU i).map fun r => N.kit.item r.utxo) := by
    have e1 := hc.same
    have e2 := hc.recv
    have e3 := hc.lens
    simp only at e1 e2 e3
    rw [show (st.sys i).wallet.checkpoint = (st.sys i).signer.checkpoint from e1]
    exact e2.trans e3
  have h2 : List.replicate 256 0 = List.ofFn fun _ : Ix => 0 := by
    refine List.ext_getElem (by rw [List.length_replicate, List.length_ofFn]) fun j h3 h4 => ?_
    rw [List.getElem_replicate, List.getElem_ofFn]
  rw [h1, h2, Settle.addRecv_ofFn]
  rw [List.getD_eq_getElem?_getD, List.getElem?_eq_getElem (by rw [List.length_ofFn]; exact x.isLt), Option.getD_some, List.getElem_ofFn, Nat.zero_add, List.filter_map,
    List.length_map]
  congr 1
  refine List.filter_congr fun r _ => ?_
  simp only [Function.comp_def]
  rw [ix_eq h]

theorem seen_all (h : Sane N V) (hi : Inv N.world st.abs) (hf : Fits N st) (i : ι) (x : Ix) :
    ((st.seenU i ++ (st.data i).utxos).filter fun r => decide (ix N.ledger r.utxo = x)) =
      inShard N.ledger (st.log.map N.coin) x := by
  have h1 : ((st.data i).utxos.filter fun r => decide (ix N.ledger r.utxo = x)) =
      (inShard N.ledger (st.log.map N.coin) x).drop ((st.seenU i).filter fun r => decide (ix N.ledger r.utxo = x)).length := by
    unfold St.data serve Ledger.pull
    simp only
    rw [List.filter_map]
    have := Ledger.filter_flatMap_shards N.ledger
      (fun y => (st.ledger.shards y).drop ((st.sys i).wallet.checkpoint.recv.getD y.val 0))
      (fun j y hy => Ledger.shards_ix N.ledger _ _ hf.coins j y (List.mem_of_mem_drop hy)) x
    simp only [Function.comp_def]
    rw [this, recv_eq h hi, hf.coins.shards, ← List.map_drop, List.map_map]
    exact List.map_id' _
  obtain ⟨t, ht⟩ := hf.seen i x
  rw [List.filter_append, h1, ← ht, List.drop_left]

theorem seenN_all (hf : Fits N st) (i : ι) : st.seenN i ++ (st.data i).nulls = st.abs.ns N.world := by
  have h1 : (st.data i).nulls = (st.abs.ns N.world).drop (st.seenN i).length := by
    unfold St.data serve Ledger.pull
    simp only
    rw [List.map_drop, hf.nulls, hf.pos]
  obtain ⟨t, ht⟩ := hf.seenN i
  rw [h1, ← ht, List.drop_left]

theorem data_one (st : St P G ι) (i : ι) : allUtxos [st.data i] = (st.data i).utxos ∧ allNulls [st.data i] = (st.data i).nulls :=
  ⟨by simp [allUtxos], by simp [allNulls]⟩

theorem current (h : Sane N V) (hi : Inv N.world st.abs) (hf : Fits N st) (i : ι) :
    Current N.world st.abs i [st.data i] := by
  refine ⟨?_, ?_⟩
  · rw [(data_one st i).1]
    exact perm_of_parts (fun r : ReceiverPost P.ty => ix N.ledger r.utxo) _ _ fun x => seen_all h hi hf i x
  · rw [(data_one st i).2]
    exact seenN_all hf i

/-- The leaves that a wallet has when it has read everything are, in every shard, those of the ledger. -/
theorem seen_forest (h : Sane N V) (hi : Inv N.world st.abs) (hf : Fits N st) (i : ι) (x : Ix) :
    ((((st.seenU i ++ (st.data i).utxos).map fun r => N.kit.item r.utxo).filter fun l => decide (G.ix l = x)).take
      (2 ^ (G.h + 1))) = st.ledger.forest x := by
  rw [hf.coins.forest, h.capacity, ← seen_all h hi hf i x, List.filter_map]
  congr 1
  obtain ⟨n, e⟩ := h.same
  rw [e]
  congr 1
  refine List.filter_congr fun r _ => ?_
  simp only [Function.comp_def]
  rw [ix_eq h]

theorem Room.world (h : Sane N V) (hi : Inv N.world st.abs) (hf : Fits N st) {i : ι} (hr : Room N st i) :
    World.Room N.world st.abs i [st.data i] := by
  refine ⟨hr.1, hr.2, fun x => ?_⟩
  rw [(data_one st i).1]
  have := hf.clear x
  rw [← seen_forest h hi hf i x] at this
  exact this

theorem sent (h : Sane N V) (hi : Inv N.world st.abs) (hh : Honest N.world st.abs) (hf : Fits N st) (i : ι) :
    (Pay.syncAll (N.env i) (st.sys i) [st.data i]).2.wallet.checkpoint.send = (st.seenN i ++ (st.data i).nulls).length := by
  have hd := current h hi hf i
  have hu : (st.seenU i ++ (st.data i).utxos ++ []).Perm (st.abs.us N.world) := by
    have := hd.1
    rw [(data_one st i).1] at this
    rw [List.append_nil]
    exact this
  have := Pay.synced_send (N.env i) (hi.view i) (st.data i) (World.sub_ledger hu (World.ledger_us hi hh i))
    (fun id => World.Inv.fits_sub hh hu id)
  refine Eq.trans this ?_
  rw [List.length_append]
  congr 1
  exact hf.pos i

/-! ## Public balances -/

/-- What pushing does to the accounts. -/
structure Money (N : Net P G ι) (st : St P G ι) (i : ι) (txs : List (TxOf P (Acc G))) : Prop where
  calm : (push N.ledger st.ledger (N.member i).account ((N.wire i).posts txs)).1 ≠ .panicked
  funds : ∀ b id, balance (push N.ledger st.ledger (N.member i).account ((N.wire i).posts txs)).2.accounts b id =
    balance st.ledger.accounts b id - (if b = (N.member i).account then bal ((N.applied st i txs).flatMap Tx.sources) id else 0) +
      credit (N.applied st i txs) b id
  small : ∀ b id, balance (push N.ledger st.ledger (N.member i).account ((N.wire i).posts txs)).2.accounts b id < 2 ^ 128
  funded : ∀ id, bal ((N.applied st i txs).flatMap Tx.sources) id ≤ balance st.ledger.accounts (N.member i).account id

theorem applied_posts (i : ι) (txs : List (TxOf P (Acc G))) (hp : ∀ tx ∈ txs, ∃ p, (N.wire i).post? tx = some p) :
    (N.wire i).posts (N.applied st i txs) = pushLog N.ledger st.ledger (N.member i).account ((N.wire i).posts txs) := by
  unfold Net.applied
  rw [← posts_take txs hp, ← pushLog_take]

theorem money_credits (hf : Fits N st) (i : ι) (txs : List (TxOf P (Acc G)))
    (hp : ∀ tx ∈ txs, ∃ p, (N.wire i).post? tx = some p) (aid : Nat)
    (hs : ∀ tx ∈ txs, tx.sources = [] ∧ (tx.sinks = [] ∨ ∃ v, tx.sinks = [⟨aid, v⟩]))
    (hcr : ∀ b id, credit (N.applied st i txs) b id = if b = (N.member i).account then bal ((N.applied st i txs).flatMap Tx.sinks) id else 0)
    (hfit : ∀ id, balance st.ledger.accounts (N.member i).account id + bal (txs.flatMap Tx.sinks) id < 2 ^ 128) :
    Money N st i txs := by
  have hsub : ∀ tx ∈ N.applied st i txs, tx ∈ txs := fun tx ht => List.mem_of_mem_take ht
  have hsrc : (N.applied st i txs).flatMap Tx.sources = [] := World.flat_nil fun tx ht => (hs tx (hsub tx ht)).1
  obtain ⟨h1, h2⟩ := push_credits N.ledger (N.member i).account ((N.wire i).posts txs) st.ledger
    (by
      intro p hpm
      obtain ⟨tx, ht, e⟩ := Settle.mem_posts hpm
      rw [(post_public e).2.1, (hs tx ht).1]
      rfl)
    (fun id => by rw [posts_paid txs hp aid hs]; exact hfit id) hf.small
  have h3 : ∀ id, paidOut (pushLog N.ledger st.ledger (N.member i).account ((N.wire i).posts txs)) id =
      bal ((N.applied st i txs).flatMap Tx.sinks) id := by
    intro id
    rw [← applied_posts i txs hp]
    exact posts_paid _ (fun tx ht => hp tx (hsub tx ht)) aid (fun tx ht => hs tx (hsub tx ht)) id
  have h4 : ∀ id, bal ((N.applied st i txs).flatMap Tx.sinks) id ≤ bal (txs.flatMap Tx.sinks) id := by
    intro id
    obtain ⟨suf, e⟩ := World.take_cases txs (pushLog N.ledger st.ledger (N.member i).account ((N.wire i).posts txs)).length
    have e' : txs = N.applied st i txs ++ suf := e
    generalize N.applied st i txs = ap at e' ⊢
    rw [e', List.flatMap_append, bal_append]
    omega
  refine ⟨h1, fun b id => ?_, fun b id => ?_, fun id => ?_⟩
  · rw [h2, h3, hcr, hsrc]
    simp
  · rw [h2, h3]
    split
    · rename_i e
      subst e
      have := hfit id
      have := h4 id
      omega
    · exact hf.small b id
  · rw [hsrc]
    simp

theorem money_private (hf : Fits N st) (i : ι) (txs : List (TxOf P (Acc G)))
    (hp : ∀ tx ∈ txs, ∃ p, (N.wire i).post? tx = some p) (hs : ∀ tx ∈ txs, tx.sources = [] ∧ tx.sinks = []) :
    Money N st i txs := by
  have hsub : ∀ tx ∈ N.applied st i txs, tx ∈ txs := fun tx ht => List.mem_of_mem_take ht
  refine money_credits hf i txs hp 0 (fun tx ht => ⟨(hs tx ht).1, .inl (hs tx ht).2⟩) ?_ ?_
  · intro b id
    rw [World.credit_none fun tx ht => (hs tx (hsub tx ht)).2, World.flat_nil fun tx ht => (hs tx (hsub tx ht)).2]
    simp
  · intro id
    rw [World.flat_nil fun tx ht => (hs tx ht).2]
    exact hf.small _ id

theorem money_public (hf : Fits N st) (i : ι) (txs : List (TxOf P (Acc G)))
    (hp : ∀ tx ∈ txs, ∃ p, (N.wire i).post? tx = some p) (aid : Nat)
    (hs : ∀ tx ∈ txs, tx.sources = [] ∧ tx.accounts = [(N.member i).account] ∧ ∃ v, tx.sinks = [⟨aid, v⟩])
    (hfit : ∀ id, balance st.ledger.accounts (N.member i).account id + bal (txs.flatMap Tx.sinks) id < 2 ^ 128) :
    Money N st i txs := by
  have hsub : ∀ tx ∈ N.applied st i txs, tx ∈ txs := fun tx ht => List.mem_of_mem_take ht
  refine money_credits hf i txs hp aid (fun tx ht => ⟨(hs tx ht).1, .inr (hs tx ht).2.2⟩) ?_ hfit
  intro b id
  exact World.credit_one (fun tx ht => by
    obtain ⟨_, h2, v, h3⟩ := hs tx (hsub tx ht)
    exact ⟨h2, _, h3⟩) b id

theorem money_mint (hf : Fits N st) (i : ι) (a : Asset) (k : Ident P)
    (hp : ∃ p, (N.wire i).post? ⟨[a], [], [⟨k, a, .self⟩], [], []⟩ = some p) :
    Money N st i [⟨[a], [], [⟨k, a, .self⟩], [], []⟩] := by
  obtain ⟨p, e⟩ := hp
  obtain ⟨a1, a2, a3⟩ := post_public e
  have hps : (N.wire i).posts [(⟨[a], [], [⟨k, a, .self⟩], [], []⟩ : TxOf P (Acc G))] = [p] := by
    rw [Settle.posts_cons _ _ p e]; rfl
  obtain ⟨h1, h2, h3, h4⟩ := push_debits N.ledger (N.member i).account p st.ledger (by rw [a3]; rfl) hf.small
  have hid : ∀ id, (if p.body.assetId = some id then p.body.sources.sum else 0) = bal [a] id := by
    intro id
    rw [a1, a2, Verif.Pay.bal_one]
    unfold Wire.assetId Verif.Pay.amount
    simp only [List.append_nil, List.head?_cons, Option.map_some, Option.some.injEq, List.map_cons, List.map_nil,
      List.sum_cons, List.sum_nil, Nat.add_zero]
    by_cases hc : a.id = id
    · rw [if_pos hc, if_pos hc.symm]
    · rw [if_neg hc, if_neg fun e => hc e.symm]
  rcases h4 with h4 | h4
  · have hap : N.applied st i [⟨[a], [], [⟨k, a, .self⟩], [], []⟩] = [] := by
      unfold Net.applied; rw [hps, h4]; rfl
    refine ⟨by rw [hps]; exact h1, fun b id => ?_, fun b id => ?_, fun id => ?_⟩
    · rw [hps, h2 h4, hap]
      simp [credit]
    · rw [hps, h2 h4]; exact hf.small b id
    · rw [hap]; simp
  · have hap : N.applied st i [⟨[a], [], [⟨k, a, .self⟩], [], []⟩] = [⟨[a], [], [⟨k, a, .self⟩], [], []⟩] := by
      unfold Net.applied; rw [hps, h4]; rfl
    have h3 := h3 h4
    simp only [hid] at h3
    have hsrc : ([⟨[a], [], [⟨k, a, .self⟩], [], []⟩] : List (TxOf P (Acc G))).flatMap Tx.sources = [a] := by simp
    refine ⟨by rw [hps]; exact h1, fun b id => ?_, fun b id => ?_, fun id => ?_⟩
    · rw [hps, hap, hsrc, World.credit_none (by simp)]
      have := (h3 id).2 b
      omega
    · rw [hps]
      have := (h3 id).2 b
      have := hf.small b id
      omega
    · rw [hap, hsrc]
      exact (h3 id).1

/-! ## Steps -/

theorem settle_abs (i : ι) (s2 : Sys P.NCm (Ident P) P.Item (Acc G)) (txs : List (TxOf P (Acc G))) (hm : Money N st i txs) :
    (N.settle st i s2 txs).abs = (st.abs.view i [st.data i] s2).accept N.world i (N.applied st i txs) := by
  have h1 : balance (push N.ledger st.ledger (N.member i).account ((N.wire i).posts txs)).2.accounts =
      fun b id => balance st.ledger.accounts b id -
        (if b = (N.member i).account then bal ((N.applied st i txs).flatMap Tx.sources) id else 0) +
        credit (N.applied st i txs) b id := by
    funext b id
    exact hm.funds b id
  have h2 : (fun j => if j = i then st.seenU i ++ (st.data i).utxos else st.seenU j) =
      fun j => if j = i then st.seenU i ++ allUtxos [st.data i] else st.seenU j := by rw [(data_one st i).1]
  have h3 : (fun j => if j = i then st.seenN i ++ (st.data i).nulls else st.seenN j) =
      fun j => if j = i then st.seenN i ++ allNulls [st.data i] else st.seenN j := by rw [(data_one st i).2]
  simp only [St.abs, Net.settle, World.St.accept, World.St.view]
  rw [h1, h2, h3]
  rfl

/-- What is left to show of a request that was signed. -/
theorem settle_fits (h : Sane N V) (hi : Inv N.world st.abs) (hf : Fits N st) (i : ι)
    {s1 s2 : Sys P.NCm (Ident P) P.Item (Acc G)} {txs : List (TxOf P (Acc G))}
    (hp : ∀ tx ∈ txs, ∃ p, (N.wire i).post? tx = some p)
    (hs : Signed N.world st.abs i [st.data i] s1 s2 txs)
    (hpos : s2.wallet.checkpoint.send = (st.seenN i ++ (st.data i).nulls).length)
    (hm : Money N st i txs) (hn : NoAccident N V (N.settle st i s2 txs)) :
    Honest N.world (N.settle st i s2 txs).abs ∧ Fits N (N.settle st i s2 txs) := by
  have hsub : ∀ tx ∈ N.applied st i txs, tx ∈ txs := fun tx ht => List.mem_of_mem_take ht
  have hp' : ∀ tx ∈ N.applied st i txs, ∃ p, (N.wire i).post? tx = some p := fun tx ht => hp tx (hsub tx ht)
  have hd := current h hi hf i
  have hs' : Signed N.world st.abs i [st.data i] s1 s2 (N.applied st i txs) := hs.take _
  obtain ⟨l1, l2⟩ := posts_lists _ hp'
  have hag := push_again N.ledger (N.member i).account ((N.wire i).posts txs) st.ledger hm.calm
  rw [← applied_posts i txs hp] at hag
  have hlog : (N.settle st i s2 txs).log.map N.coin = st.log.map N.coin ++
      (made (N.applied st i txs)).map fun r => ((N.wire i).mintPlan r).post (N.wire i).kit := by
    simp only [Net.settle, List.map_append, List.map_map]
    rfl
  have hcoins : Coins N.ledger (N.settle st i s2 txs).ledger ((N.settle st i s2 txs).log.map N.coin) := by
    have := Ledger.push_coins N.ledger (N.member i).account ((N.wire i).posts txs) st.ledger _ hf.coins
    rw [← applied_posts i txs hp, l1] at this
    rw [hlog]
    exact this
  have hop : ∀ x ∈ (N.settle st i s2 txs).log, x.2.key.1 = false := by
    intro x hx
    rcases List.mem_append.mp hx with hx | hx
    · exact hf.drawn x hx
    · obtain ⟨r, hr, rfl⟩ := List.mem_map.mp hx
      obtain ⟨outs, hpr⟩ := hs'.prov
      have : r.key ∈ (made (N.applied st i txs)).map Receiver.key := List.mem_map.mpr ⟨r, hr, rfl⟩
      rw [hpr.keys] at this
      obtain ⟨n, _, e⟩ := List.mem_map.mp this
      show r.key.1 = false
      rw [← e]
      rfl
  have hh' := honest_of h hn hcoins hop
  refine ⟨hh', ?_⟩
  have habs := settle_abs i s2 txs hm
  have hnew := hs'.new (sound h) hi hd (by rw [← habs]; exact hh')
  have hnul : (N.settle st i s2 txs).ledger.nullifiers.map Nul.cm = st.abs.ns N.world ++
      (spent (N.applied st i txs)).map (nfc (N.env i).par) := by
    have := push_spends N.ledger h.lookup (N.member i).account ((N.wire i).posts (N.applied st i txs)) st.ledger _ hag
      (by
        intro p hpm q hq hmem
        rw [hf.nulls] at hmem
        have hx : q.nul.cm ∈ ((N.wire i).posts (N.applied st i txs)).flatMap fun p => p.body.senders.map fun q => q.nul.cm :=
          List.mem_flatMap.mpr ⟨p, hpm, List.mem_map.mpr ⟨q, hq, rfl⟩⟩
        rw [l2] at hx
        obtain ⟨c, hc, e⟩ := List.mem_map.mp hx
        exact hnew.1 c hc (by rw [show nfc (N.world.env i).par c = q.nul.cm from e]; exact hmem))
      (by rw [l2]; exact hnew.2)
    show (push N.ledger st.ledger (N.member i).account ((N.wire i).posts txs)).2.nullifiers.map Nul.cm = _
    rw [this, List.map_append, hf.nulls]
    congr 1
    rw [List.map_flatMap, ← show ((spent (N.applied st i txs)).map fun c => (N.wire i).nullifier c.1 c.2) =
      (spent (N.applied st i txs)).map (nfc (N.env i).par) from rfl, ← l2]
    simp only [List.map_map, Function.comp_def]
  have hns : (N.settle st i s2 txs).abs.ns N.world = st.abs.ns N.world ++ (spent (N.applied st i txs)).map (nfc (N.env i).par) := by
    simp only [World.St.ns, St.abs, Net.settle, List.map_append, List.map_map, Function.comp_def]
    rfl
  have hsh : ∀ x, inShard N.ledger (st.log.map N.coin) x <+: inShard N.ledger ((N.settle st i s2 txs).log.map N.coin) x := by
    intro x
    rw [hlog]
    unfold inShard
    rw [List.filter_append]
    exact List.prefix_append _ _
  refine ⟨hcoins, by rw [hnul, hns], hm.small, hop, ?_, ?_, ?_, hn.clear⟩
  · intro j x
    simp only [Net.settle] at hsh ⊢
    by_cases e : j = i
    · subst e
      rw [if_pos rfl, seen_all h hi hf]
      exact hsh x
    · rw [if_neg e]
      exact (hf.seen j x).trans (hsh x)
  · intro j
    rw [hns]
    simp only [Net.settle]
    by_cases e : j = i
    · subst e
      rw [if_pos rfl, seenN_all hf]
      exact List.prefix_append _ _
    · rw [if_neg e]
      exact (hf.seenN j).trans (List.prefix_append _ _)
  · intro j
    simp only [Net.settle]
    by_cases e : j = i
    · subst e
      rw [if_pos rfl, if_pos rfl]
      exact hpos
    · rw [if_neg e, if_neg e]
      exact hf.pos j

end Verif.Net
