import Verif.Net.Lemmas
import Verif.Ledger.Supply

/-! # C132: wallets with Merkle forests on the simulation ledger keep one account book -/

set_option linter.unusedSectionVars false

namespace Verif.Net

open Verif.Asset (Asset bal bal_append bal_cons bal_nil)
open Verif.Transfer (Ty Prim Kit Post Nul Body SenderPost ReceiverPost MintPlan openWithCheck visSecret Collision)
open Verif.Ledger (Ix Env State Coins push pushLog balance ix inShard)
open Verif.Merkle
open Verif.Settle (Wire Ident TxOf Grove Acc paidOut)
open Verif.Sign (Receiver Owner Tx Transaction made spent)
open Verif.Wallet (SyncData allUtxos allNulls nfc addRecv)
open Verif.Pay (Sys total unspent)
open Verif.World (owned used Event Book credit Current Signed Honest Inv Funded left assetOf observed)

variable {P : Prim} [DecidableEq P.Item] [DecidableEq P.Root] [DecidableEq P.Rand]
variable {G : Grove P.Item P.Root} {ι : Type} [DecidableEq ι] {N : Net P G ι} {V : Asset → Prop} {st : St P G ι}

/-! ## Requests -/

theorem sinks_total {a : Asset} : ∀ l : List (TxOf P (Acc G)), (∀ tx ∈ l, ∃ v, tx.sinks = [⟨a.id, v⟩]) → ∀ id,
    bal (l.flatMap Tx.sinks) id = if id = a.id then (l.map fun tx => (tx.sinks.map Asset.value).sum).sum else 0 := by
  intro l
  induction l with
  | nil => intro _ id; simp
  | cons tx l ih =>
    intro h id
    obtain ⟨v, e⟩ := h tx (by simp)
    rw [List.flatMap_cons, bal_append, ih (fun x hx => h x (List.mem_cons_of_mem _ hx)) id, List.map_cons,
      List.sum_cons, e, Verif.Pay.bal_one]
    unfold Verif.Pay.amount
    simp only
    split <;> simp

theorem post_signed (h : Sane N V) (hi : Inv N.world st.abs) (hh : Honest N.world st.abs) (hf : Fits N st) (i : ι)
    (t : Transaction P.Grp Nat) (ha : Allowed N st (.post i t)) :
    let r := Pay.post (N.env i) (st.sys i) [st.data i] t
    (∃ s1, Signed N.world st.abs i [st.data i] s1 r.2 r.1.handed) ∧
      (∀ tx ∈ r.1.handed, ∃ p, (N.wire i).post? tx = some p) ∧ Money N st i r.1.handed := by
  have hd := current h hi hf i
  have hW := sound h
  obtain ⟨hr, hid, hm⟩ := ha
  replace hr := hr.world h hi hf
  have nothing : Money N st i [] := money_private hf i [] (by simp) (by simp)
  cases t with
  | toPrivate a =>
    obtain ⟨s1, s2, k, q1, q2⟩ := World.post_mints hW hi hh hd hr a hid (by
      have : a.value < 2 ^ 128 := hm
      exact Nat.le_sub_one_of_lt this)
    have q1' : Pay.post (N.env i) (st.sys i) [st.data i] (.toPrivate a) = _ := q1
    obtain ⟨g, g', e⟩ := Pay.post_ok q1'
    obtain ⟨tx, k2, e1, e2, e3⟩ := Sign.mint_outputs _ _ _ _ _ e
    rw [q1']
    have hp : ∀ tx ∈ [(⟨[a], [], [⟨k, a, .self⟩], [], []⟩ : TxOf P (Acc G))], ∃ p, (N.wire i).post? tx = some p := by
      intro tx' ht
      rw [e1, List.mem_singleton] at ht
      rw [ht]
      exact Settle.proved_post e2
    exact ⟨⟨s1, q2⟩, hp, money_mint hf i a k (hp _ (by simp))⟩
  | privateTransfer a o =>
    by_cases hc : a.value ≤ left N.world st.abs i a.id
    · obtain ⟨s1, s2, front, l, k, k', change, q1, q2, q3, q4, q5, q6, q7⟩ := World.post_pays hW hi hh hd hr a hid o hc
      have q1' : Pay.post (N.env i) (st.sys i) [st.data i] (.privateTransfer a o) = _ := q1
      obtain ⟨g, g', e⟩ := Pay.post_ok q1'
      obtain ⟨l', tx, _, _, _, e1, e2, _, e4⟩ := Sign.private_outputs _ _ _ _ _ _ e
      rw [q1']
      have hp : ∀ tx ∈ front ++ [l], ∃ p, (N.wire i).post? tx = some p := by
        intro tx' ht
        rw [e1] at ht
        rcases List.mem_append.mp ht with ht | ht
        · exact Settle.proved_post (e4 tx' ht).1
        · rw [List.mem_singleton] at ht
          rw [ht]
          exact Settle.proved_post e2
      refine ⟨⟨s1, q2⟩, hp, money_private hf i _ hp ?_⟩
      intro tx' ht
      rcases List.mem_append.mp ht with ht | ht
      · exact ⟨(q3 tx' ht).1, (q3 tx' ht).2.2.2.1⟩
      · rw [List.mem_singleton] at ht
        rw [ht]
        exact ⟨q4, q5⟩
    · obtain ⟨s1, q1, q2⟩ := World.post_refused hW hi hh hd hr (.privateTransfer a o) a (.inl ⟨o, rfl⟩) (by omega)
      have q1' : Pay.post (N.env i) (st.sys i) [st.data i] (.privateTransfer a o) = _ := q1
      rw [q1']
      exact ⟨⟨s1, q2⟩, by simp [Pay.Out.handed], nothing⟩
  | toPublic a p =>
    obtain ⟨rfl, hfit⟩ := hm
    by_cases hc : a.value ≤ left N.world st.abs i a.id
    · obtain ⟨s1, s2, posts, q1, q2, q3, q4, q5⟩ := World.post_withdraws hW hi hh hd hr a hid _ hc
      have q1' : Pay.post (N.env i) (st.sys i) [st.data i] (.toPublic a (N.member i).account) = _ := q1
      obtain ⟨g, g', e⟩ := Pay.post_ok q1'
      have e1 := Sign.public_outputs _ _ _ _ _ _ e
      rw [q1']
      have hp : ∀ tx ∈ posts, ∃ p, (N.wire i).post? tx = some p := fun tx ht => Settle.proved_post (e1 tx ht).1
      refine ⟨⟨s1, q2⟩, hp, money_public hf i posts hp a.id (fun tx ht => ⟨(q3 tx ht).1, (q3 tx ht).2.1, (q3 tx ht).2.2.2⟩) ?_⟩
      intro id
      rw [sinks_total posts fun tx ht => (q3 tx ht).2.2.2, q5]
      split
      · rename_i e; subst e; exact hfit
      · exact hf.small _ id
    · obtain ⟨s1, q1, q2⟩ := World.post_refused hW hi hh hd hr (.toPublic a (N.member i).account) a (.inr ⟨_, rfl⟩) (by omega)
      have q1' : Pay.post (N.env i) (st.sys i) [st.data i] (.toPublic a (N.member i).account) = _ := q1
      rw [q1']
      exact ⟨⟨s1, q2⟩, by simp [Pay.Out.handed], nothing⟩

theorem consolidate_signed (h : Sane N V) (hi : Inv N.world st.abs) (hh : Honest N.world st.abs) (hf : Fits N st) (i : ι)
    (req : List (Ident P × Asset)) (ha : Allowed N st (.consolidate i req)) :
    let r := Pay.postConsolidation (N.env i) (st.sys i) [st.data i] req
    (∃ s1, Signed N.world st.abs i [st.data i] s1 r.2 r.1.handed) ∧
      (∀ tx ∈ r.1.handed, ∃ p, (N.wire i).post? tx = some p) ∧ Money N st i r.1.handed := by
  have hd := current h hi hf i
  have hW := sound h
  obtain ⟨hr, hreq, hst, hid⟩ := ha
  replace hr := hr.world h hi hf
  obtain ⟨s1, s2, posts, q1, q2, q3⟩ := World.post_consolidates hW hi hh hd hr req hreq hst hid
  have q1' : Pay.postConsolidation (N.env i) (st.sys i) [st.data i] req = _ := q1
  obtain ⟨g, g', e⟩ := Pay.postConsolidation_ok q1'
  obtain ⟨c, _, l, tx, _, _, e1, e2, _, e4⟩ := Sign.consolidate_outputs _ _ _ _ _ e
  rw [q1']
  have hp : ∀ tx ∈ posts, ∃ p, (N.wire i).post? tx = some p := by
    intro tx' ht
    rw [e1] at ht
    rcases List.mem_append.mp ht with ht | ht
    · exact Settle.proved_post (e4 tx' ht).1
    · rw [List.mem_singleton] at ht
      rw [ht]
      exact Settle.proved_post e2
  have hin := q3 posts [] (by simp)
  exact ⟨⟨s1, q2⟩, hp, money_private hf i _ hp fun tx ht => ⟨hin.sources tx ht, hin.sinks tx ht⟩⟩

/-! ## Histories -/

theorem applied_nil (i : ι) : N.applied st i [] = [] := rfl

theorem read_fits (h : Sane N V) (hi : Inv N.world st.abs) (hh : Honest N.world st.abs) (hf : Fits N st) (i : ι) :
    Fits N (N.step st (.read i)).2 ∧
      (N.step st (.read i)).2.abs = st.abs.view i [st.data i] (Pay.syncAll (N.env i) (st.sys i) [st.data i]).2 := by
  have hlog : (N.step st (.read i)).2.log = st.log := List.append_nil _
  have hslog : (N.step st (.read i)).2.slog = st.slog := List.append_nil _
  have hled : (N.step st (.read i)).2.ledger = st.ledger := rfl
  have hns : (N.step st (.read i)).2.abs.ns N.world = st.abs.ns N.world := by
    show (N.step st (.read i)).2.slog.map _ = _
    rw [hslog]
    rfl
  refine ⟨⟨?_, ?_, hf.small, ?_, ?_, ?_, ?_, hf.clear⟩, ?_⟩
  · rw [hlog, hled]; exact hf.coins
  · rw [hns, hled]; exact hf.nulls
  · rw [hlog]; exact hf.drawn
  · intro j x
    rw [hlog]
    simp only [Net.step, Net.settle]
    by_cases e : j = i
    · subst e
      rw [if_pos rfl, seen_all h hi hf]
      exact List.prefix_refl _
    · rw [if_neg e]; exact hf.seen j x
  · intro j
    rw [hns]
    simp only [Net.step, Net.settle]
    by_cases e : j = i
    · subst e
      rw [if_pos rfl, seenN_all hf]
      exact List.prefix_refl _
    · rw [if_neg e]; exact hf.seenN j
  · intro j
    simp only [Net.step, Net.settle]
    by_cases e : j = i
    · subst e
      rw [if_pos rfl, if_pos rfl]
      exact sent h hi hh hf j
    · rw [if_neg e, if_neg e]; exact hf.pos j
  · have h2 : (fun j => if j = i then st.seenU i ++ (st.data i).utxos else st.seenU j) =
        fun j => if j = i then st.seenU i ++ allUtxos [st.data i] else st.seenU j := by rw [(data_one st i).1]
    have h3 : (fun j => if j = i then st.seenN i ++ (st.data i).nulls else st.seenN j) =
        fun j => if j = i then st.seenN i ++ allNulls [st.data i] else st.seenN j := by rw [(data_one st i).2]
    unfold St.abs
    rw [hlog, hslog, hled]
    simp only [Net.step, Net.settle, World.St.view]
    rw [h2, h3]

theorem start_fits (accounts : List (Nat × List (Nat × Nat))) (hb : ∀ b id, balance accounts b id < 2 ^ 128) :
    Fits N (St.start accounts) := by
  refine ⟨⟨rfl, List.nodup_nil, fun _ => rfl, fun _ => by simp [St.start, Ledger.State.new, inShard]⟩, rfl, hb, by simp [St.start], ?_, ?_, fun _ => rfl,
    fun _ => G.clear_nil⟩
  · intro i x
    exact List.nil_prefix
  · intro i
    exact List.nil_prefix

/-- Histories of wallets on the ledger are histories of the world, and the record stays right. -/
theorem reach_run (h : Sane N V) {accounts : List (Nat × List (Nat × Nat))} (hb : ∀ b id, balance accounts b id < 2 ^ 128)
    {es : List (Event ι P.Grp Nat)} (hr : Reach N V (St.start accounts) es st) :
    World.Run N.world (N.world.start (balance accounts)) es st.abs ∧ Fits N st := by
  have hW := sound h
  induction hr with
  | nil => exact ⟨.nil, start_fits accounts hb⟩
  | @snoc es st hr act ha hn ih =>
    obtain ⟨hrun, hf⟩ := ih
    obtain ⟨hi, hh, _, _⟩ := World.run_inv hW hrun
    cases act with
    | read i =>
      obtain ⟨hf', habs⟩ := read_fits h hi hh hf i
      refine ⟨.snoc hrun ?_ (honest_of h hn hf'.coins hf'.drawn), hf'⟩
      rw [habs]
      have hd := current h hi hf i
      exact World.Step.read st.abs i [st.data i] [] [] (by rw [List.append_nil]; exact hd.1) (by rw [List.append_nil]; exact hd.2)
    | post i t =>
      obtain ⟨⟨s1, hs⟩, hp, hm⟩ := post_signed h hi hh hf i t ha
      have hpos : (Pay.post (N.env i) (st.sys i) [st.data i] t).2.wallet.checkpoint.send =
          (st.seenN i ++ (st.data i).nulls).length := by
        rw [Pay.post_wallet]; exact sent h hi hh hf i
      obtain ⟨hh', hf'⟩ := settle_fits h hi hf i hp hs hpos hm hn
      refine ⟨.snoc hrun ?_ hh', hf'⟩
      show World.Step N.world st.abs _ (N.settle st i _ _).abs
      rw [settle_abs i _ _ hm]
      refine World.Step.post st.abs i [st.data i] t _ (current h hi hf i) (ha.1.world h hi hf) ha.2.1 ?_ hm.funded
      rintro a rfl
      have : a.value < 2 ^ 128 := ha.2.2
      exact Nat.le_sub_one_of_lt this
    | consolidate i req =>
      obtain ⟨⟨s1, hs⟩, hp, hm⟩ := consolidate_signed h hi hh hf i req ha
      have hpos : (Pay.postConsolidation (N.env i) (st.sys i) [st.data i] req).2.wallet.checkpoint.send =
          (st.seenN i ++ (st.data i).nulls).length := by
        rw [Pay.postConsolidation_wallet]; exact sent h hi hh hf i
      obtain ⟨hh', hf'⟩ := settle_fits h hi hf i hp hs hpos hm hn
      refine ⟨.snoc hrun ?_ hh', hf'⟩
      show World.Step N.world st.abs _ (N.settle st i _ _).abs
      rw [settle_abs i _ _ hm]
      exact World.Step.consolidate st.abs i [st.data i] req _ (current h hi hf i) (ha.1.world h hi hf) ha.2.1 ha.2.2.1 ha.2.2.2
    | restart i skip =>
      refine ⟨.snoc hrun (World.Step.restart st.abs i skip ha) (honest_of h hn hf.coins hf.drawn), ?_⟩
      refine ⟨hf.coins, hf.nulls, hf.small, hf.drawn, hf.seen, hf.seenN, fun j => ?_, hf.clear⟩
      simp only [Net.step]
      split
      · rename_i e; subst e; exact hf.pos j
      · exact hf.pos j

/-- The coins that the ledger has for a wallet are those of the record. -/
theorem coins_perm (hf : Fits N st) (j : ι) :
    (N.coins st.ledger j).Perm (unspent (N.env j).par (st.abs.us N.world) (st.abs.ns N.world)) := by
  have hperm : (((List.finRange 256).flatMap st.ledger.shards).map fun x => (⟨x.1, x.2⟩ : ReceiverPost P.ty)).Perm
      (st.log.map N.coin) := by
    refine perm_of_parts (fun r : ReceiverPost P.ty => ix N.ledger r.utxo) _ _ fun x => ?_
    rw [List.filter_map]
    have := Ledger.filter_flatMap_shards N.ledger st.ledger.shards (fun j y hy => Ledger.shards_ix N.ledger _ _ hf.coins j y hy) x
    simp only [Function.comp_def]
    rw [this, hf.coins.shards, List.map_map]
    exact List.map_id' _
  have h1 := World.unspent_perm (P := (N.env j).par) hperm (st.abs.ns N.world)
  refine List.Perm.trans (List.Perm.of_eq ?_) h1
  unfold Net.coins unspent
  rw [List.filterMap_map, hf.nulls]
  rfl

/-! ## C132 -/

/-- C132. Whatever wallets with Merkle forests do on the simulation ledger, and however much of it the ledger accepts:
the unspent coins on the ledger that a wallet can open, and the balance of every account, are at every moment what the
account book says, and nothing is ever taken that is not there. -/
theorem c132_refines (h : Sane N V) {accounts : List (Nat × List (Nat × Nat))} (hb : ∀ b id, balance accounts b id < 2 ^ 128)
    {es : List (Event ι P.Grp Nat)} (hr : Reach N V (St.start accounts) es st) :
    (∀ j id, total (N.coins st.ledger j) id =
      ((Book.opening (balance accounts)).after N.world.addr N.world.acct es).priv j id) ∧
    (∀ p id, balance st.ledger.accounts p id =
      ((Book.opening (balance accounts)).after N.world.addr N.world.acct es).pub p id) ∧
    ∀ pre e suf, es = pre ++ e :: suf →
      ((Book.opening (balance accounts)).after N.world.addr N.world.acct pre).Covers N.world.acct e := by
  obtain ⟨hrun, hf⟩ := reach_run h hb hr
  obtain ⟨h1, h2, h3⟩ := World.c131_refines (sound h) hrun
  exact ⟨fun j id => (World.total_perm (coins_perm hf j) id).trans (h1 j id), h2, h3⟩

/-- C132. A wallet that synchronizes with the ledger succeeds, from whatever position it has reached, and reports the
balances of the book. -/
theorem c132_reported (h : Sane N V) {accounts : List (Nat × List (Nat × Nat))} (hb : ∀ b id, balance accounts b id < 2 ^ 128)
    {es : List (Event ι P.Grp Nat)} (hr : Reach N V (St.start accounts) es st) (i : ι) :
    ∃ s', Pay.syncAll (N.env i) (st.sys i) [serve st.ledger (st.sys i).wallet.checkpoint] = (.ok, s') ∧
      ∀ id, Asset.AList.value N.bs s'.wallet.assets id =
        ((Book.opening (balance accounts)).after N.world.addr N.world.acct es).priv i id := by
  obtain ⟨hrun, hf⟩ := reach_run h hb hr
  obtain ⟨hi, _⟩ := World.run_inv (sound h) hrun
  exact World.c131_reported (sound h) hrun i _ (current h hi hf i)

/-! ## Acceptance -/

theorem accepted_all {T : Ty} (env : Env T) (a : Nat) (ps : List (Post T)) : ∀ s s', push env s a ps = (.accepted, s') →
    pushLog env s a ps = ps := by
  induction ps with
  | nil => intro s s' _; rfl
  | cons p ps ih =>
    intro s s' h
    simp only [push] at h
    simp only [pushLog]
    split at h
    · rename_i e
      rw [e]
      simp only
      rw [ih _ _ h]
    · rename_i e1
      exact absurd h (e1 _)

/-- The forest of a wallet that has read everything is the ledger's. -/
theorem view_eq (h : Sane N V) (hi : Inv N.world st.abs) (hf : Fits N st) (i : ι) {s1 : Sys P.NCm (Ident P) P.Item (Acc G)}
    (hs : Pay.Synced (N.env i) (Acc.empty G) 256 (st.seenU i ++ (st.data i).utxos) (st.seenN i ++ (st.data i).nulls) s1) :
    (N.wire i).view s1.acc = st.ledger.forest := by
  obtain ⟨bs, e1, e2⟩ := hs.acc
  obtain ⟨h1, _⟩ := Settle.replays (housed (N := N) i) bs (Acc.empty G)
  funext x
  show s1.acc.view x = _
  rw [e2, h1, Settle.empty_view, List.nil_append, e1, hs.core.signer.leaves]
  exact seen_forest h hi hf i x

theorem source_ok {s : State P.ty} {id a v : Nat} (hv : 0 < v) (h : v ≤ balance s.accounts a id) :
    Ledger.sourceOk s id (a, v) = true := by
  unfold Ledger.sourceOk
  unfold balance at h
  dsimp only
  rcases e1 : Asset.mget s.accounts a with _ | m
  · rw [e1] at h; simp at h; omega
  · rw [e1] at h
    dsimp only at h ⊢
    rcases e2 : Asset.mget m id with _ | b
    · rw [e2] at h; simp at h; omega
    · rw [e2] at h
      simpa using h

/-- What a wallet is like when it signs. -/
theorem at_signing (h : Sane N V) (hi : Inv N.world st.abs) (hh : Honest N.world st.abs) (hf : Fits N st) {i : ι}
    (hr : Room N st i) : ∃ s1, Pay.syncAll (N.env i) (st.sys i) [st.data i] = (.ok, s1) ∧
      s1.authorization = true ∧ Sign.Ready (N.wire i).sign s1.signing ∧ (N.wire i).view s1.acc = st.ledger.forest ∧
      (∀ k a, Asset.AMap.Stored s1.signer.assets k a → ∀ n ∈ st.ledger.nullifiers, n.cm ≠ (N.wire i).nullifier k a) ∧
      (∀ k a, Asset.AMap.Stored s1.signer.assets k a ↔ (k, a) ∈ unspent (N.env i).par (st.abs.us N.world) (st.abs.ns N.world)) ∧
      (∀ id, Asset.AMap.stock s1.signer.assets id < 2 ^ 128) ∧
      (∀ id, Asset.AMap.stock s1.signer.assets id = left N.world st.abs i id) ∧
      (∀ a : Asset, Asset.AList.contains (N.env i).bs s1.wallet.assets a = true ↔ a.value ≤ left N.world st.abs i a.id) ∧
      (∀ id, 2 * (Asset.AMap.assetVectorWithId s1.signer.assets id).length ≤ s1.acc.free) ∧
      ∀ req, Sign.consolidationOk req = true →
        (∀ c ∈ req, c ∈ unspent (N.env i).par (st.abs.us N.world) (st.abs.ns N.world)) →
        (∀ c ∈ req, Asset.AMap.Stored s1.signer.assets c.1 c.2) ∧ 2 * req.length ≤ s1.acc.free ∧
          (req.map fun c => c.2.value).sum < 2 ^ 128 := by
  have hW := sound h
  have hd := current h hi hf i
  obtain ⟨s1, e1, e2, e3, e4, e5, e6, e7, e8, e9⟩ := World.ready hW hi hh hd (hr.world h hi hf)
  have hst : ∀ k a, Asset.AMap.Stored s1.signer.assets k a ↔
      (k, a) ∈ unspent (N.env i).par (st.abs.us N.world) (st.abs.ns N.world) := by
    intro k a
    rw [Pay.synced_stored (hW.base i) e2, hd.2]
    exact (World.unspent_perm hd.1 _).mem_iff
  refine ⟨s1, e1, e3.2, e5, view_eq h hi hf i ?_, ?_, hst, fun id => ?_, e7, e8, e9, ?_⟩
  · rw [← (data_one st i).1, ← (data_one st i).2]
    exact e2
  · intro k a hs n hn e
    refine (Pay.mem_unspent.mp ((hst k a).mp hs)).2 ?_
    rw [← hf.nulls]
    exact List.mem_map.mpr ⟨n, hn, e⟩
  · have := e6 id
    have h2 : (N.world.env i).sign.max = 2 ^ 128 - 1 := rfl
    rw [h2] at this
    exact Nat.lt_of_le_sub_one (Nat.two_pow_pos 128) this
  · intro req h1 h2
    obtain ⟨k1, k2, k3⟩ := World.request_fits hW hi hh hd req h1 h2 e2 e6 e7 e9
    exact ⟨k1, k2, Nat.lt_of_le_sub_one (Nat.two_pow_pos 128) k3⟩

theorem all_applied {i : ι} {txs : List (TxOf P (Acc G))} {s' : State P.ty}
    (h : push N.ledger st.ledger (N.member i).account ((N.wire i).posts txs) = (.accepted, s'))
    (hl : ((N.wire i).posts txs).length = txs.length) : N.applied st i txs = txs := by
  unfold Net.applied
  rw [accepted_all _ _ _ _ _ h, hl, List.take_length]

/-- The coins of a wallet after it has synchronized, as its signer knows them. -/
def Net.purse (N : Net P G ι) (st : St P G ι) (i : ι) : Asset.AMap (Ident P) :=
  (Pay.syncAll (N.env i) (st.sys i) [st.data i]).2.signer.assets

/-- C132. A payment that the book covers is made: the ledger accepts every post, if no hash of the request clashes. -/
theorem c132_pays (h : Sane N V) {accounts : List (Nat × List (Nat × Nat))} (hb : ∀ b id, balance accounts b id < 2 ^ 128)
    {es : List (Event ι P.Grp Nat)} (hr : Reach N V (St.start accounts) es st) (i : ι) (hroom : Room N st i)
    (a : Asset) (hid : a.id ≠ 0 ∧ a.id < N.modulus) (o : Owner P.Grp)
    (hcov : a.value ≤ ((Book.opening (balance accounts)).after N.world.addr N.world.acct es).priv i a.id) :
    ∃ txs s', Pay.post (N.env i) (st.sys i) [st.data i] (.privateTransfer a o) = (.ok txs, s') ∧ txs ≠ [] ∧
      (Settle.NoClash (N.wire i) st.ledger (N.purse st i) txs →
        push N.ledger st.ledger (N.member i).account ((N.wire i).posts txs) =
          (.accepted, (N.step st (.post i (.privateTransfer a o))).2.ledger) ∧
        (N.step st (.post i (.privateTransfer a o))).1 = .pay i a o true) := by
  obtain ⟨hrun, hf⟩ := reach_run h hb hr
  have hW := sound h
  obtain ⟨hi, hh, hbook, _⟩ := World.run_inv hW hrun
  rw [← hbook] at hcov
  have hcov : a.value ≤ left N.world st.abs i a.id := hcov
  obtain ⟨s1, e1, _, e3, e4, e5, e6, e7, e8, e9, e10, e11⟩ := at_signing h hi hh hf hroom
  obtain ⟨txs, g', q1, q2⟩ := Settle.c112_private_transfer (fine h i) (Settle.c113_laws (planted h i)) s1.signing e3 st.ledger
    (N.member i).account e4 e5 hf.small a hid o (e7 _) (e10 _) (Nat.le_trans hcov (Nat.le_of_eq (e8 _).symm))
  have hpost : Pay.post (N.env i) (st.sys i) [st.data i] (.privateTransfer a o) = (.ok txs, s1.signed (N.env i) g') := by
    rw [World.post_synced e1]
    simp only [Pay.sign, Pay.check, (e9 a).mpr hcov, if_true]
    rw [show Sign.sign (N.env i).sign s1.signing (.privateTransfer a o) = (.ok txs, g') from q1]
    rfl
  have hne : txs ≠ [] := by
    obtain ⟨l, tx, _, _, _, e, _⟩ := Sign.private_outputs _ _ _ _ _ _ q1
    rw [e]
    simp
  refine ⟨txs, _, hpost, hne, fun hc => ?_⟩
  have hpur : N.purse st i = s1.signer.assets := by unfold Net.purse; rw [e1]
  rw [hpur] at hc
  obtain ⟨s', r1, r2, _⟩ := q2 hc
  have r1 : push N.ledger st.ledger (N.member i).account ((N.wire i).posts txs) = (.accepted, s') := r1
  refine ⟨?_, ?_⟩
  · simp only [Net.step, Net.settle]
    rw [hpost]
    simp only [Pay.Out.handed]
    rw [r1]
  · simp only [Net.step]
    rw [hpost]
    simp only [Pay.Out.handed]
    rw [all_applied r1 r2]
    cases txs with
    | nil => exact absurd rfl hne
    | cons t ts => simp [observed]

/-- C132. Coins can be merged: the ledger accepts every post of a consolidation. -/
theorem c132_consolidates (h : Sane N V) {accounts : List (Nat × List (Nat × Nat))} (hb : ∀ b id, balance accounts b id < 2 ^ 128)
    {es : List (Event ι P.Grp Nat)} (hr : Reach N V (St.start accounts) es st) (i : ι) (req : List (Ident P × Asset))
    (ha : Allowed N st (.consolidate i req)) :
    ∃ txs s', Pay.postConsolidation (N.env i) (st.sys i) [st.data i] req = (.ok txs, s') ∧ txs ≠ [] ∧
      (Settle.NoClash (N.wire i) st.ledger (N.purse st i) txs →
        push N.ledger st.ledger (N.member i).account ((N.wire i).posts txs) =
          (.accepted, (N.step st (.consolidate i req)).2.ledger)) := by
  obtain ⟨hrun, hf⟩ := reach_run h hb hr
  have hW := sound h
  obtain ⟨hi, hh, _, _⟩ := World.run_inv hW hrun
  obtain ⟨hroom, hreq, hst, hid⟩ := ha
  obtain ⟨s1, e1, _, e3, e4, e5, e6, e7, e8, e9, e10, e11⟩ := at_signing h hi hh hf hroom
  obtain ⟨k1, k2, k3⟩ := e11 req hreq hst
  obtain ⟨txs, g', q1, q2⟩ := Settle.c112_consolidation (fine h i) (Settle.c113_laws (planted h i)) s1.signing e3 st.ledger
    (N.member i).account e4 e5 hf.small req hreq k1 k3 k2 hid
  have hpost : Pay.postConsolidation (N.env i) (st.sys i) [st.data i] req = (.ok txs, s1.signed (N.env i) g') := by
    unfold Pay.postConsolidation
    rw [e1]
    simp only [Pay.consolidate]
    rw [show Sign.consolidate (N.env i).sign s1.signing req = (.ok txs, g') from q1]
    rfl
  have hne : txs ≠ [] := by
    obtain ⟨_, _, l, tx, _, _, e, _⟩ := Sign.consolidate_outputs _ _ _ _ _ q1
    rw [e]
    simp
  refine ⟨txs, _, hpost, hne, fun hc => ?_⟩
  have hpur : N.purse st i = s1.signer.assets := by unfold Net.purse; rw [e1]
  rw [hpur] at hc
  obtain ⟨s', r1, r2, _⟩ := q2 hc
  have r1 : push N.ledger st.ledger (N.member i).account ((N.wire i).posts txs) = (.accepted, s') := r1
  simp only [Net.step, Net.settle]
  rw [hpost]
  simp only [Pay.Out.handed]
  rw [r1]

/-- C132. What an account has can be deposited. -/
theorem c132_mints (h : Sane N V) {accounts : List (Nat × List (Nat × Nat))} (hb : ∀ b id, balance accounts b id < 2 ^ 128)
    {es : List (Event ι P.Grp Nat)} (hr : Reach N V (St.start accounts) es st) (i : ι) (hroom : Room N st i)
    (a : Asset) (hid : a.id ≠ 0 ∧ a.id < N.modulus) (hpos : 0 < a.value)
    (hcov : a.value ≤ ((Book.opening (balance accounts)).after N.world.addr N.world.acct es).pub (N.member i).account a.id) :
    ∃ txs s', Pay.post (N.env i) (st.sys i) [st.data i] (.toPrivate a) = (.ok txs, s') ∧ txs ≠ [] ∧
      (Settle.NoClash (N.wire i) st.ledger (N.purse st i) txs →
        push N.ledger st.ledger (N.member i).account ((N.wire i).posts txs) =
          (.accepted, (N.step st (.post i (.toPrivate a))).2.ledger) ∧
        (N.step st (.post i (.toPrivate a))).1 = .mint i a true) := by
  obtain ⟨hrun, hf⟩ := reach_run h hb hr
  have hW := sound h
  obtain ⟨hi, hh, hbook, _⟩ := World.run_inv hW hrun
  rw [← hbook] at hcov
  have hcov : a.value ≤ balance st.ledger.accounts (N.member i).account a.id := hcov
  obtain ⟨s1, e1, e2, e3, e4, e5, e6, e7, e8, e9, e10, e11⟩ := at_signing h hi hh hf hroom
  obtain ⟨txs, g', q1, q2⟩ := Settle.c112_mint (fine h i) s1.signing e2 st.ledger (N.member i).account hf.small a hid
    (Nat.lt_of_le_of_lt hcov (hf.small _ _)) (source_ok hpos hcov)
  have hpost : Pay.post (N.env i) (st.sys i) [st.data i] (.toPrivate a) = (.ok txs, s1.signed (N.env i) g') := by
    rw [World.post_synced e1]
    simp only [Pay.sign, Pay.check]
    rw [show Sign.sign (N.env i).sign s1.signing (.toPrivate a) = (.ok txs, g') from q1]
    rfl
  obtain ⟨tx, k, rfl, _⟩ := Sign.mint_outputs _ _ _ _ _ q1
  refine ⟨[tx], _, hpost, by simp, fun hc => ?_⟩
  have hpur : N.purse st i = s1.signer.assets := by unfold Net.purse; rw [e1]
  rw [hpur] at hc
  obtain ⟨s', r1, r2, _⟩ := q2 hc
  have r1 : push N.ledger st.ledger (N.member i).account ((N.wire i).posts [tx]) = (.accepted, s') := r1
  refine ⟨?_, ?_⟩
  · simp only [Net.step, Net.settle]
    rw [hpost]
    simp only [Pay.Out.handed]
    rw [r1]
  · simp only [Net.step]
    rw [hpost]
    simp only [Pay.Out.handed]
    rw [all_applied r1 r2]
    rfl

/-- C132. What a wallet has can be withdrawn to an account that exists, if one post is enough (for more posts see C114). -/
theorem c132_withdraws (h : Sane N V) {accounts : List (Nat × List (Nat × Nat))} (hb : ∀ b id, balance accounts b id < 2 ^ 128)
    {es : List (Event ι P.Grp Nat)} (hr : Reach N V (St.start accounts) es st) (i : ι) (hroom : Room N st i)
    (a : Asset) (hid : a.id ≠ 0 ∧ a.id < N.modulus)
    (hcov : a.value ≤ ((Book.opening (balance accounts)).after N.world.addr N.world.acct es).priv i a.id)
    (hacct : (Asset.mget st.ledger.accounts (N.member i).account).isSome = true)
    (hfit : balance st.ledger.accounts (N.member i).account a.id + a.value < 2 ^ 128) :
    ∃ txs s', Pay.post (N.env i) (st.sys i) [st.data i] (.toPublic a (N.member i).account) = (.ok txs, s') ∧
      (txs.length = 1 → Settle.NoClash (N.wire i) st.ledger (N.purse st i) txs →
        push N.ledger st.ledger (N.member i).account ((N.wire i).posts txs) =
          (.accepted, (N.step st (.post i (.toPublic a (N.member i).account))).2.ledger) ∧
        (N.step st (.post i (.toPublic a (N.member i).account))).1 = .withdraw i a (N.member i).account a.value) := by
  obtain ⟨hrun, hf⟩ := reach_run h hb hr
  have hW := sound h
  obtain ⟨hi, hh, hbook, _⟩ := World.run_inv hW hrun
  rw [← hbook] at hcov
  have hcov : a.value ≤ left N.world st.abs i a.id := hcov
  obtain ⟨s1, e1, e2, e3, e4, e5, e6, e7, e8, e9, e10, e11⟩ := at_signing h hi hh hf hroom
  obtain ⟨txs, g', q1, q2⟩ := Settle.c114_to_public_single (fine h i) s1.signing e3 st.ledger (N.member i).account e4 e5
    hf.small a hid (e7 _) (Nat.le_trans hcov (Nat.le_of_eq (e8 _).symm)) hacct hfit
  have hpost : Pay.post (N.env i) (st.sys i) [st.data i] (.toPublic a (N.member i).account) = (.ok txs, s1.signed (N.env i) g') := by
    rw [World.post_synced e1]
    simp only [Pay.sign, Pay.check, (e9 a).mpr hcov, if_true]
    rw [show Sign.sign (N.env i).sign s1.signing (.toPublic a (N.member i).account) = (.ok txs, g') from q1]
    rfl
  obtain ⟨t1, t2, posts, p1, _, p3, _, p5⟩ := World.post_withdraws hW hi hh (current h hi hf i) (hroom.world h hi hf) a hid (N.member i).account hcov
  have p1' : Pay.post (N.env i) (st.sys i) [st.data i] (.toPublic a (N.member i).account) = (.ok posts, t2) := p1
  rw [hpost] at p1'
  obtain ⟨rfl, _⟩ : txs = posts ∧ _ := by
    simp only [Prod.mk.injEq, Pay.Out.ok.injEq] at p1'
    exact p1'
  refine ⟨txs, _, hpost, fun hl hc => ?_⟩
  have hpur : N.purse st i = s1.signer.assets := by unfold Net.purse; rw [e1]
  rw [hpur] at hc
  obtain ⟨s', r1, _⟩ := q2 (by omega) hc
  have r1 : push N.ledger st.ledger (N.member i).account ((N.wire i).posts txs) = (.accepted, s') := r1
  have r2 : ((N.wire i).posts txs).length = txs.length := by
    have hpr := Sign.public_outputs _ _ _ _ _ _ q1
    match txs, hl with
    | [tx], _ =>
      obtain ⟨p, e⟩ := Settle.proved_post (hpr tx (by simp)).1
      rw [Settle.posts_cons _ _ p e]
      rfl
  refine ⟨?_, ?_⟩
  · simp only [Net.step, Net.settle]
    rw [hpost]
    simp only [Pay.Out.handed]
    rw [r1]
  · simp only [Net.step]
    rw [hpost]
    simp only [Pay.Out.handed]
    rw [all_applied r1 r2]
    simp only [observed]
    rw [sinks_total txs (fun tx ht => (p3 tx ht).2.2.2), if_pos rfl, p5]

/-! ## The simulation -/

theorem setup_go (value : Nat) : ∀ (l : List (Nat × Nat)) (s : State P.ty), ∃ s',
    l.foldlM (fun s x => Ledger.setBalance s x.1 (x.2 + 1) value) s = some s' ∧
      s'.nullifiers = s.nullifiers ∧ s'.utxos = s.utxos ∧ s'.shards = s.shards ∧ s'.forest = s.forest ∧
      ∀ a id, balance s'.accounts a id = if (∃ x ∈ l, x.1 = a ∧ x.2 + 1 = id) then value else balance s.accounts a id := by
  intro l
  induction l with
  | nil => intro s; exact ⟨s, rfl, rfl, rfl, rfl, rfl, by simp⟩
  | cons x l ih =>
    intro s
    obtain ⟨s', h1, h2, h3, h4, h5, h6⟩ := ih
      {s with accounts := Ledger.mput s.accounts x.1 (Ledger.mput ((Asset.mget s.accounts x.1).getD []) (x.2 + 1) value)}
    refine ⟨s', ?_, h2, h3, h4, h5, fun a id => ?_⟩
    · rw [List.foldlM_cons]
      unfold Ledger.setBalance
      rw [if_neg (by omega)]
      exact h1
    · rw [h6]
      have hb : balance (Ledger.mput s.accounts x.1 (Ledger.mput ((Asset.mget s.accounts x.1).getD []) (x.2 + 1) value)) a id =
          if x.1 = a ∧ x.2 + 1 = id then value else balance s.accounts a id := by
        refine Ledger.balance_setBalance s (State.mk s.nullifiers s.utxos s.shards s.forest (Ledger.mput s.accounts x.1
          (Ledger.mput ((Asset.mget s.accounts x.1).getD []) (x.2 + 1) value))) x.1 (x.2 + 1) value a id ?_
        unfold Ledger.setBalance
        rw [if_neg (by omega)]
      simp only [hb, List.mem_cons, exists_eq_or_imp]
      by_cases e1 : ∃ y ∈ l, y.1 = a ∧ y.2 + 1 = id
      · simp [e1]
      · by_cases e2 : x.1 = a ∧ x.2 + 1 = id
        · simp [e2]
        · simp [e1, e2]

/-- C132. The simulation is set up without failure: each of the actors has the starting balance of each asset. -/
theorem c132_setup (actors ids value : Nat) : ∃ accounts, setup (P := P) actors ids value =
      some { Ledger.State.new with accounts := accounts } ∧
    ∀ a id, balance accounts a id = if a < actors ∧ 1 ≤ id ∧ id ≤ ids then value else 0 := by
  obtain ⟨s', h1, h2, h3, h4, h5, h6⟩ := setup_go (P := P) value
    ((List.range actors).flatMap fun i => (List.range ids).map fun id => (i, id)) Ledger.State.new
  refine ⟨s'.accounts, ?_, fun a id => ?_⟩
  · unfold setup
    rw [h1]
    cases s'
    simp only at h2 h3 h4 h5
    subst h2 h3 h4 h5
    rfl
  · rw [h6]
    have : (∃ x ∈ (List.range actors).flatMap fun i => (List.range ids).map fun id => (i, id), x.1 = a ∧ x.2 + 1 = id) ↔
        a < actors ∧ 1 ≤ id ∧ id ≤ ids := by
      simp only [List.mem_flatMap, List.mem_range, List.mem_map]
      constructor
      · rintro ⟨x, ⟨i, hi, j, hj, rfl⟩, rfl, rfl⟩
        exact ⟨hi, by simp, hj⟩
      · rintro ⟨h1, h2, h3⟩
        exact ⟨(a, id - 1), ⟨a, h1, id - 1, by omega, rfl⟩, rfl, by simp only; omega⟩
    by_cases e : a < actors ∧ 1 ≤ id ∧ id ≤ ids
    · rw [if_pos e, if_pos (this.mpr e)]
    · rw [if_neg e, if_neg (fun h => e (this.mp h))]
      rfl

/-- C132. The assertion at the end of a simulation holds, after every history of its actors: what they report when they
synchronize, with what they have in public, is what they were given. -/
theorem c132_simulation {actors : Nat} {N : Net P G (Fin actors)} (h : Sane N V) (hacct : ∀ i, (N.member i).account = i.val)
    (ids value : Nat) (hv : value < 2 ^ 128) {accounts : List (Nat × List (Nat × Nat))}
    (hs : setup (P := P) actors ids value = some { Ledger.State.new with accounts := accounts })
    {es : List (Event (Fin actors) P.Grp Nat)} {st : St P G (Fin actors)} (hr : Reach N V (St.start accounts) es st)
    (hw : ∀ e ∈ es, World.Within N.world.addr N.world.acct (List.finRange actors) e) (id : Nat) (hid : 1 ≤ id) (hle : id ≤ ids) :
    ((List.finRange actors).map fun i => Asset.AList.value N.bs
        (Pay.syncAll (N.env i) (st.sys i) [serve st.ledger (st.sys i).wallet.checkpoint]).2.wallet.assets id +
      balance st.ledger.accounts (N.member i).account id).sum = actors * value := by
  obtain ⟨accounts', e1, e2⟩ := c132_setup (P := P) actors ids value
  rw [hs] at e1
  have e3 : accounts = accounts' := by
    have := congrArg (fun s : Option (State P.ty) => s.map Ledger.State.accounts) e1
    simpa using this
  subst e3
  have hb : ∀ b id, balance accounts b id < 2 ^ 128 := by
    intro b id
    rw [e2]
    split
    · exact hv
    · exact Nat.two_pow_pos 128
  obtain ⟨hrun, hf⟩ := reach_run h hb hr
  obtain ⟨hi, _⟩ := World.run_inv (sound h) hrun
  refine (World.c131_measure (sound h) hrun (fun i j e => Fin.ext ?_) (List.finRange actors) (List.nodup_finRange _) hw
    (fun i => [st.data i]) (fun i _ => current h hi hf i) id).trans ?_
  · have e : (N.member i).account = (N.member j).account := e
    rwa [hacct, hacct] at e
  · have : ∀ i ∈ List.finRange actors, balance accounts (N.world.acct i) id = value := by
      intro i _
      show balance accounts (N.member i).account id = value
      rw [e2, hacct, if_pos ⟨i.isLt, hid, hle⟩]
    rw [List.map_congr_left this, List.map_const', List.length_finRange]
    generalize actors = n
    induction n with
    | zero => simp
    | succ n ih => rw [List.replicate_succ, List.sum_cons, ih, Nat.succ_mul, Nat.add_comm]

end Verif.Net
