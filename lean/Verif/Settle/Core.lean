import Verif.Settle.Lemmas

/-! # The ledger accepts the posts of regular transfers in sequence -/

set_option linter.unusedSectionVars false

namespace Verif.Settle

open Verif.Asset (Asset AMap mget)
open Verif.Asset.AMap (Stored MWF)
open Verif.Transfer
open Verif.Ledger (Ix State push submit balance)
open Verif.Sign (Good GoodSeq Prover spent made Prov FreshFrom draws)

variable {P : Prim} {A : Type}

open Wire

variable {W : Wire P A}

/-- A transfer that becomes a post. -/
structure Regular (W : Wire P A) (aid : Nat) (tx : TxOf P A) : Prop where
  good : ∃ acc, Good W.sign aid acc tx
  shape : Sign.Shape tx
  small : (tx.sources.map Asset.value).sum + (tx.senders.map fun s => s.asset.value).sum < 2 ^ 128
  accounts : tx.sinks ≠ [] ∨ tx.accounts = []

/-- Nothing coincides by accident on the ledger `s` for the transfers `txs` of a signer holding the coins `m`: no
degenerate signature response (which the verifier rejects, C62), no equal nullifiers of different spent coins, no equal
UTXOs of different outputs, no nullifier or UTXO of a new coin that is already there. -/
structure NoClash (W : Wire P A) (s : State P.ty) (m : AMap (Ident P)) (txs : List (TxOf P A)) : Prop where
  response : ∀ p ∈ W.posts txs, ∀ sg, p.sig = some sg → P.smul P.gen sg.sig.1 ≠ sg.sig.2
  nullifier : ∀ c ∈ spent txs, ∀ d ∈ spent txs, W.nullifier c.1 c.2 = W.nullifier d.1 d.2 → c = d
  utxo : ∀ r ∈ made txs, ∀ q ∈ made txs, W.utxo r = W.utxo q → r = q
  newNullifier : ∀ c ∈ spent txs, ¬ Stored m c.1 c.2 → ∀ n ∈ s.nullifiers, n.cm ≠ W.nullifier c.1 c.2
  newUtxo : ∀ r ∈ made txs, W.utxo r ∉ s.utxos

/-- Public amounts of transfers. -/
def paid (txs : List (TxOf P A)) : Nat := (txs.map fun tx => (tx.sinks.map Asset.value).sum).sum

theorem post?_some (F : W.Fine) {aid : Nat} (hid : aid ≠ 0 ∧ aid < W.modulus) {tx : TxOf P A} (h : Regular W aid tx) :
    ∃ p, W.post? tx = some p ∧ Shows W tx p := by
  obtain ⟨acc, hg⟩ := h.good
  obtain ⟨p, e, hs⟩ := publish_made F tx aid hid acc h.small hg h.shape
  refine ⟨p, ?_, hs h.accounts⟩
  unfold post?
  rw [e]

theorem posts_cons (tx : TxOf P A) (txs : List (TxOf P A)) (p : Post P.ty) (h : W.post? tx = some p) :
    W.posts (tx :: txs) = p :: W.posts txs := by
  unfold posts
  rw [List.filterMap_cons_some h]

theorem shows_items (tx : TxOf P A) (p : Post P.ty) (F : W.Fine) (h : Shows W tx p) :
    items W.ledger p = W.leaves tx := by
  obtain ⟨n, hk⟩ := F.same
  unfold items leaves
  have e : p.body.receivers.map (fun r => W.ledger.crypto.item r.utxo) =
      (p.body.receivers.map ReceiverPost.utxo).map W.kit.item := by
    rw [List.map_map, hk]; rfl
  rw [e, h.utxos, List.map_map]
  rfl

theorem posts_facts (F : W.Fine) {aid : Nat} (hid : aid ≠ 0 ∧ aid < W.modulus) (txs : List (TxOf P A)) :
    (∀ tx ∈ txs, Regular W aid tx) → (W.posts txs).length = txs.length ∧
      (W.posts txs).flatMap (items W.ledger) = txs.flatMap W.leaves ∧
      ∀ id, (∀ tx ∈ txs, tx.sources = []) → paidOut (W.posts txs) id = if id = aid then paid txs else 0 := by
  induction txs with
  | nil => intro _; exact ⟨rfl, rfl, fun id _ => by simp [posts, paidOut, paid]⟩
  | cons tx txs ih =>
    intro h
    obtain ⟨i1, i2, i3⟩ := ih fun t ht => h t (by simp [ht])
    have hr := h tx (by simp)
    obtain ⟨p, e, hs⟩ := post?_some F hid hr
    rw [posts_cons tx txs p e]
    refine ⟨by simp [i1], ?_, ?_⟩
    · rw [List.flatMap_cons, List.flatMap_cons, i2, shows_items tx p F hs]
    · intro id hsrc
      have h3 := i3 id fun t ht => hsrc t (by simp [ht])
      have e1 : paidOut (p :: W.posts txs) id =
          (if p.body.assetId = some id then p.body.sinks.sum else 0) + paidOut (W.posts txs) id := by
        simp [paidOut]
      have e2 : paid (tx :: txs) = (tx.sinks.map Asset.value).sum + paid txs := by simp [paid]
      rw [e1, h3, e2, hs.assetId, hs.sinks]
      unfold assetId
      rw [hsrc tx (by simp), List.nil_append]
      obtain ⟨acc, hg⟩ := hr.good
      cases hk : tx.sinks with
      | nil => simp
      | cons a as =>
        have := hg.ids.2.2.2 a (by rw [hk]; simp)
        simp only [List.head?_cons, Option.map_some, Option.some.injEq, this]
        by_cases hc : aid = id
        · rw [if_pos hc, if_pos hc.symm, if_pos hc.symm]
        · rw [if_neg hc, if_neg fun e => hc e.symm, if_neg fun e => hc e.symm]

/-- Distinct members of a nodup flatMap across the parts of a pairwise statement. -/
theorem pairwise_of_nodup_flatMap {α β : Type} (f : α → List β) (l : List α) (h : (l.flatMap f).Nodup) :
    l.Pairwise fun a b => ∀ x ∈ f a, ∀ y ∈ f b, x ≠ y := by
  induction l with
  | nil => exact List.Pairwise.nil
  | cons a l ih =>
    rw [List.flatMap_cons, List.nodup_append] at h
    rw [List.pairwise_cons]
    refine ⟨?_, ih h.2.1⟩
    intro b hb x hx y hy
    exact h.2.2 x hx y (List.mem_flatMap.mpr ⟨b, hb, hy⟩)

theorem nodup_of_mem_flatMap {α β : Type} (f : α → List β) (l : List α) (h : (l.flatMap f).Nodup) :
    ∀ a ∈ l, (f a).Nodup := by
  induction l with
  | nil => simp
  | cons a l ih =>
    rw [List.flatMap_cons, List.nodup_append] at h
    intro b hb
    rcases List.mem_cons.mp hb with rfl | hb
    · exact h.1
    · exact ih h.2.1 b hb

theorem pairwise_of_map {α β γ : Type} (f : α → γ) (g : β → γ) (xs : List α) (ys : List β) (h : xs.map f = ys.map g)
    (hp : ys.Pairwise fun a b => g a ≠ g b) : xs.Pairwise fun a b => f a ≠ f b := by
  have h1 : (ys.map g).Nodup := List.pairwise_map.mpr hp
  rw [← h] at h1
  exact List.pairwise_map.mp h1

/-- Regular transfers without public inputs: their posts are accepted in sequence when every membership proof is for
the shard as the ledger has it at that moment, and nothing clashes. -/
theorem settle (F : W.Fine) (txs : List (TxOf P A)) (s : State P.ty) (account aid : Nat) (hid : aid ≠ 0 ∧ aid < W.modulus)
    (m : AMap (Ident P)) (hreg : ∀ tx ∈ txs, Regular W aid tx) (hsrc : ∀ tx ∈ txs, tx.sources = [])
    (hone : (spent txs).Nodup) (hmade : (made txs).Nodup)
    (hroot : ∀ pre tx suf, txs = pre ++ tx :: suf → ∀ sd ∈ tx.senders, ∀ acc, sd.proof = some acc →
      W.view acc (W.ledger.treeIndex (W.leaf sd.key sd.asset)) =
        grow W.ledger s.forest (pre.flatMap W.leaves) (W.ledger.treeIndex (W.leaf sd.key sd.asset)))
    (hun : ∀ k a, Stored m k a → ∀ n ∈ s.nullifiers, n.cm ≠ W.nullifier k a) (hc : NoClash W s m txs)
    (hacct : (∃ tx ∈ txs, tx.sinks ≠ []) → (mget s.accounts account).isSome = true)
    (hfit : balance s.accounts account aid + paid txs < 2 ^ 128) (hbd : ∀ a id, balance s.accounts a id < 2 ^ 128) :
    ∃ s', push W.ledger s account (W.posts txs) = (.accepted, s') ∧ (W.posts txs).length = txs.length ∧
      s'.forest = grow W.ledger s.forest (txs.flatMap W.leaves) ∧
      (∀ u ∈ s'.utxos, u ∈ s.utxos ∨ ∃ r ∈ made txs, W.utxo r = u) ∧
      (∀ n ∈ s'.nullifiers, n ∈ s.nullifiers ∨ ∃ c ∈ spent txs, W.nullifier c.1 c.2 = n.cm) ∧
      ∀ b id, balance s'.accounts b id = balance s.accounts b id + if b = account ∧ id = aid then paid txs else 0 := by
  obtain ⟨q1, q2, q3⟩ := posts_facts F hid txs hreg
  have hmem : ∀ p ∈ W.posts txs, ∃ tx ∈ txs, W.post? tx = some p ∧ Shows W tx p := by
    intro p hp
    obtain ⟨tx, htx, e⟩ := List.mem_filterMap.mp hp
    obtain ⟨p', e', hs⟩ := post?_some F hid (hreg tx htx)
    rw [e] at e'
    cases e'
    exact ⟨tx, htx, e, hs⟩
  have hnul : ∀ tx ∈ txs, ∀ p, Shows W tx p → ∀ q ∈ p.body.senders, ∃ sd ∈ tx.senders,
      W.nullifier sd.key sd.asset = q.nul.cm ∧ (sd.key, sd.asset) ∈ spent txs := by
    intro tx htx p hs q hq
    have h1 : q.nul.cm ∈ p.body.senders.map (fun q => q.nul.cm) := List.mem_map.mpr ⟨q, hq, rfl⟩
    rw [hs.nullifiers] at h1
    obtain ⟨sd, hsd, e⟩ := List.mem_map.mp h1
    exact ⟨sd, hsd, e, List.mem_flatMap.mpr ⟨tx, htx, List.mem_map.mpr ⟨sd, hsd, rfl⟩⟩⟩
  have hutx : ∀ tx ∈ txs, ∀ p, Shows W tx p → ∀ q ∈ p.body.receivers, ∃ r ∈ tx.receivers,
      W.utxo r = q.utxo ∧ r ∈ made txs := by
    intro tx htx p hs q hq
    have h1 : q.utxo ∈ p.body.receivers.map ReceiverPost.utxo := List.mem_map.mpr ⟨q, hq, rfl⟩
    rw [hs.utxos] at h1
    obtain ⟨sd, hsd, e⟩ := List.mem_map.mp h1
    exact ⟨sd, hsd, e, List.mem_flatMap.mpr ⟨tx, htx, hsd⟩⟩
  have shows_of : ∀ tx ∈ txs, ∀ p, W.post? tx = some p → Shows W tx p := by
    intro tx htx p e
    obtain ⟨p', e', hs⟩ := post?_some F hid (hreg tx htx)
    rw [e] at e'
    cases e'
    exact hs
  obtain ⟨s', r1, r2, r3, r4, r5⟩ := push_accepted W.ledger F.lookup account (W.posts txs) s
    (by
      intro p hp
      obtain ⟨tx, htx, e, hs⟩ := hmem p hp
      refine ⟨⟨hs.signature (hc.response p hp), hs.proof, ?_, ?_⟩, by rw [hs.sources, hsrc tx htx]; rfl⟩
      · refine pairwise_of_map (fun q : SenderPost P.ty => q.nul.cm) (fun sd : Sign.Sender (Ident P) A => W.nullifier sd.key sd.asset)
          _ _
          hs.nullifiers ?_
        have hnd := nodup_of_mem_flatMap _ _ hone tx htx
        refine (List.pairwise_map.mp hnd).imp_of_mem ?_
        intro a b ha hb hne e
        exact hne (hc.nullifier _ (List.mem_flatMap.mpr ⟨tx, htx, List.mem_map.mpr ⟨a, ha, rfl⟩⟩) _
          (List.mem_flatMap.mpr ⟨tx, htx, List.mem_map.mpr ⟨b, hb, rfl⟩⟩) e)
      · refine pairwise_of_map ReceiverPost.utxo W.utxo _ _ hs.utxos ?_
        refine List.Pairwise.imp_of_mem ?_ (nodup_of_mem_flatMap _ _ hmade tx htx)
        intro a b ha hb hne e
        exact hne (hc.utxo _ (List.mem_flatMap.mpr ⟨tx, htx, ha⟩) _ (List.mem_flatMap.mpr ⟨tx, htx, hb⟩) e))
    (by
      intro pre p suf e q hq
      obtain ⟨l1, l2, e1, e2, e3⟩ := List.filterMap_eq_append_iff.mp e
      obtain ⟨l3, tx, l4, e4, e5, e6, e7⟩ := List.filterMap_eq_cons_iff.mp e3
      have hl3 : l3 = [] := by
        cases l3 with
        | nil => rfl
        | cons x l3 =>
          obtain ⟨p', h1, _⟩ := post?_some F hid (hreg x (by rw [e1, e4]; simp))
          rw [e5 x (by simp)] at h1
          cases h1
      subst hl3
      rw [List.nil_append] at e4
      subst e4
      have htx : tx ∈ txs := by rw [e1]; simp
      have hs := shows_of tx htx p e6
      have h1 : q.root ∈ p.body.senders.map SenderPost.root := List.mem_map.mpr ⟨q, hq, rfl⟩
      rw [hs.roots] at h1
      obtain ⟨sd, hsd, er⟩ := List.mem_map.mp h1
      rw [← er]
      unfold spendPlan
      cases hp : sd.proof with
      | none => exact .inl rfl
      | some acc =>
        right
        refine ⟨W.ledger.treeIndex (W.leaf sd.key sd.asset), ?_⟩
        have h2 := (posts_facts F hid l1 fun t ht => hreg t (by rw [e1]; simp [ht])).2.1
        rw [show l1.filterMap W.post? = W.posts l1 from rfl] at e2
        rw [← e2, h2, ← hroot l1 tx l4 e1 sd hsd acc hp])
    (by
      intro p hp q hq n hn
      obtain ⟨tx, htx, _, hs⟩ := hmem p hp
      obtain ⟨sd, hsd, e, hsp⟩ := hnul tx htx p hs q hq
      rw [← e]
      by_cases hst : Stored m sd.key sd.asset
      · exact hun _ _ hst n hn
      · exact hc.newNullifier _ hsp hst n hn)
    (by
      refine List.pairwise_filterMap.mpr ?_
      refine (pairwise_of_nodup_flatMap _ _ hone).imp_of_mem ?_
      intro a b ha hb hne p hp p' hp' q hq q' hq' e
      obtain ⟨sd, hsd, e1, h1⟩ := hnul a ha p (shows_of a ha p hp) q hq
      obtain ⟨sd', hsd', e2, h2⟩ := hnul b hb p' (shows_of b hb p' hp') q' hq'
      exact hne _ (List.mem_map.mpr ⟨sd, hsd, rfl⟩) _ (List.mem_map.mpr ⟨sd', hsd', rfl⟩)
        (hc.nullifier _ h1 _ h2 (by rw [e1, e2, e])))
    (by
      intro p hp r hr
      obtain ⟨tx, htx, _, hs⟩ := hmem p hp
      obtain ⟨x, hx, e, hmd⟩ := hutx tx htx p hs r hr
      rw [← e]
      exact hc.newUtxo x hmd)
    (by
      refine List.pairwise_filterMap.mpr ?_
      refine (pairwise_of_nodup_flatMap _ _ hmade).imp_of_mem ?_
      intro a b ha hb hne p hp p' hp' q hq q' hq' e
      obtain ⟨x, hx, e1, h1⟩ := hutx a ha p (shows_of a ha p hp) q hq
      obtain ⟨y, hy, e2, h2⟩ := hutx b hb p' (shows_of b hb p' hp') q' hq'
      exact hne x hx y hy (hc.utxo x h1 y h2 (by rw [e1, e2, e])))
    (by
      rintro ⟨p, hp, hk⟩
      obtain ⟨tx, htx, _, hs⟩ := hmem p hp
      refine hacct ⟨tx, htx, fun e => hk ?_⟩
      rw [hs.sinks, e]; rfl)
    (by
      intro id
      rw [q3 id hsrc]
      split
      · rename_i e; subst e; exact hfit
      · exact hbd account id)
    hbd
  refine ⟨s', r1, q1, ?_, ?_, ?_, ?_⟩
  · rw [r2, q2]
  · intro u hu
    rcases r3 u hu with h | ⟨p, hp, q, hq, e⟩
    · exact .inl h
    · obtain ⟨tx, htx, _, hs⟩ := hmem p hp
      obtain ⟨x, _, e1, h1⟩ := hutx tx htx p hs q hq
      exact .inr ⟨x, h1, by rw [e1, e]⟩
  · intro n hn
    rcases r4 n hn with h | ⟨p, hp, q, hq, e⟩
    · exact .inl h
    · obtain ⟨tx, htx, _, hs⟩ := hmem p hp
      obtain ⟨sd, _, e1, h1⟩ := hnul tx htx p hs q hq
      exact .inr ⟨_, h1, by rw [e1, e]⟩
  · intro b id
    rw [r5, q3 id hsrc]
    by_cases hb : b = account
    · by_cases hi : id = aid
      · rw [if_pos hb, if_pos hi, if_pos ⟨hb, hi⟩]
      · rw [if_pos hb, if_neg hi, if_neg fun e => hi e.2]
    · rw [if_neg hb, if_neg fun e => hb e.1]

end Verif.Settle
