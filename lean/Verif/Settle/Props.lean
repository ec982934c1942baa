import Verif.Settle.Core

/-!
# C112, C114: the ledger accepts what the wallet signs

A wallet that is up to date with the ledger hands the posts of one request to the ledger together.
-/

set_option linter.unusedSectionVars false

namespace Verif.Settle

open Verif.Asset (Asset AMap mget)
open Verif.Asset.AMap (Stored MWF stock assetVectorWithId)
open Verif.Transfer
open Verif.Ledger (Ix State push submit balance sourceOk matching_iff c35_applied_iff)
open Verif.Sign (Good GoodSeq Prover Ready Laws spent made Prov FreshFrom draws Owner insertAll outputs IsJoin)

variable {P : Prim} {A : Type}

open Wire

variable {W : Wire P A}

theorem view_insertAll (F : W.Fine) (ls : List P.Item) : ∀ acc,
    W.view (insertAll W.sign acc ls) = grow W.ledger (W.view acc) ls := by
  induction ls with
  | nil => intro acc; rfl
  | cons l ls ih =>
    intro acc
    have h1 : insertAll W.sign acc (l :: ls) = insertAll W.sign (W.insert acc l).2 ls := rfl
    rw [h1, ih, F.grows, grow_cons]

theorem goodSeq_at {aid : Nat} {acc : A} {pre suf : List (TxOf P A)} {tx : TxOf P A}
    (h : GoodSeq W.sign aid acc (pre ++ tx :: suf)) :
    Good W.sign aid (insertAll W.sign acc (pre.flatMap (outputs W.sign))) tx := by
  rw [Verif.Sign.goodSeq_append] at h
  exact h.2.1

theorem own_leaves (tx : TxOf P A) (h : ∀ r ∈ tx.receivers, r.owner = .self) : outputs W.sign tx = W.leaves tx := by
  unfold outputs leaves
  refine List.map_congr_left fun r hr => ?_
  obtain ⟨k, a, o⟩ := r
  have := h _ hr
  simp only at this
  subst this
  rfl

theorem flatMap_congr' {α β : Type} (f g : α → List β) : ∀ l : List α, (∀ a ∈ l, f a = g a) → l.flatMap f = l.flatMap g := by
  intro l h
  induction l with
  | nil => rfl
  | cons a l ih => rw [List.flatMap_cons, List.flatMap_cons, h a (by simp), ih fun b hb => h b (by simp [hb])]

/-- Outputs of a request are pairwise different. -/
theorem made_nodup {g : Sign.Signer (Ident P) A} (hg : Ready W.sign g) {n' : Nat} {outs : List Nat}
    {txs : List (TxOf P A)} (hp : Prov W.sign g.assets g.next n' outs txs) (hn : n' ≤ g.next + draws g.assets) :
    (made txs).Nodup := by
  refine Verif.Sign.nodup_of_map Sign.Receiver.key _ ?_
  rw [hp.keys]
  refine Verif.Sign.nodup_map_inj _ _ hp.once ?_
  intro i hi j hj e
  have h1 := hp.range i hi
  have h2 := hp.range j hj
  exact hg.fresh.1 i j h1.1 (by omega) h2.1 (by omega) e

/-- A proper private batch settles. -/
theorem private_settles (F : W.Fine) {g : Sign.Signer (Ident P) A} (hg : Ready W.sign g) (s : State P.ty) (account : Nat)
    (hview : W.view g.acc = s.forest) (hun : ∀ k a, Stored g.assets k a → ∀ n ∈ s.nullifiers, n.cm ≠ W.nullifier k a)
    (hbd : ∀ a id, balance s.accounts a id < 2 ^ 128) (a : Asset) (hid : a.id ≠ 0 ∧ a.id < W.modulus) (b : Owner P.Grp) (change : Nat)
    (cs : List (Sign.Coin (Ident P))) (txs : List (TxOf P A))
    (hb : Sign.PrivateBatch W.sign g.acc a b change cs txs) {n' : Nat} {outs : List Nat}
    (hp : Prov W.sign g.assets g.next n' outs txs) (hn : n' ≤ g.next + draws g.assets) (hc : NoClash W s g.assets txs) :
    ∃ s', push W.ledger s account (W.posts txs) = (.accepted, s') ∧ (W.posts txs).length = txs.length ∧
      s'.forest = grow W.ledger s.forest (txs.flatMap W.leaves) ∧
      (∀ u ∈ s'.utxos, u ∈ s.utxos ∨ ∃ r ∈ made txs, W.utxo r = u) ∧
      (∀ n ∈ s'.nullifiers, n ∈ s.nullifiers ∨ ∃ c ∈ spent txs, W.nullifier c.1 c.2 = n.cm) ∧
      ∀ x id, balance s'.accounts x id = balance s.accounts x id := by
  obtain ⟨front, l, rfl, hj, l1, l2, l3, l4, k, k', l5⟩ := hb.last
  have hshape : ∀ tx ∈ front ++ [l], Sign.Shape tx ∧ tx.sources = [] ∧ tx.sinks = [] ∧ tx.accounts = [] := by
    intro tx htx
    rcases List.mem_append.mp htx with h | h
    · obtain ⟨j1, j2, j3, j4, j5, _⟩ := hj tx h
      exact ⟨by simp [Sign.Shape, j1, j2, j3, j4], j1, j4, j5⟩
    · rw [List.mem_singleton] at h
      subst h
      exact ⟨by simp [Sign.Shape, l1, l2, l4, l5], l1, l2, l3⟩
  have hpaid : paid (front ++ [l]) = 0 := by
    unfold paid
    refine Verif.Sign.sum_map_append_zero _ _ fun tx htx => ?_
    rw [(hshape tx htx).2.2.1]; rfl
  obtain ⟨s', e1, e2, e3, e4, e5, e6⟩ := settle F (front ++ [l]) s account a.id hid g.assets
    (by
      intro tx htx
      obtain ⟨pre, suf, e⟩ := List.append_of_mem htx
      refine ⟨⟨_, goodSeq_at (e ▸ hb.seq)⟩, (hshape tx htx).1, ?_, .inr (hshape tx htx).2.2.2⟩
      have h1 := hb.small tx htx
      have h2 : W.sign.max = 2 ^ 128 - 1 := rfl
      rw [(hshape tx htx).2.1]
      simp only [List.map_nil, List.sum_nil]
      omega)
    (fun tx htx => (hshape tx htx).2.1) hb.once (made_nodup hg hp hn)
    (by
      intro pre tx suf e sd hsd acc hacc
      have h1 := goodSeq_at (e ▸ hb.seq)
      rcases h1.proofs sd hsd with ⟨h2, _⟩ | ⟨h2, _⟩
      · rw [hacc] at h2
        cases h2
        rw [view_insertAll F, hview]
        have hpre : ∀ t ∈ pre, t ∈ front := by
          intro t ht
          have hlen : pre.length ≤ front.length := by
            have := congrArg List.length e
            simp only [List.length_append, List.length_cons, List.length_nil] at this
            omega
          have h3 : pre = front.take pre.length := by
            have := congrArg (List.take pre.length) e
            rw [List.take_append_of_le_length hlen, List.take_left] at this
            exact this.symm
          rw [h3] at ht
          exact List.mem_of_mem_take ht
        rw [flatMap_congr' (outputs W.sign) W.leaves pre fun t ht => own_leaves t (hj t (hpre t ht)).2.2.2.2.2]
      · rw [hacc] at h2
        cases h2)
    hun hc
    (by
      rintro ⟨tx, htx, h⟩
      exact absurd (hshape tx htx).2.2.1 h)
    (by rw [hpaid]; exact hbd _ _) hbd
  refine ⟨s', e1, e2, e3, e4, e5, ?_⟩
  intro x id
  rw [e6, hpaid]
  simp

/-- C112: a private transfer that the balance covers is signed, and the ledger accepts all its posts: the coins made
are added, in order, no public balance changes. -/
theorem c112_private_transfer (F : W.Fine) {free : A → Nat} (hL : Laws W.sign free) (g : Sign.Signer (Ident P) A)
    (hg : Ready W.sign g) (s : State P.ty) (account : Nat) (hview : W.view g.acc = s.forest)
    (hun : ∀ k a, Stored g.assets k a → ∀ n ∈ s.nullifiers, n.cm ≠ W.nullifier k a)
    (hbd : ∀ a id, balance s.accounts a id < 2 ^ 128) (a : Asset) (hid : a.id ≠ 0 ∧ a.id < W.modulus) (b : Owner P.Grp)
    (hmax : stock g.assets a.id < 2 ^ 128) (hroom : 2 * (assetVectorWithId g.assets a.id).length ≤ free g.acc)
    (hcov : a.value ≤ stock g.assets a.id) :
    ∃ txs g', Sign.sign W.sign g (.privateTransfer a b) = (.ok txs, g') ∧
      (NoClash W s g.assets txs → ∃ s', push W.ledger s account (W.posts txs) = (.accepted, s') ∧
        (W.posts txs).length = txs.length ∧ s'.forest = grow W.ledger s.forest (txs.flatMap W.leaves) ∧
        (∀ u ∈ s'.utxos, u ∈ s.utxos ∨ ∃ r ∈ made txs, W.utxo r = u) ∧
        (∀ n ∈ s'.nullifiers, n ∈ s.nullifiers ∨ ∃ c ∈ spent txs, W.nullifier c.1 c.2 = n.cm) ∧
        ∀ x id, balance s'.accounts x id = balance s.accounts x id) := by
  have h2 : W.sign.max = 2 ^ 128 - 1 := rfl
  obtain ⟨cs, change, txs, g', q1, q2, q3, q4, q5, q6, q7, q8⟩ :=
    Verif.Sign.c27_private_transfer hL (prover F) g hg a hid b (by omega) hroom hcov
  obtain ⟨outs, hp⟩ := Verif.Sign.sign_flow W.sign _ _ hg.coins _ _ q1
  exact ⟨txs, g', q1, fun hc => private_settles F hg s account hview hun hbd a hid b change cs txs q5 hp q8 hc⟩

/-- C112 for consolidations. -/
theorem c112_consolidation [DecidableEq P.Rand] (F : W.Fine) {free : A → Nat} (hL : Laws W.sign free)
    (g : Sign.Signer (Ident P) A)
    (hg : Ready W.sign g) (s : State P.ty) (account : Nat) (hview : W.view g.acc = s.forest)
    (hun : ∀ k a, Stored g.assets k a → ∀ n ∈ s.nullifiers, n.cm ≠ W.nullifier k a)
    (hbd : ∀ a id, balance s.accounts a id < 2 ^ 128) (req : List (Ident P × Asset))
    (hreq : Sign.consolidationOk req = true) (hst : ∀ c ∈ req, Stored g.assets c.1 c.2)
    (hmax : (req.map fun c => c.2.value).sum < 2 ^ 128) (hroom : 2 * req.length ≤ free g.acc)
    (hid0 : ∀ c ∈ req, c.2.id ≠ 0 ∧ c.2.id < W.modulus) :
    ∃ txs g', Sign.consolidate W.sign g req = (.ok txs, g') ∧
      (NoClash W s g.assets txs → ∃ s', push W.ledger s account (W.posts txs) = (.accepted, s') ∧
        (W.posts txs).length = txs.length ∧ s'.forest = grow W.ledger s.forest (txs.flatMap W.leaves) ∧
        (∀ u ∈ s'.utxos, u ∈ s.utxos ∨ ∃ r ∈ made txs, W.utxo r = u) ∧
        (∀ n ∈ s'.nullifiers, n ∈ s.nullifiers ∨ ∃ c ∈ spent txs, W.nullifier c.1 c.2 = n.cm) ∧
        ∀ x id, balance s'.accounts x id = balance s.accounts x id) := by
  have h2 : W.sign.max = 2 ^ 128 - 1 := rfl
  obtain ⟨txs, g', id, q1, q2, q5, q6, q7, q8⟩ := Verif.Sign.c58_consolidate hL (prover F) g hg req hreq hst
    (by omega) hroom hid0
  obtain ⟨outs, hp⟩ := Verif.Sign.consolidate_flow W.sign _ _ _ _ q1
  have hid : id ≠ 0 ∧ id < W.modulus := by
    match req, hreq with
    | c :: _, _ => rw [← q2 c (by simp)]; exact hid0 c (by simp)
  exact ⟨txs, g', q1, fun hc =>
    private_settles F hg s account hview hun hbd ⟨id, _⟩ hid .self 0 _ txs q5 hp q8 hc⟩

/-- C112 for minting: accepted if the account can pay for it, which it does. -/
theorem c112_mint (F : W.Fine) (g : Sign.Signer (Ident P) A) (hk : g.authorization = true) (s : State P.ty) (account : Nat)
    (hbd : ∀ a id, balance s.accounts a id < 2 ^ 128) (a : Asset) (hid : a.id ≠ 0 ∧ a.id < W.modulus) (hmax : a.value < 2 ^ 128)
    (hfund : sourceOk s a.id (account, a.value) = true) :
    ∃ txs g', Sign.sign W.sign g (.toPrivate a) = (.ok txs, g') ∧
      (NoClash W s g.assets txs → ∃ s', push W.ledger s account (W.posts txs) = (.accepted, s') ∧
        (W.posts txs).length = 1 ∧ s'.forest = grow W.ledger s.forest (txs.flatMap W.leaves) ∧
        s'.nullifiers = s.nullifiers ∧
        ∀ x id, balance s'.accounts x id + (if x = account ∧ id = a.id then a.value else 0) =
          balance s.accounts x id) := by
  obtain ⟨k, h⟩ := Verif.Sign.c28_to_private (prover F) g a hid
    (show a.value ≤ 2 ^ 128 - 1 by omega) hk
  refine ⟨_, _, h, fun hc => ?_⟩
  have hreg : Regular W a.id (⟨[a], [], [⟨k, a, .self⟩], [], []⟩ : TxOf P A) := by
    refine ⟨⟨g.acc, ⟨by simp, by simp, by simp, by simp⟩, by simp, by simp⟩, by simp [Sign.Shape], ?_, .inr rfl⟩
    simpa using hmax
  obtain ⟨p, e, hs⟩ := post?_some F hid hreg
  have hp : W.posts [(⟨[a], [], [⟨k, a, .self⟩], [], []⟩ : TxOf P A)] = [p] := by rw [posts_cons _ _ p e]; rfl
  have hsend : p.body.senders = [] := by
    have := hs.nullifiers
    simpa using this
  have hut : p.body.receivers.map ReceiverPost.utxo = [W.utxo ⟨k, a, .self⟩] := hs.utxos
  obtain ⟨r, hr⟩ : ∃ r, p.body.receivers = [r] := by
    have := congrArg List.length hut
    rw [List.length_map] at this
    exact List.length_eq_one_iff.mp this
  have haid : p.body.assetId = some a.id := hs.assetId
  have hsink : p.body.sinks = [] := hs.sinks
  have hsrc : p.body.sources = [a.value] := hs.sources
  obtain ⟨s', r1, f⟩ := submit_accepted W.ledger F.lookup s account p
    ⟨hs.signature (hc.response p (by rw [hp]; simp)), hs.proof, by rw [hsend]; exact List.Pairwise.nil, by
      rw [hr]; simp⟩
    ⟨by rw [hsend]; simp, by rw [hsend]; simp, by
      rw [hr]
      intro x hx
      rw [List.mem_singleton] at hx
      subst hx
      rw [hr] at hut
      simp only [List.map_cons, List.map_nil, List.cons.injEq, and_true] at hut
      rw [hut]
      exact hc.newUtxo _ (by simp [made]),
     by
      rw [hsrc, haid]
      intro v hv
      rw [List.mem_singleton] at hv
      subst hv
      exact hfund,
     by rw [hsink]; simp, by
      rw [hsink]
      intro id _
      exact hbd _ _, hbd⟩
  refine ⟨s', ?_, by rw [hp]; rfl, ?_, ?_, ?_⟩
  · rw [hp]
    simp only [push, r1]
  · rw [f.forest, shows_items _ p F hs]
    simp
  · obtain ⟨shape', _, _, e', _⟩ := Verif.Ledger.submit_applied W.ledger s account p _ s' r1 (by simp)
    rw [e', (applyKey_coins' W.ledger s _).2.2, Verif.Ledger.registers_other W.ledger _ _ |>.1]
    show (p.body.senders.foldl (Verif.Ledger.spend W.ledger) s).nullifiers = _
    rw [hsend]
    rfl
  · intro x id
    have := f.balances x id
    rw [hsink, hsrc, haid] at this
    simp only [Option.some.injEq, List.sum_cons, List.sum_nil, Nat.add_zero, ite_self] at this
    rw [← this]
    by_cases hx : x = account ∧ id = a.id
    · rw [if_pos hx, if_pos ⟨hx.1, hx.2.symm⟩]
    · rw [if_neg hx, if_neg fun e => hx ⟨e.1, e.2.symm⟩]

/-- C114 (part): accepted, and the account gets exactly the amount, if no change output of an earlier
post lands in the shard of a coin that a later post spends. -/
theorem c114_to_public_partial (F : W.Fine) (g : Sign.Signer (Ident P) A) (hg : Ready W.sign g) (s : State P.ty)
    (account : Nat) (hview : W.view g.acc = s.forest)
    (hun : ∀ k a, Stored g.assets k a → ∀ n ∈ s.nullifiers, n.cm ≠ W.nullifier k a)
    (hbd : ∀ a id, balance s.accounts a id < 2 ^ 128) (a : Asset) (hid : a.id ≠ 0 ∧ a.id < W.modulus)
    (hmax : stock g.assets a.id < 2 ^ 128) (hcov : a.value ≤ stock g.assets a.id)
    (hacct : (mget s.accounts account).isSome = true) (hfit : balance s.accounts account a.id + a.value < 2 ^ 128) :
    ∃ txs g', Sign.sign W.sign g (.toPublic a account) = (.ok txs, g') ∧
      (NoClash W s g.assets txs →
        (∀ pre tx suf, txs = pre ++ tx :: suf → ∀ r ∈ made pre, ∀ sd ∈ tx.senders, sd.proof.isSome = true →
          W.ledger.treeIndex (W.kit.item (W.utxo r)) ≠ W.ledger.treeIndex (W.leaf sd.key sd.asset)) →
        ∃ s', push W.ledger s account (W.posts txs) = (.accepted, s') ∧ (W.posts txs).length = txs.length ∧
          s'.forest = grow W.ledger s.forest (txs.flatMap W.leaves) ∧
          ∀ x id, balance s'.accounts x id = balance s.accounts x id +
            if x = account ∧ id = a.id then a.value else 0) := by
  have h2 : W.sign.max = 2 ^ 128 - 1 := rfl
  obtain ⟨cs, change, txs, g', q1, q2, q3, q4, q5, q6, q7, q8⟩ :=
    Verif.Sign.c28_to_public (prover F) g hg a hid account (by omega) hcov
  obtain ⟨outs, hp⟩ := Verif.Sign.sign_flow W.sign _ _ hg.coins _ _ q1
  refine ⟨txs, g', q1, fun hc hsh => ?_⟩
  have hpaid : paid txs = a.value := q5.published
  obtain ⟨s', e1, e2, e3, _, _, e6⟩ := settle F txs s account a.id hid g.assets
    (by
      intro tx htx
      obtain ⟨y1, y2, y3, ⟨k, v, y4⟩, w, y5⟩ := q5.shape tx htx
      refine ⟨⟨_, q5.good tx htx⟩, by simp [Sign.Shape, y1, y2, y4, y5], ?_, .inl (by rw [y5]; simp)⟩
      have h1 := q5.small tx htx
      rw [y1]
      simp only [List.map_nil, List.sum_nil]
      omega)
    (fun tx htx => (q5.shape tx htx).1) q5.once (made_nodup hg hp q8)
    (by
      intro pre tx suf e sd hsd acc hacc
      rcases (q5.good tx (by rw [e]; simp)).proofs sd hsd with ⟨h1, _⟩ | ⟨h1, _⟩
      · rw [hacc] at h1
        cases h1
        rw [hview]
        refine (grow_other W.ledger _ _ _ ?_).symm
        intro x hx
        obtain ⟨t, ht, hxt⟩ := List.mem_flatMap.mp hx
        obtain ⟨r, hr, rfl⟩ := List.mem_map.mp hxt
        exact hsh pre tx suf e r (List.mem_flatMap.mpr ⟨t, ht, hr⟩) sd hsd (by rw [hacc]; rfl)
      · rw [hacc] at h1
        cases h1)
    hun hc (fun _ => hacct) (by rw [hpaid]; exact hfit) hbd
  refine ⟨s', e1, e2, e3, ?_⟩
  intro x id
  rw [e6, hpaid]

/-- A withdrawal that spends at most two coins is always accepted. -/
theorem c114_to_public_single (F : W.Fine) (g : Sign.Signer (Ident P) A) (hg : Ready W.sign g) (s : State P.ty)
    (account : Nat) (hview : W.view g.acc = s.forest)
    (hun : ∀ k a, Stored g.assets k a → ∀ n ∈ s.nullifiers, n.cm ≠ W.nullifier k a)
    (hbd : ∀ a id, balance s.accounts a id < 2 ^ 128) (a : Asset) (hid : a.id ≠ 0 ∧ a.id < W.modulus)
    (hmax : stock g.assets a.id < 2 ^ 128) (hcov : a.value ≤ stock g.assets a.id)
    (hacct : (mget s.accounts account).isSome = true) (hfit : balance s.accounts account a.id + a.value < 2 ^ 128) :
    ∃ txs g', Sign.sign W.sign g (.toPublic a account) = (.ok txs, g') ∧
      (txs.length ≤ 1 → NoClash W s g.assets txs →
        ∃ s', push W.ledger s account (W.posts txs) = (.accepted, s') ∧
          ∀ x id, balance s'.accounts x id = balance s.accounts x id +
            if x = account ∧ id = a.id then a.value else 0) := by
  obtain ⟨txs, g', h1, h2⟩ := c114_to_public_partial F g hg s account hview hun hbd a hid hmax hcov hacct hfit
  refine ⟨txs, g', h1, fun hl hc => ?_⟩
  obtain ⟨s', e1, _, _, e2⟩ := h2 hc (by
    intro pre tx suf e r hr
    have : pre = [] := by
      rw [e] at hl
      simp only [List.length_append, List.length_cons] at hl
      exact List.length_eq_zero_iff.mp (by omega)
    subst this
    simp [made] at hr)
  exact ⟨s', e1, e2⟩

theorem posts_append (xs ys : List (TxOf P A)) : W.posts (xs ++ ys) = W.posts xs ++ W.posts ys := by
  unfold posts
  rw [List.filterMap_append]

/-- C114: the reason for the restriction of `c114_to_public_partial`. The ledger knows only its present roots, so a
post proved against an older root is rejected, and so is the rest of the request; the posts before stay applied. -/
theorem c114_stale_rejected (F : W.Fine) (pre suf : List (TxOf P A)) (tx : TxOf P A) (s s1 : State P.ty)
    (account aid : Nat) (hid : aid ≠ 0 ∧ aid < W.modulus) (hreg : Regular W aid tx)
    (h : push W.ledger s account (W.posts pre) = (.accepted, s1)) (sd : Sign.Sender (Ident P) A) (hsd : sd ∈ tx.senders)
    (acc : A) (hacc : sd.proof = some acc)
    (hold : ∀ i, W.ledger.root (W.view acc (W.ledger.treeIndex (W.leaf sd.key sd.asset))) ≠ W.ledger.root (s1.forest i))
    (hdef : W.ledger.root (W.view acc (W.ledger.treeIndex (W.leaf sd.key sd.asset))) ≠ W.ledger.defaultRoot) :
    push W.ledger s account (W.posts (pre ++ tx :: suf)) = (.rejected, s1) := by
  obtain ⟨p, e, hs⟩ := post?_some F hid hreg
  rw [posts_append, posts_cons tx suf p e]
  refine Verif.Ledger.c33_push_prefix W.ledger s s1 account _ _ p h ?_
  by_cases hr : (submit W.ledger s1 account p).1 = .rejected
  · exact hr
  · exfalso
    obtain ⟨shape, _, hv⟩ := (c35_applied_iff W.ledger s1 account p).1 hr
    have h1 : (W.spendPlan sd).root ∈ p.body.senders.map SenderPost.root := by
      rw [hs.roots]
      exact List.mem_map.mpr ⟨sd, hsd, rfl⟩
    obtain ⟨q, hq, er⟩ := List.mem_map.mp h1
    have h2 := (matching_iff W.ledger s1 q.root).1 (hv.roots q hq)
    rw [er] at h2
    simp only [spendPlan, hacc] at h2
    rcases h2 with h2 | ⟨i, h2⟩
    · exact hdef h2
    · exact hold i h2

end Verif.Settle
