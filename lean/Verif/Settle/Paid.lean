import Verif.Settle.Props
import Verif.Pay.Fresh
import Verif.Transfer.Identity

/-!
# C129: the coins of a request belong to whom the request says

The transfers of a signing request are published as posts. Whose viewing key opens the coins in them, and to what.
-/

namespace Verif.Sign

open Verif.Asset

variable {K Leaf A Addr Acct : Type} (E : Env K Leaf A Addr Acct)

/-! ## Outputs of requests -/

/-- A step of signing that publishes only proved transfers with own outputs of one asset id. -/
def OwnSteps (aid : Nat) (st st' : St K A Addr Acct) : Prop :=
  ∃ l, st'.posts = st.posts ++ l ∧ ∀ tx ∈ l, E.prove tx = true ∧ ∀ r ∈ tx.receivers, r.owner = .self ∧ r.asset.id = aid

theorem OwnSteps.refl (aid : Nat) (st : St K A Addr Acct) : OwnSteps E aid st st := ⟨[], by simp, by simp⟩

variable {E}

theorem OwnSteps.trans {aid : Nat} {a b c : St K A Addr Acct} (h : OwnSteps E aid a b) (h' : OwnSteps E aid b c) :
    OwnSteps E aid a c := by
  obtain ⟨l, h1, h2⟩ := h
  obtain ⟨l', h1', h2'⟩ := h'
  refine ⟨l ++ l', by rw [h1', h1, List.append_assoc], fun tx htx => ?_⟩
  rcases List.mem_append.1 htx with h | h
  · exact h2 tx h
  · exact h2' tx h

variable (E)

theorem joinRound_own (aid : Nat) (cs : List (Coin K)) (st : St K A Addr Acct) :
    OwnSteps E aid st (joinRound E aid cs st).2 := by
  fun_induction joinRound E aid cs st with
  | case1 => exact .refl E _ _
  | case2 st a b rest sa sb h1 h2 total hm k z tx hp acc1 acc2 js zs st' hr ih =>
    rw [hr] at ih
    refine OwnSteps.trans ⟨[tx], rfl, ?_⟩ ih
    intro t ht
    rw [List.mem_singleton] at ht
    subst ht
    exact ⟨hp, by simp [tx]⟩
  | case3 st a b rest sa sb h1 h2 total hm k z tx hp acc1 acc2 hne ih =>
    refine OwnSteps.trans ⟨[tx], rfl, ?_⟩ ih
    intro t ht
    rw [List.mem_singleton] at ht
    subst ht
    exact ⟨hp, by simp [tx]⟩
  | case4 => exact ⟨[], by simp, by simp⟩
  | case5 => exact .refl E _ _
  | case6 => exact .refl E _ _

theorem batch_own (aid : Nat) (cs zs : List (Coin K)) (st : St K A Addr Acct) : OwnSteps E aid st (batch E aid cs zs st).2 := by
  fun_induction batch E aid cs zs st with
  | case1 cs zs st h js zs' st' hr ih =>
    have := joinRound_own E aid cs st
    rw [hr] at this
    exact this.trans ih
  | case2 cs zs st h e st' hr =>
    have := joinRound_own E aid cs st
    rwa [hr] at this
  | case3 cs zs st h st' hr =>
    have := joinRound_own E aid cs st
    rwa [hr] at this
  | case4 => exact .refl E _ _

/-- The posts of a private transfer. -/
theorem signPrivate_outputs (m : AMap K) (a : Asset) (o : Owner Addr) (change : Nat) (cs : List (Coin K))
    (st st' : St K A Addr Acct) (h : signPrivate E m a o change cs st = (.ok (), st')) :
    ∃ l tx k k', st'.posts = st.posts ++ (l ++ [tx]) ∧ E.prove tx = true ∧
      tx.receivers = [⟨k, ⟨a.id, change⟩, .self⟩, ⟨k', a, o⟩] ∧
      ∀ tx ∈ l, E.prove tx = true ∧ ∀ r ∈ tx.receivers, r.owner = .self ∧ r.asset.id = a.id := by
  have hb := batch_own E a.id cs [] st
  unfold signPrivate at h
  split at h
  · cases h
  · cases h
  · rename_i cs' zs st1 e
    rw [e] at hb
    have hf := (prepareFinal_steps E m a.id zs cs' st1).1
    split at h
    · cases h
    · cases h
    · rename_i senders st2 e
      rw [e] at hf
      split at h
      · cases h
      · unfold buildPost at h
        split at h
        · rename_i hp
          cases h
          obtain ⟨l, h1, h2⟩ := hb
          refine ⟨l, _, _, _, ?_, hp, rfl, h2⟩
          dsimp only at hf h1 ⊢
          rw [hf, h1, List.append_assoc]
        · cases h

theorem processToPublic_own (aid : Nat) (senders : List (Sender K A)) (accts : List Acct) (change : Nat)
    (st : St K A Addr Acct) : OwnSteps E aid st (processToPublic E aid senders accts change st).2 := by
  unfold processToPublic
  split
  · exact .refl E _ _
  · dsimp only
    split
    · exact .refl E _ _
    · have key : ∀ v w, OwnSteps E aid st (buildPost E ⟨[], senders, [⟨E.fresh st.next, ⟨aid, v⟩, .self⟩], [⟨aid, w⟩], accts⟩
          { st with next := st.next + 1 }).2 := by
        intro v w
        unfold buildPost
        split
        · rename_i hp
          refine ⟨_, rfl, fun t ht => ?_⟩
          rw [List.mem_singleton] at ht
          subst ht
          exact ⟨hp, by simp⟩
        · exact ⟨[], by simp, by simp⟩
      split <;> rename_i e <;> rw [← Prod.eta (buildPost _ _ _), Prod.mk.injEq] at e <;> rw [← e.2] <;> exact key _ _

theorem signToPublic_own (m : AMap K) (aid : Nat) (accts : List Acct) (cs : List (Coin K)) (change : Nat)
    (st : St K A Addr Acct) : OwnSteps E aid st (signToPublic E m aid accts cs change st).2 := by
  have skip : ∀ {st st1 : St K A Addr Acct}, st1.posts = st.posts → OwnSteps E aid st st1 :=
    fun h => ⟨[], by simp [h], by simp⟩
  fun_induction signToPublic E m aid accts cs change st with
  | case1 => exact .refl E _ _
  | case2 c change st e st1 h =>
    have h1 := (prepareFinal_steps E m aid [] [c] st).1
    rw [h] at h1; exact skip h1
  | case3 c change st st1 h =>
    have h1 := (prepareFinal_steps E m aid [] [c] st).1
    rw [h] at h1; exact skip h1
  | case4 c change st senders st1 h _ st2 h' =>
    have h1 := (prepareFinal_steps E m aid [] [c] st).1
    rw [h] at h1
    have := processToPublic_own E aid senders accts change st1
    rw [h'] at this
    exact (skip h1).trans this
  | case5 c change st senders st1 h _ st2 h' =>
    have h1 := (prepareFinal_steps E m aid [] [c] st).1
    rw [h] at h1
    have := processToPublic_own E aid senders accts change st1
    rw [h'] at this
    exact (skip h1).trans this
  | case6 c change st senders st1 h st2 h' =>
    have h1 := (prepareFinal_steps E m aid [] [c] st).1
    rw [h] at h1
    have := processToPublic_own E aid senders accts change st1
    rw [h'] at this
    exact (skip h1).trans this
  | case7 => exact .refl E _ _
  | case8 a b rest change st senders h change' st1 h' ih =>
    have := processToPublic_own E aid senders accts change st
    rw [h'] at this
    exact this.trans ih
  | case9 a b rest change st senders h e st1 h' =>
    have := processToPublic_own E aid senders accts change st
    rwa [h'] at this
  | case10 a b rest change st senders h st1 h' =>
    have := processToPublic_own E aid senders accts change st
    rwa [h'] at this

theorem finish_ok {g g' : Signer K A} {r : Res Unit × St K A Addr Acct} {txs : List (Tx K A Addr Acct)}
    (h : finish E g r = (.ok txs, g')) : ∃ st, r = (.ok (), st) ∧ st.posts = txs := by
  unfold finish at h
  split at h
  · rename_i st
    cases h
    exact ⟨st, rfl, rfl⟩
  · cases h
  · cases h

/-- Outputs of a signed private transfer. -/
theorem private_outputs (g g' : Signer K A) (a : Asset) (o : Owner Addr) (txs : List (Tx K A Addr Acct))
    (h : sign E g (.privateTransfer a o) = (.ok txs, g')) : ∃ l tx k k' change, txs = l ++ [tx] ∧ E.prove tx = true ∧
      tx.receivers = [⟨k, ⟨a.id, change⟩, .self⟩, ⟨k', a, o⟩] ∧
      ∀ tx ∈ l, E.prove tx = true ∧ ∀ r ∈ tx.receivers, r.owner = .self ∧ r.asset.id = a.id := by
  obtain ⟨st, h1, rfl⟩ := finish_ok E h
  simp only [signInternal] at h1
  split at h1
  · split at h1
    · obtain ⟨l, tx, k, k', e, h2⟩ := signPrivate_outputs E _ _ _ _ _ _ _ h1
      exact ⟨l, tx, k, k', _, by simpa using e, h2⟩
    · cases h1
    · cases h1
  · cases h1

/-- Outputs of a signed consolidation. -/
theorem consolidate_outputs [DecidableEq K] (g g' : Signer K A) (req : List (K × Asset)) (txs : List (Tx K A Addr Acct))
    (h : consolidate E g req = (.ok txs, g')) : ∃ c ∈ req, ∃ l tx k k', txs = l ++ [tx] ∧ E.prove tx = true ∧
      tx.receivers = [⟨k, ⟨c.2.id, 0⟩, .self⟩, ⟨k', ⟨c.2.id, (req.map fun c => c.2.value).sum⟩, .self⟩] ∧
      ∀ tx ∈ l, E.prove tx = true ∧ ∀ r ∈ tx.receivers, r.owner = .self ∧ r.asset.id = c.2.id := by
  obtain ⟨st, h1, rfl⟩ := finish_ok E h
  split at h1
  · split at h1
    · cases h1
    · rename_i first rest
      split at h1
      · dsimp only at h1
        split at h1
        · cases h1
        · split at h1
          · obtain ⟨l, tx, k, k', e, h2⟩ := signPrivate_outputs E _ _ _ _ _ _ _ h1
            exact ⟨first, by simp, l, tx, k, k', by simpa using e, h2⟩
          · cases h1
      · cases h1
  · cases h1

/-- Outputs of a signed mint. -/
theorem mint_outputs (g g' : Signer K A) (a : Asset) (txs : List (Tx K A Addr Acct))
    (h : sign E g (.toPrivate a) = (.ok txs, g')) : ∃ tx k, txs = [tx] ∧ E.prove tx = true ∧ tx.receivers = [⟨k, a, .self⟩] := by
  obtain ⟨st, h1, rfl⟩ := finish_ok E h
  simp only [signInternal] at h1
  split at h1
  · unfold buildPost at h1
    split at h1
    · rename_i hp
      cases h1
      exact ⟨_, _, by simp, hp, rfl⟩
    · cases h1
  · cases h1

/-- Outputs of a signed withdrawal. -/
theorem public_outputs (g g' : Signer K A) (a : Asset) (acct : Acct) (txs : List (Tx K A Addr Acct))
    (h : sign E g (.toPublic a acct) = (.ok txs, g')) :
    ∀ tx ∈ txs, E.prove tx = true ∧ ∀ r ∈ tx.receivers, r.owner = .self ∧ r.asset.id = a.id := by
  obtain ⟨st, h1, rfl⟩ := finish_ok E h
  simp only [signInternal] at h1
  split at h1
  · split at h1
    · rename_i sel _
      have := signToPublic_own E g.assets a.id [acct] sel.values sel.change ⟨g.acc, [], g.next⟩
      rw [h1] at this
      obtain ⟨l, e, hl⟩ := this
      rw [e]
      simpa using hl
    · cases h1
    · cases h1
  · cases h1

end Verif.Sign

namespace Verif.Settle

open Verif.Asset (Asset)
open Verif.Transfer (Prim Kit MintPlan openWithCheck utxoReconstruct visSecret Post ReceiverPost Body Receiver Collision)
open Verif.Sign (Owner)

variable {P : Prim} {A : Type} {W : Wire P A}

/-! ## Specification -/

/-- The viewing keys of an owner: the signer's own, or those of the given address. -/
def Views (W : Wire P A) (o : Owner P.Grp) (dk : P.Scal) : Prop :=
  match o with
  | .self => dk = W.kit.viewKey (P.smul P.gen W.sk)
  | .other b => P.smul P.gen dk = b

/-- The published coin is opened to the asset by the owner's viewing key. -/
def OpensFor (W : Wire P A) (x : ReceiverPost P.ty) (o : Owner P.Grp) (a : Asset) : Prop :=
  ∃ k, ∀ dk, Views W o dk → openWithCheck W.kit dk x = some (k, a)

/-- Nobody else opens the coin, unless two commitments collide: that of the coin, to the address of its owner, and the one made
while opening it, to another address. -/
def OnlyFor (W : Wire P A) (x : ReceiverPost P.ty) (o : Owner P.Grp) : Prop :=
  ∃ b, (∀ dk, Views W o dk → P.smul P.gen dk = b) ∧ ∃ r i v, x.utxo.cm = W.kit.commit r i v b ∧
    ∀ dk k a, openWithCheck W.kit dk x = some (k, a) → P.smul P.gen dk = b ∨
      Collision (fun y : P.Rand × Nat × Nat × P.Grp => W.kit.commit y.1 y.2.1 y.2.2.1 y.2.2.2)
        (r, i, v, b) (k.2, (visSecret k.1 a).id, (visSecret k.1 a).value, P.smul P.gen dk)

/-! ## Proofs -/

theorem post_receivers {tx : TxOf P A} {p : Post P.ty} (h : W.post? tx = some p) :
    p.body.receivers = tx.receivers.map fun r => (W.mintPlan r).post W.kit := by
  unfold Wire.post? at h
  split at h
  · rename_i q hq
    cases h
    have hb : ∃ π, p.body = Body.build π (W.transfer tx) := by
      unfold Wire.publish at hq
      by_cases hs : (W.transfer tx).senders = []
      · obtain ⟨_, _, π, _, hp, _⟩ := (Transfer.c29_unsigned _ _ _ _ _ hs).1 hq
        have h1 := hp
        refine ⟨π, ?_⟩
        cases hpb : p.body
        rw [hpb] at h1
        obtain ⟨a1, a2, a3, a4, a5, a6⟩ := h1
        simp only [Body.build] at *
        simp only [a1, a2, a3, a4, a5, a6]
        trivial
      · obtain ⟨_, _, π, _, _, _, _, hp, _⟩ := (Transfer.c29_signed _ _ _ _ _ hs).1 hq
        have h1 := hp
        refine ⟨π, ?_⟩
        cases hpb : p.body
        rw [hpb] at h1
        obtain ⟨a1, a2, a3, a4, a5, a6⟩ := h1
        simp only [Body.build] at *
        simp only [a1, a2, a3, a4, a5, a6]
        trivial
    obtain ⟨π, hb⟩ := hb
    rw [hb]
    simp [Body.build, Wire.transfer, Transfer.honest, MintPlan.post, List.map_map, Function.comp_def]
  · cases h

theorem opens (L : P.Laws) {V : Asset → Prop} (hc : W.kit.Correct V) (r : Sign.Receiver (Ident P) P.Grp) (hv : V r.asset)
    (ho : r.key.1 = false) : OpensFor W ((W.mintPlan r).post W.kit) r.owner r.asset := by
  refine ⟨(false, r.key.2), fun dk hd => Transfer.open_own L W.kit hc dk _ hv ?_ ho⟩
  obtain ⟨k, a, o⟩ := r
  cases o with
  | self =>
    simp only [Views] at hd
    subst hd
    rfl
  | other b =>
    simp only [Views] at hd
    subst hd
    rfl

theorem only (r : Sign.Receiver (Ident P) P.Grp) : OnlyFor W ((W.mintPlan r).post W.kit) r.owner := by
  refine ⟨match r.owner with | .self => W.address | .other b => b, ?_,
    r.key.2, (visSecret r.key.1 r.asset).id, (visSecret r.key.1 r.asset).value, rfl, ?_⟩
  · intro dk hd
    obtain ⟨k, a, o⟩ := r
    cases o with
    | self => simp only [Views] at hd; subst hd; rfl
    | other b => exact hd
  · intro dk k a h
    unfold openWithCheck at h
    split at h
    · cases h
    · split at h
      · rename_i hu
        cases h
        have := congrArg Transfer.Utxo.cm (of_decide_eq_true hu)
        by_cases he : P.smul P.gen dk = match r.owner with | .self => W.address | .other b => b
        · exact .inl he
        · refine .inr ⟨fun e => he ?_, this.symm⟩
          simp only [Prod.mk.injEq] at e
          exact e.2.2.2.symm
      · cases h

theorem fresh_opaque {n n' : Nat} {txs : List (TxOf P A)} (h : Sign.Drawn W.sign.fresh n n' txs) :
    ∀ tx ∈ txs, ∀ r ∈ tx.receivers, r.key.1 = false := by
  intro tx htx r hr
  obtain ⟨_, is, _, _, e⟩ := h
  have : r.key ∈ txs.flatMap Sign.drawn :=
    List.mem_flatMap.2 ⟨tx, htx, List.mem_append.2 (.inr (List.mem_map.2 ⟨r, hr, rfl⟩))⟩
  rw [e] at this
  obtain ⟨i, _, hi⟩ := List.mem_map.1 this
  rw [← hi]
  rfl

theorem proved_post {tx : TxOf P A} (h : W.sign.prove tx = true) : ∃ p, W.post? tx = some p := Option.isSome_iff_exists.1 h

theorem mem_posts {txs : List (TxOf P A)} {q : Post P.ty} (h : q ∈ W.posts txs) : ∃ tx ∈ txs, W.post? tx = some q :=
  List.mem_filterMap.1 h

/-- Own coins of a list of transfers. -/
theorem own_posts (L : P.Laws) {V : Asset → Prop} (hc : W.kit.Correct V) {aid : Nat} {l : List (TxOf P A)}
    (hk : ∀ tx ∈ l, ∀ r ∈ tx.receivers, r.key.1 = false) (hV : ∀ tx ∈ l, ∀ r ∈ tx.receivers, V r.asset)
    (hl : ∀ tx ∈ l, W.sign.prove tx = true ∧ ∀ r ∈ tx.receivers, r.owner = .self ∧ r.asset.id = aid) :
    (W.posts l).length = l.length ∧ ∀ q ∈ W.posts l, ∀ y ∈ q.body.receivers,
      (∃ v, OpensFor W y .self ⟨aid, v⟩) ∧ OnlyFor W y .self := by
  constructor
  · unfold Wire.posts
    rw [List.filterMap_length_eq_length]
    intro tx htx
    exact (hl tx htx).1
  · intro q hq y hy
    obtain ⟨tx, htx, e⟩ := mem_posts hq
    rw [post_receivers e] at hy
    obtain ⟨r, hr, rfl⟩ := List.mem_map.1 hy
    have h1 := opens L hc r (hV tx htx r hr) (hk tx htx r hr)
    have h2 := only (W := W) r
    obtain ⟨a, b⟩ := (hl tx htx).2 r hr
    rw [a] at h1 h2
    refine ⟨⟨r.asset.value, ?_⟩, h2⟩
    rw [← b]
    exact h1

/-! ## Theorems -/

/-- **C129, payments.** If a private transfer of `a` to an owner is signed, every transfer of it is published; all new coins
are opened by the signer, and by nobody else, as the same asset id, except the last one, which the owner's keys open as `a`, and
no others. -/
theorem c129_private (L : P.Laws) {V : Asset → Prop} (hc : W.kit.Correct V) (g g' : Sign.Signer (Ident P) A) (a : Asset)
    (o : Owner P.Grp) (txs : List (TxOf P A)) (h : Sign.sign W.sign g (.privateTransfer a o) = (.ok txs, g'))
    (hV : ∀ tx ∈ txs, ∀ r ∈ tx.receivers, V r.asset) :
    (W.posts txs).length = txs.length ∧ ∃ front last c x, W.posts txs = front ++ [last] ∧ last.body.receivers = [c, x] ∧
      OpensFor W x o a ∧ OnlyFor W x o ∧ (∃ v, OpensFor W c .self ⟨a.id, v⟩) ∧ OnlyFor W c .self ∧
      ∀ q ∈ front, ∀ y ∈ q.body.receivers, (∃ v, OpensFor W y .self ⟨a.id, v⟩) ∧ OnlyFor W y .self := by
  have hd := Sign.c128_sign W.sign g (.privateTransfer a o)
  rw [h] at hd
  have hk := fresh_opaque hd
  obtain ⟨l, tx, k, k', change, rfl, hp, hr, hl⟩ := Sign.private_outputs W.sign g g' a o txs h
  obtain ⟨p, hpost⟩ := proved_post hp
  obtain ⟨o1, o2⟩ := own_posts L hc (fun t ht => hk t (by simp [Sign.handed, ht])) (fun t ht => hV t (by simp [ht])) hl
  have e : W.posts (l ++ [tx]) = W.posts l ++ [p] := by
    unfold Wire.posts
    rw [List.filterMap_append, List.filterMap_cons_some hpost]
    rfl
  have hr' := post_receivers hpost
  rw [hr] at hr'
  have htx : tx ∈ l ++ [tx] := by simp
  refine ⟨by rw [e, List.length_append, List.length_append, o1]; rfl, W.posts l, p, _, _, e, hr', ?_, ?_, ⟨change, ?_⟩, ?_, o2⟩
  · exact opens L hc ⟨k', a, o⟩ (hV tx htx ⟨k', a, o⟩ (by rw [hr]; simp)) (hk tx htx ⟨k', a, o⟩ (by rw [hr]; simp))
  · exact only ⟨k', a, o⟩
  · exact opens L hc ⟨k, ⟨a.id, change⟩, .self⟩ (hV tx htx ⟨k, ⟨a.id, change⟩, .self⟩ (by rw [hr]; simp))
      (hk tx htx ⟨k, ⟨a.id, change⟩, .self⟩ (by rw [hr]; simp))
  · exact only ⟨k, ⟨a.id, change⟩, .self⟩

/-- **C129, consolidations.** The last coin holds the sum of the request and all coins are the signer's. -/
theorem c129_consolidation [DecidableEq P.Rand] (L : P.Laws) {V : Asset → Prop} (hc : W.kit.Correct V) (g g' : Sign.Signer (Ident P) A)
    (req : List (Ident P × Asset)) (txs : List (TxOf P A)) (h : Sign.consolidate W.sign g req = (.ok txs, g'))
    (hV : ∀ tx ∈ txs, ∀ r ∈ tx.receivers, V r.asset) :
    (W.posts txs).length = txs.length ∧ ∃ c ∈ req, ∃ front last y x, W.posts txs = front ++ [last] ∧
      last.body.receivers = [y, x] ∧ OpensFor W x .self ⟨c.2.id, (req.map fun c => c.2.value).sum⟩ ∧
      OpensFor W y .self ⟨c.2.id, 0⟩ ∧
      ∀ q ∈ front, ∀ y ∈ q.body.receivers, ∃ v, OpensFor W y .self ⟨c.2.id, v⟩ := by
  have hd := Sign.c128_consolidate W.sign g req
  rw [h] at hd
  have hk := fresh_opaque hd
  obtain ⟨c, hcr, l, tx, k, k', rfl, hp, hr, hl⟩ := Sign.consolidate_outputs W.sign g g' req txs h
  obtain ⟨p, hpost⟩ := proved_post hp
  obtain ⟨o1, o2⟩ := own_posts L hc (fun t ht => hk t (by simp [Sign.handed, ht])) (fun t ht => hV t (by simp [ht])) hl
  have e : W.posts (l ++ [tx]) = W.posts l ++ [p] := by
    unfold Wire.posts
    rw [List.filterMap_append, List.filterMap_cons_some hpost]
    rfl
  have hr' := post_receivers hpost
  rw [hr] at hr'
  have htx : tx ∈ l ++ [tx] := by simp
  refine ⟨by rw [e, List.length_append, List.length_append, o1]; rfl, c, hcr, W.posts l, p, _, _, e, hr', ?_, ?_,
    fun q hq y hy => (o2 q hq y hy).1⟩
  · generalize hs : (req.map fun c => c.2.value).sum = s at hr ⊢
    exact opens L hc ⟨k', ⟨c.2.id, s⟩, .self⟩ (hV tx htx ⟨k', ⟨c.2.id, s⟩, .self⟩ (by rw [hr]; simp))
      (hk tx htx ⟨k', ⟨c.2.id, s⟩, .self⟩ (by rw [hr]; simp))
  · exact opens L hc ⟨k, ⟨c.2.id, 0⟩, .self⟩ (hV tx htx ⟨k, ⟨c.2.id, 0⟩, .self⟩ (by rw [hr]; simp))
      (hk tx htx ⟨k, ⟨c.2.id, 0⟩, .self⟩ (by rw [hr]; simp))

/-- **C129, minting.** One post with one coin, which the signer opens to what was minted, and nobody else. -/
theorem c129_mint (L : P.Laws) {V : Asset → Prop} (hc : W.kit.Correct V) (g g' : Sign.Signer (Ident P) A) (a : Asset)
    (txs : List (TxOf P A)) (h : Sign.sign W.sign g (.toPrivate a) = (.ok txs, g')) (hV : V a) :
    ∃ p x, W.posts txs = [p] ∧ p.body.receivers = [x] ∧ OpensFor W x .self a ∧ OnlyFor W x .self := by
  have hd := Sign.c128_sign W.sign g (.toPrivate a)
  rw [h] at hd
  have hk := fresh_opaque hd
  obtain ⟨tx, k, rfl, hp, hr⟩ := Sign.mint_outputs W.sign g g' a txs h
  obtain ⟨p, hpost⟩ := proved_post hp
  have hr' := post_receivers hpost
  rw [hr] at hr'
  refine ⟨p, _, ?_, hr', ?_, only ⟨k, a, .self⟩⟩
  · unfold Wire.posts
    rw [List.filterMap_cons_some hpost]
    rfl
  · exact opens L hc ⟨k, a, .self⟩ hV (hk tx (by simp [Sign.handed]) ⟨k, a, .self⟩ (by rw [hr]; simp))

/-- **C129, withdrawals.** All new coins are the signer's, in the asset id of the withdrawal. -/
theorem c129_public (L : P.Laws) {V : Asset → Prop} (hc : W.kit.Correct V) (g g' : Sign.Signer (Ident P) A) (a : Asset)
    (account : Nat) (txs : List (TxOf P A)) (h : Sign.sign W.sign g (.toPublic a account) = (.ok txs, g'))
    (hV : ∀ tx ∈ txs, ∀ r ∈ tx.receivers, V r.asset) :
    (W.posts txs).length = txs.length ∧ ∀ q ∈ W.posts txs, ∀ y ∈ q.body.receivers,
      (∃ v, OpensFor W y .self ⟨a.id, v⟩) ∧ OnlyFor W y .self := by
  have hd := Sign.c128_sign W.sign g (.toPublic a account)
  rw [h] at hd
  exact own_posts L hc (fresh_opaque hd) hV (Sign.public_outputs W.sign g g' a account txs h)

/-- **C128 on the protocol.** If the generator does not repeat itself, no two coins that a request publishes share their randomness. -/
theorem c128_rand (g : Sign.Signer (Ident P) A) (t : Sign.Transaction P.Grp Nat) (hr : ∀ i j, W.rand i = W.rand j → i = j) :
    ((Sign.handed (Sign.sign W.sign g t).1).flatMap fun tx => (Sign.drawn tx).map Prod.snd).Nodup := by
  obtain ⟨_, is, h1, _, h2⟩ := Sign.c128_sign W.sign g t
  have : ((Sign.handed (Sign.sign W.sign g t).1).flatMap fun tx => (Sign.drawn tx).map Prod.snd) = is.map W.rand := by
    rw [← List.map_flatMap, h2, List.map_map]
    rfl
  rw [this]
  unfold List.Nodup
  rw [List.pairwise_map]
  refine h1.imp fun {a b} hab e => ?_
  have := hr a b e
  omega

end Verif.Settle
