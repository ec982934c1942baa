import Verif.Settle.Model

/-! # Posts of signed transfers -/

set_option linter.unusedSectionVars false

namespace Verif.Settle

open Verif.Asset (Asset mget)
open Verif.Asset.AMap (Stored MWF)
open Verif.Transfer
open Verif.Ledger (Ix State push submit balance)
open Verif.Sign (Good GoodSeq Prover spent made Prov FreshFrom draws)

variable {P : Prim} {A : Type}

/-- Asset ids are elements of the field with `m` elements, as their type says in the code. -/
structure Ids {T : Transfer.Ty} (m : Nat) (t : Transfer.Transfer T) : Prop where
  assetId : ∀ a, t.assetId = some a → a < m
  senders : ∀ s ∈ t.senders, s.plain.asset.id < m ∧ s.utxo.pubAsset.id < m
  receivers : ∀ r ∈ t.receivers, r.plain.asset.id < m ∧ r.utxo.pubAsset.id < m

namespace Wire

variable (W : Wire P A)

/-- UTXO of an output. -/
def utxo (r : Sign.Receiver (Ident P) P.Grp) : Utxo P.ty := ((W.mintPlan r).receiver W.kit).utxo

/-- Nullifier commitment of a coin of the signer. -/
def nullifier (k : Ident P) (a : Asset) : P.NCm := W.kit.nullCommit W.pak (W.leaf k a)

/-- Accumulator items of the outputs of a transfer. -/
def leaves (tx : TxOf P A) : List P.Item := tx.receivers.map fun r => W.kit.item (W.utxo r)

/-- What is assumed of proof system, signer's accumulator, and ledger. -/
structure Fine : Prop where
  laws : P.Laws
  same : ∃ n, W.ledger.crypto = W.kit.crypto n
  modulus : 2 ^ 128 ≤ W.modulus
  /-- completeness: satisfied circuits of canonical shape are proved and the proof is verified -/
  complete : ∀ t shape, Ids W.modulus t → (∀ n, circuit (W.kit.crypto n) W.modulus t = some true) →
    Canonical shape t.auth.isSome t.assetId.isSome t.sources.length t.senders.length t.receivers.length t.sinks.length →
    ∃ π, W.kit.prove t = some π ∧ W.ledger.verifyProof shape (t.input W.ledger.enc) π ≠ none
  /-- inserting appends to the shard of the leaf, unless that is full -/
  grows : ∀ a l, W.view (W.insert a l).2 = growOne W.ledger (W.view a) l
  /-- membership proofs are valid for the root of the shard -/
  member : ∀ a l, W.contains a l = true →
    W.kit.member l (W.wit a l) (W.ledger.root (W.view a (W.ledger.treeIndex l))) = true
  /-- what the nullifier set finds is there -/
  lookup : ∀ l n, W.ledger.contains l n = true → ∃ m ∈ l, m.cm = n.cm

end Wire

open Wire

variable {W : Wire P A}

theorem leaf_utxo (k : Ident P) (a : Asset) : W.leaf k a = W.kit.item (W.utxo ⟨k, a, .self⟩) := rfl

/-- The spent coin of a sender. -/
theorem spendPlan_facts (s : Sign.Sender (Ident P) A) :
    (W.spendPlan s).ident = s.key ∧ (W.spendPlan s).asset = s.asset ∧
    W.kit.item ((W.spendPlan s).sender W.kit W.pak).utxo = W.leaf s.key s.asset ∧
    ((W.spendPlan s).sender W.kit W.pak).nul.cm = W.nullifier s.key s.asset ∧
    ((W.spendPlan s).sender W.kit W.pak).root = (W.spendPlan s).root := by
  unfold spendPlan
  cases s.proof <;> exact ⟨rfl, rfl, rfl, rfl, rfl⟩

/-- Canonical shape of the transfer built. -/
theorem transfer_shape (tx : TxOf P A) (hs : Sign.Shape tx) :
    ∃ shape, Canonical shape (W.transfer tx).auth.isSome (W.transfer tx).assetId.isSome
      (W.transfer tx).sources.length (W.transfer tx).senders.length (W.transfer tx).receivers.length
      (W.transfer tx).sinks.length := by
  obtain ⟨so, se, re, si, ac⟩ := tx
  simp only [Sign.Shape, List.mem_cons, Prod.mk.injEq, List.not_mem_nil, or_false] at hs
  rcases hs with ⟨h1, h2, h3, h4⟩ | ⟨h1, h2, h3, h4⟩ | ⟨h1, h2, h3, h4⟩
  · obtain ⟨a, rfl⟩ := List.length_eq_one_iff.mp h1
    obtain ⟨r, rfl⟩ := List.length_eq_one_iff.mp h3
    rw [List.length_eq_zero_iff] at h2 h4
    subst h2 h4
    exact ⟨_, .mint⟩
  · rw [List.length_eq_zero_iff] at h1 h4
    subst h1 h4
    match se, re, h2, h3 with
    | [a, b], [c, d], _, _ => exact ⟨_, .transfer⟩
  · rw [List.length_eq_zero_iff] at h1
    subst h1
    obtain ⟨r, rfl⟩ := List.length_eq_one_iff.mp h3
    obtain ⟨a, rfl⟩ := List.length_eq_one_iff.mp h4
    match se, h2 with
    | [a, b], _ => exact ⟨_, .reclaim⟩

/-- The ids of good transfers are ids. -/
theorem transfer_ids {tx : TxOf P A} {aid : Nat} {acc : A} (hid : aid < W.modulus) (hg : Good W.sign aid acc tx) :
    Ids W.modulus (W.transfer tx) := by
  have h0 : 0 < W.modulus := by omega
  have key : ∀ (b : Bool) (a : Asset), a.id = aid → (visSecret b a).id < W.modulus ∧ (visPublic b a).id < W.modulus := by
    intro b a e
    cases b <;> simp [visSecret, visPublic, e, h0, hid]
  refine ⟨?_, ?_, ?_⟩
  · intro a ha
    have ha : assetId tx = some a := ha
    unfold assetId at ha
    rw [Option.map_eq_some_iff] at ha
    obtain ⟨x, hx, rfl⟩ := ha
    have := List.mem_of_mem_head? (Option.mem_def.mpr hx)
    rcases List.mem_append.mp this with h | h
    · rw [hg.ids.1 x h]; exact hid
    · rw [hg.ids.2.2.2 x h]; exact hid
  · intro s hs
    obtain ⟨y, hy, rfl⟩ := List.mem_map.mp hs
    obtain ⟨x, hx, rfl⟩ := List.mem_map.mp hy
    refine key _ _ ?_
    rw [(spendPlan_facts (W := W) x).2.1]
    exact hg.ids.2.1 x hx
  · intro s hs
    obtain ⟨y, hy, rfl⟩ := List.mem_map.mp hs
    obtain ⟨x, hx, rfl⟩ := List.mem_map.mp hy
    exact key _ _ (hg.ids.2.2.1 x hx)

/-- The circuit accepts good transfers. -/
theorem transfer_satisfies (F : W.Fine) (tx : TxOf P A) (aid : Nat) (hid : aid ≠ 0 ∧ aid < W.modulus) (acc : A)
    (hmax : (tx.sources.map Asset.value).sum + (tx.senders.map fun s => s.asset.value).sum < 2 ^ 128)
    (hg : Good W.sign aid acc tx) (hs : Sign.Shape tx) (n : P.Scal) :
    circuit (W.kit.crypto n) W.modulus (W.transfer tx) = some true := by
  have hval : ((tx.senders.map W.spendPlan).map fun s => s.asset.value) = tx.senders.map fun s => s.asset.value := by
    rw [List.map_map]
    exact List.map_congr_left fun s _ => by simp only [Function.comp, (spendPlan_facts (W := W) s).2.1]
  have hvalr : ((tx.receivers.map W.mintPlan).map fun s => s.asset.value) =
      tx.receivers.map fun s => s.asset.value := by
    rw [List.map_map]; rfl
  have hshape := hs
  simp only [Sign.Shape, List.mem_cons, Prod.mk.injEq, List.not_mem_nil, or_false] at hshape
  refine c61_honest_satisfies W.kit n W.sk (W.randomizer tx) W.modulus F.modulus (assetId tx) aid _ _ _ _ ?_ ?_ ?_ ?_ ?_ ?_ ?_
    ?_ ?_ ?_
  · rw [ne_eq, List.map_eq_nil_iff, ne_eq, List.map_eq_nil_iff, ← List.length_eq_zero_iff, ← List.length_eq_zero_iff]
    omega
  · rw [ne_eq, List.map_eq_nil_iff, ne_eq, List.map_eq_nil_iff, ← List.length_eq_zero_iff, ← List.length_eq_zero_iff]
    omega
  · intro a ha
    unfold assetId at ha
    rw [Option.map_eq_some_iff] at ha
    obtain ⟨x, hx, rfl⟩ := ha
    have := List.mem_of_mem_head? (Option.mem_def.mpr hx)
    rcases List.mem_append.mp this with h | h
    · exact hg.ids.1 x h
    · exact hg.ids.2.2.2 x h
  · intro s h
    obtain ⟨x, hx, rfl⟩ := List.mem_map.mp h
    rw [(spendPlan_facts (W := W) x).2.1]
    exact hg.ids.2.1 x hx
  · intro s h
    obtain ⟨x, hx, rfl⟩ := List.mem_map.mp h
    exact hg.ids.2.2.1 x hx
  · intro s h
    obtain ⟨x, hx, rfl⟩ := List.mem_map.mp h
    rw [(spendPlan_facts (W := W) x).2.1]
    refine .inr fun e => hid.1 ?_
    rw [← hg.ids.2.1 x hx, e]
  · intro s h
    obtain ⟨x, hx, rfl⟩ := List.mem_map.mp h
    refine .inr fun e => hid.1 ?_
    have e' : x.asset = ⟨0, 0⟩ := e
    rw [← hg.ids.2.2.1 x hx, e']
  · intro s h
    obtain ⟨x, hx, rfl⟩ := List.mem_map.mp h
    rcases hg.proofs x hx with ⟨h1, h2⟩ | ⟨_, h2⟩
    · right
      have := F.member acc _ h2
      have e := (spendPlan_facts (W := W) x).2.2.1
      rw [show P.smul P.gen W.sk = W.pak from rfl, e]
      unfold spendPlan
      rw [h1]
      exact this
    · left
      rw [(spendPlan_facts (W := W) x).2.1]
      exact h2
  · rw [hval, hvalr, Nat.add_comm (tx.sinks.map Asset.value).sum]
    exact hg.balance
  · rw [hval]; exact hmax

/-- What a post shows of a transfer. -/
structure Shows (W : Wire P A) (tx : TxOf P A) (p : Post P.ty) : Prop where
  assetId : p.body.assetId = assetId tx
  sources : p.body.sources = tx.sources.map Asset.value
  sinks : p.body.sinks = tx.sinks.map Asset.value
  roots : p.body.senders.map SenderPost.root = tx.senders.map fun s => (W.spendPlan s).root
  nullifiers : p.body.senders.map (fun q => q.nul.cm) = tx.senders.map fun s => W.nullifier s.key s.asset
  utxos : p.body.receivers.map ReceiverPost.utxo = tx.receivers.map W.utxo
  /-- accepted by signature check and verifier -/
  signature : (∀ s, p.sig = some s → P.smul P.gen s.sig.1 ≠ s.sig.2) → p.checkSig W.ledger.crypto = .ok ()
  proof : ∃ shape, Canonical shape p.sig.isSome p.body.assetId.isSome p.body.sources.length
    p.body.senders.length p.body.receivers.length p.body.sinks.length ∧
    W.ledger.verifyProof shape (p.input W.ledger.enc) p.body.proof ≠ none

/-- A good transfer becomes a post that shows it. -/
theorem publish_made (F : W.Fine) (tx : TxOf P A) (aid : Nat) (hid : aid ≠ 0 ∧ aid < W.modulus) (acc : A)
    (hmax : (tx.sources.map Asset.value).sum + (tx.senders.map fun s => s.asset.value).sum < 2 ^ 128)
    (hg : Good W.sign aid acc tx) (hs : Sign.Shape tx) : ∃ p, W.publish tx = .made p ∧
      ((tx.sinks ≠ [] ∨ tx.accounts = []) → Shows W tx p) := by
  obtain ⟨shape, hc⟩ := transfer_shape (W := W) tx hs
  obtain ⟨π, h1, h2⟩ := F.complete (W.transfer tx) shape (transfer_ids hid.2 hg) (transfer_satisfies F tx aid hid acc hmax hg hs) hc
  have hex : ∃ p, W.publish tx = .made p ∧ Publishes (W.transfer tx) π p.body ∧
      p.sig.isSome = (W.transfer tx).auth.isSome := by
    by_cases he : tx.senders = []
    · have hts : (W.transfer tx).senders = [] := by simp [transfer, honest, he]
      have hta : (W.transfer tx).auth = none := by simp [transfer, honest, he]
      refine ⟨⟨none, Body.build π (W.transfer tx), []⟩, ?_, ?_, ?_⟩
      · refine (c29_unsigned _ _ _ _ _ hts).2 ⟨hta, by rw [he]; rfl, π, h1, ?_, rfl, rfl⟩
        exact ⟨rfl, rfl, rfl, rfl, rfl, rfl⟩
      · exact ⟨rfl, rfl, rfl, rfl, rfl, rfl⟩
      · rw [hta]; rfl
    · have hts : (W.transfer tx).senders ≠ [] := by simp [transfer, honest, he]
      have hta : (W.transfer tx).auth = some (deriveAuth P W.sk (W.randomizer tx)) := by simp [transfer, honest, he]
      have hemp : tx.senders.isEmpty = false := by
        cases hh : tx.senders with
        | nil => exact absurd hh he
        | cons _ _ => rfl
      refine ⟨⟨some ⟨(deriveAuth P W.sk (W.randomizer tx)).rpak, (W.kit.crypto (W.nonce tx)).sign
          (P.mul W.sk (W.randomizer tx)) (Body.build π (W.transfer tx)) tx.accounts⟩, Body.build π (W.transfer tx),
        if (W.transfer tx).sinks = [] then [] else tx.accounts⟩, ?_, ?_, ?_⟩
      · refine (c29_signed _ _ _ _ _ hts).2 ⟨_, W.sk, π, hta, by rw [hemp]; rfl, ⟨rfl, rfl⟩, h1, ?_, rfl, rfl⟩
        exact ⟨rfl, rfl, rfl, rfl, rfl, rfl⟩
      · exact ⟨rfl, rfl, rfl, rfl, rfl, rfl⟩
      · rw [hta]; rfl
  obtain ⟨p, e1, e2, e3⟩ := hex
  refine ⟨p, e1, fun hacc => ⟨e2.assetId, e2.sources, e2.sinks, ?_, ?_, ?_, ?_, shape, ?_, ?_⟩⟩
  · rw [e2.senders]
    simp only [transfer, honest, List.map_map]
    exact List.map_congr_left fun s _ => (spendPlan_facts (W := W) s).2.2.2.2
  · rw [e2.senders]
    simp only [transfer, honest, List.map_map]
    exact List.map_congr_left fun s _ => (spendPlan_facts (W := W) s).2.2.2.1
  · rw [e2.receivers]
    simp only [transfer, honest, List.map_map]
    rfl
  · intro hn
    obtain ⟨n, hk⟩ := F.same
    have := c62_post_valid F.laws W.kit (W.nonce tx) (W.transfer tx) _ tx.accounts p e1 (by
      rcases hacc with h | h
      · left; simpa [transfer, honest] using h
      · exact .inr h) hn
    rw [hk]
    exact this
  · rw [e3, e2.assetId, e2.sources, e2.sinks, e2.senders, e2.receivers, List.length_map, List.length_map]
    exact hc
  · rw [c31_post W.ledger.enc _ _ _ _ _ e1, e2.proof]
    exact h2

/-- The prover that signing assumes (C27, C28, C58) is one that `into_post` provides. -/
theorem prover (F : W.Fine) : Prover W.sign := by
  intro aid acc tx hid hmax hg hs
  have : (tx.sources.map Asset.value).sum + (tx.senders.map fun s => s.asset.value).sum < 2 ^ 128 := by
    have h : W.sign.max = 2 ^ 128 - 1 := rfl
    omega
  obtain ⟨p, e, _⟩ := publish_made F tx aid hid acc this hg hs
  show (W.post? tx).isSome = true
  unfold post?
  rw [e]
  rfl

end Verif.Settle
