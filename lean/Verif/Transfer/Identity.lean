import Verif.Transfer.Protocol

/-!
# Identity proofs and transaction data: C91, C92

Models `IdentityProof::identity_verification` (transfer/mod.rs:2261-2361), `identity_proof` with `virtual_senders`
(wallet/signer/functions.rs:714-743, 1331-1377) and `transaction_data` (1383-1424).

The accumulator of the verification and of the prover holds a single item. It is a parameter: `single` is
`A::empty`, `insert` and `output_from`, `prove1` is `insert_and_upgrade` on an empty accumulator.
-/

namespace Verif.Transfer

open Verif.Asset (Asset)

variable {P : Prim}

/-- `IdentityVerificationError`, mod.rs:2213-2231; `panic` is the failing `expect`. -/
inductive IdErr where
  | invalidShape
  | invalidSinkAccount
  | invalidSignature
  | invalidProof
  | inconsistentOutput
  | panic
deriving DecidableEq, Repr

/-- The accumulator with one item, and verification of proofs (`has_valid_proof`, mod.rs:1737-1747; `none` is an
error). -/
structure Checker (P : Prim) where
  single : P.Item → Option P.Root
  prove1 : P.Item → Option (P.Wit × P.Root)
  verifyProof : Post P.ty → Option Bool

/-- `identity_verification`, mod.rs:2292-2361. -/
def identityVerification (K : Kit P) (n : P.Scal) (C : Checker P) (p : Post P.ty) (ident : Bool × P.Rand)
    (asset : Asset) (address : P.Grp) (account : Nat) : Except IdErr Unit :=
  if Shape.fromPost p ≠ some .toPublic then .error .invalidShape
  else if p.sinkAccounts ≠ [account] then .error .invalidSinkAccount
  else match p.checkSig (K.crypto n) with
    | .error _ => .error .invalidSignature
    | .ok () => match C.verifyProof p with
      | none => .error .invalidProof
      | some false => .error .invalidProof
      | some true =>
        match C.single (K.item (utxoReconstruct K asset ident address)) with
        | none => .error .panic
        | some r => if p.body.senders.any (fun s => decide (s.root = r)) then .ok () else .error .inconsistentOutput

/-- Random numbers drawn by `identity_proof`; the last two are the defaulted membership proof of the second sender. -/
structure IdCoins (P : Prim) where
  er1 : P.Scal × P.SRand
  ident2 : Bool × P.Rand
  er2 : P.Scal × P.SRand
  er3 : P.Scal × P.SRand
  rand3 : P.Rand
  r : P.Scal
  wit0 : P.Wit
  root0 : P.Root

/-- `identity_proof`, functions.rs:1331-1377, with `virtual_senders`, 714-743, for the default account with spending
key `sk`; the outer `none` is a panic. -/
def identityProof (K : Kit P) (n : P.Scal) (C : Checker P) (sk : P.Scal) (ident : Bool × P.Rand) (asset : Asset)
    (account : Nat) (z : IdCoins P) : Option (Option (Post P.ty)) :=
  let pak := P.smul P.gen sk
  let pre := deriveSpend K pak ident asset z.er1 z.wit0 z.root0
  match C.prove1 (K.item pre.utxo) with
  | none => none
  | some (w, root) =>
    let t : Transfer P.ty :=
      ⟨some (deriveAuth P sk z.r), some asset.id, [],
        [deriveSpend K pak ident asset z.er1 w root,
         deriveSpend K pak z.ident2 ⟨asset.id, 0⟩ z.er2 z.wit0 z.root0],
        [deriveMint K (P.smul P.gen (K.viewKey pak)) ⟨asset.id, 0⟩ false z.er3 z.rand3], [asset.value]⟩
    match t.intoPost (K.crypto n) (some sk) [account] with
    | .proofError => some none
    | .refused => none
    | .made p => some (some p)

/-! ## C91 -/

/-- C91: the five conditions. -/
theorem c91_accept_iff (K : Kit P) (n : P.Scal) (C : Checker P) (p : Post P.ty) (ident : Bool × P.Rand)
    (asset : Asset) (address : P.Grp) (account : Nat) :
    identityVerification K n C p ident asset address account = .ok () ↔
      (p.sig.isSome = true ∧ p.body.assetId.isSome = true ∧ p.body.sources = [] ∧ p.body.senders.length = 2 ∧
        p.body.receivers.length = 1 ∧ p.body.sinks.length = 1) ∧
      p.sinkAccounts = [account] ∧
      (∃ s, p.sig = some s ∧ (K.crypto n).verifySig s.key p.body [account] s.sig = true) ∧
      C.verifyProof p = some true ∧
      ∃ x ∈ p.body.senders, C.single (K.item (utxoReconstruct K asset ident address)) = some x.root := by
  have hshape : Shape.fromPost p = some .toPublic ↔
      (p.sig.isSome = true ∧ p.body.assetId.isSome = true ∧ p.body.sources = [] ∧ p.body.senders.length = 2 ∧
        p.body.receivers.length = 1 ∧ p.body.sinks.length = 1) := by
    have hc : ∀ b c i j k l, Canonical .toPublic b c i j k l ↔
        (b = true ∧ c = true ∧ i = 0 ∧ j = 2 ∧ k = 1 ∧ l = 1) := by
      intro b c i j k l
      constructor
      · intro h; cases h; exact ⟨rfl, rfl, rfl, rfl, rfl, rfl⟩
      · rintro ⟨rfl, rfl, rfl, rfl, rfl, rfl⟩; exact .reclaim
    rw [c51_from_post, hc, List.length_eq_zero_iff]
  unfold identityVerification
  constructor
  · intro h
    split at h
    · cases h
    · rename_i hs
      have hs := hshape.1 (Decidable.not_not.1 hs)
      split at h
      · cases h
      · rename_i ha
        have ha : p.sinkAccounts = [account] := Decidable.not_not.1 ha
        cases hc : p.checkSig (K.crypto n) with
        | error e => rw [hc] at h; cases h
        | ok u =>
          rw [hc] at h
          simp only at h
          cases hv : C.verifyProof p with
          | none => rw [hv] at h; cases h
          | some b =>
            rw [hv] at h
            cases b with
            | false => cases h
            | true =>
              simp only at h
              cases hr : C.single (K.item (utxoReconstruct K asset ident address)) with
              | none => rw [hr] at h; cases h
              | some r =>
                rw [hr] at h
                simp only at h
                split at h
                · rename_i hany
                  obtain ⟨x, hx, he⟩ := List.any_eq_true.1 hany
                  refine ⟨hs, ha, ?_, rfl, x, hx, by rw [of_decide_eq_true he]⟩
                  rcases (c30_ok_iff _ p).1 hc with ⟨_, s, h1, h2⟩ | ⟨h1, _⟩
                  · exact ⟨s, h1, ha ▸ h2⟩
                  · rw [h1] at hs; simp at hs
                · cases h
  · rintro ⟨hs, ha, ⟨s, h1, h2⟩, hv, x, hx, hr⟩
    have hne : p.body.senders ≠ [] := by intro e; rw [e] at hx; cases hx
    rw [if_neg (by simp [hshape.2 hs]), if_neg (by simp [ha]),
      (c30_ok_iff _ p).2 (.inl ⟨hne, s, h1, by rw [ha]; exact h2⟩)]
    simp only [hv, hr]
    rw [if_pos (List.any_eq_true.2 ⟨x, hx, by simp⟩)]

/-- C91: which condition a refusal names: the first that fails. -/
theorem c91_errors (K : Kit P) (n : P.Scal) (C : Checker P) (p : Post P.ty) (ident : Bool × P.Rand)
    (asset : Asset) (address : P.Grp) (account : Nat) :
    let out := identityVerification K n C p ident asset address account
    let shape := p.sig.isSome = true ∧ p.body.assetId.isSome = true ∧ p.body.sources = [] ∧ p.body.senders.length = 2 ∧
      p.body.receivers.length = 1 ∧ p.body.sinks.length = 1
    let signed := ∃ s, p.sig = some s ∧ (K.crypto n).verifySig s.key p.body p.sinkAccounts s.sig = true
    let item := K.item (utxoReconstruct K asset ident address)
    (¬ shape → out = .error .invalidShape) ∧
    (shape → p.sinkAccounts ≠ [account] → out = .error .invalidSinkAccount) ∧
    (shape → p.sinkAccounts = [account] → ¬ signed → out = .error .invalidSignature) ∧
    (shape → p.sinkAccounts = [account] → signed → C.verifyProof p ≠ some true → out = .error .invalidProof) ∧
    (shape → p.sinkAccounts = [account] → signed → C.verifyProof p = some true → ∀ r, C.single item = some r →
      (∀ x ∈ p.body.senders, x.root ≠ r) → out = .error .inconsistentOutput) := by
  have hc : ∀ b c i j k l, Canonical .toPublic b c i j k l ↔
      (b = true ∧ c = true ∧ i = 0 ∧ j = 2 ∧ k = 1 ∧ l = 1) := by
    intro b c i j k l
    constructor
    · intro h; cases h; exact ⟨rfl, rfl, rfl, rfl, rfl, rfl⟩
    · rintro ⟨rfl, rfl, rfl, rfl, rfl, rfl⟩; exact .reclaim
  have hshape := c51_from_post p .toPublic
  rw [hc, List.length_eq_zero_iff] at hshape
  have hsig : ∀ (_ : Shape.fromPost p = some .toPublic), p.checkSig (K.crypto n) = .ok () ↔
      ∃ s, p.sig = some s ∧ (K.crypto n).verifySig s.key p.body p.sinkAccounts s.sig = true := by
    intro hs
    rw [c30_ok_iff]
    have h2 := (hshape.1 hs).2.2.2.1
    constructor
    · rintro (⟨_, s, h3, h4⟩ | ⟨h3, _⟩)
      · exact ⟨s, h3, h4⟩
      · rw [h3] at h2; cases h2
    · rintro ⟨s, h3, h4⟩
      exact .inl ⟨fun e => (by rw [e] at h2; cases h2), s, h3, h4⟩
  simp only [← hshape]
  unfold identityVerification
  refine ⟨fun h => if_pos h, fun h ha => ?_, fun h ha hn => ?_, fun h ha hs hv => ?_, fun h ha hs hv r hr hx => ?_⟩ <;>
    rw [if_neg (by simp [h])]
  · exact if_pos ha
  · rw [if_neg (by simp [ha])]
    cases hk : p.checkSig (K.crypto n) with
    | error e => rfl
    | ok u => exact absurd ((hsig h).1 hk) hn
  · rw [if_neg (by simp [ha]), (hsig h).2 hs]
    simp only
    cases hv' : C.verifyProof p with
    | none => rfl
    | some b =>
      cases b with
      | false => rfl
      | true => exact absurd hv' hv
  · rw [if_neg (by simp [ha]), (hsig h).2 hs]
    simp only [hv, hr]
    rw [if_neg]
    simpa using hx

/-- The prover and the verifier of the proof system agree on transfers that satisfy the circuit, and the accumulators
agree. -/
structure Checker.Complete (C : Checker P) (K : Kit P) (n : P.Scal) (q : Nat) : Prop where
  proves : ∀ t, circuit (K.crypto n) q t = some true → ∃ π, K.prove t = some π
  accepts : ∀ t π (p : Post P.ty), circuit (K.crypto n) q t = some true → K.prove t = some π →
    Publishes t π p.body → p.sig.map AuthSig.key = t.auth.map Auth.rpak → C.verifyProof p = some true
  member : ∀ x w r, C.prove1 x = some (w, r) → C.single x = some r ∧ K.member x w r = true

/-- The signature is not one of the degenerate ones that verification refuses (C62); a signer can try again. -/
def Regular (p : Post P.ty) : Prop := ∀ s, p.sig = some s → P.smul P.gen s.sig.1 ≠ s.sig.2

/-- A satisfying transfer of the right shape whose senders name the right output is accepted. -/
theorem accepted_of (L : P.Laws) (K : Kit P) (n : P.Scal) (C : Checker P) (q : Nat) (hC : C.Complete K n q)
    (t : Transfer P.ty) (sk : P.Scal) (a : Auth P.ty) (ha : t.auth = some a) (ho : Owns (K.crypto n) sk a)
    (hid : t.assetId.isSome = true) (hso : t.sources = []) (hse : t.senders.length = 2)
    (hre : t.receivers.length = 1) (hsi : t.sinks.length = 1) (hsat : circuit (K.crypto n) q t = some true)
    (ident : Bool × P.Rand) (asset : Asset) (address : P.Grp) (account : Nat)
    (hroot : ∃ x ∈ t.senders, C.single (K.item (utxoReconstruct K asset ident address)) = some x.root) :
    ∃ p, t.intoPost (K.crypto n) (some sk) [account] = .made p ∧
      (Regular p → identityVerification K n C p ident asset address account = .ok ()) := by
  obtain ⟨π, hπ⟩ := hC.proves t hsat
  have hs : t.senders ≠ [] := by intro e; rw [e] at hse; simp at hse
  have hk : t.sinks ≠ [] := by intro e; rw [e] at hsi; simp at hsi
  let p : Post P.ty := ⟨some ⟨a.rpak, (K.crypto n).sign ((K.crypto n).mul sk a.rand) (Body.build π t) [account]⟩,
    Body.build π t, [account]⟩
  have hpub : Publishes t π p.body := ⟨rfl, rfl, rfl, rfl, rfl, rfl⟩
  have hmade : t.intoPost (K.crypto n) (some sk) [account] = .made p :=
    (c29_signed _ t (some sk) [account] p hs).2 ⟨a, sk, π, ha, rfl, ho, hπ, hpub, rfl, by rw [if_neg hk]⟩
  refine ⟨p, hmade, fun hgood => ?_⟩
  rw [c91_accept_iff]
  refine ⟨⟨rfl, hid, hso, ?_, ?_, hsi⟩, rfl, ⟨_, rfl, ?_⟩, ?_, ?_⟩
  · simpa [p, Body.build] using hse
  · simpa [p, Body.build] using hre
  · exact (c62_signature L K sk n a _ ho).2 (hgood _ rfl)
  · refine hC.accepts t π p hsat hπ hpub ?_
    rw [ha]; rfl
  · obtain ⟨x, hx, hr⟩ := hroot
    exact ⟨x.intoPost, List.mem_map.2 ⟨x, hx, rfl⟩, hr⟩

/-- C91: the proof that a wallet makes for its own address is accepted for exactly this asset, address and account. -/
theorem c91_complete (L : P.Laws) (K : Kit P) (n : P.Scal) (C : Checker P) (q : Nat) (hq : 2 ^ 128 ≤ q)
    (hC : C.Complete K n q) (sk : P.Scal) (ident : Bool × P.Rand) (asset : Asset) (account : Nat) (z : IdCoins P)
    (hid : asset.id ≠ 0) (hv : asset.value < 2 ^ 128)
    (hacc : ∃ wr, C.prove1 (K.item (utxoReconstruct K asset ident (P.smul P.gen (K.viewKey (P.smul P.gen sk))))) = some wr) :
    ∃ p, identityProof K n C sk ident asset account z = some (some p) ∧ (Regular p →
      identityVerification K n C p ident asset (P.smul P.gen (K.viewKey (P.smul P.gen sk))) account = .ok ()) := by
  obtain ⟨⟨w, root⟩, hacc⟩ := hacc
  have hu : ∀ w r, (deriveSpend K (P.smul P.gen sk) ident asset z.er1 w r).utxo =
      utxoReconstruct K asset ident (P.smul P.gen (K.viewKey (P.smul P.gen sk))) := fun _ _ => rfl
  obtain ⟨hsingle, hmem⟩ := hC.member _ _ _ hacc
  have hsat := c61_honest_satisfies K n sk z.r q hq (some asset.id) asset.id []
    [⟨ident, asset, z.er1, w, root⟩, ⟨z.ident2, ⟨asset.id, 0⟩, z.er2, z.wit0, z.root0⟩]
    [⟨P.smul P.gen (K.viewKey (P.smul P.gen sk)), false, ⟨asset.id, 0⟩, z.er3, z.rand3⟩] [asset.value]
    (.inr (by simp)) (.inl (by simp)) (by intro a h; cases h; rfl)
    (by intro s hs; simp only [List.mem_cons, List.not_mem_nil, or_false] at hs; rcases hs with rfl | rfl <;> rfl)
    (by intro m hm; simp only [List.mem_cons, List.not_mem_nil, or_false] at hm; subst hm; rfl)
    (by
      intro s hs
      simp only [List.mem_cons, List.not_mem_nil, or_false] at hs
      rcases hs with rfl | rfl
      · exact .inr fun h => hid (congrArg Asset.id h)
      · exact .inr fun h => hid (congrArg Asset.id h))
    (by
      intro m hm
      simp only [List.mem_cons, List.not_mem_nil, or_false] at hm
      subst hm
      exact .inr fun h => hid (congrArg Asset.id h))
    (by
      intro s hs
      simp only [List.mem_cons, List.not_mem_nil, or_false] at hs
      rcases hs with rfl | rfl
      · exact .inr hmem
      · exact .inl rfl)
    (by simp) (by simpa using hv)
  have ht : honest K sk z.r (some asset.id) []
      [⟨ident, asset, z.er1, w, root⟩, ⟨z.ident2, ⟨asset.id, 0⟩, z.er2, z.wit0, z.root0⟩]
      [⟨P.smul P.gen (K.viewKey (P.smul P.gen sk)), false, ⟨asset.id, 0⟩, z.er3, z.rand3⟩] [asset.value] =
      ⟨some (deriveAuth P sk z.r), some asset.id, [],
        [deriveSpend K (P.smul P.gen sk) ident asset z.er1 w root,
         deriveSpend K (P.smul P.gen sk) z.ident2 ⟨asset.id, 0⟩ z.er2 z.wit0 z.root0],
        [deriveMint K (P.smul P.gen (K.viewKey (P.smul P.gen sk))) ⟨asset.id, 0⟩ false z.er3 z.rand3],
        [asset.value]⟩ := by
    simp [honest, SpendPlan.sender, MintPlan.receiver]
  rw [ht] at hsat
  obtain ⟨p, hp, hok⟩ := accepted_of L K n C q hC _ sk (deriveAuth P sk z.r) rfl ⟨rfl, rfl⟩ rfl rfl rfl rfl rfl hsat
    ident asset (P.smul P.gen (K.viewKey (P.smul P.gen sk))) account
    ⟨_, List.mem_cons_self, hsingle⟩
  refine ⟨p, ?_, hok⟩
  unfold identityProof
  simp only [hu, hacc]
  rw [hp]

/-- C91: making a proof panics only if the one-leaf accumulator cannot prove its leaf; a failing prover is reported. -/
theorem c91_panics (K : Kit P) (n : P.Scal) (C : Checker P) (sk : P.Scal) (ident : Bool × P.Rand) (asset : Asset)
    (account : Nat) (z : IdCoins P) :
    identityProof K n C sk ident asset account z = none ↔
      C.prove1 (K.item (utxoReconstruct K asset ident (P.smul P.gen (K.viewKey (P.smul P.gen sk))))) = none := by
  have hu : ∀ w r, (deriveSpend K (P.smul P.gen sk) ident asset z.er1 w r).utxo =
      utxoReconstruct K asset ident (P.smul P.gen (K.viewKey (P.smul P.gen sk))) := fun _ _ => rfl
  unfold identityProof
  simp only [hu]
  cases hc : C.prove1 (K.item (utxoReconstruct K asset ident (P.smul P.gen (K.viewKey (P.smul P.gen sk))))) with
  | none => simp
  | some wr =>
    obtain ⟨w, root⟩ := wr
    simp only [reduceCtorEq, iff_false]
    have ho : Owns (K.crypto n) sk (deriveAuth P sk z.r) := ⟨rfl, rfl⟩
    unfold Transfer.intoPost
    simp only [requiresAuthorization, List.length_cons, List.length_nil]
    cases hπ : (K.crypto n).prove _ with
    | none => simp
    | some π =>
      have hv : (deriveAuth P sk z.r).verify (K.crypto n) sk = true := by
        simpa [Auth.verify] using And.intro ho.1 ho.2
      simp [authSign, hv, hasSinks]

/-- What a verified proof stands for: a satisfying assignment with the public data of the post. -/
structure Witnessed (K : Kit P) (n : P.Scal) (q : Nat) (p : Post P.ty) (t : Transfer P.ty) : Prop where
  shape : t.auth.isSome = true ↔ t.senders ≠ []
  sat : circuit (K.crypto n) q t = some true
  key : p.sig.map AuthSig.key = t.auth.map Auth.rpak
  senders : p.body.senders.map (fun x => (x.root, x.nul.cm)) = t.senders.map (fun x => (x.root, x.nul.cm))

/-- C91 (part): if the coin that names the expected output is of value, the post was signed under a randomization of
the key that the address belongs to, over this account; otherwise there is a collision. -/
theorem c91_owner_partial (K : Kit P) (n : P.Scal) (C : Checker P) (q : Nat) (hq : 2 ^ 129 ≤ q) (p : Post P.ty)
    (ident : Bool × P.Rand) (asset : Asset) (address : P.Grp) (account : Nat)
    (h : identityVerification K n C p ident asset address account = .ok ()) (t : Transfer P.ty)
    (hw : Witnessed K n q p t)
    (hvalue : ∀ x ∈ t.senders, C.single (K.item (utxoReconstruct K asset ident address)) = some x.root →
      (held x.utxo x.plain).value ≠ 0)
    (hacc : ∀ y w r, C.single (K.item (utxoReconstruct K asset ident address)) = some r → K.member y w r = true →
      y = K.item (utxoReconstruct K asset ident address)) :
    (∃ s pak rand, p.sig = some s ∧ s.key = P.smul pak rand ∧ P.smul P.gen (K.viewKey pak) = address ∧
      protVerify K s.key (K.encode p.body [account]) s.sig = true) ∨
    (∃ y ∈ t.senders, Collision K.item y.utxo (utxoReconstruct K asset ident address)) ∨
    (∃ y ∈ t.senders, ∃ a, t.auth = some a ∧
      Collision (fun x : P.Rand × Nat × Nat × P.Grp => K.commit x.1 x.2.1 x.2.2.1 x.2.2.2)
        (y.plain.rand, y.plain.asset.id, y.plain.asset.value, P.smul P.gen (K.viewKey a.pak))
        (ident.2, (visSecret ident.1 asset).id, (visSecret ident.1 asset).value, address)) := by
  obtain ⟨_, _, ⟨s, hs, hsig⟩, _, x, hx, hr⟩ := (c91_accept_iff ..).1 h
  have hx' : (x.root, x.nul.cm) ∈ t.senders.map (fun x => (x.root, x.nul.cm)) := by
    rw [← hw.senders]; exact List.mem_map.2 ⟨x, hx, rfl⟩
  obtain ⟨y, hy, he⟩ := List.mem_map.1 hx'
  simp only [Prod.mk.injEq] at he
  rw [← he.1] at hr
  obtain ⟨a, ha, hk, hcm, hm, _, _⟩ := (c32_openings (K.crypto n) q hq t hw.shape hw.sat).1 y hy
  have hitem := hacc _ _ _ hr (hm (hvalue y hy hr))
  by_cases hu : y.utxo = utxoReconstruct K asset ident address
  · have hcm' : K.commit y.plain.rand y.plain.asset.id y.plain.asset.value (P.smul P.gen (K.viewKey a.pak)) =
        K.commit ident.2 (visSecret ident.1 asset).id (visSecret ident.1 asset).value address := by
      rw [hu] at hcm
      exact hcm.symm
    by_cases ho : (y.plain.rand, y.plain.asset.id, y.plain.asset.value, P.smul P.gen (K.viewKey a.pak)) =
        (ident.2, (visSecret ident.1 asset).id, (visSecret ident.1 asset).value, address)
    · left
      simp only [Prod.mk.injEq] at ho
      refine ⟨s, a.pak, a.rand, hs, ?_, ho.2.2.2, hsig⟩
      have := hw.key
      rw [hs, ha] at this
      simp only [Option.map_some, Option.some.injEq] at this
      rw [this, hk]
      rfl
    · exact .inr (.inr ⟨y, hy, a, ha, ho, hcm'⟩)
  · exact .inr (.inl ⟨y, hy, hu, hitem⟩)

/-- C91 fails for the code: whoever has some spending key makes an accepted identity proof for any address and account:
the coin of value zero that names the expected output needs no membership proof. -/
theorem c91_forged_violated (L : P.Laws) (K : Kit P) (n : P.Scal) (C : Checker P) (q : Nat) (hq : 2 ^ 128 ≤ q)
    (hC : C.Complete K n q) (ident : Bool × P.Rand) (asset : Asset) (victim : P.Grp) (account : Nat) (root : P.Root)
    (hroot : C.single (K.item (utxoReconstruct K asset ident victim)) = some root)
    (attacker r : P.Scal) (er : P.Scal × P.SRand) (rand : P.Rand) (wit : P.Wit) :
    ∃ t p, circuit (K.crypto n) q t = some true ∧ t.auth = some (deriveAuth P attacker r) ∧
      t.intoPost (K.crypto n) (some attacker) [account] = .made p ∧
      (Regular p → identityVerification K n C p ident asset victim account = .ok ()) := by
  have hsat := c61_honest_satisfies K n attacker r q hq (some 1) 1 []
    [⟨(false, rand), ⟨1, 0⟩, er, wit, root⟩, ⟨(false, rand), ⟨1, 0⟩, er, wit, root⟩]
    [⟨P.smul P.gen attacker, false, ⟨1, 0⟩, er, rand⟩] [0]
    (.inr (by simp)) (.inl (by simp)) (by intro a h; cases h; rfl)
    (by intro s hs; simp only [List.mem_cons, List.not_mem_nil, or_false] at hs; rcases hs with rfl | rfl <;> rfl)
    (by intro m hm; simp only [List.mem_cons, List.not_mem_nil, or_false] at hm; subst hm; rfl)
    (by
      intro s hs
      simp only [List.mem_cons, List.not_mem_nil, or_false] at hs
      rcases hs with rfl | rfl <;> exact .inr (fun h => by cases h))
    (by
      intro m hm
      simp only [List.mem_cons, List.not_mem_nil, or_false] at hm
      subst hm
      exact .inr (fun h => by cases h))
    (by
      intro s hs
      simp only [List.mem_cons, List.not_mem_nil, or_false] at hs
      rcases hs with rfl | rfl <;> exact .inl rfl)
    (by simp) (by simp)
  obtain ⟨p, hp, hok⟩ := accepted_of L K n C q hC _ attacker (deriveAuth P attacker r) (by simp [honest]) ⟨rfl, rfl⟩
    rfl rfl rfl rfl rfl hsat ident asset victim account ⟨_, List.mem_cons_self, hroot⟩
  exact ⟨_, p, hsat, by simp [honest], hp, hok⟩

/-- `identity_verification` of `manta-pay/src/signer/base.rs:227-247`; `none` is `InvalidVirtualAsset`. -/
def payVerification (K : Kit P) (n : P.Scal) (C : Checker P) (p : Post P.ty) (ident : Bool × P.Rand)
    (asset : Asset) (address : P.Grp) (account : Nat) : Option (Except IdErr Unit) :=
  if ident.1 || decide (asset.id = 0) then none
  else some (identityVerification K n C p ident asset address account)

/-- C91: the wallet's verification accepts what the general one accepts, of opaque assets with an id. -/
theorem c91_pay_iff (K : Kit P) (n : P.Scal) (C : Checker P) (p : Post P.ty) (ident : Bool × P.Rand)
    (asset : Asset) (address : P.Grp) (account : Nat) :
    payVerification K n C p ident asset address account = some (.ok ()) ↔
      ident.1 = false ∧ asset.id ≠ 0 ∧ identityVerification K n C p ident asset address account = .ok () := by
  unfold payVerification
  rcases hi : ident.1 <;> by_cases ha : asset.id = 0 <;> simp [ha]

/-- C91: the added condition does not exclude the forgery. -/
theorem c91_forged_pay_violated (L : P.Laws) (K : Kit P) (n : P.Scal) (C : Checker P) (q : Nat) (hq : 2 ^ 128 ≤ q)
    (hC : C.Complete K n q) (rand' : P.Rand) (asset : Asset) (hid : asset.id ≠ 0) (victim : P.Grp) (account : Nat)
    (root : P.Root) (hroot : C.single (K.item (utxoReconstruct K asset (false, rand') victim)) = some root)
    (attacker r : P.Scal) (er : P.Scal × P.SRand) (rand : P.Rand) (wit : P.Wit) :
    ∃ t p, circuit (K.crypto n) q t = some true ∧ t.auth = some (deriveAuth P attacker r) ∧
      t.intoPost (K.crypto n) (some attacker) [account] = .made p ∧
      (Regular p → payVerification K n C p (false, rand') asset victim account = some (.ok ())) := by
  obtain ⟨t, p, h1, h2, h3, h4⟩ := c91_forged_violated L K n C q hq hC (false, rand') asset victim account root hroot
    attacker r er rand wit
  exact ⟨t, p, h1, h2, h3, fun h => (c91_pay_iff ..).2 ⟨rfl, hid, h4 h⟩⟩

/-! ## C92 -/

/-- `open_with_check`, utxo/mod.rs:313-326. -/
def openWithCheck (K : Kit P) (dk : P.Scal) (r : ReceiverPost P.ty) : Option ((Bool × P.Rand) × Asset) :=
  match noteOpen K dk r.utxo r.note with
  | none => none
  | some (ident, asset) => if utxoCheck K r.utxo asset ident dk then some (ident, asset) else none

/-- `TransactionData`, canonical.rs:790-801. -/
inductive TxData (P : Prim) where
  | toPrivate (x : (Bool × P.Rand) × Asset)
  | privateTransfer (l : List ((Bool × P.Rand) × Asset))
  | toPublic (x : (Bool × P.Rand) × Asset)

/-- `transaction_data`, functions.rs:1383-1424. `take_first` of an empty list panics, which the shape excludes. -/
def transactionData (K : Kit P) (dk : P.Scal) (p : Post P.ty) : Option (TxData P) :=
  match Shape.fromPost p with
  | none => none
  | some .toPrivate => (p.body.receivers.head?.bind (openWithCheck K dk)).map .toPrivate
  | some .privateTransfer =>
    let l := p.body.receivers.filterMap (openWithCheck K dk)
    if l.isEmpty then none else some (.privateTransfer l)
  | some .toPublic => (p.body.receivers.head?.bind (openWithCheck K dk)).map .toPublic

/-- `TransactionData::open`, canonical.rs:806-818. -/
def TxData.list : TxData P → List ((Bool × P.Rand) × Asset)
  | .toPrivate x => [x]
  | .privateTransfer l => l
  | .toPublic x => [x]

/-- `check_transaction_data`, canonical.rs:836-846. -/
def TxData.check (K : Kit P) (address : P.Grp) (utxos : List (Utxo P.ty)) (d : TxData P) : Bool :=
  decide (d.list.map (fun x => utxoReconstruct K x.2 x.1 address) = utxos)

/-- C92: what is returned are coins of the post, in order, that belong to the address of the key. -/
theorem c92_sound (K : Kit P) (dk : P.Scal) (p : Post P.ty) (d : TxData P)
    (h : transactionData K dk p = some d) :
    (d.list.map fun x => utxoReconstruct K x.2 x.1 (P.smul P.gen dk)).Sublist (p.body.receivers.map ReceiverPost.utxo) ∧
    d.list ≠ [] := by
  have hone : ∀ r x, openWithCheck K dk r = some x → utxoReconstruct K x.2 x.1 (P.smul P.gen dk) = r.utxo := by
    intro r x hx
    unfold openWithCheck at hx
    split at hx
    · cases hx
    · split at hx
      · rename_i hc
        cases hx
        exact of_decide_eq_true hc
      · cases hx
  have hhead : ∀ x, p.body.receivers.head?.bind (openWithCheck K dk) = some x →
      [utxoReconstruct K x.2 x.1 (P.smul P.gen dk)].Sublist (p.body.receivers.map ReceiverPost.utxo) := by
    intro x hx
    cases hr : p.body.receivers with
    | nil => rw [hr] at hx; cases hx
    | cons r rs =>
      rw [hr] at hx
      rw [hone r x hx, List.map_cons]
      exact List.Sublist.cons_cons _ (List.nil_sublist _)
  unfold transactionData at h
  split at h
  · cases h
  · obtain ⟨x, hx, rfl⟩ := Option.map_eq_some_iff.1 h
    exact ⟨hhead x hx, by simp [TxData.list]⟩
  · simp only at h
    split at h
    · cases h
    · rename_i hne
      cases h
      refine ⟨?_, by simpa [TxData.list] using hne⟩
      show ((p.body.receivers.filterMap (openWithCheck K dk)).map _).Sublist _
      generalize p.body.receivers = rs
      induction rs with
      | nil => exact List.Sublist.refl _
      | cons r rs ih =>
        rw [List.filterMap_cons]
        split
        · exact List.Sublist.cons _ ih
        · rename_i x hx
          rw [List.map_cons, List.map_cons, hone r x hx]
          exact List.Sublist.cons_cons _ ih
  · obtain ⟨x, hx, rfl⟩ := Option.map_eq_some_iff.1 h
    exact ⟨hhead x hx, by simp [TxData.list]⟩

/-- The kind of transaction that data are about. -/
def TxData.shape : TxData P → Shape
  | .toPrivate _ => .toPrivate
  | .privateTransfer _ => .privateTransfer
  | .toPublic _ => .toPublic

/-- C92: the data say what kind of transaction the post is, and there are none for a post of no kind. -/
theorem c92_kind (K : Kit P) (dk : P.Scal) (p : Post P.ty) (d : TxData P) (h : transactionData K dk p = some d) :
    Shape.fromPost p = some d.shape := by
  unfold transactionData at h
  split at h
  · cases h
  · next hs => obtain ⟨x, hx, rfl⟩ := Option.map_eq_some_iff.1 h; exact hs
  · next hs =>
    simp only at h
    split at h
    · cases h
    · cases h; exact hs
  · next hs => obtain ⟨x, hx, rfl⟩ := Option.map_eq_some_iff.1 h; exact hs

/-- C92: transaction data are accepted for one address only, unless there is a collision of commitments. -/
theorem c92_address (K : Kit P) (a b : P.Grp) (utxos : List (Utxo P.ty)) (d : TxData P) (hne : utxos ≠ [])
    (ha : d.check K a utxos = true) (hb : d.check K b utxos = true) :
    a = b ∨ ∃ x ∈ d.list, Collision (fun c => K.commit x.1.2 (visSecret x.1.1 x.2).id (visSecret x.1.1 x.2).value c) a b := by
  have ha := of_decide_eq_true ha
  have hb := of_decide_eq_true hb
  rw [← hb] at ha
  cases hl : d.list with
  | nil => rw [hl] at hb; exact absurd hb.symm hne
  | cons x l =>
    rw [hl, List.map_cons, List.map_cons, List.cons.injEq] at ha
    by_cases h : a = b
    · exact .inl h
    · exact .inr ⟨x, List.mem_cons_self, h, congrArg Utxo.cm ha.1⟩

/-- C92: what the owner extracts passes the check for their address against exactly the coins that are theirs. -/
theorem c92_check (K : Kit P) (dk : P.Scal) (p : Post P.ty) (d : TxData P) (h : transactionData K dk p = some d) :
    ∃ us, us.Sublist (p.body.receivers.map ReceiverPost.utxo) ∧ us ≠ [] ∧ d.check K (P.smul P.gen dk) us = true := by
  obtain ⟨h1, h2⟩ := c92_sound K dk p d h
  exact ⟨_, h1, by simpa using h2, decide_eq_true rfl⟩

/-- The coin of a plan as it is published. -/
def MintPlan.post (K : Kit P) (m : MintPlan P) : ReceiverPost P.ty := (m.receiver K).intoPost

/-- Opening an opaque coin for the own address. -/
theorem open_own (L : P.Laws) (K : Kit P) {V : Asset → Prop} (hc : K.Correct V) (dk : P.Scal) (m : MintPlan P)
    (hv : V m.asset) (ha : m.address = P.smul P.gen dk) (ht : m.transparent = false) :
    openWithCheck K dk (m.post K) = some ((false, m.rand), m.asset) := by
  obtain ⟨address, tr, asset, er, rand⟩ := m
  simp only at ha ht hv
  subst ha ht
  have hp := hybrid_roundtrip L K.encL K.decL (⟨rand, asset⟩ : Plain P.ty) (fun k r => hc.light k r _ hv) dk er
  simp only [dhPublic] at hp
  simp [openWithCheck, MintPlan.post, MintPlan.receiver, Receiver.intoPost, noteOpen, deriveMint, visSecret, hp,
    utxoCheck, utxoReconstruct]

/-- C92: the owner of a post whose change or self-addressed coin is opaque always gets the data of the post, and for a
private transfer every opaque coin of their address is in it. -/
theorem c92_complete (L : P.Laws) (K : Kit P) {V : Asset → Prop} (hc : K.Correct V) (dk : P.Scal) (p : Post P.ty)
    (ms : List (MintPlan P)) (hms : p.body.receivers = ms.map (MintPlan.post K)) (hv : ∀ m ∈ ms, V m.asset)
    (hshape : Shape.fromPost p ≠ none)
    (hfirst : Shape.fromPost p ≠ some .privateTransfer →
      ∃ m, ms.head? = some m ∧ m.address = P.smul P.gen dk ∧ m.transparent = false)
    (hsome : Shape.fromPost p = some .privateTransfer →
      ∃ m ∈ ms, m.address = P.smul P.gen dk ∧ m.transparent = false) :
    ∃ d, transactionData K dk p = some d ∧
      (Shape.fromPost p = some .privateTransfer → ∀ m ∈ ms, m.address = P.smul P.gen dk → m.transparent = false →
        ((false, m.rand), m.asset) ∈ d.list) ∧
      (Shape.fromPost p ≠ some .privateTransfer → ∀ m, ms.head? = some m → d.list = [((false, m.rand), m.asset)]) := by
  have hhead : Shape.fromPost p ≠ some .privateTransfer → ∃ m, ms.head? = some m ∧
      p.body.receivers.head?.bind (openWithCheck K dk) = some ((false, m.rand), m.asset) := by
    intro h
    obtain ⟨m, h1, h2, h3⟩ := hfirst h
    refine ⟨m, h1, ?_⟩
    rw [hms, List.head?_map, h1]
    exact open_own L K hc dk m (hv m (List.mem_of_mem_head? (by rw [h1]; rfl))) h2 h3
  unfold transactionData
  rcases hs : Shape.fromPost p with _ | s
  · exact absurd hs hshape
  · rcases s
    · obtain ⟨m, h1, h2⟩ := hhead (by rw [hs]; simp)
      rw [h2]
      refine ⟨_, rfl, by simp, fun _ m' h => ?_⟩
      rw [h1] at h; cases h; rfl
    · obtain ⟨m, h1, h2, h3⟩ := hsome hs
      have hin : ∀ m ∈ ms, m.address = P.smul P.gen dk → m.transparent = false →
          ((false, m.rand), m.asset) ∈ p.body.receivers.filterMap (openWithCheck K dk) := by
        intro m hm h2 h3
        refine List.mem_filterMap.2 ⟨m.post K, by rw [hms]; exact List.mem_map.2 ⟨m, hm, rfl⟩, ?_⟩
        exact open_own L K hc dk m (hv m hm) h2 h3
      simp only
      rw [if_neg (by
        intro he
        have := hin m h1 h2 h3
        rw [List.isEmpty_iff.1 he] at this
        cases this)]
      exact ⟨_, rfl, fun _ => hin, fun h => absurd rfl h⟩
    · obtain ⟨m, h1, h2⟩ := hhead (by rw [hs]; simp)
      rw [h2]
      refine ⟨_, rfl, by simp, fun _ m' h => ?_⟩
      rw [h1] at h; cases h; rfl

/-! ## A concrete instance -/

/-- The output of an accumulator with one item is the sum of its encoding plus one. -/
def tC : Checker tP where
  single i := some (List.sum i + 1 : Nat)
  prove1 i := some ((1 : Nat), (List.sum i + 1 : Nat))
  verifyProof _ := some true

theorem tC_member : ∀ (x : List Nat) (w r : Nat), tC.prove1 x = some (w, r) →
    tC.single x = some r ∧ tK.member x w r = true := by
  intro x w r h
  simp only [tC, Option.some.injEq, Prod.mk.injEq] at h
  obtain ⟨rfl, rfl⟩ := h
  refine ⟨rfl, ?_⟩
  simp [Nat.add_comm]

/-- The prover of the toy fails only without receivers, for which this prover succeeds too. -/
def tK' : Kit tP := {tK with prove := fun _ => some (7 : Nat)}

example : tC.Complete tK' (2 : Nat) (2 ^ 254) where
  proves t _ := ⟨_, rfl⟩
  accepts _ _ _ _ _ _ _ := rfl
  member := tC_member

/-- Key 4 proves its identity for account 77 with a virtual coin of 5 of asset 8. Key 3 forges it. -/
def tIdCoins : IdCoins tP :=
  ⟨((6 : Nat), (0 : Nat)), (true, (2 : Nat)), ((6 : Nat), (0 : Nat)), ((2 : Nat), (0 : Nat)), (3 : Nat), (3 : Nat), (0 : Nat), (0 : Nat)⟩

example : (match identityProof tK' (2 : Nat) tC (4 : Nat) (false, (1 : Nat)) ⟨8, 5⟩ 77 tIdCoins with
     | some (some p) => decide (identityVerification tK' (2 : Nat) tC p (false, (1 : Nat)) ⟨8, 5⟩ (5 : Nat) 77 matches .ok ()) &&
        decide (identityVerification tK' (2 : Nat) tC p (false, (1 : Nat)) ⟨8, 5⟩ (6 : Nat) 77 matches .error .inconsistentOutput) &&
        decide (identityVerification tK' (2 : Nat) tC p (false, (1 : Nat)) ⟨8, 5⟩ (5 : Nat) 78 matches .error .invalidSinkAccount)
     | _ => false) = true := by decide +kernel

/-- The published coins of a private transfer with one coin for key 5 and one for another address. -/
example : (match transactionData tK (5 : Nat)
      ⟨some ⟨(1 : Nat), ((1 : Nat), (1 : Nat))⟩, ⟨none, [], [⟨(0 : Nat), ⟨[], ((0 : Nat), [])⟩⟩, ⟨(0 : Nat), ⟨[], ((0 : Nat), [])⟩⟩],
        [(MintPlan.post tK ⟨(6 : Nat), false, ⟨8, 1⟩, ((2 : Nat), (0 : Nat)), (3 : Nat)⟩),
         (MintPlan.post tK ⟨(5 : Nat), false, ⟨8, 9⟩, ((2 : Nat), (0 : Nat)), (4 : Nat)⟩)], [], (7 : Nat)⟩, []⟩ with
     | some (.privateTransfer l) => decide (l = [((false, (4 : Nat)), ⟨8, 9⟩)])
     | _ => false) = true := by decide +kernel

end Verif.Transfer
