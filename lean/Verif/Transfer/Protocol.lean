import Verif.Transfer.Props

/-!
# UTXO protocol: minting, spending, opening notes, signing

Models `manta-accounting/src/transfer/utxo/protocol.rs:1002-1500`, hybrid encryption
(`manta-crypto/src/encryption/hybrid.rs:442-500`), Diffie-Hellman agreement
(`manta-crypto/src/algebra/diffie_hellman.rs:155-345`) and Schnorr signatures
(`manta-crypto/src/signature/mod.rs:455-525`). Symmetric encryption, hashes and commitments are parameters.

Properties C61 (honest transfers satisfy the circuit), C62 (posts made by the owner carry a valid
signature), C63 (a received coin is recovered by its owner).
-/

namespace Verif.Transfer

open Verif.Asset (Asset)

/-- Types and primitive functions of the protocol. -/
structure Prim where
  Scal : Type
  Grp : Type
  Root : Type
  Wit : Type
  Rand : Type
  /-- randomness of the symmetric encryption schemes -/
  SRand : Type
  UCm : Type
  Item : Type
  NCm : Type
  /-- symmetric ciphertexts of the incoming, light incoming and outgoing schemes -/
  CI : Type
  CL : Type
  CO : Type
  Part : Type
  Proof : Type
  In : Type
  [dGrp : DecidableEq Grp]
  [dRoot : DecidableEq Root]
  [dUCm : DecidableEq UCm]
  [dNCm : DecidableEq NCm]
  [dCI : DecidableEq CI]
  [dCL : DecidableEq CL]
  [dCO : DecidableEq CO]
  [dPart : DecidableEq Part]
  gen : Grp
  smul : Grp → Scal → Grp
  gadd : Grp → Grp → Grp
  mul : Scal → Scal → Scal
  add : Scal → Scal → Scal

attribute [instance] Prim.dGrp Prim.dRoot Prim.dUCm Prim.dNCm Prim.dCI Prim.dCL Prim.dCO Prim.dPart

/-- Notes are an ephemeral public key with a ciphertext (hybrid.rs:100-130), encryption randomness is an
ephemeral secret key with randomness (hybrid.rs:330-350), signatures are a scalar with a nonce point
(signature/mod.rs:365-385). -/
@[reducible] def Prim.ty (P : Prim) : Ty where
  Scal := P.Scal
  Grp := P.Grp
  Root := P.Root
  Wit := P.Wit
  Rand := P.Rand
  ERand := P.Scal × P.SRand
  UCm := P.UCm
  Item := P.Item
  NCm := P.NCm
  ONote := P.Grp × P.CO
  INote := P.Grp × P.CI
  LNote := P.Grp × P.CL
  Part := P.Part
  Proof := P.Proof
  In := P.In
  Sig := P.Scal × P.Grp

/-- Group and ring laws used. -/
structure Prim.Laws (P : Prim) : Prop where
  smul_smul : ∀ g a b, P.smul (P.smul g a) b = P.smul g (P.mul a b)
  mul_comm : ∀ a b, P.mul a b = P.mul b a
  smul_add : ∀ g a b, P.smul g (P.add a b) = P.gadd (P.smul g a) (P.smul g b)

/-- Remaining primitive functions, over the types. -/
structure Kit (P : Prim) where
  viewKey : P.Grp → P.Scal
  commit : P.Rand → Nat → Nat → P.Grp → P.UCm
  item : Utxo P.ty → P.Item
  nullCommit : P.Grp → P.Item → P.NCm
  member : P.Item → P.Wit → P.Root → Bool
  partition : P.Grp → P.Part
  encI : P.Grp → P.SRand → Plain P.ty → P.CI
  encL : P.Grp → P.SRand → Plain P.ty → P.CL
  decL : P.Grp → P.CL → Option (Plain P.ty)
  encO : P.Grp → P.SRand → Asset → P.CO
  decO : P.Grp → P.CO → Option Asset
  /-- Schnorr challenge of key, nonce point and encoded message (`message.to_vec()`, see C53) -/
  challenge : P.Grp → P.Grp → List Nat → P.Scal
  encode : Body P.ty → List Nat → List Nat
  prove : Transfer P.ty → Option P.Proof

/-- Symmetric decryption inverts encryption on the assets satisfying `V` (those that fit the encodings;
`Verif.Cipher` shows it for the schemes of manta-pay). -/
structure Kit.Correct {P : Prim} (K : Kit P) (V : Asset → Prop) : Prop where
  light : ∀ k r m, V m.asset → K.decL k (K.encL k r m) = some m
  outgoing : ∀ k r a, V a → K.decO k (K.encO k r a) = some a

variable {P : Prim}

/-! ## Key agreement and hybrid encryption -/

/-- `derive`, `derive_ephemeral`: diffie_hellman.rs:175-197. -/
def dhPublic (P : Prim) (sk : P.Scal) : P.Grp := P.smul P.gen sk
/-- `generate_secret`: diffie_hellman.rs:199-212. -/
def dhGenerate (P : Prim) (pk : P.Grp) (esk : P.Scal) : P.Grp := P.smul pk esk
/-- `reconstruct_secret`: diffie_hellman.rs:229-242 and 333-345. -/
def dhReconstruct (P : Prim) (epk : P.Grp) (sk : P.Scal) : P.Grp := P.smul epk sk
/-- `generate_secret` of the variant with known scalar: diffie_hellman.rs:290-307. -/
def dhGenerateKnown (P : Prim) (pk : P.Scal) (esk : P.Scal) : P.Grp := P.smul P.gen (P.mul pk esk)

/-- `Hybrid::encrypt`, hybrid.rs:442-472. -/
def hybridEnc (P : Prim) {SR M C : Type} (enc : P.Grp → SR → M → C) (pk : P.Grp) (r : P.Scal × SR)
    (m : M) : P.Grp × C :=
  (dhPublic P r.1, enc (dhGenerate P pk r.1) r.2 m)

/-- `Hybrid::decrypt`, hybrid.rs:474-500. -/
def hybridDec (P : Prim) {M C : Type} (dec : P.Grp → C → Option M) (sk : P.Scal) (c : P.Grp × C) :
    Option M :=
  dec (dhReconstruct P c.1 sk) c.2

/-! ## Signatures -/

/-- `Schnorr::sign`, signature/mod.rs:466-495. -/
def schnorrSign (K : Kit P) (x n : P.Scal) (m : List Nat) : P.Scal × P.Grp :=
  let R := P.smul P.gen n
  (P.add n (P.mul x (K.challenge (P.smul P.gen x) R m)), R)

/-- `Schnorr::verify`, signature/mod.rs:505-525. -/
def schnorrVerify (K : Kit P) (vk : P.Grp) (m : List Nat) (s : P.Scal × P.Grp) : Bool :=
  decide (P.smul P.gen s.1 = P.gadd s.2 (P.smul vk (K.challenge vk s.2 m)))

/-- `VerifySignature::verify`, protocol.rs:1096-1120. -/
def protVerify (K : Kit P) (vk : P.Grp) (m : List Nat) (s : P.Scal × P.Grp) : Bool :=
  if P.smul P.gen s.1 = s.2 then false else schnorrVerify K vk m s

/-- The cryptography of transfers built from the primitives; `n` is the nonce drawn when signing. -/
def Kit.crypto (K : Kit P) (n : P.Scal) : Crypto P.ty where
  gen := P.gen
  smul := P.smul
  mul := P.mul
  viewKey := K.viewKey
  commit := K.commit
  item := K.item
  nullCommit := K.nullCommit
  encIn := fun pk r m => hybridEnc P K.encI pk r m
  member := K.member
  sign := fun x b acc => schnorrSign K x n (K.encode b acc)
  verifySig := fun vk b acc s => protVerify K vk (K.encode b acc) s
  prove := K.prove

/-! ## Minting and spending -/

/-- `Visibility::secret`, protocol.rs:92-101. -/
def visSecret (transparent : Bool) (a : Asset) : Asset := if transparent then ⟨0, 0⟩ else a
/-- `Visibility::public`, protocol.rs:105-114. -/
def visPublic (transparent : Bool) (a : Asset) : Asset := if transparent then a else ⟨0, 0⟩

/-- `derive_mint`, protocol.rs:1152-1208; `light_incoming_randomness` 2102-2110 is the same randomness. -/
def deriveMint (K : Kit P) (address : P.Grp) (asset : Asset) (transparent : Bool) (er : P.Scal × P.SRand)
    (rand : P.Rand) : Receiver P.ty :=
  let plain : Plain P.ty := ⟨rand, visSecret transparent asset⟩
  { rk := address, irand := er, plain := plain,
    utxo := ⟨transparent, visPublic transparent asset,
      K.commit rand plain.asset.id plain.asset.value address⟩,
    note := ⟨K.partition address, hybridEnc P K.encI address er plain, hybridEnc P K.encL address er plain⟩ }

/-- `derive_spend`, protocol.rs:1291-1350, with the membership proof attached (`PreSender::upgrade`,
sender.rs:150-166). The identifier is transparency flag and commitment randomness. -/
def deriveSpend (K : Kit P) (pak : P.Grp) (ident : Bool × P.Rand) (asset : Asset) (er : P.Scal × P.SRand)
    (wit : P.Wit) (root : P.Root) : Sender P.ty :=
  let plain : Plain P.ty := ⟨ident.2, visSecret ident.1 asset⟩
  let rk := P.smul P.gen (K.viewKey pak)
  let utxo : Utxo P.ty := ⟨ident.1, visPublic ident.1 asset, K.commit ident.2 plain.asset.id plain.asset.value rk⟩
  { orand := er, plain := plain, utxo := utxo, wit := wit, root := root,
    nul := ⟨K.nullCommit pak (K.item utxo), hybridEnc P K.encO rk er asset⟩ }

/-- `NoteOpen::open`, protocol.rs:1403-1435. -/
def noteOpen (K : Kit P) (dk : P.Scal) (u : Utxo P.ty) (n : FullNote P.ty) : Option ((Bool × P.Rand) × Asset) :=
  if K.partition (P.smul P.gen dk) = n.part then
    match hybridDec P K.decL dk n.lnote with
    | none => none
    | some plain => some ((u.transparent, plain.rand), plain.asset)
  else none

/-- `utxo_reconstruct`, protocol.rs:1463-1490. -/
def utxoReconstruct (K : Kit P) (asset : Asset) (ident : Bool × P.Rand) (address : P.Grp) : Utxo P.ty :=
  ⟨ident.1, visPublic ident.1 asset,
    K.commit ident.2 (visSecret ident.1 asset).id (visSecret ident.1 asset).value address⟩

/-- `utxo_check`, protocol.rs:1492-1502. -/
def utxoCheck (K : Kit P) (u : Utxo P.ty) (asset : Asset) (ident : Bool × P.Rand) (dk : P.Scal) : Bool :=
  decide (utxoReconstruct K asset ident (P.smul P.gen dk) = u)

/-- `NullifierOpen::open`, protocol.rs:1376-1395. -/
def nullifierOpen (K : Kit P) (dk : P.Scal) (n : Nul P.ty) : Option Asset := hybridDec P K.decO dk n.note

/-- `derive_context` and `prove`, protocol.rs:1004-1040. -/
def deriveAuth (P : Prim) (sk r : P.Scal) : Auth P.ty :=
  ⟨P.smul P.gen sk, r, P.smul (P.smul P.gen sk) r⟩

/-! ## Key agreement laws -/

/-- Both sides of the key agreement obtain the same secret. -/
theorem dh_agree (L : P.Laws) (sk esk : P.Scal) :
    dhReconstruct P (dhPublic P esk) sk = dhGenerate P (dhPublic P sk) esk := by
  simp only [dhReconstruct, dhPublic, dhGenerate, L.smul_smul, L.mul_comm]

/-- Same for the variant used where the scalar is known. -/
theorem dh_agree_known (L : P.Laws) (sk esk : P.Scal) :
    dhReconstruct P (dhPublic P esk) sk = dhGenerateKnown P sk esk := by
  simp only [dhReconstruct, dhPublic, dhGenerateKnown, L.smul_smul]
  rw [L.mul_comm]

theorem hybrid_roundtrip (L : P.Laws) {SR M C : Type} (enc : P.Grp → SR → M → C)
    (dec : P.Grp → C → Option M) (m : M) (h : ∀ k r, dec k (enc k r m) = some m) (sk : P.Scal)
    (r : P.Scal × SR) :
    hybridDec P dec sk (hybridEnc P enc (dhPublic P sk) r m) = some m := by
  simp only [hybridDec, hybridEnc, dh_agree L]
  exact h ..

/-! ## C62 -/

/-- C62: the signature made with the randomized key verifies under the authorization key of the
authorization for exactly the signed message, unless the response carries no information on the key
(`gen * scalar` equals the nonce point), which the verifier rejects. -/
theorem c62_signature (L : P.Laws) (K : Kit P) (k n : P.Scal) (a : Auth P.ty) (m : List Nat)
    (ho : Owns (K.crypto n) k a) :
    protVerify K a.rpak m (schnorrSign K (P.mul k a.rand) n m) = true ↔
      P.smul P.gen (schnorrSign K (P.mul k a.rand) n m).1 ≠ P.smul P.gen n := by
  obtain ⟨h1, h2⟩ := ho
  have hk : a.rpak = P.smul P.gen (P.mul k a.rand) := by
    have : a.rpak = P.smul (P.smul P.gen k) a.rand := by rw [h2, h1]; rfl
    rw [this, L.smul_smul]
  have hv : schnorrVerify K a.rpak m (schnorrSign K (P.mul k a.rand) n m) = true := by
    simp only [schnorrVerify, schnorrSign, decide_eq_true_eq, L.smul_add, hk, L.smul_smul]
  unfold protVerify
  rw [hv]
  have hn : (schnorrSign K (P.mul k a.rand) n m).2 = P.smul P.gen n := rfl
  rw [hn]
  by_cases hx : P.smul P.gen (schnorrSign K (P.mul k a.rand) n m).1 = P.smul P.gen n
  · rw [if_pos hx]; simp [hx]
  · rw [if_neg hx]; simp [hx]

/-- C62: the authorization that the protocol derives from a signing key and a randomizer belongs to that
key, also in the eyes of the check made before signing, and the signatures made with it verify. -/
theorem c62_derived (L : P.Laws) (K : Kit P) (sk r n : P.Scal) (m : List Nat) :
    (deriveAuth P sk r).verify (K.crypto n) sk = true ∧
    (protVerify K (deriveAuth P sk r).rpak m (schnorrSign K (P.mul sk r) n m) = true ↔
      P.smul P.gen (schnorrSign K (P.mul sk r) n m).1 ≠ P.smul P.gen n) :=
  have ho : Owns (K.crypto n) sk (deriveAuth P sk r) := ⟨rfl, rfl⟩
  ⟨(auth_verify_iff _ _ _).mpr ho, c62_signature L K sk n _ m ho⟩

/-- C62: a post that `into_post` makes for a transfer with sinks, or whose sink accounts are empty, passes
the authorization check (up to the rejected responses). -/
theorem c62_post_valid (L : P.Laws) (K : Kit P) (n : P.Scal) (t : Transfer P.ty) (sk : Option P.Scal)
    (acc : List Nat) (p : Post P.ty) (h : t.intoPost (K.crypto n) sk acc = .made p)
    (hacc : t.sinks ≠ [] ∨ acc = [])
    (hgood : ∀ s, p.sig = some s → P.smul P.gen s.sig.1 ≠ s.sig.2) :
    p.checkSig (K.crypto n) = .ok () := by
  rw [c30_ok_iff]
  by_cases hs : t.senders = []
  · right
    obtain ⟨_, _, π, _, hb, hsig, _⟩ := (c29_unsigned _ t sk acc p hs).1 h
    exact ⟨by rw [hb.senders, hs]; rfl, hsig⟩
  · left
    obtain ⟨a, k, π, _, _, ho, _, hb, hsig, hsa⟩ := (c29_signed _ t sk acc p hs).1 h
    refine ⟨by rw [hb.senders]; simpa using hs, _, hsig, ?_⟩
    have hacc' : p.sinkAccounts = acc := by
      rw [hsa]
      by_cases hk : t.sinks = []
      · rw [if_pos hk]
        rcases hacc with h | h
        · exact absurd hk h
        · exact h.symm
      · rw [if_neg hk]
    rw [hacc']
    have := hgood _ hsig
    exact (c62_signature L K k n a (K.encode p.body acc) ho).2 this

/-- A post without sinks that was signed together with sink accounts does not carry them, so its signature
is checked against another message (mod.rs:757-768): concretely, the check is made on the empty list. -/
theorem c62_accounts_dropped (K : Kit P) (n : P.Scal) (t : Transfer P.ty) (sk : Option P.Scal)
    (acc : List Nat) (p : Post P.ty) (h : t.intoPost (K.crypto n) sk acc = .made p)
    (hs : t.senders ≠ []) (hk : t.sinks = []) :
    ∃ a k, p.sig = some ⟨Auth.rpak a, schnorrSign K (P.mul k a.rand) n (K.encode p.body acc)⟩ ∧
      (p.checkSig (K.crypto n) = .ok () ↔
        protVerify K a.rpak (K.encode p.body []) (schnorrSign K (P.mul k a.rand) n (K.encode p.body acc))
          = true) := by
  obtain ⟨a, k, π, _, _, ho, _, hb, hsig, hsa⟩ := (c29_signed _ t sk acc p hs).1 h
  rw [if_pos hk] at hsa
  refine ⟨a, k, hsig, ?_⟩
  rw [c30_ok_iff, hsa]
  constructor
  · rintro (⟨_, s, h1, h2⟩ | ⟨h1, _⟩)
    · rw [hsig] at h1; cases h1; exact h2
    · rw [hb.senders] at h1; exact absurd (List.map_eq_nil_iff.1 h1) hs
  · intro hv
    left
    exact ⟨by rw [hb.senders]; simpa using hs, _, hsig, hv⟩

/-! ## C63 -/

/-- C63 (part): the owner of the address recovers an opaque coin: opening gives its identifier and asset,
the recovered data reconstructs the UTXO on the ledger, and spending it produces that same UTXO. -/
theorem c63_opaque_recovered_partial (L : P.Laws) (K : Kit P) {V : Asset → Prop} (hc : K.Correct V) (pak : P.Grp)
    (asset : Asset) (hv : V asset) (er er' : P.Scal × P.SRand) (rand : P.Rand) (wit : P.Wit) (root : P.Root) :
    let dk := K.viewKey pak
    let r := deriveMint K (P.smul P.gen dk) asset false er rand
    noteOpen K dk r.utxo r.note = some ((false, rand), asset) ∧
    utxoCheck K r.utxo asset (false, rand) dk = true ∧
    (deriveSpend K pak (false, rand) asset er' wit root).utxo = r.utxo := by
  refine ⟨?_, ?_, ?_⟩
  · have hp := hybrid_roundtrip L K.encL K.decL (⟨rand, visSecret false asset⟩ : Plain P.ty)
      (fun k r => hc.light k r _ hv) (K.viewKey pak) er
    simp only [dhPublic] at hp
    simp only [noteOpen, deriveMint, if_true, hp]
    simp [visSecret]
  · simp [utxoCheck, utxoReconstruct, deriveMint]
  · simp [deriveSpend, deriveMint]

/-- C63 fails for transparent coins: opening always yields the empty asset, because the notes encrypt the
secret half of the asset only, so the reconstruction check that guards insertion into the wallet passes only
for an empty asset. -/
theorem c63_transparent_violated (L : P.Laws) (K : Kit P) {V : Asset → Prop} (hc : K.Correct V)
    (hv : V ⟨0, 0⟩) (dk : P.Scal) (asset : Asset) (er : P.Scal × P.SRand) (rand : P.Rand) :
    let r := deriveMint K (P.smul P.gen dk) asset true er rand
    noteOpen K dk r.utxo r.note = some ((true, rand), ⟨0, 0⟩) ∧
    (utxoCheck K r.utxo ⟨0, 0⟩ (true, rand) dk = true ↔ asset = ⟨0, 0⟩) := by
  refine ⟨?_, ?_⟩
  · have hp := hybrid_roundtrip L K.encL K.decL (⟨rand, visSecret true asset⟩ : Plain P.ty)
      (fun k r => hc.light k r _ hv) dk er
    simp only [dhPublic] at hp
    simp only [noteOpen, deriveMint, if_true, hp]
    simp [visSecret]
  · simp only [utxoCheck, utxoReconstruct, deriveMint, visPublic, visSecret, if_true, decide_eq_true_eq,
      Utxo.mk.injEq]
    constructor
    · rintro ⟨_, h, _⟩; exact h.symm
    · rintro rfl; exact ⟨trivial, rfl, trivial⟩

/-- C63: what a minted coin publishes besides its commitment: a transparent coin its asset, with nothing in the
encrypted part; an opaque one the zero asset, the same for every asset. -/
theorem c63_published (K : Kit P) (address : P.Grp) (asset : Asset) (er : P.Scal × P.SRand) (rand : P.Rand) :
    let t := deriveMint K address asset true er rand
    let o := deriveMint K address asset false er rand
    t.utxo.transparent = true ∧ t.utxo.pubAsset = asset ∧ t.plain.asset = ⟨0, 0⟩ ∧
    o.utxo.transparent = false ∧ o.utxo.pubAsset = ⟨0, 0⟩ ∧ o.plain.asset = asset := ⟨rfl, rfl, rfl, rfl, rfl, rfl⟩

/-- C63: a note for another address partition is not opened. -/
theorem c63_other_partition (K : Kit P) (dk : P.Scal) (address : P.Grp) (asset : Asset) (tr : Bool)
    (er : P.Scal × P.SRand) (rand : P.Rand) (h : K.partition (P.smul P.gen dk) ≠ K.partition address) :
    let r := deriveMint K address asset tr er rand
    noteOpen K dk r.utxo r.note = none := by
  exact if_neg h

/-- C63: whatever key opened the note, a coin passes the check only if it is committed to the opened asset
and to the address of that key; the opaque coin of another address passes only through a collision of the
commitment. -/
theorem c63_check_sound (K : Kit P) (dk : P.Scal) (address : P.Grp) (asset a : Asset)
    (er : P.Scal × P.SRand) (rand rand' : P.Rand)
    (h : utxoCheck K (deriveMint K address asset false er rand).utxo a (false, rand') dk = true) :
    (a = asset ∧ rand' = rand ∧ P.smul P.gen dk = address) ∨
    Collision (fun x : P.Rand × Nat × Nat × P.Grp => K.commit x.1 x.2.1 x.2.2.1 x.2.2.2)
      (rand', a.id, a.value, P.smul P.gen dk) (rand, asset.id, asset.value, address) := by
  simp only [utxoCheck, utxoReconstruct, deriveMint, visPublic, visSecret, decide_eq_true_eq,
    Utxo.mk.injEq] at h
  obtain ⟨_, _, h⟩ := h
  by_cases he : (rand', a.id, a.value, P.smul P.gen dk) = (rand, asset.id, asset.value, address)
  · left
    simp only [Prod.mk.injEq] at he
    obtain ⟨h1, h2, h3, h4⟩ := he
    refine ⟨?_, h1, h4⟩
    cases a; cases asset; simp_all
  · exact .inr ⟨he, h⟩

/-- C63: the outgoing note tells the spender which asset a nullifier spent, for both visibilities. -/
theorem c63_nullifier_opens (L : P.Laws) (K : Kit P) {V : Asset → Prop} (hc : K.Correct V) (pak : P.Grp)
    (ident : Bool × P.Rand) (asset : Asset) (hv : V asset) (er : P.Scal × P.SRand) (wit : P.Wit) (root : P.Root) :
    nullifierOpen K (K.viewKey pak) (deriveSpend K pak ident asset er wit root).nul = some asset :=
  hybrid_roundtrip L K.encO K.decO asset (fun k r => hc.outgoing k r _ hv) (K.viewKey pak) er

/-! ## C61 -/

theorem foldl_addU_complete (p : Nat) (hp : 2 ^ 128 ≤ p) (l : List Nat) (a : Nat) (b : Bool)
    (h : a + l.sum < 2 ^ 128) :
    l.foldl (fun acc r => ((addU p acc.1 r).1, acc.2 && (addU p acc.1 r).2)) (a, b) = (a + l.sum, b) := by
  induction l generalizing a b with
  | nil => simp
  | cons v vs ih =>
    simp only [List.sum_cons] at h ⊢
    have h1 : a + v < 2 ^ 128 := by omega
    have e : (a + v) % p = a + v := Nat.mod_eq_of_lt (by omega)
    have e2 : inRange (a + v) = true := by simp only [inRange, decide_eq_true_eq]; exact h1
    simp only [List.foldl_cons, addU, e, e2, Bool.and_true]
    have := ih (a + v) b (by omega)
    simp only [addU] at this
    rw [this, Nat.add_assoc]

theorem valueSum_complete (p : Nat) (hp : 2 ^ 128 ≤ p) (l : List Nat) (hne : l ≠ []) (h : l.sum < 2 ^ 128) :
    valueSum p l = some (l.sum, true) := by
  cases l with
  | nil => exact absurd rfl hne
  | cons v vs =>
    simp only [List.sum_cons] at h
    simp only [valueSum, foldl_addU_complete p hp vs v true h, List.sum_cons]

/-- A coin that may be spent or created: transparent, or holding something. -/
def Meaningful (transparent : Bool) (a : Asset) : Prop := transparent = true ∨ a ≠ ⟨0, 0⟩

theorem empty_iff (a : Asset) : isEmptyAsset a = true ↔ a = ⟨0, 0⟩ := by
  cases a; simp [isEmptyAsset]

/-- A freshly derived receiver satisfies its constraints and holds the asset, iff it is transparent or the
asset is not empty. -/
theorem deriveMint_wf (K : Kit P) (n : P.Scal) (address : P.Grp) (asset : Asset) (tr : Bool)
    (er : P.Scal × P.SRand) (rand : P.Rand) :
    ((receiverWF (K.crypto n) (deriveMint K address asset tr er rand)).2 = true ↔ Meaningful tr asset) ∧
    (receiverWF (K.crypto n) (deriveMint K address asset tr er rand)).1 = asset := by
  constructor
  · simp only [receiverWF, deriveMint, Kit.crypto, Bool.and_eq_true, decide_eq_true_eq, and_true, Meaningful]
    cases tr
    · simp [visSecret, ← empty_iff]
    · simp [visSecret, isEmptyAsset]
  · simp only [receiverWF, deriveMint, selectAsset, visPublic, visSecret]
    cases tr <;> rfl

theorem deriveSpend_wf (K : Kit P) (n : P.Scal) (pak : P.Grp) (ident : Bool × P.Rand) (asset : Asset)
    (er : P.Scal × P.SRand) (wit : P.Wit) (root : P.Root) :
    ((senderWF (K.crypto n) pak (deriveSpend K pak ident asset er wit root)).2 = true ↔
      Meaningful ident.1 asset ∧
        (asset.value = 0 ∨ K.member (K.item (deriveSpend K pak ident asset er wit root).utxo) wit root = true)) ∧
    (senderWF (K.crypto n) pak (deriveSpend K pak ident asset er wit root)).1 = asset := by
  obtain ⟨tr, rand⟩ := ident
  have h1 : (senderWF (K.crypto n) pak (deriveSpend K pak (tr, rand) asset er wit root)).1 = asset := by
    simp only [senderWF, deriveSpend, selectAsset, visPublic, visSecret]
    cases tr <;> rfl
  refine ⟨?_, h1⟩
  have h2 : (senderWF (K.crypto n) pak (deriveSpend K pak (tr, rand) asset er wit root)).2 =
      (decide (tr = isEmptyAsset (visSecret tr asset)) &&
        (decide (asset.value = 0) ||
          K.member (K.item (deriveSpend K pak (tr, rand) asset er wit root).utxo) wit root)) := by
    simp only [senderWF, Kit.crypto, receivingKey]
    have h3 : selectAsset (deriveSpend K pak (tr, rand) asset er wit root).utxo
        (deriveSpend K pak (tr, rand) asset er wit root).plain = asset := h1
    rw [h3]
    simp [deriveSpend]
    rfl
  rw [h2]
  simp only [Bool.and_eq_true, Bool.or_eq_true, decide_eq_true_eq, Meaningful]
  refine and_congr ?_ Iff.rfl
  cases tr
  · simp [visSecret, ← empty_iff]
  · simp [visSecret, isEmptyAsset]

/-- What an honest builder puts into one sender / receiver. -/
structure SpendPlan (P : Prim) where
  ident : Bool × P.Rand
  asset : Asset
  er : P.Scal × P.SRand
  wit : P.Wit
  root : P.Root

structure MintPlan (P : Prim) where
  address : P.Grp
  transparent : Bool
  asset : Asset
  er : P.Scal × P.SRand
  rand : P.Rand

def SpendPlan.sender (K : Kit P) (pak : P.Grp) (s : SpendPlan P) : Sender P.ty :=
  deriveSpend K pak s.ident s.asset s.er s.wit s.root
def MintPlan.receiver (K : Kit P) (m : MintPlan P) : Receiver P.ty :=
  deriveMint K m.address m.asset m.transparent m.er m.rand

/-- The transfer an honest wallet builds: authorization by the spending key iff there is something to
spend. -/
def honest (K : Kit P) (sk r : P.Scal) (assetId : Option Nat) (sources : List Nat)
    (spends : List (SpendPlan P)) (mints : List (MintPlan P)) (sinks : List Nat) : Transfer P.ty :=
  ⟨if spends = [] then none else some (deriveAuth P sk r), assetId, sources,
    spends.map (SpendPlan.sender K (P.smul P.gen sk)), mints.map (MintPlan.receiver K), sinks⟩

/-- C61: an honestly built transfer satisfies the circuit when it balances, is of one asset, every coin holds
something (or is transparent), spent coins of value have a valid membership proof, and amounts fit 128 bits. -/
theorem c61_honest_satisfies (K : Kit P) (n sk r : P.Scal) (p : Nat) (hp : 2 ^ 128 ≤ p)
    (assetId : Option Nat) (id : Nat) (sources : List Nat) (spends : List (SpendPlan P))
    (mints : List (MintPlan P)) (sinks : List Nat)
    (hin : sources ≠ [] ∨ spends ≠ []) (hout : mints ≠ [] ∨ sinks ≠ [])
    (hid : ∀ a, assetId = some a → a = id)
    (hids : ∀ s ∈ spends, s.asset.id = id) (hidm : ∀ m ∈ mints, m.asset.id = id)
    (hms : ∀ s ∈ spends, Meaningful s.ident.1 s.asset)
    (hmm : ∀ m ∈ mints, Meaningful m.transparent m.asset)
    (hmem : ∀ s ∈ spends, s.asset.value = 0 ∨
      K.member (K.item (s.sender K (P.smul P.gen sk)).utxo) s.wit s.root = true)
    (hbal : sources.sum + (spends.map (fun s => s.asset.value)).sum =
      sinks.sum + (mints.map (fun m => m.asset.value)).sum)
    (hfit : sources.sum + (spends.map (fun s => s.asset.value)).sum < 2 ^ 128) :
    circuit (K.crypto n) p (honest K sk r assetId sources spends mints sinks) = some true := by
  have hle : ∀ (l : List Nat) (v : Nat), v ∈ l → v ≤ l.sum := by
    intro l v hv
    induction l with
    | nil => cases hv
    | cons a as ih =>
      simp only [List.sum_cons]
      rcases List.mem_cons.1 hv with rfl | hv
      · omega
      · have := ih hv; omega
  -- allocation
  have halloc : allocOk (honest K sk r assetId sources spends mints sinks) = true := by
    simp only [allocOk, honest, Bool.and_eq_true, List.all_eq_true, inRange, decide_eq_true_eq,
      List.mem_map, forall_exists_index, and_imp, forall_apply_eq_imp_iff₂]
    refine ⟨⟨⟨fun v hv => ?_, fun v hv => ?_⟩, fun s hs => ?_⟩, fun m hm => ?_⟩
    · have := hle _ v hv; omega
    · have := hle _ v hv; omega
    · have := hle _ _ (List.mem_map_of_mem (f := fun s : SpendPlan P => s.asset.value) hs)
      simp only [SpendPlan.sender, deriveSpend, visSecret, visPublic]
      cases s.ident.1 <;> simp <;> omega
    · have := hle _ _ (List.mem_map_of_mem (f := fun s : MintPlan P => s.asset.value) hm)
      simp only [MintPlan.receiver, deriveMint, visSecret, visPublic]
      cases m.transparent <;> simp <;> omega
  -- outputs
  have hO : outputSum (K.crypto n) p (honest K sk r assetId sources spends mints sinks) =
      some (sinks.sum + (mints.map (fun m => m.asset.value)).sum, mints.map (fun m => m.asset.id), true) := by
    have e1 : ((mints.map (MintPlan.receiver K)).map (receiverWF (K.crypto n))).map (fun x => x.1.value) =
        mints.map (fun m => m.asset.value) := by
      simp only [List.map_map]
      exact List.map_congr_left fun m _ => by
        simp only [Function.comp, MintPlan.receiver, (deriveMint_wf K n m.address m.asset m.transparent m.er m.rand).2]
    have e2 : ((mints.map (MintPlan.receiver K)).map (receiverWF (K.crypto n))).map (fun x => x.1.id) =
        mints.map (fun m => m.asset.id) := by
      simp only [List.map_map]
      exact List.map_congr_left fun m _ => by
        simp only [Function.comp, MintPlan.receiver, (deriveMint_wf K n m.address m.asset m.transparent m.er m.rand).2]
    have e3 : ((mints.map (MintPlan.receiver K)).map (receiverWF (K.crypto n))).all (fun x => x.2) = true := by
      simp only [List.all_eq_true, List.mem_map, forall_exists_index, and_imp, forall_apply_eq_imp_iff₂]
      intro m hm
      exact (deriveMint_wf K n m.address m.asset m.transparent m.er m.rand).1.2 (hmm m hm)
    unfold outputSum
    simp only [honest, e1, e2, e3, Bool.true_and]
    rw [valueSum_complete p hp _ (by
      rcases hout with h | h
      · simp [h]
      · simp [h]) (by rw [List.sum_append]; omega)]
    simp only [List.sum_append, Nat.add_comm]
  have hI : inputSum (K.crypto n) p (honest K sk r assetId sources spends mints sinks) =
      some (sources.sum + (spends.map (fun m => m.asset.value)).sum, spends.map (fun m => m.asset.id), true) := by
    by_cases hs : spends = []
    · subst hs
      unfold inputSum
      simp only [honest, if_true]
      rw [valueSum_complete p hp sources (by simpa using hin) (by simpa using hfit)]
      simp
    · have e1 : ((spends.map (SpendPlan.sender K (P.smul P.gen sk))).map
          (senderWF (K.crypto n) (P.smul P.gen sk))).map (fun x => x.1.value) =
          spends.map (fun m => m.asset.value) := by
        simp only [List.map_map]
        exact List.map_congr_left fun m _ => by
          simp only [Function.comp, SpendPlan.sender, (deriveSpend_wf K n _ m.ident m.asset m.er m.wit m.root).2]
      have e2 : ((spends.map (SpendPlan.sender K (P.smul P.gen sk))).map
          (senderWF (K.crypto n) (P.smul P.gen sk))).map (fun x => x.1.id) =
          spends.map (fun m => m.asset.id) := by
        simp only [List.map_map]
        exact List.map_congr_left fun m _ => by
          simp only [Function.comp, SpendPlan.sender, (deriveSpend_wf K n _ m.ident m.asset m.er m.wit m.root).2]
      have e3 : ((spends.map (SpendPlan.sender K (P.smul P.gen sk))).map
          (senderWF (K.crypto n) (P.smul P.gen sk))).all (fun x => x.2) = true := by
        simp only [List.all_eq_true, List.mem_map, forall_exists_index, and_imp, forall_apply_eq_imp_iff₂]
        intro m hm
        exact (deriveSpend_wf K n _ m.ident m.asset m.er m.wit m.root).1.2 ⟨hms m hm, hmem m hm⟩
      have e4 : (K.crypto n).smul (P.smul P.gen sk) r = P.smul (P.smul P.gen sk) r := rfl
      unfold inputSum
      simp only [honest, if_neg hs, deriveAuth, e1, e2, e3, e4, decide_true, Bool.true_and]
      rw [valueSum_complete p hp _ (by simp [hs]) (by rw [List.sum_append]; omega)]
      simp only [List.sum_append, Nat.add_comm]
  unfold circuit
  rw [hI, hO]
  simp only [halloc, hbal, decide_true, Bool.and_true, Bool.true_and, Option.some.injEq]
  have hall : ∀ x ∈ spends.map (fun m => m.asset.id) ++ mints.map (fun m => m.asset.id), x = id := by
    intro x hx
    rcases List.mem_append.1 hx with hx | hx
    · obtain ⟨s, hs, rfl⟩ := List.mem_map.1 hx; exact hids s hs
    · obtain ⟨s, hs, rfl⟩ := List.mem_map.1 hx; exact hidm s hs
  have hq : (honest K sk r assetId sources spends mints sinks).assetId = assetId := rfl
  rw [hq]
  cases assetId with
  | some a =>
    have ha := hid a rfl
    simp only [allEqTo, List.all_eq_true, decide_eq_true_eq]
    intro x hx; rw [ha, hall x hx]
  | none =>
    simp only
    generalize spends.map (fun m => m.asset.id) ++ mints.map (fun m => m.asset.id) = L at hall
    cases L with
    | nil => rfl
    | cons x xs =>
      simp only [allEq, allEqTo, List.all_eq_true, decide_eq_true_eq]
      intro y hy
      rw [hall x (by simp), hall y (by simp [hy])]

/-- C61: conversely an opaque coin holding nothing (id 0 and value 0) can never be spent or created, whoever
builds the transfer: the circuit takes it for a transparent one. -/
theorem c61_empty_opaque_rejected (K : Kit P) (n : P.Scal) (address : P.Grp) (er : P.Scal × P.SRand)
    (rand : P.Rand) (p : Nat) (hp : 2 ^ 129 ≤ p) (t : Transfer P.ty)
    (hshape : t.auth.isSome = true ↔ t.senders ≠ [])
    (hr : deriveMint K address ⟨0, 0⟩ false er rand ∈ t.receivers) :
    circuit (K.crypto n) p t ≠ some true := by
  intro h
  obtain ⟨_, _, _, _, _, h6⟩ := circuit_sound (K.crypto n) p hp t hshape h
  have := (deriveMint_wf K n address ⟨0, 0⟩ false er rand).1.1 (h6 _ hr)
  rcases this with h | h
  · cases h
  · exact h rfl

/-! ## A concrete instance -/

/-- Integers modulo 13 as group and scalars. -/
@[reducible] def tP : Prim where
  Scal := Nat
  Grp := Nat
  Root := Nat
  Wit := Nat
  Rand := Nat
  SRand := Nat
  UCm := List Nat
  Item := List Nat
  NCm := List Nat
  CI := List Nat
  CL := List Nat
  CO := List Nat
  Part := Nat
  Proof := Nat
  In := Nat
  gen := 1
  smul := fun (g s : Nat) => g * s % 13
  gadd := fun (a b : Nat) => (a + b) % 13
  mul := fun (a b : Nat) => a * b % 13
  add := fun (a b : Nat) => (a + b) % 13

theorem tP_laws : tP.Laws where
  smul_smul := by
    intro (g : Nat) (a : Nat) (b : Nat)
    show g * a % 13 * b % 13 = g * (a * b % 13) % 13
    rw [Nat.mod_mul_mod, Nat.mul_mod_mod, Nat.mul_assoc]
  mul_comm := by
    intro (a : Nat) (b : Nat)
    show a * b % 13 = b * a % 13
    rw [Nat.mul_comm]
  smul_add := by
    intro (g : Nat) (a : Nat) (b : Nat)
    show g * ((a + b) % 13) % 13 = (g * a % 13 + g * b % 13) % 13
    rw [Nat.mul_mod_mod, Nat.mul_add, ← Nat.add_mod]

@[reducible] def tK : Kit tP where
  viewKey := fun (g : Nat) => g + 1
  commit := fun (r : Nat) i v (k : Nat) => [r, i, v, k]
  item := fun u => u.transparent.toNat :: u.pubAsset.id :: u.pubAsset.value :: u.cm
  nullCommit := fun (k : Nat) (i : List Nat) => k :: i
  member := fun (i : List Nat) (w root : Nat) => decide (root = w + i.sum)
  partition := fun (g : Nat) => g % 4
  encI := fun (k r : Nat) m => [k, r, m.rand, m.asset.id, m.asset.value]
  encL := fun (k r : Nat) m => [k, r, m.rand, m.asset.id, m.asset.value]
  decL := fun (k : Nat) c => match c with
    | [k', _, a, i, v] => if k = k' then some ⟨a, ⟨i, v⟩⟩ else none
    | _ => none
  encO := fun (k r : Nat) a => [k, r, a.id, a.value]
  decO := fun (k : Nat) c => match c with
    | [k', _, i, v] => if k = k' then some ⟨i, v⟩ else none
    | _ => none
  challenge := fun (k r : Nat) m => (k + r + m.sum) % 13
  encode := fun b acc => b.sinks ++ acc
  prove := fun t => if t.receivers.isEmpty then none else some (7 : Nat)

theorem tK_correct : tK.Correct (fun _ => True) where
  light := by intro k r m _; simp
  outgoing := by intro k r a _; simp

/-- Key 4, nonce 2, randomizer 3; coins of 5 and 7 of asset 8 spent, 9 kept, 3 reclaimed. -/
def tHonest : Transfer tP.ty :=
  honest tK (4 : Nat) (3 : Nat) (some 8) []
    [⟨(false, (1 : Nat)), ⟨8, 5⟩, ((6 : Nat), (0 : Nat)), (100 : Nat), (119 : Nat)⟩,
     ⟨(false, (2 : Nat)), ⟨8, 7⟩, ((6 : Nat), (0 : Nat)), (100 : Nat), (122 : Nat)⟩]
    [⟨(5 : Nat), false, ⟨8, 9⟩, ((2 : Nat), (0 : Nat)), (3 : Nat)⟩] [3]

example : tP.Laws ∧ tK.Correct (fun _ => True) ∧ circuit (tK.crypto (2 : Nat)) (2 ^ 254) tHonest = some true ∧
    (match tHonest.intoPost (tK.crypto (2 : Nat)) (some (4 : Nat)) [77] with
     | .made p => decide (p.checkSig (tK.crypto (2 : Nat)) matches .ok ()) &&
        decide (({p with sinkAccounts := [78]}).checkSig (tK.crypto (2 : Nat)) matches .error .badSignature)
     | _ => false) = true ∧
    noteOpen tK (5 : Nat) (deriveMint tK (5 : Nat) ⟨8, 9⟩ true ((2 : Nat), (0 : Nat)) (3 : Nat)).utxo
      (deriveMint tK (5 : Nat) ⟨8, 9⟩ true ((2 : Nat), (0 : Nat)) (3 : Nat)).note
      = some ((true, (3 : Nat)), ⟨0, 0⟩) :=
  ⟨tP_laws, tK_correct, by decide +kernel, by decide +kernel, by decide +kernel⟩

end Verif.Transfer
