import Verif.Cipher.Props

/-!
# Encryption schemes built from adapters

`manta-crypto/src/encryption/convert/{plaintext,header,key}.rs`, `encryption/hybrid.rs:430-500`,
`encryption/mod.rs:480-515, 586-715` (messages) and `signature/convert.rs`: schemes which convert plaintexts, headers,
keys or messages around another scheme, and the schemes of manta-pay built from them
(`manta-pay/src/config/utxo.rs:560-1060, 1640-1800`). Schemes are functions; a panic is `none`. The circuit versions
are those of `Verif.Circuit`.
-/

namespace Verif.Cipher.Adapters

open Verif.Codec (Bytes)
open Verif.Transfer (Prim dhPublic dhGenerate dhReconstruct)

/-- The types and functions of an encryption scheme, encryption/mod.rs:270-580. -/
structure Sch where
  EK : Type
  DK : Type
  R : Type
  H : Type
  P : Type
  D : Type
  C : Type
  enc : EK → R → H → P → Option C
  dec : DK → H → C → Option D

/-- `plaintext::Converter`, convert/plaintext.rs:174-217. -/
def Sch.plain (E : Sch) {P' D' : Type} (fwd : P' → Option E.P) (rev : E.D → Option D') : Sch where
  EK := E.EK
  DK := E.DK
  R := E.R
  H := E.H
  P := P'
  D := D'
  C := E.C
  enc := fun k r h p => (fwd p).bind fun t => E.enc k r h t
  dec := fun k h c => (E.dec k h c).bind rev

/-- `header::Converter`, convert/header.rs:138-182. -/
def Sch.header (E : Sch) {H' : Type} (target : H' → E.H) : Sch where
  EK := E.EK
  DK := E.DK
  R := E.R
  H := H'
  P := E.P
  D := E.D
  C := E.C
  enc := fun k r h p => E.enc k r (target h) p
  dec := fun k h c => E.dec k (target h) c

/-- `key::Converter`, convert/key.rs:164-208. -/
def Sch.key (E : Sch) {EK' DK' : Type} (te : EK' → E.EK) (td : DK' → E.DK) : Sch where
  EK := EK'
  DK := DK'
  R := E.R
  H := E.H
  P := E.P
  D := E.D
  C := E.C
  enc := fun k r h p => E.enc (te k) r h p
  dec := fun k h c => E.dec (td k) h c

/-- A key agreement with secrets for the keys of a scheme, key/agreement.rs. -/
structure Agreement (EK DK : Type) where
  Sk : Type
  Pk : Type
  Esk : Type
  Epk : Type
  derive : Sk → Pk
  deriveEphemeral : Esk → Epk
  generate : Pk → Esk → EK
  reconstruct : Epk → Sk → DK

/-- `Hybrid`, hybrid.rs:442-500. -/
def Sch.hybrid (E : Sch) (K : Agreement E.EK E.DK) : Sch where
  EK := K.Pk
  DK := K.Sk
  R := K.Esk × E.R
  H := E.H
  P := E.P
  D := E.D
  C := K.Epk × E.C
  enc := fun pk r h p => (E.enc (K.generate pk r.1) r.2 h p).map fun c => (K.deriveEphemeral r.1, c)
  dec := fun sk h c => E.dec (K.reconstruct c.1 sk) h c.2

/-- `Message::encrypt` and `encrypt_into`, encryption/mod.rs:498-515, 610-622: the header goes along in the clear. -/
def Sch.seal (E : Sch) (k : E.EK) (r : E.R) (m : E.H × E.P) : Option (E.H × E.C) :=
  (E.enc k r m.1 m.2).map fun c => (m.1, c)

/-- `EncryptedMessage::decrypt`, encryption/mod.rs:702-714. -/
def Sch.unseal (E : Sch) (k : E.DK) (c : E.H × E.C) : Option E.D := E.dec k c.1 c.2

/-! ## Specification -/

/-- What a scheme promises: for which pairs of keys, for which plaintexts, and what decryption returns. -/
structure Promise (E : Sch) where
  pair : E.DK → E.EK → Prop
  good : E.P → Prop
  opened : E.P → E.D

/-- The promise is kept: encryption succeeds and the ciphertext opens, for all randomness and headers. -/
def Keeps (E : Sch) (G : Promise E) : Prop :=
  ∀ dk ek, G.pair dk ek → ∀ r h p, G.good p → ∃ c, E.enc ek r h p = some c ∧ E.dec dk h c = some (G.opened p)

/-- A scheme over another one by any number of adapters in any order, each with conversions that fit. -/
inductive Over (E : Sch) (G : Promise E) : (E' : Sch) → Promise E' → Prop
  | base : Over E G E G
  | plain {E' : Sch} {G' : Promise E'} {P' D' : Type} (fwd : P' → Option E'.P) (rev : E'.D → Option D')
      (good : P' → Prop) (opened : P' → D') :
      Over E G E' G' →
      (∀ p, good p → ∃ t, fwd p = some t ∧ G'.good t ∧ rev (G'.opened t) = some (opened p)) →
      Over E G (E'.plain fwd rev) ⟨G'.pair, good, opened⟩
  | header {E' : Sch} {G' : Promise E'} {H' : Type} (target : H' → E'.H) :
      Over E G E' G' → Over E G (E'.header target) ⟨G'.pair, G'.good, G'.opened⟩
  | key {E' : Sch} {G' : Promise E'} {EK' DK' : Type} (te : EK' → E'.EK) (td : DK' → E'.DK)
      (pair : DK' → EK' → Prop) :
      Over E G E' G' → (∀ dk ek, pair dk ek → G'.pair (td dk) (te ek)) →
      Over E G (E'.key te td) ⟨pair, G'.good, G'.opened⟩
  | hybrid {E' : Sch} {G' : Promise E'} (K : Agreement E'.EK E'.DK) :
      Over E G E' G' →
      (∀ sk e, G'.pair (K.reconstruct (K.deriveEphemeral e) sk) (K.generate (K.derive sk) e)) →
      Over E G (E'.hybrid K) ⟨fun sk pk => pk = K.derive sk, G'.good, G'.opened⟩

/-! ## C142 -/

/-- C142: a scheme made of any stack of adapters with fitting conversions keeps its promise if the scheme at the bottom
does. -/
theorem c142_stack {E E' : Sch} {G : Promise E} {G' : Promise E'} (h : Over E G E' G') (hE : Keeps E G) :
    Keeps E' G' := by
  induction h with
  | base => exact hE
  | plain fwd rev good opened _ hl ih =>
    intro dk ek hp r h p hg
    obtain ⟨t, h1, h2, h3⟩ := hl p hg
    obtain ⟨c, h4, h5⟩ := ih dk ek hp r h t h2
    refine ⟨c, ?_, ?_⟩
    · simp only [Sch.plain, h1, Option.bind_some, h4]
    · simp only [Sch.plain, h5, Option.bind_some, h3]
  | header target _ ih => exact fun dk ek hp r h p hg => ih dk ek hp r (target h) p hg
  | key te td pair _ hl ih => exact fun dk ek hp r h p hg => ih (td dk) (te ek) (hl dk ek hp) r h p hg
  | hybrid K _ hl ih =>
    intro sk pk hp r h p hg
    subst hp
    obtain ⟨c, h4, h5⟩ := ih _ _ (hl sk r.1) r.2 h p hg
    exact ⟨(K.deriveEphemeral r.1, c), by simp only [Sch.hybrid, h4, Option.map_some], h5⟩

/-- C142: messages. A sealed message carries its header and opens with the key of the pair alone. -/
theorem c142_message {E : Sch} {G : Promise E} (hE : Keeps E G) (dk : E.DK) (ek : E.EK) (hp : G.pair dk ek) (r : E.R)
    (m : E.H × E.P) (hm : G.good m.2) :
    ∃ c, E.seal ek r m = some c ∧ c.1 = m.1 ∧ E.unseal dk c = some (G.opened m.2) := by
  obtain ⟨c, h1, h2⟩ := hE dk ek hp r m.1 m.2 hm
  exact ⟨(m.1, c), by simp only [Sch.seal, h1, Option.map_some], rfl, h2⟩

/-- C142, key adapters leave the derivation of keys to the scheme below (convert/key.rs:146-162), which requires that both
kinds of keys are the same above and below. Derived keys then work if the conversions commute with derivation. -/
theorem c142_derive {E : Sch} {G : Promise E} (hE : Keeps E G) (te : E.EK → E.EK) (td : E.DK → E.DK)
    (derive : E.DK → E.EK) (hd : ∀ dk, G.pair dk (derive dk)) (hc : ∀ dk, te (derive dk) = derive (td dk)) :
    Keeps (E.key te td) ⟨fun dk ek => ek = derive dk, G.good, G.opened⟩ := by
  rintro (dk : E.DK) (ek : E.EK) (hp : ek = derive dk) (r : E.R) (h : E.H) (p : E.P) hg
  have hw := hE _ _ (hd (td dk)) r h p hg
  rw [← hc, ← hp] at hw
  exact hw

/-- A one time pad on numbers. -/
def pad : Sch where
  EK := Int
  DK := Int
  R := Unit
  H := Unit
  P := Int
  D := Int
  C := Int
  enc := fun k _ _ m => some (m + k)
  dec := fun k _ c => some (c - k)

theorem pad_keeps : Keeps pad ⟨fun dk ek => dk = ek, fun _ => True, id⟩ := by
  rintro (dk : Int) (ek : Int) (rfl : dk = ek) _ _ (p : Int) _
  exact ⟨p + dk, rfl, congrArg some (show p + dk - dk = p by omega)⟩

/-- C142: if they do not commute, derived keys do not work although they did below. -/
theorem c142_derive_needed :
    ∃ (E : Sch) (G : Promise E) (te : E.EK → E.EK) (td : E.DK → E.DK) (derive : E.DK → E.EK),
      Keeps E G ∧ (∀ dk, G.pair dk (derive dk)) ∧
      ¬ Keeps (E.key te td) ⟨fun dk ek => ek = derive dk, G.good, G.opened⟩ := by
  refine ⟨pad, ⟨fun dk ek => dk = ek, fun _ => True, id⟩, fun k : Int => k + 1, fun k : Int => k, fun k : Int => k,
    pad_keeps, fun _ => rfl, fun h => ?_⟩
  obtain ⟨(c : Int), h1, h2⟩ := h (0 : Int) (0 : Int) rfl () () (5 : Int) trivial
  have e1 : ((5 : Int) + (0 + 1)) = c := Option.some.inj h1
  have e2 : (c : Int) - 0 = 5 := Option.some.inj h2
  rw [← e1] at e2
  exact absurd e2 (by decide)

/-! ### Signatures -/

/-- A signature scheme, signature/mod.rs. -/
structure Sig where
  SK : Type
  VK : Type
  R : Type
  M : Type
  S : Type
  derive : SK → VK
  sign : SK → R → M → S
  verify : VK → M → S → Bool

/-- `signature::convert::Converter`, signature/convert.rs:121-175. -/
def Sig.convert (B : Sig) {M' : Type} (target : M' → B.M) : Sig where
  SK := B.SK
  VK := B.VK
  R := B.R
  M := M'
  S := B.S
  derive := B.derive
  sign := fun sk r m => B.sign sk r (target m)
  verify := fun vk m s => B.verify vk (target m) s

/-- Signatures verify. -/
def Sig.Complete (B : Sig) : Prop := ∀ sk r m, B.verify (B.derive sk) m (B.sign sk r m) = true

/-- A signature that verifies for another message than the one it was made for. -/
structure Sig.Reuse (B : Sig) where
  sk : B.SK
  r : B.R
  m : B.M
  m' : B.M
  ne : m ≠ m'
  accepted : B.verify (B.derive sk) m' (B.sign sk r m) = true

/-- C142, signature adapters: signatures still verify, and a signature is good for another message exactly if the two
have the same target or the scheme below accepts a signature for another target. So nothing is gained by reusing
signatures if targets of different messages differ, and otherwise there always is something to gain. -/
theorem c142_signature (B : Sig) (hB : B.Complete) {M' : Type} (target : M' → B.M) :
    (B.convert target).Complete ∧
    ((∀ m m' : M', target m = target m' → m = m') →
      ∀ x : (B.convert target).Reuse, ∃ y : B.Reuse, y.sk = x.sk ∧ y.r = x.r ∧ y.m = target x.m ∧ y.m' = target x.m') ∧
    (∀ (m m' : M') (sk : B.SK) (r : B.R), m ≠ m' → target m = target m' →
      ∃ x : (B.convert target).Reuse, x.sk = sk ∧ x.r = r ∧ x.m = m ∧ x.m' = m') := by
  refine ⟨fun sk r m => hB sk r (target m), fun inj x => ?_, fun m m' sk r hne he => ?_⟩
  · exact ⟨⟨x.sk, x.r, target x.m, target x.m', fun h => x.ne (inj _ _ h), x.accepted⟩, rfl, rfl, rfl, rfl⟩
  · refine ⟨⟨sk, r, m, m', hne, ?_⟩, rfl, rfl, rfl, rfl⟩
    show B.verify (B.derive sk) (target m') (B.sign sk r (target m)) = true
    rw [he]
    exact hB sk r _

/-! ### The schemes of manta-pay -/

/-- `IncomingPoseidonEncryptionScheme`, utxo.rs:743-745. -/
def poseidonBase {p : Nat} [NeZero p] (D : Duplexer (Fin p)) : Sch where
  EK := List (Fin p)
  DK := List (Fin p)
  R := Unit
  H := List (Fin p)
  P := List (List (Fin p))
  D := Bool × List (List (Fin p))
  C := Fin p × List (List (Fin p))
  enc := fun k _ h m => D.encrypt k h m
  dec := fun k h c => D.decrypt k h c

/-- `IncomingBaseEncryptionScheme`, utxo.rs:747-757, with `IncomingEncryptionSchemeConverter`, utxo.rs:575-731, as all
three conversions; `coords` are the affine coordinates of a point. -/
def incomingBase {Grp : Type} {p : Nat} [NeZero p] (coords : Grp → Fin p × Fin p) (D : Duplexer (Fin p)) : Sch :=
  ((((poseidonBase D).plain (fun n : Note p => some n.blocks) (fun t => some (noteOfBlocks t))).header
    (fun _ : Unit => ([] : List (Fin p)))).key (fun g : Grp => keyBlocks (coords g)) (fun g : Grp => keyBlocks (coords g)))

/-- `FixedNonceAesGcm<P, P + 16>`, aes.rs:96-131, as `IncomingAESEncryptionScheme` and `OutgoingAESEncryptionScheme` use
it. -/
def aesBase {K : Type} (A : Aes K) (n : Nat) : Sch where
  EK := K
  DK := K
  R := Unit
  H := Unit
  P := Bytes
  D := Option Bytes
  C := Bytes
  enc := fun k _ _ m => arrayUnchecked (n + 16) (A.enc k m)
  dec := fun k _ c =>
    match A.dec k c with
    | none => some none
    | some m => (arrayUnchecked n m).map some

/-- Decrypted bytes to a value, where the value must exist: `into_source` of the AES converters, utxo.rs:1011-1031 and
1761-1776. -/
def expectAll {α : Type} (read : Bytes → Option α) : Option Bytes → Option (Option α)
  | none => some none
  | some m => (read m).map some

/-- `IncomingBaseAES`, utxo.rs:1048-1058, with `IncomingAESConverter`; `hash` is `Blake2s256` of the encoding of a point. -/
def lightBase {Grp K : Type} (p : Nat) (A : Aes K) (hash : Grp → K) : Sch :=
  ((((aesBase A 80).plain (fun n : Note p => arrayUnchecked 80 n.bytes) (expectAll (noteOfBytes p))).header
    (fun _ : Unit => ())).key hash hash)

/-- `OutgoingBaseAES`, utxo.rs:1789-1799, with `OutgoingAESConverter`. -/
def outgoingBase {Grp K : Type} (p : Nat) (A : Aes K) (hash : Grp → K) : Sch :=
  ((((aesBase A 48).plain (fun n : OutNote p => arrayUnchecked 48 n.bytes) (expectAll (outOfBytes p))).header
    (fun _ : Unit => ())).key hash hash)

/-- `StandardDiffieHellman`, algebra/diffie_hellman.rs:155-242. -/
def diffieHellman (P : Prim) : Agreement P.Grp P.Grp where
  Sk := P.Scal
  Pk := P.Grp
  Esk := P.Scal
  Epk := P.Grp
  derive := dhPublic P
  deriveEphemeral := dhPublic P
  generate := dhGenerate P
  reconstruct := dhReconstruct P

/-- C142: the stacks of manta-pay are the encryption and decryption of notes described in C68, whatever randomness and
header they are given. -/
theorem c142_stacks {Grp K : Type} {p : Nat} [NeZero p] (coords : Grp → Fin p × Fin p) (D : Duplexer (Fin p))
    (A : Aes K) (hash : Grp → K) (g : Grp) :
    (∀ (n : Note p) c, (incomingBase coords D).enc g () () n = encNote D (coords g) n ∧
      (incomingBase coords D).dec g () c = decNote D (coords g) c) ∧
    (∀ (n : Note p) (c : Bytes), (lightBase p A hash).enc g () () n = encLight A (hash g) n ∧
      (lightBase p A hash).dec g () c = decLight p A (hash g) c) ∧
    (∀ (n : OutNote p) (c : Bytes), (outgoingBase p A hash).enc g () () n = encOut A (hash g) n ∧
      (outgoingBase p A hash).dec g () c = decOut p A (hash g) c) := by
  refine ⟨fun n c => ⟨rfl, ?_⟩, fun n c => ⟨?_, ?_⟩, fun n c => ⟨?_, ?_⟩⟩
  · show (D.decrypt (keyBlocks (coords g)) [] c).bind (fun t => some (noteOfBlocks t)) = _
    unfold decNote
    cases D.decrypt (keyBlocks (coords g)) [] c <;> rfl
  · show (arrayUnchecked 80 n.bytes).bind (fun t => arrayUnchecked 96 (A.enc (hash g) t)) = _
    unfold encLight
    cases arrayUnchecked 80 n.bytes <;> rfl
  · show ((aesBase A 80).dec (hash g) () c).bind (expectAll (noteOfBytes p)) = _
    simp only [aesBase, decLight]
    cases A.dec (hash g) c with
    | none => rfl
    | some m =>
      dsimp only
      cases arrayUnchecked 80 m with
      | none => rfl
      | some m =>
        simp only [Option.map_some, Option.bind_some, expectAll]
        cases noteOfBytes p m <;> rfl
  · show (arrayUnchecked 48 n.bytes).bind (fun t => arrayUnchecked 64 (A.enc (hash g) t)) = _
    unfold encOut
    cases arrayUnchecked 48 n.bytes <;> rfl
  · show ((aesBase A 48).dec (hash g) () c).bind (expectAll (outOfBytes p)) = _
    simp only [aesBase, decOut]
    cases A.dec (hash g) c with
    | none => rfl
    | some m =>
      dsimp only
      cases arrayUnchecked 48 m with
      | none => rfl
      | some m =>
        simp only [Option.map_some, Option.bind_some, expectAll]
        cases outOfBytes p m <;> rfl

theorem poseidon_keeps {p : Nat} [NeZero p] {D : Duplexer (Fin p)} (hD : D.WF) :
    Keeps (poseidonBase D) ⟨fun dk ek => dk = ek, D.Fits, fun m => (true, m)⟩ := by
  rintro dk ek rfl r h m hm
  obtain ⟨t, c, h1, _, _, h4⟩ := c39_decrypt_encrypt hD dk h m hm
  exact ⟨(t, c), h1, h4⟩

theorem aes_keeps {K : Type} {A : Aes K} (hA : A.Laws) (n : Nat) :
    Keeps (aesBase A n) ⟨fun dk ek => dk = ek, fun m => m.length = n, fun m => some m⟩ := by
  rintro (dk : K) (ek : K) (rfl : dk = ek) (r : Unit) (h : Unit) (m : Bytes) (hm : m.length = n)
  refine ⟨A.enc dk m, ?_, ?_⟩
  · simp only [aesBase, arrayUnchecked, hA.encLen, hm, if_true]
  · simp only [aesBase, hA.inv, arrayUnchecked, hm, if_true, Option.map_some]

/-- C142 for manta-pay: a note of any of the three kinds, sealed for the public key of a secret key with any ephemeral
secret, opens with the secret key to the same note. -/
theorem c142_notes {P : Prim} (L : P.Laws) {K : Type} {p : Nat} [NeZero p] (hp : 2 ^ 128 < p) (hp' : p ≤ 2 ^ 256)
    (coords : P.Grp → Fin p × Fin p) {D : Duplexer (Fin p)} (hD : D.WF) (hw : D.width = 4) {A : Aes K} (hA : A.Laws)
    (hash : P.Grp → K) :
    Keeps ((incomingBase coords D).hybrid (diffieHellman P))
      ⟨fun sk pk => pk = dhPublic P sk, fun n => n.value < 2 ^ 128, fun n => some n⟩ ∧
    Keeps ((lightBase p A hash).hybrid (diffieHellman P))
      ⟨fun sk pk => pk = dhPublic P sk, fun n => n.value < 2 ^ 128, fun n => some n⟩ ∧
    Keeps ((outgoingBase p A hash).hybrid (diffieHellman P))
      ⟨fun sk pk => pk = dhPublic P sk, fun n => n.value < 2 ^ 128, fun n => some n⟩ := by
  refine ⟨?_, ?_, ?_⟩
  · refine c142_stack (.hybrid (diffieHellman P) (.key _ _ (fun a b => a = b) (.header _ (.plain _ _
      (fun n : Note p => n.value < 2 ^ 128) (fun n => some n) .base ?_)) ?_) ?_) (poseidon_keeps hD)
    · intro n hn
      refine ⟨n.blocks, rfl, ?_, ?_⟩
      · intro b hb
        simp only [Note.blocks, List.mem_singleton] at hb
        subst hb; simp [hw]
      · simp only [noteOfBlocks, if_true, Note.blocks, tryIntoU128_ofNat hp _ hn]
    · rintro a b rfl; rfl
    · exact fun sk e => Transfer.dh_agree L sk e
  · refine c142_stack (.hybrid (diffieHellman P) (.key _ _ (fun a b => a = b) (.header _ (.plain _ _
      (fun n : Note p => n.value < 2 ^ 128) (fun n => some n) .base ?_)) ?_) ?_) (aes_keeps hA 80)
    · intro n hn
      refine ⟨n.bytes, if_pos (Note.bytes_length n), Note.bytes_length n, ?_⟩
      simp only [expectAll, noteOfBytes_bytes hp' n hn, Option.map_some]
    · rintro a b rfl; rfl
    · exact fun sk e => Transfer.dh_agree L sk e
  · refine c142_stack (.hybrid (diffieHellman P) (.key _ _ (fun a b => a = b) (.header _ (.plain _ _
      (fun n : OutNote p => n.value < 2 ^ 128) (fun n => some n) .base ?_)) ?_) ?_) (aes_keeps hA 48)
    · intro n hn
      refine ⟨n.bytes, if_pos (OutNote.bytes_length n), OutNote.bytes_length n, ?_⟩
      simp only [expectAll, outOfBytes_bytes hp' n hn, Option.map_some]
    · rintro a b rfl; rfl
    · exact fun sk e => Transfer.dh_agree L sk e

/-! ## Cases -/

example : Keeps ((pad.plain (fun n : Nat => if n < 10 then some (n : Int) else none)
      (fun d : Int => some d.toNat)).key (fun k : Int × Int => k.1) (fun k : Int × Int => k.1 + 0))
    ⟨fun (dk ek : Int × Int) => dk.1 = ek.1, fun n : Nat => n < 10, id⟩ := by
  refine c142_stack (.key _ _ (fun (dk : Int × Int) (ek : Int × Int) => dk.1 = ek.1) (.plain _ _ (fun n : Nat => n < 10)
    id .base ?_) ?_) pad_keeps
  · intro n hn
    exact ⟨(n : Int), if_pos hn, trivial, rfl⟩
  · rintro ⟨a, _⟩ ⟨b, _⟩ (rfl : a = b)
    show a + 0 = a
    omega

/-- Two messages with the same target share their signatures. -/
def parity : Sig where
  SK := Int
  VK := Int
  R := Unit
  M := Int
  S := Int
  derive := id
  sign := fun k _ m => k + m
  verify := fun k m s => decide (s = k + m)

example : parity.Complete ∧ (∀ m m' : Int, (2 * m = 2 * m') → m = m') ∧
    (parity.convert fun m : Int => m % 2).verify (3 : Int) (4 : Int)
      ((parity.convert fun m : Int => m % 2).sign (3 : Int) () (2 : Int)) = true :=
  ⟨fun (k : Int) _ (m : Int) => (decide_eq_true rfl : decide (k + m = k + m) = true), fun _ _ h => by omega, rfl⟩

/-- The hypotheses for the schemes of manta-pay, with a prime above 2^128. -/
example : Transfer.tP.Laws ∧ 2 ^ 128 < 2 ^ 128 + 51 ∧ tAes.Laws ∧
    (⟨4, List.reverse, [1, 2, 3, 4]⟩ : Duplexer (Fin (2 ^ 128 + 51))).WF :=
  ⟨Transfer.tP_laws, by decide, tAes_laws, by decide, rfl, fun s hs => by simpa using hs⟩

end Verif.Cipher.Adapters
