import Verif.Cipher.Model
import Verif.Util.Props
import Verif.Codec.Props
import Verif.Transfer.Protocol

/-!
# Properties of the note ciphers: C39, C40, C67, C68, C69
-/

namespace Verif.Cipher

open Verif.Codec (Bytes toLE fromLE toLE_length fromLE_toLE toLE_fromLE)

variable {F : Type}

/-- The laws of addition used: subtraction undoes it on both sides. -/
class FieldLaws (F : Type) [Add F] [Sub F] : Prop where
  add_sub : ∀ e b : F, e + b - e = b
  sub_add : ∀ e b : F, e + (b - e) = b

instance {p : Nat} [NeZero p] : FieldLaws (Fin p) where
  add_sub := by intro e b; grind
  sub_add := by intro e b; grind

/-- A duplexer as `FixedDuplexer` builds it: at least two state elements, the initial state has the width of
the permutation, and the permutation keeps it. -/
structure Duplexer.WF (D : Duplexer F) : Prop where
  two : 2 ≤ D.width
  initial : D.initial.length = D.width
  perm : ∀ s, s.length = D.width → (D.perm s).length = D.width

/-- All blocks have exactly the rate of the sponge. -/
def Duplexer.Fits (D : Duplexer F) (bs : List (List F)) : Prop := ∀ b ∈ bs, b.length = D.width - 1

/-! ## Blocks -/

theorem addBlock_none [Add F] (es bs : List F) : addBlock es bs = none ↔ bs.length < es.length := by
  induction es generalizing bs with
  | nil => simp [addBlock]
  | cons e es ih =>
    cases bs with
    | nil => simp [addBlock]
    | cons b bs =>
      have := ih bs
      simp only [addBlock, List.length_cons, Nat.add_lt_add_iff_right]
      rw [← this]
      cases addBlock es bs <;> simp

theorem takeBlock_none [Sub F] (es bs : List F) : takeBlock es bs = none ↔ bs.length < es.length := by
  induction es generalizing bs with
  | nil => simp [takeBlock]
  | cons e es ih =>
    cases bs with
    | nil => simp [takeBlock]
    | cons b bs =>
      have := ih bs
      simp only [takeBlock, List.length_cons, Nat.add_lt_add_iff_right]
      rw [← this]
      cases takeBlock es bs <;> simp

theorem addBlock_length [Add F] {es bs r : List F} (h : addBlock es bs = some r) : r.length = es.length := by
  induction es generalizing bs r with
  | nil => simp only [addBlock, Option.some.injEq] at h; subst h; rfl
  | cons e es ih =>
    cases bs with
    | nil => cases h
    | cons b bs =>
      simp only [addBlock] at h
      cases h' : addBlock es bs with
      | none => rw [h'] at h; cases h
      | some q =>
        rw [h'] at h; cases h
        simp [ih h']

/-- Deciphering what enciphering produced. -/
theorem takeBlock_addBlock [Add F] [Sub F] [FieldLaws F] {es bs r : List F}
    (h : addBlock es bs = some r) : takeBlock es r = some (bs.take es.length, r) := by
  induction es generalizing bs r with
  | nil => simp only [addBlock, Option.some.injEq] at h; subst h; rfl
  | cons e es ih =>
    cases bs with
    | nil => cases h
    | cons b bs =>
      simp only [addBlock] at h
      cases h' : addBlock es bs with
      | none => rw [h'] at h; cases h
      | some q =>
        rw [h'] at h; cases h
        simp [takeBlock, ih h', FieldLaws.add_sub]

/-- Enciphering what deciphering produced. -/
theorem addBlock_takeBlock [Add F] [Sub F] [FieldLaws F] {es bs p r : List F}
    (h : takeBlock es bs = some (p, r)) :
    addBlock es p = some r ∧ r = bs.take es.length ∧ p.length = es.length := by
  induction es generalizing bs p r with
  | nil => simp only [takeBlock, Option.some.injEq, Prod.mk.injEq] at h; obtain ⟨rfl, rfl⟩ := h; simp [addBlock]
  | cons e es ih =>
    cases bs with
    | nil => cases h
    | cons b bs =>
      simp only [takeBlock] at h
      cases h' : takeBlock es bs with
      | none => rw [h'] at h; cases h
      | some q =>
        obtain ⟨p', r'⟩ := q
        rw [h'] at h; cases h
        obtain ⟨h1, h2, h3⟩ := ih h'
        simp [addBlock, h1, h2, h3, FieldLaws.sub_add]

theorem writePlain_cipher [Add F] [Sub F] [FieldLaws F] {w : Nat} {b c s s' : List F}
    (hs : s.length = w) (hw : 1 ≤ w) (hb : b.length = w - 1) (h : writePlain b s = some (c, s')) :
    writeCipher c s = some (b, s') ∧ s'.length = w ∧ c.length = w - 1 := by
  unfold writePlain at h
  cases h' : addBlock (s.drop 1) b with
  | none => rw [h'] at h; cases h
  | some r =>
    rw [h'] at h; cases h
    have h1 := takeBlock_addBlock h'
    have h2 := addBlock_length h'
    have h3 : (s.drop 1).length = b.length := by rw [List.length_drop]; omega
    rw [h3, List.take_length] at h1
    refine ⟨by simp only [writeCipher, h1], ?_, by omega⟩
    rw [List.length_append, List.length_take, h2, List.length_drop]; omega

theorem writeCipher_plain [Add F] [Sub F] [FieldLaws F] {w : Nat} {b c s s' : List F}
    (hs : s.length = w) (hw : 1 ≤ w) (hc : c.length = w - 1) (h : writeCipher c s = some (b, s')) :
    writePlain b s = some (c, s') ∧ s'.length = w ∧ b.length = w - 1 := by
  unfold writeCipher at h
  cases h' : takeBlock (s.drop 1) c with
  | none => rw [h'] at h; cases h
  | some r =>
    obtain ⟨p, r⟩ := r
    rw [h'] at h; cases h
    obtain ⟨h1, h2, h3⟩ := addBlock_takeBlock h'
    rw [List.length_drop] at h3
    have h4 : (s.drop 1).length = c.length := by rw [List.length_drop]; omega
    rw [h4, List.take_length] at h2
    subst h2
    refine ⟨by simp only [writePlain, h1], ?_, by omega⟩
    rw [List.length_append, List.length_take]; omega

theorem absorbAll_plain_cipher [Add F] [Sub F] [FieldLaws F] {w : Nat} (hw : 1 ≤ w) {perm : List F → List F}
    (hperm : ∀ s, s.length = w → (perm s).length = w) (bs : List (List F)) {s s' : List F}
    {cs : List (List F)} (hs : s.length = w) (hb : ∀ b ∈ bs, b.length = w - 1)
    (h : absorbAll writePlain perm bs s = some (cs, s')) :
    absorbAll writeCipher perm cs s = some (bs, s') ∧ s'.length = w ∧ ∀ c ∈ cs, c.length = w - 1 := by
  induction bs generalizing s cs with
  | nil => cases h; exact ⟨rfl, hs, fun _ h => nomatch h⟩
  | cons b bs ih =>
    simp only [absorbAll, absorb] at h
    cases h1 : writePlain b s with
    | none => rw [h1] at h; cases h
    | some q =>
      obtain ⟨c, s1⟩ := q
      simp only [h1] at h
      cases h2 : absorbAll writePlain perm bs (perm s1) with
      | none => rw [h2] at h; cases h
      | some q =>
        obtain ⟨cs', s2⟩ := q
        simp only [h2, Option.some.injEq, Prod.mk.injEq] at h
        obtain ⟨rfl, rfl⟩ := h
        obtain ⟨e1, e2, e3⟩ := writePlain_cipher hs hw (hb b (by simp)) h1
        obtain ⟨i1, i2, i3⟩ := ih (hperm _ e2) (fun b hb' => hb b (by simp [hb'])) h2
        refine ⟨by simp only [absorbAll, absorb, e1, i1], i2, ?_⟩
        intro x hx
        rcases List.mem_cons.1 hx with rfl | hx
        · exact e3
        · exact i3 x hx

theorem absorbAll_cipher_plain [Add F] [Sub F] [FieldLaws F] {w : Nat} (hw : 1 ≤ w) {perm : List F → List F}
    (hperm : ∀ s, s.length = w → (perm s).length = w) (cs : List (List F)) {s s' : List F}
    {bs : List (List F)} (hs : s.length = w) (hc : ∀ b ∈ cs, b.length = w - 1)
    (h : absorbAll writeCipher perm cs s = some (bs, s')) :
    absorbAll writePlain perm bs s = some (cs, s') ∧ s'.length = w ∧ ∀ b ∈ bs, b.length = w - 1 := by
  induction cs generalizing s bs with
  | nil => cases h; exact ⟨rfl, hs, fun _ h => nomatch h⟩
  | cons c cs ih =>
    simp only [absorbAll, absorb] at h
    cases h1 : writeCipher c s with
    | none => rw [h1] at h; cases h
    | some q =>
      obtain ⟨b, s1⟩ := q
      simp only [h1] at h
      cases h2 : absorbAll writeCipher perm cs (perm s1) with
      | none => rw [h2] at h; cases h
      | some q =>
        obtain ⟨bs', s2⟩ := q
        simp only [h2, Option.some.injEq, Prod.mk.injEq] at h
        obtain ⟨rfl, rfl⟩ := h
        obtain ⟨e1, e2, e3⟩ := writeCipher_plain hs hw (hc c (by simp)) h1
        obtain ⟨i1, i2, i3⟩ := ih (hperm _ e2) (fun b hb' => hc b (by simp [hb'])) h2
        refine ⟨by simp only [absorbAll, absorb, e1, i1], i2, ?_⟩
        intro x hx
        rcases List.mem_cons.1 hx with rfl | hx
        · exact e3
        · exact i3 x hx

/-- Absorbing blocks that are long enough never panics and keeps the width. -/
theorem absorbAll_total {O : Type} {w : Nat} {perm : List F → List F}
    (hperm : ∀ s, s.length = w → (perm s).length = w) (write : List F → List F → Option (O × List F))
    (hwrite : ∀ b s, s.length = w → w - 1 ≤ b.length → ∃ o s', write b s = some (o, s') ∧ s'.length = w)
    (bs : List (List F)) (s : List F) (hs : s.length = w) (hb : ∀ b ∈ bs, w - 1 ≤ b.length) :
    ∃ os s', absorbAll write perm bs s = some (os, s') ∧ s'.length = w ∧ os.length = bs.length := by
  induction bs generalizing s with
  | nil => exact ⟨[], s, rfl, hs, rfl⟩
  | cons b bs ih =>
    obtain ⟨o, s1, e1, e2⟩ := hwrite b s hs (hb b (by simp))
    obtain ⟨os, s2, i1, i2, i3⟩ := ih (perm s1) (hperm _ e2) (fun b hb' => hb b (by simp [hb']))
    exact ⟨o :: os, s2, by simp only [absorbAll, absorb, e1, i1], i2, by simp [i3]⟩

theorem writeSetup_total [Add F] {w : Nat} (hw : 1 ≤ w) (b s : List F) (hs : s.length = w)
    (hb : w - 1 ≤ b.length) : ∃ o s', writeSetup b s = some (o, s') ∧ s'.length = w := by
  unfold writeSetup
  cases h : addBlock (s.drop 1) b with
  | none => have := (addBlock_none _ _).1 h; rw [List.length_drop] at this; omega
  | some r =>
    have := addBlock_length h
    rw [List.length_drop] at this
    exact ⟨_, _, rfl, by rw [List.length_append, List.length_take]; omega⟩

theorem writePlain_total [Add F] {w : Nat} (hw : 1 ≤ w) (b s : List F) (hs : s.length = w)
    (hb : w - 1 ≤ b.length) : ∃ o s', writePlain b s = some (o, s') ∧ s'.length = w := by
  unfold writePlain
  cases h : addBlock (s.drop 1) b with
  | none => have := (addBlock_none _ _).1 h; rw [List.length_drop] at this; omega
  | some r =>
    have := addBlock_length h
    rw [List.length_drop] at this
    exact ⟨_, _, rfl, by rw [List.length_append, List.length_take]; omega⟩

theorem writeCipher_total [Add F] [Sub F] [FieldLaws F] {w : Nat} (hw : 1 ≤ w) (b s : List F)
    (hs : s.length = w) (hb : w - 1 ≤ b.length) :
    ∃ o s', writeCipher b s = some (o, s') ∧ s'.length = w := by
  unfold writeCipher
  cases h : takeBlock (s.drop 1) b with
  | none => have := (takeBlock_none _ _).1 h; rw [List.length_drop] at this; omega
  | some r =>
    obtain ⟨p, r⟩ := r
    have h1 := addBlock_takeBlock h
    have h2 := addBlock_length h1.1
    rw [List.length_drop] at h2
    exact ⟨_, _, rfl, by rw [List.length_append, List.length_take]; omega⟩

/-! ## C39, C40 -/

section
variable [Add F] [Sub F] [OfNat F 0] [DecidableEq F] [FieldLaws F] {D : Duplexer F}

theorem setup_total (hD : D.WF) (key header : List F) :
    ∃ s, D.setup key header = some s ∧ s.length = D.width := by
  have h0 : D.width - 1 ≠ 0 := by have := hD.two; omega
  obtain ⟨k1, k2⟩ := Util.c49_padded_chunks key (D.width - 1) (0 : F)
  obtain ⟨g1, g2⟩ := Util.c49_padded_chunks header (D.width - 1) (0 : F)
  cases hk : Util.paddedChunksWith key (D.width - 1) (0 : F) with
  | none => exact absurd (k1.1 hk) h0
  | some ks =>
    cases hh : Util.paddedChunksWith header (D.width - 1) (0 : F) with
    | none => exact absurd (g1.1 hh) h0
    | some hs =>
      obtain ⟨os, s, e1, e2, _⟩ := absorbAll_total hD.perm writeSetup
        (writeSetup_total (by have := hD.two; omega)) (ks ++ hs) D.initial hD.initial (by
          intro b hb
          rcases List.mem_append.1 hb with hb | hb
          · exact Nat.le_of_eq ((k2 _ hk).1 b hb).symm
          · exact Nat.le_of_eq ((g2 _ hh).1 b hb).symm)
      exact ⟨s, by simp only [Duplexer.setup, setupBlocks, hk, hh, e1], e2⟩

omit [Sub F] [DecidableEq F] [FieldLaws F] [OfNat F 0] in
theorem tag_total {s : List F} (hD : D.WF) (hs : s.length = D.width) : ∃ t, s[1]? = some t := by
  have := hD.two
  exact ⟨s[1], by simp⟩

/-- Decryption never panics on blocks that are long enough, and its verdict is true exactly when encrypting
the recovered plaintext (under the same key and header) reproduces the ciphertext and its tag. -/
theorem c40_verdict (hD : D.WF) (key header : List F) (t : F) (c : List (List F)) (hc : D.Fits c) :
    ∃ ok p t', D.decrypt key header (t, c) = some (ok, p) ∧ D.Fits p ∧ p.length = c.length ∧
      D.encrypt key header p = some (t', c) ∧ (ok = true ↔ t = t') := by
  have hw : 1 ≤ D.width := by have := hD.two; omega
  obtain ⟨s, h1, h2⟩ := setup_total hD key header
  obtain ⟨p, s', h3, h4, h5⟩ := absorbAll_total hD.perm writeCipher (writeCipher_total hw) c s h2
    (fun b hb => Nat.le_of_eq (hc b hb).symm)
  obtain ⟨t', h6⟩ := tag_total hD h4
  obtain ⟨g1, _, g3⟩ := absorbAll_cipher_plain hw hD.perm c h2 hc h3
  refine ⟨decide (t = t'), p, t', ?_, g3, h5, ?_, by simp⟩
  · simp only [Duplexer.decrypt, h1, h3, h6]
  · simp only [Duplexer.encrypt, h1, g1, h6]

/-- C39: encryption of a well-formed plaintext succeeds, and decrypting it with the same key and header
reports a valid tag and returns the plaintext. -/
theorem c39_decrypt_encrypt (hD : D.WF) (key header : List F) (p : List (List F)) (hp : D.Fits p) :
    ∃ t c, D.encrypt key header p = some (t, c) ∧ D.Fits c ∧ c.length = p.length ∧
      D.decrypt key header (t, c) = some (true, p) := by
  have hw : 1 ≤ D.width := by have := hD.two; omega
  obtain ⟨s, h1, h2⟩ := setup_total hD key header
  obtain ⟨c, s', h3, h4, h5⟩ := absorbAll_total hD.perm writePlain (writePlain_total hw) p s h2
    (fun b hb => Nat.le_of_eq (hp b hb).symm)
  obtain ⟨t', h6⟩ := tag_total hD h4
  obtain ⟨g1, _, g3⟩ := absorbAll_plain_cipher hw hD.perm p h2 hp h3
  refine ⟨t', c, ?_, g3, h5, ?_⟩
  · simp only [Duplexer.encrypt, h1, h3, h6]
  · simp only [Duplexer.decrypt, h1, g1, h6, decide_true]

/-- C39: re-encrypting any decryption gives back the ciphertext blocks, whatever the verdict, and also the
tag when the verdict was positive. -/
theorem c39_encrypt_decrypt (hD : D.WF) (key header : List F) (t : F) (c : List (List F)) (hc : D.Fits c)
    (ok : Bool) (p : List (List F)) (h : D.decrypt key header (t, c) = some (ok, p)) :
    ∃ t', D.encrypt key header p = some (t', c) ∧ (ok = true → t' = t) := by
  obtain ⟨ok', p', t', h1, _, _, h4, h5⟩ := c40_verdict hD key header t c hc
  rw [h] at h1; cases h1
  exact ⟨t', h4, fun e => (h5.1 e).symm⟩

/-- C40: a ciphertext is accepted with plaintext `p` exactly when it is the encryption of `p`. -/
theorem c40_accept_iff (hD : D.WF) (key header : List F) (t : F) (c p : List (List F)) (hc : D.Fits c)
    (hp : D.Fits p) :
    D.decrypt key header (t, c) = some (true, p) ↔ D.encrypt key header p = some (t, c) := by
  constructor
  · intro h
    obtain ⟨t', h1, h2⟩ := c39_encrypt_decrypt hD key header t c hc true p h
    rw [h1, h2 rfl]
  · intro h
    obtain ⟨t', c', h1, _, _, h4⟩ := c39_decrypt_encrypt hD key header p hp
    rw [h] at h1; cases h1
    exact h4

/-- C40: of two different ciphertexts accepted under the same key and header, the plaintexts differ; so a
forgery that keeps the tag needs two plaintexts whose encryptions have the same tag, and one body is accepted
with one tag only. -/
theorem c40_forgery (hD : D.WF) (key header : List F) (t₁ t₂ : F) (c₁ c₂ p₁ p₂ : List (List F))
    (h₁ : D.Fits c₁) (h₂ : D.Fits c₂) (hne : (t₁, c₁) ≠ (t₂, c₂))
    (a₁ : D.decrypt key header (t₁, c₁) = some (true, p₁))
    (a₂ : D.decrypt key header (t₂, c₂) = some (true, p₂)) :
    p₁ ≠ p₂ ∧ c₁ ≠ c₂ ∧
      D.encrypt key header p₁ = some (t₁, c₁) ∧ D.encrypt key header p₂ = some (t₂, c₂) := by
  obtain ⟨t, e1, e2⟩ := c39_encrypt_decrypt hD key header _ _ h₁ _ _ a₁
  obtain ⟨t', f1, f2⟩ := c39_encrypt_decrypt hD key header _ _ h₂ _ _ a₂
  rw [e2 rfl] at e1
  rw [f2 rfl] at f1
  refine ⟨?_, ?_, e1, f1⟩
  · rintro rfl; rw [e1] at f1; cases f1; exact hne rfl
  · rintro rfl
    obtain ⟨ok, p, t', g1, _, _, g4, g5⟩ := c40_verdict hD key header t₁ c₁ h₁
    obtain ⟨ok', p', t'', k1, _, _, k4, k5⟩ := c40_verdict hD key header t₂ c₁ h₁
    rw [a₁] at g1; cases g1
    rw [a₂] at k1; cases k1
    have : p₁ = p₂ := by
      have x := a₁; have y := a₂
      simp only [Duplexer.decrypt] at x y
      cases hs : D.setup key header with
      | none => rw [hs] at x; cases x
      | some s =>
        simp only [hs] at x y
        cases ha : absorbAll writeCipher D.perm c₁ s with
        | none => rw [ha] at x; cases x
        | some q =>
          obtain ⟨q1, q2⟩ := q
          simp only [ha] at x y
          cases hq : q2[1]? with
          | none => rw [hq] at x; cases x
          | some z =>
            simp only [hq, Option.some.injEq, Prod.mk.injEq] at x y
            rw [← x.2, ← y.2]
    subst this
    rw [e1] at f1; cases f1; exact hne rfl

end

/-- C39 fails for blocks that do not have exactly the rate of the sponge: the type of blocks is a boxed slice
of any length. Extra elements are dropped without notice, missing ones panic. -/
theorem c39_block_length_violated :
    let D : Duplexer (Fin 7) := ⟨3, fun s => s.map (· * 3 + 1), [1, 2, 3]⟩
    D.WF ∧
    D.encrypt [1, 2] [] [[1, 2, 6]] = D.encrypt [1, 2] [] [[1, 2, 5]] ∧
    ((D.encrypt [1, 2] [] [[1, 2, 6]]).bind (D.decrypt [1, 2] [])) = some (true, [[1, 2]]) ∧
    D.encrypt [1, 2] [] [[1]] = none ∧
    D.decrypt [1, 2] [] (0, [[1]]) = none := by
  refine ⟨⟨by decide, by decide, fun s hs => by simpa using hs⟩, ?_, ?_, ?_, ?_⟩ <;> decide +kernel

/-- Example: width 3 over integers modulo 7, two keys blocks, two plaintext blocks; the tampered ciphertext
is rejected. -/
example :
    let D : Duplexer (Fin 7) := ⟨3, fun s => s.reverse.map (· * 3 + 1), [1, 2, 3]⟩
    D.WF ∧ D.Fits [[1, 2], [6, 0]] ∧
    ((D.encrypt [1, 2, 5] [4] [[1, 2], [6, 0]]).bind (D.decrypt [1, 2, 5] [4])) = some (true, [[1, 2], [6, 0]]) ∧
    ((D.encrypt [1, 2, 5] [4] [[1, 2], [6, 0]]).bind fun tc =>
      (D.decrypt [1, 2, 5] [4] (tc.1, tc.2.reverse)).map (·.1)) = some false := by
  refine ⟨⟨by decide, by decide, fun s hs => by simpa using hs⟩, fun b hb => by simp at hb; rcases hb with rfl | rfl <;> rfl, ?_, ?_⟩ <;> decide +kernel

/-! ## C69: framing of key and header -/

/-- C69 (part): for keys of one length and headers of one length, the blocks absorbed before the message
determine key and header. -/
theorem c69_framing_partial [OfNat F 0] (w : Nat) (hw : 2 ≤ w) (k k' h h' : List F)
    (hk : k.length = k'.length) (hh : h.length = h'.length)
    (e : setupBlocks w k h = setupBlocks w k' h') : k = k' ∧ h = h' := by
  have h0 : w - 1 ≠ 0 := by omega
  have key : ∀ (x : List F), ∃ cs, Util.paddedChunksWith x (w - 1) 0 = some cs ∧
      cs.length = x.length / (w - 1) + 1 ∧ ∃ n, cs.flatten = x ++ List.replicate n 0 := by
    intro x
    obtain ⟨k1, k2⟩ := Util.c49_padded_chunks x (w - 1) (0 : F)
    cases hx : Util.paddedChunksWith x (w - 1) (0 : F) with
    | none => exact absurd (k1.1 hx) h0
    | some cs =>
      obtain ⟨_, a, n, _, _, b⟩ := k2 cs hx
      exact ⟨cs, rfl, a, n, b⟩
  obtain ⟨a, a1, a2, n, a3⟩ := key k
  obtain ⟨a', b1, b2, n', b3⟩ := key k'
  obtain ⟨c, c1, c2, m, c3⟩ := key h
  obtain ⟨c', d1, d2, m', d3⟩ := key h'
  simp only [setupBlocks, a1, b1, c1, d1, Option.some.injEq] at e
  have := List.append_inj e (by rw [a2, b2, hk])
  obtain ⟨e1, e2⟩ := this
  subst e1 e2
  rw [a3] at b3
  rw [c3] at d3
  exact ⟨(List.append_inj b3 hk).1, (List.append_inj d3 hh).1⟩

/-- C69 fails across lengths: padding with zeros without a length or end mark makes a key and the same key
with a zero appended encrypt identically, and a header can move into the key (rate 3, as in manta-pay). -/
theorem c69_framing_violated [Add F] [OfNat F 0] (D : Duplexer F) (hw : D.width = 4) (x y a b : F)
    (p : List (List F)) :
    D.encrypt [x] [] p = D.encrypt [x, 0] [] p ∧
    D.encrypt [x, y] [a, b, 0] p = D.encrypt [x, y, 0, a, b] [] p := by
  have e1 : setupBlocks D.width [x] [] = setupBlocks D.width [x, 0] [] := by
    rw [hw]; simp [setupBlocks, Util.paddedChunksWith, Util.chunksExact]
  have e2 : setupBlocks D.width [x, y] [a, b, 0] = setupBlocks D.width [x, y, 0, a, b] [] := by
    rw [hw]; simp [setupBlocks, Util.paddedChunksWith, Util.chunksExact]
  constructor
  · simp only [Duplexer.encrypt, Duplexer.setup, e1]
  · simp only [Duplexer.encrypt, Duplexer.setup, e2]

example : setupBlocks 4 [1, 2] [7] ≠ setupBlocks 4 [1, 3] [7] ∧
    setupBlocks 4 ([1, 2] : List Nat) [] = some [[1, 2, 0], [0, 0, 0]] := by decide +kernel

/-! ## C68: note encodings lose nothing -/

section
variable {p : Nat} [NeZero p]

theorem tryIntoU128_ofNat (hp : 2 ^ 128 < p) (v : Nat) (hv : v < 2 ^ 128) :
    tryIntoU128 (Fin.ofNat p v) = some v := by
  have h1 : v % p = v := Nat.mod_eq_of_lt (by omega)
  have h2 : 2 ^ 128 % p = 2 ^ 128 := Nat.mod_eq_of_lt hp
  simp only [tryIntoU128, Fin.val_ofNat, h1, h2, if_pos hv, Nat.mod_eq_of_lt hv]

theorem tryIntoU128_some (hp : 2 ^ 128 < p) (x : Fin p) (v : Nat) (h : tryIntoU128 x = some v) :
    v < 2 ^ 128 ∧ Fin.ofNat p v = x := by
  have h2 : 2 ^ 128 % p = 2 ^ 128 := Nat.mod_eq_of_lt hp
  unfold tryIntoU128 at h
  rw [h2] at h
  split at h
  · rename_i hx
    cases h
    rw [Nat.mod_eq_of_lt hx]
    refine ⟨hx, Fin.ext ?_⟩
    rw [Fin.val_ofNat, Nat.mod_eq_of_lt x.isLt]
  · cases h

/-- C68: a note of the circuit-bound scheme survives encryption and decryption, for every key and every `u128`
value. -/
theorem c68_incoming (hp : 2 ^ 128 < p) {D : Duplexer (Fin p)} (hD : D.WF) (hw : D.width = 4)
    (key : Fin p × Fin p) (n : Note p) (hv : n.value < 2 ^ 128) :
    ∃ c, encNote D key n = some c ∧ decNote D key c = some (some n) := by
  obtain ⟨t, c, h1, _, _, h4⟩ := c39_decrypt_encrypt hD (keyBlocks key) [] n.blocks (by
    intro b hb
    simp only [Note.blocks, List.mem_singleton] at hb
    subst hb; simp [hw])
  refine ⟨(t, c), h1, ?_⟩
  simp only [decNote, h4, noteOfBlocks, if_true, Note.blocks, tryIntoU128_ofNat hp _ hv]

/-- C68: both coordinates of the shared point enter the key, so different points have different keys. -/
theorem c68_key_injective (a b : Fin p × Fin p) (h : keyBlocks a = keyBlocks b) : a = b := by
  simp only [keyBlocks, List.cons.injEq, and_true] at h
  exact Prod.ext h.1 h.2

/-- C68: whatever ciphertext is opened to a note, it is the encryption of that note and the value fits. -/
theorem c68_incoming_canonical (hp : 2 ^ 128 < p) {D : Duplexer (Fin p)} (hD : D.WF) (hw : D.width = 4)
    (key : Fin p × Fin p) (c : Fin p × List (List (Fin p))) (hc : D.Fits c.2) (n : Note p)
    (h : decNote D key c = some (some n)) : encNote D key n = some c ∧ n.value < 2 ^ 128 := by
  obtain ⟨t, c⟩ := c
  unfold decNote at h
  cases hd : D.decrypt (keyBlocks key) [] (t, c) with
  | none => rw [hd] at h; cases h
  | some q =>
    obtain ⟨ok, bs⟩ := q
    simp only [hd, Option.some.injEq] at h
    unfold noteOfBlocks at h
    cases ok with
    | false => simp at h
    | true =>
      simp only [if_true] at h
      obtain ⟨t', e1, e2⟩ := c39_encrypt_decrypt hD _ _ t c hc true bs hd
      rw [e2 rfl] at e1
      split at h
      · rename_i r i v
        cases hu : tryIntoU128 v with
        | none => rw [hu] at h; cases h
        | some u =>
          simp only [hu, Option.some.injEq] at h
          subst h
          obtain ⟨u1, u2⟩ := tryIntoU128_some hp v u hu
          exact ⟨by simp only [encNote, Note.blocks, u2, e1], u1⟩
      · cases h

end

theorem fpOfBytes_fpBytes {p : Nat} (hp : p ≤ 2 ^ 256) (x : Fin p) : fpOfBytes p (fpBytes x) = some x := by
  have h := x.isLt
  have e : fromLE (fpBytes x) = x.val := fromLE_toLE 32 _ (by omega)
  unfold fpOfBytes
  rw [dif_pos (by rw [e]; exact h)]
  exact congrArg some (Fin.ext e)

theorem fpOfBytes_some {p : Nat} {bs : Bytes} (hl : bs.length = 32) {x : Fin p} (h : fpOfBytes p bs = some x) :
    fpBytes x = bs := by
  unfold fpOfBytes at h
  split at h
  · cases h
    have := toLE_fromLE bs
    rw [hl] at this
    exact this
  · cases h

theorem fpBytes_length {p : Nat} (x : Fin p) : (fpBytes x).length = 32 := toLE_length ..

theorem noteOfBytes_bytes {p : Nat} (hp : p ≤ 2 ^ 256) (n : Note p) (hv : n.value < 2 ^ 128) :
    noteOfBytes p n.bytes = some n := by
  have e1 : n.bytes.take 32 = fpBytes n.rand := by
    rw [Note.bytes, List.append_assoc, List.take_left' (fpBytes_length _)]
  have e2 : (n.bytes.drop 32).take 32 = fpBytes n.id := by
    rw [Note.bytes, List.append_assoc, List.drop_left' (fpBytes_length _), List.take_left' (fpBytes_length _)]
  have e3 : (n.bytes.drop 64).take 16 = toLE 16 n.value := by
    rw [Note.bytes, List.drop_left' (by simp [fpBytes_length]), List.take_of_length_le (by simp [toLE_length])]
  unfold noteOfBytes
  rw [e1, e2, e3, fpOfBytes_fpBytes hp, fpOfBytes_fpBytes hp]
  simp only
  rw [fromLE_toLE 16 _ (by omega)]

theorem noteOfBytes_some {p : Nat} {bs : Bytes} (hl : bs.length = 80) {n : Note p}
    (h : noteOfBytes p bs = some n) : n.bytes = bs := by
  unfold noteOfBytes at h
  cases h1 : fpOfBytes p (bs.take 32) with
  | none => rw [h1] at h; cases h
  | some r =>
    cases h2 : fpOfBytes p ((bs.drop 32).take 32) with
    | none => rw [h1, h2] at h; cases h
    | some i =>
      simp only [h1, h2, Option.some.injEq] at h
      subst h
      have e1 := fpOfBytes_some (by rw [List.length_take]; omega) h1
      have e2 := fpOfBytes_some (by rw [List.length_take, List.length_drop]; omega) h2
      have l3 : ((bs.drop 64).take 16).length = 16 := by rw [List.length_take, List.length_drop]; omega
      have e3 := toLE_fromLE ((bs.drop 64).take 16)
      rw [l3] at e3
      have e4 : (bs.drop 64).take 16 = bs.drop 64 :=
        List.take_of_length_le (by rw [List.length_drop]; omega)
      simp only [Note.bytes, e1, e2, e3]
      rw [e4, List.append_assoc]
      have : (bs.drop 32).take 32 ++ bs.drop 64 = bs.drop 32 := by
        have := List.take_append_drop 32 (bs.drop 32)
        rw [List.drop_drop] at this
        exact this
      rw [this, List.take_append_drop]

theorem outOfBytes_bytes {p : Nat} (hp : p ≤ 2 ^ 256) (n : OutNote p) (hv : n.value < 2 ^ 128) :
    outOfBytes p n.bytes = some n := by
  have e1 : n.bytes.take 32 = fpBytes n.id := List.take_left' (fpBytes_length _)
  have e2 : (n.bytes.drop 32).take 16 = toLE 16 n.value := by
    rw [OutNote.bytes, List.drop_left' (fpBytes_length _), List.take_of_length_le (by simp [toLE_length])]
  unfold outOfBytes
  rw [e1, e2, fpOfBytes_fpBytes hp]
  simp only
  rw [fromLE_toLE 16 _ (by omega)]

theorem outOfBytes_some {p : Nat} {bs : Bytes} (hl : bs.length = 48) {n : OutNote p}
    (h : outOfBytes p bs = some n) : n.bytes = bs := by
  unfold outOfBytes at h
  cases h1 : fpOfBytes p (bs.take 32) with
  | none => rw [h1] at h; cases h
  | some i =>
    simp only [h1, Option.some.injEq] at h
    subst h
    have e1 := fpOfBytes_some (by rw [List.length_take]; omega) h1
    have l3 : ((bs.drop 32).take 16).length = 16 := by rw [List.length_take, List.length_drop]; omega
    have e3 := toLE_fromLE ((bs.drop 32).take 16)
    rw [l3] at e3
    have e4 : (bs.drop 32).take 16 = bs.drop 32 :=
      List.take_of_length_le (by rw [List.length_drop]; omega)
    simp only [OutNote.bytes, e1, e3]
    rw [e4, List.take_append_drop]

theorem Note.bytes_length {p : Nat} (n : Note p) : n.bytes.length = 80 := by
  simp [Note.bytes, fpBytes_length, toLE_length]

theorem OutNote.bytes_length {p : Nat} (n : OutNote p) : n.bytes.length = 48 := by
  simp [OutNote.bytes, fpBytes_length, toLE_length]

section
variable {K : Type} {A : Aes K} {p : Nat}

/-- C68: a light note survives encryption and decryption; neither the length assertions nor the conversions
panic. -/
theorem c68_light (hp : p ≤ 2 ^ 256) (hA : A.Laws) (key : K) (n : Note p) (hv : n.value < 2 ^ 128) :
    ∃ c, encLight A key n = some c ∧ decLight p A key c = some (some n) := by
  have h1 := n.bytes_length
  have h2 : (A.enc key n.bytes).length = 96 := by rw [hA.encLen, h1]
  refine ⟨A.enc key n.bytes, ?_, ?_⟩
  · simp only [encLight, arrayUnchecked, if_pos h1, if_pos h2]
  · simp only [decLight, hA.inv, arrayUnchecked, if_pos h1, noteOfBytes_bytes hp n hv]

/-- C68: two light notes with the same ciphertext under one key are the same note. -/
theorem c68_light_injective (hp : p ≤ 2 ^ 256) (hA : A.Laws) (key : K) (n n' : Note p)
    (hv : n.value < 2 ^ 128) (hv' : n'.value < 2 ^ 128) (h : encLight A key n = encLight A key n') : n = n' := by
  obtain ⟨c, h1, h2⟩ := c68_light hp hA key n hv
  obtain ⟨c', h1', h2'⟩ := c68_light hp hA key n' hv'
  rw [h1, h1'] at h; cases h
  rw [h2] at h2'; cases h2'; rfl

/-- C68: a light note that opens carries exactly the bytes of the note it opens to. -/
theorem c68_light_canonical (key : K) (c : Bytes) (n : Note p) (h : decLight p A key c = some (some n)) :
    A.dec key c = some n.bytes := by
  unfold decLight at h
  cases hd : A.dec key c with
  | none => rw [hd] at h; cases h
  | some m =>
    simp only [hd, arrayUnchecked] at h
    by_cases hl : m.length = 80
    · simp only [if_pos hl] at h
      cases hn : noteOfBytes p m with
      | none => rw [hn] at h; cases h
      | some q =>
        simp only [hn, Option.some.injEq] at h
        subst h
        rw [noteOfBytes_some hl hn]
    · simp only [if_neg hl] at h; cases h

/-- C68: the same for outgoing notes. -/
theorem c68_outgoing (hp : p ≤ 2 ^ 256) (hA : A.Laws) (key : K) (n : OutNote p) (hv : n.value < 2 ^ 128) :
    ∃ c, encOut A key n = some c ∧ decOut p A key c = some (some n) := by
  have h1 := n.bytes_length
  have h2 : (A.enc key n.bytes).length = 64 := by rw [hA.encLen, h1]
  refine ⟨A.enc key n.bytes, ?_, ?_⟩
  · simp only [encOut, arrayUnchecked, if_pos h1, if_pos h2]
  · simp only [decOut, hA.inv, arrayUnchecked, if_pos h1, outOfBytes_bytes hp n hv]

theorem c68_outgoing_canonical (key : K) (c : Bytes) (n : OutNote p) (h : decOut p A key c = some (some n)) :
    A.dec key c = some n.bytes := by
  unfold decOut at h
  cases hd : A.dec key c with
  | none => rw [hd] at h; cases h
  | some m =>
    simp only [hd, arrayUnchecked] at h
    by_cases hl : m.length = 48
    · simp only [if_pos hl] at h
      cases hn : outOfBytes p m with
      | none => rw [hn] at h; cases h
      | some q =>
        simp only [hn, Option.some.injEq] at h
        subst h
        rw [outOfBytes_some hl hn]
    · simp only [if_neg hl] at h; cases h

/-! ## C67: opening notes -/

/-- C67 (part): opening a circuit-bound note never panics, for any tag and any block contents of the right
length. -/
theorem c67_incoming_partial [NeZero p] {D : Duplexer (Fin p)} (hD : D.WF) (key : Fin p × Fin p)
    (c : Fin p × List (List (Fin p))) (hc : D.Fits c.2) : decNote D key c ≠ none := by
  obtain ⟨ok, b, t', h1, _⟩ := c40_verdict hD (keyBlocks key) [] c.1 c.2 hc
  unfold decNote
  rw [h1]
  simp

/-- C67: opening a light note of the right length panics exactly when it authenticates and one of the two
field elements in it is not reduced. -/
theorem c67_light_panics_iff (hA : A.Laws) (key : K) (c : Bytes) (hl : c.length = 96) :
    decLight p A key c = none ↔
      ∃ m, A.dec key c = some m ∧ (p ≤ fromLE (m.take 32) ∨ p ≤ fromLE ((m.drop 32).take 32)) := by
  unfold decLight
  cases hd : A.dec key c with
  | none => simp
  | some m =>
    have h80 : m.length = 80 := by have := hA.decLen key c m hd; omega
    simp only [arrayUnchecked, if_pos h80, Option.some.injEq, exists_eq_left', noteOfBytes, fpOfBytes]
    by_cases h1 : fromLE (m.take 32) < p
    · by_cases h2 : fromLE ((m.drop 32).take 32) < p
      · simp [dif_pos h1, dif_pos h2]; omega
      · simp [dif_pos h1, dif_neg h2]; omega
    · simp [dif_neg h1]; omega

theorem fromLE_ones (n : Nat) : fromLE (List.replicate n 255) = 256 ^ n - 1 := by
  induction n with
  | zero => rfl
  | succ n ih =>
    have := Nat.pow_pos (n := n) (show 0 < 256 by omega)
    simp only [List.replicate_succ, fromLE, ih, Nat.pow_succ]
    have : (255 : UInt8).toNat = 255 := rfl
    omega

/-- The light note with all bytes set: every key has one. -/
def poison (A : Aes K) (key : K) : Bytes := A.enc key (List.replicate 80 255)

/-- C67 fails: under every key there is a well-sized, authentic light note on which opening panics (the
modulus is below `2^256`). -/
theorem c67_light_violated (hp : p < 2 ^ 256) (hA : A.Laws) (key : K) :
    (poison A key).length = 96 ∧ decLight p A key (poison A key) = none := by
  have hl : (poison A key).length = 96 := by rw [poison, hA.encLen]; simp
  refine ⟨hl, (c67_light_panics_iff hA key _ hl).2 ⟨_, hA.inv _ _, .inl ?_⟩⟩
  rw [List.take_replicate, fromLE_ones]
  have : (256 : Nat) ^ min 32 80 = 2 ^ 256 := by decide
  omega

/-- The same for outgoing notes. -/
theorem c67_outgoing_violated (hp : p < 2 ^ 256) (hA : A.Laws) (key : K) :
    decOut p A key (A.enc key (List.replicate 48 255)) = none := by
  have h48 : (List.replicate 48 (255 : UInt8)).length = 48 := List.length_replicate
  have h1 : ¬ fromLE ((List.replicate 48 (255 : UInt8)).take 32) < p := by
    rw [List.take_replicate, fromLE_ones]
    have : (256 : Nat) ^ min 32 48 = 2 ^ 256 := by decide
    omega
  simp only [decOut, hA.inv, arrayUnchecked, if_pos h48, outOfBytes, fpOfBytes, dif_neg h1]

end

/-- C67: whoever knows an address can make such a note for it: the ephemeral key is the sender's choice, and
the owner's wallet panics when opening the note (hybrid.rs:442-500, diffie_hellman.rs:175-242). `hash` is the
derivation of the AES key from the shared point. -/
theorem c67_sender_crashes_receiver {P : Transfer.Prim} (L : P.Laws) {K : Type} {A : Aes K} (hA : A.Laws)
    {p : Nat} (hp : p < 2 ^ 256) (hash : P.Grp → K) (sk esk : P.Scal) :
    let address := Transfer.dhPublic P sk
    let note := (Transfer.dhPublic P esk, poison A (hash (Transfer.dhGenerate P address esk)))
    note.2.length = 96 ∧
    decLight p A (hash (Transfer.dhReconstruct P note.1 sk)) note.2 = none := by
  simp only [Transfer.dh_agree L]
  exact c67_light_violated hp hA _

/-- A cipher satisfying the laws: key byte added to every byte, sixteen copies of the key as tag. -/
def tAes : Aes UInt8 where
  enc k m := m.map (· + k) ++ List.replicate 16 k
  dec k c := if c.drop (c.length - 16) = List.replicate 16 k ∧ 16 ≤ c.length
    then some ((c.take (c.length - 16)).map (· - k)) else none

theorem tAes_laws : tAes.Laws where
  inv := by
    intro k m
    have h1 : (m.map (· + k) ++ List.replicate 16 k).length - 16 = (m.map (· + k)).length := by simp
    simp only [tAes]
    rw [h1, List.drop_left, if_pos ⟨rfl, by simp⟩, List.take_left]
    simp [Function.comp_def]
  encLen := by intro k m; simp [tAes]
  decLen := by
    intro k c m h
    simp only [tAes] at h
    split at h
    · rename_i hc
      cases h
      simp only [List.length_map, List.length_take]
      omega
    · cases h

example : tAes.Laws ∧
    ((encLight tAes 3 (⟨5, 6, 2 ^ 127⟩ : Note 101)).bind (decLight 101 tAes 3)) = some (some ⟨5, 6, 2 ^ 127⟩) ∧
    decLight 101 tAes 3 (poison tAes 3) = none ∧ decLight 101 tAes 4 (poison tAes 3) = some none :=
  ⟨tAes_laws, by decide +kernel, by decide +kernel, by decide +kernel⟩

/-! ## The ciphers as the protocol uses them -/

/-- The assets a note of manta-pay can carry. -/
def Fits (p : Nat) (a : Asset.Asset) : Prop := a.id < p ∧ a.value < 2 ^ 128

/-- The types of manta-pay as far as notes are concerned: commitment randomness is a field element,
ciphertexts of the light and outgoing schemes are byte strings. -/
@[reducible] def payPrim (P : Transfer.Prim) (p : Nat) : Transfer.Prim :=
  { P with Rand := Fin p, CL := Bytes, CO := Bytes, dCL := inferInstance, dCO := inferInstance }

/-- The protocol kit with the AES schemes of manta-pay, over any choice of the other primitives; `hash`
derives the AES key from the shared point (utxo.rs:922-931). A panic counts as no result here, see C67. -/
def payKit {P : Transfer.Prim} {p : Nat} [NeZero p] {K : Type} (base : Transfer.Kit (payPrim P p)) (A : Aes K)
    (hash : P.Grp → K) : Transfer.Kit (payPrim P p) :=
  { base with
    encL := fun k _ m => (encLight A (hash k) ⟨m.rand, Fin.ofNat p m.asset.id, m.asset.value⟩).getD []
    decL := fun k c => ((decLight p A (hash k) c).getD none).map fun n => ⟨n.rand, ⟨n.id.val, n.value⟩⟩
    encO := fun k _ a => (encOut A (hash k) ⟨Fin.ofNat p a.id, a.value⟩).getD []
    decO := fun k c => ((decOut p A (hash k) c).getD none).map fun n => ⟨n.id.val, n.value⟩ }

/-- C68: the kit of manta-pay is correct on all assets that fit; this discharges the assumption of C63. -/
theorem c68_kit_correct {P : Transfer.Prim} {p : Nat} [NeZero p] {K : Type} {A : Aes K} (hA : A.Laws)
    (hp : p ≤ 2 ^ 256) (hash : P.Grp → K) (base : Transfer.Kit (payPrim P p)) :
    (payKit base A hash).Correct (Fits p) where
  light := by
    intro k r m hm
    obtain ⟨c, h1, h2⟩ := c68_light hp hA (hash k)
      (⟨m.rand, Fin.ofNat p m.asset.id, m.asset.value⟩ : Note p) hm.2
    simp only [payKit, h1, Option.getD_some, h2, Option.map_some, Fin.val_ofNat, Nat.mod_eq_of_lt hm.1]
  outgoing := by
    intro k r a ha
    obtain ⟨c, h1, h2⟩ := c68_outgoing hp hA (hash k) (⟨Fin.ofNat p a.id, a.value⟩ : OutNote p) ha.2
    simp only [payKit, h1, Option.getD_some, h2, Option.map_some, Fin.val_ofNat, Nat.mod_eq_of_lt ha.1]

/-- C63 for the ciphers of manta-pay: the owner of the address recovers every opaque coin it is sent, the
coin passes the check that guards the wallet, and spending it reproduces it. -/
theorem c68_coin_recovered {P : Transfer.Prim} {p : Nat} [NeZero p] {K : Type} {A : Aes K} (hA : A.Laws)
    (hp : p ≤ 2 ^ 256) (hash : P.Grp → K) (base : Transfer.Kit (payPrim P p)) (L : (payPrim P p).Laws)
    (pak : P.Grp) (asset : Asset.Asset) (hv : Fits p asset) (er er' : P.Scal × P.SRand) (rand : Fin p)
    (wit : P.Wit) (root : P.Root) :
    let T := payKit base A hash
    let dk := T.viewKey pak
    let r := Transfer.deriveMint T (P.smul P.gen dk) asset false er rand
    Transfer.noteOpen T dk r.utxo r.note = some ((false, rand), asset) ∧
    Transfer.utxoCheck T r.utxo asset (false, rand) dk = true ∧
    (Transfer.deriveSpend T pak (false, rand) asset er' wit root).utxo = r.utxo :=
  Transfer.c63_opaque_recovered_partial L _ (c68_kit_correct hA hp hash base) pak asset hv er er' rand wit root

end Verif.Cipher
