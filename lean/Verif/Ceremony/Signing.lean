import Verif.Ceremony.Register
import Verif.Ceremony.Witness
import Verif.Codec.Props

/-!
# C145: what a signature of a participant says

The bytes under the signatures of the ceremony, manta-trusted-setup/src/ceremony/signature.rs:57-170, 236-250, and
groth16/ceremony/message.rs:29-90, with the signature scheme of manta-crypto/src/dalek/ed25519.rs:105-173. One key signs the
registration, the queries and the contribution, and none of the three carries a tag.

Not modelled: the curve. Signing and verification are parameters, and what `CanonicalSerialize` writes for a state and for a
proof are parameters too.
-/

namespace Verif.Ceremony

open Verif.Codec (toLE fromLE toLE_length fromLE_toLE)

abbrev Bytes := List UInt8

variable {I VK Sig St Ch Pf Nm : Type} [DecidableEq I] [DecidableEq Nm]

/-! ## Model -/

/-- `AsBytes for RawMessage`, signature.rs:80-91: the nonce in eight bytes (`AsBytes for u64`, manta-util/src/bytes.rs:84-90),
then the encoded message. -/
def rawMessage (nonce : Nat) (encoded : Bytes) : Bytes := toLE 8 nonce ++ encoded

/-- The bytes of a `String`. -/
def utf8 (t : List Char) : Bytes := t.flatMap String.utf8EncodeChar

/-- `bincode::serialize` of a `String` or a `Vec<u8>`: the length in eight bytes, then the bytes. -/
def encBytes (b : Bytes) : Bytes := toLE 8 b.length ++ b

/-- `bincode::serialize` of a `Vec` of elements that are written as `Vec<u8>`. -/
def encSeq (xs : List Bytes) : Bytes := toLE 8 xs.length ++ xs.flatMap encBytes

/-- What `canonical_serialize_uncompressed` gives for a state and `canonical_serialize` for a proof,
groth16/mpc.rs:60-70, 133-141, manta-crypto/src/arkworks/serialize.rs:179-206. -/
structure Wire (St Pf : Type) where
  state : St → Bytes
  proof : Pf → Bytes

/-- `bincode::serialize` of `QueryRequest`, a unit struct, and of `ContributeRequest`, message.rs:29-37, 62-83. -/
def encBody (W : Wire St Pf) : Body St Pf → Bytes
  | .query => []
  | .contribute state proof => encSeq (state.map W.state) ++ encSeq (proof.map W.proof)

/-- What is signed for a request, `sign` and `SignedMessage::generate`, signature.rs:127-147, 236-250. -/
def requestBytes (W : Wire St Pf) (nonce : Nat) (b : Body St Pf) : Bytes := rawMessage nonce (encBody W b)

/-- What is signed for a registration, config/ppot.rs:477-484: a `String`, with the default nonce. -/
def registrationBytes (twitter email : List Char) : Bytes :=
  rawMessage 0 (encBytes (utf8 (registrationMessage twitter email)))

/-- `Verify for Ed25519`, ed25519.rs:155-173: `false` also for a key that is no point. -/
structure Scheme (VK Sig : Type) where
  verify : VK → Bytes → Sig → Bool

/-- `verify` of signature.rs:150-170 as the server uses it. -/
def Config.over (cfg : Config VK Sig St Ch Pf) (E : Scheme VK Sig) (W : Wire St Pf) : Config VK Sig St Ch Pf :=
  { cfg with verifySig := fun key nonce b sig => E.verify key (requestBytes W nonce b) sig }

/-- The same as `Record::parse` uses it, config/ppot.rs:320-329. -/
def Registrar.over (c : Registrar VK Sig) (E : Scheme VK Sig) : Registrar VK Sig :=
  { c with verify := fun key text sig => E.verify key (rawMessage 0 (encBytes (utf8 text))) sig }

/-! ## Specification -/

/-- What fits in memory: every length is a `usize`. -/
def Fits (W : Wire St Pf) : Body St Pf → Prop
  | .query => True
  | .contribute state proof =>
    state.length < 2 ^ 64 ∧ proof.length < 2 ^ 64 ∧
      (∀ s ∈ state, (W.state s).length < 2 ^ 64) ∧ ∀ p ∈ proof, (W.proof p).length < 2 ^ 64

/-- The same for a registration. -/
def TextFits (twitter email : List Char) : Prop := (utf8 (registrationMessage twitter email)).length < 2 ^ 64

/-- Different states and proofs have different bytes. -/
def Wire.Faithful (W : Wire St Pf) : Prop :=
  (∀ s s', W.state s = W.state s' → s = s') ∧ ∀ p p', W.proof p = W.proof p' → p = p'

/-! ## Helpers -/

theorem utf8_inj {t t' : List Char} (h : utf8 t = utf8 t') : t = t' := by
  have h1 : t.utf8Encode = t'.utf8Encode := by
    unfold List.utf8Encode
    exact congrArg List.toByteArray h
  have h2 := @List.utf8Decode?_utf8Encode t
  rw [h1, List.utf8Decode?_utf8Encode] at h2
  have h3 := congrArg Array.toList (Option.some.inj h2)
  simpa using h3.symm

theorem toLE_cut {w v v' : Nat} {r r' : Bytes} (hv : v < 256 ^ w) (hv' : v' < 256 ^ w)
    (h : toLE w v ++ r = toLE w v' ++ r') : v = v' ∧ r = r' := by
  have h1 := List.append_inj h (by rw [toLE_length, toLE_length])
  refine ⟨?_, h1.2⟩
  have := congrArg fromLE h1.1
  rwa [fromLE_toLE w v hv, fromLE_toLE w v' hv'] at this

theorem encBytes_cut {b b' r r' : Bytes} (hb : b.length < 2 ^ 64) (hb' : b'.length < 2 ^ 64)
    (h : encBytes b ++ r = encBytes b' ++ r') : b = b' ∧ r = r' := by
  unfold encBytes at h
  rw [List.append_assoc, List.append_assoc] at h
  obtain ⟨h1, h2⟩ := toLE_cut (by simpa using hb) (by simpa using hb') h
  exact List.append_inj h2 h1

theorem flatMap_cut : ∀ (xs xs' : List Bytes) (r r' : Bytes), xs.length = xs'.length →
    (∀ x ∈ xs, x.length < 2 ^ 64) → (∀ x ∈ xs', x.length < 2 ^ 64) →
    xs.flatMap encBytes ++ r = xs'.flatMap encBytes ++ r' → xs = xs' ∧ r = r'
  | [], [], _, _, _, _, _, h => ⟨rfl, by simpa using h⟩
  | x :: xs, x' :: xs', r, r', hl, hx, hx', h => by
    simp only [List.flatMap_cons, List.append_assoc] at h
    obtain ⟨rfl, h1⟩ := encBytes_cut (hx x (by simp)) (hx' x' (by simp)) h
    obtain ⟨rfl, h2⟩ := flatMap_cut xs xs' r r' (by simpa using hl) (fun y hy => hx y (by simp [hy]))
      (fun y hy => hx' y (by simp [hy])) h1
    exact ⟨rfl, h2⟩

theorem encSeq_cut {xs xs' : List Bytes} {r r' : Bytes} (hn : xs.length < 2 ^ 64) (hn' : xs'.length < 2 ^ 64)
    (hx : ∀ x ∈ xs, x.length < 2 ^ 64) (hx' : ∀ x ∈ xs', x.length < 2 ^ 64)
    (h : encSeq xs ++ r = encSeq xs' ++ r') : xs = xs' ∧ r = r' := by
  unfold encSeq at h
  rw [List.append_assoc, List.append_assoc] at h
  obtain ⟨h1, h2⟩ := toLE_cut (by simpa using hn) (by simpa using hn') h
  exact flatMap_cut xs xs' r r' h1 hx hx' h2

theorem flatMap_length (xs : List Bytes) : 8 * xs.length ≤ (xs.flatMap encBytes).length := by
  induction xs with
  | nil => simp
  | cons x xs ih =>
    simp only [List.flatMap_cons, List.length_append, List.length_cons, encBytes, toLE_length]
    omega

theorem encSeq_length (xs : List Bytes) : 8 + 8 * xs.length ≤ (encSeq xs).length := by
  have := flatMap_length xs
  simp only [encSeq, List.length_append, toLE_length]
  omega

theorem map_inj {α β : Type} {f : α → β} (hf : ∀ a b, f a = f b → a = b) :
    ∀ (xs ys : List α), xs.map f = ys.map f → xs = ys
  | [], [], _ => rfl
  | x :: xs, y :: ys, h => by
    simp only [List.map_cons, List.cons.injEq] at h
    rw [hf x y h.1, map_inj hf xs ys h.2]

theorem encBody_inj (W : Wire St Pf) (hW : W.Faithful) (b b' : Body St Pf) (hb : Fits W b) (hb' : Fits W b')
    (h : encBody W b = encBody W b') : b = b' := by
  have pos : ∀ (st : List St) (pf : List Pf), encBody W (.contribute st pf) ≠ [] := by
    intro st pf h
    have h1 := congrArg List.length h
    have h2 := encSeq_length (st.map W.state)
    simp only [encBody, List.length_append, List.length_nil] at h1
    omega
  cases b with
  | query =>
    cases b' with
    | query => rfl
    | contribute st pf => exact absurd h.symm (pos st pf)
  | contribute st pf =>
    cases b' with
    | query => exact absurd h (pos st pf)
    | contribute st' pf' =>
      obtain ⟨h1, h2, h3, h4⟩ := hb
      obtain ⟨h1', h2', h3', h4'⟩ := hb'
      simp only [encBody] at h
      have ms : ∀ (l : List St), (∀ s ∈ l, (W.state s).length < 2 ^ 64) →
          ∀ x ∈ l.map W.state, x.length < 2 ^ 64 := by
        intro l hl x hx
        obtain ⟨s, hs, rfl⟩ := List.mem_map.1 hx
        exact hl s hs
      have mp : ∀ (l : List Pf), (∀ s ∈ l, (W.proof s).length < 2 ^ 64) →
          ∀ x ∈ l.map W.proof, x.length < 2 ^ 64 := by
        intro l hl x hx
        obtain ⟨s, hs, rfl⟩ := List.mem_map.1 hx
        exact hl s hs
      obtain ⟨e1, e2⟩ := encSeq_cut (by simpa using h1) (by simpa using h1') (ms _ h3) (ms _ h3') h
      obtain ⟨e3, _⟩ := encSeq_cut (r := []) (r' := []) (by simpa using h2) (by simpa using h2') (mp _ h4) (mp _ h4')
        (by simpa using e2)
      rw [map_inj hW.1 _ _ e1, map_inj hW.2 _ _ e3]

/-! ## Theorems -/

/-- **C145.** The bytes signed for a request determine its nonce, its kind and its content. -/
theorem c145_request (W : Wire St Pf) (hW : W.Faithful) (n n' : Nat) (b b' : Body St Pf)
    (hn : n < 2 ^ 64) (hn' : n' < 2 ^ 64) (hb : Fits W b) (hb' : Fits W b')
    (h : requestBytes W n b = requestBytes W n' b') : n = n' ∧ b = b' := by
  obtain ⟨h1, h2⟩ := toLE_cut (by simpa using hn) (by simpa using hn') h
  exact ⟨h1, encBody_inj W hW b b' hb hb' h2⟩

/-- **C145.** No registration is signed with the bytes of a request, whatever the account, the address, the nonce and the
content: a signature for one cannot be used for the other. -/
theorem c145_separate (W : Wire St Pf) (n : Nat) (b : Body St Pf) (twitter email : List Char)
    (hb : Fits W b) (ht : TextFits twitter email) : requestBytes W n b ≠ registrationBytes twitter email := by
  intro h
  have h0 := (List.append_inj h (by rw [toLE_length, toLE_length])).2
  have hl := congrArg List.length h0
  cases b with
  | query =>
    simp only [encBody, encBytes, List.length_nil, List.length_append, toLE_length] at hl
    omega
  | contribute st pf =>
    obtain ⟨h1, h2, h3, h4⟩ := hb
    simp only [encBody, encSeq, encBytes, List.append_assoc] at h0
    obtain ⟨e1, _⟩ := toLE_cut (by simpa using h1) (by simpa [TextFits] using ht) h0
    have l1 := encSeq_length (st.map W.state)
    have l2 := encSeq_length (pf.map W.proof)
    simp only [encBody, encBytes, List.length_append, toLE_length] at hl
    rw [← e1] at hl
    omega

/-- **C145.** The bytes signed for a registration determine the registration message; by C73 the account and the address,
if the accounts have no comma. -/
theorem c145_registration (t t' e e' : List Char) (hf : TextFits t e) (hf' : TextFits t' e')
    (h : registrationBytes t e = registrationBytes t' e') :
    registrationMessage t e = registrationMessage t' e' ∧ (',' ∉ t → ',' ∉ t' → t = t' ∧ e = e') := by
  have h0 := (List.append_inj h rfl).2
  obtain ⟨h1, _⟩ := encBytes_cut (r := []) (r' := []) hf hf' (by simpa using h0)
  have h2 := utf8_inj h1
  exact ⟨h2, fun ht ht' => c73_message_partial t t' e e' ht ht' h2⟩

/-- **C145.** Whatever is sent to the server in a history without restarts, and however many registrations a participant
signed: if every signature the server let through under the participant's key was made by the participant for some bytes,
then each request let through is one the participant signed, as a request, with that nonce and that content, and no two of
them are the same. -/
theorem c145_agreement (cfg : Config VK Sig St Ch Pf) (E : Scheme VK Sig) (W : Wire St Pf) (hW : W.Faithful)
    (s : Server I VK St Ch Pf Nm) (es : List (Event I VK Sig St Pf)) (hes : NoRestart es) (hs : Nonces64 s.reg)
    (hrows : Rows64 es) (i : I) (p : Participant VK) (hp : s.reg.get i = some p)
    (registrations : List (List Char × List Char)) (requests : List (Nat × Body St Pf))
    (hreg : ∀ r ∈ registrations, TextFits r.1 r.2)
    (hreq : ∀ r ∈ requests, r.1 < 2 ^ 64 ∧ Fits W r.2)
    (hfits : ∀ x ∈ admittedLog (cfg.over E W) s es, Fits W x.2.2.1)
    (hmade : ∀ x ∈ admittedLog (cfg.over E W) s es, x.1 = i →
      E.verify p.key (requestBytes W x.2.1 x.2.2.1) x.2.2.2 = true →
      requestBytes W x.2.1 x.2.2.1 ∈ registrations.map (fun r => registrationBytes r.1 r.2) ++
        requests.map fun r => requestBytes W r.1 r.2) :
    (∀ x ∈ admittedLog (cfg.over E W) s es, x.1 = i → (x.2.1, x.2.2.1) ∈ requests) ∧
    (((admittedLog (cfg.over E W) s es).filter (fun x => x.1 = i)).map fun x => (x.2.1, x.2.2.1)).Nodup := by
  obtain ⟨h1, h2⟩ := c41_nonces_partial (cfg.over E W) s es hes hs hrows i p hp
  refine ⟨?_, ?_⟩
  · intro x hx hxi
    obtain ⟨_, h4, h5⟩ := h2 x hx hxi
    rcases List.mem_append.1 (hmade x hx hxi h5) with hm | hm
    · obtain ⟨r, hr, e⟩ := List.mem_map.1 hm
      exact absurd e.symm (c145_separate W _ _ _ _ (hfits x hx) (hreg r hr))
    · obtain ⟨r, hr, e⟩ := List.mem_map.1 hm
      have hlt : x.2.1 < 2 ^ 64 := by
        have : nonceMax < 2 ^ 64 := by decide
        omega
      obtain ⟨e1, e2⟩ := c145_request W hW _ _ _ _ (hreq r hr).1 hlt (hreq r hr).2 (hfits x hx) e
      rw [← e1, ← e2]
      exact hr
  · rw [List.Nodup, List.pairwise_map]
    rw [List.pairwise_map] at h1
    refine h1.imp ?_
    intro x y hlt heq
    have := (Prod.mk.inj heq).1
    omega

/-- **C145.** A row is accepted under a key only if the holder of the key signed its message to register: requests that the
holder signed do not help. -/
theorem c145_row (c : Registrar VK Sig) (E : Scheme VK Sig) (W : Wire St Pf) (nonce : Nat) (r : Record) (key : VK)
    (p : Participant VK) (h : r.parse (c.over E) nonce = some (key, p))
    (registrations : List (List Char × List Char)) (requests : List (Nat × Body St Pf))
    (hr : TextFits r.twitter r.email)
    (hreg : ∀ r ∈ registrations, TextFits r.1 r.2) (hreq : ∀ r ∈ requests, Fits W r.2)
    (hmade : ∀ sig, c.decodeSig r.signature = some sig → E.verify key (registrationBytes r.twitter r.email) sig = true →
      registrationBytes r.twitter r.email ∈ registrations.map (fun r => registrationBytes r.1 r.2) ++
        requests.map fun r => requestBytes W r.1 r.2) :
    ∃ q ∈ registrations, registrationMessage q.1 q.2 = registrationMessage r.twitter r.email := by
  obtain ⟨⟨_, sig, h1, h2⟩, _⟩ := (parse_some _ _ _ _ _).1 h
  rcases List.mem_append.1 (hmade sig h1 h2) with hm | hm
  · obtain ⟨q, hq, e⟩ := List.mem_map.1 hm
    exact ⟨q, hq, (c145_registration _ _ _ _ (hreg q hq) hr e).1⟩
  · obtain ⟨q, hq, e⟩ := List.mem_map.1 hm
    exact absurd e (c145_separate W _ _ _ _ (hreq q hq) hr)

/-! ## Examples -/

/-- States and proofs in unary. -/
def unary : Wire Nat (Nat × Nat) where
  state n := List.replicate n 0
  proof p := List.replicate p.1 1 ++ List.replicate p.2 0

theorem unary_faithful : unary.Faithful := by
  refine ⟨fun s s' h => ?_, fun p p' h => ?_⟩
  · simpa [unary] using congrArg List.length h
  · have h1 := congrArg (List.count 1) h
    have h2 := congrArg (List.count 0) h
    simp [unary, List.count_replicate] at h1 h2
    exact Prod.ext h1 h2

/-- A signature is the key and the message. -/
def plain : Scheme Nat Bytes where
  verify key m sig := sig == UInt8.ofNat key :: m

/-- The bytes under the two kinds of requests and under a registration. -/
example : requestBytes unary 3 .query = [3, 0, 0, 0, 0, 0, 0, 0] ∧
    requestBytes unary 258 (.contribute [2] [(1, 0)]) =
      [2, 1, 0, 0, 0, 0, 0, 0, 1, 0, 0, 0, 0, 0, 0, 0, 2, 0, 0, 0, 0, 0, 0, 0, 0, 0,
       1, 0, 0, 0, 0, 0, 0, 0, 1, 0, 0, 0, 0, 0, 0, 0, 1] ∧
    (registrationBytes "@a".toList "ä".toList).take 20 =
      [0, 0, 0, 0, 0, 0, 0, 0, 60, 0, 0, 0, 0, 0, 0, 0, 109, 97, 110, 116] := by decide

/-- What participant 1 signs: a registration, two queries and a contribution. -/
def signedRequests : List (Nat × Body Nat (Nat × Nat)) :=
  [(0, .query), (1, .query), (2, .contribute [7, 9] [(2, 1), (3, 1)])]

def signedEvents : List (Event Nat Nat Bytes Nat (Nat × Nat)) :=
  [.query 0 1 (11 :: requestBytes unary 0 .query),
   .query 0 1 (11 :: requestBytes unary 0 .query),
   .query 1 1 (11 :: registrationBytes "@a".toList "b".toList),
   .query 1 1 (11 :: requestBytes unary 1 .query),
   .start 2 1 [7, 9] [(2, 1), (3, 1)] (11 :: requestBytes unary 2 (.contribute [7, 9] [(2, 1), (3, 1)])),
   .apply 0, .finish 3 0]

/-- The ceremony of `toy` with signatures of bytes. -/
def toyOver : Config Nat Bytes Nat Nat (Nat × Nat) :=
  Config.over ⟨fun _ _ _ _ => false, toy.checkState, toy.challenge, toy.verifyTransform, toy.limit⟩ plain unary

/-- All three requests are let through; the repeated query and the registration are not. -/
example : (admittedLog toyOver toyServer signedEvents).map (fun x => (x.1, x.2.1)) = [(1, 0), (1, 1), (1, 2)] := by
  decide

/-- `c145_agreement` applies to it. -/
example : ∀ x ∈ admittedLog toyOver toyServer signedEvents, x.1 = 1 → (x.2.1, x.2.2.1) ∈ signedRequests := by
  have hlog : admittedLog toyOver toyServer signedEvents =
      [(1, 0, .query, 11 :: requestBytes unary 0 .query), (1, 1, .query, 11 :: requestBytes unary 1 .query),
       (1, 2, .contribute [7, 9] [(2, 1), (3, 1)],
         11 :: requestBytes unary 2 (.contribute [7, 9] [(2, 1), (3, 1)]))] := by rfl
  refine (c145_agreement _ plain unary unary_faithful toyServer signedEvents (by simp [NoRestart, signedEvents])
    toy_nonces64 (by simp [Rows64, signedEvents]) 1 ⟨.high, 11, 0, false⟩ rfl [("@a".toList, "b".toList)]
    signedRequests ?_ ?_ ?_ ?_).1
  · intro r hr
    simp only [List.mem_singleton] at hr
    subst hr
    unfold TextFits
    decide
  · intro r hr
    simp only [signedRequests, List.mem_cons, List.not_mem_nil, or_false] at hr
    rcases hr with rfl | rfl | rfl <;> refine ⟨by decide, ?_⟩ <;> simp [Fits, unary]
  · intro x hx
    change x ∈ admittedLog toyOver toyServer signedEvents at hx
    rw [hlog] at hx
    simp only [List.mem_cons, List.not_mem_nil, or_false] at hx
    rcases hx with rfl | rfl | rfl <;> simp [Fits, unary]
  · intro x hx _ _
    change x ∈ admittedLog toyOver toyServer signedEvents at hx
    rw [hlog] at hx
    simp only [List.mem_cons, List.not_mem_nil, or_false] at hx
    rcases hx with rfl | rfl | rfl <;> simp [signedRequests]

/-- `c145_row` applies to a row made with this key. -/
example : ∃ p, Record.parse (Registrar.over ⟨fun _ => some 11, fun _ => some (11 :: registrationBytes "@a".toList "b".toList),
      fun _ _ _ => false⟩ plain) 5 ⟨"@a".toList, "b".toList, "high".toList, [], []⟩ = some (11, p) := ⟨_, rfl⟩

end Verif.Ceremony
