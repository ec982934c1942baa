import Verif.Ceremony.Signing

/-!
# C146: from `register` to the queue

What a participant does with the client, manta-trusted-setup/src/groth16/ceremony/config/ppot.rs:459-525: `register` prints a
secret phrase and a link to a form, and `contribute` asks for the phrase. In between the organiser exports the form, processes
it (C124) and loads the registry.

Not modelled: the list of words and the derivation of the seed, the random generator behind the secret key and the curve, which
are parameters. The browser and the form are outside the repository; `formField` is what they are assumed to do.
-/

namespace Verif.Ceremony

variable {M SK VK Sig St Ch Pf R : Type} [DecidableEq VK]

/-! ## Model -/

/-- `char::is_whitespace`. -/
def isSpace (c : Char) : Bool :=
  let n := c.toNat
  (9 ≤ n && n ≤ 13) || n == 32 || n == 0x85 || n == 0xA0 || n == 0x1680 || (0x2000 ≤ n && n ≤ 0x200A) || n == 0x2028 ||
    n == 0x2029 || n == 0x202F || n == 0x205F || n == 0x3000

/-- `str::trim`. -/
def trim (t : List Char) : List Char := ((t.dropWhile isSpace).reverse.dropWhile isSpace).reverse

/-- The phrases of the `bip39` crate. -/
structure Phrases (M : Type) where
  /-- `Mnemonic::phrase`. -/
  phrase : M → List Char
  /-- `Mnemonic::from_phrase`; `Mnemonic::validate` accepts the same texts. -/
  read : List Char → Option M
  /-- `Seed::new(mnemonic, password).as_bytes()`. -/
  seed : M → List Char → Bytes

/-- Keys and signatures of manta-crypto/src/dalek/ed25519.rs. -/
structure Ed (SK VK Sig : Type) where
  /-- `generate_secret_key`, ed25519.rs:79-85, with the generator seeded by 32 bytes. -/
  draw : Bytes → SK
  /-- The public key of `generate_keypair`, ed25519.rs:89-98. -/
  publicKey : SK → VK
  /-- `Sign for Ed25519`, ed25519.rs:137-153. -/
  sign : SK → Bytes → Sig
  /-- `bs58::encode` of a public key and of a signature. -/
  keyText : VK → List Char
  sigText : Sig → List Char

/-- `generate_keys`, config/ppot.rs:459-470. -/
def generateKeys (K : Ed SK VK Sig) (bytes : Bytes) : Option (SK × VK) :=
  if 32 > bytes.length then none
  else
    let sk := K.draw (bytes.take 32)
    some (sk, K.publicKey sk)

/-- The password of the seed, config/ppot.rs:476, 521. -/
def seedPassword : List Char := "manta-trusted-setup".toList

/-- `register_link`, config/ppot.rs:499-506. -/
def registerLink (twitter email key sig : List Char) : List Char :=
  "https://mantanetwork.typeform.com/trustedsetup2#twitter=".toList ++ twitter ++ "&email=".toList ++ email ++
    "&verifying_key=".toList ++ key ++ "&signature=".toList ++ sig ++ " \n".toList

/-- `register`, config/ppot.rs:472-495, with the mnemonic drawn: what is printed, the phrase and the link. `none` is the panic
of `expect`. -/
def register (B : Phrases M) (K : Ed SK VK Sig) (m : M) (twitter email : List Char) : Option (List Char × List Char) :=
  match generateKeys K (B.seed m seedPassword) with
  | none => none
  | some (sk, vk) =>
    let sig := K.sign sk (registrationBytes twitter email)
    some (B.phrase m, registerLink twitter email (K.keyText vk) (K.sigText sig))

/-- `get_client_keys`, config/ppot.rs:508-528, on one text that is typed. `none`: the prompt asks again, or the seed is too
short. -/
def clientKeys (B : Phrases M) (K : Ed SK VK Sig) (text : List Char) : Option (SK × VK) :=
  match B.read (trim text) with
  | none => none
  | some m => generateKeys K (B.seed m seedPassword)

/-! ## The form -/

/-- Pieces between ampersands. -/
def splitAmp : List Char → List (List Char)
  | [] => [[]]
  | c :: cs =>
    if c = '&' then [] :: splitAmp cs
    else
      match splitAmp cs with
      | [] => [[c]]
      | p :: ps => (c :: p) :: ps

/-- What the form takes from the address: of the part after the first `#`, without blanks at the end, the piece with the given
name. -/
def formField (url name : List Char) : Option (List Char) :=
  ((splitAmp (((trim url).dropWhile (· != '#')).drop 1)).find? fun p => p.takeWhile (· != '=') == name).map
    fun p => (p.dropWhile (· != '=')).drop 1

/-- The row of the form, with any priority. -/
def formRow (url priority : List Char) : Option Record :=
  match formField url "twitter".toList, formField url "email".toList, formField url "verifying_key".toList,
      formField url "signature".toList with
  | some t, some e, some k, some s => some ⟨t, e, priority, k, s⟩
  | _, _, _, _ => none

/-! ## Specification -/

/-- Texts that neither begin nor end with a blank. -/
def Tight (t : List Char) : Prop :=
  (∀ c, t.head? = some c → isSpace c = false) ∧ ∀ c, t.getLast? = some c → isSpace c = false

/-- Texts of keys and signatures: not empty, of letters and digits. -/
def Plain (t : List Char) : Prop := t ≠ [] ∧ ∀ c ∈ t, c.isAlphanum = true

/-- What is assumed of the libraries: a phrase reads back and is tight, seeds are long enough, keys and signatures read back
from their texts, which are plain, and signatures verify. -/
structure Libraries (B : Phrases M) (K : Ed SK VK Sig) (c : Registrar VK Sig) (E : Scheme VK Sig) : Prop where
  read : ∀ m, B.read (B.phrase m) = some m
  tight : ∀ m, Tight (B.phrase m)
  seed : ∀ m pw, 32 ≤ (B.seed m pw).length
  key : ∀ sk, c.decodeKey (K.keyText (K.publicKey sk)) = some (K.publicKey sk)
  sig : ∀ s, c.decodeSig (K.sigText s) = some s
  plainKey : ∀ k, Plain (K.keyText k)
  plainSig : ∀ s, Plain (K.sigText s)
  verify : ∀ sk m, E.verify (K.publicKey sk) m (K.sign sk m) = true

/-! ## Helpers -/

theorem dropWhile_all {p : Char → Bool} : ∀ (a x : List Char), (∀ c ∈ a, p c = true) →
    (a ++ x).dropWhile p = x.dropWhile p
  | [], x, _ => rfl
  | c :: a, x, h => by
    rw [List.cons_append, List.dropWhile_cons, if_pos (h c (by simp))]
    exact dropWhile_all a x fun d hd => h d (by simp [hd])

theorem dropWhile_head {p : Char → Bool} (x : List Char) (h : ∀ c, x.head? = some c → p c = false) :
    x.dropWhile p = x := by
  cases x with
  | nil => rfl
  | cons c x => rw [List.dropWhile_cons, if_neg (by simp [h c rfl])]

theorem trim_tight (a x b : List Char) (ha : ∀ c ∈ a, isSpace c = true) (hb : ∀ c ∈ b, isSpace c = true) (hx : Tight x) :
    trim (a ++ x ++ b) = x := by
  unfold trim
  rw [List.append_assoc, dropWhile_all _ _ ha]
  cases x with
  | nil =>
    rw [List.nil_append]
    have : b.dropWhile isSpace = [] := by
      have := dropWhile_all b [] hb
      simpa using this
    rw [this]; rfl
  | cons c x =>
    have h1 : (c :: x ++ b).dropWhile isSpace = c :: x ++ b :=
      dropWhile_head _ fun d hd => hx.1 d (by simpa using hd)
    have h2 : (c :: x).reverse.dropWhile isSpace = (c :: x).reverse :=
      dropWhile_head _ fun d hd => hx.2 d (by rwa [List.head?_reverse] at hd)
    rw [h1, List.reverse_append, dropWhile_all _ _ (by simpa using hb), h2, List.reverse_reverse]

theorem splitAmp_plain : ∀ (a : List Char), '&' ∉ a → splitAmp a = [a]
  | [], _ => rfl
  | c :: a, h => by
    simp only [List.mem_cons, not_or] at h
    rw [splitAmp, if_neg (fun e => h.1 e.symm), splitAmp_plain a h.2]

theorem splitAmp_cons : ∀ (a r : List Char), '&' ∉ a → splitAmp (a ++ '&' :: r) = a :: splitAmp r
  | [], r, _ => by rw [List.nil_append, splitAmp, if_pos rfl]
  | c :: a, r, h => by
    simp only [List.mem_cons, not_or] at h
    rw [List.cons_append, splitAmp, if_neg (fun e => h.1 e.symm), splitAmp_cons a r h.2]

theorem alnum_not_space (c : Char) (h : c.isAlphanum = true) : isSpace c = false := by
  have hb : (48 ≤ c.toNat ∧ c.toNat ≤ 57) ∨ (65 ≤ c.toNat ∧ c.toNat ≤ 90) ∨ (97 ≤ c.toNat ∧ c.toNat ≤ 122) := by
    simp only [Char.isAlphanum, Char.isAlpha, Char.isUpper, Char.isLower, Char.isDigit, Bool.or_eq_true,
      Bool.and_eq_true, decide_eq_true_eq, UInt32.le_iff_toNat_le] at h
    have : c.toNat = c.val.toNat := rfl
    rw [this]
    rcases h with (⟨h1, h2⟩ | ⟨h1, h2⟩) | ⟨h1, h2⟩
    · exact .inr (.inl ⟨h1, h2⟩)
    · exact .inr (.inr ⟨h1, h2⟩)
    · exact .inl ⟨h1, h2⟩
  unfold isSpace
  simp only [Bool.or_eq_false_iff, Bool.and_eq_false_iff, beq_eq_false_iff_ne, decide_eq_false_iff_not]
  omega

theorem Plain.amp {t : List Char} (h : Plain t) : '&' ∉ t := fun hm => by
  have := h.2 _ hm
  revert this
  decide

theorem takeWhile_name (n v : List Char) (h : '=' ∉ n) :
    (n ++ '=' :: v).takeWhile (· != '=') = n ∧ ((n ++ '=' :: v).dropWhile (· != '=')).drop 1 = v := by
  induction n with
  | nil => simp
  | cons c n ih =>
    simp only [List.mem_cons, not_or] at h
    have hc : (c != '=') = true := by
      simp only [bne_iff_ne, ne_eq]
      exact fun e => h.1 e.symm
    obtain ⟨h1, h2⟩ := ih h.2
    simp only [List.cons_append, List.takeWhile_cons, List.dropWhile_cons, hc, if_true]
    exact ⟨by rw [h1], h2⟩

/-- The fragment of the link. -/
theorem link_fragment (t e k s : List Char) (hs : Plain s) :
    ((trim (registerLink t e k s)).dropWhile (· != '#')).drop 1 =
      ("twitter".toList ++ '=' :: t) ++ '&' :: (("email".toList ++ '=' :: e) ++ '&' ::
        (("verifying_key".toList ++ '=' :: k) ++ '&' :: ("signature".toList ++ '=' :: s))) := by
  have h1 : registerLink t e k s = [] ++
      ("https://mantanetwork.typeform.com/trustedsetup2#twitter=".toList ++ t ++ "&email=".toList ++ e ++
        "&verifying_key=".toList ++ k ++ "&signature=".toList ++ s) ++ " \n".toList := rfl
  have hlast : ∀ (x : List Char), (x ++ s).getLast? = s.getLast? := by
    intro x
    obtain ⟨y, hy⟩ := Option.ne_none_iff_exists'.1 (fun e => hs.1 (List.getLast?_eq_none_iff.1 e))
    rw [List.getLast?_append, hy]
    rfl
  rw [h1, trim_tight [] _ _ (by simp) (by decide) ⟨?_, ?_⟩]
  · simp
  · intro c hc
    have : c = 'h' := by simpa using hc.symm
    subst this
    decide
  · intro c hc
    rw [hlast] at hc
    exact alnum_not_space c (hs.2 c (List.mem_of_getLast? hc))

theorem link_pieces (t e k s : List Char) (ht : '&' ∉ t) (he : '&' ∉ e) (hk : Plain k) (hs : Plain s) :
    splitAmp (((trim (registerLink t e k s)).dropWhile (· != '#')).drop 1) =
      ["twitter".toList ++ '=' :: t, "email".toList ++ '=' :: e, "verifying_key".toList ++ '=' :: k,
        "signature".toList ++ '=' :: s] := by
  have key : ∀ (n v : List Char), '&' ∉ n → '&' ∉ v → '&' ∉ n ++ '=' :: v := by
    intro n v hn hv hm
    rcases List.mem_append.1 hm with h | h
    · exact hn h
    · rcases List.mem_cons.1 h with h | h
      · exact absurd h (by decide)
      · exact hv h
  rw [link_fragment t e k s hs, splitAmp_cons _ _ (key _ _ (by decide) ht), splitAmp_cons _ _ (key _ _ (by decide) he),
    splitAmp_cons _ _ (key _ _ (by decide) hk.amp), splitAmp_plain _ (key _ _ (by decide) hs.amp)]

/-! ## Theorems -/

/-- **C146, for accounts and addresses without an ampersand.** The form takes from the link what `register` put in. -/
theorem c146_form_partial (t e k s priority : List Char) (ht : '&' ∉ t) (he : '&' ∉ e) (hk : Plain k) (hs : Plain s) :
    formRow (registerLink t e k s) priority = some ⟨t, e, priority, k, s⟩ := by
  have h := link_pieces t e k s ht he hk hs
  obtain ⟨a1, a2⟩ := takeWhile_name "twitter".toList t (by decide)
  obtain ⟨b1, b2⟩ := takeWhile_name "email".toList e (by decide)
  obtain ⟨c1, c2⟩ := takeWhile_name "verifying_key".toList k (by decide)
  obtain ⟨d1, d2⟩ := takeWhile_name "signature".toList s (by decide)
  have f1 : formField (registerLink t e k s) "twitter".toList = some t := by
    unfold formField
    rw [h, List.find?_cons, a1]
    simp only [BEq.rfl, Option.map_some, a2]
  have f2 : formField (registerLink t e k s) "email".toList = some e := by
    unfold formField
    rw [h, List.find?_cons, a1, List.find?_cons, b1]
    have : ("twitter".toList == "email".toList) = false := by decide
    simp only [this, BEq.rfl, Option.map_some, b2]
  have f3 : formField (registerLink t e k s) "verifying_key".toList = some k := by
    unfold formField
    rw [h, List.find?_cons, a1, List.find?_cons, b1, List.find?_cons, c1]
    have h1 : ("twitter".toList == "verifying_key".toList) = false := by decide
    have h2 : ("email".toList == "verifying_key".toList) = false := by decide
    simp only [h1, h2, BEq.rfl, Option.map_some, c2]
  have f4 : formField (registerLink t e k s) "signature".toList = some s := by
    unfold formField
    rw [h, List.find?_cons, a1, List.find?_cons, b1, List.find?_cons, c1, List.find?_cons, d1]
    have h1 : ("twitter".toList == "signature".toList) = false := by decide
    have h2 : ("email".toList == "signature".toList) = false := by decide
    have h3 : ("verifying_key".toList == "signature".toList) = false := by decide
    simp only [h1, h2, h3, BEq.rfl, Option.map_some, d2]
  unfold formRow
  rw [f1, f2, f3, f4]

omit [DecidableEq VK] in
/-- **C146.** `contribute` works with the keys of `register` if the secret is typed with any blanks around it. -/
theorem c146_keys (B : Phrases M) (K : Ed SK VK Sig) (c : Registrar VK Sig) (E : Scheme VK Sig) (hL : Libraries B K c E)
    (m : M) (t e a b : List Char) (ha : ∀ x ∈ a, isSpace x = true) (hb : ∀ x ∈ b, isSpace x = true) :
    ∃ phrase sk, register B K m t e = some (phrase, registerLink t e (K.keyText (K.publicKey sk))
        (K.sigText (K.sign sk (registrationBytes t e)))) ∧
      clientKeys B K (a ++ phrase ++ b) = some (sk, K.publicKey sk) := by
  have hg : generateKeys K (B.seed m seedPassword) =
      some (K.draw ((B.seed m seedPassword).take 32), K.publicKey (K.draw ((B.seed m seedPassword).take 32))) := by
    have := hL.seed m seedPassword
    unfold generateKeys
    rw [if_neg (by omega)]
  refine ⟨B.phrase m, K.draw ((B.seed m seedPassword).take 32), ?_, ?_⟩
  · unfold register
    rw [hg]
  · unfold clientKeys
    rw [trim_tight a _ b ha hb (hL.tight m), hL.read]
    exact hg

omit [DecidableEq VK] in
/-- **C146.** Keys come from a phrase: any other text is asked for again. -/
theorem c146_typed (B : Phrases M) (K : Ed SK VK Sig) (c : Registrar VK Sig) (E : Scheme VK Sig) (hL : Libraries B K c E)
    (text : List Char) :
    (∃ keys, clientKeys B K text = some keys) ↔ ∃ m, B.read (trim text) = some m := by
  unfold clientKeys
  cases h : B.read (trim text) with
  | none => simp
  | some m =>
    have := hL.seed m seedPassword
    simp only [generateKeys]
    rw [if_neg (by omega)]
    simp

/-- **C146, for accounts and addresses without an ampersand.** Whoever registers with the client, submits the form and types
the secret at the ceremony is let in: if the row is in one of the files that the organiser processes, the registry has the key,
and every request signed with the keys from the secret and the nonce of the registry passes the checks. Missing for the full
claim: texts with an ampersand, see `c146_violated`. -/
theorem c146_admitted_partial (B : Phrases M) (K : Ed SK VK Sig) (c : Registrar VK Sig) (E : Scheme VK Sig)
    (W : Wire St Pf) (cfg : Config VK Sig St Ch Pf) (hL : Libraries B K c E)
    (m : M) (t e a b : List Char) (ht : '&' ∉ t) (he : '&' ∉ e)
    (ha : ∀ x ∈ a, isSpace x = true) (hb : ∀ x ∈ b, isSpace x = true)
    (conv : R → Record) (es : List (Extraction VK R)) (nonce : Nat → Nat) (hnonce : ∀ n, nonce n < 65536)
    (phrase link : List Char) (hreg : register B K m t e = some (phrase, link))
    (hrow : ∃ ex ∈ es, ex.Fits ∧ ∃ x, some x ∈ ex.rows ∧ ∃ priority, formRow link priority = some (conv x)) :
    ∃ sk p, clientKeys B K (a ++ phrase ++ b) = some (sk, K.publicKey sk) ∧
      (loadRegistry (c.over E) nonce (extractAll (c.over E) conv ⟨[], []⟩ es).good).get (K.publicKey sk) = some p ∧
      ∀ body : Body St Pf, (preprocess (cfg.over E W)
        (loadRegistry (c.over E) nonce (extractAll (c.over E) conv ⟨[], []⟩ es).good) (K.publicKey sk) body
          (K.sign sk (requestBytes W p.nonce body))).1 = .ok p.priority := by
  obtain ⟨phrase', sk, h1, h2⟩ := c146_keys B K c E hL m t e a b ha hb
  rw [hreg] at h1
  simp only [Option.some.injEq, Prod.mk.injEq] at h1
  obtain ⟨rfl, rfl⟩ := h1
  obtain ⟨ex, hex, hfit, x, hx, priority, hf⟩ := hrow
  rw [c146_form_partial t e _ _ priority ht he (hL.plainKey _) (hL.plainSig _)] at hf
  have hconv := (Option.some.inj hf).symm
  have hsigned : Signed (c.over E) (conv x) (K.publicKey sk) := by
    rw [hconv]
    exact ⟨hL.key sk, _, hL.sig _, hL.verify sk _⟩
  obtain ⟨g1, g2⟩ := c124_registry (c.over E) conv es nonce (K.publicKey sk)
  cases hget : (loadRegistry (c.over E) nonce (extractAll (c.over E) conv ⟨[], []⟩ es).good).get (K.publicKey sk) with
  | none => exact absurd hget (g1.2 ⟨ex, hex, hfit, x, hx, hsigned⟩)
  | some p =>
    obtain ⟨k1, k2, ⟨n, k3⟩, -⟩ := g2 p hget
    refine ⟨sk, p, h2, hget, fun body => ?_⟩
    have hv : validNonce p.nonce = true := by
      have := hnonce n
      rw [k3]
      simp only [validNonce, nonceMax, bne_iff_ne, ne_eq]
      omega
    have hs : (cfg.over E W).verifySig p.key p.nonce body (K.sign sk (requestBytes W p.nonce body)) = true := by
      rw [k1]
      exact hL.verify sk _
    unfold preprocess
    rw [hget]
    simp [k2, hv, hs]

omit [DecidableEq VK] in
/-- **C146 is violated.** The link is not escaped: with an ampersand in the account the form gets another account, and the
organiser refuses the row, since its signature is for the account that was typed. -/
theorem c146_violated : ∃ t t' e : List Char, t' ≠ t ∧ ∀ (B : Phrases M) (K : Ed SK VK Sig) (c : Registrar VK Sig) (E : Scheme VK Sig),
    Libraries B K c E → ∀ m phrase link, register B K m t e = some (phrase, link) →
    (∀ sk vk, clientKeys B K phrase = some (sk, vk) →
      E.verify vk (registrationBytes t' e) (K.sign sk (registrationBytes t e)) = false) →
    ∀ priority, ∃ row, formRow link priority = some row ∧ row.twitter = t' ∧ ∀ n, row.parse (c.over E) n = none := by
  refine ⟨"a&b".toList, "a".toList, "c".toList, by decide, fun B K c E hL m phrase link hreg hv priority => ?_⟩
  obtain ⟨phrase', sk, h1, hkeys⟩ := c146_keys B K c E hL m "a&b".toList "c".toList [] [] (by simp) (by simp)
  rw [hreg] at h1
  simp only [Option.some.injEq, Prod.mk.injEq] at h1
  obtain ⟨rfl, rfl⟩ := h1
  generalize hk : K.keyText (K.publicKey sk) = k
  generalize hs : K.sigText (K.sign sk (registrationBytes "a&b".toList "c".toList)) = s
  have pk : Plain k := hk ▸ hL.plainKey _
  have ps : Plain s := hs ▸ hL.plainSig _
  have hp : splitAmp (((trim (registerLink "a&b".toList "c".toList k s)).dropWhile (· != '#')).drop 1) =
      ["twitter=a".toList, "b".toList, "email=c".toList, "verifying_key".toList ++ '=' :: k,
        "signature".toList ++ '=' :: s] := by
    have e1 : ("twitter".toList ++ '=' :: "a&b".toList) ++ '&' :: (("email".toList ++ '=' :: "c".toList) ++ '&' ::
        (("verifying_key".toList ++ '=' :: k) ++ '&' :: ("signature".toList ++ '=' :: s))) =
      "twitter=a".toList ++ '&' :: ("b".toList ++ '&' :: ("email=c".toList ++ '&' ::
        (("verifying_key".toList ++ '=' :: k) ++ '&' :: ("signature".toList ++ '=' :: s)))) := by simp
    have key : ∀ (n v : List Char), '&' ∉ n → '&' ∉ v → '&' ∉ n ++ '=' :: v := by
      intro n v hn hv hm
      rcases List.mem_append.1 hm with h | h
      · exact hn h
      · rcases List.mem_cons.1 h with h | h
        · exact absurd h (by decide)
        · exact hv h
    rw [link_fragment _ _ k s ps, e1, splitAmp_cons _ _ (by decide), splitAmp_cons _ _ (by decide),
      splitAmp_cons _ _ (by decide), splitAmp_cons _ _ (key _ _ (by decide) pk.amp),
      splitAmp_plain _ (key _ _ (by decide) ps.amp)]
  obtain ⟨c1, c2⟩ := takeWhile_name "verifying_key".toList k (by decide)
  obtain ⟨d1, d2⟩ := takeWhile_name "signature".toList s (by decide)
  have f1 : formField (registerLink "a&b".toList "c".toList k s) "twitter".toList = some "a".toList := by
    unfold formField
    rw [hp]
    rfl
  have f2 : formField (registerLink "a&b".toList "c".toList k s) "email".toList = some "c".toList := by
    unfold formField
    rw [hp]
    rfl
  have no : ∀ n ∈ ["verifying_key".toList, "signature".toList],
      ∀ x ∈ ["twitter=a".toList, "b".toList, "email=c".toList], (x.takeWhile (· != '=') == n) = false := by decide
  have f3 : formField (registerLink "a&b".toList "c".toList k s) "verifying_key".toList = some k := by
    unfold formField
    rw [hp, List.find?_cons, no _ (by simp) _ (by simp), List.find?_cons, no _ (by simp) _ (by simp), List.find?_cons,
      no _ (by simp) _ (by simp), List.find?_cons, c1]
    simp only [BEq.rfl, Option.map_some, c2]
  have f4 : formField (registerLink "a&b".toList "c".toList k s) "signature".toList = some s := by
    unfold formField
    rw [hp, List.find?_cons, no _ (by simp) _ (by simp), List.find?_cons, no _ (by simp) _ (by simp), List.find?_cons,
      no _ (by simp) _ (by simp), List.find?_cons, c1, List.find?_cons, d1]
    have h3 : ("verifying_key".toList == "signature".toList) = false := by decide
    simp only [h3, BEq.rfl, Option.map_some, d2]
  refine ⟨⟨"a".toList, "c".toList, priority, k, s⟩, ?_, rfl, fun n => ?_⟩
  · unfold formRow
    rw [f1, f2, f3, f4]
  · rw [parse_none]
    rintro key ⟨g1, sig, g2, g3⟩
    simp only [Registrar.over, ← hk, ← hs, hL.key, hL.sig, Option.some.injEq] at g1 g2
    subst g1 g2
    have := hv sk _ (by simpa using hkeys)
    exact Bool.noConfusion (g3.symm.trans this)

/-! ## Examples -/

/-- Two phrases. -/
def exPhrases : Phrases Bool where
  phrase m := if m then "zoo wrong".toList else "abandon about".toList
  read t := if t = "zoo wrong".toList then some true else if t = "abandon about".toList then some false else none
  seed m _ := List.replicate 64 (if m then 7 else 9)

/-- Keys are numbers; the signature is the key and the length of the message. -/
def exEd : Ed Nat Nat Nat where
  draw b := b.head!.toNat
  publicKey sk := sk
  sign sk m := sk + m.length
  keyText k := List.replicate (k + 1) 'k'
  sigText s := List.replicate (s + 1) 's'

def exRegistrar : Registrar Nat Nat where
  decodeKey t := some (t.length - 1)
  decodeSig t := some (t.length - 1)
  verify _ _ _ := false

def exScheme : Scheme Nat Nat where
  verify k m s := s == k + m.length

theorem exLibraries : Libraries exPhrases exEd exRegistrar exScheme where
  read m := by cases m <;> decide
  tight m := by cases m <;> exact ⟨fun c h => by revert c; decide, fun c h => by revert c; decide⟩
  seed m pw := by
    show 32 ≤ (List.replicate 64 _).length
    rw [List.length_replicate]
    decide
  key sk := by simp [exEd, exRegistrar]
  sig s := by simp [exEd, exRegistrar]
  plainKey k := ⟨by simp [exEd], fun c hc => by rw [List.eq_of_mem_replicate hc]; decide⟩
  plainSig s := ⟨by simp [exEd], fun c hc => by rw [List.eq_of_mem_replicate hc]; decide⟩
  verify sk m := by simp [exEd, exScheme]

/-- The link for the account `@me`. -/
example : (register exPhrases exEd true "@me".toList "x=y@z".toList).map (fun r => (r.1, r.2.take 86)) =
    some ("zoo wrong".toList,
      "https://mantanetwork.typeform.com/trustedsetup2#twitter=@me&email=x=y@z&verifying_key=".toList) := by decide

/-- The row gets into the registry, and the secret is typed with a blank and a line break. -/
example : clientKeys exPhrases exEd " zoo wrong\n".toList = some (7, 7) ∧
    (((register exPhrases exEd true "@me".toList "x=y@z".toList).bind fun r => formRow r.2 []).bind fun row =>
      row.parse (exRegistrar.over exScheme) 4) = some (7, ⟨.normal, 7, 4, false⟩) := by decide

/-- `c146_admitted_partial` applies, with a file of that row. -/
example (phrase link : List Char) (row : Record)
    (h : register exPhrases exEd true "@me".toList "x=y@z".toList = some (phrase, link))
    (hr : formRow link [] = some row) :=
  c146_admitted_partial exPhrases exEd exRegistrar exScheme unary
    (⟨fun _ _ _ _ => false, toy.checkState, toy.challenge, toy.verifyTransform, toy.limit⟩ : Config Nat Nat Nat Nat (Nat × Nat))
    exLibraries true _ _ " ".toList [] (by decide) (by decide) (by decide) (by decide) id
    [⟨["a"], [none, some row], ["a"], ["b"], fun _ => some .high⟩] (fun _ => 4) (fun _ => by decide) phrase link h
    ⟨_, List.mem_singleton.2 rfl, ⟨rfl, rfl⟩, row, by simp, [], hr⟩

/-- The row with an ampersand does not. -/
example : (((register exPhrases exEd true "a&b".toList "c".toList).bind fun r => formRow r.2 []).map fun row =>
      (row.twitter, row.parse (exRegistrar.over exScheme) 4)) = some ("a".toList, none) := by decide

end Verif.Ceremony
