/-!
# Names: recovery files and registration messages

`filename_format`, /repo/manta-trusted-setup/src/groth16/ceremony/server.rs:513-520, and the message
a participant signs to register, config/ppot.rs:322-330 and 470-490. Strings are lists of characters.
-/

namespace Verif.Ceremony

/-- `format!("{name}_{kind}_{round_number}")`, server.rs:519. Joining it to the directory is left out:
the names of circuits contain no path separators. -/
def fileName (name kind : List Char) (round : Nat) : List Char :=
  name ++ '_' :: (kind ++ '_' :: Nat.toDigits 10 round)

/-- The kinds of files, coordinator.rs:319-360, 546-552. -/
inductive Kind
  | state
  | challenge
  | proof
  | registry
  deriving DecidableEq, Repr

def Kind.text : Kind → List Char
  | .state => ['s', 't', 'a', 't', 'e']
  | .challenge => ['c', 'h', 'a', 'l', 'l', 'e', 'n', 'g', 'e']
  | .proof => ['p', 'r', 'o', 'o', 'f']
  | .registry => ['r', 'e', 'g', 'i', 's', 't', 'r', 'y']

/-- Cutting at the last occurrence of a character is unique. -/
theorem cut_last {x : Char} {a b a' b' : List Char} (hb : x ∉ b) (hb' : x ∉ b')
    (h : a ++ x :: b = a' ++ x :: b') : a = a' ∧ b = b' := by
  induction a generalizing a' with
  | nil =>
    cases a' with
    | nil => simpa using h
    | cons y a' =>
      exfalso
      simp only [List.nil_append, List.cons_append, List.cons.injEq] at h
      exact hb (by rw [h.2]; simp)
  | cons y a ih =>
    cases a' with
    | nil =>
      exfalso
      simp only [List.nil_append, List.cons_append, List.cons.injEq] at h
      exact hb' (by rw [← h.2]; simp)
    | cons z a' =>
      simp only [List.cons_append, List.cons.injEq] at h
      obtain ⟨h1, h2⟩ := ih h.2
      exact ⟨by rw [h.1, h1], h2⟩

theorem digits_inj {m n : Nat} (h : Nat.toDigits 10 m = Nat.toDigits 10 n) : m = n := by
  rw [← Nat.ofDigitChars_ten_toDigits (n := m), h, Nat.ofDigitChars_ten_toDigits]

/-- **C72.** Different files never share a name: the name of a recovery file determines the circuit, the
kind and the round, for all circuit names (underscores and digits included) and rounds. -/
theorem c72_file_names (name name' : List Char) (kind kind' : Kind) (k k' : Nat)
    (h : fileName name kind.text k = fileName name' kind'.text k') :
    name = name' ∧ kind = kind' ∧ k = k' := by
  have hd : ∀ n, '_' ∉ Nat.toDigits 10 n := fun n => Nat.underscore_not_in_toDigits
  have e1 : (name ++ '_' :: kind.text) ++ '_' :: Nat.toDigits 10 k =
      (name' ++ '_' :: kind'.text) ++ '_' :: Nat.toDigits 10 k' := by
    simpa [fileName] using h
  obtain ⟨h1, h2⟩ := cut_last (hd k) (hd k') e1
  have hk : ∀ q : Kind, '_' ∉ q.text := by intro q; cases q <;> decide
  obtain ⟨h3, h4⟩ := cut_last (hk kind) (hk kind') h1
  refine ⟨h3, ?_, digits_inj h2⟩
  cases kind <;> cases kind' <;> first | rfl | (revert h4; decide)

/-- **C72.** And no recovery file of a round collides with the two files without a round. -/
theorem c72_special (name : List Char) (kind : Kind) (k : Nat) :
    fileName name kind.text k ≠ "round_number".toList ∧
    fileName name kind.text k ≠ "circuit_names".toList := by
  have key : ∀ (a b : List Char), '_' ∉ b → (∃ c ∈ b, c.isDigit = false) →
      fileName name kind.text k ≠ a ++ '_' :: b := by
    rintro a b hb ⟨c, hc, hcd⟩ h
    have e1 : (name ++ '_' :: kind.text) ++ '_' :: Nat.toDigits 10 k = a ++ '_' :: b := by
      simpa [fileName] using h
    obtain ⟨_, h2⟩ := cut_last Nat.underscore_not_in_toDigits hb e1
    rw [← h2] at hc
    have := Nat.isDigit_of_mem_toDigits (by decide) (by decide) hc
    rw [this] at hcd
    cases hcd
  exact ⟨key "round".toList "number".toList (by decide) ⟨'n', by decide, by decide⟩,
    key "circuit".toList "names".toList (by decide) ⟨'n', by decide, by decide⟩⟩

example : fileName "to_private".toList Kind.state.text 12 = "to_private_state_12".toList := by decide

/-! ## Registration messages -/

/-- The message signed to register, config/ppot.rs:325-328 (and 480-482 on the client). -/
def registrationMessage (twitter email : List Char) : List Char :=
  "manta-trusted-setup-twitter:".toList ++ twitter ++ ", manta-trusted-setup-email:".toList ++ email

/-- **C73, for accounts without a comma.** The signed message determines the Twitter account and the
email address. Missing for the full claim: accounts with a comma, see `c73_violated`; nothing in
`Record::parse` excludes them. -/
theorem c73_message_partial (t t' e e' : List Char) (ht : ',' ∉ t) (ht' : ',' ∉ t')
    (h : registrationMessage t e = registrationMessage t' e') : t = t' ∧ e = e' := by
  have key : ∀ (t t' e e' : List Char), ',' ∉ t → ',' ∉ t' →
      t ++ ',' :: e = t' ++ ',' :: e' → t = t' ∧ e = e' := by
    intro t
    induction t with
    | nil =>
      intro t' e e' _ ht' h
      cases t' with
      | nil => simpa using h
      | cons x t' =>
        simp only [List.nil_append, List.cons_append, List.cons.injEq] at h
        exact absurd (by rw [← h.1]; simp) ht'
    | cons x t ih =>
      intro t' e e' ht ht' h
      cases t' with
      | nil =>
        simp only [List.nil_append, List.cons_append, List.cons.injEq] at h
        exact absurd (by simp [h.1]) ht
      | cons y t' =>
        simp only [List.cons_append, List.cons.injEq] at h
        simp only [List.mem_cons, not_or] at ht ht'
        obtain ⟨h1, h2⟩ := ih t' e e' ht.2 ht'.2 h.2
        exact ⟨by rw [h.1, h1], h2⟩
  unfold registrationMessage at h
  have hs : ", manta-trusted-setup-email:".toList = ',' :: " manta-trusted-setup-email:".toList := by
    decide
  rw [hs] at h
  generalize "manta-trusted-setup-twitter:".toList = a at h
  generalize " manta-trusted-setup-email:".toList = b at h
  rw [List.append_assoc, List.append_assoc, List.append_assoc, List.append_assoc] at h
  replace h := List.append_cancel_left h
  rw [List.cons_append, List.cons_append] at h
  obtain ⟨h1, h2⟩ := key t t' _ _ ht ht' h
  exact ⟨h1, List.append_cancel_left h2⟩

/-- **C73 is violated** in general: one signed message serves two different pairs of accounts. -/
theorem c73_violated : ∃ t t' e e', (t, e) ≠ (t', e') ∧
    registrationMessage t e = registrationMessage t' e' :=
  ⟨"@a".toList, "@a, manta-trusted-setup-email:b".toList,
    "b, manta-trusted-setup-email:c".toList, "c".toList, by decide, by decide⟩

example : ',' ∉ "@alice".toList ∧ registrationMessage "@alice".toList "a@b.c".toList =
    "manta-trusted-setup-twitter:@alice, manta-trusted-setup-email:a@b.c".toList := by decide

end Verif.Ceremony
