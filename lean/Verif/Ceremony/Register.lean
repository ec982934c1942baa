import Verif.Ceremony.Files
import Verif.Ceremony.Requests

/-!
# C124: processing raw registrations

`Record::parse` and `extract_registry`, manta-trusted-setup/src/groth16/ceremony/config/ppot.rs:100-125, 235-350, 369-447, with
`append_only_csv_writer` and `load` of manta-trusted-setup/src/ceremony/registry/csv.rs:58-118.

Simplified: a line of a processed file is the list of its five fields (the quoting of the `csv` crate is not modelled), and a
first line other than the names of the fields makes all rows unreadable. The decoding of base 58 and of the keys and the
verification of signatures are parameters. Writing is assumed to succeed.
-/

namespace Verif.Ceremony

variable {VK Sig R : Type} [DecidableEq VK]

/-! ## Model -/

/-- `Record`, config/ppot.rs:235-256. -/
structure Record where
  twitter : List Char
  email : List Char
  priority : List Char
  verifyingKey : List Char
  signature : List Char
  deriving DecidableEq

/-- `impl From<Priority> for String`, config/ppot.rs:103-111. -/
def Priority.text : Priority → List Char
  | .high => "high".toList
  | .normal => "normal".toList

/-- `impl From<String> for Priority`, config/ppot.rs:120-128. -/
def Priority.ofText (s : List Char) : Priority := if s = "high".toList then .high else .normal

/-- The signature scheme of registrations. -/
structure Registrar (VK Sig : Type) where
  /-- `bs58::decode`, the conversion to an array and `public_key_from_bytes`, config/ppot.rs:291-304. -/
  decodeKey : List Char → Option VK
  /-- The same for signatures, config/ppot.rs:306-319. -/
  decodeSig : List Char → Option Sig
  /-- `verify(key, 0, message, signature).is_ok()`, config/ppot.rs:320-329. -/
  verify : VK → List Char → Sig → Bool

/-- `Record::parse`, config/ppot.rs:286-341; `nonce` is the number drawn for the row. -/
def Record.parse (c : Registrar VK Sig) (nonce : Nat) (r : Record) : Option (VK × Participant VK) :=
  match c.decodeKey r.verifyingKey with
  | none => none
  | some key =>
    match c.decodeSig r.signature with
    | none => none
    | some sig =>
      if c.verify key (registrationMessage r.twitter r.email) sig then
        some (key, { priority := .ofText r.priority, key := key, nonce := nonce, contributed := false })
      else none

/-- The names of the fields, written as the first line by `csv::Writer::serialize`. -/
def Record.header : Record :=
  ⟨"twitter".toList, "email".toList, "priority".toList, "verifying_key".toList, "signature".toList⟩

/-- `csv::Writer` over a file. -/
structure CsvWriter where
  hasHeaders : Bool
  file : List Record

/-- `append_only_csv_writer`, registry/csv.rs:105-118: the names of the fields are to be written only if the file is empty. -/
def CsvWriter.append (file : List Record) : CsvWriter := ⟨file.isEmpty, file⟩

/-- `csv::Writer::serialize`: the names of the fields before the first row. -/
def CsvWriter.serialize (w : CsvWriter) (r : Record) : CsvWriter :=
  if w.hasHeaders then ⟨false, w.file ++ [Record.header, r]⟩ else ⟨false, w.file ++ [r]⟩

/-- The rows `csv::Reader::deserialize` yields: the first line names the fields. -/
def csvRows : List Record → List Record
  | [] => []
  | h :: rows => if h = Record.header then rows else []

/-- `RegistrationProcessingError`, config/ppot.rs:344-356, and the panic of the assertion in `set_header`. -/
inductive ProcessingError
  | wrongHeaders
  | panic
  deriving DecidableEq

/-- What `extract_registry` is called with: the raw file (its first line and its rows, `none` for those that do not
deserialize), the names expected and the names to use, and the priorities. -/
structure Extraction (VK R : Type) where
  headers : List String
  rows : List (Option R)
  expected : List String
  short : List String
  priorities : VK → Option Priority

/-- `set_header`, config/ppot.rs:369-390. -/
def setHeader (headers expected short : List String) : Except ProcessingError Unit :=
  if headers ≠ expected then .error .wrongHeaders
  else if expected.length ≠ short.length then .error .panic
  else .ok ()

/-- The loop of `extract_registry`, config/ppot.rs:423-446. -/
def extractLoop (c : Registrar VK Sig) (conv : R → Record) (priorities : VK → Option Priority) :
    List (Option R) → Nat → Nat → CsvWriter → CsvWriter → (Nat × Nat) × CsvWriter × CsvWriter
  | [], good, bad, w, m => ((good, bad), w, m)
  | none :: rows, good, bad, w, m => extractLoop c conv priorities rows good bad w m
  | some x :: rows, good, bad, w, m =>
    match (conv x).parse c 0 with
    | some (key, _) =>
      let priority : Priority := match priorities key with | some p => p | none => .normal
      extractLoop c conv priorities rows (good + 1) bad (w.serialize { conv x with priority := priority.text }) m
    | none => extractLoop c conv priorities rows good (bad + 1) w (m.serialize (conv x))

/-- The output directory: the processed rows and the malformed ones. -/
structure Processed where
  good : List Record
  bad : List Record

/-- `extract_registry`, config/ppot.rs:397-447. -/
def extractRegistry (c : Registrar VK Sig) (conv : R → Record) (d : Processed) (e : Extraction VK R) :
    Except ProcessingError (Nat × Nat) × Processed :=
  match setHeader e.headers e.expected e.short with
  | .error err => (.error err, d)
  | .ok () =>
    let out := extractLoop c conv e.priorities e.rows 0 0 (.append d.good) (.append d.bad)
    (.ok out.1, ⟨out.2.1.file, out.2.2.file⟩)

/-- Any number of runs, one after the other. -/
def extractAll (c : Registrar VK Sig) (conv : R → Record) : Processed → List (Extraction VK R) → Processed
  | d, [] => d
  | d, e :: es => extractAll c conv (extractRegistry c conv d e).2 es

/-- The parsing in `load_append_entries`, registry/csv.rs:86-99; `nonce n` is drawn for row `n`. -/
def parseAll (c : Registrar VK Sig) (nonce : Nat → Nat) : Nat → List Record → List (Option (VK × Participant VK))
  | _, [] => []
  | n, r :: rows => r.parse c (nonce n) :: parseAll c nonce (n + 1) rows

/-- `load`, registry/csv.rs:58-69. -/
def loadRegistry (c : Registrar VK Sig) (nonce : Nat → Nat) (file : List Record) : Registry VK VK :=
  (Registry.loadAppend [] (parseAll c nonce 0 (csvRows file))).2

/-! ## Specification -/

/-- The row carries a valid signature for the key. -/
def Signed (c : Registrar VK Sig) (r : Record) (key : VK) : Prop :=
  c.decodeKey r.verifyingKey = some key ∧
    ∃ sig, c.decodeSig r.signature = some sig ∧ c.verify key (registrationMessage r.twitter r.email) sig = true

instance (c : Registrar VK Sig) (r : Record) (key : VK) : Decidable (Signed c r key) :=
  match hs : c.decodeSig r.signature with
  | none => .isFalse (by rintro ⟨_, s, h, _⟩; rw [hs] at h; cases h)
  | some s =>
    if h : c.decodeKey r.verifyingKey = some key ∧ c.verify key (registrationMessage r.twitter r.email) s = true then
      .isTrue ⟨h.1, s, hs, h.2⟩
    else .isFalse (by
      rintro ⟨h1, s', h2, h3⟩
      rw [hs] at h2
      cases h2
      exact h ⟨h1, h3⟩)

/-- The extraction is carried out. -/
def Extraction.Fits (e : Extraction VK R) : Prop := e.headers = e.expected ∧ e.expected.length = e.short.length

/-- Somebody registers the key in this extraction. -/
def Extraction.Registers (c : Registrar VK Sig) (conv : R → Record) (e : Extraction VK R) (key : VK) : Prop :=
  e.Fits ∧ ∃ x, some x ∈ e.rows ∧ Signed c (conv x) key

/-! ## Proofs -/

theorem Priority.ofText_text (p : Priority) : Priority.ofText p.text = p := by cases p <;> decide

omit [DecidableEq VK] in
theorem parse_none (c : Registrar VK Sig) (n : Nat) (r : Record) :
    r.parse c n = none ↔ ∀ key, ¬ Signed c r key := by
  unfold Record.parse Signed
  cases hk : c.decodeKey r.verifyingKey with
  | none => simp
  | some k =>
    cases hs : c.decodeSig r.signature with
    | none => simp
    | some s =>
      simp only
      split
      · rename_i hv
        simp only [reduceCtorEq, Option.some.injEq, false_iff]
        exact fun h => h k ⟨rfl, s, rfl, hv⟩
      · rename_i hv
        simp only [Option.some.injEq, true_iff, not_and, not_exists]
        rintro key rfl s' rfl
        exact hv

omit [DecidableEq VK] in
theorem parse_some (c : Registrar VK Sig) (n : Nat) (r : Record) (key : VK) (p : Participant VK) :
    r.parse c n = some (key, p) ↔
      Signed c r key ∧ p = { priority := .ofText r.priority, key := key, nonce := n, contributed := false } := by
  unfold Record.parse Signed
  cases hk : c.decodeKey r.verifyingKey with
  | none => simp
  | some k =>
    cases hs : c.decodeSig r.signature with
    | none => simp
    | some s =>
      simp only
      split
      · rename_i hv
        simp only [Option.some.injEq, Prod.mk.injEq]
        constructor
        · rintro ⟨rfl, rfl⟩
          exact ⟨⟨rfl, s, rfl, hv⟩, rfl⟩
        · rintro ⟨⟨rfl, _⟩, rfl⟩
          exact ⟨rfl, rfl⟩
      · rename_i hv
        simp only [reduceCtorEq, Option.some.injEq, false_iff, not_and]
        rintro ⟨rfl, s', rfl, h⟩
        exact absurd h hv

/-- The rows an extraction adds to the processed file. -/
def goodRows (c : Registrar VK Sig) (conv : R → Record) (priorities : VK → Option Priority) :
    List (Option R) → List Record
  | [] => []
  | none :: rows => goodRows c conv priorities rows
  | some x :: rows =>
    match (conv x).parse c 0 with
    | some (key, _) =>
      { conv x with priority := ((priorities key).getD .normal).text } :: goodRows c conv priorities rows
    | none => goodRows c conv priorities rows

/-- The rows an extraction adds to the other file. -/
def badRows (c : Registrar VK Sig) (conv : R → Record) : List (Option R) → List Record
  | [] => []
  | none :: rows => badRows c conv rows
  | some x :: rows =>
    match (conv x).parse c 0 with
    | some _ => badRows c conv rows
    | none => conv x :: badRows c conv rows

/-- What a writer has after some more rows. -/
def CsvWriter.many (w : CsvWriter) (rows : List Record) : CsvWriter := rows.foldl CsvWriter.serialize w

omit [DecidableEq VK] in
theorem extractLoop_eq (c : Registrar VK Sig) (conv : R → Record) (priorities : VK → Option Priority)
    (rows : List (Option R)) : ∀ (good bad : Nat) (w m : CsvWriter),
    extractLoop c conv priorities rows good bad w m =
      ((good + (goodRows c conv priorities rows).length, bad + (badRows c conv rows).length),
        w.many (goodRows c conv priorities rows), m.many (badRows c conv rows)) := by
  induction rows with
  | nil => intros; rfl
  | cons x rows ih =>
    intro good bad w m
    cases x with
    | none => exact ih good bad w m
    | some x =>
      simp only [extractLoop, goodRows, badRows]
      cases hp : (conv x).parse c 0 with
      | none =>
        simp only [ih, CsvWriter.many, List.foldl_cons, List.length_cons]
        congr 2; omega
      | some kp =>
        simp only [ih, CsvWriter.many, List.foldl_cons, List.length_cons]
        congr 2
        · omega
        · congr 3
          cases priorities kp.1 <;> rfl

theorem many_append (file rows : List Record) :
    ((CsvWriter.append file).many rows).file =
      if file = [] ∧ rows ≠ [] then Record.header :: rows else file ++ rows := by
  have key : ∀ (rows f : List Record), ((CsvWriter.mk false f).many rows).file = f ++ rows := by
    intro rows
    induction rows with
    | nil => intro f; simp [CsvWriter.many]
    | cons r rows ih =>
      intro f
      have := ih (f ++ [r])
      simpa [CsvWriter.many, CsvWriter.serialize] using this
  cases file with
  | nil =>
    cases rows with
    | nil => rfl
    | cons r rows =>
      have := key rows [Record.header, r]
      simpa [CsvWriter.many, CsvWriter.serialize, CsvWriter.append] using this
  | cons h t =>
    have := key rows (h :: t)
    simpa [CsvWriter.append] using this

/-- Files that were only written by `extract_registry`. -/
def Wellformed (file : List Record) : Prop := file = [] ∨ ∃ rows, file = Record.header :: rows

theorem csvRows_many (file rows : List Record) (h : Wellformed file) :
    Wellformed ((CsvWriter.append file).many rows).file ∧
    csvRows ((CsvWriter.append file).many rows).file = csvRows file ++ rows := by
  rw [many_append]
  rcases h with rfl | ⟨t, rfl⟩
  · cases rows with
    | nil => exact ⟨.inl rfl, rfl⟩
    | cons r rows => exact ⟨.inr ⟨r :: rows, rfl⟩, rfl⟩
  · exact ⟨.inr ⟨t ++ rows, by simp⟩, by simp [csvRows]⟩

omit [DecidableEq VK] in
theorem setHeader_ok (a b s : List String) : setHeader a b s = .ok () ↔ a = b ∧ b.length = s.length := by
  unfold setHeader
  by_cases h1 : a = b
  · by_cases h2 : b.length = s.length <;> simp [h1, h2]
  · simp [h1]

omit [DecidableEq VK] in
theorem extract_fits (c : Registrar VK Sig) (conv : R → Record) (d : Processed) (e : Extraction VK R) (h : e.Fits) :
    extractRegistry c conv d e =
      (.ok ((goodRows c conv e.priorities e.rows).length, (badRows c conv e.rows).length),
        ⟨((CsvWriter.append d.good).many (goodRows c conv e.priorities e.rows)).file,
         ((CsvWriter.append d.bad).many (badRows c conv e.rows)).file⟩) := by
  unfold extractRegistry
  rw [(setHeader_ok _ _ _).2 h]
  simp only [extractLoop_eq, Nat.zero_add]

omit [DecidableEq VK] in
theorem extract_unfit (c : Registrar VK Sig) (conv : R → Record) (d : Processed) (e : Extraction VK R) (h : ¬ e.Fits) :
    (extractRegistry c conv d e).2 = d ∧ ∃ err, (extractRegistry c conv d e).1 = .error err := by
  unfold extractRegistry
  cases hs : setHeader e.headers e.expected e.short with
  | error err => exact ⟨rfl, err, rfl⟩
  | ok u => exact absurd ((setHeader_ok _ _ _).1 hs) h

omit [DecidableEq VK] in
theorem goodRows_spec (c : Registrar VK Sig) (conv : R → Record) (priorities : VK → Option Priority)
    (rows : List (Option R)) (r : Record) :
    r ∈ goodRows c conv priorities rows ↔
      ∃ x key, some x ∈ rows ∧ Signed c (conv x) key ∧
        r = { conv x with priority := ((priorities key).getD .normal).text } := by
  induction rows with
  | nil => simp [goodRows]
  | cons x rows ih =>
    cases x with
    | none => simp only [goodRows, ih, List.mem_cons, reduceCtorEq, false_or]
    | some x =>
      simp only [goodRows]
      cases hp : (conv x).parse c 0 with
      | none =>
        rw [parse_none] at hp
        simp only [ih, List.mem_cons, Option.some.injEq]
        constructor
        · rintro ⟨y, k, h⟩; exact ⟨y, k, .inr h.1, h.2⟩
        · rintro ⟨y, k, rfl | hy, h⟩
          · exact absurd h.1 (hp k)
          · exact ⟨y, k, hy, h⟩
      | some kp =>
        obtain ⟨k, p⟩ := kp
        obtain ⟨hk, -⟩ := (parse_some c 0 (conv x) k p).1 hp
        simp only [ih, List.mem_cons, Option.some.injEq]
        constructor
        · rintro (rfl | ⟨y, k', h⟩)
          · exact ⟨x, k, .inl rfl, hk, rfl⟩
          · exact ⟨y, k', .inr h.1, h.2⟩
        · rintro ⟨y, k', rfl | hy, h⟩
          · have : k' = k := by
              have := h.1.1.symm.trans hk.1
              injection this
            subst this
            exact .inl h.2
          · exact .inr ⟨y, k', hy, h⟩

omit [DecidableEq VK] in
/-- The priority is not signed. -/
theorem signed_priority (c : Registrar VK Sig) (r : Record) (t : List Char) (key : VK) :
    Signed c { r with priority := t } key ↔ Signed c r key := Iff.rfl

omit [DecidableEq VK] in
theorem signed_fun {c : Registrar VK Sig} {r : Record} {k k' : VK} (h : Signed c r k) (h' : Signed c r k') : k = k' := by
  have := h.1.symm.trans h'.1
  injection this

omit [DecidableEq VK] in
theorem extractAll_good (c : Registrar VK Sig) (conv : R → Record) (es : List (Extraction VK R)) :
    ∀ d : Processed, Wellformed d.good →
      Wellformed (extractAll c conv d es).good ∧
      ∃ blocks : List (List Record), blocks.length = es.length ∧
        csvRows (extractAll c conv d es).good = csvRows d.good ++ blocks.flatten ∧
        ∀ (i : Nat) e b, es[i]? = some e → blocks[i]? = some b →
          ∀ r, r ∈ b ↔ e.Fits ∧ r ∈ goodRows c conv e.priorities e.rows := by
  induction es with
  | nil => intro d h; exact ⟨h, [], rfl, by simp [extractAll], by simp⟩
  | cons e es ih =>
    intro d h
    by_cases hf : e.Fits
    · have he := extract_fits c conv d e hf
      obtain ⟨h1, h2⟩ := csvRows_many d.good (goodRows c conv e.priorities e.rows) h
      obtain ⟨w, blocks, hl, hr, hb⟩ := ih (extractRegistry c conv d e).2 (by rw [he]; exact h1)
      refine ⟨w, goodRows c conv e.priorities e.rows :: blocks, by simp [hl], ?_, ?_⟩
      · simp only [extractAll, hr, List.flatten_cons]
        rw [he]
        simp only [h2, List.append_assoc]
      · intro i e' b hi hb'
        cases i with
        | zero =>
          simp only [List.getElem?_cons_zero, Option.some.injEq] at hi hb'
          subst hi hb'
          intro r; simp [hf]
        | succ i => exact hb i e' b (by simpa using hi) (by simpa using hb')
    · obtain ⟨h1, -⟩ := extract_unfit c conv d e hf
      obtain ⟨w, blocks, hl, hr, hb⟩ := ih (extractRegistry c conv d e).2 (by rw [h1]; exact h)
      refine ⟨w, [] :: blocks, by simp [hl], ?_, ?_⟩
      · simp only [extractAll, hr, List.flatten_cons, List.nil_append]
        rw [h1]
      · intro i e' b hi hb'
        cases i with
        | zero =>
          simp only [List.getElem?_cons_zero, Option.some.injEq] at hi hb'
          subst hi hb'
          intro r; simp [hf]
        | succ i => exact hb i e' b (by simpa using hi) (by simpa using hb')

theorem firstRecord_parseAll (c : Registrar VK Sig) (nonce : Nat → Nat) (key : VK) (rows : List Record) :
    ∀ n, ∃ j, Registry.firstRecord (parseAll c nonce n rows) key =
      (rows.find? fun r => decide (Signed c r key)).map fun r =>
        { priority := .ofText r.priority, key := key, nonce := nonce j, contributed := false } := by
  induction rows with
  | nil => intro n; exact ⟨0, rfl⟩
  | cons r rows ih =>
    intro n
    obtain ⟨j, hj⟩ := ih (n + 1)
    simp only [parseAll, List.find?_cons]
    cases hp : r.parse c (nonce n) with
    | none =>
      rw [parse_none] at hp
      refine ⟨j, ?_⟩
      rw [decide_eq_false (hp key)]
      exact hj
    | some kp =>
      obtain ⟨k, p⟩ := kp
      obtain ⟨hk, rfl⟩ := (parse_some c _ r k p).1 hp
      by_cases h : k = key
      · subst h
        refine ⟨n, ?_⟩
        rw [decide_eq_true hk]
        simp [Registry.firstRecord]
      · refine ⟨j, ?_⟩
        rw [decide_eq_false fun h' => h (signed_fun hk h')]
        simpa [Registry.firstRecord, h] using hj

theorem find_flatten {α : Type} (q : α → Bool) (blocks : List (List α)) (r : α) (h : blocks.flatten.find? q = some r) :
    ∃ i b, blocks[i]? = some b ∧ r ∈ b ∧ q r = true ∧
      ∀ (j : Nat) b', j < i → blocks[j]? = some b' → ∀ x ∈ b', q x = false := by
  induction blocks with
  | nil => simp at h
  | cons b blocks ih =>
    simp only [List.flatten_cons, List.find?_append] at h
    cases hb : b.find? q with
    | some x =>
      rw [hb] at h
      simp only [Option.some_or, Option.some.injEq] at h
      subst h
      exact ⟨0, b, rfl, List.mem_of_find?_eq_some hb, List.find?_some hb, by intro j _ hj; omega⟩
    | none =>
      rw [hb] at h
      obtain ⟨i, b', h1, h2, h3, h4⟩ := ih (by simpa using h)
      refine ⟨i + 1, b', by simpa using h1, h2, h3, ?_⟩
      intro j b'' hj hb'' x hx
      cases j with
      | zero =>
        simp only [List.getElem?_cons_zero, Option.some.injEq] at hb''
        subst hb''
        rw [List.find?_eq_none] at hb
        simpa using hb x hx
      | succ j => exact h4 j b'' (by omega) (by simpa using hb'') x hx

/-! ## Theorems -/

omit [DecidableEq VK] in
/-- **C124, one run.** If the names of the columns are not the expected ones, nothing is written. Otherwise every row that
could be read goes to exactly one file, in order, with a valid signature to the processed one and without to the other; the
numbers returned are the numbers of rows added; malformed rows are kept as they were, and of the others only the priority is
replaced, by that of the list or else by the normal one. -/
theorem c124_run (c : Registrar VK Sig) (conv : R → Record) (d : Processed) (e : Extraction VK R)
    (hg : Wellformed d.good) (hb : Wellformed d.bad) :
    (¬ e.Fits → (extractRegistry c conv d e).2 = d ∧ ∃ err, (extractRegistry c conv d e).1 = .error err) ∧
    (e.Fits → ∃ good bad : List Record,
      (extractRegistry c conv d e).1 = .ok (good.length, bad.length) ∧
      csvRows (extractRegistry c conv d e).2.good = csvRows d.good ++ good ∧
      csvRows (extractRegistry c conv d e).2.bad = csvRows d.bad ++ bad ∧
      good.length + bad.length = (e.rows.filterMap id).length ∧
      bad = ((e.rows.filterMap id).map conv).filter (fun r => (r.parse c 0).isNone) ∧
      good.map (fun r => { r with priority := [] }) =
        (((e.rows.filterMap id).map conv).filter (fun r => (r.parse c 0).isSome)).map
          (fun r => { r with priority := [] }) ∧
      (∀ r ∈ good, ∃ key, Signed c r key ∧ Priority.ofText r.priority = (e.priorities key).getD .normal) ∧
      ∀ r ∈ bad, ∀ key, ¬ Signed c r key) := by
  refine ⟨extract_unfit c conv d e, fun hf => ?_⟩
  have he := extract_fits c conv d e hf
  have h1 := (csvRows_many d.good (goodRows c conv e.priorities e.rows) hg).2
  have h2 := (csvRows_many d.bad (badRows c conv e.rows) hb).2
  have hbad : ∀ rows : List (Option R), badRows c conv rows =
      ((rows.filterMap id).map conv).filter (fun r => (r.parse c 0).isNone) := by
    intro rows
    induction rows with
    | nil => rfl
    | cons x rows ih =>
      cases x with
      | none => simpa [badRows] using ih
      | some x =>
        simp only [badRows, List.filterMap_cons, id_eq, List.map_cons, List.filter_cons]
        cases (conv x).parse c 0 <;> simp [ih]
  have hgood : ∀ rows : List (Option R),
      (goodRows c conv e.priorities rows).map (fun r => { r with priority := [] }) =
        (((rows.filterMap id).map conv).filter (fun r => (r.parse c 0).isSome)).map
          (fun r => { r with priority := [] }) := by
    intro rows
    induction rows with
    | nil => rfl
    | cons x rows ih =>
      cases x with
      | none => simpa [goodRows] using ih
      | some x =>
        simp only [goodRows, List.filterMap_cons, id_eq, List.map_cons, List.filter_cons]
        cases (conv x).parse c 0 <;> simp [ih]
  have hlen : ∀ rows : List (Option R),
      (goodRows c conv e.priorities rows).length + (badRows c conv rows).length = (rows.filterMap id).length := by
    intro rows
    induction rows with
    | nil => rfl
    | cons x rows ih =>
      cases x with
      | none => simpa [goodRows, badRows] using ih
      | some x =>
        simp only [goodRows, badRows, List.filterMap_cons, id_eq, List.length_cons]
        cases (conv x).parse c 0 <;> simp only [List.length_cons] <;> omega
  refine ⟨goodRows c conv e.priorities e.rows, badRows c conv e.rows, by rw [he], by rw [he]; exact h1,
    by rw [he]; exact h2, hlen e.rows, hbad e.rows, hgood e.rows, ?_, ?_⟩
  · intro r hr
    obtain ⟨x, key, _, hs, rfl⟩ := (goodRows_spec c conv _ _ r).1 hr
    exact ⟨key, (signed_priority c _ _ key).2 hs, Priority.ofText_text _⟩
  · intro r hr key
    rw [hbad e.rows, List.mem_filter] at hr
    have := hr.2
    rw [Option.isNone_iff_eq_none, parse_none] at this
    exact this key

/-- **C124, the registry.** After any number of extractions into a fresh directory, the registry loaded from the processed file
contains a key iff one of the extractions had a row signed with it; the participant is new, with a nonce drawn while loading,
and their priority is that of the list of the first such extraction, or normal, whatever the raw row says. -/
theorem c124_registry (c : Registrar VK Sig) (conv : R → Record) (es : List (Extraction VK R)) (nonce : Nat → Nat)
    (key : VK) :
    let reg := loadRegistry c nonce (extractAll c conv ⟨[], []⟩ es).good
    (reg.get key ≠ none ↔ ∃ e ∈ es, e.Registers c conv key) ∧
    ∀ p, reg.get key = some p → p.key = key ∧ p.contributed = false ∧ (∃ n, p.nonce = nonce n) ∧
      ∃ (i : Nat) (e : Extraction VK R), es[i]? = some e ∧ e.Registers c conv key ∧
        (∀ (j : Nat) e', j < i → es[j]? = some e' → ¬ e'.Registers c conv key) ∧
        p.priority = (e.priorities key).getD .normal := by
  intro reg
  obtain ⟨-, blocks, hl, hr, hb⟩ := extractAll_good c conv es ⟨[], []⟩ (.inl rfl)
  have hget : ∃ n, reg.get key = (blocks.flatten.find? fun r => decide (Signed c r key)).map fun r =>
      { priority := .ofText r.priority, key := key, nonce := nonce n, contributed := false } := by
    obtain ⟨n, hn⟩ := firstRecord_parseAll c nonce key (csvRows (extractAll c conv ⟨[], []⟩ es).good) 0
    refine ⟨n, ?_⟩
    have h0 : reg.get key = Registry.firstRecord (parseAll c nonce 0 (csvRows (extractAll c conv ⟨[], []⟩ es).good)) key := by
      show (Registry.loadLoop [] _).get key = _
      rw [Registry.get_loadLoop]
      rfl
    rw [h0, hn, hr]
    rfl
  have hblock : ∀ (i : Nat) e b, es[i]? = some e → blocks[i]? = some b →
      ((∃ r ∈ b, Signed c r key) ↔ e.Registers c conv key) := by
    intro i e b he hbi
    have h := hb i e b he hbi
    constructor
    · rintro ⟨r, hr', hs⟩
      obtain ⟨hf, hr'⟩ := (h r).1 hr'
      obtain ⟨x, k, hx, hk, rfl⟩ := (goodRows_spec c conv _ _ r).1 hr'
      exact ⟨hf, x, hx, (signed_priority c _ _ key).1 hs⟩
    · rintro ⟨hf, x, hx, hs⟩
      exact ⟨{ conv x with priority := ((e.priorities key).getD .normal).text },
        (h _).2 ⟨hf, (goodRows_spec c conv _ _ _).2 ⟨x, key, hx, hs, rfl⟩⟩, (signed_priority c _ _ key).2 hs⟩
  obtain ⟨n, hget⟩ := hget
  constructor
  · constructor
    · intro h
      cases hf : blocks.flatten.find? fun r => decide (Signed c r key) with
      | none => rw [hget, hf] at h; exact absurd rfl h
      | some r =>
        obtain ⟨i, b, h1, h2, h3, -⟩ := find_flatten _ _ _ hf
        have hi : i < es.length := by
          rw [← hl]
          exact (List.getElem?_eq_some_iff.1 h1).1
        exact ⟨es[i], List.getElem_mem hi,
          (hblock i _ b (List.getElem?_eq_getElem hi) h1).1 ⟨r, h2, by simpa using h3⟩⟩
    · rintro ⟨e, he, hreg⟩
      obtain ⟨i, hi⟩ := List.mem_iff_getElem?.1 he
      have hil : i < blocks.length := by rw [hl]; exact (List.getElem?_eq_some_iff.1 hi).1
      obtain ⟨r, hr', hs⟩ := (hblock i e _ hi (List.getElem?_eq_getElem hil)).2 hreg
      rw [hget]
      intro hnone
      rw [Option.map_eq_none_iff, List.find?_eq_none] at hnone
      exact hnone r (List.mem_flatten.2 ⟨_, List.getElem_mem hil, hr'⟩) (by simpa using hs)
  · intro p hp
    rw [hget] at hp
    cases hf : blocks.flatten.find? fun r => decide (Signed c r key) with
    | none => rw [hf] at hp; cases hp
    | some r =>
      rw [hf] at hp
      simp only [Option.map_some, Option.some.injEq] at hp
      obtain ⟨i, b, h1, h2, h3, h4⟩ := find_flatten _ _ _ hf
      have hi : i < es.length := by
        rw [← hl]
        exact (List.getElem?_eq_some_iff.1 h1).1
      have hei := List.getElem?_eq_getElem hi
      have hs : Signed c r key := by simpa using h3
      subst hp
      refine ⟨rfl, rfl, ⟨n, rfl⟩, i, es[i], hei, (hblock i _ b hei h1).1 ⟨r, h2, hs⟩, ?_, ?_⟩
      · intro j e' hj he' hreg
        have hjl : j < blocks.length := by rw [hl]; omega
        obtain ⟨r', hr', hs'⟩ := (hblock j e' _ he' (List.getElem?_eq_getElem hjl)).2 hreg
        have := h4 j _ hj (List.getElem?_eq_getElem hjl) r' hr'
        simp [hs'] at this
      · obtain ⟨hfit, hg⟩ := (hb i _ b hei h1 r).1 h2
        obtain ⟨x, k, hx, hk, rfl⟩ := (goodRows_spec c conv _ _ r).1 hg
        have : k = key := signed_fun hk ((signed_priority c _ _ key).1 hs)
        subst this
        exact Priority.ofText_text _

omit [DecidableEq VK] in
/-- **C124, priorities are not the participant's to choose.** Two raw files that differ only in the priorities they claim are
processed to the same rows. -/
theorem c124_claimed (c : Registrar VK Sig) (conv conv' : R → Record) (d : Processed) (e : Extraction VK R)
    (h : ∀ x, { conv x with priority := [] } = { conv' x with priority := [] }) :
    (extractRegistry c conv d e).1 = (extractRegistry c conv' d e).1 ∧
    (extractRegistry c conv d e).2.good = (extractRegistry c conv' d e).2.good := by
  by_cases hf : e.Fits
  · have hp : ∀ x, ((conv x).parse c 0).map Prod.fst = ((conv' x).parse c 0).map Prod.fst ∧
        ∀ t, { conv x with priority := t } = { conv' x with priority := t } := by
      intro x
      have hx := h x
      cases h1 : conv x
      cases h2 : conv' x
      rw [h1, h2] at hx
      simp only [Record.mk.injEq] at hx
      obtain ⟨rfl, rfl, -, rfl, rfl⟩ := hx
      refine ⟨?_, fun t => rfl⟩
      unfold Record.parse
      simp only
      cases c.decodeKey _ with
      | none => rfl
      | some k =>
        cases c.decodeSig _ with
        | none => rfl
        | some s => simp only; split <;> rfl
    have hgb : goodRows c conv e.priorities e.rows = goodRows c conv' e.priorities e.rows ∧
        (badRows c conv e.rows).length = (badRows c conv' e.rows).length := by
      generalize e.rows = rows
      induction rows with
      | nil => exact ⟨rfl, rfl⟩
      | cons x rows ih =>
        cases x with
        | none => exact ih
        | some x =>
          obtain ⟨h1, h2⟩ := hp x
          simp only [goodRows, badRows]
          cases ha : (conv x).parse c 0 with
          | none =>
            rw [ha] at h1
            cases hb : (conv' x).parse c 0 with
            | none => exact ⟨ih.1, by simp [ih.2]⟩
            | some _ => rw [hb] at h1; cases h1
          | some kp =>
            rw [ha] at h1
            cases hb : (conv' x).parse c 0 with
            | none => rw [hb] at h1; cases h1
            | some kp' =>
              rw [hb] at h1
              simp only [Option.map_some, Option.some.injEq] at h1
              simp only
              rw [h1, h2, ih.1]
              exact ⟨rfl, ih.2⟩
    rw [extract_fits c conv d e hf, extract_fits c conv' d e hf, hgb.1, hgb.2]
    exact ⟨rfl, rfl⟩
  · obtain ⟨h1, -⟩ := extract_unfit c conv d e hf
    obtain ⟨h2, -⟩ := extract_unfit c conv' d e hf
    refine ⟨?_, by rw [h1, h2]⟩
    unfold extractRegistry
    cases hs : setHeader e.headers e.expected e.short with
    | error err => rfl
    | ok u => exact absurd ((setHeader_ok _ _ _).1 hs) hf

/-! ## Cases -/

/-- A registrar in which the key is the number of characters and a signature is valid if it repeats the text of the key. -/
def toyRegistrar : Registrar Nat (List Char) where
  decodeKey s := if s = [] then none else some s.length
  decodeSig s := some s
  verify k _ s := s.length == k

def toyRow (who key sig : String) : Record := ⟨who.toList, "m".toList, "high".toList, key.toList, sig.toList⟩

def toyExtraction (rows : List (Option Record)) (priorities : Nat → Option Priority) : Extraction Nat Record :=
  ⟨["a"], rows, ["a"], ["b"], priorities⟩

/-- A run with a valid row that claims a high priority, one with a wrong signature and one that does not deserialize. -/
example :
    let e := toyExtraction [some (toyRow "x" "kk" "ss"), none, some (toyRow "y" "kkk" "s")] fun _ => none
    let d := (extractRegistry toyRegistrar id ⟨[], []⟩ e).2
    d.good = [Record.header, { toyRow "x" "kk" "ss" with priority := "normal".toList }] ∧
    d.bad = [Record.header, toyRow "y" "kkk" "s"] ∧
    (loadRegistry toyRegistrar (fun n => n + 5) d.good).get 2 = some ⟨.normal, 2, 5, false⟩ ∧
    e.Registers toyRegistrar id 2 := by
  refine ⟨by decide +kernel, by decide +kernel, by decide +kernel, ⟨by decide, by decide⟩, _, List.mem_cons_self, ?_⟩
  exact ⟨by decide, "ss".toList, rfl, by decide⟩

/-- **C124 is false of the code for rows that cannot be read.** A row whose number of fields is wrong is in neither file and
in neither number, although the function promises a file of malformed entries. -/
theorem c124_unread_violated : ∃ (e : Extraction Nat Record), e.Fits ∧ e.rows ≠ [] ∧
    ∀ d, extractRegistry toyRegistrar id d e = (.ok (0, 0), d) := by
  refine ⟨toyExtraction [none] fun _ => none, ⟨rfl, rfl⟩, by simp [toyExtraction], fun d => ?_⟩
  rw [extract_fits _ _ _ _ ⟨rfl, rfl⟩]
  simp [toyExtraction, goodRows, badRows, CsvWriter.many, CsvWriter.append]

/-- **C124, finding: a later list has no effect.** Processing the registrations again with a list that gives a participant
high priority does not give them high priority. -/
theorem c124_promotion_violated : ∃ (e e' : Extraction Nat Record), e.rows = e'.rows ∧
    e'.Registers toyRegistrar id 2 ∧ e'.priorities 2 = some .high ∧
    ∀ nonce, ∃ p, (loadRegistry toyRegistrar nonce (extractAll toyRegistrar id ⟨[], []⟩ [e, e']).good).get 2 = some p ∧
      p.priority = .normal := by
  let rows := [some (toyRow "x" "kk" "ss")]
  have hr : ∀ q, (toyExtraction rows q).Registers toyRegistrar id 2 := fun q =>
    ⟨⟨rfl, rfl⟩, _, List.mem_cons_self, by decide, "ss".toList, rfl, by decide⟩
  refine ⟨toyExtraction rows fun _ => none, toyExtraction rows fun _ => some .high, rfl, hr _, rfl, fun nonce => ?_⟩
  obtain ⟨h1, h2⟩ := c124_registry toyRegistrar id
    [toyExtraction rows fun _ => none, toyExtraction rows fun _ => some .high] nonce 2
  obtain ⟨p, hp⟩ := Option.ne_none_iff_exists'.1 (h1.2 ⟨_, List.mem_cons_self, hr _⟩)
  refine ⟨p, hp, ?_⟩
  obtain ⟨-, -, -, i, e, hi, -, hmin, hpr⟩ := h2 p hp
  cases i with
  | zero =>
    simp only [List.getElem?_cons_zero, Option.some.injEq] at hi
    subst hi
    exact hpr
  | succ i => exact absurd (hr _) (hmin 0 _ (by omega) rfl)

end Verif.Ceremony
