import Verif.Params.Download

/-!
# C116: the library embeds what its list of checksums says, `manta-parameters/build.rs`

Paths are split in stem and extension, as `Path::extension` and `Path::with_extension` do. The walk over the data
directory gives its visible files that are not ignored, in any order.
-/

namespace Verif.Params

/-- A file below the data directory: everything before the last dot of its name, and what follows. -/
structure Name where
  stem : List Char
  ext : Option (List Char)
deriving DecidableEq, Repr

/-- The path as text. -/
def Name.text (n : Name) : List Char :=
  match n.ext with
  | none => n.stem
  | some e => n.stem ++ '.' :: e

/-- `str::split("  ")`: the pieces between the blanks, found from the left. `acc` is the current piece, reversed. -/
def splitBlanks : List Char → List Char → List (List Char)
  | acc, ' ' :: ' ' :: cs => acc.reverse :: splitBlanks [] cs
  | acc, c :: cs => splitBlanks (c :: acc) cs
  | acc, [] => [acc.reverse]

/-- Value of a digit, as `hex` accepts: both cases. -/
def hexDigit (c : Char) : Option Nat :=
  if '0' ≤ c ∧ c ≤ '9' then some (c.toNat - 48)
  else if 'a' ≤ c ∧ c ≤ 'f' then some (c.toNat - 87)
  else if 'A' ≤ c ∧ c ≤ 'F' then some (c.toNat - 55)
  else none

/-- Pairs of digits. -/
def hexBytes : List Char → Option Bytes
  | [] => some []
  | [_] => none
  | a :: b :: cs =>
    match hexDigit a, hexDigit b, hexBytes cs with
    | some x, some y, some r => some (UInt8.ofNat (16 * x + y) :: r)
    | _, _, _ => none

/-- `Checksum::from_hex`, 32 bytes. -/
def fromHex (cs : List Char) : Option Bytes :=
  match hexBytes cs with
  | some b => if b.length = 32 then some b else none
  | none => none

/-- One line of the list, build.rs:55-60. -/
def parseLine (line : List Char) : Option (List Char × Bytes) :=
  match splitBlanks [] line with
  | [checksum, path] => (fromHex checksum).map fun c => (path, c)
  | _ => none

/-- `parse_checkfile`, build.rs:44-64: inserted in order, so a later line replaces an earlier one. -/
def parseCheckfile : List (List Char) → Option (List (List Char × Bytes))
  | [] => some []
  | l :: ls =>
    match parseLine l, parseCheckfile ls with
    | some x, some xs => some (x :: xs)
    | _, _ => none

/-- `get_checksum`, build.rs:66-76: the last entry. -/
def lookup (m : List (List Char × Bytes)) (path : List Char) : Option Bytes :=
  match m with
  | [] => none
  | (p, c) :: m =>
    match lookup m path with
    | some x => some x
    | none => if p = path then some c else none

/-- `with_extension("checksum")`. -/
def Name.checksum (n : Name) : Name := ⟨n.stem, some "checksum".toList⟩

/-- `compile_local_binary_file` and `validate_and_save_checksum`, build.rs:102-136: the checksum, then the copy. -/
def compileDat (hash : Bytes → Bytes) (m : List (List Char × Bytes)) (n : Name) (data : Bytes) (out : Disk Name) :
    Option (Disk Name) :=
  match lookup m n.text with
  | none => none
  | some c => if hash data = c then some ((out.set n.checksum c).set n data) else none

/-- `compile_lfs`, build.rs:150-154: only the checksum of the list. -/
def compileLfs (m : List (List Char × Bytes)) (n : Name) (out : Disk Name) : Option (Disk Name) :=
  match lookup m n.text with
  | none => none
  | some c => some (out.set n.checksum c)

/-- One file of the walk, build.rs:224-237. -/
def compileFile (hash : Bytes → Bytes) (m : List (List Char × Bytes)) (n : Name) (data : Bytes) (out : Disk Name) :
    Option (Disk Name) :=
  if n.ext = some "dat".toList then compileDat hash m n data out
  else if n.ext = some "lfs".toList then compileLfs m n out
  else if n.ext = some "md".toList ∨ n.ext = some "txt".toList then some out
  else none

/-- The walk. -/
def compileAll (hash : Bytes → Bytes) (m : List (List Char × Bytes)) : List (Name × Bytes) → Disk Name →
    Option (Disk Name)
  | [], out => some out
  | (n, data) :: fs, out =>
    match compileFile hash m n data out with
    | none => none
    | some out => compileAll hash m fs out

/-- `main`, build.rs:209-240, on an output directory with any contents. `none` is an error or a panic: nothing is built. -/
def build (hash : Bytes → Bytes) (lines : List (List Char)) (files : List (Name × Bytes)) (out : Disk Name) :
    Option (Disk Name) :=
  match parseCheckfile lines with
  | none => none
  | some m => compileAll hash m files out

/-- What `define_dat!` includes for a stem, lib.rs:237-255: checksum (32 bytes, otherwise the crate does not compile) and
data. -/
def embedded (out : Disk Name) (stem : List Char) : Option (Bytes × Bytes) :=
  match out ⟨stem, some "checksum".toList⟩, out ⟨stem, some "dat".toList⟩ with
  | some c, some d => if c.length = 32 then some (c, d) else none
  | _, _ => none

/-! ## Specification -/

/-- A line in the format of `b3sum`: 64 lower case digits, two blanks, the path. -/
def hexText (b : Bytes) : List Char :=
  b.flatMap fun x => [Nat.digitChar (x.toNat / 16), Nat.digitChar (x.toNat % 16)]

def b3line (c : Bytes) (path : List Char) : List Char := hexText c ++ ' ' :: ' ' :: path

/-- No two adjacent blanks. -/
def Tame (cs : List Char) : Prop := ∀ a b, cs ≠ a ++ ' ' :: ' ' :: b

/-- Files that are compiled to something. -/
def Name.IsData (n : Name) : Prop := n.ext = some "dat".toList ∨ n.ext = some "lfs".toList

/-! ## Helpers -/

theorem Tame.tail {c : Char} {cs : List Char} (h : Tame (c :: cs)) : Tame cs := fun a b e => h (c :: a) b (by simp [e])

theorem split_tame (cs acc : List Char) (h : Tame cs) : splitBlanks acc cs = [acc.reverse ++ cs] := by
  induction cs generalizing acc with
  | nil => simp [splitBlanks]
  | cons c cs ih =>
    have hn : ∀ r, ¬ (c = ' ' ∧ cs = ' ' :: r) := fun r e => h [] r (by simp [e.1, e.2])
    rw [splitBlanks]
    · rw [ih _ h.tail]; simp
    · intro r e₁ e₂; exact hn r ⟨e₁, e₂⟩

theorem split_append (as cs acc : List Char) (h : ∀ c ∈ as, c ≠ ' ') :
    splitBlanks acc (as ++ ' ' :: ' ' :: cs) = (acc.reverse ++ as) :: splitBlanks [] cs := by
  induction as generalizing acc with
  | nil => simp [splitBlanks]
  | cons a as ih =>
    have ha := h a (by simp)
    rw [List.cons_append, splitBlanks]
    · rw [ih _ fun c hc => h c (by simp [hc])]; simp
    · intro r e _; exact ha e

theorem digit_ok : ∀ k < 16, hexDigit (Nat.digitChar k) = some k ∧ Nat.digitChar k ≠ ' ' := by decide

theorem byte_mk (x : UInt8) : UInt8.ofNat (16 * (x.toNat / 16) + x.toNat % 16) = x := by
  rw [Nat.div_add_mod]; simp

theorem hexBytes_text (b : Bytes) : hexBytes (hexText b) = some b := by
  induction b with
  | nil => rfl
  | cons x b ih =>
    have hx : x.toNat < 256 := x.toNat_lt
    have h₁ := (digit_ok (x.toNat / 16) (by omega)).1
    have h₂ := (digit_ok (x.toNat % 16) (by omega)).1
    have : hexText (x :: b) = Nat.digitChar (x.toNat / 16) :: Nat.digitChar (x.toNat % 16) :: hexText b := by
      simp [hexText]
    rw [this, hexBytes, h₁, h₂, ih]
    simp only [byte_mk]

theorem hexText_blank (b : Bytes) : ∀ c ∈ hexText b, c ≠ ' ' := by
  intro c hc
  simp only [hexText, List.mem_flatMap] at hc
  obtain ⟨x, _, hc⟩ := hc
  have hx : x.toNat < 256 := x.toNat_lt
  simp only [List.mem_cons, List.not_mem_nil, or_false] at hc
  rcases hc with rfl | rfl
  · exact (digit_ok _ (by omega)).2
  · exact (digit_ok _ (by omega)).2

theorem fromHex_length {cs : List Char} {c : Bytes} (h : fromHex cs = some c) : c.length = 32 := by
  unfold fromHex at h
  split at h
  · split at h
    · cases h; assumption
    · cases h
  · cases h

theorem parse_length {lines : List (List Char)} {m : List (List Char × Bytes)} (h : parseCheckfile lines = some m) :
    ∀ e ∈ m, e.2.length = 32 := by
  induction lines generalizing m with
  | nil => cases h; intro e he; cases he
  | cons l ls ih =>
    unfold parseCheckfile at h
    split at h
    · rename_i x xs hx hxs
      cases h
      intro e he
      rcases List.mem_cons.1 he with rfl | he
      · unfold parseLine at hx
        split at hx
        · obtain ⟨c, hc, rfl⟩ := Option.map_eq_some_iff.1 hx
          exact fromHex_length hc
        · cases hx
      · exact ih hxs e he
    · cases h

theorem lookup_mem {m : List (List Char × Bytes)} {p : List Char} {c : Bytes} (h : lookup m p = some c) :
    (p, c) ∈ m := by
  induction m with
  | nil => cases h
  | cons e m ih =>
    obtain ⟨q, x⟩ := e
    unfold lookup at h
    split at h
    · rename_i y hy; cases h; exact List.mem_cons_of_mem _ (ih hy)
    · split at h
      · rename_i e; cases h; subst e; exact List.mem_cons_self
      · cases h

theorem name_ne_checksum {n : Name} (h : n.IsData) (k : Name) : n ≠ k.checksum := by
  rintro rfl
  rcases h with h | h <;> simp [Name.checksum] at h

/-- A step keeps what belongs to other stems. -/
theorem compileFile_other {hash : Bytes → Bytes} {m : List (List Char × Bytes)} {n : Name} {data : Bytes}
    {out out' : Disk Name} (h : compileFile hash m n data out = some out') :
    (∀ k : Name, k ≠ n → k ≠ n.checksum → out' k = out k) ∧ (¬ n.IsData → out' = out) := by
  unfold compileFile at h
  split at h
  · rename_i hd
    unfold compileDat at h
    split at h
    · cases h
    · split at h
      · cases h
        refine ⟨fun k h₁ h₂ => by rw [Disk.set_other _ h₁, Disk.set_other _ h₂], fun hn => absurd (.inl hd) hn⟩
      · cases h
  · split at h
    · rename_i hd
      unfold compileLfs at h
      split at h
      · cases h
      · cases h
        exact ⟨fun k _ h₂ => Disk.set_other _ h₂ _, fun hn => absurd (.inr hd) hn⟩
    · split at h
      · cases h; exact ⟨fun _ _ _ => rfl, fun _ => rfl⟩
      · cases h

/-- Files of other stems do not change what belongs to a stem. -/
theorem compileAll_other {hash : Bytes → Bytes} {m : List (List Char × Bytes)} {fs : List (Name × Bytes)}
    {out out' : Disk Name} (h : compileAll hash m fs out = some out') (k : Name)
    (hk : ∀ f ∈ fs, f.1.IsData → f.1.stem ≠ k.stem) : out' k = out k := by
  induction fs generalizing out with
  | nil => cases h; rfl
  | cons f fs ih =>
    obtain ⟨n, data⟩ := f
    unfold compileAll at h
    split at h
    · cases h
    · rename_i out₁ h₁
      rw [ih h fun f hf => hk f (by simp [hf])]
      by_cases hn : n.IsData
      · have hs := hk (n, data) (by simp) hn
        exact (compileFile_other h₁).1 k (fun e => hs (by rw [e])) (fun e => hs (by rw [e]; rfl))
      · rw [(compileFile_other h₁).2 hn]

/-! ## Properties -/

/-- A list in the format of `b3sum` is read as it is meant, for all checksums and paths without adjacent blanks. -/
theorem c116_checkfile (es : List (List Char × Bytes)) (hc : ∀ e ∈ es, e.2.length = 32) (hp : ∀ e ∈ es, Tame e.1) :
    parseCheckfile (es.map fun e => b3line e.2 e.1) = some es := by
  induction es with
  | nil => rfl
  | cons e es ih =>
    obtain ⟨p, c⟩ := e
    have h₁ : parseLine (b3line c p) = some (p, c) := by
      unfold parseLine b3line
      rw [split_append _ _ _ (hexText_blank c), split_tame _ _ (hp (p, c) (by simp))]
      simp [fromHex, hexBytes_text, hc (p, c) (by simp)]
    simp only [List.map_cons, parseCheckfile]
    rw [h₁, ih (fun e he => hc e (by simp [he])) fun e he => hp e (by simp [he])]

/-- If the library builds, then each embedded data file is the file of the repository, its checksum is the one of the
list and verifies: `get` returns the data. This holds for every order of the walk and whatever a former build left, for
files whose stem no other data file has. -/
theorem c116_dat_partial {hash : Bytes → Bytes} {lines : List (List Char)} {m : List (List Char × Bytes)}
    (hm : parseCheckfile lines = some m) {pre post : List (Name × Bytes)} {stem : List Char} {data : Bytes}
    {out out' : Disk Name}
    (h : build hash lines (pre ++ (⟨stem, some "dat".toList⟩, data) :: post) out = some out')
    (halone : ∀ f ∈ post, f.1.IsData → f.1.stem ≠ stem) :
    lookup m (stem ++ ".dat".toList) = some (hash data) ∧
      embedded out' stem = some (hash data, data) ∧ get hash data (hash data) = some data := by
  unfold build at h
  rw [hm] at h
  have split : ∀ (pre : List (Name × Bytes)) (out : Disk Name) rest, compileAll hash m (pre ++ rest) out = some out' →
      ∃ o, compileAll hash m rest o = some out' := by
    intro pre
    induction pre with
    | nil => intro out rest h; exact ⟨out, h⟩
    | cons f pre ih =>
      intro out rest h
      simp only [List.cons_append, compileAll] at h
      split at h
      · cases h
      · exact ih _ _ h
  obtain ⟨o, ho⟩ := split pre out _ h
  simp only [compileAll] at ho
  split at ho
  · cases ho
  rename_i o₁ h₁
  simp only [compileFile, if_true, compileDat] at h₁
  split at h₁
  · cases h₁
  rename_i c hl
  split at h₁
  · rename_i hc
    cases h₁
    have hl' : lookup m (stem ++ ".dat".toList) = some c := hl
    have k₁ := compileAll_other ho ⟨stem, some "checksum".toList⟩ halone
    have k₂ := compileAll_other ho ⟨stem, some "dat".toList⟩ halone
    rw [Disk.set_same] at k₂
    rw [Disk.set_other _ (by simp), show (⟨stem, some "checksum".toList⟩ : Name) =
      (⟨stem, some "dat".toList⟩ : Name).checksum from rfl, Disk.set_same] at k₁
    have hlen : c.length = 32 := parse_length hm _ (lookup_mem hl)
    subst hc
    refine ⟨hl', ?_, by simp [get, verify]⟩
    unfold embedded
    rw [show out' ⟨stem, some "checksum".toList⟩ = _ from k₁, k₂]
    simp [hlen]
  · cases h₁

/-- The checksum that a downloadable file is compared with is the one of the list, for a stem that no later file has. -/
theorem c116_lfs_partial {hash : Bytes → Bytes} {lines : List (List Char)} {m : List (List Char × Bytes)}
    (hm : parseCheckfile lines = some m) {pre post : List (Name × Bytes)} {stem : List Char} {data : Bytes}
    {out out' : Disk Name}
    (h : build hash lines (pre ++ (⟨stem, some "lfs".toList⟩, data) :: post) out = some out')
    (halone : ∀ f ∈ post, f.1.IsData → f.1.stem ≠ stem) :
    ∃ c, lookup m (stem ++ ".lfs".toList) = some c ∧ c.length = 32 ∧
      out' ⟨stem, some "checksum".toList⟩ = some c := by
  unfold build at h
  rw [hm] at h
  have split : ∀ (pre : List (Name × Bytes)) (out : Disk Name) rest, compileAll hash m (pre ++ rest) out = some out' →
      ∃ o, compileAll hash m rest o = some out' := by
    intro pre
    induction pre with
    | nil => intro out rest h; exact ⟨out, h⟩
    | cons f pre ih =>
      intro out rest h
      simp only [List.cons_append, compileAll] at h
      split at h
      · cases h
      · exact ih _ _ h
  obtain ⟨o, ho⟩ := split pre out _ h
  simp only [compileAll] at ho
  split at ho
  · cases ho
  rename_i o₁ h₁
  have hne : ¬ some "lfs".toList = some "dat".toList := by decide
  simp only [compileFile, hne, if_false, if_true, compileLfs] at h₁
  split at h₁
  · cases h₁
  rename_i c hl
  cases h₁
  refine ⟨c, hl, parse_length hm _ (lookup_mem hl), ?_⟩
  rw [compileAll_other ho ⟨stem, some "checksum".toList⟩ halone]
  exact Disk.set_same _ _ _

/-- When the library builds: every line is well formed, every data file has an entry, the local ones with their own hash,
and every other file is text. -/
theorem c116_builds_iff {hash : Bytes → Bytes} {lines : List (List Char)} {files : List (Name × Bytes)}
    {out : Disk Name} :
    (build hash lines files out).isSome ↔ ∃ m, parseCheckfile lines = some m ∧ ∀ f ∈ files,
      (f.1.ext = some "dat".toList ∧ lookup m f.1.text = some (hash f.2)) ∨
      (f.1.ext = some "lfs".toList ∧ (lookup m f.1.text).isSome) ∨
      f.1.ext = some "md".toList ∨ f.1.ext = some "txt".toList := by
  have loop : ∀ (m : List (List Char × Bytes)) (files : List (Name × Bytes)) (out : Disk Name),
      (compileAll hash m files out).isSome ↔ ∀ f ∈ files,
      (f.1.ext = some "dat".toList ∧ lookup m f.1.text = some (hash f.2)) ∨
      (f.1.ext = some "lfs".toList ∧ (lookup m f.1.text).isSome) ∨
      f.1.ext = some "md".toList ∨ f.1.ext = some "txt".toList := by
    intro m files
    induction files with
    | nil => intro out; simp [compileAll]
    | cons f files ih =>
      intro out
      obtain ⟨n, data⟩ := f
      have one : (compileFile hash m n data out).isSome ↔
          (n.ext = some "dat".toList ∧ lookup m n.text = some (hash data)) ∨
          (n.ext = some "lfs".toList ∧ (lookup m n.text).isSome) ∨
          n.ext = some "md".toList ∨ n.ext = some "txt".toList := by
        have d₁ : some "lfs".toList ≠ some "dat".toList := by decide
        have d₂ : some "md".toList ≠ some "dat".toList := by decide
        have d₃ : some "txt".toList ≠ some "dat".toList := by decide
        have d₄ : some "md".toList ≠ some "lfs".toList := by decide
        have d₅ : some "txt".toList ≠ some "lfs".toList := by decide
        unfold compileFile compileDat compileLfs
        generalize some "dat".toList = x₁ at *
        generalize some "lfs".toList = x₂ at *
        generalize some "md".toList = x₃ at *
        generalize some "txt".toList = x₄ at *
        cases lookup m n.text <;> grind
      rw [List.forall_mem_cons, ← one]
      unfold compileAll
      cases e : compileFile hash m n data out with
      | none => simp
      | some o => simp only [Option.isSome_some, true_and]; exact ih o
  unfold build
  cases e : parseCheckfile lines with
  | none => simp
  | some m => simp only [loop, Option.some.injEq, exists_eq_left']

/-- The gap: the checksums of files that differ only in their extension are stored in the same place. If the downloadable
one comes later in the walk, then the library builds, but the data is embedded with the other checksum, and loading it
fails. -/
theorem c116_stem_violated {hash : Bytes → Bytes} {m : List (List Char × Bytes)} {lines : List (List Char)}
    (hm : parseCheckfile lines = some m) {stem : List Char} {data other : Bytes} {c : Bytes} (out : Disk Name)
    (h₁ : lookup m (stem ++ ".dat".toList) = some (hash data)) (h₂ : lookup m (stem ++ ".lfs".toList) = some c)
    (hne : hash data ≠ c) :
    ∃ out', build hash lines [(⟨stem, some "dat".toList⟩, data), (⟨stem, some "lfs".toList⟩, other)] out = some out' ∧
      embedded out' stem = some (c, data) ∧ get hash data c = none := by
  have hlen : c.length = 32 := parse_length hm _ (lookup_mem h₂)
  have t₁ : (⟨stem, some "dat".toList⟩ : Name).text = stem ++ ".dat".toList := rfl
  have t₂ : (⟨stem, some "lfs".toList⟩ : Name).text = stem ++ ".lfs".toList := rfl
  have e₀ : ¬ some "lfs".toList = some "dat".toList := by decide
  refine ⟨((out.set (⟨stem, some "dat".toList⟩ : Name).checksum (hash data)).set ⟨stem, some "dat".toList⟩ data).set
    (⟨stem, some "lfs".toList⟩ : Name).checksum c, ?_, ?_, ?_⟩
  · unfold build
    rw [hm]
    simp only [compileAll, compileFile, if_true, compileDat, t₁, h₁, e₀, if_false, compileLfs, t₂, h₂]
  · simp [embedded, Disk.set, Name.checksum, hlen]
  · simp [get, verify, hne]

/-! ## Instances -/

/-- A toy hash with 32 bytes. -/
def toySum (b : Bytes) : Bytes := UInt8.ofNat b.length :: List.replicate 31 (b.foldl (· + ·) 0)

theorem tame_of_first (cs : List Char) (h : cs.all (· ≠ ' ') = true) : Tame cs := by
  intro a b e
  rw [e] at h
  simp at h

def toyList : List (List Char × Bytes) :=
  [("data/a.dat".toList, toySum [1, 2]), ("data/b.lfs".toList, toySum [7])]

def toyLines : List (List Char) := toyList.map fun e => b3line e.2 e.1

theorem toyLines_parse : parseCheckfile toyLines = some toyList :=
  c116_checkfile toyList (by decide) (by
    intro e he
    simp [toyList] at he
    rcases he with rfl | rfl <;> exact tame_of_first _ (by decide))

/-- A library with one embedded and one downloadable file and a text builds. -/
example : (build toySum toyLines [(⟨"data/b".toList, some "lfs".toList⟩, []), (⟨"data/README".toList, some "md".toList⟩, []),
    (⟨"data/a".toList, some "dat".toList⟩, [1, 2])] (fun _ => some [0])).isSome :=
  c116_builds_iff.2 ⟨toyList, toyLines_parse, by decide⟩

/-- A changed byte is noticed. -/
example : build toySum toyLines [(⟨"data/a".toList, some "dat".toList⟩, [1, 3])] (fun _ => none) = none := by
  rw [build, toyLines_parse]; rfl

/-- Both extensions for one stem. -/
def toyList' : List (List Char × Bytes) :=
  [("data/a.dat".toList, toySum [1, 2]), ("data/a.lfs".toList, toySum [7])]

example : ∃ out', build toySum (toyList'.map fun e => b3line e.2 e.1)
    [(⟨"data/a".toList, some "dat".toList⟩, [1, 2]), (⟨"data/a".toList, some "lfs".toList⟩, [])] (fun _ => none) =
      some out' ∧ embedded out' "data/a".toList = some (toySum [7], [1, 2]) ∧ get toySum [1, 2] (toySum [7]) = none :=
  c116_stem_violated (m := toyList') (c116_checkfile toyList' (by decide) (by
    intro e he
    simp [toyList'] at he
    rcases he with rfl | rfl <;> exact tame_of_first _ (by decide))) _ (by decide) (by decide) (by decide)

end Verif.Params
