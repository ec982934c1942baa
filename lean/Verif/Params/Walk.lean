import Verif.Params.Build

/-!
# C147: which files the library is built from, `manta-parameters/build.rs`

The walk over the data directory, its hidden entries and its ignore files, in front of C116. Simplified: names are valid
text, and there are no links or unreadable directories; what an ignore file excludes (crate `gitignore`) is a parameter.
-/

namespace Verif.Params

/-- Name of a file or directory. -/
abbrev Seg := List Char

/-- A directory: its entries in the order in which they are listed. -/
inductive Dir where
  | nil
  | file (name : Seg) (data : Bytes) (rest : Dir)
  | sub (name : Seg) (dir : Dir) (rest : Dir)
deriving DecidableEq, Repr

namespace Dir

/-- `fs::read` of a path below the directory. -/
def read : Dir → List Seg → Option Bytes
  | nil, _ => none
  | file s b r, p => if p = [s] then some b else r.read p
  | sub s d r, p =>
    match p with
    | [] => none
    | x :: q => if x = s then d.read q else r.read (x :: q)

/-- Names in a directory. -/
def names : Dir → List Seg
  | nil => []
  | file s _ r => s :: r.names
  | sub s _ r => s :: r.names

/-- A file system lists no name twice in one directory. -/
def Ok : Dir → Prop
  | nil => True
  | file s _ r => s ∉ r.names ∧ r.Ok
  | sub s d r => s ∉ r.names ∧ d.Ok ∧ r.Ok

/-- `is_hidden`, build.rs:165-169. -/
def hidden (s : Seg) : Bool := s.head? = some '.'

/-- `WalkDir::new("data").into_iter().filter_entry(|e| !is_hidden(e))`, build.rs:216-218, restricted to what is not a
directory (222): a hidden entry is skipped with everything below it. Paths are relative to `data`. -/
def walk : Dir → List (List Seg × Bytes)
  | nil => []
  | file s b r => (if hidden s then [] else [([s], b)]) ++ r.walk
  | sub s d r => (if hidden s then [] else d.walk.map fun f => (s :: f.1, f.2)) ++ r.walk

/-- `.gitignore`. -/
def gitignore : Seg := ".gitignore".toList

/-- `build_ignore_table`, build.rs:174-193: the directories, hidden ones too, with an ignore file; `at'` is the path so
far. -/
def table : List Seg → Dir → List (List Seg)
  | _, nil => []
  | at', file s _ r => (if s = gitignore then [at'] else []) ++ table at' r
  | at', sub s d r => table (at' ++ [s]) d ++ table at' r

end Dir

/-- What the crate `gitignore` says: by the contents of an ignore file, whether it excludes a path; `none` is an error. -/
abbrev Excludes := Bytes → List Seg → Option Bool

/-- `should_ignore`, build.rs:195-207. -/
def shouldIgnore (excl : Excludes) (root : Dir) (p : List Seg) : Option Bool :=
  if p.dropLast ∈ root.table [] then
    match root.read (p.dropLast ++ [Dir.gitignore]) with
    | none => none
    | some c => excl c p
  else some false

/-- The path as `Path::display` shows it. -/
def pathText (p : List Seg) : List Char := "data".toList ++ p.flatMap fun s => '/' :: s

/-- The parts of a file name before and after its last dot. -/
def lastDot : List Char → Option (List Char × List Char)
  | [] => none
  | c :: cs =>
    match lastDot cs with
    | some (a, b) => some (c :: a, b)
    | none => if c = '.' then some ([], cs) else none

/-- `Path::extension` and what `Path::with_extension` keeps: a dot at the beginning of the name does not count. -/
def nameOf (p : List Seg) : Name :=
  match lastDot (p.getLast?.getD []) with
  | some (c :: a, b) => ⟨pathText p.dropLast ++ '/' :: c :: a, some b⟩
  | _ => ⟨pathText p, none⟩

/-- The loop of `main`, build.rs:216-236. -/
def visitAll (hash : Bytes → Bytes) (excl : Excludes) (root : Dir) (m : List (List Char × Bytes)) :
    List (List Seg × Bytes) → Disk Name → Option (Disk Name)
  | [], out => some out
  | (p, data) :: fs, out =>
    match shouldIgnore excl root p with
    | none => none
    | some true => visitAll hash excl root m fs out
    | some false =>
      match compileFile hash m (nameOf p) data out with
      | none => none
      | some out => visitAll hash excl root m fs out

/-- `main`, build.rs:209-238, on the data directory `root`. -/
def buildTree (hash : Bytes → Bytes) (excl : Excludes) (lines : List (List Char)) (root : Dir) (out : Disk Name) :
    Option (Disk Name) :=
  match parseCheckfile lines with
  | none => none
  | some m => visitAll hash excl root m root.walk out

/-! ## Specification -/

/-- No part of the path begins with a dot. -/
def Visible (p : List Seg) : Prop := ∀ s ∈ p, ∀ r, s ≠ '.' :: r

/-- What the ignore file beside a file says about it; without one nothing is ignored. -/
def rule (excl : Excludes) (root : Dir) (p : List Seg) : Option Bool :=
  match root.read (p.dropLast ++ [".gitignore".toList]) with
  | none => some false
  | some c => excl c p

/-! ## Helpers -/

theorem hidden_iff (s : Seg) : Dir.hidden s = true ↔ ∃ r, s = '.' :: r := by
  cases s with
  | nil => simp [Dir.hidden]
  | cons c s => simp [Dir.hidden]

theorem visible_cons (s : Seg) (p : List Seg) : Visible (s :: p) ↔ Dir.hidden s = false ∧ Visible p := by
  unfold Visible
  rw [← Bool.not_eq_true, hidden_iff]
  constructor
  · intro h
    exact ⟨fun ⟨r, e⟩ => h s (by simp) r e, fun x hx => h x (by simp [hx])⟩
  · rintro ⟨h₁, h₂⟩ x hx r e
    rcases List.mem_cons.1 hx with rfl | hx
    · exact h₁ ⟨r, e⟩
    · exact h₂ x hx r e

theorem read_nil (d : Dir) : d.read [] = none := by
  induction d with
  | nil => rfl
  | file s b r ih => simp [Dir.read, ih]
  | sub s d r _ _ => rfl

theorem read_names {d : Dir} {s : Seg} {q : List Seg} {b : Bytes} (h : d.read (s :: q) = some b) : s ∈ d.names := by
  induction d with
  | nil => cases h
  | file x c r ih =>
    simp only [Dir.read] at h
    split at h
    · rename_i e; cases e; simp [Dir.names]
    · exact List.mem_cons_of_mem _ (ih h)
  | sub x d r _ ih =>
    simp only [Dir.read] at h
    split at h
    · rename_i e; simp [Dir.names, e]
    · exact List.mem_cons_of_mem _ (ih h)

theorem walk_nonempty {d : Dir} {f : List Seg × Bytes} (h : f ∈ d.walk) : ∃ s q, f.1 = s :: q ∧ s ∈ d.names := by
  induction d generalizing f with
  | nil => cases h
  | file s b r ih =>
    simp only [Dir.walk, List.mem_append] at h
    rcases h with h | h
    · split at h
      · cases h
      · simp only [List.mem_singleton] at h; subst h; exact ⟨s, [], rfl, by simp [Dir.names]⟩
    · obtain ⟨x, q, e, hx⟩ := ih h
      exact ⟨x, q, e, List.mem_cons_of_mem _ hx⟩
  | sub s d r _ ih =>
    simp only [Dir.walk, List.mem_append] at h
    rcases h with h | h
    · split at h
      · cases h
      · obtain ⟨g, _, rfl⟩ := List.mem_map.1 h; exact ⟨s, g.1, rfl, by simp [Dir.names]⟩
    · obtain ⟨x, q, e, hx⟩ := ih h
      exact ⟨x, q, e, List.mem_cons_of_mem _ hx⟩

theorem walk_nodup {d : Dir} (ok : d.Ok) : (d.walk.map Prod.fst).Nodup := by
  induction d with
  | nil => exact List.nodup_nil
  | file s b r ih =>
    simp only [Dir.walk, List.map_append]
    refine List.nodup_append.2 ⟨by split <;> simp, ih ok.2, ?_⟩
    intro p hp q hq e
    subst e
    obtain ⟨f, hf, rfl⟩ := List.mem_map.1 hq
    obtain ⟨x, q, e, hx⟩ := walk_nonempty hf
    split at hp
    · cases hp
    · simp only [List.map_cons, List.map_nil, List.mem_singleton] at hp
      rw [hp] at e; cases e; exact ok.1 hx
  | sub s d r ihd ih =>
    simp only [Dir.walk, List.map_append]
    refine List.nodup_append.2 ⟨?_, ih ok.2.2, ?_⟩
    · split
      · exact List.nodup_nil
      · rw [List.map_map, show (Prod.fst ∘ fun f : List Seg × Bytes => (s :: f.1, f.2)) = (s :: ·) ∘ Prod.fst from rfl,
          ← List.map_map]
        exact List.Pairwise.map _ (fun a b h e => h (List.cons.inj e).2) (ihd ok.2.1)
    · intro p hp q hq e
      subst e
      obtain ⟨f, hf, rfl⟩ := List.mem_map.1 hq
      obtain ⟨x, q, e, hx⟩ := walk_nonempty hf
      split at hp
      · cases hp
      · rw [List.map_map] at hp
        obtain ⟨g, _, hg⟩ := List.mem_map.1 hp
        rw [e] at hg; cases hg; exact ok.1 hx

theorem lastDot_join {cs a b : List Char} (h : lastDot cs = some (a, b)) : cs = a ++ '.' :: b := by
  induction cs generalizing a b with
  | nil => cases h
  | cons c cs ih =>
    unfold lastDot at h
    split at h
    · rename_i x y e; cases h; rw [ih e]; rfl
    · split at h
      · rename_i e; cases h; rw [e]; rfl
      · cases h

theorem lastDot_ext {cs a b : List Char} (h : lastDot cs = some (a, b)) : '.' ∉ b := by
  have none_dot : ∀ cs : List Char, lastDot cs = none → '.' ∉ cs := by
    intro cs
    induction cs with
    | nil => intro _ h; cases h
    | cons c cs ih =>
      intro h
      unfold lastDot at h
      split at h
      · cases h
      · rename_i e
        split at h
        · cases h
        · rename_i hc
          intro hm
          rcases List.mem_cons.1 hm with e' | hm
          · exact hc e'.symm
          · exact ih e hm
  induction cs generalizing a b with
  | nil => cases h
  | cons c cs ih =>
    unfold lastDot at h
    split at h
    · rename_i x y e; cases h; exact ih e
    · rename_i e
      split at h
      · cases h; exact none_dot _ e
      · cases h

theorem table_iff (d : Dir) (at' : List Seg) (p : List Seg) :
    p ∈ d.table at' → ∃ q, p = at' ++ q := by
  induction d generalizing at' with
  | nil => intro h; cases h
  | file s b r ih =>
    intro h
    simp only [Dir.table, List.mem_append] at h
    rcases h with h | h
    · split at h
      · simp only [List.mem_singleton] at h; exact ⟨[], by simp [h]⟩
      · cases h
    · exact ih _ h
  | sub s d r ihd ih =>
    intro h
    simp only [Dir.table, List.mem_append] at h
    rcases h with h | h
    · obtain ⟨q, e⟩ := ihd _ h; exact ⟨s :: q, by simp [e]⟩
    · exact ih _ h

theorem names_table {d : Dir} {at' q : List Seg} {s : Seg} (h : at' ++ s :: q ∈ d.table at') : s ∈ d.names := by
  induction d with
  | nil => cases h
  | file x b r ih =>
    simp only [Dir.table, List.mem_append] at h
    rcases h with h | h
    · split at h
      · simp at h
      · cases h
    · exact List.mem_cons_of_mem _ (ih h)
  | sub x d r _ ih =>
    simp only [Dir.table, List.mem_append] at h
    rcases h with h | h
    · obtain ⟨q', e⟩ := table_iff _ _ _ h
      rw [List.append_assoc] at e
      have := List.append_cancel_left e
      cases this; simp [Dir.names]
    · exact List.mem_cons_of_mem _ (ih h)

/-- The table holds exactly the directories with an ignore file. -/
theorem table_read {d : Dir} (ok : d.Ok) (at' q : List Seg) :
    at' ++ q ∈ d.table at' ↔ (d.read (q ++ [Dir.gitignore])).isSome := by
  induction d generalizing at' q with
  | nil => simp [Dir.table, Dir.read]
  | file s b r ih =>
    simp only [Dir.table, List.mem_append, Dir.read]
    by_cases hq : q ++ [Dir.gitignore] = [s]
    · rw [if_pos hq]
      cases q with
      | nil => cases hq; simp
      | cons x q => simp at hq
    · rw [if_neg hq, ← ih ok.2 at' q]
      constructor
      · rintro (h | h)
        · split at h
          · rename_i e
            have hz : q = [] := by simpa using h
            subst hz; exact absurd (by rw [e]; rfl) hq
          · cases h
        · exact h
      · exact .inr
  | sub s d r ihd ih =>
    simp only [Dir.table, List.mem_append]
    cases q with
    | nil =>
      simp only [List.nil_append, Dir.read, read_nil]
      have hd : ¬ at' ++ [] ∈ d.table (at' ++ [s]) := by
        intro h
        obtain ⟨q', e⟩ := table_iff _ _ _ h
        have := congrArg List.length e
        simp at this
      have h := ih ok.2.2 at' []
      simp only [List.nil_append] at h
      split
      · rename_i e
        constructor
        · rintro (h' | h')
          · exact absurd h' hd
          · obtain ⟨b, hb⟩ := Option.isSome_iff_exists.1 (h.1 h')
            exact absurd (e ▸ read_names hb) ok.1
        · intro h'; cases h'
      · rw [← h]
        exact ⟨fun h' => h'.resolve_left hd, .inr⟩
    | cons x q =>
      simp only [List.cons_append, Dir.read]
      split
      · rename_i e
        subst e
        rw [← ihd ok.2.1 (at' ++ [x]) q]
        constructor
        · rintro (h | h)
          · simpa using h
          · exact absurd (names_table h) ok.1
        · intro h; exact .inl (by simpa using h)
      · rename_i e
        have h := ih ok.2.2 at' (x :: q)
        simp only [List.cons_append] at h
        rw [← h]
        constructor
        · rintro (h' | h')
          · obtain ⟨q', e'⟩ := table_iff _ _ _ h'
            rw [List.append_assoc] at e'
            have := List.append_cancel_left e'
            cases this; exact absurd rfl e
          · exact h'
        · exact .inr

theorem shouldIgnore_eq (excl : Excludes) {root : Dir} (ok : root.Ok) (p : List Seg) :
    shouldIgnore excl root p = rule excl root p := by
  unfold shouldIgnore rule
  have h := table_read ok [] p.dropLast
  rw [List.nil_append] at h
  change _ = match root.read (p.dropLast ++ [Dir.gitignore]) with | none => some false | some c => excl c p
  cases e : root.read (p.dropLast ++ [Dir.gitignore]) with
  | none => rw [if_neg (by rw [h, e]; simp)]
  | some c => rw [if_pos (by rw [h, e]; rfl)]

/-- The files that are compiled, as the walk of C116. -/
def selected (excl : Excludes) (root : Dir) (fs : List (List Seg × Bytes)) : List (Name × Bytes) :=
  (fs.filter fun f => rule excl root f.1 = some false).map fun f => (nameOf f.1, f.2)

theorem visit_eq (hash : Bytes → Bytes) (excl : Excludes) {root : Dir} (ok : root.Ok) (m : List (List Char × Bytes))
    (fs : List (List Seg × Bytes)) (out : Disk Name) :
    visitAll hash excl root m fs out =
      if ∀ f ∈ fs, (rule excl root f.1).isSome then compileAll hash m (selected excl root fs) out else none := by
  induction fs generalizing out with
  | nil => simp [visitAll, selected, compileAll]
  | cons f fs ih =>
    obtain ⟨p, data⟩ := f
    unfold visitAll
    rw [shouldIgnore_eq excl ok]
    cases e : rule excl root p with
    | none =>
      rw [if_neg]
      intro h; have := h (p, data) (by simp); rw [e] at this; cases this
    | some x =>
      have hall : (∀ f ∈ (p, data) :: fs, (rule excl root f.1).isSome) ↔ ∀ f ∈ fs, (rule excl root f.1).isSome := by
        rw [List.forall_mem_cons]; simp [e]
      cases x with
      | true =>
        dsimp only
        rw [ih]
        have : selected excl root ((p, data) :: fs) = selected excl root fs := by simp [selected, e]
        rw [this]
        by_cases h : ∀ f ∈ fs, (rule excl root f.1).isSome
        · rw [if_pos h, if_pos (hall.2 h)]
        · rw [if_neg h, if_neg fun h' => h (hall.1 h')]
      | false =>
        dsimp only
        have : selected excl root ((p, data) :: fs) = (nameOf p, data) :: selected excl root fs := by simp [selected, e]
        rw [this]
        unfold compileAll
        cases hc : compileFile hash m (nameOf p) data out with
        | none => simp
        | some out₁ =>
          dsimp only
          rw [ih]
          by_cases h : ∀ f ∈ fs, (rule excl root f.1).isSome
          · rw [if_pos h, if_pos (hall.2 h)]
          · rw [if_neg h, if_neg fun h' => h (hall.1 h')]

/-! ## Properties -/

/-- **C147, the walk.** The files visited are the visible files of the data directory, with their contents, each once. -/
theorem c147_walk {root : Dir} (ok : root.Ok) :
    (∀ p data, (p, data) ∈ root.walk ↔ root.read p = some data ∧ Visible p) ∧ (root.walk.map Prod.fst).Nodup := by
  refine ⟨fun p data => ?_, walk_nodup ok⟩
  induction root generalizing p with
  | nil => simp [Dir.walk, Dir.read]
  | file s b r ih =>
    have ih := ih ok.2 p
    simp only [Dir.walk, List.mem_append, Dir.read]
    by_cases hp : p = [s]
    · subst hp
      rw [if_pos rfl, visible_cons]
      have : ([s], data) ∉ r.walk := by
        intro h
        obtain ⟨x, q, e, hx⟩ := walk_nonempty h
        cases e; exact ok.1 hx
      by_cases hh : Dir.hidden s = true
      · simp [hh, this]
      · simp [hh, this, Visible, eq_comm]
    · rw [if_neg hp, ← ih]
      constructor
      · rintro (h | h)
        · split at h
          · cases h
          · simp only [List.mem_singleton, Prod.mk.injEq] at h; exact absurd h.1 hp
        · exact h
      · exact .inr
  | sub s d r ihd ih =>
    have ih := ih ok.2.2 p
    simp only [Dir.walk, List.mem_append]
    cases p with
    | nil =>
      simp only [Dir.read]
      constructor
      · rintro (h | h)
        · split at h
          · cases h
          · obtain ⟨g, _, e⟩ := List.mem_map.1 h; cases e
        · obtain ⟨x, q, e, _⟩ := walk_nonempty h; cases e
      · rintro ⟨h, _⟩; cases h
    | cons x q =>
      have ihd := ihd ok.2.1 q
      simp only [Dir.read]
      by_cases e : x = s
      · rw [if_pos e]
        subst e
        rw [visible_cons]
        have hr : (x :: q, data) ∉ r.walk := by
          intro h
          obtain ⟨y, q', e, hx⟩ := walk_nonempty h
          cases e; exact ok.1 hx
        by_cases hh : Dir.hidden x = true
        · simp [hh, hr]
        · have hh' : Dir.hidden x = false := by simpa using hh
          constructor
          · rintro (h | h)
            · rw [if_neg hh] at h
              obtain ⟨g, hg, e⟩ := List.mem_map.1 h
              cases e
              exact ⟨(ihd.1 hg).1, hh', (ihd.1 hg).2⟩
            · exact absurd h hr
          · rintro ⟨h₁, _, h₂⟩
            left
            rw [if_neg hh]
            exact List.mem_map.2 ⟨(q, data), ihd.2 ⟨h₁, h₂⟩, rfl⟩
      · rw [if_neg e, ← ih]
        constructor
        · rintro (h | h)
          · split at h
            · cases h
            · obtain ⟨g, _, e'⟩ := List.mem_map.1 h
              cases e'; exact absurd rfl e
          · exact h
        · exact .inr

/-- The parts of a path with a slash between them, beginning with the data directory. -/
theorem pathText_eq (p : List Seg) : pathText p = ['/'].intercalate ("data".toList :: p) := by
  have key : ∀ (x : Seg) (p : List Seg), ['/'].intercalate (x :: p) = x ++ p.flatMap fun s => '/' :: s := by
    intro x p
    induction p generalizing x with
    | nil => simp [List.intercalate]
    | cons y p ih =>
      have := ih y
      simp only [List.intercalate, List.intersperse, List.flatten_cons, List.flatMap_cons] at this ⊢
      rw [this]; simp
  rw [key]; rfl

/-- **C147, names.** The name under which a file is looked up in the list of checksums is its path, and its extension is
what follows the last dot of the last part of the path. -/
theorem c147_name (dir : List Seg) (s : Seg) :
    (nameOf (dir ++ [s])).text = ['/'].intercalate ("data".toList :: (dir ++ [s])) ∧
    (∀ stem ext, stem ≠ [] → '.' ∉ ext → s = stem ++ '.' :: ext →
      nameOf (dir ++ [s]) = ⟨['/'].intercalate ("data".toList :: dir) ++ '/' :: stem, some ext⟩) ∧
    ('.' ∉ s → (nameOf (dir ++ [s])).ext = none) := by
  rw [← pathText_eq, ← pathText_eq]
  have last : ((dir ++ [s]).getLast?.getD []) = s := by simp
  have drop : (dir ++ [s]).dropLast = dir := by simp
  refine ⟨?_, ?_, ?_⟩
  · unfold nameOf
    rw [last, drop]
    split
    · rename_i c a b h
      simp only [Name.text]
      rw [lastDot_join h]
      simp [pathText]
    · rfl
  · rintro stem ext h₁ h₂ rfl
    have key : ∀ stem : List Char, lastDot (stem ++ '.' :: ext) = some (stem, ext) := by
      have hn : lastDot ext = none := by
        cases h : lastDot ext with
        | none => rfl
        | some x =>
          obtain ⟨a, b⟩ := x
          exact absurd (by rw [lastDot_join h]; simp) h₂
      intro stem
      induction stem with
      | nil => simp [lastDot, hn]
      | cons c stem ih => rw [List.cons_append, lastDot, ih]
    unfold nameOf
    rw [last, drop, key]
    cases stem with
    | nil => exact absurd rfl h₁
    | cons c a => rfl
  · intro h
    unfold nameOf
    rw [last]
    split
    · rename_i c a b e
      exact absurd (by rw [lastDot_join e]; simp) h
    · rfl

/-- **C147, when the library builds.** Exactly if every line of the list is well formed and every visible file that the
ignore file beside it does not exclude is a data file with an entry, a local one with its own hash, or text. Nothing
else below the data directory matters: not hidden files, not ignore files of other directories. -/
theorem c147_builds_iff {hash : Bytes → Bytes} {excl : Excludes} {lines : List (List Char)} {root : Dir} (ok : root.Ok)
    {out : Disk Name} :
    (buildTree hash excl lines root out).isSome ↔ ∃ m, parseCheckfile lines = some m ∧
      ∀ p data, root.read p = some data → Visible p → rule excl root p = some true ∨ (rule excl root p = some false ∧
        (((nameOf p).ext = some "dat".toList ∧ lookup m (nameOf p).text = some (hash data)) ∨
         ((nameOf p).ext = some "lfs".toList ∧ (lookup m (nameOf p).text).isSome) ∨
         (nameOf p).ext = some "md".toList ∨ (nameOf p).ext = some "txt".toList)) := by
  unfold buildTree
  cases hm : parseCheckfile lines with
  | none => simp
  | some m =>
    dsimp only
    have b := c116_builds_iff (hash := hash) (lines := lines) (files := selected excl root root.walk) (out := out)
    unfold build at b
    rw [hm] at b
    simp only [Option.some.injEq, exists_eq_left'] at b ⊢
    rw [visit_eq hash excl ok]
    have w := (c147_walk ok).1
    constructor
    · intro h p data hr hv
      split at h
      · rename_i hall
        have hw := (w p data).2 ⟨hr, hv⟩
        have hs := hall _ hw
        cases e : rule excl root p with
        | none => rw [e] at hs; cases hs
        | some x =>
          cases x with
          | true => exact .inl rfl
          | false =>
            exact .inr ⟨rfl, b.1 h (nameOf p, data)
              (List.mem_map.2 ⟨(p, data), List.mem_filter.2 ⟨hw, by simp [e]⟩, rfl⟩)⟩
      · cases h
    · intro h
      rw [if_pos]
      · rw [b]
        intro f hf
        obtain ⟨⟨p, data⟩, hg, rfl⟩ := List.mem_map.1 hf
        obtain ⟨hg, hf⟩ := List.mem_filter.1 hg
        obtain ⟨h₁, h₂⟩ := (w p data).1 hg
        rcases h p data h₁ h₂ with e | ⟨_, e⟩
        · simp [e] at hf
        · exact e
      · rintro ⟨p, data⟩ hg
        obtain ⟨h₁, h₂⟩ := (w p data).1 hg
        rcases h p data h₁ h₂ with e | ⟨e, _⟩ <;> rw [e] <;> rfl

/-- **C147, what is embedded.** When the library builds, a visible local data file that is not ignored is embedded with
its own contents and the checksum of the list, for every order of the entries and whatever a former build left, unless
another such data file differs only in its extension (C116 has the witness). -/
theorem c147_embedded {hash : Bytes → Bytes} {excl : Excludes} {lines : List (List Char)} {root : Dir}
    (ok : root.Ok) {m : List (List Char × Bytes)} (hm : parseCheckfile lines = some m) {out out' : Disk Name}
    (h : buildTree hash excl lines root out = some out') {p : List Seg} {data : Bytes} (hr : root.read p = some data)
    (hv : Visible p) (hi : rule excl root p = some false) {stem : List Char}
    (hn : nameOf p = ⟨stem, some "dat".toList⟩)
    (alone : ∀ q data', root.read q = some data' → Visible q → rule excl root q = some false → (nameOf q).IsData →
      (nameOf q).stem = stem → q = p) :
    lookup m (stem ++ ".dat".toList) = some (hash data) ∧ embedded out' stem = some (hash data, data) ∧
      get hash data (hash data) = some data := by
  have w := (c147_walk ok).1
  have nd := (c147_walk ok).2
  unfold buildTree at h
  rw [hm] at h
  dsimp only at h
  rw [visit_eq hash excl ok] at h
  split at h
  · have hw := (w p data).2 ⟨hr, hv⟩
    obtain ⟨pre, post, e⟩ := List.append_of_mem hw
    have hs : selected excl root root.walk =
        selected excl root pre ++ (⟨stem, some "dat".toList⟩, data) :: selected excl root post := by
      rw [e]; simp [selected, hi, hn]
    have hb : build hash lines
        (selected excl root pre ++ (⟨stem, some "dat".toList⟩, data) :: selected excl root post) out = some out' := by
      unfold build; rw [hm, ← hs]; exact h
    refine c116_dat_partial hm hb ?_
    intro f hf hd hst
    obtain ⟨⟨q, data'⟩, hg, rfl⟩ := List.mem_map.1 hf
    obtain ⟨hg, hf⟩ := List.mem_filter.1 hg
    obtain ⟨h₁, h₂⟩ := (w q data').1 (by rw [e]; simp [hg])
    have hq := alone q data' h₁ h₂ (by simpa using hf) hd hst
    subst hq
    rw [e, List.map_append, List.map_cons] at nd
    have := (List.nodup_cons.1 (List.nodup_append.1 nd).2.1).1
    exact this (List.mem_map.2 ⟨(q, data'), hg, rfl⟩)
  · cases h

/-! ## Concrete cases -/

/-- A directory with a checked file, a text, a hidden file, a hidden directory, and a directory whose ignore file
excludes a file without extension. -/
def exRoot : Dir :=
  .file "a.dat".toList [1, 2] <| .file "README.md".toList [3] <| .file ".x".toList [4] <|
  .sub ".git".toList (.file "HEAD".toList [5] .nil) <|
  .sub "sub".toList (.file ".gitignore".toList [6] <| .file "tmp".toList [7] <| .file "b.dat".toList [8] .nil) .nil

def exExcl : Excludes := fun _ p => some (decide (p.getLast? = some "tmp".toList))

example : exRoot.Ok := by
  simp [exRoot, Dir.Ok, Dir.names]

example : exRoot.walk.map (fun f => (pathText f.1, f.2)) =
    [("data/a.dat".toList, [1, 2]), ("data/README.md".toList, [3]), ("data/sub/tmp".toList, [7]),
     ("data/sub/b.dat".toList, [8])] := by decide +kernel

example : rule exExcl exRoot ["sub".toList, "tmp".toList] = some true ∧
    rule exExcl exRoot ["sub".toList, "b.dat".toList] = some false ∧ rule exExcl exRoot ["a.dat".toList] = some false := by
  decide +kernel

def exHash (b : Bytes) : Bytes := (b ++ List.replicate 32 0).take 32

/-- It builds, and both data files are embedded. -/
example : ((buildTree exHash exExcl
      [b3line (exHash [1, 2]) "data/a.dat".toList, b3line (exHash [8]) "data/sub/b.dat".toList] exRoot
      (fun _ => none)).map fun out =>
      ((embedded out "data/a".toList).map (·.2), (embedded out "data/sub/b".toList).map (·.2))) =
    some (some [1, 2], some [8]) := by decide +kernel

/-- Without the entry of a file it does not. -/
example : (buildTree exHash exExcl [b3line (exHash [1, 2]) "data/a.dat".toList] exRoot (fun _ => none)).isNone := by
  decide +kernel

end Verif.Params
