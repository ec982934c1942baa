import Verif.Params.Build

/-!
# C135: what is generated and published is what programs load

`manta-pay/src/bin/generate_parameters.rs` writes the parameters, `manta-parameters` publishes the files, and
`manta-pay/src/parameters.rs` loads them. Samplers, circuit compilers and the encoders of the single values are
parameters. Not modelled: writes that fail half way (a full disk), and directories that cannot be created.
-/

namespace Verif.Params

/-! ## The values -/

/-- The parameters that are stored in files of their own. -/
inductive Part where
  | groupGenerator | utxoCommitment | incoming | lightIncoming | viewingKey | itemHash | nullifierCommitment | outgoing
  | partition | schnorrHash | accumulator
deriving DecidableEq, Repr

/-- The three circuits. -/
inductive Shape where
  | toPrivate | privateTransfer | toPublic
deriving DecidableEq, Repr

/-- `BaseParameters`, manta-accounting/src/transfer/utxo/protocol.rs:650-700. -/
structure Base (T : Part → Type) where
  groupGenerator : T .groupGenerator
  utxoCommitment : T .utxoCommitment
  incoming : T .incoming
  lightIncoming : T .lightIncoming
  viewingKey : T .viewingKey
  itemHash : T .itemHash
  nullifierCommitment : T .nullifierCommitment
  outgoing : T .outgoing

/-- `Parameters`, protocol.rs:860-880. -/
structure Pars (T : Part → Type) where
  base : Base T
  partition : T .partition
  schnorrHash : T .schnorrHash

/-- `MultiProvingContext` and `MultiVerifyingContext`. -/
structure Multi (α : Type) where
  toPrivate : α
  privateTransfer : α
  toPublic : α

/-- What `generate` and `load_parameters` return. -/
structure Made (T : Part → Type) (PC VC : Type) where
  proving : Multi PC
  verifying : Multi VC
  pars : Pars T
  accumulator : T .accumulator

/-! ## Generation -/

variable {T : Part → Type} {PC VC Rng Seed : Type}

/-- Randomness, samplers, and the compilers of the circuits with their setup. -/
structure Gen (T : Part → Type) (PC VC Rng Seed : Type) where
  seed : Seed → Rng
  part : (p : Part) → Rng → T p × Rng
  context : Shape → Pars T → T .accumulator → Rng → Option (PC × VC × Rng)

/-- `BaseParameters::sample`, protocol.rs:795-826. -/
def Gen.base (G : Gen T PC VC Rng Seed) (r : Rng) : Base T × Rng :=
  let (a, r) := G.part .groupGenerator r
  let (b, r) := G.part .utxoCommitment r
  let (c, r) := G.part .incoming r
  let (d, r) := G.part .lightIncoming r
  let (e, r) := G.part .viewingKey r
  let (f, r) := G.part .itemHash r
  let (g, r) := G.part .nullifierCommitment r
  let (h, r) := G.part .outgoing r
  (⟨a, b, c, d, e, f, g, h⟩, r)

/-- `Parameters::sample`, protocol.rs:1502-1521. -/
def Gen.pars (G : Gen T PC VC Rng Seed) (r : Rng) : Pars T × Rng :=
  let (a, r) := G.base r
  let (b, r) := G.part .partition r
  let (c, r) := G.part .schnorrHash r
  (⟨a, b, c⟩, r)

/-- `generate_from_seed`, manta-pay/src/parameters.rs:54-91. -/
def generate (G : Gen T PC VC Rng Seed) (s : Seed) : Option (Made T PC VC) :=
  let (ps, r) := G.pars (G.seed s)
  let (acc, r) := G.part .accumulator r
  match G.context .toPrivate ps acc r with
  | none => none
  | some (p₁, v₁, r) =>
    match G.context .privateTransfer ps acc r with
    | none => none
    | some (p₂, v₂, r) =>
      match G.context .toPublic ps acc r with
      | none => none
      | some (p₃, v₃, _) => some ⟨⟨p₁, p₂, p₃⟩, ⟨v₁, v₂, v₃⟩, ps, acc⟩

/-- `Encode` and `Decode` of the values. Decoding reads from the start of the file. -/
structure Coder (T : Part → Type) (PC VC : Type) where
  enc : (p : Part) → T p → Bytes
  dec : (p : Part) → Bytes → Option (T p)
  encP : PC → Bytes
  decP : Bytes → Option PC
  encV : VC → Bytes
  decV : Bytes → Option VC

def datFile (dir : List Char) (s : String) : Name := ⟨dir ++ s.toList, some "dat".toList⟩

def lfsFile (dir : List Char) (s : String) : Name := ⟨dir ++ s.toList, some "lfs".toList⟩

/-- The files of `main`, manta-pay/src/bin/generate_parameters.rs:67-217, in the order of writing. -/
def jobs (C : Coder T PC VC) (dir : List Char) (m : Made T PC VC) : List (Name × Bytes) :=
  [(datFile dir "/parameters/group-generator", C.enc .groupGenerator m.pars.base.groupGenerator),
   (datFile dir "/parameters/utxo-commitment-scheme", C.enc .utxoCommitment m.pars.base.utxoCommitment),
   (datFile dir "/parameters/incoming-base-encryption-scheme", C.enc .incoming m.pars.base.incoming),
   (datFile dir "/parameters/light-incoming-base-encryption-scheme", C.enc .lightIncoming m.pars.base.lightIncoming),
   (datFile dir "/parameters/viewing-key-derivation-function", C.enc .viewingKey m.pars.base.viewingKey),
   (datFile dir "/parameters/utxo-accumulator-item-hash", C.enc .itemHash m.pars.base.itemHash),
   (datFile dir "/parameters/nullifier-commitment-scheme", C.enc .nullifierCommitment m.pars.base.nullifierCommitment),
   (datFile dir "/parameters/outgoing-base-encryption-scheme", C.enc .outgoing m.pars.base.outgoing),
   (datFile dir "/parameters/address-partition-function", C.enc .partition m.pars.partition),
   (datFile dir "/parameters/schnorr-hash-function", C.enc .schnorrHash m.pars.schnorrHash),
   (datFile dir "/parameters/utxo-accumulator-model", C.enc .accumulator m.accumulator),
   (lfsFile dir "/proving/to-private", C.encP m.proving.toPrivate),
   (datFile dir "/verifying/to-private", C.encV m.verifying.toPrivate),
   (lfsFile dir "/proving/private-transfer", C.encP m.proving.privateTransfer),
   (datFile dir "/verifying/private-transfer", C.encV m.verifying.privateTransfer),
   (lfsFile dir "/proving/to-public", C.encP m.proving.toPublic),
   (datFile dir "/verifying/to-public", C.encV m.verifying.toPublic)]

/-- Writing them: each file is opened with `create` and `write`, hence not truncated, and the first one that cannot be
opened ends the program. -/
def writeAll (wr : Name → Bool) : List (Name × Bytes) → Disk Name → Disk Name × Bool
  | [], d => (d, true)
  | (n, b) :: js, d =>
    if wr n then writeAll wr js (d.set n ((openWrite (d n)).write b).contents) else (d, false)

/-- `main`, generate_parameters.rs:36-220, for a directory. `none` if the generation fails. -/
def generateMain (G : Gen T PC VC Rng Seed) (C : Coder T PC VC) (s : Seed) (wr : Name → Bool) (dir : List Char)
    (d : Disk Name) : Option (Disk Name × Bool) :=
  (generate G s).map fun m => writeAll wr (jobs C dir m) d

/-! ## Loading -/

/-- `load_get_object`, parameters.rs:228-237, and the loading of verifying contexts, 201-226: checksum, then decoding;
`none` is a panic (or an included file that is missing). -/
def getObject {α : Type} (hash : Bytes → Bytes) (out : Disk Name) (stem : String) (dec : Bytes → Option α) : Option α :=
  match embedded out stem.toList with
  | none => none
  | some (c, b) =>
    match get hash b c with
    | none => none
    | some b => dec b

/-- `load_transfer_parameters`, parameters.rs:239-260, with the paths of manta-parameters/src/lib.rs:319-371. -/
def loadTransferParameters (hash : Bytes → Bytes) (C : Coder T PC VC) (out : Disk Name) : Option (Pars T) := do
  let a ← getObject hash out "data/pay/parameters/group-generator" (C.dec .groupGenerator)
  let b ← getObject hash out "data/pay/parameters/utxo-commitment-scheme" (C.dec .utxoCommitment)
  let c ← getObject hash out "data/pay/parameters/incoming-base-encryption-scheme" (C.dec .incoming)
  let d ← getObject hash out "data/pay/parameters/light-incoming-base-encryption-scheme" (C.dec .lightIncoming)
  let e ← getObject hash out "data/pay/parameters/viewing-key-derivation-function" (C.dec .viewingKey)
  let f ← getObject hash out "data/pay/parameters/utxo-accumulator-item-hash" (C.dec .itemHash)
  let g ← getObject hash out "data/pay/parameters/nullifier-commitment-scheme" (C.dec .nullifierCommitment)
  let h ← getObject hash out "data/pay/parameters/outgoing-base-encryption-scheme" (C.dec .outgoing)
  let i ← getObject hash out "data/pay/parameters/address-partition-function" (C.dec .partition)
  let j ← getObject hash out "data/pay/parameters/schnorr-hash-function" (C.dec .schnorrHash)
  pure ⟨⟨a, b, c, d, e, f, g, h⟩, i, j⟩

/-- The verifying contexts, parameters.rs:124-128, paths of lib.rs:394-411. -/
def loadVerifying (hash : Bytes → Bytes) (C : Coder T PC VC) (out : Disk Name) : Option (Multi VC) := do
  let a ← getObject hash out "data/pay/verifying/to-private" C.decV
  let b ← getObject hash out "data/pay/verifying/private-transfer" C.decV
  let c ← getObject hash out "data/pay/verifying/to-public" C.decV
  pure ⟨a, b, c⟩

/-- The checksum of a downloadable file, `define_lfs!`, lib.rs:282-310. -/
def lfsChecksum (out : Disk Name) (stem : String) : Option Bytes := out ⟨stem.toList, some "checksum".toList⟩

/-- `load_proving_context` (`keep = false`) and `try_load_proving_context` (`keep = true`), parameters.rs:134-172, paths
of lib.rs:374-391. `none` is a panic. -/
def loadProving (hash : Bytes → Bytes) (C : Coder T PC VC) (out : Disk Name) (keep : Bool) (wr : Name → Bool)
    (dir : List Char) (web : Multi Web) (d : Disk Name) : Disk Name × Option (Multi PC) :=
  match lfsChecksum out "data/pay/proving/to-private", lfsChecksum out "data/pay/proving/private-transfer",
      lfsChecksum out "data/pay/proving/to-public" with
  | some c₁, some c₂, some c₃ =>
    match loadContexts (fun w a d => if keep then downloadIfInvalid hash wr w a.path a.checksum d
        else download hash wr w a.path a.checksum d) C.decP
        [(⟨datFile dir "/to-private", c₁⟩, web.toPrivate),
         (⟨datFile dir "/private-transfer", c₂⟩, web.privateTransfer),
         (⟨datFile dir "/to-public", c₃⟩, web.toPublic)] d with
    | (d', .ok [a, b, c]) => (d', some ⟨a, b, c⟩)
    | (d', _) => (d', none)
  | _, _, _ => (d, none)

/-- `load_parameters`, parameters.rs:107-132; with `keep` the variant that uses `try_load_proving_context`. -/
def loadParameters (hash : Bytes → Bytes) (C : Coder T PC VC) (out : Disk Name) (keep : Bool) (wr : Name → Bool)
    (dir : List Char) (web : Multi Web) (d : Disk Name) : Disk Name × Option (Made T PC VC) :=
  match loadProving hash C out keep wr dir web d with
  | (d', none) => (d', none)
  | (d', some p) => (d', do
      let v ← loadVerifying hash C out
      let ps ← loadTransferParameters hash C out
      let acc ← getObject hash out "data/pay/parameters/utxo-accumulator-model" (C.dec .accumulator)
      pure ⟨p, v, ps, acc⟩)

/-! ## Specification -/

/-- Decoding gives back what was encoded, whatever follows. -/
structure Coder.Reads (C : Coder T PC VC) : Prop where
  part : ∀ p x r, C.dec p (C.enc p x ++ r) = some x
  proving : ∀ x r, C.decP (C.encP x ++ r) = some x
  verifying : ∀ x r, C.decV (C.encV x ++ r) = some x

def pay : List Char := "data/pay".toList

/-- A repository that publishes the generated files as they are on the disk: they are part of the walk, no two data files
differ only in their extension, and the list has the hashes of the downloadable files. -/
structure Publishes (hash : Bytes → Bytes) (lines : List (List Char)) (files : List (Name × Bytes))
    (names : List Name) (disk : Disk Name) : Prop where
  walked : ∀ n ∈ names, ∀ b, disk n = some b → (n, b) ∈ files
  once : ∀ f ∈ files, ∀ g ∈ files, f.1.IsData → g.1.IsData → f.1.stem = g.1.stem → f = g
  list : ∀ l, parseCheckfile lines = some l → ∀ f ∈ files, f.1.ext = some "lfs".toList →
    lookup l f.1.text = some (hash f.2)

/-- The file names below the directory. -/
def suffixes : List Name :=
  ["/parameters/group-generator", "/parameters/utxo-commitment-scheme", "/parameters/incoming-base-encryption-scheme",
    "/parameters/light-incoming-base-encryption-scheme", "/parameters/viewing-key-derivation-function",
    "/parameters/utxo-accumulator-item-hash", "/parameters/nullifier-commitment-scheme",
    "/parameters/outgoing-base-encryption-scheme", "/parameters/address-partition-function",
    "/parameters/schnorr-hash-function", "/parameters/utxo-accumulator-model"].map (datFile []) ++
  [lfsFile [] "/proving/to-private", datFile [] "/verifying/to-private", lfsFile [] "/proving/private-transfer",
    datFile [] "/verifying/private-transfer", lfsFile [] "/proving/to-public", datFile [] "/verifying/to-public"]

/-! ## Lemmas -/

theorem jobs_names (C : Coder T PC VC) (dir : List Char) (m : Made T PC VC) :
    (jobs C dir m).map Prod.fst = suffixes.map fun n => ⟨dir ++ n.stem, n.ext⟩ := rfl

theorem suffixes_nodup : suffixes.Nodup := by decide +kernel

theorem jobs_nodup (C : Coder T PC VC) (dir : List Char) (m : Made T PC VC) : ((jobs C dir m).map Prod.fst).Nodup := by
  rw [jobs_names]
  refine List.Pairwise.map _ ?_ suffixes_nodup
  rintro ⟨a, x⟩ ⟨b, y⟩ h e
  simp only [Name.mk.injEq, List.append_cancel_left_eq] at e
  exact h (by rw [e.1, e.2])

theorem write_contents (old : Option Bytes) (b : Bytes) :
    ((openWrite old).write b).contents = overlay b (old.getD []) := by
  simp [openWrite, write_start, overlay]

theorem overlay_idem (b o : Bytes) : overlay b (overlay b o) = overlay b o := by simp [overlay]

theorem writeAll_spec {wr : Name → Bool} {js : List (Name × Bytes)} (hn : (js.map Prod.fst).Nodup) {d d' : Disk Name}
    (h : writeAll wr js d = (d', true)) :
    (∀ j ∈ js, wr j.1 = true ∧ d' j.1 = some (overlay j.2 ((d j.1).getD []))) ∧
      ∀ n, n ∉ js.map Prod.fst → d' n = d n := by
  induction js generalizing d with
  | nil => cases h; exact ⟨fun _ h => absurd h (by simp), fun _ _ => rfl⟩
  | cons j js ih =>
    obtain ⟨n, b⟩ := j
    simp only [List.map_cons, List.nodup_cons] at hn
    unfold writeAll at h
    split at h
    · rename_i hw
      obtain ⟨i₁, i₂⟩ := ih hn.2 h
      rw [write_contents] at i₁ i₂
      refine ⟨fun j hj => ?_, fun k hk => ?_⟩
      · rcases List.mem_cons.1 hj with rfl | hj
        · exact ⟨hw, (i₂ _ hn.1).trans (Disk.set_same _ _ _)⟩
        · have hne : j.1 ≠ n := fun e => hn.1 (e ▸ List.mem_map_of_mem hj)
          rw [(i₁ j hj).2, Disk.set_other _ hne]
          exact ⟨(i₁ j hj).1, rfl⟩
      · simp only [List.map_cons, List.mem_cons, not_or] at hk
        rw [i₂ k hk.2, Disk.set_other _ hk.1]
    · cases h

theorem writeAll_fixed {wr : Name → Bool} {js : List (Name × Bytes)} {d : Disk Name}
    (h : ∀ j ∈ js, wr j.1 = true ∧ ∃ o, d j.1 = some (overlay j.2 o)) : writeAll wr js d = (d, true) := by
  induction js with
  | nil => rfl
  | cons j js ih =>
    obtain ⟨n, b⟩ := j
    obtain ⟨hw, o, ho⟩ := h (n, b) (by simp)
    simp only at hw ho
    unfold writeAll
    rw [if_pos hw, write_contents, ho, Option.getD_some, overlay_idem, Disk.set_eq d ho]
    exact ih fun j hj => h j (by simp [hj])

theorem overlay_append (b o : Bytes) : ∃ r, overlay b o = b ++ r := ⟨_, rfl⟩

/-- The last data file with a stem. -/
theorem last_data {fs : List (Name × Bytes)} {stem : List Char} (h : ∃ f ∈ fs, f.1.IsData ∧ f.1.stem = stem) :
    ∃ pre f post, fs = pre ++ f :: post ∧ f.1.IsData ∧ f.1.stem = stem ∧
      ∀ g ∈ post, g.1.IsData → g.1.stem ≠ stem := by
  induction fs with
  | nil => obtain ⟨f, hf, _⟩ := h; cases hf
  | cons a fs ih =>
    obtain ⟨f, hf, hfd, hfs⟩ := h
    by_cases hr : ∃ f ∈ fs, f.1.IsData ∧ f.1.stem = stem
    · obtain ⟨pre, g, post, e, hg⟩ := ih hr
      exact ⟨a :: pre, g, post, by rw [e]; rfl, hg⟩
    · rcases List.mem_cons.1 hf with rfl | hf
      · exact ⟨[], f, fs, rfl, hfd, hfs, fun g hg hgd hgs => hr ⟨g, hg, hgd, hgs⟩⟩
      · exact absurd ⟨f, hf, hfd, hfs⟩ hr

/-- What the library embeds for a published local file. -/
theorem embedded_published {hash : Bytes → Bytes} {lines : List (List Char)} {files : List (Name × Bytes)}
    {names : List Name} {disk out₀ out : Disk Name} (hp : Publishes hash lines files names disk)
    (hb : build hash lines files out₀ = some out) {stem : List Char} {b : Bytes}
    (hn : (⟨stem, some "dat".toList⟩ : Name) ∈ names) (hd : disk ⟨stem, some "dat".toList⟩ = some b) :
    embedded out stem = some (hash b, b) := by
  have hf := hp.walked _ hn _ hd
  cases hm : parseCheckfile lines with
  | none => simp [build, hm] at hb
  | some l =>
    obtain ⟨pre, g, post, e, hgd, hgs, hl⟩ := last_data (stem := stem) ⟨_, hf, .inl rfl, rfl⟩
    have hg : g = (⟨stem, some "dat".toList⟩, b) := hp.once g (by rw [e]; simp) _ hf hgd (.inl rfl) hgs
    rw [e, hg] at hb
    exact (c116_dat_partial hm hb hl).2.1

/-- The checksum of a published downloadable file. -/
theorem checksum_published {hash : Bytes → Bytes} {lines : List (List Char)} {files : List (Name × Bytes)}
    {names : List Name} {disk out₀ out : Disk Name} (hp : Publishes hash lines files names disk)
    (hb : build hash lines files out₀ = some out) {stem : List Char} {b : Bytes}
    (hn : (⟨stem, some "lfs".toList⟩ : Name) ∈ names) (hd : disk ⟨stem, some "lfs".toList⟩ = some b) :
    out ⟨stem, some "checksum".toList⟩ = some (hash b) := by
  have hf := hp.walked _ hn _ hd
  cases hm : parseCheckfile lines with
  | none => simp [build, hm] at hb
  | some l =>
    obtain ⟨pre, g, post, e, hgd, hgs, hl⟩ := last_data (stem := stem) ⟨_, hf, .inr rfl, rfl⟩
    have hg : g = (⟨stem, some "lfs".toList⟩, b) := hp.once g (by rw [e]; simp) _ hf hgd (.inr rfl) hgs
    rw [e, hg] at hb
    obtain ⟨c, h₁, _, h₃⟩ := c116_lfs_partial hm hb hl
    rw [h₃]
    exact h₁.symm.trans (hp.list l hm _ hf rfl)

/-- Loading a published local file gives the generated value. -/
theorem getObject_published {α : Type} {hash : Bytes → Bytes} {lines : List (List Char)}
    {files : List (Name × Bytes)} {js : List (Name × Bytes)} {wr : Name → Bool} {old disk out₀ out : Disk Name}
    (hn : (js.map Prod.fst).Nodup) (hw : writeAll wr js old = (disk, true))
    (hp : Publishes hash lines files (js.map Prod.fst) disk) (hb : build hash lines files out₀ = some out)
    {stem : String} {b : Bytes} {x : α} {dec : Bytes → Option α} (hdec : ∀ r, dec (b ++ r) = some x)
    (hj : ((⟨stem.toList, some "dat".toList⟩ : Name), b) ∈ js) : getObject hash out stem dec = some x := by
  have hd := ((writeAll_spec hn hw).1 _ hj).2
  have he := embedded_published hp hb (List.mem_map_of_mem hj) hd
  obtain ⟨r, hr⟩ := overlay_append b ((old ⟨stem.toList, some "dat".toList⟩).getD [])
  unfold getObject
  rw [he]
  simp only [get, verify, beq_self_eq_true, if_true]
  rw [hr, hdec]

/-- A published library loads all local values. -/
theorem local_published {C : Coder T PC VC} (hC : C.Reads) {hash : Bytes → Bytes} {lines : List (List Char)}
    {files : List (Name × Bytes)} {m : Made T PC VC} {wr : Name → Bool} {old disk out₀ out : Disk Name}
    (hw : writeAll wr (jobs C pay m) old = (disk, true))
    (hp : Publishes hash lines files ((jobs C pay m).map Prod.fst) disk) (hb : build hash lines files out₀ = some out) :
    loadVerifying hash C out = some m.verifying ∧ loadTransferParameters hash C out = some m.pars ∧
      getObject hash out "data/pay/parameters/utxo-accumulator-model" (C.dec .accumulator) = some m.accumulator := by
  have hn := jobs_nodup C pay m
  have part : ∀ (p : Part) (x : T p) (stem : String),
      ((⟨stem.toList, some "dat".toList⟩ : Name), C.enc p x) ∈ jobs C pay m →
      getObject hash out stem (C.dec p) = some x := fun p x stem hj =>
    getObject_published hn hw hp hb (hC.part p x) hj
  have ver : ∀ (x : VC) (stem : String), ((⟨stem.toList, some "dat".toList⟩ : Name), C.encV x) ∈ jobs C pay m →
      getObject hash out stem C.decV = some x := fun x stem hj =>
    getObject_published hn hw hp hb (hC.verifying x) hj
  have e : ∀ (a b : String), pay ++ a.toList = b.toList → datFile pay a = ⟨b.toList, some "dat".toList⟩ := by
    intro a b h
    simp [datFile, h]
  have at' : ∀ {i : Nat} {a : String} (b : String) {c : Bytes},
      (jobs C pay m)[i]? = some (datFile pay a, c) → pay ++ a.toList = b.toList →
      ((⟨b.toList, some "dat".toList⟩ : Name), c) ∈ jobs C pay m := by
    intro i a b c h h'
    rw [← e a b h']
    exact List.mem_of_getElem? h
  refine ⟨?_, ?_, ?_⟩
  · simp only [loadVerifying,
      ver m.verifying.toPrivate "data/pay/verifying/to-private" (at' (i := 12) _ rfl (by decide +kernel)),
      ver m.verifying.privateTransfer "data/pay/verifying/private-transfer" (at' (i := 14) _ rfl (by decide +kernel)),
      ver m.verifying.toPublic "data/pay/verifying/to-public" (at' (i := 16) _ rfl (by decide +kernel))]
    rfl
  · simp only [loadTransferParameters,
      part .groupGenerator m.pars.base.groupGenerator
        "data/pay/parameters/group-generator" (at' (i := 0) _ rfl (by decide +kernel)),
      part .utxoCommitment m.pars.base.utxoCommitment
        "data/pay/parameters/utxo-commitment-scheme" (at' (i := 1) _ rfl (by decide +kernel)),
      part .incoming m.pars.base.incoming
        "data/pay/parameters/incoming-base-encryption-scheme" (at' (i := 2) _ rfl (by decide +kernel)),
      part .lightIncoming m.pars.base.lightIncoming
        "data/pay/parameters/light-incoming-base-encryption-scheme" (at' (i := 3) _ rfl (by decide +kernel)),
      part .viewingKey m.pars.base.viewingKey
        "data/pay/parameters/viewing-key-derivation-function" (at' (i := 4) _ rfl (by decide +kernel)),
      part .itemHash m.pars.base.itemHash
        "data/pay/parameters/utxo-accumulator-item-hash" (at' (i := 5) _ rfl (by decide +kernel)),
      part .nullifierCommitment m.pars.base.nullifierCommitment
        "data/pay/parameters/nullifier-commitment-scheme" (at' (i := 6) _ rfl (by decide +kernel)),
      part .outgoing m.pars.base.outgoing
        "data/pay/parameters/outgoing-base-encryption-scheme" (at' (i := 7) _ rfl (by decide +kernel)),
      part .partition m.pars.partition
        "data/pay/parameters/address-partition-function" (at' (i := 8) _ rfl (by decide +kernel)),
      part .schnorrHash m.pars.schnorrHash
        "data/pay/parameters/schnorr-hash-function" (at' (i := 9) _ rfl (by decide +kernel))]
    rfl
  · exact part .accumulator m.accumulator _ (at' (i := 10) _ rfl (by decide +kernel))

/-- The checksum of a published proving context. -/
theorem lfs_published {C : Coder T PC VC} {hash : Bytes → Bytes} {lines : List (List Char)}
    {files : List (Name × Bytes)} {m : Made T PC VC} {wr : Name → Bool} {old disk out₀ out : Disk Name}
    (hw : writeAll wr (jobs C pay m) old = (disk, true))
    (hp : Publishes hash lines files ((jobs C pay m).map Prod.fst) disk) (hb : build hash lines files out₀ = some out)
    {i : Nat} {a : String} (b : String) {x : Bytes} (hj : (jobs C pay m)[i]? = some (lfsFile pay a, x))
    (hs : pay ++ a.toList = b.toList) :
    ∃ r, disk (lfsFile pay a) = some (x ++ r) ∧ lfsChecksum out b = some (hash (x ++ r)) := by
  have hm := List.mem_of_getElem? hj
  have hd := ((writeAll_spec (jobs_nodup C pay m) hw).1 _ hm).2
  have hn : lfsFile pay a = ⟨b.toList, some "lfs".toList⟩ := by simp [lfsFile, hs]
  exact ⟨_, hd, checksum_published hp hb (by rw [← hn]; exact List.mem_map_of_mem hm) (by rw [← hn]; exact hd)⟩

theorem dir_nodup (dir : List Char) :
    [datFile dir "/to-private", datFile dir "/private-transfer", datFile dir "/to-public"].Nodup := by
  simp only [datFile, List.nodup_cons, List.mem_cons, Name.mk.injEq, List.append_cancel_left_eq, and_true,
    List.not_mem_nil, or_false, not_or, not_false_eq_true, List.nodup_nil]
  decide +kernel

/-! ## Properties -/

variable {G : Gen T PC VC Rng Seed} {C : Coder T PC VC} {hash : Bytes → Bytes}

/-- The keys of a generation belong together and to its parameters: each pair comes from one setup of the circuit built
with exactly these parameters. The whole result is drawn from the generator of the seed, in this order, and no draw is used
twice. -/
theorem c135_together {s : Seed} {m : Made T PC VC} (h : generate G s = some m) :
    ∃ r₁ r₂ r₃ r₄ r₅, G.pars (G.seed s) = (m.pars, r₁) ∧ G.part .accumulator r₁ = (m.accumulator, r₂) ∧
      G.context .toPrivate m.pars m.accumulator r₂ = some (m.proving.toPrivate, m.verifying.toPrivate, r₃) ∧
      G.context .privateTransfer m.pars m.accumulator r₃ =
        some (m.proving.privateTransfer, m.verifying.privateTransfer, r₄) ∧
      G.context .toPublic m.pars m.accumulator r₄ = some (m.proving.toPublic, m.verifying.toPublic, r₅) := by
  unfold generate at h
  simp only at h
  split at h
  · cases h
  · rename_i h₁
    split at h
    · cases h
    · rename_i h₂
      split at h
      · cases h
      · rename_i h₃
        cases h
        exact ⟨_, _, _, _, _, rfl, rfl, h₁, h₂, h₃⟩

/-- A complete run of the generator wrote every value at the start of its own file, and no other file. Running it again
with the same seed changes nothing. -/
theorem c135_written {s : Seed} {m : Made T PC VC} (hg : generate G s = some m) {wr : Name → Bool} {dir : List Char}
    {old disk : Disk Name} (h : generateMain G C s wr dir old = some (disk, true)) :
    (∀ j ∈ jobs C dir m, ∃ r, disk j.1 = some (j.2 ++ r) ∧ r = ((old j.1).getD []).drop j.2.length) ∧
      (∀ n, n ∉ (jobs C dir m).map Prod.fst → disk n = old n) ∧
      generateMain G C s wr dir disk = some (disk, true) := by
  simp only [generateMain, hg, Option.map_some, Option.some.injEq] at h
  obtain ⟨h₁, h₂⟩ := writeAll_spec (jobs_nodup C dir m) h
  refine ⟨fun j hj => ⟨_, (h₁ j hj).2, rfl⟩, h₂, ?_⟩
  simp only [generateMain, hg, Option.map_some, Option.some.injEq]
  exact writeAll_fixed fun j hj => ⟨(h₁ j hj).1, _, (h₁ j hj).2⟩

/-- The values that a program loads from the published files are the generated ones, over whatever files the generator
ran, in whatever order the files are embedded, whatever the servers answer and whatever is in the download directory:
all of them, unless a downloaded file is a collision with the published file of the same circuit. -/
theorem c135_loaded {s : Seed} {m : Made T PC VC} (hg : generate G s = some m) (hC : C.Reads) {wr : Name → Bool}
    {old disk : Disk Name} (hw : generateMain G C s wr pay old = some (disk, true)) {lines : List (List Char)}
    {files : List (Name × Bytes)} (hp : Publishes hash lines files ((jobs C pay m).map Prod.fst) disk)
    {out₀ out : Disk Name} (hb : build hash lines files out₀ = some out) {keep : Bool} {wr' : Name → Bool}
    {dir : List Char} {web : Multi Web} {d d' : Disk Name} {x : Made T PC VC}
    (h : loadParameters hash C out keep wr' dir web d = (d', some x)) :
    x = m ∨ (x.verifying = m.verifying ∧ x.pars = m.pars ∧ x.accumulator = m.accumulator ∧
      ∃ s ∈ ["/to-private", "/private-transfer", "/to-public"], ∃ got published,
        d' (datFile dir s) = some got ∧ disk (lfsFile pay ("/proving" ++ s)) = some published ∧
          got ≠ published ∧ hash got = hash published) := by
  simp only [generateMain, hg, Option.map_some, Option.some.injEq] at hw
  obtain ⟨hv, hps, hacc⟩ := local_published hC hw hp hb
  obtain ⟨r₁, d₁, c₁⟩ := lfs_published hw hp hb (i := 11) "data/pay/proving/to-private" rfl (by decide +kernel)
  obtain ⟨r₂, d₂, c₂⟩ := lfs_published hw hp hb (i := 13) "data/pay/proving/private-transfer" rfl (by decide +kernel)
  obtain ⟨r₃, d₃, c₃⟩ := lfs_published hw hp hb (i := 15) "data/pay/proving/to-public" rfl (by decide +kernel)
  unfold loadParameters at h
  rw [hv, hps, hacc] at h
  cases hl : loadProving hash C out keep wr' dir web d with
  | mk e o =>
    cases o with
    | none => simp [hl] at h
    | some p =>
      simp only [hl, Prod.mk.injEq] at h
      obtain ⟨rfl, h⟩ := h
      have hx : x = ⟨p, m.verifying, m.pars, m.accumulator⟩ := (Option.some.inj h).symm
      subst hx
      unfold loadProving at hl
      simp only [c₁, c₂, c₃] at hl
      split at hl
      · rename_i e' a b c hc
        simp only [Prod.mk.injEq, Option.some.injEq] at hl
        obtain ⟨rfl, rfl⟩ := hl
        obtain ⟨_, hq⟩ := c115_contexts keep _ (by exact dir_nodup dir) _ _ _ hc
        obtain ⟨b₁, x₁, f₁, k₁, g₁, e₁⟩ := hq 0 (by simp)
        obtain ⟨b₂, x₂, f₂, k₂, g₂, e₂⟩ := hq 1 (by simp)
        obtain ⟨b₃, x₃, f₃, k₃, g₃, e₃⟩ := hq 2 (by simp)
        simp only [List.getElem_cons_zero, List.getElem_cons_succ, List.getElem?_cons_zero, List.getElem?_cons_succ,
          Option.some.injEq] at f₁ k₁ g₁ f₂ k₂ g₂ f₃ k₃ g₃
        subst g₁ g₂ g₃
        by_cases q₁ : b₁ = C.encP m.proving.toPrivate ++ r₁
        · by_cases q₂ : b₂ = C.encP m.proving.privateTransfer ++ r₂
          · by_cases q₃ : b₃ = C.encP m.proving.toPublic ++ r₃
            · left
              rw [q₁, hC.proving] at e₁
              rw [q₂, hC.proving] at e₂
              rw [q₃, hC.proving] at e₃
              cases e₁; cases e₂; cases e₃
              rfl
            · exact .inr ⟨rfl, rfl, rfl, "/to-public", by simp, b₃, _, f₃, d₃, q₃, k₃⟩
          · exact .inr ⟨rfl, rfl, rfl, "/private-transfer", by simp, b₂, _, f₂, d₂, q₂, k₂⟩
        · exact .inr ⟨rfl, rfl, rfl, "/to-private", by simp, b₁, _, f₁, d₁, q₁, k₁⟩
      · cases hl

/-- And loading succeeds, with the generated values, if the download directory can be written, the servers deliver the
published files, and no longer files are in the way. -/
theorem c135_loads_partial {s : Seed} {m : Made T PC VC} (hg : generate G s = some m) (hC : C.Reads) {wr : Name → Bool}
    {old disk : Disk Name} (hw : generateMain G C s wr pay old = some (disk, true)) {lines : List (List Char)}
    {files : List (Name × Bytes)} (hp : Publishes hash lines files ((jobs C pay m).map Prod.fst) disk)
    {out₀ out : Disk Name} (hb : build hash lines files out₀ = some out) {wr' : Name → Bool}
    {dir : List Char} {web : Multi Web} {d : Disk Name}
    (ready : ∀ t ∈ [("/to-private", web.toPrivate), ("/private-transfer", web.privateTransfer),
        ("/to-public", web.toPublic)], wr' (datFile dir t.1) = true ∧
      ∃ b, disk (lfsFile pay ("/proving" ++ t.1)) = some b ∧ t.2.Serves b ∧
        ∀ o, d (datFile dir t.1) = some o → o.length ≤ b.length) :
    (loadParameters hash C out false wr' dir web d).2 = some m := by
  simp only [generateMain, hg, Option.map_some, Option.some.injEq] at hw
  obtain ⟨hv, hps, hacc⟩ := local_published hC hw hp hb
  obtain ⟨r₁, d₁, c₁⟩ := lfs_published hw hp hb (i := 11) "data/pay/proving/to-private" rfl (by decide +kernel)
  obtain ⟨r₂, d₂, c₂⟩ := lfs_published hw hp hb (i := 13) "data/pay/proving/private-transfer" rfl (by decide +kernel)
  obtain ⟨r₃, d₃, c₃⟩ := lfs_published hw hp hb (i := 15) "data/pay/proving/to-public" rfl (by decide +kernel)
  obtain ⟨w₁, b₁, k₁, s₁, o₁⟩ := ready ("/to-private", web.toPrivate) (by simp)
  obtain ⟨w₂, b₂, k₂, s₂, o₂⟩ := ready ("/private-transfer", web.privateTransfer) (by simp)
  obtain ⟨w₃, b₃, k₃, s₃, o₃⟩ := ready ("/to-public", web.toPublic) (by simp)
  simp only at w₁ k₁ s₁ o₁ w₂ k₂ s₂ o₂ w₃ k₃ s₃ o₃
  have q₁ : b₁ = C.encP m.proving.toPrivate ++ r₁ := Option.some.inj (k₁.symm.trans d₁)
  have q₂ : b₂ = C.encP m.proving.privateTransfer ++ r₂ := Option.some.inj (k₂.symm.trans d₂)
  have q₃ : b₃ = C.encP m.proving.toPublic ++ r₃ := Option.some.inj (k₃.symm.trans d₃)
  have hn := dir_nodup dir
  generalize v₁ : datFile dir "/to-private" = p₁ at *
  generalize v₂ : datFile dir "/private-transfer" = p₂ at *
  generalize v₃ : datFile dir "/to-public" = p₃ at *
  simp only [List.nodup_cons, List.mem_cons, List.not_mem_nil, or_false, not_or, not_false_eq_true, List.nodup_nil,
    and_true] at hn
  obtain ⟨⟨n₁₂, n₁₃⟩, n₂₃⟩ := hn
  have t₁ := c115_complete_partial (hash := hash) (wr := wr') (d := d) (published := b₁) rfl w₁ s₁ o₁
  have t₂ := c115_complete_partial (hash := hash) (wr := wr') (d := d.set p₁ b₁) (published := b₂) rfl w₂ s₂
    (by rw [Disk.set_other _ (Ne.symm n₁₂)]; exact o₂)
  have t₃ := c115_complete_partial (hash := hash) (wr := wr') (d := (d.set p₁ b₁).set p₂ b₂) (published := b₃) rfl w₃ s₃
    (by rw [Disk.set_other _ (Ne.symm n₂₃), Disk.set_other _ (Ne.symm n₁₃)]; exact o₃)
  have z₁ : (((d.set p₁ b₁).set p₂ b₂).set p₃ b₃) p₁ = some b₁ := by
    rw [Disk.set_other _ n₁₃, Disk.set_other _ n₁₂, Disk.set_same]
  have z₂ : (((d.set p₁ b₁).set p₂ b₂).set p₃ b₃) p₂ = some b₂ := by rw [Disk.set_other _ n₂₃, Disk.set_same]
  have z₃ : (((d.set p₁ b₁).set p₂ b₂).set p₃ b₃) p₃ = some b₃ := Disk.set_same _ _ _
  have hl : loadProving hash C out false wr' dir web d = (((d.set p₁ b₁).set p₂ b₂).set p₃ b₃, some m.proving) := by
    unfold loadProving
    simp only [c₁, c₂, c₃, v₁, v₂, v₃, ← q₁, ← q₂, ← q₃, loadContexts, fetchAll, t₁, t₂, t₃, Bool.false_eq_true,
      if_false, List.map_cons, List.map_nil, decodeAll, z₁, z₂, z₃, Option.bind_some]
    simp only [q₁, q₂, q₃, hC.proving]
  simp only [loadParameters, hl, hv, hps, hacc]
  rfl

/-- The files that are included in the library. -/
def localStems : List String :=
  [
    "data/pay/parameters/group-generator", "data/pay/parameters/utxo-commitment-scheme",
    "data/pay/parameters/incoming-base-encryption-scheme", "data/pay/parameters/light-incoming-base-encryption-scheme",
    "data/pay/parameters/viewing-key-derivation-function", "data/pay/parameters/utxo-accumulator-item-hash",
    "data/pay/parameters/nullifier-commitment-scheme", "data/pay/parameters/outgoing-base-encryption-scheme",
    "data/pay/parameters/address-partition-function", "data/pay/parameters/schnorr-hash-function",
    "data/pay/parameters/utxo-accumulator-model", "data/pay/verifying/to-private",
    "data/pay/verifying/private-transfer", "data/pay/verifying/to-public"]

theorem getObject_checked {α : Type} {hash : Bytes → Bytes} {out : Disk Name} {stem : String} {dec : Bytes → Option α} {x : α}
    (h : getObject hash out stem dec = some x) : ∃ c b, embedded out stem.toList = some (c, b) ∧ hash b = c := by
  unfold getObject at h
  cases he : embedded out stem.toList with
  | none => rw [he] at h; cases h
  | some cb =>
    obtain ⟨c, b⟩ := cb
    refine ⟨c, b, rfl, ?_⟩
    simp only [he, get] at h
    by_cases hc : verify hash b c = true
    · simpa [verify] using hc
    · rw [if_neg hc] at h; cases h

/-- Whatever was included in the library: nothing is loaded unless every file of parameters and verifying contexts has the
checksum that was included with it. -/
theorem c135_checked {keep : Bool} {wr : Name → Bool} {dir : List Char} {web : Multi Web} {d d' out : Disk Name}
    {m : Made T PC VC} (h : loadParameters hash C out keep wr dir web d = (d', some m)) :
    ∀ stem ∈ localStems, ∃ c b, embedded out stem.toList = some (c, b) ∧ hash b = c := by
  unfold loadParameters at h
  split at h
  · cases h
  · simp only [Prod.mk.injEq, Option.bind_eq_bind, Option.bind_eq_some_iff] at h
    obtain ⟨-, v, hv, ps, hps, acc, hacc, -⟩ := h
    simp only [loadVerifying, Option.bind_eq_bind, Option.bind_eq_some_iff] at hv
    obtain ⟨_, v1, _, v2, _, v3, -⟩ := hv
    simp only [loadTransferParameters, Option.bind_eq_bind, Option.bind_eq_some_iff] at hps
    obtain ⟨_, a1, _, a2, _, a3, _, a4, _, a5, _, a6, _, a7, _, a8, _, a9, _, a10, -⟩ := hps
    intro stem hs
    simp only [localStems, List.mem_cons, List.not_mem_nil, or_false] at hs
    rcases hs with rfl | rfl | rfl | rfl | rfl | rfl | rfl | rfl | rfl | rfl | rfl | rfl | rfl | rfl
    · exact getObject_checked a1
    · exact getObject_checked a2
    · exact getObject_checked a3
    · exact getObject_checked a4
    · exact getObject_checked a5
    · exact getObject_checked a6
    · exact getObject_checked a7
    · exact getObject_checked a8
    · exact getObject_checked a9
    · exact getObject_checked a10
    · exact getObject_checked hacc
    · exact getObject_checked v1
    · exact getObject_checked v2
    · exact getObject_checked v3

/-- The gap: loading the parameters (`load_parameters`) over a directory with valid proving contexts, when a server breaks off,
panics and leaves the first of them damaged. -/
theorem c135_destroyed_violated {wr : Name → Bool} {dir : List Char} {d out : Disk Name} {c₁ c₂ c₃ good sent : Bytes}
    (h₁ : lfsChecksum out "data/pay/proving/to-private" = some c₁)
    (h₂ : lfsChecksum out "data/pay/proving/private-transfer" = some c₂)
    (h₃ : lfsChecksum out "data/pay/proving/to-public" = some c₃) (raw : Reply) (b c : Web)
    (hw : wr (datFile dir "/to-private") = true) (hgood : d (datFile dir "/to-private") = some good)
    (hbad : hash (overlay sent good) ≠ c₁) :
    (loadParameters hash C out false wr dir ⟨⟨.broken sent, raw⟩, b, c⟩ d).2 = none ∧
    (loadParameters hash C out false wr dir ⟨⟨.broken sent, raw⟩, b, c⟩ d).1 (datFile dir "/to-private") =
      some (overlay sent good) := by
  obtain ⟨e1, e2, _⟩ := c115_destroyed_violated (hash := hash) raw hw hgood hbad
  have hp : loadProving hash C out false wr dir ⟨⟨.broken sent, raw⟩, b, c⟩ d =
      ((download hash wr ⟨.broken sent, raw⟩ (datFile dir "/to-private") c₁ d).1, none) := by
    cases hd : download hash wr ⟨.broken sent, raw⟩ (datFile dir "/to-private") c₁ d with
    | mk d1 r =>
      rw [hd] at e1
      simp only at e1
      subst e1
      simp only [loadProving, h₁, h₂, h₃, loadContexts, fetchAll, Bool.false_eq_true, if_false, hd]
  simp only [loadParameters, hp]
  exact ⟨trivial, e2⟩

/-- The gap: the generator does not cut files that are there already. With the same seed, a run over a longer file
publishes a file that a run in an empty directory does not, hence another checksum (or a collision), though programs load
the same value from both. -/
theorem c135_leftover_violated {s : Seed} {m : Made T PC VC} (hg : generate G s = some m) {wr : Name → Bool}
    {dir : List Char} {old clean disk disk₀ : Disk Name} (h : generateMain G C s wr dir old = some (disk, true))
    (h₀ : generateMain G C s wr dir clean = some (disk₀, true)) {j : Name × Bytes} (hj : j ∈ jobs C dir m)
    (hc : clean j.1 = none) {o : Bytes} (ho : old j.1 = some o) (hl : j.2.length < o.length) :
    disk₀ j.1 = some j.2 ∧ disk j.1 = some (j.2 ++ o.drop j.2.length) ∧ disk j.1 ≠ disk₀ j.1 := by
  obtain ⟨r, h₁, rfl⟩ := (c135_written hg h).1 j hj
  obtain ⟨r₀, h₂, rfl⟩ := (c135_written hg h₀).1 j hj
  rw [ho, Option.getD_some] at h₁
  rw [hc, Option.getD_none, List.drop_nil, List.append_nil] at h₂
  refine ⟨h₂, h₁, fun e => ?_⟩
  rw [h₁, h₂] at e
  have := congrArg List.length (Option.some.inj e)
  simp only [List.length_append, List.length_drop] at this
  omega

/-! ## Instances -/

/-- Values are bytes: the position in the stream; the contexts depend on parameters and position. -/
def toyGen : Gen (fun _ => UInt8) UInt8 UInt8 UInt8 UInt8 where
  seed := id
  part := fun _ r => (r, r + 1)
  context := fun _ ps acc r => some (r + ps.partition, r + acc, r + 1)

def toyCoder : Coder (fun _ => UInt8) UInt8 UInt8 where
  enc := fun _ x => [x, 1]
  dec := fun _ b => b.head?
  encP := fun x => [x, 2, 3]
  decP := fun b => b.head?
  encV := fun x => [x]
  decV := fun b => b.head?

def toyMade : Made (fun _ => UInt8) UInt8 UInt8 :=
  ⟨⟨33, 34, 35⟩, ⟨35, 36, 37⟩, ⟨⟨7, 8, 9, 10, 11, 12, 13, 14⟩, 15, 16⟩, 17⟩

theorem toyMade_eq : generate toyGen 7 = some toyMade := by rfl

theorem toyCoder_reads : toyCoder.Reads := ⟨fun _ _ _ => rfl, fun _ _ => rfl, fun _ _ => rfl⟩

/-- A longer file was there before. -/
def toyOld : Disk Name := fun n => if n = datFile pay "/parameters/group-generator" then some [0, 0, 0, 9, 9] else none

def toyDisk : Disk Name := (writeAll (fun _ => true) (jobs toyCoder pay toyMade) toyOld).1

theorem writeAll_true (js : List (Name × Bytes)) (d : Disk Name) : (writeAll (fun _ => true) js d).2 = true := by
  induction js generalizing d with
  | nil => rfl
  | cons j js ih => exact ih _

theorem toyDisk_eq : generateMain toyGen toyCoder 7 (fun _ => true) pay toyOld = some (toyDisk, true) := by
  simp only [generateMain, toyMade_eq, Option.map_some, Option.some.injEq]
  exact Prod.ext rfl (writeAll_true _ _)

/-- The generated files and a text. -/
def toyFiles : List (Name × Bytes) :=
  (⟨"data/pay/README".toList, some "md".toList⟩, [65]) ::
    (jobs toyCoder pay toyMade).map fun j => (j.1, (toyDisk j.1).getD [])

def toySums : List (List Char × Bytes) :=
  ((jobs toyCoder pay toyMade).map fun j => (j.1.text, toySum ((toyDisk j.1).getD [])))

instance (n : Name) : Decidable n.IsData := inferInstanceAs (Decidable (_ ∨ _))

theorem toySums_parse : parseCheckfile (toySums.map fun e => b3line e.2 e.1) = some toySums := by
  refine c116_checkfile toySums (fun e he => ?_) fun e he => tame_of_first _ ?_
  · revert e; decide +kernel
  · revert e; decide +kernel

theorem toyPublishes : Publishes toySum (toySums.map fun e => b3line e.2 e.1) toyFiles
    ((jobs toyCoder pay toyMade).map Prod.fst) toyDisk := by
  refine ⟨fun n hn b hb => ?_, by decide +kernel, fun l hl => ?_⟩
  · obtain ⟨j, hj, rfl⟩ := List.mem_map.1 hn
    exact List.mem_cons_of_mem _ (List.mem_map.2 ⟨j, hj, by rw [hb]; rfl⟩)
  · rw [toySums_parse] at hl
    cases hl
    decide +kernel

theorem toyBuilds : ∃ out, build toySum (toySums.map fun e => b3line e.2 e.1) toyFiles (fun _ => none) = some out := by
  refine Option.isSome_iff_exists.1 (c116_builds_iff.2 ⟨toySums, toySums_parse, ?_⟩)
  decide +kernel

/-- All hypotheses together: generated over a longer file, published, built and loaded with downloads. -/
example : ∃ out, build toySum (toySums.map fun e => b3line e.2 e.1) toyFiles (fun _ => none) = some out ∧
    (loadParameters toySum toyCoder out false (fun _ => true) "tmp".toList
      ⟨⟨.body [33, 2, 3], .refused⟩, ⟨.body [], .body [34, 2, 3]⟩, ⟨.body [35, 2, 3], .refused⟩⟩
      (fun _ => none)).2 = some toyMade := by
  obtain ⟨out, h⟩ := toyBuilds
  refine ⟨out, h, c135_loads_partial toyMade_eq toyCoder_reads toyDisk_eq toyPublishes h fun t ht => ⟨rfl, ?_⟩⟩
  simp only [List.mem_cons, List.not_mem_nil, or_false] at ht
  rcases ht with rfl | rfl | rfl
  · exact ⟨[33, 2, 3], by decide +kernel, by simp [Web.Serves], by simp⟩
  · exact ⟨[34, 2, 3], by decide +kernel, by simp [Web.Serves], by simp⟩
  · exact ⟨[35, 2, 3], by decide +kernel, by simp [Web.Serves], by simp⟩

/-- A server that breaks off: the valid file loses its first byte, and loading panics. -/
example : ∃ out, build toySum (toySums.map fun e => b3line e.2 e.1) toyFiles (fun _ => none) = some out ∧
    (loadParameters toySum toyCoder out false (fun _ => true) "tmp".toList
      ⟨⟨.broken [0], .refused⟩, ⟨.body [34, 2, 3], .refused⟩, ⟨.body [35, 2, 3], .refused⟩⟩
      (fun _ => some [33, 2, 3])).1 (datFile "tmp".toList "/to-private") = some [0, 2, 3] := by
  obtain ⟨out, h⟩ := toyBuilds
  refine ⟨out, h, ?_⟩
  obtain ⟨r₁, d₁, c₁⟩ := lfs_published (C := toyCoder) (m := toyMade) (wr := fun _ => true) (old := toyOld) (disk := toyDisk)
    (by have := toyDisk_eq; simpa [generateMain, toyMade_eq] using this) toyPublishes h (i := 11) "data/pay/proving/to-private" rfl
    (by decide +kernel)
  obtain ⟨r₂, d₂, c₂⟩ := lfs_published (C := toyCoder) (m := toyMade) (wr := fun _ => true) (old := toyOld) (disk := toyDisk)
    (by have := toyDisk_eq; simpa [generateMain, toyMade_eq] using this) toyPublishes h (i := 13) "data/pay/proving/private-transfer" rfl
    (by decide +kernel)
  obtain ⟨r₃, d₃, c₃⟩ := lfs_published (C := toyCoder) (m := toyMade) (wr := fun _ => true) (old := toyOld) (disk := toyDisk)
    (by have := toyDisk_eq; simpa [generateMain, toyMade_eq] using this) toyPublishes h (i := 15) "data/pay/proving/to-public" rfl
    (by decide +kernel)
  have hr : r₁ = [] := by
    have : toyDisk (lfsFile pay "/proving/to-private") = some [33, 2, 3] := by decide +kernel
    have e := Option.some.inj (d₁.symm.trans this)
    have := congrArg List.length e
    simp [toyCoder] at this
    exact this
  subst hr
  exact (c135_destroyed_violated (C := toyCoder) (hash := toySum) (wr := fun _ => true) (d := fun _ => some [33, 2, 3]) (good := [33, 2, 3])
    (sent := [0]) c₁ c₂ c₃ .refused _ _ rfl rfl (by decide +kernel)).2

/-- The leftover stays in the published file. -/
example : toyDisk (datFile pay "/parameters/group-generator") = some [7, 1, 0, 9, 9] := by decide +kernel

end Verif.Params
