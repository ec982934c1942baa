import Verif.Keys.Props
import Verif.Ceremony.Verifier

/-!
# The keys that come out of the ceremony: C134

`extract_keys` (`manta-trusted-setup/src/groth16/mpc.rs:577-632`) and its use in the transcript verifier
(`manta-trusted-setup/src/bin/groth16_phase2_verifier.rs:78-150`).

Simplifications: files can be created, and the device takes everything that is written; the path has a parent. The files of
keys are not those of the transcript: names of the former end in `_pk` or `_vk`, of the latter in a number.
The verifying context of a key is a function of it (`get_verifying_context` does not fail,
`manta-crypto/src/arkworks/groth16.rs:242-244, 318-334`).
-/

namespace Verif.Keys

open Verif.Codec (Bytes)
open Verif.Ceremony (Config Disk verifyCircuit ChainFrom EndsAt)

/-! ## Model -/

/-- The two files of a circuit: `{name}_pk` and `{name}_vk`. -/
inductive Half where
  | pk
  | vk
deriving DecidableEq

/-- The files of keys of a directory. -/
abbrev KeyDir (Nm : Type) := Nm → Half → Option Bytes

/-- An open file: the bytes before and behind the cursor. -/
structure Handle where
  before : Bytes
  behind : Bytes

/-- `OpenOptions::new().write(true).create(true).open(..)`, mpc.rs:590-611: nothing is truncated, the cursor is at the
beginning. -/
def openFile (f : Option Bytes) : Handle := ⟨[], f.getD []⟩

/-- `write` of `IoWriter<File>`, manta-util/src/codec.rs:465-478. -/
def writeFile : Handle → Bytes → Except Empty Handle := fun h bs => .ok ⟨h.before ++ bs, h.behind.drop bs.length⟩

/-- What is in the file when it is closed. -/
def Handle.close (h : Handle) : Bytes := h.before ++ h.behind

/-- The file after a sequence of writes. -/
def closed : Except Empty Handle → Bytes
  | .ok h => h.close

variable {Nm PK VC : Type} [DecidableEq Nm]

/-- The directory with other files for one circuit. -/
def KeyDir.set (d : KeyDir Nm) (name : Nm) (p v : Bytes) : KeyDir Nm := fun n h =>
  if n = name then (match h with
    | .pk => some p
    | .vk => some v) else d n h

/-- `extract_keys`, mpc.rs:581-632: `given` is the argument, `stored` what is read from the path. The answer `false` is the
error. Both files are opened before the state is read. -/
def extractKeys (cP : Canon PK) (cV : Canon VC) (verifying : PK → VC) (d : KeyDir Nm) (name : Nm)
    (given stored : Option PK) : Bool × KeyDir Nm :=
  let p := openFile (d name .pk)
  let v := openFile (d name .vk)
  match given.or stored with
  | none => (false, d.set name p.close v.close)
  | some k => (true, d.set name (closed (encodeProving cP writeFile k p)) (closed (encodeChecked cV writeFile (verifying k) v)))

variable {I K Sig Ch Pf : Type}

/-- The loop of `verify_ceremony` over the circuits, groth16_phase2_verifier.rs:84-156, with the keys: a circuit that fails ends
it. `none` is what it is in C101. -/
def verifyKeys (cP : Canon PK) (cV : Canon VC) (verifying : PK → VC) (cfg : Config K Sig PK Ch Pf) (t : Disk I K PK Ch Pf Nm)
    (fuel start : Nat) : List Nm → KeyDir Nm → Option (Option Verif.Ceremony.Err) × KeyDir Nm
  | [], d => (some none, d)
  | nm :: nms, d =>
    match verifyCircuit cfg t fuel start nm with
    | none => (none, d)
    | some (.error e) => (some (some e), d)
    | some (.ok x) => verifyKeys cP cV verifying cfg t fuel start nms (extractKeys cP cV verifying d nm (some x.1) none).2

/-! ## Specification -/

/-- Writing over a file from its beginning. -/
def over (old : Option Bytes) (new : Bytes) : Bytes := new ++ (old.getD []).drop new.length

/-- The encodings of a key and of its verifying context. -/
def encoded (cP : Canon PK) (cV : Canon VC) (verifying : PK → VC) (k : PK) : Half → Bytes
  | .pk => cP.bytes .unchecked k
  | .vk => cV.bytes .compressed (verifying k)

theorem writeChunks_file (cs : List Bytes) (h : Handle) :
    writeChunks writeFile cs (.ok h) = .ok ⟨h.before ++ cs.flatten, h.behind.drop cs.flatten.length⟩ := by
  induction cs generalizing h with
  | nil => simp [writeChunks]
  | cons c cs ih =>
    simp only [writeChunks, writeAll, writeFile]
    have := ih ⟨h.before ++ c, h.behind.drop c.length⟩
    rw [this, List.flatten_cons, List.append_assoc, List.drop_drop, List.length_append]

omit [DecidableEq Nm] in
theorem closed_over (cs : List Bytes) (f : Option Bytes) :
    closed (writeChunks writeFile cs (.ok (openFile f))) = over f cs.flatten := by
  rw [writeChunks_file]
  rfl

/-- Extraction of a state: what is in which file afterwards. -/
theorem extract_some (cP : Canon PK) (cV : Canon VC) (verifying : PK → VC) (d : KeyDir Nm) (name : Nm)
    (given stored : Option PK) (k : PK) (hk : given.or stored = some k) :
    (extractKeys cP cV verifying d name given stored).1 = true ∧
    ∀ n h, (extractKeys cP cV verifying d name given stored).2 n h =
      if n = name then some (over (d n h) (encoded cP cV verifying k h)) else d n h := by
  unfold extractKeys
  rw [hk]
  refine ⟨rfl, fun n h => ?_⟩
  simp only [KeyDir.set]
  by_cases hn : n = name
  · subst hn
    rw [if_pos rfl, if_pos rfl]
    cases h
    · simp only [encodeProving, encode, closed_over]; rfl
    · simp only [encodeChecked, encode, closed_over]; rfl
  · rw [if_neg hn, if_neg hn]

theorem over_over (f : Option Bytes) (b : Bytes) : over (some (over f b)) b = over f b := by
  simp [over]

/-- The keys of the circuits that were verified, and no others, are written. -/
theorem verifyKeys_files (cP : Canon PK) (cV : Canon VC) (verifying : PK → VC) (cfg : Config K Sig PK Ch Pf)
    (t : Disk I K PK Ch Pf Nm) (fuel start : Nat) (names : List Nm) (d : KeyDir Nm) :
    let r := verifyKeys cP cV verifying cfg t fuel start names d
    ∃ done rest, names = done ++ rest ∧
      (∀ nm ∈ done, ∃ x, verifyCircuit cfg t fuel start nm = some (.ok x) ∧
        ∀ h, r.2 nm h = some (over (d nm h) (encoded cP cV verifying x.1 h))) ∧
      (∀ nm, nm ∉ done → ∀ h, r.2 nm h = d nm h) ∧
      (r.1 = some none ↔ rest = []) ∧
      (∀ e, r.1 = some (some e) → ∃ nm nms, rest = nm :: nms ∧ verifyCircuit cfg t fuel start nm = some (.error e)) := by
  intro r
  induction names generalizing d with
  | nil => exact ⟨[], [], rfl, nofun, fun _ _ _ => rfl, by simp [r, verifyKeys], by simp [r, verifyKeys]⟩
  | cons nm nms ih =>
    simp only [r, verifyKeys]
    cases hv : verifyCircuit cfg t fuel start nm with
    | none => exact ⟨[], nm :: nms, rfl, nofun, fun _ _ _ => rfl, by simp, by simp⟩
    | some y =>
      cases y with
      | error e => exact ⟨[], nm :: nms, rfl, nofun, fun _ _ _ => rfl, by simp, by simp [hv]⟩
      | ok x =>
        simp only
        obtain ⟨_, hx⟩ := extract_some cP cV verifying d nm (some x.1) none x.1 rfl
        generalize (extractKeys cP cV verifying d nm (some x.1) none).2 = d1 at hx
        obtain ⟨done, rest, h1, h2, h3, h4, h5⟩ := ih d1
        refine ⟨nm :: done, rest, by rw [h1]; rfl, ?_, ?_, h4, h5⟩
        · intro n hn
          by_cases hd : n ∈ done
          · obtain ⟨x', e1, e2⟩ := h2 n hd
            refine ⟨x', e1, fun h => ?_⟩
            rw [e2 h, hx n h]
            by_cases hnn : n = nm
            · subst hnn
              rw [if_pos rfl]
              rw [hv] at e1; cases e1
              rw [over_over]
            · rw [if_neg hnn]
          · rcases List.mem_cons.1 hn with rfl | hn
            · refine ⟨x, hv, fun h => ?_⟩
              rw [h3 n hd h, hx n h, if_pos rfl]
            · exact absurd hn hd
        · intro n hn h
          rw [h3 n (fun hd => hn (List.mem_cons_of_mem _ hd)) h, hx n h,
            if_neg (fun e => hn (by rw [e]; exact List.mem_cons_self ..))]

/-! ## C134 -/

/-- **C134, what is published.** If the verifier gets through, then for every circuit the files of the transcript are chained
from the starting round to a last one, and the two key files are read, by any reader that delivers their bytes and whatever
the directory held before, as the key of that last round and as the verifying context of this key. -/
theorem c134_published {VP : PK → Prop} {VV : VC → Prop} {cP : Canon PK} {cV : Canon VC} (hP : cP.Lawful VP)
    (hV : cV.Lawful VV) (verifying : PK → VC) (hvv : ∀ k, VP k → VV (verifying k)) (cfg : Config K Sig PK Ch Pf)
    (t : Disk I K PK Ch Pf Nm) (ht : ∀ nm n k, t.state nm n = some k → VP k) (fuel start : Nat) (names : List Nm)
    (d d' : KeyDir Nm) (h : verifyKeys cP cV verifying cfg t fuel start names d = (some none, d')) (nm : Nm) (hn : nm ∈ names)
    {R ε : Type} {rd : ReadExact R ε} {left : R → Bytes} (hd : Delivers rd left) :
    ∃ n C S, ChainFrom cfg t nm start n C S ∧ EndsAt t nm n ∧
      (∀ r, d' nm .pk = some (left r) → ∃ r', decodeProving cP rd r = .ok (S n) r') ∧
      (∀ r, d' nm .vk = some (left r) → ∃ r', decodeChecked cV rd r = .ok (verifying (S n)) r') ∧
      (d' nm .pk).isSome ∧ (d' nm .vk).isSome := by
  obtain ⟨done, rest, h1, h2, _, h4, _⟩ := verifyKeys_files cP cV verifying cfg t fuel start names d
  rw [h] at h2 h4
  have hr : rest = [] := h4.1 rfl
  subst hr
  rw [List.append_nil] at h1
  subst h1
  obtain ⟨x, hx, hf⟩ := h2 nm hn
  obtain ⟨n, C, S, hc, he, _, rfl⟩ := (Verif.Ceremony.c101_circuit_iff cfg t fuel start nm x).1 hx
  replace hf : ∀ f, d' nm f = some (over (d nm f) (encoded cP cV verifying (S n) f)) := hf
  have hval : VP (S n) := by
    rcases Nat.eq_or_lt_of_le hc.le with e | e
    · rw [← e]; exact ht _ _ _ hc.state
    · obtain ⟨p, _, hs, _⟩ := hc.step (n - 1) (by omega) (by omega)
      rw [show n - 1 + 1 = n by omega] at hs
      exact ht _ _ _ hs
  refine ⟨n, C, S, hc, he, fun r hl => ?_, fun r hl => ?_, by simp [hf], by simp [hf]⟩
  · rw [hf] at hl
    obtain ⟨⟨out, ho, hb⟩, -⟩ := c130_codec hP (S n) hval hd r []
      ((d nm .pk).getD [] |>.drop (cP.bytes .unchecked (S n)).length)
    have : out = cP.bytes .unchecked (S n) := by
      have := (writeChunks_vec (cP.write .unchecked (S n)) []).symm.trans ho
      simpa [Canon.bytes] using this.symm
    subst this
    obtain ⟨r', hr, _⟩ := hb (by
      have := Option.some.inj hl
      rw [← this]; rfl)
    exact ⟨r', hr⟩
  · rw [hf] at hl
    obtain ⟨-, ⟨out, ho, hb⟩⟩ := c130_codec hV (verifying (S n)) (hvv _ hval) hd r []
      ((d nm .vk).getD [] |>.drop (cV.bytes .compressed (verifying (S n))).length)
    have : out = cV.bytes .compressed (verifying (S n)) := by
      have := (writeChunks_vec (cV.write .compressed (verifying (S n))) []).symm.trans ho
      simpa [Canon.bytes] using this.symm
    subst this
    obtain ⟨r', hr, _⟩ := hb (by
      have := Option.some.inj hl
      rw [← this]; rfl)
    exact ⟨r', hr⟩

/-- **C134, a verification that fails.** The circuits before the first that fails have the keys of their last round, and nothing
else in the directory changes. -/
theorem c134_failed (cP : Canon PK) (cV : Canon VC) (verifying : PK → VC) (cfg : Config K Sig PK Ch Pf)
    (t : Disk I K PK Ch Pf Nm) (fuel start : Nat) (names : List Nm) (d d' : KeyDir Nm) (e : Verif.Ceremony.Err)
    (h : verifyKeys cP cV verifying cfg t fuel start names d = (some (some e), d')) :
    ∃ done nm rest, names = done ++ nm :: rest ∧ verifyCircuit cfg t fuel start nm = some (.error e) ∧
      (∀ m ∈ done, ∃ n C S, ChainFrom cfg t m start n C S ∧ EndsAt t m n ∧
        ∀ f, d' m f = some (over (d m f) (encoded cP cV verifying (S n) f))) ∧
      ∀ m, m ∉ done → ∀ f, d' m f = d m f := by
  obtain ⟨done, rest, h1, h2, h3, _, h5⟩ := verifyKeys_files cP cV verifying cfg t fuel start names d
  rw [h] at h2 h3 h5
  obtain ⟨nm, nms, rfl, hv⟩ := h5 e rfl
  refine ⟨done, nm, nms, h1, hv, fun m hm => ?_, h3⟩
  obtain ⟨x, hx, hf⟩ := h2 m hm
  obtain ⟨n, C, S, hc, he, _, rfl⟩ := (Verif.Ceremony.c101_circuit_iff cfg t fuel start m x).1 hx
  exact ⟨n, C, S, hc, he, hf⟩

/-- **C134, the answer.** Extracting the keys does not change what the verification of C101 says. -/
theorem c134_answer (cP : Canon PK) (cV : Canon VC) (verifying : PK → VC) (cfg : Config K Sig PK Ch Pf)
    (t : Disk I K PK Ch Pf Nm) (fuel start : Nat) (names : List Nm) (d : KeyDir Nm) :
    (verifyKeys cP cV verifying cfg t fuel start names d).1 =
      (Verif.Ceremony.verifyCircuits cfg t fuel start names).map fun
        | .ok _ => none
        | .error e => some e := by
  induction names generalizing d with
  | nil => rfl
  | cons nm nms ih =>
    unfold verifyKeys Verif.Ceremony.verifyCircuits
    rcases verifyCircuit cfg t fuel start nm with _ | e | x
    · rfl
    · rfl
    · simp only [ih]
      rcases Verif.Ceremony.verifyCircuits cfg t fuel start nms with _ | e | r <;> rfl

/-- **C134 (part): the bytes.** Where no file or none longer than the new key was, the files are exactly the encodings. -/
theorem c134_exact_partial (cP : Canon PK) (cV : Canon VC) (verifying : PK → VC) (d : KeyDir Nm) (name : Nm)
    (given stored : Option PK) (k : PK) (hk : given.or stored = some k)
    (hshort : ∀ f, ((d name f).getD []).length ≤ (encoded cP cV verifying k f).length) :
    (extractKeys cP cV verifying d name given stored).1 = true ∧
    ∀ n f, (extractKeys cP cV verifying d name given stored).2 n f =
      if n = name then some (encoded cP cV verifying k f) else d n f := by
  obtain ⟨h1, h2⟩ := extract_some cP cV verifying d name given stored k hk
  refine ⟨h1, fun n f => ?_⟩
  rw [h2]
  by_cases hn : n = name
  · subst hn
    rw [if_pos rfl, if_pos rfl, over, List.drop_of_length_le (hshort f), List.append_nil]
  · rw [if_neg hn, if_neg hn]

/-- **C134 is false of the code where a longer file is overwritten.** The files are opened without truncation, so behind the
key the rest of the old file stays: what is published is not the encoding of the key, and so does not have its checksum,
although success is reported. -/
theorem c134_leftover_violated (cP : Canon PK) (cV : Canon VC) (verifying : PK → VC) (d : KeyDir Nm) (name : Nm)
    (given stored : Option PK) (k : PK) (hk : given.or stored = some k) (f : Half) (old : Bytes)
    (hold : d name f = some old) (hlong : (encoded cP cV verifying k f).length < old.length) :
    (extractKeys cP cV verifying d name given stored).1 = true ∧
    (extractKeys cP cV verifying d name given stored).2 name f =
      some (encoded cP cV verifying k f ++ old.drop (encoded cP cV verifying k f).length) ∧
    (extractKeys cP cV verifying d name given stored).2 name f ≠ some (encoded cP cV verifying k f) := by
  obtain ⟨h1, h2⟩ := extract_some cP cV verifying d name given stored k hk
  have h3 : (extractKeys cP cV verifying d name given stored).2 name f =
      some (encoded cP cV verifying k f ++ old.drop (encoded cP cV verifying k f).length) := by
    rw [h2, if_pos rfl, over, hold]; rfl
  refine ⟨h1, h3, ?_⟩
  rw [h3]
  intro e
  have := congrArg List.length (Option.some.inj e)
  rw [List.length_append, List.length_drop] at this
  omega

/-- **C134 is false of the code where the state cannot be read.** The error comes after the files were created: in a new
directory two empty files remain, which are not keys; existing files are kept. -/
theorem c134_empty_violated (cP : Canon PK) (cV : Canon VC) (verifying : PK → VC) (d : KeyDir Nm) (name : Nm) :
    (extractKeys cP cV verifying d name none none).1 = false ∧
    (∀ f, (extractKeys cP cV verifying d name none none).2 name f = some ((d name f).getD [])) ∧
    ∀ n, n ≠ name → ∀ f, (extractKeys cP cV verifying d name none none).2 n f = d n f := by
  refine ⟨rfl, fun f => ?_, fun n hn f => ?_⟩
  · simp only [extractKeys, Option.or, KeyDir.set, if_true]
    cases f <;> rfl
  · simp only [extractKeys, Option.or, KeyDir.set, if_neg hn]

/-! ## Examples -/

/-- Numbers below 200, twice where nothing is compressed. -/
def exNat : Canon Nat where
  write
    | .compressed, v => [[UInt8.ofNat v]]
    | _, v => [[UInt8.ofNat v], [UInt8.ofNat v]]
  read
    | .compressed => .read 1 fun bs => .done ((bs.getD 0 0).toNat)
    | _ => .read 2 fun bs => .done ((bs.getD 0 0).toNat)
  serializedSize _ := 1
  uncompressedSize _ := 2

theorem exNat_lawful : exNat.Lawful (· < 200) where
  back m v hv rest := by
    have h : v % 256 = v := Nat.mod_eq_of_lt (by omega)
    cases m <;> simp [Canon.bytes, exNat, Prog.parse, h]
  size _ _ := rfl
  sizeU _ _ := rfl

/-- Two rounds of two circuits (the ceremony of Verif/Ceremony/Witness.lean); `p` is the last proof of the second. -/
def exTranscript (p : Nat × Nat) : Disk Nat Nat Nat Nat (Nat × Nat) String where
  state nm n := if nm = "a" then [5, 7, 8][n]? else if nm = "b" then [6, 9, 10][n]? else none
  challenge nm n := if n = 0 ∧ (nm = "a" ∨ nm = "b") then some 1 else none
  proof nm n := if n = 0 then none else if nm = "a" then [(2, 1), (1, 107)][n - 1]? else if nm = "b" then [(3, 1), p][n - 1]? else none
  registry _ := none
  names := some ["a", "b"]
  roundNumber := some 2

/-- A directory in which a longer key of the first circuit is. -/
def exDir : KeyDir String := fun n h => if n = "a" ∧ h = .pk then some [9, 9, 9, 9, 9] else none

/-- Everything verifies: the keys of the last round are there, one of them with the rest of the old file behind it. -/
example :
    let r := verifyKeys exNat exNat (· + 1) Verif.Ceremony.toy (exTranscript (1, 109)) 10 0 ["a", "b"] exDir
    r.1 = some none ∧ r.2 "a" .pk = some [8, 8, 9, 9, 9] ∧ r.2 "a" .vk = some [9] ∧ r.2 "b" .pk = some [10, 10] ∧
    r.2 "b" .vk = some [11] := by
  refine ⟨by decide +kernel, by decide +kernel, by decide +kernel, by decide +kernel, by decide +kernel⟩

/-- The last proof of the second circuit is wrong: only the keys of the first are written. -/
example :
    let r := verifyKeys exNat exNat (· + 1) Verif.Ceremony.toy (exTranscript (1, 108)) 10 0 ["a", "b"] exDir
    r.1 = some (some .badRequest) ∧ r.2 "a" .pk = some [8, 8, 9, 9, 9] ∧ r.2 "b" .pk = none ∧ r.2 "b" .vk = none := by
  refine ⟨by decide +kernel, by decide +kernel, by decide +kernel, by decide +kernel⟩

/-- The premises of `c134_published`. -/
example : (∀ nm n k, (exTranscript (1, 109)).state nm n = some k → k < 199) ∧ Delivers readBytes id := by
  refine ⟨fun nm n k h => ?_, c130_readers⟩
  simp only [exTranscript] at h
  split at h
  · rcases n with _ | _ | _ | n <;> simp at h <;> omega
  · split at h
    · rcases n with _ | _ | _ | n <;> simp at h <;> omega
    · cases h

end Verif.Keys
