import Verif.Params.Model

/-!
# C115: downloaded parameters are the published ones
-/

namespace Verif.Params

set_option linter.unusedSectionVars false

variable {Path Digest : Type} [DecidableEq Path] [DecidableEq Digest]

/-! ## Helpers -/

theorem write_start (c b : Bytes) : ((⟨c, 0⟩ : Handle).write b) = ⟨b ++ c.drop b.length, b.length⟩ := by
  simp [Handle.write]

theorem Disk.set_same (d : Disk Path) (p : Path) (b : Bytes) : d.set p b p = some b := by simp [Disk.set]

theorem Disk.set_other (d : Disk Path) {p q : Path} (h : q ≠ p) (b : Bytes) : d.set p b q = d q := by
  simp [Disk.set, h]

theorem Disk.set_eq (d : Disk Path) {p : Path} {b : Bytes} (h : d p = some b) : d.set p b = d := by
  funext q; by_cases e : q = p
  · subst e; simp [Disk.set, h]
  · simp [Disk.set, e]

theorem verifyFile_true {hash : Bytes → Digest} {d : Disk Path} {p : Path} {c : Digest}
    (h : verifyFile hash d p c = some true) : ∃ b, d p = some b ∧ hash b = c := by
  unfold verifyFile verify at h
  cases e : d p with
  | none => simp [e] at h
  | some b => exact ⟨b, rfl, by simpa [e] using h⟩

theorem download_none {hash : Bytes → Digest} {wr : Path → Bool} {w : Web} {p : Path} {c : Digest} {d : Disk Path}
    (h : (download hash wr w p c d).2 = none) : ∃ b, (download hash wr w p c d).1 p = some b ∧ hash b = c := by
  unfold download at h ⊢
  by_cases hw : wr p
  · simp only [hw, if_true] at h ⊢
    cases e : fetch w (d p) with
    | mk b ok =>
      simp only [e] at h ⊢
      cases ok with
      | false => simp at h
      | true =>
        simp only [if_true] at h ⊢
        cases v : verifyFile hash (d.set p b) p c with
        | none => simp [v] at h
        | some t =>
          cases t with
          | false => simp [v] at h
          | true => exact verifyFile_true v
  · simp [hw] at h

theorem download_other {hash : Bytes → Digest} {wr : Path → Bool} {w : Web} {p q : Path} {c : Digest} {d : Disk Path}
    (hq : q ≠ p) : (download hash wr w p c d).1 q = d q := by
  unfold download
  by_cases hw : wr p
  · simp only [hw, if_true]
    cases e : fetch w (d p) with
    | mk b ok =>
      simp only
      split
      · split <;> exact Disk.set_other d hq b
      · exact Disk.set_other d hq b
  · simp [hw]

/-! ## Specification -/

/-- The servers deliver `b`: at the first address, or at the second if the first delivers nothing. -/
def Web.Serves (w : Web) (b : Bytes) : Prop :=
  (w.lfs = .body b ∧ b ≠ []) ∨ (w.lfs = .body [] ∧ w.raw = .body b)

/-- Contents after writing `new` over the beginning of `old`. -/
def overlay (new old : Bytes) : Bytes := new ++ old.drop new.length

theorem fetch_serves {w : Web} {b : Bytes} (h : w.Serves b) (old : Option Bytes) :
    fetch w old = (overlay b (old.getD []), true) := by
  obtain ⟨h, hb⟩ | ⟨h, h'⟩ := h
  · unfold fetch openWrite downloadFrom
    simp only [h, write_start]
    cases b with
    | nil => exact absurd rfl hb
    | cons x xs => simp [overlay]
  · unfold fetch openWrite downloadFrom
    simp [h, h', write_start, overlay]

/-! ## Properties -/

/-- A download that reports success leaves a file with the checksum. If it is not the published data, then the two are a
collision of BLAKE3. Other files are not touched, whatever the servers answer and however it ends. -/
theorem c115_download {hash : Bytes → Digest} {wr : Path → Bool} {w : Web} {p : Path} {c : Digest} {d : Disk Path}
    (published : Bytes) (hp : hash published = c) :
    ((download hash wr w p c d).2 = none →
      ∃ b, (download hash wr w p c d).1 p = some b ∧ hash b = c ∧
        (b = published ∨ (b ≠ published ∧ hash b = hash published))) ∧
    (∀ q, q ≠ p → (download hash wr w p c d).1 q = d q) := by
  refine ⟨fun h => ?_, fun q hq => download_other hq⟩
  obtain ⟨b, h₁, h₂⟩ := download_none h
  refine ⟨b, h₁, h₂, ?_⟩
  by_cases e : b = published
  · exact .inl e
  · exact .inr ⟨e, h₂.trans hp.symm⟩

/-- The same for the variant that keeps valid files. A valid file is kept and nothing is requested: the result does not
depend on the servers. -/
theorem c115_if_invalid {hash : Bytes → Digest} {wr : Path → Bool} {w : Web} {p : Path} {c : Digest} {d : Disk Path} :
    ((downloadIfInvalid hash wr w p c d).2 = none →
      ∃ b, (downloadIfInvalid hash wr w p c d).1 p = some b ∧ hash b = c) ∧
    (∀ q, q ≠ p → (downloadIfInvalid hash wr w p c d).1 q = d q) ∧
    (∀ b, d p = some b → hash b = c → downloadIfInvalid hash wr w p c d = (d, none)) := by
  refine ⟨fun h => ?_, fun q hq => ?_, fun b hb hc => ?_⟩
  · unfold downloadIfInvalid at h ⊢
    cases v : verifyFile hash d p c with
    | none => simp only [v] at h ⊢; exact download_none h
    | some t =>
      cases t with
      | false => simp only [v] at h ⊢; exact download_none h
      | true => simp only [v] at h ⊢; exact verifyFile_true v
  · unfold downloadIfInvalid
    split
    · rfl
    · exact download_other hq
  · simp [downloadIfInvalid, verifyFile, verify, hb, hc]

/-- If the servers deliver the published data and the path can be written, then a download succeeds and the file is the
published data, provided that there was no file or one that is not longer. -/
theorem c115_complete_partial {hash : Bytes → Digest} {wr : Path → Bool} {w : Web} {p : Path} {c : Digest}
    {d : Disk Path} {published : Bytes} (hp : hash published = c) (hw : wr p = true) (hs : w.Serves published)
    (hlen : ∀ b, d p = some b → b.length ≤ published.length) :
    download hash wr w p c d = (d.set p published, none) := by
  have hov : overlay published ((d p).getD []) = published := by
    cases e : d p with
    | none => simp [overlay]
    | some b => simp [overlay, List.drop_eq_nil_of_le (hlen b e)]
  simp [download, hw, fetch_serves hs, hov, verifyFile, Disk.set_same, verify, hp]

/-- The gap: a file that is longer than the published data keeps its tail. The servers deliver the right data and yet the
download fails, and so does every further attempt with any servers that deliver them: the file never changes again. The
only way out is a file that collides with the published data. -/
theorem c115_longer_violated {hash : Bytes → Digest} {wr : Path → Bool} {p : Path} {c : Digest} {d : Disk Path}
    {published old : Bytes} (hw : wr p = true) (ws : List Web)
    (hs : ∀ w ∈ ws, w.Serves published) (hold : d p = some old) (hlong : published.length < old.length)
    (hbad : hash old ≠ c) (hnc : hash (overlay published old) ≠ c) :
    (downloads hash wr p c ws d).2 = List.replicate ws.length (some .checksum) ∧
      ((downloads hash wr p c ws d).1 p = some old ∨
        (downloads hash wr p c ws d).1 p = some (overlay published old)) ∧
      overlay published old ≠ published := by
  have hne : overlay published old ≠ published := fun e => by
    have := congrArg List.length e
    simp [overlay] at this
    omega
  have hidem : overlay published (overlay published old) = overlay published old := by
    simp [overlay]
  have step : ∀ (w : Web), w.Serves published → ∀ (d : Disk Path) (x : Bytes), d p = some x → hash x ≠ c →
      overlay published x = overlay published old →
      downloadIfInvalid hash wr w p c d = (d.set p (overlay published old), some .checksum) := by
    intro w hsw d x hx hxc hxo
    have h₁ : (hash x == c) = false := by simpa using hxc
    have h₂ : (hash (overlay published old) == c) = false := by simpa using hnc
    simp [downloadIfInvalid, verifyFile, verify, hx, h₁, download, hw, fetch_serves hsw, hxo, Disk.set_same, h₂]
  have loop : ∀ (ws : List Web), (∀ w ∈ ws, w.Serves published) → ∀ (d : Disk Path) (x : Bytes), d p = some x →
      hash x ≠ c → overlay published x = overlay published old →
      (downloads hash wr p c ws d).2 = List.replicate ws.length (some .checksum) ∧
        ((downloads hash wr p c ws d).1 p = some x ∨
          (downloads hash wr p c ws d).1 p = some (overlay published old)) := by
    intro ws
    induction ws with
    | nil => intro _ d x hx _ _; exact ⟨rfl, .inl hx⟩
    | cons w ws ih =>
      intro hs d x hx hxc hxo
      have h := step w (hs w (by simp)) d x hx hxc hxo
      have hr := ih (fun v hv => hs v (by simp [hv])) (d.set p (overlay published old)) _
        (Disk.set_same _ _ _) hnc hidem
      simp only [downloads, h]
      refine ⟨by rw [hr.1]; rfl, .inr ?_⟩
      rcases hr.2 with h | h <;> exact h
  exact ⟨(loop ws hs d old hold hbad rfl).1, (loop ws hs d old hold hbad rfl).2, hne⟩

/-- A second gap: `download` writes over a file before it knows what it gets. A valid file is destroyed by any answer of
at least its length that is not valid, and by every broken transfer that changes its beginning. -/
theorem c115_destroyed_violated {hash : Bytes → Digest} {wr : Path → Bool} {p : Path} {c : Digest} {d : Disk Path}
    {good sent : Bytes} (raw : Reply) (hw : wr p = true) (hgood : d p = some good)
    (hbad : hash (overlay sent good) ≠ c) :
    (download hash wr ⟨.broken sent, raw⟩ p c d).2 = some .network ∧
      (download hash wr ⟨.broken sent, raw⟩ p c d).1 p = some (overlay sent good) ∧
      (sent ≠ [] → (download hash wr ⟨.body sent, raw⟩ p c d).2 = some .checksum ∧
        (download hash wr ⟨.body sent, raw⟩ p c d).1 p = some (overlay sent good)) := by
  refine ⟨?_, ?_, fun hne => ?_⟩
  · simp [download, hw, fetch, openWrite, downloadFrom]
  · simp [download, hw, fetch, openWrite, downloadFrom, hgood, write_start, overlay, Disk.set_same]
  · have hs : (⟨.body sent, raw⟩ : Web).Serves sent := .inl ⟨rfl, hne⟩
    have hb : (hash (overlay sent good) == c) = false := by simpa using hbad
    simp [download, hw, fetch_serves hs, hgood, verifyFile, Disk.set_same, verify, hb]

/-- Loading the proving contexts returns only contexts that were decoded from files with the right checksums, in the
order of the assets; for assets with distinct paths, whatever the servers answer and whatever is in the directory.
`fetcher` is either of the two ways to download. -/
theorem c115_contexts {α : Type} {hash : Bytes → Digest} {wr : Path → Bool} {decode : Bytes → Option α}
    (keep : Bool) (as : List (Asset Path Digest × Web)) (hd : (as.map fun a => a.1.path).Nodup) (d d' : Disk Path)
    (xs : List α)
    (h : loadContexts (fun w a d => if keep then downloadIfInvalid hash wr w a.path a.checksum d
          else download hash wr w a.path a.checksum d) decode as d = (d', .ok xs)) :
    xs.length = as.length ∧
    ∀ i (hi : i < as.length), ∃ b x, d' (as[i]).1.path = some b ∧ hash b = (as[i]).1.checksum ∧
      xs[i]? = some x ∧ decode b = some x := by
  let fetcher : Web → Asset Path Digest → Disk Path → Disk Path × Option Error := fun w a d =>
    if keep then downloadIfInvalid hash wr w a.path a.checksum d else download hash wr w a.path a.checksum d
  have f₁ : ∀ w a d, (fetcher w a d).2 = none → ∃ b, (fetcher w a d).1 a.path = some b ∧ hash b = a.checksum := by
    intro w a d h
    cases keep with
    | true => exact c115_if_invalid.1 h
    | false => exact download_none h
  have f₂ : ∀ w a d q, q ≠ a.path → (fetcher w a d).1 q = d q := by
    intro w a d q hq
    cases keep with
    | true => exact c115_if_invalid.2.1 q hq
    | false => exact download_other hq
  have other : ∀ (as : List (Asset Path Digest × Web)) (d : Disk Path) q, q ∉ as.map (fun a => a.1.path) →
      (fetchAll fetcher as d).1 q = d q := by
    intro as
    induction as with
    | nil => intros; rfl
    | cons aw as ih =>
      intro d q hq
      obtain ⟨a, w⟩ := aw
      simp only [List.map_cons, List.mem_cons, not_or] at hq
      have hf := f₂ w a d q hq.1
      unfold fetchAll
      cases e : fetcher w a d with
      | mk d₁ r =>
        rw [e] at hf
        cases r with
        | some _ => exact hf
        | none => exact (ih d₁ q hq.2).trans hf
  have good : ∀ (as : List (Asset Path Digest × Web)), (as.map fun a => a.1.path).Nodup → ∀ (d : Disk Path),
      (fetchAll fetcher as d).2 = true → ∀ a ∈ as,
        ∃ b, (fetchAll fetcher as d).1 a.1.path = some b ∧ hash b = a.1.checksum := by
    intro as
    induction as with
    | nil => intro _ d _ a ha; cases ha
    | cons aw as ih =>
      intro hn d ht x hx
      obtain ⟨a, w⟩ := aw
      simp only [List.map_cons, List.nodup_cons] at hn
      have hf := f₁ w a d
      unfold fetchAll at ht ⊢
      cases e : fetcher w a d with
      | mk d₁ r =>
        rw [e] at hf
        simp only [e] at ht
        cases r with
        | some _ => simp at ht
        | none =>
          rcases List.mem_cons.1 hx with rfl | hx
          · obtain ⟨b, hb, hc⟩ := hf rfl
            exact ⟨b, (other as d₁ a.path hn.1).trans hb, hc⟩
          · exact ih hn.2 d₁ ht x hx
  have dec : ∀ (ps : List Path) (d : Disk Path) (xs : List α), decodeAll decode d ps = .ok xs →
      xs.length = ps.length ∧ ∀ i (hi : i < ps.length), ∃ b x, d ps[i] = some b ∧ xs[i]? = some x ∧
        decode b = some x := by
    intro ps
    induction ps with
    | nil =>
      intro d xs h
      simp only [decodeAll, Loaded.ok.injEq] at h
      subst h
      exact ⟨rfl, fun i hi => absurd hi (by simp)⟩
    | cons p ps ih =>
      intro d xs h
      unfold decodeAll at h
      cases e : (d p).bind decode with
      | none => simp [e] at h
      | some x =>
        cases e' : decodeAll decode d ps with
        | panic => simp [e, e'] at h
        | ok ys =>
          simp only [e, e', Loaded.ok.injEq] at h
          subst h
          obtain ⟨h₁, h₂⟩ := ih d ys e'
          refine ⟨by simp [h₁], fun i hi => ?_⟩
          cases i with
          | zero =>
            obtain ⟨b, hb, hx⟩ := Option.bind_eq_some_iff.1 e
            exact ⟨b, x, hb, rfl, hx⟩
          | succ i =>
            obtain ⟨b, y, hb, hy, hd⟩ := h₂ i (by simpa using hi)
            exact ⟨b, y, by simpa using hb, by simpa using hy, hd⟩
  change loadContexts fetcher decode as d = _ at h
  unfold loadContexts at h
  cases e : fetchAll fetcher as d with
  | mk d₁ t =>
    cases t with
    | false => simp [e] at h
    | true =>
      simp only [e, Prod.mk.injEq] at h
      obtain ⟨rfl, h⟩ := h
      obtain ⟨h₁, h₂⟩ := dec _ _ _ h
      refine ⟨by simpa using h₁, fun i hi => ?_⟩
      obtain ⟨b, x, hb, hx, hdec⟩ := h₂ i (by simpa using hi)
      have hb' : d₁ (as[i]).1.path = some b := by simpa using hb
      have hg := good as hd d (by rw [e]) as[i] (List.getElem_mem hi)
      rw [e] at hg
      obtain ⟨b', hb'', hc⟩ := hg
      have : b = b' := Option.some.inj (hb'.symm.trans hb'')
      exact ⟨b, x, hb', this ▸ hc, hx, hdec⟩

/-! ## Instances -/

/-- A toy checksum: length and sum. -/
def toyHash (b : Bytes) : Nat × Nat := (b.length, b.foldl (fun s x => s + x.toNat) 0)

/-- Published data. -/
def toyData : Bytes := [1, 2, 3]

def toyWeb : Web := ⟨.body toyData, .refused⟩

/-- No file before; a shorter invalid file before. -/
example : download toyHash (fun _ => true) toyWeb 0 (3, 6) (fun _ => none) =
    (Disk.set (fun _ => none) 0 toyData, none) :=
  c115_complete_partial (published := toyData) rfl rfl (.inl ⟨rfl, by decide⟩) (fun _ h => by cases h)

example : (download toyHash (fun _ => true) ⟨.body [], .body toyData⟩ 0 (3, 6) (fun _ => some [9, 9])).2 = none := by
  decide

/-- A file of four bytes is never repaired, here in three attempts. -/
example : (downloads toyHash (fun _ => true) (0 : Nat) (3, 6) [toyWeb, toyWeb, toyWeb] (fun _ => some [9, 9, 9, 9])).2 =
    [some .checksum, some .checksum, some .checksum] :=
  (c115_longer_violated (wr := fun _ => true) (p := (0 : Nat)) (d := fun _ => some [9, 9, 9, 9]) (hash := toyHash) (c := (3, 6)) (published := toyData) (old := [9, 9, 9, 9]) rfl
    [toyWeb, toyWeb, toyWeb] (by intro w hw; simp at hw; subst hw; exact .inl ⟨rfl, by decide⟩) rfl (by decide) (by decide) (by decide)).1

/-- Two bytes of an error page over a valid file. -/
example : (download toyHash (fun _ => true) ⟨.body [4, 0], .body toyData⟩ (0 : Nat) (3, 6) (fun _ => some toyData)).1 0 =
    some [4, 0, 3] :=
  ((c115_destroyed_violated (wr := fun _ => true) (p := (0 : Nat)) (d := fun _ => some toyData) (hash := toyHash) (c := (3, 6)) (sent := [4, 0]) (good := toyData) (.body toyData) rfl rfl (by decide)).2.2 (by decide)).2

/-- Two contexts are loaded from an empty directory. -/
example : ∃ d, loadContexts (fun w a d => if false then downloadIfInvalid toyHash (fun _ => true) w a.path a.checksum d
      else download toyHash (fun _ => true) w a.path a.checksum d) (fun b => b.head?)
      [(⟨(0 : Nat), (3, 6)⟩, toyWeb), (⟨1, (1, 7)⟩, ⟨.body [], .body [7]⟩)] (fun _ => none) = (d, .ok [1, 7]) :=
  ⟨_, rfl⟩

end Verif.Params
