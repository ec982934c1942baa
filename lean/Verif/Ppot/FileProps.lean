import Verif.Ppot.PointProps

/-!
# C107: accumulators, proofs and the files of the powers of tau
-/

set_option linter.unusedSectionVars false

namespace Verif.Ppot

open Verif.Codec (Bytes)

section
variable {q : ℕ} {K : Type} [Field K] [DecidableEq K] {C : Curve q K}

/-! ## Specification -/

/-- A point of the group. -/
def Good (C : Curve q K) (p : Point K) : Prop := onCurve C p = true ∧ C.inSubgroup p = true

/-- A reader that gives back what a writer wrote. -/
def Reads {ε : Type} (rd : Stream → Except ε (Point K) × Stream) (w : Point K → Bytes) (p : Point K) : Prop :=
  ∀ rest, rd (slice (w p ++ rest)) = (.ok p, slice rest)

/-! ## Lists -/

theorem readMany_writeAll {ε : Type} {rd : Stream → Except ε (Point K) × Stream} {w : Point K → Bytes}
    (ps : List (Point K)) (h : ∀ p ∈ ps, Reads rd w p) (rest : Bytes) :
    readMany rd ps.length (slice (writeAll w ps ++ rest)) = (.ok ps, slice rest) := by
  induction ps with
  | nil => rfl
  | cons p ps ih =>
    simp only [writeAll, List.flatMap_cons, List.length_cons, readMany, List.append_assoc]
    rw [h p (by simp)]
    simp only
    have := ih (fun p hp => h p (by simp [hp]))
    rw [writeAll] at this
    rw [this]

theorem readMany_ok {ε α : Type} {rd : Stream → Except ε α × Stream} {n : ℕ} {r r' : Stream} {ps : List α}
    (h : readMany rd n r = (.ok ps, r')) : ps.length = n ∧ ∀ p ∈ ps, ∃ s s', rd s = (.ok p, s') := by
  induction n generalizing r ps with
  | zero =>
    simp only [readMany, Prod.mk.injEq, Except.ok.injEq] at h
    obtain ⟨rfl, -⟩ := h
    simp
  | succ n ih =>
    simp only [readMany] at h
    rcases h1 : rd r with ⟨e | p, s⟩ <;> rw [h1] at h
    · simp at h
    · rcases h2 : readMany rd n s with ⟨e | qs, t⟩ <;> simp only [h2] at h
      · simp at h
      · simp only [Prod.mk.injEq, Except.ok.injEq] at h
        obtain ⟨rfl, rfl⟩ := h
        obtain ⟨hl, hp⟩ := ih h2
        refine ⟨by simp [hl], fun p' hp' => ?_⟩
        rcases List.mem_cons.mp hp' with rfl | hp'
        · exact ⟨_, _, h1⟩
        · exact hp p' hp'

theorem reads_point (hC : C.Lawful) (c : Compressed) (p : Point K) (hp : Good C p) :
    Reads (readPoint C c) (writePoint C c) p := by
  intro rest
  cases c with
  | no => rw [readPoint, writePoint, c106_uncompressed hC, hp.1, hp.2]; rfl
  | yes => exact c106_compressed hC p hp.1 rest

theorem tryEach_ok {α : Type} (f : α → Except PointError Unit) (xs : List α) :
    tryEach f xs = .ok () ↔ ∀ x ∈ xs, f x = .ok () := by
  induction xs with
  | nil => simp [tryEach]
  | cons x xs ih =>
    rcases h : f x with e | u <;> simp [tryEach, h, ih]

theorem check_ok (p : Point K) : check C p = .ok () ↔ Good C p := by
  unfold check Good
  cases onCurve C p <;> cases C.inSubgroup p <;> simp

end

section
variable {q : ℕ} {K L : Type} [Field K] [DecidableEq K] [Field L] [DecidableEq L] {C : Curve q K} {D : Curve q L}

/-! ## Accumulators -/

/-- The lengths of an accumulator. -/
structure Accumulator.Sized (n1 n2 : ℕ) (a : Accumulator K L) : Prop where
  tauG1 : a.tauG1.length = n1
  tauG2 : a.tauG2.length = n2
  alpha : a.alphaTau.length = n2
  beta : a.betaTau.length = n2

/-- All points satisfy a predicate. -/
structure Accumulator.All (P : Point K → Prop) (Q : Point L → Prop) (a : Accumulator K L) : Prop where
  tauG1 : ∀ p ∈ a.tauG1, P p
  tauG2 : ∀ p ∈ a.tauG2, Q p
  alpha : ∀ p ∈ a.alphaTau, P p
  beta : ∀ p ∈ a.betaTau, P p
  betaG2 : Q a.betaG2

theorem readWith_bytes {rd : Stream → Except PointError (Point K) × Stream}
    {rd' : Stream → Except PointError (Point L) × Stream} {c : Compressed} {n1 n2 : ℕ} (a : Accumulator K L)
    (hs : a.Sized n1 n2) (h : a.All (Reads rd (writePoint C c)) (Reads rd' (writePoint D c))) (rest : Bytes) :
    Accumulator.readWith rd rd' n1 n2 (slice (a.bytes C D c ++ rest)) = (.ok a, slice rest) := by
  unfold Accumulator.readWith Accumulator.bytes
  simp only [List.append_assoc]
  have h1 := fun r => readMany_writeAll a.tauG1 h.tauG1 r
  have h2 := fun r => readMany_writeAll a.tauG2 h.tauG2 r
  have h3 := fun r => readMany_writeAll a.alphaTau h.alpha r
  have h4 := fun r => readMany_writeAll a.betaTau h.beta r
  rw [hs.tauG1] at h1
  rw [hs.tauG2] at h2
  rw [hs.alpha] at h3
  rw [hs.beta] at h4
  simp only [h1, h2, h3, h4, andThen, h.betaG2 rest]

/-- An accumulator of the right size survives both encodings, whatever follows it. -/
theorem c107_accumulator (hC : C.Lawful) (hD : D.Lawful) {n1 n2 : ℕ} (a : Accumulator K L) (hs : a.Sized n1 n2)
    (hg : a.All (Good C) (Good D)) (rest : Bytes) :
    Accumulator.readCompressed C D n1 n2 (slice (a.bytes C D .yes ++ rest)) = (.ok a, slice rest) ∧
    Accumulator.readUncompressed C D n1 n2 (slice (a.bytes C D .no ++ rest)) = (.ok a, slice rest) := by
  constructor
  · refine readWith_bytes a hs ⟨fun p hp => ?_, fun p hp => ?_, fun p hp => ?_, fun p hp => ?_, ?_⟩ rest
    · exact reads_point hC .yes p (hg.tauG1 p hp)
    · exact reads_point hD .yes p (hg.tauG2 p hp)
    · exact reads_point hC .yes p (hg.alpha p hp)
    · exact reads_point hC .yes p (hg.beta p hp)
    · exact reads_point hD .yes _ hg.betaG2
  · have : Accumulator.readUnchecked C D n1 n2 (slice (a.bytes C D .no ++ rest)) = (.ok a, slice rest) :=
      readWith_bytes (rd := Ppot.readUnchecked C) (rd' := Ppot.readUnchecked D) (C := C) (D := D) (c := .no) a hs
       ⟨fun p _ => readUnchecked_uncompressed hC p, fun p _ => readUnchecked_uncompressed hD p,
        fun p _ => readUnchecked_uncompressed hC p, fun p _ => readUnchecked_uncompressed hC p,
        readUnchecked_uncompressed hD _⟩ rest
    unfold Accumulator.readUncompressed
    rw [this]
    have hc : a.check C D = .ok () := by
      unfold Accumulator.check
      rw [(tryEach_ok _ _).mpr fun p hp => (check_ok p).mpr (hg.tauG1 p hp),
        (tryEach_ok _ _).mpr fun p hp => (check_ok p).mpr (hg.tauG2 p hp),
        (tryEach_ok _ _).mpr fun p hp => (check_ok p).mpr (hg.alpha p hp),
        (tryEach_ok _ _).mpr fun p hp => (check_ok p).mpr (hg.beta p hp)]
      exact (check_ok _).mpr hg.betaG2
    simp only [hc]

theorem readWith_ok {rd : Stream → Except PointError (Point K) × Stream}
    {rd' : Stream → Except PointError (Point L) × Stream} {n1 n2 : ℕ} {r r' : Stream} {a : Accumulator K L}
    (h : Accumulator.readWith rd rd' n1 n2 r = (.ok a, r')) :
    a.Sized n1 n2 ∧ a.All (fun p => ∃ s s', rd s = (.ok p, s')) (fun p => ∃ s s', rd' s = (.ok p, s')) := by
  unfold Accumulator.readWith andThen at h
  rcases h1 : readMany rd n1 r with ⟨e | t1, r1⟩ <;> simp only [h1] at h
  · simp at h
  rcases h2 : readMany rd' n2 r1 with ⟨e | t2, r2⟩ <;> simp only [h2] at h
  · simp at h
  rcases h3 : readMany rd n2 r2 with ⟨e | al, r3⟩ <;> simp only [h3] at h
  · simp at h
  rcases h4 : readMany rd n2 r3 with ⟨e | be, r4⟩ <;> simp only [h4] at h
  · simp at h
  rcases h5 : rd' r4 with ⟨e | b2, r5⟩ <;> simp only [h5] at h
  · simp at h
  simp only [Prod.mk.injEq, Except.ok.injEq] at h
  obtain ⟨rfl, rfl⟩ := h
  have g1 := readMany_ok h1
  have g2 := readMany_ok h2
  have g3 := readMany_ok h3
  have g4 := readMany_ok h4
  exact ⟨⟨g1.1, g2.1, g3.1, g4.1⟩, ⟨g1.2, g2.2, g3.2, g4.2, _, _, h5⟩⟩

/-- An accumulator that is read uncompressed has the right size and consists of points of the groups. One that is read
compressed has the right size and consists of points of the curves. -/
theorem c107_accumulator_sound (hC : C.Lawful) (hD : D.Lawful) {n1 n2 : ℕ} (r r' : Stream) (a : Accumulator K L) :
    (Accumulator.readUncompressed C D n1 n2 r = (.ok a, r') → a.Sized n1 n2 ∧ a.All (Good C) (Good D)) ∧
    (Accumulator.readCompressed C D n1 n2 r = (.ok a, r') →
      a.Sized n1 n2 ∧ a.All (fun p => onCurve C p = true) (fun p => onCurve D p = true)) := by
  constructor
  · intro h
    unfold Accumulator.readUncompressed at h
    rcases h1 : Accumulator.readUnchecked C D n1 n2 r with ⟨e | b, s⟩ <;> rw [h1] at h
    · simp at h
    · simp only at h
      rcases h2 : b.check C D with e | u <;> simp only [h2] at h
      · simp at h
      simp only [Prod.mk.injEq, Except.ok.injEq] at h
      obtain ⟨rfl, rfl⟩ := h
      refine ⟨(readWith_ok h1).1, ?_⟩
      unfold Accumulator.check at h2
      rcases e1 : tryEach (Ppot.check C) b.tauG1 with _ | u1 <;> simp only [e1] at h2
      · cases h2
      rcases e2 : tryEach (Ppot.check D) b.tauG2 with _ | u2 <;> simp only [e2] at h2
      · cases h2
      rcases e3 : tryEach (Ppot.check C) b.alphaTau with _ | u3 <;> simp only [e3] at h2
      · cases h2
      rcases e4 : tryEach (Ppot.check C) b.betaTau with _ | u4 <;> simp only [e4] at h2
      · cases h2
      exact ⟨fun p hp => (check_ok p).mp ((tryEach_ok _ _).mp e1 p hp),
        fun p hp => (check_ok p).mp ((tryEach_ok _ _).mp e2 p hp),
        fun p hp => (check_ok p).mp ((tryEach_ok _ _).mp e3 p hp),
        fun p hp => (check_ok p).mp ((tryEach_ok _ _).mp e4 p hp), (check_ok _).mp h2⟩
  · intro h
    obtain ⟨hs, ha⟩ := readWith_ok h
    refine ⟨hs, fun p hp => ?_, fun p hp => ?_, fun p hp => ?_, fun p hp => ?_, ?_⟩
    · obtain ⟨s, s', e⟩ := ha.tauG1 p hp; exact (c106_valid hC s s' p).2 e
    · obtain ⟨s, s', e⟩ := ha.tauG2 p hp; exact (c106_valid hD s s' p).2 e
    · obtain ⟨s, s', e⟩ := ha.alpha p hp; exact (c106_valid hC s s' p).2 e
    · obtain ⟨s, s', e⟩ := ha.beta p hp; exact (c106_valid hC s s' p).2 e
    · obtain ⟨s, s', e⟩ := ha.betaG2; exact (c106_valid hD s s' _).2 e

/-- A compressed accumulator is accepted although points of it are outside of the groups. -/
theorem c107_subgroup_violated (hC : C.Lawful) (hD : D.Lawful) {n1 n2 : ℕ} (a : Accumulator K L) (hs : a.Sized n1 n2)
    (ha : a.All (fun p => onCurve C p = true) (fun p => onCurve D p = true)) (hb : D.inSubgroup a.betaG2 = false)
    (rest : Bytes) :
    Accumulator.readCompressed C D n1 n2 (slice (a.bytes C D .yes ++ rest)) = (.ok a, slice rest) ∧
    (Accumulator.readUncompressed C D n1 n2 (slice (a.bytes C D .no ++ rest))).1.isOk = false := by
  constructor
  · exact readWith_bytes (rd := Ppot.readCompressed C) (rd' := Ppot.readCompressed D) (C := C) (D := D) (c := .yes) a hs
     ⟨fun p hp => c106_compressed hC p (ha.tauG1 p hp),
      fun p hp => c106_compressed hD p (ha.tauG2 p hp), fun p hp => c106_compressed hC p (ha.alpha p hp),
      fun p hp => c106_compressed hC p (ha.beta p hp), c106_compressed hD _ ha.betaG2⟩ rest
  · have : Accumulator.readUnchecked C D n1 n2 (slice (a.bytes C D .no ++ rest)) = (.ok a, slice rest) :=
      readWith_bytes (rd := Ppot.readUnchecked C) (rd' := Ppot.readUnchecked D) (C := C) (D := D) (c := .no) a hs
       ⟨fun p _ => readUnchecked_uncompressed hC p, fun p _ => readUnchecked_uncompressed hD p,
        fun p _ => readUnchecked_uncompressed hC p, fun p _ => readUnchecked_uncompressed hC p,
        readUnchecked_uncompressed hD _⟩ rest
    rcases h : Accumulator.readUncompressed C D n1 n2 (slice (a.bytes C D .no ++ rest)) with ⟨e | b, s⟩
    · rfl
    · have h' := h
      unfold Accumulator.readUncompressed at h'
      rw [this] at h'
      simp only at h'
      rcases h2 : a.check C D with e | u <;> simp only [h2] at h'
      · simp at h'
      simp only [Prod.mk.injEq, Except.ok.injEq] at h'
      obtain ⟨rfl, rfl⟩ := h'
      have := ((c107_accumulator_sound hC hD _ _ _).1 h).2.betaG2.2
      rw [hb] at this
      cases this

/-! ## Proofs -/

/-- The points of a proof satisfy a predicate. -/
structure Proof.All (P : Point K → Prop) (Q : Point L → Prop) (π : Proof K L) : Prop where
  tau : P π.tau.ratio.1 ∧ P π.tau.ratio.2 ∧ Q π.tau.matching
  alpha : P π.alpha.ratio.1 ∧ P π.alpha.ratio.2 ∧ Q π.alpha.matching
  beta : P π.beta.ratio.1 ∧ P π.beta.ratio.2 ∧ Q π.beta.matching

theorem readNonZero_eq {F : Type} [Field F] [DecidableEq F] {rd : Stream → Except PointError (Point F) × Stream}
    {w : Point F → Bytes} {p : Point F}
    (h : Reads rd w p) (h0 : p ≠ .zero) (rest : Bytes) : readNonZero rd (slice (w p ++ rest)) = (.ok p, slice rest) := by
  unfold readNonZero
  rw [h rest]
  cases p with
  | zero => exact absurd rfl h0
  | affine x y => rfl

theorem readNonZero_ok {F : Type} [Field F] [DecidableEq F] {rd : Stream → Except PointError (Point F) × Stream}
    {r r' : Stream} {p : Point F} (h : readNonZero rd r = (.ok p, r')) : p ≠ .zero ∧ rd r = (.ok p, r') := by
  unfold readNonZero at h
  split at h
  · simp at h
  · simp at h
  · rename_i h1
    simp only [Prod.mk.injEq, Except.ok.injEq] at h
    obtain ⟨rfl, rfl⟩ := h
    exact ⟨by simp, h1⟩

/-- A proof without points at infinity survives both encodings. -/
theorem c107_proof (hC : C.Lawful) (hD : D.Lawful) (π : Proof K L) (hg : π.All (Good C) (Good D))
    (h0 : π.All (· ≠ .zero) (· ≠ .zero)) (c : Compressed) (rest : Bytes) :
    Proof.read C D c (slice (π.bytes C D c ++ rest)) = (.ok π, slice rest) := by
  unfold Proof.read Proof.readWith Proof.bytes
  simp only [List.append_assoc]
  simp only [andThen,
    readNonZero_eq (reads_point hC c _ hg.tau.1) h0.tau.1, readNonZero_eq (reads_point hC c _ hg.tau.2.1) h0.tau.2.1,
    readNonZero_eq (reads_point hC c _ hg.alpha.1) h0.alpha.1,
    readNonZero_eq (reads_point hC c _ hg.alpha.2.1) h0.alpha.2.1,
    readNonZero_eq (reads_point hC c _ hg.beta.1) h0.beta.1,
    readNonZero_eq (reads_point hC c _ hg.beta.2.1) h0.beta.2.1,
    readNonZero_eq (reads_point hD c _ hg.tau.2.2) h0.tau.2.2,
    readNonZero_eq (reads_point hD c _ hg.alpha.2.2) h0.alpha.2.2,
    readNonZero_eq (reads_point hD c _ hg.beta.2.2) h0.beta.2.2]

/-- A proof that is read has no point at infinity and consists of points of the curves, those of an uncompressed one
also belong to the groups. -/
theorem c107_proof_sound (hC : C.Lawful) (hD : D.Lawful) (c : Compressed) (r r' : Stream) (π : Proof K L)
    (h : Proof.read C D c r = (.ok π, r')) :
    π.All (· ≠ .zero) (· ≠ .zero) ∧ π.All (fun p => onCurve C p = true) (fun p => onCurve D p = true) ∧
    (c = .no → π.All (Good C) (Good D)) := by
  unfold Proof.read Proof.readWith andThen at h
  rcases h1 : readNonZero (readPoint C c) r with ⟨e | t1, r1⟩ <;> simp only [h1] at h
  · simp at h
  rcases h2 : readNonZero (readPoint C c) r1 with ⟨e | t2, r2⟩ <;> simp only [h2] at h
  · simp at h
  rcases h3 : readNonZero (readPoint C c) r2 with ⟨e | a1, r3⟩ <;> simp only [h3] at h
  · simp at h
  rcases h4 : readNonZero (readPoint C c) r3 with ⟨e | a2, r4⟩ <;> simp only [h4] at h
  · simp at h
  rcases h5 : readNonZero (readPoint C c) r4 with ⟨e | b1, r5⟩ <;> simp only [h5] at h
  · simp at h
  rcases h6 : readNonZero (readPoint C c) r5 with ⟨e | b2, r6⟩ <;> simp only [h6] at h
  · simp at h
  rcases h7 : readNonZero (readPoint D c) r6 with ⟨e | t, r7⟩ <;> simp only [h7] at h
  · simp at h
  rcases h8 : readNonZero (readPoint D c) r7 with ⟨e | a, r8⟩ <;> simp only [h8] at h
  · simp at h
  rcases h9 : readNonZero (readPoint D c) r8 with ⟨e | b, r9⟩ <;> simp only [h9] at h
  · simp at h
  simp only [Prod.mk.injEq, Except.ok.injEq] at h
  obtain ⟨rfl, rfl⟩ := h
  have g1 := readNonZero_ok h1
  have g2 := readNonZero_ok h2
  have g3 := readNonZero_ok h3
  have g4 := readNonZero_ok h4
  have g5 := readNonZero_ok h5
  have g6 := readNonZero_ok h6
  have g7 := readNonZero_ok h7
  have g8 := readNonZero_ok h8
  have g9 := readNonZero_ok h9
  have on1 : ∀ {s s' p}, readPoint C c s = (.ok p, s') → onCurve C p = true := by
    intro s s' p h
    cases c
    · exact ((c106_valid hC s s' p).1 h).1
    · exact (c106_valid hC s s' p).2 h
  have on2 : ∀ {s s' p}, readPoint D c s = (.ok p, s') → onCurve D p = true := by
    intro s s' p h
    cases c
    · exact ((c106_valid hD s s' p).1 h).1
    · exact (c106_valid hD s s' p).2 h
  refine ⟨⟨⟨g1.1, g2.1, g7.1⟩, ⟨g3.1, g4.1, g8.1⟩, ⟨g5.1, g6.1, g9.1⟩⟩,
    ⟨⟨on1 g1.2, on1 g2.2, on2 g7.2⟩, ⟨on1 g3.2, on1 g4.2, on2 g8.2⟩, ⟨on1 g5.2, on1 g6.2, on2 g9.2⟩⟩, ?_⟩
  rintro rfl
  exact ⟨⟨(c106_valid hC _ _ _).1 g1.2, (c106_valid hC _ _ _).1 g2.2, (c106_valid hD _ _ _).1 g7.2⟩,
    ⟨(c106_valid hC _ _ _).1 g3.2, (c106_valid hC _ _ _).1 g4.2, (c106_valid hD _ _ _).1 g8.2⟩,
    ⟨(c106_valid hC _ _ _).1 g5.2, (c106_valid hC _ _ _).1 g6.2, (c106_valid hD _ _ _).1 g9.2⟩⟩

/-! ## Files -/

section
variable {F : Type} [Field F] [DecidableEq F] {E : Curve q F}

theorem readElements_eq {rd : Stream → Except PointError (Point F) × Stream} {w : Point F → Bytes} {size : ℕ}
    (ps : List (Point F)) (h : ∀ p ∈ ps, Reads rd w p) (hw : ∀ p, (w p).length = size) (k : ℕ) (hk : k ≤ ps.length)
    (pre post : Bytes) :
    readElements rd true (pre ++ writeAll w ps ++ post) size k pre.length = .ok (ps.take k) := by
  induction ps generalizing k pre with
  | nil =>
    have : k = 0 := by simpa using hk
    subst this
    rfl
  | cons p ps ih =>
    cases k with
    | zero => rfl
    | succ k =>
      have hp := hw p
      simp only [readElements, writeAll, List.flatMap_cons, List.length_append, if_true]
      have hlen : pre.length + size ≤ pre.length + ((w p).length + (ps.flatMap w).length) + post.length := by omega
      rw [if_pos hlen]
      have hd : ((pre ++ (w p ++ ps.flatMap w) ++ post).drop pre.length).take size = w p := by
        rw [List.append_assoc, List.drop_left, List.append_assoc, List.take_left' hp]
      rw [hd]
      have := h p (by simp) []
      rw [List.append_nil] at this
      rw [this]
      simp only
      have := ih (fun p hp => h p (by simp [hp])) k (by simpa using hk) (pre ++ w p)
      simp only [writeAll, List.length_append, hp, List.append_assoc] at this
      simp only [List.append_assoc]
      rw [this]
      rfl

theorem readElements_ok {rd : Stream → Except PointError (Point F) × Stream} {ok : Bool} {file : Bytes} {size k start : ℕ}
    {ps : List (Point F)} (h : readElements rd ok file size k start = .ok ps) :
    ps.length = k ∧ ∀ p ∈ ps, ∃ s s', rd s = (.ok p, s') := by
  induction k generalizing start ps with
  | zero =>
    simp only [readElements, Except.ok.injEq] at h
    subst h
    simp
  | succ k ih =>
    simp only [readElements] at h
    split at h
    · split at h
      · rcases h1 : rd (slice ((file.drop start).take size)) with ⟨e | p, s⟩ <;> simp only [h1] at h
        · cases h
        · rcases h2 : readElements rd ok file size k (start + size) with e | qs <;> simp only [h2] at h
          · cases h
          · cases h
            obtain ⟨hl, hp⟩ := ih h2
            refine ⟨by simp [hl], fun p' hp' => ?_⟩
            rcases List.mem_cons.mp hp' with rfl | hp'
            · exact ⟨_, _, h1⟩
            · exact hp p' hp'
      · cases h
    · cases h

/-- The size of the points of a curve with `n` numbers per coordinate. -/
def pointSize (n : ℕ) : Compressed → ℕ
  | .no => 64 * n
  | .yes => 32 * n

theorem writePoint_length (hE : E.Lawful) (c : Compressed) (p : Point F) :
    (writePoint E c p).length = pointSize E.n c := by
  cases c with
  | no => exact (c106_size hE p).2
  | yes => exact (c106_size hE p).1

theorem writeAll_length (hE : E.Lawful) (c : Compressed) (ps : List (Point F)) :
    (writeAll (writePoint E c) ps).length = pointSize E.n c * ps.length :=
  flatMap_length _ _ _ fun p _ => writePoint_length hE c p

theorem checkElements_good (c : Compressed) (ps : List (Point F)) (h : ∀ p ∈ ps, Good E p) :
    checkElements E c ps = .ok ps := by
  cases c with
  | no =>
    have : (ps.all fun p => (check E p).isOk) = true := by
      rw [List.all_eq_true]
      intro p hp
      rw [(check_ok p).mpr (h p hp)]
      rfl
    simp [checkElements, this]
  | yes =>
    have : (ps.all fun p => E.inSubgroup p) = true := by
      rw [List.all_eq_true]
      intro p hp
      exact (h p hp).2
    simp [checkElements, this]

theorem readPowers_eq (hE : E.Lawful) (r : ℕ) (g1 : Bool) (m : ℕ) (e : Element) (c : Compressed) (pre post : Bytes)
    (ps : List (Point F)) (hpos : position r 0 e c = some pre.length) (he : e.isG1 = g1) (hsize : e.size c = pointSize E.n c)
    (hk : e.numPowers m ≤ ps.length) (hg : ∀ p ∈ ps, Good E p) :
    readPowers r E g1 m (pre ++ writeAll (writePoint E c) ps ++ post) e c = .ok (ps.take (e.numPowers m)) := by
  have h : ∀ rd, (∀ p ∈ ps, Reads rd (writePoint E c) p) →
      readElements rd true (pre ++ writeAll (writePoint E c) ps ++ post) (e.size c) (e.numPowers m) pre.length =
        .ok (ps.take (e.numPowers m)) := fun rd hr =>
    readElements_eq ps hr (fun p => by rw [writePoint_length hE, hsize]) _ hk pre post
  have hc := checkElements_good c (ps.take (e.numPowers m)) fun p hp => hg p (List.mem_of_mem_take hp)
  generalize pre ++ writeAll (writePoint E c) ps ++ post = file at h ⊢
  unfold readPowers
  rw [hpos]
  simp only [he, beq_self_eq_true]
  clear hpos hsize
  cases c with
  | no =>
    simp only
    rw [h _ fun p _ => readUnchecked_uncompressed hE p]
    exact hc
  | yes =>
    simp only
    rw [h _ fun p hp => c106_compressed hE p (hg p hp).1]
    exact hc

theorem readPowers_ok (hE : E.Lawful) (r : ℕ) (g1 : Bool) (m : ℕ) (e : Element) (c : Compressed) (file : Bytes)
    (ps : List (Point F)) (h : readPowers r E g1 m file e c = .ok ps) :
    ps.length = e.numPowers m ∧ ∀ p ∈ ps, Good E p := by
  unfold readPowers at h
  split at h
  · cases h
  · simp only at h
    split at h
    · cases h
    · rename_i qs h1
      obtain ⟨hl, hp⟩ := readElements_ok h1
      cases c with
      | no =>
        simp only [checkElements] at h
        split at h
        · rename_i hall
          cases h
          refine ⟨hl, fun p hp => (check_ok p).mp ?_⟩
          have := List.all_eq_true.mp hall p hp
          rcases hc : check E p with e | u
          · rw [hc] at this; cases this
          · rfl
        · cases h
      | yes =>
        simp only [checkElements] at h
        split at h
        · rename_i hall
          cases h
          refine ⟨hl, fun p hp' => ⟨?_, List.all_eq_true.mp hall p hp'⟩⟩
          obtain ⟨s, s', e⟩ := hp p hp'
          exact (c106_valid hE s s' p).2 e
        · cases h

end

/-- The first powers of an accumulator: those of a smaller ceremony. -/
def Accumulator.sub (m : ℕ) (a : Accumulator K L) : Accumulator K L :=
  ⟨a.tauG1.take (2 * m - 1), a.tauG2.take m, a.alphaTau.take m, a.betaTau.take m, a.betaG2⟩

theorem tauPowers_eq (r : ℕ) : tauPowers r = 2 ^ r := by
  rw [tauPowers, Nat.shiftLeft_eq, Nat.one_mul]

theorem g1Powers_eq (m : ℕ) : g1Powers m = 2 * m - 1 := by
  unfold g1Powers
  rw [Nat.shiftLeft_eq]
  omega

/-- A file of the original ceremony (a header of 64 bytes, the accumulator, anything) gives the accumulator of every
smaller ceremony: its first powers. The code has `r = 28`. -/
theorem c107_file (r : ℕ) (hC : C.Lawful) (hD : D.Lawful) (h1 : C.n = 1) (h2 : D.n = 2) (a : Accumulator K L)
    (hs : a.Sized (2 * 2 ^ r - 1) (2 ^ r)) (hg : a.All (Good C) (Good D)) (c : Compressed) (header rest : Bytes)
    (hh : header.length = 64) (m : ℕ) (hm : m ≤ 2 ^ r) :
    readSubaccumulator r C D m (header ++ a.bytes C D c ++ rest) c = .ok (a.sub m) := by
  have ht := tauPowers_eq r
  have h0 := Nat.two_pow_pos r
  have p1 : position r 0 .tauG1 c = some 64 := by
    cases c <;> simp [position, g1Powers_eq, ht] <;> omega
  have p2 : position r 0 .tauG2 c = some (pointSize C.n c * (2 * 2 ^ r - 1) + 64) := by
    cases c <;> simp [position, g1Powers_eq, ht, h1, pointSize, h0]
  have p3 : position r 0 .alphaG1 c = some (pointSize C.n c * (2 * 2 ^ r - 1) + pointSize D.n c * 2 ^ r + 64) := by
    cases c <;> simp [position, g1Powers_eq, ht, h1, h2, pointSize, h0]
  have p4 : position r 0 .betaG1 c = some (pointSize C.n c * (2 * 2 ^ r - 1) + pointSize D.n c * 2 ^ r +
      pointSize C.n c * 2 ^ r + 64) := by
    cases c <;> simp [position, g1Powers_eq, ht, h1, h2, pointSize, h0]
  have p5 : position r 0 .betaG2 c = some (pointSize C.n c * (2 * 2 ^ r - 1) + pointSize D.n c * 2 ^ r +
      pointSize C.n c * 2 ^ r + pointSize C.n c * 2 ^ r + 64) := by
    cases c <;> simp [position, g1Powers_eq, ht, h1, h2, pointSize]
  have l1 := writeAll_length hC c a.tauG1
  have l2 := writeAll_length hD c a.tauG2
  have l3 := writeAll_length hC c a.alphaTau
  have l4 := writeAll_length hC c a.betaTau
  rw [hs.tauG1] at l1
  rw [hs.tauG2] at l2
  rw [hs.alpha] at l3
  rw [hs.beta] at l4
  have e1 := readPowers_eq hC r true m .tauG1 c header (writeAll (writePoint D c) a.tauG2 ++
    writeAll (writePoint C c) a.alphaTau ++ writeAll (writePoint C c) a.betaTau ++ writePoint D c a.betaG2 ++ rest) a.tauG1
    (by rw [p1, hh]) rfl (by cases c <;> simp [Element.size, Element.isG1, pointSize, h1])
    (by rw [hs.tauG1, Element.numPowers, g1Powers_eq]; omega) hg.tauG1
  have e2 := readPowers_eq hD r false m .tauG2 c (header ++ writeAll (writePoint C c) a.tauG1)
    (writeAll (writePoint C c) a.alphaTau ++ writeAll (writePoint C c) a.betaTau ++ writePoint D c a.betaG2 ++ rest) a.tauG2
    (by rw [p2, List.length_append, hh, l1, Nat.add_comm]) rfl
    (by cases c <;> simp [Element.size, Element.isG1, pointSize, h2])
    (by rw [hs.tauG2]; exact hm) hg.tauG2
  have e3 := readPowers_eq hC r true m .alphaG1 c
    (header ++ writeAll (writePoint C c) a.tauG1 ++ writeAll (writePoint D c) a.tauG2)
    (writeAll (writePoint C c) a.betaTau ++ writePoint D c a.betaG2 ++ rest) a.alphaTau
    (by rw [p3, List.length_append, List.length_append, hh, l1, l2]; congr 1; omega) rfl
    (by cases c <;> simp [Element.size, Element.isG1, pointSize, h1])
    (by rw [hs.alpha]; exact hm) hg.alpha
  have e4 := readPowers_eq hC r true m .betaG1 c
    (header ++ writeAll (writePoint C c) a.tauG1 ++ writeAll (writePoint D c) a.tauG2 ++ writeAll (writePoint C c) a.alphaTau)
    (writePoint D c a.betaG2 ++ rest) a.betaTau
    (by rw [p4, List.length_append, List.length_append, List.length_append, hh, l1, l2, l3]; congr 1; omega) rfl
    (by cases c <;> simp [Element.size, Element.isG1, pointSize, h1])
    (by rw [hs.beta]; exact hm) hg.beta
  have e5 := readPowers_eq hD r false m .betaG2 c
    (header ++ writeAll (writePoint C c) a.tauG1 ++ writeAll (writePoint D c) a.tauG2 ++
      writeAll (writePoint C c) a.alphaTau ++ writeAll (writePoint C c) a.betaTau) rest [a.betaG2]
    (by
      rw [p5, List.length_append, List.length_append, List.length_append, List.length_append, hh, l1, l2, l3, l4]
      congr 1; omega) rfl
    (by cases c <;> simp [Element.size, Element.isG1, pointSize, h2])
    (by rw [Element.numPowers]; simp) (by simpa using hg.betaG2)
  simp only [writeAll, List.flatMap_cons, List.flatMap_nil, List.append_nil, List.append_assoc] at e1 e2 e3 e4 e5
  unfold readSubaccumulator Accumulator.bytes
  simp only [writeAll, List.append_assoc]
  rw [e1, e2, e3, e4, e5]
  simp only [Element.numPowers, List.take_one, List.head?_cons, Option.toList, g1Powers_eq, Accumulator.sub]

/-- Whatever is read from a file has the size of the ceremony and consists of points of the groups. -/
theorem c107_file_sound (r : ℕ) (hC : C.Lawful) (hD : D.Lawful) (file : Bytes) (c : Compressed) (m : ℕ) (a : Accumulator K L)
    (h : readSubaccumulator r C D m file c = .ok a) : a.Sized (2 * m - 1) m ∧ a.All (Good C) (Good D) := by
  unfold readSubaccumulator at h
  rcases h1 : readPowers r C true m file .tauG1 c with e | t1 <;> simp only [h1] at h
  · cases h
  rcases h2 : readPowers r D false m file .tauG2 c with e | t2 <;> simp only [h2] at h
  · cases h
  rcases h3 : readPowers r C true m file .alphaG1 c with e | al <;> simp only [h3] at h
  · cases h
  rcases h4 : readPowers r C true m file .betaG1 c with e | be <;> simp only [h4] at h
  · cases h
  rcases h5 : readPowers r D false m file .betaG2 c with e | b2 <;> simp only [h5] at h
  · cases h
  rcases b2 with _ | ⟨b2, bs⟩ <;> simp only at h
  · cases h
  cases h
  have g1 := readPowers_ok hC r _ _ _ _ _ _ h1
  have g2 := readPowers_ok hD r _ _ _ _ _ _ h2
  have g3 := readPowers_ok hC r _ _ _ _ _ _ h3
  have g4 := readPowers_ok hC r _ _ _ _ _ _ h4
  have g5 := readPowers_ok hD r _ _ _ _ _ _ h5
  exact ⟨⟨by rw [g1.1, Element.numPowers, g1Powers_eq], g2.1, g3.1, g4.1⟩, ⟨g1.2, g2.2, g3.2, g4.2, g5.2 _ (by simp)⟩⟩

/-- A response file (header, compressed accumulator, uncompressed proof, anything) gives its proof. -/
theorem c107_proof_file (r : ℕ) (hC : C.Lawful) (hD : D.Lawful) (h1 : C.n = 1) (h2 : D.n = 2) (a : Accumulator K L)
    (hs : a.Sized (2 * 2 ^ r - 1) (2 ^ r)) (π : Proof K L) (hg : π.All (Good C) (Good D))
    (hz : π.All (· ≠ .zero) (· ≠ .zero)) (header rest : Bytes) (hh : header.length = 64) :
    readKzgProof r C D (header ++ a.bytes C D .yes ++ π.bytes C D .no ++ rest) = some (.ok π) := by
  have ht := tauPowers_eq r
  have h0 := Nat.two_pow_pos r
  have l1 := writeAll_length hC .yes a.tauG1
  have l2 := writeAll_length hD .yes a.tauG2
  have l3 := writeAll_length hC .yes a.alphaTau
  have l4 := writeAll_length hC .yes a.betaTau
  have l5 := writePoint_length hD .yes a.betaG2
  rw [hs.tauG1, h1] at l1
  rw [hs.tauG2, h2] at l2
  rw [hs.alpha, h1] at l3
  rw [hs.beta, h1] at l4
  rw [h2] at l5
  have hl : (header ++ a.bytes C D .yes).length = 64 + (g1Powers (tauPowers r) + 2 * tauPowers r) * 32 + (tauPowers r + 1) * 64 := by
    rw [g1Powers_eq, ht]
    simp only [Accumulator.bytes, List.length_append, hh, l1, l2, l3, l4, l5, pointSize]
    omega
  have hp : (π.bytes C D .no).length = 6 * 64 + 3 * 128 := by
    simp only [Proof.bytes, List.length_append, writePoint_length hC, writePoint_length hD, h1, h2, pointSize]
  unfold readKzgProof
  simp only
  generalize 64 + (g1Powers (tauPowers r) + 2 * tauPowers r) * 32 + (tauPowers r + 1) * 64 = n at hl
  rw [if_pos (by simp only [List.length_append] at hl ⊢; omega)]
  have : ((header ++ a.bytes C D .yes ++ π.bytes C D .no ++ rest).drop n).take (6 * 64 + 3 * 128) = π.bytes C D .no := by
    rw [List.append_assoc, ← hl, List.drop_left, ← hp, List.take_left]
  rw [this]
  have := c107_proof hC hD π hg hz .no []
  rw [List.append_nil] at this
  rw [this]

/-- An invalid point in an uncompressed file is not reported: the process panics. -/
theorem c107_invalid_violated (r : ℕ) (hC : C.Lawful) (h1 : C.n = 1) (a : Accumulator K L)
    (hs : a.Sized (2 * 2 ^ r - 1) (2 ^ r)) (header rest : Bytes) (hh : header.length = 64) (m : ℕ) (hm : m ≤ 2 ^ r)
    (p : Point K) (hp : p ∈ a.tauG1.take (2 * m - 1)) (hb : ¬ Good C p) :
    readSubaccumulator r C D m (header ++ a.bytes C D .no ++ rest) .no = .error .panic := by
  have ht := tauPowers_eq r
  have h0 := Nat.two_pow_pos r
  unfold readSubaccumulator
  have : readPowers r C true m (header ++ a.bytes C D .no ++ rest) .tauG1 .no = .error .panic := by
    unfold readPowers
    have hpos : position r 0 .tauG1 .no = some header.length := by simp [position, g1Powers_eq, ht, hh]; omega
    rw [hpos]
    have h := readElements_eq (rd := readUnchecked C) a.tauG1 (w := writePoint C .no) (size := 64)
      (fun p _ => readUnchecked_uncompressed hC p) (fun p => by rw [writePoint_length hC, h1]; rfl) (2 * m - 1)
      (by rw [hs.tauG1]; omega) header (writeAll (writePoint D .no) a.tauG2 ++
        writeAll (writePoint C .no) a.alphaTau ++ writeAll (writePoint C .no) a.betaTau ++ writePoint D .no a.betaG2 ++ rest)
    have hfile : header ++ a.bytes C D .no ++ rest = header ++ writeAll (writePoint C .no) a.tauG1 ++
        (writeAll (writePoint D .no) a.tauG2 ++ writeAll (writePoint C .no) a.alphaTau ++
        writeAll (writePoint C .no) a.betaTau ++ writePoint D .no a.betaG2 ++ rest) := by
      simp only [Accumulator.bytes, List.append_assoc]
    rw [hfile]
    simp only [Element.isG1, Element.size, Element.numPowers, g1Powers_eq, if_true, beq_self_eq_true]
    rw [h]
    simp only [checkElements]
    rw [if_neg]
    intro hall
    apply hb
    rw [← check_ok]
    have := List.all_eq_true.mp hall p hp
    rcases hc : check C p with e | u
    · rw [hc] at this; cases this
    · rfl
  rw [this]

/-- A ceremony with more powers than the file is not refused: its powers of `alpha` go on with those of `beta`. -/
theorem c107_oversized_violated (r : ℕ) (hC : C.Lawful) (hD : D.Lawful) (h1 : C.n = 1) (h2 : D.n = 2) (a : Accumulator K L)
    (hs : a.Sized (2 * 2 ^ r - 1) (2 ^ r)) (hg : a.All (Good C) (Good D)) (c : Compressed) (header rest : Bytes)
    (hh : header.length = 64) (k : ℕ) (hk : k ≤ 2 ^ r) :
    readPowers r C true (2 ^ r + k) (header ++ a.bytes C D c ++ rest) .alphaG1 c = .ok (a.alphaTau ++ a.betaTau.take k) := by
  have ht := tauPowers_eq r
  have h0 := Nat.two_pow_pos r
  have l1 := writeAll_length hC c a.tauG1
  have l2 := writeAll_length hD c a.tauG2
  rw [hs.tauG1] at l1
  rw [hs.tauG2] at l2
  have hpos : position r 0 .alphaG1 c = some (pointSize C.n c * (2 * 2 ^ r - 1) + pointSize D.n c * 2 ^ r + 64) := by
    cases c <;> simp [position, g1Powers_eq, ht, h1, h2, pointSize, h0]
  have e3 := readPowers_eq hC r true (2 ^ r + k) .alphaG1 c
    (header ++ writeAll (writePoint C c) a.tauG1 ++ writeAll (writePoint D c) a.tauG2)
    (writePoint D c a.betaG2 ++ rest) (a.alphaTau ++ a.betaTau)
    (by rw [hpos, List.length_append, List.length_append, hh, l1, l2]; congr 1; omega) rfl
    (by cases c <;> simp [Element.size, Element.isG1, pointSize, h1])
    (by rw [List.length_append, hs.alpha, hs.beta]; show 2 ^ r + k ≤ _; omega)
    (fun p hp => (List.mem_append.mp hp).elim (hg.alpha p) (hg.beta p))
  simp only [writeAll, List.flatMap_append, List.append_assoc] at e3
  simp only [Accumulator.bytes, writeAll, List.append_assoc]
  rw [e3]
  show Except.ok (List.take (2 ^ r + k) _) = _
  rw [← hs.alpha, List.take_length_add_append]

end
end Verif.Ppot
