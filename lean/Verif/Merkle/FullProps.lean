import Verif.Merkle.Full

/-! # Properties of the full tree: C01, C02, C03, C07 -/

namespace Verif.Merkle

variable {D N : Type} (H : Hash D N) (h : Nat)

/-! ## Histories -/

/-- Appending leaf digests one at a time, whatever the tree answers. -/
def Full.pushAll (t : Full D N) (ds : List D) : Full D N := ds.foldl (fun t d => (t.push H h d).2) t

theorem Full.push_eq (t : Full D N) (d : D) :
    t.push H h d = if t.leaves.length < capacity h then (true, t.pushLeaf H h t.len d) else (false, t) := by
  unfold Full.push Full.maybePush Full.len
  by_cases hc : t.leaves.length < capacity h
  · rw [if_neg (by omega), if_pos hc]; rfl
  · rw [if_pos (by omega), if_neg hc]; rfl

theorem Full.pushAll_spec : ∀ (ds : List D) {t : Full D N}, t.Inv H h →
    (t.pushAll H h ds).Inv H h ∧
      (t.pushAll H h ds).leaves = t.leaves ++ ds.take (capacity h - t.leaves.length)
  | [], t, hi => ⟨hi, by simp [Full.pushAll]⟩
  | d :: ds, t, hi => by
    have e : t.pushAll H h (d :: ds) = (t.push H h d).2.pushAll H h ds := rfl
    rw [e, Full.push_eq]
    by_cases hc : t.leaves.length < capacity h
    · rw [if_pos hc]
      obtain ⟨r1, r2⟩ := Full.pushAll_spec ds (Full.pushLeaf_inv H h hi.weak hc d)
      refine ⟨r1, ?_⟩
      rw [r2]
      simp only [Full.pushLeaf, List.length_append, List.length_singleton, List.append_assoc]
      have e1 : capacity h - t.leaves.length = (capacity h - (t.leaves.length + 1)) + 1 := by omega
      rw [e1, List.take_succ_cons]
      rfl
    · rw [if_neg hc]
      obtain ⟨r1, r2⟩ := Full.pushAll_spec ds hi
      refine ⟨r1, ?_⟩
      simp only
      rw [r2]
      have e1 : capacity h - t.leaves.length = 0 := by omega
      rw [e1]; simp

theorem Full.Inv.root {t : Full D N} (hi : t.Inv H h) : t.root H = specRoot H h t.leaves := by
  have := hi.2 h 0 (Nat.le_refl _) (by simp)
  unfold Rt at this
  rw [mi_root] at this
  exact this

theorem Full.Inv.path {t : Full D N} (hi : t.Inv H h) {i : Nat} (hlt : i < t.leaves.length) :
    t.path H h i = some (specPath H h t.leaves i) := by
  have hc : i < 2 ^ (h + 1) := Nat.lt_of_lt_of_le hlt hi.1
  unfold Full.path specPath
  rw [if_neg (by unfold Full.len; omega), innerPath_eq]
  congr 2
  refine List.map_congr_left fun k hk => ?_
  rw [List.mem_range] at hk
  exact hi.2 k _ (by omega) (sib_lt h hc hk)

/-! ## C01 -/

/-- **C01.** After any history of appends the leaves are the accepted digests, in order, and the root is their
reference root. -/
theorem c01_root (ds : List D) :
    ((Full.new : Full D N).pushAll H h ds).root H = specRoot H h (ds.take (2 ^ (h + 1))) ∧
      ((Full.new : Full D N).pushAll H h ds).leaves = ds.take (2 ^ (h + 1)) := by
  obtain ⟨h1, h2⟩ := Full.pushAll_spec H h ds (Full.inv_new (D := D) (N := N) H h)
  have e : (Full.new : Full D N).leaves ++ ds.take (capacity h - (Full.new : Full D N).leaves.length) =
      ds.take (2 ^ (h + 1)) := by simp [Full.new, capacity]
  rw [e] at h2
  exact ⟨by rw [h1.root, h2], h2⟩

/-- **C01**, two trees: the same accepted leaves give the same root, whatever else was tried. -/
theorem c01_determined (ds ds' : List D)
    (e : ((Full.new : Full D N).pushAll H h ds).leaves = ((Full.new : Full D N).pushAll H h ds').leaves) :
    ((Full.new : Full D N).pushAll H h ds).root H = ((Full.new : Full D N).pushAll H h ds').root H := by
  have h1 := c01_root H h ds
  have h2 := c01_root H h ds'
  rw [h1.1, h2.1, ← h1.2, ← h2.2, e]

/-! ## C02 -/

/-- **C02.** After any history of appends the path returned for an index below the length carries that index
and, folded with the stored leaf, gives the published root. -/
theorem c02_path_verifies [DecidableEq N] (ds : List D) (i : Nat) (d : D)
    (hd : ((Full.new : Full D N).pushAll H h ds).leaves[i]? = some d) :
    ∃ p, ((Full.new : Full D N).pushAll H h ds).path H h i = some p ∧ p.leafIndex = i ∧ p.path.length = h ∧
      p.verify H (((Full.new : Full D N).pushAll H h ds).root H) d = true := by
  obtain ⟨h1, _⟩ := Full.pushAll_spec H h ds (Full.inv_new (D := D) (N := N) H h)
  generalize (Full.new : Full D N).pushAll H h ds = t at *
  have hlt : i < t.leaves.length := by
    rcases Nat.lt_or_ge i t.leaves.length with hl | hl
    · exact hl
    · rw [List.getElem?_eq_none hl] at hd; cases hd
  refine ⟨_, h1.path H h hlt, rfl, by simp [specPath], ?_⟩
  have hr := specPath_root H h hlt (Nat.lt_of_lt_of_le hlt h1.1)
  rw [hd] at hr
  simp only [Path.verify, decide_eq_true_eq]
  rw [h1.root]
  exact hr.symm

/-- **C02.** A nonzero index at or beyond the length is refused. -/
theorem c02_out_of_range (ds : List D) (i : Nat) (h0 : 0 < i) (hi : min ds.length (2 ^ (h + 1)) ≤ i) :
    ((Full.new : Full D N).pushAll H h ds).path H h i = none := by
  have hl := (c01_root (N := N) H h ds).2
  unfold Full.path Full.len
  rw [hl, List.length_take, if_pos ⟨h0, by omega⟩]

/-- Index `0` of an empty tree is not refused: the code returns a path although there is no leaf. -/
theorem c02_empty_zero : ∃ p, (Full.new : Full D N).path H h 0 = some p :=
  ⟨_, by simp [Full.path]; rfl⟩

/-! ## C03 -/

/-- **C03.** An append succeeds exactly while fewer than `2 ^ (HEIGHT - 1)` leaves are stored; a success adds
the leaf at the end and keeps all earlier leaves, a refusal changes nothing. -/
theorem c03_push (ds : List D) (d : D) :
    let t := (Full.new : Full D N).pushAll H h ds
    t.len = min ds.length (2 ^ (h + 1)) ∧
    ((t.push H h d).1 = true ↔ ds.length < 2 ^ (h + 1)) ∧
    ((t.push H h d).1 = true → (t.push H h d).2.leaves = t.leaves ++ [d]) ∧
    ((t.push H h d).1 = false → (t.push H h d).2 = t) := by
  have hl := (c01_root (N := N) H h ds).2
  simp only
  generalize (Full.new : Full D N).pushAll H h ds = t at *
  have hlen : t.leaves.length = min ds.length (2 ^ (h + 1)) := by rw [hl, List.length_take]; omega
  rw [Full.push_eq]
  refine ⟨hlen, ?_, ?_, ?_⟩
  · unfold capacity
    by_cases hc : t.leaves.length < 2 ^ (h + 1)
    · rw [if_pos hc]; simp; omega
    · rw [if_neg hc]; simp; omega
  · unfold capacity
    by_cases hc : t.leaves.length < 2 ^ (h + 1)
    · rw [if_pos hc]; intro _; rfl
    · rw [if_neg hc]; intro h'; cases h'
  · unfold capacity
    by_cases hc : t.leaves.length < 2 ^ (h + 1)
    · rw [if_pos hc]; intro h'; cases h'
    · rw [if_neg hc]; intro _; rfl

/-- The bulk append of a full tree. -/
def Full.extend (t : Full D N) (ds : List D) : Ext (Full D N) :=
  extendDigests h Full.len (fun t d => t.maybePush H h d) t ds

theorem Full.extendLoop_spec : ∀ (ds : List D) (t : Full D N),
    (t.leaves.length + ds.length < capacity h →
      extendLoop (fun t d => Full.maybePush H h t d) ds t = .ok (t.pushAll H h ds)) ∧
    (t.leaves.length + ds.length = capacity h →
      extendLoop (fun t d => Full.maybePush H h t d) ds t = .panic (t.pushAll H h ds))
  | [], t => by
    refine ⟨fun hc => ?_, fun hc => ?_⟩
    · have : t.maybePush H h (none : Option D) = (none, t) := by
        unfold Full.maybePush Full.len
        rw [if_neg (by simp at hc; omega)]
      simp only [extendLoop, this]; rfl
    · have : t.maybePush H h (none : Option D) = (some false, t) := by
        unfold Full.maybePush Full.len
        rw [if_pos (by simp at hc; omega)]
      simp only [extendLoop, this]; rfl
  | d :: ds, t => by
    have ih := Full.extendLoop_spec ds (t.pushLeaf H h t.len d)
    have hl : (t.pushLeaf H h t.len d).leaves.length = t.leaves.length + 1 := by simp [Full.pushLeaf]
    rw [hl] at ih
    have hstep : ∀ (_ : t.leaves.length < capacity h),
        t.maybePush H h (some d) = (some true, t.pushLeaf H h t.len d) ∧
        t.pushAll H h (d :: ds) = (t.pushLeaf H h t.len d).pushAll H h ds := by
      intro hc
      refine ⟨?_, ?_⟩
      · unfold Full.maybePush Full.len
        rw [if_neg (by omega)]
      · show (t.push H h d).2.pushAll H h ds = _
        rw [Full.push_eq, if_pos hc]
    simp only [List.length_cons]
    refine ⟨fun hc => ?_, fun hc => ?_⟩
    · obtain ⟨e1, e2⟩ := hstep (by omega)
      simp only [extendLoop, e1, e2]
      exact ih.1 (by omega)
    · obtain ⟨e1, e2⟩ := hstep (by omega)
      simp only [extendLoop, e1, e2]
      exact ih.2 (by omega)

/-- **C03, bulk appends (partial).** A bulk append that leaves room behind adds all leaves, one that does not
fit changes nothing.  Missing: the bulk that fills the tree exactly, see `c03_extend_exact_panics`. -/
theorem c03_extend_partial (ds es : List D) :
    let t := (Full.new : Full D N).pushAll H h ds
    (t.len + es.length < 2 ^ (h + 1) → ∃ t', t.extend H h es = .ok t' ∧ t'.leaves = t.leaves ++ es ∧
      t'.root H = specRoot H h (t.leaves ++ es)) ∧
    (2 ^ (h + 1) < t.len + es.length → t.extend H h es = .refused t) := by
  obtain ⟨h1, _⟩ := Full.pushAll_spec H h ds (Full.inv_new (D := D) (N := N) H h)
  simp only
  generalize (Full.new : Full D N).pushAll H h ds = t at *
  unfold Full.len
  refine ⟨fun hc => ?_, fun hc => ?_⟩
  · refine ⟨t.pushAll H h es, ?_, ?_⟩
    · unfold Full.extend extendDigests
      rw [if_pos (by unfold Full.len capacity; omega)]
      exact (Full.extendLoop_spec H h es t).1 hc
    · obtain ⟨r1, r2⟩ := Full.pushAll_spec H h es h1
      have e : es.take (capacity h - t.leaves.length) = es :=
        List.take_of_length_le (by unfold capacity; omega)
      rw [e] at r2
      exact ⟨r2, by rw [r1.root, r2]⟩
  · unfold Full.extend extendDigests
    have hle := h1.1
    rw [if_neg (by unfold Full.len capacity at *; omega)]

/-- The bulk append that fills the tree exactly appends every leaf and then panics: after the last leaf the loop
asks the tree once more, and a full tree answers before looking for a digest. -/
theorem c03_extend_exact_panics (t : Full D N) (es : List D) (hc : t.len + es.length = 2 ^ (h + 1)) :
    t.extend H h es = .panic (t.pushAll H h es) := by
  unfold Full.len at hc
  unfold Full.extend extendDigests
  rw [if_pos (by unfold Full.len capacity; omega)]
  exact (Full.extendLoop_spec H h es t).2 hc

/-! ## C07 -/

/-- The default batch append of a tree (tree.rs:317): one at a time until one is refused. -/
def Full.seqPush (t : Full D N) : List D → Bool × Full D N
  | [] => (true, t)
  | d :: ds => match t.push H h d with
    | (true, t) => t.seqPush ds
    | (false, t) => (false, t)

theorem Full.seqPush_spec : ∀ (ds : List D) {t : Full D N}, t.leaves.length ≤ capacity h →
    (t.seqPush H h ds).1 = decide (t.leaves.length + ds.length ≤ capacity h) ∧
      (t.seqPush H h ds).2 = t.pushAll H h ds
  | [], t, hl => by simp [Full.seqPush, Full.pushAll, hl]
  | d :: ds, t, hl => by
    have e : t.pushAll H h (d :: ds) = (t.push H h d).2.pushAll H h ds := rfl
    have hp := Full.push_eq H h t d
    rw [e]
    by_cases hc : t.leaves.length < capacity h
    · rw [if_pos hc] at hp
      have hl' : (t.pushLeaf H h t.len d).leaves.length = t.leaves.length + 1 := by simp [Full.pushLeaf]
      obtain ⟨r1, r2⟩ := Full.seqPush_spec ds (t := t.pushLeaf H h t.len d) (by omega)
      simp only [Full.seqPush, hp]
      refine ⟨?_, r2⟩
      rw [r1, hl', decide_eq_decide, List.length_cons]; omega
    · rw [if_neg hc] at hp
      simp only [Full.seqPush, hp]
      refine ⟨?_, ?_⟩
      · symm; rw [decide_eq_false_iff_not, List.length_cons]; omega
      · have : ∀ (es : List D), t.pushAll H h es = t := by
          intro es
          induction es with
          | nil => rfl
          | cons x xs ih =>
            show (t.push H h x).2.pushAll H h xs = t
            rw [Full.push_eq, if_neg hc]
            exact ih
        exact (this ds).symm

/-- What a batch append does to a tree of which the nodes not above the next leaf are right. -/
theorem Full.batchPush_spec {t : Full D N} (hw : t.WInv H h) (ds : List D) :
    ∃ t', t.batchPush H h ds = some (decide (t.leaves.length + ds.length ≤ capacity h), t') ∧
      t'.leaves = t.leaves ++ ds.take (capacity h - t.leaves.length) ∧ t'.WInv H h ∧
      (t.Inv H h → ¬ Misaligned h t.leaves.length t'.leaves.length → t'.Inv H h) := by
  have hle := hw.1
  have key : ∀ es : List D, es ≠ [] → t.leaves.length + es.length ≤ capacity h →
      ∃ m, t.batchPushLeaves H h ⟨t.len, es.length - 1⟩ es = some ⟨t.leaves ++ es, m⟩ ∧
        Full.WInv H h ⟨t.leaves ++ es, m⟩ ∧
        (t.Inv H h → ¬ Misaligned h t.leaves.length (t.leaves ++ es).length →
          Full.Inv H h ⟨t.leaves ++ es, m⟩) := by
    intro es hes hces
    have hq : 0 < es.length := List.length_pos_iff.mpr hes
    obtain ⟨m, e1, e2⟩ := Full.batchPushLeaves_spec H h hw hes hces
      (guard_next h (n := t.leaves.length) (e := t.leaves.length + es.length))
    refine ⟨m, e1, ⟨by simpa using hces, ?_⟩, ?_⟩
    · intro k i hk hi hne
      refine e2 k i hk hi ?_
      rw [List.length_append] at hne
      exact hne
    · intro _ hal
      rw [List.length_append] at hal
      obtain ⟨m', e1', e2'⟩ := Full.batchPushLeaves_spec H h hw hes hces (guard_aligned h hal)
      rw [e1] at e1'
      simp only [Option.some.injEq, Full.mk.injEq, true_and] at e1'
      subst e1'
      exact ⟨by simpa using hces, fun k i hk hi => e2' k i hk hi trivial⟩
  unfold Full.batchPush Full.len
  by_cases h0 : ds = []
  · subst h0
    rw [if_pos rfl]
    exact ⟨t, by simp [hle], by simp, hw, fun hi _ => hi⟩
  · rw [if_neg h0]
    by_cases hov : t.leaves.length + ds.length > capacity h
    · rw [if_pos hov]
      by_cases hz : capacity h - t.leaves.length ≠ 0
      · have hlen : (ds.take (capacity h - t.leaves.length)).length = capacity h - t.leaves.length := by
          rw [List.length_take]; omega
        obtain ⟨m, e1, e2, e3⟩ := key (ds.take (capacity h - t.leaves.length))
          (by intro e; rw [e] at hlen; simp at hlen; omega) (by omega)
        refine ⟨⟨t.leaves ++ ds.take (capacity h - t.leaves.length), m⟩, ?_, rfl, e2, e3⟩
        simp only [if_pos hz]
        rw [hlen] at e1
        simp only [Full.len] at e1
        rw [e1]
        simp only [Option.map_some, Option.some.injEq, Prod.mk.injEq, and_true]
        symm; rw [decide_eq_false_iff_not]; omega
      · refine ⟨t, ?_, ?_, hw, fun hi _ => hi⟩
        · simp only [if_neg hz, Option.some.injEq, Prod.mk.injEq, and_true]
          symm; rw [decide_eq_false_iff_not]; omega
        · have : capacity h - t.leaves.length = 0 := by omega
          rw [this]; simp
    · rw [if_neg hov]
      obtain ⟨m, e1, e2, e3⟩ := key ds h0 (by omega)
      refine ⟨⟨t.leaves ++ ds, m⟩, ?_, ?_, e2, e3⟩
      · simp only [Full.len] at e1
        rw [e1]
        simp only [Option.map_some, Option.some.injEq, Prod.mk.injEq, and_true]
        symm; rw [decide_eq_true_iff]; omega
      · simp only
        rw [List.take_of_length_le (by omega)]

/-- Operations that append to a full tree. -/
inductive FOp (D : Type)
  | push (d : D)
  | batch (ds : List D)

/-- A history of appends; `none` is a panic. -/
def Full.run (t : Full D N) : List (FOp D) → Option (Full D N)
  | [] => some t
  | .push d :: ops => (t.push H h d).2.run ops
  | .batch ds :: ops => match t.batchPush H h ds with
    | some (_, t) => t.run ops
    | none => none

/-- The digests a history tries to append, in order. -/
def FOp.digests : List (FOp D) → List D
  | [] => []
  | .push d :: ops => d :: FOp.digests ops
  | .batch ds :: ops => ds ++ FOp.digests ops

theorem Full.run_spec : ∀ (ops : List (FOp D)) {t : Full D N}, t.WInv H h →
    ∃ t', t.run H h ops = some t' ∧ t'.WInv H h ∧
      t'.leaves = t.leaves ++ (FOp.digests ops).take (capacity h - t.leaves.length)
  | [], t, hw => ⟨t, rfl, hw, by simp [FOp.digests]⟩
  | .push d :: ops, t, hw => by
    have hle := hw.1
    have hw' : (t.push H h d).2.WInv H h := by
      rw [Full.push_eq]
      split
      · next hc => exact (Full.pushLeaf_inv H h hw hc d).weak
      · exact hw
    obtain ⟨t', r1, r2, r3⟩ := Full.run_spec ops hw'
    refine ⟨t', r1, r2, ?_⟩
    rw [r3, Full.push_eq]
    by_cases hc : t.leaves.length < capacity h
    · rw [if_pos hc]
      have e1 : capacity h - t.leaves.length = (capacity h - (t.leaves.length + 1)) + 1 := by omega
      simp only [Full.pushLeaf, List.length_append, List.length_singleton, List.append_assoc, FOp.digests]
      rw [e1, List.take_succ_cons]; rfl
    · rw [if_neg hc]
      have e1 : capacity h - t.leaves.length = 0 := by omega
      simp [e1]
  | .batch ds :: ops, t, hw => by
    have hle := hw.1
    obtain ⟨t1, e1, e2, e3, _⟩ := Full.batchPush_spec H h hw ds
    obtain ⟨t', r1, r2, r3⟩ := Full.run_spec ops e3
    refine ⟨t', ?_, r2, ?_⟩
    · simp only [Full.run, e1]; exact r1
    · rw [r3, e2]
      simp only [FOp.digests, List.take_append, List.append_assoc, List.length_append, List.length_take]
      congr 3
      omega

/-- **C07 (partial).** Appending a list in one batch to a tree built by single appends answers like
appending one at a time, and gives the same leaves, root and paths — unless the batch is misaligned, that is
unless on some layer of inner nodes it starts at a right node and ends at a left node.  Missing: misaligned
batches, for which the claim is false (`c07_violated`). -/
theorem c07_batch_partial (ds es : List D)
    (hal : ¬ Misaligned h (min ds.length (2 ^ (h + 1))) (min (ds.length + es.length) (2 ^ (h + 1)))) :
    let t := (Full.new : Full D N).pushAll H h ds
    ∃ t', t.batchPush H h es = some ((t.seqPush H h es).1, t') ∧
      t'.leaves = (t.seqPush H h es).2.leaves ∧ t'.root H = (t.seqPush H h es).2.root H ∧
      (t'.leaves ≠ [] → ∀ i, t'.path H h i = (t.seqPush H h es).2.path H h i) := by
  obtain ⟨h1, h2⟩ := Full.pushAll_spec H h ds (Full.inv_new (D := D) (N := N) H h)
  have hl : ((Full.new : Full D N).pushAll H h ds).leaves.length = min ds.length (2 ^ (h + 1)) := by
    rw [(c01_root (N := N) H h ds).2, List.length_take]; omega
  simp only
  generalize (Full.new : Full D N).pushAll H h ds = t at *
  obtain ⟨t', e1, e2, e3, e4⟩ := Full.batchPush_spec H h h1.weak es
  obtain ⟨s1, s2⟩ := Full.seqPush_spec H h es h1.1
  obtain ⟨p1, p2⟩ := Full.pushAll_spec H h es h1
  have hle := h1.1
  have hll : t'.leaves.length = min (ds.length + es.length) (2 ^ (h + 1)) := by
    rw [e2, List.length_append, List.length_take, hl]
    unfold capacity at *
    omega
  have hinv := e4 h1 (by rw [hl, hll]; exact hal)
  have hleaves : t'.leaves = (t.pushAll H h es).leaves := by rw [e2, p2]
  refine ⟨t', by rw [s1]; exact e1, by rw [s2, hleaves], ?_, ?_⟩
  · rw [s2, hinv.root, p1.root, hleaves]
  · intro hne i
    rw [s2]
    have hpos := List.length_pos_iff.mpr hne
    by_cases hi : i < t'.leaves.length
    · rw [hinv.path H h hi, p1.path H h (hleaves ▸ hi), hleaves]
    · unfold Full.path Full.len
      rw [if_pos (by omega), if_pos (by rw [← hleaves]; omega)]

/-- A batch into an empty tree is never misaligned. -/
theorem aligned_zero (e : Nat) : ¬ Misaligned h 0 e := by
  rintro ⟨k, _, h1, _⟩; simp at h1

/-- A batch of one leaf is never misaligned. -/
theorem aligned_one (n : Nat) : ¬ Misaligned h n (n + 1) := by
  rintro ⟨k, _, h1, h2⟩
  rw [Nat.add_sub_cancel] at h2
  omega

/-- A batch that fills the tree is never misaligned. -/
theorem aligned_full (n : Nat) : ¬ Misaligned h n (2 ^ (h + 1)) := by
  rintro ⟨k, hk, _, h2⟩
  have e : (2 ^ (h + 1) - 1) / 2 ^ (k + 1) = 2 * (2 ^ (h - k - 1) - 1) + 1 := by
    rw [div_pow_eq_iff]
    have e1 : 2 ^ (h + 1) = 2 * 2 ^ (h - k - 1) * 2 ^ (k + 1) := by
      rw [Nat.mul_comm 2, ← Nat.pow_succ, ← Nat.pow_add]; congr 1; omega
    have p1 := Nat.two_pow_pos (h - k - 1)
    have p2 := Nat.two_pow_pos (k + 1)
    rw [e1]
    constructor
    · have : 2 * (2 ^ (h - k - 1) - 1) + 1 = 2 * 2 ^ (h - k - 1) - 1 := by omega
      rw [this, Nat.sub_mul]
      omega
    · have : 2 * (2 ^ (h - k - 1) - 1) + 1 + 1 = 2 * 2 ^ (h - k - 1) := by omega
      rw [this]
      have : 0 < 2 * 2 ^ (h - k - 1) * 2 ^ (k + 1) := Nat.mul_pos (by omega) p2
      omega
  rw [e] at h2
  omega

/-- **C07 (partial).** For every history mixing batches and single appends no operation panics, the leaves
are the accepted digests in order, and once a single append succeeds the root and every path are those of the
leaf sequence, as if everything had been appended one at a time. -/
theorem c07_settled_partial (ops : List (FOp D)) (d : D) :
    ∃ t, (Full.new : Full D N).run H h ops = some t ∧
      t.leaves = (FOp.digests ops).take (2 ^ (h + 1)) ∧
      ((t.push H h d).1 = true →
        (t.push H h d).2.root H = specRoot H h (FOp.digests ops ++ [d]) ∧
        ∀ i, i ≤ (FOp.digests ops).length →
          (t.push H h d).2.path H h i = some (specPath H h (FOp.digests ops ++ [d]) i)) := by
  obtain ⟨t, e1, e2, e3⟩ := Full.run_spec H h ops (Full.inv_new (D := D) (N := N) H h).weak
  have e3' : t.leaves = (FOp.digests ops).take (2 ^ (h + 1)) := by
    rw [e3]; simp [Full.new, capacity]
  refine ⟨t, e1, e3', ?_⟩
  rw [Full.push_eq]
  by_cases hc : t.leaves.length < capacity h
  · rw [if_pos hc]
    intro _
    have hfull : t.leaves = FOp.digests ops := by
      rw [e3', List.take_of_length_le]
      rw [e3', List.length_take] at hc
      unfold capacity at hc
      omega
    have hinv := Full.pushLeaf_inv H h e2 hc d
    have hl : (t.pushLeaf H h t.len d).leaves = FOp.digests ops ++ [d] := by
      simp only [Full.pushLeaf, hfull]
    refine ⟨by rw [hinv.root, hl], ?_⟩
    intro i hi
    rw [hinv.path H h (by rw [hl]; simp; omega), hl]
  · rw [if_neg hc]; intro h'; cases h'

/-! ## Concrete trees -/

/-- A hash whose values are visible: digests are numbers, pairs are coded in base `100000`. -/
def tHash : Hash Nat Nat := ⟨0, 0, fun a b => 1 + 10 * a + 7 * b, fun a b => 1 + 3 * a + 100000 * b⟩

/-- Appending a batch of four leaves to a tree of eight leaves that holds two: the root, and the root obtained
one at a time, differ. -/
theorem c07_violated :
    let t := (Full.new : Full Nat Nat).pushAll tHash 2 [1, 2]
    ∃ t', t.batchPush tHash 2 [3, 4, 5, 6] = some (true, t') ∧
      t'.root tHash ≠ (t.seqPush tHash 2 [3, 4, 5, 6]).2.root tHash ∧
      t'.leaves = [1, 2, 3, 4, 5, 6] ∧
      ∃ p, t'.path tHash 2 4 = some p ∧ p.verify tHash (t'.root tHash) 5 = false := by
  refine ⟨⟨[1, 2, 3, 4, 5, 6], _⟩, rfl, ?_⟩
  decide

example : Misaligned 2 2 6 := by decide
example : ¬ Misaligned 2 1 6 := by decide
example : ¬ Misaligned 18 0 300000 := aligned_zero 18 300000

/-- Five appends to a tree with two inner layers: the root is the reference root, which is not a default. -/
example : ((Full.new : Full Nat Nat).pushAll tHash 2 [3, 1, 4, 1, 5]).root tHash =
      specRoot tHash 2 [3, 1, 4, 1, 5] ∧ specRoot tHash 2 [3, 1, 4, 1, 5] ≠ 0 := by decide

example : ((Full.new : Full Nat Nat).pushAll tHash 1 [3, 1, 4, 1, 5]).leaves = [3, 1, 4, 1] := by decide

/-- A bulk append that fills a tree of four leaves exactly. -/
example : (Full.extend tHash 1 ((Full.new : Full Nat Nat).pushAll tHash 1 [3]) [1, 4, 1]) =
    .panic (((Full.new : Full Nat Nat).pushAll tHash 1 [3]).pushAll tHash 1 [1, 4, 1]) :=
  c03_extend_exact_panics tHash 1 _ _ (by decide)

example : ∃ t, (Full.new : Full Nat Nat).run tHash 2 [.push 1, .push 2, .batch [3, 4, 5, 6]] = some t ∧
    (t.push tHash 2 7).1 = true := ⟨_, rfl, by decide⟩

end Verif.Merkle
