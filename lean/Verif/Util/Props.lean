import Verif.Util.Model

/-!
# Properties of the sequence utilities (C48, C49, C50)
-/

namespace Verif.Util

/-! ## C48 duplicate check -/

/-- Specification: no two different positions hold related elements (earlier one first). -/
def NoTwoRelated (r : α → α → Prop) (xs : List α) : Prop :=
  ∀ i j : Nat, ∀ a b : α, i < j → xs[i]? = some a → xs[j]? = some b → ¬ r a b

/-- C48: `all_unequal` accepts exactly the lists without two related positions. -/
theorem c48_all_unequal_exact (eq : α → α → Bool) (xs : List α) :
    allUnequal eq xs = true ↔ NoTwoRelated (fun a b => eq a b = true) xs := by
  induction xs with
  | nil => simp [allUnequal, NoTwoRelated]
  | cons x rest ih =>
    constructor
    · intro h
      simp only [allUnequal] at h
      split at h
      · cases h
      · rename_i hany
        have hrest := ih.mp h
        intro i j a b hij ha hb hr
        cases j with
        | zero => omega
        | succ j =>
          simp only [List.getElem?_cons_succ] at hb
          cases i with
          | zero =>
            simp only [List.getElem?_cons_zero, Option.some.injEq] at ha
            subst ha
            exact hany (List.any_eq_true.mpr ⟨b, List.mem_of_getElem? hb, hr⟩)
          | succ i =>
            simp only [List.getElem?_cons_succ] at ha
            exact hrest i j a b (by omega) ha hb hr
    · intro h
      have hrest : allUnequal eq rest = true := by
        apply ih.mpr
        intro i j a b hij ha hb
        exact h (i + 1) (j + 1) a b (by omega) (by simpa using ha) (by simpa using hb)
      have hany : ¬ (rest.any (fun y => eq x y) = true) := by
        intro hc
        obtain ⟨y, hy, hr⟩ := List.any_eq_true.mp hc
        obtain ⟨j, hj⟩ := List.getElem?_of_mem hy
        exact h 0 (j + 1) x y (by omega) rfl (by simpa using hj) hr
      simp [allUnequal, hany, hrest]

/-- With real equality this is "no duplicates". -/
theorem c48_all_unequal_nodup [DecidableEq α] (xs : List α) :
    allUnequal (fun a b => decide (a = b)) xs = true ↔ xs.Nodup := by
  induction xs with
  | nil => simp [allUnequal]
  | cons x rest ih =>
    simp only [allUnequal, List.nodup_cons]
    by_cases h : x ∈ rest
    · have : rest.any (fun y => decide (x = y)) = true := List.any_eq_true.mpr ⟨x, h, by simp⟩
      simp [this, h]
    · have : ¬ (rest.any (fun y => decide (x = y)) = true) := by
        intro hc
        obtain ⟨y, hy, hxy⟩ := List.any_eq_true.mp hc
        simp only [decide_eq_true_eq] at hxy
        exact h (hxy ▸ hy)
      simp [this, h, ih]

example : allUnequal (fun a b => decide (a = b)) [3, 1, 2] = true ∧
    allUnequal (fun a b => decide (a = b)) [3, 1, 3] = false := by decide

/-! ## C49 chunking -/

theorem pull_spec (n : Nat) (vec iter : List α) :
    pull n vec iter =
      (vec ++ iter.take n, iter.drop n, decide (n ≤ iter.length)) := by
  induction n generalizing vec iter with
  | zero => simp [pull]
  | succ n ih =>
    cases iter with
    | nil => simp [pull]
    | cons x rest => simp [pull, ih]

/-- C49 (completeness and order): for every chunk size `N > 0` the consumer loop ends after at
most `length / N + 1` calls; the chunks all have length `N`, the remainder is available and
shorter than `N`, and chunks followed by the remainder are the original sequence. -/
theorem c49_chunk_by (N : Nat) (hN : 0 < N) (xs : List α) (fuel : Nat) (hf : xs.length / N < fuel) :
    ∃ rem, ((ChunkBy.new xs).drain N fuel).2.2 = true ∧
      ((ChunkBy.new xs).drain N fuel).2.1.remainder? = some rem ∧
      rem.length < N ∧
      (∀ c ∈ ((ChunkBy.new xs).drain N fuel).1, c.length = N) ∧
      ((ChunkBy.new xs).drain N fuel).1.flatten ++ rem = xs := by
  induction fuel generalizing xs with
  | zero => exact absurd hf (Nat.not_lt_zero _)
  | succ fuel ih =>
    by_cases hle : N ≤ xs.length
    · have hnext : (ChunkBy.new xs).next N = (some (xs.take N), ChunkBy.new (xs.drop N)) := by
        simp [ChunkBy.next, ChunkBy.new, pull_spec, hle]
      have hlen : (xs.drop N).length / N < fuel := by
        rw [List.length_drop]
        have := Nat.div_eq_sub_div hN hle
        omega
      obtain ⟨rem, h1, h2, h3, h4, h5⟩ := ih (xs.drop N) hlen
      refine ⟨rem, ?_, ?_, h3, ?_, ?_⟩
      · simpa [ChunkBy.drain, hnext] using h1
      · simpa [ChunkBy.drain, hnext] using h2
      · simp only [ChunkBy.drain, hnext, List.mem_cons]
        rintro c (rfl | hc)
        · simp [hle]
        · exact h4 c hc
      · simp only [ChunkBy.drain, hnext, List.flatten_cons, List.append_assoc, h5,
          List.take_append_drop]
    · have hnext : (ChunkBy.new xs).next N = (none, ⟨[], some xs⟩) := by
        simp [ChunkBy.next, ChunkBy.new, pull_spec, hle, List.take_of_length_le (by omega : xs.length ≤ N),
          List.drop_eq_nil_of_le (by omega : xs.length ≤ N)]
      refine ⟨xs, ?_, ?_, by omega, ?_, ?_⟩ <;>
        simp [ChunkBy.drain, hnext, ChunkBy.remainder?]

/-- C49: the remainder cannot be read (panic) before the loop has ended, and once `next` returned
`None` it returns `None` for ever without changing anything (fused). -/
theorem c49_chunk_by_fused (N : Nat) (s : ChunkBy α) :
    ((s.next N).1 = none → (s.next N).2.remainder?.isSome = true ∧
      ∀ M, (s.next N).2.next M = (none, (s.next N).2)) ∧
    ((s.next N).1 ≠ none → (s.next N).2.remainder? = none) := by
  obtain ⟨iter, remainder⟩ := s
  cases remainder with
  | some r => simp [ChunkBy.next, ChunkBy.remainder?]
  | none =>
    by_cases h : N ≤ iter.length <;> simp [ChunkBy.next, ChunkBy.remainder?, pull_spec, h]

example : ((ChunkBy.new [1, 2, 3, 4, 5]).drain 2 3).1 = [[1, 2], [3, 4]] := by decide

theorem chunksExact_spec (width : Nat) (hw : 0 < width) (xs : List α) :
    (chunksExact width xs).1.flatten ++ (chunksExact width xs).2 = xs ∧
    (∀ c ∈ (chunksExact width xs).1, c.length = width) ∧
    (chunksExact width xs).2.length < width ∧
    (chunksExact width xs).1.length = xs.length / width := by
  induction h : xs.length using Nat.strongRecOn generalizing xs with
  | ind n ih =>
    rw [chunksExact]
    split
    · rename_i hle
      have hlt : (xs.drop width).length < n := by simp only [List.length_drop]; omega
      obtain ⟨h1, h2, h3, h4⟩ := ih _ hlt (xs.drop width) rfl
      refine ⟨?_, ?_, h3, ?_⟩
      · simp only [List.flatten_cons, List.append_assoc, h1, List.take_append_drop]
      · intro c hc
        simp only [List.mem_cons] at hc
        rcases hc with rfl | hc
        · simp [hle.2]
        · exact h2 c hc
      · simp only [List.length_cons, h4, List.length_drop, h]
        rw [Nat.div_eq_sub_div hw (by omega : width ≤ n)]
    · rename_i hle
      have : xs.length < width := by omega
      subst h
      simp [this, Nat.div_eq_of_lt this]

/-- C49 for padded chunks: the call panics exactly for width 0; otherwise every chunk has the
requested width, their concatenation is the slice followed by padding only, and there are exactly
`length / width + 1` chunks. -/
theorem c49_padded_chunks (xs : List α) (width : Nat) (d : α) :
    (paddedChunksWith xs width d = none ↔ width = 0) ∧
    ∀ cs, paddedChunksWith xs width d = some cs →
      (∀ c ∈ cs, c.length = width) ∧ cs.length = xs.length / width + 1 ∧
      ∃ k, 0 < k ∧ k ≤ width ∧ cs.flatten = xs ++ List.replicate k d := by
  unfold paddedChunksWith
  constructor
  · split <;> simp_all
  · intro cs hcs
    split at hcs
    · cases hcs
    · rename_i hw
      have hw : 0 < width := by omega
      obtain ⟨h1, h2, h3, h4⟩ := chunksExact_spec width hw xs
      simp only [Option.some.injEq] at hcs
      subst hcs
      refine ⟨?_, by simp [h4], width - (chunksExact width xs).2.length, by omega, by omega, ?_⟩
      · intro c hc
        simp only [List.mem_append, List.mem_singleton] at hc
        rcases hc with hc | rfl
        · exact h2 c hc
        · simp; omega
      · simp only [List.flatten_append, List.flatten_cons, List.flatten_nil, List.append_nil]
        rw [← List.append_assoc, h1]

/-- Deviation from the doc comment of `padded_chunks_with` ("pads the last vector ... if its length
is less than `width`"): when the width divides the length, a chunk made only of padding is added.
Full statement that fails: "if `width` divides the length, the chunks are exactly the slice". -/
theorem c49_padded_chunks_extra_chunk (xs : List α) (width : Nat) (d : α) (hw : 0 < width)
    (hdiv : xs.length % width = 0) :
    ∃ cs, paddedChunksWith xs width d = some (cs ++ [List.replicate width d]) ∧ cs.flatten = xs := by
  obtain ⟨h1, h2, h3, h4⟩ := chunksExact_spec width hw xs
  have hlen := congrArg List.length h1
  rw [List.length_append, List.length_flatten] at hlen
  have hsum : ((chunksExact width xs).1.map List.length).sum =
      (chunksExact width xs).1.length * width := by
    generalize (chunksExact width xs).1 = cs at h2
    clear h1 h4 hlen
    induction cs with
    | nil => simp
    | cons c cs ih =>
      simp only [List.map_cons, List.sum_cons, List.length_cons]
      rw [ih (fun c hc => h2 c (List.mem_cons_of_mem _ hc)), h2 c List.mem_cons_self, Nat.add_mul]
      omega
  have hdm := Nat.div_add_mod xs.length width
  rw [hsum, h4, Nat.mul_comm] at hlen
  have hz : (chunksExact width xs).2 = [] := List.eq_nil_of_length_eq_zero (by omega)
  refine ⟨(chunksExact width xs).1, ?_, by simpa [hz] using h1⟩
  have : width ≠ 0 := by omega
  simp [paddedChunksWith, this, hz]

example : paddedChunksWith [1, 2, 3, 4] 2 0 = some [[1, 2], [3, 4], [0, 0]] := by
  simp [paddedChunksWith, chunksExact]

/-- `take` returns the element at the position and panics exactly out of range. -/
theorem vecTake_spec (xs : List α) (n : Nat) : vecTake xs n = xs[n]? := by
  simp [vecTake]

/-- `take_first` returns the first element, and panics without one. -/
theorem vecTakeFirst_spec (xs : List α) : vecTakeFirst xs = xs.head? := by
  cases xs <;> simp [vecTakeFirst, vecTake]

/-! ## Finder: a match is reported at most once -/

/-- Once a finder has found a match, no later search finds anything, whatever closure and
items are used; and a search stops right after the matching item. -/
theorem finder_at_most_once (fd fd' : Finder σ) (f : σ → ι → Option ρ × σ) (xs rest : List ι)
    (r : ρ) (h : fd.find f xs = (some r, fd', rest)) :
    fd'.found = true ∧ fd.found = false ∧
    (∃ pre x, xs = pre ++ x :: rest) ∧
    ∀ (g : σ → ι → Option ρ × σ) (ys : List ι), (fd'.find g ys).1 = none := by
  have hnone : ∀ (g : σ → ι → Option ρ × σ) (ys : List ι), ((⟨none⟩ : Finder σ).find g ys).1 = none := by
    intro g ys
    induction ys with
    | nil => rfl
    | cons y ys ih => simpa [Finder.find, Finder.next] using ih
  induction xs generalizing fd with
  | nil => simp [Finder.find] at h
  | cons x xs ih =>
    obtain ⟨st⟩ := fd
    cases st with
    | none =>
      have := hnone f (x :: xs)
      rw [h] at this
      cases this
    | some s =>
      rcases hf : f s x with ⟨o, s'⟩
      cases o with
      | some r' =>
        simp only [Finder.find, Finder.next, hf, Prod.mk.injEq, Option.some.injEq] at h
        obtain ⟨rfl, rfl, rfl⟩ := h
        exact ⟨rfl, rfl, ⟨[], x, rfl⟩, hnone⟩
      | none =>
        simp only [Finder.find, Finder.next, hf] at h
        obtain ⟨h1, _, ⟨pre, y, h3⟩, h4⟩ := ih _ h
        exact ⟨h1, rfl, ⟨x :: pre, y, by simp [h3]⟩, h4⟩

example : (Finder.find (⟨some 0⟩ : Finder Nat)
    (fun s i => if i = 3 then (some s, s) else (none, s + 1)) [1, 2, 3, 4]).1 = some 2 := by decide

/-- `fold_ref` is the ordinary left fold, except that it says nothing on an empty iterator. -/
theorem foldRef_spec (xs : List ι) (init : β) (f : β → ι → β) :
    foldRef xs init f = if xs = [] then none else some (xs.foldl f init) := by
  cases xs <;> simp [foldRef]

/-! ## C50 multi-level queue -/

namespace MDeque

/-- The service order of the queue: level 0 first, oldest first inside a level. -/
def order (q : MDeque α) : List α := List.flatten q

theorem c50_len (q : MDeque α) : q.len = q.order.length := by
  simp [len, order, List.length_flatten]

theorem c50_is_empty (q : MDeque α) : q.isEmpty = true ↔ q.order = [] := by
  simp [isEmpty, order, List.all_eq_true, List.flatten_eq_nil_iff]

theorem c50_get (q : MDeque α) (i : Nat) : q.get i = q.order[i]? := by
  induction q generalizing i with
  | nil => simp [get, order]
  | cons level rest ih =>
    simp only [get, order, List.flatten_cons]
    by_cases h : i < level.length
    · simp [List.getElem?_eq_getElem h, List.getElem?_append_left h]
    · have h' : level.length ≤ i := by omega
      rw [List.getElem?_eq_none h', List.getElem?_append_right h']
      exact ih _

theorem c50_front (q : MDeque α) : q.front = q.order.head? := by
  induction q with
  | nil => simp [front, order]
  | cons level rest ih =>
    cases level with
    | nil => simpa [front, order, List.findSome?] using ih
    | cons x l => simp [front, order, List.findSome?]

/-- C50: removal takes the first element of the service order and keeps the order of the rest;
the number of levels does not change. -/
theorem c50_pop_front (q : MDeque α) :
    q.popFront.1 = q.order.head? ∧ q.popFront.2.order = q.order.tail ∧
    q.popFront.2.length = q.length := by
  induction q with
  | nil => simp [popFront, order]
  | cons level rest ih =>
    cases level with
    | nil => simpa [popFront, order] using ih
    | cons x l => simp [popFront, order]

/-- C50: insertion panics exactly for a level out of range; otherwise the item is placed behind
all items of its level and of lower-numbered levels and before all others. -/
theorem c50_push_back (q : MDeque α) (level : Nat) (x : α) :
    (q.pushBack level x = none ↔ q.length ≤ level) ∧
    ∀ q', q.pushBack level x = some q' →
      q'.order = (List.flatten (q.take (level + 1))) ++ x :: (List.flatten (q.drop (level + 1))) ∧
      q'.length = q.length := by
  unfold pushBack
  constructor
  · by_cases h : level < q.length
    · simp [List.getElem?_eq_getElem h]; omega
    · simp [List.getElem?_eq_none (by omega : q.length ≤ level)]; omega
  · intro q' hq'
    split at hq'
    · cases hq'
    · rename_i l hl
      simp only [Option.some.injEq] at hq'
      subst hq'
      refine ⟨?_, by simp⟩
      obtain ⟨hlt, hget⟩ := List.getElem?_eq_some_iff.mp hl
      rw [order, List.set_eq_take_append_cons_drop, if_pos hlt, List.take_add_one, hl]
      simp

/-- Specification of a reported waiting position: the item is there, and it is the first
occurrence among the items of its level. -/
theorem c50_position [DecidableEq α] (q : MDeque α) (level : Nat) (x : α) (p : Nat)
    (h : q.position level x = some (some p)) :
    q.order[p]? = some x ∧ leading q level ≤ p ∧
      ∀ j, leading q level ≤ j → j < p → q.order[j]? ≠ some x := by
  unfold position at h
  split at h
  · cases h
  · rename_i l hl
    simp only [Option.some.injEq] at h
    split at h
    · cases h
    · rename_i p' hp'
      simp only [Option.some.injEq] at h
      subst h
      obtain ⟨hlt, hget⟩ := List.getElem?_eq_some_iff.mp hl
      rw [List.findIdx?_eq_some_iff_getElem] at hp'
      obtain ⟨hp1, hp2, hp3⟩ := hp'
      have hsplit : q.order = List.flatten (q.take level) ++ (l ++ List.flatten (q.drop (level + 1))) := by
        rw [order]
        conv => lhs; rw [← List.take_append_drop level q, List.drop_eq_getElem_cons hlt, hget]
        simp
      have hlead : leading q level = (List.flatten (q.take level)).length := by
        simp [leading, List.length_flatten]
      refine ⟨?_, by omega, ?_⟩
      · rw [hsplit, hlead, List.getElem?_append_right (by omega)]
        simp only [Nat.add_sub_cancel]
        rw [List.getElem?_append_left hp1, List.getElem?_eq_getElem hp1]
        simpa using hp2
      · intro j hj1 hj2
        rw [hsplit, List.getElem?_append_right (by omega), ← hlead]
        rw [List.getElem?_append_left (by omega), List.getElem?_eq_getElem (by omega)]
        have := hp3 (j - leading q level) (by omega)
        simpa using this

/-- C50: conditional insertion reports a position at which the item really waits, says `true`
exactly when the item was not yet in that level, and changes nothing otherwise. -/
theorem c50_push_back_if_missing [DecidableEq α] (q q' : MDeque α) (level : Nat) (x : α)
    (b : Bool) (p : Nat) (h : q.pushBackIfMissing level x = some ((b, p), q')) :
    q'.order[p]? = some x ∧
    (b = true ↔ ∀ l, q[level]? = some l → x ∉ l) ∧
    (b = false → q' = q) ∧ (b = true → q.pushBack level x = some q') := by
  unfold pushBackIfMissing at h
  rcases hpos : position q level x with _ | _ | p'
  · simp [hpos] at h
  · rw [hpos] at h
    simp only at h
    rcases hpush : pushBack q level x with _ | q1
    · simp [hpush] at h
    · rw [hpush] at h
      simp only at h
      rcases hl1 : q1[level]? with _ | l1
      · simp [hl1] at h
      · rw [hl1] at h
        simp only [Option.some.injEq, Prod.mk.injEq] at h
        obtain ⟨⟨rfl, rfl⟩, rfl⟩ := h
        -- the old level does not contain `x`
        have hold : ∃ l, q[level]? = some l ∧ x ∉ l := by
          unfold position at hpos
          split at hpos
          · cases hpos
          · rename_i l hl
            refine ⟨l, hl, ?_⟩
            simp only [Option.some.injEq] at hpos
            split at hpos
            · rename_i hnone
              intro hx
              rw [List.findIdx?_eq_none_iff] at hnone
              simpa using hnone x hx
            · cases hpos
        obtain ⟨l, hl, hxl⟩ := hold
        have hq1 : q1 = q.set level (l ++ [x]) := by
          simp [pushBack, hl] at hpush
          exact hpush.symm
        obtain ⟨hlt, hget⟩ := List.getElem?_eq_some_iff.mp hl
        refine ⟨?_, ?_, by simp, by simp⟩
        · subst hq1
          have hl1' : l1 = l ++ [x] := by
            rw [List.getElem?_set_self hlt] at hl1
            simpa using hl1.symm
          subst hl1'
          have hsplit : order (q.set level (l ++ [x])) =
              List.flatten (q.take level) ++ (l ++ x :: List.flatten (q.drop (level + 1))) := by
            rw [order, List.set_eq_take_append_cons_drop, if_pos hlt]
            simp
          have hlead : leading (q.set level (l ++ [x])) level =
              (List.flatten (q.take level)).length := by
            simp [leading, List.length_flatten, List.take_set_of_le]
          rw [hsplit, hlead, List.getElem?_append_right (by simp)]
          have : (List.flatten (q.take level)).length + (l ++ [x]).length - 1 -
              (List.flatten (q.take level)).length = l.length := by simp
          rw [this, List.getElem?_append_right (Nat.le_refl _)]
          simp
        · simp only [true_iff]
          intro l' hl'
          rw [hl] at hl'
          cases hl'
          exact hxl
  · rw [hpos] at h
    simp only [Option.some.injEq, Prod.mk.injEq] at h
    obtain ⟨⟨rfl, rfl⟩, rfl⟩ := h
    have hp := c50_position q level x p' hpos
    refine ⟨hp.1, ?_, by simp, by simp⟩
    simp only [Bool.false_eq_true, false_iff]
    intro hno
    unfold position at hpos
    split at hpos
    · cases hpos
    · rename_i l hl
      have := hno l hl
      simp only [Option.some.injEq] at hpos
      split at hpos
      · cases hpos
      · rename_i p2 hp2
        rw [List.findIdx?_eq_some_iff_getElem] at hp2
        obtain ⟨h1, h2, _⟩ := hp2
        apply this
        have : l[p2] = x := by simpa using h2
        exact this ▸ List.getElem_mem h1

/-- Operations on the queue. -/
inductive Op (α : Type u) where
  | push (level : Nat) (x : α)
  | pop

/-- The level served next: the first level that is not empty. -/
def servedLevel (q : MDeque α) : Nat := q.findIdx (fun l => !l.isEmpty)

/-- Runs a history and records for every removal the level it was taken from and the item.
A history that pushes to a level out of range panics (`none`). -/
def run (q : MDeque α) : List (Op α) → Option (List (Nat × α) × MDeque α)
  | [] => some ([], q)
  | .push level x :: ops =>
    match q.pushBack level x with
    | none => none
    | some q' => run q' ops
  | .pop :: ops =>
    match q.popFront with
    | (none, q') => run q' ops
    | (some x, q') =>
      match run q' ops with
      | none => none
      | some (out, q'') => some ((servedLevel q, x) :: out, q'')

/-- Items pushed to `level` in a history, in order of arrival. -/
def arrivals (level : Nat) : List (Op α) → List α
  | [] => []
  | .push l x :: ops => if l = level then x :: arrivals level ops else arrivals level ops
  | .pop :: ops => arrivals level ops

/-- Items removed from `level`, in order of removal. -/
def served (level : Nat) (out : List (Nat × α)) : List α :=
  (out.filter (fun e => e.1 = level)).map Prod.snd

theorem servedLevel_nil_cons (rest : MDeque α) :
    servedLevel ([] :: rest) = servedLevel rest + 1 := by
  simp [servedLevel, List.findIdx_cons]

theorem servedLevel_cons_cons (y : α) (l : List α) (rest : MDeque α) :
    servedLevel ((y :: l) :: rest) = 0 := by
  simp [servedLevel, List.findIdx_cons]

theorem popFront_level (q q' : MDeque α) (x : α) (h : q.popFront = (some x, q')) (level : Nat) :
    q[level]?.getD [] =
      (if servedLevel q = level then [x] else []) ++ q'[level]?.getD [] := by
  induction q generalizing q' level with
  | nil => simp [popFront] at h
  | cons l rest ih =>
    cases l with
    | nil =>
      simp only [popFront, Prod.mk.injEq] at h
      obtain ⟨h1, rfl⟩ := h
      cases level with
      | zero => simp [servedLevel_nil_cons]
      | succ level =>
        have := ih _ (Prod.ext h1 rfl) level
        simp only [servedLevel_nil_cons, List.getElem?_cons_succ, Nat.add_right_cancel_iff]
        exact this
    | cons y l =>
      simp only [popFront, Prod.mk.injEq, Option.some.injEq] at h
      obtain ⟨rfl, rfl⟩ := h
      cases level with
      | zero => simp [servedLevel_cons_cons]
      | succ level => simp [servedLevel_cons_cons]

theorem popFront_none_level (q q' : MDeque α) (h : q.popFront = (none, q')) : q' = q := by
  induction q generalizing q' with
  | nil => simp [popFront] at h; simp [h]
  | cons l rest ih =>
    cases l with
    | nil =>
      simp only [popFront, Prod.mk.injEq] at h
      obtain ⟨h1, rfl⟩ := h
      have := ih (popFront rest).2 (Prod.ext h1 rfl)
      exact congrArg _ this
    | cons y l => simp [popFront] at h

/-- C50 (FIFO inside a level, nothing lost, nothing invented): over every history, for every level,
the items served from that level followed by the items still waiting there are exactly the items
that were waiting initially followed by the arrivals, in order. -/
theorem c50_fifo (q q' : MDeque α) (ops : List (Op α)) (out : List (Nat × α))
    (h : q.run ops = some (out, q')) (level : Nat) (hlevel : level < q.length) :
    served level out ++ q'[level]?.getD [] = q[level]?.getD [] ++ arrivals level ops := by
  induction ops generalizing q out with
  | nil =>
    simp only [run, Option.some.injEq, Prod.mk.injEq] at h
    obtain ⟨rfl, rfl⟩ := h
    simp [served, arrivals]
  | cons op ops ih =>
    cases op with
    | push l x =>
      simp only [run] at h
      rcases hp : pushBack q l x with _ | q1
      · simp [hp] at h
      · rw [hp] at h
        have hq1 := ((c50_push_back q l x).2 q1 hp).2
        have := ih q1 out h (by omega)
        rw [this]
        unfold pushBack at hp
        split at hp
        · cases hp
        · rename_i l0 hl0
          simp only [Option.some.injEq] at hp
          subst hp
          obtain ⟨hlt, _⟩ := List.getElem?_eq_some_iff.mp hl0
          by_cases hll : l = level
          · subst hll
            simp [arrivals, List.getElem?_set_self hlt, hl0]
          · simp [arrivals, hll, List.getElem?_set_ne hll]
    | pop =>
      simp only [run] at h
      rcases hp : popFront q with ⟨_ | x, q1⟩
      · rw [hp] at h
        have := popFront_none_level q q1 hp
        subst this
        exact ih _ out h hlevel
      · rw [hp] at h
        simp only at h
        rcases hr : run q1 ops with _ | ⟨out1, q2⟩
        · simp [hr] at h
        · rw [hr] at h
          simp only [Option.some.injEq, Prod.mk.injEq] at h
          obtain ⟨rfl, rfl⟩ := h
          have hlen : q1.length = q.length := by
            have := (c50_pop_front q).2.2
            rw [hp] at this
            exact this
          have h1 := ih q1 out1 hr (by omega)
          have h2 := popFront_level q q1 x hp level
          rw [h2, List.append_assoc, arrivals, ← h1, ← List.append_assoc]
          congr 1
          simp only [served, List.filter_cons]
          by_cases hs : servedLevel q = level <;> simp [hs]

/-- C50 (priority): a removal is always from the lowest-numbered level that is not empty. -/
theorem c50_priority (q q' : MDeque α) (x : α) (h : q.popFront = (some x, q')) :
    (∀ l < servedLevel q, q[l]?.getD [] = []) ∧
    ∃ rest, q[servedLevel q]? = some (x :: rest) ∧ q'[servedLevel q]? = some rest := by
  refine ⟨?_, ?_⟩
  rotate_left
  · induction q generalizing q' with
    | nil => simp [popFront] at h
    | cons l rest ih =>
      cases l with
      | nil =>
        simp only [popFront, Prod.mk.injEq] at h
        obtain ⟨h1, rfl⟩ := h
        obtain ⟨r, h2, h3⟩ := ih _ (Prod.ext h1 rfl)
        exact ⟨r, by simpa [servedLevel_nil_cons] using h2, by simpa [servedLevel_nil_cons] using h3⟩
      | cons y l =>
        simp only [popFront, Prod.mk.injEq, Option.some.injEq] at h
        obtain ⟨rfl, rfl⟩ := h
        exact ⟨l, by simp [servedLevel_cons_cons], by simp [servedLevel_cons_cons]⟩
  intro l hl
  unfold servedLevel at hl
  have := List.not_of_lt_findIdx hl
  have hlen : l < q.length := Nat.lt_of_lt_of_le hl List.findIdx_le_length
  rw [List.getElem?_eq_getElem hlen]
  simpa using this

example : (MDeque.empty 2 : MDeque Nat).run
    [.push 1 10, .push 0 20, .push 1 11, .pop, .pop, .push 0 21, .pop] =
    some ([(0, 20), (1, 10), (0, 21)], [[], [11]]) := by decide

example : (MDeque.pushBackIfMissing [[5], [7, 8]] 1 8) = some ((false, 2), [[5], [7, 8]]) := by
  decide

end MDeque

end Verif.Util
