/-!
# C118: selecting from several iterators in parallel, `manta-util/src/iter/select_all.rs`

A transition system with one consumer, the job that empties the task queue, and one task for each iterator. Channels and
the queue are lists; a channel is disconnected when its task is gone. `threads` is the number of threads of the pool that
are free for jobs while the consumer waits: the size of the pool, less one if the consumer runs in the pool itself, as in
`rayon::scope`. Jobs are started in any order. Spurious wake-ups, which change nothing, are left out.
-/

namespace Verif.Select

set_option linter.unusedSimpArgs false

/-! ## Model -/

/-- Where the task of an iterator is. -/
inductive Place where
  /-- In the task queue. -/
  | queued
  /-- Given to the pool, not started. -/
  | spawned
  /-- At the start of `send_next`. -/
  | running
  /-- In `send_next`, item sent, about to enqueue itself. -/
  | sent
  /-- Dropped. -/
  | done
deriving DecidableEq, Repr

inductive Listener where
  | pending
  | running
  | stopped
deriving DecidableEq, Repr

inductive Status where
  /-- In `next`. -/
  | waiting
  /-- `next` returned `None`. -/
  | finished
  /-- The receivers were dropped. -/
  | abandoned
deriving DecidableEq, Repr

/-- Everything. `receivers` are the live receivers by number of their iterator, `drops` the local `drop_indices`, `out`
what `next` returned, with the number of the iterator as a ghost. -/
structure St (T : Type) where
  rem : Nat → List T
  chan : Nat → List T
  place : Nat → Place
  queue : List Nat
  listener : Listener
  receivers : List Nat
  drops : List Nat
  out : List (Nat × T)
  status : Status

variable {T : Type}

def upd {α : Type} (f : Nat → α) (i : Nat) (x : α) : Nat → α := fun j => if j = i then x else f j

def sumTo (f : Nat → Nat) : Nat → Nat
  | 0 => 0
  | n + 1 => sumTo f n + f n

/-- Threads that a task takes. -/
def Place.busy : Place → Nat
  | .running => 1
  | .sent => 1
  | _ => 0

def Listener.busy : Listener → Nat
  | .running => 1
  | _ => 0

/-- Threads in use. -/
def St.busy (n : Nat) (s : St T) : Nat := s.listener.busy + sumTo (fun i => (s.place i).busy) n

/-- `spawn`, select_all.rs:88-116: one task for each iterator, in the queue of capacity `n`; the job is not started. -/
def start (iters : List (List T)) : St T where
  rem := fun i => iters.getD i []
  chan := fun _ => []
  place := fun i => if i < iters.length then .queued else .done
  queue := List.range iters.length
  listener := .pending
  receivers := List.range iters.length
  drops := []
  out := []
  status := .waiting

/-- `sort_unstable_by(r.cmp(l))`: an insertion sort, larger positions first. -/
def insertDesc (x : Nat) : List Nat → List Nat
  | [] => [x]
  | y :: ys => if x ≥ y then x :: y :: ys else y :: insertDesc x ys

def sortDesc : List Nat → List Nat
  | [] => []
  | x :: xs => insertDesc x (sortDesc xs)

/-- `dedup`. -/
def dedup : List Nat → List Nat
  | [] => []
  | [x] => [x]
  | x :: y :: ys => if x = y then dedup (y :: ys) else x :: dedup (y :: ys)

/-- Lines 149-153: the receivers are removed one after another. -/
def removeAll (drops : List Nat) (l : List Nat) : List Nat := (dedup (sortDesc drops)).foldl (fun l i => l.eraseIdx i) l

/-- One step. -/
inductive Step (threads n : Nat) : St T → St T → Prop where
  /-- The job at lines 110-114 starts. -/
  | listen {s} : s.listener = .pending → s.busy n < threads → Step threads n s { s with listener := .running }
  /-- `listener.recv()` returns a task and it is spawned, lines 111-113. -/
  | dispatch {s i q} : s.listener = .running → s.queue = i :: q →
      Step threads n s { s with queue := q, place := upd s.place i .spawned }
  /-- The queue is empty and no task is left that could send to it. -/
  | stop {s} : s.listener = .running → s.queue = [] → (∀ i < n, s.place i = .done) →
      Step threads n s { s with listener := .stopped }
  /-- A thread takes a spawned task. -/
  | run {s i} : i < n → s.place i = .spawned → s.busy n < threads →
      Step threads n s { s with place := upd s.place i .running }
  /-- `send_next`, lines 62-68: an item is sent. -/
  | send {s i x xs} : i < n → s.place i = .running → s.status ≠ .abandoned → s.rem i = x :: xs →
      Step threads n s { s with
        rem := upd s.rem i xs
        chan := upd s.chan i (s.chan i ++ [x])
        place := upd s.place i .sent }
  /-- The receiver is gone: the item and the task are dropped. -/
  | lost {s i x xs} : i < n → s.place i = .running → s.status = .abandoned → s.rem i = x :: xs →
      Step threads n s { s with rem := upd s.rem i xs, place := upd s.place i .done }
  /-- The iterator has ended: the task is dropped. -/
  | exhausted {s i} : i < n → s.place i = .running → s.rem i = [] →
      Step threads n s { s with place := upd s.place i .done }
  /-- `self.queue.clone().send(self)`; it waits while the queue is full. -/
  | enqueue {s i} : i < n → s.place i = .sent → s.queue.length < n →
      Step threads n s { s with queue := s.queue ++ [i], place := upd s.place i .queued }
  /-- `next`, lines 145-155: an item is received and the recorded receivers are removed. -/
  | item {s p i x xs} : s.status = .waiting → p ∉ s.drops → s.receivers[p]? = some i → s.chan i = x :: xs →
      Step threads n s { s with
        chan := upd s.chan i xs
        out := s.out ++ [(i, x)]
        receivers := removeAll s.drops s.receivers
        drops := [] }
  /-- Lines 156-158: a disconnected receiver is recorded, others remain. -/
  | gone {s p i} : s.status = .waiting → p ∉ s.drops → s.receivers[p]? = some i → s.chan i = [] →
      s.place i = .done → s.drops.length + 1 ≠ s.receivers.length →
      Step threads n s { s with drops := s.drops ++ [p] }
  /-- Lines 159-162: all receivers are disconnected. -/
  | last {s p i} : s.status = .waiting → p ∉ s.drops → s.receivers[p]? = some i → s.chan i = [] →
      s.place i = .done → s.drops.length + 1 = s.receivers.length →
      Step threads n s { s with drops := s.drops ++ [p], receivers := [], status := .finished }
  /-- Lines 136-139: there are no receivers. -/
  | none {s} : s.status = .waiting → s.receivers = [] → Step threads n s { s with status := .finished }
  /-- The consumer drops the iterator. -/
  | abandon {s} : s.status = .waiting → Step threads n s { s with status := .abandoned }

/-- Executions. -/
inductive Reaches (threads n : Nat) (s : St T) : St T → Prop where
  | refl : Reaches threads n s s
  | step {t u} : Reaches threads n s t → Step threads n t u → Reaches threads n s u

/-! ## Specification -/

/-- What was returned of one iterator. -/
def St.got (s : St T) (i : Nat) : List T := (s.out.filter fun e => e.1 = i).map (·.2)

/-! ## Helpers -/

theorem upd_same {α : Type} (f : Nat → α) (i : Nat) (x : α) : upd f i x i = x := by simp [upd]

theorem upd_other {α : Type} (f : Nat → α) {i j : Nat} (x : α) (h : j ≠ i) : upd f i x j = f j := by simp [upd, h]

theorem sumTo_congr {f g : Nat → Nat} (n : Nat) (h : ∀ i < n, f i = g i) : sumTo f n = sumTo g n := by
  induction n with
  | zero => rfl
  | succ n ih => simp only [sumTo, h n (by omega), ih fun i hi => h i (by omega)]

theorem sumTo_change {f g : Nat → Nat} {n i : Nat} (hi : i < n) (h : ∀ j, j ≠ i → g j = f j) :
    sumTo g n + f i = sumTo f n + g i := by
  induction n with
  | zero => omega
  | succ n ih =>
    simp only [sumTo]
    by_cases e : i = n
    · subst e
      rw [sumTo_congr i fun j hj => h j (by omega)]
      omega
    · have := ih (by omega)
      rw [h n fun e' => e e'.symm]
      omega

theorem sumTo_zero {f : Nat → Nat} {n : Nat} (h : ∀ i < n, f i = 0) : sumTo f n = 0 := by
  induction n with
  | zero => rfl
  | succ n ih => simp only [sumTo, h n (by omega), ih fun i hi => h i (by omega)]

theorem mem_insertDesc {x y : Nat} {l : List Nat} : y ∈ insertDesc x l ↔ y = x ∨ y ∈ l := by
  induction l with
  | nil => simp [insertDesc]
  | cons z l ih =>
    unfold insertDesc
    split
    · simp
    · simp [ih]; grind

theorem mem_sortDesc {y : Nat} {l : List Nat} : y ∈ sortDesc l ↔ y ∈ l := by
  induction l with
  | nil => simp [sortDesc]
  | cons x l ih => simp [sortDesc, mem_insertDesc, ih]

theorem sorted_insert {x : Nat} {l : List Nat} (h : l.Pairwise (· ≥ ·)) : (insertDesc x l).Pairwise (· ≥ ·) := by
  induction l with
  | nil => simp [insertDesc]
  | cons y l ih =>
    rw [List.pairwise_cons] at h
    unfold insertDesc
    split
    · rename_i hxy
      refine List.pairwise_cons.2 ⟨fun z hz => ?_, List.pairwise_cons.2 h⟩
      rcases List.mem_cons.1 hz with rfl | hz
      · exact hxy
      · exact Nat.le_trans (h.1 z hz) hxy
    · rename_i hxy
      refine List.pairwise_cons.2 ⟨fun z hz => ?_, ih h.2⟩
      rcases mem_insertDesc.1 hz with rfl | hz
      · omega
      · exact h.1 z hz

theorem sorted_sort (l : List Nat) : (sortDesc l).Pairwise (· ≥ ·) := by
  induction l with
  | nil => exact .nil
  | cons x l ih => exact sorted_insert ih

theorem mem_dedup {y : Nat} {l : List Nat} : y ∈ dedup l ↔ y ∈ l := by
  fun_induction dedup l with
  | case1 => simp
  | case2 => simp
  | case3 x ys ih => simp [ih]
  | case4 x y ys h ih => simp [ih]

theorem sorted_dedup {l : List Nat} (h : l.Pairwise (· ≥ ·)) : (dedup l).Pairwise (· > ·) := by
  fun_induction dedup l with
  | case1 => exact .nil
  | case2 => simp
  | case3 x ys ih => exact ih (List.pairwise_cons.1 h).2
  | case4 x y ys hne ih =>
    rw [List.pairwise_cons] at h
    refine List.pairwise_cons.2 ⟨fun z hz => ?_, ih h.2⟩
    have hz := mem_dedup.1 hz
    have hy := h.1 y (by simp)
    have hzy : z ≤ y := by
      rcases List.mem_cons.1 hz with rfl | hz
      · exact Nat.le_refl _
      · exact (List.pairwise_cons.1 h.2).1 z hz
    omega

theorem fold_mem (ds l : List Nat) (h : ds.Pairwise (· > ·)) (x : Nat) (hx : x ∈ l) :
    x ∈ ds.foldl (fun l i => l.eraseIdx i) l ∨ ∃ p ∈ ds, l[p]? = some x := by
  induction ds generalizing l with
  | nil => exact .inl hx
  | cons d ds ih =>
    rw [List.pairwise_cons] at h
    by_cases hd : l[d]? = some x
    · exact .inr ⟨d, by simp, hd⟩
    · have hx' : x ∈ l.eraseIdx d := by
        rw [List.mem_eraseIdx_iff_getElem?]
        obtain ⟨i, hi⟩ := List.mem_iff_getElem?.1 hx
        exact ⟨i, fun e => hd (e ▸ hi), hi⟩
      rcases ih _ h.2 hx' with h' | ⟨p, hp, e⟩
      · exact .inl h'
      · refine .inr ⟨p, by simp [hp], ?_⟩
        rw [List.getElem?_eraseIdx_of_lt (h.1 p hp)] at e
        exact e

theorem removeAll_mem (ds l : List Nat) {x : Nat} (hx : x ∈ l) :
    x ∈ removeAll ds l ∨ ∃ p ∈ ds, l[p]? = some x := by
  rcases fold_mem _ l (sorted_dedup (sorted_sort ds)) x hx with h | ⟨p, hp, e⟩
  · exact .inl h
  · exact .inr ⟨p, mem_sortDesc.1 (mem_dedup.1 hp), e⟩

theorem removeAll_sub (ds l : List Nat) : (removeAll ds l).Sublist l := by
  unfold removeAll
  generalize dedup (sortDesc ds) = es
  induction es generalizing l with
  | nil => exact List.Sublist.refl l
  | cons e es ih => exact (ih (l.eraseIdx e)).trans (List.eraseIdx_sublist l e)

theorem dedup_length {ds : List Nat} (h : ds.Pairwise (· > ·)) : dedup ds = ds := by
  fun_induction dedup ds with
  | case1 => rfl
  | case2 => rfl
  | case3 x ys ih => exact absurd ((List.pairwise_cons.1 h).1 x (by simp)) (by omega)
  | case4 x y ys hne ih => rw [ih (List.pairwise_cons.1 h).2]

theorem sort_length (l : List Nat) : (sortDesc l).length = l.length := by
  induction l with
  | nil => rfl
  | cons x l ih =>
    have : ∀ m : List Nat, (insertDesc x m).length = m.length + 1 := by
      intro m
      induction m with
      | nil => rfl
      | cons y m ih => unfold insertDesc; split <;> simp [ih]
    simp [sortDesc, this, ih]

theorem nodup_insert {x : Nat} {l : List Nat} (h : l.Nodup) (hx : x ∉ l) : (insertDesc x l).Nodup := by
  induction l with
  | nil => simp [insertDesc]
  | cons y l ih =>
    simp only [List.mem_cons, not_or] at hx
    rw [List.nodup_cons] at h
    unfold insertDesc
    split
    · exact List.nodup_cons.2 ⟨by simp [hx], List.nodup_cons.2 h⟩
    · refine List.nodup_cons.2 ⟨fun e => ?_, ih h.2 hx.2⟩
      rcases mem_insertDesc.1 e with e | e
      · exact hx.1 e.symm
      · exact h.1 e

theorem nodup_sort {l : List Nat} (h : l.Nodup) : (sortDesc l).Nodup := by
  induction l with
  | nil => exact .nil
  | cons x l ih =>
    rw [List.nodup_cons] at h
    exact nodup_insert (ih h.2) (fun e => h.1 (mem_sortDesc.1 e))

theorem fold_length (ds l : List Nat) (h : ds.Pairwise (· > ·)) (hl : ∀ d ∈ ds, d < l.length) :
    (ds.foldl (fun l i => l.eraseIdx i) l).length + ds.length = l.length := by
  induction ds generalizing l with
  | nil => simp
  | cons d ds ih =>
    rw [List.pairwise_cons] at h
    have hd := hl d (by simp)
    have hlen : (l.eraseIdx d).length = l.length - 1 := List.length_eraseIdx_of_lt hd
    have := ih (l.eraseIdx d) h.2 (fun e he => by
      have := h.1 e he
      omega)
    simp only [List.foldl_cons, List.length_cons]
    omega

/-- Removing distinct valid positions removes that many. -/
theorem removeAll_length {ds l : List Nat} (hn : ds.Nodup) (hl : ∀ d ∈ ds, d < l.length) :
    (removeAll ds l).length + ds.length = l.length := by
  have hs : (sortDesc ds).Pairwise (· > ·) := by
    have h₁ := sorted_sort ds
    have h₂ := nodup_sort hn
    exact (h₁.and h₂).imp fun h => Nat.lt_of_le_of_ne h.1 (fun e => h.2 e.symm)
  have := fold_length (sortDesc ds) l hs (fun d hd => hl d (mem_sortDesc.1 hd))
  unfold removeAll
  rw [dedup_length hs]
  rw [sort_length] at this
  exact this

theorem got_snoc (s : St T) (i j : Nat) (x : T) (r : List Nat) (d : List Nat) (c : Nat → List T) :
    St.got { s with chan := c, out := s.out ++ [(i, x)], receivers := r, drops := d } j =
      if j = i then s.got j ++ [x] else s.got j := by
  unfold St.got
  by_cases h : j = i
  · subst h; simp
  · simp [h, Ne.symm h]

/-! ## Invariant -/

/-- What holds in all reachable states. -/
structure Inv (iters : List (List T)) (s : St T) : Prop where
  order : ∀ i, s.status ≠ .abandoned → s.got i ++ s.chan i ++ s.rem i = iters.getD i []
  prefixed : ∀ i, ∃ r, s.got i ++ s.chan i ++ r = iters.getD i []
  nodup : s.queue.Nodup
  queued : ∀ i, i ∈ s.queue ↔ i < iters.length ∧ s.place i = .queued
  outside : ∀ i, iters.length ≤ i → s.place i = .done
  ended : ∀ i < iters.length, s.status ≠ .abandoned → s.place i = .done → s.rem i = []
  stopped : s.listener = .stopped → ∀ i < iters.length, s.place i = .done
  live : s.status = .waiting → ∀ i < iters.length, i ∉ s.receivers → s.place i = .done ∧ s.chan i = []
  bound : ∀ i ∈ s.receivers, i < iters.length
  dropsNodup : s.drops.Nodup
  dropped : s.status = .waiting → ∀ p ∈ s.drops, ∃ i, s.receivers[p]? = some i ∧ s.place i = .done ∧ s.chan i = []
  unfinished : s.status = .waiting → s.receivers = [] ∨ s.drops.length < s.receivers.length
  complete : s.status = .finished → ∀ i < iters.length, s.place i = .done ∧ s.chan i = []

theorem inv_start (iters : List (List T)) : Inv iters (start iters) where
  order := fun i _ => by simp [start, St.got]
  prefixed := fun i => ⟨iters.getD i [], by simp [start, St.got]⟩
  nodup := List.nodup_range
  queued := fun i => by
    simp only [start, List.mem_range]
    constructor
    · intro h; exact ⟨h, by simp [h]⟩
    · exact fun h => h.1
  outside := fun i h => by simp [start, Nat.not_lt.2 h]
  ended := fun i hi _ h => by simp [start, hi] at h
  stopped := fun h => by simp [start] at h
  live := fun _ i hi h => absurd (List.mem_range.2 hi) h
  bound := fun i hi => List.mem_range.1 hi
  dropsNodup := .nil
  dropped := fun _ p hp => by cases hp
  unfinished := fun _ => by
    by_cases h : iters.length = 0
    · left; simp [start, h]
    · right; simp [start]; omega
  complete := fun h => by simp [start] at h

theorem inv_step {iters : List (List T)} {threads : Nat} {s t : St T} (h : Inv iters s)
    (hs : Step threads iters.length s t) : Inv iters t := by
  cases hs with
  | listen h₁ _ =>
    exact { h with stopped := fun e => by simp at e }
  | @dispatch i q h₁ h₂ =>
    have hi := (h.queued i).1 (by simp [h₂])
    have hnd := h.nodup
    rw [h₂, List.nodup_cons] at hnd
    refine { h with nodup := hnd.2, queued := fun j => ?_, outside := fun j hj => ?_, ended := fun j hj hst hd => ?_,
                    stopped := fun e => ?_, live := fun e j hj hn => ?_, dropped := fun e p hp => ?_,
                    complete := fun e j hj => ?_ }
    · have hq := h.queued j
      rw [h₂] at hq
      by_cases e : j = i
      · subst e
        simp only [upd_same]
        exact ⟨fun m => absurd m hnd.1, fun m => by simp at m⟩
      · simp only [upd_other _ _ e]
        rw [← hq]
        simp [e]
    · simp only [upd_other s.place _ (show j ≠ i by omega)]
      exact h.outside j hj
    · by_cases e : j = i
      · subst e; simp [upd_same] at hd
      · exact h.ended j hj hst (by simpa only [upd_other _ _ e] using hd)
    · simp only [h₁] at e; cases e
    · have := h.live e j hj hn
      by_cases e : j = i
      · subst e; rw [hi.2] at this; cases this.1
      · exact ⟨by simp only [upd_other _ _ e]; exact this.1, this.2⟩
    · obtain ⟨j, a, b, c⟩ := h.dropped e p hp
      refine ⟨j, a, ?_, c⟩
      by_cases e : j = i
      · subst e; rw [hi.2] at b; cases b
      · simp only [upd_other _ _ e]; exact b
    · have := h.complete e i hi.1
      rw [hi.2] at this; cases this.1
  | stop h₁ h₂ h₃ => exact { h with stopped := fun _ => h₃ }
  | @run i hi hp _ =>
    refine { h with queued := fun j => ?_, outside := fun j hj => ?_, ended := fun j hj hst hd => ?_,
                    stopped := fun e => ?_, live := fun e j hj hn => ?_, dropped := fun e p hp' => ?_,
                    complete := fun e j hj => ?_ }
    · by_cases e : j = i
      · subst e
        have := h.queued j
        simp only [upd_same]
        rw [this, hp]; simp
      · simp only [upd_other _ _ e]; exact h.queued j
    · simp only [upd_other s.place _ (show j ≠ i by omega)]; exact h.outside j hj
    · by_cases e : j = i
      · subst e; simp [upd_same] at hd
      · exact h.ended j hj hst (by simpa only [upd_other _ _ e] using hd)
    · have := h.stopped e i hi; rw [hp] at this; cases this
    · have := h.live e j hj hn
      by_cases e : j = i
      · subst e; rw [hp] at this; cases this.1
      · exact ⟨by simp only [upd_other _ _ e]; exact this.1, this.2⟩
    · obtain ⟨j, a, b, c⟩ := h.dropped e p hp'
      refine ⟨j, a, ?_, c⟩
      by_cases e : j = i
      · subst e; rw [hp] at b; cases b
      · simp only [upd_other _ _ e]; exact b
    · have := h.complete e i hi; rw [hp] at this; cases this.1
  | @send i x xs hi hp hst hr =>
    refine { h with order := fun j hj => ?_, prefixed := fun j => ?_, queued := fun j => ?_,
                    outside := fun j hj => ?_, ended := fun j hj hst' hd => ?_, stopped := fun e => ?_,
                    live := fun e j hj hn => ?_, dropped := fun e p hp' => ?_, complete := fun e j hj => ?_ }
    · have ho := h.order j hst
      by_cases e : j = i
      · subst e
        simp only [upd_same]
        rw [hr] at ho
        rw [← ho]
        simp [St.got]
      · simp only [upd_other _ _ e]
        exact ho
    · have ho := h.order j hst
      by_cases e : j = i
      · subst e
        refine ⟨xs, ?_⟩
        simp only [upd_same]
        rw [hr] at ho
        rw [← ho]
        simp [St.got]
      · refine ⟨s.rem j, ?_⟩
        simp only [upd_other _ _ e]
        exact ho
    · by_cases e : j = i
      · subst e
        have := h.queued j
        simp only [upd_same]
        rw [this, hp]; simp
      · simp only [upd_other _ _ e]; exact h.queued j
    · simp only [upd_other s.place _ (show j ≠ i by omega)]; exact h.outside j hj
    · by_cases e : j = i
      · subst e; simp [upd_same] at hd
      · simp only [upd_other _ _ e] at hd ⊢
        exact h.ended j hj hst' hd
    · have := h.stopped e i hi; rw [hp] at this; cases this
    · have := h.live e j hj hn
      by_cases e : j = i
      · subst e; rw [hp] at this; cases this.1
      · simp only [upd_other _ _ e]; exact this
    · obtain ⟨j, a, b, c⟩ := h.dropped e p hp'
      by_cases e : j = i
      · subst e; rw [hp] at b; cases b
      · exact ⟨j, a, by simp only [upd_other _ _ e]; exact ⟨b, c⟩⟩
    · have := h.complete e i hi; rw [hp] at this; cases this.1
  | @lost i x xs hi hp hst hr =>
    have hne : ∀ {P : Prop}, s.status ≠ .abandoned → P := fun e => absurd hst e
    have hw : ∀ {P : Prop}, s.status = .waiting → P := fun e => by rw [hst] at e; cases e
    refine { h with order := fun j hj => hne hj, queued := fun j => ?_, outside := fun j hj => ?_,
                    ended := fun j hj hst' => hne hst', stopped := fun e => ?_, live := fun e => hw e,
                    dropped := fun e => hw e, unfinished := fun e => hw e,
                    complete := (fun e => by simp only [hst] at e; cases e) }
    · by_cases e : j = i
      · subst e
        have := h.queued j
        simp only [upd_same]
        rw [this, hp]; simp
      · simp only [upd_other _ _ e]; exact h.queued j
    · simp only [upd_other s.place _ (show j ≠ i by omega)]; exact h.outside j hj
    · have := h.stopped e i hi; rw [hp] at this; cases this
  | @exhausted i hi hp hr =>
    refine { h with queued := fun j => ?_, outside := fun j hj => ?_, ended := fun j hj hst hd => ?_,
                    stopped := fun e => ?_, live := fun e j hj hn => ?_, dropped := fun e p hp' => ?_,
                    complete := fun e j hj => ?_ }
    · by_cases e : j = i
      · subst e
        have := h.queued j
        simp only [upd_same]
        rw [this, hp]; simp
      · simp only [upd_other _ _ e]; exact h.queued j
    · simp only [upd_other s.place _ (show j ≠ i by omega)]; exact h.outside j hj
    · by_cases e : j = i
      · subst e; exact hr
      · exact h.ended j hj hst (by simpa only [upd_other _ _ e] using hd)
    · have := h.stopped e i hi; rw [hp] at this; cases this
    · have := h.live e j hj hn
      by_cases e : j = i
      · subst e; rw [hp] at this; cases this.1
      · simp only [upd_other _ _ e]; exact this
    · obtain ⟨j, a, b, c⟩ := h.dropped e p hp'
      by_cases e : j = i
      · subst e; rw [hp] at b; cases b
      · exact ⟨j, a, by simp only [upd_other _ _ e]; exact ⟨b, c⟩⟩
    · have := h.complete e i hi; rw [hp] at this; cases this.1
  | @enqueue i hi hp hl =>
    have hnq : i ∉ s.queue := fun m => by have := ((h.queued i).1 m).2; rw [hp] at this; cases this
    refine { h with nodup := ?_, queued := fun j => ?_, outside := fun j hj => ?_, ended := fun j hj hst hd => ?_,
                    stopped := fun e => ?_, live := fun e j hj hn => ?_, dropped := fun e p hp' => ?_,
                    complete := fun e j hj => ?_ }
    · rw [List.nodup_append]
      exact ⟨h.nodup, by simp, fun a ha b hb => by
        simp only [List.mem_cons, List.not_mem_nil, or_false] at hb
        subst hb; exact fun e => hnq (e ▸ ha)⟩
    · by_cases e : j = i
      · subst e; simp [upd_same, hi]
      · simp only [upd_other _ _ e, ← h.queued j]
        simp [e]
    · simp only [upd_other s.place _ (show j ≠ i by omega)]; exact h.outside j hj
    · by_cases e : j = i
      · subst e; simp [upd_same] at hd
      · exact h.ended j hj hst (by simpa only [upd_other _ _ e] using hd)
    · have := h.stopped e i hi; rw [hp] at this; cases this
    · have := h.live e j hj hn
      by_cases e : j = i
      · subst e; rw [hp] at this; cases this.1
      · simp only [upd_other _ _ e]; exact this
    · obtain ⟨j, a, b, c⟩ := h.dropped e p hp'
      by_cases e : j = i
      · subst e; rw [hp] at b; cases b
      · exact ⟨j, a, by simp only [upd_other _ _ e]; exact ⟨b, c⟩⟩
    · have := h.complete e i hi; rw [hp] at this; cases this.1
  | @item p i x xs hst hpd hp hc =>
    have hir : i ∈ s.receivers := List.mem_of_getElem? hp
    -- the receiver of the item is kept
    have chanle : ∀ j, s.chan j = [] → upd s.chan i xs j = [] := by
      intro j hj
      by_cases e : j = i
      · subst e; rw [hc] at hj; cases hj
      · rw [upd_other _ _ e]; exact hj
    have hkeep : i ∈ removeAll s.drops s.receivers := by
      rcases removeAll_mem s.drops s.receivers hir with h' | ⟨q, hq, e⟩
      · exact h'
      · obtain ⟨j, a, _, c⟩ := h.dropped hst q hq
        rw [a] at e; cases e; rw [hc] at c; cases c
    refine { h with order := fun j hj => ?_, prefixed := fun j => ?_, live := fun e j hj hn => ?_,
                    bound := fun j hj => h.bound j ((removeAll_sub _ _).subset hj), dropsNodup := .nil,
                    dropped := (fun _ q hq => by cases hq), unfinished := fun _ => .inr ?_,
                    complete := (fun e => by simp only [hst] at e; cases e) }
    · have ho := h.order j hj
      rw [got_snoc]
      by_cases e : j = i
      · subst e
        rw [if_pos rfl]; simp only [upd_same]
        rw [hc] at ho
        rw [← ho]; simp
      · rw [if_neg e]; simp only [upd_other _ _ e]; exact ho
    · obtain ⟨r, hr⟩ := h.prefixed j
      refine ⟨r, ?_⟩
      rw [got_snoc]
      by_cases e : j = i
      · subst e
        rw [if_pos rfl]; simp only [upd_same]
        rw [hc] at hr
        rw [← hr]; simp
      · rw [if_neg e]; simp only [upd_other _ _ e]; exact hr
    · by_cases hjr : j ∈ s.receivers
      · rcases removeAll_mem s.drops s.receivers hjr with h' | ⟨q, hq, e⟩
        · exact absurd h' hn
        · obtain ⟨k, a, b, c⟩ := h.dropped hst q hq
          rw [a] at e; cases e
          exact ⟨b, chanle _ c⟩
      · have := h.live hst j hj hjr
        exact ⟨this.1, chanle _ this.2⟩
    · simpa using List.length_pos_of_mem hkeep
  | @gone p i hst hpd hp hc hd hl =>
    refine { h with dropsNodup := ?_, dropped := fun _ q hq => ?_, unfinished := fun _ => .inr ?_ }
    · rw [List.nodup_append]
      exact ⟨h.dropsNodup, by simp, fun a ha b hb => by
        simp only [List.mem_cons, List.not_mem_nil, or_false] at hb
        subst hb; exact fun e => hpd (e ▸ ha)⟩
    · rcases List.mem_append.1 hq with hq | hq
      · exact h.dropped hst q hq
      · simp only [List.mem_cons, List.not_mem_nil, or_false] at hq
        subst hq; exact ⟨i, hp, hd, hc⟩
    · rcases h.unfinished hst with e | e
      · rw [e] at hp; simp at hp
      · simp only [List.length_append, List.length_cons, List.length_nil]; omega
  | @last p i hst hpd hp hc hd hl =>
    refine { h with order := fun j _ => h.order j (by rw [hst]; simp), live := (fun e => by simp at e),
                    ended := fun j hj _ hdn => h.ended j hj (by rw [hst]; simp) hdn,
                    bound := fun j hj => (by cases hj), dropsNodup := ?_, dropped := (fun e => by simp at e),
                    unfinished := (fun e => by simp at e), complete := fun _ j hj => ?_ }
    · rw [List.nodup_append]
      exact ⟨h.dropsNodup, by simp, fun a ha b hb => by
        simp only [List.mem_cons, List.not_mem_nil, or_false] at hb
        subst hb; exact fun e => hpd (e ▸ ha)⟩
    · by_cases hjr : j ∈ s.receivers
      · obtain ⟨q, hq⟩ := List.mem_iff_getElem?.1 hjr
        -- every position was recorded
        have hall : q ∈ s.drops ++ [p] := by
          have hnd : (s.drops ++ [p]).Nodup := by
            rw [List.nodup_append]
            exact ⟨h.dropsNodup, by simp, fun a ha b hb => by
              simp only [List.mem_cons, List.not_mem_nil, or_false] at hb
              subst hb; exact fun e => hpd (e ▸ ha)⟩
          have hsub : (s.drops ++ [p]) ⊆ List.range s.receivers.length := by
            intro r hr
            rw [List.mem_range]
            rcases List.mem_append.1 hr with hr | hr
            · obtain ⟨k, a, _⟩ := h.dropped hst r hr
              exact (List.getElem?_eq_some_iff.1 a).1
            · simp only [List.mem_cons, List.not_mem_nil, or_false] at hr
              subst hr; exact (List.getElem?_eq_some_iff.1 hp).1
          apply Classical.byContradiction
          intro hno
          have hsub' : (q :: (s.drops ++ [p])) ⊆ List.range s.receivers.length := by
            intro r hr
            rcases List.mem_cons.1 hr with rfl | hr
            · exact List.mem_range.2 (List.getElem?_eq_some_iff.1 hq).1
            · exact hsub hr
          have := List.Nodup.length_le_of_subset (List.nodup_cons.2 ⟨hno, hnd⟩) hsub'
          simp only [List.length_cons, List.length_append, List.length_nil, List.length_range] at this
          omega
        rcases List.mem_append.1 hall with hq' | hq'
        · obtain ⟨k, a, b, c⟩ := h.dropped hst q hq'
          rw [a] at hq; cases hq; exact ⟨b, c⟩
        · simp only [List.mem_cons, List.not_mem_nil, or_false] at hq'
          subst hq'
          rw [hp] at hq; cases hq; exact ⟨hd, hc⟩
      · exact h.live hst j hj hjr
  | none hst hr =>
    refine { h with order := fun j _ => h.order j (by rw [hst]; simp), live := (fun e => by simp at e),
                    ended := fun j hj _ hdn => h.ended j hj (by rw [hst]; simp) hdn,
                    dropped := (fun e => by simp at e),
                    unfinished := (fun e => by simp at e), complete := fun _ j hj => ?_ }
    exact h.live hst j hj (by rw [hr]; simp)
  | abandon hst =>
    exact { h with order := fun j e => absurd rfl e, ended := fun j _ e => absurd rfl e, live := (fun e => by simp at e),
                   dropped := (fun e => by simp at e), unfinished := (fun e => by simp at e),
                   complete := fun e => by simp at e }

theorem inv_reaches {iters : List (List T)} {threads : Nat} {s : St T}
    (h : Reaches threads iters.length (start iters) s) : Inv iters s := by
  induction h with
  | refl => exact inv_start iters
  | step _ hs ih => exact inv_step ih hs

/-! ## Properties -/

/-- At every moment of every execution, what was returned of an iterator is the beginning of it, in its order, nothing
twice and nothing left out. -/
theorem c118_order {iters : List (List T)} {threads : Nat} {s : St T}
    (h : Reaches threads iters.length (start iters) s) (i : Nat) : (s.got i) <+: (iters.getD i []) := by
  obtain ⟨r, hr⟩ := (inv_reaches h).prefixed i
  exact ⟨s.chan i ++ r, by rw [← List.append_assoc]; exact hr⟩

/-- When `next` returns `None`, every iterator was returned completely. -/
theorem c118_complete {iters : List (List T)} {threads : Nat} {s : St T}
    (h : Reaches threads iters.length (start iters) s) (hf : s.status = .finished) (i : Nat) (hi : i < iters.length) :
    s.got i = iters[i] := by
  have hinv := inv_reaches h
  have ⟨hd, hc⟩ := hinv.complete hf i hi
  have hr := hinv.ended i hi (by rw [hf]; simp) hd
  have ho := hinv.order i (by rw [hf]; simp)
  rw [hc, hr] at ho
  simpa [List.getD, hi] using ho

/-- While `next` waits, something can happen other than that the consumer gives up, if the pool has two free threads. -/
theorem c118_progress {iters : List (List T)} {threads : Nat} (ht : 2 ≤ threads) {s : St T}
    (h : Reaches threads iters.length (start iters) s) (hw : s.status = .waiting) :
    ∃ t, Step threads iters.length s t ∧ t.status ≠ .abandoned := by
  have hinv := inv_reaches h
  have hna : s.status ≠ .abandoned := by rw [hw]; simp
  rcases hinv.unfinished hw with he | hlt
  · exact ⟨_, .none hw he, by simp⟩
  -- a position that was not recorded
  obtain ⟨p, hp, hpd⟩ : ∃ p, p < s.receivers.length ∧ p ∉ s.drops := by
    apply Classical.byContradiction
    intro hno
    have hsub : List.range s.receivers.length ⊆ s.drops := fun p hp =>
      Classical.byContradiction fun hn => hno ⟨p, List.mem_range.1 hp, hn⟩
    have := List.Nodup.length_le_of_subset List.nodup_range hsub
    simp at this
    omega
  have hpi : s.receivers[p]? = some s.receivers[p] := List.getElem?_eq_getElem hp
  generalize s.receivers[p] = i at hpi
  have hi : i < iters.length := hinv.bound i (List.mem_of_getElem? hpi)
  cases hc : s.chan i with
  | cons x xs => exact ⟨_, .item hw hpd hpi hc, hna⟩
  | nil =>
    by_cases hd : s.place i = .done
    · by_cases hl : s.drops.length + 1 = s.receivers.length
      · exact ⟨_, .last hw hpd hpi hc hd hl, by simp⟩
      · exact ⟨_, .gone hw hpd hpi hc hd hl, hna⟩
    · by_cases hrun : ∃ j, j < iters.length ∧ s.place j = .running
      · obtain ⟨j, hj, hjp⟩ := hrun
        cases hr : s.rem j with
        | nil => exact ⟨_, .exhausted hj hjp hr, hna⟩
        | cons x xs => exact ⟨_, .send hj hjp hna hr, hna⟩
      · by_cases hsent : ∃ j, j < iters.length ∧ s.place j = .sent
        · obtain ⟨j, hj, hjp⟩ := hsent
          refine ⟨_, .enqueue hj hjp ?_, hna⟩
          have hnj : j ∉ s.queue := fun m => by have := ((hinv.queued j).1 m).2; rw [hjp] at this; cases this
          have hsub : (j :: s.queue) ⊆ List.range iters.length := by
            intro k hk
            rw [List.mem_range]
            rcases List.mem_cons.1 hk with rfl | hk
            · exact hj
            · exact ((hinv.queued k).1 hk).1
          have := List.Nodup.length_le_of_subset (List.nodup_cons.2 ⟨hnj, hinv.nodup⟩) hsub
          simp at this
          omega
        · have hb : s.busy iters.length = s.listener.busy := by
            unfold St.busy
            rw [sumTo_zero]
            · simp
            · intro j hj
              have h₁ : s.place j ≠ .running := fun e => hrun ⟨j, hj, e⟩
              have h₂ : s.place j ≠ .sent := fun e => hsent ⟨j, hj, e⟩
              cases hp : s.place j <;> simp_all [Place.busy]
          have hb2 : s.busy iters.length < threads := by
            rw [hb]
            cases s.listener <;> simp [Listener.busy] <;> omega
          cases hpl : s.place i with
          | running => exact absurd ⟨i, hi, hpl⟩ hrun
          | sent => exact absurd ⟨i, hi, hpl⟩ hsent
          | done => exact absurd hpl hd
          | spawned => exact ⟨_, .run hi hpl hb2, hna⟩
          | queued =>
            cases hlst : s.listener with
            | pending => exact ⟨_, .listen hlst hb2, hna⟩
            | stopped => rw [hinv.stopped hlst i hi] at hpl; cases hpl
            | running =>
              have hq : i ∈ s.queue := (hinv.queued i).2 ⟨hi, hpl⟩
              cases hqs : s.queue with
              | nil => rw [hqs] at hq; cases hq
              | cons k q => exact ⟨_, .dispatch hlst hqs, hna⟩

/-- Weight of a task. -/
def Place.weight : Place → Nat
  | .sent => 5
  | .queued => 4
  | .spawned => 3
  | .running => 2
  | .done => 0

def Listener.weight : Listener → Nat
  | .pending => 2
  | .running => 1
  | .stopped => 0

def Status.weight : Status → Nat
  | .waiting => 1
  | _ => 0

theorem weight_sent : Place.sent.weight = 5 := rfl
theorem weight_queued : Place.queued.weight = 4 := rfl
theorem weight_spawned : Place.spawned.weight = 3 := rfl
theorem weight_running : Place.running.weight = 2 := rfl
theorem weight_done : Place.done.weight = 0 := rfl

/-- A number that every step makes smaller. -/
def St.weight (n : Nat) (s : St T) : Nat :=
  sumTo (fun i => 6 * (s.rem i).length + (s.chan i).length + (s.place i).weight) n + s.listener.weight +
    s.status.weight + (2 * s.receivers.length - s.drops.length)

/-- Every execution is finite: each step lowers a number that depends only on the state. -/
theorem c118_terminates {iters : List (List T)} {threads : Nat} {s t : St T}
    (h : Reaches threads iters.length (start iters) s) (hs : Step threads iters.length s t) :
    t.weight iters.length < s.weight iters.length := by
  have hinv := inv_reaches h
  have hdl : s.status = .waiting → s.drops.length ≤ s.receivers.length := by
    intro hw
    have hsub : s.drops ⊆ List.range s.receivers.length := by
      intro r hr
      obtain ⟨k, a, _⟩ := hinv.dropped hw r hr
      exact List.mem_range.2 (List.getElem?_eq_some_iff.1 a).1
    have := List.Nodup.length_le_of_subset hinv.dropsNodup hsub
    simpa using this
  cases hs with
  | listen h₁ _ => simp [St.weight, h₁, Listener.weight]
  | @dispatch i q h₁ h₂ =>
    have hi := (hinv.queued i).1 (by simp [h₂])
    have := sumTo_change (f := fun j => 6 * (s.rem j).length + (s.chan j).length + (s.place j).weight)
      (g := fun j => 6 * (s.rem j).length + (s.chan j).length + (upd s.place i .spawned j).weight) hi.1
      (fun j hj => by simp only [upd_other _ _ hj])
    simp only [upd_same, hi.2, weight_sent, weight_queued, weight_spawned, weight_running, weight_done] at this
    simp only [St.weight]
    omega
  | stop h₁ h₂ h₃ => simp [St.weight, h₁, Listener.weight]
  | @run i hi hp _ =>
    have := sumTo_change (f := fun j => 6 * (s.rem j).length + (s.chan j).length + (s.place j).weight)
      (g := fun j => 6 * (s.rem j).length + (s.chan j).length + (upd s.place i .running j).weight) hi
      (fun j hj => by simp only [upd_other _ _ hj])
    simp only [upd_same, hp, weight_sent, weight_queued, weight_spawned, weight_running, weight_done] at this
    simp only [St.weight]
    omega
  | @send i x xs hi hp hst hr =>
    have := sumTo_change (f := fun j => 6 * (s.rem j).length + (s.chan j).length + (s.place j).weight)
      (g := fun j => 6 * (upd s.rem i xs j).length + (upd s.chan i (s.chan i ++ [x]) j).length +
        (upd s.place i .sent j).weight) hi
      (fun j hj => by simp only [upd_other _ _ hj])
    simp only [upd_same, hp, weight_sent, weight_queued, weight_spawned, weight_running, weight_done, hr, List.length_append, List.length_cons, List.length_nil] at this
    simp only [St.weight]
    omega
  | @lost i x xs hi hp hst hr =>
    have := sumTo_change (f := fun j => 6 * (s.rem j).length + (s.chan j).length + (s.place j).weight)
      (g := fun j => 6 * (upd s.rem i xs j).length + (s.chan j).length + (upd s.place i .done j).weight) hi
      (fun j hj => by simp only [upd_other _ _ hj])
    simp only [upd_same, hp, weight_sent, weight_queued, weight_spawned, weight_running, weight_done, hr, List.length_cons] at this
    simp only [St.weight]
    omega
  | @exhausted i hi hp hr =>
    have := sumTo_change (f := fun j => 6 * (s.rem j).length + (s.chan j).length + (s.place j).weight)
      (g := fun j => 6 * (s.rem j).length + (s.chan j).length + (upd s.place i .done j).weight) hi
      (fun j hj => by simp only [upd_other _ _ hj])
    simp only [upd_same, hp, weight_sent, weight_queued, weight_spawned, weight_running, weight_done] at this
    simp only [St.weight]
    omega
  | @enqueue i hi hp hl =>
    have := sumTo_change (f := fun j => 6 * (s.rem j).length + (s.chan j).length + (s.place j).weight)
      (g := fun j => 6 * (s.rem j).length + (s.chan j).length + (upd s.place i .queued j).weight) hi
      (fun j hj => by simp only [upd_other _ _ hj])
    simp only [upd_same, hp, weight_sent, weight_queued, weight_spawned, weight_running, weight_done] at this
    simp only [St.weight]
    omega
  | @item p i x xs hst hpd hp hc =>
    have hi : i < iters.length := hinv.bound i (List.mem_of_getElem? hp)
    have := sumTo_change (f := fun j => 6 * (s.rem j).length + (s.chan j).length + (s.place j).weight)
      (g := fun j => 6 * (s.rem j).length + (upd s.chan i xs j).length + (s.place j).weight) hi
      (fun j hj => by simp only [upd_other _ _ hj])
    simp only [upd_same, hc, List.length_cons] at this
    have hlen := removeAll_length hinv.dropsNodup (l := s.receivers) (fun d hd => by
      obtain ⟨k, a, _⟩ := hinv.dropped hst d hd
      exact (List.getElem?_eq_some_iff.1 a).1)
    simp only [St.weight, List.length_nil]
    omega
  | @gone p i hst hpd hp hc hd hl =>
    have := hdl hst
    have := (List.getElem?_eq_some_iff.1 hp).1
    simp only [St.weight, List.length_append, List.length_cons, List.length_nil]
    omega
  | @last p i hst hpd hp hc hd hl =>
    simp only [St.weight, hst, Status.weight, List.length_nil]
    omega
  | none hst hr => simp [St.weight, hst, Status.weight]
  | abandon hst => simp [St.weight, hst, Status.weight]

/-- So an execution that cannot continue, in which the consumer did not give up, has returned everything and ended. -/
theorem c118_delivers {iters : List (List T)} {threads : Nat} (ht : 2 ≤ threads) {s : St T}
    (h : Reaches threads iters.length (start iters) s) (hend : ∀ t, ¬ Step threads iters.length s t)
    (hna : s.status ≠ .abandoned) :
    s.status = .finished ∧ ∀ i (hi : i < iters.length), s.got i = iters[i] := by
  have hf : s.status = .finished := by
    cases hst : s.status with
    | finished => rfl
    | abandoned => exact absurd hst hna
    | waiting =>
      obtain ⟨t, hs, _⟩ := c118_progress ht h hst
      exact absurd hs (hend t)
  exact ⟨hf, fun i hi => c118_complete h hf i hi⟩

/-- The gap: with one free thread or none nothing is ever returned, and `next` never returns, in every execution, if there
is at least one iterator. The job that waits for tasks keeps the only thread. A pool of two threads has this problem, since
the consumer is on one of them. -/
theorem c118_small_pool_violated {iters : List (List T)} {threads : Nat} (ht : threads ≤ 1) (hne : iters ≠ []) {s : St T}
    (h : Reaches threads iters.length (start iters) s) : s.out = [] ∧ s.status ≠ .finished := by
  have hpos : 0 < iters.length := by cases iters with
    | nil => exact absurd rfl hne
    | cons _ _ => simp
  have key : s.out = [] ∧ s.status ≠ .finished ∧ (∀ i, s.chan i = []) ∧ s.receivers = List.range iters.length ∧
      (∀ i < iters.length, s.place i = .queued ∨ (s.place i = .spawned ∧ s.listener = .running)) ∧
      s.listener ≠ .stopped := by
    induction h with
    | refl =>
      refine ⟨rfl, by simp [start], fun _ => rfl, rfl, fun i hi => .inl (by simp [start, hi]), by simp [start]⟩
    | @step t u hr hs ih =>
      obtain ⟨ho, hst, hc, hrec, hp, hl⟩ := ih
      have hinv := inv_reaches hr
      cases hs with
      | listen h₁ _ => exact ⟨ho, hst, hc, hrec, fun i hi => (hp i hi).imp id fun e => ⟨e.1, rfl⟩, by simp⟩
      | @dispatch i q h₁ h₂ =>
        refine ⟨ho, hst, hc, hrec, fun j hj => ?_, hl⟩
        by_cases e : j = i
        · subst e; exact .inr ⟨by simp [upd_same], h₁⟩
        · simp only [upd_other _ _ e]; exact hp j hj
      | stop h₁ h₂ h₃ =>
        have := h₃ 0 hpos
        rcases hp 0 hpos with e | e
        · rw [e] at this; cases this
        · rw [e.1] at this; cases this
      | @run i hi hpl hb =>
        rcases hp i hi with e | e
        · rw [e] at hpl; cases hpl
        · have : 1 ≤ t.busy iters.length := by unfold St.busy; rw [e.2]; simp [Listener.busy]
          omega
      | send hi hpl _ _ => rcases hp _ hi with e | e <;> simp [hpl] at e
      | lost hi hpl _ _ => rcases hp _ hi with e | e <;> simp [hpl] at e
      | exhausted hi hpl _ => rcases hp _ hi with e | e <;> simp [hpl] at e
      | enqueue hi hpl _ => rcases hp _ hi with e | e <;> simp [hpl] at e
      | item _ _ _ hch => rw [hc] at hch; cases hch
      | gone _ _ hpos' _ hd _ =>
        rcases hp _ (hinv.bound _ (List.mem_of_getElem? hpos')) with e | e <;> simp [hd] at e
      | last _ _ hpos' _ hd _ =>
        rcases hp _ (hinv.bound _ (List.mem_of_getElem? hpos')) with e | e <;> simp [hd] at e
      | none _ he => rw [hrec, List.range_eq_nil] at he; omega
      | abandon _ => exact ⟨ho, by simp, hc, hrec, hp, hl⟩
  exact ⟨key.1, key.2.1⟩

/-! ## Instances -/

/-- Two iterators; the second item of the first and the item of the second in some execution with two threads. -/
def toy : List (List Nat) := [[10, 11], [20]]

/-- Positions are removed from behind. -/
example : removeAll [0, 2] [5, 6, 7, 8] = [6, 8] := by decide

/-- An execution with two free threads that returns an item. -/
example : ∃ s, Reaches 2 2 (start [[10], []]) s ∧ s.out = [(0, 10)] :=
  ⟨_, .step (.step (.step (.step (.step .refl (.listen rfl (by decide)))
    (.dispatch (i := 0) (q := [1]) rfl rfl)) (.run (i := 0) (by decide) rfl (by decide)))
    (.send (i := 0) (x := 10) (xs := []) (by decide) rfl (by decide) rfl))
    (.item (p := 0) (i := 0) (x := 10) (xs := []) rfl (by simp [start]) rfl rfl), rfl⟩

/-- An execution that ends: one empty iterator. -/
example : ∃ s, Reaches 2 1 (start ([[]] : List (List Nat))) s ∧ s.status = .finished :=
  ⟨_, .step (.step (.step (.step (.step .refl (.listen rfl (by decide)))
    (.dispatch (i := 0) (q := []) rfl rfl)) (.run (i := 0) (by decide) rfl (by decide)))
    (.exhausted (i := 0) (by decide) rfl rfl))
    (.last (p := 0) (i := 0) rfl (by simp [start]) rfl rfl rfl rfl), rfl⟩

/-- With one free thread: two threads in the pool, one of them waiting. -/
example {s : St Nat} (h : Reaches 1 2 (start toy) s) : s.out = [] :=
  (c118_small_pool_violated (iters := toy) (by omega) (by simp [toy]) h).1

end Verif.Select
