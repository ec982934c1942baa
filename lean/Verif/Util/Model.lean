/-!
# Model of `manta-util` sequence utilities

Source: `/repo/manta-util/src/vec.rs`, `iter/chunk_by.rs`, `iter/finder.rs`, `iter/mod.rs`,
`collections/vec_deque.rs`.
-/

namespace Verif.Util

/-- `all_unequal`, manta-util/src/vec.rs:115-125. The loop over `slice.iter().enumerate()` with
the early `return false`; `slice.iter().skip(i + 1)` is the tail after the current element. -/
def allUnequal (eq : α → α → Bool) : List α → Bool
  | [] => true
  | x :: rest => if rest.any (fun y => eq x y) then false else allUnequal eq rest

/-- `slice.chunks_exact(width)` (used in manta-util/src/vec.rs:81-82): the full chunks and the
remainder. Fuel-free structural definition over the length of the slice; `width = 0` panics in
Rust and is excluded by `paddedChunksWith`. -/
def chunksExact (width : Nat) (xs : List α) : List (List α) × List α :=
  if h : 0 < width ∧ width ≤ xs.length then
    let r := chunksExact width (xs.drop width)
    (xs.take width :: r.1, r.2)
  else ([], xs)
termination_by xs.length
decreasing_by simp only [List.length_drop]; omega

/-- `padded_chunks_with`, manta-util/src/vec.rs:76-93. The padding closure is a constant.
`none` is the panic of `chunks_exact(0)`. -/
def paddedChunksWith (xs : List α) (width : Nat) (d : α) : Option (List (List α)) :=
  if width = 0 then none
  else
    let c := chunksExact width xs
    some (c.1 ++ [c.2 ++ List.replicate (width - c.2.length) d])

/-- `VecExt::take`, manta-util/src/vec.rs:33-37: `truncate(n+1)` then `remove(n)`;
`none` is the panic of `remove`. -/
def vecTake (xs : List α) (n : Nat) : Option α :=
  let v := xs.take (n + 1)
  v[n]?

/-- `VecExt::take_first`, manta-util/src/vec.rs:41-43. -/
def vecTakeFirst (xs : List α) : Option α := vecTake xs 0

/-! ## `ChunkBy` -/

/-- `ChunkBy`, manta-util/src/iter/chunk_by.rs:34-43. -/
structure ChunkBy (α : Type u) where
  iter : List α
  remainder : Option (List α)

/-- `ChunkBy::new`, chunk_by.rs:51-56. -/
def ChunkBy.new (xs : List α) : ChunkBy α := ⟨xs, none⟩

/-- The `for _ in 0..N` loop of `next`, chunk_by.rs:82-90. `vec` is the vector filled so far.
Returns the vector, the rest of the base iterator and whether all `n` items were found. -/
def pull (n : Nat) (vec iter : List α) : List α × List α × Bool :=
  match n with
  | 0 => (vec, iter, true)
  | n + 1 =>
    match iter with
    | [] => (vec, [], false)
    | x :: rest => pull n (vec ++ [x]) rest

/-- `ChunkBy::next`, chunk_by.rs:77-92. -/
def ChunkBy.next (N : Nat) (s : ChunkBy α) : Option (List α) × ChunkBy α :=
  match s.remainder with
  | some _ => (none, s)
  | none =>
    match pull N [] s.iter with
    | (vec, rest, true) => (some vec, ⟨rest, none⟩)
    | (vec, rest, false) => (none, ⟨rest, some vec⟩)

/-- The consumer loop `for chunk in &mut iter` (as in
manta-accounting/src/wallet/signer/functions.rs:771), at most `fuel` calls of `next`; the flag says whether
`next` returned `None`. -/
def ChunkBy.drain (N : Nat) : Nat → ChunkBy α → List (List α) × ChunkBy α × Bool
  | 0, s => ([], s, false)
  | fuel + 1, s =>
    match s.next N with
    | (none, s') => ([], s', true)
    | (some c, s') =>
      let r := ChunkBy.drain N fuel s'
      (c :: r.1, r.2.1, r.2.2)

/-- `ChunkBy::remainder`, chunk_by.rs:65-67; `none` is the panic of `unwrap`. -/
def ChunkBy.remainder? (s : ChunkBy α) : Option (List α) := s.remainder

/-! ## `Finder` -/

/-- `Finder`, manta-util/src/iter/finder.rs:24-27. -/
structure Finder (σ : Type u) where
  state : Option σ

/-- `Finder::found`, finder.rs:38-40. -/
def Finder.found (f : Finder σ) : Bool := f.state.isNone

/-- `Finder::next`, finder.rs:45-56. The closure mutates the state, so it returns the new state
together with its answer. -/
def Finder.next (fd : Finder σ) (f : σ → Option ρ × σ) : Option ρ × Finder σ :=
  match fd.state with
  | none => (none, ⟨none⟩)
  | some s =>
    match f s with
    | (some r, _) => (some r, ⟨none⟩)
    | (none, s') => (none, ⟨some s'⟩)

/-- `Finder::find`, finder.rs:61-67 (`find_map` stops at the first `Some`). Also returns the
unconsumed rest of the iterator. -/
def Finder.find (fd : Finder σ) (f : σ → ι → Option ρ × σ) :
    List ι → Option ρ × Finder σ × List ι
  | [] => (none, fd, [])
  | i :: rest =>
    match fd.next (fun s => f s i) with
    | (some r, fd') => (some r, fd', rest)
    | (none, fd') => Finder.find fd' f rest

/-- `IteratorExt::fold_ref`, manta-util/src/iter/mod.rs:96-103. -/
def foldRef (xs : List ι) (init : β) (f : β → ι → β) : Option β :=
  match xs with
  | [] => none
  | x :: rest => some (rest.foldl f (f init x))

/-! ## `MultiVecDeque` -/

/-- `MultiVecDeque<T, N>`, manta-util/src/collections/vec_deque.rs:39; `N` is the length of the
outer list. Level 0 is served first. -/
abbrev MDeque (α : Type u) := List (List α)

namespace MDeque

/-- `Default`/`new`, vec_deque.rs:44-46, 190-195. -/
def empty (N : Nat) : MDeque α := List.replicate N []

/-- `len`, vec_deque.rs:62-64. -/
def len (q : MDeque α) : Nat := (q.map List.length).sum

/-- `is_empty`, vec_deque.rs:68-70. -/
def isEmpty (q : MDeque α) : Bool := q.all List.isEmpty

/-- `get`, vec_deque.rs:74-82. -/
def get : MDeque α → Nat → Option α
  | [], _ => none
  | level :: rest, i =>
    match level[i]? with
    | none => get rest (i - level.length)
    | some x => some x

/-- `front`, vec_deque.rs:98-100. -/
def front (q : MDeque α) : Option α := q.findSome? List.head?

/-- `leading_element_count`, vec_deque.rs:133-135. -/
def leading (q : MDeque α) (level : Nat) : Nat := ((q.take level).map List.length).sum

/-- `position`, vec_deque.rs:139-153. The outer `Option` is the panic of `self.0[level]` for a
level out of range, the inner one the answer. -/
def position [DecidableEq α] (q : MDeque α) (level : Nat) (x : α) : Option (Option Nat) :=
  match q[level]? with
  | none => none
  | some l =>
    some (match l.findIdx? (fun y => y = x) with
      | none => none
      | some p => some (p + leading q level))

/-- `push_back`, vec_deque.rs:161-163; `none` is the out-of-range panic. -/
def pushBack (q : MDeque α) (level : Nat) (x : α) : Option (MDeque α) :=
  match q[level]? with
  | none => none
  | some l => some (q.set level (l ++ [x]))

/-- `pop_front`, vec_deque.rs:167-169: `find_map(VecDeque::pop_front)` pops the first level that
is not empty. -/
def popFront : MDeque α → Option α × MDeque α
  | [] => (none, [])
  | [] :: rest =>
    let r := popFront rest
    (r.1, [] :: r.2)
  | (x :: l) :: rest => (some x, l :: rest)

/-- `push_back_if_missing`, vec_deque.rs:174-188. -/
def pushBackIfMissing [DecidableEq α] (q : MDeque α) (level : Nat) (x : α) :
    Option ((Bool × Nat) × MDeque α) :=
  match position q level x with
  | none => none
  | some (some p) => some ((false, p), q)
  | some none =>
    match pushBack q level x with
    | none => none
    | some q' =>
      match q'[level]? with
      | none => none
      | some l => some ((true, leading q' level + l.length - 1), q')

end MDeque

end Verif.Util
