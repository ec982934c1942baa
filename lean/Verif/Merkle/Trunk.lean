import Verif.Merkle.ForkBase

/-!
# Trunks and forks behind shared pointers

Models `Trunk` (`manta-crypto/src/merkle_tree/fork.rs:38-235`) and `Fork` (626-852): trees that are shared by
reference counted pointers (`manta-util/src/pointer.rs`), one strong pointer in each trunk and weak pointers in
the forks.

* A pointer is the number of its allocation.  An allocation lives as long as the trunk that holds it; `upgrade`
  finds it there.  Allocations are numbered from `fresh` on and no number is used twice, as a weak pointer keeps its
  counters allocated.
* Trunks and forks are variables, numbered in the order of creation; `none` is a variable whose value was moved.
  The compiler accepts no operation on such a variable; here it does nothing.
* `Trunk::merge` asks the same of the tree as `ForkedTree::merge_fork`; `Base` stands for both.  `claim` panics
  if there are other strong pointers; forks make them only during their own calls, so between calls there are none.
* Not modelled: `NoPointer` (pointer.rs:118), threads.
-/

namespace Verif.Merkle

variable {T D N : Type}

/-- `Trunk` (fork.rs:39): the allocation of the strong pointer and the tree in it. -/
structure Trunk (T : Type) where
  ptr : Nat
  tree : T

/-- `Fork` (fork.rs:632): the weak pointer and the branch. -/
structure Fork (D N : Type) where
  base : Nat
  branch : Branch D N

/-- All trunks and forks of a program. -/
structure Wood (T D N : Type) where
  trunks : List (Option (Trunk T))
  forks : List (Option (Fork D N))
  fresh : Nat

/-- What a program can do with trunks and forks; `P` says how trees are made. -/
inductive Act (P D : Type)
  | plant (p : P)
  | fell (i : Nat)
  | fork (i : Nat)
  | forkWith (i : Nat) (ds : List D)
  | push (j : Nat) (d : D)
  | batch (j : Nat) (ds : List D)
  | attach (j i : Nat)
  | merge (i j : Nat)
deriving Repr

namespace Wood

/-- The value of a trunk. -/
def trunk (w : Wood T D N) (i : Nat) : Option (Trunk T) := w.trunks[i]?.join

/-- The value of a fork. -/
def fork (w : Wood T D N) (j : Nat) : Option (Fork D N) := w.forks[j]?.join

/-- `PointerFamily::upgrade` (pointer.rs:88): the allocation, if a trunk still holds it. -/
def upgrade (w : Wood T D N) (p : Nat) : Option (Trunk T) := (w.trunks.filterMap id).find? (·.ptr = p)

/-- `Fork::is_attached` (fork.rs:703). -/
def isAttached (w : Wood T D N) (f : Fork D N) : Bool := (w.upgrade f.base).isSome

/-- `Fork::is_attached_to` (fork.rs:709) and `get_attached_base` (716): the upgraded pointer is the one of the
trunk. -/
def attachedBase (w : Wood T D N) (f : Fork D N) (tr : Trunk T) : Option (Trunk T) :=
  (w.upgrade f.base).filter (·.ptr = tr.ptr)

/-- `Fork::path` (fork.rs:777): without the trunk there is no path for the leaves before the window. -/
def path (I : Base T D N) (H : Hash D N) (h : Nat) (w : Wood T D N) (f : Fork D N) (i : Nat) : Option (Option (Path D N)) :=
  f.branch.path H h (match w.upgrade f.base with
    | some tr => I.view tr.tree
    | none => ⟨0, none, CurrentPath.default H, fun _ => none⟩) i

variable {P : Type} (I : Base T D N) (H : Hash D N) (h : Nat) (K : Kind) (mk : P → T)

/-- One operation.  The outer `none` is a panic, the inner one the answer `None` of a fork (and what is said of
moved variables).  `Trunk::new` (fork.rs:70), `into_tree` (82), `fork` (88) and `Fork::new` (655), `with_leaves`
(666), `push` (793), `batch_maybe_push_digest` (817), `attach` (682), `Trunk::merge` (128) with `merge_branch`
(150). -/
def step (w : Wood T D N) : Act P D → Option (Option Bool × Wood T D N)
  | .plant p => some (some true, { w with trunks := w.trunks ++ [some ⟨w.fresh, mk p⟩], fresh := w.fresh + 1 })
  | .fell i => match w.trunk i with
    | none => some (none, w)
    | some _ => some (some true, { w with trunks := w.trunks.set i none })
  | .fork i => match w.trunk i with
    | none => some (none, w)
    | some tr => (Branch.newUnchecked H h K (I.view tr.tree) []).map fun b =>
      (some true, { w with forks := w.forks ++ [some ⟨tr.ptr, b⟩] })
  | .forkWith i ds => match w.trunk i with
    | none => some (none, w)
    | some tr => (Branch.new H h K (I.view tr.tree) ds).map fun
      | none => (some false, w)
      | some b => (some true, { w with forks := w.forks ++ [some ⟨tr.ptr, b⟩] })
  | .push j d => match w.fork j with
    | none => some (none, w)
    | some f => if w.isAttached f then
        let r := f.branch.data.pushProvable H h d
        some (some r.1, { w with forks := w.forks.set j (some ⟨f.base, f.branch.contrib, r.2⟩) })
      else some (none, w)
  | .batch j ds => match w.fork j with
    | none => some (none, w)
    | some f => if w.isAttached f then
        if ds = [] then some (none, w)
        else (f.branch.data.batchPushProvable H h ds).map fun r =>
          (some r.1.1, { w with forks := w.forks.set j (some ⟨f.base, f.branch.contrib, r.2⟩) })
      else some (none, w)
  | .attach j i => match w.fork j, w.trunk i with
    | some f, some tr => (f.branch.tryRebase H h K (I.view tr.tree)).map fun r =>
      if r.1 then (some true, { w with forks := w.forks.set j (some ⟨tr.ptr, r.2⟩) })
      else (some false, { w with forks := w.forks.set j (some ⟨f.base, r.2⟩) })
    | _, _ => some (none, w)
  | .merge i j => match w.fork j, w.trunk i with
    | some f, some tr => match w.attachedBase f tr with
      | none => some (some false, w)
      | some base => f.branch.extractMarked.bind fun ds => (I.merge base.tree ds).map fun t =>
        (some true, { trunks := w.trunks.set i (some ⟨w.fresh, t⟩), forks := w.forks.set j none, fresh := w.fresh + 1 })
    | _, _ => some (none, w)

/-- A program without trunks and forks. -/
def empty : Wood T D N := ⟨[], [], 0⟩

/-- A history, with the answers. -/
def run (w : Wood T D N) : List (Act P D) → Option (List (Option Bool) × Wood T D N)
  | [] => some ([], w)
  | a :: as => (w.step I H h K mk a).bind fun r => (r.2.run as).map fun q => (r.1 :: q.1, q.2)

end Wood

/-! ## The reference -/

/-- Trunks are sequences of leaves.  A fork knows the trunk it is attached to, if any, and the leaves before and
after the point where it branched off. -/
structure Grove (D : Type) where
  trunks : List (Option (List (D × Bool)))
  forks : List (Option (Option Nat × FRef D))

namespace Grove

/-- The leaves of a trunk. -/
def trunk (g : Grove D) (i : Nat) : Option (List (D × Bool)) := g.trunks[i]?.join

/-- The value of a fork. -/
def fork (g : Grove D) (j : Nat) : Option (Option Nat × FRef D) := g.forks[j]?.join

/-- All forks of a trunk lose it. -/
def detach (i : Nat) : Option (Option Nat × FRef D) → Option (Option Nat × FRef D) :=
  Option.map fun x => if x.1 = some i then (none, x.2) else x

/-- A fork of these leaves with leaves of its own. -/
def grown (r : List (D × Bool)) (ds : List D) : FRef D :=
  ⟨r, ds.map (·, true), decide (r ≠ [] ∨ ds ≠ [])⟩

variable {P : Type} (h : Nat) (keep : Bool → Bool) (room : Nat) (lv : P → List (D × Bool))

/-- One operation on the reference. -/
def step (g : Grove D) : Act P D → Option (Option Bool × Grove D)
  | .plant p => some (some true, { g with trunks := g.trunks ++ [some (lv p)] })
  | .fell i => match g.trunk i with
    | none => some (none, g)
    | some _ => some (some true, ⟨g.trunks.set i none, g.forks.map (detach i)⟩)
  | .fork i => match g.trunk i with
    | none => some (none, g)
    | some r => some (some true, { g with forks := g.forks ++ [some (some i, grown r [])] })
  | .forkWith i ds => match g.trunk i with
    | none => some (none, g)
    | some r => if r.length + ds.length < 2 ^ (h + 1) then
        some (some true, { g with forks := g.forks ++ [some (some i, grown r ds)] })
      else some (some false, g)
  | .push j d => match g.fork j with
    | some (some i, q) =>
      some (some (q.grow h (.pushProvable d)).1, { g with forks := g.forks.set j (some (some i, (q.grow h (.pushProvable d)).2)) })
    | _ => some (none, g)
  | .batch j ds => match g.fork j with
    | some (some i, q) => if ds = [] then some (none, g) else
      some (some (q.grow h (.batchProvable ds)).1, { g with forks := g.forks.set j (some (some i, (q.grow h (.batchProvable ds)).2)) })
    | _ => some (none, g)
  | .attach j i => match g.fork j, g.trunk i with
    | some (_, q), some r =>
      if r.length + q.pend.length + Branch.startOf q.base.length < 2 ^ (h + 1) then
        some (some true, { g with forks := g.forks.set j (some (some i, grown r (q.pend.map Prod.fst))) })
      else some (some false, g)
    | _, _ => some (none, g)
  | .merge i j => match g.fork j, g.trunk i with
    | some (a, q), some _ =>
      if a = some i then
        if q.base.length + q.pend.length ≤ room then
          some (some true, ⟨g.trunks.set i (some (q.base ++ q.pend.map fun x => (x.1, keep x.2))),
            (g.forks.set j none).map (detach i)⟩)
        else none
      else some (some false, g)
    | _, _ => some (none, g)

/-- Nothing planted yet. -/
def empty : Grove D := ⟨[], []⟩

/-- A history of the reference, with the answers. -/
def run (g : Grove D) : List (Act P D) → Option (List (Option Bool) × Grove D)
  | [] => some ([], g)
  | a :: as => (g.step h keep room lv a).bind fun r => (r.2.run as).map fun q => (r.1 :: q.1, q.2)

end Grove

end Verif.Merkle
