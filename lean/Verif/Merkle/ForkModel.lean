import Verif.Merkle.PartialModel

/-!
# Forked trees

Models `manta-crypto/src/merkle_tree/fork.rs`: branches over a base tree (lines 236-622), the pair of a base
tree and its branch (`ForkedTree`, 878-1170), and rollback and commit (`tree.rs:1346-1366`).

* A branch asks its base only for the length, the current leaf, the current path and, for proofs of leaves of
  the base, a path: a `View`.
* `usize` subtractions that underflow are panics (`none`), as in debug builds.
* `Trunk` and `Fork` (fork.rs:38-235, 626-850) keep base and branch behind shared pointers; see
  `Verif/Merkle/Trunk.lean`.
-/

namespace Verif.Merkle

variable {D N : Type}

/-- What a branch asks of its base: `Tree::{len, current_leaf, current_path}` and `WithProofs::path`. -/
structure View (D N : Type) where
  len : Nat
  currentLeaf : Option D
  currentPath : CurrentPath D N
  path : Nat → Option (Path D N)

/-- The view of a full tree: `Full::current_leaf` (full.rs:195), `current_path` (205), `path` (305). -/
def Full.view [DecidableEq N] (H : Hash D N) (h : Nat) (t : Full D N) : View D N :=
  ⟨t.len, t.leaves.getLast?, t.currentPath H h, t.path H h⟩

/-- The view of a partial tree: `Partial::current_leaf` (partial.rs:247), `current_path` (253), `path` (613). -/
def Partial.view [DecidableEq N] (H : Hash D N) (h : Nat) (t : Partial D N) : View D N :=
  ⟨t.len, t.currentLeaf, t.currentPath H h, t.path H h⟩

/-- The view of a single-path tree (single_path.rs:157, 167); it has no proofs. -/
def SinglePath.view (t : SinglePath D N) : View D N := ⟨t.len, t.leaf, t.cur, fun _ => none⟩

/-- `Branch` (fork.rs:275): `contrib` is the number of leaves of `base_contribution` (236). -/
structure Branch (D N : Type) where
  contrib : Nat
  data : Partial D N

namespace Branch

/-- `Branch::generate_branch_setup` (fork.rs:345); `none` is the panic of `unwrap` (368). -/
def setup (H : Hash D N) (v : View D N) : Option (Nat × N × List D × CurrentPath D N) :=
  if v.len = 0 then some (0, H.dN, [], v.currentPath)
  else match v.currentLeaf with
    | none => none
    | some leaf =>
      if v.currentPath.leafIndex % 2 = 0 then
        some (1, H.joinL leaf v.currentPath.sib, [leaf], v.currentPath)
      else some (2, H.joinL v.currentPath.sib leaf, [v.currentPath.sib, leaf], v.currentPath)

/-- `Branch::new_unchecked` (fork.rs:317); `Partial::new_unchecked_from_leaves` (partial.rs:92) stores the
leaves unmarked.  `none` is a panic. -/
def newUnchecked (H : Hash D N) (h : Nat) (kind : Kind) (v : View D N) (ds : List D) : Option (Branch D N) :=
  match setup H v with
  | none => none
  | some (c, base, ls, cur) =>
    match fromCurrent H h base cur.leafIndex cur.path with
    | none => none
    | some (m, start) =>
      some ⟨c, ds.foldl (fun t d => t.pushLeaf H h t.len d) ⟨LeafMap.fromVec kind ls false, m, start⟩⟩

/-- `Branch::new` (fork.rs:298); the outer `none` is a panic, the inner one a refusal. -/
def new (H : Hash D N) (h : Nat) (kind : Kind) (v : View D N) (ds : List D) : Option (Option (Branch D N)) :=
  if ds.length + v.len ≥ capacity h then some none else (newUnchecked H h kind v ds).map some

/-- `drain(0..n)` (fork.rs:392, 404): panics if there are fewer than `n` entries. -/
def drain {α : Type} (n : Nat) (xs : List α) : Option (List α) := if n ≤ xs.length then some (xs.drop n) else none

/-- `Branch::extract_leaves` (fork.rs:386). -/
def extractLeaves (b : Branch D N) : Option (List D) := drain b.contrib b.data.leaf.intoLeaves

/-- `Branch::extract_leaves_with_markings` (fork.rs:400). -/
def extractMarked (b : Branch D N) : Option (List (Bool × D)) := drain b.contrib b.data.leaf.intoMarked

/-- `Branch::try_rebase` (fork.rs:413); `none` is a panic. -/
def tryRebase (H : Hash D N) (h : Nat) (kind : Kind) (v : View D N) (b : Branch D N) : Option (Bool × Branch D N) :=
  if b.data.len + v.len < b.contrib then none
  else if b.data.len + v.len - b.contrib ≥ capacity h then some (false, b)
  else (b.extractLeaves).bind fun ds => (newUnchecked H h kind v ds).map fun b => (true, b)

/-- The position of the first pair of siblings among the ancestors of two leaves (fork.rs:491-495), looking at
`n` levels. -/
def matching : Nat → Nat → Nat → Option Nat
  | 0, _, _ => none
  | n + 1, b, f => if sibling (b / 2) = f / 2 then some 0 else (matching n (b / 2) (f / 2)).map (· + 1)

/-- `Branch::modified_path_unchecked` (fork.rs:474).  The outer `none` is a panic, which includes a position
beyond the path, where the code indexes out of bounds or searches forever; the inner `none` is the error of the
base. -/
def modifiedPath (H : Hash D N) (h : Nat) (v : View D N) (b : Branch D N) (i : Nat) :
    Option (Option (Path D N)) :=
  match v.path i with
  | none => some none
  | some bp =>
    let s := b.data.start
    let fp := b.data.pathUnchecked H h s
    if sibling i = s then some (some ⟨bp.sib, bp.leafIndex, fp.path⟩)
    else match matching fp.path.length i s with
      | none => none
      | some m =>
        if bp.path.length < m then none
        else some (some ⟨bp.sib, bp.leafIndex,
          bp.path.take m ++
            foldPath H s (H.joinLeavesAt s ((b.data.leaf.get 0).getD H.dD) fp.sib) (fp.path.take m) ::
            fp.path.drop (m + 1)⟩)

/-- `Branch::path` (fork.rs:517). -/
def path (H : Hash D N) (h : Nat) (v : View D N) (b : Branch D N) (i : Nat) : Option (Option (Path D N)) :=
  if i > 0 ∧ i ≥ b.data.len then some none
  else if i < b.data.start then b.modifiedPath H h v i
  else some (some (b.data.pathUnchecked H h i))

end Branch

/-- `ForkedTree` (fork.rs:878). -/
structure Forked (T D N : Type) where
  base : T
  branch : Branch D N

/-- What a forked tree asks of its base beyond the view: committing leaves with their markings, and pruning.
`none` is a panic. -/
structure Base (T D N : Type) where
  view : T → View D N
  merge : T → List (Bool × D) → Option T
  prune : T → Option T

/-- A full tree below `ForkedTree::merge_fork` (fork.rs:1022): `Branch::merge` (579) extends by the digests and
asserts success; `Tree::prune` does nothing (tree.rs:444). -/
def fullBase [DecidableEq N] (H : Hash D N) (h : Nat) : Base (Full D N) D N where
  view := Full.view H h
  merge t ds := match extendDigests h Full.len (fun t d => t.maybePush H h d) t (ds.map Prod.snd) with
    | .ok t => some t
    | _ => none
  prune := some

/-- A partial tree below `ForkedTree::merge_fork_partial` (fork.rs:1057): `Branch::merge_partial` (602). -/
def partialBase [DecidableEq N] (H : Hash D N) (h : Nat) : Base (Partial D N) D N where
  view := Partial.view H h
  merge t ds := match t.extendMarked H h ds with
    | some (true, t) => some t
    | _ => none
  prune t := t.prune h

/-- `Tree::maybe_push_digest` of a partial tree (partial.rs:548) with the closure as its result. -/
def Partial.maybePush (H : Hash D N) (h : Nat) (t : Partial D N) : Option D → Option Bool × Partial D N
  | some d => (some (t.push H h d).1, (t.push H h d).2)
  | none => (if t.len ≥ capacity h then some false else none,
      { t with leaf := t.leaf.mark (t.len - t.start) })

/-- A partial tree below `ForkedTree::merge_fork` (fork.rs:1022), as `Rollback` of a `MerkleTree` uses it
(tree.rs:1363). -/
def partialBaseFork [DecidableEq N] (H : Hash D N) (h : Nat) : Base (Partial D N) D N where
  view := Partial.view H h
  merge t ds := match extendDigests h Partial.len (fun t d => t.maybePush H h d) t (ds.map Prod.snd) with
    | .ok t => some t
    | _ => none
  prune t := t.prune h

namespace Forked

variable {T : Type} (I : Base T D N) (H : Hash D N) (h : Nat) (kind : Kind)

/-! The leaf store of the branch, `kind`, is a type parameter of `ForkedTree`. -/

/-- `ForkedTree::new` (fork.rs:901). -/
def new (t : T) : Option (Forked T D N) :=
  (Branch.newUnchecked H h kind (I.view t) []).map fun b => ⟨t, b⟩

/-- `ForkedTree::len` (fork.rs:911). -/
def len (f : Forked T D N) : Nat := f.branch.data.len

/-- `ForkedTree::root` (fork.rs:923). -/
def root (f : Forked T D N) : N := f.branch.data.root H

/-- `ForkedTree::leaf_digest` (fork.rs:929). -/
def leafDigest (f : Forked T D N) (i : Nat) : Option (Option D) := f.branch.data.leafDigest i

/-- `ForkedTree::path` (fork.rs:965). -/
def path (f : Forked T D N) (i : Nat) : Option (Option (Path D N)) := f.branch.path H h (I.view f.base) i

/-- `ForkedTree::reset_fork` (fork.rs:1012). -/
def reset (f : Forked T D N) : Option (Forked T D N) := new I H h kind f.base

/-- `ForkedTree::merge_fork` (fork.rs:1022) or `merge_fork_partial` (1057). -/
def merge (f : Forked T D N) : Option (Forked T D N) :=
  f.branch.extractMarked.bind fun ds => (I.merge f.base ds).bind fun t => new I H h kind t

/-- The operations of a forked tree. -/
inductive Op (D : Type)
  | push (d : D)
  | pushProvable (d : D)
  | batch (ds : List D)
  | batchProvable (ds : List D)
  | remove (i : Nat)
  | reset
  | merge
  | prune
deriving Repr

/-- Replacing the data of the branch. -/
def withData (f : Forked T D N) (t : Partial D N) : Forked T D N := ⟨f.base, f.branch.contrib, t⟩

/-- One operation (fork.rs:1012-1170); the answer of `reset`, `merge` and `prune` is `true`. -/
def step (f : Forked T D N) : Op D → Option (Bool × Forked T D N)
  | .push d => some ((f.branch.data.push H h d).1, f.withData (f.branch.data.push H h d).2)
  | .pushProvable d => some ((f.branch.data.pushProvable H h d).1, f.withData (f.branch.data.pushProvable H h d).2)
  | .batch ds => (f.branch.data.batchPush H h ds).map fun r => (r.1, f.withData r.2)
  | .batchProvable ds => (f.branch.data.batchPushProvable H h ds).map fun r => (r.1.1, f.withData r.2)
  | .remove i => (f.branch.data.removePath i).map fun r => (r.1, f.withData r.2)
  | .reset => (f.reset I H h kind).map fun f => (true, f)
  | .merge => (f.merge I H h kind).map fun f => (true, f)
  | .prune => (I.prune f.base).map fun t => (true, ⟨t, f.branch⟩)

/-- A history, with the answers. -/
def run (f : Forked T D N) : List (Op D) → Option (List Bool × Forked T D N)
  | [] => some ([], f)
  | op :: ops => (f.step I H h kind op).bind fun r => (r.2.run ops).map fun q => (r.1 :: q.1, q.2)

end Forked

end Verif.Merkle
