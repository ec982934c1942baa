import Verif.Merkle.Model

/-!
# Partial trees

Models `manta-crypto/src/merkle_tree/{leaf_map,partial}.rs` and `PartialInnerTree` (`inner_tree.rs:935-1140`).

* One model covers the four leaf stores; they differ in what `mark` and `remove` do.  Vectors are kept as maps
  too: their entries are exactly the indices up to the last one.  The iteration order of `LeafHashMap` is
  unspecified in the code; here, as in `LeafBTreeMap`, it is the order of the indices.
* `usize` subtractions that underflow are panics (`none`), as in debug builds.
-/

namespace Verif.Merkle

variable {D N : Type}

/-! ## Leaf stores -/

/-- The implementations of `LeafMap`: `TrivialLeafVec` (leaf_map.rs:150), `LeafVec` (248), and
`LeafBTreeMap` (354) or `LeafHashMap` (483). -/
inductive Kind
  | trivial
  | vec
  | map
deriving DecidableEq, Repr

/-- A leaf store: markings and digests by index, and the last index. -/
structure LeafMap (D : Type) where
  kind : Kind
  map : Nat → Option (Bool × D)
  last : Option Nat

namespace LeafMap

/-- `Default` of the leaf stores. -/
def empty (kind : Kind) : LeafMap D := ⟨kind, fun _ => none, none⟩

/-- `LeafMap::get` (leaf_map.rs:165, 267, 376, 507). -/
def get (m : LeafMap D) (i : Nat) : Option D := (m.map i).map Prod.snd

/-- `LeafMap::current_leaf` (leaf_map.rs:47). -/
def currentLeaf (m : LeafMap D) : Option D := m.last.bind m.get

/-- The index that the next leaf gets. -/
def next (m : LeafMap D) : Nat := match m.last with | none => 0 | some i => i + 1

/-- `LeafMap::push` (leaf_map.rs:184, 286, 394, 525). -/
def push (m : LeafMap D) (d : D) : LeafMap D :=
  { m with map := fun j => if j = m.next then some (false, d) else m.map j, last := some m.next }

/-- `LeafMap::extend` (leaf_map.rs:67, 186, 284). -/
def extend (m : LeafMap D) (ds : List D) : LeafMap D := ds.foldl push m

/-- `LeafMap::mark` (leaf_map.rs:210, 314, 440, 571). -/
def mark (m : LeafMap D) (i : Nat) : LeafMap D :=
  match m.kind with
  | .trivial => m
  | _ => { m with map := fun j => if j = i then (m.map j).map (fun x => (true, x.2)) else m.map j }

/-- Marking the indices `a ..< a + n` (partial.rs:568). -/
def markAll (m : LeafMap D) (a n : Nat) : LeafMap D := (List.range n).foldl (fun m c => m.mark (a + c)) m

/-- `LeafMap::is_marked` (leaf_map.rs:215, 321, 447, 578). -/
def isMarked (m : LeafMap D) (i : Nat) : Option Bool := (m.map i).map Prod.fst

/-- `LeafMap::is_marked_or_removed` (leaf_map.rs:84). -/
def markedOrRemoved (m : LeafMap D) (i : Nat) : Bool :=
  match m.last with
  | none => false
  | some c => if i ≥ c then false else (m.isMarked i).getD true

/-- `LeafMap::remove` (leaf_map.rs:220, 326, 452, 583). -/
def remove (m : LeafMap D) (i : Nat) : LeafMap D :=
  match m.kind with
  | .map => if m.last = some i then m else { m with map := fun j => if j = i then none else m.map j }
  | _ => m

/-- `LeafMap::from_vec` (leaf_map.rs:194, 297, 404, 535). -/
def fromVec (kind : Kind) (ds : List D) (marked : Bool) : LeafMap D :=
  ⟨kind, fun i => (ds[i]?).map fun d => (if kind = .trivial then false else marked, d),
   if ds.length = 0 then none else some (ds.length - 1)⟩

/-- `LeafMap::position` (leaf_map.rs:179, 281, 386, 517): the first stored index with this digest. -/
def position [DecidableEq D] (m : LeafMap D) (d : D) : Option Nat :=
  (List.range m.next).find? fun i => m.get i = some d

/-- `LeafMap::into_leaf_digests_with_markings` (leaf_map.rs:205, 309, 432, 563). -/
def intoMarked (m : LeafMap D) : List (Bool × D) := (List.range m.next).filterMap m.map

/-- `LeafMap::into_leaf_digests` (leaf_map.rs:200, 304, 424, 555). -/
def intoLeaves (m : LeafMap D) : List D := m.intoMarked.map Prod.snd

/-- `LeafMap::len` (leaf_map.rs:160, 262, 371, 502): the number of stored leaves. -/
def count (m : LeafMap D) : Nat := m.intoMarked.length

/-- `LeafMap::leaf_digests` (leaf_map.rs:105). -/
def leafDigests (m : LeafMap D) : List D := (List.range m.count).filterMap m.get

/-- `LeafMap::marked_leaf_digests` (leaf_map.rs:117). -/
def markedLeafDigests (m : LeafMap D) : List D :=
  ((List.range m.count).filter fun i => (m.isMarked i).getD false).filterMap m.get

end LeafMap

/-! ## Partial inner trees -/

/-- The fold of `PartialInnerTree::from_current` (inner_tree.rs:1012-1027) over
`CurrentInnerPathNodeIter` (path.rs:580); `none` is the panic of `unwrap` (605). -/
def foldFromCurrent (H : Hash D N) : List InnerNode → List N → InnerMap N → N → Option (InnerMap N × N)
  | [], _, m, acc => some (m, acc)
  | n :: ns, ds, m, acc =>
    let i := n.mapIndex
    if n.index % 2 = 0 then foldFromCurrent H ns ds (m.set i acc) (H.join acc H.dN)
    else match ds with
      | [] => none
      | d :: ds => foldFromCurrent H ns ds ((m.set (i - 1) d).set i acc) (H.join d acc)

/-- `PartialInnerTree::from_current` (inner_tree.rs:997): the inner digests and the starting leaf index. -/
def fromCurrent (H : Hash D N) (h : Nat) (base : N) (leafIndex : Nat) (path : List N) :
    Option (InnerMap N × Nat) :=
  if (fromLeaf h leafIndex).length = 0 then some (fun _ => none, 0)
  else (foldFromCurrent H (fromLeaf h leafIndex) path (fun _ => none) base).map fun p =>
    (p.1.set 0 p.2, asLeft leafIndex)

/-! ## Partial trees -/

/-- `Partial` (partial.rs:60) with the starting leaf index of its `PartialInnerTree`. -/
structure Partial (D N : Type) where
  leaf : LeafMap D
  inner : InnerMap N
  start : Nat

namespace Partial

/-- `Partial::default` and `Tree::new` (partial.rs:521). -/
def new (kind : Kind) : Partial D N := ⟨LeafMap.empty kind, fun _ => none, 0⟩

/-- `Partial::from_leaves_and_path_unchecked` (partial.rs:107); `none` is a panic. -/
def fromLeavesAndPath [DecidableEq N] (H : Hash D N) (h : Nat) (kind : Kind) (ds : List D) (p : Path D N) :
    Option (Partial D N) :=
  match ds[ds.length - 1]? with
  | none => some ⟨LeafMap.fromVec kind ds true, fun _ => none, 0⟩
  | some last =>
    let base := if (ds.length - 1) % 2 = 0 then H.joinL last p.sib else H.joinL p.sib last
    (fromCurrent H h base (CurrentPath.fromPath H p).leafIndex (CurrentPath.fromPath H p).path).map fun r =>
      ⟨LeafMap.fromVec kind ds true, r.1, 0⟩

/-- `Partial::len` (partial.rs:194). -/
def len (t : Partial D N) : Nat := t.start + t.leaf.next

/-- `Partial::root` (partial.rs:211). -/
def root (H : Hash D N) (t : Partial D N) : N := getOr H t.inner 0

/-- `Partial::leaf_digest` (partial.rs:217); outer `none` is the underflow of `index - starting_leaf_index`. -/
def leafDigest (t : Partial D N) (i : Nat) : Option (Option D) :=
  if i < t.start then none else some (t.leaf.get (i - t.start))

/-- `Partial::position` (partial.rs:223). -/
def position [DecidableEq D] (t : Partial D N) (d : D) : Option Nat := (t.leaf.position d).map (· + t.start)

/-- `Partial::get_leaf_sibling` (partial.rs:231); callers pass indices from the starting index on. -/
def leafSibling (t : Partial D N) (i : Nat) : Option D := t.leaf.get (sibling (i - t.start))

/-- `Partial::current_leaf` (partial.rs:247). -/
def currentLeaf (t : Partial D N) : Option D := t.leaf.currentLeaf

/-- `Partial::current_path` (partial.rs:253). -/
def currentPath [DecidableEq N] (H : Hash D N) (h : Nat) (t : Partial D N) : CurrentPath D N :=
  if t.len = 0 then CurrentPath.default H
  else ⟨(t.leafSibling (t.len - 1)).getD H.dD, t.len - 1, currentInnerPath H h t.inner (t.len - 1)⟩

/-- `Partial::path_unchecked` (partial.rs:271). -/
def pathUnchecked (H : Hash D N) (h : Nat) (t : Partial D N) (i : Nat) : Path D N :=
  ⟨(t.leafSibling i).getD H.dD, i, innerPath H h t.inner i⟩

/-- `Partial::path` (partial.rs:613); `none` is either error. -/
def path (H : Hash D N) (h : Nat) (t : Partial D N) (i : Nat) : Option (Path D N) :=
  if i > 0 ∧ i ≥ t.len then none
  else if i < t.start then none
  else some (t.pathUnchecked H h i)

/-- `Partial::push_leaf_digest` (partial.rs:285). -/
def pushLeaf (H : Hash D N) (h : Nat) (t : Partial D N) (i : Nat) (d : D) : Partial D N :=
  { t with
    inner := insert H h t.inner i (H.joinLeavesAt i d ((t.leafSibling i).getD H.dD))
    leaf := t.leaf.push d }

/-- `Partial::maybe_push_digest` (partial.rs:431) and `maybe_push_provable_digest` (601), a digest being
given: the leaf is kept provable. -/
def pushProvable (H : Hash D N) (h : Nat) (t : Partial D N) (d : D) : Bool × Partial D N :=
  if t.len ≥ capacity h then (false, t) else (true, t.pushLeaf H h t.len d)

/-- `Tree::maybe_push_digest` (partial.rs:548): the leaf is marked for removal, whatever the answer. -/
def push (H : Hash D N) (h : Nat) (t : Partial D N) (d : D) : Bool × Partial D N :=
  let r := t.pushProvable H h d
  (r.1, { r.2 with leaf := r.2.leaf.mark (t.len - t.start) })

/-- `Partial::batch_push_leaf_digests` (partial.rs:308). -/
def batchPushLeaves (H : Hash D N) (h : Nat) (t : Partial D N) (r : NodeRange) (ds : List D) :
    Option (Partial D N) :=
  (batchInsert H h t.inner r (r.joinLeaves H ds t.leafSibling)).map fun m =>
    { t with inner := m, leaf := t.leaf.extend ds }

/-- `Partial::batch_maybe_push_digest` (partial.rs:326): the answer and the number of insertions; a list
without digests is answered by `true` (tree.rs:346) and inserts nothing. -/
def batchPushProvable (H : Hash D N) (h : Nat) (t : Partial D N) (ds : List D) :
    Option ((Bool × Nat) × Partial D N) :=
  if ds = [] then some ((true, 0), t)
  else if t.len + ds.length > capacity h then
    let k := capacity h - t.len
    if k ≠ 0 then (t.batchPushLeaves H h ⟨t.len, k - 1⟩ (ds.take k)).map fun t' => ((false, k), t')
    else some ((false, 0), t)
  else (t.batchPushLeaves H h ⟨t.len, ds.length - 1⟩ ds).map fun t' => ((true, ds.length), t')

/-- `Tree::batch_maybe_push_digest` (partial.rs:559): the inserted leaves are marked. -/
def batchPush (H : Hash D N) (h : Nat) (t : Partial D N) (ds : List D) : Option (Bool × Partial D N) :=
  (t.batchPushProvable H h ds).map fun r =>
    (r.1.1, { r.2 with leaf := r.2.leaf.markAll (t.len - t.start) r.1.2 })

/-- The loop of `Partial::extend_with_marked_digests` (partial.rs:398-414); `acc` are the marked digests
waiting to be inserted as one batch; `none` is a panic. -/
def extendMarkedLoop (H : Hash D N) (h : Nat) : List (Bool × D) → List D → Partial D N → Option (Partial D N)
  | [], acc, t =>
    if acc = [] then some t
    else match t.batchPush H h acc with
      | some (true, t) => some t
      | _ => none
  | (true, d) :: ds, acc, t => extendMarkedLoop H h ds (acc ++ [d]) t
  | (false, d) :: ds, acc, t =>
    if acc = [] then
      match t.pushProvable H h d with
      | (true, t) => extendMarkedLoop H h ds [] t
      | (false, _) => none
    else match t.batchPush H h acc with
      | some (true, t) =>
        (match t.pushProvable H h d with
         | (true, t) => extendMarkedLoop H h ds [] t
         | (false, _) => none)
      | _ => none

/-- `Partial::extend_with_marked_digests` (partial.rs:378): outer `none` is a panic, `false` a refusal. -/
def extendMarked (H : Hash D N) (h : Nat) (t : Partial D N) (ds : List (Bool × D)) :
    Option (Bool × Partial D N) :=
  if ds.length ≤ capacity h - t.len then (extendMarkedLoop H h ds [] t).map fun t => (true, t)
  else some (false, t)

/-- `Partial::remove_path` (partial.rs:501); `none` is the underflow of `index - starting_leaf_index`. -/
def removePath (t : Partial D N) (i : Nat) : Option (Bool × Partial D N) :=
  if i < t.start then none
  else match t.leaf.last with
    | some c => if i - t.start ≤ c then some (true, { t with leaf := t.leaf.mark (i - t.start) }) else some (false, t)
    | none => some (false, t)

/-- `InnerNode::leaf_nodes` (inner_tree.rs:140) through `Node::descendants` (node.rs:277). -/
def leafNodes (h : Nat) (n : InnerNode) : List Nat :=
  (List.range (2 ^ (h - n.depth))).map fun c => n.index * 2 ^ (h - n.depth) + c

/-- The loop of `Partial::remove_path_at_index` (partial.rs:477-490); `none` is the underflow of
`x.0 - starting_leaf_index`. -/
def removeLoop (h : Nat) (leaf : LeafMap D) (start : Nat) : List InnerNode → InnerMap N → Option (InnerMap N)
  | [], m => some m
  | n :: ns, m =>
    let m := m.remove n.sibling.mapIndex
    if n.sibling.index * 2 ^ (h - n.sibling.depth) < start then none
    else if (leafNodes h n.sibling).any fun x => !leaf.markedOrRemoved (x - start) then some m
    else removeLoop h leaf start ns m

/-- `Partial::remove_path_at_index` (partial.rs:468). -/
def removePathAt (h : Nat) (t : Partial D N) (i : Nat) : Option (Partial D N) :=
  if t.leaf.markedOrRemoved (sibling i) ∧ t.leaf.markedOrRemoved i then
    let leaf := (t.leaf.remove i).remove (sibling i)
    (removeLoop h leaf t.start (fromLeaf h (i + t.start)) t.inner).map fun m => { t with leaf := leaf, inner := m }
  else some t

/-- The loop of `Partial::prune` (partial.rs:459). -/
def pruneLoop (h : Nat) : List Nat → Partial D N → Option (Partial D N)
  | [], t => some t
  | i :: is, t => (t.removePathAt h i).bind (pruneLoop h is)

/-- `Partial::prune` (partial.rs:451). -/
def prune (h : Nat) (t : Partial D N) : Option (Partial D N) :=
  match t.leaf.last with
  | none => some t
  | some c => pruneLoop h ((List.range c).filter fun i => (t.leaf.isMarked i).getD false) t

end Partial

end Verif.Merkle
