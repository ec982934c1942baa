/-!
# Merkle trees: nodes, inner trees, paths, the full tree and the single-path tree

Models `manta-crypto/src/merkle_tree/{node,inner_tree,path,full,single_path,tree}.rs`.

* The two hashes are parameters: `joinL` hashes two leaf digests, `join` two inner digests; `dD` and `dN`
  are the `Default` digests.  Hashing of a leaf to its digest (`Parameters::digest`) is not modelled: trees
  here hold leaf digests.
* `h` is `path_length = HEIGHT - 2` (`tree.rs:227`); the code asks for `HEIGHT ≥ 2`, so every `h : Nat` is a
  tree height.  Indices are unbounded naturals instead of `usize`: an index is below `2 ^ (h + 1)`, which fits
  whenever `HEIGHT ≤ 64`.
* An `InnerMap` (`inner_tree.rs:402`; `BTreeMap` or `HashMap`) is a partial function from map indices.
* The circuit versions of paths (`path.rs:930-1173`) and serialization are not modelled.
-/

namespace Verif.Merkle

/-- Hash configuration (`tree.rs:37-160`), with the `Default` digests. -/
structure Hash (D N : Type) where
  dD : D
  dN : N
  joinL : D → D → N
  join : N → N → N

variable {D N : Type}

/-! ## Nodes -/

/-- `Node::sibling` (node.rs:194). -/
def sibling (i : Nat) : Nat := if i % 2 = 0 then i + 1 else i - 1

/-- `Node::as_left` (node.rs:223). -/
def asLeft (i : Nat) : Nat := if i % 2 = 0 then i else i - 1

/-- `Node::join` (node.rs:298) through `Parity::join` (120) and `Parity::order` (110). -/
def Hash.joinAt (H : Hash D N) (i : Nat) (a b : N) : N :=
  if i % 2 = 0 then H.join a b else H.join b a

/-- `Node::join_leaves` (node.rs:313). -/
def Hash.joinLeavesAt (H : Hash D N) (i : Nat) (a b : D) : N :=
  if i % 2 = 0 then H.joinL a b else H.joinL b a

/-- `capacity` (tree.rs:214): `1 << (HEIGHT - 1)`. -/
def capacity (h : Nat) : Nat := 2 ^ (h + 1)

/-- `InnerNode` (inner_tree.rs:50). -/
structure InnerNode where
  depth : Nat
  index : Nat
deriving DecidableEq, Repr

/-- `InnerNode::map_index` (inner_tree.rs:135). -/
def InnerNode.mapIndex (n : InnerNode) : Nat := 2 ^ (n.depth + 1) - 1 + n.index

/-- `InnerNode::sibling` (inner_tree.rs:96). -/
def InnerNode.sibling (n : InnerNode) : InnerNode := ⟨n.depth, Merkle.sibling n.index⟩

/-- `InnerNodeIter` (inner_tree.rs:166-210) started at the node `(d, i)`: the node and its ancestors below
the root. -/
def ancestors : Nat → Nat → List InnerNode
  | 0, i => [⟨0, i⟩]
  | d + 1, i => ⟨d + 1, i⟩ :: ancestors d (i / 2)

/-- `InnerNodeIter::from_leaf` (inner_tree.rs:180) with `InnerNode::from_leaf` (66): empty when the parent of
a leaf is the root. -/
def fromLeaf (h leaf : Nat) : List InnerNode :=
  match h with
  | 0 => []
  | d + 1 => ancestors d (leaf / 2)

/-- `NodeRange` (node.rs:491). -/
structure NodeRange where
  node : Nat
  extra : Nat
deriving DecidableEq, Repr

/-- `NodeRange::last_node` (node.rs:537). -/
def NodeRange.last (r : NodeRange) : Nat := r.node + r.extra

/-- The final parity in `NodeRange::dual_parity` (node.rs:511): `true` for left. -/
def NodeRange.finalLeft (r : NodeRange) : Bool :=
  if r.node % 2 = 0 then r.extra % 2 = 0 else (r.extra + 1) % 2 = 0

/-- `NodeRange::parents` (node.rs:523). -/
def NodeRange.parents (r : NodeRange) : NodeRange :=
  ⟨r.node / 2,
    match decide (r.node % 2 = 0), r.finalLeft with
    | true, false => (r.extra - 1) / 2
    | false, true => (r.extra + 1) / 2
    | _, _ => r.extra / 2⟩

/-- `InnerNodeRangeIter` (inner_tree.rs:354-394) started at depth `d`. -/
def rangeAncestors : Nat → NodeRange → List (Nat × NodeRange)
  | 0, r => [(0, r)]
  | d + 1, r => (d + 1, r) :: rangeAncestors d r.parents

/-- `InnerNodeRangeIter::from_leaves` (inner_tree.rs:369) with `InnerNodeRange::from_leaves` (252) and
`InnerNodeRange::new` (242). -/
def rangesFromLeaves (h : Nat) (r : NodeRange) : List (Nat × NodeRange) :=
  if r.last ≥ 2 ^ (h + 1) then []
  else match h with
    | 0 => []
    | d + 1 => rangeAncestors d r.parents

/-! ## Inner trees -/

/-- `InnerMap` (inner_tree.rs:402). -/
abbrev InnerMap (N : Type) := Nat → Option N

/-- `InnerMap::set`. -/
def InnerMap.set (m : InnerMap N) (i : Nat) (x : N) : InnerMap N := fun j => if j = i then some x else m j

/-- `InnerMap::remove`. -/
def InnerMap.remove (m : InnerMap N) (i : Nat) : InnerMap N := fun j => if j = i then none else m j

/-- `InnerTree::map_get_or_sentinel` (inner_tree.rs:710), sentinel source `Sentinel` (544-600). -/
def getOr (H : Hash D N) (m : InnerMap N) (i : Nat) : N := (m i).getD H.dN

/-- `InnerTree::insert_and_join` (inner_tree.rs:753) with `insert_and_get_pair` (730). -/
def insertAndJoin (H : Hash D N) (m : InnerMap N) (n : InnerNode) (x : N) : InnerMap N × N :=
  let i := n.mapIndex
  let m := m.set i x
  (m, if n.index % 2 = 0 then H.join (getOr H m i) (getOr H m (i + 1))
      else H.join (getOr H m (i - 1)) (getOr H m i))

/-- `InnerTree::compute_root` (inner_tree.rs:802), the fold over the nodes above a leaf. -/
def foldNodes (H : Hash D N) : List InnerNode → InnerMap N → N → InnerMap N × N
  | [], m, acc => (m, acc)
  | n :: ns, m, acc => foldNodes H ns (insertAndJoin H m n acc).1 (insertAndJoin H m n acc).2

/-- `InnerTree::insert` (inner_tree.rs:846) and `set_root` (723). -/
def insert (H : Hash D N) (h : Nat) (m : InnerMap N) (leaf : Nat) (base : N) : InnerMap N :=
  let p := foldNodes H (fromLeaf h leaf) m base
  p.1.set 0 p.2

/-- Storing a list of digests at consecutive map indices (inner_tree.rs:775-777); the zip stops at the
shorter of the index range and the digests. -/
def setAll (m : InnerMap N) : Nat → Nat → List N → InnerMap N
  | i, n + 1, x :: xs => setAll (m.set i x) (i + 1) n xs
  | _, _, _ => m

/-- `Range::step_by(2)` from `a`, `n` numbers in the range: `⌈n / 2⌉` numbers. -/
def stepBy2 (a n : Nat) : List Nat := (List.range ((n + 1) / 2)).map (fun c => a + 2 * c)

/-- `InnerTree::insert_range_and_join` (inner_tree.rs:767). -/
def insertRangeAndJoin (H : Hash D N) (m : InnerMap N) (d : Nat) (r : NodeRange) (xs : List N) :
    InnerMap N × List N :=
  let i0 := (InnerNode.mk d r.node).mapIndex
  let m := setAll m i0 (r.extra + 1) xs
  (m, (stepBy2 i0 (r.extra + 1)).map fun i =>
    if r.node % 2 = 0 then H.join (getOr H m i) (getOr H m (i + 1))
    else H.join (getOr H m (i - 1)) (getOr H m i))

/-- The fold of `InnerTree::compute_root_from_leaves` (inner_tree.rs:816-825). -/
def foldRanges (H : Hash D N) : List (Nat × NodeRange) → InnerMap N → List N → InnerMap N × List N
  | [], m, xs => (m, xs)
  | (d, r) :: rs, m, xs =>
    foldRanges H rs (insertRangeAndJoin H m d r xs).1 (insertRangeAndJoin H m d r xs).2

/-- `InnerTree::batch_insert` (inner_tree.rs:834); `none` is the panic of `expect` (828). -/
def batchInsert (H : Hash D N) (h : Nat) (m : InnerMap N) (r : NodeRange) (base : List N) :
    Option (InnerMap N) :=
  let p := foldRanges H (rangesFromLeaves h r) m base
  match p.2 with
  | [] => none
  | root :: _ => some (p.1.set 0 root)

/-- `NodeRange::join_leaves` (node.rs:545).  `sib` is the closure returning the stored sibling of a node. -/
def NodeRange.joinLeaves (H : Hash D N) (r : NodeRange) (leaves : List D) (sib : Nat → Option D) : List N :=
  let n := leaves.length
  let pairs (a : Nat) : List N :=
    (stepBy2 a (n - 1 - a)).map fun i => H.joinL (leaves.getD i H.dD) (leaves.getD (i + 1) H.dD)
  (if r.node % 2 = 0 then pairs 0
   else H.joinL ((sib r.node).getD H.dD) (leaves.getD 0 H.dD) :: pairs 1) ++
  (if r.finalLeft then
     [H.joinLeavesAt r.last (leaves.getD (n - 1) H.dD) ((sib r.last).getD H.dD)] else [])

/-- `InnerTree::path` (inner_tree.rs:865) through `InnerTreePathIter` (1175): siblings from the leaf up. -/
def innerPath (H : Hash D N) (h : Nat) (m : InnerMap N) (leaf : Nat) : List N :=
  (fromLeaf h leaf).map fun n => getOr H m n.sibling.mapIndex

/-- `InnerTree::current_path_unchecked` (inner_tree.rs:885). -/
def currentInnerPath [DecidableEq N] (H : Hash D N) (h : Nat) (m : InnerMap N) (leaf : Nat) : List N :=
  (innerPath H h m leaf).filter (fun d => d ≠ H.dN)

/-! ## Paths -/

/-- `Path` (path.rs:643) with its `InnerPath` (66). -/
structure Path (D N : Type) where
  sib : D
  leafIndex : Nat
  path : List N
deriving DecidableEq, Repr

/-- `InnerPath::fold` (path.rs:167) with `fold_fn` (158). -/
def foldPath (H : Hash D N) : Nat → N → List N → N
  | _, acc, [] => acc
  | i, acc, d :: ds => foldPath H (i / 2) (H.joinAt (i / 2) acc d) ds

/-- `Path::root` (path.rs:704) through `InnerPath::root` (127). -/
def Path.root (H : Hash D N) (p : Path D N) (leaf : D) : N :=
  foldPath H p.leafIndex (H.joinLeavesAt p.leafIndex leaf p.sib) p.path

/-- `Path::verify_digest` (path.rs:712). -/
def Path.verify [DecidableEq N] (H : Hash D N) (p : Path D N) (root : N) (leaf : D) : Bool :=
  decide (root = p.root H leaf)

/-- `InnerPath::is_current_with` (path.rs:106) for the default digest. -/
def isCurrent [DecidableEq N] (H : Hash D N) (h : Nat) (p : Path D N) : Bool :=
  ((fromLeaf h p.leafIndex).zip p.path).all fun nd => if nd.1.index % 2 = 0 then decide (nd.2 = H.dN) else true

/-- `CurrentPath` (path.rs:793) with its `CurrentInnerPath` (263). -/
structure CurrentPath (D N : Type) where
  sib : D
  leafIndex : Nat
  path : List N
deriving DecidableEq, Repr

/-- `CurrentPath::default` (path.rs:788, 258). -/
def CurrentPath.default (H : Hash D N) : CurrentPath D N := ⟨H.dD, 0, []⟩

/-- `CurrentPath::from_path_unchecked_with` (path.rs:840, 307) for the default digest. -/
def CurrentPath.fromPath [DecidableEq N] (H : Hash D N) (p : Path D N) : CurrentPath D N :=
  ⟨p.sib, p.leafIndex, p.path.filter (fun d => d ≠ H.dN)⟩

/-- `TryFrom<Path> for CurrentPath` and `TryFrom<InnerPath>` (path.rs:485). -/
def CurrentPath.tryFrom [DecidableEq N] (H : Hash D N) (h : Nat) (p : Path D N) : Option (CurrentPath D N) :=
  if isCurrent H h p then some (CurrentPath.fromPath H p) else none

/-- `CurrentInnerPathIntoIter` (path.rs:540): the digests of the full path; `none` is the panic of `unwrap`
when the compressed path is too short. -/
def expand (H : Hash D N) : List InnerNode → List N → Option (List N)
  | [], _ => some []
  | n :: ns, ds =>
    if n.index % 2 = 0 then (expand H ns ds).map (H.dN :: ·)
    else match ds with
      | [] => none
      | d :: ds => (expand H ns ds).map (d :: ·)

/-- `From<CurrentPath> for Path` (path.rs:736, 206). -/
def CurrentPath.toPath (H : Hash D N) (h : Nat) (p : CurrentPath D N) : Option (Path D N) :=
  (expand H (fromLeaf h p.leafIndex) p.path).map fun ds => ⟨p.sib, p.leafIndex, ds⟩

/-- `CurrentInnerPath::fold` (path.rs:393) with `fold_fn` (375): `n` steps; `none` is the panic of
`unwrap` (408). -/
def foldCurrent (H : Hash D N) : Nat → Nat → N → List N → Option N
  | 0, _, acc, _ => some acc
  | n + 1, i, acc, ds =>
    if i / 2 % 2 = 0 then foldCurrent H n (i / 2) (H.join acc H.dN) ds
    else match ds with
      | [] => none
      | d :: ds => foldCurrent H n (i / 2) (H.join d acc) ds

/-- `CurrentPath::root` (path.rs:858) through `CurrentInnerPath::root` (334). -/
def CurrentPath.root (H : Hash D N) (h : Nat) (p : CurrentPath D N) (leaf : D) : Option N :=
  foldCurrent H h p.leafIndex (H.joinLeavesAt p.leafIndex leaf p.sib) p.path

/-- The loop of `CurrentInnerPath::update` (path.rs:440-454) with fuel; returns the two accumulators, the
digests left over, the number of levels climbed and the index reached, `none` for the panic of indexing the
digests (447). -/
def climb (H : Hash D N) : Nat → Nat → Nat → N → N → List N → Nat → Option (N × N × List N × Nat × Nat)
  | 0, _, _, _, _, _, _ => none
  | fuel + 1, last, idx, lacc, acc, ds, depth =>
    if sibling (last / 2) = idx / 2 then some (lacc, acc, ds, depth, idx / 2)
    else if last / 2 % 2 = 0 then
      climb H fuel (last / 2) (idx / 2) (H.join lacc H.dN) (H.join acc H.dN) ds (depth + 1)
    else match ds with
      | [] => none
      | d :: ds => climb H fuel (last / 2) (idx / 2) (H.join d lacc) (H.join acc H.dN) ds (depth + 1)

/-- `CurrentInnerPath::update` (path.rs:416): the new path, leaf and root.  The fuel `leafIndex + 1` is never
exhausted: the two indices become siblings once the smaller one is `0`. -/
def CurrentPath.update (H : Hash D N) (h : Nat) (p : CurrentPath D N) (leaf next : D) :
    Option (CurrentPath D N × N) :=
  let idx := p.leafIndex + 1
  if idx % 2 = 0 then
    match climb H (p.leafIndex + 1) p.leafIndex idx (H.joinL p.sib leaf) (H.joinL next H.dD) p.path 0 with
    | none => none
    | some (lacc, acc, ds, depth, i) =>
      (foldCurrent H (h - (depth + 1)) i (H.join lacc acc) ds).map fun r => (⟨H.dD, idx, lacc :: ds⟩, r)
  else
    let p' : CurrentPath D N := ⟨leaf, idx, p.path⟩
    (p'.root H h next).map fun r => (p', r)

/-! ## The full tree -/

/-- `Full` (full.rs:62). -/
structure Full (D N : Type) where
  leaves : List D
  inner : InnerMap N

namespace Full

/-- `Full::new` (full.rs:184). -/
def new : Full D N := ⟨[], fun _ => none⟩

/-- `Full::len` (full.rs:103). -/
def len (t : Full D N) : Nat := t.leaves.length

/-- `Full::root` (full.rs:115). -/
def root (H : Hash D N) (t : Full D N) : N := getOr H t.inner 0

/-- `Full::push_leaf_digest` (full.rs:136). -/
def pushLeaf (H : Hash D N) (h : Nat) (t : Full D N) (i : Nat) (d : D) : Full D N :=
  ⟨t.leaves ++ [d],
   insert H h t.inner i (H.joinLeavesAt i d ((t.leaves[sibling i]?).getD H.dD))⟩

/-- `Full::maybe_push_digest` (full.rs:219).  The closure is its result; `none` is returned before the tree
is changed. -/
def maybePush (H : Hash D N) (h : Nat) (t : Full D N) (d : Option D) : Option Bool × Full D N :=
  if t.len ≥ capacity h then (some false, t)
  else match d with
    | none => (none, t)
    | some d => (some true, t.pushLeaf H h t.len d)

/-- `Tree::push_digest` (tree.rs:291). -/
def push (H : Hash D N) (h : Nat) (t : Full D N) (d : D) : Bool × Full D N :=
  let p := t.maybePush H h (some d)
  (p.1.getD false, p.2)

/-- `Full::batch_push_leaf_digests` (full.rs:159). -/
def batchPushLeaves (H : Hash D N) (h : Nat) (t : Full D N) (r : NodeRange) (ds : List D) :
    Option (Full D N) :=
  (batchInsert H h t.inner r (r.joinLeaves H ds fun i => t.leaves[sibling i]?)).map fun m =>
    ⟨t.leaves ++ ds, m⟩

/-- `Full::batch_maybe_push_digest` (full.rs:232) and `Tree::batch_push_digest` (tree.rs:340).  `none` is a
panic. -/
def batchPush (H : Hash D N) (h : Nat) (t : Full D N) (ds : List D) : Option (Bool × Full D N) :=
  if ds = [] then some (true, t)
  else if t.len + ds.length > capacity h then
    let k := capacity h - t.len
    if k ≠ 0 then (t.batchPushLeaves H h ⟨t.len, k - 1⟩ (ds.take k)).map fun t' => (false, t')
    else some (false, t)
  else (t.batchPushLeaves H h ⟨t.len, ds.length - 1⟩ ds).map fun t' => (true, t')

/-- `Full::path` (full.rs:305). -/
def path (H : Hash D N) (h : Nat) (t : Full D N) (i : Nat) : Option (Path D N) :=
  if i > 0 ∧ i ≥ t.len then none
  else some ⟨(t.leaves[sibling i]?).getD H.dD, i, innerPath H h t.inner i⟩

/-- `Full::current_path` (full.rs:205). -/
def currentPath [DecidableEq N] (H : Hash D N) (h : Nat) (t : Full D N) : CurrentPath D N :=
  if t.len = 0 then CurrentPath.default H
  else ⟨(t.leaves[sibling (t.len - 1)]?).getD H.dD, t.len - 1, currentInnerPath H h t.inner (t.len - 1)⟩

/-- `Full::position` (full.rs:288). -/
def position [DecidableEq D] (t : Full D N) (d : D) : Option Nat := t.leaves.findIdx? (· = d)

end Full

/-- Outcome of `Tree::extend_digests` (tree.rs:373). -/
inductive Ext (T : Type)
  /-- every digest was appended -/
  | ok (t : T)
  /-- refused, the tree is unchanged -/
  | refused (t : T)
  /-- the assertion of line 386 failed -/
  | panic (t : T)

/-- The loop of `Tree::extend_digests` (tree.rs:384-392): after the last digest the tree is asked once more,
with a closure that has nothing left to give. -/
def extendLoop {T : Type} (maybePush : T → Option D → Option Bool × T) : List D → T → Ext T
  | [], t => match maybePush t none with
    | (some true, t) => .ok t
    | (some false, t) => .panic t
    | (none, t) => .ok t
  | d :: ds, t => match maybePush t (some d) with
    | (some true, t) => extendLoop maybePush ds t
    | (some false, t) => .panic t
    | (none, t) => .ok t

/-- `Tree::extend_digests` (tree.rs:373) for an iterator of known length. -/
def extendDigests {T : Type} (h : Nat) (len : T → Nat) (maybePush : T → Option D → Option Bool × T)
    (t : T) (ds : List D) : Ext T :=
  if ds.length ≤ capacity h - len t then extendLoop maybePush ds t else .refused t

/-! ## The single-path tree -/

/-- `SinglePath` (single_path.rs:70). -/
structure SinglePath (D N : Type) where
  leaf : Option D
  cur : CurrentPath D N
  rt : N

namespace SinglePath

/-- `SinglePath::new` (single_path.rs:141). -/
def new (H : Hash D N) : SinglePath D N := ⟨none, CurrentPath.default H, H.dN⟩

/-- `SinglePath::len` (single_path.rs:90). -/
def len (t : SinglePath D N) : Nat := match t.leaf with | none => 0 | some _ => t.cur.leafIndex + 1

/-- `SinglePath::maybe_push_digest` (single_path.rs:173) with `raw::length_state` (201), a digest being
given; outer `none` is a panic. -/
def push (H : Hash D N) (h : Nat) (t : SinglePath D N) (d : D) : Option (Bool × SinglePath D N) :=
  match t.leaf with
  | none => (t.cur.root H h d).map fun r => (true, ⟨some d, t.cur, r⟩)
  | some leaf =>
    if t.cur.leafIndex < capacity h - 1 then
      (t.cur.update H h leaf d).map fun pr => (true, ⟨some d, pr.1, pr.2⟩)
    else some (false, t)

/-- `raw::insert` (single_path.rs:219): the same step on a path and a leaf kept elsewhere, as the ledger
does; outer `none` is a panic, inner `none` is a full tree. -/
def rawInsert (H : Hash D N) (h : Nat) (leaf : Option D) (cur : CurrentPath D N) (next : D) :
    Option (Option N × Option D × CurrentPath D N) :=
  match leaf with
  | none => (cur.root H h next).map fun r => (some r, some next, cur)
  | some l =>
    if cur.leafIndex < capacity h - 1 then
      (cur.update H h l next).map fun pr => (some pr.2, some next, pr.1)
    else some (none, leaf, cur)

end SinglePath

end Verif.Merkle
