import Verif.Merkle.ForestProps

/-! # Trees built from leaves and the current path: C100

The initial synchronization of a wallet builds its trees from the list of all leaves and, for every tree, the
membership proof of the last leaf, without computing the inner nodes. -/

namespace Verif.Merkle

variable {D N L : Type} (H : Hash D N) (h : Nat)

/-! ## Model -/

/-- `ForkedTree::from_leaves_and_path_unchecked` (fork.rs:1044); `none` is a panic. -/
def Forked.fromLeavesAndPath [DecidableEq N] (K K' : Kind) (ds : List D) (p : Path D N) :
    Option (Forked (Partial D N) D N) :=
  (Partial.fromLeavesAndPath H h K' ds p).bind fun t => Forked.new (partialBase H h) H h K t

/-- `sort_items` (forest.rs:594-603): the items of every tree, in order; `none` is the panic of an index out of
range. -/
def initialSort (ix : L → Nat) (n : Nat) (ls : List L) : Option (List (List L)) := Forest.sortItems ix n ls

/-- `from_leaves_and_paths_unchecked` (forest.rs:558-577) with `from_items_and_witnesses` (580-592): one tree per list
of leaves and path; `none` is a panic: the number of paths is asserted, and `BoxArray::from_iter` panics unless there
are `n` trees. -/
def initialForest [DecidableEq N] (K K' : Kind) (n : Nat) (dg : L → D) (leaves : List (List L)) (paths : List (Path D N)) :
    Option (List (Forked (Partial D N) D N)) :=
  if paths.length = n ∧ leaves.length = n then
    (leaves.zip paths).mapM fun x => Forked.fromLeavesAndPath H h K K' (x.1.map dg) x.2
  else none

/-! ## Properties -/

theorem fromVec_marked (K : Kind) (hK : K ≠ .trivial) (ds : List D) (i : Nat) :
    (LeafMap.fromVec K ds true).map i = (ds[i]?).map fun d => (true, d) := by
  show (ds[i]?).map _ = _
  rw [if_neg hK]

/-- The tree built from all leaves and the path of the last one represents the leaves, without wish to prove any. -/
theorem fromLeavesAndPath_rel [DecidableEq N] (h1 : 1 ≤ h) (K : Kind) (hK : K ≠ .trivial)
    (ds : List D) (hd : NonDefaultOn H h ds) (hc : ds.length ≤ 2 ^ (h + 1)) (p : Path D N) (hp : ds ≠ [] → p = specPath H h ds (ds.length - 1)) :
    ∃ t, Partial.fromLeavesAndPath H h K ds p = some t ∧
      Partial.Rel H h K False False 0 t ⟨ds.map (·, false), true⟩ := by
  have hdig : PRef.digests ⟨ds.map (·, false), true⟩ = ds := by
    simp [PRef.digests, Function.comp_def]
  have hflag : ∀ (i : Nat) (d : D), (ds.map (·, false))[i]? ≠ some (d, true) := by
    intro i d he
    rw [List.getElem?_map] at he
    cases hx : ds[i]? with
    | none => rw [hx] at he; cases he
    | some x => rw [hx] at he; simp at he
  have hnext : (LeafMap.fromVec K ds true).next = ds.length := by
    unfold LeafMap.next LeafMap.fromVec
    simp only
    by_cases h0 : ds.length = 0
    · rw [if_pos h0, h0]
    · rw [if_neg h0]; simp only; omega
  have hsome : ∀ c, c < ds.length → ((LeafMap.fromVec K ds true).map c).isSome := by
    intro c hc
    rw [fromVec_marked K hK, List.getElem?_eq_getElem hc]
    rfl
  have hstore : ∀ m : InnerMap N, (Partial.mk (LeafMap.fromVec K ds true) m 0).Store h ds := by
    intro m
    refine ⟨by show 0 + (LeafMap.fromVec K ds true).next = _; rw [hnext, Nat.zero_add], hc, rfl, ?_, ?_, ?_⟩
    · intro i x hx
      have hx' : (LeafMap.fromVec K ds true).map i = some x := hx
      rw [fromVec_marked K hK] at hx'
      show ds[0 + i]? = _
      rw [Nat.zero_add]
      cases hl : ds[i]? with
      | none => rw [hl] at hx'; cases hx'
      | some y =>
        rw [hl] at hx'
        simp only [Option.map_some, Option.some.injEq] at hx'
        rw [← hx']
    · intro c hc'
      refine hsome c ?_
      have : (LeafMap.fromVec K ds true).next = c + 1 := by
        unfold LeafMap.next
        rw [show (LeafMap.fromVec K ds true).last = some c from hc']
      omega
    · intro i _ hlt
      refine hsome _ ?_
      rw [← hnext]
      exact hlt
  unfold Partial.fromLeavesAndPath
  by_cases hl : ds = []
  · subst hl
    refine ⟨_, rfl, rfl, rfl, by rw [hdig]; exact hstore _, ?_, fun e => e.elim, fun i d he => absurd he (hflag _ d),
      fun e => e.elim⟩
    rw [hdig]
    refine Partial.Nodes.ok H h ?_ _
    intro k i _ _ _ _
    show getOr H (fun _ => none) _ = nodeVal H [] k i
    rw [nodeVal_nil]; rfl
  · have hpos := List.length_pos_iff.mpr hl
    have hlast : ds[ds.length - 1]? = some ds[ds.length - 1] := List.getElem?_eq_getElem (by omega)
    obtain ⟨m, e1, e2, e3⟩ := fromCurrent_spec H h h1 hl hc
    have hb := nodeVal_base H (l := ds) (n := ds.length - 1) (by omega)
    rw [hlast] at hb
    simp only [Option.getD_some] at hb
    unfold Hash.joinLeavesAt at hb
    have hf := filter_spec H h hd (j := ds.length - 1) (by omega) h 0 (by omega)
    simp only [Nat.zero_add] at hf
    rw [hp hl, hlast]
    simp only [CurrentPath.fromPath, specPath, hf]
    rw [hb, e1]
    refine ⟨_, rfl, rfl, rfl, by rw [hdig]; exact hstore _, ?_, fun e => e.elim, fun i d he => absurd he (hflag _ d),
      fun e => e.elim⟩
    rw [hdig]
    refine Partial.Nodes.ok H h ?_ _
    rintro k i hk hi _ (rfl | ⟨j', _, hj2, hj3⟩)
    · have : i = 0 := by simpa using hi
      subst this
      exact e3
    · by_cases hkh : k = h
      · subst hkh
        have : i = 0 := by simpa using hi
        subst this
        exact e3
      · have hge : ds.length - 1 ≤ j' := by
          rcases Nat.lt_or_ge j' (ds.length - 1) with a | a
          · exfalso
            have hmor : (LeafMap.fromVec K ds true).markedOrRemoved j' = true := by
              rw [LeafMap.mor_iff]
              refine ⟨by rw [hnext]; omega, ?_⟩
              unfold LeafMap.isMarked
              rw [fromVec_marked K hK, List.getElem?_eq_getElem (by omega)]
              rfl
            have hl2 : (LeafMap.fromVec K ds true).markedOrRemoved (j' - 0) = false := hj3.2
            rw [Nat.sub_zero, hmor] at hl2
            cases hl2
          · exact a
        refine e2 k i (by omega) hi (asLeft_of_sibling_ge ?_)
        rw [← hj2, ← asLeft_div]
        exact Nat.div_le_div_right (Nat.le_trans (asLeft_le _) hge)

/-- **C100, one tree.** The partial tree built from any leaves and the membership proof of the last one behaves, in
every later history of insertions, extensions, removals and prunes, like the tree into which the leaves have been
inserted: same answers and length; and, if the last growth was a single append or an aligned batch, the root of all
leaves and a verifying proof for every later leaf that was inserted provably. -/
theorem c100_tree_partial [DecidableEq N] (h1 : 1 ≤ h) (K : Kind) (hK : K ≠ .trivial)
    (ds : List D) (hd : NonDefaultOn H h ds) (hc : ds.length ≤ 2 ^ (h + 1)) (p : Path D N) (hp : ds ≠ [] → p = specPath H h ds (ds.length - 1))
    (ops : List (POp D)) :
    let r := (⟨ds.map (·, false), true⟩ : PRef D).run h ops
    ∃ t0 t, Partial.fromLeavesAndPath H h K ds p = some t0 ∧ t0.len = ds.length ∧ t0.root H = specRoot H h ds ∧
      t0.run H h ops = some (r.1, t) ∧ t.len = r.2.leaves.length ∧
      (r.2.ok = true → t.root H = specRoot H h r.2.digests ∧
        ∀ (i : Nat) (d : D), r.2.leaves[i]? = some (d, true) →
          t.leafDigest i = some (some d) ∧ t.path H h i = some (specPath H h r.2.digests i) ∧
          (specPath H h r.2.digests i).verify H (t.root H) d = true) := by
  intro r
  obtain ⟨t0, e0, hr0⟩ := fromLeavesAndPath_rel H h h1 K hK ds hd hc p hp
  have hdig : PRef.digests ⟨ds.map (·, false), true⟩ = ds := by
    simp [PRef.digests, Function.comp_def]
  obtain ⟨t, e1, hr⟩ := Partial.Rel.run H h False.elim id ops hr0
  refine ⟨t0, t, e0, ?_, ?_, e1, ?_, fun hok => ?_⟩
  · rw [hr0.store.len_eq, hdig]
  · rw [Partial.root_right H h (hr0.live.2 rfl) trivial, hdig]
  · rw [hr.store.len_eq, PRef.digests_length]
  · refine ⟨Partial.root_right H h (hr.live.2 hok) trivial, fun i d hi => ?_⟩
    have hf := hr.flag i d (by rw [Nat.zero_add]; exact hi)
    refine hr.proves H h hok (hr.live.2 hok) (fun _ _ => trivial) hf (.inl ⟨by rw [hr.start]; omega, ?_⟩)
    rw [hr.start, Nat.sub_zero]
    cases e : t.leaf.markedOrRemoved i with
    | false => rfl
    | true =>
      have := ((LeafMap.mor_iff _ _).mp e).2
      unfold LeafMap.isMarked at this
      rw [hf] at this
      cases this

theorem mapM_some {α β : Type} (f : α → Option β) (g : α → β) : ∀ (xs : List α), (∀ x ∈ xs, f x = some (g x)) →
    xs.mapM f = some (xs.map g)
  | [], _ => rfl
  | x :: xs, hx => by
    rw [List.mapM_cons, hx x List.mem_cons_self, mapM_some f g xs fun y hy => hx y (List.mem_cons_of_mem _ hy)]
    rfl

/-- The accumulator of a wallet after its initial synchronization, from the list of all items and a path for every
tree. -/
def initialAccumulator [DecidableEq N] (K K' : Kind) (n : Nat) (ix : L → Nat) (dg : L → D) (ls : List L)
    (paths : List (Path D N)) : Option (List (Forked (Partial D N) D N)) :=
  (initialSort ix n ls).bind fun gs => initialForest H h K K' n dg gs paths

/-- **C100, the accumulator of a wallet.** Given all items of a ledger and for every tree the membership proof of its
last leaf, building the accumulator succeeds; and after any further history of single insertions, prunes, rollbacks and
commits every tree holds the items of the list and the later ones, has their root, and contains and proves every item
that is pending or was inserted provably after the initial synchronization, if no item occurs twice. -/
theorem c100_accumulator [DecidableEq D] [DecidableEq N] (h1 : 1 ≤ h) (K K' : Kind)
    (hK : K' ≠ .trivial) (n : Nat) (ix : L → Nat) (dg : L → D) (ls : List L) (hix : ∀ l ∈ ls, ix l < n)
    (hc : ∀ i, i < n → (ls.filter fun l => ix l = i).length ≤ 2 ^ (h + 1))
    (paths : List (Path D N)) (hn : paths.length = n)
    (hp : ∀ i p, paths[i]? = some p → ls.filter (fun l => ix l = i) ≠ [] →
      p = specPath H h ((ls.filter fun l => ix l = i).map dg) ((ls.filter fun l => ix l = i).length - 1))
    (ops : List (Forest.Op L)) (hk : ops.all Forest.Op.keeps = true) (hs : ops.all Forest.Op.single = true)
    (hl : ∀ op ∈ ops, ∀ l ∈ Forest.items op, ix l < n)
    (hd : ∀ i, i < n → NonDefaultOn H h ((ls.filter fun l => ix l = i).map dg) ∧
      Shard.Clear H h ((ls.filter fun l => ix l = i).map dg, []) (ops.flatMap (Forest.proj ix dg i))) :
    ∃ F0, initialAccumulator H h K K' n ix dg ls paths = some F0 ∧
    ∃ bs F, Forest.run (forkedOps H h K) ix dg F0 ops = some (bs, F) ∧ F.length = n ∧
      ∀ i, i < n → ∃ f, F[i]? = some f ∧
        let s := (ops.flatMap (Forest.proj ix dg i)).foldl (Shard.applyW (2 ^ (h + 1)))
          (((ls.filter fun l => ix l = i).map dg).map (·, false), [])
        f.len = s.1.length + s.2.length ∧
        (s.1 ++ s.2 ≠ [] → f.root H = specRoot H h ((s.1 ++ s.2).map Prod.fst)) ∧
        (((s.1 ++ s.2).map Prod.fst).Nodup → ∀ d, (d, true) ∈ s.1 ∨ d ∈ s.2.map Prod.fst →
          (f.position d).isSome ∧ ∃ p, f.prove H h d = some (some p) ∧ p.verify H (f.root H) d = true) := by
  let gs := (List.range n).map fun i => ls.filter fun l => ix l = i
  have hgs : ∀ i, i < n → gs[i]? = some (ls.filter fun l => ix l = i) := fun i hi => by
    show ((List.range n).map _)[i]? = _
    rw [List.getElem?_map, List.getElem?_range hi]; rfl
  have htree : ∀ i, i < n → ∃ p f, paths[i]? = some p ∧
      Forked.fromLeavesAndPath H h K K' ((ls.filter fun l => ix l = i).map dg) p = some f ∧
      Forked.Rel H h (Partial.G H h K') K f
        (FRef.fresh (((ls.filter fun l => ix l = i).map dg).map (·, false))) := by
    intro i hi
    have hpi : paths[i]? = some paths[i] := List.getElem?_eq_getElem (by omega)
    obtain ⟨t, e1, e2⟩ := fromLeavesAndPath_rel H h h1 K' hK ((ls.filter fun l => ix l = i).map dg) (hd i hi).1
      (by rw [List.length_map]; exact hc i hi) paths[i] (fun hne => by
        rw [List.length_map]
        exact hp i _ hpi fun e => hne (by rw [e]; rfl))
    obtain ⟨f, e3, e4⟩ := Forked.Rel.new H h h1 (partialBase_ok H h K') ⟨true, e2⟩
      (by simpa [Function.comp_def] using (hd i hi).1) (K := K)
    exact ⟨paths[i], f, hpi, by unfold Forked.fromLeavesAndPath; rw [e1]; exact e3, e4⟩
  let mk : List L × Path D N → Option (Forked (Partial D N) D N) :=
    fun x => Forked.fromLeavesAndPath H h K K' (x.1.map dg) x.2
  have hzip : (gs.zip paths).length = n := by
    rw [List.length_zip, hn]
    show min ((List.range n).map _).length n = n
    simp
  have hall : ∀ i, i < n → ∃ x f, (gs.zip paths)[i]? = some x ∧ mk x = some f ∧
      Forked.Rel H h (Partial.G H h K') K f
        (FRef.fresh (((ls.filter fun l => ix l = i).map dg).map (·, false))) := by
    intro i hi
    obtain ⟨p, f, a1, a2, a3⟩ := htree i hi
    exact ⟨(ls.filter fun l => ix l = i, p), f, by rw [List.getElem?_zip_eq_some]; exact ⟨hgs i hi, a1⟩, a2, a3⟩
  have hmk : ∃ F0, (gs.zip paths).mapM mk = some F0 ∧ F0.length = n ∧ ∀ i, i < n → ∃ f, F0[i]? = some f ∧
      Forked.Rel H h (Partial.G H h K') K f
        (FRef.fresh (((ls.filter fun l => ix l = i).map dg).map (·, false))) := by
    cases n with
    | zero =>
      have : gs.zip paths = [] := List.eq_nil_of_length_eq_zero hzip
      exact ⟨[], by rw [this]; rfl, rfl, fun i hi => absurd hi (by omega)⟩
    | succ n =>
      obtain ⟨x0, f0, _⟩ := hall 0 (by omega)
      have hm := mapM_some mk (fun x => (mk x).getD f0) (gs.zip paths) (fun x hx => by
        obtain ⟨i, hi⟩ := List.getElem?_of_mem hx
        have hlt : i < n + 1 := by
          rcases Nat.lt_or_ge i (n + 1) with a | a
          · exact a
          · rw [List.getElem?_eq_none (by omega)] at hi; cases hi
        obtain ⟨y, f, b1, b2, _⟩ := hall i hlt
        rw [hi] at b1
        cases b1
        rw [b2]; rfl)
      refine ⟨_, hm, by rw [List.length_map, hzip], fun i hi => ?_⟩
      obtain ⟨y, f, b1, b2, b3⟩ := hall i hi
      exact ⟨f, by rw [List.getElem?_map, b1, Option.map_some, b2]; rfl, b3⟩
  obtain ⟨F0, e0, hF0, hrel⟩ := hmk
  refine ⟨F0, ?_, ?_⟩
  · unfold initialAccumulator initialSort
    rw [Forest.sortItems_spec ix n ls hix, Option.bind_some]
    unfold initialForest
    rw [if_pos ⟨hn, by simp⟩]
    exact e0
  · obtain ⟨i1, i2⟩ := c10_isolated (forkedOps H h K) ix dg ops F0 (by rw [hF0]; exact hl)
    have hrun := fun i (hi : i < n) (f : Forked (Partial D N) D N) hr => c66_forked_wanted H h h1 (f0 := f)
      (base := ((ls.filter fun l => ix l = i).map dg).map (·, false)) (K := K) (K' := K') hr
      (ops.flatMap (Forest.proj ix dg i)) (Forest.proj_keeps ix dg i ops hk) (Forest.proj_single ix dg i ops hs)
      (by simpa [Function.comp_def] using (hd i hi).2)
    obtain ⟨⟨bs, F⟩, hF⟩ := Option.isSome_iff_exists.mp (i2 fun i t ht => by
      have hi : i < n := by
        rcases Nat.lt_or_ge i n with a | a
        · exact a
        · rw [List.getElem?_eq_none (by omega)] at ht; cases ht
      obtain ⟨f0, c1, c2⟩ := hrel i hi
      rw [ht] at c1
      cases c1
      obtain ⟨as, f, a1, _⟩ := hrun i hi t c2
      rw [a1]
      rfl)
    obtain ⟨j1, j2⟩ := i1 bs F hF
    refine ⟨bs, F, hF, by rw [j1, hF0], fun i hi => ?_⟩
    obtain ⟨f0, c1, c2⟩ := hrel i hi
    obtain ⟨as, f, a1, a2⟩ := j2 i _ c1
    obtain ⟨as', f', b1, b2, _, b4, b5⟩ := hrun i hi f0 c2
    rw [a1] at b1
    cases b1
    exact ⟨f, a2, b2, b4, b5⟩

/-! ## Concrete cases -/

/-- A tree from five leaves and the path of the fifth, then 6 provable, 7 not, and a prune. -/
example : ((Partial.fromLeavesAndPath tHash 2 .map [1, 2, 3, 4, 5] (specPath tHash 2 [1, 2, 3, 4, 5] 4)).bind fun t =>
    (t.run tHash 2 [.pushProvable 6, .push 7, .prune]).map fun r =>
      (r.1, r.2.len, decide (r.2.root tHash = specRoot tHash 2 [1, 2, 3, 4, 5, 6, 7]),
       (r.2.path tHash 2 5).map fun p => p.verify tHash (r.2.root tHash) 6)) =
    some ([true, true, true], 7, true, some true) := by decide +kernel

/-- An accumulator of two trees: 5, 7, 9 in the second, 2 in the first; then own 4 and 11, foreign 13. -/
example : ((initialAccumulator tHash 2 .map .map 2 tIx id [5, 2, 7, 9]
      [specPath tHash 2 [2] 0, specPath tHash 2 [5, 7, 9] 2]).bind fun F0 =>
    (Forest.run (forkedOps tHash 2 .map) tIx id F0 [.insert 4, .insert 11, .insertNon 13, .commit]).map fun r =>
      r.2.map fun f => (f.len, decide (f.root tHash = specRoot tHash 2 [5, 7, 9, 11, 13]),
        ((f.prove tHash 2 11).bind fun p => p.map fun p => p.verify tHash (f.root tHash) 11))) =
    some [(2, false, none), (5, true, some true)] := by decide +kernel

/-- **C100, violated for the items of the list.** The accumulator says that it contains the items it was built from,
but except for the last of every tree its proofs for them are wrong. -/
theorem c100_old_items_violated : ∃ t, Partial.fromLeavesAndPath tHash 2 .map [1, 2, 3, 4, 5]
      (specPath tHash 2 [1, 2, 3, 4, 5] 4) = some t ∧ t.root tHash = specRoot tHash 2 [1, 2, 3, 4, 5] ∧
    (t.position 1).isSome ∧ ∃ p, t.prove tHash 2 1 = some p ∧ p.verify tHash (t.root tHash) 1 = false := by
  obtain ⟨t, e⟩ : ∃ t, Partial.fromLeavesAndPath tHash 2 .map [1, 2, 3, 4, 5] (specPath tHash 2 [1, 2, 3, 4, 5] 4) = some t :=
    Option.isSome_iff_exists.mp (by decide +kernel)
  have key : ((Partial.fromLeavesAndPath tHash 2 .map [1, 2, 3, 4, 5] (specPath tHash 2 [1, 2, 3, 4, 5] 4)).map fun t =>
      (decide (t.root tHash = specRoot tHash 2 [1, 2, 3, 4, 5]), (t.position 1).isSome,
        (t.prove tHash 2 1).map fun p => p.verify tHash (t.root tHash) 1)) = some (true, true, some false) := by
    decide +kernel
  rw [e] at key
  simp only [Option.map_some, Option.some.injEq, Prod.mk.injEq, Option.map_eq_some_iff, decide_eq_true_eq] at key
  obtain ⟨k1, k2, p, k3, k4⟩ := key
  exact ⟨t, e, k1, k2, p, k3, k4⟩

/-- **C06, violated for trees with a starting index.** A tree of height four that is built with
`PartialInnerTree::from_current` and `Partial::new_unchecked_from_leaves` from the fifth leaf and its path has the root
of all leaves after any appends; when its first four leaves are not needed, pruning it panics, as the sibling subtree
begins before the starting index. -/
theorem c06_start_violated : ∃ m bs t, fromCurrent tHash 3 (tHash.joinL 5 tHash.dD) 4
      (CurrentPath.fromPath tHash (specPath tHash 3 [1, 2, 3, 4, 5] 4)).path = some (m, 4) ∧
    (⟨LeafMap.fromVec .map [5] false, m, 4⟩ : Partial Nat Nat).run tHash 3
      [.push 6, .push 7, .push 8, .push 9, .remove 4] = some (bs, t) ∧ bs = [true, true, true, true, true] ∧
    t.root tHash = specRoot tHash 3 [1, 2, 3, 4, 5, 6, 7, 8, 9] ∧ t.prune 3 = none := by
  obtain ⟨x, e⟩ : ∃ x, fromCurrent tHash 3 (tHash.joinL 5 tHash.dD) 4
      (CurrentPath.fromPath tHash (specPath tHash 3 [1, 2, 3, 4, 5] 4)).path = some x :=
    Option.isSome_iff_exists.mp (by decide +kernel)
  have key : ((fromCurrent tHash 3 (tHash.joinL 5 tHash.dD) 4
      (CurrentPath.fromPath tHash (specPath tHash 3 [1, 2, 3, 4, 5] 4)).path).bind fun x =>
      ((⟨LeafMap.fromVec .map [5] false, x.1, x.2⟩ : Partial Nat Nat).run tHash 3
        [.push 6, .push 7, .push 8, .push 9, .remove 4]).map fun r =>
      (x.2, r.1, decide (r.2.root tHash = specRoot tHash 3 [1, 2, 3, 4, 5, 6, 7, 8, 9]), (r.2.prune 3).isNone)) =
      some (4, [true, true, true, true, true], true, true) := by
    decide +kernel
  rw [e] at key
  obtain ⟨m, s⟩ := x
  simp only [Option.bind_some, Option.map_eq_some_iff, Prod.mk.injEq, decide_eq_true_eq, Option.isNone_iff_eq_none] at key
  obtain ⟨⟨bs, t⟩, k1, rfl, k2, k3, k4⟩ := key
  exact ⟨m, bs, t, e, k1, k2, k3, k4⟩

end Verif.Merkle
