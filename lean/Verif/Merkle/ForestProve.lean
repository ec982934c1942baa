import Verif.Merkle.ForestProps

/-! # C66 for a whole forest: what it says it contains it proves, under the root it answers -/

namespace Verif.Merkle

variable {D N L : Type} (H : Hash D N) (h : Nat)

namespace Forest

/-- `MerkleForest::contains` (forest.rs:359): asked of the tree the item is routed to (`get_tree`, forest.rs:107). -/
def contains [DecidableEq D] (ix : L → Nat) (dg : L → D) (F : List (Partial D N)) (l : L) : Bool :=
  ((F[ix l]?).bind fun t => t.position (dg l)).isSome

/-- `MerkleForest::prove` (forest.rs:335): the path and the root of the tree the item is routed to. -/
def prove [DecidableEq D] (ix : L → Nat) (dg : L → D) (F : List (Partial D N)) (l : L) : Option (Path D N × N) :=
  (F[ix l]?).bind fun t => (t.position (dg l)).bind fun i => (t.path H h i).map fun p => (p, t.root H)

/-- `MerkleForest::output_from` (forest.rs:347). -/
def outputFrom (ix : L → Nat) (F : List (Partial D N)) (l : L) : Option N := (F[ix l]?).map fun t => t.root H

/-- Running one history after another. -/
theorem run_append {T : Type} (S : TreeOps T D) (ix : L → Nat) (dg : L → D) : ∀ (xs ys : List (Op L)) (F : List T),
    run S ix dg F (xs ++ ys) = (run S ix dg F xs).bind fun r => (run S ix dg r.2 ys).map fun q => (r.1 ++ q.1, q.2)
  | [], ys, F => by simp [run]
  | x :: xs, ys, F => by
    simp only [List.cons_append, run, run_append S ix dg xs ys]
    cases step S ix dg F x with
    | none => rfl
    | some r =>
      simp only [Option.bind_some]
      cases run S ix dg r.2 xs with
      | none => rfl
      | some q =>
        simp only [Option.bind_some, Option.map_some]
        cases run S ix dg q.2 ys <;> rfl

/-- One answer for every operation. -/
theorem run_length {T : Type} (S : TreeOps T D) (ix : L → Nat) (dg : L → D) : ∀ (xs : List (Op L)) (F F' : List T)
    (bs : List Bool), run S ix dg F xs = some (bs, F') → bs.length = xs.length
  | [], _, _, _, he => by cases he; rfl
  | x :: xs, F, F', bs, he => by
    simp only [run, Option.bind_eq_some_iff, Option.map_eq_some_iff] at he
    obtain ⟨r, _, ⟨bs', F2⟩, g, e⟩ := he
    cases e
    simp only [List.length_cons, run_length S ix dg xs _ _ _ g]

end Forest

theorem Shard.run_length {T : Type} (S : TreeOps T D) : ∀ (xs : List (Shard D)) (t t' : T) (bs : List Bool),
    Shard.run S t xs = some (bs, t') → bs.length = xs.length
  | [], _, _, _, he => by cases he; rfl
  | x :: xs, t, t', bs, he => by
    simp only [Shard.run, Option.bind_eq_some_iff, Option.map_eq_some_iff] at he
    obtain ⟨r, _, ⟨bs', t2⟩, g, e⟩ := he
    cases e
    simp only [List.length_cons, Shard.run_length S xs _ _ _ g]

/-- **C66, forests of partial trees.** After any history of single insertions, removals and prunes, whichever way
items are routed: every item that the forest says it contains has a proof; the root in the proof is the output that
the forest answers for that item; and the proof verifies against it. -/
theorem c66_forest [DecidableEq D] [DecidableEq N] (K : Kind) (hK : K ≠ .vec) (n : Nat) (ix : L → Nat) (dg : L → D)
    (ops : List (Forest.Op L)) (hp : ops.all Forest.Op.plain = true) (hs : ops.all Forest.Op.single = true)
    (hl : ∀ op ∈ ops, ∀ l ∈ Forest.items op, ix l < n) :
    ∃ bs F, Forest.run (partialOps (N := N) H h) ix dg (List.replicate n (Partial.new K)) ops = some (bs, F) ∧
      ∀ l, Forest.contains ix dg F l = true → ∃ p r, Forest.prove H h ix dg F l = some (p, r) ∧
        Forest.outputFrom H ix F l = some r ∧ p.verify H r (dg l) = true := by
  obtain ⟨bs, F, e, hlen, _⟩ := c10_partial_trees (N := N) H h K n ix dg ops hp hl
  refine ⟨bs, F, e, fun l hc => ?_⟩
  obtain ⟨_, j⟩ := (c10_isolated (partialOps (N := N) H h) ix dg ops (List.replicate n (Partial.new K))
    (by simpa using hl)).1 bs F e
  unfold Forest.contains at hc
  cases ht : F[ix l]? with
  | none => rw [ht] at hc; cases hc
  | some t =>
    rw [ht, Option.bind_some] at hc
    have hi : ix l < n := by
      rw [← hlen]
      exact (List.getElem?_eq_some_iff.mp ht).1
    obtain ⟨as, t', a1, a2⟩ := j (ix l) (Partial.new K) (by rw [List.getElem?_replicate, if_pos hi])
    rw [ht] at a2
    cases a2
    obtain ⟨as', t', b1, b2⟩ := c66_contained_proved (N := N) H h K hK _ (Forest.proj_plain ix dg (ix l) ops hp)
      (Forest.proj_single ix dg (ix l) ops hs)
    rw [a1] at b1
    cases b1
    obtain ⟨p, p1, p2⟩ := b2 (dg l) hc
    refine ⟨p, t.root H, ?_, ?_, p2⟩
    · unfold Partial.prove at p1
      rw [Option.bind_eq_some_iff] at p1
      obtain ⟨i, q1, q2⟩ := p1
      simp only [Forest.prove, ht, Option.bind_some, q1, q2, Option.map_some]
    · simp only [Forest.outputFrom, ht, Option.map_some]

/-- **C66, forests: what is inserted stays.** An item whose provable insertion the forest answered by `true` is
contained ever after, unless an item with its digest in its own tree is removed: insertions, removals and prunes of
everything else, in its tree or in another, do not touch it. -/
theorem c66_forest_stays [DecidableEq D] [DecidableEq N] (K : Kind) (n : Nat) (ix : L → Nat) (dg : L → D)
    (pre post : List (Forest.Op L)) (l : L) (hp : (pre ++ .insert l :: post).all Forest.Op.plain = true)
    (hl : ∀ op ∈ pre ++ .insert l :: post, ∀ m ∈ Forest.items op, ix m < n)
    (hrm : ∀ m, Forest.Op.remove m ∈ post → ix m = ix l → dg m ≠ dg l) :
    ∃ bs F, Forest.run (partialOps (N := N) H h) ix dg (List.replicate n (Partial.new K)) (pre ++ .insert l :: post) =
        some (bs, F) ∧ (bs[pre.length]? = some true → Forest.contains ix dg F l = true) := by
  obtain ⟨bs, F, e, hlen, _⟩ := c10_partial_trees (N := N) H h K n ix dg _ hp hl
  refine ⟨bs, F, e, fun hb => ?_⟩
  rw [Forest.run_append, Option.bind_eq_some_iff] at e
  obtain ⟨⟨bs1, F1⟩, e1, e⟩ := e
  simp only [Forest.run, Option.map_eq_some_iff, Option.bind_eq_some_iff] at e
  obtain ⟨⟨bs2, F2⟩, ⟨⟨b, F3⟩, e2, ⟨bs4, F4⟩, e3, e4⟩, e5⟩ := e
  cases e4
  cases e5
  have hi : ix l < n := hl (.insert l) (List.mem_append_right _ List.mem_cons_self) l List.mem_cons_self
  obtain ⟨l1, j1⟩ := (c10_isolated (partialOps (N := N) H h) ix dg pre (List.replicate n (Partial.new K))
    (by simpa using fun op ho => hl op (List.mem_append_left _ ho))).1 bs1 F1 e1
  rw [List.length_replicate] at l1
  obtain ⟨as1, t1, a1, a2⟩ := j1 (ix l) (Partial.new K) (by rw [List.getElem?_replicate, if_pos hi])
  simp only [Forest.step, Forest.updateAt, a2, Option.map_eq_some_iff] at e2
  obtain ⟨⟨b', t2⟩, e2, e6⟩ := e2
  cases e6
  have g2 : (F1.set (ix l) t2)[ix l]? = some t2 := by
    rw [List.getElem?_set_self (by omega)]
  obtain ⟨_, j3⟩ := (c10_isolated (partialOps (N := N) H h) ix dg post (F1.set (ix l) t2)
    (by
      rw [List.length_set, l1]
      exact fun op ho => hl op (List.mem_append_right _ (List.mem_cons_of_mem _ ho)))).1 bs4 F4 e3
  obtain ⟨as3, t3, a3, a4⟩ := j3 (ix l) t2 g2
  have hproj : (pre ++ Forest.Op.insert l :: post).flatMap (Forest.proj ix dg (ix l)) =
      pre.flatMap (Forest.proj ix dg (ix l)) ++ .insert (dg l) :: post.flatMap (Forest.proj ix dg (ix l)) := by
    simp [Forest.proj]
  have hpl := Forest.proj_plain ix dg (ix l) _ hp
  rw [hproj] at hpl
  obtain ⟨as, t, c1, c2⟩ := c66_stays (N := N) H h K (pre.flatMap (Forest.proj ix dg (ix l)))
    (post.flatMap (Forest.proj ix dg (ix l))) (dg l) hpl (by
      intro hm
      rw [List.mem_flatMap] at hm
      obtain ⟨op, ho, hm⟩ := hm
      cases op with
      | remove m =>
        simp only [Forest.proj] at hm
        split at hm
        · rename_i hx
          rw [List.mem_singleton, Shard.remove.injEq] at hm
          exact hrm m ho hx hm.symm
        · cases hm
      | insert m => simp only [Forest.proj] at hm; split at hm <;> simp at hm
      | insertNon m => simp only [Forest.proj] at hm; split at hm <;> simp at hm
      | _ => simp [Forest.proj] at hm)
  have hrun : Shard.run (partialOps (N := N) H h) (Partial.new K) (pre.flatMap (Forest.proj ix dg (ix l)) ++
      .insert (dg l) :: post.flatMap (Forest.proj ix dg (ix l))) = some (as1 ++ b' :: as3, t3) := by
    rw [Shard.run_append, a1]
    simp only [Option.bind_some, Shard.run, Shard.step, e2, a3, Option.map_some]
  rw [hrun] at c1
  cases c1
  have hlb := Forest.run_length _ ix dg pre _ _ _ e1
  have hla := Shard.run_length _ _ _ _ _ a1
  rw [List.getElem?_append_right (by omega), hlb, Nat.sub_self] at hb
  have := (c2 (by
    rw [List.getElem?_append_right (by omega), hla, Nat.sub_self]
    simpa using hb)).1
  simp only [Forest.contains, a4, Option.bind_some, this]

/-- Both apply: items 4 and 5 in different trees of two; 4 stays when 5 and 8 (of the tree of 4) are removed, and its
proof verifies under the output of its tree, which is not that of the other. -/
example : (Forest.run (partialOps (N := Nat) tHash 2) (fun l : Nat => l % 2) id (List.replicate 2 (Partial.new .map))
    ([.insertNon 2] ++ .insert 4 :: [.insert 5, .insert 8, .remove 5, .remove 8, .prune])).map (fun r =>
      (r.1[1]?, Forest.contains (fun l => l % 2) id r.2 4,
        (Forest.prove tHash 2 (fun l => l % 2) id r.2 4).map fun q =>
          (q.1.verify tHash q.2 4, some q.2 == Forest.outputFrom tHash (fun l => l % 2) r.2 4,
            some q.2 == Forest.outputFrom tHash (fun l => l % 2) r.2 5))) =
    some (some true, true, some (true, true, false)) := by decide +kernel

end Verif.Merkle
