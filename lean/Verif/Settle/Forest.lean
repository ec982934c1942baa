import Verif.Merkle.ForestProps
import Verif.Settle.Props

/-!
# The signer's accumulator is a forest of forked trees

Signing (`Verif.Sign`) and settling (`Verif.Settle`) assume laws of the signer's accumulator. The accumulator that
manta-pay gives to its signer is a forest of 256 forked partial Merkle trees (manta-pay/src/signer/base.rs:78-85,
manta-crypto/src/merkle_tree/forest.rs:328-421, 801-812, modelled in `Verif.Merkle`). Here it is packed with the list
of its leaves, and shown to meet these laws.
-/

set_option linter.unusedSectionVars false

namespace Verif.Settle

open Verif.Merkle
open Verif.Ledger (Ix)

variable {D N : Type}

/-- Hash functions, height, kinds of the leaf stores of branch and base, and the index function of a forest. -/
structure Grove (D N : Type) where
  H : Hash D N
  h : Nat
  K : Kind
  K' : Kind
  ix : D → Ix
  pos : 1 ≤ h

/-- No inner node of the tree was the default digest while these leaves were appended. With such a node the code takes a
part of the tree for empty (`c11_needs_nondefault`). -/
def Grove.Clear (G : Grove D N) (l : List D) : Prop := ∀ n, NonDefaultOn G.H G.h (l.take n)

/-- A forest with a list of its leaves; `rel` holds of all reachable forests (`c113_reachable`) in whose committed trees
no inner node is the default digest. `ref` is not data of the code. -/
structure Acc [DecidableEq D] [DecidableEq N] (G : Grove D N) where
  tree : Ix → Forked (Partial D N) D N
  ref : Ix → FRef D
  cap : ∀ i, (ref i).base.length + (ref i).pend.length ≤ 2 ^ (G.h + 1)
  rel : ∀ i, G.Clear ((ref i).base.map Prod.fst) → Forked.Rel G.H G.h (Partial.G G.H G.h G.K') G.K (tree i) (ref i)

variable [DecidableEq D] [DecidableEq N] {G : Grove D N}

/-- The base trees work. -/
theorem Grove.base (G : Grove D N) :
    (partialBase G.H G.h : Base (Partial D N) D N).Ok G.H G.h (Partial.G G.H G.h G.K') id (2 ^ (G.h + 1)) :=
  partialBase_ok G.H G.h G.K'

instance (H : Hash D N) (h : Nat) (l : List D) : Decidable (NonDefaultOn H h l) :=
  decidable_of_iff (∀ k, k < h → ∀ i, i < l.length → i * 2 ^ (k + 1) < l.length → nodeVal H l k i ≠ H.dN)
    ⟨fun h k i hk hi => h k hk i (Nat.lt_of_le_of_lt (Nat.le_mul_of_pos_right _ (Nat.two_pow_pos _)) hi) hi,
     fun h k hk i _ hi => h k i hk hi⟩

instance (G : Grove D N) (l : List D) : Decidable (G.Clear l) :=
  decidable_of_iff (∀ n, n < l.length + 1 → NonDefaultOn G.H G.h (l.take n)) ⟨fun h n => by
    by_cases hn : n < l.length + 1
    · exact h n hn
    · have := h l.length (by omega)
      rwa [List.take_of_length_le (by omega), ← List.take_of_length_le (l := l) (i := n) (by omega)] at this,
    fun h n _ => h n⟩

theorem Grove.Clear.all {l : List D} (hc : G.Clear l) : NonDefaultOn G.H G.h l := by
  have := hc l.length
  rwa [List.take_of_length_le (Nat.le_refl _)] at this

theorem Grove.Clear.take {l : List D} (hc : G.Clear l) (n : Nat) : G.Clear (l.take n) := fun m => by
  rw [List.take_take]; exact hc _

theorem Grove.Clear.left {l l' : List D} (hc : G.Clear (l ++ l')) : G.Clear l := by
  have := hc.take l.length
  rwa [List.take_left] at this

theorem Grove.clear_nil (G : Grove D N) : G.Clear ([] : List D) := fun n => by
  rw [List.take_nil]; exact nonDefaultOn_nil _ _

/-- A hash that never gives the default digest. -/
theorem Grove.clear_of (G : Grove D N) (hd : NonDefault G.H) (l : List D) : G.Clear l := fun _ => hd.on _ _ _

/-- The committed leaves grow. -/
theorem step_base (q : FRef D) (h room : Nat) (hc : q.base.length + q.pend.length ≤ 2 ^ (h + 1)) (op : Forked.Op D)
    {b : Bool} {q' : FRef D} (e : q.step h id room op = some (b, q')) :
    (∃ s, q'.base.map Prod.fst = q.base.map Prod.fst ++ s) ∧ (op = .merge → q'.base.map Prod.fst = q.digests) ∧
    q'.base.length + q'.pend.length ≤ 2 ^ (h + 1) := by
  obtain ⟨gp, gb⟩ := FRef.grow_leaves h q hc
  have hsame : ∀ x : Bool × FRef D, x.2.base = q.base → x.2.pend.length ≤ 2 ^ (h + 1) - q.base.length → x = (b, q') →
      (∃ s, q'.base.map Prod.fst = q.base.map Prod.fst ++ s) ∧ q'.base.length + q'.pend.length ≤ 2 ^ (h + 1) := by
    rintro _ e1 e2 rfl
    simp only at e1 e2
    exact ⟨⟨[], by rw [e1, List.append_nil]⟩, by rw [e1]; omega⟩
  cases op with
  | push d =>
    have := gp d false
    simp only [Bool.false_eq_true, if_false] at this
    obtain ⟨h1, h2⟩ := hsame _ this.1 (by rw [this.2, List.length_take]; omega) (Option.some.inj e)
    exact ⟨h1, nofun, h2⟩
  | pushProvable d =>
    have := gp d true
    simp only [if_true] at this
    obtain ⟨h1, h2⟩ := hsame _ this.1 (by rw [this.2, List.length_take]; omega) (Option.some.inj e)
    exact ⟨h1, nofun, h2⟩
  | batch ds =>
    have := gb ds false
    simp only [Bool.false_eq_true, if_false] at this
    obtain ⟨h1, h2⟩ := hsame _ this.1 (by rw [this.2, List.length_take]; omega) (Option.some.inj e)
    exact ⟨h1, nofun, h2⟩
  | batchProvable ds =>
    have := gb ds true
    simp only [if_true] at this
    obtain ⟨h1, h2⟩ := hsame _ this.1 (by rw [this.2, List.length_take]; omega) (Option.some.inj e)
    exact ⟨h1, nofun, h2⟩
  | remove i =>
    simp only [FRef.step] at e
    split at e
    · cases e
    · split at e
      · obtain ⟨h1, h2⟩ := hsame _ rfl (by show q.pend.length ≤ _; omega) (Option.some.inj e)
        exact ⟨h1, nofun, h2⟩
      · split at e
        · obtain ⟨h1, h2⟩ := hsame _ rfl (by simp only [List.length_modify]; omega) (Option.some.inj e)
          exact ⟨h1, nofun, h2⟩
        · obtain ⟨h1, h2⟩ := hsame _ rfl (by show q.pend.length ≤ _; omega) (Option.some.inj e)
          exact ⟨h1, nofun, h2⟩
  | reset =>
    cases e
    exact ⟨⟨[], by simp [FRef.fresh]⟩, nofun, by simp [FRef.fresh]; omega⟩
  | merge =>
    simp only [FRef.step] at e
    split at e
    · cases e
      have : (FRef.fresh (q.base ++ q.pend.map fun x => (x.1, id x.2))).base.map Prod.fst = q.digests := by
        simp [FRef.fresh, FRef.digests, Function.comp_def]
      exact ⟨⟨q.pend.map Prod.fst, this⟩, fun _ => this, by simp [FRef.fresh]; omega⟩
    · cases e
  | prune =>
    cases e
    exact ⟨⟨[], by simp⟩, nofun, hc⟩

namespace Acc

/-- No inner node of the committed trees is the default digest. -/
def Clear (a : Acc G) : Prop := ∀ i, G.Clear ((a.ref i).base.map Prod.fst)

/-- One operation of a tree, unless it panics. -/
theorem rel_step (a : Acc G) (i : Ix) (op : Forked.Op D) {b : Bool} {q : FRef D}
    (e : (a.ref i).step G.h id (2 ^ (G.h + 1)) op = some (b, q)) (hq : G.Clear (q.base.map Prod.fst)) :
    ∃ f, (a.tree i).step (partialBase G.H G.h) G.H G.h G.K op = some (b, f) ∧
      Forked.Rel G.H G.h (Partial.G G.H G.h G.K') G.K f q := by
  obtain ⟨⟨s, h1⟩, h2, _⟩ := step_base (a.ref i) G.h _ (a.cap i) op e
  have hr := a.rel i (by rw [h1] at hq; exact hq.left)
  have := hr.step G.H G.h G.pos G.base op fun hop => by rw [← h2 hop]; exact hq.all
  rw [e] at this
  exact this

/-- Replacing one tree. -/
def put (a : Acc G) (i : Ix) (f : Forked (Partial D N) D N) (q : FRef D)
    (hc : q.base.length + q.pend.length ≤ 2 ^ (G.h + 1))
    (hr : G.Clear (q.base.map Prod.fst) → Forked.Rel G.H G.h (Partial.G G.H G.h G.K') G.K f q) : Acc G where
  tree j := if j = i then f else a.tree j
  ref j := if j = i then q else a.ref j
  cap j := by
    by_cases hj : j = i
    · simp only [if_pos hj]; exact hc
    · simp only [if_neg hj]; exact a.cap j
  rel j := by
    by_cases hj : j = i
    · simp only [if_pos hj]; exact hr
    · simp only [if_neg hj]; exact a.rel j

/-- `Accumulator::insert` (forest.rs:328) on the tree of the leaf (fork.rs:1099). -/
def insert (a : Acc G) (l : D) : Bool × Acc G :=
  (((a.tree (G.ix l)).branch.data.pushProvable G.H G.h l).1,
   a.put (G.ix l) ((a.tree (G.ix l)).withData ((a.tree (G.ix l)).branch.data.pushProvable G.H G.h l).2)
    ((a.ref (G.ix l)).grow G.h (.pushProvable l)).2
    (step_base _ G.h (2 ^ (G.h + 1)) (a.cap _) (.pushProvable l) rfl).2.2
    (by
      intro hq
      obtain ⟨f', e, hr⟩ := a.rel_step (G.ix l) (.pushProvable l) rfl hq
      have e' := congrArg Prod.snd (Option.some.inj e)
      simp only at e'
      rw [e']
      exact hr))

/-- `insert_nonprovable` (forest.rs:408). -/
def insertNon (a : Acc G) (l : D) : Bool × Acc G :=
  (((a.tree (G.ix l)).branch.data.push G.H G.h l).1,
   a.put (G.ix l) ((a.tree (G.ix l)).withData ((a.tree (G.ix l)).branch.data.push G.H G.h l).2)
    ((a.ref (G.ix l)).grow G.h (.push l)).2
    (step_base _ G.h (2 ^ (G.h + 1)) (a.cap _) (.push l) rfl).2.2
    (by
      intro hq
      obtain ⟨f', e, hr⟩ := a.rel_step (G.ix l) (.push l) rfl hq
      have e' := congrArg Prod.snd (Option.some.inj e)
      simp only at e'
      rw [e']
      exact hr))

/-- The operations on all trees do not panic. -/
theorem ref_step (a : Acc G) (op : Forked.Op D) (hop : op = .reset ∨ op = .merge ∨ op = .prune) (i : Ix) :
    ∃ q, (a.ref i).step G.h id (2 ^ (G.h + 1)) op = some (true, q) := by
  rcases hop with rfl | rfl | rfl
  · exact ⟨_, rfl⟩
  · simp only [FRef.step, if_pos (a.cap i)]; exact ⟨_, rfl⟩
  · exact ⟨_, rfl⟩

/-- One operation on all trees: `rollback`, `commit` (forest.rs:801, 808) and `prune` (421). Where the code would panic,
which needs an inner node that is the default digest, an empty branch is written. -/
def each (a : Acc G) (op : Forked.Op D) (hop : op = .reset ∨ op = .merge ∨ op = .prune) : Acc G where
  tree i := (((a.tree i).step (partialBase G.H G.h) G.H G.h G.K op).map Prod.snd).getD ⟨(a.tree i).base, ⟨0, Partial.new G.K⟩⟩
  ref i := (((a.ref i).step G.h id (2 ^ (G.h + 1)) op).map Prod.snd).getD (a.ref i)
  cap i := by
    obtain ⟨q, e⟩ := a.ref_step op hop i
    rw [e]
    exact (step_base _ _ _ (a.cap i) op e).2.2
  rel i := by
    obtain ⟨q, e⟩ := a.ref_step op hop i
    rw [e]
    intro hq
    obtain ⟨f, e1, e3⟩ := a.rel_step i op e hq
    rw [e1]; exact e3

/-- The operations on all trees do not panic. -/
theorem all_step (a : Acc G) (op : Forked.Op D) (hop : op = .reset ∨ op = .merge ∨ op = .prune) (hc : (a.each op hop).Clear)
    (i : Ix) :
    ∃ f q, (a.tree i).step (partialBase G.H G.h) G.H G.h G.K op = some (true, f) ∧
      (a.ref i).step G.h id (2 ^ (G.h + 1)) op = some (true, q) ∧
      Forked.Rel G.H G.h (Partial.G G.H G.h G.K') G.K f q := by
  obtain ⟨q, e⟩ := a.ref_step op hop i
  have := hc i
  simp only [each, e, Option.map_some, Option.getD_some] at this
  obtain ⟨f, e1, e3⟩ := a.rel_step i op e this
  exact ⟨f, q, e1, e, e3⟩

def rollback (a : Acc G) : Acc G := a.each .reset (.inl rfl)
def commit (a : Acc G) : Acc G := a.each .merge (.inr (.inl rfl))
def prune (a : Acc G) : Acc G := a.each .prune (.inr (.inr rfl))

/-- Operations on some of the trees; a tree whose operation panics stays as it is. -/
def part (a : Acc G) (op : Ix → Option (Forked.Op D)) : Acc G where
  tree i := (((op i).bind fun o => (a.tree i).step (partialBase G.H G.h) G.H G.h G.K o).map Prod.snd).getD (a.tree i)
  ref i := (((op i).bind fun o => (a.ref i).step G.h id (2 ^ (G.h + 1)) o).map Prod.snd).getD (a.ref i)
  cap i := by
    cases ho : op i with
    | none => exact a.cap i
    | some o =>
      rw [Option.bind_some]
      cases hs : (a.ref i).step G.h id (2 ^ (G.h + 1)) o with
      | none => exact a.cap i
      | some r => exact (step_base _ _ _ (a.cap i) o hs).2.2
  rel i := by
    cases ho : op i with
    | none => exact a.rel i
    | some o =>
      rw [Option.bind_some, Option.bind_some]
      cases hs : (a.ref i).step G.h id (2 ^ (G.h + 1)) o with
      | none =>
        intro hc
        have hr := a.rel i hc
        have := hr.step G.H G.h G.pos G.base o (fun e => by
          subst e
          simp only [FRef.step, if_pos (a.cap i)] at hs
          cases hs)
        rw [hs] at this
        simp only at this
        rw [this]; exact hr
      | some r =>
        intro hc
        obtain ⟨f, e, hr⟩ := a.rel_step i o hs hc
        rw [e]; exact hr

/-- `batch_insert_nonprovable` (forest.rs:639): every tree gets its part of the batch. -/
def batchNon (a : Acc G) (ls : List D) : Bool × Acc G :=
  ((List.finRange 256).all fun i =>
    (((a.tree i).step (partialBase G.H G.h) G.H G.h G.K (.batch (ls.filter fun l => decide (G.ix l = i)))).map Prod.fst).getD true,
   a.part fun i => some (.batch (ls.filter fun l => decide (G.ix l = i))))

/-- `remove_proof` (forest.rs:413) as in a release build: where a debug build panics because of an overflow of
`index - starting_leaf_index` (partial.rs:502) nothing is removed. -/
def remove (a : Acc G) (l : D) : Bool × Acc G :=
  match (a.tree (G.ix l)).position l with
  | none => (false, a)
  | some i =>
    ((((a.tree (G.ix l)).step (partialBase G.H G.h) G.H G.h G.K (.remove i)).map Prod.fst).getD false,
     a.part fun j => if j = G.ix l then some (.remove i) else none)

/-- The leaves of the shards. -/
def view (a : Acc G) (i : Ix) : List D := (a.ref i).digests

/-- The leaf has a proof: it is stored by the branch, or its first place in the base is of a leaf that was inserted as
provable. Paths of a branch that is not up to date (`c07_violated`: until the next insertion or commit after some
batches) do not count, nor do paths in a tree with an inner node that is the default digest, although `prove` answers with
them. -/
def contains (a : Acc G) (l : D) : Bool :=
  decide (G.Clear ((a.ref (G.ix l)).base.map Prod.fst)) && (a.ref (G.ix l)).ok && (((a.tree (G.ix l)).branch.data.position l).isSome ||
    match (a.tree (G.ix l)).base.position l with
    | some i => decide ((a.ref (G.ix l)).base[i]? = some (l, true))
    | none => false)

/-- `Accumulator::prove` (forest.rs:349). -/
def prove (a : Acc G) (l : D) : Option (Path D N) := ((a.tree (G.ix l)).prove G.H G.h l).getD none

instance (a : Acc G) : Decidable a.Clear := inferInstanceAs (Decidable (∀ i : Ix, _))

/-- Room left in the fullest shard; none is counted in a forest with an inner node that is the default digest. -/
@[irreducible] def free (a : Acc G) : Nat := if ¬ a.Clear then 0 else (List.ofFn fun i : Ix => 2 ^ (G.h + 1) - (a.view i).length).foldr min (2 ^ (G.h + 1))

theorem new_rel (G : Grove D N) :
    ∃ f0, Forked.new (partialBase G.H G.h) G.H G.h G.K (Partial.new G.K' : Partial D N) = some f0 ∧
      Forked.Rel G.H G.h (Partial.G G.H G.h G.K') G.K f0 (FRef.fresh []) :=
  Forked.Rel.new G.H G.h G.pos G.base ⟨true, (Partial.rel_new G.H G.h G.K' true).weaken G.H G.h⟩
    (nonDefaultOn_nil _ _)

/-- An empty forest (`Default` of the accumulator); building its trees does not panic. -/
def empty (G : Grove D N) : Acc G where
  tree _ := (Forked.new (partialBase G.H G.h) G.H G.h G.K (Partial.new G.K' : Partial D N)).get (by
    obtain ⟨f0, e, _⟩ := new_rel G
    rw [e]; rfl)
  ref _ := FRef.fresh []
  cap _ := Nat.zero_le _
  rel _ := by
    intro _
    obtain ⟨f0, e, hr⟩ := new_rel G
    simp only [e, Option.get_some]
    exact hr

end Acc

/-! ## The operations are those of the forest -/

theorem each_ofFn {T : Type} (S : TreeOps T D) (op : Forked.Op D) : ∀ {n : Nat} (f f' : Fin n → T),
    (∀ i, ∃ b, S.step (f i) op = some (b, f' i)) → Forest.each S op (List.ofFn f) = some (List.ofFn f')
  | 0, f, f', _ => by simp [Forest.each]
  | n + 1, f, f', hf => by
    have ih := each_ofFn S op (fun i => f i.succ) (fun i => f' i.succ) fun i => hf i.succ
    obtain ⟨b, e⟩ := hf 0
    rw [List.ofFn_succ, List.ofFn_succ, Forest.each, e, Option.bind_some, ih]
    rfl

theorem updateAt_ofFn {T : Type} {n : Nat} (f : Fin n → T) (i : Fin n) (g : T → Option (Bool × T)) {b : Bool} {t : T}
    (e : g (f i) = some (b, t)) :
    Forest.updateAt (List.ofFn f) i.val g = some (b, List.ofFn fun j => if j = i then t else f j) := by
  unfold Forest.updateAt
  have h1 : (List.ofFn f)[i.val]? = some (f i) := by simp
  rw [h1]
  simp only [e, Option.map_some]
  refine congrArg some (Prod.ext rfl ?_)
  refine List.ext_getElem (by simp) fun j h2 h3 => ?_
  simp only [List.getElem_set, List.getElem_ofFn]
  by_cases hj : i.val = j
  · subst hj; simp
  · rw [if_neg hj, if_neg]
    intro e; exact hj (by rw [← e])

end Verif.Settle
