import Verif.Merkle.ForkProps

/-!
# Merkle forests

Models `manta-crypto/src/merkle_tree/forest.rs`: an array of trees (`TreeArray`, 512), to which leaves are routed
by an index function (`Configuration::tree_index`, 58).

* The trees are given by their operations; `none` is a panic.
* The index function gives a natural number, as `Into<usize>` of `FixedIndex` (70) does; an index beyond the
  array is a panic.
-/

namespace Verif.Merkle

variable {D N L T : Type}

/-- The operations of the trees of a forest. -/
structure TreeOps (T D : Type) where
  step : T → Forked.Op D → Option (Bool × T)
  len : T → Nat
  position : T → D → Option Nat

namespace Forest

/-- The operations of a forest: `Accumulator::insert` (forest.rs:328), `insert_nonprovable` (408),
`batch_insert` (622), `batch_insert_nonprovable` (639), `remove_proof` (413), `prune` (421), and `rollback` and
`commit` (801, 808). -/
inductive Op (L : Type)
  | insert (l : L)
  | insertNon (l : L)
  | batch (ls : List L)
  | batchNon (ls : List L)
  | remove (l : L)
  | prune
  | rollback
  | commit
deriving Repr

variable (S : TreeOps T D) (ix : L → Nat) (dg : L → D)

/-- Changing the tree at an index (`get_mut`, forest.rs:744). -/
def updateAt (F : List T) (i : Nat) (g : T → Option (Bool × T)) : Option (Bool × List T) :=
  match F[i]? with
  | none => none
  | some t => (g t).map fun r => (r.1, F.set i r.2)

/-- `sort_items` (forest.rs:601) into `n` groups. -/
def sortItems (n : Nat) (items : List L) : Option (List (List L)) :=
  items.foldl (fun acc l => acc.bind fun gs => match gs[ix l]? with
    | none => none
    | some g => some (gs.set (ix l) (g ++ [l]))) (some (List.replicate n []))

/-- The loop of `batch_insert` (forest.rs:628-635) from the tree `i` on. -/
def batchLoop (mk : List D → Forked.Op D) : Nat → List (List L) → Bool → List T → Option (Bool × List T)
  | _, [], b, F => some (b, F)
  | i, g :: gs, b, F => match updateAt F i fun t => S.step t (mk (g.map dg)) with
    | none => none
    | some (r, F) => batchLoop mk (i + 1) gs (b && r) F

/-- The same operation on every tree (forest.rs:750, 802, 809). -/
def each (op : Forked.Op D) : List T → Option (List T)
  | [] => some []
  | t :: ts => (S.step t op).bind fun r => (each op ts).map fun ts => r.2 :: ts

/-- `remove_proof` within a tree (forest.rs:414-417). -/
def removeProof (t : T) (d : D) : Option (Bool × T) :=
  match S.position t d with
  | none => some (false, t)
  | some i => S.step t (.remove i)

/-- One operation. -/
def step (F : List T) : Op L → Option (Bool × List T)
  | .insert l => updateAt F (ix l) fun t => S.step t (.pushProvable (dg l))
  | .insertNon l => updateAt F (ix l) fun t => S.step t (.push (dg l))
  | .batch ls => (sortItems ix F.length ls).bind fun gs => batchLoop S dg .batchProvable 0 gs true F
  | .batchNon ls => (sortItems ix F.length ls).bind fun gs => batchLoop S dg .batch 0 gs true F
  | .remove l => updateAt F (ix l) fun t => removeProof S t (dg l)
  | .prune => (each S .prune F).map fun F => (true, F)
  | .rollback => (each S .reset F).map fun F => (true, F)
  | .commit => (each S .merge F).map fun F => (true, F)

/-- A history, with the answers. -/
def run (F : List T) : List (Op L) → Option (List Bool × List T)
  | [] => some ([], F)
  | op :: ops => (step S ix dg F op).bind fun r => (run r.2 ops).map fun q => (r.1 :: q.1, q.2)

/-- `Forest::len` (forest.rs:729). -/
def len (F : List T) : Nat := (F.map S.len).sum

end Forest

/-! ## One tree -/

/-- What a forest does to one of its trees. -/
inductive Shard (D : Type)
  | insert (d : D)
  | insertNon (d : D)
  | batch (ds : List D)
  | batchNon (ds : List D)
  | remove (d : D)
  | prune
  | rollback
  | commit
deriving Repr

namespace Shard

variable (S : TreeOps T D)

/-- The same operation on a single tree. -/
def step (t : T) : Shard D → Option (Bool × T)
  | .insert d => S.step t (.pushProvable d)
  | .insertNon d => S.step t (.push d)
  | .batch ds => S.step t (.batchProvable ds)
  | .batchNon ds => S.step t (.batch ds)
  | .remove d => match S.position t d with
    | none => some (false, t)
    | some i => S.step t (.remove i)
  | .prune => (S.step t .prune).map fun r => (true, r.2)
  | .rollback => (S.step t .reset).map fun r => (true, r.2)
  | .commit => (S.step t .merge).map fun r => (true, r.2)

/-- A history of a single tree. -/
def run (t : T) : List (Shard D) → Option (List Bool × T)
  | [] => some ([], t)
  | op :: ops => (op.step S t).bind fun r => (run r.2 ops).map fun q => (r.1 :: q.1, q.2)

end Shard

namespace Forest

variable (S : TreeOps T D) (ix : L → Nat) (dg : L → D)

/-- What the tree `i` sees of an operation: the items routed to it, in their order. -/
def proj (i : Nat) : Op L → List (Shard D)
  | .insert l => if ix l = i then [.insert (dg l)] else []
  | .insertNon l => if ix l = i then [.insertNon (dg l)] else []
  | .batch ls => [.batch ((ls.filter fun l => ix l = i).map dg)]
  | .batchNon ls => [.batchNon ((ls.filter fun l => ix l = i).map dg)]
  | .remove l => if ix l = i then [.remove (dg l)] else []
  | .prune => [.prune]
  | .rollback => [.rollback]
  | .commit => [.commit]

/-- The items of an operation. -/
def items : Op L → List L
  | .insert l | .insertNon l | .remove l => [l]
  | .batch ls | .batchNon ls => ls
  | _ => []

/-! ## Single operations -/

theorem sortItems_spec (n : Nat) (ls : List L) (hl : ∀ l ∈ ls, ix l < n) :
    sortItems ix n ls = some ((List.range n).map fun i => ls.filter fun l => ix l = i) := by
  have key : ∀ (ls pre : List L), (∀ l ∈ ls, ix l < n) →
      ls.foldl (fun acc l => acc.bind fun gs => match gs[ix l]? with
        | none => none
        | some g => some (gs.set (ix l) (g ++ [l]))) (some ((List.range n).map fun i => pre.filter fun l => ix l = i)) =
      some ((List.range n).map fun i => (pre ++ ls).filter fun l => ix l = i) := by
    intro ls
    induction ls with
    | nil => intro pre _; simp
    | cons l ls ih =>
      intro pre hl
      have hlt := hl l (List.mem_cons_self ..)
      have ih' := ih (pre ++ [l]) fun x hx => hl x (List.mem_cons_of_mem _ hx)
      rw [List.append_assoc, List.singleton_append] at ih'
      rw [List.foldl_cons, ← ih']
      congr 1
      rw [Option.bind_some, List.getElem?_map, List.getElem?_range hlt, Option.map_some]
      refine congrArg some ?_
      refine List.ext_getElem? fun j => ?_
      rw [List.getElem?_set, List.length_map, List.length_range]
      by_cases hj : ix l = j
      · subst hj
        rw [if_pos rfl, if_pos hlt, List.getElem?_map, List.getElem?_range hlt, Option.map_some, List.filter_append]
        simp
      · rw [if_neg hj, List.getElem?_map, List.getElem?_map]
        by_cases hjn : j < n
        · rw [List.getElem?_range hjn, Option.map_some, Option.map_some, List.filter_append]
          simp [hj]
        · rw [List.getElem?_eq_none (by simp; omega)]
          rfl
  have := key ls [] hl
  have e : (List.range n).map (fun i => ([] : List L).filter fun l => ix l = i) = List.replicate n [] := by
    refine List.ext_getElem? fun j => ?_
    rw [List.getElem?_map, List.getElem?_replicate]
    by_cases hj : j < n
    · rw [List.getElem?_range hj, if_pos hj]; rfl
    · rw [List.getElem?_eq_none (by simp; omega), if_neg hj]; rfl
  rw [e] at this
  exact this

/-- Every tree has moved along its own operations, with these answers. -/
def Moved (ops : Nat → List (Shard D)) (F F' : List T) (as : Nat → List Bool) : Prop :=
  F'.length = F.length ∧ ∀ (i : Nat) (t : T), F[i]? = some t →
    ∃ t', Shard.run S t (ops i) = some (as i, t') ∧ F'[i]? = some t'

/-- All answers. -/
def conj (n : Nat) (as : Nat → List Bool) : Bool := (List.range n).all fun i => (as i).all id

theorem updateAt_spec {F : List T} {i : Nat} {t : T} (ht : F[i]? = some t) (op : Shard D) (g : T → Option (Bool × T))
    (hg : g t = op.step S t) (ops : Nat → List (Shard D)) (ho : ∀ j, ops j = if i = j then [op] else []) :
    (∀ b F', updateAt F i g = some (b, F') → ∃ as, Moved S ops F F' as ∧ b = conj F.length as) ∧
    ((∀ j t, F[j]? = some t → (Shard.run S t (ops j)).isSome) → (updateAt F i g).isSome) := by
  have hlt : i < F.length := by
    rcases Nat.lt_or_ge i F.length with a | a
    · exact a
    · rw [List.getElem?_eq_none a] at ht; cases ht
  refine ⟨fun b F' hu => ?_, fun hall => ?_⟩
  · unfold updateAt at hu
    rw [ht] at hu
    simp only [hg, Option.map_eq_some_iff] at hu
    obtain ⟨⟨b', t'⟩, e1, e2⟩ := hu
    cases e2
    refine ⟨fun j => if i = j then [b'] else [], ⟨by simp, fun j u hu => ?_⟩, ?_⟩
    · by_cases hij : i = j
      · subst hij
        rw [ht] at hu
        cases hu
        refine ⟨t', ?_, by rw [List.getElem?_set, if_pos rfl, if_pos hlt]⟩
        rw [ho, if_pos rfl]
        simp only [if_true]
        simp only [Shard.run, e1, Option.bind_some, Option.map_some]
      · refine ⟨u, ?_, by rw [List.getElem?_set, if_neg hij]; exact hu⟩
        rw [ho, if_neg hij]
        simp only [if_neg hij]
        rfl
    · unfold conj
      rw [Bool.eq_iff_iff, List.all_eq_true]
      constructor
      · intro hb j _
        simp only at hb ⊢
        split <;> simp [hb]
      · intro hj
        have := hj i (List.mem_range.mpr hlt)
        simpa using this
  · have := hall i t ht
    rw [ho, if_pos rfl] at this
    unfold updateAt
    rw [ht]
    simp only [hg]
    cases hs : op.step S t with
    | none => simp [Shard.run, hs] at this
    | some r => rfl

theorem each_spec (op : Forked.Op D) (sop : Shard D)
    (hs : ∀ t, sop.step S t = (S.step t op).map fun r => (true, r.2)) : ∀ (F : List T),
    (∀ F', each S op F = some F' → Moved S (fun _ => [sop]) F F' (fun _ => [true])) ∧
    ((∀ t ∈ F, (Shard.run S t [sop]).isSome) → (each S op F).isSome)
  | [] => by
    refine ⟨fun F' he => ?_, fun _ => rfl⟩
    cases he
    exact ⟨rfl, fun i t e => by simp at e⟩
  | t :: F => by
    obtain ⟨i1, i2⟩ := each_spec op sop hs F
    refine ⟨fun F' he => ?_, fun hall => ?_⟩
    · simp only [each] at he
      rw [Option.bind_eq_some_iff] at he
      obtain ⟨⟨b, t'⟩, e1, e2⟩ := he
      rw [Option.map_eq_some_iff] at e2
      obtain ⟨F'', e3, e4⟩ := e2
      cases e4
      obtain ⟨j1, j2⟩ := i1 F'' e3
      refine ⟨by simp [j1], fun i u hu => ?_⟩
      cases i with
      | zero =>
        cases hu
        refine ⟨t', ?_, rfl⟩
        simp [Shard.run, hs, e1]
      | succ i => exact j2 i u hu
    · have h1 := hall t (List.mem_cons_self ..)
      have h2 := i2 fun u hu => hall u (List.mem_cons_of_mem _ hu)
      simp only [each]
      cases e : S.step t op with
      | none => simp [Shard.run, hs, e] at h1
      | some r =>
        rw [Option.bind_some, Option.isSome_map]
        exact h2

theorem batchLoop_spec (mk : List D → Forked.Op D) : ∀ (gs : List (List L)) (k : Nat) (b : Bool) (F : List T),
    k + gs.length = F.length →
    (∀ b' F', batchLoop S dg mk k gs b F = some (b', F') → F'.length = F.length ∧
      (∀ j, j < k → F'[j]? = F[j]?) ∧
      ∃ as : Nat → Bool, (∀ j t, F[k + j]? = some t → ∃ t' g, gs[j]? = some g ∧
          S.step t (mk (g.map dg)) = some (as j, t') ∧ F'[k + j]? = some t') ∧
        b' = (b && (List.range gs.length).all as)) ∧
    ((∀ j t g, F[k + j]? = some t → gs[j]? = some g → (S.step t (mk (g.map dg))).isSome) →
      (batchLoop S dg mk k gs b F).isSome)
  | [], k, b, F, hk => by
    simp only [List.length_nil, Nat.add_zero] at hk
    refine ⟨fun b' F' he => ?_, fun _ => rfl⟩
    cases he
    refine ⟨rfl, fun _ _ => rfl, fun _ => true, fun j t e => ?_, by simp⟩
    rw [List.getElem?_eq_none (by omega)] at e
    cases e
  | g :: gs, k, b, F, hk => by
    simp only [List.length_cons] at hk
    have hlt : k < F.length := by omega
    have hget : F[k]? = some F[k] := List.getElem?_eq_getElem hlt
    refine ⟨fun b' F' he => ?_, fun hall => ?_⟩
    · simp only [batchLoop, updateAt, hget] at he
      cases hs : S.step F[k] (mk (g.map dg)) with
      | none => rw [hs] at he; cases he
      | some r =>
        rw [hs] at he
        simp only [Option.map_some] at he
        obtain ⟨i1, i2, as, i3, i4⟩ := (batchLoop_spec mk gs (k + 1) (b && r.1) (F.set k r.2) (by simp; omega)).1 b' F' he
        rw [List.length_set] at i1
        refine ⟨i1, fun j hj => ?_, fun j => if j = 0 then r.1 else as (j - 1), fun j t hjt => ?_, ?_⟩
        · rw [i2 j (by omega), List.getElem?_set, if_neg (by omega)]
        · cases j with
          | zero =>
            rw [Nat.add_zero] at hjt
            rw [hget] at hjt
            cases hjt
            refine ⟨r.2, g, rfl, hs, ?_⟩
            rw [Nat.add_zero, i2 k (by omega), List.getElem?_set, if_pos rfl, if_pos hlt]
          | succ j =>
            have e : k + 1 + j = k + (j + 1) := by omega
            obtain ⟨t', g', a1, a2, a3⟩ := i3 j t (by
              rw [List.getElem?_set, if_neg (by omega), e]; exact hjt)
            refine ⟨t', g', by simpa using a1, ?_, by rw [← e]; exact a3⟩
            simpa using a2
        · rw [i4, List.length_cons, List.range_succ_eq_map, List.all_cons, List.all_map, Bool.and_assoc]
          simp [Function.comp_def]
    · have hs := hall 0 F[k] g (by rw [Nat.add_zero]; exact hget) rfl
      obtain ⟨r, hr⟩ := Option.isSome_iff_exists.mp hs
      simp only [batchLoop, updateAt, hget, hr, Option.map_some]
      refine (batchLoop_spec mk gs (k + 1) (b && r.1) (F.set k r.2) (by simp; omega)).2 fun j t g' h1 h2 => ?_
      rw [List.getElem?_set, if_neg (by omega)] at h1
      exact hall (j + 1) t g' (by rw [show k + (j + 1) = k + 1 + j by omega]; exact h1) (by simpa using h2)

/-- Every operation moves every tree along its projection, answers with the conjunction of the answers of the
trees, and panics exactly if a tree does. -/
theorem step_spec (F : List T) (op : Op L) (hl : ∀ l ∈ items op, ix l < F.length) :
    (∀ b F', step S ix dg F op = some (b, F') →
      ∃ as, Moved S (fun i => proj ix dg i op) F F' as ∧ b = conj F.length as) ∧
    ((∀ j t, F[j]? = some t → (Shard.run S t (proj ix dg j op)).isSome) → (step S ix dg F op).isSome) := by
  have single : ∀ (l : L) (h : ix l < F.length), F[ix l]? = some F[ix l] :=
    fun l h => List.getElem?_eq_getElem h
  have heach : ∀ (o : Forked.Op D) (sop : Shard D) (_ : ∀ t, sop.step S t = (S.step t o).map fun r => (true, r.2)),
      (∀ b F', (each S o F).map (fun F => (true, F)) = some (b, F') →
        ∃ as, Moved S (fun _ => [sop]) F F' as ∧ b = conj F.length as) ∧
      ((∀ (j : Nat) t, F[j]? = some t → (Shard.run S t [sop]).isSome) → ((each S o F).map (fun F => (true, F))).isSome) := by
    intro o sop hs
    obtain ⟨e1, e2⟩ := each_spec S o sop hs F
    refine ⟨fun b F' he => ?_, fun hall => ?_⟩
    · rw [Option.map_eq_some_iff] at he
      obtain ⟨F'', a1, a2⟩ := he
      cases a2
      exact ⟨_, e1 _ a1, by simp [conj]⟩
    · rw [Option.isSome_map]
      refine e2 fun t ht => ?_
      obtain ⟨j, hj⟩ := List.getElem?_of_mem ht
      exact hall j t hj
  have hbatch : ∀ (mk : List D → Forked.Op D) (sop : List D → Shard D) (ls : List L)
      (_ : ∀ l ∈ ls, ix l < F.length) (_ : ∀ ds t, (sop ds).step S t = S.step t (mk ds)),
      (∀ b F', ((sortItems ix F.length ls).bind fun gs => batchLoop S dg mk 0 gs true F) = some (b, F') →
        ∃ as, Moved S (fun i => [sop ((ls.filter fun l => ix l = i).map dg)]) F F' as ∧ b = conj F.length as) ∧
      ((∀ j t, F[j]? = some t → (Shard.run S t [sop ((ls.filter fun l => ix l = j).map dg)]).isSome) →
        ((sortItems ix F.length ls).bind fun gs => batchLoop S dg mk 0 gs true F).isSome) := by
    intro mk sop ls hls hs
    rw [sortItems_spec ix F.length ls hls, Option.bind_some]
    have hgs : ∀ j, j < F.length → ((List.range F.length).map fun i => ls.filter fun l => ix l = i)[j]? =
        some (ls.filter fun l => ix l = j) := fun j hj => by
      rw [List.getElem?_map, List.getElem?_range hj]; rfl
    obtain ⟨e1, e2⟩ := batchLoop_spec S dg mk ((List.range F.length).map fun i => ls.filter fun l => ix l = i) 0 true F
      (by simp)
    refine ⟨fun b F' he => ?_, fun hall => ?_⟩
    · obtain ⟨a1, _, as, a3, a4⟩ := e1 b F' he
      refine ⟨fun i => [as i], ⟨a1, fun i t hi => ?_⟩, ?_⟩
      · obtain ⟨t', g, b1, b2, b3⟩ := a3 i t (by rw [Nat.zero_add]; exact hi)
        have hlt : i < F.length := by
          rcases Nat.lt_or_ge i F.length with a | a
          · exact a
          · rw [List.getElem?_eq_none a] at hi; cases hi
        rw [hgs i hlt] at b1
        cases b1
        rw [Nat.zero_add] at b3
        refine ⟨t', ?_, b3⟩
        simp only [Shard.run, hs, b2, Option.bind_some, Option.map_some]
      · rw [a4]
        simp [conj]
    · refine e2 fun j t g h1 h2 => ?_
      rw [Nat.zero_add] at h1
      have hlt : j < F.length := by
        rcases Nat.lt_or_ge j F.length with a | a
        · exact a
        · rw [List.getElem?_eq_none a] at h1; cases h1
      rw [hgs j hlt] at h2
      cases h2
      have := hall j t h1
      simp only [Shard.run, hs] at this
      cases e : S.step t (mk ((ls.filter fun l => ix l = j).map dg)) with
      | none => simp [e] at this
      | some r => rfl
  cases op with
  | insert l =>
    exact updateAt_spec S (single l (hl l (by simp [items]))) (.insert (dg l)) _ rfl _ fun j => rfl
  | insertNon l =>
    exact updateAt_spec S (single l (hl l (by simp [items]))) (.insertNon (dg l)) _ rfl _ fun j => rfl
  | remove l =>
    exact updateAt_spec S (single l (hl l (by simp [items]))) (.remove (dg l)) _ rfl _ fun j => rfl
  | batch ls => exact hbatch .batchProvable .batch ls hl fun _ _ => rfl
  | batchNon ls => exact hbatch .batch .batchNon ls hl fun _ _ => rfl
  | prune => exact heach .prune .prune fun _ => rfl
  | rollback => exact heach .reset .rollback fun _ => rfl
  | commit => exact heach .merge .commit fun _ => rfl

end Forest

theorem Shard.run_append (S : TreeOps T D) : ∀ (xs ys : List (Shard D)) (t : T),
    Shard.run S t (xs ++ ys) =
      (Shard.run S t xs).bind fun p => (Shard.run S p.2 ys).map fun q => (p.1 ++ q.1, q.2)
  | [], ys, t => by simp [Shard.run]
  | x :: xs, ys, t => by
    simp only [List.cons_append, Shard.run]
    cases hx : x.step S t with
    | none => rfl
    | some r =>
      simp only [Option.bind_some, Shard.run_append S xs ys r.2]
      cases Shard.run S r.2 xs with
      | none => rfl
      | some p =>
        simp only [Option.bind_some, Option.map_some]
        cases Shard.run S p.2 ys with
        | none => rfl
        | some q => rfl

/-! ## C10 -/

/-- **C10, isolation.** For every index function within the width of the forest and every history, every tree
ends where the operations routed to it alone, in their order, would have taken it: other trees and the items
routed to them make no difference; and the forest panics exactly if one of its trees does. -/
theorem c10_isolated (S : TreeOps T D) (ix : L → Nat) (dg : L → D) : ∀ (ops : List (Forest.Op L)) (F : List T),
    (∀ op ∈ ops, ∀ l ∈ Forest.items op, ix l < F.length) →
    (∀ bs F', Forest.run S ix dg F ops = some (bs, F') → F'.length = F.length ∧
      ∀ i t, F[i]? = some t → ∃ as t', Shard.run S t (ops.flatMap (Forest.proj ix dg i)) = some (as, t') ∧
        F'[i]? = some t') ∧
    ((∀ i t, F[i]? = some t → (Shard.run S t (ops.flatMap (Forest.proj ix dg i))).isSome) →
      (Forest.run S ix dg F ops).isSome)
  | [], F, _ => by
    refine ⟨fun bs F' he => ?_, fun _ => rfl⟩
    cases he
    exact ⟨rfl, fun i t ht => ⟨[], t, rfl, ht⟩⟩
  | op :: ops, F, hl => by
    obtain ⟨s1, s2⟩ := Forest.step_spec S ix dg F op (hl op (List.mem_cons_self ..))
    refine ⟨fun bs F' he => ?_, fun hall => ?_⟩
    · simp only [Forest.run] at he
      rw [Option.bind_eq_some_iff] at he
      obtain ⟨⟨b, F1⟩, e1, e2⟩ := he
      rw [Option.map_eq_some_iff] at e2
      obtain ⟨⟨bs', F2⟩, e3, e4⟩ := e2
      cases e4
      obtain ⟨as, ⟨m1, m2⟩, _⟩ := s1 b F1 e1
      obtain ⟨i1, i2⟩ := (c10_isolated S ix dg ops F1 fun o ho l hlo => by
        rw [m1]; exact hl o (List.mem_cons_of_mem _ ho) l hlo).1 bs' F2 e3
      refine ⟨by simp only at i1 ⊢; rw [i1, m1], fun i t ht => ?_⟩
      obtain ⟨t1, a1, a2⟩ := m2 i t ht
      obtain ⟨as', t2, a3, a4⟩ := i2 i t1 a2
      refine ⟨as i ++ as', t2, ?_, a4⟩
      rw [List.flatMap_cons, Shard.run_append, a1, Option.bind_some]
      simp only [a3, Option.map_some]
    · have hstep := s2 fun i t ht => by
        have := hall i t ht
        rw [List.flatMap_cons, Shard.run_append] at this
        cases e : Shard.run S t (Forest.proj ix dg i op) with
        | none => rw [e] at this; cases this
        | some p => rfl
      obtain ⟨⟨b, F1⟩, e1⟩ := Option.isSome_iff_exists.mp hstep
      obtain ⟨as, ⟨m1, m2⟩, _⟩ := s1 b F1 e1
      have hrest := (c10_isolated S ix dg ops F1 fun o ho l hlo => by
        rw [m1]; exact hl o (List.mem_cons_of_mem _ ho) l hlo).2 fun i t1 ht1 => by
          have hlt : i < F.length := by
            rcases Nat.lt_or_ge i F.length with a | a
            · exact a
            · rw [List.getElem?_eq_none (by omega)] at ht1; cases ht1
          have hF : F[i]? = some F[i] := List.getElem?_eq_getElem hlt
          obtain ⟨t', a1, a2⟩ := m2 i F[i] hF
          rw [ht1] at a2
          cases a2
          have := hall i F[i] hF
          rw [List.flatMap_cons, Shard.run_append, a1, Option.bind_some, Option.isSome_map] at this
          exact this
      simp only [Forest.run, e1, Option.bind_some, Option.isSome_map]
      exact hrest

/-- **C10, answers.** A single insertion answers as its tree; a batch answers `true` exactly if every tree took
all of its items.  An item routed elsewhere changes nothing in a tree. -/
theorem c10_answers (S : TreeOps T D) (ix : L → Nat) (dg : L → D) (F : List T) (op : Forest.Op L)
    (hl : ∀ l ∈ Forest.items op, ix l < F.length) (b : Bool) (F' : List T)
    (hs : Forest.step S ix dg F op = some (b, F')) :
    (b = true ↔ ∀ i t, F[i]? = some t → ∀ as t', Shard.run S t (Forest.proj ix dg i op) = some (as, t') →
      ∀ a ∈ as, a = true) ∧
    ∀ i, Forest.proj ix dg i op = [] → F'[i]? = F[i]? := by
  obtain ⟨as, ⟨m1, m2⟩, hb⟩ := (Forest.step_spec S ix dg F op hl).1 b F' hs
  refine ⟨?_, fun i hi => ?_⟩
  · rw [hb]
    unfold Forest.conj
    rw [List.all_eq_true]
    constructor
    · intro hall i t ht as' t' hrun a ha
      have hlt : i < F.length := by
        rcases Nat.lt_or_ge i F.length with x | x
        · exact x
        · rw [List.getElem?_eq_none x] at ht; cases ht
      obtain ⟨t1, r1, _⟩ := m2 i t ht
      simp only at r1
      rw [hrun] at r1
      cases r1
      exact List.all_eq_true.mp (hall i (List.mem_range.mpr hlt)) a ha
    · intro hall i hi
      rw [List.mem_range] at hi
      obtain ⟨t1, r1, _⟩ := m2 i F[i] (List.getElem?_eq_getElem hi)
      exact List.all_eq_true.mpr fun a ha => hall i F[i] (List.getElem?_eq_getElem hi) _ t1 r1 a ha
  · rcases Nat.lt_or_ge i F.length with hlt | hge
    · obtain ⟨t1, r1, r2⟩ := m2 i F[i] (List.getElem?_eq_getElem hlt)
      simp only [hi, Shard.run, Option.some.injEq, Prod.mk.injEq] at r1
      rw [← r1.2] at r2
      rw [r2, List.getElem?_eq_getElem hlt]
    · rw [List.getElem?_eq_none hge, List.getElem?_eq_none (by omega)]

end Verif.Merkle
