import Verif.Settle.Forest

/-! # C113: the accumulator of the signer meets what signing and settling assume -/

set_option linter.unusedSectionVars false

namespace Verif.Settle

open Verif.Merkle
open Verif.Ledger (Ix)
open Verif.Sign (Laws)

variable {D N : Type} [DecidableEq D] [DecidableEq N] {G : Grove D N}

/-! ## Positions -/

theorem LeafMap.position_isSome (m : LeafMap D) (d : D) :
    (m.position d).isSome = true ↔ ∃ i, i < m.next ∧ m.get i = some d := by
  constructor
  · intro hs
    obtain ⟨i, hi⟩ := Option.isSome_iff_exists.mp hs
    exact ⟨i, LeafMap.position_spec hi⟩
  · rintro ⟨i, h1, h2⟩
    cases hp : m.position d with
    | some j => rfl
    | none => exact absurd h2 (LeafMap.position_none hp i h1)

theorem LeafMap.position_push (m : LeafMap D) (d x : D) :
    ((m.push d).position x).isSome = true ↔ (m.position x).isSome = true ∨ x = d := by
  have hn : (m.push d).next = m.next + 1 := rfl
  have hg : ∀ i, (m.push d).get i = if i = m.next then some d else m.get i := by
    intro i
    simp only [LeafMap.push, LeafMap.get]
    split <;> rfl
  rw [LeafMap.position_isSome, LeafMap.position_isSome, hn]
  constructor
  · rintro ⟨i, h1, h2⟩
    rw [hg] at h2
    by_cases hi : i = m.next
    · rw [if_pos hi] at h2; exact .inr (Option.some.inj h2).symm
    · rw [if_neg hi] at h2; exact .inl ⟨i, by omega, h2⟩
  · rintro (⟨i, h1, h2⟩ | rfl)
    · exact ⟨i, by omega, by rw [hg, if_neg (by omega)]; exact h2⟩
    · exact ⟨m.next, by omega, by rw [hg, if_pos rfl]⟩

theorem Partial.position_isSome (t : Partial D N) (d : D) : (t.position d).isSome = (t.leaf.position d).isSome := by
  unfold Partial.position
  rw [Option.isSome_map]

/-- Positions after an insertion. -/
theorem position_pushProvable (H : Hash D N) (h : Nat) (t : Partial D N) (d x : D) :
    (((t.pushProvable H h d).2).position x).isSome = true ↔
      (t.position x).isSome = true ∨ (x = d ∧ (t.pushProvable H h d).1 = true) := by
  unfold Partial.pushProvable
  split
  · simp
  · rw [Partial.position_isSome, Partial.position_isSome]
    simp only [Partial.pushLeaf, and_true]
    exact LeafMap.position_push _ _ _

/-! ## Insertion -/

theorem grow_digests {h : Nat} (q : FRef D) (hc : q.base.length + q.pend.length ≤ 2 ^ (h + 1)) (d : D) (b : Bool) :
    (q.grow h (if b then .pushProvable d else .push d)).2.base = q.base ∧
    (q.grow h (if b then .pushProvable d else .push d)).2.digests =
      if q.digests.length < 2 ^ (h + 1) then q.digests ++ [d] else q.digests := by
  obtain ⟨e1, e2⟩ := (FRef.grow_leaves h q hc).1 d b
  refine ⟨e1, ?_⟩
  have hl : q.digests.length = q.base.length + q.pend.length := by simp [FRef.digests]
  rw [FRef.digests, e1, e2, hl]
  split
  · rw [List.take_of_length_le (by simp; omega)]
    simp [FRef.digests]
  · rw [List.take_append_of_le_length (by omega), List.take_of_length_le (by omega)]
    rfl

/-- Insertion of a leaf keeps a branch up to date, and brings it up to date. -/
theorem grow_ok {h : Nat} (q : FRef D) (d : D) :
    (q.ok = true → (q.grow h (.pushProvable d)).2.ok = true) ∧
    ((q.base ++ q.pend).length < 2 ^ (h + 1) → (q.grow h (.pushProvable d)).2.ok = true) := by
  simp only [FRef.grow, PRef.step]
  by_cases hlt : (q.base ++ q.pend).length < 2 ^ (h + 1)
  · simp only [if_pos hlt, implies_true, and_self]
  · simp only [if_neg hlt]
    exact ⟨id, fun h => absurd h hlt⟩

theorem Acc.insert_view (a : Acc G) (l : D) : (a.insert l).2.view = fun i =>
    if (a.view (G.ix l)).length < 2 ^ (G.h + 1) then
      if i = G.ix l then a.view (G.ix l) ++ [l] else a.view i
    else a.view i := by
  funext i
  have h2 := (grow_digests (a.ref (G.ix l)) (a.cap _) l true).2
  simp only [if_true] at h2
  by_cases hi : i = G.ix l
  · subst hi
    simp only [Acc.view, Acc.insert, Acc.put, if_true, h2]
  · simp only [Acc.view, Acc.insert, Acc.put, if_neg hi, ite_self]

theorem Acc.insert_answer (a : Acc G) (l : D) (hc : G.Clear ((a.ref (G.ix l)).base.map Prod.fst)) :
    (a.insert l).1 = true ↔ (a.view (G.ix l)).length < 2 ^ (G.h + 1) := by
  obtain ⟨h1, _⟩ := (a.rel (G.ix l) hc).observe G.H G.h G.base
  have hl : (a.view (G.ix l)).length = (a.tree (G.ix l)).branch.data.len := by
    have : (a.tree (G.ix l)).branch.data.len = _ := h1
    rw [this]; simp [Acc.view, FRef.digests]
  rw [hl]
  simp only [Acc.insert, Partial.pushProvable]
  by_cases hc : (a.tree (G.ix l)).branch.data.len ≥ capacity G.h
  · rw [if_pos hc]; unfold capacity at hc; simp; omega
  · rw [if_neg hc]; unfold capacity at hc; simp; omega

theorem Acc.insert_contains (a : Acc G) (l x : D) (hx : a.contains x = true) : (a.insert l).2.contains x = true := by
  unfold Acc.contains at hx ⊢
  by_cases hi : G.ix x = G.ix l
  · have hb := (grow_digests (a.ref (G.ix l)) (a.cap _) l true).1
    simp only [if_true] at hb
    simp only [Acc.insert, Acc.put, if_pos hi, Forked.withData, hb]
    rw [Bool.and_eq_true, Bool.and_eq_true, Bool.or_eq_true] at hx ⊢
    obtain ⟨⟨hcl, hok⟩, hx⟩ := hx
    refine ⟨⟨by rw [← hi]; exact hcl, (grow_ok _ l).1 (by rw [← hi]; exact hok)⟩, ?_⟩
    rcases hx with hx | hx
    · left
      rw [position_pushProvable]
      left
      rw [← hi]; exact hx
    · right
      rw [← hi]; exact hx
  · simp only [Acc.insert, Acc.put, if_neg hi]
    exact hx

theorem Acc.insert_has (a : Acc G) (l : D) (hc : G.Clear ((a.ref (G.ix l)).base.map Prod.fst)) (hl : (a.insert l).1 = true) :
    (a.insert l).2.contains l = true := by
  have hlt := (a.insert_answer l hc).mp hl
  have hb := (grow_digests (a.ref (G.ix l)) (a.cap _) l true).1
  simp only [if_true] at hb
  unfold Acc.contains
  rw [Bool.and_eq_true, Bool.and_eq_true, Bool.or_eq_true]
  simp only [Acc.insert, Acc.put, if_true, Forked.withData, hb]
  refine ⟨⟨decide_eq_true hc, (grow_ok _ l).2 ?_⟩, .inl ?_⟩
  · simpa [Acc.view, FRef.digests] using hlt
  rw [position_pushProvable]
  exact .inr ⟨rfl, hl⟩

/-! ## Rollback -/

theorem Acc.ext' {a b : Acc G} (h1 : a.tree = b.tree) (h2 : a.ref = b.ref) : a = b := by
  cases a; cases b; cases h1; cases h2; rfl

theorem Acc.rollback_eq {a b : Acc G} (h1 : ∀ i, (a.tree i).base = (b.tree i).base)
    (h2 : ∀ i, (a.ref i).base = (b.ref i).base) : a.rollback = b.rollback := by
  refine Acc.ext' (funext fun i => ?_) (funext fun i => ?_)
  · simp only [Acc.rollback, Acc.each, Forked.step, Forked.reset, h1 i]
  · simp only [Acc.rollback, Acc.each, FRef.step, Option.map_some, Option.getD_some, h2 i]

theorem Acc.insert_undo (a : Acc G) (l : D) : (a.insert l).2.rollback = a.rollback := by
  have hb := (grow_digests (a.ref (G.ix l)) (a.cap _) l true).1
  simp only [if_true] at hb
  refine Acc.rollback_eq (fun i => ?_) fun i => ?_
  · simp only [Acc.insert, Acc.put]
    split
    · rename_i hi; subst hi; rfl
    · rfl
  · simp only [Acc.insert, Acc.put]
    split
    · rename_i hi; subst hi; exact hb
    · rfl

theorem new_base {t : Partial D N} {f : Forked (Partial D N) D N}
    (e : Forked.new (partialBase G.H G.h) G.H G.h G.K t = some f) : f.base = t := by
  unfold Forked.new at e
  rw [Option.map_eq_some_iff] at e
  obtain ⟨b, _, rfl⟩ := e
  rfl

/-- Rolling back twice does as much as once. -/
theorem Acc.rollback_rollback (a : Acc G) : a.rollback.rollback = a.rollback := by
  refine Acc.rollback_eq (fun i => ?_) fun i => rfl
  simp only [Acc.rollback, Acc.each, Forked.step, Forked.reset]
  cases e : Forked.new (partialBase G.H G.h) G.H G.h G.K (a.tree i).base with
  | none => rfl
  | some f => exact new_base e

/-- After a commit there is nothing to roll back. -/
theorem Acc.rollback_commit (a : Acc G) (hc : a.commit.Clear) : a.commit.rollback = a.commit := by
  refine Acc.ext' (funext fun i => ?_) (funext fun i => ?_)
  · obtain ⟨f, _, e1, _⟩ := a.all_step .merge (.inr (.inl rfl)) hc i
    have hc : a.commit.tree i = f := by simp only [Acc.commit, Acc.each, e1, Option.map_some, Option.getD_some]
    simp only [Forked.step, Forked.merge, Option.map_eq_some_iff, Option.bind_eq_some_iff] at e1
    obtain ⟨f', ⟨ds, _, t, _, e2⟩, e3⟩ := e1
    have hf : f' = f := congrArg Prod.snd e3
    subst hf
    have hb := new_base e2
    simp only [Acc.rollback, Acc.each, hc, Forked.step, Forked.reset, hb, e2, Option.map_some, Option.getD_some]
  · simp only [Acc.rollback, Acc.commit, Acc.each, FRef.step, if_pos (a.cap i), Option.map_some, Option.getD_some]
    rfl

/-! ## Proofs -/

/-- What is contained has a proof that verifies for the root of its shard. -/
theorem Acc.prove_spec (a : Acc G) (l : D) (hl : a.contains l = true) :
    ∃ p, (a.tree (G.ix l)).prove G.H G.h l = some (some p) ∧
      (a.tree (G.ix l)).root G.H = specRoot G.H G.h (a.view (G.ix l)) ∧
      l ∈ a.view (G.ix l) ∧ p.verify G.H (specRoot G.H G.h (a.view (G.ix l))) l = true ∧ p.path.length = G.h := by
  generalize hi : G.ix l = i at *
  unfold Acc.contains at hl
  rw [hi, Bool.and_eq_true, Bool.and_eq_true] at hl
  obtain ⟨⟨hcl, hok⟩, hl⟩ := hl
  have hr := a.rel i (of_decide_eq_true hcl)
  have hd := Branch.ref_digests ((a.ref i).base.map Prod.fst) (a.ref i).pend (a.ref i).ok
  have key : ∃ j, (a.tree i).position l = some j ∧ (a.ref i).digests[j]? = some l ∧
      (j < Branch.startOf (a.ref i).base.length → (a.ref i).base[j]? = some (l, true)) := by
    unfold Forked.position
    cases hb : (a.tree i).branch.data.position l with
    | some j =>
      obtain ⟨p1, _, p2⟩ := hr.data.position_some G.H G.h hb
      rw [hd] at p2
      exact ⟨j, rfl, p2, fun hlt => by omega⟩
    | none =>
      rw [hb] at hl
      cases hp : (a.tree i).base.position l with
      | none => rw [hp] at hl; cases hl
      | some j =>
        rw [hp] at hl
        simp only [Option.isSome_none, Bool.false_or, decide_eq_true_eq] at hl
        refine ⟨j, rfl, ?_, fun _ => hl⟩
        have hlt : j < (a.ref i).base.length := by
          rcases Nat.lt_or_ge j (a.ref i).base.length with x | x
          · exact x
          · rw [List.getElem?_eq_none x] at hl; cases hl
        unfold FRef.digests
        rw [List.getElem?_append_left (by simpa using hlt), List.getElem?_map, hl]
        rfl
  obtain ⟨j, k1, k2, k3⟩ := key
  have hlt : j < (a.ref i).digests.length := by
    rcases Nat.lt_or_ge j (a.ref i).digests.length with x | x
    · exact x
    · rw [List.getElem?_eq_none x] at k2; cases k2
  obtain ⟨_, _, o3⟩ := hr.observe G.H G.h G.base
  have hcap := a.cap i
  have hlen : (a.ref i).digests.length = (a.ref i).base.length + (a.ref i).pend.length := by simp [FRef.digests]
  refine ⟨specPath G.H G.h (a.ref i).digests j, ?_, (o3 hok).1, List.mem_of_getElem? k2, ?_, by simp [specPath]⟩
  · unfold Forked.prove
    rw [k1]
    have hdata := hr.data
    rw [hok] at hdata
    exact Branch.path_spec G.H G.h (G.base.right hr.base (of_decide_eq_true hcl).all) (b := (a.tree i).branch) (pend := (a.ref i).pend) (K := G.K)
      (by rw [List.length_map]; exact hdata) hlt (fun hs => by
        rw [List.length_map] at hs
        exact ⟨l, k3 hs⟩)
  · have hs := specPath_root G.H G.h hlt (by omega)
    rw [k2] at hs
    unfold Path.verify
    exact decide_eq_true hs.symm

/-! ## Room -/

theorem le_foldr_min (n c : Nat) : ∀ l : List Nat, n ≤ l.foldr min c ↔ n ≤ c ∧ ∀ x ∈ l, n ≤ x
  | [] => by simp
  | x :: l => by
    rw [List.foldr_cons, Nat.le_min, le_foldr_min n c l]
    simp only [List.mem_cons, forall_eq_or_imp]
    exact ⟨fun h => ⟨h.2.1, h.1, h.2.2⟩, fun h => ⟨h.2.1, h.1, h.2.2⟩⟩

theorem Acc.le_free (a : Acc G) (hc : a.Clear) (n : Nat) :
    n ≤ a.free ↔ n ≤ 2 ^ (G.h + 1) ∧ ∀ i, n ≤ 2 ^ (G.h + 1) - (a.view i).length := by
  unfold Acc.free
  rw [if_neg (not_not_intro hc), le_foldr_min]
  simp only [List.mem_ofFn, forall_exists_index, forall_apply_eq_imp_iff]

theorem Acc.free_clear (a : Acc G) (h0 : 0 < a.free) : a.Clear := by
  unfold Acc.free at h0
  by_cases hc : a.Clear
  · exact hc
  · rw [if_pos hc] at h0; cases h0

theorem Acc.insert_clear (a : Acc G) (l : D) (hc : a.Clear) : (a.insert l).2.Clear := by
  intro i
  have hb := (grow_digests (a.ref (G.ix l)) (a.cap _) l true).1
  simp only [if_true] at hb
  by_cases hi : i = G.ix l
  · subst hi; simp only [Acc.insert, Acc.put, if_true, hb]; exact hc _
  · simp only [Acc.insert, Acc.put, if_neg hi]; exact hc _

theorem Acc.insert_room (a : Acc G) (l : D) (h0 : 0 < a.free) :
    (a.insert l).1 = true ∧ a.free ≤ (a.insert l).2.free + 1 := by
  have hc := a.free_clear h0
  obtain ⟨f1, f2⟩ := (a.le_free hc a.free).mp (Nat.le_refl _)
  have hlt : (a.view (G.ix l)).length < 2 ^ (G.h + 1) := by have := f2 (G.ix l); omega
  refine ⟨(a.insert_answer l (hc _)).mpr hlt, ?_⟩
  have : a.free - 1 ≤ (a.insert l).2.free := by
    rw [Acc.le_free _ (a.insert_clear l hc)]
    refine ⟨by omega, fun i => ?_⟩
    rw [a.insert_view l]
    simp only [if_pos hlt]
    have := f2 i
    split
    · rename_i hi
      subst hi
      rw [List.length_append, List.length_singleton]
      omega
    · omega
  omega

end Verif.Settle
