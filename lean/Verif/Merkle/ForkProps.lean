import Verif.Merkle.ForkBase

/-! # Forked trees: C08 and C09 -/

namespace Verif.Merkle

variable {D N : Type} (H : Hash D N) (h : Nat)

namespace Forked

/-- Operations on the branch. -/
def Op.onBranch : Op D → Bool
  | .reset | .merge | .prune => false
  | _ => true

/-- Single appends; the flag asks for a proof. -/
def append (x : D × Bool) : Op D := if x.2 then .pushProvable x.1 else .push x.1

variable {T : Type} (I : Base T D N)

theorem step_base {K : Kind} {f f' : Forked T D N} {op : Op D} {b : Bool} (ho : op.onBranch = true)
    (hs : f.step I H h K op = some (b, f')) : f'.base = f.base := by
  cases op <;> simp only [Op.onBranch, Bool.false_eq_true] at ho <;> simp only [Forked.step] at hs
  case push => cases hs; rfl
  case pushProvable => cases hs; rfl
  all_goals
    rw [Option.map_eq_some_iff] at hs
    obtain ⟨r, _, e⟩ := hs
    cases e
    rfl

theorem run_base {K : Kind} : ∀ (ops : List (Op D)) {f f' : Forked T D N} {bs : List Bool},
    ops.all Op.onBranch = true → f.run I H h K ops = some (bs, f') → f'.base = f.base
  | [], f, f', bs, _, hr => by cases hr; rfl
  | op :: ops, f, f', bs, ho, hr => by
    rw [List.all_cons, Bool.and_eq_true] at ho
    simp only [Forked.run] at hr
    rw [Option.bind_eq_some_iff] at hr
    obtain ⟨⟨b, f1⟩, e1, e2⟩ := hr
    rw [Option.map_eq_some_iff] at e2
    obtain ⟨⟨bs', f2⟩, e3, e4⟩ := e2
    cases e4
    rw [run_base ops ho.2 e3]
    exact step_base H h I ho.1 e1

end Forked

/-! ## The reference -/

namespace FRef

variable (keep : Bool → Bool) (room : Nat)

theorem step_provable {q q' : FRef D} {op : Forked.Op D} {b : Bool} (hall : q.base.all (·.2) = true)
    (hs : q.step h (fun _ => true) room op = some (b, q')) : q'.base.all (·.2) = true := by
  cases op with
  | push d => cases hs; exact hall
  | pushProvable d => cases hs; exact hall
  | batch ds => cases hs; exact hall
  | batchProvable ds => cases hs; exact hall
  | remove i =>
    simp only [FRef.step] at hs
    split at hs
    · cases hs
    · split at hs
      · cases hs; exact hall
      · split at hs
        · cases hs; exact hall
        · cases hs; exact hall
  | reset => cases hs; exact hall
  | merge =>
    simp only [FRef.step] at hs
    split at hs
    · cases hs
      simp only [fresh, List.all_append, hall, Bool.true_and, List.all_map, List.all_eq_true, Function.comp_apply]
      intro x hx
      trivial
    · cases hs
  | prune => cases hs; exact hall

theorem run_provable : ∀ (ops : List (Forked.Op D)) {q q' : FRef D} {bs : List Bool}, q.base.all (·.2) = true →
    q.run h (fun _ => true) room ops = some (bs, q') → q'.base.all (·.2) = true
  | [], q, q', bs, ha, hr => by cases hr; exact ha
  | op :: ops, q, q', bs, ha, hr => by
    simp only [FRef.run] at hr
    rw [Option.bind_eq_some_iff] at hr
    obtain ⟨⟨b, f1⟩, e1, e2⟩ := hr
    rw [Option.map_eq_some_iff] at e2
    obtain ⟨⟨bs', f2⟩, e3, e4⟩ := e2
    cases e4
    exact run_provable ops (step_provable h room ha e1) e3

/-- Single appends that fit. -/
theorem run_appends : ∀ (es : List (D × Bool)) {q : FRef D}, q.ok = true →
    q.base.length + q.pend.length + es.length ≤ 2 ^ (h + 1) →
    q.run h keep room (es.map Forked.append) = some (List.replicate es.length true, ⟨q.base, q.pend ++ es, true⟩)
  | [], q, hok, _ => by
    obtain ⟨b, p, ok⟩ := q
    simp only at hok
    subst hok
    simp [FRef.run]
  | e :: es, q, hok, hc => by
    simp only [List.length_cons] at hc
    have hstep : q.step h keep room (Forked.append e) = some (true, ⟨q.base, q.pend ++ [e], true⟩) := by
      obtain ⟨d, b⟩ := e
      unfold Forked.append
      have hlt : (q.base ++ q.pend).length < 2 ^ (h + 1) := by rw [List.length_append]; omega
      cases b
      · simp only [Bool.false_eq_true, if_false, FRef.step, FRef.grow, PRef.step, if_pos hlt, List.append_assoc]
        rw [List.drop_append]
        simp
      · simp only [if_true, FRef.step, FRef.grow, PRef.step, if_pos hlt, List.append_assoc]
        rw [List.drop_append]
        simp
    have ih := run_appends es (q := ⟨q.base, q.pend ++ [e], true⟩) rfl (by
      simp only [List.length_append, List.length_singleton]; omega)
    simp only [List.map_cons, FRef.run, hstep, Option.bind_some, ih, Option.map_some, List.append_assoc]
    simp [List.replicate_succ]

end FRef

/-! ## C08 -/

/-- **C08, the trunk.** No history of operations on the branch changes the trunk, whatever the trunk is. -/
theorem c08_trunk_untouched {T : Type} (I : Base T D N) (K : Kind) (ops : List (Forked.Op D))
    (ho : ops.all Forked.Op.onBranch = true) (f f' : Forked T D N) (bs : List Bool)
    (hr : f.run I H h K ops = some (bs, f')) : f'.base = f.base :=
  Forked.run_base H h I ops ho hr

/-- A history of the branch does not commit. -/
theorem FRef.clear_onBranch (keep : Bool → Bool) (room : Nat) : ∀ (ops : List (Forked.Op D)),
    ops.all Forked.Op.onBranch = true → ∀ q : FRef D, q.Clear H h keep room ops
  | [], _, _ => trivial
  | op :: ops, ho, q => by
    rw [List.all_cons, Bool.and_eq_true] at ho
    exact ⟨fun e => by rw [e] at ho; exact absurd ho.1 Bool.false_ne_true, fun _ q' _ => clear_onBranch keep room ops ho.2 q'⟩

/-- **C08, rollback.** Resetting after any history of operations on the branch gives exactly the state that
resetting before them would have given, and resetting twice is the same as resetting once. -/
theorem c08_reset {T : Type} (I : Base T D N) (K : Kind) (ops : List (Forked.Op D))
    (ho : ops.all Forked.Op.onBranch = true) (f f' : Forked T D N) (bs : List Bool)
    (hr : f.run I H h K ops = some (bs, f')) :
    f'.reset I H h K = f.reset I H h K ∧
    ∀ g, f'.reset I H h K = some g → g.base = f.base ∧ g.reset I H h K = some g := by
  have hb := Forked.run_base H h I ops ho hr
  refine ⟨by unfold Forked.reset; rw [hb], fun g hg => ?_⟩
  have hg' := hg
  unfold Forked.reset Forked.new at hg
  rw [Option.map_eq_some_iff] at hg
  obtain ⟨b, e1, e2⟩ := hg
  cases e2
  refine ⟨hb, ?_⟩
  unfold Forked.reset Forked.new at hg' ⊢
  exact hg'

/-- The reference of a trunk without pending leaves. -/
theorem digests_fresh (r : List (D × Bool)) : (FRef.fresh r).digests = r.map Prod.fst := by
  simp [FRef.digests, FRef.fresh]

/-- **C08, over full trees (partial).** Over a nonempty full tree, after any history of the branch, resetting
works and gives the length, the root and every path of the trunk.  Missing: the empty trunk and trees of height
two, see `c08_empty_violated` and `c08_height_two_violated`; trunks with an inner node that is the default digest (`c11_needs_nondefault`). -/
theorem c08_full_partial [DecidableEq N] (h1 : 1 ≤ h) (K : Kind) (ds : List D) (hne : ds ≠ [])
    (hd : NonDefaultOn H h (ds.take (2 ^ (h + 1)))) (ops : List (Forked.Op D)) (ho : ops.all Forked.Op.onBranch = true) :
    let t := (Full.new : Full D N).pushAll H h ds
    ∃ f, Forked.new (fullBase H h) H h K t = some f ∧
      ∀ bs f', f.run (fullBase H h) H h K ops = some (bs, f') →
        ∃ g, f'.reset (fullBase H h) H h K = some g ∧ g.base = t ∧ g.len = t.len ∧ g.root H = t.root H ∧
          ∀ i, g.path (fullBase H h) H h i = some (t.path H h i) := by
  simp only
  obtain ⟨hi, hl⟩ := Full.pushAll_spec H h ds (Full.inv_new (D := D) (N := N) H h)
  have hdl : NonDefaultOn H h ((Full.new : Full D N).pushAll H h ds).leaves := by
    rw [hl]; simpa [Full.new, capacity] using hd
  generalize (Full.new : Full D N).pushAll H h ds = t at *
  have hlne : t.leaves ≠ [] := by
    have hp := Nat.two_pow_pos (h + 1)
    have hq := List.length_pos_iff.mpr hne
    intro he
    rw [he] at hl
    have := congrArg List.length hl
    simp only [Full.new, List.length_nil, List.nil_append, List.length_take, capacity] at this
    omega
  have hg : Full.G H h t (t.leaves.map (·, true)) := ⟨hi.weak, by simp [Function.comp_def]⟩
  obtain ⟨f, e1, hr⟩ := Forked.Rel.new H h h1 (fullBase_ok H h) hg (by simpa [Function.comp_def] using hdl) (K := K)
  refine ⟨f, e1, fun bs f' hrun => ⟨f, ?_, ?_, ?_⟩⟩
  · have hb := Forked.run_base H h _ ops ho hrun
    have hfb : f.base = t := by
      unfold Forked.new at e1
      rw [Option.map_eq_some_iff] at e1
      obtain ⟨b, _, e⟩ := e1
      cases e
      rfl
    unfold Forked.reset
    rw [hb, hfb]
    exact e1
  · unfold Forked.new at e1
    rw [Option.map_eq_some_iff] at e1
    obtain ⟨b, _, e⟩ := e1
    cases e
    rfl
  · obtain ⟨o1, o2, o3⟩ := hr.observe H h (fullBase_ok H h)
    have hdig : (FRef.fresh (t.leaves.map (·, true))).digests = t.leaves := by
      rw [digests_fresh]; simp [Function.comp_def]
    obtain ⟨o4, o5⟩ := o3 (decide_eq_true (by simpa using hlne))
    rw [hdig] at o4 o5
    refine ⟨by rw [o1]; simp [FRef.fresh, Full.len], by rw [o4, hi.root], fun i => ?_⟩
    have hpos := List.length_pos_iff.mpr hlne
    by_cases hlt : i < t.leaves.length
    · have := (o5 i t.leaves[i] (.inl (by
        simp only [FRef.fresh, List.getElem?_map, List.getElem?_eq_getElem hlt, Option.map_some]))).2.1
      rw [this, hi.path H h hlt]
    · rw [o2 i (by omega) (by simp [FRef.fresh]; omega)]
      unfold Full.path Full.len
      rw [if_pos (by omega)]

/-- **C08, over partial trees (partial).** The same over a partial tree with any history whose last growth was a
single append or an aligned batch: length, root and the paths of the leaves whose proofs are wanted are those of
the trunk.  Missing: as in `c08_full_partial`, and misaligned batches (`c06_violated`). -/
theorem c08_pruned_partial [DecidableEq N] (h1 : 1 ≤ h) (K K' : Kind) (trunk : List (POp D))
    (hd : NonDefaultOn H h ((PRef.after h trunk).leaves.map Prod.fst)) (hok : (PRef.after h trunk).ok = true) (hne : (PRef.after h trunk).leaves ≠ [])
    (ops : List (Forked.Op D)) (ho : ops.all Forked.Op.onBranch = true) :
    ∃ as t f, (Partial.new K' : Partial D N).run H h trunk = some (as, t) ∧
      Forked.new (partialBase H h) H h K t = some f ∧
      ∀ bs f', f.run (partialBase H h) H h K ops = some (bs, f') →
        ∃ g, f'.reset (partialBase H h) H h K = some g ∧ g.base = t ∧ g.len = t.len ∧ g.root H = t.root H ∧
          ∀ i d, (PRef.after h trunk).leaves[i]? = some (d, true) →
            g.path (partialBase H h) H h i = some (t.path H h i) := by
  obtain ⟨t, t1, hr0⟩ := Partial.Rel.run H h id id trunk (Partial.rel_new (N := N) H h K' true)
  obtain ⟨t', t1', _, t3⟩ := c06_partial (N := N) H h K' trunk
  rw [t1] at t1'
  cases t1'
  have hg : Partial.G H h K' t (PRef.after h trunk).leaves := ⟨_, hr0.weaken H h⟩
  obtain ⟨f, e1, hr⟩ := Forked.Rel.new H h h1 (partialBase_ok H h K') hg hd (K := K)
  have hfb : f.base = t := by
    unfold Forked.new at e1
    rw [Option.map_eq_some_iff] at e1
    obtain ⟨b, _, e⟩ := e1
    cases e
    rfl
  refine ⟨_, t, f, t1, e1, fun bs f' hrun => ⟨f, ?_, hfb, ?_⟩⟩
  · have hb := Forked.run_base H h _ ops ho hrun
    unfold Forked.reset
    rw [hb, hfb]
    exact e1
  · obtain ⟨o1, o2, o3⟩ := hr.observe H h (partialBase_ok H h K')
    obtain ⟨o4, o5⟩ := o3 (decide_eq_true hne)
    rw [digests_fresh] at o4 o5
    obtain ⟨t4, t5⟩ := t3 hok
    refine ⟨by rw [o1, hg.len]; simp [FRef.fresh], by rw [o4, t4]; rfl, fun i d hi => ?_⟩
    rw [(o5 i d (.inl hi)).2.1, (t5 i d hi).2.1]
    rfl

/-! ## C09 -/

/-- **C09, over full trees (partial).** Over a full tree every history of branch operations, resets, commits and
prunes answers as the reference, which keeps the plain sequences of committed and pending leaves, and panics
exactly when the reference says so: on removing a leaf below the window of the branch and on a commit that fills
the tree exactly.  The trunk holds the committed leaves; and if the last growth was a single append, an aligned
batch, or a reset or commit leaving a nonempty trunk, length, root and all paths are those of the plain full
tree of committed and pending leaves.  Missing: misaligned batches, empty branches, height two, and commits
of leaves with an inner node above them that is the default digest. -/
theorem c09_full_partial [DecidableEq N] (h1 : 1 ≤ h) (K : Kind) (ds : List D)
    (hc : ds.length ≤ 2 ^ (h + 1)) (ops : List (Forked.Op D)) (hd : NonDefaultOn H h ds)
    (hcl : (FRef.fresh (ds.map (·, true))).Clear H h (fun _ => true) (2 ^ (h + 1) - 1) ops) :
    ∃ f, Forked.new (fullBase H h) H h K ((Full.new : Full D N).pushAll H h ds) = some f ∧
      match (FRef.fresh (ds.map (·, true))).run h (fun _ => true) (2 ^ (h + 1) - 1) ops with
      | none => f.run (fullBase H h) H h K ops = none
      | some (bs, q) => ∃ f', f.run (fullBase H h) H h K ops = some (bs, f') ∧
          f'.base.leaves = q.base.map Prod.fst ∧
          f'.len = q.digests.length ∧
          (q.ok = true →
            f'.root H = ((Full.new : Full D N).pushAll H h q.digests).root H ∧
            ∀ i, i < q.digests.length →
              f'.path (fullBase H h) H h i = some (((Full.new : Full D N).pushAll H h q.digests).path H h i)) := by
  obtain ⟨hi, hl⟩ := Full.pushAll_spec H h ds (Full.inv_new (D := D) (N := N) H h)
  have htake : ds.take (capacity h - (Full.new : Full D N).leaves.length) = ds :=
    List.take_of_length_le (by simp [Full.new, capacity]; exact hc)
  rw [htake] at hl
  have hl : ((Full.new : Full D N).pushAll H h ds).leaves = ds := by rw [hl]; simp [Full.new]
  generalize (Full.new : Full D N).pushAll H h ds = t at *
  have hg : Full.G H h t (ds.map (·, true)) := ⟨hi.weak, by rw [hl]; simp [Function.comp_def]⟩
  obtain ⟨f, e1, hr⟩ := Forked.Rel.new H h h1 (fullBase_ok H h) hg (by simpa [Function.comp_def] using hd) (K := K)
  refine ⟨f, e1, ?_⟩
  have hrun := Forked.Rel.run H h h1 (fullBase_ok H h) ops hr hcl
  have hprov : ∀ bs q, (FRef.fresh (ds.map (·, true))).run h (fun _ => true) (2 ^ (h + 1) - 1) ops = some (bs, q) →
      q.base.all (·.2) = true := fun bs q e => FRef.run_provable h _ ops (by simp [FRef.fresh]) e
  split
  · rename_i e
    rw [e] at hrun
    exact hrun
  · rename_i bs q e
    rw [e] at hrun
    obtain ⟨f', g1, g2⟩ := hrun
    have hall := hprov bs q e
    obtain ⟨o1, o2, o3⟩ := g2.observe H h (fullBase_ok H h)
    have hlq : q.digests.length = q.base.length + q.pend.length := by simp [FRef.digests]
    refine ⟨f', g1, g2.base.2, by rw [o1, hlq], fun hok => ?_⟩
    obtain ⟨o4, o5⟩ := o3 hok
    have hcap : q.digests.length ≤ 2 ^ (h + 1) := by
      have := g2.data.store.cap
      rw [Branch.ref_digests, List.length_append, List.length_map, List.length_map] at this
      rw [hlq]; exact this
    obtain ⟨pi, pl⟩ := Full.pushAll_spec H h q.digests (Full.inv_new (D := D) (N := N) H h)
    rw [List.take_of_length_le (by simp [Full.new, capacity]; exact hcap)] at pl
    have pl : ((Full.new : Full D N).pushAll H h q.digests).leaves = q.digests := by rw [pl]; simp [Full.new]
    refine ⟨by rw [o4, pi.root, pl], fun i hlt => ?_⟩
    rw [pi.path H h (by rw [pl]; exact hlt), pl]
    refine (o5 i q.digests[i] ?_).2.1
    by_cases hib : i < q.base.length
    · left
      have hx := List.all_eq_true.mp hall q.base[i] (List.getElem_mem hib)
      rw [List.getElem?_eq_getElem hib]
      have : q.digests[i] = q.base[i].1 := by
        simp only [FRef.digests]
        rw [List.getElem_append_left (by simpa using hib), List.getElem_map]
      rw [this, ← hx]
    · exact .inr ⟨by omega, List.getElem?_eq_getElem hlt⟩

/-- **C09, over partial trees (partial).** The same for partial trees with any history, committed with markings:
the paths of pending leaves and of committed leaves whose proofs are wanted are those of the plain full tree,
and they verify.  Commits may fill the tree.  Missing: as for full trees. -/
theorem c09_pruned_partial [DecidableEq N] (h1 : 1 ≤ h) (K K' : Kind) (trunk : List (POp D))
    (ops : List (Forked.Op D)) (hd : NonDefaultOn H h ((PRef.after h trunk).leaves.map Prod.fst))
    (hcl : (FRef.fresh (PRef.after h trunk).leaves).Clear H h id (2 ^ (h + 1)) ops) :
    ∃ as t f, (Partial.new K' : Partial D N).run H h trunk = some (as, t) ∧
      Forked.new (partialBase H h) H h K t = some f ∧
      match (FRef.fresh (PRef.after h trunk).leaves).run h id (2 ^ (h + 1)) ops with
      | none => f.run (partialBase H h) H h K ops = none
      | some (bs, q) => ∃ f', f.run (partialBase H h) H h K ops = some (bs, f') ∧
          f'.base.len = q.base.length ∧
          f'.len = q.digests.length ∧
          (q.ok = true →
            f'.root H = ((Full.new : Full D N).pushAll H h q.digests).root H ∧
            ∀ i d, q.base[i]? = some (d, true) ∨ (q.base.length ≤ i ∧ q.digests[i]? = some d) →
              ∃ p, ((Full.new : Full D N).pushAll H h q.digests).path H h i = some p ∧
                f'.path (partialBase H h) H h i = some (some p) ∧ p.verify H (f'.root H) d = true) := by
  obtain ⟨t, t1, hr0⟩ := Partial.Rel.run H h id id trunk (Partial.rel_new (N := N) H h K' true)
  have hg : Partial.G H h K' t (PRef.after h trunk).leaves := ⟨_, hr0.weaken H h⟩
  obtain ⟨f, e1, hr⟩ := Forked.Rel.new H h h1 (partialBase_ok H h K') hg hd (K := K)
  refine ⟨_, t, f, t1, e1, ?_⟩
  have hrun := Forked.Rel.run H h h1 (partialBase_ok H h K') ops hr hcl
  split
  · rename_i e
    rw [e] at hrun
    exact hrun
  · rename_i bs q e
    rw [e] at hrun
    obtain ⟨f', g1, g2⟩ := hrun
    obtain ⟨o1, o2, o3⟩ := g2.observe H h (partialBase_ok H h K')
    have hlq : q.digests.length = q.base.length + q.pend.length := by simp [FRef.digests]
    refine ⟨f', g1, g2.base.len, by rw [o1, hlq], fun hok => ?_⟩
    obtain ⟨o4, o5⟩ := o3 hok
    have hcap : q.digests.length ≤ 2 ^ (h + 1) := by
      have := g2.data.store.cap
      rw [Branch.ref_digests, List.length_append, List.length_map, List.length_map] at this
      rw [hlq]; exact this
    obtain ⟨pi, pl⟩ := Full.pushAll_spec H h q.digests (Full.inv_new (D := D) (N := N) H h)
    rw [List.take_of_length_le (by simp [Full.new, capacity]; exact hcap)] at pl
    have pl : ((Full.new : Full D N).pushAll H h q.digests).leaves = q.digests := by rw [pl]; simp [Full.new]
    refine ⟨by rw [o4, pi.root, pl], fun i d hi => ?_⟩
    obtain ⟨a1, a2, a3⟩ := o5 i d hi
    have hlt : i < q.digests.length := by
      rcases Nat.lt_or_ge i q.digests.length with a | a
      · exact a
      · rw [List.getElem?_eq_none a] at a1; cases a1
    exact ⟨_, by rw [pi.path H h (by rw [pl]; exact hlt), pl], a2, a3⟩

/-- **C09, both ways of committing.** `merge_fork` hands over the leaves without markings and
`merge_fork_partial` those with markings (fork.rs:386, 400); the leaves and their order are the same, and one
panics exactly if the other does.  So the model of committing, which starts from the marked leaves, covers both. -/
theorem c09_committed_leaves (b : Branch D N) :
    b.extractLeaves = b.extractMarked.map (List.map Prod.snd) := by
  unfold Branch.extractLeaves Branch.extractMarked Branch.drain LeafMap.intoLeaves
  rw [List.length_map]
  split
  · simp
  · rfl

example : Branch.extractMarked (⟨1, ⟨⟨.trivial, fun i => if i < 3 then some (decide (i = 1), i + 5) else none, some 2⟩,
      fun _ => none, 0⟩⟩ : Branch Nat Nat) = some [(true, 6), (false, 7)] := by decide

/-- **C09, single appends.** Over every nonempty full tree of height at least three, after any single appends
that fit, the forked tree has the root and all paths of the plain tree of the trunk's leaves followed by the
appended ones; if room is left, committing gives exactly that plain tree as the new trunk. -/
theorem c09_appends [DecidableEq N] (h1 : 1 ≤ h) (K : Kind) (ds : List D) (es : List (D × Bool))
    (hd : NonDefaultOn H h ds) (hne : ds ≠ []) (hc : ds.length + es.length ≤ 2 ^ (h + 1)) :
    let plain := (Full.new : Full D N).pushAll H h (ds ++ es.map Prod.fst)
    ∃ f f', Forked.new (fullBase H h) H h K ((Full.new : Full D N).pushAll H h ds) = some f ∧
      f.run (fullBase H h) H h K (es.map Forked.append) = some (List.replicate es.length true, f') ∧
      f'.len = ds.length + es.length ∧
      f'.root H = plain.root H ∧
      (∀ i, i < ds.length + es.length → f'.path (fullBase H h) H h i = some (plain.path H h i)) ∧
      (ds.length + es.length < 2 ^ (h + 1) → NonDefaultOn H h (ds ++ es.map Prod.fst) →
        ∃ g, f'.merge (fullBase H h) H h K = some g ∧ g.base = plain ∧ g.len = plain.len ∧
          g.root H = plain.root H) := by
  simp only
  have hob : (es.map Forked.append).all Forked.Op.onBranch = true := by
    rw [List.all_map, List.all_eq_true]
    intro x _
    simp only [Function.comp_apply, Forked.append]
    split <;> rfl
  obtain ⟨f, e1, e2⟩ := c09_full_partial (N := N) H h h1 K ds (by omega) (es.map Forked.append) hd
    (FRef.clear_onBranch H h _ _ _ hob _)
  have hq : (FRef.fresh (ds.map (·, true))).run h (fun _ => true) (2 ^ (h + 1) - 1) (es.map Forked.append) =
      some (List.replicate es.length true, ⟨ds.map (·, true), [] ++ es, true⟩) :=
    FRef.run_appends h _ _ es (decide_eq_true (by simpa using hne)) (by simpa [FRef.fresh] using hc)
  rw [hq] at e2
  obtain ⟨f', r1, r2, r3, r4⟩ := e2
  have hdig : FRef.digests ⟨ds.map (·, true), [] ++ es, true⟩ = ds ++ es.map Prod.fst := by
    simp [FRef.digests, Function.comp_def]
  rw [hdig] at r3 r4
  obtain ⟨r5, r6⟩ := r4 rfl
  refine ⟨f, f', e1, r1, by rw [r3]; simp, r5, fun i hi => r6 i (by simpa using hi), fun hroom hdd => ?_⟩
  -- the commit
  have hb : f'.base = f.base := Forked.run_base H h _ _ hob r1
  have hfb : f.base = (Full.new : Full D N).pushAll H h ds := by
    unfold Forked.new at e1
    rw [Option.map_eq_some_iff] at e1
    obtain ⟨b, _, e⟩ := e1
    cases e
    rfl
  obtain ⟨hi, hl⟩ := Full.pushAll_spec H h ds (Full.inv_new (D := D) (N := N) H h)
  rw [List.take_of_length_le (by simp [Full.new, capacity]; omega)] at hl
  have hl : ((Full.new : Full D N).pushAll H h ds).leaves = ds := by rw [hl]; simp [Full.new]
  have hg : Full.G H h ((Full.new : Full D N).pushAll H h ds) (ds.map (·, true)) :=
    ⟨hi.weak, by rw [hl]; simp [Function.comp_def]⟩
  obtain ⟨fa, a1, hr⟩ := Forked.Rel.new H h h1 (fullBase_ok H h) hg (by simpa [Function.comp_def] using hd) (K := K)
  rw [e1] at a1
  cases a1
  have hrun := Forked.Rel.run H h h1 (fullBase_ok H h) (es.map Forked.append) hr (FRef.clear_onBranch H h _ _ _ hob _)
  rw [hq] at hrun
  obtain ⟨fb, b1, b2⟩ := hrun
  rw [r1] at b1
  cases b1
  obtain ⟨xs, x1, x2, _⟩ := b2.extract
  have hxl : xs.length = es.length := by
    have := congrArg List.length x2
    simpa using this
  have hmerge : (fullBase H h : Base (Full D N) D N).merge f'.base xs =
      some ((Full.new : Full D N).pushAll H h (ds ++ es.map Prod.fst)) := by
    show (match extendDigests h Full.len (fun t d => t.maybePush H h d) f'.base (xs.map Prod.snd) with
      | .ok t => some t
      | _ => none) = _
    have hbl : f'.base.leaves.length = ds.length := by rw [hb, hfb, hl]
    unfold extendDigests
    rw [if_pos (by unfold Full.len capacity; rw [hbl, List.length_map]; omega),
      (Full.extendLoop_spec H h (xs.map Prod.snd) f'.base).1 (by rw [hbl, List.length_map]; unfold capacity; omega)]
    simp only
    rw [hb, hfb, x2]
    unfold Full.pushAll
    rw [List.foldl_append]
    rfl
  obtain ⟨pi, pl⟩ := Full.pushAll_spec H h (ds ++ es.map Prod.fst) (Full.inv_new (D := D) (N := N) H h)
  rw [List.take_of_length_le (by simp [Full.new, capacity]; omega)] at pl
  have pl : ((Full.new : Full D N).pushAll H h (ds ++ es.map Prod.fst)).leaves = ds ++ es.map Prod.fst := by
    rw [pl]; simp [Full.new]
  have hg2 : Full.G H h ((Full.new : Full D N).pushAll H h (ds ++ es.map Prod.fst))
      ((ds ++ es.map Prod.fst).map (·, true)) :=
    ⟨pi.weak, by rw [pl]; simp [Function.comp_def]⟩
  obtain ⟨g, c1, c2⟩ := Forked.Rel.new H h h1 (fullBase_ok H h) hg2 (by simpa [Function.comp_def] using hdd) (K := K)
  obtain ⟨o1, _, o3⟩ := c2.observe H h (fullBase_ok H h)
  refine ⟨g, ?_, ?_, ?_, ?_⟩
  · unfold Forked.merge
    rw [x1, Option.bind_some, hmerge, Option.bind_some, c1]
  · unfold Forked.new at c1
    rw [Option.map_eq_some_iff] at c1
    obtain ⟨b, _, e⟩ := c1
    cases e
    rfl
  · rw [o1]
    unfold Full.len
    rw [pl]
    simp [FRef.fresh]
  · rw [(o3 (decide_eq_true (by simp [hne]))).1, digests_fresh, pi.root, pl]
    simp [Function.comp_def]

/-! ## Where the code disagrees -/

theorem tHash_nonDefault : NonDefault tHash :=
  ⟨fun a b => by simp only [tHash]; omega, fun a b => by simp only [tHash]; omega⟩

/-- The plain tree of these leaves. -/
def tFull (h : Nat) (ds : List Nat) : Full Nat Nat := Full.new.pushAll tHash h ds

/-- A fork of the plain tree, after some operations. -/
def tFork (h : Nat) (ds : List Nat) (ops : List (Forked.Op Nat)) : Option (List Bool × Forked (Full Nat Nat) Nat Nat) :=
  (Forked.new (fullBase tHash h) tHash h .map (tFull h ds)).bind fun f => f.run (fullBase tHash h) tHash h .map ops

/-- The hypotheses of `c08_full_partial` and `c09_full_partial` are met by a history that runs. -/
example : ((tFork 2 [4, 5, 6] [.push 7, .pushProvable 8, .batch [9], .remove 4]).map Prod.fst) =
    some [true, true, true, true] := by decide +kernel

/-- An instance of `c09_appends`. -/
example : ((tFork 2 [4, 5, 6] ([(7, true), (8, false)].map Forked.append)).map fun r => r.2.root tHash) =
    some ((tFull 2 [4, 5, 6, 7, 8]).root tHash) := by decide +kernel

/-- Over an empty trunk a fresh fork does not have the root of the trunk. -/
theorem c08_empty_violated :
    ((tFork 1 [] []).map fun r => r.2.root tHash) ≠ some ((tFull 1 []).root tHash) := by decide +kernel

/-- For trees of height two a fork over a nonempty trunk starts with the root of the empty tree: the inner
digests of a branch are not set up when there are no inner levels. -/
theorem c08_height_two_violated :
    ((tFork 0 [4] []).map fun r => r.2.root tHash) = some tHash.dN ∧ (tFull 0 [4]).root tHash ≠ tHash.dN := by
  decide +kernel

/-- A commit that fills the tree exactly panics. -/
theorem c09_exact_commit_panics :
    (tFork 1 [4, 5] [.push 6, .push 7]).isSome = true ∧
    tFork 1 [4, 5] [.push 6, .push 7, .merge] = none := by
  refine ⟨by decide +kernel, ?_⟩
  have : (tFork 1 [4, 5] [.push 6, .push 7, .merge]).isNone = true := by decide +kernel
  exact Option.isNone_iff_eq_none.mp this

/-- Removing the path of a leaf of the trunk that lies before the window of the branch panics. -/
theorem c09_remove_panics : tFork 1 [4, 5, 6] [.remove 0] = none := by
  have : (tFork 1 [4, 5, 6] [.remove 0]).isNone = true := by decide +kernel
  exact Option.isNone_iff_eq_none.mp this

/-- Committing a branch over a partial tree with `merge_fork`, as the `Rollback` of a Merkle tree does, loses the
wish to prove: after pruning, the proof of a leaf appended as provable no longer verifies; with
`merge_fork_partial` it does. -/
theorem c09_marks_lost :
    let go (I : Base (Partial Nat Nat) Nat Nat) : Option Bool :=
      (Forked.new I tHash 1 .map (Partial.new .map)).bind fun f =>
        (f.run I tHash 1 .map [.pushProvable 4, .push 5, .push 6, .merge, .prune]).bind fun r =>
          (r.2.base.path tHash 1 0).map fun p => p.verify tHash (r.2.base.root tHash) 4
    go (partialBaseFork tHash 1) = some false ∧ go (partialBase tHash 1) = some true := by
  decide +kernel

/-- `Branch::new` refuses a branch that would fill the tree exactly; and `Branch::try_rebase` counts the leaves
below the window twice: in a tree of four, a branch over three leaves without any leaf of its own cannot be
rebased onto the same three leaves, while one with a leaf over two can be rebased onto the same two. -/
theorem c09_branch_refused :
    ((Branch.new tHash 1 .map ((tFull 1 [4, 5]).view tHash 1) [6, 7]).map fun b => b.isSome) = some false ∧
    ((Branch.newUnchecked tHash 1 .map ((tFull 1 [4, 5]).view tHash 1) [6]).bind fun b =>
      (b.tryRebase tHash 1 .map ((tFull 1 [4, 5]).view tHash 1)).map fun r => (b.data.len, r.1)) =
      some (3, true) ∧
    ((Branch.newUnchecked tHash 1 .map ((tFull 1 [4, 5, 6]).view tHash 1) []).bind fun b =>
      (b.tryRebase tHash 1 .map ((tFull 1 [4, 5, 6]).view tHash 1)).map fun r => (b.data.len, r.1)) =
      some (3, false) := by
  decide +kernel

end Verif.Merkle
