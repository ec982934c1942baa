import Verif.Merkle.Prune

/-!
# Properties of partial trees: C06, C64

The reference keeps the plain leaf sequence with, for every leaf, whether its proof is still wanted.
-/

namespace Verif.Merkle

variable {D N : Type} (H : Hash D N) (h : Nat)

/-! ## Reference -/

/-- The public operations of a partial tree. -/
inductive POp (D : Type)
  | push (d : D)
  | pushProvable (d : D)
  | batch (ds : List D)
  | batchProvable (ds : List D)
  | extend (ds : List (Bool × D))
  | remove (i : Nat)
  | prune
deriving Repr

/-- The leaves with the wish to prove them; `ok` records whether the last growth was a single append or an
aligned batch. -/
structure PRef (D : Type) where
  leaves : List (D × Bool)
  ok : Bool

/-- Growing the reference by a batch. -/
def PRef.grow (r : PRef D) (ds : List D) (b : Bool) : Bool × PRef D :=
  let ins := ds.take (2 ^ (h + 1) - r.leaves.length)
  (decide (r.leaves.length + ds.length ≤ 2 ^ (h + 1)),
   if ins = [] then r
   else ⟨r.leaves ++ ins.map (·, b), decide (¬ Misaligned h r.leaves.length (r.leaves.length + ins.length))⟩)

/-- The number of marked leaves at the end of a list. -/
def trailing (ds : List (Bool × D)) : Nat := (ds.reverse.takeWhile (·.1)).length

/-- One operation on the reference. -/
def PRef.step (r : PRef D) : POp D → Bool × PRef D
  | .push d => if r.leaves.length < 2 ^ (h + 1) then (true, ⟨r.leaves ++ [(d, false)], true⟩) else (false, r)
  | .pushProvable d => if r.leaves.length < 2 ^ (h + 1) then (true, ⟨r.leaves ++ [(d, true)], true⟩) else (false, r)
  | .batch ds => if ds = [] then (true, r) else r.grow h ds false
  | .batchProvable ds => if ds = [] then (true, r) else r.grow h ds true
  | .extend ds =>
    if r.leaves.length + ds.length ≤ 2 ^ (h + 1) then
      (true, if ds = [] then r else
        ⟨r.leaves ++ ds.map fun x => (x.2, !x.1),
         decide (trailing ds = 0 ∨
          ¬ Misaligned h (r.leaves.length + ds.length - trailing ds) (r.leaves.length + ds.length))⟩)
    else (false, r)
  | .remove i => if i < r.leaves.length then
      (true, ⟨r.leaves.modify i fun x => (x.1, false), r.ok⟩) else (false, r)
  | .prune => (true, r)

/-- One operation on a partial tree; `none` is a panic. -/
def Partial.step (t : Partial D N) : POp D → Option (Bool × Partial D N)
  | .push d => some (t.push H h d)
  | .pushProvable d => some (t.pushProvable H h d)
  | .batch ds => t.batchPush H h ds
  | .batchProvable ds => (t.batchPushProvable H h ds).map fun r => (r.1.1, r.2)
  | .extend ds => t.extendMarked H h ds
  | .remove i => t.removePath i
  | .prune => (t.prune h).map fun t => (true, t)

/-- A history, with the answers. -/
def Partial.run (t : Partial D N) : List (POp D) → Option (List Bool × Partial D N)
  | [] => some ([], t)
  | op :: ops => (t.step H h op).bind fun r => (r.2.run ops).map fun q => (r.1 :: q.1, q.2)

/-- A history of the reference, with the answers. -/
def PRef.run (r : PRef D) : List (POp D) → List Bool × PRef D
  | [] => ([], r)
  | op :: ops => let q := ((r.step h op).2).run ops; ((r.step h op).1 :: q.1, q.2)

/-! ## The relation -/

namespace Partial

/-- The leaf digests of the reference. -/
def _root_.Verif.Merkle.PRef.digests (r : PRef D) : List D := r.leaves.map Prod.fst

theorem _root_.Verif.Merkle.PRef.digests_length (r : PRef D) : r.digests.length = r.leaves.length := by
  simp [PRef.digests]

/-- The nodes beside the paths of `P` are right, up to the stale ones unless `ok`. -/
def NodesOk (P : Nat → Prop) (m : InnerMap N) (l : List D) (ok : Bool) : Prop :=
  Nodes H h P (fun k i => ¬ Stale l.length k i) m l ∧ (ok = true → Nodes H h P (fun _ _ => True) m l)

/-- A partial tree with starting index `s` represents the reference; `kp` says whether all stored leaves have
right paths, `fl` whether all leaves are stored. -/
structure Rel (K : Kind) (kp fl : Prop) (s : Nat) (t : Partial D N) (r : PRef D) : Prop where
  kind : t.leaf.kind = K
  start : t.start = s
  store : t.Store h r.digests
  live : NodesOk H h (Live t) t.inner r.digests r.ok
  kept : kp → NodesOk H h (Kept t) t.inner r.digests r.ok
  flag : ∀ (i : Nat) (d : D), r.leaves[s + i]? = some (d, true) → t.leaf.map i = some (false, d)
  full : fl → ∀ c, c < t.leaf.next → (t.leaf.map c).isSome

variable {K : Kind} {kp fl : Prop} {s : Nat} {t : Partial D N} {r : PRef D}

theorem Nodes.ok {P : Nat → Prop} {m : InnerMap N} {l : List D} (hn : Nodes H h P (fun _ _ => True) m l)
    (ok : Bool) : NodesOk H h P m l ok :=
  ⟨hn.mono H h (fun _ e => e) fun _ _ _ => trivial, fun _ => hn⟩

theorem NodesOk.mono {P Q : Nat → Prop} {m : InnerMap N} {l : List D} {ok : Bool} (hn : NodesOk H h Q m l ok)
    (hpq : ∀ j, P j → Q j) : NodesOk H h P m l ok :=
  ⟨hn.1.mono H h hpq fun _ _ e => e, fun e => (hn.2 e).mono H h hpq fun _ _ e => e⟩

theorem rel_new (kind : Kind) (ok : Bool) : Rel H h kind (kind = .map) False 0 (new kind : Partial D N) ⟨[], ok⟩ := by
  have hn : ∀ P, Nodes H h P (fun _ _ => True) (new kind : Partial D N).inner [] := by
    intro P k i _ _ _ _
    show getOr H (fun _ => none) _ = nodeVal H [] k i
    rw [nodeVal_nil]; rfl
  exact ⟨rfl, rfl, store_new h kind, Nodes.ok H h (hn _) _, fun _ => Nodes.ok H h (hn _) _, fun _ _ e => by simp at e,
    fun e => e.elim⟩

theorem live_fresh {l : List D} (hs : t.Store h l) {j : Nat} (hj : l.length ≤ j) : Live t j := by
  have := hs.len
  refine ⟨by omega, ?_⟩
  cases e : t.leaf.markedOrRemoved (j - t.start) with
  | false => rfl
  | true => have := (LeafMap.mor_iff _ _).mp e; omega

theorem kept_fresh {l : List D} (hs : t.Store h l) {j : Nat} (hj : l.length ≤ j) : Kept t j := by
  have := hs.len
  exact ⟨by omega, .inr (by omega)⟩

/-- Appending and marking make no further leaf live. -/
theorem live_grow (ds : List D) (a n : Nat) (m : InnerMap N) {j : Nat}
    (hj : Live (Partial.mk ((t.leaf.extend ds).markAll a n) m t.start) j) : Live t j := by
  refine ⟨hj.1, ?_⟩
  have h2 : ((t.leaf.extend ds).markAll a n).markedOrRemoved (j - t.start) = false := hj.2
  cases e : t.leaf.markedOrRemoved (j - t.start) with
  | false => rfl
  | true =>
    obtain ⟨e1, e2⟩ := (LeafMap.mor_iff _ _).mp e
    obtain ⟨m1, _, _, m4, _, m6⟩ := LeafMap.markAll_spec a n (t.leaf.extend ds)
    obtain ⟨x1, _, x3, _⟩ := LeafMap.extend_spec ds t.leaf
    have : ((t.leaf.extend ds).markAll a n).markedOrRemoved (j - t.start) = true := by
      rw [LeafMap.mor_iff]
      refine ⟨?_, ?_⟩
      · have : ((t.leaf.extend ds).markAll a n).next = (t.leaf.extend ds).next := by
          unfold LeafMap.next; rw [m1]
        omega
      · have hx := x3 (j - t.start) (by omega)
        cases hm : t.leaf.map (j - t.start) with
        | none =>
          have h4 := m4 (j - t.start)
          rw [hx, hm] at h4
          unfold LeafMap.isMarked
          cases hz : ((t.leaf.extend ds).markAll a n).map (j - t.start) with
          | none => rfl
          | some y => rw [hz] at h4; cases h4
        | some x =>
          unfold LeafMap.isMarked at e2
          rw [hm] at e2
          rw [m6 (j - t.start)]
          · rfl
          · unfold LeafMap.isMarked
            rw [hx, hm]
            simp only [Option.map_some, Option.getD_some] at e2 ⊢
            rw [e2]
    rw [this] at h2
    cases h2

theorem kept_grow (ds : List D) (a n : Nat) (m : InnerMap N) {j : Nat}
    (hj : Kept (Partial.mk ((t.leaf.extend ds).markAll a n) m t.start) j) : Kept t j := by
  refine ⟨hj.1, ?_⟩
  have h2 : (((t.leaf.extend ds).markAll a n).map (j - t.start)).isSome ∨
    ((t.leaf.extend ds).markAll a n).next ≤ j - t.start := hj.2
  obtain ⟨m1, _, _, m4, _⟩ := LeafMap.markAll_spec a n (t.leaf.extend ds)
  obtain ⟨x1, _, x3, _⟩ := LeafMap.extend_spec ds t.leaf
  have hnx : ((t.leaf.extend ds).markAll a n).next = (t.leaf.extend ds).next := by
    unfold LeafMap.next; rw [m1]
  by_cases hlt : j - t.start < t.leaf.next
  · left
    rcases h2 with h2 | h2
    · rw [m4, x3 _ hlt] at h2; exact h2
    · omega
  · right; omega

/-- Growing a related tree. -/
theorem Rel.grow (hr : Rel H h K kp fl s t r) (ds : List D) (hc : r.leaves.length + ds.length ≤ 2 ^ (h + 1)) (b ok : Bool)
    (m : InnerMap N) (a n : Nat) (ha : r.leaves.length ≤ s + a) (hb : b = true → n = 0)
    (hl : NodesOk H h (Live t) m (r.digests ++ ds) ok)
    (hk : kp → NodesOk H h (Kept t) m (r.digests ++ ds) ok) :
    Rel H h K kp fl s (Partial.mk ((t.leaf.extend ds).markAll a n) m t.start) ⟨r.leaves ++ ds.map (·, b), ok⟩ := by
  have hd : PRef.digests ⟨r.leaves ++ ds.map (·, b), ok⟩ = r.digests ++ ds := by
    simp [PRef.digests, Function.comp_def]
  obtain ⟨m1, m2, m3, m4, m5, m6⟩ := LeafMap.markAll_spec a n (t.leaf.extend ds)
  obtain ⟨x1, x2, x3, x4, x5⟩ := LeafMap.extend_spec ds t.leaf
  have hlen := hr.store.len
  rw [hr.start, PRef.digests_length] at hlen
  have hs : (Partial.mk ((t.leaf.extend ds).markAll a n) m t.start).Store h (r.digests ++ ds) :=
    (hr.store.extend h ds (by rw [PRef.digests_length]; exact hc) m).markAll h a n
  refine ⟨by rw [← hr.kind, ← x2, ← m2], hr.start, by rw [hd]; exact hs, ?_, ?_, ?_, ?_⟩
  · rw [hd]
    exact hl.mono H h fun j hj => live_grow ds a n m hj
  · intro hkind
    rw [hd]
    exact (hk hkind).mono H h fun j hj => kept_grow ds a n m hj
  · intro i d hi
    show ((t.leaf.extend ds).markAll a n).map i = some (false, d)
    by_cases hlt : s + i < r.leaves.length
    · rw [show (PRef.mk (r.leaves ++ ds.map (·, b)) ok).leaves = r.leaves ++ ds.map (·, b) from rfl,
        List.getElem?_append_left hlt] at hi
      rw [m5 i (by omega), x3 i (by omega)]
      exact hr.flag i d hi
    · rw [show (PRef.mk (r.leaves ++ ds.map (·, b)) ok).leaves = r.leaves ++ ds.map (·, b) from rfl,
        List.getElem?_append_right (by omega), List.getElem?_map] at hi
      cases hx : ds[s + i - r.leaves.length]? with
      | none => rw [hx] at hi; cases hi
      | some y =>
        rw [hx] at hi
        simp only [Option.map_some, Option.some.injEq, Prod.mk.injEq] at hi
        obtain ⟨e1, e2⟩ := hi
        subst e1
        have hn := hb e2
        subst hn
        have := x4 _ _ hx
        rw [show t.leaf.next + (s + i - r.leaves.length) = i by omega] at this
        exact this
  · intro hf c hc'
    show (((t.leaf.extend ds).markAll a n).map c).isSome
    have hnx : ((t.leaf.extend ds).markAll a n).next = (t.leaf.extend ds).next := by
      unfold LeafMap.next; rw [m1]
    have hc2 : c < (t.leaf.extend ds).next := by rw [← hnx]; exact hc'
    rw [x1] at hc2
    rw [m4]
    by_cases hlt : c < t.leaf.next
    · rw [x3 c hlt]
      exact hr.full hf c hlt
    · have := x4 (c - t.leaf.next) ds[c - t.leaf.next] (List.getElem?_eq_getElem (by omega))
      rw [show t.leaf.next + (c - t.leaf.next) = c by omega] at this
      rw [this]
      rfl

theorem mark_eq (m : LeafMap D) (i : Nat) : m.mark i = m.markAll i 1 := rfl

theorem mark_none {l : List D} (hs : t.Store h l) {i : Nat} (hi : t.leaf.next ≤ i) : t.leaf.mark i = t.leaf := by
  unfold LeafMap.mark
  split
  · rfl
  · have hn : t.leaf.map i = none := by
      have := hs.get_ge h hi
      unfold LeafMap.get at this
      cases hx : t.leaf.map i with
      | none => rfl
      | some x => rw [hx] at this; cases this
    congr
    funext j
    by_cases hj : j = i
    · simp [hj, hn]
    · simp [hj]

/-- A single append. -/
theorem Rel.pushProvable (hr : Rel H h K kp fl s t r) (d : D) :
    t.pushProvable H h d = if r.leaves.length < 2 ^ (h + 1) then
      (true, ⟨t.leaf.push d, insert H h t.inner r.digests.length
        (nodeVal H (r.digests ++ [d]) 0 (r.digests.length / 2)), t.start⟩)
      else (false, t) := by
  have := Partial.pushProvable_eq H h hr.store d
  rw [PRef.digests_length] at this
  rw [this, PRef.digests_length]

theorem Rel.push_nodes (hr : Rel H h K kp fl s t r) (d : D) (hc : r.leaves.length < 2 ^ (h + 1)) (ok : Bool) :
    NodesOk H h (Live t) (insert H h t.inner r.digests.length
        (nodeVal H (r.digests ++ [d]) 0 (r.digests.length / 2))) (r.digests ++ [d]) ok ∧
    (kp → NodesOk H h (Kept t) (insert H h t.inner r.digests.length
        (nodeVal H (r.digests ++ [d]) 0 (r.digests.length / 2))) (r.digests ++ [d]) ok) := by
  rw [← PRef.digests_length] at hc
  refine ⟨Nodes.ok H h (hr.live.1.push H h hc (live_fresh h hr.store (Nat.le_refl _))) _, fun hk => ?_⟩
  exact Nodes.ok H h ((hr.kept hk).1.push H h hc (kept_fresh h hr.store (Nat.le_refl _))) _

/-- One nonempty batch that fits. -/
theorem Rel.batchLeaves (hr : Rel H h K kp fl s t r) {ds : List D} (hds : ds ≠ [])
    (hc : r.leaves.length + ds.length ≤ 2 ^ (h + 1)) :
    ∃ m, t.batchPushLeaves H h ⟨t.len, ds.length - 1⟩ ds = some ⟨t.leaf.extend ds, m, t.start⟩ ∧
      NodesOk H h (Live t) m (r.digests ++ ds)
        (decide (¬ Misaligned h r.leaves.length (r.leaves.length + ds.length))) ∧
      (kp → NodesOk H h (Kept t) m (r.digests ++ ds)
        (decide (¬ Misaligned h r.leaves.length (r.leaves.length + ds.length)))) := by
  rw [← PRef.digests_length] at *
  have key : ∀ P, (∀ j, r.digests.length ≤ j → P j) →
      Nodes H h P (fun k i => ¬ Stale r.digests.length k i) t.inner r.digests →
      ∀ m, t.batchPushLeaves H h ⟨t.len, ds.length - 1⟩ ds = some ⟨t.leaf.extend ds, m, t.start⟩ →
      NodesOk H h P m (r.digests ++ ds)
        (decide (¬ Misaligned h r.digests.length (r.digests.length + ds.length))) := by
    intro P hP hn m hm
    refine ⟨?_, fun e => ?_⟩
    · obtain ⟨m', hm', hr'⟩ := batchPushLeaves_spec H h hr.store hds hn hc (fun j hj _ => hP j hj)
        (guard_next h (n := r.digests.length) (e := r.digests.length + ds.length))
      rw [hm] at hm'
      have : m = m' := by simpa using hm'
      subst this
      rw [List.length_append]
      exact hr'
    · obtain ⟨m', hm', hr'⟩ := batchPushLeaves_spec H h hr.store hds hn hc (fun j hj _ => hP j hj)
        (guard_aligned h (of_decide_eq_true e))
      rw [hm] at hm'
      have : m = m' := by simpa using hm'
      subst this
      exact hr'
  obtain ⟨m, hm, _⟩ := batchPushLeaves_spec H h hr.store hds hr.live.1 hc
    (fun j hj _ => live_fresh h hr.store hj) (guard_next h (n := r.digests.length) (e := r.digests.length + ds.length))
  exact ⟨m, hm, key _ (fun j hj => live_fresh h hr.store hj) hr.live.1 m hm,
    fun hk => key _ (fun j hj => kept_fresh h hr.store hj) (hr.kept hk).1 m hm⟩

/-- A batch, marked afterwards or not. -/
theorem Rel.batchProvable (hr : Rel H h K kp fl s t r) {ds : List D} (hds : ds ≠ []) (b : Bool) :
    ∃ n u, t.batchPushProvable H h ds = some (((r.grow h ds b).1, n), u) ∧
      Rel H h K kp fl s { u with leaf := if b then u.leaf else u.leaf.markAll (r.leaves.length - s) n } (r.grow h ds b).2 := by
  have hlen : t.len = r.leaves.length := by rw [hr.store.len_eq, PRef.digests_length]
  have hcap := hr.store.cap
  rw [PRef.digests_length] at hcap
  unfold batchPushProvable PRef.grow capacity
  rw [if_neg hds]
  have hb0 : ∀ n, b = true → (if b then 0 else n) = 0 := by intro n e; simp [e]
  have hm : ∀ (m : LeafMap D) (n : Nat), (if b then m else m.markAll (r.leaves.length - s) n) =
      m.markAll (r.leaves.length - s) (if b then 0 else n) := by intro m n; cases b <;> rfl
  by_cases hc : t.len + ds.length > 2 ^ (h + 1)
  · rw [if_pos hc]
    by_cases hk : 2 ^ (h + 1) - t.len ≠ 0
    · simp only
      rw [if_pos hk]
      have hne : ds.take (2 ^ (h + 1) - t.len) ≠ [] := by
        rw [← List.length_pos_iff, List.length_take]
        have := List.length_pos_iff.mpr hds
        omega
      have hl2 : (ds.take (2 ^ (h + 1) - t.len)).length = 2 ^ (h + 1) - t.len := by
        rw [List.length_take]; omega
      obtain ⟨m, hm1, hm2, hm3⟩ := hr.batchLeaves H h hne (by rw [hl2]; omega)
      rw [hl2] at hm1
      rw [hm1]
      rw [hlen] at *
      refine ⟨_, _, by rw [decide_eq_false (by omega)]; rfl, ?_⟩
      rw [if_neg hne, hm]
      exact hr.grow H h _ (by rw [hl2]; omega) b _ m _ _ (by omega) (hb0 _) hm2 hm3
    · simp only
      rw [if_neg hk]
      rw [hlen] at *
      have : ds.take (2 ^ (h + 1) - r.leaves.length) = [] := by
        rw [show 2 ^ (h + 1) - r.leaves.length = 0 by omega]; simp
      refine ⟨0, t, ?_, ?_⟩
      · rw [decide_eq_false (by omega)]
      · rw [if_pos this]
        have e : (if b then t.leaf else t.leaf.markAll (r.leaves.length - s) 0) = t.leaf := by
          cases b <;> rfl
        rw [e]
        exact hr
  · rw [if_neg hc]
    have ht : ds.take (2 ^ (h + 1) - r.leaves.length) = ds := List.take_of_length_le (by omega)
    obtain ⟨m, hm1, hm2, hm3⟩ := hr.batchLeaves H h hds (by omega)
    simp only [hm1, ht]
    rw [hlen] at *
    refine ⟨_, _, by rw [decide_eq_true (by omega)]; rfl, ?_⟩
    rw [if_neg hds, hm]
    exact hr.grow H h _ (by omega) b _ m _ _ (by omega) (hb0 _) hm2 hm3

/-- The reference answer to a batch, the empty one included. -/
def _root_.Verif.Merkle.PRef.batch (r : PRef D) (ds : List D) (b : Bool) : Bool × PRef D :=
  if ds = [] then (true, r) else r.grow h ds b

theorem Rel.batchPush (hr : Rel H h K kp fl s t r) (ds : List D) :
    ∃ t', t.batchPush H h ds = some ((r.batch h ds false).1, t') ∧ Rel H h K kp fl s t' (r.batch h ds false).2 := by
  have hlen : t.len = r.leaves.length := by rw [hr.store.len_eq, PRef.digests_length]
  unfold Partial.batchPush PRef.batch
  by_cases hds : ds = []
  · rw [if_pos hds]
    have : t.batchPushProvable H h ds = some ((true, 0), t) := by unfold batchPushProvable; rw [if_pos hds]
    rw [this]
    exact ⟨t, rfl, hr⟩
  · rw [if_neg hds]
    obtain ⟨n, u, h1, h3⟩ := hr.batchProvable H h hds false
    rw [h1, hlen, hr.start]
    exact ⟨_, rfl, h3⟩

theorem Rel.batchPushProvable (hr : Rel H h K kp fl s t r) (ds : List D) :
    ∃ n t', t.batchPushProvable H h ds = some (((r.batch h ds true).1, n), t') ∧
      Rel H h K kp fl s t' (r.batch h ds true).2 := by
  unfold PRef.batch
  by_cases hds : ds = []
  · rw [if_pos hds]
    have : t.batchPushProvable H h ds = some ((true, 0), t) := by
      unfold Partial.batchPushProvable; rw [if_pos hds]
    exact ⟨0, t, this, hr⟩
  · rw [if_neg hds]
    obtain ⟨n, u, h1, h3⟩ := hr.batchProvable H h hds true
    exact ⟨n, u, h1, h3⟩

theorem Rel.push_true (hr : Rel H h K kp fl s t r) (d : D) (hc : r.leaves.length < 2 ^ (h + 1)) :
    ∃ t', t.pushProvable H h d = (true, t') ∧ Rel H h K kp fl s t' ⟨r.leaves ++ [(d, true)], true⟩ := by
  obtain ⟨n1, n2⟩ := hr.push_nodes H h d hc true
  rw [hr.pushProvable, if_pos hc]
  exact ⟨_, rfl, hr.grow H h [d] (by simp only [List.length_singleton]; omega) true true _ (r.leaves.length - s) 0 (by omega)
    (fun _ => rfl) n1 n2⟩

theorem Rel.push_false (hr : Rel H h K kp fl s t r) (d : D) (hc : r.leaves.length < 2 ^ (h + 1)) :
    ∃ t', t.push H h d = (true, t') ∧ Rel H h K kp fl s t' ⟨r.leaves ++ [(d, false)], true⟩ := by
  have hlen : t.len = r.leaves.length := by rw [hr.store.len_eq, PRef.digests_length]
  obtain ⟨n1, n2⟩ := hr.push_nodes H h d hc true
  unfold Partial.push
  simp only
  rw [hr.pushProvable, if_pos hc]
  refine ⟨_, rfl, ?_⟩
  have := hr.grow H h [d] (by simp only [List.length_singleton]; omega) false true _ (r.leaves.length - s) 1 (by omega)
    (fun e => by cases e) n1 n2
  rw [hlen, hr.start]
  simp only [hr.start] at this ⊢
  exact this

/-! ## Extension by marked leaves -/

theorem trailing_append (xs : List (Bool × D)) (d : D) (ds : List (Bool × D)) :
    trailing (xs ++ (false, d) :: ds) = trailing ds := by
  unfold trailing
  rw [List.reverse_append, List.reverse_cons, List.append_assoc]
  generalize ds.reverse = A
  induction A with
  | nil => simp
  | cons x A ih =>
    rw [List.cons_append, List.takeWhile_cons, List.takeWhile_cons]
    cases x.1
    · rfl
    · simp only [if_true, List.length_cons, ih]

theorem trailing_all (acc : List D) : trailing (acc.map fun d => (true, d)) = acc.length := by
  unfold trailing
  rw [← List.map_reverse]
  have : ∀ xs : List D, ((xs.map fun d => (true, d)).takeWhile (·.1)).length = xs.length := by
    intro xs
    induction xs with
    | nil => rfl
    | cons x xs ih => simpa using ih
  rw [this, List.length_reverse]

/-- The outcome of an extension. -/
def _root_.Verif.Merkle.PRef.extended (r : PRef D) (ds : List (Bool × D)) : PRef D :=
  if ds = [] then r else
    ⟨r.leaves ++ ds.map fun x => (x.2, !x.1),
     decide (trailing ds = 0 ∨
      ¬ Misaligned h (r.leaves.length + ds.length - trailing ds) (r.leaves.length + ds.length))⟩

theorem Rel.flush (hr : Rel H h K kp fl s t r) {acc : List D} (hacc : acc ≠ [])
    (hc : r.leaves.length + acc.length ≤ 2 ^ (h + 1)) :
    ∃ t', t.batchPush H h acc = some (true, t') ∧
      Rel H h K kp fl s t' (r.extended h (acc.map fun d => (true, d))) := by
  obtain ⟨t', h1, h2⟩ := hr.batchPush H h acc
  unfold PRef.batch at h1 h2
  rw [if_neg hacc] at h1 h2
  unfold PRef.grow at h1 h2
  have ht : acc.take (2 ^ (h + 1) - r.leaves.length) = acc := List.take_of_length_le (by omega)
  simp only [ht, if_neg hacc] at h1 h2
  rw [decide_eq_true hc] at h1
  refine ⟨t', h1, ?_⟩
  unfold PRef.extended
  rw [if_neg (by simpa using hacc), trailing_all, List.length_map, List.map_map]
  have e1 : (decide (acc.length = 0 ∨ ¬ Misaligned h (r.leaves.length + acc.length - acc.length)
      (r.leaves.length + acc.length))) = decide (¬ Misaligned h r.leaves.length (r.leaves.length + acc.length)) := by
    rw [Nat.add_sub_cancel, decide_eq_decide]
    have := List.length_pos_iff.mpr hacc
    constructor
    · rintro (h | h)
      · omega
      · exact h
    · exact .inr
  rw [e1]
  exact h2

theorem extended_cons (r r' : PRef D) (xs : List (Bool × D)) (d : D) (ds : List (Bool × D))
    (hr' : r'.leaves = r.leaves ++ xs.map fun x => (x.2, !x.1)) :
    PRef.extended h ⟨r'.leaves ++ [(d, true)], true⟩ ds = r.extended h (xs ++ (false, d) :: ds) := by
  unfold PRef.extended
  rw [if_neg (by simp : ¬ xs ++ (false, d) :: ds = []), trailing_append]
  by_cases hds : ds = []
  · subst hds
    rw [if_pos rfl, hr']
    simp [trailing]
  · rw [if_neg hds, hr']
    have e : (r.leaves ++ xs.map (fun x => (x.2, !x.1)) ++ [(d, true)]).length + ds.length =
        r.leaves.length + (xs ++ (false, d) :: ds).length := by
      simp only [List.length_append, List.length_map, List.length_cons, List.length_nil]; omega
    rw [e]
    simp

theorem Rel.extendLoop : ∀ (ds : List (Bool × D)) (acc : List D) {t : Partial D N} {r : PRef D}, Rel H h K kp fl s t r →
    r.leaves.length + acc.length + ds.length ≤ 2 ^ (h + 1) →
    ∃ t', extendMarkedLoop H h ds acc t = some t' ∧
      Rel H h K kp fl s t' (r.extended h (acc.map (fun d => (true, d)) ++ ds))
  | [], acc, t, r, hr, hc => by
    rw [extendMarkedLoop, List.append_nil]
    by_cases ha : acc = []
    · subst ha
      rw [if_pos rfl]
      exact ⟨t, rfl, hr⟩
    · rw [if_neg ha]
      obtain ⟨t', h1, h2⟩ := hr.flush H h ha (by simpa using hc)
      rw [h1]
      exact ⟨t', rfl, h2⟩
  | (true, d) :: ds, acc, t, r, hr, hc => by
    rw [extendMarkedLoop]
    have := Rel.extendLoop ds (acc ++ [d]) hr (by simp only [List.length_append, List.length_cons, List.length_nil] at *; omega)
    simpa using this
  | (false, d) :: ds, acc, t, r, hr, hc => by
    rw [extendMarkedLoop]
    simp only [List.length_cons] at hc
    by_cases ha : acc = []
    · subst ha
      rw [if_pos rfl]
      simp only [List.length_nil] at hc
      obtain ⟨t1, h1, h2⟩ := hr.push_true H h d (by omega)
      rw [h1]
      simp only
      obtain ⟨t2, h3, h4⟩ := Rel.extendLoop ds [] h2 (by
        simp only [List.length_append, List.length_cons, List.length_nil]; omega)
      refine ⟨t2, h3, ?_⟩
      have := extended_cons h r r [] d ds (by simp)
      simp only [List.map_nil, List.nil_append] at h4 this ⊢
      rw [← this]
      exact h4
    · rw [if_neg ha]
      obtain ⟨t0, h0, hr0⟩ := hr.flush H h ha (by omega)
      rw [h0]
      simp only
      have hl0 : (r.extended h (acc.map fun d => (true, d))).leaves =
          r.leaves ++ (acc.map fun d => (true, d)).map fun x => (x.2, !x.1) := by
        unfold PRef.extended
        rw [if_neg (by simpa using ha)]
      have hlen0 : (r.extended h (acc.map fun d => (true, d))).leaves.length = r.leaves.length + acc.length := by
        rw [hl0]; simp
      obtain ⟨t1, h1, h2⟩ := hr0.push_true H h d (by omega)
      rw [h1]
      simp only
      obtain ⟨t2, h3, h4⟩ := Rel.extendLoop ds [] h2 (by
        simp only [List.length_append, List.length_cons, List.length_nil]; omega)
      refine ⟨t2, h3, ?_⟩
      have := extended_cons h r _ (acc.map fun d => (true, d)) d ds hl0
      simp only [List.map_nil, List.nil_append] at h4
      rw [← this]
      exact h4

/-! ## Steps -/

theorem Rel.removePath (hr : Rel H h K kp fl s t r) (i : Nat) :
    Rel H h K kp fl s { t with leaf := t.leaf.mark i } ⟨r.leaves.modify (s + i) fun x => (x.1, false), r.ok⟩ := by
  have hd : PRef.digests ⟨r.leaves.modify (s + i) fun x => (x.1, false), r.ok⟩ = r.digests := by
    unfold PRef.digests
    refine List.ext_getElem? fun j => ?_
    simp only [List.getElem?_map, List.getElem?_modify]
    cases r.leaves[j]? with
    | none => rfl
    | some x =>
      simp only [Option.map_eq_map, Option.map_some]
      split <;> rfl
  refine ⟨by rw [← hr.kind]; exact LeafMap.mark_kind _ _, hr.start, by rw [hd]; exact hr.store.mark h i, ?_, ?_, ?_, ?_⟩
  · rw [hd]
    exact hr.live.mono H h fun j hj => live_grow (t := t) [] i 1 t.inner hj
  · intro hk
    rw [hd]
    exact (hr.kept hk).mono H h fun j hj => kept_grow (t := t) [] i 1 t.inner hj
  · intro j d hj
    simp only [List.getElem?_modify] at hj
    cases hx : r.leaves[s + j]? with
    | none => rw [hx] at hj; cases hj
    | some x =>
      rw [hx] at hj
      simp only [Option.map_eq_map, Option.map_some, Option.some.injEq] at hj
      split at hj
      · cases hj
      · rename_i hne
        subst hj
        have := hr.flag j d hx
        rcases LeafMap.mark_map t.leaf i j with e | ⟨e, _⟩
        · show (t.leaf.mark i).map j = _
          rw [e, this]
        · exact absurd (by rw [e]) hne
  · intro hf c hc
    show ((t.leaf.mark i).map c).isSome
    rw [LeafMap.mark_isSome]
    refine hr.full hf c ?_
    rw [← LeafMap.mark_next t.leaf i]
    exact hc

theorem Rel.prune (hr : Rel H h K kp fl 0 t r) (hkp : kp → K = .map) (hfl : ¬ fl) :
    ∃ t', t.prune h = some t' ∧ Rel H h K kp fl 0 t' r := by
  obtain ⟨t', h1, h2, h3, h4, h5⟩ := prune_spec H h hr.store hr.start hr.live.1
  have hlive : NodesOk H h (Live t') t'.inner r.digests r.ok := by
    refine ⟨h4, fun e => ?_⟩
    obtain ⟨t'', h1', _, _, h4', _⟩ := prune_spec H h hr.store hr.start (hr.live.2 e)
    rw [h1] at h1'
    cases h1'
    exact h4'
  refine ⟨t', h1, by rw [h3.kind, hr.kind], by rw [h3.start, hr.start], h2, hlive, ?_, ?_, fun hf => absurd hf hfl⟩
  · intro hk
    have hneed : ∀ k i, Need h (Kept t') k i → Need h (Live t') k i := by
      rintro k i (e | ⟨j, a1, a2, a3⟩)
      · exact .inl e
      · rcases h5 (by rw [hr.kind, hkp hk]) j a3 with b | b
        · exact .inr ⟨j, a1, a2, b⟩
        · exact .inr ⟨sibling j, sibling_lt_pow a1, by rw [sibling_div_pow]; exact a2, b⟩
    exact ⟨fun k i b1 b2 b3 b4 => hlive.1 k i b1 b2 b3 (hneed k i b4),
      fun e k i b1 b2 b3 b4 => hlive.2 e k i b1 b2 b3 (hneed k i b4)⟩
  · intro i d hi
    rw [Nat.zero_add] at hi
    have hf := hr.flag i d (by rw [Nat.zero_add]; exact hi)
    rw [h3.keep i, hf]
    cases e : t.leaf.markedOrRemoved i with
    | false => rfl
    | true =>
      have := ((LeafMap.mor_iff _ _).mp e).2
      unfold LeafMap.isMarked at this
      rw [hf] at this
      cases this

/-- Every operation answers as the reference, without panic, and keeps the relation. -/
theorem Rel.step (hkp : kp → K = .map) (hfl : ¬ fl) (hr : Rel H h K kp fl 0 t r) (op : POp D) :
    ∃ t', t.step H h op = some ((r.step h op).1, t') ∧ Rel H h K kp fl 0 t' (r.step h op).2 := by
  have hlen : t.len = r.leaves.length := by rw [hr.store.len_eq, PRef.digests_length]
  have hnext : t.leaf.next = r.leaves.length := by
    have := hr.store.len; rw [hr.start, PRef.digests_length] at this; omega
  have hcap := hr.store.cap
  rw [PRef.digests_length] at hcap
  cases op with
  | push d =>
    simp only [Partial.step, PRef.step]
    by_cases hc : r.leaves.length < 2 ^ (h + 1)
    · obtain ⟨t', h1, h2⟩ := hr.push_false H h d hc
      rw [if_pos hc, h1]
      exact ⟨t', rfl, h2⟩
    · rw [if_neg hc]
      refine ⟨t, ?_, hr⟩
      unfold Partial.push
      simp only
      rw [hr.pushProvable, if_neg hc]
      rw [mark_none h hr.store (by rw [hlen, hr.start]; omega)]
  | pushProvable d =>
    simp only [Partial.step, PRef.step]
    by_cases hc : r.leaves.length < 2 ^ (h + 1)
    · obtain ⟨t', h1, h2⟩ := hr.push_true H h d hc
      rw [if_pos hc, h1]
      exact ⟨t', rfl, h2⟩
    · rw [if_neg hc, hr.pushProvable, if_neg hc]
      exact ⟨t, rfl, hr⟩
  | batch ds => exact hr.batchPush H h ds
  | batchProvable ds =>
    obtain ⟨n, t', h1, h2⟩ := hr.batchPushProvable H h ds
    simp only [Partial.step, h1, Option.map_some]
    exact ⟨t', rfl, h2⟩
  | extend ds =>
    simp only [Partial.step, PRef.step, extendMarked, capacity, hlen]
    by_cases hc : r.leaves.length + ds.length ≤ 2 ^ (h + 1)
    · rw [if_pos hc, if_pos (by omega)]
      obtain ⟨t', h1, h2⟩ := Rel.extendLoop H h ds [] hr (by simpa using hc)
      rw [h1]
      exact ⟨t', rfl, h2⟩
    · rw [if_neg hc, if_neg (by omega)]
      exact ⟨t, rfl, hr⟩
  | remove i =>
    simp only [Partial.step, PRef.step, Partial.removePath]
    rw [if_neg (by rw [hr.start]; omega)]
    simp only [hr.start, Nat.sub_zero]
    cases hl : t.leaf.last with
    | none =>
      have : t.leaf.next = 0 := by unfold LeafMap.next; rw [hl]
      rw [if_neg (by omega)]
      exact ⟨t, rfl, hr⟩
    | some c =>
      have hc : t.leaf.next = c + 1 := by unfold LeafMap.next; rw [hl]
      simp only
      by_cases hi : i < r.leaves.length
      · rw [if_pos hi, if_pos (by omega)]
        have := hr.removePath H h i
        simp only [hr.start, Nat.zero_add] at this
        exact ⟨_, rfl, this⟩
      · rw [if_neg hi, if_neg (by omega)]
        exact ⟨t, rfl, hr⟩
  | prune =>
    obtain ⟨t', h1, h2⟩ := hr.prune H h hkp hfl
    simp only [Partial.step, h1, PRef.step]
    exact ⟨t', rfl, h2⟩

theorem Rel.run (hkp : kp → K = .map) (hfl : ¬ fl) : ∀ (ops : List (POp D)) {t : Partial D N} {r : PRef D}, Rel H h K kp fl 0 t r →
    ∃ t', t.run H h ops = some ((r.run h ops).1, t') ∧ Rel H h K kp fl 0 t' (r.run h ops).2
  | [], t, r, hr => ⟨t, rfl, hr⟩
  | op :: ops, t, r, hr => by
    obtain ⟨u, h1, h2⟩ := Rel.step H h hkp hfl hr op
    obtain ⟨v, h3, h4⟩ := Rel.run hkp hfl ops h2
    refine ⟨v, ?_, h4⟩
    simp only [Partial.run, h1, Option.bind_some, h3, Option.map_some, PRef.run]

/-- A stored leaf has the reference path, if it or its sibling is among the leaves with right nodes. -/
theorem Rel.proves [DecidableEq N] {P : Nat → Prop} {w : Nat → Nat → Prop} (hr : Rel H h K kp fl 0 t r)
    (hok : r.ok = true) (hn : Nodes H h P w t.inner r.digests) (hw : ∀ k i, w k i) {i : Nat} {x : Bool × D}
    (hx : t.leaf.map i = some x) (hP : P i ∨ P (sibling i)) :
    t.leafDigest i = some (some x.2) ∧
      t.path H h i = some (specPath H h r.digests i) ∧
      (specPath H h r.digests i).verify H (t.root H) x.2 = true := by
  have hroot := root_right H h (hr.live.2 hok) trivial
  have hp := path_right H h hr.store hn (i := i) (by rw [hx]; rfl)
    (by rw [hr.start, Nat.zero_add]; exact hP) (fun _ _ => hw _ _)
  rw [hr.start, Nat.zero_add] at hp
  refine ⟨?_, hp, ?_⟩
  · unfold leafDigest LeafMap.get
    rw [if_neg (by rw [hr.start]; omega), hr.start, Nat.sub_zero, hx]
    rfl
  · have hst := hr.store.stored i _ hx
    rw [hr.start, Nat.zero_add] at hst
    have hlt : i < r.digests.length := by
      rcases Nat.lt_or_ge i r.digests.length with h2 | h2
      · exact h2
      · rw [List.getElem?_eq_none h2] at hst; cases hst
    have := specPath_root H h hlt (Nat.lt_of_lt_of_le hlt hr.store.cap)
    unfold Path.verify
    refine decide_eq_true ?_
    rw [hroot, ← this, hst]
    rfl

end Partial

/-! ## C06 -/

/-- The reference after a history from an empty tree. -/
def PRef.after (ops : List (POp D)) : PRef D := ((⟨[], true⟩ : PRef D).run h ops).2

/-- **C06.**  After any history of provable and non-provable appends, batches, extensions, removals and prunes
the tree has not panicked, has answered every call as the plain leaf sequence would, and has its length; if the
last growth was a single append or an aligned batch, the root is the root of the plain leaf sequence, and every
leaf whose proof is still wanted is stored and has the reference path, which verifies.  Missing: right after a
misaligned batch, the root may be wrong (`c06_violated`). -/
theorem c06_partial [DecidableEq N] (kind : Kind) (ops : List (POp D)) :
    ∃ t, (Partial.new kind : Partial D N).run H h ops = some (((⟨[], true⟩ : PRef D).run h ops).1, t) ∧
      t.len = (PRef.after h ops).leaves.length ∧
      ((PRef.after h ops).ok = true →
        t.root H = specRoot H h (PRef.after h ops).digests ∧
        ∀ (i : Nat) (d : D), (PRef.after h ops).leaves[i]? = some (d, true) →
          t.leafDigest i = some (some d) ∧
          t.path H h i = some (specPath H h (PRef.after h ops).digests i) ∧
          (specPath H h (PRef.after h ops).digests i).verify H (t.root H) d = true) := by
  obtain ⟨t, h1, hr⟩ := Partial.Rel.run H h id id ops (Partial.rel_new (N := N) H h kind true)
  refine ⟨t, h1, ?_, ?_⟩
  · rw [hr.store.len_eq, PRef.digests_length]; rfl
  · intro hok
    refine ⟨Partial.root_right H h (hr.live.2 hok) trivial, fun i d hi => ?_⟩
    have hf := hr.flag i d (by rw [Nat.zero_add]; exact hi)
    refine hr.proves H h hok (hr.live.2 hok) (fun _ _ => trivial) hf (.inl ⟨by rw [hr.start]; omega, ?_⟩)
    rw [hr.start, Nat.sub_zero]
    cases e : t.leaf.markedOrRemoved i with
    | false => rfl
    | true =>
      have := ((LeafMap.mor_iff _ _).mp e).2
      unfold LeafMap.isMarked at this
      rw [hf] at this
      cases this

/-- Operations on single leaves. -/
def POp.single : POp D → Bool
  | .batch _ | .batchProvable _ | .extend _ => false
  | _ => true

theorem PRef.run_single : ∀ (ops : List (POp D)) (r : PRef D), ops.all POp.single = true → r.ok = true →
    (r.run h ops).2.ok = true
  | [], _, _, hr => hr
  | op :: ops, r, ho, hr => by
    simp only [List.all_cons, Bool.and_eq_true] at ho
    refine PRef.run_single ops _ ho.2 ?_
    cases op <;> simp only [POp.single, PRef.step] at ho ⊢
    · split <;> first | rfl | exact hr
    · split <;> first | rfl | exact hr
    · exact absurd ho.1 (by simp)
    · exact absurd ho.1 (by simp)
    · exact absurd ho.1 (by simp)
    · split <;> exact hr
    · exact hr

/-- **C06 for single appends, removals and prunes**: no panic, the answers and the length of the plain leaf
sequence, its root, and a verifying path for every leaf whose proof is still wanted. -/
theorem c06_single [DecidableEq N] (kind : Kind) (ops : List (POp D)) (ho : ops.all POp.single = true) :
    ∃ t, (Partial.new kind : Partial D N).run H h ops = some (((⟨[], true⟩ : PRef D).run h ops).1, t) ∧
      t.len = (PRef.after h ops).leaves.length ∧
      t.root H = specRoot H h (PRef.after h ops).digests ∧
      ∀ (i : Nat) (d : D), (PRef.after h ops).leaves[i]? = some (d, true) →
        ∃ p, t.path H h i = some p ∧ p.leafIndex = i ∧ p.path.length = h ∧ p.verify H (t.root H) d = true := by
  obtain ⟨t, h1, h2, h3⟩ := c06_partial (N := N) H h kind ops
  obtain ⟨h4, h5⟩ := h3 (PRef.run_single h ops _ ho rfl)
  refine ⟨t, h1, h2, h4, fun i d hi => ?_⟩
  obtain ⟨_, h6, h7⟩ := h5 i d hi
  exact ⟨_, h6, rfl, by simp [specPath], h7⟩

/-- **C06, out of range.** After every history there is no path for an index beyond the leaves, except for the index zero of
the empty tree. -/
theorem c06_out_of_range [DecidableEq N] (kind : Kind) (ops : List (POp D)) :
    ∃ bs t, (Partial.new kind : Partial D N).run H h ops = some (bs, t) ∧
      ∀ i, 0 < i → (PRef.after h ops).leaves.length ≤ i → t.path H h i = none := by
  obtain ⟨t, h1, h2, _⟩ := c06_partial (N := N) H h kind ops
  exact ⟨_, t, h1, fun i h0 hi => by unfold Partial.path; rw [if_pos ⟨h0, by rw [h2]; exact hi⟩]⟩

/-- **C06, settled.**  Whatever batches came before, one successful single append repairs everything. -/
theorem c06_settled_partial [DecidableEq N] (kind : Kind) (ops : List (POp D)) (d : D)
    (hc : (PRef.after h ops).leaves.length < 2 ^ (h + 1)) :
    ∃ bs t, (Partial.new kind : Partial D N).run H h (ops ++ [.pushProvable d]) = some (bs, t) ∧
      t.root H = specRoot H h ((PRef.after h ops).digests ++ [d]) ∧
      ∀ (i : Nat) (x : D), ((PRef.after h ops).leaves ++ [(d, true)])[i]? = some (x, true) →
        ∃ p, t.path H h i = some p ∧ p.verify H (t.root H) x = true := by
  have key : ∀ (ops : List (POp D)) (r : PRef D),
      (r.run h (ops ++ [.pushProvable d])).2 = ((r.run h ops).2.step h (.pushProvable d)).2 := by
    intro ops
    induction ops with
    | nil => intro r; rfl
    | cons op ops ih => intro r; simp only [List.cons_append, PRef.run]; rw [ih]
  have e : PRef.after h (ops ++ [.pushProvable d]) = ⟨(PRef.after h ops).leaves ++ [(d, true)], true⟩ := by
    unfold PRef.after at hc ⊢
    rw [key]
    simp only [PRef.step]
    rw [if_pos hc]
  obtain ⟨t, h1, _, h3⟩ := c06_partial (N := N) H h kind (ops ++ [.pushProvable d])
  rw [e] at h3
  obtain ⟨h4, h5⟩ := h3 rfl
  refine ⟨_, t, h1, ?_, fun i x hi => ?_⟩
  · rw [h4]; simp [PRef.digests]
  · obtain ⟨_, h6, h7⟩ := h5 i x hi
    exact ⟨_, h6, h7⟩

/-- A non-trivial history: appends, a removal, two prunes; four proofs are still wanted. -/
example : (PRef.after (D := Nat) 3 [.pushProvable 1, .push 2, .push 3, .push 4, .pushProvable 5, .prune,
    .pushProvable 6, .remove 4, .pushProvable 7, .prune, .pushProvable 8]).leaves =
    [(1, true), (2, false), (3, false), (4, false), (5, false), (6, true), (7, true), (8, true)] := by decide

/-- Right after a misaligned batch the root is wrong, and so is a wanted path. -/
theorem c06_violated :
    ∃ bs t, (Partial.new .map : Partial Nat Nat).run tHash 2
        [.pushProvable 1, .pushProvable 2, .batchProvable [3, 4, 5, 6]] = some (bs, t) ∧
      t.root tHash ≠ specRoot tHash 2 [1, 2, 3, 4, 5, 6] ∧
      ∃ p, t.path tHash 2 4 = some p ∧ p.verify tHash (t.root tHash) 5 = false := by
  refine ⟨_, _, rfl, ?_, _, rfl, ?_⟩ <;> decide +kernel

/-! ## C64 -/

/-- **C64.**  With a map as leaf store, no proof is ever stale: if the last growth was a single append or an
aligned batch, then every leaf digest that the tree still returns is the one at that place of the plain
sequence and has a path that verifies against the current root. -/
theorem c64_partial [DecidableEq N] (ops : List (POp D)) (hok : (PRef.after h ops).ok = true) :
    ∃ bs t, (Partial.new .map : Partial D N).run H h ops = some (bs, t) ∧
      ∀ (i : Nat) (d : D), t.leafDigest i = some (some d) →
        (PRef.after h ops).digests[i]? = some d ∧
        ∃ p, t.path H h i = some p ∧ p.verify H (t.root H) d = true := by
  obtain ⟨t, h1, hr⟩ := Partial.Rel.run H h id id ops (Partial.rel_new (N := N) H h .map true)
  refine ⟨_, t, h1, fun i d hd => ?_⟩
  unfold Partial.leafDigest LeafMap.get at hd
  rw [if_neg (by rw [hr.start]; omega), hr.start, Nat.sub_zero] at hd
  cases hx : t.leaf.map i with
  | none => rw [hx] at hd; cases hd
  | some x =>
    rw [hx] at hd
    simp only [Option.map_some, Option.some.injEq] at hd
    subst hd
    have hst := hr.store.stored i x hx
    rw [hr.start, Nat.zero_add] at hst
    obtain ⟨_, h3, h4⟩ := hr.proves H h hok ((hr.kept rfl).2 hok) (fun _ _ => trivial) hx
      (.inl ⟨by rw [hr.start]; omega, .inl (by rw [hr.start, Nat.sub_zero, hx]; rfl)⟩)
    exact ⟨hst, _, h3, h4⟩

/-- The leaves still stored after a prune: the removed pair is gone, the others stay. -/
example : ∃ bs t, (Partial.new .map : Partial Nat Nat).run tHash 2
      [.push 1, .push 2, .pushProvable 3, .push 4, .push 5, .prune] = some (bs, t) ∧
    (List.range 5).map t.leafDigest = [some none, some none, some (some 3), some (some 4), some (some 5)] :=
  ⟨_, _, rfl, by decide +kernel⟩

/-- With a vector as leaf store, pruning leaves leaves behind without their digests: the tree still returns
the leaf and a path for it, and the path does not verify. -/
theorem c64_vec_violated :
    ∃ bs t, (Partial.new .vec : Partial Nat Nat).run tHash 2 [.push 1, .push 2, .push 3, .push 4, .push 5, .prune] =
        some (bs, t) ∧
      t.leafDigest 0 = some (some 1) ∧
      ∃ p, t.path tHash 2 0 = some p ∧ p.verify tHash (t.root tHash) 1 = false :=
  ⟨_, _, rfl, by decide +kernel, _, rfl, by decide +kernel⟩

/-- A path is answered even for a leaf that was removed; it does not verify. -/
theorem c64_removed_path :
    ∃ bs t, (Partial.new .map : Partial Nat Nat).run tHash 2 [.push 1, .push 2, .push 3, .push 4, .push 5, .prune] =
        some (bs, t) ∧
      t.leafDigest 0 = some none ∧
      ∃ p, t.path tHash 2 0 = some p ∧ p.verify tHash (t.root tHash) 1 = false :=
  ⟨_, _, rfl, by decide +kernel, _, rfl, by decide +kernel⟩

/-- After a prune the listing of the leaf digests misses stored leaves, as it counts leaves instead of looking
at their indices. -/
theorem c64_listing_violated :
    ∃ bs t, (Partial.new .map : Partial Nat Nat).run tHash 2
        [.push 1, .push 2, .push 3, .push 4, .pushProvable 5, .prune] = some (bs, t) ∧
      t.leafDigest 4 = some (some 5) ∧ t.leaf.leafDigests = [] ∧ t.leaf.intoLeaves = [5] :=
  ⟨_, _, rfl, by decide +kernel⟩

theorem filterMap_short {α β : Type} (f : α → Option β) (l : List α) :
    (l.filterMap f).length = l.length ↔ ∀ x ∈ l, (f x).isSome := by
  induction l with
  | nil => simp
  | cons a l ih =>
    have hle := List.length_filterMap_le f l
    cases ha : f a with
    | none => rw [List.filterMap_cons_none ha]; simp [ha]; omega
    | some b => rw [List.filterMap_cons_some ha]; simp [ha, ih]

/-- If as many leading indices are taken as there are in total, then no others are. -/
theorem range_split {α : Type} (f : Nat → Option α) {n k : Nat} (hk : ((List.range n).filterMap f).length = k)
    (h : ∀ i < k, (f i).isSome) : (List.range n).filterMap f = (List.range k).filterMap f := by
  have hkn : k ≤ n := by rw [← hk]; exact Nat.le_trans (List.length_filterMap_le _ _) (by simp)
  obtain ⟨r, rfl⟩ := Nat.exists_eq_add_of_le hkn
  rw [List.range_add, List.filterMap_append] at hk ⊢
  have hl : ((List.range k).filterMap f).length = k := by
    rw [(filterMap_short f _).2 fun i hi => h i (List.mem_range.1 hi), List.length_range]
  rw [List.length_append, hl] at hk
  rw [List.eq_nil_of_length_eq_zero (l := (List.map (fun x => k + x) (List.range r)).filterMap f) (by omega),
    List.append_nil]

/-- When the listing is complete: exactly if no leaf below the number of stored leaves was removed. Then it gives the
stored leaves in order, and the listing of marked leaves gives the marked ones. -/
theorem c64_listing {D : Type} (m : LeafMap D) :
    (m.leafDigests = m.intoLeaves ↔ ∀ i < m.count, (m.map i).isSome) ∧
    ((∀ i < m.count, (m.map i).isSome) →
      m.markedLeafDigests = (m.intoMarked.filter fun x => x.1).map Prod.snd) := by
  have hg : m.get = fun i => (m.map i).map Prod.snd := rfl
  have hi : ∀ l : List Nat, l.filterMap m.get = (l.filterMap m.map).map Prod.snd := fun l => by
    rw [hg, List.map_filterMap]
  have full : (∀ i < m.count, (m.map i).isSome) → m.intoMarked = (List.range m.count).filterMap m.map := fun h =>
    range_split m.map rfl h
  refine ⟨⟨fun h => ?_, fun h => ?_⟩, fun h => ?_⟩
  · have hl := congrArg List.length h
    rw [LeafMap.leafDigests, hi, LeafMap.intoLeaves, List.length_map, List.length_map] at hl
    have := (filterMap_short m.map (List.range m.count)).1 (by rw [hl, List.length_range]; rfl)
    exact fun i hi => this i (List.mem_range.2 hi)
  · rw [LeafMap.leafDigests, hi, LeafMap.intoLeaves, full h]
  · rw [full h, LeafMap.markedLeafDigests, hi, List.filter_filterMap, List.filterMap_filter]
    congr 2
    funext i
    cases e : m.map i with
    | none => simp [LeafMap.isMarked, e]
    | some x => cases hx : x.1 <;> simp [LeafMap.isMarked, e, hx, Option.filter]

example : ∀ i < ((LeafMap.fromVec .map [4, 5, 6] true).mark 1).count,
    (((LeafMap.fromVec .map [4, 5, 6] true).mark 1).map i).isSome := by decide

end Verif.Merkle
