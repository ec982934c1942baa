import Verif.Merkle.Trunk

/-! # Trunks and forks: the relation -/

namespace Verif.Merkle

variable {T D N : Type} (H : Hash D N) (h : Nat)

/-! ## Variables -/

section lookup

variable {α β : Type}

theorem lookup_set {l : List (Option α)} {i : Nat} {a : α} (hi : l[i]?.join = some a) (x : Option α) (k : Nat) :
    (l.set i x)[k]?.join = if k = i then x else l[k]?.join := by
  have hlt : i < l.length := by
    rcases Nat.lt_or_ge i l.length with e | e
    · exact e
    · rw [List.getElem?_eq_none e] at hi; cases hi
  by_cases hk : k = i
  · subst hk
    rw [if_pos rfl, List.getElem?_set_self hlt]
    rfl
  · rw [if_neg hk, List.getElem?_set_ne (fun e => hk e.symm)]

theorem lookup_append (l : List (Option α)) (a : α) (k : Nat) :
    (l ++ [some a])[k]?.join = if k = l.length then some a else l[k]?.join := by
  by_cases hk : k = l.length
  · subst hk
    rw [if_pos rfl]
    simp
  · rw [if_neg hk]
    rcases Nat.lt_or_ge k l.length with e | e
    · rw [List.getElem?_append_left e]
    · rw [List.getElem?_eq_none (by simp; omega), List.getElem?_eq_none e]

theorem lookup_length (l : List (Option α)) : l[l.length]?.join = none := by
  rw [List.getElem?_eq_none (Nat.le_refl _)]; rfl

theorem lookup_map {l : List (Option α)} (f : α → β) (k : Nat) :
    (l.map (Option.map f))[k]?.join = (l[k]?.join).map f := by
  rw [List.getElem?_map]
  cases l[k]? with
  | none => rfl
  | some x => cases x <;> rfl

end lookup

/-! ## Branches with leaves -/

theorem Partial.Rel.pushLeaves {K : Kind} {kp fl : Prop} {s : Nat} : ∀ (ds : List D) {t : Partial D N} {r : PRef D},
    Partial.Rel H h K kp fl s t r → r.leaves.length + ds.length ≤ 2 ^ (h + 1) →
    Partial.Rel H h K kp fl s (ds.foldl (fun t d => t.pushLeaf H h t.len d) t)
      ⟨r.leaves ++ ds.map (·, true), r.ok || decide (ds ≠ [])⟩
  | [], t, r, hr, _ => by
    obtain ⟨l, ok⟩ := r
    simpa using hr
  | d :: ds, t, r, hr, hc => by
    simp only [List.length_cons] at hc
    obtain ⟨t', e1, e2⟩ := hr.push_true H h d (by omega)
    have hlen : t.len = r.leaves.length := by rw [hr.store.len_eq, PRef.digests_length]
    have ht : t.pushLeaf H h t.len d = t' := by
      unfold Partial.pushProvable at e1
      rw [if_neg (by unfold capacity; omega)] at e1
      exact (Prod.mk.inj e1).2
    have := Partial.Rel.pushLeaves ds e2 (by simp only [List.length_append, List.length_singleton]; omega)
    rw [List.foldl_cons, ht]
    simpa using this

theorem Branch.newUnchecked_fold (K : Kind) (v : View D N) (ds : List D) :
    newUnchecked H h K v ds = (newUnchecked H h K v []).map fun b =>
      ⟨b.contrib, ds.foldl (fun t d => t.pushLeaf H h t.len d) b.data⟩ := by
  unfold newUnchecked
  split
  · rfl
  · split
    · rfl
    · rfl

variable {I : Base T D N} {G : T → List (D × Bool) → Prop} {keep : Bool → Bool} {room : Nat} {K : Kind}

/-- A fork with leaves represents the leaves of the tree followed by its own. -/
theorem Branch.grown (h1 : 1 ≤ h) (hI : I.Ok H h G keep room) {t : T} {r : List (D × Bool)} (hg : G t r)
    (hn : NonDefaultOn H h (r.map Prod.fst)) (ds : List D) (hc : r.length + ds.length ≤ 2 ^ (h + 1)) :
    ∃ b, Branch.newUnchecked H h K (I.view t) ds = some b ∧ Forked.Rel H h G K ⟨t, b⟩ (Grove.grown r ds) := by
  obtain ⟨f, e1, hr⟩ := Forked.Rel.new H h h1 hI hg hn (K := K)
  unfold Forked.new at e1
  rw [Option.map_eq_some_iff] at e1
  obtain ⟨b, e2, e3⟩ := e1
  cases e3
  refine ⟨⟨b.contrib, ds.foldl (fun t d => t.pushLeaf H h t.len d) b.data⟩,
    by rw [Branch.newUnchecked_fold, e2]; rfl, hg, hr.contrib, ?_, hn⟩
  have := Partial.Rel.pushLeaves H h ds hr.data (by simpa [Branch.ref, FRef.fresh] using hc)
  simpa [Branch.ref, FRef.fresh, Grove.grown] using this

/-- The leaves of a fork. -/
theorem Forked.Rel.extractLeaves {f : Forked T D N} {q : FRef D} (hr : Forked.Rel H h G K f q) :
    f.branch.extractLeaves = some (q.pend.map Prod.fst) := by
  obtain ⟨ds, e1, e2, _⟩ := hr.extract
  unfold Branch.extractMarked Branch.drain at e1
  unfold Branch.extractLeaves Branch.drain LeafMap.intoLeaves
  rw [List.length_map]
  split at e1
  · rename_i hc
    rw [if_pos hc, ← e2]
    cases e1
    rw [List.map_drop]
  · cases e1

/-- What rebasing a branch onto another tree does. -/
theorem Forked.Rel.tryRebase (h1 : 1 ≤ h) (hI : I.Ok H h G keep room) {f : Forked T D N} {q : FRef D}
    (hr : Forked.Rel H h G K f q) {t : T} {r : List (D × Bool)} (hg : G t r)
    (hn : NonDefaultOn H h (r.map Prod.fst)) :
    if r.length + q.pend.length + Branch.startOf q.base.length < 2 ^ (h + 1) then
      ∃ b, f.branch.tryRebase H h K (I.view t) = some (true, b) ∧
        Forked.Rel H h G K ⟨t, b⟩ (Grove.grown r (q.pend.map Prod.fst))
    else f.branch.tryRebase H h K (I.view t) = some (false, f.branch) := by
  have hlen : f.branch.data.len = q.base.length + q.pend.length := by
    rw [hr.data.store.len_eq, Branch.ref_digests, List.length_append, List.length_map, List.length_map]
  have hv : (I.view t).len = r.length := by rw [(hI.right hg hn).len, List.length_map]
  have hsl := Branch.startOf_le q.base.length
  have hco := hr.contrib
  have hsum : q.base.length + q.pend.length + r.length - (q.base.length - Branch.startOf q.base.length) =
      r.length + q.pend.length + Branch.startOf q.base.length := by omega
  have hstep : f.branch.tryRebase H h K (I.view t) =
      if r.length + q.pend.length + Branch.startOf q.base.length ≥ 2 ^ (h + 1) then some (false, f.branch) else
        (f.branch.extractLeaves).bind fun ds => (Branch.newUnchecked H h K (I.view t) ds).map fun b => (true, b) := by
    unfold Branch.tryRebase capacity
    rw [if_neg (by rw [hlen, hv, hco]; omega), hlen, hv, hco]
    rw [hsum]
  by_cases hc : r.length + q.pend.length + Branch.startOf q.base.length < 2 ^ (h + 1)
  · rw [if_pos hc, hstep, if_neg (Nat.not_le.mpr hc), hr.extractLeaves]
    obtain ⟨b, e1, e2⟩ := Branch.grown H h h1 hI hg hn (q.pend.map Prod.fst) (K := K) (by rw [List.length_map]; omega)
    exact ⟨b, by rw [Option.bind_some, e1]; rfl, e2⟩
  · rw [if_neg hc, hstep, if_pos (Nat.le_of_not_lt hc)]

/-- Merging the leaves of a branch into its tree. -/
theorem Forked.Rel.merged (h1 : 1 ≤ h) (hI : I.Ok H h G keep room) {f : Forked T D N} {q : FRef D}
    (hr : Forked.Rel H h G K f q) (hn : NonDefaultOn H h q.digests) :
    ∃ ds, f.branch.extractMarked = some ds ∧
      if q.base.length + q.pend.length ≤ room then
        ∃ t, I.merge f.base ds = some t ∧ G t (q.base ++ q.pend.map fun x => (x.1, keep x.2)) ∧
          NonDefaultOn H h ((q.base ++ q.pend.map fun x => (x.1, keep x.2)).map Prod.fst)
      else I.merge f.base ds = none := by
  obtain ⟨ds, x1, x2, _⟩ := hr.extract
  refine ⟨ds, x1, ?_⟩
  have hs := hr.step H h h1 hI .merge fun _ => hn
  have hcap := hr.data.store.cap
  rw [Branch.ref_digests, List.length_append, List.length_map, List.length_map] at hcap
  have hdl : ds.length = q.pend.length := by
    have := congrArg List.length x2
    simpa using this
  split
  · rename_i hc
    simp only [FRef.step, if_pos hc, Forked.step, Forked.merge, x1, Option.bind_some] at hs
    obtain ⟨f', e1, e2⟩ := hs
    rw [Option.map_eq_some_iff] at e1
    obtain ⟨f1, e3, e4⟩ := e1
    cases e4
    rw [Option.bind_eq_some_iff] at e3
    obtain ⟨t', e5, e6⟩ := e3
    unfold Forked.new at e6
    rw [Option.map_eq_some_iff] at e6
    obtain ⟨b, _, e7⟩ := e6
    cases e7
    exact ⟨t', e5, e2.base, e2.nd⟩
  · rename_i hc
    exact hI.panic ds hr.base (by omega) (by omega)

/-! ## The relation -/

namespace Wood

variable (G K)

/-- A fork represents its reference. -/
structure ForkRel (w : Wood T D N) (g : Grove D) (f : Fork D N) (a : Option Nat) (q : FRef D) : Prop where
  old : f.base < w.fresh
  att : ∀ i, a = some i ↔ ∃ tr, w.trunk i = some tr ∧ tr.ptr = f.base
  rel : ∃ t, Forked.Rel H h G K ⟨t, f.branch⟩ q ∧
    ∀ i, a = some i → g.trunk i = some q.base ∧ ∀ tr, w.trunk i = some tr → tr.tree = t

/-- A program represents its reference. -/
structure Rel (w : Wood T D N) (g : Grove D) : Prop where
  tl : w.trunks.length = g.trunks.length
  fl : w.forks.length = g.forks.length
  tn : ∀ i, w.trunk i = none ↔ g.trunk i = none
  fn : ∀ j, w.fork j = none ↔ g.fork j = none
  tree : ∀ {i tr r}, w.trunk i = some tr → g.trunk i = some r →
    tr.ptr < w.fresh ∧ G tr.tree r ∧ NonDefaultOn H h (r.map Prod.fst)
  one : ∀ {i k a b}, w.trunk i = some a → w.trunk k = some b → a.ptr = b.ptr → i = k
  fork : ∀ {j f a q}, w.fork j = some f → g.fork j = some (a, q) → ForkRel H h G K w g f a q

variable {G K} {w : Wood T D N} {g : Grove D}

theorem upgrade_mem {p : Nat} {tr : Trunk T} (hu : w.upgrade p = some tr) :
    tr.ptr = p ∧ ∃ i, w.trunk i = some tr := by
  unfold upgrade at hu
  have h1 := List.find?_some hu
  have h2 := List.mem_of_find?_eq_some hu
  rw [List.mem_filterMap] at h2
  obtain ⟨x, hx, e⟩ := h2
  obtain ⟨i, hi, e2⟩ := List.mem_iff_getElem.mp hx
  refine ⟨by simpa using h1, i, ?_⟩
  unfold trunk
  rw [List.getElem?_eq_getElem hi, e2]
  simpa using e

theorem upgrade_none {p : Nat} (hu : w.upgrade p = none) (i : Nat) (tr : Trunk T) (hi : w.trunk i = some tr) :
    tr.ptr ≠ p := by
  unfold upgrade at hu
  rw [List.find?_eq_none] at hu
  have := hu tr (by
    rw [List.mem_filterMap]
    unfold trunk at hi
    cases hx : w.trunks[i]? with
    | none => rw [hx] at hi; cases hi
    | some x =>
      rw [hx] at hi
      exact ⟨x, List.mem_of_getElem? hx, hi⟩)
  simpa using this

variable {H h}

theorem Rel.upgrade (hr : Rel H h G K w g) {i : Nat} {tr : Trunk T} (hi : w.trunk i = some tr) :
    w.upgrade tr.ptr = some tr := by
  cases hu : w.upgrade tr.ptr with
  | none => exact absurd rfl (upgrade_none hu i tr hi)
  | some t2 =>
    obtain ⟨e1, k, e2⟩ := upgrade_mem hu
    have := hr.one hi e2 e1.symm
    subst this
    rw [hi] at e2
    exact e2.symm

theorem ForkRel.upgrade {f : Fork D N} {a : Option Nat} {q : FRef D} (hr : Rel H h G K w g)
    (hf : ForkRel H h G K w g f a q) :
    match a with
    | none => w.upgrade f.base = none
    | some i => ∃ tr, w.trunk i = some tr ∧ tr.ptr = f.base ∧ w.upgrade f.base = some tr := by
  cases a with
  | none =>
    simp only
    cases hu : w.upgrade f.base with
    | none => rfl
    | some tr =>
      obtain ⟨e1, i, e2⟩ := upgrade_mem hu
      have := (hf.att i).mpr ⟨tr, e2, e1⟩
      cases this
  | some i =>
    simp only
    obtain ⟨tr, e1, e2⟩ := (hf.att i).mp rfl
    exact ⟨tr, e1, e2, e2 ▸ hr.upgrade e1⟩

theorem Rel.someTrunk (hr : Rel H h G K w g) {i : Nat} {tr : Trunk T} (hi : w.trunk i = some tr) :
    ∃ r, g.trunk i = some r := by
  cases hx : g.trunk i with
  | none => rw [(hr.tn i).mpr hx] at hi; cases hi
  | some r => exact ⟨r, rfl⟩

theorem Rel.someFork (hr : Rel H h G K w g) {j : Nat} {f : Fork D N} (hj : w.fork j = some f) :
    ∃ a q, g.fork j = some (a, q) := by
  cases hx : g.fork j with
  | none => rw [(hr.fn j).mpr hx] at hj; cases hj
  | some r => exact ⟨r.1, r.2, rfl⟩

/-- Replacing a fork. -/
theorem Rel.setFork (hr : Rel H h G K w g) {j : Nat} {f f' : Fork D N} {a a' : Option Nat} {q q' : FRef D}
    (hj : w.fork j = some f) (hg : g.fork j = some (a, q)) (hf : ForkRel H h G K w g f' a' q') :
    Rel H h G K { w with forks := w.forks.set j (some f') } { g with forks := g.forks.set j (some (a', q')) } := by
  have l1 : ∀ k, Wood.fork { w with forks := w.forks.set j (some f') } k = if k = j then some f' else w.fork k :=
    fun k => lookup_set hj _ k
  have l2 : ∀ k, Grove.fork { g with forks := g.forks.set j (some (a', q')) } k =
      if k = j then some (a', q') else g.fork k := fun k => lookup_set hg _ k
  refine ⟨hr.tl, by simp [hr.fl], hr.tn, ?_, hr.tree, hr.one, ?_⟩
  · intro k
    rw [l1, l2]
    split
    · simp
    · exact hr.fn k
  · intro k f1 a1 q1 e1 e2
    rw [l1] at e1
    rw [l2] at e2
    split at e1
    · rename_i hk
      rw [if_pos hk] at e2
      cases e1; cases e2
      exact ⟨hf.old, hf.att, hf.rel⟩
    · rename_i hk
      rw [if_neg hk] at e2
      have := hr.fork e1 e2
      exact ⟨this.old, this.att, this.rel⟩

/-- A new fork. -/
theorem Rel.addFork (hr : Rel H h G K w g) {f' : Fork D N} {a' : Option Nat} {q' : FRef D}
    (hf : ForkRel H h G K w g f' a' q') :
    Rel H h G K { w with forks := w.forks ++ [some f'] } { g with forks := g.forks ++ [some (a', q')] } := by
  have l1 : ∀ k, Wood.fork { w with forks := w.forks ++ [some f'] } k =
      if k = w.forks.length then some f' else w.fork k := fun k => lookup_append _ _ k
  have l2 : ∀ k, Grove.fork { g with forks := g.forks ++ [some (a', q')] } k =
      if k = w.forks.length then some (a', q') else g.fork k := fun k => hr.fl ▸ lookup_append _ _ k
  refine ⟨hr.tl, by simp [hr.fl], hr.tn, ?_, hr.tree, hr.one, ?_⟩
  · intro k
    rw [l1, l2]
    split
    · simp
    · exact hr.fn k
  · intro k f1 a1 q1 e1 e2
    rw [l1] at e1
    rw [l2] at e2
    split at e1
    · rename_i hk
      rw [if_pos hk] at e2
      cases e1; cases e2
      exact ⟨hf.old, hf.att, hf.rel⟩
    · rename_i hk
      rw [if_neg hk] at e2
      have := hr.fork e1 e2
      exact ⟨this.old, this.att, this.rel⟩

/-- A new trunk. -/
theorem Rel.addTrunk (hr : Rel H h G K w g) {t : T} {r : List (D × Bool)} (hg : G t r)
    (hn : NonDefaultOn H h (r.map Prod.fst)) :
    Rel H h G K { w with trunks := w.trunks ++ [some ⟨w.fresh, t⟩], fresh := w.fresh + 1 }
      { g with trunks := g.trunks ++ [some r] } := by
  have l1 : ∀ k, Wood.trunk (D := D) (N := N) { w with trunks := w.trunks ++ [some ⟨w.fresh, t⟩], fresh := w.fresh + 1 } k =
      if k = w.trunks.length then some ⟨w.fresh, t⟩ else w.trunk k := fun k => lookup_append _ _ k
  have l2 : ∀ k, Grove.trunk { g with trunks := g.trunks ++ [some r] } k =
      if k = w.trunks.length then some r else g.trunk k := fun k => hr.tl ▸ lookup_append _ _ k
  have hlast : w.trunk w.trunks.length = none := lookup_length _
  refine ⟨by simp [hr.tl], hr.fl, ?_, hr.fn, ?_, ?_, ?_⟩
  · intro k
    rw [l1, l2]
    split
    · simp
    · exact hr.tn k
  · intro k tr1 r1 e1 e2
    rw [l1] at e1
    rw [l2] at e2
    split at e1
    · rename_i hk
      rw [if_pos hk] at e2
      cases e1; cases e2
      exact ⟨Nat.lt_succ_self _, hg, hn⟩
    · rename_i hk
      rw [if_neg hk] at e2
      have := hr.tree e1 e2
      exact ⟨Nat.lt_succ_of_lt this.1, this.2⟩
  · intro i k a b e1 e2 e3
    rw [l1] at e1 e2
    have hlt : ∀ {i a}, w.trunk i = some a → a.ptr < w.fresh := fun e =>
      (hr.tree e (hr.someTrunk e).choose_spec).1
    split at e1
    · split at e2
      · omega
      · cases e1
        have := hlt e2
        simp only at e3
        omega
    · split at e2
      · cases e2
        have := hlt e1
        simp only at e3
        omega
      · exact hr.one e1 e2 e3
  · intro k f1 a1 q1 e1 e2
    have := hr.fork e1 e2
    refine ⟨Nat.lt_succ_of_lt this.old, fun i => ?_, ?_⟩
    · rw [l1]
      by_cases hi : i = w.trunks.length
      · rw [if_pos hi]
        constructor
        · intro e
          obtain ⟨tr, e3, _⟩ := (this.att i).mp e
          rw [hi, hlast] at e3
          cases e3
        · rintro ⟨tr, e3, e4⟩
          cases e3
          have := this.old
          simp only at e4
          omega
      · rw [if_neg hi]
        exact this.att i
    · obtain ⟨t1, r1, r2⟩ := this.rel
      refine ⟨t1, r1, fun i hi => ?_⟩
      have hne : i ≠ w.trunks.length := by
        intro e
        obtain ⟨tr, e3, _⟩ := (this.att i).mp hi
        rw [e, hlast] at e3
        cases e3
      rw [l1, l2, if_neg hne, if_neg hne]
      exact r2 i hi

/-- A trunk loses its allocation, which may be replaced by a new one. -/
theorem Rel.setTrunk (hr : Rel H h G K w g) {i : Nat} {tr : Trunk T} (hi : w.trunk i = some tr)
    (x : Option (T × List (D × Bool)))
    (hx : ∀ y, x = some y → G y.1 y.2 ∧ NonDefaultOn H h (y.2.map Prod.fst)) :
    Rel H h G K { w with trunks := w.trunks.set i (x.map fun y => ⟨w.fresh, y.1⟩), fresh := w.fresh + 1 }
      ⟨g.trunks.set i (x.map Prod.snd), g.forks.map (Grove.detach i)⟩ := by
  obtain ⟨r, hri⟩ := hr.someTrunk hi
  have l1 : ∀ k, Wood.trunk (D := D) (N := N)
      { w with trunks := w.trunks.set i (x.map fun y => ⟨w.fresh, y.1⟩), fresh := w.fresh + 1 } k =
      if k = i then (x.map fun y => ⟨w.fresh, y.1⟩) else w.trunk k := fun k => lookup_set hi _ k
  have l2 : ∀ k, Grove.trunk ⟨g.trunks.set i (x.map Prod.snd), g.forks.map (Grove.detach i)⟩ k =
      if k = i then x.map Prod.snd else g.trunk k := fun k => lookup_set hri _ k
  have l3 : ∀ k, Grove.fork ⟨g.trunks.set i (x.map Prod.snd), g.forks.map (Grove.detach i)⟩ k =
      (g.fork k).map fun x => if x.1 = some i then (none, x.2) else x := fun k => lookup_map _ k
  have hlt : ∀ {i a}, w.trunk i = some a → a.ptr < w.fresh := fun e =>
    (hr.tree e (hr.someTrunk e).choose_spec).1
  refine ⟨by simp [hr.tl], by simp [hr.fl], ?_, ?_, ?_, ?_, ?_⟩
  · intro k
    rw [l1, l2]
    split
    · simp
    · exact hr.tn k
  · intro k
    rw [l3, Option.map_eq_none_iff]
    exact hr.fn k
  · intro k tr1 r1 e1 e2
    rw [l1] at e1
    rw [l2] at e2
    split at e1
    · rename_i hk
      rw [if_pos hk] at e2
      cases x with
      | none => cases e1
      | some y =>
        cases e1; cases e2
        exact ⟨Nat.lt_succ_self _, hx y rfl⟩
    · rename_i hk
      rw [if_neg hk] at e2
      have := hr.tree e1 e2
      exact ⟨Nat.lt_succ_of_lt this.1, this.2⟩
  · intro k m a b e1 e2 e3
    rw [l1] at e1 e2
    have hnew : ∀ {a : Trunk T}, (x.map fun y => (⟨w.fresh, y.1⟩ : Trunk T)) = some a → a.ptr = w.fresh := by
      intro a e
      rw [Option.map_eq_some_iff] at e
      obtain ⟨y, _, e⟩ := e
      rw [← e]
    split at e1
    · split at e2
      · omega
      · have := hlt e2
        have := hnew e1
        omega
    · split at e2
      · have := hlt e1
        have := hnew e2
        omega
      · exact hr.one e1 e2 e3
  · intro k f1 a1 q1 e1 e2
    rw [l3, Option.map_eq_some_iff] at e2
    obtain ⟨⟨a0, q0⟩, e3, e4⟩ := e2
    have hf := hr.fork e1 e3
    obtain ⟨t1, r1, r2⟩ := hf.rel
    simp only at e4
    by_cases ha : a0 = some i
    · rw [if_pos ha] at e4
      cases e4
      refine ⟨Nat.lt_succ_of_lt hf.old, fun k2 => ?_, t1, r1, fun k2 e => by cases e⟩
      rw [l1]
      constructor
      · intro e; cases e
      · rintro ⟨tr2, e5, e6⟩
        split at e5
        · rw [Option.map_eq_some_iff] at e5
          obtain ⟨y, _, e5⟩ := e5
          rw [← e5] at e6
          have := hf.old
          simp only at e6
          omega
        · rename_i hk
          have := (hf.att k2).mpr ⟨tr2, e5, e6⟩
          rw [ha] at this
          exact absurd (Option.some.inj this).symm hk
    · rw [if_neg ha] at e4
      cases e4
      refine ⟨Nat.lt_succ_of_lt hf.old, fun k2 => ?_, t1, r1, fun k2 e => ?_⟩
      · rw [l1]
        by_cases hk : k2 = i
        · rw [if_pos hk]
          constructor
          · intro e; exact absurd (hk ▸ e) ha
          · rintro ⟨tr2, e5, e6⟩
            rw [Option.map_eq_some_iff] at e5
            obtain ⟨y, _, e5⟩ := e5
            rw [← e5] at e6
            have := hf.old
            simp only at e6
            omega
        · rw [if_neg hk]
          exact hf.att k2
      · have hk : k2 ≠ i := fun e' => ha (e' ▸ e)
        rw [l1, l2, if_neg hk, if_neg hk]
        exact r2 k2 e

/-- A fork is moved away. -/
theorem Rel.dropFork (hr : Rel H h G K w g) {j : Nat} {f : Fork D N} {a : Option Nat} {q : FRef D}
    (hj : w.fork j = some f) (hg : g.fork j = some (a, q)) :
    Rel H h G K { w with forks := w.forks.set j none } { g with forks := g.forks.set j none } := by
  have l1 : ∀ k, Wood.fork { w with forks := w.forks.set j none } k = if k = j then none else w.fork k :=
    fun k => lookup_set hj _ k
  have l2 : ∀ k, Grove.fork { g with forks := g.forks.set j none } k =
      if k = j then none else g.fork k := fun k => lookup_set hg _ k
  refine ⟨hr.tl, by simp [hr.fl], hr.tn, ?_, hr.tree, hr.one, ?_⟩
  · intro k
    rw [l1, l2]
    split
    · simp
    · exact hr.fn k
  · intro k f1 a1 q1 e1 e2
    rw [l1] at e1
    rw [l2] at e2
    split at e1
    · cases e1
    · rename_i hk
      rw [if_neg hk] at e2
      have := hr.fork e1 e2
      exact ⟨this.old, this.att, this.rel⟩

end Wood

end Verif.Merkle
