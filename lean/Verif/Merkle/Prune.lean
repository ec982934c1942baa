import Verif.Merkle.Partial

/-! # Pruning a partial tree -/

namespace Verif.Merkle

variable {D N : Type} (H : Hash D N) (h : Nat)

namespace LeafMap

theorem remove_last (m : LeafMap D) (i : Nat) : (m.remove i).last = m.last := by
  unfold remove; split
  · split <;> rfl
  · rfl

theorem remove_next (m : LeafMap D) (i : Nat) : (m.remove i).next = m.next := by
  unfold next; rw [remove_last]

theorem remove_kind (m : LeafMap D) (i : Nat) : (m.remove i).kind = m.kind := by
  unfold remove; split
  · split
    · rfl
    · rfl
  · rfl

theorem remove_map (m : LeafMap D) (i j : Nat) :
    (m.remove i).map j = if m.kind = .map ∧ m.last ≠ some i ∧ j = i then none else m.map j := by
  unfold remove
  split
  · rename_i hk
    by_cases hl : m.last = some i
    · rw [if_pos hl, if_neg (by simp [hl])]
    · rw [if_neg hl]
      by_cases hj : j = i
      · simp [hj, hk, hl]
      · simp [hj]
  · rename_i hk
    rw [if_neg (fun hc => hk hc.1)]

/-- Removing a leaf that is marked or removed leaves it so. -/
theorem remove_mor (m : LeafMap D) {i : Nat} (hi : m.markedOrRemoved i = true) (j : Nat) :
    (m.remove i).markedOrRemoved j = m.markedOrRemoved j := by
  have key : (m.remove i).markedOrRemoved j = true ↔ m.markedOrRemoved j = true := by
    rw [mor_iff, mor_iff, remove_next]
    unfold isMarked
    rw [remove_map]
    by_cases hc : m.kind = .map ∧ m.last ≠ some i ∧ j = i
    · rw [if_pos hc]
      have := (mor_iff m i).mp hi
      unfold isMarked at this
      rw [hc.2.2]
      simp [this]
    · rw [if_neg hc]
  cases h1 : (m.remove i).markedOrRemoved j <;> cases h2 : m.markedOrRemoved j <;> simp_all

end LeafMap

namespace Partial

/-- A leaf whose proof has to stay available: it is not below the starting index, and neither marked nor
removed. -/
def Live (t : Partial D N) (j : Nat) : Prop := t.start ≤ j ∧ t.leaf.markedOrRemoved (j - t.start) = false

/-- A leaf that is stored, or not appended yet. -/
def Kept (t : Partial D N) (j : Nat) : Prop :=
  t.start ≤ j ∧ ((t.leaf.map (j - t.start)).isSome ∨ t.leaf.next ≤ j - t.start)

/-- What pruning keeps. -/
structure Pruned (t t' : Partial D N) : Prop where
  start : t'.start = t.start
  kind : t'.leaf.kind = t.leaf.kind
  last : t'.leaf.last = t.leaf.last
  mor : ∀ j, t'.leaf.markedOrRemoved j = t.leaf.markedOrRemoved j
  sub : ∀ j x, t'.leaf.map j = some x → t.leaf.map j = some x
  keep : ∀ j, t.leaf.markedOrRemoved j = false → t'.leaf.map j = t.leaf.map j

theorem Pruned.refl (t : Partial D N) : Pruned t t :=
  ⟨rfl, rfl, rfl, fun _ => rfl, fun _ _ e => e, fun _ _ => rfl⟩

theorem Pruned.trans {t u v : Partial D N} (h1 : Pruned t u) (h2 : Pruned u v) : Pruned t v :=
  ⟨h2.start.trans h1.start, h2.kind.trans h1.kind, h2.last.trans h1.last, fun j => (h2.mor j).trans (h1.mor j),
    fun j x e => h1.sub j x (h2.sub j x e), fun j e => by rw [h2.keep j (by rw [h1.mor j]; exact e), h1.keep j e]⟩

theorem Pruned.live {t t' : Partial D N} (hp : Pruned t t') (j : Nat) : Live t' j ↔ Live t j := by
  unfold Live; rw [hp.start, hp.mor]

theorem Pruned.next {t t' : Partial D N} (hp : Pruned t t') : t'.leaf.next = t.leaf.next := by
  unfold LeafMap.next; rw [hp.last]

variable {t : Partial D N} {l : List D}

theorem removeLoop_spec {leaf : LeafMap D} {w : Nat → Nat → Prop} {i : Nat} (hi : i < 2 ^ (h + 1)) :
    ∀ (d k : Nat) (m : InnerMap N), k + d + 1 = h →
      (∀ j, j / 2 ^ (k + 1) = i / 2 ^ (k + 1) → leaf.markedOrRemoved j = true) →
      Nodes H h (fun j => leaf.markedOrRemoved j = false) w m l →
      ∃ m', removeLoop h leaf 0 (ancestors d (i / 2 ^ (k + 1))) m = some m' ∧
        Nodes H h (fun j => leaf.markedOrRemoved j = false) w m' l := by
  have step : ∀ (d k : Nat) (m : InnerMap N), k + d + 1 = h →
      (∀ j, j / 2 ^ (k + 1) = i / 2 ^ (k + 1) → leaf.markedOrRemoved j = true) →
      Nodes H h (fun j => leaf.markedOrRemoved j = false) w m l →
      Nodes H h (fun j => leaf.markedOrRemoved j = false) w
        (m.remove (InnerNode.mk d (i / 2 ^ (k + 1))).sibling.mapIndex) l := by
    intro d k m hk hall hn
    simp only [InnerNode.sibling, mapIndex_eq h hk]
    refine hn.remove H h (by omega) (sib_lt h hi (by omega)) ?_
    rintro (e | ⟨j, _, h2, h3⟩)
    · omega
    · rw [sibling_sibling] at h2
      rw [hall j h2] at h3
      cases h3
  have next : ∀ (d k : Nat), k + d + 1 = h →
      (∀ j, j / 2 ^ (k + 1) = i / 2 ^ (k + 1) → leaf.markedOrRemoved j = true) →
      ¬ ((leafNodes h (InnerNode.mk d (i / 2 ^ (k + 1))).sibling).any
          fun x => !leaf.markedOrRemoved (x - 0)) = true →
      ∀ j, j / 2 ^ (k + 2) = i / 2 ^ (k + 2) → leaf.markedOrRemoved j = true := by
    intro d k hk hall hany j hj
    rw [div_pow_succ j (k + 1), div_pow_succ i (k + 1)] at hj
    by_cases he : j / 2 ^ (k + 1) = i / 2 ^ (k + 1)
    · exact hall j he
    · have hs : j / 2 ^ (k + 1) = sibling (i / 2 ^ (k + 1)) := by
        generalize j / 2 ^ (k + 1) = a at *
        generalize i / 2 ^ (k + 1) = b at *
        unfold sibling; split <;> omega
      have hmem : j ∈ leafNodes h (InnerNode.mk d (i / 2 ^ (k + 1))).sibling := by
        unfold leafNodes
        simp only [InnerNode.sibling, show h - d = k + 1 by omega, List.mem_map, List.mem_range]
        refine ⟨j % 2 ^ (k + 1), Nat.mod_lt _ (Nat.two_pow_pos _), ?_⟩
        rw [← hs, Nat.mul_comm]
        exact Nat.div_add_mod j _
      have := hany
      rw [List.any_eq_true] at this
      cases hm : leaf.markedOrRemoved j with
      | true => rfl
      | false => exact absurd ⟨j, hmem, by simp [hm]⟩ this
  intro d
  induction d with
  | zero =>
    intro k m hk hall hn
    simp only [ancestors, removeLoop]
    rw [if_neg (Nat.not_lt_zero _)]
    have := step 0 k m hk hall hn
    split
    · exact ⟨_, rfl, this⟩
    · exact ⟨_, rfl, this⟩
  | succ d ih =>
    intro k m hk hall hn
    simp only [ancestors, removeLoop]
    rw [if_neg (Nat.not_lt_zero _), ← div_pow_succ i (k + 1)]
    have := step (d + 1) k m hk hall hn
    split
    · exact ⟨_, rfl, this⟩
    · rename_i hany
      exact ih (k + 1) _ (by omega) (next (d + 1) k hk hall hany) this

/-- Removing the path above one leaf. -/
theorem removePathAt_spec {w : Nat → Nat → Prop} (hs : t.Store h l) (h0 : t.start = 0)
    (hn : Nodes H h (Live t) w t.inner l) (i : Nat) :
    ∃ t', t.removePathAt h i = some t' ∧ t'.Store h l ∧ Pruned t t' ∧ Nodes H h (Live t) w t'.inner l ∧
      (t.leaf.kind = .map → t.leaf.markedOrRemoved i = true → t.leaf.markedOrRemoved (sibling i) = true →
        t'.leaf.map i = none) := by
  unfold removePathAt
  by_cases hc : t.leaf.markedOrRemoved (sibling i) = true ∧ t.leaf.markedOrRemoved i = true
  · obtain ⟨c1, c2⟩ := hc
    rw [if_pos ⟨c1, c2⟩]
    have hi' := (LeafMap.mor_iff _ _).mp c2
    have hsi' := (LeafMap.mor_iff _ _).mp c1
    have hm1 : ∀ j, ((t.leaf.remove i).remove (sibling i)).markedOrRemoved j = t.leaf.markedOrRemoved j := by
      intro j
      rw [LeafMap.remove_mor _ (by rw [LeafMap.remove_mor _ c2]; exact c1), LeafMap.remove_mor _ c2]
    have hlast : t.leaf.last ≠ some i := by
      intro e
      have : t.leaf.next = i + 1 := by unfold LeafMap.next; rw [e]
      omega
    have hlast' : (t.leaf.remove i).last ≠ some (sibling i) := by
      rw [LeafMap.remove_last]
      intro e
      have : t.leaf.next = sibling i + 1 := by unfold LeafMap.next; rw [e]
      omega
    have hmap : ∀ j, ((t.leaf.remove i).remove (sibling i)).map j =
        if t.leaf.kind = .map ∧ (j = i ∨ j = sibling i) then none else t.leaf.map j := by
      intro j
      rw [LeafMap.remove_map, LeafMap.remove_map, LeafMap.remove_kind]
      by_cases hk : t.leaf.kind = .map
      · by_cases hj : j = i
        · simp [hk, hj, hlast]
        · by_cases hj2 : j = sibling i
          · simp [hk, hj2, hlast']
          · simp [hj, hj2]
      · simp [hk]
    generalize hleaf : (t.leaf.remove i).remove (sibling i) = leaf at *
    have hnext : leaf.next = t.leaf.next := by
      rw [← hleaf, LeafMap.remove_next, LeafMap.remove_next]
    have hlst : leaf.last = t.leaf.last := by
      rw [← hleaf, LeafMap.remove_last, LeafMap.remove_last]
    have hkind : leaf.kind = t.leaf.kind := by
      rw [← hleaf, LeafMap.remove_kind, LeafMap.remove_kind]
    have hl := hs.len
    have hcap := hs.cap
    have hlive : ∀ j, Live t j ↔ leaf.markedOrRemoved j = false := by
      intro j; unfold Live; rw [h0, hm1]; simp
    have hn' : Nodes H h (fun j => leaf.markedOrRemoved j = false) w t.inner l :=
      hn.mono H h (fun j e => (hlive j).mpr e) fun _ _ e => e
    have hall : ∀ j, j / 2 ^ (0 + 1) = i / 2 ^ (0 + 1) → leaf.markedOrRemoved j = true := by
      intro j hj
      simp only [Nat.zero_add, Nat.pow_one] at hj
      rw [hm1]
      by_cases he : j = i
      · rw [he]; exact c2
      · have : j = sibling i := by unfold sibling; split <;> omega
        rw [this]; exact c1
    have hloop : ∃ m', removeLoop h leaf t.start (fromLeaf h (i + t.start)) t.inner = some m' ∧
        Nodes H h (fun j => leaf.markedOrRemoved j = false) w m' l := by
      rw [h0, Nat.add_zero]
      cases h with
      | zero => exact ⟨_, rfl, hn'⟩
      | succ d =>
        have := removeLoop_spec H (d + 1) (w := w) (l := l) (leaf := leaf) (i := i) (by omega) d 0 t.inner
          (by omega) hall hn'
        simp only [Nat.zero_add, Nat.pow_one] at this
        exact this
    obtain ⟨m', hm', hn''⟩ := hloop
    simp only [hm', Option.map_some]
    refine ⟨_, rfl, ?_, ⟨rfl, hkind, hlst, hm1, ?_, ?_⟩, hn''.mono H h (fun j e => (hlive j).mp e) fun _ _ e => e, ?_⟩
    · refine ⟨by rw [hnext]; exact hl, hcap, hs.even, ?_, ?_, ?_⟩
      · intro j x hx
        simp only [hmap] at hx
        split at hx
        · cases hx
        · exact hs.stored j x hx
      · intro c hc
        simp only [hlst] at hc
        simp only [hmap]
        have hcn : t.leaf.next = c + 1 := by unfold LeafMap.next; rw [hc]
        rw [if_neg (by rintro ⟨_, e | e⟩ <;> omega)]
        exact hs.last c hc
      · intro j hj hlt
        simp only [hmap, hnext] at hj hlt ⊢
        by_cases hk : t.leaf.kind = .map ∧ (j = i ∨ j = sibling i)
        · rw [if_pos hk] at hj; cases hj
        · rw [if_neg hk] at hj
          rw [if_neg]
          · exact hs.pair j hj hlt
          · rintro ⟨e1, e2 | e2⟩
            · exact hk ⟨e1, .inr (by rw [← e2, sibling_sibling])⟩
            · exact hk ⟨e1, .inl (by rw [← sibling_sibling j, e2, sibling_sibling])⟩
    · intro j x hx
      simp only [hmap] at hx
      split at hx
      · cases hx
      · exact hx
    · intro j hj
      simp only [hmap]
      rw [if_neg]
      rintro ⟨_, e | e⟩
      · rw [e, c2] at hj; cases hj
      · rw [e, c1] at hj; cases hj
    · intro hk _ _
      simp [hmap, hk]
  · rw [if_neg hc]
    exact ⟨t, rfl, hs, Pruned.refl t, hn, fun _ a b => absurd ⟨b, a⟩ hc⟩

theorem pruneLoop_spec {w : Nat → Nat → Prop} : ∀ (is : List Nat) {t : Partial D N}, t.Store h l → t.start = 0 →
    Nodes H h (Live t) w t.inner l →
    ∃ t', pruneLoop h is t = some t' ∧ t'.Store h l ∧ Pruned t t' ∧ Nodes H h (Live t) w t'.inner l ∧
      (t.leaf.kind = .map → ∀ i ∈ is, t.leaf.markedOrRemoved i = true →
        t.leaf.markedOrRemoved (sibling i) = true → t'.leaf.map i = none)
  | [], t, hs, _, hn => ⟨t, rfl, hs, Pruned.refl t, hn, fun _ _ hi => (nomatch hi)⟩
  | i :: is, t, hs, h0, hn => by
    obtain ⟨u, hu, su, pu, nu, ru⟩ := removePathAt_spec H h hs h0 hn i
    have nu' : Nodes H h (Live u) w u.inner l := nu.mono H h (fun j e => (pu.live j).mp e) fun _ _ e => e
    obtain ⟨v, hv, sv, pv, nv, rv⟩ := pruneLoop_spec is su (by rw [pu.start, h0]) nu'
    refine ⟨v, ?_, sv, pu.trans pv, nv.mono H h (fun j e => (pu.live j).mpr e) fun _ _ e => e, ?_⟩
    · simp only [pruneLoop, hu, Option.bind_some, hv]
    · intro hk j hj m1 m2
      rcases List.mem_cons.mp hj with e | e
      · subst e
        have := ru hk m1 m2
        cases hx : v.leaf.map j with
        | none => rfl
        | some x => rw [pv.sub j x hx] at this; cases this
      · exact rv (by rw [pu.kind]; exact hk) j e (by rw [pu.mor]; exact m1) (by rw [pu.mor]; exact m2)

/-- Pruning: it does not panic, keeps every live leaf and every digest beside their paths; with a map as leaf
store, only leaves next to a live leaf (or live themselves) stay. -/
theorem prune_spec {w : Nat → Nat → Prop} (hs : t.Store h l) (h0 : t.start = 0)
    (hn : Nodes H h (Live t) w t.inner l) :
    ∃ t', t.prune h = some t' ∧ t'.Store h l ∧ Pruned t t' ∧ Nodes H h (Live t') w t'.inner l ∧
      (t.leaf.kind = .map → ∀ j, Kept t' j → Live t' j ∨ Live t' (sibling j)) := by
  unfold prune
  cases hl : t.leaf.last with
  | none =>
    refine ⟨t, rfl, hs, Pruned.refl t, hn, ?_⟩
    intro _ j _
    left
    refine ⟨by omega, ?_⟩
    unfold LeafMap.markedOrRemoved
    rw [hl]
  | some c =>
    simp only
    obtain ⟨t', h1, h2, h3, h4, h5⟩ := pruneLoop_spec H h
      ((List.range c).filter fun i => (t.leaf.isMarked i).getD false) hs h0 hn
    refine ⟨t', h1, h2, h3, h4.mono H h (fun j e => (h3.live j).mp e) fun _ _ e => e, ?_⟩
    intro hk j hj
    have hs0 : t'.start = 0 := by rw [h3.start, h0]
    have hlive : ∀ j, t.leaf.markedOrRemoved j = false → Live t' j := by
      intro j e
      refine ⟨by omega, ?_⟩
      rw [hs0, Nat.sub_zero, h3.mor]; exact e
    cases m1 : t.leaf.markedOrRemoved j with
    | false => exact .inl (hlive j m1)
    | true =>
      cases m2 : t.leaf.markedOrRemoved (sibling j) with
      | false => exact .inr (hlive _ m2)
      | true =>
        exfalso
        have hnext : t.leaf.next = c + 1 := by unfold LeafMap.next; rw [hl]
        have hm := (LeafMap.mor_iff _ _).mp m1
        have := hj.2
        rw [hs0, Nat.sub_zero, h3.next] at this
        rcases this with e | e
        · obtain ⟨x, hx⟩ := Option.isSome_iff_exists.mp e
          have hx' := h3.sub j x hx
          have : j ∈ (List.range c).filter fun i => (t.leaf.isMarked i).getD false := by
            rw [List.mem_filter, List.mem_range]
            refine ⟨by omega, ?_⟩
            have := hm.2
            unfold LeafMap.isMarked at *
            rw [hx'] at this ⊢
            exact this
          rw [h5 hk j this m1 m2] at hx
          cases hx
        · omega

end Partial

end Verif.Merkle
