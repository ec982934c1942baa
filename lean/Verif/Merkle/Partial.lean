import Verif.Merkle.FullProps
import Verif.Merkle.PartialModel

/-!
# Partial trees: invariants

`Store` relates the leaf store to the whole leaf sequence.  `Nodes` says that the digests beside the paths of
a set of leaves, and the root, are the reference digests.
-/

namespace Verif.Merkle

variable {D N : Type} (H : Hash D N) (h : Nat)

theorem sibling_add_even {s : Nat} (hs : s % 2 = 0) (i : Nat) : sibling (s + i) = s + sibling i := by
  unfold sibling
  by_cases hp : i % 2 = 0
  · rw [if_pos hp, if_pos (by omega)]; omega
  · rw [if_neg hp, if_neg (by omega)]; omega

theorem sibling_div_pow (j k : Nat) : sibling j / 2 ^ (k + 1) = j / 2 ^ (k + 1) := by
  rw [Nat.pow_succ', ← Nat.div_div_eq_div_mul, ← Nat.div_div_eq_div_mul, sibling_div]

/-! ## Nodes that proofs depend on -/

/-- The node `(k, i)` is the root or lies beside the path of a leaf of `P`. -/
def Need (P : Nat → Prop) (k i : Nat) : Prop :=
  k = h ∨ ∃ j, j < 2 ^ (h + 1) ∧ j / 2 ^ (k + 1) = sibling i ∧ P j

/-- Among the nodes of `w`, the needed ones are right. -/
def Nodes (P : Nat → Prop) (w : Nat → Nat → Prop) (m : InnerMap N) (l : List D) : Prop :=
  ∀ k i, k ≤ h → i < 2 ^ (h - k) → w k i → Need h P k i → Rt H h m l k i

theorem Need.mono {P Q : Nat → Prop} (hpq : ∀ j, P j → Q j) {k i : Nat} (hn : Need h P k i) : Need h Q k i := by
  rcases hn with e | ⟨j, h1, h2, h3⟩
  · exact .inl e
  · exact .inr ⟨j, h1, h2, hpq j h3⟩

theorem Nodes.mono {P Q : Nat → Prop} {w w' : Nat → Nat → Prop} {m : InnerMap N} {l : List D}
    (hn : Nodes H h Q w m l) (hpq : ∀ j, P j → Q j) (hw : ∀ k i, w' k i → w k i) : Nodes H h P w' m l :=
  fun k i h1 h2 h3 h4 => hn k i h1 h2 (hw k i h3) (h4.mono h hpq)

/-- Appending one leaf. -/
theorem Nodes.push {P : Nat → Prop} {m : InnerMap N} {l : List D} {d : D}
    (hn : Nodes H h P (fun k i => ¬ Stale l.length k i) m l) (hc : l.length < 2 ^ (h + 1)) (hP : P l.length) :
    Nodes H h P (fun _ _ => True) (insert H h m l.length (nodeVal H (l ++ [d]) 0 (l.length / 2))) (l ++ [d]) := by
  have hlt : l.length < (l ++ [d]).length := by simp
  have hs : ∀ j, j < h → Rt H h m (l ++ [d]) j (sibling (l.length / 2 ^ (j + 1))) := by
    intro j hj
    unfold Rt
    rw [nodeVal_push H (sibling_ne _)]
    refine hn j _ (by omega) (sib_lt h hc hj) (fun hst => sibling_ne _ hst.1) (.inr ⟨l.length, hc, ?_, hP⟩)
    rw [sibling_sibling]
  obtain ⟨r1, r2⟩ := insert_spec H h hlt hc m hs
  intro k i hk hi _ hneed
  by_cases hik : i = l.length / 2 ^ (k + 1)
  · subst hik; exact r1 k hk
  · unfold Rt
    rw [getOr_congr H (r2 _ fun j hj heq => ?_), nodeVal_push H hik]
    · exact hn k i hk hi (fun hst => hik hst.1) hneed
    · obtain ⟨e1, e2⟩ := mi_inj h hk hj hi (anc_lt h hc hj) heq
      subst e1
      exact hik e2

/-- Appending a batch. -/
theorem Nodes.batch {P : Nat → Prop} {w : Nat → Nat → Prop} {m : InnerMap N} {l ds : List D} (hds : ds ≠ [])
    (hn : Nodes H h P (fun k i => ¬ Stale l.length k i) m l) (hc : l.length + ds.length ≤ 2 ^ (h + 1))
    (hP : ∀ j, l.length ≤ j → j < l.length + ds.length → P j)
    (hg : Guard h l.length (l.length + ds.length) w)
    {sib : Nat → Option D} (hsib : ∀ i, l.length ≤ i → i < l.length + ds.length → sib i = l[sibling i]?) :
    ∃ m', batchInsert H h m ⟨l.length, ds.length - 1⟩
        (NodeRange.joinLeaves H ⟨l.length, ds.length - 1⟩ ds sib) = some m' ∧
      Nodes H h P w m' (l ++ ds) := by
  have hq : 0 < ds.length := List.length_pos_iff.mpr hds
  let g : Nat → Nat → Prop := fun k i => w k i ∧
    ((l.length / 2 ^ (k + 1) ≤ i ∧ i ≤ (l.length + ds.length - 1) / 2 ^ (k + 1)) ∨ Need h P k i)
  have hg' : Guard h l.length (l.length + ds.length) g := by
    refine ⟨?_, ?_⟩
    · rintro k p i hk h1 h2 ⟨hw, _⟩ hi
      refine ⟨hg.down k p i hk h1 h2 hw hi, ?_⟩
      rw [div_pow_succ _ (k + 1)] at h1 h2
      by_cases hin : l.length / 2 ^ (k + 1) ≤ i ∧ i ≤ (l.length + ds.length - 1) / 2 ^ (k + 1)
      · exact .inl hin
      · refine .inr (.inr ?_)
        by_cases hlo : l.length / 2 ^ (k + 1) ≤ i
        · refine ⟨l.length + ds.length - 1, by omega, ?_, hP _ (by omega) (by omega)⟩
          have h3 : l.length / 2 ^ (k + 1) ≤ (l.length + ds.length - 1) / 2 ^ (k + 1) :=
            Nat.div_le_div_right (by omega)
          generalize l.length / 2 ^ (k + 1) = a at *
          generalize (l.length + ds.length - 1) / 2 ^ (k + 1) = b at *
          unfold sibling
          split <;> omega
        · refine ⟨l.length, by omega, ?_, hP _ (by omega) (by omega)⟩
          generalize l.length / 2 ^ (k + 1) = a at *
          generalize (l.length + ds.length - 1) / 2 ^ (k + 1) = b at *
          unfold sibling
          split <;> omega
    · intro k hk h1 h2 hcon
      exact hg.skip k hk h1 h2 hcon.1
  obtain ⟨m', hm, hr⟩ := batchInsert_spec H h hds hc hg' hsib m (by
    rintro j i hj hi ho ⟨_, hgi⟩
    have hle : l.length / 2 ^ (j + 1) ≤ (l.length + ds.length - 1) / 2 ^ (j + 1) :=
      Nat.div_le_div_right (by omega)
    have hneed : Need h P j i := by
      rcases hgi with h1 | h1
      · omega
      · exact h1
    unfold Rt
    rw [nodeVal_append H]
    · exact hn j i (by omega) hi (fun hst => by rw [hst.1] at ho; omega) hneed
    · intro x h1 h2 he
      have a1 : l.length / 2 ^ (j + 1) ≤ x / 2 ^ (j + 1) := Nat.div_le_div_right h1
      have a2 : x / 2 ^ (j + 1) ≤ (l.length + ds.length - 1) / 2 ^ (j + 1) := Nat.div_le_div_right (by omega)
      omega)
  exact ⟨m', hm, fun k i hk hi hw hneed => hr k i hk hi ⟨hw, .inr hneed⟩⟩

/-- Removing a node that is not needed. -/
theorem Nodes.remove {P : Nat → Prop} {w : Nat → Nat → Prop} {m : InnerMap N} {l : List D}
    (hn : Nodes H h P w m l) {k i : Nat} (hk : k < h) (hi : i < 2 ^ (h - k)) (hneed : ¬ Need h P k i) :
    Nodes H h P w (m.remove (mi h k i)) l := by
  intro k' i' hk' hi' hw' hn'
  have := hn k' i' hk' hi' hw' hn'
  unfold Rt at *
  rw [← this]
  refine getOr_congr H ?_
  have hne : mi h k' i' ≠ mi h k i := by
    intro heq
    obtain ⟨e1, e2⟩ := mi_inj h hk' (by omega) hi' hi heq
    subst e1; subst e2
    exact hneed hn'
  simp [InnerMap.remove, hne]

/-! ## The leaf store -/

namespace LeafMap

theorem push_map (m : LeafMap D) (d : D) (j : Nat) :
    (m.push d).map j = if j = m.next then some (false, d) else m.map j := rfl

theorem push_next (m : LeafMap D) (d : D) : (m.push d).next = m.next + 1 := rfl

theorem extend_spec : ∀ (ds : List D) (m : LeafMap D),
    (m.extend ds).next = m.next + ds.length ∧ (m.extend ds).kind = m.kind ∧
    (∀ j, j < m.next → (m.extend ds).map j = m.map j) ∧
    (∀ c d, ds[c]? = some d → (m.extend ds).map (m.next + c) = some (false, d)) ∧
    (∀ j, m.next + ds.length ≤ j → (m.extend ds).map j = m.map j)
  | [], m => ⟨rfl, rfl, fun _ _ => rfl, fun _ _ e => by simp at e, fun _ _ => rfl⟩
  | d :: ds, m => by
    obtain ⟨h1, h0, h2, h3, h4⟩ := extend_spec ds (m.push d)
    have e : m.extend (d :: ds) = (m.push d).extend ds := rfl
    rw [e]
    rw [push_next] at *
    refine ⟨by rw [h1, List.length_cons]; omega, h0, ?_, ?_, ?_⟩
    · intro j hj
      rw [h2 j (by omega), push_map, if_neg (by omega)]
    · intro c x hx
      cases c with
      | zero =>
        rw [h2 _ (by omega), push_map, if_pos (by omega)]
        simp at hx; rw [hx]
      | succ c =>
        have := h3 c x (by simpa using hx)
        rw [← this]; congr 1; omega
    · intro j hj
      rw [List.length_cons] at hj
      rw [h4 j (by omega), push_map, if_neg (by omega)]

theorem mark_last (m : LeafMap D) (i : Nat) : (m.mark i).last = m.last := by
  unfold mark; split <;> rfl

theorem mark_next (m : LeafMap D) (i : Nat) : (m.mark i).next = m.next := by
  unfold next; rw [mark_last]

theorem mark_kind (m : LeafMap D) (i : Nat) : (m.mark i).kind = m.kind := by
  unfold mark; split <;> rfl

/-- Marking changes markings only: digests stay, other markings stay. -/
theorem mark_map (m : LeafMap D) (i j : Nat) :
    (m.mark i).map j = m.map j ∨
      (j = i ∧ m.kind ≠ .trivial ∧ (m.mark i).map j = (m.map j).map fun x => (true, x.2)) := by
  unfold mark
  split
  · exact .inl rfl
  · rename_i hk
    by_cases hj : j = i
    · subst hj; exact .inr ⟨rfl, fun e => hk e, by simp⟩
    · left; simp [hj]

theorem mark_get (m : LeafMap D) (i j : Nat) : (m.mark i).get j = m.get j := by
  unfold get
  rcases mark_map m i j with e | ⟨_, _, e⟩
  · rw [e]
  · rw [e]; cases m.map j <;> rfl

theorem mark_isSome (m : LeafMap D) (i j : Nat) : ((m.mark i).map j).isSome = (m.map j).isSome := by
  rcases mark_map m i j with e | ⟨_, _, e⟩
  · rw [e]
  · rw [e]; cases m.map j <;> rfl

theorem markAll_spec (a : Nat) : ∀ (n : Nat) (m : LeafMap D),
    (m.markAll a n).last = m.last ∧ (m.markAll a n).kind = m.kind ∧
    (∀ j, (m.markAll a n).get j = m.get j) ∧
    (∀ j, ((m.markAll a n).map j).isSome = (m.map j).isSome) ∧
    (∀ j, j < a → (m.markAll a n).map j = m.map j) ∧
    (∀ j, m.isMarked j = some true → (m.markAll a n).isMarked j = some true)
  | 0, m => ⟨rfl, rfl, fun _ => rfl, fun _ => rfl, fun _ _ => rfl, fun _ e => e⟩
  | n + 1, m => by
    obtain ⟨h1, h2, h3, h4, h5, h6⟩ := markAll_spec a n m
    have e : m.markAll a (n + 1) = (m.markAll a n).mark (a + n) := by
      simp [markAll, List.range_succ, List.foldl_append]
    rw [e]
    refine ⟨by rw [mark_last, h1], by rw [mark_kind, h2], fun j => by rw [mark_get, h3],
      fun j => by rw [mark_isSome, h4], fun j hj => ?_, fun j hj => ?_⟩
    · rcases mark_map (m.markAll a n) (a + n) j with e | ⟨e1, _⟩
      · rw [e, h5 j hj]
      · omega
    · have := h6 j hj
      unfold isMarked at *
      rcases mark_map (m.markAll a n) (a + n) j with e | ⟨_, _, e⟩
      · rw [e]; exact this
      · rw [e]
        cases hm : (m.markAll a n).map j with
        | none => rw [hm] at this; cases this
        | some x => rfl

theorem mor_iff (m : LeafMap D) (j : Nat) :
    m.markedOrRemoved j = true ↔ j + 1 < m.next ∧ (m.isMarked j).getD true = true := by
  unfold markedOrRemoved next
  cases m.last with
  | none => simp
  | some c =>
    simp only
    by_cases hj : j ≥ c
    · rw [if_pos hj]
      simp; omega
    · rw [if_neg hj]
      simp; omega

end LeafMap

/-- The leaf store holds some of the leaves of `l`, from the starting index on: the last one, and with every
leaf its sibling. -/
structure Partial.Store (t : Partial D N) (l : List D) : Prop where
  len : t.start + t.leaf.next = l.length
  cap : l.length ≤ 2 ^ (h + 1)
  even : t.start % 2 = 0
  stored : ∀ i x, t.leaf.map i = some x → l[t.start + i]? = some x.2
  last : ∀ c, t.leaf.last = some c → (t.leaf.map c).isSome
  pair : ∀ i, (t.leaf.map i).isSome → sibling i < t.leaf.next → (t.leaf.map (sibling i)).isSome

namespace Partial

variable {t : Partial D N} {l : List D}

theorem Store.lt (hs : t.Store h l) {i : Nat} {x : Bool × D} (hx : t.leaf.map i = some x) : i < t.leaf.next := by
  have h1 := hs.stored i x hx
  have h2 := hs.len
  have : t.start + i < l.length := by
    rcases Nat.lt_or_ge (t.start + i) l.length with h3 | h3
    · exact h3
    · rw [List.getElem?_eq_none h3] at h1; cases h1
  omega

theorem Store.get_ge (hs : t.Store h l) {i : Nat} (hi : t.leaf.next ≤ i) : t.leaf.get i = none := by
  unfold LeafMap.get
  cases hx : t.leaf.map i with
  | none => rfl
  | some x => exact absurd (hs.lt h hx) (by omega)

theorem Store.get_some (hs : t.Store h l) {i : Nat} (hi : (t.leaf.map i).isSome) :
    t.leaf.get i = l[t.start + i]? := by
  unfold LeafMap.get
  cases hx : t.leaf.map i with
  | none => rw [hx] at hi; cases hi
  | some x => rw [hs.stored i x hx]; rfl

theorem Store.len_eq (hs : t.Store h l) : t.len = l.length := hs.len

/-- The sibling of a stored leaf is found. -/
theorem Store.sib_stored (hs : t.Store h l) {i : Nat} (hi : (t.leaf.map i).isSome) :
    t.leafSibling (t.start + i) = l[sibling (t.start + i)]? := by
  unfold leafSibling
  rw [Nat.add_sub_cancel_left, sibling_add_even hs.even]
  by_cases hlt : sibling i < t.leaf.next
  · exact hs.get_some h (hs.pair i hi hlt)
  · rw [hs.get_ge h (by omega), List.getElem?_eq_none]
    have := hs.len
    omega

/-- The sibling of a new leaf is found. -/
theorem Store.sib_fresh (hs : t.Store h l) {i : Nat} (hi : l.length ≤ i) :
    t.leafSibling i = l[sibling i]? := by
  have hl := hs.len
  obtain ⟨c, rfl⟩ : ∃ c, i = t.start + c := ⟨i - t.start, by omega⟩
  unfold leafSibling
  rw [Nat.add_sub_cancel_left, sibling_add_even hs.even]
  by_cases hlt : sibling c < t.leaf.next
  · have hc : sibling c + 1 = t.leaf.next := by
      unfold sibling at *
      split at hlt <;> rename_i hp
      · omega
      · rw [if_neg hp]; omega
    have hlast : t.leaf.last = some (sibling c) := by
      unfold LeafMap.next at hc
      cases hl : t.leaf.last with
      | none => rw [hl] at hc; simp at hc
      | some x => rw [hl] at hc; simp at hc; rw [hc]
    exact hs.get_some h (hs.last _ hlast)
  · rw [hs.get_ge h (by omega), List.getElem?_eq_none]
    omega

theorem store_new (kind : Kind) : (new kind : Partial D N).Store h [] :=
  ⟨rfl, by simp, rfl, fun _ _ e => (nomatch e), fun _ e => (nomatch e), fun _ e => (nomatch e)⟩

theorem Store.mark (hs : t.Store h l) (i : Nat) : ({ t with leaf := t.leaf.mark i } : Partial D N).Store h l := by
  refine ⟨?_, hs.cap, hs.even, ?_, ?_, ?_⟩
  · show t.start + (t.leaf.mark i).next = l.length
    rw [LeafMap.mark_next]; exact hs.len
  · intro j x hx
    show l[t.start + j]? = _
    have h1 : (t.leaf.mark i).get j = some x.2 := by
      unfold LeafMap.get
      rw [show (t.leaf.mark i).map j = some x from hx]; rfl
    rw [LeafMap.mark_get] at h1
    rw [← h1, hs.get_some h]
    unfold LeafMap.get at h1
    cases hm : t.leaf.map j with
    | none => rw [hm] at h1; cases h1
    | some y => rfl
  · intro c hc
    show ((t.leaf.mark i).map c).isSome
    rw [LeafMap.mark_isSome]
    exact hs.last c (by rw [← LeafMap.mark_last t.leaf i]; exact hc)
  · intro j hj hlt
    show ((t.leaf.mark i).map _).isSome
    rw [LeafMap.mark_isSome]
    refine hs.pair j ?_ ?_
    · rw [← LeafMap.mark_isSome t.leaf i]; exact hj
    · rw [← LeafMap.mark_next t.leaf i]; exact hlt

theorem Store.markAll (hs : t.Store h l) (a n : Nat) :
    ({ t with leaf := t.leaf.markAll a n } : Partial D N).Store h l := by
  induction n with
  | zero => exact hs
  | succ n ih =>
    have e : t.leaf.markAll a (n + 1) = (t.leaf.markAll a n).mark (a + n) := by
      simp [LeafMap.markAll, List.range_succ, List.foldl_append]
    rw [e]
    exact ih.mark h (a + n)

/-- Storing further leaves. -/
theorem Store.extend (hs : t.Store h l) (ds : List D) (hc : l.length + ds.length ≤ 2 ^ (h + 1)) (m : InnerMap N) :
    (Partial.mk (t.leaf.extend ds) m t.start).Store h (l ++ ds) := by
  obtain ⟨e1, e2, e3, e4, e5⟩ := LeafMap.extend_spec ds t.leaf
  have hl := hs.len
  have some_of : ∀ i, t.leaf.next ≤ i → i < t.leaf.next + ds.length → ((t.leaf.extend ds).map i).isSome := by
    intro i h1 h2
    obtain ⟨c, rfl⟩ : ∃ c, i = t.leaf.next + c := ⟨i - t.leaf.next, by omega⟩
    rw [e4 c ds[c] (by rw [List.getElem?_eq_getElem])]
    rfl
  have lt_of : ∀ i, ((t.leaf.extend ds).map i).isSome → i < t.leaf.next + ds.length := by
    intro i hi
    rcases Nat.lt_or_ge i (t.leaf.next + ds.length) with h1 | h1
    · exact h1
    · rw [e5 i h1] at hi
      cases hx : t.leaf.map i with
      | none => rw [hx] at hi; cases hi
      | some x => have := hs.lt h hx; omega
  refine ⟨?_, by rw [List.length_append]; exact hc, hs.even, ?_, ?_, ?_⟩
  · show t.start + (t.leaf.extend ds).next = _
    rw [e1, List.length_append]; omega
  · intro i x hx
    show (l ++ ds)[t.start + i]? = _
    by_cases h1 : i < t.leaf.next
    · rw [show (t.leaf.extend ds).map i = _ from e3 i h1] at hx
      rw [List.getElem?_append_left (by omega)]
      exact hs.stored i x hx
    · have h2 := lt_of i (by rw [show (t.leaf.extend ds).map i = some x from hx]; rfl)
      obtain ⟨c, rfl⟩ : ∃ c, i = t.leaf.next + c := ⟨i - t.leaf.next, by omega⟩
      rw [show (t.leaf.extend ds).map _ = _ from e4 c ds[c] (by rw [List.getElem?_eq_getElem])] at hx
      rw [List.getElem?_append_right (by omega), ← Option.some.inj hx, List.getElem?_eq_some_iff]
      have : t.start + (t.leaf.next + c) - l.length = c := by omega
      simp only [this]
      exact ⟨by omega, trivial⟩
  · intro c hc'
    show ((t.leaf.extend ds).map c).isSome
    have h1 : (t.leaf.extend ds).next = c + 1 := by
      unfold LeafMap.next; rw [show (t.leaf.extend ds).last = some c from hc']
    rw [e1] at h1
    by_cases h2 : t.leaf.next ≤ c
    · exact some_of c h2 (by omega)
    · rw [e3 c (by omega)]
      refine hs.last c ?_
      have h3 : t.leaf.next = c + 1 := by omega
      unfold LeafMap.next at h3
      cases hl' : t.leaf.last with
      | none => rw [hl'] at h3; simp at h3
      | some y => rw [hl'] at h3; simp at h3; rw [h3]
  · intro i hi hlt
    have hi' : ((t.leaf.extend ds).map i).isSome := hi
    have hlt' : sibling i < (t.leaf.extend ds).next := hlt
    show ((t.leaf.extend ds).map (sibling i)).isSome
    rw [e1] at hlt'
    have hi2 := lt_of i hi'
    by_cases h1 : t.leaf.next ≤ sibling i
    · exact some_of _ h1 hlt'
    · rw [e3 _ (by omega)]
      by_cases h2 : i < t.leaf.next
      · rw [e3 i h2] at hi'
        exact hs.pair i hi' (by omega)
      · -- the new leaf is the right sibling of the last one
        refine hs.last _ ?_
        have h3 : t.leaf.next = sibling i + 1 := by
          unfold sibling at *
          split <;> rename_i hp
          · rw [if_pos hp] at h1; omega
          · rw [if_neg hp] at h1; omega
        unfold LeafMap.next at h3
        cases hl' : t.leaf.last with
        | none => rw [hl'] at h3; simp at h3
        | some y => rw [hl'] at h3; simp at h3; rw [h3]

/-! ## Paths -/

/-- The path of a stored leaf is the reference path when the nodes beside it are right. -/
theorem path_right {P : Nat → Prop} {w : Nat → Nat → Prop} (hs : t.Store h l) (hn : Nodes H h P w t.inner l)
    {i : Nat} (hi : (t.leaf.map i).isSome) (hP : P (t.start + i) ∨ P (sibling (t.start + i)))
    (hw : ∀ k, k < h → w k (sibling ((t.start + i) / 2 ^ (k + 1)))) :
    t.path H h (t.start + i) = some (specPath H h l (t.start + i)) := by
  obtain ⟨x, hx⟩ := Option.isSome_iff_exists.mp hi
  have hlt := hs.lt h hx
  have hl := hs.len
  have hcap := hs.cap
  unfold path
  rw [if_neg (by rw [hs.len_eq]; omega), if_neg (by omega)]
  unfold pathUnchecked specPath
  rw [innerPath_eq, hs.sib_stored h hi]
  congr 2
  refine List.map_congr_left fun k hk => ?_
  rw [List.mem_range] at hk
  refine hn k _ (by omega) (sib_lt h (by omega) hk) (hw k hk) (.inr ?_)
  rw [sibling_sibling]
  rcases hP with hp | hp
  · exact ⟨_, by omega, rfl, hp⟩
  · refine ⟨_, ?_, sibling_div_pow _ _, hp⟩
    have e : sibling (t.start + i) < 2 ^ (h + 1) := sibling_lt_pow (by omega)
    exact e

theorem root_right {P : Nat → Prop} {w : Nat → Nat → Prop} (hn : Nodes H h P w t.inner l) (hw : w h 0) :
    t.root H = specRoot H h l := by
  have := hn h 0 (Nat.le_refl _) (by simp) hw (.inl rfl)
  unfold Rt at this
  rw [mi_root] at this
  exact this

/-! ## Operations -/

theorem pushProvable_eq (hs : t.Store h l) (d : D) :
    t.pushProvable H h d = if l.length < 2 ^ (h + 1) then
      (true, ⟨t.leaf.push d, insert H h t.inner l.length (nodeVal H (l ++ [d]) 0 (l.length / 2)), t.start⟩)
      else (false, t) := by
  unfold pushProvable capacity
  rw [hs.len_eq]
  by_cases hc : l.length < 2 ^ (h + 1)
  · rw [if_neg (by omega), if_pos hc]
    unfold pushLeaf
    rw [hs.sib_fresh h (Nat.le_refl _)]
    have hlt : l.length < (l ++ [d]).length := by simp
    rw [← nodeVal_base H hlt]
    have e1 : (l ++ [d])[l.length]? = some d := by simp
    have e2 : (l ++ [d])[sibling l.length]? = l[sibling l.length]? := by
      unfold sibling
      split
      · rw [List.getElem?_eq_none (by simp), List.getElem?_eq_none (by omega)]
      · exact List.getElem?_append_left (by omega)
    rw [e1, e2]; rfl
  · rw [if_pos (by omega), if_neg hc]

/-- One batch of leaves. -/
theorem batchPushLeaves_spec (hs : t.Store h l) {P : Nat → Prop} {w : Nat → Nat → Prop} {ds : List D}
    (hds : ds ≠ []) (hn : Nodes H h P (fun k i => ¬ Stale l.length k i) t.inner l)
    (hc : l.length + ds.length ≤ 2 ^ (h + 1)) (hP : ∀ j, l.length ≤ j → j < l.length + ds.length → P j)
    (hg : Guard h l.length (l.length + ds.length) w) :
    ∃ m, t.batchPushLeaves H h ⟨t.len, ds.length - 1⟩ ds = some ⟨t.leaf.extend ds, m, t.start⟩ ∧
      Nodes H h P w m (l ++ ds) := by
  obtain ⟨m, hm, hr⟩ := Nodes.batch H h hds hn hc hP hg (sib := t.leafSibling) fun i hi _ => hs.sib_fresh h hi
  refine ⟨m, ?_, hr⟩
  unfold batchPushLeaves
  rw [hs.len_eq, hm]
  rfl

end Partial

end Verif.Merkle
