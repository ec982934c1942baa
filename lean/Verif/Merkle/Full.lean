import Verif.Merkle.Lemmas

/-!
# The full tree: C01, C02, C03, C07

`Inv` says that every stored digest is the reference digest; `WInv` says so for the nodes that are not above
both the last leaf and the next free leaf, which is what batch insertion guarantees.
-/

namespace Verif.Merkle

variable {D N : Type} (H : Hash D N) (h : Nat)

/-! ## Invariants -/

/-- Every digest of the tree is the reference digest of its leaves. -/
def Full.Inv (t : Full D N) : Prop :=
  t.leaves.length ≤ capacity h ∧ ∀ k i, k ≤ h → i < 2 ^ (h - k) → Rt H h t.inner t.leaves k i

/-- The nodes above both the last leaf and the next free leaf of a tree with `n` leaves. -/
def Stale (n k i : Nat) : Prop := i = n / 2 ^ (k + 1) ∧ i = (n - 1) / 2 ^ (k + 1)

/-- The digests of the nodes that are not above both the last and the next free leaf are the reference
digests. -/
def Full.WInv (t : Full D N) : Prop :=
  t.leaves.length ≤ capacity h ∧
    ∀ k i, k ≤ h → i < 2 ^ (h - k) → ¬ Stale t.leaves.length k i → Rt H h t.inner t.leaves k i

theorem Full.Inv.weak {t : Full D N} (hi : t.Inv H h) : t.WInv H h :=
  ⟨hi.1, fun k i hk hlt _ => hi.2 k i hk hlt⟩

theorem Full.inv_new : (Full.new : Full D N).Inv H h :=
  ⟨by simp [Full.new], fun k i _ _ => by
    show getOr H (fun _ => none) _ = nodeVal H [] k i
    rw [nodeVal_nil]; rfl⟩

theorem anc_lt {n j : Nat} (hc : n < 2 ^ (h + 1)) (hj : j ≤ h) : n / 2 ^ (j + 1) < 2 ^ (h - j) := by
  refine div_pow_lt (a := h - j) (b := j + 1) ?_
  have : h - j + (j + 1) = h + 1 := by omega
  rw [this]; exact hc

theorem sib_lt {n j : Nat} (hc : n < 2 ^ (h + 1)) (hj : j < h) : sibling (n / 2 ^ (j + 1)) < 2 ^ (h - j) := by
  have hlt := anc_lt h hc (j := j) (by omega)
  have e2 : h - j = (h - j - 1) + 1 := by omega
  rw [e2] at hlt ⊢
  exact sibling_lt_pow hlt

/-- Pushing one leaf restores the whole tree. -/
theorem Full.pushLeaf_inv {t : Full D N} (hw : t.WInv H h) (hlt : t.leaves.length < capacity h) (d : D) :
    (t.pushLeaf H h t.len d).Inv H h := by
  have hc : t.leaves.length < 2 ^ (h + 1) := hlt
  have hn : t.leaves.length < (t.leaves ++ [d]).length := by simp
  have hbase : H.joinLeavesAt t.leaves.length d ((t.leaves[sibling t.leaves.length]?).getD H.dD) =
      nodeVal H (t.leaves ++ [d]) 0 (t.leaves.length / 2) := by
    rw [← nodeVal_base H hn]
    have e1 : (t.leaves ++ [d])[t.leaves.length]? = some d := by simp
    have e2 : (t.leaves ++ [d])[sibling t.leaves.length]? = t.leaves[sibling t.leaves.length]? := by
      unfold sibling
      split
      · rw [List.getElem?_eq_none (by simp), List.getElem?_eq_none (by omega)]
      · exact List.getElem?_append_left (by omega)
    rw [e1, e2]; rfl
  have hs : ∀ j, j < h → Rt H h t.inner (t.leaves ++ [d]) j (sibling (t.leaves.length / 2 ^ (j + 1))) := by
    intro j hj
    unfold Rt
    rw [nodeVal_push H (sibling_ne _)]
    exact hw.2 j _ (by omega) (sib_lt h hc hj) fun hst => sibling_ne _ hst.1
  obtain ⟨r1, r2⟩ := insert_spec H h hn hc t.inner hs
  refine ⟨by simp only [Full.pushLeaf, List.length_append, List.length_singleton]; exact hlt, ?_⟩
  intro k i hk hi
  simp only [Full.pushLeaf, Full.len]
  rw [hbase]
  by_cases hik : i = t.leaves.length / 2 ^ (k + 1)
  · subst hik; exact r1 k hk
  · unfold Rt
    rw [getOr_congr H (r2 _ fun j hj heq => ?_), nodeVal_push H hik]
    · exact hw.2 k i hk hi fun hst => hik hst.1
    · obtain ⟨e1, e2⟩ := mi_inj h hk hj hi (anc_lt h hc hj) heq
      subst e1
      exact hik e2

/-! ## Batches -/

theorem finalLeft_iff (r : NodeRange) : r.finalLeft = decide (r.last % 2 = 0) := by
  unfold NodeRange.finalLeft NodeRange.last
  split <;> (rw [decide_eq_decide]; omega)

theorem finalLeft_mk (a b : Nat) : (NodeRange.mk a b).finalLeft = decide ((a + b) % 2 = 0) := finalLeft_iff _

theorem parents_eq (r : NodeRange) : r.parents = ⟨r.node / 2, r.last / 2 - r.node / 2⟩ := by
  unfold NodeRange.parents
  rw [finalLeft_iff]
  simp only [NodeRange.last, NodeRange.mk.injEq, true_and]
  by_cases a : r.node % 2 = 0 <;> by_cases b : (r.node + r.extra) % 2 = 0 <;>
    simp only [a, b, decide_true, decide_false] <;> omega

/-- The nodes of level `k` above the leaves `n ..< e`. -/
def levelRange (n e k : Nat) : NodeRange := ⟨n / 2 ^ (k + 1), (e - 1) / 2 ^ (k + 1) - n / 2 ^ (k + 1)⟩

theorem levelRange_parents {n e : Nat} (hne : n < e) (k : Nat) :
    (levelRange n e k).parents = levelRange n e (k + 1) := by
  have : n / 2 ^ (k + 1) ≤ (e - 1) / 2 ^ (k + 1) := Nat.div_le_div_right (by omega)
  rw [parents_eq]
  simp only [levelRange, NodeRange.last]
  rw [div_pow_succ n (k + 1), div_pow_succ (e - 1) (k + 1)]
  rw [show n / 2 ^ (k + 1) + ((e - 1) / 2 ^ (k + 1) - n / 2 ^ (k + 1)) = (e - 1) / 2 ^ (k + 1) by omega]

theorem setAll_apply : ∀ (n : Nat) (xs : List N) (m : InnerMap N) (i x : Nat),
    setAll m i n xs x = if i ≤ x ∧ x < i + min n xs.length then xs[x - i]? else m x
  | 0, xs, m, i, x => by
    rw [setAll]
    · simp; omega
    · intros; omega
  | n + 1, [], m, i, x => by
    rw [setAll]
    · simp; omega
    · intros; simp_all
  | n + 1, y :: ys, m, i, x => by
    rw [setAll, setAll_apply n ys]
    have e1 : min (n + 1) (y :: ys).length = min n ys.length + 1 := by simp only [List.length_cons]; omega
    rw [e1]
    by_cases hx : x = i
    · subst hx
      rw [if_neg (by omega), if_pos (by omega)]
      simp [InnerMap.set]
    · by_cases h1 : i + 1 ≤ x ∧ x < i + 1 + min n ys.length
      · rw [if_pos h1, if_pos (by omega)]
        have : x - i = (x - (i + 1)) + 1 := by omega
        rw [this, List.getElem?_cons_succ]
      · rw [if_neg h1, if_neg (by omega)]
        simp [InnerMap.set, hx]

theorem stepBy2_length (a n : Nat) : (stepBy2 a n).length = (n + 1) / 2 := by simp [stepBy2]

theorem stepBy2_get (a n c : Nat) (hc : c < (n + 1) / 2) : (stepBy2 a n)[c]? = some (a + 2 * c) := by
  simp [stepBy2, hc]

/-- What a batch guarantees at a node: `g` has to survive going down to a node of the batch, and to exclude
the parents that `insert_range_and_join` forgets. -/
structure Guard (n e : Nat) (g : Nat → Nat → Prop) : Prop where
  down : ∀ k p i, k < h → n / 2 ^ (k + 2) ≤ p → p ≤ (e - 1) / 2 ^ (k + 2) → g (k + 1) p → i / 2 = p → g k i
  skip : ∀ k, k < h → n / 2 ^ (k + 1) % 2 = 1 → (e - 1) / 2 ^ (k + 1) % 2 = 0 →
    ¬ g (k + 1) ((e - 1) / 2 ^ (k + 2))

/-- One level of a batch. -/
theorem insertRange_spec {l : List D} {n e d k : Nat} {g : Nat → Nat → Prop} (hg : Guard h n e g)
    (hne : n < e) (hel : l.length = e) (hce : e ≤ 2 ^ (h + 1)) (hk : k + d + 1 = h)
    (m : InnerMap N) (xs : List N)
    (hA : ∀ j i, k ≤ j → j < h → i < 2 ^ (h - j) → (i < n / 2 ^ (j + 1) ∨ (e - 1) / 2 ^ (j + 1) < i) →
      g j i → Rt H h m l j i)
    (hX : ∀ c, n / 2 ^ (k + 1) + c ≤ (e - 1) / 2 ^ (k + 1) → g k (n / 2 ^ (k + 1) + c) →
      xs[c]? = some (nodeVal H l k (n / 2 ^ (k + 1) + c))) :
    (∀ j i, k + 1 ≤ j → j < h → i < 2 ^ (h - j) → (i < n / 2 ^ (j + 1) ∨ (e - 1) / 2 ^ (j + 1) < i) →
      g j i → Rt H h (insertRangeAndJoin H m d (levelRange n e k) xs).1 l j i) ∧
    ((insertRangeAndJoin H m d (levelRange n e k) xs).2 ≠ [] ∧
     ∀ c, n / 2 ^ (k + 2) + c ≤ (e - 1) / 2 ^ (k + 2) → g (k + 1) (n / 2 ^ (k + 2) + c) →
      (insertRangeAndJoin H m d (levelRange n e k) xs).2[c]? =
        some (nodeVal H l (k + 1) (n / 2 ^ (k + 2) + c))) ∧
    (∀ i, i < 2 ^ (h - k) → g k i → Rt H h (insertRangeAndJoin H m d (levelRange n e k) xs).1 l k i) ∧
    (∀ x, (∀ i, i < 2 ^ (h - k) → x ≠ mi h k i) →
      (insertRangeAndJoin H m d (levelRange n e k) xs).1 x = m x) := by
  have hab : n / 2 ^ (k + 1) ≤ (e - 1) / 2 ^ (k + 1) := Nat.div_le_div_right (by omega)
  have hb : (e - 1) / 2 ^ (k + 1) < 2 ^ (h - k) := anc_lt h (by omega) (by omega)
  have hap : n / 2 ^ (k + 2) = n / 2 ^ (k + 1) / 2 := div_pow_succ n (k + 1)
  have hbp : (e - 1) / 2 ^ (k + 2) = (e - 1) / 2 ^ (k + 1) / 2 := div_pow_succ (e - 1) (k + 1)
  have hskip := hg.skip k (by omega)
  rw [hbp] at hskip
  rw [hap, hbp]
  have hpow : 2 ^ (h - k) = 2 * 2 ^ (h - (k + 1)) := by
    rw [← Nat.pow_succ']; congr 1; omega
  have hval : ∀ p, p ≤ (e - 1) / 2 ^ (k + 1) / 2 →
      nodeVal H l (k + 1) p = H.join (nodeVal H l k (2 * p)) (nodeVal H l k (2 * p + 1)) := by
    intro p hp
    refine nodeVal_succ H ?_
    have h1 : p * 2 ^ (k + 2) ≤ (e - 1) / 2 ^ (k + 2) * 2 ^ (k + 2) := Nat.mul_le_mul_right _ (by omega)
    have h2 := div_pow_mul_le (e - 1) (k + 2)
    omega
  generalize ha' : n / 2 ^ (k + 1) = a at *
  generalize hb' : (e - 1) / 2 ^ (k + 1) = b at *
  -- the stored digests
  have hset : ∀ x, (insertRangeAndJoin H m d (levelRange n e k) xs).1 x =
      if mi h k a ≤ x ∧ x < mi h k a + min (b - a + 1) xs.length then xs[x - mi h k a]? else m x := by
    intro x
    simp only [insertRangeAndJoin, levelRange, mapIndex_eq h hk, ha', hb', setAll_apply]
  have hlow : ∀ i, i < 2 ^ (h - k) → g k i →
      Rt H h (insertRangeAndJoin H m d (levelRange n e k) xs).1 l k i := by
    intro i hi hgi
    unfold Rt
    by_cases hin : a ≤ i ∧ i ≤ b
    · have hx := hX (i - a) (by omega) (by rw [show a + (i - a) = i by omega]; exact hgi)
      rw [show a + (i - a) = i by omega] at hx
      have hlen : i - a < xs.length := by
        rcases Nat.lt_or_ge (i - a) xs.length with hl | hl
        · exact hl
        · rw [List.getElem?_eq_none hl] at hx; cases hx
      simp only [getOr, hset]
      rw [if_pos (by simp only [mi]; omega), show mi h k i - mi h k a = i - a by simp only [mi]; omega, hx]
      rfl
    · have hout := hA k i (Nat.le_refl _) (by omega) hi (by rw [ha', hb']; omega) hgi
      rw [← hout]
      refine getOr_congr H ?_
      rw [hset, if_neg]
      simp only [mi]; omega
  have hother : ∀ x, (∀ i, i < 2 ^ (h - k) → x ≠ mi h k i) →
      (insertRangeAndJoin H m d (levelRange n e k) xs).1 x = m x := by
    intro x hx
    rw [hset, if_neg]
    intro hcon
    have hx' := hx (x - mi h k 0) (by simp only [mi] at hcon ⊢; omega)
    simp only [mi] at hcon hx'
    omega
  refine ⟨?_, ⟨?_, ?_⟩, hlow, hother⟩
  · intro j i h1 h2 h3 h4 h5
    have := hA j i (by omega) h2 h3 h4 h5
    unfold Rt at *
    rw [← this]
    refine getOr_congr H (hother _ fun i' hi' heq => ?_)
    have := (mi_inj h (by omega) (by omega) h3 hi' heq).1
    omega
  · intro hnil
    have := congrArg List.length hnil
    simp only [insertRangeAndJoin, List.length_map, stepBy2_length, List.length_nil, levelRange, ha', hb'] at this
    omega
  · intro c hc hgc
    have hclen : c < (b - a + 1 + 1) / 2 := by
      by_cases hcl : c < (b - a + 1 + 1) / 2
      · exact hcl
      · exfalso
        have h1 : a % 2 = 1 ∧ b % 2 = 0 ∧ a / 2 + c = b / 2 := by omega
        rw [h1.2.2] at hgc
        exact hskip h1.1 h1.2.1 hgc
    have hchild : ∀ i, i / 2 = a / 2 + c →
        Rt H h (insertRangeAndJoin H m d (levelRange n e k) xs).1 l k i := by
      intro i hi
      refine hlow i ?_ (hg.down k _ i (by omega) (by rw [hap]; omega) (by rw [hbp]; omega) hgc hi)
      have : b / 2 < 2 ^ (h - (k + 1)) := by omega
      omega
    have h0 := hchild (2 * (a / 2 + c)) (by omega)
    have h1 := hchild (2 * (a / 2 + c) + 1) (by omega)
    unfold Rt at h0 h1
    rw [hval _ hc, ← h0, ← h1]
    simp only [insertRangeAndJoin, levelRange, mapIndex_eq h hk, ha', hb', List.getElem?_map,
      stepBy2_get _ _ _ hclen, Option.map_some]
    congr 1
    by_cases hp : a % 2 = 0
    · rw [if_pos hp]
      have e1 : mi h k a + 2 * c = mi h k (2 * (a / 2 + c)) := by simp only [mi]; omega
      have e2 : mi h k a + 2 * c + 1 = mi h k (2 * (a / 2 + c) + 1) := by simp only [mi]; omega
      rw [e1] at e2 ⊢
      rw [e2]
    · rw [if_neg hp]
      have e1 : mi h k a + 2 * c - 1 = mi h k (2 * (a / 2 + c)) := by simp only [mi]; omega
      have e2 : mi h k a + 2 * c = mi h k (2 * (a / 2 + c) + 1) := by simp only [mi]; omega
      rw [e1, e2]

theorem foldRanges_spec {l : List D} {n e : Nat} {g : Nat → Nat → Prop} (hg : Guard h n e g)
    (hne : n < e) (hel : l.length = e) (hce : e ≤ 2 ^ (h + 1)) : ∀ (d k : Nat) (m : InnerMap N) (xs : List N),
    k + d + 1 = h →
    (∀ j i, k ≤ j → j < h → i < 2 ^ (h - j) → (i < n / 2 ^ (j + 1) ∨ (e - 1) / 2 ^ (j + 1) < i) →
      g j i → Rt H h m l j i) →
    (∀ c, n / 2 ^ (k + 1) + c ≤ (e - 1) / 2 ^ (k + 1) → g k (n / 2 ^ (k + 1) + c) →
      xs[c]? = some (nodeVal H l k (n / 2 ^ (k + 1) + c))) →
    (foldRanges H (rangeAncestors d (levelRange n e k)) m xs).2 ≠ [] ∧
    (g h 0 → (foldRanges H (rangeAncestors d (levelRange n e k)) m xs).2[0]? = some (nodeVal H l h 0)) ∧
    (∀ j i, k ≤ j → j < h → i < 2 ^ (h - j) → g j i →
      Rt H h (foldRanges H (rangeAncestors d (levelRange n e k)) m xs).1 l j i) ∧
    (∀ x, (∀ j i, k ≤ j → j < h → i < 2 ^ (h - j) → x ≠ mi h j i) →
      (foldRanges H (rangeAncestors d (levelRange n e k)) m xs).1 x = m x) := by
  intro d
  induction d with
  | zero =>
    intro k m xs hk hA hX
    obtain ⟨r1, ⟨r2, r3⟩, r4, r5⟩ := insertRange_spec H h (d := 0) hg hne hel hce hk m xs hA hX
    simp only [rangeAncestors, foldRanges]
    refine ⟨r2, ?_, ?_, ?_⟩
    · intro hg0
      have eh : k + 1 = h := by omega
      have z1 : n / 2 ^ (k + 2) = 0 := Nat.div_eq_of_lt (by rw [show k + 2 = h + 1 by omega]; omega)
      have z2 : (e - 1) / 2 ^ (k + 2) = 0 := Nat.div_eq_of_lt (by rw [show k + 2 = h + 1 by omega]; omega)
      have := r3 0 (by rw [z1, z2]; exact Nat.le_refl _) (by rw [z1, eh]; exact hg0)
      rw [z1, eh] at this
      exact this
    · intro j i h1 h2 h3 h4
      have : j = k := by omega
      subst this
      exact r4 i h3 h4
    · intro x hx
      exact r5 x fun i hi => hx k i (Nat.le_refl _) (by omega) hi
  | succ d ih =>
    intro k m xs hk hA hX
    obtain ⟨r1, ⟨r2, r3⟩, r4, r5⟩ := insertRange_spec H h (d := d + 1) hg hne hel hce hk m xs hA hX
    simp only [rangeAncestors, foldRanges]
    rw [levelRange_parents hne]
    obtain ⟨q1, q2, q3, q4⟩ := ih (k + 1) _ _ (by omega) r1 r3
    refine ⟨q1, q2, ?_, ?_⟩
    · intro j i h1 h2 h3 h4
      by_cases hjk : j = k
      · subst hjk
        have := r4 i h3 h4
        unfold Rt at *
        rw [← this]
        refine getOr_congr H (q4 _ fun j' i' h1' h2' h3' heq => ?_)
        have := (mi_inj h (by omega) (by omega) h3 h3' heq).1
        omega
      · exact q3 j i (by omega) h2 h3 h4
    · intro x hx
      rw [q4 x fun j i h1 h2 h3 => hx j i (by omega) h2 h3]
      exact r5 x fun i hi => hx k i (Nat.le_refl _) (by omega) hi

/-- The lowest layer of a batch is right. -/
theorem joinLeaves_spec {l ds : List D} {sib : Nat → Option D} (hds : ds ≠ [])
    (hsib : ∀ i, l.length ≤ i → i < l.length + ds.length → sib i = l[sibling i]?) :
    ∀ c, l.length / 2 + c ≤ (l.length + ds.length - 1) / 2 →
    (NodeRange.joinLeaves H ⟨l.length, ds.length - 1⟩ ds sib)[c]? =
      some (nodeVal H (l ++ ds) 0 (l.length / 2 + c)) := by
  intro c hc
  have hq : 0 < ds.length := List.length_pos_iff.mpr hds
  generalize hn : l.length = n at *
  generalize hq' : ds.length = q at *
  have hget : ∀ i, i < q → (l ++ ds)[n + i]? = ds[i]? := by
    intro i _
    rw [List.getElem?_append_right (by omega)]
    congr 1; omega
  have hgd : ∀ i, i < q → ds.getD i H.dD = ((l ++ ds)[n + i]?).getD H.dD := by
    intro i hi
    rw [hget i hi, List.getD_eq_getElem?_getD]
  have hout : ∀ i, n + q ≤ i → (l ++ ds)[i]? = none := by
    intro i hi
    exact List.getElem?_eq_none (by rw [List.length_append]; omega)
  rw [nodeVal_zero H (by rw [List.length_append]; omega)]
  unfold NodeRange.joinLeaves
  simp only [finalLeft_mk, NodeRange.last, hq']
  by_cases hp : n % 2 = 0
  · rw [if_pos hp]
    have hlen : (List.map (fun i => H.joinL (ds.getD i H.dD) (ds.getD (i + 1) H.dD))
        (stepBy2 0 (q - 1 - 0))).length = q / 2 := by
      rw [List.length_map, stepBy2_length]; omega
    by_cases hcq : c < q / 2
    · rw [List.getElem?_append_left (by rw [hlen]; exact hcq), List.getElem?_map,
        stepBy2_get _ _ _ (by omega), Option.map_some, hgd _ (by omega), hgd _ (by omega)]
      have e1 : n + (0 + 2 * c) = 2 * (n / 2 + c) := by omega
      have e2 : n + (0 + 2 * c + 1) = 2 * (n / 2 + c) + 1 := by omega
      rw [e1, e2]
    · have hodd : (n + (q - 1)) % 2 = 0 := by omega
      rw [List.getElem?_append_right (by rw [hlen]; omega), hlen,
        if_pos (decide_eq_true hodd)]
      have e0 : c - q / 2 = 0 := by omega
      rw [e0, List.getElem?_cons_zero]
      congr 1
      unfold Hash.joinLeavesAt
      rw [if_pos hodd, hgd _ (by omega), hsib _ (by omega) (by omega), List.getElem?_eq_none (l := l)]
      · have e1 : n + (q - 1) = 2 * (n / 2 + c) := by omega
        rw [e1, hout (2 * (n / 2 + c) + 1) (by omega)]
      · unfold sibling; rw [if_pos hodd]; omega
  · rw [if_neg hp]
    have hlen : (List.map (fun i => H.joinL (ds.getD i H.dD) (ds.getD (i + 1) H.dD))
        (stepBy2 1 (q - 1 - 1))).length = (q - 1) / 2 := by
      rw [List.length_map, stepBy2_length]; omega
    cases c with
    | zero =>
      rw [List.cons_append, List.getElem?_cons_zero, hsib _ (by omega) (by omega), hgd 0 hq]
      have e1 : sibling n = n - 1 := by unfold sibling; rw [if_neg hp]
      have e2 : 2 * (n / 2 + 0) = n - 1 := by omega
      have e3 : n - 1 + 1 = n := by omega
      have e4 : (l ++ ds)[n - 1]? = l[n - 1]? := List.getElem?_append_left (by omega)
      rw [e1, e2, e3, e4]
      rfl
    | succ c =>
      rw [List.cons_append, List.getElem?_cons_succ]
      by_cases hcq : c < (q - 1) / 2
      · rw [List.getElem?_append_left (by rw [hlen]; exact hcq), List.getElem?_map,
          stepBy2_get _ _ _ (by omega), Option.map_some, hgd _ (by omega), hgd _ (by omega)]
        have e1 : n + (1 + 2 * c) = 2 * (n / 2 + (c + 1)) := by omega
        have e2 : n + (1 + 2 * c + 1) = 2 * (n / 2 + (c + 1)) + 1 := by omega
        rw [e1, e2]
      · have hodd : (n + (q - 1)) % 2 = 0 := by omega
        rw [List.getElem?_append_right (by rw [hlen]; omega), hlen,
          if_pos (decide_eq_true hodd)]
        have e0 : c - (q - 1) / 2 = 0 := by omega
        rw [e0, List.getElem?_cons_zero]
        congr 1
        unfold Hash.joinLeavesAt
        rw [if_pos hodd, hgd _ (by omega), hsib _ (by omega) (by omega), List.getElem?_eq_none (l := l)]
        · have e1 : n + (q - 1) = 2 * (n / 2 + (c + 1)) := by omega
          rw [e1, hout (2 * (n / 2 + (c + 1)) + 1) (by omega)]
        · unfold sibling; rw [if_pos hodd]; omega

/-- Batch insertion into an inner map: it does not panic, every guarded node is right afterwards. -/
theorem batchInsert_spec {l ds : List D} {sib : Nat → Option D} {g : Nat → Nat → Prop} (hds : ds ≠ [])
    (hc : l.length + ds.length ≤ 2 ^ (h + 1))
    (hg : Guard h l.length (l.length + ds.length) g)
    (hsib : ∀ i, l.length ≤ i → i < l.length + ds.length → sib i = l[sibling i]?) (m : InnerMap N)
    (hA : ∀ j i, j < h → i < 2 ^ (h - j) →
      (i < l.length / 2 ^ (j + 1) ∨ (l.length + ds.length - 1) / 2 ^ (j + 1) < i) → g j i →
      Rt H h m (l ++ ds) j i) :
    ∃ m', batchInsert H h m ⟨l.length, ds.length - 1⟩
        (NodeRange.joinLeaves H ⟨l.length, ds.length - 1⟩ ds sib) = some m' ∧
      ∀ k i, k ≤ h → i < 2 ^ (h - k) → g k i → Rt H h m' (l ++ ds) k i := by
  have hq : 0 < ds.length := List.length_pos_iff.mpr hds
  have hbase := joinLeaves_spec H hds hsib
  have hlast : (NodeRange.mk l.length (ds.length - 1)).last = l.length + ds.length - 1 := by
    simp only [NodeRange.last]; omega
  unfold batchInsert rangesFromLeaves
  rw [if_neg (by rw [hlast]; omega)]
  cases h with
  | zero =>
    simp only [foldRanges]
    have h0 := hbase 0 (by omega)
    have e0 : l.length / 2 + 0 = 0 := by
      simp only [Nat.zero_add, Nat.pow_one] at hc
      omega
    rw [e0] at h0
    cases hb : NodeRange.joinLeaves H ⟨l.length, ds.length - 1⟩ ds sib with
    | nil => rw [hb] at h0; cases h0
    | cons r rs =>
      rw [hb] at h0
      simp only [List.getElem?_cons_zero, Option.some.injEq] at h0
      refine ⟨_, rfl, ?_⟩
      intro k i hk hi _
      have : k = 0 := by omega
      subst this
      simp only [Nat.sub_self, Nat.pow_zero] at hi
      have : i = 0 := by omega
      subst this
      unfold Rt
      rw [mi_root, getOr_set_self, h0]
  | succ d =>
    have hpar : (NodeRange.mk l.length (ds.length - 1)).parents = levelRange l.length (l.length + ds.length) 0 := by
      rw [parents_eq, hlast]
      simp only [levelRange, Nat.zero_add, Nat.pow_one]
    simp only [hpar]
    have hf := foldRanges_spec H (d + 1) hg (by omega) (by rw [List.length_append]) hc d 0 m
      (NodeRange.joinLeaves H ⟨l.length, ds.length - 1⟩ ds sib) (by omega)
      (fun j i _ h2 h3 h4 h5 => hA j i h2 h3 h4 h5)
      (fun c hc' _ => by
        simp only [Nat.zero_add, Nat.pow_one] at hc' ⊢
        exact hbase c hc')
    obtain ⟨q1, q2, q3, q4⟩ := hf
    generalize foldRanges H (rangeAncestors d (levelRange l.length (l.length + ds.length) 0)) m
      (NodeRange.joinLeaves H ⟨l.length, ds.length - 1⟩ ds sib) = p at *
    cases hp : p.2 with
    | nil => exact absurd hp q1
    | cons r rs =>
      refine ⟨_, rfl, ?_⟩
      intro k i hk hi hgi
      by_cases hkd : k = d + 1
      · subst hkd
        simp only [Nat.sub_self, Nat.pow_zero] at hi
        have : i = 0 := by omega
        subst this
        have := q2 hgi
        rw [hp, List.getElem?_cons_zero, Option.some.injEq] at this
        unfold Rt
        rw [mi_root, getOr_set_self, this]
      · have := q3 k i (Nat.zero_le _) (by omega) hi hgi
        unfold Rt at *
        rw [getOr_set_ne, this]
        intro heq
        rw [← mi_root (d + 1)] at heq
        have := (mi_inj (d + 1) hk (Nat.le_refl _) hi (by simp) heq).1
        omega

/-- The next index has the same ancestor, or the one to the right. -/
theorem div_pow_pred {e : Nat} (k : Nat) :
    e / 2 ^ k = (e - 1) / 2 ^ k ∨ e / 2 ^ k = (e - 1) / 2 ^ k + 1 := by
  have h1 : (e - 1) / 2 ^ k ≤ e / 2 ^ k := Nat.div_le_div_right (by omega)
  have h2 : e / 2 ^ k ≤ (e - 1) / 2 ^ k + 1 := by
    have : e < ((e - 1) / 2 ^ k + 2) * 2 ^ k := by
      have := lt_div_pow_succ_mul (e - 1) k
      rw [Nat.add_mul] at this ⊢
      have := Nat.two_pow_pos k
      omega
    have := (Nat.div_lt_iff_lt_mul (Nat.two_pow_pos k)).mpr this
    omega
  omega

/-- The guard that always holds: nodes that are not above both the last and the next free leaf. -/
theorem guard_next {n e : Nat} : Guard h n e fun k i => ¬ Stale e k i := by
  refine ⟨?_, ?_⟩
  · rintro k p i _ _ _ hp hi ⟨h1, h2⟩
    refine hp ⟨?_, ?_⟩
    · rw [← hi, h1]; exact (div_pow_succ e (k + 1)).symm
    · rw [← hi, h2]; exact (div_pow_succ (e - 1) (k + 1)).symm
  · intro k _ _ hb hcon
    refine hcon ⟨?_, rfl⟩
    rw [div_pow_succ e (k + 1), div_pow_succ (e - 1) (k + 1)]
    rcases div_pow_pred (e := e) (k + 1) with h1 | h1 <;> omega

/-- A batch of leaves `n ..< e` is misaligned: on some layer of inner nodes it starts at a right node and ends
at a left node. -/
def Misaligned (h n e : Nat) : Prop :=
  ∃ k, k < h ∧ n / 2 ^ (k + 1) % 2 = 1 ∧ (e - 1) / 2 ^ (k + 1) % 2 = 0

instance (h n e : Nat) : Decidable (Misaligned h n e) := by
  unfold Misaligned; infer_instance

theorem guard_aligned {n e : Nat} (ha : ¬ Misaligned h n e) : Guard h n e fun _ _ => True :=
  ⟨fun _ _ _ _ _ _ _ _ => trivial, fun k hk h1 h2 => absurd ⟨k, hk, h1, h2⟩ ha⟩

theorem out_of_range_right {t : Full D N} (hw : t.WInv H h) {ds : List D} (hds : ds ≠ [])
    (j i : Nat) (hj : j < h) (hi : i < 2 ^ (h - j))
    (ho : i < t.leaves.length / 2 ^ (j + 1) ∨ (t.leaves.length + ds.length - 1) / 2 ^ (j + 1) < i) :
    Rt H h t.inner (t.leaves ++ ds) j i := by
  have hq : 0 < ds.length := List.length_pos_iff.mpr hds
  have hle : t.leaves.length / 2 ^ (j + 1) ≤ (t.leaves.length + ds.length - 1) / 2 ^ (j + 1) :=
    Nat.div_le_div_right (by omega)
  unfold Rt
  rw [nodeVal_append H]
  · exact hw.2 j i (by omega) hi fun hst => by rw [hst.1] at ho; omega
  · intro x h1 h2 he
    have a1 : t.leaves.length / 2 ^ (j + 1) ≤ x / 2 ^ (j + 1) := Nat.div_le_div_right h1
    have a2 : x / 2 ^ (j + 1) ≤ (t.leaves.length + ds.length - 1) / 2 ^ (j + 1) :=
      Nat.div_le_div_right (by omega)
    omega

/-- A batch that fits does not panic, appends its leaves, and leaves right digests wherever the guard says. -/
theorem Full.batchPushLeaves_spec {t : Full D N} (hw : t.WInv H h) {ds : List D} (hds : ds ≠ [])
    (hc : t.leaves.length + ds.length ≤ capacity h) {g : Nat → Nat → Prop}
    (hg : Guard h t.leaves.length (t.leaves.length + ds.length) g) :
    ∃ m, t.batchPushLeaves H h ⟨t.len, ds.length - 1⟩ ds = some ⟨t.leaves ++ ds, m⟩ ∧
      ∀ k i, k ≤ h → i < 2 ^ (h - k) → g k i → Rt H h m (t.leaves ++ ds) k i := by
  obtain ⟨m, hm, hr⟩ := batchInsert_spec H h hds hc hg (fun i _ _ => rfl) t.inner
    (fun j i hj hi ho _ => out_of_range_right H h hw hds j i hj hi ho)
  refine ⟨m, ?_, hr⟩
  simp only [Full.batchPushLeaves, Full.len, hm, Option.map_some]

end Verif.Merkle
