import Verif.Merkle.Spec

/-! # Lemmas about reference digests, map indices and insertion -/

namespace Verif.Merkle

variable {D N : Type} (H : Hash D N) (h : Nat)

/-! ## Arithmetic -/

theorem sibling_div (i : Nat) : sibling i / 2 = i / 2 := by
  unfold sibling; split <;> omega

theorem sibling_ne (i : Nat) : sibling i ≠ i := by
  unfold sibling; split <;> omega

theorem sibling_sibling (i : Nat) : sibling (sibling i) = i := by
  unfold sibling
  split <;> split <;> omega

theorem div_pow_succ (n k : Nat) : n / 2 ^ (k + 1) = n / 2 ^ k / 2 := by
  rw [Nat.div_div_eq_div_mul, Nat.pow_succ]

theorem div_pow_mul_le (n k : Nat) : n / 2 ^ k * 2 ^ k ≤ n := Nat.div_mul_le_self n (2 ^ k)

theorem lt_div_pow_succ_mul (n k : Nat) : n < (n / 2 ^ k + 1) * 2 ^ k := by
  have := Nat.lt_div_mul_add (a := n) (Nat.two_pow_pos k)
  rw [Nat.add_mul]; omega

theorem div_pow_lt {n a b : Nat} (hn : n < 2 ^ (a + b)) : n / 2 ^ b < 2 ^ a := by
  rw [Nat.div_lt_iff_lt_mul (Nat.two_pow_pos b), ← Nat.pow_add]
  exact hn

/-- Two numbers have the same quotient iff one lies in the window of the other. -/
theorem div_pow_eq_iff (j k i : Nat) : j / 2 ^ k = i ↔ i * 2 ^ k ≤ j ∧ j < (i + 1) * 2 ^ k := by
  rw [Nat.div_eq_iff (Nat.two_pow_pos k)]
  have := Nat.two_pow_pos k
  constructor
  · rintro ⟨h1, h2⟩
    refine ⟨h1, ?_⟩
    rw [Nat.add_mul]; omega
  · rintro ⟨h1, h2⟩
    refine ⟨h1, ?_⟩
    rw [Nat.add_mul] at h2; omega

theorem sibling_lt_pow {i a : Nat} (hi : i < 2 ^ (a + 1)) : sibling i < 2 ^ (a + 1) := by
  rw [Nat.pow_succ] at *
  unfold sibling
  split <;> omega

/-! ## Map indices by level -/

/-- Map index of the node `i` of level `k`; the root is the only node of level `h`. -/
def mi (h k i : Nat) : Nat := 2 ^ (h - k) - 1 + i

theorem mapIndex_eq {d k : Nat} (hk : k + d + 1 = h) (i : Nat) : (InnerNode.mk d i).mapIndex = mi h k i := by
  have : h - k = d + 1 := by omega
  simp only [InnerNode.mapIndex, mi, this]

theorem mi_root : mi h h 0 = 0 := by simp [mi]

theorem pow_pair {a b i j : Nat} (hi : i < 2 ^ a) (hj : j < 2 ^ b) (e : 2 ^ a - 1 + i = 2 ^ b - 1 + j) :
    a = b ∧ i = j := by
  have key : ∀ {a b i j : Nat}, i < 2 ^ a → j < 2 ^ b → 2 ^ a - 1 + i = 2 ^ b - 1 + j → ¬ a < b := by
    intro a b i j hi hj e hab
    have h1 : 2 ^ (a + 1) ≤ 2 ^ b := Nat.pow_le_pow_right (by omega) hab
    rw [Nat.pow_succ] at h1
    have := Nat.two_pow_pos a
    omega
  have h1 := key hi hj e
  have h2 := key hj hi e.symm
  have hab : a = b := by omega
  subst hab
  exact ⟨rfl, by omega⟩

theorem mi_inj {k k' i i' : Nat} (hk : k ≤ h) (hk' : k' ≤ h) (hi : i < 2 ^ (h - k)) (hi' : i' < 2 ^ (h - k'))
    (e : mi h k i = mi h k' i') : k = k' ∧ i = i' := by
  have := pow_pair hi hi' e
  omega

/-! ## Reference digests -/

theorem nodeVal_empty {l : List D} {k i : Nat} (he : l.length ≤ i * 2 ^ (k + 1)) : nodeVal H l k i = H.dN := by
  cases k with
  | zero => unfold nodeVal; rw [if_pos (by simpa using he)]
  | succ k => unfold nodeVal; rw [if_pos he]

theorem nodeVal_zero {l : List D} {i : Nat} (he : i * 2 < l.length) :
    nodeVal H l 0 i = H.joinL ((l[2 * i]?).getD H.dD) ((l[2 * i + 1]?).getD H.dD) := by
  unfold nodeVal; rw [if_neg (by omega)]

theorem nodeVal_succ {l : List D} {k i : Nat} (he : i * 2 ^ (k + 2) < l.length) :
    nodeVal H l (k + 1) i = H.join (nodeVal H l k (2 * i)) (nodeVal H l k (2 * i + 1)) := by
  conv => lhs; unfold nodeVal
  rw [if_neg (by omega)]

theorem nodeVal_nil (k i : Nat) : nodeVal H ([] : List D) k i = H.dN := nodeVal_empty H (by simp)

/-- The digest of a node depends only on the leaves below it. -/
theorem nodeVal_congr {l l' : List D} : ∀ (k i : Nat),
    (∀ j, j / 2 ^ (k + 1) = i → l[j]? = l'[j]?) → nodeVal H l k i = nodeVal H l' k i
  | 0, i, hj => by
    have e0 := hj (2 * i) (by simp)
    have e1 := hj (2 * i + 1) (by simp; omega)
    have iff : l.length ≤ i * 2 ↔ l'.length ≤ i * 2 := by
      rw [← List.getElem?_eq_none_iff, ← List.getElem?_eq_none_iff, Nat.mul_comm, e0]
    unfold nodeVal
    by_cases hl : l.length ≤ i * 2
    · rw [if_pos hl, if_pos (iff.mp hl)]
    · rw [if_neg hl, if_neg (fun x => hl (iff.mpr x)), e0, e1]
  | k + 1, i, hj => by
    have h0 := nodeVal_congr k (2 * i) fun j hj' => hj j (by rw [div_pow_succ, hj']; omega)
    have h1 := nodeVal_congr k (2 * i + 1) fun j hj' => hj j (by rw [div_pow_succ, hj']; omega)
    have e0 := hj (i * 2 ^ (k + 2)) (Nat.mul_div_cancel i (Nat.two_pow_pos _))
    have iff : l.length ≤ i * 2 ^ (k + 2) ↔ l'.length ≤ i * 2 ^ (k + 2) := by
      rw [← List.getElem?_eq_none_iff, ← List.getElem?_eq_none_iff, e0]
    unfold nodeVal
    by_cases hl : l.length ≤ i * 2 ^ (k + 2)
    · rw [if_pos hl, if_pos (iff.mp hl)]
    · rw [if_neg hl, if_neg (fun x => hl (iff.mpr x)), h0, h1]

/-- Appending changes only the nodes above the new leaves. -/
theorem nodeVal_append {l x : List D} {k i : Nat}
    (hi : ∀ j, l.length ≤ j → j < l.length + x.length → j / 2 ^ (k + 1) ≠ i) :
    nodeVal H (l ++ x) k i = nodeVal H l k i := by
  refine nodeVal_congr H k i fun j hj => ?_
  by_cases h1 : j < l.length
  · exact List.getElem?_append_left h1
  · rw [List.getElem?_eq_none (by omega : l.length ≤ j), List.getElem?_eq_none]
    rw [List.length_append]
    have := hi j (by omega)
    by_cases h2 : j < l.length + x.length
    · exact absurd hj (this h2)
    · omega

theorem nodeVal_push {l : List D} {d : D} {k i : Nat} (hi : i ≠ l.length / 2 ^ (k + 1)) :
    nodeVal H (l ++ [d]) k i = nodeVal H l k i := by
  refine nodeVal_append H fun j h1 h2 => ?_
  simp only [List.length_singleton] at h2
  have : j = l.length := by omega
  subst this
  exact fun e => hi e.symm

/-- A node above a leaf is the hash of its two children. -/
theorem nodeVal_parent {l : List D} {n : Nat} (hn : n < l.length) (k : Nat) :
    H.joinAt (n / 2 ^ (k + 1)) (nodeVal H l k (n / 2 ^ (k + 1))) (nodeVal H l k (sibling (n / 2 ^ (k + 1)))) =
      nodeVal H l (k + 1) (n / 2 ^ (k + 2)) := by
  have e : n / 2 ^ (k + 2) = n / 2 ^ (k + 1) / 2 := div_pow_succ n (k + 1)
  have hle := div_pow_mul_le n (k + 2)
  rw [nodeVal_succ H (by omega : n / 2 ^ (k + 2) * 2 ^ (k + 2) < l.length), e]
  unfold Hash.joinAt sibling
  by_cases hp : n / 2 ^ (k + 1) % 2 = 0
  · simp only [if_pos hp]
    have e1 : 2 * (n / 2 ^ (k + 1) / 2) = n / 2 ^ (k + 1) := by omega
    rw [e1]
  · simp only [if_neg hp]
    have e1 : 2 * (n / 2 ^ (k + 1) / 2) = n / 2 ^ (k + 1) - 1 := by omega
    have e2 : n / 2 ^ (k + 1) - 1 + 1 = n / 2 ^ (k + 1) := by omega
    rw [e1, e2]

/-- The lowest inner digest above a leaf is the hash of the leaf and its sibling. -/
theorem nodeVal_base {l : List D} {n : Nat} (hn : n < l.length) :
    H.joinLeavesAt n ((l[n]?).getD H.dD) ((l[sibling n]?).getD H.dD) = nodeVal H l 0 (n / 2) := by
  rw [nodeVal_zero H (by omega)]
  unfold Hash.joinLeavesAt sibling
  by_cases hp : n % 2 = 0
  · simp only [if_pos hp]
    have e1 : 2 * (n / 2) = n := by omega
    rw [e1]
  · simp only [if_neg hp]
    have e1 : 2 * (n / 2) = n - 1 := by omega
    have e2 : n - 1 + 1 = n := by omega
    rw [e1, e2]

/-! ## Inner maps -/

/-- The stored (or sentinel) digest of the node `(k, i)` is the reference digest. -/
def Rt (m : InnerMap N) (l : List D) (k i : Nat) : Prop := getOr H m (mi h k i) = nodeVal H l k i

theorem getOr_set_self (m : InnerMap N) (i : Nat) (x : N) : getOr H (m.set i x) i = x := by
  simp [getOr, InnerMap.set]

theorem getOr_set_ne (m : InnerMap N) {i j : Nat} (x : N) (hij : j ≠ i) :
    getOr H (m.set i x) j = getOr H m j := by
  simp [getOr, InnerMap.set, hij]

theorem getOr_congr {m m' : InnerMap N} {i : Nat} (e : m i = m' i) : getOr H m i = getOr H m' i := by
  simp [getOr, e]

/-- One step of the climb: the node is stored and the digest of its parent is returned. -/
theorem insertAndJoin_spec {l : List D} {n d k : Nat} (hn : n < l.length) (hk : k + d + 1 = h)
    (m : InnerMap N) (hs : Rt H h m l k (sibling (n / 2 ^ (k + 1)))) :
    insertAndJoin H m ⟨d, n / 2 ^ (k + 1)⟩ (nodeVal H l k (n / 2 ^ (k + 1))) =
      (m.set (mi h k (n / 2 ^ (k + 1))) (nodeVal H l k (n / 2 ^ (k + 1))),
        nodeVal H l (k + 1) (n / 2 ^ (k + 2))) := by
  unfold insertAndJoin
  simp only [mapIndex_eq h hk]
  refine Prod.ext rfl ?_
  simp only
  rw [← nodeVal_parent H hn k, getOr_set_self]
  unfold Rt at hs
  unfold Hash.joinAt
  by_cases hp : n / 2 ^ (k + 1) % 2 = 0
  · rw [if_pos hp, if_pos hp]
    have e : mi h k (n / 2 ^ (k + 1)) + 1 = mi h k (sibling (n / 2 ^ (k + 1))) := by
      simp only [mi, sibling, if_pos hp]; omega
    rw [e, getOr_set_ne _ _ _ (by rw [← e]; omega), hs]
  · rw [if_neg hp, if_neg hp]
    have hx : 1 ≤ n / 2 ^ (k + 1) := by
      rcases Nat.eq_zero_or_pos (n / 2 ^ (k + 1)) with e | e
      · rw [e] at hp; simp at hp
      · exact e
    have e : mi h k (n / 2 ^ (k + 1)) - 1 = mi h k (sibling (n / 2 ^ (k + 1))) := by
      simp only [mi, sibling, if_neg hp]; exact Nat.add_sub_assoc hx _
    have e' : mi h k (sibling (n / 2 ^ (k + 1))) ≠ mi h k (n / 2 ^ (k + 1)) := by
      rw [← e]; simp only [mi]; omega
    rw [e, getOr_set_ne _ _ _ e', hs]

theorem foldNodes_spec {l : List D} {n : Nat} (hn : n < l.length) (hc : n < 2 ^ (h + 1)) :
    ∀ (d k : Nat) (m : InnerMap N), k + d + 1 = h →
      (∀ j, k ≤ j → j < h → Rt H h m l j (sibling (n / 2 ^ (j + 1)))) →
      (foldNodes H (ancestors d (n / 2 ^ (k + 1))) m (nodeVal H l k (n / 2 ^ (k + 1)))).2 =
        nodeVal H l h 0 ∧
      (∀ j, k ≤ j → j < h →
        Rt H h (foldNodes H (ancestors d (n / 2 ^ (k + 1))) m (nodeVal H l k (n / 2 ^ (k + 1)))).1 l j
          (n / 2 ^ (j + 1))) ∧
      (∀ x, (∀ j, k ≤ j → j < h → x ≠ mi h j (n / 2 ^ (j + 1))) →
        (foldNodes H (ancestors d (n / 2 ^ (k + 1))) m (nodeVal H l k (n / 2 ^ (k + 1)))).1 x = m x) := by
  have lt : ∀ j, j < h → n / 2 ^ (j + 1) < 2 ^ (h - j) := fun j hj => by
    refine div_pow_lt (a := h - j) (b := j + 1) ?_
    have : h - j + (j + 1) = h + 1 := by omega
    rw [this]; exact hc
  intro d
  induction d with
  | zero =>
    intro k m hk hs
    simp only [ancestors, foldNodes]
    rw [insertAndJoin_spec H h (d := 0) hn hk m (hs k (Nat.le_refl _) (by omega))]
    have e0 : n / 2 ^ (k + 2) = 0 := Nat.div_eq_of_lt (by have : k + 2 = h + 1 := by omega
                                                          rw [this]; exact hc)
    have eh : k + 1 = h := by omega
    refine ⟨by rw [e0, eh], ?_, ?_⟩
    · intro j h1 h2
      have : j = k := by omega
      subst this
      exact getOr_set_self H m _ _
    · intro x hx
      have := hx k (Nat.le_refl _) (by omega)
      simp [InnerMap.set, this]
  | succ d ih =>
    intro k m hk hs
    have hstep := insertAndJoin_spec H h hn hk m (hs k (Nat.le_refl _) (by omega))
    simp only [ancestors, foldNodes]
    rw [hstep]
    have e : n / 2 ^ (k + 1) / 2 = n / 2 ^ (k + 2) := (div_pow_succ n (k + 1)).symm
    rw [e]
    have hne : ∀ j i, j < h → k ≠ j → i < 2 ^ (h - j) → mi h j i ≠ mi h k (n / 2 ^ (k + 1)) := by
      intro j i hj hkj hi heq
      exact hkj (mi_inj h (by omega) (by omega) hi (lt k (by omega)) heq).1.symm
    have hs' : ∀ j, k + 1 ≤ j → j < h →
        Rt H h (m.set (mi h k (n / 2 ^ (k + 1))) (nodeVal H l k (n / 2 ^ (k + 1)))) l j
          (sibling (n / 2 ^ (j + 1))) := by
      intro j h1 h2
      unfold Rt
      have hlt := lt j h2
      have e2 : h - j = (h - j - 1) + 1 := by omega
      rw [getOr_set_ne _ _ _ (hne j _ h2 (by omega) (by rw [e2] at hlt ⊢; exact sibling_lt_pow hlt))]
      exact hs j (by omega) h2
    obtain ⟨r1, r2, r3⟩ := ih (k + 1) _ (by omega) hs'
    refine ⟨r1, ?_, ?_⟩
    · intro j h1 h2
      by_cases hjk : j = k
      · subst hjk
        unfold Rt
        rw [getOr_congr H (r3 _ fun j' h1' h2' => fun heq =>
          hne j' _ h2' (by omega) (lt j' h2') heq.symm), getOr_set_self]
      · exact r2 j (by omega) h2
    · intro x hx
      rw [r3 x fun j h1 h2 => hx j (by omega) h2]
      have := hx k (Nat.le_refl _) (by omega)
      simp [InnerMap.set, this]

/-- Inserting leaf `n` makes every node above it right and touches no other node. -/
theorem insert_spec {l : List D} {n : Nat} (hn : n < l.length) (hc : n < 2 ^ (h + 1)) (m : InnerMap N)
    (hs : ∀ j, j < h → Rt H h m l j (sibling (n / 2 ^ (j + 1)))) :
    (∀ j, j ≤ h → Rt H h (insert H h m n (nodeVal H l 0 (n / 2))) l j (n / 2 ^ (j + 1))) ∧
    (∀ x, (∀ j, j ≤ h → x ≠ mi h j (n / 2 ^ (j + 1))) →
      insert H h m n (nodeVal H l 0 (n / 2)) x = m x) := by
  have e0 : n / 2 ^ (h + 1) = 0 := Nat.div_eq_of_lt hc
  cases h with
  | zero =>
    simp only [insert, fromLeaf, foldNodes]
    refine ⟨?_, ?_⟩
    · intro j hj
      have : j = 0 := by omega
      subst this
      have e1 : n / 2 = 0 := by simpa using e0
      simp only [Rt, mi, Nat.zero_add, Nat.pow_one, e1, Nat.sub_self, Nat.pow_zero, Nat.add_zero]
      exact getOr_set_self H m 0 _
    · intro x hx
      have := hx 0 (Nat.le_refl _)
      rw [e0, mi_root] at this
      simp [InnerMap.set, this]
  | succ d =>
    have hf := foldNodes_spec H (d + 1) hn hc d 0 m (by omega) (fun j _ hj => hs j hj)
    simp only [Nat.zero_add, Nat.pow_one] at hf
    obtain ⟨r1, r2, r3⟩ := hf
    simp only [insert, fromLeaf]
    have lt : ∀ j, j < d + 1 → n / 2 ^ (j + 1) < 2 ^ (d + 1 - j) := fun j hj => by
      refine div_pow_lt (a := d + 1 - j) (b := j + 1) ?_
      have : d + 1 - j + (j + 1) = d + 1 + 1 := by omega
      rw [this]; exact hc
    refine ⟨?_, ?_⟩
    · intro j hj
      by_cases hjh : j = d + 1
      · subst hjh
        unfold Rt
        rw [e0, mi_root, getOr_set_self, r1]
      · unfold Rt
        rw [getOr_set_ne, r2 j (Nat.zero_le _) (by omega)]
        intro heq
        rw [← mi_root (d + 1)] at heq
        have := (mi_inj (d + 1) hj (Nat.le_refl _) (lt j (by omega)) (by simp) heq).1
        omega
    · intro x hx
      have hx0 := hx (d + 1) (Nat.le_refl _)
      rw [e0, mi_root] at hx0
      simp only [InnerMap.set, if_neg hx0]
      exact r3 x fun j _ hj => hx j (by omega)

/-! ## Paths -/

theorem ancestors_eq : ∀ (d k n : Nat), k + d + 1 = h →
    ancestors d (n / 2 ^ (k + 1)) =
      (List.range (d + 1)).map fun c => InnerNode.mk (d - c) (n / 2 ^ (k + c + 1))
  | 0, k, n, _ => by simp [ancestors, List.range_succ]
  | d + 1, k, n, hk => by
    rw [ancestors, ← div_pow_succ n (k + 1), ancestors_eq d (k + 1) n (by omega),
      List.range_succ_eq_map (n := d + 1), List.map_cons, List.map_map]
    refine congr (congrArg _ (by simp)) (List.map_congr_left fun c hc => ?_)
    have e1 : d + 1 - c.succ = d - c := by omega
    have e2 : k + c.succ + 1 = k + 1 + c + 1 := by omega
    simp only [Function.comp, e1, e2]

theorem fromLeaf_eq (n : Nat) :
    fromLeaf h n = (List.range h).map fun k => InnerNode.mk (h - 1 - k) (n / 2 ^ (k + 1)) := by
  cases h with
  | zero => simp [fromLeaf]
  | succ d =>
    have := ancestors_eq (d + 1) d 0 n (by omega)
    simp only [Nat.zero_add, Nat.pow_one] at this
    simp only [fromLeaf, this, Nat.add_sub_cancel]

theorem innerPath_eq (m : InnerMap N) (n : Nat) :
    innerPath H h m n = (List.range h).map fun k => getOr H m (mi h k (sibling (n / 2 ^ (k + 1)))) := by
  unfold innerPath
  rw [fromLeaf_eq, List.map_map]
  refine List.map_congr_left fun k hk => ?_
  rw [List.mem_range] at hk
  simp only [Function.comp, InnerNode.sibling]
  rw [mapIndex_eq h (k := k) (by omega)]

/-- Folding reference siblings from level `k` on gives the reference digests above. -/
theorem foldPath_spec {l : List D} {n : Nat} (hn : n < l.length) : ∀ (c k : Nat),
    foldPath H (n / 2 ^ k) (nodeVal H l k (n / 2 ^ (k + 1)))
      ((List.range c).map fun j => nodeVal H l (k + j) (sibling (n / 2 ^ (k + j + 1)))) =
      nodeVal H l (k + c) (n / 2 ^ (k + c + 1))
  | 0, k => by simp [foldPath]
  | c + 1, k => by
    rw [List.range_succ_eq_map, List.map_cons, List.map_map, foldPath, ← div_pow_succ]
    simp only [Nat.add_zero]
    rw [nodeVal_parent H hn k]
    have ih := foldPath_spec hn c (k + 1)
    have e : ∀ j, k + 1 + j = k + j.succ := fun j => by omega
    simp only [e] at ih
    exact ih

/-- The reference path of a leaf verifies against the reference root. -/
theorem specPath_root {l : List D} {n : Nat} (hn : n < l.length) (hc : n < 2 ^ (h + 1)) :
    (specPath H h l n).root H ((l[n]?).getD H.dD) = specRoot H h l := by
  unfold specPath Path.root specRoot
  simp only
  rw [nodeVal_base H hn]
  have hf := foldPath_spec H hn h 0
  simp only [Nat.zero_add, Nat.pow_zero, Nat.div_one, Nat.pow_one] at hf
  have e0 : n / 2 ^ (h + 1) = 0 := Nat.div_eq_of_lt hc
  rw [e0] at hf
  exact hf

end Verif.Merkle
