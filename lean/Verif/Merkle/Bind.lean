import Verif.Merkle.Path

/-! # A verifying path leads to a leaf of the tree, or breaks the hash

No path length below the height, no index and no missing leaf is excluded: the tree fills up with defaults, and the breaks
named here are those that a path of the right length can contain. -/

namespace Verif.Merkle

variable {D N : Type} (H : Hash D N) (h : Nat)

/-- Pairs of leaf digests that are hashed for the root of a tree. -/
def TreeLeafPair (l : List D) (y : D × D) : Prop :=
  ∃ i, i * 2 < l.length ∧ y = ((l[2 * i]?).getD H.dD, (l[2 * i + 1]?).getD H.dD)

/-- Pairs of inner digests that are hashed for the root of a tree. -/
def TreePair (l : List D) (y : N × N) : Prop :=
  ∃ k i, k < h ∧ i * 2 ^ (k + 2) < l.length ∧ y = (nodeVal H l k (2 * i), nodeVal H l k (2 * i + 1))

/-- Verifying the path hashes nothing to the default digest, and the leaf is not the default leaf. -/
structure PathSound (p : Path D N) (a : D) : Prop where
  item : a ≠ H.dD
  leaf : H.joinL (leafInput p a).1 (leafInput p a).2 ≠ H.dN
  inner : ∀ x ∈ foldInputs H p.leafIndex (H.joinLeavesAt p.leafIndex a p.sib) p.path, H.join x.1 x.2 ≠ H.dN

/-- Verifying the path and computing the root of the tree hash no two different pairs to one digest. -/
structure TreeSound (l : List D) (p : Path D N) (a : D) : Prop where
  leaf : ∀ y, TreeLeafPair H l y →
    H.joinL (leafInput p a).1 (leafInput p a).2 = H.joinL y.1 y.2 → leafInput p a = y
  inner : ∀ x ∈ foldInputs H p.leafIndex (H.joinLeavesAt p.leafIndex a p.sib) p.path, ∀ y, TreePair H h l y →
    H.join x.1 x.2 = H.join y.1 y.2 → x = y

theorem joinLeavesAt_pair (p : Path D N) (a : D) :
    H.joinLeavesAt p.leafIndex a p.sib = H.joinL (leafInput p a).1 (leafInput p a).2 := by
  unfold Hash.joinLeavesAt leafInput
  split <;> rfl

theorem fold_ne (i : Nat) (acc : N) (ds : List N) (h0 : acc ≠ H.dN)
    (hs : ∀ x ∈ foldInputs H i acc ds, H.join x.1 x.2 ≠ H.dN) : foldPath H i acc ds ≠ H.dN := by
  induction ds generalizing i acc with
  | nil => exact h0
  | cons d ds ih =>
    refine ih _ _ ?_ fun x hx => hs x (List.mem_cons_of_mem _ hx)
    rw [joinAt_pair]
    exact hs _ List.mem_cons_self

/-- The default digest is not the root of a sound path. -/
theorem root_ne (p : Path D N) (a : D) (hs : PathSound H p a) : p.root H a ≠ H.dN := by
  refine fold_ne H _ _ _ ?_ hs.inner
  rw [joinLeavesAt_pair]
  exact hs.leaf

theorem fold_node (l : List D) (ds : List N) : ∀ (i k j : Nat) (acc : N), k + ds.length ≤ h →
    foldPath H i acc ds = nodeVal H l (k + ds.length) j →
    (∀ x ∈ foldInputs H i acc ds, H.join x.1 x.2 ≠ H.dN) →
    (∀ x ∈ foldInputs H i acc ds, ∀ y, TreePair H h l y → H.join x.1 x.2 = H.join y.1 y.2 → x = y) →
    ∃ J, acc = nodeVal H l k J := by
  induction ds with
  | nil => intro i k j acc _ e _ _; exact ⟨j, e⟩
  | cons d ds ih =>
    intro i k j acc hk e hd hc
    simp only [List.length_cons] at hk e
    obtain ⟨J, hJ⟩ := ih (i / 2) (k + 1) j (H.joinAt (i / 2) acc d) (by omega)
      (by rw [show k + 1 + ds.length = k + (ds.length + 1) by omega]; exact e)
      (fun x hx => hd x (List.mem_cons_of_mem _ hx)) (fun x hx => hc x (List.mem_cons_of_mem _ hx))
    rw [joinAt_pair] at hJ
    by_cases he : l.length ≤ J * 2 ^ (k + 2)
    · rw [nodeVal_empty H he] at hJ
      exact absurd hJ (hd _ List.mem_cons_self)
    · rw [nodeVal_succ H (by omega)] at hJ
      have hx := hc _ List.mem_cons_self (nodeVal H l k (2 * J), nodeVal H l k (2 * J + 1))
        ⟨k, J, by omega, by omega, rfl⟩ hJ
      split at hx
      · exact ⟨_, congrArg Prod.fst hx⟩
      · exact ⟨_, congrArg Prod.snd hx⟩

/-- A path of the height of the tree that verifies against its root is for one of its leaves, if the hash is not broken on
the way. -/
theorem mem_of_verify [DecidableEq N] (l : List D) (p : Path D N) (a : D) (hp : p.path.length = h)
    (hv : p.verify H (specRoot H h l) a = true) (hs : PathSound H p a) (ht : TreeSound H h l p a) : a ∈ l := by
  have e := (of_decide_eq_true hv).symm
  unfold Path.root specRoot at e
  obtain ⟨J, hJ⟩ := fold_node H h l p.path p.leafIndex 0 0 _ (by omega) (by rw [Nat.zero_add, hp]; exact e) hs.inner ht.inner
  rw [joinLeavesAt_pair] at hJ
  by_cases he : l.length ≤ J * 2
  · rw [nodeVal_empty H (by simpa using he)] at hJ
    exact absurd hJ hs.leaf
  · rw [nodeVal_zero H (by omega)] at hJ
    have hx := ht.leaf ((l[2 * J]?).getD H.dD, (l[2 * J + 1]?).getD H.dD) ⟨J, by omega, rfl⟩ hJ
    have key : ∀ n : Nat, a = (l[n]?).getD H.dD → a ∈ l := by
      intro n hn
      cases hq : l[n]? with
      | none => rw [hq] at hn; exact absurd hn hs.item
      | some b =>
        rw [hq] at hn
        simp only [Option.getD_some] at hn
        subst hn
        exact List.mem_of_getElem? hq
    unfold leafInput at hx
    split at hx
    · exact key _ (congrArg Prod.fst hx)
    · exact key _ (congrArg Prod.snd hx)

end Verif.Merkle
