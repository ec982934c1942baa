import Verif.Merkle.Path
import Verif.Merkle.PartialProps
import Verif.Merkle.ForkModel

/-! # Branches of forked trees: construction and paths -/

namespace Verif.Merkle

variable {D N : Type} (H : Hash D N) (h : Nat)

/-! ## Inner digests from the current path -/

theorem asLeft_le (i : Nat) : asLeft i ≤ i := by unfold asLeft; split <;> omega

theorem asLeft_even (i : Nat) : asLeft i % 2 = 0 := by unfold asLeft; split <;> omega

theorem asLeft_div (i k : Nat) : asLeft i / 2 ^ (k + 1) = i / 2 ^ (k + 1) := by
  rw [Nat.pow_succ', ← Nat.div_div_eq_div_mul, ← Nat.div_div_eq_div_mul]
  congr 1
  unfold asLeft; split <;> omega

theorem asLeft_of_sibling_ge {i a : Nat} (hs : a ≤ sibling i) : asLeft a ≤ i := by
  unfold asLeft
  unfold sibling at hs
  split at hs <;> split <;> omega

theorem foldFromCurrent_spec {l : List D} {j : Nat} (hj : l.length = j + 1) (hc : l.length ≤ 2 ^ (h + 1)) :
    ∀ (d k : Nat) (m : InnerMap N), k + d + 1 = h →
      (∀ k' i, k ≤ k' → k' < h → i < 2 ^ (h - k') → m (mi h k' i) = none) →
      ∃ m', foldFromCurrent H (ancestors d (j / 2 ^ (k + 1))) (lefts H l j k (d + 1)) m
          (nodeVal H l k (j / 2 ^ (k + 1))) = some (m', nodeVal H l h 0) ∧
        (∀ k' i, k ≤ k' → k' < h → i < 2 ^ (h - k') → asLeft (j / 2 ^ (k' + 1)) ≤ i → Rt H h m' l k' i) ∧
        (∀ k' i, k' < k → i < 2 ^ (h - k') → m' (mi h k' i) = m (mi h k' i)) := by
  have hjc : j < 2 ^ (h + 1) := by omega
  -- one level
  have level : ∀ (d k : Nat) (m : InnerMap N), k + d + 1 = h →
      (∀ k' i, k ≤ k' → k' < h → i < 2 ^ (h - k') → m (mi h k' i) = none) →
      ∃ m1, (∀ ns, foldFromCurrent H (⟨d, j / 2 ^ (k + 1)⟩ :: ns) (lefts H l j k (d + 1)) m
            (nodeVal H l k (j / 2 ^ (k + 1))) =
          foldFromCurrent H ns (lefts H l j (k + 1) d) m1 (nodeVal H l (k + 1) (j / 2 ^ (k + 2)))) ∧
        (∀ i, i < 2 ^ (h - k) → asLeft (j / 2 ^ (k + 1)) ≤ i → Rt H h m1 l k i) ∧
        (∀ k' i, k' ≠ k → k' < h → i < 2 ^ (h - k') → m1 (mi h k' i) = m (mi h k' i)) := by
    intro d k m hk hm
    have ha := anc_lt h hjc (j := k) (by omega)
    have hp := nodeVal_parent H (l := l) (n := j) (by omega) k
    have hri := right_empty H hj (k := k)
    have hempty : ∀ i, j / 2 ^ (k + 1) < i → i < 2 ^ (h - k) → getOr H m (mi h k i) = nodeVal H l k i := by
      intro i hi hi2
      rw [nodeVal_empty, getOr, hm k i (Nat.le_refl _) (by omega) hi2]
      · rfl
      · have h1 := lt_div_pow_succ_mul j (k + 1)
        have h2 : (j / 2 ^ (k + 1) + 1) * 2 ^ (k + 1) ≤ i * 2 ^ (k + 1) := Nat.mul_le_mul_right _ hi
        omega
    by_cases hpar : j / 2 ^ (k + 1) % 2 = 0
    · refine ⟨m.set (mi h k (j / 2 ^ (k + 1))) (nodeVal H l k (j / 2 ^ (k + 1))), ?_, ?_, ?_⟩
      · intro ns
        simp only [foldFromCurrent, if_pos hpar, lefts, mapIndex_eq h hk]
        rw [sib_even hpar, right_empty H hj] at hp
        unfold Hash.joinAt at hp
        rw [if_pos hpar] at hp
        rw [hp]
      · intro i hi hai
        unfold asLeft at hai
        rw [if_pos hpar] at hai
        unfold Rt
        by_cases he : i = j / 2 ^ (k + 1)
        · rw [he, getOr_set_self]
        · rw [getOr_set_ne, hempty i (by omega) hi]
          intro heq
          exact he (mi_inj h (by omega) (by omega) hi ha heq).2
      · intro k' i hk' hkh hi
        have hne : mi h k' i ≠ mi h k (j / 2 ^ (k + 1)) := fun heq =>
          hk' (mi_inj h (by omega) (by omega) hi ha heq).1
        simp [InnerMap.set, hne]
    · have hmi : mi h k (j / 2 ^ (k + 1)) - 1 = mi h k (j / 2 ^ (k + 1) - 1) := by
        unfold mi
        generalize j / 2 ^ (k + 1) = a at *
        omega
      have ha1 : j / 2 ^ (k + 1) - 1 < 2 ^ (h - k) := by
        generalize j / 2 ^ (k + 1) = a at *
        omega
      refine ⟨(m.set (mi h k (j / 2 ^ (k + 1) - 1)) (nodeVal H l k (j / 2 ^ (k + 1) - 1))).set
        (mi h k (j / 2 ^ (k + 1))) (nodeVal H l k (j / 2 ^ (k + 1))), ?_, ?_, ?_⟩
      · intro ns
        simp only [foldFromCurrent, if_neg hpar, lefts, mapIndex_eq h hk, hmi]
        rw [sib_odd hpar] at hp
        unfold Hash.joinAt at hp
        rw [if_neg hpar] at hp
        rw [hp]
      · intro i hi hai
        unfold asLeft at hai
        rw [if_neg hpar] at hai
        unfold Rt
        by_cases he : i = j / 2 ^ (k + 1)
        · rw [he, getOr_set_self]
        · rw [getOr_set_ne]
          · by_cases he2 : i = j / 2 ^ (k + 1) - 1
            · rw [he2, getOr_set_self]
            · rw [getOr_set_ne, hempty i (by omega) hi]
              intro heq
              exact he2 (mi_inj h (by omega) (by omega) hi ha1 heq).2
          · intro heq
            exact he (mi_inj h (by omega) (by omega) hi ha heq).2
      · intro k' i hk' hkh hi
        have hne : mi h k' i ≠ mi h k (j / 2 ^ (k + 1)) := fun heq =>
          hk' (mi_inj h (by omega) (by omega) hi ha heq).1
        have hne2 : mi h k' i ≠ mi h k (j / 2 ^ (k + 1) - 1) := fun heq =>
          hk' (mi_inj h (by omega) (by omega) hi ha1 heq).1
        simp [InnerMap.set, hne, hne2]
  intro d
  induction d with
  | zero =>
    intro k m hk hm
    obtain ⟨m1, e1, e2, e3⟩ := level 0 k m hk hm
    refine ⟨m1, ?_, ?_, ?_⟩
    · rw [ancestors, e1]
      simp only [foldFromCurrent]
      rw [show k + 1 = h by omega, show k + 2 = h + 1 by omega, Nat.div_eq_of_lt hjc]
    · intro k' i h1 h2 h3 h4
      have : k' = k := by omega
      subst this
      exact e2 i h3 h4
    · intro k' i h1 h2
      exact e3 k' i (by omega) (by omega) h2
  | succ d ih =>
    intro k m hk hm
    obtain ⟨m1, e1, e2, e3⟩ := level (d + 1) k m hk hm
    obtain ⟨m2, f1, f2, f3⟩ := ih (k + 1) m1 (by omega) (fun k' i h1 h2 h3 => by
      rw [e3 k' i (by omega) h2 h3]; exact hm k' i (by omega) h2 h3)
    refine ⟨m2, ?_, ?_, ?_⟩
    · rw [ancestors, e1, ← div_pow_succ]
      exact f1
    · intro k' i h1 h2 h3 h4
      by_cases hk' : k' = k
      · subst hk'
        unfold Rt
        rw [getOr_congr H (f3 k' i (by omega) h3)]
        exact e2 i h3 h4
      · exact f2 k' i (by omega) h2 h3 h4
    · intro k' i h1 h2
      rw [f3 k' i (by omega) h2, e3 k' i (by omega) (by omega) h2]

/-- The inner tree built from the current path of a nonempty sequence is right to the right of the last pair. -/
theorem fromCurrent_spec (h1 : 1 ≤ h) {l : List D} (hl : l ≠ []) (hc : l.length ≤ 2 ^ (h + 1)) :
    ∃ m, fromCurrent H h (nodeVal H l 0 ((l.length - 1) / 2)) (l.length - 1) (lefts H l (l.length - 1) 0 h) =
        some (m, asLeft (l.length - 1)) ∧
      (∀ k i, k < h → i < 2 ^ (h - k) → asLeft ((l.length - 1) / 2 ^ (k + 1)) ≤ i → Rt H h m l k i) ∧
      Rt H h m l h 0 := by
  have hpos := List.length_pos_iff.mpr hl
  obtain ⟨d, rfl⟩ : ∃ d, h = d + 1 := ⟨h - 1, by omega⟩
  obtain ⟨m, e1, e2, _⟩ := foldFromCurrent_spec H (d + 1) (l := l) (j := l.length - 1) (by omega) hc d 0
    (fun _ => none) (by omega) (fun _ _ _ _ _ => rfl)
  refine ⟨m.set 0 (nodeVal H l (d + 1) 0), ?_, ?_, ?_⟩
  · unfold fromCurrent
    rw [if_neg (by rw [fromLeaf_eq]; simp)]
    simp only [fromLeaf, Nat.zero_add, Nat.pow_one] at e1 ⊢
    rw [e1]
    rfl
  · intro k i hk hi hai
    unfold Rt
    rw [getOr_set_ne]
    · exact e2 k i (by omega) hk hi hai
    · intro heq
      have hr := mi_root (d + 1)
      rw [← hr] at heq
      have := (mi_inj (d + 1) (by omega) (Nat.le_refl _) hi (by simp) heq).1
      omega
  · unfold Rt
    rw [mi_root, getOr_set_self]

theorem foldFromCurrent_zero : ∀ (d : Nat) (m : InnerMap N) (acc : N),
    ∃ m' x, foldFromCurrent H (ancestors d 0) [] m acc = some (m', x) ∧
      ∀ y, (∀ k, k ≤ d → y ≠ 2 ^ (k + 1) - 1) → m' y = m y
  | 0, m, acc => by
    refine ⟨m.set (2 ^ 1 - 1 + 0) acc, H.join acc H.dN, rfl, fun y hy => ?_⟩
    have := hy 0 (Nat.le_refl _)
    simp at this
    simp [InnerMap.set, this]
  | d + 1, m, acc => by
    obtain ⟨m', x, e1, e2⟩ := foldFromCurrent_zero d (m.set (2 ^ (d + 1 + 1) - 1 + 0) acc) (H.join acc H.dN)
    refine ⟨m', x, ?_, fun y hy => ?_⟩
    · rw [ancestors, foldFromCurrent]
      simp only [Nat.zero_mod, if_true, Nat.zero_div, InnerNode.mapIndex]
      exact e1
    · rw [e2 y fun k hk => hy k (by omega)]
      have := hy (d + 1) (Nat.le_refl _)
      simp [InnerMap.set, this]

/-- The inner tree built from the current path of an empty tree: only the nodes above the first leaf are set. -/
theorem fromCurrent_empty :
    ∃ m, fromCurrent H h H.dN 0 [] = some (m, 0) ∧
      ∀ k i, k ≤ h → i < 2 ^ (h - k) → i ≠ 0 → Rt H h m ([] : List D) k i := by
  cases h with
  | zero =>
    refine ⟨fun _ => none, rfl, fun k i _ _ _ => ?_⟩
    show getOr H (fun _ => none) _ = nodeVal H [] k i
    rw [nodeVal_nil]; rfl
  | succ d =>
    obtain ⟨m, x, e1, e2⟩ := foldFromCurrent_zero H d (fun _ => none) H.dN
    refine ⟨m.set 0 x, ?_, fun k i hk hi h0 => ?_⟩
    · unfold fromCurrent
      rw [if_neg (by rw [fromLeaf_eq]; simp)]
      simp only [fromLeaf, Nat.zero_div]
      rw [e1]
      rfl
    · unfold Rt
      rw [nodeVal_nil, getOr_set_ne, getOr, e2]
      · rfl
      · intro k' hk' heq
        have h2 : 2 ^ (k' + 1) - 1 = mi (d + 1) (d - k') 0 := by
          unfold mi
          rw [show d + 1 - (d - k') = k' + 1 by omega]; omega
        rw [h2] at heq
        exact h0 (mi_inj (d + 1) hk (by omega) hi (Nat.two_pow_pos _) heq).2
      · intro heq
        rw [← mi_root (d + 1)] at heq
        exact h0 (mi_inj (d + 1) hk (Nat.le_refl _) hi (by simp) heq).2

/-! ## Right views -/

/-- A view of a tree holding the sequence `l`, with proofs for the leaves of `P`.  The digests in a proof may be
wrong where they lie above both the last leaf and the next free leaf. -/
structure View.Right (v : View D N) (l : List D) (P : Nat → Prop) : Prop where
  len : v.len = l.length
  leaf : v.currentLeaf = l[l.length - 1]?
  empty : l = [] → v.currentPath = CurrentPath.default H
  cur : l ≠ [] → v.currentPath = specCurrent H h l
  path : ∀ i, P i → i < l.length → ∃ p, v.path i = some p ∧ p.leafIndex = i ∧
    p.sib = (l[sibling i]?).getD H.dD ∧ p.path.length = h ∧
    ∀ k, k < h → ¬ Stale l.length k (sibling (i / 2 ^ (k + 1))) →
      p.path[k]? = some (nodeVal H l k (sibling (i / 2 ^ (k + 1))))

namespace Partial

theorem live_kept {t : Partial D N} {l : List D} (hs : t.Store h l) {j : Nat} (hj : Live t j) : Kept t j := by
  refine ⟨hj.1, ?_⟩
  by_cases h1 : t.leaf.next ≤ j - t.start
  · exact .inr h1
  · left
    by_cases h2 : j - t.start + 1 = t.leaf.next
    · refine hs.last _ ?_
      unfold LeafMap.next at h2
      cases hl : t.leaf.last with
      | none => rw [hl] at h2; simp at h2
      | some c => rw [hl] at h2; simp only [Nat.add_right_cancel_iff] at h2; rw [h2]
    · have h3 : ¬ t.leaf.markedOrRemoved (j - t.start) = true := by rw [hj.2]; simp
      rw [LeafMap.mor_iff] at h3
      cases hm : t.leaf.map (j - t.start) with
      | some x => rfl
      | none =>
        exfalso
        refine h3 ⟨by omega, ?_⟩
        unfold LeafMap.isMarked
        rw [hm]
        rfl

end Partial

namespace Branch

/-- The leaf store of a new branch. -/
theorem store_fromVec (kind : Kind) (l : List D) (hc : l.length ≤ 2 ^ (h + 1)) (s : Nat) (hs : s % 2 = 0)
    (hsl : s ≤ l.length) (m : InnerMap N) :
    (Partial.mk (LeafMap.fromVec kind (l.drop s) false) m s).Store h l ∧
      (LeafMap.fromVec kind (l.drop s) false).next = l.length - s ∧
      ∀ c, c < l.length - s → ((LeafMap.fromVec kind (l.drop s) false).map c).isSome := by
  have hnext : (LeafMap.fromVec kind (l.drop s) false).next = l.length - s := by
    unfold LeafMap.next LeafMap.fromVec
    simp only [List.length_drop]
    by_cases h0 : l.length - s = 0
    · rw [if_pos h0, h0]
    · rw [if_neg h0]; simp only; omega
  have hsome : ∀ c, c < l.length - s → ((LeafMap.fromVec kind (l.drop s) false).map c).isSome := by
    intro c hc
    unfold LeafMap.fromVec
    simp only [List.getElem?_drop]
    rw [List.getElem?_eq_getElem (by omega)]
    rfl
  refine ⟨⟨?_, hc, hs, ?_, ?_, ?_⟩, hnext, hsome⟩
  · show s + (LeafMap.fromVec kind (l.drop s) false).next = _
    rw [hnext]; omega
  · intro i x hx
    have hx' : ((l.drop s)[i]?).map (fun d => (if kind = .trivial then false else false, d)) = some x := hx
    rw [List.getElem?_drop] at hx'
    show l[s + i]? = _
    cases hl : l[s + i]? with
    | none => rw [hl] at hx'; cases hx'
    | some y =>
      rw [hl] at hx'
      simp only [Option.map_some, Option.some.injEq] at hx'
      rw [← hx']
  · intro c hc'
    refine hsome c ?_
    have : (LeafMap.fromVec kind (l.drop s) false).next = c + 1 := by
      unfold LeafMap.next
      rw [show (LeafMap.fromVec kind (l.drop s) false).last = some c from hc']
    omega
  · intro i _ hlt
    refine hsome _ ?_
    rw [← hnext]
    exact hlt

/-- The reference of a branch: the leaves of the base, then the pending ones. -/
def ref (base : List D) (pend : List (D × Bool)) (ok : Bool) : PRef D := ⟨base.map (·, false) ++ pend, ok⟩

theorem ref_digests (base : List D) (pend : List (D × Bool)) (ok : Bool) :
    (ref base pend ok).digests = base ++ pend.map Prod.fst := by
  simp [ref, PRef.digests, Function.comp_def]

/-- The first leaf index that a branch over `n` leaves stores. -/
def startOf (n : Nat) : Nat := asLeft (n - 1)

theorem startOf_le (n : Nat) : startOf n ≤ n := by
  have := asLeft_le (n - 1)
  unfold startOf; omega

/-- A fresh branch represents its base. -/
theorem newUnchecked_spec (h1 : 1 ≤ h) (kind : Kind) {v : View D N} {l : List D} {P : Nat → Prop}
    (hv : v.Right H h l P) (hc : l.length ≤ 2 ^ (h + 1)) :
    ∃ b, newUnchecked H h kind v [] = some b ∧ b.contrib = l.length - startOf l.length ∧
      Partial.Rel H h kind True True (startOf l.length) b.data (ref l [] (decide (l ≠ []))) := by
  have hdig : (ref l [] (decide (l ≠ []))).digests = l := by rw [ref_digests]; simp
  have hflag : ∀ (i : Nat) (d : D), (ref l [] (decide (l ≠ []))).leaves[i]? ≠ some (d, true) := by
    intro i d he
    unfold ref at he
    simp only [List.append_nil, List.getElem?_map] at he
    cases hx : l[i]? with
    | none => rw [hx] at he; cases he
    | some x => rw [hx] at he; simp at he
  unfold newUnchecked setup
  by_cases hl : l = []
  · subst hl
    rw [if_pos (by rw [hv.len]; rfl), hv.empty rfl]
    obtain ⟨m, e1, e2⟩ := fromCurrent_empty (D := D) H h
    simp only [CurrentPath.default, e1, List.foldl_nil]
    obtain ⟨s1, s2, s3⟩ := store_fromVec h (N := N) kind ([] : List D) hc 0 rfl (Nat.zero_le _) m
    rw [List.drop_nil] at s1 s2 s3
    have hn : ∀ Q, Partial.NodesOk H h Q m ([] : List D) (decide (([] : List D) ≠ [])) := by
      intro Q
      refine ⟨fun k i hk hi hst _ => e2 k i hk hi fun h0 => hst ?_, fun e => by simp at e⟩
      subst h0
      exact ⟨by simp, by simp⟩
    refine ⟨_, rfl, rfl, rfl, rfl, by rw [hdig]; exact s1, by rw [hdig]; exact hn _,
      fun _ => by rw [hdig]; exact hn _, fun i d he => absurd he (hflag _ d), fun _ c hc' => ?_⟩
    exact s3 c (by rw [← s2]; exact hc')
  · have hpos := List.length_pos_iff.mpr hl
    rw [if_neg (by rw [hv.len]; omega), hv.leaf, List.getElem?_eq_getElem (by omega), hv.cur hl]
    obtain ⟨m, e1, e2, e3⟩ := fromCurrent_spec H h h1 hl hc
    have hle := asLeft_le (l.length - 1)
    obtain ⟨s1, s2, s3⟩ := store_fromVec h (N := N) kind l hc (asLeft (l.length - 1)) (asLeft_even _) (by omega) m
    have hkept : Nodes H h (Partial.Kept ⟨LeafMap.fromVec kind (l.drop (asLeft (l.length - 1))) false, m,
        asLeft (l.length - 1)⟩) (fun _ _ => True) m l := by
      rintro k i hk hi _ (rfl | ⟨j', _, hj2, hj3⟩)
      · have : i = 0 := by simpa using hi
        subst this
        exact e3
      · by_cases hkh : k = h
        · subst hkh
          have : i = 0 := by simpa using hi
          subst this
          exact e3
        · refine e2 k i (by omega) hi (asLeft_of_sibling_ge ?_)
          rw [← hj2, ← asLeft_div]
          exact Nat.div_le_div_right hj3.1
    have hok := Partial.Nodes.ok H h hkept (decide (l ≠ []))
    have hrel : ∀ c, c = l.length - startOf l.length →
        ∃ b, some (Branch.mk c (Partial.mk (LeafMap.fromVec kind (l.drop (asLeft (l.length - 1))) false) m
          (asLeft (l.length - 1)))) = some b ∧ b.contrib = l.length - startOf l.length ∧
          Partial.Rel H h kind True True (startOf l.length) b.data (ref l [] (decide (l ≠ []))) := by
      intro c hcc
      refine ⟨_, rfl, hcc, rfl, rfl, by rw [hdig]; exact s1, ?_, fun _ => by rw [hdig]; exact hok,
        fun i d he => absurd he (hflag _ d), fun _ c hc' => ?_⟩
      · rw [hdig]
        exact hok.mono H h fun j hj => Partial.live_kept h s1 hj
      · exact s3 c (by rw [← s2]; exact hc')
    have hb := nodeVal_base H (l := l) (n := l.length - 1) (by omega)
    rw [List.getElem?_eq_getElem (show l.length - 1 < l.length by omega)] at hb
    simp only [Option.getD_some] at hb
    unfold Hash.joinLeavesAt at hb
    by_cases hp : (l.length - 1) % 2 = 0
    · rw [if_pos hp] at hb
      have hst : asLeft (l.length - 1) = l.length - 1 := by unfold asLeft; rw [if_pos hp]
      have hdrop : l.drop (asLeft (l.length - 1)) = [l[l.length - 1]] := by
        rw [hst]
        rw [List.drop_eq_getElem_cons (by omega), List.drop_eq_nil_of_le (by omega)]
      simp only [specCurrent, if_pos hp, hb, e1, List.foldl_nil]
      rw [← hdrop]
      exact hrel 1 (by unfold startOf; omega)
    · rw [if_neg hp] at hb
      have hst : asLeft (l.length - 1) = l.length - 2 := by unfold asLeft; rw [if_neg hp]; omega
      have hsib : sibling (l.length - 1) = l.length - 2 := by unfold sibling; rw [if_neg hp]; omega
      have hlt : sibling (l.length - 1) < l.length := by omega
      have hdrop : l.drop (asLeft (l.length - 1)) =
          [(l[sibling (l.length - 1)]?).getD H.dD, l[l.length - 1]] := by
        rw [hst, List.drop_eq_getElem_cons (by omega), List.drop_eq_getElem_cons (by omega),
          List.drop_eq_nil_of_le (by omega), hsib, List.getElem?_eq_getElem (by omega)]
        simp only [Option.getD_some]
        congr 3
        omega
      simp only [specCurrent, if_neg hp, hb, e1, List.foldl_nil]
      rw [← hdrop]
      exact hrel 2 (by unfold startOf; omega)

end Branch

end Verif.Merkle
