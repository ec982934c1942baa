import Verif.Poseidon.Elim

/-!
# Triangular form and back substitution: helpers for C79
-/

namespace Verif.Poseidon

set_option linter.unusedSectionVars false

open Matrix

variable {F : Type} [Field F] [DecidableEq F]

/-- The state of `upper_triangular` after `c` columns. -/
structure UpInv (n : Nat) (P : List F → List F → Prop) (M : Rows F) (c : Nat)
    (st : (Rows F × Rows F) × (Rows F × Rows F)) : Prop where
  lenR : st.1.1.length = c
  lenQ : st.1.2.length = c
  lenC : st.2.1.length = n - c
  lenD : st.2.2.length = n - c
  relR : ∀ k, k < c → P (row st.1.1 k) (row st.1.2 k)
  relC : ∀ k, k < n - c → P (row st.2.1 k) (row st.2.2 k)
  diag : ∀ k, k < c → col (row st.1.1 k) k ≠ 0
  lower : ∀ k, k < c → ∀ j, j < k → col (row st.1.1 k) j = 0
  zero : ∀ r ∈ st.2.1, ∀ j, j < c → col r j = 0
  ker : ∀ v : Fin n → F, (∀ r ∈ st.1.1, vec n r ⬝ᵥ v = 0) → (∀ r ∈ st.2.1, vec n r ⬝ᵥ v = 0) →
    ∀ r ∈ M, vec n r ⬝ᵥ v = 0

/-- A triangular system with fewer rows than columns has a nonzero solution. -/
theorem triangular_solution {n c : Nat} (hc : c < n) (R : Nat → List F)
    (hd : ∀ k, k < c → col (R k) k ≠ 0) (hl : ∀ k, k < c → ∀ j, j < k → col (R k) j = 0) :
    ∀ t, t ≤ c → ∃ v : Fin n → F, v ⟨c, hc⟩ = 1 ∧ (∀ j : Fin n, c < j → v j = 0) ∧
      ∀ k, c - t ≤ k → k < c → vec n (R k) ⬝ᵥ v = 0 := by
  intro t
  induction t with
  | zero =>
    intro _
    refine ⟨fun j => if j.1 = c then 1 else 0, by simp, fun j hj => ?_, fun k h1 h2 => by omega⟩
    show (if j.1 = c then (1 : F) else 0) = 0
    rw [if_neg (by omega)]
  | succ t ih =>
    intro ht
    obtain ⟨v, h1, h2, h3⟩ := ih (by omega)
    have hk0 : c - (t + 1) < n := by omega
    let k0 : Fin n := ⟨c - (t + 1), hk0⟩
    let δ : F := - (vec n (R k0) ⬝ᵥ v) / col (R k0) k0
    refine ⟨v + Pi.single k0 δ, ?_, ?_, ?_⟩
    · have : (⟨c, hc⟩ : Fin n) ≠ k0 := by intro e; have := congrArg Fin.val e; simp [k0] at this; omega
      simp [Pi.single_eq_of_ne this, h1]
    · intro j hj
      have : j ≠ k0 := by intro e; have := congrArg Fin.val e; simp [k0] at this; omega
      simp [Pi.single_eq_of_ne this, h2 j hj]
    · intro k hk1 hk2
      rw [dotProduct_add, dotProduct_single]
      by_cases hk : k = c - (t + 1)
      · have e : k = k0.1 := hk
        have hne := hd k hk2
        show vec n (R k) ⬝ᵥ v + col (R k) k0 * δ = 0
        rw [e] at hne ⊢
        simp only [δ]
        rw [mul_div_cancel₀ _ hne]; simp
      · have hz : vec n (R k) k0 = 0 := hl k hk2 _ (by simp [k0]; omega)
        rw [h3 k (by omega) hk2, hz]; simp

/-- A nonzero vector in the kernel: the matrix is not invertible. -/
theorem not_unit_of_kernel {n : Nat} {M : Rows F} (hM : Shape n n M) {v : Fin n → F} (hv : v ≠ 0)
    (h : ∀ r ∈ M, vec n r ⬝ᵥ v = 0) : ¬ IsUnit (toM n n M) := by
  intro hu
  obtain ⟨N, hN⟩ := hu.exists_left_inv
  have hmv : toM n n M *ᵥ v = 0 := by
    funext i
    exact h (row M i) (row_mem (by rw [hM.1]; exact i.2))
  apply hv
  have : (N * toM n n M) *ᵥ v = v := by rw [hN, one_mulVec]
  rw [← this, ← mulVec_mulVec, hmv, mulVec_zero]

/-- If the remaining rows vanish up to the column `c`, the matrix is not invertible. -/
theorem UpInv.stuck {n : Nat} {P : List F → List F → Prop} {M : Rows F} {c : Nat}
    {st : (Rows F × Rows F) × (Rows F × Rows F)} (hI : UpInv n P M c st) (hM : Shape n n M) (hc : c < n)
    (h : ∀ r ∈ st.2.1, col r c = 0) : ¬ IsUnit (toM n n M) := by
  obtain ⟨v, h1, h2, h3⟩ := triangular_solution hc (row st.1.1) hI.diag hI.lower c (Nat.le_refl c)
  apply not_unit_of_kernel hM (v := v)
  · intro e; rw [e] at h1; simp at h1
  · apply hI.ker
    · intro r hr
      obtain ⟨k, hk, rfl⟩ := mem_row hr
      exact h3 k (by omega) (hI.lenR ▸ hk)
    · intro r hr
      show ∑ j : Fin n, vec n r j * v j = 0
      apply Finset.sum_eq_zero
      intro j _
      rcases Nat.lt_trichotomy j.1 c with hj | hj | hj
      · show col r j * v j = 0
        rw [hI.zero r hr j hj, zero_mul]
      · show col r j * v j = 0
        rw [hj, h r hr, zero_mul]
      · rw [h2 j hj, mul_zero]

theorem upperLoop_succ (M S : Rows F) (c : Nat) : upperLoop M S (c + 1) =
    (upperLoop M S c).bind fun st => (eliminate st.2.1 c st.2.2).map fun q =>
      ((st.1.1 ++ [row q.1 0], st.1.2 ++ [row q.2 0]), (q.1.eraseIdx 0, q.2.eraseIdx 0)) := by
  simp only [upperLoop, List.range_succ, List.foldl_append, List.foldl_cons, List.foldl_nil]

theorem row_eraseIdx_zero (M : Rows F) (k : Nat) : row (M.eraseIdx 0) k = row M (k + 1) := by
  cases M <;> simp [row]

/-- The invariant of `upper_triangular`. -/
theorem upperLoop_inv {n : Nat} {P : List F → List F → Prop} (hP : Linear n P) {M S : Rows F} (hM : Shape n n M)
    (hS : S.length = n) (hMS : ∀ k, k < n → P (row M k) (row S k)) : ∀ c, c < n →
    (∃ st, upperLoop M S c = some st ∧ UpInv n P M c st) ∨ (upperLoop M S c = none ∧ ¬ IsUnit (toM n n M)) := by
  intro c
  induction c with
  | zero =>
    intro _
    refine Or.inl ⟨(([], []), (M, S)), rfl, ?_⟩
    exact { lenR := rfl, lenQ := rfl, lenC := hM.1, lenD := hS, relR := by intro k hk; omega, relC := hMS,
            diag := by intro k hk; omega, lower := by intro k hk; omega, zero := by intro r _ j hj; omega,
            ker := fun v _ h => h }
  | succ c ih =>
    intro hc
    rcases ih (by omega) with ⟨st, hst, hI⟩ | ⟨h1, h2⟩
    · rw [upperLoop_succ, hst]
      simp only [Option.bind_some]
      cases he : eliminate st.2.1 c st.2.2 with
      | none =>
        refine Or.inr ⟨rfl, hI.stuck hM (by omega) ?_⟩
        intro r hr
        exact eliminate_none he r hr (hI.zero r hr)
      | some q =>
        obtain ⟨M', S'⟩ := q
        refine Or.inl ⟨_, rfl, ?_⟩
        obtain ⟨e1, e2, e3, e4, e5, e6, e7, e8⟩ := eliminate_step hP (by rw [hI.lenC, hI.lenD])
          (by rw [hI.lenC]; exact hI.relC) hI.zero he
        rw [hI.lenC] at e1 e2 e3 e4
        have lenR := hI.lenR
        have lenQ := hI.lenQ
        refine { lenR := by simp [lenR], lenQ := by simp [lenQ], lenC := ?_, lenD := ?_, relR := ?_, relC := ?_,
                 diag := ?_, lower := ?_, zero := ?_, ker := ?_ }
        · simp only [List.length_eraseIdx]; split <;> omega
        · simp only [List.length_eraseIdx]; split <;> omega
        · intro k hk
          by_cases h : k < c
          · simp only
            rw [row_append_left (by omega), row_append_left (by omega)]
            exact hI.relR k h
          · have hk' : k = c := by omega
            simp only
            rw [show row (st.1.1 ++ [row M' 0]) k = row M' 0 by rw [hk', ← lenR]; exact row_append_length,
              show row (st.1.2 ++ [row S' 0]) k = row S' 0 by rw [hk', ← lenQ]; exact row_append_length]
            exact e4 0 e3
        · intro k hk
          simp only [row_eraseIdx_zero]
          exact e4 (k + 1) (by omega)
        · intro k hk
          by_cases h : k < c
          · simp only
            rw [row_append_left (by omega)]
            exact hI.diag k h
          · have hk' : k = c := by omega
            simp only
            rw [show row (st.1.1 ++ [row M' 0]) k = row M' 0 by rw [hk', ← lenR]; exact row_append_length, hk']
            exact e5
        · intro k hk j hj
          by_cases h : k < c
          · simp only
            rw [row_append_left (by omega)]
            exact hI.lower k h j hj
          · have hk' : k = c := by omega
            simp only
            rw [show row (st.1.1 ++ [row M' 0]) k = row M' 0 by rw [hk', ← lenR]; exact row_append_length]
            exact e6 _ (row_mem (by omega)) j (by omega)
        · intro r hr j hj
          by_cases h : j < c
          · exact e6 r (List.mem_of_mem_eraseIdx hr) j h
          · have hj' : j = c := by omega
            rw [hj']; exact e7 r hr
        · intro v hv1 hv2
          have h0 : vec n (row M' 0) ⬝ᵥ v = 0 := hv1 _ (by simp)
          refine hI.ker v (fun r hr => hv1 r (by simp [hr])) (e8 v ?_)
          intro r hr
          obtain ⟨k, hk, rfl⟩ := mem_row hr
          cases k with
          | zero => exact h0
          | succ k =>
            rw [← row_eraseIdx_zero]
            apply hv2
            apply row_mem
            simp only [List.length_eraseIdx]; split <;> omega
    · right
      rw [upperLoop_succ, h1]
      exact ⟨rfl, h2⟩

/-- The result of `upper_triangular`: triangular with related rows; all diagonal elements but the last are nonzero,
and the last is zero only if the matrix is not invertible. -/
theorem upperTriangular_spec {n : Nat} {P : List F → List F → Prop} (hP : Linear n P) {M S : Rows F}
    (hM : Shape n n M) (hn : 0 < n) (hS : S.length = n) (hMS : ∀ k, k < n → P (row M k) (row S k)) :
    (∃ U T, upperTriangular M S = some (U, T) ∧ U.length = n ∧ T.length = n ∧
      (∀ k, k < n → P (row U k) (row T k)) ∧ (∀ k, k < n → ∀ j, j < k → col (row U k) j = 0) ∧
      ((∃ k, k < n ∧ col (row U k) k = 0) → ¬ IsUnit (toM n n M))) ∨
    (upperTriangular M S = none ∧ ¬ IsUnit (toM n n M)) := by
  unfold upperTriangular
  rw [hM.1]
  rcases upperLoop_inv hP hM hS hMS (n - 1) (by omega) with ⟨st, hst, hI⟩ | ⟨h1, h2⟩
  · left
    rw [hst]
    have lenR := hI.lenR
    have lenQ := hI.lenQ
    have lenC := hI.lenC
    refine ⟨_, _, rfl, by simp [lenR]; omega, by simp [lenQ]; omega, ?_, ?_, ?_⟩
    · intro k hk
      by_cases h : k < n - 1
      · rw [row_append_left (by omega), row_append_left (by omega)]; exact hI.relR k h
      · have hk' : k = n - 1 := by omega
        rw [show row (st.1.1 ++ [row st.2.1 0]) k = row st.2.1 0 by rw [hk', ← lenR]; exact row_append_length,
          show row (st.1.2 ++ [row st.2.2 0]) k = row st.2.2 0 by rw [hk', ← lenQ]; exact row_append_length]
        exact hI.relC 0 (by omega)
    · intro k hk j hj
      by_cases h : k < n - 1
      · rw [row_append_left (by omega)]; exact hI.lower k h j hj
      · have hk' : k = n - 1 := by omega
        rw [show row (st.1.1 ++ [row st.2.1 0]) k = row st.2.1 0 by rw [hk', ← lenR]; exact row_append_length]
        exact hI.zero _ (row_mem (by omega)) j (by omega)
    · rintro ⟨k, hk, h0⟩
      by_cases h : k < n - 1
      · rw [row_append_left (by omega)] at h0; exact absurd h0 (hI.diag k h)
      · have hk' : k = n - 1 := by omega
        rw [show row (st.1.1 ++ [row st.2.1 0]) k = row st.2.1 0 by rw [hk', ← lenR]; exact row_append_length] at h0
        apply hI.stuck hM (by omega)
        intro r hr
        obtain ⟨i, hi, rfl⟩ := mem_row hr
        have : i = 0 := by omega
        rw [this, ← hk']; exact h0
  · right
    rw [h1]; exact ⟨rfl, h2⟩

/-! ## Back substitution -/

/-- `v` is the unit vector `e_i`. -/
def IsUnitRow (n i : Nat) (v : List F) : Prop := ∀ j, j < n → col v j = if j = i then 1 else 0

theorem reduceRow_succ (size : Nat) (R Q : Rows F) (i : Nat) (v w : List F) :
    reduceRow size R Q (i + 1) v w =
      (fun vw : List F × List F =>
        (vecSub vw.1 (scalarVecMul (col vw.1 (size - i - 1)) (row R i)),
         vecSub vw.2 (scalarVecMul (col vw.1 (size - i - 1)) (row Q i)))) (reduceRow size R Q i v w) := by
  simp only [reduceRow, List.range_succ, List.foldl_append, List.foldl_cons, List.foldl_nil]

theorem reduceRow_spec {n : Nat} {P : List F → List F → Prop} (hP : Linear n P) {R Q : Rows F} {v w : List F}
    (hvw : P v w) {i : Nat} (hi : i < n)
    (hR : ∀ j, j < i → P (row R j) (row Q j) ∧ IsUnitRow n (n - j - 1) (row R j))
    (_h1 : col v (n - i - 1) = 1) (_h0 : ∀ j, j < n - i - 1 → col v j = 0) :
    ∀ t, t ≤ i → P (reduceRow n R Q t v w).1 (reduceRow n R Q t v w).2 ∧
      ∀ j, j < n → col (reduceRow n R Q t v w).1 j =
        if n - t ≤ j then 0 else col v j := by
  intro t
  induction t with
  | zero =>
    intro _
    refine ⟨hvw, fun j hj => ?_⟩
    rw [if_neg (by omega)]; rfl
  | succ t ih =>
    intro ht
    obtain ⟨hp, hc⟩ := ih (by omega)
    obtain ⟨hr, hu⟩ := hR t (by omega)
    rw [reduceRow_succ]
    refine ⟨hP.elim _ hp hr, fun j hj => ?_⟩
    show col (eliminateRow _ _ _) j = _
    rw [col_eliminateRow (by rw [(hP.len hp).1, (hP.len hr).1]), hu j hj, hc j hj, hc _ (by omega)]
    by_cases e1 : j = n - t - 1
    · rw [if_pos e1, if_neg (by omega), if_neg (by omega), if_pos (by omega), e1]; simp
    · rw [if_neg e1, mul_zero, sub_zero]
      by_cases e2 : n - t ≤ j
      · rw [if_pos e2, if_pos (by omega)]
      · rw [if_neg e2, if_neg (by omega)]

/-- The loop of `reduce_to_identity` after `i` rows. -/
def reduceLoop (M S : Rows F) (i : Nat) : Option (Rows F × Rows F) :=
  (List.range i).foldl (fun acc i => acc.bind fun RQ =>
    let idx := M.length - i - 1
    (finv (col (row M idx) idx)).map fun inv =>
      let vw := reduceRow M.length RQ.1 RQ.2 i (scalarVecMul inv (row M idx)) (scalarVecMul inv (row S idx))
      (RQ.1 ++ [vw.1], RQ.2 ++ [vw.2])) (some ([], []))

theorem reduceLoop_succ (M S : Rows F) (i : Nat) : reduceLoop M S (i + 1) =
    (reduceLoop M S i).bind fun RQ =>
      (finv (col (row M (M.length - i - 1)) (M.length - i - 1))).map fun inv =>
        (RQ.1 ++ [(reduceRow M.length RQ.1 RQ.2 i (scalarVecMul inv (row M (M.length - i - 1)))
            (scalarVecMul inv (row S (M.length - i - 1)))).1],
         RQ.2 ++ [(reduceRow M.length RQ.1 RQ.2 i (scalarVecMul inv (row M (M.length - i - 1)))
            (scalarVecMul inv (row S (M.length - i - 1)))).2]) := by
  simp only [reduceLoop, List.range_succ, List.foldl_append, List.foldl_cons, List.foldl_nil]

theorem reduceLoop_spec {n : Nat} {P : List F → List F → Prop} (hP : Linear n P) {M S : Rows F}
    (hM : M.length = n) (hMS : ∀ k, k < n → P (row M k) (row S k))
    (hl : ∀ k, k < n → ∀ j, j < k → col (row M k) j = 0) : ∀ i, i ≤ n →
    (∃ R Q, reduceLoop M S i = some (R, Q) ∧ R.length = i ∧ Q.length = i ∧
      ∀ j, j < i → P (row R j) (row Q j) ∧ IsUnitRow n (n - j - 1) (row R j)) ∨
    (reduceLoop M S i = none ∧ ∃ k, k < n ∧ col (row M k) k = 0) := by
  intro i
  induction i with
  | zero => intro _; exact Or.inl ⟨[], [], rfl, rfl, rfl, by intro j hj; omega⟩
  | succ i ih =>
    intro hi
    rw [reduceLoop_succ, hM]
    rcases ih (by omega) with ⟨R, Q, e, hR, hQ, hRQ⟩ | ⟨e, hk⟩
    · rw [e]
      simp only [Option.bind_some]
      by_cases h0 : col (row M (n - i - 1)) (n - i - 1) = 0
      · right
        exact ⟨by simp [finv, h0], n - i - 1, by omega, h0⟩
      · left
        simp only [finv, if_neg h0, Option.map_some]
        have hp := hP.scale (col (row M (n - i - 1)) (n - i - 1))⁻¹ (hMS (n - i - 1) (by omega))
        have h1 : col (scalarVecMul (col (row M (n - i - 1)) (n - i - 1))⁻¹ (row M (n - i - 1))) (n - i - 1) = 1 := by
          rw [col_scalarVecMul, inv_mul_cancel₀ h0]
        have h2 : ∀ j, j < n - i - 1 →
            col (scalarVecMul (col (row M (n - i - 1)) (n - i - 1))⁻¹ (row M (n - i - 1))) j = 0 := by
          intro j hj
          rw [col_scalarVecMul, hl _ (by omega) j hj, mul_zero]
        obtain ⟨g1, g2⟩ := reduceRow_spec hP hp (by omega) hRQ h1 h2 i (Nat.le_refl i)
        refine ⟨_, _, rfl, by simp [hR], by simp [hQ], fun j hj => ?_⟩
        by_cases h : j < i
        · rw [row_append_left (by omega), row_append_left (by omega)]; exact hRQ j h
        · have hj' : j = i := by omega
          subst hj'
          rw [show ∀ x : List F, row (R ++ [x]) j = x from fun x => by rw [← hR]; exact row_append_length,
            show ∀ x : List F, row (Q ++ [x]) j = x from fun x => by rw [← hQ]; exact row_append_length]
          refine ⟨g1, fun k hk => ?_⟩
          rw [g2 k hk]
          rcases Nat.lt_trichotomy k (n - j - 1) with h3 | h3 | h3
          · rw [if_neg (by omega), if_neg (by omega), h2 k h3]
          · rw [if_neg (by omega), if_pos h3, h3, h1]
          · rw [if_pos (by omega), if_neg (by omega)]
    · right
      rw [e]; exact ⟨rfl, hk⟩

theorem reduceToIdentity_spec {n : Nat} {P : List F → List F → Prop} (hP : Linear n P) {M S : Rows F}
    (hM : M.length = n) (hMS : ∀ k, k < n → P (row M k) (row S k))
    (hl : ∀ k, k < n → ∀ j, j < k → col (row M k) j = 0) :
    (∃ R Q, reduceToIdentity M S = some (R, Q) ∧ R.length = n ∧ Q.length = n ∧
      ∀ j, j < n → P (row R j) (row Q j) ∧ IsUnitRow n j (row R j)) ∨
    (reduceToIdentity M S = none ∧ ∃ k, k < n ∧ col (row M k) k = 0) := by
  have hdef : reduceToIdentity M S = (reduceLoop M S n).map fun RQ => (RQ.1.reverse, RQ.2.reverse) := by
    rw [← hM]; rfl
  rw [hdef]
  rcases reduceLoop_spec hP hM hMS hl n (Nat.le_refl n) with ⟨R, Q, e, hR, hQ, hRQ⟩ | ⟨e, hk⟩
  · left
    rw [e]
    refine ⟨_, _, rfl, by simp [hR], by simp [hQ], fun j hj => ?_⟩
    show P (row R.reverse j) (row Q.reverse j) ∧ IsUnitRow n j (row R.reverse j)
    rw [row_reverse (by omega), row_reverse (by omega), hR, hQ]
    have := hRQ (n - 1 - j) (by omega)
    rw [show n - (n - 1 - j) - 1 = j by omega] at this
    exact this
  · right
    rw [e]; exact ⟨rfl, hk⟩

/-! ## The inverse -/

/-- The row is the product of its shadow row with the original matrix. -/
def RowRel (n : Nat) (M : Rows F) (a s : List F) : Prop :=
  a.length = n ∧ s.length = n ∧ vec n a = vec n s ᵥ* toM n n M

theorem rowRel_linear (n : Nat) (M : Rows F) : Linear n (RowRel n M) where
  len h := ⟨h.1, h.2.1⟩
  elim f ha hb := by
    refine ⟨length_eliminateRow ha.1 hb.1 f, length_eliminateRow ha.2.1 hb.2.1 f, ?_⟩
    rw [vec_eliminateRow n (by rw [ha.1, hb.1]), vec_eliminateRow n (by rw [ha.2.1, hb.2.1]), ha.2.2, hb.2.2,
      sub_vecMul, smul_vecMul]
  scale f h := by
    refine ⟨by simp [h.1], by simp [h.2.1], ?_⟩
    have e : ∀ v : List F, vec n (scalarVecMul f v) = f • vec n v := by
      intro v; funext j; simp [vec, col_scalarVecMul]
    rw [e, e, smul_vecMul, h.2.2]

theorem row_identity {n i : Nat} (h : i < n) : row (identity n : Rows F) i = (List.replicate n (0 : F)).set i 1 := by
  simp [row, identity, h]

theorem col_identity {n i j : Nat} (hi : i < n) (hj : j < n) : col (row (identity n : Rows F) i) j = if j = i then 1 else 0 := by
  rw [row_identity hi]
  simp only [col, List.getD_eq_getElem?_getD, List.getElem?_set, List.length_replicate]
  by_cases h : j = i
  · subst h; simp [hi]
  · rw [if_neg (Ne.symm h), if_neg h]; simp [hj]

theorem length_identity (n : Nat) : (identity n : Rows F).length = n := by simp [identity]

theorem identity_rel {n : Nat} {M : Rows F} (hM : Shape n n M) (k : Nat) (hk : k < n) :
    RowRel n M (row M k) (row (identity n) k) := by
  refine ⟨hM.2 _ (row_mem (by rw [hM.1]; exact hk)), by rw [row_identity hk]; simp, ?_⟩
  have e : vec n (row (identity n : Rows F) k) = Pi.single (⟨k, hk⟩ : Fin n) 1 := by
    funext j
    show col _ _ = _
    rw [col_identity hk j.2, Pi.single_apply]
    simp [Fin.ext_iff]
  rw [e, single_one_vecMul]
  rfl

theorem toM_identity (n : Nat) : toM n n (identity n : Rows F) = 1 := by
  funext i j
  show col _ _ = _
  rw [col_identity i.2 j.2, one_apply]
  by_cases h : i = j
  · simp [h]
  · rw [if_neg h, if_neg (fun e => h (Fin.ext e.symm))]

/-- Everything about `inverse` for a nonempty square matrix. -/
theorem inverse_cases {n : Nat} (hn : 0 < n) {M : Rows F} (hM : Shape n n M) :
    (∃ N, inverse M = some N ∧ Shape n n N ∧ toM n n N * toM n n M = 1) ∨
    (inverse M = none ∧ ¬ IsUnit (toM n n M)) := by
  unfold inverse
  rw [hM.1]
  rcases upperTriangular_spec (rowRel_linear n M) hM hn (length_identity n) (identity_rel hM) with
    ⟨U, T, hUT, hU, hT, hrel, hlow, hdiag⟩ | ⟨h1, h2⟩
  · rw [hUT]
    simp only [Option.bind_some]
    rcases reduceToIdentity_spec (rowRel_linear n M) hU hrel hlow with ⟨R, Q, e, hR, hQ, hRQ⟩ | ⟨e, hk⟩
    · left
      rw [e]
      refine ⟨Q, rfl, ⟨hQ, ?_⟩, ?_⟩
      · intro r hr
        obtain ⟨i, hi, rfl⟩ := mem_row hr
        exact (hRQ i (hQ ▸ hi)).1.2.1
      · funext i j
        have h := hRQ i i.2
        have h2 := congrFun h.1.2.2 j
        show (vec n (row Q i) ᵥ* toM n n M) j = _
        rw [← h2]
        show col (row R i) j = _
        rw [h.2 j j.2, one_apply]
        by_cases h : i = j
        · simp [h]
        · rw [if_neg h, if_neg (fun e => h (Fin.ext e.symm))]
    · right
      rw [e]
      exact ⟨rfl, hdiag hk⟩
  · right
    rw [h1]; exact ⟨rfl, h2⟩

end Verif.Poseidon
