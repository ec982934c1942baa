import Verif.Poseidon.Inverse
import Mathlib.Algebra.Field.Rat

/-!
# C79, C80: inverses and products of matrices

The specification is Mathlib's matrix algebra: `toM` reads a list of rows as a matrix, `vec` a list as a vector.
-/

namespace Verif.Poseidon

set_option linter.unusedSectionVars false

open Matrix

variable {F : Type} [Field F] [DecidableEq F]

/-! ## Helpers -/

theorem foldl_add_eq {α : Type} (f : α → F) (l : List α) (s : F) :
    l.foldl (fun acc p => acc + f p) s = s + (l.map f).sum := by
  induction l generalizing s with
  | nil => simp
  | cons x l ih => rw [List.foldl_cons, ih]; simp [add_assoc]

theorem sum_zip_eq {α β : Type} [Inhabited α] [Inhabited β] (f : α × β → F) :
    ∀ (n : Nat) (a : List α) (b : List β), a.length = n → b.length = n →
      ((a.zip b).map f).sum = ∑ j : Fin n, f (a.getD j default, b.getD j default) := by
  intro n
  induction n with
  | zero => intro a b ha hb; rw [List.eq_nil_of_length_eq_zero ha]; simp
  | succ n ih =>
    intro a b ha hb
    match a, b, ha, hb with
    | x :: a, y :: b, ha, hb =>
      rw [Fin.sum_univ_succ, List.zip_cons_cons, List.map_cons, List.sum_cons,
        ih a b (by simpa using ha) (by simpa using hb)]
      rfl

theorem getD_eq_col {a : List F} {j : Nat} [Inhabited F] (h : j < a.length) : a.getD j default = col a j := by
  simp [col, List.getElem?_eq_getElem h]

theorem getD_eq_row {M : Rows F} {j : Nat} (h : j < M.length) : M.getD j default = row M j := by
  simp [row, List.getElem?_eq_getElem h]

theorem innerProduct_eq {n : Nat} {a b : List F} (ha : a.length = n) (hb : b.length = n) :
    innerProduct a b = vec n a ⬝ᵥ vec n b := by
  let _ : Inhabited F := ⟨0⟩
  rw [innerProduct, foldl_add_eq (fun p : F × F => p.1 * p.2), zero_add, sum_zip_eq _ n a b ha hb]
  apply Finset.sum_congr rfl
  intro j _
  simp only
  rw [getD_eq_col (by omega), getD_eq_col (by omega)]
  rfl

theorem leftProduct_eq {n : Nat} {M : Rows F} {v : List F} (hM : M.length = n) (hv : v.length = n) (j : Nat) :
    (M.zip v).foldl (fun acc p => acc + p.2 * col p.1 j) 0 = ∑ i : Fin n, col v i * col (row M i) j := by
  let _ : Inhabited F := ⟨0⟩
  rw [foldl_add_eq (fun p : List F × F => p.2 * col p.1 j), zero_add, sum_zip_eq _ n M v hM hv]
  apply Finset.sum_congr rfl
  intro i _
  simp only
  rw [getD_eq_col (by omega), getD_eq_row (by omega)]

theorem transpose_inner (r : List F) : ∀ (k : Nat) (T : Rows F), k + r.length ≤ T.length →
    ((r.zipIdx k).foldl (fun T ej => T.set ej.2 (row T ej.2 ++ [ej.1])) T).length = T.length ∧
    ∀ j, row ((r.zipIdx k).foldl (fun T ej => T.set ej.2 (row T ej.2 ++ [ej.1])) T) j =
      if k ≤ j ∧ j < k + r.length then row T j ++ [col r (j - k)] else row T j := by
  induction r with
  | nil => intro k T _; refine ⟨rfl, fun j => ?_⟩; rw [if_neg (by simp)]; rfl
  | cons x r ih =>
    intro k T hT
    simp only [List.length_cons] at hT ⊢
    rw [List.zipIdx_cons, List.foldl_cons]
    obtain ⟨h1, h2⟩ := ih (k + 1) (T.set k (row T k ++ [x])) (by rw [List.length_set]; omega)
    refine ⟨by rw [h1, List.length_set], fun j => ?_⟩
    rw [h2 j, row_set _ _ _ _ (by omega)]
    by_cases hj : j = k
    · subst hj
      rw [if_neg (by omega), if_pos rfl, if_pos (by omega)]; simp [col]
    · rw [if_neg hj]
      by_cases hj2 : k + 1 ≤ j ∧ j < k + 1 + r.length
      · rw [if_pos hj2, if_pos (by omega)]
        obtain ⟨d, hd⟩ : ∃ d, j - k = d + 1 := ⟨j - k - 1, by omega⟩
        rw [hd, show j - (k + 1) = d by omega]; rfl
      · rw [if_neg hj2, if_neg (by omega)]

theorem transpose_eq {n m : Nat} (hn : 0 < n) {M : Rows F} (hM : Shape n m M) :
    transpose M = (List.range m).map fun j => M.map fun r => col r j := by
  have key : ∀ (rs pre : Rows F), (∀ r ∈ rs, r.length = m) →
      rs.foldl (fun T r => r.zipIdx.foldl (fun T ej => T.set ej.2 (row T ej.2 ++ [ej.1])) T)
        ((List.range m).map fun j => pre.map fun r => col r j) =
      (List.range m).map fun j => (pre ++ rs).map fun r => col r j := by
    intro rs
    induction rs with
    | nil => intro pre _; simp
    | cons r rs ih =>
      intro pre hrs
      have hr := hrs r List.mem_cons_self
      rw [List.foldl_cons]
      obtain ⟨h1, h2⟩ := transpose_inner r 0 ((List.range m).map fun j => pre.map fun r => col r j)
        (by simp [hr])
      have : r.zipIdx.foldl (fun T ej => T.set ej.2 (row T ej.2 ++ [ej.1]))
          ((List.range m).map fun j => pre.map fun r => col r j) =
          (List.range m).map fun j => (pre ++ [r]).map fun r => col r j := by
        rw [← map_row (List.foldl _ _ _), h1]
        simp only [List.length_map, List.length_range]
        apply List.map_congr_left
        intro j hj
        have hj' := List.mem_range.1 hj
        rw [h2 j, if_pos ⟨Nat.zero_le _, by omega⟩, row_map_of_lt (by simpa using hj')]
        simp
      rw [this, ih _ (fun r h => hrs r (List.mem_cons_of_mem _ h))]
      simp
  have hc : numColumns M = m := hM.2 _ (row_mem (by rw [hM.1]; exact hn))
  rw [transpose, hc]
  have := key M [] hM.2
  rw [← List.nil_append M]
  rw [← this]
  congr 1
  simp only [List.map_nil]
  rw [List.map_const', List.length_range]

theorem row_transpose {n m : Nat} (hn : 0 < n) {M : Rows F} (hM : Shape n m M) {j : Nat} (hj : j < m) :
    row (transpose M) j = M.map fun r => col r j := by
  rw [transpose_eq hn hM, row_map_of_lt (by simpa using hj)]; simp

theorem col_map_col {M : Rows F} {i j : Nat} (hi : i < M.length) : col (M.map fun r => col r j) i = col (row M i) j := by
  simp [col, row, List.getElem?_eq_getElem hi]

theorem length_row {n m : Nat} {M : Rows F} (hM : Shape n m M) {i : Nat} (hi : i < n) : (row M i).length = m :=
  hM.2 _ (row_mem (by rw [hM.1]; exact hi))

theorem matmul_eq {n : Nat} (hn : 0 < n) {M N : Rows F} (hM : Shape n n M) (hN : Shape n n N) :
    ∃ P, matmul M N = some P ∧ Shape n n P ∧ toM n n P = toM n n M * toM n n N := by
  refine ⟨M.map fun r => (transpose N).map fun c => innerProduct r c, ?_, ⟨by simp [hM.1], fun r hr => ?_⟩, ?_⟩
  · rw [matmul, if_neg]
    rw [hM.1, numColumns, length_row hN hn]; simp
  · obtain ⟨r', -, rfl⟩ := List.mem_map.1 hr
    rw [transpose_eq hn hN]; simp
  · funext i j
    have hi : i.1 < M.length := by rw [hM.1]; exact i.2
    show col (row (M.map _) i) j = _
    have e1 : row (M.map fun r => (transpose N).map fun c => innerProduct r c) i =
        (transpose N).map fun c => innerProduct (row M i) c := by
      simp [row, List.getElem?_eq_getElem hi]
    have e2 : col ((transpose N).map fun c => innerProduct (row M i) c) j = innerProduct (row M i) (row (transpose N) j) := by
      have : j.1 < (transpose N).length := by rw [transpose_eq hn hN]; simp
      simp [col, row, List.getElem?_eq_getElem this]
    rw [e1, e2, row_transpose hn hN j.2, innerProduct_eq (length_row hM i.2) (by simp [hN.1]), mul_apply]
    apply Finset.sum_congr rfl
    intro k _
    show col _ _ * col _ _ = _
    rw [col_map_col (by rw [hN.1]; exact k.2)]; rfl

theorem mulColVec_eq {n : Nat} {M : Rows F} (hM : Shape n n M) {v : List F} (hv : v.length = n) :
    ∃ w, mulColVec M v = some w ∧ w.length = n ∧ vec n w = toM n n M *ᵥ vec n v := by
  refine ⟨M.map fun r => innerProduct r v, ?_, by simp [hM.1], ?_⟩
  · rw [mulColVec, if_neg (by rw [hM.1, hv]; simp)]
  · funext i
    have hi : i.1 < M.length := by rw [hM.1]; exact i.2
    show col (M.map _) i = _
    have e1 : col (M.map fun r => innerProduct r v) i = innerProduct (row M i) v := by
      simp [col, row, List.getElem?_eq_getElem hi]
    rw [e1, innerProduct_eq (length_row hM i.2) hv]; rfl

theorem mulRowVecAtLeft_eq {n : Nat} {M : Rows F} (hM : Shape n n M) {v : List F} (hv : v.length = n) :
    ∃ w, mulRowVecAtLeft M v = some w ∧ w.length = n ∧ vec n w = vec n v ᵥ* toM n n M := by
  refine ⟨(List.range v.length).map fun j => (M.zip v).foldl (fun acc p => acc + p.2 * col p.1 j) 0, ?_,
    by simp [hv], ?_⟩
  · rw [mulRowVecAtLeft, if_neg (by rw [hM.1, hv]; simp)]
  · funext j
    show col (List.map _ _) j = _
    have e1 : ∀ f : Nat → F, col ((List.range v.length).map f) j = f j := by
      intro f
      have : j.1 < v.length := by rw [hv]; exact j.2
      simp [col, this]
    rw [e1, leftProduct_eq hM.1 hv]; rfl

theorem toM_transpose {n : Nat} (hn : 0 < n) {M : Rows F} (hM : Shape n n M) :
    toM n n (transpose M) = (toM n n M)ᵀ := by
  funext i j
  show col (row (transpose M) i) j = col (row M j) i
  rw [row_transpose hn hM i.2, col_map_col (by rw [hM.1]; exact j.2)]

theorem toM_mulByScalar {n : Nat} {M : Rows F} (hM : Shape n n M) (s : F) :
    toM n n (mulByScalar M s) = s • toM n n M := by
  funext i j
  have hi : i.1 < M.length := by rw [hM.1]; exact i.2
  show col (row (M.map _) i) j = s * col (row M i) j
  have e1 : row (M.map fun r => r.map (s * ·)) i = scalarVecMul s (row M i) := by
    simp [row, scalarVecMul, List.getElem?_eq_getElem hi]
  rw [e1, col_scalarVecMul]

/-! ## C79 -/

/-- C79. `inverse` answers exactly for the invertible matrices, and its answer is the two-sided inverse. -/
theorem c79_inverse {n : Nat} (hn : 0 < n) {M : Rows F} (hM : Shape n n M) :
    ((inverse M).isSome ↔ IsUnit (toM n n M)) ∧
    ∀ N, inverse M = some N → Shape n n N ∧ toM n n N * toM n n M = 1 ∧ toM n n M * toM n n N = 1 := by
  rcases inverse_cases hn hM with ⟨N, h, hN, h1⟩ | ⟨h, hu⟩
  · have h2 := mul_eq_one_comm.1 h1
    refine ⟨by rw [h]; exact ⟨fun _ => ⟨⟨toM n n M, toM n n N, h2, h1⟩, rfl⟩, fun _ => rfl⟩, ?_⟩
    intro N' h'
    rw [h] at h'
    obtain rfl := Option.some.inj h'
    exact ⟨hN, h1, h2⟩
  · refine ⟨by rw [h]; simp [hu], ?_⟩
    intro N' h'
    rw [h] at h'; cases h'

/-- C79, the test. `is_invertible` answers yes exactly if the determinant is not zero. -/
theorem c79_is_invertible {n : Nat} (hn : 0 < n) {M : Rows F} (hM : Shape n n M) :
    isInvertible M = true ↔ (toM n n M).det ≠ 0 := by
  unfold isInvertible
  rw [(c79_inverse hn hM).1, Matrix.isUnit_iff_isUnit_det, isUnit_iff_ne_zero]

/-- The example of a matrix whose elimination needs a row exchange. -/
example : inverse ([[0, 1, 2], [3, 0, 1], [1, 1, 0]] : Rows ℚ) =
    some [[-1/7, 2/7, 1/7], [1/7, -2/7, 6/7], [3/7, 1/7, -3/7]] := by decide +kernel

/-- A singular matrix. -/
example : inverse ([[1, 2, 3], [4, 5, 6], [7, 8, 9]] : Rows ℚ) = none ∧
    isInvertible ([[1, 2, 3], [4, 5, 6], [7, 8, 9]] : Rows ℚ) = false ∧
    isInvertible ([[0, 1, 2], [3, 0, 1], [1, 1, 0]] : Rows ℚ) = true := by decide +kernel

/-! ## C80 -/

/-- C80. On matrices of one square shape the product, the two products with vectors, transposition, scaling and
the identity are those of matrix algebra. -/
theorem c80_square_partial {n : Nat} (hn : 0 < n) {M N : Rows F} (hM : Shape n n M) (hN : Shape n n N)
    {v : List F} (hv : v.length = n) (s : F) :
    (∃ P, matmul M N = some P ∧ Shape n n P ∧ toM n n P = toM n n M * toM n n N) ∧
    (∃ w, mulColVec M v = some w ∧ w.length = n ∧ vec n w = toM n n M *ᵥ vec n v) ∧
    (∃ w, mulRowVecAtLeft M v = some w ∧ w.length = n ∧ vec n w = vec n v ᵥ* toM n n M) ∧
    toM n n (transpose M) = (toM n n M)ᵀ ∧
    toM n n (mulByScalar M s) = s • toM n n M ∧
    toM n n (identity n : Rows F) = 1 := by
  exact ⟨matmul_eq hn hM hN, mulColVec_eq hM hv, mulRowVecAtLeft_eq hM hv, toM_transpose hn hM, toM_mulByScalar hM s,
    toM_identity n⟩

example : matmul ([[1, 2], [3, 4]] : Rows ℚ) [[0, 1], [1, 1]] = some [[2, 3], [4, 7]] ∧
    mulColVec ([[1, 2], [3, 4]] : Rows ℚ) [5, 6] = some [17, 39] ∧
    mulRowVecAtLeft ([[1, 2], [3, 4]] : Rows ℚ) [5, 6] = some [23, 34] := by decide +kernel

/-- C80 is violated beyond square shapes. The shape checks of `matmul` and `mul_col_vec` compare the wrong numbers,
and `mul_row_vec_at_left` returns as many entries as the matrix has rows: products that exist are refused, products
that do not exist are answered, and answers are cut. -/
theorem c80_shapes_violated :
    (matmul ([[1, 2, 3], [4, 5, 6]] : Rows ℚ) [[1], [2], [3]] = none) ∧
    (matmul ([[1, 2, 3], [4, 5, 6]] : Rows ℚ) [[1, 0], [0, 1]] = some [[1, 2], [4, 5]]) ∧
    (mulColVec ([[1, 2, 3], [4, 5, 6]] : Rows ℚ) [1, 1, 1] = none) ∧
    (mulColVec ([[1, 2, 3], [4, 5, 6]] : Rows ℚ) [1, 1] = some [3, 9]) ∧
    (mulRowVecAtLeft ([[1, 2, 3], [4, 5, 6]] : Rows ℚ) [1, 1] = some [5, 7]) := by decide +kernel

/-- Exactly which products `matmul` computes: the shape check is about the result, not about the operands. -/
theorem c80_matmul_check {n m k l : Nat} (hk : 0 < k) {M N : Rows F} (hM : Shape n m M) (hN : Shape k l N) :
    (matmul M N).isSome ↔ n = l := by
  have : numColumns N = l := hN.2 _ (row_mem (by rw [hN.1]; exact hk))
  rw [matmul, hM.1, this]
  by_cases h : n = l
  · simp [h]
  · simp [h]

/-- C80. A matrix is built exactly from rows of one positive length, and it consists of these rows. -/
theorem c80_new (v M : Rows F) : mkMatrix v = some M ↔ M = v ∧ ∃ n m, 0 < n ∧ 0 < m ∧ Shape n m v := by
  unfold mkMatrix
  cases v with
  | nil =>
    refine ⟨fun h => (by cases h), fun ⟨_, n, m, hn, _, h⟩ => ?_⟩
    have := h.1
    simp at this
    omega
  | cons r rs =>
    simp only
    constructor
    · intro h
      split at h
      · cases h
      · rename_i hr
        split at h
        · rename_i ha
          cases h
          exact ⟨rfl, rs.length + 1, r.length, Nat.succ_pos _, Nat.pos_of_ne_zero hr, rfl, fun x hx => by
            simpa using List.all_eq_true.mp ha x hx⟩
        · cases h
    · rintro ⟨rfl, n, m, hn, hm, h⟩
      have hr := h.2 r (by simp)
      rw [if_neg (by omega), if_pos]
      rw [List.all_eq_true]
      intro x hx
      rw [h.2 x hx, hr]
      simp

theorem all_zipIdx {α : Type} (l : List α) (k : Nat) (f : α × Nat → Bool) :
    ((l.zipIdx k).all f) = true ↔ ∀ i (h : i < l.length), f (l[i], k + i) = true := by
  rw [List.all_eq_true]
  constructor
  · intro h i hi
    refine h _ ?_
    rw [List.mk_add_mem_zipIdx_iff_getElem?]
    exact List.getElem?_eq_getElem hi
  · rintro h ⟨x, i⟩ hx
    obtain ⟨h1, h2, h3⟩ := List.mem_zipIdx hx
    have := h (i - k) (by omega)
    rw [show k + (i - k) = i by omega] at this
    rw [h3]
    exact this

/-- C80. The tests decide: a matrix is said to be square, the identity, or symmetric exactly when it is. -/
theorem c80_tests {n m : Nat} (hn : 0 < n) {M : Rows F} (hM : Shape n m M) :
    (isSquare M = true ↔ n = m) ∧ (isIdentity M = true ↔ n = m ∧ ∀ i < n, ∀ j < m, col (row M i) j = if i = j then 1 else 0) ∧
      (isSymmetric M = true ↔ n = m ∧ ∀ i < n, ∀ j < n, col (row M i) j = col (row M j) i) := by
  have hc : numColumns M = m := length_row hM hn
  have hsq : isSquare M = true ↔ n = m := by rw [isSquare, hM.1, hc]; simp
  have hrow : ∀ i (h : i < M.length), M[i] = row M i := fun i h => (row_of_lt h).symm
  have hlen : ∀ i, i < n → (row M i).length = m := fun i h => length_row hM h
  have hcol : ∀ (r : List F) j (h : j < r.length), r[j] = col r j := fun r j h => by
    simp [col, List.getElem?_eq_getElem h]
  refine ⟨hsq, ?_, ?_⟩
  · rw [isIdentity, Bool.and_eq_true, hsq]
    refine and_congr_right fun _ => ?_
    rw [all_zipIdx]
    constructor
    · intro h i hi j hj
      have := h i (by rw [hM.1]; exact hi)
      rw [all_zipIdx] at this
      have := this j (by rw [hrow, hlen i hi]; exact hj)
      simp only [hrow, hcol, Nat.zero_add, decide_eq_true_eq, kronecker] at this
      exact this
    · intro h i hi
      rw [hM.1] at hi
      rw [all_zipIdx]
      intro j hj
      simp only [hrow, hlen i hi] at hj
      simp only [hrow, hcol, Nat.zero_add, decide_eq_true_eq, kronecker]
      exact h i hi j hj
  · rw [isSymmetric, Bool.and_eq_true]
    have : (M.length == numColumns M) = true ↔ n = m := hsq
    rw [this]
    refine and_congr_right fun e => ?_
    subst e
    have key : ∀ i, i < n → (((row M i).zipIdx.drop (i + 1)).all (fun ej => decide (ej.1 = col (row M ej.2) i)) = true ↔
        ∀ j, i < j → j < n → col (row M i) j = col (row M j) i) := by
      intro i hi
      have hz : (row M i).zipIdx.drop (i + 1) = ((row M i).drop (i + 1)).zipIdx (i + 1) := by
        apply List.ext_getElem
        · simp
        · intro k h1 h2
          simp
      rw [hz, all_zipIdx]
      constructor
      · intro h j hij hj
        have := h (j - (i + 1)) (by rw [List.length_drop, hlen i hi]; omega)
        simp only [List.getElem_drop] at this
        simp only [decide_eq_true_eq, show i + 1 + (j - (i + 1)) = j by omega, hcol] at this
        exact this
      · intro h k hk
        rw [List.length_drop, hlen i hi] at hk
        simp only [List.getElem_drop]
        simp only [decide_eq_true_eq, hcol]
        exact h _ (by omega) (by omega)
    rw [all_zipIdx]
    constructor
    · intro h i hi j hj
      have hh : ∀ i, i < n → ∀ j, i < j → j < n → col (row M i) j = col (row M j) i := by
        intro i hi
        have := h i (by rw [hM.1]; exact hi)
        simp only [hrow, Nat.zero_add] at this
        exact (key i hi).mp this
      rcases Nat.lt_trichotomy i j with hij | rfl | hij
      · exact hh i hi j hij hj
      · rfl
      · exact (hh j hj i hij hi).symm
    · intro h i hi
      rw [hM.1] at hi
      simp only [hrow, Nat.zero_add]
      exact (key i hi).mpr fun j _ hj => h i hi j hj

/-- In terms of matrices. -/
theorem c80_tests_square {n : Nat} (hn : 0 < n) {M : Rows F} (hM : Shape n n M) :
    (isIdentity M = true ↔ toM n n M = 1) ∧ (isSymmetric M = true ↔ (toM n n M).IsSymm) := by
  obtain ⟨-, h1, h2⟩ := c80_tests hn hM
  rw [h1, h2]
  refine ⟨⟨fun h => ?_, fun h => ⟨rfl, fun i hi j hj => ?_⟩⟩, ⟨fun h => ?_, fun h => ⟨rfl, fun i hi j hj => ?_⟩⟩⟩
  · funext i j
    rw [Matrix.one_apply]
    show col (row M i) j = _
    rw [h.2 i i.2 j j.2]
    simp only [Fin.ext_iff]
  · have := congrFun (congrFun h ⟨i, hi⟩) ⟨j, hj⟩
    rw [Matrix.one_apply] at this
    simp only [Fin.ext_iff] at this
    exact this
  · funext i j
    exact h.2 j j.2 i i.2
  · exact (congrFun (congrFun h ⟨i, hi⟩) ⟨j, hj⟩).symm

example : isSymmetric ([[1, 2, 3], [2, 5, 6], [3, 6, 9]] : Rows ℚ) = true ∧
    isSymmetric ([[1, 2, 3], [2, 5, 6], [3, 7, 9]] : Rows ℚ) = false ∧
    isIdentity ([[1, 0], [0, 1]] : Rows ℚ) = true ∧ mkMatrix ([[1, 2], [3]] : Rows ℚ) = none := by decide +kernel

/-- A minor exists exactly of matrices with two rows or more. -/
theorem c80_minor_exists {n m : Nat} {M : Rows F} (hM : Shape n m M) (i j : Nat) : (minor M i j).isSome ↔ 2 ≤ n := by
  unfold minor
  rw [hM.1]
  by_cases h : n ≤ 1
  · rw [if_pos h]; simp; omega
  · rw [if_neg h]; simp; omega

/-- C80. Removing a row and a column leaves the other entries in their order. -/
theorem c80_minor {n m : Nat} {M P : Rows F} (hM : Shape n m M) {i j : Nat} (hi : i < n) (hj : j < m)
    (h : minor M i j = some P) :
    Shape (n - 1) (m - 1) P ∧ ∀ a < n - 1, ∀ b < m - 1,
      col (row P a) b = col (row M (if a < i then a else a + 1)) (if b < j then b else b + 1) := by
  unfold minor at h
  split at h
  · cases h
  cases h
  have hl : (M.eraseIdx i).length = n - 1 := by rw [List.length_eraseIdx, if_pos (by rw [hM.1]; exact hi), hM.1]
  refine ⟨⟨by rw [List.length_map, hl], fun r hr => ?_⟩, fun a ha b hb => ?_⟩
  · obtain ⟨r', hr', rfl⟩ := List.mem_map.mp hr
    have := hM.2 r' (List.mem_of_mem_eraseIdx hr')
    rw [List.length_eraseIdx, if_pos (by omega), this]
  · have hrow : row ((M.eraseIdx i).map fun r => r.eraseIdx j) a = (row M (if a < i then a else a + 1)).eraseIdx j := by
      unfold row
      rw [List.getD_eq_getElem?_getD, List.getElem?_map, List.getElem?_eraseIdx, List.getD_eq_getElem?_getD]
      have : (if a < i then a else a + 1) < M.length := by rw [hM.1]; split <;> omega
      split
      · rename_i h; rw [if_pos h] at this; rw [List.getElem?_eq_getElem this]; rfl
      · rename_i h; rw [if_neg h] at this; rw [List.getElem?_eq_getElem this]; rfl
    rw [hrow]
    unfold col
    rw [List.getD_eq_getElem?_getD, List.getElem?_eraseIdx, List.getD_eq_getElem?_getD]
    split <;> rfl

/-- C80. The row-major list has the entry `(i, j)` at `i * m + j`. -/
theorem c80_row_major {n m : Nat} {M : Rows F} (hM : Shape n m M) :
    (toRowMajor M).length = n * m ∧ ∀ i < n, ∀ j < m, col (toRowMajor M) (i * m + j) = col (row M i) j := by
  have hf : ∀ (M : Rows F) (acc : List F), M.foldl (fun acc r => acc ++ r) acc = acc ++ M.flatten := by
    intro M
    induction M with
    | nil => intro acc; simp
    | cons r rs ih => intro acc; rw [List.foldl_cons, ih]; simp
  have e : toRowMajor M = M.flatten := by rw [toRowMajor, hf]; rfl
  rw [e]
  clear e
  induction M generalizing n with
  | nil =>
    have := hM.1
    simp only [List.length_nil] at this
    subst this
    exact ⟨by simp, fun i hi => absurd hi (Nat.not_lt_zero i)⟩
  | cons r rs ih =>
    have hr := hM.2 r (by simp)
    obtain ⟨n, rfl⟩ : ∃ k, n = k + 1 := ⟨rs.length, by rw [← hM.1]; rfl⟩
    have hs : Shape n m rs := ⟨by have := hM.1; simpa using this, fun x hx => hM.2 x (by simp [hx])⟩
    obtain ⟨h1, h2⟩ := ih hs
    refine ⟨by rw [List.flatten_cons, List.length_append, h1, hr, Nat.succ_mul, Nat.add_comm], fun i hi j hj => ?_⟩
    rw [List.flatten_cons]
    cases i with
    | zero =>
      simp only [Nat.zero_mul, Nat.zero_add]
      unfold col
      rw [List.getD_eq_getElem?_getD, List.getElem?_append_left (by omega), List.getD_eq_getElem?_getD]
      rfl
    | succ i =>
      have := h2 i (by omega) j hj
      unfold col at this ⊢
      rw [List.getD_eq_getElem?_getD] at this ⊢
      rw [List.getElem?_append_right (by rw [hr, Nat.succ_mul]; omega), hr,
        show (i + 1) * m + j - m = i * m + j by rw [Nat.succ_mul]; omega]
      exact this

example : toRowMajor ([[1, 2, 3], [4, 5, 6]] : Rows ℚ) = [1, 2, 3, 4, 5, 6] ∧
    minor ([[1, 2, 3], [4, 5, 6]] : Rows ℚ) 0 1 = some [[4, 6]] := by decide +kernel

end Verif.Poseidon
