import Verif.Poseidon.MatrixProps
import Verif.Poseidon.Mds
import Mathlib.LinearAlgebra.Lagrange
import Mathlib.LinearAlgebra.Matrix.ToLinearEquiv
import Mathlib.Tactic.LinearCombination
import Mathlib.Tactic.FieldSimp
import Mathlib.Tactic.Ring

/-!
# C81, C82: the generated matrix is MDS; its sparse factorization
-/

namespace Verif.Poseidon

set_option linter.unusedSectionVars false

open Matrix Polynomial

variable {F : Type} [Field F] [DecidableEq F]

/-! ## Cauchy matrices -/

/-- A square Cauchy matrix with distinct parameters is invertible. -/
theorem cauchy_isUnit {k : Nat} (a b : Fin k → F) (ha : Function.Injective a) (hb : Function.Injective b)
    (hab : ∀ i j, a i + b j ≠ 0) : IsUnit (Matrix.of fun i j => (a i + b j)⁻¹ : Matrix (Fin k) (Fin k) F) := by
  rw [isUnit_iff_isUnit_det, isUnit_iff_ne_zero]
  intro hdet
  obtain ⟨v, hv, hv0⟩ := Matrix.exists_mulVec_eq_zero_iff.2 hdet
  apply hv
  let P : F[X] := ∑ j, C (v j) * ∏ l ∈ Finset.univ.erase j, (X + C (b l))
  have hdeg : P.degree < (Finset.univ : Finset (Fin k)).card := by
    by_cases hk : k = 0
    · subst hk
      exact absurd (Subsingleton.elim v 0) hv
    apply lt_of_le_of_lt (degree_sum_le _ _)
    rw [Finset.sup_lt_iff (by simp [bot_lt_iff_ne_bot])]
    intro j _
    apply lt_of_le_of_lt (degree_mul_le _ _)
    apply lt_of_le_of_lt (add_le_add_left degree_C_le _)
    rw [degree_prod, zero_add]
    simp only [degree_X_add_C, Finset.sum_const, Finset.card_erase_of_mem (Finset.mem_univ j), Finset.card_univ,
      Fintype.card_fin, nsmul_eq_mul, mul_one]
    exact_mod_cast (by omega : k - 1 < k)
  have heval : ∀ i ∈ (Finset.univ : Finset (Fin k)), P.eval (a i) = 0 := by
    intro i _
    have h := congrFun hv0 i
    simp only [mulVec, dotProduct, of_apply, Pi.zero_apply] at h
    have e : P.eval (a i) = (∏ l, (a i + b l)) * ∑ j, (a i + b j)⁻¹ * v j := by
      simp only [P, eval_finsetSum, eval_mul, eval_C, eval_prod, eval_add, eval_X, Finset.mul_sum]
      apply Finset.sum_congr rfl
      intro j _
      rw [← Finset.mul_prod_erase Finset.univ (fun l => a i + b l) (Finset.mem_univ j)]
      field_simp [hab i j]
    rw [e, h, mul_zero]
  have hP : P = 0 := eq_zero_of_degree_lt_of_eval_index_eq_zero Finset.univ (v := a) ha.injOn hdeg heval
  funext j
  have h : P.eval (- b j) = 0 := by rw [hP, eval_zero]
  have e : P.eval (- b j) = v j * ∏ l ∈ Finset.univ.erase j, (- b j + b l) := by
    simp only [P, eval_finsetSum, eval_mul, eval_C, eval_prod, eval_add, eval_X]
    rw [Finset.sum_eq_single j]
    · intro i _ hij
      rw [Finset.prod_eq_zero (i := j) (Finset.mem_erase.2 ⟨Ne.symm hij, Finset.mem_univ j⟩) (by simp), mul_zero]
    · intro h; exact absurd (Finset.mem_univ j) h
  rw [e] at h
  rcases mul_eq_zero.1 h with h | h
  · exact h
  · exfalso
    obtain ⟨l, hl, h0⟩ := Finset.prod_eq_zero_iff.1 h
    have : b l = b j := by linear_combination h0
    exact (Finset.mem_erase.1 hl).1 (hb this)

/-! ## C81 -/

theorem collect_map_some {α β : Type} (f : α → Option β) (g : α → β) (l : List α) (h : ∀ x ∈ l, f x = some (g x)) :
    collect (l.map f) = some (l.map g) := by
  induction l with
  | nil => rfl
  | cons x l ih =>
    rw [List.map_cons, h x List.mem_cons_self, collect, ih (fun y hy => h y (List.mem_cons_of_mem _ hy))]; rfl

theorem generateMds_eq {t : Nat} (hF : ∀ k : Nat, 0 < k → k < 3 * t → (k : F) ≠ 0) :
    generateMds F t = some ((List.range t).map fun x => (List.range t).map fun i => ((x + (t + i) : Nat) : F)⁻¹) := by
  unfold generateMds
  apply collect_map_some
  intro x hx
  apply collect_map_some
  intro i hi
  have hx' := List.mem_range.1 hx
  have hi' := List.mem_range.1 hi
  have := hF (x + (t + i)) (by omega) (by omega)
  rw [← Nat.cast_add, finv, if_neg this]

theorem col_table {f : Nat → Nat → F} {t x i : Nat} (hx : x < t) (hi : i < t) :
    col (row ((List.range t).map fun x => (List.range t).map fun i => f x i) x) i = f x i := by
  rw [row_map_of_lt (by simpa using hx)]
  simp [col, hi]

/-- C81. The generated matrix exists, is symmetric, and every square submatrix is invertible, provided the
characteristic does not divide a number below `3 * t`. -/
theorem c81_mds {t : Nat} (hF : ∀ k : Nat, 0 < k → k < 3 * t → (k : F) ≠ 0) :
    ∃ M, generateMds F t = some M ∧ Shape t t M ∧ (toM t t M).IsSymm ∧
      ∀ (k : Nat) (f g : Fin k → Fin t), Function.Injective f → Function.Injective g →
        IsUnit ((toM t t M).submatrix f g) := by
  have hent : ∀ i j : Fin t, toM t t ((List.range t).map fun x => (List.range t).map fun i => ((x + (t + i) : Nat) : F)⁻¹) i j =
      ((i.1 : F) + ((t + j.1 : Nat) : F))⁻¹ := by
    intro i j
    show col (row _ _) _ = _
    rw [col_table i.2 j.2, Nat.cast_add]
  have hinj : ∀ x y : Nat, x < 3 * t → y < 3 * t → (x : F) = y → x = y := by
    intro x y hx hy h
    rcases Nat.lt_trichotomy x y with hlt | heq | hlt
    · exfalso
      apply hF (y - x) (by omega) (by omega)
      rw [Nat.cast_sub (by omega), h, sub_self]
    · exact heq
    · exfalso
      apply hF (x - y) (by omega) (by omega)
      rw [Nat.cast_sub (by omega), h, sub_self]
  refine ⟨_, generateMds_eq hF, ⟨by simp, ?_⟩, ?_, ?_⟩
  · intro r hr
    obtain ⟨x, -, rfl⟩ := List.mem_map.1 hr
    simp
  · ext i j
    rw [transpose_apply, hent, hent, Nat.cast_add, Nat.cast_add]
    congr 1; ring
  · intro k f g hf hg
    have : (toM t t ((List.range t).map fun x => (List.range t).map fun i => ((x + (t + i) : Nat) : F)⁻¹)).submatrix f g =
        Matrix.of fun i j => (((f i).1 : F) + ((t + (g j).1 : Nat) : F))⁻¹ := by
      ext i j
      rw [submatrix_apply, hent, of_apply]
    rw [this]
    apply cauchy_isUnit (fun i => ((f i).1 : F)) (fun j => ((t + (g j).1 : Nat) : F))
    · intro x y h
      exact hf (Fin.ext (hinj _ _ (by have := (f x).2; omega) (by have := (f y).2; omega) h))
    · intro x y h
      have := hinj _ _ (by have := (g x).2; omega) (by have := (g y).2; omega) h
      exact hg (Fin.ext (by omega))
    · intro i j
      rw [← Nat.cast_add]
      have h1 := (f i).2
      have h2 := (g j).2
      exact hF _ (by omega) (by omega)

end Verif.Poseidon
