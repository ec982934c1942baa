import Mathlib.LinearAlgebra.Matrix.NonsingularInverse

/-!
# Linear algebra of Poseidon

Models `manta-pay/src/crypto/poseidon/matrix.rs:84-625` over an arbitrary field.

* A matrix is the list of its rows, as in the code.
* `row[j]` is `row.getD j 0` and `matrix[i]` is `matrix.getD i []`: an index out of range panics in the code. The
  functions below are called with indices in range whenever the matrices have the stated shape.
* `F::inverse` is `finv`, undefined exactly at zero.
-/

namespace Verif.Poseidon

variable {F : Type} [Field F] [DecidableEq F]

/-- The rows of a matrix; `Matrix`, matrix.rs:84-88, and `SquareMatrix`, matrix.rs:364-367. -/
abbrev Rows (F : Type) := List (List F)

/-- `row[j]`. -/
def col (r : List F) (j : Nat) : F := r.getD j 0

/-- `matrix[i]`, matrix.rs:232-252. -/
def row (M : Rows F) (i : Nat) : List F := M.getD i []

/-- `Field::inverse`, mod.rs:71-73 and arkworks.rs:84-86. -/
def finv (x : F) : Option F := if x = 0 then none else some x⁻¹

/-! ## Construction and vectors -/

/-- `Matrix::new`, matrix.rs:96-110. -/
def mkMatrix (v : Rows F) : Option (Rows F) :=
  match v with
  | [] => none
  | r :: _ => if r.length = 0 then none else if v.all (fun x => x.length == r.length) then some v else none

/-- `num_columns`, matrix.rs:182-184. -/
def numColumns (M : Rows F) : Nat := (row M 0).length

/-- `is_square`, matrix.rs:126-128, and `SquareMatrix::new`, matrix.rs:376-378. -/
def isSquare (M : Rows F) : Bool := M.length == numColumns M

/-- `kronecker_delta`, matrix.rs:615-624. -/
def kronecker (i j : Nat) : F := if i = j then 1 else 0

/-- `is_identity`, matrix.rs:132-147. -/
def isIdentity (M : Rows F) : Bool :=
  isSquare M && M.zipIdx.all fun ri => ri.1.zipIdx.all fun ej => decide (ej.1 = kronecker ri.2 ej.2)

/-- `is_symmetric`, matrix.rs:151-166. -/
def isSymmetric (M : Rows F) : Bool :=
  M.length == numColumns M &&
    M.zipIdx.all fun ri => (ri.1.zipIdx.drop (ri.2 + 1)).all fun ej => decide (ej.1 = col (row M ej.2) ri.2)

/-- `inner_product`, matrix.rs:568-575. -/
def innerProduct (a b : List F) : F := (a.zip b).foldl (fun acc p => acc + p.1 * p.2) 0

/-- `vec_add`, matrix.rs:579-584. -/
def vecAdd (a b : List F) : List F := List.zipWith (· + ·) a b

/-- `vec_sub`, matrix.rs:588-593. -/
def vecSub (a b : List F) : List F := List.zipWith (· - ·) a b

/-- `scalar_vec_mul`, matrix.rs:597-602. -/
def scalarVecMul (s : F) (v : List F) : List F := v.map (s * ·)

/-- `eliminate_row`, matrix.rs:606-611. -/
def eliminateRow (r : List F) (factor : F) (pivot : List F) : List F := vecSub r (scalarVecMul factor pivot)

/-- `identity`, matrix.rs:292-298. -/
def identity (n : Nat) : Rows F :=
  (List.replicate n (List.replicate n (0 : F))).zipIdx.map fun ri => ri.1.set ri.2 1

/-- `transpose`, matrix.rs:341-350: every row is distributed over the columns. -/
def transpose (M : Rows F) : Rows F :=
  M.foldl (fun T r => r.zipIdx.foldl (fun T ej => T.set ej.2 (row T ej.2 ++ [ej.1])) T)
    (List.replicate (numColumns M) [])

/-- `mul_by_scalar`, matrix.rs:331-338. -/
def mulByScalar (M : Rows F) (s : F) : Rows F := M.map fun r => r.map (s * ·)

/-- `to_row_major`, matrix.rs:301-307. -/
def toRowMajor (M : Rows F) : List F := M.foldl (fun acc r => acc ++ r) []

/-- `mul_col_vec`, matrix.rs:188-201. -/
def mulColVec (M : Rows F) (v : List F) : Option (List F) :=
  if M.length ≠ v.length then none else some (M.map fun r => innerProduct r v)

/-- `mul_row_vec_at_left`, matrix.rs:205-219. -/
def mulRowVecAtLeft (M : Rows F) (v : List F) : Option (List F) :=
  if M.length ≠ v.length then none
  else some ((List.range v.length).map fun j => (M.zip v).foldl (fun acc p => acc + p.2 * col p.1 j) 0)

/-- `matmul`, matrix.rs:310-328. -/
def matmul (M N : Rows F) : Option (Rows F) :=
  if M.length ≠ numColumns N then none
  else some (M.map fun r => (transpose N).map fun c => innerProduct r c)

/-- `minor`, matrix.rs:409-433. -/
def minor (M : Rows F) (i j : Nat) : Option (Rows F) :=
  if M.length ≤ 1 then none else some ((M.eraseIdx i).map fun r => r.eraseIdx j)

/-! ## Inversion -/

/-- The loop of `eliminate`, matrix.rs:272-286, from the row `i` on. -/
def elimLoop (c p : Nat) (pivot : List F) (invPivot : F) : Nat → Rows F → Rows F → Rows F × Rows F
  | _, [], S => ([], S)
  | i, r :: rs, S =>
    if i = p then elimLoop c p pivot invPivot (i + 1) rs S
    else if col r c = 0 then
      let q := elimLoop c p pivot invPivot (i + 1) rs S
      (r :: q.1, q.2)
    else
      let factor := col r c * invPivot
      let q := elimLoop c p pivot invPivot (i + 1) rs (S.set i (eliminateRow (row S i) factor (row S p)))
      (eliminateRow r factor pivot :: q.1, q.2)

/-- `eliminate`, matrix.rs:261-289: the reduced matrix and the new shadow. -/
def eliminate (M : Rows F) (c : Nat) (S : Rows F) : Option (Rows F × Rows F) :=
  match M.findIdx? (fun r => decide (col r c ≠ 0) && (List.range c).all fun j => decide (col r j = 0)) with
  | none => none
  | some p =>
    match finv (col (row M p) c) with
    | none => none
    | some invPivot =>
      let q := elimLoop c p (row M p) invPivot 0 M S
      some (row M p :: q.1, row q.2 p :: q.2.eraseIdx p)

/-- The loop of `upper_triangular`, matrix.rs:479-483: results of matrix and shadow, and what is left of both. -/
def upperLoop (M S : Rows F) (n : Nat) : Option ((Rows F × Rows F) × (Rows F × Rows F)) :=
  (List.range n).foldl (fun acc c => acc.bind fun st =>
    (eliminate st.2.1 c st.2.2).map fun q =>
      ((st.1.1 ++ [row q.1 0], st.1.2 ++ [row q.2 0]), (q.1.eraseIdx 0, q.2.eraseIdx 0)))
    (some (([], []), (M, S)))

/-- `upper_triangular`, matrix.rs:470-489: the triangular matrix and the new shadow. For the empty matrix the code
panics at `size - 1`. -/
def upperTriangular (M S : Rows F) : Option (Rows F × Rows F) :=
  (upperLoop M S (M.length - 1)).map fun st => (st.1.1 ++ [row st.2.1 0], st.1.2 ++ [row st.2.2 0])

/-- The inner loop of `reduce_to_identity`, matrix.rs:451-458. -/
def reduceRow (size : Nat) (R Q : Rows F) (i : Nat) (v w : List F) : List F × List F :=
  (List.range i).foldl (fun vw j =>
    let idx := size - j - 1
    (vecSub vw.1 (scalarVecMul (col vw.1 idx) (row R j)), vecSub vw.2 (scalarVecMul (col vw.1 idx) (row Q j))))
    (v, w)

/-- `reduce_to_identity`, matrix.rs:438-466: the identity and the new shadow. -/
def reduceToIdentity (M S : Rows F) : Option (Rows F × Rows F) :=
  ((List.range M.length).foldl (fun acc i => acc.bind fun RQ =>
    let idx := M.length - i - 1
    (finv (col (row M idx) idx)).map fun inv =>
      let vw := reduceRow M.length RQ.1 RQ.2 i (scalarVecMul inv (row M idx)) (scalarVecMul inv (row S idx))
      (RQ.1 ++ [vw.1], RQ.2 ++ [vw.2])) (some ([], []))).map
    fun RQ => (RQ.1.reverse, RQ.2.reverse)

/-- `inverse`, matrix.rs:388-396. -/
def inverse (M : Rows F) : Option (Rows F) :=
  (upperTriangular M (identity M.length)).bind fun US =>
    (reduceToIdentity US.1 US.2).map fun RQ => RQ.2

/-- `is_invertible`, matrix.rs:400-405. -/
def isInvertible (M : Rows F) : Bool := (inverse M).isSome

end Verif.Poseidon
