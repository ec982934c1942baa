import Verif.Poseidon.Matrix

/-!
# MDS matrices and preprocessing

Models `manta-pay/src/crypto/poseidon/mds.rs:49-262` and `preprocessing.rs:28-99`. A panic (`expect`) is `none`.
-/

namespace Verif.Poseidon

variable {F : Type} [Field F] [DecidableEq F]

/-- Collects results, as `collect` does with the panics of its items. -/
def collect {α : Type} : List (Option α) → Option (List α)
  | [] => some []
  | none :: _ => none
  | some x :: xs => (collect xs).map (x :: ·)

/-- `MdsMatrices::generate_mds`, mds.rs:100-118. `from_u64` is the embedding of the natural numbers. -/
def generateMds (F : Type) [Field F] [DecidableEq F] (t : Nat) : Option (Rows F) :=
  collect ((List.range t).map fun x : Nat =>
    collect ((List.range t).map fun i : Nat => finv ((x : F) + ((t + i : Nat) : F))))

/-- `make_v_w`, mds.rs:53-57. -/
def makeVW (M : Rows F) : List F × List F := ((row M 0).drop 1, (M.drop 1).map fun r => col r 0)

/-- `make_prime`, mds.rs:64-82. -/
def makePrime (M : Rows F) : Rows F :=
  M.zipIdx.map fun ri =>
    if ri.2 = 0 then (List.replicate ri.1.length (0 : F)).set 0 1 else 0 :: ri.1.drop 1

/-- `make_double_prime`, mds.rs:120-147. -/
def makeDoublePrime (M hatInv : Rows F) : Option (Rows F) :=
  let vw := makeVW M
  (mulRowVecAtLeft hatInv vw.2).map fun wHat =>
    M.zipIdx.map fun ri =>
      if ri.2 = 0 then col ri.1 0 :: vw.1
      else ((List.replicate ri.1.length (0 : F)).set 0 (col wHat (ri.2 - 1))).set ri.2 1

/-- `MdsMatrices`, mds.rs:32-47. -/
structure MdsMatrices (F : Type) where
  m : Rows F
  mInv : Rows F
  mHat : Rows F
  mHatInv : Rows F
  mPrime : Rows F
  mDoublePrime : Rows F
deriving DecidableEq

/-- `derive_mds_matrices`, mds.rs:150-168. -/
def deriveMds (M : Rows F) : Option (MdsMatrices F) :=
  (inverse M).bind fun mInv =>
  (minor M 0 0).bind fun mHat =>
  (inverse mHat).bind fun mHatInv =>
  (makeDoublePrime M mHatInv).map fun dp =>
    { m := M, mInv := mInv, mHat := mHat, mHatInv := mHatInv, mPrime := makePrime M, mDoublePrime := dp }

/-- `MdsMatrices::new`, mds.rs:90-95. -/
def newMds (F : Type) [Field F] [DecidableEq F] (t : Nat) : Option (MdsMatrices F) := (generateMds F t).bind deriveMds

/-- `SparseMatrix`, mds.rs:175-183. -/
structure Sparse (F : Type) where
  wHat : List F
  vRest : List F
deriving DecidableEq

/-- `is_sparse`, mds.rs:189-197. -/
def isSparse (M : Rows F) : Bool :=
  match minor M 0 0 with
  | some m => isIdentity m
  | none => false

/-- `SparseMatrix::new`, mds.rs:200-211. -/
def mkSparse (M : Rows F) : Option (Sparse F) :=
  if isSparse M then some { wHat := M.map fun r => col r 0, vRest := (row M 0).drop 1 } else none

/-- `to_matrix`, mds.rs:219-231. -/
def Sparse.toMatrix (s : Sparse F) : Rows F :=
  let m := s.wHat.zipIdx.foldl (fun m ej => m.set ej.2 ((row m ej.2).set 0 ej.1)) (identity s.wHat.length)
  s.vRest.zipIdx.foldl (fun m ei => m.set 0 ((row m 0).set (ei.2 + 1) ei.1)) m

/-- `factor_to_sparse_matrixes`, mds.rs:235-262. -/
def factorToSparse (base : Rows F) (n : Nat) : Option (Rows F × List (Sparse F)) :=
  ((List.range n).foldl (fun acc _ => acc.bind fun ca =>
    (deriveMds ca.1).bind fun d =>
      (matmul base d.mPrime).map fun new => (new, ca.2 ++ [d.mDoublePrime])) (some (base, []))).bind fun ca =>
    (collect (ca.2.reverse.map mkSparse)).map fun ss => (ca.1, ss)

/-- `round_keys`, preprocessing.rs:40. -/
def roundKeys (width : Nat) (rc : List F) (r : Nat) : List F := (rc.drop (r * width)).take width

/-- `compress_round_constants`, preprocessing.rs:28-99, for at least two full rounds (otherwise `half_full_rounds - 1`
underflows). -/
def compress (width full part : Nat) (rc : List F) (mInv : Rows F) : Option (List F) :=
  let half := full / 2
  let keys := roundKeys width rc
  (collect ((List.range (half - 1)).map fun i => mulRowVecAtLeft mInv (keys (i + 1)))).bind fun first =>
  ((List.range part).foldl (fun acc i => acc.bind fun ap =>
      (mulRowVecAtLeft mInv ap.1).map fun inverted =>
        (vecAdd (keys (half + part - i - 1)) (inverted.set 0 0), ap.2 ++ [col inverted 0]))
    (some (keys (half + part), []))).bind fun ap =>
  (mulRowVecAtLeft mInv ap.1).bind fun mid =>
  (collect ((List.range (half - 1)).map fun i => mulRowVecAtLeft mInv (keys (i + 1 + (half + part))))).map fun last =>
    keys 0 ++ first.flatten ++ mid ++ ap.2.reverse ++ last.flatten

end Verif.Poseidon
