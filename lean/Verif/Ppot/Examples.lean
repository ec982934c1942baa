import Verif.Ppot.Curves
import Verif.Ppot.FileProps

/-!
# Examples for C107
-/

namespace Verif.Ppot

open Verif.Codec (Bytes)

/-- A point of `ex1` and of `ex2`. -/
def pt1 : Point (ZMod 307) := .affine 1 2
def pt2 : Point (Fq2 307) := .affine 1 2

theorem pt1_good : Good ex1 pt1 := ⟨by decide +kernel, by decide +kernel⟩

theorem pt2_good : Good ex2 pt2 := by
  refine ⟨?_, rfl⟩
  simp only [pt2, onCurve, decide_eq_true_eq]
  show (2 : Fq2 307) * 2 = 1 * 1 * 1 + 3
  norm_num

/-- An accumulator of a ceremony with two powers. -/
def exAcc : Accumulator (ZMod 307) (Fq2 307) :=
  ⟨[pt1, pt1, .zero], [pt2, .zero], [pt1, .zero], [pt1, pt1], pt2⟩

theorem zero_good1 : Good ex1 .zero := ⟨by decide +kernel, by decide +kernel⟩
theorem zero_good2 : Good ex2 .zero := ⟨rfl, rfl⟩

theorem exAcc_sized : Accumulator.Sized (2 * 2 ^ 1 - 1) (2 ^ 1) exAcc := ⟨rfl, rfl, rfl, rfl⟩

theorem exAcc_all : exAcc.All (Good ex1) (Good ex2) where
  tauG1 := by simp [exAcc, pt1_good, zero_good1]
  tauG2 := by simp [exAcc, pt2_good, zero_good2]
  alpha := by simp [exAcc, pt1_good, zero_good1]
  beta := by simp [exAcc, pt1_good]
  betaG2 := pt2_good

example (rest : Bytes) : Accumulator.readCompressed ex1 ex2 3 2 (slice (exAcc.bytes ex1 ex2 .yes ++ rest)) =
    (.ok exAcc, slice rest) :=
  (c107_accumulator ex1_lawful ex2_lawful exAcc exAcc_sized exAcc_all rest).1

/-- The first power only. -/
example (c : Compressed) (rest : Bytes) :
    readSubaccumulator 1 ex1 ex2 1 (List.replicate 64 0 ++ exAcc.bytes ex1 ex2 c ++ rest) c =
      .ok ⟨[pt1], [pt2], [pt1], [pt1], pt2⟩ :=
  c107_file 1 ex1_lawful ex2_lawful rfl rfl exAcc exAcc_sized exAcc_all c _ rest (by simp) 1 (by decide)

/-- Four powers of `alpha` from a file with two. -/
example (c : Compressed) (rest : Bytes) :
    readPowers 1 ex1 true 4 (List.replicate 64 0 ++ exAcc.bytes ex1 ex2 c ++ rest) .alphaG1 c =
      .ok [pt1, .zero, pt1, pt1] :=
  c107_oversized_violated 1 ex1_lawful ex2_lawful rfl rfl exAcc exAcc_sized exAcc_all c _ rest (by simp) 2 (by decide)

/-- An invalid point in the second place. -/
example (rest : Bytes) :
    readSubaccumulator 1 ex1 ex2 2 (List.replicate 64 0 ++
      Accumulator.bytes ex1 ex2 .no { exAcc with tauG1 := [pt1, .affine 1 1, .zero] } ++ rest) .no = .error .panic :=
  c107_invalid_violated 1 ex1_lawful rfl _ ⟨rfl, rfl, rfl, rfl⟩ _ rest (by simp) 2 (by decide) (.affine 1 1)
    (by simp) (fun h => absurd h.1 (by decide +kernel))

def exRatio : Ratio (ZMod 307) (Fq2 307) := ⟨(pt1, pt1), pt2⟩
def exProof : Proof (ZMod 307) (Fq2 307) := ⟨exRatio, exRatio, exRatio⟩

example (rest : Bytes) :
    readKzgProof 1 ex1 ex2 (List.replicate 64 0 ++ exAcc.bytes ex1 ex2 .yes ++ exProof.bytes ex1 ex2 .no ++ rest) =
      some (.ok exProof) :=
  c107_proof_file 1 ex1_lawful ex2_lawful rfl rfl exAcc exAcc_sized exProof 
    ⟨⟨pt1_good, pt1_good, pt2_good⟩, ⟨pt1_good, pt1_good, pt2_good⟩, ⟨pt1_good, pt1_good, pt2_good⟩⟩ (by
    refine ⟨⟨?_, ?_, ?_⟩, ⟨?_, ?_, ?_⟩, ⟨?_, ?_, ?_⟩⟩ <;> (intro h; cases h)) _ rest (by simp)

end Verif.Ppot
