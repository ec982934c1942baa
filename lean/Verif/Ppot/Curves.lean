import Mathlib.Algebra.Field.ZMod
import Mathlib.Tactic.NormNum.Prime
import Mathlib.Algebra.QuadraticAlgebra.Basic
import Verif.Ppot.PointProps

/-!
# The two kinds of curves

`G1Affine` has coordinates modulo `q`; `G2Affine` has coordinates in the quadratic extension by a root of `-1`
(`Fq2` of `ark-bn254`), written as `c0`, `c1`.
-/

namespace Verif.Ppot

/-- A curve like `G1Affine`: one number per coordinate. -/
def g1 (q : ℕ) (b : ZMod q) (sqrt : ZMod q → Option (ZMod q)) (sub : Point (ZMod q) → Bool) : Curve q (ZMod q) where
  n := 1
  coords k := [k]
  ofCoords l := l.headD 0
  b := b
  sqrt := sqrt
  inSubgroup := sub

/-- The quadratic extension `Fq2`. -/
abbrev Fq2 (q : ℕ) := QuadraticAlgebra (ZMod q) (-1) 0

/-- A curve like `G2Affine`: two numbers per coordinate. -/
def g2 (q : ℕ) (b : Fq2 q) (sqrt : Fq2 q → Option (Fq2 q)) (sub : Point (Fq2 q) → Bool) : Curve q (Fq2 q) where
  n := 2
  coords k := [k.re, k.im]
  ofCoords l := ⟨l.headD 0, l.tail.headD 0⟩
  b := b
  sqrt := sqrt
  inSubgroup := sub

/-- A square root for every element that has one. -/
structure SqrtLaws {K : Type} [Mul K] (sqrt : K → Option K) : Prop where
  some : ∀ a y, sqrt a = some y → y * y = a
  none : ∀ a, sqrt a = none → ∀ y, y * y ≠ a

theorem g1_lawful {q : ℕ} [Fact q.Prime] (hq : q < 2 ^ 254) (b : ZMod q) {sqrt : ZMod q → Option (ZMod q)}
    (hs : SqrtLaws sqrt) (sub : Point (ZMod q) → Bool) : (g1 q b sqrt sub).Lawful where
  pos := Nat.one_pos
  len _ := rfl
  back _ := rfl
  forth l h := by
    match l, h with
    | [c], _ => rfl
  sqrt_some := hs.some
  sqrt_none := hs.none
  modulus := (Fact.out : q.Prime).pos
  small := hq

theorem g2_lawful {q : ℕ} [Fact q.Prime] [Fact (∀ r : ZMod q, r ^ 2 ≠ -1 + 0 * r)] (hq : q < 2 ^ 254) (b : Fq2 q)
    {sqrt : Fq2 q → Option (Fq2 q)} (hs : SqrtLaws sqrt) (sub : Point (Fq2 q) → Bool) :
    (g2 q b sqrt sub).Lawful where
  pos := Nat.two_pos
  len _ := rfl
  back _ := rfl
  forth l h := by
    match l, h with
    | [c, d], _ => rfl
  sqrt_some := hs.some
  sqrt_none := hs.none
  modulus := (Fact.out : q.Prime).pos
  small := hq

/-! ## Concrete curves -/

/-- The root that is found by trying. -/
def tryRoots (l : List K) [Mul K] [DecidableEq K] (a : K) : Option K := l.find? fun y => decide (y * y = a)

theorem tryRoots_laws {K : Type} [Mul K] [DecidableEq K] (l : List K) (h : ∀ y, y ∈ l) : SqrtLaws (tryRoots l) where
  some a y e := by
    have := List.find?_some e
    simpa using this
  none a e y := by
    have := List.find?_eq_none.mp e y (h y)
    simpa using this

instance : Fact (Nat.Prime 307) := ⟨by norm_num⟩
instance : Fact (∀ r : ZMod 307, r ^ 2 ≠ -1 + 0 * r) := ⟨by decide +kernel⟩

/-- `y² = x³ + 3` modulo 307; the subgroup test refuses the point `(1, 305)`. -/
def ex1 : Curve 307 (ZMod 307) :=
  g1 307 3 (tryRoots (List.ofFn fun i : Fin 307 => ((i : ℕ) : ZMod 307))) fun p => decide (p ≠ .affine 1 305)

theorem ex1_lawful : ex1.Lawful := by
  refine g1_lawful (by decide) _ (tryRoots_laws _ fun y => ?_) _
  rw [List.mem_ofFn]
  exact ⟨⟨y.val, ZMod.val_lt y⟩, ZMod.natCast_zmod_val y⟩

/-- The same equation over the extension. -/
noncomputable def ex2 : Curve 307 (Fq2 307) :=
  g2 307 3 (fun a => open Classical in if h : ∃ y, y * y = a then some h.choose else none) fun _ => true

theorem ex2_lawful : ex2.Lawful := by
  refine g2_lawful (by decide) _ ⟨fun a y e => ?_, fun a e y hy => ?_⟩ _
  · split at e
    · rename_i h
      cases e
      exact h.choose_spec
    · cases e
  · split at e
    · cases e
    · rename_i h
      exact h ⟨y, hy⟩

/-- The point `(1, 2)` and its negative, through their bytes. -/
example : (readCompressed ex1 (slice (compress ex1 (.affine 1 2) ++ [7]))).1 = .ok (.affine 1 2) ∧
    compress ex1 (.affine 1 2) = List.replicate 31 0 ++ [1] ∧
    compress ex1 (.affine 1 305) = 128 :: List.replicate 30 0 ++ [1] ∧
    onCurve ex1 (.affine 1 305) = true ∧ ex1.inSubgroup (.affine 1 305) = false := by
  refine ⟨?_, by decide +kernel, by decide +kernel, by decide +kernel, by decide +kernel⟩
  rw [c106_compressed ex1_lawful _ (by decide +kernel)]

/-- A point that is not in the subgroup is read without error. -/
example : readCompressed ex1 (slice (compress ex1 (.affine 1 305) ++ [])) = (.ok (.affine 1 305), slice []) :=
  (c106_subgroup_violated ex1_lawful (.affine 1 305) (by decide +kernel) (by decide +kernel) []).1

/-- The last byte of the first point is cut off. -/
example : (readCompressed ex1 [List.replicate 31 0, [1]]).1 ≠ .ok (.affine 1 2) := by
  have h := (c106_short_read_violated ex1_lawful (by decide) 1 2 1 [] rfl (by decide +kernel) [[1]]).2
  have e : (compress ex1 (.affine 1 2)).dropLast = List.replicate 31 0 := by decide +kernel
  rwa [e] at h

/-- A point with coordinates in the extension: `x = i`, `y = 123 + 151 i`. -/
example (rest : Codec.Bytes) :
    readCompressed ex2 (slice (compress ex2 (.affine ⟨0, 1⟩ ⟨123, 151⟩) ++ rest)) =
      (.ok (.affine ⟨0, 1⟩ ⟨123, 151⟩), slice rest) := by
  refine c106_compressed ex2_lawful _ ?_ rest
  simp only [onCurve, decide_eq_true_eq]
  show (⟨123, 151⟩ : Fq2 307) * ⟨123, 151⟩ = ⟨0, 1⟩ * ⟨0, 1⟩ * ⟨0, 1⟩ + 3
  apply QuadraticAlgebra.ext
  · show (123 * 123 + -1 * 151 * 151 : ZMod 307) = _
    decide +kernel
  · decide +kernel

end Verif.Ppot
