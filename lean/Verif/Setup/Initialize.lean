import Verif.Setup.Phase1
import Mathlib.Algebra.Polynomial.Eval.Degree
import Mathlib.Algebra.Polynomial.Roots
import Mathlib.RingTheory.RootsOfUnity.PrimitiveRoots
import Mathlib.Algebra.Ring.GeomSum
import Mathlib.Tactic.LinearCombination
import Mathlib.Tactic.FieldSimp

/-!
# From phase 1 to phase 2

Models `initialize` with `specialize_to_phase_2` and `add_dummy_constraints`
(`manta-trusted-setup/src/groth16/mpc.rs:244-312, 353-431`).

* The constraint system is given by its matrices (`ConstraintSystem::to_matrices`); a row is a list of coefficients and
  variable indices, in which an index may occur more than once. The number of constraints is the number of rows.
* `Radix2EvaluationDomain::new` is a parameter that returns the size and the generator; `ifft` is modelled by its
  defining sum, on the elements cut or filled to the size of the domain, as in `ark-poly`.
-/

namespace Verif.Setup

open Polynomial

variable {F : Type} [Field F] [DecidableEq F]

/-! ## Model -/

/-- `ConstraintMatrices` of `ark-relations`, as far as used in mpc.rs:367-398. -/
structure Matrices (F : Type) where
  a : List (List (F × Nat))
  b : List (List (F × Nat))
  c : List (List (F × Nat))
  numInstance : Nat
  numWitness : Nat

/-- The vectors that are filled by `specialize_to_phase_2`. -/
structure Queries (F : Type) where
  a : List F
  bG1 : List F
  bG2 : List F
  ext : List F

/-- `xs[i] += v`; `none` is an index panic. -/
def addAt (xs : List F) (i : Nat) (v : F) : Option (List F) :=
  if i < xs.length then some (xs.modify i (· + v)) else none

/-- The loop body for an entry of `a_poly`, mpc.rs:278-281. -/
def stepA (t1 bt : F) (s : Queries F) (e : F × Nat) : Option (Queries F) :=
  match addAt s.a e.2 (t1 * e.1), addAt s.ext e.2 (bt * e.1) with
  | some a, some x => some { s with a := a, ext := x }
  | _, _ => none

/-- The loop body for an entry of `b_poly`, mpc.rs:282-286. -/
def stepB (t1 t2 at' : F) (s : Queries F) (e : F × Nat) : Option (Queries F) :=
  match addAt s.bG1 e.2 (t1 * e.1), addAt s.bG2 e.2 (t2 * e.1), addAt s.ext e.2 (at' * e.1) with
  | some b1, some b2, some x => some { s with bG1 := b1, bG2 := b2, ext := x }
  | _, _, _ => none

/-- The loop body for an entry of `c_poly`, mpc.rs:287-289. -/
def stepC (t1 : F) (s : Queries F) (e : F × Nat) : Option (Queries F) :=
  match addAt s.ext e.2 (t1 * e.1) with
  | some x => some { s with ext := x }
  | none => none

/-- One constraint, mpc.rs:276-290. -/
def stepRow (s : Queries F)
    (r : (((((List (F × Nat) × List (F × Nat)) × List (F × Nat)) × F) × F) × F) × F) : Option (Queries F) :=
  match r with
  | ((((((ra, rb), rc), t1), t2), at'), bt) =>
    match ra.foldlM (stepA t1 bt) s with
    | none => none
    | some s1 =>
      match rb.foldlM (stepB t1 t2 at') s1 with
      | none => none
      | some s2 => rc.foldlM (stepC t1) s2

/-- `specialize_to_phase_2`, mpc.rs:250-293; `none` is a panic. -/
def specialize (t1 t2 al be : List F) (A B C : List (List (F × Nat))) (s : Queries F) : Option (Queries F) :=
  if s.a.length ≠ s.bG1.length ∨ s.a.length ≠ s.bG2.length ∨ s.a.length ≠ s.ext.length then none
  else ((((((A.zip B).zip C).zip t1).zip t2).zip al).zip be).foldlM stepRow s

/-- `xs[0..n].clone_from_slice(&ys[from..from + n])`; `none` is a panic. -/
def cloneSlice (xs ys : List F) (n start : Nat) : Option (List F) :=
  if xs.length < n ∨ ys.length < start + n then none
  else some ((ys.drop start).take n ++ xs.drop n)

/-- `add_dummy_constraints`, mpc.rs:297-311. -/
def addDummy (a ext tau beta : List F) (numConstraints numPublic : Nat) : Option (List F × List F) :=
  match cloneSlice a tau numPublic numConstraints, cloneSlice ext beta numPublic numConstraints with
  | some a', some e' => some (a', e')
  | _, _ => none

/-- `EvaluationDomain::ifft` of `ark-poly`: the argument is cut or filled with zeros to the size of the domain. -/
def ifft (d : Nat) (ω : F) (xs : List F) : List F :=
  (List.range d).map fun i => (d : F)⁻¹ * ∑ k ∈ Finset.range d, xs.getD k 0 * ω⁻¹ ^ (i * k)

/-- Results of `initialize`. -/
inductive Init (F : Type) where
  | ok (s : State F)
  | tooManyConstraints
  | panic

/-- `initialize`, mpc.rs:353-431. `dom` is `Radix2EvaluationDomain::new`. -/
def initState (dom : Nat → Option (Nat × F)) (p : Acc F) (M : Matrices F) : Init F :=
  match dom (M.a.length + M.numInstance) with
  | none => .tooManyConstraints
  | some (d, ω) =>
    match p.betaTau[0]?, p.alphaTau[0]? with
    | some betaG1, some alphaG1 =>
      if p.tauG1.length < d + d then .panic
      else
        let h := (List.range d).map fun i => p.tauG1.getD (i + d) 0 - p.tauG1.getD i 0
        let t1 := ifft d ω p.tauG1
        let t2 := ifft d ω p.tauG2
        let al := ifft d ω p.alphaTau
        let be := ifft d ω p.betaTau
        let zeros : List F := List.replicate (M.numWitness + M.numInstance) 0
        match addDummy zeros zeros t1 be M.a.length M.numInstance with
        | none => .panic
        | some (a, ext) =>
          match specialize t1 t2 al be M.a M.b M.c ⟨a, zeros, zeros, ext⟩ with
          | none => .panic
          | some q => .ok ⟨alphaG1, betaG1, p.betaG2, 1, q.ext.take M.numInstance, 1, 1, q.a, q.bG1, q.bG2, h,
              q.ext.drop M.numInstance⟩
    | _, _ => .panic

/-! ## Specification -/

/-- The entry of column `j` in a row: duplicates add up. -/
def entry (row : List (F × Nat)) (j : Nat) : F := ((row.filter fun e => e.2 = j).map Prod.fst).sum

/-- Column `j` of the first matrix on the domain: the constraints, then one row with a one for every public input. -/
def colA (M : Matrices F) (i j : Nat) : F :=
  if i < M.a.length then entry (M.a.getD i []) j
  else if i - M.a.length = j ∧ j < M.numInstance then 1 else 0

/-- Column `j` of the other matrices on the domain. -/
def col (rows : List (List (F × Nat))) (i j : Nat) : F := entry (rows.getD i []) j

/-- The polynomial of degree below `d` with the given values on the domain. -/
structure Interpolates (d : Nat) (ω : F) (f : Nat → F) (u : F[X]) : Prop where
  deg : u.natDegree < d
  val : ∀ i < d, u.eval (ω ^ i) = f i

/-- The quadratic arithmetic program of a circuit. -/
structure QAP (M : Matrices F) (d : Nat) (ω : F) (u v w : Nat → F[X]) : Prop where
  u : ∀ j, Interpolates d ω (fun i => colA M i j) (u j)
  v : ∀ j, Interpolates d ω (fun i => col M.b i j) (v j)
  w : ∀ j, Interpolates d ω (fun i => col M.c i j) (w j)

/-- A Groth16 proving key for a quadratic arithmetic program and the secrets `τ`, `α`, `β`, `γ`, `δ`. -/
structure Groth16Key (M : Matrices F) (d : Nat) (u v w : Nat → F[X]) (τ α β γ δ : F) (s : State F) : Prop where
  alpha : s.alphaG1 = α
  betaG1 : s.betaG1 = β
  betaG2 : s.betaG2 = β
  gamma : s.gammaG2 = γ
  deltaG1 : s.deltaG1 = δ
  deltaG2 : s.deltaG2 = δ
  a : s.a = (List.range (M.numInstance + M.numWitness)).map fun j => (u j).eval τ
  bG1 : s.bG1 = (List.range (M.numInstance + M.numWitness)).map fun j => (v j).eval τ
  bG2 : s.bG2 = (List.range (M.numInstance + M.numWitness)).map fun j => (v j).eval τ
  gammaAbc : s.gammaAbc = (List.range M.numInstance).map fun j =>
    (β * (u j).eval τ + α * (v j).eval τ + (w j).eval τ) / γ
  l : s.l = (List.range M.numWitness).map fun k =>
    (β * (u (M.numInstance + k)).eval τ + α * (v (M.numInstance + k)).eval τ + (w (M.numInstance + k)).eval τ) / δ
  h : s.h = (List.range d).map fun i => τ ^ i * (τ ^ d - 1) / δ

/-- The matrices have the same number of rows and all variables exist. -/
structure Matrices.WF (M : Matrices F) : Prop where
  rowsB : M.b.length = M.a.length
  rowsC : M.c.length = M.a.length
  index : ∀ row, row ∈ M.a ∨ row ∈ M.b ∨ row ∈ M.c → ∀ e ∈ row, e.2 < M.numInstance + M.numWitness

/-! ## Inverse Fourier transform at powers -/

omit [DecidableEq F] in
theorem orthogonal {d : Nat} {ω : F} (hω : IsPrimitiveRoot ω d) {k m : Nat} (hk : k < d) (hm : m < d) :
    ∑ i ∈ Finset.range d, ω ^ (i * k) * ω⁻¹ ^ (i * m) = if k = m then (d : F) else 0 := by
  have hd : d ≠ 0 := by omega
  have h0 : ω ≠ 0 := hω.ne_zero hd
  have he : ∀ i, ω ^ (i * k) * ω⁻¹ ^ (i * m) = (ω ^ k * ω⁻¹ ^ m) ^ i := by
    intro i
    rw [mul_pow, ← pow_mul, ← pow_mul, Nat.mul_comm k, Nat.mul_comm m]
  simp only [he]
  split
  · rename_i h
    subst h
    rw [← mul_pow, mul_inv_cancel₀ h0, one_pow]
    simp
  · rename_i h
    have hne : ω ^ k * ω⁻¹ ^ m - 1 ≠ 0 := by
      intro hc
      apply h
      apply hω.pow_inj hk hm
      have : ω ^ k * ω⁻¹ ^ m = 1 := sub_eq_zero.1 hc
      rw [inv_pow, mul_inv_eq_one₀ (pow_ne_zero _ h0)] at this
      exact this
    have hg := geom_sum_mul (ω ^ k * ω⁻¹ ^ m) d
    have h1 : (ω ^ k * ω⁻¹ ^ m) ^ d = 1 := by
      rw [mul_pow, ← pow_mul, ← pow_mul, Nat.mul_comm k, Nat.mul_comm m, pow_mul, pow_mul, hω.pow_eq_one, inv_pow,
        hω.pow_eq_one]
      simp
    rw [h1, sub_self] at hg
    exact (mul_eq_zero.1 hg).resolve_right hne

/-- The transform of the multiples of powers of `τ` gives the values of the Lagrange basis at `τ`. -/
theorem interpolate_ifft {d : Nat} {ω : F} (hω : IsPrimitiveRoot ω d) (hd : 0 < d) (τ c : F) (f : Nat → F) (u : F[X])
    (hu : Interpolates d ω f u) (xs : List F) (hxs : ∀ k < d, xs.getD k 0 = c * τ ^ k) :
    ∑ i ∈ Finset.range d, f i * (ifft d ω xs).getD i 0 = c * u.eval τ := by
  have hne : (d : F) ≠ 0 := by
    have : NeZero d := ⟨by omega⟩
    exact hω.neZero'.out
  have h1 : ∀ i ∈ Finset.range d, f i * (ifft d ω xs).getD i 0 =
      ∑ k ∈ Finset.range d, ∑ m ∈ Finset.range d, (d : F)⁻¹ * (u.coeff k * (c * τ ^ m)) * (ω ^ (i * k) * ω⁻¹ ^ (i * m)) := by
    intro i hi
    have hi := Finset.mem_range.1 hi
    have hl : (ifft d ω xs).getD i 0 = (d : F)⁻¹ * ∑ k ∈ Finset.range d, xs.getD k 0 * ω⁻¹ ^ (i * k) := by
      simp [ifft, hi]
    rw [hl, ← hu.val i hi, eval_eq_sum_range' hu.deg, Finset.sum_mul]
    apply Finset.sum_congr rfl
    intro k _
    rw [Finset.mul_sum, Finset.mul_sum]
    apply Finset.sum_congr rfl
    intro m hm
    rw [hxs m (Finset.mem_range.1 hm), ← pow_mul]
    ring
  rw [Finset.sum_congr rfl h1, Finset.sum_comm, eval_eq_sum_range' hu.deg, Finset.mul_sum]
  apply Finset.sum_congr rfl
  intro k hk
  rw [Finset.sum_comm]
  have h2 : ∀ m ∈ Finset.range d,
      ∑ i ∈ Finset.range d, (d : F)⁻¹ * (u.coeff k * (c * τ ^ m)) * (ω ^ (i * k) * ω⁻¹ ^ (i * m)) =
      if k = m then c * (u.coeff k * τ ^ k) else 0 := by
    intro m hm
    rw [← Finset.mul_sum, orthogonal hω (Finset.mem_range.1 hk) (Finset.mem_range.1 hm)]
    split
    · rename_i h; subst h; field_simp
    · simp
  rw [Finset.sum_congr rfl h2, Finset.sum_ite_eq, if_pos hk]

/-! ## The loops on vectors -/

/-- A vector given by a function. -/
def vec (N : Nat) (f : Nat → F) : List F := (List.range N).map f

omit [DecidableEq F] in
theorem vec_getD {N : Nat} (f : Nat → F) {i : Nat} (h : i < N) : (vec N f).getD i 0 = f i := by
  simp [vec, h]

omit [DecidableEq F] in
theorem addAt_vec {N : Nat} (f : Nat → F) {i : Nat} (v : F) (h : i < N) :
    addAt (vec N f) i v = some (vec N fun j => f j + if i = j then v else 0) := by
  unfold addAt
  rw [if_pos (by simpa [vec] using h)]
  congr 1
  apply List.ext_getElem?
  intro k
  rw [List.getElem?_modify]
  by_cases hk : k < N
  · simp only [vec, List.getElem?_map, List.getElem?_range hk, Option.map_some, Option.map_eq_map]
    by_cases h : i = k <;> simp [h]
  · simp [vec, hk]

theorem entry_cons (e : F × Nat) (row : List (F × Nat)) (j : Nat) :
    entry (e :: row) j = (if e.2 = j then e.1 else 0) + entry row j := by
  unfold entry
  by_cases h : e.2 = j <;> simp [h]

theorem fold_a {N : Nat} (t1 bt : F) (b1 b2 : List F) (row : List (F × Nat)) (h : ∀ e ∈ row, e.2 < N)
    (fa fe : Nat → F) : row.foldlM (stepA t1 bt) ⟨vec N fa, b1, b2, vec N fe⟩ =
      some ⟨vec N fun j => fa j + t1 * entry row j, b1, b2, vec N fun j => fe j + bt * entry row j⟩ := by
  induction row generalizing fa fe with
  | nil => simp [entry]
  | cons e row ih =>
    rw [List.foldlM_cons]
    have : stepA t1 bt ⟨vec N fa, b1, b2, vec N fe⟩ e = some ⟨vec N fun j => fa j + if e.2 = j then t1 * e.1 else 0, b1, b2,
        vec N fun j => fe j + if e.2 = j then bt * e.1 else 0⟩ := by
      simp only [stepA, addAt_vec _ _ (h e List.mem_cons_self)]
    rw [this, Option.bind_eq_bind, Option.bind_some, ih (fun x hx => h x (List.mem_cons_of_mem _ hx))]
    have hh : ∀ (c : F) (f : Nat → F), (fun j => (f j + if e.2 = j then c * e.1 else 0) + c * entry row j) =
        fun j => f j + c * entry (e :: row) j := by
      intro c f
      funext j
      rw [entry_cons]
      split <;> ring
    simp only [hh]

theorem fold_b {N : Nat} (t1 t2 at' : F) (a : List F) (row : List (F × Nat)) (h : ∀ e ∈ row, e.2 < N)
    (f1 f2 fe : Nat → F) : row.foldlM (stepB t1 t2 at') ⟨a, vec N f1, vec N f2, vec N fe⟩ =
      some ⟨a, vec N fun j => f1 j + t1 * entry row j, vec N fun j => f2 j + t2 * entry row j,
        vec N fun j => fe j + at' * entry row j⟩ := by
  induction row generalizing f1 f2 fe with
  | nil => simp [entry]
  | cons e row ih =>
    rw [List.foldlM_cons]
    have : stepB t1 t2 at' ⟨a, vec N f1, vec N f2, vec N fe⟩ e =
        some ⟨a, vec N fun j => f1 j + if e.2 = j then t1 * e.1 else 0,
          vec N fun j => f2 j + if e.2 = j then t2 * e.1 else 0,
          vec N fun j => fe j + if e.2 = j then at' * e.1 else 0⟩ := by
      simp only [stepB, addAt_vec _ _ (h e List.mem_cons_self)]
    rw [this, Option.bind_eq_bind, Option.bind_some, ih (fun x hx => h x (List.mem_cons_of_mem _ hx))]
    have hh : ∀ (c : F) (f : Nat → F), (fun j => (f j + if e.2 = j then c * e.1 else 0) + c * entry row j) =
        fun j => f j + c * entry (e :: row) j := by
      intro c f
      funext j
      rw [entry_cons]
      split <;> ring
    simp only [hh]

theorem fold_c {N : Nat} (t1 : F) (a b1 b2 : List F) (row : List (F × Nat)) (h : ∀ e ∈ row, e.2 < N)
    (fe : Nat → F) : row.foldlM (stepC t1) ⟨a, b1, b2, vec N fe⟩ =
      some ⟨a, b1, b2, vec N fun j => fe j + t1 * entry row j⟩ := by
  induction row generalizing fe with
  | nil => simp [entry]
  | cons e row ih =>
    rw [List.foldlM_cons]
    have : stepC t1 ⟨a, b1, b2, vec N fe⟩ e =
        some ⟨a, b1, b2, vec N fun j => fe j + if e.2 = j then t1 * e.1 else 0⟩ := by
      simp only [stepC, addAt_vec _ _ (h e List.mem_cons_self)]
    rw [this, Option.bind_eq_bind, Option.bind_some, ih (fun x hx => h x (List.mem_cons_of_mem _ hx))]
    have hh : ∀ (c : F) (f : Nat → F), (fun j => (f j + if e.2 = j then c * e.1 else 0) + c * entry row j) =
        fun j => f j + c * entry (e :: row) j := by
      intro c f
      funext j
      rw [entry_cons]
      split <;> ring
    simp only [hh]

theorem fold_rows {N : Nat} (A B C : Nat → List (F × Nat)) (t1 t2 al be : Nat → F) (n : Nat)
    (h : ∀ i < n, ∀ e, e ∈ A i ∨ e ∈ B i ∨ e ∈ C i → e.2 < N) (fa f1 f2 fe : Nat → F) :
    ((List.range n).map fun i => ((((((A i, B i), C i), t1 i), t2 i), al i), be i)).foldlM stepRow
      ⟨vec N fa, vec N f1, vec N f2, vec N fe⟩ =
    some ⟨vec N fun j => fa j + ∑ i ∈ Finset.range n, entry (A i) j * t1 i,
      vec N fun j => f1 j + ∑ i ∈ Finset.range n, entry (B i) j * t1 i,
      vec N fun j => f2 j + ∑ i ∈ Finset.range n, entry (B i) j * t2 i,
      vec N fun j => fe j + ∑ i ∈ Finset.range n, (entry (A i) j * be i + entry (B i) j * al i + entry (C i) j * t1 i)⟩ := by
  induction n with
  | zero => simp
  | succ n ih =>
    rw [List.range_succ, List.map_append, List.foldlM_append, ih (fun i hi => h i (by omega))]
    simp only [Option.bind_eq_bind, Option.bind_some, List.map_cons, List.map_nil, List.foldlM_cons, List.foldlM_nil,
      stepRow]
    rw [fold_a _ _ _ _ _ (fun e he => h n (by omega) e (.inl he))]
    simp only
    rw [fold_b _ _ _ _ _ (fun e he => h n (by omega) e (.inr (.inl he)))]
    simp only
    rw [fold_c _ _ _ _ _ (fun e he => h n (by omega) e (.inr (.inr he)))]
    simp only [Option.bind_some, Option.pure_def, Finset.sum_range_succ]
    congr 2
    · congr 1; funext j; ring
    · congr 1; funext j; ring
    · congr 1; funext j; ring
    · congr 1; funext j; ring

omit [Field F] [DecidableEq F] in
theorem zip_range {α β : Type} {n d : Nat} (h : n ≤ d) (f : Nat → α) (g : Nat → β) :
    ((List.range n).map f).zip ((List.range d).map g) = (List.range n).map fun i => (f i, g i) := by
  apply List.ext_getElem?
  intro k
  by_cases hk : k < n
  · simp [List.getElem?_zip_eq_some, hk, show k < d by omega]
  · simp [hk]

omit [Field F] [DecidableEq F] in
theorem eq_map_range {α : Type} (xs : List α) (x : α) (n : Nat) (h : xs.length = n) :
    xs = (List.range n).map fun i => xs.getD i x := by
  subst h
  apply List.ext_getElem?
  intro k
  by_cases hk : k < xs.length <;> simp [hk]

omit [DecidableEq F] in
theorem cloneSlice_vec {N d : Nat} (g : Nat → F) (l n : Nat) (hl : l ≤ N) (hd : n + l ≤ d) :
    cloneSlice (List.replicate N 0) (vec d g) l n = some (vec N fun j => if j < l then g (n + j) else 0) := by
  unfold cloneSlice
  rw [if_neg (by simp [vec]; omega)]
  congr 1
  apply List.ext_getElem?
  intro k
  by_cases hk : k < l
  · rw [List.getElem?_append_left (by simp [vec]; omega)]
    simp [vec, hk, show n + k < d by omega, show k < N by omega]
  · rw [List.getElem?_append_right (by simp [vec]; omega)]
    have : (List.take l (List.drop n (vec d g))).length = l := by simp [vec]; omega
    rw [this]
    by_cases hN : k < N
    · rw [List.getElem?_drop, show l + (k - l) = k by omega]
      simp [vec, hk, hN]
    · simp [vec, hN]
      omega

theorem colA_sum (M : Matrices F) {d : Nat} (h : M.a.length + M.numInstance ≤ d) (L : Nat → F) (j : Nat) :
    ∑ i ∈ Finset.range d, colA M i j * L i = (if j < M.numInstance then L (M.a.length + j) else 0) +
      ∑ i ∈ Finset.range M.a.length, entry (M.a.getD i []) j * L i := by
  obtain ⟨m, rfl⟩ : ∃ m, d = M.a.length + m := ⟨d - M.a.length, by omega⟩
  rw [Finset.sum_range_add, add_comm]
  congr 1
  · have : ∀ x ∈ Finset.range m, colA M (M.a.length + x) j * L (M.a.length + x) =
        if j = x then (if j < M.numInstance then L (M.a.length + j) else 0) else 0 := by
      intro x _
      unfold colA
      rw [if_neg (by omega)]
      by_cases hx : j = x
      · subst hx
        by_cases hj : j < M.numInstance <;> simp [hj]
      · rw [if_neg (by omega), if_neg hx, zero_mul]
    rw [Finset.sum_congr rfl this, Finset.sum_ite_eq]
    by_cases hj : j < M.numInstance
    · rw [if_pos (Finset.mem_range.2 (by omega))]
    · simp [hj]
  · apply Finset.sum_congr rfl
    intro i hi
    simp [colA, Finset.mem_range.1 hi]

theorem col_sum (rows : List (List (F × Nat))) {d n : Nat} (hn : rows.length = n) (h : n ≤ d) (L : Nat → F) (j : Nat) :
    ∑ i ∈ Finset.range d, col rows i j * L i = ∑ i ∈ Finset.range n, entry (rows.getD i []) j * L i := by
  obtain ⟨m, rfl⟩ : ∃ m, d = n + m := ⟨d - n, by omega⟩
  rw [Finset.sum_range_add]
  have : ∑ x ∈ Finset.range m, col rows (n + x) j * L (n + x) = 0 := by
    apply Finset.sum_eq_zero
    intro x _
    simp [col, entry, ← hn]
  rw [this, add_zero]
  rfl

/-- What `initState` computes, in closed form: success and the key. -/
theorem initState_srs (dom : Nat → Option (Nat × F)) (M : Matrices F) (hM : M.WF) (n1 n2 : Nat) (τ α β : F)
    (d : Nat) (ω : F) (hdom : dom (M.a.length + M.numInstance) = some (d, ω)) (hd : 0 < d)
    (hsize : M.a.length + M.numInstance ≤ d) (hω : IsPrimitiveRoot ω d) (h1 : 2 * d ≤ n1) (h2 : d ≤ n2)
    (u v w : Nat → F[X]) (hq : QAP M d ω u v w) :
    ∃ s, initState dom (srs n1 n2 τ α β) M = .ok s ∧ Groth16Key M d u v w τ α β 1 1 s := by
  have hb : (srs n1 n2 τ α β).betaTau[0]? = some β := by simp [srs, show 0 < n2 by omega]
  have ha : (srs n1 n2 τ α β).alphaTau[0]? = some α := by simp [srs, show 0 < n2 by omega]
  have e1 : ∀ k < d, (srs n1 n2 τ α β).tauG1.getD k 0 = 1 * τ ^ k := by
    intro k hk; simp [srs, show k < n1 by omega]
  have e2 : ∀ k < d, (srs n1 n2 τ α β).tauG2.getD k 0 = 1 * τ ^ k := by
    intro k hk; simp [srs, show k < n2 by omega]
  have e3 : ∀ k < d, (srs n1 n2 τ α β).alphaTau.getD k 0 = α * τ ^ k := by
    intro k hk; simp [srs, show k < n2 by omega]
  have e4 : ∀ k < d, (srs n1 n2 τ α β).betaTau.getD k 0 = β * τ ^ k := by
    intro k hk; simp [srs, show k < n2 by omega]
  have hlen : ¬ (srs n1 n2 τ α β).tauG1.length < d + d := by simp [srs]; omega
  have hN : M.numWitness + M.numInstance = M.numInstance + M.numWitness := Nat.add_comm _ _
  unfold initState
  simp only [hdom, hb, ha, if_neg hlen]
  -- the four transforms as vectors
  have hv : ∀ xs : List F, ifft d ω xs = vec d fun i => (ifft d ω xs).getD i 0 := fun xs =>
    eq_map_range _ _ _ (by simp [ifft])
  have key : ∀ (xs : List F) (c : F), (∀ k < d, xs.getD k 0 = c * τ ^ k) →
      (∀ j, (if j < M.numInstance then (ifft d ω xs).getD (M.a.length + j) 0 else 0) +
        ∑ i ∈ Finset.range M.a.length, entry (M.a.getD i []) j * (ifft d ω xs).getD i 0 = c * (u j).eval τ) ∧
      (∀ j, ∑ i ∈ Finset.range M.a.length, entry (M.b.getD i []) j * (ifft d ω xs).getD i 0 = c * (v j).eval τ) ∧
      (∀ j, ∑ i ∈ Finset.range M.a.length, entry (M.c.getD i []) j * (ifft d ω xs).getD i 0 = c * (w j).eval τ) := by
    intro xs c hxs
    refine ⟨fun j => ?_, fun j => ?_, fun j => ?_⟩
    · rw [← colA_sum M hsize fun i => (ifft d ω xs).getD i 0]
      exact interpolate_ifft hω hd τ c _ _ (hq.u j) xs hxs
    · rw [← col_sum M.b hM.rowsB (by omega : M.a.length ≤ d) fun i => (ifft d ω xs).getD i 0]
      exact interpolate_ifft hω hd τ c _ _ (hq.v j) xs hxs
    · rw [← col_sum M.c hM.rowsC (by omega : M.a.length ≤ d) fun i => (ifft d ω xs).getD i 0]
      exact interpolate_ifft hω hd τ c _ _ (hq.w j) xs hxs
  obtain ⟨k1u, k1v, k1w⟩ := key _ _ e1
  obtain ⟨_, k2v, _⟩ := key _ _ e2
  obtain ⟨_, k3v, _⟩ := key _ _ e3
  obtain ⟨k4u, _, _⟩ := key _ _ e4
  generalize ht1 : ifft d ω (srs n1 n2 τ α β).tauG1 = t1 at k1u k1v k1w
  generalize ht2 : ifft d ω (srs n1 n2 τ α β).tauG2 = t2 at k2v
  generalize hal : ifft d ω (srs n1 n2 τ α β).alphaTau = al at k3v
  generalize hbe : ifft d ω (srs n1 n2 τ α β).betaTau = be at k4u
  have r1 : t1 = vec d fun i => t1.getD i 0 := by rw [← ht1]; exact hv _
  have r2 : t2 = vec d fun i => t2.getD i 0 := by rw [← ht2]; exact hv _
  have r3 : al = vec d fun i => al.getD i 0 := by rw [← hal]; exact hv _
  have r4 : be = vec d fun i => be.getD i 0 := by rw [← hbe]; exact hv _
  have hz : (List.replicate (M.numWitness + M.numInstance) (0 : F)) = vec (M.numWitness + M.numInstance) fun _ => 0 := by
    simp [vec]
  have hdum : addDummy (List.replicate (M.numWitness + M.numInstance) 0) (List.replicate (M.numWitness + M.numInstance) 0)
      t1 be M.a.length M.numInstance =
      some (vec (M.numWitness + M.numInstance) fun j => if j < M.numInstance then t1.getD (M.a.length + j) 0 else 0,
        vec (M.numWitness + M.numInstance) fun j => if j < M.numInstance then be.getD (M.a.length + j) 0 else 0) := by
    unfold addDummy
    have c : ∀ xs : List F, xs = (vec d fun i => xs.getD i 0) →
        cloneSlice (List.replicate (M.numWitness + M.numInstance) 0) xs M.numInstance M.a.length =
        some (vec (M.numWitness + M.numInstance) fun j => if j < M.numInstance then xs.getD (M.a.length + j) 0 else 0) := by
      intro xs hxs
      conv_lhs => rw [hxs]
      exact cloneSlice_vec _ _ _ (by omega) hsize
    rw [c t1 r1, c be r4]
  simp only [hdum]
  have hspec : specialize t1 t2 al be M.a M.b M.c
      ⟨vec (M.numWitness + M.numInstance) fun j => if j < M.numInstance then t1.getD (M.a.length + j) 0 else 0,
        List.replicate (M.numWitness + M.numInstance) 0, List.replicate (M.numWitness + M.numInstance) 0,
        vec (M.numWitness + M.numInstance) fun j => if j < M.numInstance then be.getD (M.a.length + j) 0 else 0⟩ =
      some ⟨vec (M.numWitness + M.numInstance) fun j => (u j).eval τ,
        vec (M.numWitness + M.numInstance) fun j => (v j).eval τ,
        vec (M.numWitness + M.numInstance) fun j => (v j).eval τ,
        vec (M.numWitness + M.numInstance) fun j => β * (u j).eval τ + α * (v j).eval τ + (w j).eval τ⟩ := by
    unfold specialize
    rw [if_neg (by simp [vec])]
    have hzip : ((((((M.a.zip M.b).zip M.c).zip t1).zip t2).zip al).zip be) =
        (List.range M.a.length).map fun i => ((((((M.a.getD i [], M.b.getD i []), M.c.getD i []), t1.getD i 0),
          t2.getD i 0), al.getD i 0), be.getD i 0) := by
      have hn : M.a.length ≤ d := by omega
      conv_lhs =>
        rw [eq_map_range M.a [] _ rfl, eq_map_range M.b [] _ hM.rowsB, eq_map_range M.c [] _ hM.rowsC, r1, r2, r3, r4]
      simp only [vec]
      rw [zip_range (Nat.le_refl _), zip_range (Nat.le_refl _), zip_range hn, zip_range hn, zip_range hn, zip_range hn]
    have hget : ∀ (rows : List (List (F × Nat))), rows.length = M.a.length → ∀ i < M.a.length, rows.getD i [] ∈ rows := by
      intro rows hr i hi
      rw [List.getD_eq_getElem?_getD, List.getElem?_eq_getElem (by omega), Option.getD_some]
      exact List.getElem_mem _
    rw [hzip, hz, fold_rows]
    · congr 2
      · congr 1; funext j; rw [k1u j]; ring
      · congr 1; funext j; rw [k1v j]; ring
      · congr 1; funext j; rw [k2v j]; ring
      · congr 1
        funext j
        rw [Finset.sum_add_distrib, Finset.sum_add_distrib, k3v j, k1w j]
        linear_combination k4u j
    · intro i hi e he
      rw [hN]
      rcases he with he | he | he
      · exact hM.index _ (.inl (hget _ rfl i hi)) e he
      · exact hM.index _ (.inr (.inl (hget _ hM.rowsB i hi))) e he
      · exact hM.index _ (.inr (.inr (hget _ hM.rowsC i hi))) e he
  simp only [hspec]
  refine ⟨_, rfl, ⟨rfl, rfl, rfl, rfl, rfl, rfl, ?_, ?_, ?_, ?_, ?_, ?_⟩⟩
  · simp [vec, hN]
  · simp [vec, hN]
  · simp [vec, hN]
  · apply List.ext_getElem?
    intro k
    by_cases hk : k < M.numInstance
    · simp [vec, hk, show k < M.numWitness + M.numInstance by omega]
    · simp [vec, hk]
  · apply List.ext_getElem?
    intro k
    by_cases hk : k < M.numWitness
    · simp [vec, hk, show M.numInstance + k < M.numWitness + M.numInstance by omega]
    · simp [vec, hk]
  · apply List.map_congr_left
    intro i hi
    have hi := List.mem_range.1 hi
    simp [srs, show i < n1 by omega, show i + d < n1 by omega, pow_add]
    ring

end Verif.Setup
