import Verif.Setup.Initialize
import Mathlib.LinearAlgebra.Lagrange
import Mathlib.Algebra.Field.ZMod

/-!
# C93: the initial state of phase 2 is a Groth16 key for the circuit

The Groth16 prover and verifier are not part of the repository; `groth16Prove` and `groth16Verify` are their published
equations.
-/

namespace Verif.Setup

open Polynomial

variable {F : Type} [Field F] [DecidableEq F] {Ch : Type}

/-! ## Specification -/

/-- What `Radix2EvaluationDomain::new` promises. -/
def DomainSpec (dom : Nat → Option (Nat × F)) : Prop :=
  ∀ m d ω, dom m = some (d, ω) → 0 < d ∧ m ≤ d ∧ IsPrimitiveRoot ω d

/-- The value of a row. -/
def rowVal (row : List (F × Nat)) (z : Nat → F) : F := (row.map fun e => e.1 * z e.2).sum

/-- All constraints hold. -/
def Satisfied (M : Matrices F) (z : Nat → F) : Prop :=
  ∀ i < M.a.length, rowVal (M.a.getD i []) z * rowVal (M.b.getD i []) z = rowVal (M.c.getD i []) z

/-- The number of variables. -/
def Matrices.vars (M : Matrices F) : Nat := M.numInstance + M.numWitness

/-- Linear combination of the polynomials of the variables. -/
noncomputable def combine (N : Nat) (z : Nat → F) (u : Nat → F[X]) : F[X] := ∑ j ∈ Finset.range N, C (z j) * u j

/-- Multi-scalar multiplication. -/
def inner (z : Nat → F) (xs : List F) : F := ∑ j ∈ Finset.range xs.length, z j * xs.getD j 0

/-- A Groth16 proof. -/
structure GProof (F : Type) where
  a : F
  b : F
  c : F

/-- The Groth16 prover with the assignment `z`, the coefficients of the quotient and two random numbers. -/
def groth16Prove (s : State F) (numInstance : Nat) (z : Nat → F) (q : Nat → F) (r t : F) : GProof F :=
  let a := s.alphaG1 + inner z s.a + r * s.deltaG1
  let b1 := s.betaG1 + inner z s.bG1 + t * s.deltaG1
  ⟨a, s.betaG2 + inner z s.bG2 + t * s.deltaG2,
    inner (fun k => z (numInstance + k)) s.l + inner q s.h + t * a + r * b1 - r * t * s.deltaG1⟩

/-- The Groth16 verifier; the public inputs include the leading one. -/
def groth16Verify (s : State F) (z : Nat → F) (π : GProof F) : Prop :=
  π.a * π.b = s.alphaG1 * s.betaG2 + inner z s.gammaAbc * s.gammaG2 + π.c * s.deltaG2

/-! ## Existence of the quadratic arithmetic program -/

omit [DecidableEq F] in
theorem interpolates_exists {d : Nat} {ω : F} (hω : IsPrimitiveRoot ω d) (hd : 0 < d) (f : Nat → F) :
    ∃ u, Interpolates d ω f u := by
  have hinj : Set.InjOn (fun i => ω ^ i) (Finset.range d : Set Nat) := by
    intro i hi j hj h
    simp only [Finset.coe_range, Set.mem_Iio] at hi hj
    exact hω.pow_inj hi hj h
  refine ⟨Lagrange.interpolate (Finset.range d) (fun i => ω ^ i) f, ?_, fun i hi => ?_⟩
  · have := Lagrange.degree_interpolate_lt (s := Finset.range d) (v := fun i => ω ^ i) f hinj
    rw [Finset.card_range] at this
    by_cases h0 : Lagrange.interpolate (Finset.range d) (fun i => ω ^ i) f = 0
    · rw [h0]; simpa using hd
    · exact (natDegree_lt_iff_degree_lt h0).2 this
  · exact Lagrange.eval_interpolate_at_node f hinj (Finset.mem_range.2 hi)

/-- Every circuit has a quadratic arithmetic program on the domain. -/
theorem qap_exists (M : Matrices F) {d : Nat} {ω : F} (hω : IsPrimitiveRoot ω d) (hd : 0 < d) :
    ∃ u v w, QAP M d ω u v w := by
  choose u hu using fun j => interpolates_exists hω hd fun i => colA M i j
  choose v hv using fun j => interpolates_exists hω hd fun i => col M.b i j
  choose w hw using fun j => interpolates_exists hω hd fun i => col M.c i j
  exact ⟨u, v, w, hu, hv, hw⟩

/-! ## C93 -/

/-- C93: the initial state is a Groth16 key for the circuit with the secrets of phase 1, for `γ = δ = 1`. -/
theorem c93_key (dom : Nat → Option (Nat × F)) (hdom : DomainSpec dom) (M : Matrices F) (hM : M.WF) (n1 n2 : Nat)
    (hn : n1 ≤ 2 * n2) (τ α β : F) (s : State F) (h : initState dom (srs n1 n2 τ α β) M = .ok s) :
    ∃ d ω, dom (M.a.length + M.numInstance) = some (d, ω) ∧ 2 * d ≤ n1 ∧
      ∀ u v w, QAP M d ω u v w → Groth16Key M d u v w τ α β 1 1 s := by
  cases hd : dom (M.a.length + M.numInstance) with
  | none => simp [initState, hd] at h
  | some x =>
    obtain ⟨d, ω⟩ := x
    obtain ⟨h0, hs, hω⟩ := hdom _ _ _ hd
    have h1 : 2 * d ≤ n1 := by
      apply Nat.le_of_not_lt
      intro hc
      have : (srs n1 n2 τ α β).tauG1.length < d + d := by simp [srs]; omega
      unfold initState at h
      simp only [hd, if_pos this] at h
      split at h <;> cases h
    refine ⟨d, ω, rfl, h1, fun u v w hq => ?_⟩
    obtain ⟨s', h', hk⟩ := initState_srs dom M hM n1 n2 τ α β d ω hd h0 hs hω h1 (by omega) u v w hq
    rw [h] at h'
    cases h'
    exact hk

/-- C93: initialization succeeds exactly if there are powers up to twice the size of the domain; otherwise it panics. -/
theorem c93_result (dom : Nat → Option (Nat × F)) (hdom : DomainSpec dom) (M : Matrices F) (hM : M.WF) (n1 n2 : Nat)
    (hn : n1 ≤ 2 * n2) (τ α β : F) (d : Nat) (ω : F) (hd : dom (M.a.length + M.numInstance) = some (d, ω)) :
    (2 * d ≤ n1 → ∃ s, initState dom (srs n1 n2 τ α β) M = .ok s) ∧
    (n1 < 2 * d → initState dom (srs n1 n2 τ α β) M = .panic) := by
  obtain ⟨h0, hs, hω⟩ := hdom _ _ _ hd
  constructor
  · intro h1
    obtain ⟨u, v, w, hq⟩ := qap_exists M hω h0
    obtain ⟨s, h, _⟩ := initState_srs dom M hM n1 n2 τ α β d ω hd h0 hs hω h1 (by omega) u v w hq
    exact ⟨s, h⟩
  · intro h1
    have : (srs n1 n2 τ α β).tauG1.length < d + d := by simp [srs]; omega
    unfold initState
    simp only [hd, if_pos this]
    split <;> rfl

/-- C93 fails at the limit: with `2n - 1` and `n` powers, as in all configurations, a circuit whose domain has size `n`
panics, although its key needs only powers below `2n - 1`. -/
theorem c93_limit_violated (dom : Nat → Option (Nat × F)) (M : Matrices F) (n : Nat) (τ α β : F) (ω : F)
    (hd : dom (M.a.length + M.numInstance) = some (n, ω)) (h0 : 0 < n) :
    initState dom (srs (2 * n - 1) n τ α β) M = .panic := by
  have : (srs (2 * n - 1) n τ α β).tauG1.length < n + n := by simp [srs]; omega
  unfold initState
  simp only [hd, if_pos this]
  split <;> rfl

theorem rowVal_eq {N : Nat} (row : List (F × Nat)) (h : ∀ e ∈ row, e.2 < N) (z : Nat → F) :
    rowVal row z = ∑ j ∈ Finset.range N, z j * entry row j := by
  induction row with
  | nil => simp [rowVal, entry]
  | cons e row ih =>
    have := ih (fun x hx => h x (List.mem_cons_of_mem _ hx))
    simp only [rowVal] at this ⊢
    rw [List.map_cons, List.sum_cons, this]
    have h1 : ∀ j ∈ Finset.range N, z j * entry (e :: row) j =
        (if e.2 = j then e.1 * z e.2 else 0) + z j * entry row j := by
      intro j _
      rw [entry_cons]
      split
      · rename_i hj; rw [hj]; ring
      · ring
    rw [Finset.sum_congr rfl h1, Finset.sum_add_distrib, Finset.sum_ite_eq,
      if_pos (Finset.mem_range.2 (h e List.mem_cons_self))]

omit [DecidableEq F] in
theorem combine_eval (N : Nat) (z : Nat → F) (u : Nat → F[X]) (x : F) :
    (combine N z u).eval x = ∑ j ∈ Finset.range N, z j * (u j).eval x := by
  simp [combine, eval_finsetSum]

omit [DecidableEq F] in
theorem combine_degree (N : Nat) (z : Nat → F) (u : Nat → F[X]) {d : Nat} (hd : 0 < d) (h : ∀ j, (u j).natDegree < d) :
    (combine N z u).natDegree < d := by
  have : (combine N z u).natDegree ≤ d - 1 := by
    apply natDegree_sum_le_of_forall_le
    intro j _
    exact (natDegree_C_mul_le _ _).trans (by have := h j; omega)
  omega

/-- The defect of an assignment on the domain. -/
noncomputable def defect (M : Matrices F) (z : Nat → F) (u v w : Nat → F[X]) : F[X] :=
  combine M.vars z u * combine M.vars z v - combine M.vars z w

theorem defect_zero_iff (M : Matrices F) (hM : M.WF) {d : Nat} {ω : F} (hd : M.a.length ≤ d)
    (u v w : Nat → F[X]) (hq : QAP M d ω u v w) (z : Nat → F) :
    (∀ i < d, (defect M z u v w).eval (ω ^ i) = 0) ↔ Satisfied M z := by
  have hmem : ∀ (rows : List (List (F × Nat))), rows.length = M.a.length → ∀ i < M.a.length, rows.getD i [] ∈ rows := by
    intro rows hr i hi
    rw [List.getD_eq_getElem?_getD, List.getElem?_eq_getElem (by omega), Option.getD_some]
    exact List.getElem_mem _
  have hv : ∀ i < d, (defect M z u v w).eval (ω ^ i) =
      (∑ j ∈ Finset.range M.vars, z j * colA M i j) * (∑ j ∈ Finset.range M.vars, z j * col M.b i j) -
      ∑ j ∈ Finset.range M.vars, z j * col M.c i j := by
    intro i hi
    simp only [defect, eval_sub, eval_mul, combine_eval, (hq.u _).val i hi, (hq.v _).val i hi, (hq.w _).val i hi]
  have hlow : ∀ i < M.a.length, (defect M z u v w).eval (ω ^ i) =
      rowVal (M.a.getD i []) z * rowVal (M.b.getD i []) z - rowVal (M.c.getD i []) z := by
    intro i hi
    rw [hv i (by omega), rowVal_eq (N := M.vars) _ (hM.index _ (.inl (hmem _ rfl i hi))),
      rowVal_eq (N := M.vars) _ (hM.index _ (.inr (.inl (hmem _ hM.rowsB i hi)))),
      rowVal_eq (N := M.vars) _ (hM.index _ (.inr (.inr (hmem _ hM.rowsC i hi))))]
    simp only [colA, if_pos hi, col]
  constructor
  · intro h i hi
    have := h i (by omega)
    rw [hlow i hi] at this
    exact sub_eq_zero.1 this
  · intro h i hi
    by_cases hl : i < M.a.length
    · rw [hlow i hl, h i hl, sub_self]
    · rw [hv i hi]
      have hz : ∀ rows : List (List (F × Nat)), rows.length = M.a.length → ∀ j, col rows i j = 0 := by
        intro rows hr j
        simp [col, entry, List.getD_eq_getElem?_getD, List.getElem?_eq_none (by omega : rows.length ≤ i)]
      simp [hz _ hM.rowsB, hz _ hM.rowsC]

/-- C93: an assignment satisfies the circuit exactly if the vanishing polynomial of the domain divides its defect. -/
theorem c93_qap (M : Matrices F) (hM : M.WF) {d : Nat} {ω : F} (hω : IsPrimitiveRoot ω d) (h0 : 0 < d)
    (hd : M.a.length ≤ d) (u v w : Nat → F[X]) (hq : QAP M d ω u v w) (z : Nat → F) :
    X ^ d - 1 ∣ combine M.vars z u * combine M.vars z v - combine M.vars z w ↔ Satisfied M z := by
  rw [← defect_zero_iff M hM hd u v w hq z]
  have hone : ∀ i, (ω ^ i) ^ d = 1 := by
    intro i
    rw [← pow_mul, Nat.mul_comm, pow_mul, hω.pow_eq_one, one_pow]
  constructor
  · rintro ⟨q, hq⟩ i _
    rw [defect, hq]
    simp [hone]
  · intro h
    have hm : (X ^ d - 1 : F[X]).Monic := by
      have := monic_X_pow_sub_C (1 : F) (by omega : d ≠ 0)
      simpa using this
    have hz : defect M z u v w %ₘ (X ^ d - 1) = 0 := by
      apply eq_zero_of_natDegree_lt_card_of_eval_eq_zero _ (f := fun i : Fin d => ω ^ (i : Nat))
      · intro i j hij
        exact Fin.ext (hω.pow_inj i.2 j.2 hij)
      · intro i
        have := congrArg (eval (ω ^ (i : Nat))) (modByMonic_add_div (defect M z u v w) (X ^ d - 1))
        simpa [hone, h i i.2] using this
      · rw [Fintype.card_fin]
        have := natDegree_modByMonic_lt (defect M z u v w) hm (by
          intro hc
          have : (X ^ d - 1 : F[X]).natDegree = d := by
            have := natDegree_X_pow_sub_C (R := F) (n := d) (r := 1)
            simpa using this
          rw [hc] at this
          simp at this
          omega)
        have hdeg : (X ^ d - 1 : F[X]).natDegree = d := by
          have := natDegree_X_pow_sub_C (R := F) (n := d) (r := 1)
          simpa using this
        omega
    exact (modByMonic_eq_zero_iff_dvd hm).1 hz

/-- C93: the rows for the public inputs make their polynomials independent of all others: nothing cancels a public
input. -/
theorem c93_inputs (M : Matrices F) {d : Nat} {ω : F} (hd : M.a.length + M.numInstance ≤ d)
    (u v w : Nat → F[X]) (hq : QAP M d ω u v w) (z : Nat → F) (h : combine M.vars z u = 0) :
    ∀ j < M.numInstance, z j = 0 := by
  intro j hj
  have := congrArg (eval (ω ^ (M.a.length + j))) h
  rw [combine_eval, eval_zero] at this
  have h1 : ∀ k ∈ Finset.range M.vars, z k * (u k).eval (ω ^ (M.a.length + j)) = if j = k then z k else 0 := by
    intro k _
    rw [(hq.u k).val _ (by omega)]
    unfold colA
    rw [if_neg (by omega)]
    by_cases hk : j = k
    · subst hk; simp [hj]
    · rw [if_neg (by omega), if_neg hk, mul_zero]
  rw [Finset.sum_congr rfl h1, Finset.sum_ite_eq, if_pos (Finset.mem_range.2 (by unfold Matrices.vars; omega))] at this
  exact this

/-! ### Proofs made with the key -/

omit [DecidableEq F] in
theorem inner_map (z : Nat → F) (N : Nat) (f : Nat → F) :
    inner z ((List.range N).map f) = ∑ j ∈ Finset.range N, z j * f j := by
  unfold inner
  rw [List.length_map, List.length_range]
  apply Finset.sum_congr rfl
  intro j hj
  simp [Finset.mem_range.1 hj]

/-- C93: with a key for `γ, δ ≠ 0`, a proof made from an assignment and the coefficients of a quotient verifies exactly
if the defect equals the quotient times the vanishing polynomial at the secret point. -/
theorem c93_proof_iff (M : Matrices F) (d : Nat) (u v w : Nat → F[X]) (τ α β γ δ : F) (hγ : γ ≠ 0) (hδ : δ ≠ 0)
    (s : State F) (hk : Groth16Key M d u v w τ α β γ δ s) (z q : Nat → F) (r t : F) :
    groth16Verify s z (groth16Prove s M.numInstance z q r t) ↔
      (combine M.vars z u).eval τ * (combine M.vars z v).eval τ - (combine M.vars z w).eval τ =
        (∑ i ∈ Finset.range d, q i * τ ^ i) * (τ ^ d - 1) := by
  simp only [groth16Verify, groth16Prove, hk.alpha, hk.betaG1, hk.betaG2, hk.gamma, hk.deltaG1, hk.deltaG2, hk.a, hk.bG1,
    hk.bG2, hk.gammaAbc, hk.l, hk.h, inner_map, combine_eval, Matrices.vars]
  have hH : ∑ i ∈ Finset.range d, q i * (τ ^ i * (τ ^ d - 1) / δ) * δ =
      (∑ i ∈ Finset.range d, q i * τ ^ i) * (τ ^ d - 1) := by
    rw [Finset.sum_mul]
    apply Finset.sum_congr rfl
    intro i _
    field_simp
  have hpub : ∑ j ∈ Finset.range M.numInstance,
      z j * ((β * (u j).eval τ + α * (v j).eval τ + (w j).eval τ) / γ) * γ =
      β * ∑ j ∈ Finset.range M.numInstance, z j * (u j).eval τ +
      α * ∑ j ∈ Finset.range M.numInstance, z j * (v j).eval τ + ∑ j ∈ Finset.range M.numInstance, z j * (w j).eval τ := by
    rw [Finset.mul_sum, Finset.mul_sum, ← Finset.sum_add_distrib, ← Finset.sum_add_distrib]
    apply Finset.sum_congr rfl
    intro j _
    field_simp
  have hpriv : ∑ k ∈ Finset.range M.numWitness, z (M.numInstance + k) * ((β * (u (M.numInstance + k)).eval τ +
      α * (v (M.numInstance + k)).eval τ + (w (M.numInstance + k)).eval τ) / δ) * δ =
      β * ∑ k ∈ Finset.range M.numWitness, z (M.numInstance + k) * (u (M.numInstance + k)).eval τ +
      α * ∑ k ∈ Finset.range M.numWitness, z (M.numInstance + k) * (v (M.numInstance + k)).eval τ +
      ∑ k ∈ Finset.range M.numWitness, z (M.numInstance + k) * (w (M.numInstance + k)).eval τ := by
    rw [Finset.mul_sum, Finset.mul_sum, ← Finset.sum_add_distrib, ← Finset.sum_add_distrib]
    apply Finset.sum_congr rfl
    intro j _
    field_simp
  rw [← Finset.sum_mul] at hH hpub hpriv
  have su : ∀ f : Nat → F, ∑ j ∈ Finset.range (M.numInstance + M.numWitness), f j =
      ∑ j ∈ Finset.range M.numInstance, f j + ∑ k ∈ Finset.range M.numWitness, f (M.numInstance + k) :=
    fun f => Finset.sum_range_add f _ _
  simp only [su]
  generalize ∑ j ∈ Finset.range M.numInstance, z j * (u j).eval τ = U1 at *
  generalize ∑ j ∈ Finset.range M.numInstance, z j * (v j).eval τ = V1 at *
  generalize ∑ j ∈ Finset.range M.numInstance, z j * (w j).eval τ = W1 at *
  generalize ∑ k ∈ Finset.range M.numWitness, z (M.numInstance + k) * (u (M.numInstance + k)).eval τ = U2 at *
  generalize ∑ k ∈ Finset.range M.numWitness, z (M.numInstance + k) * (v (M.numInstance + k)).eval τ = V2 at *
  generalize ∑ k ∈ Finset.range M.numWitness, z (M.numInstance + k) * (w (M.numInstance + k)).eval τ = W2 at *
  constructor
  · intro h
    linear_combination h + hH + hpub + hpriv
  · intro h
    linear_combination h - hH - hpub - hpriv

/-- C93: proofs for satisfying assignments verify: the quotient exists, and its coefficients give an accepted proof for
all random numbers. -/
theorem c93_complete (M : Matrices F) (hM : M.WF) {d : Nat} {ω : F} (hω : IsPrimitiveRoot ω d) (h0 : 0 < d)
    (hd : M.a.length ≤ d) (u v w : Nat → F[X]) (hq : QAP M d ω u v w) (z : Nat → F) (hz : Satisfied M z) :
    ∃ Q : F[X], combine M.vars z u * combine M.vars z v - combine M.vars z w = Q * (X ^ d - 1) ∧ Q.natDegree < d ∧
      ∀ τ α β γ δ : F, γ ≠ 0 → δ ≠ 0 → ∀ s, Groth16Key M d u v w τ α β γ δ s → ∀ r t,
        groth16Verify s z (groth16Prove s M.numInstance z Q.coeff r t) := by
  obtain ⟨Q, hQ⟩ := (c93_qap M hM hω h0 hd u v w hq z).2 hz
  rw [mul_comm (X ^ d - 1) Q] at hQ
  have hdeg : (X ^ d - 1 : F[X]).natDegree = d := by
    have := natDegree_X_pow_sub_C (R := F) (n := d) (r := 1)
    simpa using this
  have hQd : Q.natDegree < d := by
    by_cases hQ0 : Q = 0
    · rw [hQ0]; simpa using h0
    · have h1 : (Q * (X ^ d - 1)).natDegree = Q.natDegree + d := by
        rw [natDegree_mul hQ0 (by intro hc; rw [hc] at hdeg; simp at hdeg; omega), hdeg]
      rw [← hQ] at h1
      have h2 : (combine M.vars z u * combine M.vars z v - combine M.vars z w).natDegree ≤ 2 * d - 2 := by
        have a1 := combine_degree M.vars z u h0 fun j => (hq.u j).deg
        have a2 := combine_degree M.vars z v h0 fun j => (hq.v j).deg
        have a3 := combine_degree M.vars z w h0 fun j => (hq.w j).deg
        refine (natDegree_sub_le _ _).trans (max_le (natDegree_mul_le.trans (by omega)) ?_)
        omega
      omega
  refine ⟨Q, hQ, hQd, fun τ α β γ δ hγ hδ s hk r t => ?_⟩
  rw [c93_proof_iff M d u v w τ α β γ δ hγ hδ s hk]
  have := congrArg (eval τ) hQ
  simp only [eval_sub, eval_mul, eval_pow, eval_X, eval_one] at this
  rw [this, eval_eq_sum_range' hQd]

/-- C93: for an assignment that does not satisfy the circuit, proofs made in this way are accepted for fewer than twice
the size of the domain many secret points, whatever quotient is taken. -/
theorem c93_wrong_assignment (M : Matrices F) (hM : M.WF) {d : Nat} {ω : F} (hω : IsPrimitiveRoot ω d) (h0 : 0 < d)
    (hd : M.a.length ≤ d) (u v w : Nat → F[X]) (hq : QAP M d ω u v w) (z : Nat → F) (hz : ¬ Satisfied M z)
    (q : Nat → F) :
    ∃ bad : Finset F, bad.card < 2 * d ∧ ∀ τ, τ ∉ bad → ∀ α β γ δ : F, γ ≠ 0 → δ ≠ 0 → ∀ s,
      Groth16Key M d u v w τ α β γ δ s → ∀ r t, ¬ groth16Verify s z (groth16Prove s M.numInstance z q r t) := by
  obtain ⟨Q, hQ⟩ : ∃ Q : F[X], Q = ∑ i ∈ Finset.range d, C (q i) * X ^ i := ⟨_, rfl⟩
  obtain ⟨D, hDef⟩ : ∃ D : F[X], D = combine M.vars z u * combine M.vars z v - combine M.vars z w - Q * (X ^ d - 1) :=
    ⟨_, rfl⟩
  have hQe : ∀ τ, Q.eval τ = ∑ i ∈ Finset.range d, q i * τ ^ i := by
    intro τ; simp [hQ, eval_finsetSum]
  have hD : D ≠ 0 := by
    intro hc
    apply hz
    rw [← c93_qap M hM hω h0 hd u v w hq z]
    exact ⟨Q, by rw [mul_comm (X ^ d - 1) Q]; rw [hDef] at hc; exact sub_eq_zero.1 hc⟩
  have hQd : Q.natDegree ≤ d - 1 := by
    rw [hQ]
    apply natDegree_sum_le_of_forall_le
    intro i hi
    exact (natDegree_C_mul_X_pow_le _ _).trans (by have := Finset.mem_range.1 hi; omega)
  have hDd : D.natDegree < 2 * d := by
    have a1 := combine_degree M.vars z u h0 fun j => (hq.u j).deg
    have a2 := combine_degree M.vars z v h0 fun j => (hq.v j).deg
    have a3 := combine_degree M.vars z w h0 fun j => (hq.w j).deg
    have hdeg : (X ^ d - 1 : F[X]).natDegree = d := by
      have := natDegree_X_pow_sub_C (R := F) (n := d) (r := 1)
      simpa using this
    have : D.natDegree ≤ 2 * d - 1 := by
      rw [hDef]
      refine (natDegree_sub_le _ _).trans (max_le ((natDegree_sub_le _ _).trans (max_le ?_ ?_)) ?_)
      · exact natDegree_mul_le.trans (by omega)
      · omega
      · exact natDegree_mul_le.trans (by omega)
    omega
  refine ⟨D.roots.toFinset, ?_, fun τ hτ α β γ δ hγ hδ s hk r t hv => hτ ?_⟩
  · exact Nat.lt_of_le_of_lt ((Multiset.toFinset_card_le _).trans (card_roots' D)) hDd
  · rw [c93_proof_iff M d u v w τ α β γ δ hγ hδ s hk, ← hQe] at hv
    rw [Multiset.mem_toFinset, mem_roots hD]
    simp only [hDef, IsRoot, eval_sub, eval_mul, eval_pow, eval_X, eval_one]
    rw [hv, sub_self]

omit [DecidableEq F] in
theorem Groth16Key.rescale {M : Matrices F} {d : Nat} {u v w : Nat → F[X]} {τ α β γ δ : F} {s : State F}
    (h : Groth16Key M d u v w τ α β γ δ s) (e : F) : Groth16Key M d u v w τ α β γ (δ * e) (s.rescale e) := by
  obtain ⟨h1, h2, h3, h4, h5, h6, h7, h8, h9, h10, h11, h12⟩ := h
  refine ⟨h1, h2, h3, h4, by simp [State.rescale, h5], by simp [State.rescale, h6], h7, h8, h9, h10, ?_, ?_⟩
  · simp only [State.rescale, h11, List.map_map, Function.comp_def, div_div]
  · simp only [State.rescale, h12, List.map_map, Function.comp_def, div_div]

/-- C93: after both phases with honest contributors the state is a Groth16 key for the circuit whose secrets are the
products of all contributed secrets. -/
theorem c93_ceremonies (dom : Nat → Option (Nat × F)) (hdom : DomainSpec dom) (M : Matrices F) (hM : M.WF) (n1 n2 : Nat)
    (hn : n1 ≤ 2 * n2) (hn' : n2 ≤ n1) (cs : List (Contribution F)) (acc : Acc F)
    (hacc : updates n1 n2 (Acc.default n1 n2) cs = some acc) (s : State F) (h : initState dom acc M = .ok s)
    (K : Config Ch F) (ch : Ch) (ds : List (F × F)) (rounds : List (State F × RatioProof F))
    (hr : ceremony K ch s ds = some rounds) :
    ∃ last d ω, dom (M.a.length + M.numInstance) = some (d, ω) ∧
      (∀ ρ ρ', ∃ ch', verifySteps K ρ ρ' ch s rounds = .ok (ch', last)) ∧
      ∀ u v w, QAP M d ω u v w → Groth16Key M d u v w (prodOf Contribution.tau cs) (prodOf Contribution.alpha cs)
        (prodOf Contribution.beta cs) 1 (secret ds) last := by
  have hcl := c77_closed_form n1 n2 hn' cs
  rw [hcl] at hacc
  cases hacc
  obtain ⟨d, ω, hd, _, hk⟩ := c93_key dom hdom M hM n1 n2 hn _ _ _ s h
  refine ⟨_, d, ω, hd, (c74_ceremony K ch s ds rounds hr).1, fun u v w hq => ?_⟩
  have := (hk u v w hq).rescale (secret ds)
  rwa [one_mul] at this

/-! ## A concrete circuit

`x * x = y` with the public inputs `1` and `y` over the field with 17 elements, whose element 4 has order 4. -/

instance : Fact (Nat.Prime 17) := ⟨by decide⟩

/-- The domain of four elements. -/
def exDom (m : Nat) : Option (Nat × ZMod 17) := if m ≤ 4 then some (4, 4) else none

/-- Variable 0 is one, 1 is `y`, 2 is `x`; the second entry for `x` in the first row is a duplicate. -/
def exM : Matrices (ZMod 17) := ⟨[[(3, 2), (-2, 2)]], [[(1, 2)]], [[(1, 1)]], 2, 1⟩

theorem exDom_spec : DomainSpec exDom := by
  intro m d ω h
  unfold exDom at h
  split at h
  · cases h
    refine ⟨by decide, by assumption, IsPrimitiveRoot.mk_of_lt _ (by decide) (by decide) ?_⟩
    intro l h0 h4
    have : l = 1 ∨ l = 2 ∨ l = 3 := by omega
    rcases this with rfl | rfl | rfl <;> decide
  · cases h

theorem exM_wf : exM.WF := ⟨rfl, rfl, by
  intro row h e he
  simp only [exM, List.mem_singleton] at h
  rcases h with rfl | rfl | rfl <;> simp only [List.mem_cons, List.not_mem_nil, or_false] at he <;>
    rcases he with rfl | rfl <;> decide⟩

example : (match initState exDom (srs 8 4 3 5 7) exM with
    | .ok s => decide (s.a.length = 3 ∧ s.gammaAbc.length = 2 ∧ s.l.length = 1 ∧ s.h.length = 4 ∧ s.a ≠ s.bG1 ∧ s.bG1 = s.bG2)
    | _ => false) = true := by decide +kernel

/-- With seven powers it panics. -/
example : (match initState exDom (srs 7 4 3 5 7) exM with
    | .panic => true
    | _ => false) = true := by decide +kernel

example : Satisfied exM (fun j => if j = 0 then 1 else if j = 1 then 9 else 3) ∧
    ¬ Satisfied exM (fun j => if j = 0 then 1 else if j = 1 then 9 else 4) := by
  constructor
  · intro i hi
    have : i = 0 := by simp [exM] at hi; omega
    subst this
    decide
  · intro h
    exact absurd (h 0 (by decide)) (by decide)

end Verif.Setup
