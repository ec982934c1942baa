import Verif.Setup.Phase2

/-!
# Phase 1 of the trusted setup

C77: honest updates of the powers-of-tau accumulator. C78: what an accepted update says.
-/

namespace Verif.Setup

variable {F : Type} [Field F] [DecidableEq F] {Ch : Type}

/-! ## Specification -/

/-- The reference string for the secrets `τ`, `α`, `β`: `τⁱ`, `ατⁱ` and `βτⁱ`. -/
def srs (n1 n2 : Nat) (τ α β : F) : Acc F where
  tauG1 := (List.range n1).map fun i => τ ^ i
  tauG2 := (List.range n2).map fun i => τ ^ i
  alphaTau := (List.range n2).map fun i => α * τ ^ i
  betaTau := (List.range n2).map fun i => β * τ ^ i
  betaG2 := β

/-- The updates of a list of contributors; `none` is a panic. -/
def updates (n1 n2 : Nat) : Acc F → List (Contribution F) → Option (Acc F)
  | s, [] => some s
  | s, c :: cs =>
    match s.update n1 n2 c with
    | none => none
    | some s' => updates n1 n2 s' cs

/-- Product over a list. -/
def prodOf (f : Contribution F → F) (cs : List (Contribution F)) : F := (cs.map f).foldr (· * ·) 1

/-! ## C77 -/

omit [DecidableEq F] in
theorem powers_eq (x τ : F) (n : Nat) : powers x τ n = (List.range n).map fun i => x * τ ^ i := by
  induction n generalizing x with
  | zero => rfl
  | succ n ih =>
    rw [List.range_succ_eq_map, List.map_cons, List.map_map]
    simp only [powers, pow_zero, mul_one, ih, Function.comp_def, pow_succ']
    congr 1
    apply List.map_congr_left
    intro i _
    ring

omit [DecidableEq F] in
theorem mulZip_getElem? (as ss : List F) (i : Nat) : (mulZip as ss)[i]? =
    match as[i]?, ss[i]? with
    | some a, some s => some (a * s)
    | a, _ => a := by
  induction as generalizing ss i with
  | nil => cases ss <;> simp [mulZip]
  | cons a as ih =>
    cases ss with
    | nil => simp only [mulZip, List.getElem?_nil]; cases (a :: as)[i]? <;> rfl
    | cons s ss =>
      cases i with
      | zero => simp [mulZip]
      | succ i => simp only [mulZip, List.getElem?_cons_succ, ih]

omit [DecidableEq F] in
theorem mulZip_range (n : Nat) (f g : Nat → F) :
    mulZip ((List.range n).map f) ((List.range n).map g) = (List.range n).map fun i => f i * g i := by
  apply List.ext_getElem?
  intro i
  rw [mulZip_getElem?]
  by_cases h : i < n
  · simp [h]
  · simp [List.getElem?_eq_none_iff.2 (by simp; omega : ((List.range n).map _).length ≤ i), h]

omit [DecidableEq F] in
theorem map_range_take (f : Nat → F) {m n : Nat} (h : m ≤ n) :
    ((List.range n).map f).take m = (List.range m).map f := by
  rw [← List.map_take, List.take_range, Nat.min_eq_left h]

/-- One contribution multiplies the secrets of the reference string by the secrets of the contributor. The update
panics if there are fewer powers in the first group than in the second. -/
theorem c77_update (n1 n2 : Nat) (τ α β : F) (c : Contribution F) :
    (n2 ≤ n1 → (srs n1 n2 τ α β).update n1 n2 c = some (srs n1 n2 (τ * c.tau) (α * c.alpha) (β * c.beta))) ∧
    (n1 < n2 → ∀ s : Acc F, s.update n1 n2 c = none) := by
  constructor
  · intro h
    have hp : powers 1 c.tau n1 = (List.range n1).map fun i => c.tau ^ i := by simp [powers_eq]
    have hm : min (min (min n1 n2) (min n2 n2)) n2 = n2 := by omega
    unfold Acc.update
    simp only [hp, List.length_map, List.length_range, Nat.not_lt.2 h, if_false, srs, hm, zipped,
      map_range_take _ h, Option.some.injEq, Acc.mk.injEq, and_true, List.map_map]
    have take2 : ∀ f : Nat → F, ((List.range n2).map f).take n2 = (List.range n2).map f :=
      fun f => map_range_take f (Nat.le_refl n2)
    refine ⟨?_, ?_, ?_, ?_⟩
    · apply List.ext_getElem?
      intro i
      have hl : ∀ xs ss : List F, (mulZip xs ss).length = xs.length := by
        intro xs
        induction xs with
        | nil => intro ss; cases ss <;> rfl
        | cons x xs ih => intro ss; cases ss <;> simp [mulZip, ih]
      have hlen : ((mulZip ((List.range n1).map fun i => τ ^ i) (((List.range n2).map fun i => c.tau ^ i).take n2)).take n2).length = n2 := by
        simp [hl]; omega
      by_cases hi : i < n2
      · rw [List.getElem?_append_left (by rw [hlen]; exact hi), List.getElem?_take, if_pos hi, mulZip_getElem?]
        simp [hi, Nat.lt_of_lt_of_le hi h, mul_pow]
      · rw [List.getElem?_append_right (by rw [hlen]; omega), hlen, mulZip_getElem?, List.getElem?_drop,
          List.getElem?_drop, mulZip_getElem?]
        have e : n2 + (i - n2) = i := by omega
        rw [e]
        by_cases hi1 : i < n1
        · simp [hi, hi1, mul_pow]
        · simp [hi, hi1]
    · rw [take2, mulZip_range]
      simp only [mul_pow]
    · rw [take2, mulZip_range]
      apply List.map_congr_left
      intro i _
      simp only [Function.comp_apply, mul_pow]
      ring
    · rw [take2, mulZip_range]
      apply List.map_congr_left
      intro i _
      simp only [Function.comp_apply, mul_pow]
      ring
  · intro h s
    have hp : (powers 1 c.tau n1).length = n1 := by simp [powers_eq]
    unfold Acc.update
    simp only [hp, h, if_true]

/-- After any number of contributions the accumulator is the reference string for the products of their
secrets. -/
theorem c77_closed_form (n1 n2 : Nat) (h : n2 ≤ n1) (cs : List (Contribution F)) :
    updates n1 n2 (Acc.default n1 n2) cs =
      some (srs n1 n2 (prodOf Contribution.tau cs) (prodOf Contribution.alpha cs) (prodOf Contribution.beta cs)) := by
  have main : ∀ (cs : List (Contribution F)) (τ α β : F), updates n1 n2 (srs n1 n2 τ α β) cs =
      some (srs n1 n2 (τ * prodOf Contribution.tau cs) (α * prodOf Contribution.alpha cs)
        (β * prodOf Contribution.beta cs)) := by
    intro cs
    induction cs with
    | nil => intro τ α β; simp [updates, prodOf]
    | cons c cs ih =>
      intro τ α β
      simp only [updates, (c77_update n1 n2 τ α β c).1 h, ih]
      simp only [prodOf, List.map_cons, List.foldr_cons, mul_assoc]
  have hd : (Acc.default n1 n2 : Acc F) = srs n1 n2 1 1 1 := by
    simp only [Acc.default, srs, one_pow, mul_one, Acc.mk.injEq, and_true]
    refine ⟨?_, ?_, ?_, ?_⟩ <;>
    · symm
      rw [List.eq_replicate_iff]
      simp
  rw [hd, main]
  simp

/-! ## Verification -/

/-- The lists of an accumulator have the lengths of the configuration, as deserialization gives them
(kzg.rs:600-694). -/
structure Shape (n1 n2 : Nat) (s : Acc F) : Prop where
  tauG1 : s.tauG1.length = n1
  tauG2 : s.tauG2.length = n2
  alpha : s.alphaTau.length = n2
  beta : s.betaTau.length = n2

/-- Deserialized proofs have no identity points: `NonZero`, util.rs:178-236 and kzg.rs:344-412. -/
structure KProof.NonZero (π : KProof F) : Prop where
  tau : π.tau.ratio.1 ≠ 0 ∧ π.tau.ratio.2 ≠ 0 ∧ π.tau.matching ≠ 0
  alpha : π.alpha.ratio.1 ≠ 0 ∧ π.alpha.ratio.2 ≠ 0 ∧ π.alpha.matching ≠ 0
  beta : π.beta.ratio.1 ≠ 0 ∧ π.beta.ratio.2 ≠ 0 ∧ π.beta.matching ≠ 0

/-- What `verify_transform` checks, for lists of the right lengths. -/
structure KAccepted (K : KConfig Ch F) (ρ : Coeffs F) (last next : Acc F) (ch : Ch) (π : KProof F) (l n : Heads F) :
    Prop where
  gen1 : n.t0 = 1
  gen2 : n.u0 = 1
  tauK : π.tau.ratio.1 * π.tau.matching = π.tau.ratio.2 * K.tau ch π.tau.ratio
  alphaK : π.alpha.ratio.1 * π.alpha.matching = π.alpha.ratio.2 * K.alpha ch π.alpha.ratio
  betaK : π.beta.ratio.1 * π.beta.matching = π.beta.ratio.2 * K.beta ch π.beta.ratio
  tauMul : l.t1 * π.tau.matching = n.t1 * K.tau ch π.tau.ratio
  alphaMul : l.a0 * π.alpha.matching = n.a0 * K.alpha ch π.alpha.ratio
  betaMul : l.b0 * π.beta.matching = n.b0 * K.beta ch π.beta.ratio
  betaMul2 : l.b0 * next.betaG2 = n.b0 * last.betaG2
  p2 : dot ρ.tauG2 next.tauG2.tail = n.t1 * dot ρ.tauG2 next.tauG2.dropLast
  p1 : dot ρ.tauG1 next.tauG1.dropLast * n.u1 = dot ρ.tauG1 next.tauG1.tail
  pa : dot ρ.alpha next.alphaTau.dropLast * n.u1 = dot ρ.alpha next.alphaTau.tail
  pb : dot ρ.beta next.betaTau.dropLast * n.u1 = dot ρ.beta next.betaTau.tail

theorem powerPairs_eq (ρ : Nat → F) (xs : List F) (h : xs ≠ []) :
    powerPairs ρ xs = some (dot ρ xs.dropLast, dot ρ xs.tail) := by
  simp only [powerPairs, h, if_false]
  rw [merge_eq _ _ _ (by simp)]

omit [Field F] [DecidableEq F] in
theorem heads_some {s : Acc F} {h : Heads F} : s.heads = some h ↔
    s.tauG1[0]? = some h.t0 ∧ s.tauG1[1]? = some h.t1 ∧ s.tauG2[0]? = some h.u0 ∧ s.tauG2[1]? = some h.u1 ∧
    s.alphaTau[0]? = some h.a0 ∧ s.betaTau[0]? = some h.b0 := by
  unfold Acc.heads
  rcases s.tauG1 with _ | ⟨t0, _ | ⟨t1, t⟩⟩ <;> rcases s.tauG2 with _ | ⟨u0, _ | ⟨u1, u⟩⟩ <;>
    rcases s.alphaTau with _ | ⟨a0, a⟩ <;> rcases s.betaTau with _ | ⟨b0, b⟩ <;> simp
  cases h
  simp

theorem kverify_ok {K : KConfig Ch F} {ρ : Coeffs F} {last next : Acc F} {ch : Ch} {π : KProof F} {x : Acc F} :
    Acc.verifyTransform K ρ last next ch π = some (.ok x) ↔
      x = next ∧ ∃ l n, last.heads = some l ∧ next.heads = some n ∧ KAccepted K ρ last next ch π l n := by
  unfold Acc.verifyTransform
  cases hl : last.heads with
  | none => simp
  | some l =>
    cases hn : next.heads with
    | none => simp
    | some n =>
      obtain ⟨i1, i2, i3, i4, i5, i6⟩ := heads_some.1 hn
      have ne : ∀ (xs : List F) (a : F), xs[0]? = some a → xs ≠ [] := by
        intro xs a h e
        rw [e] at h
        simp at h
      simp only [powerPairs_eq _ _ (ne _ _ i1), powerPairs_eq _ _ (ne _ _ i3), powerPairs_eq _ _ (ne _ _ i5),
        powerPairs_eq _ _ (ne _ _ i6), Option.some.injEq]
      by_cases g1 : n.t0 = 1
      swap
      · simp only [g1, ne_eq, not_false_eq_true, if_true, reduceCtorEq, false_iff]
        rintro ⟨_, _, _, rfl, rfl, ha⟩
        exact g1 ha.gen1
      by_cases g2 : n.u0 = 1
      swap
      · simp only [g1, g2, ne_eq, not_true_eq_false, not_false_eq_true, if_true, if_false, reduceCtorEq, false_iff]
        rintro ⟨_, _, _, rfl, rfl, ha⟩
        exact g2 ha.gen2
      simp only [g1, g2, ne_eq, not_true_eq_false, if_false]
      by_cases k1 : π.tau.ratio.1 * π.tau.matching = π.tau.ratio.2 * K.tau ch π.tau.ratio
      swap
      · simp only [RatioProof.verify, same, k1, decide_false, Bool.false_eq_true, if_false, reduceCtorEq, false_iff]
        rintro ⟨_, _, _, rfl, rfl, ha⟩
        exact k1 ha.tauK
      by_cases k2 : π.alpha.ratio.1 * π.alpha.matching = π.alpha.ratio.2 * K.alpha ch π.alpha.ratio
      swap
      · simp only [RatioProof.verify, same, k1, k2, decide_false, decide_true, Bool.false_eq_true, if_false, if_true,
          reduceCtorEq, false_iff]
        rintro ⟨_, _, _, rfl, rfl, ha⟩
        exact k2 ha.alphaK
      by_cases k3 : π.beta.ratio.1 * π.beta.matching = π.beta.ratio.2 * K.beta ch π.beta.ratio
      swap
      · simp only [RatioProof.verify, same, k1, k2, k3, decide_false, decide_true, Bool.false_eq_true, if_false,
          if_true, reduceCtorEq, false_iff]
        rintro ⟨_, _, _, rfl, rfl, ha⟩
        exact k3 ha.betaK
      simp only [RatioProof.verify, same, k1, k2, k3, decide_true, if_true, one_mul, mul_one]
      constructor
      · intro h
        split at h
        · cases h
        split at h
        · cases h
        split at h
        · cases h
        split at h
        · cases h
        split at h
        · cases h
        split at h
        · cases h
        split at h
        · cases h
        split at h
        · cases h
        cases h
        simp_all only [Bool.not_eq_true', decide_eq_false_iff_not, not_not]
        exact ⟨trivial, l, n, rfl, rfl, by constructor <;> assumption⟩
      · rintro ⟨rfl, _, _, h, h', ha⟩
        cases h
        cases h'
        simp only [ha.tauMul, ha.alphaMul, ha.betaMul, ha.betaMul2, ha.p2, ha.p1, ha.pa, ha.pb, decide_true,
          Bool.not_true, Bool.false_eq_true, if_false]

omit [DecidableEq F] in
theorem srs_heads (n1 n2 : Nat) (h1 : 2 ≤ n1) (h2 : 2 ≤ n2) (τ α β : F) :
    (srs n1 n2 τ α β).heads = some ⟨1, τ, 1, τ, α, β⟩ := by
  rw [heads_some]
  simp only [srs, List.getElem?_map, List.getElem?_range, (by omega : 0 < n1), (by omega : 1 < n1),
    (by omega : 0 < n2), (by omega : 1 < n2), Option.map_some, pow_zero, pow_one, mul_one, and_self]

omit [DecidableEq F] in
theorem geometric_tail (n : Nat) (x τ : F) : ((List.range n).map fun i => x * τ ^ i).tail =
    (((List.range n).map fun i => x * τ ^ i).dropLast).map (· * τ) := by
  cases n with
  | zero => rfl
  | succ n =>
    rw [← List.map_dropLast, ← List.map_tail, List.range_succ, List.dropLast_concat, ← List.range_succ,
      List.range_succ_eq_map, List.tail_cons, List.map_map, List.map_map]
    apply List.map_congr_left
    intro i _
    simp only [Function.comp_apply, pow_succ]
    ring

/-- The proof of an honest contribution. -/
theorem proof_some {K : KConfig Ch F} {ch : Ch} {c : Contribution F} {g g' g'' : F} {π : KProof F}
    (h : c.proof K ch g g' g'' = some π) :
    (c.tau ≠ 0 ∧ π.tau = ⟨(g, g * c.tau), K.tau ch (g, g * c.tau) * c.tau⟩ ∧ g ≠ 0 ∧ K.tau ch (g, g * c.tau) ≠ 0) ∧
    (c.alpha ≠ 0 ∧ π.alpha = ⟨(g', g' * c.alpha), K.alpha ch (g', g' * c.alpha) * c.alpha⟩ ∧ g' ≠ 0 ∧
      K.alpha ch (g', g' * c.alpha) ≠ 0) ∧
    (c.beta ≠ 0 ∧ π.beta = ⟨(g'', g'' * c.beta), K.beta ch (g'', g'' * c.beta) * c.beta⟩ ∧ g'' ≠ 0 ∧
      K.beta ch (g'', g'' * c.beta) ≠ 0) := by
  have aux : ∀ (hash : HashToGroup Ch F) (s g : F) (π : RatioProof F), RatioProof.prove hash ch s g = some π →
      s ≠ 0 ∧ π = ⟨(g, g * s), hash ch (g, g * s) * s⟩ ∧ g ≠ 0 ∧ hash ch (g, g * s) ≠ 0 := by
    intro hash s g π h
    unfold RatioProof.prove at h
    split at h
    · cases h
    · rename_i hg
      split at h
      · cases h
      · rename_i hgs
        simp only at h
        split at h
        · cases h
        · rename_i hc
          split at h
          · cases h
          · cases h
            exact ⟨fun e => hgs (by rw [e, mul_zero]), rfl, hg, hc⟩
  unfold Contribution.proof at h
  cases h1 : RatioProof.prove K.tau ch c.tau g with
  | none => simp [h1] at h
  | some t =>
    cases h2 : RatioProof.prove K.alpha ch c.alpha g' with
    | none => simp [h1, h2] at h
    | some a =>
      cases h3 : RatioProof.prove K.beta ch c.beta g'' with
      | none => simp [h1, h2, h3] at h
      | some b =>
        simp only [h1, h2, h3, Option.some.injEq] at h
        subst h
        exact ⟨aux _ _ _ _ h1, aux _ _ _ _ h2, aux _ _ _ _ h3⟩

/-- An honest contribution to a reference string is accepted, whatever coefficients the verifier draws, and its
proof has no identity points. -/
theorem c77_accepted (K : KConfig Ch F) (ch : Ch) (n1 n2 : Nat) (h2 : 2 ≤ n2) (h : n2 ≤ n1) (τ α β : F)
    (c : Contribution F) (g g' g'' : F) (π : KProof F) (hp : c.proof K ch g g' g'' = some π) :
    π.NonZero ∧ ∃ next, (srs n1 n2 τ α β).update n1 n2 c = some next ∧
      ∀ ρ, Acc.verifyTransform K ρ (srs n1 n2 τ α β) next ch π = some (.ok next) := by
  obtain ⟨⟨t1, t2, t3, t4⟩, ⟨a1, a2, a3, a4⟩, ⟨b1, b2, b3, b4⟩⟩ := proof_some hp
  refine ⟨⟨?_, ?_, ?_⟩, _, (c77_update n1 n2 τ α β c).1 h, fun ρ => ?_⟩
  · rw [t2]; exact ⟨t3, mul_ne_zero t3 t1, mul_ne_zero t4 t1⟩
  · rw [a2]; exact ⟨a3, mul_ne_zero a3 a1, mul_ne_zero a4 a1⟩
  · rw [b2]; exact ⟨b3, mul_ne_zero b3 b1, mul_ne_zero b4 b1⟩
  · rw [kverify_ok]
    refine ⟨rfl, _, _, srs_heads n1 n2 (by omega) h2 τ α β, srs_heads n1 n2 (by omega) h2 _ _ _, ?_⟩
    have gt : ∀ (n : Nat) (τ : F), ((List.range n).map fun i => τ ^ i).tail =
        (((List.range n).map fun i => τ ^ i).dropLast).map (· * τ) := by
      intro n τ
      have := geometric_tail n 1 τ
      simpa using this
    constructor
    · rfl
    · rfl
    · rw [t2]; simp only; ring
    · rw [a2]; simp only; ring
    · rw [b2]; simp only; ring
    · rw [t2]; simp only; ring
    · rw [a2]; simp only; ring
    · rw [b2]; simp only; ring
    · simp only [srs]; ring
    · simp only [srs]
      rw [gt, dot_scale]
      ring
    · simp only [srs]
      rw [gt, dot_scale]
    · simp only [srs]
      rw [geometric_tail, dot_scale]
    · simp only [srs]
      rw [geometric_tail, dot_scale]

/-! ## C78 -/

omit [DecidableEq F] in
/-- A list in which every element is the previous one times `τ`. -/
theorem geometric_of_balanced {xs : List F} {x τ : F} (h0 : xs[0]? = some x)
    (h : Balanced τ 1 xs.dropLast xs.tail) : xs = (List.range xs.length).map fun i => x * τ ^ i := by
  have step : ∀ i, (hi : i < xs.length) → xs[i] = x * τ ^ i := by
    intro i
    induction i with
    | zero =>
      intro hi
      rw [List.getElem?_eq_getElem hi] at h0
      simpa using h0
    | succ i ih =>
      intro hi
      have hi' : i < xs.length := by omega
      have := h.2 i xs[i] xs[i + 1] (by
        rw [List.getElem?_dropLast, if_pos (by omega), List.getElem?_eq_getElem hi']) (by
        rw [List.getElem?_tail, List.getElem?_eq_getElem hi])
      rw [ih hi'] at this
      rw [pow_succ]
      linear_combination -this
  apply List.ext_getElem?
  intro i
  by_cases hi : i < xs.length
  · rw [List.getElem?_eq_getElem hi, step i hi]
    simp [hi]
  · rw [List.getElem?_eq_none_iff.2 (by omega)]
    simp [hi]

/-- A deserialized update that is accepted for all coefficients multiplied the secrets of the reference string by
nonzero factors, the ones that the proofs are about, and did nothing else. -/
theorem c78_sound (K : KConfig Ch F) (ch : Ch) (n1 n2 : Nat) (τ α β : F) (hβ : β ≠ 0) (h2 : 2 ≤ n2) (h1 : 2 ≤ n1)
    (next : Acc F) (hs : Shape n1 n2 next) (π : KProof F) (hπ : π.NonZero)
    (ht : K.tau ch π.tau.ratio ≠ 0) (ha : K.alpha ch π.alpha.ratio ≠ 0) (hb : K.beta ch π.beta.ratio ≠ 0)
    (h : ∀ ρ, ∃ x, Acc.verifyTransform K ρ (srs n1 n2 τ α β) next ch π = some (.ok x)) :
    ∃ c : Contribution F, c.tau ≠ 0 ∧ c.alpha ≠ 0 ∧ c.beta ≠ 0 ∧
      π.tau.matching = c.tau * K.tau ch π.tau.ratio ∧ π.tau.ratio.2 = c.tau * π.tau.ratio.1 ∧
      π.alpha.matching = c.alpha * K.alpha ch π.alpha.ratio ∧ π.alpha.ratio.2 = c.alpha * π.alpha.ratio.1 ∧
      π.beta.matching = c.beta * K.beta ch π.beta.ratio ∧ π.beta.ratio.2 = c.beta * π.beta.ratio.1 ∧
      next = srs n1 n2 (τ * c.tau) (α * c.alpha) (β * c.beta) := by
  have hh := srs_heads n1 n2 h1 h2 τ α β
  have acc : ∃ n, next.heads = some n ∧ ∀ ρ, KAccepted K ρ (srs n1 n2 τ α β) next ch π ⟨1, τ, 1, τ, α, β⟩ n := by
    obtain ⟨x, hx⟩ := h ⟨fun _ => 0, fun _ => 0, fun _ => 0, fun _ => 0⟩
    obtain ⟨_, l, n, hl, hn, _⟩ := kverify_ok.1 hx
    refine ⟨n, hn, fun ρ => ?_⟩
    obtain ⟨x, hx⟩ := h ρ
    obtain ⟨_, l, n', hl, hn', ha⟩ := kverify_ok.1 hx
    rw [hh] at hl
    rw [hn] at hn'
    cases hl
    cases hn'
    exact ha
  obtain ⟨n, hn, acc⟩ := acc
  obtain ⟨i1, i2, i3, i4, i5, i6⟩ := heads_some.1 hn
  have a0 := acc ⟨fun _ => 0, fun _ => 0, fun _ => 0, fun _ => 0⟩
  have u1 : n.u1 = n.t1 := by
    have b : Balanced n.t1 1 next.tauG2.dropLast next.tauG2.tail := by
      refine balanced_of_dot _ _ _ _ (by simp) fun ρ => ?_
      have := (acc ⟨ρ, ρ, ρ, ρ⟩).p2
      simp only at this
      linear_combination -this
    have := geometric_of_balanced (by rw [i3, a0.gen2]) b
    rw [this] at i4
    simp only [hs.tauG2, List.getElem?_map, List.getElem?_range (by omega : 1 < n2), Option.map_some, pow_one, one_mul,
      Option.some.injEq] at i4
    exact i4.symm
  have hm : ∀ (r : F × F) (m cp : F), r.1 ≠ 0 → r.2 ≠ 0 → cp ≠ 0 → r.1 * m = r.2 * cp →
      m = r.2 / r.1 * cp ∧ r.2 = r.2 / r.1 * r.1 ∧ r.2 / r.1 ≠ 0 := by
    intro r m cp h1 h2 hc he
    refine ⟨?_, by field_simp, div_ne_zero h2 h1⟩
    field_simp
    linear_combination he
  obtain ⟨tm, tr, t0⟩ := hm _ _ _ hπ.tau.1 hπ.tau.2.1 ht a0.tauK
  obtain ⟨am, ar, al0⟩ := hm _ _ _ hπ.alpha.1 hπ.alpha.2.1 ha a0.alphaK
  obtain ⟨bm, br, b0⟩ := hm _ _ _ hπ.beta.1 hπ.beta.2.1 hb a0.betaK
  have cancel : ∀ (x y k : F), k ≠ 0 → x * k = y * k → x = y := fun x y k hk h => mul_right_cancel₀ hk h
  have nt : n.t1 = τ * (π.tau.ratio.2 / π.tau.ratio.1) := by
    refine cancel _ _ _ ht ?_
    have := a0.tauMul
    rw [tm] at this
    linear_combination -this
  have na : n.a0 = α * (π.alpha.ratio.2 / π.alpha.ratio.1) := by
    refine cancel _ _ _ ha ?_
    have := a0.alphaMul
    rw [am] at this
    linear_combination -this
  have nb : n.b0 = β * (π.beta.ratio.2 / π.beta.ratio.1) := by
    refine cancel _ _ _ hb ?_
    have := a0.betaMul
    rw [bm] at this
    linear_combination -this
  refine ⟨⟨_, _, _⟩, t0, al0, b0, tm, tr, am, ar, bm, br, ?_⟩
  have geo : ∀ (xs : List F) (x : F) (k : Nat), xs[0]? = some x → xs.length = k →
      (∀ ρ, dot ρ xs.dropLast * n.t1 = dot ρ xs.tail) → xs = (List.range k).map fun i => x * n.t1 ^ i := by
    intro xs x k hx hk hd
    rw [← hk]
    exact geometric_of_balanced hx (balanced_of_dot _ _ _ _ (by simp) fun ρ => by rw [hd, mul_one])
  have e1 := geo next.tauG1 1 n1 (by rw [i1, a0.gen1]) hs.tauG1 fun ρ => by
    have := (acc ⟨ρ, ρ, ρ, ρ⟩).p1
    rwa [u1] at this
  have e2 := geo next.tauG2 1 n2 (by rw [i3, a0.gen2]) hs.tauG2 fun ρ => by
    have := (acc ⟨ρ, ρ, ρ, ρ⟩).p2
    simp only at this
    linear_combination -this
  have e3 := geo next.alphaTau n.a0 n2 i5 hs.alpha fun ρ => by
    have := (acc ⟨ρ, ρ, ρ, ρ⟩).pa
    rwa [u1] at this
  have e4 := geo next.betaTau n.b0 n2 i6 hs.beta fun ρ => by
    have := (acc ⟨ρ, ρ, ρ, ρ⟩).pb
    rwa [u1] at this
  have e5 : next.betaG2 = n.b0 := by
    have := a0.betaMul2
    simp only [srs] at this
    exact mul_left_cancel₀ hβ (by linear_combination this)
  have : next = ⟨next.tauG1, next.tauG2, next.alphaTau, next.betaTau, next.betaG2⟩ := rfl
  rw [this, e1, e2, e3, e4, e5, na, nb, nt]
  simp only [srs, one_mul]

/-- A wrong power is accepted for at most one value of its coefficient, whatever the other coefficients are. -/
theorem c78_random_check (K : KConfig Ch F) (ch : Ch) (last next : Acc F) (π : KProof F) (u0 u1 : F)
    (hu0 : next.tauG2[0]? = some u0) (hu : next.tauG2[1]? = some u1) (i : Nat) (xs : List F)
    (hxs : xs = next.tauG1 ∨ xs = next.alphaTau ∨ xs = next.betaTau)
    (hbad : ∃ x y, xs[i]? = some x ∧ xs[i + 1]? = some y ∧ x * u1 ≠ y * u0) (ρ σ : Nat → F)
    (hρ : ∀ j, j ≠ i → ρ j = σ j)
    (h : ∃ x, Acc.verifyTransform K ⟨ρ, ρ, ρ, ρ⟩ last next ch π = some (.ok x))
    (h' : ∃ x, Acc.verifyTransform K ⟨σ, σ, σ, σ⟩ last next ch π = some (.ok x)) : ρ i = σ i := by
  obtain ⟨_, h⟩ := h
  obtain ⟨_, h'⟩ := h'
  obtain ⟨_, l, n, hl, hn, ha⟩ := kverify_ok.1 h
  obtain ⟨_, l', n', hl', hn', hb⟩ := kverify_ok.1 h'
  rw [hl] at hl'; cases hl'
  rw [hn] at hn'; cases hn'
  obtain ⟨_, _, i3, i4, _⟩ := heads_some.1 hn
  have hu0' : u0 = n.u0 := by rw [hu0] at i3; exact Option.some.inj i3
  have hu1' : u1 = n.u1 := by rw [hu] at i4; exact Option.some.inj i4
  obtain ⟨x, y, hx, hy, hne⟩ := hbad
  have hlen := (List.getElem?_eq_some_iff.1 hy).1
  have hx' : xs.dropLast[i]? = some x := by rw [List.getElem?_dropLast, if_pos (by omega), hx]
  have hy' : xs.tail[i]? = some y := by rw [List.getElem?_tail, hy]
  have key : (ρ i - σ i) * (x * u1 - y * u0) = 0 := by
    rw [hu0', hu1', ha.gen2]
    have d1 := dot_update ρ σ _ i x hx' hρ
    have d2 := dot_update ρ σ _ i y hy' hρ
    rcases hxs with rfl | rfl | rfl
    · have p := ha.p1
      have q := hb.p1
      simp only at p q
      linear_combination p - q - n.u1 * d1 + d2
    · have p := ha.pa
      have q := hb.pa
      simp only at p q
      linear_combination p - q - n.u1 * d1 + d2
    · have p := ha.pb
      have q := hb.pb
      simp only at p q
      linear_combination p - q - n.u1 * d1 + d2
  rcases mul_eq_zero.1 key with hk | hk
  · linear_combination hk
  · exact absurd (by linear_combination hk) hne

/-- The check of the proofs themselves accepts identity points. Only deserialization keeps them out: an unchecked
proof of identity points lets an update choose any `τ`, `α` and `β`. -/
theorem c78_unchecked_proof (K : KConfig Ch F) (ch : Ch) (n1 n2 : Nat) (τ α β τ' α' β' : F) (h1 : 2 ≤ n1)
    (h2 : 2 ≤ n2) (hτ : τ ≠ 0) (hα : α ≠ 0) (hβ : β ≠ 0) (ρ : Coeffs F) :
    Acc.verifyTransform K ρ (srs n1 n2 τ α β) (srs n1 n2 τ' α' β') ch
      ⟨⟨(0, 0), τ' / τ * K.tau ch (0, 0)⟩, ⟨(0, 0), α' / α * K.alpha ch (0, 0)⟩, ⟨(0, 0), β' / β * K.beta ch (0, 0)⟩⟩ =
      some (.ok (srs n1 n2 τ' α' β')) := by
  rw [kverify_ok]
  refine ⟨rfl, _, _, srs_heads n1 n2 h1 h2 τ α β, srs_heads n1 n2 h1 h2 _ _ _, ?_⟩
  have gt : ∀ (n : Nat) (τ : F), ((List.range n).map fun i => τ ^ i).tail =
      (((List.range n).map fun i => τ ^ i).dropLast).map (· * τ) := by
    intro n τ
    have := geometric_tail n 1 τ
    simpa using this
  constructor
  · rfl
  · rfl
  · simp only; ring
  · simp only; ring
  · simp only; ring
  · simp only; field_simp
  · simp only; field_simp
  · simp only; field_simp
  · simp only [srs]; ring
  · simp only [srs]
    rw [gt, dot_scale]
    ring
  · simp only [srs]
    rw [gt, dot_scale]
  · simp only [srs]
    rw [geometric_tail, dot_scale]
  · simp only [srs]
    rw [geometric_tail, dot_scale]

/-! ## Examples -/

def exK : KConfig Nat Rat where
  tau ch r := ch + 1 + r.1 ^ 2
  alpha ch r := ch + 2 + r.1 ^ 2
  beta ch r := ch + 3 + r.1 ^ 2

-- two contributions to the default accumulator with three and two powers
example : updates 3 2 (Acc.default 3 2 : Acc Rat) [⟨2, 3, 5⟩, ⟨7, 11, 13⟩] =
    some ⟨[1, 14, 196], [1, 14], [33, 33 * 14], [65, 65 * 14], 65⟩ := by decide +kernel

-- an honest proof exists
example : ((⟨2, 3, 5⟩ : Contribution Rat).proof exK 0 1 1 1).isSome := by decide +kernel

-- the hypotheses of `c78_sound` are met by it
example : ∃ π : KProof Rat, π.NonZero ∧ exK.tau 0 π.tau.ratio ≠ 0 ∧ exK.alpha 0 π.alpha.ratio ≠ 0 ∧
    exK.beta 0 π.beta.ratio ≠ 0 ∧
    ∃ next, ∀ ρ, Acc.verifyTransform exK ρ (srs 3 2 1 1 1) next 0 π = some (.ok next) := by
  have hp : (⟨2, 3, 5⟩ : Contribution Rat).proof exK 0 1 1 1 = some ⟨⟨(1, 2), 4⟩, ⟨(1, 3), 9⟩, ⟨(1, 5), 20⟩⟩ := by
    decide +kernel
  obtain ⟨h, next, _, hn⟩ := c77_accepted exK 0 3 2 (by decide) (by decide) 1 1 1 ⟨2, 3, 5⟩ 1 1 1 _ hp
  exact ⟨_, h, by decide +kernel, by decide +kernel, by decide +kernel, next, hn⟩

-- a wrong cube is rejected for these coefficients
example : (match (⟨2, 3, 5⟩ : Contribution Rat).proof exK 0 1 1 1 with
    | none => false
    | some π => match Acc.verifyTransform exK ⟨fun _ => 1, fun _ => 1, fun _ => 1, fun _ => 1⟩ (srs 3 2 1 1 1)
        { srs 3 2 2 3 5 with tauG1 := [1, 2, 5] } 0 π with
      | some (.error e) => decide (e = .tauG2Powers)
      | _ => false) = true := by decide +kernel

end Verif.Setup
