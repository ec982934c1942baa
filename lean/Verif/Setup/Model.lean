import Mathlib.Algebra.Field.Basic

/-!
# The algebra of the trusted setup

Models ratio proofs (`manta-crypto/src/arkworks/ratio.rs`), the pairing checks
(`manta-crypto/src/arkworks/pairing.rs:67-110`), the phase 2 contribution and its verification
(`manta-trusted-setup/src/groth16/mpc.rs:299-562`), the phase 1 accumulator
(`manta-trusted-setup/src/groth16/kzg.rs:140-522`) and the linear combinations they use
(`manta-trusted-setup/src/util.rs:285-346`).

* Both source groups of the pairing have prime order, so that a group element is represented by its discrete
  logarithm, an element of the scalar field `F`; the generators are `1`, scalar multiplication is
  multiplication, and the pairing is multiplication (the target group is represented in the same way).
* Points are assumed to lie in these groups (checked by `State::check` and by deserialization); the identity,
  `0`, passes those checks.
* Random numbers are arguments: the scalar and point of a contribution, the coefficients of the random linear
  combinations.
* The hash into the second group is a parameter.
-/

namespace Verif.Setup

variable {F : Type} [Field F] [DecidableEq F]

/-! ## Pairing checks -/

/-- `PairingEngineExt::same`, pairing.rs:83-97, as a boolean. -/
def same (l r : F × F) : Bool := decide (l.1 * l.2 = r.1 * r.2)

/-- `PairingEngineExt::same_ratio`, pairing.rs:99-110. -/
def sameRatio (l r : F × F) : Bool := decide (l.1 * r.2 = l.2 * r.1)

/-- `merge_pairs_affine` and `merge_pairs_projective`, util.rs:287-333, with the random coefficients `ρ`. -/
def merge (ρ : Nat → F) : List F → List F → F × F
  | a :: as, b :: bs =>
    let r := merge (fun i => ρ (i + 1)) as bs
    (ρ 0 * a + r.1, ρ 0 * b + r.2)
  | _, _ => (0, 0)

/-- `power_pairs`, util.rs:339-347; `none` is the underflow of `len() - 1`. -/
def powerPairs (ρ : Nat → F) (xs : List F) : Option (F × F) :=
  if xs = [] then none else some (merge ρ xs.dropLast xs.tail)

/-! ## Ratio proofs -/

/-- `RatioProof`, ratio.rs:50-62. -/
structure RatioProof (F : Type) where
  ratio : F × F
  matching : F
deriving DecidableEq

/-- `HashToGroup`, ratio.rs:30-38. -/
abbrev HashToGroup (Ch F : Type) := Ch → F × F → F

/-- `RatioProof::prove`, ratio.rs:70-104, with the random point `g`. -/
def RatioProof.prove {Ch : Type} (hash : HashToGroup Ch F) (ch : Ch) (scalar g : F) : Option (RatioProof F) :=
  if g = 0 then none
  else if g * scalar = 0 then none
  else
    let cp := hash ch (g, g * scalar)
    if cp = 0 then none
    else if cp * scalar = 0 then none
    else some ⟨(g, g * scalar), cp * scalar⟩

/-- `RatioProof::verify`, ratio.rs:117-130: the ratio and the pair of matching point and challenge point. -/
def RatioProof.verify {Ch : Type} (hash : HashToGroup Ch F) (ch : Ch) (π : RatioProof F) :
    Option ((F × F) × (F × F)) :=
  let cp := hash ch π.ratio
  if same (π.ratio.1, π.matching) (π.ratio.2, cp) then some (π.ratio, (π.matching, cp)) else none

/-! ## Phase 2 -/

/-- `State`: the Groth16 proving key, mpc.rs:60-73. -/
structure State (F : Type) where
  alphaG1 : F
  betaG1 : F
  betaG2 : F
  gammaG2 : F
  gammaAbc : List F
  deltaG1 : F
  deltaG2 : F
  a : List F
  bG1 : List F
  bG2 : List F
  h : List F
  l : List F
deriving DecidableEq

/-- `Error`, mpc.rs:211-238; the text of an invariant is left out. -/
inductive Error
  | invalidRatioProof
  | inconsistentDelta
  | inconsistentL
  | inconsistentH
  | invariant
deriving DecidableEq, Repr

/-- `check_invariants`, mpc.rs:316-351. -/
def checkInvariants (prev next : State F) : Bool :=
  decide (prev.h.length = next.h.length) && decide (prev.l.length = next.l.length) &&
  decide (prev.a = next.a) && decide (prev.bG1 = next.bG1) && decide (prev.bG2 = next.bG2) &&
  decide (prev.alphaG1 = next.alphaG1) && decide (prev.betaG1 = next.betaG1) &&
  decide (prev.betaG2 = next.betaG2) && decide (prev.gammaG2 = next.gammaG2) &&
  decide (prev.gammaAbc = next.gammaAbc)

/-- `batch_mul_fixed_scalar`, util.rs:440-445. -/
def scaleAll (c : F) (xs : List F) : List F := xs.map (· * c)

/-- `contribute`, mpc.rs:451-468, with the random scalar `δ` and the random point `g` of the ratio proof. -/
def contribute {Ch : Type} (hash : HashToGroup Ch F) (ch : Ch) (s : State F) (δ g : F) :
    Option (State F × RatioProof F) :=
  if δ = 0 then none
  else
    (RatioProof.prove hash ch δ g).map fun π =>
      ({ s with
          l := scaleAll δ⁻¹ s.l
          h := scaleAll δ⁻¹ s.h
          deltaG1 := s.deltaG1 * δ
          deltaG2 := s.deltaG2 * δ }, π)

/-- The last three checks of `verify_transform`, mpc.rs:490-507, which `verify_transform_all` (543-560) makes
between the first and the last state. `ρ` and `ρ'` are the coefficients for `h` and `l`. -/
def checkDeltas (ρ ρ' : Nat → F) (prev next : State F) : Option Error :=
  if !sameRatio (prev.deltaG1, next.deltaG1) (prev.deltaG2, next.deltaG2) then some .inconsistentDelta
  else if !sameRatio (merge ρ next.h prev.h) (prev.deltaG2, next.deltaG2) then some .inconsistentH
  else if !sameRatio (merge ρ' next.l prev.l) (prev.deltaG2, next.deltaG2) then some .inconsistentL
  else none

/-- The hash into the group and `Configuration::challenge`, mpc.rs:434-446. -/
structure Config (Ch F : Type) where
  hash : HashToGroup Ch F
  challenge : Ch → State F → State F → RatioProof F → Ch

/-- The ratio proof and the change of `δ` in the second group, mpc.rs:483-489 and 527-539. -/
def checkRatio {Ch : Type} (C : Config Ch F) (ch : Ch) (prev next : State F) (π : RatioProof F) : Option Error :=
  match π.verify C.hash ch with
  | none => some .invalidRatioProof
  | some (r, _) => if !sameRatio r (prev.deltaG2, next.deltaG2) then some .inconsistentDelta else none

/-- `verify_transform`, mpc.rs:472-509. -/
def verifyTransform {Ch : Type} (C : Config Ch F) (ρ ρ' : Nat → F) (ch : Ch) (prev next : State F)
    (π : RatioProof F) : Except Error (Ch × State F) :=
  if !checkInvariants prev next then .error .invariant
  else
    match checkRatio C ch prev next π with
    | some e => .error e
    | none =>
      match checkDeltas ρ ρ' prev next with
      | some e => .error e
      | none => .ok (C.challenge ch prev next π, next)

/-- Step by step verification: `mpc::verify_transform_all`, manta-trusted-setup/src/mpc.rs:141-158. Every round
draws its own coefficients. -/
def verifySteps {Ch : Type} (C : Config Ch F) (ρ ρ' : Nat → Nat → F) (ch : Ch) (s : State F) :
    List (State F × RatioProof F) → Except Error (Ch × State F)
  | [] => .ok (ch, s)
  | (n, π) :: rest =>
    match verifyTransform C (ρ 0) (ρ' 0) ch s n π with
    | .error e => .error e
    | .ok (ch', s') => verifySteps C (fun i => ρ (i + 1)) (fun i => ρ' (i + 1)) ch' s' rest

/-- The loop of `verify_transform_all`, groth16/mpc.rs:526-541: only the ratio proofs and `δ` in the second
group are looked at. -/
def ratioLoop {Ch : Type} (C : Config Ch F) (ch : Ch) (s : State F) :
    List (State F × RatioProof F) → Except Error (State F)
  | [] => .ok s
  | (n, π) :: rest =>
    match checkRatio C ch s n π with
    | some e => .error e
    | none => ratioLoop C (C.challenge ch s n π) n rest

/-- `verify_transform_all`, groth16/mpc.rs:518-562. -/
def verifyBatch {Ch : Type} (C : Config Ch F) (ρ ρ' : Nat → F) (ch : Ch) (s : State F)
    (rounds : List (State F × RatioProof F)) : Except Error Unit :=
  match ratioLoop C ch s rounds with
  | .error e => .error e
  | .ok last =>
    if !checkInvariants s last then .error .invariant
    else
      match checkDeltas ρ ρ' s last with
      | some e => .error e
      | none => .ok ()

/-! ## Phase 1 -/

/-- `Accumulator`, kzg.rs:417-435. -/
structure Acc (F : Type) where
  tauG1 : List F
  tauG2 : List F
  alphaTau : List F
  betaTau : List F
  betaG2 : F
deriving DecidableEq

/-- `Accumulator::default`, kzg.rs:697-705, for `G1_POWERS` and `G2_POWERS`. -/
def Acc.default (n1 n2 : Nat) : Acc F :=
  ⟨List.replicate n1 1, List.replicate n2 1, List.replicate n2 1, List.replicate n2 1, 1⟩

/-- `Contribution`, kzg.rs:140-152. -/
structure Contribution (F : Type) where
  tau : F
  alpha : F
  beta : F
deriving DecidableEq

/-- `iter::successors(Some(1), |x| x * tau).take(n)`, kzg.rs:445-448, from `x` on. -/
def powers (x τ : F) : Nat → List F
  | 0 => []
  | n + 1 => x :: powers (x * τ) τ n

/-- Pointwise multiplication of the elements that have a partner; the others stay (an `iter_mut` zipped with
another iterator). -/
def mulZip : List F → List F → List F
  | a :: as, s :: ss => (a * s) :: mulZip as ss
  | as, _ => as

/-- The first, zipped loop of `Accumulator::update`, kzg.rs:450-463: it ends with the shortest of the five
iterators, whose lengths give `n`. -/
def zipped (n : Nat) (xs ss : List F) : List F := mulZip xs (ss.take n)

/-- `Accumulator::update`, kzg.rs:444-469; `none` is the panic of `split_off`. -/
def Acc.update (n1 n2 : Nat) (s : Acc F) (c : Contribution F) : Option (Acc F) :=
  let ps := powers 1 c.tau n1
  if ps.length < n2 then none
  else
    let first := ps.take n2
    let n := min (min (min s.tauG1.length s.tauG2.length) (min s.alphaTau.length s.betaTau.length)) first.length
    let t1 := zipped n s.tauG1 first
    some ⟨t1.take n2 ++ mulZip (t1.drop n2) (ps.drop n2), zipped n s.tauG2 first,
      zipped n s.alphaTau (first.map (· * c.alpha)), zipped n s.betaTau (first.map (· * c.beta)),
      s.betaG2 * c.beta⟩

/-- `Proof`, kzg.rs:206-220. -/
structure KProof (F : Type) where
  tau : RatioProof F
  alpha : RatioProof F
  beta : RatioProof F
deriving DecidableEq

/-- The hashers with the three domain tags, kzg.rs:72-81. -/
structure KConfig (Ch F : Type) where
  tau : HashToGroup Ch F
  alpha : HashToGroup Ch F
  beta : HashToGroup Ch F

/-- `Contribution::proof`, kzg.rs:161-171, with the three random points. -/
def Contribution.proof {Ch : Type} (K : KConfig Ch F) (ch : Ch) (c : Contribution F) (g g' g'' : F) :
    Option (KProof F) :=
  match RatioProof.prove K.tau ch c.tau g with
  | none => none
  | some t =>
    match RatioProof.prove K.alpha ch c.alpha g' with
    | none => none
    | some a =>
      match RatioProof.prove K.beta ch c.beta g'' with
      | none => none
      | some b => some ⟨t, a, b⟩

/-- `VerificationError`, kzg.rs:107-136. -/
inductive KError
  | generatorG1
  | generatorG2
  | tauKnowledge
  | alphaKnowledge
  | betaKnowledge
  | tauMul
  | alphaMul
  | betaMul
  | tauG1Powers
  | tauG2Powers
  | alphaPowers
  | betaPowers
deriving DecidableEq, Repr

/-- What an accumulator is indexed at, kzg.rs:482-520. -/
structure Heads (F : Type) where
  t0 : F
  t1 : F
  u0 : F
  u1 : F
  a0 : F
  b0 : F

/-- `tau_powers_g1[0]`, `[1]`, `tau_powers_g2[0]`, `[1]`, `alpha_tau_powers_g1[0]`, `beta_tau_powers_g1[0]`;
`none` is an index panic. -/
def Acc.heads (s : Acc F) : Option (Heads F) :=
  match s.tauG1, s.tauG2, s.alphaTau, s.betaTau with
  | t0 :: t1 :: _, u0 :: u1 :: _, a0 :: _, b0 :: _ => some ⟨t0, t1, u0, u1, a0, b0⟩
  | _, _, _, _ => none

/-- The four coefficient sequences of one verification. -/
structure Coeffs (F : Type) where
  tauG2 : Nat → F
  tauG1 : Nat → F
  alpha : Nat → F
  beta : Nat → F

/-- `Accumulator::verify_transform`, kzg.rs:472-521; the outer `none` is a panic. All accesses that may panic are
made first. -/
def Acc.verifyTransform {Ch : Type} (K : KConfig Ch F) (ρ : Coeffs F) (last next : Acc F) (ch : Ch)
    (π : KProof F) : Option (Except KError (Acc F)) :=
  match last.heads, next.heads, powerPairs ρ.tauG2 next.tauG2, powerPairs ρ.tauG1 next.tauG1,
      powerPairs ρ.alpha next.alphaTau, powerPairs ρ.beta next.betaTau with
  | some l, some n, some p2, some p1, some pa, some pb => some <|
    if n.t0 ≠ 1 then .error .generatorG1
    else if n.u0 ≠ 1 then .error .generatorG2
    else
      match π.tau.verify K.tau ch, π.alpha.verify K.alpha ch, π.beta.verify K.beta ch with
      | none, _, _ => .error .tauKnowledge
      | _, none, _ => .error .alphaKnowledge
      | _, _, none => .error .betaKnowledge
      | some (_, τ), some (_, α), some (_, β) =>
        if !same (l.t1, τ.1) (n.t1, τ.2) then .error .tauMul
        else if !same (l.a0, α.1) (n.a0, α.2) then .error .alphaMul
        else if !same (l.b0, β.1) (n.b0, β.2) then .error .betaMul
        else if !same (l.b0, next.betaG2) (n.b0, last.betaG2) then .error .betaMul
        else if !same (n.t0, p2.2) (n.t1, p2.1) then .error .tauG1Powers
        else if !same (p1.1, n.u1) (p1.2, n.u0) then .error .tauG2Powers
        else if !same (pa.1, n.u1) (pa.2, n.u0) then .error .alphaPowers
        else if !same (pb.1, n.u1) (pb.2, n.u0) then .error .betaPowers
        else .ok next
  | _, _, _, _, _, _ => none

end Verif.Setup
