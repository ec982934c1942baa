import Verif.Setup.Phase1

/-!
# C110: sub-ceremonies

The first powers of a ceremony, with its proofs, are a ceremony: what `read_subaccumulator` takes from the files of the
original ceremony and `Proof::cast_to_subceremony` makes of its proofs.
-/

namespace Verif.Setup

variable {F : Type} [Field F] [DecidableEq F] {Ch : Type}

/-- The accumulator with only the first powers: what `read_subaccumulator`, ppot/serialization.rs:686-702, reads from a
file of a larger ceremony (see `c107_file` for the bytes). -/
def Acc.trunc (m1 m2 : Nat) (s : Acc F) : Acc F :=
  ⟨s.tauG1.take m1, s.tauG2.take m2, s.alphaTau.take m2, s.betaTau.take m2, s.betaG2⟩

/-- `Proof::cast_to_subceremony`, kzg.rs:255-276. The hashers of the two ceremonies are the same,
ppot/kzg.rs:79-82. -/
def KProof.cast (π : KProof F) : KProof F :=
  ⟨⟨π.tau.ratio, π.tau.matching⟩, ⟨π.alpha.ratio, π.alpha.matching⟩, ⟨π.beta.ratio, π.beta.matching⟩⟩

/-! ## Specification -/

/-- Coefficients that are zero from `n` on. -/
def upTo (n : Nat) (ρ : Nat → F) : Nat → F := fun i => if i < n then ρ i else 0

/-- Coefficients that only concern the first powers. -/
def Coeffs.upTo (m1 m2 : Nat) (ρ : Coeffs F) : Coeffs F :=
  ⟨Setup.upTo (m2 - 1) ρ.tauG2, Setup.upTo (m1 - 1) ρ.tauG1, Setup.upTo (m2 - 1) ρ.alpha, Setup.upTo (m2 - 1) ρ.beta⟩

/-! ## Lemmas -/

omit [DecidableEq F] in
theorem dot_upTo (n : Nat) (ρ : Nat → F) (xs : List F) : dot (upTo n ρ) xs = dot ρ (xs.take n) := by
  induction xs generalizing n ρ with
  | nil => simp [dot]
  | cons x xs ih =>
    cases n with
    | zero =>
      have hz : ∀ (ys : List F), dot (upTo 0 ρ) ys = 0 := by
        intro ys
        have : upTo 0 ρ = fun _ => 0 := by funext i; simp [upTo]
        rw [this]
        induction ys with
        | nil => rfl
        | cons y ys ih => rw [dot, ih]; ring
      rw [hz]
      rfl
    | succ n =>
      rw [List.take_succ_cons, dot, dot, ← ih]
      have e1 : upTo (n + 1) ρ 0 = ρ 0 := by simp [upTo]
      have e2 : (fun i => upTo (n + 1) ρ (i + 1)) = upTo n fun i => ρ (i + 1) := by funext i; simp [upTo]
      rw [e1, e2]

omit [Field F] [DecidableEq F] in
theorem take_ends (xs : List F) (m : Nat) (h : m ≤ xs.length) :
    (xs.take m).dropLast = xs.dropLast.take (m - 1) ∧ (xs.take m).tail = xs.tail.take (m - 1) := by
  constructor
  · rw [List.dropLast_eq_take, List.dropLast_eq_take, List.take_take, List.take_take, List.length_take]
    congr 1
    omega
  · cases xs with
    | nil => simp
    | cons x xs => cases m <;> simp

omit [Field F] [DecidableEq F] in
theorem trunc_heads (s : Acc F) (m1 m2 : Nat) (h1 : 2 ≤ m1) (h2 : 2 ≤ m2) : (s.trunc m1 m2).heads = s.heads := by
  unfold Acc.heads Acc.trunc
  obtain ⟨a, rfl⟩ : ∃ a, m1 = a + 2 := ⟨m1 - 2, by omega⟩
  obtain ⟨b, rfl⟩ : ∃ b, m2 = b + 2 := ⟨m2 - 2, by omega⟩
  rcases s.tauG1 with _ | ⟨t0, _ | ⟨t1, t⟩⟩ <;> rcases s.tauG2 with _ | ⟨u0, _ | ⟨u1, u⟩⟩ <;>
    rcases s.alphaTau with _ | ⟨a0, a⟩ <;> rcases s.betaTau with _ | ⟨b0, b⟩ <;> simp

omit [DecidableEq F] in
theorem mulZip_length (xs ys : List F) : (mulZip xs ys).length = xs.length := by
  induction xs generalizing ys with
  | nil => cases ys <;> rfl
  | cons x xs ih => cases ys with
    | nil => rfl
    | cons y ys => simp [mulZip, ih]

omit [DecidableEq F] in
theorem mulZip_mapIdx (xs : List F) (f : Nat → F) : mulZip xs ((List.range xs.length).map f) = xs.mapIdx fun i x => x * f i := by
  apply List.ext_getElem?
  intro i
  rw [mulZip_getElem?, List.getElem?_mapIdx]
  by_cases hi : i < xs.length
  · simp [hi]
  · simp [List.getElem?_eq_none (Nat.le_of_not_lt hi)]

/-! ## The property -/

omit [DecidableEq F] in
/-- A contribution multiplies the element at every index by the secret to its power, whatever the elements are. -/
theorem c110_elements (n1 n2 : Nat) (hn : n2 ≤ n1) (s : Acc F) (hs : Shape n1 n2 s) (c : Contribution F) :
    s.update n1 n2 c = some ⟨s.tauG1.mapIdx fun i x => x * c.tau ^ i, s.tauG2.mapIdx fun i x => x * c.tau ^ i,
      s.alphaTau.mapIdx fun i x => x * (c.tau ^ i * c.alpha), s.betaTau.mapIdx fun i x => x * (c.tau ^ i * c.beta),
      s.betaG2 * c.beta⟩ := by
  have hp : powers 1 c.tau n1 = (List.range n1).map fun i => c.tau ^ i := by simp [powers_eq]
  have hmin : min (min (min s.tauG1.length s.tauG2.length) (min s.alphaTau.length s.betaTau.length)) n2 = n2 := by
    rw [hs.tauG1, hs.tauG2, hs.alpha, hs.beta]; omega
  have htake : ∀ f : Nat → F, ((List.range n2).map f).take n2 = (List.range n2).map f := fun f => map_range_take f (Nat.le_refl _)
  unfold Acc.update
  simp only [hp, List.length_map, List.length_range, map_range_take _ hn, hmin, if_neg (Nat.not_lt.mpr hn), zipped,
    List.map_map, htake, Option.some.injEq, Acc.mk.injEq]
  refine ⟨?_, ?_, ?_, ?_, trivial⟩
  · apply List.ext_getElem?
    intro i
    rw [List.getElem?_mapIdx]
    rcases Nat.lt_or_ge i n2 with hi | hi
    · rw [List.getElem?_append_left (by rw [List.length_take, mulZip_length, hs.tauG1]; omega),
        List.getElem?_take_of_lt hi, mulZip_getElem?]
      have : i < s.tauG1.length := by rw [hs.tauG1]; omega
      simp [hi, this]
    · rw [List.getElem?_append_right (by rw [List.length_take, mulZip_length, hs.tauG1]; omega), mulZip_getElem?]
      have hl : (List.take n2 (mulZip s.tauG1 ((List.range n2).map fun i => c.tau ^ i))).length = n2 := by
        rw [List.length_take, mulZip_length, hs.tauG1]; omega
      rw [hl, List.getElem?_drop, List.getElem?_drop, show n2 + (i - n2) = i by omega, mulZip_getElem?]
      by_cases hi1 : i < s.tauG1.length
      · have : i < n1 := by rw [← hs.tauG1]; exact hi1
        simp [hi1, this, Nat.not_lt.mpr hi]
      · simp [List.getElem?_eq_none (Nat.le_of_not_lt hi1)]
  · have := mulZip_mapIdx s.tauG2 fun i => c.tau ^ i
    rwa [hs.tauG2] at this
  · have := mulZip_mapIdx s.alphaTau fun i => c.tau ^ i * c.alpha
    rwa [hs.alpha] at this
  · have := mulZip_mapIdx s.betaTau fun i => c.tau ^ i * c.beta
    rwa [hs.beta] at this

omit [DecidableEq F] in
/-- The reference string of the smaller ceremony is the beginning of that of the larger one. -/
theorem c110_srs (n1 n2 m1 m2 : Nat) (h1 : m1 ≤ n1) (h2 : m2 ≤ n2) (τ α β : F) :
    (srs n1 n2 τ α β).trunc m1 m2 = srs m1 m2 τ α β := by
  unfold Acc.trunc srs
  simp only [map_range_take _ h1, map_range_take _ h2]

omit [Field F] [DecidableEq F] in
theorem trunc_shape {n1 n2 m1 m2 : Nat} (h1 : m1 ≤ n1) (h2 : m2 ≤ n2) {s : Acc F} (hs : Shape n1 n2 s) :
    Shape m1 m2 (s.trunc m1 m2) := by
  obtain ⟨a, b, c, d⟩ := hs
  constructor <;> simp only [Acc.trunc, List.length_take] <;> omega

omit [DecidableEq F] in
/-- Contributing and taking the first powers commute, for all accumulators of the size of the ceremony, also for those
that no ceremony leads to. -/
theorem c110_update (n1 n2 m1 m2 : Nat) (h1 : m1 ≤ n1) (h2 : m2 ≤ n2) (hn : n2 ≤ n1) (hm : m2 ≤ m1) (s : Acc F)
    (hs : Shape n1 n2 s) (c : Contribution F) :
    (s.update n1 n2 c).map (Acc.trunc m1 m2) = (s.trunc m1 m2).update m1 m2 c := by
  rw [c110_elements n1 n2 hn s hs c, c110_elements m1 m2 hm _ (trunc_shape h1 h2 hs) c]
  have key : ∀ (xs : List F) (m : Nat) (f : Nat → F → F), (xs.mapIdx f).take m = (xs.take m).mapIdx f := by
    intro xs m f
    apply List.ext_getElem?
    intro i
    rw [List.getElem?_mapIdx]
    rcases Nat.lt_or_ge i m with hi | hi
    · rw [List.getElem?_take_of_lt hi, List.getElem?_take_of_lt hi, List.getElem?_mapIdx]
    · rw [List.getElem?_eq_none (by rw [List.length_take]; omega), List.getElem?_eq_none (by rw [List.length_take]; omega)]
      rfl
  simp only [Option.map_some, Acc.trunc, key]

/-- The truncated update is accepted with some coefficients exactly if the whole update is accepted with these
coefficients for the first powers and zero for the others: nothing but the first powers matters, and they are checked in
the same way. -/
theorem c110_verify (K : KConfig Ch F) (ch : Ch) (n1 n2 m1 m2 : Nat) (h1 : m1 ≤ n1) (h2 : m2 ≤ n2) (hm1 : 2 ≤ m1)
    (hm2 : 2 ≤ m2) (last next : Acc F) (hs : Shape n1 n2 next) (π : KProof F) (ρ : Coeffs F) :
    Acc.verifyTransform K ρ (last.trunc m1 m2) (next.trunc m1 m2) ch π.cast = some (.ok (next.trunc m1 m2)) ↔
      Acc.verifyTransform K (ρ.upTo m1 m2) last next ch π = some (.ok next) := by
  rw [kverify_ok, kverify_ok, trunc_heads _ _ _ hm1 hm2, trunc_heads _ _ _ hm1 hm2]
  have e : ∀ (xs : List F) (m : Nat) (σ : Nat → F), m ≤ xs.length →
      dot (upTo (m - 1) σ) xs.dropLast = dot σ (xs.take m).dropLast ∧
      dot (upTo (m - 1) σ) xs.tail = dot σ (xs.take m).tail := by
    intro xs m σ hl
    rw [dot_upTo, dot_upTo, (take_ends xs m hl).1, (take_ends xs m hl).2]
    exact ⟨rfl, rfl⟩
  obtain ⟨a1, a2⟩ := e next.tauG1 m1 ρ.tauG1 (by rw [hs.tauG1]; exact h1)
  obtain ⟨b1, b2⟩ := e next.tauG2 m2 ρ.tauG2 (by rw [hs.tauG2]; exact h2)
  obtain ⟨c1, c2⟩ := e next.alphaTau m2 ρ.alpha (by rw [hs.alpha]; exact h2)
  obtain ⟨d1, d2⟩ := e next.betaTau m2 ρ.beta (by rw [hs.beta]; exact h2)
  have acc : ∀ l n, KAccepted K ρ (last.trunc m1 m2) (next.trunc m1 m2) ch π.cast l n ↔
      KAccepted K (ρ.upTo m1 m2) last next ch π l n := by
    intro l n
    constructor
    · rintro ⟨x1, x2, x3, x4, x5, x6, x7, x8, x9, p2, p1, pa, pb⟩
      refine ⟨x1, x2, x3, x4, x5, x6, x7, x8, x9, ?_, ?_, ?_, ?_⟩ <;> simp only [Coeffs.upTo, a1, a2, b1, b2, c1, c2, d1, d2]
      · exact p2
      · exact p1
      · exact pa
      · exact pb
    · rintro ⟨x1, x2, x3, x4, x5, x6, x7, x8, x9, p2, p1, pa, pb⟩
      simp only [Coeffs.upTo, a1, a2, b1, b2, c1, c2, d1, d2] at p2 p1 pa pb
      exact ⟨x1, x2, x3, x4, x5, x6, x7, x8, x9, p2, p1, pa, pb⟩
  simp only [acc, true_and]

/-- An update that is accepted whatever the coefficients are is accepted, truncated and with its proof cast, by every
smaller ceremony. -/
theorem c110_accepted (K : KConfig Ch F) (ch : Ch) (n1 n2 m1 m2 : Nat) (h1 : m1 ≤ n1) (h2 : m2 ≤ n2) (hm1 : 2 ≤ m1)
    (hm2 : 2 ≤ m2) (last next : Acc F) (hs : Shape n1 n2 next) (π : KProof F)
    (h : ∀ ρ, Acc.verifyTransform K ρ last next ch π = some (.ok next)) :
    ∀ ρ, Acc.verifyTransform K ρ (last.trunc m1 m2) (next.trunc m1 m2) ch π.cast = some (.ok (next.trunc m1 m2)) :=
  fun ρ => (c110_verify K ch n1 n2 m1 m2 h1 h2 hm1 hm2 last next hs π ρ).mpr (h _)

/-- All contributions of the original ceremony, replayed with the first powers only, lead to the beginning of its result;
and each is accepted there with its original proof and challenge. -/
theorem c110_replay (n1 n2 m1 m2 : Nat) (h1 : m1 ≤ n1) (h2 : m2 ≤ n2) (hn : n2 ≤ n1) (hm : m2 ≤ m1)
    (cs : List (Contribution F)) :
    ∃ s, updates n1 n2 (Acc.default n1 n2) cs = some s ∧ updates m1 m2 (Acc.default m1 m2) cs = some (s.trunc m1 m2) ∧
      (2 ≤ m2 → ∀ (K : KConfig Ch F) (ch : Ch) (c : Contribution F) (g g' g'' : F) (π : KProof F),
        c.proof K ch g g' g'' = some π → ∃ next, s.update n1 n2 c = some next ∧
          (s.trunc m1 m2).update m1 m2 c = some (next.trunc m1 m2) ∧
          ∀ ρ, Acc.verifyTransform K ρ (s.trunc m1 m2) (next.trunc m1 m2) ch π.cast = some (.ok (next.trunc m1 m2))) := by
  refine ⟨_, c77_closed_form n1 n2 hn cs, ?_, ?_⟩
  · rw [c110_srs _ _ _ _ h1 h2, c77_closed_form m1 m2 hm cs]
  · intro h K ch c g g' g'' π hp
    obtain ⟨-, next, hu, hv⟩ := c77_accepted K ch n1 n2 (by omega) hn (prodOf Contribution.tau cs)
      (prodOf Contribution.alpha cs) (prodOf Contribution.beta cs) c g g' g'' π hp
    have hu' := (c77_update n1 n2 (prodOf Contribution.tau cs) (prodOf Contribution.alpha cs) (prodOf Contribution.beta cs) c).1 hn
    have hnext : next = _ := Option.some.inj (hu.symm.trans hu')
    refine ⟨next, hu, ?_, ?_⟩
    · rw [hnext, c110_srs _ _ _ _ h1 h2, c110_srs _ _ _ _ h1 h2]
      exact (c77_update m1 m2 _ _ _ c).1 hm
    · exact c110_accepted K ch n1 n2 m1 m2 h1 h2 (by omega) h _ next
        (by rw [hnext]; constructor <;> simp [srs]) π hv

/-! ## Examples -/

/-- A file with five and three powers, of which the smaller ceremony takes three and two. -/
example : ((⟨[1, 2, 4, 8, 16], [1, 2, 4], [3, 6, 12], [5, 10, 20], 5⟩ : Acc Rat).trunc 3 2) =
    ⟨[1, 2, 4], [1, 2], [3, 6], [5, 10], 5⟩ := by decide +kernel

example : ((⟨[1, 9, 4, 8, 16], [1, 2, 7], [3, 6, 12], [5, 10, 20], 5⟩ : Acc Rat).update 5 3 ⟨2, 3, 5⟩).map (Acc.trunc 3 2) =
    some ⟨[1, 18, 16], [1, 4], [9, 36], [25, 100], 25⟩ := by decide +kernel

/-- A wrong power behind the first ones makes the whole update be refused but not the truncated one. -/
example : (match (⟨2, 3, 5⟩ : Contribution Rat).proof exK 0 1 1 1 with
    | none => false
    | some π =>
      let next := { srs 5 3 2 3 5 with tauG1 := [1, 2, 4, 8, 17] }
      let ρ : Coeffs Rat := ⟨fun _ => 1, fun _ => 1, fun _ => 1, fun _ => 1⟩
      (match Acc.verifyTransform exK ρ (srs 5 3 1 1 1) next 0 π with
        | some (.ok _) => false
        | _ => true) &&
      (match Acc.verifyTransform exK ρ ((srs 5 3 1 1 1).trunc 3 2) (next.trunc 3 2) 0 π.cast with
        | some (.ok _) => true
        | _ => false)) = true := by decide +kernel

example : ∃ s : Acc Rat, updates 5 3 (Acc.default 5 3) [⟨2, 3, 5⟩, ⟨7, 11, 13⟩] = some s ∧
    updates 3 2 (Acc.default 3 2) [⟨2, 3, 5⟩, ⟨7, 11, 13⟩] = some (s.trunc 3 2) := by
  obtain ⟨s, h, h', -⟩ := c110_replay (Ch := Nat) 5 3 3 2 (by decide) (by decide) (by decide) (by decide)
    ([⟨2, 3, 5⟩, ⟨7, 11, 13⟩] : List (Contribution Rat))
  exact ⟨s, h, h'⟩

end Verif.Setup
