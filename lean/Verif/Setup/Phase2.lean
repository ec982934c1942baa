import Verif.Setup.Model
import Mathlib.Algebra.Field.Rat
import Mathlib.Tactic.LinearCombination
import Mathlib.Tactic.FieldSimp
import Mathlib.Tactic.Ring

/-!
# Phase 2 of the trusted setup

C74: honest contributions are accepted. C75: what an accepted contribution says about the change of `δ`, and the
ratio proof that says nothing. C76: the verification of a whole ceremony at once.
-/

namespace Verif.Setup

variable {F : Type} [Field F] [DecidableEq F] {Ch : Type}

/-! ## Specification -/

/-- The state `s` with the secret `δ` multiplied by `d`: `δ` itself in both groups, and the queries that are
divided by it. -/
def State.rescale (s : State F) (d : F) : State F :=
  { s with
    deltaG1 := s.deltaG1 * d
    deltaG2 := s.deltaG2 * d
    h := s.h.map fun x => x / d
    l := s.l.map fun x => x / d }

/-- The queries of two states agree, each multiplied by its `δ`. -/
def Balanced (δ δ' : F) (xs ys : List F) : Prop :=
  xs.length = ys.length ∧ ∀ (i : Nat) (x y : F), xs[i]? = some x → ys[i]? = some y → x * δ = y * δ'

/-! ## Linear combinations -/

/-- `Σ ρᵢ xᵢ`. -/
def dot (ρ : Nat → F) : List F → F
  | [] => 0
  | x :: xs => ρ 0 * x + dot (fun i => ρ (i + 1)) xs

omit [DecidableEq F] in
theorem merge_eq (ρ : Nat → F) (as bs : List F) (h : as.length = bs.length) :
    merge ρ as bs = (dot ρ as, dot ρ bs) := by
  induction as generalizing bs ρ with
  | nil => cases bs with
    | nil => rfl
    | cons => simp at h
  | cons a as ih => cases bs with
    | nil => simp at h
    | cons b bs =>
      simp only [merge, dot]
      rw [ih _ _ (by simpa using h)]

omit [DecidableEq F] in
theorem dot_scale (ρ : Nat → F) (c : F) (xs : List F) : dot ρ (xs.map (· * c)) = dot ρ xs * c := by
  induction xs generalizing ρ with
  | nil => simp [dot]
  | cons x xs ih => simp only [List.map_cons, dot, ih]; ring

omit [DecidableEq F] in
theorem dot_div (ρ : Nat → F) (c : F) (xs : List F) : dot ρ (xs.map fun x => x / c) = dot ρ xs / c := by
  simp only [div_eq_mul_inv]
  exact dot_scale ρ c⁻¹ xs

omit [DecidableEq F] in
theorem dot_update (ρ ρ' : Nat → F) (xs : List F) (i : Nat) (x : F) (hx : xs[i]? = some x)
    (hρ : ∀ j, j ≠ i → ρ j = ρ' j) : dot ρ xs - dot ρ' xs = (ρ i - ρ' i) * x := by
  induction xs generalizing ρ ρ' i with
  | nil => simp at hx
  | cons y ys ih =>
    cases i with
    | zero =>
      simp only [List.getElem?_cons_zero, Option.some.injEq] at hx
      subst hx
      have : dot (fun i => ρ (i + 1)) ys = dot (fun i => ρ' (i + 1)) ys := by
        congr 1
        funext j
        exact hρ (j + 1) (by omega)
      simp only [dot, this]
      ring
    | succ i =>
      simp only [List.getElem?_cons_succ] at hx
      have h0 := hρ 0 (by omega)
      have := ih (fun i => ρ (i + 1)) (fun i => ρ' (i + 1)) i hx fun j hj => hρ (j + 1) (by omega)
      simp only [dot]
      rw [h0]
      linear_combination this

omit [DecidableEq F] in
/-- A balance of linear combinations for all coefficients is a balance of every element. -/
theorem balanced_of_dot (δ δ' : F) (xs ys : List F) (hl : xs.length = ys.length)
    (h : ∀ ρ : Nat → F, dot ρ xs * δ = dot ρ ys * δ') : Balanced δ δ' xs ys := by
  refine ⟨hl, fun i x y hx hy => ?_⟩
  let e : Nat → F := fun j => if j = i then 1 else 0
  have h1 := dot_update e (fun _ => 0) xs i x hx fun j hj => by simp [e, hj]
  have h2 := dot_update e (fun _ => 0) ys i y hy fun j hj => by simp [e, hj]
  have h3 := h e
  have h4 := h fun _ => 0
  have he : e i = 1 := by simp [e]
  rw [he] at h1 h2
  linear_combination h3 - h4 - δ * h1 + δ' * h2

omit [DecidableEq F] in
theorem dot_of_balanced {δ δ' : F} {xs ys : List F} (h : Balanced δ δ' xs ys) (ρ : Nat → F) :
    dot ρ xs * δ = dot ρ ys * δ' := by
  obtain ⟨hl, h⟩ := h
  induction xs generalizing ys ρ with
  | nil => cases ys with
    | nil => simp [dot]
    | cons => simp at hl
  | cons x xs ih => cases ys with
    | nil => simp at hl
    | cons y ys =>
      have h0 := h 0 x y rfl rfl
      have := ih (fun i => ρ (i + 1)) (by simpa using hl) fun i a b ha hb => h (i + 1) a b ha hb
      simp only [dot]
      linear_combination ρ 0 * h0 + this

omit [DecidableEq F] in
theorem Balanced.trans {δ δ' δ'' : F} {xs ys zs : List F} (h : Balanced δ δ' xs ys) (h' : Balanced δ' δ'' ys zs) :
    Balanced δ δ'' xs zs := by
  refine ⟨h.1.trans h'.1, fun i x z hx hz => ?_⟩
  have : i < ys.length := by
    have := (List.getElem?_eq_some_iff.1 hx).1
    have := h.1
    omega
  exact (h.2 i x _ hx (List.getElem?_eq_getElem this)).trans (h'.2 i _ z (List.getElem?_eq_getElem this) hz)

omit [DecidableEq F] in
theorem balanced_map {d : F} (hd : d ≠ 0) (δ : F) (xs : List F) :
    Balanced (δ * d) δ (xs.map fun x => x / d) xs := by
  refine ⟨by simp, fun i x y hx hy => ?_⟩
  simp only [List.getElem?_map, hy, Option.map_some, Option.some.injEq] at hx
  subst hx
  field_simp

omit [DecidableEq F] in
theorem eq_map_of_balanced {δ r : F} {xs ys : List F} (hδ : δ ≠ 0) (hr : r ≠ 0)
    (h : Balanced (r * δ) δ xs ys) : xs = ys.map fun x => x / r := by
  apply List.ext_getElem?
  intro i
  by_cases hi : i < ys.length
  · have hx : i < xs.length := by have := h.1; omega
    have := h.2 i _ _ (List.getElem?_eq_getElem hx) (List.getElem?_eq_getElem hi)
    simp only [List.getElem?_map, List.getElem?_eq_getElem hx, List.getElem?_eq_getElem hi, Option.map_some,
      Option.some.injEq]
    field_simp
    have h2 : (xs[i] * r - ys[i]) * δ = 0 := by linear_combination this
    rcases mul_eq_zero.1 h2 with h2 | h2
    · linear_combination h2
    · exact absurd h2 hδ
  · have hx : ¬ i < xs.length := by have := h.1; omega
    simp only [List.getElem?_map, List.getElem?_eq_none_iff.2 (by omega : xs.length ≤ i),
      List.getElem?_eq_none_iff.2 (by omega : ys.length ≤ i), Option.map_none]

/-! ## Inversion -/

theorem checkDeltas_none {ρ ρ' : Nat → F} {prev next : State F} (hh : prev.h.length = next.h.length)
    (hl : prev.l.length = next.l.length) : checkDeltas ρ ρ' prev next = none ↔
      prev.deltaG1 * next.deltaG2 = next.deltaG1 * prev.deltaG2 ∧
      dot ρ next.h * next.deltaG2 = dot ρ prev.h * prev.deltaG2 ∧
      dot ρ' next.l * next.deltaG2 = dot ρ' prev.l * prev.deltaG2 := by
  unfold checkDeltas sameRatio
  rw [merge_eq _ _ _ hh.symm, merge_eq _ _ _ hl.symm]
  by_cases h1 : prev.deltaG1 * next.deltaG2 = next.deltaG1 * prev.deltaG2 <;>
  by_cases h2 : dot ρ next.h * next.deltaG2 = dot ρ prev.h * prev.deltaG2 <;>
  by_cases h3 : dot ρ' next.l * next.deltaG2 = dot ρ' prev.l * prev.deltaG2 <;>
  simp [h1, h2, h3]

theorem checkRatio_none {C : Config Ch F} {ch : Ch} {prev next : State F} {π : RatioProof F} :
    checkRatio C ch prev next π = none ↔ π.ratio.1 * π.matching = π.ratio.2 * C.hash ch π.ratio ∧
      π.ratio.1 * next.deltaG2 = π.ratio.2 * prev.deltaG2 := by
  unfold checkRatio RatioProof.verify same sameRatio
  by_cases h1 : π.ratio.1 * π.matching = π.ratio.2 * C.hash ch π.ratio <;>
  by_cases h2 : π.ratio.1 * next.deltaG2 = π.ratio.2 * prev.deltaG2 <;>
  simp [h1, h2]

/-- Everything but `δ`, `h` and `l` is the same, and the lengths of `h` and `l`. -/
def SameRest (prev next : State F) : Prop :=
  prev.h.length = next.h.length ∧ prev.l.length = next.l.length ∧
  next = { prev with deltaG1 := next.deltaG1, deltaG2 := next.deltaG2, h := next.h, l := next.l }

omit [Field F] in
theorem checkInvariants_iff {prev next : State F} : checkInvariants prev next = true ↔ SameRest prev next := by
  unfold checkInvariants SameRest
  cases prev; cases next
  simp only [Bool.and_eq_true, decide_eq_true_eq, State.mk.injEq]
  constructor
  · rintro ⟨⟨⟨⟨⟨⟨⟨⟨⟨h1, h2⟩, rfl⟩, rfl⟩, rfl⟩, rfl⟩, rfl⟩, rfl⟩, rfl⟩, rfl⟩
    simp [h1, h2]
  · rintro ⟨h1, h2, rfl, rfl, rfl, rfl, rfl, _, _, rfl, rfl, rfl, _, _⟩
    simp [h1, h2]

omit [Field F] [DecidableEq F] in
theorem SameRest.refl (s : State F) : SameRest s s := ⟨rfl, rfl, rfl⟩

omit [Field F] [DecidableEq F] in
theorem SameRest.trans {a b c : State F} (h : SameRest a b) (h' : SameRest b c) : SameRest a c := by
  refine ⟨h.1.trans h'.1, h.2.1.trans h'.2.1, ?_⟩
  rw [h'.2.2, h.2.2]

/-- What `verify_transform` checks. -/
structure Accepted (C : Config Ch F) (ρ ρ' : Nat → F) (ch : Ch) (prev next : State F) (π : RatioProof F) : Prop where
  rest : SameRest prev next
  proof : π.ratio.1 * π.matching = π.ratio.2 * C.hash ch π.ratio
  delta2 : π.ratio.1 * next.deltaG2 = π.ratio.2 * prev.deltaG2
  delta1 : prev.deltaG1 * next.deltaG2 = next.deltaG1 * prev.deltaG2
  h : dot ρ next.h * next.deltaG2 = dot ρ prev.h * prev.deltaG2
  l : dot ρ' next.l * next.deltaG2 = dot ρ' prev.l * prev.deltaG2

theorem verifyTransform_ok {C : Config Ch F} {ρ ρ' : Nat → F} {ch : Ch} {prev next : State F} {π : RatioProof F}
    {x : Ch × State F} : verifyTransform C ρ ρ' ch prev next π = .ok x ↔
      x = (C.challenge ch prev next π, next) ∧ Accepted C ρ ρ' ch prev next π := by
  unfold verifyTransform
  by_cases hi : checkInvariants prev next = true
  · have hr := checkInvariants_iff.1 hi
    simp only [hi, Bool.not_true, Bool.false_eq_true, if_false]
    cases hc : checkRatio C ch prev next π with
    | some e =>
      simp only [reduceCtorEq, false_iff, not_and]
      intro _ ha
      rw [checkRatio_none.2 ⟨ha.proof, ha.delta2⟩] at hc
      cases hc
    | none =>
      obtain ⟨h1, h2⟩ := checkRatio_none.1 hc
      cases hd : checkDeltas ρ ρ' prev next with
      | some e =>
        simp only [reduceCtorEq, false_iff, not_and]
        intro _ ha
        rw [(checkDeltas_none hr.1 hr.2.1).2 ⟨ha.delta1, ha.h, ha.l⟩] at hd
        cases hd
      | none =>
        obtain ⟨h3, h4, h5⟩ := (checkDeltas_none hr.1 hr.2.1).1 hd
        simp only [Except.ok.injEq]
        constructor
        · rintro rfl
          exact ⟨rfl, hr, h1, h2, h3, h4, h5⟩
        · rintro ⟨rfl, _⟩
          rfl
  · simp only [hi, Bool.not_false, if_true, reduceCtorEq, false_iff, not_and]
    intro _ ha
    exact hi (checkInvariants_iff.2 ha.rest)

omit [DecidableEq F] in
theorem rescale_rest (s : State F) (d : F) : SameRest s (s.rescale d) := ⟨by simp [State.rescale], by simp [State.rescale], rfl⟩

omit [DecidableEq F] in
theorem rescale_rescale (s : State F) (d e : F) : (s.rescale d).rescale e = s.rescale (d * e) := by
  simp only [State.rescale, List.map_map, State.mk.injEq, true_and, and_true]
  refine ⟨by ring, by ring, ?_, ?_⟩ <;>
  · apply List.map_congr_left
    intro x _
    simp only [Function.comp_apply, div_div]

omit [DecidableEq F] in
theorem rescale_one (s : State F) : s.rescale 1 = s := by
  simp [State.rescale]

/-! ## C74: honest contributions -/

/-- A contribution is made unless one of the random numbers, or the hash, is zero; it multiplies `δ` by the
scalar. -/
theorem c74_made (hash : HashToGroup Ch F) (ch : Ch) (s : State F) (δ g : F) :
    (contribute hash ch s δ g = none ↔ δ = 0 ∨ g = 0 ∨ hash ch (g, g * δ) = 0) ∧
    ∀ n π, contribute hash ch s δ g = some (n, π) → n = s.rescale δ := by
  unfold contribute RatioProof.prove
  by_cases h1 : δ = 0
  · simp [h1]
  · by_cases h2 : g = 0
    · simp [h1, h2]
    · by_cases h3 : hash ch (g, g * δ) = 0
      · simp [h1, h2, h3]
      · simp only [h1, h2, h3, mul_eq_zero, or_self, if_false, Option.map_some, reduceCtorEq, false_iff,
          not_false_eq_true, Option.some.injEq, Prod.mk.injEq, true_and]
        rintro n π ⟨rfl, _⟩
        simp only [State.rescale, scaleAll, div_eq_mul_inv]

theorem contribute_some {hash : HashToGroup Ch F} {ch : Ch} {s : State F} {δ g : F} {n : State F} {π : RatioProof F}
    (h : contribute hash ch s δ g = some (n, π)) : δ ≠ 0 ∧ g ≠ 0 ∧ hash ch (g, g * δ) ≠ 0 ∧ n = s.rescale δ ∧
      π = ⟨(g, g * δ), hash ch (g, g * δ) * δ⟩ := by
  have hn : ¬ (δ = 0 ∨ g = 0 ∨ hash ch (g, g * δ) = 0) := by
    intro hh
    rw [(c74_made hash ch s δ g).1.2 hh] at h
    cases h
  obtain ⟨h1, h2, h3⟩ : δ ≠ 0 ∧ g ≠ 0 ∧ hash ch (g, g * δ) ≠ 0 := by simpa [not_or] using hn
  refine ⟨h1, h2, h3, (c74_made hash ch s δ g).2 n π h, ?_⟩
  unfold contribute RatioProof.prove at h
  simp only [h1, h2, h3, mul_eq_zero, or_self, if_false, Option.map_some, Option.some.injEq, Prod.mk.injEq] at h
  exact h.2.symm

omit [DecidableEq F] in
theorem accepted_rescale (C : Config Ch F) (ρ ρ' : Nat → F) (ch : Ch) (s : State F) (D t : F) (hD : D ≠ 0)
    (ht : t ≠ 0) (π : RatioProof F) (hp : π.ratio.1 * π.matching = π.ratio.2 * C.hash ch π.ratio)
    (hd : π.ratio.1 * (s.deltaG2 * t) = π.ratio.2 * (s.deltaG2 * D)) :
    Accepted C ρ ρ' ch (s.rescale D) (s.rescale t) π where
  rest := ⟨by simp [State.rescale], by simp [State.rescale], rfl⟩
  proof := hp
  delta2 := hd
  delta1 := by simp only [State.rescale]; ring
  h := by simp only [State.rescale, dot_div]; field_simp
  l := by simp only [State.rescale, dot_div]; field_simp

/-- An honest contribution is accepted, whatever coefficients the verifier draws, and becomes the new state. -/
theorem c74_accepted (C : Config Ch F) (ch : Ch) (s : State F) (δ g : F) (n : State F) (π : RatioProof F)
    (h : contribute C.hash ch s δ g = some (n, π)) (ρ ρ' : Nat → F) :
    verifyTransform C ρ ρ' ch s n π = .ok (C.challenge ch s n π, n) := by
  obtain ⟨h1, h2, h3, rfl, rfl⟩ := contribute_some h
  refine verifyTransform_ok.2 ⟨rfl, ?_⟩
  have := accepted_rescale C ρ ρ' ch s 1 δ one_ne_zero h1 ⟨(g, g * δ), C.hash ch (g, g * δ) * δ⟩
    (by simp only; ring) (by simp only; ring)
  rwa [rescale_one] at this

/-- A ceremony of honest contributions with the given secrets and random points, each to the state and the
challenge that the previous one left. -/
def ceremony (C : Config Ch F) (ch : Ch) (s : State F) : List (F × F) → Option (List (State F × RatioProof F))
  | [] => some []
  | (δ, g) :: rest =>
    match contribute C.hash ch s δ g with
    | none => none
    | some (n, π) => (ceremony C (C.challenge ch s n π) n rest).map ((n, π) :: ·)

/-- The secret of a ceremony. -/
def secret (cs : List (F × F)) : F := (cs.map Prod.fst).foldr (· * ·) 1

/-- The challenge after some rounds. -/
def challengeAfter (C : Config Ch F) (ch : Ch) (s : State F) : List (State F × RatioProof F) → Ch
  | [] => ch
  | (n, π) :: rest => challengeAfter C (C.challenge ch s n π) n rest

theorem ceremony_spec (C : Config Ch F) (ch : Ch) (s : State F) (cs : List (F × F))
    (rounds : List (State F × RatioProof F)) (h : ceremony C ch s cs = some rounds) :
    secret cs ≠ 0 ∧ (∀ ρ ρ', verifySteps C ρ ρ' ch s rounds = .ok (challengeAfter C ch s rounds, s.rescale (secret cs))) ∧
    ratioLoop C ch s rounds = .ok (s.rescale (secret cs)) := by
  induction cs generalizing ch s rounds with
  | nil =>
    cases h
    simp [secret, rescale_one, verifySteps, challengeAfter, ratioLoop]
  | cons c cs ih =>
    obtain ⟨δ, g⟩ := c
    simp only [ceremony] at h
    cases hc : contribute C.hash ch s δ g with
    | none => simp [hc] at h
    | some x =>
      obtain ⟨n, π⟩ := x
      simp only [hc, Option.map_eq_some_iff] at h
      obtain ⟨rest, hr, rfl⟩ := h
      obtain ⟨h1, h2, h3⟩ := ih _ _ _ hr
      obtain ⟨hδ, _, _, hn, _⟩ := contribute_some hc
      have hs : secret ((δ, g) :: cs) = δ * secret cs := rfl
      refine ⟨by rw [hs]; exact mul_ne_zero hδ h1, fun ρ ρ' => ?_, ?_⟩
      · simp only [verifySteps, c74_accepted C ch s δ g n π hc, challengeAfter, h2]
        rw [hs, hn, rescale_rescale]
      · have ha := (verifyTransform_ok.1 (c74_accepted C ch s δ g n π hc (fun _ => 0) fun _ => 0)).2
        simp only [ratioLoop, checkRatio_none.2 ⟨ha.proof, ha.delta2⟩, h3]
        rw [hs, hn, rescale_rescale]

theorem verifyBatch_ok {C : Config Ch F} {ρ ρ' : Nat → F} {ch : Ch} {s : State F}
    {rounds : List (State F × RatioProof F)} : verifyBatch C ρ ρ' ch s rounds = .ok () ↔
      ∃ last, ratioLoop C ch s rounds = .ok last ∧ SameRest s last ∧
        s.deltaG1 * last.deltaG2 = last.deltaG1 * s.deltaG2 ∧
        dot ρ last.h * last.deltaG2 = dot ρ s.h * s.deltaG2 ∧
        dot ρ' last.l * last.deltaG2 = dot ρ' s.l * s.deltaG2 := by
  unfold verifyBatch
  cases hl : ratioLoop C ch s rounds with
  | error e => simp
  | ok last =>
    by_cases hi : checkInvariants s last = true
    · have hr := checkInvariants_iff.1 hi
      simp only [hi, Bool.not_true, Bool.false_eq_true, if_false, Except.ok.injEq, exists_eq_left']
      cases hd : checkDeltas ρ ρ' s last with
      | some e =>
        simp only [reduceCtorEq, false_iff]
        rintro ⟨_, h⟩
        rw [(checkDeltas_none hr.1 hr.2.1).2 h] at hd
        cases hd
      | none => simp only [true_iff]; exact ⟨hr, (checkDeltas_none hr.1 hr.2.1).1 hd⟩
    · simp only [hi, Bool.not_false, if_true, reduceCtorEq, false_iff, not_exists, not_and]
      rintro _ h hr
      cases h
      exact absurd (checkInvariants_iff.2 hr) hi

/-- A ceremony of honest contributions is accepted step by step and as a whole, and ends with the product of the
secrets. -/
theorem c74_ceremony (C : Config Ch F) (ch : Ch) (s : State F) (cs : List (F × F))
    (rounds : List (State F × RatioProof F)) (h : ceremony C ch s cs = some rounds) :
    (∀ ρ ρ', ∃ ch', verifySteps C ρ ρ' ch s rounds = .ok (ch', s.rescale (secret cs))) ∧
    ∀ ρ ρ', verifyBatch C ρ ρ' ch s rounds = .ok () := by
  obtain ⟨h1, h2, h3⟩ := ceremony_spec C ch s cs rounds h
  refine ⟨fun ρ ρ' => ⟨_, h2 ρ ρ'⟩, fun ρ ρ' => verifyBatch_ok.2 ⟨_, h3, rescale_rest s _, ?_, ?_, ?_⟩⟩
  · simp only [State.rescale]; ring
  · simp only [State.rescale, dot_div]; field_simp
  · simp only [State.rescale, dot_div]; field_simp

/-! ## C75: accepted contributions -/

/-- When the ratio of the proof and the challenge point are not the identity, an accepted contribution multiplied
`δ` by exactly one factor, the one that the ratio proof is about. -/
theorem c75_factor_partial (C : Config Ch F) (ρ ρ' : Nat → F) (ch : Ch) (prev next : State F) (π : RatioProof F)
    (x : Ch × State F) (h : verifyTransform C ρ ρ' ch prev next π = .ok x) (h0 : π.ratio.1 ≠ 0)
    (hc : C.hash ch π.ratio ≠ 0) :
    ∃ r, π.ratio.2 = r * π.ratio.1 ∧ π.matching = r * C.hash ch π.ratio ∧ next.deltaG2 = r * prev.deltaG2 ∧
      (prev.deltaG2 ≠ 0 → next.deltaG1 = r * prev.deltaG1) ∧
      (∀ r', π.matching = r' * C.hash ch π.ratio → r' = r) ∧ x.2 = next ∧ SameRest prev next := by
  obtain ⟨hx, ha⟩ := verifyTransform_ok.1 h
  have hd2 : next.deltaG2 = π.ratio.2 / π.ratio.1 * prev.deltaG2 := by
    field_simp
    linear_combination ha.delta2
  refine ⟨π.ratio.2 / π.ratio.1, by field_simp, ?_, hd2, fun hp => ?_, fun r' hr' => ?_, by rw [hx], ha.rest⟩
  · field_simp
    linear_combination ha.proof
  · have := ha.delta1
    rw [hd2] at this
    have h2 : (next.deltaG1 - π.ratio.2 / π.ratio.1 * prev.deltaG1) * prev.deltaG2 = 0 := by
      linear_combination -this
    rcases mul_eq_zero.1 h2 with h2 | h2
    · linear_combination h2
    · exact absurd h2 hp
  · have hp := ha.proof
    rw [hr'] at hp
    have h2 : (π.ratio.1 * r' - π.ratio.2) * C.hash ch π.ratio = 0 := by linear_combination hp
    rcases mul_eq_zero.1 h2 with h2 | h2
    · field_simp
      linear_combination h2
    · exact absurd h2 hc

/-- A wrong element of a query is accepted for at most one value of its coefficient, whatever the other
coefficients are. -/
theorem c75_random_check (C : Config Ch F) (ch : Ch) (prev next : State F) (π : RatioProof F) (i : Nat)
    (hbad : ∃ x y, (next.h[i]? = some x ∧ prev.h[i]? = some y ∨ next.l[i]? = some x ∧ prev.l[i]? = some y) ∧
      x * next.deltaG2 ≠ y * prev.deltaG2) (ρ σ : Nat → F) (hρ : ∀ j, j ≠ i → ρ j = σ j)
    (h : ∃ x, verifyTransform C ρ ρ ch prev next π = .ok x) (h' : ∃ x, verifyTransform C σ σ ch prev next π = .ok x) :
    ρ i = σ i := by
  obtain ⟨_, h⟩ := h
  obtain ⟨_, h'⟩ := h'
  have ha := (verifyTransform_ok.1 h).2
  have hb := (verifyTransform_ok.1 h').2
  obtain ⟨x, y, hxy, hne⟩ := hbad
  have key : (ρ i - σ i) * (x * next.deltaG2 - y * prev.deltaG2) = 0 := by
    rcases hxy with ⟨hx, hy⟩ | ⟨hx, hy⟩
    · linear_combination ha.h - hb.h - next.deltaG2 * dot_update ρ σ _ i x hx hρ +
        prev.deltaG2 * dot_update ρ σ _ i y hy hρ
    · linear_combination ha.l - hb.l - next.deltaG2 * dot_update ρ σ _ i x hx hρ +
        prev.deltaG2 * dot_update ρ σ _ i y hy hρ
  rcases mul_eq_zero.1 key with hk | hk
  · linear_combination hk
  · exact absurd (by linear_combination hk) hne

/-- A contribution that is accepted for all coefficients multiplied `δ` by a nonzero factor and changed nothing
else, provided that the ratio, the challenge point, the previous `δ` and some query element are not the
identity. -/
theorem c75_sound_partial (C : Config Ch F) (ch : Ch) (prev next : State F) (π : RatioProof F)
    (h : ∀ ρ ρ', ∃ x, verifyTransform C ρ ρ' ch prev next π = .ok x) (h0 : π.ratio.1 ≠ 0)
    (hc : C.hash ch π.ratio ≠ 0) (hδ : prev.deltaG2 ≠ 0) (hq : ∃ x ∈ prev.h ++ prev.l, x ≠ 0) :
    ∃ r, r ≠ 0 ∧ π.ratio.2 = r * π.ratio.1 ∧ π.matching = r * C.hash ch π.ratio ∧ next = prev.rescale r := by
  obtain ⟨x, hx⟩ := h (fun _ => 0) fun _ => 0
  obtain ⟨r, h1, h2, h3, h4, _, _, hr⟩ := c75_factor_partial C _ _ ch prev next π x hx h0 hc
  have acc : ∀ ρ ρ', Accepted C ρ ρ' ch prev next π := fun ρ ρ' => by
    obtain ⟨_, h⟩ := h ρ ρ'
    exact (verifyTransform_ok.1 h).2
  have bh : Balanced (r * prev.deltaG2) prev.deltaG2 next.h prev.h := by
    rw [← h3]
    exact balanced_of_dot _ _ _ _ hr.1.symm fun ρ => (acc ρ ρ).h
  have bl : Balanced (r * prev.deltaG2) prev.deltaG2 next.l prev.l := by
    rw [← h3]
    exact balanced_of_dot _ _ _ _ hr.2.1.symm fun ρ => (acc ρ ρ).l
  have hr0 : r ≠ 0 := by
    intro h0
    obtain ⟨y, hy, hy0⟩ := hq
    have aux : ∀ xs ys : List F, Balanced (r * prev.deltaG2) prev.deltaG2 xs ys → y ∈ ys → False := by
      intro xs ys hb hm
      obtain ⟨i, hi⟩ := List.mem_iff_getElem?.1 hm
      have hil := (List.getElem?_eq_some_iff.1 hi).1
      have hx : i < xs.length := by have := hb.1; omega
      have := hb.2 i _ y (List.getElem?_eq_getElem hx) hi
      rw [h0] at this
      have : y * prev.deltaG2 = 0 := by linear_combination -this
      rcases mul_eq_zero.1 this with h | h
      · exact hy0 h
      · exact hδ h
    rcases List.mem_append.1 hy with hy | hy
    · exact aux _ _ bh hy
    · exact aux _ _ bl hy
  refine ⟨r, hr0, h1, h2, ?_⟩
  rw [hr.2.2, h4 hδ, h3, eq_map_of_balanced hδ hr0 bh, eq_map_of_balanced hδ hr0 bl]
  simp only [State.rescale, mul_comm]

/-- The proof that proves nothing: the identity as ratio, any point `m` as matching point. -/
def zeroProof (m : F) : RatioProof F := ⟨(0, 0), m⟩

/-- The claim is false. After any ceremony of honest contributions, anyone can submit the initial state rescaled by
a secret `t` of their own choice, with a proof that is the same for all states and challenges. It is accepted, and
the contributions of everybody else are gone: the resulting state depends on `t` and the initial state only. -/
theorem c75_violated (C : Config Ch F) (ch : Ch) (s : State F) (cs : List (F × F))
    (rounds : List (State F × RatioProof F)) (h : ceremony C ch s cs = some rounds) (t : F) (ht : t ≠ 0) (m : F) :
    (∀ ρ ρ', ∃ ch', verifySteps C ρ ρ' ch s (rounds ++ [(s.rescale t, zeroProof m)]) = .ok (ch', s.rescale t)) ∧
    ∀ ρ ρ', verifyBatch C ρ ρ' ch s (rounds ++ [(s.rescale t, zeroProof m)]) = .ok () := by
  obtain ⟨h1, h2, h3⟩ := ceremony_spec C ch s cs rounds h
  have hp : (zeroProof m : RatioProof F).ratio.1 * (zeroProof m : RatioProof F).matching =
      (zeroProof m : RatioProof F).ratio.2 * C.hash (challengeAfter C ch s rounds) (zeroProof m : RatioProof F).ratio := by
    simp [zeroProof]
  have hd : (zeroProof m : RatioProof F).ratio.1 * (s.deltaG2 * t) =
      (zeroProof m : RatioProof F).ratio.2 * (s.deltaG2 * secret cs) := by
    simp [zeroProof]
  have stepsAppend : ∀ (rs : List (State F × RatioProof F)) (ρ ρ' : Nat → Nat → F) (ch : Ch) (s s' : State F)
      (ch' : Ch) (r : State F × RatioProof F), verifySteps C ρ ρ' ch s rs = .ok (ch', s') →
      verifySteps C ρ ρ' ch s (rs ++ [r]) =
        verifyTransform C (ρ rs.length) (ρ' rs.length) ch' s' r.1 r.2 := by
    intro rs
    induction rs with
    | nil =>
      intro ρ ρ' ch s s' ch' r h
      cases h
      obtain ⟨n, π⟩ := r
      simp only [List.nil_append, verifySteps, List.length_nil]
      cases verifyTransform C (ρ 0) (ρ' 0) ch s n π with
      | error => rfl
      | ok x => rfl
    | cons x rs ih =>
      intro ρ ρ' ch s s' ch' r h
      obtain ⟨n, π⟩ := x
      simp only [verifySteps, List.cons_append] at h ⊢
      cases hv : verifyTransform C (ρ 0) (ρ' 0) ch s n π with
      | error e => simp [hv] at h
      | ok y =>
        simp only [hv] at h
        exact ih _ _ _ _ _ _ r h
  have loopAppend : ∀ (rs : List (State F × RatioProof F)) (ch : Ch) (s s' : State F) (r : State F × RatioProof F),
      ratioLoop C ch s rs = .ok s' → checkRatio C (challengeAfter C ch s rs) s' r.1 r.2 = none →
      ratioLoop C ch s (rs ++ [r]) = .ok r.1 := by
    intro rs
    induction rs with
    | nil =>
      intro ch s s' r h h'
      cases h
      simp only [challengeAfter] at h'
      simp only [List.nil_append, ratioLoop, h']
    | cons x rs ih =>
      intro ch s s' r h h'
      obtain ⟨n, π⟩ := x
      simp only [ratioLoop, List.cons_append, challengeAfter] at h h' ⊢
      cases hv : checkRatio C ch s n π with
      | some e => simp [hv] at h
      | none =>
        simp only [hv] at h
        exact ih _ _ _ r h h'
  refine ⟨fun ρ ρ' => ⟨C.challenge (challengeAfter C ch s rounds) (s.rescale (secret cs)) (s.rescale t) (zeroProof m), ?_⟩,
    fun ρ ρ' => verifyBatch_ok.2 ⟨s.rescale t, ?_, rescale_rest s t, ?_, ?_, ?_⟩⟩
  · rw [stepsAppend _ _ _ _ _ _ _ _ (h2 ρ ρ')]
    exact verifyTransform_ok.2 ⟨rfl, accepted_rescale C _ _ _ s _ t h1 ht (zeroProof m) hp hd⟩
  · exact loopAppend rounds ch s _ (s.rescale t, zeroProof m) h3 (checkRatio_none.2 ⟨hp, hd⟩)
  · simp only [State.rescale]; ring
  · simp only [State.rescale, dot_div]; field_simp
  · simp only [State.rescale, dot_div]; field_simp

/-! ## C76: verification of a whole ceremony -/

/-- The states of a transcript, with the first one, have a `δ` that is not the identity. -/
def Nonzero (s : State F) (rounds : List (State F × RatioProof F)) : Prop :=
  s.deltaG2 ≠ 0 ∧ ∀ r ∈ rounds, r.1.deltaG2 ≠ 0

/-- What is accepted step by step for all coefficients is accepted as a whole for all coefficients. -/
theorem c76_steps_batch (C : Config Ch F) (ch : Ch) (s : State F) (rounds : List (State F × RatioProof F))
    (h : ∀ ρ ρ', ∃ x, verifySteps C ρ ρ' ch s rounds = .ok x) (hn : Nonzero s rounds) (ρ ρ' : Nat → F) :
    verifyBatch C ρ ρ' ch s rounds = .ok () := by
  have main : ∀ (rs : List (State F × RatioProof F)) (ch : Ch) (s : State F),
      (∀ ρ ρ', ∃ x, verifySteps C ρ ρ' ch s rs = .ok x) → Nonzero s rs →
      ∃ last, ratioLoop C ch s rs = .ok last ∧ SameRest s last ∧
        s.deltaG1 * last.deltaG2 = last.deltaG1 * s.deltaG2 ∧
        Balanced last.deltaG2 s.deltaG2 last.h s.h ∧ Balanced last.deltaG2 s.deltaG2 last.l s.l := by
    intro rs
    induction rs with
    | nil =>
      intro ch s _ _
      refine ⟨s, rfl, SameRest.refl s, rfl, ?_, ?_⟩ <;>
      · refine ⟨rfl, fun i x y hx hy => ?_⟩
        rw [hx] at hy
        cases hy
        rfl
    | cons r rs ih =>
      intro ch s h hn
      obtain ⟨n, π⟩ := r
      have acc : ∀ ρ ρ', Accepted C ρ ρ' ch s n π := by
        intro ρ ρ'
        obtain ⟨x, hx⟩ := h (fun _ => ρ) fun _ => ρ'
        simp only [verifySteps] at hx
        cases hv : verifyTransform C ρ ρ' ch s n π with
        | error e => simp [hv] at hx
        | ok y => exact (verifyTransform_ok.1 hv).2
      have a0 := acc (fun _ => 0) fun _ => 0
      obtain ⟨last, h1, h2, h3, h4, h5⟩ := ih (C.challenge ch s n π) n (by
        intro ρ ρ'
        obtain ⟨x, hx⟩ := h (fun i => match i with | 0 => fun _ => 0 | i + 1 => ρ i)
          (fun i => match i with | 0 => fun _ => 0 | i + 1 => ρ' i)
        simp only [verifySteps] at hx
        rw [(verifyTransform_ok.2 ⟨rfl, a0⟩ : verifyTransform C (fun _ => 0) (fun _ => 0) ch s n π = .ok _)] at hx
        exact ⟨x, hx⟩) ⟨hn.2 _ List.mem_cons_self, fun r hr => hn.2 r (List.mem_cons_of_mem _ hr)⟩
      refine ⟨last, by simp only [ratioLoop, checkRatio_none.2 ⟨a0.proof, a0.delta2⟩, h1], a0.rest.trans h2, ?_,
        h4.trans (balanced_of_dot _ _ _ _ a0.rest.1.symm fun ρ => (acc ρ ρ).h),
        h5.trans (balanced_of_dot _ _ _ _ a0.rest.2.1.symm fun ρ => (acc ρ ρ).l)⟩
      have hnz : n.deltaG2 ≠ 0 := hn.2 _ List.mem_cons_self
      have key : (s.deltaG1 * last.deltaG2 - last.deltaG1 * s.deltaG2) * n.deltaG2 = 0 := by
        linear_combination last.deltaG2 * a0.delta1 + s.deltaG2 * h3
      rcases mul_eq_zero.1 key with hk | hk
      · linear_combination hk
      · exact absurd hk hnz
  obtain ⟨last, h1, h2, h3, h4, h5⟩ := main rounds ch s h hn
  exact verifyBatch_ok.2 ⟨last, h1, h2, h3, dot_of_balanced h4 ρ, dot_of_balanced h5 ρ'⟩

/-- The ratio proofs of a transcript have ratios and challenge points that are not the identity. -/
def GoodProofs (C : Config Ch F) (ch : Ch) (s : State F) : List (State F × RatioProof F) → Prop
  | [] => True
  | (n, π) :: rest => π.ratio.1 ≠ 0 ∧ C.hash ch π.ratio ≠ 0 ∧ GoodProofs C (C.challenge ch s n π) n rest

/-- The product of the factors that the ratio proofs are about. -/
def factors (rounds : List (State F × RatioProof F)) : F :=
  (rounds.map fun r => r.2.ratio.2 / r.2.ratio.1).foldr (· * ·) 1

/-- A transcript that is accepted as a whole for all coefficients ends with the initial state rescaled by the
product of the proven factors, under the same conditions as for one step. -/
theorem c76_batch_sound_partial (C : Config Ch F) (ch : Ch) (s : State F) (rounds : List (State F × RatioProof F))
    (h : ∀ ρ ρ', verifyBatch C ρ ρ' ch s rounds = .ok ()) (hg : GoodProofs C ch s rounds) (hδ : s.deltaG2 ≠ 0)
    (hq : ∃ x ∈ s.h ++ s.l, x ≠ 0) :
    factors rounds ≠ 0 ∧ ((rounds.map Prod.fst).getLast?.getD s) = s.rescale (factors rounds) := by
  have loop : ∀ (rs : List (State F × RatioProof F)) (ch : Ch) (s last : State F),
      ratioLoop C ch s rs = .ok last → GoodProofs C ch s rs →
      last = (rs.map Prod.fst).getLast?.getD s ∧ last.deltaG2 = factors rs * s.deltaG2 := by
    intro rs
    induction rs with
    | nil =>
      intro ch s last h _
      cases h
      simp [factors]
    | cons r rs ih =>
      intro ch s last h hg
      obtain ⟨n, π⟩ := r
      simp only [ratioLoop] at h
      cases hv : checkRatio C ch s n π with
      | some e => simp [hv] at h
      | none =>
        simp only [hv] at h
        obtain ⟨h1, h2⟩ := ih _ _ _ h hg.2.2
        have hd := (checkRatio_none.1 hv).2
        have h0 := hg.1
        have hn : n.deltaG2 = π.ratio.2 / π.ratio.1 * s.deltaG2 := by
          field_simp
          linear_combination hd
        refine ⟨?_, ?_⟩
        · rw [h1]
          simp only [List.map_cons, List.getLast?_cons, Option.getD_some]
        · rw [h2, hn]
          simp only [factors, List.map_cons, List.foldr_cons]
          ring
  obtain ⟨last, hl, hr, hd, _⟩ := verifyBatch_ok.1 (h (fun _ => 0) fun _ => 0)
  obtain ⟨hlast, hd2⟩ := loop rounds ch s last hl hg
  have bal : ∀ ρ, dot ρ last.h * last.deltaG2 = dot ρ s.h * s.deltaG2 ∧
      dot ρ last.l * last.deltaG2 = dot ρ s.l * s.deltaG2 := by
    intro ρ
    obtain ⟨last', hl', _, _, h4, h5⟩ := verifyBatch_ok.1 (h ρ ρ)
    rw [hl] at hl'
    cases hl'
    exact ⟨h4, h5⟩
  have bh : Balanced (factors rounds * s.deltaG2) s.deltaG2 last.h s.h := by
    rw [← hd2]
    exact balanced_of_dot _ _ _ _ hr.1.symm fun ρ => (bal ρ).1
  have bl : Balanced (factors rounds * s.deltaG2) s.deltaG2 last.l s.l := by
    rw [← hd2]
    exact balanced_of_dot _ _ _ _ hr.2.1.symm fun ρ => (bal ρ).2
  have hr0 : factors rounds ≠ 0 := by
    intro h0
    obtain ⟨y, hy, hy0⟩ := hq
    have aux : ∀ xs ys : List F, Balanced (factors rounds * s.deltaG2) s.deltaG2 xs ys → y ∈ ys → False := by
      intro xs ys hb hm
      obtain ⟨i, hi⟩ := List.mem_iff_getElem?.1 hm
      have hil := (List.getElem?_eq_some_iff.1 hi).1
      have hx : i < xs.length := by have := hb.1; omega
      have := hb.2 i _ y (List.getElem?_eq_getElem hx) hi
      rw [h0] at this
      have : y * s.deltaG2 = 0 := by linear_combination -this
      rcases mul_eq_zero.1 this with h | h
      · exact hy0 h
      · exact hδ h
    rcases List.mem_append.1 hy with hy | hy
    · exact aux _ _ bh hy
    · exact aux _ _ bl hy
  refine ⟨hr0, ?_⟩
  have hd1 : last.deltaG1 = factors rounds * s.deltaG1 := by
    rw [hd2] at hd
    have : (last.deltaG1 - factors rounds * s.deltaG1) * s.deltaG2 = 0 := by linear_combination -hd
    rcases mul_eq_zero.1 this with h | h
    · linear_combination h
    · exact absurd h hδ
  rw [← hlast, hr.2.2, hd1, hd2, eq_map_of_balanced hδ hr0 bh, eq_map_of_balanced hδ hr0 bl]
  simp only [State.rescale, mul_comm]

/-- The whole-ceremony check does not look at the states in between: the first contributor may publish any state
`mid` with the right `δ` in the second group, and everything is accepted when the last contributor publishes the
rescaled initial state. Step by step verification rejects it if `mid` is wrong. -/
theorem c76_intermediate_violated (C : Config Ch F) (ch : Ch) (s mid : State F) (δ δ' g g' : F)
    (π π' : RatioProof F) (hδ : δ ≠ 0) (hδ' : δ' ≠ 0) (hp : RatioProof.prove C.hash ch δ g = some π)
    (hp' : RatioProof.prove C.hash (C.challenge ch s mid π) δ' g' = some π')
    (hm : mid.deltaG2 = s.deltaG2 * δ) :
    (∀ ρ ρ', verifyBatch C ρ ρ' ch s [(mid, π), (s.rescale (δ * δ'), π')] = .ok ()) ∧
    (¬ SameRest s mid → ∀ ρ ρ', verifySteps C ρ ρ' ch s [(mid, π), (s.rescale (δ * δ'), π')] = .error .invariant) := by
  have prove_some : ∀ (ch : Ch) (δ g : F) (π : RatioProof F), δ ≠ 0 → RatioProof.prove C.hash ch δ g = some π →
      π = ⟨(g, g * δ), C.hash ch (g, g * δ) * δ⟩ := by
    intro ch δ g π hδ hp
    have : contribute C.hash ch s δ g = some (s.rescale δ, π) := by
      simp only [contribute, hδ, if_false, hp, Option.map_some, State.rescale, scaleAll, div_eq_mul_inv]
    exact (contribute_some this).2.2.2.2
  have e1 := prove_some _ _ _ _ hδ hp
  have e2 := prove_some _ _ _ _ hδ' hp'
  have r1 : checkRatio C ch s mid π = none := by
    rw [checkRatio_none, e1, hm]
    constructor <;> simp only <;> ring
  have r2 : checkRatio C (C.challenge ch s mid π) mid (s.rescale (δ * δ')) π' = none := by
    rw [checkRatio_none, e2, hm]
    constructor <;> simp only [State.rescale] <;> ring
  refine ⟨fun ρ ρ' => verifyBatch_ok.2 ⟨s.rescale (δ * δ'), by simp only [ratioLoop, r1, r2], rescale_rest s _, ?_, ?_, ?_⟩,
    fun hn ρ ρ' => ?_⟩
  · simp only [State.rescale]; ring
  · simp only [State.rescale, dot_div]; field_simp
  · simp only [State.rescale, dot_div]; field_simp
  · have : checkInvariants s mid = false := by
      cases hc : checkInvariants s mid with
      | false => rfl
      | true => exact absurd (checkInvariants_iff.1 hc) hn
    simp only [verifySteps, verifyTransform, this, Bool.not_false, if_true]

/-! ## Examples -/

/-- A configuration over the rational numbers. -/
def exC : Config Nat Rat where
  hash ch r := ch + 1 + r.1 ^ 2
  challenge ch _ _ _ := ch + 1

def exS : State Rat := ⟨2, 3, 3, 1, [7], 1, 1, [1, 2], [3, 4], [3, 4], [5, 6, 7], [8, 9]⟩

-- two honest contributions, with the secrets 2 and 3
example : (ceremony exC 0 exS [(2, 5), (3, 7)]).isSome ∧ secret [((2 : Rat), (5 : Rat)), (3, 7)] = 6 := by
  constructor <;> decide +kernel

-- a third one replaces them by the secret 10
example : (match ceremony exC 0 exS [(2, 5), (3, 7)] with
    | none => false
    | some rounds => match verifySteps exC (fun _ _ => 4) (fun _ _ => 9) 0 exS (rounds ++ [(exS.rescale 10, zeroProof 1)]) with
      | .ok (_, s) => decide (s = exS.rescale 10)
      | .error _ => false) = true := by decide +kernel

-- a contribution with a wrong element in a query is rejected for these coefficients
example : (match contribute exC.hash 0 exS 2 5 with
    | none => false
    | some (n, π) => match verifyTransform exC (fun _ => 1) (fun _ => 1) 0 exS { n with h := [5 / 2, 3, 4] } π with
      | .error e => decide (e = .inconsistentH)
      | .ok _ => false) = true := by decide +kernel

-- the hypotheses of `c75_sound_partial` are met by an honest contribution
example : ∃ n π, contribute exC.hash 0 exS 2 5 = some (n, π) ∧ π.ratio.1 ≠ 0 ∧ exC.hash 0 π.ratio ≠ 0 ∧
    exS.deltaG2 ≠ 0 ∧ ∃ x ∈ exS.h ++ exS.l, x ≠ 0 := by
  refine ⟨exS.rescale 2, ⟨(5, 10), 52⟩, by decide +kernel, by decide +kernel, by decide +kernel, by decide +kernel,
    5, by decide +kernel, by decide +kernel⟩

-- the hypotheses of `c76_intermediate_violated` are met by a state whose queries were emptied
example : ∃ π π' : RatioProof Rat, RatioProof.prove exC.hash 0 2 5 = some π ∧
    RatioProof.prove exC.hash (exC.challenge 0 exS { exS with deltaG2 := 2, h := [], a := [] } π) 3 7 = some π' ∧
    ¬ SameRest exS { exS with deltaG2 := 2, h := [], a := [] } := by
  refine ⟨⟨(5, 10), 52⟩, ⟨(7, 21), 153⟩, by decide +kernel, by decide +kernel, ?_⟩
  rw [← checkInvariants_iff]
  decide +kernel

end Verif.Setup
