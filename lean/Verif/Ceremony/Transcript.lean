/-!
# C46: transcripts

`Verify::verify_transform_all` and `Transcript::verify`, and the `Parallel` wrapper, all of
/repo/manta-trusted-setup/src/mpc.rs.
-/

namespace Verif.Ceremony

/-- The trait `Verify`, mpc.rs:112-139. -/
structure Verifier (St Ch Pf Er : Type) where
  challenge : Ch → St → St → Pf → Ch
  verifyTransform : Ch → St → St → Pf → Except Er St

section All

variable {St Ch Pf Er : Type}

/-- `Verify::verify_transform_all`, mpc.rs:141-158. The items of the iterator are results: reading a
round may fail. -/
def Verifier.verifyAll (v : Verifier St Ch Pf Er) : Ch → St → List (Except Er (St × Pf)) →
    Except Er (Ch × St)
  | c, s, [] => .ok (c, s)
  | _, _, .error e :: _ => .error e
  | c, s, .ok (n, p) :: rest =>
    match v.verifyTransform c s n p with
    | .error e => .error e
    | .ok s' => v.verifyAll (v.challenge c s n p) s' rest

/-- `Transcript`, mpc.rs:162-174. -/
structure Transcript (St Ch Pf : Type) where
  initialChallenge : Ch
  initialState : St
  rounds : List (St × Pf)

/-- `Transcript::verify`, mpc.rs:182-191. -/
def Transcript.verify (t : Transcript St Ch Pf) (v : Verifier St Ch Pf Er) :
    Except Er (Ch × St) :=
  v.verifyAll t.initialChallenge t.initialState (t.rounds.map .ok)

/-- The specification: sequences of challenges and states, one more than there are rounds, that start
at the initial ones and end in the result, such that every round verifies against the state and the
challenge before it, and every challenge is derived from the round before it. -/
def Chained (v : Verifier St Ch Pf Er) (t : Transcript St Ch Pf) (C : Nat → Ch) (S : Nat → St) :
    Prop :=
  C 0 = t.initialChallenge ∧ S 0 = t.initialState ∧
  ∀ (i : Nat) n p, t.rounds[i]? = some (n, p) →
    v.verifyTransform (C i) (S i) n p = .ok (S (i + 1)) ∧
    C (i + 1) = v.challenge (C i) (S i) n p

/-- **C46.** A transcript verifies exactly if its rounds are chained, and then the result is the end of
the chain. -/
theorem c46_chain (v : Verifier St Ch Pf Er) (t : Transcript St Ch Pf) (c : Ch) (s : St) :
    t.verify v = .ok (c, s) ↔
      ∃ C S, Chained v t C S ∧ C t.rounds.length = c ∧ S t.rounds.length = s := by
  obtain ⟨c0, s0, rounds⟩ := t
  simp only [Transcript.verify]
  induction rounds generalizing c0 s0 with
  | nil =>
    simp only [List.map_nil, Verifier.verifyAll, Except.ok.injEq, Prod.mk.injEq, Chained,
      List.getElem?_nil, List.length_nil]
    constructor
    · rintro ⟨rfl, rfl⟩
      exact ⟨fun _ => c0, fun _ => s0, ⟨rfl, rfl, by simp⟩, rfl, rfl⟩
    · rintro ⟨C, S, ⟨h1, h2, _⟩, h3, h4⟩
      exact ⟨by rw [← h1, h3], by rw [← h2, h4]⟩
  | cons x rounds ih =>
    obtain ⟨n, p⟩ := x
    simp only [List.map_cons, Verifier.verifyAll, List.length_cons]
    constructor
    · intro h
      cases hv : v.verifyTransform c0 s0 n p with
      | error e => rw [hv] at h; cases h
      | ok s' =>
        rw [hv] at h
        obtain ⟨C, S, ⟨h1, h2, h3⟩, h4, h5⟩ := (ih _ _).1 h
        simp only at h1 h2 h3 h4 h5
        refine ⟨fun i => match i with | 0 => c0 | i + 1 => C i,
          fun i => match i with | 0 => s0 | i + 1 => S i, ⟨rfl, rfl, ?_⟩, h4, h5⟩
        intro i n' p' hi
        cases i with
        | zero =>
          simp only [List.getElem?_cons_zero, Option.some.injEq, Prod.mk.injEq] at hi
          obtain ⟨rfl, rfl⟩ := hi
          exact ⟨by show v.verifyTransform c0 s0 n p = .ok (S 0); rw [h2]; exact hv, h1⟩
        | succ i => exact h3 i n' p' (by simpa using hi)
    · rintro ⟨C, S, ⟨h1, h2, h3⟩, h4, h5⟩
      simp only at h1 h2 h3
      obtain ⟨h6, h7⟩ := h3 0 n p rfl
      rw [h1, h2] at h6 h7
      rw [h6]
      refine (ih _ _).2 ⟨fun i => C (i + 1), fun i => S (i + 1), ⟨h7, rfl, ?_⟩, h4, h5⟩
      intro i n' p' hi
      exact h3 (i + 1) n' p' (by simpa using hi)

/-- **C46.** Verifying a concatenation is verifying the first part and then the second one from where
the first one ends. -/
theorem c46_append (v : Verifier St Ch Pf Er) (c : Ch) (s : St)
    (a b : List (Except Er (St × Pf))) :
    v.verifyAll c s (a ++ b) =
      match v.verifyAll c s a with
      | .error e => .error e
      | .ok (c', s') => v.verifyAll c' s' b := by
  induction a generalizing c s with
  | nil => rfl
  | cons x a ih =>
    cases x with
    | error e => rfl
    | ok x =>
      obtain ⟨n, p⟩ := x
      simp only [List.cons_append, Verifier.verifyAll]
      cases v.verifyTransform c s n p with
      | error e => rfl
      | ok s' => exact ih _ _

/-- **C46.** If verification fails then at a definite round: all rounds before it verify, and this
round could not be read or does not verify, with just the reported error. -/
theorem c46_first_error (v : Verifier St Ch Pf Er) (c : Ch) (s : St)
    (rounds : List (Except Er (St × Pf))) (e : Er) :
    v.verifyAll c s rounds = .error e ↔
      ∃ (i : Nat) (c' : Ch) (s' : St), v.verifyAll c s (rounds.take i) = .ok (c', s') ∧
        (rounds[i]? = some (.error e) ∨
          ∃ n p, rounds[i]? = some (.ok (n, p)) ∧ v.verifyTransform c' s' n p = .error e) := by
  induction rounds generalizing c s with
  | nil => simp [Verifier.verifyAll]
  | cons x rounds ih =>
    constructor
    · intro h
      cases x with
      | error e' =>
        simp only [Verifier.verifyAll, Except.error.injEq] at h
        exact ⟨0, c, s, rfl, .inl (by simp [h])⟩
      | ok x =>
        obtain ⟨n, p⟩ := x
        simp only [Verifier.verifyAll] at h
        cases hv : v.verifyTransform c s n p with
        | error e' =>
          rw [hv] at h
          simp only [Except.error.injEq] at h
          exact ⟨0, c, s, rfl, .inr ⟨n, p, rfl, by rw [hv, h]⟩⟩
        | ok s1 =>
          rw [hv] at h
          obtain ⟨i, c', s', h1, h2⟩ := (ih _ _).1 h
          refine ⟨i + 1, c', s', ?_, by simpa using h2⟩
          simp only [List.take_succ_cons, Verifier.verifyAll, hv]
          exact h1
    · rintro ⟨i, c', s', h1, h2⟩
      cases i with
      | zero =>
        simp only [List.take_zero, Verifier.verifyAll, Except.ok.injEq, Prod.mk.injEq] at h1
        obtain ⟨rfl, rfl⟩ := h1
        simp only [List.getElem?_cons_zero, Option.some.injEq] at h2
        rcases h2 with rfl | ⟨n, p, rfl, h2⟩
        · rfl
        · simp only [Verifier.verifyAll, h2]
      | succ i =>
        simp only [List.take_succ_cons] at h1
        simp only [List.getElem?_cons_succ] at h2
        cases x with
        | error e' => cases h1
        | ok x =>
          obtain ⟨n, p⟩ := x
          simp only [Verifier.verifyAll] at h1 ⊢
          cases hv : v.verifyTransform c s n p with
          | error e' => rw [hv] at h1; cases h1
          | ok s1 =>
            rw [hv] at h1
            exact (ih _ _).2 ⟨i, c', s', h1, h2⟩

/-- **C46, the final challenge commits to the whole transcript.** If the challenge function has no
collisions, then two verified transcripts with the same number of rounds that end in the
same challenge are the same transcript, including the initial state (when there is a round at all). -/
theorem c46_commits (v : Verifier St Ch Pf Er)
    (hinj : ∀ c s n p c' s' n' p', v.challenge c s n p = v.challenge c' s' n' p' →
      c = c' ∧ s = s' ∧ n = n' ∧ p = p')
    (t t' : Transcript St Ch Pf) (c : Ch) (s s' : St) (h : t.verify v = .ok (c, s))
    (h' : t'.verify v = .ok (c, s')) (hl : t.rounds.length = t'.rounds.length) :
    t.rounds = t'.rounds ∧ t.initialChallenge = t'.initialChallenge ∧
    (t.rounds ≠ [] → t.initialState = t'.initialState ∧ s = s') := by
  obtain ⟨C, S, ⟨h1, h2, h3⟩, h4, h5⟩ := (c46_chain v t c s).1 h
  obtain ⟨C', S', ⟨h1', h2', h3'⟩, h4', h5'⟩ := (c46_chain v t' c s').1 h'
  -- going backwards from the final challenge
  have key : ∀ k, k ≤ t.rounds.length →
      C (t.rounds.length - k) = C' (t.rounds.length - k) ∧
      (0 < k → S (t.rounds.length - k) = S' (t.rounds.length - k) ∧
        t.rounds[t.rounds.length - k]? = t'.rounds[t.rounds.length - k]?) := by
    intro k hk
    induction k with
    | zero =>
      refine ⟨?_, by omega⟩
      rw [Nat.sub_zero, h4]
      rw [hl, h4']
    | succ k ih =>
      obtain ⟨ihc, _⟩ := ih (by omega)
      have e : t.rounds.length - k = t.rounds.length - (k + 1) + 1 := by omega
      rw [e] at ihc
      generalize hj : t.rounds.length - (k + 1) = j at ihc ⊢
      have hjl : j < t.rounds.length := by omega
      have hg : t.rounds[j]? = some t.rounds[j] := List.getElem?_eq_getElem hjl
      have hg' : t'.rounds[j]? = some t'.rounds[j] := List.getElem?_eq_getElem (by omega)
      obtain ⟨_, a⟩ := h3 j _ _ hg
      obtain ⟨_, b⟩ := h3' j _ _ hg'
      rw [a, b] at ihc
      obtain ⟨e1, e2, e3, e4⟩ := hinj _ _ _ _ _ _ _ _ ihc
      refine ⟨e1, fun _ => ⟨e2, ?_⟩⟩
      rw [hg, hg']
      exact congrArg some (Prod.ext e3 e4)
  have hr : t.rounds = t'.rounds := by
    apply List.ext_getElem?
    intro i
    by_cases hi : i < t.rounds.length
    · have := (key (t.rounds.length - i) (by omega)).2 (by omega)
      have e : t.rounds.length - (t.rounds.length - i) = i := by omega
      rw [e] at this
      exact this.2
    · rw [List.getElem?_eq_none (by omega), List.getElem?_eq_none (by omega)]
  refine ⟨hr, ?_, ?_⟩
  · have := (key t.rounds.length (Nat.le_refl _)).1
    rw [Nat.sub_self, h1, h1'] at this
    exact this
  · intro hne
    have hpos : 0 < t.rounds.length := List.length_pos_iff.2 hne
    have h0 := (key t.rounds.length (Nat.le_refl _)).2 hpos
    rw [Nat.sub_self, h2, h2'] at h0
    refine ⟨h0.1, ?_⟩
    -- the last states are computed by the same last step
    have hk := (key 1 (by omega))
    obtain ⟨k1, k2⟩ := hk
    obtain ⟨k2, k3⟩ := k2 (by omega)
    generalize hj : t.rounds.length - 1 = j at k1 k2 k3
    have hg : t.rounds[j]? = some t.rounds[j] := List.getElem?_eq_getElem (by omega)
    obtain ⟨a, _⟩ := h3 j _ _ hg
    obtain ⟨b, _⟩ := h3' j _ _ (k3 ▸ hg)
    rw [k1, k2, b] at a
    simp only [Except.ok.injEq] at a
    have e : j + 1 = t.rounds.length := by omega
    rw [e] at a
    rw [← h5, ← h5', ← hl]
    exact a.symm

end All

/-! ## `Parallel` -/

section Parallel

variable {St Ch Pf Er : Type}

/-- `Parallel::challenge`, mpc.rs:421-446, on vectors of equal length. -/
def parChallenge : List (Verifier St Ch Pf Er) → List Ch → List St → List St → List Pf → List Ch
  | v :: vs, c :: cs, s :: ss, n :: ns, p :: ps => v.challenge c s n p :: parChallenge vs cs ss ns ps
  | _, _, _, _, _ => []

/-- The `collect::<Result<Vec<_>, _>>` of `Parallel::verify_transform`: the first error wins. -/
def parLoop : List (Verifier St Ch Pf Er) → List Ch → List St → List St → List Pf →
    Except Er (List St)
  | v :: vs, c :: cs, s :: ss, n :: ns, p :: ps =>
    match v.verifyTransform c s n p with
    | .error e => .error e
    | .ok s' =>
      match parLoop vs cs ss ns ps with
      | .error e => .error e
      | .ok r => .ok (s' :: r)
  | _, _, _, _, _ => .ok []

/-- `Parallel` as a verifier, mpc.rs:415-478. The error `none` is the panic of `assert_all_eq_len!`; it
strikes already in `challenge`, which `verify_transform_all` calls first, with the same vectors. -/
def parallel (vs : List (Verifier St Ch Pf Er)) :
    Verifier (List St) (List Ch) (List Pf) (Option Er) where
  challenge := parChallenge vs
  verifyTransform c s n p :=
    if c.length = vs.length ∧ s.length = vs.length ∧ n.length = vs.length ∧ p.length = vs.length then
      match parLoop vs c s n p with
      | .error e => .error (some e)
      | .ok r => .ok r
    else .error none

theorem parLoop_ok (vs : List (Verifier St Ch Pf Er)) (cs : List Ch) (ss ns : List St) (ps : List Pf)
    (r : List St) (h1 : cs.length = vs.length) (h2 : ss.length = vs.length)
    (h3 : ns.length = vs.length) (h4 : ps.length = vs.length) :
    parLoop vs cs ss ns ps = .ok r ↔ r.length = vs.length ∧
      ∀ (i : Nat) v c s n p, vs[i]? = some v → cs[i]? = some c → ss[i]? = some s → ns[i]? = some n →
        ps[i]? = some p → ∃ s', v.verifyTransform c s n p = .ok s' ∧ r[i]? = some s' := by
  induction vs generalizing cs ss ns ps r with
  | nil =>
    simp only [parLoop, Except.ok.injEq, List.length_nil, List.getElem?_nil]
    constructor
    · rintro rfl; exact ⟨rfl, by simp⟩
    · rintro ⟨h, _⟩; exact (List.length_eq_zero_iff.1 h).symm
  | cons v vs ih =>
    match cs, ss, ns, ps, h1, h2, h3, h4 with
    | c :: cs, s :: ss, n :: ns, p :: ps, h1, h2, h3, h4 =>
      simp only [parLoop]
      constructor
      · intro h
        cases hv : v.verifyTransform c s n p with
        | error e => rw [hv] at h; cases h
        | ok s' =>
          rw [hv] at h
          simp only at h
          cases hl : parLoop vs cs ss ns ps with
          | error e => rw [hl] at h; cases h
          | ok r' =>
            rw [hl] at h
            simp only [Except.ok.injEq] at h
            subst h
            obtain ⟨a, b⟩ := (ih cs ss ns ps r' (by simpa using h1) (by simpa using h2)
              (by simpa using h3) (by simpa using h4)).1 hl
            refine ⟨by simp [a], ?_⟩
            intro i v' c' s1 n' p' e1 e2 e3 e4 e5
            cases i with
            | zero =>
              simp only [List.getElem?_cons_zero, Option.some.injEq] at e1 e2 e3 e4 e5
              subst e1; subst e2; subst e3; subst e4; subst e5
              exact ⟨s', hv, rfl⟩
            | succ i =>
              simp only [List.getElem?_cons_succ] at e1 e2 e3 e4 e5 ⊢
              exact b i v' c' s1 n' p' e1 e2 e3 e4 e5
      · rintro ⟨hlen, h⟩
        match r, hlen with
        | x :: r, hlen =>
          obtain ⟨s', h5, h6⟩ := h 0 v c s n p rfl rfl rfl rfl rfl
          simp only [List.getElem?_cons_zero, Option.some.injEq] at h6
          subst h6
          rw [h5]
          simp only
          rw [(ih cs ss ns ps r (by simpa using h1) (by simpa using h2)
              (by simpa using h3) (by simpa using h4)).2 ⟨by simpa using hlen, fun i v' c' s1 n' p'
              e1 e2 e3 e4 e5 => by
                have := h (i + 1) v' c' s1 n' p' (by simpa using e1) (by simpa using e2)
                  (by simpa using e3) (by simpa using e4) (by simpa using e5)
                simpa using this⟩]

/-- **C46, parallel instances.** A transition of several instances at once verifies exactly if all vectors
have one entry per instance and the transition of every instance verifies on its own. -/
theorem c46_parallel (vs : List (Verifier St Ch Pf Er)) (cs : List Ch) (ss ns : List St)
    (ps : List Pf) (r : List St) :
    (parallel vs).verifyTransform cs ss ns ps = .ok r ↔
      (cs.length = vs.length ∧ ss.length = vs.length ∧ ns.length = vs.length ∧
        ps.length = vs.length ∧ r.length = vs.length) ∧
      ∀ (i : Nat) v c s n p, vs[i]? = some v → cs[i]? = some c → ss[i]? = some s → ns[i]? = some n →
        ps[i]? = some p → ∃ s', v.verifyTransform c s n p = .ok s' ∧ r[i]? = some s' := by
  simp only [parallel]
  constructor
  · intro h
    split at h
    · rename_i hl
      obtain ⟨h1, h2, h3, h4⟩ := hl
      cases hp : parLoop vs cs ss ns ps with
      | error e => rw [hp] at h; cases h
      | ok r' =>
        rw [hp] at h
        simp only [Except.ok.injEq] at h
        subst h
        obtain ⟨a, b⟩ := (parLoop_ok vs cs ss ns ps r' h1 h2 h3 h4).1 hp
        exact ⟨⟨h1, h2, h3, h4, a⟩, b⟩
    · cases h
  · rintro ⟨⟨h1, h2, h3, h4, h5⟩, h⟩
    rw [if_pos ⟨h1, h2, h3, h4⟩, (parLoop_ok vs cs ss ns ps r h1 h2 h3 h4).2 ⟨h5, h⟩]

theorem parChallenge_get (vs : List (Verifier St Ch Pf Er)) (cs : List Ch) (ss ns : List St)
    (ps : List Pf) (h1 : cs.length = vs.length) (h2 : ss.length = vs.length)
    (h3 : ns.length = vs.length) (h4 : ps.length = vs.length) :
    (parChallenge vs cs ss ns ps).length = vs.length ∧
    ∀ (i : Nat) v c s n p, vs[i]? = some v → cs[i]? = some c → ss[i]? = some s → ns[i]? = some n →
      ps[i]? = some p → (parChallenge vs cs ss ns ps)[i]? = some (v.challenge c s n p) := by
  induction vs generalizing cs ss ns ps with
  | nil => exact ⟨rfl, by simp⟩
  | cons v vs ih =>
    match cs, ss, ns, ps, h1, h2, h3, h4 with
    | c :: cs, s :: ss, n :: ns, p :: ps, h1, h2, h3, h4 =>
      obtain ⟨a, b⟩ := ih cs ss ns ps (by simpa using h1) (by simpa using h2) (by simpa using h3)
        (by simpa using h4)
      refine ⟨by simp [parChallenge, a], ?_⟩
      intro i v' c' s1 n' p' e1 e2 e3 e4 e5
      cases i with
      | zero =>
        simp only [List.getElem?_cons_zero, Option.some.injEq] at e1 e2 e3 e4 e5
        subst e1; subst e2; subst e3; subst e4; subst e5
        rfl
      | succ i =>
        simp only [List.getElem?_cons_succ] at e1 e2 e3 e4 e5
        simp only [parChallenge, List.getElem?_cons_succ]
        exact b i v' c' s1 n' p' e1 e2 e3 e4 e5

/-- The transcript of one of several parallel instances. -/
def instanceRounds (i : Nat) (rounds : List (List St × List Pf)) : List (St × Pf) :=
  rounds.filterMap fun x => match x.1[i]?, x.2[i]? with
    | some n, some p => some (n, p)
    | _, _ => none

/-- **C46, parallel transcripts.** Parallel instances do not mix: if the combined transcript verifies, so does the
transcript of every instance alone, with the corresponding component of the result. -/
theorem c46_parallel_project (vs : List (Verifier St Ch Pf Er)) (cs : List Ch) (ss : List St)
    (rounds : List (List St × List Pf)) (cs' : List Ch) (ss' : List St)
    (hc : cs.length = vs.length) (hs : ss.length = vs.length)
    (h : (Transcript.mk cs ss rounds).verify (parallel vs) = .ok (cs', ss'))
    (i : Nat) (v : Verifier St Ch Pf Er) (c : Ch) (s : St) (hv : vs[i]? = some v)
    (hci : cs[i]? = some c) (hsi : ss[i]? = some s) :
    ∃ c' s', cs'[i]? = some c' ∧ ss'[i]? = some s' ∧
      (Transcript.mk c s (instanceRounds i rounds)).verify v = .ok (c', s') := by
  simp only [Transcript.verify] at h ⊢
  induction rounds generalizing cs ss c s with
  | nil =>
    simp only [List.map_nil, Verifier.verifyAll, Except.ok.injEq, Prod.mk.injEq] at h
    obtain ⟨rfl, rfl⟩ := h
    exact ⟨c, s, hci, hsi, rfl⟩
  | cons x rounds ih =>
    obtain ⟨ns, ps⟩ := x
    simp only [List.map_cons, Verifier.verifyAll] at h
    cases hvt : (parallel vs).verifyTransform cs ss ns ps with
    | error e => rw [hvt] at h; cases h
    | ok r =>
      rw [hvt] at h
      simp only at h
      obtain ⟨⟨l1, l2, l3, l4, l5⟩, hall⟩ := (c46_parallel vs cs ss ns ps r).1 hvt
      have hi : i < vs.length := by
        rcases Nat.lt_or_ge i vs.length with h' | h'
        · exact h'
        · rw [List.getElem?_eq_none h'] at hv; cases hv
      have hn : ns[i]? = some ns[i] := List.getElem?_eq_getElem (by omega)
      have hp : ps[i]? = some ps[i] := List.getElem?_eq_getElem (by omega)
      obtain ⟨s1, g1, g2⟩ := hall i v c s ns[i] ps[i] hv hci hsi hn hp
      obtain ⟨c1, c2⟩ := parChallenge_get vs cs ss ns ps l1 l2 l3 l4
      have c3 := c2 i v c s ns[i] ps[i] hv hci hsi hn hp
      obtain ⟨c', s', k1, k2, k3⟩ := ih ((parallel vs).challenge cs ss ns ps) r c1 l5 h
        (v.challenge c s ns[i] ps[i]) s1 c3 g2
      refine ⟨c', s', k1, k2, ?_⟩
      have e : instanceRounds i ((ns, ps) :: rounds) = (ns[i], ps[i]) :: instanceRounds i rounds := by
        simp only [instanceRounds, List.filterMap_cons, hn, hp]
      rw [e]
      simp only [List.map_cons, Verifier.verifyAll, g1]
      exact k3

/-- **C46, parallel transcripts, conversely.** If all vectors of all rounds have one entry per instance and every
instance's own transcript verifies, then the combined one does. -/
theorem c46_parallel_combine (vs : List (Verifier St Ch Pf Er)) (cs : List Ch) (ss : List St)
    (rounds : List (List St × List Pf)) (hc : cs.length = vs.length) (hs : ss.length = vs.length)
    (hr : ∀ x ∈ rounds, x.1.length = vs.length ∧ x.2.length = vs.length)
    (h : ∀ (i : Nat) v c s, vs[i]? = some v → cs[i]? = some c → ss[i]? = some s →
      ∃ c' s', (Transcript.mk c s (instanceRounds i rounds)).verify v = .ok (c', s')) :
    ∃ cs' ss', (Transcript.mk cs ss rounds).verify (parallel vs) = .ok (cs', ss') := by
  simp only [Transcript.verify] at h ⊢
  induction rounds generalizing cs ss with
  | nil => exact ⟨cs, ss, rfl⟩
  | cons x rounds ih =>
    obtain ⟨ns, ps⟩ := x
    obtain ⟨l3, l4⟩ := hr (ns, ps) (by simp)
    simp only at l3 l4
    have hinst : ∀ i, (hi : i < vs.length) → instanceRounds i ((ns, ps) :: rounds) =
        (ns[i]'(by omega), ps[i]'(by omega)) :: instanceRounds i rounds := by
      intro i hi
      have hn : ns[i]? = some (ns[i]'(by omega)) := List.getElem?_eq_getElem (by omega)
      have hp : ps[i]? = some (ps[i]'(by omega)) := List.getElem?_eq_getElem (by omega)
      simp only [instanceRounds, List.filterMap_cons, hn, hp]
    -- the next states
    have hex : ∀ i, (hi : i < vs.length) → ∃ s', (vs[i]).verifyTransform (cs[i]'(by omega))
        (ss[i]'(by omega)) (ns[i]'(by omega)) (ps[i]'(by omega)) = .ok s' := by
      intro i hi
      obtain ⟨c', s', h'⟩ := h i vs[i] (cs[i]'(by omega)) (ss[i]'(by omega))
        (List.getElem?_eq_getElem hi) (List.getElem?_eq_getElem (by omega))
        (List.getElem?_eq_getElem (by omega))
      rw [hinst i hi] at h'
      simp only [List.map_cons, Verifier.verifyAll] at h'
      cases hv : (vs[i]).verifyTransform (cs[i]'(by omega)) (ss[i]'(by omega)) (ns[i]'(by omega))
        (ps[i]'(by omega)) with
      | error e => rw [hv] at h'; cases h'
      | ok s1 => exact ⟨s1, rfl⟩
    have hloop : ∃ r, parLoop vs cs ss ns ps = .ok r := by
      clear ih h hr hinst
      induction vs generalizing cs ss ns ps with
      | nil => exact ⟨[], rfl⟩
      | cons v vs ih =>
        match cs, ss, ns, ps, hc, hs, l3, l4 with
        | c :: cs, s :: ss, n :: ns, p :: ps, hc, hs, l3, l4 =>
          obtain ⟨s0, h0⟩ := hex 0 (by simp)
          simp only [List.getElem_cons_zero] at h0
          obtain ⟨r, hr⟩ := ih cs ss (by simpa using hc) (by simpa using hs) ns ps
            (by simpa using l3) (by simpa using l4) (fun i hi => by
              have := hex (i + 1) (by simpa using hi)
              simpa using this)
          exact ⟨s0 :: r, by simp only [parLoop, h0, hr]⟩
    obtain ⟨r, hr'⟩ := hloop
    have hvt : (parallel vs).verifyTransform cs ss ns ps = .ok r := by
      simp only [parallel]
      rw [if_pos ⟨hc, hs, l3, l4⟩, hr']
    obtain ⟨⟨_, _, _, _, l5⟩, hall⟩ := (c46_parallel vs cs ss ns ps r).1 hvt
    obtain ⟨c1, c2⟩ := parChallenge_get vs cs ss ns ps hc hs l3 l4
    simp only [List.map_cons, Verifier.verifyAll, hvt]
    refine ih (parChallenge vs cs ss ns ps) r c1 l5 (fun x hx => hr x (by simp [hx])) ?_
    intro i v c s hv hci hsi
    have hi : i < vs.length := by
      rcases Nat.lt_or_ge i vs.length with h' | h'
      · exact h'
      · rw [List.getElem?_eq_none h'] at hv; cases hv
    have g1 : cs[i]? = some (cs[i]'(by omega)) := List.getElem?_eq_getElem (by omega)
    have g2 : ss[i]? = some (ss[i]'(by omega)) := List.getElem?_eq_getElem (by omega)
    have g3 : ns[i]? = some (ns[i]'(by omega)) := List.getElem?_eq_getElem (by omega)
    have g4 : ps[i]? = some (ps[i]'(by omega)) := List.getElem?_eq_getElem (by omega)
    obtain ⟨s1, k1, k2⟩ := hall i v _ _ _ _ hv g1 g2 g3 g4
    have k3 := c2 i v _ _ _ _ hv g1 g2 g3 g4
    rw [k3] at hci
    rw [k2] at hsi
    simp only [Option.some.injEq] at hci hsi
    subst hci; subst hsi
    obtain ⟨c', s', h'⟩ := h i v _ _ hv g1 g2
    rw [hinst i hi] at h'
    simp only [List.map_cons, Verifier.verifyAll, k1] at h'
    exact ⟨c', s', h'⟩

end Parallel

/-! ## Concrete cases -/

/-- A toy verifier: states are numbers, the proof states the difference, challenges hash the
history injectively enough. -/
def toyVerifier : Verifier Nat (List Nat) Nat String where
  challenge c s n p := s :: n :: p :: c
  verifyTransform _ s n p := if n = s + p ∧ p ≠ 0 then .ok n else .error "bad"

example : (Transcript.mk [] 5 [(7, 2), (10, 3)]).verify toyVerifier =
    .ok ([7, 10, 3, 5, 7, 2], 10) := by rfl

example : (Transcript.mk [] 5 [(7, 2), (11, 3), (12, 1)]).verify toyVerifier = .error "bad" := by rfl

/-- The hypothesis of `c46_commits` holds for the toy verifier. -/
example : ∀ c s n p c' s' n' p', toyVerifier.challenge c s n p = toyVerifier.challenge c' s' n' p' →
    c = c' ∧ s = s' ∧ n = n' ∧ p = p' := by
  intro c s n p c' s' n' p' h
  simp only [toyVerifier, List.cons.injEq] at h
  exact ⟨h.2.2.2, h.1, h.2.1, h.2.2.1⟩

example : (Transcript.mk [[], []] [5, 6] [([7, 9], [2, 3]), ([8, 10], [1, 1])]).verify
    (parallel [toyVerifier, toyVerifier]) = .ok ([[7, 8, 1, 5, 7, 2], [9, 10, 1, 6, 9, 3]], [8, 10]) := by
  rfl

/-- Vectors of different length are a panic. -/
example : (Transcript.mk [[], []] [5, 6] [([7, 9], [2])]).verify
    (parallel [toyVerifier, toyVerifier]) = .error none := by rfl

end Verif.Ceremony
