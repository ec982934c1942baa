import Verif.Ceremony.Witness

/-!
# The transcript verifier

`groth16_phase2_verifier`: anybody can run it on the published directory of the ceremony. It checks the
rounds of every circuit until a file is missing, writes the keys of the last round and the hashes that
the participants published as commitments to their contributions.

Source: /repo/manta-trusted-setup/src/bin/groth16_phase2_verifier.rs.

Simplifications: a file that cannot be deserialized is a missing file; round numbers are unbounded; the text
files of computed challenges are lists of pairs (a line is `hex(challenge) round n`); the loop over the rounds has
a bound on the number of files as an argument (`none` if it is not enough).
-/

namespace Verif.Ceremony

section Verifier

variable {I VK Sig St Ch Pf Nm : Type} [DecidableEq I] [DecidableEq Nm]

/-- The loop of `verify_ceremony` over the rounds of one circuit, groth16_phase2_verifier.rs:110-147: the last
state and the lines written to `{name}_computed_challenges`. -/
def verifyLoop (cfg : Config VK Sig St Ch Pf) (d : Disk I VK St Ch Pf Nm) (nm : Nm) :
    Nat → Nat → Ch → St → Option (Except Err (St × List (Ch × Nat)))
  | 0, _, _, _ => none
  | fuel + 1, round, c, s =>
    match d.proof nm (round + 1), d.state nm (round + 1) with
    | some p, some n =>
      if cfg.verifyTransform c s n p then
        (verifyLoop cfg d nm fuel (round + 1) (cfg.challenge c s n p) n).map fun r =>
          r.map fun x => (x.1, (cfg.challenge c s n p, round + 1) :: x.2)
      else some (.error .badRequest)
    | _, _ => some (.ok (s, []))

/-- One circuit, groth16_phase2_verifier.rs:81-155. -/
def verifyCircuit (cfg : Config VK Sig St Ch Pf) (d : Disk I VK St Ch Pf Nm) (fuel start : Nat) (nm : Nm) :
    Option (Except Err (St × List (Ch × Nat))) :=
  match d.state nm start, d.challenge nm start with
  | some s, some c => verifyLoop cfg d nm fuel start c s
  | _, _ => some (.error .serialization)

/-- The loop of `verify_ceremony` over the circuits, left with the first error. -/
def verifyCircuits (cfg : Config VK Sig St Ch Pf) (d : Disk I VK St Ch Pf Nm) (fuel start : Nat) :
    List Nm → Option (Except Err (List (St × List (Ch × Nat))))
  | [] => some (.ok [])
  | nm :: nms =>
    match verifyCircuit cfg d fuel start nm with
    | none => none
    | some (.error e) => some (.error e)
    | some (.ok x) => (verifyCircuits cfg d fuel start nms).map fun r => r.map (x :: ·)

/-- `verify_ceremony`, groth16_phase2_verifier.rs:69-161; a missing `circuit_names` is a panic. -/
def verifyCeremony (cfg : Config VK Sig St Ch Pf) (d : Disk I VK St Ch Pf Nm) (fuel start : Nat) :
    Option (Except Err (List (St × List (Ch × Nat)))) :=
  match d.names with
  | none => some (.error .taskError)
  | some names => verifyCircuits cfg d fuel start names

/-- `contribution_hashes`, groth16_phase2_verifier.rs:166-222, on the lines of the three files; the challenges
of a round are hashed in the order `to_private`, `to_public`, `private_transfer`. `none` if an assertion on the
round numbers fails. -/
def contributionHashes {H : Type} (hash : Nat → List Ch → H) :
    List (Ch × Nat) → List (Ch × Nat) → List (Ch × Nat) → Option (List (H × Nat))
  | pt :: pts, tr :: trs, tu :: tus =>
    if tr.2 = tu.2 ∧ tr.2 = pt.2 then
      (contributionHashes hash pts trs tus).map ((hash tr.2 [tr.1, tu.1, pt.1], pt.2) :: ·)
    else none
  | _, _, _ => some []

/-! ## What it accepts -/

/-- The published files of a circuit from round `start` to round `n` are chained. -/
structure ChainFrom (cfg : Config VK Sig St Ch Pf) (d : Disk I VK St Ch Pf Nm) (nm : Nm) (start n : Nat)
    (C : Nat → Ch) (S : Nat → St) : Prop where
  le : start ≤ n
  state : d.state nm start = some (S start)
  challenge : d.challenge nm start = some (C start)
  step : ∀ k, start ≤ k → k < n → ∃ p, d.proof nm (k + 1) = some p ∧ d.state nm (k + 1) = some (S (k + 1)) ∧
    cfg.verifyTransform (C k) (S k) (S (k + 1)) p = true ∧ C (k + 1) = cfg.challenge (C k) (S k) (S (k + 1)) p

/-- After round `n` a file is missing. -/
def EndsAt (d : Disk I VK St Ch Pf Nm) (nm : Nm) (n : Nat) : Prop :=
  d.proof nm (n + 1) = none ∨ d.state nm (n + 1) = none

/-- The lines for the rounds after `start` up to `n`. -/
def lines (C : Nat → Ch) (start n : Nat) : List (Ch × Nat) :=
  (List.range' (start + 1) (n - start)).map fun k => (C k, k)

theorem lines_cons (C : Nat → Ch) (start n : Nat) (h : start < n) :
    lines C start n = (C (start + 1), start + 1) :: lines C (start + 1) n := by
  unfold lines
  obtain ⟨j, hj⟩ : ∃ j, n - start = j + 1 := ⟨n - start - 1, by omega⟩
  rw [hj, List.range'_succ, show n - (start + 1) = j by omega]
  rfl

omit [DecidableEq I] [DecidableEq Nm] in
theorem verifyLoop_ok (cfg : Config VK Sig St Ch Pf) (d : Disk I VK St Ch Pf Nm) (nm : Nm) (fuel : Nat) :
    ∀ (start : Nat) (c : Ch) (s : St) (x : St × List (Ch × Nat)),
      verifyLoop cfg d nm fuel start c s = some (.ok x) →
      ∃ (n : Nat) (C : Nat → Ch) (S : Nat → St), C start = c ∧ S start = s ∧ start ≤ n ∧ n < start + fuel ∧
        (∀ k, start ≤ k → k < n → ∃ p, d.proof nm (k + 1) = some p ∧ d.state nm (k + 1) = some (S (k + 1)) ∧
          cfg.verifyTransform (C k) (S k) (S (k + 1)) p = true ∧
          C (k + 1) = cfg.challenge (C k) (S k) (S (k + 1)) p) ∧
        EndsAt d nm n ∧ x = (S n, lines C start n) := by
  induction fuel with
  | zero => intro start c s x h; cases h
  | succ fuel ih =>
    intro start c s x h
    unfold verifyLoop at h
    split at h
    · rename_i p n hp hn
      split at h
      · rename_i hv
        cases hr : verifyLoop cfg d nm fuel (start + 1) (cfg.challenge c s n p) n with
        | none => rw [hr] at h; cases h
        | some r =>
          rw [hr] at h
          cases r with
          | error e => cases h
          | ok y =>
            simp only [Option.map_some, Except.map, Option.some.injEq, Except.ok.injEq] at h
            subst h
            obtain ⟨m, C, S, hC, hS, h1, h2, h3, h4, h5⟩ := ih _ _ _ _ hr
            refine ⟨m, fun k => if k = start then c else C k, fun k => if k = start then s else S k,
              if_pos rfl, if_pos rfl, by omega, by omega, ?_, h4, ?_⟩
            · intro k hk hkm
              by_cases hks : k = start
              · subst hks
                refine ⟨p, hp, ?_, ?_, ?_⟩
                · simp only [Nat.succ_ne_self, if_false]; rw [hS]; exact hn
                · simp only [Nat.succ_ne_self, if_false, if_true]; rw [hS]; exact hv
                · simp only [Nat.succ_ne_self, if_false, if_true]; rw [hC, hS]
              · obtain ⟨q, a1, a2, a3, a4⟩ := h3 k (by omega) hkm
                have e1 : k + 1 ≠ start := by omega
                simp only [hks, e1, if_false]
                exact ⟨q, a1, a2, a3, a4⟩
            · have e : m ≠ start := by omega
              have hl : lines (fun k => if k = start then c else C k) start m =
                  (cfg.challenge c s n p, start + 1) :: lines C (start + 1) m := by
                rw [lines_cons _ _ _ (by omega)]
                simp only [Nat.succ_ne_self, if_false, hC]
                congr 1
                unfold lines
                refine List.map_congr_left fun k hk => ?_
                have := (List.mem_range'_1.1 hk).1
                simp only [if_neg (show k ≠ start by omega)]
              rw [hl, h5]
              simp only [if_neg e]
      · cases h
    · rename_i hne
      simp only [Option.some.injEq, Except.ok.injEq] at h
      refine ⟨start, fun _ => c, fun _ => s, rfl, rfl, Nat.le_refl _, by omega, fun k h1 h2 => by omega, ?_, ?_⟩
      · unfold EndsAt
        cases hp : d.proof nm (start + 1) with
        | none => exact .inl rfl
        | some p =>
          cases hn : d.state nm (start + 1) with
          | none => exact .inr rfl
          | some n => exact absurd hn (hne p n hp)
      · rw [← h]; simp [lines]

omit [DecidableEq I] [DecidableEq Nm] in
theorem verifyLoop_complete (cfg : Config VK Sig St Ch Pf) (d : Disk I VK St Ch Pf Nm) (nm : Nm) (n : Nat)
    (C : Nat → Ch) (S : Nat → St) (hend : EndsAt d nm n) (fuel : Nat) :
    ∀ start, start ≤ n → n < start + fuel →
      (∀ k, start ≤ k → k < n → ∃ p, d.proof nm (k + 1) = some p ∧ d.state nm (k + 1) = some (S (k + 1)) ∧
        cfg.verifyTransform (C k) (S k) (S (k + 1)) p = true ∧
        C (k + 1) = cfg.challenge (C k) (S k) (S (k + 1)) p) →
      verifyLoop cfg d nm fuel start (C start) (S start) = some (.ok (S n, lines C start n)) := by
  induction fuel with
  | zero => intro start h1 h2; omega
  | succ fuel ih =>
    intro start h1 h2 h3
    unfold verifyLoop
    by_cases hs : start = n
    · subst hs
      rcases hend with h | h
      · rw [h]; simp [lines]
      · rw [h]
        cases d.proof nm (start + 1) <;> simp [lines]
    · obtain ⟨p, a1, a2, a3, a4⟩ := h3 start (Nat.le_refl _) (by omega)
      rw [a1, a2]
      simp only [a3, if_true]
      rw [← a4, ih (start + 1) (by omega) (by omega) fun k hk hkn => h3 k (by omega) hkn,
        lines_cons C start n (by omega)]
      rfl

omit [DecidableEq I] [DecidableEq Nm] in
/-- **C101, one circuit.** The verifier accepts the files of a circuit exactly if they are chained from the
starting round up to some round after which a file is missing, and then it outputs the state of
that round and the challenges of all rounds. -/
theorem c101_circuit_iff (cfg : Config VK Sig St Ch Pf) (d : Disk I VK St Ch Pf Nm) (fuel start : Nat) (nm : Nm)
    (x : St × List (Ch × Nat)) :
    verifyCircuit cfg d fuel start nm = some (.ok x) ↔
      ∃ n C S, ChainFrom cfg d nm start n C S ∧ EndsAt d nm n ∧ n < start + fuel ∧
        x = (S n, lines C start n) := by
  unfold verifyCircuit
  constructor
  · intro h
    split at h
    · rename_i s c hs hc
      obtain ⟨n, C, S, h1, h2, h3, h4, h5, h6, h7⟩ := verifyLoop_ok cfg d nm fuel start c s x h
      exact ⟨n, C, S, ⟨h3, by rw [h2]; exact hs, by rw [h1]; exact hc, h5⟩, h6, h4, h7⟩
    · cases h
  · rintro ⟨n, C, S, ⟨h1, h2, h3, h4⟩, h5, h6, rfl⟩
    rw [h2, h3]
    exact verifyLoop_complete cfg d nm n C S h5 fuel start h1 h6 h4

omit [DecidableEq I] [DecidableEq Nm] in
theorem verifyCircuits_iff (cfg : Config VK Sig St Ch Pf) (d : Disk I VK St Ch Pf Nm) (fuel start : Nat)
    (names : List Nm) (r : List (St × List (Ch × Nat))) :
    verifyCircuits cfg d fuel start names = some (.ok r) ↔
      r.length = names.length ∧ ∀ (i : Nat) nm, names[i]? = some nm → ∃ x, r[i]? = some x ∧
        verifyCircuit cfg d fuel start nm = some (.ok x) := by
  induction names generalizing r with
  | nil =>
    simp only [verifyCircuits, Option.some.injEq, Except.ok.injEq, List.length_nil]
    constructor
    · rintro rfl; exact ⟨rfl, by simp⟩
    · rintro ⟨h, -⟩; exact (List.length_eq_zero_iff.1 h).symm
  | cons nm nms ih =>
    unfold verifyCircuits
    constructor
    · intro h
      split at h
      · cases h
      · cases h
      · rename_i x hx
        cases hr : verifyCircuits cfg d fuel start nms with
        | none => rw [hr] at h; cases h
        | some y =>
          rw [hr] at h
          cases y with
          | error e => cases h
          | ok y =>
            simp only [Option.map_some, Except.map, Option.some.injEq, Except.ok.injEq] at h
            subst h
            obtain ⟨h1, h2⟩ := (ih y).1 hr
            refine ⟨by simp [h1], ?_⟩
            intro i nm' hi
            cases i with
            | zero =>
              simp only [List.getElem?_cons_zero, Option.some.injEq] at hi
              subst hi
              exact ⟨x, rfl, hx⟩
            | succ i => exact h2 i nm' (by simpa using hi)
    · rintro ⟨h1, h2⟩
      cases r with
      | nil => simp at h1
      | cons x r =>
        obtain ⟨x', e1, e2⟩ := h2 0 nm rfl
        simp only [List.getElem?_cons_zero, Option.some.injEq] at e1
        subst e1
        rw [e2]
        simp only
        rw [(ih r).2 ⟨by simpa using h1, fun i nm' hi => by simpa using h2 (i + 1) nm' (by simpa using hi)⟩]
        rfl

omit [DecidableEq I] [DecidableEq Nm] in
/-- **C101, soundness.** The verifier reports success exactly if the list of circuits is there and the files of
every circuit are chained from the starting round up to some round after which a file is
missing; the key of a circuit is the state of its last round, and the challenges it writes are those
derived from the files. -/
theorem c101_accept_iff (cfg : Config VK Sig St Ch Pf) (d : Disk I VK St Ch Pf Nm) (fuel start : Nat)
    (r : List (St × List (Ch × Nat))) :
    verifyCeremony cfg d fuel start = some (.ok r) ↔
      ∃ names, d.names = some names ∧ r.length = names.length ∧
        ∀ (i : Nat) nm, names[i]? = some nm → ∃ n C S, ChainFrom cfg d nm start n C S ∧ EndsAt d nm n ∧
          n < start + fuel ∧ r[i]? = some (S n, lines C start n) := by
  unfold verifyCeremony
  constructor
  · intro h
    split at h
    · cases h
    · rename_i names hn
      obtain ⟨h1, h2⟩ := (verifyCircuits_iff cfg d fuel start names r).1 h
      refine ⟨names, hn, h1, fun i nm hi => ?_⟩
      obtain ⟨x, e1, e2⟩ := h2 i nm hi
      obtain ⟨n, C, S, a1, a2, a3, a4⟩ := (c101_circuit_iff cfg d fuel start nm x).1 e2
      exact ⟨n, C, S, a1, a2, a3, by rw [e1, a4]⟩
  · rintro ⟨names, hn, h1, h2⟩
    rw [hn]
    refine (verifyCircuits_iff cfg d fuel start names r).2 ⟨h1, fun i nm hi => ?_⟩
    obtain ⟨n, C, S, a1, a2, a3, a4⟩ := h2 i nm hi
    exact ⟨_, a4, (c101_circuit_iff cfg d fuel start nm _).2 ⟨n, C, S, a1, a2, a3, rfl⟩⟩

/-! ## The transcript of a server -/

/-- No contribution is refused after some of its circuits were taken over (see C44). -/
def Clean (cfg : Config VK Sig St Ch Pf) (s : Server I VK St Ch Pf Nm) : List (Event I VK Sig St Pf) → Prop
  | [] => True
  | e :: es =>
    (∀ k i st pf, e = .apply k → s.started[k]? = some (i, st, pf) →
      ∀ er, (s.mpc.update cfg st pf).1 = .error er → (s.mpc.update cfg st pf).2 = s.mpc) ∧
    Clean cfg (s.step cfg e).2 es

/-- The `ContributeResponse` that goes out for a credited contribution: the round and its challenges,
coordinator.rs:298, server.rs:444-447. -/
def issuedAt (cfg : Config VK Sig St Ch Pf) (s : Server I VK St Ch Pf Nm) (e : Event I VK Sig St Pf) :
    List (Nat × List Ch) :=
  if creditedAt cfg s e = [] then [] else [((s.step cfg e).2.mpc.round, (s.step cfg e).2.mpc.challenge)]

/-- All responses of a history. -/
def issued (cfg : Config VK Sig St Ch Pf) (s : Server I VK St Ch Pf Nm) :
    List (Event I VK Sig St Pf) → List (Nat × List Ch)
  | [] => []
  | e :: es => issuedAt cfg s e ++ issued cfg (s.step cfg e).2 es

/-- The files of the rounds `start` to `n` are the states `S`, the challenges `C` and proofs that verify. -/
structure Filed (cfg : Config VK Sig St Ch Pf) (d : Disk I VK St Ch Pf Nm) (names : List Nm) (start n : Nat)
    (C : Nat → List Ch) (S : Nat → List St) : Prop where
  le : start ≤ n
  lenC : ∀ k, start ≤ k → k ≤ n → (C k).length = names.length
  lenS : ∀ k, start ≤ k → k ≤ n → (S k).length = names.length
  state : ∀ k, start ≤ k → k ≤ n → ∀ (i : Nat) nm, names[i]? = some nm → d.state nm k = (S k)[i]?
  challenge : ∀ k, start ≤ k → k ≤ n → ∀ (i : Nat) nm, names[i]? = some nm → d.challenge nm k = (C k)[i]?
  step : ∀ k, start ≤ k → k < n → ∀ (i : Nat) nm c s m, names[i]? = some nm → (C k)[i]? = some c →
    (S k)[i]? = some s → (S (k + 1))[i]? = some m → ∃ p, d.proof nm (k + 1) = some p ∧
      cfg.verifyTransform c s m p = true ∧ (C (k + 1))[i]? = some (cfg.challenge c s m p)
  later : ∀ k, n < k → ∀ nm ∈ names, d.state nm k = none

structure TInv (cfg : Config VK Sig St Ch Pf) (s : Server I VK St Ch Pf Nm) (names : List Nm) (start : Nat)
    (saved : Sclp St Ch Pf) (C : Nat → List Ch) (S : Nat → List St) : Prop where
  disk : DiskInv s names saved
  sameS : s.mpc.state = saved.state
  sameC : s.mpc.challenge = saved.challenge
  lastS : S saved.round = saved.state
  lastC : C saved.round = saved.challenge
  filed : Filed cfg s.disk names start saved.round C S

omit [DecidableEq I] [DecidableEq Nm] in
theorem recoverLoop_get (d : Disk I VK St Ch Pf Nm) (k : Nat) (nms : List Nm) (ss : List St) (cs : List Ch)
    (ps : List Pf) (h : recoverLoop d k nms = some (ss, cs, ps)) :
    ∀ (i : Nat) nm, nms[i]? = some nm → d.state nm k = ss[i]? ∧ d.challenge nm k = cs[i]? ∧
      (k > 0 → d.proof nm k = ps[i]?) := by
  induction nms generalizing ss cs ps with
  | nil => intro i nm hi; simp at hi
  | cons m nms ih =>
    unfold recoverLoop at h
    intro i nm hi
    split at h
    · rename_i s c hs hc
      split at h
      · split at h
        · cases h
        · rename_i p hp
          cases hr : recoverLoop d k nms with
          | none => rw [hr] at h; cases h
          | some x =>
            rw [hr] at h
            obtain ⟨x1, x2, x3⟩ := x
            simp only [Option.map_some, Option.some.injEq, Prod.mk.injEq] at h
            obtain ⟨rfl, rfl, rfl⟩ := h
            cases i with
            | zero =>
              simp only [List.getElem?_cons_zero, Option.some.injEq] at hi
              subst hi
              exact ⟨hs, hc, fun _ => hp⟩
            | succ i => simpa using ih _ _ _ hr i nm (by simpa using hi)
      · rename_i hk
        cases hr : recoverLoop d k nms with
        | none => rw [hr] at h; cases h
        | some x =>
          rw [hr] at h
          obtain ⟨x1, x2, x3⟩ := x
          simp only [Option.map_some, Option.some.injEq, Prod.mk.injEq] at h
          obtain ⟨rfl, rfl, rfl⟩ := h
          cases i with
          | zero =>
            simp only [List.getElem?_cons_zero, Option.some.injEq] at hi
            subst hi
            exact ⟨hs, hc, fun h => absurd h hk⟩
          | succ i =>
            obtain ⟨a, b, _⟩ := ih _ _ _ hr i nm (by simpa using hi)
            exact ⟨by simpa using a, by simpa using b, fun h => absurd h hk⟩
    · cases h

omit [DecidableEq I] [DecidableEq Nm] in
theorem filed_congr (cfg : Config VK Sig St Ch Pf) (d d' : Disk I VK St Ch Pf Nm) (names : List Nm) (start n : Nat)
    (C : Nat → List Ch) (S : Nat → List St) (h : Filed cfg d names start n C S) (h1 : d'.state = d.state)
    (h2 : d'.challenge = d.challenge) (h3 : d'.proof = d.proof) : Filed cfg d' names start n C S := by
  obtain ⟨a1, a2, a3, a4, a5, a6, a7⟩ := h
  exact ⟨a1, a2, a3, by rw [h1]; exact a4, by rw [h2]; exact a5, by rw [h3]; exact a6, by rw [h1]; exact a7⟩

/-- One event. -/
theorem tinv_step (cfg : Config VK Sig St Ch Pf) (s : Server I VK St Ch Pf Nm) (names : List Nm) (start : Nat)
    (saved : Sclp St Ch Pf) (C : Nat → List Ch) (S : Nat → List St) (h : TInv cfg s names start saved C S)
    (e : Event I VK Sig St Pf)
    (hc : ∀ k i st pf, e = .apply k → s.started[k]? = some (i, st, pf) →
      ∀ er, (s.mpc.update cfg st pf).1 = .error er → (s.mpc.update cfg st pf).2 = s.mpc) :
    ∃ saved' C' S', TInv cfg (s.step cfg e).2 names start saved' C' S' ∧
      (∀ k, k ≤ saved.round → C' k = C k ∧ S' k = S k) ∧
      ((issuedAt cfg s e = [] ∧ saved'.round = saved.round) ∨
        (issuedAt cfg s e = [(saved.round + 1, C' (saved.round + 1))] ∧ saved'.round = saved.round + 1)) := by
  have hd := diskInv_step cfg s names saved e h.disk
  cases e with
  | query now i sig =>
    obtain ⟨h4, h5⟩ := request_mpc cfg s (.query now i sig) i .query sig rfl
    have hcr : creditedAt cfg s (.query now i sig) = [] := rfl
    rw [if_pos hcr] at hd
    exact ⟨saved, C, S, ⟨hd, by rw [h4]; exact h.sameS, by rw [h4]; exact h.sameC, h.lastS, h.lastC,
      by rw [h5]; exact h.filed⟩, fun _ _ => ⟨rfl, rfl⟩, .inl ⟨by simp [issuedAt, hcr], rfl⟩⟩
  | start now i st pf sig =>
    obtain ⟨h4, h5⟩ := request_mpc cfg s (.start now i st pf sig) i (.contribute st pf) sig rfl
    have hcr : creditedAt cfg s (.start now i st pf sig) = [] := rfl
    rw [if_pos hcr] at hd
    exact ⟨saved, C, S, ⟨hd, by rw [h4]; exact h.sameS, by rw [h4]; exact h.sameC, h.lastS, h.lastC,
      by rw [h5]; exact h.filed⟩, fun _ _ => ⟨rfl, rfl⟩, .inl ⟨by simp [issuedAt, hcr], rfl⟩⟩
  | reload rows =>
    have hcr : creditedAt cfg s (.reload rows) = [] := rfl
    rw [if_pos hcr] at hd
    exact ⟨saved, C, S, ⟨hd, h.sameS, h.sameC, h.lastS, h.lastC, h.filed⟩, fun _ _ => ⟨rfl, rfl⟩,
      .inl ⟨by simp [issuedAt, hcr], rfl⟩⟩
  | finish now k =>
    have hcr : creditedAt cfg s (.finish now k) = [] := rfl
    rw [if_pos hcr] at hd
    have hm : (s.step cfg (.finish now k)).2.mpc = s.mpc ∧
        (s.step cfg (.finish now k)).2.disk.state = s.disk.state ∧
        (s.step cfg (.finish now k)).2.disk.challenge = s.disk.challenge ∧
        (s.step cfg (.finish now k)).2.disk.proof = s.disk.proof := by
      simp only [Server.step, Server.finish]
      split
      · exact ⟨rfl, rfl, rfl, rfl⟩
      · split <;> exact ⟨rfl, rfl, rfl, rfl⟩
    exact ⟨saved, C, S, ⟨hd, by rw [hm.1]; exact h.sameS, by rw [hm.1]; exact h.sameC, h.lastS, h.lastC,
      filed_congr cfg _ _ names start _ C S h.filed hm.2.1 hm.2.2.1 hm.2.2.2⟩, fun _ _ => ⟨rfl, rfl⟩,
      .inl ⟨by simp [issuedAt, hcr], rfl⟩⟩
  | restart now =>
    have hcr : creditedAt cfg s (.restart now) = [] := rfl
    rw [if_pos hcr] at hd
    have hm : ((s.step cfg (.restart now)).2.mpc = s.mpc ∨ (s.step cfg (.restart now)).2.mpc = saved) ∧
        (s.step cfg (.restart now)).2.disk = s.disk := by
      simp only [Server.step, Server.restart]
      rw [h.disk.state, recover_holds s.disk names saved h.disk.holds]
      cases s.disk.registry saved.round with
      | none => exact ⟨.inl rfl, rfl⟩
      | some r => exact ⟨.inr rfl, rfl⟩
    refine ⟨saved, C, S, ⟨hd, ?_, ?_, h.lastS, h.lastC, by rw [hm.2]; exact h.filed⟩, fun _ _ => ⟨rfl, rfl⟩,
      .inl ⟨by simp [issuedAt, hcr], rfl⟩⟩
    · rcases hm.1 with e | e <;> rw [e]
      exact h.sameS
    · rcases hm.1 with e | e <;> rw [e]
      exact h.sameC
  | apply k =>
    cases hk : s.started[k]? with
    | none =>
      have hs : s.step cfg (.apply k) = (.none, s) := by simp only [Server.step, Server.apply, hk]
      have hcr : creditedAt cfg s (.apply k) = [] := by simp only [creditedAt, hk]
      rw [if_pos hcr] at hd
      refine ⟨saved, C, S, ?_, fun _ _ => ⟨rfl, rfl⟩, .inl ⟨by simp [issuedAt, hcr], rfl⟩⟩
      rw [hs]; exact h
    | some x =>
      obtain ⟨i, st, pf⟩ := x
      cases hu : s.mpc.update cfg st pf with
      | mk res m =>
        cases res with
        | error er =>
          have hs : s.step cfg (.apply k) = (.error er, { s with mpc := m, started := s.started.eraseIdx k }) := by
            simp only [Server.step, Server.apply, hk, hu]
          have hcr : creditedAt cfg s (.apply k) = [] := by simp only [creditedAt, hk, hs]
          have hmm : m = s.mpc := by
            have := hc k i st pf rfl hk er (by rw [hu])
            rw [hu] at this
            exact this
          rw [if_pos hcr] at hd
          refine ⟨saved, C, S, ⟨hd, ?_, ?_, h.lastS, h.lastC, ?_⟩, fun _ _ => ⟨rfl, rfl⟩,
            .inl ⟨by simp [issuedAt, hcr], rfl⟩⟩ <;> rw [hs] <;> simp only [hmm]
          · exact h.sameS
          · exact h.sameC
          · exact h.filed
        | ok round =>
          have hs : s.step cfg (.apply k) = (.round round, { s with
              mpc := m
              disk := s.disk.writes (m.saveWrites (s.disk.names.getD []))
              started := s.started.eraseIdx k
              applied := s.applied ++ [(i, round)] }) := by
            simp only [Server.step, Server.apply, hk, hu]
          have hcr : creditedAt cfg s (.apply k) ≠ [] := by simp only [creditedAt, hk, hs]; simp
          rw [if_neg hcr] at hd
          obtain ⟨u0, u1, u2, u3, u4, u5⟩ := update_ok cfg s.mpc m st pf round hu
          have hround := h.disk.round
          have hmr : m.round = saved.round + 1 := by omega
          have hnm := h.disk.holds.names_eq
          have hmpc : (s.step cfg (.apply k)).2.mpc = m := by rw [hs]
          have hdk : (s.step cfg (.apply k)).2.disk = s.disk.writes (m.saveWrites names) := by
            rw [hs]; simp only [hnm, Option.getD_some]
          obtain ⟨k1, k2, k3, k4⟩ := writes_keep (m.roundWrites names) s.disk m.round (roundWrites_at m names)
          have hw : s.disk.writes (m.saveWrites names) =
              (s.disk.writes (m.roundWrites names)).write (.roundNumber m.round) := by
            rw [saveWrites_eq, writes_append]; rfl
          have hold : ∀ nm k', k' ≠ m.round →
              (s.disk.writes (m.saveWrites names)).state nm k' = s.disk.state nm k' ∧
              (s.disk.writes (m.saveWrites names)).challenge nm k' = s.disk.challenge nm k' ∧
              (s.disk.writes (m.saveWrites names)).proof nm k' = s.disk.proof nm k' := by
            intro nm k' hk'
            rw [hw]
            exact k4 nm k' hk'
          have hfiles := hd.holds.files
          rw [hmpc, hdk] at hfiles
          have hget := recoverLoop_get _ _ _ _ _ _ hfiles
          -- what the update did
          have hal : s.mpc.Aligned := by
            unfold Sclp.Aligned; rw [h.disk.challenge, h.disk.state]
          obtain ⟨x1, x2⟩ := c44_exact cfg s.mpc hal st pf
          have hlen : st.length = s.mpc.state.length ∧ pf.length = s.mpc.state.length := by
            by_cases hl : st.length = s.mpc.state.length ∧ pf.length = s.mpc.state.length
            · exact hl
            · rw [x1 hl] at hu; cases hu
          obtain ⟨j, y1, y2, y3, y4, y5, y6, y7, y8⟩ := x2 hlen
          have hj : j = s.mpc.state.length := by
            rcases Nat.lt_or_ge j s.mpc.state.length with hlt | hge
            · rw [hu] at y8
              have := (y8 hlt).1
              cases this
            · omega
          rw [hu] at y4 y5
          simp only at y4 y5
          have hms : m.state = st := by
            rw [y4, hj, List.drop_length, List.append_nil, List.take_of_length_le (by omega)]
          refine ⟨m, fun q => if q = m.round then m.challenge else C q, fun q => if q = m.round then m.state else S q,
            ⟨?_, by rw [hmpc], by rw [hmpc], if_pos rfl, if_pos rfl, ?_⟩, ?_, .inr ⟨?_, hmr⟩⟩
          · rw [hmpc] at hd; exact hd
          · rw [hdk]
            have hf := h.filed
            have hle := hf.le
            have hlenS : m.state.length = names.length := by rw [u4, h.disk.state]
            have hlenC : m.challenge.length = names.length := by rw [u5, h.disk.challenge]
            refine ⟨by omega, ?_, ?_, ?_, ?_, ?_, ?_⟩
            · intro q q1 q2
              by_cases hq : q = m.round
              · simp only [hq, if_true]; exact hlenC
              · simp only [hq, if_false]; exact hf.lenC q q1 (by omega)
            · intro q q1 q2
              by_cases hq : q = m.round
              · simp only [hq, if_true]; exact hlenS
              · simp only [hq, if_false]; exact hf.lenS q q1 (by omega)
            · intro q q1 q2 l nm hl
              by_cases hq : q = m.round
              · simp only [hq, if_true]; exact (hget l nm hl).1
              · simp only [hq, if_false]; rw [(hold nm q hq).1]; exact hf.state q q1 (by omega) l nm hl
            · intro q q1 q2 l nm hl
              by_cases hq : q = m.round
              · simp only [hq, if_true]; exact (hget l nm hl).2.1
              · simp only [hq, if_false]; rw [(hold nm q hq).2.1]; exact hf.challenge q q1 (by omega) l nm hl
            · intro q q1 q2 l nm c s' n' hl hcl hsl hnl
              have hq : q ≠ m.round := by omega
              simp only [hq, if_false] at hcl hsl
              by_cases hq1 : q + 1 = m.round
              · have hqs : q = saved.round := by omega
                simp only [hq1, if_true] at hnl ⊢
                rw [hqs, h.lastC, ← h.sameC] at hcl
                rw [hqs, h.lastS, ← h.sameS] at hsl
                rw [hms] at hnl
                have hlj : l < j := by
                  have := (List.getElem?_eq_some_iff.1 hsl).1
                  omega
                obtain ⟨s2, c2, n2, p2, z1, z2, z3, z4, z5, z6⟩ := y2 l hlj
                rw [hsl] at z1; rw [hcl] at z2; rw [hnl] at z3
                simp only [Option.some.injEq] at z1 z2 z3
                subst z1; subst z2; subst z3
                refine ⟨p2, ?_, z6, y5 l s' c n' p2 hlj hsl hcl hnl z4⟩
                rw [(hget l nm hl).2.2 (by omega), u2]
                exact z4
              · simp only [hq1, if_false] at hnl ⊢
                obtain ⟨p, w1, w2, w3⟩ := hf.step q q1 (by omega) l nm c s' n' hl hcl hsl hnl
                exact ⟨p, by rw [(hold nm (q + 1) hq1).2.2]; exact w1, w2, w3⟩
            · intro q q1 nm hnm'
              rw [(hold nm q (by omega)).1]
              exact hf.later q (by omega) nm hnm'
          · intro q hq
            have : q ≠ m.round := by omega
            simp only [this, if_false, and_self]
          · unfold issuedAt
            rw [if_neg hcr, hmpc, hmr]
            simp

theorem tinv_run (cfg : Config VK Sig St Ch Pf) (es : List (Event I VK Sig St Pf)) :
    ∀ (s : Server I VK St Ch Pf Nm) (names : List Nm) (start : Nat) (saved : Sclp St Ch Pf) (C : Nat → List Ch)
      (S : Nat → List St), TInv cfg s names start saved C S → Clean cfg s es →
    ∃ saved' C' S', TInv cfg (s.run cfg es) names start saved' C' S' ∧
      (∀ k, k ≤ saved.round → C' k = C k ∧ S' k = S k) ∧ saved.round ≤ saved'.round ∧
      issued cfg s es = (List.range' (saved.round + 1) (saved'.round - saved.round)).map fun k => (k, C' k) := by
  induction es with
  | nil =>
    intro s names start saved C S h _
    exact ⟨saved, C, S, h, fun _ _ => ⟨rfl, rfl⟩, Nat.le_refl _, by simp [issued]⟩
  | cons e es ih =>
    intro s names start saved C S h hc
    obtain ⟨sv1, C1, S1, g1, g2, g3⟩ := tinv_step cfg s names start saved C S h e hc.1
    obtain ⟨sv2, C2, S2, f1, f2, f3, f4⟩ := ih _ names start sv1 C1 S1 g1 hc.2
    have hle : saved.round ≤ sv1.round := by rcases g3 with ⟨-, e⟩ | ⟨-, e⟩ <;> omega
    refine ⟨sv2, C2, S2, f1, fun k hk => ?_, by omega, ?_⟩
    · obtain ⟨a1, a2⟩ := f2 k (by omega)
      obtain ⟨b1, b2⟩ := g2 k hk
      exact ⟨a1.trans b1, a2.trans b2⟩
    · simp only [issued]
      rw [f4]
      rcases g3 with ⟨i1, i2⟩ | ⟨i1, i2⟩
      · rw [i1, i2]; rfl
      · rw [i1, i2, ← (f2 (saved.round + 1) (by omega)).1]
        obtain ⟨q, hq⟩ : ∃ q, sv2.round - saved.round = q + 1 := ⟨sv2.round - saved.round - 1, by omega⟩
        rw [hq, List.range'_succ, show sv2.round - (saved.round + 1) = q by omega]
        rfl

/-- The directory holds no files of rounds after the present one. -/
def NoLater (s : Server I VK St Ch Pf Nm) (names : List Nm) : Prop :=
  ∀ k, s.mpc.round < k → ∀ nm ∈ names, s.disk.state nm k = none

omit [DecidableEq Nm] in
theorem prepared_tinv (cfg : Config VK Sig St Ch Pf) (s : Server I VK St Ch Pf Nm) (names : List Nm)
    (hs : Prepared s names) (hl : NoLater s names) :
    TInv cfg s names s.mpc.round s.mpc (fun _ => s.mpc.challenge) (fun _ => s.mpc.state) := by
  have hg := recoverLoop_get _ _ _ _ _ _ hs.holds.files
  refine ⟨prepared_inv s names hs, rfl, rfl, rfl, rfl, Nat.le_refl _, fun _ _ _ => hs.shape.challenge,
    fun _ _ _ => hs.shape.state, ?_, ?_, fun k h1 h2 => by omega, hl⟩
  · intro k h1 h2 i nm hi
    have : k = s.mpc.round := by omega
    subst this
    exact (hg i nm hi).1
  · intro k h1 h2 i nm hi
    have : k = s.mpc.round := by omega
    subst this
    exact (hg i nm hi).2.1

omit [DecidableEq I] [DecidableEq Nm] in
theorem filed_verified (cfg : Config VK Sig St Ch Pf) (d : Disk I VK St Ch Pf Nm) (names : List Nm) (start n : Nat)
    (C : Nat → List Ch) (S : Nat → List St) (h : Filed cfg d names start n C S) (fuel : Nat)
    (hf : n < start + fuel) (i : Nat) (nm : Nm) (hi : names[i]? = some nm) :
    ∃ (Ci : Nat → Ch) (Si : Nat → St), (∀ k, start ≤ k → k ≤ n → (C k)[i]? = some (Ci k) ∧ (S k)[i]? = some (Si k)) ∧
      verifyCircuit cfg d fuel start nm = some (.ok (Si n, lines Ci start n)) := by
  have hlt := (List.getElem?_eq_some_iff.1 hi).1
  have hC : ∀ k, start ≤ k → k ≤ n → ∃ c, (C k)[i]? = some c := fun k h1 h2 =>
    ⟨_, List.getElem?_eq_getElem (by rw [h.lenC k h1 h2]; exact hlt)⟩
  have hS : ∀ k, start ≤ k → k ≤ n → ∃ c, (S k)[i]? = some c := fun k h1 h2 =>
    ⟨_, List.getElem?_eq_getElem (by rw [h.lenS k h1 h2]; exact hlt)⟩
  obtain ⟨c0, hc0⟩ := hC start (Nat.le_refl _) h.le
  obtain ⟨s0, hs0⟩ := hS start (Nat.le_refl _) h.le
  have key : ∀ k, start ≤ k → k ≤ n →
      (C k)[i]? = some (((C k)[i]?).getD c0) ∧ (S k)[i]? = some (((S k)[i]?).getD s0) := by
    intro k h1 h2
    obtain ⟨c, hc⟩ := hC k h1 h2
    obtain ⟨s, hs⟩ := hS k h1 h2
    rw [hc, hs]
    exact ⟨rfl, rfl⟩
  refine ⟨fun k => ((C k)[i]?).getD c0, fun k => ((S k)[i]?).getD s0, key, ?_⟩
  refine (c101_circuit_iff cfg d fuel start nm _).2 ⟨n, fun k => ((C k)[i]?).getD c0,
    fun k => ((S k)[i]?).getD s0, ⟨h.le, ?_, ?_, ?_⟩, ?_, hf, rfl⟩
  · rw [h.state start (Nat.le_refl _) h.le i nm hi]; exact (key start (Nat.le_refl _) h.le).2
  · rw [h.challenge start (Nat.le_refl _) h.le i nm hi]; exact (key start (Nat.le_refl _) h.le).1
  · intro k h1 h2
    obtain ⟨p, w1, w2, w3⟩ := h.step k h1 h2 i nm _ _ _ hi (key k h1 (by omega)).1 (key k h1 (by omega)).2
      (key (k + 1) (by omega) (by omega)).2
    refine ⟨p, w1, ?_, w2, ?_⟩
    · rw [h.state (k + 1) (by omega) (by omega) i nm hi]; exact (key (k + 1) (by omega) (by omega)).2
    · simp only [w3, Option.getD_some]
  · exact .inr (h.later _ (Nat.lt_succ_self n) nm (List.mem_of_getElem? hi))

/-- **C101, completeness.** Take any history of a prepared coordinator, with any interleaving, any number of
timeouts and restarts, in which no contribution is refused after some of its circuits were taken over. The verifier
accepts the directory from the starting round; the keys it extracts are the states of the coordinator, and the challenges
it computes for a circuit are those in the responses that the participants got, in order. Missing for the full claim:
contributions that are refused because of a later circuit, see `c101_griefed_violated`. -/
theorem c101_honest_partial (cfg : Config VK Sig St Ch Pf) (s : Server I VK St Ch Pf Nm) (names : List Nm)
    (hs : Prepared s names) (hl : NoLater s names) (es : List (Event I VK Sig St Pf)) (hc : Clean cfg s es) (fuel : Nat)
    (hf : (issued cfg s es).length < fuel) :
    ∃ r, verifyCeremony cfg (s.run cfg es).disk fuel s.mpc.round = some (.ok r) ∧
      r.map Prod.fst = (s.run cfg es).mpc.state ∧
      (∀ y ∈ issued cfg s es, y.2.length = names.length) ∧
      ∀ (i : Nat) x, r[i]? = some x →
        x.2.map some = (issued cfg s es).map fun y => (y.2[i]?).map fun c => (c, y.1) := by
  obtain ⟨sv, C, S, h1, h2, h3, h4⟩ := tinv_run cfg es s names s.mpc.round s.mpc (fun _ => s.mpc.challenge)
    (fun _ => s.mpc.state) (prepared_tinv cfg s names hs hl) hc
  have hnl : (issued cfg s es).length = sv.round - s.mpc.round := by rw [h4]; simp
  have hcirc : ∀ (i : Nat) nm, names[i]? = some nm → ∃ x, verifyCircuit cfg (s.run cfg es).disk fuel s.mpc.round nm =
      some (.ok x) ∧ (S sv.round)[i]? = some x.1 ∧
      x.2.map some = (issued cfg s es).map fun y => (y.2[i]?).map fun c => (c, y.1) := by
    intro i nm hi
    obtain ⟨Ci, Si, e1, e2⟩ := filed_verified cfg _ names s.mpc.round sv.round C S h1.filed fuel (by omega) i nm hi
    refine ⟨_, e2, (e1 sv.round h3 (Nat.le_refl _)).2, ?_⟩
    rw [h4]
    unfold lines
    simp only [List.map_map]
    refine List.map_congr_left fun k hk => ?_
    obtain ⟨k1, k2⟩ := List.mem_range'_1.1 hk
    simp only [Function.comp_apply, (e1 k (by omega) (by omega)).1, Option.map_some]
  have hex : ∀ nms : List Nm, (∀ nm ∈ nms, ∃ x, verifyCircuit cfg (s.run cfg es).disk fuel s.mpc.round nm =
      some (.ok x)) → ∃ r, verifyCircuits cfg (s.run cfg es).disk fuel s.mpc.round nms = some (.ok r) := by
    intro nms
    induction nms with
    | nil => intro _; exact ⟨[], rfl⟩
    | cons nm nms ih =>
      intro h
      obtain ⟨x, hx⟩ := h nm (by simp)
      obtain ⟨r, hr⟩ := ih fun m hm => h m (by simp [hm])
      exact ⟨x :: r, by simp only [verifyCircuits, hx, hr]; rfl⟩
  obtain ⟨r, hr⟩ := hex names fun nm hnm => by
    obtain ⟨i, hi⟩ := List.getElem?_of_mem hnm
    obtain ⟨x, hx, -⟩ := hcirc i nm hi
    exact ⟨x, hx⟩
  obtain ⟨g1, g2⟩ := (verifyCircuits_iff cfg _ fuel s.mpc.round names r).1 hr
  have hnames := h1.disk.holds.names_eq
  refine ⟨r, by simp only [verifyCeremony, hnames]; exact hr, ?_, ?_, ?_⟩
  · rw [h1.sameS, ← h1.lastS]
    refine List.ext_getElem? fun i => ?_
    by_cases hi : i < names.length
    · obtain ⟨x, e1, e2⟩ := g2 i _ (List.getElem?_eq_getElem hi)
      obtain ⟨x', e3, e4, -⟩ := hcirc i _ (List.getElem?_eq_getElem hi)
      rw [e2] at e3
      simp only [Option.some.injEq, Except.ok.injEq] at e3
      subst e3
      rw [List.getElem?_map, e1, e4]; rfl
    · rw [List.getElem?_eq_none (by simp; omega), List.getElem?_eq_none]
      rw [h1.filed.lenS sv.round h3 (Nat.le_refl _)]; omega
  · intro y hy
    rw [h4] at hy
    obtain ⟨k, hk, rfl⟩ := List.mem_map.1 hy
    obtain ⟨k1, k2⟩ := List.mem_range'_1.1 hk
    exact h1.filed.lenC k (by omega) (by omega)
  · intro i x hx
    have hi : i < names.length := by
      have := (List.getElem?_eq_some_iff.1 hx).1
      omega
    obtain ⟨x0, e1, e2⟩ := g2 i _ (List.getElem?_eq_getElem hi)
    obtain ⟨x', e3, -, e5⟩ := hcirc i _ (List.getElem?_eq_getElem hi)
    rw [e2] at e3
    simp only [Option.some.injEq, Except.ok.injEq] at e3
    subst e3
    rw [e1] at hx
    simp only [Option.some.injEq] at hx
    subst hx
    exact e5

theorem contributionHashes_issued {H : Type} (hash : Nat → List Ch → H) (l : List (Nat × List Ch)) :
    ∀ x y z : List (Ch × Nat), (∀ e ∈ l, e.2.length = 3) →
      x.map some = l.map (fun e => (e.2[0]?).map fun c => (c, e.1)) →
      y.map some = l.map (fun e => (e.2[1]?).map fun c => (c, e.1)) →
      z.map some = l.map (fun e => (e.2[2]?).map fun c => (c, e.1)) →
      contributionHashes hash z x y = some (l.map fun e => (hash e.1 e.2, e.1)) := by
  induction l with
  | nil =>
    intro x y z _ hx hy hz
    have h1 : x = [] := by simpa using hx
    have h2 : z = [] := by simpa using hz
    subst h1; subst h2
    rfl
  | cons e l ih =>
    intro x y z h3 hx hy hz
    obtain ⟨k, cs⟩ := e
    have hl : cs.length = 3 := h3 _ List.mem_cons_self
    match cs, hl with
    | [a, b, c], _ =>
      cases x with
      | nil => cases hx
      | cons x xs =>
        cases y with
        | nil => cases hy
        | cons y ys =>
          cases z with
          | nil => cases hz
          | cons z zs =>
            simp only [List.map_cons, List.cons.injEq, List.getElem?_cons_zero, List.getElem?_cons_succ,
              Option.map_some, Option.some.injEq] at hx hy hz
            obtain ⟨rfl, hx⟩ := hx
            obtain ⟨rfl, hy⟩ := hy
            obtain ⟨rfl, hz⟩ := hz
            simp only [contributionHashes, and_self, if_true, List.map_cons]
            rw [ih xs ys zs (fun e he => h3 e (List.mem_cons_of_mem _ he)) hx hy hz]
            rfl

/-- **C101, the hashes.** In the three-circuit ceremony the hashes that the verifier writes are those that the
participants computed from the responses they got (`hash index challenge`, client.rs:250-262), each with the round of the
response. -/
theorem c101_hashes_partial {H : Type} (hash : Nat → List Ch → H) (cfg : Config VK Sig St Ch Pf)
    (s : Server I VK St Ch Pf Nm) (toPrivate toPublic privateTransfer : Nm)
    (hs : Prepared s [toPrivate, toPublic, privateTransfer])
    (hl : NoLater s [toPrivate, toPublic, privateTransfer])
    (es : List (Event I VK Sig St Pf)) (hc : Clean cfg s es) (fuel : Nat) (hf : (issued cfg s es).length < fuel) :
    ∃ x y z, verifyCeremony cfg (s.run cfg es).disk fuel s.mpc.round = some (.ok [x, y, z]) ∧
      contributionHashes hash z.2 x.2 y.2 = some ((issued cfg s es).map fun e => (hash e.1 e.2, e.1)) := by
  obtain ⟨r, h1, h2, h3, h4⟩ := c101_honest_partial cfg s _ hs hl es hc fuel hf
  obtain ⟨sv, C, S, g1, -⟩ := tinv_run cfg es s [toPrivate, toPublic, privateTransfer] s.mpc.round s.mpc
    (fun _ => s.mpc.challenge) (fun _ => s.mpc.state) (prepared_tinv cfg s _ hs hl) hc
  have hlen : r.length = 3 := by
    have := congrArg List.length h2
    rw [List.length_map, g1.disk.state] at this
    exact this
  match r, hlen, h1, h4 with
  | [x, y, z], _, h1, h4 =>
    exact ⟨x, y, z, h1, contributionHashes_issued hash _ _ _ _ h3 (h4 0 x rfl) (h4 1 y rfl) (h4 2 z rfl)⟩

/-- **C101, rounds.** Whatever the three files contain, each hash that is written combines lines of one round, in the
order of the files; the writing stops with a panic exactly if lines of different rounds are met. -/
theorem c101_hash_rounds {H : Type} (hash : Nat → List Ch → H) : ∀ pts trs tus : List (Ch × Nat),
    (∀ out, contributionHashes hash pts trs tus = some out →
      out.length = min pts.length (min trs.length tus.length) ∧
      ∀ (i : Nat) pt tr tu, pts[i]? = some pt → trs[i]? = some tr → tus[i]? = some tu →
        tr.2 = pt.2 ∧ tu.2 = pt.2 ∧ out[i]? = some (hash pt.2 [tr.1, tu.1, pt.1], pt.2)) ∧
    (contributionHashes hash pts trs tus = none ↔ ∃ (i : Nat) (pt tr tu : Ch × Nat), pts[i]? = some pt ∧
      trs[i]? = some tr ∧ tus[i]? = some tu ∧ ¬(tr.2 = pt.2 ∧ tu.2 = pt.2))
  | pt :: pts, tr :: trs, tu :: tus => by
    obtain ⟨ih1, ih2⟩ := c101_hash_rounds hash pts trs tus
    unfold contributionHashes
    by_cases hc : tr.2 = tu.2 ∧ tr.2 = pt.2
    · rw [if_pos hc]
      refine ⟨fun out ho => ?_, ?_⟩
      · rw [Option.map_eq_some_iff] at ho
        obtain ⟨o, e1, rfl⟩ := ho
        obtain ⟨j1, j2⟩ := ih1 o e1
        refine ⟨by simp only [List.length_cons]; omega, fun i a b c h1 h2 h3 => ?_⟩
        cases i with
        | zero =>
          cases h1; cases h2; cases h3
          refine ⟨hc.2, hc.1.symm.trans hc.2, ?_⟩
          rw [← hc.2]
          rfl
        | succ i => exact j2 i a b c h1 h2 h3
      · rw [Option.map_eq_none_iff, ih2]
        constructor
        · rintro ⟨i, a, b, c, h⟩
          exact ⟨i + 1, a, b, c, h⟩
        · rintro ⟨i, a, b, c, h1, h2, h3, h4⟩
          cases i with
          | zero =>
            cases h1; cases h2; cases h3
            exact absurd ⟨hc.2, hc.1.symm.trans hc.2⟩ h4
          | succ i => exact ⟨i, a, b, c, h1, h2, h3, h4⟩
    · rw [if_neg hc]
      refine ⟨(fun out ho => by cases ho), ⟨fun _ => ?_, fun _ => rfl⟩⟩
      exact ⟨0, pt, tr, tu, rfl, rfl, rfl, fun h => hc ⟨h.1.trans h.2.symm, h.1⟩⟩
  | [], trs, tus => by
    refine ⟨fun out ho => ?_, ?_⟩
    · simp only [contributionHashes, Option.some.injEq] at ho
      subst ho
      exact ⟨by simp, fun i a b c h1 => by cases h1⟩
    · simp [contributionHashes]
  | pt :: pts, [], tus => by
    refine ⟨fun out ho => ?_, ?_⟩
    · simp only [contributionHashes, Option.some.injEq] at ho
      subst ho
      exact ⟨by simp, fun i a b c _ h1 => by cases h1⟩
    · simp [contributionHashes]
  | pt :: pts, tr :: trs, [] => by
    refine ⟨fun out ho => ?_, ?_⟩
    · simp only [contributionHashes, Option.some.injEq] at ho
      subst ho
      exact ⟨by simp, fun i a b c _ _ h1 => by cases h1⟩
    · simp [contributionHashes]

example : contributionHashes (fun k (l : List Nat) => k + l.sum) [(1, 4), (2, 5)] [(3, 4), (4, 5)] [(5, 4)] =
      some [(13, 4)] ∧
    contributionHashes (fun k (l : List Nat) => k + l.sum) [(1, 4), (2, 5)] [(3, 4), (4, 6)] [(5, 4), (6, 5)] = none :=
  ⟨rfl, rfl⟩

/-! ## What it does not notice -/

theorem take_range' (a : Nat) : ∀ (m n : Nat), (List.range' a n).take m = List.range' a (min m n) := by
  intro m n
  refine List.ext_getElem (by simp) fun i h1 h2 => ?_
  simp

/-- The directory without one proof file. -/
def Disk.dropProof (d : Disk I VK St Ch Pf Nm) (nm : Nm) (k : Nat) : Disk I VK St Ch Pf Nm :=
  { d with proof := fun m j => if m = nm ∧ j = k then none else d.proof m j }

omit [DecidableEq I] in
theorem verifyLoop_drop_other (cfg : Config VK Sig St Ch Pf) (d : Disk I VK St Ch Pf Nm) (nm nm' : Nm) (k : Nat)
    (h : nm' ≠ nm) (fuel : Nat) : ∀ start c s,
      verifyLoop cfg (d.dropProof nm k) nm' fuel start c s = verifyLoop cfg d nm' fuel start c s := by
  induction fuel with
  | zero => intro _ _ _; rfl
  | succ fuel ih =>
    intro start c s
    have hp : (d.dropProof nm k).proof nm' (start + 1) = d.proof nm' (start + 1) := by simp [Disk.dropProof, h]
    unfold verifyLoop
    rw [hp]
    show (match d.proof nm' (start + 1), d.state nm' (start + 1) with
      | some p, some n => _
      | _, _ => _) = _
    cases d.proof nm' (start + 1) with
    | none => rfl
    | some p =>
      cases d.state nm' (start + 1) with
      | none => rfl
      | some n => simp only [ih]

omit [DecidableEq I] in
/-- **C101 is violated.** Take any directory that the verifier accepts, and any round `k` of any circuit that it has
checked. Without the proof file of that round the directory is accepted as well: the key that is extracted for this circuit
is the state of round `k - 1`, all later contributions to it are gone, and nothing changes for the other circuits, whose
keys are those of the later rounds. -/
theorem c101_truncated_violated (cfg : Config VK Sig St Ch Pf) (d : Disk I VK St Ch Pf Nm) (names : List Nm)
    (hn : d.names = some names) (fuel start : Nat) (r : List (St × List (Ch × Nat)))
    (hr : verifyCeremony cfg d fuel start = some (.ok r)) (i : Nat) (nm : Nm) (hi : names[i]? = some nm)
    (x : St × List (Ch × Nat)) (hx : r[i]? = some x) (k : Nat) (hk : start < k) (hk' : k ≤ start + x.2.length) :
    ∃ r', verifyCeremony cfg (d.dropProof nm k) fuel start = some (.ok r') ∧ r'.length = r.length ∧
      (∃ st, d.state nm (k - 1) = some st ∧ r'[i]? = some (st, x.2.take (k - 1 - start))) ∧
      ∀ (j : Nat) m, names[j]? = some m → m ≠ nm → r'[j]? = r[j]? := by
  simp only [verifyCeremony, hn] at hr
  obtain ⟨g1, g2⟩ := (verifyCircuits_iff cfg d fuel start names r).1 hr
  obtain ⟨x0, e1, e2⟩ := g2 i nm hi
  rw [hx] at e1
  simp only [Option.some.injEq] at e1
  subst e1
  obtain ⟨n, C, S, hch, hend, hfu, hxe⟩ := (c101_circuit_iff cfg d fuel start nm x).1 e2
  have hle := hch.le
  have hxl : x.2.length = n - start := by rw [hxe]; simp [lines]
  -- the circuit itself
  have hself : verifyCircuit cfg (d.dropProof nm k) fuel start nm = some (.ok (S (k - 1), lines C start (k - 1))) := by
    refine (c101_circuit_iff cfg _ fuel start nm _).2 ⟨k - 1, C, S, ⟨by omega, hch.state, hch.challenge, ?_⟩, ?_,
      by omega, rfl⟩
    · intro q q1 q2
      obtain ⟨p, w1, w2, w3, w4⟩ := hch.step q q1 (by omega)
      refine ⟨p, ?_, w2, w3, w4⟩
      simp only [Disk.dropProof]
      rw [if_neg (fun h => by omega)]
      exact w1
    · left
      simp only [Disk.dropProof]
      rw [if_pos ⟨trivial, by omega⟩]
  have hother : ∀ m, m ≠ nm → verifyCircuit cfg (d.dropProof nm k) fuel start m = verifyCircuit cfg d fuel start m := by
    intro m hm
    unfold verifyCircuit
    show (match d.state m start, d.challenge m start with
      | some s, some c => _
      | _, _ => _) = _
    cases d.state m start with
    | none => rfl
    | some s =>
      cases d.challenge m start with
      | none => rfl
      | some c => exact verifyLoop_drop_other cfg d nm m k hm fuel start c s
  have hex : ∀ nms : List Nm, (∀ m ∈ nms, ∃ y, verifyCircuit cfg (d.dropProof nm k) fuel start m =
      some (.ok y)) → ∃ r, verifyCircuits cfg (d.dropProof nm k) fuel start nms = some (.ok r) := by
    intro nms
    induction nms with
    | nil => intro _; exact ⟨[], rfl⟩
    | cons nm nms ih =>
      intro h
      obtain ⟨x, hx⟩ := h nm (by simp)
      obtain ⟨r, hr⟩ := ih fun m hm => h m (by simp [hm])
      exact ⟨x :: r, by simp only [verifyCircuits, hx, hr]; rfl⟩
  obtain ⟨r', hr'⟩ := hex names fun m hm => by
    by_cases he : m = nm
    · exact ⟨_, by rw [he]; exact hself⟩
    · obtain ⟨j, hj⟩ := List.getElem?_of_mem hm
      obtain ⟨y, -, hy⟩ := g2 j m hj
      exact ⟨y, by rw [hother m he]; exact hy⟩
  obtain ⟨f1, f2⟩ := (verifyCircuits_iff cfg _ fuel start names r').1 hr'
  have hst : d.state nm (k - 1) = some (S (k - 1)) := by
    by_cases hks : k - 1 = start
    · rw [hks]; exact hch.state
    · obtain ⟨p, -, w2, -⟩ := hch.step (k - 2) (by omega) (by omega)
      rw [show k - 2 + 1 = k - 1 by omega] at w2
      exact w2
  have hn' : (d.dropProof nm k).names = some names := hn
  refine ⟨r', by simp only [verifyCeremony, hn']; exact hr', by omega, ⟨_, hst, ?_⟩, ?_⟩
  · obtain ⟨y, y1, y2⟩ := f2 i nm hi
    rw [hself] at y2
    simp only [Option.some.injEq, Except.ok.injEq] at y2
    rw [y1, ← y2, hxe]
    simp only [lines, ← List.map_take]
    rw [take_range', Nat.min_eq_left (by omega)]
  · intro j m hj hm
    obtain ⟨y, y1, y2⟩ := f2 j m hj
    obtain ⟨z, z1, z2⟩ := g2 j m hj
    rw [hother m hm, z2] at y2
    simp only [Option.some.injEq, Except.ok.injEq] at y2
    rw [y1, z1, y2]

end Verifier

/-! ## Examples -/

theorem toy_noLater : NoLater toyServer ["a", "b"] := by
  intro k hk nm _
  have hk' : 0 < k := hk
  simp only [toyServer, toyDisk, saveWrites_eq, writes_append]
  exact ((writes_keep (toyMpc.roundWrites ["a", "b"]) _ 0 (roundWrites_at toyMpc ["a", "b"])).2.2.2 nm k (by omega)).1

/-- The honest history, then a restart and a query. -/
def honestRestart : List ToyEvent := honest2 ++ [.restart 9, .query 10 3 (13, 0)]

/-- Every contribution that reaches the state is taken over. -/
def allTaken (s : ToyServer) : List ToyEvent → Bool
  | [] => true
  | e :: es =>
    (match e with
      | .apply k =>
        match s.started[k]? with
        | some (_, st, pf) => match (s.mpc.update toy st pf).1 with
          | .ok _ => true
          | .error _ => false
        | none => true
      | _ => true) && allTaken (s.step toy e).2 es

theorem clean_of_allTaken (es : List ToyEvent) : ∀ s : ToyServer, allTaken s es = true → Clean toy s es := by
  induction es with
  | nil => intro _ _; trivial
  | cons e es ih =>
    intro s h
    simp only [allTaken, Bool.and_eq_true] at h
    refine ⟨?_, ih _ h.2⟩
    rintro k i st pf rfl hk er her
    have h1 := h.1
    simp only [hk, her] at h1
    cases h1

/-- The hypotheses of `c101_honest_partial` are met, and what the verifier says: the two keys and, per circuit, the challenges
of the two responses. -/
example : Clean toy toyServer honestRestart := clean_of_allTaken _ _ (by decide)

example : ((verifyCeremony toy (toyServer.run toy honestRestart).disk 3 0).map fun r => r.toOption) =
      some (some [(8, [(107, 1), (10708, 2)]), (10, [(109, 1), (10910, 2)])]) ∧
    issued toy toyServer honestRestart = [(1, [107, 109]), (2, [10708, 10910])] := by
  decide

/-- Without the proof of round 2 of the first circuit: its key is the state after the first contribution, the other key
that after the second. -/
example : ((verifyCeremony toy ((toyServer.run toy honest2).disk.dropProof "a" 2) 3 0).map fun r => r.toOption) =
      some (some [(7, [(107, 1)]), (10, [(109, 1), (10910, 2)])]) := by
  decide

/-- The history of `c44_breaks_transcript`. -/
def griefed : List ToyEvent :=
  [.query 0 1 (11, 0), .query 1 1 (11, 1), .start 2 1 [7, 9] [(2, 1), (4, 1)] (11, 2), .apply 0,
   .query 12 2 (12, 0), .query 13 2 (12, 1), .start 14 2 [8, 8] [(1, 107), (2, 1)] (12, 2),
   .apply 0, .finish 15 0]

/-- **C101 is violated.** The contribution of participant 1 is refused because of its second circuit, the one of
participant 2 is accepted: the verifier rejects the directory. -/
theorem c101_griefed_violated : ∃ (s : ToyServer) (names : List String) (es : List ToyEvent),
    Prepared s names ∧ NoLater s names ∧ NoRestart es ∧ Serial toy s es ∧ credited toy s es = [2] ∧
    ∀ fuel, ¬ ∃ r, verifyCeremony toy (s.run toy es).disk fuel s.mpc.round = some (.ok r) := by
  refine ⟨toyServer, ["a", "b"], griefed, toy_prepared, toy_noLater, by simp [NoRestart, griefed],
    by simp only [Serial, griefed]; decide, by decide, ?_⟩
  rintro fuel ⟨r, hr⟩
  obtain ⟨names, h1, h2, h3⟩ := (c101_accept_iff _ _ _ _ _).1 hr
  have hn : names = ["a", "b"] := by
    have : some names = some ["a", "b"] := by rw [← h1]; decide
    exact Option.some.inj this
  subst hn
  obtain ⟨n, C, S, e1, e2, -⟩ := h3 0 "a" rfl
  have d1 : (toyServer.run toy griefed).disk.proof "a" 1 = some (1, 107) := by decide
  have d2 : (toyServer.run toy griefed).disk.state "a" 1 = some 8 := by decide
  have d3 : (toyServer.run toy griefed).disk.state "a" 0 = some 5 := by decide
  have d4 : (toyServer.run toy griefed).disk.challenge "a" 0 = some 1 := by decide
  have hs0 : S 0 = 5 := Option.some.inj (e1.state.symm.trans d3)
  have hc0 : C 0 = 1 := Option.some.inj (e1.challenge.symm.trans d4)
  cases n with
  | zero =>
    rcases e2 with h | h
    · rw [d1] at h; cases h
    · rw [d2] at h; cases h
  | succ n =>
    obtain ⟨p, w1, w2, w3, -⟩ := e1.step 0 (Nat.le_refl _) (Nat.succ_pos n)
    have hp : p = (1, 107) := Option.some.inj (w1.symm.trans d1)
    have hs1 : S 1 = 8 := Option.some.inj (w2.symm.trans d2)
    rw [hp, hs0, hc0, show S (0 + 1) = 8 from hs1] at w3
    revert w3
    decide

end Verif.Ceremony
