import Verif.Ceremony.Rounds

/-!
# C45: recovery from the files, and C43 across restarts
-/

namespace Verif.Ceremony

open Verif.Util

section Recovery

variable {I VK Sig St Ch Pf Nm : Type} [DecidableEq I] [DecidableEq Nm]

/-- A file of round `k`. -/
def Write.AtRound (k : Nat) : Write I VK St Ch Pf Nm → Prop
  | .state _ r _ => r = k
  | .challenge _ r _ => r = k
  | .proof _ r _ => r = k
  | .registry _ _ => False
  | .roundNumber _ => False

omit [DecidableEq I] in
theorem writes_append (d : Disk I VK St Ch Pf Nm) (ws ws' : List (Write I VK St Ch Pf Nm)) :
    d.writes (ws ++ ws') = (d.writes ws).writes ws' := by
  simp [Disk.writes]

omit [DecidableEq I] in
/-- Writing files of round `k` leaves everything else alone. -/
theorem writes_keep (ws : List (Write I VK St Ch Pf Nm)) (d : Disk I VK St Ch Pf Nm) (k : Nat)
    (h : ∀ w ∈ ws, w.AtRound k) :
    (d.writes ws).roundNumber = d.roundNumber ∧ (d.writes ws).names = d.names ∧
    (d.writes ws).registry = d.registry ∧
    ∀ nm k', k' ≠ k → (d.writes ws).state nm k' = d.state nm k' ∧
      (d.writes ws).challenge nm k' = d.challenge nm k' ∧
      (d.writes ws).proof nm k' = d.proof nm k' := by
  induction ws generalizing d with
  | nil => exact ⟨rfl, rfl, rfl, fun _ _ _ => ⟨rfl, rfl, rfl⟩⟩
  | cons w ws ih =>
    obtain ⟨h1, h2, h3, h4⟩ := ih (d.write w) fun w' hw => h w' (by simp [hw])
    have hw := h w (by simp)
    simp only [Disk.writes, List.foldl_cons] at h1 h2 h3 h4 ⊢
    rw [h1, h2, h3]
    cases w with
    | state nm r s =>
      refine ⟨rfl, rfl, rfl, fun nm' k' hk => ?_⟩
      obtain ⟨a, b, c⟩ := h4 nm' k' hk
      refine ⟨?_, by rw [b]; rfl, by rw [c]; rfl⟩
      rw [a]
      simp only [Write.AtRound] at hw
      simp only [Disk.write]
      rw [if_neg]
      rintro ⟨_, hk'⟩; exact hk (hk'.trans hw)
    | challenge nm r s =>
      refine ⟨rfl, rfl, rfl, fun nm' k' hk => ?_⟩
      obtain ⟨a, b, c⟩ := h4 nm' k' hk
      refine ⟨by rw [a]; rfl, ?_, by rw [c]; rfl⟩
      rw [b]
      simp only [Write.AtRound] at hw
      simp only [Disk.write]
      rw [if_neg]
      rintro ⟨_, hk'⟩; exact hk (hk'.trans hw)
    | proof nm r s =>
      refine ⟨rfl, rfl, rfl, fun nm' k' hk => ?_⟩
      obtain ⟨a, b, c⟩ := h4 nm' k' hk
      refine ⟨by rw [a]; rfl, by rw [b]; rfl, ?_⟩
      rw [c]
      simp only [Write.AtRound] at hw
      simp only [Disk.write]
      rw [if_neg]
      rintro ⟨_, hk'⟩; exact hk (hk'.trans hw)
    | registry _ _ => exact hw.elim
    | roundNumber _ => exact hw.elim

omit [DecidableEq I] [DecidableEq Nm] in
theorem recoverLoop_congr (d d' : Disk I VK St Ch Pf Nm) (k : Nat) (nms : List Nm)
    (h : ∀ nm ∈ nms, d'.state nm k = d.state nm k ∧ d'.challenge nm k = d.challenge nm k ∧
      d'.proof nm k = d.proof nm k) : recoverLoop d' k nms = recoverLoop d k nms := by
  induction nms with
  | nil => rfl
  | cons nm nms ih =>
    obtain ⟨a, b, c⟩ := h nm (by simp)
    simp only [recoverLoop, a, b, c, ih fun nm' hn => h nm' (by simp [hn])]

omit [DecidableEq I] in
theorem recoverLoop_registry (d : Disk I VK St Ch Pf Nm) (k k' : Nat) (r : Registry I VK)
    (nms : List Nm) : recoverLoop (d.write (.registry k' r)) k nms = recoverLoop d k nms :=
  recoverLoop_congr d (d.write (.registry k' r)) k nms fun _ _ => ⟨rfl, rfl, rfl⟩

/-- The files of one round, without the final `round_number`. -/
def Sclp.roundWrites (m : Sclp St Ch Pf) (names : List Nm) : List (Write I VK St Ch Pf Nm) :=
  stateWrites m.round (m.state.zip m.challenge) names ++
    (if m.round > 0 then proofWrites m.round (m.proof.getD []) names else [])

omit [DecidableEq I] [DecidableEq Nm] in
theorem saveWrites_eq (m : Sclp St Ch Pf) (names : List Nm) :
    (m.saveWrites names : List (Write I VK St Ch Pf Nm)) =
      m.roundWrites names ++ [.roundNumber m.round] := rfl

theorem roundWrites_at (m : Sclp St Ch Pf) (names : List Nm) :
    ∀ w ∈ (m.roundWrites names : List (Write I VK St Ch Pf Nm)), w.AtRound m.round := by
  intro w hw
  unfold Sclp.roundWrites at hw
  rcases List.mem_append.1 hw with hw | hw
  · obtain ⟨nm, _, ⟨_, rfl⟩ | ⟨_, rfl⟩⟩ := stateWrites_mem _ _ _ _ hw <;> rfl
  · split at hw
    · obtain ⟨nm, _, _, rfl⟩ := proofWrites_mem _ _ _ _ hw; rfl
    · cases hw

omit [DecidableEq I] in
/-- **C45, before the round number is written.** A crash after any of the files of a new round but
before `round_number` leaves exactly what could be recovered before. -/
theorem c45_before_round_number (d : Disk I VK St Ch Pf Nm) (N : Nat) (m : Sclp St Ch Pf)
    (names : List Nm) (k : Nat) (hk : d.roundNumber = some k) (hkm : k ≠ m.round) (j : Nat)
    (hj : j < (m.saveWrites names : List (Write I VK St Ch Pf Nm)).length) :
    (d.writes ((m.saveWrites names).take j)).recover N = d.recover N := by
  classical
  rw [saveWrites_eq] at hj ⊢
  have htake : (m.roundWrites names ++ [Write.roundNumber m.round]).take j =
      (m.roundWrites names : List (Write I VK St Ch Pf Nm)).take j := by
    rw [List.take_append_of_le_length]
    simp only [List.length_append, List.length_singleton] at hj
    omega
  rw [htake]
  obtain ⟨h1, h2, h3, h4⟩ := writes_keep ((m.roundWrites names).take j) d m.round
    fun w hw => roundWrites_at m names w (List.mem_of_mem_take hw)
  unfold Disk.recover
  rw [h1, h2, h3, hk]
  simp only
  cases d.names with
  | none => rfl
  | some nms =>
    simp only
    rw [recoverLoop_congr d _ k nms fun nm _ => h4 nm k hkm]

omit [DecidableEq I] in
/-- The files written for a round are the ones read back. -/
theorem stateWrites_read (k : Nat) (l : List (St × Ch)) (nms : List Nm) (hn : nms.Nodup)
    (hl : l.length = nms.length) (d : Disk I VK St Ch Pf Nm) :
    (∀ (i : Nat) nm s c, nms[i]? = some nm → l[i]? = some (s, c) →
      (d.writes (stateWrites k l nms)).state nm k = some s ∧
      (d.writes (stateWrites k l nms)).challenge nm k = some c) ∧
    (∀ nm, nm ∉ nms → (d.writes (stateWrites k l nms)).state nm k = d.state nm k ∧
      (d.writes (stateWrites k l nms)).challenge nm k = d.challenge nm k) := by
  induction nms generalizing l d with
  | nil =>
    refine ⟨by simp, fun nm _ => ?_⟩
    cases l with
    | nil => exact ⟨rfl, rfl⟩
    | cons x l => exact ⟨rfl, rfl⟩
  | cons nm nms ih =>
    match l, hl with
    | (s, c) :: l, hl =>
      rw [List.nodup_cons] at hn
      simp only [stateWrites, Disk.writes, List.foldl_cons]
      obtain ⟨h1, h2⟩ := ih l hn.2 (by simpa using hl)
        ((d.write (.state nm k s)).write (.challenge nm k c))
      simp only [Disk.writes] at h1 h2
      refine ⟨?_, ?_⟩
      · intro i nm' s' c' hi hs
        cases i with
        | zero =>
          simp only [List.getElem?_cons_zero, Option.some.injEq, Prod.mk.injEq] at hi hs
          obtain ⟨rfl, rfl⟩ := hs
          subst hi
          obtain ⟨a, b⟩ := h2 nm hn.1
          rw [a, b]
          simp [Disk.write]
        | succ i =>
          exact h1 i nm' s' c' (by simpa using hi) (by simpa using hs)
      · intro nm' hnm
        simp only [List.mem_cons, not_or] at hnm
        obtain ⟨a, b⟩ := h2 nm' hnm.2
        rw [a, b]
        simp [Disk.write, hnm.1]

omit [DecidableEq I] in
theorem stateWrites_proof (k : Nat) (l : List (St × Ch)) (nms : List Nm)
    (d : Disk I VK St Ch Pf Nm) : (d.writes (stateWrites k l nms)).proof = d.proof := by
  induction nms generalizing l d with
  | nil => cases l <;> rfl
  | cons nm nms ih =>
    cases l with
    | nil => rfl
    | cons x l =>
      have := ih l ((d.write (.state nm k x.1)).write (.challenge nm k x.2))
      simp only [stateWrites, Disk.writes, List.foldl_cons] at this ⊢
      rw [this]
      rfl

omit [DecidableEq I] in
theorem proofWrites_read (k : Nat) (l : List Pf) (nms : List Nm) (hn : nms.Nodup)
    (hl : l.length = nms.length) (d : Disk I VK St Ch Pf Nm) :
    (∀ (i : Nat) nm p, nms[i]? = some nm → l[i]? = some p →
      (d.writes (proofWrites k l nms)).proof nm k = some p) ∧
    (∀ nm, nm ∉ nms → (d.writes (proofWrites k l nms)).proof nm k = d.proof nm k) ∧
    (d.writes (proofWrites k l nms)).state = d.state ∧
    (d.writes (proofWrites k l nms)).challenge = d.challenge := by
  induction nms generalizing l d with
  | nil =>
    refine ⟨by simp, fun nm _ => ?_, ?_, ?_⟩ <;> cases l <;> rfl
  | cons nm nms ih =>
    match l, hl with
    | p :: l, hl =>
      rw [List.nodup_cons] at hn
      simp only [proofWrites, Disk.writes, List.foldl_cons]
      obtain ⟨h1, h2, h3, h4⟩ := ih l hn.2 (by simpa using hl) (d.write (.proof nm k p))
      simp only [Disk.writes] at h1 h2 h3 h4
      refine ⟨?_, ?_, by rw [h3]; rfl, by rw [h4]; rfl⟩
      · intro i nm' p' hi hp
        cases i with
        | zero =>
          simp only [List.getElem?_cons_zero, Option.some.injEq] at hi hp
          subst hi; subst hp
          rw [h2 nm hn.1]
          simp [Disk.write]
        | succ i => exact h1 i nm' p' (by simpa using hi) (by simpa using hp)
      · intro nm' hnm
        simp only [List.mem_cons, not_or] at hnm
        rw [h2 nm' hnm.2]
        simp [Disk.write, hnm.1]

omit [DecidableEq I] [DecidableEq Nm] in
theorem recoverLoop_reads (d : Disk I VK St Ch Pf Nm) (k : Nat) (nms : List Nm) (ss : List St)
    (cs : List Ch) (ps : List Pf) (hs : ss.length = nms.length) (hc : cs.length = nms.length)
    (hp : ps.length = if k > 0 then nms.length else 0)
    (h : ∀ (i : Nat) nm s c, nms[i]? = some nm → ss[i]? = some s → cs[i]? = some c →
      d.state nm k = some s ∧ d.challenge nm k = some c)
    (h' : k > 0 → ∀ (i : Nat) nm p, nms[i]? = some nm → ps[i]? = some p → d.proof nm k = some p) :
    recoverLoop d k nms = some (ss, cs, ps) := by
  induction nms generalizing ss cs ps with
  | nil =>
    have e1 : ss = [] := List.length_eq_zero_iff.1 hs
    have e2 : cs = [] := List.length_eq_zero_iff.1 hc
    have e3 : ps = [] := List.length_eq_zero_iff.1 (by rw [hp]; split <;> rfl)
    subst e1; subst e2; subst e3; rfl
  | cons nm nms ih =>
    match ss, cs, hs, hc with
    | s :: ss, c :: cs, hs, hc =>
      obtain ⟨a, b⟩ := h 0 nm s c rfl rfl rfl
      simp only [recoverLoop, a, b]
      by_cases hk : k > 0
      · rw [if_pos hk] at hp ⊢
        match ps, hp with
        | p :: ps, hp =>
          rw [h' hk 0 nm p rfl rfl]
          simp only
          rw [ih ss cs ps (by simpa using hs) (by simpa using hc) (by rw [if_pos hk]; simpa using hp)
            (fun i nm' s' c' h1 h2 h3 => h (i + 1) nm' s' c' (by simpa using h1) (by simpa using h2)
              (by simpa using h3))
            (fun hk' i nm' p' h1 h2 => h' hk' (i + 1) nm' p' (by simpa using h1)
              (by simpa using h2))]
          rfl
      · rw [if_neg hk] at hp ⊢
        rw [ih ss cs ps (by simpa using hs) (by simpa using hc) (by rw [if_neg hk]; exact hp)
          (fun i nm' s' c' h1 h2 h3 => h (i + 1) nm' s' c' (by simpa using h1) (by simpa using h2)
            (by simpa using h3))
          (fun hk' => absurd hk' hk)]
        rfl

/-- A ceremony state over `N` circuits: all vectors have length `N`, and there is a proof except in
round 0. -/
structure Sclp.Shape (m : Sclp St Ch Pf) (N : Nat) : Prop where
  state : m.state.length = N
  challenge : m.challenge.length = N
  proof0 : m.round = 0 → m.proof = none
  proof : m.round ≠ 0 → ∃ ps, m.proof = some ps ∧ ps.length = N

/-- The directory holds the ceremony state `m`. -/
structure Disk.Holds (d : Disk I VK St Ch Pf Nm) (names : List Nm) (m : Sclp St Ch Pf) : Prop where
  names_eq : d.names = some names
  round_eq : d.roundNumber = some m.round
  files : recoverLoop d m.round names = some (m.state, m.challenge, m.proof.getD [])
  proof0 : m.round = 0 → m.proof = none
  proof : m.round ≠ 0 → m.proof ≠ none

omit [DecidableEq I] [DecidableEq Nm] in
/-- A directory that holds `m` recovers to `m` if the registry of the round is there. -/
theorem recover_holds (d : Disk I VK St Ch Pf Nm) (names : List Nm) (m : Sclp St Ch Pf)
    (h : d.Holds names m) :
    d.recover names.length = match d.registry m.round with
      | none => .error .serialization
      | some r => .ok (m, r) := by
  unfold Disk.recover
  rw [h.round_eq, h.names_eq]
  simp only [ne_eq, not_true_eq_false, if_false, h.files]
  cases d.registry m.round with
  | none => rfl
  | some r =>
    simp only
    refine congrArg Except.ok (Prod.ext ?_ rfl)
    obtain ⟨st, ch, pf, rd⟩ := m
    simp only [Sclp.mk.injEq, true_and, and_true]
    by_cases h0 : rd = 0
    · rw [if_pos h0]; exact (h.proof0 h0).symm
    · rw [if_neg h0]
      have := h.proof h0
      cases pf with
      | none => exact absurd rfl this
      | some ps => rfl

omit [DecidableEq I] in
/-- Saving makes the directory hold the state. -/
theorem save_holds (d : Disk I VK St Ch Pf Nm) (names : List Nm) (m : Sclp St Ch Pf)
    (hd : d.names = some names) (hn : names.Nodup) (hm : m.Shape names.length) :
    (d.writes (m.saveWrites names)).Holds names m ∧
    (d.writes (m.saveWrites names)).registry = d.registry := by
  classical
  obtain ⟨h1, h2, h3, h4⟩ := writes_keep (m.roundWrites names) d m.round (roundWrites_at m names)
  have hw : d.writes (m.saveWrites names) =
      (d.writes (m.roundWrites names)).write (.roundNumber m.round) := by
    rw [saveWrites_eq, writes_append]; rfl
  rw [hw]
  refine ⟨⟨by simp only [Disk.write]; rw [h2, hd], rfl, ?_, hm.proof0, ?_⟩, by
    simp only [Disk.write]; exact h3⟩
  · have hc : recoverLoop ((d.writes (m.roundWrites names)).write (.roundNumber m.round)) m.round
        names = recoverLoop (d.writes (m.roundWrites names)) m.round names :=
      recoverLoop_congr _ _ m.round names fun nm _ => ⟨rfl, rfl, rfl⟩
    rw [hc]
    have hz : (m.state.zip m.challenge).length = names.length := by
      rw [List.length_zip, hm.state, hm.challenge]; simp
    obtain ⟨r1, r2⟩ := stateWrites_read m.round (m.state.zip m.challenge) names hn hz d
    unfold Sclp.roundWrites
    by_cases h0 : m.round > 0
    · rw [if_pos h0, writes_append]
      obtain ⟨ps, hp1, hp2⟩ := hm.proof (by omega)
      rw [hp1]
      simp only [Option.getD_some]
      obtain ⟨q1, _, q3, q4⟩ := proofWrites_read m.round ps names hn hp2
        (d.writes (stateWrites m.round (m.state.zip m.challenge) names))
      refine recoverLoop_reads _ _ _ _ _ _ hm.state hm.challenge (by rw [if_pos h0]; exact hp2) ?_ ?_
      · intro i nm s c a1 a2 a3
        rw [q3, q4]
        exact r1 i nm s c a1 (by rw [List.getElem?_zip_eq_some]; exact ⟨a2, a3⟩)
      · intro _ i nm p a1 a2
        exact q1 i nm p a1 a2
    · rw [if_neg h0, List.append_nil, hm.proof0 (by omega)]
      refine recoverLoop_reads _ _ _ _ _ _ hm.state hm.challenge (by rw [if_neg h0]; rfl) ?_ ?_
      · intro i nm s c a1 a2 a3
        exact r1 i nm s c a1 (by rw [List.getElem?_zip_eq_some]; exact ⟨a2, a3⟩)
      · intro h; exact absurd h h0
  · intro h0
    obtain ⟨ps, hp, _⟩ := hm.proof h0
    rw [hp]; simp

/-! ## Histories -/

/-- The ceremony state of the last accepted round of a history that begins with `saved`. -/
def lastSaved (cfg : Config VK Sig St Ch Pf) (s : Server I VK St Ch Pf Nm)
    (saved : Sclp St Ch Pf) : List (Event I VK Sig St Pf) → Sclp St Ch Pf
  | [] => saved
  | e :: es => lastSaved cfg (s.step cfg e).2
      (if creditedAt cfg s e = [] then saved else (s.step cfg e).2.mpc) es

/-- The directory `prepare` leaves behind, or any server that was just recovered. -/
structure Prepared (s : Server I VK St Ch Pf Nm) (names : List Nm) : Prop where
  nodup : names.Nodup
  shape : s.mpc.Shape names.length
  holds : s.disk.Holds names s.mpc
  idle : Idle s
  registry : s.disk.registry s.mpc.round ≠ none
  later : ∀ k, s.mpc.round < k → s.disk.registry k = none

structure DiskInv (s : Server I VK St Ch Pf Nm) (names : List Nm) (saved : Sclp St Ch Pf) : Prop where
  nodup : names.Nodup
  shape : saved.Shape names.length
  state : s.mpc.state.length = names.length
  challenge : s.mpc.challenge.length = names.length
  round : s.mpc.round = saved.round
  holds : s.disk.Holds names saved
  later : ∀ k, saved.round < k → s.disk.registry k = none
  current : s.disk.registry saved.round = none ↔ saved.round ∈ s.applied.map Prod.snd
  below : ∀ k ∈ s.applied.map Prod.snd, k ≤ saved.round
  rounds : (s.applied.map Prod.snd).Nodup
  known : ∀ i ∈ s.applied.map Prod.fst, s.reg.get i ≠ none
  knownS : ∀ i ∈ s.started.map Prod.fst, s.reg.get i ≠ none

theorem applyAll_lengths (cfg : Config VK Sig St Ch Pf) (ss : List St) (cs : List Ch)
    (l : List (St × Pf)) :
    (applyAll cfg ss cs l).2.1.length = ss.length ∧
    (applyAll cfg ss cs l).2.2.length = cs.length := by
  fun_induction applyAll cfg ss cs l with
  | case1 s ss c cs n p rest hg r ih =>
    simp only [List.length_cons]
    exact ⟨by rw [ih.1], by rw [ih.2]⟩
  | case2 => exact ⟨rfl, rfl⟩
  | case3 => exact ⟨rfl, rfl⟩

theorem update_ok (cfg : Config VK Sig St Ch Pf) (m m' : Sclp St Ch Pf) (st : List St)
    (pf : List Pf) (k : Nat) (h : m.update cfg st pf = (.ok k, m')) :
    k = m.round + 1 ∧ m'.round = m.round + 1 ∧ m'.proof = some pf ∧
    pf.length = m.state.length ∧ m'.state.length = m.state.length ∧
    m'.challenge.length = m.challenge.length := by
  unfold Sclp.update at h
  split at h
  · rename_i hl
    simp only at h
    split at h
    · simp only [Prod.mk.injEq, Except.ok.injEq] at h
      obtain ⟨h1, h2⟩ := h
      subst h2
      obtain ⟨a, b⟩ := applyAll_lengths cfg m.state m.challenge (st.zip pf)
      exact ⟨h1.symm, rfl, rfl, hl.2, a, b⟩
    · cases h
  · cases h

theorem update_err (cfg : Config VK Sig St Ch Pf) (m m' : Sclp St Ch Pf) (st : List St)
    (pf : List Pf) (e : Err) (h : m.update cfg st pf = (.error e, m')) :
    m'.round = m.round ∧ m'.state.length = m.state.length ∧
    m'.challenge.length = m.challenge.length := by
  unfold Sclp.update at h
  split at h
  · simp only at h
    split at h
    · cases h
    · simp only [Prod.mk.injEq] at h
      obtain ⟨_, h2⟩ := h
      subst h2
      obtain ⟨a, b⟩ := applyAll_lengths cfg m.state m.challenge (st.zip pf)
      exact ⟨rfl, a, b⟩
  · simp only [Prod.mk.injEq] at h
    obtain ⟨_, rfl⟩ := h
    exact ⟨rfl, rfl, rfl⟩

theorem request_mpc (cfg : Config VK Sig St Ch Pf) (s : Server I VK St Ch Pf Nm)
    (e : Event I VK Sig St Pf) (i : I) (b : Body St Pf) (sig : Sig)
    (he : e.request = some (i, b, sig)) :
    (s.step cfg e).2.mpc = s.mpc ∧ (s.step cfg e).2.disk = s.disk := by
  cases e with
  | query now i' sig' =>
    simp only [Server.step, Server.query]
    split
    · exact ⟨rfl, rfl⟩
    · split
      · exact ⟨rfl, rfl⟩
      · split <;> exact ⟨rfl, rfl⟩
  | start now i' st pf sig' =>
    simp only [Server.step, Server.start]
    split
    · exact ⟨rfl, rfl⟩
    · split <;> exact ⟨rfl, rfl⟩
  | apply k => cases he
  | finish now k => cases he
  | reload rows => cases he
  | restart now => cases he

theorem diskInv_step (cfg : Config VK Sig St Ch Pf) (s : Server I VK St Ch Pf Nm)
    (names : List Nm) (saved : Sclp St Ch Pf) (e : Event I VK Sig St Pf)
    (h : DiskInv s names saved) :
    DiskInv (s.step cfg e).2 names
      (if creditedAt cfg s e = [] then saved else (s.step cfg e).2.mpc) := by
  cases hr : e.request with
  | some x =>
    obtain ⟨i, b, sig⟩ := x
    obtain ⟨h1, h2, h3⟩ := request_flight cfg s e i b sig hr
    obtain ⟨h4, h5⟩ := request_mpc cfg s e i b sig hr
    have hcr : creditedAt cfg s e = [] := by cases e <;> first | rfl | cases hr
    rw [if_pos hcr]
    have keep : ∀ j, s.reg.get j ≠ none → (s.step cfg e).2.reg.get j ≠ none := by
      intro j hj
      cases hg : s.reg.get j with
      | none => exact absurd hg hj
      | some p =>
        obtain ⟨p', hp', _⟩ := h3 j p hg
        rw [hp']; simp
    refine ⟨h.nodup, h.shape, ?_, ?_, ?_, ?_, ?_, ?_, ?_, ?_, ?_, ?_⟩
    · rw [h4]; exact h.state
    · rw [h4]; exact h.challenge
    · rw [h4]; exact h.round
    · rw [h5]; exact h.holds
    · rw [h5]; exact h.later
    · rw [h5, h1]; exact h.current
    · rw [h1]; exact h.below
    · rw [h1]; exact h.rounds
    · rw [h1]; exact fun j hj => keep j (h.known j hj)
    · intro j hj
      refine keep j ?_
      rcases h2 with h2 | ⟨⟨st, pf, h2⟩, p, hp, _⟩
      · rw [h2] at hj; exact h.knownS j hj
      · rw [h2] at hj
        simp only [List.map_append, List.map_cons, List.map_nil, List.mem_append,
          List.mem_singleton] at hj
        rcases hj with hj | hj
        · exact h.knownS j hj
        · rw [hj, hp]; simp
  | none =>
    cases e with
    | query now i sig => cases hr
    | start now i st pf sig => cases hr
    | apply k =>
      cases hk : s.started[k]? with
      | none => simp only [Server.step, creditedAt, Server.apply, hk, if_true]; exact h
      | some x =>
        obtain ⟨i, st, pf⟩ := x
        simp only [Server.step, creditedAt, Server.apply, hk]
        have him : i ∈ s.started.map Prod.fst := List.mem_of_getElem? (by simp [hk] : (s.started.map Prod.fst)[k]? = some i)
        rcases hu : s.mpc.update cfg st pf with ⟨res, m⟩
        cases res with
        | error er =>
          simp only [if_true]
          obtain ⟨u1, u2, u3⟩ := update_err cfg s.mpc m st pf er hu
          refine ⟨h.nodup, h.shape, by simpa [u2] using h.state, by simpa [u3] using h.challenge,
            by simpa [u1] using h.round, h.holds, h.later, h.current, h.below, h.rounds, h.known, ?_⟩
          intro j hj
          simp only [map_eraseIdx] at hj
          exact h.knownS j (List.mem_of_mem_eraseIdx hj)
        | ok round =>
          simp only [List.cons_ne_nil, if_false]
          obtain ⟨u0, u1, u2, u3, u4, u5⟩ := update_ok cfg s.mpc m st pf round hu
          have hshape : m.Shape names.length := by
            refine ⟨by rw [u4, h.state], by rw [u5, h.challenge], by omega, fun _ => ⟨pf, u2, ?_⟩⟩
            rw [u3, h.state]
          have hd := h.holds.names_eq
          obtain ⟨hh, hreg⟩ := save_holds s.disk names m hd h.nodup hshape
          have hround := h.round
          refine ⟨h.nodup, hshape, ?_, ?_, rfl, ?_, ?_, ?_, ?_, ?_, ?_, ?_⟩
          · exact hshape.state
          · exact hshape.challenge
          · simp only [hd, Option.getD_some]; exact hh
          · intro k' hk'
            simp only [hd, Option.getD_some] at hk' ⊢
            rw [hreg]
            exact h.later k' (by omega)
          · simp only [hd, Option.getD_some, List.map_append, List.map_cons, List.map_nil,
              List.mem_append, List.mem_singleton]
            rw [hreg]
            refine ⟨fun _ => .inr (by omega), fun _ => h.later _ (by omega)⟩
          · intro k' hk'
            simp only [List.map_append, List.map_cons, List.map_nil, List.mem_append,
              List.mem_singleton] at hk'
            rcases hk' with hk' | hk'
            · have := h.below k' hk'
              omega
            · omega
          · simp only [List.map_append, List.map_cons, List.map_nil]
            rw [List.nodup_append]
            refine ⟨h.rounds, by simp, ?_⟩
            intro a ha b hb hab
            simp only [List.mem_singleton] at hb
            have := h.below a ha
            omega
          · intro j hj
            simp only [List.map_append, List.map_cons, List.map_nil, List.mem_append,
              List.mem_singleton] at hj
            rcases hj with hj | hj
            · exact h.known j hj
            · rw [hj]; exact h.knownS i him
          · intro j hj
            simp only [map_eraseIdx] at hj
            exact h.knownS j (List.mem_of_mem_eraseIdx hj)
    | finish now k =>
      cases hk : s.applied[k]? with
      | none => simp only [Server.step, creditedAt, if_true, Server.finish, hk]; exact h
      | some x =>
        obtain ⟨i, round⟩ := x
        have hik : (s.applied.map Prod.fst)[k]? = some i := by simp [hk]
        have hrk : (s.applied.map Prod.snd)[k]? = some round := by simp [hk]
        have hi := h.known i (List.mem_of_getElem? hik)
        cases hg : s.reg.get i with
        | none => exact absurd hg hi
        | some p =>
          simp only [Server.step, creditedAt, if_true, Server.finish, hk, hg]
          have keep : ∀ j, s.reg.get j ≠ none → (s.lq.updateExpired
              (s.reg.modify i fun p => { p with contributed := true }) now).2.2.get j ≠ none := by
            intro j hj
            cases hgj : s.reg.get j with
            | none => exact absurd hgj hj
            | some q =>
              simp only [updateExpired_get, Registry.get_modify, hgj]
              by_cases hji : j = i
              · subst hji; simp
              · simp [hji]
          refine ⟨h.nodup, h.shape, h.state, h.challenge, h.round, ?_, ?_, ?_, ?_, ?_, ?_, ?_⟩
          · exact ⟨h.holds.names_eq, h.holds.round_eq,
              (recoverLoop_registry ..).trans h.holds.files, h.holds.proof0, h.holds.proof⟩
          · intro k' hk'
            simp only [Disk.write]
            have := h.below round (List.mem_of_getElem? hrk)
            rw [if_neg (by omega)]
            exact h.later k' hk'
          · simp only [Disk.write, map_eraseIdx]
            by_cases hr' : saved.round = round
            · rw [if_pos hr']
              constructor
              · intro hn; cases hn
              · intro hm
                rw [hr'] at hm
                exact absurd hm (mem_eraseIdx_ne h.rounds hrk)
            · rw [if_neg hr', h.current]
              constructor
              · intro hm
                obtain ⟨n, hn⟩ := List.getElem?_of_mem hm
                rw [List.mem_eraseIdx_iff_getElem?]
                refine ⟨n, ?_, hn⟩
                rintro rfl
                rw [hn] at hrk
                simp only [Option.some.injEq] at hrk
                exact hr' hrk
              · exact List.mem_of_mem_eraseIdx
          · intro k' hk'
            simp only [map_eraseIdx] at hk'
            exact h.below k' (List.mem_of_mem_eraseIdx hk')
          · simp only [map_eraseIdx]
            exact h.rounds.sublist (List.eraseIdx_sublist ..)
          · intro j hj
            simp only [map_eraseIdx] at hj
            exact keep j (h.known j (List.mem_of_mem_eraseIdx hj))
          · intro j hj
            exact keep j (h.knownS j hj)
    | reload rows =>
      simp only [Server.step, creditedAt, if_true]
      have keep : ∀ j, s.reg.get j ≠ none → (s.reg.loadAppend rows).2.get j ≠ none := by
        intro j hj
        cases hg : s.reg.get j with
        | none => exact absurd hg hj
        | some p => simp only [Registry.loadAppend, Registry.get_loadLoop, hg]; simp
      exact ⟨h.nodup, h.shape, h.state, h.challenge, h.round, h.holds, h.later, h.current, h.below,
        h.rounds, fun j hj => keep j (h.known j hj), fun j hj => keep j (h.knownS j hj)⟩
    | restart now =>
      simp only [Server.step, creditedAt, if_true, Server.restart]
      have hrec := recover_holds s.disk names saved h.holds
      rw [h.state, hrec]
      cases hreg : s.disk.registry saved.round with
      | none => exact h
      | some r =>
        simp only
        refine ⟨h.nodup, h.shape, h.shape.state, h.shape.challenge, rfl, h.holds, h.later, ?_, ?_, ?_,
          ?_, ?_⟩
        · simp [hreg]
        all_goals simp

theorem diskInv_run (cfg : Config VK Sig St Ch Pf) (es : List (Event I VK Sig St Pf))
    (s : Server I VK St Ch Pf Nm) (names : List Nm) (saved : Sclp St Ch Pf)
    (h : DiskInv s names saved) : DiskInv (s.run cfg es) names (lastSaved cfg s saved es) := by
  induction es generalizing s saved with
  | nil => exact h
  | cons e es ih => exact ih _ _ (diskInv_step cfg s names saved e h)

omit [DecidableEq Nm] in
theorem prepared_inv (s : Server I VK St Ch Pf Nm) (names : List Nm) (h : Prepared s names) :
    DiskInv s names s.mpc := by
  refine ⟨h.nodup, h.shape, h.shape.state, h.shape.challenge, rfl, h.holds, h.later, ?_, ?_, ?_, ?_,
    ?_⟩
  · rw [h.idle.2]
    simp only [List.map_nil, List.not_mem_nil, iff_false]
    exact h.registry
  · simp [h.idle.2]
  · simp [h.idle.2]
  · simp [h.idle.2]
  · simp [h.idle.1]

/-- **C45, exactly.** After every history of queries, interleaved contributions, timeouts, reloads
and restarts, and for every crash point while the files of a further contribution are written (or of
none, `j = 0`), `recover` behaves as follows. Before the new `round_number` is on disk it
gives the state of the last accepted round, after it the state of the new round; in either case
only if the registry of that round has been saved, and `Err(Serialization)` otherwise. The registry
of the last accepted round has been saved iff its contribution is not still waiting for the
last step. -/
theorem c45_exact (cfg : Config VK Sig St Ch Pf) (s : Server I VK St Ch Pf Nm) (names : List Nm)
    (hs : Prepared s names) (es : List (Event I VK Sig St Pf)) (st : List St) (pf : List Pf) (k : Nat)
    (m' : Sclp St Ch Pf) (hu : (s.run cfg es).mpc.update cfg st pf = (.ok k, m')) (j : Nat) :
    let t := s.run cfg es
    let last := lastSaved cfg s s.mpc es
    let ws : List (Write I VK St Ch Pf Nm) := m'.saveWrites names
    (j < ws.length → (t.disk.writes (ws.take j)).recover names.length =
      match t.disk.registry last.round with
      | none => .error .serialization
      | some r => .ok (last, r)) ∧
    (ws.length ≤ j → (t.disk.writes (ws.take j)).recover names.length = .error .serialization) ∧
    (t.disk.registry last.round = none ↔ last.round ∈ t.applied.map Prod.snd) ∧
    (∀ r, ((t.disk.writes ws).write (.registry k r)).recover names.length = .ok (m', r)) := by
  intro t last ws
  have h := diskInv_run cfg es s names s.mpc (prepared_inv s names hs)
  obtain ⟨u0, u1, u2, u3, u4, u5⟩ := update_ok cfg t.mpc m' st pf k hu
  have hstate : t.mpc.state.length = names.length := h.state
  have hchal : t.mpc.challenge.length = names.length := h.challenge
  have hround : t.mpc.round = last.round := h.round
  have hshape : m'.Shape names.length :=
    ⟨by rw [u4, hstate], by rw [u5, hchal], by omega, fun _ => ⟨pf, u2, by rw [u3, hstate]⟩⟩
  obtain ⟨hh, hreg⟩ := save_holds t.disk names m' h.holds.names_eq h.nodup hshape
  refine ⟨?_, ?_, h.current, ?_⟩
  · intro hj
    rw [c45_before_round_number t.disk names.length m' names last.round h.holds.round_eq (by omega) j
      hj]
    exact recover_holds t.disk names last h.holds
  · intro hj
    rw [List.take_of_length_le hj, recover_holds _ names m' hh, hreg, h.later m'.round (by
      show last.round < m'.round
      omega)]
  · intro r
    have hh' : ((t.disk.writes ws).write (.registry k r)).Holds names m' :=
      ⟨hh.names_eq, hh.round_eq, 
        (recoverLoop_registry ..).trans hh.files, hh.proof0, hh.proof⟩
    rw [recover_holds _ names m' hh']
    have : ((t.disk.writes ws).write (.registry k r)).registry m'.round = some r := by
      simp only [Disk.write]
      rw [if_pos (by omega)]
    rw [this]

/-- **C45, between contributions.** At every point of every history at which the last accepted
contribution has been finished, and at every crash point before the next `round_number` is written,
`recover` succeeds with the state of the last accepted round. Missing for the full claim: the time
between `round_number` and the registry, see `c45_violated`. -/
theorem c45_recover_partial (cfg : Config VK Sig St Ch Pf) (s : Server I VK St Ch Pf Nm)
    (names : List Nm) (hs : Prepared s names) (es : List (Event I VK Sig St Pf))
    (hfin : (s.run cfg es).applied = []) :
    ∃ r, (s.run cfg es).disk.recover names.length = .ok (lastSaved cfg s s.mpc es, r) := by
  have h := diskInv_run cfg es s names s.mpc (prepared_inv s names hs)
  rw [recover_holds _ names _ h.holds]
  have := h.current
  rw [hfin] at this
  cases hr : (s.run cfg es).disk.registry (lastSaved cfg s s.mpc es).round with
  | none => exact absurd (this.1 hr) (by simp)
  | some r => exact ⟨r, rfl⟩

/-- **C45 is violated** by every accepted contribution: if the process stops after the second step of
the request (the round number is on disk) and before the last one (the registry is not), then
`recover` fails. -/
theorem c45_violated (cfg : Config VK Sig St Ch Pf) (s : Server I VK St Ch Pf Nm) (names : List Nm)
    (hs : Prepared s names) (es : List (Event I VK Sig St Pf)) (k : Nat)
    (hacc : creditedAt cfg (s.run cfg es) (.apply k) ≠ []) :
    (s.run cfg (es ++ [.apply k])).disk.recover names.length = .error .serialization := by
  have h0 := diskInv_run cfg es s names s.mpc (prepared_inv s names hs)
  have h := diskInv_step cfg _ names _ (.apply k) h0
  have hrun : s.run cfg (es ++ [.apply k]) = ((s.run cfg es).step cfg (.apply k)).2 := by
    clear h0 h hacc hs
    induction es generalizing s with
    | nil => rfl
    | cons e es ih => exact ih _
  rw [hrun]
  rw [if_neg hacc] at h
  rw [recover_holds _ names _ h.holds]
  have : ((s.run cfg es).step cfg (.apply k)).2.disk.registry
      ((s.run cfg es).step cfg (.apply k)).2.mpc.round = none := by
    refine h.current.2 ?_
    generalize hS : s.run cfg es = S at hacc h0
    simp only [creditedAt] at hacc
    simp only [Server.step, Server.apply] at hacc ⊢
    cases hk : S.started[k]? with
    | none => rw [hk] at hacc; simp at hacc
    | some x =>
      obtain ⟨i, st, pf⟩ := x
      rw [hk] at hacc
      simp only at hacc ⊢
      rcases hu : S.mpc.update cfg st pf with ⟨res, m⟩
      rw [hu] at hacc
      cases res with
      | error e => simp at hacc
      | ok round =>
        obtain ⟨u0, u1, _⟩ := update_ok cfg S.mpc m st pf round hu
        simp only [List.map_append, List.map_cons, List.map_nil, List.mem_append,
          List.mem_singleton]
        right; omega
  rw [this]

/-! ## C43 across restarts -/

/-- At no point of the history more than one contribution is in flight. -/
def OneAtATime (cfg : Config VK Sig St Ch Pf) (s : Server I VK St Ch Pf Nm) :
    List (Event I VK Sig St Pf) → Prop
  | [] => s.inFlight.length ≤ 1
  | e :: es => s.inFlight.length ≤ 1 ∧ OneAtATime cfg (s.step cfg e).2 es

/-- What the files know about the credited participants. -/
structure Recorded (s : Server I VK St Ch Pf Nm) (C : List I) : Prop where
  latest : ∀ x ∈ s.applied, x.2 = s.mpc.round
  saved : s.applied = [] → ∃ r, s.disk.registry s.mpc.round = some r ∧
    ∀ i ∈ C, ∃ p, r.get i = some p ∧ p.contributed = true

omit [DecidableEq I] in
theorem nodup_of_short {l : List I} (h : l.length ≤ 1) : l.Nodup := by
  match l, h with
  | [], _ => exact List.nodup_nil
  | [x], _ => simp

theorem recorded_step (cfg : Config VK Sig St Ch Pf) (s : Server I VK St Ch Pf Nm) (C : List I)
    (names : List Nm) (saved : Sclp St Ch Pf) (hd : DiskInv s names saved)
    (e : Event I VK Sig St Pf) (h : OnceInv s C) (hrec : Recorded s C)
    (hone : s.inFlight.length ≤ 1) :
    OnceInv (s.step cfg e).2 (C ++ creditedAt cfg s e) ∧
    Recorded (s.step cfg e).2 (C ++ creditedAt cfg s e) := by
  have hlen : s.started.length + s.applied.length ≤ 1 := by
    simpa [Server.inFlight] using hone
  cases hr : e.request with
  | some x =>
    obtain ⟨i, b, sig⟩ := x
    have hcr : creditedAt cfg s e = [] := by cases e <;> first | rfl | cases hr
    refine ⟨onceInv_step cfg s C e (by rintro now rfl; cases hr) h (nodup_of_short hone), ?_⟩
    obtain ⟨h1, _, _⟩ := request_flight cfg s e i b sig hr
    obtain ⟨h4, h5⟩ := request_mpc cfg s e i b sig hr
    rw [hcr, List.append_nil]
    exact ⟨by rw [h1, h4]; exact hrec.latest, by rw [h1, h4, h5]; exact hrec.saved⟩
  | none =>
    cases e with
    | query now i sig => cases hr
    | start now i st pf sig => cases hr
    | apply k =>
      refine ⟨onceInv_step cfg s C _ (by simp) h (nodup_of_short hone), ?_⟩
      cases hk : s.started[k]? with
      | none =>
        simp only [Server.step, creditedAt, Server.apply, hk, List.append_nil]
        exact hrec
      | some x =>
        obtain ⟨i, st, pf⟩ := x
        have hk' : k < s.started.length := by
          rcases Nat.lt_or_ge k s.started.length with h' | h'
          · exact h'
          · rw [List.getElem?_eq_none h'] at hk; cases hk
        have happ : s.applied = [] := List.length_eq_zero_iff.1 (by omega)
        simp only [Server.step, creditedAt, Server.apply, hk]
        rcases hu : s.mpc.update cfg st pf with ⟨res, m⟩
        cases res with
        | error er =>
          obtain ⟨u1, _, _⟩ := update_err cfg s.mpc m st pf er hu
          simp only [List.append_nil]
          exact ⟨by simp [happ], fun _ => by rw [u1]; exact hrec.saved happ⟩
        | ok round =>
          obtain ⟨u0, u1, _⟩ := update_ok cfg s.mpc m st pf round hu
          simp only
          refine ⟨?_, by simp⟩
          intro x hx
          simp only [happ, List.nil_append, List.mem_singleton] at hx
          subst hx
          simp only; omega
    | finish now k =>
      have hstep := onceInv_step cfg s C (.finish now k) (by simp) h (nodup_of_short hone)
      refine ⟨hstep, ?_⟩
      cases hk : s.applied[k]? with
      | none =>
        simp only [Server.step, creditedAt, Server.finish, hk, List.append_nil]
        exact hrec
      | some x =>
        obtain ⟨i, round⟩ := x
        have hmem : (i, round) ∈ s.applied := List.mem_of_getElem? hk
        have hround : round = s.mpc.round := hrec.latest _ hmem
        have hk' : k < s.applied.length := by
          rcases Nat.lt_or_ge k s.applied.length with h' | h'
          · exact h'
          · rw [List.getElem?_eq_none h'] at hk; cases hk
        have herase : s.applied.eraseIdx k = [] := by
          apply List.length_eq_zero_iff.1
          rw [List.length_eraseIdx_of_lt hk']
          omega
        have hi := hd.known i (List.mem_map.2 ⟨_, hmem, rfl⟩)
        cases hg : s.reg.get i with
        | none => exact absurd hg hi
        | some p =>
          simp only [Server.step, creditedAt, Server.finish, hk, hg, List.append_nil] at hstep ⊢
          refine ⟨by simp [herase], fun _ => ⟨_, by simp only [Disk.write]; rw [if_pos hround.symm], ?_⟩⟩
          intro j hj
          rcases hstep.done j hj with hj' | hj'
          · simp [herase] at hj'
          · exact hj'
    | reload rows =>
      refine ⟨onceInv_step cfg s C _ (by simp) h (nodup_of_short hone), ?_⟩
      simp only [Server.step, creditedAt, List.append_nil]
      exact ⟨hrec.latest, hrec.saved⟩
    | restart now =>
      simp only [Server.step, creditedAt, List.append_nil, Server.restart]
      have hrc := recover_holds s.disk names saved hd.holds
      rw [hd.state, hrc]
      cases hr : s.disk.registry saved.round with
      | none => exact ⟨h, hrec⟩
      | some r =>
        simp only
        have happ : s.applied = [] := by
          match ha : s.applied with
          | [] => rfl
          | x :: l =>
            exfalso
            have hx := hrec.latest x (by rw [ha]; simp)
            have := hd.current.2 (List.mem_map.2 ⟨x, by rw [ha]; simp, by rw [hx, hd.round]⟩)
            rw [hr] at this
            cases this
        obtain ⟨r', h1, h2⟩ := hrec.saved happ
        rw [hd.round, hr] at h1
        simp only [Option.some.injEq] at h1
        subst h1
        exact ⟨⟨by simp [Server.inFlight], fun i hi => .inr (h2 i hi), h.nodup⟩,
          ⟨by simp, fun _ => ⟨r, hr, h2⟩⟩⟩

theorem recorded_run (cfg : Config VK Sig St Ch Pf) (es : List (Event I VK Sig St Pf))
    (s : Server I VK St Ch Pf Nm) (C : List I) (names : List Nm) (saved : Sclp St Ch Pf)
    (hd : DiskInv s names saved) (h : OnceInv s C) (hrec : Recorded s C)
    (hone : OneAtATime cfg s es) : (C ++ credited cfg s es).Nodup := by
  induction es generalizing s C saved with
  | nil => simpa [credited] using h.nodup
  | cons e es ih =>
    obtain ⟨h1, h2⟩ := recorded_step cfg s C names saved hd e h hrec hone.1
    have := ih _ _ _ (diskInv_step cfg s names saved e hd) h1 h2 hone.2
    simpa [credited] using this

/-- **C43 across restarts, one contribution at a time.** In every history, with any number of crashes
and recoveries at any point between two steps, in which at most one contribution is in flight
at any time, no participant is credited twice, and none is credited who is recorded as a contributor
both in memory and in the saved registry. Missing for the full claim: interleaved contributions,
see `c43_violated` and `c43_restart_violated`. -/
theorem c43_restart_partial (cfg : Config VK Sig St Ch Pf) (s : Server I VK St Ch Pf Nm)
    (names : List Nm) (hs : Prepared s names) (es : List (Event I VK Sig St Pf))
    (hone : OneAtATime cfg s es) :
    (credited cfg s es).Nodup ∧
    ∀ i p r p', s.reg.get i = some p → p.contributed = true →
      s.disk.registry s.mpc.round = some r → r.get i = some p' → p'.contributed = true →
      i ∉ credited cfg s es := by
  have hf : ∀ i ∈ s.inFlight, ∃ p, s.reg.get i = some p ∧ p.contributed = false := by
    intro i hi
    simp [Server.inFlight, hs.idle.1, hs.idle.2] at hi
  have hd := prepared_inv s names hs
  refine ⟨?_, ?_⟩
  · have hex : ∃ r, s.disk.registry s.mpc.round = some r := by
      cases hr : s.disk.registry s.mpc.round with
      | none => exact absurd hr hs.registry
      | some r => exact ⟨r, rfl⟩
    obtain ⟨r, hr⟩ := hex
    have := recorded_run cfg es s [] names s.mpc hd ⟨hf, by simp, by simp⟩
      ⟨by simp [hs.idle.2], fun _ => ⟨r, hr, by simp⟩⟩ hone
    simpa using this
  · intro i p r p' hp hc hr hp' hc' hi
    have := recorded_run cfg es s [i] names s.mpc hd
      ⟨hf, by intro j hj; simp only [List.mem_singleton] at hj; subst hj; exact .inr ⟨p, hp, hc⟩,
        by simp⟩
      ⟨by simp [hs.idle.2], fun _ => ⟨r, hr, by
        intro j hj; simp only [List.mem_singleton] at hj; subst hj; exact ⟨p', hp', hc'⟩⟩⟩ hone
    simp only [List.singleton_append, List.nodup_cons] at this
    exact this.1 hi

end Recovery

end Verif.Ceremony
