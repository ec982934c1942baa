import Verif.Keys.Extract
import Verif.Setup.Groth16

/-!
# C139: from the powers of tau to the published keys

Puts together what the other modules have in parts: the coordinator and its histories (`Verif.Ceremony`), the cryptography of
phase 2 (`Verif.Setup`: `verify_transform`, manta-trusted-setup/src/groth16/mpc.rs:472-509, `initialize`, 354-431), the transcript
verifier and the key files (`Verif.Keys`, manta-trusted-setup/src/bin/groth16_phase2_verifier.rs:78-150).
Group elements are discrete logarithms, as in `Verif.Setup`.
-/

set_option linter.unusedSectionVars false

namespace Verif.Whole

open Verif.Setup (State RatioProof Groth16Key initState srs Matrices QAP DomainSpec Balanced SameRest contribute zeroProof)
open Verif.Ceremony (Server Event Disk Registry Sclp Prepared NoLater Clean DiskInv TInv Filed issued ChainFrom EndsAt creditedAt)
open Verif.Keys (Canon KeyDir Half verifyKeys encoded over ReadExact Delivers decodeProving decodeChecked)
open Verif.Codec (Bytes)
open Polynomial

variable {F : Type} [Field F] [DecidableEq F] {Ch VK Sig I Nm : Type} [DecidableEq I] [DecidableEq Nm]

/-! ## Model -/

/-- The random coefficients of a verification. They are drawn after the contribution is known (mpc.rs:490-507,
util.rs:287-333), so they may be anything in each case. -/
abbrev Coins (F Ch : Type) := Ch → State F → State F → RatioProof F → (Nat → F) × (Nat → F)

/-- The ceremony that is run: config/ppot.rs:696-877 with `Groth16Phase2` as `verify_transform`, mpc.rs:472-509. -/
def phase2 (S : Setup.Config Ch F) (coins : Coins F Ch) (check : State F → Bool)
    (verifySig : VK → Nat → Ceremony.Body (State F) (RatioProof F) → Sig → Bool) (limit : Nat) :
    Ceremony.Config VK Sig (State F) Ch (RatioProof F) where
  verifySig := verifySig
  checkState := check
  challenge := S.challenge
  verifyTransform ch p n π := match Setup.verifyTransform S (coins ch p n π).1 (coins ch p n π).2 ch p n π with
    | .ok _ => true
    | .error _ => false
  limit := limit

/-! ## Specification -/

/-- No wrong element passes a random check. A wrong element passes for at most one value of its coefficient
(`c75_random_check`). -/
def Lucky (S : Setup.Config Ch F) (coins : Coins F Ch) : Prop := ∀ ch p n π x,
  Setup.verifyTransform S (coins ch p n π).1 (coins ch p n π).2 ch p n π = .ok x →
    Balanced n.deltaG2 p.deltaG2 n.h p.h ∧ Balanced n.deltaG2 p.deltaG2 n.l p.l

/-- The factor that a ratio proof is about. -/
def factor : Option (RatioProof F) → F
  | some π => π.ratio.2 / π.ratio.1
  | none => 1

/-- The ratio is not the identity. -/
def Proper (π : RatioProof F) : Prop := π.ratio.1 ≠ 0

/-- The contribution that becomes a round by this event. -/
def takenAt (cfg : Ceremony.Config VK Sig (State F) Ch (RatioProof F)) (s : Server I VK (State F) Ch (RatioProof F) Nm) :
    Event I VK Sig (State F) (RatioProof F) → List (I × List (RatioProof F))
  | .apply k =>
    match s.started[k]?, (s.step cfg (.apply k)).1 with
    | some (i, _, pf), .round _ => [(i, pf)]
    | _, _ => []
  | _ => []

/-- The contributions that become rounds in a history, with their proofs for all circuits. -/
def taken (cfg : Ceremony.Config VK Sig (State F) Ch (RatioProof F)) (s : Server I VK (State F) Ch (RatioProof F) Nm) :
    List (Event I VK Sig (State F) (RatioProof F)) → List (I × List (RatioProof F))
  | [] => []
  | e :: es => takenAt cfg s e ++ taken cfg (s.step cfg e).2 es

/-- A proving key of phase 2 for a circuit `M` and phase 1 secrets `τ`, `α`, `β`, with `δ`. -/
def KeyFor (dom : Nat → Option (Nat × F)) (M : Matrices F) (τ α β δ : F) (key : State F) : Prop :=
  ∃ d ω, dom (M.a.length + M.numInstance) = some (d, ω) ∧
    ∀ u v w, QAP M d ω u v w → Groth16Key M d u v w τ α β 1 δ key

/-- What phase 2 starts with for a circuit: the secret point is not in the domain. -/
structure Initial (dom : Nat → Option (Nat × F)) (M : Matrices F) (n1 n2 : Nat) (τ α β : F) (s : State F) : Prop where
  spec : DomainSpec dom
  wf : M.WF
  bound : n1 ≤ 2 * n2
  state : initState dom (srs n1 n2 τ α β) M = .ok s
  outside : ∀ d ω, dom (M.a.length + M.numInstance) = some (d, ω) → τ ^ d ≠ 1

/-! ## Transitions -/

theorem phase2_accepts {S : Setup.Config Ch F} {coins : Coins F Ch} {check : State F → Bool}
    {verifySig : VK → Nat → Ceremony.Body (State F) (RatioProof F) → Sig → Bool} {limit : Nat} {ch : Ch} {p n : State F}
    {π : RatioProof F} : (phase2 S coins check verifySig limit).verifyTransform ch p n π = true ↔
      Setup.Accepted S (coins ch p n π).1 (coins ch p n π).2 ch p n π := by
  simp only [phase2]
  constructor
  · intro h
    split at h
    · rename_i x hx
      exact (Setup.verifyTransform_ok.1 hx).2
    · cases h
  · intro h
    rw [Setup.verifyTransform_ok.2 ⟨rfl, h⟩]

/-- Coefficients do not matter for what a lucky verifier accepted. -/
theorem accepted_any {S : Setup.Config Ch F} {coins : Coins F Ch} (hL : Lucky S coins) {ch : Ch} {p n : State F}
    {π : RatioProof F} (h : Setup.Accepted S (coins ch p n π).1 (coins ch p n π).2 ch p n π) (ρ ρ' : Nat → F) :
    Setup.Accepted S ρ ρ' ch p n π := by
  obtain ⟨b1, b2⟩ := hL ch p n π _ (Setup.verifyTransform_ok.2 ⟨rfl, h⟩)
  exact ⟨h.rest, h.proof, h.delta2, h.delta1, Setup.dot_of_balanced b1 _, Setup.dot_of_balanced b2 _⟩

/-- What an accepted contribution with a proper proof does to a key. -/
theorem accepted_rescale {S : Setup.Config Ch F} {coins : Coins F Ch} (hL : Lucky S coins) {ch : Ch} {p n : State F}
    {π : RatioProof F} (h : Setup.Accepted S (coins ch p n π).1 (coins ch p n π).2 ch p n π) (h0 : Proper π)
    (hδ : p.deltaG2 ≠ 0) (hq : ∃ x ∈ p.h ++ p.l, x ≠ 0) :
    factor (some π) ≠ 0 ∧ n = p.rescale (factor (some π)) := by
  obtain ⟨b1, b2⟩ := hL ch p n π _ (Setup.verifyTransform_ok.2 ⟨rfl, h⟩)
  have hd2 : n.deltaG2 = factor (some π) * p.deltaG2 := by
    unfold Proper at h0
    have := h.delta2
    simp only [factor]
    field_simp
    linear_combination this
  have hd1 : n.deltaG1 = factor (some π) * p.deltaG1 := by
    have := h.delta1
    rw [hd2] at this
    have h2 : (n.deltaG1 - factor (some π) * p.deltaG1) * p.deltaG2 = 0 := by linear_combination -this
    rcases mul_eq_zero.1 h2 with h2 | h2
    · linear_combination h2
    · exact absurd h2 hδ
  rw [hd2] at b1 b2
  have hr0 : factor (some π) ≠ 0 := by
    intro hz
    obtain ⟨x, hx, hx0⟩ := hq
    rw [hz, zero_mul] at b1 b2
    rcases List.mem_append.1 hx with hx | hx
    · obtain ⟨i, hi, rfl⟩ := List.mem_iff_getElem.1 hx
      have hin : i < n.h.length := by have := b1.1; omega
      have := b1.2 i _ _ (List.getElem?_eq_getElem hin) (List.getElem?_eq_getElem hi)
      rw [mul_zero] at this
      rcases mul_eq_zero.1 this.symm with e | e
      · exact hx0 e
      · exact hδ e
    · obtain ⟨i, hi, rfl⟩ := List.mem_iff_getElem.1 hx
      have hin : i < n.l.length := by have := b2.1; omega
      have := b2.2 i _ _ (List.getElem?_eq_getElem hin) (List.getElem?_eq_getElem hi)
      rw [mul_zero] at this
      rcases mul_eq_zero.1 this.symm with e | e
      · exact hx0 e
      · exact hδ e
  refine ⟨hr0, ?_⟩
  rw [h.rest.2.2, hd2, hd1, Setup.eq_map_of_balanced hδ hr0 b1, Setup.eq_map_of_balanced hδ hr0 b2]
  simp only [State.rescale, mul_comm]

/-- Keys that come from `s0` by a nonzero factor. -/
def From (s0 s : State F) : Prop := ∃ f, f ≠ 0 ∧ s = s0.rescale f

/-- The conditions on a first key. -/
def Sane (s : State F) : Prop := s.deltaG2 ≠ 0 ∧ ∃ x ∈ s.h ++ s.l, x ≠ 0

theorem sane_rescale {s : State F} (h : Sane s) {f : F} (hf : f ≠ 0) : Sane (s.rescale f) := by
  obtain ⟨h1, x, hx, hx0⟩ := h
  refine ⟨mul_ne_zero h1 hf, x / f, ?_, div_ne_zero hx0 hf⟩
  simp only [State.rescale, ← List.map_append]
  exact List.mem_map.2 ⟨x, hx, rfl⟩

theorem initial_key {dom : Nat → Option (Nat × F)} {M : Matrices F} {n1 n2 : Nat} {τ α β : F} {s : State F}
    (h : Initial dom M n1 n2 τ α β s) (f : F) : KeyFor dom M τ α β f (s.rescale f) := by
  obtain ⟨d, ω, hd, _, hk⟩ := Setup.c93_key dom h.spec M h.wf n1 n2 h.bound τ α β s h.state
  refine ⟨d, ω, hd, fun u v w hq => ?_⟩
  have := (hk u v w hq).rescale f
  rwa [one_mul] at this

theorem initial_sane {dom : Nat → Option (Nat × F)} {M : Matrices F} {n1 n2 : Nat} {τ α β : F} {s : State F}
    (h : Initial dom M n1 n2 τ α β s) : Sane s := by
  obtain ⟨d, ω, hd, _, hk⟩ := Setup.c93_key dom h.spec M h.wf n1 n2 h.bound τ α β s h.state
  obtain ⟨h0, _, hω⟩ := h.spec _ _ _ hd
  obtain ⟨u, v, w, hq⟩ := Setup.qap_exists M hω h0
  have k := hk u v w hq
  refine ⟨by rw [k.deltaG2]; exact one_ne_zero, τ ^ d - 1, ?_, sub_ne_zero.2 (h.outside d ω hd)⟩
  rw [k.h]
  refine List.mem_append_left _ (List.mem_map.2 ⟨0, List.mem_range.2 h0, ?_⟩)
  simp

/-! ## Directories -/

/-- The product of the factors of the proof files of the rounds after `start` up to `n`. -/
def filedFactors (t : Disk I VK (State F) Ch (RatioProof F) Nm) (nm : Nm) (start n : Nat) : F :=
  ((List.range' (start + 1) (n - start)).map fun k => factor (t.proof nm k)).prod

theorem filed_succ (t : Disk I VK (State F) Ch (RatioProof F) Nm) (nm : Nm) {start n : Nat} (h : start ≤ n) :
    filedFactors t nm start (n + 1) = filedFactors t nm start n * factor (t.proof nm (n + 1)) := by
  unfold filedFactors
  rw [show n + 1 - start = (n - start) + 1 by omega, List.range'_concat, List.map_append, List.prod_append]
  simp only [List.map_cons, List.map_nil, List.prod_cons, List.prod_nil, mul_one]
  rw [show start + 1 + 1 * (n - start) = n + 1 by omega]

theorem chain_rescale {S : Setup.Config Ch F} {coins : Coins F Ch} (hL : Lucky S coins) {check : State F → Bool}
    {verifySig : VK → Nat → Ceremony.Body (State F) (RatioProof F) → Sig → Bool} {limit : Nat}
    {t : Disk I VK (State F) Ch (RatioProof F) Nm} {nm : Nm} {start n : Nat} {C : Nat → Ch} {T : Nat → State F}
    (hc : ChainFrom (phase2 S coins check verifySig limit) t nm start n C T) (hs : Sane (T start))
    (hp : ∀ k π, start < k → k ≤ n → t.proof nm k = some π → Proper π) :
    ∀ k, start ≤ k → k ≤ n → filedFactors t nm start k ≠ 0 ∧ T k = (T start).rescale (filedFactors t nm start k) := by
  intro k h1
  induction k, h1 using Nat.le_induction with
  | base =>
    intro _
    simp [filedFactors, Setup.rescale_one]
  | succ k h1 ih =>
    intro h2
    obtain ⟨i1, i2⟩ := ih (by omega)
    obtain ⟨π, e1, _, e3, _⟩ := hc.step k h1 (by omega)
    have hsk : Sane (T k) := by rw [i2]; exact sane_rescale hs i1
    obtain ⟨r1, r2⟩ := accepted_rescale hL (phase2_accepts.1 e3) (hp (k + 1) π (by omega) h2 e1) hsk.1 hsk.2
    rw [filed_succ t nm h1, e1]
    exact ⟨mul_ne_zero i1 r1, by rw [r2, i2, Setup.rescale_rescale]⟩

/-- **C139, any directory.** Whoever made it: if the verifier gets through a directory whose first state of a circuit is the
initial key of this circuit, then the files that it publishes for the circuit are read as a Groth16 key of the circuit whose `δ`
is the product of the nonzero factors of all proofs from the first round to the last, and as its verifying context; provided that the
ratios of the proofs are not the identity and no wrong element passed a random check. -/
theorem c139_published_partial {VC : Type} {VP : State F → Prop} {VV : VC → Prop} {cP : Canon (State F)} {cV : Canon VC}
    (hP : cP.Lawful VP) (hV : cV.Lawful VV) (verifying : State F → VC) (hvv : ∀ k, VP k → VV (verifying k))
    (S : Setup.Config Ch F) (coins : Coins F Ch) (hL : Lucky S coins) (check : State F → Bool)
    (verifySig : VK → Nat → Ceremony.Body (State F) (RatioProof F) → Sig → Bool) (limit : Nat)
    (t : Disk I VK (State F) Ch (RatioProof F) Nm) (ht : ∀ nm n k, t.state nm n = some k → VP k) (fuel start : Nat)
    (names : List Nm) (d d' : KeyDir Nm)
    (h : verifyKeys cP cV verifying (phase2 S coins check verifySig limit) t fuel start names d = (some none, d')) (nm : Nm)
    (hn : nm ∈ names) {dom : Nat → Option (Nat × F)} {M : Matrices F} {n1 n2 : Nat} {τ α β : F} {s0 : State F}
    (hi : Initial dom M n1 n2 τ α β s0) (hs0 : t.state nm start = some s0)
    (hp : ∀ k π, start < k → t.proof nm k = some π → Proper π)
    {R ε : Type} {rd : ReadExact R ε} {left : R → Bytes} (hd : Delivers rd left) :
    ∃ n key, start ≤ n ∧ EndsAt t nm n ∧ t.state nm n = some key ∧ filedFactors t nm start n ≠ 0 ∧
      KeyFor dom M τ α β (filedFactors t nm start n) key ∧
      (∀ r, d' nm .pk = some (left r) → ∃ r', decodeProving cP rd r = .ok key r') ∧
      (∀ r, d' nm .vk = some (left r) → ∃ r', decodeChecked cV rd r = .ok (verifying key) r') ∧
      (d' nm .pk).isSome ∧ (d' nm .vk).isSome := by
  obtain ⟨n, C, T, hc, he, h1, h2, h3, h4⟩ := Verif.Keys.c134_published hP hV verifying hvv _ t ht fuel start names d d' h nm hn hd
  have e0 : T start = s0 := by
    have := hc.state
    rw [hs0] at this
    exact (Option.some.inj this).symm
  obtain ⟨g1, g2⟩ := chain_rescale hL hc (by rw [e0]; exact initial_sane hi) (fun k π a _ c => hp k π a c) n hc.le (Nat.le_refl n)
  rw [e0] at g2
  refine ⟨n, T n, hc.le, he, ?_, g1, ?_, h1, h2, h3, h4⟩
  · rcases Nat.eq_or_lt_of_le hc.le with e | e
    · rw [← e]; exact hc.state
    · obtain ⟨p, _, hs, _⟩ := hc.step (n - 1) (by omega) (by omega)
      rw [show n - 1 + 1 = n by omega] at hs
      exact hs
  · rw [g2]; exact initial_key hi _

/-- **C139, secrets.** The factor of a proof that was made honestly is the secret of its maker, so that the product of the
factors is as unknown as the secret of any honest participant. -/
theorem c139_factor (hash : Setup.HashToGroup Ch F) (ch : Ch) (s : State F) (δ g : F) (n : State F) (π : RatioProof F)
    (h : contribute hash ch s δ g = some (n, π)) : factor (some π) = δ ∧ Proper π := by
  obtain ⟨_, h2, _, _, h5⟩ := Setup.contribute_some h
  subst h5
  exact ⟨by simp only [factor]; field_simp, h2⟩

/-- **C139, use.** With a key of C139 every satisfying assignment has a proof that is accepted, whatever randomness is
used. -/
theorem c139_usable {dom : Nat → Option (Nat × F)} (hdom : DomainSpec dom) {M : Matrices F} (hM : M.WF) {τ α β δ : F} (hδ : δ ≠ 0)
    {key : State F} (h : KeyFor dom M τ α β δ key) (z : Nat → F) (hz : Setup.Satisfied M z) :
    ∃ q : Nat → F, ∀ r t, Setup.groth16Verify key z (Setup.groth16Prove key M.numInstance z q r t) := by
  obtain ⟨d, ω, hd, hk⟩ := h
  obtain ⟨h0, hle, hω⟩ := hdom _ _ _ hd
  obtain ⟨u, v, w, hq⟩ := Setup.qap_exists M hω h0
  obtain ⟨Q, _, _, hQ⟩ := Setup.c93_complete M hM hω h0 (by omega) u v w hq z hz
  exact ⟨Q.coeff, hQ τ α β 1 δ one_ne_zero hδ key (hk u v w hq)⟩

/-! ## Histories -/

section Histories

variable {St Pf : Type}

/-- All proofs that come in satisfy `P`. -/
def Submits (P : Pf → Prop) (es : List (Event I VK Sig St Pf)) : Prop :=
  ∀ now i st pf sig, Event.start now i st pf sig ∈ es → ∀ π ∈ pf, P π

/-- `G` holds of the keys in memory and of those in the files of the last round. -/
structure GInv (G : Nat → St → Prop) (P : Pf → Prop) (s : Server I VK St Ch Pf Nm) (names : List Nm)
    (saved : Sclp St Ch Pf) : Prop where
  disk : DiskInv s names saved
  now : ∀ (i : Nat) k, s.mpc.state[i]? = some k → G i k
  was : ∀ (i : Nat) k, saved.state[i]? = some k → G i k
  queued : ∀ x ∈ s.started, ∀ π ∈ x.2.2, P π

theorem ginv_step {cfg : Ceremony.Config VK Sig St Ch Pf} {G : Nat → St → Prop} {P : Pf → Prop}
    (hG : ∀ i c k n π, G i k → P π → cfg.verifyTransform c k n π = true → G i n)
    {s : Server I VK St Ch Pf Nm} {names : List Nm} {saved : Sclp St Ch Pf} (h : GInv G P s names saved)
    (e : Event I VK Sig St Pf) (he : Submits P [e]) : ∃ saved', GInv G P (s.step cfg e).2 names saved' := by
  have hd := Ceremony.diskInv_step cfg s names saved e h.disk
  cases e with
  | query now i sig =>
    obtain ⟨h4, _⟩ := Ceremony.request_mpc cfg s (.query now i sig) i .query sig rfl
    refine ⟨_, hd, by rw [h4]; exact h.now, h.was, ?_⟩
    have : (s.step cfg (.query now i sig)).2.started = s.started := by
      simp only [Server.step, Server.query]
      split
      · rfl
      · split
        · rfl
        · split <;> rfl
    rw [this]; exact h.queued
  | start now i st pf sig =>
    obtain ⟨h4, _⟩ := Ceremony.request_mpc cfg s (.start now i st pf sig) i (.contribute st pf) sig rfl
    refine ⟨_, hd, by rw [h4]; exact h.now, h.was, ?_⟩
    have : (s.step cfg (.start now i st pf sig)).2.started = s.started ∨
        (s.step cfg (.start now i st pf sig)).2.started = s.started ++ [(i, st, pf)] := by
      simp only [Server.step, Server.start]
      split
      · exact .inl rfl
      · split
        · exact .inr rfl
        · exact .inl rfl
    rcases this with e | e <;> rw [e]
    · exact h.queued
    · intro x hx π hπ
      rcases List.mem_append.1 hx with hx | hx
      · exact h.queued x hx π hπ
      · rw [List.mem_singleton] at hx
        subst hx
        exact he now i st pf sig (List.mem_singleton.2 rfl) π hπ
  | reload rows => exact ⟨_, hd, h.now, h.was, h.queued⟩
  | finish now k =>
    have hm : (s.step cfg (.finish now k)).2.mpc = s.mpc ∧ (s.step cfg (.finish now k)).2.started = s.started := by
      simp only [Server.step, Server.finish]
      split
      · exact ⟨rfl, rfl⟩
      · split <;> exact ⟨rfl, rfl⟩
    exact ⟨_, hd, by rw [hm.1]; exact h.now, h.was, by rw [hm.2]; exact h.queued⟩
  | restart now =>
    have hm : ((s.step cfg (.restart now)).2.mpc = s.mpc ∧ (s.step cfg (.restart now)).2.started = s.started) ∨
        ((s.step cfg (.restart now)).2.mpc = saved ∧ (s.step cfg (.restart now)).2.started = []) := by
      simp only [Server.step, Server.restart]
      rw [h.disk.state, Ceremony.recover_holds s.disk names saved h.disk.holds]
      cases s.disk.registry saved.round with
      | none => exact .inl ⟨rfl, rfl⟩
      | some r => exact .inr ⟨rfl, rfl⟩
    refine ⟨_, hd, ?_, h.was, ?_⟩ <;> rcases hm with ⟨e1, e2⟩ | ⟨e1, e2⟩
    · rw [e1]; exact h.now
    · rw [e1]; exact h.was
    · rw [e2]; exact h.queued
    · rw [e2]; exact nofun
  | apply k =>
    cases hk : s.started[k]? with
    | none =>
      have hs : s.step cfg (.apply k) = (.none, s) := by simp only [Server.step, Server.apply, hk]
      rw [hs]
      exact ⟨saved, h⟩
    | some x =>
      obtain ⟨i, st, pf⟩ := x
      have hP : ∀ π ∈ pf, P π := h.queued _ (List.mem_of_getElem? hk)
      have hnow : ∀ (j : Nat) q, (s.mpc.update cfg st pf).2.state[j]? = some q → G j q := by
        have hal : s.mpc.Aligned := by unfold Sclp.Aligned; rw [h.disk.challenge, h.disk.state]
        obtain ⟨x1, x2⟩ := Ceremony.c44_exact cfg s.mpc hal st pf
        by_cases hlen : st.length = s.mpc.state.length ∧ pf.length = s.mpc.state.length
        · obtain ⟨m, y1, y2, _, y4, _⟩ := x2 hlen
          intro j q hq
          rw [y4] at hq
          by_cases hj : j < m
          · rw [List.getElem?_append_left (by rw [List.length_take]; omega), List.getElem?_take_of_lt hj] at hq
            obtain ⟨a, c, n, p, z1, z2, z3, z4, _, z6⟩ := y2 j hj
            rw [hq] at z3
            simp only [Option.some.injEq] at z3
            subst z3
            exact hG j c a q p (h.now j a z1) (hP p (List.mem_of_getElem? z4)) z6
          · rw [List.getElem?_append_right (by rw [List.length_take]; omega), List.length_take,
              List.getElem?_drop, show m + (j - min m st.length) = j by omega] at hq
            exact h.now j q hq
        · rw [x1 hlen]; exact h.now
      have hq : ∀ x ∈ s.started.eraseIdx k, ∀ π ∈ x.2.2, P π := fun x hx => h.queued x (List.mem_of_mem_eraseIdx hx)
      cases hu : s.mpc.update cfg st pf with
      | mk res m =>
        rw [hu] at hnow
        cases res with
        | error er =>
          have hs : s.step cfg (.apply k) = (.error er, { s with mpc := m, started := s.started.eraseIdx k }) := by
            simp only [Server.step, Server.apply, hk, hu]
          have hcr : creditedAt cfg s (.apply k) = [] := by simp only [creditedAt, hk, hs]
          rw [if_pos hcr] at hd
          refine ⟨_, hd, ?_, h.was, ?_⟩ <;> rw [hs]
          · exact hnow
          · exact hq
        | ok round =>
          have hs : s.step cfg (.apply k) = (.round round, { s with
              mpc := m
              disk := s.disk.writes (m.saveWrites (s.disk.names.getD []))
              started := s.started.eraseIdx k
              applied := s.applied ++ [(i, round)] }) := by
            simp only [Server.step, Server.apply, hk, hu]
          have hcr : creditedAt cfg s (.apply k) ≠ [] := by simp only [creditedAt, hk, hs]; simp
          rw [if_neg hcr] at hd
          refine ⟨_, hd, ?_, ?_, ?_⟩ <;> rw [hs]
          · exact hnow
          · exact hnow
          · exact hq

theorem ginv_run {cfg : Ceremony.Config VK Sig St Ch Pf} {G : Nat → St → Prop} {P : Pf → Prop}
    (hG : ∀ i c k n π, G i k → P π → cfg.verifyTransform c k n π = true → G i n) (es : List (Event I VK Sig St Pf)) :
    ∀ {s : Server I VK St Ch Pf Nm} {names : List Nm} {saved : Sclp St Ch Pf}, GInv G P s names saved → Submits P es →
      ∃ saved', GInv G P (s.run cfg es) names saved' := by
  induction es with
  | nil => exact fun h _ => ⟨_, h⟩
  | cons e es ih =>
    intro s names saved h he
    obtain ⟨sv, h1⟩ := ginv_step hG h e fun now i st pf sig hm =>
      he now i st pf sig (List.mem_cons.2 (.inl (List.mem_singleton.1 hm)))
    exact ih h1 fun now i st pf sig hm => he now i st pf sig (List.mem_cons_of_mem _ hm)

theorem run_concat (cfg : Ceremony.Config VK Sig St Ch Pf) (es : List (Event I VK Sig St Pf)) (e : Event I VK Sig St Pf) :
    ∀ s : Server I VK St Ch Pf Nm, s.run cfg (es ++ [e]) = ((s.run cfg es).step cfg e).2 := by
  induction es with
  | nil => exact fun _ => rfl
  | cons e es ih => exact fun _ => ih _

end Histories

/-- **C139, always.** Take a coordinator that was prepared, with an initial key for circuit `i`, and any history: contributions of
anyone in any interleaving, also ones that are refused half way, timeouts and restarts. Then what it hands out for this
circuit, and what a restart would read, is always a Groth16 key of the circuit for the same phase 1 secrets with a nonzero `δ`. -/
theorem c139_always_partial (S : Setup.Config Ch F) (coins : Coins F Ch) (hL : Lucky S coins) (check : State F → Bool)
    (verifySig : VK → Nat → Ceremony.Body (State F) (RatioProof F) → Sig → Bool) (limit : Nat)
    (s : Server I VK (State F) Ch (RatioProof F) Nm) (names : List Nm) (hs : Prepared s names)
    (es : List (Event I VK Sig (State F) (RatioProof F))) (hp : Submits Proper es) (i : Nat)
    {dom : Nat → Option (Nat × F)} {M : Matrices F} {n1 n2 : Nat} {τ α β : F} {s0 : State F}
    (hi : Initial dom M n1 n2 τ α β s0) (hs0 : s.mpc.state[i]? = some s0) :
    (∃ key δ, (s.run (phase2 S coins check verifySig limit) es).mpc.state[i]? = some key ∧ δ ≠ 0 ∧ KeyFor dom M τ α β δ key) ∧
    ∀ now, ∃ key δ, (((s.run (phase2 S coins check verifySig limit) es).step (phase2 S coins check verifySig limit)
      (.restart now)).2).mpc.state[i]? = some key ∧ δ ≠ 0 ∧ KeyFor dom M τ α β δ key := by
  have key : ∀ es, Submits Proper es → ∃ key δ, (s.run (phase2 S coins check verifySig limit) es).mpc.state[i]? = some key ∧ δ ≠ 0 ∧
      KeyFor dom M τ α β δ key := by
    intro es hp
    have first : ∀ (j : Nat) k, s.mpc.state[j]? = some k → j = i → From s0 k := by
      intro j k hk hj
      rw [hj, hs0] at hk
      simp only [Option.some.injEq] at hk
      exact ⟨1, one_ne_zero, by rw [Setup.rescale_one, hk]⟩
    obtain ⟨sv, g⟩ := ginv_run (cfg := phase2 S coins check verifySig limit) (G := fun j k => j = i → From s0 k) (P := Proper)
      (fun j c k n π h1 h2 h3 hj => by
        obtain ⟨f, f1, f2⟩ := h1 hj
        have hk : Sane k := by rw [f2]; exact sane_rescale (initial_sane hi) f1
        obtain ⟨r1, r2⟩ := accepted_rescale hL (phase2_accepts.1 h3) h2 hk.1 hk.2
        exact ⟨f * factor (some π), mul_ne_zero f1 r1, by rw [r2, f2, Setup.rescale_rescale]⟩) es
      (s := s) (names := names) (saved := s.mpc)
      ⟨Ceremony.prepared_inv s names hs, first, first, by rw [hs.idle.1]; exact nofun⟩ hp
    · have hlt : i < (s.run (phase2 S coins check verifySig limit) es).mpc.state.length := by
        rw [g.disk.state, ← hs.shape.state]
        exact (List.getElem?_eq_some_iff.1 hs0).1
      obtain ⟨f, f1, f2⟩ := g.now i _ (List.getElem?_eq_getElem hlt) rfl
      exact ⟨_, f, List.getElem?_eq_getElem hlt, f1, by rw [f2]; exact initial_key hi f⟩
  refine ⟨key es hp, fun now => ?_⟩
  have := key (es ++ [.restart now]) (fun a b c d e hm => by
    rcases List.mem_append.1 hm with hm | hm
    · exact hp a b c d e hm
    · cases List.mem_singleton.1 hm)
  rwa [run_concat] at this

/-! ## A ceremony from beginning to end -/

/-- One event of a history without half refused contributions: the keys stay, or all are replaced by those of a contribution
that was accepted. -/
theorem clean_step {cfg : Ceremony.Config VK Sig (State F) Ch (RatioProof F)} {s : Server I VK (State F) Ch (RatioProof F) Nm}
    {names : List Nm} {start : Nat} {saved : Sclp (State F) Ch (RatioProof F)} {C : Nat → List Ch} {S : Nat → List (State F)}
    (h : TInv cfg s names start saved C S) (e : Event I VK Sig (State F) (RatioProof F))
    (hc : ∀ k i st pf, e = .apply k → s.started[k]? = some (i, st, pf) →
      ∀ er, (s.mpc.update cfg st pf).1 = .error er → (s.mpc.update cfg st pf).2 = s.mpc) :
    ((s.step cfg e).2.mpc.state = s.mpc.state ∧ takenAt cfg s e = [] ∧ creditedAt cfg s e = []) ∨
    ∃ i pf, takenAt cfg s e = [(i, pf)] ∧ creditedAt cfg s e = [i] ∧ ∀ (j : Nat) k, s.mpc.state[j]? = some k →
      ∃ c n π, (s.step cfg e).2.mpc.state[j]? = some n ∧ pf[j]? = some π ∧ cfg.verifyTransform c k n π = true := by
  cases e with
  | query now i sig =>
    obtain ⟨h4, _⟩ := Ceremony.request_mpc cfg s (.query now i sig) i .query sig rfl
    exact .inl ⟨by rw [h4], rfl, rfl⟩
  | start now i st pf sig =>
    obtain ⟨h4, _⟩ := Ceremony.request_mpc cfg s (.start now i st pf sig) i (.contribute st pf) sig rfl
    exact .inl ⟨by rw [h4], rfl, rfl⟩
  | reload rows => exact .inl ⟨rfl, rfl, rfl⟩
  | finish now k =>
    refine .inl ⟨?_, rfl, rfl⟩
    simp only [Server.step, Server.finish]
    split
    · rfl
    · split <;> rfl
  | restart now =>
    refine .inl ⟨?_, rfl, rfl⟩
    simp only [Server.step, Server.restart]
    rw [h.disk.state, Ceremony.recover_holds s.disk names saved h.disk.holds]
    cases s.disk.registry saved.round with
    | none => rfl
    | some r => exact h.sameS.symm
  | apply k =>
    cases hk : s.started[k]? with
    | none =>
      have hs : s.step cfg (.apply k) = (.none, s) := by simp only [Server.step, Server.apply, hk]
      exact .inl ⟨by rw [hs], by simp only [takenAt, hk], by simp only [creditedAt, hk]⟩
    | some x =>
      obtain ⟨i, st, pf⟩ := x
      cases hu : s.mpc.update cfg st pf with
      | mk res m =>
        cases res with
        | error er =>
          have hs : s.step cfg (.apply k) = (.error er, { s with mpc := m, started := s.started.eraseIdx k }) := by
            simp only [Server.step, Server.apply, hk, hu]
          have hmm : m = s.mpc := by
            have := hc k i st pf rfl hk er (by rw [hu])
            rw [hu] at this
            exact this
          exact .inl ⟨by rw [hs]; simp only [hmm], by simp only [takenAt, hk, hs], by simp only [creditedAt, hk, hs]⟩
        | ok round =>
          have hs : s.step cfg (.apply k) = (.round round, { s with
              mpc := m
              disk := s.disk.writes (m.saveWrites (s.disk.names.getD []))
              started := s.started.eraseIdx k
              applied := s.applied ++ [(i, round)] }) := by
            simp only [Server.step, Server.apply, hk, hu]
          refine .inr ⟨i, pf, by simp only [takenAt, hk, hs], by simp only [creditedAt, hk, hs], ?_⟩
          have hal : s.mpc.Aligned := by unfold Sclp.Aligned; rw [h.disk.challenge, h.disk.state]
          obtain ⟨x1, x2⟩ := Ceremony.c44_exact cfg s.mpc hal st pf
          have hlen : st.length = s.mpc.state.length ∧ pf.length = s.mpc.state.length := by
            by_cases hl : st.length = s.mpc.state.length ∧ pf.length = s.mpc.state.length
            · exact hl
            · rw [x1 hl] at hu; cases hu
          obtain ⟨j, y1, y2, y3, y4, _, _, _, y8⟩ := x2 hlen
          have hj : j = s.mpc.state.length := by
            rcases Nat.lt_or_ge j s.mpc.state.length with hlt | hge
            · rw [hu] at y8
              have := (y8 hlt).1
              cases this
            · omega
          rw [hu] at y4
          simp only at y4
          have hms : m.state = st := by
            rw [y4, hj, List.drop_length, List.append_nil, List.take_of_length_le (by omega)]
          intro q k' hq
          obtain ⟨a, c, n, p, z1, _, z3, z4, _, z6⟩ := y2 q (by rw [hj]; exact (List.getElem?_eq_some_iff.1 hq).1)
          rw [hq] at z1
          simp only [Option.some.injEq] at z1
          subst z1
          exact ⟨c, n, p, by rw [hs]; simp only [hms]; exact z3, z4, z6⟩

theorem clean_run {S : Setup.Config Ch F} {coins : Coins F Ch} (hL : Lucky S coins) {check : State F → Bool}
    {verifySig : VK → Nat → Ceremony.Body (State F) (RatioProof F) → Sig → Bool} {limit : Nat}
    (es : List (Event I VK Sig (State F) (RatioProof F))) :
    ∀ {s : Server I VK (State F) Ch (RatioProof F) Nm} {names : List Nm} {start : Nat}
      {saved : Sclp (State F) Ch (RatioProof F)} {C : Nat → List Ch} {T : Nat → List (State F)},
      TInv (phase2 S coins check verifySig limit) s names start saved C T → Clean (phase2 S coins check verifySig limit) s es →
      (taken (phase2 S coins check verifySig limit) s es).map Prod.fst =
        Ceremony.credited (phase2 S coins check verifySig limit) s es ∧
      ∀ (i : Nat) k, s.mpc.state[i]? = some k → Sane k →
        (∀ x ∈ taken (phase2 S coins check verifySig limit) s es, ∀ π, x.2[i]? = some π → Proper π) →
        ((taken (phase2 S coins check verifySig limit) s es).map fun x => factor x.2[i]?).prod ≠ 0 ∧
        (s.run (phase2 S coins check verifySig limit) es).mpc.state[i]? =
          some (k.rescale ((taken (phase2 S coins check verifySig limit) s es).map fun x => factor x.2[i]?).prod) := by
  induction es with
  | nil =>
    intro s names start saved C T _ _
    refine ⟨rfl, fun i k hk _ _ => ?_⟩
    simp [taken, Setup.rescale_one, Server.run, hk]
  | cons e es ih =>
    intro s names start saved C T h hc
    obtain ⟨sv1, C1, T1, g1, _, _⟩ := Ceremony.tinv_step _ s names start saved C T h e hc.1
    obtain ⟨i1, i2⟩ := ih g1 hc.2
    rcases clean_step h e hc.1 with ⟨a1, a2, a3⟩ | ⟨p, pf, a1, a2, a3⟩
    · simp only [taken, Ceremony.credited, a2, a3, List.nil_append, Server.run]
      refine ⟨i1, fun i k hk => ?_⟩
      rw [← a1] at hk
      exact i2 i k hk
    · simp only [taken, Ceremony.credited, a1, a2, Server.run]
      refine ⟨by rw [List.map_append, i1]; rfl, fun i k hk hs hp => ?_⟩
      obtain ⟨c, n, π, b1, b2, b3⟩ := a3 i k hk
      obtain ⟨r1, r2⟩ := accepted_rescale hL (phase2_accepts.1 b3)
        (hp _ (List.mem_append_left _ (List.mem_singleton.2 rfl)) π b2) hs.1 hs.2
      obtain ⟨d1, d2⟩ := i2 i n b1 (by rw [r2]; exact sane_rescale hs r1)
        fun x hx => hp x (List.mem_append_right _ hx)
      simp only [List.map_append, List.map_cons, List.map_nil, List.prod_append, List.prod_cons, List.prod_nil, mul_one, b2]
      exact ⟨mul_ne_zero r1 d1, by rw [d2, r2, Setup.rescale_rescale]⟩

theorem issued_length {St Pf : Type} (cfg : Ceremony.Config VK Sig St Ch Pf) (es : List (Event I VK Sig St Pf)) :
    ∀ s : Server I VK St Ch Pf Nm, (issued cfg s es).length = (Ceremony.credited cfg s es).length := by
  induction es with
  | nil => exact fun _ => rfl
  | cons e es ih =>
    intro s
    simp only [issued, Ceremony.credited, List.length_append, ih]
    have : (Ceremony.issuedAt cfg s e).length = (creditedAt cfg s e).length := by
      have hh : creditedAt cfg s e = [] ∨ ∃ i, creditedAt cfg s e = [i] := by
        cases e with
        | apply k =>
          simp only [creditedAt]
          split
          · exact .inr ⟨_, rfl⟩
          · exact .inl rfl
        | _ => exact .inl rfl
      unfold Ceremony.issuedAt
      rcases hh with hh | ⟨i, hh⟩ <;> simp [hh]
    omega

theorem verifyKeys_all {PK VC K Pf : Type} {cP : Canon PK} {cV : Canon VC} {verifying : PK → VC} {cfg : Ceremony.Config K Sig PK Ch Pf}
    {t : Disk I K PK Ch Pf Nm} {fuel start : Nat} {names : List Nm} (d : KeyDir Nm)
    (h : ∀ nm ∈ names, ∃ x, Ceremony.verifyCircuit cfg t fuel start nm = some (.ok x)) :
    (verifyKeys cP cV verifying cfg t fuel start names d).1 = some none := by
  induction names generalizing d with
  | nil => rfl
  | cons nm nms ih =>
    obtain ⟨x, hx⟩ := h nm List.mem_cons_self
    simp only [verifyKeys, hx]
    exact ih _ fun n hn => h n (List.mem_cons_of_mem _ hn)

/-- **C139, from beginning to end.** Take a coordinator that was prepared with an initial key for circuit `i`, and any history
in which no contribution is refused half way and the proofs of the accepted ones are proper. Whoever verifies the directory
afterwards, with coins, state checks, signature schemes and time limits of their own, gets through, and publishes for the circuit
the key that the coordinator has: it is a Groth16 key of the circuit, whose `δ` is the product of the factors of the
contributions that were credited, each participant once. -/
theorem c139_ceremony_partial {VC : Type} (cP : Canon (State F)) (cV : Canon VC) (verifying : State F → VC)
    (S : Setup.Config Ch F) (coins coins' : Coins F Ch) (hL : Lucky S coins) (check check' : State F → Bool)
    (verifySig verifySig' : VK → Nat → Ceremony.Body (State F) (RatioProof F) → Sig → Bool) (limit limit' : Nat)
    (s : Server I VK (State F) Ch (RatioProof F) Nm) (names : List Nm) (hs : Prepared s names) (hl : NoLater s names)
    (es : List (Event I VK Sig (State F) (RatioProof F))) (hc : Clean (phase2 S coins check verifySig limit) s es)
    (fuel : Nat) (hf : (taken (phase2 S coins check verifySig limit) s es).length < fuel) (d : KeyDir Nm) (i : Nat) (nm : Nm)
    (hn : names[i]? = some nm) {dom : Nat → Option (Nat × F)} {M : Matrices F} {n1 n2 : Nat} {τ α β : F} {s0 : State F}
    (hi : Initial dom M n1 n2 τ α β s0) (hs0 : s.mpc.state[i]? = some s0)
    (hp : ∀ x ∈ taken (phase2 S coins check verifySig limit) s es, ∀ π, x.2[i]? = some π → Proper π) :
    (taken (phase2 S coins check verifySig limit) s es).map Prod.fst =
      Ceremony.credited (phase2 S coins check verifySig limit) s es ∧
    ∃ key δ, δ = ((taken (phase2 S coins check verifySig limit) s es).map fun x => factor x.2[i]?).prod ∧ δ ≠ 0 ∧
      (s.run (phase2 S coins check verifySig limit) es).mpc.state[i]? = some key ∧ KeyFor dom M τ α β δ key ∧
      let r := verifyKeys cP cV verifying (phase2 S coins' check' verifySig' limit')
        (s.run (phase2 S coins check verifySig limit) es).disk fuel s.mpc.round names d
      r.1 = some none ∧ ∀ h, r.2 nm h = some (over (d nm h) (encoded cP cV verifying key h)) := by
  have hT := Ceremony.prepared_tinv (phase2 S coins check verifySig limit) s names hs hl
  obtain ⟨f1, f2⟩ := clean_run hL es hT hc
  obtain ⟨g1, g2⟩ := f2 i s0 hs0 (initial_sane hi) hp
  refine ⟨f1, _, _, rfl, g1, g2, initial_key hi _, ?_⟩
  intro r
  obtain ⟨sv, C, T, h1, _, h3, h4⟩ := Ceremony.tinv_run _ es s names s.mpc.round s.mpc _ _ hT hc
  have hlen : sv.round < s.mpc.round + fuel := by
    have e1 := congrArg List.length h4
    have e2 := congrArg List.length f1
    rw [List.length_map, List.length_range', issued_length] at e1
    rw [List.length_map] at e2
    omega
  have hF : Filed (phase2 S coins' check' verifySig' limit') (s.run (phase2 S coins check verifySig limit) es).disk names
      s.mpc.round sv.round C T := by
    obtain ⟨b1, b2, b3, b4, b5, b6, b7⟩ := h1.filed
    refine ⟨b1, b2, b3, b4, b5, ?_, b7⟩
    intro k k1 k2 j n c a m e1 e2 e3 e4
    obtain ⟨p, p1, p2, p3⟩ := b6 k k1 k2 j n c a m e1 e2 e3 e4
    exact ⟨p, p1, phase2_accepts.2 (accepted_any hL (phase2_accepts.1 p2) _ _), p3⟩
  have hall : ∀ n ∈ names, ∃ x, Ceremony.verifyCircuit (phase2 S coins' check' verifySig' limit')
      (s.run (phase2 S coins check verifySig limit) es).disk fuel s.mpc.round n = some (.ok x) := by
    intro n hn
    obtain ⟨j, hj⟩ := List.getElem?_of_mem hn
    obtain ⟨Ci, Si, _, e2⟩ := Ceremony.filed_verified _ _ names s.mpc.round sv.round C T hF fuel hlen j n hj
    exact ⟨_, e2⟩
  refine ⟨verifyKeys_all d hall, ?_⟩
  obtain ⟨done, rest, w1, w2, _, w4, _⟩ := Verif.Keys.verifyKeys_files cP cV verifying (phase2 S coins' check' verifySig' limit')
    (s.run (phase2 S coins check verifySig limit) es).disk fuel s.mpc.round names d
  have hr := w4.1 (verifyKeys_all d hall)
  subst hr
  rw [List.append_nil] at w1
  subst w1
  obtain ⟨x, x1, x2⟩ := w2 nm (List.mem_of_getElem? hn)
  obtain ⟨Ci, Si, e1, e2⟩ := Ceremony.filed_verified _ _ names s.mpc.round sv.round C T hF fuel hlen i nm hn
  rw [x1] at e2
  simp only [Option.some.injEq, Except.ok.injEq] at e2
  subst e2
  have hk := (e1 sv.round h3 (Nat.le_refl _)).2
  rw [h1.lastS, ← h1.sameS, g2] at hk
  simp only [Option.some.injEq] at hk
  rw [hk]
  exact x2

/-! ## The code does not have it in full -/

/-- **C139 is false of the code where ratios are the identity.** After any history, whoever has the lock sends the first keys
of all circuits, rescaled by a secret `t` of their own, with proofs whose ratio is the identity; the contribution is accepted
with any coins, and the keys of the coordinator depend on `t` only: the secrets of all others are gone. -/
theorem c139_erased_violated (S : Setup.Config Ch F) (coins : Coins F Ch) (check : State F → Bool)
    (verifySig : VK → Nat → Ceremony.Body (State F) (RatioProof F) → Sig → Bool) (limit : Nat)
    (s : Server I VK (State F) Ch (RatioProof F) Nm) (keys : List (State F)) (fs : List F) (hl : fs.length = keys.length)
    (hfs : ∀ f ∈ fs, f ≠ 0) (hst : s.mpc.state = List.zipWith State.rescale keys fs)
    (hch : s.mpc.challenge.length = keys.length) (k : Nat) (i : I) (t : F) (ht : t ≠ 0) (m : F)
    (hk : s.started[k]? = some (i, keys.map (·.rescale t), keys.map fun _ => zeroProof m))
    (hcheck : ∀ key ∈ keys, check (key.rescale t) = true) :
    let r := s.step (phase2 S coins check verifySig limit) (.apply k)
    r.1 = .round (s.mpc.round + 1) ∧ r.2.mpc.state = keys.map (·.rescale t) ∧
    creditedAt (phase2 S coins check verifySig limit) s (.apply k) = [i] := by
  have hlen : s.mpc.state.length = keys.length := by rw [hst, List.length_zipWith, hl, Nat.min_self]
  obtain ⟨_, x2⟩ := Ceremony.c44_exact (phase2 S coins check verifySig limit) s.mpc (by unfold Sclp.Aligned; rw [hch, hlen])
    (keys.map (·.rescale t)) (keys.map fun _ => zeroProof m)
  obtain ⟨j, y1, _, y3, y4, _, _, y7, _⟩ := x2 ⟨by rw [List.length_map, hlen], by rw [List.length_map, hlen]⟩
  have hj : j = s.mpc.state.length := by
    rcases Nat.lt_or_ge j s.mpc.state.length with hlt | hge
    · refine absurd ?_ (y3 hlt)
      have h1 : j < keys.length := by omega
      have h2 : j < fs.length := by omega
      refine ⟨keys[j].rescale fs[j], s.mpc.challenge[j], keys[j].rescale t, zeroProof m, ?_, List.getElem?_eq_getElem _, ?_, ?_,
        hcheck _ (List.getElem_mem _), phase2_accepts.2 ?_⟩
      · rw [hst, List.getElem?_zipWith, List.getElem?_eq_getElem h1, List.getElem?_eq_getElem h2]
      · rw [List.getElem?_map, List.getElem?_eq_getElem h1]; rfl
      · rw [List.getElem?_map, List.getElem?_eq_getElem h1]; rfl
      · exact Setup.accepted_rescale S _ _ _ _ _ t (hfs _ (List.getElem_mem _)) ht _ (by simp [zeroProof]) (by simp [zeroProof])
    · omega
  obtain ⟨z1, _, _⟩ := y7 hj
  rw [hj, List.drop_of_length_le (Nat.le_refl _), List.append_nil, List.take_of_length_le (by rw [List.length_map, hlen])] at y4
  cases hu : s.mpc.update (phase2 S coins check verifySig limit) (keys.map (·.rescale t)) (keys.map fun _ => zeroProof m) with
  | mk res m' =>
    rw [hu] at z1 y4
    simp only at z1 y4
    subst z1
    have hs : s.step (phase2 S coins check verifySig limit) (.apply k) = (.round (s.mpc.round + 1), { s with
        mpc := m'
        disk := s.disk.writes (m'.saveWrites (s.disk.names.getD []))
        started := s.started.eraseIdx k
        applied := s.applied ++ [(i, s.mpc.round + 1)] }) := by
      simp only [Server.step, Server.apply, hk, hu]
    intro r
    refine ⟨by simp only [r, hs], by simp only [r, hs]; exact y4, by simp only [creditedAt, hk, hs]⟩

/-! ## Coins that are lucky -/

/-- The first element that is out of balance. -/
def firstBad (δ δ' : F) (xs ys : List F) : Nat := (xs.zip ys).findIdx fun p => decide (p.1 * δ ≠ p.2 * δ')

/-- Coefficients that look only at the first wrong element. -/
def sharp : Coins F Ch := fun _ p n _ =>
  (fun j => if j = firstBad n.deltaG2 p.deltaG2 n.h p.h then 1 else 0,
    fun j => if j = firstBad n.deltaG2 p.deltaG2 n.l p.l then 1 else 0)

theorem sharp_balanced {δ δ' : F} {xs ys : List F} (hl : ys.length = xs.length)
    (h : Setup.dot (fun j => if j = firstBad δ δ' xs ys then 1 else 0) xs * δ =
      Setup.dot (fun j => if j = firstBad δ δ' xs ys then 1 else 0) ys * δ') : Balanced δ δ' xs ys := by
  refine ⟨hl.symm, fun i x y hx hy => Classical.byContradiction fun hne => ?_⟩
  have hz : (xs.zip ys)[i]? = some (x, y) := by rw [List.getElem?_zip_eq_some]; exact ⟨hx, hy⟩
  have hlt : firstBad δ δ' xs ys < (xs.zip ys).length := by
    unfold firstBad
    exact List.findIdx_lt_length_of_exists ⟨(x, y), List.mem_of_getElem? hz, by simpa using hne⟩
  have hb : decide ((xs.zip ys)[firstBad δ δ' xs ys].1 * δ ≠ (xs.zip ys)[firstBad δ δ' xs ys].2 * δ') = true :=
    List.findIdx_getElem (w := hlt)
  replace hb : (xs.zip ys)[firstBad δ δ' xs ys].1 * δ ≠ (xs.zip ys)[firstBad δ δ' xs ys].2 * δ' := of_decide_eq_true hb
  generalize firstBad δ δ' xs ys = q at h hlt hb
  have hlt' := hlt
  rw [List.length_zip] at hlt'
  rw [List.getElem_zip] at hb
  have key : ∀ zs : List F, (hq : q < zs.length) → Setup.dot (fun j => if j = q then 1 else 0) zs = zs[q] := by
    intro zs hq
    have h1 := Setup.dot_update (fun j => if j = q then 1 else 0) (fun _ => 0) zs q zs[q] (List.getElem?_eq_getElem hq)
      fun j hj => by simp [hj]
    have h2 : Setup.dot (fun _ => 0) zs = 0 := by
      clear h1 hq
      have : ∀ (ρ : Nat → F), (∀ j, ρ j = 0) → Setup.dot ρ zs = 0 := by
        induction zs with
        | nil => intro _ _; rfl
        | cons z zs ih =>
          intro ρ hρ
          rw [Setup.dot, hρ 0, ih _ fun j => hρ (j + 1), zero_mul, zero_add]
      exact this _ fun _ => rfl
    rw [h2] at h1
    simpa using h1
  rw [key xs (by omega), key ys (by omega)] at h
  exact hb h

/-- There are coins with which no wrong element passes. -/
theorem lucky_exists (S : Setup.Config Ch F) : Lucky S (sharp : Coins F Ch) := by
  intro ch p n π x h
  have ha := (Setup.verifyTransform_ok.1 h).2
  exact ⟨sharp_balanced ha.rest.1 ha.h, sharp_balanced ha.rest.2.1 ha.l⟩

/-! ## Examples

One circuit, `x * x = y` over the field with 17 elements (Verif/Setup/Groth16.lean), and two participants. -/

/-- The first key, for the phase 1 secrets 3, 5 and 7. -/
def exFirst : State (ZMod 17) :=
  match initState Setup.exDom (srs 8 4 3 5 7) Setup.exM with
  | .ok s => s
  | _ => ⟨0, 0, 0, 0, [], 0, 0, [], [], [], [], []⟩

theorem exFirst_initial : Initial Setup.exDom Setup.exM 8 4 3 5 7 exFirst where
  spec := Setup.exDom_spec
  wf := Setup.exM_wf
  bound := by decide
  state := by
    have h : (match initState Setup.exDom (srs 8 4 3 5 7) Setup.exM with
      | .ok _ => true
      | _ => false) = true := by decide +kernel
    unfold exFirst
    split at h
    · rename_i s hs; simp only [hs]
    · cases h
  outside d ω h := by
    have : d = 4 := by
      unfold Setup.exDom at h
      split at h
      · cases h; rfl
      · cases h
    subst this
    decide

/-- The hash of C138 is abstract; here challenges are numbers that count the rounds. -/
def exSetup : Setup.Config Nat (ZMod 17) where
  hash ch r := if r.1 + ch = 0 then 1 else r.1 + ch
  challenge ch _ _ _ := ch + 1

/-- The signature is the pair of key and nonce. -/
def exCfg : Ceremony.Config Nat (Nat × Nat) (State (ZMod 17)) Nat (RatioProof (ZMod 17)) :=
  phase2 exSetup sharp (fun _ => true) (fun key n _ sig => sig == (key, n)) 10

def exMpc : Sclp (State (ZMod 17)) Nat (RatioProof (ZMod 17)) := ⟨[exFirst], [1], none, 0⟩

def exEmpty : Disk Nat Nat (State (ZMod 17)) Nat (RatioProof (ZMod 17)) String :=
  { state := fun _ _ => none, challenge := fun _ _ => none, proof := fun _ _ => none, registry := fun _ => none,
    names := some ["c"], roundNumber := none }

def exServer : Server Nat Nat (State (ZMod 17)) Nat (RatioProof (ZMod 17)) String :=
  { reg := Ceremony.toyRegistry, lq := { queue := Util.MDeque.empty 2, lock := none, since := 0 }, mpc := exMpc,
    disk := (exEmpty.writes (exMpc.saveWrites ["c"])).write (.registry 0 Ceremony.toyRegistry), started := [], applied := [] }

theorem exServer_prepared : Prepared exServer ["c"] ∧ NoLater exServer ["c"] := by
  refine ⟨⟨by decide, ⟨rfl, rfl, fun _ => rfl, fun h => absurd rfl h⟩, ⟨rfl, rfl, rfl, fun _ => rfl, fun h => absurd rfl h⟩,
    ⟨rfl, rfl⟩, by simp [exServer, exMpc, Disk.write], fun k hk => ?_⟩, fun k hk nm hnm => ?_⟩
  · simp only [exServer, exMpc] at hk
    simp only [exServer, Disk.write]
    rw [if_neg (by omega), Ceremony.write_registry _ _ fun k r => Ceremony.saveWrites_no_registry _ _ k r]
    rfl
  · simp only [exServer, exMpc] at hk
    simp only [exServer, Disk.write]
    rw [Ceremony.saveWrites_eq, Ceremony.writes_append]
    exact ((Ceremony.writes_keep (exMpc.roundWrites ["c"]) exEmpty 0 (Ceremony.roundWrites_at exMpc ["c"])).2.2.2 nm k (by omega)).1

/-- What a participant with the secret `δ` sends. -/
def exMade (ch : Nat) (s : State (ZMod 17)) (δ : ZMod 17) : State (ZMod 17) × RatioProof (ZMod 17) :=
  (contribute exSetup.hash ch s δ 5).getD (s, zeroProof 0)

/-- The first participant contributes with the secret 2, then the second with 3, and the coordinator is restarted. -/
def exHistory : List (Event Nat Nat (Nat × Nat) (State (ZMod 17)) (RatioProof (ZMod 17))) :=
  let a := exMade 1 exFirst 2
  let b := exMade 2 a.1 3
  [.query 0 1 (11, 0), .query 1 1 (11, 1), .start 2 1 [a.1] [a.2] (11, 2), .apply 0, .finish 3 0,
   .query 4 2 (12, 0), .query 5 2 (12, 1), .start 6 2 [b.1] [b.2] (12, 2), .apply 0, .finish 7 0, .restart 8]

/-- Every contribution that reaches the state is taken over. -/
def allTaken {St Pf : Type} (cfg : Ceremony.Config VK Sig St Ch Pf) (s : Server I VK St Ch Pf Nm) :
    List (Event I VK Sig St Pf) → Bool
  | [] => true
  | e :: es =>
    (match e with
      | .apply k =>
        match s.started[k]? with
        | some (_, st, pf) => match (s.mpc.update cfg st pf).1 with
          | .ok _ => true
          | .error _ => false
        | none => true
      | _ => true) && allTaken cfg (s.step cfg e).2 es

theorem clean_of_allTaken {St Pf : Type} (cfg : Ceremony.Config VK Sig St Ch Pf) (es : List (Event I VK Sig St Pf)) :
    ∀ s : Server I VK St Ch Pf Nm, allTaken cfg s es = true → Clean cfg s es := by
  induction es with
  | nil => intro _ _; trivial
  | cons e es ih =>
    intro s h
    simp only [allTaken, Bool.and_eq_true] at h
    refine ⟨?_, ih _ h.2⟩
    rintro k i st pf rfl hk er her
    have h1 := h.1
    simp only [hk, her] at h1
    cases h1

/-- The premises of `c139_ceremony_partial` and `c139_always_partial`: all that is taken is proper, and the key in the end is
the first one with `δ = 2 * 3`. -/
example : allTaken exCfg exServer exHistory = true ∧
    (taken exCfg exServer exHistory).map (fun x => (x.1, x.2.map fun π => decide (π.ratio.1 = 0), factor x.2[0]?)) =
      [(1, [false], 2), (2, [false], 3)] ∧
    (exServer.run exCfg exHistory).mpc.state = [exFirst.rescale 6] ∧ exFirst.rescale 6 ≠ exFirst ∧
    (exServer.run exCfg exHistory).disk.state "c" 2 = some (exFirst.rescale 6) := by
  decide +kernel

example : Initial Setup.exDom Setup.exM 8 4 3 5 7 exFirst ∧ exServer.mpc.state[0]? = some exFirst ∧ Lucky exSetup sharp ∧
    Prepared exServer ["c"] ∧ NoLater exServer ["c"] :=
  ⟨exFirst_initial, rfl, lucky_exists _, exServer_prepared⟩

example : Submits Proper exHistory := by
  intro now i st pf sig h π hπ
  simp only [exHistory, List.mem_cons, reduceCtorEq, false_or, Event.start.injEq, List.not_mem_nil, or_false] at h
  rcases h with ⟨_, _, _, rfl, _⟩ | ⟨_, _, _, rfl, _⟩ <;>
    (rw [List.mem_singleton] at hπ; subst hπ; unfold Proper; decide +kernel)

/-- `c139_erased_violated`: the third participant takes over with their own secret 4. -/
example : (exServer.run exCfg (exHistory ++ [.query 9 3 (13, 0), .query 10 3 (13, 1),
      .start 11 3 [exFirst.rescale 4] [zeroProof 9] (13, 2), .apply 0])).mpc.state = [exFirst.rescale 4] := by
  decide +kernel

end Verif.Whole
