import Verif.Ceremony.Queue

/-!
# C43 and C44: contributions and rejected contributions
-/

namespace Verif.Ceremony

open Verif.Util

section Rounds

variable {I VK Sig St Ch Pf Nm : Type} [DecidableEq I] [DecidableEq Nm]

/-! ## C44 -/

/-- The `i`-th circuit of a contribution passes its checks. -/
def Passes (cfg : Config VK Sig St Ch Pf) (m : Sclp St Ch Pf) (state : List St) (proof : List Pf)
    (i : Nat) : Prop :=
  ∃ s c n p, m.state[i]? = some s ∧ m.challenge[i]? = some c ∧ state[i]? = some n ∧
    proof[i]? = some p ∧ cfg.checkState n = true ∧ cfg.verifyTransform c s n p = true

theorem applyAll_spec (cfg : Config VK Sig St Ch Pf) (ss : List St) (cs : List Ch) (ns : List St)
    (ps : List Pf) (hc : cs.length = ss.length) (hn : ns.length = ss.length)
    (hp : ps.length = ss.length) :
    ∃ j, j ≤ ss.length ∧
      ((applyAll cfg ss cs (ns.zip ps)).1 = true ↔ j = ss.length) ∧
      (∀ i, i < j → Passes cfg ⟨ss, cs, none, 0⟩ ns ps i) ∧
      (j < ss.length → ¬ Passes cfg ⟨ss, cs, none, 0⟩ ns ps j) ∧
      (applyAll cfg ss cs (ns.zip ps)).2.1 = ns.take j ++ ss.drop j ∧
      (applyAll cfg ss cs (ns.zip ps)).2.2.length = cs.length ∧
      (∀ i s c n p, i < j → ss[i]? = some s → cs[i]? = some c → ns[i]? = some n →
        ps[i]? = some p → (applyAll cfg ss cs (ns.zip ps)).2.2[i]? = some (cfg.challenge c s n p)) ∧
      (∀ i, j ≤ i → (applyAll cfg ss cs (ns.zip ps)).2.2[i]? = cs[i]?) := by
  induction ss generalizing cs ns ps with
  | nil =>
    have e1 : cs = [] := List.length_eq_zero_iff.1 hc
    have e2 : ns = [] := List.length_eq_zero_iff.1 hn
    have e3 : ps = [] := List.length_eq_zero_iff.1 hp
    subst e1; subst e2; subst e3
    exact ⟨0, by simp [applyAll]⟩
  | cons s ss ih =>
    match cs, ns, ps, hc, hn, hp with
    | c :: cs, n :: ns, p :: ps, hc, hn, hp =>
      simp only [List.length_cons, Nat.add_right_cancel_iff] at hc hn hp
      have key : Passes cfg ⟨s :: ss, c :: cs, none, 0⟩ (n :: ns) (p :: ps) 0 ↔
          (cfg.checkState n && cfg.verifyTransform c s n p) = true := by
        simp [Passes]
      simp only [List.zip_cons_cons, applyAll]
      by_cases hg : (cfg.checkState n && cfg.verifyTransform c s n p) = true
      · rw [if_pos hg]
        obtain ⟨j, h1, h2, h3, h4, h5, h6, h7, h8⟩ := ih cs ns ps hc hn hp
        refine ⟨j + 1, by simp; omega, ?_, ?_, ?_, ?_, ?_, ?_, ?_⟩
        · simp only [List.length_cons, Nat.add_right_cancel_iff]; exact h2
        · intro i hi
          cases i with
          | zero => exact key.2 hg
          | succ i =>
            have := h3 i (by omega)
            simpa [Passes] using this
        · intro hj
          have := h4 (by simpa using hj)
          simpa [Passes] using this
        · simp [h5]
        · simp [h6]
        · intro i s' c' n' p' hi a1 a2 a3 a4
          cases i with
          | zero =>
            simp only [List.getElem?_cons_zero, Option.some.injEq] at a1 a2 a3 a4 ⊢
            subst a1; subst a2; subst a3; subst a4; rfl
          | succ i =>
            simp only [List.getElem?_cons_succ] at a1 a2 a3 a4 ⊢
            exact h7 i s' c' n' p' (by omega) a1 a2 a3 a4
        · intro i hi
          cases i with
          | zero => omega
          | succ i => simpa using h8 i (by omega)
      · rw [if_neg hg]
        refine ⟨0, by simp, by simp, by simp, fun _ h => hg (key.1 h), by simp, rfl, ?_, ?_⟩
        · intro i _ _ _ _ hi; omega
        · intro i _; rfl

/-- The states, challenges and proofs of a running ceremony have the same number of circuits. -/
def Sclp.Aligned (m : Sclp St Ch Pf) : Prop := m.challenge.length = m.state.length

/-- **C44, exactly.** What an `update` does to the ceremony state: with vectors of the wrong length
nothing changes; otherwise let `j` be the first circuit whose check fails. If there is none the
contribution is accepted, every state is replaced by the contributed one, every challenge by the
derived one and the round advances. If there is one the contribution is rejected and the round and
latest proof stay, but the states (and challenges) of the circuits before `j` are the contributed
ones. -/
theorem c44_exact (cfg : Config VK Sig St Ch Pf) (m : Sclp St Ch Pf) (hm : m.Aligned)
    (state : List St) (proof : List Pf) :
    (¬ (state.length = m.state.length ∧ proof.length = m.state.length) →
      m.update cfg state proof = (.error .taskError, m)) ∧
    (state.length = m.state.length ∧ proof.length = m.state.length → ∃ j, j ≤ m.state.length ∧
      (∀ i, i < j → Passes cfg m state proof i) ∧
      (j < m.state.length → ¬ Passes cfg m state proof j) ∧
      (m.update cfg state proof).2.state = state.take j ++ m.state.drop j ∧
      (∀ i s c n p, i < j → m.state[i]? = some s → m.challenge[i]? = some c →
        state[i]? = some n → proof[i]? = some p →
        (m.update cfg state proof).2.challenge[i]? = some (cfg.challenge c s n p)) ∧
      (∀ i, j ≤ i → (m.update cfg state proof).2.challenge[i]? = m.challenge[i]?) ∧
      (j = m.state.length → (m.update cfg state proof).1 = .ok (m.round + 1) ∧
        (m.update cfg state proof).2.round = m.round + 1 ∧
        (m.update cfg state proof).2.proof = some proof) ∧
      (j < m.state.length → (m.update cfg state proof).1 = .error .badRequest ∧
        (m.update cfg state proof).2.round = m.round ∧
        (m.update cfg state proof).2.proof = m.proof)) := by
  refine ⟨fun h => if_neg h, ?_⟩
  rintro ⟨hn, hp⟩
  obtain ⟨j, h1, h2, h3, h4, h5, h6, h7, h8⟩ :=
    applyAll_spec cfg m.state m.challenge state proof hm hn hp
  have hpass : ∀ i, Passes cfg ⟨m.state, m.challenge, none, 0⟩ state proof i ↔
      Passes cfg m state proof i := fun i => Iff.rfl
  refine ⟨j, h1, h3, h4, ?_⟩
  unfold Sclp.update
  rw [if_pos ⟨hn, hp⟩]
  by_cases hj : j = m.state.length
  · have hr := h2.2 hj
    simp only [hr, if_true]
    exact ⟨h5, h7, h8, fun _ => ⟨trivial, trivial, trivial⟩, fun h => by omega⟩
  · have hr : ¬ (applyAll cfg m.state m.challenge (state.zip proof)).1 = true := fun h => hj (h2.1 h)
    simp only [if_neg hr]
    exact ⟨h5, h7, h8, fun h => absurd h hj, fun _ => ⟨trivial, trivial, trivial⟩⟩

/-- **C44, when the first circuit fails.** A contribution that is rejected because of its vector
lengths or because of its first circuit changes nothing. Missing for the full claim: rejection
because of a later circuit, see `c44_violated`. -/
theorem c44_unchanged_partial (cfg : Config VK Sig St Ch Pf) (m : Sclp St Ch Pf) (hm : m.Aligned)
    (state : List St) (proof : List Pf)
    (h : ¬ (state.length = m.state.length ∧ proof.length = m.state.length) ∨
      (0 < m.state.length ∧ ¬ Passes cfg m state proof 0)) :
    (m.update cfg state proof).2 = m ∧ ∃ e, (m.update cfg state proof).1 = .error e := by
  obtain ⟨h1, h2⟩ := c44_exact cfg m hm state proof
  by_cases hl : state.length = m.state.length ∧ proof.length = m.state.length
  · rcases h with h | ⟨hpos, hnp⟩
    · exact absurd hl h
    · obtain ⟨j, _, hpass, _, hst, _, hch, _, herr⟩ := h2 hl
      have hj : j = 0 := by
        rcases Nat.eq_zero_or_pos j with h | h
        · exact h
        · exact absurd (hpass 0 h) hnp
      subst hj
      obtain ⟨he, hr, hp⟩ := herr hpos
      refine ⟨?_, _, he⟩
      have hs : (m.update cfg state proof).2.state = m.state := by simpa using hst
      have hc : (m.update cfg state proof).2.challenge = m.challenge :=
        List.ext_getElem? fun i => hch i (Nat.zero_le i)
      generalize (m.update cfg state proof).2 = m' at hs hc hr hp
      cases m; cases m'
      simp only at hs hc hr hp
      subst hs; subst hc; subst hr; subst hp; rfl
  · rw [h1 hl]
    exact ⟨rfl, _, rfl⟩

/-- **C44 for ceremonies over one circuit.** Every rejected contribution changes nothing. -/
theorem c44_single_circuit (cfg : Config VK Sig St Ch Pf) (m : Sclp St Ch Pf) (hm : m.Aligned)
    (h1 : m.state.length = 1) (state : List St) (proof : List Pf) (e : Err)
    (he : (m.update cfg state proof).1 = .error e) : (m.update cfg state proof).2 = m := by
  by_cases hl : state.length = m.state.length ∧ proof.length = m.state.length
  · by_cases hp : Passes cfg m state proof 0
    · exfalso
      obtain ⟨j, hj, _, hnp, _, _, _, hok, _⟩ := (c44_exact cfg m hm state proof).2 hl
      have : j = m.state.length := by
        rcases Nat.lt_or_ge j m.state.length with h | h
        · have : j = 0 := by omega
          subst this
          exact absurd hp (hnp h)
        · omega
      rw [(hok this).1] at he
      cases he
    · exact (c44_unchanged_partial cfg m hm state proof (.inr ⟨by omega, hp⟩)).1
  · exact (c44_unchanged_partial cfg m hm state proof (.inl hl)).1

/-- **C44 is violated** whenever a contribution to two circuits or more is good for the first circuit
and bad for a later one: it is rejected, yet the first circuit's state has been replaced. -/
theorem c44_violated (cfg : Config VK Sig St Ch Pf) (m : Sclp St Ch Pf) (hm : m.Aligned)
    (state : List St) (proof : List Pf)
    (hl : state.length = m.state.length ∧ proof.length = m.state.length)
    (hgood : Passes cfg m state proof 0) (i : Nat) (hi : i < m.state.length)
    (hbad : ¬ Passes cfg m state proof i) (hne : state[0]? ≠ m.state[0]?) :
    (m.update cfg state proof).1 = .error .badRequest ∧
    (m.update cfg state proof).2.state[0]? = state[0]? ∧
    (m.update cfg state proof).2 ≠ m := by
  obtain ⟨j, hj, hpass, hnp, hst, _, _, _, herr⟩ := (c44_exact cfg m hm state proof).2 hl
  have hji : j ≤ i := Nat.not_lt.1 fun h => hbad (hpass i h)
  have hj0 : j ≠ 0 := fun h => by
    subst h
    exact hnp (by omega) hgood
  have h0 : (m.update cfg state proof).2.state[0]? = state[0]? := by
    rw [hst, List.getElem?_append_left (by simp; omega), List.getElem?_take]
    simp; omega
  refine ⟨(herr (by omega)).1, h0, ?_⟩
  intro h
  rw [h] at h0
  exact hne h0.symm

/-! ## C43 -/

/-- The participant whose contribution becomes a round by this event. -/
def creditedAt (cfg : Config VK Sig St Ch Pf) (s : Server I VK St Ch Pf Nm) :
    Event I VK Sig St Pf → List I
  | .apply k =>
    match s.started[k]?, (s.step cfg (.apply k)).1 with
    | some (i, _, _), .round _ => [i]
    | _, _ => []
  | _ => []

/-- The participants whose contributions become rounds in a history. -/
def credited (cfg : Config VK Sig St Ch Pf) (s : Server I VK St Ch Pf Nm) :
    List (Event I VK Sig St Pf) → List I
  | [] => []
  | e :: es => creditedAt cfg s e ++ credited cfg (s.step cfg e).2 es

/-- The senders of the contributions that are being processed. -/
def Server.inFlight (s : Server I VK St Ch Pf Nm) : List I :=
  s.started.map Prod.fst ++ s.applied.map Prod.fst

/-- At no point of the history two contributions of the same participant are in flight. -/
def Serial (cfg : Config VK Sig St Ch Pf) (s : Server I VK St Ch Pf Nm) :
    List (Event I VK Sig St Pf) → Prop
  | [] => s.inFlight.Nodup
  | e :: es => s.inFlight.Nodup ∧ Serial cfg (s.step cfg e).2 es

theorem serial_head (cfg : Config VK Sig St Ch Pf) (s : Server I VK St Ch Pf Nm)
    (es : List (Event I VK Sig St Pf)) (h : Serial cfg s es) : s.inFlight.Nodup := by
  cases es with
  | nil => exact h
  | cons e es => exact h.1

structure OnceInv (s : Server I VK St Ch Pf Nm) (C : List I) : Prop where
  flight : ∀ i ∈ s.inFlight, ∃ p, s.reg.get i = some p ∧ p.contributed = false
  done : ∀ i ∈ C, i ∈ s.applied.map Prod.fst ∨ ∃ p, s.reg.get i = some p ∧ p.contributed = true
  nodup : C.Nodup

/-- A request changes no flags and keeps the applied contributions; it can only add its sender, who
has not contributed, to the started ones. -/
theorem request_flight (cfg : Config VK Sig St Ch Pf) (s : Server I VK St Ch Pf Nm)
    (e : Event I VK Sig St Pf) (i : I) (b : Body St Pf) (sig : Sig)
    (he : e.request = some (i, b, sig)) :
    (s.step cfg e).2.applied = s.applied ∧
    ((s.step cfg e).2.started = s.started ∨
      ((∃ st pf, (s.step cfg e).2.started = s.started ++ [(i, st, pf)]) ∧
        ∃ p, s.reg.get i = some p ∧ p.contributed = false)) ∧
    (∀ j p, s.reg.get j = some p → ∃ p', (s.step cfg e).2.reg.get j = some p' ∧
      p'.contributed = p.contributed) := by
  have hreg : ∀ j p, s.reg.get j = some p → ∃ p', (s.step cfg e).2.reg.get j = some p' ∧
      p'.contributed = p.contributed := by
    intro j p hj
    rcases request_spec cfg s e i b sig he with ⟨_, h⟩ | ⟨_, _, _, _, _, _, h⟩
    · exact ⟨p, by rw [h, hj], rfl⟩
    · obtain ⟨q', h1, _, h3, _⟩ := h j p hj
      exact ⟨q', h1, h3⟩
  refine ⟨?_, ?_, hreg⟩
  · cases e with
    | query now i' sig' =>
      simp only [Server.step, Server.query]
      split
      · rfl
      · split
        · rfl
        · split <;> rfl
    | start now i' st pf sig' =>
      simp only [Server.step, Server.start]
      split
      · rfl
      · split <;> rfl
    | apply k => cases he
    | finish now k => cases he
    | reload rows => cases he
    | restart now => cases he
  · cases e with
    | query now i' sig' =>
      left
      simp only [Server.step, Server.query]
      split
      · rfl
      · split
        · rfl
        · split <;> rfl
    | start now i' st pf sig' =>
      simp only [Event.request, Option.some.injEq, Prod.mk.injEq] at he
      obtain ⟨rfl, rfl, rfl⟩ := he
      simp only [Server.step, Server.start]
      rcases preprocess_cases cfg s.reg i' (.contribute st pf) sig' with
        ⟨e, hp, _⟩ | ⟨p, hg, hc, _, _, hp⟩
      · left; simp only [hp]
      · simp only [hp]
        split
        · exact .inr ⟨⟨st, pf, rfl⟩, p, hg, hc⟩
        · left; trivial
    | apply k => cases he
    | finish now k => cases he
    | reload rows => cases he
    | restart now => cases he

theorem mem_eraseIdx_ne {l : List I} (hn : l.Nodup) {k : Nat} {x : I} (hk : l[k]? = some x) :
    x ∉ l.eraseIdx k := by
  induction l generalizing k with
  | nil => simp at hk
  | cons y l ih =>
    rw [List.nodup_cons] at hn
    cases k with
    | zero =>
      simp only [List.getElem?_cons_zero, Option.some.injEq] at hk
      subst hk
      simpa using hn.1
    | succ k =>
      simp only [List.getElem?_cons_succ] at hk
      simp only [List.eraseIdx_cons_succ, List.mem_cons, not_or]
      refine ⟨?_, ih hn.2 hk⟩
      rintro rfl
      exact hn.1 (List.mem_of_getElem? hk)

theorem map_eraseIdx {α β : Type} (f : α → β) (l : List α) (k : Nat) :
    (l.eraseIdx k).map f = (l.map f).eraseIdx k := by
  induction l generalizing k with
  | nil => simp
  | cons x l ih => cases k <;> simp [ih]

/-- One event other than a restart keeps the invariant, with the credited participants added. -/
theorem onceInv_step (cfg : Config VK Sig St Ch Pf) (s : Server I VK St Ch Pf Nm) (C : List I)
    (e : Event I VK Sig St Pf) (he : ∀ now, e ≠ .restart now) (h : OnceInv s C)
    (hser : s.inFlight.Nodup) : OnceInv (s.step cfg e).2 (C ++ creditedAt cfg s e) := by
  cases hr : e.request with
  | some x =>
    obtain ⟨i, b, sig⟩ := x
    obtain ⟨h1, h2, h3⟩ := request_flight cfg s e i b sig hr
    have hcr : creditedAt cfg s e = [] := by cases e <;> first | rfl | cases hr
    rw [hcr, List.append_nil]
    refine ⟨?_, ?_, h.nodup⟩
    · intro j hj
      have : ∃ p, s.reg.get j = some p ∧ p.contributed = false := by
        unfold Server.inFlight at hj
        rw [h1] at hj
        rcases h2 with h2 | ⟨⟨st, pf, h2⟩, hp⟩
        · rw [h2] at hj; exact h.flight j hj
        · rw [h2] at hj
          simp only [List.map_append, List.map_cons, List.map_nil, List.mem_append,
            List.mem_singleton] at hj
          rcases hj with (hj | hj) | hj
          · exact h.flight j (List.mem_append_left _ hj)
          · rw [hj]; exact hp
          · exact h.flight j (List.mem_append_right _ hj)
      obtain ⟨p, hp, hc⟩ := this
      obtain ⟨p', h4, h5⟩ := h3 j p hp
      exact ⟨p', h4, by rw [h5, hc]⟩
    · intro j hj
      rw [h1]
      rcases h.done j hj with hd | ⟨p, hp, hc⟩
      · exact .inl hd
      · obtain ⟨p', h4, h5⟩ := h3 j p hp
        exact .inr ⟨p', h4, by rw [h5, hc]⟩
  | none =>
    cases e with
    | query now i sig => cases hr
    | start now i st pf sig => cases hr
    | apply k =>
      simp only [Server.step, creditedAt, Server.apply]
      cases hk : s.started[k]? with
      | none => simpa using h
      | some x =>
        obtain ⟨i, st, pf⟩ := x
        simp only
        have hik : (s.started.map Prod.fst)[k]? = some i := by simp [hk]
        have him : i ∈ s.started.map Prod.fst := List.mem_of_getElem? hik
        rcases hu : s.mpc.update cfg st pf with ⟨res, m⟩
        cases res with
        | error er =>
          simp only [List.append_nil]
          refine ⟨?_, h.done, h.nodup⟩
          intro j hj
          refine h.flight j ?_
          simp only [Server.inFlight, List.mem_append, map_eraseIdx] at hj ⊢
          rcases hj with hj | hj
          · exact .inl (List.mem_of_mem_eraseIdx hj)
          · exact .inr hj
        | ok round =>
          simp only
          refine ⟨?_, ?_, ?_⟩
          · intro j hj
            simp only [Server.inFlight, List.mem_append, map_eraseIdx, List.map_append, List.map_cons,
              List.map_nil, List.mem_singleton] at hj
            refine h.flight j ?_
            simp only [Server.inFlight, List.mem_append]
            rcases hj with hj | hj | hj
            · exact .inl (List.mem_of_mem_eraseIdx hj)
            · exact .inr hj
            · rw [hj]; exact .inl him
          · intro j hj
            simp only [List.map_append, List.map_cons, List.map_nil, List.mem_append,
              List.mem_singleton] at hj ⊢
            rcases hj with hj | hj
            · rcases h.done j hj with hd | hd
              · exact .inl (.inl hd)
              · exact .inr hd
            · exact .inl (.inr hj)
          · rw [List.nodup_append]
            refine ⟨h.nodup, by simp, ?_⟩
            intro a ha b hb hab
            simp only [List.mem_singleton] at hb
            subst hb; subst hab
            obtain ⟨p, hp, hc⟩ := h.flight a (List.mem_append_left _ him)
            rcases h.done a ha with hd | ⟨p', hp', hc'⟩
            · unfold Server.inFlight at hser
              rw [List.nodup_append] at hser
              exact hser.2.2 a him a hd rfl
            · rw [hp] at hp'
              simp only [Option.some.injEq] at hp'
              subst hp'
              rw [hc] at hc'; cases hc'
    | finish now k =>
      simp only [Server.step, creditedAt, List.append_nil, Server.finish]
      cases hk : s.applied[k]? with
      | none => exact h
      | some x =>
        obtain ⟨i, round⟩ := x
        have hik : (s.applied.map Prod.fst)[k]? = some i := by simp [hk]
        have him : i ∈ s.applied.map Prod.fst := List.mem_of_getElem? hik
        obtain ⟨p, hp, hc⟩ := h.flight i (List.mem_append_right _ him)
        simp only [hp]
        unfold Server.inFlight at hser
        rw [List.nodup_append] at hser
        have hget : ∀ j q, s.reg.get j = some q →
            ∃ q', (s.lq.updateExpired (s.reg.modify i fun p => { p with contributed := true })
              now).2.2.get j = some q' ∧
              q'.contributed = if j = i then true else q.contributed := by
          intro j q hj
          rw [updateExpired_get, Registry.get_modify]
          by_cases hji : j = i
          · rw [if_pos hji, hj]
            simp only [Option.map_some]
            refine ⟨_, rfl, ?_⟩
            rw [if_pos hji]
            split <;> rfl
          · rw [if_neg hji, hj]
            simp only [Option.map_some]
            refine ⟨_, rfl, ?_⟩
            rw [if_neg hji]
            split <;> rfl
        refine ⟨?_, ?_, h.nodup⟩
        · intro j hj
          simp only [Server.inFlight, List.mem_append, map_eraseIdx] at hj
          have hji : j ≠ i := by
            rintro rfl
            rcases hj with hj | hj
            · exact hser.2.2 j hj j him rfl
            · exact mem_eraseIdx_ne hser.2.1 hik hj
          obtain ⟨q, hq, hqc⟩ := h.flight j (by
            simp only [Server.inFlight, List.mem_append]
            rcases hj with hj | hj
            · exact .inl hj
            · exact .inr (List.mem_of_mem_eraseIdx hj))
          obtain ⟨q', h1, h2⟩ := hget j q hq
          exact ⟨q', h1, by rw [h2, if_neg hji]; exact hqc⟩
        · intro j hj
          by_cases hji : j = i
          · right
            subst hji
            obtain ⟨q', h1, h2⟩ := hget j p hp
            exact ⟨q', h1, by rw [h2, if_pos rfl]⟩
          · rcases h.done j hj with hd | ⟨q, hq, hqc⟩
            · left
              simp only [map_eraseIdx]
              obtain ⟨n, hn⟩ := List.getElem?_of_mem hd
              have hnk : n ≠ k := by
                rintro rfl
                rw [hn] at hik
                simp only [Option.some.injEq] at hik
                exact hji hik
              rw [List.mem_eraseIdx_iff_getElem?]
              exact ⟨n, hnk, hn⟩
            · right
              obtain ⟨q', h1, h2⟩ := hget j q hq
              exact ⟨q', h1, by rw [h2, if_neg hji]; exact hqc⟩
    | reload rows =>
      simp only [Server.step, creditedAt, List.append_nil]
      have keep : ∀ j p, s.reg.get j = some p → (s.reg.loadAppend rows).2.get j = some p := by
        intro j p hj
        simp only [Registry.loadAppend, Registry.get_loadLoop, hj]
      refine ⟨?_, ?_, h.nodup⟩
      · intro j hj
        obtain ⟨p, hp, hc⟩ := h.flight j hj
        exact ⟨p, keep j p hp, hc⟩
      · intro j hj
        rcases h.done j hj with hd | ⟨p, hp, hc⟩
        · exact .inl hd
        · exact .inr ⟨p, keep j p hp, hc⟩
    | restart now => exact absurd rfl (he now)

theorem onceInv_run (cfg : Config VK Sig St Ch Pf) (es : List (Event I VK Sig St Pf))
    (s : Server I VK St Ch Pf Nm) (C : List I) (hes : NoRestart es) (h : OnceInv s C)
    (hser : Serial cfg s es) : (C ++ credited cfg s es).Nodup := by
  induction es generalizing s C with
  | nil => simpa [credited] using h.nodup
  | cons e es ih =>
    have := ih (s.step cfg e).2 (C ++ creditedAt cfg s e) (fun now hm => hes now (by simp [hm]))
      (onceInv_step cfg s C e (fun now hm => hes now (by simp [hm])) h hser.1) hser.2
    simpa [credited] using this

/-- A server with no contribution in flight. -/
def Idle (s : Server I VK St Ch Pf Nm) : Prop := s.started = [] ∧ s.applied = []

/-- **C43, for one contribution per participant at a time.** In every history without restarts in
which no participant has two contributions in flight at once — queries, timeouts, and
contributions of different participants may interleave in any way — no participant is credited
twice, and none is credited who had already contributed. Missing for the full claim: overlapping
contributions of one participant (`c43_violated`) and restarts (`c43_restart_violated`). -/
theorem c43_once_partial (cfg : Config VK Sig St Ch Pf) (s : Server I VK St Ch Pf Nm)
    (hs : Idle s) (es : List (Event I VK Sig St Pf)) (hes : NoRestart es)
    (hser : Serial cfg s es) :
    (credited cfg s es).Nodup ∧
    ∀ i p, s.reg.get i = some p → p.contributed = true → i ∉ credited cfg s es := by
  have hf : ∀ i ∈ s.inFlight, ∃ p, s.reg.get i = some p ∧ p.contributed = false := by
    intro i hi
    simp [Server.inFlight, hs.1, hs.2] at hi
  refine ⟨?_, ?_⟩
  · have := onceInv_run cfg es s [] hes ⟨hf, by simp, by simp⟩ hser
    simpa using this
  · intro i p hp hc hi
    have := onceInv_run cfg es s [i] hes
      ⟨hf, by intro j hj; simp only [List.mem_singleton] at hj; subst hj; exact .inr ⟨p, hp, hc⟩,
        by simp⟩ hser
    simp only [List.singleton_append, List.nodup_cons] at this
    exact this.1 hi

/-- **C43.** Every credited contribution advances the round by one, and nothing else does. -/
theorem c43_rounds (cfg : Config VK Sig St Ch Pf) (es : List (Event I VK Sig St Pf))
    (s : Server I VK St Ch Pf Nm) (hes : NoRestart es) :
    (s.run cfg es).mpc.round = s.mpc.round + (credited cfg s es).length := by
  induction es generalizing s with
  | nil => simp [Server.run, credited]
  | cons e es ih =>
    simp only [Server.run, credited, List.length_append]
    rw [ih _ fun now hm => hes now (by simp [hm])]
    have : (s.step cfg e).2.mpc.round = s.mpc.round + (creditedAt cfg s e).length := by
      cases e with
      | query now i sig =>
        simp only [Server.step, creditedAt, Server.query]
        split
        · rfl
        · split
          · rfl
          · split <;> rfl
      | start now i st pf sig =>
        simp only [Server.step, creditedAt, Server.start]
        split
        · rfl
        · split <;> rfl
      | apply k =>
        simp only [Server.step, creditedAt, Server.apply]
        cases hk : s.started[k]? with
        | none => rfl
        | some x =>
          obtain ⟨i, st, pf⟩ := x
          simp only
          unfold Sclp.update
          by_cases hl : st.length = s.mpc.state.length ∧ pf.length = s.mpc.state.length
          · simp only [if_pos hl]
            by_cases hr : (applyAll cfg s.mpc.state s.mpc.challenge (st.zip pf)).1 = true
            · simp only [if_pos hr]; rfl
            · simp only [if_neg hr]; rfl
          · simp only [if_neg hl]; rfl
      | finish now k =>
        simp only [Server.step, creditedAt, Server.finish]
        split
        · rfl
        · split <;> rfl
      | reload rows => rfl
      | restart now => exact absurd (List.mem_cons_self ..) (hes now)
    omega

end Rounds

end Verif.Ceremony
