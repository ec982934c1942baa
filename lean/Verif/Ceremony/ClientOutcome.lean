import Verif.Ceremony.Client

/-!
# What the ceremony client tells the participant

C102, second part: the round that the client reports is the one that the coordinator made of the contribution, and a client
that reports failure has not contributed.
-/

namespace Verif.Ceremony

section Outcome

variable {I VK Sig St Ch Pf Nm R : Type} [DecidableEq I] [DecidableEq Nm]

/-! ## Specification -/

/-- The rounds that one event makes of contributions of `i`. -/
def grantedAt (cfg : Config VK Sig St Ch Pf) (i : I) (s : Server I VK St Ch Pf Nm) : Event I VK Sig St Pf → List Nat
  | .apply k =>
    match s.started[k]?, (s.step cfg (.apply k)).1 with
    | some (j, _, _), .round r => if j = i then [r] else []
    | _, _ => []
  | _ => []

/-- The rounds that a history makes of contributions of `i`. -/
def granted (cfg : Config VK Sig St Ch Pf) (i : I) (s : Server I VK St Ch Pf Nm) : List (Event I VK Sig St Pf) → List Nat
  | [] => []
  | e :: es => grantedAt cfg i s e ++ granted cfg i (s.step cfg e).2 es

/-- `i` is registered as having contributed. -/
def Flag (i : I) (s : Server I VK St Ch Pf Nm) : Prop := ∃ p, s.reg.get i = some p ∧ p.contributed = true

/-- No contribution of `i` is being processed. -/
def Quiet (i : I) (s : Server I VK St Ch Pf Nm) : Prop := i ∉ s.inFlight

/-- Nobody else can sign for the participant, along a history, and the coordinator is not restarted. -/
def Undisturbed (cfg : Config VK Sig St Ch Pf) (P : Party I Sig St Ch Pf R) (x : Sys I VK St Ch Pf Nm) :
    List (Act I VK Sig St Pf R) → Prop
  | [] => True
  | a :: as =>
    (∀ e, a = .env e → Foreign cfg P x.server e ∧ ∀ now, e ≠ .restart now) ∧ Undisturbed cfg P (x.step cfg P a) as

/-! ## Proof -/

def mineS (i : I) (s : Server I VK St Ch Pf Nm) : List (I × List St × List Pf) := s.started.filter fun y => y.1 = i
def mineA (i : I) (s : Server I VK St Ch Pf Nm) : List (I × Nat) := s.applied.filter fun y => y.1 = i

omit [DecidableEq Nm] in
theorem quiet_iff (i : I) (s : Server I VK St Ch Pf Nm) : Quiet i s ↔ mineS i s = [] ∧ mineA i s = [] := by
  unfold Quiet Server.inFlight mineS mineA
  simp only [List.mem_append, List.mem_map, not_or, not_exists, not_and, List.filter_eq_nil_iff, decide_eq_true_eq]

theorem filter_eraseIdx_ne {α : Type} (p : α → Bool) (l : List α) (k : Nat) (x : α) (hk : l[k]? = some x) (hx : p x = false) :
    (l.eraseIdx k).filter p = l.filter p := by
  induction l generalizing k with
  | nil => rfl
  | cons y l ih =>
    cases k with
    | zero => simp only [List.getElem?_cons_zero, Option.some.injEq] at hk; subst hk; simp [hx]
    | succ k =>
      simp only [List.getElem?_cons_succ] at hk
      simp only [List.eraseIdx_cons_succ, List.filter_cons, ih k hk]

theorem filter_eraseIdx_eq {α : Type} (p : α → Bool) (l : List α) (k : Nat) (x : α) (hk : l[k]? = some x) (hx : p x = true) :
    ((l.eraseIdx k).filter p).length + 1 = (l.filter p).length := by
  induction l generalizing k with
  | nil => simp at hk
  | cons y l ih =>
    cases k with
    | zero => simp only [List.getElem?_cons_zero, Option.some.injEq] at hk; subst hk; simp [hx]
    | succ k =>
      simp only [List.getElem?_cons_succ] at hk
      have := ih k hk
      simp only [List.eraseIdx_cons_succ, List.filter_cons]
      split
      · simp only [List.length_cons]; omega
      · exact this

/-- What holds at any time, `C` being the rounds made so far. -/
def Tell (P : Party I Sig St Ch Pf R) (x : Sys I VK St Ch Pf Nm) (C : List Nat) : Prop :=
  match x.client.phase with
  | .sent _ _ _ _ => (∃ p, x.server.reg.get P.id = some p) ∧
      (((mineS P.id x.server).length = 1 ∧ mineA P.id x.server = [] ∧ C = []) ∨
        (mineS P.id x.server = [] ∧ ∃ k, mineA P.id x.server = [(P.id, k)] ∧ C = [k]))
  | .done k => Quiet P.id x.server ∧ Flag P.id x.server ∧ C = [k]
  | .failed e => Quiet P.id x.server ∧ (e = .server .alreadyContributed → Flag P.id x.server) ∧
      (C = [] ∨ ∃ k, C = [k] ∧ e = .server .alreadyContributed)
  | .computing _ _ => Quiet P.id x.server ∧ C = []
  | .ready => Quiet P.id x.server ∧ (C = [] ∨ ∃ k, C = [k] ∧ Flag P.id x.server)

/-- A request of somebody else in the name of the participant changes nothing. -/
theorem foreign_request (cfg : Config VK Sig St Ch Pf) (P : Party I Sig St Ch Pf R) (s : Server I VK St Ch Pf Nm)
    (e : Event I VK Sig St Pf) (b : Body St Pf) (sig : Sig) (he : e.request = some (P.id, b, sig))
    (hf : Foreign cfg P s e) : (s.step cfg e).2 = s := by
  have hpre : ∃ er, preprocess cfg s.reg P.id b sig = (.error er, s.reg) := by
    rcases preprocess_cases cfg s.reg P.id b sig with ⟨er, h, -⟩ | ⟨p, h1, -, -, h2, -⟩
    · exact ⟨er, h⟩
    · have := hf b sig he p h1
      rw [h2] at this; cases this
  obtain ⟨er, hpre⟩ := hpre
  cases e with
  | query now i sig' =>
    simp only [Event.request, Option.some.injEq, Prod.mk.injEq] at he
    obtain ⟨rfl, rfl, rfl⟩ := he
    simp only [Server.step, Server.query, hpre]
  | start now i st pf sig' =>
    simp only [Event.request, Option.some.injEq, Prod.mk.injEq] at he
    obtain ⟨rfl, rfl, rfl⟩ := he
    simp only [Server.step, Server.start, hpre]
  | apply k => cases he
  | finish now k => cases he
  | reload rows => cases he
  | restart now => cases he

/-- Requests in the name of others keep what belongs to the participant. -/
theorem other_request (cfg : Config VK Sig St Ch Pf) (s : Server I VK St Ch Pf Nm)
    (e : Event I VK Sig St Pf) (j : I) (b : Body St Pf) (sig : Sig) (he : e.request = some (j, b, sig)) (i : I) (hj : j ≠ i) :
    mineS i (s.step cfg e).2 = mineS i s ∧ mineA i (s.step cfg e).2 = mineA i s := by
  obtain ⟨h1, h2, -⟩ := request_flight cfg s e j b sig he
  refine ⟨?_, by unfold mineA; rw [h1]⟩
  unfold mineS
  rcases h2 with h2 | ⟨⟨st, pf, h2⟩, -⟩
  · rw [h2]
  · rw [h2, List.filter_append]
    simp [hj]

omit [DecidableEq Nm] in
theorem request_grants (cfg : Config VK Sig St Ch Pf) (i : I) (s : Server I VK St Ch Pf Nm)
    (e : Event I VK Sig St Pf) (he : e.request ≠ none) [DecidableEq Nm] : grantedAt cfg i s e = [] := by
  cases e with
  | query now i sig => rfl
  | start now i st pf sig => rfl
  | _ => exact absurd rfl he

theorem flag_step (cfg : Config VK Sig St Ch Pf) (i : I) (s : Server I VK St Ch Pf Nm)
    (e : Event I VK Sig St Pf) (he : ∀ now, e ≠ .restart now) (h : Flag i s) : Flag i (s.step cfg e).2 := by
  obtain ⟨p, hp, hc⟩ := h
  obtain ⟨q, hq, -, -, h4⟩ := step_later cfg s e he i p hp
  exact ⟨q, hq, h4 hc⟩

/-- An event at the coordinator that delivers nothing to the client and touches nothing of theirs. -/
theorem tell_keep (cfg : Config VK Sig St Ch Pf) (P : Party I Sig St Ch Pf R) (x : Sys I VK St Ch Pf Nm) (C : List Nat)
    (h : Tell P x C) (e : Event I VK Sig St Pf) (he : ∀ now, e ≠ .restart now)
    (hS : mineS P.id (x.server.step cfg e).2 = mineS P.id x.server)
    (hA : mineA P.id (x.server.step cfg e).2 = mineA P.id x.server) :
    Tell P ⟨x.client, (x.server.step cfg e).2⟩ C := by
  have hQ : Quiet P.id x.server → Quiet P.id (x.server.step cfg e).2 := by
    rw [quiet_iff, quiet_iff, hS, hA]; exact id
  have hF := flag_step cfg P.id x.server e he
  unfold Tell at h ⊢
  simp only
  split at h
  · obtain ⟨⟨p, hp⟩, h2⟩ := h
    obtain ⟨q, hq, -⟩ := step_later cfg x.server e he P.id p hp
    simp only [hS, hA]
    exact ⟨⟨q, hq⟩, h2⟩
  · exact ⟨hQ h.1, hF h.2.1, h.2.2⟩
  · exact ⟨hQ h.1, fun he => hF (h.2.1 he), h.2.2⟩
  · exact ⟨hQ h.1, h.2⟩
  · refine ⟨hQ h.1, ?_⟩
    rcases h.2 with h | ⟨k, h1, h2⟩
    · exact .inl h
    · exact .inr ⟨k, h1, hF h2⟩

omit [DecidableEq Nm] in
theorem deliver_apply (P : Party I Sig St Ch Pf R) (x : Sys I VK St Ch Pf Nm) (k : Nat) (r : Resp St Ch)
    (h : (x.server.started[k]?).map (·.1) ≠ some P.id) :
    deliver P x (.apply k : Event I VK Sig St Pf) r = x.client := by
  unfold deliver
  cases x.client.phase with
  | sent _ _ _ _ => simp only [if_neg h]
  | _ => rfl

omit [DecidableEq Nm] in
theorem deliver_finish (P : Party I Sig St Ch Pf R) (x : Sys I VK St Ch Pf Nm) (now k : Nat) (r : Resp St Ch)
    (h : (x.server.applied[k]?).map (·.1) ≠ some P.id) :
    deliver P x (.finish now k : Event I VK Sig St Pf) r = x.client := by
  unfold deliver
  cases x.client.phase with
  | sent _ _ _ _ => simp only [if_neg h]
  | _ => rfl

theorem tell_env (cfg : Config VK Sig St Ch Pf) (P : Party I Sig St Ch Pf R) (x : Sys I VK St Ch Pf Nm) (C : List Nat)
    (h : Tell P x C) (e : Event I VK Sig St Pf) (hf : Foreign cfg P x.server e) (he : ∀ now, e ≠ .restart now) :
    Tell P (x.step cfg P (.env e)) (C ++ grantedAt cfg P.id x.server e) := by
  have hstep : x.step cfg P (.env e) = ⟨deliver P x e (x.server.step cfg e).1, (x.server.step cfg e).2⟩ := rfl
  rw [hstep]
  cases hq : e.request with
  | some y =>
    obtain ⟨j, b, sig⟩ := y
    have hdel : deliver P x e (x.server.step cfg e).1 = x.client := by
      unfold deliver
      cases e <;> first | (cases hq; done) | (cases x.client.phase <;> rfl)
    rw [hdel, request_grants cfg P.id x.server e (by rw [hq]; simp), List.append_nil]
    by_cases hj : j = P.id
    · subst hj
      rw [foreign_request cfg P x.server e b sig hq hf]
      exact h
    · obtain ⟨h1, h2⟩ := other_request cfg x.server e j b sig hq P.id hj
      exact tell_keep cfg P x C h e he h1 h2
  | none =>
    cases e with
    | query now i sig => cases hq
    | start now i st pf sig => cases hq
    | restart now => exact absurd rfl (he now)
    | reload rows =>
      have hdel : deliver P x (.reload rows) (x.server.step cfg (.reload rows)).1 = x.client := by
        unfold deliver; cases x.client.phase <;> rfl
      rw [hdel]
      simp only [grantedAt, List.append_nil]
      exact tell_keep cfg P x C h _ he rfl rfl
    | apply k =>
      have hkeep : ∀ C', C' = C → deliver P x (.apply k) (x.server.step cfg (.apply k)).1 = x.client →
          mineS P.id (x.server.step cfg (.apply k)).2 = mineS P.id x.server →
          mineA P.id (x.server.step cfg (.apply k)).2 = mineA P.id x.server →
          Tell P ⟨deliver P x (.apply k) (x.server.step cfg (.apply k)).1, (x.server.step cfg (.apply k)).2⟩ C' := by
        rintro _ rfl h1 h2 h3
        rw [h1]
        exact tell_keep cfg P x _ h _ he h2 h3
      cases hk : x.server.started[k]? with
      | none =>
        refine hkeep _ ?_ ?_ ?_ ?_
        · simp [grantedAt, hk]
        · exact deliver_apply P x k _ (by simp [hk])
        · simp only [Server.step, Server.apply, hk]
        · simp only [Server.step, Server.apply, hk]
      | some y =>
        obtain ⟨j, st, pf⟩ := y
        by_cases hj : j = P.id
        · subst hj
          -- the own contribution
          have hlen := filter_eraseIdx_eq (fun y : I × List St × List Pf => decide (y.1 = P.id)) x.server.started k _ hk
            (by simp)
          have hne : mineS P.id x.server ≠ [] := by
            intro h0
            have : (mineS P.id x.server).length = 0 := by rw [h0]; rfl
            unfold mineS at this
            omega
          unfold Tell at h
          split at h
          · rename_i c0 c1 c2 c3 hph
            obtain ⟨⟨p, hp⟩, ⟨h1, h2, rfl⟩ | ⟨h1, -⟩⟩ := h
            · have hS0 : (x.server.started.eraseIdx k).filter (fun y => decide (y.1 = P.id)) = [] := by
                apply List.eq_nil_of_length_eq_zero
                unfold mineS at h1
                omega
              rcases hu : x.server.mpc.update cfg st pf with ⟨res, m⟩
              cases res with
              | error er =>
                have hs : x.server.step cfg (.apply k) =
                    (.error er, { x.server with mpc := m, started := x.server.started.eraseIdx k }) := by
                  simp only [Server.step, Server.apply, hk, hu]
                have her : er = .taskError ∨ er = .badRequest := by
                  unfold Sclp.update at hu
                  split at hu
                  · simp only at hu
                    split at hu
                    · simp at hu
                    · simp only [Prod.mk.injEq, Except.error.injEq] at hu
                      exact .inr hu.1.symm
                  · simp only [Prod.mk.injEq, Except.error.injEq] at hu
                    exact .inl hu.1.symm
                have hg : grantedAt cfg P.id x.server (.apply k) = [] := by simp only [grantedAt, hk, hs]
                have hd : deliver P x (.apply k) (.error er) = { x.client with phase := .failed (.server er) } := by
                  unfold deliver
                  simp only [hph, hk, Option.map_some]
                  rcases her with rfl | rfl <;> simp [Client.updateAnswer, Client.refused]
                rw [hs, hg, hd]
                refine ⟨(quiet_iff _ _).2 ⟨hS0, h2⟩, ?_, .inl rfl⟩
                rcases her with rfl | rfl <;> exact fun h => by cases h
              | ok r =>
                have hs : x.server.step cfg (.apply k) = (.round r, { x.server with
                    mpc := m
                    disk := x.server.disk.writes (m.saveWrites (x.server.disk.names.getD []))
                    started := x.server.started.eraseIdx k
                    applied := x.server.applied ++ [(P.id, r)] }) := by
                  simp only [Server.step, Server.apply, hk, hu]
                have hg : grantedAt cfg P.id x.server (.apply k) = [r] := by simp [grantedAt, hk, hs]
                have hd : deliver P x (.apply k) (.round r) = x.client := by
                  unfold deliver
                  simp only [hph, hk, Option.map_some]
                  split <;> rfl
                rw [hs, hg, hd]
                unfold Tell
                simp only [hph]
                refine ⟨⟨p, hp⟩, .inr ⟨hS0, r, ?_, rfl⟩⟩
                unfold mineA at h2 ⊢
                simp [List.filter_append, h2]
            · exact absurd h1 hne
          all_goals exact absurd ((quiet_iff _ _).1 h.1).1 hne
        · -- somebody else's
          have hne : decide ((j, st, pf).1 = P.id) = false := by simp [hj]
          have hf0 := filter_eraseIdx_ne (fun y : I × List St × List Pf => decide (y.1 = P.id)) x.server.started k _ hk hne
          refine hkeep _ ?_ ?_ ?_ ?_
          · simp only [grantedAt, hk]
            split
            · rename_i heq _
              simp only [Option.some.injEq, Prod.mk.injEq] at heq
              rw [← heq.1, if_neg hj, List.append_nil]
            · rw [List.append_nil]
          · exact deliver_apply P x k _ (by simp [hk, hj])
          · simp only [Server.step, Server.apply, hk]
            split <;> exact hf0
          · simp only [Server.step, Server.apply, hk]
            split
            · unfold mineA
              simp [List.filter_append, hj]
            · rfl
    | finish now k =>
      simp only [grantedAt, List.append_nil]
      have hkeep : deliver P x (.finish now k) (x.server.step cfg (.finish now k)).1 = x.client →
          mineS P.id (x.server.step cfg (.finish now k)).2 = mineS P.id x.server →
          mineA P.id (x.server.step cfg (.finish now k)).2 = mineA P.id x.server →
          Tell P ⟨deliver P x (.finish now k) (x.server.step cfg (.finish now k)).1,
            (x.server.step cfg (.finish now k)).2⟩ C := by
        intro h1 h2 h3
        rw [h1]
        exact tell_keep cfg P x _ h _ he h2 h3
      cases hk : x.server.applied[k]? with
      | none =>
        refine hkeep ?_ ?_ ?_
        · exact deliver_finish P x now k _ (by simp [hk])
        · simp only [Server.step, Server.finish, hk]
        · simp only [Server.step, Server.finish, hk]
      | some y =>
        obtain ⟨j, r⟩ := y
        by_cases hj : j = P.id
        · subst hj
          have hlen := filter_eraseIdx_eq (fun y : I × Nat => decide (y.1 = P.id)) x.server.applied k _ hk (by simp)
          have hne : mineA P.id x.server ≠ [] := by
            intro h0
            have : (mineA P.id x.server).length = 0 := by rw [h0]; rfl
            unfold mineA at this
            omega
          unfold Tell at h
          split at h
          · rename_i c0 c1 c2 c3 hph
            obtain ⟨⟨p, hp⟩, ⟨-, h2, -⟩ | ⟨h1, r', h2, rfl⟩⟩ := h
            · exact absurd h2 hne
            · have hmem : (P.id, r) ∈ mineA P.id x.server := by
                unfold mineA
                exact List.mem_filter.2 ⟨List.mem_of_getElem? hk, by simp⟩
              rw [h2] at hmem
              simp only [List.mem_singleton, Prod.mk.injEq, true_and] at hmem
              subst hmem
              have hA0 : (x.server.applied.eraseIdx k).filter (fun y => decide (y.1 = P.id)) = [] := by
                apply List.eq_nil_of_length_eq_zero
                unfold mineA at h2
                rw [h2] at hlen
                simpa using hlen
              obtain ⟨f, g1, -, g3⟩ := finish_get cfg x.server now k P.id
              have hflag : Flag P.id (x.server.step cfg (.finish now k)).2 := by
                refine ⟨f p, by rw [g1, hp]; rfl, ?_⟩
                rw [g3, hk]; simp
              have hresp : (x.server.step cfg (.finish now k)).1 = .round r := by
                simp only [Server.step, Server.finish, hk, hp]
              have hS1 : mineS P.id (x.server.step cfg (.finish now k)).2 = [] := by
                rw [← h1]; simp only [Server.step, Server.finish, hk, hp]; rfl
              have hA1 : mineA P.id (x.server.step cfg (.finish now k)).2 = [] := by
                rw [← hA0]; simp only [Server.step, Server.finish, hk, hp]; rfl
              have hd : deliver P x (.finish now k) (.round r) = { x.client with phase := .done r } := by
                unfold deliver
                simp only [hph, hk, Option.map_some, if_true, Client.updateAnswer]
              rw [hresp, hd]
              exact ⟨(quiet_iff _ _).2 ⟨hS1, hA1⟩, hflag, rfl⟩
          all_goals exact absurd ((quiet_iff _ _).1 h.1).2 hne
        · have hf0 := filter_eraseIdx_ne (fun y : I × Nat => decide (y.1 = P.id)) x.server.applied k _ hk (by simp [hj])
          refine hkeep ?_ ?_ ?_
          · exact deliver_finish P x now k _ (by simp [hk, hj])
          · simp only [Server.step, Server.finish, hk]
            split <;> rfl
          · simp only [Server.step, Server.finish, hk]
            split <;> exact hf0

/-- What own requests are answered, as far as it matters here. -/
theorem own_preprocess (cfg : Config VK Sig St Ch Pf) (r : Registry I VK) (i : I) (b : Body St Pf) (sig : Sig) :
    (∃ er, preprocess cfg r i b sig = (.error er, r) ∧ er ≠ .timeout ∧ er ≠ .notYourTurn ∧
      ((∃ p, r.get i = some p ∧ p.contributed = true) ↔ er = .alreadyContributed)) ∨
    ∃ p, r.get i = some p ∧ p.contributed = false ∧ preprocess cfg r i b sig =
        (.ok p.priority, r.modify i fun p => { p with nonce := incNonce p.nonce }) := by
  unfold preprocess
  cases hg : r.get i with
  | none => exact .inl ⟨_, rfl, by decide, by decide, by simp⟩
  | some p =>
    simp only
    by_cases hc : p.contributed = true
    · exact .inl ⟨_, if_pos hc, by decide, by decide, by simp [hc]⟩
    · rw [if_neg hc]
      by_cases hv : validNonce p.nonce = true
      · by_cases hs : cfg.verifySig p.key p.nonce b sig = true
        · exact .inr ⟨p, rfl, by simpa using hc, by simp [hv, hs]⟩
        · exact .inl ⟨.invalidSignature p.nonce, by simp [hv, hs], by simp, by simp, by simp [hc]⟩
      · exact .inl ⟨.allNoncesUsed, by simp [hv], by decide, by decide, by simp [hc]⟩

omit [DecidableEq Nm] in
theorem refused_tell (P : Party I Sig St Ch Pf R) (x : Sys I VK St Ch Pf Nm) (C : List Nat) (hQ : Quiet P.id x.server)
    (hC : C = [] ∨ ∃ k, C = [k] ∧ Flag P.id x.server) (er : Err)
    (hF : Flag P.id x.server ↔ er = .alreadyContributed) (c : Client St Ch Pf) :
    Tell P ⟨c.refused er, x.server⟩ C := by
  by_cases hi : ∃ m, er = .invalidSignature m
  · obtain ⟨m, rfl⟩ := hi
    have hnF : ¬ Flag P.id x.server := fun h => by cases hF.1 h
    have hC' : C = [] := by
      rcases hC with h | ⟨k, -, h⟩
      · exact h
      · exact absurd h hnF
    unfold Client.refused
    simp only
    split
    · exact ⟨hQ, .inl hC'⟩
    · exact ⟨hQ, (fun h => by cases h), .inl hC'⟩
  · rw [refused_other _ _ fun m hm => hi ⟨m, hm⟩]
    refine ⟨hQ, fun h => ?_, ?_⟩
    · simp only [ClientErr.server.injEq] at h
      exact hF.2 h
    · rcases hC with h | ⟨k, h, h'⟩
      · exact .inl h
      · exact .inr ⟨k, h, by rw [hF.1 h']⟩

theorem tell_step (cfg : Config VK Sig St Ch Pf) (P : Party I Sig St Ch Pf R) (x : Sys I VK St Ch Pf Nm) (C : List Nat)
    (h : Tell P x C) (a : Act I VK Sig St Pf R)
    (hw : ∀ e, a = .env e → Foreign cfg P x.server e ∧ ∀ now, e ≠ .restart now) :
    Tell P (x.step cfg P a) (C ++ match a.event P x.client with
      | some e => grantedAt cfg P.id x.server e
      | none => []) := by
  have hnot : ∀ p, x.server.reg.get P.id = some p → p.contributed = false → ¬ Flag P.id x.server := by
    rintro p hp hc ⟨q, hq, hqc⟩
    rw [hp, Option.some.injEq] at hq
    subst hq
    rw [hc] at hqc; cases hqc
  cases a with
  | env e => exact tell_env cfg P x C h e (hw e rfl).1 (hw e rfl).2
  | rebuild =>
    have hs : x.step cfg P .rebuild = ⟨match x.client.phase with
      | .sent _ _ _ _ => x.client
      | _ => .build, x.server⟩ := rfl
    simp only [Act.event, List.append_nil, hs]
    cases hp : x.client.phase with
    | sent _ _ _ _ => exact h
    | ready => unfold Tell at h; rw [hp] at h; exact h
    | computing st ch => unfold Tell at h; rw [hp] at h; exact ⟨h.1, .inl h.2⟩
    | done k => unfold Tell at h; rw [hp] at h; exact ⟨h.1, .inr ⟨k, h.2.2, h.2.1⟩⟩
    | failed e =>
      unfold Tell at h; rw [hp] at h
      refine ⟨h.1, ?_⟩
      rcases h.2.2 with h' | ⟨k, h1, h2⟩
      · exact .inl h'
      · exact .inr ⟨k, h1, h.2.1 h2⟩
  | query now =>
    cases hp : x.client.phase with
    | ready =>
      have hev : (Act.query now : Act I VK Sig St Pf R).event P x.client =
          some (.query now P.id (P.sign x.client.nonce .query)) := by simp only [Act.event, hp]
      have hs : x.step cfg P (.query now) =
          ⟨x.client.signed.queryAnswer P (x.server.query cfg now P.id (P.sign x.client.nonce .query)).1,
            (x.server.query cfg now P.id (P.sign x.client.nonce .query)).2⟩ := by
        simp only [Sys.step, Sys.answer, hev, Act.client, hp, Server.step]
      rw [hs]
      simp only [hev, grantedAt, List.append_nil]
      unfold Tell at h
      rw [hp] at h
      obtain ⟨hQ, hC⟩ := h
      rcases own_preprocess cfg x.server.reg P.id .query (P.sign x.client.nonce .query) with
        ⟨er, h1, h2, h3, h4⟩ | ⟨p, h1, h2, h3⟩
      · have hq : x.server.query cfg now P.id (P.sign x.client.nonce .query) = (.error er, x.server) := by
          simp only [Server.query, h1]
        rw [hq]
        simp only [Client.queryAnswer]
        exact refused_tell P x C hQ hC er h4 _
      · have hC0 : C = [] := by
          rcases hC with h | ⟨k, -, h⟩
          · exact h
          · exact absurd h (hnot p h1 h2)
        have hfl := request_flight cfg x.server (.query now P.id (P.sign x.client.nonce .query)) P.id .query _ rfl
        have hst : (x.server.step cfg (.query now P.id (P.sign x.client.nonce .query))).2.started = x.server.started := by
          simp only [Server.step, Server.query, h3]
          split
          · rfl
          · split <;> rfl
        have hQ' : Quiet P.id (x.server.query cfg now P.id (P.sign x.client.nonce .query)).2 := by
          have e1 : (x.server.query cfg now P.id (P.sign x.client.nonce .query)).2.started = x.server.started := hst
          have e2 : (x.server.query cfg now P.id (P.sign x.client.nonce .query)).2.applied = x.server.applied := hfl.1
          unfold Quiet Server.inFlight at hQ ⊢
          rw [e1, e2]; exact hQ
        generalize hy : x.server.query cfg now P.id (P.sign x.client.nonce .query) = y at hQ'
        obtain ⟨r, s'⟩ := y
        have hr : (∃ st ch, r = .state st ch) ∨ (∃ k, r = .position k) ∨ r = .panic := by
          simp only [Server.query, h3] at hy
          split at hy
          · cases hy; exact .inl ⟨_, _, rfl⟩
          · split at hy
            · cases hy; exact .inr (.inl ⟨_, rfl⟩)
            · cases hy; exact .inr (.inr rfl)
        rcases hr with ⟨st, ch, rfl⟩ | ⟨k, rfl⟩ | rfl
        · simp only [Client.queryAnswer]
          split
          · exact ⟨hQ', hC0⟩
          · exact ⟨hQ', (fun h => by cases h), .inl hC0⟩
        · exact ⟨hQ', .inl hC0⟩
        · exact ⟨hQ', (fun h => by cases h), .inl hC0⟩
    | _ =>
      have he : (Act.query now : Act I VK Sig St Pf R).event P x.client = none := by simp only [Act.event, hp]
      have hs : x.step cfg P (.query now) = x := by
        simp only [Sys.step, he, Act.client, hp]
      rw [hs, he, List.append_nil]
      exact h
  | update now rs =>
    cases hp : x.client.phase with
    | computing st ch =>
      unfold Tell at h
      rw [hp] at h
      obtain ⟨hQ, hC⟩ := h
      cases hc : computeUpdate P rs 0 st ch with
      | none =>
        have he : (Act.update now rs : Act I VK Sig St Pf R).event P x.client = none := by
          simp only [Act.event, hp, hc, Option.map_none]
        have hs : x.step cfg P (.update now rs) = ⟨{ x.client with phase := .failed .failedContribution }, x.server⟩ := by
          simp only [Sys.step, he, Act.client, hp, hc]
        rw [hs, he, List.append_nil]
        exact ⟨hQ, (fun h => by cases h), .inl hC⟩
      | some u =>
        obtain ⟨st', pf⟩ := u
        have hev : (Act.update now rs : Act I VK Sig St Pf R).event P x.client =
            some (.start now P.id st' pf (P.sign x.client.nonce (.contribute st' pf))) := by
          simp only [Act.event, hp, hc, Option.map_some]
        have hs : x.step cfg P (.update now rs) =
            ⟨match (x.server.start cfg now P.id st' pf (P.sign x.client.nonce (.contribute st' pf))).1 with
              | .ok => { x.client.signed with phase := .sent st ch st' pf }
              | r => x.client.signed.updateAnswer r,
            (x.server.start cfg now P.id st' pf (P.sign x.client.nonce (.contribute st' pf))).2⟩ := by
          simp only [Sys.step, Sys.answer, hev, Act.client, hp, hc, Server.step]
          rfl
        rw [hs]
        simp only [hev, grantedAt, List.append_nil]
        rcases own_preprocess cfg x.server.reg P.id (.contribute st' pf) (P.sign x.client.nonce (.contribute st' pf)) with
          ⟨er, h1, h2, h3, h4⟩ | ⟨p, h1, h2, h3⟩
        · have hq : x.server.start cfg now P.id st' pf (P.sign x.client.nonce (.contribute st' pf)) =
              (.error er, x.server) := by
            simp only [Server.start, h1]
          rw [hq]
          simp only [Client.updateAnswer]
          exact refused_tell P x C hQ (.inl hC) er h4 _
        · obtain ⟨f, g1, -⟩ := request_get cfg x.server (.start now P.id st' pf (P.sign x.client.nonce (.contribute st' pf)))
            P.id (.contribute st' pf) _ rfl P.id
          have hreg : ∃ p', (x.server.start cfg now P.id st' pf
              (P.sign x.client.nonce (.contribute st' pf))).2.reg.get P.id = some p' := ⟨f p, by
            have : (x.server.start cfg now P.id st' pf (P.sign x.client.nonce (.contribute st' pf))).2.reg.get P.id =
              (x.server.reg.get P.id).map f := g1
            rw [this, h1]; rfl⟩
          obtain ⟨q1, q2⟩ := (quiet_iff _ _).1 hQ
          revert hreg
          simp only [Server.start, h3]
          generalize hy : x.server.lq.hasLock _ cfg.limit now P.id = y
          obtain ⟨res, q, r'⟩ := y
          cases res with
          | ok u =>
            intro hreg
            refine ⟨hreg, .inl ⟨?_, q2, hC⟩⟩
            unfold mineS at q1 ⊢
            simp only [List.filter_append, q1]
            simp
          | error er =>
            intro _
            have her : er = .timeout ∨ er = .notYourTurn := by
              have hy1 : (x.server.lq.hasLock (x.server.reg.modify P.id fun p => { p with nonce := incNonce p.nonce })
                cfg.limit now P.id).1 = .error er := by rw [hy]
              simp only [LockQueue.hasLock] at hy1
              split at hy1
              · cases hy1; exact .inl rfl
              · split at hy1
                · cases hy1
                · cases hy1; exact .inr rfl
            rcases her with rfl | rfl
            · exact ⟨hQ, .inl hC⟩
            · exact ⟨hQ, .inl hC⟩
    | _ =>
      have he : (Act.update now rs : Act I VK Sig St Pf R).event P x.client = none := by simp only [Act.event, hp]
      have hs : x.step cfg P (.update now rs) = x := by
        simp only [Sys.step, he, Act.client, hp]
      rw [hs, he, List.append_nil]
      exact h

theorem tell_run (cfg : Config VK Sig St Ch Pf) (P : Party I Sig St Ch Pf R) (as : List (Act I VK Sig St Pf R)) :
    ∀ (x : Sys I VK St Ch Pf Nm) (C : List Nat), Tell P x C → Undisturbed cfg P x as →
      Tell P (x.run cfg P as) (C ++ granted cfg P.id x.server (x.events cfg P as)) := by
  induction as with
  | nil => intro x C h _; simpa [Sys.run, Sys.events, granted] using h
  | cons a as ih =>
    intro x C h hw
    have := ih _ _ (tell_step cfg P x C h a hw.1) hw.2
    simp only [Sys.run, Sys.events]
    rw [List.append_assoc] at this
    refine Eq.mp (congrArg (fun l => Tell P ((x.step cfg P a).run cfg P as) (C ++ l)) ?_) this
    cases he : a.event P x.client with
    | none => simp only [Sys.step, he, Option.toList_none, List.nil_append]
    | some e => simp only [Sys.step, he, Option.toList_some, List.cons_append, List.nil_append, granted]

/-- **C102, what the participant is told.** A client that was started with nothing of the participant in flight, and then
ran through any history of its own actions, restarts of the client, and anything that others do: the coordinator makes at
most one round of its contributions. If the client reports a round, it is that one, and the participant is registered as having
contributed. If it reports a failure other than `AlreadyContributed`, there is no such round, and `AlreadyContributed` is
reported only if the registry says so. Missing for the full claim: restarts of the coordinator, see
`c102_lost_answer_violated`. -/
theorem c102_outcome_partial (cfg : Config VK Sig St Ch Pf) (P : Party I Sig St Ch Pf R) (s : Server I VK St Ch Pf Nm)
    (hs : P.id ∉ s.inFlight) (as : List (Act I VK Sig St Pf R)) (hw : Undisturbed cfg P ⟨.build, s⟩ as) :
    let x : Sys I VK St Ch Pf Nm := Sys.run cfg P ⟨.build, s⟩ as
    let rounds := granted cfg P.id s (Sys.events cfg P ⟨.build, s⟩ as)
    rounds.length ≤ 1 ∧
    (∀ k, x.client.phase = .done k → rounds = [k] ∧ ∃ p, x.server.reg.get P.id = some p ∧ p.contributed = true) ∧
    (∀ e, x.client.phase = .failed e → e ≠ .server .alreadyContributed → rounds = []) ∧
    (x.client.phase = .failed (.server .alreadyContributed) → ∃ p, x.server.reg.get P.id = some p ∧ p.contributed = true) := by
  intro x rounds
  have h := tell_run cfg P as ⟨.build, s⟩ [] ⟨hs, .inl rfl⟩ hw
  rw [List.nil_append] at h
  change Tell P x rounds at h
  unfold Tell at h
  cases hp : x.client.phase with
  | ready =>
    rw [hp] at h
    refine ⟨?_, fun _ h => (by cases h), fun _ h => (by cases h), fun h => (by cases h)⟩
    rcases h.2 with h | ⟨k, h, -⟩ <;> rw [h] <;> simp
  | computing st ch =>
    rw [hp] at h
    refine ⟨?_, fun _ h => (by cases h), fun _ h => (by cases h), fun h => (by cases h)⟩
    rw [h.2]; simp
  | sent _ _ _ _ =>
    rw [hp] at h
    refine ⟨?_, fun _ h => (by cases h), fun _ h => (by cases h), fun h => (by cases h)⟩
    rcases h.2 with ⟨-, -, h⟩ | ⟨-, k, -, h⟩ <;> rw [h] <;> simp
  | done k =>
    rw [hp] at h
    refine ⟨by rw [h.2.2]; simp, fun k' hk => ?_, fun _ h => (by cases h), fun h => (by cases h)⟩
    cases hk
    exact ⟨h.2.2, h.2.1⟩
  | failed e =>
    rw [hp] at h
    refine ⟨?_, fun _ h => (by cases h), fun e' he hne => ?_, fun he => ?_⟩
    · rcases h.2.2 with h | ⟨k, h, -⟩ <;> rw [h] <;> simp
    · cases he
      rcases h.2.2 with h | ⟨k, -, h⟩
      · exact h
      · exact absurd h hne
    · cases he
      exact h.2.1 rfl

end Outcome

end Verif.Ceremony
