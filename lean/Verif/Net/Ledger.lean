import Verif.Net.Spec

/-! # Wallets on the simulation ledger: what pushing does -/

set_option linter.unusedSectionVars false

namespace Verif.Net

open Verif.Asset (Asset bal bal_append bal_cons bal_nil)
open Verif.Transfer (Ty Prim Kit Post Nul Body SenderPost ReceiverPost MintPlan)
open Verif.Ledger (Ix Env State Coins push pushLog submit balance submit_applied c33_rejected_no_effect c35_push_partial c36_balances
  participants keyOf registers_other spend)
open Verif.Settle (Wire Ident TxOf paidOut applyKey_coins')
open Verif.Sign (Receiver Owner Tx Transaction made spent)

section Ledger

variable {T : Ty}

theorem pushLog_take (env : Env T) (a : Nat) (ps : List (Post T)) : ∀ s, pushLog env s a ps = ps.take (pushLog env s a ps).length := by
  induction ps with
  | nil => intro s; rfl
  | cons p ps ih =>
    intro s
    simp only [pushLog]
    rcases submit env s a p with ⟨o, s'⟩
    cases o with
    | accepted => simp only [List.length_cons, List.take_succ_cons]; rw [← ih s']
    | panicked => rfl
    | rejected => rfl

/-- Without a panic, the applied posts alone would all have been accepted, with the same result. -/
theorem push_again (env : Env T) (a : Nat) (ps : List (Post T)) : ∀ s, (push env s a ps).1 ≠ .panicked →
    push env s a (pushLog env s a ps) = (.accepted, (push env s a ps).2) := by
  induction ps with
  | nil => intro s _; rfl
  | cons p ps ih =>
    intro s h
    simp only [pushLog, push] at h ⊢
    rcases hs : submit env s a p with ⟨o, s'⟩
    rw [hs] at h
    cases o with
    | accepted => simp only [push, hs]; exact ih s' h
    | panicked => exact absurd rfl h
    | rejected => rw [c33_rejected_no_effect env s a p s' hs]; rfl

/-- Posts without public inputs do not panic and credit the poster if the balance can hold it. -/
theorem push_credits (env : Env T) (a : Nat) (ps : List (Post T)) : ∀ s : State T, (∀ p ∈ ps, p.body.sources = []) →
    (∀ id, balance s.accounts a id + paidOut ps id < 2 ^ 128) → (∀ b id, balance s.accounts b id < 2 ^ 128) →
    (push env s a ps).1 ≠ .panicked ∧
    ∀ b id, balance (push env s a ps).2.accounts b id =
      balance s.accounts b id + if b = a then paidOut (pushLog env s a ps) id else 0 := by
  induction ps with
  | nil => intro s _ _ _; exact ⟨by simp [push], fun b id => by simp [push, pushLog, paidOut]⟩
  | cons p ps ih =>
    intro s hsrc hfit hbd
    have hpo : ∀ (l : List (Post T)) id, paidOut (p :: l) id = (if p.body.assetId = some id then p.body.sinks.sum else 0) + paidOut l id :=
      fun l id => by simp [paidOut]
    have hfit1 : ∀ id, p.body.assetId = some id → balance s.accounts a id + p.body.sinks.sum < 2 ^ 128 := by
      intro id hid
      have := hfit id
      rw [hpo, if_pos hid] at this
      omega
    have hacc := c35_push_partial env s a p
    simp only [push, pushLog]
    rcases hs : submit env s a p with ⟨o, s'⟩
    rw [hs] at hacc
    cases o with
    | rejected =>
      rw [c33_rejected_no_effect env s a p s' hs]
      exact ⟨by simp, fun b id => by simp [paidOut]⟩
    | panicked => exact absurd (hacc (by simp) hfit1 hbd) (by simp)
    | accepted =>
      obtain ⟨c1, c2, c3⟩ := c36_balances env s s' a p hs (fun _ b id hi => by
        split
        · rename_i e; subst e; exact hfit1 id hi
        · exact hbd b id)
      have hb1 : ∀ b id, balance s'.accounts b id = balance s.accounts b id +
          (if b = a then (if p.body.assetId = some id then p.body.sinks.sum else 0) else 0) := by
        intro b id
        by_cases hb : b = a
        · by_cases hi : p.body.assetId = some id
          · subst hb
            have := (c1 id hi).2
            rw [hsrc p (by simp), List.sum_nil, Nat.add_zero] at this
            rw [this, if_pos rfl, if_pos hi]
          · rw [c2 b id (.inr hi), if_neg hi, ite_self, Nat.add_zero]
        · rw [c2 b id (.inl hb), if_neg hb, Nat.add_zero]
      obtain ⟨i1, i2⟩ := ih s' (fun q hq => hsrc q (by simp [hq]))
        (by
          intro id
          have := hfit id
          rw [hpo] at this
          rw [hb1, if_pos rfl]
          omega)
        (by
          intro b id
          rw [hb1]
          split
          · rename_i e
            subst e
            have := hfit id
            rw [hpo] at this
            omega
          · exact hbd b id)
      refine ⟨i1, fun b id => ?_⟩
      rw [i2, hb1, hpo]
      split <;> omega

/-- A single post that only takes from the poster's account. -/
theorem push_debits (env : Env T) (a : Nat) (p : Post T) (s : State T) (hsink : p.body.sinks = [])
    (hbd : ∀ b id, balance s.accounts b id < 2 ^ 128) :
    (push env s a [p]).1 ≠ .panicked ∧
    (pushLog env s a [p] = [] → (push env s a [p]).2.accounts = s.accounts) ∧
    (pushLog env s a [p] = [p] → ∀ id,
      (if p.body.assetId = some id then p.body.sources.sum else 0) ≤ balance s.accounts a id ∧
      ∀ b, balance (push env s a [p]).2.accounts b id + (if b = a then (if p.body.assetId = some id then p.body.sources.sum else 0) else 0) =
        balance s.accounts b id) ∧
    (pushLog env s a [p] = [] ∨ pushLog env s a [p] = [p]) := by
  have hacc := c35_push_partial env s a p
  simp only [push, pushLog]
  rcases hs : submit env s a p with ⟨o, s'⟩
  rw [hs] at hacc
  cases o with
  | rejected =>
    rw [c33_rejected_no_effect env s a p s' hs]
    exact ⟨by simp, fun _ => rfl, fun h => by simp at h, .inl rfl⟩
  | panicked =>
    refine absurd (hacc (by simp) (fun id hid => ?_) hbd) (by simp)
    rw [hsink]; exact hbd a id
  | accepted =>
    obtain ⟨c1, c2, c3⟩ := c36_balances env s s' a p hs (fun _ b id hi => by
      rw [hsink]
      have := hbd b id
      split <;> simpa)
    refine ⟨by simp, fun h => by simp at h, fun _ id => ?_, .inr rfl⟩
    by_cases hi : p.body.assetId = some id
    · obtain ⟨d1, d2⟩ := c1 id hi
      rw [hsink] at d2
      simp only [List.sum_nil, Nat.add_zero] at d2
      rw [if_pos hi]
      refine ⟨d1, fun b => ?_⟩
      by_cases e : b = a
      · rw [if_pos e]; subst e; exact d2
      · rw [if_neg e, c2 b id (.inl e), Nat.add_zero]
    · rw [if_neg hi]
      refine ⟨Nat.zero_le _, fun b => ?_⟩
      rw [c2 b id (.inr hi), ite_self, Nat.add_zero]

/-- New and different nullifiers are added by a set that finds only what is there. -/
theorem spends_sound (env : Env T) (hl : ∀ l n, env.contains l n = true → ∃ m ∈ l, m.cm = n.cm) (l : List (SenderPost T)) :
    ∀ s : State T, (∀ q ∈ l, q.nul.cm ∉ s.nullifiers.map Nul.cm) → (l.map fun q => q.nul.cm).Nodup →
    (l.foldl (spend env) s).nullifiers = s.nullifiers ++ l.map SenderPost.nul := by
  induction l with
  | nil => intro s _ _; simp
  | cons p ps ih =>
    intro s hun hd
    rw [List.map_cons, List.nodup_cons] at hd
    have h1 : spend env s p = {s with nullifiers := s.nullifiers ++ [p.nul]} := by
      unfold spend
      rw [if_neg]
      intro hc
      obtain ⟨m, hm, e⟩ := hl _ _ hc
      exact hun p (by simp) (List.mem_map.mpr ⟨m, hm, e⟩)
    rw [List.foldl_cons, ih (spend env s p) ?_ hd.2, h1]
    · simp
    · intro q hq
      rw [h1]
      simp only [List.map_append, List.map_cons, List.map_nil, List.mem_append, List.mem_singleton, not_or]
      refine ⟨hun q (by simp [hq]), fun e => hd.1 ?_⟩
      rw [← e]
      exact List.mem_map.mpr ⟨q, hq, rfl⟩

theorem push_spends (env : Env T) (hl : ∀ l n, env.contains l n = true → ∃ m ∈ l, m.cm = n.cm) (a : Nat) (ps : List (Post T)) :
    ∀ s s' : State T, push env s a ps = (.accepted, s') →
    (∀ p ∈ ps, ∀ q ∈ p.body.senders, q.nul.cm ∉ s.nullifiers.map Nul.cm) →
    (ps.flatMap fun p => p.body.senders.map fun q => q.nul.cm).Nodup →
    s'.nullifiers = s.nullifiers ++ ps.flatMap fun p => p.body.senders.map SenderPost.nul := by
  induction ps with
  | nil => intro s s' h _ _; simp only [push, Prod.mk.injEq, true_and] at h; simp [h]
  | cons p ps ih =>
    intro s s' h hn hd
    rw [List.flatMap_cons, List.nodup_append] at hd
    simp only [push] at h
    rcases hs : submit env s a p with ⟨o, s1⟩
    rw [hs] at h
    cases o with
    | rejected => simp at h
    | panicked => simp at h
    | accepted =>
      obtain ⟨shape, _, _, rfl, _⟩ := submit_applied env s a p _ s1 hs (by simp)
      have h1 : (Verif.Ledger.applyKey env s (keyOf p (participants shape a).1 (participants shape a).2)).2.nullifiers =
          s.nullifiers ++ p.body.senders.map SenderPost.nul := by
        rw [(applyKey_coins' env s _).2.2]
        show (p.body.receivers.foldl (Verif.Ledger.register env) (p.body.senders.foldl (spend env) s)).nullifiers = _
        rw [(registers_other env _ _).1]
        exact spends_sound env hl _ s (hn p (by simp)) hd.1
      rw [ih _ _ h ?_ hd.2.1, h1, List.flatMap_cons, List.append_assoc]
      intro q hq x hx
      rw [h1, List.map_append, List.mem_append, not_or]
      refine ⟨hn q (by simp [hq]) x hx, fun e => ?_⟩
      rw [List.map_map] at e
      exact hd.2.2 _ e _ (List.mem_flatMap.mpr ⟨q, hq, List.mem_map.mpr ⟨x, hx, rfl⟩⟩) rfl

end Ledger

/-! ## Posts -/

section Posts

variable {P : Prim} {A : Type} {W : Wire P A}

/-- What a published transfer consists of. -/
theorem post_body {tx : TxOf P A} {p : Post P.ty} (h : W.post? tx = some p) : ∃ π, p.body = Body.build π (W.transfer tx) := by
  unfold Wire.post? at h
  split at h
  · rename_i q hq
    cases h
    unfold Wire.publish at hq
    by_cases hs : (W.transfer tx).senders = []
    · obtain ⟨_, _, π, _, hp, _⟩ := (Transfer.c29_unsigned _ _ _ _ _ hs).1 hq
      refine ⟨π, ?_⟩
      cases hpb : p.body
      rw [hpb] at hp
      obtain ⟨a1, a2, a3, a4, a5, a6⟩ := hp
      simp only [Body.build] at *
      simp only [a1, a2, a3, a4, a5, a6]
      trivial
    · obtain ⟨_, _, π, _, _, _, _, hp, _⟩ := (Transfer.c29_signed _ _ _ _ _ hs).1 hq
      refine ⟨π, ?_⟩
      cases hpb : p.body
      rw [hpb] at hp
      obtain ⟨a1, a2, a3, a4, a5, a6⟩ := hp
      simp only [Body.build] at *
      simp only [a1, a2, a3, a4, a5, a6]
      trivial
  · cases h

theorem post_public {tx : TxOf P A} {p : Post P.ty} (h : W.post? tx = some p) :
    p.body.assetId = Wire.assetId tx ∧ p.body.sources = tx.sources.map Asset.value ∧ p.body.sinks = tx.sinks.map Asset.value := by
  obtain ⟨π, hb⟩ := post_body h
  rw [hb]
  exact ⟨rfl, rfl, rfl⟩

theorem post_nullifiers {tx : TxOf P A} {p : Post P.ty} (h : W.post? tx = some p) :
    (p.body.senders.map fun q => q.nul.cm) = tx.senders.map fun s => W.nullifier s.key s.asset := by
  obtain ⟨π, hb⟩ := post_body h
  rw [hb]
  simp only [Body.build, Wire.transfer, Transfer.honest, List.map_map]
  exact List.map_congr_left fun s _ => (Settle.spendPlan_facts (W := W) s).2.2.2.1

theorem posts_take (txs : List (TxOf P A)) (h : ∀ tx ∈ txs, ∃ p, W.post? tx = some p) (n : Nat) :
    (W.posts txs).take n = W.posts (txs.take n) := by
  induction txs generalizing n with
  | nil => simp [Wire.posts]
  | cons tx txs ih =>
    obtain ⟨p, e⟩ := h tx (by simp)
    rw [Settle.posts_cons tx txs p e]
    cases n with
    | zero => simp [Wire.posts]
    | succ n => rw [List.take_succ_cons, List.take_succ_cons, Settle.posts_cons _ _ p e, ih fun t ht => h t (by simp [ht])]

theorem posts_lists (txs : List (TxOf P A)) (h : ∀ tx ∈ txs, ∃ p, W.post? tx = some p) :
    ((W.posts txs).flatMap fun p => p.body.receivers) = (made txs).map (fun r => (W.mintPlan r).post W.kit) ∧
    ((W.posts txs).flatMap fun p => p.body.senders.map fun q => q.nul.cm) = (spent txs).map fun c => W.nullifier c.1 c.2 := by
  induction txs with
  | nil => exact ⟨rfl, rfl⟩
  | cons tx txs ih =>
    obtain ⟨p, e⟩ := h tx (by simp)
    obtain ⟨i1, i2⟩ := ih fun t ht => h t (by simp [ht])
    rw [Settle.posts_cons tx txs p e, List.flatMap_cons, List.flatMap_cons, i1, i2, Settle.post_receivers e, post_nullifiers e]
    simp [made, spent]

theorem posts_paid (txs : List (TxOf P A)) (h : ∀ tx ∈ txs, ∃ p, W.post? tx = some p) (aid : Nat)
    (hs : ∀ tx ∈ txs, tx.sources = [] ∧ (tx.sinks = [] ∨ ∃ v, tx.sinks = [⟨aid, v⟩])) (id : Nat) :
    paidOut (W.posts txs) id = bal (txs.flatMap Tx.sinks) id := by
  induction txs with
  | nil => rfl
  | cons tx txs ih =>
    obtain ⟨p, e⟩ := h tx (by simp)
    have i := ih (fun t ht => h t (by simp [ht])) (fun t ht => hs t (by simp [ht]))
    obtain ⟨a1, a2, a3⟩ := post_public e
    have hp : paidOut (p :: W.posts txs) id = (if p.body.assetId = some id then p.body.sinks.sum else 0) + paidOut (W.posts txs) id := by
      simp [paidOut]
    rw [Settle.posts_cons tx txs p e, hp, i, List.flatMap_cons, bal_append, a1, a3]
    congr 1
    unfold Wire.assetId
    obtain ⟨h1, h2 | ⟨v, h2⟩⟩ := hs tx (by simp)
    · simp [h1, h2]
    · simp only [h1, h2, List.nil_append, List.head?_cons, Option.map_some, Option.some.injEq, List.map_cons, List.map_nil,
        List.sum_cons, List.sum_nil, Nat.add_zero, Verif.Pay.bal_one, Verif.Pay.amount]
      by_cases hc : aid = id
      · rw [if_pos hc, if_pos hc.symm]
      · rw [if_neg hc, if_neg fun e => hc e.symm]

end Posts

end Verif.Net
