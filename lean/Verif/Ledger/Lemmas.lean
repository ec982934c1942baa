import Verif.Ledger.Model
import Verif.Transfer.Props

/-!
# Lemmas on the ledger
-/

namespace Verif.Ledger

open Verif.Asset (Asset mget merase mget_cons mget_merase KeysNodup keysNodup_merase mget_none_iff)
open Verif.Transfer

variable {T : Ty}

/-! ## Account tables -/

theorem mget_mput {W : Type} (m : List (Nat × W)) (k k' : Nat) (w : W) :
    mget (mput m k w) k' = if k = k' then some w else mget m k' := by
  unfold mput
  rw [mget_cons, mget_merase]
  by_cases h : k = k' <;> simp [h]

theorem keysNodup_mput {W : Type} {m : List (Nat × W)} (k : Nat) (w : W) (h : KeysNodup m) :
    KeysNodup (mput m k w) := by
  unfold mput KeysNodup
  simp only [List.map_cons, List.nodup_cons]
  refine ⟨?_, keysNodup_merase k h⟩
  intro hc
  obtain ⟨e, he, heq⟩ := List.mem_map.1 hc
  simp only [merase, List.mem_filter, decide_eq_true_eq] at he
  exact he.2 heq

/-- Public balance of an account, zero when there is no entry. -/
def balance (acc : List (Nat × List (Nat × Nat))) (a id : Nat) : Nat :=
  match mget acc a with
  | none => 0
  | some m => (mget m id).getD 0

theorem balance_mput (acc : List (Nat × List (Nat × Nat))) (m : List (Nat × Nat)) (a id v a' id' : Nat)
    (hm : mget acc a = some m) :
    balance (mput acc a (mput m id v)) a' id' = if a = a' ∧ id = id' then v else balance acc a' id' := by
  unfold balance
  rw [mget_mput]
  by_cases h1 : a = a'
  · subst h1
    rw [if_pos rfl, hm]
    simp only [mget_mput]
    by_cases h2 : id = id'
    · simp [h2]
    · simp [h2]
  · simp [h1]

/-- Sum of the amounts that a list of (account, amount) assigns to an account. -/
def due (l : List (Nat × Nat)) (a : Nat) : Nat := ((l.filter fun x => decide (x.1 = a)).map Prod.snd).sum

@[simp] theorem due_nil (a : Nat) : due [] a = 0 := rfl

theorem due_cons (x : Nat × Nat) (l : List (Nat × Nat)) (a : Nat) :
    due (x :: l) a = (if x.1 = a then x.2 else 0) + due l a := by
  unfold due
  by_cases h : x.1 = a <;> simp [h]

theorem withdrawAll_ok (id : Nat) (so : List (Nat × Nat)) :
    ∀ acc acc', withdrawAll false id acc so = (.ok, acc') →
      (∀ a, balance acc' a id + due so a = balance acc a id) ∧
      (∀ a j, j ≠ id → balance acc' a j = balance acc a j) ∧
      (∀ a, (mget acc' a).isSome = (mget acc a).isSome) := by
  induction so with
  | nil =>
    intro acc acc' h
    simp only [withdrawAll, Prod.mk.injEq, true_and] at h
    subst h
    exact ⟨fun _ => rfl, fun _ _ _ => rfl, fun _ => rfl⟩
  | cons x so ih =>
    obtain ⟨a0, w⟩ := x
    intro acc acc' h
    simp only [withdrawAll] at h
    split at h
    · cases h
    · rename_i m hm
      split at h
      · cases h
      · rename_i b hb
        split at h
        · cases h
        · rename_i b' hb'
          obtain ⟨h1, h2, h3⟩ := ih _ _ h
          have hbal : balance acc a0 id = b := by simp [balance, hm, hb]
          have hw : b' + w = b := by
            unfold sub128 at hb'
            split at hb'
            · cases hb'; omega
            · simp at hb'
          refine ⟨fun a => ?_, fun a j hj => ?_, fun a => ?_⟩
          · have := h1 a
            rw [balance_mput _ _ _ _ _ _ _ hm] at this
            rw [due_cons]
            by_cases ha : a0 = a
            · subst ha
              simp only [and_self, if_true] at this ⊢
              omega
            · simp only [ha, false_and, if_false] at this ⊢
              omega
          · rw [h2 a j hj, balance_mput _ _ _ _ _ _ _ hm, if_neg (fun hc => hj hc.2.symm)]
          · rw [h3 a, mget_mput]
            by_cases ha : a0 = a
            · subst ha; simp [hm]
            · simp [ha]

theorem depositAll_ok (id : Nat) (si : List (Nat × Nat)) :
    ∀ acc acc', depositAll false id acc si = (.ok, acc') →
      (∀ a, balance acc' a id = balance acc a id + due si a) ∧
      (∀ a, due si a ≠ 0 → balance acc' a id < 2 ^ 128) ∧
      (∀ a j, j ≠ id → balance acc' a j = balance acc a j) ∧
      (∀ a, (mget acc' a).isSome = (mget acc a).isSome) := by
  induction si with
  | nil =>
    intro acc acc' h
    simp only [depositAll, Prod.mk.injEq, true_and] at h
    subst h
    exact ⟨fun _ => rfl, fun a h => absurd rfl h, fun _ _ _ => rfl, fun _ => rfl⟩
  | cons x si ih =>
    obtain ⟨a0, d⟩ := x
    intro acc acc' h
    simp only [depositAll] at h
    split at h
    · cases h
    · rename_i m hm
      split at h
      · cases h
      · rename_i b' hb'
        obtain ⟨h1, h1', h2, h3⟩ := ih _ _ h
        have hbal : balance acc a0 id = (mget m id).getD 0 := by simp [balance, hm]
        have hw : b' = balance acc a0 id + d ∧ b' < 2 ^ 128 := by
          unfold add128 at hb'
          split at hb'
          · cases hb'; rw [hbal]; exact ⟨rfl, by assumption⟩
          · simp at hb'
        refine ⟨fun a => ?_, fun a => ?_, fun a j hj => ?_, fun a => ?_⟩
        · rw [h1 a, balance_mput _ _ _ _ _ _ _ hm, due_cons]
          by_cases ha : a0 = a
          · subst ha; simp only [and_self, if_true]; omega
          · simp only [ha, false_and, if_false]; omega
        · intro hd
          by_cases hz : due si a = 0
          · rw [due_cons, hz] at hd
            by_cases ha : a0 = a
            · subst ha
              rw [h1 a0, hz, balance_mput _ _ _ _ _ _ _ hm]
              simp only [and_self, if_true]; omega
            · simp [ha] at hd
          · exact h1' a hz
        · rw [h2 a j hj, balance_mput _ _ _ _ _ _ _ hm, if_neg (fun hc => hj hc.2.symm)]
        · rw [h3 a, mget_mput]
          by_cases ha : a0 = a
          · subst ha; simp [hm]
          · simp [ha]

/-- Where checked arithmetic does not panic, wrapping arithmetic does the same. -/
theorem withdrawAll_wraps (id : Nat) (so : List (Nat × Nat)) : ∀ acc,
    (withdrawAll false id acc so).1 ≠ .panic → withdrawAll true id acc so = withdrawAll false id acc so := by
  induction so with
  | nil => intro acc _; rfl
  | cons x so ih =>
    obtain ⟨a0, w⟩ := x
    intro acc h
    simp only [withdrawAll] at h ⊢
    split at h
    · rfl
    · split at h
      · rfl
      · rename_i b hb
        unfold sub128 at h ⊢
        by_cases hw : w ≤ b
        · simp only [if_pos hw] at h ⊢; exact ih _ h
        · simp only [if_neg hw] at h; exact absurd rfl h

theorem depositAll_wraps (id : Nat) (si : List (Nat × Nat)) : ∀ acc,
    (depositAll false id acc si).1 ≠ .panic → depositAll true id acc si = depositAll false id acc si := by
  induction si with
  | nil => intro acc _; rfl
  | cons x so ih =>
    obtain ⟨a0, w⟩ := x
    intro acc h
    simp only [depositAll] at h ⊢
    split at h
    · rfl
    · rename_i m hm
      unfold add128 at h ⊢
      by_cases hw : (mget m id).getD 0 + w < 2 ^ 128
      · simp only [if_pos hw] at h ⊢; exact ih _ h
      · simp only [if_neg hw] at h; exact absurd rfl h

theorem updateBalances_wraps (id : Nat) (acc) (so si : List (Nat × Nat))
    (h : (updateBalances false id acc so si).1 ≠ .panic) :
    updateBalances true id acc so si = updateBalances false id acc so si := by
  unfold updateBalances at h ⊢
  rcases hw : withdrawAll false id acc so with ⟨r, acc1⟩
  rw [hw] at h
  have hr : (withdrawAll false id acc so).1 ≠ .panic := by
    rw [hw]; intro hc; simp only at hc; subst hc; exact h rfl
  rw [withdrawAll_wraps id so acc hr, hw]
  cases r with
  | ok => exact depositAll_wraps id si acc1 h
  | err => rfl
  | panic => rfl

theorem updateBalances_ok (id : Nat) (acc acc' : List (Nat × List (Nat × Nat))) (so si : List (Nat × Nat))
    (h : updateBalances false id acc so si = (.ok, acc')) :
    (∀ a, balance acc' a id + due so a = balance acc a id + due si a) ∧
    (∀ a, due so a ≤ balance acc a id) ∧
    (∀ a, due si a ≠ 0 → balance acc' a id < 2 ^ 128) ∧
    (∀ a j, j ≠ id → balance acc' a j = balance acc a j) ∧
    (∀ a, (mget acc' a).isSome = (mget acc a).isSome) := by
  unfold updateBalances at h
  split at h
  · rename_i acc1 hw
    obtain ⟨w1, w2, w3⟩ := withdrawAll_ok id so acc acc1 hw
    obtain ⟨d1, d2, d3, d4⟩ := depositAll_ok id si acc1 acc' h
    refine ⟨fun a => ?_, fun a => ?_, d2, fun a j hj => by rw [d3 a j hj, w2 a j hj],
      fun a => by rw [d4, w3]⟩
    · have := w1 a; have := d1 a; omega
    · have := w1 a; omega
  · rename_i r hr; rw [h] at hr; exact absurd rfl (hr acc')

/-! ## Validation -/

theorem allUnequal_pairwise {α : Type} (r : α → α → Bool) (l : List α) :
    Verif.Util.allUnequal r l = true ↔ l.Pairwise fun a b => r a b = false := by
  induction l with
  | nil => simp [Verif.Util.allUnequal]
  | cons x xs ih =>
    simp only [Verif.Util.allUnequal, List.pairwise_cons]
    by_cases h : xs.any (fun y => r x y) = true
    · rw [if_pos h]
      simp only [Bool.false_eq_true, false_iff, not_and]
      intro hc
      obtain ⟨y, hy, hxy⟩ := List.any_eq_true.1 h
      rw [hc y hy] at hxy; cases hxy
    · rw [if_neg h, ih]
      constructor
      · intro hp
        refine ⟨fun y hy => ?_, hp⟩
        rw [Bool.eq_false_iff]
        intro hc; exact h (List.any_eq_true.2 ⟨y, hy, hc⟩)
      · exact fun hp => hp.2

theorem checkSenders_ok (env : Env T) (s : State T) (l : List (SenderPost T)) :
    checkSenders env s l = .ok () ↔
      ∀ p ∈ l, matching env s p.root = true ∧ env.contains s.nullifiers p.nul = false := by
  induction l with
  | nil => simp [checkSenders]
  | cons p ps ih =>
    simp only [checkSenders, List.forall_mem_cons]
    by_cases h1 : matching env s p.root = true
    · by_cases h2 : env.contains s.nullifiers p.nul = true
      · simp [h1, h2]
      · simp [h1, h2, ih]
    · simp [h1]

theorem checkReceivers_ok (s : State T) (l : List (ReceiverPost T)) :
    checkReceivers s l = .ok () ↔ ∀ p ∈ l, p.utxo ∉ s.utxos := by
  unfold checkReceivers
  by_cases h : (l.any fun p => decide (p.utxo ∈ s.utxos)) = true
  · rw [if_pos h]
    simp only [reduceCtorEq, false_iff]
    intro hc
    obtain ⟨p, hp, hu⟩ := List.any_eq_true.1 h
    exact hc p hp (by simpa using hu)
  · rw [if_neg h]
    simp only [true_iff]
    intro p hp hu
    exact h (List.any_eq_true.2 ⟨p, hp, by simpa using hu⟩)

/-- Everything that must hold for a post to be accepted with given accounts. -/
structure Valid (env : Env T) (s : State T) (p : Post T) (sourceAcc sinkAcc : List Nat) : Prop where
  signature : p.checkSig env.crypto = .ok ()
  sourceLen : sourceAcc.length = p.body.sources.length
  sinkLen : sinkAcc.length = p.body.sinks.length
  shape : ∃ shape, Canonical shape p.sig.isSome p.body.assetId.isSome p.body.sources.length
    p.body.senders.length p.body.receivers.length p.body.sinks.length ∧
    env.verifyProof shape (p.input env.enc) p.body.proof ≠ none
  funded : ∀ x ∈ sourceAcc.zip p.body.sources, sourceOk s (p.body.assetId.getD 0) x = true
  sinks : ∀ x ∈ sinkAcc.zip p.body.sinks, (mget s.accounts x.1).isSome = true
  roots : ∀ q ∈ p.body.senders, matching env s q.root = true
  unspent : ∀ q ∈ p.body.senders, env.contains s.nullifiers q.nul = false
  distinctNul : p.body.senders.Pairwise fun a b => a.nul.cm ≠ b.nul.cm
  fresh : ∀ q ∈ p.body.receivers, q.utxo ∉ s.utxos
  distinctUtxo : p.body.receivers.Pairwise fun a b => a.utxo ≠ b.utxo

theorem zip_snd {α β : Type} (l : List α) (m : List β) (h : l.length = m.length) :
    (l.zip m).map Prod.snd = m := by
  rw [List.map_snd_zip]; omega

theorem validate_ok_iff (env : Env T) (s : State T) (p : Post T) (sa ka : List Nat) (k : PostingKey T) :
    validate env s p sa ka = .ok k ↔
      Valid env s p sa ka ∧
      k = ⟨p.body.assetId, sa.zip p.body.sources, p.body.senders, p.body.receivers, ka.zip p.body.sinks⟩ := by
  have hpub : ∀ (sh : Shape) a b c d e f, Canonical sh a b c d e f →
      hasPublicParticipants c f = b := by
    intro sh a b c d e f h; cases h <;> rfl
  have hlen : ∀ (l m : List Nat), l.length = m.length → (l.zip m).length = m.length := by
    intro l m h; simp [h]
  have hinput : ∀ so si, so.map Prod.snd = p.body.sources → si.map Prod.snd = p.body.sinks →
      keyRefInput env.enc (p.sig.map AuthSig.key) p.body.assetId so p.body.senders p.body.receivers si
        = p.input env.enc := fun so si h1 h2 => c31_ledger env.enc p so si h1 h2
  unfold validate
  constructor
  · intro h
    split at h
    · cases h
    · rename_i hsig
      unfold checkPublic at h
      split at h
      · cases h
      · rename_i so si hcp
        split at hcp
        · cases hcp
        · split at hcp
          · cases hcp
          · rename_i hl1
            split at hcp
            · cases hcp
            · rename_i hl2
              simp only at hcp
              split at hcp
              · cases hcp
              · rename_i hso
                split at hcp
                · cases hcp
                · rename_i hsi
                  simp only [Except.ok.injEq, Prod.mk.injEq] at hcp
                  obtain ⟨rfl, rfl⟩ := hcp
                  split at h
                  · cases h
                  · rename_i hds
                    split at h
                    · cases h
                    · rename_i hdm
                      split at h
                      · cases h
                      · rename_i hcs
                        split at h
                        · cases h
                        · rename_i hcr
                          split at h
                          · cases h
                          · rename_i hv
                            simp only [Except.ok.injEq] at h
                            subst h
                            refine ⟨?_, rfl⟩
                            have hl1' : sa.length = p.body.sources.length := by
                              simpa using hl1
                            have hl2' : ka.length = p.body.sinks.length := by
                              simpa using hl2
                            rw [checkSenders_ok] at hcs
                            rw [checkReceivers_ok] at hcr
                            have hds' : Verif.Util.allUnequal
                                (fun a b => Nul.related a.nul b.nul) p.body.senders = true := by
                              simpa using hds
                            have hdm' : Verif.Util.allUnequal
                                (fun a b => decide (a.utxo = b.utxo)) p.body.receivers = true := by
                              simpa using hdm
                            rw [allUnequal_pairwise] at hds' hdm'
                            unfold isValid at hv
                            split at hv
                            · cases hv
                            · rename_i sh hsh
                              split at hv
                              · cases hv
                              · rename_i bv hbv
                                rw [hinput _ _ (zip_snd _ _ hl1') (zip_snd _ _ hl2')] at hbv
                                rw [hlen _ _ hl1', hlen _ _ hl2', c51_select_iff, Option.isSome_map] at hsh
                                refine ⟨hsig, hl1', hl2', ⟨sh, hsh, by rw [hbv]; simp⟩, ?_, ?_,
                                  fun q hq => (hcs q hq).1, fun q hq => (hcs q hq).2, ?_, hcr, ?_⟩
                                · simpa using hso
                                · intro x hx
                                  have hall : (ka.zip p.body.sinks).all (sinkOk s) = true := by
                                    simpa using hsi
                                  exact List.all_eq_true.1 hall x hx
                                · exact hds'.imp fun h => by simpa [Nul.related] using h
                                · exact hdm'.imp fun h => by simpa using h
  · rintro ⟨⟨hsig, hl1, hl2, ⟨sh, hsh, hpr⟩, hso, hsi, hro, hun, hdn, hfr, hdu⟩, rfl⟩
    rw [hsig]
    have hp1 := hpub _ _ _ _ _ _ _ hsh
    have hcp : checkPublic s p.body sa ka = .ok (sa.zip p.body.sources, ka.zip p.body.sinks) := by
      unfold checkPublic
      rw [if_neg (by simp [hp1]), if_neg (by simp [hl1]), if_neg (by simp [hl2])]
      simp only
      rw [if_neg (by
        simp only [Bool.not_eq_true', Bool.not_eq_false]
        exact List.all_eq_true.2 hso),
        if_neg (by
        simp only [Bool.not_eq_true', Bool.not_eq_false]
        exact List.all_eq_true.2 hsi)]
    have hds : Verif.Util.allUnequal (fun a b => Nul.related a.nul b.nul) p.body.senders = true := by
      rw [allUnequal_pairwise]; exact hdn.imp fun h => by simpa [Nul.related] using h
    have hdm : Verif.Util.allUnequal (fun a b => decide (a.utxo = b.utxo)) p.body.receivers = true := by
      rw [allUnequal_pairwise]; exact hdu.imp fun h => by simpa using h
    have hcs := (checkSenders_ok env s p.body.senders).2 fun q hq => ⟨hro q hq, hun q hq⟩
    have hcr := (checkReceivers_ok s p.body.receivers).2 hfr
    have hiv : isValid env (p.sig.map AuthSig.key) p.body (sa.zip p.body.sources) (ka.zip p.body.sinks)
        = .ok () := by
      unfold isValid
      rw [hlen _ _ hl1, hlen _ _ hl2, Option.isSome_map, (c51_select_iff ..).2 hsh]
      simp only [hinput _ _ (zip_snd _ _ hl1) (zip_snd _ _ hl2)]
      split
      · rename_i hn; exact absurd hn hpr
      · rfl
    simp only [hcp, hds, hdm, hcs, hcr, hiv, Bool.not_true, Bool.false_eq_true, if_false]

/-! ## Effect of applying a post -/

theorem spend_other (env : Env T) (s : State T) (p : SenderPost T) :
    (spend env s p).utxos = s.utxos ∧ (spend env s p).shards = s.shards ∧
    (spend env s p).forest = s.forest ∧ (spend env s p).accounts = s.accounts := by
  unfold spend; split <;> exact ⟨rfl, rfl, rfl, rfl⟩

theorem spends_other (env : Env T) (l : List (SenderPost T)) (s : State T) :
    (l.foldl (spend env) s).utxos = s.utxos ∧ (l.foldl (spend env) s).shards = s.shards ∧
    (l.foldl (spend env) s).forest = s.forest ∧ (l.foldl (spend env) s).accounts = s.accounts := by
  induction l generalizing s with
  | nil => exact ⟨rfl, rfl, rfl, rfl⟩
  | cons p ps ih =>
    simp only [List.foldl_cons]
    obtain ⟨a, b, c, d⟩ := ih (spend env s p)
    obtain ⟨a', b', c', d'⟩ := spend_other env s p
    exact ⟨a.trans a', b.trans b', c.trans c', d.trans d'⟩

theorem registers_other (env : Env T) (l : List (ReceiverPost T)) (s : State T) :
    (l.foldl (register env) s).nullifiers = s.nullifiers ∧
    (l.foldl (register env) s).accounts = s.accounts := by
  induction l generalizing s with
  | nil => exact ⟨rfl, rfl⟩
  | cons p ps ih =>
    simp only [List.foldl_cons]
    obtain ⟨a, b⟩ := ih (register env s p)
    exact ⟨a, b⟩

/-- The lookup is exact: found iff an entry compares equal. -/
def Exact (contains : List (Nul T) → Nul T → Bool) : Prop :=
  ∀ l n, contains l n = true ↔ ∃ m ∈ l, m.cm = n.cm

/-- With a hash that agrees with equality the contract of the set makes the lookup exact. -/
theorem exact_of_lookup (hash : Nul T → Nat) (contains : List (Nul T) → Nul T → Bool)
    (h : Lookup hash contains) (hh : ∀ a b : Nul T, a.cm = b.cm → hash a = hash b) : Exact contains :=
  fun l n => ⟨h.sound l n, fun ⟨m, hm, he⟩ => h.found l n m hm (hh _ _ he) he⟩

theorem spends_exact (env : Env T) (he : Exact env.contains) (l : List (SenderPost T)) (s : State T)
    (hun : ∀ q ∈ l, env.contains s.nullifiers q.nul = false)
    (hd : l.Pairwise fun a b => a.nul.cm ≠ b.nul.cm) :
    (l.foldl (spend env) s).nullifiers = s.nullifiers ++ l.map SenderPost.nul := by
  induction l generalizing s with
  | nil => simp
  | cons p ps ih =>
    simp only [List.foldl_cons]
    rw [List.pairwise_cons] at hd
    have h1 : spend env s p = {s with nullifiers := s.nullifiers ++ [p.nul]} := by
      unfold spend
      rw [if_neg (by rw [hun p (by simp)]; simp)]
    rw [ih (spend env s p) ?_ hd.2, h1]
    · simp
    · intro q hq
      rw [h1, Bool.eq_false_iff]
      simp only
      intro hc
      rw [he] at hc
      obtain ⟨m, hm, hmq⟩ := hc
      rcases List.mem_append.1 hm with hm | hm
      · have := (he s.nullifiers q.nul).2 ⟨m, hm, hmq⟩
        rw [hun q (by simp [hq])] at this; cases this
      · rw [List.mem_singleton] at hm; subst hm
        exact hd.1 q hq hmq

/-! ## Refinement to the log of registered coins -/

/-- Index of the shard of a coin. -/
def ix (env : Env T) (u : Utxo T) : Ix := env.treeIndex (env.crypto.item u)

/-- Coins of the log that belong to shard `i`. -/
def inShard (env : Env T) (log : List (ReceiverPost T)) (i : Ix) : List (ReceiverPost T) :=
  log.filter fun r => decide (ix env r.utxo = i)

/-- The coin part of the ledger is determined by the log of registered coins. -/
structure Coins (env : Env T) (s : State T) (log : List (ReceiverPost T)) : Prop where
  utxos : s.utxos = log.map ReceiverPost.utxo
  nodup : (log.map ReceiverPost.utxo).Nodup
  shards : ∀ i, s.shards i = (inShard env log i).map fun r => (r.utxo, r.note)
  forest : ∀ i, s.forest i = ((inShard env log i).map fun r => env.crypto.item r.utxo).take env.capacity

theorem inShard_snoc (env : Env T) (log : List (ReceiverPost T)) (p : ReceiverPost T) (i : Ix) :
    inShard env (log ++ [p]) i = if ix env p.utxo = i then inShard env log i ++ [p] else inShard env log i := by
  unfold inShard
  rw [List.filter_append]
  by_cases h : ix env p.utxo = i <;> simp [h]

theorem register_coins (env : Env T) (s : State T) (log : List (ReceiverPost T)) (p : ReceiverPost T)
    (h : Coins env s log) (hf : p.utxo ∉ s.utxos) : Coins env (register env s p) (log ++ [p]) := by
  have hlog : p.utxo ∉ log.map ReceiverPost.utxo := by rw [← h.utxos]; exact hf
  have hsh : (p.utxo, p.note) ∉ s.shards (ix env p.utxo) := by
    rw [h.shards]
    intro hc
    obtain ⟨r, hr, hre⟩ := List.mem_map.1 hc
    simp only [Prod.mk.injEq] at hre
    have : r ∈ log := (List.mem_filter.1 hr).1
    exact hlog (hre.1 ▸ List.mem_map_of_mem this)
  refine ⟨?_, ?_, fun i => ?_, fun i => ?_⟩
  · simp only [register, h.utxos, if_neg hlog, List.map_append, List.map_cons, List.map_nil]
  · rw [List.map_append, List.nodup_append]
    refine ⟨h.nodup, by simp, ?_⟩
    intro a ha b hb
    simp only [List.map_cons, List.map_nil, List.mem_singleton] at hb
    subst hb
    intro hc; subst hc; exact hlog ha
  · have hsh' : (p.utxo, p.note) ∉ s.shards (env.treeIndex (env.crypto.item p.utxo)) := hsh
    simp only [register, if_neg hsh', upd]
    rw [inShard_snoc]
    by_cases hi : i = env.treeIndex (env.crypto.item p.utxo)
    · have hi' : ix env p.utxo = i := hi.symm
      rw [if_pos hi, if_pos hi', ← hi, h.shards]; simp
    · have hi' : ¬ ix env p.utxo = i := fun hc => hi hc.symm
      rw [if_neg hi, if_neg hi', h.shards]
  · simp only [register]
    rw [inShard_snoc]
    have hfo := h.forest (env.treeIndex (env.crypto.item p.utxo))
    by_cases hi : i = env.treeIndex (env.crypto.item p.utxo)
    · have hi' : ix env p.utxo = i := hi.symm
      rw [if_pos hi', ← hi]
      rw [← hi] at hfo
      generalize hm : (inShard env log i).map (fun r => env.crypto.item r.utxo) = m at hfo
      rw [List.map_append, hm, hfo]
      simp only [List.map_cons, List.map_nil]
      by_cases hc : (m.take env.capacity).length < env.capacity
      · rw [if_pos hc]
        simp only [upd, if_true]
        have hml : m.length < env.capacity := by
          rw [List.length_take] at hc; omega
        rw [List.take_of_length_le (by omega), List.take_of_length_le (by simp; omega)]
      · rw [if_neg hc, hfo]
        have hml : env.capacity ≤ m.length := by
          rw [List.length_take] at hc; omega
        rw [List.take_append_of_le_length hml]
    · have hi' : ¬ ix env p.utxo = i := fun hc => hi hc.symm
      rw [if_neg hi']
      split
      · simp only [upd, if_neg hi]; exact h.forest i
      · exact h.forest i

theorem registers_coins (env : Env T) (l : List (ReceiverPost T)) (s : State T) (log : List (ReceiverPost T))
    (h : Coins env s log) (hf : ∀ q ∈ l, q.utxo ∉ s.utxos) (hd : l.Pairwise fun a b => a.utxo ≠ b.utxo) :
    Coins env (l.foldl (register env) s) (log ++ l) := by
  induction l generalizing s log with
  | nil => simpa using h
  | cons p ps ih =>
    rw [List.pairwise_cons] at hd
    simp only [List.foldl_cons]
    have h1 := register_coins env s log p h (hf p (by simp))
    have := ih (register env s p) (log ++ [p]) h1 (by
      intro q hq hc
      rw [h1.utxos, List.map_append] at hc
      rcases List.mem_append.1 hc with hc | hc
      · rw [← h.utxos] at hc; exact hf q (by simp [hq]) hc
      · simp only [List.map_cons, List.map_nil, List.mem_singleton] at hc
        exact hd.1 q hq hc.symm) hd.2
    simpa using this

theorem coins_of_same (env : Env T) (s s' : State T) (log : List (ReceiverPost T)) (h : Coins env s log)
    (h1 : s'.utxos = s.utxos) (h2 : s'.shards = s.shards) (h3 : s'.forest = s.forest) : Coins env s' log :=
  ⟨h1.trans h.utxos, h.nodup, fun i => by rw [h2]; exact h.shards i, fun i => by rw [h3]; exact h.forest i⟩

/-- The key that validation produces. -/
def keyOf (p : Post T) (sa ka : List Nat) : PostingKey T :=
  ⟨p.body.assetId, sa.zip p.body.sources, p.body.senders, p.body.receivers, ka.zip p.body.sinks⟩

theorem applyKey_coins (env : Env T) (s : State T) (log : List (ReceiverPost T)) (p : Post T)
    (sa ka : List Nat) (h : Coins env s log) (hv : Valid env s p sa ka) :
    Coins env (applyKey env s (keyOf p sa ka)).2 (log ++ p.body.receivers) := by
  obtain ⟨a, b, c, _⟩ := spends_other env p.body.senders s
  have h1 : Coins env (p.body.senders.foldl (spend env) s) log := coins_of_same env _ _ _ h a b c
  have h2 := registers_coins env p.body.receivers _ log h1 (by rw [a]; exact hv.fresh) hv.distinctUtxo
  unfold applyKey keyOf
  simp only
  split
  · exact h2
  · exact coins_of_same env _ _ _ h2 rfl rfl rfl

theorem applyKey_nullifiers (env : Env T) (he : Exact env.contains) (s : State T) (p : Post T)
    (sa ka : List Nat) (hv : Valid env s p sa ka) :
    (applyKey env s (keyOf p sa ka)).2.nullifiers = s.nullifiers ++ p.body.senders.map SenderPost.nul := by
  have h2 := (registers_other env p.body.receivers (p.body.senders.foldl (spend env) s)).1
  rw [spends_exact env he _ s hv.unspent hv.distinctNul] at h2
  unfold applyKey keyOf
  simp only
  split
  · exact h2
  · exact h2

theorem applyKey_accounts (env : Env T) (s : State T) (p : Post T) (sa ka : List Nat) :
    (applyKey env s (keyOf p sa ka)).1 =
      (match p.body.assetId with
       | none => .ok
       | some id => (updateBalances env.wraps id s.accounts (sa.zip p.body.sources) (ka.zip p.body.sinks)).1) ∧
    (applyKey env s (keyOf p sa ka)).2.accounts =
      (match p.body.assetId with
       | none => s.accounts
       | some id => (updateBalances env.wraps id s.accounts (sa.zip p.body.sources) (ka.zip p.body.sinks)).2) := by
  have h2 := (registers_other env p.body.receivers (p.body.senders.foldl (spend env) s)).2
  rw [(spends_other env p.body.senders s).2.2.2] at h2
  unfold applyKey keyOf
  simp only
  cases hid : p.body.assetId with
  | none => exact ⟨rfl, h2⟩
  | some id => simp only [h2]; exact ⟨trivial, trivial⟩

end Verif.Ledger
