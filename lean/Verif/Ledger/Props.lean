import Verif.Ledger.Lemmas

/-!
# Properties of the ledger: C33, C34, C35, C36, C37, C38, C59
-/

namespace Verif.Ledger

open Verif.Asset (Asset mget merase KeysNodup)
open Verif.Transfer

variable {T : Ty}

/-! ## Histories -/

/-- A call on the ledger. -/
inductive Op (T : Ty) where
  | push (account : Nat) (posts : List (Post T))
  | setBalance (account id value : Nat)

/-- The posts of one push that changed the ledger: accepted ones and one that panicked. -/
def pushLog (env : Env T) (s : State T) (account : Nat) : List (Post T) → List (Post T)
  | [] => []
  | p :: ps =>
    match submit env s account p with
    | (.accepted, s') => p :: pushLog env s' account ps
    | (.panicked, _) => [p]
    | (.rejected, _) => []

/-- State after a call. -/
def step (env : Env T) (s : State T) : Op T → State T
  | .push a ps => (push env s a ps).2
  | .setBalance a id v => (setBalance s a id v).getD s

def stepLog (env : Env T) (s : State T) : Op T → List (Post T)
  | .push a ps => pushLog env s a ps
  | .setBalance .. => []

/-- State and applied posts after a history. -/
def run (env : Env T) (s : State T) : List (Op T) → State T × List (Post T)
  | [] => (s, [])
  | o :: os =>
    let r := run env (step env s o) os
    (r.1, stepLog env s o ++ r.2)

/-! ## A concrete ledger -/

/-- The set looks entries up by hash of commitment and note. -/
def tContains (l : List (Nul TT)) (n : Nul TT) : Bool :=
  l.any fun m => decide (m.cm = n.cm) && decide (m.note = n.note)

def tHash (n : Nul TT) : Nat := n.note

/-- Proofs verify iff they are the number 7, malformed ones (0) are an error. Trees hold two leaves. -/
@[reducible] def tEnv (wraps : Bool) (contains : List (Nul TT) → Nul TT → Bool) : Env TT where
  crypto := tcrypto
  enc := tEnc
  treeIndex := fun (i : List Nat) => Fin.ofNat 256 (i.getD 3 0)
  root := fun (l : List (List Nat)) => (100 + (l.map List.sum).sum : Nat)
  defaultRoot := (0 : Nat)
  capacity := 2
  verifyProof := fun _ _ (p : Nat) => if p = 0 then none else some (decide (p = 7))
  contains := contains
  wraps := wraps

/-- An exact set, as if hash and equality agreed. -/
def eContains (l : List (Nul TT)) (n : Nul TT) : Bool := l.any fun m => decide (m.cm = n.cm)

theorem eContains_exact : Exact eContains := by
  intro l n; simp [eContains]

theorem tContains_lookup : Lookup (T := TT) tHash tContains where
  found := by
    intro l n m hm hh hc
    simp only [tContains, List.any_eq_true, Bool.and_eq_true, decide_eq_true_eq]
    exact ⟨m, hm, hc, hh⟩
  sound := by
    intro l n h
    simp only [tContains, List.any_eq_true, Bool.and_eq_true, decide_eq_true_eq] at h
    obtain ⟨m, hm, hc, _⟩ := h
    exact ⟨m, hm, hc⟩

/-- Mint of 6 units of asset 8, unsigned. -/
def pMint (r v : Nat) : Post TT :=
  ⟨none, ⟨some 8, [v], [], [(tReceiver r v).intoPost], [], (7 : Nat)⟩, []⟩

/-- Reclaim of `v` spending two coins with given nullifiers, keeping a coin with randomness `r`. The
authorization key is 4 and the signature is the one of `tcrypto` for the accounts. -/
def pReclaim (n1 n2 : List Nat) (note : Nat) (r v : Nat) (accounts : List Nat) : Post TT :=
  let body : Body TT := ⟨some 8, [], [⟨(0 : Nat), ⟨n1, note⟩⟩, ⟨(0 : Nat), ⟨n2, note⟩⟩],
    [(tReceiver r 1).intoPost], [v], (7 : Nat)⟩
  ⟨some ⟨(4 : Nat), tcrypto.sign (4 : Nat) body accounts⟩, body, accounts⟩

/-- Account 1 with 100 units of asset 8, account 2 with nothing. -/
def s0 : State TT := {(State.new : State TT) with accounts := [(1, [(8, 100)]), (2, [])]}

/-! ## Rejection has no effect -/

/-- C33, C35: a rejected post changes nothing. -/
theorem c33_rejected_no_effect (env : Env T) (s : State T) (account : Nat) (p : Post T) (s' : State T)
    (h : submit env s account p = (.rejected, s')) : s' = s := by
  unfold submit at h
  split at h
  · cases h; rfl
  · split at h
    · cases h; rfl
    · split at h <;> cases h

/-- C33: a push stops at the first rejected post, keeping exactly the effect of the posts before it. -/
theorem c33_push_prefix (env : Env T) (s s1 : State T) (account : Nat) (pre post : List (Post T)) (p : Post T)
    (h1 : push env s account pre = (.accepted, s1)) (h2 : (submit env s1 account p).1 = .rejected) :
    push env s account (pre ++ p :: post) = (.rejected, s1) := by
  induction pre generalizing s with
  | nil =>
    simp only [push, Prod.mk.injEq, true_and] at h1
    subst h1
    rcases hs : submit env s account p with ⟨o, s'⟩
    rw [hs] at h2
    simp only at h2
    subst h2
    have := c33_rejected_no_effect env s account p s' hs
    subst this
    simp only [List.nil_append, push, hs]
  | cons q qs ih =>
    simp only [List.cons_append, push] at h1 ⊢
    split at h1
    · rename_i s2 hq
      exact ih s2 h1
    · rename_i hh
      exact (hh s1 h1).elim

/-- What `submit` does with an accepted or panicking post. -/
theorem submit_applied (env : Env T) (s : State T) (account : Nat) (p : Post T) (o : Outcome) (s' : State T)
    (h : submit env s account p = (o, s')) (ho : o ≠ .rejected) :
    ∃ shape, Shape.fromPost p = some shape ∧
      Valid env s p (participants shape account).1 (participants shape account).2 ∧
      s' = (applyKey env s (keyOf p (participants shape account).1 (participants shape account).2)).2 ∧
      (o = .accepted ↔
        (applyKey env s (keyOf p (participants shape account).1 (participants shape account).2)).1 = .ok) := by
  unfold submit at h
  split at h
  · cases h; exact absurd rfl ho
  · rename_i shape hsh
    split at h
    · cases h; exact absurd rfl ho
    · rename_i k hk
      obtain ⟨hv, rfl⟩ := (validate_ok_iff ..).1 hk
      refine ⟨shape, hsh, hv, ?_⟩
      simp only [keyOf]
      split at h
      · rename_i s2 ha
        cases h
        rw [ha]; exact ⟨rfl, by simp⟩
      · rename_i r s2 ha hne
        cases h
        rw [hne]
        refine ⟨rfl, ?_⟩
        simp only [reduceCtorEq, false_iff]
        intro hc
        exact ha hc

/-! ## C34 -/

theorem submit_coins (env : Env T) (s : State T) (log : List (ReceiverPost T)) (account : Nat) (p : Post T)
    (h : Coins env s log) :
    Coins env (submit env s account p).2
      (log ++ (if (submit env s account p).1 = .rejected then [] else p.body.receivers)) := by
  rcases hs : submit env s account p with ⟨o, s'⟩
  by_cases ho : o = .rejected
  · subst ho
    rw [c33_rejected_no_effect env s account p s' hs]
    simpa using h
  · obtain ⟨shape, _, hv, rfl, _⟩ := submit_applied env s account p o s' hs ho
    simp only [if_neg ho]
    exact applyKey_coins env s log p _ _ h hv

theorem push_coins (env : Env T) (account : Nat) (ps : List (Post T)) :
    ∀ (s : State T) (log : List (ReceiverPost T)), Coins env s log →
      Coins env (push env s account ps).2 (log ++ (pushLog env s account ps).flatMap fun p => p.body.receivers) := by
  induction ps with
  | nil => intro s log h; simpa [push, pushLog] using h
  | cons p ps ih =>
    intro s log h
    have h1 := submit_coins env s log account p h
    simp only [push, pushLog]
    rcases hs : submit env s account p with ⟨o, s'⟩
    rw [hs] at h1
    cases o with
    | accepted =>
      simp only [reduceCtorEq, if_false] at h1
      have := ih s' _ h1
      simpa [List.append_assoc] using this
    | panicked => simpa using h1
    | rejected => simpa using h1

theorem setBalance_same (s s' : State T) (a id v : Nat) (h : setBalance s a id v = some s') :
    s'.nullifiers = s.nullifiers ∧ s'.utxos = s.utxos ∧ s'.shards = s.shards ∧ s'.forest = s.forest := by
  unfold setBalance at h
  split at h
  · cases h
  · cases h; exact ⟨rfl, rfl, rfl, rfl⟩

theorem step_coins (env : Env T) (s : State T) (log : List (ReceiverPost T)) (o : Op T) (h : Coins env s log) :
    Coins env (step env s o) (log ++ (stepLog env s o).flatMap fun p => p.body.receivers) := by
  cases o with
  | push a ps => exact push_coins env a ps s log h
  | setBalance a id v =>
    simp only [step, stepLog, List.flatMap_nil, List.append_nil]
    cases hb : setBalance s a id v with
    | none => exact h
    | some s' =>
      obtain ⟨_, h2, h3, h4⟩ := setBalance_same s s' a id v hb
      exact coins_of_same env s s' log h h2 h3 h4

theorem run_coins (env : Env T) (os : List (Op T)) :
    ∀ (s : State T) (log : List (ReceiverPost T)), Coins env s log →
      Coins env (run env s os).1 (log ++ (run env s os).2.flatMap fun p => p.body.receivers) := by
  induction os with
  | nil => intro s log h; simpa [run] using h
  | cons o os ih =>
    intro s log h
    have := ih _ _ (step_coins env s log o h)
    simpa [run, List.append_assoc] using this

theorem new_coins (env : Env T) : Coins env State.new [] :=
  ⟨rfl, by simp, fun _ => rfl, fun _ => by simp [State.new, inShard]⟩

/-- C34: after any history, the coins of the applied posts are pairwise different; each shard lists, in order
of acceptance, exactly the coins whose index it is, with their notes; and the set of registered UTXOs is the set
of these coins. -/
theorem c34_coins (env : Env T) (os : List (Op T)) :
    let s := (run env State.new os).1
    let log := (run env State.new os).2.flatMap fun p => p.body.receivers
    (log.map ReceiverPost.utxo).Nodup ∧
    (∀ u, u ∈ s.utxos ↔ ∃ r ∈ log, r.utxo = u) ∧
    (∀ i, s.shards i = (log.filter fun r => decide (env.treeIndex (env.crypto.item r.utxo) = i)).map
      fun r => (r.utxo, r.note)) := by
  have h := run_coins env os State.new [] (new_coins env)
  rw [List.nil_append] at h
  refine ⟨h.nodup, fun u => ?_, h.shards⟩
  rw [h.utxos, List.mem_map]

/-- C34: a coin is in exactly one shard. -/
theorem c34_one_shard (env : Env T) (os : List (Op T)) (u : Utxo T) (i j : Ix) (n n' : FullNote T)
    (hi : (u, n) ∈ (run env State.new os).1.shards i) (hj : (u, n') ∈ (run env State.new os).1.shards j) :
    i = j ∧ n = n' := by
  have h := run_coins env os State.new [] (new_coins env)
  rw [List.nil_append] at h
  rw [h.shards] at hi hj
  obtain ⟨r, hr, hre⟩ := List.mem_map.1 hi
  obtain ⟨r', hr', hre'⟩ := List.mem_map.1 hj
  simp only [inShard, List.mem_filter, decide_eq_true_eq] at hr hr'
  simp only [Prod.mk.injEq] at hre hre'
  have huu : r.utxo = r'.utxo := hre.1.trans hre'.1.symm
  have hrr : r = r' := by
    have hnd := h.nodup
    have : ∀ (l : List (ReceiverPost T)), (l.map ReceiverPost.utxo).Nodup → r ∈ l → r' ∈ l → r = r' := by
      intro l
      induction l with
      | nil => intro _ h; cases h
      | cons x xs ih =>
        intro hn h1 h2
        simp only [List.map_cons, List.nodup_cons] at hn
        rcases List.mem_cons.1 h1 with e1 | h1' <;> rcases List.mem_cons.1 h2 with e2 | h2'
        · rw [e1, e2]
        · exact absurd (List.mem_map.2 ⟨r', h2', by rw [← huu, e1]⟩) hn.1
        · exact absurd (List.mem_map.2 ⟨r, h1', by rw [huu, e2]⟩) hn.1
        · exact ih hn.2 h1' h2'
    exact this _ hnd hr.1 hr'.1
  exact ⟨by rw [← hr.2, ← hr'.2, hrr], by rw [← hre.2, ← hre'.2, hrr]⟩

theorem run_append (env : Env T) (os os' : List (Op T)) (s : State T) :
    run env s (os ++ os') =
      ((run env (run env s os).1 os').1, (run env s os).2 ++ (run env (run env s os).1 os').2) := by
  induction os generalizing s with
  | nil => simp [run]
  | cons o os ih => simp only [List.cons_append, run, ih, List.append_assoc]

/-- C34: nothing removes or reorders coins: what a shard lists stays a prefix of what it lists later. -/
theorem c34_monotone (env : Env T) (os os' : List (Op T)) (i : Ix) :
    (run env State.new os).1.shards i <+: (run env State.new (os ++ os')).1.shards i := by
  have h := run_coins env os State.new [] (new_coins env)
  have h' := run_coins env (os ++ os') State.new [] (new_coins env)
  rw [h.shards, h'.shards, run_append]
  simp only [List.nil_append, inShard, List.flatMap_append, List.filter_append, List.map_append]
  exact List.prefix_append _ _

/-- C34 (part): the Merkle tree of a shard holds the coins of the shard, as long as they fit. -/
theorem c34_tree_partial (env : Env T) (os : List (Op T)) (i : Ix) :
    let s := (run env State.new os).1
    s.forest i = ((s.shards i).map fun x => env.crypto.item x.1).take env.capacity ∧
    ((s.shards i).length ≤ env.capacity → s.forest i = (s.shards i).map fun x => env.crypto.item x.1) := by
  have h := run_coins env os State.new [] (new_coins env)
  rw [List.nil_append] at h
  have e : ((run env State.new os).1.shards i).map (fun x => env.crypto.item x.1) =
      (inShard env ((run env State.new os).2.flatMap fun p => p.body.receivers) i).map
        (fun r => env.crypto.item r.utxo) := by
    rw [h.shards, List.map_map]; rfl
  simp only
  rw [e, h.forest]
  refine ⟨rfl, fun hl => List.take_of_length_le ?_⟩
  rw [h.shards] at hl
  simpa using hl

/-- Three coins for one shard; trees hold two. -/
def histFull : List (Op TT) :=
  [.setBalance 1 8 100, .push 1 [pMint 3 10], .push 1 [pMint 3 11, pMint 3 12]]

/-- C34 fails when a tree is full: the third post is accepted and its coin listed, but the coin has no leaf
in the tree, so no membership proof for it can ever be made. -/
theorem c34_full_tree_violated :
    let s := (run (tEnv false eContains) State.new histFull).1
    (run (tEnv false eContains) State.new histFull).2.length = 3 ∧
    (push (tEnv false eContains) (step (tEnv false eContains)
      (step (tEnv false eContains) State.new (.setBalance 1 8 100)) (.push 1 [pMint 3 10])) 1
        [pMint 3 11, pMint 3 12]).1 = .accepted ∧
    (tReceiver 3 12).utxo ∈ s.utxos ∧ (s.shards 3).length = 3 ∧
    tcrypto.item (tReceiver 3 12).utxo ∉ s.forest 3 := by
  refine ⟨by decide +kernel, by decide +kernel, by decide +kernel, by decide +kernel, by decide +kernel⟩

example : ((run (tEnv false eContains) State.new histFull).1.shards 3).map (fun x => x.1.cm) =
    [[3, 8, 10, 9], [3, 8, 11, 9], [3, 8, 12, 9]] ∧
    (run (tEnv false eContains) State.new (histFull ++ [.push 1 [pMint 3 10]])).2.length = 3 := by
  refine ⟨by decide +kernel, by decide +kernel⟩

/-! ## C33 -/

theorem submit_nullifiers (env : Env T) (he : Exact env.contains) (s : State T) (account : Nat) (p : Post T) :
    (submit env s account p).2.nullifiers =
      s.nullifiers ++ (if (submit env s account p).1 = .rejected then [] else p.body.senders.map SenderPost.nul) := by
  rcases hs : submit env s account p with ⟨o, s'⟩
  by_cases ho : o = .rejected
  · subst ho
    rw [c33_rejected_no_effect env s account p s' hs]; simp
  · obtain ⟨shape, _, hv, rfl, _⟩ := submit_applied env s account p o s' hs ho
    simp only [if_neg ho]
    exact applyKey_nullifiers env he s p _ _ hv

/-- The recorded nullifiers are pairwise different as coins. -/
def NoDouble (l : List (Nul T)) : Prop := l.Pairwise fun a b => a.cm ≠ b.cm

theorem submit_noDouble (env : Env T) (he : Exact env.contains) (s : State T) (account : Nat) (p : Post T)
    (h : NoDouble s.nullifiers) : NoDouble (submit env s account p).2.nullifiers := by
  rcases hs : submit env s account p with ⟨o, s'⟩
  by_cases ho : o = .rejected
  · subst ho
    rw [c33_rejected_no_effect env s account p s' hs]; exact h
  · obtain ⟨shape, _, hv, rfl, _⟩ := submit_applied env s account p o s' hs ho
    simp only
    rw [applyKey_nullifiers env he s p _ _ hv]
    unfold NoDouble
    rw [List.pairwise_append]
    refine ⟨h, ?_, ?_⟩
    · rw [List.pairwise_map]; exact hv.distinctNul
    · intro a ha b hb
      obtain ⟨q, hq, rfl⟩ := List.mem_map.1 hb
      intro hc
      have := (he s.nullifiers q.nul).2 ⟨a, ha, hc⟩
      rw [hv.unspent q hq] at this; cases this

theorem push_nullifiers (env : Env T) (he : Exact env.contains) (account : Nat) (ps : List (Post T)) :
    ∀ s : State T, NoDouble s.nullifiers →
      NoDouble (push env s account ps).2.nullifiers ∧
      (push env s account ps).2.nullifiers =
        s.nullifiers ++ (pushLog env s account ps).flatMap fun p => p.body.senders.map SenderPost.nul := by
  induction ps with
  | nil => intro s h; simpa [push, pushLog] using h
  | cons p ps ih =>
    intro s h
    have h1 := submit_noDouble env he s account p h
    have h2 := submit_nullifiers env he s account p
    simp only [push, pushLog]
    rcases hs : submit env s account p with ⟨o, s'⟩
    rw [hs] at h1 h2
    cases o with
    | accepted =>
      simp only [reduceCtorEq, if_false] at h2
      obtain ⟨a, b⟩ := ih s' h1
      refine ⟨a, ?_⟩
      rw [b, h2]; simp
    | panicked => exact ⟨h1, by simpa using h2⟩
    | rejected => exact ⟨h1, by simpa using h2⟩

theorem run_nullifiers (env : Env T) (he : Exact env.contains) (os : List (Op T)) :
    ∀ s : State T, NoDouble s.nullifiers →
      NoDouble (run env s os).1.nullifiers ∧
      (run env s os).1.nullifiers =
        s.nullifiers ++ (run env s os).2.flatMap fun p => p.body.senders.map SenderPost.nul := by
  induction os with
  | nil => intro s h; simpa [run] using h
  | cons o os ih =>
    intro s h
    have hstep : NoDouble (step env s o).nullifiers ∧ (step env s o).nullifiers =
        s.nullifiers ++ (stepLog env s o).flatMap fun p => p.body.senders.map SenderPost.nul := by
      cases o with
      | push a ps => exact push_nullifiers env he a ps s h
      | setBalance a id v =>
        simp only [step, stepLog, List.flatMap_nil, List.append_nil]
        cases hb : setBalance s a id v with
        | none => exact ⟨h, rfl⟩
        | some s' =>
          have := (setBalance_same s s' a id v hb).1
          simp only [Option.getD_some, this]; exact ⟨h, trivial⟩
    obtain ⟨a, b⟩ := ih _ hstep.1
    refine ⟨a, ?_⟩
    simp only [run]
    rw [b, hstep.2]; simp

/-- C33 (part: for a set whose hash agrees with equality): over any history no nullifier is recorded twice,
and the recorded nullifiers are exactly those of the applied posts, in order. -/
theorem c33_no_double_spend_partial (env : Env T) (hash : Nul T → Nat) (hl : Lookup hash env.contains)
    (hh : ∀ a b : Nul T, a.cm = b.cm → hash a = hash b) (os : List (Op T)) :
    let r := run env State.new os
    r.1.nullifiers = r.2.flatMap (fun p => p.body.senders.map SenderPost.nul) ∧
    (r.2.flatMap (fun p => p.body.senders.map SenderPost.nul)).Pairwise fun a b => a.cm ≠ b.cm := by
  obtain ⟨a, b⟩ := run_nullifiers env (exact_of_lookup hash _ hl hh) os State.new List.Pairwise.nil
  have hn : (State.new : State T).nullifiers = [] := rfl
  rw [hn, List.nil_append] at b
  refine ⟨b, ?_⟩
  rw [← b]; exact a

/-- C33 (part, same restriction): a post that uses a recorded nullifier is rejected and nothing changes. -/
theorem c33_reuse_rejected_partial (env : Env T) (hash : Nul T → Nat) (hl : Lookup hash env.contains)
    (hh : ∀ a b : Nul T, a.cm = b.cm → hash a = hash b) (s : State T) (account : Nat) (p : Post T)
    (q : SenderPost T) (hq : q ∈ p.body.senders) (hrec : ∃ m ∈ s.nullifiers, m.cm = q.nul.cm) :
    submit env s account p = (.rejected, s) := by
  rcases hs : submit env s account p with ⟨o, s'⟩
  by_cases ho : o = .rejected
  · subst ho; rw [c33_rejected_no_effect env s account p s' hs]
  · obtain ⟨shape, _, hv, _⟩ := submit_applied env s account p o s' hs ho
    have := (exact_of_lookup hash _ hl hh s.nullifiers q.nul).2 hrec
    rw [hv.unspent q hq] at this; cases this

/-- C33, for the set as it is: an identical recorded nullifier is always rejected, without effect. -/
theorem c33_replay_rejected (env : Env T) (hash : Nul T → Nat) (hl : Lookup hash env.contains)
    (s : State T) (account : Nat) (p : Post T) (q : SenderPost T) (hq : q ∈ p.body.senders)
    (hrec : q.nul ∈ s.nullifiers) : submit env s account p = (.rejected, s) := by
  rcases hs : submit env s account p with ⟨o, s'⟩
  by_cases ho : o = .rejected
  · subst ho; rw [c33_rejected_no_effect env s account p s' hs]
  · obtain ⟨shape, _, hv, _⟩ := submit_applied env s account p o s' hs ho
    have := hl.found s.nullifiers q.nul q.nul hrec rfl rfl
    rw [hv.unspent q hq] at this; cases this

/-- C33: within an accepted post the nullifiers are pairwise different and none was found in the set before. -/
theorem c33_accepted (env : Env T) (s s' : State T) (account : Nat) (p : Post T)
    (h : submit env s account p = (.accepted, s')) :
    (p.body.senders.Pairwise fun a b => a.nul.cm ≠ b.nul.cm) ∧
    ∀ q ∈ p.body.senders, env.contains s.nullifiers q.nul = false := by
  obtain ⟨shape, _, hv, _⟩ := submit_applied env s account p _ s' h (by simp)
  exact ⟨hv.distinctNul, hv.unspent⟩

/-- The same two coins reclaimed twice, the second time with other outgoing notes. -/
def histDouble : List (Op TT) :=
  [.setBalance 1 8 100, .push 1 [pReclaim [40, 1] [40, 2] 0 50 7 [1]],
   .push 1 [pReclaim [40, 1] [40, 2] 1 51 7 [1]]]

/-- C33 fails for the code: the hash of a nullifier covers its outgoing note while equality does not, so a
set that meets its contract can miss the recorded nullifier when the same coin is posted again with another
outgoing note. The note is not part of the public input (C31), so the proof is not affected; the second
reclaim is accepted and pays out again. -/
theorem c33_double_spend_violated :
    Lookup (T := TT) tHash tContains ∧
    (let r := run (tEnv false tContains) State.new histDouble
     r.2.length = 2 ∧ (r.1.nullifiers.map Nul.cm) = [[40, 1], [40, 2], [40, 1], [40, 2]] ∧
     balance r.1.accounts 1 8 = 114) ∧
    ((pReclaim [40, 1] [40, 2] 0 50 7 [1]).body.senders.map fun q => inSender tEnc q.root q.nul) =
    ((pReclaim [40, 1] [40, 2] 1 51 7 [1]).body.senders.map fun q => inSender tEnc q.root q.nul) := by
  refine ⟨tContains_lookup, ⟨by decide +kernel, by decide +kernel, by decide +kernel⟩, by decide +kernel⟩

example : Lookup (T := TT) (fun _ => 0) eContains ∧
    (run (tEnv false eContains) State.new histDouble).2.length = 1 ∧
    (run (tEnv false eContains) State.new histDouble).1.nullifiers.length = 2 ∧
    (submit (tEnv false eContains) (run (tEnv false eContains) State.new histDouble).1 1
      (pReclaim [40, 1] [40, 2] 1 51 7 [1])).1 = .rejected := by
  refine ⟨⟨?_, ?_⟩, by decide +kernel, by decide +kernel, by decide +kernel⟩
  · intro l n m hm _ hc; exact (eContains_exact l n).2 ⟨m, hm, hc⟩
  · intro l n h; exact (eContains_exact l n).1 h

/-! ## C35 -/

/-- C35: acceptance spelled out. A post is accepted or panics exactly when every listed condition holds. -/
theorem c35_applied_iff (env : Env T) (s : State T) (account : Nat) (p : Post T) :
    (submit env s account p).1 ≠ .rejected ↔
      ∃ shape, Shape.fromPost p = some shape ∧
        Valid env s p (participants shape account).1 (participants shape account).2 := by
  constructor
  · intro h
    rcases hs : submit env s account p with ⟨o, s'⟩
    rw [hs] at h
    obtain ⟨shape, h1, h2, _⟩ := submit_applied env s account p o s' hs h
    exact ⟨shape, h1, h2⟩
  · rintro ⟨shape, h1, h2⟩
    have := (validate_ok_iff env s p _ _ _).2 ⟨h2, rfl⟩
    unfold submit
    rw [h1]
    simp only [this]
    split <;> simp

/-- At most one source and one sink per canonical shape. -/
theorem canonical_public {sh : Shape} {a b : Bool} {c d e f : Nat} (h : Canonical sh a b c d e f) :
    c ≤ 1 ∧ f ≤ 1 ∧ (c = 0 ∨ f = 0) := by
  cases h <;> decide

/-- C35 (part): applying a validated post succeeds completely, for every ledger and any accounts passed to
validation, when the credited balances stay below 2^128. -/
theorem c35_applies_partial (env : Env T) (s : State T) (p : Post T) (sa ka : List Nat) (k : PostingKey T)
    (h : validate env s p sa ka = .ok k)
    (hfit : ∀ a id, p.body.assetId = some id → balance s.accounts a id + due (ka.zip p.body.sinks) a < 2 ^ 128) :
    (applyKey env s k).1 = .ok := by
  obtain ⟨hv, rfl⟩ := (validate_ok_iff ..).1 h
  have hk := (applyKey_accounts env s p sa ka).1
  unfold keyOf at hk
  rw [hk]
  cases hid : p.body.assetId with
  | none => rfl
  | some id =>
    simp only
    obtain ⟨sh, hsh, _⟩ := hv.shape
    obtain ⟨c1, c2, c3⟩ := canonical_public hsh
    have key : (updateBalances false id s.accounts (sa.zip p.body.sources) (ka.zip p.body.sinks)).1 = .ok := by
      have hzl : (sa.zip p.body.sources).length ≤ 1 := by simp only [List.length_zip]; omega
      have hzk : (ka.zip p.body.sinks).length ≤ 1 := by simp only [List.length_zip]; omega
      have hz3 : (sa.zip p.body.sources).length = 0 ∨ (ka.zip p.body.sinks).length = 0 := by
        simp only [List.length_zip]; omega
      have hfu := hv.funded
      have hsi := hv.sinks
      have hfit' := fun a => hfit a id hid
      rw [hid] at hfu
      simp only [Option.getD_some] at hfu
      generalize sa.zip p.body.sources = so at *
      generalize ka.zip p.body.sinks = si at *
      rcases so with _ | ⟨⟨a, w⟩, so⟩
      · rcases si with _ | ⟨⟨a', d⟩, si⟩
        · rfl
        · have hnil : si = [] := by
            simp only [List.length_cons] at hzk
            exact List.length_eq_zero_iff.1 (by omega)
          subst hnil
          have hs := hsi (a', d) (by simp)
          simp only at hs
          obtain ⟨m, hm⟩ := Option.isSome_iff_exists.1 hs
          have := hfit' a'
          have e1 : balance s.accounts a' id = (mget m id).getD 0 := by simp [balance, hm]
          rw [due_cons] at this
          simp only [if_true, due_nil, Nat.add_zero] at this
          simp only [updateBalances, withdrawAll, depositAll, hm, add128]
          rw [if_pos (by omega)]
      · have hsi0 : si = [] := by
          simp only [List.length_cons] at hz3
          exact List.length_eq_zero_iff.1 (by omega)
        have hnil : so = [] := by
          simp only [List.length_cons] at hzl
          exact List.length_eq_zero_iff.1 (by omega)
        subst hsi0 hnil
        have hs := hfu (a, w) (by simp)
        unfold sourceOk at hs
        simp only at hs
        split at hs
        · cases hs
        · rename_i m hm
          split at hs
          · cases hs
          · rename_i b hb
            simp only [decide_eq_true_eq, ge_iff_le] at hs
            simp only [updateBalances, withdrawAll, hm, hb, sub128, if_pos hs, depositAll]
    cases hw : env.wraps with
    | false => exact key
    | true => rw [updateBalances_wraps _ _ _ _ (by rw [key]; simp)]; exact key

/-- C35 for `push`: a post that passes validation is accepted when the credited balance fits. -/
theorem c35_push_partial (env : Env T) (s : State T) (account : Nat) (p : Post T)
    (h : (submit env s account p).1 ≠ .rejected)
    (hfit : ∀ id, p.body.assetId = some id → balance s.accounts account id + p.body.sinks.sum < 2 ^ 128)
    (hbd : ∀ a id, balance s.accounts a id < 2 ^ 128) :
    (submit env s account p).1 = .accepted := by
  rcases hs : submit env s account p with ⟨o, s'⟩
  rw [hs] at h
  obtain ⟨shape, h1, hv, _, ho⟩ := submit_applied env s account p o s' hs h
  simp only
  rw [ho]
  refine c35_applies_partial env s p _ _ _ ((validate_ok_iff ..).2 ⟨hv, rfl⟩) ?_
  intro a id hid
  have hle : due ((participants shape account).2.zip p.body.sinks) a ≤
      if a = account then p.body.sinks.sum else 0 := by
    cases shape with
    | toPrivate => simp [participants]
    | privateTransfer => simp [participants]
    | toPublic =>
      simp only [participants]
      rcases p.body.sinks with _ | ⟨v, vs⟩
      · simp
      · simp only [List.zip_cons_cons, List.zip_nil_left, due_cons, due_nil, List.sum_cons]
        by_cases ha : a = account
        · subst ha; simp
        · have : ¬ account = a := fun hc => ha hc.symm
          simp [ha, this]
  by_cases ha : a = account
  · subst ha
    have := hfit id hid
    simp only [if_true] at hle
    omega
  · rw [if_neg ha] at hle
    have := hbd a id
    omega

/-- Account 1 holds almost the maximum. -/
def sRich : State TT := {(State.new : State TT) with accounts := [(1, [(8, 2 ^ 128 - 3)])]}

/-- C35 fails when a deposit overflows: a valid reclaim panics after its nullifiers and its coin were
recorded, so the spent coins are gone and the public balance was not credited. -/
theorem c35_overflow_violated :
    let r := submit (tEnv false eContains) sRich 1 (pReclaim [40, 1] [40, 2] 0 50 7 [1])
    r.1 = .panicked ∧ r.2.nullifiers.length = 2 ∧ r.2.utxos.length = 1 ∧
      balance r.2.accounts 1 8 = balance sRich.accounts 1 8 := by
  refine ⟨by decide +kernel, by decide +kernel, by decide +kernel, by decide +kernel⟩

/-- In a build without overflow checks the post is accepted and the balance wraps around. -/
theorem c35_overflow_wraps :
    let r := submit (tEnv true eContains) sRich 1 (pReclaim [40, 1] [40, 2] 0 50 7 [1])
    r.1 = .accepted ∧ balance r.2.accounts 1 8 = 4 := by
  refine ⟨by decide +kernel, by decide +kernel⟩

example : (submit (tEnv false eContains) s0 1 (pMint 3 10)).1 = .accepted ∧
    (submit (tEnv false eContains) s0 1 (pMint 3 101)).1 = .rejected ∧
    (submit (tEnv false eContains) s0 2 (pReclaim [40, 1] [40, 2] 0 50 7 [2])).1 = .accepted ∧
    (∃ k, validate (tEnv false eContains) s0 (pMint 3 10) [1] [] = .ok k) := by
  refine ⟨by decide +kernel, by decide +kernel, by decide +kernel, _, rfl⟩

/-! ## C36 -/

/-- C36: an accepted post changes public balances by its own amounts and nothing else: the submitter's balance
of the post's asset loses the sources and gains the sinks, it was sufficient, and every other balance is
untouched. For release builds the credited balance is assumed not to overflow (`c35_overflow_wraps`). -/
theorem c36_balances (env : Env T) (s s' : State T) (account : Nat) (p : Post T)
    (h : submit env s account p = (.accepted, s'))
    (hfit : env.wraps = true → ∀ a id, p.body.assetId = some id →
      balance s.accounts a id + (if a = account then p.body.sinks.sum else 0) < 2 ^ 128) :
    (∀ id, p.body.assetId = some id →
      p.body.sources.sum ≤ balance s.accounts account id ∧
      balance s'.accounts account id + p.body.sources.sum = balance s.accounts account id + p.body.sinks.sum) ∧
    (∀ a id, a ≠ account ∨ p.body.assetId ≠ some id → balance s'.accounts a id = balance s.accounts a id) ∧
    (p.body.assetId = none → p.body.sources = [] ∧ p.body.sinks = []) := by
  obtain ⟨shape, hsh, hv, rfl, ho⟩ := submit_applied env s account p _ s' h (by simp)
  have hok := ho.1 rfl
  obtain ⟨k1, k2⟩ := applyKey_accounts env s p (participants shape account).1 (participants shape account).2
  rw [k1] at hok
  rw [k2]
  rw [c51_from_post] at hsh
  have hpart : ∀ a, due ((participants shape account).1.zip p.body.sources) a =
      (if a = account then p.body.sources.sum else 0) ∧
      due ((participants shape account).2.zip p.body.sinks) a =
      (if a = account then p.body.sinks.sum else 0) := by
    intro a
    have hsl := hv.sourceLen
    have hkl := hv.sinkLen
    cases shape with
    | toPrivate =>
      simp only [participants, List.length_cons, List.length_nil] at hsl hkl ⊢
      obtain ⟨v, hvv⟩ := List.length_eq_one_iff.1 hsl.symm
      have hnil : p.body.sinks = [] := List.length_eq_zero_iff.1 hkl.symm
      rw [hvv, hnil]
      by_cases ha : a = account
      · subst ha; simp [due_cons]
      · have : ¬ account = a := fun hc => ha hc.symm
        simp [due_cons, ha, this]
    | privateTransfer =>
      simp only [participants, List.length_nil] at hsl hkl ⊢
      have hnil : p.body.sinks = [] := List.length_eq_zero_iff.1 hkl.symm
      have hnil' : p.body.sources = [] := List.length_eq_zero_iff.1 hsl.symm
      rw [hnil, hnil']; simp
    | toPublic =>
      simp only [participants, List.length_cons, List.length_nil] at hsl hkl ⊢
      obtain ⟨v, hvv⟩ := List.length_eq_one_iff.1 hkl.symm
      have hnil : p.body.sources = [] := List.length_eq_zero_iff.1 hsl.symm
      rw [hvv, hnil]
      by_cases ha : a = account
      · subst ha; simp [due_cons]
      · have : ¬ account = a := fun hc => ha hc.symm
        simp [due_cons, ha, this]
  cases hid : p.body.assetId with
  | none =>
    refine ⟨fun id hc => by simp at hc, fun a id _ => rfl, fun _ => ?_⟩
    rw [hid] at hsh
    simp only [Option.isSome_none] at hsh
    generalize hL : p.body.sources.length = n1 at hsh
    generalize hM : p.body.sinks.length = n2 at hsh
    generalize p.sig.isSome = n3 at hsh
    generalize p.body.senders.length = n4 at hsh
    generalize p.body.receivers.length = n5 at hsh
    cases hsh
    exact ⟨List.length_eq_zero_iff.1 hL, List.length_eq_zero_iff.1 hM⟩
  | some id0 =>
    rw [hid] at hok
    simp only at hok
    have hub : updateBalances env.wraps id0 s.accounts ((participants shape account).1.zip p.body.sources)
        ((participants shape account).2.zip p.body.sinks) =
        updateBalances false id0 s.accounts ((participants shape account).1.zip p.body.sources)
        ((participants shape account).2.zip p.body.sinks) := by
      cases hw : env.wraps with
      | false => rfl
      | true =>
        apply updateBalances_wraps
        have := c35_applies_partial {env with wraps := false} s p (participants shape account).1
          (participants shape account).2 (keyOf p _ _) ((validate_ok_iff ..).2 ⟨⟨hv.signature, hv.sourceLen,
            hv.sinkLen, hv.shape, hv.funded, hv.sinks, hv.roots, hv.unspent, hv.distinctNul, hv.fresh,
            hv.distinctUtxo⟩, rfl⟩) (by
            intro a id hi
            have h1 := hfit hw a id hi
            rw [(hpart a).2]
            exact h1)
        have h2 := (applyKey_accounts {env with wraps := false} s p (participants shape account).1
          (participants shape account).2).1
        rw [h2, hid] at this
        simp only at this
        rw [this]; simp
    rw [hub] at hok
    simp only [hub]
    obtain ⟨u1, u2, _, u4, _⟩ := updateBalances_ok id0 s.accounts _ _ _ (Prod.ext hok rfl)
    refine ⟨fun id hc => ?_, fun a id hc => ?_, fun hc => by simp at hc⟩
    · simp only [Option.some.injEq] at hc
      subst hc
      have h1 := u1 account
      have h2 := u2 account
      rw [(hpart account).1] at h1 h2
      rw [(hpart account).2] at h1
      simp only [if_true] at h1 h2
      exact ⟨h2, h1⟩
    · by_cases hi : id = id0
      · subst hi
        rcases hc with hc | hc
        · have h1 := u1 a
          rw [(hpart a).1, (hpart a).2] at h1
          simpa [hc] using h1
        · exact absurd rfl hc
      · exact u4 a id hi

/-- C36: a rejected post leaves balances alone, and a panicking one changes none of them. -/
theorem c36_not_accepted (env : Env T) (s s' : State T) (account : Nat) (p : Post T) (o : Outcome)
    (h : submit env s account p = (o, s')) (ho : o ≠ .accepted) :
    ∀ a id, balance s'.accounts a id = balance s.accounts a id := by
  by_cases hr : o = .rejected
  · subst hr; rw [c33_rejected_no_effect env s account p s' h]; intros; rfl
  · obtain ⟨shape, hsh, hv, rfl, hoo⟩ := submit_applied env s account p _ s' h hr
    have hne : (applyKey env s (keyOf p (participants shape account).1 (participants shape account).2)).1 ≠ .ok :=
      fun hc => ho (hoo.2 hc)
    obtain ⟨k1, k2⟩ := applyKey_accounts env s p (participants shape account).1 (participants shape account).2
    rw [k1] at hne
    rw [k2]
    intro a id
    cases hid : p.body.assetId with
    | none => rfl
    | some id0 =>
      rw [hid] at hne
      simp only at hne ⊢
      obtain ⟨sh, hsh', _⟩ := hv.shape
      obtain ⟨c1, c2, c3⟩ := canonical_public hsh'
      have hzl : ((participants shape account).1.zip p.body.sources).length ≤ 1 := by simp only [List.length_zip]; omega
      have hzk : ((participants shape account).2.zip p.body.sinks).length ≤ 1 := by simp only [List.length_zip]; omega
      have hz3 : ((participants shape account).1.zip p.body.sources).length = 0 ∨
          ((participants shape account).2.zip p.body.sinks).length = 0 := by simp only [List.length_zip]; omega
      generalize (participants shape account).1.zip p.body.sources = so at *
      generalize (participants shape account).2.zip p.body.sinks = si at *
      rcases so with _ | ⟨⟨x, w⟩, so⟩
      · rcases si with _ | ⟨⟨x', d⟩, si⟩
        · rfl
        · have hnil : si = [] := by
            simp only [List.length_cons] at hzk
            exact List.length_eq_zero_iff.1 (by omega)
          subst hnil
          simp only [updateBalances, withdrawAll, depositAll] at hne ⊢
          cases hm : mget s.accounts x' with
          | none => rfl
          | some m =>
            rw [hm] at hne
            simp only at hne ⊢
            cases hadd : add128 env.wraps ((mget m id0).getD 0) d with
            | some b' => rw [hadd] at hne; exact absurd rfl hne
            | none =>
              simp only
              rw [balance_mput _ _ _ _ _ _ _ hm]
              split
              · rename_i hc; obtain ⟨rfl, rfl⟩ := hc
                simp [balance, hm]
              · rfl
      · have hsi0 : si = [] := by
          simp only [List.length_cons] at hz3
          exact List.length_eq_zero_iff.1 (by omega)
        have hnil : so = [] := by
          simp only [List.length_cons] at hzl
          exact List.length_eq_zero_iff.1 (by omega)
        subst hsi0 hnil
        simp only [updateBalances, withdrawAll] at hne ⊢
        cases hm : mget s.accounts x with
        | none => rfl
        | some m =>
          rw [hm] at hne
          simp only at hne ⊢
          cases hb : mget m id0 with
          | none => rfl
          | some b =>
            rw [hb] at hne
            simp only at hne ⊢
            cases hsub : sub128 env.wraps b w with
            | none => rfl
            | some b' =>
              rw [hsub] at hne
              simp only [depositAll] at hne
              exact absurd rfl hne

example : submit (tEnv false eContains) s0 2 (pReclaim [40, 1] [40, 2] 0 50 7 [2]) =
      (.accepted, (submit (tEnv false eContains) s0 2 (pReclaim [40, 1] [40, 2] 0 50 7 [2])).2) ∧
    balance (submit (tEnv false eContains) s0 2 (pReclaim [40, 1] [40, 2] 0 50 7 [2])).2.accounts 2 8 = 7 ∧
    balance (submit (tEnv false eContains) s0 1 (pMint 3 10)).2.accounts 1 8 = 90 := by
  refine ⟨Prod.ext (by decide +kernel) rfl, by decide +kernel, by decide +kernel⟩

/-! ## C38 -/

/-- C38 fails: whatever accounts a reclaim was signed for, the ledger credits the account that submits it.
Here the post is signed for account 1, submitted by account 2, and account 2 is credited. -/
theorem c38_violated :
    let p := pReclaim [40, 1] [40, 2] 0 50 7 [1]
    let r := submit (tEnv false eContains) s0 2 p
    p.sinkAccounts = [1] ∧ p.checkSig tcrypto = .ok () ∧ r.1 = .accepted ∧
    balance r.2.accounts 1 8 = balance s0.accounts 1 8 ∧
    balance r.2.accounts 2 8 = balance s0.accounts 2 8 + 7 := by
  refine ⟨rfl, rfl, by decide +kernel, by decide +kernel, by decide +kernel⟩

/-- C38 (part): if the submitter is the account the post was signed for, exactly the signed account is
credited, by the signed amount. -/
theorem c38_partial (env : Env T) (s s' : State T) (account : Nat) (p : Post T)
    (h : submit env s account p = (.accepted, s')) (hacc : p.sinkAccounts = [account])
    (hfit : ∀ a id, p.body.assetId = some id →
      balance s.accounts a id + (if a = account then p.body.sinks.sum else 0) < 2 ^ 128)
    (hso : p.body.sources = []) (a id : Nat) :
    balance s'.accounts a id = balance s.accounts a id +
      (if a ∈ p.sinkAccounts ∧ p.body.assetId = some id then p.body.sinks.sum else 0) := by
  obtain ⟨h1, h2, h3⟩ := c36_balances env s s' account p h (fun _ => hfit)
  rw [hacc]
  by_cases ha : a = account
  · subst ha
    by_cases hi : p.body.assetId = some id
    · have := (h1 id hi).2
      simp only [hso, List.sum_nil] at this
      simp [hi]; omega
    · rw [h2 a id (.inr hi)]; simp [hi]
  · rw [h2 a id (.inl ha)]; simp [ha]

/-- C38: signing covers body and accounts, the ledger only looks at the body: acceptance by a submitter does
not depend on the account list except through the signature check. -/
theorem c38_submitter_credited (env : Env T) (s s' : State T) (account : Nat) (p : Post T)
    (h : submit env s account p = (.accepted, s')) (hw : env.wraps = false) (id : Nat)
    (hid : p.body.assetId = some id) (hso : p.body.sources = []) :
    balance s'.accounts account id = balance s.accounts account id + p.body.sinks.sum := by
  have := ((c36_balances env s s' account p h (by simp [hw])).1 id hid).2
  simpa [hso] using this

/-! ## C59 -/

/-- C59 fails: a post whose proof is verified to be wrong is accepted, because only errors of the verifier
are looked at. -/
theorem c59_invalid_proof_accepted :
    let p : Post TT := {pMint 3 10 with body := {(pMint 3 10).body with proof := (5 : Nat)}}
    (tEnv false eContains).verifyProof .toPrivate (p.input tEnc) p.body.proof = some false ∧
    (submit (tEnv false eContains) s0 1 p).1 = .accepted := by
  refine ⟨rfl, by decide +kernel⟩

/-- C59 (part): posts on which the verifier fails with an error are rejected without effect; so for a
verifier that never answers "no" the claim holds. -/
theorem c59_partial (env : Env T) (s : State T) (account : Nat) (p : Post T) (shape : Shape)
    (hs : Shape.fromPost p = some shape)
    (hver : env.verifyProof shape (p.input env.enc) p.body.proof = none) :
    submit env s account p = (.rejected, s) := by
  rcases hss : submit env s account p with ⟨o, s'⟩
  by_cases ho : o = .rejected
  · subst ho; rw [c33_rejected_no_effect env s account p s' hss]
  · obtain ⟨sh, hsh, hv, _⟩ := submit_applied env s account p o s' hss ho
    obtain ⟨sh', h1, h2⟩ := hv.shape
    rw [c51_from_post] at hs
    have := c51_unique _ _ _ _ _ _ _ _ hs h1
    subst this
    exact absurd hver h2

/-- C59: an accepted post was checked by the verifier for its own shape and public input. -/
theorem c59_checked (env : Env T) (s s' : State T) (account : Nat) (p : Post T)
    (h : submit env s account p = (.accepted, s')) :
    ∃ shape b, Shape.fromPost p = some shape ∧
      env.verifyProof shape (p.input env.enc) p.body.proof = some b := by
  obtain ⟨sh, hsh, hv, _⟩ := submit_applied env s account p _ s' h (by simp)
  obtain ⟨sh', h1, h2⟩ := hv.shape
  obtain ⟨b, hb⟩ := Option.ne_none_iff_exists'.1 h2
  exact ⟨sh', b, (c51_from_post p sh').2 h1, hb⟩

example : Shape.fromPost (pMint 3 10) = some .toPrivate ∧
    (submit (tEnv false eContains) s0 1 {pMint 3 10 with body := {(pMint 3 10).body with proof := (0 : Nat)}}).1
      = .rejected := by
  refine ⟨by decide, by decide +kernel⟩

/-! ## C37 -/

/-- A reader: its checkpoint and everything it has received so far. -/
structure Reader (T : Ty) where
  checkpoint : Checkpoint
  coins : List (Utxo T × FullNote T)
  nullifiers : List (Nul T)

/-- The reader pulls, keeps what it got, and advances its checkpoint by what it received: per shard the number
of coins of that shard, and the number of nullifiers (as the signer does, C57). -/
def Reader.pull (env : Env T) (s : State T) (r : Reader T) : Reader T :=
  let d := Verif.Ledger.pull s r.checkpoint
  ⟨⟨fun i => r.checkpoint.receiver i + (d.1.filter fun x => decide (ix env x.1 = i)).length,
    r.checkpoint.sender + d.2.length⟩, r.coins ++ d.1, r.nullifiers ++ d.2⟩

/-- Calls on the ledger interleaved with pulls of the reader. -/
inductive Event (T : Ty) where
  | op (o : Op T)
  | pull

def evRun (env : Env T) (s : State T) (r : Reader T) : List (Event T) → State T × Reader T
  | [] => (s, r)
  | .op o :: es => evRun env (step env s o) r es
  | .pull :: es => evRun env s (r.pull env s) es

/-- A new reader. -/
def Reader.new : Reader T := ⟨⟨fun _ => 0, 0⟩, [], []⟩

/-- What the reader has got is a prefix of every shard and of the nullifiers, and its checkpoint says so. -/
structure Synced (env : Env T) (s : State T) (r : Reader T) : Prop where
  pos : ∀ i, r.checkpoint.receiver i = (r.coins.filter fun x => decide (ix env x.1 = i)).length
  coins : ∀ i, (r.coins.filter fun x => decide (ix env x.1 = i)) = (s.shards i).take (r.checkpoint.receiver i)
  npos : r.checkpoint.sender = r.nullifiers.length
  nuls : r.nullifiers = s.nullifiers.take r.checkpoint.sender

theorem filter_flatMap_shards (env : Env T) (f : Ix → List (Utxo T × FullNote T))
    (hf : ∀ i, ∀ x ∈ f i, ix env x.1 = i) (i : Ix) :
    (((List.finRange 256).flatMap f).filter fun x => decide (ix env x.1 = i)) = f i := by
  have key : ∀ l : List Ix, l.Nodup →
      ((l.flatMap f).filter fun x => decide (ix env x.1 = i)) = if i ∈ l then f i else [] := by
    intro l
    induction l with
    | nil => intro _; simp
    | cons j js ih =>
      intro hn
      rw [List.nodup_cons] at hn
      rw [List.flatMap_cons, List.filter_append, ih hn.2]
      by_cases hj : j = i
      · subst hj
        have h1 : (f j).filter (fun x => decide (ix env x.1 = j)) = f j := by
          rw [List.filter_eq_self]; intro x hx; simpa using hf j x hx
        simp [h1, hn.1]
      · have h1 : (f j).filter (fun x => decide (ix env x.1 = i)) = [] := by
          rw [List.filter_eq_nil_iff]
          intro x hx
          have := hf j x hx
          simp only [decide_eq_true_eq]
          rw [this]; exact hj
        have h2 : ¬ i = j := fun hc => hj hc.symm
        simp [h1, h2]
  rw [key _ (List.nodup_finRange 256)]
  simp

theorem shards_ix (env : Env T) (s : State T) (log : List (ReceiverPost T)) (h : Coins env s log) (i : Ix) :
    ∀ x ∈ s.shards i, ix env x.1 = i := by
  intro x hx
  rw [h.shards] at hx
  obtain ⟨r, hr, rfl⟩ := List.mem_map.1 hx
  simp only [inShard, List.mem_filter, decide_eq_true_eq] at hr
  exact hr.2

theorem pull_synced (env : Env T) (s : State T) (log : List (ReceiverPost T)) (h : Coins env s log)
    (r : Reader T) (hr : Synced env s r) :
    Synced env s (r.pull env s) ∧
    (∀ i, ((r.pull env s).coins.filter fun x => decide (ix env x.1 = i)) = s.shards i) ∧
    (r.pull env s).nullifiers = s.nullifiers := by
  have hf : ∀ i, ((Verif.Ledger.pull s r.checkpoint).1.filter fun x => decide (ix env x.1 = i)) =
      (s.shards i).drop (r.checkpoint.receiver i) := by
    intro i
    exact filter_flatMap_shards env (fun i => (s.shards i).drop (r.checkpoint.receiver i))
      (fun j x hx => shards_ix env s log h j x (List.mem_of_mem_drop hx)) i
  have hc : ∀ i, ((r.pull env s).coins.filter fun x => decide (ix env x.1 = i)) = s.shards i := by
    intro i
    simp only [Reader.pull, List.filter_append]
    rw [hr.coins, hf, List.take_append_drop]
  have hn : (r.pull env s).nullifiers = s.nullifiers := by
    simp only [Reader.pull, Verif.Ledger.pull]
    rw [hr.nuls]
    have : r.checkpoint.sender = (s.nullifiers.take r.checkpoint.sender).length := by
      have := hr.npos
      rw [hr.nuls] at this; exact this
    exact List.take_append_drop _ _
  have hp : ∀ i, (r.pull env s).checkpoint.receiver i = (s.shards i).length := by
    intro i
    simp only [Reader.pull, hf, List.length_drop]
    have h1 := hr.pos i
    rw [hr.coins i, List.length_take] at h1
    omega
  have hnp : (r.pull env s).checkpoint.sender = s.nullifiers.length := by
    simp only [Reader.pull, Verif.Ledger.pull, List.length_drop]
    have h1 := hr.npos
    rw [hr.nuls, List.length_take] at h1
    omega
  refine ⟨⟨fun i => ?_, fun i => ?_, ?_, ?_⟩, hc, hn⟩
  · rw [hp, hc]
  · rw [hp, hc, List.take_length]
  · rw [hnp, hn]
  · rw [hnp, hn, List.take_length]

theorem synced_mono (env : Env T) (s s' : State T) (r : Reader T) (hr : Synced env s r)
    (h1 : ∀ i, s.shards i <+: s'.shards i) (h2 : s.nullifiers <+: s'.nullifiers) : Synced env s' r := by
  refine ⟨hr.pos, fun i => ?_, hr.npos, ?_⟩
  · rw [hr.coins i]
    obtain ⟨t, ht⟩ := h1 i
    have hle : r.checkpoint.receiver i ≤ (s.shards i).length := by
      have := hr.pos i
      rw [hr.coins i, List.length_take] at this; omega
    rw [← ht, List.take_append_of_le_length hle]
  · have h3 := hr.nuls
    obtain ⟨t, ht⟩ := h2
    have hle : r.checkpoint.sender ≤ s.nullifiers.length := by
      have := hr.npos
      rw [hr.nuls, List.length_take] at this; omega
    rw [← ht, List.take_append_of_le_length hle]; exact h3

theorem spends_prefix (env : Env T) (l : List (SenderPost T)) (s : State T) :
    s.nullifiers <+: (l.foldl (spend env) s).nullifiers := by
  induction l generalizing s with
  | nil => exact List.prefix_refl _
  | cons p ps ih =>
    simp only [List.foldl_cons]
    refine List.IsPrefix.trans ?_ (ih (spend env s p))
    unfold spend
    split
    · exact List.prefix_refl _
    · exact List.prefix_append _ _

theorem submit_prefix (env : Env T) (s : State T) (account : Nat) (p : Post T) :
    s.nullifiers <+: (submit env s account p).2.nullifiers := by
  rcases hs : submit env s account p with ⟨o, s'⟩
  by_cases ho : o = .rejected
  · subst ho; rw [c33_rejected_no_effect env s account p s' hs]; exact List.prefix_refl _
  · obtain ⟨shape, _, hv, rfl, _⟩ := submit_applied env s account p o s' hs ho
    have h2 := (registers_other env p.body.receivers (p.body.senders.foldl (spend env) s)).1
    have : (applyKey env s (keyOf p (participants shape account).1 (participants shape account).2)).2.nullifiers
        = (p.body.senders.foldl (spend env) s).nullifiers := by
      unfold applyKey keyOf
      simp only
      split
      · exact h2
      · exact h2
    simp only
    rw [this]; exact spends_prefix env _ s

theorem push_prefix (env : Env T) (account : Nat) (ps : List (Post T)) (s : State T) :
    s.nullifiers <+: (push env s account ps).2.nullifiers := by
  induction ps generalizing s with
  | nil => exact List.prefix_refl _
  | cons p ps ih =>
    have h := submit_prefix env s account p
    simp only [push]
    rcases hs : submit env s account p with ⟨o, s'⟩
    rw [hs] at h
    cases o with
    | accepted => exact h.trans (ih s')
    | rejected => exact h
    | panicked => exact h

theorem step_prefix (env : Env T) (s : State T) (log : List (ReceiverPost T)) (h : Coins env s log) (o : Op T) :
    (∀ i, s.shards i <+: (step env s o).shards i) ∧ s.nullifiers <+: (step env s o).nullifiers := by
  constructor
  · intro i
    have h' := step_coins env s log o h
    rw [h.shards, h'.shards, inShard, inShard, List.filter_append, List.map_append]
    exact List.prefix_append _ _
  · cases o with
    | push a ps => exact push_prefix env a ps s
    | setBalance a id v =>
      simp only [step]
      cases hb : setBalance s a id v with
      | none => exact List.prefix_refl _
      | some s' =>
        simp only [Option.getD_some, (setBalance_same s s' a id v hb).1]; exact List.prefix_refl _

theorem evRun_synced (env : Env T) (es : List (Event T)) :
    ∀ (s : State T) (r : Reader T) (log : List (ReceiverPost T)), Coins env s log → Synced env s r →
      ∃ log', Coins env (evRun env s r es).1 log' ∧ Synced env (evRun env s r es).1 (evRun env s r es).2 := by
  induction es with
  | nil => intro s r log h hr; exact ⟨log, h, hr⟩
  | cons e es ih =>
    intro s r log h hr
    cases e with
    | op o =>
      obtain ⟨p1, p2⟩ := step_prefix env s log h o
      exact ih _ _ _ (step_coins env s log o h) (synced_mono env s _ r hr p1 p2)
    | pull => exact ih _ _ _ h (pull_synced env s log h r hr).1

theorem evRun_append (env : Env T) (es es' : List (Event T)) (s : State T) (r : Reader T) :
    evRun env s r (es ++ es') = evRun env (evRun env s r es).1 (evRun env s r es).2 es' := by
  induction es generalizing s r with
  | nil => rfl
  | cons e es ih => cases e <;> simp only [List.cons_append, evRun, ih]

/-- C37: however pushes and pulls interleave, what a reader has received is, per shard, a prefix of what the
shard lists, and a prefix of the recorded nullifiers: nothing twice, nothing skipped, in order. -/
theorem c37_prefix (env : Env T) (es : List (Event T)) :
    let x := evRun env State.new Reader.new es
    (∀ i, (x.2.coins.filter fun c => decide (env.treeIndex (env.crypto.item c.1) = i)) <+: x.1.shards i) ∧
    x.2.nullifiers <+: x.1.nullifiers := by
  obtain ⟨_, _, h⟩ := evRun_synced env es State.new Reader.new [] (new_coins env)
    ⟨fun _ => rfl, fun _ => rfl, rfl, rfl⟩
  refine ⟨fun i => ?_, ?_⟩
  · have := h.coins i
    unfold ix at this
    rw [this]; exact List.take_prefix _ _
  · rw [h.nuls]; exact List.take_prefix _ _

/-- C37: after a pull the reader has everything: each shard and the nullifiers completely. -/
theorem c37_complete (env : Env T) (es : List (Event T)) :
    let x := evRun env State.new Reader.new (es ++ [.pull])
    (∀ i, (x.2.coins.filter fun c => decide (env.treeIndex (env.crypto.item c.1) = i)) = x.1.shards i) ∧
    x.2.nullifiers = x.1.nullifiers := by
  obtain ⟨log, hc, h⟩ := evRun_synced env es State.new Reader.new [] (new_coins env)
    ⟨fun _ => rfl, fun _ => rfl, rfl, rfl⟩
  have := pull_synced env _ log hc _ h
  simp only [evRun_append, evRun]
  exact ⟨this.2.1, this.2.2⟩

/-- C37: no coin is received twice. -/
theorem c37_nodup (env : Env T) (es : List (Event T)) :
    ((evRun env State.new Reader.new es).2.coins.map Prod.fst).Nodup := by
  obtain ⟨log, hc, h⟩ := evRun_synced env es State.new Reader.new [] (new_coins env)
    ⟨fun _ => rfl, fun _ => rfl, rfl, rfl⟩
  generalize evRun env State.new Reader.new es = x at *
  -- count per coin: a coin lies in one shard only, and shards have no duplicates
  have hsh : ∀ i, ((x.1.shards i).map Prod.fst).Nodup := by
    intro i
    rw [hc.shards, List.map_map]
    have : (inShard env log i).map (Prod.fst ∘ fun r => (r.utxo, r.note)) =
        (inShard env log i).map ReceiverPost.utxo := List.map_congr_left fun _ _ => rfl
    rw [this]
    exact List.Nodup.sublist (List.Sublist.map _ List.filter_sublist) hc.nodup
  have hfl : ∀ i, ((x.2.coins.filter fun c => decide (ix env c.1 = i)).map Prod.fst).Nodup := by
    intro i
    rw [h.coins i]
    exact List.Nodup.sublist (List.Sublist.map _ (List.take_sublist _ _)) (hsh i)
  have : ∀ l : List (Utxo T × FullNote T),
      (∀ i, ((l.filter fun c => decide (ix env c.1 = i)).map Prod.fst).Nodup) → (l.map Prod.fst).Nodup := by
    intro l
    induction l with
    | nil => intro _; simp
    | cons c cs ih =>
      intro hl
      simp only [List.map_cons, List.nodup_cons]
      constructor
      · intro hm
        obtain ⟨c', hc', he⟩ := List.mem_map.1 hm
        have h1 := hl (ix env c.1)
        rw [List.filter_cons_of_pos (by simp)] at h1
        simp only [List.map_cons, List.nodup_cons] at h1
        exact h1.1 (List.mem_map.2 ⟨c', List.mem_filter.2 ⟨hc', by simp [he]⟩, he⟩)
      · apply ih
        intro i
        have h1 := hl i
        by_cases hi : ix env c.1 = i
        · rw [List.filter_cons_of_pos (by simpa using hi)] at h1
          simp only [List.map_cons, List.nodup_cons] at h1
          exact h1.2
        · rw [List.filter_cons_of_neg (by simpa using hi)] at h1
          exact h1
  exact this _ hfl

/-- C37 fails for the initial read: shard `i` is read from its entry number `i` on instead of from its start;
so a coin of shard 3 is not returned although it is the first of its shard. -/
theorem c37_initial_read_violated :
    let s := (run (tEnv false eContains) State.new [.setBalance 1 8 100, .push 1 [pMint 3 10]]).1
    s.utxos = [(tReceiver 3 10).utxo] ∧ initialRead s = [] := by
  refine ⟨by decide +kernel, by decide +kernel⟩

/-- C37: what the initial read returns in general: of shard `i` everything after the first `i` entries. -/
theorem c37_initial_read_exact (env : Env T) (s : State T) (log : List (ReceiverPost T)) (h : Coins env s log)
    (i : Ix) :
    (initialRead s).filter (fun u => decide (ix env u = i)) = ((s.shards i).drop i.val).map Prod.fst := by
  have h1 := filter_flatMap_shards env (fun i => (s.shards i).drop i.val)
    (fun j x hx => shards_ix env s log h j x (List.mem_of_mem_drop hx)) i
  have h2 : initialRead s = ((List.finRange 256).flatMap fun i => (s.shards i).drop i.val).map Prod.fst := by
    simp only [initialRead, List.map_flatMap]
  rw [h2, List.filter_map]
  exact congrArg _ h1

example : (evRun (tEnv false eContains) State.new Reader.new
    [.op (.setBalance 1 8 100), .op (.push 1 [pMint 3 10]), .pull, .op (.push 1 [pMint 4 1, pMint 3 12]),
     .pull, .pull]).2.coins.map (fun c => c.1.cm) = [[3, 8, 10, 9], [3, 8, 12, 9], [4, 8, 1, 9]] := by
  decide +kernel

end Verif.Ledger
