import Verif.Ledger.Props

/-!
# C86: accepted spends refer to coins of the ledger and are authorized
-/

namespace Verif.Ledger

open Verif.Asset (Asset mget merase KeysNodup)
open Verif.Transfer

variable {T : Ty}

/-- Root of the coins that a history put into shard `i`, computed from the posts alone. -/
def rootOf (env : Env T) (log : List (Post T)) (i : Ix) : T.Root :=
  env.root ((((log.flatMap fun p => p.body.receivers).filter fun r =>
    decide (env.treeIndex (env.crypto.item r.utxo) = i)).map fun r => env.crypto.item r.utxo).take env.capacity)

theorem matching_iff (env : Env T) (s : State T) (r : T.Root) :
    matching env s r = true ↔ r = env.defaultRoot ∨ ∃ i, r = env.root (s.forest i) := by
  unfold matching
  rw [Bool.or_eq_true, decide_eq_true_eq, List.any_eq_true]
  refine or_congr Iff.rfl ⟨?_, ?_⟩
  · rintro ⟨i, _, h⟩; exact ⟨i, (of_decide_eq_true h).symm⟩
  · rintro ⟨i, h⟩; exact ⟨i, List.mem_finRange i, decide_eq_true h.symm⟩

/-- C86: after any history, a post that takes effect spends only against the empty root or the root of the
coins that the posts so far put into one of the shards. -/
theorem c86_known_root (env : Env T) (os : List (Op T)) (account : Nat) (p : Post T)
    (h : (submit env (run env State.new os).1 account p).1 ≠ .rejected) (q : SenderPost T)
    (hq : q ∈ p.body.senders) :
    q.root = env.defaultRoot ∨ ∃ i, q.root = rootOf env (run env State.new os).2 i := by
  have hc := run_coins env os State.new [] (new_coins env)
  rw [List.nil_append] at hc
  rcases hs : submit env (run env State.new os).1 account p with ⟨o, s'⟩
  rw [hs] at h
  obtain ⟨shape, _, hv, _⟩ := submit_applied env _ account p o s' hs h
  rcases (matching_iff ..).1 (hv.roots q hq) with h | ⟨i, hi⟩
  · exact .inl h
  · refine .inr ⟨i, ?_⟩
    rw [hi, hc.forest]
    rfl

/-- C86: a post against any other root is rejected and changes nothing. -/
theorem c86_unknown_root (env : Env T) (os : List (Op T)) (account : Nat) (p : Post T) (q : SenderPost T)
    (hq : q ∈ p.body.senders) (h0 : q.root ≠ env.defaultRoot)
    (hi : ∀ i, q.root ≠ rootOf env (run env State.new os).2 i) :
    submit env (run env State.new os).1 account p = (.rejected, (run env State.new os).1) := by
  by_cases h : (submit env (run env State.new os).1 account p).1 = .rejected
  · rcases hs : submit env (run env State.new os).1 account p with ⟨o, s'⟩
    rw [hs] at h
    simp only at h; subst h
    rw [c33_rejected_no_effect _ _ _ _ _ hs]
  · rcases c86_known_root env os account p h q hq with h | ⟨i, h⟩
    · exact absurd h h0
    · exact absurd h (hi i)

/-- C86: a post that takes effect either spends nothing and is unsigned, or carries a signature that verifies
for its key over exactly its body and sink accounts. -/
theorem c86_signed (env : Env T) (s : State T) (account : Nat) (p : Post T)
    (h : (submit env s account p).1 ≠ .rejected) :
    (p.body.senders = [] ∧ p.sig = none) ∨
    (p.body.senders ≠ [] ∧ ∃ σ, p.sig = some σ ∧
      env.crypto.verifySig σ.key p.body p.sinkAccounts σ.sig = true) := by
  rcases hs : submit env s account p with ⟨o, s'⟩
  rw [hs] at h
  obtain ⟨shape, _, hv, _⟩ := submit_applied env _ account p o s' hs h
  have := hv.signature
  unfold Post.checkSig requiresAuthorization at this
  rcases hl : p.body.senders with _ | ⟨x, xs⟩ <;> rcases hp : p.sig with _ | σ <;>
    simp [hl, hp] at this ⊢
  exact this

/-- C86: whatever else is wrong with a post, an authorization fault is what `validate` reports, with its kind. -/
theorem c86_signature_error (env : Env T) (s : State T) (p : Post T) (sa ka : List Nat) (e : SigError) :
    validate env s p sa ka = .error (.signature e) ↔ p.checkSig env.crypto = .error e := by
  unfold validate
  cases hc : p.checkSig env.crypto with
  | error e' => simp
  | ok u =>
    simp only [reduceCtorEq, iff_false]
    intro h
    repeat' split at h
    all_goals first | cases h | skip
    · rename_i hcp
      unfold checkPublic at hcp; simp only at hcp
      repeat' split at hcp
      all_goals cases hcp
    · rename_i hcp
      have : ∀ l, checkSenders env s l ≠ .error (.signature e) := by
        intro l
        induction l with
        | nil => simp [checkSenders]
        | cons x xs ih =>
                         unfold checkSenders
                         split
                         · simp
                         · split
                           · simp
                           · exact ih
      exact this _ hcp
    · rename_i hcp
      unfold checkReceivers at hcp
      split at hcp <;> cases hcp
    · rename_i hcp
      unfold isValid at hcp
      repeat' split at hcp
      all_goals cases hcp

/-- A reclaim against the root of shard 3 after one mint, and one against the root of another set of coins. -/
def pReclaimAt (root : Nat) : Post TT :=
  let body : Body TT := ⟨some 8, [], [⟨(root : Nat), ⟨[40, 1], 0⟩⟩, ⟨(0 : Nat), ⟨[40, 2], 0⟩⟩],
    [(tReceiver 50 1).intoPost], [7], (7 : Nat)⟩
  ⟨some ⟨(4 : Nat), tcrypto.sign (4 : Nat) body [1]⟩, body, [1]⟩

def histMint : List (Op TT) := [.setBalance 1 8 100, .push 1 [pMint 3 10]]

example :
    let env := tEnv false eContains
    let r := run env State.new histMint
    rootOf env r.2 3 = (130 : Nat) ∧
    (submit env r.1 1 (pReclaimAt 130)).1 = .accepted ∧ (submit env r.1 1 (pReclaimAt 131)).1 = .rejected ∧
    (submit env r.1 1 {pReclaimAt 130 with sinkAccounts := [2]}).1 = .rejected := by
  refine ⟨by decide +kernel, by decide +kernel, by decide +kernel, by decide +kernel⟩

end Verif.Ledger
