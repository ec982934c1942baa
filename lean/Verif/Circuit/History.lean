import Verif.Circuit.Props
import Verif.Merkle.Bind
import Verif.Ledger.Roots

/-!
# C127: no value is created, from compiled constraint systems to whole histories

Puts together the compiled circuits (C120, C123), the Merkle trees of the ledger (C01, C05) and the ledger (C33 to C36, C65), with
the hashes that the circuit uses. What is left are soundness of the proof system for the compiled circuits, and hashes that the
history itself does not break.
-/

namespace Verif.Circuit

open Verif.Gadget
open Verif.Asset (Asset)
open Verif.Transfer (Ty Transfer Post Sender)

variable {p r : Nat} [Fact p.Prime] {C : Curve p r} {R : Rest}

/-! ## Specification -/

/-- What happens to a ledger (`Ledger::push` and `set_public_balance`, manta-pay/src/simulation/ledger/mod.rs:195-246) from the
start: deposits from outside and posts by anybody, accepted or rejected. Recorded are the accounts used, the deposits (asset id,
old and new balance), and the accepted posts with the ledger that they met. A submission during which an addition to a balance panics
ends the history. -/
inductive Raw (env : Ledger.Env (ty C R)) :
    List Nat → List (Nat × Nat × Nat) → List (Ledger.State (ty C R) × Post (ty C R)) → Ledger.State (ty C R) → Prop where
  | start : Raw env [] [] [] Ledger.State.new
  | deposit {us ext log s s'} (a id v : Nat) : Raw env us ext log s → Ledger.setBalance s a id v = some s' →
      Raw env (a :: us) (ext ++ [(id, Ledger.balance s.accounts a id, v)]) log s'
  | rejected {us ext log s s'} (account : Nat) (q : Post (ty C R)) : Raw env us ext log s →
      Ledger.submit env s account q = (.rejected, s') → Raw env us ext log s'
  | accepted {us ext log s s'} (account : Nat) (q : Post (ty C R)) : Raw env us ext log s →
      Ledger.submit env s account q = (.accepted, s') →
      (env.wraps = true → ∀ a id, q.body.assetId = some id →
        Ledger.balance s.accounts a id + q.body.sinks.sum < 2 ^ 128) →
      Raw env (account :: us) ext (log ++ [(s, q)]) s'

/-- Transfers behind the accepted posts: what an extractor of the proof system returns. -/
inductive Witnesses (P : Params C) (env : Ledger.Env (ty C R)) :
    List (Ledger.State (ty C R) × Post (ty C R)) → List (Transfer (ty C R)) → Prop where
  | nil : Witnesses P env [] []
  | snoc {log ts} (s : Ledger.State (ty C R)) (q : Post (ty C R)) (t : Transfer (ty C R)) : Witnesses P env log ts →
      Ledger.Backed env p q t → Fits P t → Witnesses P env (log ++ [(s, q)]) (ts ++ [t])

/-- The hashes are not broken by anything that was hashed in the history: no two commitments, receiving keys or items made by
the transfers collide, and no verified path of a spend collides with the tree that has its root or hashes to the default
digest. -/
structure Unbroken (P : Params C) (env : Ledger.Env (ty C R))
    (log : List (Ledger.State (ty C R) × Post (ty C R))) (ts : List (Transfer (ty C R))) : Prop where
  commitments : Ledger.NoCollisions env.crypto ts
  paths : ∀ t ∈ ts, ∀ x ∈ t.senders, env.crypto.member (env.crypto.item x.utxo) x.wit x.root = true →
    Merkle.PathSound P.tree x.wit (env.crypto.item x.utxo)
  trees : ∀ (n : Nat) e t, log[n]? = some e → ts[n]? = some t → ∀ x ∈ t.senders,
    env.crypto.member (env.crypto.item x.utxo) x.wit x.root = true →
    ∀ i, Merkle.specRoot P.tree P.h (e.1.forest i) = x.root →
      Merkle.TreeSound P.tree P.h (e.1.forest i) x.wit (env.crypto.item x.utxo)

/-- The configuration of manta-pay: functions, public inputs and trees are those of the circuit
(manta-pay/src/config/utxo.rs:1188-1337). -/
structure Configured (P : Params C) (env : Ledger.Env (ty C R)) : Prop where
  crypto : ∃ sign verifySig prove, env.crypto = crypto P R sign verifySig prove
  enc : env.enc = enc C R
  root : env.root = Merkle.specRoot P.tree P.h
  defaultRoot : env.defaultRoot = 0
  exact : Ledger.Exact env.contains

/-! ## Proofs -/

variable {P : Params C} {env : Ledger.Env (ty C R)}

omit [Fact p.Prime] in
theorem Witnesses.length {log ts} (h : Witnesses P env log ts) : ts.length = log.length := by
  induction h with
  | nil => rfl
  | snoc s q t _ _ _ ih => simp [ih]

omit [Fact p.Prime] in
theorem Witnesses.last {log : List (Ledger.State (ty C R) × Post (ty C R))} {e ts} (h : Witnesses P env (log ++ [e]) ts) :
    ∃ ts' t, ts = ts' ++ [t] ∧ Witnesses P env log ts' ∧ Ledger.Backed env p e.2 t ∧ Fits P t := by
  generalize hL : log ++ [e] = L at h
  cases h with
  | nil => simp at hL
  | snoc s q t h1 h2 h3 =>
    obtain ⟨a, b⟩ := List.append_inj' hL rfl
    simp only [List.cons.injEq, and_true] at b
    subst a b
    exact ⟨_, t, rfl, h1, h2, h3⟩

omit [Fact p.Prime] in
theorem witnesses_openings_mono {c : Transfer.Crypto (ty C R)} {ts : List (Transfer (ty C R))} {t : Transfer (ty C R)}
    (h : Ledger.NoCollisions c (ts ++ [t])) : Ledger.NoCollisions c ts where
  commit x hx y hy := by
    refine h.commit x ?_ y ?_
    all_goals
      unfold Ledger.openings at *
      simp only [List.flatMap_append, List.mem_append] at *
      tauto
  key a ha b hb := h.key a (by simp only [List.flatMap_append, List.mem_append]; exact .inl ha) b
    (by simp only [List.flatMap_append, List.mem_append]; exact .inl hb)
  item a ha b hb := h.item a (by unfold Ledger.created at *; simp only [List.flatMap_append, List.mem_append]; exact .inl ha) b
    (by unfold Ledger.spends at *; simp only [List.flatMap_append, List.mem_append]; exact .inl hb)

theorem Unbroken.init {log : List (Ledger.State (ty C R) × Post (ty C R))} {e ts t} (hl : ts.length = log.length)
    (h : Unbroken P env (log ++ [e]) (ts ++ [t])) : Unbroken P env log ts where
  commitments := witnesses_openings_mono h.commitments
  paths u hu := h.paths u (by simp [hu])
  trees n e u he hu := by
    have h1 := (List.getElem?_eq_some_iff.1 he).1
    refine h.trees n e u ?_ ?_
    · rw [List.getElem?_append_left h1]; exact he
    · rw [List.getElem?_append_left (by omega)]; exact hu

/-- The membership that the circuit verified is membership in the ledger. -/
theorem truthful (hc : Configured P env) {s : Ledger.State (ty C R)} {t : Transfer (ty C R)} (hf : Fits P t)
    (hp : ∀ x ∈ t.senders, env.crypto.member (env.crypto.item x.utxo) x.wit x.root = true →
      Merkle.PathSound P.tree x.wit (env.crypto.item x.utxo))
    (ht : ∀ x ∈ t.senders, env.crypto.member (env.crypto.item x.utxo) x.wit x.root = true →
      ∀ i, Merkle.specRoot P.tree P.h (s.forest i) = x.root →
        Merkle.TreeSound P.tree P.h (s.forest i) x.wit (env.crypto.item x.utxo)) : Ledger.Truthful env s t := by
  intro x hx hm hv
  have h1 := hp x hx hv
  have h2 := ht x hx hv
  have hv' : Merkle.Path.verify P.tree x.wit x.root (env.crypto.item x.utxo) = true := by
    obtain ⟨_, _, _, e⟩ := hc.crypto
    rw [e] at hv ⊢
    exact hv
  rcases (Ledger.matching_iff env s x.root).1 hm with h | ⟨i, hi⟩
  · rw [hc.defaultRoot] at h
    have := of_decide_eq_true hv'
    rw [h] at this
    exact absurd this.symm (Merkle.root_ne P.tree _ _ h1)
  · rw [hc.root] at hi
    refine ⟨i, Merkle.mem_of_verify P.tree P.h _ _ _ (hf.senders x hx).2.2 ?_ h1 (h2 i hi.symm)⟩
    rw [← hi]
    exact hv'

theorem hist_of_raw (hc : Configured P env) {us ext log s} (h : Raw env us ext log s) : ∀ ts, Witnesses P env log ts →
    Unbroken P env log ts → Ledger.Hist env p us ext ts s := by
  induction h with
  | start =>
    intro ts hw _
    have := hw.length
    cases ts with
    | nil => exact .start
    | cons _ _ => simp at this
  | deposit a id v _ hs ih => intro ts hw hu; exact .deposit a id v (ih ts hw hu) hs
  | rejected account q _ hs ih =>
    intro ts hw hu
    rw [← Ledger.c33_rejected_no_effect _ _ _ _ _ hs] at *
    exact ih ts hw hu
  | @accepted us ext log s s' account q _ hs hwr ih =>
    intro ts hw hu
    obtain ⟨ts', t, rfl, hw', hb, hf⟩ := hw.last
    have hl := hw'.length
    refine .post account q t (ih ts' hw' (hu.init hl)) hs hb (truthful hc hf ?_ ?_) hwr
    · exact hu.paths t (by simp)
    · refine fun x hx hm i hi => hu.trees log.length (s, q) t ?_ ?_ x hx hm i hi
      · simp
      · rw [← hl]; simp

/-! ## Theorems -/

/-- **C127, conservation.** Whatever is posted to the ledger: for every choice of transfers behind the accepted proofs that does
not break the hashes, and every asset, the public balances and the unspent coins together are worth what was deposited from
outside, less what deposits overwrote. -/
theorem c127_conserved_partial (hp : 2 ^ 129 ≤ p) (hc : Configured P env) {us ext log s} (h : Raw env us ext log s)
    (ts : List (Transfer (ty C R))) (hw : Witnesses P env log ts) (hu : Unbroken P env log ts)
    (U : List Nat) (hU : U.Nodup) (hin : ∀ a ∈ us, a ∈ U) (id : Nat) :
    Ledger.publicSupply s U id + Ledger.unspentSupply ts id + Ledger.overwritten ext id = Ledger.putIn ext id :=
  Ledger.c65_no_inflation_partial env hc.exact p hp (hist_of_raw hc h ts hw hu) hu.commitments U hU hin id

/-- **C127, witnesses.** If the verifier fails on everything that does not satisfy the compiled circuit of the shape, there are
transfers behind all accepted posts. -/
theorem c127_witnesses_partial (hP : P.Ok) (hc : Configured P env)
    (hv : ∀ shape x proof, env.verifyProof shape x proof ≠ none → Accepts P (dims shape) x)
    {us ext log s} (h : Raw env us ext log s) (ht : ∀ e ∈ log, PostTyped P e.2) : ∃ ts, Witnesses P env log ts := by
  induction h with
  | start => exact ⟨[], .nil⟩
  | deposit _ _ _ _ _ ih => exact ih ht
  | rejected _ _ _ _ ih => exact ih ht
  | @accepted us ext log s s' account q _ hs _ ih =>
    obtain ⟨ts, hw⟩ := ih fun e he => ht e (by simp [he])
    obtain ⟨sign, verifySig, prove, e⟩ := hc.crypto
    obtain ⟨t, h1, h2, _⟩ := c123_ledger hP env sign verifySig prove e hc.enc hv s s' account q (ht (s, q) (by simp)) hs
    exact ⟨ts ++ [t], .snoc s q t hw h1 h2⟩

/-- **C127, inflation breaks a hash.** If the accounts of the ledger ever hold more of an asset than was deposited, then every
extraction of transfers from the accepted proofs, of which there is one, exhibits collisions or preimages of the default digest
among the values hashed in the history. -/
theorem c127_inflation_partial (hP : P.Ok) (hp : 2 ^ 129 ≤ p) (hc : Configured P env)
    (hv : ∀ shape x proof, env.verifyProof shape x proof ≠ none → Accepts P (dims shape) x)
    {us ext log s} (h : Raw env us ext log s) (ht : ∀ e ∈ log, PostTyped P e.2)
    (U : List Nat) (hU : U.Nodup) (hin : ∀ a ∈ us, a ∈ U) (id : Nat)
    (hmore : Ledger.putIn ext id < Ledger.publicSupply s U id) :
    (∃ ts, Witnesses P env log ts) ∧ ∀ ts, Witnesses P env log ts → ¬ Unbroken P env log ts := by
  refine ⟨c127_witnesses_partial hP hc hv h ht, fun ts hw hu => ?_⟩
  have := c127_conserved_partial hp hc h ts hw hu U hU hin id
  omega

end Verif.Circuit
