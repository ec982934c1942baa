import Verif.Ledger.Props
import Verif.Transfer.Protocol

/-!
# Binding of notes to posts: C70

The proof binds the incoming note of a coin only (`manta-accounting/src/transfer/utxo/protocol.rs:1744-1753`),
the authorization signature binds the whole body, and posts without senders carry no signature
(`manta-accounting/src/transfer/mod.rs:1767-1788`). The wallet opens only the address partition and the light
note (`protocol.rs:1403-1435`).
-/

namespace Verif.Ledger

open Verif.Transfer

variable {T : Ty}

/-- The post with the notes of its coins rewritten. -/
def renote (g : FullNote T → FullNote T) (p : Post T) : Post T :=
  {p with body := {p.body with receivers := p.body.receivers.map fun r => {r with note := g r.note}}}

theorem renote_input (e : InputEnc T) (g : FullNote T → FullNote T) (hg : ∀ n, (g n).inote = n.inote)
    (p : Post T) : (renote g p).input e = p.input e := by
  simp only [Post.input, Body.input, renote, List.flatMap_map, inReceiver, hg]

theorem renote_valid (env : Env T) (s : State T) (g : FullNote T → FullNote T)
    (hg : ∀ n, (g n).inote = n.inote) (p : Post T) (sa ka : List Nat)
    (hsig : (renote g p).checkSig env.crypto = .ok ()) (h : Valid env s p sa ka) :
    Valid env s (renote g p) sa ka := by
  refine ⟨hsig, h.sourceLen, h.sinkLen, ?_, h.funded, h.sinks, h.roots, h.unspent, h.distinctNul, ?_, ?_⟩
  · obtain ⟨shape, h1, h2⟩ := h.shape
    refine ⟨shape, ?_, ?_⟩
    · have : (renote g p).body.receivers.length = p.body.receivers.length := by simp [renote]
      rw [this]; exact h1
    · rw [renote_input env.enc g hg]; exact h2
  · intro q hq
    obtain ⟨r, hr, rfl⟩ := List.mem_map.1 hq
    exact h.fresh r hr
  · exact List.pairwise_map.2 h.distinctUtxo

theorem renote_fromPost (g : FullNote T → FullNote T) (p : Post T) :
    Shape.fromPost (renote g p) = Shape.fromPost p := by
  simp [Shape.fromPost, renote]

/-- Rewriting everything but the incoming notes never changes the fate of a post whose signature check still
passes. -/
theorem renote_outcome (env : Env T) (s : State T) (account : Nat) (g : FullNote T → FullNote T)
    (hg : ∀ n, (g n).inote = n.inote) (p : Post T) (hsig : (renote g p).checkSig env.crypto = .ok ())
    (h : (submit env s account p).1 = .accepted) :
    (submit env s account (renote g p)).1 = .accepted ∧
    ∀ log, Coins env s log →
      Coins env (submit env s account (renote g p)).2
        (log ++ p.body.receivers.map fun r => {r with note := g r.note}) := by
  rcases hs : submit env s account p with ⟨o, s'⟩
  rw [hs] at h
  cases h
  obtain ⟨shape, h1, h2, h3, h4⟩ := submit_applied env s account p _ s' hs (by simp)
  have hv := renote_valid env s g hg p _ _ hsig h2
  have hk := h4.1 rfl
  rw [(applyKey_accounts env s p _ _).1] at hk
  have hk' : (applyKey env s (keyOf (renote g p) (participants shape account).1
      (participants shape account).2)).1 = .ok := by
    rw [(applyKey_accounts env s (renote g p) _ _).1]; exact hk
  rcases hs' : submit env s account (renote g p) with ⟨o', s''⟩
  have hne : o' ≠ .rejected := by
    have := (c35_applied_iff env s account (renote g p)).2 ⟨shape, by rw [renote_fromPost, h1], hv⟩
    rw [hs'] at this; exact this
  obtain ⟨shape', g1, g2, g3, g4⟩ := submit_applied env s account (renote g p) o' s'' hs' hne
  rw [renote_fromPost, h1] at g1
  cases g1
  refine ⟨g4.2 hk', fun log hl => ?_⟩
  rw [g3]
  exact applyKey_coins env s log (renote g p) _ _ hl hv

/-- C70 fails for posts without senders: anyone who sees such a post before it is accepted can replace light
notes and address partitions as they like, and the ledger accepts the changed post and stores the changed
notes. -/
theorem c70_mint_notes_violated (env : Env T) (s : State T) (account : Nat) (g : FullNote T → FullNote T)
    (hg : ∀ n, (g n).inote = n.inote) (p : Post T) (hp : p.body.senders = [])
    (h : (submit env s account p).1 = .accepted) :
    (submit env s account (renote g p)).1 = .accepted ∧
    ∀ log, Coins env s log →
      Coins env (submit env s account (renote g p)).2
        (log ++ p.body.receivers.map fun r => {r with note := g r.note}) := by
  refine renote_outcome env s account g hg p ?_ h
  rcases hs : submit env s account p with ⟨o, s'⟩
  rw [hs] at h
  cases h
  obtain ⟨shape, _, h2, _⟩ := submit_applied env s account p _ s' hs (by simp)
  have := h2.signature
  rw [c30_ok_iff] at this ⊢
  rcases this with ⟨h, _⟩ | ⟨h, h'⟩
  · exact absurd hp h
  · exact .inr ⟨h, h'⟩

/-- C70 (part): a post with senders is accepted with changed notes only if its signature verifies for the
changed body under the same key. -/
theorem c70_signed_partial (env : Env T) (s : State T) (account : Nat) (g : FullNote T → FullNote T)
    (p : Post T) (hp : p.body.senders ≠ []) (h : (submit env s account (renote g p)).1 ≠ .rejected) :
    ∃ sig, p.sig = some sig ∧
      env.crypto.verifySig sig.key (renote g p).body p.sinkAccounts sig.sig = true := by
  obtain ⟨shape, _, h2⟩ := (c35_applied_iff env s account (renote g p)).1 h
  have := h2.signature
  rw [c30_ok_iff] at this
  rcases this with ⟨_, sig, h3, h4⟩ | ⟨h3, _⟩
  · exact ⟨sig, h3, h4⟩
  · exact absurd h3 hp

/-- C70 (part): changing an incoming note changes the public input the proof is checked against, whenever the
encoding of notes into public inputs is injective on equally long lists. -/
theorem c70_incoming_bound_partial (e : InputEnc T) (g : FullNote T → FullNote T) (p : Post T)
    (r : ReceiverPost T) (hr : p.body.receivers = [r])
    (hinj : ∀ n n' : T.INote, e.inote n = e.inote n' → n = n')
    (h : (renote g p).input e = p.input e) : (g r.note).inote = r.note.inote := by
  simp only [Post.input, Body.input, renote, hr, List.map_cons, List.map_nil, List.flatMap_cons,
    List.flatMap_nil, inReceiver, List.append_nil] at h
  simp only [← List.append_assoc] at h
  have h := List.append_cancel_right h
  simp only [List.append_assoc] at h
  repeat replace h := List.append_cancel_left h
  exact hinj _ _ h

/-- C70 fails for the recipient: the coin of an unsigned post, honest in every other respect, is registered
with a note its owner does not open, for every address partition other than the owner's. -/
theorem c70_coin_hidden_violated {P : Prim} (K : Kit P) (dk : P.Scal) (env : Env P.ty) (s : State P.ty)
    (account : Nat) (p : Post P.ty) (hp : p.body.senders = []) (u : Utxo P.ty) (nt : FullNote P.ty)
    (hr : p.body.receivers = [⟨u, nt⟩]) (q : P.Part) (hq : K.partition (P.smul P.gen dk) ≠ q)
    (h : (submit env s account p).1 = .accepted) (log : List (ReceiverPost P.ty)) (hl : Coins env s log) :
    let p' := renote (fun nt => {nt with part := q}) p
    (submit env s account p').1 = .accepted ∧
    (u, {nt with part := q}) ∈ (submit env s account p').2.shards (ix env u) ∧
    noteOpen K dk u {nt with part := q} = none := by
  obtain ⟨h1, h2⟩ := c70_mint_notes_violated env s account (fun nt => {nt with part := q}) (fun _ => rfl) p hp h
  refine ⟨h1, ?_, if_neg hq⟩
  rw [(h2 log hl).shards, hr]
  refine List.mem_map.2 ⟨⟨u, {nt with part := q}⟩, ?_, rfl⟩
  simp [inShard]

example : (submit (tEnv false eContains) (step (tEnv false eContains) State.new (.setBalance 1 8 100)) 1
      (pMint 3 10)).1 = .accepted ∧ (pMint 3 10).body.senders = [] ∧
    Coins (tEnv false eContains) (step (tEnv false eContains) State.new (.setBalance 1 8 100)) [] := by
  refine ⟨by decide +kernel, by decide +kernel, ?_⟩
  exact run_coins (tEnv false eContains) [.setBalance 1 8 100] State.new [] (new_coins _)

end Verif.Ledger
