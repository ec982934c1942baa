import Verif.Ledger.Roots

/-!
# C149: ledgers filled with sampled transactions

Models `safe_fill_ledger` and `unsafe_fill_ledger` (`manta-pay/src/simulation/ledger/mod.rs:768-920`), which the
program `manta-pay/src/bin/precompute_ledger.rs` runs to write a ledger with many coins into a file.

The transactions themselves come from `prove_full` and `unsafe_no_prove_full` (`manta-pay/src/test/payment.rs`)
and are arbitrary posts here; so are all values of the random generator.  The lock around the ledger has only one
user and is left out.
-/

namespace Verif.Ledger

open Verif.Asset (Asset mget merase KeysNodup)
open Verif.Transfer

variable {T : Ty}

/-- What one round of the loop draws: `mint` is the case `0` of the `match` (mod.rs:783, 869), where the account that
submits is drawn apart from the one that is funded, `pair` the two other cases. -/
inductive Sample (T : Ty) where
  | mint (account submitter value : Nat) (p : Post T)
  | pair (account v0 v1 : Nat) (p q last : Post T)

/-- The transactions of a round in the order in which they are pushed. -/
def Sample.posts : Sample T → List (Post T)
  | .mint _ _ _ p => [p]
  | .pair _ _ _ p q last => [p, q, last]

/-- One round of `safe_fill_ledger`, mod.rs:782-842, with the answers of `push`, which the code drops; `none` is a
panic. -/
def safeStep (env : Env T) (id : Nat) (s : State T) : Sample T → Option (List Outcome × State T)
  | .mint account submitter value p =>
    (setBalance s account id value).bind fun s1 =>
      match push env s1 submitter [p] with
      | (.panicked, _) => none
      | (o, s2) => some ([o], s2)
  | .pair account v0 v1 p q last =>
    (setBalance s account id (v0 + v1)).bind fun s1 =>
      match push env s1 account [p, q] with
      | (.panicked, _) => none
      | (o, s2) =>
        match push env s2 account [last] with
        | (.panicked, _) => none
        | (o', s3) => some ([o, o'], s3)

/-- `safe_fill_ledger`, mod.rs:768-844: the answers per round and the ledger. -/
def safeFill (env : Env T) (id : Nat) : State T → List (Sample T) → Option (List (List Outcome) × State T)
  | s, [] => some ([], s)
  | s, x :: xs =>
    (safeStep env id s x).bind fun r => (safeFill env id r.2 xs).map fun t => (r.1 :: t.1, t.2)

/-- One round of the loop of `unsafe_push`, mod.rs:249-263, with `dont_validate`
(`manta-accounting/src/transfer/test/unverified_transfers.rs:531-571`): the result of `post` is dropped. -/
def unsafeSubmit (env : Env T) (s : State T) (account : Nat) (p : Post T) : Outcome × State T :=
  match Shape.fromPost p with
  | none => (.rejected, s)
  | some shape =>
    match applyKey env s (keyOf p (participants shape account).1 (participants shape account).2) with
    | (.panic, s') => (.panicked, s')
    | (_, s') => (.accepted, s')

/-- `unsafe_push`, mod.rs:248-265. -/
def unsafePush (env : Env T) (s : State T) (account : Nat) : List (Post T) → Outcome × State T
  | [] => (.accepted, s)
  | p :: ps =>
    match unsafeSubmit env s account p with
    | (.accepted, s') => unsafePush env s' account ps
    | r => r

/-! ## Accounts appear only by funding -/

theorem withdrawAll_known (w : Bool) (id : Nat) (so : List (Nat × Nat)) : ∀ acc a,
    (mget (withdrawAll w id acc so).2 a).isSome = (mget acc a).isSome := by
  induction so with
  | nil => intro acc a; rfl
  | cons x so ih =>
    obtain ⟨a0, v⟩ := x
    intro acc a
    simp only [withdrawAll]
    split
    · rfl
    · rename_i m hm
      split
      · rfl
      · split
        · rfl
        · rw [ih, mget_mput]
          by_cases e : a0 = a
          · subst e; simp [hm]
          · simp [e]

theorem depositAll_known (w : Bool) (id : Nat) (si : List (Nat × Nat)) : ∀ acc a,
    (mget (depositAll w id acc si).2 a).isSome = (mget acc a).isSome := by
  induction si with
  | nil => intro acc a; rfl
  | cons x si ih =>
    obtain ⟨a0, v⟩ := x
    intro acc a
    simp only [depositAll]
    split
    · rfl
    · rename_i m hm
      have hput : ∀ m', (mget (mput acc a0 m') a).isSome = (mget acc a).isSome := by
        intro m'
        rw [mget_mput]
        by_cases e : a0 = a
        · subst e; simp [hm]
        · simp [e]
      split
      · exact hput _
      · rw [ih]; exact hput _

theorem updateBalances_known (w : Bool) (id : Nat) (acc) (so si : List (Nat × Nat)) (a : Nat) :
    (mget (updateBalances w id acc so si).2 a).isSome = (mget acc a).isSome := by
  unfold updateBalances
  have h := withdrawAll_known w id so acc a
  split
  · rename_i acc' e
    rw [e] at h
    rw [depositAll_known, h]
  · exact h

/-- Submitting a post makes no account known. -/
theorem submit_known (env : Env T) (s : State T) (account : Nat) (p : Post T) (a : Nat) :
    (mget (submit env s account p).2.accounts a).isSome = (mget s.accounts a).isSome := by
  rcases hs : submit env s account p with ⟨o, s'⟩
  by_cases ho : o = .rejected
  · subst ho; rw [c33_rejected_no_effect _ _ _ _ _ hs]
  · obtain ⟨shape, _, _, rfl, _⟩ := submit_applied env s account p o s' hs ho
    simp only
    rw [(applyKey_accounts env s p _ _).2]
    split
    · rfl
    · exact updateBalances_known ..

theorem push_known (env : Env T) (account : Nat) (ps : List (Post T)) : ∀ (s : State T) (a : Nat),
    (mget (push env s account ps).2.accounts a).isSome = (mget s.accounts a).isSome := by
  induction ps with
  | nil => intro s a; rfl
  | cons p ps ih =>
    intro s a
    have h := submit_known env s account p a
    simp only [push]
    split
    · rename_i s' e
      rw [e] at h
      rw [ih, h]
    · exact h

/-! ## Coins come from posts -/

theorem registers_mem (env : Env T) (l : List (ReceiverPost T)) : ∀ (s : State T) (u : Utxo T),
    u ∈ (l.foldl (register env) s).utxos ↔ u ∈ s.utxos ∨ ∃ r ∈ l, r.utxo = u := by
  induction l with
  | nil => intro s u; simp
  | cons r l ih =>
    intro s u
    have h1 : u ∈ (register env s r).utxos ↔ u ∈ s.utxos ∨ r.utxo = u := by
      simp only [register]
      split
      · rename_i hm
        constructor
        · exact Or.inl
        · rintro (h | rfl)
          · exact h
          · exact hm
      · rw [List.mem_append, List.mem_singleton]
        exact or_congr Iff.rfl ⟨Eq.symm, Eq.symm⟩
    rw [List.foldl_cons, ih, h1, or_assoc]
    simp

theorem applyKey_mem (env : Env T) (s : State T) (p : Post T) (sa ka : List Nat) (u : Utxo T) :
    u ∈ (applyKey env s (keyOf p sa ka)).2.utxos ↔ u ∈ s.utxos ∨ ∃ r ∈ p.body.receivers, r.utxo = u := by
  have h := registers_mem env p.body.receivers (p.body.senders.foldl (spend env) s) u
  have h0 : (p.body.senders.foldl (spend env) s).utxos = s.utxos := (spends_other env p.body.senders s).1
  rw [h0] at h
  unfold applyKey keyOf
  simp only
  split
  · exact h
  · exact h

theorem submit_mem (env : Env T) (s : State T) (account : Nat) (p : Post T) (u : Utxo T)
    (h : u ∈ (submit env s account p).2.utxos) : u ∈ s.utxos ∨ ∃ r ∈ p.body.receivers, r.utxo = u := by
  rcases hs : submit env s account p with ⟨o, s'⟩
  rw [hs] at h
  by_cases ho : o = .rejected
  · subst ho; rw [c33_rejected_no_effect _ _ _ _ _ hs] at h; exact .inl h
  · obtain ⟨shape, _, _, rfl, _⟩ := submit_applied env s account p o s' hs ho
    exact (applyKey_mem ..).1 h

theorem push_mem (env : Env T) (account : Nat) (ps : List (Post T)) : ∀ (s : State T) (u : Utxo T),
    u ∈ (push env s account ps).2.utxos → u ∈ s.utxos ∨ ∃ p ∈ ps, ∃ r ∈ p.body.receivers, r.utxo = u := by
  induction ps with
  | nil => intro s u h; exact .inl h
  | cons p ps ih =>
    intro s u h
    have h1 := submit_mem env s account p u
    simp only [push] at h
    split at h
    · rename_i s' e
      rw [e] at h1
      rcases ih _ _ h with h | ⟨q, hq, h⟩
      · rcases h1 h with h | h
        · exact .inl h
        · exact .inr ⟨p, by simp, h⟩
      · exact .inr ⟨q, by simp [hq], h⟩
    · rcases h1 h with h | h
      · exact .inl h
      · exact .inr ⟨p, by simp, h⟩

/-! ## C149 -/

/-- A mint submitted by an account that the ledger does not know is rejected. -/
theorem unknown_submitter (env : Env T) (s : State T) (account : Nat) (p : Post T)
    (hp : Shape.fromPost p = some .toPrivate) (ha : mget s.accounts account = none) :
    submit env s account p = (.rejected, s) := by
  rcases hs : submit env s account p with ⟨o, s'⟩
  by_cases ho : o = .rejected
  · subst ho; rw [c33_rejected_no_effect _ _ _ _ _ hs]
  · obtain ⟨shape, h1, hv, _⟩ := submit_applied env s account p o s' hs ho
    rw [hp] at h1
    cases h1
    have hl := hv.sourceLen
    simp only [participants, List.length_cons, List.length_nil] at hl
    obtain ⟨v, hvv⟩ := List.length_eq_one_iff.1 hl.symm
    have := hv.funded (account, v) (by rw [hvv]; simp [participants])
    simp [sourceOk, ha] at this

/-- The accounts that a round funds. -/
def Sample.funded : Sample T → Nat
  | .mint account .. => account
  | .pair account .. => account

/-- C149 fails in the checked mode.  Let no submitter of a mint be one of the accounts that are funded in some
round or known before; the code draws it at random from 2^256 accounts, apart from the funded one.  Then every
mint is rejected, the answer is dropped, and the only coins that the rounds add to the ledger are those of the
other rounds. -/
theorem c149_mints_violated (env : Env T) (id : Nat) (xs : List (Sample T)) :
    ∀ (s : State T) (r : List (List Outcome) × State T), safeFill env id s xs = some r →
    (∀ a b v p, Sample.mint a b v p ∈ xs → Shape.fromPost p = some .toPrivate ∧
      mget s.accounts b = none ∧ ∀ y ∈ xs, y.funded ≠ b) →
    r.1.length = xs.length ∧
    (∀ (i : Nat) a b v p, xs[i]? = some (Sample.mint a b v p) → r.1[i]? = some [Outcome.rejected]) ∧
    (∀ u ∈ r.2.utxos, u ∈ s.utxos ∨ ∃ a v w p q l, Sample.pair a v w p q l ∈ xs ∧
      ∃ z ∈ [p, q, l], ∃ c ∈ z.body.receivers, c.utxo = u) := by
  induction xs with
  | nil =>
    intro s r h _
    simp only [safeFill, Option.some.injEq] at h
    subst h
    exact ⟨rfl, by simp, fun u h => .inl h⟩
  | cons x xs ih =>
    intro s r h hx
    simp only [safeFill, Option.bind_eq_some_iff, Option.map_eq_some_iff] at h
    obtain ⟨⟨os, s1⟩, h1, t, h2, rfl⟩ := h
    simp only at h2
    -- accounts after the round
    have hknown : ∀ b, mget s.accounts b = none → x.funded ≠ b → mget s1.accounts b = none := by
      intro b hb hf
      have key : ∀ a v s', setBalance s a id v = some s' → a ≠ b → (mget s'.accounts b).isSome = false := by
        intro a v s' hs hab
        unfold setBalance at hs
        split at hs
        · cases hs
        · cases hs
          simp only [mget_mput, if_neg hab, hb]
          rfl
      have : (mget s1.accounts b).isSome = false := by
        cases x with
        | mint a c v p =>
          simp only [safeStep, Option.bind_eq_some_iff] at h1
          obtain ⟨s', e1, e2⟩ := h1
          have hk := push_known env c [p] s' b
          split at e2
          · cases e2
          · rename_i e3
            cases e2
            rw [e3] at hk
            rw [hk]; exact key _ _ _ e1 hf
        | pair a v w p q l =>
          simp only [safeStep, Option.bind_eq_some_iff] at h1
          obtain ⟨s', e1, e2⟩ := h1
          have hk := push_known env a [p, q] s' b
          split at e2
          · cases e2
          · rename_i s2 _ e3
            rw [e3] at hk
            have hk2 := push_known env a [l] s2 b
            split at e2
            · cases e2
            · rename_i e4
              cases e2
              rw [e4] at hk2
              rw [hk2, hk]; exact key _ _ _ e1 hf
      simpa using this
    obtain ⟨g1, g2, g3⟩ := ih s1 t h2 (by
      intro a b v p hm
      obtain ⟨k1, k2, k3⟩ := hx a b v p (List.mem_cons_of_mem _ hm)
      exact ⟨k1, hknown b k2 (k3 x List.mem_cons_self), fun y hy => k3 y (List.mem_cons_of_mem _ hy)⟩)
    -- the coins of the round
    have hstep : (∀ a b v p, x = .mint a b v p → os = [Outcome.rejected]) ∧
        (∀ u ∈ s1.utxos, u ∈ s.utxos ∨ ∃ a v w p q l, x = Sample.pair a v w p q l ∧
          ∃ z ∈ [p, q, l], ∃ c ∈ z.body.receivers, c.utxo = u) := by
      have hset : ∀ a v s', setBalance s a id v = some s' → s'.utxos = s.utxos := by
        intro a v s' hs
        unfold setBalance at hs
        split at hs
        · cases hs
        · cases hs; rfl
      cases x with
      | mint a c v p =>
        obtain ⟨k1, k2, k3⟩ := hx a c v p List.mem_cons_self
        simp only [safeStep, Option.bind_eq_some_iff] at h1
        obtain ⟨s', e1, e2⟩ := h1
        have hnone : mget s'.accounts c = none := by
          unfold setBalance at e1
          split at e1
          · cases e1
          · cases e1
            have := k3 _ List.mem_cons_self
            simp only [Sample.funded] at this
            rw [mget_mput, if_neg this, k2]
        have hr : push env s' c [p] = (.rejected, s') := by
          simp only [push, unknown_submitter env s' c p k1 hnone]
        rw [hr] at e2
        simp only [Option.some.injEq, Prod.mk.injEq] at e2
        obtain ⟨rfl, rfl⟩ := e2
        exact ⟨fun _ _ _ _ _ => rfl, fun u hu => .inl (hset _ _ _ e1 ▸ hu)⟩
      | pair a v w p q l =>
        refine ⟨fun _ _ _ _ e => (by cases e), fun u hu => ?_⟩
        simp only [safeStep, Option.bind_eq_some_iff] at h1
        obtain ⟨s', e1, e2⟩ := h1
        have m1 := push_mem env a [p, q] s' u
        split at e2
        · cases e2
        · rename_i s2 _ e3
          rw [e3] at m1
          have m2 := push_mem env a [l] s2 u
          split at e2
          · cases e2
          · rename_i e4
            cases e2
            rw [e4] at m2
            rcases m2 hu with h | ⟨z, hz, h⟩
            · rcases m1 h with h | ⟨z, hz, h⟩
              · exact .inl (hset _ _ _ e1 ▸ h)
              · refine .inr ⟨a, v, w, p, q, l, rfl, z, ?_, h⟩
                simp only [List.mem_cons, List.not_mem_nil, or_false] at hz ⊢
                rcases hz with h | h
                · exact .inl h
                · exact .inr (.inl h)
            · refine .inr ⟨a, v, w, p, q, l, rfl, z, ?_, h⟩
              simp only [List.mem_cons, List.not_mem_nil, or_false] at hz ⊢
              exact .inr (.inr hz)
    refine ⟨by simp [g1], ?_, ?_⟩
    · intro i a b v p hi
      cases i with
      | zero =>
        simp only [List.getElem?_cons_zero, Option.some.injEq] at hi ⊢
        exact hstep.1 a b v p hi
      | succ i =>
        simp only [List.getElem?_cons_succ] at hi ⊢
        exact g2 i a b v p hi
    · intro u hu
      rcases g3 u hu with h | ⟨a, v, w, p, q, l, hm, h⟩
      · rcases hstep.2 u h with h | ⟨a, v, w, p, q, l, rfl, h⟩
        · exact .inl h
        · exact .inr ⟨a, v, w, p, q, l, List.mem_cons_self, h⟩
      · exact .inr ⟨a, v, w, p, q, l, List.mem_cons_of_mem _ hm, h⟩

/-- C149, consequence: the generator keeps the coin of the rejected mint in its own trees.  A later transaction
that spends against such a tree, whose leaves `A` contain a coin `x` that the ledger has in no tree, takes effect
only against the empty root or if two different lists of leaves have the same root. -/
theorem c149_diverged (env : Env T) (s : State T) (account : Nat) (p : Post T) (q : SenderPost T)
    (A : List T.Item) (x : T.Item) (hx : x ∈ A) (hs : ∀ i, x ∉ s.forest i)
    (hq : q ∈ p.body.senders) (hr : q.root = env.root A)
    (h : (submit env s account p).1 ≠ .rejected) :
    env.root A = env.defaultRoot ∨ ∃ i, s.forest i ≠ A ∧ env.root (s.forest i) = env.root A := by
  obtain ⟨shape, _, hv⟩ := (c35_applied_iff env s account p).1 h
  rcases (matching_iff ..).1 (hv.roots q hq) with h | ⟨i, h⟩
  · exact .inl (hr ▸ h)
  · exact .inr ⟨i, fun e => hs i (e ▸ hx), by rw [← h, hr]⟩

/-- C149, what holds: had the funded account submitted the mint, its balance would suffice, so that the answer
depends on the other conditions of the ledger alone. -/
theorem c149_funded_partial (env : Env T) (s s1 : State T) (account id value : Nat) (p : Post T)
    (hs : setBalance s account id value = some s1) (hp : Shape.fromPost p = some .toPrivate)
    (hid : p.body.assetId = some id) (hv : p.body.sources = [value]) (hk : p.body.sinks = []) :
    (submit env s1 account p).1 ≠ .rejected ↔
      p.checkSig env.crypto = .ok () ∧
      (∃ shape, Canonical shape p.sig.isSome p.body.assetId.isSome p.body.sources.length
        p.body.senders.length p.body.receivers.length p.body.sinks.length ∧
        env.verifyProof shape (p.input env.enc) p.body.proof ≠ none) ∧
      (∀ q ∈ p.body.senders, matching env s1 q.root = true ∧ env.contains s1.nullifiers q.nul = false) ∧
      (p.body.senders.Pairwise fun a b => a.nul.cm ≠ b.nul.cm) ∧
      (∀ q ∈ p.body.receivers, q.utxo ∉ s.utxos) ∧
      (p.body.receivers.Pairwise fun a b => a.utxo ≠ b.utxo) := by
  have hu : s1.utxos = s.utxos ∧ sourceOk s1 id (account, value) = true := by
    unfold setBalance at hs
    split at hs
    · cases hs
    · cases hs
      exact ⟨rfl, by simp [sourceOk, mget_mput]⟩
  rw [c35_applied_iff]
  constructor
  · rintro ⟨shape, h1, h⟩
    exact ⟨h.signature, h.shape, fun q hq => ⟨h.roots q hq, h.unspent q hq⟩, h.distinctNul,
      fun q hq => hu.1 ▸ h.fresh q hq, h.distinctUtxo⟩
  · rintro ⟨h1, h2, h3, h4, h5, h6⟩
    refine ⟨_, hp, ⟨h1, ?_, ?_, h2, ?_, ?_, fun q hq => (h3 q hq).1, fun q hq => (h3 q hq).2, h4,
      fun q hq => hu.1 ▸ h5 q hq, h6⟩⟩
    · simp [participants, hv]
    · simp [participants, hk]
    · intro x hx
      simp only [participants, hv, List.zip_cons_cons, List.zip_nil_left, List.mem_singleton] at hx
      rw [hid, hx]
      exact hu.2
    · simp [participants]

/-- C149 holds in the unchecked mode: a push of recognized transactions that does not panic answers `true` and the
ledger has the coins it had and those of all the transactions, whoever submits them. -/
theorem c149_unsafe (env : Env T) (account : Nat) (ps : List (Post T)) :
    ∀ s : State T, (∀ p ∈ ps, (Shape.fromPost p).isSome = true) →
    (unsafePush env s account ps).1 ≠ .panicked →
    (unsafePush env s account ps).1 = .accepted ∧
    ∀ u, u ∈ (unsafePush env s account ps).2.utxos ↔
      u ∈ s.utxos ∨ ∃ p ∈ ps, ∃ r ∈ p.body.receivers, r.utxo = u := by
  induction ps with
  | nil => intro s _ _; exact ⟨rfl, by simp [unsafePush]⟩
  | cons p ps ih =>
    intro s hp hn
    obtain ⟨shape, hsh⟩ := Option.isSome_iff_exists.1 (hp p List.mem_cons_self)
    have hm := applyKey_mem env s p (participants shape account).1 (participants shape account).2
    have hsub : unsafeSubmit env s account p =
        match applyKey env s (keyOf p (participants shape account).1 (participants shape account).2) with
        | (.panic, s') => (.panicked, s')
        | (_, s') => (.accepted, s') := by
      simp only [unsafeSubmit, hsh]
    rcases ha : applyKey env s (keyOf p (participants shape account).1 (participants shape account).2) with ⟨o, s'⟩
    rw [ha] at hm hsub
    by_cases ho : o = .panic
    · subst ho
      simp only [unsafePush, hsub] at hn
      exact absurd rfl hn
    · have hacc : unsafeSubmit env s account p = (.accepted, s') := by
        rw [hsub]; cases o <;> first | rfl | exact absurd rfl ho
      have he : unsafePush env s account (p :: ps) = unsafePush env s' account ps := by
        simp only [unsafePush, hacc]
      rw [he] at hn ⊢
      obtain ⟨g1, g2⟩ := ih s' (fun q hq => hp q (List.mem_cons_of_mem _ hq)) hn
      refine ⟨g1, fun u => ?_⟩
      rw [g2, hm, or_assoc]
      simp

/-- The mint of value 10 is lost in the checked mode although its account was given 10, it is accepted from that
account, and it is recorded in the unchecked mode. -/
example :
    let env := tEnv false eContains
    (safeFill env 8 State.new [.mint 1 2 10 (pMint 3 10)]).map (fun r => (r.1, r.2.utxos.length)) =
      some ([[.rejected]], 0) ∧
    (safeFill env 8 State.new [.mint 1 1 10 (pMint 3 10)]).map (fun r => (r.1, r.2.utxos.length)) =
      some ([[.accepted]], 1) ∧
    (unsafePush env State.new 2 [pMint 3 10]).1 = .accepted ∧
    (unsafePush env State.new 2 [pMint 3 10]).2.utxos.length = 1 ∧
    Shape.fromPost (pMint 3 10) = some .toPrivate := by
  refine ⟨by decide +kernel, by decide +kernel, by decide +kernel, by decide +kernel, by decide +kernel⟩

end Verif.Ledger
