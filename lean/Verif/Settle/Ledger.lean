import Verif.Ledger.Roots

/-!
# When the ledger accepts a sequence of posts

Acceptance of posts by `Ledger::push` (manta-pay/src/simulation/ledger/mod.rs:229-246, modelled in
`Verif.Ledger.Model`), one post and several in a row, with what changes.
-/

namespace Verif.Settle

open Verif.Asset (Asset mget merase KeysNodup)
open Verif.Transfer Verif.Ledger

variable {T : Ty}

/-- The forest after one more coin, `register` mod.rs:532-548. -/
def growOne (env : Env T) (f : Ix → List T.Item) (x : T.Item) : Ix → List T.Item :=
  if (f (env.treeIndex x)).length < env.capacity then
    fun i => if i = env.treeIndex x then f (env.treeIndex x) ++ [x] else f i
  else f

/-- The forest after more coins. -/
def grow (env : Env T) (f : Ix → List T.Item) (xs : List T.Item) : Ix → List T.Item :=
  xs.foldl (growOne env) f

theorem grow_append (env : Env T) (f : Ix → List T.Item) (xs ys : List T.Item) :
    grow env f (xs ++ ys) = grow env (grow env f xs) ys := by
  unfold grow; rw [List.foldl_append]

theorem grow_cons (env : Env T) (f : Ix → List T.Item) (x : T.Item) (ys : List T.Item) :
    grow env f (x :: ys) = grow env (growOne env f x) ys := rfl

/-- Another shard does not change. -/
theorem grow_other (env : Env T) (i : Ix) : ∀ (xs : List T.Item) (f : Ix → List T.Item),
    (∀ x ∈ xs, env.treeIndex x ≠ i) → grow env f xs i = f i := by
  intro xs
  induction xs with
  | nil => intro f _; rfl
  | cons x xs ih =>
    intro f h
    rw [grow_cons, ih _ fun y hy => h y (by simp [hy])]
    unfold growOne
    split
    · exact if_neg fun e => h x (by simp) e.symm
    · rfl

/-- Leaves made by a post. -/
def items (env : Env T) (p : Post T) : List T.Item := p.body.receivers.map fun r => env.crypto.item r.utxo

theorem registers_grow (env : Env T) (l : List (ReceiverPost T)) : ∀ s : State T,
    (l.foldl (register env) s).forest = grow env s.forest (l.map fun r => env.crypto.item r.utxo) ∧
    ∀ u, u ∈ (l.foldl (register env) s).utxos → u ∈ s.utxos ∨ ∃ r ∈ l, r.utxo = u := by
  induction l with
  | nil => intro s; exact ⟨rfl, fun u h => .inl h⟩
  | cons p ps ih =>
    intro s
    obtain ⟨h1, h2⟩ := ih (register env s p)
    refine ⟨?_, ?_⟩
    · rw [List.foldl_cons, h1, List.map_cons, grow_cons]
      rfl
    · intro u hu
      rw [List.foldl_cons] at hu
      rcases h2 u hu with h | ⟨r, hr, e⟩
      · simp only [register] at h
        split at h
        · exact .inl h
        · rcases List.mem_append.1 h with h | h
          · exact .inl h
          · exact .inr ⟨p, by simp, (List.mem_singleton.1 h).symm⟩
      · exact .inr ⟨r, by simp [hr], e⟩

theorem spends_sub (env : Env T) (l : List (SenderPost T)) : ∀ s : State T,
    ∀ n, n ∈ (l.foldl (spend env) s).nullifiers → n ∈ s.nullifiers ∨ ∃ q ∈ l, q.nul = n := by
  induction l with
  | nil => intro s n h; exact .inl h
  | cons p ps ih =>
    intro s n h
    rw [List.foldl_cons] at h
    rcases ih (spend env s p) n h with h | ⟨q, hq, e⟩
    · unfold spend at h
      split at h
      · exact .inl h
      · rcases List.mem_append.1 h with h | h
        · exact .inl h
        · exact .inr ⟨p, by simp, (List.mem_singleton.1 h).symm⟩
    · exact .inr ⟨q, by simp [hq], e⟩

/-- A post that no ledger has a reason to reject for what is in it. -/
structure Sound (env : Env T) (p : Post T) : Prop where
  signature : p.checkSig env.crypto = .ok ()
  shape : ∃ shape, Canonical shape p.sig.isSome p.body.assetId.isSome p.body.sources.length
    p.body.senders.length p.body.receivers.length p.body.sinks.length ∧
    env.verifyProof shape (p.input env.enc) p.body.proof ≠ none
  distinctNul : p.body.senders.Pairwise fun a b => a.nul.cm ≠ b.nul.cm
  distinctUtxo : p.body.receivers.Pairwise fun a b => a.utxo ≠ b.utxo

/-- What a ledger state must offer for a post. -/
structure Welcome (env : Env T) (s : State T) (account : Nat) (p : Post T) : Prop where
  roots : ∀ q ∈ p.body.senders, q.root = env.defaultRoot ∨ ∃ i, q.root = env.root (s.forest i)
  unspent : ∀ q ∈ p.body.senders, ∀ m ∈ s.nullifiers, m.cm ≠ q.nul.cm
  fresh : ∀ r ∈ p.body.receivers, r.utxo ∉ s.utxos
  funded : ∀ v ∈ p.body.sources, sourceOk s (p.body.assetId.getD 0) (account, v) = true
  credited : p.body.sinks ≠ [] → (mget s.accounts account).isSome = true
  fits : ∀ id, p.body.assetId = some id → balance s.accounts account id + p.body.sinks.sum < 2 ^ 128
  bounded : ∀ a id, balance s.accounts a id < 2 ^ 128

/-- What an accepted post does. -/
structure Effect (env : Env T) (s : State T) (account : Nat) (p : Post T) (s' : State T) : Prop where
  forest : s'.forest = grow env s.forest (items env p)
  utxos : ∀ u ∈ s'.utxos, u ∈ s.utxos ∨ ∃ r ∈ p.body.receivers, r.utxo = u
  nullifiers : ∀ n ∈ s'.nullifiers, n ∈ s.nullifiers ∨ ∃ q ∈ p.body.senders, q.nul = n
  accounts : ∀ a, (mget s'.accounts a).isSome = (mget s.accounts a).isSome
  balances : ∀ a id, balance s'.accounts a id + (if a = account ∧ p.body.assetId = some id then p.body.sources.sum else 0) =
    balance s.accounts a id + (if a = account ∧ p.body.assetId = some id then p.body.sinks.sum else 0)

theorem applyKey_coins' (env : Env T) (s : State T) (k : PostingKey T) :
    (applyKey env s k).2.forest = (k.receivers.foldl (register env) (k.senders.foldl (spend env) s)).forest ∧
    (applyKey env s k).2.utxos = (k.receivers.foldl (register env) (k.senders.foldl (spend env) s)).utxos ∧
    (applyKey env s k).2.nullifiers = (k.receivers.foldl (register env) (k.senders.foldl (spend env) s)).nullifiers := by
  unfold applyKey
  simp only
  split <;> exact ⟨rfl, rfl, rfl⟩

/-- Only the outcome matters: accounts exist afterwards iff they did before. -/
theorem updateBalances_isSome (wraps : Bool) (id : Nat) (acc : List (Nat × List (Nat × Nat)))
    (so si : List (Nat × Nat)) (a : Nat) :
    (mget (updateBalances wraps id acc so si).2 a).isSome = (mget acc a).isSome := by
  have hput : ∀ (acc : List (Nat × List (Nat × Nat))) (b : Nat) (m m' : List (Nat × Nat)), mget acc b = some m →
      (mget (mput acc b m') a).isSome = (mget acc a).isSome := by
    intro acc b m m' h
    rw [mget_mput]
    split
    · rename_i e; subst e; rw [h]; rfl
    · rfl
  have hw : ∀ (so : List (Nat × Nat)) (acc : List (Nat × List (Nat × Nat))),
      (mget (withdrawAll wraps id acc so).2 a).isSome = (mget acc a).isSome := by
    intro so
    induction so with
    | nil => intro acc; rfl
    | cons x so ih =>
      intro acc
      obtain ⟨b, w⟩ := x
      unfold withdrawAll
      split
      · rfl
      · rename_i m hm
        split
        · rfl
        · split
          · rfl
          · rw [ih, hput _ _ _ _ hm]
  have hd : ∀ (si : List (Nat × Nat)) (acc : List (Nat × List (Nat × Nat))),
      (mget (depositAll wraps id acc si).2 a).isSome = (mget acc a).isSome := by
    intro si
    induction si with
    | nil => intro acc; rfl
    | cons x so ih =>
      intro acc
      obtain ⟨b, w⟩ := x
      unfold depositAll
      split
      · rfl
      · rename_i m hm
        split
        · exact hput _ _ _ _ hm
        · rw [ih, hput _ _ _ _ hm]
  unfold updateBalances
  have h1 := hw so acc
  split
  · rename_i acc' e
    rw [hd]
    rw [e] at h1
    exact h1
  · exact h1

/-- A sound post that is welcome is accepted. -/
theorem submit_accepted (env : Env T) (hlook : ∀ l n, env.contains l n = true → ∃ m ∈ l, m.cm = n.cm)
    (s : State T) (account : Nat) (p : Post T) (h : Sound env p) (w : Welcome env s account p) :
    ∃ s', submit env s account p = (.accepted, s') ∧ Effect env s account p s' := by
  obtain ⟨shape, hc, hpr⟩ := h.shape
  have hfp : Shape.fromPost p = some shape := (c51_from_post p shape).2 hc
  have hlen : (participants shape account).1.length = p.body.sources.length ∧
      (participants shape account).2.length = p.body.sinks.length ∧
      (∀ x ∈ (participants shape account).1.zip p.body.sources, x.1 = account ∧ x.2 ∈ p.body.sources) ∧
      (∀ x ∈ (participants shape account).2.zip p.body.sinks, x.1 = account ∧ p.body.sinks ≠ []) := by
    have hmem : ∀ (l : List Nat) (x : Nat × Nat), x ∈ [account].zip l → x.1 = account ∧ x.2 ∈ l ∧ l ≠ [] := by
      intro l x hx
      have h1 := (List.of_mem_zip hx)
      refine ⟨List.mem_singleton.1 h1.1, h1.2, ?_⟩
      rintro rfl
      cases h1.2
    generalize h1 : p.sig.isSome = b1 at hc
    generalize h2 : p.body.assetId.isSome = b2 at hc
    generalize h3 : p.body.sources.length = n3 at hc ⊢
    generalize h4 : p.body.senders.length = n4 at hc
    generalize h5 : p.body.receivers.length = n5 at hc
    generalize h6 : p.body.sinks.length = n6 at hc ⊢
    cases hc
    · refine ⟨rfl, rfl, fun x hx => ⟨(hmem _ x hx).1, (hmem _ x hx).2.1⟩, ?_⟩
      simp [participants]
    · refine ⟨rfl, rfl, ?_, ?_⟩ <;> simp [participants]
    · refine ⟨rfl, rfl, ?_, fun x hx => ⟨(hmem _ x hx).1, (hmem _ x hx).2.2⟩⟩
      simp [participants]
  have hv : Valid env s p (participants shape account).1 (participants shape account).2 := by
    refine ⟨h.signature, hlen.1, hlen.2.1, ⟨shape, hc, hpr⟩, ?_, ?_, ?_, ?_, h.distinctNul, w.fresh, h.distinctUtxo⟩
    · intro x hx
      obtain ⟨e1, e2⟩ := hlen.2.2.1 x hx
      have := w.funded x.2 e2
      rw [← e1] at this
      exact this
    · intro x hx
      obtain ⟨e1, e2⟩ := hlen.2.2.2 x hx
      rw [e1]; exact w.credited e2
    · intro q hq
      exact (matching_iff env s q.root).2 (w.roots q hq)
    · intro q hq
      cases hcn : env.contains s.nullifiers q.nul with
      | false => rfl
      | true =>
        obtain ⟨m, hm, e⟩ := hlook _ _ hcn
        exact absurd e (w.unspent q hq m hm)
  have hnr : (submit env s account p).1 ≠ .rejected := (c35_applied_iff env s account p).2 ⟨shape, hfp, hv⟩
  have hacc := c35_push_partial env s account p hnr w.fits w.bounded
  rcases hs : submit env s account p with ⟨o, s'⟩
  rw [hs] at hacc
  simp only at hacc
  subst hacc
  refine ⟨s', rfl, ?_⟩
  obtain ⟨c1, c2, c3⟩ := c36_balances env s s' account p hs (fun _ a id hi => by
    split
    · rename_i e; subst e; exact w.fits id hi
    · exact w.bounded a id)
  obtain ⟨shape', _, _, rfl, _⟩ := submit_applied env s account p _ s' hs (by simp)
  obtain ⟨k1, k2, k3⟩ := applyKey_coins' env s (keyOf p (participants shape' account).1 (participants shape' account).2)
  obtain ⟨o1, _, o3, o4⟩ := spends_other env p.body.senders s
  refine ⟨?_, ?_, ?_, ?_, ?_⟩
  · rw [k1]
    show (p.body.receivers.foldl (register env) (p.body.senders.foldl (spend env) s)).forest = _
    rw [(registers_grow env p.body.receivers _).1, o3]
    rfl
  · intro u hu
    rw [k2] at hu
    have := (registers_grow env p.body.receivers _).2 u hu
    rw [show (keyOf p (participants shape' account).1 (participants shape' account).2).senders = p.body.senders from rfl,
      o1] at this
    exact this
  · intro n hn
    rw [k3] at hn
    have hn : n ∈ (p.body.receivers.foldl (register env) (p.body.senders.foldl (spend env) s)).nullifiers := hn
    rw [(registers_other env _ _).1] at hn
    exact spends_sub env p.body.senders s n hn
  · intro a
    rw [(applyKey_accounts env s p _ _).2]
    split
    · rfl
    · exact updateBalances_isSome _ _ _ _ _ _
  · intro a id
    by_cases ha : a = account
    · by_cases hi : p.body.assetId = some id
      · subst ha
        rw [if_pos ⟨rfl, hi⟩, if_pos ⟨rfl, hi⟩]
        exact (c1 id hi).2
      · rw [c2 a id (.inr hi), if_neg (fun e => hi e.2), if_neg (fun e => hi e.2)]
    · rw [c2 a id (.inl ha), if_neg (fun e => ha e.1), if_neg (fun e => ha e.1)]

/-- Total of one asset id paid out by posts. -/
def paidOut (posts : List (Post T)) (id : Nat) : Nat :=
  (posts.map fun p => if p.body.assetId = some id then p.body.sinks.sum else 0).sum

/-- Sound posts without public inputs, pushed together, are all accepted if each refers to the roots that the ledger
has when its turn comes. -/
theorem push_accepted (env : Env T) (hlook : ∀ l n, env.contains l n = true → ∃ m ∈ l, m.cm = n.cm) (account : Nat)
    (posts : List (Post T)) : ∀ s : State T,
    (∀ p ∈ posts, Sound env p ∧ p.body.sources = []) →
    (∀ pre p suf, posts = pre ++ p :: suf → ∀ q ∈ p.body.senders,
      q.root = env.defaultRoot ∨ ∃ i, q.root = env.root (grow env s.forest (pre.flatMap (items env)) i)) →
    (∀ p ∈ posts, ∀ q ∈ p.body.senders, ∀ m ∈ s.nullifiers, m.cm ≠ q.nul.cm) →
    (posts.Pairwise fun a b => ∀ q ∈ a.body.senders, ∀ q' ∈ b.body.senders, q.nul.cm ≠ q'.nul.cm) →
    (∀ p ∈ posts, ∀ r ∈ p.body.receivers, r.utxo ∉ s.utxos) →
    (posts.Pairwise fun a b => ∀ q ∈ a.body.receivers, ∀ q' ∈ b.body.receivers, q.utxo ≠ q'.utxo) →
    ((∃ p ∈ posts, p.body.sinks ≠ []) → (mget s.accounts account).isSome = true) →
    (∀ id, balance s.accounts account id + paidOut posts id < 2 ^ 128) →
    (∀ a id, balance s.accounts a id < 2 ^ 128) →
    ∃ s', push env s account posts = (.accepted, s') ∧ s'.forest = grow env s.forest (posts.flatMap (items env)) ∧
      (∀ u ∈ s'.utxos, u ∈ s.utxos ∨ ∃ p ∈ posts, ∃ r ∈ p.body.receivers, r.utxo = u) ∧
      (∀ n ∈ s'.nullifiers, n ∈ s.nullifiers ∨ ∃ p ∈ posts, ∃ q ∈ p.body.senders, q.nul = n) ∧
      ∀ a id, balance s'.accounts a id = balance s.accounts a id + (if a = account then paidOut posts id else 0) := by
  induction posts with
  | nil =>
    intro s _ _ _ _ _ _ _ _ _
    exact ⟨s, rfl, rfl, fun u h => .inl h, fun n h => .inl h, fun a id => by simp [paidOut]⟩
  | cons p ps ih =>
    intro s hs hr hn hnp hu hup hacc hfit hbd
    rw [List.pairwise_cons] at hnp hup
    have hpo : ∀ id, paidOut (p :: ps) id = (if p.body.assetId = some id then p.body.sinks.sum else 0) + paidOut ps id :=
      fun id => by simp [paidOut]
    obtain ⟨s1, e1, f⟩ := submit_accepted env hlook s account p (hs p (by simp)).1
      ⟨hr [] p ps rfl, hn p (by simp), hu p (by simp), by rw [(hs p (by simp)).2]; simp,
        fun h => hacc ⟨p, by simp, h⟩, fun id hid => by
          have := hfit id
          rw [hpo id, if_pos hid] at this
          omega, hbd⟩
    have hb1 : ∀ a id, balance s1.accounts a id = balance s.accounts a id +
        (if a = account ∧ p.body.assetId = some id then p.body.sinks.sum else 0) := by
      intro a id
      have := f.balances a id
      rw [(hs p (by simp)).2, List.sum_nil, ite_self, Nat.add_zero] at this
      exact this
    obtain ⟨s', e2, g1, g2, g3, g4⟩ := ih s1 (fun q hq => hs q (by simp [hq]))
      (by
        intro pre q suf e x hx
        have := hr (p :: pre) q suf (by rw [e]; rfl) x hx
        rw [List.flatMap_cons, grow_append, ← f.forest] at this
        exact this)
      (by
        intro q hq x hx m hm
        rcases f.nullifiers m hm with h | ⟨y, hy, e⟩
        · exact hn q (by simp [hq]) x hx m h
        · rw [← e]; exact hnp.1 q hq y hy x hx)
      hnp.2
      (by
        intro q hq r hrr hc
        rcases f.utxos _ hc with h | ⟨y, hy, e⟩
        · exact hu q (by simp [hq]) r hrr h
        · exact hup.1 q hq y hy r hrr e)
      hup.2
      (by
        rintro ⟨q, hq, h⟩
        rw [f.accounts]
        exact hacc ⟨q, by simp [hq], h⟩)
      (by
        intro id
        have := hfit id
        rw [hpo id] at this
        rw [hb1]
        split
        · rename_i e; rw [if_pos e.2] at this; omega
        · omega)
      (by
        intro a id
        rw [hb1]
        split
        · rename_i e
          obtain ⟨rfl, e⟩ := e
          have := hfit id
          rw [hpo id, if_pos e] at this
          omega
        · exact hbd a id)
    refine ⟨s', ?_, ?_, ?_, ?_, ?_⟩
    · simp only [push, e1, e2]
    · rw [g1, f.forest, List.flatMap_cons, grow_append]
    · intro u h
      rcases g2 u h with h | ⟨q, hq, r, hr', e⟩
      · rcases f.utxos u h with h | ⟨r, hr', e⟩
        · exact .inl h
        · exact .inr ⟨p, by simp, r, hr', e⟩
      · exact .inr ⟨q, by simp [hq], r, hr', e⟩
    · intro n h
      rcases g3 n h with h | ⟨q, hq, r, hr', e⟩
      · rcases f.nullifiers n h with h | ⟨r, hr', e⟩
        · exact .inl h
        · exact .inr ⟨p, by simp, r, hr', e⟩
      · exact .inr ⟨q, by simp [hq], r, hr', e⟩
    · intro a id
      rw [g4, hb1, hpo]
      by_cases ha : a = account
      · rw [if_pos ha, if_pos ha]
        by_cases hi : p.body.assetId = some id
        · rw [if_pos ⟨ha, hi⟩, if_pos hi]; omega
        · rw [if_neg (fun e => hi e.2), if_neg hi]; omega
      · rw [if_neg ha, if_neg ha, if_neg (fun e => ha e.1)]

end Verif.Settle
