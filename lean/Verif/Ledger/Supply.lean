import Verif.Ledger.Props

/-!
# No inflation: C65

Ties the circuit (`Verif.Transfer`, C32 and C60) to the ledger (C33, C34, C36): over whole histories, what the
accounts hold publicly plus what the unspent coins hold is what was put into the accounts from outside.

Assumed, and named in the statements: accepted posts are backed by a satisfying assignment of the circuit with
the same public data (soundness of the proof system), a membership proof that verifies against a root of the
ledger is of a leaf of the ledger (soundness of the accumulator, C11), and the commitments, keys and item hashes
of the history do not collide.
-/

namespace Verif.Ledger

open Verif.Asset (Asset mget)
open Verif.Transfer

variable {T : Ty}

/-- `t` is a satisfying assignment with the public data of the post. -/
structure Backed (env : Env T) (q : Nat) (p : Post T) (t : Transfer T) : Prop where
  shape : t.auth.isSome = true ↔ t.senders ≠ []
  sat : circuit env.crypto q t = some true
  assetId : p.body.assetId = t.assetId
  sources : p.body.sources = t.sources
  sinks : p.body.sinks = t.sinks
  senders : p.body.senders.map (fun x => (x.root, x.nul.cm)) = t.senders.map (fun x => (x.root, x.nul.cm))
  receivers : p.body.receivers.map ReceiverPost.utxo = t.receivers.map Receiver.utxo

/-- Verified membership is membership. -/
def Truthful (env : Env T) (s : State T) (t : Transfer T) : Prop :=
  ∀ x ∈ t.senders, matching env s x.root = true →
    env.crypto.member (env.crypto.item x.utxo) x.wit x.root = true →
    ∃ i, env.crypto.item x.utxo ∈ s.forest i

/-- Histories of the ledger from the start: deposits from outside (`set_public_balance`, recorded as asset id, old
and new balance) and accepted posts with the assignments backing them. Rejected posts change nothing (C33) and
are left out. The first index lists the accounts used. -/
inductive Hist (env : Env T) (q : Nat) :
    List Nat → List (Nat × Nat × Nat) → List (Transfer T) → State T → Prop where
  | start : Hist env q [] [] [] State.new
  | deposit {us ext ts s s'} (a id v : Nat) : Hist env q us ext ts s → setBalance s a id v = some s' →
      Hist env q (a :: us) (ext ++ [(id, balance s.accounts a id, v)]) ts s'
  | post {us ext ts s s'} (account : Nat) (p : Post T) (t : Transfer T) : Hist env q us ext ts s →
      submit env s account p = (.accepted, s') → Backed env q p t → Truthful env s t →
      (env.wraps = true → ∀ a id, p.body.assetId = some id →
        balance s.accounts a id + p.body.sinks.sum < 2 ^ 128) →
      Hist env q (account :: us) ext (ts ++ [t]) s'

/-! ## Quantities of the specification -/

/-- Value of an asset counted for one id. -/
def worth (id : Nat) (a : Asset) : Nat := if a.id = id then a.value else 0

/-- Total balance of some accounts. -/
def publicSupply (s : State T) (U : List Nat) (id : Nat) : Nat := (U.map fun a => balance s.accounts a id).sum

/-- All coins ever created, and all spends. -/
def created (ts : List (Transfer T)) : List (Receiver T) := ts.flatMap fun t => t.receivers
def spends (ts : List (Transfer T)) : List (Sender T) := ts.flatMap fun t => t.senders

/-- Value of the coins that were created and not spent. -/
def unspentSupply (ts : List (Transfer T)) (id : Nat) : Nat :=
  ((created ts).map fun r =>
    if r.utxo ∈ (spends ts).map Sender.utxo then 0 else worth id (held r.utxo r.plain)).sum

/-- What deposits put in and what they overwrote. -/
def putIn (ext : List (Nat × Nat × Nat)) (id : Nat) : Nat := (ext.map fun e => if e.1 = id then e.2.2 else 0).sum
def overwritten (ext : List (Nat × Nat × Nat)) (id : Nat) : Nat :=
  (ext.map fun e => if e.1 = id then e.2.1 else 0).sum

/-- The openings of commitments in a history. -/
def openings (c : Crypto T) (ts : List (Transfer T)) : List (T.Rand × Nat × Nat × T.Grp) :=
  (ts.flatMap fun t => t.receivers.map fun r => (r.plain.rand, r.plain.asset.id, r.plain.asset.value, r.rk)) ++
  (ts.flatMap fun t => t.senders.flatMap fun x => t.auth.toList.map fun a =>
    (x.plain.rand, x.plain.asset.id, x.plain.asset.value, c.smul c.gen (c.viewKey a.pak)))

/-- The history contains no collision. -/
structure NoCollisions (c : Crypto T) (ts : List (Transfer T)) : Prop where
  commit : ∀ x ∈ openings c ts, ∀ y ∈ openings c ts,
    ¬ Collision (fun x : T.Rand × Nat × Nat × T.Grp => c.commit x.1 x.2.1 x.2.2.1 x.2.2.2) x y
  key : ∀ a ∈ ts.flatMap (fun t => t.auth.toList), ∀ b ∈ ts.flatMap (fun t => t.auth.toList),
    ¬ Collision (fun k => c.smul c.gen (c.viewKey k)) a.pak b.pak
  item : ∀ r ∈ created ts, ∀ x ∈ spends ts, ¬ Collision c.item r.utxo x.utxo

/-! ## Sums -/

theorem sum_update (U : List Nat) (hU : U.Nodup) (f g : Nat → Nat) (x : Nat) (hx : x ∈ U)
    (h : ∀ a, a ≠ x → g a = f a) : (U.map g).sum + f x = (U.map f).sum + g x := by
  induction U with
  | nil => cases hx
  | cons u U ih =>
    rw [List.nodup_cons] at hU
    simp only [List.map_cons, List.sum_cons]
    by_cases hu : u = x
    · subst hu
      have : U.map g = U.map f := List.map_congr_left fun a ha => h a (fun e => hU.1 (e ▸ ha))
      rw [this]; omega
    · have hx' : x ∈ U := by
        rcases List.mem_cons.1 hx with e | e
        · exact absurd e.symm hu
        · exact e
      have := ih hU.2 hx'
      rw [h u hu]; omega

theorem sum_same (U : List Nat) (f g : Nat → Nat) (h : ∀ a, g a = f a) : (U.map g).sum = (U.map f).sum := by
  rw [List.map_congr_left fun a _ => h a]

theorem sum_zero {α : Type} (l : List α) : (l.map fun _ => 0).sum = 0 := by
  induction l with
  | nil => rfl
  | cons x l ih => rw [List.map_cons, List.sum_cons, ih]

/-- One key, at most one entry. -/
theorem sum_single {α κ : Type} [DecidableEq κ] (R : List α) (ku : α → κ) (vr : α → Nat) (k : κ) (v : Nat)
    (hR : (R.map ku).Nodup) (h1 : ∀ r ∈ R, ku r = k → vr r = v) (h2 : v ≠ 0 → ∃ r ∈ R, ku r = k) :
    (R.map fun r => if ku r = k then vr r else 0).sum = v := by
  induction R with
  | nil =>
    by_cases hv : v = 0
    · simp [hv]
    · obtain ⟨r, hr, _⟩ := h2 hv; cases hr
  | cons r R ih =>
    simp only [List.map_cons, List.nodup_cons, List.sum_cons] at hR ⊢
    by_cases hk : ku r = k
    · have hrest : (R.map fun r => if ku r = k then vr r else 0) = R.map fun _ => 0 := by
        refine List.map_congr_left fun x hx => if_neg fun e => hR.1 ?_
        rw [hk, ← e]; exact List.mem_map_of_mem hx
      rw [if_pos hk, hrest, h1 r (by simp) hk, sum_zero]
      rfl
    · rw [if_neg hk, Nat.zero_add]
      refine ih hR.2 (fun x hx => h1 x (by simp [hx])) fun hv => ?_
      obtain ⟨x, hx, hxk⟩ := h2 hv
      rcases List.mem_cons.1 hx with rfl | hx
      · exact absurd hxk hk
      · exact ⟨x, hx, hxk⟩

/-- Spends with different keys, each of an entry of the same value, take exactly the marked entries. -/
theorem sum_marked {α β κ : Type} [DecidableEq κ] (R : List α) (S : List β) (ku : α → κ) (ks : β → κ)
    (vr : α → Nat) (vs : β → Nat) (hR : (R.map ku).Nodup) (hS : (S.map ks).Nodup)
    (h1 : ∀ s ∈ S, ∀ r ∈ R, ku r = ks s → vr r = vs s) (h2 : ∀ s ∈ S, vs s ≠ 0 → ∃ r ∈ R, ku r = ks s) :
    (R.map fun r => if ku r ∈ S.map ks then vr r else 0).sum = (S.map vs).sum := by
  induction S with
  | nil => simpa using sum_zero R
  | cons s S ih =>
    simp only [List.map_cons, List.nodup_cons, List.sum_cons] at hS ⊢
    have e : ∀ r, (if ku r ∈ ks s :: S.map ks then vr r else 0) =
        (if ku r = ks s then vr r else 0) + (if ku r ∈ S.map ks then vr r else 0) := by
      intro r
      by_cases hk : ku r = ks s
      · have : ks s ∉ S.map ks := hS.1
        simp [hk, this]
      · simp [hk]
    have e2 : (R.map fun r => if ku r ∈ ks s :: S.map ks then vr r else 0).sum =
        (R.map fun r => if ku r = ks s then vr r else 0).sum +
        (R.map fun r => if ku r ∈ S.map ks then vr r else 0).sum := by
      clear ih hR h1 h2
      induction R with
      | nil => simp
      | cons r R ihR => rw [List.map_cons, List.sum_cons, ihR, e, List.map_cons, List.sum_cons, List.map_cons, List.sum_cons]; omega
    rw [e2, sum_single R ku vr (ks s) (vs s) hR (h1 s (by simp)) (h2 s (by simp)),
      ih hS.2 (fun x hx => h1 x (by simp [hx])) (fun x hx => h2 x (by simp [hx]))]

theorem sum_split {α : Type} (R : List α) (v : α → Nat) (P : α → Prop) [DecidablePred P] :
    (R.map v).sum = (R.map fun r => if P r then 0 else v r).sum + (R.map fun r => if P r then v r else 0).sum := by
  induction R with
  | nil => simp
  | cons r R ih =>
    simp only [List.map_cons, List.sum_cons, ih]
    by_cases h : P r <;> simp [h] <;> omega

/-! ## One transfer -/

theorem sum_worth_all (l : List Asset) (id : Nat) (h : ∀ x ∈ l, x.id = id) :
    (l.map (worth id)).sum = (l.map Asset.value).sum := by
  rw [List.map_congr_left fun x hx => show worth id x = x.value from if_pos (h x hx)]

theorem sum_worth_none (l : List Asset) (id : Nat) (h : ∀ x ∈ l, x.id ≠ id) : (l.map (worth id)).sum = 0 := by
  rw [List.map_congr_left fun x hx => show worth id x = (fun _ => 0) x from if_neg (h x hx)]
  exact sum_zero l

/-- Conservation for every asset id separately. -/
theorem transfer_balanced (c : Crypto T) (q : Nat) (hq : 2 ^ 129 ≤ q) (t : Transfer T)
    (hshape : t.auth.isSome = true ↔ t.senders ≠ []) (h : circuit c q t = some true)
    (hpub : t.assetId = none → t.sources = [] ∧ t.sinks = []) (id : Nat) :
    (if t.assetId = some id then t.sources.sum else 0) + (t.ins.map (worth id)).sum =
      (if t.assetId = some id then t.sinks.sum else 0) + (t.outs.map (worth id)).sum := by
  obtain ⟨h1, _, h3, h4⟩ := c32_conservation c q hq t hshape h
  cases ha : t.assetId with
  | some a =>
    have hall := h3 a ha
    by_cases hai : a = id
    · subst hai
      rw [if_pos rfl, if_pos rfl, sum_worth_all _ _ fun x hx => hall x (List.mem_append_left _ hx),
        sum_worth_all _ _ fun x hx => hall x (List.mem_append_right _ hx)]
      exact h1
    · have hne : ¬ (some a = some id) := by simpa using hai
      rw [if_neg hne, if_neg hne,
        sum_worth_none _ _ fun x hx e => hai ((hall x (List.mem_append_left _ hx)).symm.trans e),
        sum_worth_none _ _ fun x hx e => hai ((hall x (List.mem_append_right _ hx)).symm.trans e)]
  | none =>
    obtain ⟨hso, hsi⟩ := hpub ha
    rw [hso, hsi] at h1
    simp only [reduceCtorEq, if_false, Nat.zero_add]
    by_cases hex : ∃ x ∈ t.ins ++ t.outs, x.id = id
    · obtain ⟨x, hx, rfl⟩ := hex
      rw [sum_worth_all _ _ fun y hy => h4 y (List.mem_append_left _ hy) x hx,
        sum_worth_all _ _ fun y hy => h4 y (List.mem_append_right _ hy) x hx]
      simpa using h1
    · rw [sum_worth_none _ _ fun x hx e => hex ⟨x, List.mem_append_left _ hx, e⟩,
        sum_worth_none _ _ fun x hx e => hex ⟨x, List.mem_append_right _ hx, e⟩]

/-! ## Invariant of histories -/

structure Inv (env : Env T) (q : Nat) (us : List Nat) (ext : List (Nat × Nat × Nat)) (ts : List (Transfer T))
    (s : State T) : Prop where
  coins : ∃ log, Coins env s log ∧ log.map ReceiverPost.utxo = (created ts).map Receiver.utxo
  nuls : s.nullifiers.map Nul.cm = (spends ts).map fun x => x.nul.cm
  once : NoDouble s.nullifiers
  sat : ∀ t ∈ ts, (t.auth.isSome = true ↔ t.senders ≠ []) ∧ circuit env.crypto q t = some true
  present : ∀ x ∈ spends ts, (held x.utxo x.plain).value ≠ 0 →
    ∃ r ∈ created ts, env.crypto.item r.utxo = env.crypto.item x.utxo
  supply : ∀ U : List Nat, U.Nodup → (∀ a ∈ us, a ∈ U) → ∀ id,
    publicSupply s U id + ((created ts).map fun r => worth id (held r.utxo r.plain)).sum + overwritten ext id =
      putIn ext id + ((spends ts).map fun x => worth id (held x.utxo x.plain)).sum

theorem balance_setBalance (s s' : State T) (a id v a' id' : Nat) (h : setBalance s a id v = some s') :
    balance s'.accounts a' id' = if a = a' ∧ id = id' then v else balance s.accounts a' id' := by
  unfold setBalance at h
  split at h
  · cases h
  · cases h
    simp only [balance, mget_mput]
    by_cases h1 : a = a'
    · subst h1
      simp only [if_true, true_and]
      by_cases h2 : id = id'
      · subst h2; simp [mget_mput]
      · cases hm : mget s.accounts a with
        | none =>
          simp only [Option.getD_none, Option.getD_some, Option.bind_none, Option.bind_some, mget_mput, if_neg h2]
          rfl
        | some m => simp [mget_mput, h2]
    · simp [h1]

/-- C36, setting a balance from outside: refused for asset 0 only, and otherwise this balance is the new one and
nothing else changes. -/
theorem c36_set_balance (s : State T) (a id v : Nat) :
    (setBalance s a id v = none ↔ id = 0) ∧ ∀ s', setBalance s a id v = some s' →
      (∀ a' id', balance s'.accounts a' id' = if a = a' ∧ id = id' then v else balance s.accounts a' id') ∧
      s'.nullifiers = s.nullifiers ∧ s'.utxos = s.utxos ∧ s'.shards = s.shards ∧ s'.forest = s.forest := by
  refine ⟨?_, fun s' h => ⟨fun a' id' => balance_setBalance s s' a id v a' id' h, ?_⟩⟩
  · unfold setBalance
    split
    · rename_i h0; simp [h0]
    · rename_i h0; simp [h0]
  · unfold setBalance at h
    split at h
    · cases h
    · cases h; exact ⟨rfl, rfl, rfl, rfl⟩

example (T : Ty) : setBalance (State.new : State T) 3 0 5 = none ∧
    ∃ s', setBalance (State.new : State T) 3 8 5 = some s' ∧ balance s'.accounts 3 8 = 5 ∧
      balance s'.accounts 3 9 = 0 ∧ balance s'.accounts 4 8 = 0 := ⟨rfl, _, rfl, rfl, rfl, rfl⟩

theorem created_snoc (ts : List (Transfer T)) (t : Transfer T) : created (ts ++ [t]) = created ts ++ t.receivers := by
  simp [created]

theorem spends_snoc (ts : List (Transfer T)) (t : Transfer T) : spends (ts ++ [t]) = spends ts ++ t.senders := by
  simp [spends]

theorem hist_inv (env : Env T) (he : Exact env.contains) (q : Nat) (hq : 2 ^ 129 ≤ q) {us ext ts s}
    (h : Hist env q us ext ts s) : Inv env q us ext ts s := by
  induction h with
  | start =>
    refine ⟨⟨[], new_coins env, rfl⟩, rfl, List.Pairwise.nil, fun _ h => (nomatch h), fun _ h => (nomatch h), ?_⟩
    intro U _ _ id
    have : (U.map fun a => balance (State.new : State T).accounts a id) = U.map fun _ => 0 :=
      List.map_congr_left fun _ _ => rfl
    simp [publicSupply, this, created, spends, putIn, overwritten, sum_zero]
  | @deposit us ext ts s s' a id v _ hb ih =>
    obtain ⟨b1, b2, b3, b4⟩ := setBalance_same s s' a id v hb
    obtain ⟨log, hl, hlu⟩ := ih.coins
    refine ⟨⟨log, coins_of_same env s s' log hl b2 b3 b4, hlu⟩, by rw [b1]; exact ih.nuls,
      by rw [b1]; exact ih.once, ih.sat, ih.present, ?_⟩
    intro U hU hin j
    have hbal := fun a' => balance_setBalance s s' a id v a' j hb
    have := ih.supply U hU (fun x hx => hin x (by simp [hx])) j
    have hsum : publicSupply s' U j + (if id = j then balance s.accounts a id else 0) =
        publicSupply s U j + (if id = j then v else 0) := by
      by_cases hj : id = j
      · subst hj
        have hu := sum_update U hU (fun x => balance s.accounts x id) (fun x => balance s'.accounts x id) a
          (hin a (by simp)) (fun x hx => by rw [hbal, if_neg (fun e => hx e.1.symm)])
        simp only [if_true]
        rw [hbal, if_pos ⟨rfl, rfl⟩] at hu
        exact hu
      · simp only [if_neg hj, Nat.add_zero]
        exact sum_same U _ _ fun x => by rw [hbal, if_neg (fun e => hj e.2)]
    simp only [overwritten, putIn, List.map_append, List.sum_append, List.map_cons, List.map_nil, List.sum_cons,
      List.sum_nil, Nat.add_zero] at this ⊢
    omega
  | @post us ext ts s s' account p t _ hs hb htr hfit ih =>
    obtain ⟨log, hl, hlu⟩ := ih.coins
    have hacc : (submit env s account p).1 = .accepted := by rw [hs]
    have hsec : (submit env s account p).2 = s' := by rw [hs]
    have hne : ¬ (submit env s account p).1 = .rejected := by rw [hacc]; simp
    have hc := submit_coins env s log account p hl
    rw [if_neg hne, hsec] at hc
    have hn := submit_nullifiers env he s account p
    rw [if_neg hne, hsec] at hn
    have hd := submit_noDouble env he s account p ih.once
    rw [hsec] at hd
    obtain ⟨shape, _, hv, _⟩ := submit_applied env s account p _ s' hs (by simp)
    have hcm : p.body.senders.map (fun x => x.nul.cm) = t.senders.map (fun x => x.nul.cm) := by
      have := congrArg (List.map Prod.snd) hb.senders
      simpa [List.map_map, Function.comp_def] using this
    have hroot : ∀ x ∈ t.senders, matching env s x.root = true := by
      intro x hx
      have : (x.root, x.nul.cm) ∈ p.body.senders.map (fun x => (x.root, x.nul.cm)) := by
        rw [hb.senders]; exact List.mem_map.2 ⟨x, hx, rfl⟩
      obtain ⟨y, hy, e⟩ := List.mem_map.1 this
      simp only [Prod.mk.injEq] at e
      rw [← e.1]
      exact hv.roots y hy
    refine ⟨⟨log ++ p.body.receivers, hc, ?_⟩, ?_, hd, ?_, ?_, ?_⟩
    · rw [List.map_append, hlu, hb.receivers, created_snoc, List.map_append]
    · rw [hn, List.map_append, ih.nuls, spends_snoc, List.map_append, ← hcm, List.map_map]
      rfl
    · intro t' ht'
      rcases List.mem_append.1 ht' with h | h
      · exact ih.sat t' h
      · rw [List.mem_singleton.1 h]; exact ⟨hb.shape, hb.sat⟩
    · intro x hx hv0
      rw [spends_snoc] at hx
      rcases List.mem_append.1 hx with hx | hx
      · obtain ⟨r, hr, e⟩ := ih.present x hx hv0
        exact ⟨r, by rw [created_snoc]; exact List.mem_append_left _ hr, e⟩
      · obtain ⟨a, _, _, _, hm, _⟩ := (c32_openings env.crypto q hq t hb.shape hb.sat).1 x hx
        obtain ⟨i, hi⟩ := htr x hx (hroot x hx) (hm hv0)
        rw [hl.forest i] at hi
        obtain ⟨r, hr, e⟩ := List.mem_map.1 (List.mem_of_mem_take hi)
        have hr' : r.utxo ∈ log.map ReceiverPost.utxo :=
          List.mem_map_of_mem (List.mem_filter.1 hr).1
        rw [hlu] at hr'
        obtain ⟨r', hr', e'⟩ := List.mem_map.1 hr'
        exact ⟨r', by rw [created_snoc]; exact List.mem_append_left _ hr', by rw [e', e]⟩
    · intro U hU hin id
      have hprev := ih.supply U hU (fun x hx => hin x (by simp [hx])) id
      obtain ⟨k1, k2, k3⟩ := c36_balances env s s' account p hs
        (fun hw a id hi => by have := hfit hw a id hi; split <;> omega)
      have hbal := transfer_balanced env.crypto q hq t hb.shape hb.sat
        (by rw [← hb.assetId, ← hb.sources, ← hb.sinks]; exact k3) id
      rw [← hb.assetId, ← hb.sources, ← hb.sinks] at hbal
      have hsum : publicSupply s' U id + (if p.body.assetId = some id then p.body.sources.sum else 0) =
          publicSupply s U id + (if p.body.assetId = some id then p.body.sinks.sum else 0) := by
        by_cases hi : p.body.assetId = some id
        · have hu := sum_update U hU (fun x => balance s.accounts x id) (fun x => balance s'.accounts x id) account
            (hin account (by simp)) (fun x hx => k2 x id (.inl hx))
          have := (k1 id hi).2
          simp only [if_pos hi]
          unfold publicSupply
          omega
        · simp only [if_neg hi, Nat.add_zero]
          exact sum_same U _ _ fun x => k2 x id (.inr hi)
      have e1 : (t.ins.map (worth id)).sum = (t.senders.map fun x => worth id (held x.utxo x.plain)).sum := by
        simp [Transfer.ins, List.map_map, Function.comp_def]
      have e2 : (t.outs.map (worth id)).sum = (t.receivers.map fun x => worth id (held x.utxo x.plain)).sum := by
        simp [Transfer.outs, List.map_map, Function.comp_def]
      rw [e1, e2] at hbal
      rw [created_snoc, spends_snoc]
      simp only [List.map_append, List.sum_append]
      omega

/-! ## C65 -/

theorem pairwise_nodup_map {α β γ : Type} (l : List α) (f : α → β) (g : α → γ)
    (h : l.Pairwise fun a b => f a ≠ f b) (hfg : ∀ a ∈ l, ∀ b ∈ l, g a = g b → f a = f b) : (l.map g).Nodup := by
  rw [List.Nodup, List.pairwise_map]
  refine List.Pairwise.imp_of_mem ?_ h
  intro a b ha hb hne e
  exact hne (hfg a ha b hb e)

/-- C65 (part): in every history without collisions whose posts are backed by satisfying assignments, for every
asset id, the public balances plus the value of the unspent coins equal what was deposited from outside (less
what deposits overwrote). In particular no sequence of posts creates value. -/
theorem c65_no_inflation_partial (env : Env T) (he : Exact env.contains) (q : Nat) (hq : 2 ^ 129 ≤ q)
    {us ext ts s} (h : Hist env q us ext ts s) (hcol : NoCollisions env.crypto ts)
    (U : List Nat) (hU : U.Nodup) (hin : ∀ a ∈ us, a ∈ U) (id : Nat) :
    publicSupply s U id + unspentSupply ts id + overwritten ext id = putIn ext id := by
  have hinv := hist_inv env he q hq h
  have hsup := hinv.supply U hU hin id
  obtain ⟨log, hl, hlu⟩ := hinv.coins
  have hR : ((created ts).map Receiver.utxo).Nodup := by rw [← hlu]; exact hl.nodup
  -- membership of openings
  have hopS : ∀ t ∈ ts, ∀ x ∈ t.senders, ∀ a, t.auth = some a →
      (x.plain.rand, x.plain.asset.id, x.plain.asset.value, env.crypto.smul env.crypto.gen (env.crypto.viewKey a.pak))
        ∈ openings env.crypto ts := by
    intro t ht x hx a ha
    refine List.mem_append_right _ (List.mem_flatMap.2 ⟨t, ht, List.mem_flatMap.2 ⟨x, hx, ?_⟩⟩)
    rw [ha]
    simp
  have hopR : ∀ t ∈ ts, ∀ r ∈ t.receivers,
      (r.plain.rand, r.plain.asset.id, r.plain.asset.value, r.rk) ∈ openings env.crypto ts := by
    intro t ht r hr
    exact List.mem_append_left _ (List.mem_flatMap.2 ⟨t, ht, List.mem_map.2 ⟨r, hr, rfl⟩⟩)
  -- no coin is spent twice
  have hpw : (spends ts).Pairwise fun a b => a.nul.cm ≠ b.nul.cm := by
    have h1 : (s.nullifiers.map Nul.cm).Pairwise fun a b => a ≠ b := List.pairwise_map.2 hinv.once
    rw [hinv.nuls, List.pairwise_map] at h1
    exact h1
  have hS : ((spends ts).map Sender.utxo).Nodup := by
    refine pairwise_nodup_map _ (fun x => x.nul.cm) _ hpw ?_
    intro x hx y hy e
    obtain ⟨t, ht, hxt⟩ := List.mem_flatMap.1 hx
    obtain ⟨t', ht', hyt⟩ := List.mem_flatMap.1 hy
    obtain ⟨s1, s2⟩ := hinv.sat t ht
    obtain ⟨s1', s2'⟩ := hinv.sat t' ht'
    obtain ⟨a, ha, _⟩ := (c32_openings env.crypto q hq t s1 s2).1 x hxt
    obtain ⟨a', ha', _⟩ := (c32_openings env.crypto q hq t' s1' s2').1 y hyt
    rcases c60_same_coin_same_nullifier env.crypto q hq t t' s1 s1' s2 s2' a a' ha ha' x y hxt hyt e with h | h | h
    · exact h
    · exact absurd h (hcol.commit _ (hopS t ht x hxt a ha) _ (hopS t' ht' y hyt a' ha'))
    · exact absurd h (hcol.key a (List.mem_flatMap.2 ⟨t, ht, by rw [ha]; simp⟩) a'
        (List.mem_flatMap.2 ⟨t', ht', by rw [ha']; simp⟩))
  -- a spend takes the value of the coin
  have hval : ∀ x ∈ spends ts, ∀ r ∈ created ts, r.utxo = x.utxo →
      worth id (held r.utxo r.plain) = worth id (held x.utxo x.plain) := by
    intro x hx r hr e
    obtain ⟨t', ht', hxt⟩ := List.mem_flatMap.1 hx
    obtain ⟨t, ht, hrt⟩ := List.mem_flatMap.1 hr
    obtain ⟨s1, s2⟩ := hinv.sat t ht
    obtain ⟨s1', s2'⟩ := hinv.sat t' ht'
    obtain ⟨a', ha', _⟩ := (c32_openings env.crypto q hq t' s1' s2').1 x hxt
    rcases c60_created_then_spent env.crypto q hq t t' s1 s1' s2 s2' a' ha' r x hrt hxt e with h | h
    · rw [h.1]
    · exact absurd h (hcol.commit _ (hopR t ht r hrt) _ (hopS t' ht' x hxt a' ha'))
  have hpres : ∀ x ∈ spends ts, worth id (held x.utxo x.plain) ≠ 0 → ∃ r ∈ created ts, r.utxo = x.utxo := by
    intro x hx hw
    obtain ⟨r, hr, e⟩ := hinv.present x hx (by
      intro h0; apply hw; unfold worth; rw [h0]; simp)
    refine ⟨r, hr, ?_⟩
    by_cases hru : r.utxo = x.utxo
    · exact hru
    · exact absurd ⟨hru, e⟩ (hcol.item r hr x hx)
  have hmark := sum_marked (created ts) (spends ts) Receiver.utxo Sender.utxo
    (fun r => worth id (held r.utxo r.plain)) (fun x => worth id (held x.utxo x.plain)) hR hS hval hpres
  have hsplit := sum_split (created ts) (fun r => worth id (held r.utxo r.plain))
    (fun r => r.utxo ∈ (spends ts).map Sender.utxo)
  unfold unspentSupply
  omega

/-- C65: no account and no set of accounts ever holds more of an asset than was deposited. -/
theorem c65_bounded_partial (env : Env T) (he : Exact env.contains) (q : Nat) (hq : 2 ^ 129 ≤ q)
    {us ext ts s} (h : Hist env q us ext ts s) (hcol : NoCollisions env.crypto ts)
    (U : List Nat) (hU : U.Nodup) (hin : ∀ a ∈ us, a ∈ U) (id : Nat) :
    publicSupply s U id ≤ putIn ext id := by
  have := c65_no_inflation_partial env he q hq h hcol U hU hin id
  omega

/-! ### The hypotheses hold together -/

/-- A coin of `v` units of asset 8 for receiving key 5, the one of `tAuth`. -/
def mine (r v : Nat) : Receiver TT where
  rk := (5 : Nat)
  irand := (2 : Nat)
  plain := ⟨r, ⟨8, v⟩⟩
  utxo := ⟨false, ⟨0, 0⟩, [r, 8, v, 5]⟩
  note := ⟨(0 : Nat), [5, 2, r, 8, v], (0 : Nat)⟩

def mintT (r v : Nat) : Transfer TT := ⟨none, some 8, [v], [], [mine r v], []⟩

/-- Spends coins of 6 and 7, keeps 9 and withdraws 4. -/
def reclaimT : Transfer TT := ⟨some tAuth, some 8, [], [tSender 1 6, tSender 2 7], [tReceiver 3 9], [4]⟩

def postOf (t : Transfer TT) (sk : Option Nat) (acc : List Nat) : Post TT :=
  match t.intoPost tcrypto sk acc with
  | .made p => p
  | _ => ⟨none, ⟨none, [], [], [], [], (0 : Nat)⟩, []⟩

@[reducible] def hEnv : Env TT := tEnv false eContains

def hS1 : State TT := (setBalance (State.new : State TT) 1 8 100).getD State.new
def hS2 : State TT := (submit hEnv hS1 1 (postOf (mintT 1 6) none [])).2
def hS3 : State TT := (submit hEnv hS2 1 (postOf (mintT 2 7) none [])).2
def hS4 : State TT := (submit hEnv hS3 1 (postOf reclaimT (some 4) [1])).2

theorem hist_example : Hist hEnv (2 ^ 254) [1, 1, 1, 1] [(8, 0, 100)] [mintT 1 6, mintT 2 7, reclaimT] hS4 := by
  have h1 : Hist hEnv (2 ^ 254) [1] [(8, 0, 100)] [] hS1 := Hist.deposit 1 8 100 Hist.start rfl
  have h2 : Hist hEnv (2 ^ 254) [1, 1] [(8, 0, 100)] [mintT 1 6] hS2 :=
    Hist.post 1 (postOf (mintT 1 6) none []) (mintT 1 6) h1 (Prod.ext (by decide +kernel) rfl)
      ⟨by decide, by decide +kernel, rfl, rfl, rfl, rfl, rfl⟩ (fun _ h => (nomatch h)) (fun h => (nomatch h))
  have h3 : Hist hEnv (2 ^ 254) [1, 1, 1] [(8, 0, 100)] [mintT 1 6, mintT 2 7] hS3 :=
    Hist.post 1 (postOf (mintT 2 7) none []) (mintT 2 7) h2 (Prod.ext (by decide +kernel) rfl)
      ⟨by decide, by decide +kernel, rfl, rfl, rfl, rfl, rfl⟩ (fun _ h => (nomatch h)) (fun h => (nomatch h))
  refine Hist.post 1 (postOf reclaimT (some 4) [1]) reclaimT h3 (Prod.ext (by decide +kernel) rfl)
      ⟨by decide, by decide +kernel, rfl, rfl, rfl, rfl, rfl⟩ ?_ (fun h => (nomatch h))
  intro x hx _ _
  simp only [reclaimT, List.mem_cons, List.not_mem_nil, or_false] at hx
  rcases hx with rfl | rfl
  · exact ⟨1, by decide +kernel⟩
  · exact ⟨2, by decide +kernel⟩

theorem noCollisions_example (ts : List (Transfer TT)) (h : ∀ t ∈ ts, ∀ a ∈ t.auth, a = tAuth) :
    NoCollisions tcrypto ts where
  commit := by
    rintro ⟨a, b, c, d⟩ _ ⟨a', b', c', d'⟩ _ ⟨hne, he⟩
    simp only [List.cons.injEq, and_true] at he
    obtain ⟨rfl, rfl, rfl, rfl⟩ := he
    exact hne rfl
  key := by
    intro a ha b hb hc
    obtain ⟨t, ht, ha⟩ := List.mem_flatMap.1 ha
    obtain ⟨t', ht', hb⟩ := List.mem_flatMap.1 hb
    rw [h t ht a (by simpa using ha), h t' ht' b (by simpa using hb)] at hc
    exact hc.ne rfl
  item := by
    rintro ⟨rk, ir, pl, ⟨t, ⟨i, v⟩, cm⟩, n⟩ _ ⟨o, pl', ⟨t', ⟨i', v'⟩, cm'⟩, w, rt, nn⟩ _ ⟨hne, he⟩
    simp only [List.cons.injEq] at he
    obtain ⟨h1, rfl, rfl, rfl⟩ := he
    cases t <;> cases t' <;> simp_all

example : Exact hEnv.contains ∧ (2 ^ 129 ≤ 2 ^ 254) ∧
    NoCollisions hEnv.crypto [mintT 1 6, mintT 2 7, reclaimT] ∧
    publicSupply hS4 [1] 8 = 91 ∧ unspentSupply [mintT 1 6, mintT 2 7, reclaimT] 8 = 9 ∧
    putIn [(8, 0, 100)] 8 = 100 ∧ overwritten [(8, 0, 100)] 8 = 0 := by
  refine ⟨eContains_exact, by decide, noCollisions_example _ ?_, by decide +kernel, by decide +kernel, by decide,
    by decide⟩
  intro t ht a ha
  simp only [List.mem_cons, List.not_mem_nil, or_false] at ht
  rcases ht with rfl | rfl | rfl
  · exact (nomatch ha)
  · exact (nomatch ha)
  · exact (Option.some.inj ha).symm

/-! ### What is missing -/

/-- C65 fails for the code as it is: the ledger drops the verdict of the verifier (C59), so a post whose proof
does not verify withdraws 7 units although no coin was ever created. -/
theorem c65_violated :
    let p := pReclaim [40, 1] [40, 2] 0 50 7 [1]
    let bad : Post TT := ⟨some ⟨(4 : Nat), tcrypto.sign (4 : Nat) {p.body with proof := (5 : Nat)} [1]⟩,
      {p.body with proof := (5 : Nat)}, [1]⟩
    let r := submit hEnv s0 1 bad
    hEnv.verifyProof .toPublic (bad.input tEnc) bad.body.proof = some false ∧ s0.utxos = [] ∧
    r.1 = .accepted ∧ balance s0.accounts 1 8 = 100 ∧ balance r.2.accounts 1 8 = 107 := by
  refine ⟨rfl, rfl, by decide +kernel, by decide +kernel, by decide +kernel⟩

end Verif.Ledger
