import Verif.Settle.Props

/-! # A concrete signer and ledger for C112 and C114 -/

namespace Verif.Settle

open Verif.Asset (Asset AMap mget)
open Verif.Asset.AMap (Stored MWF stock assetVectorWithId)
open Verif.Transfer
open Verif.Ledger (Ix State push submit balance)
open Verif.Sign (Ready Laws)

/-- Accumulator: committed leaves and leaves added since. -/
structure Tree where
  base : List (List Nat)
  extra : List (List Nat)
deriving DecidableEq

def Tree.all (t : Tree) : List (List Nat) := t.base ++ t.extra

/-- The leaves of a shard. -/
def Tree.shard (ix : List Nat → Ix) (t : Tree) (i : Ix) : List (List Nat) := t.all.filter fun l => decide (ix l = i)

/-- Shards of 100 leaves, the root is the sum. -/
def tRoot (xs : List (List Nat)) : Nat := (xs.map List.sum).sum

/-- Ledger with shards `ix`. -/
def tLedger (ix : List Nat → Ix) : Ledger.Env tP.ty where
  crypto := tK.crypto (2 : Nat)
  enc := ⟨fun (g : Nat) => [g], fun i => [i], fun v => [v], fun (r : Nat) => [r], fun (l : List Nat) => l,
    fun u => u.pubAsset.id :: u.cm, fun n => n.1 :: n.2⟩
  treeIndex := fun (l : List Nat) => ix l
  root := fun xs => tRoot xs
  defaultRoot := (0 : Nat)
  capacity := 100
  verifyProof := fun _ _ (p : Nat) => if p = 7 then some true else none
  contains := fun l n => l.any fun m => decide (m.cm = n.cm)
  wraps := false

def tWire (ix : List Nat → Ix) : Wire tP Tree where
  kit := tK
  sk := (4 : Nat)
  ledger := tLedger ix
  modulus := 2 ^ 254
  insert := fun a l => if (a.shard ix (ix l)).length < 100 then (true, {a with extra := a.extra ++ [l]}) else (false, a)
  contains := fun a l => a.all.any fun x => decide (x = l)
  rollback := fun a => {a with extra := []}
  view := fun a i => a.shard ix i
  wit := fun a (l : List Nat) => tRoot (a.shard ix (ix l)) - l.sum
  noWit := (0 : Nat)
  rand := fun i => 1000 + i
  randomizer := fun _ => (3 : Nat)
  nonce := fun _ => (2 : Nat)
  spendRand := fun _ => ((6 : Nat), (0 : Nat))
  mintRand := fun _ => ((2 : Nat), (0 : Nat))

theorem sum_le_root (xs : List (List Nat)) (l : List Nat) (h : l ∈ xs) : l.sum ≤ tRoot xs := by
  induction xs with
  | nil => cases h
  | cons x xs ih =>
    have e : tRoot (x :: xs) = x.sum + tRoot xs := by simp [tRoot]
    rcases List.mem_cons.mp h with rfl | h
    · omega
    · have := ih h
      omega

theorem tWire_insert (ix : List Nat → Ix) (a : Tree) (l : List Nat) :
    (tWire ix).insert a l = if (a.shard ix (ix l)).length < 100 then (true, {a with extra := a.extra ++ [l]}) else (false, a) :=
  rfl

theorem tWire_fine (ix : List Nat → Ix) : (tWire ix).Fine where
  laws := tP_laws
  same := ⟨(2 : Nat), rfl⟩
  modulus := show 2 ^ 128 ≤ 2 ^ 254 by decide +kernel
  complete := by
    intro t shape _ _ hc
    refine ⟨(7 : Nat), ?_, by simp [tWire, tLedger]⟩
    have : t.receivers ≠ [] := by
      intro e
      rw [e, List.length_nil] at hc
      generalize t.auth.isSome = x1, t.assetId.isSome = x2, t.sources.length = x3, t.senders.length = x4,
        t.sinks.length = x6 at hc
      cases hc
    cases hr : t.receivers with
    | nil => exact absurd hr this
    | cons _ _ => simp [tWire, tK, hr]
  grows := by
    intro a (l : List Nat)
    funext i
    have h0 : (tWire ix).ledger.treeIndex l = ix l := rfl
    have hcap : (tWire ix).ledger.capacity = 100 := rfl
    have hv : ∀ a, (tWire ix).view a = a.shard ix := fun _ => rfl
    unfold growOne
    rw [h0, hcap, hv, hv, tWire_insert]
    by_cases h : (a.shard ix (ix l)).length < 100
    · rw [if_pos h, if_pos h]
      by_cases hi : i = ix l
      · rw [if_pos hi]; subst hi; simp [Tree.shard, Tree.all, List.filter_append]
      · rw [if_neg hi]; simp [Tree.shard, Tree.all, List.filter_append]; exact fun e => hi e.symm
    · rw [if_neg h, if_neg h]
  member := by
    intro a (l : List Nat) h
    have hm : l ∈ a.all := by simpa [tWire] using h
    have := sum_le_root (a.shard ix (ix l)) l (by simp [Tree.shard, hm])
    show decide (tRoot (a.shard ix (ix l)) = (tRoot (a.shard ix (ix l)) - l.sum) + l.sum) = true
    rw [decide_eq_true_eq]
    omega
  lookup := by
    intro l n h
    simpa [tWire, tLedger] using h

def tFree (a : Tree) : Nat := 100 - a.all.length

theorem tWire_laws (ix : List Nat → Ix) : Laws (tWire ix).sign tFree where
  room := by
    intro a (l : List Nat) h
    have h' : (a.shard ix (ix l)).length < 100 := by
      have : (a.shard ix (ix l)).length ≤ a.all.length := List.length_filter_le ..
      unfold tFree at h; omega
    have e : (tWire ix).sign.insert a l = (true, {a with extra := a.extra ++ [l]}) := by
      show (tWire ix).insert a l = _
      rw [tWire_insert, if_pos h']
    rw [e]
    refine ⟨rfl, ?_⟩
    simp [tFree, Tree.all]
    omega
  has := by
    intro a (l : List Nat) _ h
    have e : (tWire ix).sign.insert a l = (tWire ix).insert a l := rfl
    rw [e, tWire_insert] at h ⊢
    split
    · simp [Wire.sign, tWire, Tree.all]
    · rename_i h'
      rw [if_neg h'] at h
      cases h
  keeps := by
    intro a (l : List Nat) x h
    have e : (tWire ix).sign.insert a l = (tWire ix).insert a l := rfl
    rw [e, tWire_insert]
    split
    · simp [Wire.sign, tWire, Tree.all] at h ⊢
      rcases h with h | h
      · exact .inl h
      · exact .inr (.inl h)
    · exact h
  undo := by
    intro a (l : List Nat)
    have e : (tWire ix).sign.insert a l = (tWire ix).insert a l := rfl
    rw [e, tWire_insert]
    split <;> rfl

/-- All coins in one shard; new coins in another shard than old ones. -/
def one : List Nat → Ix := fun _ => 0
def two : List Nat → Ix := fun l => if l.any (fun x => decide (1000 ≤ x)) then 1 else 0

/-- Three coins of asset 7 with values 10, 20, 30. -/
def tCoins : AMap (Ident tP) :=
  [((false, (1 : Nat)), [⟨7, 10⟩]), ((false, (2 : Nat)), [⟨7, 20⟩]), ((false, (3 : Nat)), [⟨7, 30⟩])]

def tLeaves : List (List Nat) :=
  [(tWire one).leaf (false, (1 : Nat)) ⟨7, 10⟩, (tWire one).leaf (false, (2 : Nat)) ⟨7, 20⟩,
   (tWire one).leaf (false, (3 : Nat)) ⟨7, 30⟩]

def tSigner : Sign.Signer (Ident tP) Tree := ⟨true, true, tCoins, ⟨tLeaves, []⟩, 0⟩

/-- The ledger holding these coins; account 77 holds 5 units of asset 7. -/
def tState (ix : List Nat → Ix) : State tP.ty := ⟨[], [], fun _ => [], Tree.shard ix ⟨tLeaves, []⟩, [(77, [(7, 5)])]⟩

/-- Transfers of a request. -/
def tTxs (ix : List Nat → Ix) (r : Sign.Transaction tP.Grp Nat) : List (TxOf tP Tree) :=
  match (Sign.sign (tWire ix).sign tSigner r).1 with
  | .ok txs => txs
  | _ => []

def tPush (ix : List Nat → Ix) (txs : List (TxOf tP Tree)) : Ledger.Outcome × State tP.ty := push (tWire ix).ledger (tState ix) 77 ((tWire ix).posts txs)

theorem tStored {k : Ident tP} {a : Asset} (h : Stored tSigner.assets k a) :
    (k, a) ∈ [((false, 1), (⟨7, 10⟩ : Asset)), ((false, 2), ⟨7, 20⟩), ((false, 3), ⟨7, 30⟩)] := by
  obtain ⟨as, h1, h2⟩ := h
  simp only [tSigner, tCoins, List.mem_cons, Prod.mk.injEq, List.not_mem_nil, or_false] at h1 ⊢
  rcases h1 with ⟨rfl, rfl⟩ | ⟨rfl, rfl⟩ | ⟨rfl, rfl⟩ <;> simp at h2 <;> simp [h2]

theorem tReady (ix : List Nat → Ix) : Ready (tWire ix).sign tSigner := by
  refine ⟨rfl, ⟨by simp [Verif.Asset.KeysNodup, tSigner, tCoins], by simp [tSigner, tCoins],
    by simp [tSigner, tCoins]⟩, ?_, ⟨?_, ?_⟩, rfl⟩
  · intro k a h
    have := tStored h
    simp only [List.mem_cons, Prod.mk.injEq, List.not_mem_nil, or_false] at this
    rcases this with ⟨rfl, rfl⟩ | ⟨rfl, rfl⟩ | ⟨rfl, rfl⟩ <;> rfl
  · intro i j _ _ _ _ h
    have h' : 1000 + i = 1000 + j := congrArg Prod.snd h
    omega
  · rintro i - - ⟨a, h⟩
    have := tStored h
    simp only [Wire.sign, tWire, List.mem_cons, Prod.mk.injEq, List.not_mem_nil, or_false] at this
    omega

/-- `NoClash`, computed. -/
def tClear (ix : List Nat → Ix) (txs : List (TxOf tP Tree)) : Bool :=
  (((tWire ix).posts txs).all fun p => match p.sig with
    | some sg => decide (tP.smul tP.gen sg.sig.1 ≠ sg.sig.2)
    | none => true) &&
  decide (∀ c ∈ Sign.spent txs, ∀ d ∈ Sign.spent txs, (tWire ix).nullifier c.1 c.2 = (tWire ix).nullifier d.1 d.2 → c = d) &&
  decide (∀ r ∈ Sign.made txs, ∀ q ∈ Sign.made txs, (tWire ix).utxo r = (tWire ix).utxo q → r = q)

theorem tClear_noClash (ix : List Nat → Ix) (txs : List (TxOf tP Tree)) (h : tClear ix txs = true) :
    NoClash (tWire ix) (tState ix) tSigner.assets txs := by
  simp only [tClear, Bool.and_eq_true, decide_eq_true_eq, List.all_eq_true] at h
  refine ⟨?_, h.1.2, h.2, ?_, ?_⟩
  · intro p hp sg hs
    have := h.1.1 p hp
    rw [hs] at this
    exact of_decide_eq_true this
  · intro c _ _ n hn
    cases hn
  · intro r _ hr
    cases hr

theorem tUnspent (ix : List Nat → Ix) : ∀ k a, Stored tSigner.assets k a → ∀ n ∈ (tState ix).nullifiers, n.cm ≠ (tWire ix).nullifier k a := by
  intro k a _ n hn
  cases hn

theorem tBounded (ix : List Nat → Ix) : ∀ a id, balance (tState ix).accounts a id < 2 ^ 128 := by
  intro a id
  simp only [balance, tState, Verif.Asset.mget]
  split
  · decide
  · rename_i m h
    have h2 : m = [(7, 5)] := by
      by_cases ha : 77 = a
      · simp [ha] at h
        exact h.symm
      · simp [ha] at h
    subst h2
    by_cases hi : 7 = id
    · simp [hi]
    · simp [hi]

/-- C114 does not hold for withdrawals that need more than one post: everything assumed of signer, ledger, prover,
and randomness is met, the request for 45 of the 60 units held is signed, the ledger accepts the first post, which
pays 15, and rejects the second. -/
theorem c114_to_public_violated :
    (tWire one).Fine ∧ Ready (tWire one).sign tSigner ∧ (tWire one).view tSigner.acc = (tState one).forest ∧
    45 ≤ stock tSigner.assets 7 ∧ (∃ g', Sign.sign (tWire one).sign tSigner (.toPublic ⟨7, 45⟩ 77) =
      (.ok (tTxs one (.toPublic ⟨7, 45⟩ 77)), g')) ∧
    NoClash (tWire one) (tState one) tSigner.assets (tTxs one (.toPublic ⟨7, 45⟩ 77)) ∧
    (tPush one (tTxs one (.toPublic ⟨7, 45⟩ 77))).1 = .rejected ∧
    balance (tState one).accounts 77 7 = 5 ∧ balance (tPush one (tTxs one (.toPublic ⟨7, 45⟩ 77))).2.accounts 77 7 = 20 := by
  refine ⟨(tWire_fine one), (tReady one), rfl, by decide +kernel, ?_, tClear_noClash one _ (by decide +kernel), by decide +kernel,
    by decide +kernel, by decide +kernel⟩
  obtain ⟨txs, g', h, _⟩ := c114_to_public_partial (tWire_fine one) tSigner (tReady one) (tState one) 77 rfl (tUnspent one) (tBounded one) ⟨7, 45⟩
    (by decide) (by decide +kernel) (by decide +kernel) (by decide +kernel) (by decide +kernel)
  refine ⟨g', ?_⟩
  unfold tTxs
  rw [h]

/-- The hypotheses of the other theorems of C112 and C114 are met: two posts, two posts, one post, one post. -/
example : Laws (tWire one).sign tFree ∧ 2 * (assetVectorWithId tSigner.assets 7).length ≤ tFree tSigner.acc ∧
    tClear one (tTxs one (.privateTransfer ⟨7, 45⟩ (.other (9 : Nat)))) = true ∧
    (tTxs one (.privateTransfer ⟨7, 45⟩ (.other (9 : Nat)))).length = 2 ∧
    (tPush one (tTxs one (.privateTransfer ⟨7, 45⟩ (.other (9 : Nat))))).1 = .accepted ∧
    (tPush one (tTxs one (.privateTransfer ⟨7, 45⟩ (.other (9 : Nat))))).2.utxos.length = 4 :=
  ⟨tWire_laws one, by decide +kernel, by decide +kernel, by decide +kernel, by decide +kernel, by decide +kernel⟩

/-- Coins to consolidate. -/
def tReq : List (Ident tP × Asset) := [((false, 1), ⟨7, 10⟩), ((false, 2), ⟨7, 20⟩), ((false, 3), ⟨7, 30⟩)]

example : Sign.consolidationOk tReq = true ∧ (∀ c ∈ tReq, Stored tSigner.assets c.1 c.2) ∧
    2 * tReq.length ≤ tFree tSigner.acc ∧
    (match (Sign.consolidate (tWire one).sign tSigner tReq).1 with
     | .ok txs => tClear one txs && decide (txs.length = 2) && decide ((tPush one txs).1 = .accepted)
     | _ => false) = true := by
  refine ⟨by decide +kernel, ?_, by decide +kernel, by decide +kernel⟩
  intro c hc
  simp only [tReq, List.mem_cons, List.not_mem_nil, or_false] at hc
  rcases hc with rfl | rfl | rfl
  · exact ⟨[⟨7, 10⟩], by simp [tSigner, tCoins], by simp⟩
  · exact ⟨[⟨7, 20⟩], by simp [tSigner, tCoins], by simp⟩
  · exact ⟨[⟨7, 30⟩], by simp [tSigner, tCoins], by simp⟩

example : Verif.Ledger.sourceOk (tState one) 7 (77, 3) = true ∧ tClear one (tTxs one (.toPrivate ⟨7, 3⟩)) = true ∧
    (tPush one (tTxs one (.toPrivate ⟨7, 3⟩))).1 = .accepted ∧
    balance (tPush one (tTxs one (.toPrivate ⟨7, 3⟩))).2.accounts 77 7 = 2 := by decide +kernel

example : tClear one (tTxs one (.toPublic ⟨7, 25⟩ 77)) = true ∧ (tTxs one (.toPublic ⟨7, 25⟩ 77)).length = 1 ∧
    (tPush one (tTxs one (.toPublic ⟨7, 25⟩ 77))).1 = .accepted ∧
    balance (tPush one (tTxs one (.toPublic ⟨7, 25⟩ 77))).2.accounts 77 7 = 30 := by decide +kernel


/-- With new coins in another shard, the withdrawal of 45 in two posts meets the condition of
`c114_to_public_partial`. -/
example : tClear two (tTxs two (.toPublic ⟨7, 45⟩ 77)) = true ∧
    (match tTxs two (.toPublic ⟨7, 45⟩ 77) with
     | [t1, t2] => decide (∀ r ∈ Sign.made [t1], ∀ sd ∈ t2.senders, sd.proof.isSome = true →
         two ((tWire two).kit.item ((tWire two).utxo r)) ≠ two ((tWire two).leaf sd.key sd.asset))
     | _ => false) = true ∧
    (tPush two (tTxs two (.toPublic ⟨7, 45⟩ 77))).1 = .accepted ∧
    balance (tPush two (tTxs two (.toPublic ⟨7, 45⟩ 77))).2.accounts 77 7 = 50 := by decide +kernel

/-- The case of `c114_stale_rejected`: the second transfer of that request with one shard. -/
example : (match tTxs one (.toPublic ⟨7, 45⟩ 77) with
    | [t1, t2] => decide ((tPush one [t1]).1 = .accepted) && t2.senders.any fun sd => match sd.proof with
      | some acc => decide (∀ i, tRoot (Tree.shard one acc 0) ≠ tRoot ((tPush one [t1]).2.forest i)) &&
          decide (tRoot (Tree.shard one acc 0) ≠ 0)
      | none => false
    | _ => false) = true := by decide +kernel

end Verif.Settle
