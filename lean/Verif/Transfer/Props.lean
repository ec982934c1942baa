import Verif.Transfer.Model

/-!
# Properties of transfers: C29, C30, C31, C32, C51, C60
-/

namespace Verif.Transfer

open Verif.Asset (Asset)

variable {T : Ty}

/-! ## C51 -/

/-- Specification: the canonical shapes as documented (canonical.rs:60-110): presence of authorization,
presence of a public asset id and the four counts. -/
inductive Canonical : Shape → Bool → Bool → Nat → Nat → Nat → Nat → Prop
  | mint : Canonical .toPrivate false true 1 0 1 0
  | transfer : Canonical .privateTransfer true false 0 2 2 0
  | reclaim : Canonical .toPublic true true 0 2 1 1

/-- C51: a shape is recognised exactly for its counts and flags. -/
theorem c51_select_iff (a i : Bool) (so se re si : Nat) (s : Shape) :
    Shape.select a i so se re si = some s ↔ Canonical s a i so se re si := by
  unfold Shape.select
  constructor
  · intro h
    split at h
    · rename_i hc; obtain ⟨rfl, rfl, rfl, rfl, rfl, rfl⟩ := hc; cases h; exact .mint
    · split at h
      · rename_i hc; obtain ⟨rfl, rfl, rfl, rfl, rfl, rfl⟩ := hc; cases h; exact .transfer
      · split at h
        · rename_i hc; obtain ⟨rfl, rfl, rfl, rfl, rfl, rfl⟩ := hc; cases h; exact .reclaim
        · cases h
  · intro h; cases h <;> rfl

/-- C51: no combination matches two shapes. -/
theorem c51_unique (a i : Bool) (so se re si : Nat) (s s' : Shape)
    (h : Canonical s a i so se re si) (h' : Canonical s' a i so se re si) : s = s' := by
  cases h <;> cases h' <;> rfl

/-- C51 for posts. -/
theorem c51_from_post (p : Post T) (s : Shape) :
    Shape.fromPost p = some s ↔ Canonical s p.sig.isSome p.body.assetId.isSome p.body.sources.length
      p.body.senders.length p.body.receivers.length p.body.sinks.length :=
  c51_select_iff ..

/-- C51: every recognised combination passes the shape assertions of `Transfer::new`, so a recognised
shape always has an input, an output, an authorization iff senders and an id iff public participants. -/
theorem c51_check_shape (a i : Bool) (so se re si : Nat) (s : Shape)
    (h : Shape.select a i so se re si = some s) : checkShape a i so se re si = true := by
  rw [c51_select_iff] at h
  cases h <;> decide

/-- What the assertions of `Transfer::new` mean. -/
theorem c51_new_iff (a i : Bool) (so se re si : Nat) :
    checkShape a i so se re si = true ↔
      (0 < so ∨ 0 < se) ∧ (0 < re ∨ 0 < si) ∧ (a = true ↔ 0 < se) ∧ (i = true ↔ 0 < so ∨ 0 < si) := by
  unfold checkShape requiresAuthorization hasPublicParticipants
  cases a <;> cases i <;> simp only [Bool.and_eq_true, decide_eq_true_eq] <;>
    constructor <;> intro h <;> repeat' split at * <;> simp_all <;> omega

example : Shape.select true true 0 2 1 1 = some .toPublic ∧ Shape.select true true 0 2 2 0 = none ∧
    Shape.select false true 1 0 1 0 = some .toPrivate := by decide

/-! ## A concrete instance, used by the examples

Scalars and group elements are natural numbers modulo 13 under addition with multiplication as action,
commitments and notes are the tuples they commit to. -/

abbrev TT : Ty where
  Scal := Nat
  Grp := Nat
  Root := Nat
  Wit := Nat
  Rand := Nat
  ERand := Nat
  UCm := List Nat
  Item := List Nat
  NCm := List Nat
  ONote := Nat
  INote := List Nat
  LNote := Nat
  Part := Nat
  Proof := Nat
  In := Nat
  Sig := Nat × Nat

abbrev tcrypto : Crypto TT where
  gen := 1
  smul := fun (g s : Nat) => (g * s % 13 : Nat)
  mul := fun (a b : Nat) => (a * b % 13 : Nat)
  viewKey := fun (g : Nat) => (g + 1 : Nat)
  commit := fun (r : Nat) i v (k : Nat) => [r, i, v, k]
  item := fun u => u.transparent.toNat :: u.pubAsset.id :: u.pubAsset.value :: u.cm
  nullCommit := fun (k : Nat) (i : List Nat) => k :: i
  encIn := fun (k r : Nat) pl => [k, r, pl.rand, pl.asset.id, pl.asset.value]
  member := fun (i : List Nat) (w root : Nat) => decide (root = w + i.sum)
  sign := fun (k : Nat) b acc => (k, b.proof + acc.sum)
  verifySig := fun (k : Nat) b acc (s : Nat × Nat) =>
    decide (k = 1 * s.1 % 13) && decide (s.2 = (b.proof : Nat) + acc.sum)
  prove := fun t => if t.receivers.isEmpty then none else some (7 : Nat)

/-- A coin of `v` units of asset 8 owned by spending key 4 (receiving key 5). -/
def tSender (r v : Nat) : Sender TT where
  orand := (0 : Nat)
  plain := ⟨r, ⟨8, v⟩⟩
  utxo := ⟨false, ⟨0, 0⟩, [r, 8, v, 5]⟩
  wit := (100 : Nat)
  root := (100 + (r + 8 + v + 5) : Nat)
  nul := ⟨[4, 0, 0, 0, r, 8, v, 5], (0 : Nat)⟩

def tReceiver (r v : Nat) : Receiver TT where
  rk := (9 : Nat)
  irand := (2 : Nat)
  plain := ⟨r, ⟨8, v⟩⟩
  utxo := ⟨false, ⟨0, 0⟩, [r, 8, v, 9]⟩
  note := ⟨(0 : Nat), [9, 2, r, 8, v], (0 : Nat)⟩

def tAuth : Auth TT := ⟨(4 : Nat), (3 : Nat), (12 : Nat)⟩

/-- A reclaim: 5 + 7 in, 9 + 3 out. -/
def tReclaim : Transfer TT :=
  ⟨some tAuth, some 8, [], [tSender 1 5, tSender 2 7], [tReceiver 3 9], [3]⟩

/-- A mint of 6. -/
def tMint : Transfer TT := ⟨none, some 8, [6], [], [tReceiver 3 6], []⟩

/-! ## C29 -/

/-- Specification of "the spending key produces a signature for this authorization": the context of the
authorization is the one of the key and its randomized key is the randomization of the context. -/
def Owns (c : Crypto T) (k : T.Scal) (a : Auth T) : Prop :=
  a.pak = c.smul c.gen k ∧ a.rpak = c.smul a.pak a.rand

theorem auth_verify_iff (c : Crypto T) (a : Auth T) (k : T.Scal) : a.verify c k = true ↔ Owns c k a := by
  simp [Auth.verify, Owns]

/-- The body that a transfer publishes, written out. -/
structure Publishes (t : Transfer T) (π : T.Proof) (b : Body T) : Prop where
  assetId : b.assetId = t.assetId
  sources : b.sources = t.sources
  sinks : b.sinks = t.sinks
  senders : b.senders = t.senders.map (fun s => ⟨s.root, s.nul⟩)
  receivers : b.receivers = t.receivers.map (fun r => ⟨r.utxo, r.note⟩)
  proof : b.proof = π

/-- C29: with private inputs a post comes out iff there is an authorization, a key that owns it, and a
proof; the post carries the signature of the randomized key over body and accounts. -/
theorem c29_signed (c : Crypto T) (t : Transfer T) (sk : Option T.Scal) (acc : List Nat) (p : Post T)
    (hs : t.senders ≠ []) :
    t.intoPost c sk acc = .made p ↔
      ∃ a k π, t.auth = some a ∧ sk = some k ∧ Owns c k a ∧ c.prove t = some π ∧
        Publishes t π p.body ∧
        p.sig = some ⟨a.rpak, c.sign (c.mul k a.rand) p.body acc⟩ ∧
        p.sinkAccounts = if t.sinks = [] then [] else acc := by
  have hr : requiresAuthorization t.senders.length = true := by
    simp only [requiresAuthorization, decide_eq_true_eq]
    exact List.length_pos_iff.2 hs
  have hsk : hasSinks t.sinks.length = decide (t.sinks ≠ []) := by
    simp [hasSinks, List.length_pos_iff]
  unfold Transfer.intoPost
  rw [hr]
  constructor
  · intro h
    split at h
    · rename_i a k _ ha
      split at h
      · cases h
      · rename_i π hπ
        simp only [authSign] at h
        by_cases hv : a.verify c k = true
        · rw [if_pos hv] at h
          simp only [PostResult.made.injEq] at h
          refine ⟨a, k, π, ha, rfl, (auth_verify_iff ..).1 hv, hπ, ?_⟩
          rw [hsk] at h
          by_cases hk : t.sinks = []
          · simp only [hk, ne_eq, not_true_eq_false, decide_false, Bool.false_eq_true, if_false] at h
            subst h
            exact ⟨⟨rfl, rfl, rfl, rfl, rfl, rfl⟩, rfl, (if_pos hk).symm⟩
          · simp only [hk, ne_eq, not_false_eq_true, decide_true, if_true] at h
            subst h
            exact ⟨⟨rfl, rfl, rfl, rfl, rfl, rfl⟩, rfl, (if_neg hk).symm⟩
        · rw [if_neg hv] at h; cases h
    · contradiction
    · cases h
  · rintro ⟨a, k, π, ha, rfl, ho, hπ, hb, hsig, hacc⟩
    have hbody : p.body = Body.build π t := by
      cases p with | mk sig body sa =>
      cases body
      cases hb
      simp_all [Body.build, Sender.intoPost, Receiver.intoPost]
    simp only [ha, hπ, authSign, (auth_verify_iff c a k).2 ho, if_true, hsk]
    cases p with | mk sig body sa =>
    simp only at hbody hsig hacc
    subst hbody hsig hacc
    by_cases hk : t.sinks = [] <;> simp [hk, Auth.key]

/-- C29: without private inputs a post comes out iff there is neither an authorization nor a key; it is
unsigned and has no sink accounts. -/
theorem c29_unsigned (c : Crypto T) (t : Transfer T) (sk : Option T.Scal) (acc : List Nat) (p : Post T)
    (hs : t.senders = []) :
    t.intoPost c sk acc = .made p ↔
      t.auth = none ∧ sk = none ∧
        ∃ π, c.prove t = some π ∧ Publishes t π p.body ∧ p.sig = none ∧ p.sinkAccounts = [] := by
  have hr : requiresAuthorization t.senders.length = false := by simp [requiresAuthorization, hs]
  unfold Transfer.intoPost
  rw [hr]
  constructor
  · intro h
    split at h
    · contradiction
    · rename_i ha
      split at h
      · cases h
      · rename_i π hπ
        cases h
        exact ⟨ha, rfl, π, hπ, ⟨rfl, rfl, rfl, rfl, rfl, rfl⟩, rfl, rfl⟩
    · cases h
  · rintro ⟨ha, rfl, π, hπ, hb, hsig, hacc⟩
    simp only [ha, hπ]
    cases p with | mk sig body sa =>
    cases body
    cases hb
    simp_all [Body.build, Receiver.intoPost]

/-- C29: a proof error is reported only when the authorization side is in order; with mismatching
authorization or key nothing is proved and nothing is posted. -/
theorem c29_error_iff (c : Crypto T) (t : Transfer T) (sk : Option T.Scal) (acc : List Nat) :
    t.intoPost c sk acc = .proofError ↔
      c.prove t = none ∧ (if t.senders = [] then t.auth = none ∧ sk = none
        else t.auth.isSome ∧ sk.isSome) := by
  have hr : requiresAuthorization t.senders.length = decide (t.senders ≠ []) := by
    simp [requiresAuthorization, List.length_pos_iff]
  unfold Transfer.intoPost
  rw [hr]
  by_cases hs : t.senders = [] <;> rcases ha : t.auth with _ | a <;> rcases sk with _ | k <;>
    rcases hp : c.prove t with _ | π <;> simp [hs, authSign] <;> split <;> simp_all

/-- Post of the reclaim, signed by key 4. -/
def tPost : Post TT :=
  match tReclaim.intoPost tcrypto (some (4 : Nat)) [77] with
  | .made p => p
  | _ => ⟨none, ⟨none, [], [], [], [], (0 : Nat)⟩, []⟩

example : tReclaim.senders ≠ [] ∧ tReclaim.intoPost tcrypto (some (4 : Nat)) [77] = .made tPost ∧
    tPost.sinkAccounts = [77] ∧ tPost.sig.isSome = true ∧
    (∃ p, tMint.intoPost tcrypto none [77] = .made p ∧ p.sinkAccounts = []) ∧
    tReclaim.intoPost tcrypto (some (5 : Nat)) [77] = .refused ∧
    tMint.intoPost tcrypto (some (4 : Nat)) [] = .refused :=
  ⟨nofun, rfl, rfl, rfl, ⟨_, rfl, rfl⟩, rfl, rfl⟩

/-! ## C30 -/

/-- Specification of the authorization check. -/
inductive SigCheck (c : Crypto T) (p : Post T) : Except SigError Unit → Prop
  | signed (s) : p.body.senders ≠ [] → p.sig = some s →
      c.verifySig s.key p.body p.sinkAccounts s.sig = true → SigCheck c p (.ok ())
  | unsigned : p.body.senders = [] → p.sig = none → SigCheck c p (.ok ())
  | bad (s) : p.body.senders ≠ [] → p.sig = some s →
      c.verifySig s.key p.body p.sinkAccounts s.sig = false → SigCheck c p (.error .badSignature)
  | superfluous : p.body.senders = [] → p.sig ≠ none → SigCheck c p (.error .invalidShape)
  | missing : p.body.senders ≠ [] → p.sig = none → SigCheck c p (.error .missingSignature)

/-- C30: the check returns exactly the specified outcome. -/
theorem c30_check (c : Crypto T) (p : Post T) (r : Except SigError Unit) :
    p.checkSig c = r ↔ SigCheck c p r := by
  have hr : requiresAuthorization p.body.senders.length = decide (p.body.senders ≠ []) := by
    simp [requiresAuthorization, List.length_pos_iff]
  unfold Post.checkSig
  rw [hr]
  by_cases hs : p.body.senders = []
  · rcases hsig : p.sig with _ | s
    · simp only [hs, ne_eq, not_true_eq_false, decide_false]
      constructor
      · rintro rfl; exact .unsigned hs hsig
      · intro h; cases h <;> simp_all
    · simp only [hs, ne_eq, not_true_eq_false, decide_false]
      constructor
      · rintro rfl; exact .superfluous hs (by simp [hsig])
      · intro h; cases h <;> simp_all
  · rcases hsig : p.sig with _ | s
    · simp only [hs, ne_eq, not_false_eq_true, decide_true]
      constructor
      · rintro rfl; exact .missing hs hsig
      · intro h; cases h <;> simp_all
    · simp only [hs, ne_eq, not_false_eq_true, decide_true]
      constructor
      · rintro rfl
        split
        · exact .signed s hs hsig ‹_›
        · exact .bad s hs hsig (Bool.eq_false_iff.2 ‹_›)
      · intro h; cases h <;> simp_all

/-- C30: the accepting case on its own. -/
theorem c30_ok_iff (c : Crypto T) (p : Post T) :
    p.checkSig c = .ok () ↔
      (p.body.senders ≠ [] ∧ ∃ s, p.sig = some s ∧ c.verifySig s.key p.body p.sinkAccounts s.sig = true) ∨
      (p.body.senders = [] ∧ p.sig = none) := by
  rw [c30_check]
  constructor
  · intro h
    cases h with
    | signed s h1 h2 h3 => exact .inl ⟨h1, s, h2, h3⟩
    | unsigned h1 h2 => exact .inr ⟨h1, h2⟩
  · rintro (⟨h1, s, h2, h3⟩ | ⟨h1, h2⟩)
    · exact .signed s h1 h2 h3
    · exact .unsigned h1 h2

example : tPost.checkSig tcrypto = .ok () ∧ ({tPost with sinkAccounts := [78]}).checkSig tcrypto = .error .badSignature
    ∧ ({tPost with sig := none}).checkSig tcrypto = .error .missingSignature := ⟨rfl, rfl, rfl⟩

/-! ## C31 -/

/-- C31: the input built before proving is the input recomputed from the post. -/
theorem c31_post (e : InputEnc T) (c : Crypto T) (t : Transfer T) (sk : Option T.Scal) (acc : List Nat)
    (p : Post T) (h : t.intoPost c sk acc = .made p) : p.input e = t.input e := by
  have key : ∀ (b : Body T) π, Publishes t π b →
      Body.input e b = optIn e.id t.assetId ++ t.sources.flatMap e.value ++
        t.senders.flatMap (fun s => inSender e s.root s.nul) ++
        t.receivers.flatMap (fun r => inReceiver e r.utxo r.note) ++ t.sinks.flatMap e.value := by
    intro b π hb
    simp only [Body.input, hb.assetId, hb.sources, hb.sinks, hb.senders, hb.receivers,
      List.flatMap_map]
  by_cases hs : t.senders = []
  · obtain ⟨ha, _, π, _, hb, hsig, _⟩ := (c29_unsigned c t sk acc p hs).1 h
    simp only [Post.input, Transfer.input, hsig, ha, optIn, key _ _ hb]
    simp only [List.append_assoc]
  · obtain ⟨a, k, π, ha, _, _, _, hb, hsig, _⟩ := (c29_signed c t sk acc p hs).1 h
    simp only [Post.input, Transfer.input, hsig, ha, optIn, Auth.key, key _ _ hb]
    simp only [List.append_assoc]

/-- C31: the input the ledger builds from its posting key, whatever the accounts attached to the public
participants, equals the input of the post. -/
theorem c31_ledger (e : InputEnc T) (p : Post T) (sources sinks : List (Nat × Nat))
    (hso : sources.map Prod.snd = p.body.sources) (hsi : sinks.map Prod.snd = p.body.sinks) :
    keyRefInput e (p.sig.map AuthSig.key) p.body.assetId sources p.body.senders p.body.receivers sinks
      = p.input e := by
  simp only [keyRefInput, Post.input, Body.input, ← hso, ← hsi, List.flatMap_map]
  cases p.sig <;> simp [optIn]

def tEnc : InputEnc TT where
  grp := fun (g : Nat) => [g]
  id := fun i => ([i] : List Nat)
  value := fun i => ([i] : List Nat)
  root := fun (r : Nat) => [r]
  ncm := fun n => n.take 2
  utxo := fun u => u.cm.take 2
  inote := fun n => n.take 1

example : tPost.input tEnc = tReclaim.input tEnc ∧ tPost.input tEnc = [12, 8, 119, 4, 0, 122, 4, 0, 3, 8, 9, 3] :=
  ⟨rfl, rfl⟩

/-! ## C32 -/

/-- Specification: the asset held by a UTXO, given the plaintext it was opened with. -/
def held (u : Utxo T) (pl : Plain T) : Asset :=
  match u.transparent with
  | true => u.pubAsset
  | false => pl.asset

theorem held_eq (u : Utxo T) (pl : Plain T) : selectAsset u pl = held u pl := by
  unfold selectAsset held; cases u.transparent <;> rfl

theorem foldl_addU (p : Nat) (hp : 2 ^ 129 ≤ p) (l : List Nat) (hl : ∀ v ∈ l, v < 2 ^ 128) (a s : Nat)
    (b b' : Bool) (ha : a < 2 ^ 128)
    (h : l.foldl (fun acc r => ((addU p acc.1 r).1, acc.2 && (addU p acc.1 r).2)) (a, b) = (s, b'))
    (hb : b' = true) : b = true ∧ s = a + l.sum ∧ s < 2 ^ 128 := by
  induction l generalizing a b with
  | nil => cases h; exact ⟨hb, by simp, ha⟩
  | cons v vs ih =>
    have hv : v < 2 ^ 128 := hl v (by simp)
    have e : (a + v) % p = a + v := Nat.mod_eq_of_lt (by
      calc a + v < 2 ^ 128 + 2 ^ 128 := by omega
        _ = 2 ^ 129 := by decide
        _ ≤ p := hp)
    simp only [List.foldl_cons, addU, e] at h ih
    have hr := fun hx => ih (fun w hw => hl w (by simp [hw])) (a + v) (b && inRange (a + v)) hx h
    by_cases hc : a + v < 2 ^ 128
    · obtain ⟨h1, h2, h3⟩ := hr hc
      simp only [Bool.and_eq_true] at h1
      refine ⟨h1.1, ?_, h3⟩
      simp only [List.sum_cons]; omega
    · -- the accumulated flag is false from here on
      exfalso
      have hf : ∀ (l : List Nat) (x : Nat), (l.foldl (fun acc r =>
          (((acc.1 + r) % p, acc.2 && inRange ((acc.1 + r) % p)) : Nat × Bool)) (x, false)).2 = false := by
        intro l
        induction l with
        | nil => intro x; rfl
        | cons w ws ihw => intro x; simp only [List.foldl_cons, Bool.false_and]; exact ihw _
      have : inRange (a + v) = false := by simp only [inRange, decide_eq_false_iff_not]; exact hc
      rw [this, Bool.and_false] at h
      have h4 := hf vs (a + v)
      rw [h] at h4
      simp only at h4
      rw [hb] at h4; cases h4

theorem valueSum_sound (p : Nat) (hp : 2 ^ 129 ≤ p) (l : List Nat) (hl : ∀ v ∈ l, v < 2 ^ 128) (s : Nat)
    (h : valueSum p l = some (s, true)) : s = l.sum ∧ s < 2 ^ 128 := by
  cases l with
  | nil => cases h
  | cons v vs =>
    simp only [valueSum, Option.some.injEq] at h
    obtain ⟨_, h2, h3⟩ := foldl_addU p hp vs (fun w hw => hl w (by simp [hw])) v s true true
      (hl v (by simp)) h rfl
    exact ⟨by simp [h2], h3⟩

/-- Assets on the input and output side of a transfer. -/
def Transfer.ins (t : Transfer T) : List Asset := t.senders.map fun s => held s.utxo s.plain
def Transfer.outs (t : Transfer T) : List Asset := t.receivers.map fun r => held r.utxo r.plain

/-- Everything a satisfying assignment gives, in one place. -/
theorem circuit_sound (c : Crypto T) (p : Nat) (hp : 2 ^ 129 ≤ p) (t : Transfer T)
    (hshape : t.auth.isSome = true ↔ t.senders ≠ []) (h : circuit c p t = some true) :
    (t.sources.sum + (t.ins.map Asset.value).sum = t.sinks.sum + (t.outs.map Asset.value).sum) ∧
    t.sources.sum + (t.ins.map Asset.value).sum < 2 ^ 128 ∧
    (∀ a, t.assetId = some a → ∀ x ∈ t.ins ++ t.outs, x.id = a) ∧
    (∀ x ∈ t.ins ++ t.outs, ∀ y ∈ t.ins ++ t.outs, x.id = y.id) ∧
    (∀ a, t.auth = some a → a.rpak = c.smul a.pak a.rand ∧ ∀ s ∈ t.senders, (senderWF c a.pak s).2 = true) ∧
    (∀ r ∈ t.receivers, (receiverWF c r).2 = true) := by
  unfold circuit at h
  split at h
  rotate_left
  · cases h
  rename_i i ids ok o ids' ok' hi ho
  simp only [Option.some.injEq, Bool.and_eq_true, decide_eq_true_eq] at h
  obtain ⟨⟨⟨⟨halloc, hok⟩, hok'⟩, hio⟩, hid⟩ := h
  subst hok hok' hio
  simp only [allocOk, Bool.and_eq_true, List.all_eq_true, inRange, decide_eq_true_eq] at halloc
  obtain ⟨⟨⟨aso, asi⟩, ase⟩, are⟩ := halloc
  -- outputs
  have hout : ids' = t.outs.map Asset.id ∧ i = (t.outs.map Asset.value).sum + t.sinks.sum ∧ i < 2 ^ 128 ∧
      ∀ r ∈ t.receivers, (receiverWF c r).2 = true := by
    unfold outputSum at ho
    simp only at ho
    split at ho
    · cases ho
    · rename_i s ok hv
      simp only [Option.some.injEq, Prod.mk.injEq, Bool.and_eq_true] at ho
      obtain ⟨rfl, rfl, hall, rfl⟩ := ho
      have e1 : (t.receivers.map (receiverWF c)).map (fun x => x.1.value) = t.outs.map Asset.value := by
        simp only [Transfer.outs, List.map_map]
        exact List.map_congr_left fun r _ => by simp [receiverWF, held_eq]
      have e2 : (t.receivers.map (receiverWF c)).map (fun x => x.1.id) = t.outs.map Asset.id := by
        simp only [Transfer.outs, List.map_map]
        exact List.map_congr_left fun r _ => by simp [receiverWF, held_eq]
      rw [e1] at hv
      obtain ⟨h1, h2⟩ := valueSum_sound p hp _ (by
        intro v hv'
        rw [List.mem_append] at hv'
        rcases hv' with hv' | hv'
        · simp only [Transfer.outs, List.map_map, List.mem_map] at hv'
          obtain ⟨r, hr, rfl⟩ := hv'
          have := are r hr
          simp only [Function.comp, held]
          split
          · exact this.2
          · exact this.1
        · exact asi v hv') s hv
      refine ⟨e2, by rw [h1, List.sum_append], h2, ?_⟩
      intro r hr
      rw [List.all_eq_true] at hall
      exact hall (receiverWF c r) (List.mem_map_of_mem hr)
  -- inputs
  have hin : ids = t.ins.map Asset.id ∧ i = (t.ins.map Asset.value).sum + t.sources.sum ∧
      (∀ a, t.auth = some a → a.rpak = c.smul a.pak a.rand ∧
        ∀ s ∈ t.senders, (senderWF c a.pak s).2 = true) := by
    unfold inputSum at hi
    split at hi
    · rename_i a ha
      simp only at hi
      split at hi
      · cases hi
      · rename_i s ok hv
        simp only [Option.some.injEq, Prod.mk.injEq, Bool.and_eq_true, decide_eq_true_eq] at hi
        obtain ⟨rfl, rfl, ⟨hk, hall⟩, rfl⟩ := hi
        have e1 : (t.senders.map (senderWF c a.pak)).map (fun x => x.1.value) = t.ins.map Asset.value := by
          simp only [Transfer.ins, List.map_map]
          exact List.map_congr_left fun r _ => by simp [senderWF, held_eq]
        have e2 : (t.senders.map (senderWF c a.pak)).map (fun x => x.1.id) = t.ins.map Asset.id := by
          simp only [Transfer.ins, List.map_map]
          exact List.map_congr_left fun r _ => by simp [senderWF, held_eq]
        rw [e1] at hv
        obtain ⟨h1, h2⟩ := valueSum_sound p hp _ (by
          intro v hv'
          rw [List.mem_append] at hv'
          rcases hv' with hv' | hv'
          · simp only [Transfer.ins, List.map_map, List.mem_map] at hv'
            obtain ⟨r, hr, rfl⟩ := hv'
            have := ase r hr
            simp only [Function.comp, held]
            split
            · exact this.2
            · exact this.1
          · exact aso v hv') s hv
        refine ⟨e2, by rw [h1, List.sum_append], ?_⟩
        intro a' ha'
        rw [ha] at ha'
        cases ha'
        refine ⟨hk.symm, fun s' hs' => ?_⟩
        rw [List.all_eq_true] at hall
        exact hall _ (List.mem_map_of_mem hs')
    · rename_i ha
      have hse : t.senders = [] := by
        refine Classical.byContradiction fun hne => ?_
        have := hshape.2 hne
        rw [ha] at this; cases this
      split at hi
      · cases hi
      · rename_i s ok hv
        simp only [Option.some.injEq, Prod.mk.injEq] at hi
        obtain ⟨rfl, rfl, rfl⟩ := hi
        obtain ⟨h1, h2⟩ := valueSum_sound p hp _ aso s hv
        refine ⟨by simp [Transfer.ins, hse], by simp [Transfer.ins, hse, h1], ?_⟩
        intro a' ha'; rw [ha] at ha'; cases ha'
  obtain ⟨rfl, ho1, ho2, ho3⟩ := hout
  obtain ⟨rfl, hi1, hi2⟩ := hin
  have hids : ∀ l : List Asset, ∀ x ∈ l, x.id ∈ l.map Asset.id := fun l x hx => List.mem_map_of_mem hx
  rw [← List.map_append] at hid
  refine ⟨by omega, by omega, ?_, ?_, hi2, ho3⟩
  · intro a ha x hx
    rw [ha] at hid
    simp only [allEqTo, List.all_eq_true, decide_eq_true_eq] at hid
    exact (hid _ (hids _ x hx)).symm
  · intro x hx y hy
    cases ha : t.assetId with
    | some a =>
      rw [ha] at hid
      simp only [allEqTo, List.all_eq_true, decide_eq_true_eq] at hid
      rw [← hid _ (hids _ x hx), ← hid _ (hids _ y hy)]
    | none =>
      rw [ha] at hid
      generalize (t.ins ++ t.outs) = L at hid hx hy
      cases L with
      | nil => cases hx
      | cons z zs =>
        simp only [List.map_cons, allEq, allEqTo, List.all_eq_true, decide_eq_true_eq] at hid
        have : ∀ w ∈ z :: zs, w.id = z.id := by
          intro w hw
          rcases List.mem_cons.1 hw with rfl | hw
          · rfl
          · exact (hid _ (hids _ w hw)).symm
        rw [this x hx, this y hy]

/-- C32: a satisfying assignment of the transfer circuit conserves value, as integers and without wrapping,
and all its assets carry one id, the public one when there is one. The field is at least 2^129 large
(the BN254 scalar field has 254 bits), and the circuit is one of a shape with authorization iff senders
(mod.rs:862-884 builds no other). -/
theorem c32_conservation (c : Crypto T) (p : Nat) (hp : 2 ^ 129 ≤ p) (t : Transfer T)
    (hshape : t.auth.isSome = true ↔ t.senders ≠ []) (h : circuit c p t = some true) :
    t.sources.sum + (t.ins.map Asset.value).sum = t.sinks.sum + (t.outs.map Asset.value).sum ∧
    t.sources.sum + (t.ins.map Asset.value).sum < 2 ^ 128 ∧
    (∀ a, t.assetId = some a → ∀ x ∈ t.ins ++ t.outs, x.id = a) ∧
    (∀ x ∈ t.ins ++ t.outs, ∀ y ∈ t.ins ++ t.outs, x.id = y.id) := by
  obtain ⟨h1, h2, h3, h4, _⟩ := circuit_sound c p hp t hshape h
  exact ⟨h1, h2, h3, h4⟩

/-- C32: a satisfying assignment opens every coin: the spent UTXO commits to the asset and to the key of
the authorization, it is in the accumulator unless worthless, and its nullifier is the one of key and coin;
every created UTXO commits to the asset for its receiving key and its note encrypts that opening. A coin is
transparent exactly when the opening holds no asset. -/
theorem c32_openings (c : Crypto T) (p : Nat) (hp : 2 ^ 129 ≤ p) (t : Transfer T)
    (hshape : t.auth.isSome = true ↔ t.senders ≠ []) (h : circuit c p t = some true) :
    (∀ s ∈ t.senders, ∃ a, t.auth = some a ∧ a.rpak = c.smul a.pak a.rand ∧
      s.utxo.cm = c.commit s.plain.rand s.plain.asset.id s.plain.asset.value
        (c.smul c.gen (c.viewKey a.pak)) ∧
      ((held s.utxo s.plain).value ≠ 0 → c.member (c.item s.utxo) s.wit s.root = true) ∧
      s.nul.cm = c.nullCommit a.pak (c.item s.utxo) ∧
      (s.utxo.transparent = true ↔ s.plain.asset = ⟨0, 0⟩)) ∧
    (∀ r ∈ t.receivers,
      r.utxo.cm = c.commit r.plain.rand r.plain.asset.id r.plain.asset.value r.rk ∧
      r.note.inote = c.encIn r.rk r.irand r.plain ∧
      (r.utxo.transparent = true ↔ r.plain.asset = ⟨0, 0⟩)) := by
  obtain ⟨_, _, _, _, h5, h6⟩ := circuit_sound c p hp t hshape h
  have hemp : ∀ (b : Bool) (a : Asset), b = isEmptyAsset a → (b = true ↔ a = ⟨0, 0⟩) := by
    rintro b ⟨i, v⟩ rfl
    simp [isEmptyAsset]
  constructor
  · intro s hs
    have : t.auth.isSome = true := hshape.2 (List.ne_nil_of_mem hs)
    obtain ⟨a, ha⟩ := Option.isSome_iff_exists.1 this
    obtain ⟨hk, hall⟩ := h5 a ha
    have hw := hall s hs
    simp only [senderWF, Bool.and_eq_true, decide_eq_true_eq, Bool.or_eq_true, held_eq] at hw
    obtain ⟨⟨⟨w1, w2⟩, w3⟩, w4⟩ := hw
    exact ⟨a, ha, hk, w2, fun hv => w3.resolve_left hv, w4, hemp _ _ w1⟩
  · intro r hr
    have hw := h6 r hr
    simp only [receiverWF, Bool.and_eq_true, decide_eq_true_eq] at hw
    exact ⟨hw.1.2, hw.2, hemp _ _ hw.1.1⟩

/-- Without the shape hypothesis the claim fails: senders of a transfer that carries no authorization are
ignored by the constraints (mod.rs:944-948). Such a transfer cannot be built through `Transfer::new`. -/
theorem c32_unauthorized_senders_ignored :
    ∃ t : Transfer TT, circuit tcrypto (2 ^ 254) t = some true ∧
      t.sources.sum + (t.ins.map Asset.value).sum ≠ t.sinks.sum + (t.outs.map Asset.value).sum :=
  ⟨⟨none, some 8, [6], [tSender 1 5], [tReceiver 3 6], []⟩, by decide +kernel, by decide +kernel⟩

/-- In a field that is too small the range check no longer stops wrapping, so the bound on `p` is needed. -/
theorem c32_small_field_wraps :
    ∃ t : Transfer TT, (t.auth.isSome = true ↔ t.senders ≠ []) ∧
      circuit tcrypto (2 ^ 128) t = some true ∧
      t.sources.sum + (t.ins.map Asset.value).sum ≠ t.sinks.sum + (t.outs.map Asset.value).sum :=
  ⟨⟨none, some 8, [2 ^ 128 - 1, 2], [], [tReceiver 3 1], []⟩, by decide, by decide +kernel, by decide +kernel⟩

example : 2 ^ 129 ≤ 2 ^ 254 ∧ (tReclaim.auth.isSome = true ↔ tReclaim.senders ≠ []) ∧
    circuit tcrypto (2 ^ 254) tReclaim = some true ∧ circuit tcrypto (2 ^ 254) tMint = some true ∧
    circuit tcrypto (2 ^ 254) {tReclaim with sinks := [4]} = some false ∧
    circuit tcrypto (2 ^ 254) {tReclaim with assetId := some 9} = some false := by
  refine ⟨by decide, by decide, ?_, ?_, ?_, ?_⟩ <;> decide +kernel

/-! ## C60 -/

/-- Two different inputs of a hash or commitment with the same output. -/
structure Collision {α β : Type} (f : α → β) (x y : α) : Prop where
  ne : x ≠ y
  eq : f x = f y

/-- C60: if two satisfying assignments spend the same UTXO, they publish the same nullifier, unless the two
spends themselves exhibit a collision of the UTXO commitment, or of the map from keys to receiving keys. -/
theorem c60_same_coin_same_nullifier (c : Crypto T) (p : Nat) (hp : 2 ^ 129 ≤ p) (t t' : Transfer T)
    (hshape : t.auth.isSome = true ↔ t.senders ≠ []) (hshape' : t'.auth.isSome = true ↔ t'.senders ≠ [])
    (h : circuit c p t = some true) (h' : circuit c p t' = some true)
    (a a' : Auth T) (ha : t.auth = some a) (ha' : t'.auth = some a')
    (s s' : Sender T) (hs : s ∈ t.senders) (hs' : s' ∈ t'.senders) (hu : s.utxo = s'.utxo) :
    s.nul.cm = s'.nul.cm ∨
    Collision (fun x : T.Rand × Nat × Nat × T.Grp => c.commit x.1 x.2.1 x.2.2.1 x.2.2.2)
      (s.plain.rand, s.plain.asset.id, s.plain.asset.value, c.smul c.gen (c.viewKey a.pak))
      (s'.plain.rand, s'.plain.asset.id, s'.plain.asset.value, c.smul c.gen (c.viewKey a'.pak)) ∨
    Collision (fun k => c.smul c.gen (c.viewKey k)) a.pak a'.pak := by
  obtain ⟨b, hb, _, w1, _, w2, _⟩ := (c32_openings c p hp t hshape h).1 s hs
  obtain ⟨b', hb', _, w1', _, w2', _⟩ := (c32_openings c p hp t' hshape' h').1 s' hs'
  rw [ha] at hb; cases hb
  rw [ha'] at hb'; cases hb'
  by_cases hk : a.pak = a'.pak
  · left; rw [w2, w2', hk, hu]
  · right
    by_cases hr : c.smul c.gen (c.viewKey a.pak) = c.smul c.gen (c.viewKey a'.pak)
    · exact .inr ⟨hk, hr⟩
    · refine .inl ⟨fun he => hr ?_, ?_⟩
      · simp only [Prod.mk.injEq] at he; exact he.2.2.2
      · simp only; rw [← w1, ← w1', hu]

/-- C60: spends of different UTXOs publish different nullifiers, unless they exhibit a collision of the
nullifier commitment or of the item hash. -/
theorem c60_different_coins_different_nullifiers (c : Crypto T) (p : Nat) (hp : 2 ^ 129 ≤ p)
    (t t' : Transfer T)
    (hshape : t.auth.isSome = true ↔ t.senders ≠ []) (hshape' : t'.auth.isSome = true ↔ t'.senders ≠ [])
    (h : circuit c p t = some true) (h' : circuit c p t' = some true)
    (a a' : Auth T) (ha : t.auth = some a) (ha' : t'.auth = some a')
    (s s' : Sender T) (hs : s ∈ t.senders) (hs' : s' ∈ t'.senders) (hu : s.utxo ≠ s'.utxo) :
    s.nul.cm ≠ s'.nul.cm ∨
    Collision (fun x : T.Grp × T.Item => c.nullCommit x.1 x.2) (a.pak, c.item s.utxo) (a'.pak, c.item s'.utxo) ∨
    Collision c.item s.utxo s'.utxo := by
  obtain ⟨b, hb, _, _, _, w2, _⟩ := (c32_openings c p hp t hshape h).1 s hs
  obtain ⟨b', hb', _, _, _, w2', _⟩ := (c32_openings c p hp t' hshape' h').1 s' hs'
  rw [ha] at hb; cases hb
  rw [ha'] at hb'; cases hb'
  by_cases he : s.nul.cm = s'.nul.cm
  · right
    by_cases hi : c.item s.utxo = c.item s'.utxo
    · exact .inr ⟨hu, hi⟩
    · refine .inl ⟨fun hx => hi ?_, ?_⟩
      · simp only [Prod.mk.injEq] at hx; exact hx.2
      · simp only; rw [← w2, ← w2', he]
  · exact .inl he

/-- C60: the opening of a coin is unique too, so a coin cannot be spent for another amount. -/
theorem c60_same_coin_same_value (c : Crypto T) (p : Nat) (hp : 2 ^ 129 ≤ p) (t t' : Transfer T)
    (hshape : t.auth.isSome = true ↔ t.senders ≠ []) (hshape' : t'.auth.isSome = true ↔ t'.senders ≠ [])
    (h : circuit c p t = some true) (h' : circuit c p t' = some true)
    (a a' : Auth T) (ha : t.auth = some a) (ha' : t'.auth = some a')
    (s s' : Sender T) (hs : s ∈ t.senders) (hs' : s' ∈ t'.senders) (hu : s.utxo = s'.utxo) :
    held s.utxo s.plain = held s'.utxo s'.plain ∨
    Collision (fun x : T.Rand × Nat × Nat × T.Grp => c.commit x.1 x.2.1 x.2.2.1 x.2.2.2)
      (s.plain.rand, s.plain.asset.id, s.plain.asset.value, c.smul c.gen (c.viewKey a.pak))
      (s'.plain.rand, s'.plain.asset.id, s'.plain.asset.value, c.smul c.gen (c.viewKey a'.pak)) := by
  obtain ⟨b, hb, _, w1, _, _, _⟩ := (c32_openings c p hp t hshape h).1 s hs
  obtain ⟨b', hb', _, w1', _, _, _⟩ := (c32_openings c p hp t' hshape' h').1 s' hs'
  rw [ha] at hb; cases hb
  rw [ha'] at hb'; cases hb'
  by_cases he : s.plain.asset = s'.plain.asset
  · left; unfold held; rw [hu, he]
  · right
    refine ⟨fun hx => he ?_, ?_⟩
    · simp only [Prod.mk.injEq] at hx
      rcases hsa : s.plain.asset with ⟨i, v⟩
      rcases hsa' : s'.plain.asset with ⟨i', v'⟩
      rw [hsa, hsa'] at hx
      simp only at hx
      rw [hx.2.1, hx.2.2.1]
    · simp only; rw [← w1, ← w1', hu]

/-- C60: a coin created by one transfer and spent by another is spent for the amount it was created with and
by the owner of the receiving key it was created for. -/
theorem c60_created_then_spent (c : Crypto T) (p : Nat) (hp : 2 ^ 129 ≤ p) (t t' : Transfer T)
    (hshape : t.auth.isSome = true ↔ t.senders ≠ []) (hshape' : t'.auth.isSome = true ↔ t'.senders ≠ [])
    (h : circuit c p t = some true) (h' : circuit c p t' = some true)
    (a' : Auth T) (ha' : t'.auth = some a')
    (r : Receiver T) (s' : Sender T) (hr : r ∈ t.receivers) (hs' : s' ∈ t'.senders) (hu : r.utxo = s'.utxo) :
    (held r.utxo r.plain = held s'.utxo s'.plain ∧ r.rk = c.smul c.gen (c.viewKey a'.pak)) ∨
    Collision (fun x : T.Rand × Nat × Nat × T.Grp => c.commit x.1 x.2.1 x.2.2.1 x.2.2.2)
      (r.plain.rand, r.plain.asset.id, r.plain.asset.value, r.rk)
      (s'.plain.rand, s'.plain.asset.id, s'.plain.asset.value, c.smul c.gen (c.viewKey a'.pak)) := by
  obtain ⟨w1, _, _⟩ := (c32_openings c p hp t hshape h).2 r hr
  obtain ⟨b', hb', _, w1', _, _, _⟩ := (c32_openings c p hp t' hshape' h').1 s' hs'
  rw [ha'] at hb'; cases hb'
  by_cases he : (r.plain.rand, r.plain.asset.id, r.plain.asset.value, r.rk) =
      (s'.plain.rand, s'.plain.asset.id, s'.plain.asset.value, c.smul c.gen (c.viewKey a'.pak))
  · left
    simp only [Prod.mk.injEq] at he
    refine ⟨?_, he.2.2.2⟩
    have : r.plain.asset = s'.plain.asset := by
      rcases hsa : r.plain.asset with ⟨i, v⟩
      rcases hsa' : s'.plain.asset with ⟨i', v'⟩
      rw [hsa, hsa'] at he
      simp only at he
      rw [he.2.1, he.2.2.1]
    unfold held; rw [hu, this]
  · right
    refine ⟨he, ?_⟩
    simp only; rw [← w1, ← w1', hu]

/-- The reclaim and a second transfer spending its first coin. -/
def tAgain : Transfer TT := ⟨some tAuth, some 8, [], [tSender 1 5], [], [5]⟩

example : circuit tcrypto (2 ^ 254) tAgain = some true ∧ tSender 1 5 ∈ tAgain.senders ∧
    tSender 1 5 ∈ tReclaim.senders ∧ (tSender 1 5).utxo ≠ (tSender 2 7).utxo :=
  ⟨by decide +kernel, by simp [tAgain], by simp [tReclaim], by decide⟩

end Verif.Transfer
