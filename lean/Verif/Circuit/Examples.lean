import Verif.Circuit.Props

/-!
# Concrete circuits over the field of BN254

Small Poseidon parameters, a group of order seven and a tree with two inner levels; a private transfer with two senders
and two receivers, a mint and a reclaim.
-/

namespace Verif.Circuit

open Verif.Gadget
open Verif.Asset (Asset)
open Verif.Transfer (Ty Utxo Nul FullNote Plain Sender Receiver Auth Transfer Crypto InputEnc Post)

/-- A hasher with `n` inputs. -/
def exH (n : Nat) : Hasher bn254 where
  c := ⟨n + 1, 2, 1⟩
  perm := ⟨(List.range (3 * (n + 1))).map fun i => ((i + 1 : Nat) : ZMod bn254),
    (List.range ((n + 1) * (n + 1))).map fun i => ((i * i + 2 : Nat) : ZMod bn254)⟩
  expo := 5
  tag := 3
  ownTag := 3

theorem exH_ok (n : Nat) : (exH n).Ok n where
  width := rfl
  full := Nat.le_refl _
  good := ⟨by simp [exH, Poseidon.Consts.rounds], by simp [exH]⟩
  expo := by simp [exH]
  tag := rfl

theorem val_cast {n : Nat} (h : n < bn254) : ((n : ZMod bn254)).val = n := by
  rw [ZMod.val_natCast, Nat.mod_eq_of_lt h]

/-- A group of order seven, with coordinates. -/
@[reducible] def exC : Curve bn254 7 where
  E := ZMod 7
  x := fun g => (g.val : ZMod bn254)
  y := fun g => ((g.val * g.val + 1 : Nat) : ZMod bn254)
  inj := fun g h hx _ => by
    have h7 : 7 < bn254 := by decide +kernel
    have := congrArg ZMod.val hx
    rw [val_cast (Nat.lt_trans (ZMod.val_lt g) h7), val_cast (Nat.lt_trans (ZMod.val_lt h) h7)] at this
    exact ZMod.val_injective 7 this

@[reducible] def exP : Params exC where
  ark := ⟨fun _ => True, fun _ _ => trivial⟩
  gen := 3
  vk := exH 2
  cm := exH 5
  item := exH 4
  nul := exH 3
  node := exH 2
  encC := (exH 3).c
  encPerm := (exH 3).perm
  encExpo := 5
  encInit := [1, 2, 3, 4]
  h := 2

theorem exP_ok : exP.Ok where
  field := by decide +kernel
  rpos := by decide
  rle := by decide +kernel
  gen := by decide
  vk := exH_ok 2
  cm := exH_ok 5
  item := exH_ok 4
  nul := exH_ok 3
  node := exH_ok 2
  encWidth := rfl
  encFull := Nat.le_refl _
  encGood := (exH_ok 3).good
  encExpo := by decide
  encInit := rfl

@[reducible] def exR : Rest := ⟨Unit, Unit, Unit, Unit, Unit⟩

@[reducible] def exCr : Crypto (ty exC exR) := crypto exP exR (fun _ _ _ => ()) (fun _ _ _ _ => true) fun _ => some ()

/-- A receiver for the key `rk`. -/
def exReceiver (rk : ZMod 7) (esk : ZMod 7) (rand : ZMod bn254) (a : Asset) : Receiver (ty exC exR) where
  rk := rk
  irand := esk
  plain := ⟨rand, a⟩
  utxo := ⟨decide (a.id = 0 ∧ a.value = 0), ⟨0, 0⟩, exCr.commit rand a.id a.value rk⟩
  note := ⟨(), exCr.encIn rk esk ⟨rand, a⟩, ()⟩

/-- A sender for the authorization key `pak`. -/
def exSender (pak : ZMod 7) (rand : ZMod bn254) (a : Asset) (i : Nat) : Sender (ty exC exR) :=
  let u : Utxo (ty exC exR) := ⟨false, ⟨0, 0⟩, exCr.commit rand a.id a.value (Transfer.receivingKey exCr pak)⟩
  let w : Merkle.Path (ZMod bn254) (ZMod bn254) := { sib := 17, leafIndex := i, path := [20, 21] }
  ⟨0, ⟨rand, a⟩, u, w, w.root exP.tree (exCr.item u), ⟨exCr.nullCommit pak (exCr.item u), ()⟩⟩

/-- Two coins of 60 and 40 become coins of 75 and 25. -/
def exPrivate : Transfer (ty exC exR) where
  auth := some ⟨3, 4, exCr.smul 3 4⟩
  assetId := none
  sources := []
  senders := [exSender 3 101 ⟨8, 60⟩ 5, exSender 3 102 ⟨8, 40⟩ 2]
  receivers := [exReceiver 5 2 103 ⟨8, 75⟩, exReceiver 6 3 104 ⟨8, 25⟩]
  sinks := []

/-- A coin of 60 and one of 40 become a public 75 and a coin of 25. -/
def exReclaim : Transfer (ty exC exR) :=
  { exPrivate with assetId := some 8, receivers := [exReceiver 6 3 104 ⟨8, 25⟩], sinks := [75] }

/-- A public 75 becomes a coin. -/
def exMint : Transfer (ty exC exR) where
  auth := none
  assetId := some 8
  sources := [75]
  senders := []
  receivers := [exReceiver 5 2 103 ⟨8, 75⟩]
  sinks := []

theorem ex_circuit : Transfer.circuit exCr bn254 exPrivate = some true ∧
    Transfer.circuit exCr bn254 exReclaim = some true ∧ Transfer.circuit exCr bn254 exMint = some true ∧
    Transfer.circuit exCr bn254 { exReclaim with sinks := [74] } = some false := by
  refine ⟨?_, ?_, ?_, ?_⟩ <;> decide +kernel

/-! ## C120, C121 -/

theorem zero_fits : 0 < bn254 ∧ 0 < 2 ^ 128 := by decide +kernel

theorem exReceiver_fits (rk esk : ZMod 7) (rand : ZMod bn254) (a : Asset) (ha : a.id < bn254 ∧ a.value < 2 ^ 128)
    (hl : (exCr.encIn rk esk ⟨rand, a⟩).2.2.map List.length = [3]) (hk : 7 • rk = 0) :
    ((exReceiver rk esk rand a).plain.asset.id < bn254 ∧ (exReceiver rk esk rand a).plain.asset.value < 2 ^ 128) ∧
    ((exReceiver rk esk rand a).utxo.pubAsset.id < bn254 ∧ (exReceiver rk esk rand a).utxo.pubAsset.value < 2 ^ 128) ∧
    7 • (exReceiver rk esk rand a).rk = 0 ∧
    (exReceiver rk esk rand a).note.inote.2.2.map List.length = [exP.encC.width - 1] :=
  ⟨ha, zero_fits, hk, hl⟩

theorem exSender_fits (pak : ZMod 7) (rand : ZMod bn254) (a : Asset) (i : Nat) (ha : a.id < bn254 ∧ a.value < 2 ^ 128) :
    ((exSender pak rand a i).plain.asset.id < bn254 ∧ (exSender pak rand a i).plain.asset.value < 2 ^ 128) ∧
    ((exSender pak rand a i).utxo.pubAsset.id < bn254 ∧ (exSender pak rand a i).utxo.pubAsset.value < 2 ^ 128) ∧
    (Merkle.Path.path (exSender pak rand a i).wit).length = exP.h :=
  ⟨ha, zero_fits, rfl⟩

theorem exPrivate_fits : Fits exP exPrivate where
  assetId := fun a h => by cases h
  auth := fun a h => by cases h; decide
  sources := fun v h => by cases h
  sinks := fun v h => by cases h
  senders := fun s h => by
    simp only [exPrivate, List.mem_cons, List.not_mem_nil, or_false] at h
    rcases h with rfl | rfl
    · exact exSender_fits _ _ _ _ (by decide +kernel)
    · exact exSender_fits _ _ _ _ (by decide +kernel)
  receivers := fun x h => by
    simp only [exPrivate, List.mem_cons, List.not_mem_nil, or_false] at h
    rcases h with rfl | rfl
    · exact exReceiver_fits _ _ _ _ (by decide +kernel) (by decide +kernel) (by decide)
    · exact exReceiver_fits _ _ _ _ (by decide +kernel) (by decide +kernel) (by decide)

theorem exMint_fits : Fits exP exMint where
  assetId := fun a h => by cases h; decide +kernel
  auth := fun a h => by cases h
  sources := fun v h => by
    simp only [exMint, List.mem_cons, List.not_mem_nil, or_false] at h
    subst h
    decide +kernel
  sinks := fun v h => by cases h
  senders := fun s h => by cases h
  receivers := fun x h => by
    simp only [exMint, List.mem_cons, List.not_mem_nil, or_false] at h
    subst h
    exact exReceiver_fits _ _ _ _ (by decide +kernel) (by decide +kernel) (by decide)

/-- C120: the public inputs of the private transfer and of the mint satisfy their circuits. -/
theorem ex_accepts : Accepts exP ⟨0, 2, 2, 0⟩ (Transfer.Transfer.input (enc exC exR) exPrivate) ∧
    Accepts exP ⟨1, 0, 1, 0⟩ (Transfer.Transfer.input (enc exC exR) exMint) :=
  ⟨(c120_exact (R := exR) _ _ _ exP_ok _ (by decide) _).2
    ⟨exPrivate, exPrivate_fits, ⟨rfl, rfl, rfl, rfl, rfl, rfl⟩, ex_circuit.1, rfl⟩,
   (c120_exact (R := exR) _ _ _ exP_ok _ (by decide) _).2
    ⟨exMint, exMint_fits, ⟨rfl, rfl, rfl, rfl, rfl, rfl⟩, ex_circuit.2.2.1, rfl⟩⟩

/-- C120: for a public transfer from one source to one sink, the circuit is satisfied by the public inputs with equal
values and by no others. -/
example : Accepts exP ⟨1, 0, 0, 1⟩ [8, 5, 5] ∧ ¬ Accepts exP ⟨1, 0, 0, 1⟩ [8, 5, 4] := by
  constructor
  · refine (c120_exact (R := exR) (fun _ _ _ => ()) (fun _ _ _ _ => true) (fun _ => none) exP_ok _ (by decide) _).2
      ⟨⟨none, some 8, [5], [], [], [5]⟩, ⟨?_, ?_, ?_, ?_, ?_, ?_⟩, ⟨rfl, rfl, rfl, rfl, rfl, rfl⟩, by decide +kernel, rfl⟩
    · intro a h
      cases h
      decide +kernel
    · intro a h
      cases h
    · simp
    · simp
    · simp
    · simp
  · intro h
    obtain ⟨t, h1, h2, h3, h4⟩ := (c120_exact (R := exR) (fun _ _ _ => ()) (fun _ _ _ _ => true) (fun _ => none) exP_ok _ (by decide) _).1 h
    have hc := (Transfer.c32_conservation _ bn254 (by decide +kernel) t h2.auth_iff h3).1
    have e1 := h2.sources
    have e2 := h2.senders
    have e3 := h2.receivers
    have e4 := h2.sinks
    have e5 := h2.auth
    have e6 := h2.assetId
    have b1 := h1.sources
    have b2 := h1.sinks
    match t with
    | ⟨none, some a, [u], [], [], [v]⟩ =>
      simp only [Transfer.Transfer.input, Transfer.optIn, List.flatMap_cons, List.flatMap_nil, List.nil_append,
        List.append_nil, List.cons_append, List.cons.injEq, and_true] at h4
      simp only [Transfer.Transfer.ins, Transfer.Transfer.outs, List.map_nil, List.sum_cons, List.sum_nil, Nat.add_zero] at hc
      have := h4.2.1.symm.trans (by rw [hc])
      have := this.trans h4.2.2
      exact absurd this (by decide +kernel)

/-- C121 for the private transfer. -/
example : knownConstraints exP exPrivate = unknownConstraints exP ⟨0, 2, 2, 0⟩ ∧
    unknownConstraints exP ⟨0, 2, 2, 0⟩ ≠ none :=
  ⟨c121_same exP _ _ exPrivate_fits ⟨rfl, rfl, rfl, rfl, rfl, rfl⟩, fun h => (c120_total exP_ok _).1 h (by decide)⟩

/-! ## C122 -/

/-- A compiler with five variables and one constraint. -/
def exSt : St bn254 := ⟨⟨5, [fun z => z 0 * z 1 = z 2]⟩, [0]⟩

theorem exSt_rows : RowsOk exSt := fun c hc => by
  simp only [exSt, List.mem_singleton] at hc
  subst hc
  intro z z' e
  beta_reduce
  rw [e 0 (by decide), e 1 (by decide), e 2 (by decide)]

theorem exSt_vars (l : List Nat) (h : ∀ i ∈ l, i < 5) : Vars exSt.cs.next (l.map fun i => (fun z => z i : Lc bn254)) := by
  intro c hc
  obtain ⟨i, hi, rfl⟩ := List.mem_map.1 hc
  exact scoped_var (h i hi)

example : Calls (hashC (exH 2) [fun z => z 0, fun z => z 1]) exSt fun z y => (exH 2).run [z 0, z 1] = some (y z) :=
  c122_hash_partial (exH_ok 2) exSt_rows (exSt_vars [0, 1] (by decide)) rfl

example : Calls (encryptC exP [fun z => z 0, fun z => z 1] [[fun z => z 2, fun z => z 3, fun z => z 4]]) exSt fun z o =>
    exP.duplexer.encrypt [z 0, z 1] [] [[z 2, z 3, z 4]] = some (o.1 z, o.2.map fun l => l.map fun v => v z) :=
  c122_encrypt exP_ok exSt_rows (exSt_vars [0, 1, 2, 3, 4] (by decide))

example : RowsOk exSt ∧ (∃ z, exSt.cs.Sat z) ∧ Vars (p := bn254) exSt.cs.next [fun z => z 3, fun z => z 4] :=
  ⟨exSt_rows, ⟨fun _ => 0, fun c hc => by simp only [exSt, List.mem_singleton] at hc; subst hc; decide⟩,
    exSt_vars [3, 4] (by decide)⟩

/-- C122 fails for a hasher with a stored domain tag other than the one of its type, as decoding can give: whatever
satisfies the constraints, the circuit does not have the native hash. -/
theorem c122_hash_violated :
    ∃ (H : Hasher bn254) (xs : List (Lc bn254)), H.c.width = xs.length + 1 ∧ Poseidon.Good H.c H.perm ∧
      ∃ y st', hashC H xs St.empty = some (y, st') ∧ (∃ z, st'.cs.Sat z) ∧
        ∀ z, st'.cs.Sat z → H.run (xs.map fun x => x z) ≠ some (y z) := by
  have hx : Vars (p := bn254) (St.empty : St bn254).cs.next [fun _ => 1, fun _ => 2] := by
    intro c hc
    simp only [List.mem_cons, List.not_mem_nil, or_false] at hc
    rcases hc with rfl | rfl <;> exact fun _ _ _ => rfl
  obtain ⟨y, st', e, _, _, h1, h2⟩ := c122_own_tag (H := { exH 2 with tag := 4 }) (n := 2) rfl (Nat.le_refl _)
    (exH_ok 2).good (by decide) rowsOk_empty hx rfl
  refine ⟨{ exH 2 with tag := 4 }, _, rfl, (exH_ok 2).good, y, st', e, ?_, fun z hz hr => ?_⟩
  · obtain ⟨z, _, hz⟩ := h2 (fun _ => 0) (fun c hc => by simp [St.empty, Cs.empty] at hc)
    exact ⟨z, hz⟩
  · have := hr.trans (h1 z hz).2.symm
    simp only [List.map_cons, List.map_nil] at this
    exact absurd this (by decide +kernel)

/-! ## C123 -/

/-- The post of the mint. -/
def exPost : Post (ty exC exR) where
  sig := none
  body := ⟨some 8, [75], [], [⟨(exReceiver 5 2 103 ⟨8, 75⟩).utxo, (exReceiver 5 2 103 ⟨8, 75⟩).note⟩], [], ()⟩
  sinkAccounts := []

/-- A ledger whose verifier knows one statement. -/
@[reducible] def exEnv : Ledger.Env (ty exC exR) where
  crypto := exCr
  enc := enc exC exR
  treeIndex := fun _ => 0
  root := fun _ => 0
  defaultRoot := 0
  capacity := 8
  verifyProof := fun shape x _ =>
    if shape = .toPrivate ∧ x = Transfer.Transfer.input (enc exC exR) exMint then some true else none
  contains := fun l n => l.any fun m => decide (m.cm = n.cm)
  wraps := false

/-- The premises of C123 hold for the mint of 75 from an account with 100. -/
example : (∀ shape x proof, exEnv.verifyProof shape x proof ≠ none → Accepts exP (dims shape) x) ∧
    PostTyped exP exPost ∧
    (Ledger.submit exEnv { (Ledger.State.new : Ledger.State (ty exC exR)) with accounts := [(1, [(8, 100)])] } 1 exPost).1 =
      .accepted := by
  refine ⟨fun shape x proof h => ?_, ⟨?_, ?_, ?_, ?_, ?_⟩, by decide +kernel⟩
  · simp only [ne_eq, ite_eq_right_iff, reduceCtorEq, imp_false, Decidable.not_not] at h
    rw [h.1, h.2]
    exact ex_accepts.2
  · intro a h
    cases h
    decide +kernel
  · intro v h
    simp only [exPost, List.mem_cons, List.not_mem_nil, or_false] at h
    subst h
    decide +kernel
  · intro v h
    cases h
  · intro x h
    simp only [exPost, List.mem_cons, List.not_mem_nil, or_false] at h
    subst h
    exact (exReceiver_fits 5 2 103 ⟨8, 75⟩ (by decide +kernel) (by decide +kernel) (by decide)).2.1
  · intro x h
    simp only [exPost, List.mem_cons, List.not_mem_nil, or_false] at h
    subst h
    exact (exReceiver_fits 5 2 103 ⟨8, 75⟩ (by decide +kernel) (by decide +kernel) (by decide)).2.2.2

end Verif.Circuit
