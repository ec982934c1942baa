import Verif.Circuit.History
import Verif.Circuit.Examples

/-!
# A history with honest hashes, and one with a broken tree hash

Account 1 receives 100 of asset 8 from outside and turns 60 and 40 into coins, which are spent for a public 75 and a coin of 25.
With a constant hash of the tree, coins that were never made are spent.
-/

namespace Verif.Circuit

open Verif.Gadget
open Verif.Asset (Asset)
open Verif.Transfer (Ty Utxo Nul FullNote Plain Sender Receiver Auth Transfer Crypto InputEnc Post Body)

theorem submit_forest {C : Curve bn254 7} {R : Rest} (env : Ledger.Env (ty C R)) (h0 : ∀ x, env.treeIndex x = 0)
    (s : Ledger.State (ty C R)) (a : Nat) (q : Post (ty C R)) (i : Ledger.Ix) (hi : i ≠ 0) :
    (Ledger.submit env s a q).2.forest i = s.forest i := by
  have spend : ∀ (l : List (Transfer.SenderPost (ty C R))) (s : Ledger.State (ty C R)), (l.foldl (Ledger.spend env) s).forest i = s.forest i := by
    intro l
    induction l with
    | nil => intro s; rfl
    | cons x l ih =>
      intro s
      rw [List.foldl_cons, ih]
      unfold Ledger.spend
      split <;> rfl
  have reg : ∀ (l : List (Transfer.ReceiverPost (ty C R))) (s : Ledger.State (ty C R)), (l.foldl (Ledger.register env) s).forest i = s.forest i := by
    intro l
    induction l with
    | nil => intro s; rfl
    | cons x l ih =>
      intro s
      rw [List.foldl_cons, ih]
      unfold Ledger.register
      simp only [h0]
      split
      · simp [Ledger.upd, hi]
      · rfl
  unfold Ledger.submit
  split
  · rfl
  · split
    · rfl
    · rename_i k _
      have : (Ledger.applyKey env s k).2.forest i = s.forest i := by
        unfold Ledger.applyKey
        split
        · rw [reg, spend]
        · show (List.foldl (Ledger.register env) (List.foldl (Ledger.spend env) s k.senders) k.receivers).forest i = _
          rw [reg, spend]
      split <;> rename_i h <;> rw [h] at this <;> exact this

/-! ## Honest hashes -/

/-- Key of the receiver with authorization key 3. -/
@[reducible] def hKey : ZMod 7 := Transfer.receivingKey exCr (3 : ZMod 7)

def hMint (rand : ZMod bn254) (v : Nat) : Transfer (ty exC exR) :=
  ⟨none, some 8, [v], [], [exReceiver hKey 2 rand ⟨8, v⟩], []⟩

/-- The leaves after the two mints. -/
def hLeaves : List (ZMod bn254) := [exCr.item (exReceiver hKey 2 101 ⟨8, 60⟩).utxo, exCr.item (exReceiver hKey 2 102 ⟨8, 40⟩).utxo]

def hSender (rand : ZMod bn254) (v i : Nat) : Sender (ty exC exR) :=
  let u := (exReceiver hKey 2 rand ⟨8, v⟩).utxo
  ⟨0, ⟨rand, ⟨8, v⟩⟩, u, Merkle.specPath exP.tree 2 hLeaves i, Merkle.specRoot exP.tree 2 hLeaves,
    ⟨exCr.nullCommit 3 (exCr.item u), ()⟩⟩

def hReclaim : Transfer (ty exC exR) where
  auth := some ⟨3, 4, exCr.smul 3 4⟩
  assetId := some 8
  sources := []
  senders := [hSender 101 60 0, hSender 102 40 1]
  receivers := [exReceiver 6 3 104 ⟨8, 25⟩]
  sinks := [75]

def hPost (t : Transfer (ty exC exR)) : Post (ty exC exR) :=
  ⟨t.auth.map fun a => ⟨a.rpak, ()⟩, Body.build () t, t.sinks.map fun _ => 1⟩

/-- A ledger whose verifier knows three statements. -/
@[reducible] def hEnv : Ledger.Env (ty exC exR) where
  crypto := exCr
  enc := enc exC exR
  treeIndex := fun _ => 0
  root := Merkle.specRoot exP.tree exP.h
  defaultRoot := 0
  capacity := 8
  verifyProof := fun shape x _ =>
    if (shape = .toPrivate ∧ x = (hMint 101 60).input (enc exC exR)) ∨ (shape = .toPrivate ∧ x = (hMint 102 40).input (enc exC exR)) ∨
      (shape = .toPublic ∧ x = hReclaim.input (enc exC exR)) then some true else none
  contains := fun l n => l.any fun m => decide (m.cm = n.cm)
  wraps := false

theorem h_sat : Transfer.circuit exCr bn254 (hMint 101 60) = some true ∧ Transfer.circuit exCr bn254 (hMint 102 40) = some true ∧
    Transfer.circuit exCr bn254 hReclaim = some true := by
  refine ⟨?_, ?_, ?_⟩ <;> decide +kernel

theorem hMint_fits (rand : ZMod bn254) (v : Nat) (hv : v < 2 ^ 128)
    (hl : (exCr.encIn hKey 2 ⟨rand, ⟨8, v⟩⟩).2.2.map List.length = [3]) : Fits exP (hMint rand v) where
  assetId := fun a h => by cases h; decide +kernel
  auth := fun a h => by cases h
  sources := fun u h => by
    simp only [hMint, List.mem_cons, List.not_mem_nil, or_false] at h
    subst h
    exact hv
  sinks := fun v h => by cases h
  senders := fun s h => by cases h
  receivers := fun x h => by
    simp only [hMint, List.mem_cons, List.not_mem_nil, or_false] at h
    subst h
    exact exReceiver_fits _ _ _ _ ⟨show 8 < bn254 by decide +kernel, hv⟩ hl (by decide +kernel)

theorem hReclaim_fits : Fits exP hReclaim where
  assetId := fun a h => by cases h; decide +kernel
  auth := fun a h => by cases h; decide
  sources := fun v h => by cases h
  sinks := fun v h => by
    simp only [hReclaim, List.mem_cons, List.not_mem_nil, or_false] at h
    subst h
    decide +kernel
  senders := fun s h => by
    simp only [hReclaim, List.mem_cons, List.not_mem_nil, or_false] at h
    rcases h with rfl | rfl
    · exact ⟨⟨by decide +kernel, by decide +kernel⟩, zero_fits, rfl⟩
    · exact ⟨⟨by decide +kernel, by decide +kernel⟩, zero_fits, rfl⟩
  receivers := fun x h => by
    simp only [hReclaim, List.mem_cons, List.not_mem_nil, or_false] at h
    subst h
    exact exReceiver_fits _ _ _ _ (by decide +kernel) (by decide +kernel) (by decide)

theorem hFits : Fits exP (hMint 101 60) ∧ Fits exP (hMint 102 40) :=
  ⟨hMint_fits _ _ (by decide) (by decide +kernel), hMint_fits _ _ (by decide) (by decide +kernel)⟩

theorem hEnv_verifier (shape : Transfer.Shape) (x : List (ZMod bn254)) (proof : Unit)
    (h : hEnv.verifyProof shape x proof ≠ none) : Accepts exP (dims shape) x := by
  simp only [ne_eq, ite_eq_right_iff, reduceCtorEq, imp_false, Decidable.not_not] at h
  rcases h with h | h | h
  · rw [h.1, h.2]
    exact (c120_exact (R := exR) _ _ _ exP_ok _ (by decide) _).2
      ⟨_, hFits.1, ⟨rfl, rfl, rfl, rfl, rfl, rfl⟩, h_sat.1, rfl⟩
  · rw [h.1, h.2]
    exact (c120_exact (R := exR) _ _ _ exP_ok _ (by decide) _).2
      ⟨_, hFits.2, ⟨rfl, rfl, rfl, rfl, rfl, rfl⟩, h_sat.2.1, rfl⟩
  · rw [h.1, h.2]
    exact (c120_exact (R := exR) _ _ _ exP_ok _ (by decide) _).2
      ⟨_, hReclaim_fits, ⟨rfl, rfl, rfl, rfl, rfl, rfl⟩, h_sat.2.2, rfl⟩

/-- The states of the history. -/
def hS0 : Ledger.State (ty exC exR) := { (Ledger.State.new : Ledger.State (ty exC exR)) with accounts := [(1, [(8, 100)])] }
def hS1 : Ledger.State (ty exC exR) := (Ledger.submit hEnv hS0 1 (hPost (hMint 101 60))).2
def hS2 : Ledger.State (ty exC exR) := (Ledger.submit hEnv hS1 1 (hPost (hMint 102 40))).2
def hS3 : Ledger.State (ty exC exR) := (Ledger.submit hEnv hS2 1 (hPost hReclaim)).2

theorem h_accepted : (Ledger.submit hEnv hS0 1 (hPost (hMint 101 60))).1 = .accepted ∧
    (Ledger.submit hEnv hS1 1 (hPost (hMint 102 40))).1 = .accepted ∧
    (Ledger.submit hEnv hS2 1 (hPost hReclaim)).1 = .accepted := by
  refine ⟨?_, ?_, ?_⟩ <;> decide +kernel

def hLog : List (Ledger.State (ty exC exR) × Post (ty exC exR)) :=
  [] ++ [(hS0, hPost (hMint 101 60))] ++ [(hS1, hPost (hMint 102 40))] ++ [(hS2, hPost hReclaim)]

def hTs : List (Transfer (ty exC exR)) := [] ++ [hMint 101 60] ++ [hMint 102 40] ++ [hReclaim]

theorem h_raw : Raw hEnv [1, 1, 1, 1] [(8, 0, 100)] hLog hS3 := by
  refine .accepted 1 _ (.accepted 1 _ (.accepted 1 _ (.deposit (ext := []) 1 8 100 .start rfl) (Prod.ext h_accepted.1 rfl) ?_)
    (Prod.ext h_accepted.2.1 rfl) ?_) (Prod.ext h_accepted.2.2 rfl) ?_ <;> intro h <;> cases h

theorem h_configured : Configured exP hEnv where
  crypto := ⟨_, _, _, rfl⟩
  enc := rfl
  root := rfl
  defaultRoot := rfl
  exact := fun l n => by simp

theorem h_backed {t : Transfer (ty exC exR)} (h1 : t.auth.isSome = true ↔ t.senders ≠ [])
    (h2 : Transfer.circuit exCr bn254 t = some true) : Ledger.Backed hEnv bn254 (hPost t) t where
  shape := h1
  sat := h2
  assetId := rfl
  sources := rfl
  sinks := rfl
  senders := by simp [hPost, Body.build, Sender.intoPost]
  receivers := by simp [hPost, Body.build, Receiver.intoPost]

theorem h_witnesses : Witnesses exP hEnv hLog hTs :=
  .snoc _ _ _ (.snoc _ _ _ (.snoc _ _ _ .nil (h_backed (by decide) h_sat.1) hFits.1) (h_backed (by decide) h_sat.2.1) hFits.2)
    (h_backed (by decide) h_sat.2.2) hReclaim_fits

theorem hS2_forest (i : Ledger.Ix) (h : Merkle.specRoot exP.tree exP.h (hS2.forest i) = Merkle.specRoot exP.tree 2 hLeaves) :
    hS2.forest i = hLeaves := by
  by_cases hi : i = 0
  · subst hi; decide +kernel
  · have : hS2.forest i = [] := by
      unfold hS2 hS1
      rw [submit_forest _ (fun _ => rfl) _ _ _ _ hi, submit_forest _ (fun _ => rfl) _ _ _ _ hi]
      rfl
    rw [this] at h
    exact absurd h (by decide +kernel)

theorem hLeaves_pair {y : ZMod bn254 × ZMod bn254} (h : Merkle.TreeLeafPair exP.tree hLeaves y) :
    y = (hLeaves.getD 0 0, hLeaves.getD 1 0) := by
  obtain ⟨i, h1, rfl⟩ := h
  have : i = 0 := by
    have : hLeaves.length = 2 := rfl
    omega
  subst this
  rfl

theorem hNodes_pair {y : ZMod bn254 × ZMod bn254} (h : Merkle.TreePair exP.tree exP.h hLeaves y) :
    y ∈ [(Merkle.nodeVal exP.tree hLeaves 0 0, Merkle.nodeVal exP.tree hLeaves 0 1),
      (Merkle.nodeVal exP.tree hLeaves 1 0, Merkle.nodeVal exP.tree hLeaves 1 1)] := by
  obtain ⟨k, i, hk, h1, rfl⟩ := h
  have h2 : hLeaves.length = 2 := rfl
  have hk' : k = 0 ∨ k = 1 := by
    have : k < 2 := hk
    omega
  have : i = 0 := by
    rcases hk' with rfl | rfl <;> omega
  subst this
  rcases hk' with rfl | rfl <;> simp

/-- The digests on the paths. -/
def hD0 : ZMod bn254 := 4458726003589982663467289917550502448946671098790566720619284906954918422892
def hD1 : ZMod bn254 := 10908377665366638759866849586944705977611825888109856062587251067896431638590

def hD2 : ZMod bn254 := 15161039723019760890002308050437114569578954155348562684435439781038226161533

theorem hNode00 : Merkle.nodeVal exP.tree hLeaves 0 0 = hD0 := by decide +kernel
theorem hNode01 : Merkle.nodeVal exP.tree hLeaves 0 1 = 0 := by decide +kernel
theorem hNode10 : Merkle.nodeVal exP.tree hLeaves 1 0 = hD1 := by
  have : Merkle.nodeVal exP.tree hLeaves 1 0 =
    exP.tree.join (Merkle.nodeVal exP.tree hLeaves 0 0) (Merkle.nodeVal exP.tree hLeaves 0 1) := rfl
  rw [this, hNode00, hNode01]
  decide +kernel
theorem hNode11 : Merkle.nodeVal exP.tree hLeaves 1 1 = 0 := by decide +kernel

theorem h_fold (x : Sender (ty exC exR)) (hx : x ∈ hReclaim.senders) : Merkle.foldInputs exP.tree x.wit.leafIndex
    (exP.tree.joinLeavesAt x.wit.leafIndex (exCr.item x.utxo) x.wit.sib) x.wit.path = [(hD0, 0), (hD1, 0)] := by
  have h1 : exP.tree.joinAt 0 hD0 0 = hD1 := by decide +kernel
  simp only [hReclaim, List.mem_cons, List.not_mem_nil, or_false] at hx
  rcases hx with rfl | rfl
  · have h0 : exP.tree.joinLeavesAt 0 (hLeaves.getD 0 0) (hLeaves.getD 1 0) = hD0 := by decide +kernel
    show [(exP.tree.joinLeavesAt 0 (hLeaves.getD 0 0) (hLeaves.getD 1 0), Merkle.nodeVal exP.tree hLeaves 0 1),
      (exP.tree.joinAt 0 (exP.tree.joinLeavesAt 0 (hLeaves.getD 0 0) (hLeaves.getD 1 0)) (Merkle.nodeVal exP.tree hLeaves 0 1),
        Merkle.nodeVal exP.tree hLeaves 1 1)] = _
    rw [h0, hNode01, hNode11, h1]
  · have h0 : exP.tree.joinLeavesAt 1 (hLeaves.getD 1 0) (hLeaves.getD 0 0) = hD0 := by decide +kernel
    show [(exP.tree.joinLeavesAt 1 (hLeaves.getD 1 0) (hLeaves.getD 0 0), Merkle.nodeVal exP.tree hLeaves 0 1),
      (exP.tree.joinAt 0 (exP.tree.joinLeavesAt 1 (hLeaves.getD 1 0) (hLeaves.getD 0 0)) (Merkle.nodeVal exP.tree hLeaves 0 1),
        Merkle.nodeVal exP.tree hLeaves 1 1)] = _
    rw [h0, hNode01, hNode11, h1]

theorem h_path (x : Sender (ty exC exR)) (hx : x ∈ hReclaim.senders) : Merkle.PathSound exP.tree x.wit (exCr.item x.utxo) ∧
    Merkle.TreeSound exP.tree exP.h hLeaves x.wit (exCr.item x.utxo) := by
  have a1 : ∀ x ∈ hReclaim.senders, exCr.item x.utxo ≠ 0 := by decide +kernel
  have a2 : ∀ x ∈ hReclaim.senders, exP.tree.joinL (Merkle.leafInput x.wit (exCr.item x.utxo)).1
      (Merkle.leafInput x.wit (exCr.item x.utxo)).2 ≠ 0 := by decide +kernel
  have b1 : exP.tree.join hD0 0 = hD1 := by decide +kernel
  have b2 : exP.tree.join hD1 0 = hD2 := by decide +kernel
  have b3 : hD1 ≠ 0 ∧ hD2 ≠ 0 ∧ hD1 ≠ hD2 := by decide +kernel
  have a3 : ∀ y ∈ [(hD0, (0 : ZMod bn254)), (hD1, 0)], exP.tree.join y.1 y.2 ≠ 0 := by
    intro y hy
    simp only [List.mem_cons, List.not_mem_nil, or_false] at hy
    rcases hy with rfl | rfl
    · rw [b1]; exact b3.1
    · rw [b2]; exact b3.2.1
  have a4 : ∀ x ∈ hReclaim.senders, Merkle.leafInput x.wit (exCr.item x.utxo) = (hLeaves.getD 0 0, hLeaves.getD 1 0) := by
    decide +kernel
  have a5 : ∀ y ∈ [(hD0, (0 : ZMod bn254)), (hD1, 0)], ∀ w ∈ [(hD0, (0 : ZMod bn254)), (hD1, 0)],
      exP.tree.join y.1 y.2 = exP.tree.join w.1 w.2 → y = w := by
    intro y hy w hw
    simp only [List.mem_cons, List.not_mem_nil, or_false] at hy hw
    rcases hy with rfl | rfl <;> rcases hw with rfl | rfl
    · exact fun _ => rfl
    · rw [b1, b2]; exact fun e => absurd e b3.2.2
    · rw [b1, b2]; exact fun e => absurd e.symm b3.2.2
    · exact fun _ => rfl
  refine ⟨⟨a1 x hx, a2 x hx, ?_⟩, ⟨fun y hy _ => (a4 x hx).trans (hLeaves_pair hy).symm, ?_⟩⟩
  · rw [h_fold x hx]
    exact a3
  · rw [h_fold x hx]
    intro y hy w hw e
    have := hNodes_pair hw
    rw [hNode00, hNode01, hNode10, hNode11] at this
    exact a5 y hy w this e

theorem h_unbroken : Unbroken exP hEnv hLog hTs where
  commitments := by
    have h1 : ∀ x ∈ Ledger.openings exCr hTs, ∀ y ∈ Ledger.openings exCr hTs,
      exCr.commit x.1 x.2.1 x.2.2.1 x.2.2.2 = exCr.commit y.1 y.2.1 y.2.2.1 y.2.2.2 → x = y := by decide +kernel
    have h2 : ∀ a ∈ hTs.flatMap (fun t => t.auth.toList), ∀ b ∈ hTs.flatMap (fun t => t.auth.toList), a.pak = b.pak := by
      decide +kernel
    have h3 : ∀ r ∈ Ledger.created hTs, ∀ x ∈ Ledger.spends hTs, exCr.item r.utxo = exCr.item x.utxo → r.utxo = x.utxo := by
      decide +kernel
    exact ⟨fun x hx y hy h => h.1 (h1 x hx y hy h.2), fun a ha b hb h => h.1 (h2 a ha b hb),
      fun r hr x hx h => h.1 (h3 r hr x hx h.2)⟩
  paths t ht x hx _ := by
    simp only [hTs, List.nil_append, List.cons_append, List.mem_cons, List.not_mem_nil, or_false] at ht
    rcases ht with rfl | rfl | rfl
    · cases hx
    · cases hx
    · exact (h_path x hx).1
  trees n e t he ht x hx _ i hi := by
    have hl : hLog = [(hS0, hPost (hMint 101 60)), (hS1, hPost (hMint 102 40)), (hS2, hPost hReclaim)] := rfl
    have ht' : hTs = [hMint 101 60, hMint 102 40, hReclaim] := rfl
    rw [hl] at he
    rw [ht'] at ht
    match n with
    | 0 =>
      simp only [List.getElem?_cons_zero, Option.some.injEq] at ht
      subst ht
      cases hx
    | 1 =>
      simp only [List.getElem?_cons_succ, List.getElem?_cons_zero, Option.some.injEq] at ht
      subst ht
      cases hx
    | 2 =>
      simp only [List.getElem?_cons_succ, List.getElem?_cons_zero, Option.some.injEq] at ht he
      subst ht
      subst he
      have hr : ∀ x ∈ hReclaim.senders, x.root = Merkle.specRoot exP.tree 2 hLeaves := by
        intro x hx
        simp only [hReclaim, List.mem_cons, List.not_mem_nil, or_false] at hx
        rcases hx with rfl | rfl <;> rfl
      rw [hr x hx] at hi
      dsimp only at hi ⊢
      have hf := hS2_forest i hi
      rw [hf]
      exact (h_path x hx).2
    | n + 3 => simp at ht

theorem hPost_typed : ∀ e ∈ hLog, PostTyped exP e.2 := by
  have typed : ∀ t, Fits exP t → PostTyped exP (hPost t) := fun t h => ⟨h.assetId, h.sources, h.sinks, fun x hx => by
    obtain ⟨y, hy, rfl⟩ := List.mem_map.1 hx
    exact (h.receivers y hy).2.1, fun x hx => by
    obtain ⟨y, hy, rfl⟩ := List.mem_map.1 hx
    exact (h.receivers y hy).2.2.2⟩
  intro e he
  simp only [hLog, List.nil_append, List.cons_append, List.mem_cons, List.not_mem_nil, or_false] at he
  rcases he with rfl | rfl | rfl
  · exact typed _ hFits.1
  · exact typed _ hFits.2
  · exact typed _ hReclaim_fits

/-- C127: 75 public and a coin of 25 from 100. -/
example : Ledger.publicSupply hS3 [1] 8 = 75 ∧ Ledger.unspentSupply hTs 8 = 25 ∧ Ledger.putIn [(8, 0, 100)] 8 = 100 ∧
    Ledger.publicSupply hS3 [1] 8 + Ledger.unspentSupply hTs 8 + Ledger.overwritten [(8, 0, 100)] 8 =
      Ledger.putIn [(8, 0, 100)] 8 :=
  ⟨by decide +kernel, by decide +kernel, rfl, c127_conserved_partial (by decide +kernel) h_configured h_raw hTs h_witnesses
    h_unbroken [1] (by decide) (by decide) 8⟩

example : ∃ ts, Witnesses exP hEnv hLog ts := c127_witnesses_partial exP_ok h_configured hEnv_verifier h_raw hPost_typed

/-! ## A broken hash of the tree -/

/-- A hash that is constant. -/
def bH : Hasher bn254 where
  c := ⟨3, 2, 1⟩
  perm := ⟨List.replicate 9 0, List.replicate 9 0⟩
  expo := 5
  tag := 3
  ownTag := 3

@[reducible] def bP : Params exC := { exP with node := bH }

theorem bP_ok : bP.Ok :=
  { exP_ok with
    node := ⟨rfl, Nat.le_refl _, ⟨by simp [bH, Poseidon.Consts.rounds], by simp [bH]⟩, by simp [bH], rfl⟩ }

@[reducible] def bCr : Crypto (ty exC exR) := crypto bP exR (fun _ _ _ => ()) (fun _ _ _ _ => true) fun _ => some ()

/-- A coin that nobody made, with some path. -/
def bSender (rand : ZMod bn254) (v : Nat) : Sender (ty exC exR) :=
  let u := (exReceiver hKey 2 rand ⟨8, v⟩).utxo
  ⟨0, ⟨rand, ⟨8, v⟩⟩, u, ⟨17, 0, [20, 21]⟩, 0, ⟨bCr.nullCommit 3 (bCr.item u), ()⟩⟩

def bReclaim : Transfer (ty exC exR) :=
  { hReclaim with senders := [bSender 101 60, bSender 102 40] }

@[reducible] def bEnv : Ledger.Env (ty exC exR) where
  crypto := bCr
  enc := enc exC exR
  treeIndex := fun _ => 0
  root := Merkle.specRoot bP.tree bP.h
  defaultRoot := 0
  capacity := 8
  verifyProof := fun shape x _ => if shape = .toPublic ∧ x = bReclaim.input (enc exC exR) then some true else none
  contains := fun l n => l.any fun m => decide (m.cm = n.cm)
  wraps := false

theorem bReclaim_fits : Fits bP bReclaim where
  assetId := hReclaim_fits.assetId
  auth := hReclaim_fits.auth
  sources := hReclaim_fits.sources
  sinks := hReclaim_fits.sinks
  senders := fun s h => by
    simp only [bReclaim, List.mem_cons, List.not_mem_nil, or_false] at h
    rcases h with rfl | rfl
    · exact ⟨⟨by decide +kernel, by decide +kernel⟩, zero_fits, rfl⟩
    · exact ⟨⟨by decide +kernel, by decide +kernel⟩, zero_fits, rfl⟩
  receivers := hReclaim_fits.receivers

def bS0 : Ledger.State (ty exC exR) := { (Ledger.State.new : Ledger.State (ty exC exR)) with accounts := [(1, [(8, 0)])] }
def bS1 : Ledger.State (ty exC exR) := (Ledger.submit bEnv bS0 1 (hPost bReclaim)).2

theorem b_sat : Transfer.circuit bCr bn254 bReclaim = some true := by decide +kernel

theorem b_accepted : (Ledger.submit bEnv bS0 1 (hPost bReclaim)).1 = .accepted := by decide +kernel

theorem b_raw : Raw bEnv [1, 1] [(8, 0, 0)] [(bS0, hPost bReclaim)] bS1 := by
  have h : Raw bEnv [1] [(8, 0, 0)] [] bS0 := .deposit (ext := []) 1 8 0 .start rfl
  have e : ∀ x : Ledger.Outcome × Ledger.State (ty exC exR), x.1 = .accepted → x = (.accepted, x.2) := by
    rintro ⟨_, _⟩ rfl
    rfl
  unfold bS1
  refine .accepted 1 (hPost bReclaim) h (e _ b_accepted) ?_
  intro h
  cases h

/-- C127: nothing was deposited and the account has 75. -/
example : (∃ ts, Witnesses bP bEnv [(bS0, hPost bReclaim)] ts) ∧
    ∀ ts, Witnesses bP bEnv [(bS0, hPost bReclaim)] ts → ¬ Unbroken bP bEnv [(bS0, hPost bReclaim)] ts := by
  refine c127_inflation_partial bP_ok (by decide +kernel)
    ⟨⟨_, _, _, rfl⟩, rfl, rfl, rfl, fun l n => by simp⟩ (fun shape x proof h => ?_) b_raw ?_ [1] (by decide) (by decide) 8
    (by decide +kernel)
  · simp only [ne_eq, ite_eq_right_iff, reduceCtorEq, imp_false, Decidable.not_not] at h
    rw [h.1, h.2]
    exact (c120_exact (R := exR) _ _ _ bP_ok _ (by decide) _).2
      ⟨_, bReclaim_fits, ⟨rfl, rfl, rfl, rfl, rfl, rfl⟩, b_sat, rfl⟩
  · intro e he
    simp only [List.mem_singleton] at he
    subst he
    have h := bReclaim_fits
    exact ⟨h.assetId, h.sources, h.sinks, fun x hx => by
      obtain ⟨y, hy, rfl⟩ := List.mem_map.1 hx
      exact (h.receivers y hy).2.1, fun x hx => by
      obtain ⟨y, hy, rfl⟩ := List.mem_map.1 hx
      exact (h.receivers y hy).2.2.2⟩

/-! ## The verdict of the verifier -/

/-- Verifier that knows one statement and answers false, without an error, for all others. -/
@[reducible] def vEnv : Ledger.Env (ty exC exR) :=
  ⟨exCr, enc exC exR, fun _ => 0, Merkle.specRoot exP.tree exP.h, 0, 8,
    fun shape x _ => some (decide (shape = .toPrivate ∧ x = (hMint 101 60).input (enc exC exR))),
    fun l n => l.any fun m => decide (m.cm = n.cm), false⟩

def vPost : Post (ty exC exR) := hPost { hReclaim with senders := [{ hSender 101 60 0 with root := 0 }, { hSender 102 40 1 with root := 0 }] }

def vS1 : Ledger.State (ty exC exR) := (Ledger.submit vEnv bS0 1 vPost).2

theorem v_accepted : (Ledger.submit vEnv bS0 1 vPost).1 = .accepted := by decide +kernel

/-- C127 does not hold when the verifier answers false instead of failing: nothing was deposited, no statement was proved and
the account has 75, because the ledger drops the answer (manta-pay/src/simulation/ledger/mod.rs:636-651). -/
theorem c127_violated : ∃ (env : Ledger.Env (ty exC exR)) (log : _) (s : _), Configured exP env ∧
    (∀ shape x proof, env.verifyProof shape x proof = some true → Accepts exP (dims shape) x) ∧
    Raw env [1, 1] [(8, 0, 0)] log s ∧ (∀ e ∈ log, PostTyped exP e.2) ∧
    Ledger.putIn [(8, 0, 0)] 8 < Ledger.publicSupply s [1] 8 := by
  refine ⟨vEnv, [(bS0, vPost)], vS1, ⟨⟨_, _, _, rfl⟩, rfl, rfl, rfl, fun l n => by simp⟩, fun shape x proof h => ?_, ?_, ?_, by decide +kernel⟩
  · simp only [Option.some.injEq, decide_eq_true_eq] at h
    rw [h.1, h.2]
    exact (c120_exact (R := exR) _ _ _ exP_ok _ (by decide) _).2
      ⟨_, hFits.1, ⟨rfl, rfl, rfl, rfl, rfl, rfl⟩, h_sat.1, rfl⟩
  · have h : Raw vEnv [1] [(8, 0, 0)] [] bS0 := .deposit (ext := []) 1 8 0 .start rfl
    have e : ∀ x : Ledger.Outcome × Ledger.State (ty exC exR), x.1 = .accepted → x = (.accepted, x.2) := by
      rintro ⟨_, _⟩ rfl
      rfl
    unfold vS1
    refine .accepted 1 vPost h (e _ v_accepted) ?_
    intro h
    cases h
  · intro x hx
    simp only [List.mem_singleton] at hx
    subst hx
    have h := hReclaim_fits
    exact ⟨h.assetId, h.sources, h.sinks, fun x hx => by
      obtain ⟨y, hy, rfl⟩ := List.mem_map.1 hx
      exact (h.receivers y hy).2.1, fun x hx => by
      obtain ⟨y, hy, rfl⟩ := List.mem_map.1 hx
      exact (h.receivers y hy).2.2.2⟩

end Verif.Circuit
