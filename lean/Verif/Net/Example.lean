import Verif.Net.Props

/-! # Two wallets on the simulation ledger -/

namespace Verif.Net

open Verif.Asset (Asset)
open Verif.Transfer (Kit Plain Collision)
open Verif.Merkle
open Verif.Settle (fP fK fG fLedger fHash Ident Acc)
open Verif.Pay (total)
open Verif.World (owned used Event Room)

/-- The instance `fK` with ciphertexts that can be read with the key. -/
@[reducible] def nK : Kit fP :=
  { fK with
    encL := fun (k r : Nat) m => [k, r, m.rand, m.asset.id, m.asset.value]
    decL := fun (k : Nat) c => match c with
      | [k', _, x, i, v] => if k' = k then some ⟨x, ⟨i, v⟩⟩ else none
      | _ => none
    encO := fun (k r : Nat) a => [k, r, a.id, a.value]
    decO := fun (k : Nat) c => match c with
      | [k', _, i, v] => if k' = k then some ⟨i, v⟩ else none
      | _ => none }

def nLedger : Ledger.Env fP.ty := { fLedger with crypto := nK.crypto (2 : Nat) }

def nMember (b : Bool) : Member fP fG where
  sk := if b then (4 : Nat) else (9 : Nat)
  rand n := if b then 1000 + n else 2000 + n
  randomizer _ := (3 : Nat)
  nonce _ := (2 : Nat)
  spendRand _ := ((6 : Nat), (0 : Nat))
  mintRand _ := ((2 : Nat), (0 : Nat))
  known _ := true
  account := if b then 77 else 78
  bound := 500

def nNet : Net fP fG Bool where
  kit := nK
  ledger := nLedger
  modulus := 2 ^ 254
  pathWit := id
  noWit := ⟨[], 0, []⟩
  bs := Verif.Asset.linSearch
  layout := Verif.Asset.idLayout
  member := nMember

theorem nSane : Sane nNet fun _ => True where
  laws := ⟨Transfer.tP_laws.smul_smul, Transfer.tP_laws.mul_comm, Transfer.tP_laws.smul_add⟩
  same := ⟨(2 : Nat), rfl⟩
  modulus := show 2 ^ 128 ≤ 2 ^ 254 by decide +kernel
  complete := by
    intro t shape _ _ hc
    refine ⟨(7 : Nat), ?_, by simp [nNet, nLedger, fLedger]⟩
    have : t.receivers ≠ [] := by
      intro e
      rw [e, List.length_nil] at hc
      generalize t.auth.isSome = x1, t.assetId.isSome = x2, t.sources.length = x3, t.senders.length = x4,
        t.sinks.length = x6 at hc
      cases hc
    cases hr : t.receivers with
    | nil => exact absurd hr this
    | cons _ _ => simp [nNet, nK, hr]
  lookup := by
    intro l n h
    simpa [nNet, nLedger, fLedger] using h
  correct := ⟨fun k r m _ => by simp [nNet], fun k r a _ => by simp [nNet]⟩
  ix := rfl
  capacity := rfl
  root _ _ := rfl
  path _ _ _ _ h := h
  known _ _ _ := rfl
  addrs := by decide
  stream := by
    intro i j n m hn hm
    have hn : n < 500 := hn
    have hm : m < 500 := hm
    intro e
    have e : (if i then 1000 + n else 2000 + n : Nat) = if j then 1000 + m else 2000 + m := e
    cases i <;> cases j <;> simp at e ⊢ <;> omega

/-- Nothing clashes here, because nothing is hashed. -/
theorem nNoAccident (st : St fP fG Bool) (h : ∀ i id, total (owned nNet.world st.log i) id < 2 ^ 128) :
    NoAccident nNet (fun _ => True) st where
  clear _ := fG.clear_of Settle.fG_nd _
  valid _ _ := trivial
  commit := by
    rintro x _ j k a _ ⟨h1, h2⟩
    refine h1 ?_
    simp only [nNet, List.cons.injEq] at h2
    simp only [Prod.mk.injEq]
    exact ⟨h2.1, h2.2.1, h2.2.2.1, h2.2.2.2.1⟩
  nulls := by
    rintro i ⟨⟨t, k⟩, ⟨d, v⟩⟩ _ j ⟨⟨t', k'⟩, ⟨d', v'⟩⟩ _ e
    have e : (nNet.wire i).pak :: _ :: _ :: _ :: [k, _, _, (nNet.wire i).address] =
      (nNet.wire j).pak :: _ :: _ :: _ :: [k', _, _, (nNet.wire j).address] := e
    simp only [List.cons.injEq, and_true] at e
    obtain ⟨e1, e2, e3, e4, rfl, e6, e7, _⟩ := e
    have hij : i = j := by
      cases i <;> cases j <;> first | rfl | exact absurd e1 (by decide)
    refine ⟨hij, ?_⟩
    cases t <;> cases t' <;> simp [Transfer.utxoReconstruct, Transfer.visPublic, Transfer.visSecret] at e2 e3 e4 e6 e7 ⊢
    · exact ⟨e6, e7⟩
    · exact ⟨e3, e4⟩
  items := by
    intro x _ y _ e
    generalize (nNet.coin x).utxo = u at *
    generalize (nNet.coin y).utxo = w at *
    obtain ⟨t, ⟨d, v⟩, c⟩ := u
    obtain ⟨t', ⟨d', v'⟩, c'⟩ := w
    simp only [nNet, List.cons.injEq] at e
    obtain ⟨e1, rfl, rfl, rfl⟩ := e
    cases t <;> cases t' <;> first | rfl | cases e1
  fits := h

theorem total_le (l : List (Ident fP × Asset)) (id : Nat) : total l id ≤ (l.map fun c => c.2.value).sum := by
  induction l with
  | nil => simp [total]
  | cons c l ih =>
    unfold total at ih ⊢
    rw [List.map_cons, Asset.bal_cons, List.map_cons, List.sum_cons]
    split <;> omega

def n0 : St fP fG Bool := St.start [(77, [(7, 100)]), (78, [])]
/-- The first wallet deposits 40 and pays 15 to the second, which then withdraws 5; the first merges its coin. -/
def n1 := nNet.step n0 (.post true (.toPrivate ⟨7, 40⟩))
def n2 := nNet.step n1.2 (.post true (.privateTransfer ⟨7, 15⟩ (.other (10 : Nat))))
def n3 := nNet.step n2.2 (.post false (.toPublic ⟨7, 5⟩ 78))
def n4 := nNet.step n3.2 (.read true)

theorem nFits (st : St fP fG Bool)
    (h : (((owned nNet.world st.log true).map fun c => c.2.value).sum < 2 ^ 128 &&
      ((owned nNet.world st.log false).map fun c => c.2.value).sum < 2 ^ 128) = true) :
    NoAccident nNet (fun _ => True) st := by
  simp only [Bool.and_eq_true, decide_eq_true_eq] at h
  refine nNoAccident st fun i id => ?_
  cases i
  · exact Nat.lt_of_le_of_lt (total_le _ _) h.2
  · exact Nat.lt_of_le_of_lt (total_le _ _) h.1

instance (st : St fP fG Bool) (i : Bool) : Decidable (Room nNet st i) := by
  unfold Room; infer_instance

theorem nReach : Reach nNet (fun _ => True) n0 [n1.1, n2.1, n3.1, n4.1] n4.2 := by
  have r0 : Reach nNet (fun _ => True) n0 [] n0 := .nil
  have r1 : Reach nNet (fun _ => True) n0 [n1.1] n1.2 :=
    .snoc r0 (.post true (.toPrivate ⟨7, 40⟩)) ⟨by decide +kernel, by decide, by decide⟩ (nFits _ (by decide +kernel))
  have r2 : Reach nNet (fun _ => True) n0 [n1.1, n2.1] n2.2 :=
    .snoc r1 (.post true (.privateTransfer ⟨7, 15⟩ (.other (10 : Nat)))) ⟨by decide +kernel, by decide, trivial⟩
      (nFits _ (by decide +kernel))
  have r3 : Reach nNet (fun _ => True) n0 [n1.1, n2.1, n3.1] n3.2 :=
    .snoc r2 (.post false (.toPublic ⟨7, 5⟩ 78)) ⟨by decide +kernel, by decide, by decide +kernel⟩ (nFits _ (by decide +kernel))
  exact .snoc r3 (.read true) trivial (nFits _ (by decide +kernel))

/-- The hypotheses of C132 are met by a history with a deposit, a payment, a withdrawal and a synchronization. -/
example : Sane nNet (fun _ => True) ∧ Reach nNet (fun _ => True) n0 [n1.1, n2.1, n3.1, n4.1] n4.2 ∧
    [n1.1, n2.1, n3.1, n4.1] = [.mint true ⟨7, 40⟩ true, .pay true ⟨7, 15⟩ (.other (10 : Nat)) true,
      .withdraw false ⟨7, 5⟩ 78 5, .read true] ∧
    (nNet.coins n4.2.ledger true).map (fun c => c.2.value) = [25] ∧
    (nNet.coins n4.2.ledger false).map (fun c => c.2.value) = [10] ∧
    Verif.Asset.AList.value Verif.Asset.linSearch (n4.2.sys true).wallet.assets 7 = 25 :=
  ⟨nSane, nReach, by decide +kernel, by decide +kernel, by decide +kernel, by decide +kernel⟩

/-- Posts of the payment. -/
def nTxs : List (Settle.TxOf fP (Acc fG)) :=
  (Pay.post (nNet.env true) (n1.2.sys true) [n1.2.data true] (.privateTransfer ⟨7, 15⟩ (.other (10 : Nat)))).1.handed

/-- Before the payment the hypotheses of `c132_pays` are met, and nothing clashes. -/
example : Room nNet n1.2 true ∧
    15 ≤ ((World.Book.opening (Ledger.balance [(77, [(7, 100)]), (78, [])])).after nNet.world.addr nNet.world.acct
      [n1.1]).priv true 7 ∧ nTxs.length = 1 ∧
    Settle.NoClash (nNet.wire true) n1.2.ledger (nNet.purse n1.2 true) nTxs := by
  refine ⟨by decide +kernel, by decide +kernel, by decide +kernel, ?_, ?_, ?_, ?_, ?_⟩
  · have h : (((nNet.wire true).posts nTxs).all fun p => p.sig.all fun sg => decide (fP.smul fP.gen sg.sig.1 ≠ sg.sig.2)) = true := by
      decide +kernel
    intro p hp sg e
    have := List.all_eq_true.mp h p hp
    rw [e] at this
    exact of_decide_eq_true this
  · decide +kernel
  · decide +kernel
  · have h : ∀ c ∈ Sign.spent nTxs, ∀ n ∈ n1.2.ledger.nullifiers, n.cm ≠ (nNet.wire true).nullifier c.1 c.2 := by decide +kernel
    exact fun c hc _ => h c hc
  · decide +kernel

/-- Setting up three actors with two assets. -/
example : (setup (P := fP) 3 2 50).map (fun s => (List.range 4).map fun a => (List.range 4).map fun id => Ledger.balance s.accounts a id) =
    some [[0, 50, 50, 0], [0, 50, 50, 0], [0, 50, 50, 0], [0, 0, 0, 0]] := by decide +kernel

end Verif.Net
