import Verif.Settle.Toy
import Verif.Settle.Paid

/-! # Concrete cases for C128 and C129 -/

namespace Verif.Pay

open Verif.Asset

/-- A payment, a failed withdrawal, a restart, and a minting: six identifiers, no two the same. -/
def toyOps : List (Op (Verif.Sign.Receiver Nat Nat) (Nat × Asset) Nat Nat Nat) :=
  [.post toyReads (.privateTransfer ⟨7, 75⟩ (.other 6)), .sign (.toPublic ⟨7, 500⟩ 1), .restart 10, .sign (.toPrivate ⟨7, 3⟩),
    .sign (.toPrivate ⟨7, 3⟩)]

example : (∀ i j, toyEnv.sign.fresh i = toyEnv.sign.fresh j → i = j) ∧
    (acts toyEnv toySys toyOps).1.flatMap Verif.Sign.drawn = [1000, 1001, 1002, 1003, 1014, 1015] :=
  ⟨by intro i j (h : 1000 + i = 1000 + j); omega, by decide +kernel⟩

end Verif.Pay

namespace Verif.Settle

open Verif.Asset (Asset)
open Verif.Transfer

/-- A payment of 45 to address 9, in two posts; a minting, a withdrawal in two posts, and a consolidation. -/
example : tP.Laws ∧ (tWire one).kit.Correct (fun _ => True) ∧ (∀ i j, (tWire one).rand i = (tWire one).rand j → i = j) ∧
    (∃ txs g', Sign.sign (tWire one).sign tSigner (.privateTransfer ⟨7, 45⟩ (.other (9 : Nat))) = (.ok txs, g') ∧ txs.length = 2) ∧
    (∃ txs g', Sign.sign (tWire one).sign tSigner (.toPrivate ⟨7, 3⟩) = (.ok txs, g') ∧ txs.length = 1) ∧
    (∃ txs g', Sign.sign (tWire one).sign tSigner (.toPublic ⟨7, 45⟩ 77) = (.ok txs, g') ∧ txs.length = 2) ∧
    (∃ txs g', Sign.consolidate (tWire one).sign tSigner tReq = (.ok txs, g') ∧ txs.length = 2) := by
  have key : ∀ {α β : Type} (r : Sign.Res (List α) × β) (n : Nat), (match r.1 with | .ok l => l.length == n | _ => false) = true →
      ∃ txs g', r = (.ok txs, g') ∧ txs.length = n := by
    intro α β r n h
    obtain ⟨r, g⟩ := r
    cases r with
    | ok l => exact ⟨l, g, rfl, by simpa using h⟩
    | err _ => cases h
    | panic => cases h
  refine ⟨tP_laws, tK_correct, ?_, key _ _ (by decide +kernel), key _ _ (by decide +kernel), key _ _ (by decide +kernel),
    key _ _ (by decide +kernel)⟩
  intro i j (h : 1000 + i = 1000 + j)
  omega

/-- What a viewing key opens among all new coins of posts. -/
def tOpened (dk : Nat) (txs : List (TxOf tP Tree)) : List (Nat × Nat) :=
  (((tWire one).posts txs).flatMap fun p => p.body.receivers).filterMap fun x => (openWithCheck tK dk x).map fun y => (y.2.id, y.2.value)

/-- The payment of 45: key 9, whose address is 9, opens it; the signer's key opens the other three coins; key 3 opens nothing. -/
example : tP.smul tP.gen (9 : Nat) = (9 : Nat) ∧ (tWire one).kit.viewKey (tP.smul tP.gen (tWire one).sk) = (5 : Nat) ∧
    tOpened 9 (tTxs one (.privateTransfer ⟨7, 45⟩ (.other (9 : Nat)))) = [(7, 45)] ∧
    tOpened 5 (tTxs one (.privateTransfer ⟨7, 45⟩ (.other (9 : Nat)))) = [(7, 30), (7, 0), (7, 15)] ∧
    tOpened 3 (tTxs one (.privateTransfer ⟨7, 45⟩ (.other (9 : Nat)))) = [] := by decide +kernel

end Verif.Settle
