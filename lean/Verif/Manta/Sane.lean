import Verif.Manta.Model
import Verif.Cipher.Props

/-! # The configuration of manta-pay meets the assumptions about wallets and ledger -/

set_option linter.unusedSectionVars false

namespace Verif.Manta

open Verif.Codec (Bytes toLE fromLE)
open Verif.Asset (Asset BinSearch Layout)
open Verif.Transfer (Prim Kit Ty Utxo Nul FullNote Plain Sender Receiver Auth Transfer Body InputEnc)
open Verif.Gadget (Asg fbit)
open Verif.Circuit (Curve Params Rest St dims unknownConstraints knownConstraints plainBlocks)
open Verif.Merkle
open Verif.Settle (Grove Acc)

variable {p r : Nat} [Fact p.Prime] [NeZero r]

/-! ## Group laws -/

theorem mod_smul {E : Type} [AddCommGroup E] {g : E} {r : Nat} (h : r • g = 0) (n : Nat) : (n % r) • g = n • g := by
  conv => rhs; rw [← Nat.mod_add_div n r]
  rw [add_smul, mul_comm, mul_smul, h, smul_zero, add_zero]

theorem prim_laws (C : Curve p r) (gen : Sub C) (h : Nat) (Pf : Type) : (prim C gen h Pf).Laws where
  smul_smul := by
    intro g a b
    refine Subtype.ext ?_
    show b.val • a.val • g.1 = (a * b).val • g.1
    rw [ZMod.val_mul, mod_smul g.2, ← mul_smul, mul_comm]
  mul_comm := fun a b => mul_comm (G := ZMod r) a b
  smul_add := by
    intro g a b
    refine Subtype.ext ?_
    show (a + b).val • g.1 = a.val • g.1 + b.val • g.1
    rw [ZMod.val_add, mod_smul g.2, add_smul]

namespace Config

variable (c : Config p r)

/-! ## Decryption -/

theorem fin_val (x : ZMod p) : ((fin x).val : ZMod p) = x := by
  show ((x.val : Nat) : ZMod p) = x
  rw [ZMod.natCast_val, ZMod.cast_id]

theorem kit_correct (hA : c.aes.Laws) (hp : p ≤ 2 ^ 256) : c.kit.Correct (Cipher.Fits p) where
  light := by
    intro k _ m hm
    obtain ⟨x, h1, h2⟩ := Cipher.c68_light hp hA (c.aesKey k)
      (⟨fin m.rand, Fin.ofNat p m.asset.id, m.asset.value⟩ : Cipher.Note p) hm.2
    show Option.map _ ((Cipher.decLight p c.aes (c.aesKey k) ((Cipher.encLight c.aes (c.aesKey k) _).getD [])).getD none) = some m
    rw [h1, Option.getD_some, h2, Option.getD_some, Option.map_some]
    simp only [fin_val, Fin.val_ofNat, Nat.mod_eq_of_lt hm.1]
  outgoing := by
    intro k _ a ha
    obtain ⟨x, h1, h2⟩ := Cipher.c68_outgoing hp hA (c.aesKey k) (⟨Fin.ofNat p a.id, a.value⟩ : Cipher.OutNote p) ha.2
    show Option.map _ ((Cipher.decOut p c.aes (c.aesKey k) ((Cipher.encOut c.aes (c.aesKey k) _).getD [])).getD none) = some a
    rw [h1, Option.getD_some, h2, Option.getD_some, Option.map_some]
    simp only [Fin.val_ofNat, Nat.mod_eq_of_lt ha.1]

/-! ## The circuit and its inputs -/

variable (sign : ZMod r → Verif.Transfer.Body (Circuit.ty c.C c.rest) → List Nat → c.rest.Sig)
  (verifySig : c.C.E → Verif.Transfer.Body (Circuit.ty c.C c.rest) → List Nat → c.rest.Sig → Bool)
  (prove' : Transfer (Circuit.ty c.C c.rest) → Option c.rest.Proof)

theorem erase_sender (n : ZMod r) (pak : Sub c.C) (s : Sender c.prim.ty) :
    Transfer.senderWF (Circuit.crypto c.params c.rest sign verifySig prove') pak.1 (c.eraseSender s) =
      Transfer.senderWF (c.kit.crypto n) pak s := rfl

theorem erase_receiver (n : ZMod r) (x : Receiver c.prim.ty) :
    Transfer.receiverWF (Circuit.crypto c.params c.rest sign verifySig prove') (c.eraseReceiver x) =
      Transfer.receiverWF (c.kit.crypto n) x := by
  have hd : decide ((c.eraseReceiver x).note.inote = (Circuit.crypto c.params c.rest sign verifySig prove').encIn x.rk.1
      x.irand.1 (c.erasePlain x.plain)) = decide (x.note.inote = (c.kit.crypto n).encIn x.rk x.irand x.plain) := by
    refine decide_eq_decide.2 ⟨fun h => ?_, fun h => ?_⟩
    · have h1 := congrArg Prod.fst h
      have h2 := congrArg Prod.snd h
      have h2 : x.note.inote.2 = ((c.kit.crypto n).encIn x.rk x.irand x.plain).2 := h2
      exact Prod.ext (Subtype.ext h1) h2
    · show (x.note.inote.1.1, x.note.inote.2) = _
      rw [h]
      rfl
  exact congrArg (fun b => (Transfer.selectAsset x.utxo x.plain, (decide (x.utxo.transparent = Transfer.isEmptyAsset x.plain.asset) &&
    decide (x.utxo.cm = c.commit x.plain.rand x.plain.asset.id x.plain.asset.value x.rk)) && b)) hd

theorem erase_circuit (n : ZMod r) (t : Transfer c.prim.ty) :
    Transfer.circuit (Circuit.crypto c.params c.rest sign verifySig prove') p (c.erase t) =
      Transfer.circuit (c.kit.crypto n) p t := by
  have hi : Transfer.inputSum (Circuit.crypto c.params c.rest sign verifySig prove') p (c.erase t) =
      Transfer.inputSum (c.kit.crypto n) p t := by
    unfold Transfer.inputSum
    obtain ⟨auth, _, sources, senders, _, _⟩ := t
    cases auth with
    | none => rfl
    | some a =>
      have hm : (senders.map c.eraseSender).map
          (Transfer.senderWF (Circuit.crypto c.params c.rest sign verifySig prove') a.pak.1) =
          senders.map (Transfer.senderWF (c.kit.crypto n) a.pak) := by
        rw [List.map_map]
        rfl
      have hd : decide (a.rand.val • a.pak.1 = a.rpak.1) = decide (c.prim.smul a.pak a.rand = a.rpak) :=
        decide_eq_decide.2 ⟨fun h => Subtype.ext h, fun h => congrArg Subtype.val h⟩
      have key : ∀ (f : List (Asset × Bool) → Bool → Option (Nat × List Nat × Bool)),
          f ((senders.map c.eraseSender).map
            (Transfer.senderWF (Circuit.crypto c.params c.rest sign verifySig prove') a.pak.1))
            (decide (a.rand.val • a.pak.1 = a.rpak.1)) =
          f (senders.map (Transfer.senderWF (c.kit.crypto n) a.pak)) (decide (c.prim.smul a.pak a.rand = a.rpak)) := by
        intro f
        rw [hm, hd]
      exact key fun wf b => match Transfer.valueSum p (wf.map (fun x => x.1.value) ++ sources) with
        | none => none
        | some (s, ok) => some (s, wf.map (fun x => x.1.id), b && wf.all (fun x => x.2) && ok)
  have ho : Transfer.outputSum (Circuit.crypto c.params c.rest sign verifySig prove') p (c.erase t) =
      Transfer.outputSum (c.kit.crypto n) p t := by
    unfold Transfer.outputSum
    have hm : (t.receivers.map c.eraseReceiver).map
        (Transfer.receiverWF (Circuit.crypto c.params c.rest sign verifySig prove')) =
        t.receivers.map (Transfer.receiverWF (c.kit.crypto n)) := by
      rw [List.map_map]
      exact List.map_congr_left fun x _ => c.erase_receiver sign verifySig prove' n x
    have key : ∀ (f : List (Asset × Bool) → Option (Nat × List Nat × Bool)),
        f ((t.receivers.map c.eraseReceiver).map
          (Transfer.receiverWF (Circuit.crypto c.params c.rest sign verifySig prove'))) =
        f (t.receivers.map (Transfer.receiverWF (c.kit.crypto n))) := by
      intro f
      rw [hm]
    exact key fun wf => match Transfer.valueSum p (wf.map (fun x => x.1.value) ++ t.sinks) with
      | none => none
      | some (s, ok) => some (s, wf.map (fun x => x.1.id), wf.all (fun x => x.2) && ok)
  have ha : Transfer.allocOk (c.erase t) = Transfer.allocOk t := by
    unfold Transfer.allocOk
    show (_ && _ && (t.senders.map c.eraseSender).all _ && (t.receivers.map c.eraseReceiver).all _) = _
    rw [List.all_map, List.all_map]
    rfl
  unfold Transfer.circuit
  rw [hi, ho, ha]
  rfl

theorem erase_input (t : Transfer c.prim.ty) :
    Transfer.Transfer.input (Circuit.enc c.C c.rest) (c.erase t) = Transfer.Transfer.input c.enc t := by
  unfold Transfer.Transfer.input
  show Transfer.optIn _ (t.auth.map c.eraseAuth) ++ _ ++ _ ++ (t.senders.map c.eraseSender).flatMap _ ++
    (t.receivers.map c.eraseReceiver).flatMap _ ++ _ = _
  rw [List.flatMap_map, List.flatMap_map]
  cases t.auth <;> rfl

/-! ## Honest transfers fit the circuit -/

instance : Cipher.FieldLaws (ZMod p) where
  add_sub := fun e b => by rw [add_sub_cancel_left]
  sub_add := fun e b => by rw [add_sub_cancel]

theorem duplexer_wf (hP : c.params.Ok) : c.params.duplexer.WF where
  two := by rw [show c.params.duplexer.width = 4 from hP.encWidth]; decide
  initial := hP.encInit.trans hP.encWidth.symm
  perm := by
    rw [show c.params.duplexer.width = 4 from hP.encWidth]
    intro vs h
    exact (Circuit.permute_computes hP (fun _ => True) Circuit.St.empty _ vs (Circuit.KnL.consts _ _ vs) h).1

theorem note_shape (hP : c.params.Ok) (k : Sub c.C) (m : Plain c.prim.ty) :
    (c.encI k m).2.map List.length = [c.params.encC.width - 1] := by
  have hw : c.params.duplexer.width = 4 := hP.encWidth
  obtain ⟨t, x, h1, h2, h3, _⟩ := Cipher.c39_decrypt_encrypt (c.duplexer_wf hP) [c.C.x k.1, c.C.y k.1] [] (plainBlocks m.rand m.asset)
    (by intro b hb; simp only [plainBlocks, List.mem_singleton] at hb; subst hb; rw [hw]; rfl)
  unfold encI
  rw [h1, Option.getD_some]
  match x, h3, h2 with
  | [b], _, h2 =>
    have := h2 b (by simp)
    rw [hw] at this
    simp [this, hP.encWidth]

theorem allocOk_of {T : Ty} {cr : Transfer.Crypto T} {q : Nat} {t : Transfer T} (h : Transfer.circuit cr q t = some true) :
    Transfer.allocOk t = true ∧ ∀ x ∈ t.receivers, x.note.inote = cr.encIn x.rk x.irand x.plain := by
  unfold Transfer.circuit at h
  split at h
  · rename_i i ids ok o ids' ok' h1 h2
    simp only [Option.some.injEq, Bool.and_eq_true] at h
    refine ⟨h.1.1.1.1, fun x hx => ?_⟩
    have hk := h.1.1.2
    unfold Transfer.outputSum at h2
    simp only at h2
    split at h2
    · cases h2
    · simp only [Option.some.injEq, Prod.mk.injEq] at h2
      rw [← h2.2.2] at hk
      simp only [Bool.and_eq_true, List.all_map, List.all_eq_true] at hk
      have := hk.1 x hx
      simp only [Function.comp, Transfer.receiverWF, Bool.and_eq_true, decide_eq_true_eq] at this
      exact this.2
  · cases h

theorem erase_fits (hP : c.params.Ok) (n : ZMod r) (t : Transfer c.prim.ty) (hi : Settle.Ids p t)
    (hc : Transfer.circuit (c.kit.crypto n) p t = some true) : Circuit.Fits c.params (c.erase t) := by
  obtain ⟨h1, h2⟩ := allocOk_of hc
  simp only [Transfer.allocOk, Bool.and_eq_true, List.all_eq_true, Transfer.inRange, decide_eq_true_eq] at h1
  obtain ⟨⟨⟨a1, a2⟩, a3⟩, a4⟩ := h1
  refine ⟨hi.assetId, ?_, a1, a2, ?_, ?_⟩
  · intro a ha
    obtain ⟨b, _, rfl⟩ := Option.map_eq_some_iff.1 (show t.auth.map c.eraseAuth = some a from ha)
    exact b.pak.2
  · intro s hs
    obtain ⟨x, hx, rfl⟩ := List.mem_map.1 (show s ∈ t.senders.map c.eraseSender from hs)
    exact ⟨⟨(hi.senders x hx).1, (a3 x hx).1⟩, ⟨(hi.senders x hx).2, (a3 x hx).2⟩, x.wit.2⟩
  · intro s hs
    obtain ⟨x, hx, rfl⟩ := List.mem_map.1 (show s ∈ t.receivers.map c.eraseReceiver from hs)
    refine ⟨⟨(hi.receivers x hx).1, (a4 x hx).1⟩, ⟨(hi.receivers x hx).2, (a4 x hx).2⟩, x.rk.2, ?_⟩
    show x.note.inote.2.2.map List.length = _
    rw [h2 x hx]
    exact c.note_shape hP _ _

theorem erase_shape (t : Transfer c.prim.ty) (sh : Transfer.Shape)
    (hc : Transfer.Canonical sh t.auth.isSome t.assetId.isSome t.sources.length t.senders.length t.receivers.length t.sinks.length) :
    Circuit.HasShape (dims sh) (c.erase t) := by
  have e1 : (c.erase t).auth.isSome = t.auth.isSome := by
    show (t.auth.map c.eraseAuth).isSome = _
    rw [Option.isSome_map]
  have e2 : (c.erase t).senders.length = t.senders.length := List.length_map ..
  have e3 : (c.erase t).receivers.length = t.receivers.length := List.length_map ..
  have e4 : (c.erase t).sources.length = t.sources.length := rfl
  have e5 : (c.erase t).sinks.length = t.sinks.length := rfl
  have e6 : (c.erase t).assetId.isSome = t.assetId.isSome := rfl
  generalize t.auth.isSome = x1, t.assetId.isSome = x2, t.sources.length = x3, t.senders.length = x4,
    t.receivers.length = x5, t.sinks.length = x6 at *
  cases hc <;> exact ⟨e4, e2, e3, e5, e1, e6⟩

/-- Witness generation: if there is an assignment with the public inputs of the transfer that satisfies the constraints
generated for it, the values computed on the way are one. -/
def Generates : Prop := ∀ t st, knownConstraints c.params t = some st →
  (∃ z, st.cs.Sat z ∧ st.pub.map z = Transfer.Transfer.input (Circuit.enc c.C c.rest) t) →
  st.cs.Sat (c.assign t) ∧ st.pub.map (c.assign t) = Transfer.Transfer.input (Circuit.enc c.C c.rest) t

/-- Transfers of canonical shape that pass the native check are proved, and the proof is valid for the public input of the
transfer under the key of the shape. -/
theorem proves (hP : c.params.Ok) (hS : c.snark.Complete) (hg : c.Generates) (n : ZMod r) (t : Transfer c.prim.ty)
    (sh : Transfer.Shape) (hi : Settle.Ids p t) (hc : Transfer.circuit (c.kit.crypto n) p t = some true)
    (hs : Transfer.Canonical sh t.auth.isSome t.assetId.isSome t.sources.length t.senders.length t.receivers.length t.sinks.length) :
    ∃ π, c.kit.prove t = some π ∧ c.ledger.verifyProof sh (Transfer.Transfer.input c.enc t) π = some true := by
  have hf := c.erase_fits hP n t hi hc
  have hh := c.erase_shape t sh hs
  have hsided : (dims sh).Sided := by cases sh <;> simp [dims, Circuit.Shape.Sided]
  obtain ⟨st, z, e, hz, hx⟩ := (Circuit.c120_exact (R := c.rest) (fun _ _ _ => (0, ⟨0, smul_zero _⟩)) (fun _ _ _ _ => true)
    (fun _ => none) hP (dims sh) hsided _).2 ⟨c.erase t, hf, hh, by rw [c.erase_circuit _ _ _ n]; exact hc, rfl⟩
  have hk := (Circuit.c121_same c.params (dims sh) (c.erase t) hf hh).trans e
  obtain ⟨g1, g2⟩ := hg _ _ hk ⟨z, hz, hx⟩
  obtain ⟨π, h1, h2⟩ := hS st _ g1
  have hkeys : c.keys sh = some (c.snark.compile st) := by unfold keys; rw [e]; rfl
  refine ⟨π, ?_, ?_⟩
  · show c.prove t = some π
    unfold prove
    rw [(Transfer.c51_select_iff ..).2 hs, Option.bind_some, hkeys, Option.bind_some, hk, Option.bind_some]
    exact h1
  · show (c.keys sh).bind _ = some true
    rw [hkeys, Option.bind_some, ← c.erase_input, ← g2]
    exact h2

end Config

end Verif.Manta
