import Verif.Circuit.AllocProps

/-!
# The transfer circuit against the native check
-/

namespace Verif.Circuit

open Verif.Gadget
open Verif.Asset (Asset)
open Verif.Transfer (Ty Utxo Nul FullNote Plain Sender Receiver Auth Transfer Crypto InputEnc)

set_option linter.unusedSectionVars false

variable {p r : Nat} [Fact p.Prime] {C : Curve p r} {P : Params C} {R : Rest} {G : Asg p → Prop} {st : St p} {z₀ : Asg p}

/-! ## From values that are read to known values -/

theorem Vars.left {n : Nat} {l k : List (Lc p)} (h : Vars n (l ++ k)) : Vars n l := fun c hc =>
  h c (List.mem_append_left _ hc)

theorem Vars.right {n : Nat} {l k : List (Lc p)} (h : Vars n (l ++ k)) : Vars n k := fun c hc =>
  h c (List.mem_append_right _ hc)

theorem Kn.of {a : Lc p} {v : ZMod p} (hs : Vars st.cs.next [a]) (h : ∀ z, Holds G st z → a z = v) : Kn G st a v :=
  ⟨hs a (by simp), h⟩

theorem KnP.of {a : PtV p} {g : C.E} (hs : Vars st.cs.next [a.x, a.y])
    (h : ∀ z, Holds G st z → a.x z = C.x g ∧ a.y z = C.y g) : KnP C G st a g :=
  ⟨⟨hs _ (by simp), fun z hz => (h z hz).1⟩, ⟨hs _ (by simp), fun z hz => (h z hz).2⟩⟩

theorem KnO.of {α β : Type} {K : St p → α → β → Prop} {S : α → Asg p → β → Prop} {vars : α → List (Lc p)}
    (hz : Holds G st z₀) (hk : ∀ a v, Vars st.cs.next (vars a) → (∀ z, Holds G st z → S a z v) → K st a v)
    {as : List α} {vs : List β} (hs : Vars st.cs.next (as.flatMap vars))
    (h : ∀ z, Holds G st z → All₂ (fun a v => S a z v) as vs) : KnO K st as vs := by
  induction as generalizing vs with
  | nil =>
    cases h z₀ hz
    exact .nil
  | cons a as ih =>
    cases vs with
    | nil => cases h z₀ hz
    | cons v vs =>
      rw [List.flatMap_cons] at hs
      exact .cons (hk a v hs.left fun z hz => (All₂.cons_iff.1 (h z hz)).1)
        (ih hs.right fun z hz => (All₂.cons_iff.1 (h z hz)).2)

theorem KnO.list {xs : List (Lc p)} {vs : List (ZMod p)} (h : KnO (fun st a v => Kn G st a v) st xs vs) :
    KnL G st xs vs := by
  induction h with
  | nil => exact .nil
  | cons h _ ih => exact .cons h ih

theorem KnO.mapped {β : Type} {f : β → ZMod p} {xs : List (Lc p)} {vs : List β}
    (h : KnO (fun st a v => Kn G st a (f v)) st xs vs) : KnL G st xs (vs.map f) := by
  induction h with
  | nil => exact .nil
  | cons h _ ih => exact .cons h ih

theorem KnL.of {β : Type} (f : β → ZMod p) (hz : Holds G st z₀) {xs : List (Lc p)} {vs : List β}
    (hs : Vars st.cs.next (xs.flatMap fun a => [a]))
    (h : ∀ z, Holds G st z → All₂ (fun (a : Lc p) v => a z = f v) xs vs) : KnL G st xs (vs.map f) :=
  (KnO.of (K := fun st a v => Kn G st a (f v)) hz (fun _ _ hs h => Kn.of hs h) hs h).mapped

theorem KnAsset.of {a : AssetV p} {v : Asset} (hs : Vars st.cs.next a.vars) (h : ∀ z, Holds G st z → RdAsset a z v) :
    KnAsset G st a v :=
  ⟨⟨hs _ (by simp [AssetV.vars]), fun z hz => (h z hz).id⟩, ⟨hs _ (by simp [AssetV.vars]), fun z hz => (h z hz).value⟩⟩

theorem KnPlain.of {a : PlainV p} {v : Plain (ty C R)} (hs : Vars st.cs.next a.vars)
    (h : ∀ z, Holds G st z → RdPlain a z v) : KnPlain G st a v :=
  ⟨Kn.of hs.left fun z hz => (h z hz).rand, KnAsset.of hs.right fun z hz => (h z hz).asset⟩

theorem KnUtxo.of {a : UtxoV p} {v : Utxo (ty C R)} (hs : Vars st.cs.next a.vars)
    (h : ∀ z, Holds G st z → RdUtxo a z v) : KnUtxo G st a v :=
  ⟨Kn.of hs.left fun z hz => (h z hz).transparent, KnAsset.of hs.right.left fun z hz => (h z hz).pubAsset,
    Kn.of hs.right.right fun z hz => (h z hz).cm⟩

theorem KnPath.of {n : Nat} (hz : Holds G st z₀) {w : PathV p} {v : Merkle.Path (ZMod p) (ZMod p)}
    (hs : Vars st.cs.next w.vars) (h : ∀ z, Holds G st z → RdPath n w z v) (hn : v.path.length = n) :
    KnPath G st w v := by
  refine ⟨Kn.of hs.left fun z hz => (h z hz).sib, Kn.of hs.right.left fun z hz => (h z hz).leaf, ?_, ?_⟩
  · rw [hn]
    exact KnL.of fbit hz hs.right.right.left fun z hz => (h z hz).inner
  · have := KnL.of id hz hs.right.right.right fun z hz => (h z hz).path
    rwa [List.map_id] at this

theorem KnSender.of {n : Nat} (hz : Holds G st z₀) {a : SenderV p} {v : Sender (ty C R)} (hs : Vars st.cs.next a.vars)
    (h : ∀ z, Holds G st z → RdSender n a z v) (hn : (Merkle.Path.path v.wit).length = n) : KnSender G st a v :=
  ⟨KnPlain.of hs.right.left fun z hz => (h z hz).plain, KnUtxo.of hs.right.right.left fun z hz => (h z hz).utxo,
    KnPath.of hz hs.right.right.right.left (fun z hz => (h z hz).wit) hn,
    Kn.of hs.right.right.right.right.left fun z hz => (h z hz).root,
    Kn.of hs.right.right.right.right.right fun z hz => (h z hz).nul⟩

theorem KnO.knB {xs : List (List (Lc p))} {vs : List (List (ZMod p))}
    (h : KnO (fun st a v => KnL G st a v) st xs vs) : KnB G st xs vs := by
  induction h with
  | nil => exact .nil
  | cons h _ ih => exact .cons h ih

theorem KnNote.of (hz : Holds G st z₀) {a : NoteV p} {v : C.E × ZMod p × List (List (ZMod p))}
    (hs : Vars st.cs.next a.vars) (h : ∀ z, Holds G st z → RdNote C a z v) : KnNote C G st a v := by
  refine ⟨KnP.of hs.left fun z hz => (h z hz).epk, Kn.of hs.right.left fun z hz => (h z hz).tag, ?_⟩
  refine (KnO.of (K := fun st a v => KnL G st a v) (vars := fun b => b.flatMap fun a => [a]) hz (fun a v hs h => ?_)
    hs.right.right fun z hz => (h z hz).blocks).knB
  have := KnL.of id hz hs h
  rwa [List.map_id] at this

theorem KnReceiver.of (hz : Holds G st z₀) {a : ReceiverV p} {v : Receiver (ty C R)}
    (hs : Vars st.cs.next a.vars) (h : ∀ z, Holds G st z → RdReceiver a z v) : KnReceiver G st a v :=
  ⟨KnP.of hs.left fun z hz => (h z hz).rk, ⟨hs.right.left _ (by simp), fun z hz => (h z hz).irand⟩,
    KnPlain.of hs.right.right.left fun z hz => (h z hz).plain,
    KnUtxo.of hs.right.right.right.left fun z hz => (h z hz).utxo,
    KnNote.of hz hs.right.right.right.right fun z hz => (h z hz).note⟩

theorem KnAuth.of {a : AuthV p} {v : Auth (ty C R)} (hs : Vars st.cs.next a.vars)
    (h : ∀ z, Holds G st z → RdAuth a z v) : KnAuth G st a v :=
  ⟨KnP.of hs.left fun z hz => (h z hz).pak, ⟨hs.right.left _ (by simp), fun z hz => (h z hz).rand⟩,
    KnP.of hs.right.right fun z hz => (h z hz).rpak⟩

theorem KnO.wf {α β : Type} {K K' : St p → α → β → Prop} {as : List α} {vs : List β} (h : KnO K st as vs)
    (w : ∀ a, ∀ v ∈ vs, K st a v → K' st a v) : KnO K' st as vs := by
  induction h with
  | nil => exact .nil
  | cons h _ ih => exact .cons (w _ _ (by simp) h) (ih fun a v hv => w a v (by simp [hv]))

theorem KnTransfer.of (hz : Holds G st z₀) {tv : TransferV p} {t : Transfer (ty C R)} (hs : Vars st.cs.next tv.vars)
    (h : ∀ z, Holds G st z → RdTransfer P.h tv z t) (hf : Fits P t) : KnTransfer G st tv t := by
  have h0 := h z₀ hz
  refine ⟨fun e => ?_, fun a e => ?_, fun e => ?_, fun a e => ?_, KnL.of _ hz hs.right.right.left fun z hz => (h z hz).sources, ?_, ?_,
    KnL.of _ hz hs.right.right.right.right.right fun z hz => (h z hz).sinks⟩
  · have := h0.auth
    rw [e] at this
    generalize hx : tv.auth = x at this
    cases this
    rfl
  · have key : ∀ z, Holds G st z → ∃ v, tv.auth = some v ∧ RdAuth v z a := by
      intro z hz
      have := (h z hz).auth
      rw [e] at this
      generalize tv.auth = x at this
      cases this with
      | some h => exact ⟨_, rfl, h⟩
    obtain ⟨v, ev, _⟩ := key z₀ hz
    refine ⟨v, ev, KnAuth.of ?_ fun z hz => ?_⟩
    · have := hs.left
      simpa [ev] using this
    · obtain ⟨w, ew, hw⟩ := key z hz
      rw [ev] at ew
      cases ew
      exact hw
  · have := h0.assetId
    rw [e] at this
    generalize hx : tv.assetId = x at this
    cases this
    rfl
  · have key : ∀ z, Holds G st z → ∃ v, tv.assetId = some v ∧ v z = (a : ZMod p) := by
      intro z hz
      have := (h z hz).assetId
      rw [e] at this
      generalize tv.assetId = x at this
      cases this with
      | some h => exact ⟨_, rfl, h⟩
    obtain ⟨v, ev, _⟩ := key z₀ hz
    refine ⟨v, ev, Kn.of ?_ fun z hz => ?_⟩
    · have := hs.right.left
      simpa [ev] using this
    · obtain ⟨w, ew, hw⟩ := key z hz
      rw [ev] at ew
      cases ew
      exact hw
  · refine (KnO.of (K := fun st a v => Vars st.cs.next a.vars ∧ ∀ z, Holds G st z → RdSender P.h a z v) hz
      (fun _ _ h g => ⟨h, g⟩) hs.right.right.right.left fun z hz => (h z hz).senders).wf fun a v hv h => ?_
    exact KnSender.of hz h.1 h.2 (hf.senders v hv).2.2
  · exact KnO.of hz (fun _ _ h g => KnReceiver.of hz h g) hs.right.right.right.right.left fun z hz => (h z hz).receivers

/-! ## The whole circuit -/

/-- The shapes that `Transfer::new` accepts have participants on both sides, mod.rs:551-611. -/
def Shape.Sided (s : Shape) : Prop := s.sources + s.senders ≠ 0 ∧ s.receivers + s.sinks ≠ 0

instance (s : Shape) : Decidable s.Sided := by unfold Shape.Sided; infer_instance

section

variable {sign : ZMod r → Verif.Transfer.Body (ty C R) → List Nat → R.Sig}
  {verifySig : C.E → Verif.Transfer.Body (ty C R) → List Nat → R.Sig → Bool}
  {prove : Transfer (ty C R) → Option R.Proof}

theorem valueSum_some {p : Nat} {l : List Nat} (h : l ≠ []) : ∃ x, Transfer.valueSum p l = some x := by
  cases l with
  | nil => exact absurd rfl h
  | cons v vs => exact ⟨_, rfl⟩

theorem HasShape.circuit_ne {s : Shape} {t : Transfer (ty C R)} (h : HasShape s t) (hs : s.Sided) (c : Crypto (ty C R)) :
    Transfer.circuit c p t ≠ none := by
  have hi : ∃ x, Transfer.inputSum c p t = some x := by
    unfold Transfer.inputSum
    cases ha : t.auth with
    | none =>
      have h0 : s.senders = 0 := by
        have := h.auth
        rw [ha] at this
        simpa using this
      obtain ⟨x, hx⟩ := valueSum_some (p := p) (l := t.sources) (by
        intro e
        have := h.sources
        rw [e] at this
        have := hs.1
        simp at *
        omega)
      simp only [hx]
      exact ⟨_, rfl⟩
    | some a =>
      obtain ⟨x, hx⟩ := valueSum_some (p := p)
        (l := (t.senders.map (Transfer.senderWF c a.pak)).map (fun x => x.1.value) ++ t.sources) (by
        intro e
        have h1 := h.senders
        have h2 := h.sources
        have e := congrArg List.length e
        have := hs.1
        simp only [List.map_map, List.length_append, List.length_map, List.length_nil] at e
        omega)
      simp only [hx]
      exact ⟨_, rfl⟩
  have ho : ∃ x, Transfer.outputSum c p t = some x := by
    unfold Transfer.outputSum
    obtain ⟨x, hx⟩ := valueSum_some (p := p)
      (l := (t.receivers.map (Transfer.receiverWF c)).map (fun x => x.1.value) ++ t.sinks) (by
      intro e
      have h1 := h.receivers
      have h2 := h.sinks
      have e := congrArg List.length e
      have := hs.2
      simp only [List.map_map, List.length_append, List.length_map, List.length_nil] at e
      omega)
    simp only [hx]
    exact ⟨_, rfl⟩
  obtain ⟨x, hx⟩ := hi
  obtain ⟨y, hy⟩ := ho
  simp [Transfer.circuit, hx, hy]

/-- A transfer of any shape with all values zero. -/
def zeroTransfer (C : Curve p r) (R : Rest) (P : Params C) (s : Shape) : Transfer (ty C R) where
  auth := if s.senders > 0 then some ⟨0, 0, 0⟩ else none
  assetId := if s.sources + s.sinks > 0 then some 0 else none
  sources := List.replicate s.sources 0
  senders := List.replicate s.senders
    ⟨0, ⟨0, ⟨0, 0⟩⟩, ⟨false, ⟨0, 0⟩, 0⟩, { sib := 0, leafIndex := 0, path := List.replicate P.h 0 }, 0, ⟨0, default⟩⟩
  receivers := List.replicate s.receivers
    ⟨0, 0, ⟨0, ⟨0, 0⟩⟩, ⟨false, ⟨0, 0⟩, 0⟩, ⟨default, (0, 0, [List.replicate (P.encC.width - 1) 0]), default⟩⟩
  sinks := List.replicate s.sinks 0

theorem zeroTransfer_ok (s : Shape) : Fits P (zeroTransfer C R P s) ∧ HasShape s (zeroTransfer C R P s) := by
  have hp : 0 < p := (Fact.out : p.Prime).pos
  refine ⟨⟨?_, ?_, ?_, ?_, ?_, ?_⟩, ⟨?_, ?_, ?_, ?_, ?_, ?_⟩⟩
  · intro a h
    simp only [zeroTransfer, Option.ite_none_right_eq_some, Option.some.injEq] at h
    omega
  · intro a h
    simp only [zeroTransfer, Option.ite_none_right_eq_some, Option.some.injEq] at h
    rw [← h.2]
    simp
  · intro v h
    have := (List.mem_replicate.1 h).2
    omega
  · intro v h
    have := (List.mem_replicate.1 h).2
    omega
  · intro v h
    rw [(List.mem_replicate.1 h).2]
    simp [hp]
  · intro v h
    rw [(List.mem_replicate.1 h).2]
    simp [hp]
  · simp [zeroTransfer]
  · simp [zeroTransfer]
  · simp [zeroTransfer]
  · simp [zeroTransfer]
  · by_cases h : s.senders > 0 <;> simp [zeroTransfer, h]
  · by_cases h : s.sources + s.sinks > 0 <;> simp [zeroTransfer, h]

theorem rowsOk_empty : RowsOk (St.empty : St p) := fun c hc => by simp [St.empty, Cs.empty] at hc

/-- The circuit of a shape, and what its assignments and its public inputs are. -/
theorem circuit_al (hP : P.Ok) (s : Shape) (hs : s.Sided) :
    ∃ st, unknownConstraints P s = some st ∧
      (∀ z, st.cs.Sat z → ∃ t : Transfer (ty C R), Fits P t ∧ HasShape s t ∧
        Transfer.circuit (crypto P R sign verifySig prove) p t = some true ∧ st.pub.map z = Transfer.Transfer.input (enc C R) t) ∧
      ∀ t : Transfer (ty C R), Fits P t → HasShape s t →
        Transfer.circuit (crypto P R sign verifySig prove) p t = some true →
        ∃ z, st.cs.Sat z ∧ st.pub.map z = Transfer.Transfer.input (enc C R) t := by
  obtain ⟨tv, st1, e1, h1, v1⟩ := transfer_al (R := R) hP s St.empty rowsOk_empty
  have key : ∀ t : Transfer (ty C R), Fits P t → HasShape s t → ∀ z0, Holds (fun z => RdTransfer P.h tv z t) st1 z0 →
      ∃ a st2, build P tv st1 = some (a, st2) ∧ Step (fun z => RdTransfer P.h tv z t) st1 (fun z => RdTransfer P.h tv z t) st2
        (Transfer.circuit (crypto P R sign verifySig prove) p t = some true) := by
    intro t hf hsh z0 hz0
    obtain ⟨a, st2, e, s2, _⟩ := build_gad (sign := sign) (verifySig := verifySig) (prove := prove) hP
      (KnTransfer.of hz0 v1 (fun z hz => hz.2) hf) hf (hsh.circuit_ne hs _) ⟨h1.rows, h1.stable t⟩
    exact ⟨a, st2, e, s2⟩
  have satE : ∀ z : Asg p, (St.empty : St p).cs.Sat z := fun z c hc => by simp [St.empty, Cs.empty] at hc
  obtain ⟨z0, _, hz0, hr0⟩ := h1.complete (fun _ => 0) (zeroTransfer C R P s) (satE _) (zeroTransfer_ok s)
  obtain ⟨u, st2, e2, _⟩ := key _ (zeroTransfer_ok s).1 (zeroTransfer_ok s).2 z0 ⟨hz0, hr0⟩
  obtain ⟨ks, ek, hk⟩ := h1.pub
  have same : ∀ {t : Transfer (ty C R)}, Fits P t → HasShape s t → ∀ {z1}, Holds (fun z => RdTransfer P.h tv z t) st1 z1 →
      Step (fun z => RdTransfer P.h tv z t) st1 (fun z => RdTransfer P.h tv z t) st2
        (Transfer.circuit (crypto P R sign verifySig prove) p t = some true) := by
    intro t hf hsh z1 hz1
    obtain ⟨a, st3, e3, h3⟩ := key t hf hsh z1 hz1
    rw [e2] at e3
    cases e3
    exact h3
  have pubEq : st2.pub = ks := by
    rw [(same (zeroTransfer_ok s).1 (zeroTransfer_ok s).2 ⟨hz0, hr0⟩).pub, ek]
    rfl
  refine ⟨st2, ?_, ?_, ?_⟩
  · show ((unknown P s >>= fun t => build P t) St.empty).map Prod.snd = some st2
    rw [run_bind e1, e2]
    rfl
  · intro z hz
    have hz1 := (same (zeroTransfer_ok s).1 (zeroTransfer_ok s).2 ⟨hz0, hr0⟩).le.sat z hz
    obtain ⟨_, t, ⟨hf, hsh⟩, hr⟩ := h1.sound z hz1
    refine ⟨t, hf, hsh, (same hf hsh ⟨hz1, hr⟩).sound z ⟨hz, hr⟩, ?_⟩
    rw [pubEq]
    exact hk z t hz1 hr
  · intro t hf hsh hc
    obtain ⟨z1, _, hz1, hr1⟩ := h1.complete (fun _ => 0) t (satE _) ⟨hf, hsh⟩
    obtain ⟨z2, e, hz2⟩ := (same hf hsh ⟨hz1, hr1⟩).complete z1 ⟨hz1, hr1⟩ hc
    refine ⟨z2, hz2.1, ?_⟩
    rw [pubEq]
    exact hk z2 t ((same hf hsh ⟨hz1, hr1⟩).le.back z2 hz2).1 hz2.2

end

end Verif.Circuit
