import Verif.Circuit.ProtoProps

/-!
# The validity constraints of a transfer
-/

namespace Verif.Circuit

open Verif.Gadget
open Verif.Asset (Asset)
open Verif.Transfer (Ty Utxo Nul FullNote Plain Sender Receiver Auth Transfer Crypto InputEnc)

set_option linter.unusedSectionVars false

variable {p r : Nat} [Fact p.Prime] {G : Asg p → Prop} {st : St p} {C : Curve p r} {P : Params C} {R : Rest}

/-! ## Specification -/

/-- Transfers whose parts can be represented in the circuit: asset ids are elements of the field (their type is the
field in the code, `Nat` in the model), values have 128 bits, keys are in the subgroup of order `r` (their type has only
such points), paths have the height of the tree and notes one block (again by their types). -/
structure Fits (P : Params C) (t : Transfer (ty C R)) : Prop where
  assetId : ∀ a, t.assetId = some a → a < p
  auth : ∀ a, t.auth = some a → r • a.pak = 0
  sources : ∀ v ∈ t.sources, v < 2 ^ 128
  sinks : ∀ v ∈ t.sinks, v < 2 ^ 128
  senders : ∀ s ∈ t.senders, (s.plain.asset.id < p ∧ s.plain.asset.value < 2 ^ 128) ∧
    (s.utxo.pubAsset.id < p ∧ s.utxo.pubAsset.value < 2 ^ 128) ∧ (Merkle.Path.path s.wit).length = P.h
  receivers : ∀ x ∈ t.receivers, (x.plain.asset.id < p ∧ x.plain.asset.value < 2 ^ 128) ∧
    (x.utxo.pubAsset.id < p ∧ x.utxo.pubAsset.value < 2 ^ 128) ∧ r • x.rk = 0 ∧
    x.note.inote.2.2.map List.length = [P.encC.width - 1]

/-! ## The circuit on a transfer with known values -/

/-- A transfer. -/
structure KnTransfer (G : Asg p → Prop) (st : St p) (tv : TransferV p) (t : Transfer (ty C R)) : Prop where
  authNone : t.auth = none → tv.auth = none
  auth : ∀ a, t.auth = some a → ∃ v, tv.auth = some v ∧ KnAuth G st v a
  idNone : t.assetId = none → tv.assetId = none
  id : ∀ a, t.assetId = some a → ∃ v, tv.assetId = some v ∧ Kn G st v (a : ZMod p)
  sources : KnL G st tv.sources (t.sources.map fun n : Nat => (n : ZMod p))
  senders : KnO (fun st a v => KnSender G st a v) st tv.senders t.senders
  receivers : KnO (fun st a v => KnReceiver G st a v) st tv.receivers t.receivers
  sinks : KnL G st tv.sinks (t.sinks.map fun n : Nat => (n : ZMod p))

theorem KnTransfer.up {st' : St p} {tv : TransferV p} {t : Transfer (ty C R)}
    (h : KnTransfer G st tv t) (l : Le G st G st') : KnTransfer G st' tv t :=
  ⟨h.authNone, fun a e => by obtain ⟨v, e', k⟩ := h.auth a e; exact ⟨v, e', k.up l⟩, h.idNone,
    fun a e => by obtain ⟨v, e', k⟩ := h.id a e; exact ⟨v, e', k.up l⟩, h.sources.up l,
    h.senders.up' (fun _ _ _ _ l h => h.up l) l, h.receivers.up' (fun _ _ _ _ l h => h.up l) l, h.sinks.up l⟩

theorem two_lt (hp : 128 < numBits p) : 2 ^ 128 < p := by
  have h0 : p ≠ 0 := (Fact.out : p.Prime).ne_zero
  have h1 := two_pow_lt_of_bits (Nat.pos_of_ne_zero h0) hp
  rcases Nat.lt_or_ge (2 ^ 128) p with h | h
  · exact h
  · have e : p = 2 ^ 128 := Nat.le_antisymm h h1
    exact absurd (Fact.out : p.Prime) (by rw [e]; exact Nat.Prime.not_prime_pow (by omega))

section

variable {sign : ZMod r → Verif.Transfer.Body (ty C R) → List Nat → R.Sig}
  {verifySig : C.E → Verif.Transfer.Body (ty C R) → List Nat → R.Sig → Bool}
  {prove : Transfer (ty C R) → Option R.Proof}

theorem senders_gad (hP : P.Ok) {pak : PtV p} {g : C.E} (hg : KnP C G st pak g) {cache : Option (PtV p)}
    (hc : ∀ k, cache = some k → KnP C G st k (Transfer.receivingKey (crypto P R sign verifySig prove) g))
    {ss : List (SenderV p)} {vs : List (Sender (ty C R))} (h : KnO (fun st a v => KnSender G st a v) st ss vs)
    (hv : ∀ v ∈ vs, AssetOk p v.plain.asset ∧ AssetOk p v.utxo.pubAsset) :
    Gad G st (sendersC P pak cache ss)
      ((vs.map (Transfer.senderWF (crypto P R sign verifySig prove) g)).all (fun x => x.2) = true) fun st' as =>
      KnO (fun st a v => KnAsset G st a v) st' as
        (vs.map fun v => (Transfer.senderWF (crypto P R sign verifySig prove) g v).1) := by
  induction vs generalizing st ss cache with
  | nil =>
    cases h
    exact (Gad.pure (Q := fun st' as => KnO (fun st a v => KnAsset G st a v) st' as []) .nil).imp (by simp)
      fun _ _ _ h => h
  | cons v vs ih =>
    cases h with
    | cons h hs =>
      refine ((sender_gad (sign := sign) (verifySig := verifySig) (prove := prove) hP hg hc h (hv v (by simp)).1
        (hv v (by simp)).2).bind fun a st1 l1 ha =>
        (ih (hg.up l1) (fun k hk => by cases hk; exact ha.2) (hs.up' (fun _ _ _ _ l h => h.up l) l1)
          (fun v hv' => hv v (by simp [hv']))).bind fun as st2 l2 has =>
        Gad.pure (Q := fun st' as => KnO (fun st a v => KnAsset G st a v) st' as
          ((v :: vs).map fun v => (Transfer.senderWF (crypto P R sign verifySig prove) g v).1))
          (.cons (ha.1.up l2) has)).imp ?_ fun _ _ _ h => h
      simp

theorem auth_gad (hP : P.Ok) {a : AuthV p} {v : Auth (ty C R)} (h : KnAuth G st a v) (hg : r • v.pak = 0) :
    Gad G st (authC C a) ((crypto P R sign verifySig prove).smul v.pak v.rand = v.rpak) fun _ _ => True :=
  (scalarMul_gad hP.rpos h.pak hg h.rand).seq fun _ _ l1 hk => assertEqPt_gad hk (h.rpak.up l1)

theorem Fits.sender_ok {t : Transfer (ty C R)} (hp : 2 ^ 128 < p) (h : Fits P t) :
    ∀ v ∈ t.senders, AssetOk p v.plain.asset ∧ AssetOk p v.utxo.pubAsset := fun v hv =>
  have := h.senders v hv
  ⟨⟨this.1.1, by omega⟩, ⟨this.2.1.1, by omega⟩⟩

theorem Fits.receiver_ok {t : Transfer (ty C R)} (hp : 2 ^ 128 < p) (h : Fits P t) :
    ∀ v ∈ t.receivers, AssetOk p v.plain.asset ∧ AssetOk p v.utxo.pubAsset := fun v hv =>
  have := h.receivers v hv
  ⟨⟨this.1.1, by omega⟩, ⟨this.2.1.1, by omega⟩⟩

theorem select_ok {u : Utxo (ty C R)} {v : Plain (ty C R)} (h1 : AssetOk p v.asset) (h2 : AssetOk p u.pubAsset) :
    AssetOk p (Transfer.selectAsset u v) := by
  unfold Transfer.selectAsset
  split
  · exact h2
  · exact h1

theorem inputSum_gad (hP : P.Ok) {tv : TransferV p} {t : Transfer (ty C R)} (h : KnTransfer G st tv t) (hf : Fits P t)
    {s : Nat} {ids : List Nat} {ok : Bool}
    (e : Transfer.inputSum (crypto P R sign verifySig prove) p t = some (s, ids, ok)) :
    s < p ∧ (∀ i ∈ ids, i < p) ∧ Gad G st (inputSumC P tv) (ok = true) fun st' o =>
      Kn G st' o.1 (s : ZMod p) ∧ KnL G st' o.2 (ids.map fun n : Nat => (n : ZMod p)) := by
  have hp := two_lt hP.field
  have hso : ∀ v ∈ t.sources, v < p := fun v hv => Nat.lt_trans (hf.sources v hv) hp
  unfold Transfer.inputSum at e
  cases ha : t.auth with
  | none =>
    rw [ha] at e
    cases hs : Transfer.valueSum p t.sources with
    | none => rw [hs] at e; simp at e
    | some so =>
      obtain ⟨s', ok'⟩ := so
      rw [hs] at e
      simp only [Option.some.injEq, Prod.mk.injEq] at e
      obtain ⟨rfl, rfl, rfl⟩ := e
      have key := valueSum_gad hP.field P.ark h.sources hso hs
      refine ⟨key.1, by simp, ?_⟩
      unfold inputSumC
      rw [h.authNone ha]
      exact (key.2.bind fun c st1 l1 hc => Gad.pure ⟨hc, .nil⟩).imp (by simp) fun _ _ _ h => h
  | some a =>
    rw [ha] at e
    dsimp only at e
    cases hs : Transfer.valueSum p ((t.senders.map (Transfer.senderWF (crypto P R sign verifySig prove) a.pak)).map
        (fun x => x.1.value) ++ t.sources) with
    | none => rw [hs] at e; simp at e
    | some so =>
      obtain ⟨s', ok'⟩ := so
      rw [hs] at e
      simp only [Option.some.injEq, Prod.mk.injEq] at e
      obtain ⟨rfl, rfl, rfl⟩ := e
      obtain ⟨av, eav, hav⟩ := h.auth a ha
      have hsel : ∀ v ∈ t.senders, AssetOk p (Transfer.senderWF (crypto P R sign verifySig prove) a.pak v).1 :=
        fun v hv => select_ok (hf.sender_ok hp v hv).1 (hf.sender_ok hp v hv).2
      have hvals : ∀ v ∈ (t.senders.map (Transfer.senderWF (crypto P R sign verifySig prove) a.pak)).map
          (fun x => x.1.value) ++ t.sources, v < p := by
        intro v hv
        rw [List.mem_append, List.map_map, List.mem_map] at hv
        rcases hv with ⟨x, hx, rfl⟩ | hv
        · exact (hsel x hx).2
        · exact hso v hv
      have hl : ∀ st' as, KnO (fun st a v => KnAsset G st a v) st' as
          (t.senders.map fun v => (Transfer.senderWF (crypto P R sign verifySig prove) a.pak v).1) →
          KnL G st' tv.sources (t.sources.map fun n : Nat => (n : ZMod p)) →
          KnL G st' (as.map AssetV.value ++ tv.sources)
            (((t.senders.map (Transfer.senderWF (crypto P R sign verifySig prove) a.pak)).map
              (fun x => x.1.value) ++ t.sources).map fun n : Nat => (n : ZMod p)) := by
        intro st' as has hso
        have := has.values.append hso
        simpa only [List.map_append, List.map_map, Function.comp_def] using this
      have hbound := (valueSum_gad (G := fun _ => True) (st := St.empty) hP.field P.ark
        (KnL.consts _ _ _) hvals hs).1
      refine ⟨hbound, ?_, ?_⟩
      · intro i hi
        rw [List.map_map, List.mem_map] at hi
        obtain ⟨x, hx, rfl⟩ := hi
        exact (hsel x hx).1
      · unfold inputSumC
        rw [eav]
        refine ((auth_gad (sign := sign) (verifySig := verifySig) (prove := prove) hP hav (hf.auth a ha)).bind
          fun _ st1 l1 _ => (senders_gad (sign := sign) (verifySig := verifySig) (prove := prove) hP (hav.pak.up l1)
            (by simp) (h.senders.up' (fun _ _ _ _ l h => h.up l) l1) (hf.sender_ok hp)).bind fun as st2 l2 has =>
          (valueSum_gad hP.field P.ark (hl st2 as has (h.sources.up (l1.trans l2))) hvals hs).2.bind fun c st3 l3 hc =>
          Gad.pure ⟨hc, ?_⟩).imp ?_ fun _ _ _ h => h
        · simp only [and_true, Bool.and_eq_true, decide_eq_true_eq]
          constructor
          · rintro ⟨a, b, c⟩
            exact ⟨⟨a, b⟩, c⟩
          · rintro ⟨⟨a, b⟩, c⟩
            exact ⟨a, b, c⟩
        · have := (has.up' (fun _ _ _ _ l h => h.up l) l3).ids
          simpa only [List.map_map, Function.comp_def] using this

theorem receivers_gad (hP : P.Ok) {xs : List (ReceiverV p)} {vs : List (Receiver (ty C R))}
    (h : KnO (fun st a v => KnReceiver G st a v) st xs vs)
    (hv : ∀ v ∈ vs, AssetOk p v.plain.asset ∧ r • v.rk = 0 ∧ v.note.inote.2.2.length = 1) :
    Gad G st (mapB (receiverC P) xs)
      ((vs.map (Transfer.receiverWF (crypto P R sign verifySig prove))).all (fun x => x.2) = true) fun st' as =>
      KnO (fun st a v => KnAsset G st a v) st' as
        (vs.map fun v => (Transfer.receiverWF (crypto P R sign verifySig prove) v).1) := by
  induction vs generalizing st xs with
  | nil =>
    cases h
    exact (Gad.pure (Q := fun st' as => KnO (fun st a v => KnAsset G st a v) st' as []) .nil).imp (by simp)
      fun _ _ _ h => h
  | cons v vs ih =>
    cases h with
    | cons h hs =>
      have hv' := hv v (by simp)
      refine ((receiver_gad (sign := sign) (verifySig := verifySig) (prove := prove) hP h hv'.1 hv'.2.1 hv'.2.2).bind
        fun a st1 l1 ha => (ih (hs.up' (fun _ _ _ _ l h => h.up l) l1) (fun v hv' => hv v (by simp [hv']))).bind
        fun as st2 l2 has => Gad.pure (Q := fun st' as => KnO (fun st a v => KnAsset G st a v) st' as
          ((v :: vs).map fun v => (Transfer.receiverWF (crypto P R sign verifySig prove) v).1))
          (.cons (ha.up l2) has)).imp ?_ fun _ _ _ h => h
      simp

theorem outputSum_gad (hP : P.Ok) {tv : TransferV p} {t : Transfer (ty C R)} (h : KnTransfer G st tv t) (hf : Fits P t)
    {s : Nat} {ids : List Nat} {ok : Bool}
    (e : Transfer.outputSum (crypto P R sign verifySig prove) p t = some (s, ids, ok)) :
    s < p ∧ (∀ i ∈ ids, i < p) ∧ Gad G st (outputSumC P tv) (ok = true) fun st' o =>
      Kn G st' o.1 (s : ZMod p) ∧ KnL G st' o.2 (ids.map fun n : Nat => (n : ZMod p)) := by
  have hp := two_lt hP.field
  have hso : ∀ v ∈ t.sinks, v < p := fun v hv => Nat.lt_trans (hf.sinks v hv) hp
  unfold Transfer.outputSum at e
  dsimp only at e
  cases hs : Transfer.valueSum p ((t.receivers.map (Transfer.receiverWF (crypto P R sign verifySig prove))).map
      (fun x => x.1.value) ++ t.sinks) with
  | none => rw [hs] at e; simp at e
  | some so =>
    obtain ⟨s', ok'⟩ := so
    rw [hs] at e
    simp only [Option.some.injEq, Prod.mk.injEq] at e
    obtain ⟨rfl, rfl, rfl⟩ := e
    have hsel : ∀ v ∈ t.receivers, AssetOk p (Transfer.receiverWF (crypto P R sign verifySig prove) v).1 :=
      fun v hv => select_ok (hf.receiver_ok hp v hv).1 (hf.receiver_ok hp v hv).2
    have hvals : ∀ v ∈ (t.receivers.map (Transfer.receiverWF (crypto P R sign verifySig prove))).map
        (fun x => x.1.value) ++ t.sinks, v < p := by
      intro v hv
      rw [List.mem_append, List.map_map, List.mem_map] at hv
      rcases hv with ⟨x, hx, rfl⟩ | hv
      · exact (hsel x hx).2
      · exact hso v hv
    have hl : ∀ st' as, KnO (fun st a v => KnAsset G st a v) st' as
        (t.receivers.map fun v => (Transfer.receiverWF (crypto P R sign verifySig prove) v).1) →
        KnL G st' tv.sinks (t.sinks.map fun n : Nat => (n : ZMod p)) →
        KnL G st' (as.map AssetV.value ++ tv.sinks)
          (((t.receivers.map (Transfer.receiverWF (crypto P R sign verifySig prove))).map
            (fun x => x.1.value) ++ t.sinks).map fun n : Nat => (n : ZMod p)) := by
      intro st' as has hso
      have := has.values.append hso
      simpa only [List.map_append, List.map_map, Function.comp_def] using this
    have hbound := (valueSum_gad (G := fun _ => True) (st := St.empty) hP.field P.ark
      (KnL.consts _ _ _) hvals hs).1
    refine ⟨hbound, ?_, ?_⟩
    · intro i hi
      rw [List.map_map, List.mem_map] at hi
      obtain ⟨x, hx, rfl⟩ := hi
      exact (hsel x hx).1
    · unfold outputSumC
      refine ((receivers_gad (sign := sign) (verifySig := verifySig) (prove := prove) hP h.receivers ?_).bind
        fun as st2 l2 has =>
        (valueSum_gad hP.field P.ark (hl st2 as has (h.sinks.up l2)) hvals hs).2.bind fun c st3 l3 hc =>
        Gad.pure ⟨hc, ?_⟩).imp ?_ fun _ _ _ h => h
      · intro v hv
        have := hf.receivers v hv
        refine ⟨(hf.receiver_ok hp v hv).1, this.2.2.1, ?_⟩
        have e := congrArg List.length this.2.2.2
        simpa using e
      · simp only [and_true, Bool.and_eq_true]
      · have := (has.up' (fun _ _ _ _ l h => h.up l) l3).ids
        simpa only [List.map_map, Function.comp_def] using this

theorem Fits.allocOk {t : Transfer (ty C R)} (h : Fits P t) : Transfer.allocOk t = true := by
  simp only [Transfer.allocOk, Transfer.inRange, Bool.and_eq_true, List.all_eq_true, decide_eq_true_eq]
  exact ⟨⟨⟨h.sources, h.sinks⟩, fun s hs => ⟨(h.senders s hs).1.2, (h.senders s hs).2.1.2⟩⟩,
    fun s hs => ⟨(h.receivers s hs).1.2, (h.receivers s hs).2.1.2⟩⟩

/-- The constraints hold exactly for the transfers that the native check accepts. -/
theorem build_gad (hP : P.Ok) {tv : TransferV p} {t : Transfer (ty C R)} (h : KnTransfer G st tv t) (hf : Fits P t)
    (hc : Transfer.circuit (crypto P R sign verifySig prove) p t ≠ none) :
    Gad G st (build P tv) (Transfer.circuit (crypto P R sign verifySig prove) p t = some true) fun _ _ => True := by
  unfold Transfer.circuit at hc ⊢
  cases hi : Transfer.inputSum (crypto P R sign verifySig prove) p t with
  | none => rw [hi] at hc; simp at hc
  | some i =>
    cases ho : Transfer.outputSum (crypto P R sign verifySig prove) p t with
    | none => rw [hi, ho] at hc; simp at hc
    | some o =>
      obtain ⟨i, ids, ok⟩ := i
      obtain ⟨o, ids', ok'⟩ := o
      have ki := inputSum_gad hP h hf hi
      have hids : ∀ v ∈ ids ++ ids', v < p := by
        intro v hv
        rcases List.mem_append.1 hv with hv | hv
        · exact ki.2.1 v hv
        · exact (outputSum_gad hP h hf ho).2.1 v hv
      simp only [Option.some.injEq, Bool.and_eq_true, decide_eq_true_eq, hf.allocOk, true_and]
      refine (ki.2.2.bind fun a st1 l1 ha => (outputSum_gad hP (h.up l1) hf ho).2.2.bind fun b st2 l2 hb =>
        (assertEqF_gad (ha.1.up l2) hb.1).bind fun _ st3 l3 _ => (?_ : Gad G st3 _
          ((match t.assetId with
            | some a => Transfer.allEqTo a (ids ++ ids')
            | none => Transfer.allEq (ids ++ ids')) = true) fun _ _ => True)).imp ?_ fun _ _ _ h => h
      · have hl : KnL G st3 (a.2 ++ b.2) ((ids ++ ids').map fun n : Nat => (n : ZMod p)) := by
          rw [List.map_append]
          exact (ha.2.up (l2.trans l3)).append (hb.2.up l3)
        cases hid : t.assetId with
        | none =>
          rw [h.idNone hid]
          exact allEq_gad hl hids
        | some n =>
          obtain ⟨v, e, hv⟩ := h.id n hid
          rw [e]
          exact allEqTo_gad (hf.assetId n hid) (hv.up (l1.trans (l2.trans l3))) hl hids
      · rw [cast_inj ki.1 (outputSum_gad hP h hf ho).1]
        constructor
        · rintro ⟨a, b, c, d⟩
          exact ⟨⟨⟨a, b⟩, c⟩, d⟩
        · rintro ⟨⟨⟨a, b⟩, c⟩, d⟩
          exact ⟨a, b, c, d⟩

end

end Verif.Circuit
