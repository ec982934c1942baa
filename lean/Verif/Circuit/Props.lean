import Verif.Circuit.TransferProps
import Verif.Circuit.Bn254
import Verif.Ledger.Supply
import Verif.Transfer.Props

/-!
# Properties of the compiled transfer circuits (C120 to C123)
-/

namespace Verif.Circuit

open Verif.Gadget
open Verif.Asset (Asset)
open Verif.Transfer (Ty Utxo Nul FullNote Plain Sender Receiver Auth Transfer Crypto InputEnc Post)

set_option linter.unusedSectionVars false

variable {p r : Nat} [Fact p.Prime] {C : Curve p r} {P : Params C} {R : Rest} {G : Asg p → Prop} {st : St p}

/-! ## C120: what the compiled circuit of a shape accepts -/

/-- The circuit compiled for a shape has a satisfying assignment with these public inputs. -/
def Accepts (P : Params C) (s : Shape) (x : List (ZMod p)) : Prop :=
  ∃ st z, unknownConstraints P s = some st ∧ st.cs.Sat z ∧ st.pub.map z = x

section

variable (sign : ZMod r → Verif.Transfer.Body (ty C R) → List Nat → R.Sig)
  (verifySig : C.E → Verif.Transfer.Body (ty C R) → List Nat → R.Sig → Bool)
  (prove : Transfer (ty C R) → Option R.Proof)

/-- C120: for every shape with participants on both sides, the public inputs for which the compiled constraint system can
be satisfied are exactly the public inputs of the well-typed transfers of this shape that the native check accepts. -/
theorem c120_exact (hP : P.Ok) (s : Shape) (hs : s.Sided) (x : List (ZMod p)) :
    Accepts P s x ↔ ∃ t : Transfer (ty C R), Fits P t ∧ HasShape s t ∧
      Transfer.circuit (crypto P R sign verifySig prove) p t = some true ∧
      Transfer.Transfer.input (enc C R) t = x := by
  obtain ⟨st, e, h1, h2⟩ := circuit_al (sign := sign) (verifySig := verifySig) (prove := prove) hP s hs
  constructor
  · rintro ⟨st', z, e', hz, hx⟩
    rw [e] at e'
    cases e'
    obtain ⟨t, a, b, c, d⟩ := h1 z hz
    exact ⟨t, a, b, c, d.symm.trans hx⟩
  · rintro ⟨t, a, b, c, d⟩
    obtain ⟨z, hz, hx⟩ := h2 t a b c
    exact ⟨st, z, e, hz, hx.trans d⟩

omit [Fact p.Prime] in
theorem bind_none {α β : Type} {m : B p α} {f : α → B p β} {st : St p} (h : ∀ a st', f a st' = none) :
    (m >>= f) st = none := by
  show (m st).bind _ = none
  cases m st with
  | none => rfl
  | some a => exact h _ _

omit [Fact p.Prime] in
theorem bind_none' {α β : Type} {m : B p α} {f : α → B p β} {st : St p} (h : m st = none) :
    (m >>= f) st = none := by
  show (m st).bind _ = none
  rw [h]
  rfl

theorem build_none {tv : TransferV p} (h : (tv.auth = none ∧ tv.sources = []) ∨ (tv.receivers = [] ∧ tv.sinks = []))
    (st : St p) : build P tv st = none := by
  rcases h with ⟨h1, h2⟩ | ⟨h1, h2⟩
  · refine bind_none' ?_
    rw [inputSumC, h1, h2]
    rfl
  · refine bind_none fun i st1 => bind_none' ?_
    rw [outputSumC, h1, h2]
    rfl

/-- C120: compiling panics exactly for the shapes with an empty side, which `Transfer::new` rejects. -/
theorem c120_total (hP : P.Ok) (s : Shape) : unknownConstraints P s = none ↔ ¬ s.Sided := by
  constructor
  · intro h hs
    obtain ⟨st, e, _⟩ := circuit_al (R := ⟨Unit, Unit, Unit, Unit, Unit⟩) (sign := fun _ _ _ => ())
      (verifySig := fun _ _ _ _ => true) (prove := fun _ => none) hP s hs
    rw [e] at h
    cases h
  · intro hs
    obtain ⟨tv, st1, e1, h1, v1⟩ := transfer_al (R := ⟨Unit, Unit, Unit, Unit, Unit⟩) hP s St.empty rowsOk_empty
    obtain ⟨z, _, _, hz⟩ := h1.complete (fun _ => 0) (zeroTransfer C _ P s)
      (fun c hc => by simp [St.empty, Cs.empty] at hc) (zeroTransfer_ok s)
    have hb : build P tv st1 = none := by
      apply build_none
      by_cases h0 : s.sources + s.senders = 0
      · refine .inl ⟨?_, ?_⟩
        · have := hz.auth
          rw [show (zeroTransfer C _ P s).auth = none by simp [zeroTransfer]; omega] at this
          generalize tv.auth = x at this ⊢
          cases this
          rfl
        · have := hz.sources
          rw [show (zeroTransfer C _ P s).sources = [] by simp [zeroTransfer]; omega] at this
          generalize tv.sources = x at this ⊢
          cases this
          rfl
      · have h0' : s.receivers + s.sinks = 0 := by
          rcases Nat.eq_zero_or_pos (s.receivers + s.sinks) with h | h
          · exact h
          · exact absurd ⟨h0, by omega⟩ hs
        refine .inr ⟨?_, ?_⟩
        · have := hz.receivers
          rw [show (zeroTransfer C _ P s).receivers = [] by simp [zeroTransfer]; omega] at this
          generalize tv.receivers = x at this ⊢
          cases this
          rfl
        · have := hz.sinks
          rw [show (zeroTransfer C _ P s).sinks = [] by simp [zeroTransfer]; omega] at this
          generalize tv.sinks = x at this ⊢
          cases this
          rfl
    show ((unknown P s >>= fun t => build P t) St.empty).map Prod.snd = none
    rw [run_bind e1, hb]
    rfl

theorem HasShape.auth_iff {s : Shape} {t : Transfer (ty C R)} (h : HasShape s t) :
    t.auth.isSome = true ↔ t.senders ≠ [] := by
  rw [h.auth, decide_eq_true_eq, ← h.senders]
  exact List.length_pos_iff

/-- C120: value conservation for the constraint system itself. Whatever assignment satisfies it, the transfer it encodes
has the public inputs of the assignment, conserves value over the integers and moves a single asset. -/
theorem c120_conservation (hP : P.Ok) (hp : 2 ^ 129 ≤ p) (s : Shape) (hs : s.Sided) (x : List (ZMod p))
    (h : Accepts P s x) :
    ∃ t : Transfer (ty C R), HasShape s t ∧ Transfer.circuit (crypto P R sign verifySig prove) p t = some true ∧
      Transfer.Transfer.input (enc C R) t = x ∧
      t.sources.sum + (t.ins.map Asset.value).sum = t.sinks.sum + (t.outs.map Asset.value).sum ∧
      t.sources.sum + (t.ins.map Asset.value).sum < 2 ^ 128 ∧
      (∀ a, t.assetId = some a → ∀ y ∈ t.ins ++ t.outs, y.id = a) ∧
      (∀ y ∈ t.ins ++ t.outs, ∀ y' ∈ t.ins ++ t.outs, y.id = y'.id) := by
  obtain ⟨t, _, h2, h3, h4⟩ := (c120_exact sign verifySig prove hP s hs x).1 h
  obtain ⟨a, b, c, d⟩ := Transfer.c32_conservation _ p hp t h2.auth_iff h3
  exact ⟨t, h2, h3, h4, a, b, c, d⟩

end

/-! ## C121: keys and proofs are made for the same constraint system -/

omit [Fact p.Prime] in
theorem mapB_congr {α α' β : Type} {f : α → B p β} {g : α' → B p β} {l : List α} {l' : List α'} (hl : l.length = l'.length)
    (h : ∀ a ∈ l, ∀ a' ∈ l', f a = g a') : mapB f l = mapB g l' := by
  induction l generalizing l' with
  | nil =>
    cases l' with
    | nil => rfl
    | cons a l => simp at hl
  | cons a l ih =>
    cases l' with
    | nil => simp at hl
    | cons a' l' =>
      simp only [mapB]
      rw [h a (by simp) a' (by simp), ih (by simpa using hl) fun b hb b' hb' => h b (by simp [hb]) b' (by simp [hb'])]

/-- C121: the constraint system that a proof is made for, which is built from the transfer, is the one the keys were made
for, which is built from the shape alone. It has the same constraints, the same variables and the same public inputs. -/
theorem c121_same (P : Params C) (s : Shape) (t : Transfer (ty C R)) (hf : Fits P t) (hs : HasShape s t) :
    knownConstraints P t = unknownConstraints P s := by
  have e : known P t = unknown P s := by
    unfold known unknown repB Transfer.requiresAuthorization Transfer.hasPublicParticipants
    rw [hs.auth, hs.assetId,
      mapB_congr (l := t.sources) (l' := List.range s.sources) (g := fun _ => allocU P.ark .pub) (by simp [hs.sources])
        (fun _ _ _ _ => rfl),
      mapB_congr (l := t.sinks) (l' := List.range s.sinks) (g := fun _ => allocU P.ark .pub) (by simp [hs.sinks])
        (fun _ _ _ _ => rfl),
      mapB_congr (l := t.senders) (l' := List.range s.senders) (g := fun _ => allocSender P P.h) (by simp [hs.senders])
        (fun a ha _ _ => by rw [(hf.senders a ha).2.2]),
      mapB_congr (l := t.receivers) (l' := List.range s.receivers) (g := fun _ => allocReceiver P [P.encC.width - 1])
        (by simp [hs.receivers]) (fun a ha _ _ => by rw [(hf.receivers a ha).2.2.2])]
  unfold knownConstraints unknownConstraints
  rw [e]

/-! ## C122: hashing, encryption and Merkle paths in circuits -/

/-- A call that computes: it does not panic, every satisfying assignment of the new constraint system satisfies the old
one and gives the result this value, every satisfying assignment of the old one can be extended, and there are no
new public inputs. -/
def Calls {α : Type} (m : B p α) (st : St p) (val : Asg p → α → Prop) : Prop :=
  ∃ a st', m st = some (a, st') ∧ st'.pub = st.pub ∧ RowsOk st' ∧
    (∀ z, st'.cs.Sat z → st.cs.Sat z ∧ val z a) ∧
    ∀ z, st.cs.Sat z → ∃ z', Agree st.cs.next z z' ∧ st'.cs.Sat z'

theorem Gad.calls {α : Type} {m : B p α} (hr : RowsOk st) {xs : List (Lc p)} (hx : Vars st.cs.next xs)
    {val : Asg p → α → Prop}
    (h : ∀ z, Gad (fun w => ∀ x ∈ xs, x w = x z) st m True fun st' a =>
      Holds (fun w => ∀ x ∈ xs, x w = x z) st' z → val z a) : Calls m st val := by
  have ok : ∀ z, Ok (fun w => ∀ x ∈ xs, x w = x z) st := fun z => by
    refine ⟨hr, fun w w' e => propext ⟨fun h x m => ?_, fun h x m => ?_⟩⟩
    · exact (hx x m w w' e).symm.trans (h x m)
    · exact (hx x m w w' e).trans (h x m)
  obtain ⟨a, st', e, s, _⟩ := h (fun _ => 0) (ok _)
  have same : ∀ z, Step (fun w => ∀ x ∈ xs, x w = x z) st (fun w => ∀ x ∈ xs, x w = x z) st' True ∧
      (Holds (fun w => ∀ x ∈ xs, x w = x z) st' z → val z a) := by
    intro z
    obtain ⟨a', st'', e', s', q⟩ := h z (ok z)
    rw [e] at e'
    cases e'
    exact ⟨s', q⟩
  refine ⟨a, st', e, s.pub, s.ok.rows, fun z hz => ⟨s.le.sat z hz, (same z).2 ⟨hz, fun _ _ => rfl⟩⟩, fun z hz => ?_⟩
  obtain ⟨z', e, hz'⟩ := (same z).1.complete z ⟨hz, fun _ _ => rfl⟩ trivial
  exact ⟨z', e, hz'.1⟩

theorem Kn.self {xs : List (Lc p)} (hx : Vars st.cs.next xs) {x : Lc p} (h : x ∈ xs) (z : Asg p) :
    Kn (fun w => ∀ x ∈ xs, x w = x z) st x (x z) := ⟨hx x h, fun _ hw => hw.2 x h⟩

theorem KnL.self {xs : List (Lc p)} (hx : Vars st.cs.next xs) {ys : List (Lc p)} (h : ∀ y ∈ ys, y ∈ xs) (z : Asg p) :
    KnL (fun w => ∀ x ∈ xs, x w = x z) st ys (ys.map fun y => y z) := by
  induction ys with
  | nil => exact .nil
  | cons y ys ih => exact .cons (Kn.self hx (h y (by simp)) z) (ih fun x hx => h x (by simp [hx]))

theorem KnL.vals {xs : List (Lc p)} {vs : List (ZMod p)} (h : KnL G st xs vs) {z : Asg p} (hz : Holds G st z) :
    xs.map (fun x => x z) = vs := by
  induction h with
  | nil => rfl
  | cons h _ ih => simp [h.2 z hz, ih]

theorem KnB.vals {xs : List (List (Lc p))} {vs : List (List (ZMod p))} (h : KnB G st xs vs) {z : Asg p}
    (hz : Holds G st z) : xs.map (fun l => l.map fun x => x z) = vs := by
  induction h with
  | nil => rfl
  | cons h _ ih => simp [h.vals hz, ih]

/-- C122: the hash gadget computes the hash of the values of its arguments with the domain tag of the type, whatever tag
the hasher stores. -/
theorem c122_own_tag {H : Hasher p} {n : Nat} (hw : H.c.width = n + 1) (hf : 2 ≤ H.c.full) (hg : Poseidon.Good H.c H.perm)
    (he : 1 ≤ H.expo) (hr : RowsOk st) {xs : List (Lc p)} (hx : Vars st.cs.next xs) (hn : xs.length = n) :
    Calls (hashC H xs) st fun z y =>
      Poseidon.hash H.c (fun x => x ^ H.expo) H.perm H.ownTag (xs.map fun x => x z) = some (y z) := by
  refine Gad.calls hr hx fun z => ?_
  obtain ⟨v, hv⟩ := hash_some H hw hf hg H.ownTag (xs := xs.map fun x => x z) (by simpa using hn)
  exact (hash_gad H he (KnL.self hx (fun _ h => h) z) hv).imp Iff.rfl fun st' a _ h hz => by rw [h.2 z hz, hv]

/-- C122: the hash gadget computes the native hash of the values of its arguments, for every hasher whose stored domain
tag is the one of its type. -/
theorem c122_hash_partial {H : Hasher p} {n : Nat} (hH : H.Ok n) (hr : RowsOk st) {xs : List (Lc p)}
    (hx : Vars st.cs.next xs) (hn : xs.length = n) :
    Calls (hashC H xs) st fun z y => H.run (xs.map fun x => x z) = some (y z) := by
  have := c122_own_tag hH.width hH.full hH.good hH.expo hr hx hn
  rw [← hH.tag] at this
  exact this

/-- C122: the gadget for note encryption computes tag and ciphertext of the native encryption. -/
theorem c122_encrypt (hP : P.Ok) (hr : RowsOk st) {x y a b c : Lc p} (hx : Vars st.cs.next [x, y, a, b, c]) :
    Calls (encryptC P [x, y] [[a, b, c]]) st fun z o =>
      P.duplexer.encrypt [x z, y z] [] [[a z, b z, c z]] = some (o.1 z, o.2.map fun l => l.map fun v => v z) := by
  refine Gad.calls hr hx fun z => (encrypt_gad hP (Kn.self hx (by simp) z) (Kn.self hx (by simp) z)
    (Kn.self hx (by simp) z) (Kn.self hx (by simp) z) (Kn.self hx (by simp) z)).imp Iff.rfl fun st' o _ h hz => ?_
  rw [h.1.2 z hz, h.2.vals hz]
  have hl := encrypt_length hP (x z) (y z) (a z) (b z) (c z)
  cases e : P.duplexer.encrypt [x z, y z] [] [[a z, b z, c z]] with
  | none =>
    rw [e] at hl
    simp at hl
  | some v => rfl

/-- C122: a Merkle path of variables. Every path with the right number of digests can be assigned, and whatever
satisfies the constraints, the result of the verification is the one of the native verification of the path that was
assigned, for the root and leaf that were assigned. -/
theorem c122_path (hH : P.node.Ok 2) (n : Nat) (hr : RowsOk st) (hsat : ∃ z, st.cs.Sat z) {root leaf : Lc p} (hx : Vars st.cs.next [root, leaf]) :
    ∃ w b st', (do let w ← allocPath n n; let b ← verifyC P.node w root leaf; pure (w, b) : B p (PathV p × Lc p)) st =
        some ((w, b), st') ∧ st'.pub = st.pub ∧
      (∀ z, st'.cs.Sat z → st.cs.Sat z ∧ ∃ v : Merkle.Path (ZMod p) (ZMod p), v.path.length = n ∧ RdPath n w z v ∧
        b z = fbit (Merkle.Path.verify P.tree v (root z) (leaf z))) ∧
      ∀ z (v : Merkle.Path (ZMod p) (ZMod p)), st.cs.Sat z → v.path.length = n →
        ∃ z', Agree st.cs.next z z' ∧ st'.cs.Sat z' ∧ RdPath n w z' v := by
  obtain ⟨w, st1, e1, h1, v1⟩ := path_al (p := p) n n st hr
  have hx1 : Vars st1.cs.next [root, leaf] := hx.mono h1.next
  have key : ∀ (v : Merkle.Path (ZMod p) (ZMod p)), v.path.length = n → ∀ z0, st1.cs.Sat z0 → RdPath n w z0 v →
      ∃ b st2, verifyC P.node w root leaf st1 = some (b, st2) ∧
        Step (fun z => RdPath n w z v ∧ root z = root z0 ∧ leaf z = leaf z0) st1
          (fun z => RdPath n w z v ∧ root z = root z0 ∧ leaf z = leaf z0) st2 True ∧
        Kn (fun z => RdPath n w z v ∧ root z = root z0 ∧ leaf z = leaf z0) st2 b
          (fbit (Merkle.Path.verify P.tree v (root z0) (leaf z0))) := by
    intro v hv z0 hz0 hr0
    have ok : Ok (fun z => RdPath n w z v ∧ root z = root z0 ∧ leaf z = leaf z0) st1 := by
      refine ⟨h1.rows, fun z z' e => ?_⟩
      have e1 : RdPath n w z v = RdPath n w z' v := h1.stable v z z' e
      rw [e1, hx1 root (by simp) z z' e, hx1 leaf (by simp) z z' e]
    exact verify_gad hH (KnPath.of (z₀ := z0) ⟨hz0, hr0, rfl, rfl⟩ v1 (fun z hz => hz.2.1) hv)
      ⟨hx1 _ (by simp), fun z hz => hz.2.2.1⟩ ⟨hx1 _ (by simp), fun z hz => hz.2.2.2⟩ ok
  obtain ⟨zz, hzz⟩ := hsat
  obtain ⟨z1, _, hz1, hr1⟩ := h1.complete zz { sib := 0, leafIndex := 0, path := List.replicate n 0 } hzz (by simp)
  obtain ⟨b, st2, e2, s2, _⟩ := key _ (by simp) z1 hz1 hr1
  have same : ∀ (v : Merkle.Path (ZMod p) (ZMod p)), v.path.length = n → ∀ z0, st1.cs.Sat z0 → RdPath n w z0 v →
      Step (fun z => RdPath n w z v ∧ root z = root z0 ∧ leaf z = leaf z0) st1
          (fun z => RdPath n w z v ∧ root z = root z0 ∧ leaf z = leaf z0) st2 True ∧
        Kn (fun z => RdPath n w z v ∧ root z = root z0 ∧ leaf z = leaf z0) st2 b
          (fbit (Merkle.Path.verify P.tree v (root z0) (leaf z0))) := by
    intro v hv z0 hz0 hr0
    obtain ⟨b', st2', e', s', k⟩ := key v hv z0 hz0 hr0
    rw [e2] at e'
    cases e'
    exact ⟨s', k⟩
  refine ⟨w, b, st2, (run_bind e1).trans ((run_bind e2).trans rfl), ?_, ?_, ?_⟩
  · obtain ⟨ks, ek, hk⟩ := h1.pub
    have : ks = [] := List.map_eq_nil_iff.1 (hk z1 _ hz1 hr1)
    rw [s2.pub, ek, this, List.append_nil]
  · intro z hz
    have hz1 := s2.le.sat z hz
    obtain ⟨h0, v, hv, hr⟩ := h1.sound z hz1
    exact ⟨h0, v, hv, hr, (same v hv z hz1 hr).2.2 z ⟨hz, hr, rfl, rfl⟩⟩
  · intro z v hz hv
    obtain ⟨z1, e, hz1, hr1⟩ := h1.complete z v hz hv
    obtain ⟨z2, e', hz2⟩ := (same v hv z1 hz1 hr1).1.complete z1 ⟨hz1, hr1, rfl, rfl⟩ trivial
    exact ⟨z2, fun i hi => (e i hi).trans (e' i (Nat.lt_of_lt_of_le hi h1.next)), hz2.1, hz2.2.1⟩

/-! ## C123: a satisfied circuit backs a post -/

/-- What the types of a post guarantee: ids are field elements, values have 128 bits, notes one block. -/
structure PostTyped (P : Params C) (q : Post (ty C R)) : Prop where
  assetId : ∀ a, q.body.assetId = some a → a < p
  sourceValues : ∀ v ∈ q.body.sources, v < 2 ^ 128
  sinkValues : ∀ v ∈ q.body.sinks, v < 2 ^ 128
  utxos : ∀ x ∈ q.body.receivers, x.utxo.pubAsset.id < p ∧ x.utxo.pubAsset.value < 2 ^ 128
  notes : ∀ x ∈ q.body.receivers, x.note.inote.2.2.map List.length = [P.encC.width - 1]

/-- The post has this shape. -/
structure PostFits (P : Params C) (s : Shape) (q : Post (ty C R)) : Prop extends PostTyped P q where
  sig : q.sig.isSome = decide (s.senders > 0)
  hasId : q.body.assetId.isSome = decide (s.sources + s.sinks > 0)
  sources : q.body.sources.length = s.sources
  senders : q.body.senders.length = s.senders
  receivers : q.body.receivers.length = s.receivers
  sinks : q.body.sinks.length = s.sinks

theorem flatMap_inj {α β γ : Type} {f : α → List γ} {g : β → List γ} {n : Nat} {as : List α} {bs : List β} {x y : List γ}
    (hf : ∀ a ∈ as, (f a).length = n) (hg : ∀ b ∈ bs, (g b).length = n) (hl : as.length = bs.length)
    (h : as.flatMap f ++ x = bs.flatMap g ++ y) : All₂ (fun a b => f a = g b) as bs ∧ x = y := by
  induction as generalizing bs with
  | nil =>
    cases bs with
    | nil => exact ⟨.nil, h⟩
    | cons b bs => simp at hl
  | cons a as ih =>
    cases bs with
    | nil => simp at hl
    | cons b bs =>
      simp only [List.flatMap_cons, List.append_assoc] at h
      have h' := List.append_inj h (by rw [hf a (by simp), hg b (by simp)])
      obtain ⟨h1, h2⟩ := ih (fun a ha => hf a (by simp [ha])) (fun b hb => hg b (by simp [hb])) (by simpa using hl) h'.2
      exact ⟨.cons h'.1 h1, h2⟩

theorem All₂.map_eq {α β γ : Type} {K : α → β → Prop} {as : List α} {bs : List β} (h : All₂ K as bs) {f : α → γ}
    {g : β → γ} (hk : ∀ a ∈ as, ∀ b ∈ bs, K a b → f a = g b) : as.map f = bs.map g := by
  induction h with
  | nil => rfl
  | cons h _ ih =>
    simp only [List.map_cons]
    rw [hk _ (by simp) _ (by simp) h, ih fun a ha b hb => hk a (by simp [ha]) b (by simp [hb])]

theorem fbit_inj {u v : Bool} (h : (fbit u : ZMod p) = fbit v) : u = v := by
  cases u <;> cases v <;> simp [fbit] at h ⊢

theorem flatten_length {l : List (List (ZMod p))} {n : Nat} (h : l.map List.length = [n]) : l.flatten.length = n := by
  rw [List.length_flatten, h]
  simp

theorem flatten_inj {l k : List (List (ZMod p))} {n : Nat} (h : l.map List.length = [n]) (g : k.map List.length = [n])
    (e : l.flatten = k.flatten) : l = k := by
  cases l with
  | nil => simp at h
  | cons a l =>
    cases k with
    | nil => simp at g
    | cons b k =>
      simp only [List.map_cons, List.cons.injEq, List.map_eq_nil_iff] at h g
      rw [h.2, g.2] at e ⊢
      simpa using e

/-- The public inputs of a post and of a transfer of the same shape agree only if their public data agree. -/
theorem input_inj (hp : 2 ^ 128 < p) {s : Shape} {q : Post (ty C R)} (hq : PostFits P s q) {t : Transfer (ty C R)}
    (hf : Fits P t) (hs : HasShape s t) (h : Transfer.Transfer.input (enc C R) t = Transfer.Post.input (enc C R) q) :
    q.sig.map (fun x => x.key) = t.auth.map (fun a => a.rpak) ∧ q.body.assetId = t.assetId ∧
    q.body.sources = t.sources ∧ q.body.sinks = t.sinks ∧
    q.body.senders.map (fun x => (x.root, x.nul.cm)) = t.senders.map (fun x => (x.root, x.nul.cm)) ∧
    q.body.receivers.map (fun x => (x.utxo, x.note.inote)) = t.receivers.map (fun x => (x.utxo, x.note.inote)) := by
  unfold Transfer.Transfer.input Transfer.Post.input Transfer.Body.input at h
  simp only [List.append_assoc] at h
  have h1 := List.append_inj h (by
    have e1 := hs.auth
    have e2 := hq.sig
    cases ha : t.auth <;> cases hb : q.sig <;> simp [ha, hb, Transfer.optIn] at * <;> omega)
  have h2 := List.append_inj h1.2 (by
    have e1 := hs.assetId
    have e2 := hq.hasId
    cases ha : t.assetId <;> cases hb : q.body.assetId <;> simp [ha, hb, Transfer.optIn] at * <;> omega)
  obtain ⟨s3, h3⟩ := flatMap_inj (n := 1) (fun _ _ => rfl) (fun _ _ => rfl) (hs.sources.trans hq.sources.symm) h2.2
  obtain ⟨s4, h4⟩ := flatMap_inj (n := 2) (fun _ _ => rfl) (fun _ _ => rfl) (hs.senders.trans hq.senders.symm) h3
  obtain ⟨s5, h5⟩ := flatMap_inj (n := 4 + (3 + (P.encC.width - 1)))
    (fun a ha => by simp [Transfer.inReceiver, flatten_length (hf.receivers a ha).2.2.2]; omega)
    (fun a ha => by simp [Transfer.inReceiver, flatten_length (hq.notes a ha)]; omega)
    (hs.receivers.trans hq.receivers.symm) h4
  have h5' : t.sinks.flatMap (enc C R).value ++ [] = q.body.sinks.flatMap (enc C R).value ++ [] := by
    rw [h5]
  obtain ⟨s6, _⟩ := flatMap_inj (n := 1) (fun _ _ => rfl) (fun _ _ => rfl) (hs.sinks.trans hq.sinks.symm) h5'
  refine ⟨?_, ?_, ?_, ?_, ?_, ?_⟩
  · have e1 := hs.auth
    have e2 := hq.sig
    have e3 := h1.1
    cases ha : t.auth with
    | none =>
      cases hb : q.sig with
      | none => rfl
      | some b => simp [ha, hb] at e1 e2; omega
    | some a =>
      cases hb : q.sig with
      | none => simp [ha, hb] at e1 e2; omega
      | some b =>
        simp only [ha, hb, Transfer.optIn, Transfer.Auth.key, List.cons.injEq, and_true] at e3
        simp [C.inj _ _ e3.1 e3.2]
  · have e1 := hs.assetId
    have e2 := hq.hasId
    have e3 := h2.1
    cases ha : t.assetId with
    | none =>
      cases hb : q.body.assetId with
      | none => rfl
      | some b => simp [ha, hb] at e1 e2; omega
    | some a =>
      cases hb : q.body.assetId with
      | none => simp [ha, hb] at e1 e2; omega
      | some b =>
        simp only [ha, hb, Transfer.optIn, List.cons.injEq, and_true] at e3
        rw [(cast_inj (hf.assetId a ha) (hq.assetId b hb)).1 e3]
  · have := s3.map_eq (f := id) (g := id) fun a ha b hb h => (cast_inj (Nat.lt_trans (hf.sources a ha) hp)
      (Nat.lt_trans (hq.sourceValues b hb) hp)).1 (by simpa using h)
    simpa using this.symm
  · have := s6.map_eq (f := id) (g := id) fun a ha b hb h => (cast_inj (Nat.lt_trans (hf.sinks a ha) hp)
      (Nat.lt_trans (hq.sinkValues b hb) hp)).1 (by simpa using h)
    simpa using this.symm
  · refine (s4.map_eq fun a ha b hb h => ?_).symm
    simpa [Transfer.inSender] using h
  · refine (s5.map_eq fun a ha b hb h => ?_).symm
    simp only [Transfer.inReceiver, List.cons_append, List.nil_append, List.cons.injEq] at h
    obtain ⟨e1, e2, e3, e4, e5, e6, e7, e8⟩ := h
    have f1 := fbit_inj e1
    have f2 := (cast_inj (hf.receivers a ha).2.1.1 (hq.utxos b hb).1).1 e2
    have f3 := (cast_inj (Nat.lt_trans (hf.receivers a ha).2.1.2 hp) (Nat.lt_trans (hq.utxos b hb).2 hp)).1 e3
    have f5 := C.inj _ _ e5 e6
    have f6 : a.utxo = b.utxo := by
      cases hu : a.utxo with
      | mk t1 a1 c1 =>
        cases hv : b.utxo with
        | mk t2 a2 c2 =>
          cases a1
          cases a2
          simp only [hu, hv] at f1 f2 f3 e4
          subst f1 f2 f3 e4
          rfl
    have f8 := flatten_inj (hf.receivers a ha).2.2.2 (hq.notes b hb) e8
    rw [f6, Prod.ext f5 (Prod.ext e7 f8)]

/-- C123: if the public inputs of a post satisfy the compiled circuit of its shape, then a transfer backs the post: it
passes the native check, has the public data of the post with the incoming notes, and its authorization is for the key
that signed it. This is
the premise of C65 and C32 about the ledger, so that for these the proof system has to be sound for the compiled
constraint systems only. -/
theorem c123_backed (hP : P.Ok) (env : Ledger.Env (ty C R))
    (sign : ZMod r → Verif.Transfer.Body (ty C R) → List Nat → R.Sig)
    (verifySig : C.E → Verif.Transfer.Body (ty C R) → List Nat → R.Sig → Bool)
    (prove : Transfer (ty C R) → Option R.Proof) (hc : env.crypto = crypto P R sign verifySig prove)
    (s : Shape) (hs : s.Sided) (q : Post (ty C R)) (hq : PostFits P s q)
    (h : Accepts P s (Transfer.Post.input (enc C R) q)) :
    ∃ t, Ledger.Backed env p q t ∧ Fits P t ∧ q.sig.map (fun x => x.key) = t.auth.map (fun a => a.rpak) ∧
      q.body.receivers.map (fun x => (x.utxo, x.note.inote)) = t.receivers.map fun x => (x.utxo, x.note.inote) := by
  obtain ⟨t, h1, h2, h3, h4⟩ := (c120_exact sign verifySig prove hP s hs _).1 h
  obtain ⟨a, b, c, d, e, f⟩ := input_inj (two_lt hP.field) hq h1 h2 h4
  refine ⟨t, ⟨h2.auth_iff, by rw [hc]; exact h3, b, c, d, e, ?_⟩, h1, a, f⟩
  have := congrArg (List.map Prod.fst) f
  rw [List.map_map, List.map_map] at this
  exact this

/-- The numbers of participants of the canonical shapes, canonical.rs:98-100, 164-166, 195-203. -/
def dims : Transfer.Shape → Shape
  | .toPrivate => ⟨1, 0, 1, 0⟩
  | .privateTransfer => ⟨0, 2, 2, 0⟩
  | .toPublic => ⟨0, 2, 1, 1⟩

/-- C123: with a verifier that fails unless the public inputs satisfy the compiled circuit of the shape, every post that
the ledger accepts is backed by a transfer. -/
theorem c123_ledger (hP : P.Ok) (env : Ledger.Env (ty C R))
    (sign : ZMod r → Verif.Transfer.Body (ty C R) → List Nat → R.Sig)
    (verifySig : C.E → Verif.Transfer.Body (ty C R) → List Nat → R.Sig → Bool)
    (prove : Transfer (ty C R) → Option R.Proof) (hc : env.crypto = crypto P R sign verifySig prove)
    (he : env.enc = enc C R)
    (hv : ∀ shape x proof, env.verifyProof shape x proof ≠ none → Accepts P (dims shape) x)
    (s s' : Ledger.State (ty C R)) (account : Nat) (q : Post (ty C R)) (hq : PostTyped P q)
    (h : Ledger.submit env s account q = (.accepted, s')) :
    ∃ t, Ledger.Backed env p q t ∧ Fits P t ∧ q.sig.map (fun x => x.key) = t.auth.map (fun a => a.rpak) ∧
      q.body.receivers.map (fun x => (x.utxo, x.note.inote)) = t.receivers.map fun x => (x.utxo, x.note.inote) := by
  obtain ⟨shape, b, h1, h2⟩ := Ledger.c59_checked env s s' account q h
  have ha := hv shape _ _ (by rw [h2]; simp)
  rw [he] at ha
  have hd : (dims shape).Sided := by cases shape <;> simp [dims, Shape.Sided]
  refine c123_backed hP env sign verifySig prove hc (dims shape) hd q ?_ ha
  unfold Transfer.Shape.fromPost Transfer.Shape.select at h1
  split at h1
  · rename_i hx
    cases h1
    obtain ⟨a1, a2, a3, a4, a5, a6⟩ := hx
    exact ⟨hq, a1, a2, a3, a4, a5, a6⟩
  · split at h1
    · rename_i hx
      cases h1
      obtain ⟨a1, a2, a3, a4, a5, a6⟩ := hx
      exact ⟨hq, a1, a2, a3, a4, a5, a6⟩
    · split at h1
      · rename_i hx
        cases h1
        obtain ⟨a1, a2, a3, a4, a5, a6⟩ := hx
        exact ⟨hq, a1, a2, a3, a4, a5, a6⟩
      · cases h1

end Verif.Circuit
