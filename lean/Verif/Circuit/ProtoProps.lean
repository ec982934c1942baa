import Verif.Circuit.HashProps

/-!
# The constraints of senders, receivers and sums
-/

namespace Verif.Circuit

open Verif.Gadget
open Verif.Asset (Asset)
open Verif.Transfer (Ty Utxo Nul FullNote Plain Sender Receiver Auth Transfer Crypto InputEnc)

set_option linter.unusedSectionVars false

variable {p r : Nat} [Fact p.Prime] {G : Asg p → Prop} {st : St p} {C : Curve p r} {P : Params C} {R : Rest}

/-! ## Variables with known values -/

/-- An asset. -/
structure KnAsset (G : Asg p → Prop) (st : St p) (a : AssetV p) (v : Asset) : Prop where
  id : Kn G st a.id (v.id : ZMod p)
  value : Kn G st a.value (v.value : ZMod p)

theorem KnAsset.up {G' : Asg p → Prop} {st' : St p} {a : AssetV p} {v : Asset} (h : KnAsset G st a v)
    (l : Le G st G' st') : KnAsset G' st' a v := ⟨h.id.up l, h.value.up l⟩

/-- A UTXO. -/
structure KnUtxo (G : Asg p → Prop) (st : St p) (u : UtxoV p) (v : Utxo (ty C R)) : Prop where
  transparent : Kn G st u.transparent (fbit v.transparent)
  pubAsset : KnAsset G st u.pubAsset v.pubAsset
  cm : Kn G st u.cm v.cm

theorem KnUtxo.up {G' : Asg p → Prop} {st' : St p} {u : UtxoV p} {v : Utxo (ty C R)} (h : KnUtxo G st u v)
    (l : Le G st G' st') : KnUtxo G' st' u v := ⟨h.transparent.up l, h.pubAsset.up l, h.cm.up l⟩

/-- A plaintext. -/
structure KnPlain (G : Asg p → Prop) (st : St p) (a : PlainV p) (v : Plain (ty C R)) : Prop where
  rand : Kn G st a.rand v.rand
  asset : KnAsset G st a.asset v.asset

theorem KnPlain.up {G' : Asg p → Prop} {st' : St p} {a : PlainV p} {v : Plain (ty C R)} (h : KnPlain G st a v)
    (l : Le G st G' st') : KnPlain G' st' a v := ⟨h.rand.up l, h.asset.up l⟩

/-- `leaf_index.parents().take(n)` with `is_right`, path.rs:1050-1055. -/
def parentBits : Nat → Nat → List Bool
  | _, 0 => []
  | i, n + 1 => decide (i / 2 % 2 = 1) :: parentBits (i / 2) n

/-- A path. -/
structure KnPath (G : Asg p → Prop) (st : St p) (w : PathV p) (v : Merkle.Path (ZMod p) (ZMod p)) : Prop where
  sib : Kn G st w.sib v.sib
  leaf : Kn G st w.leaf (fbit (decide (v.leafIndex % 2 = 1)))
  inner : KnL G st w.inner ((parentBits v.leafIndex v.path.length).map fbit)
  path : KnL G st w.path v.path

theorem KnPath.up {G' : Asg p → Prop} {st' : St p} {w : PathV p} {v : Merkle.Path (ZMod p) (ZMod p)}
    (h : KnPath G st w v) (l : Le G st G' st') : KnPath G' st' w v :=
  ⟨h.sib.up l, h.leaf.up l, h.inner.up l, h.path.up l⟩

/-- A sender, without its randomness, which has no constraints. -/
structure KnSender (G : Asg p → Prop) (st : St p) (s : SenderV p) (v : Sender (ty C R)) : Prop where
  plain : KnPlain G st s.plain v.plain
  utxo : KnUtxo G st s.utxo v.utxo
  wit : KnPath G st s.wit v.wit
  root : Kn G st s.root v.root
  nul : Kn G st s.nul v.nul.cm

theorem KnSender.up {G' : Asg p → Prop} {st' : St p} {s : SenderV p} {v : Sender (ty C R)} (h : KnSender G st s v)
    (l : Le G st G' st') : KnSender G' st' s v :=
  ⟨h.plain.up l, h.utxo.up l, h.wit.up l, h.root.up l, h.nul.up l⟩

/-- An incoming note. -/
structure KnNote (C : Curve p r) (G : Asg p → Prop) (st : St p) (n : NoteV p)
    (v : C.E × ZMod p × List (List (ZMod p))) : Prop where
  epk : KnP C G st n.epk v.1
  tag : Kn G st n.tag v.2.1
  blocks : KnB G st n.blocks v.2.2

theorem KnNote.up {G' : Asg p → Prop} {st' : St p} {n : NoteV p} {v : C.E × ZMod p × List (List (ZMod p))}
    (h : KnNote C G st n v) (l : Le G st G' st') : KnNote C G' st' n v := ⟨h.epk.up l, h.tag.up l, h.blocks.up l⟩

/-- A receiver. -/
structure KnReceiver (G : Asg p → Prop) (st : St p) (a : ReceiverV p) (v : Receiver (ty C R)) : Prop where
  rk : KnP C G st a.rk v.rk
  irand : KnS r G st a.irand v.irand
  plain : KnPlain G st a.plain v.plain
  utxo : KnUtxo G st a.utxo v.utxo
  note : KnNote C G st a.note v.note.inote

theorem KnReceiver.up {G' : Asg p → Prop} {st' : St p} {a : ReceiverV p} {v : Receiver (ty C R)}
    (h : KnReceiver G st a v) (l : Le G st G' st') : KnReceiver G' st' a v :=
  ⟨h.rk.up l, h.irand.up l, h.plain.up l, h.utxo.up l, h.note.up l⟩

/-- An authorization. -/
structure KnAuth (G : Asg p → Prop) (st : St p) (a : AuthV p) (v : Auth (ty C R)) : Prop where
  pak : KnP C G st a.pak v.pak
  rand : KnS r G st a.rand v.rand
  rpak : KnP C G st a.rpak v.rpak

theorem KnAuth.up {G' : Asg p → Prop} {st' : St p} {a : AuthV p} {v : Auth (ty C R)}
    (h : KnAuth G st a v) (l : Le G st G' st') : KnAuth G' st' a v := ⟨h.pak.up l, h.rand.up l, h.rpak.up l⟩

/-! ## Assets -/

theorem cast_inj {n m : Nat} (hn : n < p) (hm : m < p) : (n : ZMod p) = (m : ZMod p) ↔ n = m := by
  rw [ZMod.natCast_eq_natCast_iff', Nat.mod_eq_of_lt hn, Nat.mod_eq_of_lt hm]

theorem cast_zero {n : Nat} (hn : n < p) : (n : ZMod p) = 0 ↔ n = 0 := by
  have := cast_inj (p := p) hn (m := 0) (Nat.lt_of_le_of_lt (Nat.zero_le _) hn)
  simpa using this

theorem isZero_gad {x : Lc p} {n : Nat} (hn : n < p) (hx : Kn G st x (n : ZMod p)) :
    Gad G st (lift fun cs => gIsZero cs x) True fun st' c => Kn G st' c (fbit (decide (n = 0))) := by
  refine (eq_gad hx (Kn.const G st 0)).imp Iff.rfl fun st' c _ h => ?_
  simpa only [cast_zero hn] using h

theorem isEmpty_gad {a : AssetV p} {v : Asset} (ha : KnAsset G st a v) (hi : v.id < p) (hv : v.value < p) :
    Gad G st (isEmptyC a) True fun st' c => Kn G st' c (fbit (Transfer.isEmptyAsset v)) :=
  (isZero_gad hi ha.id).seq fun _ _ l1 h1 => (isZero_gad hv (ha.value.up l1)).seq fun _ _ l2 h2 => and_gad (h1.up l2) h2

theorem selectAsset_gad {b : Lc p} {u : Bool} {t f : AssetV p} {v w : Asset} (hb : Kn G st b (fbit u))
    (ht : KnAsset G st t v) (hf : KnAsset G st f w) :
    Gad G st (selectC b t f) True fun st' a => KnAsset G st' a (if u then v else w) := by
  refine (select_gad hb ht.id hf.id).seq fun i st1 l1 hi =>
    (select_gad (hb.up l1) (ht.value.up l1) (hf.value.up l1)).seq fun v st2 l2 hv => Gad.pure ?_
  have hi := hi.up l2
  cases u
  · exact ⟨hi, hv⟩
  · exact ⟨hi, hv⟩

/-! ## Merkle paths -/

theorem swap_gad {b x y : Lc p} {u : Bool} {v w : ZMod p} (hb : Kn G st b (fbit u)) (hx : Kn G st x v)
    (hy : Kn G st y w) :
    Gad G st (lift fun cs => gSwap cs b x y) True fun st' c =>
      Kn G st' c.1 (if u then w else v) ∧ Kn G st' c.2 (if u then v else w) := by
  have e : (lift fun cs => gSwap cs b x y : B p (Lc p × Lc p)) =
      (do let c ← lift fun cs => gSelect cs b y x
          let d ← lift fun cs => gSelect cs b x y
          pure (c, d)) := rfl
  rw [e]
  exact (select_gad hb hy hx).seq fun c st1 l1 hc => (select_gad (hb.up l1) (hx.up l1) (hy.up l1)).seq fun d st2 l2 hd =>
    Gad.pure ⟨hc.up l2, hd⟩

theorem join_gad {H : Hasher p} (hH : H.Ok 2) {b x y : Lc p} (i : Nat) {v w : ZMod p}
    (hb : Kn G st b (fbit (decide (i % 2 = 1)))) (hx : Kn G st x v) (hy : Kn G st y w) {β : Type} {f : Lc p → B p β}
    {φ : Prop} {Q : St p → β → Prop}
    (k : ∀ c st', Le G st G st' → Kn G st' c (if i % 2 = 0 then H.get [v, w] else H.get [w, v]) →
      Gad G st' (f c) φ Q) :
    Gad G st (do let lr ← lift fun cs => gSwap cs b x y
                 let c ← hashC H [lr.1, lr.2]
                 f c) φ Q := by
  refine (swap_gad hb hx hy).seq fun c st1 l1 hc =>
    (get_gad hH (.cons hc.1 (.cons hc.2 .nil)) rfl).seq fun d st2 l2 hd => k d st2 (l1.trans l2) ?_
  rcases Nat.mod_two_eq_zero_or_one i with h | h
  · simpa [h] using hd
  · simpa [h] using hd

theorem fold_gad (hH : P.node.Ok 2) {ds : List (Lc p)} {vs : List (ZMod p)} {bs : List (Lc p)} (i : Nat)
    (hb : KnL G st bs ((parentBits i vs.length).map fbit)) (hd : KnL G st ds vs) {acc : Lc p} {a : ZMod p}
    (ha : Kn G st acc a) :
    Gad G st (foldC P.node (bs.zip ds) acc) True fun st' c => Kn G st' c (Merkle.foldPath P.tree i a vs) := by
  induction vs generalizing st ds bs i acc a with
  | nil =>
    cases hd
    rw [List.zip_nil_right]
    exact Gad.pure ha
  | cons v vs ih =>
    cases hd with
    | cons hd ht =>
      simp only [List.length_cons, parentBits, List.map_cons] at hb
      cases hb with
      | cons hb hbs =>
        rw [List.zip_cons_cons]
        refine join_gad hH (i / 2) hb ha hd fun c st' l hc => ?_
        exact ih (i / 2) (hbs.up l) (ht.up l) hc

theorem verify_gad (hH : P.node.Ok 2) {w : PathV p} {v : Merkle.Path (ZMod p) (ZMod p)} (hw : KnPath G st w v)
    {root leaf : Lc p} {a b : ZMod p} (hr : Kn G st root a) (hl : Kn G st leaf b) :
    Gad G st (verifyC P.node w root leaf) True fun st' c => Kn G st' c (fbit (Merkle.Path.verify P.tree v a b)) := by
  refine join_gad hH v.leafIndex hw.leaf hl hw.sib fun c st1 l1 hc => ?_
  refine (fold_gad hH v.leafIndex (hw.inner.up l1) (hw.path.up l1) hc).seq fun d st2 l2 hd => ?_
  exact eq_gad (hr.up (l1.trans l2)) hd

/-! ## Senders -/

section

variable {sign : ZMod r → Verif.Transfer.Body (ty C R) → List Nat → R.Sig}
  {verifySig : C.E → Verif.Transfer.Body (ty C R) → List Nat → R.Sig → Bool}
  {prove : Transfer (ty C R) → Option R.Proof}

/-- Assets of the transfer as field elements. -/
def AssetOk (p : Nat) (a : Asset) : Prop := a.id < p ∧ a.value < p

theorem receivingKey_gad (hP : P.Ok) {pak : PtV p} {g : C.E} (hg : KnP C G st pak g) {cache : Option (PtV p)}
    (hc : ∀ k, cache = some k → KnP C G st k (Transfer.receivingKey (crypto P R sign verifySig prove) g)) :
    Gad G st (receivingKeyC P pak cache) True fun st' k =>
      KnP C G st' k (Transfer.receivingKey (crypto P R sign verifySig prove) g) := by
  cases cache with
  | some k => exact Gad.pure (hc k rfl)
  | none =>
    exact (get_gad hP.vk (.cons hg.1 (.cons hg.2 .nil)) rfl).seq fun k st1 l1 hk =>
      scalarMul_gad hP.rpos (KnP.const P.gen) hP.gen hk.scalar

theorem commit_gad (hP : P.Ok) {a : PlainV p} {v : Plain (ty C R)} (ha : KnPlain G st a v) {k : PtV p} {g : C.E}
    (hk : KnP C G st k g) :
    Gad G st (commitC P a k) True fun st' c =>
      Kn G st' c ((crypto P R sign verifySig prove).commit v.rand v.asset.id v.asset.value g) :=
  get_gad hP.cm (.cons ha.rand (.cons ha.asset.id (.cons ha.asset.value (.cons hk.1 (.cons hk.2 .nil))))) rfl

theorem sender_gad (hP : P.Ok) {pak : PtV p} {g : C.E} (hg : KnP C G st pak g) {cache : Option (PtV p)}
    (hc : ∀ k, cache = some k → KnP C G st k (Transfer.receivingKey (crypto P R sign verifySig prove) g))
    {s : SenderV p} {v : Sender (ty C R)} (hs : KnSender G st s v) (h1 : AssetOk p v.plain.asset)
    (h2 : AssetOk p v.utxo.pubAsset) :
    Gad G st (senderC P pak cache s) ((Transfer.senderWF (crypto P R sign verifySig prove) g v).2 = true) fun st' o =>
      KnAsset G st' o.1 (Transfer.senderWF (crypto P R sign verifySig prove) g v).1 ∧
      KnP C G st' o.2 (Transfer.receivingKey (crypto P R sign verifySig prove) g) := by
  have hval : (Transfer.selectAsset v.utxo v.plain).value < p := by
    unfold Transfer.selectAsset
    split
    · exact h2.2
    · exact h1.2
  refine ((isEmpty_gad hs.plain.asset h1.1 h1.2).seq fun e st1 l1 he =>
    (assertEqB_gad (hs.utxo.transparent.up l1) he).bind fun _ st2 l2 _ =>
    (selectAsset_gad (hs.utxo.transparent.up (l1.trans l2)) (hs.utxo.pubAsset.up (l1.trans l2))
      (hs.plain.asset.up (l1.trans l2))).seq fun asset st3 l3 ha =>
    (receivingKey_gad hP (hg.up ((l1.trans l2).trans l3)) (fun k hk => (hc k hk).up ((l1.trans l2).trans l3))).seq
      fun rk st4 l4 hrk =>
    (commit_gad (sign := sign) (verifySig := verifySig) (prove := prove) hP
      (hs.plain.up (((l1.trans l2).trans l3).trans l4)) hrk).seq fun cm st5 l5 hcm =>
    (assertEqF_gad (hs.utxo.cm.up ((((l1.trans l2).trans l3).trans l4).trans l5)) hcm).bind fun _ st6 l6 _ =>
    (?_ : Gad G st6 _ ((decide ((Transfer.selectAsset v.utxo v.plain).value = 0) ||
        (crypto P R sign verifySig prove).member ((crypto P R sign verifySig prove).item v.utxo) v.wit v.root) = true ∧
        v.nul.cm = (crypto P R sign verifySig prove).nullCommit g ((crypto P R sign verifySig prove).item v.utxo))
        _)).imp ?_ fun _ _ _ h => h
  · have L := ((((l1.trans l2).trans l3).trans l4).trans l5).trans l6
    refine (get_gad hP.item (.cons (hs.utxo.transparent.up L) (.cons (hs.utxo.pubAsset.id.up L)
      (.cons (hs.utxo.pubAsset.value.up L) (.cons (hs.utxo.cm.up L) .nil)))) rfl).seq fun item st7 l7 hitem => ?_
    have A := (ha.up ((l4.trans l5).trans (l6.trans l7)))
    refine (isZero_gad hval A.value).seq fun zero st8 l8 hz => ?_
    refine (verify_gad hP.node (hs.wit.up (L.trans (l7.trans l8))) (hs.root.up (L.trans (l7.trans l8)))
      (hitem.up l8)).seq fun mem st9 l9 hm => ?_
    refine (or_gad (hz.up l9) hm).seq fun valid st10 l10 hv => ?_
    refine (assert_gad hv).bind fun _ st11 l11 _ => ?_
    have M := L.trans (l7.trans (l8.trans (l9.trans (l10.trans l11))))
    refine (get_gad hP.nul (.cons (hg.1.up M) (.cons (hg.2.up M)
      (.cons (hitem.up (l8.trans (l9.trans (l10.trans l11)))) .nil))) rfl).seq fun nul st12 l12 hn => ?_
    refine ((assertEqF_gad (hs.nul.up (M.trans l12)) hn).bind fun _ st13 l13 _ => Gad.pure ⟨?_, ?_⟩).imp ?_
      fun _ _ _ h => h
    · simp only [and_true]
    · exact A.up (l8.trans (l9.trans (l10.trans (l11.trans (l12.trans l13)))))
    · exact hrk.up (l5.trans (l6.trans (l7.trans (l8.trans (l9.trans (l10.trans (l11.trans (l12.trans l13))))))))
  · simp only [Transfer.senderWF, Bool.and_eq_true, decide_eq_true_eq]
    constructor
    · rintro ⟨a, b, c, d⟩
      exact ⟨⟨⟨a, b⟩, c⟩, d⟩
    · rintro ⟨⟨⟨a, b⟩, c⟩, d⟩
      exact ⟨a, b, c, d⟩


/-! ## Loops -/

theorem KnO.up' {O O' : Type} {K : St p → O → O' → Prop}
    (hK : ∀ st st' x v, Le G st G st' → K st x v → K st' x v) {st st' : St p} (l : Le G st G st') {xs : List O}
    {vs : List O'} (h : KnO K st xs vs) : KnO K st' xs vs := by
  induction h with
  | nil => exact .nil
  | cons h _ ih => exact .cons (hK _ _ _ _ l h) ih

theorem mapB_gad {O O' O'' : Type} {K : St p → O → O' → Prop} {Q : St p → O'' → O' → Prop} {f : O → B p O''}
    {φ : O' → Prop} (hK : ∀ st st' x v, Le G st G st' → K st x v → K st' x v)
    (hQ : ∀ st st' x v, Le G st G st' → Q st x v → Q st' x v)
    (hf : ∀ st x v, K st x v → Gad G st (f x) (φ v) fun st' y => Q st' y v) {xs : List O} {vs : List O'}
    (h : KnO K st xs vs) : Gad G st (mapB f xs) (∀ v ∈ vs, φ v) fun st' ys => KnO Q st' ys vs := by
  induction vs generalizing st xs with
  | nil =>
    cases h
    exact (Gad.pure (Q := fun st' ys => KnO Q st' ys []) KnO.nil).imp (by simp) fun _ _ _ h => h
  | cons v vs ih =>
    cases h with
    | cons h hs =>
      refine ((hf st _ v h).bind fun y st1 l1 hy => (ih (hs.up' hK l1)).bind fun ys st2 l2 hys =>
        Gad.pure (Q := fun st' ys => KnO Q st' ys (v :: vs)) (KnO.cons (hQ _ _ _ _ l2 hy) hys)).imp ?_ fun _ _ _ h => h
      simp

theorem KnL.zip {xs ys : List (Lc p)} {vs ws : List (ZMod p)} (h : KnL G st xs vs) (g : KnL G st ys ws) :
    KnO (fun st (x : Lc p × Lc p) (v : ZMod p × ZMod p) => Kn G st x.1 v.1 ∧ Kn G st x.2 v.2) st (xs.zip ys)
      (vs.zip ws) := by
  induction h generalizing ys ws with
  | nil => exact .nil
  | cons h _ ih =>
    cases g with
    | nil => exact .nil
    | cons g gs => exact .cons ⟨h, g⟩ (ih gs)

theorem KnB.zip {xs ys : List (List (Lc p))} {vs ws : List (List (ZMod p))} (h : KnB G st xs vs) (g : KnB G st ys ws) :
    KnO (fun st (x : List (Lc p) × List (Lc p)) (v : List (ZMod p) × List (ZMod p)) =>
      KnL G st x.1 v.1 ∧ KnL G st x.2 v.2) st (xs.zip ys) (vs.zip ws) := by
  induction h generalizing ys ws with
  | nil => exact .nil
  | cons h _ ih =>
    cases g with
    | nil => exact .nil
    | cons g gs => exact .cons ⟨h, g⟩ (ih gs)

theorem zip_eq {α : Type} {vs ws : List α} (h : vs.length = ws.length) : (∀ v ∈ vs.zip ws, v.1 = v.2) ↔ vs = ws := by
  induction vs generalizing ws with
  | nil =>
    cases ws with
    | nil => simp
    | cons _ _ => simp at h
  | cons v vs ih =>
    cases ws with
    | nil => simp at h
    | cons w ws =>
      rw [List.zip_cons_cons, List.forall_mem_cons, ih (by simpa using h), List.cons.injEq]

/-- A false assertion. -/
theorem assertFalse_gad : Gad G st (lift fun cs => (gAssert cs (fun _ => 0), ())) False fun _ _ => True :=
  (assert_gad (u := false) (Kn.const G st 0)).imp (by simp) fun _ _ _ h => h

theorem assertBlock_gad {xs ys : List (Lc p)} {vs ws : List (ZMod p)} (h : KnL G st xs vs) (g : KnL G st ys ws) :
    Gad G st (assertBlock xs ys) (vs = ws) fun _ _ => True := by
  unfold assertBlock
  by_cases e : xs.length = ys.length
  · rw [if_neg (by simpa using e)]
    have e' : vs.length = ws.length := by rw [← h.length, ← g.length, e]
    refine ((mapB_gad (Q := fun _ _ _ => True) (φ := fun v => v.1 = v.2) ?_ (fun _ _ _ _ _ h => h) ?_ (h.zip g)).bind
      fun _ _ _ _ => Gad.pure trivial).imp ?_ fun _ _ _ h => h
    · exact fun st st' x v l h => ⟨h.1.up l, h.2.up l⟩
    · exact fun st x v h => assertEqF_gad h.1 h.2
    · rw [and_true, zip_eq e']
  · rw [if_pos e]
    refine assertFalse_gad.imp ?_ fun _ _ _ h => h
    constructor
    · exact False.elim
    · intro hv
      exact e (by rw [h.length, g.length, hv])

theorem assertNote_gad {a b : NoteV p} {v w : C.E × ZMod p × List (List (ZMod p))} (ha : KnNote C G st a v)
    (hb : KnNote C G st b w) (hl : v.2.2.length = w.2.2.length) :
    Gad G st (assertNote a b) (v = w) fun _ _ => True := by
  refine ((assertEqPt_gad ha.epk hb.epk).bind fun _ st1 l1 _ => (assertEqF_gad (ha.tag.up l1) (hb.tag.up l1)).bind
    fun _ st2 l2 _ => (mapB_gad (Q := fun _ _ _ => True) (φ := fun v => v.1 = v.2) ?_ (fun _ _ _ _ _ h => h) ?_
      ((ha.blocks.up (l1.trans l2)).zip (hb.blocks.up (l1.trans l2)))).bind fun _ _ _ _ => Gad.pure trivial).imp ?_
        fun _ _ _ h => h
  · exact fun st st' x v l h => ⟨h.1.up l, h.2.up l⟩
  · exact fun st x v h => assertBlock_gad h.1 h.2
  · obtain ⟨v1, v2, v3⟩ := v
    obtain ⟨w1, w2, w3⟩ := w
    simp only [and_true, Prod.mk.injEq]
    rw [zip_eq hl]

/-! ## Receivers -/

theorem encrypt_length (hP : P.Ok) (u v i j k : ZMod p) :
    ((P.duplexer.encrypt [u, v] [] [[i, j, k]]).getD (0, [])).2.length = 1 := by
  have hcomp := permute_computes (P := P) hP (fun _ => True)
  have hlen : ∀ vs, vs.length = 4 → (P.duplexer.perm vs).length = 4 := fun vs h =>
    (hcomp St.empty _ vs (KnL.consts _ St.empty vs) h).1
  obtain ⟨os, s1, e1, l1⟩ := absorb_some (w := 4) (by omega) hlen (write := Cipher.writeSetup)
    (fun c vs us h => ⟨(), by simp only [Cipher.writeSetup, h]⟩) [[u, v, 0], [0, 0, 0]] (by simp) P.encInit hP.encInit
  obtain ⟨cs, s2, e2, l2⟩ := absorb_some (w := 4) (by omega) hlen (write := Cipher.writePlain)
    (fun c vs us h => ⟨us, by simp only [Cipher.writePlain, h]⟩) [[i, j, k]] (by simp) s1 l1
  obtain ⟨t, ht⟩ : ∃ t, s2[1]? = some t := ⟨_, List.getElem?_eq_getElem (by omega)⟩
  have enc : P.duplexer.encrypt [u, v] [] [[i, j, k]] = some (t, cs) := by
    have hw : P.duplexer.width = 4 := hP.encWidth
    have hi : P.duplexer.initial = P.encInit := rfl
    simp only [Cipher.Duplexer.encrypt, Cipher.Duplexer.setup, hw, hi, setupBlocks_two, e1, e2, ht]
  rw [enc]
  show cs.length = 1
  unfold Cipher.absorbAll at e2
  cases hwp : Cipher.absorb Cipher.writePlain P.duplexer.perm [i, j, k] s1 with
  | none => rw [hwp] at e2; simp at e2
  | some o =>
    rw [hwp] at e2
    simp only [Cipher.absorbAll, Option.some.injEq, Prod.mk.injEq] at e2
    rw [← e2.1]
    rfl

theorem note_gad (hP : P.Ok) {rk : PtV p} {g : C.E} (hk : KnP C G st rk g) (hg : r • g = 0) {esk : Lc p} {e : ZMod r}
    (he : KnS r G st esk e) {a : PlainV p} {v : Plain (ty C R)} (ha : KnPlain G st a v) :
    Gad G st (noteC P rk esk a) True fun st' n => KnNote C G st' n (P.encIn g e v.rand v.asset) := by
  refine (scalarMul_gad hP.rpos (KnP.const P.gen) hP.gen he).seq fun epk st1 l1 h1 =>
    (scalarMul_gad hP.rpos (hk.up l1) hg (he.up l1)).seq fun k st2 l2 h2 => ?_
  have A := ha.up (l1.trans l2)
  exact (encrypt_gad hP h2.1 h2.2 A.rand A.asset.id A.asset.value).seq fun c st3 l3 h3 =>
    Gad.pure ⟨h1.up (l2.trans l3), h3.1, h3.2⟩

theorem receiver_gad (hP : P.Ok) {a : ReceiverV p} {v : Receiver (ty C R)} (hs : KnReceiver G st a v)
    (h1 : AssetOk p v.plain.asset) (hg : r • v.rk = 0) (hb : v.note.inote.2.2.length = 1) :
    Gad G st (receiverC P a) ((Transfer.receiverWF (crypto P R sign verifySig prove) v).2 = true) fun st' o =>
      KnAsset G st' o (Transfer.receiverWF (crypto P R sign verifySig prove) v).1 := by
  refine ((isEmpty_gad hs.plain.asset h1.1 h1.2).seq fun e st1 l1 he =>
    (assertEqB_gad (hs.utxo.transparent.up l1) he).bind fun _ st2 l2 _ =>
    (selectAsset_gad (hs.utxo.transparent.up (l1.trans l2)) (hs.utxo.pubAsset.up (l1.trans l2))
      (hs.plain.asset.up (l1.trans l2))).seq fun asset st3 l3 ha =>
    (commit_gad (sign := sign) (verifySig := verifySig) (prove := prove) hP
      (hs.plain.up ((l1.trans l2).trans l3)) (hs.rk.up ((l1.trans l2).trans l3))).seq fun cm st4 l4 hcm =>
    (assertEqF_gad (hs.utxo.cm.up (((l1.trans l2).trans l3).trans l4)) hcm).bind fun _ st5 l5 _ =>
    (note_gad hP (hs.rk.up ((((l1.trans l2).trans l3).trans l4).trans l5)) hg
      (hs.irand.up ((((l1.trans l2).trans l3).trans l4).trans l5))
      (hs.plain.up ((((l1.trans l2).trans l3).trans l4).trans l5))).seq fun n st6 l6 hn =>
    (assertNote_gad (hs.note.up (((((l1.trans l2).trans l3).trans l4).trans l5).trans l6)) hn ?_).bind fun _ st7 l7 _ =>
    Gad.pure (ha.up ((l4.trans l5).trans (l6.trans l7)))).imp ?_ fun _ _ _ h => h
  · rw [hb]
    exact (encrypt_length hP _ _ _ _ _).symm
  · simp only [Transfer.receiverWF, Bool.and_eq_true, decide_eq_true_eq, and_true]
    constructor
    · rintro ⟨a, b, c⟩
      exact ⟨⟨a, b⟩, c⟩
    · rintro ⟨⟨a, b⟩, c⟩
      exact ⟨a, b, c⟩

/-! ## Sums -/

/-- The step of `value_sum`. -/
theorem sum_flag (p : Nat) (vs : List Nat) (n : Nat) (b : Bool) :
    vs.foldl (fun acc r => ((Transfer.addU p acc.1 r).1, acc.2 && (Transfer.addU p acc.1 r).2)) (n, b) =
      ((vs.foldl (fun acc r => ((Transfer.addU p acc.1 r).1, acc.2 && (Transfer.addU p acc.1 r).2)) (n, true)).1,
       b && (vs.foldl (fun acc r => ((Transfer.addU p acc.1 r).1, acc.2 && (Transfer.addU p acc.1 r).2)) (n, true)).2) := by
  induction vs generalizing n b with
  | nil => simp
  | cons v vs ih =>
    simp only [List.foldl_cons]
    rw [ih _ (b && _), ih _ (true && _)]
    simp [Bool.and_assoc]

theorem sumFrom_gad (hp : 128 < numBits p) (A : Ark p) {xs : List (Lc p)} {vs : List Nat}
    (h : KnL G st xs (vs.map fun n : Nat => (n : ZMod p))) {acc : Lc p} {n : Nat} (hn : n < p)
    (ha : Kn G st acc (n : ZMod p)) :
    ((vs.foldl (fun acc r => ((Transfer.addU p acc.1 r).1, acc.2 && (Transfer.addU p acc.1 r).2)) (n, true)).1 < p) ∧
    Gad G st (sumFromC A acc xs)
      ((vs.foldl (fun acc r => ((Transfer.addU p acc.1 r).1, acc.2 && (Transfer.addU p acc.1 r).2)) (n, true)).2 = true)
      fun st' c => Kn G st' c
        (((vs.foldl (fun acc r => ((Transfer.addU p acc.1 r).1, acc.2 && (Transfer.addU p acc.1 r).2)) (n, true)).1 : Nat) :
          ZMod p) := by
  induction vs generalizing st xs acc n with
  | nil =>
    cases h
    exact ⟨hn, (Gad.pure (Q := fun st' c => Kn G st' c (n : ZMod p)) ha).imp (by simp) fun _ _ _ h => h⟩
  | cons v vs ih =>
    rw [List.map_cons] at h
    cases h with
    | cons h hs =>
      have hp0 : 0 < p := (Fact.out : p.Prime).pos
      have hlt : (n + v) % p < p := Nat.mod_lt _ hp0
      have e : ((n : ZMod p) + (v : ZMod p)) = (((n + v) % p : Nat) : ZMod p) := by
        rw [ZMod.natCast_mod, Nat.cast_add]
      have hadd := uNew_gad A hp (ha.comp₂ h (· + ·))
      simp only [e] at hadd
      rw [List.foldl_cons, sum_flag]
      simp only [Bool.true_and]
      refine ⟨(ih (hs) hlt (Kn.const G st _)).1, (hadd.bind fun c st1 l1 hc => (ih (hs.up l1) hlt hc).2).imp ?_
        fun _ _ _ h => h⟩
      rw [Bool.and_eq_true, ZMod.val_natCast, Nat.mod_mod]
      simp only [Transfer.addU, Transfer.inRange, decide_eq_true_eq]

theorem valueSum_gad (hp : 128 < numBits p) (A : Ark p) {xs : List (Lc p)} {vs : List Nat}
    (h : KnL G st xs (vs.map fun n : Nat => (n : ZMod p))) (hv : ∀ v ∈ vs, v < p) {s : Nat} {ok : Bool}
    (e : Transfer.valueSum p vs = some (s, ok)) :
    s < p ∧ Gad G st (valueSumC A xs) (ok = true) fun st' c => Kn G st' c (s : ZMod p) := by
  cases vs with
  | nil => simp [Transfer.valueSum] at e
  | cons v vs =>
    rw [List.map_cons] at h
    cases h with
    | cons h hs =>
      simp only [Transfer.valueSum, Option.some.injEq] at e
      have := sumFrom_gad hp A hs (hv v (by simp)) h
      rw [e] at this
      exact this

theorem KnO.values {as : List (AssetV p)} {vs : List Asset} (h : KnO (fun st a v => KnAsset G st a v) st as vs) :
    KnL G st (as.map AssetV.value) (vs.map fun a => (a.value : ZMod p)) := by
  induction h with
  | nil => exact .nil
  | cons h _ ih => exact .cons h.value ih

theorem KnO.ids {as : List (AssetV p)} {vs : List Asset} (h : KnO (fun st a v => KnAsset G st a v) st as vs) :
    KnL G st (as.map AssetV.id) (vs.map fun a => (a.id : ZMod p)) := by
  induction h with
  | nil => exact .nil
  | cons h _ ih => exact .cons h.id ih

theorem allEqTo_gad {b : Lc p} {n : Nat} (hn : n < p) (hb : Kn G st b (n : ZMod p)) {xs : List (Lc p)} {vs : List Nat}
    (h : KnL G st xs (vs.map fun n : Nat => (n : ZMod p))) (hv : ∀ v ∈ vs, v < p) :
    Gad G st (allEqToC b xs) (Transfer.allEqTo n vs = true) fun _ _ => True := by
  unfold allEqToC
  refine (Gad.bind (?_ : Gad G st (mapB (fun x => assertEqF b x) xs) (∀ v ∈ vs, n = v) fun _ _ => True)
    fun _ _ _ _ => Gad.pure trivial).imp ?_ fun _ _ _ h => h
  · induction vs generalizing st xs with
    | nil =>
      cases h
      exact (Gad.pure trivial).imp (by simp) fun _ _ _ h => h
    | cons v vs ih =>
      rw [List.map_cons] at h
      cases h with
      | cons h hs =>
        refine ((assertEqF_gad hb h).bind fun _ st1 l1 _ => (ih (hb.up l1) (hs.up l1)
          (fun v hv' => hv v (by simp [hv']))).bind fun _ _ _ _ => Gad.pure trivial).imp ?_ fun _ _ _ h => h
        rw [and_true, List.forall_mem_cons, cast_inj hn (hv v (by simp))]
  · simp [Transfer.allEqTo]

theorem allEq_gad {xs : List (Lc p)} {vs : List Nat} (h : KnL G st xs (vs.map fun n : Nat => (n : ZMod p)))
    (hv : ∀ v ∈ vs, v < p) : Gad G st (allEqC xs) (Transfer.allEq vs = true) fun _ _ => True := by
  cases vs with
  | nil =>
    cases h
    exact (Gad.pure trivial).imp (by simp [Transfer.allEq]) fun _ _ _ h => h
  | cons v vs =>
    rw [List.map_cons] at h
    cases h with
    | cons h hs => exact allEqTo_gad (hv v (by simp)) h hs fun v hv' => hv v (by simp [hv'])

end

end Verif.Circuit
