import Verif.Circuit.Model
import Verif.Poseidon.PermProps

/-!
# Poseidon and the sponge in the circuit compute what they compute outside
-/

namespace Verif.Circuit

open Verif.Gadget

set_option linter.unusedSectionVars false

variable {p r : Nat} [Fact p.Prime] {G : Asg p → Prop} {st : St p}

theorem pow_gad {x : Lc p} {v : ZMod p} (e : Nat) (he : 1 ≤ e) (hx : Kn G st x v) :
    Gad G st (powC x e) True fun st' c => Kn G st' c (v ^ e) := by
  induction e using Nat.strongRecOn with
  | _ e ih =>
    unfold powC
    by_cases h : e ≤ 1
    · rw [dif_pos h]
      have : e = 1 := by omega
      subst this
      exact Gad.pure (by rw [pow_one]; exact hx)
    · rw [dif_neg h]
      have e1 : v ^ (e / 2) * v ^ (e / 2) = v ^ (2 * (e / 2)) := by rw [← pow_add]; congr 1; omega
      refine ((ih (e / 2) (by omega) (by omega)).bind fun a st' l ha => (mul_gad ha ha).bind fun s st'' l' hs =>
        (?_ : Gad G st'' _ True fun st' c => Kn G st' c (v ^ e))).imp (by simp) fun _ _ _ h => h
      by_cases h2 : e % 2 = 1
      · rw [if_pos h2]
        refine (mul_gad hs (hx.up (l.trans l'))).imp Iff.rfl fun st3 c _ hc => ?_
        have : v ^ e = v ^ (e / 2) * v ^ (e / 2) * v := by
          rw [e1, ← pow_succ]
          congr 1
          omega
        rw [this]
        exact hc
      · rw [if_neg h2]
        refine Gad.pure ?_
        have : v ^ e = v ^ (e / 2) * v ^ (e / 2) := by
          rw [e1]
          congr 1
          omega
        rw [this]
        exact hs

theorem collect_cons {α : Type} {x : Option α} {l : List (Option α)} {r : List α}
    (h : Poseidon.collect (x :: l) = some r) :
    ∃ a as, x = some a ∧ Poseidon.collect l = some as ∧ r = a :: as := by
  cases x with
  | none => simp [Poseidon.collect] at h
  | some a =>
    simp only [Poseidon.collect, Option.map_eq_some_iff] at h
    obtain ⟨as, h1, h2⟩ := h
    exact ⟨a, as, rfl, h1, h2.symm⟩

/-- Pointwise maps with indices that may panic. -/
theorem collect_known {xs : List (Lc p)} {vs : List (ZMod p)} (h : KnL G st xs vs) (k : Nat)
    (g : Nat → Option (ZMod p)) (f : ZMod p → ZMod p → ZMod p) {ws : List (ZMod p)}
    (hw : Poseidon.collect ((vs.zipIdx k).map fun ej => (g ej.2).map fun m => f ej.1 m) = some ws) :
    ∃ ys, Poseidon.collect ((xs.zipIdx k).map fun ej => (g ej.2).map fun m => (fun z => f (ej.1 z) m : Lc p)) = some ys ∧
      KnL G st ys ws := by
  induction h generalizing k ws with
  | nil =>
    simp [Poseidon.collect] at hw
    subst hw
    exact ⟨[], rfl, .nil⟩
  | @cons x v xs vs h t ih =>
    simp only [List.zipIdx_cons, List.map_cons] at hw
    obtain ⟨a, as, h1, h2, rfl⟩ := collect_cons hw
    obtain ⟨ys, e, hk⟩ := ih (k + 1) h2
    obtain ⟨m, hm, rfl⟩ := Option.map_eq_some_iff.1 h1
    refine ⟨(fun z => f (x z) m) :: ys, ?_, .cons (h.comp fun y => f y m) hk⟩
    simp only [List.zipIdx_cons, List.map_cons, hm, Option.map_some, Poseidon.collect, e]

theorem foldl_known {xs : List (Lc p)} {vs : List (ZMod p)} (h : KnL G st xs vs) {x : Lc p} {v : ZMod p}
    (hx : Kn G st x v) :
    Kn G st (xs.foldl (fun acc next => gAdd acc next) x) (vs.foldl (fun acc next => acc + next) v) := by
  induction h generalizing x v with
  | nil => exact hx
  | cons h _ ih => exact ih (hx.comp₂ h fun a b => a + b)

theorem collect_rows {α : Type} {f : α → Option (ZMod p)} {g : α → Option (Lc p)} {l : List α} {ws : List (ZMod p)}
    (hw : Poseidon.collect (l.map f) = some ws) (h : ∀ i ∈ l, ∀ w, f i = some w → ∃ y, g i = some y ∧ Kn G st y w) :
    ∃ ys, Poseidon.collect (l.map g) = some ys ∧ KnL G st ys ws := by
  induction l generalizing ws with
  | nil =>
    simp [Poseidon.collect] at hw
    subst hw
    exact ⟨[], rfl, .nil⟩
  | cons i l ih =>
    simp only [List.map_cons] at hw
    obtain ⟨a, as, h1, h2, rfl⟩ := collect_cons hw
    obtain ⟨ys, e, hk⟩ := ih h2 fun i hi => h i (by simp [hi])
    obtain ⟨y, hy, ky⟩ := h i (by simp) a h1
    exact ⟨y :: ys, by simp [hy, Poseidon.collect, e], .cons ky hk⟩

theorem mds_known (c : Poseidon.Consts) (perm : Poseidon.Perm (ZMod p)) {xs : List (Lc p)} {vs ws : List (ZMod p)}
    (h : KnL G st xs vs) (hw : Poseidon.mdsMultiply c perm vs = some ws) :
    ∃ ys, mdsC c perm xs = some ys ∧ KnL G st ys ws := by
  refine collect_rows hw fun i _ w hi => ?_
  obtain ⟨l, h1, h2⟩ := Option.bind_eq_some_iff.1 hi
  obtain ⟨ys, e, hk⟩ := collect_known h 0 (fun j => perm.mds[c.width * i + j]?) (fun a b => a * b) h1
  rw [e]
  cases hk with
  | nil => simp [Poseidon.reduceAdd] at h2
  | cons hx ht =>
    simp only [Poseidon.reduceAdd, Option.some.injEq] at h2
    subst h2
    exact ⟨_, rfl, foldl_known ht hx⟩

theorem keys_gad (keys : List (ZMod p)) (e : Nat) (he : 1 ≤ e) {xs : List (Lc p)} {vs ws : List (ZMod p)} (k : Nat)
    (h : KnL G st xs vs)
    (hw : Poseidon.collect ((vs.zipIdx k).map fun ei => (keys[ei.2]?).map fun k => (ei.1 + k) ^ e) = some ws) :
    Gad G st (mapB (fun ei : Lc p × Nat => do
        let k ← ofOption keys[ei.2]?
        powC (fun z => ei.1 z + k) e) (xs.zipIdx k)) True fun st' ys => KnL G st' ys ws := by
  induction xs generalizing st vs ws k with
  | nil =>
    cases h
    simp [Poseidon.collect] at hw
    subst hw
    exact Gad.pure .nil
  | cons x xs ih =>
    cases h with
    | @cons _ v _ vs h t =>
      simp only [List.zipIdx_cons, List.map_cons] at hw
      obtain ⟨a, as, h1, h2, rfl⟩ := collect_cons hw
      obtain ⟨m, hm, rfl⟩ := Option.map_eq_some_iff.1 h1
      rw [List.zipIdx_cons]
      refine Gad.seq (Q := fun st' y => Kn G st' y ((v + m) ^ e))
        (Gad.option hm (pow_gad e he (h.comp fun y => y + m))) fun y st2 l2 hy =>
          (ih (k + 1) (t.up l2) h2).seq fun ys st3 l3 hys => Gad.pure (.cons (hy.up l3) hys)

theorem fullRound_gad (c : Poseidon.Consts) (e : Nat) (he : 1 ≤ e) (perm : Poseidon.Perm (ZMod p)) (i : Nat)
    {xs : List (Lc p)} {vs ws : List (ZMod p)} (h : KnL G st xs vs)
    (hw : Poseidon.fullRound c (fun x => x ^ e) perm i vs = some ws) :
    Gad G st (fullRoundC c e perm i xs) True fun st' ys => KnL G st' ys ws := by
  obtain ⟨keys, hk, h1⟩ := Option.bind_eq_some_iff.1 hw
  obtain ⟨us, h2, h3⟩ := Option.bind_eq_some_iff.1 h1
  refine Gad.option hk ((keys_gad keys e he 0 h h2).seq fun ys st1 l1 hy => ?_)
  obtain ⟨ts, h4, h5⟩ := mds_known c perm hy h3
  exact Gad.some h4 h5

theorem partialRound_gad (c : Poseidon.Consts) (e : Nat) (he : 1 ≤ e) (perm : Poseidon.Perm (ZMod p)) (i : Nat)
    {xs : List (Lc p)} {vs ws : List (ZMod p)} (h : KnL G st xs vs)
    (hw : Poseidon.partialRound c (fun x => x ^ e) perm i vs = some ws) :
    Gad G st (partialRoundC c e perm i xs) True fun st' ys => KnL G st' ys ws := by
  obtain ⟨keys, hk, h1⟩ := Option.bind_eq_some_iff.1 hw
  obtain ⟨us, h2, h3⟩ := Option.bind_eq_some_iff.1 h1
  obtain ⟨ys, h4, h5⟩ := collect_known h 0 (fun j => keys[j]?) (fun a b => a + b) h2
  refine Gad.option hk (Gad.option h4 ?_)
  cases h5 with
  | nil => simp at h3
  | cons hx ht =>
    refine (pow_gad e he hx).seq fun y st1 l1 hy => ?_
    obtain ⟨ts, h6, h7⟩ := mds_known c perm (.cons hy (ht.up l1)) h3
    exact Gad.some h6 h7

theorem loopRounds_none {f : Nat → List (ZMod p) → Option (List (ZMod p))} (is : List Nat) :
    is.foldl (fun acc r => acc.bind (f r)) none = none := by
  induction is with
  | nil => rfl
  | cons i is ih => exact ih

theorem rounds_gad {f : Nat → List (ZMod p) → Option (List (ZMod p))} {g : Nat → List (Lc p) → B p (List (Lc p))}
    (hg : ∀ (st : St p) i xs vs ws, KnL G st xs vs → f i vs = some ws →
      Gad G st (g i xs) True fun st' ys => KnL G st' ys ws) (is : List Nat)
    {xs : List (Lc p)} {vs ws : List (ZMod p)} (h : KnL G st xs vs) (hw : Poseidon.loopRounds f is vs = some ws) :
    Gad G st (roundsC g is xs) True fun st' ys => KnL G st' ys ws := by
  induction is generalizing st xs vs with
  | nil =>
    simp only [Poseidon.loopRounds, List.foldl_nil, Option.some.injEq] at hw
    subst hw
    exact Gad.pure h
  | cons i is ih =>
    simp only [Poseidon.loopRounds, List.foldl_cons, Option.bind_some] at hw
    cases hi : f i vs with
    | none => rw [hi, loopRounds_none] at hw; simp at hw
    | some us =>
      rw [hi] at hw
      exact (hg st i xs vs us h hi).seq fun ys st1 _ hy => ih hy hw

theorem permuteRest_gad (c : Poseidon.Consts) (e : Nat) (he : 1 ≤ e) (perm : Poseidon.Perm (ZMod p))
    {xs : List (Lc p)} {vs ws : List (ZMod p)} (h : KnL G st xs vs)
    (hw : Poseidon.permuteRest c (fun x => x ^ e) perm vs = some ws) :
    Gad G st (permuteRestC c e perm xs) True fun st' ys => KnL G st' ys ws := by
  obtain ⟨s2, h1, h3⟩ := Option.bind_eq_some_iff.1 hw
  obtain ⟨s1, h1, h2⟩ := Option.bind_eq_some_iff.1 h1
  refine (rounds_gad (fun st i xs vs ws h hw => fullRound_gad c e he perm i h hw) _ h h1).seq fun ys st1 _ hy =>
    (rounds_gad (fun st i xs vs ws h hw => partialRound_gad c e he perm i h hw) _ hy h2).seq fun ys st1 _ hy =>
      rounds_gad (fun st i xs vs ws h hw => fullRound_gad c e he perm i h hw) _ hy h3

theorem permute_gad (c : Poseidon.Consts) (e : Nat) (he : 1 ≤ e) (perm : Poseidon.Perm (ZMod p))
    {xs : List (Lc p)} {vs ws : List (ZMod p)} (h : KnL G st xs vs)
    (hw : Poseidon.permute c (fun x => x ^ e) perm vs = some ws) :
    Gad G st (permuteC c e perm xs) True fun st' ys => KnL G st' ys ws := by
  obtain ⟨s1, h1, h2⟩ := Option.bind_eq_some_iff.1 hw
  exact (fullRound_gad c e he perm 0 h h1).seq fun ys st1 _ hy => permuteRest_gad c e he perm hy h2

/-- Hashing in the circuit is hashing with the tag of the type. -/
theorem hash_gad (H : Hasher p) (he : 1 ≤ H.expo) {xs : List (Lc p)} {vs : List (ZMod p)} {v : ZMod p}
    (h : KnL G st xs vs) (hv : Poseidon.hash H.c (fun x => x ^ H.expo) H.perm H.ownTag vs = some v) :
    Gad G st (hashC H xs) True fun st' y => Kn G st' y v := by
  obtain ⟨s2, h1, h2⟩ := Option.bind_eq_some_iff.1 hv
  obtain ⟨s1, h1, h3⟩ := Option.bind_eq_some_iff.1 h1
  obtain ⟨s0, h0, h1⟩ := Option.bind_eq_some_iff.1 h1
  refine (keys_gad H.perm.keys H.expo he 0 (.cons (Kn.const G st H.ownTag) h) h0).seq fun ys st1 _ hy => ?_
  obtain ⟨ts, h4, h5⟩ := mds_known H.c H.perm hy h1
  refine Gad.option h4 ((permuteRest_gad H.c H.expo he H.perm h5 h3).seq fun ys st2 _ hy => ?_)
  cases hy with
  | nil => simp at h2
  | cons hx _ =>
    simp only [List.head?_cons, Option.some.injEq] at h2
    subst h2
    exact Gad.some rfl hx

/-! ## Sponge -/

theorem addBlock_known {xs ys : List (Lc p)} {vs ws us : List (ZMod p)} (hx : KnL G st xs vs) (hy : KnL G st ys ws)
    (h : Cipher.addBlock vs ws = some us) : ∃ ts, Cipher.addBlock xs ys = some ts ∧ KnL G st ts us := by
  induction hx generalizing ys ws us with
  | nil =>
    simp [Cipher.addBlock] at h
    subst h
    exact ⟨[], by simp [Cipher.addBlock], .nil⟩
  | @cons x v xs vs hx _ ih =>
    cases hy with
    | nil => simp [Cipher.addBlock] at h
    | @cons y w ys ws hy hys =>
      simp only [Cipher.addBlock] at h
      cases h1 : Cipher.addBlock vs ws with
      | none => simp [h1] at h
      | some us' =>
        rw [h1] at h
        simp only [Option.some.injEq] at h
        subst h
        obtain ⟨ts, e, hk⟩ := ih hys h1
        exact ⟨(x + y) :: ts, by simp [Cipher.addBlock, e], .cons (hx.comp₂ hy fun a b => a + b) hk⟩

/-- Lists of lists of variables with known values. -/
inductive KnB (G : Asg p → Prop) (st : St p) : List (List (Lc p)) → List (List (ZMod p)) → Prop
  | nil : KnB G st [] []
  | cons {x : List (Lc p)} {v : List (ZMod p)} {xs : List (List (Lc p))} {vs : List (List (ZMod p))} :
      KnL G st x v → KnB G st xs vs → KnB G st (x :: xs) (v :: vs)

theorem KnB.up {G G' : Asg p → Prop} {st st' : St p} {xs : List (List (Lc p))} {vs : List (List (ZMod p))}
    (h : KnB G st xs vs) (l : Le G st G' st') : KnB G' st' xs vs := by
  induction h with
  | nil => exact .nil
  | cons h _ ih => exact .cons (h.up l) ih

theorem KnB_const (G : Asg p → Prop) (st : St p) (cs : List (List (ZMod p))) :
    KnB G st (cs.map fun c => c.map fun v _ => v) cs := by
  induction cs with
  | nil => exact .nil
  | cons c cs ih => exact .cons (KnL.consts G st c) ih

theorem addBlock_some {vs ws : List (ZMod p)} (h : vs.length ≤ ws.length) :
    ∃ us, Cipher.addBlock vs ws = some us ∧ us.length = vs.length := by
  induction vs generalizing ws with
  | nil => exact ⟨[], by simp [Cipher.addBlock], rfl⟩
  | cons v vs ih =>
    cases ws with
    | nil => simp at h
    | cons w ws =>
      obtain ⟨us, e, hl⟩ := ih (ws := ws) (by simpa using h)
      exact ⟨(v + w) :: us, by simp [Cipher.addBlock, e], by simp [hl]⟩

/-- A permutation in the circuit which computes `perm` on states of length `w`. -/
def Computes (G : Asg p → Prop) (w : Nat) (permC : List (Lc p) → B p (List (Lc p)))
    (perm : List (ZMod p) → List (ZMod p)) : Prop :=
  ∀ (st : St p) xs vs, KnL G st xs vs → vs.length = w → (perm vs).length = w ∧
    Gad G st (permC xs) True fun st' ys => KnL G st' ys (perm vs)

/-- Outputs of a write, with known values. -/
inductive KnO {O O' : Type} (K : St p → O → O' → Prop) (st : St p) : List O → List O' → Prop
  | nil : KnO K st [] []
  | cons {x : O} {v : O'} {xs : List O} {vs : List O'} : K st x v → KnO K st xs vs → KnO K st (x :: xs) (v :: vs)

theorem absorb_gad {O O' : Type} {K : St p → O → O' → Prop} (hK : ∀ st st' x v, Le G st G st' → K st x v → K st' x v)
    {writeC : List (Lc p) → List (Lc p) → Option (O × List (Lc p))}
    {write : List (ZMod p) → List (ZMod p) → Option (O' × List (ZMod p))} {w : Nat}
    (hw : ∀ (st : St p) b c xs vs o ws, KnL G st b c → KnL G st xs vs → vs.length = w → write c vs = some (o, ws) →
      ws.length = w ∧ ∃ o' ys, writeC b xs = some (o', ys) ∧ K st o' o ∧ KnL G st ys ws)
    {permC : List (Lc p) → B p (List (Lc p))} {perm : List (ZMod p) → List (ZMod p)} (hp : Computes G w permC perm)
    {bs : List (List (Lc p))} {cs : List (List (ZMod p))} (hb : KnB G st bs cs)
    {xs : List (Lc p)} {vs : List (ZMod p)} (hx : KnL G st xs vs) (hv : vs.length = w) {os : List O'}
    {ws : List (ZMod p)} (h : Cipher.absorbAll write perm cs vs = some (os, ws)) :
    ws.length = w ∧ Gad G st (absorbAllC writeC permC bs xs) True fun st' o => KnO K st' o.1 os ∧ KnL G st' o.2 ws := by
  induction cs generalizing bs xs vs st os with
  | nil =>
    cases hb
    simp only [Cipher.absorbAll, Option.some.injEq, Prod.mk.injEq] at h
    obtain ⟨rfl, rfl⟩ := h
    exact ⟨hv, Gad.pure ⟨.nil, hx⟩⟩
  | cons c cs ih =>
    cases hb with
    | @cons b _ bs _ hb hbs =>
      simp only [Cipher.absorbAll, Cipher.absorb] at h
      cases h1 : write c vs with
      | none => simp [h1] at h
      | some ou =>
        obtain ⟨o, us⟩ := ou
        rw [h1] at h
        simp only at h
        cases h2 : Cipher.absorbAll write perm cs (perm us) with
        | none => simp [h2] at h
        | some ou2 =>
          obtain ⟨os2, ws2⟩ := ou2
          rw [h2] at h
          simp only [Option.some.injEq, Prod.mk.injEq] at h
          obtain ⟨rfl, rfl⟩ := h
          obtain ⟨g1, o', ys, g2, g3, g4⟩ := hw st b c xs vs o us hb hx hv h1
          obtain ⟨l1, l2⟩ := hp st ys us g4 g1
          have wl : ws2.length = w := (ih (KnB_const G st cs) (KnL.consts G st (perm us)) l1 h2).1
          refine ⟨wl, Gad.option g2 (l2.seq fun ys st1 le1 hy => ?_)⟩
          refine (ih (hbs.up le1) hy l1 h2).2.seq fun o st2 le2 ho => Gad.pure ⟨.cons (hK _ _ _ _ (le1.trans le2) g3) ho.1, ho.2⟩

theorem write_known {w : Nat} (hw : 1 ≤ w) (st : St p) (b : List (Lc p)) (c : List (ZMod p)) (xs : List (Lc p))
    (vs us : List (ZMod p)) (hb : KnL G st b c) (hx : KnL G st xs vs) (hv : vs.length = w)
    (h : Cipher.addBlock (vs.drop 1) c = some us) :
    (vs.take 1 ++ us).length = w ∧ ∃ ys, Cipher.addBlock (xs.drop 1) b = some ys ∧ KnL G st ys us ∧
      KnL G st (xs.take 1 ++ ys) (vs.take 1 ++ us) := by
  obtain ⟨ys, e, hy⟩ := addBlock_known (hx.drop 1) hb h
  have hl : us.length = (vs.drop 1).length := by
    have : ∀ (a b c : List (ZMod p)), Cipher.addBlock a b = some c → c.length = a.length := by
      intro a
      induction a with
      | nil => intro b c h; simp [Cipher.addBlock] at h; simp [h]
      | cons x a ih =>
        intro b c h
        cases b with
        | nil => simp [Cipher.addBlock] at h
        | cons y b =>
          simp only [Cipher.addBlock] at h
          cases h1 : Cipher.addBlock a b with
          | none => simp [h1] at h
          | some d =>
            rw [h1] at h
            simp only [Option.some.injEq] at h
            rw [← h, List.length_cons, ih _ _ h1, List.length_cons]
    exact this _ _ _ h
  refine ⟨?_, ys, e, hy, (hx.take 1).append hy⟩
  simp only [List.length_append, List.length_take, hl, List.length_drop]
  omega

theorem setup_known {w : Nat} (hw : 1 ≤ w) (st : St p) (b : List (Lc p)) (c : List (ZMod p)) (xs : List (Lc p))
    (vs : List (ZMod p)) (o : Unit) (ws : List (ZMod p)) (hb : KnL G st b c) (hx : KnL G st xs vs) (hv : vs.length = w)
    (h : Cipher.writeSetup c vs = some (o, ws)) :
    ws.length = w ∧ ∃ (o' : Unit) (ys : List (Lc p)), Cipher.writeSetup b xs = some (o', ys) ∧ True ∧ KnL G st ys ws := by
  simp only [Cipher.writeSetup] at h ⊢
  cases h1 : Cipher.addBlock (vs.drop 1) c with
  | none => simp only [h1, reduceCtorEq] at h
  | some us =>
    simp only [h1, Option.some.injEq, Prod.mk.injEq] at h
    obtain ⟨_, rfl⟩ := h
    obtain ⟨e1, ys, e2, _, e3⟩ := write_known hw st b c xs vs us hb hx hv h1
    exact ⟨e1, (), _, by simp only [e2], trivial, e3⟩

theorem plain_known {w : Nat} (hw : 1 ≤ w) (st : St p) (b : List (Lc p)) (c : List (ZMod p)) (xs : List (Lc p))
    (vs : List (ZMod p)) (o : List (ZMod p)) (ws : List (ZMod p)) (hb : KnL G st b c) (hx : KnL G st xs vs)
    (hv : vs.length = w) (h : Cipher.writePlain c vs = some (o, ws)) :
    ws.length = w ∧ ∃ (o' : List (Lc p)) (ys : List (Lc p)), Cipher.writePlain b xs = some (o', ys) ∧ KnL G st o' o ∧
      KnL G st ys ws := by
  simp only [Cipher.writePlain] at h ⊢
  cases h1 : Cipher.addBlock (vs.drop 1) c with
  | none => simp only [h1, reduceCtorEq] at h
  | some us =>
    simp only [h1, Option.some.injEq, Prod.mk.injEq] at h
    obtain ⟨rfl, rfl⟩ := h
    obtain ⟨e1, ys, e2, e4, e3⟩ := write_known hw st b c xs vs us hb hx hv h1
    exact ⟨e1, ys, _, by simp only [e2], e4, e3⟩

theorem KnO.blocks {xs : List (List (Lc p))} {vs : List (List (ZMod p))}
    (h : KnO (fun st x v => KnL G st x v) st xs vs) : KnB G st xs vs := by
  induction h with
  | nil => exact .nil
  | cons h _ ih => exact .cons h ih

/-! ## Well-formed parameters -/

/-- What `Hasher::new` and `Permutation::new` check for a hasher of `n` inputs, and that the stored tag is the one of the
type. -/
structure Hasher.Ok (H : Hasher p) (n : Nat) : Prop where
  width : H.c.width = n + 1
  full : 2 ≤ H.c.full
  good : Poseidon.Good H.c H.perm
  expo : 1 ≤ H.expo
  tag : H.tag = H.ownTag

/-- What the constructors check for the parameters, and what is needed of curve and field. -/
structure Params.Ok {C : Curve p r} (P : Params C) : Prop where
  field : 128 < numBits p
  rpos : r ≠ 0
  rle : r ≤ p
  gen : r • P.gen = 0
  vk : P.vk.Ok 2
  cm : P.cm.Ok 5
  item : P.item.Ok 4
  nul : P.nul.Ok 3
  node : P.node.Ok 2
  encWidth : P.encC.width = 4
  encFull : 2 ≤ P.encC.full
  encGood : Poseidon.Good P.encC P.encPerm
  encExpo : 1 ≤ P.encExpo
  encInit : P.encInit.length = 4

theorem hash_some (H : Hasher p) {n : Nat} (hc : H.c.width = n + 1) (hf : 2 ≤ H.c.full)
    (hp : Poseidon.Good H.c H.perm) (tag : ZMod p) {xs : List (ZMod p)} (hx : xs.length = n) :
    ∃ v, Poseidon.hash H.c (fun x => x ^ H.expo) H.perm tag xs = some v := by
  have hm : Poseidon.mkPerm H.c H.perm.keys H.perm.mds = some H.perm := by
    rw [Poseidon.mkPerm, if_pos hp.keys, if_pos hp.mds]
  obtain ⟨_, _, _, h⟩ := Poseidon.c84_hash hc hf (fun x => x ^ H.expo) hm tag hx
  exact ⟨_, h⟩

/-- Hashing in the circuit is hashing outside. -/
theorem get_gad {H : Hasher p} {n : Nat} (hH : H.Ok n) {xs : List (Lc p)} {vs : List (ZMod p)} (h : KnL G st xs vs)
    (hn : vs.length = n) : Gad G st (hashC H xs) True fun st' y => Kn G st' y (H.get vs) := by
  obtain ⟨v, hv⟩ := hash_some H hH.width hH.full hH.good H.tag hn
  have e : H.get vs = v := by rw [Hasher.get, Hasher.run, hv]; rfl
  rw [e]
  rw [hH.tag] at hv
  exact hash_gad H hH.expo h hv

variable {C : Curve p r} {P : Params C}

theorem permute_computes (hP : P.Ok) (G : Asg p → Prop) :
    Computes G 4 (permuteC P.encC P.encExpo P.encPerm) P.duplexer.perm := by
  intro st xs vs h hv
  obtain ⟨out, h1, h2, _⟩ := Poseidon.permute_eq (n := 3) hP.encWidth hP.encFull (sbox := fun x => x ^ P.encExpo)
    hP.encGood hv
  have e : P.duplexer.perm vs = out := by
    show (P.permute vs).getD [] = out
    rw [Params.permute, h1]
    rfl
  rw [e]
  exact ⟨h2, permute_gad _ _ hP.encExpo _ h h1⟩

theorem absorb_some {perm : List (ZMod p) → List (ZMod p)} {w : Nat} (hw : 1 ≤ w)
    (hp : ∀ vs, vs.length = w → (perm vs).length = w) {O : Type}
    {write : List (ZMod p) → List (ZMod p) → Option (O × List (ZMod p))}
    (hwr : ∀ c vs us, Cipher.addBlock (vs.drop 1) c = some us → ∃ o, write c vs = some (o, vs.take 1 ++ us))
    (cs : List (List (ZMod p))) (hc : ∀ c ∈ cs, w - 1 ≤ c.length) (vs : List (ZMod p)) (hv : vs.length = w) :
    ∃ os ws, Cipher.absorbAll write perm cs vs = some (os, ws) ∧ ws.length = w := by
  induction cs generalizing vs with
  | nil => exact ⟨[], vs, rfl, hv⟩
  | cons c cs ih =>
    obtain ⟨us, e, hu⟩ := addBlock_some (vs := vs.drop 1) (ws := c)
      (by have := hc c (by simp); simp only [List.length_drop]; omega)
    obtain ⟨o, ho⟩ := hwr c vs us e
    obtain ⟨os, ws, e1, e2⟩ := ih (fun c h => hc c (by simp [h])) (perm (vs.take 1 ++ us)) (hp _ (by
      simp only [List.length_append, List.length_take, hu, List.length_drop]
      omega))
    exact ⟨o :: os, ws, by simp [Cipher.absorbAll, Cipher.absorb, ho, e1], e2⟩

theorem setupBlocks_two {α : Type} [OfNat α 0] (a b : α) :
    Cipher.setupBlocks 4 [a, b] [] = some [[a, b, 0], [0, 0, 0]] := by
  simp [Cipher.setupBlocks, Util.paddedChunksWith, Util.chunksExact]

theorem encrypt_gad (hP : P.Ok) {x y : Lc p} {u v : ZMod p} (hx : Kn G st x u) (hy : Kn G st y v) {a b c : Lc p}
    {i j k : ZMod p} (ha : Kn G st a i) (hb : Kn G st b j) (hc : Kn G st c k) :
    Gad G st (encryptC P [x, y] [[a, b, c]]) True fun st' o =>
      Kn G st' o.1 ((P.duplexer.encrypt [u, v] [] [[i, j, k]]).getD (0, [])).1 ∧
      KnB G st' o.2 ((P.duplexer.encrypt [u, v] [] [[i, j, k]]).getD (0, [])).2 := by
  have hcomp := permute_computes hP G
  have hlen : ∀ vs, vs.length = 4 → (P.duplexer.perm vs).length = 4 := fun vs h =>
    (hcomp st _ vs (KnL.consts G st vs) h).1
  obtain ⟨os, s1, e1, l1⟩ := absorb_some (w := 4) (by omega) hlen (write := Cipher.writeSetup)
    (fun c vs us h => ⟨(), by simp only [Cipher.writeSetup, h]⟩) [[u, v, 0], [0, 0, 0]] (by simp) P.encInit hP.encInit
  obtain ⟨cs, s2, e2, l2⟩ := absorb_some (w := 4) (by omega) hlen (write := Cipher.writePlain)
    (fun c vs us h => ⟨us, by simp only [Cipher.writePlain, h]⟩) [[i, j, k]] (by simp) s1 l1
  obtain ⟨t, ht⟩ : ∃ t, s2[1]? = some t := ⟨_, List.getElem?_eq_getElem (by omega)⟩
  have enc : P.duplexer.encrypt [u, v] [] [[i, j, k]] = some (t, cs) := by
    have hw : P.duplexer.width = 4 := hP.encWidth
    have hi : P.duplexer.initial = P.encInit := rfl
    simp only [Cipher.Duplexer.encrypt, Cipher.Duplexer.setup, hw, hi, setupBlocks_two, e1, e2, ht]
  rw [enc]
  unfold encryptC
  rw [hP.encWidth]
  refine Gad.option (setupBlocks_two x y) ?_
  have z0 : Kn G st (0 : Lc p) 0 := Kn.const G st 0
  refine (absorb_gad (K := fun _ _ _ => True) (fun _ _ _ _ _ h => h) (setup_known (w := 4) (by omega)) hcomp
    (.cons (.cons hx (.cons hy (.cons z0 .nil))) (.cons (.cons z0 (.cons z0 (.cons z0 .nil))) .nil))
    (KnL.consts G st P.encInit) hP.encInit e1).2.seq fun o1 st1 le1 h1 => ?_
  refine (absorb_gad (K := fun st x v => KnL G st x v) (fun _ _ _ _ l h => h.up l) (plain_known (w := 4) (by omega)) hcomp
    (.cons (.cons (ha.up le1) (.cons (hb.up le1) (.cons (hc.up le1) .nil))) .nil) h1.2 l1 e2).2.seq
      fun o2 st2 le2 h2 => ?_
  obtain ⟨tv, e3, ht'⟩ := h2.2.get ht
  exact Gad.option e3 (Gad.pure ⟨ht', h2.1.blocks⟩)

/-! ## Points -/

/-- A point with known coordinates. -/
def KnP (C : Curve p r) (G : Asg p → Prop) (st : St p) (P : PtV p) (g : C.E) : Prop :=
  Kn G st P.x (C.x g) ∧ Kn G st P.y (C.y g)

/-- A scalar variable with known value modulo the order. -/
def KnS (r : Nat) (G : Asg p → Prop) (st : St p) (s : Lc p) (v : ZMod r) : Prop :=
  Scoped st.cs.next s ∧ ∀ z, Holds G st z → ((s z).val : ZMod r) = v

theorem KnP.up {G' : Asg p → Prop} {st' : St p} {Q : PtV p} {g : C.E} (h : KnP C G st Q g) (l : Le G st G' st') :
    KnP C G' st' Q g := ⟨h.1.up l, h.2.up l⟩

theorem KnS.up {G' : Asg p → Prop} {st' : St p} {s : Lc p} {v : ZMod r} (h : KnS r G st s v) (l : Le G st G' st') :
    KnS r G' st' s v := ⟨h.1.mono l.next, fun z hz => h.2 z (l.back z hz)⟩

theorem Kn.scalar {s : Lc p} {v : ZMod p} (h : Kn G st s v) : KnS r G st s (v.val : ZMod r) :=
  ⟨h.1, fun z hz => by rw [h.2 z hz]⟩

theorem KnP.const (g : C.E) : KnP C G st (constPt C g) g := ⟨Kn.const G st _, Kn.const G st _⟩

theorem smul_mod {g : C.E} (hg : r • g = 0) (n : Nat) : (n % r) • g = n • g := by
  conv => rhs; rw [← Nat.div_add_mod n r, add_smul, mul_comm, mul_smul, hg, smul_zero, zero_add]

theorem smul_cast (hr : r ≠ 0) {g : C.E} (hg : r • g = 0) (n : Nat) (v : ZMod r) (h : (n : ZMod r) = v) :
    n • g = v.val • g := by
  have : NeZero r := ⟨hr⟩
  rw [← h, ZMod.val_natCast, smul_mod hg]

theorem scalarMul_gad (hr : r ≠ 0) {Q : PtV p} {g : C.E} (hQ : KnP C G st Q g) (hg : r • g = 0) {s : Lc p}
    {v : ZMod r} (hs : KnS r G st s v) :
    Gad G st (scalarMulC C Q s) True fun st' R => KnP C G st' R (v.val • g) := by
  intro ok
  have key : ∀ z, Holds G st z → (s z).val • g = v.val • g := fun z hz => smul_cast hr hg _ _ (hs.2 z hz)
  have uniq : ∀ z, Holds G st z → ∀ g', C.x g' = Q.x z → C.y g' = Q.y z → g' = g := fun z hz g' h1 h2 =>
    C.inj _ _ (h1.trans (hQ.1.2 z hz)) (h2.trans (hQ.2.2 z hz))
  have val : ∀ z, Holds G ⟨st.cs.ext 2 [fun z => ∃ g : C.E, C.x g = Q.x z ∧ C.y g = Q.y z ∧
      z st.cs.next = C.x ((s z).val • g) ∧ z (st.cs.next + 1) = C.y ((s z).val • g)], st.pub⟩ z →
      z st.cs.next = C.x (v.val • g) ∧ z (st.cs.next + 1) = C.y (v.val • g) := by
    intro z hz
    have hz' : Holds G st z := ⟨(sat_ext.1 hz.1).2, hz.2⟩
    obtain ⟨g', h1, h2, h3, h4⟩ := (sat_ext.1 hz.1).1 _ (List.mem_singleton.2 rfl)
    rw [uniq z hz' g' h1 h2, key z hz'] at h3 h4
    exact ⟨h3, h4⟩
  refine ⟨_, _, rfl, Step.ext ok 2 _ True ?_ (fun _ _ _ => trivial) ?_, ⟨?_, fun z hz => (val z hz).1⟩,
    ⟨?_, fun z hz => (val z hz).2⟩⟩
  · intro c hc z z' e
    simp only [List.mem_singleton] at hc
    subst hc
    beta_reduce
    rw [hQ.1.1 z z' fun i hi => e i (by omega), hQ.2.1 z z' fun i hi => e i (by omega),
      hs.1 z z' fun i hi => e i (by omega), e _ (by omega), e (st.cs.next + 1) (by omega)]
  · intro z hz _
    have e : Agree st.cs.next z (upd (upd z st.cs.next (C.x (v.val • g))) (st.cs.next + 1) (C.y (v.val • g))) :=
      (agree_upd z _ _ _ (Nat.le_refl _)).trans (agree_upd _ _ _ _ (by omega))
    refine ⟨_, e, fun c hc => ?_⟩
    simp only [List.mem_singleton] at hc
    subst hc
    refine ⟨g, ?_, ?_, ?_, ?_⟩
    · rw [← hQ.1.1 z _ e, hQ.1.2 z hz]
    · rw [← hQ.2.1 z _ e, hQ.2.2 z hz]
    · rw [upd_other _ _ (by omega), upd_same, ← hs.1 z _ e, key z hz]
    · rw [upd_same, ← hs.1 z _ e, key z hz]
  · exact scoped_var (by show _ < st.cs.next + 2; omega)
  · exact scoped_var (by show _ < st.cs.next + 2; omega)

theorem assertEqPt_gad {Q R : PtV p} {g h : C.E} (hQ : KnP C G st Q g) (hR : KnP C G st R h) :
    Gad G st (assertEqPt Q R) (g = h) fun _ _ => True := by
  refine ((eq_gad hQ.1 hR.1).seq fun a st1 l1 ha => (eq_gad (hQ.2.up l1) (hR.2.up l1)).seq fun b st2 l2 hb =>
    (and_gad (ha.up l2) hb).seq fun c st3 l3 hc => assert_gad hc).imp ?_ fun _ _ _ h => h
  simp only [Bool.and_eq_true, decide_eq_true_eq]
  exact ⟨fun h => C.inj _ _ h.1 h.2, fun h => by rw [h]; exact ⟨rfl, rfl⟩⟩

end Verif.Circuit
