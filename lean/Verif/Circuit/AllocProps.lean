import Verif.Circuit.BuildProps

/-!
# Allocation of the variables

`Alloc st st' S wf inp`: the assignments that satisfy the second state are those of the first one together with a
well-formed value, read off by `S`; the public inputs which were added have the values `inp`.
-/

namespace Verif.Circuit

open Verif.Gadget
open Verif.Asset (Asset)
open Verif.Transfer (Ty Utxo Nul FullNote Plain Sender Receiver Auth Transfer Crypto InputEnc)

set_option linter.unusedSectionVars false

variable {p r : Nat} [Fact p.Prime] {C : Curve p r} {P : Params C} {R : Rest}

/-- The constraints use allocated variables only. -/
def RowsOk (st : St p) : Prop := ∀ c ∈ st.cs.rows, Scoped st.cs.next c

structure Alloc (st st' : St p) {β : Type} (S : Asg p → β → Prop) (wf : β → Prop) (inp : β → List (ZMod p)) : Prop where
  rows : RowsOk st'
  next : st.cs.next ≤ st'.cs.next
  sound : ∀ z, st'.cs.Sat z → st.cs.Sat z ∧ ∃ v, wf v ∧ S z v
  stable : ∀ v, Scoped st'.cs.next fun z => S z v
  complete : ∀ z v, st.cs.Sat z → wf v → ∃ z', Agree st.cs.next z z' ∧ st'.cs.Sat z' ∧ S z' v
  pub : ∃ ks, st'.pub = st.pub ++ ks ∧ ∀ z v, st'.cs.Sat z → S z v → ks.map z = inp v

theorem Alloc.refl {st : St p} (h : RowsOk st) :
    Alloc st st (fun _ (_ : Unit) => True) (fun _ => True) fun _ => [] :=
  ⟨h, Nat.le_refl _, fun _ hz => ⟨hz, (), trivial, trivial⟩, fun _ _ _ _ => rfl,
    fun z _ hz _ => ⟨z, fun _ _ => rfl, hz, trivial⟩, [], by simp, fun _ _ _ _ => rfl⟩

theorem Alloc.prod {st st1 st2 : St p} {β γ : Type} {S1 : Asg p → β → Prop} {S2 : Asg p → γ → Prop} {w1 : β → Prop}
    {w2 : γ → Prop} {i1 : β → List (ZMod p)} {i2 : γ → List (ZMod p)} (h : Alloc st st1 S1 w1 i1)
    (g : Alloc st1 st2 S2 w2 i2) :
    Alloc st st2 (fun z (v : β × γ) => S1 z v.1 ∧ S2 z v.2) (fun v => w1 v.1 ∧ w2 v.2) fun v => i1 v.1 ++ i2 v.2 := by
  refine ⟨g.rows, Nat.le_trans h.next g.next, fun z hz => ?_, fun v z z' e => ?_, fun z v hz hw => ?_, ?_⟩
  · obtain ⟨hz1, v2, hw2, s2⟩ := g.sound z hz
    obtain ⟨hz0, v1, hw1, s1⟩ := h.sound z hz1
    exact ⟨hz0, (v1, v2), ⟨hw1, hw2⟩, s1, s2⟩
  · have e1 : S1 z v.1 = S1 z' v.1 := (h.stable v.1).mono g.next z z' e
    have e2 : S2 z v.2 = S2 z' v.2 := g.stable v.2 z z' e
    beta_reduce
    rw [e1, e2]
  · obtain ⟨z1, e1, hz1, s1⟩ := h.complete z v.1 hz hw.1
    obtain ⟨z2, e2, hz2, s2⟩ := g.complete z1 v.2 hz1 hw.2
    have e3 : S1 z1 v.1 = S1 z2 v.1 := h.stable v.1 z1 z2 e2
    exact ⟨z2, fun i hi => (e1 i hi).trans (e2 i (Nat.lt_of_lt_of_le hi h.next)), hz2, e3 ▸ s1, s2⟩
  · obtain ⟨ks, e1, hk⟩ := h.pub
    obtain ⟨ls, e2, hl⟩ := g.pub
    refine ⟨ks ++ ls, by rw [e2, e1, List.append_assoc], fun z v hz hs => ?_⟩
    rw [List.map_append, hk z v.1 (g.sound z hz).1 hs.1, hl z v.2 hz hs.2]

theorem Alloc.map {st st' : St p} {β γ : Type} {S : Asg p → β → Prop} {w : β → Prop} {i : β → List (ZMod p)}
    (h : Alloc st st' S w i) (f : γ → β) {S' : Asg p → γ → Prop} {w' : γ → Prop} {i' : γ → List (ZMod p)}
    (hS : ∀ z v, S' z v ↔ S z (f v)) (hw : ∀ v, w' v → w (f v)) (hr : ∀ u, w u → ∃ v, f v = u ∧ w' v)
    (hi : ∀ v, i' v = i (f v)) : Alloc st st' S' w' i' := by
  refine ⟨h.rows, h.next, fun z hz => ?_, fun v z z' e => ?_, fun z v hz hv => ?_, ?_⟩
  · obtain ⟨hz0, u, hu, hs⟩ := h.sound z hz
    obtain ⟨v, rfl, hv⟩ := hr u hu
    exact ⟨hz0, v, hv, (hS z v).2 hs⟩
  · beta_reduce
    rw [propext (hS z v), propext (hS z' v)]
    exact h.stable (f v) z z' e
  · obtain ⟨z', e, hz', hs⟩ := h.complete z (f v) hz (hw v hv)
    exact ⟨z', e, hz', (hS z' v).2 hs⟩
  · obtain ⟨ks, e, hk⟩ := h.pub
    exact ⟨ks, e, fun z v hz hs => by rw [hi]; exact hk z (f v) hz ((hS z v).1 hs)⟩

/-- The same where some of the new values have no counterpart. -/
theorem Alloc.conv {st st' : St p} {β γ : Type} {S : Asg p → β → Prop} {w : β → Prop} {i : β → List (ZMod p)}
    (h : Alloc st st' S w i) {S' : Asg p → γ → Prop} {w' : γ → Prop} {i' : γ → List (ZMod p)}
    (hv : ∀ v, (∃ u, (∀ z, S' z v ↔ S z u) ∧ (w' v → w u) ∧ i' v = i u) ∨ ((∀ z, ¬ S' z v) ∧ ¬ w' v))
    (hr : ∀ u, w u → ∃ v, w' v ∧ ∀ z, S z u → S' z v) : Alloc st st' S' w' i' := by
  refine ⟨h.rows, h.next, fun z hz => ?_, fun v z z' e => ?_, fun z v hz hw => ?_, ?_⟩
  · obtain ⟨hz0, u, hu, hs⟩ := h.sound z hz
    obtain ⟨v, h1, h2⟩ := hr u hu
    exact ⟨hz0, v, h1, h2 z hs⟩
  · rcases hv v with ⟨u, h1, _⟩ | ⟨h1, _⟩
    · beta_reduce
      rw [propext (h1 z), propext (h1 z')]
      exact h.stable u z z' e
    · exact propext ⟨fun h => absurd h (h1 z), fun h => absurd h (h1 z')⟩
  · rcases hv v with ⟨u, h1, h2, _⟩ | ⟨_, h1⟩
    · obtain ⟨z', e, hz', hs⟩ := h.complete z u hz (h2 hw)
      exact ⟨z', e, hz', (h1 z').2 hs⟩
    · exact absurd hw h1
  · obtain ⟨ks, e, hk⟩ := h.pub
    refine ⟨ks, e, fun z v hz hs => ?_⟩
    rcases hv v with ⟨u, h1, _, h3⟩ | ⟨h1, _⟩
    · rw [h3]
      exact hk z u hz ((h1 z).1 hs)
    · exact absurd hs (h1 z)

/-! ## Allocating calls -/

/-- All combinations in the list use variables below `n` only. -/
def Vars (n : Nat) (l : List (Lc p)) : Prop := ∀ c ∈ l, Scoped n c

theorem Vars.mono {n m : Nat} {l : List (Lc p)} (h : Vars n l) (hm : n ≤ m) : Vars m l := fun c hc => (h c hc).mono hm

theorem Vars.append {n : Nat} {l k : List (Lc p)} (h : Vars n l) (g : Vars n k) : Vars n (l ++ k) := fun c hc =>
  (List.mem_append.1 hc).elim (h c) (g c)

/-- A call of an allocating function. -/
def Al {α β : Type} (m : B p α) (vars : α → List (Lc p)) (S : α → Asg p → β → Prop) (wf : β → Prop)
    (inp : β → List (ZMod p)) : Prop :=
  ∀ st, RowsOk st → ∃ a st', m st = some (a, st') ∧ Alloc st st' (S a) wf inp ∧ Vars st'.cs.next (vars a)

theorem run_bind {α β : Type} {m : B p α} {f : α → B p β} {st st' : St p} {a : α} (h : m st = some (a, st')) :
    (m >>= f) st = f a st' := by
  show (m st).bind _ = _
  rw [h]
  rfl

/-- A value for inputs, nothing for witnesses. -/
def ifPub (m : Mode) (l : List (ZMod p)) : List (ZMod p) :=
  match m with
  | .pub => l
  | .sec => []

/-- A field variable, read by a relation. -/
theorem allocF_rel {β : Type} (m : Mode) (rel : ZMod p → β → Prop) (wf : β → Prop) (inp : β → List (ZMod p))
    (h1 : ∀ x, ∃ v, wf v ∧ rel x v) (h2 : ∀ v, wf v → ∃ x, rel x v) (h3 : ∀ x v, rel x v → inp v = ifPub m [x]) :
    Al (allocF m) (fun a => [a]) (fun a z v => rel (a z) v) wf inp := by
  intro st ok
  have lt : st.cs.next < (st.cs.ext 1 []).next := Nat.lt_succ_self _
  refine ⟨_, _, rfl, ⟨?_, Nat.le_succ _, ?_, ?_, ?_, ?_⟩, ?_⟩
  · intro c hc
    simp only [allocFp, Cs.ext, List.nil_append] at hc
    exact (ok c hc).mono (Nat.le_succ _)
  · intro z hz
    obtain ⟨v, hw, hr⟩ := h1 (z st.cs.next)
    exact ⟨(sat_ext.1 hz).2, v, hw, hr⟩
  · intro v z z' e
    show rel (z st.cs.next) v = rel (z' st.cs.next) v
    rw [e _ lt]
  · intro z v hz hw
    obtain ⟨x, hx⟩ := h2 v hw
    have e := agree_upd z st.cs.next st.cs.next x (Nat.le_refl _)
    refine ⟨_, e, sat_ext.2 ⟨by simp, sat_agree ok e hz⟩, ?_⟩
    show rel (upd z st.cs.next x st.cs.next) v
    rw [upd_same]
    exact hx
  · cases m with
    | pub => exact ⟨[st.cs.next], rfl, fun z v _ hs => by rw [h3 _ _ hs]; rfl⟩
    | sec => exact ⟨[], by simp, fun z v _ hs => by rw [h3 _ _ hs]; rfl⟩
  · intro c hc
    simp only [List.mem_singleton] at hc
    subst hc
    exact scoped_var lt

/-- A field element. -/
theorem allocF_al (m : Mode) :
    Al (allocF m) (fun a => [a]) (fun a z (v : ZMod p) => a z = v) (fun _ => True) fun v => ifPub m [v] :=
  allocF_rel m (fun x v => x = v) _ _ (fun x => ⟨x, trivial, rfl⟩) (fun v _ => ⟨v, rfl⟩) fun x v h => by rw [h]

/-- A natural number below the modulus. -/
theorem allocId_al (m : Mode) :
    Al (allocF m) (fun a => [a]) (fun a z (v : Nat) => a z = (v : ZMod p)) (fun v => v < p)
      fun v => ifPub m [(v : ZMod p)] := by
  have : NeZero p := ⟨(Fact.out : p.Prime).ne_zero⟩
  exact allocF_rel m (fun x (v : Nat) => x = (v : ZMod p)) _ _ (fun x => ⟨x.val, ZMod.val_lt x, by simp⟩)
    (fun v _ => ⟨v, rfl⟩) fun x v h => by rw [h]

/-- A scalar, which is read modulo the order of the subgroup. -/
theorem allocS_al (hr : r ≠ 0) (hle : r ≤ p) :
    Al (allocF .sec) (fun a : Lc p => [a]) (fun a z (v : ZMod r) => ((a z).val : ZMod r) = v) (fun _ => True)
      fun _ => [] := by
  have : NeZero r := ⟨hr⟩
  refine allocF_rel .sec (fun x v => ((x.val : Nat) : ZMod r) = v) _ _ (fun x => ⟨_, trivial, rfl⟩)
    (fun v _ => ⟨(v.val : ZMod p), ?_⟩) fun x v h => rfl
  rw [ZMod.val_natCast, Nat.mod_eq_of_lt (Nat.lt_of_lt_of_le (ZMod.val_lt v) hle)]
  simp

/-- A variable without a meaning. -/
theorem allocAny_al :
    Al (allocF .sec) (fun a : Lc p => [a]) (fun _ _ (_ : Unit) => True) (fun _ => True) fun _ => [] :=
  allocF_rel .sec (fun _ _ => True) _ _ (fun _ => ⟨(), trivial, trivial⟩) (fun _ _ => ⟨0, trivial⟩) fun _ _ _ => rfl

/-- A boolean. -/
theorem allocB_al (m : Mode) :
    Al (allocB m) (fun a => [a]) (fun a z (v : Bool) => a z = fbit v) (fun _ => True) fun v => ifPub m [fbit (p := p) v] := by
  intro st ok
  have lt : st.cs.next < (st.cs.ext 1 []).next := Nat.lt_succ_self _
  refine ⟨_, _, rfl, ⟨?_, Nat.le_succ _, ?_, ?_, ?_, ?_⟩, ?_⟩
  · intro c hc
    simp only [allocBool, Cs.ext, List.singleton_append, List.mem_cons] at hc
    rcases hc with rfl | hc
    · intro z z' e
      beta_reduce
      rw [e _ lt]
    · exact (ok c hc).mono (Nat.le_succ _)
  · intro z hz
    have h := (sat_ext.1 hz).1 _ (List.mem_singleton.2 rfl)
    refine ⟨(sat_ext.1 hz).2, ?_⟩
    rcases mul_eq_zero.1 h with h | h
    · exact ⟨false, trivial, h⟩
    · exact ⟨true, trivial, (sub_eq_zero.1 h).symm⟩
  · intro v z z' e
    show (z st.cs.next = _) = (z' st.cs.next = _)
    rw [e _ lt]
  · intro z v hz hw
    have e := agree_upd z st.cs.next st.cs.next (fbit v) (Nat.le_refl _)
    refine ⟨_, e, sat_ext.2 ⟨?_, sat_agree ok e hz⟩, ?_⟩
    · intro c hc
      rw [List.mem_singleton] at hc
      subst hc
      show _ = _
      rw [upd_same]
      cases v <;> simp [fbit]
    · show upd z st.cs.next (fbit v) st.cs.next = _
      rw [upd_same]
  · cases m with
    | pub => exact ⟨[st.cs.next], rfl, fun z v _ (hs : z st.cs.next = _) => by simp [ifPub, hs]⟩
    | sec => exact ⟨[], by simp, fun z v _ _ => rfl⟩
  · intro c hc
    simp only [List.mem_singleton] at hc
    subst hc
    exact scoped_var lt

/-- A value of 128 bits. -/
theorem allocU_al (hp : 128 < numBits p) (A : Ark p) (m : Mode) :
    Al (allocU A m) (fun a => [a]) (fun a z (v : Nat) => a z = (v : ZMod p)) (fun v => v < 2 ^ 128)
      fun v => ifPub m [(v : ZMod p)] := by
  have h2 := two_lt hp
  have : NeZero p := ⟨(Fact.out : p.Prime).ne_zero⟩
  intro st ok
  obtain ⟨a, st1, e1, h1, v1⟩ := allocId_al (p := p) m st ok
  have va : Scoped st1.cs.next a := v1 a (by simp)
  obtain ⟨cs, h⟩ : ∃ cs, assertRange A 128 st1.cs a = .ok cs := by
    unfold assertRange
    rw [if_pos hp]
    exact ⟨_, rfl⟩
  have sc := assertRange_scoped A 128 _ _ _ h va h1.rows
  refine ⟨a, ⟨cs, st1.pub⟩, (run_bind e1).trans (by simp [liftE, uNew, h]), ⟨sc.2, Nat.le_trans h1.next sc.1, ?_, ?_, ?_, ?_⟩,
    v1.mono sc.1⟩
  · intro z hz
    have hs := assertRange_sound A 128 _ _ _ h z hz
    obtain ⟨h0, v, hv, e⟩ := h1.sound z hs.1
    refine ⟨h0, v, ?_, e⟩
    have := hs.2
    rw [e, ZMod.val_natCast, Nat.mod_eq_of_lt hv] at this
    exact this
  · exact fun v => (h1.stable v).mono sc.1
  · intro z v hz hv
    obtain ⟨z1, e2, hz1, hs⟩ := h1.complete z v hz (Nat.lt_trans hv h2)
    obtain ⟨z2, e3, hz2⟩ := assertRange_complete A 128 _ _ _ h va h1.rows z1 hz1
      (by rw [hs, ZMod.val_natCast, Nat.mod_eq_of_lt (Nat.lt_trans hv h2)]; exact hv)
    exact ⟨z2, fun i hi => (e2 i hi).trans (e3 i (Nat.lt_of_lt_of_le hi h1.next)), hz2, (va z1 z2 e3).symm.trans hs⟩
  · obtain ⟨ks, e, hk⟩ := h1.pub
    exact ⟨ks, e, fun z v hz hs => hk z v (assertRange_sound A 128 _ _ _ h z hz).1 hs⟩

/-- A point. -/
theorem allocPt_al (m : Mode) :
    Al (allocPt C m) (fun a => [a.x, a.y]) (fun a z (g : C.E) => a.x z = C.x g ∧ a.y z = C.y g)
      (fun g => m = .sec → r • g = 0) fun g => ifPub m [C.x g, C.y g] := by
  intro st ok
  have lt : ∀ (l : List (Asg p → Prop)), st.cs.next < (st.cs.ext 2 l).next ∧ st.cs.next + 1 < (st.cs.ext 2 l).next :=
    fun l => by constructor <;> simp only [Cs.ext] <;> omega
  refine ⟨_, _, rfl, ⟨?_, Nat.le_add_right _ 2, ?_, ?_, ?_, ?_⟩, ?_⟩
  · intro c hc
    simp only [Cs.ext, List.singleton_append, List.mem_cons] at hc
    rcases hc with rfl | hc
    · intro z z' e
      beta_reduce
      rw [e _ (lt []).1, e _ (lt []).2]
    · exact (ok c hc).mono (Nat.le_add_right _ 2)
  · intro z hz
    obtain ⟨g, h1, h2, h3⟩ := (sat_ext.1 hz).1 _ (List.mem_singleton.2 rfl)
    exact ⟨(sat_ext.1 hz).2, g, h3, h1.symm, h2.symm⟩
  · intro v z z' e
    show (z st.cs.next = _ ∧ z (st.cs.next + 1) = _) = (z' st.cs.next = _ ∧ z' (st.cs.next + 1) = _)
    rw [e _ (lt []).1, e _ (lt []).2]
  · intro z g hz hg
    have e1 := agree_upd z st.cs.next st.cs.next (C.x g) (Nat.le_refl _)
    have e2 := agree_upd (upd z st.cs.next (C.x g)) st.cs.next (st.cs.next + 1) (C.y g) (Nat.le_succ _)
    have hx : upd (upd z st.cs.next (C.x g)) (st.cs.next + 1) (C.y g) st.cs.next = C.x g := by
      rw [upd_other _ _ (by omega), upd_same]
    have hy : upd (upd z st.cs.next (C.x g)) (st.cs.next + 1) (C.y g) (st.cs.next + 1) = C.y g := upd_same _ _ _
    refine ⟨_, e1.trans e2, sat_ext.2 ⟨?_, sat_agree ok (e1.trans e2) hz⟩, hx, hy⟩
    intro c hc
    rw [List.mem_singleton] at hc
    subst hc
    exact ⟨g, hx.symm, hy.symm, hg⟩
  · cases m with
    | pub =>
      refine ⟨[st.cs.next, st.cs.next + 1], rfl, fun z v _ hs => ?_⟩
      have h1 : z st.cs.next = _ := hs.1
      have h2 : z (st.cs.next + 1) = _ := hs.2
      simp [ifPub, h1, h2]
    | sec => exact ⟨[], by simp, fun z v _ _ => rfl⟩
  · intro c hc
    simp only [List.mem_cons, List.not_mem_nil, or_false] at hc
    rcases hc with rfl | rfl
    · exact scoped_var (lt []).1
    · exact scoped_var (lt []).2

/-! ## Lists and options -/

/-- Two lists of the same length with related elements. -/
inductive All₂ {α β : Type} (K : α → β → Prop) : List α → List β → Prop
  | nil : All₂ K [] []
  | cons {a : α} {b : β} {as : List α} {bs : List β} : K a b → All₂ K as bs → All₂ K (a :: as) (b :: bs)

theorem All₂.nil_iff {α β : Type} {K : α → β → Prop} {bs : List β} : All₂ K [] bs ↔ bs = [] :=
  ⟨fun h => by cases h; rfl, fun h => h ▸ .nil⟩

theorem All₂.cons_iff {α β : Type} {K : α → β → Prop} {a : α} {as : List α} {b : β} {bs : List β} :
    All₂ K (a :: as) (b :: bs) ↔ K a b ∧ All₂ K as bs :=
  ⟨fun h => by cases h with | cons h hs => exact ⟨h, hs⟩, fun h => .cons h.1 h.2⟩

/-- A loop of allocations; `wf i` is the requirement on the element with index data `i`. -/
theorem mapB_al {ι α β : Type} {f : ι → B p α} {vars : α → List (Lc p)} {S : α → Asg p → β → Prop} {wf : ι → β → Prop}
    {inp : β → List (ZMod p)} (h : ∀ i, Al (f i) vars S (wf i) inp) (l : List ι) :
    Al (mapB f l) (fun as => as.flatMap vars) (fun as z vs => All₂ (fun a v => S a z v) as vs) (All₂ wf l)
      fun vs => vs.flatMap inp := by
  induction l with
  | nil =>
    intro st ok
    refine ⟨[], st, rfl, (Alloc.refl ok).conv (fun v => ?_) (fun u _ => ⟨[], .nil, fun _ _ => .nil⟩), ?_⟩
    · cases v with
      | nil => exact .inl ⟨(), fun z => ⟨fun _ => trivial, fun _ => .nil⟩, fun _ => trivial, rfl⟩
      | cons v vs => exact .inr ⟨fun z h => (by cases h), fun h => by cases h⟩
    · intro c hc
      simp at hc
  | cons i l ih =>
    intro st ok
    obtain ⟨a, st1, e1, h1, v1⟩ := h i st ok
    obtain ⟨as, st2, e2, h2, v2⟩ := ih st1 h1.rows
    refine ⟨a :: as, st2, (run_bind e1).trans ((run_bind e2).trans rfl), (h1.prod h2).conv (fun v => ?_)
      (fun u hu => ⟨u.1 :: u.2, .cons hu.1 hu.2, fun _ h => .cons h.1 h.2⟩), (v1.mono h2.next).append v2⟩
    cases v with
    | nil => exact .inr ⟨fun z h => (by cases h), fun h => by cases h⟩
    | cons v vs => exact .inl ⟨(v, vs), fun z => All₂.cons_iff, fun h => All₂.cons_iff.1 h, rfl⟩

/-- The same allocation several times. -/
theorem repB_al {α β : Type} {m : B p α} {vars : α → List (Lc p)} {S : α → Asg p → β → Prop} {wf : β → Prop}
    {inp : β → List (ZMod p)} (h : Al m vars S wf inp) (n : Nat) :
    Al (repB n m) (fun as => as.flatMap vars) (fun as z vs => All₂ (fun a v => S a z v) as vs)
      (fun vs => vs.length = n ∧ ∀ v ∈ vs, wf v) fun vs => vs.flatMap inp := by
  have key : ∀ (l : List Nat) (vs : List β), All₂ (fun _ v => wf v) l vs ↔ vs.length = l.length ∧ ∀ v ∈ vs, wf v := by
    intro l
    induction l with
    | nil =>
      intro vs
      rw [All₂.nil_iff]
      constructor
      · rintro rfl
        simp
      · rintro ⟨h, _⟩
        exact List.length_eq_zero_iff.1 h
    | cons i l ih =>
      intro vs
      cases vs with
      | nil => exact ⟨fun h => (by cases h), fun h => by simp at h⟩
      | cons v vs =>
        rw [All₂.cons_iff, ih]
        simp
        exact ⟨fun h => ⟨h.2.1, h.1, h.2.2⟩, fun h => ⟨h.2.1, h.1, h.2.2⟩⟩
  have := mapB_al (ι := Nat) (f := fun _ => m) (wf := fun _ => wf) (fun _ => h) (List.range n)
  intro st ok
  obtain ⟨a, st', e, h1, h2⟩ := this st ok
  refine ⟨a, st', e, h1.map id (fun _ _ => Iff.rfl) (fun v hv => (key _ v).2 (by simpa using hv))
    (fun u hu => ⟨u, rfl, by simpa using (key _ u).1 hu⟩) (fun _ => rfl), h2⟩

/-- Related options. -/
inductive Opt₂ {α β : Type} (K : α → β → Prop) : Option α → Option β → Prop
  | none : Opt₂ K none none
  | some {a : α} {b : β} : K a b → Opt₂ K (some a) (some b)

theorem optB_al {α β : Type} {m : B p α} {vars : α → List (Lc p)} {S : α → Asg p → β → Prop} {wf : β → Prop}
    {inp : β → List (ZMod p)} (h : Al m vars S wf inp) (b : Bool) :
    Al (optB b m) (fun a => a.toList.flatMap vars) (fun a z v => Opt₂ (fun a v => S a z v) a v)
      (fun v => v.isSome = b ∧ ∀ x, v = some x → wf x) (Verif.Transfer.optIn inp) := by
  intro st ok
  cases b with
  | false =>
    refine ⟨none, st, rfl, (Alloc.refl ok).conv (fun v => ?_) (fun u _ => ⟨none, by simp, fun _ _ => .none⟩), ?_⟩
    · cases v with
      | none => exact .inl ⟨(), fun z => ⟨fun _ => trivial, fun _ => .none⟩, fun _ => trivial, rfl⟩
      | some v => exact .inr ⟨fun z h => (by cases h), fun h => by simp at h⟩
    · intro c hc
      simp at hc
  | true =>
    obtain ⟨a, st1, e1, h1, v1⟩ := h st ok
    refine ⟨some a, st1, (run_bind e1).trans rfl, h1.conv (fun v => ?_)
      (fun u hu => ⟨some u, by simpa using hu, fun _ h => .some h⟩), ?_⟩
    · cases v with
      | none => exact .inr ⟨fun z h => (by cases h), fun h => by simp at h⟩
      | some v =>
        exact .inl ⟨v, fun z => ⟨fun h => (by cases h; assumption), fun h => .some h⟩, fun h => h.2 v rfl, rfl⟩
    · simpa using v1

/-! ## The parts of a transfer -/

structure RdAsset (a : AssetV p) (z : Asg p) (v : Asset) : Prop where
  id : a.id z = (v.id : ZMod p)
  value : a.value z = (v.value : ZMod p)

def AssetV.vars (a : AssetV p) : List (Lc p) := [a.id, a.value]

theorem asset_al (hp : 128 < numBits p) (A : Ark p) (m : Mode) :
    Al (allocAsset A m) AssetV.vars RdAsset (fun v => v.id < p ∧ v.value < 2 ^ 128)
      fun v => ifPub m [(v.id : ZMod p), (v.value : ZMod p)] := by
  intro st ok
  obtain ⟨a, st1, e1, h1, v1⟩ := allocId_al (p := p) m st ok
  obtain ⟨b, st2, e2, h2, v2⟩ := allocU_al hp A m st1 h1.rows
  refine ⟨⟨a, b⟩, st2, (run_bind e1).trans ((run_bind e2).trans rfl),
    (h1.prod h2).map (fun v : Asset => (v.id, v.value)) (fun z v => ⟨fun h => ⟨h.1, h.2⟩, fun h => ⟨h.1, h.2⟩⟩)
      (fun v h => h) (fun u h => ⟨⟨u.1, u.2⟩, rfl, h⟩) (fun v => by cases m <;> rfl), (v1.mono h2.next).append v2⟩

structure RdPlain (a : PlainV p) (z : Asg p) (v : Plain (ty C R)) : Prop where
  rand : a.rand z = v.rand
  asset : RdAsset a.asset z v.asset

def PlainV.vars (a : PlainV p) : List (Lc p) := [a.rand] ++ a.asset.vars

theorem plain_al (hp : 128 < numBits p) (A : Ark p) :
    Al (allocPlain A) PlainV.vars (RdPlain (C := C) (R := R)) (fun v => v.asset.id < p ∧ v.asset.value < 2 ^ 128)
      fun _ => [] := by
  intro st ok
  obtain ⟨a, st1, e1, h1, v1⟩ := allocF_al (p := p) .sec st ok
  obtain ⟨b, st2, e2, h2, v2⟩ := asset_al hp A .sec st1 h1.rows
  refine ⟨⟨a, b⟩, st2, (run_bind e1).trans ((run_bind e2).trans rfl),
    (h1.prod h2).map (fun v : Plain (ty C R) => (v.rand, v.asset)) (fun z v => ⟨fun h => ⟨h.1, h.2⟩, fun h => ⟨h.1, h.2⟩⟩)
      (fun v h => ⟨trivial, h⟩) (fun u h => ⟨⟨u.1, u.2⟩, rfl, h.2⟩) (fun v => rfl), (v1.mono h2.next).append v2⟩

structure RdUtxo (u : UtxoV p) (z : Asg p) (v : Utxo (ty C R)) : Prop where
  transparent : u.transparent z = fbit v.transparent
  pubAsset : RdAsset u.pubAsset z v.pubAsset
  cm : u.cm z = v.cm

def UtxoV.vars (u : UtxoV p) : List (Lc p) := [u.transparent] ++ (u.pubAsset.vars ++ [u.cm])

theorem utxo_al (hp : 128 < numBits p) (A : Ark p) (m : Mode) :
    Al (allocUtxo A m) UtxoV.vars (RdUtxo (C := C) (R := R)) (fun v => v.pubAsset.id < p ∧ v.pubAsset.value < 2 ^ 128)
      fun v => ifPub m ((enc C R).utxo v) := by
  intro st ok
  obtain ⟨a, st1, e1, h1, v1⟩ := allocB_al (p := p) m st ok
  obtain ⟨b, st2, e2, h2, v2⟩ := asset_al hp A m st1 h1.rows
  obtain ⟨c, st3, e3, h3, v3⟩ := allocF_al (p := p) m st2 h2.rows
  refine ⟨⟨a, b, c⟩, st3, (run_bind e1).trans ((run_bind e2).trans ((run_bind e3).trans rfl)),
    (h1.prod (h2.prod h3)).map (fun v : Utxo (ty C R) => (v.transparent, v.pubAsset, v.cm))
      (fun z v => ⟨fun h => ⟨h.1, h.2, h.3⟩, fun h => ⟨h.1, h.2.1, h.2.2⟩⟩)
      (fun v h => ⟨trivial, h, trivial⟩) (fun u h => ⟨⟨u.1, u.2.1, u.2.2⟩, rfl, h.2.1⟩) (fun v => by cases m <;> rfl),
    (v1.mono (Nat.le_trans h2.next h3.next)).append ((v2.mono h3.next).append v3)⟩

structure RdPath (h : Nat) (w : PathV p) (z : Asg p) (v : Merkle.Path (ZMod p) (ZMod p)) : Prop where
  sib : w.sib z = v.sib
  leaf : w.leaf z = fbit (decide (v.leafIndex % 2 = 1))
  inner : All₂ (fun (a : Lc p) b => a z = fbit b) w.inner (parentBits v.leafIndex h)
  path : All₂ (fun (a : Lc p) b => a z = b) w.path v.path

def PathV.vars (w : PathV p) : List (Lc p) :=
  [w.sib] ++ ([w.leaf] ++ (w.inner.flatMap (fun a => [a]) ++ w.path.flatMap fun a => [a]))

theorem parentBits_length (i n : Nat) : (parentBits i n).length = n := by
  induction n generalizing i with
  | zero => rfl
  | succ n ih => simp [parentBits, ih]

theorem exists_index (b : Bool) (bs : List Bool) :
    ∃ i, decide (i % 2 = 1) = b ∧ parentBits i bs.length = bs := by
  induction bs generalizing b with
  | nil => exact ⟨if b then 1 else 0, by cases b <;> rfl, rfl⟩
  | cons c cs ih =>
    obtain ⟨j, h1, h2⟩ := ih c
    refine ⟨2 * j + if b then 1 else 0, ?_, ?_⟩
    · cases b
      · simp only [Bool.false_eq_true, if_false, decide_eq_false_iff_not]
        omega
      · simp only [if_true, decide_eq_true_eq]
        omega
    · have e : (2 * j + if b then 1 else 0) / 2 = j := by
        cases b
        · simp only [Bool.false_eq_true, if_false]
          omega
        · simp only [if_true]
          omega
      rw [List.length_cons, parentBits, e, h1, h2]

theorem flatMap_nil {α : Type} (l : List α) : (l.flatMap fun _ => ([] : List (ZMod p))) = [] := by
  induction l with
  | nil => rfl
  | cons _ _ ih => simp

theorem path_al (h n : Nat) :
    Al (allocPath h n) PathV.vars (RdPath (p := p) h) (fun v => v.path.length = n) fun _ => [] := by
  intro st ok
  obtain ⟨a, st1, e1, h1, v1⟩ := allocF_al (p := p) .sec st ok
  obtain ⟨b, st2, e2, h2, v2⟩ := allocB_al (p := p) .sec st1 h1.rows
  obtain ⟨c, st3, e3, h3, v3⟩ := repB_al (allocB_al (p := p) .sec) h st2 h2.rows
  obtain ⟨d, st4, e4, h4, v4⟩ := repB_al (allocF_al (p := p) .sec) n st3 h3.rows
  refine ⟨⟨a, b, c, d⟩, st4, (run_bind e1).trans ((run_bind e2).trans ((run_bind e3).trans ((run_bind e4).trans rfl))),
    (h1.prod (h2.prod (h3.prod h4))).map (fun v : Merkle.Path (ZMod p) (ZMod p) =>
      (v.sib, decide (v.leafIndex % 2 = 1), parentBits v.leafIndex h, v.path))
      (fun z v => ⟨fun h => ⟨h.1, h.2, h.3, h.4⟩, fun h => ⟨h.1, h.2.1, h.2.2.1, h.2.2.2⟩⟩)
      (fun v h => ⟨trivial, trivial, ⟨parentBits_length _ _, fun _ _ => trivial⟩, ⟨h, fun _ _ => trivial⟩⟩)
      (fun u hu => ?_) (fun v => ?_),
    (v1.mono (Nat.le_trans h2.next (Nat.le_trans h3.next h4.next))).append
      ((v2.mono (Nat.le_trans h3.next h4.next)).append ((v3.mono h4.next).append v4))⟩
  · obtain ⟨i, hi, hb⟩ := exists_index u.2.1 u.2.2.1
    rw [hu.2.2.1.1] at hb
    exact ⟨{ sib := u.1, leafIndex := i, path := u.2.2.2 }, by rw [hi, hb], hu.2.2.2.1⟩
  · simp only [ifPub, List.nil_append, flatMap_nil]

structure RdSender (h : Nat) (s : SenderV p) (z : Asg p) (v : Sender (ty C R)) : Prop where
  plain : RdPlain s.plain z v.plain
  utxo : RdUtxo s.utxo z v.utxo
  wit : RdPath h s.wit z v.wit
  root : s.root z = v.root
  nul : s.nul z = v.nul.cm

def SenderV.vars (s : SenderV p) : List (Lc p) :=
  [s.orand] ++ (s.plain.vars ++ (s.utxo.vars ++ (s.wit.vars ++ ([s.root] ++ [s.nul]))))

theorem sender_al (hp : 128 < numBits p) (n : Nat) :
    Al (allocSender P n) SenderV.vars (RdSender (C := C) (R := R) P.h)
      (fun s => (s.plain.asset.id < p ∧ s.plain.asset.value < 2 ^ 128) ∧
        (s.utxo.pubAsset.id < p ∧ s.utxo.pubAsset.value < 2 ^ 128) ∧ (Merkle.Path.path s.wit).length = n)
      fun s => Verif.Transfer.inSender (enc C R) s.root s.nul := by
  intro st ok
  obtain ⟨a, st1, e1, h1, v1⟩ := allocAny_al (p := p) st ok
  obtain ⟨b, st2, e2, h2, v2⟩ := plain_al (C := C) (R := R) hp P.ark st1 h1.rows
  obtain ⟨c, st3, e3, h3, v3⟩ := utxo_al (C := C) (R := R) hp P.ark .sec st2 h2.rows
  obtain ⟨d, st4, e4, h4, v4⟩ := path_al P.h n st3 h3.rows
  obtain ⟨e, st5, e5, h5, v5⟩ := allocF_al (p := p) .pub st4 h4.rows
  obtain ⟨f, st6, e6, h6, v6⟩ := allocF_al (p := p) .pub st5 h5.rows
  have n5 := h6.next
  have n4 := Nat.le_trans h5.next n5
  have n3 := Nat.le_trans h4.next n4
  have n2 := Nat.le_trans h3.next n3
  have n1 := Nat.le_trans h2.next n2
  refine ⟨⟨a, b, c, d, e, f⟩, st6, (run_bind e1).trans ((run_bind e2).trans ((run_bind e3).trans ((run_bind e4).trans
    ((run_bind e5).trans ((run_bind e6).trans rfl))))),
    (h1.prod (h2.prod (h3.prod (h4.prod (h5.prod h6))))).map (fun v : Sender (ty C R) =>
      ((), v.plain, v.utxo, v.wit, v.root, v.nul.cm))
      (fun z v => ⟨fun h => ⟨trivial, h.1, h.2, h.3, h.4, h.5⟩, fun h => ⟨h.2.1, h.2.2.1, h.2.2.2.1, h.2.2.2.2.1,
        h.2.2.2.2.2⟩⟩)
      (fun v h => ⟨trivial, h.1, h.2.1, h.2.2, trivial, trivial⟩)
      (fun u hu => ⟨⟨0, u.2.1, u.2.2.1, u.2.2.2.1, u.2.2.2.2.1, ⟨u.2.2.2.2.2, default⟩⟩, rfl,
        hu.2.1, hu.2.2.1, hu.2.2.2.1⟩) (fun v => rfl),
    (v1.mono n1).append ((v2.mono n2).append ((v3.mono n3).append ((v4.mono n4).append ((v5.mono n5).append v6))))⟩

structure RdNote (C : Curve p r) (n : NoteV p) (z : Asg p) (v : C.E × ZMod p × List (List (ZMod p))) : Prop where
  epk : n.epk.x z = C.x v.1 ∧ n.epk.y z = C.y v.1
  tag : n.tag z = v.2.1
  blocks : All₂ (fun (b : List (Lc p)) c => All₂ (fun (a : Lc p) b => a z = b) b c) n.blocks v.2.2

def NoteV.vars (n : NoteV p) : List (Lc p) :=
  [n.epk.x, n.epk.y] ++ ([n.tag] ++ n.blocks.flatMap fun b => b.flatMap fun a => [a])

theorem All₂.lengths {α : Type} {lens : List Nat} {bs : List (List α)} :
    All₂ (fun n (vs : List α) => vs.length = n ∧ ∀ v ∈ vs, True) lens bs ↔ bs.map List.length = lens := by
  induction lens generalizing bs with
  | nil =>
    rw [All₂.nil_iff]
    simp
  | cons n ls ih =>
    cases bs with
    | nil => exact ⟨fun h => (by cases h), fun h => by simp at h⟩
    | cons b bs =>
      rw [All₂.cons_iff, ih]
      simp

theorem flatten_flatMap (l : List (List (ZMod p))) :
    l.flatten = l.flatMap fun vs => vs.flatMap fun v => ifPub .pub [v] := by
  induction l with
  | nil => rfl
  | cons b bs ih =>
    rw [List.flatten_cons, List.flatMap_cons, ih]
    simp [ifPub]

theorem note_al (lens : List Nat) :
    Al (allocNote C lens) NoteV.vars (RdNote C) (fun v => v.2.2.map List.length = lens)
      fun v => (enc C R).inote v := by
  intro st ok
  obtain ⟨a, st1, e1, h1, v1⟩ := allocPt_al (C := C) .pub st ok
  obtain ⟨b, st2, e2, h2, v2⟩ := allocF_al (p := p) .pub st1 h1.rows
  obtain ⟨c, st3, e3, h3, v3⟩ := mapB_al (fun n => repB_al (allocF_al (p := p) .pub) n) lens st2 h2.rows
  refine ⟨⟨a, b, c⟩, st3, (run_bind e1).trans ((run_bind e2).trans ((run_bind e3).trans rfl)),
    (h1.prod (h2.prod h3)).map id
      (fun z v => ⟨fun h => ⟨h.1, h.2, h.3⟩, fun h => ⟨h.1, h.2.1, h.2.2⟩⟩)
      (fun v h => ⟨fun e => (by cases e), trivial, All₂.lengths.2 h⟩) (fun u h => ⟨u, rfl, All₂.lengths.1 h.2.2⟩)
      (fun v => ?_),
    (v1.mono (Nat.le_trans h2.next h3.next)).append ((v2.mono h3.next).append v3)⟩
  show C.x v.1 :: C.y v.1 :: v.2.1 :: v.2.2.flatten = C.x v.1 :: C.y v.1 :: v.2.1 :: _
  rw [flatten_flatMap]
  rfl

structure RdReceiver (a : ReceiverV p) (z : Asg p) (v : Receiver (ty C R)) : Prop where
  rk : a.rk.x z = C.x v.rk ∧ a.rk.y z = C.y v.rk
  irand : ((a.irand z).val : ZMod r) = v.irand
  plain : RdPlain a.plain z v.plain
  utxo : RdUtxo a.utxo z v.utxo
  note : RdNote C a.note z v.note.inote

def ReceiverV.vars (a : ReceiverV p) : List (Lc p) :=
  [a.rk.x, a.rk.y] ++ ([a.irand] ++ (a.plain.vars ++ (a.utxo.vars ++ a.note.vars)))

theorem receiver_al (hp : 128 < numBits p) (hr : r ≠ 0) (hle : r ≤ p) (lens : List Nat) :
    Al (allocReceiver P lens) ReceiverV.vars (RdReceiver (C := C) (R := R))
      (fun x => (x.plain.asset.id < p ∧ x.plain.asset.value < 2 ^ 128) ∧
        (x.utxo.pubAsset.id < p ∧ x.utxo.pubAsset.value < 2 ^ 128) ∧ r • x.rk = 0 ∧
        x.note.inote.2.2.map List.length = lens)
      fun x => Verif.Transfer.inReceiver (enc C R) x.utxo x.note := by
  intro st ok
  obtain ⟨a, st1, e1, h1, v1⟩ := allocPt_al (C := C) .sec st ok
  obtain ⟨b, st2, e2, h2, v2⟩ := allocS_al hr hle st1 h1.rows
  obtain ⟨c, st3, e3, h3, v3⟩ := plain_al (C := C) (R := R) hp P.ark st2 h2.rows
  obtain ⟨d, st4, e4, h4, v4⟩ := utxo_al (C := C) (R := R) hp P.ark .pub st3 h3.rows
  obtain ⟨e, st5, e5, h5, v5⟩ := note_al (C := C) (R := R) lens st4 h4.rows
  have n4 := h5.next
  have n3 := Nat.le_trans h4.next n4
  have n2 := Nat.le_trans h3.next n3
  have n1 := Nat.le_trans h2.next n2
  refine ⟨⟨a, b, c, d, e⟩, st5, (run_bind e1).trans ((run_bind e2).trans ((run_bind e3).trans ((run_bind e4).trans
    ((run_bind e5).trans rfl)))),
    (h1.prod (h2.prod (h3.prod (h4.prod h5)))).map (fun v : Receiver (ty C R) =>
      (v.rk, v.irand, v.plain, v.utxo, v.note.inote))
      (fun z v => ⟨fun h => ⟨h.1, h.2, h.3, h.4, h.5⟩, fun h => ⟨h.1, h.2.1, h.2.2.1, h.2.2.2.1, h.2.2.2.2⟩⟩)
      (fun v h => ⟨fun _ => h.2.2.1, trivial, h.1, h.2.1, h.2.2.2⟩)
      (fun u hu => ⟨⟨u.1, u.2.1, u.2.2.1, u.2.2.2.1, ⟨default, u.2.2.2.2, default⟩⟩, rfl,
        hu.2.2.1, hu.2.2.2.1, hu.1 rfl, hu.2.2.2.2⟩) (fun v => rfl),
    (v1.mono n1).append ((v2.mono n2).append ((v3.mono n3).append ((v4.mono n4).append v5)))⟩

structure RdAuth (a : AuthV p) (z : Asg p) (v : Auth (ty C R)) : Prop where
  pak : a.pak.x z = C.x v.pak ∧ a.pak.y z = C.y v.pak
  rand : ((a.rand z).val : ZMod r) = v.rand
  rpak : a.rpak.x z = C.x v.rpak ∧ a.rpak.y z = C.y v.rpak

def AuthV.vars (a : AuthV p) : List (Lc p) := [a.pak.x, a.pak.y] ++ ([a.rand] ++ [a.rpak.x, a.rpak.y])

theorem auth_al (hr : r ≠ 0) (hle : r ≤ p) :
    Al (allocAuth C) AuthV.vars (RdAuth (C := C) (R := R)) (fun a => r • a.pak = 0)
      fun a => (enc C R).grp (Verif.Transfer.Auth.key a) := by
  intro st ok
  obtain ⟨a, st1, e1, h1, v1⟩ := allocPt_al (C := C) .sec st ok
  obtain ⟨b, st2, e2, h2, v2⟩ := allocS_al hr hle st1 h1.rows
  obtain ⟨c, st3, e3, h3, v3⟩ := allocPt_al (C := C) .pub st2 h2.rows
  refine ⟨⟨a, b, c⟩, st3, (run_bind e1).trans ((run_bind e2).trans ((run_bind e3).trans rfl)),
    (h1.prod (h2.prod h3)).map (fun v : Auth (ty C R) => (v.pak, v.rand, v.rpak))
      (fun z v => ⟨fun h => ⟨h.1, h.2, h.3⟩, fun h => ⟨h.1, h.2.1, h.2.2⟩⟩)
      (fun v h => ⟨fun _ => h, trivial, fun e => by cases e⟩) (fun u h => ⟨⟨u.1, u.2.1, u.2.2⟩, rfl, h.1 rfl⟩)
      (fun v => rfl),
    (v1.mono (Nat.le_trans h2.next h3.next)).append ((v2.mono h3.next).append v3)⟩

/-! ## Transfers -/

structure RdTransfer (h : Nat) (tv : TransferV p) (z : Asg p) (t : Transfer (ty C R)) : Prop where
  auth : Opt₂ (fun a v => RdAuth a z v) tv.auth t.auth
  assetId : Opt₂ (fun (a : Lc p) (v : Nat) => a z = (v : ZMod p)) tv.assetId t.assetId
  sources : All₂ (fun (a : Lc p) (v : Nat) => a z = (v : ZMod p)) tv.sources t.sources
  senders : All₂ (fun a v => RdSender h a z v) tv.senders t.senders
  receivers : All₂ (fun a v => RdReceiver a z v) tv.receivers t.receivers
  sinks : All₂ (fun (a : Lc p) (v : Nat) => a z = (v : ZMod p)) tv.sinks t.sinks

def TransferV.vars (t : TransferV p) : List (Lc p) :=
  t.auth.toList.flatMap AuthV.vars ++ (t.assetId.toList.flatMap (fun a => [a]) ++ (t.sources.flatMap (fun a => [a]) ++
    (t.senders.flatMap SenderV.vars ++ (t.receivers.flatMap ReceiverV.vars ++ t.sinks.flatMap fun a => [a]))))

/-- A transfer has this shape: the numbers of its participants, an authorization exactly if there are senders and an
asset id exactly if there are public participants. -/
structure HasShape (s : Shape) (t : Transfer (ty C R)) : Prop where
  sources : t.sources.length = s.sources
  senders : t.senders.length = s.senders
  receivers : t.receivers.length = s.receivers
  sinks : t.sinks.length = s.sinks
  auth : t.auth.isSome = decide (s.senders > 0)
  assetId : t.assetId.isSome = decide (s.sources + s.sinks > 0)

theorem transfer_al (hP : P.Ok) (s : Shape) :
    Al (unknown P s) TransferV.vars (RdTransfer (C := C) (R := R) P.h) (fun t => Fits P t ∧ HasShape s t)
      fun t => Verif.Transfer.Transfer.input (enc C R) t := by
  intro st ok
  obtain ⟨a, st1, e1, h1, v1⟩ := optB_al (auth_al (C := C) (R := R) hP.rpos hP.rle)
    (Verif.Transfer.requiresAuthorization s.senders) st ok
  obtain ⟨b, st2, e2, h2, v2⟩ := optB_al (allocId_al (p := p) .pub)
    (Verif.Transfer.hasPublicParticipants s.sources s.sinks) st1 h1.rows
  obtain ⟨c, st3, e3, h3, v3⟩ := repB_al (allocU_al hP.field P.ark .pub) s.sources st2 h2.rows
  obtain ⟨d, st4, e4, h4, v4⟩ := repB_al (sender_al (P := P) (R := R) hP.field P.h) s.senders st3 h3.rows
  obtain ⟨e, st5, e5, h5, v5⟩ := repB_al (receiver_al (P := P) (R := R) hP.field hP.rpos hP.rle [P.encC.width - 1])
    s.receivers st4 h4.rows
  obtain ⟨f, st6, e6, h6, v6⟩ := repB_al (allocU_al hP.field P.ark .pub) s.sinks st5 h5.rows
  have n5 := h6.next
  have n4 := Nat.le_trans h5.next n5
  have n3 := Nat.le_trans h4.next n4
  have n2 := Nat.le_trans h3.next n3
  have n1 := Nat.le_trans h2.next n2
  refine ⟨⟨a, b, c, d, e, f⟩, st6, (run_bind e1).trans ((run_bind e2).trans ((run_bind e3).trans ((run_bind e4).trans
    ((run_bind e5).trans ((run_bind e6).trans rfl))))),
    (h1.prod (h2.prod (h3.prod (h4.prod (h5.prod h6))))).map (fun t : Transfer (ty C R) =>
      (t.auth, t.assetId, t.sources, t.senders, t.receivers, t.sinks))
      (fun z v => ⟨fun h => ⟨h.1, h.2, h.3, h.4, h.5, h.6⟩, fun h => ⟨h.1, h.2.1, h.2.2.1, h.2.2.2.1, h.2.2.2.2.1,
        h.2.2.2.2.2⟩⟩)
      (fun t h => ⟨⟨h.2.auth, h.1.auth⟩, ⟨h.2.assetId, h.1.assetId⟩, ⟨h.2.sources, h.1.sources⟩,
        ⟨h.2.senders, h.1.senders⟩, ⟨h.2.receivers, h.1.receivers⟩, ⟨h.2.sinks, h.1.sinks⟩⟩)
      (fun u hu => ⟨⟨u.1, u.2.1, u.2.2.1, u.2.2.2.1, u.2.2.2.2.1, u.2.2.2.2.2⟩, rfl, ?_, ?_⟩) (fun t => ?_),
    (v1.mono n1).append ((v2.mono n2).append ((v3.mono n3).append ((v4.mono n4).append ((v5.mono n5).append v6))))⟩
  · obtain ⟨⟨_, h1⟩, ⟨_, h2⟩, ⟨_, h3⟩, ⟨_, h4⟩, ⟨_, h5⟩, ⟨_, h6⟩⟩ := hu
    exact ⟨h2, h1, h3, h6, h4, h5⟩
  · obtain ⟨⟨h1, _⟩, ⟨h2, _⟩, ⟨h3, _⟩, ⟨h4, _⟩, ⟨h5, _⟩, ⟨h6, _⟩⟩ := hu
    exact ⟨h3, h4, h5, h6, h1, h2⟩
  · simp only [Verif.Transfer.Transfer.input, List.append_assoc]
    rfl

end Verif.Circuit
