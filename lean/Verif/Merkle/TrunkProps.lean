import Verif.Merkle.TrunkRel
import Verif.Merkle.ForkProps

/-! # Trunks and forks: C137 -/

namespace Verif.Merkle

variable {T D N : Type} (H : Hash D N) (h : Nat)
variable {I : Base T D N} {G : T → List (D × Bool) → Prop} {keep : Bool → Bool} {room : Nat} {K : Kind}
variable {P : Type} {mk : P → T} {lv : P → List (D × Bool)}

/-- Whenever a tree is planted or a fork merged, no inner node above its leaves is the default digest. -/
def Grove.Clear (keep : Bool → Bool) (room : Nat) (lv : P → List (D × Bool)) (g : Grove D) : List (Act P D) → Prop
  | [] => True
  | a :: as =>
    (match a with
     | .plant p => NonDefaultOn H h ((lv p).map Prod.fst)
     | .merge i j => ∀ q, g.fork j = some (some i, q) → NonDefaultOn H h q.digests
     | _ => True) ∧
    ∀ b g', g.step h keep room lv a = some (b, g') → Grove.Clear keep room lv g' as

theorem NonDefault.groveClear (hd : NonDefault H) (keep : Bool → Bool) (room : Nat) (lv : P → List (D × Bool)) :
    ∀ (as : List (Act P D)) (g : Grove D), g.Clear H h keep room lv as
  | [], _ => trivial
  | a :: as, _ => ⟨by cases a <;> simp only <;> first | exact hd.on H h _ | exact fun q _ => hd.on H h _,
      fun _ g' _ => NonDefault.groveClear hd keep room lv as g'⟩

namespace Wood

variable {H h} {w : Wood T D N} {g : Grove D}

theorem Rel.more (hr : Rel H h G K w g) {n : Nat} (hn : w.fresh ≤ n) : Rel H h G K { w with fresh := n } g :=
  ⟨hr.tl, hr.fl, hr.tn, hr.fn, fun e1 e2 => ⟨Nat.lt_of_lt_of_le (hr.tree e1 e2).1 hn, (hr.tree e1 e2).2⟩, hr.one,
    fun e1 e2 => ⟨Nat.lt_of_lt_of_le (hr.fork e1 e2).old hn, (hr.fork e1 e2).att, (hr.fork e1 e2).rel⟩⟩

variable (H h)

theorem Rel.step (h1 : 1 ≤ h) (hI : I.Ok H h G keep room) (hmk : ∀ p, G (mk p) (lv p)) (hr : Rel H h G K w g)
    (a : Act P D) (as : List (Act P D)) (hc : g.Clear H h keep room lv (a :: as)) :
    match g.step h keep room lv a with
    | none => w.step I H h K mk a = none
    | some (b, g') => ∃ w', w.step I H h K mk a = some (b, w') ∧ Rel H h G K w' g' := by
  have hc1 := hc.1
  cases a with
  | plant p => exact ⟨_, rfl, hr.addTrunk (hmk p) hc1⟩
  | fell i =>
    simp only [Grove.step, Wood.step]
    cases hw : w.trunk i with
    | none =>
      rw [(hr.tn i).mp hw]
      exact ⟨w, rfl, hr⟩
    | some tr =>
      obtain ⟨r, hg⟩ := hr.someTrunk hw
      rw [hg]
      refine ⟨_, rfl, ?_⟩
      have := hr.setTrunk hw none (fun _ e => by cases e)
      refine ⟨this.tl, this.fl, this.tn, this.fn, fun {i tr r} e1 e2 => ?_, this.one, fun {j f a q} e1 e2 => ?_⟩
      · refine ⟨?_, (this.tree e1 e2).2⟩
        have e3 : (w.trunks.set _ none)[i]?.join = some tr := e1
        rw [lookup_set hw] at e3
        split at e3
        · cases e3
        · exact (hr.tree e3 (hr.someTrunk e3).choose_spec).1
      · refine ⟨?_, (this.fork e1 e2).att, (this.fork e1 e2).rel⟩
        obtain ⟨a2, q2, e3⟩ := hr.someFork (j := j) (f := f) e1
        exact (hr.fork e1 e3).old
  | fork i =>
    simp only [Grove.step, Wood.step]
    cases hw : w.trunk i with
    | none =>
      rw [(hr.tn i).mp hw]
      exact ⟨w, rfl, hr⟩
    | some tr =>
      obtain ⟨r, hg⟩ := hr.someTrunk hw
      obtain ⟨t1, t2, t3⟩ := hr.tree hw hg
      rw [hg]
      obtain ⟨b, e1, e2⟩ := Branch.grown H h h1 hI t2 t3 [] (K := K) (by simpa using hI.cap t2)
      simp only [e1, Option.map_some]
      refine ⟨_, rfl, hr.addFork ⟨t1, fun k => ⟨?_, ?_⟩, tr.tree, e2, ?_⟩⟩
      · intro e; cases e; exact ⟨tr, hw, rfl⟩
      · rintro ⟨tr2, e3, e4⟩
        rw [hr.one hw e3 e4.symm]
      · intro k e
        cases e
        exact ⟨hg, fun tr2 e3 => by rw [hw] at e3; cases e3; rfl⟩
  | forkWith i ds =>
    simp only [Grove.step, Wood.step]
    cases hw : w.trunk i with
    | none =>
      rw [(hr.tn i).mp hw]
      exact ⟨w, rfl, hr⟩
    | some tr =>
      obtain ⟨r, hg⟩ := hr.someTrunk hw
      obtain ⟨t1, t2, t3⟩ := hr.tree hw hg
      have hv : (I.view tr.tree).len = r.length := by rw [(hI.right t2 t3).len, List.length_map]
      rw [hg]
      simp only [Branch.new]
      by_cases hroom : r.length + ds.length < 2 ^ (h + 1)
      · rw [if_pos hroom, if_neg (by rw [hv]; unfold capacity; omega)]
        obtain ⟨b, e1, e2⟩ := Branch.grown H h h1 hI t2 t3 ds (K := K) (by omega)
        simp only [e1, Option.map_some]
        refine ⟨_, rfl, hr.addFork ⟨t1, fun k => ⟨?_, ?_⟩, tr.tree, e2, ?_⟩⟩
        · intro e; cases e; exact ⟨tr, hw, rfl⟩
        · rintro ⟨tr2, e3, e4⟩
          rw [hr.one hw e3 e4.symm]
        · intro k e
          cases e
          exact ⟨hg, fun tr2 e3 => by rw [hw] at e3; cases e3; rfl⟩
      · rw [if_neg hroom, if_pos (by rw [hv]; unfold capacity; omega)]
        exact ⟨w, rfl, hr⟩
  | push j d =>
    simp only [Grove.step, Wood.step]
    cases hw : w.fork j with
    | none =>
      rw [(hr.fn j).mp hw]
      exact ⟨w, rfl, hr⟩
    | some f =>
      obtain ⟨a, q, hg⟩ := hr.someFork hw
      have hf := hr.fork hw hg
      have hu := hf.upgrade hr
      rw [hg]
      cases a with
      | none =>
        simp only at hu
        simp only [isAttached, hu, Option.isSome_none, Bool.false_eq_true, if_false]
        exact ⟨w, rfl, hr⟩
      | some i =>
        obtain ⟨tr, u1, u2, u3⟩ := hu
        simp only [isAttached, u3, Option.isSome_some, if_true]
        obtain ⟨t, r1, r2⟩ := hf.rel
        have hs := r1.step H h h1 hI (.pushProvable d) (fun e => by cases e)
        simp only [FRef.step, Forked.step, Option.some.injEq, Prod.mk.injEq] at hs
        obtain ⟨f', ⟨s1, s2⟩, s3⟩ := hs
        rw [s1]
        refine ⟨_, rfl, hr.setFork hw hg ⟨hf.old, hf.att, t, ?_, r2⟩⟩
        rw [← s2] at s3
        exact s3
  | batch j ds =>
    simp only [Grove.step, Wood.step]
    cases hw : w.fork j with
    | none =>
      rw [(hr.fn j).mp hw]
      exact ⟨w, rfl, hr⟩
    | some f =>
      obtain ⟨a, q, hg⟩ := hr.someFork hw
      have hf := hr.fork hw hg
      have hu := hf.upgrade hr
      rw [hg]
      cases a with
      | none =>
        simp only at hu
        simp only [isAttached, hu, Option.isSome_none, Bool.false_eq_true, if_false]
        exact ⟨w, rfl, hr⟩
      | some i =>
        obtain ⟨tr, u1, u2, u3⟩ := hu
        simp only [isAttached, u3, Option.isSome_some, if_true]
        by_cases hds : ds = []
        · rw [if_pos hds, if_pos hds]
          exact ⟨w, rfl, hr⟩
        · rw [if_neg hds, if_neg hds]
          obtain ⟨t, r1, r2⟩ := hf.rel
          have hs := r1.step H h h1 hI (.batchProvable ds) (fun e => by cases e)
          simp only [FRef.step, Forked.step] at hs
          obtain ⟨f', s1, s3⟩ := hs
          rw [Option.map_eq_some_iff] at s1
          obtain ⟨x, s4, s5⟩ := s1
          simp only [Prod.mk.injEq] at s5
          obtain ⟨s5, s6⟩ := s5
          rw [s4, Option.map_some, s5]
          refine ⟨_, rfl, hr.setFork hw hg ⟨hf.old, hf.att, t, ?_, r2⟩⟩
          rw [← s6] at s3
          exact s3
  | attach j i =>
    simp only [Grove.step, Wood.step]
    cases hw : w.fork j with
    | none =>
      rw [(hr.fn j).mp hw]
      exact ⟨w, rfl, hr⟩
    | some f =>
      obtain ⟨a, q, hg⟩ := hr.someFork hw
      rw [hg]
      cases hwt : w.trunk i with
      | none =>
        rw [(hr.tn i).mp hwt]
        exact ⟨w, rfl, hr⟩
      | some tr =>
        obtain ⟨r, hgt⟩ := hr.someTrunk hwt
        obtain ⟨t1, t2, t3⟩ := hr.tree hwt hgt
        rw [hgt]
        have hf := hr.fork hw hg
        obtain ⟨t, r1, r2⟩ := hf.rel
        have hreb := r1.tryRebase H h h1 hI t2 t3
        simp only
        by_cases hroom : r.length + q.pend.length + Branch.startOf q.base.length < 2 ^ (h + 1)
        · rw [if_pos hroom] at hreb ⊢
          obtain ⟨b, e1, e2⟩ := hreb
          simp only at e1
          simp only [e1, Option.map_some, if_true]
          refine ⟨_, rfl, hr.setFork hw hg ⟨t1, fun k => ⟨?_, ?_⟩, tr.tree, e2, ?_⟩⟩
          · intro e; cases e; exact ⟨tr, hwt, rfl⟩
          · rintro ⟨tr2, e3, e4⟩
            rw [hr.one hwt e3 e4.symm]
          · intro k e
            cases e
            exact ⟨hgt, fun tr2 e3 => by rw [hwt] at e3; cases e3; rfl⟩
        · rw [if_neg hroom] at hreb ⊢
          simp only at hreb
          simp only [hreb, Option.map_some, Bool.false_eq_true, if_false]
          refine ⟨_, rfl, ?_⟩
          have := hr.setFork hw hg hf
          have hid : g.forks.set j (some (a, q)) = g.forks := by
            refine List.ext_getElem? fun k => ?_
            by_cases hk : j = k
            · subst hk
              unfold Grove.fork at hg
              cases hx : g.forks[j]? with
              | none => rw [hx] at hg; cases hg
              | some y =>
                rw [hx] at hg
                rw [List.getElem?_set_self (by
                  rcases Nat.lt_or_ge j g.forks.length with e | e
                  · exact e
                  · rw [List.getElem?_eq_none e] at hx; cases hx)]
                simp only [Option.join_some] at hg
                rw [hg]
            · rw [List.getElem?_set_ne hk]
          rw [hid] at this
          exact this
  | merge i j =>
    simp only [Grove.step, Wood.step]
    cases hw : w.fork j with
    | none =>
      rw [(hr.fn j).mp hw]
      exact ⟨w, rfl, hr⟩
    | some f =>
      obtain ⟨a, q, hg⟩ := hr.someFork hw
      rw [hg]
      cases hwt : w.trunk i with
      | none =>
        rw [(hr.tn i).mp hwt]
        exact ⟨w, rfl, hr⟩
      | some tr =>
        obtain ⟨r, hgt⟩ := hr.someTrunk hwt
        rw [hgt]
        have hf := hr.fork hw hg
        have hu := hf.upgrade hr
        simp only
        by_cases ha : a = some i
        · rw [if_pos ha]
          subst ha
          obtain ⟨tr2, u1, u2, u3⟩ := hu
          rw [hwt] at u1
          cases u1
          have hab : w.attachedBase f tr = some tr := by
            unfold attachedBase
            rw [u3, Option.filter_some, if_pos (by simp)]
          rw [hab]
          obtain ⟨t, r1, r2⟩ := hf.rel
          have ht := (r2 i rfl).2 tr hwt
          obtain ⟨ds, e1, e2⟩ := r1.merged H h h1 hI (hc1 q hg)
          simp only at e1 e2
          simp only [e1, Option.bind_some]
          by_cases hroom : q.base.length + q.pend.length ≤ room
          · rw [if_pos hroom] at e2 ⊢
            obtain ⟨t', e3, e4, e5⟩ := e2
            rw [ht, e3]
            refine ⟨_, rfl, ?_⟩
            exact (hr.dropFork hw hg).setTrunk (w := { w with forks := w.forks.set j none }) hwt
              (some (t', q.base ++ q.pend.map fun x => (x.1, keep x.2))) (fun y e => by cases e; exact ⟨e4, e5⟩)
          · rw [if_neg hroom] at e2 ⊢
            simp only
            rw [ht, e2]
            rfl
        · rw [if_neg ha]
          have hab : w.attachedBase f tr = none := by
            unfold attachedBase
            cases hup : w.upgrade f.base with
            | none => rfl
            | some tr2 =>
              rw [Option.filter_some, if_neg]
              intro he
              obtain ⟨m1, m2⟩ := upgrade_mem hup
              refine ha ((hf.att i).mpr ⟨tr, hwt, ?_⟩)
              rw [← m1]
              simpa using (of_decide_eq_true he).symm
          rw [hab]
          exact ⟨w, rfl, hr⟩

theorem Rel.run (h1 : 1 ≤ h) (hI : I.Ok H h G keep room) (hmk : ∀ p, G (mk p) (lv p)) :
    ∀ (as : List (Act P D)) {w : Wood T D N} {g : Grove D}, Rel H h G K w g → g.Clear H h keep room lv as →
    match g.run h keep room lv as with
    | none => w.run I H h K mk as = none
    | some (bs, g') => ∃ w', w.run I H h K mk as = some (bs, w') ∧ Rel H h G K w' g'
  | [], w, g, hr, _ => ⟨w, rfl, hr⟩
  | a :: as, w, g, hr, hc => by
    have hs := hr.step H h h1 hI hmk a as hc
    simp only [Grove.run, Wood.run]
    cases hq : g.step h keep room lv a with
    | none =>
      rw [hq] at hs
      simp only [Option.bind_none]
      rw [hs]; rfl
    | some r =>
      rw [hq] at hs
      obtain ⟨f1, e1, e2⟩ := hs
      simp only [Option.bind_some, e1]
      have ih := Rel.run h1 hI hmk as e2 (hc.2 _ _ hq)
      cases hq2 : r.2.run h keep room lv as with
      | none =>
        rw [hq2] at ih
        simp only [Option.map_none]
        rw [ih]; rfl
      | some p =>
        rw [hq2] at ih
        obtain ⟨f2, g1, g2⟩ := ih
        simp only [Option.map_some, g1]
        exact ⟨f2, rfl, g2⟩

theorem Rel.empty : Rel H h G K (Wood.empty : Wood T D N) Grove.empty :=
  ⟨rfl, rfl, fun _ => by simp [trunk, Grove.trunk, Wood.empty, Grove.empty],
    fun _ => by simp [Wood.fork, Grove.fork, Wood.empty, Grove.empty],
    fun e => by simp [trunk, Wood.empty] at e, fun e => by simp [trunk, Wood.empty] at e,
    fun e => by simp [Wood.fork, Wood.empty] at e⟩

end Wood

/-! ## Plain trees -/

/-- The plain full tree of these leaves. -/
def Full.plain (ds : List D) : Full D N := Full.new.pushAll H h ds

/-- A full tree is exactly the plain tree of the leaves of the reference. -/
def Full.Plain (t : Full D N) (r : List (D × Bool)) : Prop :=
  t = Full.plain H h (r.map Prod.fst) ∧ r.length ≤ 2 ^ (h + 1)

theorem Full.plain_leaves {ds : List D} (hc : ds.length ≤ 2 ^ (h + 1)) :
    (Full.plain H h ds : Full D N).Inv H h ∧ (Full.plain H h ds : Full D N).leaves = ds := by
  obtain ⟨hi, hl⟩ := Full.pushAll_spec H h ds (Full.inv_new (D := D) (N := N) H h)
  refine ⟨hi, ?_⟩
  unfold Full.plain
  rw [hl, List.take_of_length_le (by simpa [Full.new, capacity] using hc)]
  simp [Full.new]

theorem Full.Plain.g {t : Full D N} {r : List (D × Bool)} (hp : t.Plain H h r) : Full.G H h t r := by
  obtain ⟨e, hc⟩ := hp
  obtain ⟨hi, hl⟩ := Full.plain_leaves (N := N) H h (ds := r.map Prod.fst) (by simpa using hc)
  rw [e]
  exact ⟨hi.weak, hl⟩

theorem fullBase_plain [DecidableEq N] :
    (fullBase H h : Base (Full D N) D N).Ok H h (Full.Plain H h) (fun _ => true) (2 ^ (h + 1) - 1) where
  keepMono := id
  right hg hn := (fullBase_ok H h).right (hg.g H h) hn
  cap hg := hg.2
  merge := by
    intro t r ds hg hc
    have hl : t.leaves.length = r.length := by rw [(hg.g H h).2, List.length_map]
    have hp := Nat.two_pow_pos (h + 1)
    refine ⟨t.pushAll H h (ds.map Prod.snd), ?_, ?_, by simp only [List.length_append, List.length_map]; omega⟩
    · show (match extendDigests h Full.len (fun t d => t.maybePush H h d) t (ds.map Prod.snd) with
        | .ok t => some t
        | _ => none) = _
      unfold extendDigests
      rw [if_pos (by unfold Full.len capacity; rw [hl, List.length_map]; omega),
        (Full.extendLoop_spec H h (ds.map Prod.snd) t).1 (by rw [hl, List.length_map]; unfold capacity; omega)]
    · rw [hg.1]
      unfold Full.plain Full.pushAll
      rw [List.map_append, List.foldl_append]
      simp [Function.comp_def]
  panic ds hg := (fullBase_ok H h).panic ds (hg.g H h)
  prune hg := ⟨_, rfl, hg⟩
  mono hg he _ := by
    refine ⟨by rw [hg.1, he], ?_⟩
    have := congrArg List.length he
    simp only [List.length_map] at this
    rw [this]
    exact hg.2

/-! ## C137 -/

/-- What a fork answers: whether and where it is attached, its length, and, if its last growth was a single
append, an aligned batch, or the branching off from a nonempty tree, the root of the plain tree of the leaves
before and after the branching point, and the paths of that tree: of all leaves while it is attached, of those in
its window in any case, of the others not once it is detached. -/
structure Fork.Answers [DecidableEq N] (w : Wood (Full D N) D N) (f : Fork D N) (a : Option Nat) (q : FRef D) : Prop where
  attached : w.isAttached f = a.isSome
  attachedTo : ∀ i tr, w.trunk i = some tr → (w.attachedBase f tr).isSome = decide (a = some i)
  len : f.branch.data.len = q.digests.length
  root : q.ok = true → f.branch.data.root H = (Full.plain H h q.digests : Full D N).root H
  path : q.ok = true → ∀ i, i < q.digests.length → a.isSome = true ∨ q.base.length ≤ i + 1 →
    w.path (fullBase H h) H h f i = some ((Full.plain H h q.digests : Full D N).path H h i)
  gone : a = none → ∀ i, i < Branch.startOf q.base.length → w.path (fullBase H h) H h f i = some none

variable {H h} in
theorem Wood.ForkRel.answers [DecidableEq N] {w : Wood (Full D N) D N} {g : Grove D}
    (hr : Wood.Rel H h (Full.Plain H h) K w g) {f : Fork D N} {a : Option Nat} {q : FRef D}
    (hall : q.base.all (·.2) = true) (hf : Wood.ForkRel H h (Full.Plain H h) K w g f a q) :
    f.Answers H h w a q := by
  have hu := hf.upgrade hr
  obtain ⟨t, r1, r2⟩ := hf.rel
  obtain ⟨o1, _, o3⟩ := r1.observe H h (fullBase_plain H h)
  have hlq : q.digests.length = q.base.length + q.pend.length := by simp [FRef.digests]
  have hcap : q.digests.length ≤ 2 ^ (h + 1) := by
    have := r1.data.store.cap
    rw [Branch.ref_digests, List.length_append, List.length_map, List.length_map] at this
    rw [hlq]; exact this
  obtain ⟨pi, pl⟩ := Full.plain_leaves (N := N) H h hcap
  have hlen : f.branch.data.len = q.digests.length := by rw [hlq]; exact o1
  have hdstart := r1.data.start
  simp only at hdstart
  have hsl := Branch.startOf_le q.base.length
  have hsl2 : Branch.startOf q.base.length ≤ q.base.length - 1 := asLeft_le _
  refine ⟨?_, ?_, hlen, fun hok => by rw [pi.root, pl]; exact (o3 hok).1, fun hok i hi hx => ?_, fun ha i hi => ?_⟩
  · unfold Wood.isAttached
    cases a with
    | none => simp only at hu; rw [hu]; rfl
    | some i => obtain ⟨tr, _, _, u⟩ := hu; rw [u]; rfl
  · intro i tr hi
    unfold Wood.attachedBase
    cases a with
    | none => simp only at hu; rw [hu]; rfl
    | some k =>
      obtain ⟨tr2, u1, u2, u3⟩ := hu
      rw [u3, Option.filter_some]
      by_cases he : tr2.ptr = tr.ptr
      · rw [if_pos (by simpa using he), hr.one u1 hi he]
        simp
      · rw [if_neg (by simpa using he)]
        have : k ≠ i := fun e => he (by rw [e, hi] at u1; cases u1; rfl)
        simp [this]
  · rw [pi.path H h (by rw [pl]; exact hi), pl]
    have hmem : q.base[i]? = some (q.digests[i], true) ∨ (q.base.length ≤ i ∧ q.digests[i]? = some q.digests[i]) := by
      by_cases hib : i < q.base.length
      · left
        have hx := List.all_eq_true.mp hall q.base[i] (List.getElem_mem hib)
        rw [List.getElem?_eq_getElem hib]
        have : q.digests[i] = q.base[i].1 := by
          simp only [FRef.digests]
          rw [List.getElem_append_left (by simpa using hib), List.getElem_map]
        rw [this, ← hx]
      · exact .inr ⟨by omega, List.getElem?_eq_getElem hi⟩
    by_cases hs : Branch.startOf q.base.length ≤ i
    · have := ((o3 hok).2 i q.digests[i] hmem).2.1
      unfold Forked.path Branch.path at this
      unfold Wood.path Branch.path
      simp only at this
      rw [if_neg (by rw [hlen]; omega), if_neg (by rw [hdstart]; omega)] at this ⊢
      exact this
    · have ha : a.isSome = true := by
        rcases hx with e | e
        · exact e
        · omega
      obtain ⟨k, rfl⟩ := Option.isSome_iff_exists.mp ha
      obtain ⟨tr2, u1, u2, u3⟩ := hu
      have := ((o3 hok).2 i q.digests[i] hmem).2.1
      unfold Forked.path at this
      unfold Wood.path
      rw [u3]
      simp only at this ⊢
      rw [(r2 k rfl).2 tr2 u1]
      exact this
  · subst ha
    simp only at hu
    unfold Wood.path Branch.path
    rw [hu]
    split
    · rfl
    · rw [if_pos (by rw [hdstart]; exact hi)]
      rfl

/-- In a grove of full trees all leaves before a branching point can be proved. -/
def Grove.Provable (g : Grove D) : Prop :=
  (∀ i r, g.trunk i = some r → r.all (·.2) = true) ∧ ∀ j a q, g.fork j = some (a, q) → q.base.all (·.2) = true

theorem Grove.step_provable (room : Nat) (hlv : ∀ p, (lv p).all (·.2) = true) {g g' : Grove D} {a : Act P D} {b : Option Bool}
    (hp : g.Provable) (hs : g.step h (fun _ => true) room lv a = some (b, g')) : g'.Provable := by
  have hset : ∀ {j f a q}, g.fork j = some f → q.base.all (·.2) = true →
      Grove.Provable { g with forks := g.forks.set j (some (a, q)) } := by
    intro j f a q hj hq
    refine ⟨hp.1, fun k a1 q1 e => ?_⟩
    have e : (g.forks.set j (some (a, q)))[k]?.join = some (a1, q1) := e
    rw [lookup_set hj] at e
    split at e
    · cases e; exact hq
    · exact hp.2 k a1 q1 e
  have hadd : ∀ {a q}, q.base.all (·.2) = true → Grove.Provable { g with forks := g.forks ++ [some (a, q)] } := by
    intro a q hq
    refine ⟨hp.1, fun k a1 q1 e => ?_⟩
    have e : (g.forks ++ [some (a, q)])[k]?.join = some (a1, q1) := e
    rw [lookup_append] at e
    split at e
    · cases e; exact hq
    · exact hp.2 k a1 q1 e
  have hdet : ∀ {g : Grove D} {i x}, (∃ r, g.trunk i = some r) → g.Provable → (∀ r, x = some r → r.all (·.2) = true) →
      Grove.Provable ⟨g.trunks.set i x, g.forks.map (Grove.detach i)⟩ := by
    intro g i x hi hp hx
    obtain ⟨r0, hi⟩ := hi
    refine ⟨fun k r e => ?_, fun k a1 q1 e => ?_⟩
    · have e : (g.trunks.set i x)[k]?.join = some r := e
      rw [lookup_set hi] at e
      split at e
      · exact hx r e
      · exact hp.1 k r e
    · have e : (g.forks.map (Grove.detach i))[k]?.join = some (a1, q1) := e
      unfold Grove.detach at e
      rw [lookup_map, Option.map_eq_some_iff] at e
      obtain ⟨⟨a2, q2⟩, e1, e2⟩ := e
      simp only at e2
      split at e2
      · cases e2; exact hp.2 k _ _ e1
      · cases e2; exact hp.2 k _ _ e1
  cases a with
  | plant p =>
    simp only [Grove.step] at hs
    cases hs
    refine ⟨fun k r e => ?_, hp.2⟩
    have e : (g.trunks ++ [some (lv p)])[k]?.join = some r := e
    rw [lookup_append] at e
    split at e
    · cases e; exact hlv p
    · exact hp.1 k r e
  | fell i =>
    simp only [Grove.step] at hs
    split at hs
    · cases hs; exact hp
    · rename_i r hr
      cases hs
      exact hdet ⟨r, hr⟩ hp (fun _ e => by cases e)
  | fork i =>
    simp only [Grove.step] at hs
    split at hs
    · cases hs; exact hp
    · rename_i r hr
      cases hs
      exact hadd (hp.1 i r hr)
  | forkWith i ds =>
    simp only [Grove.step] at hs
    split at hs
    · cases hs; exact hp
    · rename_i r hr
      split at hs
      · cases hs; exact hadd (hp.1 i r hr)
      · cases hs; exact hp
  | push j d =>
    simp only [Grove.step] at hs
    split at hs
    · rename_i i q hj
      cases hs
      exact hset hj (hp.2 j _ q hj)
    · cases hs; exact hp
  | batch j ds =>
    simp only [Grove.step] at hs
    split at hs
    · rename_i i q hj
      split at hs
      · cases hs; exact hp
      · cases hs; exact hset hj (hp.2 j _ q hj)
    · cases hs; exact hp
  | attach j i =>
    simp only [Grove.step] at hs
    split at hs
    · rename_i a q r hj hi
      split at hs
      · cases hs; exact hset hj (hp.1 i r hi)
      · cases hs; exact hp
    · cases hs; exact hp
  | merge i j =>
    simp only [Grove.step] at hs
    split at hs
    · rename_i a q r hj hi
      split at hs
      · split at hs
        · cases hs
          refine hdet (g := { g with forks := g.forks.set j none }) ⟨r, hi⟩ ⟨hp.1, fun k a1 q1 e => ?_⟩ (fun r' e => ?_)
          · have e : (g.forks.set j none)[k]?.join = some (a1, q1) := e
            rw [lookup_set hj] at e
            split at e
            · cases e
            · exact hp.2 k a1 q1 e
          · cases e
            simp only [List.all_append, hp.2 j _ q hj, Bool.true_and, List.all_map, List.all_eq_true, Function.comp_apply]
            intro x hx
            trivial
        · cases hs
      · cases hs; exact hp
    · cases hs; exact hp

theorem Grove.run_provable (room : Nat) (hlv : ∀ p, (lv p).all (·.2) = true) : ∀ (as : List (Act P D)) {g g' : Grove D}
    {bs : List (Option Bool)}, g.Provable → g.run h (fun _ => true) room lv as = some (bs, g') → g'.Provable
  | [], g, g', bs, hp, hr => by cases hr; exact hp
  | a :: as, g, g', bs, hp, hr => by
    simp only [Grove.run] at hr
    rw [Option.bind_eq_some_iff] at hr
    obtain ⟨⟨b, f1⟩, e1, e2⟩ := hr
    rw [Option.map_eq_some_iff] at e2
    obtain ⟨⟨bs', f2⟩, e3, e4⟩ := e2
    cases e4
    exact run_provable room hlv as (step_provable h room hlv hp e1) e3

/-- Leaves that fit into a tree. -/
abbrev Fit (D : Type) (h : Nat) := {ds : List D // ds.length ≤ 2 ^ (h + 1)}

/-- The plain tree of these leaves. -/
def Fit.tree (p : Fit D h) : Full D N := Full.plain H h p.1

/-- The leaves, all of them provable. -/
def Fit.leaves (p : Fit D h) : List (D × Bool) := p.1.map (·, true)

/-- **C137 (partial).** Whatever a program does with trunks of full trees and forks of them, all answers are those of
the reference, and it panics exactly when the reference says so, which is on a merge that fills the tree.  A trunk
is at any time exactly the plain tree of its leaves: those it was planted with, followed by the leaves of the forks
merged into it, in this order.  Every fork answers by the leaves at its branching point followed by its own.
Missing: forks whose last growth was a misaligned batch, forks of empty trees without leaves, height two, and inner
nodes that are the default digest. -/
theorem c137_forks_partial [DecidableEq N] (h1 : 1 ≤ h) (K : Kind) (as : List (Act (Fit D h) D))
    (hc : Grove.empty.Clear H h (fun _ => true) (2 ^ (h + 1) - 1) (Fit.leaves h) as) :
    match Grove.empty.run h (fun _ => true) (2 ^ (h + 1) - 1) (Fit.leaves h) as with
    | none => Wood.empty.run (fullBase H h) H h K (Fit.tree (N := N) H h) as = none
    | some (bs, g) => ∃ w, Wood.empty.run (fullBase H h) H h K (Fit.tree (N := N) H h) as = some (bs, w) ∧
        (∀ i, (w.trunk i).map Trunk.tree = (g.trunk i).map fun r => Full.plain H h (r.map Prod.fst)) ∧
        (∀ j, w.fork j = none ↔ g.fork j = none) ∧
        ∀ j f a q, w.fork j = some f → g.fork j = some (a, q) → f.Answers H h w a q := by
  have hrun := Wood.Rel.run H h h1 (fullBase_plain (D := D) (N := N) H h) (mk := Fit.tree H h) (lv := Fit.leaves h) (K := K)
    (fun p => ⟨by unfold Fit.tree Fit.leaves; simp [Function.comp_def], by simpa [Fit.leaves] using p.2⟩) as
    (Wood.Rel.empty H h) hc
  split
  · rename_i e
    rw [e] at hrun
    exact hrun
  · rename_i bs g e
    rw [e] at hrun
    obtain ⟨w, e1, hr⟩ := hrun
    have hprov := Grove.run_provable h _ (fun p => by simp [Fit.leaves]) as
      (g := Grove.empty) ⟨fun i r e => by simp [Grove.trunk, Grove.empty] at e, fun i r q e => by simp [Grove.fork, Grove.empty] at e⟩ e
    refine ⟨w, e1, fun i => ?_, hr.fn, fun j f a q e2 e3 => (hr.fork e2 e3).answers hr (hprov.2 j a q e3)⟩
    cases hw : w.trunk i with
    | none => rw [(hr.tn i).mp hw]; rfl
    | some tr =>
      obtain ⟨r, hg⟩ := hr.someTrunk hw
      rw [hg, Option.map_some, Option.map_some, (hr.tree hw hg).2.1.1]

/-- **C137, over partial trees (partial).** The same for trunks of partial trees with any history: the answers and
panics are those of the reference, and the trunks represent their leaves.  Here merging loses the wish to prove. -/
theorem c137_pruned_partial [DecidableEq N] (h1 : 1 ≤ h) (K K' : Kind) (as : List (Act (List (POp D)) D))
    (hc : Grove.empty.Clear H h (fun _ => false) (2 ^ (h + 1) - 1) (fun p => (PRef.after h p).leaves) as)
    (mk : List (POp D) → Partial D N) (hmk : ∀ p, ((Partial.new K' : Partial D N).run H h p).map Prod.snd = some (mk p)) :
    match Grove.empty.run h (fun _ => false) (2 ^ (h + 1) - 1) (fun p => (PRef.after h p).leaves) as with
    | none => Wood.empty.run (partialBaseFork H h) H h K mk as = none
    | some (bs, g) => ∃ w, Wood.empty.run (partialBaseFork H h) H h K mk as = some (bs, w) ∧
        (∀ i, (w.trunk i).map (fun tr => tr.tree.len) = (g.trunk i).map List.length) ∧
        ∀ j f a q, w.fork j = some f → g.fork j = some (a, q) →
          w.isAttached f = a.isSome ∧ f.branch.data.len = q.digests.length ∧
          (q.ok = true → f.branch.data.root H = (Full.plain H h q.digests : Full D N).root H) := by
  have hrun := Wood.Rel.run H h h1 (partialBaseFork_ok (D := D) (N := N) H h K') (mk := mk)
    (lv := fun p => (PRef.after h p).leaves) (K := K) (fun p => by
      obtain ⟨t, t1, hr0⟩ := Partial.Rel.run H h id id p (Partial.rel_new (N := N) H h K' true)
      have := hmk p
      rw [t1] at this
      simp only [Option.map_some, Option.some.injEq] at this
      rw [← this]
      exact ⟨_, hr0.weaken H h⟩) as (Wood.Rel.empty H h) hc
  split
  · rename_i e
    rw [e] at hrun
    exact hrun
  · rename_i bs g e
    rw [e] at hrun
    obtain ⟨w, e1, hr⟩ := hrun
    refine ⟨w, e1, fun i => ?_, fun j f a q e2 e3 => ?_⟩
    · cases hw : w.trunk i with
      | none => rw [(hr.tn i).mp hw]; rfl
      | some tr =>
        obtain ⟨r, hg⟩ := hr.someTrunk hw
        rw [hg, Option.map_some, Option.map_some, (hr.tree hw hg).2.1.len H h]
    · have hf := hr.fork e2 e3
      have hu := hf.upgrade hr
      obtain ⟨t, r1, _⟩ := hf.rel
      obtain ⟨o1, _, o3⟩ := r1.observe H h (partialBaseFork_ok H h K')
      have hlq : q.digests.length = q.base.length + q.pend.length := by simp [FRef.digests]
      have hcap : q.digests.length ≤ 2 ^ (h + 1) := by
        have := r1.data.store.cap
        rw [Branch.ref_digests, List.length_append, List.length_map, List.length_map] at this
        rw [hlq]; exact this
      obtain ⟨pi, pl⟩ := Full.plain_leaves (N := N) H h hcap
      refine ⟨?_, by rw [hlq]; exact o1, fun hok => by rw [pi.root, pl]; exact (o3 hok).1⟩
      unfold Wood.isAttached
      cases a with
      | none => simp only at hu; rw [hu]; rfl
      | some i => obtain ⟨tr, _, _, u⟩ := hu; rw [u]; rfl

/-! ## Where the code disagrees -/

theorem answered {α β : Type} {x : Option (α × β)} {a : α} (e : x.map Prod.fst = some a) : ∃ b, x = some (a, b) := by
  rw [Option.map_eq_some_iff] at e
  obtain ⟨y, e1, e2⟩ := e
  exact ⟨y.2, by rw [e1, ← e2]⟩

/-- A fork is refused although it fits: on a trunk that is half full, merging one of two forks with a leaf each makes it
impossible to attach the other one again, although almost half of the trunk is free.  The check counts the leaves of the
trunk at the old branching point besides those of the new trunk. -/
theorem c137_attach_violated [DecidableEq N] (h1 : 1 ≤ h) (hd : NonDefault H) (K : Kind) (ds : Fit D h) (a b : D)
    (hds : ds.1.length = 2 ^ h) :
    ds.1.length + 2 ≤ 2 ^ (h + 1) ∧
    ∃ w, Wood.empty.run (fullBase H h) H h K (Fit.tree (N := N) H h)
        [.plant ds, .forkWith 0 [a], .forkWith 0 [b], .merge 0 0, .attach 1 0] =
      some ([some true, some true, some true, some true, some false], w) := by
  have h2 : 2 ≤ 2 ^ h := by
    obtain ⟨k, rfl⟩ : ∃ k, h = k + 1 := ⟨h - 1, by omega⟩
    have := Nat.two_pow_pos k
    rw [Nat.pow_succ]; omega
  have hp : 2 ^ (h + 1) = 2 ^ h * 2 := Nat.pow_succ 2 h
  have hev : 2 ^ h % 2 = 0 := by
    obtain ⟨k, rfl⟩ : ∃ k, h = k + 1 := ⟨h - 1, by omega⟩
    rw [Nat.pow_succ]; omega
  have hst : Branch.startOf (2 ^ h) = 2 ^ h - 2 := by
    unfold Branch.startOf asLeft
    rw [if_neg (by omega)]; omega
  refine ⟨by omega, ?_⟩
  have hrun := c137_forks_partial (N := N) H h h1 K [.plant ds, .forkWith 0 [a], .forkWith 0 [b], .merge 0 0, .attach 1 0]
    (hd.groveClear H h _ _ _ _ _)
  have e : ∃ g, Grove.empty.run h (fun _ => true) (2 ^ (h + 1) - 1) (Fit.leaves h)
      [.plant ds, .forkWith 0 [a], .forkWith 0 [b], .merge 0 0, .attach 1 0] =
      some ([some true, some true, some true, some true, some false], g) := by
    have c1 : 2 ^ h + 1 < 2 ^ (h + 1) := by omega
    have c2 : 2 ^ h + 1 ≤ 2 ^ (h + 1) - 1 := by omega
    have c3 : ¬ (2 ^ h + 1 + 1 + Branch.startOf (2 ^ h) < 2 ^ (h + 1)) := by rw [hst]; omega
    refine answered ?_
    simp [Grove.run, Grove.step, Grove.empty, Grove.trunk, Grove.fork, Grove.grown, Grove.detach, Fit.leaves, hds, c1, c2, c3]
  obtain ⟨g, e⟩ := e
  rw [e] at hrun
  obtain ⟨w, e1, _⟩ := hrun
  exact ⟨w, e1⟩

/-- A fork that takes the last free leaf cannot be merged: the program panics. -/
theorem c137_fill_violated [DecidableEq N] (h1 : 1 ≤ h) (hd : NonDefault H) (K : Kind) (ds : Fit D h) (a : D)
    (hds : ds.1.length = 2 ^ (h + 1) - 1) :
    (∃ w, Wood.empty.run (fullBase H h) H h K (Fit.tree (N := N) H h) [.plant ds, .fork 0, .push 0 a] =
      some ([some true, some true, some true], w)) ∧
    Wood.empty.run (fullBase H h) H h K (Fit.tree (N := N) H h) [.plant ds, .fork 0, .push 0 a, .merge 0 0] = none := by
  have hp := Nat.two_pow_pos (h + 1)
  have c1 : 2 ^ (h + 1) - 1 < 2 ^ (h + 1) := by omega
  have c2 : ¬ (2 ^ (h + 1) - 1 + 1 ≤ 2 ^ (h + 1) - 1) := by omega
  have r1 := c137_forks_partial (N := N) H h h1 K [.plant ds, .fork 0, .push 0 a] (hd.groveClear H h _ _ _ _ _)
  have r2 := c137_forks_partial (N := N) H h h1 K [.plant ds, .fork 0, .push 0 a, .merge 0 0] (hd.groveClear H h _ _ _ _ _)
  have e1 : ∃ g, Grove.empty.run h (fun _ => true) (2 ^ (h + 1) - 1) (Fit.leaves h) [.plant ds, .fork 0, .push 0 a] =
      some ([some true, some true, some true], g) := by
    refine answered ?_
    simp [Grove.run, Grove.step, Grove.empty, Grove.trunk, Grove.fork, Grove.grown, Fit.leaves, FRef.grow, PRef.step, hds, c1]
  have e2 : Grove.empty.run h (fun _ => true) (2 ^ (h + 1) - 1) (Fit.leaves h) [.plant ds, .fork 0, .push 0 a, .merge 0 0] =
      none := by
    simp [Grove.run, Grove.step, Grove.empty, Grove.trunk, Grove.fork, Grove.grown, Fit.leaves, FRef.grow, PRef.step, hds, c1, c2]
  obtain ⟨g, e1⟩ := e1
  rw [e1] at r1
  rw [e2] at r2
  obtain ⟨w, w1, _⟩ := r1
  exact ⟨⟨w, w1⟩, r2⟩

/-! ## Examples -/

/-- Two forks of a trunk, one merged, the other detached, refused a leaf, attached again and merged. -/
def tActs : List (Act (Fit Nat 3) Nat) :=
  [.plant ⟨[4, 5, 6], by decide⟩, .fork 0, .fork 0, .push 0 7, .push 1 8, .batch 1 [9], .merge 0 0, .push 1 10,
   .merge 0 1, .attach 1 0, .merge 0 1]

/-- The history meets the hypotheses of `c137_forks_partial` and runs. -/
example : Grove.empty.Clear tHash 3 (fun _ => true) 15 (Fit.leaves 3) tActs :=
  tHash_nonDefault.groveClear tHash 3 _ _ _ _ _

example : ((Wood.empty.run (fullBase tHash 3) tHash 3 .map (Fit.tree tHash 3) tActs).map fun r =>
      (r.1, (r.2.trunk 0).map fun tr => tr.tree.leaves)) =
    some ([some true, some true, some true, some true, some true, some true, some true, none, some false, some true,
      some true], some [4, 5, 6, 7, 8, 9]) := by decide +kernel

/-- Trees for `c137_pruned_partial` always exist. -/
example (p : List (POp Nat)) : ((Partial.new .map : Partial Nat Nat).run tHash 3 p).map Prod.snd =
    some (((Partial.new .map : Partial Nat Nat).run tHash 3 p).map Prod.snd |>.getD (Partial.new .map)) := by
  obtain ⟨t, t1, _⟩ := Partial.Rel.run tHash 3 id id p (Partial.rel_new (N := Nat) tHash 3 .map true)
  rw [t1]
  rfl

/-- An instance of `c137_attach_violated`: half of eight leaves. -/
example : (⟨[4, 5, 6, 7], by decide⟩ : Fit Nat 2).1.length = 2 ^ 2 := rfl

end Verif.Merkle
