import Verif.Merkle.Branch

/-! # Forked trees: the reference and the relation -/

namespace Verif.Merkle

variable {D N : Type} (H : Hash D N) (h : Nat)

/-! ## Paths of a branch -/

namespace Branch

theorem matching_spec : ∀ (n b f : Nat), b / 2 ≠ f / 2 → b / 2 ^ (n + 1) = f / 2 ^ (n + 1) →
    ∃ m, m < n ∧ matching n b f = some m ∧ sibling (b / 2 ^ (m + 1)) = f / 2 ^ (m + 1)
  | 0, b, f, h1, h2 => absurd (by simpa using h2) h1
  | n + 1, b, f, h1, h2 => by
    unfold matching
    by_cases hs : sibling (b / 2) = f / 2
    · exact ⟨0, by omega, by rw [if_pos hs], by simpa using hs⟩
    · rw [if_neg hs]
      obtain ⟨m, e1, e2, e3⟩ := matching_spec n (b / 2) (f / 2) (by
          intro he
          refine hs ?_
          unfold sibling
          split <;> omega) (by
          rw [Nat.div_div_eq_div_mul, Nat.div_div_eq_div_mul, ← Nat.pow_succ']
          exact h2)
      refine ⟨m + 1, by omega, by rw [e2]; rfl, ?_⟩
      rw [Nat.div_div_eq_div_mul, Nat.div_div_eq_div_mul, ← Nat.pow_succ'] at e3
      exact e3

variable {v : View D N} {b : Branch D N} {l : List D} {pend : List (D × Bool)} {K : Kind} {P : Nat → Prop}

theorem unchecked_spec {s : Nat} {r : PRef D} (hr : Partial.Rel H h K True True s b.data r) (hok : r.ok = true)
    {i : Nat} (hsi : s ≤ i) (hi : i < r.digests.length) :
    b.data.pathUnchecked H h i = specPath H h r.digests i := by
  have hl := hr.store.len
  rw [hr.start] at hl
  have hp := Partial.path_right H h hr.store ((hr.kept trivial).2 hok) (i := i - s)
    (hr.full trivial _ (by omega)) (.inl (by
      rw [hr.start, show s + (i - s) = i by omega]
      refine ⟨by rw [hr.start]; exact hsi, .inl ?_⟩
      rw [hr.start]
      exact hr.full trivial _ (by omega))) (fun _ _ => trivial)
  rw [hr.start, show s + (i - s) = i by omega] at hp
  unfold Partial.path at hp
  rw [if_neg (by rw [hr.store.len_eq]; omega), if_neg (by rw [hr.start]; omega)] at hp
  exact Option.some.inj hp

/-- The path of every leaf that the branch stores, or that the base can prove, is the reference path. -/
theorem path_spec (hv : v.Right H h l P) (hr : Partial.Rel H h K True True (startOf l.length) b.data (ref l pend true))
    {i : Nat} (hi : i < (l ++ pend.map Prod.fst).length) (hP : i < startOf l.length → P i) :
    b.path H h v i = some (some (specPath H h (l ++ pend.map Prod.fst) i)) := by
  have hlen := hr.store.len_eq
  have hcap := hr.store.cap
  have hfull := hr.store.len
  have hdig := ref_digests l pend true
  rw [hdig] at hlen hcap hfull
  rw [hr.start] at hfull
  unfold Branch.path
  rw [if_neg (by rw [hlen]; omega), hr.start]
  by_cases hs : i < startOf l.length
  · rw [if_pos hs]
    have hle := asLeft_le (l.length - 1)
    have heven : startOf l.length % 2 = 0 := asLeft_even _
    have hsl : startOf l.length < l.length := by unfold startOf at *; omega
    have hs2 : startOf l.length < (l ++ pend.map Prod.fst).length := by rw [List.length_append]; omega
    obtain ⟨p, p1, p2, p3, p4, p5⟩ := hv.path i (hP hs) (by omega)
    have hu := unchecked_spec H h hr rfl (Nat.le_refl _) (by rw [hdig]; exact hs2)
    rw [hdig] at hu
    unfold modifiedPath
    rw [p1]
    simp only [hr.start, hu]
    have hne : ¬ sibling i = startOf l.length := by
      unfold sibling; split <;> omega
    rw [if_neg hne]
    have hlenp : (specPath H h (l ++ pend.map Prod.fst) (startOf l.length)).path.length = h := by simp [specPath]
    rw [hlenp]
    obtain ⟨m, m1, m2, m3⟩ := matching_spec h i (startOf l.length) (by omega) (by
      rw [Nat.div_eq_of_lt (by omega), Nat.div_eq_of_lt (by omega)])
    rw [m2]
    simp only
    rw [if_neg (by omega)]
    -- the recomputed digest
    have hget : (b.data.leaf.get 0).getD H.dD = ((l ++ pend.map Prod.fst)[startOf l.length]?).getD H.dD := by
      rw [hr.store.get_some h (hr.full trivial 0 (by omega)), hr.start, hdig, Nat.add_zero]
    have hfold : foldPath H (startOf l.length) (H.joinLeavesAt (startOf l.length) ((b.data.leaf.get 0).getD H.dD)
        (specPath H h (l ++ pend.map Prod.fst) (startOf l.length)).sib)
        ((specPath H h (l ++ pend.map Prod.fst) (startOf l.length)).path.take m) =
        nodeVal H (l ++ pend.map Prod.fst) m (startOf l.length / 2 ^ (m + 1)) := by
      rw [hget]
      simp only [specPath]
      rw [nodeVal_base H hs2, ← List.map_take, List.take_range, Nat.min_eq_left (by omega)]
      have := foldPath_spec H hs2 m 0
      simpa using this
    rw [hfold, p2, p3]
    unfold specPath
    simp only
    congr 2
    -- the leaf beside
    have hsib : sibling i < l.length := by unfold sibling; split <;> omega
    rw [List.getElem?_append_left hsib]
    congr 1
    refine List.ext_getElem? fun k => ?_
    by_cases hkh : k < h
    · rw [List.getElem?_map, List.getElem?_range hkh, Option.map_some]
      rcases Nat.lt_trichotomy k m with hkm | rfl | hkm
      · rw [List.getElem?_append_left (by rw [List.length_take]; omega), List.getElem?_take_of_lt hkm]
        -- the sibling lies left of the branch
        have hlt : sibling (i / 2 ^ (k + 1)) < startOf l.length / 2 ^ (k + 1) := by
          rcases Nat.lt_or_ge (sibling (i / 2 ^ (k + 1))) (startOf l.length / 2 ^ (k + 1)) with a | a
          · exact a
          · exfalso
            have e1 : startOf l.length / 2 ^ (k + 1) / 2 ^ (m - k) ≤ sibling (i / 2 ^ (k + 1)) / 2 ^ (m - k) :=
              Nat.div_le_div_right a
            obtain ⟨c, hc⟩ : ∃ c, m - k = c + 1 := ⟨m - k - 1, by omega⟩
            rw [hc, sibling_div_pow, Nat.div_div_eq_div_mul, Nat.div_div_eq_div_mul, ← Nat.pow_add,
              show k + 1 + (c + 1) = m + 1 by omega, ← m3] at e1
            have e2 : i / 2 ^ (m + 1) ≤ startOf l.length / 2 ^ (m + 1) := Nat.div_le_div_right (by omega)
            rw [← m3] at e2
            have e3 := sibling_ne (i / 2 ^ (m + 1))
            omega
        have hle1 : startOf l.length / 2 ^ (k + 1) ≤ l.length / 2 ^ (k + 1) := Nat.div_le_div_right (by omega)
        rw [p5 k hkh (fun hst => by rw [hst.1] at hlt; omega), nodeVal_append]
        intro j hj1 _ hj3
        have : l.length / 2 ^ (k + 1) ≤ j / 2 ^ (k + 1) := Nat.div_le_div_right hj1
        omega
      · rw [List.getElem?_append_right (by rw [List.length_take]; omega), List.length_take,
          Nat.min_eq_left (by omega), Nat.sub_self, List.getElem?_cons_zero, m3]
      · rw [List.getElem?_append_right (by rw [List.length_take]; omega), List.length_take,
          Nat.min_eq_left (by omega)]
        obtain ⟨c, hc⟩ : ∃ c, k - m = c + 1 := ⟨k - m - 1, by omega⟩
        rw [hc, List.getElem?_cons_succ, List.getElem?_drop, show m + 1 + c = k by omega, List.getElem?_map,
          List.getElem?_range hkh, Option.map_some]
        have e1 : startOf l.length / 2 ^ (k + 1) = i / 2 ^ (k + 1) := by
          rw [show k + 1 = m + 1 + (c + 1) by omega, Nat.pow_add, ← Nat.div_div_eq_div_mul,
            ← Nat.div_div_eq_div_mul, ← m3, sibling_div_pow]
        rw [e1]
    · rw [List.getElem?_eq_none, List.getElem?_eq_none]
      · rw [List.length_map, List.length_range]; omega
      · simp only [List.length_append, List.length_take, List.length_cons, List.length_drop, List.length_map,
          List.length_range, p4]
        omega
  · rw [if_neg hs, unchecked_spec H h hr rfl (by omega) (by rw [hdig]; exact hi), hdig]

end Branch

/-! ## The reference -/

/-- A forked tree: the committed leaves and the pending ones, with the wish to prove them; `ok` records whether
the last growth of the branch was a single append or an aligned batch, and that the branch is not empty. -/
structure FRef (D : Type) where
  base : List (D × Bool)
  pend : List (D × Bool)
  ok : Bool

namespace FRef

variable (keep : Bool → Bool) (room : Nat)

/-- The digests of all leaves. -/
def digests (q : FRef D) : List D := q.base.map Prod.fst ++ q.pend.map Prod.fst

/-- A freshly forked tree. -/
def fresh (base : List (D × Bool)) : FRef D := ⟨base, [], decide (base ≠ [])⟩

/-- Growing the branch as a plain tree would. -/
def grow (q : FRef D) (op : POp D) : Bool × FRef D :=
  let p := PRef.step h ⟨q.base ++ q.pend, q.ok⟩ op
  (p.1, ⟨q.base, p.2.leaves.drop q.base.length, p.2.ok⟩)

/-- One operation on the reference; `none` is a panic.  A commit turns the wishes by `keep`, and works up to
`room` leaves. -/
def step (q : FRef D) : Forked.Op D → Option (Bool × FRef D)
  | .push d => some (q.grow h (.push d))
  | .pushProvable d => some (q.grow h (.pushProvable d))
  | .batch ds => some (q.grow h (.batch ds))
  | .batchProvable ds => some (q.grow h (.batchProvable ds))
  | .remove i =>
    if i < asLeft (q.base.length - 1) then none
    else if i < q.base.length then some (true, q)
    else if i < q.base.length + q.pend.length then
      some (true, ⟨q.base, q.pend.modify (i - q.base.length) fun x => (x.1, false), q.ok⟩)
    else some (false, q)
  | .reset => some (true, fresh q.base)
  | .merge =>
    if q.base.length + q.pend.length ≤ room then
      some (true, fresh (q.base ++ q.pend.map fun x => (x.1, keep x.2)))
    else none
  | .prune => some (true, q)

/-- A history of the reference, with the answers. -/
def run (q : FRef D) : List (Forked.Op D) → Option (List Bool × FRef D)
  | [] => some ([], q)
  | op :: ops => (q.step h keep room op).bind fun r => (r.2.run ops).map fun p => (r.1 :: p.1, p.2)

end FRef

/-- A kind of base tree that works: `G` relates trees to their leaves. -/
structure Base.Ok {T : Type} (I : Base T D N) (G : T → List (D × Bool) → Prop) (keep : Bool → Bool) (room : Nat) : Prop where
  keepMono : keep false = true → keep true = true
  right : ∀ {t r}, G t r → NonDefaultOn H h (r.map Prod.fst) → (I.view t).Right H h (r.map Prod.fst) fun i => ∃ d, r[i]? = some (d, true)
  cap : ∀ {t r}, G t r → r.length ≤ 2 ^ (h + 1)
  merge : ∀ {t r} (ds : List (Bool × D)), G t r → r.length + ds.length ≤ room →
    ∃ t', I.merge t ds = some t' ∧ G t' (r ++ ds.map fun x => (x.2, keep !x.1))
  panic : ∀ {t r} (ds : List (Bool × D)), G t r → r.length + ds.length ≤ 2 ^ (h + 1) → room < r.length + ds.length →
    I.merge t ds = none
  prune : ∀ {t r}, G t r → ∃ t', I.prune t = some t' ∧ G t' r
  mono : ∀ {t r r'}, G t r → r'.map Prod.fst = r.map Prod.fst →
    (∀ (i : Nat) (d : D), r'[i]? = some (d, true) → r[i]? = some (d, true)) → G t r'

namespace Forked

variable {T : Type} {I : Base T D N} {G : T → List (D × Bool) → Prop} {keep : Bool → Bool} {room : Nat}

/-- A forked tree represents the reference. -/
structure Rel (G : T → List (D × Bool) → Prop) (K : Kind) (f : Forked T D N) (q : FRef D) : Prop where
  base : G f.base q.base
  contrib : f.branch.contrib = q.base.length - Branch.startOf q.base.length
  data : Partial.Rel H h K True True (Branch.startOf q.base.length) f.branch.data
    (Branch.ref (q.base.map Prod.fst) q.pend q.ok)
  nd : NonDefaultOn H h (q.base.map Prod.fst)

variable {K : Kind} {f : Forked T D N} {q : FRef D}

theorem Rel.new (h1 : 1 ≤ h) (hI : I.Ok H h G keep room) {t : T} {r : List (D × Bool)} (hg : G t r)
    (hn : NonDefaultOn H h (r.map Prod.fst)) :
    ∃ f, Forked.new I H h K t = some f ∧ Rel H h G K f (FRef.fresh r) := by
  have hcap := hI.cap hg
  obtain ⟨b, e1, e2, e3⟩ := Branch.newUnchecked_spec H h h1 K (hI.right hg hn) (by rw [List.length_map]; exact hcap)
  rw [List.length_map] at e2 e3
  refine ⟨⟨t, b⟩, by unfold Forked.new; rw [e1]; rfl, hg, e2, ?_, hn⟩
  have : decide (r.map Prod.fst ≠ []) = decide (r ≠ []) := by simp
  rw [this] at e3
  exact e3

/-- Growth does not look at the committed leaves. -/
theorem grow_mask {A B p : List (D × Bool)} (hl : A.length = B.length) (ok : Bool) (op : POp D)
    (ho : match op with | .remove _ => False | .prune => False | .extend _ => False | _ => True) :
    (PRef.step h ⟨A ++ p, ok⟩ op).1 = (PRef.step h ⟨B ++ p, ok⟩ op).1 ∧
    (PRef.step h ⟨A ++ p, ok⟩ op).2 =
      ⟨A ++ (PRef.step h ⟨B ++ p, ok⟩ op).2.leaves.drop B.length, (PRef.step h ⟨B ++ p, ok⟩ op).2.ok⟩ := by
  have hlen : (A ++ p).length = (B ++ p).length := by simp [hl]
  have hgrow : ∀ (ds : List D) (b : Bool),
      (PRef.grow h ⟨A ++ p, ok⟩ ds b).1 = (PRef.grow h ⟨B ++ p, ok⟩ ds b).1 ∧
      (PRef.grow h ⟨A ++ p, ok⟩ ds b).2 =
        ⟨A ++ (PRef.grow h ⟨B ++ p, ok⟩ ds b).2.leaves.drop B.length, (PRef.grow h ⟨B ++ p, ok⟩ ds b).2.ok⟩ := by
    intro ds b
    unfold PRef.grow
    simp only [hlen]
    refine ⟨trivial, ?_⟩
    split
    · simp
    · simp [List.append_assoc]
  cases op with
  | push d =>
    simp only [PRef.step, hlen]
    split <;> simp [List.append_assoc]
  | pushProvable d =>
    simp only [PRef.step, hlen]
    split <;> simp [List.append_assoc]
  | batch ds =>
    simp only [PRef.step]
    split
    · simp
    · exact hgrow ds false
  | batchProvable ds =>
    simp only [PRef.step]
    split
    · simp
    · exact hgrow ds true
  | extend ds => exact ho.elim
  | remove i => exact ho.elim
  | prune => exact ho.elim

theorem ref_step (q : FRef D) (op : POp D)
    (ho : match op with | .remove _ => False | .prune => False | .extend _ => False | _ => True) :
    (PRef.step h (Branch.ref (q.base.map Prod.fst) q.pend q.ok) op).1 = (q.grow h op).1 ∧
    (PRef.step h (Branch.ref (q.base.map Prod.fst) q.pend q.ok) op).2 =
      Branch.ref ((q.grow h op).2.base.map Prod.fst) (q.grow h op).2.pend (q.grow h op).2.ok := by
  have := grow_mask h (A := (q.base.map Prod.fst).map (·, false)) (B := q.base) (p := q.pend) (by simp) q.ok op ho
  exact this

theorem Rel.withData (hr : Rel H h G K f q) {t : Partial D N} {r : PRef D} {p : List (D × Bool)} {ok : Bool}
    (hd : Partial.Rel H h K True True (Branch.startOf q.base.length) t r)
    (he : r = Branch.ref (q.base.map Prod.fst) p ok) : Rel H h G K (f.withData t) ⟨q.base, p, ok⟩ :=
  ⟨hr.base, hr.contrib, he ▸ hd, hr.nd⟩

/-- The leaves of the branch that are to be committed. -/
theorem Rel.extract (hr : Rel H h G K f q) :
    ∃ ds, f.branch.extractMarked = some ds ∧ ds.map Prod.snd = q.pend.map Prod.fst ∧
      ∀ (i : Nat) (d : D), q.pend[i]? = some (d, true) → ds[i]? = some (false, d) := by
  have hlen := hr.data.store.len
  rw [hr.data.start, Branch.ref_digests, List.length_append, List.length_map, List.length_map] at hlen
  have hsl := Branch.startOf_le q.base.length
  have hall : ∀ c, c < f.branch.data.leaf.next →
      ∃ x, f.branch.data.leaf.map c = some x ∧
        (q.base.map Prod.fst ++ q.pend.map Prod.fst)[Branch.startOf q.base.length + c]? = some x.2 := by
    intro c hc
    obtain ⟨x, hx⟩ := Option.isSome_iff_exists.mp (hr.data.full trivial c hc)
    refine ⟨x, hx, ?_⟩
    have := hr.data.store.stored c x hx
    rw [hr.data.start, Branch.ref_digests] at this
    exact this
  have hmk : f.branch.data.leaf.intoMarked.length = f.branch.data.leaf.next ∧
      ∀ c, c < f.branch.data.leaf.next → f.branch.data.leaf.intoMarked[c]? = f.branch.data.leaf.map c := by
    unfold LeafMap.intoMarked
    generalize f.branch.data.leaf.next = n at *
    clear hlen
    induction n with
    | zero => simp
    | succ n ih =>
      obtain ⟨i1, i2⟩ := ih fun c hc => hall c (by omega)
      obtain ⟨x, hx, _⟩ := hall n (by omega)
      rw [List.range_succ, List.filterMap_append]
      have e : List.filterMap f.branch.data.leaf.map [n] = [x] := by simp [hx]
      rw [e]
      refine ⟨by simp [i1], fun c hc => ?_⟩
      by_cases hcn : c < n
      · rw [List.getElem?_append_left (by omega)]
        exact i2 c hcn
      · have : c = n := by omega
        subst this
        rw [List.getElem?_append_right (by omega), i1, Nat.sub_self, hx]
        rfl
  obtain ⟨k1, k2⟩ := hmk
  have hget : ∀ i, i < q.pend.length →
      (f.branch.data.leaf.intoMarked.drop f.branch.contrib)[i]? =
        f.branch.data.leaf.map (f.branch.contrib + i) := by
    intro i hi
    rw [List.getElem?_drop]
    exact k2 _ (by rw [hr.contrib]; omega)
  refine ⟨f.branch.data.leaf.intoMarked.drop f.branch.contrib, ?_, ?_, ?_⟩
  · unfold Branch.extractMarked Branch.drain
    rw [if_pos (by rw [k1, hr.contrib]; omega)]
  · refine List.ext_getElem? fun i => ?_
    by_cases hi : i < q.pend.length
    · rw [List.getElem?_map, hget i hi]
      obtain ⟨x, hx, hx2⟩ := hall (f.branch.contrib + i) (by rw [hr.contrib]; omega)
      rw [hx]
      rw [hr.contrib, show Branch.startOf q.base.length + (q.base.length - Branch.startOf q.base.length + i) =
        q.base.length + i by omega, List.getElem?_append_right (by simp), List.length_map,
        show q.base.length + i - q.base.length = i by omega] at hx2
      rw [hx2]; rfl
    · rw [List.getElem?_eq_none, List.getElem?_eq_none]
      · rw [List.length_map]; omega
      · rw [List.length_map, List.length_drop, k1, hr.contrib]; omega
  · intro i d hi
    have hlt : i < q.pend.length := by
      rcases Nat.lt_or_ge i q.pend.length with a | a
      · exact a
      · rw [List.getElem?_eq_none a] at hi; cases hi
    rw [hget i hlt]
    refine hr.data.flag _ d ?_
    unfold Branch.ref
    simp only
    rw [hr.contrib, show Branch.startOf q.base.length + (q.base.length - Branch.startOf q.base.length + i) =
      q.base.length + i by omega, List.getElem?_append_right (by simp)]
    simpa using hi

/-- Every operation answers and panics as the reference, and keeps the relation. -/
theorem Rel.step (h1 : 1 ≤ h) (hI : I.Ok H h G keep room) (hr : Rel H h G K f q) (op : Op D)
    (hn : op = .merge → NonDefaultOn H h q.digests) :
    match q.step h keep room op with
    | none => f.step I H h K op = none
    | some (b, q') => ∃ f', f.step I H h K op = some (b, f') ∧ Rel H h G K f' q' := by
  have hlen : f.branch.data.len = q.base.length + q.pend.length := by
    rw [hr.data.store.len_eq, Branch.ref_digests, List.length_append, List.length_map, List.length_map]
  have hrl : (Branch.ref (q.base.map Prod.fst) q.pend q.ok).leaves.length = q.base.length + q.pend.length := by
    simp [Branch.ref]
  have hcap := hr.data.store.cap
  rw [Branch.ref_digests, List.length_append, List.length_map, List.length_map] at hcap
  have hsl := Branch.startOf_le q.base.length
  cases op with
  | push d =>
    obtain ⟨r1, r2⟩ := ref_step h q (.push d) trivial
    simp only [FRef.step, Forked.step]
    simp only [PRef.step, hrl] at r1 r2
    by_cases hc : q.base.length + q.pend.length < 2 ^ (h + 1)
    · rw [if_pos hc] at r1 r2
      obtain ⟨t', e1, e2⟩ := hr.data.push_false H h d (by rw [hrl]; exact hc)
      rw [e1, ← r1]
      exact ⟨_, rfl, hr.withData H h e2 r2⟩
    · rw [if_neg hc] at r1 r2
      have : f.branch.data.push H h d = (false, f.branch.data) := by
        unfold Partial.push
        simp only
        rw [hr.data.pushProvable, if_neg (by rw [hrl]; exact hc)]
        have hl2 := hr.data.store.len
        have hl3 := hr.data.store.len_eq
        rw [Partial.mark_none h hr.data.store (by omega)]
      rw [this, ← r1]
      exact ⟨_, rfl, hr.withData H h hr.data r2⟩
  | pushProvable d =>
    obtain ⟨r1, r2⟩ := ref_step h q (.pushProvable d) trivial
    simp only [FRef.step, Forked.step]
    simp only [PRef.step, hrl] at r1 r2
    by_cases hc : q.base.length + q.pend.length < 2 ^ (h + 1)
    · rw [if_pos hc] at r1 r2
      obtain ⟨t', e1, e2⟩ := hr.data.push_true H h d (by rw [hrl]; exact hc)
      rw [e1, ← r1]
      exact ⟨_, rfl, hr.withData H h e2 r2⟩
    · rw [if_neg hc] at r1 r2
      rw [hr.data.pushProvable, if_neg (by rw [hrl]; exact hc), ← r1]
      exact ⟨_, rfl, hr.withData H h hr.data r2⟩
  | batch ds =>
    obtain ⟨r1, r2⟩ := ref_step h q (.batch ds) trivial
    obtain ⟨t', e1, e2⟩ := hr.data.batchPush H h ds
    simp only [FRef.step, Forked.step, e1, Option.map_some]
    exact ⟨_, by rw [← r1]; rfl, hr.withData H h e2 r2⟩
  | batchProvable ds =>
    obtain ⟨r1, r2⟩ := ref_step h q (.batchProvable ds) trivial
    obtain ⟨n, t', e1, e2⟩ := hr.data.batchPushProvable H h ds
    simp only [FRef.step, Forked.step, e1, Option.map_some]
    exact ⟨_, by rw [← r1]; rfl, hr.withData H h e2 r2⟩
  | remove i =>
    have hnext := hr.data.store.len
    rw [hr.data.start, Branch.ref_digests, List.length_append, List.length_map, List.length_map] at hnext
    simp only [FRef.step, Forked.step, Partial.removePath, hr.data.start]
    by_cases hs : i < asLeft (q.base.length - 1)
    · rw [if_pos hs]
      simp only
      rw [if_pos (show i < Branch.startOf q.base.length from hs)]; rfl
    · rw [if_neg hs, if_neg (show ¬ i < Branch.startOf q.base.length from hs)]
      have hs' : Branch.startOf q.base.length ≤ i := Nat.le_of_not_lt hs
      have hrm := hr.data.removePath H h (i - Branch.startOf q.base.length)
      rw [show Branch.startOf q.base.length + (i - Branch.startOf q.base.length) = i by omega, hr.data.start] at hrm
      have hlast : ∀ c, f.branch.data.leaf.last = some c → f.branch.data.leaf.next = c + 1 := by
        intro c hc; unfold LeafMap.next; rw [hc]
      have hlast0 : f.branch.data.leaf.last = none → f.branch.data.leaf.next = 0 := by
        intro hc; unfold LeafMap.next; rw [hc]
      have hin : i < q.base.length + q.pend.length → ∃ c, f.branch.data.leaf.last = some c ∧
          i - Branch.startOf q.base.length ≤ c := by
        intro hi
        cases hl : f.branch.data.leaf.last with
        | none => have := hlast0 hl; omega
        | some c => have := hlast c hl; exact ⟨c, rfl, by omega⟩
      by_cases hb : i < q.base.length
      · rw [if_pos hb]
        obtain ⟨c, c1, c2⟩ := hin (by omega)
        simp only [c1, if_pos c2, Option.map_some]
        refine ⟨_, rfl, hr.withData H h hrm ?_⟩
        unfold Branch.ref
        congr 1
        refine List.ext_getElem? fun j => ?_
        rw [List.getElem?_modify]
        by_cases hj : i = j
        · subst hj
          rw [List.getElem?_append_left (by simpa using hb), List.getElem?_map]
          cases (q.base.map Prod.fst)[i]? <;> simp
        · cases ((q.base.map Prod.fst).map (·, false) ++ q.pend)[j]? <;> simp [hj]
      · rw [if_neg hb]
        by_cases hi : i < q.base.length + q.pend.length
        · rw [if_pos hi]
          obtain ⟨c, c1, c2⟩ := hin hi
          simp only [c1, if_pos c2, Option.map_some]
          refine ⟨_, rfl, hr.withData H h hrm ?_⟩
          unfold Branch.ref
          congr 1
          refine List.ext_getElem? fun j => ?_
          rw [List.getElem?_modify]
          by_cases hj : j < q.base.length
          · rw [List.getElem?_append_left (by simpa using hj), List.getElem?_append_left (by simpa using hj)]
            have : ¬ i = j := by omega
            cases ((q.base.map Prod.fst).map (·, false))[j]? <;> simp [this]
          · rw [List.getElem?_append_right (by simpa using hj), List.getElem?_append_right (by simpa using hj),
              List.getElem?_modify, List.length_map, List.length_map]
            have : (i = j) ↔ (i - q.base.length = j - q.base.length) := by omega
            simp only [this]
        · rw [if_neg hi]
          simp only
          cases hl : f.branch.data.leaf.last with
          | none => exact ⟨f, rfl, hr⟩
          | some c =>
            have := hlast c hl
            simp only
            rw [if_neg (by omega)]
            exact ⟨f, rfl, hr⟩
  | reset =>
    obtain ⟨f', e1, e2⟩ := Rel.new H h h1 hI hr.base hr.nd (K := K)
    simp only [FRef.step, Forked.step, Forked.reset, e1]
    exact ⟨f', rfl, e2⟩
  | merge =>
    obtain ⟨ds, x1, x2, x3⟩ := hr.extract
    have hdl : ds.length = q.pend.length := by
      have := congrArg List.length x2
      simpa using this
    simp only [FRef.step, Forked.step, Forked.merge, x1, Option.bind_some]
    by_cases hroom : q.base.length + q.pend.length ≤ room
    · rw [if_pos hroom]
      obtain ⟨t', m1, m2⟩ := hI.merge ds hr.base (by omega)
      have m3 := hI.mono m2 (r' := q.base ++ q.pend.map fun x => (x.1, keep x.2)) (by
        simp only [List.map_append, List.map_map, Function.comp_def]
        congr 1
        have := x2.symm
        simpa using this) (by
        intro i d hi
        by_cases hib : i < q.base.length
        · rw [List.getElem?_append_left hib] at hi ⊢
          exact hi
        · rw [List.getElem?_append_right (by omega), List.getElem?_map] at hi ⊢
          cases hp : q.pend[i - q.base.length]? with
          | none => rw [hp] at hi; cases hi
          | some x =>
            rw [hp] at hi
            simp only [Option.map_some, Option.some.injEq, Prod.mk.injEq] at hi
            obtain ⟨a1, a3⟩ := hi
            obtain ⟨y1, y2⟩ := x
            simp only at a1 a3
            subst a1
            have x4 := congrArg (·[i - q.base.length]?) x2
            simp only [List.getElem?_map, hp, Option.map_some, Option.map_eq_some_iff] at x4
            obtain ⟨⟨z1, z2⟩, z3, z4⟩ := x4
            simp only at z4
            subst z4
            rw [z3, Option.map_some]
            simp only [Option.some.injEq, Prod.mk.injEq, true_and]
            cases y2 with
            | true =>
              have := x3 (i - q.base.length) z2 hp
              rw [z3] at this
              cases this
              exact a3
            | false =>
              have := hI.keepMono a3
              cases z1
              · exact this
              · exact a3)
      obtain ⟨f', e1, e2⟩ := Rel.new H h h1 hI m3 (K := K) (by
        have := hn rfl
        unfold FRef.digests at this
        simpa [Function.comp_def] using this)
      rw [m1]
      simp only [Option.bind_some, e1]
      exact ⟨f', rfl, e2⟩
    · rw [if_neg hroom]
      simp only
      rw [hI.panic ds hr.base (by omega) (by omega)]
      rfl
  | prune =>
    obtain ⟨t', e1, e2⟩ := hI.prune hr.base
    simp only [FRef.step, Forked.step, e1]
    exact ⟨_, rfl, e2, hr.contrib, hr.data, hr.nd⟩

/-- Whenever a history commits, no inner node above the leaves is the default digest. -/
def _root_.Verif.Merkle.FRef.Clear (keep : Bool → Bool) (room : Nat) (q : FRef D) : List (Op D) → Prop
  | [] => True
  | op :: ops => (op = .merge → NonDefaultOn H h q.digests) ∧
    ∀ b q', q.step h keep room op = some (b, q') → FRef.Clear keep room q' ops

theorem _root_.Verif.Merkle.NonDefault.clear (hd : NonDefault H) (keep : Bool → Bool) (room : Nat) :
    ∀ (ops : List (Op D)) (q : FRef D), q.Clear H h keep room ops
  | [], _ => trivial
  | _ :: ops, q => ⟨fun _ => hd.on H h _, fun _ q' _ => NonDefault.clear hd keep room ops q'⟩

theorem Rel.run (h1 : 1 ≤ h) (hI : I.Ok H h G keep room) : ∀ (ops : List (Op D)) {f : Forked T D N} {q : FRef D},
    Rel H h G K f q → q.Clear H h keep room ops →
    match q.run h keep room ops with
    | none => f.run I H h K ops = none
    | some (bs, q') => ∃ f', f.run I H h K ops = some (bs, f') ∧ Rel H h G K f' q'
  | [], f, q, hr, _ => ⟨f, rfl, hr⟩
  | op :: ops, f, q, hr, hn => by
    have hs := hr.step H h h1 hI op hn.1
    simp only [FRef.run, Forked.run]
    cases hq : q.step h keep room op with
    | none =>
      rw [hq] at hs
      simp only [Option.bind_none]
      rw [hs]; rfl
    | some r =>
      rw [hq] at hs
      obtain ⟨f1, e1, e2⟩ := hs
      simp only [Option.bind_some, e1]
      have ih := Rel.run h1 hI ops e2 (hn.2 _ _ hq)
      cases hq2 : r.2.run h keep room ops with
      | none =>
        rw [hq2] at ih
        simp only [Option.map_none]
        rw [ih]; rfl
      | some p =>
        rw [hq2] at ih
        obtain ⟨f2, g1, g2⟩ := ih
        simp only [Option.map_some, g1]
        exact ⟨f2, rfl, g2⟩

/-- What a related forked tree answers. -/
theorem Rel.observe [DecidableEq N] (hI : I.Ok H h G keep room) (hr : Rel H h G K f q) :
    f.len = q.base.length + q.pend.length ∧
    (∀ i, 0 < i → q.base.length + q.pend.length ≤ i → f.path I H h i = some none) ∧
    (q.ok = true → f.root H = specRoot H h q.digests ∧
      ∀ (i : Nat) (d : D), q.base[i]? = some (d, true) ∨ (q.base.length ≤ i ∧ q.digests[i]? = some d) →
        q.digests[i]? = some d ∧
        f.path I H h i = some (some (specPath H h q.digests i)) ∧
        (specPath H h q.digests i).verify H (f.root H) d = true) := by
  have hd := Branch.ref_digests (q.base.map Prod.fst) q.pend q.ok
  have hlen : f.branch.data.len = q.base.length + q.pend.length := by
    rw [hr.data.store.len_eq, hd, List.length_append, List.length_map, List.length_map]
  have hcap := hr.data.store.cap
  rw [hd] at hcap
  refine ⟨hlen, fun i h0 hi => ?_, fun hok => ?_⟩
  · unfold Forked.path Branch.path
    rw [if_pos ⟨h0, by rw [hlen]; exact hi⟩]
  · have hroot : f.root H = specRoot H h q.digests := by
      have := Partial.root_right H h ((hr.data.kept trivial).2 hok) trivial
      rw [hd] at this
      exact this
    refine ⟨hroot, fun i d hi => ?_⟩
    have hid : q.digests[i]? = some d := by
      rcases hi with hi | ⟨_, hi⟩
      · have hlt : i < q.base.length := by
          rcases Nat.lt_or_ge i q.base.length with a | a
          · exact a
          · rw [List.getElem?_eq_none a] at hi; cases hi
        unfold FRef.digests
        rw [List.getElem?_append_left (by simpa using hlt), List.getElem?_map, hi]
        rfl
      · exact hi
    have hlt : i < q.digests.length := by
      rcases Nat.lt_or_ge i q.digests.length with a | a
      · exact a
      · rw [List.getElem?_eq_none a] at hid; cases hid
    refine ⟨hid, ?_, ?_⟩
    · have hdata := hr.data
      rw [hok] at hdata
      have := Branch.path_spec H h (hI.right hr.base hr.nd) (b := f.branch) (pend := q.pend) (K := K)
        (by rw [List.length_map]; exact hdata) hlt (fun hs => by
          rw [List.length_map] at hs
          have := Branch.startOf_le q.base.length
          rcases hi with hi | ⟨hi, _⟩
          · exact ⟨d, hi⟩
          · omega)
      exact this
    · have hs := specPath_root H h hlt (Nat.lt_of_lt_of_le hlt hcap)
      rw [hid] at hs
      unfold Path.verify
      exact decide_eq_true (by rw [hroot, ← hs]; rfl)

end Forked

end Verif.Merkle
