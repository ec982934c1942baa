import Verif.Asset.Lemmas

/-!
# Properties of asset lists and balance stores (C16, C17, C18, C19)

Specification vocabulary: `bal l id` (the total value of `id` in a list of assets), `WF` (strictly
sorted by id, no zero entry) — both in `Lemmas.lean`, both independent of the search.
-/

namespace Verif.Asset

namespace AList

variable (bs : BinSearch)

/-! ## Single operations -/

/-- The reported balance is the total of the entries. -/
theorem c16_value (l : AList) (h : WF l) (id : Nat) : value bs l id = bal l id := by
  unfold value
  rcases hg : getValue bs l id with _ | v
  · rw [bal_eq_zero (getValue_none h.1 hg)]; rfl
  · rw [(getValue_some h.1 hg).1]; rfl

theorem c16_contains (l : AList) (h : WF l) (a : Asset) :
    contains bs l a = true ↔ a.value ≤ bal l a.id := by
  unfold contains
  split
  · simp_all
  · rename_i hv
    rcases hg : getValue bs l a.id with _ | v
    · rw [bal_eq_zero (getValue_none h.1 hg)]; simp; omega
    · rw [(getValue_some h.1 hg).1]; simp

/-- A deposit overflows exactly when the new balance does not fit; otherwise it adds the value to its id
and touches no other. -/
theorem c16_deposit (max : Nat) (l : AList) (h : WF l) (a : Asset) (ha : a.value ≤ max)
    (hb : ∀ id, bal l id ≤ max) :
    (deposit bs max l a = none ↔ max < bal l a.id + a.value) ∧
    ∀ l', deposit bs max l a = some l' →
      WF l' ∧ ∀ id, bal l' id = bal l id + if a.id = id then a.value else 0 := by
  unfold deposit
  by_cases hz : a.value = 0
  · have := hb a.id
    rw [if_pos hz]
    refine ⟨by simp [hz]; omega, ?_⟩
    rintro l' ⟨⟩
    exact ⟨h, by simp [hz]⟩
  · rw [if_neg hz]
    rcases hf : find bs l a.id with i | i
    · obtain ⟨xs, ys, rfl, rfl, h1, h2⟩ := find_err h.1 hf
      have hnone : bal (xs ++ ys) a.id = 0 := bal_eq_zero (by
        intro x hx
        rcases List.mem_append.mp hx with hx | hx
        · exact Nat.ne_of_lt (h1 x hx)
        · exact Nat.ne_of_gt (h2 x hx))
      have hle : xs.length ≤ (xs ++ ys).length := by simp
      simp only [hle, if_true]
      refine ⟨by simp [hnone]; exact ha, ?_⟩
      rintro l' ⟨⟩
      rw [insertIdx_split]
      have hs := List.pairwise_append.mp h.1
      refine ⟨⟨sorted_join hs.1 hs.2.1 h1 h2, ?_⟩, ?_⟩
      · intro x hx
        simp only [List.mem_append, List.mem_cons] at hx
        rcases hx with hx | rfl | hx
        · exact h.2 x (by simp [hx])
        · exact hz
        · exact h.2 x (by simp [hx])
      · intro id
        rw [bal_append, bal_append, bal_cons]; omega
    · obtain ⟨xs, v, ys, rfl, rfl⟩ := find_ok h.1 hf
      have hget : (xs ++ (⟨a.id, v⟩ : Asset) :: ys)[xs.length]? = some ⟨a.id, v⟩ := by simp
      have hv := bal_split h.1
      simp only at hv
      simp only [hget]
      refine ⟨?_, ?_⟩
      · rw [hv]
        split <;> simp <;> omega
      · intro l' hl'
        split at hl'
        · simp only [Option.some.injEq] at hl'
          subst hl'
          rw [set_split]
          obtain ⟨h1, h2, h3, h4, _⟩ := sorted_split h.1
          refine ⟨⟨sorted_join h1 h2 h3 h4, ?_⟩, ?_⟩
          · intro x hx
            simp only [List.mem_append, List.mem_cons] at hx
            rcases hx with hx | rfl | hx
            · exact h.2 x (by simp [hx])
            · simp; omega
            · exact h.2 x (by simp [hx])
          · intro id
            rw [bal_append, bal_append, bal_cons, bal_cons]
            simp only
            split <;> omega
        · cases hl'

/-- C17 for the list store: success iff covered; exact effect; no effect on failure. -/
theorem c17_withdraw (l : AList) (h : WF l) (a : Asset) :
    ((withdraw bs l a).1 = true ↔ a.value ≤ bal l a.id) ∧
    ((withdraw bs l a).1 = true →
      WF (withdraw bs l a).2 ∧ bal (withdraw bs l a).2 a.id + a.value = bal l a.id ∧
      ∀ id, id ≠ a.id → bal (withdraw bs l a).2 id = bal l id) ∧
    ((withdraw bs l a).1 = false → (withdraw bs l a).2 = l) := by
  unfold withdraw
  by_cases hz : a.value = 0
  · simp [hz, h]
  · rw [if_neg hz]
    rcases hf : find bs l a.id with i | i
    · obtain ⟨xs, ys, rfl, rfl, h1, h2⟩ := find_err h.1 hf
      have hnone : bal (xs ++ ys) a.id = 0 := bal_eq_zero (by
        intro x hx
        rcases List.mem_append.mp hx with hx | hx
        · exact Nat.ne_of_lt (h1 x hx)
        · exact Nat.ne_of_gt (h2 x hx))
      simp only [hnone]
      exact ⟨by simp; omega, by simp, by simp⟩
    · obtain ⟨xs, v, ys, rfl, rfl⟩ := find_ok h.1 hf
      have hget : (xs ++ (⟨a.id, v⟩ : Asset) :: ys)[xs.length]? = some ⟨a.id, v⟩ := by simp
      have hv := bal_split h.1
      obtain ⟨h1, h2, h3, h4, h5⟩ := sorted_split h.1
      simp only at hv h3 h4
      simp only [hget, hv]
      by_cases hle : a.value ≤ v
      · simp only [hle, if_true, true_and, forall_const]
        unfold setOrRemove
        split
        · rename_i hsub
          rw [eraseIdx_split]
          refine ⟨⟨⟨List.pairwise_append.mpr ⟨h1, h2, h5⟩, ?_⟩, ?_, ?_⟩, by simp⟩
          · intro x hx
            rcases List.mem_append.mp hx with hx | hx
            · exact h.2 x (by simp [hx])
            · exact h.2 x (by simp [hx])
          · rw [bal_append, bal_eq_zero (fun x hx => Nat.ne_of_lt (h3 x hx)),
              bal_eq_zero (fun y hy => Nat.ne_of_gt (h4 y hy))]
            omega
          · intro id hid
            rw [bal_append, bal_append, bal_cons]
            simp [Ne.symm hid]
        · rename_i hsub
          rw [modify_split]
          have hs' : Sorted (xs ++ (⟨a.id, v - a.value⟩ : Asset) :: ys) := sorted_join h1 h2 h3 h4
          refine ⟨⟨⟨hs', ?_⟩, ?_, ?_⟩, by simp⟩
          · intro x hx
            simp only [List.mem_append, List.mem_cons] at hx
            rcases hx with hx | rfl | hx
            · exact h.2 x (by simp [hx])
            · exact hsub
            · exact h.2 x (by simp [hx])
          · have := bal_split hs'
            simp only at this
            rw [this]; omega
          · intro id hid
            rw [bal_append, bal_append, bal_cons, bal_cons]
            simp [Ne.symm hid]
      · simp [hle]

theorem c17_withdraw_wf (l : AList) (h : WF l) (a : Asset) : WF (withdraw bs l a).2 := by
  obtain ⟨_, h2, h3⟩ := c17_withdraw bs l h a
  rcases hw : (withdraw bs l a).1
  · rw [h3 hw]; exact h
  · exact (h2 hw).1

/-- The unchecked withdrawal is the checked one, with a panic in place of `false`. -/
theorem c17_withdraw_unchecked (l : AList) (a : Asset) :
    withdrawUnchecked bs l a =
      if (withdraw bs l a).1 then some (withdraw bs l a).2 else none := by
  unfold withdrawUnchecked withdraw
  by_cases hz : a.value = 0
  · simp [hz]
  · simp only [if_neg hz]
    rcases find bs l a.id with i | i
    · rfl
    · rcases hg : l[i]? with _ | b
      · simp [hg]
      · by_cases hle : a.value ≤ b.value <;> simp [hg, hle]

/-- `remove` returns the whole balance of the id (`None` iff it is zero) and leaves the others. -/
theorem c16_remove (l : AList) (h : WF l) (id : Nat) :
    (remove bs l id).1 = (if bal l id = 0 then none else some (bal l id)) ∧
    WF (remove bs l id).2 ∧ bal (remove bs l id).2 id = 0 ∧
    ∀ id', id' ≠ id → bal (remove bs l id).2 id' = bal l id' := by
  unfold remove
  rcases hf : find bs l id with i | i
  · obtain ⟨xs, ys, rfl, rfl, h1, h2⟩ := find_err h.1 hf
    have hnone : bal (xs ++ ys) id = 0 := bal_eq_zero (by
      intro x hx
      rcases List.mem_append.mp hx with hx | hx
      · exact Nat.ne_of_lt (h1 x hx)
      · exact Nat.ne_of_gt (h2 x hx))
    simp [hnone, h]
  · obtain ⟨xs, v, ys, rfl, rfl⟩ := find_ok h.1 hf
    have hv := bal_split h.1
    obtain ⟨h1, h2, h3, h4, h5⟩ := sorted_split h.1
    simp only at hv h3 h4
    have hv0 : v ≠ 0 := h.2 ⟨id, v⟩ (by simp)
    simp only [eraseIdx_split, hv, if_neg hv0]
    refine ⟨by simp, ⟨List.pairwise_append.mpr ⟨h1, h2, h5⟩, ?_⟩, ?_, ?_⟩
    · intro x hx
      rcases List.mem_append.mp hx with hx | hx
      · exact h.2 x (by simp [hx])
      · exact h.2 x (by simp [hx])
    · rw [bal_append, bal_eq_zero (fun x hx => Nat.ne_of_lt (h3 x hx)),
        bal_eq_zero (fun y hy => Nat.ne_of_gt (h4 y hy))]
    · intro id' hid
      rw [bal_append, bal_append, bal_cons]
      simp [Ne.symm hid]

/-- `retain` keeps the form of the list; an asset with a nonzero balance keeps that balance if its
entry is approved and loses all of it otherwise. -/
theorem c16_retain (f : Asset → Bool) (l : AList) (h : WF l) :
    WF (retain f l) ∧
    ∀ id, bal (retain f l) id = if f ⟨id, bal l id⟩ = true then bal l id else 0 := by
  refine ⟨⟨List.Pairwise.filter _ h.1, fun a ha => h.2 a (List.mem_filter.mp ha).1⟩, fun id => ?_⟩
  induction l with
  | nil => simp [retain, bal]
  | cons a l ih =>
    have hs := List.pairwise_cons.mp h.1
    have ih := ih ⟨hs.2, fun x hx => h.2 x (List.mem_cons_of_mem _ hx)⟩
    by_cases e : a.id = id
    · have h0 : bal l id = 0 := bal_eq_zero fun y hy => by
        have := hs.1 y hy; omega
      have h1 : bal (retain f l) id = 0 := bal_eq_zero fun y hy => by
        have := hs.1 y (List.mem_filter.mp hy).1; omega
      have ha : (⟨id, a.value⟩ : Asset) = a := by rw [← e]
      have h2 : bal (a :: l) id = a.value := by rw [bal_cons, h0]; simp [e]
      rw [h2, ha]
      by_cases hf : f a = true
      · rw [if_pos hf, retain, List.filter_cons_of_pos hf, bal_cons]
        simp only [retain] at h1
        rw [h1]; simp [e]
      · rw [if_neg hf, retain, List.filter_cons_of_neg hf]; exact h1
    · have h2 : bal (a :: l) id = bal l id := by rw [bal_cons]; simp [e]
      rw [h2, ← ih]
      by_cases hf : f a = true
      · rw [retain, List.filter_cons_of_pos hf, bal_cons]; simp [e, retain]
      · rw [retain, List.filter_cons_of_neg hf]; rfl

example : retain (fun a => decide (a.value < 5)) [⟨1, 4⟩, ⟨2, 7⟩, ⟨3, 2⟩] = [⟨1, 4⟩, ⟨3, 2⟩] := by
  decide

/-! ## Histories -/

/-- Operations of a history. -/
inductive Op where
  | deposit (a : Asset)
  | withdraw (a : Asset)
deriving DecidableEq, Repr

def Op.asset : Op → Asset
  | .deposit a => a
  | .withdraw a => a

/-- Runs a history; the answers (withdrawals only; deposits answer `true`) are collected. -/
def run (max : Nat) : AList → List Op → Option (List Bool × AList)
  | l, [] => some ([], l)
  | l, .deposit a :: ops =>
    match deposit bs max l a with
    | none => none
    | some l' => (run max l' ops).map fun r => (true :: r.1, r.2)
  | l, .withdraw a :: ops =>
    let r := withdraw bs l a
    (run max r.2 ops).map fun s => (r.1 :: s.1, s.2)

/-- Sum of the accepted deposits of an id. -/
def deposited (ops : List Op) (id : Nat) : Nat :=
  bal (ops.filterMap fun | .deposit a => some a | .withdraw _ => none) id

/-- Sum of the accepted withdrawals of an id, given the answers of the store. -/
def withdrawn (ops : List Op) (answers : List Bool) (id : Nat) : Nat :=
  bal ((ops.zip answers).filterMap fun
    | (.withdraw a, true) => some a
    | _ => none) id

theorem run_invariant (max : Nat) (ops : List Op) : ∀ (l : AList) (ans : List Bool) (l' : AList),
    WF l → (∀ id, bal l id ≤ max) → (∀ o ∈ ops, o.asset.value ≤ max) →
    run bs max l ops = some (ans, l') →
    WF l' ∧ (∀ id, bal l' id ≤ max) ∧ ans.length = ops.length ∧
      ∀ id, bal l' id + withdrawn ops ans id = bal l id + deposited ops id := by
  induction ops with
  | nil =>
    intro l ans l' h hb _ hr
    simp only [run, Option.some.injEq, Prod.mk.injEq] at hr
    obtain ⟨rfl, rfl⟩ := hr
    exact ⟨h, hb, rfl, by simp [withdrawn, deposited]⟩
  | cons o ops ih =>
    intro l ans l' h hb ho hr
    have ho' : ∀ o' ∈ ops, o'.asset.value ≤ max := fun o' h' => ho o' (List.mem_cons_of_mem _ h')
    cases o with
    | deposit a =>
      have ha : a.value ≤ max := ho (.deposit a) List.mem_cons_self
      obtain ⟨hnone, hsome⟩ := c16_deposit bs max l h a ha hb
      simp only [run] at hr
      rcases hd : deposit bs max l a with _ | l1
      · rw [hd] at hr; cases hr
      · rw [hd] at hr
        simp only [Option.map_eq_some_iff] at hr
        obtain ⟨⟨ans', l2⟩, hr', heq⟩ := hr
        simp only [Prod.mk.injEq] at heq
        obtain ⟨rfl, rfl⟩ := heq
        obtain ⟨hwf, hbal⟩ := hsome l1 hd
        have hb1 : ∀ id, bal l1 id ≤ max := by
          intro id
          rw [hbal]
          by_cases hid : a.id = id
          · have : ¬ (max < bal l a.id + a.value) := by
              rw [← hnone, hd]; simp
            rw [if_pos hid, ← hid]; omega
          · rw [if_neg hid]; exact hb id
        obtain ⟨g1, g2, g3, g4⟩ := ih l1 ans' l2 hwf hb1 ho' hr'
        refine ⟨g1, g2, by simp [g3], ?_⟩
        intro id
        have := g4 id
        have hw : withdrawn (.deposit a :: ops) (true :: ans') id = withdrawn ops ans' id := by
          simp [withdrawn]
        have hdp : deposited (.deposit a :: ops) id =
            (if a.id = id then a.value else 0) + deposited ops id := by
          simp [deposited, bal_cons]
        rw [hw, hdp, this, hbal]; omega
    | withdraw a =>
      simp only [run, Option.map_eq_some_iff] at hr
      obtain ⟨⟨ans', l2⟩, hr', heq⟩ := hr
      simp only [Prod.mk.injEq] at heq
      obtain ⟨rfl, rfl⟩ := heq
      obtain ⟨_, hok, hfail⟩ := c17_withdraw bs l h a
      rcases hw : (withdraw bs l a).1
      · rw [hfail hw] at hr'
        obtain ⟨g1, g2, g3, g4⟩ := ih l ans' l2 h hb ho' hr'
        refine ⟨g1, g2, by simp [g3], ?_⟩
        intro id
        have e1 : withdrawn (.withdraw a :: ops) (false :: ans') id = withdrawn ops ans' id := by
          simp [withdrawn]
        have e2 : deposited (.withdraw a :: ops) id = deposited ops id := by
          simp [deposited]
        rw [e1, e2]; exact g4 id
      · obtain ⟨hwf, heq, hoth⟩ := hok hw
        have hb1 : ∀ id, bal (withdraw bs l a).2 id ≤ max := by
          intro id
          by_cases hid : id = a.id
          · have := hb id; subst hid; omega
          · rw [hoth id hid]; exact hb id
        obtain ⟨g1, g2, g3, g4⟩ := ih _ ans' l2 hwf hb1 ho' hr'
        refine ⟨g1, g2, by simp [g3], ?_⟩
        intro id
        have e1 : withdrawn (.withdraw a :: ops) (true :: ans') id =
            (if a.id = id then a.value else 0) + withdrawn ops ans' id := by
          simp [withdrawn, bal_cons]
        have e2 : deposited (.withdraw a :: ops) id = deposited ops id := by
          simp [deposited]
        have := g4 id
        rw [e1, e2]
        by_cases hid : a.id = id
        · rw [if_pos hid]; subst hid; omega
        · rw [if_neg hid]; rw [hoth id (Ne.symm hid)] at this; omega

/-- C16: after any history, starting from the empty list, the list is strictly sorted without zero
entries and every reported balance is accepted deposits minus accepted withdrawals. -/
theorem c16_history (max : Nat) (ops : List Op) (hops : ∀ o ∈ ops, o.asset.value ≤ max)
    (ans : List Bool) (l : AList) (hr : run bs max [] ops = some (ans, l)) :
    l.Pairwise (fun a b => a.id < b.id) ∧ (∀ a ∈ l, a.value ≠ 0) ∧
    ∀ id, value bs l id + withdrawn ops ans id = deposited ops id := by
  obtain ⟨h1, _, _, h3⟩ := run_invariant bs max ops [] ans l wf_nil (by simp) hops hr
  refine ⟨h1.1, h1.2, ?_⟩
  intro id
  rw [c16_value bs l h1 id, h3 id]; simp

/-- C16: the history never panics as long as no total of deposits exceeds the value type. -/
theorem c16_no_panic (max : Nat) (ops : List Op) : ∀ (l : AList), WF l →
    (∀ o ∈ ops, o.asset.value ≤ max) →
    (∀ id, bal l id + deposited ops id ≤ max) → (run bs max l ops).isSome := by
  induction ops with
  | nil => intro l _ _ _; rfl
  | cons o ops ih =>
    intro l h ho hd
    have ho' : ∀ o' ∈ ops, o'.asset.value ≤ max := fun o' h' => ho o' (List.mem_cons_of_mem _ h')
    have hb : ∀ id, bal l id ≤ max := fun id => by have := hd id; omega
    cases o with
    | deposit a =>
      have hdp : ∀ id, deposited (.deposit a :: ops) id =
          (if a.id = id then a.value else 0) + deposited ops id := by
        intro id; simp [deposited, bal_cons]
      have ha : a.value ≤ max := ho (.deposit a) List.mem_cons_self
      obtain ⟨hnone, hsome⟩ := c16_deposit bs max l h a ha hb
      rcases hdep : deposit bs max l a with _ | l1
      · have := hnone.mp hdep
        have h2 := hd a.id
        rw [hdp, if_pos rfl] at h2
        omega
      · obtain ⟨hwf, hbal⟩ := hsome l1 hdep
        simp only [run, hdep, Option.isSome_map]
        apply ih l1 hwf ho'
        intro id
        have := hd id
        rw [hdp] at this
        rw [hbal]; omega
    | withdraw a =>
      have hdp : ∀ id, deposited (.withdraw a :: ops) id = deposited ops id := by
        intro id; simp [deposited]
      simp only [run, Option.isSome_map]
      obtain ⟨_, hok, hfail⟩ := c17_withdraw bs l h a
      apply ih _ (c17_withdraw_wf bs l h a) ho'
      intro id
      have := hd id
      rw [hdp] at this
      rcases hw : (withdraw bs l a).1
      · rw [hfail hw]; exact this
      · obtain ⟨_, heq, hoth⟩ := hok hw
        by_cases hid : id = a.id
        · subst hid; omega
        · rw [hoth id hid]; exact this

/-- Building from an iterator: succeeds iff no id total overflows; totals are exact. -/
theorem depositAll_spec (max : Nat) (as : List Asset) : ∀ (l : AList), WF l →
    (∀ id, bal l id ≤ max) → (∀ a ∈ as, a.value ≤ max) →
    (depositAll bs max l as = none ↔ ∃ id, max < bal l id + bal as id) ∧
    ∀ l', depositAll bs max l as = some l' → WF l' ∧ ∀ id, bal l' id = bal l id + bal as id := by
  induction as with
  | nil =>
    intro l h hb _
    refine ⟨?_, ?_⟩
    · simp [depositAll, hb]
    · intro l' hl'
      simp [depositAll] at hl'
      subst hl'
      exact ⟨h, by simp⟩
  | cons a as ih =>
    intro l h hb ha
    have ha1 : a.value ≤ max := ha a List.mem_cons_self
    obtain ⟨hnone, hsome⟩ := c16_deposit bs max l h a ha1 hb
    have hstep : depositAll bs max l (a :: as) =
        match deposit bs max l a with
        | none => none
        | some l1 => depositAll bs max l1 as := by
      unfold depositAll
      rw [List.foldlM_cons]
      rcases deposit bs max l a <;> rfl
    rw [hstep]
    rcases hd : deposit bs max l a with _ | l1
    · have := hnone.mp hd
      refine ⟨⟨fun _ => ⟨a.id, by rw [bal_cons, if_pos rfl]; omega⟩, fun _ => rfl⟩, by simp⟩
    · obtain ⟨hwf, hbal⟩ := hsome l1 hd
      have hnot : ¬ (max < bal l a.id + a.value) := by rw [← hnone, hd]; simp
      have hb1 : ∀ id, bal l1 id ≤ max := by
        intro id
        rw [hbal]
        by_cases hid : a.id = id
        · rw [if_pos hid, ← hid]; omega
        · rw [if_neg hid]; exact hb id
      obtain ⟨g1, g2⟩ := ih l1 hwf hb1 (fun b hb' => ha b (List.mem_cons_of_mem _ hb'))
      refine ⟨?_, ?_⟩
      · rw [g1]
        constructor
        · rintro ⟨id, hid⟩; exact ⟨id, by rw [bal_cons]; rw [hbal] at hid; omega⟩
        · rintro ⟨id, hid⟩; exact ⟨id, by rw [hbal]; rw [bal_cons] at hid; omega⟩
      · intro l' hl'
        obtain ⟨k1, k2⟩ := g2 l' hl'
        refine ⟨k1, ?_⟩
        intro id
        rw [k2, hbal, bal_cons]; omega

/-- C16: collecting assets into a list sums them per id. -/
theorem c16_from_iter (max : Nat) (as : List Asset) (ha : ∀ a ∈ as, a.value ≤ max) :
    (fromIter bs max as = none ↔ ∃ id, max < bal as id) ∧
    ∀ l, fromIter bs max as = some l → WF l ∧ ∀ id, value bs l id = bal as id := by
  obtain ⟨h1, h2⟩ := depositAll_spec bs max as [] wf_nil (by simp) ha
  have h1' : fromIter bs max as = none ↔ ∃ id, max < bal [] id + bal as id := h1
  refine ⟨by simpa using h1', ?_⟩
  intro l hl
  obtain ⟨k1, k2⟩ := h2 l hl
  exact ⟨k1, fun id => by rw [c16_value bs l k1 id, k2]; simp⟩

/-! ## C19 bulk withdrawal -/

theorem withdrawLoop_spec (as : List Asset) : ∀ (l : AList), WF l → WF as →
    ((withdrawLoop bs l as).1 = true ↔ ∀ id, bal as id ≤ bal l id) ∧
    ((withdrawLoop bs l as).1 = true → ∀ id, bal (withdrawLoop bs l as).2 id + bal as id = bal l id) ∧
    WF (withdrawLoop bs l as).2 := by
  induction as with
  | nil => intro l h _; simp [withdrawLoop, h]
  | cons a as ih =>
    intro l h has
    obtain ⟨hiff, hok, hfail⟩ := c17_withdraw bs l h a
    have has' : WF as := ⟨(List.pairwise_cons.mp has.1).2, fun x hx => has.2 x (List.mem_cons_of_mem _ hx)⟩
    have hrest : bal as a.id = 0 :=
      bal_eq_zero fun x hx => Nat.ne_of_gt ((List.pairwise_cons.mp has.1).1 x hx)
    rcases hw : withdraw bs l a with ⟨b, l1⟩
    rw [hw] at hiff hok hfail
    simp only [withdrawLoop, hw]
    cases b with
    | false =>
      have hl1 : l1 = l := hfail rfl
      subst hl1
      simp only [Bool.false_eq_true, false_iff] at hiff
      refine ⟨⟨by simp, ?_⟩, by simp, h⟩
      intro hc
      have := hc a.id
      rw [bal_cons, if_pos rfl] at this
      exact absurd (by omega) hiff
    | true =>
      simp only [true_iff] at hiff
      obtain ⟨hwf, heq, hoth⟩ := hok rfl
      simp only at hwf heq hoth
      obtain ⟨g1, g2, g3⟩ := ih l1 hwf has'
      have hbal : ∀ id, bal l1 id + (if a.id = id then a.value else 0) = bal l id := by
        intro id
        by_cases hid : a.id = id
        · rw [if_pos hid, ← hid]; exact heq
        · rw [if_neg hid, hoth id (Ne.symm hid)]; simp
      refine ⟨?_, ?_, g3⟩
      · rw [g1]
        constructor
        · intro hc id
          have := hc id; have := hbal id
          rw [bal_cons]; omega
        · intro hc id
          have := hc id; have := hbal id
          rw [bal_cons] at *; omega
      · intro ht id
        have e1 := g2 ht id; have e2 := hbal id
        rw [bal_cons]
        simp only at e1 ⊢
        omega

/-- C19, the part that holds: the answer is exact and a successful bulk withdrawal removes the total of every
id. (Missing: on failure nothing changes — refuted below.) -/
theorem c19_withdraw_all_partial (max : Nat) (l : AList) (h : WF l) (as : List Asset)
    (ha : ∀ a ∈ as, a.value ≤ max) (hsum : ∀ id, bal as id ≤ max) :
    ∃ ok l', withdrawAll bs max l as = some (ok, l') ∧ WF l' ∧
      (ok = true ↔ ∀ id, bal as id ≤ bal l id) ∧
      (ok = true → ∀ id, bal l' id + bal as id = bal l id) := by
  obtain ⟨h1, h2⟩ := c16_from_iter bs max as ha
  rcases hf : fromIter bs max as with _ | merged
  · obtain ⟨id, hid⟩ := h1.mp hf
    have := hsum id; omega
  · obtain ⟨hwf, hval⟩ := h2 merged hf
    have hb : ∀ id, bal merged id = bal as id := fun id => by
      rw [← c16_value bs merged hwf id, hval]
    obtain ⟨g1, g2, g3⟩ := withdrawLoop_spec bs merged l h hwf
    refine ⟨(withdrawLoop bs l merged).1, (withdrawLoop bs l merged).2,
      by simp only [withdrawAll, hf], g3, ?_, ?_⟩
    · rw [g1]; simp only [hb]
    · intro ht id; rw [← hb]; exact g2 ht id

/-- C19 is violated: a failing bulk withdrawal keeps the ids processed before the failure withdrawn. The
witness works for every correct search: balances {1 ↦ 5}, request {1 ↦ 5, 2 ↦ 1}. -/
theorem c19_violated (max : Nat) (hm : 5 ≤ max) :
    ∃ l', withdrawAll bs max [⟨1, 5⟩] [⟨1, 5⟩, ⟨2, 1⟩] = some (false, l') ∧
      value bs [⟨1, 5⟩] 1 = 5 ∧ value bs l' 1 = 0 := by
  have hwf : WF [⟨1, 5⟩] := ⟨by simp [Sorted], by simp⟩
  have hb1 : ∀ id, bal [⟨1, 5⟩, ⟨2, 1⟩] id = if id = 1 then 5 else if id = 2 then 1 else 0 := by
    intro id
    simp only [bal_cons, bal_nil]
    by_cases h1 : id = 1
    · simp [h1]
    · by_cases h2 : id = 2
      · simp [h2]
      · simp [h1, h2, Ne.symm h1, Ne.symm h2]
  have hb0 : ∀ id, bal [⟨1, 5⟩] id = if id = 1 then 5 else 0 := by
    intro id
    simp only [bal_cons, bal_nil]
    split <;> split <;> omega
  obtain ⟨h1, h2⟩ := c16_from_iter bs max [⟨1, 5⟩, ⟨2, 1⟩] (by simp; omega)
  rcases hf : fromIter bs max [⟨1, 5⟩, ⟨2, 1⟩] with _ | merged
  · obtain ⟨id, hid⟩ := h1.mp hf
    rw [hb1] at hid
    split at hid <;> try split at hid
    all_goals omega
  · obtain ⟨hmw, hval⟩ := h2 merged hf
    have hb : ∀ id, bal merged id = bal [⟨1, 5⟩, ⟨2, 1⟩] id := fun id => by
      rw [← c16_value bs merged hmw id, hval]
    -- the merged list is [(1,5),(2,1)]
    have hm2 : merged = [⟨1, 5⟩, ⟨2, 1⟩] := by
      have key : ∀ a ∈ merged, a.id = 1 ∨ a.id = 2 := by
        intro a ha
        apply Classical.byContradiction
        intro hc
        have hz : bal merged a.id = 0 := by
          rw [hb, hb1, if_neg (by omega), if_neg (by omega)]
        exact bal_zero_of hz hmw.2 a ha rfl
      rcases merged with _ | ⟨x, _ | ⟨y, _ | ⟨z, t⟩⟩⟩
      · have := hb 1; simp [bal_cons] at this
      · have e1 := hb 1; have e2 := hb 2
        have := key x (by simp)
        simp [bal_cons] at e1 e2
        rcases this with h | h <;> simp [h] at e1 e2
      · have e1 := hb 1; have e2 := hb 2
        have kx := key x (by simp); have ky := key y (by simp)
        have hlt := (List.pairwise_cons.mp hmw.1).1 y (by simp)
        have hx : x.id = 1 := by omega
        have hy : y.id = 2 := by omega
        simp [bal_cons, hx, hy] at e1 e2
        cases x; cases y
        simp_all
      · have kx := key x (by simp); have ky := key y (by simp); have kz := key z (by simp)
        have h1 := (List.pairwise_cons.mp hmw.1).1 y (by simp)
        have h2 := (List.pairwise_cons.mp (List.pairwise_cons.mp hmw.1).2).1 z (by simp)
        omega
    obtain ⟨i1, o1, _⟩ := c17_withdraw bs [⟨1, 5⟩] hwf ⟨1, 5⟩
    rcases hw : withdraw bs [⟨1, 5⟩] ⟨1, 5⟩ with ⟨b, l1⟩
    rw [hw] at i1 o1
    have hbt : b = true := i1.mpr (by simp [hb0])
    subst hbt
    obtain ⟨w1, w2, w3⟩ := o1 rfl
    simp only [hb0] at w1 w2 w3
    obtain ⟨i2, _, f2⟩ := c17_withdraw bs l1 w1 ⟨2, 1⟩
    rcases hw2 : withdraw bs l1 ⟨2, 1⟩ with ⟨b2, l2⟩
    rw [hw2] at i2 f2
    have hb2 : b2 = false := by
      cases b2
      · rfl
      · have := i2.mp rfl
        simp only at this
        rw [w3 2 (by simp)] at this
        simp at this
    subst hb2
    have hl2 : l2 = l1 := f2 rfl
    refine ⟨l1, ?_, ?_, ?_⟩
    · simp [withdrawAll, hf, hm2, withdrawLoop, hw, hw2, hl2]
    · rw [c16_value bs _ hwf, hb0]; rfl
    · rw [c16_value bs _ w1]; simp at w2; exact w2

end AList

/-! ## C18 the stores agree -/

/-- Abstract state of both stores. -/
structure Sim (l : AList) (m : BMap) : Prop where
  wf : WF l
  keys : KeysNodup m
  nonzero : ∀ e ∈ m, e.2 ≠ 0
  agree : ∀ id, BMap.balance m id = bal l id

theorem sim_nil : Sim [] [] := ⟨wf_nil, List.nodup_nil, by simp, by simp [BMap.balance, mget]⟩

variable (bs : BinSearch) (L : Layout Nat Nat)

theorem balance_none {m : BMap} (id : Nat) (hn : ∀ e ∈ m, e.2 ≠ 0) :
    mget m id = none ↔ BMap.balance m id = 0 := by
  unfold BMap.balance
  rcases hg : mget m id with _ | v
  · simp
  · have := hn _ (mget_some_mem hg)
    simpa using this

/-- C17 for the map store. -/
theorem c17_map_withdraw (m : BMap) (hk : KeysNodup m) (hn : ∀ e ∈ m, e.2 ≠ 0) (a : Asset) :
    ((BMap.withdraw m a).1 = true ↔ a.value ≤ BMap.balance m a.id) ∧
    ((BMap.withdraw m a).1 = true →
      (∀ id, BMap.balance (BMap.withdraw m a).2 id =
        BMap.balance m id - if a.id = id then a.value else 0)) ∧
    ((BMap.withdraw m a).1 = false → (BMap.withdraw m a).2 = m) ∧
    KeysNodup (BMap.withdraw m a).2 ∧ ∀ e ∈ (BMap.withdraw m a).2, e.2 ≠ 0 := by
  unfold BMap.withdraw
  by_cases hz : a.value = 0
  · simp only [hz, ne_eq, not_true, if_false]
    exact ⟨by simp, by simp, by simp, hk, hn⟩
  · rw [if_pos hz]
    rcases hg : mget m a.id with _ | v
    · have : BMap.balance m a.id = 0 := by simp [BMap.balance, hg]
      simp only [this]
      exact ⟨by simp; omega, by simp, by simp, hk, hn⟩
    · have hv : BMap.balance m a.id = v := by simp [BMap.balance, hg]
      simp only [hv]
      by_cases hle : a.value ≤ v
      · simp only [hle, if_true]
        by_cases hs : v - a.value = 0
        · simp only [hs, if_true, true_and]
          refine ⟨?_, by simp, keysNodup_merase _ hk, ?_⟩
          · intro _ id
            unfold BMap.balance
            rw [mget_merase]
            by_cases hid : a.id = id
            · subst hid; simp [hg]; omega
            · simp [hid]
          · intro e he
            exact hn e (List.mem_filter.mp he).1
        · simp only [hs, if_false, true_and]
          refine ⟨?_, by simp, keysNodup_mset _ _ hk, ?_⟩
          · intro _ id
            unfold BMap.balance
            rw [mget_mset]
            by_cases hid : a.id = id
            · subst hid; simp [hg]
            · simp [hid]
          · intro e he
            simp only [mset, List.mem_map] at he
            obtain ⟨e', he', rfl⟩ := he
            split
            · exact hs
            · exact hn e' he'
      · simp only [hle, if_false]
        exact ⟨by simp, by simp, by simp, hk, hn⟩

theorem sim_deposit (max : Nat) {l : AList} {m : BMap} (h : Sim l m) (a : Asset) (ha : a.value ≤ max)
    (hb : ∀ id, bal l id ≤ max) :
    (AList.deposit bs max l a = none ∧ BMap.deposit L max m a = none) ∨
    ∃ l' m', AList.deposit bs max l a = some l' ∧ BMap.deposit L max m a = some m' ∧ Sim l' m' ∧
      ∀ id, bal l' id ≤ max := by
  obtain ⟨hnone, hsome⟩ := AList.c16_deposit bs max l h.wf a ha hb
  have hm : BMap.deposit L max m a = none ↔ max < bal l a.id + a.value := by
    have := h.agree a.id
    have hba := hb a.id
    unfold BMap.deposit
    by_cases hz : a.value = 0
    · simp [hz]; omega
    · rw [if_neg hz]
      rcases hg : mget m a.id with _ | v
      · simp [BMap.balance, hg] at this; simp; omega
      · simp [BMap.balance, hg] at this
        simp only
        split <;> simp <;> omega
  rcases hd : AList.deposit bs max l a with _ | l'
  · exact Or.inl ⟨rfl, hm.mpr (hnone.mp hd)⟩
  · obtain ⟨hwf, hbal⟩ := hsome l' hd
    have hnot : ¬ (max < bal l a.id + a.value) := by rw [← hnone, hd]; simp
    have hb' : ∀ id, bal l' id ≤ max := by
      intro id
      rw [hbal]
      by_cases hid : a.id = id
      · rw [if_pos hid, ← hid]; omega
      · rw [if_neg hid]; exact hb id
    right
    rcases hdm : BMap.deposit L max m a with _ | m'
    · exact absurd (hm.mp hdm) hnot
    · refine ⟨l', m', rfl, rfl, ?_, hb'⟩
      unfold BMap.deposit at hdm
      by_cases hz : a.value = 0
      · rw [if_pos hz] at hdm
        cases hdm
        exact ⟨hwf, h.keys, h.nonzero, fun id => by rw [h.agree, hbal, hz]; simp⟩
      · rw [if_neg hz] at hdm
        rcases hg : mget m a.id with _ | v
        · rw [hg] at hdm
          simp only [Option.some.injEq] at hdm
          subst hdm
          have hperm := L.perm ((a.id, a.value) :: m)
          have hk := keysNodup_cons a.value h.keys hg
          refine ⟨hwf, keysNodup_perm hperm.symm hk, ?_, ?_⟩
          · intro e he
            have := hperm.mem_iff.mp he
            simp only [List.mem_cons] at this
            rcases this with rfl | this
            · exact hz
            · exact h.nonzero e this
          · intro id
            have hag := h.agree id
            unfold BMap.balance at hag ⊢
            rw [mget_perm hperm.symm hk, mget_cons, hbal]
            by_cases hid : a.id = id
            · have : bal l a.id = 0 := by
                rw [← h.agree a.id]; simp [BMap.balance, hg]
              simp [hid]; rw [← hid, this]
            · simp [hid]; exact hag
        · rw [hg] at hdm
          simp only at hdm
          split at hdm
          · simp only [Option.some.injEq] at hdm
            subst hdm
            refine ⟨hwf, keysNodup_mset _ _ h.keys, ?_, ?_⟩
            · intro e he
              simp only [mset, List.mem_map] at he
              obtain ⟨e', he', rfl⟩ := he
              split
              · simp; omega
              · exact h.nonzero e' he'
            · intro id
              have hag := h.agree id
              unfold BMap.balance at hag ⊢
              rw [mget_mset, hbal]
              by_cases hid : a.id = id
              · subst hid
                simp [hg] at hag ⊢; omega
              · simp [hid]; exact hag
          · cases hdm

theorem sim_withdraw {l : AList} {m : BMap} (h : Sim l m) (a : Asset) :
    (AList.withdraw bs l a).1 = (BMap.withdraw m a).1 ∧
    Sim (AList.withdraw bs l a).2 (BMap.withdraw m a).2 ∧
    ∀ id, bal (AList.withdraw bs l a).2 id ≤ bal l id := by
  obtain ⟨h1, h2, h3⟩ := AList.c17_withdraw bs l h.wf a
  obtain ⟨g1, g2, g3, g4, g5⟩ := c17_map_withdraw m h.keys h.nonzero a
  rw [h.agree] at g1
  have heq : (AList.withdraw bs l a).1 = (BMap.withdraw m a).1 := by
    rw [Bool.eq_iff_iff, h1, g1]
  refine ⟨heq, ?_, ?_⟩
  · refine ⟨AList.c17_withdraw_wf bs l h.wf a, g4, g5, ?_⟩
    rcases hw : (AList.withdraw bs l a).1
    · rw [g3 (heq ▸ hw), h3 hw]; exact h.agree
    · obtain ⟨_, k2, k3⟩ := h2 hw
      intro id
      rw [g2 (heq ▸ hw), h.agree]
      by_cases hid : a.id = id
      · rw [if_pos hid, ← hid]; omega
      · rw [if_neg hid, k3 id (Ne.symm hid)]; simp
  · rcases hw : (AList.withdraw bs l a).1
    · rw [h3 hw]; simp
    · obtain ⟨_, k2, k3⟩ := h2 hw
      intro id
      by_cases hid : id = a.id
      · subst hid; omega
      · rw [k3 id hid]; omega

theorem sim_withdrawLoop (as : List Asset) : ∀ {l : AList} {m : BMap}, Sim l m →
    (AList.withdrawLoop bs l as).1 = (BMap.withdrawLoop m as).1 ∧
    Sim (AList.withdrawLoop bs l as).2 (BMap.withdrawLoop m as).2 ∧
    ∀ id, bal (AList.withdrawLoop bs l as).2 id ≤ bal l id := by
  induction as with
  | nil => intro l m h; exact ⟨rfl, h, by simp [AList.withdrawLoop]⟩
  | cons a as ih =>
    intro l m h
    obtain ⟨h1, h2, h3⟩ := sim_withdraw bs h a
    rcases hw : AList.withdraw bs l a with ⟨b, l1⟩
    rcases hm : BMap.withdraw m a with ⟨b', m1⟩
    rw [hw, hm] at h1 h2
    rw [hw] at h3
    simp only at h1 h2 h3
    subst h1
    simp only [AList.withdrawLoop, BMap.withdrawLoop, hw, hm]
    cases b with
    | false => exact ⟨rfl, h2, h3⟩
    | true =>
      obtain ⟨g1, g2, g3⟩ := ih h2
      exact ⟨g1, g2, fun id => Nat.le_trans (g3 id) (h3 id)⟩

/-- Calls of the balance store interface (balance.rs:39-77). -/
inductive Call where
  | deposit (a : Asset)
  | withdraw (a : Asset)
  | withdrawAll (as : List Asset)
  | clear
deriving DecidableEq, Repr

def Call.assets : Call → List Asset
  | .deposit a => [a]
  | .withdraw a => [a]
  | .withdrawAll as => as
  | .clear => []

/-- One call on the list store: answer and new state. -/
def stepList (max : Nat) (l : AList) : Call → Option (Bool × AList)
  | .deposit a => (AList.deposit bs max l a).map fun l' => (true, l')
  | .withdraw a => some (AList.withdraw bs l a)
  | .withdrawAll as => AList.withdrawAll bs max l as
  | .clear => some (true, [])

/-- One call on a map store. -/
def stepMap (max : Nat) (m : BMap) : Call → Option (Bool × BMap)
  | .deposit a => (BMap.deposit L max m a).map fun l' => (true, l')
  | .withdraw a => some (BMap.withdraw m a)
  | .withdrawAll as => BMap.withdrawAll bs max m as
  | .clear => some (true, [])

/-- Runs calls, collecting the answers and, after every call, the balances seen through `obs`. -/
def runStore (step : σ → Call → Option (Bool × σ)) (obs : σ → Nat → Nat) :
    σ → List Call → Option (List (Bool × (Nat → Nat)))
  | _, [] => some []
  | s, c :: cs =>
    match step s c with
    | none => none
    | some (b, s') => (runStore step obs s' cs).map fun r => (b, obs s') :: r

theorem sim_step (max : Nat) {l : AList} {m : BMap} (h : Sim l m) (hb : ∀ id, bal l id ≤ max)
    (c : Call) (hc : ∀ a ∈ c.assets, a.value ≤ max) :
    (stepList bs max l c = none ∧ stepMap bs L max m c = none) ∨
    ∃ b l' m', stepList bs max l c = some (b, l') ∧ stepMap bs L max m c = some (b, m') ∧ Sim l' m' ∧
      ∀ id, bal l' id ≤ max := by
  cases c with
  | deposit a =>
    rcases sim_deposit bs L max h a (hc a (by simp [Call.assets])) hb with ⟨h1, h2⟩ | ⟨l', m', h1, h2, h3, h4⟩
    · left; simp [stepList, stepMap, h1, h2]
    · right; exact ⟨true, l', m', by simp [stepList, h1], by simp [stepMap, h2], h3, h4⟩
  | withdraw a =>
    obtain ⟨h1, h2, h3⟩ := sim_withdraw bs h a
    right
    refine ⟨(AList.withdraw bs l a).1, (AList.withdraw bs l a).2, (BMap.withdraw m a).2, rfl, ?_, h2,
      fun id => Nat.le_trans (h3 id) (hb id)⟩
    rw [h1]; rfl
  | withdrawAll as =>
    simp only [stepList, stepMap, AList.withdrawAll, BMap.withdrawAll]
    rcases AList.fromIter bs max as with _ | merged
    · left; simp
    · right
      obtain ⟨h1, h2, h3⟩ := sim_withdrawLoop bs merged h
      refine ⟨(AList.withdrawLoop bs l merged).1, (AList.withdrawLoop bs l merged).2,
        (BMap.withdrawLoop m merged).2, rfl, ?_, h2, fun id => Nat.le_trans (h3 id) (hb id)⟩
      rw [h1]
  | clear =>
    right
    exact ⟨true, [], [], rfl, rfl, sim_nil, by simp⟩

/-- C18: on every history of calls the list store and every map store give the same answers and the
same balances after each call, and panic on exactly the same histories. -/
theorem c18_stores_agree (max : Nat) (cs : List Call)
    (hc : ∀ c ∈ cs, ∀ a ∈ c.assets, a.value ≤ max) :
    runStore (stepList bs max) (AList.value bs) [] cs =
      runStore (stepMap bs L max) BMap.balance [] cs := by
  have key : ∀ (cs : List Call) (l : AList) (m : BMap), Sim l m → (∀ id, bal l id ≤ max) →
      (∀ c ∈ cs, ∀ a ∈ c.assets, a.value ≤ max) →
      runStore (stepList bs max) (AList.value bs) l cs =
        runStore (stepMap bs L max) BMap.balance m cs := by
    intro cs
    induction cs with
    | nil => intros; rfl
    | cons c cs ih =>
      intro l m h hb hc
      rcases sim_step bs L max h hb c (hc c List.mem_cons_self) with ⟨h1, h2⟩ | ⟨b, l', m', h1, h2, h3, h4⟩
      · simp [runStore, h1, h2]
      · have hobs : AList.value bs l' = BMap.balance m' := by
          funext id
          rw [AList.c16_value bs l' h3.wf, h3.agree]
        simp only [runStore, h1, h2, hobs]
        rw [ih l' m' h3 h4 (fun c' hc' => hc c' (List.mem_cons_of_mem _ hc'))]
  exact key cs [] [] sim_nil (by simp) hc

/-! ## Concrete cases -/

example : AList.run linSearch 100 [] [.deposit ⟨7, 10⟩, .deposit ⟨3, 4⟩, .withdraw ⟨7, 11⟩,
    .withdraw ⟨7, 10⟩, .deposit ⟨3, 1⟩] = some ([true, true, false, true, true], [⟨3, 5⟩]) := by
  decide

example : WF [⟨3, 5⟩, ⟨9, 1⟩] := by simp [WF, Sorted]

end Verif.Asset
