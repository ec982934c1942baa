import Verif.Asset.Lemmas

/-!
# Properties of the coin map and coin selection (C20, C21, C22, C23)
-/

namespace Verif.Asset.AMap

variable {K : Type}

/-- Total value of a list of (key, value) pairs. -/
def tot (cs : List (K × Nat)) : Nat := (cs.map Prod.snd).sum

theorem tot_append (a b : List (K × Nat)) : tot (a ++ b) = tot a + tot b := by simp [tot]
@[simp] theorem tot_nil : tot ([] : List (K × Nat)) = 0 := rfl
@[simp] theorem tot_cons (c : K × Nat) (cs : List (K × Nat)) : tot (c :: cs) = c.2 + tot cs := by
  simp [tot]

/-! ## The selection loop -/

/-- Outcomes of the loop started in an arbitrary state. -/
inductive Outcome (t : Nat) (cs : List (K × Nat)) (sum : Nat) (values : List (K × Nat))
    (best : Option (K × Nat)) (sel : Selection K) : Prop where
  | exact (k : K) (hk : (k, t) ∈ cs) (hs : sel = ⟨0, [(k, t)]⟩)
  | larger (b : K × Nat) (hs : sel = ⟨b.2 - t, [b]⟩) (hne : ∀ c ∈ cs, c.2 ≠ t) (hb : t < b.2)
      (hm : best = some b ∨ b ∈ cs) (hmin : ∀ c ∈ cs, t < c.2 → b.2 ≤ c.2)
      (hbest : ∀ b', best = some b' → b.2 ≤ b'.2)
  | smaller (hbest : best = none) (hall : ∀ c ∈ cs, c.2 < t) (taken rest : List (K × Nat))
      (hcs : cs = taken ++ rest)
      (hs : sel = if sum + tot taken < t then ⟨0, []⟩ else ⟨sum + tot taken - t, values ++ taken⟩)
      (hall' : sum + tot taken < t → rest = [])
      (hmin : ∀ c ys, taken = ys ++ [c] → sum + tot ys < t)

theorem selectLoop_outcome (max t : Nat) (cs : List (K × Nat)) : ∀ (sum : Nat) (values : List (K × Nat))
    (best : Option (K × Nat)) (sel : Selection K), (∀ b, best = some b → t < b.2) →
    selectLoop max t cs sum values best = some sel → Outcome t cs sum values best sel := by
  induction cs with
  | nil =>
    intro sum values best sel hb h
    cases best with
    | some b =>
      obtain ⟨k, v⟩ := b
      simp only [selectLoop, Option.some.injEq] at h
      exact .larger (k, v) h.symm (by simp) (hb _ rfl) (Or.inl rfl) (by simp) (by simp)
    | none =>
      simp only [selectLoop] at h
      refine .smaller rfl (by simp) [] [] rfl ?_ (by simp) (by simp)
      simp only [tot_nil, Nat.add_zero, List.append_nil]
      split at h
      · rename_i hlt; rw [if_pos hlt]; exact (Option.some.inj h).symm
      · rename_i hlt; rw [if_neg hlt]; exact (Option.some.inj h).symm
  | cons c cs ih =>
    obtain ⟨k, v⟩ := c
    intro sum values best sel hb h
    simp only [selectLoop] at h
    split at h
    · rename_i hv
      have hb' : ∀ b, (some (match best with
          | some b => if v ≥ b.2 then b else (k, v)
          | none => (k, v)) : Option (K × Nat)) = some b → t < b.2 := by
        rintro b ⟨⟩
        cases best with
        | none => exact hv
        | some b =>
          simp only
          split
          · exact hb _ rfl
          · exact hv
      rcases ih _ _ _ _ hb' h with ⟨k', hk, hs⟩ | ⟨b, hs, hne, hbt, hm, hmin, hbest⟩ | ⟨hn, _⟩
      · exact .exact k' (List.mem_cons_of_mem _ hk) hs
      · refine .larger b hs ?_ hbt ?_ ?_ ?_
        · intro c hc
          simp only [List.mem_cons] at hc
          rcases hc with rfl | hc
          · simp; omega
          · exact hne c hc
        · rcases hm with hm | hm
          · cases best with
            | none => simp at hm; exact Or.inr (by simp [← hm])
            | some b0 =>
              simp only [Option.some.injEq] at hm
              split at hm
              · exact Or.inl (by rw [hm])
              · exact Or.inr (by simp [← hm])
          · exact Or.inr (List.mem_cons_of_mem _ hm)
        · intro c hc hct
          simp only [List.mem_cons] at hc
          rcases hc with rfl | hc
          · have := hbest _ rfl
            cases best with
            | none => exact this
            | some b0 =>
              simp only at this ⊢
              split at this
              · omega
              · exact this
          · exact hmin c hc hct
        · intro b' hb'
          subst hb'
          have := hbest _ rfl
          simp only at this
          split at this
          · exact this
          · simp at this; omega
      · cases hn
    · split at h
      · rename_i h1 h2
        simp only [Option.some.injEq] at h
        exact .exact k (by simp [h2]) (by rw [← h, h2])
      · rename_i h1 h2
        have hvt : v < t := by omega
        split at h
        · rename_i hsum
          split at h
          · rcases ih _ _ _ _ hb h with ⟨k', hk, hs⟩ | ⟨b, hs, hne, hbt, hm, hmin, hbest⟩ |
              ⟨hn, hall, taken, rest, hcs, hs, hall', hmin⟩
            · exact .exact k' (List.mem_cons_of_mem _ hk) hs
            · refine .larger b hs ?_ hbt ?_ ?_ hbest
              · intro c hc
                simp only [List.mem_cons] at hc
                rcases hc with rfl | hc
                · simp; omega
                · exact hne c hc
              · rcases hm with hm | hm
                · exact Or.inl hm
                · exact Or.inr (List.mem_cons_of_mem _ hm)
              · intro c hc hct
                simp only [List.mem_cons] at hc
                rcases hc with rfl | hc
                · simp at hct; omega
                · exact hmin c hc hct
            · refine .smaller hn ?_ ((k, v) :: taken) rest (by simp [hcs]) ?_ ?_ ?_
              · intro c hc
                simp only [List.mem_cons] at hc
                rcases hc with rfl | hc
                · exact hvt
                · exact hall c hc
              · rw [hs]; simp only [tot_cons, Nat.add_assoc, List.append_assoc, List.cons_append,
                  List.nil_append]
              · intro hlt
                exact hall' (by simp at hlt; omega)
              · intro c ys hys
                cases ys with
                | nil => simpa using hsum
                | cons y ys =>
                  simp only [List.cons_append, List.cons.injEq] at hys
                  have := hmin c ys hys.2
                  rw [← hys.1]
                  simp only [tot_cons]
                  omega
          · cases h
        · rename_i hsum
          rcases ih _ _ _ _ hb h with ⟨k', hk, hs⟩ | ⟨b, hs, hne, hbt, hm, hmin, hbest⟩ |
              ⟨hn, hall, taken, rest, hcs, hs, hall', hmin⟩
          · exact .exact k' (List.mem_cons_of_mem _ hk) hs
          · refine .larger b hs ?_ hbt ?_ ?_ hbest
            · intro c hc
              simp only [List.mem_cons] at hc
              rcases hc with rfl | hc
              · simp; omega
              · exact hne c hc
            · rcases hm with hm | hm
              · exact Or.inl hm
              · exact Or.inr (List.mem_cons_of_mem _ hm)
            · intro c hc hct
              simp only [List.mem_cons] at hc
              rcases hc with rfl | hc
              · simp at hct; omega
              · exact hmin c hc hct
          · have htk : taken = [] := by
              rcases List.eq_nil_or_concat taken with h | ⟨ys, c, h⟩
              · exact h
              · have := hmin c ys (by simpa using h); omega
            subst htk
            simp only [tot_nil, Nat.add_zero, List.append_nil] at hs
            refine .smaller hn ?_ [] ((k, v) :: cs) rfl (by simpa using hs) (by simp; omega) (by simp)
            intro c hc
            simp only [List.mem_cons] at hc
            rcases hc with rfl | hc
            · exact hvt
            · exact hall c hc

theorem selectLoop_no_panic (max t : Nat) (cs : List (K × Nat)) : ∀ (sum : Nat) (values : List (K × Nat))
    (best : Option (K × Nat)), sum + tot cs ≤ max →
    (selectLoop max t cs sum values best).isSome := by
  induction cs with
  | nil =>
    intro sum values best _
    cases best <;> simp only [selectLoop]
    · split <;> rfl
    · rfl
  | cons c cs ih =>
    obtain ⟨k, v⟩ := c
    intro sum values best h
    simp only [tot_cons] at h
    simp only [selectLoop]
    split
    · exact ih _ _ _ (by omega)
    · split
      · rfl
      · split
        · rw [if_pos (by omega)]; exact ih _ _ _ (by omega)
        · exact ih _ _ _ (by omega)

/-! ## Specification of the stored coins -/

/-- Map invariant: distinct keys, no empty list, each list strictly sorted (so without repetition). -/
structure MWF (m : AMap K) : Prop where
  keys : KeysNodup m
  nonempty : ∀ e ∈ m, e.2 ≠ []
  sorted : ∀ e ∈ m, e.2.Pairwise fun a b => a.cmp b = .lt

/-- Coin `a` is stored under `k`. -/
def Stored (m : AMap K) (k : K) (a : Asset) : Prop := ∃ as, (k, as) ∈ m ∧ a ∈ as

theorem mem_assetVector (m : AMap K) (k : K) (a : Asset) :
    (k, a) ∈ assetVector m ↔ Stored m k a := by
  simp only [assetVector, List.mem_flatMap, List.mem_map, Stored, Prod.mk.injEq]
  constructor
  · rintro ⟨⟨k', as⟩, h1, a', h2, rfl, rfl⟩; exact ⟨as, h1, h2⟩
  · rintro ⟨as, h1, h2⟩; exact ⟨(k, as), h1, a, h2, rfl, rfl⟩

theorem mem_candidates (m : AMap K) (id : Nat) (k : K) (v : Nat) :
    (k, v) ∈ candidates m id ↔ Stored m k ⟨id, v⟩ ∧ v ≠ 0 := by
  simp only [candidates, List.mem_filterMap]
  constructor
  · rintro ⟨⟨k', a⟩, h1, h2⟩
    split at h2
    · rename_i hc
      simp only [Option.some.injEq, Prod.mk.injEq] at h2
      obtain ⟨rfl, rfl⟩ := h2
      simp only at hc
      rw [mem_assetVector] at h1
      refine ⟨?_, hc.1⟩
      rw [← hc.2]; exact h1
    · cases h2
  · rintro ⟨h1, h2⟩
    refine ⟨(k, ⟨id, v⟩), (mem_assetVector m k _).mpr h1, ?_⟩
    simp [h2]

theorem cmp_irrefl (a : Asset) : a.cmp a = .eq := by
  simp [Asset.cmp, Ordering.then]

theorem cmp_eq {a b : Asset} : a.cmp b = .eq ↔ a = b := by
  constructor
  · intro h
    unfold Asset.cmp at h
    rw [Ordering.then_eq_eq] at h
    cases a; cases b
    simp only [Nat.compare_eq_eq] at h
    simp [h.1, h.2]
  · rintro rfl; exact cmp_irrefl a

theorem cmp_lt {a b : Asset} : a.cmp b = .lt ↔ a.id < b.id ∨ a.id = b.id ∧ a.value < b.value := by
  unfold Asset.cmp
  rw [Ordering.then_eq_lt, Nat.compare_eq_lt, Nat.compare_eq_lt, Nat.compare_eq_eq]

theorem cmp_gt {a b : Asset} : a.cmp b = .gt ↔ b.id < a.id ∨ a.id = b.id ∧ b.value < a.value := by
  unfold Asset.cmp
  rw [Ordering.then_eq_gt, Nat.compare_eq_gt, Nat.compare_eq_gt, Nat.compare_eq_eq]

theorem assetVector_nodup (m : AMap K) (h : MWF m) : (assetVector m).Nodup := by
  obtain ⟨h1, _, h3⟩ := h
  induction m with
  | nil => exact List.nodup_nil
  | cons e m ih =>
    unfold KeysNodup at h1 ih
    simp only [List.map_cons, List.nodup_cons] at h1
    have hav : assetVector (e :: m) = (e.2.map fun a => (e.1, a)) ++ assetVector m := rfl
    rw [hav]
    unfold List.Nodup
    rw [List.pairwise_append]
    refine ⟨?_, ih h1.2 (fun e' he' => by apply_assumption; exact List.mem_cons_of_mem _ he')
      (fun e' he' => h3 e' (List.mem_cons_of_mem _ he')), ?_⟩
    · rw [List.pairwise_map]
      refine List.Pairwise.imp ?_ (h3 e List.mem_cons_self)
      intro a b hab heq
      simp only [Prod.mk.injEq] at heq
      rw [heq.2, cmp_irrefl] at hab
      cases hab
    · intro x hx y hy heq
      subst heq
      obtain ⟨a, _, rfl⟩ := List.mem_map.mp hx
      rw [mem_assetVector] at hy
      obtain ⟨as, hm, _⟩ := hy
      exact h1.1 (List.mem_map.mpr ⟨_, hm, rfl⟩)

theorem candidates_nodup (m : AMap K) (h : MWF m) (id : Nat) : (candidates m id).Nodup := by
  have := assetVector_nodup m h
  unfold candidates List.Nodup at *
  rw [List.pairwise_filterMap]
  refine List.Pairwise.imp ?_ this
  rintro ⟨k, a⟩ ⟨k', a'⟩ hne b hb b' hb' heq
  apply hne
  split at hb <;> split at hb'
  · rename_i h1 h2
    simp only [Option.some.injEq] at hb hb'
    rw [← hb, ← hb'] at heq
    simp only [Prod.mk.injEq] at heq
    have hid := h1.2.trans h2.2.symm
    cases a; cases a'
    simp_all
  all_goals simp_all

/-! ## C20 – C22 -/

/-- C20: what is returned are distinct stored coins of the requested id, and they add up to the request
plus the change (an empty answer reports no change). -/
theorem c20_select_exact (max : Nat) (m : AMap K) (h : MWF m) (a : Asset) (sel : Selection K)
    (hs : select max m a = some sel) :
    (∀ c ∈ sel.values, Stored m c.1 ⟨a.id, c.2⟩ ∧ c.2 ≠ 0) ∧ sel.values.Nodup ∧
    (sel.values ≠ [] → tot sel.values = a.value + sel.change) ∧
    (sel.values = [] → sel.change = 0) := by
  unfold select at hs
  split at hs
  · cases hs; simp
  · rename_i hz
    rcases selectLoop_outcome max a.value _ _ _ _ _ (by simp) hs with
      ⟨k, hk, rfl⟩ | ⟨b, rfl, _, hb, hm, _⟩ | ⟨_, _, taken, rest, hcs, rfl, _, _⟩
    · rw [mem_candidates] at hk
      simp [hk.1, hk.2]
    · rcases hm with hm | hm
      · cases hm
      · obtain ⟨k, v⟩ := b
        rw [mem_candidates] at hm
        simp at hb
        simp [hm.1, hm.2]; omega
    · have hmem : ∀ c ∈ taken, Stored m c.1 ⟨a.id, c.2⟩ ∧ c.2 ≠ 0 := by
        intro c hc
        have : c ∈ candidates m a.id := by rw [hcs]; exact List.mem_append_left _ hc
        exact (mem_candidates m a.id c.1 c.2).mp this
      have hnd : taken.Nodup := by
        have := candidates_nodup m h a.id
        rw [hcs] at this
        exact (List.nodup_append.mp this).1
      split
      · simp
      · rename_i hge
        refine ⟨by simpa using hmem, by simpa using hnd, ?_, ?_⟩
        · intro _; simp at hge ⊢; omega
        · intro he
          simp at he
          subst he
          simp at hge
          exact absurd hge hz

/-- Total of all stored coins of an id. -/
def stock (m : AMap K) (id : Nat) : Nat := bal (m.flatMap Prod.snd) id

theorem tot_candidates (m : AMap K) (id : Nat) : tot (candidates m id) = stock m id := by
  have key : ∀ l : List (K × Asset),
      tot (l.filterMap fun p => if p.2.value ≠ 0 ∧ p.2.id = id then some (p.1, p.2.value) else none) =
      bal (l.map Prod.snd) id := by
    intro l
    induction l with
    | nil => rfl
    | cons p l ih =>
      rw [List.map_cons, bal_cons, ← ih]
      by_cases h : p.2.value ≠ 0 ∧ p.2.id = id
      · rw [List.filterMap_cons_some (b := (p.1, p.2.value)) (by rw [if_pos h])]
        simp [h.2]
      · rw [List.filterMap_cons_none (by rw [if_neg h])]
        by_cases hi : p.2.id = id
        · have : p.2.value = 0 := by
            apply Classical.byContradiction; intro hv; exact h ⟨hv, hi⟩
          simp [this]
        · simp [hi]
  unfold candidates stock
  rw [key]
  congr 1
  simp only [assetVector, List.map_flatMap, List.map_map]
  congr 1
  funext e
  have : (Prod.snd ∘ fun a : Asset => (e.1, a)) = fun a => a := by funext a; rfl
  rw [this]; simp

/-- C21: provided the stored coins of the id do not exceed the value type, selection never panics, and it
returns nothing exactly when the request is zero or exceeds the stock. -/
theorem c21_select_complete (max : Nat) (m : AMap K) (a : Asset) (hmax : stock m a.id ≤ max) :
    ∃ sel, select max m a = some sel ∧
      (sel.values = [] ↔ a.value = 0 ∨ stock m a.id < a.value) := by
  unfold select
  by_cases hz : a.value = 0
  · simp [hz]
  · rw [if_neg hz]
    have hns := selectLoop_no_panic max a.value (candidates m a.id) 0 [] none
      (by rw [tot_candidates]; omega)
    obtain ⟨sel, hs⟩ := Option.isSome_iff_exists.mp hns
    refine ⟨sel, hs, ?_⟩
    have hle : ∀ (cs : List (K × Nat)) (c : K × Nat), c ∈ cs → c.2 ≤ tot cs := by
      intro cs c hc
      induction cs with
      | nil => cases hc
      | cons d cs ih =>
        simp only [List.mem_cons] at hc
        rcases hc with rfl | hc
        · simp
        · have := ih hc; simp; omega
    have htc := tot_candidates m a.id
    rcases selectLoop_outcome max a.value _ _ _ _ _ (by simp) hs with
      ⟨k, hk, rfl⟩ | ⟨b, rfl, _, hb, hm, _⟩ | ⟨_, _, taken, rest, hcs, rfl, hrest, _⟩
    · have := hle _ _ hk
      simp at this ⊢
      omega
    · rcases hm with hm | hm
      · cases hm
      · have := hle _ _ hm
        simp
        omega
    · rw [hcs, tot_append] at htc
      split
      · rename_i hlt
        have := hrest hlt
        subst this
        simp at htc hlt ⊢
        omega
      · rename_i hge
        simp only [Nat.zero_add] at hge
        have hne : taken ≠ [] := by rintro rfl; simp at hge; exact hz hge
        simp [hz, hne]
        omega

/-- C21 without the stock bound fails: two coins below the request whose sum does not fit the value type
make selection panic although a covering set exists. -/
theorem c21_select_overflow (max : Nat) (hm : 3 ≤ max) :
    select max [(0, [⟨7, max - 1⟩]), (1, [⟨7, max - 1⟩])] ⟨7, max⟩ = none := by
  have h1 : ¬ (max - 1 > max) := by omega
  have h2 : ¬ (max - 1 = max) := by omega
  have h3 : max - 1 ≠ 0 := by omega
  have h4 : max ≠ 0 := by omega
  have h5 : ¬ (max - 1 + (max - 1) ≤ max) := by omega
  have h6 : max - 1 < max := by omega
  have h7 : 0 < max := by omega
  have hc : candidates [(0, [⟨7, max - 1⟩]), (1, [⟨7, max - 1⟩])] 7 = [(0, max - 1), (1, max - 1)] := by
    simp [candidates, assetVector, h3]
  simp only [select, if_neg h4, hc, selectLoop, if_neg h1, if_neg h2, if_pos h7, Nat.zero_add,
    if_pos h6, if_neg h5, ite_self]

/-- C22: an exact coin wins, then the smallest larger coin alone, then only smaller coins, of which none of the last is
superfluous. -/
theorem c22_select_preference (max : Nat) (m : AMap K) (a : Asset) (ha : a.value ≠ 0)
    (sel : Selection K) (hs : select max m a = some sel) :
    ((∃ k, Stored m k a) → ∃ k, Stored m k a ∧ sel = ⟨0, [(k, a.value)]⟩) ∧
    ((¬ ∃ k, Stored m k a) → (∃ k v, Stored m k ⟨a.id, v⟩ ∧ a.value < v) →
      ∃ k v, Stored m k ⟨a.id, v⟩ ∧ a.value < v ∧ sel = ⟨v - a.value, [(k, v)]⟩ ∧
        ∀ k' v', Stored m k' ⟨a.id, v'⟩ → a.value < v' → v ≤ v') ∧
    ((¬ ∃ k v, Stored m k ⟨a.id, v⟩ ∧ a.value ≤ v) →
      (∀ c ∈ sel.values, c.2 < a.value) ∧ ∀ c ys, sel.values = ys ++ [c] → tot ys < a.value) := by
  unfold select at hs
  rw [if_neg ha] at hs
  have hmem : ∀ k v, 0 < v → Stored m k ⟨a.id, v⟩ → (k, v) ∈ candidates m a.id := fun k v hv hst =>
    (mem_candidates m a.id k v).mpr ⟨hst, by omega⟩
  have hpos : 0 < a.value := by omega
  rcases selectLoop_outcome max a.value _ _ _ _ _ (by simp) hs with
    ⟨k, hk, rfl⟩ | ⟨b, rfl, hne, hb, hm, hmin, _⟩ | ⟨_, hall, taken, rest, hcs, rfl, _, hmin⟩
  · have hst := ((mem_candidates m a.id k a.value).mp hk).1
    refine ⟨fun _ => ⟨k, hst, rfl⟩, fun h => absurd ⟨k, hst⟩ h, ?_⟩
    intro h
    exact absurd ⟨k, a.value, hst, Nat.le_refl _⟩ h
  · rcases hm with hm | hm
    · cases hm
    obtain ⟨k, v⟩ := b
    have hst := ((mem_candidates m a.id k v).mp hm).1
    simp only at hb hmin
    refine ⟨?_, ?_, ?_⟩
    · rintro ⟨k', hk'⟩
      exact absurd rfl (hne _ (hmem k' a.value hpos hk'))
    · intro _ _
      refine ⟨k, v, hst, hb, rfl, ?_⟩
      intro k' v' hst' hv'
      exact hmin (k', v') (hmem k' v' (by omega) hst') hv'
    · intro h
      exact absurd ⟨k, v, hst, by omega⟩ h
  · refine ⟨?_, ?_, ?_⟩
    · rintro ⟨k', hk'⟩
      have := hall _ (hmem k' a.value hpos hk')
      simp at this
    · rintro _ ⟨k', v', hst, hv⟩
      have := hall _ (hmem k' v' (by omega) hst)
      simp at this; omega
    · intro _
      split
      · simp
      · simp only [List.nil_append, Nat.zero_add] at *
        refine ⟨?_, hmin⟩
        intro c hc
        exact hall c (by rw [hcs]; exact List.mem_append_left _ hc)

/-- Zero coins: at most `n` keys, each holding a zero coin of the id; all of them if there are at most `n`. -/
theorem c20_zeroes (m : AMap K) (n id : Nat) :
    (zeroes m n id).length ≤ n ∧ (∀ k ∈ zeroes m n id, Stored m k ⟨id, 0⟩) ∧
    ((zeroes m n id).length < n → ∀ k, Stored m k ⟨id, 0⟩ → k ∈ zeroes m n id) := by
  have key : ∀ k, k ∈ (m.filterMap fun e =>
      if e.2.any fun a => decide (a.id = id) && decide (a.value = 0) then some e.1 else none) ↔
      Stored m k ⟨id, 0⟩ := by
    intro k
    simp only [List.mem_filterMap, Stored]
    constructor
    · rintro ⟨⟨k', as⟩, h1, h2⟩
      split at h2
      · rename_i h3
        simp only [Option.some.injEq] at h2
        subst h2
        simp only [List.any_eq_true, Bool.and_eq_true, decide_eq_true_eq] at h3
        obtain ⟨⟨i, v⟩, h4, h5, h6⟩ := h3
        simp only at h5 h6
        subst h5 h6
        exact ⟨as, h1, h4⟩
      · cases h2
    · rintro ⟨as, h1, h2⟩
      refine ⟨(k, as), h1, ?_⟩
      rw [if_pos]
      simp only [List.any_eq_true, Bool.and_eq_true, decide_eq_true_eq]
      exact ⟨_, h2, rfl, rfl⟩
  unfold zeroes
  refine ⟨List.length_take_le _ _, ?_, ?_⟩
  · intro k hk
    exact (key k).mp (List.mem_of_mem_take hk)
  · intro hlt k hk
    rw [List.length_take] at hlt
    rw [List.take_of_length_le (by omega)]
    exact (key k).mpr hk

/-- The vector of coins of one id. -/
theorem c20_asset_vector_with_id (m : AMap K) (id : Nat) (k : K) (a : Asset) :
    (k, a) ∈ assetVectorWithId m id ↔ Stored m k a ∧ a.id = id := by
  simp [assetVectorWithId, mem_assetVector]

/-! ## C23 -/

section history

variable [DecidableEq K] (bs : BinSearch) (L : Layout K (List Asset))

theorem sortedAssets_partitioned {as : List Asset} (h : as.Pairwise fun a b => a.cmp b = .lt)
    (a : Asset) : Partitioned (fun b => b.cmp a) as := by
  refine List.Pairwise.imp ?_ h
  intro x y hxy
  simp only [cmp_lt, cmp_gt] at *
  omega

theorem search_ok {as : List Asset} (h : as.Pairwise fun a b => a.cmp b = .lt) {a : Asset} {i : Nat}
    (hf : bs.run (fun b => b.cmp a) as = .ok i) :
    ∃ xs ys, as = xs ++ a :: ys ∧ xs.length = i := by
  obtain ⟨b, h1, h2⟩ := bs.found _ as i (sortedAssets_partitioned h a) hf
  rw [cmp_eq] at h2
  subst h2
  exact split_at h1

theorem search_err {as : List Asset} (h : as.Pairwise fun a b => a.cmp b = .lt) {a : Asset} {i : Nat}
    (hf : bs.run (fun b => b.cmp a) as = .error i) :
    ∃ xs ys, as = xs ++ ys ∧ xs.length = i ∧ (∀ x ∈ xs, x.cmp a = .lt) ∧ (∀ y ∈ ys, a.cmp y = .lt) := by
  obtain ⟨h1, h2, h3⟩ := bs.missing _ as i (sortedAssets_partitioned h a) hf
  refine ⟨as.take i, as.drop i, by simp, by simp; omega, h2, ?_⟩
  intro y hy
  have := h3 y hy
  rw [cmp_gt] at this
  rw [cmp_lt]
  omega

theorem stored_iff {m : AMap K} (h : KeysNodup m) (k : K) (a : Asset) :
    Stored m k a ↔ ∃ as, mget m k = some as ∧ a ∈ as := by
  unfold Stored
  constructor
  · rintro ⟨as, h1, h2⟩; exact ⟨as, (mget_iff h).mpr h1, h2⟩
  · rintro ⟨as, h1, h2⟩; exact ⟨as, (mget_iff h).mp h1, h2⟩

theorem mset_mem {m : AMap K} {k : K} {as : List Asset} {e : K × List Asset} (h : e ∈ mset m k as) :
    e ∈ m ∨ (e = (k, as)) := by
  simp only [mset, List.mem_map] at h
  obtain ⟨e', h1, h2⟩ := h
  split at h2
  · rename_i hk; right; rw [← h2, hk]
  · left; rw [← h2]; exact h1

theorem insert_spec (m : AMap K) (h : MWF m) (k : K) (a : Asset) :
    MWF (insert bs L m k a) ∧
    ∀ k' a', Stored (insert bs L m k a) k' a' ↔ Stored m k' a' ∨ (k' = k ∧ a' = a) := by
  unfold insert
  rcases hg : mget m k with _ | as
  · simp only
    have hperm := L.perm ((k, [a]) :: m)
    have hk := keysNodup_cons [a] h.keys hg
    refine ⟨⟨keysNodup_perm hperm.symm hk, ?_, ?_⟩, ?_⟩
    · intro e he
      have := hperm.mem_iff.mp he
      simp only [List.mem_cons] at this
      rcases this with rfl | this
      · simp
      · exact h.nonempty e this
    · intro e he
      have := hperm.mem_iff.mp he
      simp only [List.mem_cons] at this
      rcases this with rfl | this
      · simp
      · exact h.sorted e this
    · intro k' a'
      unfold Stored
      constructor
      · rintro ⟨as, h1, h2⟩
        have := hperm.mem_iff.mp h1
        simp only [List.mem_cons, Prod.mk.injEq] at this
        rcases this with ⟨rfl, rfl⟩ | this
        · right; exact ⟨rfl, by simpa using h2⟩
        · left; exact ⟨as, this, h2⟩
      · rintro (⟨as, h1, h2⟩ | ⟨rfl, rfl⟩)
        · exact ⟨as, hperm.mem_iff.mpr (List.mem_cons_of_mem _ h1), h2⟩
        · exact ⟨[a'], hperm.mem_iff.mpr List.mem_cons_self, by simp⟩
  · simp only
    have hmem := mget_some_mem hg
    have hsort := h.sorted _ hmem
    simp only at hsort
    rcases hf : bs.run (fun b => b.cmp a) as with i | i
    · simp only [hf]
      obtain ⟨xs, ys, rfl, rfl, h1, h2⟩ := search_err bs hsort hf
      simp only [insertIdx_split]
      have hk : KeysNodup (mset m k (xs ++ a :: ys)) := keysNodup_mset _ _ h.keys
      refine ⟨⟨hk, ?_, ?_⟩, ?_⟩
      · intro e he
        rcases mset_mem he with he | rfl
        · exact h.nonempty e he
        · simp
      · intro e he
        rcases mset_mem he with he | rfl
        · exact h.sorted e he
        · simp only
          rw [List.pairwise_append] at hsort
          rw [List.pairwise_append, List.pairwise_cons]
          refine ⟨hsort.1, ⟨h2, hsort.2.1⟩, ?_⟩
          intro x hx y hy
          simp only [List.mem_cons] at hy
          rcases hy with rfl | hy
          · exact h1 x hx
          · exact hsort.2.2 x hx y hy
      · intro k' a'
        rw [stored_iff hk, stored_iff h.keys, mget_mset]
        by_cases hkk : k = k'
        · subst hkk
          simp only [if_true, hg, Option.map_some, Option.some.injEq, exists_eq_left', List.mem_append,
            List.mem_cons, true_and]
          constructor
          · rintro (h | h | h) <;> simp [h]
          · rintro ((h | h) | h) <;> simp [h]
        · simp only [if_neg hkk]
          constructor
          · intro h; exact Or.inl h
          · rintro (h | ⟨rfl, _⟩)
            · exact h
            · exact absurd rfl hkk
    · simp only [hf]
      obtain ⟨xs, ys, rfl, rfl⟩ := search_ok bs hsort hf
      refine ⟨h, ?_⟩
      intro k' a'
      constructor
      · exact Or.inl
      · rintro (h' | ⟨rfl, rfl⟩)
        · exact h'
        · exact ⟨_, hmem, by simp⟩

theorem remove_spec (m : AMap K) (h : MWF m) (k : K) (a : Asset) :
    MWF (remove bs m k a).2 ∧
    ((remove bs m k a).1 = true ↔ Stored m k a) ∧
    ∀ k' a', Stored (remove bs m k a).2 k' a' ↔ Stored m k' a' ∧ ¬ (k' = k ∧ a' = a) := by
  unfold remove
  rcases hg : mget m k with _ | as
  · simp only
    have hno : ¬ Stored m k a := by
      rw [stored_iff h.keys, hg]; simp
    refine ⟨h, by simp [hno], ?_⟩
    intro k' a'
    constructor
    · intro h'; refine ⟨h', ?_⟩; rintro ⟨rfl, rfl⟩; exact hno h'
    · exact fun h' => h'.1
  · simp only
    have hmem := mget_some_mem hg
    have hsort := h.sorted _ hmem
    simp only at hsort
    rcases hf : bs.run (fun b => b.cmp a) as with i | i
    · simp only [hf]
      obtain ⟨xs, ys, rfl, rfl, h1, h2⟩ := search_err bs hsort hf
      have hno : ¬ Stored m k a := by
        rw [stored_iff h.keys, hg]
        simp only [Option.some.injEq, exists_eq_left', List.mem_append]
        rintro (hx | hx)
        · have := h1 a hx; rw [cmp_irrefl] at this; cases this
        · have := h2 a hx; rw [cmp_irrefl] at this; cases this
      refine ⟨h, by simp [hno], ?_⟩
      intro k' a'
      constructor
      · intro h'; refine ⟨h', ?_⟩; rintro ⟨rfl, rfl⟩; exact hno h'
      · exact fun h' => h'.1
    · simp only [hf]
      obtain ⟨xs, ys, rfl, rfl⟩ := search_ok bs hsort hf
      simp only [eraseIdx_split]
      have hyes : Stored m k a := ⟨_, hmem, by simp⟩
      have hnot : ∀ x ∈ xs ++ ys, x ≠ a := by
        rintro x hx rfl
        rw [List.pairwise_append, List.pairwise_cons] at hsort
        rcases List.mem_append.mp hx with hx | hx
        · have := hsort.2.2 x hx x (by simp); rw [cmp_irrefl] at this; cases this
        · have := hsort.2.1.1 x hx; rw [cmp_irrefl] at this; cases this
      have hsort' : (xs ++ ys).Pairwise fun a b => a.cmp b = .lt := by
        rw [List.pairwise_append, List.pairwise_cons] at hsort
        rw [List.pairwise_append]
        exact ⟨hsort.1, hsort.2.1.2, fun x hx y hy => hsort.2.2 x hx y (by simp [hy])⟩
      split
      · rename_i hemp
        simp only [List.isEmpty_iff] at hemp
        have hk : KeysNodup (merase m k) := keysNodup_merase _ h.keys
        refine ⟨⟨hk, ?_, ?_⟩, by simp [hyes], ?_⟩
        · intro e he; exact h.nonempty e (List.mem_filter.mp he).1
        · intro e he; exact h.sorted e (List.mem_filter.mp he).1
        · intro k' a'
          rw [stored_iff hk, stored_iff h.keys, mget_merase]
          by_cases hkk : k = k'
          · subst hkk
            simp only [if_true, hg, Option.some.injEq, exists_eq_left', true_and]
            constructor
            · rintro ⟨_, h, _⟩; cases h
            · rintro ⟨h1, h2⟩
              simp only [List.mem_append, List.mem_cons] at h1
              have hx : a' ∈ xs ++ ys := by
                rcases h1 with h1 | h1 | h1
                · simp [h1]
                · exact absurd h1 h2
                · simp [h1]
              rw [hemp] at hx; cases hx
          · rw [if_neg hkk]
            constructor
            · intro h'; exact ⟨h', fun hc => hkk hc.1.symm⟩
            · exact fun h' => h'.1
      · rename_i hne
        have hk : KeysNodup (mset m k (xs ++ ys)) := keysNodup_mset _ _ h.keys
        refine ⟨⟨hk, ?_, ?_⟩, by simp [hyes], ?_⟩
        · intro e he
          rcases mset_mem he with he | rfl
          · exact h.nonempty e he
          · intro hc; exact hne (by simpa using hc)
        · intro e he
          rcases mset_mem he with he | rfl
          · exact h.sorted e he
          · exact hsort'
        · intro k' a'
          rw [stored_iff hk, stored_iff h.keys, mget_mset]
          by_cases hkk : k = k'
          · subst hkk
            simp only [if_true, hg, Option.map_some, Option.some.injEq, exists_eq_left', true_and]
            constructor
            · intro hx
              refine ⟨?_, hnot a' hx⟩
              rcases List.mem_append.mp hx with hx | hx <;> simp [hx]
            · rintro ⟨h1, h2⟩
              simp only [List.mem_append, List.mem_cons] at h1 ⊢
              rcases h1 with h1 | h1 | h1
              · exact Or.inl h1
              · exact absurd h1 h2
              · exact Or.inr h1
          · rw [if_neg hkk]
            constructor
            · intro h'; exact ⟨h', fun hc => hkk hc.1.symm⟩
            · exact fun h' => h'.1

/-- Operations of a history. -/
inductive MOp (K : Type) where
  | insert (k : K) (a : Asset)
  | remove (k : K) (a : Asset)

/-- Runs a history, collecting the answers of the removals. -/
def mrun : AMap K → List (MOp K) → List Bool × AMap K
  | m, [] => ([], m)
  | m, .insert k a :: ops => mrun (insert bs L m k a) ops
  | m, .remove k a :: ops =>
    let r := remove bs m k a
    let s := mrun r.2 ops
    (r.1 :: s.1, s.2)

/-- Specification: is the last operation on coin (k, a) in the history an insertion? `d` if there is none. -/
def lastIsInsert (k : K) (a : Asset) : Bool → List (MOp K) → Bool
  | d, [] => d
  | d, .insert k' a' :: ops => lastIsInsert k a (if k' = k ∧ a' = a then true else d) ops
  | d, .remove k' a' :: ops => lastIsInsert k a (if k' = k ∧ a' = a then false else d) ops

/-- Specification of the removal answers: present just before. -/
def removalAnswers : List (MOp K) → List (MOp K) → List Bool
  | _, [] => []
  | done, .insert k a :: ops => removalAnswers (done ++ [.insert k a]) ops
  | done, .remove k a :: ops =>
    lastIsInsert k a false done :: removalAnswers (done ++ [.remove k a]) ops

theorem lastIsInsert_append (k : K) (a : Asset) (d : Bool) (xs ys : List (MOp K)) :
    lastIsInsert k a d (xs ++ ys) = lastIsInsert k a (lastIsInsert k a d xs) ys := by
  induction xs generalizing d with
  | nil => rfl
  | cons x xs ih => cases x <;> simp [lastIsInsert, ih]

theorem mrun_spec (ops : List (MOp K)) : ∀ (done : List (MOp K)) (m : AMap K), MWF m →
    (∀ k a, Stored m k a ↔ lastIsInsert k a false done = true) →
    MWF (mrun bs L m ops).2 ∧
    (∀ k a, Stored (mrun bs L m ops).2 k a ↔ lastIsInsert k a false (done ++ ops) = true) ∧
    (mrun bs L m ops).1 = removalAnswers done ops := by
  induction ops with
  | nil => intro done m h hst; simpa [mrun, removalAnswers] using ⟨h, hst⟩
  | cons o ops ih =>
    intro done m h hst
    cases o with
    | insert k a =>
      obtain ⟨h1, h2⟩ := insert_spec bs L m h k a
      have := ih (done ++ [.insert k a]) (insert bs L m k a) h1 (by
        intro k' a'
        rw [h2, hst, lastIsInsert_append]
        simp only [lastIsInsert]
        by_cases hc : k = k' ∧ a = a'
        · simp [hc]
        · rw [if_neg hc]
          constructor
          · rintro (h | ⟨rfl, rfl⟩)
            · exact h
            · exact absurd ⟨rfl, rfl⟩ hc
          · exact Or.inl)
      simpa [mrun, removalAnswers] using this
    | remove k a =>
      obtain ⟨h1, h2, h3⟩ := remove_spec bs m h k a
      have := ih (done ++ [.remove k a]) (remove bs m k a).2 h1 (by
        intro k' a'
        rw [h3, hst, lastIsInsert_append]
        simp only [lastIsInsert]
        by_cases hc : k = k' ∧ a = a'
        · obtain ⟨rfl, rfl⟩ := hc
          simp
        · rw [if_neg hc]
          constructor
          · exact fun h => h.1
          · exact fun h => ⟨h, fun hh => hc ⟨hh.1.symm, hh.2.symm⟩⟩)
      obtain ⟨g1, g2, g3⟩ := this
      refine ⟨g1, ?_, ?_⟩
      · simpa [mrun] using g2
      · simp only [mrun, removalAnswers, g3]
        congr 1
        rw [Bool.eq_iff_iff, h2, hst]

/-- C23: after any history a coin is listed under a key iff its last operation was an insertion, nothing
is listed twice, no key has an empty list, keys are distinct, and every removal answers whether the coin was
there. Holds for every layout of the map and every correct search. -/
theorem c23_coin_set (ops : List (MOp K)) :
    (∀ k a, (k, a) ∈ assetVector (mrun bs L [] ops).2 ↔ lastIsInsert k a false ops = true) ∧
    (assetVector (mrun bs L [] ops).2).Nodup ∧
    (∀ e ∈ (mrun bs L [] ops).2, e.2 ≠ []) ∧
    ((mrun bs L [] ops).2.map Prod.fst).Nodup ∧
    (mrun bs L [] ops).1 = removalAnswers [] ops := by
  have h0 : MWF ([] : AMap K) := ⟨List.nodup_nil, by simp, by simp⟩
  obtain ⟨h1, h2, h3⟩ := mrun_spec bs L ops [] [] h0 (by simp [Stored, lastIsInsert])
  refine ⟨?_, assetVector_nodup _ h1, h1.nonempty, h1.keys, h3⟩
  intro k a
  rw [mem_assetVector, h2]
  simp

example : mrun linSearch idLayout ([] : AMap Nat)
    [.insert 1 ⟨7, 5⟩, .insert 1 ⟨7, 5⟩, .insert 1 ⟨7, 3⟩, .remove 2 ⟨7, 5⟩, .remove 1 ⟨7, 5⟩,
      .insert 2 ⟨8, 0⟩] =
    ([false, true], [(2, [⟨8, 0⟩]), (1, [⟨7, 3⟩])]) := by decide

end history

example : select 1000 [(1, [⟨7, 5⟩]), (2, [⟨7, 3⟩, ⟨7, 40⟩]), (3, [⟨7, 20⟩])] ⟨7, 8⟩ =
    some ⟨12, [(3, 20)]⟩ := by decide

example : select 1000 [(1, [⟨7, 5⟩]), (2, [⟨7, 3⟩]), (3, [⟨7, 2⟩])] ⟨7, 9⟩ =
    some ⟨1, [(1, 5), (2, 3), (3, 2)]⟩ := by decide

end Verif.Asset.AMap
