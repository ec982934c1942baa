import Verif.Wallet.Model
import Verif.Asset.Lemmas

/-!
# C24: normalization of balance updates
-/

namespace Verif.Wallet

open Verif.Asset

/-- Ids mentioned by a list of assets. -/
def ids (l : List Asset) : List Nat := l.map Asset.id

theorem findIdx?_split {l : List Asset} {id j : Nat}
    (h : l.findIdx? (fun a => decide (a.id = id)) = some j) :
    ∃ xs v ys, l = xs ++ ⟨id, v⟩ :: ys ∧ xs.length = j ∧ ∀ a ∈ xs, a.id ≠ id := by
  rw [List.findIdx?_eq_some_iff_getElem] at h
  obtain ⟨hj, h1, h2⟩ := h
  refine ⟨l.take j, l[j].value, l.drop (j + 1), ?_, by simp; omega, ?_⟩
  · have : l[j].id = id := by simpa using h1
    conv => lhs; rw [← List.take_append_drop j l]
    rw [List.drop_eq_getElem_cons hj, ← this]
  · intro a ha
    obtain ⟨n, hn, rfl⟩ := List.mem_iff_getElem.mp ha
    simp only [List.length_take] at hn
    rw [List.getElem_take]
    simpa using h2 n (by omega)

theorem findIdx?_absent {l : List Asset} {id : Nat}
    (h : l.findIdx? (fun a => decide (a.id = id)) = none) : id ∉ ids l := by
  rw [List.findIdx?_eq_none_iff] at h
  simp only [ids, List.mem_map, not_exists, not_and]
  intro a ha; simpa using h a ha

/-! ## `sum_values` -/

theorem sumLoop_spec (max : Nat) (rest : List Asset) : ∀ (result out : List Asset),
    (ids result).Nodup → sumLoop max result rest = some out →
    (ids out).Nodup ∧ (∀ id, bal out id = bal result id + bal rest id) ∧
    ∀ id, id ∈ ids out ↔ id ∈ ids result ∨ id ∈ ids rest := by
  induction rest with
  | nil => intro r out hn h; cases h; exact ⟨hn, by simp, by simp [ids]⟩
  | cons a rest ih =>
    intro r out hn h
    simp only [sumLoop] at h
    rcases hf : r.findIdx? (fun e => decide (e.id = a.id)) with _ | j
    · simp only [hf] at h
      have hab := findIdx?_absent hf
      have hn' : (ids (r ++ [⟨a.id, a.value⟩])).Nodup := by
        simp only [ids, List.map_append, List.map_cons, List.map_nil]
        rw [List.nodup_append]
        refine ⟨hn, by simp, ?_⟩
        intro x hx y hy
        simp only [List.mem_singleton] at hy
        subst hy
        exact fun hc => hab (hc ▸ hx)
      obtain ⟨h1, h2, h3⟩ := ih _ _ hn' h
      refine ⟨h1, ?_, ?_⟩
      · intro id; rw [h2, bal_append, bal_cons, bal_cons, bal_nil]; simp only; omega
      · intro id; rw [h3]; simp only [ids, List.map_append, List.map_cons, List.map_nil,
          List.mem_append, List.mem_cons, List.not_mem_nil, or_false]; grind
    · simp only [hf] at h
      obtain ⟨xs, v, ys, rfl, rfl, _⟩ := findIdx?_split hf
      simp only [List.getElem?_append_right (Nat.le_refl _), Nat.sub_self, List.getElem?_cons_zero]
        at h
      split at h
      · rw [set_split] at h
        have hid : ids (xs ++ ⟨a.id, v + a.value⟩ :: ys) = ids (xs ++ ⟨a.id, v⟩ :: ys) := by simp [ids]
        obtain ⟨h1, h2, h3⟩ := ih _ _ (by rw [hid]; exact hn) h
        refine ⟨h1, ?_, ?_⟩
        · intro id; rw [h2, bal_append, bal_append, bal_cons, bal_cons, bal_cons]
          simp only; split <;> omega
        · intro id; rw [h3, hid]
          simp only [ids, List.map_append, List.map_cons, List.mem_append, List.mem_cons]
          grind
      · cases h

theorem sumLoop_some (max : Nat) (rest : List Asset) : ∀ (result : List Asset),
    (ids result).Nodup → (∀ id, bal result id + bal rest id ≤ max) →
    (sumLoop max result rest).isSome := by
  induction rest with
  | nil => intros; rfl
  | cons a rest ih =>
    intro r hn hb
    simp only [sumLoop]
    rcases hf : r.findIdx? (fun e => decide (e.id = a.id)) with _ | j
    · simp only [hf]
      have hab := findIdx?_absent hf
      apply ih
      · simp only [ids, List.map_append, List.map_cons, List.map_nil]
        rw [List.nodup_append]
        refine ⟨hn, by simp, ?_⟩
        intro x hx y hy
        simp only [List.mem_singleton] at hy
        subst hy
        exact fun hc => hab (hc ▸ hx)
      · intro id
        have := hb id
        rw [bal_cons] at this
        rw [bal_append, bal_cons, bal_nil]; simp only; omega
    · simp only [hf]
      obtain ⟨xs, v, ys, rfl, rfl, _⟩ := findIdx?_split hf
      simp only [List.getElem?_append_right (Nat.le_refl _), Nat.sub_self, List.getElem?_cons_zero]
      have hx := hb a.id
      rw [bal_append, bal_cons, bal_cons] at hx
      simp only [if_true] at hx
      rw [if_pos (by omega), set_split]
      apply ih
      · have hid : ids (xs ++ ⟨a.id, v + a.value⟩ :: ys) = ids (xs ++ ⟨a.id, v⟩ :: ys) := by simp [ids]
        rw [hid]; exact hn
      · intro id
        have := hb id
        rw [bal_append, bal_cons, bal_cons] at this
        rw [bal_append, bal_cons]; simp only at this ⊢
        by_cases h : a.id = id <;> simp only [h, if_true, if_false] at this ⊢ <;> omega

theorem sumLoop_bounded (max : Nat) (rest : List Asset) : ∀ (result out : List Asset),
    (∀ a ∈ result, a.value ≤ max) → (∀ a ∈ rest, a.value ≤ max) →
    sumLoop max result rest = some out → ∀ a ∈ out, a.value ≤ max := by
  induction rest with
  | nil => intro r out hr _ h; cases h; exact hr
  | cons a rest ih =>
    intro r out hr hb h
    simp only [sumLoop] at h
    rcases hf : r.findIdx? (fun e => decide (e.id = a.id)) with _ | j
    · simp only [hf] at h
      refine ih _ out ?_ (fun x hx => hb x (List.mem_cons_of_mem _ hx)) h
      intro x hx
      rcases List.mem_append.mp hx with hx | hx
      · exact hr x hx
      · simp only [List.mem_singleton] at hx
        subst hx
        exact hb a List.mem_cons_self
    · simp only [hf] at h
      obtain ⟨xs, v, ys, rfl, rfl, _⟩ := findIdx?_split hf
      simp only [List.getElem?_append_right (Nat.le_refl _), Nat.sub_self, List.getElem?_cons_zero]
        at h
      split at h
      · rename_i hle
        rw [set_split] at h
        refine ih _ out ?_ (fun x hx => hb x (List.mem_cons_of_mem _ hx)) h
        intro x hx
        rcases List.mem_append.mp hx with hx | hx
        · exact hr x (List.mem_append.mpr (.inl hx))
        · rcases List.mem_cons.mp hx with rfl | hx
          · exact hle
          · exact hr x (List.mem_append.mpr (.inr (List.mem_cons_of_mem _ hx)))
      · cases h

/-! ## The loop on a split list -/

/-- `normLoop` with the deposit list split at the loop index. -/
def normZip : List Asset → List Asset → List Asset → List Asset × List Asset
  | done, [], wit => (done, wit)
  | done, d :: todo, wit =>
    match wit.findIdx? (fun a => decide (a.id = d.id)) with
    | some j =>
      match wit[j]? with
      | none => (done ++ d :: todo, wit)
      | some w =>
        if d.value > w.value then
          normZip (done ++ [⟨d.id, d.value - w.value⟩]) todo (wit.eraseIdx j)
        else if d.value < w.value then
          normZip done todo (wit.set j ⟨w.id, w.value - d.value⟩)
        else
          match todo with
          | [] => (done, wit.eraseIdx j)
          | t :: todo' => normZip (done ++ [t]) todo' (wit.eraseIdx j)
    | none => normZip (done ++ [d]) todo wit
termination_by _ todo _ => todo.length

theorem normLoop_eq_zip (dep wit : List Asset) (i : Nat) :
    ∀ done todo, dep = done ++ todo → done.length = i → normLoop dep wit i = normZip done todo wit := by
  fun_induction normLoop dep wit i with
  | case1 dep wit i h j hj hw =>
    intro done todo hd hi
    subst hd hi
    cases todo with
    | nil => simp at h
    | cons d todo =>
      have hg : (done ++ d :: todo)[done.length] = d := by simp
      rw [hg] at hj
      rw [normZip, hj]; simp only [hw]
  | case2 dep wit i h j hj w hw hgt ih =>
    intro done todo hd hi
    subst hd hi
    cases todo with
    | nil => simp at h
    | cons d todo =>
      have hg : (done ++ d :: todo)[done.length] = d := by simp
      rw [hg] at hj hgt
      rw [normZip, hj]; simp only [hw, if_pos hgt]
      rw [ih (done ++ [⟨d.id, d.value - w.value⟩]) todo (by rw [hg, set_split]; simp) (by simp)]
  | case3 dep wit i h j hj w hw hgt hlt ih =>
    intro done todo hd hi
    subst hd hi
    cases todo with
    | nil => simp at h
    | cons d todo =>
      have hg : (done ++ d :: todo)[done.length] = d := by simp
      rw [hg] at hj hgt hlt
      rw [normZip, hj]; simp only [hw, if_neg hgt, if_pos hlt]
      rw [ih done todo (by rw [eraseIdx_split]) rfl, hg]
  | case4 dep wit i h j hj w hw hgt hlt ih =>
    intro done todo hd hi
    subst hd hi
    cases todo with
    | nil => simp at h
    | cons d todo =>
      have hg : (done ++ d :: todo)[done.length] = d := by simp
      rw [hg] at hj hgt hlt
      rw [normZip, hj]; simp only [hw, if_neg hgt, if_neg hlt]
      rw [eraseIdx_split] at ih ⊢
      cases todo with
      | nil =>
        simp only [List.append_nil]
        rw [normLoop, dif_neg (by omega)]
      | cons t todo' =>
        simp only
        rw [← ih (done ++ [t]) todo' (by simp) (by simp)]
  | case5 dep wit i h hj ih =>
    intro done todo hd hi
    subst hd hi
    cases todo with
    | nil => simp at h
    | cons d todo =>
      have hg : (done ++ d :: todo)[done.length] = d := by simp
      rw [hg] at hj
      rw [normZip, hj]; simp only
      rw [← ih (done ++ [d]) todo (by simp) (by simp)]
  | case6 dep wit i h =>
    intro done todo hd hi
    subst hd hi
    cases todo with
    | nil => simp [normZip]
    | cons d todo => simp at h

/-- Facts about one match of the loop. -/
theorem zip_match {wit : List Asset} {d w : Asset} {j : Nat}
    (hj : wit.findIdx? (fun a => decide (a.id = d.id)) = some j) (hw : wit[j]? = some w) :
    ∃ xs ys, wit = xs ++ ⟨d.id, w.value⟩ :: ys ∧ w.id = d.id ∧ wit.eraseIdx j = xs ++ ys ∧
      ∀ v, wit.set j ⟨w.id, v⟩ = xs ++ ⟨d.id, v⟩ :: ys := by
  obtain ⟨xs, v, ys, rfl, rfl, _⟩ := findIdx?_split hj
  simp only [List.getElem?_append_right (Nat.le_refl _), Nat.sub_self, List.getElem?_cons_zero,
    Option.some.injEq] at hw
  subst hw
  exact ⟨xs, ys, rfl, rfl, eraseIdx_split _ _ _, fun v => set_split _ _ _ _⟩

/-- The net amount of every id is unchanged. -/
theorem normZip_net (done todo wit : List Asset) (id : Nat) :
    bal (normZip done todo wit).1 id + bal wit id =
      bal (normZip done todo wit).2 id + bal (done ++ todo) id := by
  fun_induction normZip done todo wit with
  | case1 => simp only [List.append_nil]; omega
  | case2 => simp only; omega
  | case3 done d todo wit j hj w hw hgt ih =>
    obtain ⟨xs, ys, rfl, _, he, _⟩ := zip_match hj hw
    rw [he] at ih ⊢
    simp only [bal_append, bal_cons, bal_nil] at ih ⊢
    by_cases h : d.id = id <;> simp only [h, if_true, if_false] at ih ⊢ <;> omega
  | case4 done d todo wit j hj w hw hgt hlt ih =>
    obtain ⟨xs, ys, rfl, _, _, hs⟩ := zip_match hj hw
    rw [hs] at ih ⊢
    simp only [bal_append, bal_cons] at ih ⊢
    by_cases h : d.id = id <;> simp only [h, if_true, if_false] at ih ⊢ <;> omega
  | case5 done d wit j hj w hw hgt hlt =>
    obtain ⟨xs, ys, rfl, _, he, _⟩ := zip_match hj hw
    rw [he]
    simp only [bal_append, bal_cons, bal_nil]
    by_cases h : d.id = id <;> simp only [h, if_true, if_false] <;> omega
  | case6 done d wit j hj w hw hgt hlt t todo' ih =>
    obtain ⟨xs, ys, rfl, _, he, _⟩ := zip_match hj hw
    rw [he] at ih ⊢
    simp only [bal_append, bal_cons, bal_nil] at ih ⊢
    by_cases h : d.id = id <;> simp only [h, if_true, if_false] at ih ⊢ <;> omega
  | case7 done d todo wit hj ih =>
    simp only [bal_append, bal_cons, bal_nil] at ih ⊢
    omega

/-- Deposits never grow. -/
theorem normZip_le (done todo wit : List Asset) (id : Nat) :
    bal (normZip done todo wit).1 id ≤ bal (done ++ todo) id := by
  fun_induction normZip done todo wit with
  | case1 => simp
  | case2 => simp
  | case3 done d todo wit j hj w hw hgt ih =>
    simp only [bal_append, bal_cons, bal_nil] at ih ⊢
    by_cases h : d.id = id <;> simp only [h, if_true, if_false] at ih ⊢ <;> omega
  | case4 done d todo wit j hj w hw hgt hlt ih =>
    simp only [bal_append, bal_cons] at ih ⊢; omega
  | case5 done d wit j hj w hw hgt hlt =>
    simp only [bal_append]; omega
  | case6 done d wit j hj w hw hgt hlt t todo' ih =>
    simp only [bal_append, bal_cons, bal_nil] at ih ⊢; omega
  | case7 done d todo wit hj ih =>
    simp only [bal_append, bal_cons, bal_nil] at ih ⊢; omega

/-- The ids of both results come from the inputs. -/
theorem normZip_ids (done todo wit : List Asset) :
    (ids (normZip done todo wit).1).Sublist (ids (done ++ todo)) ∧
    (ids (normZip done todo wit).2).Sublist (ids wit) := by
  fun_induction normZip done todo wit with
  | case1 => simp
  | case2 => simp
  | case3 done d todo wit j hj w hw hgt ih =>
    refine ⟨?_, ih.2.trans ((List.eraseIdx_sublist _ _).map _)⟩
    have : ids (done ++ [⟨d.id, d.value - w.value⟩] ++ todo) = ids (done ++ d :: todo) := by simp [ids]
    rw [← this]; exact ih.1
  | case4 done d todo wit j hj w hw hgt hlt ih =>
    obtain ⟨xs, ys, rfl, _, _, hs⟩ := zip_match hj hw
    rw [hs] at ih ⊢
    refine ⟨ih.1.trans (List.Sublist.map _ ?_), ?_⟩
    · exact List.Sublist.append (List.Sublist.refl _) (List.sublist_cons_self _ _)
    · have : ids (xs ++ ⟨d.id, w.value - d.value⟩ :: ys) = ids (xs ++ ⟨d.id, w.value⟩ :: ys) := by
        simp [ids]
      rw [← this]; exact ih.2
  | case5 done d wit j hj w hw hgt hlt =>
    exact ⟨List.Sublist.map _ (List.sublist_append_left _ _), (List.eraseIdx_sublist _ _).map _⟩
  | case6 done d wit j hj w hw hgt hlt t todo' ih =>
    refine ⟨ih.1.trans (List.Sublist.map _ ?_), ih.2.trans ((List.eraseIdx_sublist _ _).map _)⟩
    rw [List.append_assoc]
    exact List.Sublist.append (List.Sublist.refl _) (List.sublist_cons_self _ _)
  | case7 done d todo wit hj ih =>
    refine ⟨?_, ih.2⟩
    rw [List.append_assoc] at ih
    exact ih.1

theorem bal_of_nodup {l : List Asset} (hn : (ids l).Nodup) {a : Asset} (ha : a ∈ l) :
    bal l a.id = a.value := by
  induction l with
  | nil => cases ha
  | cons b l ih =>
    simp only [ids, List.map_cons, List.nodup_cons] at hn
    rw [bal_cons]
    rcases List.mem_cons.mp ha with rfl | ha
    · rw [if_pos rfl, bal_eq_zero]; · omega
      intro x hx hc
      exact hn.1 (List.mem_map.mpr ⟨x, hx, hc⟩)
    · rw [if_neg, ih hn.2 ha]; · omega
      intro hc
      exact hn.1 (List.mem_map.mpr ⟨a, ha, hc.symm⟩)

theorem mem_ids {l : List Asset} {id : Nat} : id ∈ ids l ↔ ∃ a ∈ l, a.id = id := by
  simp [ids]

/-- Without an exact cancellation the two results mention no common id. -/
theorem normZip_disjoint (done todo wit : List Asset) (h1 : (ids (done ++ todo)).Nodup)
    (h2 : (ids wit).Nodup) (h3 : ∀ id ∈ ids done, id ∉ ids wit)
    (h4 : ∀ d ∈ todo, d.id ∈ ids wit → d.value ≠ bal wit d.id) :
    ∀ id ∈ ids (normZip done todo wit).1, id ∉ ids (normZip done todo wit).2 := by
  fun_induction normZip done todo wit with
  | case1 => exact h3
  | case2 done d todo wit j hj hw =>
    obtain ⟨xs, v, ys, rfl, rfl, _⟩ := findIdx?_split hj
    simp at hw
  | case3 done d todo wit j hj w hw hgt ih =>
    obtain ⟨xs, ys, rfl, _, he, _⟩ := zip_match hj hw
    rw [he] at ih ⊢
    have hn : d.id ∉ ids xs ∧ d.id ∉ ids ys := by
      simp only [ids, List.map_append, List.map_cons, List.nodup_append, List.nodup_cons] at h2
      exact ⟨fun hc => h2.2.2 _ hc _ List.mem_cons_self rfl, h2.2.1.1⟩
    apply ih
    · have : ids (done ++ [⟨d.id, d.value - w.value⟩] ++ todo) = ids (done ++ d :: todo) := by
        simp [ids]
      rw [this]; exact h1
    · exact List.Nodup.sublist (List.Sublist.map _
        (List.Sublist.append (List.Sublist.refl _) (List.sublist_cons_self _ _))) h2
    · intro id hid
      simp only [ids, List.map_append, List.mem_append, List.map_cons, List.map_nil,
        List.mem_singleton] at hid
      simp only [ids, List.map_append, List.mem_append] at hn ⊢
      rcases hid with hid | rfl
      · have := h3 id hid
        simp only [ids, List.map_append, List.mem_append, List.map_cons, List.mem_cons] at this
        grind
      · grind
    · intro t ht hm
      have hne : d.id ≠ t.id := by
        simp only [ids, List.map_append, List.map_cons, List.nodup_append, List.nodup_cons] at h1
        exact fun hc => h1.2.1.1 (hc ▸ List.mem_map.mpr ⟨t, ht, rfl⟩)
      have := h4 t (List.mem_cons_of_mem _ ht) (by
        simp only [ids, List.map_append, List.mem_append, List.map_cons, List.mem_cons] at hm ⊢
        grind)
      rw [bal_append, bal_cons, if_neg hne] at this
      rw [bal_append]; omega
  | case4 done d todo wit j hj w hw hgt hlt ih =>
    obtain ⟨xs, ys, rfl, _, _, hs⟩ := zip_match hj hw
    rw [hs] at ih ⊢
    have hids : ids (xs ++ ⟨d.id, w.value - d.value⟩ :: ys) = ids (xs ++ ⟨d.id, w.value⟩ :: ys) := by
      simp [ids]
    apply ih
    · exact List.Nodup.sublist (List.Sublist.map _
        (List.Sublist.append (List.Sublist.refl _) (List.sublist_cons_self _ _))) h1
    · rw [hids]; exact h2
    · rw [hids]; exact h3
    · rw [hids]
      intro t ht hm
      have hne : d.id ≠ t.id := by
        simp only [ids, List.map_append, List.map_cons, List.nodup_append, List.nodup_cons] at h1
        exact fun hc => h1.2.1.1 (hc ▸ List.mem_map.mpr ⟨t, ht, rfl⟩)
      have := h4 t (List.mem_cons_of_mem _ ht) hm
      rw [bal_append, bal_cons, if_neg hne] at this ⊢
      exact this
  | case5 done d wit j hj w hw hgt hlt =>
    obtain ⟨xs, ys, rfl, hid, _, _⟩ := zip_match hj hw
    exfalso
    have hm : (⟨d.id, w.value⟩ : Asset) ∈ xs ++ ⟨d.id, w.value⟩ :: ys := by simp
    have := bal_of_nodup h2 hm
    exact h4 d List.mem_cons_self (mem_ids.mpr ⟨_, hm, rfl⟩) (by rw [this]; simp only; omega)
  | case6 done d wit j hj w hw hgt hlt t todo' ih =>
    obtain ⟨xs, ys, rfl, hid, _, _⟩ := zip_match hj hw
    exfalso
    have hm : (⟨d.id, w.value⟩ : Asset) ∈ xs ++ ⟨d.id, w.value⟩ :: ys := by simp
    have := bal_of_nodup h2 hm
    exact h4 d List.mem_cons_self (mem_ids.mpr ⟨_, hm, rfl⟩) (by rw [this]; simp only; omega)
  | case7 done d todo wit hj ih =>
    have hab := findIdx?_absent hj
    apply ih
    · simpa using h1
    · exact h2
    · intro id hid
      simp only [ids, List.map_append, List.mem_append, List.map_cons, List.map_nil,
        List.mem_singleton] at hid
      rcases hid with hid | rfl
      · exact h3 id hid
      · exact hab
    · intro t ht; exact h4 t (List.mem_cons_of_mem _ ht)

/-! ## C24 -/

/-- Normalization succeeds whenever the per-id totals fit the value type, changes every balance by the
same net amount, and mentions each id at most once per list. -/
theorem c24_net (max : Nat) (dep wit : List Asset) :
    ((∀ id, bal dep id ≤ max ∧ bal wit id ≤ max) → (normalize max dep wit).isSome) ∧
    ∀ d w, normalize max dep wit = some (d, w) →
      (∀ id, (bal d id : Int) - bal w id = bal dep id - bal wit id) ∧
      (d.map Asset.id).Nodup ∧ (w.map Asset.id).Nodup ∧
      (∀ a ∈ d, ∃ b ∈ dep, b.id = a.id) ∧ ∀ a ∈ w, ∃ b ∈ wit, b.id = a.id := by
  constructor
  · intro h
    unfold normalize sumValues
    obtain ⟨d, hd⟩ := Option.isSome_iff_exists.mp
      (sumLoop_some max dep [] (by simp [ids]) (by intro id; simpa using (h id).1))
    obtain ⟨w, hw⟩ := Option.isSome_iff_exists.mp
      (sumLoop_some max wit [] (by simp [ids]) (by intro id; simpa using (h id).2))
    simp only [hd, hw]; rfl
  · intro d w h
    unfold normalize sumValues at h
    rcases hd : sumLoop max [] dep with _ | sd
    · simp only [hd] at h; cases h
    rcases hw : sumLoop max [] wit with _ | sw
    · simp only [hd, hw] at h; cases h
    simp only [hd, hw, Option.some.injEq] at h
    obtain ⟨a1, a2, a3⟩ := sumLoop_spec max dep [] sd (by simp [ids]) hd
    obtain ⟨b1, b2, b3⟩ := sumLoop_spec max wit [] sw (by simp [ids]) hw
    rw [normLoop_eq_zip sd sw 0 [] sd rfl rfl] at h
    have hn := normZip_net [] sd sw
    obtain ⟨i1, i2⟩ := normZip_ids [] sd sw
    rw [h] at hn i1 i2
    simp only [List.nil_append] at hn i1
    refine ⟨?_, a1.sublist i1, b1.sublist i2, ?_, ?_⟩
    · intro id
      have := hn id
      rw [a2, b2] at this
      simp only [bal_nil] at this
      omega
    · intro a ha
      have := (a3 a.id).mp (i1.subset (mem_ids.mpr ⟨a, ha, rfl⟩))
      simpa [ids] using this
    · intro a ha
      have := (b3 a.id).mp (i2.subset (mem_ids.mpr ⟨a, ha, rfl⟩))
      simpa [ids] using this

theorem normalize_le (max : Nat) (dep wit d w : List Asset) (h : normalize max dep wit = some (d, w))
    (id : Nat) : bal d id ≤ bal dep id := by
  unfold normalize sumValues at h
  rcases hd : sumLoop max [] dep with _ | sd
  · simp only [hd] at h; cases h
  rcases hw : sumLoop max [] wit with _ | sw
  · simp only [hd, hw] at h; cases h
  simp only [hd, hw, Option.some.injEq] at h
  obtain ⟨_, a2, _⟩ := sumLoop_spec max dep [] sd (by simp [ids]) hd
  rw [normLoop_eq_zip sd sw 0 [] sd rfl rfl] at h
  have := normZip_le [] sd sw id
  rw [h] at this
  simp only [List.nil_append] at this
  have e := a2 id
  simp only [bal_nil] at e
  omega

theorem sumValues_some_iff (max : Nat) (l : List Asset) (h : ∀ a ∈ l, a.value ≤ max) :
    (sumLoop max [] l).isSome ↔ ∀ id, bal l id ≤ max := by
  constructor
  · intro hs id
    obtain ⟨out, ho⟩ := Option.isSome_iff_exists.mp hs
    obtain ⟨h1, h2, _⟩ := sumLoop_spec max l [] out (by simp [ids]) ho
    have h3 := sumLoop_bounded max l [] out (by simp) h ho
    have := h2 id
    simp only [bal_nil, Nat.zero_add] at this
    rw [← this]
    by_cases hm : id ∈ ids out
    · obtain ⟨a, ha, rfl⟩ := mem_ids.mp hm
      rw [bal_of_nodup h1 ha]; exact h3 a ha
    · rw [bal_eq_zero]
      · omega
      · intro a ha hc; exact hm (mem_ids.mpr ⟨a, ha, hc⟩)
  · intro hb
    exact sumLoop_some max l [] (by simp [ids]) (by intro id; simpa using hb id)

/-- An error is reported exactly when a per-id total does not fit the value type. -/
theorem c24_error (max : Nat) (dep wit : List Asset) (hd : ∀ a ∈ dep, a.value ≤ max)
    (hw : ∀ a ∈ wit, a.value ≤ max) :
    normalize max dep wit = none ↔ ∃ id, max < bal dep id ∨ max < bal wit id := by
  have h1 := sumValues_some_iff max dep hd
  have h2 := sumValues_some_iff max wit hw
  unfold normalize sumValues
  rcases hsd : sumLoop max [] dep with _ | sd
  · rw [hsd] at h1
    simp only [true_iff]
    simp only [Option.isSome_none, Bool.false_eq_true, false_iff] at h1
    obtain ⟨id, hid⟩ := Classical.not_forall.mp h1
    exact ⟨id, .inl (by omega)⟩
  rw [hsd] at h1
  rcases hsw : sumLoop max [] wit with _ | sw
  · rw [hsw] at h2
    simp only [true_iff]
    simp only [Option.isSome_none, Bool.false_eq_true, false_iff] at h2
    obtain ⟨id, hid⟩ := Classical.not_forall.mp h2
    exact ⟨id, .inr (by omega)⟩
  · rw [hsw] at h2
    simp only [reduceCtorEq, false_iff, not_exists, not_or, Nat.not_lt]
    exact fun id => ⟨h1.mp rfl id, h2.mp rfl id⟩

/-- C24, disjointness: holds when no id is cancelled exactly. Missing: the case of an exact
cancellation, where the code skips the next entry (see `c24_disjoint_violated`). -/
theorem c24_disjoint_partial (max : Nat) (dep wit d w : List Asset)
    (hne : ∀ id, (∃ a ∈ dep, a.id = id) → (∃ a ∈ wit, a.id = id) → bal dep id ≠ bal wit id)
    (h : normalize max dep wit = some (d, w)) : ∀ a ∈ d, ∀ b ∈ w, a.id ≠ b.id := by
  unfold normalize sumValues at h
  rcases hd : sumLoop max [] dep with _ | sd
  · simp only [hd] at h; cases h
  rcases hw : sumLoop max [] wit with _ | sw
  · simp only [hd, hw] at h; cases h
  simp only [hd, hw, Option.some.injEq] at h
  obtain ⟨a1, a2, a3⟩ := sumLoop_spec max dep [] sd (by simp [ids]) hd
  obtain ⟨b1, b2, b3⟩ := sumLoop_spec max wit [] sw (by simp [ids]) hw
  rw [normLoop_eq_zip sd sw 0 [] sd rfl rfl] at h
  have hz := normZip_disjoint [] sd sw a1 b1 (by simp [ids]) (by
    intro e he hm
    rw [← bal_of_nodup a1 he, a2, b2]
    simp only [bal_nil, Nat.zero_add]
    apply hne
    · have := (a3 e.id).mp (mem_ids.mpr ⟨e, he, rfl⟩)
      simpa [ids] using this
    · have := (b3 e.id).mp hm
      simpa [ids] using this)
  rw [h] at hz
  intro a ha b hb hc
  exact hz a.id (mem_ids.mpr ⟨a, ha, rfl⟩) (mem_ids.mpr ⟨b, hb, hc.symm⟩)

/-- The claim fails after an exact cancellation: the entry following it is skipped, so id 2 is
reported both as deposited and as withdrawn. -/
theorem c24_disjoint_violated : ∃ dep wit d w : List Asset, normalize 1000 dep wit = some (d, w) ∧
    ∃ a ∈ d, ∃ b ∈ w, a.id = b.id :=
  ⟨[⟨1, 5⟩, ⟨2, 7⟩], [⟨1, 5⟩, ⟨2, 3⟩], [⟨2, 7⟩], [⟨2, 3⟩], by
    decide +kernel, ⟨2, 7⟩, by simp, ⟨2, 3⟩, by simp, rfl⟩

example : normalize 1000 [⟨1, 5⟩, ⟨2, 7⟩, ⟨1, 4⟩] [⟨2, 9⟩, ⟨1, 2⟩] = some ([⟨1, 7⟩], [⟨2, 2⟩]) := by
  decide +kernel

end Verif.Wallet
