import Verif.Asset.Model

namespace Verif.Asset

/-! ## A concrete search -/

/-- First position that is not `Less`. -/
def linGo (f : α → Ordering) : List α → Nat → Except Nat Nat
  | [], n => .error n
  | a :: l, n =>
    match f a with
    | .lt => linGo f l (n + 1)
    | .eq => .ok n
    | .gt => .error n

theorem linGo_ok (f : α → Ordering) (l : List α) (n i : Nat) (h : linGo f l n = .ok i) :
    ∃ j a, i = n + j ∧ l[j]? = some a ∧ f a = .eq := by
  induction l generalizing n with
  | nil => simp [linGo] at h
  | cons b l ih =>
    simp only [linGo] at h
    split at h
    · obtain ⟨j, a, h1, h2, h3⟩ := ih (n + 1) h
      exact ⟨j + 1, a, by omega, by simpa using h2, h3⟩
    · cases h; exact ⟨0, b, rfl, rfl, by assumption⟩
    · cases h

theorem linGo_err (f : α → Ordering) (l : List α) (n i : Nat) (hp : Partitioned f l)
    (h : linGo f l n = .error i) :
    ∃ j, i = n + j ∧ j ≤ l.length ∧ (∀ a ∈ l.take j, f a = .lt) ∧ ∀ a ∈ l.drop j, f a = .gt := by
  induction l generalizing n with
  | nil => simp only [linGo, Except.error.injEq] at h; exact ⟨0, by omega, by simp⟩
  | cons b l ih =>
    have hp' : Partitioned f l := by
      unfold Partitioned at hp ⊢; exact (List.pairwise_cons.mp hp).2
    simp only [linGo] at h
    split at h
    · rename_i hb
      obtain ⟨j, h1, h2, h3, h4⟩ := ih (n + 1) hp' h
      refine ⟨j + 1, by omega, by simpa using h2, ?_, by simpa using h4⟩
      intro a ha
      simp only [List.take_succ_cons, List.mem_cons] at ha
      rcases ha with rfl | ha
      · exact hb
      · exact h3 a ha
    · cases h
    · rename_i hb
      cases h
      refine ⟨0, rfl, by simp, by simp, ?_⟩
      intro a ha
      simp only [List.drop_zero, List.mem_cons] at ha
      rcases ha with rfl | ha
      · exact hb
      · exact ((List.pairwise_cons.mp hp).1 a ha).2 hb

/-- The contract of `binary_search_by` is satisfiable. -/
def linSearch : BinSearch where
  run f l := linGo f l 0
  found f l i _ h := by
    obtain ⟨j, a, h1, h2, h3⟩ := linGo_ok f l 0 i h
    exact ⟨a, by rw [h1, Nat.zero_add]; exact h2, h3⟩
  missing f l i hp h := by
    obtain ⟨j, h1, h2⟩ := linGo_err f l 0 i hp h
    rw [h1, Nat.zero_add]; exact h2

/-- The order-preserving layout. -/
def idLayout : Layout K W := ⟨id, fun _ => List.Perm.refl _⟩

/-! ## Index operations on a split list -/

theorem set_split (xs ys : List α) (a b : α) : (xs ++ a :: ys).set xs.length b = xs ++ b :: ys := by
  induction xs with
  | nil => rfl
  | cons x xs ih => simp [ih]

theorem modify_split (xs ys : List α) (a : α) (f : α → α) :
    (xs ++ a :: ys).modify xs.length f = xs ++ f a :: ys := by
  induction xs with
  | nil => rfl
  | cons x xs ih => simp [ih]

theorem eraseIdx_split (xs ys : List α) (a : α) : (xs ++ a :: ys).eraseIdx xs.length = xs ++ ys := by
  induction xs with
  | nil => rfl
  | cons x xs ih => simp [ih]

theorem insertIdx_split (xs ys : List α) (a : α) :
    (xs ++ ys).insertIdx xs.length a = xs ++ a :: ys := by
  induction xs with
  | nil => rfl
  | cons x xs ih => simp [ih]

theorem split_at {l : List α} {i : Nat} {a : α} (h : l[i]? = some a) :
    ∃ xs ys, l = xs ++ a :: ys ∧ xs.length = i := by
  obtain ⟨hi, rfl⟩ := List.getElem?_eq_some_iff.mp h
  exact ⟨l.take i, l.drop (i + 1), by simp, by simp; omega⟩

/-! ## Sorted asset lists -/

/-- Strictly sorted by id. -/
def Sorted (l : AList) : Prop := l.Pairwise fun a b => a.id < b.id

theorem sorted_partitioned {l : AList} (h : Sorted l) (id : Nat) :
    Partitioned (fun a : Asset => compare a.id id) l := by
  refine List.Pairwise.imp ?_ h
  intro a b hab
  simp only [Nat.compare_eq_lt, Nat.compare_eq_gt]
  omega

theorem find_ok {bs : BinSearch} {l : AList} (hs : Sorted l) {id i : Nat}
    (h : AList.find bs l id = .ok i) :
    ∃ xs v ys, l = xs ++ ⟨id, v⟩ :: ys ∧ xs.length = i := by
  obtain ⟨a, h1, h2⟩ := bs.found _ l i (sorted_partitioned hs id) h
  obtain ⟨xs, ys, h3, h4⟩ := split_at h1
  refine ⟨xs, a.value, ys, ?_, h4⟩
  have : a.id = id := Nat.compare_eq_eq.mp h2
  rw [h3, ← this]

theorem find_err {bs : BinSearch} {l : AList} (hs : Sorted l) {id i : Nat}
    (h : AList.find bs l id = .error i) :
    ∃ xs ys, l = xs ++ ys ∧ xs.length = i ∧ (∀ a ∈ xs, a.id < id) ∧ ∀ a ∈ ys, id < a.id := by
  obtain ⟨h1, h2, h3⟩ := bs.missing _ l i (sorted_partitioned hs id) h
  refine ⟨l.take i, l.drop i, by simp, by simp; omega, ?_, ?_⟩
  · intro a ha; exact Nat.compare_eq_lt.mp (h2 a ha)
  · intro a ha; exact Nat.compare_eq_gt.mp (h3 a ha)

/-! ## Balances as sums -/

/-- Total value of an id in a list of assets: the specification of a balance. -/
def bal (l : List Asset) (id : Nat) : Nat := ((l.filter fun a => decide (a.id = id)).map Asset.value).sum

@[simp] theorem bal_nil (id : Nat) : bal [] id = 0 := rfl

theorem bal_cons (a : Asset) (l : List Asset) (id : Nat) :
    bal (a :: l) id = (if a.id = id then a.value else 0) + bal l id := by
  by_cases h : a.id = id <;> simp [bal, h]

theorem bal_append (l l' : List Asset) (id : Nat) : bal (l ++ l') id = bal l id + bal l' id := by
  simp [bal]

theorem bal_eq_zero {l : List Asset} {id : Nat} (h : ∀ a ∈ l, a.id ≠ id) : bal l id = 0 := by
  have : l.filter (fun a => decide (a.id = id)) = [] := by
    simpa [List.filter_eq_nil_iff] using h
  simp [bal, this]

theorem bal_zero_of {l : List Asset} {id : Nat} (h : bal l id = 0) (hv : ∀ a ∈ l, a.value ≠ 0) :
    ∀ a ∈ l, a.id ≠ id := by
  induction l with
  | nil => simp
  | cons b l ih =>
    rw [bal_cons] at h
    intro a ha
    simp only [List.mem_cons] at ha
    rcases ha with rfl | ha
    · intro heq
      simp only [heq, if_true] at h
      exact hv a List.mem_cons_self (by omega)
    · exact ih (by omega) (fun x hx => hv x (List.mem_cons_of_mem _ hx)) a ha

/-- Well-formed asset list: strictly sorted, no zero entries. -/
def WF (l : AList) : Prop := Sorted l ∧ ∀ a ∈ l, a.value ≠ 0

theorem wf_nil : WF [] := ⟨List.Pairwise.nil, by simp⟩

theorem sorted_split {xs ys : AList} {a : Asset} (h : Sorted (xs ++ a :: ys)) :
    Sorted xs ∧ Sorted ys ∧ (∀ x ∈ xs, x.id < a.id) ∧ (∀ y ∈ ys, a.id < y.id) ∧
      ∀ x ∈ xs, ∀ y ∈ ys, x.id < y.id := by
  unfold Sorted at h ⊢
  rw [List.pairwise_append, List.pairwise_cons] at h
  exact ⟨h.1, h.2.1.2, fun x hx => h.2.2 x hx a List.mem_cons_self, h.2.1.1,
    fun x hx y hy => h.2.2 x hx y (List.mem_cons_of_mem _ hy)⟩

theorem sorted_join {xs ys : AList} {a : Asset} (h1 : Sorted xs) (h2 : Sorted ys)
    (h3 : ∀ x ∈ xs, x.id < a.id) (h4 : ∀ y ∈ ys, a.id < y.id) : Sorted (xs ++ a :: ys) := by
  unfold Sorted at *
  rw [List.pairwise_append, List.pairwise_cons]
  refine ⟨h1, ⟨h4, h2⟩, ?_⟩
  intro x hx y hy
  simp only [List.mem_cons] at hy
  rcases hy with rfl | hy
  · exact h3 x hx
  · exact Nat.lt_trans (h3 x hx) (h4 y hy)

theorem bal_split {xs ys : AList} {a : Asset} (h : Sorted (xs ++ a :: ys)) :
    bal (xs ++ a :: ys) a.id = a.value := by
  obtain ⟨_, _, h3, h4, _⟩ := sorted_split h
  rw [bal_append, bal_cons, bal_eq_zero (fun x hx => Nat.ne_of_lt (h3 x hx)),
    bal_eq_zero (fun y hy => Nat.ne_of_gt (h4 y hy))]
  simp

theorem getValue_some {bs : BinSearch} {l : AList} (hs : Sorted l) {id v : Nat}
    (h : AList.getValue bs l id = some v) : bal l id = v ∧ ∃ a ∈ l, a.id = id := by
  unfold AList.getValue at h
  split at h
  · rename_i i hf
    obtain ⟨xs, v', ys, rfl, rfl⟩ := find_ok hs hf
    simp at h
    subst h
    exact ⟨bal_split hs, ⟨id, v'⟩, by simp, rfl⟩
  · cases h

theorem getValue_none {bs : BinSearch} {l : AList} (hs : Sorted l) {id : Nat}
    (h : AList.getValue bs l id = none) : ∀ a ∈ l, a.id ≠ id := by
  unfold AList.getValue at h
  split at h
  · rename_i i hf
    obtain ⟨xs, v', ys, rfl, rfl⟩ := find_ok hs hf
    simp at h
  · rename_i i hf
    obtain ⟨xs, ys, rfl, -, h1, h2⟩ := find_err hs hf
    intro a ha
    rcases List.mem_append.mp ha with ha | ha
    · exact Nat.ne_of_lt (h1 a ha)
    · exact Nat.ne_of_gt (h2 a ha)

/-! ## Association lists -/

/-- Keys are distinct. -/
def KeysNodup (m : List (K × W)) : Prop := (m.map Prod.fst).Nodup

theorem mget_none_iff [DecidableEq K] {m : List (K × W)} {k : K} :
    mget m k = none ↔ ∀ e ∈ m, e.1 ≠ k := by
  unfold mget
  rw [Option.map_eq_none_iff, List.find?_eq_none]
  constructor
  · intro h e he; simpa using h e he
  · intro h e he; simpa using h e he

theorem mget_some_mem [DecidableEq K] {m : List (K × W)} {k : K} {w : W} (h : mget m k = some w) :
    (k, w) ∈ m := by
  unfold mget at h
  rw [Option.map_eq_some_iff] at h
  obtain ⟨e, h1, h2⟩ := h
  have h3 := List.mem_of_find?_eq_some h1
  have h4 := List.find?_some h1
  simp only [decide_eq_true_eq] at h4
  subst h2 h4
  exact h3

theorem mget_of_mem [DecidableEq K] {m : List (K × W)} (hn : KeysNodup m) {k : K} {w : W}
    (h : (k, w) ∈ m) : mget m k = some w := by
  induction m with
  | nil => cases h
  | cons e m ih =>
    unfold KeysNodup at hn ih
    simp only [List.map_cons, List.nodup_cons] at hn
    by_cases he : e.1 = k
    · simp only [List.mem_cons] at h
      rcases h with h | h
      · subst h; simp [mget]
      · exact absurd (List.mem_map_of_mem (f := Prod.fst) h) (by rw [← he]; exact hn.1)
    · simp only [List.mem_cons] at h
      rcases h with h | h
      · subst h; exact absurd rfl he
      · have := ih hn.2 h
        unfold mget at this ⊢
        rw [List.find?_cons_of_neg (by simpa using he)]
        exact this

theorem mget_iff [DecidableEq K] {m : List (K × W)} (hn : KeysNodup m) {k : K} {w : W} :
    mget m k = some w ↔ (k, w) ∈ m := ⟨mget_some_mem, mget_of_mem hn⟩

theorem keysNodup_perm {m m' : List (K × W)} (h : m.Perm m') (hn : KeysNodup m) : KeysNodup m' :=
  (h.map Prod.fst).nodup_iff.mp hn

theorem mget_perm [DecidableEq K] {m m' : List (K × W)} (h : m.Perm m') (hn : KeysNodup m) (k : K) :
    mget m' k = mget m k := by
  have hn' := keysNodup_perm h hn
  rcases hg : mget m k with _ | w
  · rw [mget_none_iff] at hg ⊢
    intro e he
    exact hg e (h.mem_iff.mpr he)
  · rw [mget_iff hn] at hg
    rw [mget_iff hn']
    exact h.mem_iff.mp hg

theorem mget_cons [DecidableEq K] (m : List (K × W)) (k k' : K) (w : W) :
    mget ((k, w) :: m) k' = if k = k' then some w else mget m k' := by
  unfold mget
  by_cases h : k = k' <;> simp [h]

theorem mget_mset [DecidableEq K] (m : List (K × W)) (k k' : K) (w : W) :
    mget (mset m k w) k' =
      if k = k' then (mget m k).map (fun _ => w) else mget m k' := by
  induction m with
  | nil => simp [mset, mget]
  | cons e m ih =>
    obtain ⟨a, b⟩ := e
    have hm : mset ((a, b) :: m) k w = (if a = k then (a, w) else (a, b)) :: mset m k w := rfl
    rw [hm]
    by_cases h1 : a = k
    · rw [if_pos h1, mget_cons, mget_cons, mget_cons, if_pos h1]
      by_cases h2 : k = k'
      · simp [h1, h2]
      · have h3 : ¬ (a = k') := by rw [h1]; exact h2
        rw [if_neg h3, if_neg h2, if_neg h3, ih, if_neg h2]
    · rw [if_neg h1, mget_cons, mget_cons, mget_cons, if_neg h1, ih]
      by_cases h2 : k = k'
      · have h3 : ¬ (a = k') := by rw [← h2]; exact h1
        simp [h2, h3]
      · simp [h2]

theorem mget_merase [DecidableEq K] (m : List (K × W)) (k k' : K) :
    mget (merase m k) k' = if k = k' then none else mget m k' := by
  by_cases h : k = k'
  · rw [if_pos h, mget_none_iff]
    intro e he
    simp only [merase, List.mem_filter, decide_eq_true_eq] at he
    rw [← h]; exact he.2
  · rw [if_neg h]
    induction m with
    | nil => rfl
    | cons e m ih =>
      obtain ⟨a, b⟩ := e
      by_cases h1 : a = k
      · have : merase ((a, b) :: m) k = merase m k := by simp [merase, h1]
        have h3 : ¬ (a = k') := by rw [h1]; exact h
        rw [this, ih, mget_cons, if_neg h3]
      · have : merase ((a, b) :: m) k = (a, b) :: merase m k := by simp [merase, h1]
        rw [this, mget_cons, mget_cons, ih]

theorem keysNodup_mset [DecidableEq K] {m : List (K × W)} (k : K) (w : W) (h : KeysNodup m) :
    KeysNodup (mset m k w) := by
  have : (mset m k w).map Prod.fst = m.map Prod.fst := by
    simp only [mset, List.map_map]
    apply List.map_congr_left
    intro e _
    simp only [Function.comp]
    split <;> rfl
  unfold KeysNodup
  rw [this]; exact h

theorem keysNodup_merase [DecidableEq K] {m : List (K × W)} (k : K) (h : KeysNodup m) :
    KeysNodup (merase m k) :=
  List.Nodup.sublist (List.Sublist.map _ List.filter_sublist) h

theorem keysNodup_cons [DecidableEq K] {m : List (K × W)} {k : K} (w : W) (h : KeysNodup m)
    (hk : mget m k = none) : KeysNodup ((k, w) :: m) := by
  unfold KeysNodup at *
  simp only [List.map_cons, List.nodup_cons]
  refine ⟨?_, h⟩
  intro hc
  obtain ⟨e, he, heq⟩ := List.mem_map.mp hc
  exact mget_none_iff.mp hk e he heq

end Verif.Asset
