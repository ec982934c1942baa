import Verif.Wallet.Normalize
import Verif.Asset.Select

/-!
# Signer synchronization: lemmas and (C55-C57)
-/

set_option linter.unusedSectionVars false

namespace Verif.Wallet

open Verif.Asset Verif.Asset.AMap

variable {U N K Leaf : Type} [DecidableEq N] [DecidableEq K]

/-! ## The `retain` pass as a pass over the flat coin list -/

/-- Nullifier of a coin. -/
def nfc (P : Params U N K Leaf) (c : K × Asset) : N := P.nullifier c.1 c.2

/-- The `retain` pass over all coins. -/
def retFlat (P : Params U N K Leaf) : List (K × Asset) → RetSt N Leaf → List (K × Asset) × RetSt N Leaf
  | [], s => ([], s)
  | c :: cs, s =>
    let r := isUnspent P c.1 c.2 s
    let q := retFlat P cs r.2
    (if r.1 then c :: q.1 else q.1, q.2)

theorem retFlat_append (P : Params U N K Leaf) (xs ys : List (K × Asset)) (s : RetSt N Leaf) :
    retFlat P (xs ++ ys) s =
      ((retFlat P xs s).1 ++ (retFlat P ys (retFlat P xs s).2).1, (retFlat P ys (retFlat P xs s).2).2) := by
  induction xs generalizing s with
  | nil => rfl
  | cons c xs ih =>
    simp only [List.cons_append, retFlat, ih]
    split <;> rfl

theorem retainList_flat (P : Params U N K Leaf) (k : K) (as : List Asset) (s : RetSt N Leaf) :
    retFlat P (as.map fun a => (k, a)) s =
      ((retainList P k as s).1.map (fun a => (k, a)), (retainList P k as s).2) := by
  induction as generalizing s with
  | nil => rfl
  | cons a as ih =>
    simp only [List.map_cons, retFlat, retainList, ih]
    split <;> rfl

theorem retainMap_flat (P : Params U N K Leaf) (m : AMap K) (s : RetSt N Leaf) :
    retFlat P (assetVector m) s = (assetVector (retainMap P m s).1, (retainMap P m s).2) := by
  induction m generalizing s with
  | nil => rfl
  | cons e m ih =>
    have : assetVector (e :: m) = e.2.map (fun a => (e.1, a)) ++ assetVector m := by
      simp [assetVector]
    rw [this, retFlat_append, retainList_flat]
    simp only [ih, retainMap]
    by_cases h : (retainList P e.1 e.2 s).1.isEmpty
    · rw [if_pos h]
      rw [List.isEmpty_iff] at h
      simp [h]
    · rw [if_neg h]
      simp [assetVector]

theorem retainList_sublist (P : Params U N K Leaf) (k : K) (as : List Asset) (s : RetSt N Leaf) :
    (retainList P k as s).1.Sublist as := by
  induction as generalizing s with
  | nil => exact List.Sublist.refl _
  | cons a as ih =>
    simp only [retainList]
    split
    · exact (ih _).cons_cons a
    · exact (ih _).cons a

theorem retainMap_wf (P : Params U N K Leaf) (m : AMap K) (s : RetSt N Leaf) (h : MWF m) :
    MWF (retainMap P m s).1 := by
  have key : ∀ (m : AMap K) (s : RetSt N Leaf),
      ((retainMap P m s).1.map Prod.fst).Sublist (m.map Prod.fst) ∧
      ∀ e ∈ (retainMap P m s).1, e.2 ≠ [] ∧ ∃ e' ∈ m, e.2.Sublist e'.2 := by
    intro m
    induction m with
    | nil => intro s; simp [retainMap]
    | cons e m ih =>
      intro s
      obtain ⟨h1, h2⟩ := ih (retainList P e.1 e.2 s).2
      simp only [retainMap]
      by_cases h : (retainList P e.1 e.2 s).1.isEmpty
      · rw [if_pos h]
        refine ⟨by simpa using h1.cons _, fun e' he' => ?_⟩
        obtain ⟨a1, e2, a2, a3⟩ := h2 e' he'
        exact ⟨a1, e2, List.mem_cons_of_mem _ a2, a3⟩
      · rw [if_neg h]
        refine ⟨by rw [List.map_cons, List.map_cons]; exact h1.cons_cons _, fun e' he' => ?_⟩
        rcases List.mem_cons.mp he' with rfl | he'
        · exact ⟨by simpa using h, e, List.mem_cons_self, retainList_sublist _ _ _ _⟩
        · obtain ⟨a1, e2, a2, a3⟩ := h2 e' he'
          exact ⟨a1, e2, List.mem_cons_of_mem _ a2, a3⟩
  obtain ⟨h1, h2⟩ := key m s
  refine ⟨List.Nodup.sublist h1 h.keys, fun e he => (h2 e he).1, fun e he => ?_⟩
  obtain ⟨_, e', h3, h4⟩ := h2 e he
  exact (h.sorted e' h3).sublist h4

/-- Nonzero assets of a coin list. -/
def nonzero (cs : List (K × Asset)) : List Asset := (cs.map Prod.snd).filter fun a => decide (a.value ≠ 0)

theorem bal_nonzero (cs : List (K × Asset)) (id : Nat) : bal (nonzero cs) id = bal (cs.map Prod.snd) id := by
  induction cs with
  | nil => rfl
  | cons c cs ih =>
    simp only [nonzero, List.map_cons, List.filter_cons] at ih ⊢
    by_cases h : c.2.value = 0
    · rw [if_neg (by simpa using h), bal_cons, ih, h]; simp
    · rw [if_pos (by simpa using h), bal_cons, bal_cons, ih]

theorem ite_or_left {p q : Prop} [Decidable p] [Decidable q] {a b : Nat} (h : ¬ p) :
    (if p ∨ q then a else b) = if q then a else b := by
  by_cases hq : q <;> simp [h, hq]

theorem ite_or_right {p q : Prop} [Decidable p] [Decidable q] {a b : Nat} (h : ¬ q) :
    (if p ∨ q then a else b) = if p then a else b := by
  by_cases hp : p <;> simp [h, hp]

/-- With pairwise distinct nullifiers the pass is a filter by the initial set. -/
theorem retFlat_filter (P : Params U N K Leaf) (cs : List (K × Asset)) (s : RetSt N Leaf)
    (hn : (cs.map (nfc P)).Nodup) :
    (retFlat P cs s).1 = cs.filter (fun c => decide (nfc P c ∉ s.nulls)) ∧
    (retFlat P cs s).2.withdraw = s.withdraw ++ nonzero (cs.filter fun c => decide (nfc P c ∈ s.nulls)) ∧
    (retFlat P cs s).2.log = s.log ++ (cs.filter fun c => decide (nfc P c ∈ s.nulls)).map
      (fun c => TreeOp.removeProof (P.spendLeaf c.1 c.2)) ∧
    ∀ n, (retFlat P cs s).2.nulls.count n = s.nulls.count n - if n ∈ cs.map (nfc P) then 1 else 0 := by
  induction cs generalizing s with
  | nil => simp [retFlat, nonzero]
  | cons c cs ih =>
    simp only [List.map_cons, List.nodup_cons] at hn
    have hne : ∀ c' ∈ cs, nfc P c' ≠ nfc P c := fun c' hc' he =>
      hn.1 (List.mem_map.mpr ⟨c', hc', he⟩)
    obtain ⟨i1, i2, i3, i4⟩ := ih (isUnspent P c.1 c.2 s).2 hn.2
    simp only [retFlat]
    by_cases hm : nfc P c ∈ s.nulls
    · have hu : isUnspent P c.1 c.2 s = (false, { nulls := s.nulls.erase (nfc P c)
                                                  log := s.log ++ [.removeProof (P.spendLeaf c.1 c.2)]
                                                  withdraw := if c.2.value = 0 then s.withdraw else s.withdraw ++ [c.2] }) := by
        have : nullRemove s.nulls (P.nullifier c.1 c.2) = (true, s.nulls.erase (nfc P c)) := by
          unfold nullRemove; exact if_pos hm
        simp [isUnspent, this]
      rw [hu] at i1 i2 i3 i4 ⊢
      simp only at i1 i2 i3 i4
      have hmem : ∀ c' ∈ cs, (nfc P c' ∈ s.nulls.erase (nfc P c) ↔ nfc P c' ∈ s.nulls) :=
        fun c' hc' => List.mem_erase_of_ne (hne c' hc')
      have hf : cs.filter (fun c' => decide (nfc P c' ∈ s.nulls.erase (nfc P c))) =
          cs.filter (fun c' => decide (nfc P c' ∈ s.nulls)) :=
        List.filter_congr fun c' hc' => by simp only [hmem c' hc']
      have hf' : cs.filter (fun c' => decide (nfc P c' ∉ s.nulls.erase (nfc P c))) =
          cs.filter (fun c' => decide (nfc P c' ∉ s.nulls)) :=
        List.filter_congr fun c' hc' => by simp only [hmem c' hc']
      rw [hf'] at i1
      rw [hf] at i2 i3
      refine ⟨?_, ?_, ?_, ?_⟩
      · simp only [Bool.false_eq_true, if_false, i1]
        rw [List.filter_cons_of_neg (by simpa using hm)]
      · rw [i2, List.filter_cons_of_pos (by simpa using hm)]
        by_cases hz : c.2.value = 0 <;> simp [hz, nonzero]
      · rw [i3, List.filter_cons_of_pos (by simpa using hm)]; simp
      · intro n
        simp only [i4 n, List.map_cons, List.mem_cons]
        by_cases hnc : n = nfc P c
        · subst hnc
          rw [List.count_erase_self, if_neg hn.1, if_pos (.inl rfl)]; rfl
        · rw [List.count_erase_of_ne hnc, ite_or_left hnc]
    · have hu : isUnspent P c.1 c.2 s = (true, s) := by
        have : nullRemove s.nulls (P.nullifier c.1 c.2) = (false, s.nulls) := by
          unfold nullRemove; exact if_neg hm
        simp [isUnspent, this]
      rw [hu] at i1 i2 i3 i4 ⊢
      simp only at i1 i2 i3 i4
      refine ⟨?_, ?_, ?_, ?_⟩
      · simp only [if_true, i1]
        rw [List.filter_cons_of_pos (by simpa using hm)]
      · rw [i2, List.filter_cons_of_neg (by simpa using hm)]
      · rw [i3, List.filter_cons_of_neg (by simpa using hm)]
      · intro n
        simp only [i4 n, List.map_cons, List.mem_cons]
        by_cases hnc : n = nfc P c
        · subst hnc
          rw [if_neg hn.1, if_pos (.inl rfl), List.count_eq_zero_of_not_mem hm]
        · rw [ite_or_left hnc]

/-! ## The insertion loop -/

theorem inserted_append (xs ys : List (TreeOp Leaf)) : inserted (xs ++ ys) = inserted xs ++ inserted ys := by
  induction xs with
  | nil => rfl
  | cons x xs ih => cases x <;> simp [inserted, ih]

theorem inserted_nonprovable (ls : List Leaf) : inserted (ls.map TreeOp.insertNonprovable) = ls := by
  induction ls with
  | nil => rfl
  | cons l ls ih => simp [inserted, ih]

/-- Leaves with a membership proof after some accumulator calls. -/
def marks (M : Leaf → Prop) : List (TreeOp Leaf) → Leaf → Prop
  | [] => M
  | .insert l :: ops => marks (fun x => M x ∨ x = l) ops
  | .insertNonprovable _ :: ops => marks M ops
  | .batchNonprovable _ :: ops => marks M ops
  | .removeProof l :: ops => marks (fun x => M x ∧ x ≠ l) ops

theorem marks_append (M : Leaf → Prop) (xs ys : List (TreeOp Leaf)) :
    marks M (xs ++ ys) = marks (marks M xs) ys := by
  induction xs generalizing M with
  | nil => rfl
  | cons x xs ih => cases x <;> simp [marks, ih]

theorem marks_remove (M : Leaf → Prop) (ls : List Leaf) (x : Leaf) :
    marks M (ls.map TreeOp.removeProof) x ↔ M x ∧ x ∉ ls := by
  induction ls generalizing M with
  | nil => simp [marks]
  | cons l ls ih =>
    simp only [List.map_cons, marks, List.mem_cons, not_or]
    rw [ih, and_assoc]

/-- Coins opened by a list of UTXOs, in order. -/
def opened (P : Params U N K Leaf) (us : List U) : List (K × Asset) := us.filterMap P.openNote

/-- State of the loop after the UTXOs `us`. -/
structure LoopInv (P : Params U N K Leaf) (m : AMap K) (N0 : List N) (us : List U)
    (s : SyncSt N K Leaf) : Prop where
  wf : MWF s.assets
  perm : (assetVector s.assets).Perm
    ((opened P us).filter (fun c => decide (nfc P c ∉ N0)) ++ assetVector m)
  nulls : ∀ n, s.nulls.count n = N0.count n - if n ∈ (opened P us).map (nfc P) then 1 else 0
  deposit : s.deposit = nonzero ((opened P us).filter fun c => decide (nfc P c ∉ N0))
  withdraw : s.withdraw = []
  leaves : inserted s.log ++ s.buf = us.map P.leaf
  marks : ∀ M x, marks M s.log x ↔ M x ∨
    ∃ c ∈ (opened P us).filter (fun c => decide (nfc P c ∉ N0)), x = P.spendLeaf c.1 c.2

theorem flush_inv {P : Params U N K Leaf} {m : AMap K} {N0 : List N} {us : List U}
    {s : SyncSt N K Leaf} (h : LoopInv P m N0 us s) :
    LoopInv P m N0 us (flush s) ∧ (flush s).buf = [] := by
  unfold flush
  by_cases hb : s.buf.isEmpty
  · rw [if_pos hb]; exact ⟨h, by simpa using hb⟩
  · rw [if_neg hb]
    refine ⟨⟨h.wf, h.perm, h.nulls, h.deposit, h.withdraw, ?_, ?_⟩, rfl⟩
    · simp [inserted_append, inserted, h.leaves]
    · intro M x; rw [marks_append]; exact h.marks M x

theorem step_inv (bs : BinSearch) (L : Layout K (List Asset)) {P : Params U N K Leaf} {m : AMap K}
    {N0 : List N} {us : List U} {s : SyncSt N K Leaf} (u : U) (h : LoopInv P m N0 us s)
    (hleaf : ∀ k a, P.openNote u = some (k, a) → P.spendLeaf k a = P.leaf u)
    (hfresh : ∀ c, P.openNote u = some c → c ∉ assetVector m ∧ nfc P c ∉ (opened P us).map (nfc P)) :
    LoopInv P m N0 (us ++ [u]) (syncStep bs L P s u) := by
  unfold syncStep
  rcases ho : P.openNote u with _ | ⟨k, a⟩
  · simp only
    have hop : opened P (us ++ [u]) = opened P us := by simp [opened, ho]
    exact ⟨h.wf, by rw [hop]; exact h.perm, by rw [hop]; exact h.nulls, by rw [hop]; exact h.deposit,
      h.withdraw, by simp [← h.leaves], by rw [hop]; exact h.marks⟩
  · simp only
    have hop : opened P (us ++ [u]) = opened P us ++ [(k, a)] := by simp [opened, ho]
    obtain ⟨hi, hb⟩ := flush_inv h
    obtain ⟨hf1, hf2⟩ := hfresh _ ho
    have hl := hleaf k a ho
    have hcount : (flush s).nulls.count (nfc P (k, a)) = N0.count (nfc P (k, a)) := by
      rw [hi.nulls, if_neg hf2]; rfl
    have hmem : nfc P (k, a) ∈ (flush s).nulls ↔ nfc P (k, a) ∈ N0 := by
      rw [← List.count_pos_iff, hcount, List.count_pos_iff]
    have hlv := hi.leaves
    rw [hb, List.append_nil] at hlv
    unfold insertNext
    by_cases hm : nfc P (k, a) ∈ N0
    · have hr : nullRemove (flush s).nulls (P.nullifier k a) = (true, (flush s).nulls.erase (nfc P (k, a))) := by
        unfold nullRemove; exact if_pos (hmem.mpr hm)
      simp only [hr]
      have hfil : (opened P us ++ [(k, a)]).filter (fun c => decide (nfc P c ∉ N0)) =
          (opened P us).filter (fun c => decide (nfc P c ∉ N0)) := by
        rw [List.filter_append, List.filter_cons_of_neg (by simpa using hm)]; simp
      refine ⟨hi.wf, ?_, ?_, ?_, hi.withdraw, ?_, ?_⟩
      · rw [hop, hfil]; exact hi.perm
      · intro n
        rw [hop]
        simp only [List.map_append, List.map_cons, List.map_nil, List.mem_append, List.mem_singleton]
        by_cases hn : n = nfc P (k, a)
        · subst hn
          rw [List.count_erase_self, hcount, if_pos (.inr rfl)]
        · rw [List.count_erase_of_ne hn, hi.nulls, ite_or_right hn]
      · rw [hop, hfil]; exact hi.deposit
      · simp [inserted_append, inserted, hlv, hb, hl]
      · intro M x
        rw [hop, hfil, marks_append]
        exact hi.marks M x
    · have hr : nullRemove (flush s).nulls (P.nullifier k a) = (false, (flush s).nulls) := by
        unfold nullRemove; exact if_neg (fun hc => hm (hmem.mp hc))
      simp only [hr]
      have hfil : (opened P us ++ [(k, a)]).filter (fun c => decide (nfc P c ∉ N0)) =
          (opened P us).filter (fun c => decide (nfc P c ∉ N0)) ++ [(k, a)] := by
        rw [List.filter_append, List.filter_cons_of_pos (by simpa using hm)]; simp
      obtain ⟨w1, w2⟩ := AMap.insert_spec bs L (flush s).assets hi.wf k a
      have hnew : (k, a) ∉ assetVector (flush s).assets := by
        intro hc
        rcases List.mem_append.mp (hi.perm.mem_iff.mp hc) with hc | hc
        · exact hf2 (List.mem_map.mpr ⟨_, (List.mem_filter.mp hc).1, rfl⟩)
        · exact hf1 hc
      have hpi : (assetVector (AMap.insert bs L (flush s).assets k a)).Perm
          ((k, a) :: assetVector (flush s).assets) := by
        rw [List.perm_ext_iff_of_nodup (assetVector_nodup _ w1)
          (List.nodup_cons.mpr ⟨hnew, assetVector_nodup _ hi.wf⟩)]
        rintro ⟨k', a'⟩
        rw [mem_assetVector, w2, List.mem_cons, mem_assetVector, Prod.mk.injEq]
        exact Or.comm
      refine ⟨w1, ?_, ?_, ?_, hi.withdraw, ?_, ?_⟩
      · rw [hop, hfil, List.append_assoc]
        exact hpi.trans ((hi.perm.cons _).trans List.perm_middle.symm)
      · intro n
        rw [hop]
        simp only [List.map_append, List.map_cons, List.map_nil, List.mem_append, List.mem_singleton]
        rw [hi.nulls]
        by_cases hn : n = nfc P (k, a)
        · subst hn
          rw [List.count_eq_zero_of_not_mem hm]; simp
        · rw [ite_or_right hn]
      · rw [hop, hfil]
        simp only [hi.deposit, nonzero, List.map_append, List.filter_append]
        by_cases hz : a.value = 0 <;> simp [hz]
      · simp [inserted_append, inserted, hlv, hb, hl]
      · intro M x
        rw [hop, hfil, marks_append]
        simp only [marks, hi.marks, List.mem_append, List.mem_singleton]
        constructor
        · rintro ((h | ⟨c, h1, h2⟩) | h)
          · exact .inl h
          · exact .inr ⟨c, .inl h1, h2⟩
          · exact .inr ⟨(k, a), .inr rfl, h⟩
        · rintro (h | ⟨c, h1 | h1, h2⟩)
          · exact .inl (.inl h)
          · exact .inl (.inr ⟨c, h1, h2⟩)
          · subst h1; exact .inr h2

theorem loop_inv (bs : BinSearch) (L : Layout K (List Asset)) {P : Params U N K Leaf} {m : AMap K}
    {N0 : List N} (us' : List U) : ∀ (us : List U) (s : SyncSt N K Leaf), LoopInv P m N0 us s →
    (∀ u ∈ us', ∀ k a, P.openNote u = some (k, a) → P.spendLeaf k a = P.leaf u) →
    (∀ c ∈ opened P us', c ∉ assetVector m) →
    ((opened P (us ++ us')).map (nfc P)).Nodup →
    LoopInv P m N0 (us ++ us') (us'.foldl (syncStep bs L P) s) := by
  induction us' with
  | nil => intro us s h _ _ _; simpa using h
  | cons u us' ih =>
    intro us s h hl hf hn
    have hop : opened P (us ++ u :: us') = opened P us ++ opened P [u] ++ opened P us' := by
      simp [opened, List.filterMap_cons]
      cases P.openNote u <;> simp
    have hst := step_inv bs L u h (hl u List.mem_cons_self) (by
      intro c hc
      have hm : c ∈ opened P [u] := by simp [opened, hc]
      refine ⟨hf c ?_, ?_⟩
      · simp only [opened, List.mem_filterMap]
        exact ⟨u, List.mem_cons_self, hc⟩
      · intro hx
        rw [hop, List.map_append, List.map_append] at hn
        have := (List.nodup_append.mp (List.nodup_append.mp hn).1).2.2
        exact this _ hx _ (List.mem_map.mpr ⟨c, hm, rfl⟩) rfl)
    have := ih (us ++ [u]) _ hst (fun v hv => hl v (List.mem_cons_of_mem _ hv))
      (fun c hc => hf c (by
        simp only [opened, List.mem_filterMap] at hc ⊢
        obtain ⟨v, h1, h2⟩ := hc
        exact ⟨v, List.mem_cons_of_mem _ h1, h2⟩))
      (by simpa using hn)
    simpa using this

/-! ## Hypotheses about the ledger data -/

/-- What the signer relies on: a note that opens reconstructs its own UTXO (`open_with_check`), distinct
coins have distinct nullifiers, and the new coins are new and listed once (the ledger never registers
a UTXO twice). -/
structure Honest (P : Params U N K Leaf) (m : AMap K) (us : List U) : Prop where
  leaf : ∀ u ∈ us, ∀ k a, P.openNote u = some (k, a) → P.spendLeaf k a = P.leaf u
  fresh : ∀ c ∈ opened P us, ¬ Stored m c.1 c.2
  once : (opened P us).Nodup
  nullifiers : ∀ c c' : K × Asset, (Stored m c.1 c.2 ∨ c ∈ opened P us) →
    (Stored m c'.1 c'.2 ∨ c' ∈ opened P us) → P.nullifier c.1 c.2 = P.nullifier c'.1 c'.2 → c = c'

theorem nodup_map_of_inj {α β : Type} (f : α → β) (l : List α) (h : l.Nodup)
    (hi : ∀ a ∈ l, ∀ b ∈ l, f a = f b → a = b) : (l.map f).Nodup := by
  induction l with
  | nil => simp
  | cons x l ih =>
    simp only [List.nodup_cons] at h
    simp only [List.map_cons, List.nodup_cons]
    refine ⟨?_, ih h.2 (fun a ha b hb => hi a (List.mem_cons_of_mem _ ha) b (List.mem_cons_of_mem _ hb))⟩
    intro hc
    obtain ⟨y, hy, he⟩ := List.mem_map.mp hc
    rw [hi y (List.mem_cons_of_mem _ hy) x List.mem_cons_self he] at hy
    exact h.1 hy

/-- Everything known about the result of `sync_with`. -/
structure CoreSpec (P : Params U N K Leaf) (m : AMap K) (N0 : List N) (us : List U)
    (s : SyncSt N K Leaf) : Prop where
  wf : MWF s.assets
  coins : ∀ k a, Stored s.assets k a ↔
    (Stored m k a ∨ (k, a) ∈ opened P us) ∧ P.nullifier k a ∉ N0
  net : ∀ id, stock s.assets id + bal s.withdraw id = stock m id + bal s.deposit id
  leaves : inserted s.log = us.map P.leaf
  nulls : ∀ n,
    ((∃ c : K × Asset, (Stored m c.1 c.2 ∨ c ∈ opened P us) ∧ P.nullifier c.1 c.2 = n) →
      s.nulls.count n = N0.count n - 1) ∧
    ((¬ ∃ c : K × Asset, (Stored m c.1 c.2 ∨ c ∈ opened P us) ∧ P.nullifier c.1 c.2 = n) →
      s.nulls.count n = N0.count n)
  marked : ∀ (M : Leaf → Prop) x, marks M s.log x ↔
    (M x ∨ ∃ c ∈ opened P us, P.nullifier c.1 c.2 ∉ N0 ∧ x = P.spendLeaf c.1 c.2) ∧
    ¬ ∃ c : K × Asset, Stored m c.1 c.2 ∧ P.nullifier c.1 c.2 ∈ N0 ∧ x = P.spendLeaf c.1 c.2

theorem stock_eq (m : AMap K) (id : Nat) : stock m id = bal ((assetVector m).map Prod.snd) id := by
  unfold stock
  congr 1
  induction m with
  | nil => rfl
  | cons e m ih =>
    simp only [List.flatMap_cons, ih, assetVector, List.map_append, List.map_map]
    congr 1
    exact (List.map_id _).symm

theorem bal_perm {l l' : List Asset} (h : l.Perm l') (id : Nat) : bal l id = bal l' id := by
  unfold bal
  exact ((h.filter _).map _).sum_nat

theorem syncCore_spec (bs : BinSearch) (L : Layout K (List Asset)) (P : Params U N K Leaf) (m : AMap K)
    (nulls : List N) (us : List U) (nd : List N) (hm : MWF m) (h : Honest P m us) :
    CoreSpec P m (nulls ++ nd.filter P.openable) us (syncCore bs L P m nulls us nd) := by
  have h0 : LoopInv P m (nulls ++ nd.filter P.openable) []
      ({ assets := m, nulls := nulls ++ nd.filter P.openable, log := [], buf := []
         deposit := [], withdraw := [] } : SyncSt N K Leaf) :=
    ⟨hm, by simp [opened], by simp [opened], rfl, rfl, rfl, by simp [marks, opened]⟩
  generalize hN : nulls ++ nd.filter P.openable = N0 at h0 ⊢
  have hnd : ((opened P us).map (nfc P)).Nodup :=
    nodup_map_of_inj _ _ h.once fun c hc c' hc' he => h.nullifiers c c' (.inr hc) (.inr hc') he
  have h1 := loop_inv bs L us [] _ h0 h.leaf
    (fun c hc hx => h.fresh c hc ((mem_assetVector _ _ _).mp hx)) (by simpa using hnd)
  rw [List.nil_append] at h1
  obtain ⟨h2, hb⟩ := flush_inv h1
  unfold syncCore
  simp only [hN]
  generalize flush (us.foldl (syncStep bs L P) _) = s1 at h2 hb ⊢
  have hlv := h2.leaves
  rw [hb, List.append_nil] at hlv
  have hmem : ∀ c, c ∈ assetVector s1.assets ↔
      (c ∈ opened P us ∧ nfc P c ∉ N0) ∨ Stored m c.1 c.2 := by
    intro c
    rw [h2.perm.mem_iff, List.mem_append, List.mem_filter, decide_eq_true_eq]
    rw [show c ∈ assetVector m ↔ Stored m c.1 c.2 from mem_assetVector m c.1 c.2]
  have hnf : ((assetVector s1.assets).map (nfc P)).Nodup := by
    refine nodup_map_of_inj _ _ (assetVector_nodup _ h2.wf) fun c hc c' hc' he => ?_
    refine h.nullifiers c c' ?_ ?_ he
    · rcases (hmem c).mp hc with hx | hx
      · exact .inr hx.1
      · exact .inl hx
    · rcases (hmem c').mp hc' with hx | hx
      · exact .inr hx.1
      · exact .inl hx
  obtain ⟨r1, r2, r3, r4⟩ := retFlat_filter P (assetVector s1.assets) ⟨s1.nulls, s1.log, s1.withdraw⟩ hnf
  rw [retainMap_flat] at r1 r2 r3 r4
  simp only at r1 r2 r3 r4
  -- membership of nullifiers after the loop
  have hin : ∀ c, c ∈ assetVector s1.assets → (nfc P c ∈ s1.nulls ↔ nfc P c ∈ N0) := by
    intro c hc
    rw [← List.count_pos_iff, ← List.count_pos_iff, h2.nulls]
    rcases (hmem c).mp hc with hx | hx
    · rw [List.count_eq_zero_of_not_mem hx.2]; simp
    · rw [if_neg]
      · rfl
      · intro hy
        obtain ⟨c', hc', he⟩ := List.mem_map.mp hy
        have := h.nullifiers c' c (.inr hc') (.inl hx) he
        subst this
        exact h.fresh c' hc' hx
  have hf1 : (assetVector s1.assets).filter (fun c => decide (nfc P c ∉ s1.nulls)) =
      (assetVector s1.assets).filter (fun c => decide (nfc P c ∉ N0)) :=
    List.filter_congr fun c hc => by simp only [hin c hc]
  have hf2 : (assetVector s1.assets).filter (fun c => decide (nfc P c ∈ s1.nulls)) =
      (assetVector s1.assets).filter (fun c => decide (nfc P c ∈ N0)) :=
    List.filter_congr fun c hc => by simp only [hin c hc]
  rw [hf1] at r1
  rw [hf2] at r2 r3
  refine ⟨retainMap_wf _ _ _ h2.wf, ?_, ?_, ?_, ?_, ?_⟩
  · intro k a
    rw [← mem_assetVector, r1, List.mem_filter, hmem, decide_eq_true_eq]
    simp only [nfc]
    constructor
    · rintro ⟨h | h, h'⟩
      · exact ⟨.inr h.1, h'⟩
      · exact ⟨.inl h, h'⟩
    · rintro ⟨h | h, h'⟩
      · exact ⟨.inr h, h'⟩
      · exact ⟨.inl ⟨h, h'⟩, h'⟩
  · intro id
    rw [stock_eq, stock_eq, r1, r2, h2.withdraw, List.nil_append, bal_nonzero, h2.deposit, bal_nonzero]
    have e1 : bal ((assetVector s1.assets).map Prod.snd) id =
        bal (((assetVector s1.assets).filter fun c => decide (nfc P c ∉ N0)).map Prod.snd) id +
        bal (((assetVector s1.assets).filter fun c => decide (nfc P c ∈ N0)).map Prod.snd) id := by
      rw [← bal_append, ← List.map_append]
      apply bal_perm
      apply List.Perm.map
      have := (List.filter_append_perm (fun c => decide (nfc P c ∉ N0)) (assetVector s1.assets)).symm
      simpa using this
    have e2 := bal_perm (h2.perm.map Prod.snd) id
    rw [List.map_append, bal_append] at e2
    omega
  · rw [r3, inserted_append, hlv]
    have : ∀ cs : List (K × Asset),
        inserted (cs.map fun c => TreeOp.removeProof (P.spendLeaf c.1 c.2)) = [] := by
      intro cs; induction cs with
      | nil => rfl
      | cons c cs ih => simpa [inserted] using ih
    rw [this, List.append_nil]
  · intro n
    rw [r4, h2.nulls]
    constructor
    · rintro ⟨c, hc, hcn⟩
      by_cases ho : n ∈ (opened P us).map (nfc P)
      · rw [if_pos ho]
        by_cases hs : n ∈ (assetVector s1.assets).map (nfc P)
        · rw [if_pos hs]
          obtain ⟨c1, hc1, e1⟩ := List.mem_map.mp ho
          obtain ⟨c2, hc2, e2⟩ := List.mem_map.mp hs
          have : n ∉ N0 := by
            rcases (hmem c2).mp hc2 with hx | hx
            · rw [← e2]; exact hx.2
            · have := h.nullifiers c1 c2 (.inr hc1) (.inl hx) (e1.trans e2.symm)
              subst this
              exact absurd hx (h.fresh c1 hc1)
          rw [List.count_eq_zero_of_not_mem this]
        · rw [if_neg hs]; rfl
      · rw [if_neg ho]
        have hst : Stored m c.1 c.2 := by
          rcases hc with hc | hc
          · exact hc
          · exact absurd (List.mem_map.mpr ⟨c, hc, hcn⟩) ho
        rw [if_pos (List.mem_map.mpr ⟨c, (hmem c).mpr (.inr hst), hcn⟩)]; rfl
    · intro hex
      rw [if_neg, if_neg]
      · rfl
      · intro hc
        obtain ⟨c, hc, e⟩ := List.mem_map.mp hc
        rcases (hmem c).mp hc with hx | hx
        · exact hex ⟨c, .inr hx.1, e⟩
        · exact hex ⟨c, .inl hx, e⟩
      · intro hc
        obtain ⟨c, hc, e⟩ := List.mem_map.mp hc
        exact hex ⟨c, .inr hc, e⟩
  · intro M x
    have e3 : ∀ cs : List (K × Asset),
        (cs.map fun c => TreeOp.removeProof (P.spendLeaf c.1 c.2)) =
          (cs.map fun c => P.spendLeaf c.1 c.2).map TreeOp.removeProof := by
      intro cs; simp
    rw [r3, marks_append, e3, marks_remove, h2.marks]
    constructor
    · rintro ⟨h1, h2⟩
      refine ⟨?_, ?_⟩
      · rcases h1 with h1 | ⟨c, hc, rfl⟩
        · exact .inl h1
        · have := List.mem_filter.mp hc
          exact .inr ⟨c, this.1, of_decide_eq_true this.2, rfl⟩
      · rintro ⟨c, c1, c2, rfl⟩
        exact h2 (List.mem_map.mpr ⟨c, List.mem_filter.mpr ⟨(hmem c).mpr (.inr c1), decide_eq_true c2⟩, rfl⟩)
    · rintro ⟨h1, h2⟩
      refine ⟨?_, ?_⟩
      · rcases h1 with h1 | ⟨c, c1, c2, rfl⟩
        · exact .inl h1
        · exact .inr ⟨c, List.mem_filter.mpr ⟨c1, decide_eq_true c2⟩, rfl⟩
      · intro hc
        obtain ⟨c, hc', rfl⟩ := List.mem_map.mp hc
        have hf := List.mem_filter.mp hc'
        rcases (hmem c).mp hf.1 with hx | hx
        · exact absurd (of_decide_eq_true hf.2) hx.2
        · exact h2 ⟨c, hx, of_decide_eq_true hf.2, rfl⟩

end Verif.Wallet
