import Verif.Sign.Lemmas

/-!
# C27 (private transfers), C28 (withdrawals), C52 (accumulator unchanged), C58 (consolidation)
-/

set_option linter.unusedSectionVars false

namespace Verif.Sign

open Verif.Asset Verif.Asset.AMap

variable {K Leaf A Addr Acct : Type}

/-- Identifiers drawn at the positions from `n` up to `m` are new: different from each other and from `ks`. -/
def FreshFrom (E : Env K Leaf A Addr Acct) (n m : Nat) (ks : K → Prop) : Prop :=
  (∀ i j, n ≤ i → i < m → n ≤ j → j < m → E.fresh i = E.fresh j → i = j) ∧ ∀ i, n ≤ i → i < m → ¬ ks (E.fresh i)

/-- No request draws more identifiers than this from a signer holding the coins `m`. -/
def draws (m : AMap K) : Nat := 2 * (assetVector m).length + 4

/-- What a batch of private transfers spending `n` coins of `asset.id` has to look like. -/
structure PrivateBatch (E : Env K Leaf A Addr Acct) (acc : A) (asset : Asset) (addr : Owner Addr) (change : Nat)
    (cs : List (Coin K)) (posts : List (Tx K A Addr Acct)) : Prop where
  /-- `max(n-1, 1)` transfers -/
  count : posts.length = Nat.max (cs.length - 1) 1
  /-- each balanced, in one asset id, and proved for the accumulator that its predecessors lead to -/
  seq : GoodSeq E asset.id acc posts
  /-- all but the last join coins of the signer; the last pays `asset` to `addr` and the change back -/
  last : ∃ front l, posts = front ++ [l] ∧ (∀ tx ∈ front, IsJoin tx) ∧ l.sources = [] ∧ l.sinks = [] ∧
    l.accounts = [] ∧ l.senders.length = 2 ∧ ∃ k k', l.receivers = [⟨k, ⟨asset.id, change⟩, .self⟩, ⟨k', asset, addr⟩]
  /-- no coin is spent twice -/
  once : (spent posts).Nodup
  /-- all selected coins are spent -/
  all : ∀ c ∈ cs, (c.1, (⟨asset.id, c.2⟩ : Asset)) ∈ spent posts
  /-- amounts can be represented -/
  small : ∀ tx ∈ posts, (tx.senders.map fun s => s.asset.value).sum ≤ E.max

theorem spent_nil : spent ([] : List (Tx K A Addr Acct)) = [] := rfl

theorem nodup_map_inj {α β : Type} (f : α → β) (l : List α) (hl : l.Nodup)
    (hf : ∀ a ∈ l, ∀ b ∈ l, f a = f b → a = b) : (l.map f).Nodup := by
  induction l with
  | nil => simp
  | cons a l ih =>
    simp only [List.nodup_cons] at hl
    simp only [List.map_cons, List.nodup_cons]
    refine ⟨?_, ih hl.2 fun x hx y hy => hf x (by simp [hx]) y (by simp [hy])⟩
    intro h
    obtain ⟨b, hb, e⟩ := List.mem_map.mp h
    have := hf b (by simp [hb]) a (by simp) e
    subst this
    exact hl.1 hb

theorem nodup_of_map {α β : Type} (f : α → β) (l : List α) (h : (l.map f).Nodup) : l.Nodup := by
  induction l with
  | nil => simp
  | cons a l ih =>
    simp only [List.map_cons, List.nodup_cons] at h ⊢
    exact ⟨fun hc => h.1 (List.mem_map.mpr ⟨a, hc, rfl⟩), ih h.2⟩

theorem map_fst_inj {α β : Type} : ∀ (l : List (α × β)), (l.map Prod.fst).Nodup →
    ∀ p ∈ l, ∀ q ∈ l, p.1 = q.1 → p = q := by
  intro l h
  induction l with
  | nil => simp
  | cons a l ih =>
    simp only [List.map_cons, List.nodup_cons] at h
    intro p hp q hq e
    rcases List.mem_cons.mp hp with rfl | hp' <;> rcases List.mem_cons.mp hq with rfl | hq'
    · rfl
    · exact absurd (List.mem_map.mpr ⟨q, hq', e.symm⟩) h.1
    · exact absurd (List.mem_map.mpr ⟨p, hp', e⟩) h.1
    · exact ih h.2 p hp' q hq' e

theorem sum_map_append_zero {α : Type} (f : α → Nat) (l : List α) (h : ∀ a ∈ l, f a = 0) : (l.map f).sum = 0 := by
  induction l with
  | nil => rfl
  | cons a l ih =>
    simp only [List.map_cons, List.sum_cons, h a (by simp), ih fun x hx => h x (by simp [hx])]

/-- The senders that `prepareFinal` produces for the coins `cs`. -/
def finals (E : Env K Leaf A Addr Acct) (aid : Nat) (acc : A) (next fakes : Nat) (cs : List (Coin K))
    (ks : List K) : List (Sender K A) :=
  (cs ++ ks.map fun k => (k, 0)).map (fun c : Coin K => ⟨c.1, ⟨aid, c.2⟩, some acc⟩) ++
    (List.range fakes).map fun i => ⟨E.fresh (next + i), ⟨aid, 0⟩, none⟩

theorem finals_sum (E : Env K Leaf A Addr Acct) (aid : Nat) (acc : A) (next fakes : Nat) (cs : List (Coin K))
    (ks : List K) : ((finals E aid acc next fakes cs ks).map fun s => s.asset.value).sum = tot cs := by
  have h1 : ∀ cs : List (Coin K),
      ((cs.map fun c => (⟨c.1, ⟨aid, c.2⟩, some acc⟩ : Sender K A)).map fun s => s.asset.value).sum = tot cs := by
    intro cs
    simp [tot, Function.comp_def]
  have h2 : tot (ks.map fun k => ((k, 0) : Coin K)) = 0 :=
    sum_map_append_zero _ _ (by intro a ha; obtain ⟨k, _, rfl⟩ := List.mem_map.mp ha; rfl)
  have h3 : (((List.range fakes).map fun i => (⟨E.fresh (next + i), ⟨aid, 0⟩, none⟩ : Sender K A)).map
      fun s => s.asset.value).sum = 0 :=
    sum_map_append_zero _ _ (by intro a ha; obtain ⟨k, _, rfl⟩ := List.mem_map.mp ha; rfl)
  rw [finals, List.map_append, List.sum_append, h1, h3, tot_append, h2]; omega

theorem finals_ids (E : Env K Leaf A Addr Acct) (aid : Nat) (acc : A) (next fakes : Nat) (cs : List (Coin K))
    (ks : List K) : ∀ s ∈ finals E aid acc next fakes cs ks, s.asset.id = aid := by
  intro s hs
  rcases List.mem_append.mp hs with hs | hs <;> obtain ⟨_, _, rfl⟩ := List.mem_map.mp hs <;> rfl

theorem finals_proofs (E : Env K Leaf A Addr Acct) (aid : Nat) (acc : A) (next fakes : Nat) (cs : List (Coin K))
    (ks : List K) (hc : ∀ c ∈ cs, E.contains acc (E.leaf c.1 ⟨aid, c.2⟩) = true)
    (hk : ∀ k ∈ ks, E.contains acc (E.leaf k ⟨aid, 0⟩) = true) :
    ∀ s ∈ finals E aid acc next fakes cs ks, (s.proof = some acc ∧ E.contains acc (E.leaf s.key s.asset) = true) ∨
      (s.proof = none ∧ s.asset.value = 0) := by
  intro s hs
  rcases List.mem_append.mp hs with hs | hs
  · obtain ⟨c, hcm, rfl⟩ := List.mem_map.mp hs
    rcases List.mem_append.mp hcm with hcm | hcm
    · exact .inl ⟨rfl, hc c hcm⟩
    · obtain ⟨k, hkm, rfl⟩ := List.mem_map.mp hcm
      exact .inl ⟨rfl, hk k hkm⟩
  · obtain ⟨_, _, rfl⟩ := List.mem_map.mp hs
    exact .inr ⟨rfl, rfl⟩

theorem finals_spent (E : Env K Leaf A Addr Acct) (aid : Nat) (acc : A) (next fakes : Nat) (cs : List (Coin K))
    (ks : List K) : ((finals E aid acc next fakes cs ks).map fun s => (s.key, s.asset)) =
      coins aid cs ++ coins aid (ks.map fun k => (k, 0)) ++
        coins aid ((List.range fakes).map fun i => (E.fresh (next + i), 0)) := by
  simp [finals, coins, Function.comp_def]

/-- Old coins, stored zero coins and coins with new identifiers never coincide. -/
theorem flow_nodup {E : Env K Leaf A Addr Acct} {n n' : Nat} {known : K → Prop} (hf : FreshFrom E n n' known) (aid : Nat)
    (cs zs : List (Coin K)) (made : List (Nat × Nat)) (hcs : cs.Nodup) (hzs : zs.Nodup)
    (hck : ∀ c ∈ cs, known c.1) (hzk : ∀ c ∈ zs, known c.1) (hd : ∀ c ∈ cs, c ∉ zs)
    (hm : (made.map Prod.fst).Nodup) (hmr : ∀ p ∈ made, n ≤ p.1 ∧ p.1 < n') :
    (coins aid cs ++ coins aid zs ++ coins aid (made.map fun p => (E.fresh p.1, p.2))).Nodup := by
  rw [← coins_append, ← coins_append]
  refine nodup_map_inj _ _ ?_ ?_
  · rw [List.nodup_append, List.nodup_append]
    refine ⟨⟨hcs, hzs, ?_⟩, ?_, ?_⟩
    · intro a ha b hb e
      subst e
      exact hd a ha hb
    · refine nodup_map_inj _ _ (nodup_of_map _ _ hm) ?_
      intro p hp q hq e
      simp only [Prod.mk.injEq] at e
      exact map_fst_inj _ hm p hp q hq (hf.1 _ _ (hmr p hp).1 (hmr p hp).2 (hmr q hq).1 (hmr q hq).2 e.1)
    · intro a ha b hb e
      subst e
      obtain ⟨p, hp, rfl⟩ := List.mem_map.mp hb
      refine hf.2 p.1 (hmr p hp).1 (hmr p hp).2 ?_
      rcases List.mem_append.mp ha with ha | ha
      · exact hck _ ha
      · exact hzk _ ha
  · intro a _ b _ e
    simp only [Prod.mk.injEq, Asset.mk.injEq, true_and] at e
    exact Prod.ext e.1 e.2

/-- Signing a private transfer after selection. -/
theorem signPrivate_spec {E : Env K Leaf A Addr Acct} {free : A → Nat} (hL : Laws E free) (hP : Prover E)
    (m : AMap K) (hm : MWF m) (asset : Asset) (hid : asset.id ≠ 0 ∧ asset.id < E.ids) (addr : Owner Addr) (change : Nat) (cs : List (Coin K))
    (st : St K A Addr Acct) (hcs : cs.Nodup)
    (hc : ∀ c ∈ cs, Stored m c.1 ⟨asset.id, c.2⟩) (hnz : cs.length < 2 → ∀ c ∈ cs, c.2 ≠ 0)
    (hst : ∀ k a, Stored m k a → E.contains st.acc (E.leaf k a) = true)
    {bound : Nat} (hbound : 2 * cs.length + 4 ≤ bound)
    (hfresh : FreshFrom E st.next (st.next + bound) fun k => ∃ a, Stored m k a)
    (htot : tot cs = asset.value + change) (hmax : tot cs ≤ E.max) (hfree : 2 * (cs.length - 2) ≤ free st.acc) :
    ∃ posts st', signPrivate E m asset addr change cs st = (.ok (), st') ∧ st'.posts = st.posts ++ posts ∧
      E.rollback st'.acc = E.rollback st.acc ∧ PrivateBatch E st.acc asset addr change cs posts ∧
      st'.next ≤ st.next + bound := by
  obtain ⟨js, zs, st1, txs, made, e1, el, jl, hsm, s⟩ := batch_spec hL hP asset.id hid cs [] st
    (fun c hcm => hst _ _ (hc c hcm)) hmax hfree
  have hzs : js.length < 2 → zs = [] := fun h => (hsm (by omega)).1
  obtain ⟨ks, fakes, e2, hlen, hks⟩ := prepareFinal_spec (E := E) m asset.id zs js st1 (by omega) hzs s.here
    (fun k hk => s.keeps _ (hst _ _ hk))
  change _ = (Res.ok (finals E asset.id st1.acc st1.next fakes js ks), _) at e2
  have hkst : ∀ k ∈ ks, Stored m k ⟨asset.id, 0⟩ := by
    intro k hk
    rw [hks] at hk
    exact (c20_zeroes m _ _).2.1 k hk
  have hfl : (finals E asset.id st1.acc st1.next fakes js ks).length = 2 := by
    simp only [finals, List.length_append, List.length_map, List.length_range]; omega
  have hgood : Good E asset.id st1.acc (⟨[], finals E asset.id st1.acc st1.next fakes js ks,
      [⟨E.fresh (st1.next + fakes), ⟨asset.id, change⟩, .self⟩, ⟨E.fresh (st1.next + fakes + 1), asset, addr⟩],
      [], []⟩ : Tx K A Addr Acct) := by
    refine ⟨⟨by simp, finals_ids _ _ _ _ _ _ _, by simp, by simp⟩, ?_, finals_proofs _ _ _ _ _ _ _ s.here
      (fun k hk => s.keeps _ (hst _ _ (hkst k hk)))⟩
    simp only [finals_sum, s.total, htot, List.map_nil, List.sum_nil, List.map_cons, List.sum_cons]
    omega
  have hprove := hP _ _ _ hid (by simp only [List.map_nil, List.sum_nil, finals_sum, s.total]; omega) hgood
    (by simp [Shape, hfl])
  refine ⟨txs ++ [⟨[], finals E asset.id st1.acc st1.next fakes js ks,
      [⟨E.fresh (st1.next + fakes), ⟨asset.id, change⟩, .self⟩, ⟨E.fresh (st1.next + fakes + 1), asset, addr⟩],
      [], []⟩], ⟨st1.acc, st1.posts ++ [⟨[], finals E asset.id st1.acc st1.next fakes js ks,
      [⟨E.fresh (st1.next + fakes), ⟨asset.id, change⟩, .self⟩, ⟨E.fresh (st1.next + fakes + 1), asset, addr⟩],
      [], []⟩], st1.next + fakes + 2⟩, ?_, ?_, ?_, ?_, ?_⟩
  · simp only [signPrivate, e1, e2]
    rw [if_neg (by simp only [ne_eq, Decidable.not_not]; exact hfl)]
    simp only [buildPost]
    rw [if_pos hprove]
  · simp only [s.posts, List.append_assoc]
  · simp only [s.acc]
    exact insertAll_rollback hL _ _
  · have hflow : (spent (txs ++ [⟨[], finals E asset.id st1.acc st1.next fakes js ks,
        [⟨E.fresh (st1.next + fakes), ⟨asset.id, change⟩, .self⟩, ⟨E.fresh (st1.next + fakes + 1), asset, addr⟩],
        [], []⟩])).Perm (coins asset.id cs ++ coins asset.id (ks.map fun k => (k, 0)) ++
        coins asset.id ((made ++ (List.range fakes).map fun i => (st1.next + i, 0)).map
          fun p : Nat × Nat => (E.fresh p.1, p.2))) := by
      rw [spent_append, spent_cons]
      simp only [finals_spent]
      rw [List.map_append, coins_append, List.map_map]
      simp only [spent_nil, List.append_nil, Function.comp_def]
      rw [← List.append_assoc, ← List.append_assoc, ← List.append_assoc]
      refine List.Perm.append_right _ ?_
      refine (List.Perm.append_right _ s.flow).trans ?_
      rw [List.append_assoc, List.append_assoc]
      exact List.Perm.append_left _ List.perm_append_comm
    refine ⟨?_, ?_, ⟨txs, _, rfl, s.joins, rfl, rfl, rfl, hfl, _, _, rfl⟩, ?_, ?_, ?_⟩
    · simp only [List.length_append, List.length_singleton, el, Nat.max_def]
      split <;> omega
    · rw [goodSeq_append]
      refine ⟨s.good, ?_⟩
      rw [← s.acc]
      exact ⟨hgood, trivial⟩
    · rw [hflow.nodup_iff]
      refine flow_nodup hfresh asset.id cs _ _ hcs ?_ ?_ ?_ ?_ ?_ ?_
      · refine nodup_map_inj _ _ ?_ (by intro a _ b _ e; simp only [Prod.mk.injEq, and_true] at e; exact e)
        rw [hks]; exact zeroes_nodup m hm _ _
      · intro c hcm; exact ⟨_, hc c hcm⟩
      · intro c hcm
        obtain ⟨k, hk, rfl⟩ := List.mem_map.mp hcm
        exact ⟨_, hkst k hk⟩
      · intro c hcm hz
        obtain ⟨k, hk, rfl⟩ := List.mem_map.mp hz
        have hkl : 0 < ks.length := List.length_pos_of_mem hk
        exact hnz (by omega) _ hcm rfl
      · rw [List.map_append, List.nodup_append]
        refine ⟨s.made_nodup, ?_, ?_⟩
        · rw [List.map_map]
          exact nodup_map_inj _ _ List.nodup_range (by
            intro a _ b _ e; simp only [Function.comp_apply] at e; omega)
        · intro a ha b hb e
          obtain ⟨p, hp, rfl⟩ := List.mem_map.mp ha
          obtain ⟨q, hq, rfl⟩ := List.mem_map.mp hb
          obtain ⟨i, _, rfl⟩ := List.mem_map.mp hq
          have := s.made_range p hp
          simp only at e
          omega
      · intro p hp
        have := s.next
        rcases List.mem_append.mp hp with hp | hp
        · have := s.made_range p hp
          omega
        · obtain ⟨i, hi, rfl⟩ := List.mem_map.mp hp
          rw [List.mem_range] at hi
          simp only; omega
    · intro c hcm
      rw [hflow.mem_iff]
      refine List.mem_append.mpr (.inl (List.mem_append.mpr (.inl ?_)))
      exact List.mem_map.mpr ⟨c, hcm, rfl⟩
    · intro tx htx
      rcases List.mem_append.mp htx with htx | htx
      · exact Nat.le_trans (s.small tx htx) hmax
      · rw [List.mem_singleton] at htx
        subst htx
        simp only [finals_sum, s.total]
        exact hmax
  · have := s.next
    simp only; omega

/-- The signer's coins can all be proved (C55), new identifiers are new, the accumulator is committed. -/
structure Ready (E : Env K Leaf A Addr Acct) (g : Signer K A) : Prop where
  keys : g.accounts = true
  coins : MWF g.assets
  members : ∀ k a, Stored g.assets k a → E.contains g.acc (E.leaf k a) = true
  fresh : FreshFrom E g.next (g.next + draws g.assets) fun k => ∃ a, Stored g.assets k a
  committed : E.rollback g.acc = g.acc

theorem tot_le_of_subset : ∀ (l l' : List (K × Nat)), l.Nodup → (∀ c ∈ l, c ∈ l') → tot l ≤ tot l' := by
  intro l
  induction l with
  | nil => intro l' _ _; simp
  | cons c l ih =>
    intro l' hn hs
    obtain ⟨s, t, rfl⟩ := List.append_of_mem (hs c (by simp))
    rw [List.nodup_cons] at hn
    have := ih (s ++ t) hn.2 (by
      intro x hx
      have := hs x (by simp [hx])
      rcases List.mem_append.mp this with h | h
      · exact List.mem_append.mpr (.inl h)
      · rcases List.mem_cons.mp h with rfl | h
        · exact absurd hx hn.1
        · exact List.mem_append.mpr (.inr h))
    rw [tot_append] at this
    rw [tot_append, tot_cons, tot_cons]
    omega

theorem selected_length {m : AMap K} {a : Asset} {sel : Selection K}
    (h : (∀ c ∈ sel.values, Stored m c.1 ⟨a.id, c.2⟩ ∧ c.2 ≠ 0) ∧ sel.values.Nodup) :
    sel.values.length ≤ (assetVectorWithId m a.id).length := by
  have h1 : (coins a.id sel.values).Nodup := nodup_map_inj _ _ h.2 (by
    intro x _ y _ e
    simp only [Prod.mk.injEq, Asset.mk.injEq, true_and] at e
    exact Prod.ext e.1 e.2)
  have h2 : (coins a.id sel.values).length ≤ (assetVectorWithId m a.id).length := by
    refine h1.length_le_of_subset ?_
    intro x hx
    obtain ⟨c, hc, rfl⟩ := List.mem_map.mp hx
    exact (c20_asset_vector_with_id m a.id _ _).mpr ⟨(h.1 c hc).1, rfl⟩
  simpa [coins] using h2

theorem withId_length (m : AMap K) (id : Nat) :
    (assetVectorWithId m id).length ≤ (assetVector m).length := List.length_filter_le _ _

/-- C27: a private transfer that the balance covers is signed, whatever the coins are; the posts form a proper
batch for the selected coins and the accumulator is as before. -/
theorem c27_private_transfer {E : Env K Leaf A Addr Acct} {free : A → Nat} (hL : Laws E free) (hP : Prover E)
    (g : Signer K A) (hg : Ready E g) (a : Asset) (hid : a.id ≠ 0 ∧ a.id < E.ids) (addr : Owner Addr) (hmax : stock g.assets a.id ≤ E.max)
    (hroom : 2 * (assetVectorWithId g.assets a.id).length ≤ free g.acc) (hcov : a.value ≤ stock g.assets a.id) :
    ∃ cs change posts g', sign E g (.privateTransfer a addr) = (.ok posts, g') ∧
      (∀ c ∈ cs, Stored g.assets c.1 ⟨a.id, c.2⟩ ∧ c.2 ≠ 0) ∧ (cs = [] ↔ a.value = 0) ∧
      tot cs = a.value + change ∧
      PrivateBatch E g.acc a addr change cs posts ∧ g'.acc = g.acc ∧ g'.assets = g.assets ∧
      g'.next ≤ g.next + draws g.assets := by
  obtain ⟨sel, hs, hse⟩ := c21_select_complete E.max g.assets a hmax
  obtain ⟨x1, x2, x3, x4⟩ := c20_select_exact E.max g.assets hg.coins a sel hs
  have hne : sel.values = [] ↔ a.value = 0 := by
    rw [hse]; constructor
    · rintro (h | h)
      · exact h
      · omega
    · exact .inl
  have htot : tot sel.values = a.value + sel.change := by
    by_cases h : sel.values = []
    · rw [x4 h, hne.mp h, h]; rfl
    · exact x3 h
  have hlen := selected_length ⟨x1, x2⟩
  have htmax : tot sel.values ≤ E.max := by
    have h1 : tot sel.values ≤ stock g.assets a.id := by
      rw [← tot_candidates]
      have hsub : ∀ c ∈ sel.values, c ∈ candidates g.assets a.id := by
        intro c hc
        exact (mem_candidates g.assets a.id c.1 c.2).mpr (x1 c hc)
      exact tot_le_of_subset _ _ x2 hsub
    omega
  obtain ⟨posts, st', e1, e2, e3, e4, e5⟩ := signPrivate_spec hL hP g.assets hg.coins a hid addr sel.change sel.values
    ⟨g.acc, [], g.next⟩ x2 (fun c hc => (x1 c hc).1) (fun _ c hc => (x1 c hc).2) hg.members
    (by have := withId_length g.assets a.id; unfold draws; omega) hg.fresh htot htmax
    (by simp only; omega)
  refine ⟨sel.values, sel.change, posts, ⟨g.accounts, g.authorization, g.assets, E.rollback st'.acc, st'.next⟩, ?_,
    x1, hne, htot, e4, ?_, rfl, e5⟩
  · have hsel : select E g.assets a = .ok sel := by
      simp only [select, hs]
      rw [if_neg]
      rintro ⟨h1, h2⟩
      exact h1 (hne.mp h2)
    simp only [List.nil_append] at e2
    simp only [sign, signInternal, hg.keys, if_true, hsel, e1, finish, e2]
  · simp only [e3]
    exact hg.committed

/-- If the balance does not cover the amount, the request is refused and nothing changes. -/
theorem c27_insufficient {E : Env K Leaf A Addr Acct} (g : Signer K A) (hk : g.accounts = true)
    (a : Asset) (t : Transaction Addr Acct) (ht : (∃ addr, t = .privateTransfer a addr) ∨ ∃ p, t = .toPublic a p)
    (hmax : stock g.assets a.id ≤ E.max) (hcov : stock g.assets a.id < a.value) :
    sign E g t = (.err .insufficientBalance, g) := by
  obtain ⟨ac, au, m, acc, nx⟩ := g
  simp only at hk hmax hcov
  subst hk
  obtain ⟨sel, hs, hse⟩ := c21_select_complete E.max m a hmax
  have hsel : select E m a = .err .insufficientBalance := by
    simp only [select, hs]
    rw [if_pos ⟨by omega, hse.mpr (.inr hcov)⟩]
  rcases ht with ⟨addr, rfl⟩ | ⟨p, rfl⟩ <;> simp only [sign, signInternal, if_true, hsel, finish]

/-! ## C28 -/

/-- What the posts of a withdrawal have to look like. -/
structure PublicBatch (E : Env K Leaf A Addr Acct) (acc : A) (aid amount change : Nat) (acct : Acct)
    (cs : List (Coin K)) (posts : List (Tx K A Addr Acct)) : Prop where
  /-- two coins per transfer -/
  count : posts.length = (cs.length + 1) / 2
  /-- each balanced, in one asset id, proved for the signer's accumulator -/
  good : ∀ tx ∈ posts, Good E aid acc tx
  /-- two senders, one output to the signer, one public amount to `acct` -/
  shape : ∀ tx ∈ posts, tx.sources = [] ∧ tx.senders.length = 2 ∧ tx.accounts = [acct] ∧
    (∃ k v, tx.receivers = [⟨k, ⟨aid, v⟩, .self⟩]) ∧ ∃ v, tx.sinks = [⟨aid, v⟩]
  /-- the public amounts add up to the requested amount, the outputs to the change -/
  published : (posts.map fun tx => (tx.sinks.map Asset.value).sum).sum = amount
  returned : (posts.map fun tx => (tx.receivers.map fun r => r.asset.value).sum).sum = change
  once : (spent posts).Nodup
  all : ∀ c ∈ cs, (c.1, (⟨aid, c.2⟩ : Asset)) ∈ spent posts
  small : ∀ tx ∈ posts, (tx.senders.map fun s => s.asset.value).sum ≤ E.max

theorem processToPublic_spec {E : Env K Leaf A Addr Acct} (hP : Prover E) (aid : Nat) (hid : aid ≠ 0 ∧ aid < E.ids) (ss : List (Sender K A))
    (accts : List Acct) (change : Nat) (st : St K A Addr Acct) (sum : Nat)
    (hsum : (ss.map fun s => s.asset.value).sum = sum)
    (h2 : ss.length = 2) (hmax : sum ≤ E.max) (hids : ∀ s ∈ ss, s.asset.id = aid)
    (hpr : ∀ s ∈ ss, (s.proof = some st.acc ∧ E.contains st.acc (E.leaf s.key s.asset) = true) ∨
      (s.proof = none ∧ s.asset.value = 0)) :
    ∃ tx, processToPublic E aid ss accts change st =
        (.ok (change - sum), ⟨st.acc, st.posts ++ [tx], st.next + 1⟩) ∧
      Good E aid st.acc tx ∧ tx.senders = ss ∧ tx.accounts = accts ∧ tx.sources = [] ∧
      (∃ k, tx.receivers = [⟨k, ⟨aid, min change sum⟩, .self⟩]) ∧ tx.sinks = [⟨aid, sum - change⟩] := by
  have hg : ∀ v w, v + w = sum → Good E aid st.acc (⟨[], ss, [⟨E.fresh st.next, ⟨aid, v⟩, .self⟩], [⟨aid, w⟩],
      accts⟩ : Tx K A Addr Acct) := by
    intro v w hvw
    refine ⟨⟨by simp, hids, by simp, by simp⟩, ?_, hpr⟩
    simp [hsum, hvw]
  have hgood := hg (min change sum) (sum - change) (by omega)
  have hprove := hP _ _ _ hid (by simp only [List.map_nil, List.sum_nil, hsum]; omega) hgood (by simp [Shape, h2])
  refine ⟨_, ?_, hgood, rfl, rfl, rfl, ⟨_, rfl⟩, rfl⟩
  unfold processToPublic
  rw [if_neg (by simp [h2])]
  simp only [hsum]
  rw [if_neg (by omega)]
  by_cases hc : sum ≥ change
  · simp only [if_pos hc]
    rw [Nat.min_eq_left hc] at hprove ⊢
    simp only [buildPost, hprove, if_true]
    rw [Nat.sub_eq_zero_of_le hc]
  · simp only [if_neg hc]
    rw [Nat.min_eq_right (by omega)] at hprove ⊢
    rw [Nat.sub_eq_zero_of_le (by omega : sum ≤ change)] at hprove ⊢
    simp only [buildPost, hprove, if_true]

theorem signToPublic_spec {E : Env K Leaf A Addr Acct} (hP : Prover E) (m : AMap K) (aid : Nat) (hid : aid ≠ 0 ∧ aid < E.ids) (acct : Acct) :
    ∀ (cs : List (Coin K)) (change : Nat) (st : St K A Addr Acct),
    (∀ c ∈ cs, E.contains st.acc (E.leaf c.1 ⟨aid, c.2⟩) = true) →
    (∀ k, Stored m k ⟨aid, 0⟩ → E.contains st.acc (E.leaf k ⟨aid, 0⟩) = true) →
    tot cs ≤ E.max → change ≤ tot cs →
    ∃ posts next ks n fakes, signToPublic E m aid [acct] cs change st = (.ok (), ⟨st.acc, st.posts ++ posts, next⟩) ∧
      posts.length = (cs.length + 1) / 2 ∧ (∀ tx ∈ posts, Good E aid st.acc tx) ∧
      (∀ tx ∈ posts, tx.sources = [] ∧ tx.senders.length = 2 ∧ tx.accounts = [acct] ∧
        (∃ k v, tx.receivers = [⟨k, ⟨aid, v⟩, .self⟩]) ∧ ∃ v, tx.sinks = [⟨aid, v⟩]) ∧
      (posts.map fun tx => (tx.sinks.map Asset.value).sum).sum + change = tot cs ∧
      (posts.map fun tx => (tx.receivers.map fun r => r.asset.value).sum).sum = change ∧
      spent posts = coins aid cs ++ coins aid (ks.map fun k => (k, 0)) ++
        coins aid ((List.range fakes).map fun i => (E.fresh (n + i), 0)) ∧
      (∃ k, ks = zeroes m k aid) ∧ st.next ≤ n ∧ n + fakes ≤ next ∧ next ≤ st.next + 2 * cs.length := by
  intro cs
  induction h : cs.length using Nat.strongRecOn generalizing cs with
  | _ n ih =>
    subst h
    intro change st hc hz hmax hch
    match cs with
    | [] =>
      simp only [tot_nil] at hch
      exact ⟨[], st.next, [], st.next, 0, by simp [signToPublic], by simp, by simp, by simp,
        by simp [tot_nil]; omega, by simp; omega, by simp [spent, coins], ⟨0, by simp [zeroes]⟩, Nat.le_refl _, by simp, by simp⟩
    | [c] =>
      simp only [tot_cons, tot_nil, Nat.add_zero] at hmax hch
      obtain ⟨ks, fakes, e, hl, hks⟩ := prepareFinal_spec (E := E) m aid [] [c] st (by simp) (by simp) hc hz
      change _ = (Res.ok (finals E aid st.acc st.next fakes [c] ks), _) at e
      obtain ⟨tx, p1, p2, p3, p4, p5, ⟨k, p6⟩, p7⟩ := processToPublic_spec hP aid hid
        (finals E aid st.acc st.next fakes [c] ks) [acct] change { st with next := st.next + fakes } c.2
        (by rw [finals_sum]; simp [tot]) (by
          simp only [finals, List.length_append, List.length_map, List.length_range] at hl ⊢; omega)
        hmax (finals_ids _ _ _ _ _ _ _)
        (finals_proofs _ _ _ _ _ _ _ hc (fun k hk => hz k (by
          rw [hks] at hk; exact (c20_zeroes m _ _).2.1 k hk)))
      refine ⟨[tx], st.next + fakes + 1, ks, st.next, fakes, ?_, by simp, by simpa using p2, ?_, ?_, ?_, ?_,
        ⟨_, hks⟩, Nat.le_refl _, by omega, by simp only [List.length_singleton] at hl ⊢; omega⟩
      · simp only [signToPublic, e, p1]
      · intro tx' htx
        rw [List.mem_singleton] at htx
        subst htx
        exact ⟨p5, by
          rw [p3]
          simp only [finals, List.length_append, List.length_map, List.length_range] at hl ⊢; omega,
          p4, ⟨_, _, p6⟩, _, p7⟩
      · simp [p7, tot]; omega
      · simp [p6]; omega
      · rw [spent_cons, p3, finals_spent, spent_nil, List.append_nil]
    | a :: b :: rest =>
      simp only [tot_cons] at hmax hch
      have hab : ∀ c ∈ [a, b], E.contains st.acc (E.leaf c.1 ⟨aid, c.2⟩) = true := by
        intro c hcm
        apply hc
        simp only [List.mem_cons, List.not_mem_nil, or_false] at hcm ⊢
        rcases hcm with h | h
        · exact .inl h
        · exact .inr (.inl h)
      obtain ⟨tx, p1, p2, p3, p4, p5, ⟨k, p6⟩, p7⟩ := processToPublic_spec hP aid hid
        ([a, b].map fun c => (⟨c.1, ⟨aid, c.2⟩, some st.acc⟩ : Sender K A)) [acct] change st (a.2 + b.2)
        (by simp) (by simp) (by omega) (by simp) (by
          intro s hs
          obtain ⟨c, hcm, rfl⟩ := List.mem_map.mp hs
          exact .inl ⟨rfl, hab c hcm⟩)
      obtain ⟨posts, next, ks, n', fakes, e, q1, q2, q3, q4, q5, q6, q7, q8, q9, q10⟩ := ih rest.length
        (by simp only [List.length_cons]; omega) rest rfl (change - (a.2 + b.2))
        ⟨st.acc, st.posts ++ [tx], st.next + 1⟩ (fun c hcm => hc c (by simp [hcm])) hz (by omega) (by omega)
      refine ⟨tx :: posts, next, ks, n', fakes, ?_, ?_, ?_, ?_, ?_, ?_, ?_, q7, ?_, q9, ?_⟩
      · simp only [signToPublic, upgradeAll_some hab, p1, e, List.append_assoc, List.singleton_append]
      · simp only [List.length_cons, q1]; omega
      · intro tx' htx
        rcases List.mem_cons.mp htx with rfl | htx
        · exact p2
        · exact q2 tx' htx
      · intro tx' htx
        rcases List.mem_cons.mp htx with rfl | htx
        · exact ⟨p5, by rw [p3]; simp, p4, ⟨_, _, p6⟩, _, p7⟩
        · exact q3 tx' htx
      · simp only [List.map_cons, List.sum_cons, p7, List.map_nil, List.sum_nil, tot_cons]; omega
      · simp only [List.map_cons, List.sum_cons, p6, List.map_nil, List.sum_nil, q5]; omega
      · rw [spent_cons, p3, q6]
        simp [coins]
      · simp only at q8; omega
      · simp only [List.length_cons] at q10 ⊢; omega

/-- C28: a withdrawal that the balance covers is signed; the posts publish exactly the requested amount and
return the change. -/
theorem c28_to_public {E : Env K Leaf A Addr Acct} (hP : Prover E)
    (g : Signer K A) (hg : Ready E g) (a : Asset) (hid : a.id ≠ 0 ∧ a.id < E.ids) (acct : Acct) (hmax : stock g.assets a.id ≤ E.max)
    (hcov : a.value ≤ stock g.assets a.id) :
    ∃ cs change posts g', sign E g (.toPublic a acct) = (.ok posts, g') ∧
      (∀ c ∈ cs, Stored g.assets c.1 ⟨a.id, c.2⟩ ∧ c.2 ≠ 0) ∧ (cs = [] ↔ a.value = 0) ∧
      tot cs = a.value + change ∧
      PublicBatch E g.acc a.id a.value change acct cs posts ∧ g'.acc = g.acc ∧ g'.assets = g.assets ∧
      g'.next ≤ g.next + draws g.assets := by
  obtain ⟨sel, hs, hse⟩ := c21_select_complete E.max g.assets a hmax
  obtain ⟨x1, x2, x3, x4⟩ := c20_select_exact E.max g.assets hg.coins a sel hs
  have hne : sel.values = [] ↔ a.value = 0 := by
    rw [hse]; constructor
    · rintro (h | h)
      · exact h
      · omega
    · exact .inl
  have htot : tot sel.values = a.value + sel.change := by
    by_cases h : sel.values = []
    · rw [x4 h, hne.mp h, h]; rfl
    · exact x3 h
  have htmax : tot sel.values ≤ stock g.assets a.id := by
    rw [← tot_candidates]
    exact tot_le_of_subset _ _ x2 fun c hc => (mem_candidates g.assets a.id c.1 c.2).mpr (x1 c hc)
  obtain ⟨posts, next, ks, n, fakes, e, q1, q2, q3, q4, q5, q6, ⟨kk, q7⟩, q8, q9, q10⟩ := signToPublic_spec hP g.assets a.id hid acct
    sel.values sel.change ⟨g.acc, [], g.next⟩ (fun c hc => hg.members _ _ (x1 c hc).1)
    (fun k hk => hg.members _ _ hk) (by omega) (by omega)
  have hnext : next ≤ g.next + draws g.assets := by
    have h1 := selected_length ⟨x1, x2⟩
    have h2 := withId_length g.assets a.id
    simp only at q10
    unfold draws; omega
  have hkst : ∀ k ∈ ks, Stored g.assets k ⟨a.id, 0⟩ := by
    intro k hk
    rw [q7] at hk
    exact (c20_zeroes g.assets _ _).2.1 k hk
  refine ⟨sel.values, sel.change, posts, ⟨g.accounts, g.authorization, g.assets, E.rollback g.acc, next⟩, ?_, x1, hne,
    htot, ⟨q1, q2, q3, by omega, q5, ?_, ?_, ?_⟩, hg.committed, rfl, hnext⟩
  · have hsel : select E g.assets a = .ok sel := by
      simp only [select, hs]
      rw [if_neg]
      rintro ⟨h1, h2⟩
      exact h1 (hne.mp h2)
    simp only [sign, signInternal, hg.keys, if_true, hsel, e, finish, List.nil_append]
  · rw [q6]
    have hfl := flow_nodup hg.fresh a.id sel.values (ks.map fun k => (k, 0))
      ((List.range fakes).map fun i => (n + i, 0)) x2
      (by
        refine nodup_map_inj _ _ ?_ (by intro a _ b _ e; simp only [Prod.mk.injEq, and_true] at e; exact e)
        rw [q7]; exact zeroes_nodup _ hg.coins _ _)
      (fun c hc => ⟨_, (x1 c hc).1⟩)
      (by
        intro c hcm
        obtain ⟨k, hk, rfl⟩ := List.mem_map.mp hcm
        exact ⟨_, hkst k hk⟩)
      (by
        intro c hcm hz
        obtain ⟨k, hk, rfl⟩ := List.mem_map.mp hz
        exact (x1 _ hcm).2 rfl)
      (by
        rw [List.map_map]
        exact nodup_map_inj _ _ List.nodup_range (by
          intro a _ b _ e; simp only [Function.comp_apply] at e; omega))
      (by
        intro p hp
        obtain ⟨i, hi, rfl⟩ := List.mem_map.mp hp
        rw [List.mem_range] at hi
        simp only at q8 ⊢; omega)
    simpa [List.map_map, Function.comp_def] using hfl
  · intro c hcm
    rw [q6]
    refine List.mem_append.mpr (.inl (List.mem_append.mpr (.inl ?_)))
    exact List.mem_map.mpr ⟨c, hcm, rfl⟩
  · intro tx htx
    have hle : ∀ (f : Tx K A Addr Acct → Nat), f tx ≤ (posts.map f).sum := by
      intro f
      obtain ⟨l, r, rfl⟩ := List.append_of_mem htx
      simp only [List.map_append, List.map_cons, List.sum_append, List.sum_cons]
      omega
    have h1 := hle fun tx => (tx.sinks.map Asset.value).sum
    have h2 := hle fun tx => (tx.receivers.map fun r => r.asset.value).sum
    have h3 := (q2 tx htx).balance
    rw [(q3 tx htx).1] at h3
    simp only [List.map_nil, List.sum_nil] at h1 h2 h3
    omega

/-- Minting: one balanced transfer. -/
theorem c28_to_private {E : Env K Leaf A Addr Acct} (hP : Prover E) (g : Signer K A) (a : Asset)
    (hid : a.id ≠ 0 ∧ a.id < E.ids) (hmax : a.value ≤ E.max) (hk : g.authorization = true) :
    ∃ k, sign E g (.toPrivate a) = (.ok [⟨[a], [], [⟨k, a, .self⟩], [], []⟩],
      { g with acc := E.rollback g.acc, next := g.next + 1 }) := by
  have := hP a.id g.acc (⟨[a], [], [⟨E.fresh g.next, a, .self⟩], [], []⟩ : Tx K A Addr Acct)
    hid (by simpa using hmax) ⟨by simp, by simp, by simp⟩ (by simp [Shape])
  refine ⟨E.fresh g.next, ?_⟩
  simp only [sign, signInternal, hk, if_true, buildPost, this, finish, List.nil_append]

/-! ## C52 -/

theorem joinRound_acc (E : Env K Leaf A Addr Acct) (aid : Nat) (cs : List (Coin K)) (st : St K A Addr Acct) :
    ∃ ls, (joinRound E aid cs st).2.acc = insertAll E st.acc ls := by
  fun_induction joinRound E aid cs st with
  | case1 => exact ⟨[], rfl⟩
  | case2 st a b rest sa sb _ _ total _ k z tx _ acc1 acc2 js' zs' st1 hr ih =>
    obtain ⟨ls, h⟩ := ih
    rw [hr] at h
    exact ⟨E.leaf k ⟨aid, total⟩ :: E.leaf z ⟨aid, 0⟩ :: ls, h⟩
  | case3 st a b rest sa sb _ _ total _ k z tx _ acc1 acc2 hne ih =>
    obtain ⟨ls, h⟩ := ih
    exact ⟨E.leaf k ⟨aid, total⟩ :: E.leaf z ⟨aid, 0⟩ :: ls, h⟩
  | case4 => exact ⟨[], rfl⟩
  | case5 => exact ⟨[], rfl⟩
  | case6 => exact ⟨[], rfl⟩

theorem batch_acc (E : Env K Leaf A Addr Acct) (aid : Nat) (cs zs : List (Coin K)) (st : St K A Addr Acct) :
    ∃ ls, (batch E aid cs zs st).2.acc = insertAll E st.acc ls := by
  fun_induction batch E aid cs zs st with
  | case1 cs zs st _ js zs' st' h ih =>
    obtain ⟨l1, h1⟩ := joinRound_acc E aid cs st
    obtain ⟨l2, h2⟩ := ih
    rw [h] at h1
    exact ⟨l1 ++ l2, by rw [h2, insertAll_append, ← h1]⟩
  | case2 cs zs st _ e st' h =>
    obtain ⟨l1, h1⟩ := joinRound_acc E aid cs st
    rw [h] at h1
    exact ⟨l1, h1⟩
  | case3 cs zs st _ st' h =>
    obtain ⟨l1, h1⟩ := joinRound_acc E aid cs st
    rw [h] at h1
    exact ⟨l1, h1⟩
  | case4 => exact ⟨[], rfl⟩

theorem prepareFinal_acc (E : Env K Leaf A Addr Acct) (m : AMap K) (aid : Nat) (zs cs : List (Coin K))
    (st : St K A Addr Acct) : (prepareFinal E m aid zs cs st).2.acc = st.acc := by
  unfold prepareFinal
  repeat' split
  all_goals first | rfl | (dsimp only; repeat' split) 
  all_goals rfl

theorem buildPost_acc (E : Env K Leaf A Addr Acct) (tx : Tx K A Addr Acct)
    (st : St K A Addr Acct) : (buildPost E tx st).2.acc = st.acc := by
  unfold buildPost
  split <;> rfl

theorem signPrivate_acc (E : Env K Leaf A Addr Acct) (m : AMap K) (asset : Asset) (addr : Owner Addr) (change : Nat)
    (cs : List (Coin K)) (st : St K A Addr Acct) :
    ∃ ls, (signPrivate E m asset addr change cs st).2.acc = insertAll E st.acc ls := by
  obtain ⟨ls, h⟩ := batch_acc E asset.id cs [] st
  refine ⟨ls, ?_⟩
  unfold signPrivate
  split
  · rename_i hb; rw [hb] at h; exact h
  · rename_i hb; rw [hb] at h; exact h
  · rename_i cs' zs st1 hb
    rw [hb] at h
    have h2 := prepareFinal_acc E m asset.id zs cs' st1
    split
    · rename_i hp; rw [hp] at h2; rw [h2]; exact h
    · rename_i hp; rw [hp] at h2; rw [h2]; exact h
    · rename_i hp
      rw [hp] at h2
      split
      · rw [h2]; exact h
      · rw [buildPost_acc]; exact h2.trans h

theorem processToPublic_acc (E : Env K Leaf A Addr Acct) (aid : Nat) (ss : List (Sender K A)) (accts : List Acct)
    (change : Nat) (st : St K A Addr Acct) : (processToPublic E aid ss accts change st).2.acc = st.acc := by
  unfold processToPublic
  split
  · rfl
  · dsimp only
    split
    · rfl
    · generalize hq : (if (ss.map fun s => s.asset.value).sum ≥ change then
        (change, (ss.map fun s => s.asset.value).sum - change, 0)
        else ((ss.map fun s => s.asset.value).sum, 0, change - (ss.map fun s => s.asset.value).sum)) = q
      obtain ⟨q1, q2, q3⟩ := q
      dsimp only
      have := buildPost_acc E ⟨[], ss, [⟨E.fresh st.next, ⟨aid, q1⟩, .self⟩], [⟨aid, q2⟩], accts⟩
        { st with next := st.next + 1 }
      split <;> rename_i hb <;> rw [hb] at this <;> exact this

theorem signToPublic_acc (E : Env K Leaf A Addr Acct) (m : AMap K) (aid : Nat) (accts : List Acct)
    (cs : List (Coin K)) (change : Nat) (st : St K A Addr Acct) :
    (signToPublic E m aid accts cs change st).2.acc = st.acc := by
  fun_induction signToPublic E m aid accts cs change st with
  | case1 => rfl
  | case2 c change st e st1 h => have := prepareFinal_acc E m aid [] [c] st; rw [h] at this; exact this
  | case3 c change st st1 h => have := prepareFinal_acc E m aid [] [c] st; rw [h] at this; exact this
  | case4 c change st ss st1 h n st2 h2 =>
    have h3 := prepareFinal_acc E m aid [] [c] st; rw [h] at h3
    have h4 := processToPublic_acc E aid ss accts change st1; rw [h2] at h4
    exact h4.trans h3
  | case5 c change st ss st1 h n st2 h2 =>
    have h3 := prepareFinal_acc E m aid [] [c] st; rw [h] at h3
    have h4 := processToPublic_acc E aid ss accts change st1; rw [h2] at h4
    exact h4.trans h3
  | case6 c change st ss st1 h st2 h2 =>
    have h3 := prepareFinal_acc E m aid [] [c] st; rw [h] at h3
    have h4 := processToPublic_acc E aid ss accts change st1; rw [h2] at h4
    exact h4.trans h3
  | case7 => rfl
  | case8 a b rest change st ss h c' st1 h2 ih =>
    have h4 := processToPublic_acc E aid ss accts change st; rw [h2] at h4
    exact ih.trans h4
  | case9 a b rest change st ss h e st1 h2 =>
    have h4 := processToPublic_acc E aid ss accts change st; rw [h2] at h4
    exact h4
  | case10 a b rest change st ss h st1 h2 =>
    have h4 := processToPublic_acc E aid ss accts change st; rw [h2] at h4
    exact h4

theorem signInternal_acc (E : Env K Leaf A Addr Acct) (g : Signer K A) (t : Transaction Addr Acct) :
    ∃ ls, (signInternal E g t).2.acc = insertAll E g.acc ls := by
  unfold signInternal
  dsimp only
  split
  · split
    · exact ⟨[], buildPost_acc _ _ _⟩
    · exact ⟨[], rfl⟩
  · split
    · split
      · exact signPrivate_acc _ _ _ _ _ _ _
      · exact ⟨[], rfl⟩
      · exact ⟨[], rfl⟩
    · exact ⟨[], rfl⟩
  · split
    · split
      · exact ⟨[], signToPublic_acc _ _ _ _ _ _ _⟩
      · exact ⟨[], rfl⟩
      · exact ⟨[], rfl⟩
    · exact ⟨[], rfl⟩

/-- C52, success: whatever the prover does, a successful request leaves a committed accumulator as it was and the
coins untouched. -/
theorem c52_success_partial {E : Env K Leaf A Addr Acct} {free : A → Nat} (hL : Laws E free) (g g' : Signer K A)
    (hc : E.rollback g.acc = g.acc) (t : Transaction Addr Acct) (posts : List (Tx K A Addr Acct))
    (h : sign E g t = (.ok posts, g')) : g'.acc = g.acc ∧ g'.assets = g.assets := by
  obtain ⟨ls, hls⟩ := signInternal_acc E g t
  unfold sign finish at h
  rcases hr : signInternal E g t with ⟨r, st⟩
  rw [hr] at h hls
  rcases r with u | e | _
  · simp only [Prod.mk.injEq, Res.ok.injEq] at h
    obtain ⟨_, rfl⟩ := h
    refine ⟨?_, rfl⟩
    simp only at hls ⊢
    rw [hls, insertAll_rollback hL, hc]
  · simp at h
  · simp at h

/-- C52, failure: mints, withdrawals and refused requests leave the accumulator alone; only private transfers of
more than two coins can fail with a changed one (`c52_violated`). -/
theorem c52_failure_partial (E : Env K Leaf A Addr Acct) (g g' : Signer K A) (t : Transaction Addr Acct)
    (e : SignError) (h : sign E g t = (.err e, g'))
    (ht : ∀ a addr sel, t = .privateTransfer a addr → AMap.select E.max g.assets a = some sel → sel.values.length ≤ 2) :
    g'.acc = g.acc ∧ g'.assets = g.assets := by
  have key : (signInternal E g t).2.acc = g.acc := by
    unfold signInternal
    dsimp only
    split
    · split
      · exact buildPost_acc _ _ _
      · rfl
    · rename_i a addr
      split
      · split
        · rename_i sel hs
          have hl : sel.values.length ≤ 2 := by
            refine ht a addr sel rfl ?_
            unfold select at hs
            split at hs
            · cases hs
            · rename_i sel' hs'
              split at hs
              · cases hs
              · cases hs; exact hs'
          have hb : batch E a.id sel.values [] (⟨g.acc, [], g.next⟩ : St K A Addr Acct) =
              (.ok (sel.values, []), ⟨g.acc, [], g.next⟩) := by
            rw [batch, dif_neg (by omega)]
          unfold signPrivate
          rw [hb]
          dsimp only
          have h2 := prepareFinal_acc E g.assets a.id [] sel.values (⟨g.acc, [], g.next⟩ : St K A Addr Acct)
          split
          · rename_i hp; rw [hp] at h2; exact h2
          · rename_i hp; rw [hp] at h2; exact h2
          · rename_i hp
            rw [hp] at h2
            split
            · exact h2
            · rw [buildPost_acc]; exact h2
        · rfl
        · rfl
      · rfl
    · split
      · split
        · exact signToPublic_acc _ _ _ _ _ _ _
        · rfl
        · rfl
      · rfl
  unfold sign finish at h
  rcases hr : signInternal E g t with ⟨r, st⟩
  rw [hr] at h key
  rcases r with u | e | _
  · simp at h
  · simp only [Prod.mk.injEq] at h
    obtain ⟨_, rfl⟩ := h
    exact ⟨key, rfl⟩
  · simp at h

/-! ### A concrete instance -/

/-- Accumulator: committed leaves, leaves added since, capacity. -/
structure ToyAcc where
  base : List (Nat × Asset)
  extra : List (Nat × Asset)
  cap : Nat
deriving DecidableEq, Repr

/-- Leaves are the coins themselves, identifiers are drawn from 1000 on. -/
def toyEnv (prove : Tx Nat ToyAcc Nat Nat → Bool) : Env Nat (Nat × Asset) ToyAcc Nat Nat where
  leaf := Prod.mk
  insert a l := if a.base.length + a.extra.length < a.cap then (true, { a with extra := a.extra ++ [l] }) else (false, a)
  contains a l := decide (l ∈ a.base ++ a.extra)
  rollback a := { a with extra := [] }
  fresh i := 1000 + i
  prove := prove
  max := 10000
  ids := 1000

def toyFree (a : ToyAcc) : Nat := a.cap - (a.base.length + a.extra.length)

theorem toy_laws (p : Tx Nat ToyAcc Nat Nat → Bool) : Laws (toyEnv p) toyFree := by
  constructor
  · intro a l h
    simp only [toyFree, toyEnv] at h ⊢
    rw [if_pos (by omega)]
    simp only [List.length_append, List.length_singleton]
    exact ⟨trivial, by omega⟩
  · intro a l _ h
    simp only [toyEnv] at h ⊢
    split at h
    · rename_i hc; rw [if_pos hc]; simp
    · cases h
  · intro a l x h
    simp only [toyEnv, decide_eq_true_eq] at h ⊢
    split
    · simp only [List.mem_append] at h ⊢
      rcases h with h | h
      · exact .inl h
      · exact .inr (.inl h)
    · exact h
  · intro a l
    simp only [toyEnv]
    split <;> rfl

/-- Four coins of asset 7. -/
def toySigner : Signer Nat ToyAcc :=
  ⟨true, true, [(1, [⟨7, 10⟩]), (2, [⟨7, 20⟩]), (3, [⟨7, 30⟩]), (4, [⟨7, 40⟩])],
   ⟨[(1, ⟨7, 10⟩), (2, ⟨7, 20⟩), (3, ⟨7, 30⟩), (4, ⟨7, 40⟩)], [], 100⟩, 0⟩

theorem toy_ready (p : Tx Nat ToyAcc Nat Nat → Bool) : Ready (toyEnv p) toySigner := by
  have hst : ∀ k a, Stored toySigner.assets k a → (k, a) ∈ toySigner.acc.base := by
    intro k a ⟨as, h1, h2⟩
    simp only [toySigner, List.mem_cons, Prod.mk.injEq, List.not_mem_nil, or_false] at h1 ⊢
    rcases h1 with ⟨rfl, rfl⟩ | ⟨rfl, rfl⟩ | ⟨rfl, rfl⟩ | ⟨rfl, rfl⟩ <;> simp at h2 <;> simp [h2]
  refine ⟨by rfl, ⟨by simp [KeysNodup, toySigner], by simp [toySigner], by simp [toySigner]⟩, ?_, ⟨?_, ?_⟩, by rfl⟩
  · intro k a h
    simp only [toyEnv, decide_eq_true_eq]
    exact List.mem_append.mpr (.inl (hst k a h))
  · intro i j _ _ _ _ h
    simp only [toyEnv] at h
    omega
  · rintro i _ _ ⟨a, h⟩
    have := hst _ _ h
    simp only [toySigner, toyEnv, List.mem_cons, Prod.mk.injEq, List.not_mem_nil, or_false] at this
    omega

/-- The hypotheses of C27 and C28 hold for a signer with four coins and a payment of 95. -/
example : 95 ≤ stock toySigner.assets 7 ∧ stock toySigner.assets 7 ≤ (toyEnv fun _ => true).max ∧
    2 * (assetVectorWithId toySigner.assets 7).length ≤ toyFree toySigner.acc := by decide

example : Prover (toyEnv fun _ => true) := fun _ _ _ _ _ _ _ => rfl

/-- Four coins: three transfers. -/
example : (match (sign (toyEnv fun _ => true) toySigner (.privateTransfer ⟨7, 95⟩ (.other 5))).1 with
    | .ok posts => posts.map fun tx => (tx.senders.map fun s => s.asset.value, tx.receivers.map fun r => r.asset.value)
    | _ => []) = [([10, 20], [30, 0]), ([30, 40], [70, 0]), ([30, 70], [5, 95])] := by decide +kernel

/-- C52 is violated on failure: if the proof of the second transfer fails (any proof system error), the request
returns an error and the coins of the first transfer, never posted, stay in the signer's accumulator. -/
theorem c52_violated :
    let E := toyEnv fun tx => decide ((tx.senders.map fun s => s.asset.value).sum ≤ 60)
    (sign E toySigner (.privateTransfer ⟨7, 95⟩ (.other 5))).1 = .err .proofSystem ∧
    (sign E toySigner (.privateTransfer ⟨7, 95⟩ (.other 5))).2.acc.extra = [(1000, ⟨7, 30⟩), (1001, ⟨7, 0⟩)] ∧
    toySigner.acc.extra = [] := by decide +kernel

/-! ## C58 consolidation -/

section
variable [DecidableEq K]

theorem consolidationOk_go (first : K × Asset) (rest : List (K × Asset)) : ∀ prev,
    consolidationOk.go first prev rest = true ↔
      (prev :: rest).Nodup ∧ (∀ c ∈ rest, c.2.id = first.2.id) ∧ ∀ c ∈ rest, c.2.value ≠ 0 := by
  induction rest with
  | nil => intro prev; simp [consolidationOk.go]
  | cons c rest ih =>
    intro prev
    simp only [consolidationOk.go, Bool.and_eq_true, Bool.not_eq_true', Bool.or_eq_false_iff, ih,
      decide_eq_false_iff_not, Decidable.not_not]
    rw [List.nodup_cons (a := prev)]
    simp only [List.contains_eq_mem, decide_eq_false_iff_not, List.forall_mem_cons]
    constructor
    · rintro ⟨⟨⟨h1, h2⟩, h3⟩, h4, h5, h6⟩
      exact ⟨⟨h1, h4⟩, ⟨h2, h5⟩, h3, h6⟩
    · rintro ⟨⟨h1, h4⟩, ⟨h2, h5⟩, h3, h6⟩
      exact ⟨⟨⟨h1, h2⟩, h3⟩, h4, h5, h6⟩

/-- Which requests are admitted: at least two coins, no duplicates, one asset id, and no coin except possibly
the first of value zero. -/
theorem c58_request_partial (req : List (K × Asset)) : consolidationOk req = true ↔
    2 ≤ req.length ∧ req.Nodup ∧ (∀ c ∈ req, ∀ d ∈ req, c.2.id = d.2.id) ∧ ∀ c ∈ req.tail, c.2.value ≠ 0 := by
  match req with
  | [] => simp [consolidationOk]
  | [a] => simp [consolidationOk]
  | a :: b :: rest =>
    simp only [consolidationOk, consolidationOk_go, List.tail_cons, List.length_cons]
    constructor
    · rintro ⟨h1, h2, h3⟩
      refine ⟨by omega, h1, ?_, h3⟩
      have : ∀ c ∈ a :: b :: rest, c.2.id = a.2.id := by
        intro c hc
        rcases List.mem_cons.mp hc with rfl | hc
        · rfl
        · exact h2 c hc
      intro c hc d hd
      rw [this c hc, this d hd]
    · rintro ⟨_, h1, h2, h3⟩
      exact ⟨h1, fun c hc => h2 c (by simp at hc ⊢; exact .inr hc) a (by simp), h3⟩

/-- The documented rule that no coin has value zero is violated for the first coin. -/
theorem c58_zero_first_accepted : consolidationOk [((1 : Nat), (⟨7, 0⟩ : Asset)), (2, ⟨7, 5⟩)] = true ∧
    consolidationOk [((2 : Nat), (⟨7, 5⟩ : Asset)), (1, ⟨7, 0⟩)] = false := by decide

/-- C58: an admitted request for coins the signer holds is signed; the last post pays the whole total back to
the signer as one coin. -/
theorem c58_consolidate {E : Env K Leaf A Addr Acct} {free : A → Nat} (hL : Laws E free) (hP : Prover E)
    (g : Signer K A) (hg : Ready E g) (req : List (K × Asset)) (hreq : consolidationOk req = true)
    (hst : ∀ c ∈ req, Stored g.assets c.1 c.2) (hmax : (req.map fun c => c.2.value).sum ≤ E.max)
    (hroom : 2 * req.length ≤ free g.acc) (hid0 : ∀ c ∈ req, c.2.id ≠ 0 ∧ c.2.id < E.ids) :
    ∃ posts g' id, consolidate E g req = (.ok posts, g') ∧ (∀ c ∈ req, c.2.id = id) ∧
      PrivateBatch E g.acc ⟨id, (req.map fun c => c.2.value).sum⟩ .self 0 (req.map fun c => (c.1, c.2.value)) posts ∧
      g'.acc = g.acc ∧ g'.assets = g.assets ∧ g'.next ≤ g.next + draws g.assets := by
  obtain ⟨r1, r2, r3, r4⟩ := (c58_request_partial req).mp hreq
  match req, r1 with
  | first :: rest, r1 =>
    have hid : ∀ c ∈ first :: rest, c.2.id = first.2.id := fun c hc => r3 c hc first (by simp)
    have hasset : ∀ c ∈ first :: rest, (⟨first.2.id, c.2.value⟩ : Asset) = c.2 := by
      intro c hc
      rw [← hid c hc]
    have htot : tot ((first :: rest).map fun c => (c.1, c.2.value)) = ((first :: rest).map fun c => c.2.value).sum := by
      simp [tot, Function.comp_def]
    have hlen : (first :: rest).length ≤ (assetVector g.assets).length :=
      List.Nodup.length_le_of_subset r2 fun c hc => (mem_assetVector g.assets c.1 c.2).mpr (hst c hc)
    obtain ⟨posts, st', e1, e2, e3, e4, e5⟩ := signPrivate_spec hL hP g.assets hg.coins
      ⟨first.2.id, ((first :: rest).map fun c => c.2.value).sum⟩ (hid0 first (by simp)) .self 0 ((first :: rest).map fun c => (c.1, c.2.value))
      ⟨g.acc, [], g.next⟩
      (nodup_map_inj _ _ r2 (by
        intro c hc d hd e
        simp only [Prod.mk.injEq] at e
        refine Prod.ext e.1 ?_
        rw [← hasset c hc, ← hasset d hd, e.2]))
      (by
        intro c hc
        obtain ⟨d, hd, rfl⟩ := List.mem_map.mp hc
        simp only [hasset d hd]
        exact hst d hd)
      (by intro h; rw [List.length_map] at h; omega) hg.members
      (by rw [List.length_map]; unfold draws; omega) hg.fresh (by rw [htot]; rfl)
      (by rw [htot]; exact hmax) (by rw [List.length_map]; simp only; omega)
    refine ⟨posts, ⟨g.accounts, g.authorization, g.assets, E.rollback st'.acc, st'.next⟩, first.2.id, ?_, hid, e4,
      ?_, rfl, e5⟩
    · simp only [List.nil_append] at e2
      simp only [consolidate, hg.keys, if_true, hreq]
      rw [if_neg (by omega), if_pos]
      · simp only [e1, finish, e2]
        exact congrArg (fun b => (_, (⟨b, _, _, _, _⟩ : Signer K A))) hg.keys
      · rw [List.all_eq_true]
        intro c hc
        rw [List.contains_iff_mem, c20_asset_vector_with_id]
        exact ⟨hst c hc, hid c hc⟩
    · simp only [e3]
      exact hg.committed

/-- Requests that are not admitted, or name a coin the signer does not hold, are refused without effect. -/
theorem c58_refused (E : Env K Leaf A Addr Acct) (g : Signer K A) (hk : g.accounts = true) (req : List (K × Asset))
    (hmax : (req.map fun c => c.2.value).sum ≤ E.max)
    (h : consolidationOk req = false ∨ ∃ c ∈ req, ¬ Stored g.assets c.1 c.2) :
    consolidate E g req = (.err .invalidConsolidationRequest, g) := by
  obtain ⟨ac, au, m, acc, nx⟩ := g
  simp only at hk h
  subst hk
  simp only [consolidate, if_true]
  match req with
  | [] => simp only [finish]
  | first :: rest =>
    simp only
    by_cases ho : consolidationOk (first :: rest) = true
    · rcases h with h | ⟨c, hc, hn⟩
      · rw [ho] at h; cases h
      · rw [if_pos ho, if_neg (by omega), if_neg]
        · simp only [finish]
        · rw [List.all_eq_true]
          intro hall
          have := hall c hc
          rw [List.contains_iff_mem, c20_asset_vector_with_id] at this
          exact hn this.1
    · rw [if_neg ho]
      simp only [finish]

end

end Verif.Sign
