import Verif.Sign.Model
import Verif.Asset.Select

/-! # Specification of signing and lemmas on the batching loop -/

set_option linter.unusedSectionVars false

namespace Verif.Sign

open Verif.Asset Verif.Asset.AMap

variable {K Leaf A Addr Acct : Type}

/-! ## Specification -/

/-- What is assumed of the UTXO accumulator; `free` bounds the room left from below. -/
structure Laws (E : Env K Leaf A Addr Acct) (free : A → Nat) : Prop where
  room : ∀ a l, 0 < free a → (E.insert a l).1 = true ∧ free a ≤ free (E.insert a l).2 + 1
  has : ∀ a l, 0 < free a → (E.insert a l).1 = true → E.contains (E.insert a l).2 l = true
  keeps : ∀ a l x, E.contains a x = true → E.contains (E.insert a l).2 x = true
  undo : ∀ a l, E.rollback (E.insert a l).2 = E.rollback a

/-- A transfer that a verifier has no reason to reject: one asset id, balanced, and every spent coin is proved
in `acc` or has value zero and the default proof. -/
structure Good (E : Env K Leaf A Addr Acct) (aid : Nat) (acc : A) (tx : Tx K A Addr Acct) : Prop where
  ids : (∀ a ∈ tx.sources, a.id = aid) ∧ (∀ s ∈ tx.senders, s.asset.id = aid) ∧
    (∀ r ∈ tx.receivers, r.asset.id = aid) ∧ (∀ a ∈ tx.sinks, a.id = aid)
  balance : (tx.sources.map Asset.value).sum + (tx.senders.map fun s => s.asset.value).sum =
    (tx.receivers.map fun r => r.asset.value).sum + (tx.sinks.map Asset.value).sum
  proofs : ∀ s ∈ tx.senders, (s.proof = some acc ∧ E.contains acc (E.leaf s.key s.asset) = true) ∨
    (s.proof = none ∧ s.asset.value = 0)

/-- The canonical counts of sources, senders, receivers, sinks. -/
def Shape (tx : Tx K A Addr Acct) : Prop :=
  (tx.sources.length, tx.senders.length, tx.receivers.length, tx.sinks.length) ∈
    [(1, 0, 1, 0), (0, 2, 2, 0), (0, 2, 1, 1)]

/-- The prover succeeds on such transfers of an asset other than the reserved id 0 (C61: opaque coins of value zero
of asset 0 cannot be proved) whose total can be represented. -/
def Prover (E : Env K Leaf A Addr Acct) : Prop :=
  ∀ aid acc tx, aid ≠ 0 ∧ aid < E.ids → (tx.sources.map Asset.value).sum + (tx.senders.map fun s => s.asset.value).sum ≤ E.max →
    Good E aid acc tx → Shape tx → E.prove tx = true

/-- Insert leaves one after the other. -/
def insertAll (E : Env K Leaf A Addr Acct) (acc : A) (ls : List Leaf) : A :=
  ls.foldl (fun a l => (E.insert a l).2) acc

/-- Leaves created by a transfer to oneself. -/
def outputs (E : Env K Leaf A Addr Acct) (tx : Tx K A Addr Acct) : List Leaf :=
  tx.receivers.map fun r => E.leaf r.key r.asset

/-- Each transfer is good for the accumulator that contains the outputs of all earlier ones, in order. -/
def GoodSeq (E : Env K Leaf A Addr Acct) (aid : Nat) : A → List (Tx K A Addr Acct) → Prop
  | _, [] => True
  | acc, tx :: txs => Good E aid acc tx ∧ GoodSeq E aid (insertAll E acc (outputs E tx)) txs

/-- Coins spent by transfers. -/
def spent (txs : List (Tx K A Addr Acct)) : List (K × Asset) :=
  txs.flatMap fun tx => tx.senders.map fun s => (s.key, s.asset)

/-- A transfer of two coins into one plus a zero coin, all to oneself. -/
def IsJoin (tx : Tx K A Addr Acct) : Prop :=
  tx.sources = [] ∧ tx.senders.length = 2 ∧ tx.receivers.length = 2 ∧ tx.sinks = [] ∧ tx.accounts = [] ∧
    ∀ r ∈ tx.receivers, r.owner = .self

/-- Coins of one asset id. -/
def coins (aid : Nat) (cs : List (Coin K)) : List (K × Asset) := cs.map fun c => (c.1, ⟨aid, c.2⟩)

/-! ## Lemmas -/

theorem insertAll_append (E : Env K Leaf A Addr Acct) (acc : A) (a b : List Leaf) :
    insertAll E acc (a ++ b) = insertAll E (insertAll E acc a) b := by
  simp [insertAll]

theorem insertAll_rollback {E : Env K Leaf A Addr Acct} {free : A → Nat} (hL : Laws E free) (ls : List Leaf) :
    ∀ acc, E.rollback (insertAll E acc ls) = E.rollback acc := by
  induction ls with
  | nil => intro acc; rfl
  | cons l ls ih =>
    intro acc
    have := ih (E.insert acc l).2
    rw [hL.undo] at this
    exact this

theorem goodSeq_append (E : Env K Leaf A Addr Acct) (aid : Nat) (a b : List (Tx K A Addr Acct)) :
    ∀ acc, GoodSeq E aid acc (a ++ b) ↔
      GoodSeq E aid acc a ∧ GoodSeq E aid (insertAll E acc (a.flatMap (outputs E))) b := by
  induction a with
  | nil => intro acc; simp [GoodSeq, insertAll]
  | cons tx a ih =>
    intro acc
    simp only [List.cons_append, GoodSeq, ih, List.flatMap_cons, insertAll_append]
    exact and_assoc.symm

theorem spent_append (a b : List (Tx K A Addr Acct)) : spent (a ++ b) = spent a ++ spent b := by
  simp [spent]

theorem spent_cons (a : Tx K A Addr Acct) (b : List (Tx K A Addr Acct)) :
    spent (a :: b) = (a.senders.map fun s => (s.key, s.asset)) ++ spent b := by
  simp [spent]

theorem coins_cons (aid : Nat) (c : Coin K) (cs : List (Coin K)) :
    coins aid (c :: cs) = (c.1, ⟨aid, c.2⟩) :: coins aid cs := rfl

theorem coins_append (aid : Nat) (a b : List (Coin K)) : coins aid (a ++ b) = coins aid a ++ coins aid b := by
  simp [coins]

theorem upgrade_some {E : Env K Leaf A Addr Acct} {acc : A} {aid : Nat} {c : Coin K}
    (h : E.contains acc (E.leaf c.1 ⟨aid, c.2⟩) = true) :
    upgrade E acc aid c = some ⟨c.1, ⟨aid, c.2⟩, some acc⟩ := by
  simp [upgrade, h]

theorem upgradeAll_some {E : Env K Leaf A Addr Acct} {acc : A} {aid : Nat} {cs : List (Coin K)}
    (h : ∀ c ∈ cs, E.contains acc (E.leaf c.1 ⟨aid, c.2⟩) = true) :
    upgradeAll E acc aid cs = some (cs.map fun c => ⟨c.1, ⟨aid, c.2⟩, some acc⟩) := by
  induction cs with
  | nil => rfl
  | cons c cs ih =>
    simp only [upgradeAll, upgrade_some (h c (by simp)), ih fun x hx => h x (by simp [hx]), List.map_cons]

/-- Result of one round. -/
structure RoundSpec (E : Env K Leaf A Addr Acct) (free : A → Nat) (aid : Nat) (cs js : List (Coin K))
    (st st' : St K A Addr Acct) (txs : List (Tx K A Addr Acct)) (made : List (Nat × Nat)) : Prop where
  posts : st'.posts = st.posts ++ txs
  next : st'.next = st.next + 2 * txs.length
  acc : st'.acc = insertAll E st.acc (txs.flatMap (outputs E))
  total : tot js = tot cs
  here : ∀ c ∈ js, E.contains st'.acc (E.leaf c.1 ⟨aid, c.2⟩) = true
  keeps : ∀ x, E.contains st.acc x = true → E.contains st'.acc x = true
  free : free st.acc ≤ free st'.acc + 2 * txs.length
  good : GoodSeq E aid st.acc txs
  small : ∀ tx ∈ txs, (tx.senders.map fun s => s.asset.value).sum ≤ tot cs
  joins : ∀ tx ∈ txs, IsJoin tx
  made_nodup : (made.map Prod.fst).Nodup
  made_range : ∀ p ∈ made, st.next ≤ p.1 ∧ p.1 < st'.next
  flow : (spent txs ++ coins aid js).Perm (coins aid cs ++ coins aid (made.map fun p => (E.fresh p.1, p.2)))

theorem joinRound_spec {E : Env K Leaf A Addr Acct} {free : A → Nat} (hL : Laws E free) (hP : Prover E)
    (aid : Nat) (hid : aid ≠ 0 ∧ aid < E.ids) (cs : List (Coin K)) (st : St K A Addr Acct) :
    (∀ c ∈ cs, E.contains st.acc (E.leaf c.1 ⟨aid, c.2⟩) = true) → tot cs ≤ E.max →
    2 * (cs.length / 2) ≤ free st.acc →
    ∃ js zs st' txs made, joinRound E aid cs st = (.ok (js, zs), st') ∧ txs.length = cs.length / 2 ∧
      RoundSpec E free aid cs js st st' txs made := by
  induction h : cs.length using Nat.strongRecOn generalizing cs st with
  | _ n ih =>
    subst h
    intro hc hm hf
    match cs with
    | [] =>
      exact ⟨[], [], st, [], [], rfl, by simp, by simp, by simp, rfl, rfl, by simp, fun _ h => h, by simp, trivial,
        by simp, by simp, by simp, by simp, by simp [spent, coins]⟩
    | [c] =>
      refine ⟨[c], [], st, [], [], rfl, by simp, by simp, by simp, rfl, rfl, hc, fun _ h => h, by simp, trivial,
        by simp, by simp, by simp, by simp, by simp [spent, coins]⟩
    | a :: b :: rest =>
      have ha := hc a (by simp)
      have hb := hc b (by simp)
      have hlen : (a :: b :: rest).length / 2 = rest.length / 2 + 1 := by
        simp only [List.length_cons]; omega
      rw [hlen] at hf ⊢
      simp only [tot_cons] at hm
      have hgood : Good E aid st.acc (⟨[], [⟨a.1, ⟨aid, a.2⟩, some st.acc⟩, ⟨b.1, ⟨aid, b.2⟩, some st.acc⟩],
          [⟨E.fresh st.next, ⟨aid, a.2 + b.2⟩, .self⟩, ⟨E.fresh (st.next + 1), ⟨aid, 0⟩, .self⟩], [], []⟩ :
          Tx K A Addr Acct) := by
        refine ⟨by simp, by simp, ?_⟩
        intro s hs
        simp only [List.mem_cons, List.not_mem_nil, or_false] at hs
        rcases hs with rfl | rfl
        · exact .inl ⟨rfl, ha⟩
        · exact .inl ⟨rfl, hb⟩
      have hprove := hP aid st.acc _ hid (by simp only [List.map_nil, List.sum_nil, List.map_cons, List.sum_cons]; omega) hgood
        (by simp [Shape])
      obtain ⟨r1, f1⟩ := hL.room st.acc (E.leaf (E.fresh st.next) ⟨aid, a.2 + b.2⟩) (by omega)
      have k1 := hL.has _ _ (by omega) r1
      have m1 := hL.keeps st.acc (E.leaf (E.fresh st.next) ⟨aid, a.2 + b.2⟩)
      generalize hacc1 : (E.insert st.acc (E.leaf (E.fresh st.next) ⟨aid, a.2 + b.2⟩)).2 = acc1 at *
      obtain ⟨r2, f2⟩ := hL.room acc1 (E.leaf (E.fresh (st.next + 1)) ⟨aid, 0⟩) (by omega)
      have m2 := hL.keeps acc1 (E.leaf (E.fresh (st.next + 1)) ⟨aid, 0⟩)
      generalize hacc2 : (E.insert acc1 (E.leaf (E.fresh (st.next + 1)) ⟨aid, 0⟩)).2 = acc2 at *
      obtain ⟨js, zs, st', txs, made, e, el, s⟩ := ih rest.length (by simp only [List.length_cons]; omega) rest
        ⟨acc2, st.posts ++ [⟨[], [⟨a.1, ⟨aid, a.2⟩, some st.acc⟩, ⟨b.1, ⟨aid, b.2⟩, some st.acc⟩],
          [⟨E.fresh st.next, ⟨aid, a.2 + b.2⟩, .self⟩, ⟨E.fresh (st.next + 1), ⟨aid, 0⟩, .self⟩], [], []⟩],
          st.next + 2⟩ rfl
        (fun c hcm => m2 _ (m1 _ (hc c (by simp [hcm])))) (by omega) (by simp only; omega)
      have hout : insertAll E st.acc (outputs E (⟨[], [⟨a.1, ⟨aid, a.2⟩, some st.acc⟩, ⟨b.1, ⟨aid, b.2⟩, some st.acc⟩],
          [⟨E.fresh st.next, ⟨aid, a.2 + b.2⟩, .self⟩, ⟨E.fresh (st.next + 1), ⟨aid, 0⟩, .self⟩], [], []⟩ :
          Tx K A Addr Acct)) = acc2 := by
        simp only [insertAll, outputs, List.map_cons, List.map_nil, List.foldl_cons, List.foldl_nil, hacc1, hacc2]
      refine ⟨(E.fresh st.next, a.2 + b.2) :: js, (E.fresh (st.next + 1), 0) :: zs, st',
        ⟨[], [⟨a.1, ⟨aid, a.2⟩, some st.acc⟩, ⟨b.1, ⟨aid, b.2⟩, some st.acc⟩],
          [⟨E.fresh st.next, ⟨aid, a.2 + b.2⟩, .self⟩, ⟨E.fresh (st.next + 1), ⟨aid, 0⟩, .self⟩], [], []⟩ :: txs,
        (st.next, a.2 + b.2) :: made, ?_, ?_, ?_⟩
      · simp only [joinRound, upgrade_some ha, upgrade_some hb]
        rw [if_neg (by omega), if_pos hprove]
        simp only [hacc1, hacc2, e]
      · simp only [List.length_cons, el]
      · have hn := s.next
        simp only at hn
        refine ⟨by rw [s.posts]; simp, by rw [List.length_cons]; omega, ?_, ?_, ?_, ?_, ?_, ?_, ?_, ?_, ?_, ?_, ?_⟩
        · rw [s.acc, List.flatMap_cons, insertAll_append, hout]
        · simp only [tot_cons, s.total]; omega
        · intro c hcm
          rcases List.mem_cons.mp hcm with rfl | hcm
          · exact s.keeps _ (m2 _ k1)
          · exact s.here c hcm
        · intro x hx
          exact s.keeps _ (m2 _ (m1 _ hx))
        · have := s.free
          simp only [List.length_cons] at this ⊢
          omega
        · refine ⟨hgood, ?_⟩
          rw [hout]; exact s.good
        · intro tx htx
          rcases List.mem_cons.mp htx with rfl | htx
          · simp only [List.map_cons, List.map_nil, List.sum_cons, List.sum_nil, tot_cons]; omega
          · have := s.small tx htx
            simp only [tot_cons]; omega
        · intro tx htx
          rcases List.mem_cons.mp htx with rfl | htx
          · exact ⟨rfl, rfl, rfl, rfl, rfl, by simp⟩
          · exact s.joins tx htx
        · simp only [List.map_cons, List.nodup_cons]
          refine ⟨?_, s.made_nodup⟩
          intro hmem
          obtain ⟨p, hp, hpe⟩ := List.mem_map.mp hmem
          have := s.made_range p hp
          simp only at this
          omega
        · intro p hp
          rcases List.mem_cons.mp hp with rfl | hp
          · simp only; omega
          · have := s.made_range p hp
            simp only at this
            omega
        · have hfl := s.flow
          simp only [spent_cons, List.map_cons, List.map_nil, coins_cons, List.cons_append, List.nil_append]
          refine List.Perm.cons _ (List.Perm.cons _ ?_)
          refine List.perm_middle.trans (List.Perm.trans ?_ List.perm_middle.symm)
          exact List.Perm.cons _ hfl

theorem RoundSpec.trans {E : Env K Leaf A Addr Acct} {free : A → Nat} {aid : Nat} {cs js ks : List (Coin K)}
    {st st1 st2 : St K A Addr Acct} {txs txs' : List (Tx K A Addr Acct)} {made made' : List (Nat × Nat)}
    (h : RoundSpec E free aid cs js st st1 txs made) (h' : RoundSpec E free aid js ks st1 st2 txs' made') :
    RoundSpec E free aid cs ks st st2 (txs ++ txs') (made ++ made') := by
  have hn := h.next
  have hn' := h'.next
  refine ⟨by rw [h'.posts, h.posts, List.append_assoc], by rw [List.length_append]; omega, ?_, h'.total.trans h.total, h'.here,
    fun x hx => h'.keeps x (h.keeps x hx), ?_, ?_, ?_, ?_, ?_, ?_, ?_⟩
  · rw [h'.acc, h.acc, List.flatMap_append, insertAll_append]
  · have := h.free; have := h'.free
    rw [List.length_append]; omega
  · rw [goodSeq_append]
    refine ⟨h.good, ?_⟩
    rw [← h.acc]; exact h'.good
  · intro tx htx
    rcases List.mem_append.mp htx with htx | htx
    · exact h.small tx htx
    · rw [← h.total]; exact h'.small tx htx
  · intro tx htx
    rcases List.mem_append.mp htx with htx | htx
    · exact h.joins tx htx
    · exact h'.joins tx htx
  · rw [List.map_append, List.nodup_append]
    refine ⟨h.made_nodup, h'.made_nodup, ?_⟩
    intro a ha b hb hab
    obtain ⟨p, hp, rfl⟩ := List.mem_map.mp ha
    obtain ⟨q, hq, rfl⟩ := List.mem_map.mp hb
    have := h.made_range p hp; have := h'.made_range q hq
    omega
  · intro p hp
    rcases List.mem_append.mp hp with hp | hp
    · have := h.made_range p hp; omega
    · have := h'.made_range p hp; omega
  · rw [spent_append, List.map_append, coins_append, List.append_assoc, ← List.append_assoc (coins aid cs)]
    refine (List.Perm.append_left _ h'.flow).trans ?_
    rw [← List.append_assoc]
    exact List.Perm.append_right _ h.flow

theorem RoundSpec.refl {E : Env K Leaf A Addr Acct} {free : A → Nat} {aid : Nat} {cs : List (Coin K)}
    {st : St K A Addr Acct} (hc : ∀ c ∈ cs, E.contains st.acc (E.leaf c.1 ⟨aid, c.2⟩) = true) :
    RoundSpec E free aid cs cs st st [] [] :=
  ⟨by simp, by simp, rfl, rfl, hc, fun _ h => h, by simp, trivial,
    by simp, by simp, by simp, by simp, by simp [spent, coins]⟩

theorem batch_spec {E : Env K Leaf A Addr Acct} {free : A → Nat} (hL : Laws E free) (hP : Prover E)
    (aid : Nat) (hid : aid ≠ 0 ∧ aid < E.ids) (cs : List (Coin K)) (zs : List (Coin K)) (st : St K A Addr Acct) :
    (∀ c ∈ cs, E.contains st.acc (E.leaf c.1 ⟨aid, c.2⟩) = true) → tot cs ≤ E.max →
    2 * (cs.length - 2) ≤ free st.acc →
    ∃ js zs' st' txs made, batch E aid cs zs st = (.ok (js, zs'), st') ∧ txs.length = cs.length - 2 ∧
      js.length = min cs.length 2 ∧ (cs.length ≤ 2 → zs' = zs ∧ st' = st) ∧
      RoundSpec E free aid cs js st st' txs made := by
  induction h : cs.length using Nat.strongRecOn generalizing cs zs st with
  | _ n ih =>
    subst h
    intro hc hm hf
    by_cases hl : cs.length > 2
    · obtain ⟨js, zs1, st1, txs, made, e, el, s⟩ := joinRound_spec hL hP aid hid cs st hc hm (by omega)
      have hjl := joinRound_length E aid cs st js zs1 st1 e
      have hfr := s.free
      obtain ⟨ks, zs2, st2, txs', made', e', el', kl, _, s'⟩ := ih js.length (by omega) js (zs ++ zs1) st1 rfl
        s.here (by rw [s.total]; exact hm) (by omega)
      refine ⟨ks, zs2, st2, txs ++ txs', made ++ made', ?_, ?_, by omega, by omega, s.trans s'⟩
      · rw [batch, dif_pos hl]
        split
        · rename_i x1 x2 x3 hx
          rw [e] at hx
          cases hx
          exact e'
        · rename_i x1 x2 hx
          rw [e] at hx; cases hx
        · rename_i x1 hx
          rw [e] at hx; cases hx
      · rw [List.length_append]; omega
    · refine ⟨cs, zs, st, [], [], ?_, by simp; omega, by omega, fun _ => ⟨rfl, rfl⟩, RoundSpec.refl hc⟩
      rw [batch, dif_neg hl]

/-- The coins used to fill up to two senders. -/
theorem zeroes_nodup (m : AMap K) (hm : MWF m) (n id : Nat) : (zeroes m n id).Nodup := by
  unfold zeroes
  refine List.Nodup.sublist (List.take_sublist _ _) ?_
  have hk := hm.keys
  unfold KeysNodup at hk
  have hsub : ∀ l : List (K × List Asset), ((l.filterMap fun e =>
      if e.2.any fun a => decide (a.id = id) && decide (a.value = 0) then some e.1 else none)).Sublist
      (l.map Prod.fst) := by
    intro l
    induction l with
    | nil => simp
    | cons e l ih =>
      simp only [List.filterMap_cons, List.map_cons]
      split
      · rename_i h
        exact List.Sublist.cons _ ih
      · rename_i b h
        split at h
        · simp only [Option.some.injEq] at h
          subst h
          exact List.Sublist.cons_cons _ ih
        · cases h
  exact hk.sublist (hsub m)

/-- Outcome of `prepareFinal` for at most two coins and no new zeroes (or exactly two coins): the coins, then
stored zero coins, then made-up zero coins. -/
theorem prepareFinal_spec {E : Env K Leaf A Addr Acct} (m : AMap K) (aid : Nat) (zs cs : List (Coin K))
    (st : St K A Addr Acct) (hl : cs.length ≤ 2) (hz : cs.length < 2 → zs = [])
    (hc : ∀ c ∈ cs, E.contains st.acc (E.leaf c.1 ⟨aid, c.2⟩) = true)
    (hs : ∀ k, Stored m k ⟨aid, 0⟩ → E.contains st.acc (E.leaf k ⟨aid, 0⟩) = true) :
    ∃ ks fakes, prepareFinal E m aid zs cs st =
        (.ok ((cs ++ ks.map fun k => (k, 0)).map (fun c => ⟨c.1, ⟨aid, c.2⟩, some st.acc⟩) ++
          (List.range fakes).map fun i => ⟨E.fresh (st.next + i), ⟨aid, 0⟩, none⟩),
          { st with next := st.next + fakes }) ∧
      cs.length + ks.length + fakes = 2 ∧ ks = zeroes m (2 - cs.length) aid := by
  have hzl := (c20_zeroes m (2 - cs.length) aid)
  unfold prepareFinal
  rw [upgradeAll_some hc]
  simp only [List.length_map]
  rw [if_neg (by omega)]
  by_cases h2 : 2 - cs.length = 0
  · refine ⟨[], 0, ?_, by simp; omega, by rw [h2]; simp [zeroes]⟩
    rw [if_pos h2]
    simp
  · rw [if_neg h2]
    have hzc : ∀ c ∈ (zeroes m (2 - cs.length) aid).map (fun k => ((k, 0) : Coin K)),
        E.contains st.acc (E.leaf c.1 ⟨aid, c.2⟩) = true := by
      intro c hcm
      obtain ⟨k, hk, rfl⟩ := List.mem_map.mp hcm
      exact hs k (hzl.2.1 k hk)
    rw [upgradeAll_some hzc]
    simp only
    have hzs : zs = [] := hz (by omega)
    subst hzs
    by_cases h3 : 2 - cs.length - (zeroes m (2 - cs.length) aid).length = 0
    · refine ⟨zeroes m (2 - cs.length) aid, 0, ?_, by have := hzl.1; omega, rfl⟩
      rw [if_pos h3]
      simp
    · refine ⟨zeroes m (2 - cs.length) aid, 2 - cs.length - (zeroes m (2 - cs.length) aid).length, ?_,
        by have := hzl.1; omega, rfl⟩
      rw [if_neg h3]
      simp [upgradeAll]

end Verif.Sign
