import Verif.Pay.Props

/-!
# C128: no identifier is drawn twice

The identifiers of new coins and of dummy senders are drawn from the random stream of the signer. Over all requests of a
wallet, successful or not, every position of the stream is used at most once.
-/

namespace Verif.Sign

open Verif.Asset

variable {K Leaf A Addr Acct : Type}

/-! ## Specification -/

/-- Identifiers that were drawn for a transfer: those of senders that spend nothing, then those of the new coins. -/
def drawn (tx : Tx K A Addr Acct) : List K :=
  (tx.senders.filter fun s => s.proof.isNone).map Sender.key ++ tx.receivers.map Receiver.key

/-- The identifiers drawn for the transfers come from positions of the stream between `n` and `n'`, each used once and in
order. -/
def Drawn (fresh : Nat → K) (n n' : Nat) (txs : List (Tx K A Addr Acct)) : Prop :=
  n ≤ n' ∧ ∃ is : List Nat, is.Pairwise (· < ·) ∧ (∀ i ∈ is, n ≤ i ∧ i < n') ∧ txs.flatMap drawn = is.map fresh

/-! ## Proofs -/

theorem Drawn.nil {fresh : Nat → K} {n n' : Nat} (h : n ≤ n') : Drawn fresh n n' ([] : List (Tx K A Addr Acct)) :=
  ⟨h, [], .nil, by simp, rfl⟩

theorem Drawn.append {fresh : Nat → K} {n m n' : Nat} {l l' : List (Tx K A Addr Acct)} (h : Drawn fresh n m l)
    (h' : Drawn fresh m n' l') : Drawn fresh n n' (l ++ l') := by
  obtain ⟨h1, is, h2, h3, h4⟩ := h
  obtain ⟨h1', is', h2', h3', h4'⟩ := h'
  refine ⟨by omega, is ++ is', ?_, ?_, by rw [List.flatMap_append, h4, h4', List.map_append]⟩
  · rw [List.pairwise_append]
    refine ⟨h2, h2', fun a ha b hb => ?_⟩
    have := h3 a ha
    have := h3' b hb
    omega
  · intro i hi
    rcases List.mem_append.1 hi with hi | hi
    · have := h3 i hi; omega
    · have := h3' i hi; omega

theorem Drawn.weaken {fresh : Nat → K} {n m m' : Nat} {l : List (Tx K A Addr Acct)} (h : Drawn fresh n m l) (hm : m ≤ m') :
    Drawn fresh n m' l := by
  have := h.append (Drawn.nil (A := A) (Addr := Addr) (Acct := Acct) hm)
  rwa [List.append_nil] at this

/-- A transfer for which `c` identifiers were drawn. -/
theorem Drawn.one {fresh : Nat → K} {n c : Nat} {tx : Tx K A Addr Acct} (h : drawn tx = (List.range' n c).map fresh) :
    Drawn fresh n (n + c) [tx] := by
  refine ⟨by omega, List.range' n c, List.pairwise_lt_range', ?_, by simpa using h⟩
  intro i hi
  rw [List.mem_range'_1] at hi
  exact hi

variable (E : Env K Leaf A Addr Acct)

theorem upgrade_proof {acc : A} {aid : Nat} {c : Coin K} {s : Sender K A} (h : upgrade E acc aid c = some s) :
    s.proof.isNone = false := by
  unfold upgrade at h
  split at h
  · cases h; rfl
  · cases h

theorem upgradeAll_proof {acc : A} {aid : Nat} : ∀ {cs : List (Coin K)} {ss : List (Sender K A)},
    upgradeAll E acc aid cs = some ss → ss.filter (fun s => s.proof.isNone) = []
  | [], ss, h => by cases h; rfl
  | c :: cs, ss, h => by
    unfold upgradeAll at h
    split at h
    · rename_i s ss' h1 h2
      cases h
      rw [List.filter_cons_of_neg (by rw [upgrade_proof E h1]; simp)]
      exact upgradeAll_proof h2
    · cases h

/-- What a step of signing does to the stream. -/
def Steps (st st' : St K A Addr Acct) : Prop := ∃ l, st'.posts = st.posts ++ l ∧ Drawn E.fresh st.next st'.next l

theorem Steps.refl (st : St K A Addr Acct) : Steps E st st := ⟨[], by simp, .nil (Nat.le_refl _)⟩

variable {E}

theorem Steps.trans {a b c : St K A Addr Acct} (h : Steps E a b) (h' : Steps E b c) : Steps E a c := by
  obtain ⟨l, h1, h2⟩ := h
  obtain ⟨l', h1', h2'⟩ := h'
  exact ⟨l ++ l', by rw [h1', h1, List.append_assoc], h2.append h2'⟩

variable (E)

theorem joinRound_steps (aid : Nat) (cs : List (Coin K)) (st : St K A Addr Acct) : Steps E st (joinRound E aid cs st).2 := by
  fun_induction joinRound E aid cs st with
  | case1 => exact .refl E _
  | case2 st a b rest sa sb h1 h2 total hm k z tx hp acc1 acc2 js zs st' hr ih =>
    rw [hr] at ih
    refine Steps.trans ⟨[tx], rfl, ?_⟩ ih
    refine Drawn.one (c := 2) ?_
    simp [drawn, tx, upgrade_proof E h1, upgrade_proof E h2, List.range'_succ, k, z]
  | case3 st a b rest sa sb h1 h2 total hm k z tx hp acc1 acc2 hne ih =>
    refine Steps.trans ⟨[tx], rfl, ?_⟩ ih
    refine Drawn.one (c := 2) ?_
    simp [drawn, tx, upgrade_proof E h1, upgrade_proof E h2, List.range'_succ, k, z]
  | case4 => exact ⟨[], by simp, .nil (by simp)⟩
  | case5 => exact .refl E _
  | case6 => exact .refl E _

theorem batch_steps (aid : Nat) (cs zs : List (Coin K)) (st : St K A Addr Acct) : Steps E st (batch E aid cs zs st).2 := by
  fun_induction batch E aid cs zs st with
  | case1 cs zs st h js zs' st' hr ih =>
    have := joinRound_steps E aid cs st
    rw [hr] at this
    exact this.trans ih
  | case2 cs zs st h e st' hr =>
    have := joinRound_steps E aid cs st
    rwa [hr] at this
  | case3 cs zs st h st' hr =>
    have := joinRound_steps E aid cs st
    rwa [hr] at this
  | case4 => exact .refl E _

/-- Dummy senders are drawn in order; nothing is posted. -/
theorem prepareFinal_steps (m : AMap K) (aid : Nat) (zs cs : List (Coin K)) (st : St K A Addr Acct) :
    (prepareFinal E m aid zs cs st).2.posts = st.posts ∧ st.next ≤ (prepareFinal E m aid zs cs st).2.next ∧
    ∀ ss, (prepareFinal E m aid zs cs st).1 = .ok ss →
      (ss.filter fun s => s.proof.isNone).map Sender.key =
        (List.range' st.next ((prepareFinal E m aid zs cs st).2.next - st.next)).map E.fresh := by
  unfold prepareFinal
  split
  · exact ⟨rfl, Nat.le_refl _, fun ss h => by cases h⟩
  · rename_i senders hs
    have h1 := upgradeAll_proof E hs
    split
    · exact ⟨rfl, Nat.le_refl _, fun ss h => by cases h⟩
    · dsimp only
      split
      · exact ⟨rfl, Nat.le_refl _, fun ss h => by cases h; simp [h1]⟩
      · split
        · exact ⟨rfl, Nat.le_refl _, fun ss h => by cases h⟩
        · rename_i zsenders hz
          have h2 := upgradeAll_proof E hz
          split
          · exact ⟨rfl, Nat.le_refl _, fun ss h => by cases h; simp [h1, h2]⟩
          · split
            · exact ⟨rfl, Nat.le_refl _, fun ss h => by cases h⟩
            · rename_i nsenders hn
              have h3 := upgradeAll_proof E hn
              refine ⟨rfl, by simp, fun ss h => ?_⟩
              cases h
              simp only [List.filter_append, h1, h2, h3, List.nil_append, Nat.add_sub_cancel_left]
              rw [List.filter_eq_self.2 (by simp), List.map_map, List.range'_eq_map_range, List.map_map]
              rfl

theorem buildPost_steps {tx : Tx K A Addr Acct} {st : St K A Addr Acct} {c : Nat}
    (h : drawn tx = (List.range' st.next c).map E.fresh) :
    Steps E st (buildPost E tx { st with next := st.next + c }).2 := by
  unfold buildPost
  split
  · exact ⟨[tx], rfl, .one h⟩
  · exact ⟨[], by simp, .nil (by simp)⟩

/-- A post with dummy senders drawn since `st`. -/
theorem buildPost_steps' {tx : Tx K A Addr Acct} {st st1 : St K A Addr Acct} {c : Nat} (hp : st1.posts = st.posts)
    (hn : st.next ≤ st1.next) (h1 : (tx.senders.filter fun s => s.proof.isNone).map Sender.key =
      (List.range' st.next (st1.next - st.next)).map E.fresh)
    (h2 : tx.receivers.map Receiver.key = (List.range' st1.next c).map E.fresh) :
    Steps E st (buildPost E tx { st1 with next := st1.next + c }).2 := by
  have h : drawn tx = (List.range' st.next (st1.next - st.next + c)).map E.fresh := by
    unfold drawn
    rw [h1, h2, ← List.map_append, ← List.range'_append_1, show st.next + (st1.next - st.next) = st1.next by omega]
  have := Drawn.one h
  rw [show st.next + (st1.next - st.next + c) = st1.next + c by omega] at this
  unfold buildPost
  split
  · exact ⟨[tx], by simp [hp], this⟩
  · exact ⟨[], by simp [hp], .nil this.1⟩

theorem Steps.skip {st st' : St K A Addr Acct} (hp : st'.posts = st.posts) (hn : st.next ≤ st'.next) : Steps E st st' :=
  ⟨[], by simp [hp], .nil hn⟩

theorem signPrivate_steps (m : AMap K) (asset : Asset) (addr : Owner Addr) (change : Nat) (cs : List (Coin K))
    (st : St K A Addr Acct) : Steps E st (signPrivate E m asset addr change cs st).2 := by
  have hb := batch_steps E asset.id cs [] st
  unfold signPrivate
  split
  · rename_i e; rwa [e] at hb
  · rename_i e; rwa [e] at hb
  · rename_i cs' zs st1 e
    rw [e] at hb
    refine hb.trans ?_
    obtain ⟨h1, h2, h3⟩ := prepareFinal_steps E m asset.id zs cs' st1
    split
    · rename_i e; rw [e] at h1 h2; exact .skip E h1 h2
    · rename_i e; rw [e] at h1 h2; exact .skip E h1 h2
    · rename_i senders st2 e
      rw [e] at h1 h2 h3
      split
      · exact .skip E h1 h2
      · exact buildPost_steps' E h1 h2 (h3 _ rfl) (by simp [List.range'_succ])

theorem processToPublic_steps (aid : Nat) (senders : List (Sender K A)) (accts : List Acct) (change : Nat)
    (st st1 : St K A Addr Acct) (hp : st1.posts = st.posts)
    (hn : st.next ≤ st1.next) (h1 : (senders.filter fun s => s.proof.isNone).map Sender.key =
      (List.range' st.next (st1.next - st.next)).map E.fresh) :
    Steps E st (processToPublic E aid senders accts change st1).2 := by
  unfold processToPublic
  split
  · exact .skip E hp hn
  · dsimp only
    split
    · exact .skip E hp hn
    · have := fun v w => buildPost_steps' E (tx := ⟨[], senders, [⟨E.fresh st1.next, ⟨aid, v⟩, .self⟩], [⟨aid, w⟩], accts⟩)
        (c := 1) hp hn h1 (by simp [List.range'_succ])
      split <;> rename_i e <;> rw [← Prod.eta (buildPost _ _ _), Prod.mk.injEq] at e <;> rw [← e.2] <;> exact this _ _

theorem signToPublic_steps (m : AMap K) (aid : Nat) (accts : List Acct) (cs : List (Coin K)) (change : Nat)
    (st : St K A Addr Acct) : Steps E st (signToPublic E m aid accts cs change st).2 := by
  fun_induction signToPublic E m aid accts cs change st with
  | case1 => exact .refl E _
  | case2 c change st e st1 h =>
    obtain ⟨h1, h2, _⟩ := prepareFinal_steps E m aid [] [c] st
    rw [h] at h1 h2; exact .skip E h1 h2
  | case3 c change st st1 h =>
    obtain ⟨h1, h2, _⟩ := prepareFinal_steps E m aid [] [c] st
    rw [h] at h1 h2; exact .skip E h1 h2
  | case4 c change st senders st1 h _ st2 h' =>
    obtain ⟨h1, h2, h3⟩ := prepareFinal_steps E m aid [] [c] st
    rw [h] at h1 h2 h3
    have := processToPublic_steps E aid senders accts change st st1 h1 h2 (h3 _ rfl)
    rwa [h'] at this
  | case5 c change st senders st1 h _ st2 h' =>
    obtain ⟨h1, h2, h3⟩ := prepareFinal_steps E m aid [] [c] st
    rw [h] at h1 h2 h3
    have := processToPublic_steps E aid senders accts change st st1 h1 h2 (h3 _ rfl)
    rwa [h'] at this
  | case6 c change st senders st1 h st2 h' =>
    obtain ⟨h1, h2, h3⟩ := prepareFinal_steps E m aid [] [c] st
    rw [h] at h1 h2 h3
    have := processToPublic_steps E aid senders accts change st st1 h1 h2 (h3 _ rfl)
    rwa [h'] at this
  | case7 => exact .refl E _
  | case8 a b rest change st senders h change' st1 h' ih =>
    have := processToPublic_steps E aid senders accts change st st rfl (Nat.le_refl _) (by simp [upgradeAll_proof E h])
    rw [h'] at this
    exact this.trans ih
  | case9 a b rest change st senders h e st1 h' =>
    have := processToPublic_steps E aid senders accts change st st rfl (Nat.le_refl _) (by simp [upgradeAll_proof E h])
    rwa [h'] at this
  | case10 a b rest change st senders h st1 h' =>
    have := processToPublic_steps E aid senders accts change st st rfl (Nat.le_refl _) (by simp [upgradeAll_proof E h])
    rwa [h'] at this

theorem signInternal_steps (g : Signer K A) (t : Transaction Addr Acct) : Steps E ⟨g.acc, [], g.next⟩ (signInternal E g t).2 := by
  unfold signInternal
  dsimp only
  split
  · split
    · exact buildPost_steps E (st := ⟨g.acc, [], g.next⟩) (c := 1) (by simp [drawn, List.range'_succ])
    · exact .refl E _
  · split
    · split
      · exact signPrivate_steps E _ _ _ _ _ _
      · exact .refl E _
      · exact .refl E _
    · exact .refl E _
  · split
    · split
      · exact signToPublic_steps E _ _ _ _ _ _
      · exact .refl E _
      · exact .refl E _
    · exact .refl E _

/-- Transfers that a request hands out. -/
def handed {α : Type} (r : Res (List α)) : List α :=
  match r with
  | .ok txs => txs
  | _ => []

theorem finish_drawn (g : Signer K A) (r : Res Unit × St K A Addr Acct) (h : Steps E ⟨g.acc, [], g.next⟩ r.2) :
    Drawn E.fresh g.next (finish E g r).2.next (handed (finish E g r).1) := by
  obtain ⟨l, h1, h2⟩ := h
  simp only [List.nil_append] at h1
  unfold finish
  split <;> simp only [handed] at * <;> first
    | (rw [h1]; exact h2)
    | exact .nil h2.1

/-- C128 for a signing request, whatever its outcome. -/
theorem c128_sign (g : Signer K A) (t : Transaction Addr Acct) :
    Drawn E.fresh g.next (sign E g t).2.next (handed (sign E g t).1) :=
  finish_drawn E g _ (signInternal_steps E g t)

/-- C128 for a consolidation. -/
theorem c128_consolidate [DecidableEq K] (g : Signer K A) (req : List (K × Asset)) :
    Drawn E.fresh g.next (consolidate E g req).2.next (handed (consolidate E g req).1) := by
  refine finish_drawn E g _ ?_
  dsimp only
  split
  · split
    · exact .refl E _
    · split
      · split
        · exact .refl E _
        · split
          · exact signPrivate_steps E _ _ _ _ _ _
          · exact .refl E _
      · exact .refl E _
  · exact .refl E _

end Verif.Sign

namespace Verif.Pay

open Verif.Asset
open Verif.Wallet (SyncData)
open Verif.Sign (Drawn drawn)

variable {U N K Leaf A Addr Acct : Type} [DecidableEq N] [DecidableEq K]

/-- What is done with a wallet. After a restart the signer draws from new entropy
(wallet/signer/mod.rs:1297-1302), which is represented by positions of the stream that were not reached before. -/
inductive Op (U N K Addr Acct : Type) where
  | sync (reads : List (SyncData U N))
  | sign (t : Verif.Sign.Transaction Addr Acct)
  | consolidate (req : List (K × Asset))
  | post (reads : List (SyncData U N)) (t : Verif.Sign.Transaction Addr Acct)
  | postConsolidation (reads : List (SyncData U N)) (req : List (K × Asset))
  | restart (skip : Nat)

/-- Transfers in an outcome. -/
def Out.handed {α : Type} : Out (List α) → List α
  | .ok txs => txs
  | _ => []

/-- One use of the wallet; with the transfers handed out. -/
def act (E : Env U N K Leaf A Addr Acct) (s : Sys N K Leaf A) : Op U N K Addr Acct → List (Verif.Sign.Tx K A Addr Acct) × Sys N K Leaf A
  | .sync reads => ([], (syncAll E s reads).2)
  | .sign t => ((sign E s t).1.handed, (sign E s t).2)
  | .consolidate req => ((consolidate E s req).1.handed, (consolidate E s req).2)
  | .post reads t => ((post E s reads t).1.handed, (post E s reads t).2)
  | .postConsolidation reads req => ((postConsolidation E s reads req).1.handed, (postConsolidation E s reads req).2)
  | .restart skip => ([], { s with next := s.next + skip })

/-- Any number of uses. -/
def acts (E : Env U N K Leaf A Addr Acct) (s : Sys N K Leaf A) : List (Op U N K Addr Acct) → List (Verif.Sign.Tx K A Addr Acct) × Sys N K Leaf A
  | [] => ([], s)
  | o :: os => ((act E s o).1 ++ (acts E (act E s o).2 os).1, (acts E (act E s o).2 os).2)

omit [DecidableEq N] [DecidableEq K] in
theorem answer_drawn (E : Env U N K Leaf A Addr Acct) (s : Sys N K Leaf A) (n : Nat)
    (r : Verif.Sign.Res (List (Verif.Sign.Tx K A Addr Acct)) × Verif.Sign.Signer K A)
    (h : Drawn E.sign.fresh n r.2.next (Verif.Sign.handed r.1)) :
    Drawn E.sign.fresh n (answer E s r).2.next (answer E s r).1.handed := by
  unfold answer
  split <;> exact h

omit [DecidableEq N] [DecidableEq K] in
theorem sign_drawn (E : Env U N K Leaf A Addr Acct) (s : Sys N K Leaf A) (t : Verif.Sign.Transaction Addr Acct) :
    Drawn E.sign.fresh s.next (sign E s t).2.next (sign E s t).1.handed := by
  unfold sign
  split
  · exact .nil (Nat.le_refl _)
  · exact answer_drawn E s _ _ (Verif.Sign.c128_sign E.sign s.signing t)

omit [DecidableEq N] in
theorem consolidate_drawn (E : Env U N K Leaf A Addr Acct) (s : Sys N K Leaf A) (req : List (K × Asset)) :
    Drawn E.sign.fresh s.next (consolidate E s req).2.next (consolidate E s req).1.handed :=
  answer_drawn E s _ _ (Verif.Sign.c128_consolidate E.sign s.signing req)

theorem act_drawn (E : Env U N K Leaf A Addr Acct) (s : Sys N K Leaf A) (o : Op U N K Addr Acct) :
    Drawn E.sign.fresh s.next (act E s o).2.next (act E s o).1 := by
  cases o with
  | sync reads =>
    refine .nil (Nat.le_of_eq ?_)
    exact (syncAll_next E reads s).symm
  | sign t => exact sign_drawn E s t
  | consolidate req => exact consolidate_drawn E s req
  | post reads t =>
    have := syncAll_next E reads s
    simp only [act, post]
    split
    · rename_i e
      rw [e] at this
      rw [← this]
      exact sign_drawn E _ t
    · rename_i e; rw [e] at this; exact .nil (Nat.le_of_eq this.symm)
    · rename_i e; rw [e] at this; exact .nil (Nat.le_of_eq this.symm)
  | postConsolidation reads req =>
    have := syncAll_next E reads s
    simp only [act, postConsolidation]
    split
    · rename_i e
      rw [e] at this
      rw [← this]
      exact consolidate_drawn E _ req
    · rename_i e; rw [e] at this; exact .nil (Nat.le_of_eq this.symm)
    · rename_i e; rw [e] at this; exact .nil (Nat.le_of_eq this.symm)
  | restart skip => exact .nil (by simp [act])

/-- **C128.** Whatever is done with a wallet, with whatever outcomes: no position of the random stream is used for two
identifiers of what it hands out. -/
theorem c128_once (E : Env U N K Leaf A Addr Acct) (s : Sys N K Leaf A) (os : List (Op U N K Addr Acct)) :
    Drawn E.sign.fresh s.next (acts E s os).2.next (acts E s os).1 := by
  induction os generalizing s with
  | nil => exact .nil (Nat.le_refl _)
  | cons o os ih => exact (act_drawn E s o).append (ih _)

/-- **C128, distinct coins.** If the stream does not repeat itself, no two new coins or dummy senders in all that a wallet ever
hands out have the same identifier. -/
theorem c128_distinct (E : Env U N K Leaf A Addr Acct) (hf : ∀ i j, E.sign.fresh i = E.sign.fresh j → i = j)
    (s : Sys N K Leaf A) (os : List (Op U N K Addr Acct)) : ((acts E s os).1.flatMap drawn).Nodup := by
  obtain ⟨_, is, h1, _, h3⟩ := c128_once E s os
  rw [h3]
  unfold List.Nodup
  rw [List.pairwise_map]
  refine h1.imp fun {a b} hab e => ?_
  have := hf a b e
  omega

end Verif.Pay
