import Verif.World.Lemmas

/-! # Many wallets: what an accepted request does -/

set_option linter.unusedSectionVars false

namespace Verif.World

open Verif.Asset Verif.Asset.AMap
open Verif.Pay (Env Sys Base AccLaws Synced Ground Balanced unspent total amount)
open Verif.Wallet (SyncData allUtxos allNulls nfc opened Ledger bal_perm)
open Verif.Sign (Receiver Owner Tx Transaction made spent Prov Prover)

variable {ι U N K Leaf A Addr Acct : Type} [DecidableEq ι] [DecidableEq N] [DecidableEq K] [DecidableEq Addr]
  [DecidableEq Acct]
variable {W : World ι U N K Leaf A Addr Acct} {st : St ι U N K Leaf A Addr Acct}

/-- Outputs that wallet `i` made, as they are recorded. -/
def news (i : ι) (posts : List (Tx K A Addr Acct)) : List (ι × Receiver K Addr) := (made posts).map fun r => (i, r)

theorem used_self (i : ι) (l : List (K × Asset)) : used (l.map fun c => (i, c)) i = l := by
  unfold used
  rw [List.filterMap_map]
  simp [Function.comp_def]

theorem used_other {i j : ι} (h : i ≠ j) (l : List (K × Asset)) : used (l.map fun c => (i, c)) j = [] := by
  unfold used
  rw [List.filterMap_map]
  simp [Function.comp_def, h]

/-- What is known about the posts `acc` of wallet `i`, signed in state `s1`, left in state `s2`. -/
structure Signed (W : World ι U N K Leaf A Addr Acct) (st : St ι U N K Leaf A Addr Acct) (i : ι)
    (ds : List (SyncData U N)) (s1 s2 : Sys N K Leaf A) (acc : List (Tx K A Addr Acct)) : Prop where
  synced : Synced (W.env i) (W.acc0 i) (W.width i) (st.seenU i ++ allUtxos ds) (st.seenN i ++ allNulls ds) s1
  same : s2.wallet = s1.wallet ∧ s2.signer = s1.signer ∧ s2.acc = s1.acc
  keys : s2.accounts = true ∧ s2.authorization = true
  later : (st.sys i).next ≤ s2.next
  bound : s2.next ≤ W.bound i
  prov : ∃ outs, Prov (W.env i).sign s1.signer.assets (st.sys i).next s2.next outs acc
  once : (spent acc).Nodup

theorem Signed.stored (hW : Sound W) {i : ι} {ds : List (SyncData U N)} {s1 s2 : Sys N K Leaf A}
    {acc : List (Tx K A Addr Acct)} (hd : Current W st i ds) (h : Signed W st i ds s1 s2 acc) (k : K) (a : Asset) :
    Stored s1.signer.assets k a ↔ (k, a) ∈ unspent (W.env i).par (st.us W) (st.ns W) := by
  rw [Verif.Pay.synced_stored (hW.base i) h.synced, hd.2]
  exact (unspent_perm hd.1 _).mem_iff

theorem Signed.inv (hW : Sound W) (hi : Inv W st) {i : ι} {ds : List (SyncData U N)} {s1 s2 : Sys N K Leaf A}
    {acc : List (Tx K A Addr Acct)} (hd : Current W st i ds) (h : Signed W st i ds s1 s2 acc) (hh : Honest W st) :
    Inv W ((st.view i ds s2).accept W i acc) := by
  obtain ⟨outs, hp⟩ := h.prov
  have hnext : ∀ j, (st.sys j).next ≤ ((st.view i ds s2).sys j).next := by
    intro j
    simp only [St.view]
    split
    · rename_i e; subst e; exact h.later
    · exact Nat.le_refl _
  have hnewkey : ∀ r ∈ made acc, ∃ n, (st.sys i).next ≤ n ∧ n < s2.next ∧ r.key = (W.env i).sign.fresh n := by
    intro r hr
    have : r.key ∈ (made acc).map Receiver.key := List.mem_map.mpr ⟨r, hr, rfl⟩
    rw [hp.keys] at this
    obtain ⟨n, hn, e⟩ := List.mem_map.mp this
    exact ⟨n, (hp.range n hn).1, (hp.range n hn).2, e.symm⟩
  refine ⟨?_, ?_, ?_, ?_, ?_, ?_, ?_, ?_⟩
  · intro j
    simp only [St.accept, St.view]
    by_cases e : j = i
    · subst e
      simp only [if_true]
      obtain ⟨e1, e2, e3⟩ := h.same
      refine ⟨?_, ?_⟩
      · rw [e1, e2]; exact h.synced.core
      · rw [e2, e3]; exact h.synced.acc
    · simp only [e, if_false]
      exact hi.view j
  · intro j
    have hus : ((st.view i ds s2).accept W i acc).us W = st.us W ++ (news i acc).map fun x => W.utxo x.1 x.2 := by
      simp [St.us, St.accept, St.view, news]
    rw [hus]
    simp only [St.accept, St.view]
    by_cases e : j = i
    · subst e
      simp only [if_true]
      exact ⟨_, hd.1.append_right _⟩
    · simp only [e, if_false]
      obtain ⟨rest, hrest⟩ := hi.partU j
      exact ⟨rest ++ (news i acc).map fun x => W.utxo x.1 x.2, by
        rw [← List.append_assoc]; exact hrest.append_right _⟩
  · intro j
    have hns : ((st.view i ds s2).accept W i acc).ns W = st.ns W ++ (spent acc).map (nfc (W.env i).par) := by
      simp [St.ns, St.accept, St.view, Function.comp_def]
    rw [hns]
    simp only [St.accept, St.view]
    by_cases e : j = i
    · subst e
      simp only [if_true]
      exact ⟨_, by rw [hd.2]⟩
    · simp only [e, if_false]
      obtain ⟨rest, hrest⟩ := hi.partN j
      exact ⟨rest ++ (spent acc).map (nfc (W.env i).par), by rw [← List.append_assoc, hrest]⟩
  · intro j
    simp only [St.accept, St.view]
    split
    · exact h.keys
    · exact hi.keys j
  · intro x hx
    simp only [St.accept] at hx ⊢
    rcases List.mem_append.mp hx with hx | hx
    · obtain ⟨n, h1, h2⟩ := hi.drawn x hx
      exact ⟨n, Nat.lt_of_lt_of_le h1 (hnext x.1), h2⟩
    · obtain ⟨r, hr, rfl⟩ := List.mem_map.mp hx
      obtain ⟨n, _, h2, h3⟩ := hnewkey r hr
      exact ⟨n, by simpa [St.view] using h2, h3⟩
  · simp only [St.accept, St.view, List.map_append, List.map_map, Function.comp_def]
    rw [List.nodup_append]
    refine ⟨hi.once, ?_, ?_⟩
    · show ((made acc).map Receiver.key).Nodup
      rw [hp.keys]
      unfold List.Nodup
      rw [List.pairwise_map]
      have := hp.once
      refine List.Pairwise.imp_of_mem ?_ this
      intro a b ha hb hne e
      have h1 := hp.range a ha
      have h2 := hp.range b hb
      have h3 := h.bound
      exact hne (hW.stream i i a b (by omega) (by omega) e).2
    · intro k hk k' hk' e
      obtain ⟨x, hx, rfl⟩ := List.mem_map.mp hk
      obtain ⟨r, hr, rfl⟩ := List.mem_map.mp hk'
      obtain ⟨n, h1, h2, h3⟩ := hnewkey r hr
      obtain ⟨m, h4, h5⟩ := hi.drawn x hx
      have h6 := hi.bounds x.1
      have h7 := h.bound
      obtain ⟨e1, e2⟩ := hW.stream x.1 i m n (by omega) (by omega) (by rw [← h5, ← h3, e])
      rw [e1] at h4
      omega
  · intro x hx
    simp only [St.accept, St.view] at hx ⊢
    rw [owned_append]
    rcases List.mem_append.mp hx with hx | hx
    · rcases hi.spent x hx with h' | ⟨n, h1, h2⟩
      · exact .inl (List.mem_append.mpr (.inl h'))
      · exact .inr ⟨n, Nat.lt_of_lt_of_le h1 (hnext x.1), h2⟩
    · obtain ⟨c, hc, rfl⟩ := List.mem_map.mp hx
      simp only [if_true]
      rcases hp.inputs c hc with (h' | h') | ⟨_, n, _, h2, _, h3⟩
      · refine .inl (List.mem_append.mpr (.inl ?_))
        have := (h.stored hW hd _ _).mp h'
        rw [← opened_us hh]
        exact (Verif.Pay.mem_unspent.mp this).1
      · refine .inl (List.mem_append.mpr (.inr (mem_owned.mpr ⟨_, List.mem_map.mpr ⟨_, h', rfl⟩, rfl, rfl⟩)))
      · exact .inr ⟨n, h2, h3⟩
  · intro j
    simp only [St.accept, St.view]
    split
    · rename_i e; subst e; exact h.bound
    · exact hi.bounds j

/-- What every wallet has after the ledger has accepted posts. -/
theorem Signed.settle (hW : Sound W) (hi : Inv W st) {i : ι} {ds : List (SyncData U N)} {s1 s2 : Sys N K Leaf A}
    {acc : List (Tx K A Addr Acct)} (hd : Current W st i ds) (h : Signed W st i ds s1 s2 acc)
    (hh' : Honest W ((st.view i ds s2).accept W i acc)) (j : ι) (id : Nat) :
    left W ((st.view i ds s2).accept W i acc) j id + (if j = i then total (spent acc) id else 0) =
      left W st j id + total (owned W (news i acc) j) id := by
  have hh : Honest W st := hh'.mono (st := st) rfl rfl
  have hi' := h.inv hW hi hd hh
  obtain ⟨outs, hp⟩ := h.prov
  unfold left
  rw [unspent_eq hh', unspent_eq hh]
  have e1 : ((st.view i ds s2).accept W i acc).log = st.log ++ news i acc := rfl
  have e2 : ((st.view i ds s2).accept W i acc).slog = st.slog ++ (spent acc).map fun c => (i, c) := rfl
  have hnd := owned_nodup hi' j
  have honce := hi'.once
  rw [e1] at hnd honce ⊢
  rw [e2]
  rw [owned_append] at hnd ⊢
  rw [used_append]
  have hnew : ∀ c ∈ owned W (news i acc) j, c ∉ used st.slog j := by
    intro c hc hu
    obtain ⟨x, hx, _, rfl⟩ := mem_owned.mp hc
    obtain ⟨r, hr, rfl⟩ := List.mem_map.mp hx
    have hk : r.key ∈ (made acc).map Receiver.key := List.mem_map.mpr ⟨r, hr, rfl⟩
    rcases hi.spent _ (mem_used.mp hu) with h' | ⟨m, h1, h2⟩
    · obtain ⟨y, hy, _, e⟩ := mem_owned.mp h'
      rw [List.map_append, List.nodup_append] at honce
      refine honce.2.2 y.2.key (List.mem_map.mpr ⟨y, hy, rfl⟩) r.key (List.mem_map.mpr ⟨(i, r), hx, rfl⟩) ?_
      exact (Prod.mk.injEq _ _ _ _ ▸ e).1
    · rw [hp.keys] at hk
      obtain ⟨n, hn, e⟩ := List.mem_map.mp hk
      have h3 := hp.range n hn
      have h4 := h.bound
      have h5 := hi.bounds j
      simp only at h1 h2
      obtain ⟨e1, e2⟩ := hW.stream j i m n (by omega) (by omega) (by rw [e, ← h2])
      rw [e1] at h1
      omega
  have hfil : ∀ S' : List (K × Asset), (owned W st.log j ++ owned W (news i acc) j).filter
        (fun c => decide (c ∉ used st.slog j ++ S')) =
      ((owned W st.log j).filter (fun c => decide (c ∉ used st.slog j)) ++ owned W (news i acc) j).filter
        (fun c => decide (c ∉ S')) := by
    intro S'
    rw [List.filter_append, List.filter_append, List.filter_filter]
    congr 1
    · refine List.filter_congr fun c _ => ?_
      simp [Bool.and_comm]
    · refine List.filter_congr fun c hc => ?_
      have := hnew c hc
      simp [this]
  rw [hfil]
  have hC : ((owned W st.log j).filter (fun c => decide (c ∉ used st.slog j)) ++ owned W (news i acc) j).Nodup :=
    hnd.sublist (List.Sublist.append List.filter_sublist (List.Sublist.refl _))
  have key := Verif.Pay.total_minus _ (used ((spent acc).map fun c => (i, c)) j) hC (by
    by_cases e : j = i
    · subst e; rw [used_self]; exact h.once
    · rw [used_other fun e' => e e'.symm]; exact List.nodup_nil) (by
    intro c hc h0
    by_cases e : j = i
    · subst e
      rw [used_self] at hc
      rcases hp.inputs c hc with (h' | h') | ⟨h', _⟩
      · refine List.mem_append.mpr (.inl ?_)
        rw [← unspent_eq hh]
        exact (h.stored hW hd _ _).mp h'
      · exact List.mem_append.mpr (.inr (mem_owned.mpr ⟨_, List.mem_map.mpr ⟨_, h', rfl⟩, rfl, rfl⟩))
      · exact absurd h' h0
    · rw [used_other fun e' => e e'.symm] at hc
      cases hc) id
  have hu : total (used ((spent acc).map fun c => (i, c)) j) id = if j = i then total (spent acc) id else 0 := by
    by_cases e : j = i
    · subst e; rw [used_self, if_pos rfl]
    · rw [used_other fun e' => e e'.symm, if_neg e]; rfl
  rw [hu] at key
  rw [key]
  unfold total
  rw [List.map_append, bal_append]

end Verif.World
