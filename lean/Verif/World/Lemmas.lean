import Verif.World.Model

/-! # Many wallets: specification of the setting, invariant -/

set_option linter.unusedSectionVars false

namespace Verif.World

open Verif.Asset Verif.Asset.AMap
open Verif.Pay (Env Sys Base AccLaws Synced Ground Balanced unspent total amount)
open Verif.Wallet (SyncData allUtxos allNulls nfc opened Ledger bal_perm)
open Verif.Sign (Receiver Owner Tx Transaction made spent Prov Prover)

variable {ι U N K Leaf A Addr Acct : Type} [DecidableEq ι] [DecidableEq N] [DecidableEq K] [DecidableEq Addr]
  [DecidableEq Acct]

/-- Coins made for wallet `j`. -/
def owned (W : World ι U N K Leaf A Addr Acct) (log : List (ι × Receiver K Addr)) (j : ι) : List (K × Asset) :=
  log.filterMap fun x => if W.target x = W.addr j then some (x.2.key, x.2.asset) else none

/-- Coins spent by wallet `j`. -/
def used (slog : List (ι × K × Asset)) (j : ι) : List (K × Asset) :=
  slog.filterMap fun x => if x.1 = j then some x.2 else none

/-- Laws of the wallets: what they rely on (C111, instantiated in C113), different addresses, random streams that do
not repeat themselves or each other where they are used. -/
structure Sound (W : World ι U N K Leaf A Addr Acct) : Prop where
  base : ∀ i, Base (W.env i)
  acc : ∀ i, AccLaws (W.env i) (W.acc0 i) (W.free i) (W.sound i) (W.capacity i) (W.width i)
  prover : ∀ i, Prover (W.env i).sign
  addrs : ∀ i j, W.addr i = W.addr j → i = j
  stream : ∀ i j n m, n < W.bound i → m < W.bound j → (W.env i).sign.fresh n = (W.env j).sign.fresh m → i = j ∧ n = m

/-- What is assumed of the coins of a history: outputs open for their owner and nobody else (C129), with the accumulator
item that the ledger has; different coins of the history have different nullifiers and items; nobody's coins of one asset
ever made add up to more than values can represent. -/
structure Honest (W : World ι U N K Leaf A Addr Acct) (st : St ι U N K Leaf A Addr Acct) : Prop where
  reads : ∀ x ∈ st.log, ∀ j, (W.env j).par.openNote (W.utxo x.1 x.2) =
    if W.target x = W.addr j then some (x.2.key, x.2.asset) else none
  leaf : ∀ x ∈ st.log, ∀ j, W.target x = W.addr j →
    (W.env j).par.spendLeaf x.2.key x.2.asset = (W.env j).par.leaf (W.utxo x.1 x.2)
  nulls : ∀ i, ∀ c ∈ owned W st.log i ++ used st.slog i, ∀ j, ∀ c' ∈ owned W st.log j ++ used st.slog j,
    nfc (W.env i).par c = nfc (W.env j).par c' → i = j ∧ c = c'
  leaves : ∀ i, ∀ c ∈ owned W st.log i, ∀ c' ∈ owned W st.log i,
    (W.env i).par.spendLeaf c.1 c.2 = (W.env i).par.spendLeaf c'.1 c'.2 → c = c'
  /-- the ledger accepts a UTXO once (C34), and the accumulator items of different UTXOs differ -/
  items : ∀ i, ((st.us W).map (W.env i).par.leaf).Nodup
  fits : ∀ i id, total (owned W st.log i) id ≤ (W.env i).sign.max

/-- Runs: any sequence of actions of any wallets. -/
inductive Run (W : World ι U N K Leaf A Addr Acct) (st0 : St ι U N K Leaf A Addr Acct) :
    List (Event ι Addr Acct) → St ι U N K Leaf A Addr Acct → Prop
  | nil : Run W st0 [] st0
  | snoc {es : List (Event ι Addr Acct)} {st st' : St ι U N K Leaf A Addr Acct} {e : Event ι Addr Acct}
      (h : Run W st0 es st) (hs : Step W st e st') (hh : Honest W st') : Run W st0 (es ++ [e]) st'

/-- What wallet `j` has according to the ledger. -/
def left (W : World ι U N K Leaf A Addr Acct) (st : St ι U N K Leaf A Addr Acct) (j : ι) (id : Nat) : Nat :=
  total (unspent (W.env j).par (st.us W) (st.ns W)) id

/-! ## Invariant -/

structure Inv (W : World ι U N K Leaf A Addr Acct) (st : St ι U N K Leaf A Addr Acct) : Prop where
  view : ∀ i, Synced (W.env i) (W.acc0 i) (W.width i) (st.seenU i) (st.seenN i) (st.sys i)
  partU : ∀ i, ∃ rest, (st.seenU i ++ rest).Perm (st.us W)
  partN : ∀ i, ∃ rest, st.seenN i ++ rest = st.ns W
  keys : ∀ i, (st.sys i).accounts = true ∧ (st.sys i).authorization = true
  drawn : ∀ x ∈ st.log, ∃ n, n < (st.sys x.1).next ∧ x.2.key = (W.env x.1).sign.fresh n
  once : (st.log.map fun x => x.2.key).Nodup
  spent : ∀ x ∈ st.slog, x.2 ∈ owned W st.log x.1 ∨
    ∃ n, n < (st.sys x.1).next ∧ x.2.1 = (W.env x.1).sign.fresh n
  bounds : ∀ i, (st.sys i).next ≤ W.bound i

variable {W : World ι U N K Leaf A Addr Acct} {st : St ι U N K Leaf A Addr Acct}

theorem mem_owned {log : List (ι × Receiver K Addr)} {j : ι} {c : K × Asset} :
    c ∈ owned W log j ↔ ∃ x ∈ log, W.target x = W.addr j ∧ (x.2.key, x.2.asset) = c := by
  unfold owned
  rw [List.mem_filterMap]
  constructor
  · rintro ⟨x, hx, e⟩
    split at e
    · rename_i h; cases e; exact ⟨x, hx, h, rfl⟩
    · cases e
  · rintro ⟨x, hx, h, rfl⟩
    exact ⟨x, hx, by rw [if_pos h]⟩

theorem mem_used {slog : List (ι × K × Asset)} {j : ι} {c : K × Asset} : c ∈ used slog j ↔ (j, c) ∈ slog := by
  unfold used
  rw [List.mem_filterMap]
  constructor
  · rintro ⟨⟨i, x⟩, hx, e⟩
    simp only at e
    split at e
    · rename_i h; cases e; rw [← h]; exact hx
    · cases e
  · intro h
    exact ⟨_, h, by simp⟩

theorem owned_append (l l' : List (ι × Receiver K Addr)) (j : ι) : owned W (l ++ l') j = owned W l j ++ owned W l' j := by
  simp [owned, List.filterMap_append]

theorem used_append (l l' : List (ι × K × Asset)) (j : ι) : used (l ++ l') j = used l j ++ used l' j := by
  simp [used, List.filterMap_append]

theorem Honest.mono {st st' : St ι U N K Leaf A Addr Acct} (h : Honest W st') {l : List (ι × Receiver K Addr)}
    {sl : List (ι × K × Asset)} (e1 : st'.log = st.log ++ l) (e2 : st'.slog = st.slog ++ sl) : Honest W st := by
  have ho : ∀ j c, c ∈ owned W st.log j → c ∈ owned W st'.log j := by
    intro j c hc
    rw [e1, owned_append]
    exact List.mem_append.mpr (.inl hc)
  have hb : ∀ j c, c ∈ owned W st.log j ++ used st.slog j → c ∈ owned W st'.log j ++ used st'.slog j := by
    intro j c hc
    rcases List.mem_append.mp hc with hc | hc
    · exact List.mem_append.mpr (.inl (ho j c hc))
    · rw [e2, used_append]
      exact List.mem_append.mpr (.inr (List.mem_append.mpr (.inl hc)))
  have hx : ∀ x ∈ st.log, x ∈ st'.log := fun x hx => by rw [e1]; exact List.mem_append.mpr (.inl hx)
  refine ⟨fun x h' => h.reads x (hx x h'), fun x h' => h.leaf x (hx x h'),
    fun i c hc j c' hc' => h.nulls i c (hb i c hc) j c' (hb j c' hc'),
    fun i c hc c' hc' => h.leaves i c (ho i c hc) c' (ho i c' hc'), fun i => ?_, ?_⟩
  · refine (h.items i).sublist (List.Sublist.map _ ?_)
    unfold St.us
    rw [e1, List.map_append]
    exact List.sublist_append_left ..
  intro i id
  refine Nat.le_trans ?_ (h.fits i id)
  rw [e1, owned_append]
  unfold total
  rw [List.map_append, bal_append]
  omega

theorem opened_us (hh : Honest W st) (j : ι) : opened (W.env j).par (st.us W) = owned W st.log j := by
  have h : ∀ l : List (ι × Receiver K Addr), (∀ x ∈ l, (W.env j).par.openNote (W.utxo x.1 x.2) =
      if W.target x = W.addr j then some (x.2.key, x.2.asset) else none) →
      opened (W.env j).par (l.map fun x => W.utxo x.1 x.2) = owned W l j := by
    intro l
    induction l with
    | nil => intro _; rfl
    | cons x l ih =>
      intro hl
      have h1 := ih fun y hy => hl y (List.mem_cons_of_mem _ hy)
      have h2 := hl x (by simp)
      unfold opened owned at h1 ⊢
      rw [List.map_cons, List.filterMap_cons, List.filterMap_cons, h1, h2]
  exact h st.log fun x hx => hh.reads x hx j

theorem owned_nodup (hi : Inv W st) (j : ι) : (owned W st.log j).Nodup := by
  have h : ∀ l : List (ι × Receiver K Addr), (l.map fun x => x.2.key).Nodup → ((owned W l j).map Prod.fst).Nodup ∧
      ∀ k ∈ (owned W l j).map Prod.fst, k ∈ l.map fun x => x.2.key := by
    intro l
    induction l with
    | nil => intro _; simp [owned]
    | cons x l ih =>
      intro hl
      rw [List.map_cons, List.nodup_cons] at hl
      obtain ⟨h1, h2⟩ := ih hl.2
      unfold owned
      rw [List.filterMap_cons]
      by_cases ht : W.target x = W.addr j
      · simp only [ht, if_true]
        refine ⟨?_, ?_⟩
        · rw [List.map_cons, List.nodup_cons]
          exact ⟨fun hk => hl.1 (h2 _ hk), h1⟩
        · intro k hk
          rw [List.map_cons, List.mem_cons] at hk
          rcases hk with rfl | hk
          · simp
          · exact List.mem_cons_of_mem _ (h2 k hk)
      · simp only [ht, if_false]
        exact ⟨h1, fun k hk => List.mem_cons_of_mem _ (h2 k hk)⟩
  have := (h st.log hi.once).1
  unfold List.Nodup at this ⊢
  rw [List.pairwise_map] at this
  exact this.imp fun hne e => hne (by rw [e])

theorem ledger_us (hi : Inv W st) (hh : Honest W st) (j : ι) : Ledger (W.env j).par (st.us W) := by
  refine ⟨?_, ?_, ?_, ?_⟩
  · intro u hu k a e
    obtain ⟨x, hx, rfl⟩ := List.mem_map.mp hu
    rw [hh.reads x hx j] at e
    split at e
    · rename_i ht; cases e; exact hh.leaf x hx j ht
    · cases e
  · rw [opened_us hh]; exact owned_nodup hi j
  · rw [opened_us hh]
    intro c hc c' hc' e
    exact (hh.nulls j c (List.mem_append.mpr (.inl hc)) j c' (List.mem_append.mpr (.inl hc')) e).2
  · rw [opened_us hh]
    exact hh.leaves j

/-- Ledger data is read in any order. -/
theorem ledger_perm {P : Verif.Wallet.Params U N K Leaf} {us us' : List U} (hp : us'.Perm us) (h : Ledger P us) :
    Ledger P us' := by
  have ho : (opened P us').Perm (opened P us) := hp.filterMap _
  exact ⟨fun u hu => h.leaf u (hp.mem_iff.mp hu), (ho.nodup_iff).mpr h.once,
    fun c hc c' hc' => h.nullifiers c (ho.mem_iff.mp hc) c' (ho.mem_iff.mp hc'),
    fun c hc c' hc' => h.leaves c (ho.mem_iff.mp hc) c' (ho.mem_iff.mp hc')⟩

theorem unspent_perm {P : Verif.Wallet.Params U N K Leaf} {us us' : List U} (hp : us'.Perm us) (ns : List N) :
    (unspent P us' ns).Perm (unspent P us ns) := (hp.filterMap _).filter _

theorem total_perm {l l' : List (K × Asset)} (h : l.Perm l') (id : Nat) : total l id = total l' id :=
  bal_perm (h.map Prod.snd) id

/-- Unspent coins without looking at UTXOs and nullifiers. -/
theorem unspent_eq (hh : Honest W st) (j : ι) : unspent (W.env j).par (st.us W) (st.ns W) =
    (owned W st.log j).filter fun c => decide (c ∉ used st.slog j) := by
  unfold unspent
  have : (st.us W).filterMap (W.env j).par.openNote = owned W st.log j := opened_us hh j
  rw [this]
  refine List.filter_congr ?_
  intro c hc
  rw [decide_eq_decide]
  refine not_congr ?_
  rw [mem_used]
  unfold St.ns
  rw [List.mem_map]
  constructor
  · rintro ⟨⟨i, c'⟩, hx, e⟩
    obtain ⟨rfl, rfl⟩ := hh.nulls i c' (List.mem_append.mpr (.inr (mem_used.mpr hx))) j c (List.mem_append.mpr (.inl hc)) e
    exact hx
  · intro h
    exact ⟨_, h, rfl⟩

/-- A wallet that reads everything is in a position to answer requests. -/
theorem Inv.ground (hW : Sound W) (hi : Inv W st) (hh : Honest W st) {i : ι} {ds : List (SyncData U N)}
    (hd : Current W st i ds) (hr : Room W st i ds) :
    Ground (W.env i) (W.acc0 i) (W.free i) (W.sound i) (W.capacity i) (W.width i) (st.seenU i) (st.seenN i) (st.sys i) ds := by
  obtain ⟨hu, hn⟩ := hd
  have ho : (opened (W.env i).par (st.seenU i ++ allUtxos ds)).Perm (owned W st.log i) := by
    rw [← opened_us hh]
    exact hu.filterMap _
  refine ⟨hW.base i, hW.acc i, hW.prover i, hi.view i, ledger_perm hu (ledger_us hi hh i),
    (hu.map _).nodup_iff.mpr (hh.items i), hr.2.2, ?_, hi.keys i, ⟨?_, ?_⟩, ?_⟩
  · intro id
    have := total_perm ho id
    unfold total at this
    rw [this]
    exact hh.fits i id
  · intro a b h1 h2 h3 h4 e
    have h5 := hr.2.1
    rw [opened_us hh, ← ho.length_eq] at h5
    exact (hW.stream i i a b (by omega) (by omega) e).2
  · rintro n h1 h2 ⟨a, ha⟩
    obtain ⟨x, hx, ht, e⟩ := mem_owned.mp (ho.mem_iff.mp ha)
    obtain ⟨m, hm, hk⟩ := hi.drawn x hx
    have h5 := hr.2.1
    rw [opened_us hh, ← ho.length_eq] at h5
    have h6 := hi.bounds x.1
    rw [Prod.mk.injEq] at e
    obtain ⟨e1, e2⟩ := hW.stream x.1 i m n (by omega) (by omega) (by rw [← hk, e.1])
    subst e1
    omega
  · have h1 := hr.1
    have h2 := (unspent_perm (P := (W.env i).par) hu (st.ns W)).length_eq
    have h3 := hu.length_eq
    have h4 : (st.us W).length = st.log.length := by unfold St.us; rw [List.length_map]
    rw [hn, h2]
    omega

end Verif.World
