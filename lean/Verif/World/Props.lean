import Verif.World.Book

/-! # C131: many wallets keep one account book -/

set_option linter.unusedSectionVars false

namespace Verif.World

open Verif.Asset Verif.Asset.AMap
open Verif.Pay (Env Sys Base AccLaws Synced Ground Balanced unspent total amount)
open Verif.Wallet (SyncData allUtxos allNulls nfc opened Ledger bal_perm)
open Verif.Sign (Receiver Owner Tx Transaction made spent Prov Prover)

variable {ι U N K Leaf A Addr Acct : Type} [DecidableEq ι] [DecidableEq N] [DecidableEq K] [DecidableEq Addr]
  [DecidableEq Acct]
variable {W : World ι U N K Leaf A Addr Acct} {st st' : St ι U N K Leaf A Addr Acct}

/-- The book that ledger and accounts amount to. -/
def book (W : World ι U N K Leaf A Addr Acct) (st : St ι U N K Leaf A Addr Acct) : Book ι Acct := ⟨left W st, st.funds⟩

/-! ## Steps -/

theorem book_eq {W : World ι U N K Leaf A Addr Acct} {st : St ι U N K Leaf A Addr Acct} {b : Book ι Acct}
    (h1 : ∀ j id, left W st j id = b.priv j id) (h2 : ∀ p id, st.funds p id = b.pub p id) : book W st = b := by
  obtain ⟨b1, b2⟩ := b
  unfold book
  congr 1
  · funext j id; exact h1 j id
  · funext p id; exact h2 p id

theorem sub_ledger {P : Verif.Wallet.Params U N K Leaf} {us v rest : List U} (hp : (v ++ rest).Perm us)
    (h : Ledger P us) : Ledger P v := Verif.Wallet.ledger_prefix (ledger_perm hp h)

theorem Inv.fits_sub (hh : Honest W st) {i : ι} {v rest : List U} (hp : (v ++ rest).Perm (st.us W)) (id : Nat) :
    bal ((opened (W.env i).par v).map Prod.snd) id ≤ (W.env i).sign.max := by
  have h1 := hh.fits i id
  rw [← opened_us hh] at h1
  unfold opened at h1
  rw [← total_perm (hp.filterMap (W.env i).par.openNote) id] at h1
  unfold total at h1
  rw [List.filterMap_append, List.map_append, bal_append] at h1
  unfold opened
  omega

theorem read_inv (hi : Inv W st) (hh : Honest W st) (i : ι) (ds : List (SyncData U N)) (restU : List U)
    (restN : List N) (hu : (st.seenU i ++ allUtxos ds ++ restU).Perm (st.us W))
    (hn : st.seenN i ++ allNulls ds ++ restN = st.ns W) :
    ∃ s', Verif.Pay.syncAll (W.env i) (st.sys i) ds = (.ok, s') ∧ Inv W (st.view i ds s') := by
  obtain ⟨s', e1, e2, e3, e4, e5⟩ := Verif.Pay.synced_all (W.env i) ds _ _ _ (hi.view i)
    (sub_ledger hu (ledger_us hi hh i)) (fun id => Inv.fits_sub hh hu id)
  have hnext : ∀ j, ((st.view i ds s').sys j).next = (st.sys j).next := by
    intro j
    simp only [St.view]
    split
    · rename_i e; subst e; exact e5
    · rfl
  refine ⟨s', e1, ?_, ?_, ?_, ?_, ?_, hi.once, ?_, ?_⟩
  · intro j
    simp only [St.view]
    by_cases e : j = i
    · subst e; simpa only [if_true] using e2
    · simpa only [e, if_false] using hi.view j
  · intro j
    simp only [St.view]
    by_cases e : j = i
    · subst e; simp only [if_true]; exact ⟨restU, hu⟩
    · simp only [e, if_false]; exact hi.partU j
  · intro j
    simp only [St.view]
    by_cases e : j = i
    · subst e; simp only [if_true]; exact ⟨restN, hn⟩
    · simp only [e, if_false]; exact hi.partN j
  · intro j
    simp only [St.view]
    split
    · rw [e3, e4]; exact hi.keys i
    · exact hi.keys j
  · intro x hx
    rw [hnext]
    exact hi.drawn x hx
  · intro x hx
    rw [hnext]
    exact hi.spent x hx
  · intro j
    rw [hnext]
    exact hi.bounds j

theorem take_cases {α : Type} (l : List α) (n : Nat) : ∃ suf, l = l.take n ++ suf := ⟨_, (List.take_append_drop n l).symm⟩

theorem amount_zero (i id : Nat) : amount ⟨i, 0⟩ id = 0 := by
  unfold amount
  split <;> rfl

/-- A request of which nothing changes hands. -/
theorem settle_inner (hW : Sound W) (hi : Inv W st) {i : ι} {ds : List (SyncData U N)} {s1 s2 : Sys N K Leaf A}
    {posts : List (Tx K A Addr Acct)} (hd : Current W st i ds) (h : Signed W st i ds s1 s2 posts) (hin : Inner posts)
    (hh' : Honest W ((st.view i ds s2).accept W i posts)) :
    book W ((st.view i ds s2).accept W i posts) = book W st := by
  refine book_eq (fun j id => inner_settle hW hi hd h hin hh' j id) fun p id => ?_
  rw [funds_same i ds s2 posts hin.sources hin.sinks]
  rfl

theorem inner_nil : Inner ([] : List (Tx K A Addr Acct)) :=
  ⟨by simp [made], by simp, by simp, Verif.Pay.balanced_nil⟩

/-- Every step is a step of the book. -/
theorem step_book (hW : Sound W) (hi : Inv W st) {e : Event ι Addr Acct} (hs : Step W st e st') (hh' : Honest W st') :
    Inv W st' ∧ book W st' = (book W st).step W.addr W.acct e ∧ (book W st).Covers W.acct e := by
  cases hs with
  | read i ds restU restN hu hn =>
    have hh : Honest W st := hh'.mono (st := st) (l := []) (sl := []) (by simp [St.view]) (by simp [St.view])
    obtain ⟨s', e1, e2⟩ := read_inv hi hh i ds restU restN hu hn
    rw [e1] at hh' ⊢
    exact ⟨e2, rfl, trivial⟩
  | restart i skip hr =>
    have hnext : ∀ j, (st.sys j).next ≤
        ((fun j => if j = i then { st.sys i with next := (st.sys i).next + skip } else st.sys j : ι → Sys N K Leaf A) j).next := by
      intro j
      simp only
      split
      · rename_i e; subst e; exact Nat.le_add_right _ _
      · exact Nat.le_refl _
    refine ⟨⟨?_, hi.partU, hi.partN, ?_, ?_, hi.once, ?_, ?_⟩, rfl, trivial⟩
    · intro j
      simp only
      by_cases e : j = i
      · subst e; rw [if_pos rfl]; exact ⟨(hi.view j).core, (hi.view j).acc⟩
      · rw [if_neg e]; exact hi.view j
    · intro j
      simp only
      split
      · rename_i e; subst e; exact hi.keys j
      · exact hi.keys j
    · intro x hx
      obtain ⟨n, h1, h2⟩ := hi.drawn x hx
      exact ⟨n, Nat.lt_of_lt_of_le h1 (hnext x.1), h2⟩
    · intro x hx
      rcases hi.spent x hx with h | ⟨n, h1, h2⟩
      · exact .inl h
      · exact .inr ⟨n, Nat.lt_of_lt_of_le h1 (hnext x.1), h2⟩
    · intro j
      simp only
      split
      · rename_i e; subst e; exact hr
      · exact hi.bounds j
  | consolidate i ds req n hd hr hreq hst hid =>
    have hh : Honest W st := hh'.mono (st := st) rfl rfl
    obtain ⟨s1, s2, posts, q1, q2, q3⟩ := post_consolidates hW hi hh hd hr req hreq hst hid
    rw [q1] at hh' ⊢
    simp only [Verif.Pay.Out.handed] at hh' ⊢
    obtain ⟨suf, hsuf⟩ := take_cases posts n
    exact ⟨(q2.take n).inv hW hi hd hh, settle_inner hW hi hd (q2.take n) (q3 _ suf hsuf) hh', trivial⟩
  | post i ds t n hd hr hid hmax hf =>
    have hh : Honest W st := hh'.mono (st := st) rfl rfl
    cases t with
    | toPrivate a =>
      obtain ⟨s1, s2, k, q1, q2⟩ := post_mints hW hi hh hd hr a hid (hmax a rfl)
      rw [q1] at hh' hf ⊢
      simp only [Verif.Pay.Out.handed] at hh' hf ⊢
      cases n with
      | zero =>
        simp only [List.take_zero] at hh' ⊢
        exact ⟨(q2.take 0).inv hW hi hd hh, settle_inner hW hi hd (q2.take 0) inner_nil hh', trivial⟩
      | succ n =>
        simp only [List.take_succ_cons, List.take_nil] at hh' hf ⊢
        have hcov := hf a.id
        simp only [List.flatMap_cons, List.flatMap_nil, List.append_nil] at hcov
        rw [Verif.Pay.bal_one] at hcov
        refine ⟨q2.inv hW hi hd hh, book_eq ?_ ?_, by simpa [observed, Book.Covers, amount, book] using hcov⟩
        · intro j id
          have h1 := q2.settle hW hi hd hh' j id
          unfold news at h1
          rw [owned_self hW i _ (by simp [made])] at h1
          simp only [made, spent, List.flatMap_cons, List.flatMap_nil, List.append_nil, List.map_cons, List.map_nil,
            Verif.Pay.bal_one, total, bal_nil, ite_self, Nat.add_zero] at h1
          rw [h1]
          rfl
        · intro p id
          simp only [St.accept, St.view, observed, Book.step, book, List.isEmpty_cons, Bool.not_false]
          rw [credit_none (by simp)]
          simp only [List.flatMap_cons, List.flatMap_nil, List.append_nil, Verif.Pay.bal_one, Nat.add_zero]
    | privateTransfer a o =>
      simp only [assetOf] at hid
      by_cases hc : a.value ≤ left W st i a.id
      · obtain ⟨s1, s2, front, l, k, k', change, q1, q2, q3, q4, q5, q6, q7⟩ := post_pays hW hi hh hd hr a hid o hc
        rw [q1] at hh' ⊢
        simp only [Verif.Pay.Out.handed] at hh' ⊢
        by_cases hn : n ≤ front.length
        · rw [List.take_append_of_le_length hn] at hh' ⊢
          have hin : Inner (front.take n) := by
            have hm : ∀ tx ∈ front.take n, Verif.Sign.IsJoin tx := fun tx ht => q3 tx (List.mem_of_mem_take ht)
            refine ⟨made_self fun tx ht => (hm tx ht).2.2.2.2.2, fun tx ht => (hm tx ht).1,
              fun tx ht => (hm tx ht).2.2.2.1, q7 _ (front.drop n ++ [l]) ?_⟩
            rw [← List.append_assoc, List.take_append_drop]
          have hsg : Signed W st i ds s1 s2 (front.take n) := by
            have := q2.take n
            rwa [List.take_append_of_le_length hn] at this
          have hev : observed i (.privateTransfer a o) (front ++ [l]) (front.take n) = .pay i a o false := by
            have : ¬ (front.take n).length = front.length + 1 := by rw [List.length_take]; omega
            simp only [observed, Event.pay.injEq, true_and, Bool.and_eq_false_iff, beq_eq_false_iff_ne, ne_eq,
              List.length_append, List.length_singleton]
            exact .inr this
          rw [hev]
          exact ⟨hsg.inv hW hi hd hh, settle_inner hW hi hd hsg hin hh', trivial⟩
        · rw [List.take_of_length_le (by simp; omega)] at hh' ⊢
          have hev : observed i (.privateTransfer a o) (front ++ [l]) (front ++ [l]) = .pay i a o true := by
            simp [observed]
          rw [hev]
          refine ⟨q2.inv hW hi hd hh, book_eq ?_ ?_, hc⟩
          · intro j id
            have h1 := q2.settle hW hi hd hh' j id
            have h2 := q7 (front ++ [l]) [] (by simp) id
            have hfr : ∀ tx ∈ front ++ [l], tx.sources = [] ∧ tx.sinks = [] := by
              intro tx ht
              rcases List.mem_append.mp ht with ht | ht
              · exact ⟨(q3 tx ht).1, (q3 tx ht).2.2.2.1⟩
              · rw [List.mem_singleton] at ht; subst ht; exact ⟨q4, q5⟩
            rw [flat_nil fun tx ht => (hfr tx ht).1, flat_nil fun tx ht => (hfr tx ht).2] at h2
            unfold news at h1
            have hm : made (front ++ [l]) = (made front ++ [⟨k, ⟨a.id, change⟩, .self⟩]) ++ [⟨k', a, o⟩] := by
              rw [Verif.Sign.made_append, show made [l] = l.receivers by simp [made], q6]
              simp
            rw [hm] at h1 h2
            rw [owned_two, owned_one, owned_self hW i _ (by
              intro r hr
              rcases List.mem_append.mp hr with hr | hr
              · exact made_self (fun tx ht => (q3 tx ht).2.2.2.2.2) r hr
              · rw [List.mem_singleton] at hr; rw [hr])] at h1
            rw [List.map_append, bal_append] at h2
            simp only [bal_nil, Nat.zero_add, Nat.add_zero, List.map_cons, List.map_nil, Verif.Pay.bal_one] at h2
            have hcov : amount a id ≤ left W st i id := by
              unfold amount
              split
              · rename_i e; rw [e]; exact hc
              · exact Nat.zero_le _
            simp only [Book.step, book]
            by_cases ej : j = i
            · subst ej
              simp only [if_true] at h1 ⊢
              omega
            · simp only [ej, if_false] at h1 ⊢
              omega
          · intro p id
            rw [funds_same i ds s2 (front ++ [l])]
            · rfl
            · intro tx ht
              rcases List.mem_append.mp ht with ht | ht
              · exact (q3 tx ht).1
              · rw [List.mem_singleton] at ht; subst ht; exact q4
            · intro tx ht
              rcases List.mem_append.mp ht with ht | ht
              · exact (q3 tx ht).2.2.2.1
              · rw [List.mem_singleton] at ht; subst ht; exact q5
      · obtain ⟨s1, q1, q2⟩ := post_refused hW hi hh hd hr (.privateTransfer a o) a (.inl ⟨o, rfl⟩) (by omega)
        rw [q1] at hh' ⊢
        simp only [Verif.Pay.Out.handed, List.take_nil] at hh' ⊢
        exact ⟨q2.inv hW hi hd hh, settle_inner hW hi hd q2 inner_nil hh', trivial⟩
    | toPublic a p =>
      simp only [assetOf] at hid
      by_cases hc : a.value ≤ left W st i a.id
      · obtain ⟨s1, s2, posts, q1, q2, q3, q4, q5⟩ := post_withdraws hW hi hh hd hr a hid p hc
        rw [q1] at hh' ⊢
        simp only [Verif.Pay.Out.handed] at hh' ⊢
        obtain ⟨suf, hsuf⟩ := take_cases posts n
        have q2' := q2.take n
        have hbal := q4 _ _ hsuf
        have hmem : ∀ tx ∈ posts.take n, tx ∈ posts := fun tx ht => List.mem_of_mem_take ht
        generalize posts.take n = acc at *
        have hids : ∀ x ∈ acc.flatMap Tx.sinks, x.id = a.id := by
          intro x hx
          obtain ⟨tx, ht, hx⟩ := List.mem_flatMap.mp hx
          obtain ⟨_, _, _, v, e⟩ := q3 tx (hmem tx ht)
          rw [e, List.mem_singleton] at hx
          rw [hx]
        have hsink : ∀ id, bal (acc.flatMap Tx.sinks) id = amount ⟨a.id, bal (acc.flatMap Tx.sinks) a.id⟩ id := by
          intro id
          unfold amount
          split
          · rename_i e; rw [e]
          · rename_i e
            have := Verif.Pay.bal_sum (fun x => x) (acc.flatMap Tx.sinks) a.id id hids
            rw [List.map_id', if_neg e] at this
            exact this
        have hall : bal (posts.flatMap Tx.sinks) a.id = a.value := by
          have h1 : ∀ l : List (Tx K A Addr Acct), (∀ tx ∈ l, ∃ v, tx.sinks = [⟨a.id, v⟩]) →
              bal (l.flatMap Tx.sinks) a.id = (l.map fun tx => (tx.sinks.map Asset.value).sum).sum := by
            intro l
            induction l with
            | nil => intro _; rfl
            | cons tx l ih =>
              intro h
              obtain ⟨v, e⟩ := h tx (by simp)
              rw [List.flatMap_cons, bal_append, ih fun x hx => h x (List.mem_cons_of_mem _ hx), List.map_cons,
                List.sum_cons, e, Verif.Pay.bal_one]
              simp [amount]
          rw [h1 posts fun tx ht => (q3 tx ht).2.2.2, q5]
        have hle : bal (acc.flatMap Tx.sinks) a.id ≤ a.value := by
          rw [← hall, hsuf, List.flatMap_append, bal_append]
          omega
        have key : ∀ j id, left W ((st.view i ds s2).accept W i acc) j id + (if j = i then bal (acc.flatMap Tx.sinks) id else 0) =
            left W st j id := by
          intro j id
          have h1 := q2'.settle hW hi hd hh' j id
          have h2 := hbal id
          rw [flat_nil fun tx ht => (q3 tx (hmem tx ht)).1] at h2
          unfold news at h1
          rw [owned_self hW i _ (made_self (posts := acc) (by
            intro tx ht r hr
            obtain ⟨_, _, ⟨k, v, e⟩, _⟩ := q3 tx (hmem tx ht)
            rw [e, List.mem_singleton] at hr
            rw [hr]))] at h1
          simp only [bal_nil, Nat.zero_add] at h2
          split at h1
          · rename_i e; rw [if_pos e]; omega
          · rename_i e; rw [if_neg e]; omega
        refine ⟨q2'.inv hW hi hd hh, book_eq ?_ ?_, hle, Nat.le_trans hle hc⟩
        · intro j id
          have := key j id
          simp only [observed, Book.step, book]
          rw [← hsink]
          omega
        · intro q id
          simp only [St.accept, St.view, observed, Book.step, book]
          rw [flat_nil fun tx ht => (q3 tx (hmem tx ht)).1, credit_one (p := p) (by
            intro tx ht
            obtain ⟨_, h2, _, v, e⟩ := q3 tx (hmem tx ht)
            exact ⟨h2, _, e⟩), ← hsink]
          simp
      · obtain ⟨s1, q1, q2⟩ := post_refused hW hi hh hd hr (.toPublic a p) a (.inr ⟨p, rfl⟩) (by omega)
        rw [q1] at hh' ⊢
        simp only [Verif.Pay.Out.handed, List.take_nil] at hh' ⊢
        have hin := settle_inner hW hi hd q2 inner_nil hh'
        refine ⟨q2.inv hW hi hd hh, ?_, by simp [observed, Book.Covers]⟩
        rw [hin]
        simp [observed, Book.step, amount_zero]

theorem inv_start (W : World ι U N K Leaf A Addr Acct) (funds : Acct → Nat → Nat) : Inv W (W.start funds) :=
  ⟨fun i => Verif.Pay.synced_init (W.env i) (W.acc0 i) (W.width i) true true 0,
    fun _ => ⟨[], by simp [World.start, St.us]⟩, fun _ => ⟨[], by simp [World.start, St.ns]⟩, fun _ => ⟨rfl, rfl⟩,
    fun _ h => absurd h (by simp [World.start]), List.nodup_nil, fun _ h => absurd h (by simp [World.start]),
    fun _ => Nat.zero_le _⟩

theorem honest_start (W : World ι U N K Leaf A Addr Acct) (funds : Acct → Nat → Nat) : Honest W (W.start funds) :=
  ⟨fun _ h => absurd h (by simp [World.start]), fun _ h => absurd h (by simp [World.start]),
    fun _ _ h => absurd h (by simp [World.start, owned, used]), fun _ _ h => absurd h (by simp [World.start, owned]),
    fun _ => by simp [World.start, St.us], fun _ _ => by simp [World.start, owned, total]⟩

/-- The book of new wallets: nobody has coins. -/
def Book.opening (funds : Acct → Nat → Nat) : Book ι Acct := ⟨fun _ _ => 0, funds⟩

theorem run_inv (hW : Sound W) {funds : Acct → Nat → Nat} {es : List (Event ι Addr Acct)}
    (h : Run W (W.start funds) es st) :
    Inv W st ∧ Honest W st ∧ book W st = (Book.opening funds).after W.addr W.acct es ∧
      ∀ pre e suf, es = pre ++ e :: suf → ((Book.opening funds).after W.addr W.acct pre).Covers W.acct e := by
  induction h with
  | nil =>
    refine ⟨inv_start W funds, honest_start W funds, book_eq ?_ fun _ _ => rfl, ?_⟩
    · intro j id
      simp [left, total, unspent, World.start, St.us, Book.after, Book.opening]
    · intro pre e suf h
      simp at h
  | @snoc es st st' e h hs hh ih =>
    obtain ⟨h1, h2, h3, h4⟩ := ih
    obtain ⟨k1, k2, k3⟩ := step_book hW h1 hs hh
    refine ⟨k1, hh, ?_, ?_⟩
    · rw [k2, h3]
      simp [Book.after]
    · intro pre x suf hx
      rcases List.eq_nil_or_concat suf with rfl | ⟨suf', y, rfl⟩
      · have := List.append_inj' hx rfl
        obtain ⟨rfl, hy⟩ := this
        cases hy
        rw [← h3]
        exact k3
      · rw [List.concat_eq_append, ← List.cons_append, ← List.append_assoc] at hx
        obtain ⟨hy, _⟩ := List.append_inj' hx rfl
        exact h4 pre x suf' hy

/-! ## C131 -/

/-- C131. Whatever any number of wallets do on one ledger, in any order, the coins of every user and the funds of every
account are at every moment what the account book says, and nothing was ever taken that was not there. -/
theorem c131_refines (hW : Sound W) {funds : Acct → Nat → Nat} {es : List (Event ι Addr Acct)}
    (h : Run W (W.start funds) es st) :
    (∀ j id, total (unspent (W.env j).par (st.us W) (st.ns W)) id =
      ((Book.opening funds).after W.addr W.acct es).priv j id) ∧
    (∀ p id, st.funds p id = ((Book.opening funds).after W.addr W.acct es).pub p id) ∧
    ∀ pre e suf, es = pre ++ e :: suf → ((Book.opening funds).after W.addr W.acct pre).Covers W.acct e := by
  obtain ⟨_, _, h3, h4⟩ := run_inv hW h
  rw [← h3]
  exact ⟨fun _ _ => rfl, fun _ _ => rfl, h4⟩

/-- C131. A wallet that reads everything then succeeds and reports the balances of the book. -/
theorem c131_reported (hW : Sound W) {funds : Acct → Nat → Nat} {es : List (Event ι Addr Acct)}
    (h : Run W (W.start funds) es st) (i : ι) (ds : List (SyncData U N)) (hd : Current W st i ds) :
    ∃ s', Verif.Pay.syncAll (W.env i) (st.sys i) ds = (.ok, s') ∧
      ∀ id, AList.value (W.env i).bs s'.wallet.assets id = ((Book.opening funds).after W.addr W.acct es).priv i id := by
  obtain ⟨h1, h2, h3, _⟩ := run_inv hW h
  have hl : Ledger (W.env i).par (st.seenU i ++ allUtxos ds) :=
    sub_ledger (rest := []) (by rw [List.append_nil]; exact hd.1) (ledger_us h1 h2 i)
  obtain ⟨s', e1, e2, _⟩ := Verif.Pay.synced_all (W.env i) ds _ _ _ (h1.view i) hl
    (fun id => Inv.fits_sub (rest := []) h2 (by rw [List.append_nil]; exact hd.1) id)
  refine ⟨s', e1, fun id => ?_⟩
  rw [Verif.Pay.synced_value (hW.base i) e2 hl, ← h3, hd.2]
  exact total_perm (unspent_perm hd.1 _) id

/-- C131. In every state that is reached, requests that the book covers are answered with posts, others are refused
for lack of balance. -/
theorem c131_answers (hW : Sound W) {funds : Acct → Nat → Nat} {es : List (Event ι Addr Acct)}
    (h : Run W (W.start funds) es st) (i : ι) (ds : List (SyncData U N)) (hd : Current W st i ds) (hr : Room W st i ds)
    (a : Asset) (hid : a.id ≠ 0 ∧ a.id < (W.env i).sign.ids) (t : Transaction Addr Acct)
    (ht : (∃ o, t = .privateTransfer a o) ∨ ∃ p, t = .toPublic a p) :
    (a.value ≤ ((Book.opening funds).after W.addr W.acct es).priv i a.id →
      ∃ posts s', Verif.Pay.post (W.env i) (st.sys i) ds t = (.ok posts, s')) ∧
    (((Book.opening funds).after W.addr W.acct es).priv i a.id < a.value →
      ∃ s', Verif.Pay.post (W.env i) (st.sys i) ds t = (.insufficientBalance a, s')) := by
  obtain ⟨h1, h2, h3, _⟩ := run_inv hW h
  rw [← h3]
  refine ⟨fun hc => ?_, fun hc => ?_⟩
  · rcases ht with ⟨o, rfl⟩ | ⟨p, rfl⟩
    · obtain ⟨s1, s2, front, l, _, _, _, q1, _⟩ := post_pays hW h1 h2 hd hr a hid o hc
      exact ⟨_, _, q1⟩
    · obtain ⟨s1, s2, posts, q1, _⟩ := post_withdraws hW h1 h2 hd hr a hid p hc
      exact ⟨_, _, q1⟩
  · obtain ⟨s1, q1, _⟩ := post_refused hW h1 h2 hd hr t a ht hc
    exact ⟨_, q1⟩

/-! ## The measurement of the test harness -/

/-- Public and private balances of some wallets together. -/
def Book.measure (acct : ι → Acct) (b : Book ι Acct) (ws : List ι) (id : Nat) : Nat :=
  (ws.map fun i => b.priv i id + b.pub (acct i) id).sum

/-- The event stays within some wallets. -/
def Within (addr : ι → Addr) (acct : ι → Acct) (ws : List ι) : Event ι Addr Acct → Prop
  | .mint i _ _ => i ∈ ws
  | .pay i _ o _ => i ∈ ws ∧ ∃ j ∈ ws, addr j = dest addr i o
  | .withdraw i _ p _ => i ∈ ws ∧ ∃ j ∈ ws, acct j = p
  | _ => True

theorem sum_add' {α : Type} (l : List α) (f g : α → Nat) :
    (l.map fun x => f x + g x).sum = (l.map f).sum + (l.map g).sum := by
  induction l with
  | nil => rfl
  | cons x l ih => simp only [List.map_cons, List.sum_cons, ih]; omega

theorem sum_point {α : Type} [DecidableEq α] (l : List α) (hl : l.Nodup) (i : α) (hi : i ∈ l) (v : Nat)
    (p : α → Prop) [DecidablePred p] (hp : ∀ j ∈ l, p j ↔ j = i) : (l.map fun j => if p j then v else 0).sum = v := by
  induction l with
  | nil => simp at hi
  | cons x l ih =>
    rw [List.nodup_cons] at hl
    rw [List.map_cons, List.sum_cons]
    by_cases e : x = i
    · subst e
      rw [if_pos ((hp x (by simp)).mpr rfl)]
      have : (l.map fun j => if p j then v else 0).sum = 0 := by
        have hz : (l.map fun j => if p j then v else 0) = l.map fun _ => 0 := by
          refine List.map_congr_left fun j hj => if_neg fun hpj => ?_
          have := (hp j (List.mem_cons_of_mem _ hj)).mp hpj
          exact hl.1 (this ▸ hj)
        rw [hz]
        clear hz hl hi hp ih
        induction l with
        | nil => rfl
        | cons _ l ih => rw [List.map_cons, List.sum_cons, ih]
      rw [this]
      rfl
    · rw [if_neg fun h => e ((hp x (by simp)).mp h), Nat.zero_add]
      exact ih hl.2 ((List.mem_cons.mp hi).resolve_left fun h => e h.symm) fun j hj => hp j (List.mem_cons_of_mem _ hj)

theorem measure_step {addr : ι → Addr} {acct : ι → Acct} (ha : ∀ i j, addr i = addr j → i = j)
    (hc : ∀ i j, acct i = acct j → i = j) {ws : List ι} (hws : ws.Nodup) (b : Book ι Acct) (e : Event ι Addr Acct)
    (hcov : b.Covers acct e) (hw : Within addr acct ws e) (id : Nat) :
    (b.step addr acct e).measure acct ws id = b.measure acct ws id := by
  have cov : ∀ (a : Asset) (f : Nat → Nat), a.value ≤ f a.id → amount a id ≤ f id := by
    intro a f h
    unfold amount
    split
    · rename_i e; rw [e]; exact h
    · exact Nat.zero_le _
  have move : ∀ (b' : Book ι Acct) (v : Nat) (p q : ι → Prop) [DecidablePred p] [DecidablePred q] (x y : ι),
      x ∈ ws → y ∈ ws → (∀ j ∈ ws, p j ↔ j = x) → (∀ j ∈ ws, q j ↔ j = y) →
      (∀ j ∈ ws, b'.priv j id + b'.pub (acct j) id + (if p j then v else 0) =
        b.priv j id + b.pub (acct j) id + if q j then v else 0) →
      b'.measure acct ws id = b.measure acct ws id := by
    intro b' v p q _ _ x y hx hy hp hq h
    have h1 : (ws.map fun j => b'.priv j id + b'.pub (acct j) id + if p j then v else 0).sum =
        (ws.map fun j => b.priv j id + b.pub (acct j) id + if q j then v else 0).sum := by
      rw [List.map_congr_left h]
    rw [sum_add', sum_add' ws (fun j => b.priv j id + b.pub (acct j) id), sum_point ws hws x hx v p hp,
      sum_point ws hws y hy v q hq] at h1
    unfold Book.measure
    omega
  cases e with
  | read i => rfl
  | consolidate i => rfl
  | restart i => rfl
  | mint i a ok =>
    cases ok with
    | false => rfl
    | true =>
      refine move _ (amount a id) (fun j => j = i) (fun j => j = i) i i hw hw (fun _ _ => Iff.rfl) (fun _ _ => Iff.rfl) ?_
      intro j _
      have := cov a (b.pub (acct i)) hcov
      simp only [Book.step]
      by_cases e : j = i
      · subst e; simp only [if_true]; omega
      · simp only [e, if_false]
        rw [if_neg fun h => e (hc _ _ h)]
        omega
  | pay i a o ok =>
    cases ok with
    | false => rfl
    | true =>
      obtain ⟨hi, j0, hj0, hd⟩ := hw
      refine move _ (amount a id) (fun j => j = i) (fun j => addr j = dest addr i o) i j0 hi hj0 (fun _ _ => Iff.rfl)
        (fun j _ => ⟨fun h => ha _ _ (h.trans hd.symm), fun h => h ▸ hd⟩) ?_
      intro j _
      have := cov a (b.priv i) hcov
      simp only [Book.step]
      by_cases e : j = i
      · subst e; simp only [if_true]; omega
      · simp only [e, if_false]
        omega
  | withdraw i a p w =>
    obtain ⟨hi, j0, hj0, hd⟩ := hw
    refine move _ (amount ⟨a.id, w⟩ id) (fun j => j = i) (fun j => acct j = p) i j0 hi hj0 (fun _ _ => Iff.rfl)
      (fun j _ => ⟨fun h => hc _ _ (h.trans hd.symm), fun h => h ▸ hd⟩) ?_
    intro j _
    have := cov ⟨a.id, w⟩ (b.priv i) hcov.2
    simp only [Book.step]
    by_cases e : j = i
    · subst e; simp only [if_true]; omega
    · simp only [e, if_false]
      omega

/-- C131, what `measure_balances` checks: if payments and withdrawals stay within some wallets, what these wallets report
together with their public balances is always what it was at the start, although any request may be accepted in part. -/
theorem c131_measure (hW : Sound W) {funds : Acct → Nat → Nat} {es : List (Event ι Addr Acct)}
    (h : Run W (W.start funds) es st) (hc : ∀ i j, W.acct i = W.acct j → i = j) (ws : List ι) (hws : ws.Nodup)
    (hw : ∀ e ∈ es, Within W.addr W.acct ws e) (ds : ι → List (SyncData U N)) (hd : ∀ i ∈ ws, Current W st i (ds i))
    (id : Nat) :
    (ws.map fun i => AList.value (W.env i).bs (Verif.Pay.syncAll (W.env i) (st.sys i) (ds i)).2.wallet.assets id +
      st.funds (W.acct i) id).sum = (ws.map fun i => funds (W.acct i) id).sum := by
  have hm : ∀ es st, Run W (W.start funds) es st → (∀ e ∈ es, Within W.addr W.acct ws e) →
      ((Book.opening funds).after W.addr W.acct es).measure W.acct ws id =
        (Book.opening (ι := ι) funds).measure W.acct ws id := by
    intro es st h hw
    induction h with
    | nil => rfl
    | @snoc es st st' e h hs hh ih =>
      obtain ⟨_, _, k3, k4⟩ := run_inv hW (.snoc h hs hh)
      have := measure_step hW.addrs hc hws _ e (k4 es e [] rfl) (hw e (by simp)) id
      unfold Book.after at this ih ⊢
      rw [List.foldl_append]
      exact this.trans (ih fun x hx => hw x (List.mem_append_left _ hx))
  have h1 := hm es st h hw
  obtain ⟨_, r2, _⟩ := c131_refines hW h
  unfold Book.measure at h1
  simp only [Book.opening, Nat.zero_add] at h1
  rw [← h1]
  refine congrArg List.sum (List.map_congr_left fun i hi => ?_)
  obtain ⟨s', e1, e2⟩ := c131_reported hW h i (ds i) (hd i hi)
  rw [e1, r2]
  exact congrArg (· + _) (e2 id)

/-! ## Two wallets -/

section Two

open Verif.Pay (ToyAcc toyPar toySign toyEnv toyFree toy_acc)

/-- The toy wallet of `Verif.Pay`, reading the outputs for its address and drawing from its own stream. -/
def twoEnv (i : Bool) : Env (Receiver Nat Nat) (Nat × Asset) Nat (Receiver Nat Nat) ToyAcc Nat Nat :=
  { toyEnv with
    par := { toyPar with
      openNote := fun r => if r.owner = .other (if i then 1 else 0) then some (r.key, r.asset) else none
      leaf := fun r => ⟨r.key, r.asset, .self⟩ }
    sign := { toySign with fresh := fun n => (if i then 5000 else 1000) + n } }

/-- Addresses 0 and 1, accounts 10 and 11; UTXOs name the address that they are for. -/
def two : World Bool (Receiver Nat Nat) (Nat × Asset) Nat (Receiver Nat Nat) ToyAcc Nat Nat where
  env := twoEnv
  utxo i r := { r with owner := .other (match r.owner with | .self => if i then 1 else 0 | .other b => b) }
  addr i := if i then 1 else 0
  acct i := if i then 11 else 10
  acc0 _ := ⟨[], 0, []⟩
  free _ := toyFree
  sound _ _ := True
  capacity _ := 100
  width _ := 1
  bound _ := 4000

theorem two_sound : Sound two := by
  refine ⟨fun i => ⟨fun _ _ => rfl, fun _ _ => rfl⟩, fun i => ?_, fun _ _ _ _ _ _ _ _ => rfl, by decide, ?_⟩
  · have hr : ∀ bs a, Verif.Pay.replay (twoEnv i) a bs = Verif.Pay.replay toyEnv a bs := fun _ _ => rfl
    exact ⟨⟨toy_acc.laws.1, toy_acc.laws.2, toy_acc.laws.3, toy_acc.laws.4⟩, toy_acc.holds, toy_acc.counts, toy_acc.room, toy_acc.committed⟩
  · intro i j n m hn hm e
    simp only [two, twoEnv] at hn hm e
    cases i <;> cases j <;> simp at e ⊢ <;> omega

abbrev TwoSt := St Bool (Receiver Nat Nat) (Nat × Asset) Nat (Receiver Nat Nat) ToyAcc Nat Nat

/-- Everything that a wallet has not read. -/
def unread (st : TwoSt) (i : Bool) : List (SyncData (Receiver Nat Nat) (Nat × Asset)) :=
  [⟨(st.us two).drop (st.seenU i).length, (st.ns two).drop (st.seenN i).length⟩]

/-- A request of which the first `n` posts are accepted. -/
def ask (st : TwoSt) (i : Bool) (t : Transaction Nat Nat) (n : Nat) : TwoSt :=
  (st.view i (unread st i) (Verif.Pay.post (two.env i) (st.sys i) (unread st i) t).2).accept two i
    ((Verif.Pay.post (two.env i) (st.sys i) (unread st i) t).1.handed.take n)

/-- Account 10 has 100 of asset 7. -/
def two0 : TwoSt := two.start fun p id => if p = 10 ∧ id = 7 then 100 else 0

def two1 : TwoSt := ask two0 false (.toPrivate ⟨7, 60⟩) 1
def two2 : TwoSt := ask two1 false (.toPrivate ⟨7, 30⟩) 1
def two3 : TwoSt := ask two2 false (.privateTransfer ⟨7, 75⟩ (.other 1)) 1
def two4 : TwoSt := ask two3 true (.toPublic ⟨7, 50⟩ 11) 1

def twoEvents : List (Event Bool Nat Nat) :=
  [.mint false ⟨7, 60⟩ true, .mint false ⟨7, 30⟩ true, .pay false ⟨7, 75⟩ (.other 1) true, .withdraw true ⟨7, 50⟩ 11 50]

/-- `Honest`, as far as it can be computed. -/
def honestly (st : TwoSt) : Prop :=
  (∀ x ∈ st.log, ∀ j, (two.env j).par.openNote (two.utxo x.1 x.2) =
    if two.target x = two.addr j then some (x.2.key, x.2.asset) else none) ∧
  (∀ i, ∀ c ∈ owned two st.log i ++ used st.slog i, ∀ j, ∀ c' ∈ owned two st.log j ++ used st.slog j,
    c = c' → i = j) ∧
  (∀ i, ((st.us two).map (two.env i).par.leaf).Nodup) ∧ (∀ i, ∀ c ∈ owned two st.log i, c.2.id = 7) ∧
  ∀ i, ((owned two st.log i).map fun c => c.2.value).sum ≤ 10000

instance (st : TwoSt) : Decidable (honestly st) := by unfold honestly; infer_instance

instance (st : TwoSt) (i : Bool) : Decidable (Room two st i (unread st i)) := by
  unfold Room
  have : Decidable (two.sound i ((st.seenU i ++ allUtxos (unread st i)).map (two.env i).par.leaf)) :=
    inferInstanceAs (Decidable True)
  infer_instance

theorem honestly_ok {st : TwoSt} (h : honestly st) : Honest two st := by
  obtain ⟨h1, h2, h5, h3, h4⟩ := h
  refine ⟨h1, fun x _ j _ => rfl, fun i c hc j c' hc' e => ?_, fun i c _ c' _ e => ?_, h5, fun i id => ?_⟩
  · have e' : c = c' := e
    exact ⟨h2 i c hc j c' hc' e', e'⟩
  · have e' : (⟨c.1, c.2, .self⟩ : Receiver Nat Nat) = ⟨c'.1, c'.2, .self⟩ := e
    simp only [Receiver.mk.injEq, and_true] at e'
    exact Prod.ext e'.1 e'.2
  · exact Verif.Pay.toy_fits _ (h3 i) (h4 i) id

/-- A request in a run, from computed conditions. -/
theorem ask_run {es : List (Event Bool Nat Nat)} {st : TwoSt} (h : Run two two0 es st) (i : Bool) (t : Transaction Nat Nat)
    (n : Nat) (hu : st.seenU i ++ allUtxos (unread st i) = st.us two)
    (hn : st.seenN i ++ allNulls (unread st i) = st.ns two) (hr : Room two st i (unread st i)) (hid : (assetOf t).id = 7)
    (hmax : (assetOf t).value ≤ 10000)
    (hs : ∀ x ∈ ((Verif.Pay.post (two.env i) (st.sys i) (unread st i) t).1.handed.take n).flatMap Tx.sources, x.id = 7)
    (hf : ((((Verif.Pay.post (two.env i) (st.sys i) (unread st i) t).1.handed.take n).flatMap Tx.sources).map
      Asset.value).sum ≤ st.funds (two.acct i) 7) (hh : honestly (ask st i t n)) {e : Event Bool Nat Nat}
    (he : observed i t (Verif.Pay.post (two.env i) (st.sys i) (unread st i) t).1.handed
      ((Verif.Pay.post (two.env i) (st.sys i) (unread st i) t).1.handed.take n) = e) :
    Run two two0 (es ++ [e]) (ask st i t n) := by
  subst he
  refine .snoc h (.post st i (unread st i) t n ⟨by rw [hu], hn⟩ hr (by rw [hid]; exact ⟨by decide, show 7 < 1000 by decide⟩) ?_ ?_) (honestly_ok hh)
  · rintro a rfl
    exact hmax
  · intro id
    have := Verif.Pay.bal_sum (fun x => x) _ 7 id hs
    rw [List.map_id'] at this
    rw [this]
    split
    · rename_i e; subst e; exact hf
    · exact Nat.zero_le _

theorem two_run : Run two two0 twoEvents two4 := by
  have h1 : Run two two0 _ two1 := ask_run .nil false (.toPrivate ⟨7, 60⟩) 1 (by decide +kernel) (by decide +kernel)
    (by decide +kernel) rfl (by decide) (by decide +kernel) (by decide +kernel) (by decide +kernel)
    (e := .mint false ⟨7, 60⟩ true) (by decide +kernel)
  have h2 : Run two two0 _ two2 := ask_run h1 false (.toPrivate ⟨7, 30⟩) 1 (by decide +kernel) (by decide +kernel)
    (by decide +kernel) rfl (by decide) (by decide +kernel) (by decide +kernel) (by decide +kernel)
    (e := .mint false ⟨7, 30⟩ true) (by decide +kernel)
  have h3 : Run two two0 _ two3 := ask_run h2 false (.privateTransfer ⟨7, 75⟩ (.other 1)) 1 (by decide +kernel)
    (by decide +kernel) (by decide +kernel) rfl (by decide) (by decide +kernel) (by decide +kernel) (by decide +kernel)
    (e := .pay false ⟨7, 75⟩ (.other 1) true) (by decide +kernel)
  exact ask_run h3 true (.toPublic ⟨7, 50⟩ 11) 1 (by decide +kernel)
    (by decide +kernel) (by decide +kernel) rfl (by decide) (by decide +kernel) (by decide +kernel) (by decide +kernel)
    (e := .withdraw true ⟨7, 50⟩ 11 50) (by decide +kernel)

/-- The hypotheses of C131 hold for two wallets that mint, pay each other and withdraw: 15 and 25 are left. -/
example : Sound two ∧ Run two two0 twoEvents two4 ∧ left two two4 false 7 = 15 ∧ left two two4 true 7 = 25 ∧
    two4.funds 10 7 = 10 ∧ two4.funds 11 7 = 50 :=
  ⟨two_sound, two_run, by decide +kernel, by decide +kernel, by decide +kernel, by decide +kernel⟩

example : (∀ i j, two.acct i = two.acct j → i = j) ∧ (∀ e ∈ twoEvents, Within two.addr two.acct [false, true] e) ∧
    (∀ i, Current two two4 i (unread two4 i)) ∧ (∀ i, Room two two4 i (unread two4 i)) := by
  refine ⟨by decide, ?_, fun i => ⟨?_, ?_⟩, by decide +kernel⟩
  · intro e he
    simp only [twoEvents, List.mem_cons, List.not_mem_nil, or_false] at he
    rcases he with rfl | rfl | rfl | rfl
    · exact List.mem_cons_self
    · exact List.mem_cons_self
    · exact ⟨by decide, true, by decide, rfl⟩
    · exact ⟨by decide, true, by decide, rfl⟩
  · have : ∀ i, two4.seenU i ++ allUtxos (unread two4 i) = two4.us two := by decide +kernel
    rw [this]
  · revert i; decide +kernel

end Two

end Verif.World
