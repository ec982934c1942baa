import Verif.Sign.Props
import Verif.Transfer.Identity

/-!
# C94 (estimated number of posts), C95 (transaction data of own posts)

Models `Signer::estimate_transferposts`, `manta-accounting/src/wallet/signer/mod.rs:1836-1846`, and
`sign_with_transaction_data`, `manta-accounting/src/wallet/signer/functions.rs:1428-1460`.
-/

set_option linter.unusedSectionVars false

namespace Verif.Sign

open Verif.Asset Verif.Asset.AMap

variable {K Leaf A Addr Acct : Type}

/-- `estimate_transferposts`, mod.rs:1836-1846. `usize` arithmetic: `checked` is a build with overflow checks, the other
one wraps. -/
def estimate (E : Env K Leaf A Addr Acct) (checked : Bool) (m : AMap K) : Transaction Addr Acct → Res Nat
  | .toPrivate _ => .ok 1
  | .privateTransfer a _ =>
    match AMap.select E.max m a with
    | none => .panic
    | some sel =>
      if sel.values.length = 0 then
        if checked then .panic else .ok (Nat.max (2 ^ 64 - 1) 1)
      else .ok (Nat.max (sel.values.length - 1) 1)
  | .toPublic a _ =>
    match AMap.select E.max m a with
    | none => .panic
    | some sel => .ok ((sel.values.length + 1) / 2)

/-! ## Specification -/

/-- A post of canonical counts whose first output belongs to the signer. -/
def OwnFirst (tx : Tx K A Addr Acct) : Prop :=
  Shape tx ∧ ∃ r rest, tx.receivers = r :: rest ∧ r.owner = .self

/-- `n` posts of that kind have been appended. -/
def Adds (st st' : St K A Addr Acct) (n : Nat) : Prop :=
  ∃ txs, st'.posts = st.posts ++ txs ∧ txs.length = n ∧ ∀ tx ∈ txs, OwnFirst tx

theorem Adds.refl (st st' : St K A Addr Acct) (h : st'.posts = st.posts) : Adds st st' 0 :=
  ⟨[], by simp [h], rfl, by simp⟩

theorem Adds.trans {a b c : St K A Addr Acct} {n k : Nat} (h : Adds a b n) (h' : Adds b c k) : Adds a c (n + k) := by
  obtain ⟨t, h1, h2, h3⟩ := h
  obtain ⟨t', h1', h2', h3'⟩ := h'
  refine ⟨t ++ t', by rw [h1', h1, List.append_assoc], by simp [h2, h2'], ?_⟩
  intro tx htx
  rcases List.mem_append.1 htx with h | h
  · exact h3 tx h
  · exact h3' tx h

theorem buildPost_adds (E : Env K Leaf A Addr Acct) (tx : Tx K A Addr Acct) (st st' : St K A Addr Acct)
    (htx : OwnFirst tx) (h : buildPost E tx st = (.ok (), st')) : Adds st st' 1 := by
  unfold buildPost at h
  split at h
  · cases h
    exact ⟨[tx], rfl, rfl, by simpa using htx⟩
  · cases h

theorem joinRound_adds (E : Env K Leaf A Addr Acct) (aid : Nat) (cs : List (Coin K)) (st : St K A Addr Acct) :
    ∀ js zs st', joinRound E aid cs st = (.ok (js, zs), st') → Adds st st' (cs.length / 2) := by
  fun_induction joinRound E aid cs st with
  | case1 => intro js zs st' h; cases h
  | case2 a b rest st sa sb _ _ _ _ _ _ tx _ _ _ js' zs' st1 hr ih =>
    intro js zs st' h
    cases h
    have h1 := ih _ _ _ hr
    have h0 : ∀ x : A, Adds st ⟨x, st.posts ++ [tx], st.next + 2⟩ 1 := fun _ =>
      ⟨[tx], rfl, rfl, by
        intro t ht
        rw [List.mem_singleton] at ht
        subst ht
        exact ⟨by simp [Shape, tx], _, _, rfl, rfl⟩⟩
    have := (h0 _).trans h1
    simp only [List.length_cons]
    have he : (rest.length + 1 + 1) / 2 = 1 + rest.length / 2 := by omega
    rw [he]
    exact this
  | case3 st a b rest sa sb _ _ _ _ _ _ _ _ _ _ hne ih =>
    intro js zs st' h
    exact absurd h (hne js zs st')
  | case4 => intro js zs st' h; cases h
  | case5 => intro js zs st' h; cases h
  | case6 rest st hne =>
    intro js zs st' h
    cases h
    match rest, hne with
    | [], _ => simpa using Adds.refl st st rfl
    | [_], _ => simpa using Adds.refl st st rfl
    | a :: b :: rest, hne => exact absurd rfl (hne a b rest)

theorem batch_adds (E : Env K Leaf A Addr Acct) (aid : Nat) (cs zs : List (Coin K)) (st : St K A Addr Acct) :
    ∀ js zs' st', batch E aid cs zs st = (.ok (js, zs'), st') → Adds st st' (cs.length - 2) := by
  fun_induction batch E aid cs zs st with
  | case1 cs zs st hlen js1 zs1 st1 hr ih =>
    intro js zs' st' h
    have h1 := joinRound_adds E aid cs st _ _ _ hr
    have h2 := ih _ _ _ h
    have h3 := joinRound_length E aid cs st _ _ _ hr
    have := h1.trans h2
    have he : cs.length / 2 + (js1.length - 2) = cs.length - 2 := by omega
    rwa [he] at this
  | case2 => intro js zs' st' h; cases h
  | case3 => intro js zs' st' h; cases h
  | case4 cs zs st hlen =>
    intro js zs' st' h
    cases h
    have : cs.length - 2 = 0 := by omega
    rw [this]
    exact Adds.refl _ _ rfl

theorem prepareFinal_posts (E : Env K Leaf A Addr Acct) (m : AMap K) (aid : Nat) (zs cs : List (Coin K))
    (st : St K A Addr Acct) : (prepareFinal E m aid zs cs st).2.posts = st.posts := by
  unfold prepareFinal
  repeat' first | rfl | split | (simp only; split)

theorem signPrivate_adds (E : Env K Leaf A Addr Acct) (m : AMap K) (asset : Asset) (addr : Owner Addr) (change : Nat)
    (cs : List (Coin K)) (st st' : St K A Addr Acct)
    (h : signPrivate E m asset addr change cs st = (.ok (), st')) : Adds st st' (Nat.max (cs.length - 1) 1) := by
  unfold signPrivate at h
  split at h
  · cases h
  · cases h
  · rename_i cs' zs st1 hb
    have h1 := batch_adds E _ _ _ _ _ _ _ hb
    split at h
    · cases h
    · cases h
    · rename_i senders st2 hp
      have h2 := prepareFinal_posts E m asset.id zs cs' st1
      rw [hp] at h2
      split at h
      · cases h
      · rename_i hlen
        have h3 := buildPost_adds E _ _ st' ⟨by simp only [Shape]; simp; omega, _, _, rfl, rfl⟩ h
        have := (h1.trans (Adds.refl st1 st2 h2)).trans
          (h3 : Adds st2 st' 1)
        have he : cs.length - 2 + 0 + 1 = Nat.max (cs.length - 1) 1 := by
          simp only [Nat.max_def]; split <;> omega
        rwa [he] at this

theorem processToPublic_adds (E : Env K Leaf A Addr Acct) (aid : Nat) (senders : List (Sender K A)) (accts : List Acct)
    (change change' : Nat) (st st' : St K A Addr Acct)
    (h : processToPublic E aid senders accts change st = (.ok change', st')) : Adds st st' 1 := by
  unfold processToPublic at h
  split at h
  · cases h
  · rename_i hlen
    simp only at h
    split at h
    · cases h
    · split at h
      · rename_i hb
        cases h
        have hlen : senders.length = 2 := Decidable.not_not.1 hlen
        obtain ⟨txs, h1, h2, h3⟩ := buildPost_adds E _ _ st' ⟨by simp [Shape, hlen], _, _, rfl, rfl⟩ hb
        exact ⟨txs, h1, h2, h3⟩
      · cases h
      · cases h

theorem signToPublic_adds (E : Env K Leaf A Addr Acct) (m : AMap K) (aid : Nat) (accts : List Acct)
    (cs : List (Coin K)) (change : Nat) (st : St K A Addr Acct) :
    ∀ st', signToPublic E m aid accts cs change st = (.ok (), st') → Adds st st' ((cs.length + 1) / 2) := by
  fun_induction signToPublic E m aid accts cs change st with
  | case1 _ st => intro st' h; cases h; simpa using Adds.refl st st rfl
  | case4 c change st senders st1 hp _ st2 hq =>
    intro st' h
    cases h
    have h2 := prepareFinal_posts E m aid [] [c] st
    rw [hp] at h2
    have := (Adds.refl st st1 h2).trans (processToPublic_adds E _ _ _ _ _ _ _ hq)
    simpa using this
  | case8 a b rest change st senders hu change' st1 hq ih =>
    intro st' h
    have := (processToPublic_adds E _ _ _ _ _ _ _ hq).trans (ih _ h)
    have he : ((a :: b :: rest).length + 1) / 2 = 1 + (rest.length + 1) / 2 := by
      simp only [List.length_cons]; omega
    rwa [he]
  | _ => intro st' h; cases h

/-- What `sign` returns is what `sign_internal` has posted. -/
theorem finish_ok (E : Env K Leaf A Addr Acct) (g g' : Signer K A) (r : Res Unit × St K A Addr Acct)
    (posts : List (Tx K A Addr Acct)) (h : finish E g r = (.ok posts, g')) :
    ∃ st, r = (.ok (), st) ∧ st.posts = posts := by
  obtain ⟨r1, st⟩ := r
  cases r1 with
  | ok u => cases h; exact ⟨st, rfl, rfl⟩
  | err e => cases h
  | panic => cases h

/-- Number of posts as a function of the selected coins. -/
def Counted (E : Env K Leaf A Addr Acct) (m : AMap K) (n : Nat) : Transaction Addr Acct → Prop
  | .toPrivate _ => n = 1
  | .privateTransfer a _ => ∃ sel, select E m a = .ok sel ∧ n = Nat.max (sel.values.length - 1) 1
  | .toPublic a _ => ∃ sel, select E m a = .ok sel ∧ n = (sel.values.length + 1) / 2

theorem sign_adds (E : Env K Leaf A Addr Acct) (g g' : Signer K A) (t : Transaction Addr Acct)
    (posts : List (Tx K A Addr Acct)) (h : sign E g t = (.ok posts, g')) :
    (∀ tx ∈ posts, OwnFirst tx) ∧
    Counted E g.assets posts.length t := by
  obtain ⟨st, h1, h2⟩ := finish_ok E g g' _ posts h
  clear h
  subst h2
  have h := h1
  clear h1
  have key : ∀ (st0 : St K A Addr Acct) n, st0.posts = [] → Adds st0 st n →
      (∀ tx ∈ st.posts, OwnFirst tx) ∧ st.posts.length = n := by
    rintro st0 n h0 ⟨txs, h1, h2, h3⟩
    rw [h0, List.nil_append] at h1
    rw [h1]
    exact ⟨h3, h2⟩
  cases t with
  | toPrivate a =>
    simp only [signInternal] at h
    split at h
    · exact key _ 1 rfl (buildPost_adds E _ _ st ⟨by simp [Shape], _, _, rfl, rfl⟩ h)
    · cases h
  | privateTransfer a addr =>
    simp only [signInternal] at h
    split at h
    · split at h
      · rename_i sel hs
        obtain ⟨h1, h2⟩ := key _ _ rfl (signPrivate_adds E _ _ _ _ _ _ _ h)
        exact ⟨h1, sel, hs, h2⟩
      · cases h
      · cases h
    · cases h
  | toPublic a acct =>
    simp only [signInternal] at h
    split at h
    · split at h
      · rename_i sel hs
        obtain ⟨h1, h2⟩ := key _ _ rfl (signToPublic_adds E _ _ _ _ _ _ _ h)
        exact ⟨h1, sel, hs, h2⟩
      · cases h
      · cases h
    · cases h

/-! ## C94 -/

/-- C94 (part): whenever a request is signed, the estimate was the number of posts; excluded are private transfers of
the value zero. -/
theorem c94_exact_partial (E : Env K Leaf A Addr Acct) (checked : Bool) (g g' : Signer K A) (t : Transaction Addr Acct)
    (posts : List (Tx K A Addr Acct)) (h : sign E g t = (.ok posts, g'))
    (hz : ∀ a addr, t = .privateTransfer a addr → a.value ≠ 0) :
    estimate E checked g.assets t = .ok posts.length := by
  have hs := (sign_adds E g g' t posts h).2
  have hsel : ∀ a sel, select E g.assets a = .ok sel →
      AMap.select E.max g.assets a = some sel ∧ (a.value ≠ 0 → sel.values ≠ []) := by
    intro a sel hs
    unfold select at hs
    split at hs
    · cases hs
    · rename_i sel' hsel
      split at hs
      · cases hs
      · rename_i hne
        cases hs
        exact ⟨hsel, fun hv he => hne ⟨hv, he⟩⟩
  cases t with
  | toPrivate a => exact (congrArg Res.ok hs).symm
  | privateTransfer a addr =>
    obtain ⟨sel, h1, h2⟩ := hs
    obtain ⟨h3, h4⟩ := hsel a sel h1
    simp only [estimate, h3]
    rw [if_neg (by simpa using h4 (hz a addr rfl)), h2]
  | toPublic a acct =>
    obtain ⟨sel, h1, h2⟩ := hs
    obtain ⟨h3, -⟩ := hsel a sel h1
    simp only [estimate, h3, h2]

/-- C94 fails for the code: for a private transfer of the value zero, or of more than the balance, the estimate
underflows: it panics with overflow checks and is `usize::MAX` without. -/
theorem c94_underflow_violated (E : Env K Leaf A Addr Acct) (m : AMap K) (a : Asset) (addr : Owner Addr)
    (hmax : stock m a.id ≤ E.max) (ha : a.value = 0 ∨ stock m a.id < a.value) :
    estimate E true m (.privateTransfer a addr) = .panic ∧
    estimate E false m (.privateTransfer a addr) = .ok (2 ^ 64 - 1) := by
  obtain ⟨sel, hs, he⟩ := c21_select_complete E.max m a hmax
  have hl : sel.values.length = 0 := by rw [he.2 ha]; rfl
  simp only [estimate, hs, hl]
  exact ⟨rfl, rfl⟩

/-- C94: in particular for the transfer of zero, which is signed with one post. -/
theorem c94_zero_violated {E : Env K Leaf A Addr Acct} {free : A → Nat} (hL : Laws E free) (hP : Prover E)
    (g : Signer K A) (hg : Ready E g) (id : Nat) (hid : id ≠ 0 ∧ id < E.ids) (addr : Owner Addr)
    (hmax : stock g.assets id ≤ E.max) (hroom : 2 * (assetVectorWithId g.assets id).length ≤ free g.acc) :
    (∃ tx g', sign E g (.privateTransfer ⟨id, 0⟩ addr) = (.ok [tx], g')) ∧
    estimate E true g.assets (.privateTransfer ⟨id, 0⟩ addr) = .panic ∧
    estimate E false g.assets (.privateTransfer ⟨id, 0⟩ addr) = .ok (2 ^ 64 - 1) := by
  refine ⟨?_, c94_underflow_violated E g.assets ⟨id, 0⟩ addr hmax (.inl rfl)⟩
  obtain ⟨cs, change, posts, g', h1, _, h3, _, h5, _⟩ :=
    c27_private_transfer hL hP g hg ⟨id, 0⟩ hid addr hmax hroom (Nat.zero_le _)
  have hc := h5.count
  rw [h3.2 rfl] at hc
  match posts, hc with
  | [tx], _ => exact ⟨tx, g', h1⟩

/-- C94: for withdrawals and deposits the estimate never fails while the balance can be represented, and is zero when
nothing can be selected. -/
theorem c94_public (E : Env K Leaf A Addr Acct) (checked : Bool) (m : AMap K) (a : Asset) (acct : Acct)
    (hmax : stock m a.id ≤ E.max) :
    ∃ n, estimate E checked m (.toPublic a acct) = .ok n ∧ (n = 0 ↔ a.value = 0 ∨ stock m a.id < a.value) := by
  obtain ⟨sel, hs, he⟩ := c21_select_complete E.max m a hmax
  refine ⟨_, by simp only [estimate, hs]; rfl, ?_⟩
  rw [← he, ← List.length_eq_zero_iff]
  omega

/-! ## C95 -/

/-- A published post with the data of a signed transfer. `dk` is the viewing key of the signer, `ms` the minted coins.
All wallet outputs are opaque (`receiver`, functions.rs:419-440, uses the default associated data). -/
structure Publishes {P : Transfer.Prim} (K' : Transfer.Kit P) (dk : P.Scal) (p : Transfer.Post P.ty)
    (tx : Tx K A Addr Acct) (ms : List (Transfer.MintPlan P)) : Prop where
  coins : p.body.receivers = ms.map (Transfer.MintPlan.post K')
  count : ms.length = tx.receivers.length
  owner : ∀ x ∈ ms.zip tx.receivers, x.1.asset = x.2.asset ∧ x.1.transparent = false ∧
    (x.2.owner = .self → x.1.address = P.smul P.gen dk)
  sources : p.body.sources.length = tx.sources.length
  senders : p.body.senders.length = tx.senders.length
  sinks : p.body.sinks.length = tx.sinks.length
  auth : p.sig.isSome = decide (tx.senders ≠ [])
  id : p.body.assetId.isSome = decide (tx.sources ≠ [] ∨ tx.sinks ≠ [])

/-- `sign_with_transaction_data`, functions.rs:1428-1460, for the published posts; `none` is the panic of `expect`. -/
def withData {P : Transfer.Prim} (K' : Transfer.Kit P) (dk : P.Scal) :
    List (Transfer.Post P.ty) → Option (List (Transfer.Post P.ty × Transfer.TxData P))
  | [] => some []
  | p :: ps =>
    match Transfer.transactionData K' dk p, withData K' dk ps with
    | some d, some l => some ((p, d) :: l)
    | _, _ => none

/-- C95: every post of every signed request has an output of the signer in the place where the data are looked up, so the
data of own posts exist. -/
theorem c95_post {P : Transfer.Prim} (L : P.Laws) (K' : Transfer.Kit P) {V : Asset → Prop} (hc : K'.Correct V)
    (dk : P.Scal) (E : Env K Leaf A Addr Acct) (g g' : Signer K A) (t : Transaction Addr Acct)
    (posts : List (Tx K A Addr Acct)) (h : sign E g t = (.ok posts, g')) (tx : Tx K A Addr Acct) (htx : tx ∈ posts)
    (hv : ∀ r ∈ tx.receivers, V r.asset) (p : Transfer.Post P.ty) (ms : List (Transfer.MintPlan P))
    (hp : Publishes K' dk p tx ms) :
    ∃ d, Transfer.transactionData K' dk p = some d ∧
      ∃ m, ms.head? = some m ∧ ((false, m.rand), m.asset) ∈ d.list := by
  obtain ⟨hshape, r, rest, hr, hself⟩ := (sign_adds E g g' t posts h).1 tx htx
  obtain ⟨m, ms', rfl⟩ : ∃ m ms', ms = m :: ms' := by
    have := hp.count
    rw [hr] at this
    cases ms with
    | nil => cases this
    | cons m ms' => exact ⟨m, ms', rfl⟩
  have hm := hp.owner (m, r) (by rw [hr]; simp)
  have hvm : ∀ m' ∈ m :: ms', V m'.asset := by
    intro m' hm'
    obtain ⟨i, hi, rfl⟩ := List.mem_iff_getElem.1 hm'
    have hi' : i < tx.receivers.length := by rw [← hp.count]; exact hi
    have := hp.owner ((m :: ms')[i], tx.receivers[i]) (by
      refine List.mem_iff_getElem.2 ⟨i, by rw [List.length_zip]; omega, ?_⟩
      rw [List.getElem_zip])
    rw [this.1]
    exact hv _ (List.getElem_mem _)
  have hfp : Transfer.Shape.fromPost p ≠ none := by
    unfold Transfer.Shape.fromPost
    rw [hp.auth, hp.id, hp.sources, hp.senders, hp.sinks, hp.coins, List.length_map, hp.count]
    simp only [Shape, List.mem_cons, Prod.mk.injEq, List.not_mem_nil, or_false] at hshape
    rcases hshape with ⟨h1, h2, h3, h4⟩ | ⟨h1, h2, h3, h4⟩ | ⟨h1, h2, h3, h4⟩ <;> rw [h1, h2, h3, h4]
    · have e1 : tx.senders = [] := List.length_eq_zero_iff.1 h2
      have e2 : tx.sources ≠ [] := by intro he; rw [he] at h1; cases h1
      simp [e1, e2, Transfer.Shape.select, Transfer.requiresAuthorization, Transfer.hasPublicParticipants]
    · have e1 : tx.senders ≠ [] := by intro he; rw [he] at h2; cases h2
      have e2 : tx.sources = [] := List.length_eq_zero_iff.1 h1
      have e3 : tx.sinks = [] := List.length_eq_zero_iff.1 h4
      simp [e1, e2, e3, Transfer.Shape.select, Transfer.requiresAuthorization, Transfer.hasPublicParticipants]
    · have e1 : tx.senders ≠ [] := by intro he; rw [he] at h2; cases h2
      have e2 : tx.sources = [] := List.length_eq_zero_iff.1 h1
      have e3 : tx.sinks ≠ [] := by intro he; rw [he] at h4; cases h4
      simp [e1, e2, e3, Transfer.Shape.select, Transfer.requiresAuthorization, Transfer.hasPublicParticipants]
  obtain ⟨d, h1, h2, h3⟩ := Transfer.c92_complete L K' hc dk p (m :: ms') hp.coins hvm hfp
    (fun _ => ⟨m, rfl, hm.2.2 hself, hm.2.1⟩) (fun _ => ⟨m, List.mem_cons_self, hm.2.2 hself, hm.2.1⟩)
  refine ⟨d, h1, m, rfl, ?_⟩
  by_cases hpt : Transfer.Shape.fromPost p = some .privateTransfer
  · exact h2 hpt m List.mem_cons_self (hm.2.2 hself) hm.2.1
  · rw [h3 hpt m rfl]; exact List.mem_cons_self

/-- C95: signing with transaction data never panics on the lookup: each post comes with its data. -/
theorem c95_never_panics {P : Transfer.Prim} (L : P.Laws) (K' : Transfer.Kit P) {V : Asset → Prop} (hc : K'.Correct V)
    (dk : P.Scal) (E : Env K Leaf A Addr Acct) (g g' : Signer K A) (t : Transaction Addr Acct)
    (posts : List (Tx K A Addr Acct)) (h : sign E g t = (.ok posts, g'))
    (hv : ∀ tx ∈ posts, ∀ r ∈ tx.receivers, V r.asset)
    (publish : Tx K A Addr Acct → Transfer.Post P.ty)
    (hpub : ∀ tx ∈ posts, ∃ ms, Publishes K' dk (publish tx) tx ms) :
    ∃ l, withData K' dk (posts.map publish) = some l ∧ l.map Prod.fst = posts.map publish := by
  have key : ∀ txs : List (Tx K A Addr Acct), (∀ tx ∈ txs, tx ∈ posts) →
      ∃ l, withData K' dk (txs.map publish) = some l ∧ l.map Prod.fst = txs.map publish := by
    intro txs
    induction txs with
    | nil => intro _; exact ⟨[], rfl, rfl⟩
    | cons tx txs ih =>
      intro hall
      obtain ⟨l, h1, h2⟩ := ih fun x hx => hall x (List.mem_cons_of_mem _ hx)
      have hin := hall tx List.mem_cons_self
      obtain ⟨ms, hms⟩ := hpub tx hin
      obtain ⟨d, h3, -⟩ := c95_post L K' hc dk E g g' t posts h tx hin (hv tx hin) _ ms hms
      exact ⟨(publish tx, d) :: l, by simp only [List.map_cons, withData, h3, h1], by simp [h2]⟩
  exact key posts fun _ h => h

/-- C95: the answer has every post once, in order, with its own data; there is none if the data of any post are missing. -/
theorem c95_exact {P : Transfer.Prim} (K' : Transfer.Kit P) (dk : P.Scal) (ps : List (Transfer.Post P.ty))
    (l : List (Transfer.Post P.ty × Transfer.TxData P)) :
    withData K' dk ps = some l ↔
      l.map Prod.fst = ps ∧ ∀ x ∈ l, Transfer.transactionData K' dk x.1 = some x.2 := by
  induction ps generalizing l with
  | nil =>
    simp only [withData, Option.some.injEq, List.map_eq_nil_iff]
    constructor
    · rintro rfl; exact ⟨rfl, fun x hx => by cases hx⟩
    · exact fun h => h.1.symm
  | cons p ps ih =>
    simp only [withData]
    cases l with
    | nil =>
      constructor
      · intro h
        split at h
        · cases h
        · cases h
      · intro h; cases h.1
    | cons x l =>
      constructor
      · intro h
        split at h
        · rename_i d l' h1 h2
          simp only [Option.some.injEq, List.cons.injEq] at h
          obtain ⟨rfl, rfl⟩ := h
          obtain ⟨g1, g2⟩ := (ih l').1 h2
          refine ⟨by simp [g1], fun y hy => ?_⟩
          rcases List.mem_cons.1 hy with rfl | hy
          · exact h1
          · exact g2 y hy
        · cases h
      · rintro ⟨h1, h2⟩
        simp only [List.map_cons, List.cons.injEq] at h1
        obtain ⟨rfl, h1⟩ := h1
        have e1 := h2 x List.mem_cons_self
        have e2 := (ih l).2 ⟨h1, fun y hy => h2 y (List.mem_cons_of_mem _ hy)⟩
        rw [e1, e2]

/-! ## Concrete cases -/

/-- A payment of 95 from four coins takes three posts, a withdrawal of 95 two. -/
example : estimate (toyEnv fun _ => true) true toySigner.assets (.privateTransfer ⟨7, 95⟩ (.other 5)) = .ok 3 ∧
    estimate (toyEnv fun _ => true) true toySigner.assets (.toPublic ⟨7, 95⟩ 5) = .ok 2 ∧
    estimate (toyEnv fun _ => true) true toySigner.assets (.privateTransfer ⟨7, 101⟩ (.other 5)) = .panic := by
  decide +kernel

example : (match (sign (toyEnv fun _ => true) toySigner (.privateTransfer ⟨7, 95⟩ (.other 5))).1 with
    | .ok posts => posts.length | _ => 0) = 3 := by decide +kernel

/-- A published post of the last of these transfers: change of 5 to the own address 5, 95 to the address 6. -/
example : Publishes Transfer.tK (5 : Nat)
    (⟨some ⟨(1 : Nat), ((1 : Nat), (1 : Nat))⟩, ⟨none, [], [⟨(0 : Nat), ⟨[], ((0 : Nat), [])⟩⟩, ⟨(0 : Nat), ⟨[], ((0 : Nat), [])⟩⟩],
      [(Transfer.MintPlan.post Transfer.tK ⟨(5 : Nat), false, ⟨7, 5⟩, ((2 : Nat), (0 : Nat)), (3 : Nat)⟩),
       (Transfer.MintPlan.post Transfer.tK ⟨(6 : Nat), false, ⟨7, 95⟩, ((2 : Nat), (0 : Nat)), (4 : Nat)⟩)], [], (7 : Nat)⟩, []⟩
      : Transfer.Post Transfer.tP.ty)
    (⟨[], [⟨1, ⟨7, 60⟩, none⟩, ⟨2, ⟨7, 40⟩, none⟩], [⟨8, ⟨7, 5⟩, .self⟩, ⟨9, ⟨7, 95⟩, .other 6⟩], [], []⟩ : Tx Nat Unit Nat Nat)
    [⟨(5 : Nat), false, ⟨7, 5⟩, ((2 : Nat), (0 : Nat)), (3 : Nat)⟩,
     ⟨(6 : Nat), false, ⟨7, 95⟩, ((2 : Nat), (0 : Nat)), (4 : Nat)⟩] where
  coins := rfl
  count := rfl
  owner := by
    intro x hx
    simp only [List.zip_cons_cons, List.zip_nil_left, List.mem_cons, List.not_mem_nil, or_false] at hx
    rcases hx with rfl | rfl
    · exact ⟨rfl, rfl, fun _ => rfl⟩
    · exact ⟨rfl, rfl, fun h => by cases h⟩
  sources := rfl
  senders := rfl
  sinks := rfl
  auth := rfl
  id := rfl

end Verif.Sign
