import Verif.Sign.Props

/-!
# Where the coins of a signed request come from and where they go

For every request that is signed, without any assumption about accumulator or prover: outputs carry identifiers
that were just drawn, each once, and inputs are coins of the signer, outputs of earlier posts of the same request
that belong to the signer, or made-up coins of value zero.
-/

set_option linter.unusedSectionVars false

namespace Verif.Sign

open Verif.Asset Verif.Asset.AMap

variable {K Leaf A Addr Acct : Type}

/-- Outputs of posts, in order. -/
def made (posts : List (Tx K A Addr Acct)) : List (Receiver K Addr) := posts.flatMap Tx.receivers

/-- A coin that can be spent after `posts`: the signer had it or one of the posts gave it to the signer. -/
def Avail (m : AMap K) (posts : List (Tx K A Addr Acct)) (k : K) (a : Asset) : Prop :=
  Stored m k a ∨ (⟨k, a, .self⟩ : Receiver K Addr) ∈ made posts

/-- Provenance of inputs and outputs: `outs` are the positions in the random stream of the output identifiers. -/
structure Prov (E : Env K Leaf A Addr Acct) (m : AMap K) (n n' : Nat) (outs : List Nat)
    (posts : List (Tx K A Addr Acct)) : Prop where
  keys : (made posts).map Receiver.key = outs.map E.fresh
  once : outs.Nodup
  range : ∀ i ∈ outs, n ≤ i ∧ i < n'
  /-- inputs are available when they are spent -/
  flow : ∀ pre suf, posts = pre ++ suf → ∀ c ∈ spent pre, Avail m pre c.1 c.2 ∨
    (c.2.value = 0 ∧ ∃ i, n ≤ i ∧ i < n' ∧ i ∉ outs ∧ c.1 = E.fresh i)

theorem Prov.inputs {E : Env K Leaf A Addr Acct} {m : AMap K} {n n' : Nat} {outs : List Nat}
    {posts : List (Tx K A Addr Acct)} (h : Prov E m n n' outs posts) : ∀ c ∈ spent posts, Avail m posts c.1 c.2 ∨
    (c.2.value = 0 ∧ ∃ i, n ≤ i ∧ i < n' ∧ i ∉ outs ∧ c.1 = E.fresh i) :=
  h.flow posts [] (List.append_nil _).symm

theorem made_append (a b : List (Tx K A Addr Acct)) : made (a ++ b) = made a ++ made b := by simp [made]

theorem Avail.mono {m : AMap K} {posts more : List (Tx K A Addr Acct)} {k : K} {a : Asset}
    (h : Avail m posts k a) : Avail m (posts ++ more) k a := by
  rcases h with h | h
  · exact .inl h
  · exact .inr (by rw [made_append]; exact List.mem_append.mpr (.inl h))

theorem prov_nil (E : Env K Leaf A Addr Acct) (m : AMap K) (n : Nat) : Prov E m n n [] [] := by
  refine ⟨rfl, by simp, by simp, ?_⟩
  intro pre suf e c hc
  obtain ⟨rfl, rfl⟩ := List.append_eq_nil_iff.mp e.symm
  simp [spent] at hc

/-- Adding a post whose inputs are available or made up between `n'` and `n1` and whose outputs carry the
identifiers from `n1` on. -/
theorem Prov.add {E : Env K Leaf A Addr Acct} {m : AMap K} {n n' : Nat} {outs : List Nat}
    {posts : List (Tx K A Addr Acct)} (h : Prov E m n n' outs posts) (hn : n ≤ n') (tx : Tx K A Addr Acct)
    (n1 : Nat) (h1 : n' ≤ n1)
    (hk : tx.receivers.map Receiver.key = (List.range' n1 tx.receivers.length).map E.fresh)
    (hs : ∀ s ∈ tx.senders, Avail m posts s.key s.asset ∨
      (s.asset.value = 0 ∧ ∃ i, n' ≤ i ∧ i < n1 ∧ s.key = E.fresh i)) :
    Prov E m n (n1 + tx.receivers.length) (outs ++ List.range' n1 tx.receivers.length) (posts ++ [tx]) := by
  have hr : ∀ i ∈ List.range' n1 tx.receivers.length, n1 ≤ i ∧ i < n1 + tx.receivers.length := by
    intro i hi
    rw [List.mem_range'] at hi
    obtain ⟨j, hj, rfl⟩ := hi
    omega
  refine ⟨?_, ?_, ?_, ?_⟩
  · rw [made_append, List.map_append, List.map_append, h.keys, show made [tx] = tx.receivers by simp [made], hk]
  · rw [List.nodup_append]
    refine ⟨h.once, List.nodup_range', ?_⟩
    intro a ha b hb e
    have := h.range a ha
    have := hr b hb
    omega
  · intro i hi
    rcases List.mem_append.mp hi with hi | hi
    · have := h.range i hi; omega
    · have := hr i hi; omega
  · intro pre suf e c hc
    have hold : ∀ pre suf, posts = pre ++ suf → ∀ c ∈ spent pre, Avail m pre c.1 c.2 ∨ (c.2.value = 0 ∧ ∃ i, n ≤ i ∧
        i < n1 + tx.receivers.length ∧ i ∉ outs ++ List.range' n1 tx.receivers.length ∧ c.1 = E.fresh i) := by
      intro pre suf e c hc
      rcases h.flow pre suf e c hc with h | ⟨h0, i, a1, a2, a3, a4⟩
      · exact .inl h
      · refine .inr ⟨h0, i, a1, by omega, ?_, a4⟩
        intro hi
        rcases List.mem_append.mp hi with hi | hi
        · exact a3 hi
        · have := hr i hi; omega
    rcases List.eq_nil_or_concat suf with rfl | ⟨suf', x, rfl⟩
    · rw [List.append_nil] at e
      subst e
      rw [spent_append, List.mem_append] at hc
      rcases hc with hc | hc
      · rcases hold posts [] (by simp) c hc with h | h
        · exact .inl h.mono
        · exact .inr h
      · rw [spent_cons, spent_nil, List.append_nil, List.mem_map] at hc
        obtain ⟨s, hsm, rfl⟩ := hc
        rcases hs s hsm with h' | ⟨h0, i, a1, a2, a3⟩
        · exact .inl h'.mono
        · refine .inr ⟨h0, i, by omega, by omega, ?_, a3⟩
          intro hi
          rcases List.mem_append.mp hi with hi | hi
          · have := h.range i hi; omega
          · have := hr i hi; omega
    · rw [List.concat_eq_append, ← List.append_assoc] at e
      exact hold pre suf' (List.append_inj_left' e rfl) c hc

theorem Prov.widen {E : Env K Leaf A Addr Acct} {m : AMap K} {n n' n1 : Nat} {outs : List Nat}
    {posts : List (Tx K A Addr Acct)} (h : Prov E m n n' outs posts) (h1 : n' ≤ n1) : Prov E m n n1 outs posts := by
  refine ⟨h.keys, h.once, fun i hi => ⟨(h.range i hi).1, by have := (h.range i hi).2; omega⟩, fun pre suf e c hc => ?_⟩
  rcases h.flow pre suf e c hc with h | ⟨h0, i, a1, a2, a3⟩
  · exact .inl h
  · exact .inr ⟨h0, i, a1, by omega, a3⟩

/-- The first posts of a request have known provenance too. -/
theorem Prov.front {E : Env K Leaf A Addr Acct} {m : AMap K} {n n' : Nat} {outs : List Nat}
    {pre suf : List (Tx K A Addr Acct)} (h : Prov E m n n' outs (pre ++ suf)) :
    ∃ outs', Prov E m n n' outs' pre := by
  have hk := h.keys
  rw [made_append, List.map_append] at hk
  have hsub : ∀ i, i ∈ outs.take (made pre).length → i ∈ outs := fun i hi => List.mem_of_mem_take hi
  refine ⟨outs.take (made pre).length, ?_, h.once.sublist (List.take_sublist _ _), fun i hi => h.range i (hsub i hi), ?_⟩
  · have := congrArg (List.take (made pre).length) hk
    rw [List.take_left' (by rw [List.length_map]), ← List.map_take] at this
    exact this
  · intro a b e c hc
    rcases h.flow a (b ++ suf) (by rw [e, List.append_assoc]) c hc with h | ⟨h0, i, a1, a2, a3, a4⟩
    · exact .inl h
    · exact .inr ⟨h0, i, a1, a2, fun hi => a3 (hsub i hi), a4⟩

theorem upgrade_eq {E : Env K Leaf A Addr Acct} {acc : A} {aid : Nat} {c : Coin K} {s : Sender K A}
    (h : upgrade E acc aid c = some s) : s = ⟨c.1, ⟨aid, c.2⟩, some acc⟩ := by
  unfold upgrade at h
  split at h
  · exact (Option.some.inj h).symm
  · cases h

theorem upgradeAll_eq {E : Env K Leaf A Addr Acct} {acc : A} {aid : Nat} : ∀ {cs : List (Coin K)}
    {ss : List (Sender K A)}, upgradeAll E acc aid cs = some ss →
    ss = cs.map fun c => ⟨c.1, ⟨aid, c.2⟩, some acc⟩ := by
  intro cs
  induction cs with
  | nil => intro ss h; simp only [upgradeAll, Option.some.injEq] at h; subst h; rfl
  | cons c cs ih =>
    intro ss h
    simp only [upgradeAll] at h
    split at h
    · rename_i s ss' h1 h2
      simp only [Option.some.injEq] at h
      subst h
      rw [upgrade_eq h1, ih h2]
      rfl
    · cases h

theorem joinRound_flow {E : Env K Leaf A Addr Acct} (m : AMap K) (n aid : Nat) (cs : List (Coin K))
    (st : St K A Addr Acct) : ∀ js zs st' outs, joinRound E aid cs st = (.ok (js, zs), st') →
    n ≤ st.next → Prov E m n st.next outs st.posts → (∀ c ∈ cs, Avail m st.posts c.1 ⟨aid, c.2⟩) →
    ∃ outs', Prov E m n st'.next outs' st'.posts ∧ n ≤ st'.next ∧ (∃ more, st'.posts = st.posts ++ more) ∧
      (∀ c ∈ js, Avail m st'.posts c.1 ⟨aid, c.2⟩) ∧ (∀ c ∈ zs, Avail m st'.posts c.1 ⟨aid, c.2⟩) := by
  fun_induction joinRound E aid cs st with
  | case1 => intro js zs st' outs h; cases h
  | case2 a b rest st sa sb hb ha total hm k z tx hp acc1 acc2 js' zs' st1 hr ih =>
    intro js zs st' outs h hn hpr hc
    cases h
    have hsa := upgrade_eq ha
    have hsb := upgrade_eq hb
    have hadd := hpr.add hn tx st.next (Nat.le_refl _) (by simp [tx, k, z, List.range'])
      (by
        intro s hs
        simp only [tx, List.mem_cons, List.not_mem_nil, or_false] at hs
        rcases hs with rfl | rfl
        · rw [hsa]; exact .inl (hc a (by simp))
        · rw [hsb]; exact .inl (hc b (by simp)))
    obtain ⟨outs', h1, h2, ⟨more, h3⟩, h4, h5⟩ := ih _ _ _ _ hr (by simp only; omega) hadd
      (fun c hcm => (hc c (by simp [hcm])).mono)
    refine ⟨outs', h1, h2, ⟨tx :: more, by rw [h3]; simp⟩, ?_, ?_⟩
    · intro c hcm
      rcases List.mem_cons.mp hcm with rfl | hcm
      · refine .inr ?_
        rw [h3, made_append, made_append]
        simp [made, tx]
      · exact h4 c hcm
    · intro c hcm
      rcases List.mem_cons.mp hcm with rfl | hcm
      · refine .inr ?_
        rw [h3, made_append, made_append]
        simp [made, tx]
      · exact h5 c hcm
  | case3 a b rest st sa sb _ _ _ _ _ _ _ _ _ _ hne ih =>
    intro js zs st' outs h
    exact absurd h (hne js zs st')
  | case4 => intro js zs st' outs h; cases h
  | case5 => intro js zs st' outs h; cases h
  | case6 rest st hne =>
    intro js zs st' outs h hn hpr hc
    cases h
    exact ⟨outs, hpr, hn, ⟨[], by simp⟩, hc, by simp⟩

theorem batch_flow {E : Env K Leaf A Addr Acct} (m : AMap K) (n aid : Nat) (cs zs : List (Coin K))
    (st : St K A Addr Acct) : ∀ js zs' st' outs, batch E aid cs zs st = (.ok (js, zs'), st') →
    n ≤ st.next → Prov E m n st.next outs st.posts → (∀ c ∈ cs, Avail m st.posts c.1 ⟨aid, c.2⟩) →
    (∀ c ∈ zs, Avail m st.posts c.1 ⟨aid, c.2⟩) →
    ∃ outs', Prov E m n st'.next outs' st'.posts ∧ n ≤ st'.next ∧ (∃ more, st'.posts = st.posts ++ more) ∧
      (∀ c ∈ js, Avail m st'.posts c.1 ⟨aid, c.2⟩) ∧ (∀ c ∈ zs', Avail m st'.posts c.1 ⟨aid, c.2⟩) := by
  fun_induction batch E aid cs zs st with
  | case1 cs zs st hl js1 zs1 st1 hr ih =>
    intro js zs' st' outs h hn hpr hc hz
    obtain ⟨outs1, h1, h2, ⟨more, h3⟩, h4, h5⟩ := joinRound_flow m n aid cs st _ _ _ outs hr hn hpr hc
    obtain ⟨outs2, k1, k2, ⟨more', k3⟩, k4, k5⟩ := ih _ _ _ outs1 h h2 h1 h4 (by
      intro c hcm
      rcases List.mem_append.mp hcm with hcm | hcm
      · rw [h3]; exact (hz c hcm).mono
      · exact h5 c hcm)
    exact ⟨outs2, k1, k2, ⟨more ++ more', by rw [k3, h3, List.append_assoc]⟩, k4, k5⟩
  | case2 => intro js zs' st' outs h; cases h
  | case3 => intro js zs' st' outs h; cases h
  | case4 cs zs st hl =>
    intro js zs' st' outs h hn hpr hc hz
    cases h
    exact ⟨outs, hpr, hn, ⟨[], by simp⟩, hc, hz⟩

/-- Inputs prepared for the last post are available or made up. -/
theorem prepareFinal_flow {E : Env K Leaf A Addr Acct} (m : AMap K) (aid : Nat) (zs cs : List (Coin K))
    (st st' : St K A Addr Acct) (ss : List (Sender K A)) (h : prepareFinal E m aid zs cs st = (.ok ss, st'))
    (hc : ∀ c ∈ cs, Avail m st.posts c.1 ⟨aid, c.2⟩) (hz : ∀ c ∈ zs, Avail m st.posts c.1 ⟨aid, c.2⟩) :
    st'.posts = st.posts ∧ st'.acc = st.acc ∧ st.next ≤ st'.next ∧
      ∀ s ∈ ss, Avail m st.posts s.key s.asset ∨
        (s.asset.value = 0 ∧ ∃ i, st.next ≤ i ∧ i < st'.next ∧ s.key = E.fresh i) := by
  unfold prepareFinal at h
  split at h
  · cases h
  · rename_i senders h1
    have e1 := upgradeAll_eq h1
    have q1 : ∀ s ∈ senders, Avail m st.posts s.key s.asset := by
      intro s hs
      rw [e1] at hs
      obtain ⟨c, hcm, rfl⟩ := List.mem_map.mp hs
      exact hc c hcm
    split at h
    · cases h
    · dsimp only at h
      split at h
      · cases h
        exact ⟨rfl, rfl, Nat.le_refl _, fun s hs => .inl (q1 s hs)⟩
      · split at h
        · cases h
        · rename_i zsenders h2
          have e2 := upgradeAll_eq h2
          have q2 : ∀ s ∈ zsenders, Avail m st.posts s.key s.asset := by
            intro s hs
            rw [e2] at hs
            obtain ⟨c, hcm, rfl⟩ := List.mem_map.mp hs
            obtain ⟨k, hk, rfl⟩ := List.mem_map.mp hcm
            exact .inl ((c20_zeroes m _ _).2.1 k hk)
          split at h
          · cases h
            refine ⟨rfl, rfl, Nat.le_refl _, fun s hs => .inl ?_⟩
            rcases List.mem_append.mp hs with hs | hs
            · exact q1 s hs
            · exact q2 s hs
          · split at h
            · cases h
            · rename_i nsenders h3
              have e3 := upgradeAll_eq h3
              cases h
              refine ⟨rfl, rfl, by simp, fun s hs => ?_⟩
              rcases List.mem_append.mp hs with hs | hs
              · rcases List.mem_append.mp hs with hs | hs
                · rcases List.mem_append.mp hs with hs | hs
                  · exact .inl (q1 s hs)
                  · exact .inl (q2 s hs)
                · rw [e3] at hs
                  obtain ⟨c, hcm, rfl⟩ := List.mem_map.mp hs
                  exact .inl (hz c (List.mem_reverse.mp (List.take_subset _ _ hcm)))
              · obtain ⟨i, hi, rfl⟩ := List.mem_map.mp hs
                rw [List.mem_range] at hi
                exact .inr ⟨rfl, st.next + i, by omega, by simp only; omega, rfl⟩

theorem buildPost_flow {E : Env K Leaf A Addr Acct} {m : AMap K} {n n' n1 : Nat} {outs : List Nat}
    {tx : Tx K A Addr Acct} {st st' : St K A Addr Acct} {u : Unit} (h : buildPost E tx st = (.ok u, st'))
    (hpr : Prov E m n n' outs st.posts) (hn : n ≤ n') (h1 : n' ≤ n1) (hst : st.next = n1 + tx.receivers.length)
    (hk : tx.receivers.map Receiver.key = (List.range' n1 tx.receivers.length).map E.fresh)
    (hs : ∀ s ∈ tx.senders, Avail m st.posts s.key s.asset ∨
      (s.asset.value = 0 ∧ ∃ i, n' ≤ i ∧ i < n1 ∧ s.key = E.fresh i)) :
    ∃ outs', Prov E m n st'.next outs' st'.posts ∧ n ≤ st'.next ∧ ∃ more, st'.posts = st.posts ++ more := by
  unfold buildPost at h
  split at h
  · cases h
    refine ⟨outs ++ List.range' n1 tx.receivers.length, ?_, by simp only; omega, _, rfl⟩
    simp only [hst]
    exact hpr.add hn tx n1 h1 hk hs
  · cases h

theorem signPrivate_flow {E : Env K Leaf A Addr Acct} (m : AMap K) (n : Nat) (asset : Asset) (addr : Owner Addr)
    (change : Nat) (cs : List (Coin K)) (st st' : St K A Addr Acct) (outs : List Nat) (u : Unit)
    (h : signPrivate E m asset addr change cs st = (.ok u, st')) (hn : n ≤ st.next)
    (hpr : Prov E m n st.next outs st.posts) (hc : ∀ c ∈ cs, Avail m st.posts c.1 ⟨asset.id, c.2⟩) :
    ∃ outs', Prov E m n st'.next outs' st'.posts := by
  unfold signPrivate at h
  split at h
  · cases h
  · cases h
  · rename_i cs' zs st1 hb
    obtain ⟨outs1, h1, h2, _, h4, h5⟩ := batch_flow m n asset.id cs [] st _ _ _ outs hb hn hpr hc (by simp)
    split at h
    · cases h
    · cases h
    · rename_i senders st2 hf
      obtain ⟨f1, f2, f3, f4⟩ := prepareFinal_flow m asset.id zs cs' st1 st2 senders hf h4 h5
      split at h
      · cases h
      · obtain ⟨o, k1, _⟩ := buildPost_flow (m := m) (outs := outs1) h (by simp only [f1]; exact h1) h2
          (n1 := st2.next) f3 rfl (by simp [List.range']) (by simp only [f1]; exact f4)
        exact ⟨o, k1⟩

theorem processToPublic_flow {E : Env K Leaf A Addr Acct} (m : AMap K) (n aid : Nat) (ss : List (Sender K A))
    (accts : List Acct) (change c' : Nat) (st st' : St K A Addr Acct) (outs : List Nat) (n0 : Nat)
    (h : processToPublic E aid ss accts change st = (.ok c', st')) (hn : n ≤ n0) (h0 : n0 ≤ st.next)
    (hpr : Prov E m n n0 outs st.posts)
    (hs : ∀ s ∈ ss, Avail m st.posts s.key s.asset ∨
        (s.asset.value = 0 ∧ ∃ i, n0 ≤ i ∧ i < st.next ∧ s.key = E.fresh i)) :
    ∃ outs', Prov E m n st'.next outs' st'.posts ∧ n ≤ st'.next ∧ ∃ more, st'.posts = st.posts ++ more := by
  unfold processToPublic at h
  split at h
  · cases h
  · dsimp only at h
    split at h
    · cases h
    · split at h
      · rename_i hb
        cases h
        have key := buildPost_flow (n' := n0) (n1 := st.next) (outs := outs) hb hpr hn h0 rfl rfl hs
        exact key
      · cases h
      · cases h

theorem signToPublic_flow {E : Env K Leaf A Addr Acct} (m : AMap K) (n aid : Nat) (accts : List Acct)
    (cs : List (Coin K)) (change : Nat) (st : St K A Addr Acct) : ∀ st' outs u,
    signToPublic E m aid accts cs change st = (.ok u, st') → n ≤ st.next →
    Prov E m n st.next outs st.posts → (∀ c ∈ cs, Avail m st.posts c.1 ⟨aid, c.2⟩) →
    ∃ outs', Prov E m n st'.next outs' st'.posts := by
  induction h : cs.length using Nat.strongRecOn generalizing cs change st with
  | _ len ih =>
    subst h
    match cs with
    | [] =>
      intro st' outs u h hn hpr _
      simp only [signToPublic, Prod.mk.injEq] at h
      rw [← h.2]
      exact ⟨outs, hpr⟩
    | [c] =>
      intro st' outs u h hn hpr hc
      simp only [signToPublic] at h
      split at h
      · cases h
      · cases h
      · rename_i senders st1 hf
        obtain ⟨f1, f2, f3, f4⟩ := prepareFinal_flow m aid [] [c] st st1 senders hf hc (by simp)
        split at h
        · rename_i c' st2 hp
          simp only [Prod.mk.injEq] at h
          rw [← h.2]
          obtain ⟨o, h1, _, _⟩ := processToPublic_flow m n aid senders accts change c' st1 st2 outs st.next hp hn f3
            (by rw [f1]; exact hpr) (by rw [f1]; exact f4)
          exact ⟨o, h1⟩
        · cases h
        · cases h
    | a :: b :: rest =>
      intro st' outs u h hn hpr hc
      simp only [signToPublic] at h
      split at h
      · cases h
      · rename_i senders hu
        have e := upgradeAll_eq hu
        split at h
        · rename_i c' st1 hp
          obtain ⟨o, h1, h2, ⟨more, h3⟩⟩ := processToPublic_flow m n aid senders accts change c' st st1 outs st.next hp
            hn (Nat.le_refl _) hpr (by
              intro s hs
              rw [e] at hs
              obtain ⟨c, hcm, rfl⟩ := List.mem_map.mp hs
              refine .inl (hc c ?_)
              simp only [List.mem_cons, List.not_mem_nil, or_false] at hcm
              rcases hcm with rfl | rfl <;> simp)
          exact ih rest.length (by simp only [List.length_cons]; omega) rest c' st1 rfl st' o u h h2 h1
            (fun c hcm => by rw [h3]; exact (hc c (by simp [hcm])).mono)
        · cases h
        · cases h

/-- Every signed request: outputs have identifiers just drawn, each once; inputs are the signer's coins, earlier
outputs to the signer, or made-up coins of value zero under identifiers that no output has. -/
theorem sign_flow (E : Env K Leaf A Addr Acct) (g g' : Signer K A) (hm : MWF g.assets) (t : Transaction Addr Acct)
    (posts : List (Tx K A Addr Acct)) (h : sign E g t = (.ok posts, g')) :
    ∃ outs, Prov E g.assets g.next g'.next outs posts := by
  have hsel : ∀ a sel, select E g.assets a = .ok sel → ∀ c ∈ sel.values,
      Avail g.assets ([] : List (Tx K A Addr Acct)) c.1 ⟨a.id, c.2⟩ := by
    intro a sel hs c hc
    unfold select at hs
    split at hs
    · cases hs
    · rename_i sel' hs'
      split at hs
      · cases hs
      · cases hs
        exact .inl ((c20_select_exact E.max g.assets hm a sel hs').1 c hc).1
  unfold sign finish at h
  split at h
  · rename_i st hi
    simp only [Prod.mk.injEq, Res.ok.injEq] at h
    obtain ⟨rfl, rfl⟩ := h
    unfold signInternal at hi
    dsimp only at hi
    split at hi
    · split at hi
      · obtain ⟨o, k1, _⟩ := buildPost_flow hi (prov_nil E g.assets g.next) (Nat.le_refl _) (n1 := g.next)
          (Nat.le_refl _) rfl rfl (by simp)
        exact ⟨o, k1⟩
      · cases hi
    · split at hi
      · split at hi
        · rename_i sel hs
          exact signPrivate_flow g.assets g.next _ _ _ _ _ _ [] _ hi (Nat.le_refl _) (prov_nil _ _ _) (hsel _ _ hs)
        · cases hi
        · cases hi
      · cases hi
    · split at hi
      · split at hi
        · rename_i sel hs
          exact signToPublic_flow g.assets g.next _ _ _ _ _ _ [] _ hi (Nat.le_refl _) (prov_nil _ _ _) (hsel _ _ hs)
        · cases hi
        · cases hi
      · cases hi
  · cases h
  · cases h

/-- The same for consolidations. -/
theorem consolidate_flow [DecidableEq K] (E : Env K Leaf A Addr Acct) (g g' : Signer K A) (req : List (K × Asset))
    (posts : List (Tx K A Addr Acct)) (h : consolidate E g req = (.ok posts, g')) :
    ∃ outs, Prov E g.assets g.next g'.next outs posts := by
  unfold consolidate finish at h
  dsimp only at h
  split at h
  · rename_i st hi
    simp only [Prod.mk.injEq, Res.ok.injEq] at h
    obtain ⟨rfl, rfl⟩ := h
    split at hi
    · split at hi
      · cases hi
      · rename_i first rest
        split at hi
        · split at hi
          · cases hi
          · split at hi
            · rename_i hok _ hall
              refine signPrivate_flow g.assets g.next _ _ _ _ _ _ [] _ hi (Nat.le_refl _) (prov_nil _ _ _) ?_
              intro c hc
              obtain ⟨x, hx, rfl⟩ := List.mem_map.mp hc
              have := List.all_eq_true.mp hall x hx
              rw [List.contains_iff_mem] at this
              obtain ⟨h1, h2⟩ := (c20_asset_vector_with_id g.assets first.2.id x.1 x.2).mp this
              refine .inl ?_
              have e : (⟨first.2.id, x.2.value⟩ : Asset) = x.2 := by rw [← h2]
              simp only [e]
              exact h1
            · cases hi
        · cases hi
    · cases hi
  · cases h
  · cases h

end Verif.Sign
