import Verif.Sign.Props

/-! C140: what a failing proof system does to a signing request. The specification compares the request with the same
request to a signer whose proof system never fails. -/

namespace Verif.Sign

open Verif.Asset Verif.Asset.AMap

variable {K Leaf A Addr Acct : Type}

/-- The same signer with a proof system that never fails. -/
def reliable (E : Env K Leaf A Addr Acct) : Env K Leaf A Addr Acct := { E with prove := fun _ => true }

/-- `r` is the outcome where `r'` is the outcome with the reliable proof system, both from `st`: the same, if the proof
system succeeds on each post added, and the proof system's error otherwise. -/
def Follows {α : Type} (E : Env K Leaf A Addr Acct) (st : St K A Addr Acct) (r r' : Res α × St K A Addr Acct) : Prop :=
  ∃ new, r'.2.posts = st.posts ++ new ∧
    ((∀ p ∈ new, E.prove p = true) → r = r') ∧ ((∃ p ∈ new, E.prove p = false) → r.1 = .err .proofSystem)

theorem Follows.refl {α : Type} {E : Env K Leaf A Addr Acct} {st : St K A Addr Acct} {r : Res α × St K A Addr Acct}
    (h : r.2.posts = st.posts) : Follows E st r r := ⟨[], by simp [h], fun _ => rfl, by simp⟩

theorem upgradeAll_reliable (E : Env K Leaf A Addr Acct) (acc : A) (aid : Nat) : ∀ cs,
    upgradeAll (reliable E) acc aid cs = upgradeAll E acc aid cs
  | [] => rfl
  | c :: cs => by simp only [upgradeAll, upgradeAll_reliable E acc aid cs]; rfl

theorem prepareFinal_reliable (E : Env K Leaf A Addr Acct) (m : AMap K) (aid : Nat) (zs cs : List (Coin K))
    (st : St K A Addr Acct) : prepareFinal (reliable E) m aid zs cs st = prepareFinal E m aid zs cs st := by
  simp only [prepareFinal, upgradeAll_reliable]
  rfl

theorem prepareFinal_posts (E : Env K Leaf A Addr Acct) (m : AMap K) (aid : Nat) (zs cs : List (Coin K))
    (st : St K A Addr Acct) : (prepareFinal E m aid zs cs st).2.posts = st.posts := by
  unfold prepareFinal
  dsimp only
  repeat' split
  all_goals rfl

theorem buildPost_follows (E : Env K Leaf A Addr Acct) (tx : Tx K A Addr Acct) (st : St K A Addr Acct) :
    Follows E st (buildPost E tx st) (buildPost (reliable E) tx st) := by
  refine ⟨[tx], by simp [buildPost, reliable], ?_, ?_⟩
  · intro h
    have := h tx (by simp)
    simp [buildPost, reliable, this]
  · rintro ⟨p, hp, h⟩
    rw [List.mem_singleton] at hp
    subst hp
    simp [buildPost, h]

/-- Followed by a function that also follows, the whole follows. -/
theorem Follows.bind {α β : Type} {E : Env K Leaf A Addr Acct} {st : St K A Addr Acct} {r r' : Res α × St K A Addr Acct}
    {k k' : Res α × St K A Addr Acct → Res β × St K A Addr Acct} (h : Follows E st r r')
    (hk : Follows E r'.2 (k r') (k' r')) (he : ∀ x, x.1 = .err .proofSystem → (k x).1 = .err .proofSystem) :
    Follows E st (k r) (k' r') := by
  obtain ⟨new, h1, h2, h3⟩ := h
  obtain ⟨new', g1, g2, g3⟩ := hk
  refine ⟨new ++ new', by rw [g1, h1, List.append_assoc], ?_, ?_⟩
  · intro hp
    rw [h2 fun p hm => hp p (List.mem_append_left _ hm)]
    exact g2 fun p hm => hp p (List.mem_append_right _ hm)
  · rintro ⟨p, hm, hp⟩
    by_cases hn : ∃ q ∈ new, E.prove q = false
    · exact he r (h3 hn)
    · have hn' : ∀ q ∈ new, E.prove q = true := by
        intro q hq
        cases hb : E.prove q with
        | true => rfl
        | false => exact absurd ⟨q, hq, hb⟩ hn
      rw [h2 hn']
      rcases List.mem_append.mp hm with hm | hm
      · rw [hn' p hm] at hp; cases hp
      · exact g3 ⟨p, hm, hp⟩

theorem joinRound_follows (E : Env K Leaf A Addr Acct) (aid : Nat) : ∀ (n : Nat) (cs : List (Coin K))
    (st : St K A Addr Acct), cs.length ≤ n → Follows E st (joinRound E aid cs st) (joinRound (reliable E) aid cs st) := by
  intro n
  induction n with
  | zero =>
    intro cs st h
    have : cs = [] := List.length_eq_zero_iff.mp (by omega)
    subst this
    exact .refl rfl
  | succ n ih =>
    intro cs st h
    match cs with
    | [] => exact .refl rfl
    | [c] => exact .refl rfl
    | a :: b :: rest =>
      rw [joinRound, joinRound]
      have hu : ∀ c, upgrade (reliable E) st.acc aid c = upgrade E st.acc aid c := fun _ => rfl
      rw [hu, hu]
      rcases upgrade E st.acc aid a with _ | sa
      · exact .refl rfl
      · rcases upgrade E st.acc aid b with _ | sb
        · exact .refl rfl
        · dsimp only
          have hm : (reliable E).max = E.max := rfl
          have hf : (reliable E).fresh = E.fresh := rfl
          have hi : (reliable E).insert = E.insert := rfl
          have hl : (reliable E).leaf = E.leaf := rfl
          have hp : ∀ t, (reliable E).prove t = true := fun _ => rfl
          rw [hm, hf, hi, hl]
          by_cases ho : sa.asset.value + sb.asset.value > E.max
          · rw [if_pos ho, if_pos ho]; exact .refl rfl
          · rw [if_neg ho, if_neg ho, if_pos (hp _)]
            generalize htx : (⟨[], [sa, sb], [⟨E.fresh st.next, ⟨aid, sa.asset.value + sb.asset.value⟩, .self⟩,
              ⟨E.fresh (st.next + 1), ⟨aid, 0⟩, .self⟩], [], []⟩ : Tx K A Addr Acct) = tx
            generalize hst : (⟨_, st.posts ++ [tx], st.next + 2⟩ : St K A Addr Acct) = st1
            have hs1 : st1.posts = st.posts ++ [tx] := by rw [← hst]
            obtain ⟨new, h1, h2, h3⟩ := ih rest st1 (by simp only [List.length_cons] at h; omega)
            refine ⟨tx :: new, ?_, ?_, ?_⟩
            · have : (joinRound (reliable E) aid rest st1).2.posts = st.posts ++ tx :: new := by rw [h1, hs1]; simp
              rcases hj : joinRound (reliable E) aid rest st1 with ⟨⟨js, zs⟩ | e | _, st'⟩
              · rw [hj] at this; exact this
              · rw [hj] at this; exact this
              · rw [hj] at this; exact this
            · intro hall
              rw [if_pos (hall tx (by simp)), h2 fun p hp => hall p (by simp [hp])]
            · rintro ⟨p, hmem, hpf⟩
              by_cases ht : E.prove tx = true
              · rw [if_pos ht]
                have : p ∈ new := by
                  rcases List.mem_cons.mp hmem with rfl | hm
                  · rw [ht] at hpf; cases hpf
                  · exact hm
                have := h3 ⟨p, this, hpf⟩
                rcases hj : joinRound E aid rest st1 with ⟨⟨js, zs⟩ | e | _, st'⟩
                · rw [hj] at this; cases this
                · rw [hj] at this; exact this
                · rw [hj] at this; cases this
              · rw [if_neg ht]

theorem batch_eq (E : Env K Leaf A Addr Acct) (aid : Nat) (cs zs : List (Coin K)) (st : St K A Addr Acct)
    (h : cs.length > 2) : batch E aid cs zs st = match joinRound E aid cs st with
      | (.ok (js, zs'), st') => batch E aid js (zs ++ zs') st'
      | (.err e, st') => (.err e, st')
      | (.panic, st') => (.panic, st') := by
  rw [batch, dif_pos h]
  split <;> simp_all

theorem batch_follows (E : Env K Leaf A Addr Acct) (aid : Nat) : ∀ (n : Nat) (cs zs : List (Coin K))
    (st : St K A Addr Acct), cs.length ≤ n → Follows E st (batch E aid cs zs st) (batch (reliable E) aid cs zs st) := by
  intro n
  induction n with
  | zero =>
    intro cs zs st h
    rw [batch, batch, dif_neg (by omega), dif_neg (by omega)]
    exact .refl rfl
  | succ n ih =>
    intro cs zs st h
    by_cases h2 : cs.length > 2
    · rw [batch_eq E aid cs zs st h2, batch_eq (reliable E) aid cs zs st h2]
      refine Follows.bind (k := fun x => match x with
          | (.ok (js, zs'), st') => batch E aid js (zs ++ zs') st'
          | (.err e, st') => (.err e, st')
          | (.panic, st') => (.panic, st'))
        (k' := fun x => match x with
          | (.ok (js, zs'), st') => batch (reliable E) aid js (zs ++ zs') st'
          | (.err e, st') => (.err e, st')
          | (.panic, st') => (.panic, st')) (joinRound_follows E aid _ cs st (Nat.le_refl _)) ?_ ?_
      · rcases hj : joinRound (reliable E) aid cs st with ⟨⟨js, zs'⟩ | e | _, st'⟩
        · have := joinRound_length (reliable E) aid cs st _ _ _ hj
          exact ih js _ st' (by omega)
        · exact .refl rfl
        · exact .refl rfl
      · rintro ⟨r, st'⟩ rfl
        rfl
    · rw [batch, batch, dif_neg h2, dif_neg h2]
      exact .refl rfl

theorem signPrivate_follows (E : Env K Leaf A Addr Acct) (m : AMap K) (asset : Asset) (addr : Owner Addr) (change : Nat)
    (cs : List (Coin K)) (st : St K A Addr Acct) :
    Follows E st (signPrivate E m asset addr change cs st) (signPrivate (reliable E) m asset addr change cs st) := by
  have hb := batch_follows E asset.id _ cs [] st (Nat.le_refl _)
  unfold signPrivate
  refine Follows.bind (k := fun x => match x with
      | (.err e, st1) => (.err e, st1)
      | (.panic, st1) => (.panic, st1)
      | (.ok (cs', zs), st1) =>
        match prepareFinal E m asset.id zs cs' st1 with
        | (.err e, st2) => (.err e, st2)
        | (.panic, st2) => (.panic, st2)
        | (.ok senders, st2) =>
          if senders.length ≠ 2 then (.panic, st2)
          else
            buildPost E ⟨[], senders, [⟨E.fresh st2.next, ⟨asset.id, change⟩, .self⟩,
              ⟨E.fresh (st2.next + 1), asset, addr⟩], [], []⟩ { st2 with next := st2.next + 2 })
    (k' := fun x => match x with
      | (.err e, st1) => (.err e, st1)
      | (.panic, st1) => (.panic, st1)
      | (.ok (cs', zs), st1) =>
        match prepareFinal (reliable E) m asset.id zs cs' st1 with
        | (.err e, st2) => (.err e, st2)
        | (.panic, st2) => (.panic, st2)
        | (.ok senders, st2) =>
          if senders.length ≠ 2 then (.panic, st2)
          else
            buildPost (reliable E) ⟨[], senders, [⟨(reliable E).fresh st2.next, ⟨asset.id, change⟩, .self⟩,
              ⟨(reliable E).fresh (st2.next + 1), asset, addr⟩], [], []⟩ { st2 with next := st2.next + 2 }) hb ?_ ?_
  · rcases batch (reliable E) asset.id cs [] st with ⟨⟨js, zs'⟩ | e | _, st'⟩
    · dsimp only
      rw [prepareFinal_reliable]
      have hp := prepareFinal_posts E m asset.id zs' js st'
      rcases hpf : prepareFinal E m asset.id zs' js st' with ⟨ss | e | _, st2⟩ <;> rw [hpf] at hp
      · dsimp only at hp ⊢
        split
        · exact .refl hp
        · obtain ⟨new, h1, h2⟩ := buildPost_follows E ⟨[], ss, [⟨E.fresh st2.next, ⟨asset.id, change⟩, .self⟩,
              ⟨E.fresh (st2.next + 1), asset, addr⟩], [], []⟩ { st2 with next := st2.next + 2 }
          exact ⟨new, by rw [← hp]; exact h1, h2⟩
      · exact .refl hp
      · exact .refl hp
    · exact .refl rfl
    · exact .refl rfl
  · rintro ⟨r, st'⟩ rfl
    rfl

theorem processToPublic_follows (E : Env K Leaf A Addr Acct) (aid : Nat) (senders : List (Sender K A))
    (accts : List Acct) (change : Nat) (st : St K A Addr Acct) :
    Follows E st (processToPublic E aid senders accts change st)
      (processToPublic (reliable E) aid senders accts change st) := by
  unfold processToPublic
  have hm : (reliable E).max = E.max := rfl
  have hf : (reliable E).fresh = E.fresh := rfl
  rw [hm, hf]
  split
  · exact .refl rfl
  · dsimp only
    split
    · exact .refl rfl
    · generalize (if (senders.map fun s => s.asset.value).sum ≥ change then
        (change, (senders.map fun s => s.asset.value).sum - change, 0)
        else ((senders.map fun s => s.asset.value).sum, 0, change - (senders.map fun s => s.asset.value).sum)) = w
      obtain ⟨w1, w2, w3⟩ := w
      dsimp only
      obtain ⟨new, h1, h2⟩ := buildPost_follows E
        ⟨[], senders, [⟨E.fresh st.next, ⟨aid, w1⟩, .self⟩], [⟨aid, w2⟩], accts⟩ { st with next := st.next + 1 }
      refine Follows.bind (k := fun x => match x with
        | (.ok (), st') => (.ok w3, st')
        | (.err e, st') => (.err e, st')
        | (.panic, st') => (.panic, st')) (k' := fun x => match x with
        | (.ok (), st') => (.ok w3, st')
        | (.err e, st') => (.err e, st')
        | (.panic, st') => (.panic, st')) ⟨new, h1, h2⟩ ?_ ?_
      · rcases buildPost (reliable E) _ _ with ⟨_ | e | _, st'⟩
        · exact .refl rfl
        · exact .refl rfl
        · exact .refl rfl
      · rintro ⟨r, st'⟩ rfl
        rfl

theorem signToPublic_follows (E : Env K Leaf A Addr Acct) (m : AMap K) (aid : Nat) (accts : List Acct) :
    ∀ (n : Nat) (cs : List (Coin K)) (change : Nat) (st : St K A Addr Acct), cs.length ≤ n →
      Follows E st (signToPublic E m aid accts cs change st) (signToPublic (reliable E) m aid accts cs change st) := by
  intro n
  induction n with
  | zero =>
    intro cs change st h
    have : cs = [] := List.length_eq_zero_iff.mp (by omega)
    subst this
    exact .refl rfl
  | succ n ih =>
    intro cs change st h
    match cs with
    | [] => exact .refl rfl
    | [c] =>
      rw [signToPublic, signToPublic, prepareFinal_reliable]
      have hp := prepareFinal_posts E m aid [] [c] st
      rcases hpf : prepareFinal E m aid [] [c] st with ⟨ss | e | _, st2⟩ <;> rw [hpf] at hp
      · dsimp only at hp ⊢
        obtain ⟨new, h1, h2⟩ := processToPublic_follows E aid ss accts change st2
        refine Follows.bind (k := fun x => match x with
          | (.ok _, st2) => (.ok (), st2)
          | (.err e, st2) => (.err e, st2)
          | (.panic, st2) => (.panic, st2)) (k' := fun x => match x with
          | (.ok _, st2) => (.ok (), st2)
          | (.err e, st2) => (.err e, st2)
          | (.panic, st2) => (.panic, st2)) ⟨new, by rw [← hp]; exact h1, h2⟩ ?_ ?_
        · rcases processToPublic (reliable E) aid ss accts change st2 with ⟨_ | e | _, st'⟩
          · exact .refl rfl
          · exact .refl rfl
          · exact .refl rfl
        · rintro ⟨r, st'⟩ rfl
          rfl
      · exact .refl hp
      · exact .refl hp
    | a :: b :: rest =>
      rw [signToPublic, signToPublic, upgradeAll_reliable]
      rcases upgradeAll E st.acc aid [a, b] with _ | ss
      · exact .refl rfl
      · dsimp only
        refine Follows.bind (k := fun x => match x with
            | (.ok change', st1) => signToPublic E m aid accts rest change' st1
            | (.err e, st1) => (.err e, st1)
            | (.panic, st1) => (.panic, st1)) (k' := fun x => match x with
            | (.ok change', st1) => signToPublic (reliable E) m aid accts rest change' st1
            | (.err e, st1) => (.err e, st1)
            | (.panic, st1) => (.panic, st1)) (processToPublic_follows E aid ss accts change st) ?_ ?_
        · rcases processToPublic (reliable E) aid ss accts change st with ⟨_ | e | _, st'⟩
          · exact ih rest _ _ (by simp only [List.length_cons] at h; omega)
          · exact .refl rfl
          · exact .refl rfl
        · rintro ⟨r, st'⟩ rfl
          rfl

theorem signInternal_follows (E : Env K Leaf A Addr Acct) (g : Signer K A) (t : Transaction Addr Acct) :
    Follows E ⟨g.acc, [], g.next⟩ (signInternal E g t) (signInternal (reliable E) g t) := by
  have hs : ∀ a, select (reliable E) g.assets a = select E g.assets a := fun _ => rfl
  unfold signInternal
  dsimp only
  cases t with
  | toPrivate a =>
    dsimp only
    split
    · obtain ⟨new, h⟩ := buildPost_follows E ⟨[a], [], [⟨E.fresh g.next, a, .self⟩], [], []⟩ ⟨g.acc, [], g.next + 1⟩
      exact ⟨new, h⟩
    · exact .refl rfl
  | privateTransfer a addr =>
    dsimp only
    rw [hs]
    split
    · rcases select E g.assets a with sel | e | _
      · exact signPrivate_follows E g.assets a addr sel.change sel.values _
      · exact .refl rfl
      · exact .refl rfl
    · exact .refl rfl
  | toPublic a acct =>
    dsimp only
    rw [hs]
    split
    · rcases select E g.assets a with sel | e | _
      · exact signToPublic_follows E g.assets a.id [acct] _ sel.values sel.change _ (Nat.le_refl _)
      · exact .refl rfl
      · exact .refl rfl
    · exact .refl rfl

theorem finish_follows (E : Env K Leaf A Addr Acct) (g : Signer K A) (r r' : Res Unit × St K A Addr Acct)
    (h : Follows E ⟨g.acc, [], g.next⟩ r r') :
    (finish E g r = finish (reliable E) g r' ∨ (finish E g r).1 = .err .proofSystem) ∧
    ∀ posts g', finish (reliable E) g r' = (.ok posts, g') →
      (finish E g r = (.ok posts, g') ↔ ∀ p ∈ posts, E.prove p = true) ∧
      ((finish E g r).1 = .err .proofSystem ↔ ∃ p ∈ posts, E.prove p = false) := by
  obtain ⟨new, h1, h2, h3⟩ := h
  have hf : finish (reliable E) g r' = finish E g r' := rfl
  have herr : r.1 = .err .proofSystem → (finish E g r).1 = .err .proofSystem := by
    obtain ⟨r0, st⟩ := r
    rintro rfl
    rfl
  by_cases hn : ∃ q ∈ new, E.prove q = false
  · have he := herr (h3 hn)
    refine ⟨.inr he, ?_⟩
    intro posts g' hp
    have hpo : posts = new := by
      obtain ⟨r0, st⟩ := r'
      rcases r0 with _ | e | _
      · simp only [finish, Prod.mk.injEq, Res.ok.injEq] at hp
        rw [← hp.1]; simpa using h1
      · simp [finish] at hp
      · simp [finish] at hp
    subst hpo
    refine ⟨⟨?_, ?_⟩, fun _ => hn, fun _ => he⟩
    · intro hx; rw [hx] at he; cases he
    · obtain ⟨q, hq, hb⟩ := hn
      intro hall; rw [hall q hq] at hb; cases hb
  · have hall : ∀ q ∈ new, E.prove q = true := by
      intro q hq
      cases hb : E.prove q with
      | true => rfl
      | false => exact absurd ⟨q, hq, hb⟩ hn
    have hr := h2 hall
    subst hr
    refine ⟨.inl rfl, ?_⟩
    intro posts g' hp
    have hpo : posts = new := by
      obtain ⟨r0, st⟩ := r
      rcases r0 with _ | e | _
      · simp only [finish, Prod.mk.injEq, Res.ok.injEq] at hp
        rw [← hp.1]; simpa using h1
      · simp [finish] at hp
      · simp [finish] at hp
    subst hpo
    rw [hf] at hp
    refine ⟨⟨fun _ => hall, fun _ => hp⟩, ?_, fun h => absurd h hn⟩
    intro he; rw [hp] at he; cases he

/-- C140: with any proof system, a request has the outcome it has with a proof system that never fails, or ends in the
proof system's error. In particular a failing proof is never a panic, nor any other error. -/
theorem c140_outcome (E : Env K Leaf A Addr Acct) (g : Signer K A) (t : Transaction Addr Acct) :
    sign E g t = sign (reliable E) g t ∨ (sign E g t).1 = .err .proofSystem :=
  (finish_follows E g _ _ (signInternal_follows E g t)).1

/-- C140, exactly when: a request that a reliable proof system would answer with `posts` is answered with the same
posts iff the proof system succeeds on each of them, and with its error iff it fails on one of them. -/
theorem c140_exact (E : Env K Leaf A Addr Acct) (g g' : Signer K A) (t : Transaction Addr Acct)
    (posts : List (Tx K A Addr Acct)) (h : sign (reliable E) g t = (.ok posts, g')) :
    (sign E g t = (.ok posts, g') ↔ ∀ p ∈ posts, E.prove p = true) ∧
    ((sign E g t).1 = .err .proofSystem ↔ ∃ p ∈ posts, E.prove p = false) :=
  (finish_follows E g _ _ (signInternal_follows E g t)).2 posts g' h

theorem reliable_laws {E : Env K Leaf A Addr Acct} {free : A → Nat} (h : Laws E free) : Laws (reliable E) free :=
  ⟨h.room, h.has, h.keeps, h.undo⟩

theorem reliable_ready {E : Env K Leaf A Addr Acct} {g : Signer K A} (h : Ready E g) : Ready (reliable E) g :=
  ⟨h.keys, h.coins, h.members, h.fresh, h.committed⟩

/-- C140: a covered private transfer or withdrawal never panics, whatever the proof system does: it is signed, or the
proof system's error is returned. -/
theorem c140_covered {E : Env K Leaf A Addr Acct} {free : A → Nat} (hL : Laws E free) (g : Signer K A) (hg : Ready E g)
    (a : Asset) (hid : a.id ≠ 0 ∧ a.id < E.ids) (hmax : stock g.assets a.id ≤ E.max)
    (hroom : 2 * (assetVectorWithId g.assets a.id).length ≤ free g.acc) (hcov : a.value ≤ stock g.assets a.id)
    (t : Transaction Addr Acct) (ht : (∃ addr, t = .privateTransfer a addr) ∨ ∃ p, t = .toPublic a p) :
    (∃ posts, (sign E g t).1 = .ok posts ∧ ∀ p ∈ posts, E.prove p = true) ∨ (sign E g t).1 = .err .proofSystem := by
  have hP : Prover (reliable E) := fun _ _ _ _ _ _ _ => rfl
  have key : ∃ posts g', sign (reliable E) g t = (.ok posts, g') := by
    rcases ht with ⟨addr, rfl⟩ | ⟨p, rfl⟩
    · obtain ⟨_, _, posts, g', h, _⟩ :=
        c27_private_transfer (reliable_laws hL) hP g (reliable_ready hg) a hid addr hmax hroom hcov
      exact ⟨posts, g', h⟩
    · obtain ⟨_, _, posts, g', h, _⟩ := c28_to_public hP g (reliable_ready hg) a hid p hmax hcov
      exact ⟨posts, g', h⟩
  obtain ⟨posts, g', h⟩ := key
  obtain ⟨h1, h2⟩ := c140_exact E g g' t posts h
  rcases c140_outcome E g t with ho | ho
  · rw [h] at ho
    exact .inl ⟨posts, by rw [ho], h1.mp ho⟩
  · exact .inr ho

/-- C140 for consolidation. -/
theorem c140_consolidate [DecidableEq K] (E : Env K Leaf A Addr Acct) (g : Signer K A) (req : List (K × Asset)) :
    (consolidate E g req = consolidate (reliable E) g req ∨ (consolidate E g req).1 = .err .proofSystem) ∧
    ∀ posts g', consolidate (reliable E) g req = (.ok posts, g') →
      (consolidate E g req = (.ok posts, g') ↔ ∀ p ∈ posts, E.prove p = true) ∧
      ((consolidate E g req).1 = .err .proofSystem ↔ ∃ p ∈ posts, E.prove p = false) := by
  unfold consolidate
  refine finish_follows E g _ _ ?_
  dsimp only
  have hm : (reliable E).max = E.max := rfl
  rw [hm]
  split
  · cases req with
    | nil => exact .refl rfl
    | cons first rest =>
      dsimp only
      split
      · split
        · exact .refl rfl
        · split
          · exact signPrivate_follows E g.assets _ _ _ _ _
          · exact .refl rfl
      · exact .refl rfl
  · exact .refl rfl

/-- A withdrawal of 95 from coins of 10, 20, 30, 40 takes two posts; the proof system refuses the second. The same
for a private transfer, whose first join is refused. -/
example :
    let E := toyEnv fun tx => decide ((tx.senders.map fun s => s.asset.value).sum ≤ 60)
    (match (sign (reliable E) toySigner (.toPublic ⟨7, 95⟩ 3)).1 with
      | .ok posts => posts.map E.prove
      | _ => []) = [true, false] ∧
    (sign E toySigner (.toPublic ⟨7, 95⟩ 3)).1 = .err .proofSystem ∧
    (match (sign E toySigner (.toPublic ⟨7, 25⟩ 3)).1 with
      | .ok posts => posts.map E.prove
      | _ => []) = [true] := by decide +kernel

/-- The hypotheses of `c140_covered` hold for every proof system. -/
example (p : Tx Nat ToyAcc Nat Nat → Bool) :
    (∃ posts, (sign (toyEnv p) toySigner (.toPublic ⟨7, 95⟩ 3)).1 = .ok posts ∧ ∀ q ∈ posts, (toyEnv p).prove q = true) ∨
    (sign (toyEnv p) toySigner (.toPublic ⟨7, 95⟩ 3)).1 = .err .proofSystem :=
  c140_covered (toy_laws p) toySigner (toy_ready p) ⟨7, 95⟩
    ⟨by decide, show 7 < 1000 by decide⟩ (show AMap.stock toySigner.assets 7 ≤ 10000 by decide) (by decide) (by decide) _
    (.inr ⟨3, rfl⟩)

end Verif.Sign
