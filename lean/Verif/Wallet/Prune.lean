import Verif.Wallet.Model

/-!
# C26: trimming of synchronization requests
-/

namespace Verif.Wallet

variable {U N : Type}

/-! ## Lexicographic order -/

theorem lexLt_irrefl (a : List Nat) : lexLt a a = false := by
  induction a with
  | nil => rfl
  | cons x a ih => simp [lexLt, ih]

theorem lexLt_asymm (a : List Nat) : ∀ b, lexLt a b = true → lexLt b a = false := by
  induction a with
  | nil => intro b h; cases b <;> simp_all [lexLt]
  | cons x a ih =>
    intro b h
    cases b with
    | nil => simp [lexLt] at h
    | cons y b =>
      simp only [lexLt, Bool.or_eq_true, Bool.and_eq_true, decide_eq_true_eq] at h
      simp only [lexLt, Bool.or_eq_false_iff, Bool.and_eq_false_iff, decide_eq_false_iff_not]
      rcases h with h | ⟨h1, h2⟩
      · exact ⟨by omega, .inl (by omega)⟩
      · exact ⟨by omega, .inr (ih b h2)⟩

theorem Checkpoint.lt_irrefl (a : Checkpoint) : a.lt a = false := by
  simp [Checkpoint.lt, lexLt_irrefl]

theorem Checkpoint.lt_asymm (a b : Checkpoint) (h : a.lt b = true) : b.lt a = false := by
  simp only [Checkpoint.lt, Bool.or_eq_true, Bool.and_eq_true, decide_eq_true_eq] at h
  simp only [Checkpoint.lt, Bool.or_eq_false_iff, Bool.and_eq_false_iff, decide_eq_false_iff_not]
  rcases h with h | ⟨h1, h2⟩
  · refine ⟨lexLt_asymm _ _ h, .inl ?_⟩
    intro he
    rw [he, lexLt_irrefl] at h; cases h
  · rw [h1, lexLt_irrefl]
    exact ⟨rfl, .inr (by omega)⟩

/-- Componentwise order of equally long lists. -/
inductive PwLe : List Nat → List Nat → Prop where
  | nil : PwLe [] []
  | cons {x y : Nat} {a b : List Nat} : x ≤ y → PwLe a b → PwLe (x :: a) (y :: b)

theorem pwLe_not_lt {a b : List Nat} (h : PwLe a b) : lexLt b a = false := by
  induction h with
  | nil => rfl
  | cons h1 _ ih =>
    simp only [lexLt, Bool.or_eq_false_iff, Bool.and_eq_false_iff, decide_eq_false_iff_not]
    exact ⟨by omega, .inr ih⟩

theorem pwLe_eq {a b : List Nat} (h : PwLe a b) (hl : lexLt a b = false) : a = b := by
  induction h with
  | nil => rfl
  | cons h1 _ ih =>
    simp only [lexLt, Bool.or_eq_false_iff, Bool.and_eq_false_iff, decide_eq_false_iff_not] at hl
    rcases hl.2 with hc | hc
    · omega
    · rw [ih hc]; congr 1; omega

/-! ## Shards -/

/-- The UTXOs of one shard, in order. -/
def perShard (shard : U → Nat) (us : List U) (i : Nat) : List U := us.filter fun u => decide (shard u = i)

theorem addRecv_length (shard : U → Nat) (us : List U) (r : List Nat) :
    (addRecv shard r us).length = r.length := by
  induction us generalizing r with
  | nil => rfl
  | cons u us ih => simpa [addRecv] using ih (r.modify (shard u) (· + 1))

theorem addRecv_get (shard : U → Nat) (us : List U) (r : List Nat) (i : Nat) :
    (addRecv shard r us)[i]? = (r[i]?).map (· + (perShard shard us i).length) := by
  induction us generalizing r with
  | nil => simp [addRecv, perShard]
  | cons u us ih =>
    have : addRecv shard r (u :: us) = addRecv shard (r.modify (shard u) (· + 1)) us := rfl
    rw [this, ih, List.getElem?_modify]
    by_cases h : shard u = i
    · simp only [h, if_true, perShard, List.filter_cons, decide_true, List.length_cons]
      cases r[i]? <;> simp; omega
    · simp [h, perShard]

theorem addRecv_append (shard : U → Nat) (us vs : List U) (r : List Nat) :
    addRecv shard r (us ++ vs) = addRecv shard (addRecv shard r us) vs := by
  simp [addRecv]

theorem pwLe_iff_get {a b : List Nat} : PwLe a b ↔ a.length = b.length ∧
    ∀ (i : Nat) (x y : Nat), a[i]? = some x → b[i]? = some y → x ≤ y := by
  induction a generalizing b with
  | nil =>
    cases b with
    | nil => simp [PwLe.nil]
    | cons y b => simp only [List.length_nil, List.length_cons]; constructor
                  · intro h; cases h
                  · rintro ⟨h, _⟩; omega
  | cons x a ih =>
    cases b with
    | nil => simp only [List.length_nil, List.length_cons]; constructor
             · intro h; cases h
             · rintro ⟨h, _⟩; omega
    | cons y b =>
      have hc : PwLe (x :: a) (y :: b) ↔ x ≤ y ∧ PwLe a b :=
        ⟨fun h => by cases h with | cons h1 h2 => exact ⟨h1, h2⟩, fun h => .cons h.1 h.2⟩
      rw [hc, ih]
      simp only [List.length_cons, Nat.add_right_cancel_iff]
      constructor
      · rintro ⟨h1, h2, h3⟩
        refine ⟨h2, ?_⟩
        intro i u v hu hv
        cases i with
        | zero => simp at hu hv; omega
        | succ i => exact h3 i u v (by simpa using hu) (by simpa using hv)
      · rintro ⟨h2, h3⟩
        exact ⟨h3 0 x y rfl rfl, h2, fun i u v hu hv => h3 (i + 1) u v (by simpa using hu) (by simpa using hv)⟩

theorem perShard_perShard_drop (shard : U → Nat) (us : List U) (i j d : Nat) :
    perShard shard ((perShard shard us i).drop d) j = if i = j then (perShard shard us i).drop d else [] := by
  have hall : ∀ u ∈ (perShard shard us i).drop d, shard u = i := by
    intro u hu
    have := List.mem_of_mem_drop hu
    simpa [perShard] using (List.mem_filter.mp this).2
  by_cases h : i = j
  · rw [if_pos h]
    unfold perShard
    rw [List.filter_eq_self]
    intro u hu
    simpa [← h] using hall u hu
  · rw [if_neg h]
    unfold perShard
    rw [List.filter_eq_nil_iff]
    intro u hu
    have := hall u hu
    simp; omega

theorem pruneShards_spec (shard : U → Nat) (us : List U) (os ss : List Nat) (h : PwLe os ss) :
    ∀ i, ∃ out b, pruneShards shard us i os ss = some (out, b) ∧
      (∀ j, perShard shard out j =
        if i ≤ j then
          match os[j - i]?, ss[j - i]? with
          | some o, some s => (perShard shard us j).drop (s - o)
          | _, _ => []
        else []) ∧
      (b = true ↔ ∃ j o s, os[j]? = some o ∧ ss[j]? = some s ∧ o < s ∧ perShard shard us (i + j) ≠ []) ∧
      ∀ u ∈ out, u ∈ us := by
  induction h with
  | nil =>
    intro i
    exact ⟨[], false, rfl, by intro j; simp [perShard], by simp, by simp⟩
  | cons h1 h2 ih =>
    rename_i o s os ss
    intro i
    obtain ⟨rest, b, e1, e2, e3, e4⟩ := ih (i + 1)
    simp only [pruneShards, if_pos h1, e1]
    have hper : (us.filter fun u => decide (shard u = i)) = perShard shard us i := rfl
    rw [hper]
    by_cases he : (perShard shard us i).isEmpty
    · rw [if_pos he]
      have he' : perShard shard us i = [] := by simpa using he
      refine ⟨rest, b, rfl, ?_, ?_, e4⟩
      · intro j
        rw [e2]
        by_cases hj : i ≤ j
        · rw [if_pos hj]
          by_cases hj' : j = i
          · subst hj'
            rw [if_neg (by omega)]
            simp [he']
          · rw [if_pos (by omega)]
            have : j - i = (j - (i + 1)) + 1 := by omega
            rw [this]; simp
        · rw [if_neg hj, if_neg (by omega)]
      · rw [e3]
        constructor
        · rintro ⟨j, o', s', a1, a2, a3, a4⟩
          exact ⟨j + 1, o', s', by simpa using a1, by simpa using a2, a3, by
            rw [show i + (j + 1) = i + 1 + j by omega]; exact a4⟩
        · rintro ⟨j, o', s', a1, a2, a3, a4⟩
          cases j with
          | zero => exact absurd he' a4
          | succ j => exact ⟨j, o', s', by simpa using a1, by simpa using a2, a3, by
              rw [show i + 1 + j = i + (j + 1) by omega]; exact a4⟩
    · rw [if_neg he]
      have he' : perShard shard us i ≠ [] := by simpa using he
      refine ⟨_, _, rfl, ?_, ?_, ?_⟩
      · intro j
        have : perShard shard ((perShard shard us i).drop (s - o) ++ rest) j =
            perShard shard ((perShard shard us i).drop (s - o)) j ++ perShard shard rest j := by
          simp [perShard]
        rw [this, perShard_perShard_drop, e2]
        by_cases hj : i ≤ j
        · rw [if_pos hj]
          by_cases hj' : i = j
          · subst hj'
            rw [if_pos rfl, if_neg (by omega)]
            simp
          · rw [if_neg hj', if_pos (by omega)]
            have : j - i = (j - (i + 1)) + 1 := by omega
            rw [this]; simp
        · rw [if_neg hj, if_neg (by omega), if_neg (by omega)]; rfl
      · rw [Bool.or_eq_true, e3]
        constructor
        · rintro (⟨j, o', s', a1, a2, a3, a4⟩ | h)
          · exact ⟨j + 1, o', s', by simpa using a1, by simpa using a2, a3, by
              rw [show i + (j + 1) = i + 1 + j by omega]; exact a4⟩
          · exact ⟨0, o, s, rfl, rfl, by simp at h; omega, he'⟩
        · rintro ⟨j, o', s', a1, a2, a3, a4⟩
          cases j with
          | zero =>
            simp only [List.getElem?_cons_zero, Option.some.injEq] at a1 a2
            subst a1 a2
            exact .inr (by simp; omega)
          | succ j => exact .inl ⟨j, o', s', by simpa using a1, by simpa using a2, a3, by
              rw [show i + 1 + j = i + (j + 1) by omega]; exact a4⟩
      · intro u hu
        rcases List.mem_append.mp hu with hu | hu
        · exact (List.mem_filter.mp (List.mem_of_mem_drop hu)).1
        · exact e4 u hu

/-! ## C26 -/

/-- A request whose origin is ahead of the signer is refused and reports the signer's checkpoint. -/
theorem c26_refused (shard : U → Nat) (signer origin : Checkpoint) (data : SyncData U N)
    (h : signer.lt origin = true) :
    pruneRequest shard signer origin data = .err (.inconsistentSync signer) := by
  simp [pruneRequest, h]

/-- C26, exact trimming. `seen` is what the signer processed since the origin of the request. If the request
extends it (per shard and for nullifiers), then precisely `seen` is dropped, in every shard, and the answer
is flagged as trimmed exactly when something was dropped. Missing: requests that end before the signer's
position in some shard (see `c26_panics`, `c26_flag_violated`). -/
theorem c26_prune_partial (shard : U → Nat) (origin signer : Checkpoint) (data seen : SyncData U N)
    (hsh : ∀ u ∈ data.utxos, shard u < origin.recv.length)
    (hs : signer = ⟨addRecv shard origin.recv seen.utxos, origin.send + seen.nulls.length⟩)
    (hseen : ∀ u ∈ seen.utxos, shard u < origin.recv.length)
    (hpre : ∀ i, perShard shard seen.utxos i <+: perShard shard data.utxos i)
    (hpn : seen.nulls <+: data.nulls) :
    ∃ rest b, pruneRequest shard signer origin data = .ok (b, rest) ∧
      (∀ i, perShard shard seen.utxos i ++ perShard shard rest.utxos i = perShard shard data.utxos i) ∧
      seen.nulls ++ rest.nulls = data.nulls ∧
      (∀ u ∈ rest.utxos, u ∈ data.utxos) ∧
      (b = true ↔ seen.utxos ≠ [] ∨ seen.nulls ≠ []) := by
  have hpw : PwLe origin.recv signer.recv := by
    rw [pwLe_iff_get]
    subst hs
    refine ⟨(addRecv_length _ _ _).symm, ?_⟩
    intro i x y hx hy
    rw [addRecv_get, hx] at hy
    simp at hy; omega
  have hpw2 : PwLe signer.recv (addRecv shard origin.recv data.utxos) := by
    rw [pwLe_iff_get]
    subst hs
    refine ⟨by simp [addRecv_length], ?_⟩
    intro i x y hx hy
    rw [addRecv_get] at hx hy
    have := (hpre i).length_le
    rcases ho : origin.recv[i]? with _ | o
    · rw [ho] at hx; simp at hx
    · rw [ho] at hx hy
      simp at hx hy; omega
  have hlt : signer.lt origin = false := by
    simp only [Checkpoint.lt, Bool.or_eq_false_iff, Bool.and_eq_false_iff, decide_eq_false_iff_not]
    exact ⟨pwLe_not_lt hpw, .inr (by subst hs; simp)⟩
  have hnil : seen.utxos ≠ [] → ∃ i, perShard shard seen.utxos i ≠ [] ∧ i < origin.recv.length := by
    intro hne
    obtain ⟨u, hu⟩ := List.exists_mem_of_ne_nil _ hne
    refine ⟨shard u, ?_, hseen u hu⟩
    intro hc
    have : u ∈ perShard shard seen.utxos (shard u) := by simp [perShard, hu]
    rw [hc] at this; cases this
  unfold pruneRequest
  rw [hlt]
  simp only [Bool.false_eq_true, if_false, prune]
  by_cases heq : origin.lt signer = false
  · rw [if_pos heq]
    simp only [Checkpoint.lt, Bool.or_eq_false_iff, Bool.and_eq_false_iff,
      decide_eq_false_iff_not] at heq
    have hr := pwLe_eq hpw heq.1
    have hn : seen.nulls = [] := by
      rcases heq.2 with h | h
      · exact absurd hr h
      · subst hs; simp at h; exact h
    have hu : seen.utxos = [] := by
      apply Classical.byContradiction
      intro hne
      obtain ⟨i, h1, h2⟩ := hnil hne
      have h3 : 0 < (perShard shard seen.utxos i).length := List.length_pos_iff.mpr h1
      have h4 := addRecv_get shard seen.utxos origin.recv i
      have h5 : addRecv shard origin.recv seen.utxos = origin.recv := by
        subst hs; exact hr.symm
      rw [h5, List.getElem?_eq_getElem h2, Option.map_some, Option.some.injEq] at h4
      omega
    exact ⟨data, false, rfl, by simp [hu, perShard], by simp [hn], by simp, by simp [hu, hn]⟩
  · rw [if_neg heq]
    have hup : Checkpoint.lt ⟨addRecv shard origin.recv data.utxos, origin.send + data.nulls.length⟩ signer
        = false := by
      simp only [Checkpoint.lt, Bool.or_eq_false_iff, Bool.and_eq_false_iff, decide_eq_false_iff_not]
      refine ⟨pwLe_not_lt hpw2, .inr ?_⟩
      have := hpn.length_le
      subst hs; simp only; omega
    have hdiff : signer.send - origin.send = seen.nulls.length := by subst hs; simp
    simp only [hup, Bool.false_eq_true, if_false]
    rw [if_pos (by subst hs; simp), hdiff, if_pos hpn.length_le]
    obtain ⟨out, b, e1, e2, e3, e4⟩ := pruneShards_spec shard data.utxos origin.recv signer.recv hpw 0
    simp only [e1]
    have hget : ∀ i, i < origin.recv.length → ∃ o, origin.recv[i]? = some o ∧
        signer.recv[i]? = some (o + (perShard shard seen.utxos i).length) := by
      intro i hi
      refine ⟨origin.recv[i], List.getElem?_eq_getElem hi, ?_⟩
      subst hs
      simp only [addRecv_get, List.getElem?_eq_getElem hi, Option.map_some]
    refine ⟨_, _, rfl, ?_, ?_, e4, ?_⟩
    · intro i
      simp only [e2, Nat.zero_le, if_true, Nat.sub_zero]
      by_cases hi : i < origin.recv.length
      · obtain ⟨o, g1, g2⟩ := hget i hi
        simp only [g1, g2, Nat.add_sub_cancel_left]
        obtain ⟨t, ht⟩ := hpre i
        rw [← ht]; simp
      · have h1 : perShard shard data.utxos i = [] := by
          unfold perShard
          rw [List.filter_eq_nil_iff]
          intro u hu
          have := hsh u hu
          simp; omega
        have h2 : perShard shard seen.utxos i = [] := by
          have := hpre i
          rw [h1] at this
          exact List.prefix_nil.mp this
        rw [h1, h2]
        simp only [List.nil_append]
        rw [List.getElem?_eq_none (by omega)]
    · obtain ⟨t, ht⟩ := hpn
      rw [← ht]; simp
    · rw [Bool.or_eq_true, e3, decide_eq_true_eq, List.length_pos_iff]
      constructor
      · rintro (h | ⟨j, o, s, h1, h2, h3, h4⟩)
        · exact .inr h
        · left
          intro hc
          have hj : j < origin.recv.length := by
            apply Classical.byContradiction
            intro hge
            rw [List.getElem?_eq_none (by omega)] at h1
            cases h1
          obtain ⟨o', g1, g2⟩ := hget j hj
          rw [g1] at h1; rw [g2] at h2
          simp [hc, perShard] at h1 h2
          omega
      · rintro (h | h)
        · right
          obtain ⟨i, h1, h2⟩ := hnil h
          obtain ⟨o, g1, g2⟩ := hget i h2
          refine ⟨i, o, _, g1, g2, ?_, ?_⟩
          · have := List.length_pos_iff.mpr h1; omega
          · rw [Nat.zero_add]
            intro hc
            have := hpre i
            rw [hc] at this
            exact h1 (List.prefix_nil.mp this)
        · exact .inl h

/-- C26 is violated for requests that end early. Two shards, UTXOs are their shard numbers: the signer has
seen five nullifiers, the request brings one new UTXO and only two of the nullifiers. The signer panics
although it is not behind. -/
theorem c26_panics :
    pruneRequest (U := Nat) (N := Nat) id ⟨[0, 0], 5⟩ ⟨[0, 0], 0⟩ ⟨[0], [1, 2]⟩ = .panic := by decide

/-- The flag is wrong when the request has no entry of a shard in which the signer is ahead: the signer knows
one UTXO of shard 1 that the requester does not, yet the update is not flagged as trimmed. -/
theorem c26_flag_violated :
    pruneRequest (U := Nat) (N := Nat) id ⟨[0, 1], 0⟩ ⟨[0, 0], 0⟩ ⟨[0], []⟩ = .ok (false, ⟨[0], []⟩) := by
  decide

/-- Nothing is lost by the early exit: if the request ends before the signer's checkpoint in the
lexicographic order, everything is dropped although shard 1 has unseen data; the response carries the
signer's checkpoint, so the data has to be requested again. -/
theorem c26_lexicographic_drop :
    pruneRequest (U := Nat) (N := Nat) id ⟨[2, 0], 0⟩ ⟨[0, 0], 0⟩ ⟨[0, 1], []⟩ = .ok (true, ⟨[], []⟩) := by
  decide

example : pruneRequest (U := Nat × Nat) (N := Nat) Prod.fst ⟨[1, 2], 1⟩ ⟨[0, 1], 0⟩
    ⟨[(0, 10), (1, 11), (0, 12), (1, 13)], [7, 8]⟩ = .ok (true, ⟨[(0, 12), (1, 13)], [8]⟩) := by decide

end Verif.Wallet
