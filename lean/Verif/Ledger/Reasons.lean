import Verif.Ledger.Props

/-!
# Which reason a refused post is given: C133

`TransferPost::validate` (`manta-accounting/src/transfer/mod.rs:1837-1896`) runs its checks one after the other
and reports the first that fails. The specification is the list of checks in order, each with the condition
under which it fails, written from the ledger's contents.
-/

namespace Verif.Ledger

open Verif.Asset (mget)
open Verif.Transfer

variable {T : Ty}

/-- The checks of a post in order: when each fails, and what is then reported. -/
def faults (env : Env T) (s : State T) (p : Post T) (sourceAcc sinkAcc : List Nat) : List (Prop × PostError) :=
  [ (p.body.senders ≠ [] ∧ p.sig = none, .signature .missingSignature),
    (p.body.senders = [] ∧ p.sig ≠ none, .signature .invalidShape),
    (∃ g, p.sig = some g ∧ env.crypto.verifySig g.key p.body p.sinkAccounts g.sig = false,
      .signature .badSignature),
    (¬ ((p.body.sources ≠ [] ∨ p.body.sinks ≠ []) ↔ p.body.assetId ≠ none), .invalidShape),
    (sourceAcc.length ≠ p.body.sources.length ∨ sinkAcc.length ≠ p.body.sinks.length, .invalidShape),
    (∃ x ∈ sourceAcc.zip p.body.sources, ¬ ∃ m b, mget s.accounts x.1 = some m ∧
      mget m (p.body.assetId.getD 0) = some b ∧ x.2 ≤ b, .sourceAccount),
    (∃ x ∈ sinkAcc.zip p.body.sinks, mget s.accounts x.1 = none, .sinkAccount),
    (¬ (p.body.senders.map fun q => q.nul.cm).Nodup, .duplicateSpend),
    (¬ (p.body.receivers.map ReceiverPost.utxo).Nodup, .duplicateMint) ] ++
  p.body.senders.flatMap (fun q =>
    [ (q.root ≠ env.defaultRoot ∧ ∀ i, env.root (s.forest i) ≠ q.root, .invalidRoot),
      (env.contains s.nullifiers q.nul = true, .spent) ]) ++
  [ (∃ q ∈ p.body.receivers, q.utxo ∈ s.utxos, .registered),
    (¬ ∃ shape, Canonical shape p.sig.isSome p.body.assetId.isSome p.body.sources.length
      p.body.senders.length p.body.receivers.length p.body.sinks.length, .invalidShape),
    (∃ shape, Canonical shape p.sig.isSome p.body.assetId.isSome p.body.sources.length
      p.body.senders.length p.body.receivers.length p.body.sinks.length ∧
      env.verifyProof shape (p.input env.enc) p.body.proof = none, .invalidProof) ]

/-- The error of the first condition of a list that holds. -/
inductive First {E : Type} : List (Prop × E) → Option E → Prop
  | none : First [] Option.none
  | here {c : Prop} {e : E} {l : List (Prop × E)} : c → First ((c, e) :: l) (some e)
  | later {c : Prop} {e : E} {l : List (Prop × E)} {r : Option E} : ¬ c → First l r → First ((c, e) :: l) r

/-- The reason, if any, in the result of a validation. -/
def reason {ε α : Type} : Except ε α → Option ε
  | .error e => some e
  | .ok _ => none

theorem First.append_none {E : Type} {l m : List (Prop × E)} {r : Option E}
    (h : First l Option.none) (h' : First m r) : First (l ++ m) r := by
  generalize hn : (Option.none : Option E) = n at h
  induction h with
  | none => exact h'
  | here _ => cases hn
  | later hc _ ih => exact .later hc (ih hn)

theorem First.append_some {E : Type} {l m : List (Prop × E)} {e : E}
    (h : First l (some e)) : First (l ++ m) (some e) := by
  generalize hn : some e = n at h
  induction h with
  | none => cases hn
  | here hc => exact .here hc
  | later hc _ ih => exact .later hc (ih hn)

theorem First.unique {E : Type} {l : List (Prop × E)} {r r' : Option E} (h : First l r) (h' : First l r') :
    r = r' := by
  induction h with
  | none => cases h'; rfl
  | here hc => cases h' with
    | here _ => rfl
    | later hn _ => exact absurd hc hn
  | later hn _ ih => cases h' with
    | here hc => exact absurd hc hn
    | later _ hl => exact ih hl

theorem matching_false (env : Env T) (s : State T) (r : T.Root) :
    matching env s r = false ↔ (r ≠ env.defaultRoot ∧ ∀ i, env.root (s.forest i) ≠ r) := by
  simp [matching]

theorem senders_first (env : Env T) (s : State T) (l : List (SenderPost T)) :
    First (l.flatMap fun q =>
      [ (q.root ≠ env.defaultRoot ∧ ∀ i, env.root (s.forest i) ≠ q.root, PostError.invalidRoot),
        (env.contains s.nullifiers q.nul = true, .spent) ]) (reason (checkSenders env s l)) := by
  induction l with
  | nil => exact .none
  | cons q l ih =>
    rw [List.flatMap_cons]
    unfold checkSenders
    by_cases h1 : matching env s q.root = false
    · rw [h1]; exact .here ((matching_false ..).1 h1)
    · have h1' : matching env s q.root = true := by simpa using h1
      rw [h1']
      refine .later (fun h => h1 ((matching_false ..).2 h)) ?_
      by_cases h2 : env.contains s.nullifiers q.nul = true
      · simp only [h2, Bool.not_true, Bool.false_eq_true, if_false, if_true]
        exact .here trivial
      · simp only [Bool.not_true, Bool.false_eq_true, if_false, if_neg h2]
        exact .later h2 ih

theorem map_nodup {α β : Type} (f : α → β) (l : List α) :
    (l.map f).Nodup ↔ l.Pairwise fun a b => f a ≠ f b := List.pairwise_map

/-- Validation after the signature check. -/
def afterSig (env : Env T) (s : State T) (p : Post T) (sourceAcc sinkAcc : List Nat) :
    Except PostError (PostingKey T) :=
  match checkPublic s p.body sourceAcc sinkAcc with
  | .error e => .error e
  | .ok (so, si) =>
    if !(Verif.Util.allUnequal (fun a b => Nul.related a.nul b.nul) p.body.senders) then
      .error .duplicateSpend
    else if !(Verif.Util.allUnequal (fun a b => decide (a.utxo = b.utxo)) p.body.receivers) then
      .error .duplicateMint
    else
      match checkSenders env s p.body.senders with
      | .error e => .error e
      | .ok () =>
        match checkReceivers s p.body.receivers with
        | .error e => .error e
        | .ok () =>
          match isValid env (p.sig.map AuthSig.key) p.body so si with
          | .error e => .error e
          | .ok () => .ok ⟨p.body.assetId, so, p.body.senders, p.body.receivers, si⟩

theorem validate_afterSig (env : Env T) (s : State T) (p : Post T) (sa ka : List Nat) :
    validate env s p sa ka = match p.checkSig env.crypto with
      | .error e => .error (.signature e)
      | .ok () => afterSig env s p sa ka := rfl

theorem sources_iff (s : State T) (id : Nat) (l : List (Nat × Nat)) :
    (!(l.all (sourceOk s id))) = true ↔
      ∃ x ∈ l, ¬ ∃ m b, mget s.accounts x.1 = some m ∧ mget m id = some b ∧ x.2 ≤ b := by
  have : ∀ x, sourceOk s id x = true ↔ ∃ m b, mget s.accounts x.1 = some m ∧ mget m id = some b ∧ x.2 ≤ b := by
    intro x
    unfold sourceOk
    cases h : mget s.accounts x.1 with
    | none => simp
    | some m =>
      cases h' : mget m id with
      | none => simp [h']
      | some b => simp [h']
  rw [Bool.not_eq_true', List.all_eq_false]
  exact ⟨fun ⟨x, hx, h⟩ => ⟨x, hx, fun h' => h ((this x).2 h')⟩,
    fun ⟨x, hx, h⟩ => ⟨x, hx, fun h' => h ((this x).1 h')⟩⟩

theorem sinks_iff (s : State T) (l : List (Nat × Nat)) :
    (!(l.all (sinkOk s))) = true ↔ ∃ x ∈ l, mget s.accounts x.1 = none := by
  rw [Bool.not_eq_true', List.all_eq_false]
  simp [sinkOk]

theorem public_first (s : State T) (b : Body T) (sa ka : List Nat) :
    First [ (¬ ((b.sources ≠ [] ∨ b.sinks ≠ []) ↔ b.assetId ≠ none), PostError.invalidShape),
      (sa.length ≠ b.sources.length ∨ ka.length ≠ b.sinks.length, .invalidShape),
      (∃ x ∈ sa.zip b.sources, ¬ ∃ m v, mget s.accounts x.1 = some m ∧
        mget m (b.assetId.getD 0) = some v ∧ x.2 ≤ v, .sourceAccount),
      (∃ x ∈ ka.zip b.sinks, mget s.accounts x.1 = none, .sinkAccount) ] (reason (checkPublic s b sa ka)) ∧
    ∀ r, checkPublic s b sa ka = .ok r → r = (sa.zip b.sources, ka.zip b.sinks) ∧
      sa.length = b.sources.length ∧ ka.length = b.sinks.length := by
  have hpub : hasPublicParticipants b.sources.length b.sinks.length ≠ b.assetId.isSome ↔
      ¬ ((b.sources ≠ [] ∨ b.sinks ≠ []) ↔ b.assetId ≠ none) := by
    unfold hasPublicParticipants
    cases b.assetId <;> cases b.sources <;> cases b.sinks <;> simp
  unfold checkPublic
  by_cases h1 : hasPublicParticipants b.sources.length b.sinks.length ≠ b.assetId.isSome
  · rw [if_pos h1]; exact ⟨.here (hpub.1 h1), nofun⟩
  rw [if_neg h1]
  by_cases h2 : sa.length ≠ b.sources.length
  · rw [if_pos h2]; exact ⟨.later (fun h => h1 (hpub.2 h)) (.here (.inl h2)), nofun⟩
  rw [if_neg h2]
  by_cases h3 : ka.length ≠ b.sinks.length
  · rw [if_pos h3]; exact ⟨.later (fun h => h1 (hpub.2 h)) (.here (.inr h3)), nofun⟩
  rw [if_neg h3]
  have h23 : ¬ (sa.length ≠ b.sources.length ∨ ka.length ≠ b.sinks.length) := fun h => h.elim h2 h3
  simp only
  by_cases h4 : (!((sa.zip b.sources).all (sourceOk s (b.assetId.getD 0)))) = true
  · rw [if_pos h4]
    exact ⟨.later (fun h => h1 (hpub.2 h)) (.later h23 (.here ((sources_iff ..).1 h4))), nofun⟩
  rw [if_neg h4]
  by_cases h5 : (!((ka.zip b.sinks).all (sinkOk s))) = true
  · rw [if_pos h5]
    exact ⟨.later (fun h => h1 (hpub.2 h)) (.later h23 (.later (fun h => h4 ((sources_iff ..).2 h))
      (.here ((sinks_iff ..).1 h5)))), nofun⟩
  rw [if_neg h5]
  refine ⟨.later (fun h => h1 (hpub.2 h)) (.later h23 (.later (fun h => h4 ((sources_iff ..).2 h))
    (.later (fun h => h5 ((sinks_iff ..).2 h)) .none))), ?_⟩
  rintro r ⟨⟩
  exact ⟨rfl, Decidable.not_not.1 h2, Decidable.not_not.1 h3⟩

theorem valid_first (env : Env T) (p : Post T) (sa ka : List Nat) (h1 : sa.length = p.body.sources.length)
    (h2 : ka.length = p.body.sinks.length) :
    First [ (¬ ∃ shape, Canonical shape p.sig.isSome p.body.assetId.isSome p.body.sources.length
        p.body.senders.length p.body.receivers.length p.body.sinks.length, PostError.invalidShape),
      (∃ shape, Canonical shape p.sig.isSome p.body.assetId.isSome p.body.sources.length
        p.body.senders.length p.body.receivers.length p.body.sinks.length ∧
        env.verifyProof shape (p.input env.enc) p.body.proof = none, .invalidProof) ]
      (reason (isValid env (p.sig.map AuthSig.key) p.body (sa.zip p.body.sources) (ka.zip p.body.sinks))) := by
  have e1 : (sa.zip p.body.sources).length = p.body.sources.length := by simp [h1]
  have e2 : (ka.zip p.body.sinks).length = p.body.sinks.length := by simp [h2]
  unfold isValid
  rw [e1, e2, Option.isSome_map, c31_ledger env.enc p _ _ (zip_snd _ _ h1) (zip_snd _ _ h2)]
  cases hsel : Shape.select p.sig.isSome p.body.assetId.isSome p.body.sources.length
      p.body.senders.length p.body.receivers.length p.body.sinks.length with
  | none =>
    refine .here ?_
    rintro ⟨sh, h⟩
    rw [← c51_select_iff, hsel] at h; cases h
  | some sh =>
    have hc := (c51_select_iff ..).1 hsel
    refine .later (fun h => h ⟨sh, hc⟩) ?_
    show First _ (reason (match env.verifyProof sh (p.input env.enc) p.body.proof with
      | none => Except.error PostError.invalidProof
      | some _ => Except.ok ()))
    cases hv : env.verifyProof sh (p.input env.enc) p.body.proof with
    | none => exact .here ⟨sh, hc, hv⟩
    | some x =>
      refine .later ?_ .none
      rintro ⟨sh', hc', h⟩
      rw [← c51_select_iff, hsel] at hc'
      cases hc'
      rw [hv] at h; cases h

theorem afterSig_first (env : Env T) (s : State T) (p : Post T) (sa ka : List Nat) :
    First ((faults env s p sa ka).drop 3) (reason (afterSig env s p sa ka)) := by
  obtain ⟨hp, hok⟩ := public_first s p.body sa ka
  unfold afterSig
  show First ([_, _, _, _] ++ ([_, _] ++ (_ ++ ([_] ++ [_, _])))) _
  cases hcp : checkPublic s p.body sa ka with
  | error e =>
    rw [hcp] at hp
    exact hp.append_some
  | ok r =>
    obtain ⟨rfl, l1, l2⟩ := hok r hcp
    rw [hcp] at hp
    refine hp.append_none ?_
    have hd1 : (!(Verif.Util.allUnequal (fun a b => Nul.related a.nul b.nul) p.body.senders)) = true ↔
        ¬ (p.body.senders.map fun q => q.nul.cm).Nodup := by
      rw [map_nodup, Bool.not_eq_true', ← Bool.not_eq_true, allUnequal_pairwise]
      simp [Nul.related]
    have hd2 : (!(Verif.Util.allUnequal (fun a b => decide (a.utxo = b.utxo)) p.body.receivers)) = true ↔
        ¬ (p.body.receivers.map ReceiverPost.utxo).Nodup := by
      rw [map_nodup, Bool.not_eq_true', ← Bool.not_eq_true, allUnequal_pairwise]
      simp
    simp only
    by_cases h1 : (!(Verif.Util.allUnequal (fun a b => Nul.related a.nul b.nul) p.body.senders)) = true
    · rw [if_pos h1]; exact .here (hd1.1 h1)
    rw [if_neg h1]
    by_cases h2 : (!(Verif.Util.allUnequal (fun a b => decide (a.utxo = b.utxo)) p.body.receivers)) = true
    · rw [if_pos h2]; exact .later (fun h => h1 (hd1.2 h)) (.here (hd2.1 h2))
    rw [if_neg h2]
    refine .later (fun h => h1 (hd1.2 h)) (.later (fun h => h2 (hd2.2 h)) ?_)
    have hse := senders_first env s p.body.senders
    cases hcs : checkSenders env s p.body.senders with
    | error e => rw [hcs] at hse; exact hse.append_some
    | ok u =>
      rw [hcs] at hse
      refine hse.append_none ?_
      simp only
      unfold checkReceivers
      by_cases h3 : p.body.receivers.any (fun q => decide (q.utxo ∈ s.utxos)) = true
      · rw [if_pos h3]; exact .here (by simpa using h3)
      rw [if_neg h3]
      refine .later (fun h => h3 (by simpa using h)) ?_
      have hv := valid_first env p sa ka l1 l2
      simp only
      cases hiv : isValid env (p.sig.map AuthSig.key) p.body (sa.zip p.body.sources) (ka.zip p.body.sinks) with
      | error e => rw [hiv] at hv; exact hv
      | ok u => rw [hiv] at hv; exact hv

/-- C133: validation reports the first of the listed checks that fails, and accepts when none does. -/
theorem c133_first (env : Env T) (s : State T) (p : Post T) (sa ka : List Nat) :
    First (faults env s p sa ka) (reason (validate env s p sa ka)) := by
  rw [validate_afterSig]
  have rest := afterSig_first env s p sa ka
  -- the signature
  have hreq : requiresAuthorization p.body.senders.length = decide (p.body.senders ≠ []) := by
    simp [requiresAuthorization, List.length_pos_iff]
  by_cases hs : p.body.senders = []
  · cases hsig : p.sig with
    | some g =>
      have : p.checkSig env.crypto = .error .invalidShape := by
        unfold Post.checkSig; rw [hreq, hsig]; simp [hs]
      rw [this]
      exact .later (fun h => h.1 hs) (.here ⟨hs, by simp [hsig]⟩)
    | none =>
      have : p.checkSig env.crypto = .ok () := by
        unfold Post.checkSig; rw [hreq, hsig]; simp [hs]
      rw [this]
      refine .later (fun h => h.1 hs) (.later (fun h => h.2 hsig) (.later (by rintro ⟨g, h, _⟩; rw [hsig] at h; cases h) ?_))
      exact rest
  · cases hsig : p.sig with
    | none =>
      have : p.checkSig env.crypto = .error .missingSignature := by
        unfold Post.checkSig; rw [hreq, hsig]; simp [hs]
      rw [this]
      exact .here ⟨hs, hsig⟩
    | some g => 
      by_cases hv : env.crypto.verifySig g.key p.body p.sinkAccounts g.sig = true
      · have : p.checkSig env.crypto = .ok () := by
          unfold Post.checkSig; rw [hreq, hsig]; simp [hs, hv]
        rw [this]
        refine .later (fun h => by rw [hsig] at h; cases h.2) (.later (fun h => hs h.1)
          (.later (by rintro ⟨g', h, h'⟩; rw [hsig] at h; cases h; rw [hv] at h'; cases h') ?_))
        exact rest
      · have : p.checkSig env.crypto = .error .badSignature := by
          unfold Post.checkSig; rw [hreq, hsig]; simp [hs, hv]
        rw [this]
        exact .later (fun h => by rw [hsig] at h; cases h.2) (.later (fun h => hs h.1) (.here ⟨g, hsig, by simpa using hv⟩))

/-- C133, read off one reason: what is reported is a check that fails, every earlier check passes, and a post is
accepted exactly when no check fails. -/
theorem c133_reason (env : Env T) (s : State T) (p : Post T) (sa ka : List Nat) :
    (∀ e, validate env s p sa ka = .error e ↔ ∃ pre c post, faults env s p sa ka = pre ++ (c, e) :: post ∧
      c ∧ ∀ x ∈ pre, ¬ x.1) ∧
    ((∃ k, validate env s p sa ka = .ok k) ↔ ∀ x ∈ faults env s p sa ka, ¬ x.1) := by
  have key : ∀ {l : List (Prop × PostError)} {r : Option PostError}, First l r →
      (∀ e, r = some e → ∃ pre c post, l = pre ++ (c, e) :: post ∧ c ∧ ∀ x ∈ pre, ¬ x.1) ∧
      (r = none → ∀ x ∈ l, ¬ x.1) := by
    intro l r h
    induction h with
    | none => exact ⟨nofun, fun _ => nofun⟩
    | @here c e l hc => exact ⟨fun e' h => by cases h; exact ⟨[], c, l, rfl, hc, nofun⟩, nofun⟩
    | @later c e l r hc _ ih =>
      refine ⟨fun e' h => ?_, fun h x hx => ?_⟩
      · obtain ⟨pre, c', post, rfl, h1, h2⟩ := ih.1 e' h
        refine ⟨(c, e) :: pre, c', post, rfl, h1, fun x hx => ?_⟩
        rcases List.mem_cons.1 hx with rfl | hx
        · exact hc
        · exact h2 x hx
      · rcases List.mem_cons.1 hx with rfl | hx
        · exact hc
        · exact ih.2 h x hx
  have back : ∀ (pre : List (Prop × PostError)) c e post, c → (∀ x ∈ pre, ¬ x.1) →
      First (pre ++ (c, e) :: post) (some e) := by
    intro pre c e post hc hpre
    induction pre with
    | nil => exact .here hc
    | cons x pre ih =>
      exact .later (hpre x (List.mem_cons_self ..)) (ih fun y hy => hpre y (List.mem_cons_of_mem _ hy))
  have none_of : ∀ l : List (Prop × PostError), (∀ x ∈ l, ¬ x.1) → First l none := by
    intro l hl
    induction l with
    | nil => exact .none
    | cons x l ih =>
      exact .later (hl x (List.mem_cons_self ..)) (ih fun y hy => hl y (List.mem_cons_of_mem _ hy))
  have hf := c133_first env s p sa ka
  obtain ⟨k1, k2⟩ := key hf
  refine ⟨fun e => ⟨fun h => k1 e (by rw [h]; rfl), ?_⟩, ?_, ?_⟩
  · rintro ⟨pre, c, post, hl, hc, hpre⟩
    have := First.unique (hl ▸ hf) (back pre c e post hc hpre)
    cases hv : validate env s p sa ka with
    | error e' => rw [hv] at this; cases this; rfl
    | ok k => rw [hv] at this; cases this
  · rintro ⟨k, hk⟩
    exact k2 (by rw [hk]; rfl)
  · intro h
    have := First.unique hf (none_of _ h)
    cases hv : validate env s p sa ka with
    | error e' => rw [hv] at this; cases this
    | ok k => exact ⟨k, rfl⟩

/-- C133: the reasons in use, one post each: nothing here is refused for a reason that cannot occur. -/
example :
    let p := pReclaim [40, 1] [40, 2] 0 50 7 [1]
    let v := fun (q : Post TT) so si => reason (validate (tEnv false eContains) s0 q so si)
    v p [] [1] = none ∧
    v {p with sig := none} [] [1] = some (.signature .missingSignature) ∧
    v {p with sinkAccounts := [2]} [] [1] = some (.signature .badSignature) ∧
    v p [] [] = some .invalidShape ∧
    v p [] [3] = some .sinkAccount ∧
    v (pReclaim [40, 1] [40, 1] 0 50 7 [1]) [] [1] = some .duplicateSpend := by
  refine ⟨by decide +kernel, by decide +kernel, by decide +kernel, by decide +kernel, by decide +kernel,
    by decide +kernel⟩

end Verif.Ledger
