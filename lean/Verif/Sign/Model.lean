import Verif.Asset.Model

/-!
# Signing: coin batching, withdrawals, consolidation

Models `manta-accounting/src/wallet/signer/functions.rs:483-940, 1055-1330`,
`manta-accounting/src/transfer/batch.rs:68-124`, `wallet/signer/mod.rs:960-1040`.

Simplifications: a (pre-)sender is the identifier and asset of the coin it spends; the keys are the signer's
own throughout (`default_*`), so authorizations are left out. The random generator is a stream of identifiers;
other randomness is left out. Identifiers of one function are drawn together, before the post is built.
-/

namespace Verif.Sign

open Verif.Asset

/-- A sender: coin and membership proof. The proof is represented by the accumulator it was taken from;
`none` is the default proof of `upgrade_unchecked(Default::default())`. -/
structure Sender (K A : Type) where
  key : K
  asset : Asset
  proof : Option A
deriving DecidableEq, Repr

/-- Owner of an output. -/
inductive Owner (Addr : Type) where
  | self
  | other (a : Addr)
deriving DecidableEq, Repr

/-- A receiver, its UTXO is determined by identifier, asset and owner. -/
structure Receiver (K Addr : Type) where
  key : K
  asset : Asset
  owner : Owner Addr
deriving DecidableEq, Repr

/-- A transfer handed to `build_post` (canonical.rs:60-200: `ToPrivate`, `PrivateTransfer`, `ToPublic`). -/
structure Tx (K A Addr Acct : Type) where
  sources : List Asset
  senders : List (Sender K A)
  receivers : List (Receiver K Addr)
  sinks : List Asset
  accounts : List Acct
deriving DecidableEq, Repr

/-- Parameters of signing. -/
structure Env (K Leaf A Addr Acct : Type) where
  /-- accumulator item of the UTXO of an own coin -/
  leaf : K → Asset → Leaf
  /-- `Accumulator::insert` -/
  insert : A → Leaf → Bool × A
  /-- `Accumulator::prove` succeeds -/
  contains : A → Leaf → Bool
  /-- `Rollback::rollback` -/
  rollback : A → A
  /-- identifiers drawn from the random generator -/
  fresh : Nat → K
  /-- `into_post` succeeds (`SignError::ProofSystemError` otherwise) -/
  prove : Tx K A Addr Acct → Bool
  /-- largest asset value -/
  max : Nat
  /-- number of asset ids, which are elements of a field -/
  ids : Nat

/-- Mutable state during signing. -/
structure St (K A Addr Acct : Type) where
  acc : A
  posts : List (Tx K A Addr Acct)
  next : Nat
deriving DecidableEq, Repr

/-- `SignError`, wallet/signer/mod.rs:834-860. -/
inductive SignError where
  | insufficientBalance
  | missingSpendingKey
  | missingProofAuthorizationKey
  | invalidConsolidationRequest
  | proofSystem
deriving DecidableEq, Repr

/-- Outcome; `panic` covers `expect`s and arithmetic overflow. -/
inductive Res (α : Type) where
  | ok (a : α)
  | err (e : SignError)
  | panic
deriving DecidableEq, Repr

/-- A coin of the asset id being spent: identifier and value. -/
abbrev Coin (K : Type) := K × Nat

section

variable {K Leaf A Addr Acct : Type} (E : Env K Leaf A Addr Acct)

/-- `try_upgrade`, sender.rs:176-181. -/
def upgrade (acc : A) (aid : Nat) (c : Coin K) : Option (Sender K A) :=
  if E.contains acc (E.leaf c.1 ⟨aid, c.2⟩) then some ⟨c.1, ⟨aid, c.2⟩, some acc⟩ else none

/-- `try_upgrade` of all, collected. -/
def upgradeAll (acc : A) (aid : Nat) : List (Coin K) → Option (List (Sender K A))
  | [] => some []
  | c :: cs =>
    match upgrade E acc aid c, upgradeAll acc aid cs with
    | some s, some ss => some (s :: ss)
    | _, _ => none

/-- One pass of the `for chunk` loop in `compute_batched_transactions`, functions.rs:765-796, over pairs, with the
remainder of `chunk_by` appended (797). Returns the new pre-senders and the zero coins made. -/
def joinRound (aid : Nat) : List (Coin K) → St K A Addr Acct → Res (List (Coin K) × List (Coin K)) × St K A Addr Acct
  | a :: b :: rest, st =>
    match upgrade E st.acc aid a, upgrade E st.acc aid b with
    | some sa, some sb =>
      let total := sa.asset.value + sb.asset.value
      if total > E.max then (.panic, st)
      else
        -- `Join::new`, batch.rs:75-110
        let k := E.fresh st.next
        let z := E.fresh (st.next + 1)
        let tx : Tx K A Addr Acct :=
          ⟨[], [sa, sb], [⟨k, ⟨aid, total⟩, .self⟩, ⟨z, ⟨aid, 0⟩, .self⟩], [], []⟩
        if E.prove tx then
          -- `insert_utxos`, batch.rs:114-124; the answers are ignored
          let acc1 := (E.insert st.acc (E.leaf k ⟨aid, total⟩)).2
          let acc2 := (E.insert acc1 (E.leaf z ⟨aid, 0⟩)).2
          match joinRound aid rest ⟨acc2, st.posts ++ [tx], st.next + 2⟩ with
          | (.ok (js, zs), st') => (.ok ((k, total) :: js, (z, 0) :: zs), st')
          | r => r
        else (.err .proofSystem, { st with next := st.next + 2 })
    | _, _ => (.panic, st)
  | rest, st => (.ok (rest, []), st)

theorem joinRound_length (aid : Nat) (cs : List (Coin K)) (st : St K A Addr Acct) :
    ∀ js zs st', joinRound E aid cs st = (.ok (js, zs), st') → js.length = cs.length - cs.length / 2 := by
  fun_induction joinRound E aid cs st with
  | case1 => intro js zs st' h; cases h
  | case2 st a b rest sa sb _ _ _ _ _ _ _ _ _ _ js' zs' st1 hr ih =>
    intro js zs st' h
    cases h
    have := ih _ _ _ hr
    simp only [List.length_cons]
    omega
  | case3 st a b rest sa sb _ _ _ _ _ _ _ _ _ _ hne ih =>
    intro js zs st' h
    exact absurd h (hne js zs st')
  | case4 => intro js zs st' h; cases h
  | case5 => intro js zs st' h; cases h
  | case6 rest st hne =>
    intro js zs st' h
    cases h
    match rest, hne with
    | [], _ => simp
    | [_], _ => simp
    | a :: b :: rest, hne => exact absurd rfl (hne a b rest)

/-- The `while` loop of `compute_batched_transactions`, functions.rs:764-799. `zs` is `new_zeroes`. -/
def batch (aid : Nat) (cs zs : List (Coin K)) (st : St K A Addr Acct) :
    Res (List (Coin K) × List (Coin K)) × St K A Addr Acct :=
  if _h2 : cs.length > 2 then
    match _h : joinRound E aid cs st with
    | (.ok (js, zs'), st') => batch aid js (zs ++ zs') st'
    | (.err e, st') => (.err e, st')
    | (.panic, st') => (.panic, st')
  else (.ok (cs, zs), st)
termination_by cs.length
decreasing_by
  have := joinRound_length E aid cs st js zs' st' _h
  omega

/-- `prepare_final_pre_senders`, functions.rs:642-709. `zs` is `new_zeroes`. -/
def prepareFinal (m : AMap K) (aid : Nat) (zs cs : List (Coin K)) (st : St K A Addr Acct) :
    Res (List (Sender K A)) × St K A Addr Acct :=
  match upgradeAll E st.acc aid cs with
  | none => (.panic, st)
  | some senders =>
    if senders.length > 2 then (.panic, st)
    else
      let needed := 2 - senders.length
      if needed = 0 then (.ok senders, st)
      else
        let zeroes := AMap.zeroes m needed aid
        match upgradeAll E st.acc aid (zeroes.map fun k => (k, 0)) with
        | none => (.panic, st)
        | some zsenders =>
          let needed' := needed - zeroes.length
          if needed' = 0 then (.ok (senders ++ zsenders), st)
          else
            match upgradeAll E st.acc aid (zs.reverse.take needed') with
            | none => (.panic, st)
            | some nsenders =>
              let fakes := needed' - zs.length
              (.ok (senders ++ zsenders ++ nsenders ++
                (List.range fakes).map fun i => ⟨E.fresh (st.next + i), ⟨aid, 0⟩, none⟩),
               { st with next := st.next + fakes })

/-- `build_post` followed by `posts.push`, functions.rs:581-616. -/
def buildPost (tx : Tx K A Addr Acct) (st : St K A Addr Acct) : Res Unit × St K A Addr Acct :=
  if E.prove tx then (.ok (), { st with posts := st.posts ++ [tx] }) else (.err .proofSystem, st)

/-- `sign_after_selection_private_transfer`, functions.rs:1119-1170, with `compute_batched_transactions`. The array
conversion `into_array_unchecked` (809) panics unless there are two senders. -/
def signPrivate (m : AMap K) (asset : Asset) (addr : Owner Addr) (change : Nat) (cs : List (Coin K))
    (st : St K A Addr Acct) : Res Unit × St K A Addr Acct :=
  match batch E asset.id cs [] st with
  | (.err e, st1) => (.err e, st1)
  | (.panic, st1) => (.panic, st1)
  | (.ok (cs', zs), st1) =>
    match prepareFinal E m asset.id zs cs' st1 with
    | (.err e, st2) => (.err e, st2)
    | (.panic, st2) => (.panic, st2)
    | (.ok senders, st2) =>
      if senders.length ≠ 2 then (.panic, st2)
      else
        buildPost E ⟨[], senders, [⟨E.fresh st2.next, ⟨asset.id, change⟩, .self⟩,
          ⟨E.fresh (st2.next + 1), asset, addr⟩], [], []⟩ { st2 with next := st2.next + 2 }

/-- `process_to_public_senders`, functions.rs:888-940. Returns the remaining change. -/
def processToPublic (aid : Nat) (senders : List (Sender K A)) (accts : List Acct) (change : Nat)
    (st : St K A Addr Acct) : Res Nat × St K A Addr Acct :=
  if senders.length ≠ 2 then (.panic, st)
  else
    let sum := (senders.map fun s => s.asset.value).sum
    if sum > E.max then (.panic, st)
    else
      let (received, reclaimed, change') :=
        if sum ≥ change then (change, sum - change, 0) else (sum, 0, change - sum)
      match buildPost E ⟨[], senders, [⟨E.fresh st.next, ⟨aid, received⟩, .self⟩], [⟨aid, reclaimed⟩], accts⟩
          { st with next := st.next + 1 } with
      | (.ok (), st') => (.ok change', st')
      | (.err e, st') => (.err e, st')
      | (.panic, st') => (.panic, st')

/-- `compute_to_public_transaction`, functions.rs:815-882: pairs, then the remainder. -/
def signToPublic (m : AMap K) (aid : Nat) (accts : List Acct) :
    List (Coin K) → Nat → St K A Addr Acct → Res Unit × St K A Addr Acct
  | [], _, st => (.ok (), st)
  | [c], change, st =>
    match prepareFinal E m aid [] [c] st with
    | (.err e, st1) => (.err e, st1)
    | (.panic, st1) => (.panic, st1)
    | (.ok senders, st1) =>
      match processToPublic E aid senders accts change st1 with
      | (.ok _, st2) => (.ok (), st2)
      | (.err e, st2) => (.err e, st2)
      | (.panic, st2) => (.panic, st2)
  | a :: b :: rest, change, st =>
    match upgradeAll E st.acc aid [a, b] with
    | none => (.panic, st)
    | some senders =>
      match processToPublic E aid senders accts change st with
      | (.ok change', st1) => signToPublic m aid accts rest change' st1
      | (.err e, st1) => (.err e, st1)
      | (.panic, st1) => (.panic, st1)

/-- `Transaction`, canonical.rs:370-385. -/
inductive Transaction (Addr Acct : Type) where
  | toPrivate (a : Asset)
  | privateTransfer (a : Asset) (addr : Owner Addr)
  | toPublic (a : Asset) (acct : Acct)

/-- The signer during a request: are spending keys and the authorization context loaded, coins, accumulator,
position in the random stream. -/
structure Signer (K A : Type) where
  accounts : Bool
  authorization : Bool
  assets : AMap K
  acc : A
  next : Nat

/-- `select` of functions.rs:490-513: `none` is an overflow panic. -/
def select (m : AMap K) (a : Asset) : Res (AMap.Selection K) :=
  match AMap.select E.max m a with
  | none => .panic
  | some sel => if a.value ≠ 0 ∧ sel.values = [] then .err .insufficientBalance else .ok sel

/-- `sign_internal`, functions.rs:1218-1270 with `sign_withdraw` 1058-1084. -/
def signInternal (g : Signer K A) (t : Transaction Addr Acct) : Res Unit × St K A Addr Acct :=
  let st : St K A Addr Acct := ⟨g.acc, [], g.next⟩
  match t with
  | .toPrivate a =>
    if g.authorization then
      buildPost E ⟨[a], [], [⟨E.fresh st.next, a, .self⟩], [], []⟩ { st with next := st.next + 1 }
    else (.err .missingProofAuthorizationKey, st)
  | .privateTransfer a addr =>
    if g.accounts then
      match select E g.assets a with
      | .ok sel => signPrivate E g.assets a addr sel.change sel.values st
      | .err e => (.err e, st)
      | .panic => (.panic, st)
    else (.err .missingSpendingKey, st)
  | .toPublic a acct =>
    if g.accounts then
      match select E g.assets a with
      | .ok sel => signToPublic E g.assets a.id [acct] sel.values sel.change st
      | .err e => (.err e, st)
      | .panic => (.panic, st)
    else (.err .missingSpendingKey, st)

/-- `sign`, functions.rs:1274-1299: the accumulator is rolled back only after success (`?` returns before). -/
def finish (g : Signer K A) (r : Res Unit × St K A Addr Acct) : Res (List (Tx K A Addr Acct)) × Signer K A :=
  match r with
  | (.ok (), st) => (.ok st.posts, { g with acc := E.rollback st.acc, next := st.next })
  | (.err e, st) => (.err e, { g with acc := st.acc, next := st.next })
  | (.panic, st) => (.panic, { g with acc := st.acc, next := st.next })

/-- `sign`, functions.rs:1274-1299. -/
def sign (g : Signer K A) (t : Transaction Addr Acct) : Res (List (Tx K A Addr Acct)) × Signer K A :=
  finish E g (signInternal E g t)

/-- `ConsolidationRequest::new`, wallet/signer/mod.rs:972-988. -/
def consolidationOk [DecidableEq K] : List (K × Asset) → Bool
  | [] => false
  | [_] => false
  | first :: rest =>
    let rec go : (K × Asset) → List (K × Asset) → Bool
      | _, [] => true
      | prev, c :: cs =>
        !((c :: cs).contains prev || decide (c.2.id ≠ first.2.id) || decide (c.2.value = 0)) && go c cs
    go first rest

/-- `consolidate`, functions.rs:1303-1327 with `consolidate_internal` 1088-1115 and `custom_select` 521-545. -/
def consolidate [DecidableEq K] (g : Signer K A) (req : List (K × Asset)) :
    Res (List (Tx K A Addr Acct)) × Signer K A :=
  let st : St K A Addr Acct := ⟨g.acc, [], g.next⟩
  finish E g <|
    if g.accounts then
      match req with
      | [] => (.err .invalidConsolidationRequest, st)
      | first :: _ =>
        if consolidationOk req then
          let total := (req.map fun c => c.2.value).sum
          if total > E.max then (.panic, st)
          else if req.all fun c => (AMap.assetVectorWithId g.assets first.2.id).contains c then
            signPrivate E g.assets ⟨first.2.id, total⟩ .self 0 (req.map fun c => (c.1, c.2.value)) st
          else (.err .invalidConsolidationRequest, st)
        else (.err .invalidConsolidationRequest, st)
    else (.err .missingSpendingKey, st)

end

end Verif.Sign
