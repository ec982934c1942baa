/-!
# Model of `manta-accounting/src/asset.rs` and `manta-accounting/src/wallet/balance.rs`

Asset ids and values are `Nat` (in manta-pay: `u128`-like integers ordered numerically; any finite
`Ord` type embeds). `max` is the largest value of the Rust value type; an addition that exceeds it is a
panic, modelled as `none`.
-/

namespace Verif.Asset

/-- `Asset<I, V>`, asset.rs:77-83. -/
structure Asset where
  id : Nat
  value : Nat
deriving DecidableEq, Repr

/-- Derived `Ord` of `Asset` (asset.rs:75): lexicographic, id first. -/
def Asset.cmp (a b : Asset) : Ordering := (compare a.id b.id).then (compare a.value b.value)

/-! ## Binary search

`slice::binary_search_by` belongs to the Rust standard library. Only its documented contract is
used: on a slice that is partitioned by the comparator it returns *some* matching position or the
unique insertion point. Nothing is assumed about other slices. -/

/-- The comparator answers along the slice are `Less* Equal* Greater*`. -/
def Partitioned (f : α → Ordering) (l : List α) : Prop :=
  l.Pairwise fun a b => (f b = .lt → f a = .lt) ∧ (f a = .gt → f b = .gt)

/-- Contract of `binary_search_by`. -/
structure BinSearch where
  run : {α : Type} → (α → Ordering) → List α → Except Nat Nat
  found : ∀ {α : Type} (f : α → Ordering) (l : List α) (i : Nat), Partitioned f l →
    run f l = .ok i → ∃ a, l[i]? = some a ∧ f a = .eq
  missing : ∀ {α : Type} (f : α → Ordering) (l : List α) (i : Nat), Partitioned f l →
    run f l = .error i → i ≤ l.length ∧ (∀ a ∈ l.take i, f a = .lt) ∧ ∀ a ∈ l.drop i, f a = .gt

/-! ## `AssetList` -/

/-- `AssetList`, asset.rs:371-377. -/
abbrev AList := List Asset

namespace AList

variable (bs : BinSearch)

/-- `AssetList::find`, asset.rs:408-413. -/
def find (l : AList) (id : Nat) : Except Nat Nat := bs.run (fun a => compare a.id id) l

/-- `AssetList::get_value`, asset.rs:418-423. `none` inside `some` would be an index panic. -/
def getValue (l : AList) (id : Nat) : Option Nat :=
  match find bs l id with
  | .ok i => (l[i]?).map Asset.value
  | .error _ => none

/-- `AssetList::value`, asset.rs:427-433. -/
def value (l : AList) (id : Nat) : Nat := (getValue bs l id).getD 0

/-- `AssetList::contains`, asset.rs:437-449. -/
def contains (l : AList) (a : Asset) : Bool :=
  if a.value = 0 then true
  else match getValue bs l a.id with
    | some v => decide (v ≥ a.value)
    | none => false

/-- `AssetList::deposit`, asset.rs:459-471. -/
def deposit (max : Nat) (l : AList) (a : Asset) : Option AList :=
  if a.value = 0 then some l
  else match find bs l a.id with
    | .ok i =>
      match l[i]? with
      | none => none
      | some b => if b.value + a.value ≤ max then some (l.set i ⟨b.id, b.value + a.value⟩) else none
    | .error i => if i ≤ l.length then some (l.insertIdx i a) else none

/-- `AssetList::set_or_remove`, asset.rs:475-484. -/
def setOrRemove (l : AList) (i : Nat) (v : Nat) : AList :=
  if v = 0 then l.eraseIdx i else l.modify i fun b => ⟨b.id, v⟩

/-- `AssetList::withdraw`, asset.rs:490-507. -/
def withdraw (l : AList) (a : Asset) : Bool × AList :=
  if a.value = 0 then (true, l)
  else match find bs l a.id with
    | .ok i =>
      match l[i]? with
      | none => (false, l)
      | some b =>
        if a.value ≤ b.value then (true, setOrRemove l i (b.value - a.value)) else (false, l)
    | .error _ => (false, l)

/-- `AssetList::withdraw_unchecked`, asset.rs:515-528; `none` is a panic (missing id, or
subtraction overflow in a checked build). -/
def withdrawUnchecked (l : AList) (a : Asset) : Option AList :=
  if a.value = 0 then some l
  else match find bs l a.id with
    | .ok i =>
      match l[i]? with
      | none => none
      | some b => if a.value ≤ b.value then some (setOrRemove l i (b.value - a.value)) else none
    | .error _ => none

/-- `AssetList::remove`, asset.rs:548-553. -/
def remove (l : AList) (id : Nat) : Option Nat × AList :=
  match find bs l id with
  | .ok i => ((l[i]?).map Asset.value, l.eraseIdx i)
  | .error _ => (none, l)

/-- `AssetList::retain`, asset.rs:532-537. -/
def retain (f : Asset → Bool) (l : AList) : AList := l.filter f

/-- `FromIterator<Asset>`, asset.rs:615-630 (and `FromIterator<Vec<Asset>>` 645-661 on the
concatenation): deposits in order. -/
def fromIter (max : Nat) (as : List Asset) : Option AList :=
  as.foldlM (deposit bs max) []

/-- `BalanceState::deposit_all`, balance.rs:60-65. -/
def depositAll (max : Nat) (l : AList) (as : List Asset) : Option AList :=
  as.foldlM (deposit bs max) l

/-- The loop of `withdraw_all`, balance.rs:107-112. -/
def withdrawLoop : AList → List Asset → Bool × AList
  | l, [] => (true, l)
  | l, a :: as =>
    match withdraw bs l a with
    | (false, l') => (false, l')
    | (true, l') => withdrawLoop l' as

/-- `BalanceState::withdraw_all` for `AssetList`, balance.rs:103-114; `none` is an overflow while
summing the request. -/
def withdrawAll (max : Nat) (l : AList) (as : List Asset) : Option (Bool × AList) :=
  match fromIter bs max as with
  | none => none
  | some merged => some (withdrawLoop bs l merged)

end AList

/-! ## Map based balance stores -/

/-- `BTreeMap<K, W>` / `HashMap<K, W>`: entries in iteration order. `arrange` is where the map puts its
entries after an insertion; any rearrangement is allowed, so both map types are covered. -/
structure Layout (K W : Type) where
  arrange : List (K × W) → List (K × W)
  perm : ∀ m, (arrange m).Perm m

/-- `map.get(k)`. -/
def mget [DecidableEq K] (m : List (K × W)) (k : K) : Option W :=
  (m.find? fun e => decide (e.1 = k)).map Prod.snd

/-- Overwriting the value of an occupied entry. -/
def mset [DecidableEq K] (m : List (K × W)) (k : K) (w : W) : List (K × W) :=
  m.map fun e => if e.1 = k then (e.1, w) else e

/-- Removing an occupied entry. -/
def merase [DecidableEq K] (m : List (K × W)) (k : K) : List (K × W) :=
  m.filter fun e => decide (e.1 ≠ k)

abbrev BMap := List (Nat × Nat)

namespace BMap

variable (L : Layout Nat Nat)

/-- `balance`, balance.rs:124-126. -/
def balance (m : BMap) (id : Nat) : Nat := (mget m id).getD 0

/-- `deposit`, balance.rs:129-139. -/
def deposit (max : Nat) (m : BMap) (a : Asset) : Option BMap :=
  if a.value = 0 then some m
  else match mget m a.id with
    | none => some (L.arrange ((a.id, a.value) :: m))
    | some v => if v + a.value ≤ max then some (mset m a.id (v + a.value)) else none

/-- `withdraw`, balance.rs:142-159. -/
def withdraw (m : BMap) (a : Asset) : Bool × BMap :=
  if a.value ≠ 0 then
    match mget m a.id with
    | some v =>
      if a.value ≤ v then
        if v - a.value = 0 then (true, merase m a.id) else (true, mset m a.id (v - a.value))
      else (false, m)
    | none => (false, m)
  else (true, m)

/-- Loop of `withdraw_all`, balance.rs:166-171. -/
def withdrawLoop : BMap → List Asset → Bool × BMap
  | m, [] => (true, m)
  | m, a :: as =>
    match withdraw m a with
    | (false, m') => (false, m')
    | (true, m') => withdrawLoop m' as

/-- `withdraw_all`, balance.rs:162-172. -/
def withdrawAll (bs : BinSearch) (max : Nat) (m : BMap) (as : List Asset) : Option (Bool × BMap) :=
  match AList.fromIter bs max as with
  | none => none
  | some merged => some (withdrawLoop m merged)

end BMap

/-! ## `AssetMap` -/

/-- `BTreeAssetMap` / `HashAssetMap`, asset.rs:901, 916. -/
abbrev AMap (K : Type) := List (K × List Asset)

namespace AMap

variable {K : Type}

/-- `asset_vector`, asset.rs:878-884: all (key, asset) pairs in iteration order. -/
def assetVector (m : AMap K) : List (K × Asset) := m.flatMap fun e => e.2.map fun a => (e.1, a)

/-- `asset_vector_with_id`, asset.rs:887-894. -/
def assetVectorWithId (m : AMap K) (id : Nat) : List (K × Asset) :=
  (assetVector m).filter fun p => decide (p.2.id = id)

/-- `assets`, asset.rs:773-777. -/
def assets (bs : BinSearch) (max : Nat) (m : AMap K) : Option AList :=
  AList.fromIter bs max (m.flatMap Prod.snd)

/-- `Selection`, asset.rs:942-951. -/
structure Selection (K : Type) where
  change : Nat
  values : List (K × Nat)
deriving DecidableEq, Repr

/-- The `filter_map` of `select`, asset.rs:787-798. -/
def candidates (m : AMap K) (id : Nat) : List (K × Nat) :=
  (assetVector m).filterMap fun p => if p.2.value ≠ 0 ∧ p.2.id = id then some (p.1, p.2.value) else none

/-- The `for` loop of `select` and the code after it, asset.rs:799-823. -/
def selectLoop (max t : Nat) : List (K × Nat) → Nat → List (K × Nat) → Option (K × Nat) →
    Option (Selection K)
  | [], sum, values, best =>
    match best with
    | some (k, v) => some ⟨v - t, [(k, v)]⟩
    | none => if sum < t then some ⟨0, []⟩ else some ⟨sum - t, values⟩
  | (k, v) :: rest, sum, values, best =>
    if v > t then
      selectLoop max t rest sum values (some (match best with
        | some b => if v ≥ b.2 then b else (k, v)
        | none => (k, v)))
    else if v = t then some ⟨0, [(k, v)]⟩
    else if sum < t then
      if sum + v ≤ max then selectLoop max t rest (sum + v) (values ++ [(k, v)]) best else none
    else selectLoop max t rest sum values best

/-- `select`, asset.rs:780-824; `none` is an overflow panic. -/
def select (max : Nat) (m : AMap K) (a : Asset) : Option (Selection K) :=
  if a.value = 0 then some ⟨0, []⟩
  else selectLoop max a.value (candidates m a.id) 0 [] none

/-- `zeroes`, asset.rs:827-837. -/
def zeroes (m : AMap K) (n id : Nat) : List K :=
  (m.filterMap fun e =>
    if e.2.any fun a => decide (a.id = id) && decide (a.value = 0) then some e.1 else none).take n

variable [DecidableEq K] (bs : BinSearch) (L : Layout K (List Asset))

/-- `insert`, asset.rs:840-852. -/
def insert (m : AMap K) (k : K) (a : Asset) : AMap K :=
  match mget m k with
  | none => L.arrange ((k, [a]) :: m)
  | some as =>
    match bs.run (fun b => b.cmp a) as with
    | .ok _ => m
    | .error i => mset m k (as.insertIdx i a)

/-- `remove`, asset.rs:855-867. -/
def remove (m : AMap K) (k : K) (a : Asset) : Bool × AMap K :=
  match mget m k with
  | none => (false, m)
  | some as =>
    match bs.run (fun b => b.cmp a) as with
    | .error _ => (false, m)
    | .ok i =>
      if (as.eraseIdx i).isEmpty then (true, merase m k) else (true, mset m k (as.eraseIdx i))

end AMap

end Verif.Asset
