import Std.Data.String.ToNat

/-!
# C96: accounts and key derivation paths

Models `VecAccountMap` and `AccountTable` of `manta-accounting/src/key.rs:168-400` and `path_string`, `KeySecret` of
`manta-pay/src/key.rs:139-228`.

The derivation of a key from a seed and a path (crate `bip32`) is a parameter.
-/

namespace Verif.Accounts

/-! ## Model -/

/-- `VecAccountMap`, key.rs:168: `Vec<AccountIndex>`. -/
abbrev AccountMap := List Nat

/-- `create_account`, key.rs:192-201; `AccountIndex::default()` is 0 (key.rs:36-50), `none` is the panic of `try_into`
to `u32`. -/
def createAccount (m : AccountMap) : Option (Nat × AccountMap) :=
  if m.length < 2 ^ 32 then some (m.length, m ++ [0]) else none

/-- `new`, key.rs:175-179. -/
def newMap : Option AccountMap := (createAccount []).map Prod.snd

/-- `last_account`, key.rs:182-189. -/
def lastAccount (m : AccountMap) : Option Nat :=
  if m.length = 0 then none else if m.length - 1 < 2 ^ 32 then some (m.length - 1) else none

/-- `path_string`, manta-pay/src/key.rs:217-228. -/
def pathString (coin account : Nat) : String :=
  "m/" ++ Nat.repr 44 ++ "'/" ++ Nat.repr coin ++ "'/" ++ Nat.repr account ++ "'"

/-- Coin type ids, manta-pay/src/key.rs:99-127. -/
def testnet : Nat := 1
def manta : Nat := 611
def calamari : Nat := 612

/-- `KeySecret`, manta-pay/src/key.rs:139-152, without the phrase. -/
structure KeySecret where
  seed : List UInt8
  coin : Nat

/-- `Account`, key.rs:255-266. -/
structure Account where
  key : KeySecret
  index : Nat

/-- `xpr_secret_key`, manta-pay/src/key.rs:190-199; `derive` is the derivation of crate `bip32`, `none` a panic. -/
def KeySecret.secretKey {SK : Type} (derive : List UInt8 → String → Option SK) (k : KeySecret) (index : Nat) : Option SK :=
  derive k.seed (pathString k.coin index)

/-- `Account::spending_key`, key.rs:278-282. -/
def Account.spendingKey {SK : Type} (derive : List UInt8 → String → Option SK) (a : Account) : Option SK :=
  a.key.secretKey derive a.index

/-- `AccountTable`, key.rs:325-336. -/
structure Table where
  keys : KeySecret
  accounts : AccountMap

/-- `AccountTable::new`, key.rs:344-347. -/
def Table.new (k : KeySecret) : Option Table := newMap.map fun m => ⟨k, m⟩

/-- `AccountTable::get`, key.rs:362-369. -/
def Table.get (t : Table) (account : Nat) : Option Account := (t.accounts[account]?).map fun i => ⟨t.keys, i⟩

/-- `AccountTable::create_account`, key.rs:381-384. -/
def Table.create (t : Table) : Option (Nat × Table) := (createAccount t.accounts).map fun r => (r.1, ⟨t.keys, r.2⟩)

/-- Tables that a user gets, with the indices returned so far. -/
inductive Reach (k : KeySecret) : Table → List Nat → Prop
  | init (t : Table) : Table.new k = some t → Reach k t []
  | create (t t' : Table) (is : List Nat) (i : Nat) : Reach k t is → t.create = some (i, t') → Reach k t' (is ++ [i])

/-! ## Paths -/

theorem split_at_quote : ∀ (a a' b b' : List Char), '\'' ∉ a → '\'' ∉ a' →
    a ++ '\'' :: b = a' ++ '\'' :: b' → a = a' ∧ b = b'
  | [], [], _, _, _, _, h => by cases h; exact ⟨rfl, rfl⟩
  | [], c :: a', _, _, _, h', h => by cases h; exact absurd List.mem_cons_self h'
  | c :: a, [], _, _, h', _, h => by cases h; exact absurd List.mem_cons_self h'
  | c :: a, c' :: a', b, b', h1, h2, h => by
    rw [List.cons_append, List.cons_append, List.cons.injEq] at h
    obtain ⟨rfl, h⟩ := h
    obtain ⟨rfl, rfl⟩ := split_at_quote a a' b b' (fun h => h1 (List.mem_cons_of_mem _ h))
      (fun h => h2 (List.mem_cons_of_mem _ h)) h
    exact ⟨rfl, rfl⟩

theorem quote_repr (n : Nat) : '\'' ∉ n.repr.toList := by
  rw [Nat.toList_repr]
  intro h
  have := Nat.isDigit_of_mem_toDigits (by decide) (by decide) h
  exact absurd this (by decide)

/-- C96: the path determines coin and account. -/
theorem c96_paths (coin coin' i j : Nat) : pathString coin i = pathString coin' j ↔ coin = coin' ∧ i = j := by
  constructor
  · intro h
    have h := congrArg String.toList h
    simp only [pathString, String.toList_append, List.append_assoc] at h
    have h1 : (Nat.repr coin).toList ++ ("'/".toList ++ ((Nat.repr i).toList ++ "'".toList)) =
        (Nat.repr coin').toList ++ ("'/".toList ++ ((Nat.repr j).toList ++ "'".toList)) :=
      List.append_cancel_left (List.append_cancel_left (List.append_cancel_left h))
    have e : "'/".toList = ['\'', '/'] := rfl
    have e' : "'".toList = ['\''] := rfl
    rw [e, e'] at h1
    obtain ⟨h2, h3⟩ := split_at_quote _ _ _ _ (quote_repr _) (quote_repr _) h1
    obtain ⟨h4, -⟩ := split_at_quote _ _ [] [] (quote_repr _) (quote_repr _) (List.append_cancel_left h3)
    exact ⟨Nat.repr_injective (String.toList_inj.1 h2), Nat.repr_injective (String.toList_inj.1 h4)⟩
  · rintro ⟨rfl, rfl⟩; rfl

/-- C96: the networks do not share keys: a path of one is no path of another. -/
theorem c96_networks (i j : Nat) : pathString testnet i ≠ pathString manta j ∧
    pathString testnet i ≠ pathString calamari j ∧ pathString manta i ≠ pathString calamari j := by
  simp [c96_paths, testnet, manta, calamari]

/-- C96: the paths of the networks are those of BIP-44 with the coin types registered for them. -/
theorem c96_standard (i : Nat) :
    pathString testnet i = "m/44'/1'/" ++ Nat.repr i ++ "'" ∧ pathString manta i = "m/44'/611'/" ++ Nat.repr i ++ "'" ∧
    pathString calamari i = "m/44'/612'/" ++ Nat.repr i ++ "'" := by
  have h1 : "m/" ++ Nat.repr 44 ++ "'/" ++ Nat.repr testnet ++ "'/" = "m/44'/1'/" := by decide
  have h2 : "m/" ++ Nat.repr 44 ++ "'/" ++ Nat.repr manta ++ "'/" = "m/44'/611'/" := by decide
  have h3 : "m/" ++ Nat.repr 44 ++ "'/" ++ Nat.repr calamari ++ "'/" = "m/44'/612'/" := by decide
  unfold pathString
  rw [h1, h2, h3]
  exact ⟨rfl, rfl, rfl⟩

/-- C96: keys of different accounts of a wallet, or of different networks, come from different paths: equal keys mean that
the derivation maps two different paths to one key. -/
theorem c96_keys_partial {SK : Type} (derive : List UInt8 → String → Option SK) (k : KeySecret) (coin i j : Nat)
    (hne : k.coin ≠ coin ∨ i ≠ j) (h : k.secretKey derive i = (KeySecret.mk k.seed coin).secretKey derive j) :
    pathString k.coin i ≠ pathString coin j ∧
    derive k.seed (pathString k.coin i) = derive k.seed (pathString coin j) := by
  refine ⟨?_, h⟩
  rw [Ne, c96_paths]
  rintro ⟨h1, h2⟩
  exact hne.elim (· h1) (· h2)

/-! ## The account table -/

theorem reach_spec (k : KeySecret) (t : Table) (is : List Nat) (h : Reach k t is) :
    t.keys = k ∧ t.accounts = List.replicate (is.length + 1) 0 ∧ is = List.range' 1 is.length := by
  induction h with
  | init t h => cases h; exact ⟨rfl, rfl, rfl⟩
  | create t t' is i _ h ih =>
    obtain ⟨h1, h2, h3⟩ := ih
    simp only [Table.create, createAccount] at h
    split at h
    · cases h
      refine ⟨h1, ?_, ?_⟩
      · rw [h2, List.length_append, List.length_singleton]
        exact List.replicate_succ'.symm
      · rw [h2, List.length_replicate, List.length_append, List.length_singleton, List.range'_concat, ← h3,
          Nat.one_mul, Nat.add_comm 1]
    · cases h

/-- C96: the returned indices count up from one; the accounts that exist are the default account and those returned;
the last account is the last one created. -/
theorem c96_indices (k : KeySecret) (t : Table) (is : List Nat) (h : Reach k t is) :
    is = List.range' 1 is.length ∧ (∀ i, (t.get i).isSome = true ↔ i = 0 ∨ i ∈ is) ∧
    (is.length < 2 ^ 32 → lastAccount t.accounts = some is.length) := by
  obtain ⟨h1, h2, h3⟩ := reach_spec k t is h
  refine ⟨h3, ?_, ?_⟩
  · intro i
    have hs : (t.get i).isSome = true ↔ i < is.length + 1 := by
      simp only [Table.get, h2, Option.isSome_map, List.getElem?_replicate]
      split
      · rename_i h; exact ⟨fun _ => h, fun _ => rfl⟩
      · rename_i h; exact ⟨(fun h' => absurd h' (by decide)), fun h' => absurd h' h⟩
    have hm : i ∈ is ↔ i ∈ List.range' 1 is.length := by rw [← h3]
    rw [hs, hm, List.mem_range'_1]
    omega
  · intro hlt
    simp only [lastAccount, h2, List.length_replicate, Nat.add_sub_cancel]
    rw [if_neg (by omega), if_pos hlt]

/-- C96: creating an account does not change existing accounts. -/
theorem c96_stable (t t' : Table) (i j : Nat) (a : Account) (h : t.create = some (i, t')) (hj : t.get j = some a) :
    t'.get j = some a ∧ j ≠ i := by
  simp only [Table.create, createAccount] at h
  split at h
  · cases h
    simp only [Table.get, Option.map_eq_some_iff] at hj ⊢
    obtain ⟨x, hx, rfl⟩ := hj
    have hlt : j < t.accounts.length := by
      rcases Nat.lt_or_ge j t.accounts.length with h | h
      · exact h
      · rw [List.getElem?_eq_none h] at hx; cases hx
    exact ⟨⟨x, by rw [List.getElem?_append_left hlt]; exact hx, rfl⟩, by omega⟩
  · cases h

/-- C96 fails for the code: every account of every table has the index, hence the keys, of the default account. -/
theorem c96_same_keys_violated {SK : Type} (derive : List UInt8 → String → Option SK) (k : KeySecret) (t : Table)
    (is : List Nat) (h : Reach k t is) (i : Nat) (hi : i ∈ is) :
    ∃ a b, t.get i = some a ∧ t.get 0 = some b ∧ i ≠ 0 ∧ a = b ∧
      a.spendingKey derive = derive k.seed (pathString k.coin 0) := by
  obtain ⟨h1, h2, h3⟩ := reach_spec k t is h
  have hmem : i ∈ List.range' 1 is.length := h3 ▸ hi
  rw [List.mem_range'_1] at hmem
  have hget : ∀ j, j ≤ is.length → t.get j = some ⟨k, 0⟩ := by
    intro j hj
    simp only [Table.get, h1, h2]
    rw [List.getElem?_replicate_of_lt (by omega)]
    rfl
  exact ⟨_, _, hget i (by omega), hget 0 (by omega), by omega, rfl, rfl⟩

/-- C96: accounts can be created until there are `2^32`, then creation panics. -/
theorem c96_limit (k : KeySecret) (t : Table) (is : List Nat) (h : Reach k t is) :
    t.create = none ↔ 2 ^ 32 ≤ is.length + 1 := by
  obtain ⟨h1, h2, h3⟩ := reach_spec k t is h
  simp only [Table.create, createAccount, h2, List.length_replicate]
  split
  · simp only [Option.map_some, reduceCtorEq, false_iff]; omega
  · simp only [Option.map_none, true_iff]; omega

/-! ## Concrete cases -/

example : pathString manta 3 = "m/44'/611'/3'" := by decide

/-- Two accounts have been created. -/
example : ∃ t, Reach ⟨[1, 2], manta⟩ t [1, 2] := by
  refine ⟨_, .create _ ⟨⟨[1, 2], manta⟩, [0, 0, 0]⟩ [1] 2
    (.create ⟨⟨[1, 2], manta⟩, [0]⟩ ⟨⟨[1, 2], manta⟩, [0, 0]⟩ [] 1 (.init _ ?_) ?_) ?_⟩ <;> rfl

end Verif.Accounts
