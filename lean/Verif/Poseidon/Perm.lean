import Verif.Poseidon.Mds

/-!
# Model of the Poseidon permutation and hasher (manta-pay/src/crypto/poseidon/{mod,hash}.rs)

`none` is a panic. The S-box is a parameter. The code is generic over a compiler; natively and in the circuit the same
sequence of field operations runs, which is what is modelled. Simplification: a state is the list of its elements;
`State::new` checks the length, the derived decoder of `State` does not (mod.rs:208-221).
-/

namespace Verif.Poseidon

set_option linter.unusedSectionVars false

variable {F : Type} [Field F] [DecidableEq F]

/-- `Constants`, mod.rs:92-109. -/
structure Consts where
  width : Nat
  full : Nat
  part : Nat
deriving DecidableEq, Repr

/-- `HALF_FULL_ROUNDS`, mod.rs:303. -/
def Consts.half (c : Consts) : Nat := c.full / 2

/-- `ROUNDS`, mod.rs:306. -/
def Consts.rounds (c : Consts) : Nat := c.full + c.part

/-- `Permutation`, mod.rs:277-288. -/
structure Perm (F : Type) where
  keys : List F
  mds : List F
deriving DecidableEq

/-- `Permutation::new`, mod.rs:321-337. -/
def mkPerm (c : Consts) (keys mds : List F) : Option (Perm F) :=
  if keys.length = c.rounds * c.width then
    if mds.length = c.width * c.width then some ⟨keys, mds⟩ else none
  else none

/-- `additive_keys`, mod.rs:354-357. -/
def additiveKeys (c : Consts) (p : Perm F) (round : Nat) : Option (List F) :=
  if round * c.width + c.width ≤ p.keys.length then some ((p.keys.drop (round * c.width)).take c.width) else none

/-- `reduce` with addition and `unwrap`, mod.rs:373-378. -/
def reduceAdd : List F → Option F
  | [] => none
  | x :: xs => some (xs.foldl (fun acc next => acc + next) x)

/-- `mds_matrix_multiply`, mod.rs:361-382. -/
def mdsMultiply (c : Consts) (p : Perm F) (state : List F) : Option (List F) :=
  collect ((List.range c.width).map fun i =>
    (collect (state.zipIdx.map fun ej => (p.mds[c.width * i + ej.2]?).map fun m => ej.1 * m)).bind reduceAdd)

/-- `full_round`, mod.rs:385-392. -/
def fullRound (c : Consts) (sbox : F → F) (p : Perm F) (round : Nat) (state : List F) : Option (List F) :=
  (additiveKeys c p round).bind fun keys =>
    (collect (state.zipIdx.map fun ei => (keys[ei.2]?).map fun k => sbox (ei.1 + k))).bind (mdsMultiply c p)

/-- `partial_round`, mod.rs:396-403. -/
def partialRound (c : Consts) (sbox : F → F) (p : Perm F) (round : Nat) (state : List F) : Option (List F) :=
  (additiveKeys c p round).bind fun keys =>
    (collect (state.zipIdx.map fun ei => (keys[ei.2]?).map fun k => ei.1 + k)).bind fun added =>
      match added with
      | [] => none
      | x :: xs => mdsMultiply c p (sbox x :: xs)

/-- A loop over rounds that may panic. -/
def loopRounds (f : Nat → List F → Option (List F)) (rs : List Nat) (state : List F) : Option (List F) :=
  rs.foldl (fun acc r => acc.bind (f r)) (some state)

/-- `permute_without_first_round`, mod.rs:407-420. -/
def permuteRest (c : Consts) (sbox : F → F) (p : Perm F) (state : List F) : Option (List F) :=
  ((loopRounds (fullRound c sbox p) (List.range' 1 (c.half - 1)) state).bind
    (loopRounds (partialRound c sbox p) (List.range' c.half c.part))).bind
    (loopRounds (fullRound c sbox p) (List.range' (c.half + c.part) (c.full + c.part - (c.half + c.part))))

/-- `permute`, mod.rs:514-517. -/
def permute (c : Consts) (sbox : F → F) (p : Perm F) (state : List F) : Option (List F) :=
  (fullRound c sbox p 0 state).bind (permuteRest c sbox p)

/-- `first_round_with_domain_tag_unchecked`, mod.rs:424-441. -/
def firstRound (c : Consts) (sbox : F → F) (p : Perm F) (tag : F) (input : List F) : Option (List F) :=
  (collect ((tag :: input).zipIdx.map fun pi => (p.keys[pi.2]?).map fun k => sbox (pi.1 + k))).bind (mdsMultiply c p)

/-- `hash_untruncated`, hash.rs:113-123. -/
def hashUntruncated (c : Consts) (sbox : F → F) (p : Perm F) (tag : F) (input : List F) : Option (List F) :=
  (firstRound c sbox p tag input).bind (permuteRest c sbox p)

/-- `hash`, hash.rs:150-152; `take_first` panics on an empty vector. -/
def hash (c : Consts) (sbox : F → F) (p : Perm F) (tag : F) (input : List F) : Option F :=
  (hashUntruncated c sbox p tag input).bind List.head?

/-- Apply a decoder `n` times (the `collect` over a range in `decode`). -/
def decodeMany {B E : Type} (dec : List B → Except E (F × List B)) : Nat → List B → Except E (List F × List B)
  | 0, bs => .ok ([], bs)
  | n + 1, bs =>
    match dec bs with
    | .error e => .error e
    | .ok (x, bs) =>
      match decodeMany dec n bs with
      | .error e => .error e
      | .ok (xs, bs) => .ok (x :: xs, bs)

/-- `encode` of a permutation, mod.rs:493-505. -/
def encodePerm {B : Type} (enc : F → List B) (p : Perm F) : List B := p.keys.flatMap enc ++ p.mds.flatMap enc

/-- `decode` of a permutation, mod.rs:472-485. -/
def decodePerm {B E : Type} (c : Consts) (dec : List B → Except E (F × List B)) (bs : List B) :
    Except E (Perm F × List B) :=
  match decodeMany dec (c.rounds * c.width) bs with
  | .error e => .error e
  | .ok (keys, bs) =>
    match decodeMany dec (c.width * c.width) bs with
    | .error e => .error e
    | .ok (mds, bs) => .ok (⟨keys, mds⟩, bs)

/-- `encode` of a hasher, hash.rs:184-191. -/
def encodeHasher {B : Type} (enc : F → List B) (p : Perm F) (tag : F) : List B := encodePerm enc p ++ enc tag

/-- `decode` of a hasher, hash.rs:164-172. -/
def decodeHasher {B E : Type} (c : Consts) (dec : List B → Except E (F × List B)) (bs : List B) :
    Except E ((Perm F × F) × List B) :=
  match decodePerm c dec bs with
  | .error e => .error e
  | .ok (p, bs) =>
    match dec bs with
    | .error e => .error e
    | .ok (tag, bs) => .ok ((p, tag), bs)

end Verif.Poseidon
