import Verif.Merkle.Model

/-!
# What a Merkle root is

The reference digest of a subtree, defined from the leaf sequence alone.  Level `0` is the layer hashing
pairs of leaf digests; the node `(k, i)` covers the leaves `i * 2 ^ (k + 1) ..< (i + 1) * 2 ^ (k + 1)`.
-/

namespace Verif.Merkle

variable {D N : Type}

/-- A subtree without leaves has the default digest; any other inner digest is the hash of its children; in
the lowest layer a missing right leaf counts as the default leaf digest. -/
def nodeVal (H : Hash D N) (l : List D) : Nat → Nat → N
  | 0, i =>
    if l.length ≤ i * 2 then H.dN
    else H.joinL ((l[2 * i]?).getD H.dD) ((l[2 * i + 1]?).getD H.dD)
  | k + 1, i =>
    if l.length ≤ i * 2 ^ (k + 2) then H.dN
    else H.join (nodeVal H l k (2 * i)) (nodeVal H l k (2 * i + 1))

/-- The reference root of a tree with path length `h`. -/
def specRoot (H : Hash D N) (h : Nat) (l : List D) : N := nodeVal H l h 0

/-- The reference path of a leaf: the reference digests of the siblings, lowest first. -/
def specPath (H : Hash D N) (h : Nat) (l : List D) (i : Nat) : Path D N :=
  ⟨(l[sibling i]?).getD H.dD, i, (List.range h).map fun k => nodeVal H l k (sibling (i / 2 ^ (k + 1)))⟩

end Verif.Merkle
