import Verif.Asset.Select

/-!
# Many coins at once

The default methods of the trait `AssetMap` (`manta-accounting/src/asset.rs:709-754`) that insert or remove a whole
sequence of coins.  The sequences are lists: an iterator that panics or never ends is not modelled.
-/

namespace Verif.Asset.AMap

variable {K : Type} [DecidableEq K] (bs : BinSearch) (L : Layout K (List Asset))

/-- `AssetMap::insert_all`, asset.rs:710-716. -/
def insertAll (m : AMap K) (xs : List (K × Asset)) : AMap K :=
  xs.foldl (fun m x => insert bs L m x.1 x.2) m

/-- `AssetMap::insert_all_same`, asset.rs:720-727. -/
def insertAllSame (m : AMap K) (id : Nat) (xs : List (K × Nat)) : AMap K :=
  xs.foldl (fun m x => insert bs L m x.1 ⟨id, x.2⟩) m

/-- `AssetMap::insert_zeroes`, asset.rs:731-739. -/
def insertZeroes (m : AMap K) (id : Nat) (ks : List K) : AMap K :=
  ks.foldl (fun m k => insert bs L m k ⟨id, 0⟩) m

/-- `AssetMap::remove_all`, asset.rs:746-753: the answers of `remove` are dropped. -/
def removeAll (m : AMap K) (xs : List (K × Asset)) : AMap K :=
  xs.foldl (fun m x => (remove bs m x.1 x.2).2) m

theorem insertAll_spec (xs : List (K × Asset)) : ∀ m : AMap K, MWF m →
    MWF (insertAll bs L m xs) ∧
    ∀ k a, Stored (insertAll bs L m xs) k a ↔ Stored m k a ∨ (k, a) ∈ xs := by
  induction xs with
  | nil => intro m h; exact ⟨h, by simp [insertAll]⟩
  | cons x xs ih =>
    intro m h
    obtain ⟨h1, h2⟩ := insert_spec bs L m h x.1 x.2
    obtain ⟨h3, h4⟩ := ih _ h1
    refine ⟨h3, fun k a => ?_⟩
    have := h4 k a
    rw [h2] at this
    rw [show insertAll bs L m (x :: xs) = insertAll bs L (insert bs L m x.1 x.2) xs from rfl, this,
      List.mem_cons, or_assoc]
    have e : (k = x.1 ∧ a = x.2) ↔ (k, a) = x := by
      constructor
      · rintro ⟨rfl, rfl⟩; rfl
      · rintro rfl; exact ⟨rfl, rfl⟩
    rw [e]

theorem removeAll_spec (xs : List (K × Asset)) : ∀ m : AMap K, MWF m →
    MWF (removeAll bs m xs) ∧
    ∀ k a, Stored (removeAll bs m xs) k a ↔ Stored m k a ∧ (k, a) ∉ xs := by
  induction xs with
  | nil => intro m h; exact ⟨h, by simp [removeAll]⟩
  | cons x xs ih =>
    intro m h
    obtain ⟨h1, _, h2⟩ := remove_spec bs m h x.1 x.2
    obtain ⟨h3, h4⟩ := ih _ h1
    refine ⟨h3, fun k a => ?_⟩
    have := h4 k a
    rw [h2] at this
    rw [show removeAll bs m (x :: xs) = removeAll bs (remove bs m x.1 x.2).2 xs from rfl, this,
      List.mem_cons, and_assoc, not_or]
    have e : (k = x.1 ∧ a = x.2) ↔ (k, a) = x := by
      constructor
      · rintro ⟨rfl, rfl⟩; rfl
      · rintro rfl; exact ⟨rfl, rfl⟩
    rw [e]

theorem insertAllSame_eq (m : AMap K) (id : Nat) (xs : List (K × Nat)) :
    insertAllSame bs L m id xs = insertAll bs L m (xs.map fun x => (x.1, ⟨id, x.2⟩)) := by
  simp [insertAllSame, insertAll, List.foldl_map]

theorem insertZeroes_eq (m : AMap K) (id : Nat) (ks : List K) :
    insertZeroes bs L m id ks = insertAll bs L m (ks.map fun k => (k, ⟨id, 0⟩)) := by
  simp [insertZeroes, insertAll, List.foldl_map]

/-- Every map that a history of insertions and removals leaves has the invariant. -/
theorem mrun_wf (ops : List (MOp K)) : MWF (mrun bs L [] ops).2 :=
  (mrun_spec bs L ops [] [] ⟨List.nodup_nil, by simp, by simp⟩ (by simp [Stored, lastIsInsert])).1

/-- C23: a map as any history leaves it lists after the insertion of many coins what it listed before and the
coins of the sequence, and after their removal what it listed before without the coins of the sequence; in all
cases nothing is listed twice and no key has an empty list.  The order of the sequence and repetitions in it have
no effect on the coins listed. -/
theorem c23_bulk (ops : List (MOp K)) (m : AMap K) (hm : m = (mrun bs L [] ops).2) :
    (∀ xs, (∀ k a, (k, a) ∈ assetVector (insertAll bs L m xs) ↔ (k, a) ∈ assetVector m ∨ (k, a) ∈ xs) ∧
      (assetVector (insertAll bs L m xs)).Nodup ∧ ∀ e ∈ insertAll bs L m xs, e.2 ≠ []) ∧
    (∀ id xs, (∀ k a, (k, a) ∈ assetVector (insertAllSame bs L m id xs) ↔
        (k, a) ∈ assetVector m ∨ (a.id = id ∧ (k, a.value) ∈ xs)) ∧
      (assetVector (insertAllSame bs L m id xs)).Nodup ∧ ∀ e ∈ insertAllSame bs L m id xs, e.2 ≠ []) ∧
    (∀ id ks, (∀ k a, (k, a) ∈ assetVector (insertZeroes bs L m id ks) ↔
        (k, a) ∈ assetVector m ∨ (a.id = id ∧ a.value = 0 ∧ k ∈ ks)) ∧
      (assetVector (insertZeroes bs L m id ks)).Nodup ∧ ∀ e ∈ insertZeroes bs L m id ks, e.2 ≠ []) ∧
    (∀ xs, (∀ k a, (k, a) ∈ assetVector (removeAll bs m xs) ↔ (k, a) ∈ assetVector m ∧ (k, a) ∉ xs) ∧
      (assetVector (removeAll bs m xs)).Nodup ∧ ∀ e ∈ removeAll bs m xs, e.2 ≠ []) := by
  have h : MWF m := hm ▸ mrun_wf bs L ops
  refine ⟨fun xs => ?_, fun id xs => ?_, fun id ks => ?_, fun xs => ?_⟩
  · obtain ⟨h1, h2⟩ := insertAll_spec bs L xs m h
    exact ⟨fun k a => by rw [mem_assetVector, mem_assetVector, h2], assetVector_nodup _ h1, h1.nonempty⟩
  · rw [insertAllSame_eq]
    obtain ⟨h1, h2⟩ := insertAll_spec bs L (xs.map fun x => (x.1, (⟨id, x.2⟩ : Asset))) m h
    refine ⟨fun k a => ?_, assetVector_nodup _ h1, h1.nonempty⟩
    rw [mem_assetVector, mem_assetVector, h2, List.mem_map]
    refine or_congr Iff.rfl ⟨?_, ?_⟩
    · rintro ⟨x, hx, e⟩
      cases e
      exact ⟨rfl, hx⟩
    · rintro ⟨rfl, hx⟩
      exact ⟨_, hx, rfl⟩
  · rw [insertZeroes_eq]
    obtain ⟨h1, h2⟩ := insertAll_spec bs L (ks.map fun k => (k, (⟨id, 0⟩ : Asset))) m h
    refine ⟨fun k a => ?_, assetVector_nodup _ h1, h1.nonempty⟩
    rw [mem_assetVector, mem_assetVector, h2, List.mem_map]
    refine or_congr Iff.rfl ⟨?_, ?_⟩
    · rintro ⟨x, hx, e⟩
      cases e
      exact ⟨rfl, rfl, hx⟩
    · obtain ⟨i, v⟩ := a
      rintro ⟨rfl, rfl, hx⟩
      exact ⟨_, hx, rfl⟩
  · obtain ⟨h1, h2⟩ := removeAll_spec bs xs m h
    exact ⟨fun k a => by rw [mem_assetVector, mem_assetVector, h2], assetVector_nodup _ h1, h1.nonempty⟩

example : removeAll linSearch (insertZeroes linSearch idLayout (insertAllSame linSearch idLayout
      ((mrun linSearch idLayout ([] : AMap Nat) [.insert 1 ⟨7, 5⟩]).2) 7 [(1, 3), (2, 9), (1, 3)]) 8 [2])
      [(1, ⟨7, 5⟩), (1, ⟨7, 3⟩), (4, ⟨7, 3⟩)] = [(2, [⟨7, 9⟩, ⟨8, 0⟩])] := by decide

end Verif.Asset.AMap
