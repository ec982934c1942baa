import Verif.Poseidon.MdsProps

/-!
# C82: the sparse factorization
-/

namespace Verif.Poseidon

set_option linter.unusedSectionVars false

open Matrix

variable {F : Type} [Field F] [DecidableEq F]

/-! ## Entries of the derived matrices -/

theorem row_zipIdx_map {M : Rows F} (f : List F × Nat → List F) {i : Nat} (h : i < M.length) :
    row (M.zipIdx.map f) i = f (row M i, i) := by
  simp [row, List.getElem?_eq_getElem h]

theorem col_drop_one (r : List F) (j : Nat) : col (r.drop 1) j = col r (j + 1) := by
  simp [col]

theorem row_drop_one (M : Rows F) (i : Nat) : row (M.drop 1) i = row M (i + 1) := by
  simp [row]

theorem minor_zero {n : Nat} (hn : 0 < n) {M : Rows F} (hM : Shape (n + 1) (n + 1) M) :
    ∃ m, minor M 0 0 = some m ∧ Shape n n m ∧ ∀ i j, i < n → col (row m i) j = col (row M (i + 1)) (j + 1) := by
  refine ⟨(M.eraseIdx 0).map fun r => r.eraseIdx 0, ?_, ⟨?_, ?_⟩, ?_⟩
  · rw [minor, if_neg (by rw [hM.1]; omega)]
  · simp [hM.1]
  · intro r hr
    obtain ⟨r', hr', rfl⟩ := List.mem_map.1 hr
    have := hM.2 r' (List.mem_of_mem_eraseIdx hr')
    rw [List.length_eraseIdx, this]; simp
  · intro i j hi
    have hi' : i < (M.eraseIdx 0).length := by simp [hM.1]; omega
    have e : row ((M.eraseIdx 0).map fun r => r.eraseIdx 0) i = (row (M.eraseIdx 0) i).eraseIdx 0 := by
      simp only [row, List.getD_eq_getElem?_getD, List.getElem?_map, List.getElem?_eq_getElem hi']; simp
    rw [e, row_eraseIdx_zero, List.eraseIdx_zero, col, col]
    simp

theorem col_unit {m j k : Nat} (hj : j < m) (x : F) : col ((List.replicate m (0 : F)).set k x) j = if j = k then x else 0 := by
  simp only [col, List.getD_eq_getElem?_getD, List.getElem?_set, List.length_replicate]
  by_cases h : j = k
  · subst h; simp [hj]
  · rw [if_neg (Ne.symm h), if_neg h]; simp [hj]

theorem makePrime_shape {n : Nat} {M : Rows F} (hM : Shape (n + 1) (n + 1) M) : Shape (n + 1) (n + 1) (makePrime M) := by
  refine ⟨by simp [makePrime, hM.1], fun r hr => ?_⟩
  obtain ⟨ri, hri, rfl⟩ := List.mem_map.1 hr
  have := hM.2 ri.1 (List.fst_mem_of_mem_zipIdx hri)
  split <;> simp [this]

theorem col_makePrime {n : Nat} {M : Rows F} (hM : Shape (n + 1) (n + 1) M) {i j : Nat} (hi : i < n + 1) (hj : j < n + 1) :
    col (row (makePrime M) i) j = if i = 0 then (if j = 0 then 1 else 0) else (if j = 0 then 0 else col (row M i) j) := by
  rw [makePrime, row_zipIdx_map _ (by rw [hM.1]; exact hi)]
  by_cases h : i = 0
  · simp only [if_pos h]
    rw [length_row hM hi, col_unit hj]
  · simp only [if_neg h]
    cases j with
    | zero => rw [if_pos rfl]; rfl
    | succ j =>
      rw [if_neg (by omega), ← col_drop_one (row M i) j]; rfl

theorem makeDoublePrime_spec {n : Nat} {M H : Rows F} (hM : Shape (n + 1) (n + 1) M) (hH : Shape n n H) :
    ∃ dp w, makeDoublePrime M H = some dp ∧ Shape (n + 1) (n + 1) dp ∧
      vec n w = (fun i : Fin n => col (row M (i + 1)) 0) ᵥ* toM n n H ∧
      ∀ i j, i < n + 1 → j < n + 1 → col (row dp i) j =
        if i = 0 then col (row M 0) j else if j = 0 then col w (i - 1) else if j = i then 1 else 0 := by
  have hlen : (makeVW M).2.length = n := by simp [makeVW, hM.1]
  obtain ⟨w, hw, -, hw2⟩ := mulRowVecAtLeft_eq hH hlen
  refine ⟨_, w, by rw [makeDoublePrime, hw]; rfl, ⟨by simp [hM.1], fun r hr => ?_⟩, ?_, ?_⟩
  · obtain ⟨ri, hri, rfl⟩ := List.mem_map.1 hr
    have := hM.2 ri.1 (List.fst_mem_of_mem_zipIdx hri)
    split
    · simp [makeVW, length_row hM (Nat.succ_pos n)]
    · simp [this]
  · rw [hw2]
    congr 1
    funext i
    show col _ _ = _
    have : (i : Nat) < (M.drop 1).length := by rw [List.length_drop, hM.1]; have := i.2; omega
    simp only [makeVW]
    rw [col_map_col this, row_drop_one]
  · intro i j hi hj
    rw [row_zipIdx_map _ (by rw [hM.1]; exact hi)]
    by_cases h : i = 0
    · subst h
      simp only [if_pos]
      cases j with
      | zero => rfl
      | succ j =>
        rw [← col_drop_one (row M 0) j]; rfl
    · simp only [if_neg h]
      rw [length_row hM hi]
      have e : col (((List.replicate (n + 1) (0 : F)).set 0 (col w (i - 1))).set i 1) j =
          if j = i then 1 else col ((List.replicate (n + 1) (0 : F)).set 0 (col w (i - 1))) j := by
        simp only [col, List.getD_eq_getElem?_getD, List.getElem?_set (i := i), List.length_set, List.length_replicate]
        by_cases hji : j = i
        · subst hji; simp [hj]
        · rw [if_neg (Ne.symm hji), if_neg hji]
      rw [e, col_unit hj]
      by_cases hj0 : j = 0
      · rw [if_pos hj0, if_pos hj0, if_neg (by omega)]
      · rw [if_neg hj0, if_neg hj0]

/-- The lower right block. -/
def hat {n : Nat} (A : Matrix (Fin (n + 1)) (Fin (n + 1)) F) : Matrix (Fin n) (Fin n) F := A.submatrix Fin.succ Fin.succ

/-- What `derive_mds_matrices` returns. -/
theorem deriveMds_spec {n : Nat} (hn : 0 < n) {M : Rows F} (hM : Shape (n + 1) (n + 1) M)
    (hu : IsUnit (toM (n + 1) (n + 1) M)) (hh : IsUnit (hat (toM (n + 1) (n + 1) M))) :
    ∃ d, deriveMds M = some d ∧ d.m = M ∧ inverse M = some d.mInv ∧
      Shape (n + 1) (n + 1) d.mPrime ∧ Shape (n + 1) (n + 1) d.mDoublePrime ∧
      toM n n d.mHat = hat (toM (n + 1) (n + 1) M) ∧ toM n n d.mHatInv * hat (toM (n + 1) (n + 1) M) = 1 ∧
      hat (toM (n + 1) (n + 1) M) * toM n n d.mHatInv = 1 ∧
      (∀ i j : Fin (n + 1), toM (n + 1) (n + 1) d.mPrime i j =
        if i = 0 then (if j = 0 then 1 else 0) else (if j = 0 then 0 else toM (n + 1) (n + 1) M i j)) ∧
      (∀ j, toM (n + 1) (n + 1) d.mDoublePrime 0 j = toM (n + 1) (n + 1) M 0 j) ∧
      (∀ i : Fin n, toM (n + 1) (n + 1) d.mDoublePrime i.succ 0 =
        ((fun i : Fin n => toM (n + 1) (n + 1) M i.succ 0) ᵥ* toM n n d.mHatInv) i) ∧
      (∀ i j : Fin n, toM (n + 1) (n + 1) d.mDoublePrime i.succ j.succ = if i = j then 1 else 0) := by
  obtain ⟨⟨i1, -⟩, i2⟩ := And.intro (c79_inverse (Nat.succ_pos n) hM).1 (c79_inverse (Nat.succ_pos n) hM).2
  have hsome := (c79_inverse (Nat.succ_pos n) hM).1.2 hu
  obtain ⟨mi, hmi⟩ := Option.isSome_iff_exists.1 hsome
  obtain ⟨mh, hmh, hmhs, hmhe⟩ := minor_zero hn hM
  have hmat : toM n n mh = hat (toM (n + 1) (n + 1) M) := by
    funext i j
    exact hmhe i j i.2
  have hsome2 := (c79_inverse hn hmhs).1.2 (by rw [hmat]; exact hh)
  obtain ⟨hi, hhi⟩ := Option.isSome_iff_exists.1 hsome2
  obtain ⟨hhs, hh1, hh2⟩ := (c79_inverse hn hmhs).2 hi hhi
  obtain ⟨dp, w, hdp, hdps, hw, hdpe⟩ := makeDoublePrime_spec hM hhs
  refine ⟨{ m := M, mInv := mi, mHat := mh, mHatInv := hi, mPrime := makePrime M, mDoublePrime := dp }, ?_, rfl, hmi,
    makePrime_shape hM, hdps, hmat, by rw [← hmat]; exact hh1, by rw [← hmat]; exact hh2, ?_, ?_, ?_, ?_⟩
  · simp only [deriveMds, hmi, hmh, hhi, hdp, Option.bind_some, Option.map_some]
  · intro i j
    show col _ _ = _
    rw [col_makePrime hM i.2 j.2]
    have e1 : (i : Nat) = 0 ↔ i = 0 := by rw [Fin.ext_iff]; simp
    have e2 : (j : Nat) = 0 ↔ j = 0 := by rw [Fin.ext_iff]; simp
    simp only [e1, e2]
    rfl
  · intro j
    show col (row dp 0) j = _
    rw [hdpe 0 j (Nat.succ_pos n) j.2, if_pos rfl]; rfl
  · intro i
    show col (row dp (i + 1)) 0 = _
    have h2 := i.2
    rw [hdpe (i + 1) 0 (by omega) (Nat.succ_pos n), if_neg (by omega), if_pos rfl]
    exact congrFun hw i
  · intro i j
    show col (row dp (i + 1)) (j + 1) = _
    have h2 := i.2
    have h3 := j.2
    rw [hdpe (i + 1) (j + 1) (by omega) (by omega), if_neg (by omega), if_neg (by omega)]
    simp [Fin.ext_iff, eq_comm]

/-- The factorization, for a symmetric lower right block. -/
theorem derive_mul {n : Nat} {A P D : Matrix (Fin (n + 1)) (Fin (n + 1)) F} {H : Matrix (Fin n) (Fin n) F}
    (hH : hat A * H = 1) (hs : (hat A).IsSymm)
    (hP : ∀ i j, P i j = if i = 0 then (if j = 0 then 1 else 0) else (if j = 0 then 0 else A i j))
    (hD0 : ∀ j, D 0 j = A 0 j) (hD1 : ∀ i : Fin n, D i.succ 0 = ((fun i : Fin n => A i.succ 0) ᵥ* H) i)
    (hD2 : ∀ i j : Fin n, D i.succ j.succ = if i = j then 1 else 0) : P * D = A := by
  have hHs : Hᵀ = H := by
    have h1 : Hᵀ * hat A = 1 := by
      rw [← hs, ← transpose_mul, hH, transpose_one]
    calc Hᵀ = Hᵀ * (hat A * H) := by rw [hH, mul_one]
      _ = H := by rw [← mul_assoc, h1, one_mul]
  ext i j
  rw [mul_apply, Fin.sum_univ_succ]
  refine Fin.cases ?_ (fun i => ?_) i
  · rw [hP 0 0, if_pos rfl, if_pos rfl, hD0, one_mul]
    rw [Finset.sum_eq_zero, add_zero]
    intro k _
    rw [hP, if_pos rfl, if_neg (Fin.succ_ne_zero k), zero_mul]
  · rw [hP, if_neg (Fin.succ_ne_zero i), if_pos rfl, zero_mul, zero_add]
    have hk : ∀ k : Fin n, P i.succ k.succ = hat A i k := by
      intro k
      rw [hP, if_neg (Fin.succ_ne_zero i), if_neg (Fin.succ_ne_zero k)]; rfl
    simp only [hk]
    refine Fin.cases ?_ (fun j => ?_) j
    · have e : ∑ k, hat A i k * D k.succ 0 = (hat A *ᵥ (H *ᵥ fun i : Fin n => A i.succ 0)) i := by
        rw [mulVec, dotProduct]
        apply Finset.sum_congr rfl
        intro k _
        rw [hD1 k, ← mulVec_transpose, hHs]
      rw [e, mulVec_mulVec, hH, one_mulVec]
    · simp only [hD2]
      simp [hat]

/-! ## Sparse matrices -/

theorem isIdentity_of {n : Nat} (hn : 0 < n) {M : Rows F} (hM : Shape n n M)
    (h : ∀ i j, i < n → j < n → col (row M i) j = if i = j then 1 else 0) : isIdentity M = true := by
  rw [isIdentity, Bool.and_eq_true]
  refine ⟨by rw [isSquare, numColumns, length_row hM hn, hM.1]; simp, ?_⟩
  rw [List.all_eq_true]
  intro ri hri
  rw [List.all_eq_true]
  intro ej hej
  rw [decide_eq_true_eq]
  rw [List.mem_zipIdx_iff_getElem?] at hri hej
  obtain ⟨hi, e1⟩ := List.getElem?_eq_some_iff.1 hri
  obtain ⟨hj, e2⟩ := List.getElem?_eq_some_iff.1 hej
  have hi' : ri.2 < n := hM.1 ▸ hi
  have hr : ri.1 = row M ri.2 := by rw [row_of_lt hi, e1]
  have hj' : ej.2 < n := by rw [hr, length_row hM hi'] at hj; exact hj
  have := h ri.2 ej.2 hi' hj'
  rw [← hr, col, List.getD_eq_getElem?_getD, hej] at this
  simpa [kronecker] using this

theorem toMatrix_first (w : List F) : ∀ (k : Nat) (m : Rows F), k + w.length ≤ m.length →
    ((w.zipIdx k).foldl (fun m ej => m.set ej.2 ((row m ej.2).set 0 ej.1)) m).length = m.length ∧
    ∀ j, row ((w.zipIdx k).foldl (fun m ej => m.set ej.2 ((row m ej.2).set 0 ej.1)) m) j =
      if k ≤ j ∧ j < k + w.length then (row m j).set 0 (col w (j - k)) else row m j := by
  induction w with
  | nil => intro k m _; refine ⟨rfl, fun j => ?_⟩; rw [if_neg (by simp)]; rfl
  | cons x w ih =>
    intro k m hm
    simp only [List.length_cons] at hm ⊢
    rw [List.zipIdx_cons, List.foldl_cons]
    obtain ⟨h1, h2⟩ := ih (k + 1) (m.set k ((row m k).set 0 x)) (by rw [List.length_set]; omega)
    refine ⟨by rw [h1, List.length_set], fun j => ?_⟩
    rw [h2 j, row_set _ _ _ _ (by omega)]
    by_cases hj : j = k
    · subst hj
      rw [if_neg (by omega), if_pos rfl, if_pos (by omega)]; simp [col]
    · rw [if_neg hj]
      by_cases hj2 : k + 1 ≤ j ∧ j < k + 1 + w.length
      · rw [if_pos hj2, if_pos (by omega)]
        obtain ⟨d, hd⟩ : ∃ d, j - k = d + 1 := ⟨j - k - 1, by omega⟩
        rw [hd, show j - (k + 1) = d by omega]; rfl
      · rw [if_neg hj2, if_neg (by omega)]

theorem toMatrix_second (v : List F) : ∀ (k : Nat) (m : Rows F), 0 < m.length → k + v.length < (row m 0).length →
    ((v.zipIdx k).foldl (fun m ei => m.set 0 ((row m 0).set (ei.2 + 1) ei.1)) m).length = m.length ∧
    (row ((v.zipIdx k).foldl (fun m ei => m.set 0 ((row m 0).set (ei.2 + 1) ei.1)) m) 0).length = (row m 0).length ∧
    (∀ j, j ≠ 0 → row ((v.zipIdx k).foldl (fun m ei => m.set 0 ((row m 0).set (ei.2 + 1) ei.1)) m) j = row m j) ∧
    ∀ c, col (row ((v.zipIdx k).foldl (fun m ei => m.set 0 ((row m 0).set (ei.2 + 1) ei.1)) m) 0) c =
      if k + 1 ≤ c ∧ c < k + 1 + v.length then col v (c - 1 - k) else col (row m 0) c := by
  induction v with
  | nil =>
    intro k m _ _
    refine ⟨rfl, rfl, fun j _ => rfl, fun c => ?_⟩
    rw [if_neg (by simp)]; rfl
  | cons x v ih =>
    intro k m hm hk
    simp only [List.length_cons] at hk ⊢
    rw [List.zipIdx_cons, List.foldl_cons]
    have e0 : row (m.set 0 ((row m 0).set (k + 1) x)) 0 = (row m 0).set (k + 1) x := by
      rw [row_set _ _ _ _ hm, if_pos rfl]
    obtain ⟨h1, h2, h3, h4⟩ := ih (k + 1) (m.set 0 ((row m 0).set (k + 1) x)) (by rw [List.length_set]; omega)
      (by rw [e0, List.length_set]; omega)
    refine ⟨by rw [h1, List.length_set], by rw [h2, e0, List.length_set], fun j hj => ?_, fun c => ?_⟩
    · rw [h3 j hj, row_set _ _ _ _ hm, if_neg hj]
    · rw [h4 c, e0]
      by_cases hc : c = k + 1
      · subst hc
        rw [if_neg (by omega), if_pos (by omega)]
        have : k + 1 < (row m 0).length := by omega
        simp [col, this]
      · have e5 : col ((row m 0).set (k + 1) x) c = col (row m 0) c := by
          simp only [col, List.getD_eq_getElem?_getD, List.getElem?_set]
          rw [if_neg (Ne.symm hc)]
        rw [e5]
        by_cases hc2 : k + 1 + 1 ≤ c ∧ c < k + 1 + 1 + v.length
        · rw [if_pos hc2, if_pos (by omega)]
          obtain ⟨d, hd⟩ : ∃ d, c - 1 - k = d + 1 := ⟨c - 1 - k - 1, by omega⟩
          rw [hd, show c - 1 - (k + 1) = d by omega]; rfl
        · rw [if_neg hc2, if_neg (by omega)]

/-- A matrix with the identity as its lower right block is represented without loss. -/
theorem sparse_roundtrip {n : Nat} (hn : 0 < n) {M : Rows F} (hM : Shape (n + 1) (n + 1) M)
    (h : ∀ i j : Fin n, toM (n + 1) (n + 1) M i.succ j.succ = if i = j then 1 else 0) :
    ∃ s, mkSparse M = some s ∧ s.toMatrix = M := by
  obtain ⟨m, hm, hms, hme⟩ := minor_zero hn hM
  have hid : isIdentity m = true := by
    apply isIdentity_of hn hms
    intro i j hi hj
    have := h ⟨i, hi⟩ ⟨j, hj⟩
    rw [hme i j hi]
    simpa [toM, Fin.ext_iff] using this
  have hs : isSparse M = true := by rw [isSparse, hm]; exact hid
  refine ⟨_, by rw [mkSparse, if_pos hs], ?_⟩
  rw [Sparse.toMatrix]
  simp only [List.length_map, hM.1]
  obtain ⟨a1, a2⟩ := toMatrix_first (M.map fun r => col r 0) 0 (identity (n + 1)) (by simp [hM.1, length_identity])
  generalize hg : (M.map fun r => col r 0).zipIdx.foldl (fun m ej => m.set ej.2 ((row m ej.2).set 0 ej.1))
    (identity (n + 1)) = g at a1 a2
  rw [length_identity] at a1
  simp only [List.length_map, hM.1, Nat.zero_add, Nat.zero_le, true_and, Nat.sub_zero] at a2
  have hg0 : ∀ j, j < n + 1 → row g j = (row (identity (n + 1) : Rows F) j).set 0 (col (row M j) 0) := by
    intro j hj
    rw [a2 j, if_pos hj, col_map_col (by rw [hM.1]; exact hj)]
  have hlen0 : (row g 0).length = n + 1 := by
    rw [hg0 0 (Nat.succ_pos n), row_identity (Nat.succ_pos n)]; simp
  have hv : ((row M 0).drop 1).length = n := by rw [List.length_drop, length_row hM (Nat.succ_pos n)]; omega
  obtain ⟨b1, b2, b3, b4⟩ := toMatrix_second ((row M 0).drop 1) 0 g (by omega) (by rw [hlen0, hv]; omega)
  generalize ((row M 0).drop 1).zipIdx.foldl (fun m ei => m.set 0 ((row m 0).set (ei.2 + 1) ei.1)) g = r at *
  have hid1 : ∀ {i j : Nat}, i < n + 1 → j < n + 1 → j ≠ 0 →
      col ((row (identity (n + 1) : Rows F) i).set 0 (col (row M i) 0)) j = if j = i then 1 else 0 := by
    intro i j hi hj hj0
    rw [← col_identity (F := F) hi hj]
    simp only [col, List.getD_eq_getElem?_getD, List.getElem?_set]
    rw [if_neg (Ne.symm hj0)]
  rw [← map_row r, ← map_row M, b1, a1, hM.1]
  apply List.map_congr_left
  intro i hi
  have hi' := List.mem_range.1 hi
  apply ext_col (n := n + 1) _ (length_row hM hi')
  · intro j hj
    by_cases h0 : i = 0
    · subst h0
      rw [b4 j, hv]
      cases j with
      | zero => rw [if_neg (by omega), hg0 0 hi', row_identity hi']; simp [col]
      | succ j => rw [if_pos (by omega), col_drop_one]; rfl
    · rw [b3 i h0, hg0 i hi']
      cases j with
      | zero => rw [row_identity hi']; simp [col]
      | succ j =>
        rw [hid1 hi' hj (by omega)]
        obtain ⟨i', rfl⟩ := Nat.exists_eq_succ_of_ne_zero h0
        have := h ⟨i', by omega⟩ ⟨j, by omega⟩
        simp only [toM, Fin.succ_mk, Fin.mk.injEq] at this
        rw [show row M i'.succ = row M (i' + 1) from rfl, this]
        simp [eq_comm]
  · by_cases h0 : i = 0
    · subst h0; rw [b2, hlen0]
    · rw [b3 i h0, hg0 i hi', row_identity hi']; simp

/-! ## The chain of partial rounds -/

/-- A function applied to the first element of the state. -/
def onFirst {n : Nat} (f : F → F) (x : Fin (n + 1) → F) : Fin (n + 1) → F := Function.update x 0 (f (x 0))

/-- Specification of the partial rounds: apply the function to the first element, then the matrix; the state is a row
vector. -/
def rounds {n : Nat} : List ((F → F) × Matrix (Fin (n + 1)) (Fin (n + 1)) F) → (Fin (n + 1) → F) → Fin (n + 1) → F
  | [], x => x
  | (f, A) :: l, x => rounds l (onFirst f x ᵥ* A)

/-- A matrix that leaves the first element alone commutes with the function. -/
theorem onFirst_vecMul {n : Nat} {P : Matrix (Fin (n + 1)) (Fin (n + 1)) F}
    (h0 : ∀ j, P 0 j = if j = 0 then 1 else 0) (h1 : ∀ i : Fin n, P i.succ 0 = 0) (f : F → F) (x : Fin (n + 1) → F) :
    onFirst f (x ᵥ* P) = onFirst f x ᵥ* P := by
  have e0 : ∀ y : Fin (n + 1) → F, (y ᵥ* P) 0 = y 0 := by
    intro y
    simp only [vecMul, dotProduct, Fin.sum_univ_succ, h0, h1]
    simp
  funext j
  refine Fin.cases ?_ (fun j => ?_) j
  · rw [e0]; simp only [onFirst, Function.update_self, e0]
  · simp only [onFirst]
    rw [Function.update_of_ne (Fin.succ_ne_zero j)]
    simp only [vecMul, dotProduct, Fin.sum_univ_succ, h0, if_neg (Fin.succ_ne_zero j), mul_zero, zero_add]
    apply Finset.sum_congr rfl
    intro i _
    rw [Function.update_of_ne (Fin.succ_ne_zero i)]

/-- The loop of `factor_to_sparse_matrixes`. -/
def factorLoop (base : Rows F) (n : Nat) : Option (Rows F × List (Rows F)) :=
  (List.range n).foldl (fun acc _ => acc.bind fun ca =>
    (deriveMds ca.1).bind fun d =>
      (matmul base d.mPrime).map fun new => (new, ca.2 ++ [d.mDoublePrime])) (some (base, []))

theorem factorLoop_succ (base : Rows F) (k : Nat) : factorLoop base (k + 1) =
    (factorLoop base k).bind fun ca => (deriveMds ca.1).bind fun d =>
      (matmul base d.mPrime).map fun new => (new, ca.2 ++ [d.mDoublePrime]) := by
  simp only [factorLoop, List.range_succ, List.foldl_append, List.foldl_cons, List.foldl_nil]

theorem factorLoop_spec {n : Nat} (hn : 0 < n) {M : Rows F} (hM : Shape (n + 1) (n + 1) M)
    (hu : IsUnit (toM (n + 1) (n + 1) M)) (hh : IsUnit (hat (toM (n + 1) (n + 1) M)))
    (hs : (hat (toM (n + 1) (n + 1) M)).IsSymm) : ∀ k, ∃ C Ss, factorLoop M k = some (C, Ss) ∧ Ss.length = k ∧
      Shape (n + 1) (n + 1) C ∧ IsUnit (toM (n + 1) (n + 1) C) ∧
      hat (toM (n + 1) (n + 1) C) = hat (toM (n + 1) (n + 1) M) ^ (k + 1) ∧
      (∀ S ∈ Ss, Shape (n + 1) (n + 1) S ∧
        ∀ i j : Fin n, toM (n + 1) (n + 1) S i.succ j.succ = if i = j then 1 else 0) ∧
      ∀ (fs : List (F → F)), fs.length = k → ∀ x,
        rounds (fs.map fun f => (f, toM (n + 1) (n + 1) M)) (x ᵥ* toM (n + 1) (n + 1) M) =
        rounds (fs.zip (Ss.reverse.map (toM (n + 1) (n + 1)))) (x ᵥ* toM (n + 1) (n + 1) C) := by
  intro k
  induction k with
  | zero =>
    refine ⟨M, [], rfl, rfl, hM, hu, by simp, by simp, ?_⟩
    intro fs hfs x
    rw [List.eq_nil_of_length_eq_zero hfs]; rfl
  | succ k ih =>
    obtain ⟨C, Ss, e, hl, hC, hCu, hCh, hSs, hrun⟩ := ih
    have hCh' : IsUnit (hat (toM (n + 1) (n + 1) C)) := by rw [hCh]; exact hh.pow _
    have hCs : (hat (toM (n + 1) (n + 1) C)).IsSymm := by
      rw [hCh, IsSymm, transpose_pow, hs]
    obtain ⟨d, hd, -, -, hPs, hDs, -, -, hinv, hPe, hD0, hD1, hD2⟩ := deriveMds_spec hn hC hCu hCh'
    have hPD := derive_mul hinv hCs hPe hD0 hD1 hD2
    obtain ⟨N, hN, hNs, hNe⟩ := matmul_eq (Nat.succ_pos n) hM hPs
    have hPu : IsUnit (toM (n + 1) (n + 1) d.mPrime) := by
      rw [isUnit_iff_isUnit_det] at hCu ⊢
      rw [← hPD, det_mul] at hCu
      exact isUnit_of_mul_isUnit_left hCu
    have hP0 : ∀ j, toM (n + 1) (n + 1) d.mPrime 0 j = if j = 0 then 1 else 0 := by
      intro j; rw [hPe, if_pos rfl]
    have hP1 : ∀ i : Fin n, toM (n + 1) (n + 1) d.mPrime i.succ 0 = 0 := by
      intro i; rw [hPe, if_neg (Fin.succ_ne_zero i), if_pos rfl]
    refine ⟨N, Ss ++ [d.mDoublePrime], ?_, by simp [hl], hNs, by rw [hNe]; exact hu.mul hPu, ?_, ?_, ?_⟩
    · rw [factorLoop_succ, e]
      simp only [Option.bind_some, hd, hN, Option.map_some]
    · rw [hNe, pow_succ', ← hCh]
      ext i j
      rw [mul_apply]
      show (toM (n + 1) (n + 1) M * toM (n + 1) (n + 1) d.mPrime) i.succ j.succ = _
      rw [mul_apply, Fin.sum_univ_succ, hP0, if_neg (Fin.succ_ne_zero j), mul_zero, zero_add]
      apply Finset.sum_congr rfl
      intro l _
      rw [hPe, if_neg (Fin.succ_ne_zero l), if_neg (Fin.succ_ne_zero j)]; rfl
    · intro S hS
      rcases List.mem_append.1 hS with hS | hS
      · exact hSs S hS
      · rw [List.mem_singleton.1 hS]; exact ⟨hDs, hD2⟩
    · intro fs hfs x
      match fs, hfs with
      | f :: fs, hfs =>
        rw [List.reverse_append]
        simp only [List.reverse_cons, List.reverse_nil, List.nil_append, List.singleton_append, List.map_cons,
          List.zip_cons_cons, rounds]
        rw [hrun fs (by simpa using hfs), hNe, ← vecMul_vecMul, onFirst_vecMul hP0 hP1, vecMul_vecMul, hPD]

theorem collect_map {α β : Type} (f : α → Option β) (l : List α) (P : α → β → Prop)
    (h : ∀ x ∈ l, ∃ y, f x = some y ∧ P x y) :
    ∃ ys, collect (l.map f) = some ys ∧ ys.length = l.length ∧ ∀ (i : Nat) (x : α) (y : β),
      l[i]? = some x → ys[i]? = some y → P x y := by
  induction l with
  | nil => exact ⟨[], rfl, rfl, by simp⟩
  | cons x l ih =>
    obtain ⟨y, hy, hP⟩ := h x List.mem_cons_self
    obtain ⟨ys, e, hl, hi⟩ := ih (fun z hz => h z (List.mem_cons_of_mem _ hz))
    refine ⟨y :: ys, by rw [List.map_cons, hy, collect, e]; rfl, by simp [hl], ?_⟩
    intro i a b ha hb
    cases i with
    | zero => simp at ha hb; subst ha; subst hb; exact hP
    | succ i => simp at ha hb; exact hi i a b ha hb

/-- C82, decomposition. If the lower right block of an invertible matrix is invertible and symmetric,
`derive_mds_matrices` returns the inverse and factors `m = m_prime * m_double_prime` with a sparse second factor. -/
theorem c82_derive_partial {n : Nat} (hn : 0 < n) {M : Rows F} (hM : Shape (n + 1) (n + 1) M)
    (hu : IsUnit (toM (n + 1) (n + 1) M)) (hh : IsUnit (hat (toM (n + 1) (n + 1) M)))
    (hs : (hat (toM (n + 1) (n + 1) M)).IsSymm) :
    ∃ d s, deriveMds M = some d ∧ d.m = M ∧ toM (n + 1) (n + 1) d.mInv * toM (n + 1) (n + 1) M = 1 ∧
      toM (n + 1) (n + 1) d.mPrime * toM (n + 1) (n + 1) d.mDoublePrime = toM (n + 1) (n + 1) M ∧
      mkSparse d.mDoublePrime = some s ∧ s.toMatrix = d.mDoublePrime := by
  obtain ⟨d, hd, hm, hi, hPs, hDs, -, -, hinv, hPe, hD0, hD1, hD2⟩ := deriveMds_spec hn hM hu hh
  obtain ⟨s, h1, h2⟩ := sparse_roundtrip hn hDs hD2
  exact ⟨d, s, hd, hm, ((c79_inverse (Nat.succ_pos n) hM).2 _ hi).2.1, derive_mul hinv hs hPe hD0 hD1 hD2, h1, h2⟩

/-- C82, chain. For every number of partial rounds and every function applied to the first element in each of them,
the sparse matrices compute the same as the dense one. -/
theorem c82_chain_partial {n : Nat} (hn : 0 < n) {M : Rows F} (hM : Shape (n + 1) (n + 1) M)
    (hu : IsUnit (toM (n + 1) (n + 1) M)) (hh : IsUnit (hat (toM (n + 1) (n + 1) M)))
    (hs : (hat (toM (n + 1) (n + 1) M)).IsSymm) (k : Nat) :
    ∃ C Ss, factorToSparse M k = some (C, Ss) ∧ Ss.length = k ∧ Shape (n + 1) (n + 1) C ∧
      (∀ s ∈ Ss, Shape (n + 1) (n + 1) s.toMatrix) ∧
      ∀ (fs : List (F → F)), fs.length = k → ∀ x,
        rounds (fs.map fun f => (f, toM (n + 1) (n + 1) M)) (x ᵥ* toM (n + 1) (n + 1) M) =
        rounds (fs.zip (Ss.map fun s => toM (n + 1) (n + 1) s.toMatrix)) (x ᵥ* toM (n + 1) (n + 1) C) := by
  obtain ⟨C, Ss, e, hl, hC, -, -, hSs, hrun⟩ := factorLoop_spec hn hM hu hh hs k
  obtain ⟨ys, hy, hyl, hyi⟩ := collect_map mkSparse Ss.reverse (fun S s => s.toMatrix = S) (by
    intro S hS
    have := hSs S (List.mem_reverse.1 hS)
    exact sparse_roundtrip hn this.1 this.2)
  have hmap : ys.map (fun s => s.toMatrix) = Ss.reverse := by
    apply List.ext_getElem (by simpa using hyl)
    intro i h1 h2
    rw [List.getElem_map]
    simp only [List.length_map] at h1
    exact hyi i _ _ (List.getElem?_eq_getElem h2) (List.getElem?_eq_getElem h1)
  have e' : (List.range k).foldl (fun acc _ => acc.bind fun ca =>
    (deriveMds ca.1).bind fun d =>
      (matmul M d.mPrime).map fun new => (new, ca.2 ++ [d.mDoublePrime])) (some (M, [])) = some (C, Ss) := e
  refine ⟨C, ys, ?_, ?_, hC, ?_, ?_⟩
  · rw [factorToSparse, e']
    simp only [Option.bind_some, hy, Option.map_some]
  · rw [hyl]; simpa using hl
  · intro s hs
    have : s.toMatrix ∈ ys.map (fun s => s.toMatrix) := List.mem_map.2 ⟨s, hs, rfl⟩
    rw [hmap] at this
    exact (hSs _ (List.mem_reverse.1 this)).1
  · intro fs hfs x
    rw [hrun fs hfs x, ← hmap, List.map_map]
    rfl

/-- The generated matrices meet the hypotheses of C82. -/
theorem c82_generated {n : Nat} (hF : ∀ k : Nat, 0 < k → k < 3 * (n + 1) → (k : F) ≠ 0) :
    ∃ M, generateMds F (n + 1) = some M ∧ Shape (n + 1) (n + 1) M ∧ (toM (n + 1) (n + 1) M).IsSymm ∧
      IsUnit (toM (n + 1) (n + 1) M) ∧ IsUnit (hat (toM (n + 1) (n + 1) M)) ∧
      (hat (toM (n + 1) (n + 1) M)).IsSymm := by
  obtain ⟨M, h1, h2, h3, h4⟩ := c81_mds (F := F) hF
  refine ⟨M, h1, h2, h3, ?_, h4 n Fin.succ Fin.succ (Fin.succ_injective _) (Fin.succ_injective _), ?_⟩
  · have := h4 (n + 1) id id Function.injective_id Function.injective_id
    simpa using this
  · ext i j
    exact congrFun (congrFun h3 i.succ) j.succ

/-- C82 is violated for other matrices: `derive_mds_matrices` multiplies the column by the inverse from the wrong side,
so that the factors of an invertible matrix without symmetry do not give the matrix. -/
theorem c82_violated :
    ∃ (M : Rows ℚ) (d : MdsMatrices ℚ), deriveMds M = some d ∧ matmul d.mPrime d.mDoublePrime ≠ some M ∧
      matmul d.mPrime d.mDoublePrime ≠ none := by
  refine ⟨[[1, 2, 3], [4, 5, 6], [7, 8, 10]], ((deriveMds [[1, 2, 3], [4, 5, 6], [7, 8, 10]]).getD
    ⟨[], [], [], [], [], []⟩), ?_⟩
  decide +kernel

example : generateMds ℚ 2 = some [[1/2, 1/3], [1/3, 1/4]] := by decide +kernel

example : (factorToSparse ([[1/3, 1/4, 1/5], [1/4, 1/5, 1/6], [1/5, 1/6, 1/7]] : Rows ℚ) 3).isSome = true := by
  decide +kernel

end Verif.Poseidon
