import Verif.Poseidon.Matrix

/-!
# Gaussian elimination: helpers for C79
-/

namespace Verif.Poseidon

set_option linter.unusedSectionVars false

open Matrix

variable {F : Type} [Field F] [DecidableEq F]

/-- `n` rows of length `m`. -/
def Shape (n m : Nat) (M : Rows F) : Prop := M.length = n ∧ ∀ r ∈ M, r.length = m

/-- A list read as a vector. -/
def vec (n : Nat) (r : List F) : Fin n → F := fun j => col r j

/-- A list of rows read as a matrix. -/
def toM (n m : Nat) (M : Rows F) : Matrix (Fin n) (Fin m) F := fun i j => col (row M i) j

/-! ## Lists -/

theorem row_of_lt {M : Rows F} {i : Nat} (h : i < M.length) : row M i = M[i] := by
  simp [row, List.getElem?_eq_getElem h]

theorem row_mem {M : Rows F} {i : Nat} (h : i < M.length) : row M i ∈ M := by
  rw [row_of_lt h]; exact List.getElem_mem h

theorem mem_row {M : Rows F} {r : List F} (h : r ∈ M) : ∃ i, i < M.length ∧ row M i = r := by
  obtain ⟨i, hi, rfl⟩ := List.mem_iff_getElem.1 h
  exact ⟨i, hi, row_of_lt hi⟩

theorem map_row (M : Rows F) : (List.range M.length).map (row M) = M := by
  apply List.ext_getElem (by simp)
  intro i h1 h2
  simp [row, List.getElem?_eq_getElem h2]

theorem range_eraseIdx (n p : Nat) : (List.range n).eraseIdx p = (List.range n).filter (fun k => decide (k ≠ p)) := by
  induction n with
  | zero => simp
  | succ n ih =>
    rw [List.range_succ, List.filter_append, ← ih]
    by_cases h : p < n
    · rw [List.eraseIdx_append_of_lt_length (by simpa using h)]
      have : n ≠ p := by omega
      simp [this]
    · by_cases h2 : p = n
      · subst h2
        rw [List.eraseIdx_append_of_length_le (by simp), List.eraseIdx_of_length_le (l := List.range p) (by simp)]
        simp
      · rw [List.eraseIdx_append_of_length_le (by simp; omega), List.eraseIdx_of_length_le (l := List.range n) (by simp; omega)]
        have h3 : p - n ≠ 0 := by omega
        obtain ⟨q, hq⟩ := Nat.exists_eq_succ_of_ne_zero h3
        have h4 : n ≠ p := by omega
        simp [hq, h4]

theorem eraseIdx_eq_map (M : Rows F) (p : Nat) :
    M.eraseIdx p = ((List.range M.length).filter (fun k => decide (k ≠ p))).map (row M) := by
  conv_lhs => rw [← map_row M]
  rw [← range_eraseIdx, List.eraseIdx_map]

theorem row_set (S : Rows F) (i k : Nat) (x : List F) (h : i < S.length) :
    row (S.set i x) k = if k = i then x else row S k := by
  simp only [row, List.getD_eq_getElem?_getD, List.getElem?_set]
  by_cases hk : k = i
  · subst hk; simp [h]
  · rw [if_neg (Ne.symm hk), if_neg hk]

theorem row_append_left {R : Rows F} {x : Rows F} {k : Nat} (h : k < R.length) : row (R ++ x) k = row R k := by
  simp [row, List.getElem?_append_left h]

theorem row_append_length {R : Rows F} {x : List F} : row (R ++ [x]) R.length = x := by
  simp [row]

@[simp] theorem row_cons_zero {x : List F} {R : Rows F} : row (x :: R) 0 = x := rfl

@[simp] theorem row_cons_succ {x : List F} {R : Rows F} {k : Nat} : row (x :: R) (k + 1) = row R k := rfl

theorem row_map_of_lt {K : List Nat} {f : Nat → List F} {k : Nat} (h : k < K.length) :
    row (K.map f) k = f (K[k]) := by
  simp [row, List.getElem?_eq_getElem h]

theorem row_reverse {R : Rows F} {k : Nat} (h : k < R.length) : row R.reverse k = row R (R.length - 1 - k) := by
  simp [row, List.getElem?_reverse h]

@[simp] theorem length_vecSub (a b : List F) : (vecSub a b).length = min a.length b.length := by simp [vecSub]

@[simp] theorem length_scalarVecMul (s : F) (v : List F) : (scalarVecMul s v).length = v.length := by
  simp [scalarVecMul]

theorem col_vecSub {a b : List F} (h : a.length = b.length) (j : Nat) : col (vecSub a b) j = col a j - col b j := by
  simp only [col, vecSub, List.getD_eq_getElem?_getD, List.getElem?_zipWith]
  by_cases hj : j < a.length
  · rw [List.getElem?_eq_getElem hj, List.getElem?_eq_getElem (h ▸ hj)]; simp
  · rw [List.getElem?_eq_none (by omega), List.getElem?_eq_none (by omega)]; simp

theorem col_vecAdd {a b : List F} (h : a.length = b.length) (j : Nat) : col (vecAdd a b) j = col a j + col b j := by
  simp only [col, vecAdd, List.getD_eq_getElem?_getD, List.getElem?_zipWith]
  by_cases hj : j < a.length
  · rw [List.getElem?_eq_getElem hj, List.getElem?_eq_getElem (h ▸ hj)]; simp
  · rw [List.getElem?_eq_none (by omega), List.getElem?_eq_none (by omega)]; simp

theorem col_scalarVecMul (s : F) (v : List F) (j : Nat) : col (scalarVecMul s v) j = s * col v j := by
  simp only [col, scalarVecMul, List.getD_eq_getElem?_getD, List.getElem?_map]
  cases v[j]? <;> simp

theorem col_eliminateRow {a b : List F} (h : a.length = b.length) (f : F) (j : Nat) :
    col (eliminateRow a f b) j = col a j - f * col b j := by
  rw [eliminateRow, col_vecSub (by simpa using h), col_scalarVecMul]

theorem vec_eliminateRow {a b : List F} (n : Nat) (h : a.length = b.length) (f : F) :
    vec n (eliminateRow a f b) = vec n a - f • vec n b := by
  funext j
  simp [vec, col_eliminateRow h]

theorem length_eliminateRow {a b : List F} {n : Nat} (ha : a.length = n) (hb : b.length = n) (f : F) :
    (eliminateRow a f b).length = n := by simp [eliminateRow, ha, hb]

theorem ext_col {a b : List F} {n : Nat} (ha : a.length = n) (hb : b.length = n)
    (h : ∀ j, j < n → col a j = col b j) : a = b := by
  apply List.ext_getElem (by omega)
  intro i h1 h2
  have := h i (by omega)
  simpa [col, List.getElem?_eq_getElem h1, List.getElem?_eq_getElem h2] using this

/-! ## One elimination step -/

/-- The new value of the row `r`. -/
def elimOne (c : Nat) (inv : F) (r x piv : List F) : List F :=
  if col r c = 0 then x else eliminateRow x (col r c * inv) piv

theorem elimLoop_spec (c p : Nat) (pivot : List F) (inv : F) (M : Rows F) :
    ∀ (rs : Rows F) (i : Nat) (S : Rows F), rs = M.drop i → S.length = M.length → p < M.length →
      (elimLoop c p pivot inv i rs S).1 = (((List.range M.length).drop i).filter (fun k => decide (k ≠ p))).map
          (fun k => elimOne c inv (row M k) (row M k) pivot) ∧
      (elimLoop c p pivot inv i rs S).2.length = S.length ∧
      ∀ k, row (elimLoop c p pivot inv i rs S).2 k =
        if i ≤ k ∧ k < M.length ∧ k ≠ p then elimOne c inv (row M k) (row S k) (row S p) else row S k := by
  intro rs
  induction rs with
  | nil =>
    intro i S hrs hS hp
    have hi : M.length ≤ i := by
      have := congrArg List.length hrs
      simp at this; omega
    refine ⟨by simp [elimLoop, List.drop_of_length_le, hi], rfl, fun k => ?_⟩
    rw [if_neg (by omega)]; rfl
  | cons r rs ih =>
    intro i S hrs hS hp
    have hi : i < M.length := by
      have := congrArg List.length hrs
      simp at this; omega
    have hr : r = row M i ∧ rs = M.drop (i + 1) := by
      rw [List.drop_eq_getElem_cons hi] at hrs
      injection hrs with h1 h2
      exact ⟨by rw [row_of_lt hi, h1], h2⟩
    obtain ⟨hr, hrs'⟩ := hr
    have hdrop : (List.range M.length).drop i = i :: (List.range M.length).drop (i + 1) := by
      rw [List.drop_eq_getElem_cons (by simpa using hi)]; simp
    by_cases hip : i = p
    · obtain ⟨h1, h2, h3⟩ := ih (i + 1) S hrs' hS hp
      simp only [elimLoop, if_pos hip]
      refine ⟨?_, h2, fun k => ?_⟩
      · rw [h1, hdrop]; simp [hip]
      · rw [h3]
        by_cases hk : k = i
        · subst hk; simp [hip]
        · have : (i + 1 ≤ k ∧ k < M.length ∧ k ≠ p) ↔ (i ≤ k ∧ k < M.length ∧ k ≠ p) := by omega
          simp only [this]
    · by_cases h0 : col r c = 0
      · obtain ⟨h1, h2, h3⟩ := ih (i + 1) S hrs' hS hp
        simp only [elimLoop, if_neg hip, if_pos h0]
        refine ⟨?_, h2, fun k => ?_⟩
        · rw [h1, hdrop]; simp [hip, elimOne, ← hr, h0]
        · rw [h3]
          by_cases hk : k = i
          · subst hk
            rw [if_neg (by omega), if_pos (by omega), elimOne, ← hr, if_pos h0]
          · have : (i + 1 ≤ k ∧ k < M.length ∧ k ≠ p) ↔ (i ≤ k ∧ k < M.length ∧ k ≠ p) := by omega
            simp only [this]
      · obtain ⟨h1, h2, h3⟩ := ih (i + 1) (S.set i (eliminateRow (row S i) (col r c * inv) (row S p)))
          hrs' (by simpa using hS) hp
        simp only [elimLoop, if_neg hip, if_neg h0]
        refine ⟨?_, by simpa using h2, fun k => ?_⟩
        · rw [h1, hdrop]; simp [hip, elimOne, ← hr, h0]
        · rw [h3, row_set _ _ _ _ (by omega), row_set _ _ _ _ (by omega), if_neg (Ne.symm hip)]
          by_cases hk : k = i
          · subst hk
            rw [if_neg (by omega), if_pos rfl, if_pos (by omega), elimOne, ← hr, if_neg h0]
          · have : (i + 1 ≤ k ∧ k < M.length ∧ k ≠ p) ↔ (i ≤ k ∧ k < M.length ∧ k ≠ p) := by omega
            simp only [this, if_neg hk]

/-- The indices other than the pivot. -/
def others (m p : Nat) : List Nat := (List.range m).filter (fun k => decide (k ≠ p))

theorem mem_others {m p k : Nat} : k ∈ others m p ↔ k < m ∧ k ≠ p := by simp [others]

theorem length_others {m p : Nat} (h : p < m) : (others m p).length = m - 1 := by
  rw [others, ← range_eraseIdx, List.length_eraseIdx]; simp [h]

/-- What `eliminate` does: the pivot row first, then the reduced other rows; the shadow in the same way. -/
theorem eliminate_some {M S M' S' : Rows F} {c : Nat} (hS : S.length = M.length)
    (h : eliminate M c S = some (M', S')) :
    ∃ p, p < M.length ∧ col (row M p) c ≠ 0 ∧ (∀ j, j < c → col (row M p) j = 0) ∧
      M' = row M p :: (others M.length p).map (fun k => elimOne c (col (row M p) c)⁻¹ (row M k) (row M k) (row M p)) ∧
      S' = row S p :: (others M.length p).map (fun k => elimOne c (col (row M p) c)⁻¹ (row M k) (row S k) (row S p)) := by
  unfold eliminate at h
  split at h
  · cases h
  · rename_i p hp
    rw [List.findIdx?_eq_some_iff_getElem] at hp
    obtain ⟨hlt, hpred, -⟩ := hp
    rw [Bool.and_eq_true, decide_eq_true_eq, List.all_eq_true, ← row_of_lt hlt] at hpred
    obtain ⟨hc, hz⟩ := hpred
    simp only [finv, if_neg hc, Option.some.injEq, Prod.mk.injEq] at h
    obtain ⟨h1, h2, h3⟩ := elimLoop_spec c p (row M p) (col (row M p) c)⁻¹ M M 0 S rfl hS hlt
    refine ⟨p, hlt, hc, fun j hj => ?_, ?_, ?_⟩
    · simpa using hz j (List.mem_range.2 hj)
    · rw [← h.1, h1]; rfl
    · rw [← h.2, eraseIdx_eq_map, h2, hS, h3, if_neg (by omega)]
      congr 1
      apply List.map_congr_left
      intro k hk
      have hk' := mem_others.1 hk
      rw [h3, if_pos ⟨Nat.zero_le _, hk'.1, hk'.2⟩]

theorem eliminate_none {M S : Rows F} {c : Nat} (h : eliminate M c S = none) :
    ∀ r ∈ M, (∀ j, j < c → col r j = 0) → col r c = 0 := by
  unfold eliminate at h
  split at h
  · rename_i hn
    rw [List.findIdx?_eq_none_iff] at hn
    intro r hr hz
    have := hn r hr
    rw [Bool.and_eq_false_iff] at this
    rcases this with h1 | h1
    · simpa using h1
    · exfalso
      have h2 : (List.range c).all (fun j => decide (col r j = 0)) = true := by
        rw [List.all_eq_true]
        intro j hj
        simpa using hz j (List.mem_range.1 hj)
      rw [h2] at h1; cases h1
  · rename_i p hp
    rw [List.findIdx?_eq_some_iff_getElem] at hp
    obtain ⟨hlt, hpred, -⟩ := hp
    rw [Bool.and_eq_true, decide_eq_true_eq, ← row_of_lt hlt] at hpred
    simp [finv, if_neg hpred.1] at h

/-- A relation between rows and shadow rows kept by row operations. -/
structure Linear (n : Nat) (P : List F → List F → Prop) : Prop where
  len : ∀ {a s}, P a s → a.length = n ∧ s.length = n
  elim : ∀ {a s b t} (f : F), P a s → P b t → P (eliminateRow a f b) (eliminateRow s f t)
  scale : ∀ {a s} (f : F), P a s → P (scalarVecMul f a) (scalarVecMul f s)

/-- One step keeps the relation, the kernel, and produces zeros. -/
theorem eliminate_step {n : Nat} {P : List F → List F → Prop} (hP : Linear n P) {M S M' S' : Rows F} {c : Nat}
    (hS : S.length = M.length) (hMS : ∀ k, k < M.length → P (row M k) (row S k))
    (hz : ∀ r ∈ M, ∀ j, j < c → col r j = 0) (h : eliminate M c S = some (M', S')) :
    M'.length = M.length ∧ S'.length = M.length ∧ 0 < M.length ∧
    (∀ k, k < M.length → P (row M' k) (row S' k)) ∧
    col (row M' 0) c ≠ 0 ∧ (∀ r ∈ M', ∀ j, j < c → col r j = 0) ∧ (∀ r ∈ M'.eraseIdx 0, col r c = 0) ∧
    (∀ v : Fin n → F, (∀ r ∈ M', vec n r ⬝ᵥ v = 0) → ∀ r ∈ M, vec n r ⬝ᵥ v = 0) := by
  obtain ⟨p, hp, hc, hpz, rfl, rfl⟩ := eliminate_some hS h
  have hPp := hMS p hp
  have hstep : ∀ k, k < M.length → P (elimOne c (col (row M p) c)⁻¹ (row M k) (row M k) (row M p))
      (elimOne c (col (row M p) c)⁻¹ (row M k) (row S k) (row S p)) := by
    intro k hk
    unfold elimOne
    split
    · exact hMS k hk
    · exact hP.elim _ (hMS k hk) hPp
  have hlen := length_others hp
  have hcol : ∀ k, k < M.length → ∀ j, col (elimOne c (col (row M p) c)⁻¹ (row M k) (row M k) (row M p)) j =
      col (row M k) j - col (row M k) c * (col (row M p) c)⁻¹ * col (row M p) j := by
    intro k hk j
    unfold elimOne
    split
    · rename_i h0; rw [h0]; simp
    · rw [col_eliminateRow]
      rw [(hP.len (hMS k hk)).1, (hP.len hPp).1]
  refine ⟨by simp [hlen]; omega, by simp [hlen]; omega, by omega, fun k hk => ?_, hc, ?_, ?_, ?_⟩
  · cases k with
    | zero => exact hPp
    | succ k =>
      have hk' : k < (others M.length p).length := by omega
      rw [row_cons_succ, row_cons_succ, row_map_of_lt hk', row_map_of_lt hk']
      exact hstep _ (mem_others.1 (List.getElem_mem hk')).1
  · intro r hr j hj
    rcases List.mem_cons.1 hr with rfl | hr
    · exact hpz j hj
    · obtain ⟨k, hk, rfl⟩ := List.mem_map.1 hr
      have hk' := mem_others.1 hk
      rw [hcol k hk'.1, hz _ (row_mem hk'.1) j hj, hpz j hj]; simp
  · intro r hr
    simp only [List.eraseIdx_cons_zero] at hr
    obtain ⟨k, hk, rfl⟩ := List.mem_map.1 hr
    have hk' := mem_others.1 hk
    rw [hcol k hk'.1, inv_mul_cancel_right₀ hc, sub_self]
  · intro v hv r hr
    obtain ⟨k, hk, rfl⟩ := mem_row hr
    have h0 := hv _ List.mem_cons_self
    by_cases hkp : k = p
    · subst hkp; exact h0
    · have h1 := hv _ (List.mem_cons_of_mem _ (List.mem_map.2 ⟨k, mem_others.2 ⟨hk, hkp⟩, rfl⟩))
      have hv2 : vec n (row M k) = vec n (elimOne c (col (row M p) c)⁻¹ (row M k) (row M k) (row M p)) +
          (col (row M k) c * (col (row M p) c)⁻¹) • vec n (row M p) := by
        funext j
        simp only [Pi.add_apply, Pi.smul_apply, smul_eq_mul]
        show col (row M k) j = col _ j + _ * col (row M p) j
        rw [hcol k hk]; ring
      rw [hv2, add_dotProduct, h1, smul_dotProduct, h0]; simp

end Verif.Poseidon
