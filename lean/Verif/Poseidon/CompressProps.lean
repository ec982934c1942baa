import Verif.Poseidon.PermProps

/-!
# C83: preprocessed constants and sparse matrices compute the same permutation
-/

namespace Verif.Poseidon

set_option linter.unusedSectionVars false

open Matrix

variable {F : Type} [Field F] [DecidableEq F]

/-! ## Specification: the optimized schedule

The constants are consumed in order. The state is a row vector. After the initial addition every round applies the
S-box, adds its constants (one constant in a partial round) and multiplies; the last round has no constants. -/

/-- Full rounds of the optimized schedule. -/
def optFull {n : Nat} (sbox : F → F) : List (Matrix (Fin (n + 1)) (Fin (n + 1)) F) →
    (Fin (n + 1) → F) × List F → (Fin (n + 1) → F) × List F
  | [], st => st
  | A :: As, (x, cs) => optFull sbox As ((fun i => sbox (x i) + vec (n + 1) (cs.take (n + 1)) i) ᵥ* A, cs.drop (n + 1))

/-- Partial rounds of the optimized schedule. -/
def optPartial {n : Nat} (sbox : F → F) : List (Matrix (Fin (n + 1)) (Fin (n + 1)) F) →
    (Fin (n + 1) → F) × List F → (Fin (n + 1) → F) × List F
  | [], st => st
  | A :: As, (x, cs) => optPartial sbox As (onFirst (fun a => sbox a + col cs 0) x ᵥ* A, cs.drop 1)

/-- The whole schedule with matrix `A`, the matrix `pre` of the last round before the partial rounds, and the matrices
of the partial rounds. -/
def optimized {n : Nat} (half : Nat) (sbox : F → F) (A pre : Matrix (Fin (n + 1)) (Fin (n + 1)) F)
    (sparse : List (Matrix (Fin (n + 1)) (Fin (n + 1)) F)) (cs : List F) (x : Fin (n + 1) → F) : Fin (n + 1) → F :=
  let s0 := (fun i => x i + vec (n + 1) (cs.take (n + 1)) i, cs.drop (n + 1))
  let s1 := optFull sbox (List.replicate (half - 1) A ++ [pre]) s0
  let s2 := optPartial sbox sparse s1
  let s3 := optFull sbox (List.replicate (half - 1) A) s2
  (fun i => sbox (s3.1 i)) ᵥ* A

/-! ## The constants -/

theorem length_roundKeys {w r : Nat} {rc : List F} (h : (r + 1) * w ≤ rc.length) : (roundKeys w rc r).length = w := by
  rw [Nat.succ_mul] at h
  rw [roundKeys, List.length_take, List.length_drop]; omega

theorem vec_roundKeys (w r : Nat) (rc : List F) : vec w (roundKeys w rc r) = keyOf w rc r := by
  funext i
  simp [vec, keyOf, col, roundKeys]

/-- The accumulated keys of the last `j` partial rounds. -/
def accKey {n : Nat} (B : Matrix (Fin (n + 1)) (Fin (n + 1)) F) (K : Nat → Fin (n + 1) → F) (final : Nat) :
    Nat → Fin (n + 1) → F
  | 0 => K final
  | j + 1 => fun i => K (final - j - 1) i + Function.update (accKey B K final j ᵥ* B) 0 0 i

theorem accLoop_eq {n : Nat} {mInv : Rows F} (hI : Shape (n + 1) (n + 1) mInv) (rc : List F) (half part : Nat)
    (hrc : (half + part + 1) * (n + 1) ≤ rc.length) (j : Nat) (hj : j ≤ part) :
    ∃ a ps, (List.range j).foldl (fun acc i => acc.bind fun ap =>
      (mulRowVecAtLeft mInv ap.1).map fun inverted =>
        (vecAdd (roundKeys (n + 1) rc (half + part - i - 1)) (inverted.set 0 0), ap.2 ++ [col inverted 0]))
      (some (roundKeys (n + 1) rc (half + part), [])) = some (a, ps) ∧ a.length = n + 1 ∧ ps.length = j ∧
      vec (n + 1) a = accKey (toM (n + 1) (n + 1) mInv) (keyOf (n + 1) rc) (half + part) j ∧
      ∀ i, i < j → col ps i =
        (accKey (toM (n + 1) (n + 1) mInv) (keyOf (n + 1) rc) (half + part) i ᵥ* toM (n + 1) (n + 1) mInv) 0 := by
  induction j with
  | zero =>
    exact ⟨_, [], rfl, length_roundKeys hrc, rfl, vec_roundKeys _ _ _, fun i hi => absurd hi (Nat.not_lt_zero _)⟩
  | succ j ih =>
    obtain ⟨a, ps, e, ha, hps, hv, hc⟩ := ih (by omega)
    obtain ⟨inv, i1, i2, i3⟩ := mulRowVecAtLeft_eq hI ha
    have hk : (roundKeys (n + 1) rc (half + part - j - 1)).length = n + 1 := by
      apply length_roundKeys
      exact le_trans (Nat.mul_le_mul_right _ (by omega)) hrc
    refine ⟨vecAdd (roundKeys (n + 1) rc (half + part - j - 1)) (inv.set 0 0), ps ++ [col inv 0], ?_, ?_, by simp [hps],
      ?_, ?_⟩
    · rw [List.range_succ, List.foldl_append, e]
      simp only [List.foldl_cons, List.foldl_nil, Option.bind_some, i1, Option.map_some]
    · simp [vecAdd, hk, i2]
    · funext i
      show col (vecAdd _ _) i = _
      rw [col_vecAdd (by simp [hk, i2]), accKey, ← hv, ← i3]
      congr 1
      · exact congrFun (vec_roundKeys (n + 1) _ rc) i
      · refine Fin.cases ?_ (fun i => ?_) i
        · rw [Function.update_self]; simp [col, i2]
        · rw [Function.update_of_ne (Fin.succ_ne_zero i)]
          simp [col, vec]
    · intro i hi
      by_cases h : i < j
      · rw [← hc i h]
        simp [col, List.getElem?_append_left (show i < ps.length by omega)]
      · have : i = j := by omega
        subst this
        rw [← hv, ← i3]
        simp [col, vec, ← hps]

/-! ## The rounds -/

theorem optFull_append {n : Nat} (sbox : F → F) (As Bs : List (Matrix (Fin (n + 1)) (Fin (n + 1)) F))
    (st : (Fin (n + 1) → F) × List F) : optFull sbox (As ++ Bs) st = optFull sbox Bs (optFull sbox As st) := by
  induction As generalizing st with
  | nil => rfl
  | cons A As ih => exact ih _

theorem vec_take_append {n : Nat} {a b : List F} (ha : a.length = n) : vec n ((a ++ b).take n) = vec n a := by
  rw [List.take_append_of_le_length (by omega), List.take_of_length_le (by omega)]

theorem drop_append_eq {n : Nat} {a b : List F} (ha : a.length = n) : (a ++ b).drop n = b := by
  rw [← ha]; simp

/-- A run of full rounds whose constants are the inverted keys of the following rounds. -/
theorem optFull_eq {n : Nat} {A B : Matrix (Fin (n + 1)) (Fin (n + 1)) F} (hBA : B * A = 1) (hA : A.IsSymm)
    (sbox : F → F) (K : Nat → Fin (n + 1) → F) (m : Nat) : ∀ (r : Nat) (cs : List (List F)) (z : Fin (n + 1) → F)
    (rest : List F), cs.length = m → (∀ i, i < m → (row cs i).length = n + 1 ∧ vec (n + 1) (row cs i) = K (r + i + 1) ᵥ* B) →
    optFull sbox (List.replicate m A) (fun i => z i + K r i, cs.flatten ++ rest) =
      (fun i => (List.range' r m).foldl (fun x r => roundSpec A sbox true (K r) x) z i + K (r + m) i, rest) := by
  induction m with
  | zero =>
    intro r cs z rest hl _
    rw [List.eq_nil_of_length_eq_zero hl]; rfl
  | succ m ih =>
    intro r cs z rest hl hc
    match cs, hl with
    | c :: cs, hl =>
      obtain ⟨c1, c2⟩ := hc 0 (by omega)
      have e : row (c :: cs) 0 = c := rfl
      rw [e] at c1 c2
      rw [List.replicate_succ, optFull, List.flatten_cons, List.append_assoc, vec_take_append c1, drop_append_eq c1, c2]
      have hz : (fun i => sbox (z i + K r i) + (K (r + 0 + 1) ᵥ* B) i) ᵥ* A =
          fun i => roundSpec A sbox true (K r) z i + K (r + 1) i := by
        have : (fun i => sbox (z i + K r i) + (K (r + 0 + 1) ᵥ* B) i) =
          (fun i => sbox (z i + K r i)) + (K (r + 0 + 1) ᵥ* B) := rfl
        rw [this, add_vecMul, vecMul_vecMul, hBA, vecMul_one, roundSpec, if_pos rfl, ← vecMul_transpose, hA]
        rfl
      rw [hz, ih (r + 1) cs _ rest (by simpa using hl)]
      · rw [List.range'_succ, List.foldl_cons]
        simp only [show r + 1 + m = r + (m + 1) by omega]
      · intro i hi
        have := hc (i + 1) (by omega)
        rw [show r + 1 + i + 1 = r + (i + 1) + 1 by omega]
        simpa [row] using this

/-- The partial rounds. -/
theorem rounds_eq {n : Nat} {A B : Matrix (Fin (n + 1)) (Fin (n + 1)) F} (hBA : B * A = 1) (hA : A.IsSymm)
    (sbox : F → F) (K : Nat → Fin (n + 1) → F) (half part : Nat) : ∀ (m : Nat) (ps : List F) (z : Fin (n + 1) → F),
    ps.length = m → m ≤ part →
    (∀ i, i < m → col ps i = (accKey B K (half + part) (m - 1 - i) ᵥ* B) 0) →
    rounds (ps.map fun p => ((fun a => sbox a + p), A)) (fun i => z i + accKey B K (half + part) m i) =
      fun i => (List.range' (half + part - m) m).foldl (fun x r => roundSpec A sbox false (K r) x) z i +
        K (half + part) i := by
  intro m
  induction m with
  | zero =>
    intro ps z hl _ _
    rw [List.eq_nil_of_length_eq_zero hl]; rfl
  | succ m ih =>
    intro ps z hl hm hc
    match ps, hl with
    | p :: ps, hl =>
      have hp : p = (accKey B K (half + part) m ᵥ* B) 0 := by simpa [col] using hc 0 (by omega)
      rw [List.map_cons, rounds]
      have key : onFirst (fun a => sbox a + p) (fun i => z i + accKey B K (half + part) (m + 1) i) ᵥ* A =
          fun i => roundSpec A sbox false (K (half + part - (m + 1))) z i + accKey B K (half + part) m i := by
        have e : onFirst (fun a => sbox a + p) (fun i => z i + accKey B K (half + part) (m + 1) i) =
            onFirst sbox (fun i => z i + K (half + part - (m + 1)) i) + (accKey B K (half + part) m ᵥ* B) := by
          funext i
          simp only [accKey, Nat.sub_sub]
          refine Fin.cases ?_ (fun i => ?_) i
          · simp only [onFirst, Function.update_self, Pi.add_apply, add_zero]
            rw [hp]
          · simp only [onFirst, Pi.add_apply]
            rw [Function.update_of_ne (Fin.succ_ne_zero i), Function.update_of_ne (Fin.succ_ne_zero i),
              Function.update_of_ne (Fin.succ_ne_zero i), add_assoc]
        rw [e, add_vecMul, vecMul_vecMul, hBA, vecMul_one, roundSpec, if_neg (by simp), ← vecMul_transpose, hA]
        rfl
      rw [key, ih ps _ (by simpa using hl) (by omega)]
      · rw [List.range'_succ, List.foldl_cons, show half + part - (m + 1) + 1 = half + part - m by omega]
      · intro i hi
        have := hc (i + 1) (by omega)
        rw [show m + 1 - 1 - (i + 1) = m - 1 - i by omega] at this
        simpa [col] using this

theorem optPartial_eq {n : Nat} (sbox : F → F) : ∀ (ps : List F) (Ss : List (Matrix (Fin (n + 1)) (Fin (n + 1)) F))
    (x : Fin (n + 1) → F) (rest : List F), ps.length = Ss.length →
    optPartial sbox Ss (x, ps ++ rest) = (rounds ((ps.map fun p a => sbox a + p).zip Ss) x, rest) := by
  intro ps
  induction ps with
  | nil =>
    intro Ss x rest h
    rw [List.eq_nil_of_length_eq_zero h.symm]; rfl
  | cons p ps ih =>
    intro Ss x rest h
    match Ss, h with
    | S :: Ss, h =>
      rw [List.cons_append, optPartial, List.map_cons, List.zip_cons_cons, rounds]
      have : col (p :: (ps ++ rest)) 0 = p := rfl
      rw [this, List.drop_one, List.tail_cons, ih Ss _ rest (by simpa using h)]

/-- The lists of constants that `compress_round_constants` builds. -/
theorem compress_eq {n : Nat} {c : Consts} (hw : c.width = n + 1) {mInv : Rows F} (hI : Shape (n + 1) (n + 1) mInv)
    (h2 : 2 ≤ c.full) {rc : List F} (hrc : rc.length = c.rounds * c.width) :
    ∃ (k0 mid ps : List F) (fs ls : List (List F)),
      compress c.width c.full c.part rc mInv = some (k0 ++ fs.flatten ++ mid ++ ps ++ ls.flatten) ∧
      k0.length = n + 1 ∧ vec (n + 1) k0 = keyOf (n + 1) rc 0 ∧
      fs.length = c.half - 1 ∧ (∀ i, i < c.half - 1 → (row fs i).length = n + 1 ∧
        vec (n + 1) (row fs i) = keyOf (n + 1) rc (0 + i + 1) ᵥ* toM (n + 1) (n + 1) mInv) ∧
      mid.length = n + 1 ∧ vec (n + 1) mid =
        accKey (toM (n + 1) (n + 1) mInv) (keyOf (n + 1) rc) (c.half + c.part) c.part ᵥ* toM (n + 1) (n + 1) mInv ∧
      ps.length = c.part ∧ (∀ i, i < c.part → col ps i =
        (accKey (toM (n + 1) (n + 1) mInv) (keyOf (n + 1) rc) (c.half + c.part) (c.part - 1 - i) ᵥ*
          toM (n + 1) (n + 1) mInv) 0) ∧
      ls.length = c.half - 1 ∧ (∀ i, i < c.half - 1 → (row ls i).length = n + 1 ∧
        vec (n + 1) (row ls i) = keyOf (n + 1) rc (c.half + c.part + i + 1) ᵥ* toM (n + 1) (n + 1) mInv) := by
  have hhalf : c.half = c.full / 2 := rfl
  have hR : c.rounds = c.full + c.part := rfl
  have hkl : ∀ r, r < c.full + c.part → (r + 1) * (n + 1) ≤ rc.length := by
    intro r hr
    rw [hrc, hw, hR]
    exact Nat.mul_le_mul_right _ hr
  have hlist : ∀ g : Nat → Nat, (∀ i, i < c.half - 1 → g i < c.full + c.part) →
      ∃ ys : List (List F), collect ((List.range (c.half - 1)).map fun i => mulRowVecAtLeft mInv (roundKeys (n + 1) rc (g i))) =
        some ys ∧ ys.length = c.half - 1 ∧ ∀ i, i < c.half - 1 → (row ys i).length = n + 1 ∧
          vec (n + 1) (row ys i) = keyOf (n + 1) rc (g i) ᵥ* toM (n + 1) (n + 1) mInv := by
    intro g hg
    obtain ⟨ys, y1, y2, y3⟩ := collect_map (fun i => mulRowVecAtLeft mInv (roundKeys (n + 1) rc (g i)))
      (List.range (c.half - 1)) (fun i y => y.length = n + 1 ∧ vec (n + 1) y = keyOf (n + 1) rc (g i) ᵥ*
        toM (n + 1) (n + 1) mInv) (by
      intro i hi
      obtain ⟨w, w1, w2, w3⟩ := mulRowVecAtLeft_eq hI
        (length_roundKeys (r := g i) (rc := rc) (hkl (g i) (hg i (List.mem_range.1 hi))))
      exact ⟨w, w1, w2, by rw [w3, vec_roundKeys]⟩)
    rw [List.length_range] at y2
    refine ⟨ys, y1, y2, fun i hi => ?_⟩
    have : ys[i]? = some (row ys i) := by
      rw [List.getElem?_eq_getElem (by omega), row_of_lt]
    exact y3 i i _ (by simp [hi]) this
  obtain ⟨fs, f1, f2, f3⟩ := hlist (fun i => i + 1) (by intro i hi; omega)
  obtain ⟨ls, l1, l2, l3⟩ := hlist (fun i => i + 1 + (c.half + c.part)) (by intro i hi; omega)
  obtain ⟨a, ps, a1, a2, a3, a4, a5⟩ := accLoop_eq hI rc c.half c.part (hkl _ (by omega)) c.part (le_refl _)
  obtain ⟨mid, m1, m2, m3⟩ := mulRowVecAtLeft_eq hI a2
  refine ⟨roundKeys (n + 1) rc 0, mid, ps.reverse, fs, ls, ?_, length_roundKeys (hkl 0 (by omega)), vec_roundKeys _ _ _,
    f2, ?_, m2, by rw [m3, a4], by simp [a3], ?_, l2, ?_⟩
  · simp only [compress, ← hhalf, hw, f1, Option.bind_some, a1, m1, l1, Option.map_some]
  · intro i hi
    rw [Nat.zero_add]; exact f3 i hi
  · intro i hi
    rw [← a5 (c.part - 1 - i) (by omega)]
    simp only [col, List.getD_eq_getElem?_getD]
    rw [List.getElem?_reverse (by omega), a3]
  · intro i hi
    rw [show c.half + c.part + i + 1 = i + 1 + (c.half + c.part) by omega]
    exact l3 i hi

theorem foldl_round {n : Nat} (c : Consts) (A : Matrix (Fin (n + 1)) (Fin (n + 1)) F) (sbox : F → F)
    (K : Nat → Fin (n + 1) → F) (b : Bool) (l : List Nat)
    (h : ∀ r ∈ l, decide (r < c.full / 2 ∨ c.full / 2 + c.part ≤ r) = b) (x : Fin (n + 1) → F) :
    l.foldl (fun x r => roundSpec A sbox (decide (r < c.full / 2 ∨ c.full / 2 + c.part ≤ r)) (K r) x) x =
      l.foldl (fun x r => roundSpec A sbox b (K r) x) x := by
  apply foldl_congr_mem
  intro r hr y
  rw [h r hr]

/-- C83. For an even number of full rounds and a symmetric invertible matrix whose lower right block is invertible, the
preprocessed constants with the sparse matrices compute the permutation. -/
theorem c83_optimized {n : Nat} (hn : 0 < n) {c : Consts} (hw : c.width = n + 1) {m : Nat} (hm : 0 < m)
    (hfull : c.full = 2 * m) {M : Rows F} (hM : Shape (n + 1) (n + 1) M) (hu : IsUnit (toM (n + 1) (n + 1) M))
    (hh : IsUnit (hat (toM (n + 1) (n + 1) M))) (hsym : (toM (n + 1) (n + 1) M).IsSymm) (sbox : F → F)
    {keys : List F} {p : Perm F} (hp : mkPerm c keys (toRowMajor M) = some p) :
    ∃ d cs C Ss, deriveMds M = some d ∧ compress c.width c.full c.part keys d.mInv = some cs ∧
      cs.length = c.full * (n + 1) + c.part ∧
      factorToSparse M c.part = some (C, Ss) ∧ ∀ state, state.length = n + 1 →
      ∃ out, permute c sbox p state = some out ∧ out.length = n + 1 ∧
        vec (n + 1) out = optimized (c.full / 2) sbox (toM (n + 1) (n + 1) M) (toM (n + 1) (n + 1) C)
          (Ss.map fun s => toM (n + 1) (n + 1) s.toMatrix) cs (vec (n + 1) state) := by
  have hs : (hat (toM (n + 1) (n + 1) M)).IsSymm := by
    ext i j; exact congrFun (congrFun hsym i.succ) j.succ
  obtain ⟨d, hd, -, hi, -⟩ := deriveMds_spec hn hM hu hh
  obtain ⟨hIs, hBA, -⟩ := (c79_inverse (Nat.succ_pos n) hM).2 _ hi
  obtain ⟨C, Ss, hC, hSl, -, -, hrun⟩ := c82_chain_partial hn hM hu hh hs c.part
  have hkeys : keys.length = c.rounds * c.width := by
    rw [mkPerm] at hp
    split at hp
    · assumption
    · cases hp
  obtain ⟨k0, mid, ps, fs, ls, e, k1, k2, f1, f2, m1, m2, p1, p2, l1, l2⟩ := compress_eq hw hIs (by omega) hkeys
  have hhalf : c.half = m := by unfold Consts.half; omega
  have hlen : ∀ ys : List (List F), (∀ i, i < c.half - 1 → (row ys i).length = n + 1) → ys.length = c.half - 1 →
      ys.flatten.length = (c.half - 1) * (n + 1) := by
    intro ys h1 h2
    rw [List.length_flatten]
    have : ys.map List.length = List.replicate (c.half - 1) (n + 1) := by
      rw [List.eq_replicate_iff]
      refine ⟨by simp [h2], fun x hx => ?_⟩
      obtain ⟨r, hr, rfl⟩ := List.mem_map.1 hx
      obtain ⟨i, hi, rfl⟩ := mem_row hr
      exact h1 i (by omega)
    rw [this]; simp
  refine ⟨d, _, C, Ss, hd, e, ?_, hC, ?_⟩
  · simp only [List.length_append, hlen fs (fun i hi => (f2 i hi).1) f1, hlen ls (fun i hi => (l2 i hi).1) l1, k1, m1, p1,
      hhalf, hfull]
    obtain ⟨q, rfl⟩ : ∃ q, m = q + 1 := ⟨m - 1, by omega⟩
    simp only [Nat.add_sub_cancel]
    ring
  · intro state hst
    obtain ⟨out, o1, o2, o3⟩ := c84_spec hw (by omega) sbox hp hst
    refine ⟨out, o1, o2, ?_⟩
    rw [o3, flat_toRowMajor hM]
    generalize vec (n + 1) state = x
    generalize hA : toM (n + 1) (n + 1) M = A at *
    generalize hB : toM (n + 1) (n + 1) d.mInv = B at *
    generalize hK : keyOf (n + 1) keys = K at *
    -- the naive side
    have hnaive : permSpec c A sbox K x =
        roundSpec A sbox true (K (c.full + c.part - 1))
          ((List.range' (c.half + c.part) (m - 1)).foldl (fun x r => roundSpec A sbox true (K r) x)
          ((List.range' c.half c.part).foldl (fun x r => roundSpec A sbox false (K r) x)
          (roundSpec A sbox true (K (m - 1))
          ((List.range' 0 (m - 1)).foldl (fun x r => roundSpec A sbox true (K r) x) x)))) := by
      have hsplit : List.range (c.full + c.part) = List.range' 0 (m - 1) ++ [m - 1] ++ List.range' c.half c.part ++
          List.range' (c.half + c.part) (m - 1) ++ [c.full + c.part - 1] := by
        rw [range_split c (by omega)]
        have e1 : (0 :: List.range' 1 (c.half - 1)) = List.range' 0 (m - 1) ++ [m - 1] := by
          have h1 : (0 :: List.range' 1 (c.half - 1)) = List.range' 0 m := by
            obtain ⟨q, hq⟩ : ∃ q, m = q + 1 := ⟨m - 1, by omega⟩
            rw [hhalf, hq, List.range'_succ]; simp
          rw [h1]
          obtain ⟨q, hq⟩ : ∃ q, m = q + 1 := ⟨m - 1, by omega⟩
          rw [hq, List.range'_concat]; simp
        have e2 : List.range' (c.half + c.part) (c.full + c.part - (c.half + c.part)) =
            List.range' (c.half + c.part) (m - 1) ++ [c.full + c.part - 1] := by
          have : c.full + c.part - (c.half + c.part) = (m - 1) + 1 := by omega
          rw [this, List.range'_concat]
          congr 2; omega
        rw [e2, ← List.cons_append, ← List.cons_append, e1]
        simp only [List.append_assoc]
      rw [permSpec, hsplit]
      simp only [List.foldl_append, List.foldl_cons, List.foldl_nil]
      rw [foldl_round c A sbox K true (List.range' 0 (m - 1)), decide_eq_true (by omega),
        foldl_round c A sbox K false (List.range' c.half c.part),
        foldl_round c A sbox K true (List.range' (c.half + c.part) (m - 1)), decide_eq_true (by omega)]
      · intro r hr
        simp only [List.mem_range'_1] at hr
        rw [decide_eq_true]; omega
      · intro r hr
        simp only [List.mem_range'_1] at hr
        rw [decide_eq_false]; omega
      · intro r hr
        simp only [List.mem_range'_1] at hr
        rw [decide_eq_true]; omega
    rw [hnaive]
    -- the optimized side
    have hhalf' : c.full / 2 = m := by omega
    rw [hhalf] at f1 f2 l1 l2 m2 p2
    simp only [optimized, hhalf', List.append_assoc, vec_take_append k1, drop_append_eq k1, k2]
    rw [optFull_append, optFull_eq hBA hsym sbox K (m - 1) 0 fs x _ f1 f2]
    simp only [optFull, vec_take_append m1, drop_append_eq m1, m2]
    rw [optPartial_eq sbox ps _ _ _ (by simp [p1, hSl])]
    rw [← hrun (ps.map fun p a => sbox a + p) (by simp [p1])]
    have hz : (fun i => sbox ((List.range' 0 (m - 1)).foldl (fun x r => roundSpec A sbox true (K r) x) x i +
        K (0 + (m - 1)) i) + (accKey B K (m + c.part) c.part ᵥ* B) i) ᵥ* A =
        fun i => roundSpec A sbox true (K (m - 1))
          ((List.range' 0 (m - 1)).foldl (fun x r => roundSpec A sbox true (K r) x) x) i +
          accKey B K (m + c.part) c.part i := by
      rw [show (fun i => sbox ((List.range' 0 (m - 1)).foldl (fun x r => roundSpec A sbox true (K r) x) x i +
        K (0 + (m - 1)) i) + (accKey B K (m + c.part) c.part ᵥ* B) i) =
        (fun i => sbox ((List.range' 0 (m - 1)).foldl (fun x r => roundSpec A sbox true (K r) x) x i +
        K (0 + (m - 1)) i)) + (accKey B K (m + c.part) c.part ᵥ* B) from rfl]
      rw [add_vecMul, vecMul_vecMul, hBA, vecMul_one, Nat.zero_add]
      rw [roundSpec, if_pos rfl, ← vecMul_transpose, hsym]
      rfl
    rw [hz, List.map_map]
    have := rounds_eq hBA hsym sbox K m c.part c.part ps
      (roundSpec A sbox true (K (m - 1)) ((List.range' 0 (m - 1)).foldl (fun x r => roundSpec A sbox true (K r) x) x))
      p1 (le_refl _) p2
    rw [show ((fun f => (f, A)) ∘ fun (p : F) a => sbox a + p) = fun p => ((fun a => sbox a + p), A) from rfl, this]
    have hrest : ls.flatten = ls.flatten ++ [] := by simp
    rw [hrest, optFull_eq hBA hsym sbox K (m - 1) (m + c.part) ls _ [] l1 l2]
    simp only [show m + c.part - c.part = m by omega, hhalf]
    rw [roundSpec, if_pos rfl, ← vecMul_transpose, hsym]
    rw [show c.full + c.part - 1 = m + c.part + (m - 1) by omega]

/-- C83 for the generated matrices. -/
theorem c83_generated {n : Nat} (hn : 0 < n) {c : Consts} (hw : c.width = n + 1) {m : Nat} (hm : 0 < m)
    (hfull : c.full = 2 * m) (hF : ∀ k : Nat, 0 < k → k < 3 * (n + 1) → (k : F) ≠ 0) (sbox : F → F) {keys : List F}
    (hk : keys.length = c.rounds * c.width) :
    ∃ M p d cs C Ss, generateMds F c.width = some M ∧ mkPerm c keys (toRowMajor M) = some p ∧ deriveMds M = some d ∧
      compress c.width c.full c.part keys d.mInv = some cs ∧ factorToSparse M c.part = some (C, Ss) ∧
      ∀ state, state.length = n + 1 → ∃ out, permute c sbox p state = some out ∧ out.length = n + 1 ∧
        vec (n + 1) out = optimized (c.full / 2) sbox (toM (n + 1) (n + 1) M) (toM (n + 1) (n + 1) C)
          (Ss.map fun s => toM (n + 1) (n + 1) s.toMatrix) cs (vec (n + 1) state) := by
  obtain ⟨M, h1, h2, h3, h4, h5, -⟩ := c82_generated (F := F) hF
  have hp : mkPerm c keys (toRowMajor M) = some ⟨keys, toRowMajor M⟩ := by
    rw [mkPerm, if_pos hk, if_pos (by rw [hw]; exact length_toRowMajor h2)]
  obtain ⟨d, cs, C, Ss, e1, e2, -, e3, e4⟩ := c83_optimized hn hw hm hfull h2 h4 h5 h3 sbox hp
  exact ⟨M, _, d, cs, C, Ss, by rw [hw]; exact h1, hp, e1, e2, e3, e4⟩

/-- C83 needs an even number of full rounds: with three, the preprocessing drops the key of the last one. Two
permutations that differ get the same constants. -/
theorem c83_odd_violated : ∃ (k k' : List ℚ) (p p' : Perm ℚ), mkPerm ⟨2, 3, 1⟩ k [1/2, 1/3, 1/3, 1/4] = some p ∧
    mkPerm ⟨2, 3, 1⟩ k' [1/2, 1/3, 1/3, 1/4] = some p' ∧
    compress 2 3 1 k [[18, -24], [-24, 36]] = compress 2 3 1 k' [[18, -24], [-24, 36]] ∧
    permute ⟨2, 3, 1⟩ (fun x => x ^ 3) p [0, 0] ≠ permute ⟨2, 3, 1⟩ (fun x => x ^ 3) p' [0, 0] :=
  ⟨[1, 2, 3, 4, 5, 6, 7, 8], [1, 2, 3, 4, 5, 6, 0, 0], ⟨[1, 2, 3, 4, 5, 6, 7, 8], [1/2, 1/3, 1/3, 1/4]⟩,
    ⟨[1, 2, 3, 4, 5, 6, 0, 0], [1/2, 1/3, 1/3, 1/4]⟩, by decide +kernel⟩

example : compress (F := ℚ) 2 2 1 [1, 2, 3, 4, 5, 6] [[18, -24], [-24, 36]] =
    some [1, 2, 3 * 18 - 24 * 100, -24 * 3 + 36 * 100, -54] := by decide +kernel

end Verif.Poseidon
