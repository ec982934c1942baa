import Verif.Poseidon.Perm
import Verif.Poseidon.MdsProps
import Verif.Poseidon.Factor
import Mathlib.FieldTheory.Finite.Basic

/-!
# C84: the permutation is Poseidon and a bijection; hashing is the permutation of the tagged input
-/

namespace Verif.Poseidon

set_option linter.unusedSectionVars false

open Matrix

variable {F : Type} [Field F] [DecidableEq F]

/-! ## Specification -/

/-- The matrix given by its entries row by row. -/
def flat (w : Nat) (mds : List F) : Matrix (Fin w) (Fin w) F := fun i j => col mds (w * i + j)

/-- The key of a round. -/
def keyOf (w : Nat) (keys : List F) (r : Nat) : Fin w → F := fun i => col keys (r * w + i)

/-- One round of Poseidon on vectors: add the key, apply the S-box to all elements or to the first, multiply. -/
def roundSpec {n : Nat} (A : Matrix (Fin (n + 1)) (Fin (n + 1)) F) (sbox : F → F) (full : Bool)
    (k x : Fin (n + 1) → F) : Fin (n + 1) → F :=
  A *ᵥ (if full then fun i => sbox (x i + k i) else onFirst sbox (fun i => x i + k i))

/-- The permutation: a half of the full rounds, the partial rounds, the other full rounds. -/
def permSpec {n : Nat} (c : Consts) (A : Matrix (Fin (n + 1)) (Fin (n + 1)) F) (sbox : F → F)
    (K : Nat → Fin (n + 1) → F) (x : Fin (n + 1) → F) : Fin (n + 1) → F :=
  (List.range (c.full + c.part)).foldl
    (fun x r => roundSpec A sbox (decide (r < c.full / 2 ∨ c.full / 2 + c.part ≤ r)) (K r) x) x

/-! ## The code computes it -/

theorem collect_some {α β : Type} (f : α → Option β) (g : α → β) (l : List α) (h : ∀ x ∈ l, f x = some (g x)) :
    collect (l.map f) = some (l.map g) := by
  induction l with
  | nil => rfl
  | cons x l ih =>
    rw [List.map_cons, h x List.mem_cons_self, collect, ih (fun y hy => h y (List.mem_cons_of_mem _ hy))]; rfl

theorem foldl_plus (l : List F) (x : F) : l.foldl (fun acc next => acc + next) x = x + l.sum := by
  induction l generalizing x with
  | nil => simp
  | cons y l ih => rw [List.foldl_cons, ih, List.sum_cons, add_assoc]

theorem reduceAdd_eq {l : List F} (h : l ≠ []) : reduceAdd l = some l.sum := by
  cases l with
  | nil => exact absurd rfl h
  | cons x xs => rw [reduceAdd, foldl_plus, List.sum_cons]

theorem vec_injective {n : Nat} {a b : List F} (ha : a.length = n) (hb : b.length = n) (h : vec n a = vec n b) :
    a = b := ext_col ha hb fun j hj => congrFun h ⟨j, hj⟩

theorem vec_ofFn {n : Nat} (f : Fin n → F) : vec n (List.ofFn f) = f := by
  funext i; simp [vec, col]

theorem ofFn_vec {n : Nat} {a : List F} (ha : a.length = n) : List.ofFn (vec n a) = a :=
  vec_injective (by simp) ha (vec_ofFn _)

theorem sum_zipIdx (l : List F) (g : Nat → F) (k : Nat) :
    ((l.zipIdx k).map fun ej => ej.1 * g ej.2).sum = ∑ j : Fin l.length, col l j * g (k + j) := by
  induction l generalizing k with
  | nil => simp
  | cons x l ih =>
    rw [List.zipIdx_cons, List.map_cons, List.sum_cons, ih]
    rw [show (∑ j : Fin (x :: l).length, col (x :: l) j * g (k + j)) =
      ∑ j : Fin (l.length + 1), col (x :: l) j * g (k + j) from rfl, Fin.sum_univ_succ]
    congr 1
    apply Finset.sum_congr rfl
    intro j _
    simp [col, Nat.add_assoc, Nat.add_comm 1]

theorem mem_zipIdx_lt {α : Type} {l : List α} {e : α × Nat} (h : e ∈ l.zipIdx) : e.2 < l.length := by
  obtain ⟨x, i⟩ := e
  have := List.mem_zipIdx h
  omega

theorem some_col {l : List F} {i : Nat} (h : i < l.length) : l[i]? = some (col l i) := by
  simp [col, List.getElem?_eq_getElem h]

/-- Sizes as checked by `Permutation::new`. -/
structure Good (c : Consts) (p : Perm F) : Prop where
  keys : p.keys.length = c.rounds * c.width
  mds : p.mds.length = c.width * c.width

theorem mdsMultiply_eq {c : Consts} {p : Perm F} (hp : Good c p) (hw : 0 < c.width) {state : List F}
    (hs : state.length = c.width) :
    ∃ out, mdsMultiply c p state = some out ∧ out.length = c.width ∧
      vec c.width out = flat c.width p.mds *ᵥ vec c.width state := by
  have hrow : ∀ i, i < c.width → ∀ j, j < c.width → c.width * i + j < p.mds.length := by
    intro i hi j hj
    rw [hp.mds]
    calc c.width * i + j < c.width * i + c.width := by omega
      _ = c.width * (i + 1) := by rw [Nat.mul_succ]
      _ ≤ c.width * c.width := Nat.mul_le_mul_left _ hi
  refine ⟨(List.range c.width).map fun i => (state.zipIdx.map fun ej => ej.1 * col p.mds (c.width * i + ej.2)).sum, ?_,
    by simp, ?_⟩
  · rw [mdsMultiply]
    apply collect_some
    intro i hi
    rw [collect_some _ (fun ej => ej.1 * col p.mds (c.width * i + ej.2))]
    · rw [Option.bind_some, reduceAdd_eq]
      intro h
      have := congrArg List.length h
      simp only [List.length_map, List.length_zipIdx, List.length_nil] at this
      omega
    · intro ej hej
      rw [some_col (hrow i (List.mem_range.1 hi) _ (by rw [← hs]; exact mem_zipIdx_lt hej))]; rfl
  · funext i
    have hi : i.1 < c.width := i.2
    have e1 : ∀ f : Nat → F, vec c.width ((List.range c.width).map f) i = f i := by
      intro f; simp [vec, col, hi]
    rw [e1, sum_zipIdx state (fun j => col p.mds (c.width * i + j))]
    simp only [mulVec, dotProduct, flat, vec]
    obtain ⟨w, f, q⟩ := c
    simp only at hs ⊢
    subst hs
    apply Finset.sum_congr rfl
    intro j _
    rw [Nat.zero_add, mul_comm]

theorem additiveKeys_eq {c : Consts} {p : Perm F} (hp : Good c p) {r : Nat} (hr : r < c.rounds) :
    ∃ ks, additiveKeys c p r = some ks ∧ ks.length = c.width ∧ vec c.width ks = keyOf c.width p.keys r := by
  have h1 : r * c.width + c.width ≤ p.keys.length := by
    rw [hp.keys, ← Nat.succ_mul]
    exact Nat.mul_le_mul_right _ hr
  refine ⟨(p.keys.drop (r * c.width)).take c.width, by rw [additiveKeys, if_pos h1], ?_, ?_⟩
  · rw [List.length_take, List.length_drop]; omega
  · funext i
    have := i.2
    simp [vec, keyOf, col]

theorem map_zipIdx_spec {n : Nat} {state ks : List F} (hs : state.length = n) (hk : n ≤ ks.length) (f : F → F) :
    ∃ out, collect (state.zipIdx.map fun ei => (ks[ei.2]?).map fun k => f (ei.1 + k)) = some out ∧ out.length = n ∧
      vec n out = fun i => f (vec n state i + vec n ks i) := by
  refine ⟨state.zipIdx.map fun ei => f (ei.1 + col ks ei.2), ?_, by simp [hs], ?_⟩
  · apply collect_some
    intro ei hei
    rw [some_col (by have := mem_zipIdx_lt hei; omega)]; rfl
  · funext i
    have hi : i.1 < state.length := by rw [hs]; exact i.2
    simp [vec, col, hi]

theorem fullRound_eq {n : Nat} {c : Consts} (hc : c.width = n + 1) {sbox : F → F} {p : Perm F} (hp : Good c p) {r : Nat}
    (hr : r < c.rounds) {state : List F} (hs : state.length = n + 1) :
    ∃ out, fullRound c sbox p r state = some out ∧ out.length = n + 1 ∧
      vec (n + 1) out = roundSpec (flat (n + 1) p.mds) sbox true (keyOf (n + 1) p.keys r) (vec (n + 1) state) := by
  obtain ⟨ks, k1, k2, k3⟩ := additiveKeys_eq hp hr
  obtain ⟨m, m1, m2, m3⟩ := map_zipIdx_spec (n := c.width) (ks := ks) (hs.trans hc.symm) (by omega) sbox
  obtain ⟨out, o1, o2, o3⟩ := mdsMultiply_eq hp (by omega) m2
  refine ⟨out, by rw [fullRound, k1, Option.bind_some, m1, Option.bind_some, o1], o2.trans hc, ?_⟩
  rw [m3, k3, hc] at o3
  rw [o3]; rfl

theorem partialRound_eq {n : Nat} {c : Consts} (hc : c.width = n + 1) {sbox : F → F} {p : Perm F} (hp : Good c p)
    {r : Nat} (hr : r < c.rounds) {state : List F} (hs : state.length = n + 1) :
    ∃ out, partialRound c sbox p r state = some out ∧ out.length = n + 1 ∧
      vec (n + 1) out = roundSpec (flat (n + 1) p.mds) sbox false (keyOf (n + 1) p.keys r) (vec (n + 1) state) := by
  obtain ⟨ks, k1, k2, k3⟩ := additiveKeys_eq hp hr
  obtain ⟨m, m1, m2, m3⟩ := map_zipIdx_spec (n := c.width) (ks := ks) (hs.trans hc.symm) (by omega) id
  simp only [id] at m1 m3
  rw [k3, hc] at m3
  match m, m2 with
  | [], m2 => simp at m2; omega
  | x :: xs, m2 =>
    obtain ⟨out, o1, o2, o3⟩ := mdsMultiply_eq hp (by omega) (state := sbox x :: xs) (by simpa using m2)
    refine ⟨out, by rw [partialRound, k1, Option.bind_some, m1, Option.bind_some]; exact o1, o2.trans hc, ?_⟩
    rw [hc] at o3
    rw [o3, roundSpec]
    congr 1
    simp only [Bool.false_eq_true, if_false]
    rw [← m3]
    funext i
    refine Fin.cases ?_ (fun i => ?_) i
    · simp [onFirst, vec, col]
    · rw [onFirst, Function.update_of_ne (Fin.succ_ne_zero i)]
      simp [vec, col]

/-- A loop over rounds computes the fold of its rounds. -/
theorem loopRounds_eq {n : Nat} (f : Nat → List F → Option (List F)) (g : Nat → (Fin (n + 1) → F) → Fin (n + 1) → F)
    (rs : List Nat) (h : ∀ r ∈ rs, ∀ s : List F, s.length = n + 1 →
      ∃ out, f r s = some out ∧ out.length = n + 1 ∧ vec (n + 1) out = g r (vec (n + 1) s))
    {s : List F} (hs : s.length = n + 1) :
    ∃ out, loopRounds f rs s = some out ∧ out.length = n + 1 ∧
      vec (n + 1) out = rs.foldl (fun x r => g r x) (vec (n + 1) s) := by
  induction rs generalizing s with
  | nil => exact ⟨s, rfl, hs, rfl⟩
  | cons r rs ih =>
    obtain ⟨o1, a1, a2, a3⟩ := h r List.mem_cons_self s hs
    obtain ⟨o2, b1, b2, b3⟩ := ih (fun r hr => h r (List.mem_cons_of_mem _ hr)) a2
    refine ⟨o2, ?_, b2, ?_⟩
    · rw [loopRounds, List.foldl_cons, Option.bind_some, a1]; exact b1
    · rw [b3, a3, List.foldl_cons]

theorem foldl_congr_mem {α β : Type} (f g : β → α → β) (l : List α) (h : ∀ x ∈ l, ∀ b, f b x = g b x) (b : β) :
    l.foldl f b = l.foldl g b := by
  induction l generalizing b with
  | nil => rfl
  | cons x l ih =>
    rw [List.foldl_cons, List.foldl_cons, h x List.mem_cons_self, ih (fun y hy => h y (List.mem_cons_of_mem _ hy))]

theorem range_split (c : Consts) (h : 2 ≤ c.full) : List.range (c.full + c.part) =
    0 :: (List.range' 1 (c.half - 1) ++ List.range' c.half c.part ++
      List.range' (c.half + c.part) (c.full + c.part - (c.half + c.part))) := by
  have h1 : 1 ≤ c.half := by unfold Consts.half; omega
  have h2 : c.half ≤ c.full := by unfold Consts.half; omega
  have e : (0 :: List.range' 1 (c.half - 1)) = List.range' 0 c.half := by
    obtain ⟨k, hk⟩ : ∃ k, c.half = k + 1 := ⟨c.half - 1, by omega⟩
    rw [hk, List.range'_succ]; simp
  have e2 : List.range' c.half c.part = List.range' (0 + c.half) c.part := by rw [Nat.zero_add]
  rw [List.range_eq_range', ← List.cons_append, ← List.cons_append, e, e2, List.range'_append_1]
  have e3 : List.range' (c.half + c.part) (c.full + c.part - (c.half + c.part)) =
      List.range' (0 + (c.half + c.part)) (c.full + c.part - (c.half + c.part)) := by rw [Nat.zero_add]
  rw [e3, List.range'_append_1]
  congr 1; omega

theorem permuteRest_eq {n : Nat} {c : Consts} (hc : c.width = n + 1) (hf : 2 ≤ c.full) {sbox : F → F} {p : Perm F}
    (hp : Good c p) {state : List F} (hs : state.length = n + 1) :
    ∃ out, permuteRest c sbox p state = some out ∧ out.length = n + 1 ∧
      vec (n + 1) out = (List.range' 1 (c.half - 1) ++ List.range' c.half c.part ++
        List.range' (c.half + c.part) (c.full + c.part - (c.half + c.part))).foldl (fun x r =>
          roundSpec (flat (n + 1) p.mds) sbox (decide (r < c.full / 2 ∨ c.full / 2 + c.part ≤ r))
            (keyOf (n + 1) p.keys r) x) (vec (n + 1) state) := by
  have hh : c.half = c.full / 2 := rfl
  have hR : c.rounds = c.full + c.part := rfl
  obtain ⟨s1, a1, a2, a3⟩ := loopRounds_eq (fullRound c sbox p)
    (fun r x => roundSpec (flat (n + 1) p.mds) sbox (decide (r < c.full / 2 ∨ c.full / 2 + c.part ≤ r))
      (keyOf (n + 1) p.keys r) x) (List.range' 1 (c.half - 1)) (by
      intro r hr s hs
      simp only [List.mem_range'_1] at hr
      rw [decide_eq_true (by omega)]
      exact fullRound_eq hc hp (by omega) hs) hs
  obtain ⟨s2, b1, b2, b3⟩ := loopRounds_eq (partialRound c sbox p)
    (fun r x => roundSpec (flat (n + 1) p.mds) sbox (decide (r < c.full / 2 ∨ c.full / 2 + c.part ≤ r))
      (keyOf (n + 1) p.keys r) x) (List.range' c.half c.part) (by
      intro r hr s hs
      simp only [List.mem_range'_1] at hr
      rw [decide_eq_false (by omega)]
      exact partialRound_eq hc hp (by omega) hs) a2
  obtain ⟨s3, d1, d2, d3⟩ := loopRounds_eq (fullRound c sbox p)
    (fun r x => roundSpec (flat (n + 1) p.mds) sbox (decide (r < c.full / 2 ∨ c.full / 2 + c.part ≤ r))
      (keyOf (n + 1) p.keys r) x) (List.range' (c.half + c.part) (c.full + c.part - (c.half + c.part))) (by
      intro r hr s hs
      simp only [List.mem_range'_1] at hr
      rw [decide_eq_true (by omega)]
      exact fullRound_eq hc hp (by omega) hs) b2
  refine ⟨s3, by rw [permuteRest, a1, Option.bind_some, b1, Option.bind_some, d1], d2, ?_⟩
  rw [List.foldl_append, List.foldl_append, ← a3, ← b3, ← d3]

theorem permute_eq {n : Nat} {c : Consts} (hc : c.width = n + 1) (hf : 2 ≤ c.full) {sbox : F → F} {p : Perm F}
    (hp : Good c p) {state : List F} (hs : state.length = n + 1) :
    ∃ out, permute c sbox p state = some out ∧ out.length = n + 1 ∧
      vec (n + 1) out = permSpec c (flat (n + 1) p.mds) sbox (keyOf (n + 1) p.keys) (vec (n + 1) state) := by
  obtain ⟨s0, z1, z2, z3⟩ := fullRound_eq hc (sbox := sbox) hp (r := 0) (by unfold Consts.rounds; omega) hs
  obtain ⟨out, o1, o2, o3⟩ := permuteRest_eq hc hf (sbox := sbox) hp z2
  refine ⟨out, by rw [permute, z1, Option.bind_some, o1], o2, ?_⟩
  rw [o3, z3, permSpec, range_split c hf, List.foldl_cons, decide_eq_true (by omega)]

/-! ## Bijectivity -/

theorem roundSpec_bijective {n : Nat} {A : Matrix (Fin (n + 1)) (Fin (n + 1)) F} (hA : IsUnit A) {sbox : F → F}
    (hs : Function.Bijective sbox) (full : Bool) (k : Fin (n + 1) → F) :
    Function.Bijective (roundSpec A sbox full k) := by
  have hm : Function.Bijective (fun y => A *ᵥ y) := by
    rw [isUnit_iff_exists] at hA
    obtain ⟨B, h1, h2⟩ := hA
    refine Function.bijective_iff_has_inverse.2 ⟨fun y => B *ᵥ y, fun y => ?_, fun y => ?_⟩
    · show B *ᵥ (A *ᵥ y) = y
      rw [mulVec_mulVec, h2, one_mulVec]
    · show A *ᵥ (B *ᵥ y) = y
      rw [mulVec_mulVec, h1, one_mulVec]
  obtain ⟨t, t1, t2⟩ := Function.bijective_iff_has_inverse.1 hs
  have hS : Function.Bijective (fun x : Fin (n + 1) → F =>
      if full then fun i => sbox (x i + k i) else onFirst sbox (fun i => x i + k i)) := by
    cases full with
    | true =>
      refine Function.bijective_iff_has_inverse.2 ⟨fun y i => t (y i) - k i, fun y => ?_, fun y => ?_⟩
      · funext i
        show t (sbox (y i + k i)) - k i = y i
        rw [t1]; ring
      · funext i
        show sbox (t (y i) - k i + k i) = y i
        rw [sub_add_cancel, t2]
    | false =>
      refine Function.bijective_iff_has_inverse.2 ⟨fun y i => onFirst t y i - k i, fun y => ?_, fun y => ?_⟩
      · funext i
        simp only [Bool.false_eq_true, if_false]
        refine Fin.cases ?_ (fun i => ?_) i
        · simp only [onFirst, Function.update_self]
          rw [t1]; ring
        · simp only [onFirst]
          rw [Function.update_of_ne (Fin.succ_ne_zero i), Function.update_of_ne (Fin.succ_ne_zero i)]; ring
      · funext i
        simp only [Bool.false_eq_true, if_false]
        refine Fin.cases ?_ (fun i => ?_) i
        · simp only [onFirst, Function.update_self, sub_add_cancel]
          rw [t2]
        · simp only [onFirst]
          rw [Function.update_of_ne (Fin.succ_ne_zero i), Function.update_of_ne (Fin.succ_ne_zero i)]; ring
  exact hm.comp hS

theorem permSpec_bijective {n : Nat} (c : Consts) {A : Matrix (Fin (n + 1)) (Fin (n + 1)) F} (hA : IsUnit A)
    {sbox : F → F} (hs : Function.Bijective sbox) (K : Nat → Fin (n + 1) → F) :
    Function.Bijective (permSpec c A sbox K) := by
  have : ∀ rs : List Nat, Function.Bijective (fun x => rs.foldl
      (fun x r => roundSpec A sbox (decide (r < c.full / 2 ∨ c.full / 2 + c.part ≤ r)) (K r) x) x) := by
    intro rs
    induction rs with
    | nil => exact Function.bijective_id
    | cons r rs ih => exact ih.comp (roundSpec_bijective hA hs _ _)
  exact this _

/-- C84. A permutation with parameters of the checked sizes never panics and computes Poseidon. -/
theorem c84_spec {n : Nat} {c : Consts} (hc : c.width = n + 1) (hf : 2 ≤ c.full) (sbox : F → F) {keys mds : List F}
    {p : Perm F} (hp : mkPerm c keys mds = some p) {state : List F} (hs : state.length = n + 1) :
    ∃ out, permute c sbox p state = some out ∧ out.length = n + 1 ∧
      vec (n + 1) out = permSpec c (flat (n + 1) mds) sbox (keyOf (n + 1) keys) (vec (n + 1) state) := by
  rw [mkPerm] at hp
  split at hp
  · split at hp
    · cases hp
      rename_i h1 h2
      exact permute_eq hc hf (p := ⟨keys, mds⟩) ⟨h1, h2⟩ hs
    · cases hp
  · cases hp

/-- C84. If the matrix is invertible and the S-box is a bijection, every state is the image of exactly one state. -/
theorem c84_bijective {n : Nat} {c : Consts} (hc : c.width = n + 1) (hf : 2 ≤ c.full) {sbox : F → F}
    (hsb : Function.Bijective sbox) {keys mds : List F} {p : Perm F} (hp : mkPerm c keys mds = some p)
    (hA : IsUnit (flat (n + 1) mds)) {out : List F} (ho : out.length = n + 1) :
    ∃ state, (state.length = n + 1 ∧ permute c sbox p state = some out) ∧
      ∀ state', state'.length = n + 1 → permute c sbox p state' = some out → state' = state := by
  obtain ⟨hi, hsur⟩ := permSpec_bijective c hA hsb (keyOf (n + 1) keys)
  obtain ⟨x, hx⟩ := hsur (vec (n + 1) out)
  obtain ⟨o, o1, o2, o3⟩ := c84_spec hc hf sbox hp (state := List.ofFn x) (by simp)
  rw [vec_ofFn, hx] at o3
  have := vec_injective o2 ho o3
  subst this
  refine ⟨List.ofFn x, ⟨by simp, o1⟩, ?_⟩
  intro s' hs' hp'
  obtain ⟨o', p1, p2, p3⟩ := c84_spec hc hf sbox hp hs'
  rw [hp'] at p1
  cases p1
  refine vec_injective hs' (by simp) ?_
  rw [vec_ofFn]
  apply hi
  rw [← p3, hx]

theorem row_flatten_col {w : Nat} (M : Rows F) (hM : ∀ r ∈ M, r.length = w) (i j : Nat) (hi : i < M.length)
    (hj : j < w) : col M.flatten (w * i + j) = col (row M i) j := by
  induction M generalizing i with
  | nil => simp at hi
  | cons r M ih =>
    have hr := hM r List.mem_cons_self
    cases i with
    | zero =>
      simp only [List.flatten_cons, row, col, Nat.mul_zero, Nat.zero_add]
      simp [List.getElem?_append_left (show j < r.length by omega)]
    | succ i =>
      have := ih (fun r hr => hM r (List.mem_cons_of_mem _ hr)) i (by simpa using hi)
      simp only [col, List.flatten_cons] at this ⊢
      rw [List.getD_eq_getElem?_getD, List.getElem?_append_right (by rw [hr, Nat.mul_succ]; omega)]
      rw [show w * (i + 1) + j - r.length = w * i + j by rw [hr, Nat.mul_succ]; omega]
      rw [← List.getD_eq_getElem?_getD, this]
      simp [row]

theorem toRowMajor_eq (M : Rows F) : toRowMajor M = M.flatten := by
  have : ∀ acc : List F, M.foldl (fun acc r => acc ++ r) acc = acc ++ M.flatten := by
    induction M with
    | nil => simp
    | cons r M ih => intro acc; rw [List.foldl_cons, ih]; simp
  simpa [toRowMajor] using this []

theorem flat_toRowMajor {w : Nat} {M : Rows F} (hM : Shape w w M) : flat w (toRowMajor M) = toM w w M := by
  funext i j
  rw [flat, toRowMajor_eq, row_flatten_col M hM.2 i j (by rw [hM.1]; exact i.2) j.2]; rfl

theorem length_toRowMajor {w : Nat} {M : Rows F} (hM : Shape w w M) : (toRowMajor M).length = w * w := by
  rw [toRowMajor_eq, List.length_flatten]
  have : M.map List.length = List.replicate M.length w := by
    rw [List.eq_replicate_iff]
    exact ⟨by simp, fun x hx => by obtain ⟨r, hr, rfl⟩ := List.mem_map.1 hx; exact hM.2 r hr⟩
  rw [this, hM.1]; simp

/-- C84. With the generated matrix the permutation is a bijection, for every round keys. -/
theorem c84_generated {n : Nat} {c : Consts} (hc : c.width = n + 1) (hf : 2 ≤ c.full) {sbox : F → F}
    (hsb : Function.Bijective sbox) (hF : ∀ k : Nat, 0 < k → k < 3 * (n + 1) → (k : F) ≠ 0) (keys : List F)
    (hk : keys.length = c.rounds * c.width) :
    ∃ M p, generateMds F c.width = some M ∧ mkPerm c keys (toRowMajor M) = some p ∧
      ∀ out, out.length = n + 1 → ∃ state, (state.length = n + 1 ∧ permute c sbox p state = some out) ∧
        ∀ state', state'.length = n + 1 → permute c sbox p state' = some out → state' = state := by
  obtain ⟨M, h1, h2, -, h4, -, -⟩ := c82_generated (F := F) hF
  have hp : mkPerm c keys (toRowMajor M) = some ⟨keys, toRowMajor M⟩ := by
    rw [mkPerm, if_pos hk, if_pos (by rw [hc]; exact length_toRowMajor h2)]
  exact ⟨M, _, by rw [hc]; exact h1, hp, fun out ho =>
    c84_bijective hc hf hsb hp (by rw [flat_toRowMajor h2]; exact h4) ho⟩

/-- The S-box `x ↦ x ^ α` is a bijection of a finite field whenever `α` is coprime to the order of the group of units. -/
theorem c84_sbox (G : Type) [Field G] [Fintype G] {α : Nat} (hα : (Fintype.card G - 1).Coprime α) (h0 : α ≠ 0) :
    Function.Bijective (fun x : G => x ^ α) := by
  classical
  rw [← Finite.injective_iff_bijective]
  intro x y h
  simp only at h
  by_cases hx : x = 0
  · subst hx
    rw [zero_pow h0] at h
    exact ((pow_eq_zero_iff h0).1 h.symm).symm
  · have hy : y ≠ 0 := by
      rintro rfl
      rw [zero_pow h0] at h
      exact hx ((pow_eq_zero_iff h0).1 h)
    have hu : (Units.mk0 x hx) ^ α = (Units.mk0 y hy) ^ α := by
      ext; simpa using h
    have hc : (Nat.card Gˣ).Coprime α := by
      rw [Nat.card_eq_fintype_card, Fintype.card_units]; exact hα
    have := (powCoprime hc).injective (a₁ := Units.mk0 x hx) (a₂ := Units.mk0 y hy) (by simpa using hu)
    simpa [Units.ext_iff] using this

/-- The S-box of the configuration (exponent 5, config/poseidon.rs:58) over the scalar field of BN254. -/
theorem c84_sbox_bn254 (G : Type) [Field G] [Fintype G]
    (hq : Fintype.card G = 21888242871839275222246405745257275088548364400416034343698204186575808495617) :
    Function.Bijective (fun x : G => x ^ 5) := by
  apply c84_sbox G _ (by decide)
  rw [hq]
  decide +kernel

/-! ## Hash -/

/-- C84. The hash is the first element of the permutation of the tagged input. -/
theorem c84_hash {n : Nat} {c : Consts} (hc : c.width = n + 1) (hf : 2 ≤ c.full) (sbox : F → F) {keys mds : List F}
    {p : Perm F} (hp : mkPerm c keys mds = some p) (tag : F) {input : List F} (hi : input.length = n) :
    ∃ out, permute c sbox p (tag :: input) = some out ∧ hashUntruncated c sbox p tag input = some out ∧
      hash c sbox p tag input = some (col out 0) := by
  obtain ⟨out, o1, o2, -⟩ := c84_spec hc hf sbox hp (state := tag :: input) (by simp [hi])
  have hp' : p.keys.length = c.rounds * c.width := by
    rw [mkPerm] at hp
    split at hp
    · split at hp
      · cases hp; assumption
      · cases hp
    · cases hp
  have hfirst : firstRound c sbox p tag input = fullRound c sbox p 0 (tag :: input) := by
    have hle : c.width ≤ p.keys.length := by
      rw [hp']
      exact Nat.le_mul_of_pos_left _ (by unfold Consts.rounds; omega)
    rw [firstRound, fullRound, additiveKeys, if_pos (by simpa using hle), Option.bind_some]
    congr 2
    apply List.map_congr_left
    intro ei hei
    have := mem_zipIdx_lt hei
    simp only [List.length_cons, hi] at this
    rw [Nat.zero_mul, List.drop_zero, List.getElem?_take, if_pos (by omega)]
  have hh : hashUntruncated c sbox p tag input = some out := by
    rw [hashUntruncated, hfirst, ← o1]; rfl
  refine ⟨out, o1, hh, ?_⟩
  rw [hash, hh, Option.bind_some]
  cases out with
  | nil => simp at o2
  | cons x xs => simp [col]

/-! ## Codec -/

theorem decodeMany_flatMap {B E : Type} {enc : F → List B} {dec : List B → Except E (F × List B)}
    (h : ∀ x rest, dec (enc x ++ rest) = .ok (x, rest)) (l : List F) (rest : List B) :
    decodeMany dec l.length (l.flatMap enc ++ rest) = .ok (l, rest) := by
  induction l with
  | nil => rfl
  | cons x l ih =>
    rw [List.flatMap_cons, List.append_assoc, List.length_cons, decodeMany, h]
    simp only [ih]

/-- C84. Encoded hashers are decoded to themselves and leave what follows in the reader. -/
theorem c84_codec {B E : Type} {enc : F → List B} {dec : List B → Except E (F × List B)}
    (h : ∀ x rest, dec (enc x ++ rest) = .ok (x, rest)) {c : Consts} {keys mds : List F} {p : Perm F}
    (hp : mkPerm c keys mds = some p) (tag : F) (rest : List B) :
    decodePerm c dec (encodePerm enc p ++ rest) = .ok (p, rest) ∧
    decodeHasher c dec (encodeHasher enc p tag ++ rest) = .ok ((p, tag), rest) := by
  have hg : p.keys.length = c.rounds * c.width ∧ p.mds.length = c.width * c.width := by
    rw [mkPerm] at hp
    split at hp
    · split at hp
      · cases hp; exact ⟨by assumption, by assumption⟩
      · cases hp
    · cases hp
  have key : ∀ rest, decodePerm c dec (encodePerm enc p ++ rest) = .ok (p, rest) := by
    intro rest
    rw [decodePerm, encodePerm, List.append_assoc, ← hg.1, ← hg.2, decodeMany_flatMap h]
    simp only [decodeMany_flatMap h]
  refine ⟨key rest, ?_⟩
  rw [decodeHasher, encodeHasher, List.append_assoc, key]
  simp only [h]

/-! ## Instances -/

/-- C84 fails for fewer than two full rounds: `permute` runs round 0 twice, as a full and as a partial round. -/
theorem c84_no_full_rounds_violated :
    ∃ (p : Perm ℚ), mkPerm ⟨1, 0, 1⟩ [1] [1] = some p ∧ permute ⟨1, 0, 1⟩ (fun x => x) p [0] = some [2] ∧
      permSpec (n := 0) ⟨1, 0, 1⟩ (flat 1 [1]) (fun x : ℚ => x) (keyOf 1 [1]) (vec 1 [0]) = vec 1 [1] := by
  refine ⟨⟨[1], [1]⟩, rfl, by decide +kernel, ?_⟩
  funext i
  have : i = 0 := Fin.ext (by omega)
  subst this
  simp [permSpec, roundSpec, flat, keyOf, vec, col, onFirst, mulVec, dotProduct]

example : permute (F := ℚ) ⟨2, 2, 1⟩ (fun x => x ^ 3) ⟨[1, 0, 0, 1, 2, 0], [1/2, 1/3, 1/3, 1/4]⟩ [0, 1] =
    (hashUntruncated ⟨2, 2, 1⟩ (fun x => x ^ 3) ⟨[1, 0, 0, 1, 2, 0], [1/2, 1/3, 1/3, 1/4]⟩ 0 [1] : Option (List ℚ)) := by
  decide +kernel

example : (permute (F := ℚ) ⟨2, 2, 1⟩ (fun x => x ^ 3) ⟨[1, 0, 0, 1, 2, 0], [1/2, 1/3, 1/3, 1/4]⟩ [0, 1]).isSome := by
  decide +kernel

end Verif.Poseidon
