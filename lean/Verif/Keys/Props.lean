import Verif.Keys.Model
import Verif.Codec.Props
import Mathlib.Tactic.Ring

/-!
# C130: keys and proofs are read back, and used for the right circuit
-/

namespace Verif.Keys

open Verif.Codec (Bytes)

/-! ## Specification -/

/-- The bytes that are written. -/
def Canon.bytes {α : Type} (c : Canon α) (m : Mode) (v : α) : Bytes := (c.write m v).flatten

/-- What is assumed of arkworks: valid values come back, whatever follows, and the sizes are right. -/
structure Canon.Lawful {α : Type} (c : Canon α) (Valid : α → Prop) : Prop where
  back : ∀ m v, Valid v → ∀ rest, (c.read m).parse (c.bytes m v ++ rest) = some (v, rest)
  size : ∀ v, Valid v → (c.bytes .compressed v).length = c.serializedSize v
  sizeU : ∀ v, Valid v → (c.bytes .uncompressed v).length = c.uncompressedSize v

/-- A reader over bytes: it delivers them in order and, beyond their end, fails or reports the end. -/
structure Delivers {R ε : Type} (rd : ReadExact R ε) (left : R → Bytes) : Prop where
  enough : ∀ r n, n ≤ (left r).length → ∃ r', rd r n = (.ok ((left r).take n), r') ∧ left r' = (left r).drop n
  short : ∀ r n, (left r).length < n → ∀ bs, (rd r n).1 ≠ .ok bs

/-! ## Programs -/

theorem parse_bind {α β : Type} (p : Prog α) (f : α → Prog β) (bs : Bytes) :
    (p.bind f).parse bs = (p.parse bs).bind fun x => (f x.1).parse x.2 := by
  induction p generalizing bs with
  | done a => rfl
  | fail => rfl
  | read n k ih =>
    simp only [Prog.bind, Prog.parse]
    split
    · exact ih _ _
    · rfl

/-- What follows does not matter. -/
theorem parse_append {α : Type} (p : Prog α) (bs rest t : Bytes) (v : α) (h : p.parse bs = some (v, rest)) :
    p.parse (bs ++ t) = some (v, rest ++ t) := by
  induction p generalizing bs with
  | done a =>
    simp only [Prog.parse, Option.some.injEq, Prod.mk.injEq] at h ⊢
    obtain ⟨rfl, rfl⟩ := h
    exact ⟨rfl, rfl⟩
  | fail => cases h
  | read n k ih =>
    simp only [Prog.parse] at h ⊢
    split at h
    · rename_i hn
      rw [if_pos (by rw [List.length_append]; omega), List.take_append_of_le_length hn, List.drop_append_of_le_length hn]
      exact ih _ _ h
    · cases h

/-- A program on an `ArkReader` does what it does on the bytes. -/
theorem run_parse {α R ε : Type} {rd : ReadExact R ε} {left : R → Bytes} (h : Delivers rd left) (p : Prog α) (r : R) :
    (∀ v rest, p.parse (left r) = some (v, rest) → ∃ r', p.run rd (.ok r) = (.ok v, .ok r') ∧ left r' = rest) ∧
    (p.parse (left r) = none → ∃ e, (p.run rd (.ok r)).1 = .error e) := by
  induction p generalizing r with
  | done a =>
    refine ⟨fun v rest e => ?_, fun e => by cases e⟩
    simp only [Prog.parse, Option.some.injEq, Prod.mk.injEq] at e
    obtain ⟨rfl, rfl⟩ := e
    exact ⟨r, rfl, rfl⟩
  | fail => exact ⟨fun v rest e => (by cases e), fun _ => ⟨_, rfl⟩⟩
  | read n k ih =>
    simp only [Prog.parse]
    by_cases hn : n ≤ (left r).length
    · rw [if_pos hn]
      obtain ⟨r', e, hl⟩ := h.enough r n hn
      simp only [Prog.run, e]
      rw [← hl]
      exact ih _ r'
    · rw [if_neg hn]
      refine ⟨fun v rest e => by (cases e), fun _ => ?_⟩
      have := h.short r n (by omega)
      simp only [Prog.run]
      split
      · rename_i bs r' e; exact absurd (by rw [e]) (this bs)
      · exact ⟨_, rfl⟩
      · exact ⟨_, rfl⟩

/-- A value is only returned if the reader never failed. -/
theorem run_ok {α R ε : Type} (rd : ReadExact R ε) (p : Prog α) (r : R) (v : α) (s : Except ε R)
    (h : p.run rd (.ok r) = (.ok v, s)) : ∃ r', s = .ok r' := by
  induction p generalizing r with
  | done a =>
    simp only [Prog.run, Prod.mk.injEq] at h
    exact ⟨r, h.2.symm⟩
  | fail => simp [Prog.run] at h
  | read n k ih =>
    simp only [Prog.run] at h
    split at h
    · exact ih _ _ h
    · simp at h
    · simp at h

/-! ## Laws of the compound encodings -/

section

variable {V T C α : Type} {cV : Canon V} {cT : Canon T} {cE : Canon (List C)} {cB : Canon Bool} {cP : Canon (Prepared C)}
  {c : Canon α}

theorem Prepared.lawful {VE : List C → Prop} (hE : cE.Lawful VE) (hB : cB.Lawful fun _ => True) :
    (Prepared.canon cE cB).Lawful fun p => VE p.ells where
  back m v hv rest := by
    have e : (Prepared.canon cE cB).bytes m v = cE.bytes m v.ells ++ cB.bytes m v.infinity := by
      cases m <;> simp [Canon.bytes, Prepared.canon, Prepared.write]
    rw [e, List.append_assoc]
    show (Prepared.read cE cB m).parse _ = _
    simp only [Prepared.read, parse_bind, hE.back m _ hv, Option.bind_some, hB.back m _ trivial, Prog.parse]
  size v hv := by
    simp only [Canon.bytes, Prepared.canon, Prepared.write, List.flatten_append, List.length_append]
    exact congrArg₂ (· + ·) (hE.size _ hv) (hB.size _ trivial)
  sizeU v hv := by
    simp only [Canon.bytes, Prepared.canon, Prepared.write, List.flatten_append, List.length_append]
    exact congrArg₂ (· + ·) (hE.sizeU _ hv) (hB.sizeU _ trivial)

/-- Valid parts. -/
def Pvk.Valid (VV : V → Prop) (VT : T → Prop) (VP : Prepared C → Prop) (p : Pvk V T C) : Prop :=
  VV p.vk ∧ VT p.alphaBeta ∧ VP p.gammaNeg ∧ VP p.deltaNeg

theorem Pvk.lawful {VV : V → Prop} {VT : T → Prop} {VP : Prepared C → Prop} (hV : cV.Lawful VV) (hT : cT.Lawful VT)
    (hP : cP.Lawful VP) : (Pvk.canon cV cT cP).Lawful (Pvk.Valid VV VT VP) where
  back m v hv rest := by
    obtain ⟨h1, h2, h3, h4⟩ := hv
    have e : (Pvk.canon cV cT cP).bytes m v =
        cV.bytes m v.vk ++ (cT.bytes m v.alphaBeta ++ (cP.bytes m v.gammaNeg ++ cP.bytes m v.deltaNeg)) := by
      cases m <;> simp [Canon.bytes, Pvk.canon, Pvk.write]
    have e' : (Pvk.canon cV cT cP).read m = (cV.read m).bind fun vk => (cT.read m).bind fun ab =>
        (cP.read m).bind fun g => (cP.read m).bind fun d => .done ⟨vk, ab, g, d⟩ := by cases m <;> rfl
    rw [e, e']
    simp only [List.append_assoc, parse_bind, hV.back m _ h1, Option.bind_some, hT.back m _ h2, hP.back m _ h3, hP.back m _ h4,
      Prog.parse]
  size v hv := by
    obtain ⟨h1, h2, h3, h4⟩ := hv
    simp only [Canon.bytes, Pvk.canon, Pvk.write, List.flatten_append, List.length_append]
    exact congrArg₂ (· + ·) (congrArg₂ (· + ·) (congrArg₂ (· + ·) (hV.size _ h1) (hT.size _ h2)) (hP.size _ h3)) (hP.size _ h4)
  sizeU v hv := by
    obtain ⟨h1, h2, h3, h4⟩ := hv
    simp only [Canon.bytes, Pvk.canon, Pvk.write, List.flatten_append, List.length_append]
    exact congrArg₂ (· + ·) (congrArg₂ (· + ·) (congrArg₂ (· + ·) (hV.sizeU _ h1) (hT.sizeU _ h2)) (hP.sizeU _ h3)) (hP.sizeU _ h4)

theorem Multi.lawful {VA : α → Prop} (h : c.Lawful VA) : (Multi.canon c).Lawful fun m => ∀ k, VA (m.select k) where
  back m v hv rest := by
    have h1 : VA v.toPrivate := hv .toPrivate
    have h2 : VA v.privateTransfer := hv .privateTransfer
    have h3 : VA v.toPublic := hv .toPublic
    have e : (Multi.canon c).bytes m v = c.bytes m v.toPrivate ++ (c.bytes m v.privateTransfer ++ c.bytes m v.toPublic) := by
      cases m <;> simp [Canon.bytes, Multi.canon, Multi.write]
    have e' : (Multi.canon c).read m = (c.read m).bind fun x => (c.read m).bind fun y => (c.read m).bind fun z =>
        .done ⟨x, y, z⟩ := by cases m <;> rfl
    rw [e, e']
    simp only [List.append_assoc, parse_bind, h.back m _ h1, Option.bind_some, h.back m _ h2, h.back m _ h3, Prog.parse]
  size v hv := by
    have h1 : VA v.toPrivate := hv .toPrivate
    have h2 : VA v.privateTransfer := hv .privateTransfer
    have h3 : VA v.toPublic := hv .toPublic
    simp only [Canon.bytes, Multi.canon, Multi.write, List.flatten_append, List.length_append]
    exact congrArg₂ (· + ·) (congrArg₂ (· + ·) (h.size _ h1) (h.size _ h2)) (h.size _ h3)
  sizeU v hv := by
    have h1 : VA v.toPrivate := hv .toPrivate
    have h2 : VA v.privateTransfer := hv .privateTransfer
    have h3 : VA v.toPublic := hv .toPublic
    simp only [Canon.bytes, Multi.canon, Multi.write, List.flatten_append, List.length_append]
    exact congrArg₂ (· + ·) (congrArg₂ (· + ·) (h.sizeU _ h1) (h.sizeU _ h2)) (h.sizeU _ h3)

/-! ## Theorems -/

/-- **C130, verifying keys.** The verifying contexts of all shapes, written in any of the three formats and followed by anything,
are read back, with the key of every shape; the sizes are those announced. -/
theorem c130_contexts {VV : V → Prop} {VT : T → Prop} {VE : List C → Prop} (hV : cV.Lawful VV) (hT : cT.Lawful VT)
    (hE : cE.Lawful VE) (hB : cB.Lawful fun _ => True) (k : Multi (Pvk V T C))
    (hk : ∀ s, Pvk.Valid VV VT (fun p => VE p.ells) (k.select s)) :
    let c := Multi.canon (Pvk.canon cV cT (Prepared.canon cE cB))
    (∀ m rest, (c.read m).parse (c.bytes m k ++ rest) = some (k, rest)) ∧
    (c.bytes .compressed k).length = c.serializedSize k ∧ (c.bytes .uncompressed k).length = c.uncompressedSize k :=
  let h := Multi.lawful (Pvk.lawful hV hT (Prepared.lawful hE hB))
  ⟨fun m rest => h.back m k hk rest, h.size k hk, h.sizeU k hk⟩

/-- **C130, generation.** The contexts made for all shapes hold, for every shape, both halves of one pair made for that shape, each
from the state that the generator had after the shapes before; and making them fails exactly if making one of the pairs fails. -/
theorem c130_generated {PC VC S E : Type} (gen : Kind → S → Except E ((PC × VC) × S)) (s : S) :
    (∀ ks s', generateContext gen s = .ok (ks, s') → ∃ s1 s2, ∀ k, ∃ a b, gen k a = .ok ((ks.1.select k, ks.2.select k), b) ∧
      (a, b) = match k with | .toPrivate => (s, s1) | .privateTransfer => (s1, s2) | .toPublic => (s2, s')) ∧
    ∀ e, generateContext gen s = .error e → ∃ k a, gen k a = .error e := by
  unfold generateContext
  constructor
  · intro ks s' h
    split at h
    · cases h
    · rename_i a s1 e1
      split at h
      · cases h
      · rename_i b s2 e2
        split at h
        · cases h
        · rename_i c _ e3
          cases h
          exact ⟨s1, s2, fun k => by
            cases k
            · exact ⟨s, s1, e1, rfl⟩
            · exact ⟨s1, s2, e2, rfl⟩
            · exact ⟨s2, s', e3, rfl⟩⟩
  · intro e h
    split at h
    · rename_i e1; cases h; exact ⟨_, _, e1⟩
    · split at h
      · rename_i e1; cases h; exact ⟨_, _, e1⟩
      · split at h
        · rename_i e1; cases h; exact ⟨_, _, e1⟩
        · cases h

theorem writeChunks_vec (cs : List Bytes) (w : Bytes) : writeChunks writeVec cs (.ok w) = .ok (w ++ cs.flatten) := by
  induction cs generalizing w with
  | nil => simp [writeChunks]
  | cons c cs ih =>
    simp only [writeChunks, writeAll, writeVec, List.flatten_cons]
    rw [ih, List.append_assoc]

/-- **C130, codec.** Proving keys, verifying keys, points and field elements that are encoded into a vector are decoded
from every reader that delivers those bytes, which is left behind them. -/
theorem c130_codec {VA : α → Prop} (h : c.Lawful VA) (v : α) (hv : VA v) {R ε : Type} {rd : ReadExact R ε} {left : R → Bytes}
    (hd : Delivers rd left) (r : R) (w rest : Bytes) :
    (∃ out, encodeProving c writeVec v w = .ok (w ++ out) ∧
      (left r = out ++ rest → ∃ r', decodeProving c rd r = .ok v r' ∧ left r' = rest)) ∧
    (∃ out, encodeChecked c writeVec v w = .ok (w ++ out) ∧
      (left r = out ++ rest → ∃ r', decodeChecked c rd r = .ok v r' ∧ left r' = rest)) := by
  have key : ∀ m, ∃ out, encode writeVec (c.write m v) w = .ok (w ++ out) ∧
      (left r = out ++ rest → ∃ r', decode rd (c.read m) r = .ok v r' ∧ left r' = rest) := by
    intro m
    refine ⟨c.bytes m v, writeChunks_vec _ _, fun e => ?_⟩
    obtain ⟨r', e1, e2⟩ := (run_parse hd (c.read m) r).1 v rest (by rw [e]; exact h.back m v hv rest)
    refine ⟨r', ?_, e2⟩
    simp only [decode, e1]
  exact ⟨key .unchecked, key .compressed⟩

/-- **C130, truncation.** From a proper beginning of an encoding nothing is decoded. -/
theorem c130_truncated {VA : α → Prop} (h : c.Lawful VA) (m : Mode) (v : α) (hv : VA v) {R ε : Type} {rd : ReadExact R ε}
    {left : R → Bytes} (hd : Delivers rd left) (r : R) (n : Nat) (hn : n < (c.bytes m v).length)
    (hr : left r = (c.bytes m v).take n) : ∃ e, decode rd (c.read m) r = .decodeError e := by
  have hp : (c.read m).parse (left r) = none := by
    cases hp : (c.read m).parse (left r) with
    | none => rfl
    | some x =>
      obtain ⟨v', rest⟩ := x
      have h1 := parse_append _ _ _ ((c.bytes m v).drop n) _ hp
      rw [hr, List.take_append_drop] at h1
      have h2 := h.back m v hv []
      rw [List.append_nil, h1] at h2
      simp only [Option.some.injEq, Prod.mk.injEq, List.append_eq_nil_iff, List.drop_eq_nil_iff] at h2
      omega
  obtain ⟨e, he⟩ := (run_parse hd (c.read m) r).2 hp
  refine ⟨e, ?_⟩
  unfold decode
  split <;> rename_i e1 <;> rw [e1] at he
  · cases he
  · cases he
  · cases he; rfl

/-- The first error of a writer. -/
def firstError {W ε : Type} (wr : W → Bytes → Except ε W) : List Bytes → W → Except ε W
  | [], w => .ok w
  | c :: cs, w =>
    match wr w c with
    | .ok w' => firstError wr cs w'
    | .error e => .error e

/-- **C130, errors of writers.** Encoding passes on everything in order, up to the first error of the writer, and returns it. -/
theorem c130_write_errors {W ε : Type} (wr : W → Bytes → Except ε W) (cs : List Bytes) (w : W) :
    encode wr cs w = firstError wr cs w := by
  unfold encode
  induction cs generalizing w with
  | nil => rfl
  | cons c cs ih =>
    simp only [writeChunks, writeAll, firstError]
    cases hw : wr w c with
    | ok w' => exact ih w'
    | error e => rfl

/-- **C130 is violated: errors of readers.** `decode` never returns the error of the reader: if the reader fails, the result is a
decoding error, and the error is lost. -/
theorem c130_read_errors_violated {R ε : Type} (rd : ReadExact R ε) (p : Prog α) (r : R) :
    (∀ e, decode rd p r ≠ .readError e) ∧ ∀ e, (p.run rd (.ok r)).2 = .error e → ∃ x, decode rd p r = .decodeError x := by
  unfold decode
  constructor
  · intro e h
    split at h
    · cases h
    · rename_i v e' e1
      obtain ⟨r', hr⟩ := run_ok rd p r v _ e1
      cases hr
    · cases h
  · intro e h
    split
    · rename_i e1; rw [e1] at h; cases h
    · rename_i v e' e1
      obtain ⟨r', hr⟩ := run_ok rd p r v _ e1
      cases hr
    · exact ⟨_, rfl⟩

/-- **C130, validity.** Verifying keys, points and field elements that are decoded have passed the checks of arkworks; proving keys
have not: all of them are decoded. -/
theorem c130_checks {VA : α → Prop} (hc : ∀ bs v rest, (c.read .compressed).parse bs = some (v, rest) → VA v)
    (hu : ∀ v rest, (c.read .unchecked).parse (c.bytes .unchecked v ++ rest) = some (v, rest)) {R ε : Type} {rd : ReadExact R ε}
    {left : R → Bytes} (hd : Delivers rd left) :
    (∀ r v r', decodeChecked c rd r = .ok v r' → VA v) ∧
    ∀ r v rest, left r = c.bytes .unchecked v ++ rest → ∃ r', decodeProving c rd r = .ok v r' ∧ left r' = rest := by
  constructor
  · intro r v r' h
    unfold decodeChecked decode at h
    split at h
    · rename_i v' r1 e
      cases h
      cases hp : (c.read .compressed).parse (left r) with
      | none =>
        obtain ⟨x, hx⟩ := (run_parse hd (c.read .compressed) r).2 hp
        rw [e] at hx
        cases hx
      | some x =>
        obtain ⟨r2, e2, _⟩ := (run_parse hd (c.read .compressed) r).1 x.1 x.2 hp
        rw [e] at e2
        cases e2
        exact hc _ _ _ hp
    · cases h
    · cases h
  · intro r v rest e
    obtain ⟨r', e1, e2⟩ := (run_parse hd (c.read .unchecked) r).1 v rest (by rw [e]; exact hu v rest)
    exact ⟨r', by simp only [decodeProving, decode, e1], e2⟩

/-- **C130, bytes.** Proofs, points and field elements come back from their bytes. -/
theorem c130_bytes {VA : α → Prop} (h : c.Lawful VA) (v : α) (hv : VA v) : tryFrom c (asBytes c v) = some v := by
  have := h.back .compressed v hv []
  rw [List.append_nil] at this
  show ((c.read .compressed).parse (c.bytes .compressed v)).map Prod.fst = _
  rw [this]
  rfl

/-- **C130 is violated: bytes are not unique.** Every proof, point and field element is accepted from its bytes followed by
anything. -/
theorem c130_trailing_violated {VA : α → Prop} (h : c.Lawful VA) (v : α) (hv : VA v) (junk : Bytes) :
    tryFrom c (asBytes c v ++ junk) = some v := by
  show ((c.read .compressed).parse (c.bytes .compressed v ++ junk)).map Prod.fst = _
  rw [h.back]
  · rfl
  · exact hv

theorem toNat_inj : ∀ {a b : Bytes}, a.map UInt8.toNat = b.map UInt8.toNat → a = b
  | [], [], _ => rfl
  | [], _ :: _, h => by cases h
  | _ :: _, [], h => by cases h
  | x :: xs, y :: ys, h => by
    simp only [List.map_cons, List.cons.injEq] at h
    rw [UInt8.toNat_inj.1 h.1, toNat_inj h.2]

/-- **C130, signed proofs.** The encoding of a proof in the signed message is unambiguous, as C53 needs it. -/
theorem c130_proof {VA : α → Prop} (h : c.Lawful VA) :
    Verif.Codec.PrefixFree (fun v => VA v ∧ (asBytes c v).length < 2 ^ 64) (encProof c) := by
  intro v w hv hw r s e
  have h8 : Verif.Codec.PrefixFree (fun n => n < 256) (Verif.Codec.encUInt 1) := by
    have := Verif.Codec.c15_uint 1
    simpa using this
  obtain ⟨e1, e2⟩ := Verif.Codec.c15_vec h8 ((asBytes c v).map UInt8.toNat) ((asBytes c w).map UInt8.toNat)
    ⟨by simpa using hv.2, fun x hx => by obtain ⟨y, _, rfl⟩ := List.mem_map.1 hx; exact y.toNat_lt⟩
    ⟨by simpa using hw.2, fun x hx => by obtain ⟨y, _, rfl⟩ := List.mem_map.1 hx; exact y.toNat_lt⟩ r s e
  have := c130_bytes h v hv.1
  rw [toNat_inj e1, c130_bytes h w hw.1] at this
  exact ⟨(Option.some.inj this).symm, e2⟩

/-- **C130, verification.** With a context that was prepared from its key, a proof is accepted exactly for inputs of the number
that the key has points for (besides the first), and exactly if the equation of Groth16 holds; other numbers are an error. -/
theorem c130_verify {F : Type} [CommRing F] [DecidableEq F] (abc : V → List F) (gt : T → F) (val : Prepared C → F) (p : Pvk V T C)
    (α' β γ δ : F) (hαβ : gt p.alphaBeta = α' * β) (hγ : val p.gammaNeg = -γ) (hδ : val p.deltaNeg = -δ) (input : List F) (a b c : F) :
    ((verify abc gt val p input a b c).isSome ↔ (abc p.vk).length = input.length + 1) ∧
    ∀ x₀ xs, abc p.vk = x₀ :: xs → xs.length = input.length →
      verify abc gt val p input a b c =
        some (decide (a * b = α' * β + (x₀ + ((List.zip input xs).map fun x => x.1 * x.2).sum) * γ + c * δ)) := by
  have hsum : ∀ u v : List F, (List.zipWith (· * ·) u v).foldr (· + ·) 0 = ((List.zip u v).map fun x => x.1 * x.2).sum := by
    intro u
    induction u with
    | nil => intro v; simp
    | cons x xs ih =>
      intro v
      cases v with
      | nil => simp
      | cons y ys => simp [ih]
  constructor
  · unfold verify
    split
    · rename_i h; simp [h]
    · rename_i h; simp; omega
  · intro x₀ xs hx hl
    unfold verify
    rw [hx, if_pos (by simp [hl]), List.zipWith_cons_cons, List.foldr_cons, hsum, one_mul, hγ, hδ, hαβ]
    congr 1
    refine decide_eq_decide.2 ⟨fun h => ?_, fun h => ?_⟩
    · rw [← h]; ring
    · rw [h]; ring

/-- **C130 is violated: keys are not checked.** For every verifying key there is a verifying context with this key that is read back
in all formats, and with which the proof of three identities is accepted for every input of the right length: the prepared
values, which decide, are read from the file and not compared with the key. -/
theorem c130_prepared_violated {F : Type} [CommRing F] [DecidableEq F] {VV : V → Prop} {VT : T → Prop} {VE : List C → Prop}
    (hV : cV.Lawful VV) (hT : cT.Lawful VT) (hE : cE.Lawful VE) (hB : cB.Lawful fun _ => True) (abc : V → List F) (gt : T → F)
    (val : Prepared C → F) (vk : V) (hvk : VV vk) (one : T) (hone : VT one ∧ gt one = 0) (o : Prepared C) (ho : VE o.ells ∧ val o = 0) :
    ∃ p : Pvk V T C, p.vk = vk ∧
      (∀ m rest, let c := Pvk.canon cV cT (Prepared.canon cE cB); (c.read m).parse (c.bytes m p ++ rest) = some (p, rest)) ∧
      ∀ input, input.length + 1 = (abc vk).length → verify abc gt val p input 0 0 0 = some true := by
  refine ⟨⟨vk, one, o, o⟩, rfl, fun m rest => ?_, fun input hi => ?_⟩
  · exact (Pvk.lawful hV hT (Prepared.lawful hE hB)).back m _ ⟨hvk, hone.1, ho.1, ho.1⟩ rest
  · unfold verify
    simp only [hi, if_true, ho.2, hone.2, mul_zero, add_zero, decide_true]

end

/-- A source that is too short says how many bytes are missing and keeps its bytes. -/
theorem c130_missing {r r' : Bytes} {n m : Nat} (h : readBytes r n = (.error (.unexpectedEnd m), r')) :
    r' = r ∧ r.length + m = n ∧ 0 < m := by
  unfold readBytes at h
  split at h
  · cases h
  · rename_i hn
    simp only [Prod.mk.injEq, Except.error.injEq, ReadFail.unexpectedEnd.injEq] at h
    obtain ⟨rfl, rfl⟩ := h
    exact ⟨rfl, by omega, by omega⟩

example : readBytes [1, 2, 3] 5 = (.error (.unexpectedEnd 2), [1, 2, 3]) := rfl

/-- **C130, readers.** Slices and vectors deliver their bytes. -/
theorem c130_readers : Delivers readBytes id where
  enough r n h := ⟨r.drop n, by simp only [id] at h; simp [readBytes, h], rfl⟩
  short r n h bs := by
    simp only [id] at h
    simp only [readBytes, if_neg (Nat.not_le.2 h)]
    intro e
    cases e

/-! ## Examples -/

/-- Bytes: one byte compressed, two otherwise; values below 200 pass the checks. -/
def exByte : Canon UInt8 where
  write
    | .compressed, v => [[v]]
    | _, v => [[v], [v]]
  read
    | .compressed => .read 1 fun bs => match bs with
      | [v] => if v < 200 then .done v else .fail
      | _ => .fail
    | .uncompressed => .read 2 fun bs => match bs with
      | [v, w] => if v = w ∧ v < 200 then .done v else .fail
      | _ => .fail
    | .unchecked => .read 2 fun bs => match bs with
      | [v, _] => .done v
      | _ => .fail
  serializedSize _ := 1
  uncompressedSize _ := 2

theorem exByte_lawful : exByte.Lawful (· < 200) where
  back m v hv rest := by cases m <;> simp [Canon.bytes, exByte, Prog.parse, hv]
  size _ _ := rfl
  sizeU _ _ := rfl

/-- The premises of `c130_checks`. -/
example : (∀ bs v rest, (exByte.read .compressed).parse bs = some (v, rest) → v < 200) ∧
    ∀ v rest, (exByte.read .unchecked).parse (exByte.bytes .unchecked v ++ rest) = some (v, rest) := by
  constructor
  · intro bs v rest h
    cases bs with
    | nil => simp [exByte, Prog.parse] at h
    | cons x xs =>
      simp only [exByte, Prog.parse, List.take_succ_cons, List.take_zero] at h
      split at h
      · split at h
        · rename_i hx; simp only [Prog.parse, Option.some.injEq, Prod.mk.injEq] at h; rw [← h.1]; exact hx
        · cases h
      · cases h
  · intro v rest
    simp [Canon.bytes, exByte, Prog.parse]

/-- Vectors of at most one byte, and flags. -/
def exList : Canon (List UInt8) where
  write
    | _, [] => [[0]]
    | _, v :: _ => [[1], [v]]
  read _ := .read 1 fun bs => if bs = [0] then .done [] else .read 1 fun bs => .done bs
  serializedSize l := if l = [] then 1 else 2
  uncompressedSize l := if l = [] then 1 else 2

theorem exList_lawful : exList.Lawful (fun l => l.length ≤ 1) where
  back m v hv rest := by
    match v with
    | [] => cases m <;> simp [Canon.bytes, exList, Prog.parse]
    | [x] => cases m <;> simp [Canon.bytes, exList, Prog.parse]
    | _ :: _ :: _ => simp at hv
  size v hv := by match v with | [] => rfl | _ :: _ => rfl
  sizeU v hv := by match v with | [] => rfl | _ :: _ => rfl

def exFlag : Canon Bool where
  write _ b := [[if b then 1 else 0]]
  read _ := .read 1 fun bs => if bs = [1] then .done true else if bs = [0] then .done false else .fail
  serializedSize _ := 1
  uncompressedSize _ := 1

theorem exFlag_lawful : exFlag.Lawful (fun _ => True) where
  back m v hv rest := by cases v <;> cases m <;> simp [Canon.bytes, exFlag, Prog.parse]
  size _ _ := rfl
  sizeU _ _ := rfl

def exPvk (n : UInt8) : Pvk UInt8 UInt8 UInt8 := ⟨n, n + 1, ⟨[n], false⟩, ⟨[], true⟩⟩

def exMulti : Multi (Pvk UInt8 UInt8 UInt8) := ⟨exPvk 10, exPvk 20, exPvk 30⟩

/-- Three different keys, the bytes, and a reader that reads them from the middle of a file. -/
example :
    let c := Multi.canon (Pvk.canon exByte exByte (Prepared.canon exList exFlag))
    (∀ s, Pvk.Valid (· < 200) (· < 200) (fun p => p.ells.length ≤ 1) (exMulti.select s)) ∧
    c.bytes .compressed exMulti = [10, 11, 1, 10, 0, 0, 1, 20, 21, 1, 20, 0, 0, 1, 30, 31, 1, 30, 0, 0, 1] ∧
    c.serializedSize exMulti = 21 ∧ c.uncompressedSize exMulti = 27 ∧
    (match decodeChecked c readBytes (c.bytes .compressed exMulti ++ [5, 6]) with
      | .ok v r => decide (v = exMulti ∧ r = [5, 6])
      | _ => false) = true :=
  ⟨fun s => by cases s <;> simp [exMulti, exPvk, Multi.select, Pvk.Valid], by decide, by decide, by decide, by decide +kernel⟩

/-- An off-curve point (201) is decoded in a proving key, but not in a verifying key; a file that breaks off is an error; a proof
with trailing bytes is taken. -/
example : (match decodeProving exByte readBytes [201, 201] with | .ok v _ => v == 201 | _ => false) = true ∧
    (match decodeChecked exByte readBytes [201] with | .decodeError .invalid => true | _ => false) = true ∧
    (match decodeProving exByte readBytes [10] with | .decodeError .io => true | _ => false) = true ∧
    tryFrom exByte [10, 99, 98] = some 10 := by decide +kernel

/-- A reader that fails: its error 7 is not reported. -/
def exBroken : ReadExact Unit Nat := fun _ _ => (.error (.read 7), ())

example : (match ((exByte.read .compressed).run exBroken (.ok ())).2 with | .error 7 => true | _ => false) = true ∧
    (match decodeChecked exByte exBroken () with | .decodeError .io => true | _ => false) = true := by decide

/-- A writer with room for two bytes: the third write fails with 9. -/
def exSmall : Bytes → Bytes → Except Nat Bytes := fun w bs => if w.length + bs.length ≤ 2 then .ok (w ++ bs) else .error 9

example : (match encodeChecked (Prepared.canon exList exFlag) exSmall ⟨[4], true⟩ [] with | .error 9 => true | _ => false) = true := by decide

/-- Keys made from a counter: the halves of every shape belong together. -/
example : generateContext (fun k (s : Nat) => if k = .toPublic ∧ s = 7 then (.error () : Except Unit _) else .ok ((s, s + 100), s + 1)) 3 =
    .ok ((⟨3, 4, 5⟩, ⟨103, 104, 105⟩), 6) := rfl

/-- A prepared context for `α β γ δ = 2 3 5 7` and the points 1 and 4: the proof `(2, 109, 1)` is accepted for the input 10 and not
for 11. -/
example :
    let p : Pvk Unit Int Int := ⟨(), 6, ⟨[-5], false⟩, ⟨[-7], false⟩⟩
    let v := verify (fun _ => [1, 4]) id (fun p => p.ells.headD 0) p
    v [10] 2 109 1 = some true ∧ v [11] 2 109 1 = some false ∧ v [] 2 109 1 = none ∧ v [10, 0] 2 109 1 = none := by decide

/-- The premises of `c130_prepared_violated`: integers modulo 256 as logarithms. -/
example : exByte.Lawful (· < 200) ∧ ((0 : UInt8) < 200) ∧ ([] : List UInt8).length ≤ 1 ∧ exFlag.Lawful (fun _ => True) ∧
    verify (fun (v : UInt8) => [(v.toNat : Int), 5]) (fun (t : UInt8) => (t.toNat : Int)) (fun p => ((p.ells.headD 0).toNat : Int))
      (⟨77, 0, ⟨[], true⟩, ⟨[], true⟩⟩ : Pvk UInt8 UInt8 UInt8) [3] 0 0 0 = some true ∧
    verify (fun (v : UInt8) => [(v.toNat : Int), 5]) (fun (t : UInt8) => (t.toNat : Int)) (fun p => ((p.ells.headD 0).toNat : Int))
      (exPvk 77) [3] 0 0 0 = some false :=
  ⟨exByte_lawful, by decide, by decide, exFlag_lawful, by decide, by decide⟩

end Verif.Keys
