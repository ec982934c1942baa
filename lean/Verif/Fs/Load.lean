import Verif.Fs.Props

/-!
# Loading: round trip, truncated files
-/

namespace Verif.Fs

open Verif.Codec (Bytes toLE fromLE toLE_length fromLE_toLE)

/-- The bytes the deserializer will see. -/
def De.rest (δ : De) : Bytes := δ.data ++ δ.file.flatten

theorem loadBytes_some (n : Nat) (file : List Bytes) (data : Bytes) (h : n ≤ (data ++ file.flatten).length) :
    ∃ δ, loadBytes n file data = some δ ∧ n ≤ δ.data.length ∧ δ.rest = data ++ file.flatten := by
  induction file generalizing data with
  | nil =>
    simp only [List.flatten_nil, List.append_nil] at h
    refine ⟨⟨[], data⟩, ?_, h, rfl⟩
    rw [loadBytes, if_neg (by omega)]
  | cons b file ih =>
    rw [loadBytes]
    by_cases hl : data.length < n
    · rw [if_pos hl]
      obtain ⟨δ, h1, h2, h3⟩ := ih (data ++ b) (by simpa using h)
      exact ⟨δ, h1, h2, by rw [h3]; simp⟩
    · rw [if_neg hl]
      exact ⟨⟨b :: file, data⟩, rfl, by simpa using hl, rfl⟩

theorem loadBytes_none (n : Nat) (file : List Bytes) (data : Bytes) (h : (data ++ file.flatten).length < n) :
    loadBytes n file data = none := by
  induction file generalizing data with
  | nil => rw [loadBytes, if_pos (by simpa using h)]
  | cons b file ih =>
    rw [loadBytes, if_pos (by simp at h; omega)]
    exact ih _ (by simpa using h)

/-- A decoder reads back an encoding, whatever follows, and runs out of bytes on every proper prefix of it. -/
structure Reads {α : Type} (f : De → DRes α) (x : α) (b : Bytes) : Prop where
  whole : ∀ δ r, δ.rest = b ++ r → ∃ δ', f δ = .ok (x, δ') ∧ δ'.rest = r
  cut : ∀ δ u, δ.rest ++ u = b → u ≠ [] → f δ = .error .eof

theorem readExact_reads (b : Bytes) : Reads (fun δ => δ.readExact b.length) b b where
  whole := by
    intro δ r h
    have hl : b.length ≤ (δ.data ++ δ.file.flatten).length := by
      have : δ.rest.length = (b ++ r).length := by rw [h]
      simp only [De.rest] at this; rw [this]; simp
    obtain ⟨δ1, h1, h2, h3⟩ := loadBytes_some _ _ _ hl
    have h4 : δ1.data ++ δ1.file.flatten = b ++ r := h3.trans h
    refine ⟨{δ1 with data := δ1.data.drop b.length}, ?_, ?_⟩
    · simp only [De.readExact, h1]
      have : δ1.data.take b.length = b := by
        have := congrArg (List.take b.length) h4
        rwa [List.take_append_of_le_length h2, List.take_left] at this
      rw [this]
    · have := congrArg (List.drop b.length) h4
      rw [List.drop_append_of_le_length h2, List.drop_left] at this
      exact this
  cut := by
    intro δ u h hu
    have hl : (δ.data ++ δ.file.flatten).length < b.length := by
      have : (δ.rest ++ u).length = b.length := by rw [h]
      rw [List.length_append] at this
      have hu' : 0 < u.length := List.length_pos_iff.2 hu
      simp only [De.rest] at this; omega
    simp only [De.readExact, loadBytes_none _ _ _ hl]

/-- Splits a proper prefix of `b ++ c`. -/
theorem cut_append {a u b c : Bytes} (h : a ++ u = b ++ c) (hu : u ≠ []) :
    (∃ w, a ++ w = b ∧ w ≠ []) ∨ (∃ r, a = b ++ r ∧ r ++ u = c) := by
  rcases Nat.lt_or_ge a.length b.length with hl | hl
  · refine .inl ⟨b.drop a.length, ?_, ?_⟩
    · have := congrArg (List.take a.length) h
      rw [List.take_left, List.take_append_of_le_length (by omega)] at this
      calc a ++ b.drop a.length = b.take a.length ++ b.drop a.length := by rw [← this]
        _ = b := List.take_append_drop _ _
    · intro hn
      have := congrArg List.length hn
      simp at this; omega
  · refine .inr ⟨a.drop b.length, ?_, ?_⟩
    · have := congrArg (List.take b.length) h
      rw [List.take_append_of_le_length hl, List.take_left] at this
      calc a = a.take b.length ++ a.drop b.length := (List.take_append_drop _ _).symm
        _ = b ++ a.drop b.length := by rw [this]
    · have := congrArg (List.drop b.length) h
      rwa [List.drop_append_of_le_length hl, List.drop_left] at this

/-- Sequential composition of decoders. -/
theorem Reads.bind {α β : Type} {f : De → DRes α} {g : α → De → DRes β} {x : α} {y : β} {b c : Bytes}
    (hf : Reads f x b) (hg : Reads (g x) y c) (k : De → DRes β)
    (hk : ∀ δ, k δ = match f δ with | .error e => .error e | .ok (z, δ') => g z δ') : Reads k y (b ++ c) where
  whole := by
    intro δ r h
    obtain ⟨δ1, h1, h2⟩ := hf.whole δ (c ++ r) (by rw [h, List.append_assoc])
    obtain ⟨δ2, h3, h4⟩ := hg.whole δ1 r h2
    exact ⟨δ2, by rw [hk, h1]; exact h3, h4⟩
  cut := by
    intro δ u h hu
    rcases cut_append h hu with ⟨w, hw, hn⟩ | ⟨r, hr, hc⟩
    · rw [hk, hf.cut δ w hw hn]
    · obtain ⟨δ1, h1, h2⟩ := hf.whole δ r hr
      rw [hk, h1]
      exact hg.cut δ1 u (by rw [h2]; exact hc) hu

/-- A decoder that reads nothing. -/
theorem Reads.pure {α : Type} (x : α) (f : De → DRes α) (hf : ∀ δ, f δ = .ok (x, δ)) : Reads f x [] where
  whole := fun δ r h => ⟨δ, hf δ, by simpa using h⟩
  cut := by
    intro δ u h hu
    exact absurd (List.append_eq_nil_iff.1 h).2 hu

theorem Reads.congr {α : Type} {f g : De → DRes α} {x : α} {b : Bytes} (h : Reads f x b) (hg : ∀ δ, g δ = f δ) :
    Reads g x b := by
  have : g = f := funext hg
  rw [this]; exact h

theorem Reads.map {α β : Type} {f : De → DRes α} {x : α} {b : Bytes} (h : Reads f x b) (φ : α → β)
    (k : De → DRes β) (hk : ∀ δ, k δ = mapRes φ (f δ)) : Reads k (φ x) b := by
  have := h.bind (g := fun z δ => .ok (φ z, δ)) (Reads.pure (φ x) _ fun δ => rfl) k (by
    intro δ
    rw [hk]
    rcases f δ with e | ⟨z, δ'⟩ <;> rfl)
  simpa using this

theorem readInt_reads (w n : Nat) (h : n < 256 ^ w) : Reads (fun δ => δ.readInt w) n (toLE w n) := by
  have h0 := readExact_reads (toLE w n)
  rw [toLE_length] at h0
  have := h0.map fromLE (fun δ => δ.readInt w) (by
    intro δ
    simp only [De.readInt]
    rcases δ.readExact w with e | ⟨b, δ'⟩ <;> rfl)
  rwa [fromLE_toLE w n h] at this

theorem byte_reads (n : Nat) (h : n < 256) : Reads (fun δ => δ.readInt 1) n [UInt8.ofNat n] := by
  have := readInt_reads 1 n (by simpa using h)
  simpa [toLE] using this

theorem readByteBuf_reads (b : Bytes) (h : b.length < 2 ^ 64) :
    Reads De.readByteBuf b (toLE 8 b.length ++ b) :=
  (readInt_reads 8 b.length (by simpa using h)).bind (g := fun n δ => δ.readExact n) (readExact_reads b) _
    (by intro δ; simp only [De.readByteBuf]; rcases δ.readInt 8 with e | ⟨n, δ'⟩ <;> rfl)

theorem deSeq_reads {α : Type} (f : De → DRes α) (g : α → Bytes) (l : List α)
    (h : ∀ x, Reads f x (g x)) : Reads (deSeq f l.length) l (l.flatMap g) := by
  induction l with
  | nil => exact Reads.pure [] _ fun δ => rfl
  | cons x xs ih =>
    rw [List.flatMap_cons]
    refine (h x).bind (g := fun z δ => mapRes (z :: ·) (deSeq f xs.length δ)) (ih.map _ _ fun δ => rfl) _ ?_
    intro δ
    simp only [List.length_cons, deSeq]
    rcases f δ with e | ⟨z, δ1⟩
    · rfl
    · simp only
      rcases deSeq f xs.length δ1 with e | ⟨w, δ2⟩ <;> rfl

theorem dePair_reads {α β : Type} {f : De → DRes α} {g : De → DRes β} {x : α} {y : β} {b c : Bytes}
    (hf : Reads f x b) (hg : Reads g y c) : Reads (dePair f g) (x, y) (b ++ c) := by
  refine hf.bind (g := fun z δ => mapRes (fun w => (z, w)) (g δ)) (hg.map _ _ fun δ => rfl) _ ?_
  intro δ
  simp only [dePair]
  rcases f δ with e | ⟨z, δ1⟩
  · rfl
  · simp only
    rcases g δ1 with e | ⟨w, δ2⟩ <;> rfl

theorem packList_reads {α : Type} {f : De → DRes (List α)} {l : List α} {b : Bytes} (h : Reads f l b)
    (hl : l.length < 2 ^ 64) (k : De → DRes {l : List α // l.length < 2 ^ 64})
    (hk : ∀ δ, k δ = packList (f δ)) : Reads k ⟨l, hl⟩ b := by
  have := h.bind (g := fun z δ => if h : z.length < 2 ^ 64 then .ok (⟨z, h⟩, δ) else .error .eof)
    (Reads.pure (⟨l, hl⟩ : {l : List α // l.length < 2 ^ 64}) _ fun δ => by rw [dif_pos hl]) k (by
      intro δ
      rw [hk]
      rcases f δ with e | ⟨z, δ'⟩ <;> rfl)
  simpa using this

theorem bytes_roundtrip (s : String) : String.fromUTF8? s.toByteArray.data.toList.toByteArray = some s := by
  have : s.toByteArray.data.toList.toByteArray = s.toByteArray := by
    simp [ByteArray.ext_iff, List.data_toByteArray]
  rw [this]
  simp [String.fromUTF8?, s.isValidUTF8, String.fromUTF8]

theorem toStr_reads {f : De → DRes Bytes} {s : String} {b : Bytes} (h : Reads f s.toByteArray.data.toList b)
    (hl : s.toByteArray.data.toList.length < 2 ^ 64)
    (k : De → DRes {s : String // s.toByteArray.data.toList.length < 2 ^ 64}) (hk : ∀ δ, k δ = toStr (f δ)) :
    Reads k ⟨s, hl⟩ b := by
  have := h.bind (g := fun z δ => toStr (.ok (z, δ)))
    (Reads.pure (⟨s, hl⟩ : {s : String // s.toByteArray.data.toList.length < 2 ^ 64}) _ fun δ => by
      simp only [toStr, bytes_roundtrip, dif_pos hl]) k (by
      intro δ
      rw [hk]
      rcases f δ with e | ⟨z, δ'⟩ <;> rfl)
  simpa using this

mutual
theorem index_lt : (vs : Variants) → (x : vs.Val) → index vs x < vs.count
  | .nil, x => nomatch x
  | .unit vs, x => by
    rcases x with _ | y
    · simp [index, Variants.count]
    · simp only [index, Variants.count]; have := index_lt vs y; omega
  | .newtype s vs, x => by
    rcases x with _ | y
    · simp [index, Variants.count]
    · simp only [index, Variants.count]; have := index_lt vs y; omega
  | .prod fs vs, x => by
    rcases x with _ | y
    · simp [index, Variants.count]
    · simp only [index, Variants.count]; have := index_lt vs y; omega
end

mutual
theorem de_reads : (s : Sch) → s.Wf → (v : s.Val) → Reads (de s) v (enc s v)
  | .bool, _, b => by
    simp only [enc]
    have := (byte_reads (if b then 1 else 0) (by cases b <;> decide)).bind
      (g := fun n δ => match n with | 0 => .ok (false, δ) | 1 => .ok (true, δ) | _ => .error .boolTag)
      (Reads.pure b _ fun δ => by cases b <;> rfl) (de .bool) (by
        intro δ
        simp only [de]
        rcases δ.readInt 1 with e | ⟨n, δ'⟩
        · rfl
        · rcases n with _ | _ | n <;> rfl)
    cases b <;> simpa using this
  | .bits w, _, x => by
    simp only [enc]
    have hx : x.toNat < 256 ^ w := by
      have := x.isLt
      rwa [Nat.pow_mul] at this
    have := (readInt_reads w x.toNat hx).map (BitVec.ofNat (8 * w)) (de (.bits w)) (fun δ => by simp only [de])
    simpa using this
  | .char, _, c => by
    simp only [enc]
    have hc : c.toNat < 256 ^ 4 := by
      have := c.valid
      have h2 : c.toNat < 1114112 := by
        rcases this with h | ⟨_, h⟩
        · exact Nat.lt_trans h (by decide)
        · exact h
      omega
    have := (readInt_reads 4 c.toNat hc).bind
      (g := fun n δ => if n.isValidChar then .ok (Char.ofNat n, δ) else .error .badChar)
      (Reads.pure c _ fun δ => by
        have hv : c.toNat.isValidChar := c.valid
        rw [if_pos hv, Char.ofNat_toNat]) (de .char) (by
        intro δ
        simp only [de]
        rcases δ.readInt 4 with e | ⟨n, δ'⟩ <;> rfl)
    simpa using this
  | .str, _, s => by
    simp only [enc]
    exact toStr_reads (readByteBuf_reads s.1.toByteArray.data.toList s.2) s.2 _ fun δ => by simp only [de]
  | .bytes, _, b => by
    simp only [enc]
    exact packList_reads (readByteBuf_reads b.1 b.2) b.2 _ fun δ => by simp only [de]
  | .unit, _, _ => by
    simp only [enc]
    exact Reads.pure _ _ fun δ => by simp only [de]
  | .option s, hw, v => by
    have hs : s.Wf := by simpa only [Sch.Wf] using hw
    let g : Nat → De → DRes (Option s.Val) := fun n δ => match n with
      | 0 => .ok (none, δ)
      | 1 => mapRes some (de s δ)
      | _ => .error .optionTag
    rcases v with _ | x
    · simp only [enc]
      have := (byte_reads 0 (by decide)).bind (g := g) (Reads.pure (none : Option s.Val) _ fun δ => rfl)
        (de (.option s)) (by
          intro δ
          simp only [de]
          rcases δ.readInt 1 with e | ⟨n, δ'⟩
          · rfl
          · rcases n with _ | _ | n <;> rfl)
      simpa using this
    · simp only [enc]
      have := (byte_reads 1 (by decide)).bind (g := g) ((de_reads s hs x).map some _ fun δ => rfl)
        (de (.option s)) (by
          intro δ
          simp only [de]
          rcases δ.readInt 1 with e | ⟨n, δ'⟩
          · rfl
          · rcases n with _ | _ | n <;> rfl)
      simpa using this
  | .seq s, hw, l => by
    have hs : s.Wf := by simpa only [Sch.Wf] using hw
    simp only [enc]
    refine (readInt_reads 8 l.1.length (by simpa using l.2)).bind (g := fun n δ => packList (deSeq (de s) n δ))
      (packList_reads (deSeq_reads (de s) (fun x => enc s x) l.1 fun x => de_reads s hs x) l.2 _ fun δ => rfl) _ ?_
    intro δ
    simp only [de]
    rcases δ.readInt 8 with e | ⟨n, δ'⟩ <;> rfl
  | .map k v, hw, l => by
    have hs : k.Wf ∧ v.Wf := by simpa only [Sch.Wf] using hw
    simp only [enc]
    refine (readInt_reads 8 l.1.length (by simpa using l.2)).bind
      (g := fun n δ => packList (deSeq (dePair (de k) (de v)) n δ))
      (packList_reads (deSeq_reads (dePair (de k) (de v)) (fun x => enc k x.1 ++ enc v x.2) l.1
        fun x => dePair_reads (de_reads k hs.1 x.1) (de_reads v hs.2 x.2)) l.2 _ fun δ => rfl) _ ?_
    intro δ
    simp only [de]
    rcases δ.readInt 8 with e | ⟨n, δ'⟩ <;> rfl
  | .newtype s, hw, x => by
    have hs : s.Wf := by simpa only [Sch.Wf] using hw
    simp only [enc]
    exact (de_reads s hs x).congr fun δ => by simp only [de]
  | .prod fs, hw, x => by
    have hs : fs.Wf := by simpa only [Sch.Wf] using hw
    simp only [enc]
    exact (deFields_reads fs hs x).congr fun δ => by simp only [de]
  | .enum vs, hw, x => by
    have hs : vs.count ≤ 2 ^ 32 ∧ vs.Wf := by simpa only [Sch.Wf] using hw
    simp only [enc]
    refine (readInt_reads 4 (index vs x) (by have := index_lt vs x; have := hs.1; omega)).bind
      (g := fun n δ => deVariants vs n δ) (deVariants_reads vs hs.2 x) _ ?_
    intro δ
    simp only [de]
    rcases δ.readInt 4 with e | ⟨n, δ'⟩ <;> rfl
theorem deFields_reads : (fs : Fields) → fs.Wf → (x : fs.Val) → Reads (deFields fs) x (encFields fs x)
  | .nil, _, _ => by
    simp only [encFields]
    exact Reads.pure _ _ fun δ => by simp only [deFields]
  | .cons s fs, hw, x => by
    have hs : s.Wf ∧ fs.Wf := by simpa only [Fields.Wf] using hw
    simp only [encFields]
    refine (de_reads s hs.1 x.1).bind (g := fun z δ => mapRes (fun w => (z, w)) (deFields fs δ))
      ((deFields_reads fs hs.2 x.2).map _ _ fun δ => rfl) _ ?_
    intro δ
    simp only [deFields]
    rcases de s δ with e | ⟨z, δ1⟩
    · rfl
    · simp only
      rcases deFields fs δ1 with e | ⟨w, δ2⟩ <;> rfl
theorem deVariants_reads : (vs : Variants) → vs.Wf → (x : vs.Val) →
    Reads (deVariants vs (index vs x)) x (encVariants vs x)
  | .nil, _, x => nomatch x
  | .unit vs, hw, x => by
    rcases x with _ | y
    · simp only [index, encVariants]
      exact Reads.pure _ _ fun δ => by simp only [deVariants]
    · simp only [index, encVariants]
      exact (deVariants_reads vs (by simpa only [Variants.Wf] using hw) y).map _ _ fun δ => by simp only [deVariants]
  | .newtype s vs, hw, x => by
    have hs : s.Wf ∧ vs.Wf := by simpa only [Variants.Wf] using hw
    rcases x with y | y
    · simp only [index, encVariants]
      exact (de_reads s hs.1 y).map _ _ fun δ => by simp only [deVariants]
    · simp only [index, encVariants]
      exact (deVariants_reads vs hs.2 y).map _ _ fun δ => by simp only [deVariants]
  | .prod fs vs, hw, x => by
    have hs : fs.Wf ∧ vs.Wf := by simpa only [Variants.Wf] using hw
    rcases x with y | y
    · simp only [index, encVariants]
      exact (deFields_reads fs hs.1 y).map _ _ fun δ => by simp only [deVariants]
    · simp only [index, encVariants]
      exact (deVariants_reads vs hs.2 y).map _ _ fun δ => by simp only [deVariants]
end

end Verif.Fs
