import Verif.Fs.Model
import Verif.Codec.Props

/-!
# C87: saved values load back; C90: interrupted saves
-/

namespace Verif.Fs

open Verif.Codec (Bytes toLE fromLE toLE_length fromLE_toLE)

/-! ## Specification of the format -/

mutual
/-- The bytes of a value: little-endian integers, length before sequences, index before variants. -/
def enc : (s : Sch) → s.Val → Bytes
  | .bool, b => [if b then 1 else 0]
  | .bits w, x => toLE w x.toNat
  | .char, c => toLE 4 c.toNat
  | .str, s => toLE 8 s.1.toByteArray.data.toList.length ++ s.1.toByteArray.data.toList
  | .bytes, b => toLE 8 b.1.length ++ b.1
  | .unit, _ => []
  | .option s, v => match v with
    | none => [0]
    | some x => 1 :: enc s x
  | .seq s, l => toLE 8 l.1.length ++ l.1.flatMap fun x => enc s x
  | .map k v, l => toLE 8 l.1.length ++ l.1.flatMap fun x => enc k x.1 ++ enc v x.2
  | .newtype s, x => enc s x
  | .prod fs, x => encFields fs x
  | .enum vs, x => toLE 4 (index vs x) ++ encVariants vs x
def encFields : (fs : Fields) → fs.Val → Bytes
  | .nil, _ => []
  | .cons s fs, x => enc s x.1 ++ encFields fs x.2
def index : (vs : Variants) → vs.Val → Nat
  | .nil, x => nomatch x
  | .unit vs, x => match x with | .inl _ => 0 | .inr y => index vs y + 1
  | .newtype _ vs, x => match x with | .inl _ => 0 | .inr y => index vs y + 1
  | .prod _ vs, x => match x with | .inl _ => 0 | .inr y => index vs y + 1
def encVariants : (vs : Variants) → vs.Val → Bytes
  | .nil, x => nomatch x
  | .unit vs, x => match x with | .inl _ => [] | .inr y => encVariants vs y
  | .newtype s vs, x => match x with | .inl y => enc s y | .inr y => encVariants vs y
  | .prod fs vs, x => match x with | .inl y => encFields fs y | .inr y => encVariants vs y
end

mutual
/-- Enums have at most `2^32` variants. -/
def Sch.Wf : Sch → Prop
  | .option s => s.Wf
  | .seq s => s.Wf
  | .map k v => k.Wf ∧ v.Wf
  | .newtype s => s.Wf
  | .prod fs => fs.Wf
  | .enum vs => vs.count ≤ 2 ^ 32 ∧ vs.Wf
  | _ => True
def Fields.Wf : Fields → Prop
  | .nil => True
  | .cons s fs => s.Wf ∧ fs.Wf
def Variants.count : Variants → Nat
  | .nil => 0
  | .unit vs => vs.count + 1
  | .newtype _ vs => vs.count + 1
  | .prod _ vs => vs.count + 1
def Variants.Wf : Variants → Prop
  | .nil => True
  | .unit vs => vs.Wf
  | .newtype s vs => s.Wf ∧ vs.Wf
  | .prod fs vs => fs.Wf ∧ vs.Wf
end

mutual
/-- A bare `()` (unit struct), or one wrapped in `Some`, newtype structs and newtype variants only. -/
def BareUnit : (s : Sch) → s.Val → Prop
  | .unit, _ => True
  | .option s, v => match v with
    | none => False
    | some x => BareUnit s x
  | .newtype s, x => BareUnit s x
  | .enum vs, x => BareUnitVariant vs x
  | _, _ => False
def BareUnitVariant : (vs : Variants) → vs.Val → Prop
  | .nil, x => nomatch x
  | .unit vs, x => match x with | .inl _ => False | .inr y => BareUnitVariant vs y
  | .newtype s vs, x => match x with | .inl y => BareUnit s y | .inr y => BareUnitVariant vs y
  | .prod _ vs, x => match x with | .inl _ => False | .inr y => BareUnitVariant vs y
end

/-- A file that stores exactly these bytes: full blocks, the last one padded with zeros. -/
structure Stores (B : Nat) (file : List Bytes) (b : Bytes) : Prop where
  blocks : ∀ x ∈ file, x.length = B
  content : ∃ k < B, file.flatten = b ++ List.replicate k 0

/-! ## Serializer -/

/-- Bytes written and pending are `t`, and all blocks are full. -/
structure Stream (B : Nat) (σ : Ser) (t : Bytes) : Prop where
  blocks : ∀ x ∈ σ.file, x.length = B
  content : σ.file.flatten ++ σ.data = t

theorem pad_full (B : Nat) (b : Bytes) (h : b.length = B) : pad B b = b := by
  simp [pad, h]

theorem pad_length (B : Nat) (b : Bytes) (h : b.length ≤ B) : (pad B b).length = B := by
  simp [pad]; omega

theorem fullBlocks_stream (B : Nat) (n : Nat) (file : List Bytes) (data : Bytes)
    (h : ∀ x ∈ file, x.length = B) :
    (∀ x ∈ (fullBlocks B n file data).1, x.length = B) ∧
    (fullBlocks B n file data).1.flatten ++ (fullBlocks B n file data).2 = file.flatten ++ data := by
  induction n generalizing file data with
  | zero => exact ⟨h, rfl⟩
  | succ n ih =>
    unfold fullBlocks
    split
    · rename_i hl
      have hp : pad B (data.take B) = data.take B := pad_full _ _ (by simp; omega)
      obtain ⟨h1, h2⟩ := ih (file ++ [pad B (data.take B)]) (data.drop B) (by
        intro x hx
        rcases List.mem_append.1 hx with hx | hx
        · exact h x hx
        · rw [List.mem_singleton] at hx; subst hx; exact pad_length _ _ (by simp; omega))
      refine ⟨h1, h2.trans ?_⟩
      rw [hp, List.flatten_append]
      simp
    · exact ⟨h, rfl⟩

theorem allBlocks_stores (B : Nat) (hB : 0 < B) (n : Nat) (file : List Bytes) (data : Bytes)
    (h : ∀ x ∈ file, x.length = B) (hn : data.length ≤ n) :
    (allBlocks B n file data).2 = [] ∧ (∀ x ∈ (allBlocks B n file data).1, x.length = B) ∧
    ∃ k < B, (allBlocks B n file data).1.flatten = file.flatten ++ data ++ List.replicate k 0 := by
  induction n generalizing file data with
  | zero =>
    have : data = [] := List.eq_nil_of_length_eq_zero (by omega)
    subst this
    exact ⟨rfl, h, 0, hB, by simp [allBlocks]⟩
  | succ n ih =>
    unfold allBlocks
    split
    · rename_i he
      rw [List.isEmpty_iff] at he
      subst he
      exact ⟨rfl, h, 0, hB, by simp⟩
    · rename_i he
      have hpos : 0 < data.length := by
        rcases data with _ | ⟨a, l⟩
        · simp at he
        · simp
      have hfile : ∀ x ∈ file ++ [pad B (data.take (min data.length B))], x.length = B := by
        intro x hx
        rcases List.mem_append.1 hx with hx | hx
        · exact h x hx
        · rw [List.mem_singleton] at hx; subst hx; exact pad_length _ _ (by simp; omega)
      obtain ⟨h1, h2, k, hk, h3⟩ := ih _ (data.drop (min data.length B)) hfile (by simp; omega)
      refine ⟨h1, h2, ?_⟩
      rw [h3]
      rcases Nat.lt_or_ge data.length B with hlt | hge
      · -- the last block
        refine ⟨B - data.length, by omega, ?_⟩
        have hm : min data.length B = data.length := by omega
        have hk0 : (allBlocks B n (file ++ [pad B (data.take (min data.length B))])
            (data.drop (min data.length B))).1 = file ++ [pad B (data.take (min data.length B))] := by
          rw [hm, List.drop_length]
          cases n <;> simp [allBlocks]
        rw [hk0] at h3
        rw [← h3, hm, List.take_length, List.flatten_append]
        simp [pad]
      · refine ⟨k, hk, ?_⟩
        have hm : min data.length B = B := by omega
        rw [hm, pad_full _ _ (by simp; omega), List.flatten_append]
        simp

/-- Outcome at depth 0: everything is on file, padded. -/
structure Done (B : Nat) (σ : Ser) (t : Bytes) : Prop where
  stores : Stores B σ.file t
  empty : σ.data = []

theorem flush_deep (B : Nat) (σ : Ser) (t : Bytes) (h : Stream B σ t) (hd : 0 < σ.depth) :
    Stream B (σ.flush B) t ∧ (σ.flush B).depth = σ.depth := by
  obtain ⟨h1, h2⟩ := fullBlocks_stream B σ.data.length σ.file σ.data h.blocks
  have hd' : σ.depth ≠ 0 := by omega
  unfold Ser.flush
  simp only [hd', if_false]
  exact ⟨⟨h1, h2.trans h.content⟩, trivial⟩

theorem flush_top (B : Nat) (hB : 0 < B) (σ : Ser) (t : Bytes) (h : Stream B σ t) (hd : σ.depth = 0) :
    Done B (σ.flush B) t ∧ (σ.flush B).depth = 0 := by
  obtain ⟨h1, h2, k, hk, h3⟩ := allBlocks_stores B hB σ.data.length σ.file σ.data h.blocks (Nat.le_refl _)
  unfold Ser.flush
  simp only [hd, if_true]
  refine ⟨⟨⟨h2, k, hk, ?_⟩, h1⟩, trivial⟩
  rw [h3, h.content]

theorem extend_stream (B : Nat) (σ : Ser) (t b : Bytes) (h : Stream B σ t) :
    Stream B (σ.extend b) (t ++ b) :=
  ⟨h.blocks, by simp only [Ser.extend]; rw [← h.content, List.append_assoc]⟩

theorem depth_stream (B : Nat) (σ : Ser) (t : Bytes) (d : Nat) (h : Stream B σ t) :
    Stream B {σ with depth := d} t := ⟨h.blocks, h.content⟩

/-- What a step does inside a compound value. -/
def Deep (B : Nat) (f : Ser → Ser) (b : Bytes) : Prop :=
  ∀ σ t, Stream B σ t → 0 < σ.depth → Stream B (f σ) (t ++ b) ∧ (f σ).depth = σ.depth

theorem writeBytes_deep (B : Nat) (b : Bytes) : Deep B (fun σ => σ.writeBytes B b) b := fun σ t h hd =>
  flush_deep B (σ.extend b) _ (extend_stream B σ t b h) hd

theorem Deep.comp {B : Nat} {f g : Ser → Ser} {b c : Bytes} (hf : Deep B f b) (hg : Deep B g c) :
    Deep B (fun σ => g (f σ)) (b ++ c) := fun σ t h hd => by
  obtain ⟨h1, h2⟩ := hf σ t h hd
  obtain ⟨h3, h4⟩ := hg (f σ) _ h1 (by omega)
  rw [← List.append_assoc]
  exact ⟨h3, h4.trans h2⟩

theorem extend_deep (B : Nat) (b : Bytes) : Deep B (fun σ => σ.extend b) b := fun σ t h _ =>
  ⟨extend_stream B σ t b h, rfl⟩

theorem foldl_deep {α : Type} (B : Nat) (f : α → Ser → Ser) (g : α → Bytes) (l : List α)
    (h : ∀ x, Deep B (f x) (g x)) : Deep B (fun σ => l.foldl (fun σ x => f x σ) σ) (l.flatMap g) := by
  induction l with
  | nil => intro σ t h _; simpa using h
  | cons x xs ih =>
    have := (h x).comp ih
    simpa [List.flatMap_cons] using this

/-- A compound: enter, header, body, leave; inside another compound or at the top. -/
def compound (B : Nat) (b : Bytes) (f : Ser → Ser) (σ : Ser) : Ser :=
  Ser.endCompound B (f (({σ with depth := σ.depth + 1} : Ser).extend b))

theorem compound_body (B : Nat) (b c : Bytes) (f : Ser → Ser) (hf : Deep B f c) (σ : Ser) (t : Bytes)
    (h : Stream B σ t) :
    Stream B (f (({σ with depth := σ.depth + 1} : Ser).extend b)) (t ++ (b ++ c)) ∧
    (f (({σ with depth := σ.depth + 1} : Ser).extend b)).depth = σ.depth + 1 := by
  have h1 := extend_stream B _ t b (depth_stream B σ t (σ.depth + 1) h)
  obtain ⟨h2, h3⟩ := hf _ _ h1 (by show 0 < σ.depth + 1; omega)
  rw [← List.append_assoc]
  exact ⟨h2, h3⟩

theorem compound_deep (B : Nat) (b c : Bytes) (f : Ser → Ser) (hf : Deep B f c) :
    Deep B (compound B b f) (b ++ c) := fun σ t h hd => by
  obtain ⟨h1, h2⟩ := compound_body B b c f hf σ t h
  have hdd : (f (({σ with depth := σ.depth + 1} : Ser).extend b)).depth - 1 = σ.depth := by omega
  unfold compound Ser.endCompound
  rw [hdd]
  obtain ⟨h3, h4⟩ := flush_deep B _ _ (depth_stream B _ _ σ.depth h1) hd
  exact ⟨h3, h4⟩

theorem compound_top (B : Nat) (hB : 0 < B) (b c : Bytes) (f : Ser → Ser) (hf : Deep B f c) (σ : Ser) (t : Bytes)
    (h : Stream B σ t) (hd : σ.depth = 0) : Done B (compound B b f σ) (t ++ (b ++ c)) := by
  obtain ⟨h1, h2⟩ := compound_body B b c f hf σ t h
  have hdd : (f (({σ with depth := σ.depth + 1} : Ser).extend b)).depth - 1 = 0 := by omega
  unfold compound Ser.endCompound
  rw [hdd]
  exact (flush_top B hB _ _ (depth_stream B _ _ 0 h1) rfl).1

theorem compound_nil (B : Nat) (f : Ser → Ser) (σ : Ser) :
    Ser.endCompound B (f σ.startStruct) = compound B [] f σ := by
  unfold compound Ser.startStruct Ser.extend
  simp

theorem flatMap_single (l : Bytes) : (l.flatMap fun b => [b]) = l := by
  induction l with
  | nil => rfl
  | cons x xs ih => rw [List.flatMap_cons, ih]; rfl

/-- The body of a string. -/
theorem str_deep (B : Nat) (l : Bytes) :
    Deep B (fun σ => l.foldl (fun σ b => σ.writeBytes B [b]) σ) l := by
  have := foldl_deep B (fun b σ => Ser.writeBytes B σ [b]) (fun b => [b]) l fun b => writeBytes_deep B [b]
  rw [flatMap_single] at this
  exact this

mutual
theorem ser_deep (B : Nat) : (s : Sch) → (v : s.Val) → Deep B (ser B s v) (enc s v)
  | .bool, b => by simp only [ser, enc]; exact writeBytes_deep B _
  | .bits w, x => by simp only [ser, enc]; exact writeBytes_deep B _
  | .char, c => by simp only [ser, enc]; exact writeBytes_deep B _
  | .str, s => by
    simp only [ser, enc]
    exact compound_deep B (toLE 8 s.1.toByteArray.data.toList.length) _ _ (str_deep B _)
  | .bytes, b => by
    simp only [ser, enc]
    intro σ t h hd
    have := flush_deep B _ _ (extend_stream B _ _ b.1 (extend_stream B σ t (toLE 8 b.1.length) h)) hd
    rw [← List.append_assoc]
    exact this
  | .unit, _ => by
    simp only [ser, enc]
    intro σ t h _; simpa using h
  | .option s, v => by
    rcases v with _ | x
    · simp only [ser, enc]; exact writeBytes_deep B _
    · simp only [ser, enc]
      exact (extend_deep B [1]).comp (ser_deep B s x)
  | .seq s, l => by
    simp only [ser, enc]
    exact compound_deep B (toLE 8 l.1.length) _ _
      (foldl_deep B (fun x σ => ser B s x σ) (fun x => enc s x) l.1 fun x => ser_deep B s x)
  | .map k v, l => by
    simp only [ser, enc]
    exact compound_deep B (toLE 8 l.1.length) _ _
      (foldl_deep B (fun x σ => ser B v x.2 (ser B k x.1 σ)) (fun x => enc k x.1 ++ enc v x.2) l.1
        fun x => (ser_deep B k x.1).comp (ser_deep B v x.2))
  | .newtype s, x => by simp only [ser, enc]; exact ser_deep B s x
  | .prod fs, x => by
    simp only [ser, enc, compound_nil]
    exact compound_deep B [] _ _ (serFields_deep B fs x)
  | .enum vs, x => by
    simp only [ser, enc]
    have := serVariants_deep B vs 0 x
    rwa [Nat.zero_add] at this
theorem serFields_deep (B : Nat) : (fs : Fields) → (x : fs.Val) → Deep B (serFields B fs x) (encFields fs x)
  | .nil, _ => by
    simp only [serFields, encFields]
    intro σ t h _; simpa using h
  | .cons s fs, x => by
    simp only [serFields, encFields]
    exact (ser_deep B s x.1).comp (serFields_deep B fs x.2)
theorem serVariants_deep (B : Nat) : (vs : Variants) → (i : Nat) → (x : vs.Val) →
    Deep B (serVariants B vs i x) (toLE 4 (i + index vs x) ++ encVariants vs x)
  | .nil, _, x => nomatch x
  | .unit vs, i, x => by
    rcases x with _ | y
    · simp only [serVariants, index, encVariants, List.append_nil, Nat.add_zero]
      exact writeBytes_deep B _
    · simp only [serVariants, index, encVariants]
      have := serVariants_deep B vs (i + 1) y
      rwa [show i + 1 + index vs y = i + (index vs y + 1) by omega] at this
  | .newtype s vs, i, x => by
    rcases x with y | y
    · simp only [serVariants, index, encVariants, Nat.add_zero]
      exact (extend_deep B _).comp (ser_deep B s y)
    · simp only [serVariants, index, encVariants]
      have := serVariants_deep B vs (i + 1) y
      rwa [show i + 1 + index vs y = i + (index vs y + 1) by omega] at this
  | .prod fs vs, i, x => by
    rcases x with y | y
    · simp only [serVariants, index, encVariants, Nat.add_zero]
      exact compound_deep B (toLE 4 i) _ _ (serFields_deep B fs y)
    · simp only [serVariants, index, encVariants]
      have := serVariants_deep B vs (i + 1) y
      rwa [show i + 1 + index vs y = i + (index vs y + 1) by omega] at this
end

/-- What a value does at depth 0: it ends on file, or, for a bare unit, stays in memory. -/
def Top (B : Nat) (f : Ser → Ser) (bare : Prop) (b : Bytes) : Prop :=
  ∀ σ t, Stream B σ t → σ.depth = 0 →
    (¬ bare → Done B (f σ) (t ++ b)) ∧ (bare → f σ = σ.extend b)

theorem writeBytes_top (B : Nat) (hB : 0 < B) (b : Bytes) : Top B (fun σ => σ.writeBytes B b) False b :=
  fun σ t h hd => ⟨fun _ => (flush_top B hB _ _ (extend_stream B σ t b h) hd).1, False.elim⟩

theorem compound_top' (B : Nat) (hB : 0 < B) (b c : Bytes) (f : Ser → Ser) (hf : Deep B f c) :
    Top B (compound B b f) False (b ++ c) :=
  fun σ t h hd => ⟨fun _ => compound_top B hB b c f hf σ t h hd, False.elim⟩

theorem Top.after {B : Nat} {f : Ser → Ser} {p : Prop} {b c : Bytes} (hf : Top B f p c) :
    Top B (fun σ => f (σ.extend b)) p (b ++ c) := fun σ t h hd => by
  obtain ⟨h1, h2⟩ := hf (σ.extend b) _ (extend_stream B σ t b h) hd
  rw [← List.append_assoc]
  refine ⟨h1, fun hp => (h2 hp).trans ?_⟩
  simp [Ser.extend]

mutual
theorem ser_top (B : Nat) (hB : 0 < B) : (s : Sch) → (v : s.Val) → Top B (ser B s v) (BareUnit s v) (enc s v)
  | .bool, b => by simp only [ser, enc, BareUnit]; exact writeBytes_top B hB _
  | .bits w, x => by simp only [ser, enc, BareUnit]; exact writeBytes_top B hB _
  | .char, c => by simp only [ser, enc, BareUnit]; exact writeBytes_top B hB _
  | .str, s => by
    simp only [ser, enc, BareUnit]
    exact compound_top' B hB (toLE 8 s.1.toByteArray.data.toList.length) _ _ (str_deep B _)
  | .bytes, b => by
    simp only [ser, enc, BareUnit]
    intro σ t h hd
    refine ⟨fun _ => ?_, False.elim⟩
    rw [← List.append_assoc]
    exact (flush_top B hB _ _ (extend_stream B _ _ b.1 (extend_stream B σ t (toLE 8 b.1.length) h)) hd).1
  | .unit, _ => by
    simp only [ser, enc, BareUnit]
    intro σ t h _
    exact ⟨fun hn => absurd trivial hn, fun _ => by simp [Ser.extend]⟩
  | .option s, v => by
    rcases v with _ | x
    · simp only [ser, enc, BareUnit]; exact writeBytes_top B hB _
    · simp only [ser, enc, BareUnit]
      exact Top.after (b := [1]) (ser_top B hB s x)
  | .seq s, l => by
    simp only [ser, enc, BareUnit]
    exact compound_top' B hB (toLE 8 l.1.length) _ _
      (foldl_deep B (fun x σ => ser B s x σ) (fun x => enc s x) l.1 fun x => ser_deep B s x)
  | .map k v, l => by
    simp only [ser, enc, BareUnit]
    exact compound_top' B hB (toLE 8 l.1.length) _ _
      (foldl_deep B (fun x σ => ser B v x.2 (ser B k x.1 σ)) (fun x => enc k x.1 ++ enc v x.2) l.1
        fun x => (ser_deep B k x.1).comp (ser_deep B v x.2))
  | .newtype s, x => by simp only [ser, enc, BareUnit]; exact ser_top B hB s x
  | .prod fs, x => by
    simp only [ser, enc, compound_nil, BareUnit]
    exact compound_top' B hB [] _ _ (serFields_deep B fs x)
  | .enum vs, x => by
    simp only [ser, enc, BareUnit]
    have := serVariants_top B hB vs 0 x
    rwa [Nat.zero_add] at this
theorem serVariants_top (B : Nat) (hB : 0 < B) : (vs : Variants) → (i : Nat) → (x : vs.Val) →
    Top B (serVariants B vs i x) (BareUnitVariant vs x) (toLE 4 (i + index vs x) ++ encVariants vs x)
  | .nil, _, x => nomatch x
  | .unit vs, i, x => by
    rcases x with _ | y
    · simp only [serVariants, index, encVariants, List.append_nil, Nat.add_zero, BareUnitVariant]
      exact writeBytes_top B hB _
    · simp only [serVariants, index, encVariants, BareUnitVariant]
      have := serVariants_top B hB vs (i + 1) y
      rwa [show i + 1 + index vs y = i + (index vs y + 1) by omega] at this
  | .newtype s vs, i, x => by
    rcases x with y | y
    · simp only [serVariants, index, encVariants, Nat.add_zero, BareUnitVariant]
      exact Top.after (ser_top B hB s y)
    · simp only [serVariants, index, encVariants, BareUnitVariant]
      have := serVariants_top B hB vs (i + 1) y
      rwa [show i + 1 + index vs y = i + (index vs y + 1) by omega] at this
  | .prod fs vs, i, x => by
    rcases x with y | y
    · simp only [serVariants, index, encVariants, Nat.add_zero, BareUnitVariant]
      exact compound_top' B hB (toLE 4 i) _ _ (serFields_deep B fs y)
    · simp only [serVariants, index, encVariants, BareUnitVariant]
      have := serVariants_top B hB vs (i + 1) y
      rwa [show i + 1 + index vs y = i + (index vs y + 1) by omega] at this
end

theorem new_stream (B : Nat) : Stream B Ser.new [] := ⟨by simp [Ser.new], rfl⟩

/-- C87 (part): a save leaves exactly the encoding on file, unless the value is a bare unit. -/
theorem save_stores (B : Nat) (hB : 0 < B) (s : Sch) (v : s.Val) (hv : ¬ BareUnit s v) :
    Stores B (save B s v) (enc s v) := by
  have := ((ser_top B hB s v) Ser.new [] (new_stream B) rfl).1 hv
  rw [List.nil_append] at this
  exact this.stores

theorem save_bare (B : Nat) (hB : 0 < B) (s : Sch) (v : s.Val) (hv : BareUnit s v) : save B s v = [] := by
  have := ((ser_top B hB s v) Ser.new [] (new_stream B) rfl).2 hv
  unfold save
  rw [this]
  rfl

end Verif.Fs
