import Verif.Fs.Cocoon

/-!
# C87 to C90: saved files
-/

namespace Verif.Fs

open Verif.Codec (Bytes toLE fromLE toLE_length fromLE_toLE)

/-! ## C87 -/

/-- C87: the file holds the encoding of the value, in full blocks, padded with fewer zeros than a block. -/
theorem c87_format (B : Nat) (hB : 0 < B) (s : Sch) (v : s.Val) (hv : ¬ BareUnit s v) :
    Stores B (save B s v) (enc s v) := save_stores B hB s v hv

/-- Loading from any blocks that hold the encoding and then anything. -/
theorem load_of_rest (s : Sch) (hs : s.Wf) (v : s.Val) (file : List Bytes) (r : Bytes)
    (h : file.flatten = enc s v ++ r) : load s file = .ok v := by
  obtain ⟨δ, h1, _⟩ := (de_reads s hs v).whole ⟨file, []⟩ r (by simpa [De.rest] using h)
  simp only [load, h1]

/-- Loading from a proper prefix of the encoding. -/
theorem load_of_cut (s : Sch) (hs : s.Wf) (v : s.Val) (file : List Bytes) (u : Bytes)
    (h : file.flatten ++ u = enc s v) (hu : u ≠ []) : load s file = .error .eof := by
  have := (de_reads s hs v).cut ⟨file, []⟩ u (by simpa [De.rest] using h) hu
  simp only [load, this]

/-- C87 (part): every value loads back, except the units that the next theorem is about. -/
theorem c87_roundtrip_partial (B : Nat) (hB : 0 < B) (s : Sch) (hs : s.Wf) (v : s.Val)
    (hv : BareUnit s v → enc s v = []) : load s (save B s v) = .ok v := by
  by_cases hb : BareUnit s v
  · rw [save_bare B hB s v hb]
    exact load_of_rest s hs v [] [] (by simp [hv hb])
  · obtain ⟨_, k, _, h⟩ := save_stores B hB s v hb
    exact load_of_rest s hs v _ _ h

/-- C87 fails for the code: a unit wrapped in `Some` or an enum variant, as the whole value, is reported as saved but
nothing is written, and it does not load. -/
theorem c87_lost_violated (B : Nat) (hB : 0 < B) (s : Sch) (hs : s.Wf) (v : s.Val) (hb : BareUnit s v)
    (he : enc s v ≠ []) : save B s v = [] ∧ load s (save B s v) = .error .eof := by
  rw [save_bare B hB s v hb]
  exact ⟨rfl, load_of_cut s hs v [] (enc s v) (by simp) he⟩

/-- C87: different values of a type give different files. -/
theorem c87_injective (B : Nat) (hB : 0 < B) (s : Sch) (hs : s.Wf) (v w : s.Val) (hv : BareUnit s v → enc s v = [])
    (hw : BareUnit s w → enc s w = []) (h : save B s v = save B s w) : v = w := by
  have h1 := c87_roundtrip_partial B hB s hs v hv
  rw [h, c87_roundtrip_partial B hB s hs w hw] at h1
  cases h1; rfl

/-- `struct { a: u16, b: Option<()>, c: Vec<u8>, d: enum { X, Y(bool), Z { char } } }`. -/
def tSch : Sch := .prod (.cons (.bits 2) (.cons (.option .unit) (.cons (.seq (.bits 1))
  (.cons (.enum (.unit (.newtype .bool (.prod (.cons .char .nil) .nil)))) .nil))))

def tVal : tSch.Val :=
  ((0x1234 : BitVec 16), some (), ⟨[(7 : BitVec 8), (8 : BitVec 8)], by decide⟩, .inr (.inl true), ())

example : tSch.Wf := by simp [tSch, Sch.Wf, Fields.Wf, Variants.Wf, Variants.count]

example : ¬ BareUnit tSch tVal := by simp [tSch, BareUnit]

example : save 8 tSch tVal = [[0x34, 0x12, 1, 2, 0, 0, 0, 0], [0, 0, 0, 7, 8, 1, 0, 0], [0, 1 + 0, 0, 0, 0, 0, 0, 0]]
    := by decide +kernel

example : save 8192 (.option .unit) (some ()) = [] ∧ enc (.option .unit) (some ()) = [1] ∧
    BareUnit (.option .unit) (some ()) := ⟨rfl, rfl, by simp [BareUnit]⟩

/-! ## C90 -/

/-- C90: content of the file during a save. The file is truncated when it is opened, then the blocks are written. -/
inductive DuringSave (old new : List Bytes) : List Bytes → Prop where
  | before : DuringSave old new old
  | written (k : Nat) (h : k ≤ new.length) : DuringSave old new (new.take k)

theorem save_ne (B : Nat) (s : Sch) (v : s.Val) (hB : 0 < B) (hv : ¬ BareUnit s v) (k : Nat)
    (hk : k < (save B s v).length) : ∃ u, ((save B s v).take k).flatten ++ u = enc s v ∧ u ≠ [] := by
  obtain ⟨hb, z, hz, hc⟩ := save_stores B hB s v hv
  generalize save B s v = f at hb hc hk
  have hlen : ∀ l : List Bytes, (∀ x ∈ l, x.length = B) → l.flatten.length = l.length * B := by
    intro l hl
    induction l with
    | nil => simp
    | cons x xs ih =>
      rw [List.flatten_cons, List.length_append, hl x (by simp), ih (fun y hy => hl y (by simp [hy])),
        List.length_cons, Nat.succ_mul]
      omega
  have hfl : (enc s v).length + z = f.length * B := by
    rw [← hlen f hb, hc]; simp
  have htl : (f.take k).flatten.length = k * B := by
    rw [hlen _ (fun x hx => hb x (List.mem_of_mem_take hx)), List.length_take, Nat.min_eq_left (by omega)]
  have hlt : k * B + B ≤ f.length * B := by
    have : (k + 1) * B ≤ f.length * B := Nat.mul_le_mul_right _ hk
    rwa [Nat.succ_mul] at this
  have hpre : (f.take k).flatten ++ (f.drop k).flatten = enc s v ++ List.replicate z 0 := by
    rw [← hc, ← List.flatten_append, List.take_append_drop]
  refine ⟨(enc s v).drop (f.take k).flatten.length, ?_, ?_⟩
  · have := congrArg (List.take (f.take k).flatten.length) hpre
    rw [List.take_left, List.take_append_of_le_length (by omega)] at this
    calc (f.take k).flatten ++ (enc s v).drop (f.take k).flatten.length
        = (enc s v).take (f.take k).flatten.length ++ (enc s v).drop (f.take k).flatten.length := by rw [← this]
      _ = enc s v := List.take_append_drop _ _
  · intro hn
    have := congrArg List.length hn
    simp only [List.length_drop, List.length_nil] at this
    omega

/-- C90 (part): what an interrupted save leaves loads as the old value, as the new one, or not at all. -/
theorem c90_outcomes_partial (B : Nat) (hB : 0 < B) (s : Sch) (hs : s.Wf) (old new : s.Val)
    (ho : ¬ BareUnit s old) (hn : ¬ BareUnit s new) (file : List Bytes)
    (h : DuringSave (save B s old) (save B s new) file) :
    load s file = .ok old ∨ load s file = .ok new ∨ load s file = .error .eof := by
  rcases h with _ | ⟨k, hk⟩
  · exact .inl (c87_roundtrip_partial B hB s hs old fun h => absurd h ho)
  · rcases Nat.lt_or_ge k (save B s new).length with hlt | hge
    · obtain ⟨u, h1, h2⟩ := save_ne B s new hB hn k hlt
      exact .inr (.inr (load_of_cut s hs new _ u h1 h2))
    · rw [List.take_of_length_le hge]
      exact .inr (.inl (c87_roundtrip_partial B hB s hs new fun h => absurd h hn))

/-- C90 fails for the code: from the moment the file is opened until the last block is written, neither the old nor
the new value can be loaded. -/
theorem c90_violated (B : Nat) (hB : 0 < B) (s : Sch) (hs : s.Wf) (old new : s.Val) (hn : ¬ BareUnit s new) (k : Nat)
    (hk : k < (save B s new).length) :
    DuringSave (save B s old) (save B s new) ((save B s new).take k) ∧
    load s ((save B s new).take k) = .error .eof := by
  obtain ⟨u, h1, h2⟩ := save_ne B s new hB hn k hk
  exact ⟨.written k (by omega), load_of_cut s hs new _ u h1 h2⟩

example : (save 8 tSch tVal).length = 3 ∧ ((load tSch ((save 8 tSch tVal).take 2)) matches .error .eof) = true := by
  refine ⟨by decide +kernel, by decide +kernel⟩

/-! ## Containers -/

theorem header_length (n : Bytes) (l : Nat) (hn : n.length = 12) : (header n l).length = 20 := by
  simp [header, hn, toLE_length]

theorem dump_length (P : Prims) (hP : P.Ok) (c : Cocoon) (hc : c.nonce.length = 12) (m : Bytes) :
    (dump P c m).length = 36 + m.length := by
  simp only [dump, List.length_append, header_length _ _ hc, hP.tag, hP.length]

/-- A container is parsed back, whatever follows it. -/
theorem parse_dump (P : Prims) (hP : P.Ok) (c : Cocoon) (hc : c.nonce.length = 12) (m r : Bytes)
    (hm : m.length < 2 ^ 63) : parse P c (dump P c m ++ r) = .ok m r := by
  have hl := dump_length P hP c hc m
  have hh := header_length c.nonce m.length hc
  generalize hd : dump P c m = d at hl
  have hd' : d = header c.nonce m.length ++ (P.encrypt c.key c.nonce (header c.nonce m.length) m).2 ++
      (P.encrypt c.key c.nonce (header c.nonce m.length) m).1 := hd ▸ rfl
  have ht := hP.tag c.key c.nonce (header c.nonce m.length) m
  have hb := hP.length c.key c.nonce (header c.nonce m.length) m
  have hco := hP.correct c.key c.nonce (header c.nonce m.length) m
  generalize P.encrypt c.key c.nonce (header c.nonce m.length) m = s at hd' ht hb hco
  obtain ⟨ct, tag⟩ := s
  simp only at hd' ht hb hco
  have h1 : (d ++ r).take 20 = header c.nonce m.length := by
    rw [hd', List.append_assoc, List.append_assoc, List.take_left' hh]
  have h2 : (d ++ r).drop 20 = tag ++ (ct ++ r) := by
    rw [hd', List.append_assoc, List.append_assoc, List.drop_left' hh]
  have h3 : (d ++ r).drop 36 = ct ++ r := by
    have : (d ++ r).drop 36 = ((d ++ r).drop 20).drop 16 := by rw [List.drop_drop]
    rw [this, h2, List.drop_left' ht]
  have h4 : (d ++ r).take 12 = c.nonce := by
    have : (d ++ r).take 12 = ((d ++ r).take 20).take 12 := by rw [List.take_take]; rfl
    rw [this, h1, header, List.take_left' hc]
  have h5 : ((d ++ r).drop 12).take 8 = (toLE 8 m.length).reverse := by
    have : ((d ++ r).drop 12).take 8 = ((d ++ r).take 20).drop 12 := by rw [List.drop_take]
    rw [this, h1, header, List.drop_left' hc]
  have hlen : ¬ (d ++ r).length < 20 := by simp only [List.length_append]; omega
  have hlen' : ¬ (d ++ r).length < 36 := by simp only [List.length_append]; omega
  unfold parse
  rw [if_neg hlen, if_neg hlen']
  simp only [h1, h2, h3, h4, h5, List.reverse_reverse]
  rw [fromLE_toLE 8 m.length (Nat.lt_trans hm (by decide)), if_neg (by omega),
    if_neg (by simp only [List.length_append]; omega), List.take_left' ht, List.take_left' hb, List.drop_left' hb, hco]

theorem readBlocks_dump (P : Prims) (hP : P.Ok) (c : Cocoon) (hc : c.nonce.length = 12) (B : Nat) (hB : 0 < B)
    (hB' : B < 2 ^ 63) (l : List Bytes) (hl : ∀ x ∈ l, x.length = B) (n : Nat)
    (hn : (l.flatMap (dump P c)).length < n) :
    readBlocks P c B n (l.flatMap (dump P c)) = (l, .tooShort) := by
  induction l generalizing n with
  | nil =>
    rcases n with _ | n
    · rfl
    · simp [readBlocks, parse]
  | cons x xs ih =>
    rcases n with _ | n
    · simp at hn
    · have hx := hl x (by simp)
      rw [List.flatMap_cons] at hn ⊢
      rw [readBlocks, parse_dump P hP c hc x _ (by omega)]
      have h0 : x.isEmpty = false := by
        rcases x with _ | _
        · simp at hx; omega
        · rfl
      simp only [h0, Bool.false_eq_true, if_false]
      rw [if_neg (by omega), ih (fun y hy => hl y (by simp [hy])) n (by
        rw [List.length_append, dump_length P hP c hc] at hn; omega), pad_full B x hx]

theorem blocks_dump (P : Prims) (hP : P.Ok) (password : Bytes) (B : Nat) (hB : 0 < B) (hB' : B < 2 ^ 63)
    (l : List Bytes) (hl : ∀ x ∈ l, x.length = B) :
    blocks P (.ofFile P password) B (l.flatMap (dump P (.ofFile P password))) = (l, .tooShort) :=
  readBlocks_dump P hP _ (hP.nonce _) B hB hB' l hl _ (by omega)

theorem save_blocks (B : Nat) (hB : 0 < B) (s : Sch) (v : s.Val) : ∀ x ∈ save B s v, x.length = B := by
  by_cases hb : BareUnit s v
  · rw [save_bare B hB s v hb]; simp
  · exact (save_stores B hB s v hb).blocks

/-- C87: what is on disk: a sequence of containers of 8192 bytes of data and 36 bytes of framing each, as many as the
encoding needs, so the length of a file is a function of the length of the encoding and tells it only up to a block. -/
theorem c87_file_length (P : Prims) (hP : P.Ok) (password : Bytes) (s : Sch) (v : s.Val)
    (hv : ¬ BareUnit s v) :
    (saveFile P password SIZE s v).length = 8228 * (((enc s v).length + 8191) / 8192) := by
  have h1 : (saveFile P password SIZE s v).length = 8228 * (save 8192 s v).length := by
    have hb := save_blocks 8192 (by decide) s v
    show ((save 8192 s v).flatMap (dump P (.ofFile P password))).length = _
    generalize save 8192 s v = l at hb
    induction l with
    | nil => rfl
    | cons x l ih =>
      rw [List.flatMap_cons, List.length_append, ih fun y hy => hb y (List.mem_cons_of_mem _ hy),
        dump_length P hP _ (hP.nonce _) x, hb x (List.mem_cons_self ..), List.length_cons]
      omega
  · obtain ⟨hb, z, hz, hc⟩ := save_stores 8192 (by decide) s v hv
    have hl : ∀ l : List Bytes, (∀ x ∈ l, x.length = 8192) → l.flatten.length = 8192 * l.length := by
      intro l
      induction l with
      | nil => intro _; rfl
      | cons x l ih =>
        intro h
        rw [List.flatten_cons, List.length_append, ih fun y hy => h y (List.mem_cons_of_mem _ hy),
          h x (List.mem_cons_self ..), List.length_cons]
        omega
    have := hl _ hb
    rw [hc, List.length_append, List.length_replicate] at this
    rw [h1]
    congr 1
    omega

/-- C87 (part): the same for encrypted files: what was saved under a password loads under it. -/
theorem c87_file_partial (P : Prims) (hP : P.Ok) (password : Bytes) (s : Sch) (hs : s.Wf)
    (v : s.Val) (hv : BareUnit s v → enc s v = []) :
    loadFile P password SIZE s (saveFile P password SIZE s v) = .ok v := by
  have h0 : 0 < SIZE := by decide
  unfold loadFile saveFile
  rw [blocks_dump P hP password SIZE h0 (by decide) _ (save_blocks SIZE h0 s v)]
  simp only [c87_roundtrip_partial SIZE h0 s hs v hv]

/-- C87: encryption changes nothing: read as another type, a saved file gives what its unencrypted blocks give, with
the same complaint if they are no value of the type, unless they end too early. -/
theorem c87_file_outcome (P : Prims) (hP : P.Ok) (password : Bytes) (s s' : Sch) (v : s.Val) :
    (∀ w, load s' (save SIZE s v) = .ok w → loadFile P password SIZE s' (saveFile P password SIZE s v) = .ok w) ∧
    (∀ e, e ≠ .eof → load s' (save SIZE s v) = .error e →
      loadFile P password SIZE s' (saveFile P password SIZE s v) = .invalid e) ∧
    (load s' (save SIZE s v) = .error .eof →
      loadFile P password SIZE s' (saveFile P password SIZE s v) = .stopped .tooShort) := by
  have h0 : 0 < SIZE := by decide
  unfold loadFile saveFile
  rw [blocks_dump P hP password SIZE h0 (by decide) _ (save_blocks SIZE h0 s v)]
  refine ⟨fun w h => by simp only [h], fun e he h => ?_, fun h => by simp only [h]⟩
  simp only [h]

/-! ## C88 -/

/-- C88 fails for the code: all blocks of all files under all passwords carry one and the same nonce. -/
theorem c88_nonce_violated (P : Prims) (hP : P.Ok) (pw pw' m m' : Bytes) :
    (dump P (.ofFile P pw) m).take 12 = (dump P (.ofFile P pw') m').take 12 := by
  have h : ∀ pw m, (dump P (.ofFile P pw) m).take 12 = P.gen (List.replicate 32 0) := by
    intro pw m
    simp only [dump, header, List.append_assoc, Cocoon.ofFile, Cocoon.fromPassword]
    exact List.take_left' (hP.nonce _)
  rw [h, h]

/-- Bytewise exclusive or. -/
def xor (a b : Bytes) : Bytes := List.zipWith (· ^^^ ·) a b

/-- The ciphertext is the exclusive or with a stream that depends on key and nonce, as for both supported ciphers. -/
def IsStream (P : Prims) : Prop :=
  ∃ ks : Bytes → Bytes → Nat → UInt8, ∀ k n a m, (P.encrypt k n a m).1 = xor m ((List.range m.length).map (ks k n))

theorem xor_cancel (a b s : Bytes) (ha : a.length = s.length) (hb : b.length = s.length) :
    xor (xor a s) (xor b s) = xor a b := by
  induction s generalizing a b with
  | nil =>
    have h1 : a = [] := List.eq_nil_of_length_eq_zero ha
    have h2 : b = [] := List.eq_nil_of_length_eq_zero hb
    subst h1 h2; rfl
  | cons x xs ih =>
    rcases a with _ | ⟨y, ys⟩
    · simp at ha
    · rcases b with _ | ⟨z, zs⟩
      · simp at hb
      · simp only [xor, List.zipWith_cons_cons, List.cons.injEq]
        refine ⟨?_, ih ys zs (by simpa using ha) (by simpa using hb)⟩
        rw [UInt8.xor_comm z x, UInt8.xor_assoc, ← UInt8.xor_assoc x x z]
        simp

/-- C88 fails for the code: whoever sees two blocks, of the same or of different files, learns the difference of their
plaintexts. -/
theorem c88_leak_violated (P : Prims) (hP : P.Ok) (hs : IsStream P) (pw m m' : Bytes) (hl : m.length = m'.length) :
    xor ((dump P (.ofFile P pw) m).drop 36) ((dump P (.ofFile P pw) m').drop 36) = xor m m' := by
  obtain ⟨ks, hks⟩ := hs
  have h : ∀ m, (dump P (.ofFile P pw) m).drop 36 =
      xor m ((List.range m.length).map (ks (Cocoon.ofFile P pw).key (Cocoon.ofFile P pw).nonce)) := by
    intro m
    rw [← hks (Cocoon.ofFile P pw).key (Cocoon.ofFile P pw).nonce (header (Cocoon.ofFile P pw).nonce m.length) m]
    simp only [dump]
    rw [List.drop_left']
    have hn : (Cocoon.ofFile P pw).nonce.length = 12 := hP.nonce _
    rw [List.length_append, header_length _ _ hn, hP.tag]
  rw [h, h, hl]
  exact xor_cancel _ _ _ (by simp [hl]) (by simp)

/-- C88 (part): files whose seeds the generator separates have different nonces. Within a file nothing helps. -/
theorem c88_seeds_partial (P : Prims) (hP : P.Ok) (pw pw' s t m m' : Bytes) (h : P.gen s ≠ P.gen t) : (dump P (.fromPassword P pw s) m).take 12 ≠ (dump P (.fromPassword P pw' t) m').take 12 := by
  have e : ∀ pw s m, (dump P (.fromPassword P pw s) m).take 12 = P.gen s := by
    intro pw s m
    simp only [dump, header, List.append_assoc, Cocoon.fromPassword]
    exact List.take_left' (hP.nonce _)
  rw [e, e]
  exact h

/-! ## C89 -/

/-- C89 (part): if nobody can forge containers, every block that is read is one that was sealed under the key. -/
theorem c89_blocks_partial (P : Prims) (c : Cocoon) (B n : Nat) (made : Bytes → Prop)
    (hf : ∀ nonce a ct tag m, P.decrypt c.key nonce a ct tag = some m → made m) (b : Bytes) :
    ∀ x ∈ (readBlocks P c B n b).1, ∃ m, made m ∧ x = pad B m := by
  induction n generalizing b with
  | zero => simp [readBlocks]
  | succ n ih =>
    unfold readBlocks
    split
    · simp
    · simp
    · simp
    · rename_i m rest hp
      split
      · simp
      · split
        · simp
        · intro x hx
          simp only [List.mem_cons] at hx
          rcases hx with rfl | hx
          · refine ⟨m, ?_, rfl⟩
            unfold parse at hp
            simp only at hp
            split at hp
            · cases hp
            · split at hp
              · cases hp
              · split at hp
                · cases hp
                · split at hp
                  · cases hp
                  · split at hp
                    · cases hp
                    · rename_i hu
                      cases hp
                      exact hf _ _ _ _ _ hu
          · exact ih rest x hx

/-- C89 fails for the code: blocks are not bound to their file or place. For two saved byte buffers of the same
length, the first blocks of one file followed by the other blocks of the second load as a mixture of both. -/
theorem c89_splice_violated (P : Prims) (hP : P.Ok) (pw x y : Bytes) (hl : x.length = y.length)
    (hx : x.length < 2 ^ 64) (k : Nat) :
    let vx : Sch.bytes.Val := ⟨x, hx⟩
    let vy : Sch.bytes.Val := ⟨y, hl ▸ hx⟩
    let fx := (save SIZE .bytes vx).map (dump P (.ofFile P pw))
    let fy := (save SIZE .bytes vy).map (dump P (.ofFile P pw))
    saveFile P pw SIZE .bytes vx = fx.flatten ∧ saveFile P pw SIZE .bytes vy = fy.flatten ∧
    ∃ z : Sch.bytes.Val, loadFile P pw SIZE .bytes ((fx.take k ++ fy.drop k).flatten) = .ok z ∧
      z.1 = x.take (k * SIZE - 8) ++ y.drop (k * SIZE - 8) := by
  have h0 : 0 < SIZE := by decide
  simp only
  refine ⟨by simp [saveFile, List.flatMap], by simp [saveFile, List.flatMap], ?_⟩
  have hyl : y.length < 2 ^ 64 := hl ▸ hx
  obtain ⟨hbx, zx, hzx, hcx⟩ := save_stores SIZE h0 .bytes ⟨x, hx⟩ (by simp [BareUnit])
  obtain ⟨hby, zy, hzy, hcy⟩ := save_stores SIZE h0 .bytes ⟨y, hyl⟩ (by simp [BareUnit])
  generalize save SIZE .bytes ⟨x, hx⟩ = bx at hbx hcx
  generalize save SIZE .bytes ⟨y, hyl⟩ = bY at hby hcy
  have hlen : ∀ l : List Bytes, (∀ x ∈ l, x.length = SIZE) → l.flatten.length = l.length * SIZE := by
    intro l hl
    induction l with
    | nil => simp
    | cons x xs ih =>
      rw [List.flatten_cons, List.length_append, hl x (by simp), ih (fun y hy => hl y (by simp [hy])),
        List.length_cons, Nat.succ_mul]
      omega
  have htake : ∀ (l : List Bytes) (k : Nat), (∀ x ∈ l, x.length = SIZE) →
      (l.take k).flatten = l.flatten.take (k * SIZE) ∧ (l.drop k).flatten = l.flatten.drop (k * SIZE) := by
    intro l
    induction l with
    | nil => intro k _; simp
    | cons x xs ih =>
      intro k hl
      rcases k with _ | k
      · simp
      · obtain ⟨h1, h2⟩ := ih k (fun y hy => hl y (by simp [hy]))
        have hxl := hl x (by simp)
        simp only [List.take_succ_cons, List.drop_succ_cons, List.flatten_cons, h1, h2]
        have e : (k + 1) * SIZE = x.length + k * SIZE := by rw [hxl, Nat.succ_mul]; omega
        rw [e, List.take_length_add_append, List.drop_length_add_append]
        exact ⟨rfl, rfl⟩
  -- the spliced file holds the blocks of the mixture
  have hfile : (List.take k (bx.map (dump P (.ofFile P pw))) ++ List.drop k (bY.map (dump P (.ofFile P pw)))).flatten =
      (bx.take k ++ bY.drop k).flatMap (dump P (.ofFile P pw)) := by
    rw [List.flatMap, List.map_append, List.map_take, List.map_drop]
  have hbl : ∀ b ∈ bx.take k ++ bY.drop k, b.length = SIZE := by
    intro b hb
    rcases List.mem_append.1 hb with hb | hb
    · exact hbx b (List.mem_of_mem_take hb)
    · exact hby b (List.mem_of_mem_drop hb)
  have hzl : (x.take (k * SIZE - 8) ++ y.drop (k * SIZE - 8)).length = x.length := by
    simp only [List.length_append, List.length_take, List.length_drop]; omega
  have hzz : zx = zy := by
    have h1 := congrArg List.length hcx
    have h2 := congrArg List.length hcy
    rw [hlen _ hbx] at h1
    rw [hlen _ hby] at h2
    simp only [enc, List.length_append, toLE_length, List.length_replicate, hl] at h1 h2
    have : bx.length = bY.length := by
      rcases Nat.lt_trichotomy bx.length bY.length with h | h | h
      · have : (bx.length + 1) * SIZE ≤ bY.length * SIZE := Nat.mul_le_mul_right _ h
        rw [Nat.succ_mul] at this; omega
      · exact h
      · have : (bY.length + 1) * SIZE ≤ bx.length * SIZE := Nat.mul_le_mul_right _ h
        rw [Nat.succ_mul] at this; omega
    rw [this] at h1; omega
  subst hzz
  have hmix : (bx.take k ++ bY.drop k).flatten =
      enc .bytes ⟨x.take (k * SIZE - 8) ++ y.drop (k * SIZE - 8), by rw [hzl]; exact hx⟩ ++ List.replicate zx 0 := by
    rw [List.flatten_append, (htake bx k hbx).1, (htake bY k hby).2, hcx, hcy]
    simp only [enc, hzl]
    rcases Nat.eq_zero_or_pos k with rfl | hk
    · simp [hl]
    · have hk8 : 8 ≤ k * SIZE := by
        have : 1 * SIZE ≤ k * SIZE := Nat.mul_le_mul_right _ hk
        have h8 : 8 ≤ SIZE := by decide
        omega
      obtain ⟨j, hj⟩ : ∃ j, k * SIZE = 8 + j := ⟨k * SIZE - 8, by omega⟩
      rw [hj, Nat.add_sub_cancel_left]
      have t8 : ∀ n, (toLE 8 n).length = 8 := fun n => toLE_length 8 n
      have e1 : ∀ (n : Nat) (l : Bytes), (toLE 8 n ++ l).take (8 + j) = toLE 8 n ++ l.take j := by
        intro n l
        have := List.take_length_add_append (l₁ := toLE 8 n) (l₂ := l) j
        rwa [t8] at this
      have e2 : ∀ (n : Nat) (l : Bytes), (toLE 8 n ++ l).drop (8 + j) = l.drop j := by
        intro n l
        have := List.drop_length_add_append (l₁ := toLE 8 n) (l₂ := l) j
        rwa [t8] at this
      rw [List.append_assoc, List.append_assoc, e1, e2]
      simp only [List.append_assoc]
      congr 1
      rcases Nat.le_total j x.length with hjl | hjl
      · rw [List.take_append_of_le_length hjl, List.drop_append_of_le_length (by omega)]
      · rw [List.take_append, List.drop_append, List.drop_eq_nil_of_le (by omega : y.length ≤ j),
          List.take_of_length_le hjl]
        simp only [List.nil_append]
        rw [← hl, List.append_assoc, List.take_append_drop]
  refine ⟨⟨x.take (k * SIZE - 8) ++ y.drop (k * SIZE - 8), by rw [hzl]; exact hx⟩, ?_, rfl⟩
  rw [hfile]
  unfold loadFile
  rw [blocks_dump P hP pw SIZE h0 (by decide) _ hbl]
  have hload : load .bytes (bx.take k ++ bY.drop k) =
      .ok ⟨x.take (k * SIZE - 8) ++ y.drop (k * SIZE - 8), by rw [hzl]; exact hx⟩ := by
    refine load_of_rest .bytes (by simp [Sch.Wf]) _ _ (List.replicate zx 0) ?_
    exact hmix
  simp only [hload]

/-- C89 fails for the code: a damaged length crashes the program, whatever the password. -/
theorem c89_panic_violated (P : Prims) (pw : Bytes) (B : Nat) (s : Sch) (nonce tag rest : Bytes) (len : Nat)
    (hn : nonce.length = 12) (ht : tag.length = 16) (hl : 2 ^ 63 ≤ len) (hl' : len < 2 ^ 64)
    (he : load s [] = .error .eof) :
    loadFile P pw B s (header nonce len ++ tag ++ rest) = .stopped .panic := by
  have hh := header_length nonce len hn
  have hp : parse P (.ofFile P pw) (header nonce len ++ tag ++ rest) = .panic := by
    unfold parse
    rw [if_neg (by simp only [List.length_append]; omega), if_neg (by simp only [List.length_append]; omega)]
    have h5 : ((header nonce len ++ tag ++ rest).drop 12).take 8 = (toLE 8 len).reverse := by
      rw [header, List.append_assoc, List.append_assoc, List.drop_left' hn, List.take_left' (by simp [toLE_length])]
    simp only [h5, List.reverse_reverse]
    rw [fromLE_toLE 8 len (Nat.lt_of_lt_of_le hl' (by decide)), if_pos hl]
  have hb : blocks P (.ofFile P pw) B (header nonce len ++ tag ++ rest) = ([], .panic) := by
    unfold blocks readBlocks
    rw [hp]
  unfold loadFile
  rw [hb]
  simp only [he]

/-- Reading stops at a container that does not open. -/
theorem readBlocks_damaged (P : Prims) (hP : P.Ok) (c : Cocoon) (hc : c.nonce.length = 12) (B : Nat) (hB : 0 < B)
    (hB' : B < 2 ^ 63) (l : List Bytes) (hl : ∀ x ∈ l, x.length = B) (b : Bytes) (hb : parse P c b = .cryptography)
    (n : Nat) (hn : (l.flatMap (dump P c)).length < n) :
    readBlocks P c B n (l.flatMap (dump P c) ++ b) = (l, .cryptography) := by
  induction l generalizing n with
  | nil =>
    rcases n with _ | n
    · simp at hn
    · simp [readBlocks, hb]
  | cons x xs ih =>
    rcases n with _ | n
    · simp at hn
    · have hx := hl x (by simp)
      rw [List.flatMap_cons] at hn ⊢
      rw [List.append_assoc, readBlocks, parse_dump P hP c hc x _ (by omega)]
      have h0 : x.isEmpty = false := by
        rcases x with _ | _
        · simp at hx; omega
        · rfl
      simp only [h0, Bool.false_eq_true, if_false]
      rw [if_neg (by omega), ih (fun y hy => hl y (by simp [hy])) n (by
        rw [List.length_append, dump_length P hP c hc] at hn; omega), pad_full B x hx]

/-- C89 (part): a file in which any container of a saved value is replaced by something that does not authenticate under the
key of the password, whatever follows it, is reported as such and nothing is loaded. -/
theorem c89_damaged_partial (P : Prims) (hP : P.Ok) (pw : Bytes) (s : Sch) (hs : s.Wf) (v : s.Val)
    (hv : ¬ BareUnit s v) (k : Nat) (hk : k < (save SIZE s v).length) (nonce tag ct rest : Bytes)
    (hn : nonce.length = 12) (ht : tag.length = 16) (hl : ct.length < 2 ^ 63)
    (hd : P.decrypt (P.kdf (List.replicate 32 0) pw) nonce (nonce ++ (toLE 8 ct.length).reverse) ct tag = none) :
    loadFile P pw SIZE s (((save SIZE s v).take k).flatMap (dump P (.ofFile P pw)) ++
      (nonce ++ (toLE 8 ct.length).reverse ++ tag ++ ct ++ rest)) = .stopped .cryptography := by
  have h0 : 0 < SIZE := by decide
  have hh : (nonce ++ (toLE 8 ct.length).reverse).length = 20 := header_length nonce ct.length hn
  generalize hhd : nonce ++ (toLE 8 ct.length).reverse = h at hh hd ⊢
  have hp : parse P (.ofFile P pw) (h ++ tag ++ ct ++ rest) = .cryptography := by
    unfold parse
    rw [if_neg (by simp only [List.length_append]; omega), if_neg (by simp only [List.length_append]; omega)]
    have e0 : h ++ tag ++ ct ++ rest = h ++ (tag ++ (ct ++ rest)) := by simp
    have e1 : (h ++ tag ++ ct ++ rest).take 20 = h := by rw [e0, List.take_left' hh]
    have e2 : (h ++ tag ++ ct ++ rest).take 12 = nonce := by
      rw [e0, ← hhd, List.append_assoc, List.take_left' hn]
    have e3 : ((h ++ tag ++ ct ++ rest).drop 12).take 8 = (toLE 8 ct.length).reverse := by
      rw [e0, ← hhd, List.append_assoc, List.drop_left' hn, List.take_left' (by simp [toLE_length])]
    have e4 : (h ++ tag ++ ct ++ rest).drop 20 = tag ++ (ct ++ rest) := by rw [e0, List.drop_left' hh]
    have e5 : (h ++ tag ++ ct ++ rest).drop 36 = ct ++ rest := by
      have : (h ++ tag ++ ct ++ rest).drop 36 = ((h ++ tag ++ ct ++ rest).drop 20).drop 16 := by rw [List.drop_drop]
      rw [this, e4, List.drop_left' ht]
    simp only [e1, e2, e3, e4, e5, List.reverse_reverse]
    rw [fromLE_toLE 8 ct.length (Nat.lt_trans hl (by decide)), if_neg (by omega),
      if_neg (by simp only [List.length_append]; omega), List.take_left' ht, List.take_left' rfl]
    simp only [Cocoon.ofFile, Cocoon.fromPassword, hd]
  have hb := readBlocks_damaged P hP (.ofFile P pw) (hP.nonce _) SIZE h0 (by decide) ((save SIZE s v).take k)
    (fun x hx => save_blocks SIZE h0 s v x (List.mem_of_mem_take hx)) _ hp
    ((((save SIZE s v).take k).flatMap (dump P (.ofFile P pw)) ++ (h ++ tag ++ ct ++ rest)).length + 1)
    (by simp only [List.length_append]; omega)
  unfold loadFile blocks
  rw [hb]
  simp only [(c90_violated SIZE h0 s hs v v hv k hk).2]

/-- C89 (part): a file saved under one password is refused under another one whose key opens nothing of the first. -/
theorem c89_wrong_password_partial (P : Prims) (hP : P.Ok) (pw pw' : Bytes) (s : Sch) (hs : s.Wf) (v : s.Val)
    (hv : ¬ BareUnit s v) (hne : save SIZE s v ≠ [])
    (hd : ∀ n a m, P.decrypt (P.kdf (List.replicate 32 0) pw') n a
      (P.encrypt (P.kdf (List.replicate 32 0) pw) n a m).1 (P.encrypt (P.kdf (List.replicate 32 0) pw) n a m).2 = none) :
    loadFile P pw' SIZE s (saveFile P pw SIZE s v) = .stopped .cryptography := by
  have hbl := save_blocks SIZE (by decide) s v
  have h1 : 0 < (save SIZE s v).length := List.length_pos_iff.2 hne
  have hm := c89_damaged_partial P hP pw' s hs v hv 0 h1
  unfold saveFile
  generalize save SIZE s v = l at hne hbl hm
  cases l with
  | nil => exact absurd rfl hne
  | cons m l =>
    have hx := hbl m List.mem_cons_self
    have hlen := hP.length (P.kdf (List.replicate 32 0) pw) (P.gen (List.replicate 32 0))
      (header (P.gen (List.replicate 32 0)) m.length) m
    have := hm (P.gen (List.replicate 32 0))
      (P.encrypt (P.kdf (List.replicate 32 0) pw) (P.gen (List.replicate 32 0))
        (header (P.gen (List.replicate 32 0)) m.length) m).2
      (P.encrypt (P.kdf (List.replicate 32 0) pw) (P.gen (List.replicate 32 0))
        (header (P.gen (List.replicate 32 0)) m.length) m).1
      (l.flatMap (dump P (.ofFile P pw))) (hP.nonce _) (hP.tag _ _ _ _)
      (by rw [hlen, hx]; decide) (by
        rw [hlen]
        exact hd _ _ _)
    rw [hlen] at this
    exact this

/-! ## Examples -/

/-- A toy cipher: exclusive or with a constant, and a tag that is the first byte of the nonce and of the key. -/
def toy : Prims where
  encrypt k n _ m := (m.map (· ^^^ 0x55), k.headD 0 :: n.headD 0 :: List.replicate 14 9)
  decrypt k n _ ct tag := if tag = k.headD 0 :: n.headD 0 :: List.replicate 14 9 then some (ct.map (· ^^^ 0x55)) else none
  kdf s p := s ++ p
  gen s := s.take 12 ++ List.replicate (12 - s.length) 0

theorem toy_ok : toy.Ok where
  correct k n a m := by
    simp only [toy, if_true, List.map_map]
    congr 1
    conv => rhs; rw [← List.map_id m]
    apply List.map_congr_left
    intro x _
    simp [UInt8.xor_assoc]
  length k n a m := by simp [toy]
  tag k n a m := by simp [toy]
  nonce s := by simp [toy]; omega

example : (dump toy (.ofFile toy [1, 2, 3]) [7, 8]).length = 38 ∧
    ((parse toy (.ofFile toy [1, 2, 3]) (dump toy (.ofFile toy [1, 2, 3]) [7, 8] ++ [1])) matches .ok [7, 8] [1]) = true := by
  decide +kernel

/-- With a key that starts with the password, no file of the one password opens with the other. -/
example : ∀ n a m, ({toy with kdf := fun s p => p ++ s} : Prims).decrypt ([2, 3] ++ List.replicate 32 0) n a
    (toy.encrypt ([1, 2] ++ List.replicate 32 0) n a m).1 (toy.encrypt ([1, 2] ++ List.replicate 32 0) n a m).2 = none := by
  intro n a m
  simp [toy]

example : toy.gen [1] ≠ toy.gen [2] := by decide

/-- A cipher that accepts a single message. -/
example : ∀ nonce a ct tag m : Bytes, ({toy with decrypt := fun _ _ _ ct _ => if ct = [1, 2] then some [3, 4] else none} :
    Prims).decrypt [] nonce a ct tag = some m → m = [3, 4] := by
  intro nonce a ct tag m h
  simp only at h
  split at h
  · cases h; rfl
  · cases h

example : load (.bits 2) [] = .error .eof ∧ (loadFile toy [1] 8 (.bits 2) (header (List.replicate 12 0) (2 ^ 63) ++
    List.replicate 16 0) matches .stopped .panic) = true := by
  refine ⟨rfl, by decide +kernel⟩

/-- Two files of two blocks with 8-byte blocks, spliced. -/
example : (save 8 .bytes ⟨[1, 2, 3], by decide⟩) = [[3, 0, 0, 0, 0, 0, 0, 0], [1, 2, 3, 0, 0, 0, 0, 0]] := by
  decide +kernel

example : IsStream toy := by
  refine ⟨fun _ _ _ => 0x55, fun k n a m => ?_⟩
  simp only [toy, xor]
  induction m with
  | nil => rfl
  | cons x xs ih =>
    rw [List.map_cons, List.length_cons, List.range_succ_eq_map, List.map_cons, List.zipWith_cons_cons, ih, List.map_map]
    rfl

end Verif.Fs
