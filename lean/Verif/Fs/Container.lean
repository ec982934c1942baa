import Verif.Fs.FileProps

/-!
# C126: password containers

`Cocoon` of `forks/cocoon/src/{lib,format,header,kdf}.rs`, and the ways of `MiniCocoon` (`mini.rs`) that files do not use.

Ciphers, key derivation and the seeded generator are parameters. Lengths are those of a 64 bit machine, where `TooLarge`
cannot occur. The capacity of a vector is taken to be what was asked for. Running out of memory is not modelled.
-/

namespace Verif.Fs

open Verif.Codec (Bytes toLE fromLE toLE_length fromLE_toLE)

namespace Container

/-! ## Model -/

/-- `CocoonCipher`, header.rs:18-25. -/
inductive Cipher
  | chacha
  | aes
  deriving DecidableEq

/-- `CocoonConfig`, header.rs:52-62; there is one key derivation function, in two variants. -/
structure Config where
  cipher : Cipher
  weak : Bool
  deriving DecidableEq

/-- `kdf_iterations`, header.rs:84-97. -/
def Config.iterations (c : Config) : Nat := if c.weak then 10000 else 100000

/-- `CocoonConfig::serialize`, header.rs:109-116. -/
def Config.bytes (c : Config) : Bytes :=
  [match c.cipher with | .chacha => 1 | .aes => 2, 1, if c.weak then 2 else 1, 0]

/-- `CocoonConfig::deserialize`, header.rs:118-134, of the four bytes; the last one is ignored. -/
def Config.read (a k v : UInt8) : Option Config :=
  match (if a = 1 then some Cipher.chacha else if a = 2 then some Cipher.aes else none) with
  | none => none
  | some cipher =>
    if k = 1 then
      if v = 2 then some ⟨cipher, true⟩ else if v = 1 then some ⟨cipher, false⟩ else none
    else none

/-- `CocoonHeader`, header.rs:147-177. -/
structure Header where
  config : Config
  salt : Bytes
  nonce : Bytes
  length : Nat

/-- `serialize_into`, header.rs:217-227. -/
def Header.bytes (h : Header) : Bytes :=
  [0x7f, 0xc0, 10, 1] ++ h.config.bytes ++ h.salt ++ h.nonce ++ (toLE 8 h.length).reverse

/-- `CocoonHeader::deserialize`, header.rs:229-263; every failure is `UnrecognizedFormat`. -/
def Header.read (b : Bytes) : Option Header :=
  if b.length < 44 then none
  else if b.take 3 ≠ [0x7f, 0xc0, 10] then none
  else
    match (b.drop 3).take 4 with
    | [v, a, k, w] =>
      if v = 1 then
        match Config.read a k w with
        | none => none
        | some config =>
          some { config := config, salt := (b.drop 8).take 16, nonce := (b.drop 24).take 12,
                 length := fromLE ((b.drop 36).take 8).reverse }
      else none
    | _ => none

/-- Ciphers, key derivation and the generator: what `StdRng::from_seed` fills a salt and a nonce with. -/
structure Prims where
  encrypt : Cipher → Bytes → Bytes → Bytes → Bytes → Bytes × Bytes
  decrypt : Cipher → Bytes → Bytes → Bytes → Bytes → Bytes → Option Bytes
  /-- `kdf::pbkdf2::derive`, kdf.rs:14-28: iterations, salt, password. -/
  kdf : Nat → Bytes → Bytes → Bytes
  gen : Bytes → Bytes × Bytes

structure Prims.Ok (P : Prims) : Prop where
  correct : ∀ c k n a m, P.decrypt c k n a (P.encrypt c k n a m).1 (P.encrypt c k n a m).2 = some m
  length : ∀ c k n a m, (P.encrypt c k n a m).1.length = m.length
  tag : ∀ c k n a m, (P.encrypt c k n a m).2.length = 16
  salt : ∀ s, (P.gen s).1.length = 16
  nonce : ∀ s, (P.gen s).2.length = 12

/-- `RngVariant`, lib.rs:289-294: a generator of the thread, of which every clone takes the next bytes, or a seeded one, of which
a clone is a copy. -/
inductive Rng
  | thread (next : Nat → Bytes × Bytes)
  | std (seed : Bytes)

/-- `Cocoon<Creation>`, lib.rs:419-426. -/
structure Cocoon where
  password : Bytes
  rng : Rng
  config : Config

inductive Err
  | unrecognized
  | cryptography
  | tooShort
  deriving DecidableEq

/-- Results; a panic is one. -/
inductive Out (α : Type)
  | ok (a : α)
  | err (e : Err)
  | panic

/-- The salt and the nonce of a call of `encrypt`, lib.rs:718-734, and the generator afterwards. -/
def Rng.draw (P : Prims) : Rng → (Bytes × Bytes) × Rng
  | .thread next => (next 0, .thread fun n => next (n + 1))
  | .std seed => (P.gen seed, .std seed)

/-- `encrypt`, lib.rs:717-762: the prefix and the data in place. -/
def Cocoon.encrypt (P : Prims) (c : Cocoon) (data : Bytes) : (Bytes × Bytes) × Cocoon :=
  let d := c.rng.draw P
  let h : Header := ⟨c.config, d.1.1, d.1.2, data.length⟩
  let key := P.kdf c.config.iterations d.1.1 c.password
  let s := P.encrypt c.config.cipher key d.1.2 h.bytes data
  ((h.bytes ++ s.2, s.1), { c with rng := d.2 })

/-- `wrap`, lib.rs:639-655. -/
def Cocoon.wrap (P : Prims) (c : Cocoon) (data : Bytes) : Bytes × Cocoon :=
  let r := c.encrypt P data
  (r.1.1 ++ r.1.2, r.2)

/-- `dump`, lib.rs:683-691, to a writer that takes everything. -/
def Cocoon.dump (P : Prims) (c : Cocoon) (data written : Bytes) : Bytes × Cocoon :=
  let r := c.encrypt P data
  ((written ++ r.1.1) ++ r.1.2, r.2)

/-- `FormatPrefix`, format.rs:16-22, 39-47: the header and the raw bytes. -/
structure Prefix where
  header : Header
  raw : Bytes

/-- `FormatPrefix::deserialize`, format.rs:49-67. -/
def Prefix.read (b : Bytes) : Option Prefix :=
  match Header.read b with
  | none => none
  | some h => if b.length < 60 then none else some ⟨h, b.take 60⟩

/-- `decrypt_parsed`, lib.rs:877-915: the data in place. -/
def decryptParsed (P : Prims) (password data : Bytes) (p : Prefix) : Out Bytes :=
  if data.length < p.header.length then .err .tooShort
  else
    let key := P.kdf p.header.config.iterations p.header.salt password
    match P.decrypt p.header.config.cipher key p.header.nonce (p.raw.take 44) (data.take p.header.length)
      ((p.raw.drop 44).take 16) with
    | none => .err .cryptography
    | some m => .ok (m ++ data.drop p.header.length)

/-- `decrypt`, lib.rs:871-875: what is returned, and the data afterwards. -/
def decrypt (P : Prims) (password data prefix_ : Bytes) : Out Unit × Bytes :=
  match Prefix.read prefix_ with
  | none => (.err .unrecognized, data)
  | some p =>
    match decryptParsed P password data p with
    | .ok m => (.ok (), m)
    | .err e => (.err e, data)
    | .panic => (.panic, data)

/-- `unwrap`, lib.rs:788-803. The sum in the comparison overflows for lengths from `2^64 - 60` on (a panic in debug builds; in
release builds it wraps around, and `with_capacity` panics). -/
def unwrap (P : Prims) (password container : Bytes) : Out Bytes :=
  match Prefix.read container with
  | none => .err .unrecognized
  | some p =>
    if 2 ^ 64 ≤ 60 + p.header.length then .panic
    else if container.length < 60 + p.header.length then .err .tooShort
    else decryptParsed P password ((container.drop 60).take p.header.length) p

/-- `parse`, lib.rs:833-845 with `deserialize_from`, format.rs:70-83: also the rest of the reader. `with_capacity` panics for
lengths above `isize::MAX`. The end of the file is `TooShort`, error.rs:22-29. -/
def parse (P : Prims) (password b : Bytes) : Out (Bytes × Bytes) :=
  if b.length < 44 then .err .tooShort
  else
    match Header.read (b.take 44) with
    | none => .err .unrecognized
    | some h =>
      if b.length < 60 then .err .tooShort
      else if 2 ^ 63 ≤ h.length then .panic
      else if b.length < 60 + h.length then .err .tooShort
      else
        match decryptParsed P password ((b.drop 60).take h.length) ⟨h, b.take 60⟩ with
        | .ok m => .ok (m, b.drop (60 + h.length))
        | .err e => .err e
        | .panic => .panic

/-- `MiniCocoon::wrap`, mini.rs:184-200. -/
def miniWrap (P : Fs.Prims) (c : Fs.Cocoon) (m : Bytes) : Bytes :=
  let h := Fs.header c.nonce m.length
  let s := P.encrypt c.key c.nonce h m
  (h ++ s.2) ++ s.1

/-- `MiniCocoon::unwrap`, mini.rs:316-330, with `deserialize`, format.rs:126-141. -/
def miniUnwrap (P : Fs.Prims) (c : Fs.Cocoon) (b : Bytes) : Out Bytes :=
  if b.length < 20 then .err .unrecognized
  else if b.length < 36 then .err .unrecognized
  else
    let len := fromLE ((b.drop 12).take 8).reverse
    if 2 ^ 64 ≤ 36 + len then .panic
    else if b.length < 36 + len then .err .tooShort
    else
      match P.decrypt c.key (b.take 12) (b.take 20) ((b.drop 36).take len) ((b.drop 20).take 16) with
      | none => .err .cryptography
      | some m => .ok m

/-! ## Specification -/

/-- Something that was put into a container with a password. -/
structure Sealed where
  config : Config
  salt : Bytes
  nonce : Bytes
  data : Bytes

structure Sealed.Ok (x : Sealed) : Prop where
  salt : x.salt.length = 16
  nonce : x.nonce.length = 12
  data : x.data.length < 2 ^ 63

/-- The associated data of its cipher. -/
def Sealed.head (x : Sealed) : Bytes := (Header.mk x.config x.salt x.nonce x.data.length).bytes

/-- Its ciphertext and tag. -/
def Sealed.cipher (P : Prims) (password : Bytes) (x : Sealed) : Bytes × Bytes :=
  P.encrypt x.config.cipher (P.kdf x.config.iterations x.salt password) x.nonce x.head x.data

/-- The container. -/
def Sealed.container (P : Prims) (password : Bytes) (x : Sealed) : Bytes :=
  x.head ++ (x.cipher P password).2 ++ (x.cipher P password).1

/-- A forgery: something that opens under a key made from the password, although it is not the associated data, ciphertext
and tag of anything that was sealed. -/
def Forgery (P : Prims) (password : Bytes) (made : List Sealed) : Prop :=
  ∃ cipher iterations salt nonce aad ct tag m,
    P.decrypt cipher (P.kdf iterations salt password) nonce aad ct tag = some m ∧
    ∀ x ∈ made, ¬ (x.head = aad ∧ x.cipher P password = (ct, tag))

/-! ## Proofs -/

theorem config_read (c : Config) : Config.read (c.bytes.getD 0 0) (c.bytes.getD 1 0) (c.bytes.getD 2 0) = some c := by
  obtain ⟨a, b⟩ := c
  cases a <;> cases b <;> decide

theorem config_length (c : Config) : c.bytes.length = 4 := rfl

theorem head_length (h : Header) (hs : h.salt.length = 16) (hn : h.nonce.length = 12) : h.bytes.length = 44 := by
  simp [Header.bytes, config_length, toLE_length, hs, hn]

/-- Reading depends on the first 44 bytes only. -/
theorem read_take (b : Bytes) (h : 44 ≤ b.length) : Header.read (b.take 44) = Header.read b := by
  have e1 : (b.take 44).length = 44 := by simp [h]
  have e2 : (b.take 44).take 3 = b.take 3 := by rw [List.take_take]; rfl
  have e3 : ((b.take 44).drop 3).take 4 = (b.drop 3).take 4 := by rw [List.drop_take, List.take_take]; rfl
  have e4 : ((b.take 44).drop 8).take 16 = (b.drop 8).take 16 := by rw [List.drop_take, List.take_take]; rfl
  have e5 : ((b.take 44).drop 24).take 12 = (b.drop 24).take 12 := by rw [List.drop_take, List.take_take]; rfl
  have e6 : ((b.take 44).drop 36).take 8 = (b.drop 36).take 8 := by rw [List.drop_take, List.take_take]; rfl
  unfold Header.read
  rw [e2, e3, e4, e5, e6, if_neg (by omega : ¬ (b.take 44).length < 44), if_neg (by omega : ¬ b.length < 44)]

theorem read_bytes (h : Header) (hs : h.salt.length = 16) (hn : h.nonce.length = 12) (hl : h.length < 2 ^ 64) (r : Bytes) :
    Header.read (h.bytes ++ r) = some h := by
  have hlen := head_length h hs hn
  obtain ⟨c, salt, nonce, len⟩ := h
  simp only at hs hn hl
  have hb : (⟨c, salt, nonce, len⟩ : Header).bytes ++ r =
      [0x7f, 0xc0, 10] ++ ([1, c.bytes.getD 0 0, c.bytes.getD 1 0, c.bytes.getD 2 0] ++
        ([0] ++ (salt ++ (nonce ++ ((toLE 8 len).reverse ++ r))))) := by
    simp [Header.bytes, Config.bytes]
  have hb8 : (⟨c, salt, nonce, len⟩ : Header).bytes ++ r =
      ([0x7f, 0xc0, 10] ++ ([1, c.bytes.getD 0 0, c.bytes.getD 1 0, c.bytes.getD 2 0] ++ [0])) ++
        (salt ++ (nonce ++ ((toLE 8 len).reverse ++ r))) := by
    rw [hb]; simp
  have hlen' : ¬ ((⟨c, salt, nonce, len⟩ : Header).bytes ++ r).length < 44 := by
    rw [List.length_append, hlen]; omega
  generalize hX : (⟨c, salt, nonce, len⟩ : Header).bytes ++ r = X at hb hb8 hlen'
  have e1 : X.take 3 = [0x7f, 0xc0, 10] := by rw [hb]; rfl
  have e2 : (X.drop 3).take 4 = [1, c.bytes.getD 0 0, c.bytes.getD 1 0, c.bytes.getD 2 0] := by rw [hb]; rfl
  have e8 : X.drop 8 = salt ++ (nonce ++ ((toLE 8 len).reverse ++ r)) := by rw [hb8]; rfl
  have e24 : X.drop 24 = nonce ++ ((toLE 8 len).reverse ++ r) := by
    rw [show 24 = 8 + 16 from rfl, ← List.drop_drop, e8, List.drop_left' hs]
  have e36 : X.drop 36 = (toLE 8 len).reverse ++ r := by
    rw [show 36 = 24 + 12 from rfl, ← List.drop_drop, e24, List.drop_left' hn]
  unfold Header.read
  rw [if_neg hlen', e1, if_neg (by simp), e2, e8, e24, e36]
  simp only [if_true, config_read]
  rw [List.take_left' hs, List.take_left' hn, List.take_left' (by simp [toLE_length]), List.reverse_reverse,
    fromLE_toLE 8 len hl]

theorem read_length (b : Bytes) (h : Header) (hr : Header.read b = some h) : 44 ≤ b.length := by
  unfold Header.read at hr
  split at hr
  · cases hr
  · omega

theorem fromLE_lt (b : Bytes) : fromLE b < 256 ^ b.length := by
  induction b with
  | nil => decide
  | cons x b ih =>
    have := x.toNat_lt
    simp only [fromLE, List.length_cons, Nat.pow_succ]
    omega

/-- The parts of a container that was made. -/
theorem container_parts (P : Prims) (hP : P.Ok) (pw : Bytes) (x : Sealed) (hx : x.Ok) (r : Bytes) :
    let b := x.container P pw ++ r
    b.take 44 = x.head ∧ (b.drop 44).take 16 = (x.cipher P pw).2 ∧ b.drop 60 = (x.cipher P pw).1 ++ r ∧
    b.length = 60 + x.data.length + r.length ∧
    Header.read b = some ⟨x.config, x.salt, x.nonce, x.data.length⟩ := by
  intro b
  have hh : x.head.length = 44 := head_length _ hx.salt hx.nonce
  have ht : (x.cipher P pw).2.length = 16 := hP.tag _ _ _ _ _
  have hc : (x.cipher P pw).1.length = x.data.length := hP.length _ _ _ _ _
  have hb : b = x.head ++ ((x.cipher P pw).2 ++ ((x.cipher P pw).1 ++ r)) := by
    simp [b, Sealed.container]
  have h44 : b.drop 44 = (x.cipher P pw).2 ++ ((x.cipher P pw).1 ++ r) := by rw [hb, List.drop_left' hh]
  refine ⟨by rw [hb, List.take_left' hh], by rw [h44, List.take_left' ht], ?_, ?_, ?_⟩
  · rw [show 60 = 44 + 16 from rfl, ← List.drop_drop, h44, List.drop_left' ht]
  · rw [hb]; simp only [List.length_append, hh, ht, hc]; omega
  · rw [hb]
    exact read_bytes _ hx.salt hx.nonce (Nat.lt_trans hx.data (by decide)) _

theorem unwrap_made (P : Prims) (hP : P.Ok) (pw : Bytes) (x : Sealed) (hx : x.Ok) (r : Bytes) :
    unwrap P pw (x.container P pw ++ r) = .ok x.data := by
  obtain ⟨h1, h2, h3, h4, h5⟩ := container_parts P hP pw x hx r
  have hd := hx.data
  have hc : (x.cipher P pw).1.length = x.data.length := hP.length _ _ _ _ _
  generalize x.container P pw ++ r = b at *
  have e1 : (b.take 60).take 44 = x.head := by rw [List.take_take, ← h1]; rfl
  have e2 : ((b.take 60).drop 44).take 16 = (x.cipher P pw).2 := by
    rw [List.drop_take, List.take_take, ← h2]; rfl
  unfold unwrap Prefix.read
  rw [h5]
  simp only
  rw [if_neg (by omega)]
  simp only
  rw [if_neg (by omega), if_neg (by omega), h3, List.take_left' hc]
  unfold decryptParsed
  simp only
  rw [if_neg (by omega), e1, e2, ← hc, List.take_length, List.drop_length]
  have := hP.correct x.config.cipher (P.kdf x.config.iterations x.salt pw) x.nonce x.head x.data
  simp only [Sealed.cipher] at *
  rw [this]
  simp

/-! ## Theorems -/

/-- What `wrap` and `dump` put into the container for salt and nonce that they draw. -/
theorem wrap_eq (P : Prims) (c : Cocoon) (data : Bytes) :
    (c.wrap P data).1 = Sealed.container P c.password ⟨c.config, (c.rng.draw P).1.1, (c.rng.draw P).1.2, data⟩ := rfl

/-- **C126, round trip.** What is wrapped, dumped or encrypted with a password is what unwrapping, parsing or decrypting with
the password returns, for both ciphers and both strengths, whatever follows the container; readers stop exactly at its
end; and the three ways of making a container make the same one. -/
theorem c126_roundtrip (P : Prims) (hP : P.Ok) (c : Cocoon) (data rest : Bytes)
    (hr : (c.rng.draw P).1.1.length = 16 ∧ (c.rng.draw P).1.2.length = 12) (hd : data.length < 2 ^ 63) :
    (∀ written, (c.dump P data written).1 = written ++ (c.wrap P data).1) ∧
    (c.wrap P data).1 = (c.encrypt P data).1.1 ++ (c.encrypt P data).1.2 ∧
    unwrap P c.password ((c.wrap P data).1 ++ rest) = .ok data ∧
    parse P c.password ((c.wrap P data).1 ++ rest) = .ok (data, rest) ∧
    decrypt P c.password ((c.encrypt P data).1.2 ++ rest) (c.encrypt P data).1.1 = (.ok (), data ++ rest) := by
  have hx : Sealed.Ok ⟨c.config, (c.rng.draw P).1.1, (c.rng.draw P).1.2, data⟩ := ⟨hr.1, hr.2, hd⟩
  refine ⟨fun w => by simp [Cocoon.dump, Cocoon.wrap], rfl, ?_, ?_, ?_⟩
  · rw [wrap_eq]; exact unwrap_made P hP c.password _ hx rest
  · rw [wrap_eq]
    generalize hs : (⟨c.config, (c.rng.draw P).1.1, (c.rng.draw P).1.2, data⟩ : Sealed) = x at hx
    have hxd : x.data = data := by rw [← hs]
    obtain ⟨h1, h2, h3, h4, h5⟩ := container_parts P hP c.password x hx rest
    have hu := unwrap_made P hP c.password x hx rest
    have hc : (x.cipher P c.password).1.length = x.data.length := hP.length _ _ _ _ _
    generalize x.container P c.password ++ rest = b at *
    unfold unwrap Prefix.read at hu
    rw [h5] at hu
    simp only at hu
    rw [if_neg (by omega)] at hu
    simp only at hu
    rw [hxd] at *
    rw [if_neg (by omega), if_neg (by omega)] at hu
    unfold parse
    rw [if_neg (by omega), read_take b (by omega), h5]
    simp only
    rw [if_neg (by omega), if_neg (by omega), if_neg (by omega), hu]
    simp only
    rw [← List.drop_drop, h3, List.drop_left' hc]
  · obtain ⟨h1, h2, h3, h4, h5⟩ := container_parts P hP c.password _ hx []
    have hc : (Sealed.cipher P c.password ⟨c.config, (c.rng.draw P).1.1, (c.rng.draw P).1.2, data⟩).1.length = data.length :=
      hP.length _ _ _ _ _
    have ht : (Sealed.cipher P c.password ⟨c.config, (c.rng.draw P).1.1, (c.rng.draw P).1.2, data⟩).2.length = 16 :=
      hP.tag _ _ _ _ _
    have hh : (Sealed.head ⟨c.config, (c.rng.draw P).1.1, (c.rng.draw P).1.2, data⟩).length = 44 :=
      head_length _ hx.salt hx.nonce
    have hp : (c.encrypt P data).1.1 = Sealed.head ⟨c.config, (c.rng.draw P).1.1, (c.rng.draw P).1.2, data⟩ ++
      (Sealed.cipher P c.password ⟨c.config, (c.rng.draw P).1.1, (c.rng.draw P).1.2, data⟩).2 := rfl
    have hb : (c.encrypt P data).1.2 =
      (Sealed.cipher P c.password ⟨c.config, (c.rng.draw P).1.1, (c.rng.draw P).1.2, data⟩).1 := rfl
    have hread : Header.read (c.encrypt P data).1.1 = some ⟨c.config, (c.rng.draw P).1.1, (c.rng.draw P).1.2, data.length⟩ := by
      rw [hp]
      exact read_bytes _ hx.salt hx.nonce (Nat.lt_trans hd (by decide)) _
    have hlen : (c.encrypt P data).1.1.length = 60 := by rw [hp, List.length_append, hh, ht]
    have hco := hP.correct c.config.cipher (P.kdf c.config.iterations (c.rng.draw P).1.1 c.password) (c.rng.draw P).1.2
      (Sealed.head ⟨c.config, (c.rng.draw P).1.1, (c.rng.draw P).1.2, data⟩) data
    unfold decrypt Prefix.read
    rw [hread]
    simp only
    rw [if_neg (by omega)]
    simp only
    unfold decryptParsed
    simp only
    rw [if_neg (by rw [List.length_append, hb, hc]; omega)]
    have e0 : ((c.encrypt P data).1.1).take 60 = (c.encrypt P data).1.1 := List.take_of_length_le (by omega)
    have e1 : ((c.encrypt P data).1.1).take 44 = Sealed.head ⟨c.config, (c.rng.draw P).1.1, (c.rng.draw P).1.2, data⟩ := by
      rw [hp, List.take_left' hh]
    have e2 : (((c.encrypt P data).1.1).drop 44).take 16 =
        (Sealed.cipher P c.password ⟨c.config, (c.rng.draw P).1.1, (c.rng.draw P).1.2, data⟩).2 := by
      rw [hp, List.drop_left' hh, ← ht, List.take_length]
    rw [e0, e1, e2, hb, List.take_left' hc, List.drop_left' hc]
    simp only [Sealed.cipher]
    rw [hco]

/-- **C126, the format.** A container is, byte by byte, what the documentation says (header.rs:136-148): magic number, version,
options, salt, nonce and the length of the data in eight bytes, most significant first, followed by tag and data, encrypted
with a key that took a hundred thousand iterations to derive, ten thousand only if the weak variant was asked for and the
options say so. -/
theorem c126_format (P : Prims) (c : Cocoon) (data : Bytes) (hd : data.length < 2 ^ 64) :
    ∃ len head : Bytes,
      len.length = 8 ∧ len.foldl (fun n b => 256 * n + b.toNat) 0 = data.length ∧
      head = 0x7f :: 0xc0 :: 0x0a :: 0x01 :: (if c.config.cipher = .aes then 2 else 1) :: 1 ::
        (if c.config.weak then 2 else 1) :: 0 :: ((c.rng.draw P).1.1 ++ (c.rng.draw P).1.2 ++ len) ∧
      (c.wrap P data).1 =
        head ++
        (P.encrypt c.config.cipher (P.kdf (if c.config.weak then 10 ^ 4 else 10 ^ 5) (c.rng.draw P).1.1 c.password)
          (c.rng.draw P).1.2 head data).2 ++
        (P.encrypt c.config.cipher (P.kdf (if c.config.weak then 10 ^ 4 else 10 ^ 5) (c.rng.draw P).1.1 c.password)
          (c.rng.draw P).1.2 head data).1 := by
  refine ⟨(toLE 8 data.length).reverse, _, by simp [toLE_length], ?_, rfl, ?_⟩
  · rw [List.foldl_reverse]
    have hf : ∀ l : Bytes, l.foldr (fun (b : UInt8) (n : Nat) => 256 * n + b.toNat) 0 = fromLE l := by
      intro l
      induction l with
      | nil => rfl
      | cons b l ih => simp only [List.foldr_cons, ih, fromLE]; omega
    rw [hf, fromLE_toLE _ _ (by simpa using hd)]
  · have hh : (Header.mk c.config (c.rng.draw P).1.1 (c.rng.draw P).1.2 data.length).bytes =
        0x7f :: 0xc0 :: 0x0a :: 0x01 :: (if c.config.cipher = .aes then 2 else 1) :: 1 ::
        (if c.config.weak then 2 else 1) :: 0 :: ((c.rng.draw P).1.1 ++ (c.rng.draw P).1.2 ++ (toLE 8 data.length).reverse) := by
      unfold Header.bytes Config.bytes
      cases c.config.cipher <;> simp
    have hi : c.config.iterations = if c.config.weak then 10 ^ 4 else 10 ^ 5 := rfl
    simp only [Cocoon.wrap, Cocoon.encrypt, hh, hi]

/-- **C126, only what was sealed.** Whatever byte string is presented: if it opens with the password, then either it begins with
a container that was made with the password, unchanged in every bit of its header, tag and data, and what comes out is
what was put in; or the string contains a forgery of the cipher. -/
theorem c126_authentic (P : Prims) (hP : P.Ok) (pw b m : Bytes) (made : List Sealed) (hm : ∀ x ∈ made, x.Ok)
    (h : unwrap P pw b = .ok m) :
    (∃ x ∈ made, m = x.data ∧ x.container P pw <+: b) ∨ Forgery P pw made := by
  classical
  unfold unwrap Prefix.read at h
  cases hr : Header.read b with
  | none => rw [hr] at h; cases h
  | some hd =>
    rw [hr] at h
    simp only at h
    split at h
    · cases h
    · rename_i p hp
      split at hp
      · cases hp
      · rename_i h60
        simp only [Option.some.injEq] at hp
        subst hp
        simp only at h
        split at h
        · cases h
        · split at h
          · cases h
          · rename_i h1 h2
            unfold decryptParsed at h
            simp only at h
            split at h
            · cases h
            · rename_i h3
              have e1 : (b.take 60).take 44 = b.take 44 := by rw [List.take_take]; rfl
              have e2 : ((b.take 60).drop 44).take 16 = (b.drop 44).take 16 := by
                rw [List.drop_take, List.take_take]; rfl
              rw [e1, e2, List.take_take, Nat.min_self, List.drop_take, Nat.sub_self, List.take_zero] at h
              split at h
              · cases h
              · rename_i m' hdec
                simp only [List.append_nil, Out.ok.injEq] at h
                subst h
                by_cases hf : ∃ x ∈ made, x.head = b.take 44 ∧
                    x.cipher P pw = ((b.drop 60).take hd.length, (b.drop 44).take 16)
                · obtain ⟨x, hx, ha, hc⟩ := hf
                  left
                  have hxok := hm x hx
                  have hread : Header.read b = some ⟨x.config, x.salt, x.nonce, x.data.length⟩ := by
                    rw [← read_take b (by omega), ← ha, ← List.append_nil x.head]
                    exact read_bytes _ hxok.salt hxok.nonce (Nat.lt_trans hxok.data (by decide)) []
                  rw [hr] at hread
                  simp only [Option.some.injEq] at hread
                  subst hread
                  refine ⟨x, hx, ?_, ?_⟩
                  · have hco := hP.correct x.config.cipher (P.kdf x.config.iterations x.salt pw) x.nonce x.head x.data
                    have hc' := hc
                    unfold Sealed.cipher at hc'
                    rw [hc'] at hco
                    simp only at hdec
                    rw [← ha] at hdec
                    rw [hdec] at hco
                    injection hco
                  · refine ⟨b.drop (60 + x.data.length), ?_⟩
                    unfold Sealed.container
                    rw [hc, ha]
                    simp only
                    rw [List.append_assoc, List.append_assoc, ← List.drop_drop, List.take_append_drop,
                      show 60 = 44 + 16 from rfl, ← List.drop_drop, List.take_append_drop, List.take_append_drop]
                · right
                  exact ⟨hd.config.cipher, hd.config.iterations, hd.salt, hd.nonce, b.take 44, (b.drop 60).take hd.length,
                    (b.drop 44).take 16, m', hdec, fun x hx hh => hf ⟨x, hx, hh⟩⟩

/-- **C126, all ways of opening agree.** For every byte string: it unwraps iff it parses, to the same data, and iff the part
behind the prefix decrypts in place. -/
theorem c126_agree (P : Prims) (pw b m : Bytes) (hb : b.length < 2 ^ 63) :
    (unwrap P pw b = .ok m ↔ ∃ rest, parse P pw b = .ok (m, rest)) ∧
    (unwrap P pw b = .ok m → ∃ n, decrypt P pw (b.drop 60) (b.take 60) = (.ok (), m ++ (b.drop 60).drop n)) := by
  unfold unwrap parse decrypt Prefix.read
  cases hr : Header.read b with
  | none =>
    simp only
    refine ⟨⟨fun h => by simp at h, ?_⟩, fun h => by simp at h⟩
    rintro ⟨rest, h⟩
    split at h
    · cases h
    · rename_i hl
      rw [read_take b (by omega), hr] at h
      cases h
  | some h =>
    have hl := read_length b h hr
    rw [if_neg (by omega), read_take b hl, hr]
    simp only
    by_cases h60 : b.length < 60
    · simp [h60]
    · rw [if_neg h60, if_neg h60]
      simp only
      by_cases h64 : 2 ^ 64 ≤ 60 + h.length
      · rw [if_pos h64, if_pos (by omega)]
        simp
      · rw [if_neg h64]
        by_cases h63 : 2 ^ 63 ≤ h.length
        · rw [if_pos h63, if_pos (by omega)]
          simp
        · rw [if_neg h63]
          by_cases hs : b.length < 60 + h.length
          · rw [if_pos hs, if_pos hs]
            simp
          · rw [if_neg hs, if_neg hs]
            constructor
            · cases decryptParsed P pw ((b.drop 60).take h.length) ⟨h, b.take 60⟩ with
              | ok x =>
                simp only [Out.ok.injEq, Prod.mk.injEq]
                exact ⟨fun e => ⟨_, e, rfl⟩, fun ⟨_, e, _⟩ => e⟩
              | err e => simp
              | panic => simp
            · intro hd
              have hr' : Header.read (b.take 60) = some h := by
                rw [← read_take (b.take 60) (by simp; omega), List.take_take]
                show Header.read (b.take 44) = _
                rw [read_take b hl, hr]
              rw [hr']
              simp only
              rw [if_neg (by simp; omega)]
              simp only
              have htt : (b.take 60).take 60 = b.take 60 := by rw [List.take_take]; rfl
              rw [htt]
              unfold decryptParsed at hd ⊢
              simp only at hd ⊢
              have hlen : ¬ (b.drop 60).length < h.length := by simp; omega
              have e1 : ((b.drop 60).take h.length).take h.length = (b.drop 60).take h.length := by
                rw [List.take_take, Nat.min_self]
              have e2 : ((b.drop 60).take h.length).drop h.length = [] := by
                rw [List.drop_take, Nat.sub_self, List.take_zero]
              rw [if_neg (by simp; omega), e1, e2] at hd
              rw [if_neg hlen]
              refine ⟨h.length, ?_⟩
              split at hd
              · cases hd
              · simp only [List.append_nil, Out.ok.injEq] at hd
                subst hd
                rfl

/-- **C126, failures are reported, without a panic, and leave the data alone.** -/
theorem c126_untouched (P : Prims) (pw data pre : Bytes) (h : ∀ u, (decrypt P pw data pre).1 ≠ .ok u) :
    ∃ e, decrypt P pw data pre = (.err e, data) := by
  unfold decrypt at *
  cases hp : Prefix.read pre with
  | none => exact ⟨_, rfl⟩
  | some p =>
    rw [hp] at h
    simp only at h ⊢
    cases hd : decryptParsed P pw data p with
    | ok m => rw [hd] at h; exact absurd rfl (h ())
    | err e => exact ⟨e, rfl⟩
    | panic =>
      unfold decryptParsed at hd
      split at hd
      · cases hd
      · dsimp only at hd
        split at hd <;> cases hd

/-- **C126, the mini container.** Its two ways of making and of opening agree, too. -/
theorem c126_mini (P : Fs.Prims) (c : Fs.Cocoon) (b m : Bytes) (hb : b.length < 2 ^ 63) :
    miniWrap P c m = Fs.dump P c m ∧
    (miniUnwrap P c b = .ok m ↔ ∃ rest, Fs.parse P c b = .ok m rest) := by
  refine ⟨rfl, ?_⟩
  unfold miniUnwrap Fs.parse
  by_cases h20 : b.length < 20
  · simp [h20]
  · by_cases h36 : b.length < 36
    · simp [h20, h36]
    · rw [if_neg h20, if_neg h36, if_neg h20, if_neg h36]
      simp only
      generalize fromLE ((b.drop 12).take 8).reverse = len
      have hlen : (b.drop 36).length = b.length - 36 := by simp
      by_cases h64 : 2 ^ 64 ≤ 36 + len
      · rw [if_pos h64, if_pos (by omega)]
        simp
      · rw [if_neg h64]
        by_cases h63 : len ≥ 2 ^ 63
        · rw [if_pos h63, if_pos (by omega)]
          simp
        · rw [if_neg h63]
          by_cases hs : b.length < 36 + len
          · rw [if_pos hs, if_pos (by omega)]
            simp
          · rw [if_neg hs, if_neg (by omega)]
            generalize P.decrypt c.key (b.take 12) (b.take 20) ((b.drop 36).take len) ((b.drop 20).take 16) = o
            cases o with
            | none => simp
            | some x =>
              simp only [Out.ok.injEq, Parsed.ok.injEq]
              exact ⟨fun e => ⟨_, e, rfl⟩, fun ⟨_, e, _⟩ => e⟩

/-- **C126, a container that fails its check is reported as such**, by both ways of opening: no panic and no other error, whatever
follows it. -/
theorem c126_tampered (P : Prims) (pw : Bytes) (config : Config) (salt nonce tag ct rest : Bytes)
    (hs : salt.length = 16) (hn : nonce.length = 12) (ht : tag.length = 16) (hl : ct.length < 2 ^ 63)
    (hd : P.decrypt config.cipher (P.kdf config.iterations salt pw) nonce
      (Header.mk config salt nonce ct.length).bytes ct tag = none) :
    let b := (Header.mk config salt nonce ct.length).bytes ++ (tag ++ (ct ++ rest))
    unwrap P pw b = .err .cryptography ∧ parse P pw b = .err .cryptography := by
  intro b
  have hr := read_bytes ⟨config, salt, nonce, ct.length⟩ hs hn (by show ct.length < 2 ^ 64; omega) (tag ++ (ct ++ rest))
  have hh := head_length ⟨config, salt, nonce, ct.length⟩ hs hn
  have hlen : b.length = 60 + (ct.length + rest.length) := by
    simp only [b, List.length_append, hh, ht]; omega
  have h44 : (b.take 60).take 44 = (Header.mk config salt nonce ct.length).bytes := by
    rw [List.take_take]
    show b.take 44 = _
    rw [List.take_append_of_le_length (by omega), List.take_of_length_le (by omega)]
  have hb : b = ((Header.mk config salt nonce ct.length).bytes ++ tag) ++ (ct ++ rest) := by
    simp only [b, List.append_assoc]
  have hl60 : ((Header.mk config salt nonce ct.length).bytes ++ tag).length = 60 := by
    rw [List.length_append, hh, ht]
  have h60 : b.take 60 = (Header.mk config salt nonce ct.length).bytes ++ tag := by
    rw [hb, List.take_append_of_le_length (by omega), List.take_of_length_le (by omega)]
  have htag : ((b.take 60).drop 44).take 16 = tag := by
    rw [h60, List.drop_append_of_le_length (by omega), List.drop_of_length_le (by omega), List.nil_append,
      List.take_of_length_le (by omega)]
  have hct : (b.drop 60).take ct.length = ct := by
    rw [hb, List.drop_append_of_le_length (by omega), List.drop_of_length_le (by omega), List.nil_append,
      List.take_append_of_le_length (by omega), List.take_of_length_le (by omega)]
  have hp : decryptParsed P pw ((b.drop 60).take ct.length) ⟨⟨config, salt, nonce, ct.length⟩, b.take 60⟩ =
      .err .cryptography := by
    unfold decryptParsed
    simp only [hct, h44, htag]
    rw [if_neg (by omega), List.take_of_length_le (by omega), hd]
  have hr' : Header.read b = some ⟨config, salt, nonce, ct.length⟩ := hr
  constructor
  · unfold unwrap Prefix.read
    rw [hr']
    simp only
    rw [if_neg (by omega)]
    simp only
    rw [if_neg (by omega), if_neg (by omega), hp]
  · unfold parse
    rw [if_neg (by omega), read_take b (by omega), hr']
    simp only
    rw [if_neg (by omega), if_neg (by omega), if_neg (by omega), hp]

/-- **C126 is false of the code for damaged lengths.** A container whose length field is at least `2^64 - 60` makes `unwrap`
panic, and one from `2^63` on makes `parse` panic, before anything is authenticated. -/
theorem c126_panic_violated (P : Prims) (pw : Bytes) (config : Config) (salt nonce tag rest : Bytes) (len : Nat)
    (hs : salt.length = 16) (hn : nonce.length = 12) (ht : tag.length = 16) (hl : len < 2 ^ 64) :
    (2 ^ 64 - 60 ≤ len → unwrap P pw ((Header.mk config salt nonce len).bytes ++ (tag ++ rest)) = .panic) ∧
    (2 ^ 63 ≤ len → parse P pw ((Header.mk config salt nonce len).bytes ++ (tag ++ rest)) = .panic) := by
  have hr := read_bytes ⟨config, salt, nonce, len⟩ hs hn hl (tag ++ rest)
  have hlen : ((Header.mk config salt nonce len).bytes ++ (tag ++ rest)).length = 60 + rest.length := by
    rw [List.length_append, head_length _ hs hn, List.length_append, ht]
    omega
  generalize (Header.mk config salt nonce len).bytes ++ (tag ++ rest) = b at hr hlen
  constructor
  · intro h
    unfold unwrap Prefix.read
    rw [hr]
    simp only
    rw [if_neg (by omega)]
    simp only
    rw [if_pos (by omega)]
  · intro h
    unfold parse
    rw [if_neg (by omega), read_take b (by omega), hr]
    simp only
    rw [if_neg (by omega), if_pos h]

/-- The ciphertext is the exclusive or with a stream that depends on key and nonce, as for both ciphers. -/
def IsStream (P : Prims) : Prop :=
  ∃ ks : Cipher → Bytes → Bytes → Nat → UInt8, ∀ c k n a m,
    (P.encrypt c k n a m).1 = xor m ((List.range m.length).map (ks c k n))

/-- **C126 is false of the code for seeded containers used twice.** `encrypt` clones the generator, so everything wrapped with
one `Cocoon::from_seed` (or `from_rng`, `from_entropy`) has the same salt and nonce, and two containers reveal the difference of
their contents. -/
theorem c126_reuse_violated (P : Prims) (hst : IsStream P) (pw seed x y : Bytes) (config : Config)
    (hl : x.length = y.length) :
    let c : Cocoon := ⟨pw, .std seed, config⟩
    let first := c.encrypt P x
    let second := first.2.encrypt P y
    xor first.1.2 second.1.2 = xor x y := by
  intro c first second
  obtain ⟨ks, hks⟩ := hst
  show xor (P.encrypt _ _ _ _ x).1 (P.encrypt _ _ _ _ y).1 = _
  rw [hks, hks, hl]
  exact xor_cancel _ _ _ (by simp [hl]) (by simp)

/-- **C126, a generator of the thread.** Its containers get the salts and nonces one after the other. -/
theorem c126_fresh (P : Prims) (pw x y : Bytes) (config : Config) (next : Nat → Bytes × Bytes)
    (h0 : (next 0).1.length = 16 ∧ (next 0).2.length = 12) (h1 : (next 1).1.length = 16 ∧ (next 1).2.length = 12)
    (hne : next 0 ≠ next 1) :
    let c : Cocoon := ⟨pw, .thread next, config⟩
    let first := c.encrypt P x
    let second := first.2.encrypt P y
    (first.1.1.drop 8).take 28 = (next 0).1 ++ (next 0).2 ∧ (second.1.1.drop 8).take 28 = (next 1).1 ++ (next 1).2 ∧
    (first.1.1.drop 8).take 28 ≠ (second.1.1.drop 8).take 28 := by
  intro c first second
  have key : ∀ (d : Bytes × Bytes) (n : Nat) (t : Bytes), d.1.length = 16 → d.2.length = 12 →
      (((Header.mk config d.1 d.2 n).bytes ++ t).drop 8).take 28 = d.1 ++ d.2 := by
    intro d n t e1 e2
    have : (Header.mk config d.1 d.2 n).bytes ++ t = ([0x7f, 0xc0, 10, 1] ++ config.bytes) ++ ((d.1 ++ d.2) ++
        ((toLE 8 n).reverse ++ t)) := by simp [Header.bytes]
    rw [this, List.drop_left' (by simp [config_length]), List.take_left' (by simp [e1, e2])]
  have k0 : (first.1.1.drop 8).take 28 = (next 0).1 ++ (next 0).2 := key (next 0) _ _ h0.1 h0.2
  have k1 : (second.1.1.drop 8).take 28 = (next 1).1 ++ (next 1).2 := key (next 1) _ _ h1.1 h1.2
  refine ⟨k0, k1, ?_⟩
  rw [k0, k1]
  intro e
  obtain ⟨a, b⟩ := List.append_inj e (by rw [h0.1, h1.1])
  exact hne (Prod.ext a b)

/-! ## Examples -/

/-- A toy cipher: exclusive or with a constant, and a tag from the first bytes of key and nonce. -/
def toyPrims : Prims where
  encrypt _ k n _ m := (m.map (· ^^^ 0x55), k.headD 0 :: n.headD 0 :: List.replicate 14 9)
  decrypt _ k n _ ct tag := if tag = k.headD 0 :: n.headD 0 :: List.replicate 14 9 then some (ct.map (· ^^^ 0x55)) else none
  kdf i s p := UInt8.ofNat i :: s ++ p
  gen s := (s.take 16 ++ List.replicate (16 - s.length) 0, s.take 12 ++ List.replicate (12 - s.length) 0)

theorem toyPrims_ok : toyPrims.Ok where
  correct c k n a m := by
    simp only [toyPrims, if_true, List.map_map]
    congr 1
    conv => rhs; rw [← List.map_id m]
    apply List.map_congr_left
    intro x _
    simp [UInt8.xor_assoc]
  length c k n a m := by simp [toyPrims]
  tag c k n a m := by simp [toyPrims]
  salt s := by simp [toyPrims]; omega
  nonce s := by simp [toyPrims]; omega

theorem toyPrims_stream : IsStream toyPrims := by
  refine ⟨fun _ _ _ _ => 0x55, fun c k n a m => ?_⟩
  simp only [toyPrims, xor]
  induction m with
  | nil => rfl
  | cons x m ih =>
    simp only [List.map_cons, List.length_cons, List.range_succ_eq_map, List.zipWith_cons_cons, List.map_map]
    exact congrArg _ ih

/-- A weak AES container: header, length, round trip with something behind it, and a wrong password. -/
example :
    let c : Cocoon := ⟨[1, 2], .std [5, 6, 7], ⟨.aes, true⟩⟩
    let w := (c.wrap toyPrims [10, 20, 30]).1
    w.length = 63 ∧ w.take 8 = [0x7f, 0xc0, 10, 1, 2, 1, 2, 0] ∧
    (unwrap toyPrims [1, 2] (w ++ [0, 1]) matches .ok [10, 20, 30]) = true ∧
    (parse toyPrims [1, 2] (w ++ [0, 1]) matches .ok ([10, 20, 30], [0, 1])) = true ∧
    (unwrap toyPrims [1, 2] (w.take 62) matches .err .tooShort) = true ∧
    (unwrap toyPrims [1, 2] (w.set 4 3) matches .err .unrecognized) = true := by
  decide +kernel

/-- Two containers of one seeded object: the same salt and nonce, and the difference of the contents in the open. -/
example :
    let c : Cocoon := ⟨[1, 2], .std [5, 6, 7], ⟨.chacha, false⟩⟩
    let a := c.encrypt toyPrims [10, 20]
    let b := a.2.encrypt toyPrims [30, 40]
    a.1.1.take 36 = b.1.1.take 36 ∧ xor a.1.2 b.1.2 = xor [10, 20] [30, 40] := by
  decide +kernel

/-- Two containers of the generator of the thread. -/
example :
    let c : Cocoon := ⟨[1, 2], .thread fun n => (List.replicate 16 (UInt8.ofNat n), List.replicate 12 7), ⟨.chacha, false⟩⟩
    let a := c.encrypt toyPrims [10, 20]
    let b := a.2.encrypt toyPrims [30, 40]
    (a.1.1.drop 8).take 16 = List.replicate 16 0 ∧ (b.1.1.drop 8).take 16 = List.replicate 16 1 := by
  decide +kernel

/-- A cipher that nobody can forge: the tag of the only thing that was sealed is the only one that opens. What opens is it. -/
example : ¬ Forgery { toyPrims with decrypt := fun _ k n a ct tag =>
      if a = (Sealed.mk ⟨.aes, true⟩ (List.replicate 16 1) (List.replicate 12 2) [4]).head ∧ ct = [4 ^^^ 0x55] ∧
        (tag = k.headD 0 :: n.headD 0 :: List.replicate 14 9) ∧ k.headD 0 = 16 ∧ n.headD 0 = 2 then some [4] else none }
    [] [⟨⟨.aes, true⟩, List.replicate 16 1, List.replicate 12 2, [4]⟩] := by
  rintro ⟨c, i, s, n, a, ct, tag, m, h, hn⟩
  refine hn _ (List.mem_singleton.2 rfl) ?_
  simp only at h
  split at h
  · rename_i hc
    obtain ⟨h1, h2, h3, h4, h5⟩ := hc
    refine ⟨h1.symm, ?_⟩
    rw [h4, h5] at h3
    rw [h2, h3]
    decide +kernel
  · cases h

end Container

end Verif.Fs
