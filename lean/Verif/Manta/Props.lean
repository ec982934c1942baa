import Verif.Manta.Sane
import Verif.Fs.Container

/-! # Wallets of manta-pay on one ledger -/

set_option linter.unusedSectionVars false

namespace Verif.Manta

open Verif.Codec (Bytes toLE fromLE)
open Verif.Asset (Asset BinSearch Layout)
open Verif.Transfer (Prim Kit Utxo Nul openWithCheck utxoReconstruct visSecret visPublic)
open Verif.Gadget (fbit)
open Verif.Merkle
open Verif.Settle (Grove Acc Ident)
open Verif.Sign (Receiver Owner)
open Verif.Ledger (balance push)
open Verif.Pay (total)
open Verif.World (owned used Event Book)
open Verif.Net (Sane NoAccident Reach Room Allowed Member)

variable {p r : Nat} [Fact p.Prime] [NeZero r]

namespace Config

variable (c : Config p r)

/-- What is assumed: parameters of the expected sizes (C120), a modulus of at most 256 bits, AES-GCM whose decryption inverts
encryption, a complete proof system given the values computed while the constraints are generated, a nullifier set that
finds only what is there; wallets know their own nullifiers, have different addresses, and random streams that repeat
neither themselves nor each other. -/
structure Ready {ι : Type} (member : ι → Member c.prim c.grove) : Prop where
  params : c.params.Ok
  bits : p ≤ 2 ^ 256
  aes : c.aes.Laws
  snark : c.snark.Complete
  generates : c.Generates
  lookup : ∀ l n, c.contains l n = true → ∃ m ∈ l, m.cm = n.cm
  known : ∀ i x, (member i).known (c.nullCommit (Sub.smul ⟨c.params.gen, c.gen⟩ (member i).sk) x) = true
  addrs : ∀ i j, Sub.smul ⟨c.params.gen, c.gen⟩ (c.viewKey (Sub.smul ⟨c.params.gen, c.gen⟩ (member i).sk)) =
    Sub.smul ⟨c.params.gen, c.gen⟩ (c.viewKey (Sub.smul ⟨c.params.gen, c.gen⟩ (member j).sk)) → i = j
  stream : ∀ i j n m, n < (member i).bound → m < (member j).bound → (member i).rand n = (member j).rand m → i = j ∧ n = m

variable {ι : Type} [DecidableEq ι] {bs : BinSearch} {layout : Layout (Ident c.prim) (List Asset)}
  {member : ι → Member c.prim c.grove}

/-- C136. The configuration of manta-pay meets what C132 assumes of protocol, proof system, trees and ledger. -/
theorem c136_sane (h : c.Ready member) : Sane (c.net bs layout member) (Cipher.Fits p) where
  laws := prim_laws _ _ _ _
  same := ⟨(0 : ZMod r), rfl⟩
  modulus := show 2 ^ 128 ≤ p from Nat.le_of_lt (Circuit.two_lt h.params.field)
  complete := by
    intro t sh hi hc hs
    obtain ⟨π, h1, h2⟩ := c.proves h.params h.snark h.generates 0 t sh hi (hc 0) hs
    exact ⟨π, h1, fun e => by cases e.symm.trans h2⟩
  lookup := h.lookup
  correct := c.kit_correct h.aes h.bits
  ix := rfl
  capacity := rfl
  root _ _ := rfl
  path := by
    intro l w root hl hv
    show Path.verify c.params.tree (if h : w.path.length = c.params.h then
      (⟨w, h⟩ : {w : Path (ZMod p) (ZMod p) // w.path.length = c.params.h}) else _).1 root l = true
    rw [dif_pos hl]
    exact hv
  known := fun i k a => h.known i _
  addrs := h.addrs
  stream := h.stream

/-! ## Accidents are collisions of Poseidon -/

/-- What is hashed for the commitment of a coin, config/utxo.rs:396-425. -/
def cmIn (rand : ZMod p) (a : Asset) (g : Sub c.C) : List (ZMod p) :=
  [rand, (a.id : ZMod p), (a.value : ZMod p), c.C.x g.1, c.C.y g.1]

/-- What is hashed for its accumulator item, config/utxo.rs:1130-1165. -/
def itemIn (u : Utxo c.prim.ty) : List (ZMod p) :=
  [fbit u.transparent, (u.pubAsset.id : ZMod p), (u.pubAsset.value : ZMod p), u.cm]

/-- What is hashed for its nullifier, config/utxo.rs:1440-1510. -/
def nulIn (pak : Sub c.C) (x : ZMod p) : List (ZMod p) := [c.C.x pak.1, c.C.y pak.1, x]

/-- The three hash functions differ on different inputs among `S`. -/
def Separates (H : Circuit.Hasher p) (S : List (ZMod p) → Prop) : Prop :=
  ∀ a b, S a → S b → H.get a = H.get b → a = b

/-- Inputs of the commitment hash in a history: coins as made, coins as the wallets that open them recompute them, coins
as they were spent. -/
def Committed (N : Net.Net c.prim c.grove ι) (st : Net.St c.prim c.grove ι) (l : List (ZMod p)) : Prop :=
  (∃ x ∈ st.log, l = c.cmIn x.2.key.2 (visSecret x.2.key.1 x.2.asset) (N.world.target x)) ∨
  (∃ x ∈ st.log, ∃ j k a, openWithCheck N.kit (N.view j) (N.coin x) = some (k, a) ∧
    l = c.cmIn k.2 (visSecret k.1 a) (N.wire j).address) ∨
  ∃ i, ∃ q ∈ used st.slog i, l = c.cmIn q.1.2 (visSecret q.1.1 q.2) (N.wire i).address

/-- Inputs of the item hash: coins as made and as spent. -/
def Itemized (N : Net.Net c.prim c.grove ι) (st : Net.St c.prim c.grove ι) (l : List (ZMod p)) : Prop :=
  (∃ x ∈ st.log, l = c.itemIn (N.coin x).utxo) ∨
  ∃ i, ∃ q ∈ used st.slog i, l = c.itemIn (utxoReconstruct N.kit q.2 q.1 (N.wire i).address)

/-- Inputs of the nullifier hash: coins of the wallets, spent or not. -/
def Nullified (N : Net.Net c.prim c.grove ι) (st : Net.St c.prim c.grove ι) (l : List (ZMod p)) : Prop :=
  ∃ i, ∃ q ∈ owned N.world st.log i ++ used st.slog i, l = c.nulIn (N.wire i).pak ((N.wire i).leaf q.1 q.2)

/-- What did not happen: a collision of the three Poseidon hashers among the inputs of the history; an inner node of the
ledger's trees that is the default digest. Assets are encodable, and nobody's coins of one asset ever made add up to more
than values can represent. -/
structure Quiet (N : Net.Net c.prim c.grove ι) (st : Net.St c.prim c.grove ι) : Prop where
  made : ∀ x ∈ st.log, Cipher.Fits p x.2.asset
  spent : ∀ x ∈ st.slog, Cipher.Fits p x.2.2
  cm : Separates c.params.cm (c.Committed N st)
  item : Separates c.params.item (c.Itemized N st)
  nul : Separates c.params.nul (c.Nullified N st)
  clear : ∀ x, c.grove.Clear (st.ledger.forest x)
  fits : ∀ i id, total (owned N.world st.log i) id < 2 ^ 128

theorem cast_inj {m n : Nat} (hm : m < p) (hn : n < p) (h : (m : ZMod p) = (n : ZMod p)) : m = n := by
  have := (ZMod.natCast_eq_natCast_iff' m n p).1 h
  rwa [Nat.mod_eq_of_lt hm, Nat.mod_eq_of_lt hn] at this

theorem asset_inj (hp : 2 ^ 128 < p) {a b : Asset} (ha : Cipher.Fits p a) (hb : Cipher.Fits p b)
    (h1 : (a.id : ZMod p) = (b.id : ZMod p)) (h2 : (a.value : ZMod p) = (b.value : ZMod p)) : a = b := by
  have e1 := cast_inj ha.1 hb.1 h1
  have e2 := cast_inj (Nat.lt_trans ha.2 hp) (Nat.lt_trans hb.2 hp) h2
  cases a; cases b
  simp only at e1 e2
  rw [e1, e2]

theorem fits_zero : Cipher.Fits p ⟨0, 0⟩ := ⟨(Fact.out : p.Prime).pos, Nat.two_pow_pos _⟩

theorem fits_secret {t : Bool} {a : Asset} (h : Cipher.Fits p a) : Cipher.Fits p (visSecret t a) := by
  unfold visSecret; split; exacts [fits_zero, h]

theorem fits_public {t : Bool} {a : Asset} (h : Cipher.Fits p a) : Cipher.Fits p (visPublic t a) := by
  unfold visPublic; split; exacts [h, fits_zero]

theorem cmIn_inj (hp : 2 ^ 128 < p) {x y : ZMod p} {a b : Asset} {g h : Sub c.C} (ha : Cipher.Fits p a)
    (hb : Cipher.Fits p b) (e : c.cmIn x a g = c.cmIn y b h) : x = y ∧ a = b ∧ g = h := by
  simp only [cmIn, List.cons.injEq, and_true] at e
  exact ⟨e.1, asset_inj hp ha hb e.2.1 e.2.2.1, Subtype.ext (c.C.inj _ _ e.2.2.2.1 e.2.2.2.2)⟩

theorem fbit_inj {a b : Bool} (h : (fbit a : ZMod p) = fbit b) : a = b := by
  have : (0 : ZMod p) ≠ 1 := zero_ne_one
  cases a <;> cases b <;> simp_all [fbit]

theorem itemIn_inj (hp : 2 ^ 128 < p) {u w : Utxo c.prim.ty} (hu : Cipher.Fits p u.pubAsset) (hw : Cipher.Fits p w.pubAsset)
    (e : c.itemIn u = c.itemIn w) : u = w := by
  simp only [itemIn, List.cons.injEq, and_true] at e
  obtain ⟨t, a, x⟩ := u
  obtain ⟨t', a', x'⟩ := w
  simp only at e hu hw
  rw [fbit_inj e.1, asset_inj hp hu hw e.2.1 e.2.2.1, e.2.2.2]

/-- A coin is determined by its reconstruction. -/
theorem coin_eq {k k' : Bool × ZMod p} {a a' : Asset} (h1 : k.1 = k'.1) (h2 : visPublic k.1 a = visPublic k'.1 a')
    (h3 : visSecret k.1 a = visSecret k'.1 a') (h4 : k.2 = k'.2) : k = k' ∧ a = a' := by
  obtain ⟨t, x⟩ := k
  obtain ⟨t', x'⟩ := k'
  simp only at h1 h2 h3 h4
  subst h1 h4
  refine ⟨rfl, ?_⟩
  cases t
  · exact h3
  · exact h2

/-- What decryption of light notes returns can be encoded. -/
theorem decL_fits (k : Sub c.C) (x : Bytes) (m : Transfer.Plain c.prim.ty) (h : c.kit.decL k x = some m) :
    Cipher.Fits p m.asset := by
  have h : ((Cipher.decLight p c.aes (c.aesKey k) x).getD none).map
    (fun n => (⟨(n.rand.val : ZMod p), ⟨n.id.val, n.value⟩⟩ : Transfer.Plain c.prim.ty)) = some m := h
  obtain ⟨n, hn, rfl⟩ := Option.map_eq_some_iff.1 h
  refine ⟨n.id.isLt, ?_⟩
  unfold Cipher.decLight at hn
  split at hn
  · cases hn
  · split at hn
    · cases hn
    · rename_i y _
      split at hn
      · cases hn
      · rename_i n' hn'
        simp only [Option.getD_some, Option.some.injEq] at hn
        subst hn
        unfold Cipher.noteOfBytes at hn'
        split at hn'
        · cases hn'
        · split at hn'
          · cases hn'
          · simp only [Option.some.injEq] at hn'
            subst hn'
            refine Nat.lt_of_lt_of_le (Fs.Container.fromLE_lt _) ?_
            show 256 ^ _ ≤ 2 ^ 128
            rw [show (2 : Nat) ^ 128 = 256 ^ 16 by decide]
            exact Nat.pow_le_pow_right (by decide) (by rw [List.length_take]; exact Nat.min_le_left _ _)

theorem open_fits {dk : ZMod r} {x : Transfer.ReceiverPost c.prim.ty} {k : Ident c.prim} {a : Asset}
    (h : openWithCheck c.kit dk x = some (k, a)) : Cipher.Fits p a := by
  unfold openWithCheck at h
  split at h
  · cases h
  · rename_i k' a' e
    split at h
    · simp only [Option.some.injEq, Prod.mk.injEq] at h
      obtain ⟨rfl, rfl⟩ := h
      unfold Transfer.noteOpen at e
      split at e
      · split at e
        · cases e
        · rename_i pl e'
          simp only [Option.some.injEq, Prod.mk.injEq] at e
          obtain ⟨_, rfl⟩ := e
          exact c.decL_fits _ _ _ e'
      · cases e
    · cases h

/-- What a coin of the history is: it was made for the wallet, or spent by it. -/
theorem coin_cases {N : Net.Net c.prim c.grove ι} (hk : N.kit = c.kit) {st : Net.St c.prim c.grove ι} (hq : c.Quiet N st) (i : ι)
    (q : Ident c.prim × Asset) (h : q ∈ owned N.world st.log i ++ used st.slog i) : Cipher.Fits p q.2 ∧
      c.Committed N st (c.cmIn q.1.2 (visSecret q.1.1 q.2) (N.wire i).address) ∧
      c.Itemized N st (c.itemIn (utxoReconstruct c.kit q.2 q.1 (N.wire i).address)) := by
  rcases List.mem_append.1 h with h | h
  · unfold owned at h
    obtain ⟨x, hx, e⟩ := List.mem_filterMap.1 h
    split at e
    · rename_i ht
      simp only [Option.some.injEq] at e
      subst e
      have ht' : N.world.target x = (N.wire i).address := ht
      refine ⟨hq.made x hx, .inl ⟨x, hx, by rw [ht']⟩, .inl ⟨x, hx, ?_⟩⟩
      rw [← ht', ← hk]
      show _ = c.itemIn (((N.wire x.1).mintPlan x.2).post N.kit).utxo
      obtain ⟨z, ⟨key, asset, owner⟩⟩ := x
      cases owner <;> rfl
    · cases e
  · refine ⟨?_, .inr (.inr ⟨i, q, h, rfl⟩), .inr ⟨i, q, h, by rw [hk]⟩⟩
    unfold used at h
    obtain ⟨x, hx, e⟩ := List.mem_filterMap.1 h
    split at e
    · simp only [Option.some.injEq] at e
      subst e
      exact hq.spent x hx
    · cases e

/-- C136. What C132 excludes as accidents needs a collision of a Poseidon hasher among inputs of the history. -/
theorem c136_quiet (h : c.Ready member) {st : Net.St c.prim c.grove ι} (hq : c.Quiet (c.net bs layout member) st) :
    NoAccident (c.net bs layout member) (Cipher.Fits p) st := by
  have hp := Circuit.two_lt h.params.field
  refine ⟨hq.made, ?_, ?_, ?_, hq.clear, hq.fits⟩
  · rintro x hx j k a ho ⟨hne, he⟩
    refine hne ?_
    obtain ⟨e1, e2, e3⟩ := c.cmIn_inj hp (fits_secret (hq.made x hx)) (fits_secret (c.open_fits ho))
      (hq.cm _ _ (.inl ⟨x, hx, rfl⟩) (.inr (.inl ⟨x, hx, j, k, a, ho, rfl⟩)) he)
    rw [e1, e2, e3]
  · intro i q hqi j q' hqj he
    obtain ⟨f1, m1, n1⟩ := c.coin_cases rfl hq i q hqi
    obtain ⟨f2, m2, n2⟩ := c.coin_cases rfl hq j q' hqj
    have e := hq.nul _ _ ⟨i, q, hqi, rfl⟩ ⟨j, q', hqj, rfl⟩ he
    simp only [nulIn, List.cons.injEq, and_true] at e
    have hpak : ((c.net bs layout member).wire i).pak = ((c.net bs layout member).wire j).pak :=
      Subtype.ext (c.C.inj _ _ e.1 e.2.1)
    have hij : i = j := h.addrs i j (congrArg (fun g => Sub.smul ⟨c.params.gen, c.gen⟩ (c.viewKey g)) hpak)
    subst hij
    refine ⟨rfl, ?_⟩
    have hu := c.itemIn_inj hp (fits_public f1) (fits_public f2) (hq.item _ _ n1 n2 e.2.2)
    have u1 : q.1.1 = q'.1.1 := congrArg Utxo.transparent hu
    have u2 : visPublic q.1.1 q.2 = visPublic q'.1.1 q'.2 := congrArg Utxo.pubAsset hu
    have u3 := congrArg Utxo.cm hu
    obtain ⟨v1, v2, _⟩ := c.cmIn_inj hp (fits_secret f1) (fits_secret f2) (hq.cm _ _ m1 m2 u3)
    obtain ⟨w1, w2⟩ := coin_eq u1 u2 v2 v1
    exact Prod.ext w1 w2
  · intro x hx y hy he
    exact c.itemIn_inj hp (fits_public (hq.made x hx)) (fits_public (hq.made y hy))
      (hq.item _ _ (.inl ⟨x, hx, rfl⟩) (.inl ⟨y, hy, rfl⟩) he)

/-! ## What users rely on -/

/-- Histories of wallets of manta-pay in which Poseidon has no collision. -/
inductive History (N : Net.Net c.prim c.grove ι) (st0 : Net.St c.prim c.grove ι) :
    List (Event ι (Sub c.C) Nat) → Net.St c.prim c.grove ι → Prop
  | nil : History N st0 [] st0
  | snoc {es : List (Event ι (Sub c.C) Nat)} {st : Net.St c.prim c.grove ι} (h : History N st0 es st) (act : Net.Action c.prim ι)
      (ha : Allowed N st act) (hn : c.Quiet N (N.step st act).2) : History N st0 (es ++ [(N.step st act).1]) (N.step st act).2

theorem history_reach (h : c.Ready member) {st0 st : Net.St c.prim c.grove ι} {es : List (Event ι (Sub c.C) Nat)}
    (hr : c.History (c.net bs layout member) st0 es st) : Reach (c.net bs layout member) (Cipher.Fits p) st0 es st := by
  induction hr with
  | nil => exact .nil
  | snoc _ act ha hn ih => exact .snoc ih act ha (c.c136_quiet h hn)

variable {st : Net.St c.prim c.grove ι}

/-- C136. With Poseidon, the duplex cipher, AES-GCM, Blake2s and the compiled circuits, ledger and wallets are one book:
coins and public balances on the ledger are what the requests add up to, and what was paid was covered. -/
theorem c136_refines (h : c.Ready member) {accounts : List (Nat × List (Nat × Nat))} (hb : ∀ b id, balance accounts b id < 2 ^ 128)
    {es : List (Event ι (Sub c.C) Nat)} (hr : c.History (c.net bs layout member) (Net.St.start accounts) es st) :
    (∀ j id, total ((c.net bs layout member).coins st.ledger j) id =
      ((Book.opening (balance accounts)).after (c.net bs layout member).world.addr (fun i => (member i).account) es).priv j id) ∧
    (∀ a id, balance st.ledger.accounts a id =
      ((Book.opening (balance accounts)).after (c.net bs layout member).world.addr (fun i => (member i).account) es).pub a id) ∧
    ∀ pre e suf, es = pre ++ e :: suf →
      ((Book.opening (balance accounts)).after (c.net bs layout member).world.addr (fun i => (member i).account) pre).Covers
        (fun i => (member i).account) e :=
  Net.c132_refines (c.c136_sane h) hb (c.history_reach h hr)

/-- C136. Wallets of manta-pay synchronize and report what the book has. -/
theorem c136_reported (h : c.Ready member) {accounts : List (Nat × List (Nat × Nat))} (hb : ∀ b id, balance accounts b id < 2 ^ 128)
    {es : List (Event ι (Sub c.C) Nat)} (hr : c.History (c.net bs layout member) (Net.St.start accounts) es st) (i : ι) :
    ∃ s', Pay.syncAll ((c.net bs layout member).env i) (st.sys i) [Net.serve st.ledger (st.sys i).wallet.checkpoint] = (.ok, s') ∧
      ∀ id, Asset.AList.value bs s'.wallet.assets id =
        ((Book.opening (balance accounts)).after (c.net bs layout member).world.addr (fun i => (member i).account) es).priv i id :=
  Net.c132_reported (c.c136_sane h) hb (c.history_reach h hr) i

/-- C136. What the book covers can be paid: the signer proves the posts and the ledger accepts them, if no new value
clashes. -/
theorem c136_pays (h : c.Ready member) {accounts : List (Nat × List (Nat × Nat))} (hb : ∀ b id, balance accounts b id < 2 ^ 128)
    {es : List (Event ι (Sub c.C) Nat)} (hr : c.History (c.net bs layout member) (Net.St.start accounts) es st) (i : ι)
    (hroom : Room (c.net bs layout member) st i) (a : Asset) (hid : a.id ≠ 0 ∧ a.id < p) (o : Owner (Sub c.C))
    (hcov : a.value ≤
      ((Book.opening (balance accounts)).after (c.net bs layout member).world.addr (fun i => (member i).account) es).priv i a.id) :
    ∃ txs s', Pay.post ((c.net bs layout member).env i) (st.sys i) [st.data i] (.privateTransfer a o) = (.ok txs, s') ∧ txs ≠ [] ∧
      (Settle.NoClash ((c.net bs layout member).wire i) st.ledger ((c.net bs layout member).purse st i) txs →
        push c.ledger st.ledger (member i).account (((c.net bs layout member).wire i).posts txs) =
          (.accepted, ((c.net bs layout member).step st (.post i (.privateTransfer a o))).2.ledger) ∧
        ((c.net bs layout member).step st (.post i (.privateTransfer a o))).1 = .pay i a o true) :=
  Net.c132_pays (c.c136_sane h) hb (c.history_reach h hr) i hroom a hid o hcov

/-- C136. Coins can be consolidated. -/
theorem c136_consolidates (h : c.Ready member) {accounts : List (Nat × List (Nat × Nat))}
    (hb : ∀ b id, balance accounts b id < 2 ^ 128) {es : List (Event ι (Sub c.C) Nat)}
    (hr : c.History (c.net bs layout member) (Net.St.start accounts) es st) (i : ι) (req : List (Ident c.prim × Asset))
    (ha : Allowed (c.net bs layout member) st (.consolidate i req)) :
    ∃ txs s', Pay.postConsolidation ((c.net bs layout member).env i) (st.sys i) [st.data i] req = (.ok txs, s') ∧ txs ≠ [] ∧
      (Settle.NoClash ((c.net bs layout member).wire i) st.ledger ((c.net bs layout member).purse st i) txs →
        push c.ledger st.ledger (member i).account (((c.net bs layout member).wire i).posts txs) =
          (.accepted, ((c.net bs layout member).step st (.consolidate i req)).2.ledger)) :=
  Net.c132_consolidates (c.c136_sane h) hb (c.history_reach h hr) i req ha

/-- C136. Public funds can be deposited. -/
theorem c136_mints (h : c.Ready member) {accounts : List (Nat × List (Nat × Nat))} (hb : ∀ b id, balance accounts b id < 2 ^ 128)
    {es : List (Event ι (Sub c.C) Nat)} (hr : c.History (c.net bs layout member) (Net.St.start accounts) es st) (i : ι)
    (hroom : Room (c.net bs layout member) st i) (a : Asset) (hid : a.id ≠ 0 ∧ a.id < p) (hpos : 0 < a.value)
    (hcov : a.value ≤ ((Book.opening (balance accounts)).after (c.net bs layout member).world.addr
      (fun i => (member i).account) es).pub (member i).account a.id) :
    ∃ txs s', Pay.post ((c.net bs layout member).env i) (st.sys i) [st.data i] (.toPrivate a) = (.ok txs, s') ∧ txs ≠ [] ∧
      (Settle.NoClash ((c.net bs layout member).wire i) st.ledger ((c.net bs layout member).purse st i) txs →
        push c.ledger st.ledger (member i).account (((c.net bs layout member).wire i).posts txs) =
          (.accepted, ((c.net bs layout member).step st (.post i (.toPrivate a))).2.ledger) ∧
        ((c.net bs layout member).step st (.post i (.toPrivate a))).1 = .mint i a true) :=
  Net.c132_mints (c.c136_sane h) hb (c.history_reach h hr) i hroom a hid hpos hcov

/-- C136. What a wallet has can be withdrawn to an account that exists, if one post is enough. -/
theorem c136_withdraws (h : c.Ready member) {accounts : List (Nat × List (Nat × Nat))} (hb : ∀ b id, balance accounts b id < 2 ^ 128)
    {es : List (Event ι (Sub c.C) Nat)} (hr : c.History (c.net bs layout member) (Net.St.start accounts) es st) (i : ι)
    (hroom : Room (c.net bs layout member) st i) (a : Asset) (hid : a.id ≠ 0 ∧ a.id < p)
    (hcov : a.value ≤
      ((Book.opening (balance accounts)).after (c.net bs layout member).world.addr (fun i => (member i).account) es).priv i a.id)
    (hacct : (Asset.mget st.ledger.accounts (member i).account).isSome = true)
    (hfit : balance st.ledger.accounts (member i).account a.id + a.value < 2 ^ 128) :
    ∃ txs s', Pay.post ((c.net bs layout member).env i) (st.sys i) [st.data i] (.toPublic a (member i).account) = (.ok txs, s') ∧
      (txs.length = 1 → Settle.NoClash ((c.net bs layout member).wire i) st.ledger ((c.net bs layout member).purse st i) txs →
        push c.ledger st.ledger (member i).account (((c.net bs layout member).wire i).posts txs) =
          (.accepted, ((c.net bs layout member).step st (.post i (.toPublic a (member i).account))).2.ledger) ∧
        ((c.net bs layout member).step st (.post i (.toPublic a (member i).account))).1 =
          .withdraw i a (member i).account a.value) :=
  Net.c132_withdraws (c.c136_sane h) hb (c.history_reach h hr) i hroom a hid hcov hacct hfit

end Config

end Verif.Manta
