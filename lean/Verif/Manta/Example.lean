import Verif.Manta.Props
import Verif.Circuit.Examples

/-! # A wallet of manta-pay with small parameters -/

namespace Verif.Manta

open Verif.Codec (Bytes)
open Verif.Asset (Asset)
open Verif.Gadget (Asg)
open Verif.Circuit (exC exP exP_ok bn254)
open Verif.Net (Member Room)
open Verif.Merkle
open Verif.Settle (Grove Ident)
open Verif.Transfer (openWithCheck utxoReconstruct visSecret)
open Verif.Pay (total)
open Verif.World (owned used)

/-- A proof system that proves everything. -/
def wSnark : Snark bn254 where
  Pk := Unit
  Vk := Unit
  Pf := Unit
  compile _ := ((), ())
  prove _ _ _ := some ()
  verify _ _ _ := some true

/-- A stream cipher with a key of one byte, C68. -/
def wAes : Cipher.Aes Bytes where
  enc k := Cipher.tAes.enc (k.headD 0)
  dec k := Cipher.tAes.dec (k.headD 0)

theorem wAes_laws : wAes.Laws :=
  ⟨fun _ => Cipher.tAes_laws.inv _, fun _ => Cipher.tAes_laws.encLen _, fun _ => Cipher.tAes_laws.decLen _⟩

open Classical in
/-- An assignment with the right public inputs that satisfies the constraints, if there is one. -/
noncomputable def wAssign (t : Transfer.Transfer (Circuit.ty exC (rest exC Unit))) : Asg bn254 :=
  if h : ∃ z, ∀ st, Circuit.knownConstraints exP t = some st →
      st.cs.Sat z ∧ st.pub.map z = Transfer.Transfer.input (Circuit.enc exC (rest exC Unit)) t
  then h.choose else fun _ => 0

noncomputable def wConfig : Config bn254 7 where
  C := exC
  params := exP
  gen := by decide
  height := by decide
  point := fun g => [UInt8.ofNat (ZMod.val (n := 7) g)]
  blake1 := fun b => Fin.ofNat 256 ((b.map UInt8.toNat).sum)
  blake32 := fun b => b
  aes := wAes
  snark := wSnark
  assign := wAssign
  encode := fun b s => s.length :: b.receivers.length :: []
  contains := fun l n => l.any fun m => decide (m.cm = n.cm)
  wraps := false
  kind := .trivial
  kind' := .map

noncomputable def wMember (b : Bool) : Member wConfig.prim wConfig.grove where
  sk := show ZMod 7 from if b then 4 else 2
  rand n := show ZMod bn254 from if b then ((1000 + n : Nat) : ZMod bn254) else ((2000 + n : Nat) : ZMod bn254)
  randomizer _ := (3 : ZMod 7)
  nonce _ := (2 : ZMod 7)
  spendRand _ := ((6 : ZMod 7), ())
  mintRand _ := ((2 : ZMod 7), ())
  known _ := true
  account := if b then 77 else 78
  bound := 500

noncomputable def wNet : Net.Net wConfig.prim wConfig.grove Bool := wConfig.net Verif.Asset.linSearch Verif.Asset.idLayout wMember

noncomputable def w0 : Net.St wConfig.prim wConfig.grove Bool := Net.St.start [(77, [(7, 100)]), (78, [])]
noncomputable def w1 := wNet.step w0 (.post true (.toPrivate ⟨7, 40⟩))

/-- The first wallet deposits 40 and pays 15 to the second. -/
noncomputable def w2 := wNet.step w1.2 (.post true (.privateTransfer ⟨7, 15⟩ (.other (wNet.wire false).address)))

/-! ## Nothing collides -/

/-- A check for `Separates` among a list. -/
def separates (H : Circuit.Hasher bn254) (l : List (List (ZMod bn254))) : Bool :=
  let m := l.map fun a => (a, H.get a)
  m.all fun a => m.all fun b => decide (a.2 = b.2 → a.1 = b.1)

theorem separates_sound {H : Circuit.Hasher bn254} {l : List (List (ZMod bn254))} (h : separates H l = true)
    {S : List (ZMod bn254) → Prop} (hS : ∀ a, S a → a ∈ l) : Config.Separates H S := by
  intro a b ha hb e
  unfold separates at h
  rw [List.all_map, List.all_eq_true] at h
  have := h a (hS a ha)
  simp only [Function.comp, List.all_map, List.all_eq_true, decide_eq_true_eq] at this
  exact this b (hS b hb) e

abbrev WSt := Net.St wConfig.prim wConfig.grove Bool

/-- The inputs of the hash functions. -/
noncomputable def committed (st : WSt) : List (List (ZMod bn254)) :=
  (st.log.map fun x => wConfig.cmIn x.2.key.2 (visSecret x.2.key.1 x.2.asset) (wNet.world.target x)) ++
  (st.log.flatMap fun x => [true, false].filterMap fun j => (openWithCheck wNet.kit (wNet.view j) (wNet.coin x)).map fun q =>
    wConfig.cmIn q.1.2 (visSecret q.1.1 q.2) (wNet.wire j).address) ++
  [true, false].flatMap fun i => (used st.slog i).map fun q => wConfig.cmIn q.1.2 (visSecret q.1.1 q.2) (wNet.wire i).address

noncomputable def itemized (st : WSt) : List (List (ZMod bn254)) :=
  (st.log.map fun x => wConfig.itemIn (wNet.coin x).utxo) ++
  [true, false].flatMap fun i => (used st.slog i).map fun q => wConfig.itemIn (utxoReconstruct wNet.kit q.2 q.1 (wNet.wire i).address)

noncomputable def nullified (st : WSt) : List (List (ZMod bn254)) :=
  [true, false].flatMap fun i => (owned wNet.world st.log i ++ used st.slog i).map fun q =>
    wConfig.nulIn (wNet.wire i).pak ((wNet.wire i).leaf q.1 q.2)

/-- A check for `Clear`. -/
noncomputable def clearB (l : List (ZMod bn254)) : Bool :=
  (List.range (l.length + 1)).all fun n => (List.range 2).all fun k => (List.range l.length).all fun i =>
    decide (i * 2 ^ (k + 1) < (l.take n).length → nodeVal exP.tree (l.take n) k i ≠ exP.tree.dN)

theorem clearB_sound (l : List (ZMod bn254)) (h : clearB l = true) : wConfig.grove.Clear l := by
  intro n k i hk hi
  simp only [clearB, List.all_eq_true, List.mem_range, decide_eq_true_eq] at h
  rcases Nat.lt_or_ge n (l.length + 1) with hn | hn
  · exact h n hn k hk i (by
      have : i ≤ i * 2 ^ (k + 1) := Nat.le_mul_of_pos_right _ (Nat.two_pow_pos _)
      have := List.length_take_le' n l
      omega) hi
  · rw [List.take_of_length_le (by omega)] at hi ⊢
    have := h l.length (by omega) k hk i (by
      have : i ≤ i * 2 ^ (k + 1) := Nat.le_mul_of_pos_right _ (Nat.two_pow_pos _)
      omega)
    rw [List.take_length] at this
    exact this hi

/-- All checks. -/
noncomputable def quietB (st : WSt) : Bool :=
  (st.log.all fun x => decide (x.2.asset.id < bn254 ∧ x.2.asset.value < 2 ^ 128)) &&
  (st.slog.all fun x => decide (x.2.2.id < bn254 ∧ x.2.2.value < 2 ^ 128)) &&
  separates exP.cm (committed st) && separates exP.item (itemized st) && separates exP.nul (nullified st) &&
  ((List.finRange 256).all fun x => clearB (st.ledger.forest x)) &&
  [true, false].all fun i => decide (((owned wNet.world st.log i).map fun q => q.2.value).sum < 2 ^ 128)

theorem total_le {K : Type} (l : List (K × Asset)) (id : Nat) : total l id ≤ (l.map fun q => q.2.value).sum := by
  induction l with
  | nil => simp [total]
  | cons q l ih =>
    unfold total at ih ⊢
    rw [List.map_cons, Asset.bal_cons, List.map_cons, List.sum_cons]
    split <;> omega

theorem quiet_of (st : WSt) (h : quietB st = true) : wConfig.Quiet wNet st := by
  simp only [quietB, Bool.and_eq_true] at h
  obtain ⟨⟨⟨⟨⟨⟨h1, h2⟩, h3⟩, h4⟩, h5⟩, h6⟩, h7⟩ := h
  refine ⟨?_, ?_, separates_sound h3 ?_, separates_sound h4 ?_, separates_sound h5 ?_, ?_, ?_⟩
  · intro x hx
    have := List.all_eq_true.1 h1 x hx
    rw [decide_eq_true_eq] at this
    exact this
  · intro x hx
    have := List.all_eq_true.1 h2 x hx
    rw [decide_eq_true_eq] at this
    exact this
  · rintro a (⟨x, hx, rfl⟩ | ⟨x, hx, j, k, b, ho, rfl⟩ | ⟨i, q, hq, rfl⟩)
    · exact List.mem_append_left _ (List.mem_append_left _ (List.mem_map.2 ⟨x, hx, rfl⟩))
    · refine List.mem_append_left _ (List.mem_append_right _ (List.mem_flatMap.2 ⟨x, hx, List.mem_filterMap.2 ⟨j, by cases j <;> simp, ?_⟩⟩))
      rw [ho]
      rfl
    · exact List.mem_append_right _ (List.mem_flatMap.2 ⟨i, by cases i <;> simp, List.mem_map.2 ⟨q, hq, rfl⟩⟩)
  · rintro a (⟨x, hx, rfl⟩ | ⟨i, q, hq, rfl⟩)
    · exact List.mem_append_left _ (List.mem_map.2 ⟨x, hx, rfl⟩)
    · exact List.mem_append_right _ (List.mem_flatMap.2 ⟨i, by cases i <;> simp, List.mem_map.2 ⟨q, hq, rfl⟩⟩)
  · rintro a ⟨i, q, hq, rfl⟩
    exact List.mem_flatMap.2 ⟨i, by cases i <;> simp, List.mem_map.2 ⟨q, hq, rfl⟩⟩
  · intro x
    exact clearB_sound _ (List.all_eq_true.1 h6 x (List.mem_finRange x))
  · intro i id
    exact Nat.lt_of_le_of_lt (total_le _ _) (of_decide_eq_true (List.all_eq_true.1 h7 i (by cases i <;> simp)))


theorem wReady : wConfig.Ready wMember where
  params := exP_ok
  bits := by decide +kernel
  aes := wAes_laws
  snark := fun _ _ _ => ⟨(), rfl, rfl⟩
  generates := by
    rintro t st hst ⟨z, h1, h2⟩
    have hex : ∃ z, ∀ st, Circuit.knownConstraints exP t = some st →
        st.cs.Sat z ∧ st.pub.map z = Transfer.Transfer.input (Circuit.enc exC (rest exC Unit)) t := by
      refine ⟨z, fun st' e => ?_⟩
      have : st' = st := Option.some.inj (e.symm.trans hst)
      subst this
      exact ⟨h1, h2⟩
    have e : wConfig.assign t = hex.choose := dif_pos hex
    rw [e]
    exact hex.choose_spec st hst
  lookup := by
    intro l n h
    have h : (l.any fun m => decide (m.cm = n.cm)) = true := h
    simpa using h
  known _ _ := rfl
  addrs := by
    intro i j h
    cases i <;> cases j <;> first | rfl | exact absurd h (by decide +kernel)
  stream := by
    intro i j n m hn hm e
    have hn : n < 500 := hn
    have hm : m < 500 := hm
    have hp : 3000 < bn254 := by decide +kernel
    have e : (if i then ((1000 + n : Nat) : ZMod bn254) else ((2000 + n : Nat) : ZMod bn254)) =
      if j then ((1000 + m : Nat) : ZMod bn254) else ((2000 + m : Nat) : ZMod bn254) := e
    have hc : ∀ a b : Nat, a < 3000 → b < 3000 → (a : ZMod bn254) = (b : ZMod bn254) → a = b :=
      fun a b ha hb => Config.cast_inj (Nat.lt_trans ha hp) (Nat.lt_trans hb hp)
    cases i <;> cases j <;> simp only [if_true, Bool.false_eq_true, if_false] at e <;>
      have := hc _ _ (by omega) (by omega) e <;> simp <;> omega

noncomputable instance (st : WSt) (i : Bool) : Decidable (Room wNet st i) := by
  unfold Room; infer_instance

set_option maxRecDepth 100000 in
theorem wHistory : wConfig.History wNet w0 [w1.1, w2.1] w2.2 := by
  have r0 : wConfig.History wNet w0 [] w0 := .nil
  have r1 : wConfig.History wNet w0 [w1.1] w1.2 :=
    .snoc r0 (.post true (.toPrivate ⟨7, 40⟩)) ⟨by decide +kernel, by decide +kernel, by decide +kernel⟩ (quiet_of _ (by decide +kernel))
  exact .snoc r1 (.post true (.privateTransfer ⟨7, 15⟩ (.other (wNet.wire false).address)))
    ⟨by decide +kernel, by decide +kernel, trivial⟩ (quiet_of _ (by decide +kernel))

set_option maxRecDepth 100000 in
/-- The hypotheses of C136 are met by a history with a deposit and a payment: hashes, ciphers and constraints
are computed. -/
example : wConfig.Ready wMember ∧ wConfig.History wNet w0 [w1.1, w2.1] w2.2 ∧
    [w1.1, w2.1] = [.mint true ⟨7, 40⟩ true, .pay true ⟨7, 15⟩ (.other (wNet.wire false).address) true] ∧
    (wNet.coins w2.2.ledger true).map (fun q => q.2.value) = [25] ∧
    (wNet.coins w2.2.ledger false).map (fun q => q.2.value) = [15] :=
  ⟨wReady, wHistory, by decide +kernel⟩

/-- Posts of the payment. -/
noncomputable def wTxs : List (Settle.TxOf wConfig.prim (Settle.Acc wConfig.grove)) :=
  (Pay.post (wNet.env true) (w1.2.sys true) [w1.2.data true] (.privateTransfer ⟨7, 15⟩ (.other (wNet.wire false).address))).1.handed

set_option maxRecDepth 100000 in
/-- Before the payment the hypotheses of `c136_pays` are met, and nothing clashes. -/
example : Room wNet w1.2 true ∧ wTxs.length = 1 ∧ Settle.NoClash (wNet.wire true) w1.2.ledger (wNet.purse w1.2 true) wTxs := by
  have h : (decide (Room wNet w1.2 true) && decide (wTxs.length = 1) && (((wNet.wire true).posts wTxs).all fun q => q.sig.all fun sg =>
        decide (wConfig.prim.smul wConfig.prim.gen sg.sig.1 ≠ sg.sig.2)) &&
      decide (∀ q ∈ Sign.spent wTxs, ∀ d ∈ Sign.spent wTxs,
        (wNet.wire true).nullifier q.1 q.2 = (wNet.wire true).nullifier d.1 d.2 → q = d) &&
      decide (∀ q ∈ Sign.made wTxs, ∀ d ∈ Sign.made wTxs, (wNet.wire true).utxo q = (wNet.wire true).utxo d → q = d) &&
      decide (∀ q ∈ Sign.spent wTxs, ∀ n ∈ w1.2.ledger.nullifiers, n.cm ≠ (wNet.wire true).nullifier q.1 q.2) &&
      decide (∀ q ∈ Sign.made wTxs, (wNet.wire true).utxo q ∉ w1.2.ledger.utxos)) = true := by decide +kernel
  simp only [Bool.and_eq_true, decide_eq_true_eq] at h
  obtain ⟨⟨⟨⟨⟨⟨h1, h2⟩, h3⟩, h4⟩, h5⟩, h6⟩, h7⟩ := h
  refine ⟨h1, h2, ?_, h4, h5, fun q hq _ => h6 q hq, h7⟩
  intro q hq sg e
  have := List.all_eq_true.mp h3 q hq
  rw [e] at this
  exact of_decide_eq_true this

end Verif.Manta
