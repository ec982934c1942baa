import Verif.Settle.ForestProps
import Verif.Pay.Lemmas

/-!
# C113: synchronizing with the forest

The accumulator calls of synchronization (`Verif.Wallet`) on the forest of the signer: insertions of own items, batches of
the items of others, removals of spent coins, and a commit. They meet what payments (`Verif.Pay`, `Verif.World`) assume
of the accumulator.
-/

set_option linter.unusedSectionVars false

namespace Verif.Settle

open Verif.Merkle
open Verif.Transfer (Prim)
open Verif.Ledger (Ix)
open Verif.Wallet (TreeOp inserted marks addRecv)
open Verif.Pay (Env AccLaws replay)

section Forest

variable {D N : Type} [DecidableEq D] [DecidableEq N] {G : Grove D N}

/-- An accumulator call as an operation of the forest. -/
def asOp : TreeOp D → Forest.Op D
  | .insert l => .insert l
  | .insertNonprovable l => .insertNon l
  | .batchNonprovable ls => .batchNon ls
  | .removeProof l => .remove l

/-- Effect of an accumulator call. -/
def Acc.call (a : Acc G) (op : TreeOp D) : Acc G := (a.step (asOp op)).2

/-- Whether inserted leaves can be proved. -/
def wish : TreeOp D → Bool
  | .insert _ => true
  | _ => false

theorem filter_ix (ls : List D) (i : Ix) :
    (ls.filter fun l => decide (G.at l = i.val)) = ls.filter fun l => decide (G.ix l = i) :=
  List.filter_congr fun _ _ => decide_eq_decide.mpr ⟨fun e => Fin.ext e, fun e => congrArg Fin.val e⟩

theorem Acc.pend_take (a : Acc G) (i : Ix) :
    (a.ref i).pend.take (2 ^ (G.h + 1) - (a.ref i).base.length) = (a.ref i).pend :=
  List.take_of_length_le (by have := a.cap i; omega)

/-- Calls other than removals. -/
theorem Acc.call_wishes (a : Acc G) (op : TreeOp D) (hop : ∀ l, op ≠ .removeProof l) (i : Ix) :
    ((a.call op).ref i).base = (a.ref i).base ∧
    ((a.call op).ref i).pend = ((a.ref i).pend ++
      ((inserted [op]).filter fun l => decide (G.ix l = i)).map (·, wish op)).take (2 ^ (G.h + 1) - (a.ref i).base.length) := by
  have hone : ∀ (l : D) (b : Bool) (q : List (D × Bool) × List (D × Bool)),
      q = ((if G.at l = i.val then [if b then Shard.insert l else .insertNon l] else []).foldl
        (Shard.applyW (2 ^ (G.h + 1))) (a.ref i).wishes) →
      q.1 = (a.ref i).base ∧ q.2 = ((a.ref i).pend ++
        (([l] : List D).filter fun l => decide (G.ix l = i)).map (·, b)).take (2 ^ (G.h + 1) - (a.ref i).base.length) := by
    intro l b q hq
    subst hq
    by_cases hi : G.ix l = i
    · subst hi
      have h1 : (if G.at l = (G.ix l).val then [if b then Shard.insert l else .insertNon l] else []) =
          [if b then Shard.insert l else .insertNon l] := if_pos rfl
      rw [h1, List.filter_cons_of_pos (by simp)]
      cases b <;> exact ⟨rfl, rfl⟩
    · have h1 : (if G.at l = i.val then [if b then Shard.insert l else .insertNon l] else []) = [] :=
        if_neg fun e => hi (Fin.ext e)
      rw [h1, List.filter_cons_of_neg (by simpa using hi)]
      refine ⟨rfl, ?_⟩
      simp only [List.filter_nil, List.map_nil, List.append_nil, a.pend_take]
      rfl
  cases op with
  | insert l => exact hone l true _ (step_wishes a (.insert l) rfl rfl i)
  | insertNonprovable l => exact hone l false _ (step_wishes a (.insertNon l) rfl rfl i)
  | batchNonprovable ls =>
    have h := step_wishes a (.batchNon ls) rfl rfl i
    simp only [Forest.proj, List.foldl_cons, List.foldl_nil, Shard.applyW, List.map_id, filter_ix] at h
    have h1 : ((a.call (.batchNonprovable ls)).ref i).base = _ := congrArg Prod.fst h
    have h2 : ((a.call (.batchNonprovable ls)).ref i).pend = _ := congrArg Prod.snd h
    rw [h1, h2]
    simp only [inserted, List.append_nil]
    exact ⟨rfl, rfl⟩
  | removeProof l => exact absurd rfl (hop l)

/-- The leaf was inserted as provable and has not been removed. -/
def Acc.Has (a : Acc G) (l : D) : Prop := (l, true) ∈ (a.ref (G.ix l)).base ++ (a.ref (G.ix l)).pend

theorem Acc.call_view (a : Acc G) (op : TreeOp D) (i : Ix) :
    (a.call op).view i = (a.view i ++ (inserted [op]).filter fun l => decide (G.ix l = i)).take (2 ^ (G.h + 1)) := by
  have hc := a.cap i
  have hv : (a.view i).length = (a.ref i).base.length + (a.ref i).pend.length := by simp [Acc.view, FRef.digests]
  by_cases hop : ∀ l, op ≠ .removeProof l
  · obtain ⟨h1, h2⟩ := a.call_wishes op hop i
    unfold Acc.view FRef.digests
    have h3 : ∀ ds : List D, (ds.map (·, wish op)).map Prod.fst = ds := fun ds => by
      rw [List.map_map]; exact List.map_id' ds
    rw [h1, h2, List.map_take, List.append_assoc, List.take_append, List.map_append, h3, List.length_map,
      List.take_of_length_le (l := (a.ref i).base.map Prod.fst) (by rw [List.length_map]; omega)]
  · obtain ⟨l, rfl⟩ : ∃ l, op = .removeProof l := by
      cases op with
      | removeProof l => exact ⟨l, rfl⟩
      | _ => exact absurd (fun _ => by simp) hop
    have h := (c113_remove a l i).2.1
    refine h.trans ?_
    rw [show inserted [TreeOp.removeProof l] = [] from rfl, List.filter_nil, List.append_nil,
      List.take_of_length_le (by omega)]

theorem Acc.call_has (a : Acc G) (op : TreeOp D)
    (hcl : a.Clear) (hroom : ∀ i, (a.view i).length + (inserted [op]).length ≤ 2 ^ (G.h + 1)) (M : D → Prop)
    (hM : ∀ l, M l → a.Has l) (l : D) (hl : marks M [op] l) : (a.call op).Has l := by
  have hold : (∀ l, op ≠ .removeProof l) → a.Has l → (a.call op).Has l := by
    intro hop h
    obtain ⟨h1, h2⟩ := a.call_wishes op hop (G.ix l)
    have := hroom (G.ix l)
    unfold Acc.view FRef.digests at this
    rw [List.length_append, List.length_map, List.length_map] at this
    have h3 := List.length_filter_le (fun l' => decide (G.ix l' = G.ix l)) (inserted [op])
    unfold Acc.Has at h ⊢
    rw [h1, h2, List.take_of_length_le (by simp only [List.length_append, List.length_map]; omega)]
    rcases List.mem_append.mp h with h | h
    · exact List.mem_append.mpr (.inl h)
    · exact List.mem_append.mpr (.inr (List.mem_append.mpr (.inl h)))
  cases op with
  | insert x =>
    rcases hl with hl | rfl
    · exact hold (fun _ => nofun) (hM l hl)
    · obtain ⟨h1, h2⟩ := a.call_wishes (.insert l) (fun _ => nofun) (G.ix l)
      have := hroom (G.ix l)
      unfold Acc.view FRef.digests at this
      rw [List.length_append, List.length_map, List.length_map] at this
      unfold Acc.Has
      have h4 : ((inserted [TreeOp.insert l]).filter fun l' => decide (G.ix l' = G.ix l)) = [l] := by
        show ([l].filter _) = _
        rw [List.filter_cons_of_pos (by simp), List.filter_nil]
      have h5 : (inserted [TreeOp.insert l]).length = 1 := rfl
      rw [h1, h2, h4, List.take_of_length_le (by simp only [List.length_append, List.length_map, List.length_singleton]; omega)]
      simp [wish]
  | insertNonprovable x => exact hold (fun _ => nofun) (hM l hl)
  | batchNonprovable x => exact hold (fun _ => nofun) (hM l hl)
  | removeProof x =>
    obtain ⟨hl, hn⟩ := hl
    obtain ⟨h1, _, h3⟩ := c113_remove a x (G.ix l)
    have h := hM l hl
    unfold Acc.Has at h ⊢
    show _ ∈ ((a.remove x).2.ref _).base ++ _
    rw [h1]
    rcases List.mem_append.mp h with h | h
    · exact List.mem_append.mpr (.inl h)
    · obtain ⟨j, hj⟩ := List.getElem?_of_mem h
      exact List.mem_append.mpr (.inr (List.mem_of_getElem? (h3 (hcl _) j _ hj hn)))

theorem Acc.commit_ref (a : Acc G) (i : Ix) : a.commit.ref i = FRef.fresh ((a.ref i).base ++ (a.ref i).pend) := by
  simp only [Acc.commit, Acc.each, FRef.step, if_pos (a.cap i), Option.map_some, Option.getD_some]
  congr 2
  exact (List.map_id'' (fun x => rfl) _)

theorem Acc.commit_view (a : Acc G) : a.commit.view = a.view := by
  funext i
  unfold Acc.view
  rw [a.commit_ref]
  simp [FRef.digests, FRef.fresh]

theorem Acc.commit_has (a : Acc G) (l : D) : a.commit.Has l ↔ a.Has l := by
  unfold Acc.Has
  rw [a.commit_ref]
  simp [FRef.fresh]

/-- The calls of one synchronization. -/
theorem Acc.calls (ops : List (TreeOp D)) : ∀ (a : Acc G),
    (∀ i, (ops.foldl Acc.call a).view i =
      (a.view i ++ (inserted ops).filter fun l => decide (G.ix l = i)).take (2 ^ (G.h + 1))) ∧
    ((ops.foldl Acc.call a).Clear → a.Clear) ∧
    ∀ M : D → Prop, (ops.foldl Acc.call a).Clear →
      (∀ i, (a.view i).length + (inserted ops).length ≤ 2 ^ (G.h + 1)) → (∀ l, M l → a.Has l) →
      ∀ l, marks M ops l → (ops.foldl Acc.call a).Has l := by
  induction ops with
  | nil =>
    intro a
    refine ⟨fun i => ?_, id, fun M _ _ h l hl => h l hl⟩
    have := a.cap i
    rw [show inserted ([] : List (TreeOp D)) = [] from rfl, List.filter_nil, List.append_nil,
      List.take_of_length_le (by simp [Acc.view, FRef.digests]; omega)]
    rfl
  | cons op ops ih =>
    intro a
    obtain ⟨i1, i0, i2⟩ := ih (a.call op)
    have hins : inserted (op :: ops) = inserted [op] ++ inserted ops := Verif.Wallet.inserted_append [op] ops
    refine ⟨fun i => ?_, fun hc => (i0 hc).before, fun M hc hroom hM l hl => ?_⟩
    · rw [List.foldl_cons, i1, a.call_view, hins, List.filter_append, ← List.append_assoc, take_take_append]
    · rw [List.foldl_cons]
      have hl' : marks (marks M [op]) ops l := by
        have := Verif.Wallet.marks_append M [op] ops
        rw [List.singleton_append] at this
        rw [← this]; exact hl
      refine i2 (marks M [op]) hc (fun i => ?_) (fun x hx => a.call_has op (i0 hc).before (fun i => ?_) M hM x hx) l hl'
      · have := hroom i
        rw [hins, List.length_append] at this
        have h2 := List.length_filter_le (fun l' => decide (G.ix l' = i)) (inserted [op])
        rw [a.call_view, List.length_take, List.length_append]
        omega
      · have := hroom i
        rw [hins, List.length_append] at this
        omega

/-- No inner node of the tree of a shard was the default digest while these leaves were inserted. -/
def Grove.Sound (G : Grove D N) (ls : List D) : Prop :=
  ∀ i, G.Clear ((ls.filter fun l => decide (G.ix l = i)).take (2 ^ (G.h + 1)))

end Forest

variable {P : Prim} [DecidableEq P.Item] [DecidableEq P.Root] {G : Grove P.Item P.Root}
variable {U Nl : Type}

/-- A wallet whose signer has this forest. -/
structure Housed (W : Wire P (Acc G)) (E : Env U Nl (Ident P) P.Item (Acc G) P.Grp Nat) : Prop where
  sign : E.sign = W.sign
  apply : E.apply = Acc.call
  commit : E.commit = Acc.commit
  shard : E.shard = G.at
  lens : E.lens = fun a => List.ofFn fun i : Ix => (a.view i).length

variable {W : Wire P (Acc G)} {mk : Path P.Item P.Root → P.Wit} {E : Env U Nl (Ident P) P.Item (Acc G) P.Grp Nat}

/-- Synchronizations from a forest. -/
theorem replays (hE : Housed W E) (bs : List (List (TreeOp P.Item))) : ∀ a : Acc G,
    (∀ i, (replay E a bs).view i =
      (a.view i ++ (inserted bs.flatten).filter fun l => decide (G.ix l = i)).take (2 ^ (G.h + 1))) ∧
    ((replay E a bs).Clear → a.Clear) ∧
    (∀ M : P.Item → Prop, (replay E a bs).Clear → (∀ i, (a.view i).length + (inserted bs.flatten).length ≤ 2 ^ (G.h + 1)) → (∀ l, M l → a.Has l) →
      ∀ l, marks M bs.flatten l → (replay E a bs).Has l) ∧
    (bs = [] ∨ ∃ b : Acc G, replay E a bs = b.commit) := by
  induction bs with
  | nil =>
    intro a
    obtain ⟨h1, h0, h2⟩ := Acc.calls ([] : List (TreeOp P.Item)) a
    exact ⟨h1, h0, h2, .inl rfl⟩
  | cons ops bs ih =>
    intro a
    obtain ⟨h1, h0, h2⟩ := Acc.calls ops a
    have hstep : replay E a (ops :: bs) = replay E (ops.foldl Acc.call a).commit bs := by
      unfold replay
      rw [List.foldl_cons, hE.commit, hE.apply]
    have hcom : (ops.foldl Acc.call a).commit.Clear → (ops.foldl Acc.call a).Clear := fun hc =>
      Acc.Clear.before (op := .commit) hc
    obtain ⟨i1, i0, i2, i3⟩ := ih (ops.foldl Acc.call a).commit
    rw [hstep, List.flatten_cons, Verif.Wallet.inserted_append]
    refine ⟨fun i => ?_, fun hc => h0 (hcom (i0 hc)), fun M hc hroom hM l hl => ?_, .inr ?_⟩
    · rw [i1, Acc.commit_view, h1, List.filter_append, ← List.append_assoc, take_take_append]
    · rw [Verif.Wallet.marks_append] at hl
      refine i2 (marks M ops) hc (fun i => ?_) (fun x hx => ?_) l hl
      · have := hroom i
        rw [List.length_append] at this
        have h3 := List.length_filter_le (fun l' => decide (G.ix l' = i)) (inserted ops)
        rw [Acc.commit_view, h1, List.length_take, List.length_append]
        omega
      · rw [Acc.commit_has]
        refine h2 M (hcom (i0 hc)) (fun i => ?_) hM x hx
        have := hroom i
        rw [List.length_append] at this
        omega
    · rcases i3 with rfl | ⟨b, hb⟩
      · exact ⟨_, rfl⟩
      · exact ⟨b, hb⟩

theorem empty_view (i : Ix) : (Acc.empty G).view i = [] := rfl

theorem empty_rollback : (Acc.empty G).rollback = Acc.empty G := by
  refine Acc.ext' (funext fun i => ?_) (funext fun i => rfl)
  obtain ⟨f0, e, _⟩ := Acc.new_rel G
  have hb := new_base e
  have ht : (Acc.empty G).tree i = f0 := by simp only [Acc.empty, e, Option.get_some]
  simp only [Acc.rollback, Acc.each, ht, Forked.step, Forked.reset, hb, e, Option.map_some, Option.getD_some]

theorem addRecv_ofFn (ls : List P.Item) : ∀ f : Ix → Nat,
    addRecv G.at (List.ofFn f) ls = List.ofFn fun i => f i + (ls.filter fun l => decide (G.ix l = i)).length := by
  induction ls with
  | nil =>
    intro f
    have h : (fun i : Ix => f i + (([] : List P.Item).filter fun l => decide (G.ix l = i)).length) = f :=
      funext fun i => Nat.add_zero _
    rw [h]
    unfold addRecv
    rw [List.foldl_nil]
  | cons l ls ih =>
    intro f
    have h1 : addRecv G.at (List.ofFn f) (l :: ls) = addRecv G.at ((List.ofFn f).modify (G.at l) (· + 1)) ls := rfl
    have h2 : (List.ofFn f).modify (G.at l) (· + 1) = List.ofFn fun i => if G.ix l = i then f i + 1 else f i := by
      refine List.ext_getElem (by rw [List.length_modify, List.length_ofFn, List.length_ofFn]) fun j h3 h4 => ?_
      rw [List.getElem_modify, List.getElem_ofFn, List.getElem_ofFn]
      have hj : j < 256 := by rw [List.length_ofFn] at h4; exact h4
      by_cases hi : G.ix l = ⟨j, hj⟩
      · have h5 : G.at l = j := congrArg Fin.val hi
        rw [if_pos h5, if_pos hi]
      · have h5 : G.at l ≠ j := fun e => hi (Fin.ext e)
        rw [if_neg h5, if_neg hi]
    rw [h1, h2, ih]
    congr 1
    funext i
    by_cases hi : G.ix l = i
    · rw [if_pos hi, List.filter_cons_of_pos (by simpa using hi), List.length_cons]; omega
    · rw [if_neg hi, List.filter_cons_of_neg (by simpa using hi)]

theorem replay_clear (hE : Housed W E) (bs : List (List (TreeOp P.Item))) (hs : G.Sound (inserted bs.flatten)) :
    (replay E (Acc.empty G) bs).Clear := by
  refine Acc.clear_of_view fun i => ?_
  rw [(replays hE bs (Acc.empty G)).1, empty_view, List.nil_append]
  exact hs i

/-- C113: what payments assume of the accumulator. -/
theorem c113_wallet (hW : Planted W mk) (hE : Housed W E) :
    AccLaws E (Acc.empty G) Acc.free G.Sound (2 ^ (G.h + 1)) 256 where
  laws := by rw [hE.sign]; exact c113_laws hW
  holds := by
    intro bs l hs hc hn hl
    have hcl := replay_clear hE bs hs
    obtain ⟨h1, _, h2, h3⟩ := replays hE bs (Acc.empty G)
    have hh := h2 (fun _ => False) hcl (fun i => by rw [empty_view]; simpa using hc) (fun _ h => h.elim) l hl
    rcases h3 with rfl | ⟨b, hb⟩
    · exact absurd hl (by simp [marks])
    · rw [hE.sign]
      show W.contains _ l = true
      rw [hW.contains]
      rw [hb] at hh h1 hcl ⊢
      have hb' : (l, true) ∈ (b.commit.ref (G.ix l)).base := by
        unfold Acc.Has at hh
        have hp : (b.commit.ref (G.ix l)).pend = [] := by rw [b.commit_ref]; rfl
        rw [hp, List.append_nil] at hh
        exact hh
      refine c113_contains _ l hb' (hcl _) ?_ (commit_ok b _ (List.ne_nil_of_mem hb'))
      rw [h1, empty_view, List.nil_append]
      exact (hn.sublist List.filter_sublist).sublist (List.take_sublist ..)
  counts := by
    intro bs hc
    obtain ⟨h1, _, _, _⟩ := replays hE bs (Acc.empty G)
    rw [hE.lens, hE.shard]
    have h2 : List.replicate 256 0 = List.ofFn fun _ : Ix => 0 := by
      refine List.ext_getElem (by rw [List.length_replicate, List.length_ofFn]) fun j h3 h4 => ?_
      rw [List.getElem_replicate, List.getElem_ofFn]
    rw [h2, addRecv_ofFn]
    have h5 : (fun i : Ix => ((replay E (Acc.empty G) bs).view i).length) =
        fun i => 0 + ((inserted bs.flatten).filter fun l => decide (G.ix l = i)).length := by
      funext i
      rw [h1, empty_view, List.nil_append, List.take_of_length_le, Nat.zero_add]
      exact Nat.le_trans (List.length_filter_le _ _) hc
    show List.ofFn (fun i : Ix => ((replay E (Acc.empty G) bs).view i).length) = _
    rw [h5]
  room := by
    intro bs hs
    obtain ⟨h1, _, _, _⟩ := replays hE bs (Acc.empty G)
    have : 2 ^ (G.h + 1) - (inserted bs.flatten).length ≤ (replay E (Acc.empty G) bs).free := by
      rw [Acc.le_free _ (replay_clear hE bs hs)]
      refine ⟨Nat.sub_le _ _, fun i => ?_⟩
      have h3 := List.length_filter_le (fun l' => decide (G.ix l' = i)) (inserted bs.flatten)
      rw [h1, empty_view, List.nil_append, List.length_take]
      omega
    omega
  committed := by
    intro bs hs
    have hcl := replay_clear hE bs hs
    rw [hE.sign]
    show W.rollback _ = _
    rw [hW.rollback]
    rcases (replays hE bs (Acc.empty G)).2.2.2 with rfl | ⟨b, hb⟩
    · exact empty_rollback
    · rw [hb] at hcl ⊢; exact b.rollback_commit hcl

/-! ## A wallet with a forest -/

open Verif.Sign (Receiver)

/-- UTXOs are outputs, nullifiers coins; the items of others differ in the last entry. -/
def fPar : Verif.Wallet.Params (Receiver (Ident fP) Nat) (Ident fP × Verif.Asset.Asset) (Ident fP) (List Nat) where
  openNote r := match r.owner with
    | .self => some (r.key, r.asset)
    | .other _ => none
  nullifier := Prod.mk
  openable _ := true
  leaf r := match r.owner with
    | .self => fWire.leaf r.key r.asset
    | .other b => fWire.leaf r.key r.asset ++ [b]
  spendLeaf k a := fWire.leaf k a

def fEnv : Env (Receiver (Ident fP) Nat) (Ident fP × Verif.Asset.Asset) (Ident fP) (List Nat) (Acc fG) Nat Nat where
  bs := Verif.Asset.linSearch
  layout := Verif.Asset.idLayout
  par := fPar
  shard := fG.at
  sign := fWire.sign
  apply := Acc.call
  commit := Acc.commit
  lens a := List.ofFn fun i : Ix => (a.view i).length

theorem fEnv_housed : Housed fWire fEnv := ⟨rfl, rfl, rfl, rfl, by simp only [fEnv]⟩

/-- Calls of two synchronizations: a batch of others and two own coins, in two shards; then one is spent and another
received. -/
def fCalls : List (List (TreeOp (List Nat))) :=
  [[.batchNonprovable [[1], [2, 31], [3]], .insert [4], .batchNonprovable [[5]], .insert [6, 32]],
   [.removeProof [4], .batchNonprovable [[7]], .insert [8]]]

example : AccLaws fEnv (Acc.empty fG) Acc.free fG.Sound 16 256 := c113_wallet fWire_planted fEnv_housed

example : fG.Sound (inserted fCalls.flatten) ∧ (inserted fCalls.flatten).length ≤ 16 ∧ (inserted fCalls.flatten).Nodup ∧
    marks (fun _ => False) fCalls.flatten [6, 32] ∧ ¬ marks (fun _ => False) fCalls.flatten [4] ∧
    (replay fEnv (Acc.empty fG) fCalls).contains [6, 32] = true ∧
    (replay fEnv (Acc.empty fG) fCalls).contains [9] = false := by
  refine ⟨fun _ => fG.clear_of fG_nd _, by decide, by decide, ?_, ?_, by decide +kernel, by decide +kernel⟩
  · simp [fCalls, marks]
  · simp [fCalls, marks]

end Verif.Settle
