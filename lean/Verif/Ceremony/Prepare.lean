import Verif.Ceremony.Verifier

/-!
# C125: preparing a ceremony

`initialize` and `prepare`, manta-trusted-setup/src/groth16/ceremony/coordinator.rs:425-535. Reading the powers of the first
phase is C107 and C110, `mpc::initialize` is C93; here they are a parameter that may fail (a panic).
-/

namespace Verif.Ceremony

open Verif.Util

variable {I VK Sig St Ch Pf Nm Circ : Type} [DecidableEq I] [DecidableEq Nm]

/-! ## Model -/

/-- One file written by `prepare`. -/
inductive PrepWrite (I VK St Ch Pf Nm : Type)
  | file (w : Write I VK St Ch Pf Nm)
  /-- `circuit_names`, coordinator.rs:508-513. -/
  | names (nms : List Nm)

/-- `serialize_into_file` with `truncate`: the content is replaced. -/
def Disk.prepWrite (d : Disk I VK St Ch Pf Nm) : PrepWrite I VK St Ch Pf Nm → Disk I VK St Ch Pf Nm
  | .file w => d.write w
  | .names nms => { d with names := some nms }

def Disk.prepWrites (d : Disk I VK St Ch Pf Nm) (ws : List (PrepWrite I VK St Ch Pf Nm)) : Disk I VK St Ch Pf Nm :=
  ws.foldl Disk.prepWrite d

/-- `initialize`, coordinator.rs:428-443: the state and the hash of its proving key. -/
def initializeCircuit (init : Circ → Option St) (hash : St → Ch) (c : Circ) : Option (Ch × St) :=
  match init c with
  | none => none
  | some s => some (hash s, s)

/-- The loop of `prepare` over the circuits, coordinator.rs:479-506: the files written in order, and whether it got through. -/
def prepareLoop (init : Circ → Option St) (hash : St → Ch) :
    List (Circ × Nm) → List (PrepWrite I VK St Ch Pf Nm) × Bool
  | [] => ([], true)
  | (c, nm) :: rest =>
    match initializeCircuit init hash c with
    | none => ([], false)
    | some (ch, s) =>
      let r := prepareLoop init hash rest
      (.file (.state nm 0 s) :: .file (.challenge nm 0 ch) :: r.1, r.2)

/-- `prepare`, coordinator.rs:446-535: the files in the order in which they are written. -/
def prepareWrites (init : Circ → Option St) (hash : St → Ch) (circuits : List (Circ × Nm)) :
    List (PrepWrite I VK St Ch Pf Nm) × Bool :=
  let r := prepareLoop init hash circuits
  if r.2 then
    (r.1 ++ [.names (circuits.map Prod.snd), .file (.roundNumber 0), .file (.registry 0 [])], true)
  else (r.1, false)

/-- The directory after `prepare`. -/
def Disk.prepare (d : Disk I VK St Ch Pf Nm) (init : Circ → Option St) (hash : St → Ch) (circuits : List (Circ × Nm)) :
    Disk I VK St Ch Pf Nm :=
  d.prepWrites (prepareWrites init hash circuits).1

/-- The empty directory. -/
def Disk.fresh : Disk I VK St Ch Pf Nm :=
  { state := fun _ _ => none, challenge := fun _ _ => none, proof := fun _ _ => none, registry := fun _ => none,
    names := none, roundNumber := none }

/-- The server that `recover` builds from a directory, server.rs:118-225. -/
def Disk.boot (d : Disk I VK St Ch Pf Nm) (N now : Nat) : Option (Server I VK St Ch Pf Nm) :=
  match d.recover N with
  | .error _ => none
  | .ok (m, r) =>
    some { reg := r, lq := { queue := MDeque.empty 2, lock := none, since := now }, mpc := m, disk := d, started := [],
           applied := [] }

/-! ## Proofs -/

omit [DecidableEq I] in
theorem prepWrites_append (d : Disk I VK St Ch Pf Nm) (a b : List (PrepWrite I VK St Ch Pf Nm)) :
    d.prepWrites (a ++ b) = (d.prepWrites a).prepWrites b := by
  simp [Disk.prepWrites]

omit [DecidableEq I] in
theorem prepWrites_files (d : Disk I VK St Ch Pf Nm) (ws : List (Write I VK St Ch Pf Nm)) :
    d.prepWrites (ws.map .file) = d.writes ws := by
  induction ws generalizing d with
  | nil => rfl
  | cons w ws ih =>
    have := ih (d.write w)
    simpa [Disk.prepWrites, Disk.writes, Disk.prepWrite] using this

omit [DecidableEq I] [DecidableEq Nm] in
theorem prepareLoop_eq (init : Circ → Option St) (hash : St → Ch) (circuits : List (Circ × Nm)) (states : List St)
    (h : circuits.map (fun x => init x.1) = states.map some) :
    (prepareLoop init hash circuits : List (PrepWrite I VK St Ch Pf Nm) × Bool) =
      ((stateWrites 0 (states.map fun s => (s, hash s)) (circuits.map Prod.snd)).map .file, true) := by
  induction circuits generalizing states with
  | nil =>
    cases states with
    | nil => rfl
    | cons _ _ => cases h
  | cons x rest ih =>
    cases states with
    | nil => cases h
    | cons s states =>
      simp only [List.map_cons, List.cons.injEq] at h
      obtain ⟨c, nm⟩ := x
      simp only [prepareLoop, initializeCircuit, h.1, ih states h.2]
      rfl

omit [DecidableEq I] [DecidableEq Nm] in
/-- Writing in the loop neither touches the registries nor the round number. -/
theorem prepareLoop_mem (init : Circ → Option St) (hash : St → Ch) (circuits : List (Circ × Nm)) :
    ∀ w ∈ (prepareLoop init hash circuits : List (PrepWrite I VK St Ch Pf Nm) × Bool).1,
      ∃ w', w = .file w' ∧ w'.AtRound 0 := by
  induction circuits with
  | nil => intro w hw; cases hw
  | cons x rest ih =>
    obtain ⟨c, nm⟩ := x
    intro w hw
    simp only [prepareLoop] at hw
    split at hw
    · cases hw
    · simp only [List.mem_cons] at hw
      rcases hw with rfl | rfl | hw
      · exact ⟨_, rfl, rfl⟩
      · exact ⟨_, rfl, rfl⟩
      · exact ih w hw

omit [DecidableEq I] in
theorem prepare_disk (d : Disk I VK St Ch Pf Nm) (init : Circ → Option St) (hash : St → Ch) (circuits : List (Circ × Nm))
    (states : List St) (h : circuits.map (fun x => init x.1) = states.map some) :
    d.prepare init hash circuits =
      { (d.writes (stateWrites 0 (states.map fun s => (s, hash s)) (circuits.map Prod.snd))) with
        names := some (circuits.map Prod.snd)
        roundNumber := some 0
        registry := fun k => if k = 0 then some [] else d.registry k } := by
  classical
  have hk := (writes_keep (stateWrites 0 (states.map fun s => (s, hash s)) (circuits.map Prod.snd)) d 0 (by
    intro w hw
    obtain ⟨nm, _, ⟨_, rfl⟩ | ⟨_, rfl⟩⟩ := stateWrites_mem _ _ _ _ hw <;> rfl)).2.2.1
  unfold Disk.prepare prepareWrites
  rw [prepareLoop_eq init hash circuits states h]
  simp only [if_true, prepWrites_append, prepWrites_files]
  simp only [Disk.prepWrites, List.foldl_cons, List.foldl_nil, Disk.prepWrite, Disk.write]
  rw [hk]

/-! ## Theorems -/

omit [DecidableEq I] in
/-- **C125.** Whatever was in the directory before, the coordinator started from it after `prepare` is in round zero, with for
every circuit the initial state and the hash of its proving key, in the order of the circuits, no proof, and an empty
registry. -/
theorem c125_starts (d : Disk I VK St Ch Pf Nm) (init : Circ → Option St) (hash : St → Ch) (circuits : List (Circ × Nm))
    (states : List St) (h : circuits.map (fun x => init x.1) = states.map some) (hn : (circuits.map Prod.snd).Nodup) :
    (d.prepare init hash circuits).recover circuits.length =
      .ok ({ state := states, challenge := states.map hash, proof := none, round := 0 }, []) := by
  have hl : circuits.length = states.length := by
    have := congrArg List.length h
    simpa using this
  have hr := (stateWrites_read 0 (states.map fun s => (s, hash s)) (circuits.map Prod.snd) hn
    (by simp [hl]) d).1
  rw [prepare_disk d init hash circuits states h]
  unfold Disk.recover
  simp only
  rw [if_neg (by simp)]
  rw [recoverLoop_reads _ 0 _ states (states.map hash) [] (by simp [hl]) (by simp [hl]) (by simp)
    (fun i nm s c hi hs hc => ?_) (fun h => absurd h (by omega))]
  · simp
  · have : c = hash s := by
      rw [List.getElem?_map, hs] at hc
      simpa using hc.symm
    subst this
    exact hr i nm s (hash s) hi (by rw [List.getElem?_map, hs]; rfl)

/-- **C125, a fresh directory.** Started from a directory that was empty before `prepare`, the coordinator meets the
conditions under which recovery (C45) and verification of the transcript (C101) are proved. -/
theorem c125_prepared (init : Circ → Option St) (hash : St → Ch) (circuits : List (Circ × Nm)) (states : List St)
    (h : circuits.map (fun x => init x.1) = states.map some) (hn : (circuits.map Prod.snd).Nodup) (now : Nat) :
    ∃ s : Server I VK St Ch Pf Nm, (Disk.fresh.prepare init hash circuits).boot circuits.length now = some s ∧
      Prepared s (circuits.map Prod.snd) ∧ NoLater s (circuits.map Prod.snd) ∧
      s.mpc.round = 0 ∧ s.reg = [] := by
  have hrec := c125_starts (I := I) (VK := VK) (Pf := Pf) Disk.fresh init hash circuits states h hn
  have hl : circuits.length = states.length := by
    have := congrArg List.length h
    simpa using this
  refine ⟨_, by unfold Disk.boot; rw [hrec], ?_, ?_, rfl, rfl⟩
  · refine ⟨hn, ⟨by simp [hl], by simp [hl], fun _ => rfl, fun h => absurd rfl h⟩, ⟨?_, ?_, ?_, fun _ => rfl,
      fun h => absurd rfl h⟩, ⟨rfl, rfl⟩, ?_, ?_⟩
    · rw [prepare_disk _ init hash circuits states h]
    · rw [prepare_disk _ init hash circuits states h]
    · have hr := (stateWrites_read 0 (states.map fun s => (s, hash s)) (circuits.map Prod.snd) hn
        (by simp [hl]) (Disk.fresh : Disk I VK St Ch Pf Nm)).1
      rw [prepare_disk _ init hash circuits states h]
      refine recoverLoop_reads _ 0 _ states (states.map hash) [] (by simp [hl]) (by simp [hl]) (by simp)
        (fun i nm s c hi hs hc => ?_) (fun h => absurd h (by omega))
      have : c = hash s := by
        rw [List.getElem?_map, hs] at hc
        simpa using hc.symm
      subst this
      exact hr i nm s (hash s) hi (by rw [List.getElem?_map, hs]; rfl)
    · rw [prepare_disk _ init hash circuits states h]
      simp
    · intro k hk
      rw [prepare_disk _ init hash circuits states h]
      simp only [Disk.fresh]
      simp only at hk
      rw [if_neg (by omega)]
  · intro k hk nm _
    rw [prepare_disk _ init hash circuits states h]
    simp only at hk ⊢
    have := (writes_keep (stateWrites 0 (states.map fun s => (s, hash s)) (circuits.map Prod.snd))
      (Disk.fresh : Disk I VK St Ch Pf Nm) 0 (by
        intro w hw
        obtain ⟨nm, _, ⟨_, rfl⟩ | ⟨_, rfl⟩⟩ := stateWrites_mem _ _ _ _ hw <;> rfl)).2.2.2 nm k (by omega)
    exact this.1

omit [DecidableEq I] in
/-- **C125, an interrupted preparation.** If `prepare` panics, or is killed before its last file, in a directory that was
empty, then no coordinator starts from it. -/
theorem c125_interrupted (init : Circ → Option St) (hash : St → Ch) (circuits : List (Circ × Nm)) (j N now : Nat)
    (h : (prepareWrites init hash circuits : List (PrepWrite I VK St Ch Pf Nm) × Bool).2 = false ∨
      j < (prepareWrites init hash circuits : List (PrepWrite I VK St Ch Pf Nm) × Bool).1.length) :
    ((Disk.fresh : Disk I VK St Ch Pf Nm).prepWrites ((prepareWrites init hash circuits).1.take j)).boot N now = none := by
  classical
  have key : ∀ (ws : List (PrepWrite I VK St Ch Pf Nm)) (d : Disk I VK St Ch Pf Nm), (∀ k, d.registry k = none) →
      (∀ w ∈ ws, ∀ k r, w ≠ .file (.registry k r)) → ∀ k, (d.prepWrites ws).registry k = none := by
    intro ws
    induction ws with
    | nil => intro d hd _; exact hd
    | cons w ws ih =>
      intro d hd hw
      have h1 := hw w List.mem_cons_self
      refine ih (d.prepWrite w) ?_ fun w' hw' => hw w' (List.mem_cons_of_mem _ hw')
      intro k
      cases w with
      | names _ => exact hd k
      | file w =>
        cases w with
        | registry k' r => exact absurd rfl (h1 k' r)
        | _ => exact hd k
  have hloop : ∀ w ∈ (prepareLoop init hash circuits : List (PrepWrite I VK St Ch Pf Nm) × Bool).1,
      ∀ k r, w ≠ .file (.registry k r) := by
    intro w hw k r e
    obtain ⟨w', rfl, ha⟩ := prepareLoop_mem init hash circuits w hw
    injection e with e
    subst e
    exact ha
  have hreg : ∀ k, ((Disk.fresh : Disk I VK St Ch Pf Nm).prepWrites ((prepareWrites init hash circuits).1.take j)).registry k
      = none := by
    refine key _ _ (fun _ => rfl) ?_
    intro w hw
    unfold prepareWrites at h hw
    simp only at h hw
    split at hw
    · rename_i hc
      rw [if_pos hc] at h
      simp only [Bool.true_eq_false, List.length_append, List.length_cons, List.length_nil, false_or] at h
      generalize (prepareLoop init hash circuits : List (PrepWrite I VK St Ch Pf Nm) × Bool).1 = l at *
      have hl : (l ++ [PrepWrite.names (circuits.map Prod.snd), .file (.roundNumber 0), .file (.registry 0 [])]) =
          (l ++ [PrepWrite.names (circuits.map Prod.snd), .file (.roundNumber 0)]) ++ [.file (.registry 0 [])] := by simp
      rw [hl, List.take_append_of_le_length (by simp; omega)] at hw
      have := List.mem_of_mem_take hw
      simp only [List.mem_append, List.mem_cons, List.not_mem_nil, or_false] at this
      intro k r
      rcases this with h' | rfl | rfl
      · exact hloop w h' k r
      · simp
      · simp
    · exact hloop w (List.mem_of_mem_take hw)
  unfold Disk.boot Disk.recover
  generalize ((Disk.fresh : Disk I VK St Ch Pf Nm).prepWrites ((prepareWrites init hash circuits).1.take j)) = d at hreg
  cases d.roundNumber with
  | none => rfl
  | some k =>
    cases d.names with
    | none => rfl
    | some names =>
      simp only
      by_cases hN : names.length ≠ N
      · rw [if_pos hN]
      · rw [if_neg hN, hreg k]
        cases recoverLoop d k names <;> rfl

omit [DecidableEq I] [DecidableEq Nm] in
/-- **C125, failures.** The preparation fails exactly if some circuit cannot be initialized. -/
theorem c125_fails (init : Circ → Option St) (hash : St → Ch) (circuits : List (Circ × Nm)) :
    (prepareWrites init hash circuits : List (PrepWrite I VK St Ch Pf Nm) × Bool).2 = false ↔
      ∃ x ∈ circuits, init x.1 = none := by
  have key : (prepareLoop init hash circuits : List (PrepWrite I VK St Ch Pf Nm) × Bool).2 = false ↔
      ∃ x ∈ circuits, init x.1 = none := by
    induction circuits with
    | nil => simp [prepareLoop]
    | cons x rest ih =>
      obtain ⟨c, nm⟩ := x
      simp only [prepareLoop, initializeCircuit]
      cases hc : init c with
      | none => simp [hc]
      | some s => simp [hc, ih]
  rw [← key]
  unfold prepareWrites
  simp only
  split
  · rename_i e
    simp [e]
  · rename_i e
    simp [e]

/-! ## Cases -/

/-- Two circuits with numbers as states. -/
example : ((Disk.fresh : Disk Nat Nat Nat Nat Nat String).prepare (fun c => some (c + 1)) (fun s => s * 10)
      [(1, "a"), (2, "b")]).recover 2 = .ok (⟨[2, 3], [20, 30], none, 0⟩, []) :=
  c125_starts Disk.fresh _ _ [(1, "a"), (2, "b")] [2, 3] rfl (by decide)

/-- A circuit for which the powers do not suffice: the preparation panics after the first circuit. -/
example : (prepareWrites (fun c => if c = 2 then none else some c) id [(1, "a"), (2, "b")] :
    List (PrepWrite Nat Nat Nat Nat Nat String) × Bool).2 = false := by decide

/-- The ceremony before: somebody has contributed in round 1. -/
def oldRegistry : Registry Nat Nat := [(7, ⟨.normal, 7, 3, true⟩)]

/-- The directory of an earlier ceremony with one round. -/
def usedDisk : Disk Nat Nat Nat Nat Nat String :=
  { (Disk.fresh : Disk Nat Nat Nat Nat Nat String) with registry := fun k => if k = 1 then some oldRegistry else none }

/-- **C125 is false of the code for a directory that was used before.** `prepare` does not remove the registries of later
rounds of an earlier ceremony. A coordinator that is killed between the files of round 1 and its registry then does not
refuse to start, as it does otherwise (C45), but starts with the registry of the earlier ceremony, in which participant 7
is marked as having contributed. -/
theorem c125_used_violated : ∃ (m : Sclp Nat Nat Nat) (names : List String),
    m.Shape names.length ∧ m.round = 1 ∧
    let used := usedDisk.prepare (fun c : Nat => some c) id [(1, "a"), (2, "b")]
    let fresh := (Disk.fresh : Disk Nat Nat Nat Nat Nat String).prepare (fun c : Nat => some c) id [(1, "a"), (2, "b")]
    (fresh.writes (m.saveWrites names)).recover 2 = .error .serialization ∧
    (used.writes (m.saveWrites names)).recover 2 = .ok (m, oldRegistry) := by
  refine ⟨⟨[5, 6], [50, 60], some [0, 0], 1⟩, ["a", "b"], ⟨rfl, rfl, (fun h => by cases h), fun _ => ⟨_, rfl, rfl⟩⟩, rfl,
    ?_, ?_⟩
  · rfl
  · rfl

end Verif.Ceremony
