import Verif.Ceremony.Recovery

/-!
# C144: requests of the ceremony server take effect one after another

`Ceremony/Model.lean` treats each section of a request of `manta-trusted-setup/src/groth16/ceremony/server.rs`, from its first lock
to its last unlock, as one step. Here the sections are taken apart: a request is a program that takes and releases locks and
reads and writes what is behind them, and its next action depends on what it has read. The actions of all requests are
interleaved in any way that the locks allow.
-/

namespace Verif.Ceremony.Serial

/-! ## Programs with locks -/

variable {Lk : Type} [DecidableEq Lk] {D : Lk → Type} {A : Type}

/-- What is behind each lock. -/
abbrev Data (D : Lk → Type) := (l : Lk) → D l

/-- A request: the answer, taking a lock, releasing it, changing what is behind it and going on depending on what was there,
or a point between two sections. -/
inductive Prog (D : Lk → Type) (A : Type)
  | done (a : A)
  | lock (l : Lk) (k : Prog D A)
  | unlock (l : Lk) (k : Prog D A)
  | use (l : Lk) (f : D l → D l) (k : D l → Prog D A)
  | pause (k : Prog D A)

def put (σ : Data D) (l : Lk) (v : D l) : Data D := fun j => if h : j = l then h ▸ v else σ j

/-- A section without interruption: up to the next point between sections. -/
def run : Prog D A → Data D → Data D × Prog D A
  | .done a, σ => (σ, .done a)
  | .lock _ k, σ => run k σ
  | .unlock _ k, σ => run k σ
  | .use l f k, σ => run (k (σ l)) (put σ l (f (σ l)))
  | .pause k, σ => (σ, k)

/-- A request that is being processed. -/
structure Thr (D : Lk → Type) (A : Type) where
  prog : Prog D A
  held : List Lk

structure Conc (D : Lk → Type) (A : Type) where
  data : Data D
  thr : List (Thr D A)

/-- One action of one request. (A request that arrives later is one that begins later.) -/
inductive Step (c : Conc D A) : Conc D A → Prop
  | lock (i : Nat) (l : Lk) (k : Prog D A) (h : List Lk) : c.thr[i]? = some ⟨.lock l k, h⟩ →
      (∀ t ∈ c.thr, l ∉ t.held) → Step c ⟨c.data, c.thr.set i ⟨k, l :: h⟩⟩
  | unlock (i : Nat) (l : Lk) (k : Prog D A) (h : List Lk) : c.thr[i]? = some ⟨.unlock l k, h⟩ →
      Step c ⟨c.data, c.thr.set i ⟨k, h.erase l⟩⟩
  | use (i : Nat) (l : Lk) (f : D l → D l) (k : D l → Prog D A) (h : List Lk) : c.thr[i]? = some ⟨.use l f k, h⟩ →
      Step c ⟨put c.data l (f (c.data l)), c.thr.set i ⟨k (c.data l), h⟩⟩
  | pause (i : Nat) (k : Prog D A) (h : List Lk) : c.thr[i]? = some ⟨.pause k, h⟩ →
      Step c ⟨c.data, c.thr.set i ⟨k, h⟩⟩

inductive Steps : Conc D A → Conc D A → Prop
  | refl (c : Conc D A) : Steps c c
  | tail {a b c : Conc D A} : Steps a b → Step b c → Steps a c

/-! ## Specification: one section at a time -/

structure Seq (D : Lk → Type) (A : Type) where
  data : Data D
  prog : List (Prog D A)

/-- A whole section of one request. -/
inductive Section (a : Seq D A) : Seq D A → Prop
  | section (i : Nat) (p : Prog D A) : a.prog[i]? = some p →
      Section a ⟨(run p a.data).1, a.prog.set i (run p a.data).2⟩

inductive Sections : Seq D A → Seq D A → Prop
  | refl (c : Seq D A) : Sections c c
  | tail {a b c : Seq D A} : Sections a b → Section b c → Sections a c

/-- Two-phase locking: what is used is held, nothing is locked after something was released in the same section (`g`), and
nothing is held between sections or at the end. -/
def TwoPhase : Bool → List Lk → Prog D A → Prop
  | _, h, .done _ => h = []
  | g, h, .lock l k => g = false ∧ l ∉ h ∧ TwoPhase false (l :: h) k
  | _, h, .unlock l k => l ∈ h ∧ TwoPhase true (h.erase l) k
  | g, h, .use l _ k => l ∈ h ∧ ∀ d, TwoPhase g h (k d)
  | _, h, .pause k => h = [] ∧ TwoPhase false [] k

/-! ## Proof -/

theorem put_self (σ : Data D) (l : Lk) (v : D l) : put σ l v l = v := by simp [put]

theorem put_ne (σ : Data D) {l j : Lk} (v : D l) (h : j ≠ l) : put σ l v j = σ j := by simp [put, h]

/-- After the first release a section touches only what is held. -/
theorem run_touch (p : Prog D A) : ∀ (h : List Lk) (σ : Data D) (l : Lk), TwoPhase true h p → l ∉ h →
    (run p σ).1 l = σ l := by
  induction p with
  | done a => intro h σ l _ _; rfl
  | lock l k _ => intro h σ l' hp; exact absurd hp.1 (by decide)
  | unlock l k ih =>
    intro h σ l' hp hl
    exact ih _ σ l' hp.2 fun hc => hl (List.mem_of_mem_erase hc)
  | use l f k ih =>
    intro h σ l' hp hl
    have := ih (σ l) h (put σ l (f (σ l))) l' (hp.2 _) hl
    rw [put_ne _ _ (fun e : l' = l => hl (e ▸ hp.1))] at this
    exact this
  | pause k _ => intro h σ l _ _; rfl

/-- And depends only on that. -/
theorem run_local (p : Prog D A) : ∀ (h : List Lk) (σ τ : Data D), TwoPhase true h p → (∀ l ∈ h, σ l = τ l) →
    (run p σ).2 = (run p τ).2 ∧ ∀ l ∈ h, (run p σ).1 l = (run p τ).1 l := by
  induction p with
  | done a => intro h σ τ _ he; exact ⟨rfl, he⟩
  | lock l k _ => intro h σ τ hp; exact absurd hp.1 (by decide)
  | unlock l k ih =>
    intro h σ τ hp he
    obtain ⟨h1, h2⟩ := ih _ σ τ hp.2 fun x hx => he x (List.mem_of_mem_erase hx)
    refine ⟨h1, fun x hx => ?_⟩
    show (run k σ).1 x = (run k τ).1 x
    by_cases hm : x ∈ h.erase l
    · exact h2 x hm
    · rw [run_touch k _ σ x hp.2 hm, run_touch k _ τ x hp.2 hm, he x hx]
  | use l f k ih =>
    intro h σ τ hp he
    have e := he l hp.1
    simp only [run]
    rw [← e]
    refine ih (σ l) h _ _ (hp.2 _) fun x hx => ?_
    by_cases hxl : x = l
    · subst hxl; rw [put_self, put_self]
    · rw [put_ne _ _ hxl, put_ne _ _ hxl, he x hx]
  | pause k _ => intro h σ τ _ he; exact ⟨rfl, he⟩

/-- Some of the data and the rest of other data. -/
def mix (h : List Lk) (σ ρ : Data D) : Data D := fun l => if l ∈ h then σ l else ρ l

theorem mix_self (h : List Lk) (σ : Data D) : mix h σ σ = σ := by
  funext l; simp [mix]

theorem mix_congr {h : List Lk} {σ τ : Data D} (he : ∀ l ∈ h, σ l = τ l) (ρ : Data D) : mix h σ ρ = mix h τ ρ := by
  funext l
  simp only [mix]
  split
  · next hl => exact he l hl
  · rfl

/-- How far a request (`p`, with the data `σ` behind its locks) is compared with the same request in a sequential
execution (`q`, with the data `τ`): before the first release its section has not begun there, afterwards it is over. -/
def Match (σ τ : Data D) (p : Prog D A) (h : List Lk) (q : Prog D A) : Prop :=
  (TwoPhase false h p ∧ (h = [] → p = q) ∧ ∀ ρ, run p (mix h σ ρ) = run q (mix h τ ρ)) ∨
  (TwoPhase true h p ∧ (run p σ).2 = q ∧ ∀ l ∈ h, (run p σ).1 l = τ l)

theorem match_congr {σ τ σ' τ' : Data D} {p q : Prog D A} {h : List Lk} (hm : Match σ τ p h q)
    (h1 : ∀ l ∈ h, σ l = σ' l) (h2 : ∀ l ∈ h, τ l = τ' l) : Match σ' τ' p h q := by
  rcases hm with ⟨a, b, c⟩ | ⟨a, b, c⟩
  · refine Or.inl ⟨a, b, fun ρ => ?_⟩
    rw [← mix_congr h1, ← mix_congr h2]
    exact c ρ
  · obtain ⟨e1, e2⟩ := run_local p h σ σ' a h1
    exact Or.inr ⟨a, e1 ▸ b, fun l hl => by rw [← e2 l hl, c l hl, h2 l hl]⟩

/-- The relation between the two executions. -/
structure Rel (c : Conc D A) (a : Seq D A) : Prop where
  length : a.prog.length = c.thr.length
  thr : ∀ (i : Nat) (t : Thr D A) (q : Prog D A), c.thr[i]? = some t → a.prog[i]? = some q →
    t.held.Nodup ∧ Match c.data a.data t.prog t.held q
  excl : ∀ (i j : Nat) (t u : Thr D A) (l : Lk), c.thr[i]? = some t → c.thr[j]? = some u → l ∈ t.held → l ∈ u.held → i = j
  free : ∀ l, (∀ t ∈ c.thr, l ∉ t.held) → c.data l = a.data l

theorem getElem?_set' {α : Type} {l : List α} {i j : Nat} {x y z : α} (hi : l[i]? = some z) (h : (l.set i x)[j]? = some y) :
    (j = i ∧ y = x) ∨ (j ≠ i ∧ l[j]? = some y) := by
  have hlt := (List.getElem?_eq_some_iff.1 hi).1
  rw [List.getElem?_set] at h
  by_cases e : i = j
  · rw [if_pos e, if_pos hlt] at h
    exact Or.inl ⟨e.symm, (Option.some.inj h).symm⟩
  · rw [if_neg e] at h
    exact Or.inr ⟨fun h => e h.symm, h⟩

/-- The request `i` changes, keeping some of its locks and perhaps a free one; the data change only behind its locks. -/
theorem Rel.update {c : Conc D A} {a : Seq D A} (r : Rel c a) {i : Nat} {t t' : Thr D A} {q q' : Prog D A} {σ τ : Data D}
    (hi : c.thr[i]? = some t) (hq : a.prog[i]? = some q)
    (hσ : ∀ l, l ∉ t.held → c.data l = σ l) (hτ : ∀ l, l ∉ t.held → a.data l = τ l)
    (hh : ∀ l ∈ t'.held, l ∈ t.held ∨ ∀ u ∈ c.thr, l ∉ u.held)
    (hn : t'.held.Nodup) (hm : Match σ τ t'.prog t'.held q')
    (hf : ∀ l ∈ t.held, l ∉ t'.held → σ l = τ l) :
    Rel ⟨σ, c.thr.set i t'⟩ ⟨τ, a.prog.set i q'⟩ where
  length := by simp [r.length]
  thr := by
    intro j u w hu hw
    rcases getElem?_set' hi hu with ⟨rfl, rfl⟩ | ⟨hj, hu⟩
    · rcases getElem?_set' hq hw with ⟨_, rfl⟩ | ⟨hj, _⟩
      · exact ⟨hn, hm⟩
      · exact absurd rfl hj
    · rcases getElem?_set' hq hw with ⟨rfl, _⟩ | ⟨_, hw⟩
      · exact absurd rfl hj
      · obtain ⟨h1, h2⟩ := r.thr j u w hu hw
        have hd : ∀ l ∈ u.held, l ∉ t.held := fun l hl hc => hj (r.excl j i u t l hu hi hl hc)
        exact ⟨h1, match_congr h2 (fun l hl => hσ l (hd l hl)) fun l hl => hτ l (hd l hl)⟩
  excl := by
    intro j k u w l hu hw hl hl'
    rcases getElem?_set' hi hu with ⟨rfl, rfl⟩ | ⟨hj, hu'⟩
    · rcases getElem?_set' hi hw with ⟨rfl, rfl⟩ | ⟨hk, hw⟩
      · rfl
      · rcases hh l hl with h1 | h1
        · exact r.excl j k t w l hi hw h1 hl'
        · exact absurd hl' (h1 w (List.mem_of_getElem? hw))
    · rcases getElem?_set' hi hw with ⟨rfl, rfl⟩ | ⟨hk, hw⟩
      · rcases hh l hl' with h1 | h1
        · exact r.excl j k u t l hu' hi hl h1
        · exact absurd hl (h1 u (List.mem_of_getElem? hu'))
      · exact r.excl j k u w l hu' hw hl hl'
  free := by
    intro l hl
    have hlt := (List.getElem?_eq_some_iff.1 hi).1
    have h' : l ∉ t'.held := hl t' (List.mem_iff_getElem?.2 ⟨i, by simp [hlt]⟩)
    by_cases ht : l ∈ t.held
    · exact hf l ht h'
    · show σ l = τ l
      rw [← hσ l ht, ← hτ l ht]
      apply r.free
      intro u hu hc
      obtain ⟨j, hj⟩ := List.mem_iff_getElem?.1 hu
      by_cases e : j = i
      · subst e
        rw [hi] at hj
        cases hj
        exact ht hc
      · exact hl u (List.mem_iff_getElem?.2 ⟨j, by rw [List.getElem?_set_ne (fun h => e h.symm)]; exact hj⟩) hc

theorem Rel.get {c : Conc D A} {a : Seq D A} (r : Rel c a) {i : Nat} {t : Thr D A} (h : c.thr[i]? = some t) :
    ∃ q, a.prog[i]? = some q := by
  have := (List.getElem?_eq_some_iff.1 h).1
  rw [← r.length] at this
  exact ⟨_, List.getElem?_eq_getElem this⟩

theorem set_same {α : Type} {l : List α} {i : Nat} {x : α} (h : l[i]? = some x) : l.set i x = l := by
  apply List.ext_getElem?
  intro j
  rw [List.getElem?_set]
  split
  · next e =>
    subst e
    rw [if_pos (List.getElem?_eq_some_iff.1 h).1, h]
  · rfl

theorem rel_step {c c' : Conc D A} {a : Seq D A}
    (r : Rel c a) (s : Step c c') : ∃ a', Sections a a' ∧ Rel c' a' := by
  cases s with
  | lock i l k h hi hf =>
    obtain ⟨q, hq⟩ := r.get hi
    obtain ⟨hn, hm⟩ := r.thr i _ q hi hq
    have hmem := List.mem_of_getElem? hi
    have hlh : l ∉ h := hf _ hmem
    refine ⟨a, .refl a, ?_⟩
    have key := r.update (t' := ⟨k, l :: h⟩) (q' := q) (σ := c.data) (τ := a.data) hi hq (fun _ _ => rfl) (fun _ _ => rfl) ?_
      (List.nodup_cons.2 ⟨hlh, hn⟩) ?_ ?_
    · rw [set_same hq] at key
      exact key
    · intro x hx
      rcases List.mem_cons.1 hx with rfl | hx
      · exact Or.inr hf
      · exact Or.inl hx
    · rcases hm with ⟨m1, m2, m3⟩ | ⟨m1, _, _⟩
      · refine Or.inl ⟨m1.2.2, fun hc => absurd hc (List.cons_ne_nil l h), fun ρ => ?_⟩
        have e : ∀ σ : Data D, mix (l :: h) σ ρ = mix h σ (put ρ l (σ l)) := by
          intro σ
          funext x
          by_cases hx : x = l
          · subst hx
            simp [mix, hlh, put_self]
          · simp [mix, hx, put_ne ρ (σ l) hx]
        rw [e, e, ← r.free l hf]
        exact m3 (put ρ l (c.data l))
      · exact absurd m1.1 (by decide)
    · intro x hx hx'
      exact absurd (List.mem_cons_of_mem l hx) hx'
  | unlock i l k h hi =>
    obtain ⟨q, hq⟩ := r.get hi
    obtain ⟨hn, hm⟩ := r.thr i _ q hi hq
    -- the section takes effect now, unless it did before
    have key : ∃ a', Sections a a' ∧ ∃ q', a'.prog = a.prog.set i q' ∧ (∀ x, x ∉ h → a.data x = a'.data x) ∧
        TwoPhase true h (Prog.unlock (D := D) (A := A) l k) ∧
        (run (Prog.unlock l k) c.data).2 = q' ∧ ∀ x ∈ h, (run (Prog.unlock (A := A) l k) c.data).1 x = a'.data x := by
      rcases hm with ⟨m1, m2, m3⟩ | ⟨m1, m2, m3⟩
      · have m1' : TwoPhase true h (Prog.unlock (D := D) (A := A) l k) := m1
        refine ⟨_, .tail (.refl a) (.section i q hq), _, rfl, ?_, m1', ?_, ?_⟩
        · intro x hx
          have e := m3 a.data
          rw [mix_self] at e
          show a.data x = (run q a.data).1 x
          rw [← e, run_touch _ h _ x m1' hx]
          simp [mix, hx]
        · have e := m3 a.data
          rw [mix_self] at e
          rw [← e]
          exact (run_local _ h _ _ m1' fun x hx => by simp only [mix, if_pos hx]).1
        · intro x hx
          have e := m3 a.data
          rw [mix_self] at e
          show _ = (run q a.data).1 x
          rw [← e]
          exact (run_local _ h _ _ m1' fun x hx => by simp only [mix, if_pos hx]).2 x hx
      · exact ⟨a, .refl a, q, (set_same hq).symm, fun _ _ => rfl, m1, m2, m3⟩
    obtain ⟨a', ha, q', hp, ht, m1, m2, m3⟩ := key
    refine ⟨a', ha, ?_⟩
    have key := r.update (t' := ⟨k, h.erase l⟩) (q' := q') (σ := c.data) (τ := a'.data) hi hq (fun _ _ => rfl) ht
      (fun x hx => Or.inl (List.mem_of_mem_erase hx)) (hn.erase l)
      (Or.inr ⟨m1.2, m2, fun x hx => m3 x (List.mem_of_mem_erase hx)⟩) ?_
    · rw [← hp] at key
      exact key
    · intro x hx hx'
      rw [← m3 x hx]
      exact (run_touch k _ c.data x m1.2 hx').symm
  | use i l f k h hi =>
    obtain ⟨q, hq⟩ := r.get hi
    obtain ⟨hn, hm⟩ := r.thr i _ q hi hq
    refine ⟨a, .refl a, ?_⟩
    have hl : l ∈ h := by rcases hm with ⟨m1, _⟩ | ⟨m1, _⟩ <;> exact m1.1
    have key := r.update (t' := ⟨k (c.data l), h⟩) (q' := q) (σ := put c.data l (f (c.data l))) (τ := a.data) hi hq
      (fun x hx => (put_ne _ _ (fun e : x = l => hx (e ▸ hl))).symm) (fun _ _ => rfl) (fun x hx => Or.inl hx) hn ?_
      (fun x hx hx' => absurd hx hx')
    · rw [set_same hq] at key
      exact key
    · rcases hm with ⟨m1, m2, m3⟩ | ⟨m1, m2, m3⟩
      · refine Or.inl ⟨m1.2 _, fun e => ?_, fun ρ => ?_⟩
        · have hl' := hl
          rw [show h = [] from e] at hl'
          simp at hl'
        · rw [← m3 ρ]
          have e1 : mix h c.data ρ l = c.data l := by simp only [mix, if_pos hl]
          simp only [run, e1]
          congr 1
          funext x
          by_cases hx : x = l
          · subst hx; simp [mix, hl, put_self]
          · simp [mix, put_ne _ _ hx]
      · exact Or.inr ⟨m1.2 _, m2, m3⟩
  | pause i k h hi =>
    obtain ⟨q, hq⟩ := r.get hi
    obtain ⟨hn, hm⟩ := r.thr i _ q hi hq
    have key : ∃ a', Sections a a' ∧ a'.data = a.data ∧ a'.prog = a.prog.set i k ∧ h = [] ∧
        TwoPhase false [] k := by
      rcases hm with ⟨m1, m2, _⟩ | ⟨m1, m2, _⟩
      · have e : Prog.pause k = q := m2 m1.1
        subst e
        exact ⟨_, .tail (.refl a) (.section i _ hq), rfl, rfl, m1.1, m1.2⟩
      · have e : k = q := m2
        subst e
        exact ⟨a, .refl a, rfl, (set_same hq).symm, m1.1, m1.2⟩
    obtain ⟨a', ha, hd, hp, hh, htp⟩ := key
    refine ⟨a', ha, ?_⟩
    have key := r.update (t' := ⟨k, h⟩) (q' := k) (σ := c.data) (τ := a'.data) hi hq (fun _ _ => rfl)
      (fun _ _ => by rw [hd]) (fun x hx => Or.inl hx) hn ?_ (fun x hx hx' => absurd hx hx')
    · rw [← hp] at key
      exact key
    · show Match _ _ k h k
      rw [hh]
      refine Or.inl ⟨htp, fun _ => rfl, fun ρ => ?_⟩
      have : ∀ σ : Data D, mix [] σ ρ = ρ := fun σ => by funext x; simp [mix]
      rw [this, this]

theorem Sections.trans {a b c : Seq D A} (h : Sections a b) (h' : Sections b c) :
    Sections a c := by
  induction h' with
  | refl => exact h
  | tail _ s ih => exact .tail ih s

theorem rel_steps {c c' : Conc D A}
    (s : Steps c c') {a : Seq D A} (r : Rel c a) : ∃ a', Sections a a' ∧ Rel c' a' := by
  induction s with
  | refl => exact ⟨a, .refl a, r⟩
  | tail _ st ih =>
    obtain ⟨b, h1, h2⟩ := ih
    obtain ⟨d, h3, h4⟩ := rel_step h2 st
    exact ⟨d, h1.trans h3, h4⟩

theorem rel_start {ps : List (Prog D A)} (hp : ∀ p ∈ ps, TwoPhase false [] p) (σ : Data D) :
    Rel (⟨σ, ps.map fun p => ⟨p, []⟩⟩ : Conc D A) ⟨σ, ps⟩ := by
  refine ⟨by simp, ?_, ?_, fun _ _ => rfl⟩
  · intro i t q ht hq
    simp only [List.getElem?_map] at ht
    rw [show ps[i]? = some q from hq] at ht
    cases ht
    exact ⟨List.nodup_nil, Or.inl ⟨hp q (List.mem_of_getElem? hq), fun _ => rfl, fun _ => rfl⟩⟩
  · intro i j t u l ht hu hl
    obtain ⟨p, _, rfl⟩ := List.mem_map.1 (List.mem_of_getElem? ht)
    cases hl

theorem Rel.answer {c : Conc D A} {a : Seq D A} (r : Rel c a) {i : Nat} {h : List Lk} {x : A}
    (hi : c.thr[i]? = some ⟨.done x, h⟩) : a.prog[i]? = some (.done x) := by
  obtain ⟨q, hq⟩ := r.get hi
  obtain ⟨_, hm⟩ := r.thr i _ q hi hq
  rcases hm with ⟨m1, m2, _⟩ | ⟨m1, m2, _⟩
  · rw [hq, ← m2 m1]
  · rw [hq, ← m2]; rfl

/-- **C144, for any programs with two-phase locking.** Whatever the interleaving, there is an execution of whole sections, one
after another, in which every request that is answered gets the same answer, and which leaves the same data wherever
no lock is held. -/
theorem c144_serial {ps : List (Prog D A)} (hp : ∀ p ∈ ps, TwoPhase false [] p) (σ : Data D) {c : Conc D A}
    (s : Steps ⟨σ, ps.map fun p => ⟨p, []⟩⟩ c) :
    ∃ a, Sections ⟨σ, ps⟩ a ∧
      (∀ (i : Nat) (h : List Lk) (x : A), c.thr[i]? = some ⟨.done x, h⟩ → a.prog[i]? = some (.done x)) ∧
      ∀ l, (∀ t ∈ c.thr, l ∉ t.held) → a.data l = c.data l := by
  obtain ⟨a, h1, h2⟩ := rel_steps s (rel_start hp σ)
  exact ⟨a, h1, fun i h x hi => h2.answer hi, fun l hl => (h2.free l hl).symm⟩

/-! ## Every execution ends with all requests answered -/

/-- Locks are taken in increasing order of their ranks. -/
def Ordered (rank : Lk → Nat) : List Lk → Prog D A → Prop
  | _, .done _ => True
  | h, .lock l k => (∀ x ∈ h, rank x < rank l) ∧ Ordered rank (l :: h) k
  | h, .unlock l k => Ordered rank (h.erase l) k
  | h, .use _ _ k => ∀ d, Ordered rank h (k d)
  | h, .pause k => Ordered rank h k

theorem ordered_step {rank : Lk → Nat} {c c' : Conc D A} (s : Step c c') (ho : ∀ t ∈ c.thr, Ordered rank t.held t.prog) :
    ∀ t ∈ c'.thr, Ordered rank t.held t.prog := by
  cases s with
  | lock i l k h hi hf =>
    intro t ht
    rcases List.mem_or_eq_of_mem_set ht with ht | rfl
    · exact ho t ht
    · exact (ho _ (List.mem_of_getElem? hi)).2
  | unlock i l k h hi =>
    intro t ht
    rcases List.mem_or_eq_of_mem_set ht with ht | rfl
    · exact ho t ht
    · have := ho _ (List.mem_of_getElem? hi)
      exact this
  | use i l f k h hi =>
    intro t ht
    rcases List.mem_or_eq_of_mem_set ht with ht | rfl
    · exact ho t ht
    · exact ho _ (List.mem_of_getElem? hi) (c.data l)
  | pause i k h hi =>
    intro t ht
    rcases List.mem_or_eq_of_mem_set ht with ht | rfl
    · exact ho t ht
    · have := ho _ (List.mem_of_getElem? hi)
      exact this

theorem ordered_steps {rank : Lk → Nat} {c c' : Conc D A} (s : Steps c c') (ho : ∀ t ∈ c.thr, Ordered rank t.held t.prog) :
    ∀ t ∈ c'.thr, Ordered rank t.held t.prog := by
  induction s with
  | refl => exact ho
  | tail _ st ih => exact ordered_step st ih

/-- Whoever waits for a lock waits for somebody who waits for a larger one at most. -/
theorem waiting_progress {rank : Lk → Nat} {B : Nat} (hB : ∀ l, rank l ≤ B) {c : Conc D A} {a : Seq D A} (r : Rel c a)
    (ho : ∀ t ∈ c.thr, Ordered rank t.held t.prog) (n : Nat) : ∀ (i : Nat) (l : Lk) (k : Prog D A) (h : List Lk),
    c.thr[i]? = some ⟨.lock l k, h⟩ → B - rank l ≤ n → ∃ c', Step c c' := by
  induction n with
  | zero =>
    intro i l k h hi hn
    by_cases hf : ∀ t ∈ c.thr, l ∉ t.held
    · exact ⟨_, .lock i l k h hi hf⟩
    · have ⟨t, ht, hl⟩ : ∃ t ∈ c.thr, l ∈ t.held := by
        refine Classical.byContradiction fun hc => hf fun t ht hl => hc ⟨t, ht, hl⟩
      obtain ⟨j, hj⟩ := List.mem_iff_getElem?.1 ht
      obtain ⟨p, hd⟩ := t
      cases p with
      | done x =>
        obtain ⟨q, hq⟩ := r.get hj
        have : hd = [] := by rcases (r.thr j _ q hj hq).2 with ⟨m, _⟩ | ⟨m, _⟩ <;> exact m
        rw [this] at hl; cases hl
      | lock l' k' =>
        have := (ho _ ht).1 l hl
        have := hB l'
        omega
      | unlock l' k' => exact ⟨_, .unlock j l' k' hd hj⟩
      | use l' f k' => exact ⟨_, .use j l' f k' hd hj⟩
      | pause k' => exact ⟨_, .pause j k' hd hj⟩
  | succ n ih =>
    intro i l k h hi hn
    by_cases hf : ∀ t ∈ c.thr, l ∉ t.held
    · exact ⟨_, .lock i l k h hi hf⟩
    · have ⟨t, ht, hl⟩ : ∃ t ∈ c.thr, l ∈ t.held := by
        refine Classical.byContradiction fun hc => hf fun t ht hl => hc ⟨t, ht, hl⟩
      obtain ⟨j, hj⟩ := List.mem_iff_getElem?.1 ht
      obtain ⟨p, hd⟩ := t
      cases p with
      | done x =>
        obtain ⟨q, hq⟩ := r.get hj
        have : hd = [] := by rcases (r.thr j _ q hj hq).2 with ⟨m, _⟩ | ⟨m, _⟩ <;> exact m
        rw [this] at hl; cases hl
      | lock l' k' =>
        have h1 := (ho _ ht).1 l hl
        have h2 := hB l'
        exact ih j l' k' hd hj (by omega)
      | unlock l' k' => exact ⟨_, .unlock j l' k' hd hj⟩
      | use l' f k' => exact ⟨_, .use j l' f k' hd hj⟩
      | pause k' => exact ⟨_, .pause j k' hd hj⟩

/-- A state in which nothing can happen any more: all requests have been answered and hold nothing. -/
theorem stuck_done {rank : Lk → Nat} {B : Nat} (hB : ∀ l, rank l ≤ B) {c : Conc D A} {a : Seq D A} (r : Rel c a)
    (ho : ∀ t ∈ c.thr, Ordered rank t.held t.prog) (hs : ∀ c', ¬ Step c c') :
    ∀ t ∈ c.thr, (∃ x, t.prog = .done x) ∧ t.held = [] := by
  intro t ht
  obtain ⟨j, hj⟩ := List.mem_iff_getElem?.1 ht
  obtain ⟨p, hd⟩ := t
  cases p with
  | done x =>
    obtain ⟨q, hq⟩ := r.get hj
    refine ⟨⟨x, rfl⟩, ?_⟩
    rcases (r.thr j _ q hj hq).2 with ⟨m, _⟩ | ⟨m, _⟩ <;> exact m
  | lock l k =>
    obtain ⟨c', h⟩ := waiting_progress hB r ho (B - rank l) j l k hd hj (Nat.le_refl _)
    exact absurd h (hs c')
  | unlock l k => exact absurd (.unlock j l k hd hj) (hs _)
  | use l f k => exact absurd (.use j l f k hd hj) (hs _)
  | pause k => exact absurd (.pause j k hd hj) (hs _)

/-- What is left of a program after one action. -/
inductive Next : Prog D A → Prog D A → Prop
  | lock (l : Lk) (k : Prog D A) : Next k (.lock l k)
  | unlock (l : Lk) (k : Prog D A) : Next k (.unlock l k)
  | use (l : Lk) (f : D l → D l) (k : D l → Prog D A) (d : D l) : Next (k d) (.use l f k)
  | pause (k : Prog D A) : Next k (.pause k)

omit [DecidableEq Lk] in
theorem next_acc (p : Prog D A) : Acc Next p := by
  induction p with
  | done a => exact ⟨_, fun q h => by cases h⟩
  | lock l k ih => exact ⟨_, fun q h => by cases h; exact ih⟩
  | unlock l k ih => exact ⟨_, fun q h => by cases h; exact ih⟩
  | use l f k ih => exact ⟨_, fun q h => by cases h; exact ih _⟩
  | pause k ih => exact ⟨_, fun q h => by cases h; exact ih⟩

/-- One of the programs goes on. -/
def NextOf (qs ps : List (Prog D A)) : Prop := ∃ (i : Nat) (p q : Prog D A), ps[i]? = some p ∧ Next q p ∧ qs = ps.set i q

omit [DecidableEq Lk] in
theorem nextOf_cons {p : Prog D A} (hp : Acc Next p) : ∀ {ps : List (Prog D A)}, Acc NextOf ps → Acc NextOf (p :: ps) := by
  induction hp with
  | intro p _ ihp =>
    intro ps hps
    induction hps with
    | intro ps hps ihps =>
      refine ⟨_, fun qs h => ?_⟩
      obtain ⟨i, x, q, hi, hn, rfl⟩ := h
      cases i with
      | zero => cases hi; exact ihp q hn ⟨_, hps⟩
      | succ i => exact ihps _ ⟨i, x, q, hi, hn, rfl⟩

omit [DecidableEq Lk] in
theorem nextOf_acc (ps : List (Prog D A)) : Acc NextOf ps := by
  induction ps with
  | nil => exact ⟨_, fun qs h => by obtain ⟨i, x, q, hi, _⟩ := h; simp at hi⟩
  | cons p ps ih => exact nextOf_cons (next_acc p) ih

theorem step_nextOf {c c' : Conc D A} (s : Step c c') : NextOf (c'.thr.map Thr.prog) (c.thr.map Thr.prog) := by
  cases s with
  | lock i l k h hi hf =>
    exact ⟨i, _, _, by rw [List.getElem?_map, hi]; rfl, .lock l k, by rw [List.map_set]⟩
  | unlock i l k h hi =>
    exact ⟨i, _, _, by rw [List.getElem?_map, hi]; rfl, .unlock l k, by rw [List.map_set]⟩
  | use i l f k h hi =>
    exact ⟨i, _, _, by rw [List.getElem?_map, hi]; rfl, .use l f k (c.data l), by rw [List.map_set]⟩
  | pause i k h hi =>
    exact ⟨i, _, _, by rw [List.getElem?_map, hi]; rfl, .pause k, by rw [List.map_set]⟩

/-- No execution goes on forever. -/
theorem no_infinite (f : Nat → Conc D A) : ¬ ∀ n, Step (f n) (f (n + 1)) := by
  intro h
  have key : ∀ ps : List (Prog D A), Acc NextOf ps → ∀ n, (f n).thr.map Thr.prog = ps → False := by
    intro ps hps
    induction hps with
    | intro ps _ ih =>
      intro n hn
      exact ih _ (hn ▸ step_nextOf (h n)) (n + 1) rfl
  exact key _ (nextOf_acc _) 0 rfl

/-! ## The requests of the ceremony server -/

section Server

/-- The three mutexes of `Server`, server.rs:60-90. -/
inductive Mx
  | registry
  | queue
  | sclp
  deriving DecidableEq

/-- What they protect: the registry with its files, the lock queue, and the state of the ceremony with the other
files of the recovery directory (the field `registry` of that part is not used). -/
abbrev Behind (I VK St Ch Pf Nm : Type) : Mx → Type
  | .registry => Registry I VK × (Nat → Option (Registry I VK))
  | .queue => LockQueue I
  | .sclp => Sclp St Ch Pf × Disk I VK St Ch Pf Nm

variable {I VK Sig St Ch Pf Nm : Type} [DecidableEq I] [DecidableEq Nm]

local notation "P" => Prog (Behind I VK St Ch Pf Nm) (Resp St Ch)

/-- `LockQueue::has_lock`, coordinator.rs:117-142, under the locks of the registry and of the queue: reads and writes both. -/
def hasLockP (cfg : Config VK Sig St Ch Pf) (now : Nat) (i : I) (k : Except Err Unit → P) : P :=
  .use .queue id fun q =>
  .use .registry (fun r => ((q.hasLock r.1 cfg.limit now i).2.2, r.2)) fun r =>
  .use .queue (fun _ => (q.hasLock r.1 cfg.limit now i).2.1) fun _ =>
  k (q.hasLock r.1 cfg.limit now i).1

/-- `preprocess_request`, coordinator.rs:375-401, under the lock of the registry. -/
def preprocessP (cfg : Config VK Sig St Ch Pf) (i : I) (b : Body St Pf) (sig : Sig) (k : Except Err Priority → P) : P :=
  .use .registry (fun r => ((preprocess cfg r.1 i b sig).2, r.2)) fun r => k (preprocess cfg r.1 i b sig).1

/-- The end of `Server::query`, server.rs:276-290: nobody has given the lock to the participant. -/
def enqueueP (i : I) (pr : Priority) : P :=
  .use .queue (fun q => match q.queue.pushBackIfMissing pr.level i with
    | some (_, queue) => { q with queue := queue }
    | none => q) fun q =>
  .unlock .queue <| .unlock .registry <|
  .done (match q.queue.pushBackIfMissing pr.level i with
    | some ((_, p), _) => .position p
    | none => .panic)

/-- `Server::query`, server.rs:250-290. A guard that is not a temporary lives until the function returns, the one of
`self.sclp.lock().round_state()` to the end of its statement. -/
def queryP (cfg : Config VK Sig St Ch Pf) (now : Nat) (i : I) (sig : Sig) : P :=
  .lock .registry <|
  preprocessP cfg i .query sig fun
    | .error e => .unlock .registry <| .done (.error e)
    | .ok pr =>
      .lock .queue <|
      hasLockP cfg now i fun
        | .ok () =>
          .lock .sclp <|
          .use .sclp id fun m =>
          .unlock .sclp <| .unlock .queue <| .unlock .registry <|
          .done (.state m.1.state m.1.challenge)
        | .error _ => enqueueP i pr

/-- The last step of `Server::update`, server.rs:428-443. The lock queue is released before the registry is saved. -/
def finishP (now : Nat) (i : I) (round : Nat) : P :=
  .lock .registry <|
  .use .registry (fun r => (r.1.modify i fun p => { p with contributed := true }, r.2)) fun r =>
  match r.1.get i with
  | none => .unlock .registry <| .done (.error .missingParticipant)
  | some _ =>
    .lock .queue <|
    .use .queue id fun q =>
    .use .registry (fun r => ((q.updateExpired r.1 now).2.2, r.2)) fun r =>
    .use .queue (fun _ => (q.updateExpired r.1 now).2.1) fun _ =>
    .unlock .queue <|
    .use .registry (fun r => (r.1, fun k => if k = round then some r.1 else r.2 k)) fun _ =>
    .unlock .registry <|
    .done (.round round)

/-- `StateChallengeProof::save`, coordinator.rs:303-370, file by file. -/
def saveP : List (Write I VK St Ch Pf Nm) → P → P
  | [], k => k
  | w :: ws, k => .use .sclp (fun m => (m.1, m.2.write w)) fun _ => saveP ws k

/-- The second step of `Server::update`, server.rs:416-424, and then the last one. -/
def applyP (cfg : Config VK Sig St Ch Pf) (now : Nat) (i : I) (state : List St) (proof : List Pf) : P :=
  .lock .sclp <|
  .use .sclp (fun m => ((m.1.update cfg state proof).2, m.2)) fun m =>
  match (m.1.update cfg state proof).1 with
  | .error e => .unlock .sclp <| .done (.error e)
  | .ok round =>
    saveP ((m.1.update cfg state proof).2.saveWrites (m.2.names.getD [])) <|
    .unlock .sclp <| .pause <| finishP now i round

/-- The first step of `Server::update`, server.rs:391-405, and then the others. -/
def startP (cfg : Config VK Sig St Ch Pf) (now now' : Nat) (i : I) (state : List St) (proof : List Pf) (sig : Sig) : P :=
  .lock .registry <|
  preprocessP cfg i (.contribute state proof) sig fun
    | .error e => .unlock .registry <| .done (.error e)
    | .ok _ =>
      .lock .queue <|
      hasLockP cfg now i fun
        | .error e => .unlock .queue <| .unlock .registry <| .done (.error e)
        | .ok () => .unlock .queue <| .unlock .registry <| .pause <| applyP cfg now' i state proof

/-- One round of the loop of `update_registry`, server.rs:328-365. -/
def reloadP (rows : List (Option (I × Participant VK))) : P :=
  .lock .registry <|
  .use .registry (fun r => ((r.1.loadAppend rows).2, r.2)) fun _ =>
  .unlock .registry <| .done .ok

/-- A request, with the times at which it will look at the clock. -/
inductive Req (I VK Sig St Pf : Type)
  | query (now : Nat) (i : I) (sig : Sig)
  | update (now now' : Nat) (i : I) (state : List St) (proof : List Pf) (sig : Sig)
  | reload (rows : List (Option (I × Participant VK)))

def Req.prog (cfg : Config VK Sig St Ch Pf) : Req I VK Sig St Pf → P
  | .query now i sig => queryP cfg now i sig
  | .update now now' i state proof sig => startP cfg now now' i state proof sig
  | .reload rows => reloadP rows

/-! ## Specification: a history of events of `Server` -/

/-- The first event of a request. -/
def Req.first : Req I VK Sig St Pf → Event I VK Sig St Pf
  | .query now i sig => .query now i sig
  | .update now _ i state proof sig => .start now i state proof sig
  | .reload rows => .reload rows

/-- The events that are the first of a request. -/
def isFirst : Event I VK Sig St Pf → Bool
  | .query .. => true
  | .start .. => true
  | .reload .. => true
  | _ => false

def isRestart : Event I VK Sig St Pf → Bool
  | .restart _ => true
  | _ => false

/-- In the state `s` of the server the event `e` answers the request with `x`: it is the event of a query, or the step of
this update that fails, or its last step. -/
def Answers (cfg : Config VK Sig St Ch Pf) (s : Server I VK St Ch Pf Nm) (e : Event I VK Sig St Pf) (x : Resp St Ch) :
    Req I VK Sig St Pf → Prop
  | .query now i sig => e = .query now i sig ∧ (s.step cfg e).1 = x
  | .update now now' i state proof sig =>
    (e = .start now i state proof sig ∧ (s.step cfg e).1 = x ∧ ∃ f, x = .error f) ∨
    (∃ k f, e = .apply k ∧ s.started[k]? = some (i, state, proof) ∧ (s.step cfg e).1 = x ∧ x = .error f) ∨
    (∃ k round, e = .finish now' k ∧ s.applied[k]? = some (i, round) ∧ (s.step cfg e).1 = x)
  | .reload rows => e = .reload rows ∧ (s.step cfg e).1 = x

/-- What is behind the locks of a server. -/
def behind (s : Server I VK St Ch Pf Nm) : Data (Behind I VK St Ch Pf Nm)
  | .registry => (s.reg, s.disk.registry)
  | .queue => s.lq
  | .sclp => (s.mpc, s.disk)

/-- A server has these data. -/
def Holds (s : Server I VK St Ch Pf Nm) (σ : Data (Behind I VK St Ch Pf Nm)) : Prop :=
  s.reg = (σ .registry).1 ∧ s.lq = σ .queue ∧ s.mpc = (σ .sclp).1 ∧
  s.disk = { (σ .sclp).2 with registry := (σ .registry).2 }

/-! ## Two-phase locking of the requests -/

omit [DecidableEq I] in
theorem saveP_twoPhase (g : Bool) (h : List Mx) (hm : Mx.sclp ∈ h) (ws : List (Write I VK St Ch Pf Nm)) (k : P)
    (hk : TwoPhase g h k) : TwoPhase g h (saveP ws k) := by
  induction ws with
  | nil => exact hk
  | cons w ws ih => exact ⟨hm, fun _ => ih⟩

omit [DecidableEq Nm] in
theorem finishP_twoPhase (now : Nat) (i : I) (round : Nat) : TwoPhase false [] (finishP now i round : P) := by
  refine ⟨rfl, by simp, by simp, fun r => ?_⟩
  dsimp only
  cases r.1.get i with
  | none => exact ⟨by simp, rfl⟩
  | some _ => simp [TwoPhase]

theorem applyP_twoPhase (cfg : Config VK Sig St Ch Pf) (now : Nat) (i : I) (state : List St) (proof : List Pf) :
    TwoPhase false [] (applyP cfg now i state proof : P) := by
  refine ⟨rfl, by simp, by simp, fun m => ?_⟩
  dsimp only
  cases (m.1.update cfg state proof).1 with
  | error e => exact ⟨by simp, rfl⟩
  | ok round =>
    refine saveP_twoPhase _ _ (by simp) _ _ ?_
    exact ⟨by simp, rfl, finishP_twoPhase now i round⟩

theorem prog_twoPhase (cfg : Config VK Sig St Ch Pf) (r : Req I VK Sig St Pf) : TwoPhase false [] (r.prog cfg : P) := by
  cases r with
  | query now i sig =>
    refine ⟨rfl, by simp, by simp, fun r => ?_⟩
    dsimp only
    cases (preprocess cfg r.1 i .query sig).1 with
    | error e => exact ⟨by simp, rfl⟩
    | ok pr =>
      refine ⟨rfl, by simp, by simp, fun q => ⟨by simp, fun r => ⟨by simp, fun _ => ?_⟩⟩⟩
      dsimp only
      cases (q.hasLock r.1 cfg.limit now i).1 with
      | error e => simp [enqueueP, TwoPhase]
      | ok u => simp [TwoPhase]
  | update now now' i state proof sig =>
    refine ⟨rfl, by simp, by simp, fun r => ?_⟩
    dsimp only
    cases (preprocess cfg r.1 i (.contribute state proof) sig).1 with
    | error e => exact ⟨by simp, rfl⟩
    | ok pr =>
      refine ⟨rfl, by simp, by simp, fun q => ⟨by simp, fun r => ⟨by simp, fun _ => ?_⟩⟩⟩
      dsimp only
      cases (q.hasLock r.1 cfg.limit now i).1 with
      | error e => simp [TwoPhase]
      | ok u => exact ⟨by simp, by simp, by simp, applyP_twoPhase ..⟩
  | reload rows => simp [Req.prog, reloadP, TwoPhase]

/-! ## The sections are the events of the model -/

theorem modify_absent {r : Registry I VK} {i : I} (h : r.get i = none) (f : Participant VK → Participant VK) :
    r.modify i f = r := by
  induction r with
  | nil => rfl
  | cons x r ih =>
    obtain ⟨j, p⟩ := x
    simp only [Registry.get] at h
    by_cases e : j = i
    · simp [e] at h
    · rw [if_neg e] at h
      simp only [Registry.modify, if_neg e, ih h]

omit [DecidableEq Nm] in
theorem query_section (cfg : Config VK Sig St Ch Pf) {s : Server I VK St Ch Pf Nm} {σ : Data (Behind I VK St Ch Pf Nm)}
    (h : Holds s σ) (now : Nat) (i : I) (sig : Sig) :
    Holds (s.query cfg now i sig).2 (run (queryP cfg now i sig : P) σ).1 ∧
    (run (queryP cfg now i sig : P) σ).2 = .done (s.query cfg now i sig).1 ∧
    (s.query cfg now i sig).2.started = s.started ∧ (s.query cfg now i sig).2.applied = s.applied := by
  obtain ⟨reg, lq, mpc, disk, st, ap⟩ := s
  obtain ⟨h1, h2, h3, h4⟩ := h
  simp only at h1 h2 h3 h4
  subst h1 h2 h3 h4
  rcases hp : preprocess cfg (σ .registry).1 i .query sig with ⟨e | pr, r⟩
  · simp [queryP, preprocessP, run, Server.query, hp, Holds, put_self, put_ne]
  · rcases hl : (σ .queue).hasLock r cfg.limit now i with ⟨e | u, q, r'⟩
    · rcases hb : q.queue.pushBackIfMissing pr.level i with _ | ⟨⟨b, p⟩, queue⟩ <;>
      simp [queryP, preprocessP, hasLockP, enqueueP, run, Server.query, hp, hl, hb, Holds, put_self, put_ne]
    · simp [queryP, preprocessP, hasLockP, run, Server.query, hp, hl, Holds, put_self, put_ne]

theorem start_section (cfg : Config VK Sig St Ch Pf) {s : Server I VK St Ch Pf Nm} {σ : Data (Behind I VK St Ch Pf Nm)}
    (h : Holds s σ) (now now' : Nat) (i : I) (state : List St) (proof : List Pf) (sig : Sig) :
    Holds (s.start cfg now i state proof sig).2 (run (startP cfg now now' i state proof sig : P) σ).1 ∧
    (s.start cfg now i state proof sig).2.applied = s.applied ∧
    (((run (startP cfg now now' i state proof sig : P) σ).2 = applyP cfg now' i state proof ∧
      (s.start cfg now i state proof sig).2.started = s.started ++ [(i, state, proof)]) ∨
     ((run (startP cfg now now' i state proof sig : P) σ).2 = .done (s.start cfg now i state proof sig).1 ∧
      (∃ f, (s.start cfg now i state proof sig).1 = .error f) ∧
      (s.start cfg now i state proof sig).2.started = s.started)) := by
  obtain ⟨reg, lq, mpc, disk, st, ap⟩ := s
  obtain ⟨h1, h2, h3, h4⟩ := h
  simp only at h1 h2 h3 h4
  subst h1 h2 h3 h4
  rcases hp : preprocess cfg (σ .registry).1 i (.contribute state proof) sig with ⟨e | pr, r⟩
  · simp [startP, preprocessP, run, Server.start, hp, Holds, put_self, put_ne]
  · rcases hl : (σ .queue).hasLock r cfg.limit now i with ⟨e | u, q, r'⟩ <;>
    simp [startP, preprocessP, hasLockP, run, Server.start, hp, hl, Holds, put_self, put_ne]

/-- Saving does not touch the files of the registry. -/
def noRegistry : Write I VK St Ch Pf Nm → Bool
  | .registry .. => false
  | _ => true

omit [DecidableEq I] in
theorem run_saveP (ws : List (Write I VK St Ch Pf Nm)) (k : P) : ∀ σ : Data (Behind I VK St Ch Pf Nm),
    run (saveP ws k) σ = run k (put σ .sclp ((σ .sclp).1, (σ .sclp).2.writes ws)) := by
  induction ws with
  | nil =>
    intro σ
    show run k σ = _
    congr 1
    funext l
    cases l <;> simp [put_self, put_ne, Disk.writes]
  | cons w ws ih =>
    intro σ
    show run (saveP ws k) (put σ .sclp ((σ .sclp).1, (σ .sclp).2.write w)) = _
    rw [ih]
    congr 1
    funext l
    cases l <;> simp [put_self, put_ne, Disk.writes]

omit [DecidableEq I] in
theorem writes_registry (ws : List (Write I VK St Ch Pf Nm)) : ∀ (d : Disk I VK St Ch Pf Nm) (R : Nat → Option (Registry I VK)),
    (∀ w ∈ ws, noRegistry w = true) →
    ({ d with registry := R } : Disk I VK St Ch Pf Nm).writes ws = { d.writes ws with registry := R } := by
  induction ws with
  | nil => intro d R _; rfl
  | cons w ws ih =>
    intro d R hw
    have e : ({ d with registry := R } : Disk I VK St Ch Pf Nm).write w = { d.write w with registry := R } := by
      have := hw w (List.mem_cons_self ..)
      cases w <;> first | rfl | simp [noRegistry] at this
    show Disk.writes (Disk.write _ w) ws = _
    rw [e, ih _ _ fun w hw' => hw w (List.mem_cons_of_mem _ hw')]
    rfl

omit [DecidableEq I] [DecidableEq Nm] in
theorem stateWrites_noRegistry (k : Nat) : ∀ (xs : List (St × Ch)) (ns : List Nm),
    ∀ w ∈ (stateWrites k xs ns : List (Write I VK St Ch Pf Nm)), noRegistry w = true := by
  intro xs
  induction xs with
  | nil => intro ns w hw; simp [stateWrites] at hw
  | cons x xs ih =>
    intro ns w hw
    cases ns with
    | nil => simp [stateWrites] at hw
    | cons n ns =>
      simp only [stateWrites, List.mem_cons] at hw
      rcases hw with rfl | rfl | hw
      · rfl
      · rfl
      · exact ih ns w hw

omit [DecidableEq I] [DecidableEq Nm] in
theorem proofWrites_noRegistry (k : Nat) : ∀ (xs : List Pf) (ns : List Nm),
    ∀ w ∈ (proofWrites k xs ns : List (Write I VK St Ch Pf Nm)), noRegistry w = true := by
  intro xs
  induction xs with
  | nil => intro ns w hw; simp [proofWrites] at hw
  | cons x xs ih =>
    intro ns w hw
    cases ns with
    | nil => simp [proofWrites] at hw
    | cons n ns =>
      simp only [proofWrites, List.mem_cons] at hw
      rcases hw with rfl | hw
      · rfl
      · exact ih ns w hw

omit [DecidableEq I] [DecidableEq Nm] in
theorem saveWrites_noRegistry (m : Sclp St Ch Pf) (names : List Nm) :
    ∀ w ∈ (m.saveWrites names : List (Write I VK St Ch Pf Nm)), noRegistry w = true := by
  intro w hw
  simp only [Sclp.saveWrites, List.mem_append, List.mem_singleton] at hw
  rcases hw with (hw | hw) | rfl
  · exact stateWrites_noRegistry _ _ _ w hw
  · split at hw
    · exact proofWrites_noRegistry _ _ _ w hw
    · cases hw
  · rfl

theorem apply_section (cfg : Config VK Sig St Ch Pf) {s : Server I VK St Ch Pf Nm} {σ : Data (Behind I VK St Ch Pf Nm)}
    (h : Holds s σ) (now : Nat) {i : I} {state : List St} {proof : List Pf} {k : Nat}
    (hk : s.started[k]? = some (i, state, proof)) :
    Holds (s.apply cfg k).2 (run (applyP cfg now i state proof : P) σ).1 ∧
    (s.apply cfg k).2.started = s.started.eraseIdx k ∧
    ((∃ round, (run (applyP cfg now i state proof : P) σ).2 = finishP now i round ∧
      (s.apply cfg k).2.applied = s.applied ++ [(i, round)]) ∨
     ((run (applyP cfg now i state proof : P) σ).2 = .done (s.apply cfg k).1 ∧ (∃ f, (s.apply cfg k).1 = .error f) ∧
      (s.apply cfg k).2.applied = s.applied)) := by
  obtain ⟨reg, lq, mpc, disk, st, ap⟩ := s
  obtain ⟨h1, h2, h3, h4⟩ := h
  simp only at h1 h2 h3 h4 hk
  subst h1 h2 h3 h4
  rcases hu : (σ .sclp).1.update cfg state proof with ⟨e | round, m⟩
  · simp [applyP, run, Server.apply, hk, hu, Holds, put_self, put_ne]
  · have hw := writes_registry (m.saveWrites ((σ .sclp).2.names.getD [])) (σ .sclp).2 (σ .registry).2
      (saveWrites_noRegistry m _)
    simp [applyP, run, Server.apply, hk, hu, Holds, put_self, put_ne, run_saveP, hw]

theorem finish_section {s : Server I VK St Ch Pf Nm} {σ : Data (Behind I VK St Ch Pf Nm)}
    (h : Holds s σ) (now : Nat) {i : I} {round k : Nat} (hk : s.applied[k]? = some (i, round)) :
    Holds (s.finish now k : Resp St Ch × _).2 (run (finishP now i round : P) σ).1 ∧
    (s.finish now k : Resp St Ch × _).2.started = s.started ∧
    (s.finish now k : Resp St Ch × _).2.applied = s.applied.eraseIdx k ∧
    (run (finishP now i round : P) σ).2 = .done (s.finish now k).1 := by
  obtain ⟨reg, lq, mpc, disk, st, ap⟩ := s
  obtain ⟨h1, h2, h3, h4⟩ := h
  simp only at h1 h2 h3 h4 hk
  subst h1 h2 h3 h4
  rcases hg : (σ .registry).1.get i with _ | p
  · simp [finishP, run, Server.finish, hk, hg, Holds, put_self, put_ne, modify_absent hg]
  · simp [finishP, run, Server.finish, hk, hg, Holds, put_self, put_ne, Disk.write]

/-! ## Histories -/

/-- How far a request has got. -/
inductive Phase (I St Ch Pf : Type)
  | fresh
  | started (now : Nat) (i : I) (state : List St) (proof : List Pf)
  | applied (now : Nat) (i : I) (round : Nat)
  | answered (x : Resp St Ch)

/-- What is left of a request. -/
def rest (cfg : Config VK Sig St Ch Pf) (z : Req I VK Sig St Pf × Phase I St Ch Pf) : P :=
  match z.2 with
  | .fresh => z.1.prog cfg
  | .started now i state proof => applyP cfg now i state proof
  | .applied now i round => finishP now i round
  | .answered x => .done x

def startedOf (z : Req I VK Sig St Pf × Phase I St Ch Pf) : Option (I × List St × List Pf) :=
  match z.2 with
  | .started _ i state proof => some (i, state, proof)
  | _ => none

def appliedOf (z : Req I VK Sig St Pf × Phase I St Ch Pf) : Option (I × Nat) :=
  match z.2 with
  | .applied _ i round => some (i, round)
  | _ => none

def firstOf (z : Req I VK Sig St Pf × Phase I St Ch Pf) : Option (Event I VK Sig St Pf) :=
  match z.2 with
  | .fresh => none
  | _ => some z.1.first

/-- The answer of a request is that of one event of the history. -/
def Answered (cfg : Config VK Sig St Ch Pf) (s : Server I VK St Ch Pf Nm) (es : List (Event I VK Sig St Pf))
    (r : Req I VK Sig St Pf) (x : Resp St Ch) : Prop :=
  ∃ es₁ e es₂, es = es₁ ++ e :: es₂ ∧ Answers cfg (s.run cfg es₁) e x r

def Fits (cfg : Config VK Sig St Ch Pf) (s : Server I VK St Ch Pf Nm) (es : List (Event I VK Sig St Pf))
    (z : Req I VK Sig St Pf × Phase I St Ch Pf) : Prop :=
  match z.2 with
  | .fresh => True
  | .started now' i state proof => ∃ now sig, z.1 = .update now now' i state proof sig
  | .applied now' i _ => ∃ now state proof sig, z.1 = .update now now' i state proof sig
  | .answered x => Answered cfg s es z.1 x

theorem Fits.append {cfg : Config VK Sig St Ch Pf} {s : Server I VK St Ch Pf Nm} {es : List (Event I VK Sig St Pf)}
    {z : Req I VK Sig St Pf × Phase I St Ch Pf} (h : Fits cfg s es z) (e : Event I VK Sig St Pf) : Fits cfg s (es ++ [e]) z := by
  obtain ⟨r, ph⟩ := z
  cases ph with
  | answered x =>
    obtain ⟨e1, f, e2, he, ha⟩ := h
    exact ⟨e1, f, e2 ++ [e], by rw [he]; simp, ha⟩
  | _ => exact h

theorem run_snoc (cfg : Config VK Sig St Ch Pf) (es : List (Event I VK Sig St Pf)) (e : Event I VK Sig St Pf) :
    ∀ s : Server I VK St Ch Pf Nm, s.run cfg (es ++ [e]) = ((s.run cfg es).step cfg e).2 := by
  induction es with
  | nil => intro s; rfl
  | cons x es ih => intro s; exact ih _

/-- A sequential execution of the programs and a history of the model. -/
structure Inv (cfg : Config VK Sig St Ch Pf) (s : Server I VK St Ch Pf Nm) (reqs : List (Req I VK Sig St Pf))
    (a : Seq (Behind I VK St Ch Pf Nm) (Resp St Ch)) (es : List (Event I VK Sig St Pf))
    (zs : List (Req I VK Sig St Pf × Phase I St Ch Pf)) : Prop where
  reqs : zs.map (·.1) = reqs
  prog : a.prog = zs.map (rest cfg)
  holds : Holds (s.run cfg es) a.data
  started : (s.run cfg es).started.Perm (zs.filterMap startedOf)
  applied : (s.run cfg es).applied.Perm (zs.filterMap appliedOf)
  firsts : (es.filter isFirst).Perm (zs.filterMap firstOf)
  fits : ∀ z ∈ zs, Fits cfg s es z
  noRestart : ∀ e ∈ es, isRestart e = false

theorem set_split {α : Type} {l : List α} {i : Nat} {x : α} (h : l[i]? = some x) (y : α) :
    ∃ l₁ l₂, l = l₁ ++ x :: l₂ ∧ l.set i y = l₁ ++ y :: l₂ := by
  obtain ⟨hi, rfl⟩ := List.getElem?_eq_some_iff.1 h
  refine ⟨l.take i, l.drop (i + 1), ?_, ?_⟩
  · rw [List.getElem_cons_drop, List.take_append_drop]
  · rw [List.set_eq_take_append_cons_drop, if_pos hi]

theorem perm_same {α β : Type} {zs : List α} {j : Nat} {x y : α} {g : α → Option β} {l : List β} (hj : zs[j]? = some x)
    (hp : l.Perm (zs.filterMap g)) (h : g x = g y) : l.Perm ((zs.set j y).filterMap g) := by
  obtain ⟨l1, l2, e1, e2⟩ := set_split hj y
  rw [e2]
  rw [e1] at hp
  simpa [List.filterMap_append, List.filterMap_cons, h] using hp

theorem perm_add {α β : Type} {zs : List α} {j : Nat} {x y : α} {g : α → Option β} {l : List β} {b : β}
    (hj : zs[j]? = some x) (hp : l.Perm (zs.filterMap g)) (hx : g x = none) (hy : g y = some b) :
    (l ++ [b]).Perm ((zs.set j y).filterMap g) := by
  obtain ⟨l1, l2, e1, e2⟩ := set_split hj y
  rw [e2]
  rw [e1] at hp
  simp only [List.filterMap_append, List.filterMap_cons, hx, hy] at hp ⊢
  exact (List.perm_append_singleton b l).trans ((hp.cons b).trans List.perm_middle.symm)

theorem perm_del {α β : Type} {zs : List α} {j k : Nat} {x y : α} {g : α → Option β} {l : List β} {b : β}
    (hj : zs[j]? = some x) (hp : l.Perm (zs.filterMap g)) (hx : g x = some b) (hy : g y = none) (hk : l[k]? = some b) :
    (l.eraseIdx k).Perm ((zs.set j y).filterMap g) := by
  obtain ⟨l1, l2, e1, e2⟩ := set_split hj y
  rw [e2]
  rw [e1] at hp
  simp only [List.filterMap_append, List.filterMap_cons, hx, hy] at hp ⊢
  have h1 : l.Perm (b :: l.eraseIdx k) := by
    obtain ⟨hk', rfl⟩ := List.getElem?_eq_some_iff.1 hk
    rw [List.eraseIdx_eq_take_drop_succ]
    refine List.Perm.trans (List.Perm.of_eq ?_) (List.perm_middle (l₁ := l.take k))
    rw [List.getElem_cons_drop, List.take_append_drop]
  exact ((h1.symm.trans hp).trans List.perm_middle).cons_inv

theorem perm_find {α β : Type} {zs : List α} {x : α} {g : α → Option β} {l : List β} {b : β}
    (hz : x ∈ zs) (hp : l.Perm (zs.filterMap g)) (hx : g x = some b) : ∃ k : Nat, l[k]? = some b :=
  List.mem_iff_getElem?.1 (hp.mem_iff.2 (List.mem_filterMap.2 ⟨x, hz, hx⟩))

theorem Inv.advance {cfg : Config VK Sig St Ch Pf} {s : Server I VK St Ch Pf Nm} {reqs : List (Req I VK Sig St Pf)}
    {a : Seq (Behind I VK St Ch Pf Nm) (Resp St Ch)} {es : List (Event I VK Sig St Pf)}
    {zs : List (Req I VK Sig St Pf × Phase I St Ch Pf)} (v : Inv cfg s reqs a es zs) {j : Nat} {r : Req I VK Sig St Pf}
    {ph ph' : Phase I St Ch Pf} {e : Event I VK Sig St Pf} {σ : Data (Behind I VK St Ch Pf Nm)} {q : P}
    (hj : zs[j]? = some (r, ph)) (hq : q = rest cfg (r, ph'))
    (hh : Holds ((s.run cfg es).step cfg e).2 σ)
    (hs : ((s.run cfg es).step cfg e).2.started.Perm ((zs.set j (r, ph')).filterMap startedOf))
    (ha : ((s.run cfg es).step cfg e).2.applied.Perm ((zs.set j (r, ph')).filterMap appliedOf))
    (hf : ((es ++ [e]).filter isFirst).Perm ((zs.set j (r, ph')).filterMap firstOf))
    (hfit : Fits cfg s (es ++ [e]) (r, ph')) (hr : isRestart e = false) :
    Inv cfg s reqs ⟨σ, a.prog.set j q⟩ (es ++ [e]) (zs.set j (r, ph')) where
  reqs := by
    rw [List.map_set, ← v.reqs]
    exact set_same (by rw [List.getElem?_map, hj]; rfl)
  prog := by
    show a.prog.set j q = _
    rw [List.map_set, v.prog, hq]
  holds := by rw [run_snoc]; exact hh
  started := by rw [run_snoc]; exact hs
  applied := by rw [run_snoc]; exact ha
  firsts := hf
  fits := by
    intro z hz
    rcases List.mem_or_eq_of_mem_set hz with hz | rfl
    · exact (v.fits z hz).append e
    · exact hfit
  noRestart := by
    intro f hf
    rcases List.mem_append.1 hf with hf | hf
    · exact v.noRestart f hf
    · rw [List.mem_singleton.1 hf]; exact hr

theorem inv_section {cfg : Config VK Sig St Ch Pf} {s : Server I VK St Ch Pf Nm} {reqs : List (Req I VK Sig St Pf)}
    {a b : Seq (Behind I VK St Ch Pf Nm) (Resp St Ch)} {es : List (Event I VK Sig St Pf)}
    {zs : List (Req I VK Sig St Pf × Phase I St Ch Pf)} (v : Inv cfg s reqs a es zs) (st : Section a b) :
    ∃ es' zs', Inv cfg s reqs b (es ++ es') zs' := by
  cases st with
  | «section» j p hp =>
    rw [v.prog, List.getElem?_map] at hp
    rcases hz : zs[j]? with _ | ⟨r, ph⟩
    · rw [hz] at hp; cases hp
    · rw [hz] at hp
      have hpe : rest cfg (r, ph) = p := Option.some.inj hp
      subst hpe
      have hmem := List.mem_of_getElem? hz
      have fadd : ∀ {e : Event I VK Sig St Pf}, isFirst e = true → e = r.first → ∀ {ph' : Phase I St Ch Pf},
          firstOf (r, ph) = none → firstOf (r, ph') = some r.first →
          ((es ++ [e]).filter isFirst).Perm ((zs.set j (r, ph')).filterMap firstOf) := by
        intro e he her ph' h1 h2
        rw [List.filter_append, List.filter_cons_of_pos he, List.filter_nil]
        exact perm_add hz v.firsts h1 (her ▸ h2)
      have fsame : ∀ {e : Event I VK Sig St Pf}, isFirst e = false → ∀ {ph' : Phase I St Ch Pf},
          firstOf (r, ph) = firstOf (r, ph') →
          ((es ++ [e]).filter isFirst).Perm ((zs.set j (r, ph')).filterMap firstOf) := by
        intro e he ph' h1
        rw [List.filter_append, List.filter_cons_of_neg (by simp [he]), List.filter_nil, List.append_nil]
        exact perm_same hz v.firsts h1
      cases ph with
      | fresh =>
        cases r with
        | query now i sig =>
          obtain ⟨h1, h2, h3, h4⟩ := query_section cfg v.holds now i sig
          refine ⟨_, _, v.advance (e := .query now i sig) (ph' := .answered ((s.run cfg es).query cfg now i sig).1) hz h2 h1
            ?_ ?_ (fadd rfl rfl rfl rfl) ⟨es, _, [], rfl, rfl, rfl⟩ rfl⟩
          · exact h3 ▸ perm_same hz v.started rfl
          · exact h4 ▸ perm_same hz v.applied rfl
        | update now now' i state proof sig =>
          obtain ⟨h1, h2, h3⟩ := start_section cfg v.holds now now' i state proof sig
          rcases h3 with ⟨h3, h4⟩ | ⟨h3, h4, h5⟩
          · refine ⟨_, _, v.advance (e := .start now i state proof sig) (ph' := .started now' i state proof) hz h3 h1
              ?_ ?_ (fadd rfl rfl rfl rfl) ⟨now, sig, rfl⟩ rfl⟩
            · exact h4 ▸ perm_add hz v.started rfl rfl
            · exact h2 ▸ perm_same hz v.applied rfl
          · refine ⟨_, _, v.advance (e := .start now i state proof sig)
              (ph' := .answered ((s.run cfg es).start cfg now i state proof sig).1) hz h3 h1
              ?_ ?_ (fadd rfl rfl rfl rfl) ⟨es, _, [], rfl, Or.inl ⟨rfl, rfl, h4⟩⟩ rfl⟩
            · exact h5 ▸ perm_same hz v.started rfl
            · exact h2 ▸ perm_same hz v.applied rfl
        | reload rows =>
          refine ⟨_, _, v.advance (e := .reload rows) (ph' := .answered .ok) hz rfl ?_
            (perm_same hz v.started rfl) (perm_same hz v.applied rfl) (fadd rfl rfl rfl rfl) ⟨es, _, [], rfl, rfl, rfl⟩ rfl⟩
          obtain ⟨h1, h2, h3, h4⟩ := v.holds
          simp only [rest, Req.prog, reloadP, run, Holds, Server.step, put_self, put_ne, ne_eq, reduceCtorEq, not_false_eq_true]
          exact ⟨by rw [h1], h2, h3, h4⟩
      | started now' i state proof =>
        obtain ⟨k, hk⟩ := perm_find hmem v.started rfl
        obtain ⟨now, sig, rfl⟩ := v.fits _ hmem
        obtain ⟨h1, h2, h3⟩ := apply_section cfg v.holds now' hk
        rcases h3 with ⟨round, h3, h4⟩ | ⟨h3, h4, h5⟩
        · refine ⟨_, _, v.advance (e := .apply k) (ph' := .applied now' i round) hz h3 h1
            ?_ ?_ (fsame rfl rfl) ⟨now, state, proof, sig, rfl⟩ rfl⟩
          · exact h2 ▸ perm_del hz v.started rfl rfl hk
          · exact h4 ▸ perm_add hz v.applied rfl rfl
        · refine ⟨_, _, v.advance (e := .apply k) (ph' := .answered ((s.run cfg es).apply cfg k).1) hz h3 h1
            ?_ ?_ (fsame rfl rfl) ⟨es, _, [], rfl, Or.inr (Or.inl ⟨k, _, rfl, hk, rfl, h4.choose_spec⟩)⟩ rfl⟩
          · exact h2 ▸ perm_del hz v.started rfl rfl hk
          · exact h5 ▸ perm_same hz v.applied rfl
      | applied now' i round =>
        obtain ⟨k, hk⟩ := perm_find hmem v.applied rfl
        obtain ⟨now, state, proof, sig, rfl⟩ := v.fits _ hmem
        obtain ⟨h1, h2, h3, h4⟩ := finish_section v.holds now' hk
        refine ⟨_, _, v.advance (e := .finish now' k) (ph' := .answered ((s.run cfg es).finish now' k).1) hz h4 h1
          ?_ ?_ (fsame rfl rfl) ⟨es, _, [], rfl, Or.inr (Or.inr ⟨k, round, rfl, hk, rfl⟩)⟩ rfl⟩
        · exact h2 ▸ perm_same hz v.started rfl
        · exact h3 ▸ perm_del hz v.applied rfl rfl hk
      | answered x =>
        rw [← List.append_nil es] at v
        refine ⟨[], zs, { v with prog := ?_, holds := v.holds }⟩
        show a.prog.set j (.done x) = _
        rw [← v.prog]
        exact set_same (by rw [v.prog, List.getElem?_map, hz]; rfl)

theorem inv_sections {cfg : Config VK Sig St Ch Pf} {s : Server I VK St Ch Pf Nm} {reqs : List (Req I VK Sig St Pf)}
    {a b : Seq (Behind I VK St Ch Pf Nm) (Resp St Ch)} (st : Sections a b) {es : List (Event I VK Sig St Pf)}
    {zs : List (Req I VK Sig St Pf × Phase I St Ch Pf)} (v : Inv cfg s reqs a es zs) :
    ∃ es' zs', Inv cfg s reqs b (es ++ es') zs' := by
  induction st with
  | refl => exact ⟨[], zs, (List.append_nil es).symm ▸ v⟩
  | tail _ st ih =>
    obtain ⟨es₁, _, v⟩ := ih
    obtain ⟨es₂, _, v⟩ := inv_section v st
    exact ⟨es₁ ++ es₂, _, List.append_assoc .. ▸ v⟩

omit [DecidableEq I] in
theorem firsts_eq (zs : List (Req I VK Sig St Pf × Phase I St Ch Pf)) :
    zs.filterMap firstOf = ((zs.filter fun z => (firstOf z).isSome).map (·.1)).map Req.first := by
  induction zs with
  | nil => rfl
  | cons z zs ih =>
    obtain ⟨r, ph⟩ := z
    cases ph with
    | fresh => exact ih
    | _ => exact congrArg (r.first :: ·) ih

/-- A history of whole steps of the model, without a restart, explains a state of the server: (1) every request that has been
answered was given that answer by its own event, (2) the requests in the history are some of those of the server, each once,
and all of them if all have been answered, and (3) if no lock is held, the registry, the lock queue, the state of
the ceremony and the files are those after the history. -/
def Explains (cfg : Config VK Sig St Ch Pf) (s : Server I VK St Ch Pf Nm) (reqs : List (Req I VK Sig St Pf))
    (es : List (Event I VK Sig St Pf)) (c : Conc (Behind I VK St Ch Pf Nm) (Resp St Ch)) : Prop :=
  (∀ e ∈ es, isRestart e = false) ∧
  (∀ (j : Nat) (l : List Mx) (x : Resp St Ch) (r : Req I VK Sig St Pf), c.thr[j]? = some ⟨.done x, l⟩ → reqs[j]? = some r →
    ∃ es₁ e es₂, es = es₁ ++ e :: es₂ ∧ Answers cfg (s.run cfg es₁) e x r) ∧
  (∃ rs, rs.Sublist reqs ∧ (es.filter isFirst).Perm (rs.map Req.first) ∧
    ((∀ t ∈ c.thr, ∃ x, t.prog = .done x) → rs = reqs)) ∧
  ((∀ t ∈ c.thr, t.held = []) → Holds (s.run cfg es) c.data)

theorem explains {cfg : Config VK Sig St Ch Pf} {s : Server I VK St Ch Pf Nm} {reqs : List (Req I VK Sig St Pf)}
    {a : Seq (Behind I VK St Ch Pf Nm) (Resp St Ch)} {es : List (Event I VK Sig St Pf)}
    {zs : List (Req I VK Sig St Pf × Phase I St Ch Pf)} (v : Inv cfg s reqs a es zs)
    {c : Conc (Behind I VK St Ch Pf Nm) (Resp St Ch)} (r : Rel c a) : Explains cfg s reqs es c := by
  have done_of : ∀ (j : Nat) (l : List Mx) (x : Resp St Ch), c.thr[j]? = some ⟨.done x, l⟩ →
      ∃ r, zs[j]? = some (r, .answered x) := by
    intro j l x hj
    have := r.answer hj
    rw [v.prog, List.getElem?_map] at this
    rcases hz : zs[j]? with _ | ⟨r, ph⟩
    · rw [hz] at this; cases this
    · rw [hz] at this
      have hr : rest cfg (r, ph) = .done x := Option.some.inj this
      cases ph with
      | fresh => cases r <;> cases hr
      | started => cases hr
      | applied => cases hr
      | answered y => cases hr; exact ⟨r, rfl⟩
  refine ⟨v.noRestart, ?_, ⟨(zs.filter fun z => (firstOf z).isSome).map (·.1), ?_, ?_, ?_⟩, ?_⟩
  · intro j l x r hj hr
    obtain ⟨r', hz⟩ := done_of j l x hj
    have e : r' = r := by
      rw [← v.reqs, List.getElem?_map, hz] at hr
      exact Option.some.inj hr
    subst e
    exact v.fits _ (List.mem_of_getElem? hz)
  · have := (List.filter_sublist (l := zs) (p := fun z => (firstOf z).isSome)).map (·.1)
    rwa [v.reqs] at this
  · exact v.firsts.trans (List.Perm.of_eq (firsts_eq zs))
  · intro hall
    have : zs.filter (fun z => (firstOf z).isSome) = zs := by
      rw [List.filter_eq_self]
      intro z hz
      obtain ⟨j, hj⟩ := List.mem_iff_getElem?.1 hz
      have hlt : j < c.thr.length := by
        rw [← r.length, v.prog, List.length_map]
        exact (List.getElem?_eq_some_iff.1 hj).1
      obtain ⟨x, hx⟩ := hall c.thr[j] (List.getElem_mem hlt)
      obtain ⟨r, hr⟩ := done_of j c.thr[j].held x (by
        rw [List.getElem?_eq_getElem hlt, ← hx])
      rw [hj] at hr
      cases hr
      rfl
    rw [this, v.reqs]
  · intro hfree
    have e : a.data = c.data := by
      funext l
      refine (r.free l fun t ht hl => ?_).symm
      rw [hfree t ht] at hl
      cases hl
    exact e ▸ v.holds

/-- The server with its requests, none of which has begun. -/
def initial (cfg : Config VK Sig St Ch Pf) (s : Server I VK St Ch Pf Nm) (reqs : List (Req I VK Sig St Pf)) :
    Conc (Behind I VK St Ch Pf Nm) (Resp St Ch) :=
  ⟨behind s, reqs.map fun r => ⟨r.prog cfg, []⟩⟩

theorem inv_start (cfg : Config VK Sig St Ch Pf) {s : Server I VK St Ch Pf Nm} (hs : s.started = []) (ha : s.applied = [])
    (reqs : List (Req I VK Sig St Pf)) :
    Inv cfg s reqs ⟨behind s, reqs.map fun r => r.prog cfg⟩ [] (reqs.map fun r => (r, .fresh)) := by
  have none_of : ∀ {β : Type} (g : Req I VK Sig St Pf × Phase I St Ch Pf → Option β), (∀ r, g (r, .fresh) = none) →
      (reqs.map fun r => (r, Phase.fresh)).filterMap g = [] := by
    intro β g hg
    rw [List.filterMap_eq_nil_iff]
    intro z hz
    obtain ⟨r, _, rfl⟩ := List.mem_map.1 hz
    exact hg r
  refine ⟨by simp [Function.comp_def], by simp [Function.comp_def, rest], ⟨rfl, rfl, rfl, rfl⟩, ?_, ?_, ?_, ?_, by simp⟩
  · rw [none_of _ fun _ => rfl]; exact hs ▸ .refl _
  · rw [none_of _ fun _ => rfl]; exact ha ▸ .refl _
  · rw [none_of _ fun _ => rfl]; exact .refl _
  · intro z hz
    obtain ⟨r, _, rfl⟩ := List.mem_map.1 hz
    trivial

theorem rel_initial (cfg : Config VK Sig St Ch Pf) (s : Server I VK St Ch Pf Nm) (reqs : List (Req I VK Sig St Pf)) :
    Rel (initial cfg s reqs) ⟨behind s, reqs.map fun r => r.prog cfg⟩ := by
  have := rel_start (ps := reqs.map fun r => r.prog cfg) (by
    intro p hp
    obtain ⟨r, _, rfl⟩ := List.mem_map.1 hp
    exact prog_twoPhase cfg r) (behind s)
  rwa [List.map_map] at this

/-- **C144.** However the requests of the server are interleaved, action by action, a history of whole steps explains what
has happened so far, and what happens afterwards only extends it: a request that has been answered stays before
everything that takes effect later. -/
theorem c144_server (cfg : Config VK Sig St Ch Pf) (s : Server I VK St Ch Pf Nm) (hs : s.started = []) (ha : s.applied = [])
    (reqs : List (Req I VK Sig St Pf)) {c c' : Conc (Behind I VK St Ch Pf Nm) (Resp St Ch)}
    (h : Steps (initial cfg s reqs) c) (h' : Steps c c') :
    ∃ es es', Explains cfg s reqs es c ∧ Explains cfg s reqs (es ++ es') c' := by
  obtain ⟨a, h1, r1⟩ := rel_steps h (rel_initial cfg s reqs)
  obtain ⟨es, zs, v⟩ := inv_sections h1 (inv_start cfg hs ha reqs)
  obtain ⟨b, h2, r2⟩ := rel_steps h' r1
  obtain ⟨es', zs', v'⟩ := inv_sections h2 v
  exact ⟨es, es', explains v r1, List.append_assoc [] es es' ▸ explains v' r2⟩

/-- The order of the locks. -/
def Mx.rank : Mx → Nat
  | .registry => 0
  | .queue => 1
  | .sclp => 2

omit [DecidableEq I] in
theorem saveP_ordered (h : List Mx) (ws : List (Write I VK St Ch Pf Nm)) (k : P) (hk : Ordered Mx.rank h k) :
    Ordered Mx.rank h (saveP ws k) := by
  induction ws with
  | nil => exact hk
  | cons w ws ih => exact fun _ => ih

theorem prog_ordered (cfg : Config VK Sig St Ch Pf) (r : Req I VK Sig St Pf) : Ordered Mx.rank [] (r.prog cfg : P) := by
  cases r with
  | query now i sig =>
    refine ⟨by simp, fun r => ?_⟩
    dsimp only
    cases (preprocess cfg r.1 i .query sig).1 with
    | error e => trivial
    | ok pr =>
      refine ⟨by simp [Mx.rank], fun q r _ => ?_⟩
      dsimp only
      cases (q.hasLock r.1 cfg.limit now i).1 with
      | error e => simp [enqueueP, Ordered]
      | ok u => simp [Ordered, Mx.rank]
  | update now now' i state proof sig =>
    refine ⟨by simp, fun r => ?_⟩
    dsimp only
    cases (preprocess cfg r.1 i (.contribute state proof) sig).1 with
    | error e => trivial
    | ok pr =>
      refine ⟨by simp [Mx.rank], fun q r _ => ?_⟩
      dsimp only
      cases (q.hasLock r.1 cfg.limit now i).1 with
      | error e => trivial
      | ok u =>
        refine ⟨by simp, fun m => ?_⟩
        dsimp only
        cases (m.1.update cfg state proof).1 with
        | error e => trivial
        | ok round =>
          refine saveP_ordered _ _ _ ⟨by simp, fun r => ?_⟩
          dsimp only
          cases r.1.get i with
          | none => trivial
          | some _ => simp [Ordered, Mx.rank]
  | reload rows => simp [Req.prog, reloadP, Ordered]

/-- **C144, completeness.** No execution goes on forever, and when nothing can happen any more all requests have been answered,
no lock is held, and the outcome is that of a history in which each request occurs exactly once. -/
theorem c144_complete (cfg : Config VK Sig St Ch Pf) (s : Server I VK St Ch Pf Nm) (hs : s.started = []) (ha : s.applied = [])
    (reqs : List (Req I VK Sig St Pf)) :
    (∀ f : Nat → Conc (Behind I VK St Ch Pf Nm) (Resp St Ch), f 0 = initial cfg s reqs → ¬ ∀ n, Step (f n) (f (n + 1))) ∧
    ∀ c, Steps (initial cfg s reqs) c → (∀ c', ¬ Step c c') →
      (∀ t ∈ c.thr, (∃ x, t.prog = .done x) ∧ t.held = []) ∧
      ∃ es, Explains cfg s reqs es c ∧ (es.filter isFirst).Perm (reqs.map Req.first) ∧ Holds (s.run cfg es) c.data := by
  refine ⟨fun f _ => no_infinite f, fun c h hstuck => ?_⟩
  obtain ⟨a, _, r⟩ := rel_steps h (rel_initial cfg s reqs)
  have ho := ordered_steps (rank := Mx.rank) h (by
    intro t ht
    obtain ⟨r, _, rfl⟩ := List.mem_map.1 ht
    exact prog_ordered cfg r)
  have hd := stuck_done (rank := Mx.rank) (B := 2) (by intro l; cases l <;> simp [Mx.rank]) r ho hstuck
  obtain ⟨es, _, he, _⟩ := c144_server cfg s hs ha reqs h (.refl c)
  obtain ⟨h1, h2, ⟨rs, h3, h4, h5⟩, h6⟩ := id he
  rw [h5 fun t ht => (hd t ht).1] at h4
  exact ⟨hd, es, he, h4, h6 fun t ht => (hd t ht).2⟩

theorem run_invariant {cfg : Config VK Sig St Ch Pf} {Q : Server I VK St Ch Pf Nm → Prop}
    (hstep : ∀ s e, isRestart e = false → Q s → Q (s.step cfg e).2) (es : List (Event I VK Sig St Pf)) :
    ∀ s, (∀ e ∈ es, isRestart e = false) → Q s → Q (s.run cfg es) := by
  induction es with
  | nil => intro s _ h; exact h
  | cons e es ih =>
    intro s he h
    exact ih _ (fun e h => he e (List.mem_cons_of_mem _ h)) (hstep s e (he e (List.mem_cons_self ..)) h)

/-- **C144, consequence.** What every step of the model preserves holds of the concurrent server whenever no lock is held: the
data are those of a state of the model that has the property. -/
theorem c144_invariants {cfg : Config VK Sig St Ch Pf} {Q : Server I VK St Ch Pf Nm → Prop}
    (hstep : ∀ s e, isRestart e = false → Q s → Q (s.step cfg e).2) {s : Server I VK St Ch Pf Nm} (h0 : Q s)
    (hs : s.started = []) (ha : s.applied = []) {reqs : List (Req I VK Sig St Pf)}
    {c : Conc (Behind I VK St Ch Pf Nm) (Resp St Ch)} (h : Steps (initial cfg s reqs) c) (hfree : ∀ t ∈ c.thr, t.held = []) :
    ∃ s', Q s' ∧ Holds s' c.data := by
  obtain ⟨es, _, ⟨h1, _, _, h4⟩, _⟩ := c144_server cfg s hs ha reqs h (.refl c)
  exact ⟨_, run_invariant hstep es s h1 h0, h4 hfree⟩

end Server

/-! ## An execution -/

/-- One action of the request `i`, if it has one and the locks allow it. -/
def act (c : Conc D A) (i : Nat) : Option (Conc D A) :=
  match c.thr[i]? with
  | some ⟨.lock l k, h⟩ => if ∀ t ∈ c.thr, l ∉ t.held then some ⟨c.data, c.thr.set i ⟨k, l :: h⟩⟩ else none
  | some ⟨.unlock l k, h⟩ => some ⟨c.data, c.thr.set i ⟨k, h.erase l⟩⟩
  | some ⟨.use l f k, h⟩ => some ⟨put c.data l (f (c.data l)), c.thr.set i ⟨k (c.data l), h⟩⟩
  | some ⟨.pause k, h⟩ => some ⟨c.data, c.thr.set i ⟨k, h⟩⟩
  | _ => none

/-- Actions of the requests in the given order. -/
def schedule (c : Conc D A) : List Nat → Option (Conc D A)
  | [] => some c
  | i :: is => (act c i).bind fun c => schedule c is

theorem act_step {c c' : Conc D A} {i : Nat} (h : act c i = some c') : Step c c' := by
  unfold act at h
  split at h
  · next l k hd hi =>
    split at h
    · next hf => cases h; exact .lock i l k hd hi hf
    · cases h
  · next l k hd hi => cases h; exact .unlock i l k hd hi
  · next l f k hd hi => cases h; exact .use i l f k hd hi
  · next k hd hi => cases h; exact .pause i k hd hi
  · cases h

theorem Steps.trans {a b c : Conc D A} (h : Steps a b) (h' : Steps b c) : Steps a c := by
  induction h' with
  | refl => exact h
  | tail _ s ih => exact .tail ih s

theorem schedule_steps {is : List Nat} : ∀ {c c' : Conc D A}, schedule c is = some c' → Steps c c' := by
  induction is with
  | nil => intro c c' h; cases h; exact .refl _
  | cons i is ih =>
    intro c c' h
    simp only [schedule] at h
    rcases hb : act c i with _ | b
    · rw [hb] at h; cases h
    · rw [hb] at h
      exact (Steps.tail (.refl c) (act_step hb)).trans (ih h)

section Example

/-- Every signature and every transition is accepted. -/
def exCfg : Config Unit Unit Nat Nat Nat where
  verifySig _ _ _ _ := true
  checkState _ := true
  challenge c _ _ _ := c + 1
  verifyTransform _ _ _ _ := true
  limit := 100

/-- Participant 1 has the lock, participant 2 is registered. -/
def exServer : Server Nat Unit Nat Nat Nat Unit where
  reg := [(1, ⟨.normal, (), 0, false⟩), (2, ⟨.normal, (), 0, false⟩)]
  lq := ⟨Util.MDeque.empty 2, some 1, 0⟩
  mpc := ⟨[7], [0], none, 0⟩
  disk := ⟨fun _ k => if k = 0 then some 7 else none, fun _ k => if k = 0 then some 0 else none, fun _ _ => none,
    fun k => if k = 0 then some [] else none, some [()], some 0⟩
  started := []
  applied := []

/-- Participant 1 contributes while participant 2 asks and the registry is reloaded. -/
def exReqs : List (Req Nat Unit Unit Nat Nat) :=
  [.update 5 6 1 [8] [9] (), .query 5 2 (), .reload [some (3, ⟨.high, (), 0, false⟩)]]

/-- The query goes on during the state transition of the contribution, and the registry is reloaded between the saving of
its files. -/
def exSchedule : List Nat :=
  [0, 0, 0, 0, 0, 0, 0, 0, 0, 1, 0, 0, 1, 1, 1, 0, 0, 1, 1, 1, 1, 1, 0, 2, 2, 0, 2, 0, 0, 0, 0, 0, 0, 0, 0, 0, 0, 0]

def exAnswers : Option (List (Option (Resp Nat Nat) × List Mx)) :=
  (schedule (initial exCfg exServer exReqs) exSchedule).map fun c =>
    c.thr.map fun t => (match t.prog with | .done x => some x | _ => none, t.held)

example : exAnswers = some [(some (.round 1), []), (some (.position 0), []), (some .ok, [])] := rfl

/-- All three have been answered and no lock is held: the state, the registry and the files come from a history of three
requests with five events. -/
example : ∃ c es, Steps (initial exCfg exServer exReqs) c ∧ (∀ c', ¬ Step c c') ∧ Explains exCfg exServer exReqs es c ∧
    (es.filter isFirst).Perm (exReqs.map Req.first) ∧ Holds (exServer.run exCfg es) c.data ∧ (c.data .sclp).1.round = 1 := by
  rcases hc : schedule (initial exCfg exServer exReqs) exSchedule with _ | c
  · exact absurd (show exAnswers = none by rw [exAnswers, hc]; rfl) (by rw [show exAnswers = some _ from rfl]; simp)
  · have hx : c.thr.map (fun t => ((match t.prog with | .done x => some x | _ => none : Option (Resp Nat Nat)), t.held)) =
        [(some (.round 1), []), (some (.position 0), []), (some .ok, [])] := by
      have h : exAnswers = some [(some (.round 1), []), (some (.position 0), []), (some .ok, [])] := rfl
      rw [exAnswers, hc] at h
      exact Option.some.inj h
    have hd : ∀ t ∈ c.thr, (∃ x, t.prog = .done x) ∧ t.held = [] := by
      intro t ht
      have hm : ((match t.prog with | .done x => some x | _ => none : Option (Resp Nat Nat)), t.held) ∈
          [(some (.round 1), ([] : List Mx)), (some (.position 0), []), (some .ok, [])] := hx ▸ List.mem_map.2 ⟨t, ht, rfl⟩
      obtain ⟨p, h⟩ := t
      cases p <;> simp_all
      rcases hm with ⟨_, h⟩ | ⟨_, h⟩ | ⟨_, h⟩ <;> exact h
    obtain ⟨es, es', he, _⟩ := c144_server exCfg exServer rfl rfl exReqs (schedule_steps hc) (.refl c)
    obtain ⟨h1, h2, ⟨rs, h3, h4, h5⟩, h6⟩ := id he
    rw [h5 fun t ht => (hd t ht).1] at h4
    have hstuck : ∀ c', ¬ Step c c' := by
      intro c' h
      cases h with
      | lock i l k h hi => obtain ⟨x, hx⟩ := (hd _ (List.mem_of_getElem? hi)).1; cases hx
      | unlock i l k h hi => obtain ⟨x, hx⟩ := (hd _ (List.mem_of_getElem? hi)).1; cases hx
      | use i l f k h hi => obtain ⟨x, hx⟩ := (hd _ (List.mem_of_getElem? hi)).1; cases hx
      | pause i k h hi => obtain ⟨x, hx⟩ := (hd _ (List.mem_of_getElem? hi)).1; cases hx
    refine ⟨c, es, schedule_steps hc, hstuck, he, h4, h6 fun t ht => (hd t ht).2, ?_⟩
    have hr : (schedule (initial exCfg exServer exReqs) exSchedule).map (fun c => (c.data .sclp).1.round) = some 1 := rfl
    rw [hc] at hr
    exact Option.some.inj hr

theorem exDisk : DiskInv exServer [()] exServer.mpc where
  nodup := by simp
  shape := ⟨rfl, rfl, fun _ => rfl, fun h => absurd rfl h⟩
  state := rfl
  challenge := rfl
  round := rfl
  holds := ⟨rfl, rfl, rfl, fun _ => rfl, fun h => absurd rfl h⟩
  later := by
    intro k hk
    have : k ≠ 0 := by have : 0 < k := hk; omega
    simp [exServer, this]
  current := by simp [exServer]
  below := by simp [exServer]
  rounds := by simp [exServer]
  known := by simp [exServer]
  knownS := by simp [exServer]

/-- An invariant of the steps of the model (C45): at any moment without locks the files hold a complete state of the
ceremony, of the round in memory. -/
example {reqs : List (Req Nat Unit Unit Nat Nat)} {c : Conc (Behind Nat Unit Nat Nat Nat Unit) (Resp Nat Nat)}
    (h : Steps (initial exCfg exServer reqs) c) (hfree : ∀ t ∈ c.thr, t.held = []) :
    ∃ saved : Sclp Nat Nat Nat, saved.round = (c.data .sclp).1.round ∧
      recoverLoop (c.data .sclp).2 saved.round [()] = some (saved.state, saved.challenge, saved.proof.getD []) := by
  obtain ⟨s', ⟨saved, hd⟩, h1, h2, h3, h4⟩ := c144_invariants (Q := fun s => ∃ saved, DiskInv s [()] saved)
    (fun s e _ ⟨saved, hd⟩ => ⟨_, diskInv_step exCfg s [()] saved e hd⟩) ⟨_, exDisk⟩ rfl rfl h hfree
  refine ⟨saved, by rw [← hd.round, h3], ?_⟩
  have := hd.holds.files
  rw [h4] at this
  exact this

/-- The discipline is needed: a request that lets the lock go between reading a counter and writing it. -/
def lossy : Prog (fun _ : Unit => Nat) Nat :=
  .lock () <| .use () id fun n => .unlock () <| .lock () <| .use () (fun _ => n + 1) fun _ => .unlock () <| .done n

example : ¬ TwoPhase false [] lossy := by
  simp [lossy, TwoPhase]

/-- Two of them count only once. -/
example : (schedule ⟨fun _ => 0, [⟨lossy, []⟩, ⟨lossy, []⟩]⟩ [0, 0, 0, 1, 1, 1, 0, 0, 0, 1, 1, 1]).map (fun c => c.data ()) =
    some 1 := rfl

end Example

end Verif.Ceremony.Serial
