import Verif.Merkle.Fork

/-! # Forked trees: the base trees -/

namespace Verif.Merkle

variable {D N : Type} (H : Hash D N) (h : Nat)

/-- The compressed path of the last leaf, if the digests beside it are right. -/
theorem currentInnerPath_right [DecidableEq N] {l : List D} (hd : NonDefaultOn H h l) (hl : l ≠ []) {m : InnerMap N}
    (hm : ∀ k, k < h → Rt H h m l k (sibling ((l.length - 1) / 2 ^ (k + 1)))) :
    currentInnerPath H h m (l.length - 1) = (specCurrent H h l).path := by
  have hpos := List.length_pos_iff.mpr hl
  unfold currentInnerPath specCurrent
  rw [innerPath_eq]
  have hf := filter_spec H h hd (j := l.length - 1) (by omega) h 0 (by omega)
  simp only [Nat.zero_add] at hf
  simp only
  rw [← hf]
  congr 1
  refine List.map_congr_left fun k hk => ?_
  rw [List.mem_range] at hk
  exact hm k hk

/-! ## Full trees -/

/-- A full tree holds the leaves of the reference. -/
def Full.G (t : Full D N) (r : List (D × Bool)) : Prop := t.WInv H h ∧ t.leaves = r.map Prod.fst

theorem Full.view_right [DecidableEq N] {t : Full D N} (hd : NonDefaultOn H h t.leaves) (hw : t.WInv H h) (P : Nat → Prop) :
    (t.view H h).Right H h t.leaves P := by
  have hcap : t.leaves.length ≤ 2 ^ (h + 1) := hw.1
  refine ⟨rfl, ?_, ?_, ?_, ?_⟩
  · show t.leaves.getLast? = _
    rw [List.getLast?_eq_getElem?]
  · intro he
    show t.currentPath H h = _
    unfold Full.currentPath Full.len
    rw [if_pos (by rw [he]; rfl)]
  · intro hne
    have hpos := List.length_pos_iff.mpr hne
    show t.currentPath H h = _
    have := currentInnerPath_right H h hd hne (m := t.inner) (fun k hk => hw.2 k _ (by omega)
      (sib_lt h (by omega) hk) (fun hst => sibling_ne _ hst.2))
    unfold Full.currentPath Full.len
    rw [if_neg (by omega), this]
    rfl
  · intro i _ hi
    refine ⟨⟨(t.leaves[sibling i]?).getD H.dD, i, innerPath H h t.inner i⟩, ?_, rfl, rfl, ?_, ?_⟩
    · show t.path H h i = _
      unfold Full.path Full.len
      rw [if_neg (by omega)]
    · show (innerPath H h t.inner i).length = h
      rw [innerPath_eq]; simp
    · intro k hk hst
      show (innerPath H h t.inner i)[k]? = _
      rw [innerPath_eq, List.getElem?_map, List.getElem?_range hk, Option.map_some]
      exact congrArg some (hw.2 k _ (by omega) (sib_lt h (by omega) hk) hst)

/-- Appending to a tree whose stale digests may be wrong. -/
theorem Full.pushAll_weak {t : Full D N} (hw : t.WInv H h) (ds : List D) (hc : t.leaves.length + ds.length ≤ capacity h) :
    (t.pushAll H h ds).WInv H h ∧ (t.pushAll H h ds).leaves = t.leaves ++ ds := by
  cases ds with
  | nil => exact ⟨hw, by simp [Full.pushAll]⟩
  | cons d ds =>
    simp only [List.length_cons] at hc
    have e : t.pushAll H h (d :: ds) = (t.pushLeaf H h t.len d).pushAll H h ds := by
      show (t.push H h d).2.pushAll H h ds = _
      rw [Full.push_eq, if_pos (by omega)]
    obtain ⟨r1, r2⟩ := Full.pushAll_spec H h ds (Full.pushLeaf_inv H h hw (by omega) d)
    rw [e]
    refine ⟨r1.weak, ?_⟩
    rw [r2, List.take_of_length_le (by simp [Full.pushLeaf]; omega)]
    simp [Full.pushLeaf]

/-- A fork over a full tree: commits lose nothing, and panic if they fill the tree exactly. -/
theorem fullBase_ok [DecidableEq N] :
    (fullBase H h : Base (Full D N) D N).Ok H h (Full.G H h) (fun _ => true) (2 ^ (h + 1) - 1) where
  keepMono := id
  right hg hn := by
    rw [← hg.2] at hn ⊢
    exact Full.view_right H h hn hg.1 _
  cap hg := by
    have := hg.1.1
    rw [hg.2, List.length_map] at this
    exact this
  merge := by
    intro t r ds hg hc
    have hl : t.leaves.length = r.length := by rw [hg.2, List.length_map]
    have hp := Nat.two_pow_pos (h + 1)
    obtain ⟨w1, w2⟩ := Full.pushAll_weak H h hg.1 (ds.map Prod.snd) (by
      rw [hl, List.length_map]; unfold capacity; omega)
    refine ⟨_, ?_, w1, ?_⟩
    · show (match extendDigests h Full.len (fun t d => t.maybePush H h d) t (ds.map Prod.snd) with
        | .ok t => some t
        | _ => none) = _
      unfold extendDigests
      rw [if_pos (by unfold Full.len capacity; rw [hl, List.length_map]; omega),
        (Full.extendLoop_spec H h (ds.map Prod.snd) t).1 (by rw [hl, List.length_map]; unfold capacity; omega)]
    · rw [w2, hg.2]
      simp [Function.comp_def]
  panic := by
    intro t r ds hg hc hr
    have hl : t.leaves.length = r.length := by rw [hg.2, List.length_map]
    have hp := Nat.two_pow_pos (h + 1)
    show (match extendDigests h Full.len (fun t d => t.maybePush H h d) t (ds.map Prod.snd) with
      | .ok t => some t
      | _ => none) = _
    unfold extendDigests
    rw [if_pos (by unfold Full.len capacity; rw [hl, List.length_map]; omega),
      (Full.extendLoop_spec H h (ds.map Prod.snd) t).2 (by rw [hl, List.length_map]; unfold capacity; omega)]
  prune hg := ⟨_, rfl, hg⟩
  mono hg he _ := ⟨hg.1, by rw [hg.2, he]⟩

/-! ## Partial trees -/

/-- A partial tree represents the leaves of the reference. -/
def Partial.G (K : Kind) (t : Partial D N) (r : List (D × Bool)) : Prop :=
  ∃ ok, Partial.Rel H h K False False 0 t ⟨r, ok⟩

/-- Forgetting that all stored leaves have right paths. -/
theorem Partial.Rel.weaken {K : Kind} {kp fl : Prop} {s : Nat} {t : Partial D N} {r : PRef D}
    (hr : Partial.Rel H h K kp fl s t r) : Partial.Rel H h K False fl s t r :=
  ⟨hr.kind, hr.start, hr.store, hr.live, fun e => e.elim, hr.flag, hr.full⟩

namespace Partial

variable {K : Kind} {t : Partial D N} {r : List (D × Bool)}

theorem G.view_right [DecidableEq N] (hg : G H h K t r) (hd : NonDefaultOn H h (r.map Prod.fst)) :
    (t.view H h).Right H h (r.map Prod.fst) fun i => ∃ d, r[i]? = some (d, true) := by
  obtain ⟨ok, hr⟩ := hg
  have hs := hr.store
  have hlen : t.len = (r.map Prod.fst).length := hs.len_eq
  have hcap : (r.map Prod.fst).length ≤ 2 ^ (h + 1) := hs.cap
  have hstart := hr.start
  have hnext : t.leaf.next = (r.map Prod.fst).length := by
    have := hs.len; rw [hstart, Nat.zero_add] at this; exact this
  have hstored : ∀ i, (t.leaf.map i).isSome → t.leaf.get i = (r.map Prod.fst)[i]? := by
    intro i hi
    have := hs.get_some h hi
    rw [hstart, Nat.zero_add] at this
    exact this
  have hlast : ∀ c, t.leaf.last = some c → c = (r.map Prod.fst).length - 1 := by
    intro c hc
    have : t.leaf.next = c + 1 := by unfold LeafMap.next; rw [hc]
    omega
  have hlast' : r.map Prod.fst ≠ [] → t.leaf.last = some ((r.map Prod.fst).length - 1) := by
    intro hne
    have hpos := List.length_pos_iff.mpr hne
    cases hl : t.leaf.last with
    | none =>
      have : t.leaf.next = 0 := by unfold LeafMap.next; rw [hl]
      omega
    | some c => rw [hlast c hl]
  have hsibl : ∀ i, (t.leaf.map i).isSome → t.leafSibling i = (r.map Prod.fst)[sibling i]? := by
    intro i hi
    have := hs.sib_stored h hi
    rw [hstart, Nat.zero_add] at this
    exact this
  refine ⟨hlen, ?_, ?_, ?_, ?_⟩
  · show t.leaf.currentLeaf = _
    unfold LeafMap.currentLeaf
    by_cases hne : r.map Prod.fst = []
    · have : t.leaf.last = none := by
        cases hl : t.leaf.last with
        | none => rfl
        | some c =>
          have : t.leaf.next = c + 1 := by unfold LeafMap.next; rw [hl]
          rw [hnext, hne] at this
          simp at this
      rw [this, hne]
      rfl
    · rw [hlast' hne, Option.bind_some, hstored _ (hs.last _ (hlast' hne))]
  · intro he
    show t.currentPath H h = _
    unfold Partial.currentPath
    rw [if_pos (by rw [hlen, he]; rfl)]
  · intro hne
    have hpos := List.length_pos_iff.mpr hne
    show t.currentPath H h = _
    have hl := hs.last _ (hlast' hne)
    have := currentInnerPath_right H h hd hne (m := t.inner) (fun k hk => by
      refine hr.live.1 k _ (by omega) (sib_lt h (by omega) hk) (fun hst => sibling_ne _ hst.2)
        (.inr ⟨(r.map Prod.fst).length - 1, by omega, by rw [sibling_sibling], by rw [hstart]; omega, ?_⟩)
      cases e : t.leaf.markedOrRemoved ((r.map Prod.fst).length - 1 - t.start) with
      | false => rfl
      | true =>
        have := ((LeafMap.mor_iff _ _).mp e).1
        rw [hstart] at this
        omega)
    unfold Partial.currentPath
    rw [hlen, if_neg (by omega), this, hsibl _ hl]
    rfl
  · rintro i ⟨d, hi⟩ hlt
    have hf := hr.flag i d (by rw [Nat.zero_add]; exact hi)
    refine ⟨t.pathUnchecked H h i, ?_, rfl, ?_, ?_, ?_⟩
    · show t.path H h i = _
      unfold Partial.path
      rw [if_neg (by rw [hlen]; omega), if_neg (by rw [hstart]; omega)]
    · show (t.leafSibling i).getD H.dD = _
      rw [hsibl i (by rw [hf]; rfl)]
    · show (innerPath H h t.inner i).length = h
      rw [innerPath_eq]; simp
    · intro k hk hst
      show (innerPath H h t.inner i)[k]? = _
      rw [innerPath_eq, List.getElem?_map, List.getElem?_range hk, Option.map_some]
      refine congrArg some (hr.live.1 k _ (by omega) (sib_lt h (by omega) hk) hst
        (.inr ⟨i, by omega, by rw [sibling_sibling], by rw [hstart]; omega, ?_⟩))
      rw [hstart, Nat.sub_zero]
      cases e : t.leaf.markedOrRemoved i with
      | false => rfl
      | true =>
        have := ((LeafMap.mor_iff _ _).mp e).2
        unfold LeafMap.isMarked at this
        rw [hf] at this
        cases this

theorem G.mono (hg : G H h K t r) {r' : List (D × Bool)} (he : r'.map Prod.fst = r.map Prod.fst)
    (hf : ∀ (i : Nat) (d : D), r'[i]? = some (d, true) → r[i]? = some (d, true)) : G H h K t r' := by
  obtain ⟨ok, hr⟩ := hg
  have hd : PRef.digests ⟨r', ok⟩ = PRef.digests ⟨r, ok⟩ := he
  exact ⟨ok, hr.kind, hr.start, by rw [hd]; exact hr.store, by rw [hd]; exact hr.live,
    (fun e => e.elim), fun i d hi => hr.flag i d (hf _ d hi), hr.full⟩

theorem G.cap (hg : G H h K t r) : r.length ≤ 2 ^ (h + 1) := by
  obtain ⟨ok, hr⟩ := hg
  have := hr.store.cap
  rw [PRef.digests_length] at this
  exact this

theorem G.len (hg : G H h K t r) : t.len = r.length := by
  obtain ⟨ok, hr⟩ := hg
  rw [hr.store.len_eq, PRef.digests_length]

theorem G.prune (hg : G H h K t r) : ∃ t', t.prune h = some t' ∧ G H h K t' r := by
  obtain ⟨ok, hr⟩ := hg
  obtain ⟨t', e1, e2⟩ := hr.prune H h False.elim id
  exact ⟨t', e1, ok, e2⟩

theorem G.extendLoop : ∀ (ds : List D) {t : Partial D N} {r : List (D × Bool)}, G H h K t r →
    (r.length + ds.length < 2 ^ (h + 1) → ∃ t', Verif.Merkle.extendLoop (fun t d => Partial.maybePush H h t d) ds t = .ok t' ∧
      G H h K t' (r ++ ds.map (·, false))) ∧
    (r.length + ds.length = 2 ^ (h + 1) →
      ∃ t', Verif.Merkle.extendLoop (fun t d => Partial.maybePush H h t d) ds t = .panic t')
  | [], t, r, hg => by
    have hl := hg.len
    refine ⟨fun hc => ?_, fun hc => ?_⟩
    · obtain ⟨ok, hr⟩ := hg
      have hm : t.leaf.mark (t.len - t.start) = t.leaf :=
        mark_none h hr.store (by unfold Partial.len; omega)
      refine ⟨t, ?_, ok, by simpa using hr⟩
      simp only [List.length_nil, Nat.add_zero] at hc
      simp only [Verif.Merkle.extendLoop, Partial.maybePush, hm]
      rw [if_neg (by rw [hl]; unfold capacity; omega)]
    · refine ⟨{ t with leaf := t.leaf.mark (t.len - t.start) }, ?_⟩
      · simp only [List.length_nil, Nat.add_zero] at hc
        simp only [Verif.Merkle.extendLoop, Partial.maybePush]
        rw [if_pos (by rw [hl]; unfold capacity; omega)]
  | d :: ds, t, r, hg => by
    have hl := hg.len
    have hstep : r.length < 2 ^ (h + 1) → ∃ t', t.push H h d = (true, t') ∧ G H h K t' (r ++ [(d, false)]) := by
      intro hc
      obtain ⟨ok, hr⟩ := hg
      obtain ⟨t', e1, e2⟩ := hr.push_false H h d hc
      exact ⟨t', e1, _, e2⟩
    simp only [List.length_cons]
    refine ⟨fun hc => ?_, fun hc => ?_⟩
    · obtain ⟨t1, e1, e2⟩ := hstep (by omega)
      obtain ⟨t2, g1, g2⟩ := (G.extendLoop ds e2).1 (by simp only [List.length_append, List.length_singleton]; omega)
      refine ⟨t2, ?_, by simpa using g2⟩
      simp only [Verif.Merkle.extendLoop, Partial.maybePush, e1]
      exact g1
    · obtain ⟨t1, e1, e2⟩ := hstep (by omega)
      obtain ⟨t2, g1⟩ := (G.extendLoop ds e2).2 (by simp only [List.length_append, List.length_singleton]; omega)
      refine ⟨t2, ?_⟩
      simp only [Verif.Merkle.extendLoop, Partial.maybePush, e1]
      exact g1

end Partial

/-- A fork over a partial tree, committed with `merge_fork_partial`: commits keep the wishes and may fill the
tree. -/
theorem partialBase_ok [DecidableEq N] (K : Kind) :
    (partialBase H h : Base (Partial D N) D N).Ok H h (Partial.G H h K) id (2 ^ (h + 1)) where
  keepMono := fun e => nomatch e
  right hg hn := hg.view_right H h hn
  cap hg := hg.cap H h
  merge := by
    intro t r ds hg hc
    have hl := hg.len H h
    obtain ⟨ok, hr⟩ := hg
    obtain ⟨t', e1, e2⟩ := Partial.Rel.extendLoop H h ds [] hr (by simpa using hc)
    refine ⟨t', ?_, (PRef.extended h ⟨r, ok⟩ ds).ok, ?_⟩
    · show (match t.extendMarked H h ds with
        | some (true, t) => some t
        | _ => none) = _
      unfold Partial.extendMarked
      rw [if_pos (by rw [hl]; unfold capacity; omega), e1]
      rfl
    · have : (PRef.extended h ⟨r, ok⟩ ds).leaves = r ++ ds.map fun x => (x.2, id !x.1) := by
        unfold PRef.extended
        by_cases hds : ds = []
        · subst hds; simp
        · rw [if_neg hds]; simp
      rw [← this]
      exact e2
  panic := by
    intro t r ds hg hc hr
    omega
  prune hg := hg.prune H h
  mono hg he hf := hg.mono H h he hf

/-- A fork over a partial tree, committed with `merge_fork`: commits lose the wishes, and panic if they fill the
tree exactly. -/
theorem partialBaseFork_ok [DecidableEq N] (K : Kind) :
    (partialBaseFork H h : Base (Partial D N) D N).Ok H h (Partial.G H h K) (fun _ => false) (2 ^ (h + 1) - 1) where
  keepMono := id
  right hg hn := hg.view_right H h hn
  cap hg := hg.cap H h
  merge := by
    intro t r ds hg hc
    have hl := hg.len H h
    have hp := Nat.two_pow_pos (h + 1)
    obtain ⟨t', e1, e2⟩ := (hg.extendLoop H h (ds.map Prod.snd)).1 (by rw [List.length_map]; omega)
    refine ⟨t', ?_, ?_⟩
    · show (match extendDigests h Partial.len (fun t d => t.maybePush H h d) t (ds.map Prod.snd) with
        | .ok t => some t
        | _ => none) = _
      unfold extendDigests
      rw [if_pos (by rw [hl, List.length_map]; unfold capacity; omega), e1]
    · rw [List.map_map] at e2
      simpa [Function.comp_def] using e2
  panic := by
    intro t r ds hg hc hr
    have hl := hg.len H h
    obtain ⟨t', e1⟩ := (hg.extendLoop H h (ds.map Prod.snd)).2 (by rw [List.length_map]; omega)
    show (match extendDigests h Partial.len (fun t d => t.maybePush H h d) t (ds.map Prod.snd) with
      | .ok t => some t
      | _ => none) = _
    unfold extendDigests
    rw [if_pos (by rw [hl, List.length_map]; unfold capacity; omega), e1]
  prune hg := hg.prune H h
  mono hg he hf := hg.mono H h he hf

end Verif.Merkle
