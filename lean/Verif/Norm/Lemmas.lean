import Verif.Norm.Model

/-! Lemmas on `TransformRange`. -/

namespace Tok.Norm

/-- The call succeeds with a value satisfying a test; for concrete cases. -/
def okAnd (r : Res α) (p : α → Bool) : Bool :=
  match r with
  | .ok a => p a
  | _ => false

theorem okAnd_spec {r : Res α} {p : α → Bool} (h : okAnd r p = true) : ∃ a, r = .ok a ∧ p a = true := by
  cases r with
  | ok a => exact ⟨a, rfl, h⟩
  | err => cases h
  | panic => cases h

theorem slc_ok {l : List α} {a b : Int} (h1 : 0 ≤ a) (h2 : a ≤ b) (h3 : b ≤ l.length) :
    slc l a b = .ok ((l.take b.toNat).drop a.toNat) := if_pos ⟨h1, h2, h3⟩

theorem slc_eq_ok {l r : List α} {a b : Int} (h : slc l a b = .ok r) :
    0 ≤ a ∧ a ≤ b ∧ b ≤ l.length ∧ r = (l.take b.toNat).drop a.toNat := by
  unfold slc at h
  split at h
  · next hc => cases h; exact ⟨hc.1, hc.2.1, hc.2.2, rfl⟩
  · cases h

theorem slc_length {l r : List α} {a b : Int} (h : slc l a b = .ok r) : (r.length : Int) = b - a := by
  obtain ⟨h1, h2, h3, h4⟩ := slc_eq_ok h
  rw [h4, List.length_drop, List.length_take]
  omega

theorem idx_ok {l : List α} {i : Nat} (h : i < l.length) : idx l (i : Int) = .ok l[i] := by
  unfold idx
  rw [if_neg (by omega)]
  simp [List.getElem?_eq_getElem h]

theorem idx_eq_ok {l : List α} {i : Int} {x : α} (h : idx l i = .ok x) :
    0 ≤ i ∧ l[i.toNat]? = some x := by
  unfold idx at h
  split at h
  · cases h
  · next hi =>
    cases hg : l[i.toNat]? with
    | none => rw [hg] at h; cases h
    | some y => rw [hg] at h; cases h; exact ⟨by omega, rfl⟩

/-- Every alignment is a range of the original, of length `N`. -/
def Within (N : Nat) (al : List (Int × Int)) : Prop :=
  ∀ p ∈ al, 0 ≤ p.1 ∧ p.1 ≤ p.2 ∧ p.2 ≤ (N : Int)

/-- Alignments never go back. -/
def NonDecreasing (al : List (Int × Int)) : Prop :=
  al.Pairwise (fun x y => x.1 ≤ y.1 ∧ x.2 ≤ y.2)

/-- A well-formed normalized string: one alignment per byte on both sides, each alignment of the
normalized text a range of the original, in order. -/
structure WF (n : NStr) : Prop where
  lenA : n.aligns.length = n.normalized.length
  lenO : n.refs.length = n.original.length
  within : Within n.original.length n.aligns
  mono : NonDecreasing n.aligns

theorem nd_get {al : List (Int × Int)} (h : NonDecreasing al) {i j : Nat} (hij : i ≤ j)
    (hj : j < al.length) : (al[i]).1 ≤ (al[j]).1 ∧ (al[i]).2 ≤ (al[j]).2 := by
  rcases Nat.lt_or_eq_of_le hij with h1 | h1
  · exact List.pairwise_iff_getElem.mp h i j (by omega) hj h1
  · subst h1; exact ⟨Int.le_refl _, Int.le_refl _⟩

theorem expand_cons (p : Int × Int) (l : List (Int × Int)) : ∃ q, expand (p :: l) = some q := by
  unfold expand
  cases h : (p :: l).getLast? with
  | none => simp at h
  | some x => exact ⟨_, rfl⟩

/-! ### Each part succeeds, and what it gives -/

theorem putRefs_length {refs : List Nat} {a b : Int} {new : List Nat} (h1 : 0 ≤ a) (h2 : a ≤ b)
    (h3 : b ≤ refs.length) (h4 : (new.length : Int) = b - a) :
    (putRefs refs a b new).length = refs.length := by
  unfold putRefs
  simp only [List.length_append, List.length_take, List.length_drop]
  omega

theorem updateO_length {ch : Int} {len : Nat} {a b c : Int} {align : Int × Int} {refs : List Nat}
    {cells : List (Int × Int)} {r : List Nat × List (Int × Int)}
    (h : updateO ch len a b c align refs cells = .ok r) : r.1.length = refs.length := by
  unfold updateO at h
  cases hs : slc refs align.1 align.2 with
  | err => rw [hs] at h; cases h
  | panic => rw [hs] at h; cases h
  | ok seg =>
    rw [hs] at h
    simp only [Res.bind_ok] at h
    cases he : expand (seg.map (cellAt cells)) with
    | none => rw [he] at h; cases h; rfl
    | some o =>
      rw [he] at h
      simp only [Res.ok.injEq] at h
      subst h
      obtain ⟨h1, h2, h3, _⟩ := slc_eq_ok hs
      have hl := slc_length hs
      refine putRefs_length h1 h2 h3 ?_
      simp [hl]

theorem updateO_ok (ch : Int) (len : Nat) (a b c : Int) {align : Int × Int} {refs : List Nat}
    (cells : List (Int × Int)) (h1 : 0 ≤ align.1) (h2 : align.1 ≤ align.2)
    (h3 : align.2 ≤ refs.length) : ∃ r, updateO ch len a b c align refs cells = .ok r := by
  unfold updateO
  rw [slc_ok h1 h2 h3]
  simp only [Res.bind_ok]
  cases expand (List.map (cellAt cells) ((refs.take align.2.toNat).drop align.1.toNat)) with
  | none => exact ⟨_, rfl⟩
  | some o => exact ⟨_, rfl⟩

theorem removing_ok (al : List (Int × Int)) (i total : Nat) : ∃ r, removing al i total = .ok r := by
  unfold removing
  split
  · next h =>
    rw [idx_ok h.2]
    simp only [Res.bind_ok]
    rw [idx_ok (by split <;> omega)]
    exact ⟨_, rfl⟩
  · exact ⟨_, rfl⟩

theorem zeroO_ok {N : Nat} {al : List (Int × Int)} (hw : Within N al) {i total : Nat}
    (hlt : i < al.length → 0 < total → i + total < al.length) {rfo : Nat × Int}
    (hr : removing al i total = .ok rfo) {align : Int × Int} (ha : align = al[i]?.getD align)
    (ha1 : 0 ≤ align.1) (ha2 : align.1 ≤ align.2)
    {refs : List Nat} (hN : refs.length = N) (cells : List (Int × Int)) :
    ∃ c, zeroO al i total rfo.1 align refs cells = .ok c := by
  unfold zeroO
  split
  · next hpos =>
    unfold removing at hr
    split at hr
    · next hc =>
      have hlt := hlt hc.2 hc.1
      rw [idx_ok hc.2] at hr ⊢
      rw [if_neg (by omega)] at hr
      rw [idx_ok hlt] at hr ⊢
      simp only [Res.bind_ok, Res.ok.injEq] at hr ⊢
      subst hr
      simp only at hpos
      rw [List.getElem?_eq_getElem hc.2] at ha
      simp only [Option.getD_some] at ha
      have hwi := hw _ (List.getElem_mem hc.2)
      have hwj := hw _ (List.getElem_mem hlt)
      rw [← ha] at hpos hwi ⊢
      have hlt2 : align.1.toNat < refs.length := by omega
      have he : idx refs align.1 = .ok refs[align.1.toNat] := by
        have := idx_ok hlt2
        rwa [Int.toNat_of_nonneg ha1] at this
      rw [he]
      simp only [Res.bind_ok]
      rw [slc_ok (by omega) (by omega) (by omega)]
      exact ⟨_, rfl⟩
    · cases hr; simp at hpos
  · exact ⟨_, rfl⟩

theorem shiftTail_ok {N : Nat} {al : List (Int × Int)} (hw : Within N al) (hm : NonDecreasing al)
    {ess oShift : Int} (h1 : 0 ≤ ess) (h2 : ess ≤ al.length) {refs : List Nat} (hN : refs.length = N)
    (cells : List (Int × Int)) :
    ∃ r, shiftTail al ess oShift refs cells = .ok r ∧ r.1.length = N := by
  unfold shiftTail
  split
  · rw [slc_ok h1 h2 (Int.le_refl _)]
    simp only [Res.bind_ok]
    generalize ht : ((al.take (al.length : Int).toNat).drop ess.toNat) = tail
    have hsub : tail.Sublist al := by
      rw [← ht]; exact (List.drop_sublist _ _).trans (List.take_sublist _ _)
    cases tail with
    | nil => exact ⟨_, rfl, hN⟩
    | cons p l =>
      obtain ⟨q, hq⟩ := expand_cons p l
      rw [hq]
      have hp := hw p (hsub.subset (by simp))
      have hnd : NonDecreasing (p :: l) := hm.sublist hsub
      have hq2 : q.1 = p.1 ∧ p.2 ≤ q.2 ∧ q.2 ≤ N := by
        unfold expand at hq
        cases hg : (p :: l).getLast? with
        | none => rw [hg] at hq; cases hq
        | some x =>
          rw [hg] at hq
          simp only [List.head?_cons, Option.some.injEq] at hq
          subst hq
          have hx := List.mem_of_getLast? hg
          refine ⟨rfl, ?_, (hw x (hsub.subset hx)).2.2⟩
          rcases List.mem_cons.mp hx with rfl | hx
          · exact Int.le_refl _
          · exact ((List.pairwise_cons.mp hnd).1 x hx).2
      have hs : slc refs q.1 q.2 = .ok ((refs.take q.2.toNat).drop q.1.toNat) :=
        slc_ok (by omega) (by omega) (by omega)
      simp only [hs, Res.bind_ok]
      refine ⟨_, rfl, ?_⟩
      rw [putRefs_length (by omega) (by omega) (by omega)]
      · exact hN
      · have := slc_length hs
        simp only [List.length_map, List.length_range]
        exact this
  · exact ⟨_, rfl, hN⟩

theorem shiftTail_length {al : List (Int × Int)} {ess oShift : Int} {refs : List Nat}
    {cells : List (Int × Int)} {r : List Nat × List (Int × Int)}
    (h : shiftTail al ess oShift refs cells = .ok r) : r.1.length = refs.length := by
  unfold shiftTail at h
  split at h
  · obtain ⟨tail, _, h⟩ := Res.bind_eq_ok.mp h
    cases he : expand tail with
    | none => rw [he] at h; cases h; rfl
    | some e =>
      rw [he] at h
      obtain ⟨seg, hs, h⟩ := Res.bind_eq_ok.mp h
      simp only [Res.ok.injEq] at h
      subst h
      obtain ⟨h1, h2, h3, _⟩ := slc_eq_ok hs
      refine putRefs_length h1 h2 h3 ?_
      simp only [List.length_map, List.length_range]
      exact slc_length hs
  · cases h; rfl

/-! ### The change loop -/

/-- How many characters of the text a change uses up. -/
def uses (ch : Int) : Nat := if ch > 0 then 0 else 1 + (-ch).toNat

/-- What one change does, whenever it succeeds. -/
theorem changeStep_eq {al : List (Int × Int)} {item : Str × Int} {st st' : TState}
    (h : changeStep al item st = .ok st') :
    ∃ align, pickAlign al item.2 st.offset = .ok align ∧
      st'.als = st.als ++ List.replicate (blen item.1) align ∧
      st'.out = st.out ++ item.1 ∧
      st'.rest = (if item.2 ≤ 0 then st.rest.tail.drop (-item.2).toNat else st.rest) ∧
      st'.offset = (if item.2 ≤ 0 then
        st.offset + replacedSize st.rest.head? + removedSize (-item.2).toNat st.rest.tail else st.offset) ∧
      st'.refs.length = st.refs.length := by
  unfold changeStep at h
  obtain ⟨align, ha, h⟩ := Res.bind_eq_ok.mp h
  obtain ⟨rm, hr, h⟩ := Res.bind_eq_ok.mp h
  obtain ⟨up, hu, h⟩ := Res.bind_eq_ok.mp h
  obtain ⟨cells, hz, h⟩ := Res.bind_eq_ok.mp h
  simp only [Res.ok.injEq] at h
  subst h
  refine ⟨align, ha, rfl, rfl, ?_, ?_, updateO_length hu⟩
  · by_cases h0 : item.2 ≤ 0
    · simp only [h0, if_true]
      by_cases h1 : item.2 < 0
      · simp [h1]
      · have : item.2 = 0 := by omega
        simp [this]
    · simp only [h0, if_false]
      rw [if_neg (by omega)]
      rfl
  · by_cases h0 : item.2 ≤ 0
    · simp only [h0, if_true]
      by_cases h1 : item.2 < 0
      · simp [h1]
      · have : item.2 = 0 := by omega
        simp [this]
    · simp only [h0, if_false]
      rw [if_neg (by omega)]
      simp [replacedSize, removedSize]

theorem pickAlign_mem {al : List (Int × Int)} {ch : Int} {i : Nat} {align : Int × Int}
    (h : pickAlign al ch i = .ok align) : align ∈ al ∨ align = (0, 0) := by
  unfold pickAlign at h
  split at h
  · split at h
    · cases h; exact .inr rfl
    · exact .inl (List.mem_of_getElem? (idx_eq_ok h).2)
  · split at h
    · exact .inl (List.mem_of_getElem? (idx_eq_ok h).2)
    · exact .inl (List.mem_of_getElem? (idx_eq_ok h).2)

/-- The text, the number of alignments and their origin, for every successful run. -/
theorem changeLoop_eq {al : List (Int × Int)} (items : List (Str × Int)) :
    ∀ {st st' : TState}, changeLoop al items st = .ok st' →
      st'.out = st.out ++ (items.map (·.1)).flatten ∧
      st'.als.length = st.als.length + blen (items.map (·.1)).flatten ∧
      (∀ p ∈ st'.als, p ∈ st.als ∨ p ∈ al ∨ p = (0, 0)) ∧
      st'.refs.length = st.refs.length := by
  induction items with
  | nil =>
    intro st st' h
    rw [changeLoop] at h
    cases h
    simp
    exact fun a b h => .inl h
  | cons item items ih =>
    intro st st' h
    rw [changeLoop] at h
    obtain ⟨st1, h1, h2⟩ := Res.bind_eq_ok.mp h
    obtain ⟨align, ha, hals, hout, _, _, hrefs⟩ := changeStep_eq h1
    obtain ⟨i1, i2, i3, i4⟩ := ih h2
    refine ⟨?_, ?_, ?_, ?_⟩
    · rw [i1, hout]; simp
    · rw [i2, hals]; simp; omega
    · intro p hp
      rcases i3 p hp with h | h
      · rw [hals] at h
        rcases List.mem_append.mp h with h | h
        · exact .inl h
        · rw [(List.mem_replicate.mp h).2]
          exact .inr (pickAlign_mem ha)
      · exact .inr h
    · rw [i4, hrefs]

theorem removedSize_le (k : Nat) (cs : List Char) (h : k ≤ cs.length) :
    removedSize k cs = blen (cs.take k) := by
  induction k generalizing cs with
  | zero => simp [removedSize]
  | succ k ih =>
    cases cs with
    | nil => simp at h
    | cons c cs => simp [removedSize, ih cs (by simpa using h)]

theorem blen_take_drop (cs : Str) (k : Nat) : blen (cs.take k) + blen (cs.drop k) = blen cs := by
  rw [← blen_append, List.take_append_drop]

/-- One change succeeds when the characters it uses up are there and their bytes fit. -/
theorem changeStep_ok {N : Nat} {al : List (Int × Int)} (hw : Within N al)
    {item : Str × Int} {st : TState} (hN : st.refs.length = N)
    (huse : uses item.2 ≤ st.rest.length)
    (hoff : st.offset + blen (st.rest.take (uses item.2)) ≤ al.length) :
    ∃ st', changeStep al item st = .ok st' ∧
      st'.offset ≤ st.offset + blen (st.rest.take (uses item.2)) ∧
      st'.refs.length = N ∧ st'.rest = st.rest.drop (uses item.2) := by
  have main : ∃ st', changeStep al item st = .ok st' := by
    by_cases hpos : item.2 > 0
    · -- an inserted character
      unfold changeStep
      have h0 : ¬ item.2 ≤ 0 := by omega
      have h1 : ¬ item.2 < 0 := by omega
      simp only [h0, h1, if_false]
      have hp : ∃ a, pickAlign al item.2 st.offset = .ok a ∧ 0 ≤ a.1 ∧ a.1 ≤ a.2 ∧ a.2 ≤ (N : Int) := by
        unfold pickAlign
        rw [if_pos hpos]
        by_cases hi : st.offset < 1
        · rw [if_pos hi]; exact ⟨_, rfl, Int.le_refl _, Int.le_refl _, by simp⟩
        · rw [if_neg hi]
          have hlt : st.offset - 1 < al.length := by omega
          have := idx_ok hlt
          rw [show ((st.offset - 1 : Nat) : Int) = (st.offset : Int) - 1 by omega] at this
          exact ⟨_, this, hw _ (List.getElem_mem hlt)⟩
      obtain ⟨a, ha, ha1, ha2, ha3⟩ := hp
      rw [ha]
      simp only [Res.bind_ok, removedSize]
      have hr : removing al st.offset 0 = .ok (0, 0) := by simp [removing]
      rw [hr]
      simp only [Res.bind_ok]
      obtain ⟨up, hu⟩ := updateO_ok item.2 (blen item.1) ((blen item.1 : Int) - (replacedSize none : Nat)) 0
        st.oShift st.cells ha1 ha2 (by rw [hN]; exact ha3)
      rw [hu]
      simp [zeroO]
    · have h0 : item.2 ≤ 0 := by omega
      unfold uses at huse hoff
      rw [if_neg hpos] at huse hoff
      cases hrest : st.rest with
      | nil => rw [hrest] at huse; simp at huse
      | cons c cs =>
        rw [hrest] at huse hoff
        have hc := c.utf8Size_pos
        rw [Nat.add_comm 1, List.take_succ_cons, blen_cons] at hoff
        have hi : st.offset < al.length := by omega
        have hk : (if item.2 < 0 then (-item.2).toNat else 0) = (-item.2).toNat := by
          split <;> omega
        have hsz : removedSize (-item.2).toNat cs = blen (cs.take (-item.2).toNat) :=
          removedSize_le _ _ (by simp at huse; omega)
        unfold changeStep
        have hp : pickAlign al item.2 st.offset = .ok al[st.offset] := by
          unfold pickAlign
          rw [if_neg hpos, if_neg (by omega), idx_ok hi]
        simp only [hp, Res.bind_ok, h0, if_true, hrest, List.tail_cons, hk]
        obtain ⟨rm, hr⟩ := removing_ok al st.offset (removedSize (-item.2).toNat cs)
        rw [hr]
        simp only [Res.bind_ok]
        have hwi := hw _ (List.getElem_mem hi)
        obtain ⟨up, hu⟩ := updateO_ok item.2 (blen item.1)
          ((blen item.1 : Int) - (replacedSize (c :: cs).head? : Nat)) rm.2 st.oShift st.cells
          hwi.1 hwi.2.1 (by rw [hN]; exact hwi.2.2)
        rw [hu]
        simp only [Res.bind_ok]
        obtain ⟨cl, hz⟩ := zeroO_ok hw (i := st.offset) (total := removedSize (-item.2).toNat cs)
          (fun _ _ => by omega) hr (align := al[st.offset])
          (by rw [List.getElem?_eq_getElem hi]; rfl) hwi.1 hwi.2.1
          (refs := up.1) (by rw [updateO_length hu, hN]) up.2
        rw [hz]
        exact ⟨_, rfl⟩
  obtain ⟨st', h⟩ := main
  obtain ⟨align, _, _, _, hrest, hoff', hrefs⟩ := changeStep_eq h
  have hr : st'.rest = st.rest.drop (uses item.2) := by
    rw [hrest]
    unfold uses
    by_cases h0 : item.2 ≤ 0
    · rw [if_pos h0, if_neg (by omega), ← List.drop_one, List.drop_drop]
    · rw [if_neg h0, if_pos (by omega)]; rfl
  refine ⟨st', h, ?_, by rw [hrefs, hN], hr⟩
  rw [hoff']
  by_cases h0 : item.2 ≤ 0
  · rw [if_pos h0]
    unfold uses at huse ⊢
    rw [if_neg (by omega)] at huse ⊢
    cases hrest : st.rest with
    | nil => rw [hrest] at huse; simp at huse
    | cons c cs =>
      rw [hrest] at huse
      simp only [List.head?_cons, List.tail_cons]
      rw [removedSize_le _ _ (by simp at huse; omega), Nat.add_comm 1, List.take_succ_cons, blen_cons]
      have hs : replacedSize (some c) ≤ c.utf8Size := by
        simp only [replacedSize]; split <;> omega
      omega
  · rw [if_neg h0]
    unfold uses
    rw [if_pos (by omega)]
    simp

/-- Characters used up by a list of changes. -/
def usesAll (items : List (Str × Int)) : Nat := (items.map (fun i => uses i.2)).sum

theorem changeLoop_ok {N : Nat} {al : List (Int × Int)} (hw : Within N al) (items : List (Str × Int)) :
    ∀ {st : TState}, st.refs.length = N → usesAll items ≤ st.rest.length →
    st.offset + blen (st.rest.take (usesAll items)) ≤ al.length →
    ∃ st', changeLoop al items st = .ok st' := by
  induction items with
  | nil => intro st _ _ _; exact ⟨_, rfl⟩
  | cons item items ih =>
    intro st hN huse hoff
    have hu : usesAll (item :: items) = uses item.2 + usesAll items := by simp [usesAll]
    rw [hu] at huse hoff
    rw [List.take_add, blen_append] at hoff
    obtain ⟨st1, h1, h2, h3, h4⟩ := changeStep_ok hw hN (item := item) (by omega) (by omega)
    obtain ⟨st', h'⟩ := ih (st := st1) h3 (by rw [h4, List.length_drop]; omega) (by rw [h4]; omega)
    exact ⟨st', by rw [changeLoop, h1]; exact h'⟩

/-! ### Order -/

/-- Emitted alignments are in order when no character is NUL. -/
theorem changeLoop_mono {N : Nat} {al : List (Int × Int)} (hw : Within N al) (hm : NonDecreasing al)
    (items : List (Str × Int)) : ∀ {st st' : TState}, changeLoop al items st = .ok st' →
    usesAll items ≤ st.rest.length → '\x00' ∉ st.rest → NonDecreasing st.als →
    (∀ p ∈ st.als, 0 ≤ p.1 ∧ 0 ≤ p.2) →
    (∀ p ∈ st.als, ∀ (j : Nat) (hj : j < al.length), st.offset ≤ j + 1 →
      p.1 ≤ (al[j]).1 ∧ p.2 ≤ (al[j]).2) →
    (st.offset = 0 → ∀ p ∈ st.als, p = (0, 0)) →
    (∀ (hl : 0 < al.length), ∀ p ∈ st.als, p.1 ≤ (al[al.length - 1]).1 ∧ p.2 ≤ (al[al.length - 1]).2) →
    NonDecreasing st'.als := by
  induction items with
  | nil => intro st st' h _ _ hnd _ _ _ _; rw [changeLoop] at h; cases h; exact hnd
  | cons item items ih =>
    intro st st' h huse hnul hnd hpos hle hz hlast
    rw [changeLoop] at h
    obtain ⟨st1, h1, h2⟩ := Res.bind_eq_ok.mp h
    obtain ⟨align, ha, hals, _, hrest, hoff, _⟩ := changeStep_eq h1
    have huse' : uses item.2 + usesAll items ≤ st.rest.length := by simpa [usesAll] using huse
    have hr : st1.rest = st.rest.drop (uses item.2) := by
      rw [hrest]
      unfold uses
      by_cases h0 : item.2 ≤ 0
      · rw [if_pos h0, if_neg (by omega), ← List.drop_one, List.drop_drop]
      · rw [if_neg h0, if_pos (by omega)]; rfl
    have hapos : 0 ≤ align.1 ∧ 0 ≤ align.2 := by
      rcases pickAlign_mem ha with h | h
      · have := hw _ h; omega
      · rw [h]; simp
    -- the new alignment is after the emitted ones, and before what may come
    have key : (∀ p ∈ st.als, p.1 ≤ align.1 ∧ p.2 ≤ align.2) ∧
        (∀ (j : Nat) (hj : j < al.length), st1.offset ≤ j + 1 → align.1 ≤ (al[j]).1 ∧ align.2 ≤ (al[j]).2) ∧
        (st1.offset = 0 → align = (0, 0)) ∧
        (∀ (hl : 0 < al.length), align.1 ≤ (al[al.length - 1]).1 ∧ align.2 ≤ (al[al.length - 1]).2) := by
      unfold pickAlign at ha
      by_cases hpos' : item.2 > 0
      · rw [if_pos hpos'] at ha
        have h0 : ¬ item.2 ≤ 0 := by omega
        rw [if_neg h0] at hoff
        by_cases hi : st.offset < 1
        · rw [if_pos hi] at ha
          cases ha
          refine ⟨fun p hp => ?_, fun j hj _ => ?_, fun _ => rfl, fun hl => ?_⟩
          · rw [hz (by omega) p hp]; simp
          · have := hw _ (List.getElem_mem hj); simp only; omega
          · have := hw _ (List.getElem_mem (show al.length - 1 < al.length by omega)); simp only; omega
        · rw [if_neg hi] at ha
          obtain ⟨_, hg⟩ := idx_eq_ok ha
          rw [show ((st.offset : Int) - 1).toNat = st.offset - 1 by omega] at hg
          obtain ⟨hlt, hg⟩ := List.getElem?_eq_some_iff.mp hg
          subst hg
          refine ⟨fun p hp => hle p hp _ hlt (by omega), fun j hj h => nd_get hm (by omega) hj,
            fun h => by omega, fun hl => nd_get hm (by omega) (by omega)⟩
      · rw [if_neg hpos'] at ha
        have h0 : item.2 ≤ 0 := by omega
        rw [if_pos h0] at hoff
        have hadv : st.offset + 1 ≤ st1.offset := by
          rw [hoff]
          cases hrest' : st.rest with
          | nil => unfold uses at huse'; rw [if_neg hpos', hrest'] at huse'; simp at huse'
          | cons c cs =>
            have hcn : c ≠ '\x00' := fun e => hnul (by rw [hrest', e]; simp)
            have := c.utf8Size_pos
            simp only [List.head?_cons, replacedSize, if_neg hcn]
            omega
        by_cases hi : st.offset ≥ al.length
        · rw [if_pos hi] at ha
          obtain ⟨hnn, hg⟩ := idx_eq_ok ha
          rw [show ((al.length : Int) - 1).toNat = al.length - 1 by omega] at hg
          obtain ⟨hlt, hg⟩ := List.getElem?_eq_some_iff.mp hg
          subst hg
          exact ⟨fun p hp => hlast (by omega) p hp, fun j hj h => by omega, fun h => by omega,
            fun hl => ⟨Int.le_refl _, Int.le_refl _⟩⟩
        · rw [if_neg hi] at ha
          obtain ⟨hnn, hg⟩ := idx_eq_ok ha
          rw [Int.toNat_natCast] at hg
          obtain ⟨hlt, hg⟩ := List.getElem?_eq_some_iff.mp hg
          subst hg
          exact ⟨fun p hp => hle p hp _ hlt (by omega), fun j hj h => nd_get hm (by omega) hj,
            fun h => by omega, fun hl => nd_get hm (by omega) (by omega)⟩
    obtain ⟨k1, k2, k3, k4⟩ := key
    have hoffle : st.offset ≤ st1.offset := by rw [hoff]; split <;> omega
    refine ih h2 (by rw [hr, List.length_drop]; omega) ?_ ?_ ?_ ?_ ?_ ?_
    · rw [hr]; exact fun hc => hnul (List.mem_of_mem_drop hc)
    · rw [hals]
      refine List.pairwise_append.mpr ⟨hnd, ?_, ?_⟩
      · exact List.pairwise_replicate.mpr (.inr ⟨Int.le_refl _, Int.le_refl _⟩)
      · intro p hp q hq
        rw [(List.mem_replicate.mp hq).2]
        exact k1 p hp
    · rw [hals]
      intro p hp
      rcases List.mem_append.mp hp with h | h
      · exact hpos p h
      · rw [(List.mem_replicate.mp h).2]; exact hapos
    · rw [hals]
      intro p hp j hj hle'
      rcases List.mem_append.mp hp with h | h
      · exact hle p h j hj (by omega)
      · rw [(List.mem_replicate.mp h).2]; exact k2 j hj hle'
    · rw [hals]
      intro h0 p hp
      rcases List.mem_append.mp hp with h | h
      · exact hz (by omega) p h
      · rw [(List.mem_replicate.mp h).2]; exact k3 h0
    · rw [hals]
      intro hl p hp
      rcases List.mem_append.mp hp with h | h
      · exact hlast hl p h
      · rw [(List.mem_replicate.mp h).2]; exact k4 hl

end Tok.Norm
