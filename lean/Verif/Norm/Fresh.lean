import Verif.Norm.Lemmas2

/-! Fresh normalized strings, and `Transform` on strings whose original covers the text. -/

namespace Tok.Norm

/-- The byte range of its character, for every byte of a text that begins at byte `cur`. -/
def byteRanges : Str → Nat → List (Int × Int)
  | [], _ => []
  | c :: s, cur => List.replicate c.utf8Size ((cur : Int), (cur + c.utf8Size : Int)) ++
      byteRanges s (cur + c.utf8Size)

theorem map_alignRefs (s : Str) : ∀ (pre : List (Int × Int)) (cur : Nat),
    (alignRefs s pre.length).map (cellAt (pre ++ alignCells s cur)) = byteRanges s cur := by
  induction s with
  | nil => intro _ _; rfl
  | cons c s ih =>
    intro pre cur
    rw [alignRefs, alignCells, byteRanges, List.map_append, List.map_replicate]
    congr 1
    · simp [cellAt]
    · have := ih (pre ++ [((cur : Int), (cur + c.utf8Size : Int))]) (cur + c.utf8Size)
      rw [List.length_append, List.length_singleton, List.append_assoc, List.singleton_append] at this
      exact this

theorem newNStr_aligns (s : Str) : (newNStr (encStr s)).aligns = byteRanges s 0 := by
  have := map_alignRefs s [] 0
  simpa [newNStr, runes_encStr] using this

theorem newNStr_alignsO (s : Str) : (newNStr (encStr s)).alignsO = byteRanges s 0 := by
  have := map_alignRefs s [] 0
  simpa [newNStr, runes_encStr, NStr.alignsO] using this

theorem length_byteRanges (s : Str) (cur : Nat) : (byteRanges s cur).length = blen s := by
  induction s generalizing cur with
  | nil => rfl
  | cons c s ih => simp [byteRanges, ih]

theorem length_alignRefs (s : Str) (k : Nat) : (alignRefs s k).length = blen s := by
  induction s generalizing k with
  | nil => rfl
  | cons c s ih => simp [alignRefs, ih]

theorem byteRanges_mem {s : Str} {cur : Nat} {p : Int × Int} (h : p ∈ byteRanges s cur) :
    (cur : Int) ≤ p.1 ∧ p.1 ≤ p.2 ∧ p.2 ≤ (cur + blen s : Nat) ∧ (cur + 1 : Int) ≤ p.2 := by
  induction s generalizing cur with
  | nil => cases h
  | cons c s ih =>
    rw [byteRanges] at h
    have := c.utf8Size_pos
    rcases List.mem_append.mp h with h | h
    · rw [(List.mem_replicate.mp h).2]; simp only [blen_cons]; omega
    · have := ih h; simp only [blen_cons]; omega

theorem byteRanges_nd (s : Str) (cur : Nat) : NonDecreasing (byteRanges s cur) := by
  induction s generalizing cur with
  | nil => exact List.Pairwise.nil
  | cons c s ih =>
    rw [byteRanges]
    refine List.pairwise_append.mpr ⟨List.pairwise_replicate.mpr (.inr ⟨Int.le_refl _, Int.le_refl _⟩), ih _, ?_⟩
    intro p hp q hq
    rw [(List.mem_replicate.mp hp).2]
    have := byteRanges_mem hq
    simp only
    omega

theorem newNStr_wf (s : Str) : WF (newNStr (encStr s)) := by
  refine ⟨?_, ?_, ?_, ?_⟩
  · rw [newNStr_aligns, length_byteRanges]; simp [newNStr, length_encStr]
  · simp [newNStr, runes_encStr, length_alignRefs, length_encStr]
  · intro p hp
    rw [newNStr_aligns] at hp
    have := byteRanges_mem hp
    have hl : (newNStr (encStr s)).original.length = blen s := by simp [newNStr, length_encStr]
    rw [hl]; omega
  · rw [newNStr_aligns]; exact byteRanges_nd s 0

theorem byteRanges_append (s t : Str) (cur : Nat) :
    byteRanges (s ++ t) cur = byteRanges s cur ++ byteRanges t (cur + blen s) := by
  induction s generalizing cur with
  | nil => simp [byteRanges]
  | cons c s ih => simp [byteRanges, ih, Nat.add_assoc]

theorem expand_byteRanges (s : Str) (cur : Nat) (hs : s ≠ []) :
    expand (byteRanges s cur) = some ((cur : Int), ((cur + blen s : Nat) : Int)) := by
  have hhead : (byteRanges s cur).head? = some ((cur : Int), (cur + (s.headD 'a').utf8Size : Int)) := by
    cases s with
    | nil => exact absurd rfl hs
    | cons c s =>
      have := c.utf8Size_pos
      rw [byteRanges]
      obtain ⟨k, hk⟩ : ∃ k, c.utf8Size = k + 1 := ⟨c.utf8Size - 1, by omega⟩
      simp [hk, List.replicate_succ]
  have hlast : ∃ x, (byteRanges s cur).getLast? = some (x, ((cur + blen s : Nat) : Int)) := by
    obtain ⟨u, c, rfl⟩ : ∃ u c, s = u ++ [c] := by
      rcases List.eq_nil_or_concat s with h | ⟨u, c, h⟩
      · exact absurd h hs
      · exact ⟨u, c, by simp [h]⟩
    rw [byteRanges_append]
    have := c.utf8Size_pos
    obtain ⟨k, hk⟩ : ∃ k, c.utf8Size = k + 1 := ⟨c.utf8Size - 1, by omega⟩
    refine ⟨((cur + blen u : Nat) : Int), ?_⟩
    simp [byteRanges, hk, List.replicate_succ', List.getLast?_append]
    omega
  obtain ⟨x, hx⟩ := hlast
  unfold expand
  rw [hhead, hx]

/-- The whole original converts to the whole normalized text (or beyond its end, which
`TransformRange` cuts off). -/
def Cover (n : NStr) : Prop :=
  ∃ r, n.convert ⟨0, n.original.length, .original⟩ = .ok (some r) ∧ r.start = 0 ∧
    (n.normalized.length : Int) ≤ r.stop

theorem slc_all (l : List α) : slc l 0 (l.length : Int) = .ok l := by
  rw [slc_ok (by omega) (by omega) (by omega)]
  simp

theorem newNStr_cover (s : Str) : Cover (newNStr (encStr s)) := by
  have hl : (newNStr (encStr s)).original.length = blen s := by simp [newNStr, length_encStr]
  have hn : (newNStr (encStr s)).normalized.length = blen s := by simp [newNStr, length_encStr]
  have ho : (newNStr (encStr s)).alignsO.length = blen s := by rw [newNStr_alignsO, length_byteRanges]
  unfold Cover NStr.convert
  have hf : (⟨0, ((newNStr (encStr s)).original.length : Int), .original⟩ : Rng).full
      (newNStr (encStr s)).original.length = ⟨0, (blen s : Int), .original⟩ := by
    simp [Rng.full, hl]
  simp only [hf]
  by_cases hs : s = []
  · subst hs
    exact ⟨⟨0, 0, .original⟩, by simp, rfl, by rw [hn]; simp⟩
  · have hne : blen s ≠ 0 := by
      intro h; cases s with
      | nil => exact hs rfl
      | cons c s => have := c.utf8Size_pos; simp at h; omega
    rw [if_neg (by omega), if_neg (by rw [ho]; omega)]
    have hsl : slc (newNStr (encStr s)).alignsO 0 (blen s : Int) = .ok (byteRanges s 0) := by
      rw [← ho, slc_all, newNStr_alignsO]
    rw [hsl]
    simp only [Res.bind_ok, expand_byteRanges s 0 hs]
    exact ⟨_, rfl, by simp, by rw [hn]; simp⟩

/-- With a covering original, `Transform` is `TransformRange` on the whole text. -/
theorem transform_eq {n : NStr} (hc : Cover n) (hl : n.aligns.length = n.normalized.length)
    (items : List (Str × Int)) (k : Nat) :
    n.transform items k = n.transformRange ⟨(0 : Nat), n.normalized.length, .normalized⟩ items k := by
  obtain ⟨r, hr, h0, h1⟩ := hc
  have hf : (⟨((0 : Nat) : Int), (n.normalized.length : Int), .normalized⟩ : Rng).full
      n.normalized.length = ⟨0, (n.normalized.length : Int), .normalized⟩ := by
    simp [Rng.full]
  unfold NStr.transform NStr.transformRange
  simp only [hr, hf, Res.bind_ok, h0]
  have e1 : (if r.stop > (n.aligns.length : Int) then (n.aligns.length : Int) else r.stop) =
      n.aligns.length := by split <;> omega
  have e2 : (if (n.normalized.length : Int) > (n.aligns.length : Int) then (n.aligns.length : Int)
      else (n.normalized.length : Int)) = n.aligns.length := by split <;> omega
  rw [e1, e2]

/-! ### Removal at the start -/

/-- No original alignment ends beyond the normalized text. -/
def CellsLe (M : Int) (cells : List (Int × Int)) : Prop := ∀ c ∈ cells, c.2 ≤ M

theorem cellAt_le {M : Int} (hM : 0 ≤ M) {cells : List (Int × Int)} (h : CellsLe M cells) (r : Nat) :
    (cellAt cells r).2 ≤ M := by
  unfold cellAt
  cases hc : cells[r]? with
  | none => simpa using hM
  | some c => exact h c (List.mem_of_getElem? hc)

theorem clearCells_le {M : Int} (hM : 0 ≤ M) {oShift : Int} (ho : 0 ≤ oShift) (rs : List Nat) :
    ∀ {cells : List (Int × Int)} {ess : Int}, CellsLe M cells → 0 ≤ ess → ess ≤ M →
    CellsLe M (clearCells oShift rs cells ess).1 ∧ 0 ≤ (clearCells oShift rs cells ess).2 ∧
      (clearCells oShift rs cells ess).2 ≤ M := by
  induction rs with
  | nil => intro cells ess h1 h2 h3; exact ⟨h1, h2, h3⟩
  | cons r rs ih =>
    intro cells ess h1 h2 h3
    have hr := cellAt_le hM h1 r
    rw [clearCells]
    refine ih ?_ ?_ ?_
    · intro c hc
      rcases List.mem_or_eq_of_mem_set hc with hc | hc
      · exact h1 c hc
      · subst hc
        simp only [applySign]
        split <;> omega
    · split <;> omega
    · split <;> omega

theorem clearChars_ok {N : Nat} {al : List (Int × Int)} (hw : Within N al) (hm : NonDecreasing al)
    {M : Int} (hM : 0 ≤ M) {refs : List Nat} (hN : refs.length = N) (cs : List Char) :
    ∀ {offset : Nat} {oShift : Int} {cells : List (Int × Int)} {ess : Int},
    offset + blen cs ≤ al.length → 0 ≤ oShift → CellsLe M cells → 0 ≤ ess → ess ≤ M →
    ∃ r, clearChars al refs cs offset oShift cells ess = .ok r ∧ 0 ≤ r.2 ∧ r.2 ≤ M := by
  induction cs with
  | nil => intro _ _ _ _ _ _ _ h2 h3; exact ⟨_, rfl, h2, h3⟩
  | cons c cs ih =>
    intro offset oShift cells ess hlen ho h1 h2 h3
    have hc := c.utf8Size_pos
    rw [blen_cons] at hlen
    rw [clearChars]
    have hs : slc al (offset : Int) ((offset : Int) + (c.utf8Size : Int)) =
        .ok ((al.take (offset + c.utf8Size)).drop offset) := by
      rw [slc_ok (by omega) (by omega) (by omega)]
      congr 2
    have hs' := hs
    rw [hs]
    simp only [Res.bind_ok]
    generalize hseg : (al.take (offset + c.utf8Size)).drop offset = seg
    have hsub : seg.Sublist al := by
      rw [← hseg]; exact (List.drop_sublist _ _).trans (List.take_sublist _ _)
    have hlen2 : seg.length = c.utf8Size := by
      rw [← hseg, List.length_drop, List.length_take]; omega
    cases seg with
    | nil => simp at hlen2; omega
    | cons p l =>
      obtain ⟨q, hq⟩ := expand_cons p l
      rw [hq]
      have hp := hw p (hsub.subset (by simp))
      have hnd : NonDecreasing (p :: l) := hm.sublist hsub
      have hq2 : q.1 = p.1 ∧ p.2 ≤ q.2 ∧ q.2 ≤ N := by
        unfold expand at hq
        cases hg : (p :: l).getLast? with
        | none => rw [hg] at hq; cases hq
        | some x =>
          rw [hg] at hq
          simp only [List.head?_cons, Option.some.injEq] at hq
          subst hq
          have hx := List.mem_of_getLast? hg
          refine ⟨rfl, ?_, (hw x (hsub.subset hx)).2.2⟩
          rcases List.mem_cons.mp hx with rfl | hx
          · exact Int.le_refl _
          · exact ((List.pairwise_cons.mp hnd).1 x hx).2
      have hs2 : slc refs q.1 q.2 = .ok ((refs.take q.2.toNat).drop q.1.toNat) :=
        slc_ok (by omega) (by omega) (by omega)
      simp only [hs2, Res.bind_ok]
      obtain ⟨k1, k2, k3⟩ := clearCells_le hM (oShift := oShift + c.utf8Size) (by omega)
        ((refs.take q.2.toNat).drop q.1.toNat) h1 h2 h3
      exact ih (by omega) (by omega) k1 k2 k3

/-- `TransformRange` with characters removed at the start succeeds when the bytes of as many
characters from the beginning of the range as the changes use up fit after the removed ones. -/
theorem transformRange_removed_ok {n : NStr} (hw : WF n) (hcl : CellsLe n.normalized.length n.cells)
    {a b k : Nat} {items : List (Str × Int)}
    (hab : a ≤ b) (hb : b ≤ n.normalized.length) {cs : Str}
    (hcs : (n.normalized.take b).drop a = encStr cs) (hk : k ≤ cs.length)
    (huse : usesAll items ≤ cs.length)
    (hfit : a + blen (cs.take k) + blen (cs.take (usesAll items)) ≤ n.normalized.length) :
    ∃ n', n.transformRange ⟨a, b, .normalized⟩ items k = .ok n' ∧ Outcome n a b items n' := by
  have hfull : (⟨(a : Int), (b : Int), .normalized⟩ : Rng).full n.normalized.length =
      ⟨(a : Int), (b : Int), .normalized⟩ := by
    unfold Rng.full
    simp only [Rng.mk.injEq, and_true]
    constructor
    · rw [if_neg (by omega)]
    · rw [if_neg (by omega)]
  have hla := hw.lenA
  obtain ⟨cl, hcl1, hcl2, hcl3⟩ := clearChars_ok hw.within hw.mono (M := n.normalized.length) (by omega)
    hw.lenO (cs.take k) (offset := a) (oShift := 0) (cells := n.cells) (ess := (b : Int))
    (by omega) (by omega) hcl (by omega) (by omega)
  obtain ⟨st, hst⟩ := changeLoop_ok hw.within items
    (st := { refs := n.refs, cells := cl.1, rest := cs, offset := blen (cs.take k) + a,
             oShift := -(blen (cs.take k) : Int), als := [], out := [] })
    hw.lenO huse (by simp only; omega)
  obtain ⟨c1, c2, c3, c4⟩ := changeLoop_eq _ hst
  obtain ⟨tl, htl, htl2⟩ := shiftTail_ok hw.within hw.mono (ess := cl.2) (oShift := st.oShift)
    (by omega) (by omega) (refs := st.refs) (by rw [c4]; exact hw.lenO) st.cells
  have heq : ∃ n', n.transformRange ⟨a, b, .normalized⟩ items k = .ok n' := by
    unfold NStr.transformRange
    simp only [hfull, Res.bind_ok]
    rw [if_neg (by omega), slc_ok (by omega) (by omega) (by omega)]
    simp only [Res.bind_ok, Int.toNat_natCast, hcs, runes_encStr]
    rw [if_neg (by omega)]
    rw [hcl1]
    simp only [Res.bind_ok]
    rw [hst]
    simp only [Res.bind_ok]
    rw [htl]
    simp only [Res.bind_ok]
    rw [slc_ok (by omega) (by omega) (by omega), slc_ok (by omega) (by omega) (by omega)]
    simp only [Res.bind_ok]
    rw [slc_ok (by omega) (by omega) (by omega), slc_ok (by omega) (by omega) (by omega)]
    exact ⟨_, rfl⟩
  obtain ⟨n', hn'⟩ := heq
  exact ⟨n', hn', transformRange_outcome hw hn' hb⟩

theorem newNStr_cellsLe (s : Str) :
    CellsLe (newNStr (encStr s)).normalized.length (newNStr (encStr s)).cells := by
  have hn : (newNStr (encStr s)).normalized.length = blen s := by simp [newNStr, length_encStr]
  have h : ∀ (s : Str) (cur : Nat), ∀ c ∈ alignCells s cur, c.2 ≤ ((cur + blen s : Nat) : Int) := by
    intro s
    induction s with
    | nil => intro _ c hc; cases hc
    | cons x s ih =>
      intro cur c hc
      rw [alignCells] at hc
      rcases List.mem_cons.mp hc with rfl | hc
      · simp only [blen_cons]; omega
      · have := ih _ c hc
        simp only [blen_cons]
        omega
  intro c hc
  rw [hn]
  have := h s 0 c (by simpa [newNStr, runes_encStr] using hc)
  simpa using this

/-- Order of the alignments of the whole text after a successful `Transform`, for any number of
characters removed at the start. -/
theorem transform_mono {n n' : NStr} (hw : WF n) {items : List (Str × Int)} {k : Nat}
    (h : n.transformRange ⟨(0 : Nat), n.normalized.length, .normalized⟩ items k = .ok n') {cs : Str}
    (hcs : n.normalized = encStr cs) (huse : usesAll items ≤ cs.length) (hnul : '\x00' ∉ cs) :
    NonDecreasing n'.aligns := by
  have hla := hw.lenA
  unfold NStr.transformRange at h
  have hfull : (⟨((0 : Nat) : Int), (n.normalized.length : Int), .normalized⟩ : Rng).full
      n.normalized.length = ⟨0, (n.normalized.length : Int), .normalized⟩ := by simp [Rng.full]
  simp only [hfull, Res.bind_ok] at h
  rw [if_neg (by omega)] at h
  obtain ⟨nb, h1, h⟩ := Res.bind_eq_ok.mp h
  have hnb : nb = encStr cs := by
    rw [slc_all] at h1
    cases h1
    exact hcs
  subst hnb
  rw [runes_encStr] at h
  split at h
  · cases h
  · obtain ⟨cl, h2, h⟩ := Res.bind_eq_ok.mp h
    obtain ⟨st, h3, h⟩ := Res.bind_eq_ok.mp h
    obtain ⟨tl, h4, h⟩ := Res.bind_eq_ok.mp h
    obtain ⟨bf, h5, h⟩ := Res.bind_eq_ok.mp h
    obtain ⟨af, h6, h⟩ := Res.bind_eq_ok.mp h
    obtain ⟨nbf, h7, h⟩ := Res.bind_eq_ok.mp h
    obtain ⟨naf, h8, h⟩ := Res.bind_eq_ok.mp h
    simp only [Res.ok.injEq] at h
    have hmono := changeLoop_mono hw.within hw.mono items h3 huse hnul List.Pairwise.nil
      (by simp) (by simp) (by simp) (by simp)
    have e5 := (slc_eq_ok h5).2.2.2
    have e6 := (slc_eq_ok h6).2.2.2
    simp only [Int.toNat_natCast, Int.toNat_zero, List.take_zero, List.drop_nil] at e5 e6
    have e6' : af = [] := by rw [e6, ← hla]; simp
    subst h
    simp only [e5, e6', List.nil_append, List.append_nil]
    exact hmono

end Tok.Norm
