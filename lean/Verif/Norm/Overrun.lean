import Verif.Norm.Items

/-!
# When the changes of `Transform` run past the end of a fresh text
-/

namespace Tok.Norm

theorem blen_dropLast {cs : Str} (h : cs ≠ []) : ∃ c, cs = cs.dropLast ++ [c] := by
  exact ⟨cs.getLast h, (List.dropLast_concat_getLast h).symm⟩

/-- The alignment of a byte of a fresh text ends at the end of the text exactly for the bytes of
the last character. -/
theorem byteRanges_end {cs : Str} {i : Nat} (hi : i < blen cs) :
    ∃ p, (byteRanges cs 0)[i]? = some p ∧ p.2 ≤ blen cs ∧
      (p.2 = (blen cs : Int) ↔ blen cs.dropLast ≤ i) := by
  have hne : cs ≠ [] := by rintro rfl; simp at hi
  obtain ⟨c, hc⟩ := blen_dropLast hne
  generalize cs.dropLast = u at hc
  subst hc
  have hc := c.utf8Size_pos
  have hlt : i < (byteRanges (u ++ [c]) 0).length := by rw [length_byteRanges]; exact hi
  refine ⟨_, List.getElem?_eq_getElem hlt, ?_⟩
  have hm := byteRanges_mem (List.getElem_mem hlt)
  refine ⟨by omega, ?_⟩
  have happ := byteRanges_append u [c] 0
  have hlu : (byteRanges u 0).length = blen u := length_byteRanges ..
  simp only [blen_append, blen_cons, blen_nil] at hi ⊢
  by_cases h : i < blen u
  · have hl2 : i < (byteRanges u 0).length := by omega
    have e : (byteRanges (u ++ [c]) 0)[i] = (byteRanges u 0)[i] := by
      apply Option.some.inj
      rw [← List.getElem?_eq_getElem hlt, ← List.getElem?_eq_getElem hl2, happ,
        List.getElem?_append_left hl2]
    have := byteRanges_mem (List.getElem_mem hl2)
    rw [e]
    constructor
    · intro h'; omega
    · intro h'; omega
  · have e : (byteRanges (u ++ [c]) 0)[i] = ((blen u : Int), ((blen u + c.utf8Size : Nat) : Int)) := by
      apply Option.some.inj
      rw [← List.getElem?_eq_getElem hlt, happ, List.getElem?_append_right (by omega), hlu]
      simp only [byteRanges, List.append_nil, Nat.zero_add]
      rw [List.getElem?_replicate, if_pos (by omega)]
      simp
    rw [e]
    simp only
    constructor
    · intro; omega
    · intro; omega

/-- A change that does not find the bytes it refers to. -/
def BadStep (cs : Str) (item : Str × Int) (i : Nat) (rest : Str) : Prop :=
  (0 < item.2 ∧ blen cs < i) ∨
  (item.2 < 0 ∧ i < blen cs.dropLast ∧ blen cs ≤ i + blen (rest.tail.take (-item.2).toNat))

theorem removing_zero {al : List (Int × Int)} {i total : Nat} (h : total = 0 ∨ al.length ≤ i) :
    removing al i total = .ok (0, 0) := by
  unfold removing
  rw [if_neg (by omega)]

theorem changeStep_cases {cs : Str} {item : Str × Int} {st : TState} (m : Nat)
    (hN : st.refs.length = blen cs) (hrest : st.rest = cs.drop m)
    (huse : uses item.2 ≤ st.rest.length) (hz : '\x00' ∉ cs) :
    (BadStep cs item st.offset st.rest → changeStep (byteRanges cs 0) item st = .panic) ∧
    (¬ BadStep cs item st.offset st.rest → ∃ st', changeStep (byteRanges cs 0) item st = .ok st' ∧
      st'.offset = st.offset + blen (st.rest.take (uses item.2)) ∧
      st'.refs.length = blen cs ∧ st'.rest = st.rest.drop (uses item.2)) := by
  have hal : (byteRanges cs 0).length = blen cs := length_byteRanges ..
  have hw : Within (blen cs) (byteRanges cs 0) := by
    intro p hp
    have := byteRanges_mem hp
    omega
  have fin : (∃ st', changeStep (byteRanges cs 0) item st = .ok st') →
      ∃ st', changeStep (byteRanges cs 0) item st = .ok st' ∧
      st'.offset = st.offset + blen (st.rest.take (uses item.2)) ∧
      st'.refs.length = blen cs ∧ st'.rest = st.rest.drop (uses item.2) := by
    rintro ⟨st', h⟩
    obtain ⟨align, _, _, _, hrest', hoff', hrefs⟩ := changeStep_eq h
    refine ⟨st', h, ?_, by rw [hrefs, hN], ?_⟩
    · rw [hoff']
      by_cases h0 : item.2 ≤ 0
      · rw [if_pos h0]
        unfold uses at huse ⊢
        rw [if_neg (by omega)] at huse ⊢
        cases hr : st.rest with
        | nil => rw [hr] at huse; simp at huse
        | cons c r =>
          rw [hr] at huse
          have hc : c ≠ '\x00' := by
            rintro rfl
            exact hz (List.mem_of_mem_drop (by rw [← hrest, hr]; simp))
          simp only [List.head?_cons, List.tail_cons]
          rw [removedSize_le _ _ (by simp at huse; omega), Nat.add_comm 1, List.take_succ_cons, blen_cons]
          simp only [replacedSize, if_neg hc]
          omega
      · rw [if_neg h0]
        unfold uses
        rw [if_pos (by omega)]
        simp
    · rw [hrest']
      unfold uses
      by_cases h0 : item.2 ≤ 0
      · rw [if_pos h0, if_neg (by omega), ← List.drop_one, List.drop_drop]
      · rw [if_neg h0, if_pos (by omega)]; rfl
  generalize hale : byteRanges cs 0 = al at hal hw fin ⊢
  by_cases hpos : item.2 > 0
  · -- an inserted character
    have h0 : ¬ item.2 ≤ 0 := by omega
    have h1 : ¬ item.2 < 0 := by omega
    constructor
    · rintro (⟨-, hb⟩ | ⟨hb, -⟩)
      · have hp : pickAlign al item.2 st.offset = .panic := by
          unfold pickAlign
          rw [if_pos hpos, if_neg (by omega)]
          unfold idx
          rw [if_neg (by omega), List.getElem?_eq_none (by omega)]
        unfold changeStep
        simp only [hp, Res.bind_panic]
      · omega
    · intro hb
      apply fin
      have hle : st.offset ≤ al.length := by
        apply Nat.le_of_not_lt
        intro h
        exact hb (Or.inl ⟨by omega, by omega⟩)
      unfold changeStep
      simp only [h0, h1, if_false]
      have hp : ∃ a, pickAlign al item.2 st.offset = .ok a ∧ 0 ≤ a.1 ∧ a.1 ≤ a.2 ∧
          a.2 ≤ (blen cs : Int) := by
        unfold pickAlign
        rw [if_pos hpos]
        by_cases hi : st.offset < 1
        · rw [if_pos hi]; exact ⟨_, rfl, Int.le_refl _, Int.le_refl _, by simp⟩
        · rw [if_neg hi]
          have hlt : st.offset - 1 < al.length := by omega
          have := idx_ok hlt
          rw [show ((st.offset - 1 : Nat) : Int) = (st.offset : Int) - 1 by omega] at this
          exact ⟨_, this, hw _ (List.getElem_mem hlt)⟩
      obtain ⟨a, ha, ha1, ha2, ha3⟩ := hp
      rw [ha]
      simp only [Res.bind_ok, removedSize]
      rw [removing_zero (Or.inl rfl)]
      simp only [Res.bind_ok]
      obtain ⟨up, hu⟩ := updateO_ok item.2 (blen item.1) ((blen item.1 : Int) - (replacedSize none : Nat)) 0
        st.oShift st.cells ha1 ha2 (by rw [hN]; exact ha3)
      rw [hu]
      simp [zeroO]
  · -- a replaced character
    have h0 : item.2 ≤ 0 := by omega
    unfold uses at huse
    rw [if_neg hpos] at huse
    cases hr : st.rest with
    | nil => rw [hr] at huse; simp at huse
    | cons c r =>
      rw [hr] at huse
      have hne : cs ≠ [] := by
        rintro rfl
        rw [hrest] at hr; simp at hr
      have hbl : 0 < blen cs := by
        cases cs with
        | nil => exact absurd rfl hne
        | cons c cs => have := c.utf8Size_pos; simp; omega
      have hk : (if item.2 < 0 then (-item.2).toNat else 0) = (-item.2).toNat := by
        split <;> omega
      have hsz : removedSize (-item.2).toNat r = blen (r.take (-item.2).toNat) :=
        removedSize_le _ _ (by simp at huse; omega)
      have hp : ∃ j, ∃ hj : j < al.length, pickAlign al item.2 st.offset = .ok al[j] ∧
          (st.offset < al.length → j = st.offset) := by
        unfold pickAlign
        rw [if_neg hpos]
        by_cases hi : st.offset < al.length
        · rw [if_neg (by omega)]
          exact ⟨st.offset, hi, idx_ok hi, fun _ => rfl⟩
        · rw [if_pos (by omega)]
          have hlt : al.length - 1 < al.length := by omega
          have := idx_ok hlt
          rw [show ((al.length - 1 : Nat) : Int) = (al.length : Int) - 1 by omega] at this
          exact ⟨_, hlt, this, fun h => absurd h hi⟩
      obtain ⟨j, hj, hp, hji⟩ := hp
      have hwi := hw _ (List.getElem_mem hj)
      obtain ⟨rm, hrm⟩ := removing_ok al st.offset (blen (r.take (-item.2).toNat))
      obtain ⟨up, hu⟩ := updateO_ok item.2 (blen item.1)
        ((blen item.1 : Int) - (replacedSize (c :: r).head? : Nat)) rm.2 st.oShift st.cells
        hwi.1 hwi.2.1 (by rw [hN]; exact hwi.2.2)
      have hul := updateO_length hu
      constructor
      · rintro (⟨hb, -⟩ | ⟨hb, hb1, hb2⟩)
        · omega
        · simp only [List.tail_cons] at hb2
          have hdl : blen cs.dropLast ≤ blen cs := by
            obtain ⟨c, hc⟩ := blen_dropLast hne
            have := congrArg blen hc
            rw [blen_append] at this
            omega
          unfold changeStep
          simp only [hp, Res.bind_ok, h0, if_true, hr, List.tail_cons, hk, hsz]
          rw [hrm]
          simp only [Res.bind_ok]
          rw [hu]
          simp only [Res.bind_ok]
          have hi : st.offset < al.length := by omega
          have hpos2 : rm.1 > 0 := by
            unfold removing at hrm
            have ht : 0 < blen (r.take (-item.2).toNat) := by omega
            rw [if_pos ⟨ht, hi⟩, if_pos (by omega), idx_ok hi, idx_ok (show al.length - 1 < al.length by omega)] at hrm
            simp only [Res.bind_ok, Res.ok.injEq] at hrm
            subst hrm
            simp only
            obtain ⟨p, p1, p2, p3⟩ := byteRanges_end (cs := cs) (i := st.offset) (by omega)
            obtain ⟨q, q1, q2, q3⟩ := byteRanges_end (cs := cs) (i := al.length - 1) (by omega)
            rw [hale, List.getElem?_eq_getElem hi] at p1
            rw [hale, List.getElem?_eq_getElem (show al.length - 1 < al.length by omega)] at q1
            rw [Option.some.injEq] at p1 q1; subst p1; have q1 := congrArg Prod.snd q1
            have hq := q3.2 (by
              obtain ⟨c, hc⟩ := blen_dropLast hne
              have hcp := c.utf8Size_pos
              have := congrArg blen hc
              rw [blen_append, blen_cons] at this
              omega)
            have hp' : al[st.offset].2 ≠ (blen cs : Int) := fun h => by have := p3.1 h; omega
            omega
          have : zeroO al st.offset (blen (r.take (-item.2).toNat)) rm.1 al[j] up.1 up.2 = .panic := by
            unfold zeroO
            rw [if_pos hpos2, idx_ok hi]
            simp only [Res.bind_ok]
            have : idx al ((st.offset + blen (r.take (-item.2).toNat) : Nat) : Int) = .panic := by
              unfold idx
              rw [if_neg (by omega), List.getElem?_eq_none (by omega)]
            rw [this]; rfl
          rw [this]; rfl
      · intro hb
        rw [hr] at fin
        apply fin
        unfold changeStep
        simp only [hp, Res.bind_ok, h0, if_true, hr, List.tail_cons, hk, hsz]
        rw [hrm]
        simp only [Res.bind_ok]
        rw [hu]
        simp only [Res.bind_ok]
        have hz' : ∃ cl, zeroO al st.offset (blen (r.take (-item.2).toNat)) rm.1 al[j] up.1 up.2 = .ok cl := by
          by_cases hlt : st.offset < al.length → 0 < blen (r.take (-item.2).toNat) →
              st.offset + blen (r.take (-item.2).toNat) < al.length
          · by_cases hi : st.offset < al.length
            · have := hji hi
              subst this
              exact zeroO_ok hw hlt hrm (by rw [List.getElem?_eq_getElem hi]; rfl) hwi.1 hwi.2.1
                (by rw [hul, hN]) up.2
            · rw [removing_zero (Or.inr (by omega))] at hrm
              cases hrm
              exact ⟨_, by simp [zeroO]; rfl⟩
          · -- inside the last character nothing is cleared
            have hi : st.offset < al.length := by
              apply Nat.lt_of_not_le; intro h; apply hlt; omega
            have ht : 0 < blen (r.take (-item.2).toNat) := by
              apply Nat.pos_of_ne_zero; intro h; apply hlt; omega
            have hov : al.length ≤ st.offset + blen (r.take (-item.2).toNat) := by
              apply Nat.le_of_not_lt; intro h; apply hlt; omega
            have hneg : item.2 < 0 := by
              apply Int.lt_of_not_ge; intro h
              have : item.2 = 0 := by omega
              rw [this] at ht; simp at ht
            have hlast : blen cs.dropLast ≤ st.offset := by
              apply Nat.le_of_not_lt; intro h
              exact hb (Or.inr ⟨hneg, h, by simp only [List.tail_cons]; omega⟩)
            have : rm.1 = 0 := by
              unfold removing at hrm
              rw [if_pos ⟨ht, hi⟩, if_pos (by omega), idx_ok hi, idx_ok (show al.length - 1 < al.length by omega)] at hrm
              simp only [Res.bind_ok, Res.ok.injEq] at hrm
              subst hrm
              simp only
              obtain ⟨p, p1, p2, p3⟩ := byteRanges_end (cs := cs) (i := st.offset) (by omega)
              obtain ⟨q, q1, q2, q3⟩ := byteRanges_end (cs := cs) (i := al.length - 1) (by omega)
              rw [hale, List.getElem?_eq_getElem hi] at p1
              rw [hale, List.getElem?_eq_getElem (show al.length - 1 < al.length by omega)] at q1
              rw [Option.some.injEq] at p1 q1; subst p1; have q1 := congrArg Prod.snd q1
              have := p3.2 hlast
              omega
            rw [this]
            exact ⟨_, by simp [zeroO]; rfl⟩
        obtain ⟨cl, hcl⟩ := hz'
        rw [hcl]
        exact ⟨_, rfl⟩

/-- Some change of the list does not find the bytes it refers to: the code counts the bytes of the
characters from the start of the text, but starts at the byte after the `k` removed ones. -/
def Overruns (cs : Str) (k : Nat) (items : List (Str × Int)) : Prop :=
  ∃ pre item post, items = pre ++ item :: post ∧
    BadStep cs item (blen (cs.take k) + blen (cs.take (usesAll pre))) (cs.drop (usesAll pre))

theorem changeLoop_cases {cs : Str} (k : Nat) (hz : '\x00' ∉ cs) (items : List (Str × Int)) :
    ∀ {st : TState} (m : Nat), st.refs.length = blen cs → st.rest = cs.drop m →
      m + usesAll items ≤ cs.length → st.offset = blen (cs.take k) + blen (cs.take m) →
    ((∃ pre item post, items = pre ++ item :: post ∧
      BadStep cs item (blen (cs.take k) + blen (cs.take (m + usesAll pre))) (cs.drop (m + usesAll pre))) →
        changeLoop (byteRanges cs 0) items st = .panic) ∧
    ((¬ ∃ pre item post, items = pre ++ item :: post ∧
      BadStep cs item (blen (cs.take k) + blen (cs.take (m + usesAll pre))) (cs.drop (m + usesAll pre))) →
        ∃ st', changeLoop (byteRanges cs 0) items st = .ok st') := by
  induction items with
  | nil =>
    intro st m _ _ _ _
    exact ⟨by rintro ⟨pre, item, post, h, -⟩; simp at h, fun _ => ⟨_, rfl⟩⟩
  | cons a items ih =>
    intro st m hN hrest hm hoff
    rw [usesAll_cons] at hm
    obtain ⟨c1, c2⟩ := changeStep_cases (item := a) m hN hrest
      (by rw [hrest, List.length_drop]; omega) hz
    by_cases hb : BadStep cs a st.offset st.rest
    · constructor
      · intro _
        rw [changeLoop, c1 hb]; rfl
      · intro h
        exfalso
        apply h
        refine ⟨[], a, items, rfl, ?_⟩
        rw [hoff, hrest] at hb
        simpa [usesAll] using hb
    · obtain ⟨st', s1, s2, s3, s4⟩ := c2 hb
      have hr' : st'.rest = cs.drop (m + uses a.2) := by rw [s4, hrest, List.drop_drop]
      have ho' : st'.offset = blen (cs.take k) + blen (cs.take (m + uses a.2)) := by
        rw [s2, hoff, List.take_add, blen_append, hrest]; omega
      obtain ⟨d1, d2⟩ := ih (st := st') (m + uses a.2) s3 hr' (by omega) ho'
      have heq : (∃ pre item post, a :: items = pre ++ item :: post ∧
          BadStep cs item (blen (cs.take k) + blen (cs.take (m + usesAll pre)))
            (cs.drop (m + usesAll pre))) ↔
          (∃ pre item post, items = pre ++ item :: post ∧
          BadStep cs item (blen (cs.take k) + blen (cs.take (m + uses a.2 + usesAll pre)))
            (cs.drop (m + uses a.2 + usesAll pre))) := by
        constructor
        · rintro ⟨pre, item, post, h, hbad⟩
          cases pre with
          | nil =>
            simp only [List.nil_append, List.cons.injEq] at h
            obtain ⟨rfl, rfl⟩ := h
            rw [hoff, hrest] at hb
            exact absurd (by simpa [usesAll] using hbad) hb
          | cons x pre =>
            simp only [List.cons_append, List.cons.injEq] at h
            obtain ⟨rfl, rfl⟩ := h
            rw [usesAll_cons, ← Nat.add_assoc] at hbad
            exact ⟨pre, item, post, rfl, hbad⟩
        · rintro ⟨pre, item, post, rfl, hbad⟩
          refine ⟨a :: pre, item, post, rfl, ?_⟩
          rw [usesAll_cons, ← Nat.add_assoc]
          exact hbad
      rw [heq]
      constructor
      · intro h
        rw [changeLoop, s1]
        exact d1 h
      · intro h
        obtain ⟨st'', h'⟩ := d2 h
        exact ⟨st'', by rw [changeLoop, s1]; exact h'⟩

/-- `Transform` of a fresh text without NUL: it panics exactly when the changes overrun the text,
and succeeds otherwise. -/
theorem transform_cases (cs : Str) (items : List (Str × Int)) (k : Nat)
    (hk : k ≤ cs.length) (huse : usesAll items ≤ cs.length) (hz : '\x00' ∉ cs) :
    (Overruns cs k items → (newNStr (encStr cs)).transform items k = .panic) ∧
    (¬ Overruns cs k items → ∃ n', (newNStr (encStr cs)).transform items k = .ok n') := by
  have hw := newNStr_wf cs
  have hcl := newNStr_cellsLe cs
  have hn : (newNStr (encStr cs)).normalized = encStr cs := rfl
  have hl : (newNStr (encStr cs)).normalized.length = blen cs := by rw [hn, length_encStr]
  have ho : (newNStr (encStr cs)).original.length = blen cs := by simp [newNStr, length_encStr]
  rw [transform_eq (newNStr_cover cs) hw.lenA]
  have hla := hw.lenA
  have hlo := hw.lenO
  have hbk : blen (cs.take k) ≤ blen cs := by
    have := congrArg blen (List.take_append_drop k cs)
    rw [blen_append] at this
    omega
  generalize hna : newNStr (encStr cs) = n at *
  have hala : n.aligns = byteRanges cs 0 := by rw [← hna, newNStr_aligns]
  obtain ⟨cl, hcl1, hcl2, hcl3⟩ := clearChars_ok hw.within hw.mono (M := n.normalized.length) (by omega)
    hw.lenO (cs.take k) (offset := 0) (oShift := 0) (cells := n.cells)
    (ess := (n.aligns.length : Int)) (by omega) (by omega) hcl (by omega) (by omega)
  obtain ⟨d1, d2⟩ := changeLoop_cases k hz items
    (st := { refs := n.refs, cells := cl.1, rest := cs, offset := blen (cs.take k),
             oShift := -(blen (cs.take k) : Int), als := [], out := [] })
    0 (by simp only; omega) (by simp) (by omega) (by simp)
  simp only [Nat.zero_add] at d1 d2
  have hfull : (⟨((0 : Nat) : Int), (n.normalized.length : Int), .normalized⟩ : Rng).full
      n.normalized.length = ⟨0, (n.normalized.length : Int), .normalized⟩ := by simp [Rng.full]
  have heq : n.transformRange ⟨((0 : Nat) : Int), n.normalized.length, .normalized⟩ items k = (do
      let st ← changeLoop n.aligns items
        { refs := n.refs, cells := cl.1, rest := cs, offset := blen (cs.take k),
          oShift := -(blen (cs.take k) : Int), als := [], out := [] }
      let tl ← shiftTail n.aligns cl.2 st.oShift st.refs st.cells
      .ok { n with normalized := encStr st.out, aligns := st.als, refs := tl.1, cells := tl.2 }) := by
    unfold NStr.transformRange
    simp only [hfull, Res.bind_ok]
    have e2 : (if (n.normalized.length : Int) > (n.aligns.length : Int) then (n.aligns.length : Int)
        else (n.normalized.length : Int)) = n.aligns.length := by split <;> omega
    rw [e2, hla, slc_all, hn]
    simp only [Res.bind_ok, runes_encStr]
    rw [if_neg (by omega)]
    rw [hla, hn] at hcl1
    simp only [Int.toNat_zero]
    rw [hcl1]
    simp only [Res.bind_ok, Nat.add_zero]
    have hz1 : slc n.aligns 0 ((0 : Nat) : Int) = .ok [] := by
      rw [slc_ok (by omega) (by omega) (by omega)]; simp
    have hz2 : slc (encStr cs) 0 ((0 : Nat) : Int) = .ok [] := by
      rw [slc_ok (by omega) (by omega) (by omega)]; simp
    have hz3 : slc n.aligns ((encStr cs).length : Int) (encStr cs).length = .ok [] := by
      rw [hn] at hla
      rw [slc_ok (by omega) (by omega) (by omega)]; simp
    have hz4 : slc (encStr cs) ((encStr cs).length : Int) (encStr cs).length = .ok [] := by
      rw [slc_ok (by omega) (by omega) (by omega)]; simp
    simp only [hz1, hz2, hz3, hz4, Res.bind_ok, List.nil_append, List.append_nil]
  rw [heq]
  constructor
  · intro h
    rw [hala, d1 h]; rfl
  · intro h
    obtain ⟨st, hst⟩ := d2 h
    rw [hala, hst]
    simp only [Res.bind_ok]
    rw [← hala] at hst ⊢
    obtain ⟨c1, c2, c3, c4⟩ := changeLoop_eq _ hst
    obtain ⟨tl, htl, htl2⟩ := shiftTail_ok hw.within hw.mono (ess := cl.2) (oShift := st.oShift)
      (by omega) (by omega) (refs := st.refs) (by rw [c4]; exact hw.lenO) st.cells
    rw [htl]
    exact ⟨_, rfl⟩

end Tok.Norm
