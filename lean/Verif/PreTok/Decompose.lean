import Verif.PreTok.Prefix
import Verif.Norm.PropsForms

/-!
# Characters of an unchanged text replaced by texts, one by one
-/

namespace Tok.PreTok

open Tok.Norm

/-- The loop over the changes has made the blocks `bs` of the beginning of the text. -/
structure DInv (bs : List (Str × Str)) (rest : Str) (st : TState) : Prop where
  remaining : st.rest = rest
  off : st.offset = blen (lefts bs)
  sh : st.oShift = (blen (rights bs) : Int) - blen (lefts bs)
  out : st.out = rights bs
  als : st.als = alignsOf bs 0
  refs : ∀ r ∈ st.refs, r < st.cells.length
  vals : st.refs.map (cellAt st.cells) = alignsOf (bs.map Prod.swap) 0 ++ byteRanges rest (blen (lefts bs))

theorem length_vals {bs : List (Str × Str)} {rest : Str} {st : TState} (h : DInv bs rest st) :
    st.refs.length = blen (lefts bs) + blen rest := by
  have := congrArg List.length h.vals
  rw [List.length_map, List.length_append, length_alignsOf, rights_swap, length_byteRanges] at this
  exact this

/-- A character becomes a text. -/
theorem DInv.replace {bs : List (Str × Str)} {c : Char} {rest : Str} {st : TState} (h : DInv bs (c :: rest) st)
    (hc : c ≠ '\x00') (t : Str) : ∃ st', changeStep (byteRanges (lefts bs ++ c :: rest) 0) (t, 0) st = .ok st' ∧
      DInv (bs ++ [([c], t)]) rest st' := by
  have hp := c.utf8Size_pos
  obtain ⟨k, hk⟩ : ∃ k, c.utf8Size = k + 1 := ⟨c.utf8Size - 1, by omega⟩
  have hlen := length_vals h
  rw [blen_cons] at hlen
  have hlO : (alignsOf (bs.map Prod.swap) 0).length = blen (lefts bs) := by rw [length_alignsOf, rights_swap]
  have hal : (byteRanges (lefts bs ++ c :: rest) 0).length = blen (lefts bs) + (c.utf8Size + blen rest) := by
    rw [length_byteRanges, blen_append, blen_cons]
  have ha : idx (byteRanges (lefts bs ++ c :: rest) 0) ((blen (lefts bs) : Nat) : Int) =
      .ok (((blen (lefts bs) : Nat) : Int), ((blen (lefts bs) + c.utf8Size : Nat) : Int)) :=
    idx_byteRanges (lefts bs) c rest (blen (lefts bs)) (Nat.le_refl _) (by omega)
  have hpick : pickAlign (byteRanges (lefts bs ++ c :: rest) 0) 0 (blen (lefts bs)) =
      .ok (((blen (lefts bs) : Nat) : Int), ((blen (lefts bs) + c.utf8Size : Nat) : Int)) := by
    unfold pickAlign
    rw [if_neg (by omega), if_neg (by omega)]
    exact ha
  have hval : ((st.refs.map (cellAt st.cells)).take (blen (lefts bs) + c.utf8Size)).drop (blen (lefts bs)) =
      List.replicate c.utf8Size (((blen (lefts bs) : Nat) : Int), ((blen (lefts bs) + c.utf8Size : Nat) : Int)) := by
    rw [h.vals, byteRanges, ← List.append_assoc, List.take_left' (by rw [List.length_append, hlO]; simp),
      List.drop_left' hlO, Int.natCast_add]
  obtain ⟨refs1, cells1, u1, u2, u3⟩ := updateO_alignsO (changes := 0) (len := blen t)
    (sc := (blen t : Int) - c.utf8Size) (rfn := 0) (oShift := st.oShift) (a := blen (lefts bs))
    (b := blen (lefts bs) + c.utf8Size) (refs := st.refs) (cells := st.cells) h.refs (by omega) (by omega) hval
    (o := (((blen (lefts bs) : Nat) : Int), ((blen (lefts bs) + c.utf8Size : Nat) : Int)))
    (by rw [hk]; exact expand_replicate _ _)
  have hno : newOffsets 0 (blen t) ((blen t : Int) - c.utf8Size)
      ((blen t : Int) - (((blen (lefts bs) + c.utf8Size : Nat) : Int) - ((blen (lefts bs) : Nat) : Int))) 0 st.oShift
      (((blen (lefts bs) : Nat) : Int), ((blen (lefts bs) + c.utf8Size : Nat) : Int)) =
      (((blen (rights bs) : Nat) : Int), ((blen (rights bs) + blen t : Nat) : Int)) := by
    have hsh := h.sh
    unfold newOffsets
    rw [if_neg (by omega)]
    dsimp only
    rw [if_pos (.inr (by omega))]
    unfold applySign
    have h1 : ¬ ((((blen (lefts bs) + c.utf8Size : Nat) : Int) + ((blen t : Int) - c.utf8Size)) < 0) := by omega
    have h2 : ¬ ((((blen (lefts bs) + c.utf8Size : Nat) : Int) + ((blen t : Int) - c.utf8Size)) + -0 < 0) := by omega
    have h3 : ¬ ((((blen (lefts bs) + c.utf8Size : Nat) : Int) + ((blen t : Int) - c.utf8Size)) + -0 + st.oShift < 0) := by omega
    have h4 : ¬ (((blen (lefts bs) : Nat) : Int) + st.oShift < 0) := by omega
    rw [if_neg h1, if_neg h2, if_neg h3, if_neg h4]
    ext1 <;> dsimp only <;> omega
  rw [List.map_replicate, hno, h.vals, List.take_left' hlO, byteRanges, ← List.append_assoc,
    List.drop_left' (by rw [List.length_append, hlO]; simp)] at u3
  have hrm : removing (byteRanges (lefts bs ++ c :: rest) 0) (blen (lefts bs)) 0 = .ok (0, 0) := by
    unfold removing; rw [if_neg (by omega)]
  refine ⟨⟨refs1, cells1, rest, blen (lefts bs) + c.utf8Size,
    st.oShift + ((blen t : Int) - c.utf8Size), st.als ++ List.replicate (blen t)
      (((blen (lefts bs) : Nat) : Int), ((blen (lefts bs) + c.utf8Size : Nat) : Int)), st.out ++ t⟩, ?_, ?_⟩
  · unfold changeStep
    simp only [h.off, h.remaining, hpick, Res.bind_ok, Int.le_refl, if_true, List.head?_cons, List.tail_cons, replacedSize, hc,
      if_false, Int.lt_irrefl, removedSize, hrm, u1, zeroO, Nat.not_lt_zero, gt_iff_lt, List.drop_zero, Nat.add_zero]
    simp
  · have hl : blen (lefts (bs ++ [([c], t)])) = blen (lefts bs) + c.utf8Size := by
      rw [lefts_append, blen_append]; simp [lefts]
    have hr : rights (bs ++ [([c], t)]) = rights bs ++ t := by rw [rights_append]; simp [rights]
    refine ⟨rfl, hl.symm, ?_, ?_, ?_, u2, ?_⟩
    · rw [hl, hr, blen_append, h.sh]; push_cast; omega
    · rw [hr, h.out]
    · rw [alignsOf_append, h.als, Nat.zero_add]; simp [alignsOf]
    · rw [u3, hl, List.map_append, alignsOf_append, Nat.zero_add, lefts_swap]
      simp [alignsOf]

/-- Text is put after a character. -/
theorem DInv.insert {as : List (Str × Str)} {c : Char} {r rest : Str} {st : TState} (h : DInv (as ++ [([c], r)]) rest st)
    (t : Str) : ∃ st', changeStep (byteRanges (lefts as ++ c :: rest) 0) (t, 1) st = .ok st' ∧
      DInv (as ++ [([c], r ++ t)]) rest st' := by
  have hp := c.utf8Size_pos
  obtain ⟨k, hk⟩ : ∃ k, c.utf8Size = k + 1 := ⟨c.utf8Size - 1, by omega⟩
  have hlen := length_vals h
  have hl : ∀ r, blen (lefts (as ++ [([c], r)])) = blen (lefts as) + c.utf8Size := by
    intro r; rw [lefts_append, blen_append]; simp [lefts]
  have hr : ∀ r, rights (as ++ [([c], r)]) = rights as ++ r := by
    intro r; rw [rights_append]; simp [rights]
  rw [hl] at hlen
  have hlO : (alignsOf (as.map Prod.swap) 0).length = blen (lefts as) := by rw [length_alignsOf, rights_swap]
  have hal : (byteRanges (lefts as ++ c :: rest) 0).length = blen (lefts as) + (c.utf8Size + blen rest) := by
    rw [length_byteRanges, blen_append, blen_cons]
  have hpick : pickAlign (byteRanges (lefts as ++ c :: rest) 0) 1 (blen (lefts as) + c.utf8Size) =
      .ok (((blen (lefts as) : Nat) : Int), ((blen (lefts as) + c.utf8Size : Nat) : Int)) := by
    unfold pickAlign
    rw [if_pos (by omega), if_neg (by omega), show ((blen (lefts as) + c.utf8Size : Nat) : Int) - 1 = ((blen (lefts as) + k : Nat) : Int) by omega]
    exact idx_byteRanges (lefts as) c rest (blen (lefts as) + k) (by omega) (by omega)
  have hvals : st.refs.map (cellAt st.cells) = alignsOf (as.map Prod.swap) 0 ++
      List.replicate c.utf8Size (((blen (rights as) : Nat) : Int), ((blen (rights as) + blen r : Nat) : Int)) ++
      byteRanges rest (blen (lefts as) + c.utf8Size) := by
    rw [h.vals, hl, List.map_append, alignsOf_append, Nat.zero_add, lefts_swap]
    simp [alignsOf]
  have hval : ((st.refs.map (cellAt st.cells)).take (blen (lefts as) + c.utf8Size)).drop (blen (lefts as)) =
      List.replicate c.utf8Size (((blen (rights as) : Nat) : Int), ((blen (rights as) + blen r : Nat) : Int)) := by
    rw [hvals, List.take_left' (by rw [List.length_append, hlO]; simp), List.drop_left' hlO]
  obtain ⟨refs1, cells1, u1, u2, u3⟩ := updateO_alignsO (changes := 1) (len := blen t)
    (sc := (blen t : Int) - ((0 : Nat) : Int)) (rfn := 0) (oShift := st.oShift) (a := blen (lefts as))
    (b := blen (lefts as) + c.utf8Size) (refs := st.refs) (cells := st.cells) h.refs (by omega) (by omega) hval
    (o := (((blen (rights as) : Nat) : Int), ((blen (rights as) + blen r : Nat) : Int)))
    (by rw [hk]; exact expand_replicate _ _)
  have hno : ∀ sc sco rfn, newOffsets 1 (blen t) sc sco rfn st.oShift
      (((blen (rights as) : Nat) : Int), ((blen (rights as) + blen r : Nat) : Int)) =
      (((blen (rights as) : Nat) : Int), ((blen (rights as) + blen (r ++ t) : Nat) : Int)) := by
    intro sc sco rfn
    unfold newOffsets
    rw [if_pos (by omega), blen_append]
    ext1 <;> dsimp only <;> omega
  rw [List.map_replicate, hno, hvals, List.append_assoc (alignsOf (as.map Prod.swap) 0), List.take_left' hlO, ← List.append_assoc,
    List.drop_left' (by rw [List.length_append, hlO]; simp)] at u3
  have hrm : removing (byteRanges (lefts as ++ c :: rest) 0) (blen (lefts as) + c.utf8Size) 0 = .ok (0, 0) := by
    unfold removing; rw [if_neg (by omega)]
  have hle : ¬ ((1 : Int) ≤ 0) := by omega
  have hlt : ¬ ((1 : Int) < 0) := by omega
  refine ⟨⟨refs1, cells1, rest, blen (lefts as) + c.utf8Size,
    st.oShift + (blen t : Int), st.als ++ List.replicate (blen t)
      (((blen (lefts as) : Nat) : Int), ((blen (lefts as) + c.utf8Size : Nat) : Int)), st.out ++ t⟩, ?_, ?_⟩
  · unfold changeStep
    simp only [h.off, hl, h.remaining, hpick, Res.bind_ok, hle, if_false, replacedSize,
      hlt, removedSize, hrm, u1, zeroO, Nat.not_lt_zero, gt_iff_lt, List.drop_zero, Nat.add_zero]
    simp
  · refine ⟨rfl, (hl _).symm, ?_, ?_, ?_, u2, ?_⟩
    · have := h.sh
      rw [hl, hr, blen_append] at this
      rw [hl, hr, blen_append, blen_append]; dsimp only; rw [this]; push_cast; omega
    · have := h.out
      rw [hr] at this
      rw [hr]; dsimp only; rw [this, List.append_assoc]
    · have := h.als
      rw [alignsOf_append, Nat.zero_add] at this
      rw [alignsOf_append, Nat.zero_add]; dsimp only; rw [this]
      simp [alignsOf, ← List.replicate_append_replicate]
    · dsimp only
      rw [u3, hl, List.map_append, alignsOf_append, Nat.zero_add, lefts_swap]
      simp [alignsOf]

theorem DInv.inserts {as : List (Str × Str)} {c : Char} {rest : Str} (es : Str) : ∀ {r : Str} {st : TState},
    DInv (as ++ [([c], r)]) rest st → ∀ items, ∃ st', changeLoop (byteRanges (lefts as ++ c :: rest) 0)
      (es.map (fun e => ([e], (1 : Int))) ++ items) st = changeLoop (byteRanges (lefts as ++ c :: rest) 0) items st' ∧
      DInv (as ++ [([c], r ++ es)]) rest st' := by
  induction es with
  | nil => intro r st h items; exact ⟨st, rfl, by simpa using h⟩
  | cons e es ih =>
    intro r st h items
    obtain ⟨st1, h1, h2⟩ := h.insert [e]
    obtain ⟨st2, h3, h4⟩ := ih h2 items
    refine ⟨st2, ?_, by simpa using h4⟩
    rw [List.map_cons, List.cons_append, changeLoop, h1, Res.bind_ok, h3]

theorem DInv.segs (g : Char → Str) (rest : Str) (hz : '\x00' ∉ rest) (hg : ∀ c ∈ rest, g c ≠ []) :
    ∀ {bs : List (Str × Str)} {st : TState}, DInv bs rest st → ∃ st',
      changeLoop (byteRanges (lefts bs ++ rest) 0) ((rest.map g).flatMap segItems) st = .ok st' ∧
      DInv (bs ++ rest.map (fun c => ([c], g c))) [] st' := by
  induction rest with
  | nil => intro bs st h; exact ⟨st, rfl, by simpa using h⟩
  | cons c rest ih =>
    intro bs st h
    obtain ⟨d, ds, hd⟩ : ∃ d ds, g c = d :: ds := by
      cases hgc : g c with
      | nil => exact absurd hgc (hg c (by simp))
      | cons d ds => exact ⟨d, ds, rfl⟩
    obtain ⟨st1, h1, h2⟩ := h.replace (by rintro rfl; exact hz (by simp)) [d]
    obtain ⟨st2, h3, h4⟩ := h2.inserts ds ((rest.map g).flatMap segItems)
    obtain ⟨st3, h5, h6⟩ := ih (fun h => hz (by simp [h])) (fun c hc => hg c (by simp [hc])) h4
    refine ⟨st3, ?_, by simpa [hd] using h6⟩
    have e : lefts (bs ++ [([c], [d] ++ ds)]) ++ rest = lefts bs ++ c :: rest := by
      rw [lefts_append]; simp [lefts]
    rw [e] at h5
    rw [List.map_cons, List.flatMap_cons, hd, segItems, List.cons_append, changeLoop, h1, Res.bind_ok, h3, h5]

/-- Every character of an unchanged text without NUL becomes a text that is not empty: every character
is a block with its text. -/
theorem fresh_segs {x : NStr} {m : Str} (hx : Fresh x m) (hz : '\x00' ∉ m) (g : Char → Str) (hg : ∀ c ∈ m, g c ≠ []) :
    ∃ y, x.transform ((m.map g).flatMap segItems) 0 = .ok y ∧ Blocks y (m.map (fun c => ([c], g c))) ∧
      y.shift = x.shift := by
  have hw := hx.wf
  have hlN : x.normalized.length = blen m := by rw [hx.text, length_encStr]
  have hlA : x.aligns.length = blen m := by rw [hx.aligns, length_byteRanges]
  have h0 : DInv [] m ⟨x.refs, x.cells, m, 0, 0, [], []⟩ := by
    refine ⟨rfl, rfl, rfl, rfl, rfl, hx.toBlocks.refs, ?_⟩
    have := hx.alignsO
    unfold NStr.alignsO at this
    rw [this]; rfl
  obtain ⟨st, h1, h2⟩ := DInv.segs g m hz hg h0
  rw [transform_eq hx.cover hw.lenA]
  unfold NStr.transformRange
  have hfull : (⟨(0 : Int), ((blen m : Nat) : Int), .normalized⟩ : Rng).full (blen m) =
      ⟨0, (blen m : Int), .normalized⟩ := by simp [Rng.full]
  have hc : slc x.normalized 0 (blen m : Int) = .ok (encStr m) := by rw [← hlN, slc_all, hx.text]
  simp only [hfull, length_byteRanges, Res.bind_ok, hlN, Int.lt_irrefl, gt_iff_lt, if_false, hc, runes_encStr, Nat.not_lt_zero,
    List.take_zero, clearChars, blen_nil, Int.toNat_zero, Nat.add_zero, Int.natCast_zero, Int.neg_zero, hx.aligns]
  have h1' : changeLoop (byteRanges m 0) ((m.map g).flatMap segItems) ⟨x.refs, x.cells, m, 0, 0, [], []⟩ = .ok st := by
    simpa [lefts] using h1
  have hend : slc (byteRanges m 0) (blen m : Int) (blen m : Int) = .ok [] := by
    rw [slc_ok (by omega) (by omega) (by rw [length_byteRanges]; omega), Int.toNat_natCast]
    simp
  have hendN : slc x.normalized (blen m : Int) (blen m : Int) = .ok [] := by
    rw [slc_ok (by omega) (by omega) (by omega), Int.toNat_natCast]
    simp
  have hz0 : ∀ (α : Type) (l : List α), slc l 0 0 = .ok [] := by
    intro α l
    rw [slc_ok (by omega) (by omega) (by omega)]
    simp
  have hst : shiftTail (byteRanges m 0) (blen m : Int) st.oShift st.refs st.cells = .ok (st.refs, st.cells) := by
    unfold shiftTail
    split
    · rw [length_byteRanges, hend, Res.bind_ok]; rfl
    · rfl
  rw [h1']
  simp only [Res.bind_ok, hst, hz0, hend, hendN, List.nil_append, List.append_nil]
  have hb := h2
  rw [List.nil_append] at hb
  refine ⟨_, rfl, ⟨?_, ?_, ?_, ?_, ?_, hb.refs⟩, rfl⟩
  · intro b hb'
    obtain ⟨c, hc, rfl⟩ := List.mem_map.mp hb'
    exact ⟨by simp, hg c hc⟩
  · show encStr st.out = _
    rw [hb.out]
  · show x.original = _
    rw [hx.original]
    congr 1
    clear hb h2 h1' h1 h0 hc hfull hw hx hz hg hst hend hendN hlN hlA
    induction m with
    | nil => rfl
    | cons c m ih => rw [List.map_cons, lefts_cons, ← ih]; rfl
  · exact hb.als
  · have := hb.vals
    unfold NStr.alignsO
    rw [this]
    simp [byteRanges]

end Tok.PreTok
