import Verif.PreTok.Fresh

/-!
# A character put in front of an unchanged text
-/

namespace Tok.PreTok

open Tok.Norm

theorem putRefs_alignsO {refs : List Nat} {cells : List (Int × Int)} (h : ∀ r ∈ refs, r < cells.length)
    (a b : Int) (new : List (Int × Int)) :
    (putRefs refs a b ((List.range new.length).map (· + cells.length))).map (cellAt (cells ++ new)) =
      (refs.map (cellAt cells)).take a.toNat ++ new ++ (refs.map (cellAt cells)).drop b.toNat ∧
    ∀ r ∈ putRefs refs a b ((List.range new.length).map (· + cells.length)), r < (cells ++ new).length := by
  have hold : ∀ l : List Nat, (∀ r ∈ l, r ∈ refs) → l.map (cellAt (cells ++ new)) = l.map (cellAt cells) := by
    intro l hl
    apply List.map_congr_left
    intro r hr
    unfold cellAt
    rw [List.getElem?_append_left (h r (hl r hr))]
  have hnew : ((List.range new.length).map (· + cells.length)).map (cellAt (cells ++ new)) = new := by
    rw [List.map_map]
    conv => rhs; rw [← map_range_cells new]
    apply List.map_congr_left
    intro r _
    unfold cellAt
    simp only [Function.comp]
    rw [List.getElem?_append_right (by omega), Nat.add_sub_cancel]
  constructor
  · unfold putRefs
    rw [List.map_append, List.map_append, hnew, hold _ (fun r hr => List.mem_of_mem_take hr),
      hold _ (fun r hr => List.mem_of_mem_drop hr), List.map_take, List.map_drop]
  · intro r hr
    unfold putRefs at hr
    rw [List.length_append]
    simp only [List.mem_append, List.mem_map, List.mem_range] at hr
    rcases hr with (hr | ⟨j, hj, rfl⟩) | hr
    · have := h r (List.mem_of_mem_take hr); omega
    · omega
    · have := h r (List.mem_of_mem_drop hr); omega

/-- The effect of `updateO` on the alignments of the original. -/
theorem updateO_alignsO {changes : Int} {len : Nat} {sc rfn oShift : Int} {a b : Nat} {refs : List Nat}
    {cells : List (Int × Int)} (h : ∀ r ∈ refs, r < cells.length) (hab : a ≤ b) (hb : b ≤ refs.length)
    {vals : List (Int × Int)} (hv : ((refs.map (cellAt cells)).take b).drop a = vals) {o : Int × Int}
    (ho : expand vals = some o) :
    ∃ refs' cells', updateO changes len sc rfn oShift ((a : Int), (b : Int)) refs cells = .ok (refs', cells') ∧
      (∀ r ∈ refs', r < cells'.length) ∧
      refs'.map (cellAt cells') = (refs.map (cellAt cells)).take a ++
        vals.map (newOffsets changes len sc ((len : Int) - (o.2 - o.1)) rfn oShift) ++
        (refs.map (cellAt cells)).drop b := by
  have hseg : (((refs.take b).drop a).map (cellAt cells)) = vals := by
    rw [← hv, List.map_drop, List.map_take]
  unfold updateO
  simp only [slc_ok (show (0 : Int) ≤ (a : Int) by omega) (show (a : Int) ≤ (b : Int) by omega)
    (show (b : Int) ≤ (refs.length : Int) by omega), Res.bind_ok, Int.toNat_natCast, hseg, ho]
  obtain ⟨e1, e2⟩ := putRefs_alignsO h (a : Int) (b : Int)
    (vals.map (newOffsets changes len sc ((len : Int) - (o.2 - o.1)) rfn oShift))
  exact ⟨_, _, rfl, e2, by simpa using e1⟩

theorem expand_replicate (n : Nat) (p : Int × Int) : expand (List.replicate (n + 1) p) = some p := by
  unfold expand
  rw [List.replicate_succ, List.head?_cons, ← List.replicate_succ, List.replicate_succ', List.getLast?_concat]

/-- A character in front: the first two characters of the result are aligned with the first
character of the text. -/
theorem prepend_fresh {x : NStr} {c : Char} {t : Str} (h : Fresh x (c :: t)) (hc : c ≠ '\x00') (r : Char) :
    ∃ y, x.prepend (encStr [r]) = .ok y ∧ Blocks y (([c], [r, c]) :: singles t) ∧ y.shift = x.shift := by
  have hp := c.utf8Size_pos
  have hlenR : x.refs.length = c.utf8Size + blen t := by
    rw [← alignsO_length, h.alignsO, length_byteRanges, blen_cons]
  have hlenA : x.aligns.length = c.utf8Size + blen t := by rw [h.aligns, length_byteRanges, blen_cons]
  have hlenN : x.normalized.length = c.utf8Size + blen t := by rw [h.text, length_encStr, blen_cons]
  have hal : x.aligns = List.replicate c.utf8Size ((0 : Int), (c.utf8Size : Int)) ++ byteRanges t c.utf8Size := by
    rw [h.aligns, byteRanges]; simp
  have hO : x.refs.map (cellAt x.cells) =
      List.replicate c.utf8Size ((0 : Int), (c.utf8Size : Int)) ++ byteRanges t c.utf8Size := by
    have := h.alignsO
    unfold NStr.alignsO at this
    rw [this, byteRanges]; simp
  have ha0 : idx x.aligns ((0 : Nat) : Int) = .ok ((0 : Int), (c.utf8Size : Int)) := by
    rw [idx_ok (show 0 < x.aligns.length by omega)]
    simp [hal, hp]
  have ha1 : idx x.aligns ((c.utf8Size : Int) - 1) = .ok ((0 : Int), (c.utf8Size : Int)) := by
    rw [show (c.utf8Size : Int) - 1 = ((c.utf8Size - 1 : Nat) : Int) by omega,
      idx_ok (show c.utf8Size - 1 < x.aligns.length by omega)]
    simp only [Res.ok.injEq, hal]
    rw [List.getElem_append_left (by simp; omega)]
    simp
  have hval : ((x.refs.map (cellAt x.cells)).take c.utf8Size).drop 0 =
      List.replicate c.utf8Size ((0 : Int), (c.utf8Size : Int)) := by
    rw [hO, List.drop_zero, List.take_left' (by simp)]
  obtain ⟨k, hk⟩ : ∃ k, c.utf8Size = k + 1 := ⟨c.utf8Size - 1, by omega⟩
  obtain ⟨refs1, cells1, u1, u2, u3⟩ := updateO_alignsO (changes := 0) (len := r.utf8Size)
    (sc := (r.utf8Size : Int) - c.utf8Size) (rfn := 0) (oShift := 0) (a := 0) (b := c.utf8Size)
    (refs := x.refs) (cells := x.cells) (h.toBlocks.refs) (by omega) (by omega) hval
    (o := ((0 : Int), (c.utf8Size : Int))) (by rw [hk]; exact expand_replicate _ _)
  have hno : newOffsets 0 r.utf8Size ((r.utf8Size : Int) - c.utf8Size) ((r.utf8Size : Int) - ((c.utf8Size : Int) - 0)) 0 0
      ((0 : Int), (c.utf8Size : Int)) = ((0 : Int), (r.utf8Size : Int)) := by
    simp only [newOffsets, applySign, Int.lt_irrefl, if_false, Int.sub_zero, or_true, if_true, Int.add_zero,
      gt_iff_lt, Int.neg_zero]
    have : ¬ ((c.utf8Size : Int) + ((r.utf8Size : Int) - c.utf8Size) < 0) := by omega
    simp only [this, if_false]
    congr 1; omega
  rw [List.map_replicate, hno, hO, List.take_zero, List.nil_append, List.drop_left' (by simp)] at u3
  have hval2 : ((refs1.map (cellAt cells1)).take c.utf8Size).drop 0 =
      List.replicate c.utf8Size ((0 : Int), (r.utf8Size : Int)) := by
    rw [u3, List.drop_zero, List.take_left' (by simp)]
  have hl1 : refs1.length = c.utf8Size + blen t := by
    have := congrArg List.length u3
    rw [List.length_map, List.length_append, List.length_replicate, length_byteRanges] at this
    exact this
  obtain ⟨refs2, cells2, v1, v2, v3⟩ := updateO_alignsO (changes := 1) (len := c.utf8Size)
    (sc := (c.utf8Size : Int) - 0) (rfn := 0) (oShift := (r.utf8Size : Int) - c.utf8Size) (a := 0) (b := c.utf8Size)
    (refs := refs1) (cells := cells1) u2 (by omega) (by omega) hval2
    (o := ((0 : Int), (r.utf8Size : Int))) (by rw [hk]; exact expand_replicate _ _)
  have hno2 : newOffsets 1 c.utf8Size ((c.utf8Size : Int) - 0) ((c.utf8Size : Int) - ((r.utf8Size : Int) - 0)) 0
      ((r.utf8Size : Int) - c.utf8Size) ((0 : Int), (r.utf8Size : Int)) =
      ((0 : Int), ((r.utf8Size + c.utf8Size : Nat) : Int)) := by
    simp [newOffsets]
  rw [List.map_replicate, hno2, u3, List.take_zero, List.nil_append, List.drop_left' (by simp)] at v3
  have hl2 : refs2.length = c.utf8Size + blen t := by
    have := congrArg List.length v3
    rw [List.length_map, List.length_append, List.length_replicate, length_byteRanges] at this
    exact this
  -- the shift of the rest
  have htail : ∃ refs3 cells3, shiftTail x.aligns (c.utf8Size : Int) (r.utf8Size : Int) refs2 cells2 = .ok (refs3, cells3) ∧
      (∀ q ∈ refs3, q < cells3.length) ∧
      refs3.map (cellAt cells3) = List.replicate c.utf8Size ((0 : Int), ((r.utf8Size + c.utf8Size : Nat) : Int)) ++
        alignsOf (singles t) (r.utf8Size + c.utf8Size) := by
    unfold shiftTail
    have hr := r.utf8Size_pos
    rw [if_pos (by omega), slc_ok (by omega) (by omega) (by omega)]
    simp only [Res.bind_ok, Int.toNat_natCast, List.take_length]
    rw [hal, List.drop_left' (by simp)]
    by_cases ht : t = []
    · subst ht
      refine ⟨refs2, cells2, rfl, v2, ?_⟩
      rw [v3]; rfl
    · rw [expand_byteRanges t _ ht]
      simp only
      rw [slc_ok (by omega) (by omega) (by omega)]
      simp only [Res.bind_ok, Int.toNat_natCast]
      have hseg : (((refs2.take (c.utf8Size + blen t)).drop c.utf8Size).map (cellAt cells2)) = byteRanges t c.utf8Size := by
        rw [List.map_drop, List.map_take, v3, ← List.take_length (l := _ ++ byteRanges t c.utf8Size)]
        rw [List.length_append, List.length_replicate, length_byteRanges, List.take_take, Nat.min_self,
          List.take_of_length_le (by simp [length_byteRanges]), List.drop_left' (by simp)]
      have hnew : ((refs2.take (c.utf8Size + blen t)).drop c.utf8Size).map (fun r' =>
          (applySign (cellAt cells2 r').1 (r.utf8Size : Int), applySign (cellAt cells2 r').2 (r.utf8Size : Int))) =
          alignsOf (singles t) (r.utf8Size + c.utf8Size) := by
        have e : (fun r' => (applySign (cellAt cells2 r').1 (r.utf8Size : Int), applySign (cellAt cells2 r').2 (r.utf8Size : Int))) =
          (fun p : Int × Int => (applySign p.1 (r.utf8Size : Int), applySign p.2 (r.utf8Size : Int))) ∘ cellAt cells2 := rfl
        rw [e, ← List.map_map, hseg, byteRanges_blocks, Nat.add_comm r.utf8Size, alignsOf_shift]
        apply List.map_congr_left
        intro p hp
        have := alignsOf_mem hp
        unfold applySign
        rw [if_neg (by omega), if_neg (by omega)]
      rw [hnew]
      obtain ⟨p1, p2⟩ := putRefs_alignsO v2 (c.utf8Size : Int) ((c.utf8Size + blen t : Nat) : Int)
        (alignsOf (singles t) (r.utf8Size + c.utf8Size))
      refine ⟨_, _, rfl, p2, ?_⟩
      rw [p1, v3]
      simp only [Int.toNat_natCast]
      rw [List.take_left' (by simp), List.drop_of_length_le (by simp [length_byteRanges]), List.append_nil]
  obtain ⟨refs3, cells3, w1, w2, w3⟩ := htail
  have hrunes : runes (encStr [r]) = [r] := runes_encStr [r]
  have hN : x.normalized = encStr (c :: t) := h.text
  have hcut : slc x.normalized ((0 : Nat) : Int) (c.utf8Size : Int) = .ok (encStr [c]) := by
    rw [slc_ok (by omega) (by omega) (by omega), hN, encStr_cons]
    simp only [Int.toNat_natCast, List.drop_zero]
    rw [← String.length_utf8EncodeChar c, List.take_left]
    simp
  have hst1 : changeStep x.aligns ([r], 0)
      { refs := x.refs, cells := x.cells, rest := [c], offset := 0, oShift := 0, als := [], out := [] } =
      .ok { refs := refs1, cells := cells1, rest := [], offset := c.utf8Size,
            oShift := (r.utf8Size : Int) - c.utf8Size,
            als := List.replicate r.utf8Size ((0 : Int), (c.utf8Size : Int)), out := [r] } := by
    have hpick : pickAlign x.aligns 0 0 = .ok ((0 : Int), (c.utf8Size : Int)) := by
      unfold pickAlign
      rw [if_neg (by omega), if_neg (by omega)]
      exact ha0
    have hrm : removing x.aligns 0 0 = .ok (0, 0) := rfl
    have u1' : updateO 0 r.utf8Size ((r.utf8Size : Int) - c.utf8Size) 0 0 ((0 : Int), (c.utf8Size : Int)) x.refs x.cells =
      .ok (refs1, cells1) := u1
    unfold changeStep
    simp only [hpick, Res.bind_ok, Int.le_refl, if_true, List.head?_cons, List.tail_cons, replacedSize, hc, if_false,
      Int.lt_irrefl, removedSize, hrm, blen_cons, blen_nil, Nat.add_zero, u1', zeroO, Nat.not_lt_zero, gt_iff_lt]
    simp
  have hst2 : changeStep x.aligns ([c], 1)
      { refs := refs1, cells := cells1, rest := [], offset := c.utf8Size,
        oShift := (r.utf8Size : Int) - c.utf8Size,
        als := List.replicate r.utf8Size ((0 : Int), (c.utf8Size : Int)), out := [r] } =
      .ok { refs := refs2, cells := cells2, rest := [], offset := c.utf8Size, oShift := (r.utf8Size : Int),
            als := List.replicate r.utf8Size ((0 : Int), (c.utf8Size : Int)) ++
              List.replicate c.utf8Size ((0 : Int), (c.utf8Size : Int)), out := [r, c] } := by
    have hpick : pickAlign x.aligns 1 c.utf8Size = .ok ((0 : Int), (c.utf8Size : Int)) := by
      unfold pickAlign
      rw [if_pos (by omega), if_neg (by omega)]
      exact ha1
    have hrm : removing x.aligns c.utf8Size 0 = .ok (0, 0) := by
      unfold removing; rw [if_neg (by omega)]
    have v1' : updateO 1 c.utf8Size ((c.utf8Size : Int) - ((0 : Nat) : Int)) 0 ((r.utf8Size : Int) - c.utf8Size)
        ((0 : Int), (c.utf8Size : Int)) refs1 cells1 = .ok (refs2, cells2) := v1
    have hle : ¬ ((1 : Int) ≤ 0) := by omega
    have hlt : ¬ ((1 : Int) < 0) := by omega
    unfold changeStep
    simp only [hpick, Res.bind_ok, hle, if_false, replacedSize, hlt, removedSize, hrm, blen_cons, blen_nil, Nat.add_zero,
      v1', zeroO, Nat.not_lt_zero, gt_iff_lt, List.drop_nil]
    congr 1
    simp
  unfold NStr.prepend
  rw [hN, runes_encStr, hrunes]
  simp only [prependItems, List.map_nil, List.nil_append]
  unfold NStr.transformRange
  have hfull : (⟨(0 : Int), (c.utf8Size : Int), .normalized⟩ : Rng).full x.normalized.length =
      ⟨(0 : Int), (c.utf8Size : Int), .normalized⟩ := full_eq (a := 0) (b := c.utf8Size) .normalized (by omega)
  simp only [hfull, Res.bind_ok]
  rw [if_neg (by omega)]
  have hcut' : slc x.normalized 0 (c.utf8Size : Int) = .ok (encStr [c]) := hcut
  simp only [hcut', Res.bind_ok, runes_encStr, Nat.not_lt_zero, gt_iff_lt, if_false, List.take_zero, clearChars, blen_nil,
    Int.toNat_zero, Nat.zero_add, Int.natCast_zero, Int.neg_zero]
  simp only [changeLoop, hst1, hst2, Res.bind_ok, w1]
  have hz : ∀ (α : Type) (l : List α), slc l 0 0 = .ok [] := by
    intro α l
    rw [slc_ok (by omega) (by omega) (by omega)]
    simp
  have hA : slc x.aligns (c.utf8Size : Int) (x.aligns.length : Int) = .ok (byteRanges t c.utf8Size) := by
    rw [slc_ok (by omega) (by omega) (by omega)]
    simp only [Int.toNat_natCast, List.take_length]
    rw [hal, List.drop_left' (by simp)]
  have hNA : slc x.normalized (c.utf8Size : Int) (x.normalized.length : Int) = .ok (encStr t) := by
    rw [slc_ok (by omega) (by omega) (by omega)]
    simp only [Int.toNat_natCast, List.take_length]
    rw [hN, encStr_cons, ← String.length_utf8EncodeChar c, List.drop_left]
  simp only [hz, hA, hNA, Res.bind_ok]
  refine ⟨_, rfl, ⟨?_, ?_, ?_, ?_, ?_, w2⟩, rfl⟩
  · intro b hb
    rcases List.mem_cons.mp hb with rfl | hb
    · exact ⟨by simp, by simp⟩
    · exact singles_ne t b hb
  · rw [rights_cons, rights_singles]; simp
  · rw [lefts_cons, lefts_singles]
    dsimp only
    rw [h.original]; rfl
  · dsimp only
    rw [alignsOf, byteRanges_blocks]
    simp [List.replicate_append_replicate]
  · dsimp only [NStr.alignsO]
    rw [w3, List.map_cons, swap_singles, alignsOf]
    simp

end Tok.PreTok
