import Verif.Norm.Ident

/-! After a change list on a new string, the original still covers the text, so that the next
`Transform` works on the whole text: if nothing is removed or inserted before the first character,
and there are either no removals or no insertions. -/

namespace Tok.Norm

theorem alignRefs_append (u v : Str) (k : Nat) :
    alignRefs (u ++ v) k = alignRefs u k ++ alignRefs v (k + u.length) := by
  induction u generalizing k with
  | nil => simp [alignRefs]
  | cons c u ih => simp [alignRefs, ih, Nat.add_assoc, Nat.add_comm 1]

theorem alignCells_append (u v : Str) (k : Nat) :
    alignCells (u ++ v) k = alignCells u k ++ alignCells v (k + blen u) := by
  induction u generalizing k with
  | nil => simp [alignCells]
  | cons c u ih => simp [alignCells, ih, Nat.add_assoc]

theorem length_alignCells (u : Str) (k : Nat) : (alignCells u k).length = u.length := by
  induction u generalizing k with
  | nil => rfl
  | cons c u ih => simp [alignCells, ih]

theorem alignRefs_at (u : Str) (c : Char) (v : Str) (j : Nat) (hj : j < c.utf8Size) :
    (alignRefs (u ++ c :: v) 0)[blen u + j]? = some u.length := by
  rw [alignRefs_append, List.getElem?_append_right (by rw [length_alignRefs]; omega), length_alignRefs,
    alignRefs, List.getElem?_append_left (by simp; omega), Nat.zero_add]
  rw [show blen u + j - blen u = j by omega]
  simp [hj]

theorem alignCells_at (u : Str) (c : Char) (v : Str) :
    (alignCells (u ++ c :: v) 0)[u.length]? = some ((blen u : Int), ((blen u + c.utf8Size : Nat) : Int)) := by
  rw [alignCells_append, List.getElem?_append_right (by rw [length_alignCells]; omega), length_alignCells]
  simp [alignCells]

/-- Every byte belongs to a character. -/
theorem byte_char (cs : Str) (j : Nat) (hj : j < blen cs) :
    ∃ u c v, cs = u ++ c :: v ∧ blen u ≤ j ∧ j < blen u + c.utf8Size := by
  induction cs generalizing j with
  | nil => simp at hj
  | cons c cs ih =>
    rw [blen_cons] at hj
    by_cases h : j < c.utf8Size
    · exact ⟨[], c, cs, rfl, by simp, by simpa using h⟩
    · obtain ⟨u, d, v, h1, h2, h3⟩ := ih (j - c.utf8Size) (by omega)
      exact ⟨c :: u, d, v, by rw [h1]; rfl, by rw [blen_cons]; omega, by rw [blen_cons]; omega⟩

theorem setCells_length (v : Int × Int) (rs : List Nat) : ∀ cells, (setCells v rs cells).length = cells.length := by
  induction rs with
  | nil => intro cells; rfl
  | cons r rs ih => intro cells; rw [setCells, ih, List.length_set]

theorem setCells_other (v : Int × Int) (rs : List Nat) (m : Nat) : ∀ cells, m ∉ rs →
    (setCells v rs cells)[m]? = cells[m]? := by
  induction rs with
  | nil => intro cells _; rfl
  | cons r rs ih =>
    intro cells h
    rw [setCells, ih _ (fun x => h (by simp [x])), List.getElem?_set]
    rw [if_neg (fun x => h (by simp [x]))]

theorem setCells_mem (v : Int × Int) (rs : List Nat) (m : Nat) : ∀ cells, m ∈ rs → m < cells.length →
    (setCells v rs cells)[m]? = some v := by
  induction rs with
  | nil => intro cells h; cases h
  | cons r rs ih =>
    intro cells h hm
    rw [setCells]
    by_cases hr : m ∈ rs
    · exact ih _ hr (by rw [List.length_set]; exact hm)
    · have : m = r := by rcases List.mem_cons.1 h with h | h; exact h; exact absurd h hr
      subst this
      rw [setCells_other _ _ _ _ hr, List.getElem?_set, if_pos rfl, if_pos hm]

/-- What holds in the loop after the characters `done`. -/
structure CInv (cs done : Str) (st : TState) : Prop where
  split : cs = done ++ st.rest
  off : st.offset = blen done
  sh : st.oShift = (blen st.out : Int) - blen done
  len : st.refs.length = blen cs
  cl : cs.length ≤ st.cells.length
  first : done = [] → st.out = []
  late : ∀ j, blen done ≤ j → j < blen cs → st.refs[j]? = (alignRefs cs 0)[j]?
  lateC : ∀ m, done.length ≤ m → m < cs.length → st.cells[m]? = (alignCells cs 0)[m]?
  head : done ≠ [] → ∃ r, st.refs[0]? = some r ∧ cs.length ≤ r ∧ r < st.cells.length ∧ (cellAt st.cells r).1 = 0
  last : done = cs → cs ≠ [] → ∃ r, st.refs[blen cs - 1]? = some r ∧ r < st.cells.length ∧
    (blen st.out : Int) ≤ (cellAt st.cells r).2

/-- The update of the original alignments between `a` and `b`. -/
theorem updateO_get {changes : Int} {len : Nat} {sizeChange rfn oShift : Int} {a b : Nat}
    {refs : List Nat} {cells : List (Int × Int)} (hab : a < b) (hb : b ≤ refs.length) {p q : Int × Int}
    (hp : refs[a]?.map (cellAt cells) = some p) (hq : refs[b - 1]?.map (cellAt cells) = some q) :
    ∃ refs' new, updateO changes len sizeChange rfn oShift ((a : Int), (b : Int)) refs cells =
        .ok (refs', cells ++ new) ∧ refs'.length = refs.length ∧
      (∀ j, j < a ∨ b ≤ j → refs'[j]? = refs[j]?) ∧
      ∀ j r, a ≤ j → j < b → refs[j]? = some r → ∃ r', refs'[j]? = some r' ∧ cells.length ≤ r' ∧
        r' < (cells ++ new).length ∧ cellAt (cells ++ new) r' =
          newOffsets changes len sizeChange ((len : Int) - (q.2 - p.1)) rfn oShift (cellAt cells r) := by
  have hseg : slc refs (a : Int) (b : Int) = .ok ((refs.take b).drop a) := by
    rw [slc_ok (by omega) (by omega) (by omega), Int.toNat_natCast, Int.toNat_natCast]
  have hsl : ((refs.take b).drop a).length = b - a := by simp; omega
  have hget : ∀ i, i < b - a → ((refs.take b).drop a)[i]? = refs[a + i]? := by
    intro i hi
    rw [List.getElem?_drop, List.getElem?_take, if_pos (by omega)]
  have hexp : expand (((refs.take b).drop a).map (cellAt cells)) = some (p.1, q.2) := by
    unfold expand
    rw [List.head?_eq_getElem?, List.getLast?_eq_getElem?, List.length_map, hsl, List.getElem?_map,
      List.getElem?_map, hget _ (by omega), hget _ (by omega), Nat.add_zero, hp,
      show a + (b - a - 1) = b - 1 by omega, hq]
  refine ⟨putRefs refs (a : Int) (b : Int) ((List.range (b - a)).map (· + cells.length)), ((refs.take b).drop a).map (newOffsets changes len sizeChange ((len : Int) - (q.2 - p.1)) rfn oShift ∘ cellAt cells),
    ?_, ?_, ?_, ?_⟩
  · unfold updateO
    simp only [hseg, Res.bind_ok, hexp, List.map_map, List.length_map, hsl]
  · simp only [putRefs, Int.toNat_natCast, List.length_append, List.length_take, List.length_map,
      List.length_range, List.length_drop]
    omega
  · intro j hj
    unfold putRefs
    simp only [Int.toNat_natCast]
    rcases hj with hj | hj
    · rw [List.append_assoc, List.getElem?_append_left (by simp; omega), List.getElem?_take, if_pos hj]
    · rw [List.getElem?_append_right (by simp; omega), List.getElem?_drop]
      congr 1
      simp; omega
  · intro j r h1 h2 hr
    refine ⟨cells.length + (j - a), ?_, by omega, by rw [List.length_append, List.length_map, hsl]; omega, ?_⟩
    · unfold putRefs
      simp only [Int.toNat_natCast]
      rw [List.append_assoc, List.getElem?_append_right (by simp; omega), List.getElem?_append_left (by simp; omega),
        List.getElem?_map, List.length_take, Nat.min_eq_left (by omega), List.getElem?_range (by omega)]
      simp; omega
    · unfold cellAt
      rw [List.getElem?_append_right (by omega), Nat.add_sub_cancel_left, List.getElem?_map, hget _ (by omega),
        show a + (j - a) = j by omega, hr]
      rfl

theorem idx_byteRanges (u : Str) (c : Char) (v : Str) (j : Nat) (h1 : blen u ≤ j) (h2 : j < blen u + c.utf8Size) :
    idx (byteRanges (u ++ c :: v) 0) (j : Int) = .ok ((blen u : Int), ((blen u + c.utf8Size : Nat) : Int)) := by
  have := byteRanges_at u c v (j - blen u) (by omega)
  rw [show blen u + (j - blen u) = j by omega] at this
  unfold idx
  rw [if_neg (by omega), Int.toNat_natCast, this]

theorem replacedSize_eq {c : Char} (h : c ≠ '\x00') : replacedSize (some c) = c.utf8Size := by
  show (if c = '\x00' then 0 else c.utf8Size) = _
  rw [if_neg h]

theorem getElem?_some_of_lt {l : List α} {i : Nat} (h : i < l.length) : ∃ x, l[i]? = some x :=
  ⟨_, List.getElem?_eq_getElem h⟩

/-- An insertion after some character. -/
theorem CInv.insert {cs done : Str} {st : TState} (h : CInv cs done st) (hd : done ≠ []) (t : Str) {ch : Int}
    (hch : ch > 0) : ∃ st', changeStep (byteRanges cs 0) (t, ch) st = .ok st' ∧ CInv cs done st' := by
  obtain ⟨u, d, rfl⟩ : ∃ u d, done = u ++ [d] := by
    rcases List.eq_nil_or_concat done with h | ⟨u, d, h⟩
    · exact absurd h hd
    · exact ⟨u, d, by simp [h]⟩
  have hsz := d.utf8Size_pos
  have hbd : blen (u ++ [d]) = blen u + d.utf8Size := by rw [blen_append]; simp
  have hcs : cs = u ++ d :: st.rest := by have := h.split; rw [List.append_assoc] at this; exact this
  have hN : blen cs = blen u + (d.utf8Size + blen st.rest) := by rw [hcs, blen_append, blen_cons]
  have hoff := h.off
  rw [hbd] at hoff
  have hal : pickAlign (byteRanges cs 0) ch st.offset =
      .ok ((blen u : Int), ((blen u + d.utf8Size : Nat) : Int)) := by
    unfold pickAlign
    rw [if_pos hch, if_neg (by omega), hoff]
    rw [show ((blen u + d.utf8Size : Nat) : Int) - 1 = ((blen u + d.utf8Size - 1 : Nat) : Int) by omega]
    conv => lhs; rw [hcs]
    exact idx_byteRanges u d st.rest _ (by omega) (by omega)
  have hlen := h.len
  obtain ⟨ra, hra⟩ := getElem?_some_of_lt (l := st.refs) (i := blen u) (by omega)
  obtain ⟨rb, hrb⟩ := getElem?_some_of_lt (l := st.refs) (i := blen u + d.utf8Size - 1) (by omega)
  obtain ⟨refs', new, e1, e2, e3, e4⟩ := updateO_get (changes := ch) (len := blen t)
    (sizeChange := (blen t : Int) - (0 : Nat)) (rfn := 0) (oShift := st.oShift) (a := blen u)
    (b := blen u + d.utf8Size) (refs := st.refs) (cells := st.cells) (by omega) (by omega)
    (p := cellAt st.cells ra) (q := cellAt st.cells rb) (by rw [hra]; rfl) (by rw [hrb]; rfl)
  refine ⟨⟨refs', st.cells ++ new, st.rest, st.offset, st.oShift + blen t, st.als ++
    List.replicate (blen t) ((blen u : Int), ((blen u + d.utf8Size : Nat) : Int)), st.out ++ t⟩, ?_, ?_⟩
  · unfold changeStep
    have hn : ¬ ch ≤ 0 := by omega
    have hn2 : ¬ ch < 0 := by omega
    simp only [hal, Res.bind_ok, hn, hn2, if_false, removedSize, removing, gt_iff_lt, Nat.lt_irrefl,
      false_and, replacedSize]
    rw [e1]
    simp only [Res.bind_ok, zeroO, gt_iff_lt, Nat.lt_irrefl, if_false]
    simp
  · refine ⟨h.split, h.off, ?_, by rw [e2]; exact hlen, by simp only [List.length_append]; have := h.cl; omega,
      fun x => by simp at x, ?_, ?_, ?_, ?_⟩
    · simp only [blen_append, h.sh]; omega
    · intro j h1 h2
      rw [hbd] at h1
      simp only
      rw [e3 j (Or.inr h1)]
      exact h.late j (by rw [hbd]; exact h1) h2
    · intro m h1 h2
      simp only
      rw [List.getElem?_append_left (by have := h.cl; omega)]
      exact h.lateC m h1 h2
    · intro _
      obtain ⟨r, a1, a2, a3, a4⟩ := h.head hd
      simp only
      by_cases hu : blen u = 0
      · obtain ⟨r', b1, b2, b3, b4⟩ := e4 0 r (by omega) (by omega) a1
        refine ⟨r', b1, by have := h.cl; omega, b3, ?_⟩
        rw [b4]
        unfold newOffsets
        rw [if_pos hch]
        exact a4
      · refine ⟨r, by rw [e3 0 (Or.inl (by omega))]; exact a1, a2, by rw [List.length_append]; omega, ?_⟩
        rw [cellAt_append a3]; exact a4
    · intro hdone hne
      obtain ⟨r, a1, a2, a3⟩ := h.last hdone hne
      have hN2 : blen cs = blen u + d.utf8Size := by rw [← hbd, hdone]
      obtain ⟨r', b1, b2, b3, b4⟩ := e4 (blen cs - 1) r (by omega) (by omega) a1
      refine ⟨r', b1, b3, ?_⟩
      simp only
      rw [b4]
      unfold newOffsets
      rw [if_pos hch, blen_append]
      simp only
      omega

theorem removedSize_eq (rem rest : Str) : removedSize rem.length (rem ++ rest) = blen rem := by
  induction rem with
  | nil => rfl
  | cons c rem ih => rw [List.length_cons, List.cons_append, removedSize, ih, blen_cons]

/-- Every byte of the original but the first belongs to the same or a later character. -/
theorem char_split_lt {u u' : Str} {c c' : Char} {v v' : Str} (h : u ++ c :: v = u' ++ c' :: v') {i j : Nat}
    (h1 : blen u ≤ i) (h2 : j < blen u' + c'.utf8Size) (hij : i ≤ j) : u.length ≤ u'.length := by
  by_cases hl : u.length ≤ u'.length
  · exact hl
  · exfalso
    have hlt : u'.length + 1 ≤ u.length := by omega
    have hu : u = u' ++ c' :: v'.take (u.length - (u'.length + 1)) := by
      have e := congrArg (List.take u.length) h
      rw [List.take_append_of_le_length (by omega), List.take_of_length_le (by omega),
        List.take_append, List.take_of_length_le (by omega)] at e
      rw [show u.length - u'.length = (u.length - (u'.length + 1)) + 1 by omega, List.take_succ_cons] at e
      exact e
    have := congrArg blen hu
    rw [blen_append, blen_cons] at this
    omega

/-- A replacement, possibly removing the characters that follow. -/
theorem CInv.replace {cs done : Str} {st : TState} (h : CInv cs done st) {c : Char} {rem rest' : Str}
    (hrest : st.rest = c :: (rem ++ rest')) (hc : c ≠ '\x00') (t : Str)
    (hA : rem = [] ∨ blen (st.out ++ t) ≤ blen cs) :
    ∃ st', changeStep (byteRanges cs 0) (t, -(rem.length : Int)) st = .ok st' ∧
      CInv cs (done ++ c :: rem) st' ∧ st'.rest = rest' ∧ st'.out = st.out ++ t := by
  have hsz := c.utf8Size_pos
  have hcs : cs = done ++ c :: (rem ++ rest') := by rw [← hrest]; exact h.split
  have hN : blen cs = blen done + (c.utf8Size + (blen rem + blen rest')) := by
    rw [hcs, blen_append, blen_cons, blen_append]
  have hoff := h.off
  have hal : pickAlign (byteRanges cs 0) (-(rem.length : Int)) st.offset =
      .ok ((blen done : Int), ((blen done + c.utf8Size : Nat) : Int)) := by
    unfold pickAlign
    rw [if_neg (by omega), if_neg (by rw [length_byteRanges]; omega), hoff]
    conv => lhs; rw [hcs]
    exact idx_byteRanges done c _ _ (by omega) (by omega)
  have hlen := h.len
  have hcl := h.cl
  have hrefs : ∀ j, blen done ≤ j → j < blen done + c.utf8Size → st.refs[j]? = some done.length := by
    intro j h1 h2
    rw [h.late j h1 (by omega), hcs]
    have := alignRefs_at done c (rem ++ rest') (j - blen done) (by omega)
    rwa [show blen done + (j - blen done) = j by omega] at this
  have hcell : cellAt st.cells done.length = ((blen done : Int), ((blen done + c.utf8Size : Nat) : Int)) := by
    unfold cellAt
    rw [h.lateC done.length (by omega) (by rw [hcs]; simp), hcs, alignCells_at]
    rfl
  -- what is removed
  have hrm : ∃ rfo : Nat, removing (byteRanges cs 0) st.offset (blen rem) = .ok (rfo, (blen rem : Int) - rfo) ∧
      ((rem = [] ∧ rfo = 0) ∨ ∃ u d v, c :: rem = u ++ d :: v ∧
        idx (byteRanges cs 0) ((st.offset + blen rem : Nat) : Int) =
          .ok (((blen done + blen u : Nat) : Int), ((blen done + blen (u ++ [d]) : Nat) : Int)) ∧
        blen (u ++ [d]) = c.utf8Size + rfo ∧ (rfo > 0 → u ≠ []) ∧ rem ≠ []) := by
    by_cases hr : rem = []
    · subst hr
      refine ⟨0, ?_, Or.inl ⟨rfl, rfl⟩⟩
      simp [removing]
    · have hrp := blen_pos hr
      obtain ⟨u, d, v, hu, hu1, hu2⟩ := byte_char (c :: rem) (blen rem) (by rw [blen_cons]; omega)
      have hbd : blen (u ++ [d]) = blen u + d.utf8Size := by rw [blen_append]; simp
      have hi : idx (byteRanges cs 0) ((st.offset + blen rem : Nat) : Int) =
          .ok (((blen done + blen u : Nat) : Int), ((blen done + blen (u ++ [d]) : Nat) : Int)) := by
        have hcs2 : cs = (done ++ u) ++ d :: (v ++ rest') := by
          rw [hcs, ← List.cons_append, hu]; simp
        conv => lhs; rw [hcs2]
        rw [idx_byteRanges _ _ _ _ (by rw [blen_append]; omega) (by rw [blen_append]; omega), blen_append, hbd, Nat.add_assoc]
      have hi0 : idx (byteRanges cs 0) (st.offset : Int) =
          .ok ((blen done : Int), ((blen done + c.utf8Size : Nat) : Int)) := by
        conv => lhs; rw [hcs]
        exact idx_byteRanges done c _ _ (by omega) (by omega)
      have hcu : c.utf8Size ≤ blen (u ++ [d]) ∧ (u ≠ [] ↔ c.utf8Size < blen (u ++ [d])) := by
        cases u with
        | nil =>
          rw [List.nil_append, List.cons.injEq] at hu
          rw [hbd, ← hu.1]
          simp
        | cons x u =>
          rw [List.cons_append, List.cons.injEq] at hu
          have := d.utf8Size_pos
          rw [hbd, ← hu.1, blen_cons]
          refine ⟨by omega, fun _ => by omega, fun _ => by simp⟩
      refine ⟨blen (u ++ [d]) - c.utf8Size, ?_, Or.inr ⟨u, d, v, hu, hi, by omega, fun h0 => hcu.2.2 (by omega), hr⟩⟩
      unfold removing
      rw [if_pos ⟨hrp, by rw [length_byteRanges]; omega⟩, hi0, Res.bind_ok,
        if_neg (by rw [length_byteRanges]; omega), hi, Res.bind_ok]
      simp only
      have : (((blen done + blen (u ++ [d]) : Nat) : Int) - ((blen done + c.utf8Size : Nat) : Int)).toNat =
          blen (u ++ [d]) - c.utf8Size := by omega
      rw [this]
  obtain ⟨rfo, hrm1, hrm2⟩ := hrm
  have hi0 : idx (byteRanges cs 0) (st.offset : Int) =
      .ok ((blen done : Int), ((blen done + c.utf8Size : Nat) : Int)) := by
    conv => lhs; rw [hcs]
    exact idx_byteRanges done c _ _ (by omega) (by omega)
  -- the update
  obtain ⟨refs', new, e1, e2, e3, e4⟩ := updateO_get (changes := -(rem.length : Int)) (len := blen t)
    (sizeChange := (blen t : Int) - c.utf8Size) (rfn := (blen rem : Int) - rfo) (oShift := st.oShift)
    (a := blen done) (b := blen done + c.utf8Size) (refs := st.refs) (cells := st.cells) (by omega) (by omega)
    (p := cellAt st.cells done.length) (q := cellAt st.cells done.length)
    (by rw [hrefs _ (by omega) (by omega)]; rfl) (by rw [hrefs _ (by omega) (by omega)]; rfl)
  have hval : ∃ a : Int, newOffsets (-(rem.length : Int)) (blen t) ((blen t : Int) - c.utf8Size)
      ((blen t : Int) - ((cellAt st.cells done.length).2 - (cellAt st.cells done.length).1))
      ((blen rem : Int) - rfo) st.oShift (cellAt st.cells done.length) = (applySign (blen done) st.oShift, a) ∧
      (rfo = blen rem → a = (blen (st.out ++ t) : Int)) := by
    rw [hcell]
    refine ⟨applySign (applySign (applySign (((blen done + c.utf8Size : Nat) : Int)) ((blen t : Int) - c.utf8Size))
        (-((blen rem : Int) - rfo))) st.oShift, ?_, ?_⟩
    · unfold newOffsets
      rw [if_neg (by omega)]
      simp only
      rw [if_pos (Or.inr (by omega))]
    · intro hx
      rw [h.sh, hx, blen_append]
      unfold applySign
      split <;> split <;> split <;> omega
  obtain ⟨a2, hv1, hv2⟩ := hval
  have hnew : ∀ j, blen done ≤ j → j < blen done + c.utf8Size → ∃ r', refs'[j]? = some r' ∧
      st.cells.length ≤ r' ∧ r' < (st.cells ++ new).length ∧
      cellAt (st.cells ++ new) r' = (applySign (blen done) st.oShift, a2) :=
    fun j h1 h2 => by
      obtain ⟨r', b1, b2, b3, b4⟩ := e4 j _ h1 h2 (hrefs j h1 h2)
      exact ⟨r', b1, b2, b3, by rw [b4, hv1]⟩
  -- zeroing
  have hzero : ∃ seg, zeroO (byteRanges cs 0) st.offset (blen rem) rfo
      ((blen done : Int), ((blen done + c.utf8Size : Nat) : Int)) refs' (st.cells ++ new) =
        .ok (setCells (a2, a2) seg (st.cells ++ new)) ∧
      (∀ r ∈ seg, r < (done ++ c :: rem).length) ∧
      (cs.length - 1 ∈ seg → rfo = blen rem) := by
    by_cases h0 : rfo = 0
    · refine ⟨[], ?_, by simp, by simp⟩
      unfold zeroO
      rw [if_neg (by omega)]
      rfl
    · rcases hrm2 with ⟨_, x⟩ | ⟨u, d, v, hu, hi, hb, hun, hrem⟩
      · exact absurd x h0
      have hub : blen (u ++ [d]) = blen u + d.utf8Size := by rw [blen_append]; simp
      have hcs2 : cs = (done ++ u) ++ d :: (v ++ rest') := by rw [hcs, ← List.cons_append, hu]; simp
      have hN2 : blen cs = blen done + (blen u + (d.utf8Size + (blen v + blen rest'))) := by
        rw [hcs2, blen_append, blen_append, blen_cons, blen_append]; omega
      have hbr : c.utf8Size + blen rem = blen u + (d.utf8Size + blen v) := by
        have := congrArg blen hu
        rwa [blen_cons, blen_append, blen_cons] at this
      have hmem : ∀ r ∈ (refs'.take (blen done + blen (u ++ [d]))).drop (blen done + c.utf8Size),
          r ≤ done.length + u.length := by
        intro r hr
        obtain ⟨i, hi⟩ := List.getElem?_of_mem hr
        rw [List.getElem?_drop, List.getElem?_take] at hi
        split at hi
        · next hlt =>
          rw [e3 _ (Or.inr (by omega)), h.late _ (by omega) (by omega)] at hi
          obtain ⟨u', c', v', g1, g2, g3⟩ := byte_char cs (blen done + c.utf8Size + i) (by omega)
          have g4 := alignRefs_at u' c' v' (blen done + c.utf8Size + i - blen u') (by omega)
          rw [← g1, show blen u' + (blen done + c.utf8Size + i - blen u') = blen done + c.utf8Size + i by omega,
            hi] at g4
          cases g4
          have := char_split_lt (g1.symm.trans hcs2) g2
            (j := blen done + c.utf8Size + i) (by rw [blen_append]; omega) (Nat.le_refl _)
          rwa [List.length_append] at this
        · cases hi
      have hlenu : (c :: rem).length = u.length + (1 + v.length) := by rw [hu]; simp; omega
      refine ⟨(refs'.take (blen done + blen (u ++ [d]))).drop (blen done + c.utf8Size), ?_, ?_, ?_⟩
      · obtain ⟨r', b1, _, _, b4⟩ := hnew (blen done) (by omega) (by omega)
        have hir : idx refs' (blen done : Int) = .ok r' := by
          unfold idx
          rw [if_neg (by omega), Int.toNat_natCast, b1]
        unfold zeroO
        rw [if_pos (by omega), hi0, Res.bind_ok, hi, Res.bind_ok]
        simp only
        rw [hir, Res.bind_ok, slc_ok (by omega) (by omega) (by rw [e2]; omega), Res.bind_ok, b4,
          Int.toNat_natCast, Int.toNat_natCast]
      · intro r hr
        have := hmem r hr
        rw [List.length_append, hlenu]
        omega
      · intro hx
        have h1 := hmem _ hx
        have h2 := congrArg List.length hcs2
        rw [List.length_append, List.length_append, List.length_cons, List.length_append] at h2
        have hv : v = [] := List.length_eq_zero_iff.1 (by omega)
        subst hv
        rw [blen_nil] at hbr
        omega
  obtain ⟨seg, z1, z2, z3⟩ := hzero
  have hdl : (done ++ c :: rem).length ≤ cs.length := by rw [hcs]; simp
  refine ⟨⟨refs', setCells (a2, a2) seg (st.cells ++ new), rest', blen done + c.utf8Size + blen rem,
    st.oShift + ((blen t : Int) - c.utf8Size) - blen rem,
    st.als ++ List.replicate (blen t) ((blen done : Int), ((blen done + c.utf8Size : Nat) : Int)), st.out ++ t⟩,
    ?_, ?_, rfl, rfl⟩
  · unfold changeStep
    have hn : -(rem.length : Int) ≤ 0 := by omega
    have hk : (if -(rem.length : Int) < 0 then (-(-(rem.length : Int))).toNat else 0) = rem.length := by
      split <;> omega
    simp only [hal, Res.bind_ok, hn, if_true, hrest, List.head?_cons, List.tail_cons, replacedSize_eq hc, hk,
      removedSize_eq, hrm1, e1, z1]
    congr 2
    · simp
    · rw [hoff]
  · have hbd : blen (done ++ c :: rem) = blen done + (c.utf8Size + blen rem) := by
      rw [blen_append, blen_cons]
    refine ⟨by rw [hcs]; simp, by simp only [hbd]; omega, ?_, by rw [e2]; exact hlen, ?_, by simp, ?_, ?_, ?_, ?_⟩
    · simp only [hbd, blen_append, h.sh]; omega
    · simp only [setCells_length, List.length_append]; omega
    · intro j h1 h2
      simp only
      rw [hbd] at h1
      rw [e3 j (Or.inr (by omega))]
      exact h.late j (by omega) h2
    · intro m h1 h2
      simp only
      rw [setCells_other _ _ _ _ (fun x => by have := z2 m x; omega), List.getElem?_append_left (by omega)]
      exact h.lateC m (by simp at h1; omega) h2
    · intro _
      simp only
      have hkeep : ∀ r, cs.length ≤ r → cellAt (setCells (a2, a2) seg (st.cells ++ new)) r = cellAt (st.cells ++ new) r := by
        intro r hr
        unfold cellAt
        rw [setCells_other _ _ _ _ (fun x => by have := z2 r x; omega)]
      by_cases hd : done = []
      · have hb0 : blen done = 0 := by rw [hd]; rfl
        obtain ⟨r', b1, b2, b3, b4⟩ := hnew 0 (by omega) (by omega)
        refine ⟨r', b1, by omega, by rw [setCells_length]; exact b3, ?_⟩
        rw [hkeep r' (by omega), b4, h.sh, h.first hd, hb0]
        rfl
      · obtain ⟨r, a1, a2, a3, a4⟩ := h.head hd
        have := blen_pos hd
        refine ⟨r, by rw [e3 0 (Or.inl this)]; exact a1, a2, by rw [setCells_length, List.length_append]; omega, ?_⟩
        rw [hkeep r a2, cellAt_append a3]; exact a4
    · intro hdone hne
      have hr' : rest' = [] := by
        have e : done ++ c :: rem = (done ++ c :: rem) ++ rest' := by
          conv => lhs; rw [hdone, hcs]
          simp
        simpa using e
      subst hr'
      simp only
      have hN2 : blen cs = blen done + (c.utf8Size + blen rem) := by rw [hN]; simp
      by_cases hrem : rem = []
      · have hr0 : rfo = blen rem := by
          rcases hrm2 with ⟨_, x⟩ | ⟨_, _, _, _, _, _, _, x⟩
          · rw [hrem, x]; rfl
          · exact absurd hrem x
        have hb0 : blen rem = 0 := by rw [hrem]; rfl
        obtain ⟨r', b1, b2, b3, b4⟩ := hnew (blen cs - 1) (by omega) (by omega)
        refine ⟨r', b1, by rw [setCells_length]; exact b3, ?_⟩
        have : cellAt (setCells (a2, a2) seg (st.cells ++ new)) r' = cellAt (st.cells ++ new) r' := by
          unfold cellAt
          rw [setCells_other _ _ _ _ (fun x => by have := z2 r' x; omega)]
        rw [this, b4, hv2 hr0]
        omega
      · have hrp := blen_pos hrem
        -- the last byte is that of a removed character
        have hlast : refs'[blen cs - 1]? = some (cs.length - 1) := by
          rw [e3 _ (Or.inr (by omega)), h.late _ (by omega) (by omega)]
          obtain ⟨w, x, hw⟩ : ∃ w x, cs = w ++ [x] := by
            rcases List.eq_nil_or_concat cs with h | ⟨w, x, h⟩
            · exact absurd h hne
            · exact ⟨w, x, by simp [h]⟩
          have hx := x.utf8Size_pos
          have hb : blen cs = blen w + x.utf8Size := by rw [hw, blen_append]; simp
          have := alignRefs_at w x [] (x.utf8Size - 1) (by omega)
          rw [show blen w + (x.utf8Size - 1) = blen cs - 1 by omega, ← hw] at this
          rw [this, hw]; simp
        have hcpos : 0 < cs.length := List.length_pos_iff.2 hne
        refine ⟨_, hlast, by rw [setCells_length, List.length_append]; omega, ?_⟩
        by_cases hmem : cs.length - 1 ∈ seg
        · have hx : (setCells (a2, a2) seg (st.cells ++ new))[cs.length - 1]? = some (a2, a2) :=
            setCells_mem _ _ _ _ hmem (by rw [List.length_append]; omega)
          unfold cellAt
          rw [hx, hv2 (z3 hmem)]
          exact Int.le_refl _
        · have hx : cellAt (setCells (a2, a2) seg (st.cells ++ new)) (cs.length - 1) =
              cellAt st.cells (cs.length - 1) := by
            unfold cellAt
            rw [setCells_other _ _ _ _ hmem, List.getElem?_append_left (by omega)]
          rw [hx]
          obtain ⟨w, x, hw⟩ : ∃ w x, cs = w ++ [x] := by
            rcases List.eq_nil_or_concat cs with h | ⟨w, x, h⟩
            · exact absurd h hne
            · exact ⟨w, x, by simp [h]⟩
          have hb : blen cs = blen w + x.utf8Size := by rw [hw, blen_append]; simp
          have hd1 : done.length ≤ cs.length - 1 := by rw [hcs]; simp
          have : cellAt st.cells (cs.length - 1) = ((blen w : Int), ((blen w + x.utf8Size : Nat) : Int)) := by
            unfold cellAt
            rw [h.lateC _ hd1 (by omega)]
            have := alignCells_at w x []
            rw [← hw] at this
            rw [show cs.length - 1 = w.length by rw [hw]; simp, this]
            rfl
          rw [this, ← hb]
          rcases hA with hA | hA
          · exact absurd hA hrem
          · simp only; omega

theorem changeLoop_cinv {cs : Str} (items : List (Str × Int)) : ∀ {done : Str} {st : TState}, CInv cs done st →
    '\x00' ∉ st.rest → usesAll items ≤ st.rest.length → (done = [] → ∀ i ∈ items.head?, i.2 ≤ 0) →
    ((∀ i ∈ items, 0 ≤ i.2) ∨ blen (st.out ++ (items.map (·.1)).flatten) ≤ blen cs) →
    ∃ done' st', changeLoop (byteRanges cs 0) items st = .ok st' ∧ CInv cs done' st' ∧
      st'.out = st.out ++ (items.map (·.1)).flatten ∧ st'.rest = st.rest.drop (usesAll items) := by
  induction items with
  | nil => intro done st h _ _ _ _; exact ⟨done, st, rfl, h, by simp, by simp [usesAll]⟩
  | cons item items ih =>
    obtain ⟨t, ch⟩ := item
    intro done st h hz hu hfirst hmode
    rw [usesAll_cons] at hu
    simp only at hu
    have hstep : ∃ done1 st1, changeStep (byteRanges cs 0) (t, ch) st = .ok st1 ∧ CInv cs done1 st1 ∧
        st1.out = st.out ++ t ∧ st1.rest = st.rest.drop (uses ch) ∧ done1 ≠ [] := by
      by_cases hp : ch > 0
      · have hd : done ≠ [] := by
          intro hd
          have := hfirst hd (t, ch) (by simp)
          simp only at this
          omega
        obtain ⟨st1, e1, e2⟩ := h.insert hd t hp
        obtain ⟨_, _, _, g3, g4, _, _⟩ := changeStep_eq e1
        refine ⟨done, st1, e1, e2, g3, ?_, hd⟩
        rw [changeStep_rest e1]
      · have huse : uses ch = 1 + (-ch).toNat := by unfold uses; rw [if_neg hp]
        obtain ⟨c, r, hr⟩ : ∃ c r, st.rest = c :: r := by
          cases hx : st.rest with
          | nil => rw [hx] at hu; simp at hu; omega
          | cons c r => exact ⟨c, r, rfl⟩
        have hlen : (-ch).toNat ≤ r.length := by rw [hr] at hu; simp at hu; omega
        have hch : ch = -((r.take (-ch).toNat).length : Int) := by
          rw [List.length_take, Nat.min_eq_left hlen]; omega
        have hc : c ≠ '\x00' := fun x => hz (by rw [hr, x]; simp)
        obtain ⟨st1, e1, e2, e3, e4⟩ := h.replace (c := c) (rem := r.take (-ch).toNat)
          (rest' := r.drop (-ch).toNat) (by rw [List.take_append_drop]; exact hr) hc t (by
            rcases hmode with hm | hm
            · left
              have := hm (t, ch) (by simp)
              simp only at this
              have h0 : (-ch).toNat = 0 := by omega
              rw [h0]; rfl
            · right
              rw [List.map_cons, List.flatten_cons, blen_append, blen_append] at hm
              rw [blen_append]
              simp only at hm
              omega)
        rw [← hch] at e1
        refine ⟨_, st1, e1, e2, e4, ?_, by simp⟩
        rw [e3, hr, huse, Nat.add_comm, List.drop_succ_cons]
    obtain ⟨done1, st1, e1, e2, e3, e4, e5⟩ := hstep
    obtain ⟨done', st', f1, f2, f3, f4⟩ := ih e2 (by rw [e4]; exact fun x => hz (List.mem_of_mem_drop x))
      (by rw [e4, List.length_drop]; omega) (fun x => absurd x e5) (by
        rcases hmode with hm | hm
        · exact Or.inl (fun i hi => hm i (by simp [hi]))
        · right
          rw [e3, List.append_assoc]
          rw [List.map_cons, List.flatten_cons] at hm
          exact hm)
    refine ⟨done', st', ?_, f2, ?_, ?_⟩
    · rw [changeLoop, e1, Res.bind_ok]; exact f1
    · rw [f3, e3, List.map_cons, List.flatten_cons, List.append_assoc]
    · rw [f4, e4, List.drop_drop, usesAll_cons]

theorem newNStr_refs (cs : Str) : (newNStr (encStr cs)).refs = alignRefs cs 0 ∧
    (newNStr (encStr cs)).cells = alignCells cs 0 := by
  simp [newNStr, runes_encStr]

/-- After a change list on a new text without NUL that begins by keeping a character, and either
removes nothing and uses up the text or gives no longer text, the original covers the text. -/
theorem transform_cover (cs : Str) (items : List (Str × Int)) (hz : '\x00' ∉ cs)
    (hu : usesAll items ≤ cs.length) (hfirst : ∀ i ∈ items.head?, i.2 ≤ 0)
    (hmode : ((∀ i ∈ items, 0 ≤ i.2) ∧ usesAll items = cs.length) ∨ blen (items.map (·.1)).flatten ≤ blen cs) :
    ∃ n', (newNStr (encStr cs)).transform items 0 = .ok n' ∧ WF n' ∧ Cover n' ∧
      n'.normalized = encStr (items.map (·.1)).flatten ∧ n'.original = encStr cs ∧
      n'.aligns = sources cs 0 items := by
  obtain ⟨n', h1, h2, h3, h4, h5, h6⟩ := C41_transform_partial cs items hu
  obtain ⟨h7, h8⟩ := h6 hz
  have hO : n'.refs.length = blen cs ∧ (cs ≠ [] → ∃ r0 r1, n'.refs[0]? = some r0 ∧ (cellAt n'.cells r0).1 = 0 ∧
      n'.refs[blen cs - 1]? = some r1 ∧ (blen (items.map (·.1)).flatten : Int) ≤ (cellAt n'.cells r1).2) := by
    obtain ⟨hr, hc⟩ := newNStr_refs cs
    have hw := newNStr_wf cs
    have hn : (newNStr (encStr cs)).normalized = encStr cs := rfl
    rw [transform_eq (newNStr_cover cs) hw.lenA] at h1
    unfold NStr.transformRange at h1
    have hfull : (⟨((0 : Nat) : Int), ((newNStr (encStr cs)).normalized.length : Int), .normalized⟩ : Rng).full
        (newNStr (encStr cs)).normalized.length = ⟨0, ((newNStr (encStr cs)).normalized.length : Int), .normalized⟩ := by
      simp [Rng.full]
    simp only [hfull, Res.bind_ok, hw.lenA] at h1
    rw [if_neg (by omega), slc_all] at h1
    simp only [Res.bind_ok, hn, runes_encStr, Nat.not_lt_zero, gt_iff_lt, if_false, List.take_zero,
      clearChars, blen_nil, hr, hc] at h1
    have e : (⟨alignRefs cs 0, alignCells cs 0, cs, 0 + (0 : Int).toNat, -((0 : Nat) : Int), [], []⟩ : TState) =
      ⟨alignRefs cs 0, alignCells cs 0, cs, 0, 0, [], []⟩ := by simp
    have hinv : CInv cs [] ⟨alignRefs cs 0, alignCells cs 0, cs, 0, 0, [], []⟩ := by
      refine ⟨rfl, rfl, rfl, length_alignRefs cs 0, by simp [length_alignCells], fun _ => rfl, fun _ _ _ => rfl,
        fun _ _ _ => rfl, fun x => absurd rfl x, fun x y => absurd x.symm y⟩
    obtain ⟨done', st', t1, t2, t3, t4⟩ := changeLoop_cinv items hinv hz hu (fun _ => hfirst)
      (by rcases hmode with ⟨hm, _⟩ | hm
          · exact Or.inl hm
          · exact Or.inr (by simpa using hm))
    rw [e, newNStr_aligns, t1] at h1
    simp only [Res.bind_ok] at h1
    have hst : shiftTail (byteRanges cs 0) ((encStr cs).length : Int) st'.oShift st'.refs st'.cells =
        .ok (st'.refs, st'.cells) := by
      unfold shiftTail
      split
      · have : slc (byteRanges cs 0) ((encStr cs).length : Int) ((byteRanges cs 0).length : Int) = .ok [] := by
          rw [slc_ok (by omega) (by rw [length_byteRanges, length_encStr]; omega) (by omega)]
          congr 1
          rw [List.drop_of_length_le]
          rw [List.length_take, length_byteRanges, length_encStr]; omega
        rw [this, Res.bind_ok]
        rfl
      · rfl
    rw [hst] at h1
    simp only [Res.bind_ok] at h1
    obtain ⟨_, _, h1⟩ := Res.bind_eq_ok.mp h1
    obtain ⟨_, _, h1⟩ := Res.bind_eq_ok.mp h1
    obtain ⟨_, _, h1⟩ := Res.bind_eq_ok.mp h1
    obtain ⟨_, _, h1⟩ := Res.bind_eq_ok.mp h1
    cases h1
    refine ⟨t2.len, ?_⟩
    intro hne
    have hpos := blen_pos hne
    simp only [List.nil_append] at t3
    by_cases hd : done' = cs
    · obtain ⟨r0, a1, _, _, a4⟩ := t2.head (by rw [hd]; exact hne)
      obtain ⟨r1, b1, _, b3⟩ := t2.last hd hne
      rw [t3] at b3
      exact ⟨r0, r1, a1, a4, b1, b3⟩
    · -- the end of the text is not used
      have hshort : blen (items.map (·.1)).flatten ≤ blen cs := by
        rcases hmode with ⟨_, hm⟩ | hm
        · exfalso
          apply hd
          have := t2.split
          rw [t4, hm] at this
          simp at this
          exact this.symm
        · exact hm
      have hsp := t2.split
      have hrne : st'.rest ≠ [] := by
        intro x
        rw [x, List.append_nil] at hsp
        exact hd hsp.symm
      have hlast : ∃ w x, st'.rest = w ++ [x] := by
        rcases List.eq_nil_or_concat st'.rest with h | ⟨w, x, h⟩
        · exact absurd h hrne
        · exact ⟨w, x, by simp [h]⟩
      obtain ⟨w, x, hwx⟩ := hlast
      have hx := x.utf8Size_pos
      have hcs : cs = (done' ++ w) ++ x :: [] := by
        conv => lhs; rw [hsp, hwx]
        simp
      have hbl : blen cs = blen (done' ++ w) + x.utf8Size := by
        conv => lhs; rw [hcs]
        rw [blen_append]; simp
      have r1 : st'.refs[blen cs - 1]? = some (done' ++ w).length := by
        rw [t2.late _ (by rw [hbl, blen_append]; omega) (by omega)]
        have := alignRefs_at (done' ++ w) x [] (x.utf8Size - 1) (by omega)
        rw [← hcs, show blen (done' ++ w) + (x.utf8Size - 1) = blen cs - 1 by omega] at this
        exact this
      have c1 : cellAt st'.cells (done' ++ w).length = ((blen (done' ++ w) : Int), (blen cs : Int)) := by
        unfold cellAt
        rw [t2.lateC _ (by simp) (by conv => rhs; rw [hcs]
                                     simp)]
        have := alignCells_at (done' ++ w) x []
        rw [← hcs] at this
        rw [this, ← hbl]
        rfl
      by_cases hd0 : done' = []
      · subst hd0
        obtain ⟨c, v, hcv⟩ : ∃ c v, cs = c :: v := by
          cases hx : cs with
          | nil => exact absurd hx hne
          | cons c v => exact ⟨c, v, rfl⟩
        have hcp := c.utf8Size_pos
        refine ⟨0, _, ?_, ?_, r1, by rw [c1]; simp only; omega⟩
        · rw [t2.late 0 (by simp) hpos]
          have := alignRefs_at [] c v 0 hcp
          rw [hcv]
          simpa using this
        · unfold cellAt
          rw [t2.lateC 0 (by simp) (List.length_pos_iff.2 hne)]
          have := alignCells_at [] c v
          rw [hcv]
          simp only [List.nil_append, List.length_nil] at this
          rw [this]
          rfl
      · obtain ⟨r0, a1, _, _, a4⟩ := t2.head hd0
        exact ⟨r0, _, a1, a4, r1, by rw [c1]; simp only; omega⟩
  refine ⟨n', h1, ⟨h4, by rw [hO.1, h3, length_encStr], by rw [h3, length_encStr]; exact h5, h8⟩, ?_, h2, h3, h7⟩
  have hl : n'.original.length = blen cs := by rw [h3, length_encStr]
  have ho : n'.alignsO.length = blen cs := by unfold NStr.alignsO; rw [List.length_map, hO.1]
  unfold Cover NStr.convert
  have hf : (⟨0, (n'.original.length : Int), .original⟩ : Rng).full n'.original.length =
      ⟨0, (blen cs : Int), .original⟩ := by simp [Rng.full, hl]
  simp only [hf]
  by_cases hs : cs = []
  · subst hs
    have : blen (items.map (·.1)).flatten = 0 := by
      rcases hmode with ⟨_, hm⟩ | hm
      · cases items with
        | nil => rfl
        | cons i l =>
          exfalso
          have := hfirst i (by simp)
          rw [usesAll_cons] at hm
          unfold uses at hm
          rw [if_neg (by omega)] at hm
          simp at hm
      · simpa using hm
    exact ⟨⟨0, 0, .original⟩, by simp, rfl, by rw [h2, length_encStr, this]; simp⟩
  · obtain ⟨r0, r1, a1, a2, b1, b2⟩ := hO.2 hs
    have hne := blen_pos hs
    rw [if_neg (by omega), if_neg (by rw [ho]; omega)]
    have hsl : slc n'.alignsO 0 (blen cs : Int) = .ok n'.alignsO := by rw [← ho, slc_all]
    have hex : expand n'.alignsO = some (0, (cellAt n'.cells r1).2) := by
      unfold expand
      rw [List.head?_eq_getElem?, List.getLast?_eq_getElem?, ho]
      unfold NStr.alignsO
      rw [List.getElem?_map, List.getElem?_map, a1, b1]
      simp only [Option.map_some, a2]
    rw [hsl]
    simp only [Res.bind_ok, hex]
    exact ⟨_, rfl, rfl, by rw [h2, length_encStr]; exact b2⟩

end Tok.Norm
