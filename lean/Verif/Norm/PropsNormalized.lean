import Verif.Norm.Items

/-! C40, C41 and C42. -/

namespace Tok.Norm

/-! ### C40 -/

theorem byteRanges_at (u : Str) (c : Char) (v : Str) (j : Nat) (hj : j < c.utf8Size) :
    (byteRanges (u ++ c :: v) 0)[blen u + j]? =
      some ((blen u : Int), ((blen u + c.utf8Size : Nat) : Int)) := by
  rw [byteRanges_append, List.getElem?_append_right (by rw [length_byteRanges]; omega),
    length_byteRanges, byteRanges, List.getElem?_append_left (by simp; omega)]
  rw [show blen u + j - blen u = j by omega]
  simp [hj]

/-- C40: in a string made from a text, the alignment of every byte is the byte range of the
character it belongs to, in both directions. -/
theorem C40_alignment (u : Str) (c : Char) (v : Str) (j : Nat) (hj : j < c.utf8Size) :
    (newNStr (encStr (u ++ c :: v))).aligns[blen u + j]? =
        some ((blen u : Int), ((blen u + c.utf8Size : Nat) : Int)) ∧
    (newNStr (encStr (u ++ c :: v))).alignsO[blen u + j]? =
        some ((blen u : Int), ((blen u + c.utf8Size : Nat) : Int)) := by
  rw [newNStr_aligns, newNStr_alignsO]
  exact ⟨byteRanges_at u c v j hj, byteRanges_at u c v j hj⟩

/-- C40: there is one alignment per byte, and the rest of the fields are as given. -/
theorem C40_fields (s : Str) :
    (newNStr (encStr s)).aligns.length = (encStr s).length ∧
    (newNStr (encStr s)).alignsO.length = (encStr s).length ∧
    (newNStr (encStr s)).original = encStr s ∧ (newNStr (encStr s)).normalized = encStr s ∧
    (newNStr (encStr s)).shift = 0 := by
  rw [newNStr_aligns, newNStr_alignsO, length_byteRanges, length_encStr]
  exact ⟨rfl, rfl, rfl, rfl, rfl⟩

/-- C40: every range of whole characters converts to itself, in both directions. -/
theorem C40_convert (u m v : Str) (on : IndexOn) :
    ∃ on', (newNStr (encStr (u ++ m ++ v))).convert ⟨(blen u : Int), (blen (u ++ m) : Nat), on⟩ =
      .ok (some ⟨(blen u : Int), (blen (u ++ m) : Nat), on'⟩) := by
  have hl : (newNStr (encStr (u ++ m ++ v))).original.length = blen (u ++ m ++ v) := by
    simp [newNStr, length_encStr]
  have hn : (newNStr (encStr (u ++ m ++ v))).normalized.length = blen (u ++ m ++ v) := by
    simp [newNStr, length_encStr]
  have hle : blen (u ++ m) ≤ blen (u ++ m ++ v) := by rw [blen_append _ v]; omega
  have hum : blen u ≤ blen (u ++ m) := by rw [blen_append]; omega
  have hfull : (⟨(blen u : Int), ((blen (u ++ m) : Nat) : Int), on⟩ : Rng).full (blen (u ++ m ++ v)) =
      ⟨(blen u : Int), ((blen (u ++ m) : Nat) : Int), on⟩ := by
    unfold Rng.full
    simp only [Rng.mk.injEq, and_true]
    exact ⟨by rw [if_neg (by omega)], by rw [if_neg (by omega)]⟩
  have hconv : ∃ on', (newNStr (encStr (u ++ m ++ v))).convert ⟨(blen u : Int), (blen (u ++ m) : Nat), on⟩ =
      (if (blen u : Int) = (blen (u ++ m) : Nat) then
        Res.ok (some ⟨(blen u : Int), (blen (u ++ m) : Nat), on⟩)
      else do
        let seg ← slc (byteRanges (u ++ m ++ v) 0) (blen u : Int) ((blen (u ++ m) : Nat) : Int)
        match expand seg with
        | none => .panic
        | some p => .ok (some ⟨p.1, p.2, on'⟩)) := by
    cases on
    · refine ⟨.normalized, ?_⟩
      simp only [NStr.convert, hl, hfull, newNStr_alignsO, length_byteRanges]
      by_cases hq : (blen u : Int) = (blen (u ++ m) : Nat)
      · rw [if_pos hq, if_pos hq]
      · rw [if_neg hq, if_neg hq, if_neg (by omega)]; rfl
    · refine ⟨.original, ?_⟩
      simp only [NStr.convert, hn, hfull, newNStr_aligns, length_byteRanges]
      by_cases hq : (blen u : Int) = (blen (u ++ m) : Nat)
      · rw [if_pos hq, if_pos hq]
      · rw [if_neg hq, if_neg hq, if_neg (by omega)]; rfl
  obtain ⟨on', hconv⟩ := hconv
  rw [hconv]
  by_cases he : m = []
  · subst he
    exact ⟨on, by rw [if_pos (by simp)]⟩
  · have hb : blen u < blen (u ++ m) := by
      rw [blen_append]
      have : blen m ≠ 0 := fun h => he (by
        cases m with
        | nil => rfl
        | cons c m => have := c.utf8Size_pos; simp at h; omega)
      omega
    rw [if_neg (by omega),
      slc_ok (by omega) (by omega) (by rw [length_byteRanges]; omega)]
    simp only [Res.bind_ok, Int.toNat_natCast]
    have hseg : ((byteRanges (u ++ m ++ v) 0).take (blen (u ++ m))).drop (blen u) =
        byteRanges m (blen u) := by
      rw [byteRanges_append, List.take_left' (length_byteRanges _ _), byteRanges_append,
        List.drop_left' (length_byteRanges _ _), Nat.zero_add]
    rw [hseg, expand_byteRanges m _ he, blen_append]
    exact ⟨_, rfl⟩

theorem convert_new (s : Str) (a b : Int) (on : IndexOn) :
    (newNStr (encStr s)).convert ⟨a, b, on⟩ =
      (let r := (⟨a, b, on⟩ : Rng).full (blen s)
      if r.start = r.stop then .ok (some r)
      else if r.start < 0 ∨ r.start > blen s ∨ r.stop < 0 ∨ r.stop > blen s then .ok none
      else do
        let seg ← slc (byteRanges s 0) r.start r.stop
        match expand seg with
        | none => .panic
        | some p => .ok (some ⟨p.1, p.2, match on with | .original => .normalized | .normalized => .original⟩)) := by
  have hl : (newNStr (encStr s)).original.length = blen s := by simp [newNStr, length_encStr]
  have hn : (newNStr (encStr s)).normalized.length = blen s := by simp [newNStr, length_encStr]
  cases on <;> (simp only [NStr.convert, hl, hn, newNStr_alignsO, newNStr_aligns, length_byteRanges]; rfl)

/-- C40: a range that starts in the character `c` and ends in the character `d` converts to the range from the
start of `c` to the end of `d`, on the other side. -/
theorem C40_cut (s u v u' v' : Str) (c d : Char) (j j' : Nat) (hs : s = u ++ c :: v) (hs' : s = u' ++ d :: v')
    (hj : j < c.utf8Size) (hj' : j' < d.utf8Size) (hle : blen u + j ≤ blen u' + j') :
    (newNStr (encStr s)).convert ⟨(blen u + j : Nat), (blen u' + j' + 1 : Nat), .normalized⟩ =
      .ok (some ⟨blen u, (blen u' + d.utf8Size : Nat), .original⟩) ∧
    (newNStr (encStr s)).convert ⟨(blen u + j : Nat), (blen u' + j' + 1 : Nat), .original⟩ =
      .ok (some ⟨blen u, (blen u' + d.utf8Size : Nat), .normalized⟩) := by
  have hlen : blen u' + j' + 1 ≤ blen s := by
    rw [hs', blen_append, blen_cons]; omega
  have key : ∀ on on', (match on with | IndexOn.original => IndexOn.normalized | .normalized => .original) = on' →
      (newNStr (encStr s)).convert ⟨(blen u + j : Nat), (blen u' + j' + 1 : Nat), on⟩ =
      .ok (some ⟨blen u, (blen u' + d.utf8Size : Nat), on'⟩) := by
    intro on on' hon
    have hfull : (⟨((blen u + j : Nat) : Int), ((blen u' + j' + 1 : Nat) : Int), on⟩ : Rng).full (blen s) =
        ⟨((blen u + j : Nat) : Int), ((blen u' + j' + 1 : Nat) : Int), on⟩ := by
      unfold Rng.full
      simp only [Rng.mk.injEq, and_true]
      exact ⟨by rw [if_neg (by omega)], by rw [if_neg (by omega)]⟩
    rw [convert_new]
    simp only [hfull]
    rw [if_neg (by omega), if_neg (by omega), slc_ok (by omega) (by omega) (by rw [length_byteRanges]; omega)]
    simp only [Res.bind_ok, Int.toNat_natCast]
    have h0 : (byteRanges s 0)[blen u + j]? = some ((blen u : Int), ((blen u + c.utf8Size : Nat) : Int)) := by
      rw [hs]; exact byteRanges_at u c v j hj
    have h1 : (byteRanges s 0)[blen u' + j']? = some ((blen u' : Int), ((blen u' + d.utf8Size : Nat) : Int)) := by
      rw [hs']; exact byteRanges_at u' d v' j' hj'
    have hh : (((byteRanges s 0).take (blen u' + j' + 1)).drop (blen u + j)).head? =
        some ((blen u : Int), ((blen u + c.utf8Size : Nat) : Int)) := by
      rw [List.head?_drop, List.getElem?_take_of_lt (by omega), h0]
    have hg : (((byteRanges s 0).take (blen u' + j' + 1)).drop (blen u + j)).getLast? =
        some ((blen u' : Int), ((blen u' + d.utf8Size : Nat) : Int)) := by
      rw [List.getLast?_eq_getElem?, List.getElem?_drop, List.length_drop, List.length_take, length_byteRanges,
        show blen u + j + (min (blen u' + j' + 1) (blen s) - (blen u + j) - 1) = blen u' + j' by omega,
        List.getElem?_take_of_lt (by omega), h1]
    unfold expand
    rw [hh, hg]
    simp only [hon]
  exact ⟨key _ _ rfl, key _ _ rfl⟩

/-- C40: a range that begins or ends outside the text has no counterpart. An end behind the text stands for the end
of the text, and a start of -1 for its start. -/
theorem C40_outside (s : Str) (a b : Int) (on : IndexOn) (h : a < -1 ∨ blen s < a ∨ b < 0)
    (hne : a ≠ b) (hne' : a = -1 → b ≠ 0) : (newNStr (encStr s)).convert ⟨a, b, on⟩ = .ok none := by
  rw [convert_new]
  simp only [Rng.full]
  by_cases ha : a = -1
  · subst ha
    have hb : b < 0 := by omega
    rw [if_pos rfl, if_neg (show ¬ b > (blen s : Int) by omega), if_neg (by omega), if_pos (by omega)]
  · rw [if_neg ha]
    by_cases hb : b > (blen s : Int)
    · rw [if_pos hb, if_neg (by omega), if_pos (by omega)]
    · rw [if_neg hb, if_neg hne, if_pos (by omega)]

/-- C40: what an end behind the text and a start of -1 stand for. -/
theorem C40_ends (s : Str) (b : Int) (on : IndexOn) (hb : blen s ≤ b) (a : Int) :
    (newNStr (encStr s)).convert ⟨a, b, on⟩ = (newNStr (encStr s)).convert ⟨a, blen s, on⟩ ∧
    (newNStr (encStr s)).convert ⟨-1, b, on⟩ = (newNStr (encStr s)).convert ⟨0, b, on⟩ := by
  have hf : (if b > (blen s : Int) then (blen s : Int) else b) = blen s := by split <;> omega
  constructor
  · rw [convert_new, convert_new]
    simp only [Rng.full, hf]
    simp
  · rw [convert_new, convert_new]
    simp only [Rng.full]
    simp

/-- C40 fails for every range within the text whose end lies before its start: converting it panics. -/
theorem C40_reversed_violated (s : Str) (a b : Int) (on : IndexOn) (h0 : 0 ≤ b) (h1 : b < a) (h2 : a ≤ blen s) :
    (newNStr (encStr s)).convert ⟨a, b, on⟩ = .panic := by
  rw [convert_new]
  simp only [Rng.full]
  rw [if_neg (show ¬ a = -1 by omega), if_neg (show ¬ b > (blen s : Int) by omega), if_neg (by omega), if_neg (by omega)]
  unfold slc
  rw [if_neg (by omega)]
  rfl

/-- C40 fails for the texts of ranges that begin or end outside the text: `Range` and `RangeOriginal` panic. -/
theorem C40_text_violated (s : Str) (a b : Int) (h : a < -1 ∨ blen s < a ∨ b < 0)
    (hne : a ≠ b) (hne' : a = -1 → b ≠ 0) :
    (newNStr (encStr s)).range ⟨a, b, .original⟩ = .panic ∧
    (newNStr (encStr s)).rangeOriginal ⟨a, b, .normalized⟩ = .panic := by
  constructor
  · simp only [NStr.range, C40_outside s a b .original h hne hne', Res.bind_ok]
  · simp only [NStr.rangeOriginal, C40_outside s a b .normalized h hne hne', Res.bind_ok]

example : (newNStr (encStr ['a'])).range ⟨2, 3, .original⟩ = .panic :=
  (C40_text_violated ['a'] 2 3 (by decide) (by decide) (by decide)).1

theorem length_runes (bs : List UInt8) : bs.length ≤ blen (runes bs) ∧
    (blen (runes bs) = bs.length ↔ validUtf8 bs = true) := by
  induction bs using explode.induct with
  | case1 => simp [runes, explode, validUtf8]
  | case2 b rest c hd ih =>
    unfold runes validUtf8 at ih ⊢
    rw [explode, hd]
    simp only [List.map_cons, runeOf, Option.getD_some, blen_cons, List.all_cons, Option.isSome_some,
      Bool.true_and]
    obtain ⟨r, hr⟩ := decodeRune_some hd
    have hl := congrArg List.length hr
    rw [List.length_append, String.length_utf8EncodeChar] at hl
    have hp := c.utf8Size_pos
    simp only [List.length_cons, List.length_drop] at hl ih ⊢
    refine ⟨by simp only [runeOf] at ih; omega, ?_⟩
    rw [← ih.2]
    simp only [runeOf]
    omega
  | case3 b rest hd ih =>
    unfold runes validUtf8 at ih ⊢
    rw [explode, hd]
    have h3 : ('�' : Char).utf8Size = 3 := by decide
    simp only [List.map_cons, runeOf, Option.getD_none, blen_cons, List.all_cons, Option.isSome_none,
      Bool.false_and, h3, List.length_cons, Bool.false_eq_true, iff_false]
    simp only [runeOf] at ih
    omega

/-- C40 fails exactly on strings that are not valid UTF-8: there the number of alignments is not
the number of bytes. -/
theorem C40_invalid_violated (bs : List UInt8) :
    (newNStr bs).aligns.length = bs.length ↔ validUtf8 bs = true := by
  have : (newNStr bs).aligns.length = blen (runes bs) := by simp [newNStr, length_alignRefs]
  rw [this]
  exact (length_runes bs).2

example : (newNStr [0x61, 0xFF]).aligns.length = 4 := by decide +kernel
example : (newNStr (encStr "aé!".toList)).aligns = [(0, 1), (1, 3), (1, 3), (3, 4)] := by decide +kernel

/-! ### C41 -/

/-- The byte range of character number `m` of a text. -/
def charRange (cs : Str) (m : Nat) : Int × Int :=
  ((blen (cs.take m) : Int), (blen (cs.take (m + 1)) : Int))

/-- The original range each new character should have: that of the character it replaces, or, if
it is inserted, that of the character before it. `m` characters have been used up. -/
def sources (cs : Str) : Nat → List (Str × Int) → List (Int × Int)
  | _, [] => []
  | m, (t, ch) :: items =>
    List.replicate (blen t)
      (if ch > 0 then (if m = 0 then (0, 0) else charRange cs (m - 1)) else charRange cs m) ++
      sources cs (m + uses ch) items

theorem byteRanges_charRange (cs : Str) (m : Nat) (hm : m < cs.length) (j : Nat)
    (h1 : blen (cs.take m) ≤ j) (h2 : j < blen (cs.take (m + 1))) :
    (byteRanges cs 0)[j]? = some (charRange cs m) := by
  have hsplit : cs = cs.take m ++ cs[m] :: cs.drop (m + 1) := by
    rw [List.getElem_cons_drop, List.take_append_drop]
  have htk : cs.take (m + 1) = cs.take m ++ [cs[m]] := by
    rw [List.take_add_one, List.getElem?_eq_getElem hm]; rfl
  have hb : blen (cs.take (m + 1)) = blen (cs.take m) + (cs[m]).utf8Size := by
    rw [htk, blen_append]; simp
  have := byteRanges_at (cs.take m) cs[m] (cs.drop (m + 1)) (j - blen (cs.take m)) (by omega)
  rw [← hsplit] at this
  rw [show j = blen (cs.take m) + (j - blen (cs.take m)) by omega, this]
  simp [charRange, hb]

theorem blen_take_succ (cs : Str) (m : Nat) (hm : m < cs.length) :
    blen (cs.take m) < blen (cs.take (m + 1)) := by
  rw [List.take_add_one, List.getElem?_eq_getElem hm, blen_append]
  have := (cs[m]).utf8Size_pos
  simpa using this

theorem sourcesAt_fresh (cs : Str) (items : List (Str × Int)) :
    ∀ m, m + usesAll items ≤ cs.length →
    sourcesAt (byteRanges cs 0) (blen (cs.take m)) (cs.drop m) items = sources cs m items := by
  induction items with
  | nil => intro m _; rfl
  | cons item items ih =>
    obtain ⟨t, ch⟩ := item
    intro m hm
    rw [usesAll_cons] at hm
    rw [sourcesAt, sources]
    have h1 : blen (cs.take m) + blen ((cs.drop m).take (uses ch)) = blen (cs.take (m + uses ch)) := by
      rw [List.take_add, blen_append]
    rw [h1, List.drop_drop, ih (m + uses ch) (by simp only at hm; omega)]
    congr 2
    by_cases hp : ch > 0
    · rw [if_pos hp, if_pos hp]
      by_cases h0 : m = 0
      · subst h0; simp
      · have hlt := blen_take_succ cs (m - 1) (by omega)
        rw [show m - 1 + 1 = m by omega] at hlt
        rw [if_neg (by omega), if_neg h0, byteRanges_charRange cs (m - 1) (by omega) _ (by omega)
          (by rw [show m - 1 + 1 = m by omega]; omega)]
        rfl
    · rw [if_neg hp, if_neg hp]
      have hu : uses ch = 1 + (-ch).toNat := by unfold uses; rw [if_neg hp]
      have hlt := blen_take_succ cs m (by simp only at hm; omega)
      rw [byteRanges_charRange cs m (by simp only at hm; omega) _ (Nat.le_refl _) hlt]
      rfl

/-- C41 without removal at the start: every change list that finds its characters in the text
succeeds, gives the listed text, one alignment per byte, all within the original, and, when the
text has no NUL character, the alignments are those of the characters replaced, in order. -/
theorem C41_transform_partial (cs : Str) (items : List (Str × Int)) (huse : usesAll items ≤ cs.length) :
    ∃ n', (newNStr (encStr cs)).transform items 0 = .ok n' ∧
      n'.normalized = encStr (items.map (·.1)).flatten ∧
      n'.original = encStr cs ∧
      n'.aligns.length = n'.normalized.length ∧
      Within (blen cs) n'.aligns ∧
      ('\x00' ∉ cs → n'.aligns = sources cs 0 items ∧ NonDecreasing n'.aligns) := by
  have hw := newNStr_wf cs
  have hn : (newNStr (encStr cs)).normalized = encStr cs := rfl
  rw [transform_eq (newNStr_cover cs) hw.lenA]
  obtain ⟨n', h, ho, he⟩ := transformRange_ok hw (a := 0) (b := (newNStr (encStr cs)).normalized.length)
    (items := items) (by omega) (by omega) (cs := cs) (by rw [hn]; simp) huse
  refine ⟨n', h, ?_, ho.original, ho.lenA, ?_, ?_⟩
  · have := ho.text
    simpa using this
  · have := ho.within
    rw [ho.original] at this
    simpa [newNStr, length_encStr] using this
  · intro hz
    obtain ⟨e1, e2⟩ := he hz
    refine ⟨?_, e2⟩
    rw [e1, ← hw.lenA]
    simp only [List.take_zero, List.nil_append, List.drop_length, List.append_nil]
    have := sourcesAt_fresh cs items 0 (by omega)
    rw [newNStr_aligns]
    simpa using this

/-- C41 with any number of characters removed at the start: whenever the call does not panic, the
text is the listed one, there is one alignment per byte, all within the original, and in order if
the text has no NUL character. -/
theorem C41_removed_partial (cs : Str) (items : List (Str × Int)) (k : Nat)
    (huse : k + usesAll items ≤ cs.length) (n' : NStr)
    (h : (newNStr (encStr cs)).transform items k = .ok n') :
    n'.normalized = encStr (items.map (·.1)).flatten ∧ n'.original = encStr cs ∧
    n'.aligns.length = n'.normalized.length ∧ Within (blen cs) n'.aligns ∧
    ('\x00' ∉ cs → NonDecreasing n'.aligns) := by
  have hw := newNStr_wf cs
  rw [transform_eq (newNStr_cover cs) hw.lenA] at h
  have ho := transformRange_outcome hw h (Nat.le_refl _)
  refine ⟨?_, ho.original, ho.lenA, ?_, fun hz => transform_mono hw h rfl (by omega) hz⟩
  · have := ho.text
    simpa using this
  · have := ho.within
    rw [ho.original] at this
    simpa [newNStr, length_encStr] using this

/-- C41 (when removal at the start succeeds): it is enough that the removed characters have no
more bytes than as many characters at the end of the text. -/
theorem C41_removed_ok_partial (cs : Str) (items : List (Str × Int)) (k : Nat)
    (huse : k + usesAll items ≤ cs.length)
    (hfit : blen (cs.take k) ≤ blen (cs.drop (cs.length - k))) :
    ∃ n', (newNStr (encStr cs)).transform items k = .ok n' := by
  have hw := newNStr_wf cs
  have hn : (newNStr (encStr cs)).normalized = encStr cs := rfl
  have hl : (newNStr (encStr cs)).normalized.length = blen cs := by rw [hn, length_encStr]
  rw [transform_eq (newNStr_cover cs) hw.lenA]
  obtain ⟨n', h, _⟩ := transformRange_removed_ok hw (newNStr_cellsLe cs) (a := 0)
    (b := (newNStr (encStr cs)).normalized.length) (k := k) (items := items) (by omega) (by omega)
    (cs := cs) (by rw [hn]; simp) (by omega) (by omega)
    (by rw [hl]; have := take_leading cs (by omega) hfit (u := usesAll items) (by omega); omega)
  exact ⟨n', h⟩

/-- C41 on a part of any well-formed string: text, counts, bounds and order are kept. -/
theorem C41_range_partial (n : NStr) (hw : WF n) (a b : Nat) (hab : a ≤ b)
    (hb : b ≤ n.normalized.length) (cs : Str) (hcs : (n.normalized.take b).drop a = encStr cs)
    (items : List (Str × Int)) (huse : usesAll items ≤ cs.length) (hz : '\x00' ∉ cs) :
    ∃ n', n.transformRange ⟨a, b, .normalized⟩ items 0 = .ok n' ∧ WF n' ∧ n'.original = n.original ∧
      n'.normalized = n.normalized.take a ++ encStr (items.map (·.1)).flatten ++ n.normalized.drop b := by
  obtain ⟨n', h, ho, he⟩ := transformRange_ok hw hab hb hcs huse
  exact ⟨n', h, ho.wf (he hz).2, ho.original, ho.text⟩

/-- C41 fails for texts with the NUL character: replacing it counts no bytes, so a character
inserted after it gets an earlier alignment. -/
theorem C41_nul_violated : ∃ n',
    (newNStr (encStr ['a', '\x00'])).transform [(['a'], 0), (['b'], 0), (['c'], 1)] 0 = .ok n' ∧
    n'.aligns = [(0, 1), (1, 2), (0, 1)] ∧ ¬ NonDecreasing n'.aligns := by
  obtain ⟨n', h1, h2⟩ := okAnd_spec (r := (newNStr (encStr ['a', '\x00'])).transform
    [(['a'], 0), (['b'], 0), (['c'], 1)] 0) (p := fun n => n.aligns == [(0, 1), (1, 2), (0, 1)])
    (by decide +kernel)
  have h3 : n'.aligns = [(0, 1), (1, 2), (0, 1)] := by simpa using h2
  refine ⟨n', h1, h3, ?_⟩
  rw [h3]
  intro h
  have h2 := nd_get h (i := 1) (j := 2) (by decide) (by decide)
  exact absurd h2 (by decide)

example : usesAll [(['x', 'é'], -1), (['y'], 1), (['z'], 0)] = "aéb".toList.length := by decide +kernel
example : okAnd ((newNStr (encStr "aéb".toList)).transform [(['x', 'é'], -1), (['y'], 1), (['z'], 0)] 0)
    (fun n => n.aligns == [(0, 1), (0, 1), (0, 1), (1, 3), (3, 4)]) = true := by decide +kernel

/-! ### C42 -/

/-- C42 (Filter): a successful call keeps exactly the characters satisfying the predicate, with
one alignment per byte. -/
theorem C42_filter_partial (fn : Char → Bool) (cs : Str) (n' : NStr)
    (h : (newNStr (encStr cs)).filter fn = .ok n') :
    n'.normalized = encStr (cs.filter fn) ∧ n'.original = encStr cs ∧
    n'.aligns.length = n'.normalized.length := by
  obtain ⟨h1, h2, h3⟩ := filter_items fn cs
  have hr : runes (newNStr (encStr cs)).normalized = cs := runes_encStr cs
  unfold NStr.filter at h
  rw [hr] at h
  obtain ⟨e1, e2, e3, _⟩ := C41_removed_partial cs _ _ (by omega) n' h
  exact ⟨by rw [e1, h1], e2, e3⟩

/-- C42 (Filter): the call succeeds when the removed leading characters have no more bytes than
as many characters at the end; so always when the first character is kept or all removed leading
characters are single bytes. -/
theorem C42_filter_ok_partial (fn : Char → Bool) (cs : Str)
    (h : let k := (cs.takeWhile (fun c => !fn c)).length
      blen (cs.take k) ≤ blen (cs.drop (cs.length - k))) :
    ∃ n', (newNStr (encStr cs)).filter fn = .ok n' := by
  obtain ⟨_, h2, h3⟩ := filter_items fn cs
  have hr : runes (newNStr (encStr cs)).normalized = cs := runes_encStr cs
  unfold NStr.filter
  rw [hr]
  exact C41_removed_ok_partial cs _ _ (by omega) (by rw [h3]; exact h)

theorem C42_filter_single_byte_partial (fn : Char → Bool) (cs : Str)
    (h : ∀ c ∈ cs.takeWhile (fun c => !fn c), c.utf8Size = 1) :
    ∃ n', (newNStr (encStr cs)).filter fn = .ok n' ∧ n'.normalized = encStr (cs.filter fn) := by
  have hle : (cs.takeWhile (fun c => !fn c)).length ≤ cs.length := (List.takeWhile_sublist _).length_le
  have ht : cs.take (cs.takeWhile (fun c => !fn c)).length = cs.takeWhile (fun c => !fn c) :=
    (List.prefix_iff_eq_take.mp (List.takeWhile_prefix _)).symm
  obtain ⟨n', hn⟩ := C42_filter_ok_partial fn cs (single_byte_leading cs hle (by rw [ht]; exact h))
  exact ⟨n', hn, (C42_filter_partial fn cs n' hn).1⟩

/-- The text without leading (if `left`) and trailing (if `right`) white space. -/
def stripped (space : Char → Bool) (left right : Bool) (s : Str) : Str :=
  let s1 := if left then s.dropWhile space else s
  if right then (s1.reverse.dropWhile space).reverse else s1

theorem dropWhile_length (p : Char → Bool) (s : Str) : s.dropWhile p = s.drop (s.takeWhile p).length := by
  induction s with
  | nil => rfl
  | cons c s ih => by_cases h : p c = true <;> simp [h, ih]

theorem takeWhile_reverse_all (p : Char → Bool) (s : Str) (h : ∀ c ∈ s, p c = true) :
    (s.reverse.takeWhile p).length = s.length ∧ (s.takeWhile p).length = s.length := by
  have : ∀ l : Str, (∀ c ∈ l, p c = true) → l.takeWhile p = l := by
    intro l hl
    induction l with
    | nil => rfl
    | cons c l ih => rw [List.takeWhile_cons, hl c (by simp), if_pos rfl, ih (fun d hd => hl d (by simp [hd]))]
  rw [this _ (by simpa using h), this _ h]
  simp

theorem strip_text (space : Char → Bool) (left right : Bool) (cs : Str) :
    let lead := if left then (cs.takeWhile space).length else 0
    let trail := if right then (cs.reverse.takeWhile space).length else 0
    (cs.take (cs.length - trail)).drop lead = stripped space left right cs := by
  have hle : (cs.takeWhile space).length ≤ cs.length := (List.takeWhile_sublist _).length_le
  have hle2 : (cs.reverse.takeWhile space).length ≤ cs.length := by
    have := (List.takeWhile_sublist (l := cs.reverse) space).length_le; simpa using this
  have hr : ∀ l : Str, (l.reverse.dropWhile space).reverse = l.take (l.length - (l.reverse.takeWhile space).length) := by
    intro l
    rw [dropWhile_length, List.drop_reverse, List.reverse_reverse]
  cases left <;> cases right
  · simp [stripped]
  · simp only [stripped, Bool.false_eq_true, if_false, if_true, List.drop_zero, hr]
  · simp only [stripped, Bool.false_eq_true, if_false, if_true, Nat.sub_zero, List.take_length,
      ← dropWhile_length]
  · simp only [stripped, if_true, hr]
    -- trailing part of the text without its leading part
    by_cases hall : ∀ c ∈ cs, space c = true
    · obtain ⟨h1, h2⟩ := takeWhile_reverse_all space cs hall
      rw [dropWhile_length, h2]
      simp
    · have hd : cs.dropWhile space ≠ [] := by
        intro he
        apply hall
        intro c hc
        have : cs = cs.takeWhile space := by
          have h := List.takeWhile_append_dropWhile (p := space) (l := cs)
          rw [he, List.append_nil] at h
          exact h.symm
        rw [this] at hc
        exact List.all_eq_true.mp List.all_takeWhile c hc
      have htr : (cs.reverse.takeWhile space).length = ((cs.dropWhile space).reverse.takeWhile space).length := by
        have h := List.takeWhile_append_dropWhile (p := space) (l := cs)
        have h0 : cs.reverse = (cs.dropWhile space).reverse ++ (cs.takeWhile space).reverse := by
          rw [← List.reverse_append, h]
        have hns : ∃ c ∈ (cs.dropWhile space).reverse, space c = false := by
          cases hx : cs.dropWhile space with
          | nil => exact absurd hx hd
          | cons c l =>
            refine ⟨c, by simp, ?_⟩
            have := List.head?_dropWhile_not space cs
            rw [hx] at this
            simpa using this
        rw [h0]
        obtain ⟨c, hc, hcs⟩ := hns
        generalize (cs.dropWhile space).reverse = l at hc
        generalize (cs.takeWhile space).reverse = m
        clear hle hle2 hr hall hd h h0
        induction l with
        | nil => cases hc
        | cons d l ih =>
          by_cases hdp : space d = true
          · rw [List.cons_append, List.takeWhile_cons, List.takeWhile_cons, hdp]
            simp only [if_true, List.length_cons]
            rcases List.mem_cons.mp hc with rfl | hc
            · rw [hdp] at hcs; cases hcs
            · rw [ih hc]
          · rw [List.cons_append, List.takeWhile_cons, List.takeWhile_cons, if_neg hdp, if_neg hdp]
      rw [← htr, dropWhile_length, List.length_drop, List.take_drop]
      congr 2
      have : (cs.dropWhile space).length ≥ (cs.reverse.takeWhile space).length := by
        rw [htr]
        have := (List.takeWhile_sublist (l := (cs.dropWhile space).reverse) space).length_le
        simpa using this
      rw [dropWhile_length, List.length_drop] at this
      omega

theorem strip_eq (space : Char → Bool) (left right : Bool) (cs : Str) :
    let lead := if left then (cs.takeWhile space).length else 0
    let trail := if right then (cs.reverse.takeWhile space).length else 0
    (newNStr (encStr cs)).strip space left right =
      if lead > 0 ∨ trail > 0 then (newNStr (encStr cs)).transform (stripItems cs lead trail) lead
      else .ok (newNStr (encStr cs)) := by
  have hr : runes (newNStr (encStr cs)).normalized = cs := runes_encStr cs
  simp only [NStr.strip, hr, stripItems]

/-- C42 (Strip, LStrip, RStrip): a successful call removes exactly the leading and trailing white
space, with one alignment per byte. -/
theorem C42_strip_partial (space : Char → Bool) (left right : Bool) (cs : Str) (n' : NStr)
    (h : (newNStr (encStr cs)).strip space left right = .ok n') :
    n'.normalized = encStr (stripped space left right cs) ∧ n'.original = encStr cs ∧
    n'.aligns.length = n'.normalized.length := by
  have hs := strip_eq space left right cs
  have ht := strip_text space left right cs
  simp only at hs ht
  rw [hs] at h
  have hle : (if left then (cs.takeWhile space).length else 0) ≤ cs.length := by
    have := (List.takeWhile_sublist (l := cs) space).length_le
    split <;> omega
  generalize (if left then (cs.takeWhile space).length else 0) = lead at *
  generalize (if right then (cs.reverse.takeWhile space).length else 0) = trail at *
  by_cases hp : lead > 0 ∨ trail > 0
  · rw [if_pos hp] at h
    have hu := stripItems_uses cs lead trail hle
    obtain ⟨e1, e2, e3, _⟩ := C41_removed_partial cs _ _ (by omega) n' h
    exact ⟨by rw [e1, stripItems_text, ht], e2, e3⟩
  · rw [if_neg hp] at h
    cases h
    obtain ⟨rfl, rfl⟩ : lead = 0 ∧ trail = 0 := by omega
    refine ⟨?_, rfl, (newNStr_wf cs).lenA⟩
    rw [← ht]
    simp [newNStr]

/-- C42 (Strip, LStrip, RStrip): the call succeeds when the leading white space has no multi-byte
character; so RStrip always succeeds. -/
theorem C42_strip_ok_partial (space : Char → Bool) (left right : Bool) (cs : Str)
    (h : left = true → ∀ c ∈ cs.takeWhile space, c.utf8Size = 1) :
    ∃ n', (newNStr (encStr cs)).strip space left right = .ok n' := by
  have hs := strip_eq space left right cs
  simp only at hs
  rw [hs]
  have hle : (cs.takeWhile space).length ≤ cs.length := (List.takeWhile_sublist _).length_le
  have ht : cs.take (cs.takeWhile space).length = cs.takeWhile space :=
    (List.prefix_iff_eq_take.mp (List.takeWhile_prefix _)).symm
  have hlead : (if left then (cs.takeWhile space).length else 0) ≤ cs.length := by split <;> omega
  have hone : ∀ c ∈ cs.take (if left then (cs.takeWhile space).length else 0), c.utf8Size = 1 := by
    cases left with
    | false => simp
    | true => simp only [if_true]; rw [ht]; exact h rfl
  generalize (if left then (cs.takeWhile space).length else 0) = lead at *
  generalize (if right then (cs.reverse.takeWhile space).length else 0) = trail at *
  by_cases hp : lead > 0 ∨ trail > 0
  · rw [if_pos hp]
    have hu := stripItems_uses cs lead trail hlead
    exact C41_removed_ok_partial cs _ _ (by omega) (single_byte_leading cs hlead hone)
  · rw [if_neg hp]
    exact ⟨_, rfl⟩

/-- C42 (Prepend): on any well-formed non-empty text. -/
theorem C42_prepend (n : NStr) (hw : WF n) (cs p : Str) (hcs : n.normalized = encStr cs)
    (hne : cs ≠ []) :
    ∃ n', n.prepend (encStr p) = .ok n' ∧ n'.normalized = encStr (p ++ cs) ∧
      n'.original = n.original ∧ n'.aligns.length = n'.normalized.length := by
  cases cs with
  | nil => exact absurd rfl hne
  | cons c cs =>
    obtain ⟨h1, h2⟩ := prepend_items p c
    have hlen := String.length_utf8EncodeChar c
    unfold NStr.prepend
    rw [hcs, runes_encStr, runes_encStr]
    have hb : c.utf8Size ≤ n.normalized.length := by
      rw [hcs, length_encStr, blen_cons]; omega
    have ht : (n.normalized.take c.utf8Size).drop 0 = encStr [c] := by
      rw [hcs, encStr_cons, ← hlen, List.take_left]; simp
    have hd : n.normalized.drop c.utf8Size = encStr cs := by
      rw [hcs, encStr_cons, ← hlen, List.drop_left]
    obtain ⟨n', h, ho, _⟩ := transformRange_ok hw (a := 0) (b := c.utf8Size)
      (items := prependItems p c) (by omega) hb ht (by simpa using h2)
    refine ⟨n', h, ?_, ho.original, ho.lenA⟩
    rw [ho.text, h1, hd]
    simp

/-- C42 (Append): on any well-formed non-empty text. -/
theorem C42_append (n : NStr) (hw : WF n) (cs p : Str) (hcs : n.normalized = encStr cs)
    (hne : cs ≠ []) :
    ∃ n', n.append (encStr p) = .ok n' ∧ n'.normalized = encStr (cs ++ p) ∧
      n'.original = n.original ∧ n'.aligns.length = n'.normalized.length := by
  obtain ⟨u, c, rfl⟩ : ∃ u c, cs = u ++ [c] := by
    rcases List.eq_nil_or_concat cs with h | ⟨d, x, h⟩
    · exact absurd h hne
    · exact ⟨d, x, by simp [h]⟩
  obtain ⟨h1, h2⟩ := append_items c p
  unfold NStr.append
  rw [hcs, lastRune_enc, runes_encStr, Nat.zero_add]
  have hl : n.normalized.length = blen u + c.utf8Size := by
    rw [hcs, length_encStr, blen_append]; simp
  have ht : (n.normalized.take n.normalized.length).drop (blen u) = encStr [c] := by
    rw [List.take_length, hcs, encStr_append, ← length_encStr, List.drop_left]
  obtain ⟨n', h, ho, _⟩ := transformRange_ok hw (a := blen u) (b := n.normalized.length)
    (items := ([c], 0) :: p.map (fun c => ([c], 1))) (by omega) (by omega) ht (by rw [h2]; simp)
  have hl2 : (encStr (u ++ [c])).length = n.normalized.length := by rw [hcs]
  simp only [hl2]
  refine ⟨n', h, ?_, ho.original, ho.lenA⟩
  rw [ho.text, h1, hcs, encStr_append, ← length_encStr, List.take_left]
  simp

/-- C42 fails for Prepend and Append on the empty text: nothing is added. -/
theorem C42_empty_violated (n : NStr) (p : List UInt8) (h : n.normalized = []) :
    n.prepend p = .ok n ∧ n.append p = .ok n := by
  have hr : runes [] = [] := runes_encStr []
  constructor
  · unfold NStr.prepend
    rw [h, hr]
  · unfold NStr.append
    have he : explode [] = [] := by rw [explode]
    rw [h, he]
    rfl

example : okAnd ((newNStr (encStr " aé b ".toList)).strip (fun c => c == ' ') true true)
    (fun n => n.normalized == encStr "aé b".toList) = true := by decide +kernel
example : okAnd ((newNStr (encStr "aéb".toList)).filter (fun c => c != 'b'))
    (fun n => n.normalized == encStr "aé".toList) = true := by decide +kernel

end Tok.Norm
