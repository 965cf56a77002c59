import Verif.PreTok.Model
import Verif.PreTok.PropsOffsets
import Verif.Norm.PropsSplit

/-! C46. -/

namespace Tok.PreTok

open Tok.Norm

/-- All tokens of the splits, in order. -/
def allTokens (ss : List Split) : List Token := ss.flatMap (fun s => s.tokens.getD [])

/-- The word of every token: the number of its split from `i` on, or the given word. -/
def wordsFrom (wordIdx : Int) : List Split → Nat → List Int
  | [], _ => []
  | s :: ss, i =>
    List.replicate (s.tokens.getD []).length (if wordIdx = -1 then (i : Int) else wordIdx) ++
      wordsFrom wordIdx ss (i + 1)

theorem rowsOfTokens_spec {m : List (Int × Nat)} {n : NStr} {word : Int} {ts : List Token} {rs : List Row}
    (h : rowsOfTokens m n word ts = .ok rs) :
    rs.map (·.token) = ts ∧ rs.map (·.word) = List.replicate ts.length word := by
  induction ts generalizing rs with
  | nil => cases h; exact ⟨rfl, rfl⟩
  | cons t ts ih =>
    simp only [rowsOfTokens] at h
    obtain ⟨o, _, h⟩ := Res.bind_eq_ok.mp h
    obtain ⟨rest, hr, h⟩ := Res.bind_eq_ok.mp h
    cases h
    obtain ⟨h1, h2⟩ := ih hr
    exact ⟨by rw [List.map_cons, h1], by rw [List.map_cons, h2, List.length_cons, List.replicate_succ]⟩

theorem rowsOfSplits_spec {m : List (Int × Nat)} {wordIdx : Int} {ss : List Split} {i : Nat} {rs : List Row}
    (h : rowsOfSplits m wordIdx ss i = .ok rs) :
    rs.map (·.token) = allTokens ss ∧ rs.map (·.word) = wordsFrom wordIdx ss i := by
  induction ss generalizing i rs with
  | nil => cases h; exact ⟨rfl, rfl⟩
  | cons s ss ih =>
    simp only [rowsOfSplits] at h
    obtain ⟨r1, h1, h⟩ := Res.bind_eq_ok.mp h
    obtain ⟨rest, hr, h⟩ := Res.bind_eq_ok.mp h
    cases h
    obtain ⟨e1, e2⟩ := rowsOfTokens_spec h1
    obtain ⟨e3, e4⟩ := ih hr
    refine ⟨?_, ?_⟩
    · rw [List.map_append, e1, e3]; simp [allTokens]
    · rw [List.map_append, e2, e4]; rfl

/-- C46 (entries): a successful IntoEncoding has one entry per token in order, arrays of equal
length, and the word of each token is the number of its split or the given word. -/
theorem C46_entries (pt : PTS) (typeId wordIdx : Int) (ot : OffsetType) (e : Encoding)
    (h : pt.intoEncoding typeId wordIdx ot = .ok e) :
    e.ids = (allTokens pt.splits).map (·.id) ∧
    e.tokens = (allTokens pt.splits).map (·.value) ∧
    e.words = wordsFrom wordIdx pt.splits 0 ∧
    e.typeIds = List.replicate (allTokens pt.splits).length typeId ∧
    e.specialMask = List.replicate (allTokens pt.splits).length 0 ∧
    e.attentionMask = List.replicate (allTokens pt.splits).length 1 ∧
    e.offsets.length = (allTokens pt.splits).length ∧ e.words.length = (allTokens pt.splits).length ∧
    e.overflowing = [] := by
  unfold PTS.intoEncoding at h
  split at h
  · next h0 => cases h; rw [h0]; simp [Encoding.default, allTokens, wordsFrom]
  · split at h
    · cases h
    · obtain ⟨rows, hr, h⟩ := Res.bind_eq_ok.mp h
      obtain ⟨h1, h2⟩ := rowsOfSplits_spec hr
      cases h
      have hlen : rows.length = (allTokens pt.splits).length := by rw [← h1, List.length_map]
      refine ⟨?_, ?_, h2, ?_, ?_, ?_, ?_, ?_, rfl⟩
      · rw [← h1, List.map_map]; rfl
      · rw [← h1, List.map_map]; rfl
      · rw [hlen]
      · rw [hlen]
      · rw [hlen]
      · rw [List.length_map, hlen]
      · rw [List.length_map, hlen]

/-- C46 (failure): if some split has no tokens, the call fails. -/
theorem C46_untokenized (pt : PTS) (typeId wordIdx : Int) (ot : OffsetType) (s : Split)
    (hs : s ∈ pt.splits) (h : s.tokens = none ∨ s.tokens = some []) :
    pt.intoEncoding typeId wordIdx ot = .err := by
  unfold PTS.intoEncoding
  rw [if_neg (by intro h0; rw [h0] at hs; cases hs), if_pos]
  rw [List.any_eq_true]
  refine ⟨s, hs, ?_⟩
  rcases h with h | h <;> rw [h] <;> rfl

theorem origOffsets_ok (n : NStr) (o : Int × Int) (h : 0 ≤ o.1 ∧ o.1 ≤ o.2) (hl : n.aligns.length = n.normalized.length) :
    ∃ p, origOffsets n o = .ok p := by
  have hc : ∃ r, n.convert ⟨o.1, o.2, .normalized⟩ = .ok r := by
    unfold NStr.convert
    simp only [Rng.full]
    rw [if_neg (show ¬ o.1 = -1 by omega)]
    generalize hq : (if o.2 > (n.normalized.length : Int) then (n.normalized.length : Int) else o.2) = q
    split
    · exact ⟨_, rfl⟩
    · split
      · exact ⟨_, rfl⟩
      · next h1 h2 =>
        have hq1 : o.1 ≤ q := by
          rw [← hq]; split
          · omega
          · exact h.2
        obtain ⟨a, ha⟩ : ∃ a : Nat, o.1 = a := ⟨o.1.toNat, by omega⟩
        obtain ⟨b, hb⟩ : ∃ b : Nat, q = b := ⟨q.toNat, by omega⟩
        rw [ha, hb] at h1 h2 ⊢
        rw [slc_ok (by omega) (by omega) (by omega)]
        simp only [Res.bind_ok, Int.toNat_natCast]
        rw [expand_seg (by omega) (by omega)]
        exact ⟨_, rfl⟩
  obtain ⟨r, hr⟩ := hc
  unfold origOffsets
  rw [hr]
  cases r with
  | none => exact ⟨_, rfl⟩
  | some r => exact ⟨_, rfl⟩

theorem rowsOfTokens_ok {m : List (Int × Nat)} {n : NStr} {word : Int} (hl : n.aligns.length = n.normalized.length)
    {ts : List Token} (h : ∀ t ∈ ts, 0 ≤ t.offsets.1 ∧ t.offsets.1 ≤ t.offsets.2) :
    ∃ rs, rowsOfTokens m n word ts = .ok rs := by
  induction ts with
  | nil => exact ⟨[], rfl⟩
  | cons t ts ih =>
    obtain ⟨o, ho⟩ := origOffsets_ok n t.offsets (h t (by simp)) hl
    obtain ⟨rs, hr⟩ := ih (fun x hx => h x (by simp [hx]))
    simp only [rowsOfTokens, ho, Res.bind_ok, hr]
    exact ⟨_, rfl⟩

theorem rowsOfSplits_ok {m : List (Int × Nat)} {wordIdx : Int} {ss : List Split}
    (h : ∀ s ∈ ss, s.normalized.aligns.length = s.normalized.normalized.length ∧
      ∀ t ∈ s.tokens.getD [], 0 ≤ t.offsets.1 ∧ t.offsets.1 ≤ t.offsets.2) (i : Nat) :
    ∃ rs, rowsOfSplits m wordIdx ss i = .ok rs := by
  induction ss generalizing i with
  | nil => exact ⟨[], rfl⟩
  | cons s ss ih =>
    obtain ⟨h1, h2⟩ := h s (by simp)
    obtain ⟨r1, e1⟩ := rowsOfTokens_ok (m := m) (word := if wordIdx = -1 then (i : Int) else wordIdx) h1 h2
    obtain ⟨r2, e2⟩ := ih (fun x hx => h x (by simp [hx])) (i + 1)
    simp only [rowsOfSplits, e1, Res.bind_ok, e2]
    exact ⟨_, rfl⟩

/-- C46 (success): if every split has tokens, their ranges are not reversed, and every split has one
alignment per byte, the call succeeds. -/
theorem C46_ok (pt : PTS) (typeId wordIdx : Int) (ot : OffsetType)
    (h : ∀ s ∈ pt.splits, s.tokens.getD [] ≠ [] ∧
      s.normalized.aligns.length = s.normalized.normalized.length ∧
      ∀ t ∈ s.tokens.getD [], 0 ≤ t.offsets.1 ∧ t.offsets.1 ≤ t.offsets.2) :
    ∃ e, pt.intoEncoding typeId wordIdx ot = .ok e := by
  unfold PTS.intoEncoding
  split
  · exact ⟨_, rfl⟩
  · rw [if_neg]
    · obtain ⟨rs, hr⟩ := rowsOfSplits_ok (m := charMap ot pt.original) (wordIdx := wordIdx) (ss := pt.splits)
        (fun s hs => (h s hs).2) 0
      rw [hr]
      exact ⟨_, rfl⟩
    · rw [List.any_eq_true]
      rintro ⟨s, hs, he⟩
      exact (h s hs).1 (List.isEmpty_iff.mp he)

/-! ### Offsets -/

/-- The split is the part `m` of the text `s`, with nothing changed. -/
def PartOf (s u m : Str) (x : NStr) : Prop :=
  (∃ v, s = u ++ m ++ v) ∧ SliceOf (newNStr (encStr s)) (blen u) (blen (u ++ m)) x ∧ WF x

theorem partOf_text {s u m : Str} {x : NStr} (h : PartOf s u m x) : x.normalized = encStr m := by
  obtain ⟨⟨v, hv⟩, hso, _⟩ := h
  rw [hso.text]
  subst hv
  exact cutOut_enc u m v

theorem length_pos_of_ne {m : Str} (h : m ≠ []) : 0 < blen m :=
  Nat.pos_of_ne_zero (fun h0 => h (blen_eq_zero.mp h0))

theorem byteRanges_first (u m v : Str) (hm : m ≠ []) : ∃ p, (byteRanges (u ++ m ++ v) 0)[blen u]? = some p ∧ p.1 = blen u := by
  cases m with
  | nil => exact absurd rfl hm
  | cons c m =>
    refine ⟨((blen u : Int), ((blen u + c.utf8Size : Nat) : Int)), ?_, rfl⟩
    have hp := c.utf8Size_pos
    rw [List.append_assoc, byteRanges_append, List.getElem?_append_right (by rw [length_byteRanges]; omega),
      length_byteRanges, Nat.sub_self, List.cons_append, byteRanges,
      List.getElem?_append_left (by simp; omega)]
    simp [hp]

theorem byteRanges_last (u m v : Str) (hm : m ≠ []) :
    ∃ p, (byteRanges (u ++ m ++ v) 0)[blen (u ++ m) - 1]? = some p ∧ p.2 = (blen (u ++ m) : Nat) := by
  obtain ⟨w, c, rfl⟩ : ∃ w c, m = w ++ [c] := by
    rcases List.eq_nil_or_concat m with h | ⟨d, x, h⟩
    · exact absurd h hm
    · exact ⟨d, x, by simp [h]⟩
  have hp := c.utf8Size_pos
  refine ⟨((blen (u ++ w) : Int), ((blen (u ++ w) + c.utf8Size : Nat) : Int)), ?_, ?_⟩
  · have he : u ++ (w ++ [c]) ++ v = (u ++ w) ++ (c :: v) := by simp
    have hb : blen (u ++ (w ++ [c])) = blen (u ++ w) + c.utf8Size := by
      rw [← List.append_assoc, blen_append]; simp
    rw [he, hb, byteRanges_append, List.getElem?_append_right (by rw [length_byteRanges]; omega),
      length_byteRanges, byteRanges, List.getElem?_append_left (by simp; omega), Nat.zero_add]
    rw [show blen (u ++ w) + c.utf8Size - 1 - blen (u ++ w) = c.utf8Size - 1 by omega]
    rw [List.getElem?_replicate, if_pos (by omega)]
    simp
  · simp only [← List.append_assoc, blen_append, blen_cons, blen_nil]; omega

/-- The offsets of a token of an unchanged part of the text: the place of its characters. -/
theorem origOffsets_part {s u m : Str} {x : NStr} (h : PartOf s u m x) (a t b : Str) (hm : m = a ++ t ++ b)
    (ht : t ≠ []) :
    origOffsets x ((blen a : Int), ((blen (a ++ t) : Nat) : Int)) =
      .ok (((blen (u ++ a) : Nat) : Int), ((blen (u ++ a ++ t) : Nat) : Int)) := by
  have hnorm := partOf_text h
  obtain ⟨⟨v, hv⟩, hso, hw⟩ := h
  have hpos := length_pos_of_ne ht
  have hlen : x.normalized.length = blen m := by rw [hnorm, length_encStr]
  have hle : blen (a ++ t) ≤ blen m := by rw [hm, blen_append _ b]; omega
  have hat : blen (a ++ t) = blen a + blen t := blen_append _ _
  have hum : blen (u ++ m) = blen u + blen m := blen_append _ _
  have hal : x.aligns.length = blen m := by rw [hso.lenA]; omega
  obtain ⟨p1, q1, h1, h2, h3, h4⟩ := hso.aligns (blen a) (by omega)
  obtain ⟨p2, q2, k1, k2, k3, k4⟩ := hso.aligns (blen (a ++ t) - 1) (by omega)
  have hs : s = (u ++ a) ++ t ++ (b ++ v) := by rw [hv, hm]; simp
  rw [newNStr_aligns, hs] at h2 k2
  obtain ⟨r1, e1, f1⟩ := byteRanges_first (u ++ a) t (b ++ v) ht
  obtain ⟨r2, e2, f2⟩ := byteRanges_last (u ++ a) t (b ++ v) ht
  rw [blen_append u a] at e1 f1
  rw [h2] at e1
  rw [show blen u + (blen (a ++ t) - 1) = blen (u ++ a ++ t) - 1 by
    rw [List.append_assoc, blen_append u]; omega] at k2
  rw [k2] at e2
  cases e1
  cases e2
  have hz : (newNStr (encStr s)).shift = 0 := rfl
  rw [hz] at h3 k4
  have hconv : x.convert ⟨(blen a : Int), ((blen (a ++ t) : Nat) : Int), .normalized⟩ =
      .ok (some ⟨p1.1, p2.2, .original⟩) := by
    unfold NStr.convert
    simp only [hlen, full_eq _ hle]
    rw [if_neg (by omega), if_neg (by omega), slc_ok (by omega) (by omega) (by omega)]
    simp only [Res.bind_ok, Int.toNat_natCast]
    rw [expand_seg (by omega) (by omega)]
    rw [List.getElem?_eq_getElem (by omega)] at h1 k1
    rw [Option.some.inj h1, Option.some.inj k1]
  unfold origOffsets
  rw [hconv]
  simp only [Res.bind_ok]
  rw [← blen_append] at f1
  congr 2 <;> omega

/-- C46 (byte offsets): a token of an unchanged part of the text gets the place of its characters
in the original text; the original text at that place is the token's part. -/
theorem C46_byte_offsets {s u m : Str} {x : NStr} (h : PartOf s u m x) (t : Token) (a w b : Str)
    (hm : m = a ++ w ++ b) (hw : w ≠ []) (ht : t.offsets = ((blen a : Int), ((blen (a ++ w) : Nat) : Int)))
    (word : Int) :
    rowsOfTokens (charMap .byte (encStr s)) x word [t] =
      .ok [⟨t, (((blen (u ++ a) : Nat) : Int), ((blen (u ++ a ++ w) : Nat) : Int)), word⟩] ∧
    cutOut (encStr s) (blen (u ++ a), blen (u ++ a ++ w)) = encStr w := by
  refine ⟨?_, ?_⟩
  · simp only [rowsOfTokens, ht, origOffsets_part h a w b hm hw, Res.bind_ok, charMap, charOffsets,
      List.lookup]
  · obtain ⟨⟨v, hv⟩, _⟩ := h
    rw [hv, hm, show u ++ (a ++ w ++ b) ++ v = (u ++ a) ++ w ++ (b ++ v) by simp]
    exact cutOut_enc _ _ _

theorem lookup_block (base k n : Nat) (m : List (Int × Nat)) (i : Int) :
    (((List.range n).map (fun j => (((base + j : Nat) : Int), k))).reverse ++ m).lookup i =
      if (base : Int) ≤ i ∧ i < (base + n : Nat) then some k else m.lookup i := by
  induction n with
  | zero => simp; omega
  | succ n ih =>
    rw [List.range_succ, List.map_append, List.reverse_append]
    simp only [List.map_cons, List.map_nil, List.reverse_cons, List.reverse_nil, List.nil_append,
      List.cons_append, List.lookup_cons]
    by_cases h : i = ((base + n : Nat) : Int)
    · subst h
      rw [if_pos (by omega)]
      simp
    · rw [show (i == ((base + n : Nat) : Int)) = false by simpa using h, ih]
      by_cases h2 : (base : Int) ≤ i ∧ i < ((base + n : Nat) : Int)
      · rw [if_pos h2, if_pos (by omega)]
      · rw [if_neg h2, if_neg (by omega)]

theorem charMapLoop_lookup (s : Str) : ∀ (base k : Nat) (m : List (Int × Nat)) (i : Int),
    (charMapLoop (s.map (fun c => (some c, String.utf8EncodeChar c))) base k m).lookup i =
      if (base : Int) ≤ i ∧ i < (base + blen s : Nat) then
        ((b2cFrom s k)[(i - base).toNat]?) else m.lookup i := by
  induction s with
  | nil => intro base k m i; simp [charMapLoop]; omega
  | cons c s ih =>
    intro base k m i
    rw [List.map_cons, charMapLoop]
    simp only [String.length_utf8EncodeChar, runeOf, Option.getD_some]
    rw [ih, lookup_block, blen_cons, b2cFrom]
    by_cases h1 : ((base + c.utf8Size : Nat) : Int) ≤ i ∧ i < ((base + c.utf8Size + blen s : Nat) : Int)
    · rw [if_pos h1, if_pos (by omega), List.getElem?_append_right (by simp; omega), List.length_replicate]
      congr 1
      omega
    · rw [if_neg h1]
      by_cases h2 : (base : Int) ≤ i ∧ i < ((base + c.utf8Size : Nat) : Int)
      · rw [if_pos h2, if_pos (by omega), List.getElem?_append_left (by simp; omega)]
        rw [List.getElem?_replicate, if_pos (by omega)]
      · rw [if_neg h2, if_neg (by omega)]

theorem charMap_lookup (s : Str) (i : Int) :
    (charMap .char (encStr s)).lookup i = if 0 ≤ i ∧ i < blen s then (b2cFrom s 0)[i.toNat]? else none := by
  unfold charMap
  dsimp only
  rw [explode_encStr, charMapLoop_lookup]
  simp [List.lookup]

theorem charMap_boundary (u : Str) (c : Char) (v : Str) :
    (charMap .char (encStr (u ++ c :: v))).lookup (blen u : Int) = some u.length := by
  have hp := c.utf8Size_pos
  have := b2cGet_inside u c v 0 hp
  rw [charMap_lookup, if_pos (by rw [blen_append, blen_cons]; omega)]
  unfold b2cGet b2c at this
  rw [if_neg (by omega), runes_encStr, Nat.add_zero] at this
  exact this

/-- C46 (character offsets): a token that does not end at the end of the text gets the numbers of
characters before its start and before its end. -/
theorem C46_char_offsets_partial {s u m : Str} {x : NStr} (h : PartOf s u m x) (t : Token) (a w b : Str)
    (hm : m = a ++ w ++ b) (hw : w ≠ []) (ht : t.offsets = ((blen a : Int), ((blen (a ++ w) : Nat) : Int)))
    (word : Int) (hend : u ++ a ++ w ≠ s) :
    rowsOfTokens (charMap .char (encStr s)) x word [t] =
      .ok [⟨t, ((((u ++ a).length : Nat) : Int), (((u ++ a ++ w).length : Nat) : Int)), word⟩] := by
  obtain ⟨c, w', rfl⟩ : ∃ c w', w = c :: w' := by
    cases w with
    | nil => exact absurd rfl hw
    | cons c w' => exact ⟨c, w', rfl⟩
  have ho := origOffsets_part h a (c :: w') b hm hw
  obtain ⟨⟨v, hv⟩, _⟩ := h
  have hs : s = (u ++ a) ++ c :: (w' ++ (b ++ v)) := by rw [hv, hm]; simp
  have hs2 : s = (u ++ a ++ c :: w') ++ (b ++ v) := by rw [hs]; simp
  have hbv : b ++ v ≠ [] := by
    intro h0
    rw [h0, List.append_nil] at hs2
    exact hend hs2.symm
  obtain ⟨d, z, hz⟩ : ∃ d z, b ++ v = d :: z := by
    cases hbz : b ++ v with
    | nil => exact absurd hbz hbv
    | cons d z => exact ⟨d, z, rfl⟩
  have e1 := charMap_boundary (u ++ a) c (w' ++ (b ++ v))
  have e2 := charMap_boundary (u ++ a ++ c :: w') d z
  rw [← hs] at e1
  rw [← hz, ← hs2] at e2
  simp only [rowsOfTokens, ht, ho, Res.bind_ok, charOffsets, e1, e2]

/-- C46 fails for character offsets at the end of the text: every token that ends there gets an
end that is one character short. -/
theorem C46_char_end_violated {s u m : Str} {x : NStr} (h : PartOf s u m x) (t : Token) (a w : Str)
    (hm : m = a ++ w) (hw : w ≠ []) (ht : t.offsets = ((blen a : Int), ((blen (a ++ w) : Nat) : Int)))
    (word : Int) (hend : u ++ a ++ w = s) :
    rowsOfTokens (charMap .char (encStr s)) x word [t] =
      .ok [⟨t, ((((u ++ a).length : Nat) : Int), (s.length : Int) - 1), word⟩] := by
  have ho := origOffsets_part h a w [] (by simpa using hm) hw
  obtain ⟨c, w', hc⟩ : ∃ c w', w = c :: w' := by
    cases w with
    | nil => exact absurd rfl hw
    | cons c w' => exact ⟨c, w', rfl⟩
  obtain ⟨y, d, hy⟩ : ∃ y d, s = y ++ [d] := by
    rcases List.eq_nil_or_concat s with h0 | ⟨y, d, h0⟩
    · rw [h0] at hend; simp [hw] at hend
    · exact ⟨y, d, by simp [h0]⟩
  have e1 := charMap_boundary (u ++ a) c w'
  rw [← hc, hend] at e1
  have e2 : (charMap .char (encStr s)).lookup ((blen s : Nat) : Int) = none := by
    rw [charMap_lookup, if_neg (by omega)]
  have hd := d.utf8Size_pos
  have hbs : blen s = blen y + d.utf8Size := by rw [hy, blen_append]; simp
  have e3 : (charMap .char (encStr s)).lookup (((blen s : Nat) : Int) - 1) = some y.length := by
    have := b2cGet_inside y d [] (d.utf8Size - 1) (by omega)
    rw [← hy] at this
    unfold b2cGet b2c at this
    rw [if_neg (by omega), runes_encStr] at this
    rw [charMap_lookup, if_pos (by omega), ← this]
    congr 1
    omega
  have hl : s.length = y.length + 1 := by rw [hy]; simp
  simp only [rowsOfTokens, ht, ho, Res.bind_ok, charOffsets, hend, e1, e2, e3]
  congr 4
  omega

/-! A concrete case: the text "éa b", its part "éa" as a split with the tokens "é" and "a". -/

theorem exPart : ∃ x, (newNStr (encStr "éa b".toList)).slice ⟨0, 3, .normalized⟩ = .ok (some x) ∧
    PartOf "éa b".toList [] "éa".toList x := by
  obtain ⟨x, h1, _, h3, h4⟩ := C44_slice (newNStr_wf "éa b".toList) rfl [] "éa".toList " b".toList
    (by decide) (by decide)
  refine ⟨x, ?_, ⟨" b".toList, by decide⟩, h3, h4⟩
  have e : blen ([] ++ "éa".toList) = 3 := by decide +kernel
  rw [e] at h1
  exact h1

example : okAnd ((newNStr (encStr "éa b".toList)).slice ⟨0, 3, .normalized⟩) (fun x =>
    okAnd (PTS.intoEncoding ⟨encStr "éa b".toList,
      [⟨x.getD (newNStr []), some [⟨5, "é".toList, (0, 2)⟩, ⟨6, "a".toList, (2, 3)⟩]⟩]⟩ 0 (-1) .char)
      (fun e => e.offsets == [(0, 1), (1, 2)] && e.words == [0, 0])) = true := by decide +kernel

end Tok.PreTok
