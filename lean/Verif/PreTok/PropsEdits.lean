import Verif.Norm.RangeOf
import Verif.Norm.Ident
import Verif.PreTok.Prefix

/-!
# C113: reading parts of a normalized string, and its editing methods
-/

namespace Tok.PreTok

open Tok.Norm

/-! ### Parts -/

theorem blocks_ranges {x : NStr} {bs : List (Str × Str)} (h : Blocks x bs) (as ws zs : List (Str × Str))
    (hb : bs = as ++ ws ++ zs) (hw : ws ≠ []) :
    x.range ⟨(blen (lefts as) : Nat), (blen (lefts (as ++ ws)) : Nat), .original⟩ = .ok (encStr (rights ws)) ∧
    x.rangeOriginal ⟨(blen (rights as) : Nat), (blen (rights (as ++ ws)) : Nat), .normalized⟩ = .ok (encStr (lefts ws)) ∧
    x.range ⟨(blen (rights as) : Nat), (blen (rights (as ++ ws)) : Nat), .normalized⟩ = .ok (encStr (rights ws)) ∧
    x.rangeOriginal ⟨(blen (lefts as) : Nat), (blen (lefts (as ++ ws)) : Nat), .original⟩ = .ok (encStr (lefts ws)) := by
  have hne := h.ne
  have hnew : ∀ b ∈ ws, b.1 ≠ [] ∧ b.2 ≠ [] := fun b hb' => hne b (by rw [hb]; simp [hb'])
  obtain ⟨hwl, hwr⟩ := lefts_pos hnew hw
  have hposl := length_pos_of_ne hwl
  have hposr := length_pos_of_ne hwr
  have hab : blen (rights (as ++ ws)) = blen (rights as) + blen (rights ws) := by rw [rights_append, blen_append]
  have habl : blen (lefts (as ++ ws)) = blen (lefts as) + blen (lefts ws) := by rw [lefts_append, blen_append]
  have hler : blen (rights (as ++ ws)) ≤ blen (rights bs) := by rw [hb, rights_append _ zs, blen_append]; omega
  have hlel : blen (lefts (as ++ ws)) ≤ blen (lefts bs) := by rw [hb, lefts_append _ zs, blen_append]; omega
  have hlen : x.normalized.length = blen (rights bs) := by rw [h.text, length_encStr]
  have hlo : x.original.length = blen (lefts bs) := by rw [h.original, length_encStr]
  have hla : x.aligns.length = blen (rights bs) := by rw [h.aligns, length_alignsOf]
  have hlO : x.alignsO.length = blen (lefts bs) := by rw [h.alignsO, length_alignsOf, rights_swap]
  have hcutA : (x.aligns.take (blen (rights (as ++ ws)))).drop (blen (rights as)) = alignsOf ws (blen (lefts as)) := by
    rw [h.aligns, hb, alignsOf_cut]
  have hcutO : (x.alignsO.take (blen (lefts (as ++ ws)))).drop (blen (lefts as)) =
      alignsOf (ws.map Prod.swap) (blen (rights as)) := by
    have := alignsOf_cut (as.map Prod.swap) (ws.map Prod.swap) (zs.map Prod.swap)
    rw [← List.map_append, ← List.map_append, rights_swap, rights_swap, lefts_swap] at this
    rw [h.alignsO, hb, this]
  have hsa : slc x.aligns ((blen (rights as) : Nat) : Int) ((blen (rights (as ++ ws)) : Nat) : Int) =
      .ok (alignsOf ws (blen (lefts as))) := by
    rw [slc_ok (by omega) (by omega) (by omega)]
    simp only [Int.toNat_natCast, hcutA]
  have hso : slc x.alignsO ((blen (lefts as) : Nat) : Int) ((blen (lefts (as ++ ws)) : Nat) : Int) =
      .ok (alignsOf (ws.map Prod.swap) (blen (rights as))) := by
    rw [slc_ok (by omega) (by omega) (by omega)]
    simp only [Int.toNat_natCast, hcutO]
  have hcn : slc x.normalized ((blen (rights as) : Nat) : Int) ((blen (rights (as ++ ws)) : Nat) : Int) =
      .ok (encStr (rights ws)) := by
    rw [slc_ok (by omega) (by omega) (by omega), h.text]
    simp only [Int.toNat_natCast]
    have := cutOut_enc (rights as) (rights ws) (rights zs)
    rw [hb, rights_append _ zs, rights_append as ws]
    rw [← this]; rfl
  have hco : slc x.original ((blen (lefts as) : Nat) : Int) ((blen (lefts (as ++ ws)) : Nat) : Int) =
      .ok (encStr (lefts ws)) := by
    rw [slc_ok (by omega) (by omega) (by omega), h.original]
    simp only [Int.toNat_natCast]
    have := cutOut_enc (lefts as) (lefts ws) (lefts zs)
    rw [hb, lefts_append _ zs, lefts_append as ws]
    rw [← this]; rfl
  have hconv : x.convert ⟨(blen (rights as) : Nat), (blen (rights (as ++ ws)) : Nat), .normalized⟩ =
      .ok (some ⟨(blen (lefts as) : Nat), (blen (lefts (as ++ ws)) : Nat), .original⟩) := by
    unfold NStr.convert
    simp only [hlen, full_eq _ hler]
    rw [if_neg (by omega), if_neg (by omega), hsa]
    simp only [Res.bind_ok, expand_alignsOf hnew hw, habl]
  have hconvO : x.convert ⟨(blen (lefts as) : Nat), (blen (lefts (as ++ ws)) : Nat), .original⟩ =
      .ok (some ⟨(blen (rights as) : Nat), (blen (rights (as ++ ws)) : Nat), .normalized⟩) := by
    unfold NStr.convert
    simp only [hlo, full_eq _ hlel]
    rw [if_neg (by omega), if_neg (by omega), hso]
    simp only [Res.bind_ok, expand_alignsOf (swap_ne hnew) (by simpa using hw), hab, lefts_swap]
  refine ⟨?_, ?_, ?_, ?_⟩
  · simp only [NStr.range, hconvO, Res.bind_ok, hcn]
  · simp only [NStr.rangeOriginal, hconv, Res.bind_ok, hco]
  · simp only [NStr.range, hlen, full_eq _ hler, hcn]
  · simp only [NStr.rangeOriginal, hlo, full_eq _ hlel, hco]

/-- **C113.** `Range` and `RangeOriginal` of a new string, for any part `m` of whole characters: both
give `m`, whichever string the range is counted on. -/
theorem C113_ranges_new (u m v : Str) (hm : m ≠ []) (on : IndexOn) :
    (newNStr (encStr (u ++ m ++ v))).range ⟨(blen u : Nat), (blen (u ++ m) : Nat), on⟩ = .ok (encStr m) ∧
    (newNStr (encStr (u ++ m ++ v))).rangeOriginal ⟨(blen u : Nat), (blen (u ++ m) : Nat), on⟩ = .ok (encStr m) := by
  have := blocks_ranges (fresh_new (u ++ m ++ v)).toBlocks (singles u) (singles m) (singles v)
    (by rw [singles_append, singles_append]) (by
      cases m with
      | nil => exact absurd rfl hm
      | cons c m => simp [singles])
  rw [← singles_append] at this
  simp only [lefts_singles, rights_singles] at this
  obtain ⟨a, b, c, d⟩ := this
  cases on with
  | original => exact ⟨a, d⟩
  | normalized => exact ⟨c, b⟩

/-- **C113.** After a prefix `r` was put before the text `c :: t` with `Prepend`, where the two strings
differ: the first character of the original stands for the prefix and itself, and what follows is
found in the original from its range in the normalized string, and the other way round. -/
theorem C113_ranges_prepend_partial (c r : Char) (t u m v : Str) (hc : c ≠ '\x00') (hm : m ≠ []) (ht : t = u ++ m ++ v) :
    ∃ y, (newNStr (encStr (c :: t))).prepend (encStr [r]) = .ok y ∧ y.normalized = encStr (r :: c :: t) ∧
      y.range ⟨0, (blen [c] : Nat), .original⟩ = .ok (encStr [r, c]) ∧
      y.rangeOriginal ⟨0, (blen [r, c] : Nat), .normalized⟩ = .ok (encStr [c]) ∧
      y.range ⟨(blen (c :: u) : Nat), (blen (c :: u ++ m) : Nat), .original⟩ = .ok (encStr m) ∧
      y.rangeOriginal ⟨(blen (r :: c :: u) : Nat), (blen (r :: c :: u ++ m) : Nat), .normalized⟩ = .ok (encStr m) := by
  obtain ⟨y, h1, h2, _⟩ := prepend_fresh (fresh_new (c :: t)) hc r
  have hs : singles m ≠ [] := by
    cases m with
    | nil => exact absurd rfl hm
    | cons c m => simp [singles]
  have k1 := blocks_ranges h2 [] [([c], [r, c])] (singles t) rfl (by simp)
  have k2 := blocks_ranges h2 (([c], [r, c]) :: singles u) (singles m) (singles v)
    (by rw [ht, singles_append, singles_append]; rfl) hs
  have hn := h2.text
  rw [rights_cons, rights_singles] at hn
  refine ⟨y, h1, hn, ?_, ?_, ?_, ?_⟩
  · have := k1.1
    simpa [lefts, rights] using this
  · have := k1.2.1
    simpa [lefts, rights] using this
  · have := k2.1
    rw [List.cons_append, lefts_cons, lefts_cons, ← singles_append, lefts_singles, lefts_singles, rights_singles] at this
    simpa using this
  · have := k2.2.1
    rw [List.cons_append, rights_cons, rights_cons, ← singles_append, lefts_singles, rights_singles, rights_singles] at this
    simpa using this

/-- **C113.** `RangeOf` gives the characters from `a` to `b`, the text's end if `b` lies behind it. -/
theorem C113_rangeOf (s : Str) (a b : Nat) : rangeOf (encStr s) [(a : Int), (b : Int)] =
    .ok (encStr ((s.take b).drop a)) := by
  unfold rangeOf
  simp only [runes_encStr, List.headD_cons, List.getLast?_cons_cons, List.getLast?_singleton]
  by_cases hb : (b : Int) > s.length
  · rw [if_pos hb, List.take_of_length_le (i := b) (by omega)]
    by_cases ha : a < s.length
    · rw [if_neg (by omega)]; simp
    · rw [if_pos (by omega), List.drop_of_length_le (by omega)]; rfl
  · rw [if_neg hb]
    by_cases ha : a < b
    · rw [if_neg (by omega)]; simp
    · rw [if_pos (by omega), List.drop_of_length_le (by rw [List.length_take]; omega)]; rfl

/-- **C113, violated.** Without a range `RangeOf` crashes, although it has a default for its start. -/
theorem C113_rangeOf_violated (s : List UInt8) : rangeOf s [] = .panic := rfl

/-! ### Editing -/

theorem panic_bind {α β : Type} (f : α → Res β) : (Res.panic >>= f) = Res.panic := rfl

/-- **C113.** `Clear` empties a text whose characters have one byte each, and keeps the original. -/
theorem C113_clear_partial (s : Str) (h : ∀ c ∈ s, c.utf8Size = 1) :
    ∃ n', (newNStr (encStr s)).clear = .ok n' ∧ n'.normalized = [] ∧ n'.original = encStr s ∧ n'.aligns = [] := by
  have hl : blen s = s.length := by
    induction s with
    | nil => rfl
    | cons c s ih =>
      rw [blen_cons, h c (by simp), ih (fun c hc => h c (by simp [hc])), List.length_cons]; omega
  have hn : (newNStr (encStr s)).normalized.length = s.length := by
    rw [← hl]; simp [newNStr, length_encStr]
  unfold NStr.clear
  rw [hn]
  obtain ⟨n', h1⟩ := C41_removed_ok_partial s [] s.length (by simp [usesAll]) (by simp)
  obtain ⟨e1, e2, e3, _⟩ := C41_removed_partial s [] s.length (by simp [usesAll]) n' h1
  have e4 : n'.normalized = [] := by rw [e1]; rfl
  rw [e4] at e3
  exact ⟨n', h1, e4, e2, List.length_eq_zero_iff.mp e3⟩

/-- **C113, violated.** `Clear` asks for as many characters as there are bytes, and ends the process on
any text with a character of several bytes. -/
theorem C113_clear_violated (s : Str) (c : Char) (hc : c ∈ s) (h : 1 < c.utf8Size) :
    (newNStr (encStr s)).clear = .panic := by
  have hl : s.length < blen s := by
    have key : ∀ s : Str, s.length ≤ blen s := length_le_blen
    induction s with
    | nil => cases hc
    | cons d s ih =>
      have := d.utf8Size_pos
      rw [blen_cons, List.length_cons]
      rcases List.mem_cons.mp hc with rfl | hc
      · have := key s; omega
      · have := ih hc; omega
  have hn : (newNStr (encStr s)).normalized = encStr s := rfl
  have hw := newNStr_wf s
  unfold NStr.clear
  rw [transform_eq (newNStr_cover s) hw.lenA]
  unfold NStr.transformRange
  have hfull : (⟨((0 : Nat) : Int), ((newNStr (encStr s)).normalized.length : Int), .normalized⟩ : Rng).full
      (newNStr (encStr s)).normalized.length = ⟨0, ((newNStr (encStr s)).normalized.length : Int), .normalized⟩ := by
    simp [Rng.full]
  simp only [hfull, Res.bind_ok, hw.lenA]
  rw [if_neg (by omega), slc_all]
  simp only [Res.bind_ok, hn, runes_encStr, length_encStr]
  rw [if_pos (by omega)]

/-- **C113, violated.** `Map` does not use its function: the text stays as it was. -/
theorem C113_map_violated (s : Str) (fn : Char → Char) :
    ∃ n', (newNStr (encStr s)).map fn = .ok n' ∧ n'.normalized = encStr s := by
  obtain ⟨n', h1, h2, _⟩ := C41_transform_partial s (s.map (fun c => ([c], 0))) (by rw [usesAll_ident]; omega)
  rw [flatten_ident] at h2
  refine ⟨n', ?_, h2⟩
  unfold NStr.map
  have : (newNStr (encStr s)).normalized = encStr s := rfl
  rw [this, runes_encStr]
  exact h1

/-- **C113.** `ForEach` applies the function to every character, and changes nothing else. If the
characters keep their sizes, each is aligned with the character it was made of. -/
theorem C113_forEach_partial (s : Str) (fn : Char → Char) :
    ((newNStr (encStr s)).forEach fn).normalized = encStr (s.map fn) ∧
    ((newNStr (encStr s)).forEach fn).original = encStr s ∧
    ((∀ c ∈ s, (fn c).utf8Size = c.utf8Size) → ∀ (u : Str) (c : Char) (v : Str), s = u ++ c :: v → ∀ j < c.utf8Size,
      s.map fn = u.map fn ++ fn c :: v.map fn ∧ blen (u.map fn) = blen u ∧
      ((newNStr (encStr s)).forEach fn).aligns[blen (u.map fn) + j]? =
        some ((blen u : Int), ((blen u + c.utf8Size : Nat) : Int))) := by
  have hn : (newNStr (encStr s)).normalized = encStr s := rfl
  refine ⟨?_, rfl, ?_⟩
  · unfold NStr.forEach
    rw [hn, runes_encStr]
  · intro hsz u c v hs j hj
    have hu : blen (u.map fn) = blen u := by
      have hu : ∀ c ∈ u, (fn c).utf8Size = c.utf8Size := fun c hc => hsz c (by rw [hs]; simp [hc])
      clear hs
      induction u with
      | nil => rfl
      | cons d u ih =>
        rw [List.map_cons, blen_cons, blen_cons, hu d (by simp), ih (fun c hc => hu c (by simp [hc]))]
    refine ⟨by rw [hs]; simp, hu, ?_⟩
    rw [hu]
    have e : ((newNStr (encStr s)).forEach fn).aligns = (newNStr (encStr s)).aligns := rfl
    rw [e, newNStr_aligns, hs]
    exact byteRanges_at u c v j hj

/-- **C113, violated.** If the text gets longer or shorter, `ForEach` leaves as many alignments as there
were bytes before: they are no longer one per byte. -/
theorem C113_forEach_violated (s : Str) (fn : Char → Char) (h : blen (s.map fn) ≠ blen s) :
    ((newNStr (encStr s)).forEach fn).aligns.length ≠ ((newNStr (encStr s)).forEach fn).normalized.length := by
  rw [(C113_forEach_partial s fn).1, length_encStr]
  have e : ((newNStr (encStr s)).forEach fn).aligns = (newNStr (encStr s)).aligns := rfl
  rw [e, newNStr_aligns, length_byteRanges]
  exact fun h' => h h'.symm

/-! ### Examples -/

example : rangeOf (encStr "héllo".toList) [1, 3] = .ok (encStr "él".toList) := by decide +kernel
example : rangeOf (encStr "héllo".toList) [3, 30] = .ok (encStr "lo".toList) := by decide +kernel
example : (∀ c ∈ "ab".toList, c.utf8Size = 1) ∧ 'é' ∈ "aé".toList ∧ 1 < 'é'.utf8Size := by decide
example : ((newNStr (encStr "aß".toList)).forEach (fun c => if c = 'ß' then 's' else c)).normalized = encStr "as".toList ∧
    blen ("aß".toList.map (fun c => if c = 'ß' then 's' else c)) ≠ blen "aß".toList := by decide +kernel

end Tok.PreTok
