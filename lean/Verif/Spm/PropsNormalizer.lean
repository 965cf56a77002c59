import Verif.Spm.Normalizer

/-! C59, C60. -/

namespace Tok.Spm

open Tok.Norm

/-! ### NormalizeString -/

/-- What a character becomes outside of short mapped graphemes. -/
def charText (tr : List UInt8 → Str) (mn : Str → Str) (r : Char) : Str :=
  if mn (tr (encStr [r])) ≠ [] then mn (tr (encStr [r])) else [r]

/-- What a grapheme becomes. -/
def graphemeText (tr : List UInt8 → Str) (mn : Str → Str) (g : Str) : Str :=
  if blen g < 6 ∧ tr (encStr g) ≠ [] then tr (encStr g) else (mn g).flatMap (charText tr mn)

theorem normalizeString_acc (tr : List UInt8 → Str) (mn : Str → Str) (gs : List Str) (chars : Str) :
    normalizeString tr mn gs chars = chars ++ normalizeString tr mn gs [] := by
  induction gs generalizing chars with
  | nil => simp [normalizeString]
  | cons g gs ih =>
    rw [normalizeString, normalizeString]
    split
    · simp
    · rw [ih, ih ([] ++ _)]; simp

/-- C59. If no short grapheme but the last is mapped, the result is that of all graphemes in turn. -/
theorem C59_whole_text_partial (tr : List UInt8 → Str) (mn : Str → Str) (gs : List Str) (g : Str)
    (h : ∀ x ∈ gs, ¬ (blen x < 6 ∧ tr (encStr x) ≠ [])) :
    normalizeString tr mn (gs ++ [g]) [] = (gs ++ [g]).flatMap (graphemeText tr mn) := by
  induction gs with
  | nil =>
    simp only [List.nil_append, List.flatMap_cons, List.flatMap_nil, List.append_nil]
    rw [normalizeString, graphemeText]
    split
    · rfl
    · simp only [normalizeString, List.nil_append]; rfl
  | cons x gs ih =>
    rw [List.cons_append, normalizeString, if_neg (h x List.mem_cons_self), normalizeString_acc,
      ih (fun y hy => h y (List.mem_cons_of_mem _ hy)), List.flatMap_cons, graphemeText,
      if_neg (h x List.mem_cons_self), List.nil_append]
    rfl

/-- C59 fails. Whatever follows the first short grapheme that is mapped is lost. -/
theorem C59_whole_text_violated (tr : List UInt8 → Str) (mn : Str → Str) (pre : List Str) (g : Str)
    (post : List Str) (hg : blen g < 6 ∧ tr (encStr g) ≠ []) :
    normalizeString tr mn (pre ++ g :: post) [] = normalizeString tr mn (pre ++ [g]) [] := by
  suffices h : ∀ (pre : List Str) (chars : Str),
      normalizeString tr mn (pre ++ g :: post) chars = normalizeString tr mn (pre ++ [g]) chars from h pre []
  intro pre
  induction pre with
  | nil => intro chars; simp only [List.nil_append]; rw [normalizeString, normalizeString, if_pos hg, if_pos hg]
  | cons x pre ih =>
    intro chars
    rw [List.cons_append, List.cons_append, normalizeString, normalizeString]
    split
    · rfl
    · exact ih _

/-- "ﬁn" with the ligature mapped: the n is lost. -/
example : normalizeString (fun b => if b = encStr ['ﬁ'] then "fi".toList else []) id [['ﬁ'], ['n']] [] =
    "fi".toList := by decide +kernel

/-! ### The normalizer -/

theorem replaceItems_text (ts : List (Str × Int)) (old : Nat) (new : Str) :
    ((replaceItems ts old new).map (·.1)).flatten = (ts.map (·.1)).flatten ++ new := by
  have h1 : ∀ new : Str, ((new.map (fun c => ([c], (0 : Int)))).map (·.1)).flatten = new := by
    intro new
    induction new with
    | nil => rfl
    | cons c new ih => simp only [List.map_cons, List.flatten_cons, ih]; rfl
  unfold replaceItems
  dsimp only
  split
  · rw [List.map_map]
    have : ((fun x : Str × Int => x.1) ∘ fun t : Str × Int => (t.1, (1 : Int))) = (fun x => x.1) := rfl
    rw [this, List.map_append, List.flatten_append, h1]
  · split
    · split
      · next t ht =>
        have hd : (ts ++ new.map (fun c => ([c], (0 : Int)))).dropLast ++ [t] = ts ++ new.map (fun c => ([c], (0 : Int))) :=
          by
          obtain ⟨l, hl⟩ := List.getLast?_eq_some_iff.mp ht
          rw [hl, List.dropLast_concat]
        have : ∀ (l : List (Str × Int)) (x : Str) (a b : Int),
            ((l ++ [(x, a)]).map (·.1)).flatten = ((l ++ [(x, b)]).map (·.1)).flatten := by
          intro l x a b; simp
        rw [this _ t.1 _ t.2]
        have e : (t.1, t.2) = t := rfl
        rw [e, hd, List.map_append, List.flatten_append, h1]
      · rw [List.map_append, List.flatten_append, h1]
    · rw [List.map_append, List.flatten_append, h1]

/-- What a character becomes. -/
def mapped (tr : List UInt8 → Str) (c : Char) : Str := if tr (encStr [c]) ≠ [] then tr (encStr [c]) else [c]

theorem utf8Size_lt_six (c : Char) : blen [c] < 6 := by
  have := c.utf8Size_le_four
  simp; omega

theorem graphemeLoop_text (tr : List UInt8 → Str) (mn : Str → Str) (s : Str)
    (hmn : ∀ c ∈ s, mn [c] = [c]) (hmn0 : mn [] = []) :
    ∀ (st : List (Str × Int) × Bool),
      ((graphemeLoop tr mn (s.map ([·])) st).1.map (·.1)).flatten = (st.1.map (·.1)).flatten ++ s.flatMap (mapped tr) ∧
      (graphemeLoop tr mn (s.map ([·])) st).2 = (st.2 || s.any (fun c => tr (encStr [c]) ≠ [])) := by
  induction s with
  | nil => intro st; simp [graphemeLoop]
  | cons c s ih =>
    intro st
    have ih := ih (fun x hx => hmn x (List.mem_cons_of_mem _ hx))
    rw [List.map_cons, graphemeLoop]
    by_cases ht : tr (encStr [c]) ≠ []
    · rw [if_pos ⟨utf8Size_lt_six c, ht⟩]
      obtain ⟨h1, h2⟩ := ih (replaceItems st.1 [c].length (tr (encStr [c])), true)
      refine ⟨?_, ?_⟩
      · rw [h1, replaceItems_text, List.flatMap_cons]
        have : mapped tr c = tr (encStr [c]) := by unfold mapped; rw [if_pos ht]
        rw [this, List.append_assoc]
      · rw [h2, List.any_cons, decide_eq_true ht]; simp only [Bool.true_or, Bool.or_true]
    · rw [if_neg (fun h => ht h.2), hmn c List.mem_cons_self]
      have ht' : tr (encStr [c]) = [] := by simpa using ht
      have hpart : (encStr [c]).take c.utf8Size = encStr [c] := by
        apply List.take_of_length_le
        rw [length_encStr]; simp
      have hr : runeLoop tr mn [c] [c] st = (st.1 ++ [([c], 0)], st.2) := by
        rw [runeLoop, runeLoop]
        simp only [hpart, ht', hmn0, ne_eq, not_true_eq_false, if_false]
      rw [hr]
      obtain ⟨h1, h2⟩ := ih (st.1 ++ [([c], 0)], st.2)
      refine ⟨?_, ?_⟩
      · rw [h1, List.flatMap_cons]
        have : mapped tr c = [c] := by unfold mapped; rw [if_neg ht]
        rw [this]; simp
      · rw [h2, List.any_cons, decide_eq_false ht, Bool.false_or]

theorem flatMap_mapped_self (tr : List UInt8 → Str) (s : Str) (h : s.any (fun c => tr (encStr [c]) ≠ []) = false) :
    s.flatMap (mapped tr) = s := by
  induction s with
  | nil => rfl
  | cons c s ih =>
    rw [List.any_cons, Bool.or_eq_false_iff] at h
    rw [List.flatMap_cons, ih h.2]
    have : tr (encStr [c]) = [] := by simpa using h.1
    unfold mapped
    rw [this]; rfl

/-- C60, text. On a fresh string whose graphemes are single characters, other than non-spacing
marks, the text comes out with every mapped character replaced, if the call succeeds. Alignments
are missing (see `C60_alignment_violated`), as are graphemes of several characters
(`C60_grapheme_violated`). -/
theorem C60_text_partial (tr : List UInt8 → Str) (mn : Str → Str) (s : Str) (hmn : ∀ c ∈ s, mn [c] = [c])
    (hmn0 : mn [] = []) (n' : NStr) (h : normalize tr mn (s.map ([·])) (newNStr (encStr s)) = .ok n') :
    n'.normalized = encStr (s.flatMap (mapped tr)) ∧ n'.original = encStr s := by
  obtain ⟨h1, h2⟩ := graphemeLoop_text tr mn s hmn hmn0
    (List.replicate (newNStr (encStr s)).normalized.length ([], 0), false)
  rw [Bool.false_or] at h2
  unfold normalize at h
  simp only [h2] at h
  have hwf := newNStr_wf s
  split at h
  · rw [transform_eq (newNStr_cover s) hwf.lenA] at h
    obtain ⟨o1, o2, _⟩ := transformRange_outcome hwf h (Nat.le_refl _)
    refine ⟨?_, o2⟩
    rw [o1, h1]
    have : ((List.replicate (newNStr (encStr s)).normalized.length (([] : Str), (0 : Int))).map (·.1)).flatten = [] := by
      rw [List.map_replicate]; simp
    rw [this]
    simp
  · next hm =>
    simp only [Res.ok.injEq] at h
    subst h
    rw [flatMap_mapped_self tr s (by simpa using hm)]
    exact ⟨rfl, rfl⟩

/-! ### Alignments -/

/-- A change with `Changes` 0 always succeeds, and takes the current or else the last alignment. -/
theorem changeStep_zero {N : Nat} {al : List (Int × Int)} (hw : Within N al) (hne : 0 < al.length) (t : Str)
    (st : TState) (hN : st.refs.length = N) :
    ∃ st', changeStep al (t, 0) st = .ok st' ∧ st'.refs.length = N ∧ st'.rest = st.rest.tail ∧
      st'.offset = st.offset + replacedSize st.rest.head? ∧
      st'.als = st.als ++ List.replicate (blen t)
        (if st.offset ≥ al.length then al[al.length - 1] else al[st.offset]?.getD (0, 0)) := by
  have hp : ∃ a, pickAlign al 0 st.offset = .ok a ∧ a ∈ al ∧
      a = (if st.offset ≥ al.length then al[al.length - 1] else al[st.offset]?.getD (0, 0)) := by
    unfold pickAlign
    rw [if_neg (by omega)]
    by_cases hi : st.offset ≥ al.length
    · rw [if_pos hi, if_pos hi, show ((al.length : Int) - 1) = ((al.length - 1 : Nat) : Int) by omega,
        idx_ok (by omega)]
      exact ⟨_, rfl, List.getElem_mem _, rfl⟩
    · rw [if_neg hi, if_neg hi, idx_ok (by omega), List.getElem?_eq_getElem (by omega)]
      exact ⟨_, rfl, List.getElem_mem _, rfl⟩
  obtain ⟨a, ha, hmem, haeq⟩ := hp
  obtain ⟨a1, a2, a3⟩ := hw a hmem
  have hok : ∃ st', changeStep al (t, 0) st = .ok st' := by
    unfold changeStep
    simp only [ha, Res.bind_ok, Int.le_refl, if_true, Int.lt_irrefl, if_false, removedSize]
    have hr : removing al st.offset 0 = .ok (0, 0) := by simp [removing]
    rw [hr]
    simp only [Res.bind_ok]
    obtain ⟨up, hu⟩ := updateO_ok 0 (blen t) ((blen t : Int) - (replacedSize st.rest.head? : Nat)) 0
      st.oShift st.cells a1 a2 (by rw [hN]; exact a3)
    rw [hu]
    simp [zeroO]
  obtain ⟨st', hst⟩ := hok
  obtain ⟨align, h1, h2, h3, h4, h5, h6⟩ := changeStep_eq hst
  rw [ha] at h1
  injection h1 with h1
  refine ⟨st', hst, by rw [h6, hN], ?_, ?_, ?_⟩
  · rw [h4]; simp
  · rw [h5]; simp [removedSize]
  · rw [h2, ← h1, haeq]

/-- Empty changes use up characters and give no alignments. -/
theorem changeLoop_blank {N : Nat} {al : List (Int × Int)} (hw : Within N al) (hne : 0 < al.length) :
    ∀ (k : Nat) (st : TState), st.refs.length = N → '\x00' ∉ st.rest → st.rest.length ≤ k →
      ∃ st', changeLoop al (List.replicate k ([], 0)) st = .ok st' ∧ st'.refs.length = N ∧ st'.rest = [] ∧
        st'.offset = st.offset + blen st.rest ∧ st'.als = st.als := by
  intro k
  induction k with
  | zero =>
    intro st hN _ hk
    have : st.rest = [] := List.length_eq_zero_iff.mp (by omega)
    exact ⟨st, rfl, hN, this, by rw [this]; simp, rfl⟩
  | succ k ih =>
    intro st hN hz hk
    obtain ⟨st1, h1, h2, h3, h4, h5⟩ := changeStep_zero hw hne [] st hN
    have hz1 : '\x00' ∉ st1.rest := by rw [h3]; exact fun hm => hz (List.mem_of_mem_tail hm)
    obtain ⟨st2, i1, i2, i3, i4, i5⟩ := ih st1 h2 hz1 (by rw [h3, List.length_tail]; omega)
    refine ⟨st2, ?_, i2, i3, ?_, ?_⟩
    · rw [List.replicate_succ, changeLoop, h1]; exact i1
    · rw [i4, h4, h3]
      cases hr : st.rest with
      | nil => simp [replacedSize]
      | cons c cs =>
        have : c ≠ '\x00' := fun e => hz (by rw [hr, e]; exact List.mem_cons_self)
        simp [replacedSize, this]; omega
    · rw [i5, h5]; simp

/-- Once the characters are used up, replacing changes take the last alignment. -/
theorem changeLoop_tail {N : Nat} {al : List (Int × Int)} (hw : Within N al) (hne : 0 < al.length) :
    ∀ (items : List (Str × Int)) (st : TState), (∀ i ∈ items, i.2 = 0) → st.refs.length = N → st.rest = [] →
      al.length ≤ st.offset →
      ∃ st', changeLoop al items st = .ok st' ∧ st'.refs.length = N ∧
        st'.als = st.als ++ List.replicate (blen (items.map (·.1)).flatten) al[al.length - 1] := by
  intro items
  induction items with
  | nil => intro st _ hN _ _; exact ⟨st, rfl, hN, by simp⟩
  | cons item items ih =>
    obtain ⟨t, ch⟩ := item
    intro st h0 hN hr ho
    have hch : ch = 0 := h0 _ List.mem_cons_self
    subst hch
    obtain ⟨st1, h1, h2, h3, h4, h5⟩ := changeStep_zero hw hne t st hN
    obtain ⟨st2, i1, i2, i3⟩ := ih st1 (fun i hi => h0 i (List.mem_cons_of_mem _ hi)) h2 (by rw [h3, hr]; rfl)
      (by rw [h4]; omega)
    refine ⟨st2, by rw [changeLoop, h1]; exact i1, i2, ?_⟩
    rw [i3, h5, if_pos ho, List.append_assoc, List.replicate_append_replicate]
    simp

theorem changeLoop_append (al : List (Int × Int)) (a b : List (Str × Int)) (st : TState) :
    changeLoop al (a ++ b) st = (changeLoop al a st >>= fun st' => changeLoop al b st') := by
  induction a generalizing st with
  | nil => rfl
  | cons i a ih =>
    rw [List.cons_append, changeLoop, changeLoop]
    cases changeStep al i st with
    | ok st' => simp only [Res.bind_ok]; exact ih st'
    | err => rfl
    | panic => rfl

/-- `Transform` with one empty change per byte in front of replacing changes. -/
theorem transform_blanks (s : Str) (hs : s ≠ []) (hz : '\x00' ∉ s) (items : List (Str × Int))
    (h0 : ∀ i ∈ items, i.2 = 0) :
    ∃ n', (newNStr (encStr s)).transform
        (List.replicate (newNStr (encStr s)).normalized.length ([], 0) ++ items) 0 = .ok n' ∧
      ∀ a ∈ n'.aligns, some a = (newNStr (encStr s)).aligns.getLast? := by
  have hwf := newNStr_wf s
  generalize hn : newNStr (encStr s) = n at hwf ⊢
  have hnorm : n.normalized = encStr s := by rw [← hn]; rfl
  have hlenN : n.normalized.length = blen s := by rw [hnorm, length_encStr]
  have hla := hwf.lenA
  have hpos : 0 < n.aligns.length := by
    rw [hla, hlenN]
    cases s with
    | nil => exact absurd rfl hs
    | cons c s => have := c.utf8Size_pos; simp; omega
  have hcov : Cover n := by rw [← hn]; exact newNStr_cover s
  rw [transform_eq hcov hla]
  obtain ⟨st1, a1, a2, a3, a4, a5⟩ := changeLoop_blank hwf.within hpos n.normalized.length
    { refs := n.refs, cells := n.cells, rest := s, offset := 0 + 0, oShift := -((0 : Nat) : Int), als := [], out := [] }
    hwf.lenO hz (by rw [hlenN]; exact length_le_blen s)
  obtain ⟨st2, b1, b2, b3⟩ := changeLoop_tail hwf.within hpos items st1 h0 a2 a3
    (by rw [a4, hla, hlenN]; simp)
  have hst : changeLoop n.aligns (List.replicate n.normalized.length ([], 0) ++ items)
      { refs := n.refs, cells := n.cells, rest := s, offset := 0 + 0, oShift := -((0 : Nat) : Int), als := [],
        out := [] } = .ok st2 := by
    rw [changeLoop_append, a1]; exact b1
  obtain ⟨tl, htl, htl2⟩ := shiftTail_ok hwf.within hwf.mono (ess := (n.normalized.length : Int)) (oShift := st2.oShift)
    (by omega) (by omega) (refs := st2.refs) b2 st2.cells
  have hfull : (⟨((0 : Nat) : Int), (n.normalized.length : Int), .normalized⟩ : Rng).full n.normalized.length =
      ⟨((0 : Nat) : Int), (n.normalized.length : Int), .normalized⟩ := by
    unfold Rng.full
    simp
  have hcs : (n.normalized.take n.normalized.length).drop 0 = encStr s := by simp [hnorm]
  unfold NStr.transformRange
  simp only [hfull, Res.bind_ok]
  rw [if_neg (by omega), slc_ok (by omega) (by omega) (by omega)]
  simp only [Res.bind_ok, Int.toNat_natCast, hcs, runes_encStr, List.take_zero, clearChars, blen_nil,
    Nat.not_lt_zero, gt_iff_lt, if_false]
  rw [hst]
  simp only [Res.bind_ok]
  rw [htl]
  simp only [Res.bind_ok]
  rw [slc_ok (by omega) (by omega) (by omega), slc_ok (by omega) (by omega) (by omega)]
  simp only [Res.bind_ok]
  rw [slc_ok (by omega) (by omega) (by omega), slc_ok (by omega) (by omega) (by omega)]
  simp only [Res.bind_ok]
  refine ⟨_, rfl, ?_⟩
  intro a ha
  simp only [b3, a5, List.nil_append, Int.toNat_natCast, List.take_zero, Int.toNat_zero, List.drop_zero] at ha
  rw [List.getLast?_eq_getElem?, List.getElem?_eq_getElem (by omega)]
  rcases List.mem_append.mp ha with ha | ha
  · rw [(List.mem_replicate.mp ha).2]
  · rw [hla] at ha; simp at ha

/-- The changes, when no replacement changes the number of characters. -/
theorem graphemeLoop_zero (tr : List UInt8 → Str) (mn : Str → Str) (s : Str)
    (hmn : ∀ c ∈ s, mn [c] = [c]) (hmn0 : mn [] = []) (hlen : ∀ c ∈ s, (tr (encStr [c])).length ≤ 1) :
    ∀ (st : List (Str × Int) × Bool), ∃ items, (graphemeLoop tr mn (s.map ([·])) st).1 = st.1 ++ items ∧
      ∀ i ∈ items, i.2 = 0 := by
  induction s with
  | nil => intro st; exact ⟨[], by simp [graphemeLoop], by simp⟩
  | cons c s ih =>
    intro st
    have ih := ih (fun x hx => hmn x (List.mem_cons_of_mem _ hx)) (fun x hx => hlen x (List.mem_cons_of_mem _ hx))
    have hl := hlen c List.mem_cons_self
    rw [List.map_cons, graphemeLoop]
    by_cases ht : tr (encStr [c]) ≠ []
    · rw [if_pos ⟨utf8Size_lt_six c, ht⟩]
      have h1 : (tr (encStr [c])).length = 1 := by
        have := List.length_pos_iff.mpr ht; omega
      have hrep : replaceItems st.1 [c].length (tr (encStr [c])) = st.1 ++ (tr (encStr [c])).map (fun c => ([c], 0)) := by
        unfold replaceItems
        dsimp only
        rw [h1]
        simp
      rw [hrep]
      obtain ⟨items, e1, e2⟩ := ih (st.1 ++ (tr (encStr [c])).map (fun c => ([c], 0)), true)
      refine ⟨(tr (encStr [c])).map (fun c => ([c], 0)) ++ items, by rw [e1, List.append_assoc], ?_⟩
      intro i hi
      rcases List.mem_append.mp hi with hi | hi
      · obtain ⟨_, _, rfl⟩ := List.mem_map.mp hi; rfl
      · exact e2 i hi
    · rw [if_neg (fun h => ht h.2), hmn c List.mem_cons_self]
      have ht' : tr (encStr [c]) = [] := by simpa using ht
      have hpart : (encStr [c]).take c.utf8Size = encStr [c] := by
        apply List.take_of_length_le
        rw [length_encStr]; simp
      have hr : runeLoop tr mn [c] [c] st = (st.1 ++ [([c], 0)], st.2) := by
        rw [runeLoop, runeLoop]
        simp only [hpart, ht', hmn0, ne_eq, not_true_eq_false, if_false]
      rw [hr]
      obtain ⟨items, e1, e2⟩ := ih (st.1 ++ [([c], 0)], st.2)
      refine ⟨([c], 0) :: items, by rw [e1]; simp, ?_⟩
      intro i hi
      rcases List.mem_cons.mp hi with rfl | hi
      · rfl
      · exact e2 i hi

/-- C60 fails for alignments. Whenever a character of a text is mapped (here: each to one
character), all of the result is aligned with the last character of the text. -/
theorem C60_alignment_violated (tr : List UInt8 → Str) (mn : Str → Str) (s : Str) (hz : '\x00' ∉ s)
    (hmn : ∀ c ∈ s, mn [c] = [c]) (hmn0 : mn [] = []) (hlen : ∀ c ∈ s, (tr (encStr [c])).length ≤ 1)
    (hmod : ∃ c ∈ s, tr (encStr [c]) ≠ []) :
    ∃ n', normalize tr mn (s.map ([·])) (newNStr (encStr s)) = .ok n' ∧
      n'.normalized = encStr (s.flatMap (mapped tr)) ∧
      ∀ a ∈ n'.aligns, some a = (newNStr (encStr s)).aligns.getLast? := by
  have hs : s ≠ [] := by
    rintro rfl
    obtain ⟨c, hc, _⟩ := hmod
    cases hc
  obtain ⟨items, e1, e2⟩ := graphemeLoop_zero tr mn s hmn hmn0 hlen
    (List.replicate (newNStr (encStr s)).normalized.length ([], 0), false)
  obtain ⟨n', h1, h2⟩ := transform_blanks s hs hz items e2
  have hm : (graphemeLoop tr mn (s.map ([·])) (List.replicate (newNStr (encStr s)).normalized.length ([], 0), false)).2 = true := by
    rw [(graphemeLoop_text tr mn s hmn hmn0 _).2, Bool.false_or, List.any_eq_true]
    obtain ⟨c, hc, h⟩ := hmod
    exact ⟨c, hc, by simpa using h⟩
  have hn : normalize tr mn (s.map ([·])) (newNStr (encStr s)) = .ok n' := by
    unfold normalize
    simp only [hm, if_true, e1]
    exact h1
  exact ⟨n', hn, (C60_text_partial tr mn s hmn hmn0 n' hn).1, h2⟩

/-- C60 fails for graphemes of several characters: in a grapheme of two characters of the same size
and at least six bytes together, the second is replaced by what the first is mapped to. -/
theorem C60_grapheme_violated (tr : List UInt8 → Str) (mn : Str → Str) (a b : Char)
    (hsize : b.utf8Size = a.utf8Size) (h6 : 6 ≤ blen [a, b]) (hmn : ∀ t, mn t = t)
    (ha : tr (encStr [a]) ≠ []) :
    ((graphemeLoop tr mn [[a, b]] ([], false)).1.map (·.1)).flatten = tr (encStr [a]) ++ tr (encStr [a]) := by
  have hpart : (encStr [a, b]).take a.utf8Size = encStr [a] := by
    have : encStr [a, b] = encStr [a] ++ encStr [b] := by rw [← encStr_append]; rfl
    rw [this, List.take_append_of_le_length (by rw [length_encStr]; simp), List.take_of_length_le]
    rw [length_encStr]; simp
  rw [graphemeLoop, if_neg (by omega), graphemeLoop, hmn, runeLoop, runeLoop, runeLoop]
  simp only [hsize, hpart, hmn, ne_eq, ha, not_false_eq_true, if_true]
  rw [replaceItems_text, replaceItems_text]
  rfl

/-- "aB" with B mapped to b: both characters end up at the second. -/
example : ∃ n', normalize (fun b => if b = encStr ['B'] then ['b'] else []) id [['a'], ['B']] (newNStr (encStr ['a', 'B'])) =
    .ok n' ∧ n'.normalized = encStr ['a', 'b'] ∧ n'.aligns = [(1, 2), (1, 2)] := by
  have : okAnd (normalize (fun b => if b = encStr ['B'] then ['b'] else []) id [['a'], ['B']] (newNStr (encStr ['a', 'B'])))
      (fun n' => n'.normalized == encStr ['a', 'b'] && n'.aligns == [(1, 2), (1, 2)]) = true := by decide +kernel
  obtain ⟨n', h1, h2⟩ := okAnd_spec this
  refine ⟨n', h1, ?_⟩
  simpa using h2

end Tok.Spm
