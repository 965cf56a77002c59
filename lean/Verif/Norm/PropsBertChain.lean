import Verif.Norm.PropsBert
import Verif.Norm.Cover

/-! # C85: the steps of the BERT normalizer one after the other -/

namespace Tok.Norm

/-! ### A step on a string that its original covers -/

theorem Cover.step {n : NStr} (hw : WF n) (hc : Cover n) {ds : Str} (ht : n.normalized = encStr ds)
    {items : List (Str × Int)} (hu : usesAll items ≤ ds.length) :
    ∃ n', n.transform items 0 = .ok n' ∧ n'.normalized = encStr (items.map (·.1)).flatten ∧
      n'.original = n.original ∧ n'.aligns.length = n'.normalized.length := by
  rw [transform_eq hc hw.lenA]
  obtain ⟨n', h1, h2, _⟩ := transformRange_ok hw (a := 0) (b := n.normalized.length) (items := items)
    (by omega) (by omega) (cs := ds) (by simp [ht]) hu
  refine ⟨n', h1, ?_, h2.original, h2.lenA⟩
  rw [h2.text]
  simp

theorem Cover.filter {n : NStr} (hw : WF n) (hc : Cover n) {ds : Str} (ht : n.normalized = encStr ds)
    (fn : Char → Bool) (hfirst : ∀ c ∈ ds.head?, fn c = true) :
    ∃ n', n.filter fn = .ok n' ∧ n'.normalized = encStr (ds.filter fn) ∧
      n'.original = n.original ∧ n'.aligns.length = n'.normalized.length := by
  obtain ⟨h1, h2, h3⟩ := filter_items fn ds
  have h0 : (filterLoop fn ds.reverse 0 []).2 = 0 := by
    rw [h3]
    cases ds with
    | nil => rfl
    | cons c ds => simp [hfirst c (by simp)]
  unfold NStr.filter
  rw [ht, runes_encStr]
  simp only
  rw [h0] at h2 ⊢
  rw [← h1]
  exact hc.step hw ht (by omega)

theorem Cover.chinese {n : NStr} (hw : WF n) (hc : Cover n) {ds : Str} (ht : n.normalized = encStr ds) :
    ∃ n', n.handleChinese = .ok n' ∧ n'.normalized = encStr (spacedOut Separated ds) ∧
      n'.original = n.original ∧ n'.aligns.length = n'.normalized.length := by
  obtain ⟨h1, h2⟩ := chinese_items ds
  unfold NStr.handleChinese
  rw [ht, runes_encStr, ← h1]
  exact hc.step hw ht (by omega)

theorem Cover.recase {n : NStr} (hw : WF n) (hc : Cover n) {f : List UInt8 → List UInt8}
    (hl : (f n.normalized).length = n.normalized.length) : WF (n.recase f) ∧ Cover (n.recase f) := by
  refine ⟨⟨?_, hw.lenO, hw.within, hw.mono⟩, ?_⟩
  · show n.aligns.length = (f n.normalized).length
    rw [hl, hw.lenA]
  · obtain ⟨r, h1, h2, h3⟩ := hc
    refine ⟨r, ?_, h2, by show ((f n.normalized).length : Int) ≤ _; rw [hl]; exact h3⟩
    have : (n.recase f).convert ⟨0, ((n.recase f).original.length : Int), .original⟩ =
        n.convert ⟨0, (n.original.length : Int), .original⟩ := by
      rfl
    rw [this]
    exact h1

/-! ### The first step -/

theorem cleanLoop_neg (ctl : Char → Bool) (l : List Char) : ∀ (removed : Nat) (acc : List (Str × Int)),
    (∀ i ∈ acc, i.2 ≤ 0) → ∀ i ∈ (cleanLoop ctl l removed acc).1, i.2 ≤ 0 := by
  induction l with
  | nil => intro removed acc h i hi; exact h i hi
  | cons c l ih =>
    intro removed acc h
    simp only [cleanLoop]
    split
    · exact ih _ _ h
    · split
      · refine ih _ _ (fun i hi => ?_)
        rcases List.mem_cons.1 hi with rfl | hi
        · simp only; omega
        · exact h i hi
      · refine ih _ _ (fun i hi => ?_)
        rcases List.mem_cons.1 hi with rfl | hi
        · simp
        · exact h i hi

theorem blank_size (c : Char) : (blank c).utf8Size = c.utf8Size := by
  unfold blank
  split
  · next h => rcases h with rfl | rfl | rfl | rfl <;> rfl
  · rfl

theorem blen_cleanedText (ctl : Char → Bool) (cs : Str) : blen (cleanedText ctl cs) ≤ blen cs := by
  induction cs with
  | nil => simp [cleanedText]
  | cons c cs ih =>
    rw [cleanedText]
    split
    · simp only [blen_cons]; omega
    · simp only [blen_cons]
      split
      · rw [blank_size]; omega
      · omega

theorem cleanedText_head (ctl : Char → Bool) (c : Char) (cs : Str) (h : ¬ Unwanted ctl c) :
    ∃ d ds, cleanedText ctl (c :: cs) = d :: ds ∧ (d = c ∨ d = ' ') := by
  rw [cleanedText, if_neg h]
  refine ⟨_, _, rfl, ?_⟩
  split
  · unfold blank
    split
    · exact .inr rfl
    · exact .inl rfl
  · exact .inl rfl

theorem clean_cover (ctl : Char → Bool) (cs : Str) (hz : '\x00' ∉ cs)
    (hfirst : ∀ c ∈ cs.head?, ¬ Unwanted ctl c) :
    ∃ n', (newNStr (encStr cs)).cleanText ctl = .ok n' ∧ WF n' ∧ Cover n' ∧
      n'.normalized = encStr (cleanedText ctl cs) ∧ n'.original = encStr cs := by
  obtain ⟨h1, h2, h3⟩ := clean_items ctl cs
  have hr : runes (newNStr (encStr cs)).normalized = cs := runes_encStr cs
  have h0 : (cleanLoop ctl cs.reverse 0 []).2 = 0 := by
    rw [h3]
    cases cs with
    | nil => rfl
    | cons c cs => simp [hfirst c (by simp)]
  obtain ⟨n', e1, e2, e3, e4, e5, _⟩ := transform_cover cs (cleanLoop ctl cs.reverse 0 []).1 hz (by omega)
    (fun i hi => cleanLoop_neg ctl _ 0 [] (by simp) i (List.mem_of_mem_head? hi))
    (.inr (by rw [h1]; exact blen_cleanedText ctl cs))
  refine ⟨n', ?_, e2, e3, by rw [e4, h1], e5⟩
  unfold NStr.cleanText
  rw [hr]
  simp only
  rw [h0]
  exact e1

theorem chinese_cover (cs : Str) (hz : '\x00' ∉ cs) (hfirst : ∀ c ∈ cs.head?, ¬ Cjk c) :
    ∃ n', (newNStr (encStr cs)).handleChinese = .ok n' ∧ WF n' ∧ Cover n' ∧
      n'.normalized = encStr (spacedOut Separated cs) ∧ n'.original = encStr cs := by
  obtain ⟨h1, h2⟩ := chinese_items cs
  have hr : runes (newNStr (encStr cs)).normalized = cs := runes_encStr cs
  have hnn : ∀ i ∈ chineseItems cs, 0 ≤ i.2 := by
    intro i hi
    unfold chineseItems at hi
    obtain ⟨c, _, hi⟩ := List.mem_flatMap.1 hi
    split at hi
    · simp only [List.mem_cons, List.not_mem_nil, or_false] at hi
      rcases hi with rfl | rfl | rfl <;> simp
    · simp only [List.mem_cons, List.not_mem_nil, or_false] at hi
      rcases hi with rfl
      simp
  obtain ⟨n', e1, e2, e3, e4, e5, _⟩ := transform_cover cs (chineseItems cs) hz (by omega)
    (by
      intro i hi
      cases cs with
      | nil => cases hi
      | cons c cs =>
        have hc : ¬ isChinese c = true := fun x => hfirst c (by simp) ((isChinese_iff c).1 x).1
        unfold chineseItems at hi
        rw [List.flatMap_cons, if_neg hc] at hi
        cases hi
        simp)
    (.inl ⟨hnn, h2⟩)
  refine ⟨n', ?_, e2, e3, by rw [e4, h1], e5⟩
  unfold NStr.handleChinese
  rw [hr]
  exact e1

/-! ### C85 -/

/-- The text after the first two steps (ideographs of Extension A are not separated). -/
def twoSteps (b : Bert) (T : Tables) (cs : Str) : Str :=
  let s1 := if b.clean then cleanedText T.ctl cs else cs
  if b.chinese then spacedOut Separated s1 else s1

/-- **C85, partial.** If not all of cleaning, separating and removing accents are chosen, a text
without NUL that begins with a wanted character other than an ideograph and a combining mark goes
through all the chosen steps, each working on the whole result of the one before, provided
lower-casing keeps the number of bytes. -/
theorem C85_steps_partial (b : Bert) (T : Tables) (hb : ¬ (b.clean = true ∧ b.chinese = true ∧ b.accents = true))
    (cs ds : Str) (hz : '\x00' ∉ cs) (h1 : ∀ c ∈ cs.head?, ¬ Unwanted T.ctl c ∧ ¬ Cjk c)
    (hl : T.lower (encStr (twoSteps b T cs)) = encStr ds ∧ blen ds = blen (twoSteps b T cs))
    (h3 : ∀ c ∈ (if b.lowercase then ds else twoSteps b T cs).head?, T.mn c = false) :
    ∃ n', b.normalize T (newNStr (encStr cs)) = .ok n' ∧
      n'.normalized = encStr (
        let s3 := if b.lowercase then ds else twoSteps b T cs
        if b.accents then s3.filter (fun c => !T.mn c) else s3) ∧
      n'.original = encStr cs ∧ n'.aligns.length = n'.normalized.length := by
  obtain ⟨clean, lowercase, chinese, accents⟩ := b
  -- the first two steps
  have st : ∃ n1 n2, (if clean then (newNStr (encStr cs)).cleanText T.ctl else .ok (newNStr (encStr cs))) = .ok n1 ∧
      (if chinese then n1.handleChinese else .ok n1) = .ok n2 ∧
      n2.normalized = encStr (twoSteps ⟨clean, lowercase, chinese, accents⟩ T cs) ∧ n2.original = encStr cs ∧
      n2.aligns.length = n2.normalized.length ∧ (accents = true → WF n2 ∧ Cover n2) := by
    cases clean with
    | false =>
      cases chinese with
      | false =>
        exact ⟨_, _, rfl, rfl, rfl, rfl, (newNStr_wf cs).lenA, fun _ => ⟨newNStr_wf cs, newNStr_cover cs⟩⟩
      | true =>
        obtain ⟨n', e1, e2, e3, e4, e5⟩ := chinese_cover cs hz (fun c hc => (h1 c hc).2)
        exact ⟨_, n', rfl, e1, e4, e5, e2.lenA, fun _ => ⟨e2, e3⟩⟩
    | true =>
      obtain ⟨n', e1, e2, e3, e4, e5⟩ := clean_cover T.ctl cs hz (fun c hc => (h1 c hc).1)
      cases chinese with
      | false => exact ⟨n', n', e1, rfl, e4, e5, e2.lenA, fun _ => ⟨e2, e3⟩⟩
      | true =>
        obtain ⟨n2, f1, f2, f3, f4⟩ := e3.chinese e2 e4
        refine ⟨n', n2, e1, f1, f2, by rw [f3, e5], f4, fun ha => ?_⟩
        exact absurd ⟨rfl, rfl, ha⟩ hb
  obtain ⟨n1, n2, e1, e2, e3, e4, e5, e6⟩ := st
  have hlen : (T.lower n2.normalized).length = n2.normalized.length := by
    rw [e3, hl.1, length_encStr, length_encStr, hl.2]
  have s3 : ∃ n3, (if lowercase then n2.recase T.lower else n2) = n3 ∧
      n3.normalized = encStr (if lowercase then ds else twoSteps ⟨clean, lowercase, chinese, accents⟩ T cs) ∧
      n3.original = encStr cs ∧ n3.aligns.length = n3.normalized.length ∧
      (accents = true → WF n3 ∧ Cover n3) := by
    cases lowercase with
    | false => exact ⟨n2, rfl, e3, e4, e5, e6⟩
    | true =>
      refine ⟨_, rfl, ?_, e4, ?_, fun ha => (e6 ha).2.recase (e6 ha).1 hlen⟩
      · show T.lower n2.normalized = _
        rw [e3, hl.1]
        rfl
      · show n2.aligns.length = (T.lower n2.normalized).length
        rw [hlen, e5]
  obtain ⟨n3, g1, g2, g3, g4, g5⟩ := s3
  unfold Bert.normalize
  simp only [e1, e2, Res.bind, g1]
  cases accents with
  | false => exact ⟨n3, rfl, g2, g3, g4⟩
  | true =>
    obtain ⟨n', f1, f2, f3, f4⟩ := (g5 rfl).2.filter (g5 rfl).1 g2 (fun c => !T.mn c)
      (fun c hc => by rw [h3 c hc]; rfl)
    exact ⟨n', f1, f2, by rw [f3, g3], f4⟩

/-- Tables for the characters of the examples. -/
def tablesWith (mn : Char → Bool) : Tables :=
  ⟨fun c => c == '\u200b' || c == '\x01', mn, fun _ => false, id, fun _ => [], fun _ => [],
   fun _ => false, fun _ => false, fun _ => false⟩

-- cleaning, separating and lower-casing a text with all kinds of characters
example : ∃ n', (⟨true, true, true, false⟩ : Bert).normalize (tablesWith (· == '\u0301'))
    (newNStr (encStr ['a', '\u200b', '\t', '\x01', '中', '\u0301', 'b'])) = .ok n' ∧
    n'.normalized = encStr ['a', ' ', ' ', '中', ' ', '\u0301', 'b'] := by
  obtain ⟨n', h1, h2, _⟩ := C85_steps_partial ⟨true, true, true, false⟩ (tablesWith (· == '\u0301'))
    (by simp) ['a', '\u200b', '\t', '\x01', '中', '\u0301', 'b']
    ['a', ' ', ' ', '中', ' ', '\u0301', 'b'] (by decide)
    (by intro c hc; simp at hc; subst hc; decide +kernel) (by decide +kernel) (by decide +kernel)
  exact ⟨n', h1, h2⟩

-- separating and removing accents
example : ∃ n', (⟨false, false, true, true⟩ : Bert).normalize (tablesWith (· == '\u0301'))
    (newNStr (encStr ['a', '\u0301', '中', '\u0301', 'b'])) = .ok n' ∧
    n'.normalized = encStr ['a', ' ', '中', ' ', 'b'] := by
  obtain ⟨n', h1, h2, _⟩ := C85_steps_partial ⟨false, false, true, true⟩ (tablesWith (· == '\u0301'))
    (by simp) ['a', '\u0301', '中', '\u0301', 'b']
    ['a', '\u0301', ' ', '中', ' ', '\u0301', 'b'] (by decide)
    (by intro c hc; simp at hc; subst hc; decide +kernel) (by decide +kernel) (by decide +kernel)
  exact ⟨n', h1, h2⟩

/-- **C85, violated.** Cleaning and separating a text of letters after a zero-width space gives the
letters twice. -/
theorem C85_doubled_violated (T : Tables) (h1 : T.ctl '\u200b' = true) (h2 : ∀ c ∈ "abcde".toList, T.ctl c = false) :
    (∃ n', (⟨true, false, true, false⟩ : Bert).normalize T (newNStr (encStr ('\u200b' :: "abcde".toList))) = .ok n' ∧
      n'.normalized = encStr "abcdeabcde".toList) ∧
    bertSpec ⟨true, false, true, false⟩ T id ('\u200b' :: "abcde".toList) = "abcde".toList := by
  have hs : "abcde".toList = ['a', 'b', 'c', 'd', 'e'] := by decide
  rw [hs] at h2 ⊢
  simp only [List.mem_cons, List.not_mem_nil, or_false, forall_eq_or_imp, forall_eq] at h2
  obtain ⟨a1, a2, a3, a4, a5⟩ := h2
  have d0 : isDirty T.ctl '\u200b' = true := by simp [isDirty, isControl, h1]
  have d1 : isDirty T.ctl 'a' = false := by simp [isDirty, isControl, a1]
  have d2 : isDirty T.ctl 'b' = false := by simp [isDirty, isControl, a2]
  have d3 : isDirty T.ctl 'c' = false := by simp [isDirty, isControl, a3]
  have d4 : isDirty T.ctl 'd' = false := by simp [isDirty, isControl, a4]
  have d5 : isDirty T.ctl 'e' = false := by simp [isDirty, isControl, a5]
  constructor
  · have hr : runes (newNStr (encStr ['\u200b', 'a', 'b', 'c', 'd', 'e'])).normalized =
      ['\u200b', 'a', 'b', 'c', 'd', 'e'] := runes_encStr _
    have e : cleanLoop T.ctl ['\u200b', 'a', 'b', 'c', 'd', 'e'].reverse 0 [] =
        ([(['a'], 0), (['b'], 0), (['c'], 0), (['d'], 0), (['e'], 0)], 1) := by
      simp [cleanLoop, d0, d1, d2, d3, d4, d5]
    have hk : okAnd (((newNStr (encStr ['\u200b', 'a', 'b', 'c', 'd', 'e'])).transform
        [(['a'], 0), (['b'], 0), (['c'], 0), (['d'], 0), (['e'], 0)] 1).bind NStr.handleChinese)
        (fun n => n.normalized == encStr "abcdeabcde".toList) = true := by decide +kernel
    unfold Bert.normalize NStr.cleanText
    rw [hr, e]
    simp only [if_true, Bool.false_eq_true, if_false]
    revert hk
    cases hx : (newNStr (encStr ['\u200b', 'a', 'b', 'c', 'd', 'e'])).transform
        [(['a'], 0), (['b'], 0), (['c'], 0), (['d'], 0), (['e'], 0)] 1 with
    | err => simp [Res.bind, okAnd]
    | panic => simp [Res.bind, okAnd]
    | ok n1 =>
      simp only [Res.bind]
      cases hy : n1.handleChinese with
      | err => simp [okAnd]
      | panic => simp [okAnd]
      | ok n2 =>
        intro hk
        exact ⟨n2, rfl, by simpa [okAnd] using hk⟩
  · simp [bertSpec, cleanSpec, Unwanted, h1, a1, a2, a3, a4, a5, blank, spacedOut, Cjk, cjkBlocks]

/-- **C85, violated.** With all options, as in the default, an ideograph at the start gets two
spaces before it. -/
theorem C85_ideograph_violated (T : Tables) (h1 : T.ctl '中' = false) (h2 : T.mn '中' = false) (h3 : T.mn ' ' = false)
    (h4 : T.lower (encStr [' ', '中', ' ']) = encStr [' ', '中', ' ']) (lower : Str → Str)
    (h5 : lower [' ', '中', ' '] = [' ', '中', ' ']) :
    (∃ n', (⟨true, true, true, true⟩ : Bert).normalize T (newNStr (encStr ['中'])) = .ok n' ∧
      n'.normalized = encStr [' ', ' ', '中', ' ']) ∧
    bertSpec ⟨true, true, true, true⟩ T lower ['中'] = [' ', '中', ' '] := by
  have d0 : isDirty T.ctl '中' = false := by simp [isDirty, isControl, h1]
  have hr : runes (newNStr (encStr ['中'])).normalized = ['中'] := runes_encStr _
  have e : cleanLoop T.ctl ['中'].reverse 0 [] = ([(['中'], 0)], 0) := by
    simp [cleanLoop, d0]
  constructor
  · have hk : okAnd (((newNStr (encStr ['中'])).transform [(['中'], 0)] 0).bind NStr.handleChinese)
        (fun n => n.normalized == encStr [' ', '中', ' '] &&
          okAnd (n.transform [([' '], 0), (['中'], 0), ([' '], 0)] 0)
            (fun m => m.normalized == encStr [' ', ' ', '中', ' '])) = true := by decide +kernel
    unfold Bert.normalize NStr.cleanText
    rw [hr, e]
    simp only [if_true]
    revert hk
    cases hx : (newNStr (encStr ['中'])).transform [(['中'], 0)] 0 with
    | err => simp [Res.bind, okAnd]
    | panic => simp [Res.bind, okAnd]
    | ok n1 =>
      simp only [Res.bind]
      cases hy : n1.handleChinese with
      | err => simp [okAnd]
      | panic => simp [okAnd]
      | ok n2 =>
        intro hk
        simp only [okAnd, Bool.and_eq_true, beq_iff_eq] at hk
        obtain ⟨k1, k2⟩ := hk
        have hre : n2.recase T.lower = n2 := by
          unfold NStr.recase
          rw [k1, h4, ← k1]
        simp only [hre, NStr.removeAccents, NStr.filter, k1, runes_encStr]
        have ef : filterLoop (fun c => !T.mn c) [' ', '中', ' '].reverse 0 [] =
          ([([' '], 0), (['中'], 0), ([' '], 0)], 0) := by simp [filterLoop, h2, h3]
        rw [ef]
        simp only
        cases hz : n2.transform [([' '], 0), (['中'], 0), ([' '], 0)] 0 with
        | err => rw [hz] at k2; simp at k2
        | panic => rw [hz] at k2; simp at k2
        | ok n3 =>
          rw [hz] at k2
          exact ⟨n3, rfl, by simpa using k2⟩
  · have hc : Cjk '中' := by decide
    simp [bertSpec, cleanSpec, Unwanted, h1, h2, h3, blank, spacedOut, hc, h5]

end Tok.Norm
