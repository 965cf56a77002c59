import Verif.Norm.Ident

/-! # C83, C84, C85: the BERT normalizer -/

namespace Tok.Norm

/-! ### C83 -/

/-- Characters that cleaning is to remove: NUL, U+FFFD and the control characters other than tab,
line feed and carriage return. -/
def Unwanted (ctl : Char → Bool) (c : Char) : Prop :=
  c = '\x00' ∨ c = '�' ∨ (ctl c = true ∧ c ≠ '\t' ∧ c ≠ '\n' ∧ c ≠ '\r')

instance : DecidablePred (Unwanted ctl) := fun c => by unfold Unwanted; infer_instance

/-- White space becomes a space. -/
def blank (c : Char) : Char := if c = ' ' ∨ c = '\t' ∨ c = '\n' ∨ c = '\r' then ' ' else c

/-- The text that cleaning is to give. -/
def cleanSpec (ctl : Char → Bool) (cs : Str) : Str := (cs.filter (fun c => ¬ Unwanted ctl c)).map blank

/-- The text that cleaning gives: white space becomes a space only before a removed character. -/
def cleanedText (ctl : Char → Bool) : Str → Str
  | [] => []
  | c :: cs =>
    if Unwanted ctl c then cleanedText ctl cs
    else (if ∃ d ∈ cs.head?, Unwanted ctl d then blank c else c) :: cleanedText ctl cs

theorem isDirty_iff (ctl : Char → Bool) (c : Char) : isDirty ctl c = true ↔ Unwanted ctl c := by
  unfold isDirty isControl Unwanted
  by_cases h : c = '\t' ∨ c = '\n' ∨ c = '\r'
  · simp only [h, if_true, decide_eq_true_eq, Bool.false_eq_true, or_false]
    constructor
    · rintro (h | h)
      · exact .inl h
      · exact .inr (.inl h)
    · rintro (h1 | h1 | ⟨_, h1, h2, h3⟩)
      · exact .inl h1
      · exact .inr h1
      · rcases h with h | h | h
        · exact absurd h h1
        · exact absurd h h2
        · exact absurd h h3
  · have h' : c ≠ '\t' ∧ c ≠ '\n' ∧ c ≠ '\r' := by
      refine ⟨fun x => h (.inl x), fun x => h (.inr (.inl x)), fun x => h (.inr (.inr x))⟩
    rw [if_neg h]
    simp only [decide_eq_true_eq, h', ne_eq, not_false_eq_true, and_true]

theorem blank_eq (c : Char) : (if isBertSpace c = true then ' ' else c) = blank c := by
  unfold isBertSpace blank; simp

theorem blank_blank (c : Char) : blank (blank c) = blank c := by
  by_cases h : c = ' ' ∨ c = '\t' ∨ c = '\n' ∨ c = '\r'
  · unfold blank; simp [h]
  · have : blank c = c := by unfold blank; rw [if_neg h]
    rw [this, this]

/-- The change list of cleaning is that of `Filter`, except for the white space. -/
def spaced (item : Str × Int) : Str × Int := (if item.2 < 0 then item.1.map blank else item.1, item.2)

theorem cleanLoop_eq (ctl : Char → Bool) (l : List Char) : ∀ (removed : Nat) (acc : List (Str × Int)),
    cleanLoop ctl l removed (acc.map spaced) =
      ((filterLoop (fun c => !isDirty ctl c) l removed acc).1.map spaced,
       (filterLoop (fun c => !isDirty ctl c) l removed acc).2) := by
  induction l with
  | nil => intro removed acc; rfl
  | cons c l ih =>
    intro removed acc
    by_cases hd : isDirty ctl c = true
    · simp only [cleanLoop, filterLoop, hd, if_true, Bool.not_true, Bool.false_eq_true, if_false, ih]
    · have hd' : isDirty ctl c = false := by simpa using hd
      by_cases hr : removed > 0
      · simp only [cleanLoop, filterLoop, hd', hr, if_true, Bool.not_false, Bool.false_eq_true, if_false]
        rw [← ih, List.map_cons]
        congr 2
        rw [blank_eq]
        unfold spaced
        have h0 : -(removed : Int) < 0 := by omega
        simp only [h0, if_true, List.map_cons, List.map_nil]
      · simp only [cleanLoop, filterLoop, hd', hr, if_true, Bool.not_false, Bool.false_eq_true, if_false]
        rw [← ih, List.map_cons]
        congr 2

theorem cleanLoop_start (ctl : Char → Bool) (l : List Char) :
    cleanLoop ctl l 0 [] = ((filterLoop (fun c => !isDirty ctl c) l 0 []).1.map spaced,
       (filterLoop (fun c => !isDirty ctl c) l 0 []).2) := cleanLoop_eq ctl l 0 []

theorem usesAll_spaced (items : List (Str × Int)) : usesAll (items.map spaced) = usesAll items := by
  unfold usesAll
  rw [List.map_map]
  rfl

theorem cleanedText_snoc (ctl : Char → Bool) (u : Str) (x : Char) (hx : ¬ Unwanted ctl x) :
    cleanedText ctl (u ++ [x]) = cleanedText ctl u ++ [x] := by
  induction u with
  | nil => simp [cleanedText, hx]
  | cons c u ih =>
    rw [List.cons_append, cleanedText, cleanedText, ih]
    by_cases hc : Unwanted ctl c
    · simp only [hc, if_true]
    · simp only [hc, if_false, List.cons_append]
      cases u with
      | nil => simp [hx]
      | cons d u => rfl

/-- `pre` followed by a removed character. -/
theorem cleanedText_before (ctl : Char → Bool) (u : Str) (x : Char) (hx : ¬ Unwanted ctl x) (d : Char)
    (hd : Unwanted ctl d) : cleanedText ctl (u ++ [x] ++ [d]) = cleanedText ctl u ++ [blank x] := by
  induction u with
  | nil => simp [cleanedText, hx, hd]
  | cons c u ih =>
    rw [List.cons_append, List.cons_append, cleanedText, cleanedText, ih]
    by_cases hc : Unwanted ctl c
    · simp only [hc, if_true]
    · simp only [hc, if_false, List.cons_append]
      cases u with
      | nil => simp [hx]
      | cons d u => rfl

theorem cleanedText_dirty (ctl : Char → Bool) (u : Str) (x : Char) (hx : Unwanted ctl x) (d : Char)
    (hd : Unwanted ctl d) : cleanedText ctl (u ++ [x] ++ [d]) = cleanedText ctl (u ++ [d]) := by
  induction u with
  | nil => simp [cleanedText, hx, hd]
  | cons c u ih =>
    rw [List.cons_append, List.cons_append, List.cons_append, cleanedText, cleanedText, ih]
    by_cases hc : Unwanted ctl c
    · simp only [hc, if_true]
    · simp only [hc, if_false]
      cases u with
      | nil => simp [hx, hd]
      | cons d u => rfl

theorem cleanLoop_text (ctl : Char → Bool) : ∀ (n : Nat) (pre : List Char), pre.length = n →
    ∀ (removed : Nat) (acc : List (Str × Int)),
    ((cleanLoop ctl pre.reverse removed acc).1.map (·.1)).flatten =
      cleanedText ctl (pre ++ (if removed > 0 then ['\x00'] else [])) ++ (acc.map (·.1)).flatten := by
  have hnul : Unwanted ctl '\x00' := .inl rfl
  intro n
  induction n with
  | zero =>
    intro pre hn removed acc
    have : pre = [] := List.length_eq_zero_iff.mp hn
    subst this
    by_cases hr : removed > 0 <;> simp [cleanLoop, cleanedText, hr, hnul]
  | succ n ih =>
    intro pre hn removed acc
    obtain ⟨u, x, rfl⟩ : ∃ u x, pre = u ++ [x] := by
      rcases List.eq_nil_or_concat pre with h | ⟨d, x, h⟩
      · subst h; simp at hn
      · exact ⟨d, x, by simp [h]⟩
    have hlen : u.length = n := by simp at hn; exact hn
    rw [List.reverse_append, List.reverse_singleton, List.singleton_append, cleanLoop]
    by_cases hd : isDirty ctl x = true
    · have hu := (isDirty_iff ctl x).1 hd
      rw [if_pos hd, ih u hlen, if_pos (by omega)]
      by_cases hr : removed > 0
      · rw [if_pos hr, cleanedText_dirty ctl u x hu _ hnul]
      · rw [if_neg hr, List.append_nil]
        congr 1
        have key : ∀ u : Str, cleanedText ctl (u ++ ['\x00']) = cleanedText ctl (u ++ [x]) := by
          intro u
          induction u with
          | nil => simp [cleanedText, hnul, hu]
          | cons c u ihu =>
            rw [List.cons_append, List.cons_append, cleanedText, cleanedText, ihu]
            cases u with
            | nil => simp [hnul, hu]
            | cons d u => rfl
        exact key u
    · have hu : ¬ Unwanted ctl x := fun h => hd ((isDirty_iff ctl x).2 h)
      rw [if_neg hd]
      by_cases hr : removed > 0
      · rw [if_pos hr, ih u hlen, if_neg (by omega), if_pos hr, blank_eq, cleanedText_before ctl u x hu _ hnul]
        simp
      · rw [if_neg hr, ih u hlen, if_neg hr, List.append_nil, List.append_nil,
          cleanedText_snoc ctl u x hu]
        simp

/-- The change list of cleaning. -/
theorem clean_items (ctl : Char → Bool) (cs : Str) :
    ((cleanLoop ctl cs.reverse 0 []).1.map (·.1)).flatten = cleanedText ctl cs ∧
    usesAll (cleanLoop ctl cs.reverse 0 []).1 + (cleanLoop ctl cs.reverse 0 []).2 = cs.length ∧
    (cleanLoop ctl cs.reverse 0 []).2 = (cs.takeWhile (fun c => Unwanted ctl c)).length := by
  obtain ⟨_, h2, h3⟩ := filter_items (fun c => !isDirty ctl c) cs
  refine ⟨?_, ?_, ?_⟩
  · have := cleanLoop_text ctl _ cs rfl 0 []
    simpa using this
  · rw [cleanLoop_start, usesAll_spaced]; exact h2
  · rw [cleanLoop_start]
    simp only
    rw [h3]
    congr 2
    funext c
    by_cases h : isDirty ctl c = true
    · simp [h, (isDirty_iff ctl c).1 h]
    · have hu : ¬ Unwanted ctl c := fun x => h ((isDirty_iff ctl c).2 x)
      simp [h, hu]

theorem cleanedText_blank (ctl : Char → Bool) (cs : Str) :
    (cleanedText ctl cs).map blank = cleanSpec ctl cs := by
  unfold cleanSpec
  induction cs with
  | nil => rfl
  | cons c cs ih =>
    rw [cleanedText]
    by_cases hc : Unwanted ctl c
    · simp only [hc, if_true, ih, List.filter_cons, not_true_eq_false, decide_false, Bool.false_eq_true, if_false]
    · simp only [hc, if_false, List.map_cons, ih, List.filter_cons, not_false_eq_true, decide_true, if_true]
      congr 1
      split
      · exact blank_blank c
      · rfl

/-- **C83, partial.** A successful cleaning gives the characters that are not unwanted, in their
order, up to the kind of white space, with one alignment per byte, within the original; the exact
text is `cleanedText`. -/
theorem C83_clean_partial (ctl : Char → Bool) (cs : Str) (n' : NStr)
    (h : (newNStr (encStr cs)).cleanText ctl = .ok n') :
    n'.normalized = encStr (cleanedText ctl cs) ∧
    (cleanedText ctl cs).map blank = cleanSpec ctl cs ∧
    n'.original = encStr cs ∧ n'.aligns.length = n'.normalized.length ∧ Within (blen cs) n'.aligns := by
  obtain ⟨h1, h2, h3⟩ := clean_items ctl cs
  have hr : runes (newNStr (encStr cs)).normalized = cs := runes_encStr cs
  unfold NStr.cleanText at h
  rw [hr] at h
  obtain ⟨e1, e2, e3, e4, _⟩ := C41_removed_partial cs _ _ (by omega) n' h
  exact ⟨by rw [e1, h1], cleanedText_blank ctl cs, e2, e3, e4⟩

/-- **C83, partial.** Cleaning succeeds if the unwanted characters at the start have no more bytes
than as many characters at the end; so whenever the text begins with a wanted character. -/
theorem C83_clean_ok_partial (ctl : Char → Bool) (cs : Str)
    (h : let k := (cs.takeWhile (fun c => Unwanted ctl c)).length
      blen (cs.take k) ≤ blen (cs.drop (cs.length - k))) :
    ∃ n', (newNStr (encStr cs)).cleanText ctl = .ok n' := by
  obtain ⟨_, h2, h3⟩ := clean_items ctl cs
  have hr : runes (newNStr (encStr cs)).normalized = cs := runes_encStr cs
  unfold NStr.cleanText
  rw [hr]
  exact C41_removed_ok_partial cs _ _ (by omega) (by rw [h3]; exact h)

theorem cleanedText_id (ctl : Char → Bool) (cs : Str) (h : ∀ c ∈ cs, ¬ Unwanted ctl c) :
    cleanedText ctl cs = cs := by
  induction cs with
  | nil => rfl
  | cons c cs ih =>
    rw [cleanedText, if_neg (h c (by simp)), ih (fun d hd => h d (by simp [hd])), if_neg]
    rintro ⟨d, hd, hu⟩
    cases cs with
    | nil => cases hd
    | cons e cs => cases hd; exact h d (by simp) hu

/-- **C83, violated.** White space is not replaced: a text without unwanted characters stays as it
is, with its tabs and line ends. -/
theorem C83_whitespace_violated (ctl : Char → Bool) (cs : Str) (hc : ∀ c ∈ cs, ¬ Unwanted ctl c) :
    ∃ n', (newNStr (encStr cs)).cleanText ctl = .ok n' ∧ n'.normalized = encStr cs ∧
      (('\t' ∈ cs ∨ '\n' ∈ cs ∨ '\r' ∈ cs) → cs ≠ cleanSpec ctl cs) := by
  have h0 : (cs.takeWhile (fun c => Unwanted ctl c)).length = 0 := by
    cases cs with
    | nil => rfl
    | cons c cs => simp [hc c (by simp)]
  obtain ⟨n', h⟩ := C83_clean_ok_partial ctl cs (by simp only [h0]; simp)
  refine ⟨n', h, by rw [(C83_clean_partial ctl cs n' h).1, cleanedText_id ctl cs hc], ?_⟩
  intro hs he
  have hno : ∀ c ∈ cleanSpec ctl cs, c ≠ '\t' ∧ c ≠ '\n' ∧ c ≠ '\r' := by
    intro c hc
    obtain ⟨d, _, rfl⟩ := List.mem_map.1 hc
    unfold blank
    split
    · decide
    · next h => exact ⟨fun x => h (by simp [x]), fun x => h (by simp [x]), fun x => h (by simp [x])⟩
  rw [← he] at hno
  rcases hs with h | h | h
  · exact (hno _ h).1 rfl
  · exact (hno _ h).2.1 rfl
  · exact (hno _ h).2.2 rfl

/-- **C83, violated.** Cleaning crashes on two zero-width spaces, a letter and a control character,
whenever the tables name these three as control characters or not, as they are. -/
theorem C83_crash_violated (ctl : Char → Bool) (h1 : ctl '​' = true) (h2 : ctl '\x01' = true)
    (h3 : ctl 'a' = false) :
    (newNStr (encStr ['​', '​', 'a', '\x01'])).cleanText ctl = .panic := by
  have hr : runes (newNStr (encStr ['​', '​', 'a', '\x01'])).normalized =
    ['​', '​', 'a', '\x01'] := runes_encStr _
  unfold NStr.cleanText
  rw [hr]
  have d1 : isDirty ctl '​' = true := by simp [isDirty, isControl, h1]
  have d2 : isDirty ctl '\x01' = true := by simp [isDirty, isControl, h2]
  have d3 : isDirty ctl 'a' = false := by simp [isDirty, isControl, h3]
  have e : cleanLoop ctl ['​', '​', 'a', '\x01'].reverse 0 [] = ([(['a'], -1)], 2) := by
    simp [cleanLoop, d1, d2, d3, isBertSpace]
  rw [e]
  decide +kernel

example : ∃ n', (newNStr (encStr ['a', '\t', '\x01', 'b', '\n'])).cleanText (· == '\x01') = .ok n' ∧
    n'.normalized = encStr ['a', ' ', 'b', '\n'] := by
  have := C83_clean_ok_partial (· == '\x01') ['a', '\t', '\x01', 'b', '\n'] (by decide)
  obtain ⟨n', h⟩ := this
  exact ⟨n', h, (C83_clean_partial _ _ _ h).1⟩

/-! ### C84 -/

/-- The blocks of CJK ideographs that BERT separates (as in its reference implementation). -/
def cjkBlocks : List (Nat × Nat) :=
  [(0x4E00, 0x9FFF), (0x3400, 0x4DBF), (0x20000, 0x2A6DF), (0x2A700, 0x2B73F), (0x2B740, 0x2B81F),
   (0x2B820, 0x2CEAF), (0xF900, 0xFAFF), (0x2F800, 0x2FA1F)]

def Cjk (c : Char) : Prop := ∃ b ∈ cjkBlocks, b.1 ≤ c.toNat ∧ c.toNat ≤ b.2

instance : DecidablePred Cjk := fun c => by unfold Cjk; infer_instance

/-- The characters of the block "CJK Unified Ideographs Extension A". -/
def ExtA (c : Char) : Prop := 0x3400 ≤ c.toNat ∧ c.toNat ≤ 0x4DBF

instance : DecidablePred ExtA := fun c => by unfold ExtA; infer_instance

/-- The ideographs that are separated: all but those of Extension A. -/
def Separated (c : Char) : Prop := Cjk c ∧ ¬ ExtA c

instance : DecidablePred Separated := fun c => by unfold Separated; infer_instance

theorem isChinese_iff (c : Char) : isChinese c = true ↔ Separated c := by
  unfold isChinese RangeTable.is cjk Separated ExtA Cjk cjkBlocks
  simp only [searchRanges, List.mem_cons, List.not_mem_nil, or_false, exists_eq_or_imp,
    exists_eq_left, List.getLast?_cons_cons, List.getLast?_singleton, List.head?_cons, Option.getD_some, ne_eq,
    reduceCtorEq, not_false_eq_true, true_and]
  repeat' split
  all_goals first
    | (constructor
       · intro h; first | (cases h; done) | (constructor <;> omega)
       · intro h; first | rfl | (exfalso; omega))

/-- The characters of some kind between spaces. -/
def spacedOut (p : Char → Prop) [DecidablePred p] (cs : Str) : Str :=
  cs.flatMap (fun c => if p c then [' ', c, ' '] else [c])

theorem chinese_items (cs : Str) :
    ((chineseItems cs).map (·.1)).flatten = spacedOut Separated cs ∧ usesAll (chineseItems cs) = cs.length := by
  unfold chineseItems spacedOut
  induction cs with
  | nil => exact ⟨rfl, rfl⟩
  | cons c cs ih =>
    rw [List.flatMap_cons, List.map_append, List.flatten_append, usesAll_append, ih.1, ih.2, List.flatMap_cons]
    by_cases h : isChinese c = true
    · rw [if_pos h, if_pos ((isChinese_iff c).1 h)]
      exact ⟨rfl, by simp [usesAll, uses]; omega⟩
    · rw [if_neg h, if_neg (fun x => h ((isChinese_iff c).2 x))]
      exact ⟨rfl, by simp [usesAll, uses]; omega⟩

/-- The places of the characters: the space before an ideograph has that of the character before
it (none at the start), the space after it that of the ideograph. -/
def spacedPlaces (p : Char → Prop) [DecidablePred p] (cs : Str) : List (Int × Int) :=
  (List.range cs.length).flatMap (fun m =>
    if p (cs[m]?.getD ' ') then
      [if m = 0 then (0, 0) else charRange cs (m - 1)] ++
      List.replicate ((cs[m]?.getD ' ').utf8Size) (charRange cs m) ++ [charRange cs m]
    else List.replicate ((cs[m]?.getD ' ').utf8Size) (charRange cs m))

theorem sources_chinese (cs : Str) : sources cs 0 (chineseItems cs) = spacedPlaces Separated cs := by
  have key : ∀ (rest done : Str), cs = done ++ rest →
      sources cs done.length (chineseItems rest) = (List.range' done.length rest.length).flatMap (fun m =>
        if Separated (cs[m]?.getD ' ') then
          [if m = 0 then (0, 0) else charRange cs (m - 1)] ++
          List.replicate ((cs[m]?.getD ' ').utf8Size) (charRange cs m) ++ [charRange cs m]
        else List.replicate ((cs[m]?.getD ' ').utf8Size) (charRange cs m)) := by
    intro rest
    induction rest with
    | nil => intro done _; rfl
    | cons c rest ih =>
      intro done he
      have hc : cs[done.length]?.getD ' ' = c := by rw [he]; simp
      have ih' := ih (done ++ [c]) (by rw [he]; simp)
      rw [List.length_append, List.length_singleton] at ih'
      rw [List.length_cons, List.range'_succ, List.flatMap_cons, ← ih', hc]
      have hit : chineseItems (c :: rest) =
        (if isChinese c then [([' '], 1), ([c], 0), ([' '], 1)] else [([c], 0)]) ++ chineseItems rest := rfl
      rw [hit]
      have u0 : uses 0 = 1 := by decide
      have u1 : uses 1 = 0 := by decide
      by_cases h : isChinese c = true
      · rw [if_pos h, if_pos ((isChinese_iff c).1 h)]
        simp only [List.cons_append, List.nil_append, sources, u0, u1, Nat.add_zero]
        simp [show ' '.utf8Size = 1 by decide]
      · rw [if_neg h, if_neg (fun x => h ((isChinese_iff c).2 x))]
        simp only [List.cons_append, List.nil_append, sources, u0]
        simp
  have := key cs [] rfl
  rw [List.length_nil] at this
  rw [this, spacedPlaces, List.range_eq_range']

theorem spacedOut_congr {p q : Char → Prop} [DecidablePred p] [DecidablePred q] {cs : Str}
    (h : ∀ c ∈ cs, (p c ↔ q c)) : spacedOut p cs = spacedOut q cs := by
  induction cs with
  | nil => rfl
  | cons c cs ih =>
    have e : ∀ (r : Char → Prop) [DecidablePred r],
      spacedOut r (c :: cs) = (if r c then [' ', c, ' '] else [c]) ++ spacedOut r cs := fun _ _ => rfl
    rw [e, e, ih (fun d hd => h d (by simp [hd]))]
    have := h c (by simp)
    by_cases hp : p c
    · rw [if_pos hp, if_pos (this.1 hp)]
    · rw [if_neg hp, if_neg (fun x => hp (this.2 x))]

theorem length_spacedOut (p : Char → Prop) [DecidablePred p] (cs : Str) :
    (spacedOut p cs).length = cs.length + 2 * cs.countP p := by
  induction cs with
  | nil => rfl
  | cons c cs ih =>
    have e : spacedOut p (c :: cs) = (if p c then [' ', c, ' '] else [c]) ++ spacedOut p cs := rfl
    rw [e, List.length_append, ih, List.countP_cons]
    by_cases hp : p c <;> simp [hp] <;> omega

theorem spacedPlaces_congr {p q : Char → Prop} [DecidablePred p] [DecidablePred q] {cs : Str}
    (h : ∀ c ∈ cs, (p c ↔ q c)) : spacedPlaces p cs = spacedPlaces q cs := by
  unfold spacedPlaces
  simp only [List.flatMap_def]
  congr 1
  apply List.map_congr_left
  intro m hm
  have hm := List.mem_range.1 hm
  rw [List.getElem?_eq_getElem hm, Option.getD_some]
  have := h _ (List.getElem_mem hm)
  by_cases hp : p cs[m]
  · rw [if_pos hp, if_pos (this.1 hp)]
  · rw [if_neg hp, if_neg (fun x => hp (this.2 x))]

theorem handleChinese_new (cs : Str) : ∃ n', (newNStr (encStr cs)).handleChinese = .ok n' ∧
    n'.normalized = encStr (spacedOut Separated cs) ∧ n'.original = encStr cs ∧
    n'.aligns.length = n'.normalized.length ∧ Within (blen cs) n'.aligns ∧
    ('\x00' ∉ cs → n'.aligns = spacedPlaces Separated cs) := by
  obtain ⟨h1, h2⟩ := chinese_items cs
  have hr : runes (newNStr (encStr cs)).normalized = cs := runes_encStr cs
  unfold NStr.handleChinese
  rw [hr]
  obtain ⟨n', e1, e2, e3, e4, e5, e6⟩ := C41_transform_partial cs (chineseItems cs) (by omega)
  exact ⟨n', e1, by rw [e2, h1], e3, e4, e5, fun hz => by rw [(e6 hz).1, sources_chinese]⟩

/-- **C84, partial.** On a new string, separating ideographs always works, gives one alignment per
byte within the original, and, if no character is of Extension A, the text with each ideograph between
two spaces; without NUL, the alignments are then the places of the characters. -/
theorem C84_chinese_partial (cs : Str) : ∃ n', (newNStr (encStr cs)).handleChinese = .ok n' ∧
    n'.original = encStr cs ∧ n'.aligns.length = n'.normalized.length ∧ Within (blen cs) n'.aligns ∧
    ((∀ c ∈ cs, ¬ ExtA c) → n'.normalized = encStr (spacedOut Cjk cs) ∧
      ('\x00' ∉ cs → n'.aligns = spacedPlaces Cjk cs)) := by
  obtain ⟨n', h1, h2, h3, h4, h5, h6⟩ := handleChinese_new cs
  refine ⟨n', h1, h3, h4, h5, fun hx => ?_⟩
  have hc : ∀ c ∈ cs, (Separated c ↔ Cjk c) := fun c hc => ⟨fun h => h.1, fun h => ⟨h, hx c hc⟩⟩
  exact ⟨by rw [h2, spacedOut_congr hc], fun hz => by rw [h6 hz, spacedPlaces_congr hc]⟩

/-- **C84.** Whatever the text, nothing else is added and nothing is lost: without spaces the text
is the same. -/
theorem C84_nothing_lost (cs : Str) : ∃ n' ds, (newNStr (encStr cs)).handleChinese = .ok n' ∧
    n'.normalized = encStr ds ∧ ds.filter (· ≠ ' ') = cs.filter (· ≠ ' ') := by
  obtain ⟨n', h1, h2, h3⟩ := handleChinese_new cs
  refine ⟨n', _, h1, h2, ?_⟩
  clear h1 h2 h3
  induction cs with
  | nil => rfl
  | cons c cs ih =>
    have : spacedOut Separated (c :: cs) = (if Separated c then [' ', c, ' '] else [c]) ++ spacedOut Separated cs := rfl
    rw [this, List.filter_append, ih, List.filter_cons]
    split <;> by_cases hc : c = ' ' <;> simp [hc]

/-- **C84, violated.** The ranges of the table are not in order, and the search of package unicode
stops at the first one that begins after the character: the ideographs of Extension A are not found,
and every text with one of them comes out wrong. -/
theorem C84_extension_violated (cs : Str) (h : ∃ c ∈ cs, ExtA c) : ∃ n',
    (newNStr (encStr cs)).handleChinese = .ok n' ∧ n'.normalized ≠ encStr (spacedOut Cjk cs) := by
  obtain ⟨n', h1, h2, _⟩ := handleChinese_new cs
  refine ⟨n', h1, ?_⟩
  rw [h2]
  intro he
  have he := congrArg List.length (encStr_inj he)
  rw [length_spacedOut, length_spacedOut] at he
  have hlt : ∀ l : Str, l.countP Separated ≤ l.countP Cjk ∧
      ((∃ c ∈ l, ExtA c) → l.countP Separated < l.countP Cjk) := by
    intro l
    induction l with
    | nil => exact ⟨Nat.le_refl _, by rintro ⟨c, hc, _⟩; cases hc⟩
    | cons c l ih =>
      rw [List.countP_cons, List.countP_cons]
      by_cases hx : ExtA c
      · have hs : ¬ Separated c := fun s => s.2 hx
        have hk : Cjk c := ⟨(0x3400, 0x4DBF), by decide, hx.1, hx.2⟩
        simp only [hs, hk, decide_true, decide_false, if_true, if_false, Bool.false_eq_true]
        exact ⟨by omega, fun _ => by omega⟩
      · have hk : Separated c ↔ Cjk c := ⟨fun h => h.1, fun h => ⟨h, hx⟩⟩
        refine ⟨by simp only [hk]; omega, ?_⟩
        rintro ⟨d, hd, hdx⟩
        rcases List.mem_cons.1 hd with rfl | hd
        · exact absurd hdx hx
        · have := ih.2 ⟨d, hd, hdx⟩
          simp only [hk]
          omega
  have := (hlt cs).2 h
  omega

example : ExtA '㐀' ∧ Cjk '㐀' := by decide +kernel

example : spacedOut Cjk ['a', '中', 'b'] = ['a', ' ', '中', ' ', 'b'] ∧
    spacedPlaces Cjk ['a', '中', 'b'] = [(0, 1), (0, 1), (1, 4), (1, 4), (1, 4), (1, 4), (4, 5)] := by
  decide +kernel

/-! ### C85 -/

/-- The text that the normalizer is to give, for a lower-casing function on texts. -/
def bertSpec (b : Bert) (T : Tables) (lower : Str → Str) (cs : Str) : Str :=
  let s1 := if b.clean then cleanSpec T.ctl cs else cs
  let s2 := if b.chinese then spacedOut Cjk s1 else s1
  let s3 := if b.lowercase then lower s2 else s2
  if b.accents then s3.filter (fun c => !T.mn c) else s3

theorem cleanLoop_ident (ctl : Char → Bool) (l : List Char) (h : ∀ c ∈ l, isDirty ctl c = false) :
    ∀ acc, cleanLoop ctl l 0 acc = ((l.reverse.map (fun c => ([c], 0))) ++ acc, 0) := by
  induction l with
  | nil => intro acc; rfl
  | cons c l ih =>
    intro acc
    have hc := h c (by simp)
    simp only [cleanLoop, hc, Bool.false_eq_true, if_false, gt_iff_lt, Nat.lt_irrefl]
    rw [ih (fun d hd => h d (by simp [hd]))]
    simp

theorem filterLoop_ident (fn : Char → Bool) (l : List Char) (h : ∀ c ∈ l, fn c = true) :
    ∀ acc, filterLoop fn l 0 acc = ((l.reverse.map (fun c => ([c], 0))) ++ acc, 0) := by
  induction l with
  | nil => intro acc; rfl
  | cons c l ih =>
    intro acc
    have hc := h c (by simp)
    simp only [filterLoop, hc, if_true, if_false, gt_iff_lt, Nat.lt_irrefl]
    rw [ih (fun d hd => h d (by simp [hd]))]
    simp

theorem chineseItems_ident (cs : Str) (h : ∀ c ∈ cs, ¬ Cjk c) :
    chineseItems cs = cs.map (fun c => ([c], 0)) := by
  unfold chineseItems
  induction cs with
  | nil => rfl
  | cons c cs ih =>
    rw [List.flatMap_cons, ih (fun d hd => h d (by simp [hd])), if_neg (fun x => h c (by simp) ((isChinese_iff c).1 x).1)]
    rfl

/-- A text without unwanted characters, ideographs and (after lower-casing) combining marks goes through all steps. -/
theorem bert_same (b : Bert) (T : Tables) {n : NStr} {cs ds : Str} (s0 : Same n cs) (o0 : n.original = encStr cs)
    (h1 : ∀ c ∈ cs, ¬ Unwanted T.ctl c) (h2 : ∀ c ∈ cs, ¬ Cjk c)
    (hl : b.lowercase = true → T.lower (encStr cs) = encStr ds ∧ ds.map Char.utf8Size = cs.map Char.utf8Size)
    (h3 : ∀ c ∈ (if b.lowercase then ds else cs), T.mn c = false ∧ c ≠ '\x00') :
    ∃ n', b.normalize T n = .ok n' ∧ Same n' (if b.lowercase then ds else cs) ∧ n'.original = encStr cs := by
  have hz : '\x00' ∉ cs := fun h => h1 _ h (.inl rfl)
  have st1 : ∃ n1, (if b.clean then n.cleanText T.ctl else .ok n) = .ok n1 ∧
      Same n1 cs ∧ n1.original = encStr cs := by
    by_cases hc : b.clean = true
    · rw [if_pos hc]
      obtain ⟨n', e1, e2, e3⟩ := s0.ident hz
      refine ⟨n', ?_, e2, by rw [e3, o0]⟩
      unfold NStr.cleanText
      rw [s0.text, runes_encStr, cleanLoop_ident T.ctl _ (by
        intro c hc
        have := h1 c (by simpa using hc)
        by_cases hd : isDirty T.ctl c = true
        · exact absurd ((isDirty_iff T.ctl c).1 hd) this
        · simpa using hd)]
      simpa using e1
    · rw [if_neg hc]; exact ⟨_, rfl, s0, o0⟩
  obtain ⟨n1, e1, s1, o1⟩ := st1
  have st2 : ∃ n2, (if b.chinese then n1.handleChinese else .ok n1) = .ok n2 ∧ Same n2 cs ∧
      n2.original = encStr cs := by
    by_cases hc : b.chinese = true
    · rw [if_pos hc]
      obtain ⟨n', e1, e2, e3⟩ := s1.ident hz
      refine ⟨n', ?_, e2, by rw [e3, o1]⟩
      unfold NStr.handleChinese
      rw [s1.text, runes_encStr, chineseItems_ident cs h2]
      exact e1
    · rw [if_neg hc]; exact ⟨_, rfl, s1, o1⟩
  obtain ⟨n2, e2, s2, o2⟩ := st2
  have st3 : Same (if b.lowercase then n2.recase T.lower else n2) (if b.lowercase then ds else cs) ∧
      (if b.lowercase then n2.recase T.lower else n2).original = encStr cs := by
    by_cases hc : b.lowercase = true
    · rw [if_pos hc, if_pos hc]; exact ⟨s2.recase (hl hc).1 (hl hc).2, o2⟩
    · rw [if_neg hc, if_neg hc]; exact ⟨s2, o2⟩
  obtain ⟨s3, o3⟩ := st3
  unfold Bert.normalize
  simp only [e1, e2, Res.bind]
  by_cases hc : b.accents = true
  · rw [if_pos hc]
    obtain ⟨n', f1, f2, f3⟩ := s3.ident (fun h => (h3 _ h).2 rfl)
    refine ⟨n', ?_, f2, by rw [f3, o3]⟩
    unfold NStr.removeAccents NStr.filter
    rw [s3.text, runes_encStr, filterLoop_ident _ _ (by
      intro c hc
      have := (h3 c (by simpa using hc)).1
      simp [this])]
    simpa using f1
  · rw [if_neg hc]
    exact ⟨_, rfl, s3, o3⟩

/-- **C85, partial.** A text without unwanted characters, ideographs and (after lower-casing)
combining marks goes through all steps, in every choice of options, and only its case changes; its
alignments stay those of the original, if lower-casing changes no character's number of bytes. -/
theorem C85_plain_partial (b : Bert) (T : Tables) (cs ds : Str) (h1 : ∀ c ∈ cs, ¬ Unwanted T.ctl c)
    (h2 : ∀ c ∈ cs, ¬ Cjk c) (hl : T.lower (encStr cs) = encStr ds)
    (hs : ds.map Char.utf8Size = cs.map Char.utf8Size)
    (h3 : ∀ c ∈ (if b.lowercase then ds else cs), T.mn c = false ∧ c ≠ '\x00') :
    ∃ n', b.normalize T (newNStr (encStr cs)) = .ok n' ∧
      n'.normalized = encStr (if b.lowercase then ds else cs) ∧ n'.original = encStr cs ∧
      n'.aligns = (newNStr (encStr cs)).aligns := by
  obtain ⟨n', e1, e2, e3⟩ := bert_same b T (Same.fresh cs) rfl h1 h2 (fun _ => ⟨hl, hs⟩) h3
  refine ⟨n', e1, e2.text, e3, ?_⟩
  rw [e2.aligns, newNStr_aligns]
  split
  · exact (byteRanges_sizes cs ds 0 hs).1
  · rfl

/-- **C85, violated.** Accents on composed characters are not removed: the text above stays the
same with the option and without. Here `é` stays `é`. -/
theorem C85_accents_violated (T : Tables) (h : T.mn 'é' = false) :
    ∃ n', (⟨false, false, false, true⟩ : Bert).normalize T (newNStr (encStr ['é'])) = .ok n' ∧
      n'.normalized = encStr ['é'] := by
  let T' : Tables := { T with ctl := fun _ => false, lower := id }
  have e : ∀ n, (⟨false, false, false, true⟩ : Bert).normalize T n =
      (⟨false, false, false, true⟩ : Bert).normalize T' n := fun n => rfl
  obtain ⟨n', h1, h2, _⟩ := C85_plain_partial ⟨false, false, false, true⟩ T' ['é'] ['é']
    (by simp [Unwanted, T']) (by decide) rfl rfl (by simp [T', h])
  exact ⟨n', by rw [e]; exact h1, h2⟩

end Tok.Norm
