import Verif.Norm.PropsForms

/-! # C88, C89, C90: normalizers and their sequences -/

namespace Tok.Norm

/-! ### The original text stays -/

theorem transformRange_original {n n' : NStr} {r : Rng} {items : List (Str × Int)} {k : Nat}
    (h : n.transformRange r items k = .ok n') : n'.original = n.original := by
  unfold NStr.transformRange at h
  simp only [Res.bind_ok, Res.bind_panic] at h
  split at h
  · obtain ⟨nb, _, h⟩ := Res.bind_eq_ok.mp h
    split at h
    · cases h
    · obtain ⟨_, _, h⟩ := Res.bind_eq_ok.mp h
      obtain ⟨_, _, h⟩ := Res.bind_eq_ok.mp h
      obtain ⟨_, _, h⟩ := Res.bind_eq_ok.mp h
      obtain ⟨_, _, h⟩ := Res.bind_eq_ok.mp h
      obtain ⟨_, _, h⟩ := Res.bind_eq_ok.mp h
      obtain ⟨_, _, h⟩ := Res.bind_eq_ok.mp h
      obtain ⟨_, _, h⟩ := Res.bind_eq_ok.mp h
      cases h
      rfl
  · obtain ⟨o, _, h⟩ := Res.bind_eq_ok.mp h
    split at h
    · cases h
    · obtain ⟨nb, _, h⟩ := Res.bind_eq_ok.mp h
      split at h
      · cases h
      · obtain ⟨_, _, h⟩ := Res.bind_eq_ok.mp h
        obtain ⟨_, _, h⟩ := Res.bind_eq_ok.mp h
        obtain ⟨_, _, h⟩ := Res.bind_eq_ok.mp h
        obtain ⟨_, _, h⟩ := Res.bind_eq_ok.mp h
        obtain ⟨_, _, h⟩ := Res.bind_eq_ok.mp h
        obtain ⟨_, _, h⟩ := Res.bind_eq_ok.mp h
        obtain ⟨_, _, h⟩ := Res.bind_eq_ok.mp h
        cases h
        rfl

theorem transform_original {n n' : NStr} {items : List (Str × Int)} {k : Nat}
    (h : n.transform items k = .ok n') : n'.original = n.original := transformRange_original h

theorem strip_original {n n' : NStr} {space : Char → Bool} {l r : Bool} (h : n.strip space l r = .ok n') :
    n'.original = n.original := by
  unfold NStr.strip at h
  simp only at h
  generalize (if l = true then ((runes n.normalized).takeWhile space).length else 0) = lead at h
  generalize (if r = true then ((runes n.normalized).reverse.takeWhile space).length else 0) = trail at h
  split at h
  · exact transform_original h
  · cases h; rfl

theorem stripNormalize_original {T : Tables} {n n' : NStr} {l r : Bool} (h : stripNormalize T l r n = .ok n') :
    n'.original = n.original := by
  unfold stripNormalize at h
  split at h
  · exact strip_original h
  · split at h
    · exact strip_original h
    · split at h
      · exact strip_original h
      · cases h; rfl

theorem replaceLoop_original (content : Str) (ms : List Span) : ∀ {off : Int} {n n' : NStr},
    replaceLoop content ms off n = .ok n' → n'.original = n.original := by
  induction ms with
  | nil => intro off n n' h; cases h; rfl
  | cons m ms ih =>
    intro off n n' h
    rw [replaceLoop] at h
    split at h
    · obtain ⟨_, _, h⟩ := Res.bind_eq_ok.mp h
      obtain ⟨n1, h1, h⟩ := Res.bind_eq_ok.mp h
      rw [ih h, transformRange_original h1]
    · exact ih h

theorem bert_original {b : Bert} {T : Tables} {n n' : NStr} (h : b.normalize T n = .ok n') :
    n'.original = n.original := by
  unfold Bert.normalize at h
  obtain ⟨n1, h1, h⟩ := Res.bind_eq_ok.mp h
  obtain ⟨n2, h2, h⟩ := Res.bind_eq_ok.mp h
  have e1 : n1.original = n.original := by
    split at h1
    · exact transform_original h1
    · cases h1; rfl
  have e2 : n2.original = n1.original := by
    split at h2
    · exact transform_original h2
    · cases h2; rfl
  have e3 : (if b.lowercase then n2.recase T.lower else n2).original = n2.original := by split <;> rfl
  simp only at h
  generalize (if b.lowercase then n2.recase T.lower else n2) = n3 at h e3
  split at h
  · have := transform_original (n' := n') h
    rw [this, e3, e2, e1]
  · cases h; rw [e3, e2, e1]

/-! ### C88 -/

/-- A normalizer without the two that return nil. -/
inductive Keeps : Normalizer → Prop
  | bert (b : Bert) : Keeps (.bert b)
  | nfc : Keeps .nfc
  | nfd : Keeps .nfd
  | nfkc : Keeps .nfkc
  | strip (l r : Bool) : Keeps (.strip l r)
  | stripAccents : Keeps .stripAccents
  | replace (p : Pat) (c : List UInt8) : Keeps (.replace p c)
  | default (l s : Bool) : Keeps (.default l s)
  | wrapped (z : Normalizer) : Keeps (.wrapped z)
  | sequence (l : List Normalizer) (h : ∀ z ∈ l, Keeps z) : Keeps (.sequence l)

theorem bind_some {r : Res NStr} {o : Option NStr} (h : (r.bind (fun x => .ok (some x))) = .ok o) :
    ∃ x, r = .ok x ∧ o = some x := by
  obtain ⟨x, h1, h2⟩ := Res.bind_eq_ok.mp h
  cases h2
  exact ⟨x, h1, rfl⟩

/-- **C88, partial.** A normalizer without NFKD and Prepend, however nested, that comes to an end
returns a string, not nil, and the string has the same original text. -/
theorem C88_keeps_partial (T : Tables) (z : Normalizer) (hz : Keeps z) : ∀ (n : NStr) (o : Option NStr),
    z.normalize T (some n) = .ok o → ∃ n', o = some n' ∧ n'.original = n.original := by
  induction hz with
  | bert b =>
    intro n o h
    rw [Normalizer.normalize] at h
    obtain ⟨x, h1, rfl⟩ := bind_some h
    exact ⟨x, rfl, bert_original h1⟩
  | nfc =>
    intro n o h
    rw [Normalizer.normalize] at h
    obtain ⟨x, h1, rfl⟩ := bind_some h
    refine ⟨x, rfl, ?_⟩
    unfold NStr.nfc at h1
    split at h1
    · cases h1; rfl
    · exact transform_original h1
  | nfd =>
    intro n o h
    rw [Normalizer.normalize] at h
    obtain ⟨x, h1, rfl⟩ := bind_some h
    exact ⟨x, rfl, transform_original h1⟩
  | nfkc =>
    intro n o h
    rw [Normalizer.normalize] at h
    obtain ⟨x, h1, rfl⟩ := bind_some h
    refine ⟨x, rfl, ?_⟩
    unfold NStr.nfkc at h1
    split at h1
    · cases h1; rfl
    · exact transform_original h1
  | strip l r =>
    intro n o h
    rw [Normalizer.normalize] at h
    obtain ⟨x, h1, rfl⟩ := bind_some h
    exact ⟨x, rfl, stripNormalize_original h1⟩
  | stripAccents =>
    intro n o h
    rw [Normalizer.normalize] at h
    obtain ⟨x, h1, rfl⟩ := bind_some h
    exact ⟨x, rfl, transform_original h1⟩
  | replace p c =>
    intro n o h
    rw [Normalizer.normalize] at h
    obtain ⟨x, h1, rfl⟩ := bind_some h
    refine ⟨x, rfl, ?_⟩
    unfold NStr.replace at h1
    obtain ⟨ms, _, h1⟩ := Res.bind_eq_ok.mp h1
    exact replaceLoop_original _ _ h1
  | default l s =>
    intro n o h
    rw [Normalizer.normalize] at h
    have e : (if l = true then n.recase T.lower else n).original = n.original := by split <;> rfl
    generalize (if l = true then n.recase T.lower else n) = n1 at h e
    split at h
    · obtain ⟨x, h1, rfl⟩ := bind_some h
      exact ⟨x, rfl, by rw [strip_original h1, e]⟩
    · cases h
      exact ⟨_, rfl, e⟩
  | wrapped z =>
    intro n o h
    rw [Normalizer.normalize] at h
    cases h
    exact ⟨n, rfl, rfl⟩
  | sequence l hk ih =>
    intro n o h
    rw [Normalizer.normalize] at h
    clear hk
    induction l generalizing n with
    | nil =>
      rw [Normalizer.normalizeAll] at h
      cases h
      exact ⟨n, rfl, rfl⟩
    | cons z l ihl =>
      rw [Normalizer.normalizeAll] at h
      obtain ⟨o1, h1, h⟩ := Res.bind_eq_ok.mp h
      obtain ⟨n1, rfl, e1⟩ := ih z (by simp) n o1 h1
      obtain ⟨n', rfl, e2⟩ := ihl (fun x hx => ih x (by simp [hx])) n1 h
      exact ⟨n', rfl, by rw [e2, e1]⟩

/-- Normalizers that look at their text. -/
inductive Reads : Normalizer → Prop
  | bert (b : Bert) (h : b.clean = true ∨ b.chinese = true ∨ b.lowercase = true ∨ b.accents = true) : Reads (.bert b)
  | nfc : Reads .nfc
  | nfd : Reads .nfd
  | nfkc : Reads .nfkc
  | nfkd : Reads .nfkd
  | strip (l r : Bool) (h : l = true ∨ r = true) : Reads (.strip l r)
  | stripAccents : Reads .stripAccents
  | prepend (s : List UInt8) : Reads (.prepend s)
  | replace (p : Pat) (c : List UInt8) : Reads (.replace p c)
  | default (l s : Bool) (h : l = true ∨ s = true) : Reads (.default l s)

theorem reads_nil (T : Tables) {z : Normalizer} (h : Reads z) : z.normalize T none = .panic := by
  cases h with
  | bert b h =>
    rw [Normalizer.normalize]
    rcases h with h | h | h | h <;> simp [h]
  | strip l r h =>
    rw [Normalizer.normalize]
    rcases h with h | h <;> simp [h]
  | default l s h =>
    rw [Normalizer.normalize]
    rcases h with h | h <;> simp [h]
  | nfc => rfl
  | nfd => rfl
  | nfkc => rfl
  | nfkd => rfl
  | stripAccents => rfl
  | prepend s => rfl
  | replace p c => rfl

/-- **C88, violated.** After NFKD, every text already in this form makes the next normalizer
crash; so does the empty text after Prepend. -/
theorem C88_nil_violated (T : Tables) (n : NStr) (z : Normalizer) (hz : Reads z) (s : List UInt8) :
    (T.isNFKD n.normalized = true → (Normalizer.sequence [.nfkd, z]).normalize T (some n) = .panic) ∧
    (n.normalized = [] → (Normalizer.sequence [.prepend s, z]).normalize T (some n) = .panic) := by
  constructor
  · intro h
    simp only [Normalizer.normalize, Normalizer.normalizeAll]
    rw [C86_nfkd_violated T n h]
    simp only [Res.bind, reads_nil T hz]
  · intro h
    simp only [Normalizer.normalize, Normalizer.normalizeAll]
    rw [if_pos h]
    simp only [Res.bind, reads_nil T hz]

/-- **C88, partial.** Decomposing, lower-casing and removing the marks, a usual sequence, gives the
lower-cased decomposed text without its marks, if each segment is the decomposition of one character,
the text has no NUL and begins with no mark, and lower-casing keeps the number of bytes. -/
theorem C88_accents_partial (T : Tables) (cs ds : Str) (hz : '\x00' ∉ cs)
    (hs : ∀ s ∈ T.nfd (encStr cs), s ≠ []) (hlen : (T.nfd (encStr cs)).length = cs.length)
    (hl : T.lower (encStr (T.nfd (encStr cs)).flatten) = encStr ds)
    (hb : blen ds = blen (T.nfd (encStr cs)).flatten) (hfirst : ∀ c ∈ ds.head?, T.mn c = false) :
    ∃ n', (Normalizer.sequence [.nfd, .default true false, .stripAccents]).normalize T
        (some (newNStr (encStr cs))) = .ok (some n') ∧
      n'.normalized = encStr (ds.filter (fun c => !T.mn c)) ∧ n'.original = encStr cs ∧
      n'.aligns.length = n'.normalized.length := by
  obtain ⟨h1, h2⟩ := seg_items _ hs
  obtain ⟨n1, e1, e2, e3, e4, e5, _⟩ := transform_cover cs ((T.nfd (encStr cs)).flatMap segItems) hz (by omega)
    (by
      intro i hi
      cases hx : T.nfd (encStr cs) with
      | nil => rw [hx] at hi; cases hi
      | cons s segs =>
        rw [hx] at hi hs
        cases s with
        | nil => exact absurd rfl (hs [] (by simp))
        | cons c s =>
          rw [List.flatMap_cons, segItems] at hi
          cases hi
          simp)
    (.inl ⟨by
      intro i hi
      obtain ⟨s, _, hi⟩ := List.mem_flatMap.1 hi
      cases s with
      | nil => cases hi
      | cons c s =>
        rw [segItems] at hi
        rcases List.mem_cons.1 hi with rfl | hi
        · simp
        · obtain ⟨d, _, rfl⟩ := List.mem_map.1 hi
          simp, by omega⟩)
  rw [h1] at e4
  have hnl : (T.lower n1.normalized).length = n1.normalized.length := by
    rw [e4, hl, length_encStr, length_encStr, hb]
  obtain ⟨w2, c2⟩ := e3.recase e2 hnl
  have ht : (n1.recase T.lower).normalized = encStr ds := by
    show T.lower n1.normalized = _
    rw [e4, hl]
  obtain ⟨n', f1, f2, f3, f4⟩ := c2.filter w2 ht (fun c => !T.mn c) (fun c hc => by rw [hfirst c hc]; rfl)
  have e0 : (newNStr (encStr cs)).nfd T = .ok n1 := e1
  refine ⟨n', ?_, f2, ?_, f4⟩
  · simp only [Normalizer.normalize, Normalizer.normalizeAll, e0, Res.bind, if_true, Bool.false_eq_true,
      if_false, NStr.removeAccents, f1]
  · rw [f3]; exact e5

-- "Éa"
example : ∃ n', (Normalizer.sequence [.nfd, .default true false, .stripAccents]).normalize
    { formTables [['e', '́'], ['a']] with mn := (· == '́') } (some (newNStr (encStr ['é', 'a']))) = .ok (some n') ∧
    n'.normalized = encStr ['e', 'a'] := by
  obtain ⟨n', h1, h2, _⟩ := C88_accents_partial { formTables [['e', '́'], ['a']] with mn := (· == '́') }
    ['é', 'a'] ['e', '́', 'a'] (by decide) (by decide) rfl rfl rfl (by decide)
  exact ⟨n', h1, h2⟩

/-- C88 (Strip): the normalizer removes the white space of the sides it was created for, and nothing
else, whenever it succeeds; it does when no leading white space of several bytes is to be removed. -/
theorem C88_strip_partial (T : Tables) (left right : Bool) (cs : Str) :
    ((left = true → ∀ c ∈ cs.takeWhile T.space, c.utf8Size = 1) →
      ∃ n', (Normalizer.strip left right).normalize T (some (newNStr (encStr cs))) = .ok (some n')) ∧
    ∀ n', (Normalizer.strip left right).normalize T (some (newNStr (encStr cs))) = .ok (some n') →
      n'.normalized = encStr (stripped T.space left right cs) ∧ n'.original = encStr cs := by
  have he : stripNormalize T left right (newNStr (encStr cs)) = .ok (newNStr (encStr cs)) ∧ left = false ∧ right = false ∨
      stripNormalize T left right (newNStr (encStr cs)) = (newNStr (encStr cs)).strip T.space left right := by
    cases left <;> cases right <;> simp [stripNormalize]
  have h0 : stripped T.space false false cs = cs := by simp [stripped]
  simp only [Normalizer.normalize]
  rcases he with ⟨he, rfl, rfl⟩ | he
  · rw [he]
    refine ⟨fun _ => ⟨_, rfl⟩, ?_⟩
    intro n' h
    cases h
    exact ⟨by rw [h0]; rfl, rfl⟩
  · rw [he]
    constructor
    · intro h
      obtain ⟨n', hn⟩ := C42_strip_ok_partial T.space left right cs h
      exact ⟨n', by rw [hn]; rfl⟩
    · intro n' h
      obtain ⟨x, hx, h⟩ := Res.bind_eq_ok.mp h
      cases h
      obtain ⟨h1, h2, _⟩ := C42_strip_partial T.space left right cs _ hx
      exact ⟨h1, h2⟩

/-- One blank on each side, removed on the left only. -/
example : stripped (· == ' ') true false " a ".toList = "a ".toList := by decide +kernel

/-! ### C89 -/

/-- **C89, partial.** Lower-casing keeps the original and the alignments; so there is still one
alignment for each byte if the number of bytes is the same. -/
theorem C89_lower_partial (T : Tables) (n : NStr) (hw : WF n)
    (hl : (T.lower n.normalized).length = n.normalized.length) :
    ∃ n', (Normalizer.default true false).normalize T (some n) = .ok (some n') ∧
      n'.normalized = T.lower n.normalized ∧ n'.original = n.original ∧ n'.aligns = n.aligns ∧
      n'.aligns.length = n'.normalized.length := by
  refine ⟨n.recase T.lower, by simp [Normalizer.normalize], rfl, rfl, rfl, ?_⟩
  show n.aligns.length = (T.lower n.normalized).length
  rw [hl, hw.lenA]

/-- **C89, violated.** Whenever lower-casing changes the number of bytes, the alignments no longer
belong to the bytes; and when the text gets longer, no place is found for the whole text, and asking
for its original crashes. -/
theorem C89_length_violated (T : Tables) (n : NStr) (hw : WF n)
    (hl : (T.lower n.normalized).length ≠ n.normalized.length) :
    ∃ n', (Normalizer.default true false).normalize T (some n) = .ok (some n') ∧
      n'.aligns.length ≠ n'.normalized.length ∧
      (n.normalized.length < (T.lower n.normalized).length →
        n'.rangeOriginal ⟨0, n'.normalized.length, .normalized⟩ = .panic) := by
  refine ⟨n.recase T.lower, by simp [Normalizer.normalize], ?_, ?_⟩
  · show n.aligns.length ≠ (T.lower n.normalized).length
    rw [hw.lenA]
    exact fun h => hl h.symm
  · intro h
    have hn : (n.recase T.lower).normalized = T.lower n.normalized := rfl
    have ha : (n.recase T.lower).aligns = n.aligns := rfl
    have hla := hw.lenA
    unfold NStr.rangeOriginal NStr.convert
    have hf : (⟨0, ((n.recase T.lower).normalized.length : Int), .normalized⟩ : Rng).full
        (n.recase T.lower).normalized.length = ⟨0, ((n.recase T.lower).normalized.length : Int), .normalized⟩ := by
      simp [Rng.full]
    simp only [hf]
    rw [if_neg (by rw [hn]; omega), if_pos (by rw [hn, ha, hla]; omega)]
    rfl

-- "Ⱥ" has two bytes, "ⱥ" three
example : (newNStr (encStr ['Ⱥ'])).normalized.length = 2 ∧ (encStr ['ⱥ']).length = 3 := by decide +kernel

/-! ### C90 -/

/-- **C90, violated.** `NewNormalizer` ignores its options: the normalizer it gives changes
nothing. -/
theorem C90_options_violated (T : Tables) (opts : List NewOption) (n : NStr) :
    (newNormalizer opts).normalize T (some n) = .ok (some n) := by
  unfold newNormalizer
  rw [Normalizer.normalize]

-- the BERT normalizer would separate the ideograph
example : okAnd ((newNStr (encStr ['a', '中'])).handleChinese) (fun n => n.normalized != encStr ['a', '中']) = true := by
  decide +kernel

theorem Cover.rstrip {n : NStr} (hw : WF n) (hc : Cover n) {ds : Str} (ht : n.normalized = encStr ds)
    (space : Char → Bool) (left right : Bool) (hfirst : left = true → ∀ c ∈ ds.head?, space c = false) :
    ∃ n', n.strip space left right = .ok n' ∧ n'.normalized = encStr (stripped space left right ds) ∧
      n'.original = n.original ∧ n'.aligns.length = n'.normalized.length := by
  have htx := strip_text space left right ds
  have hl0 : (if left = true then (ds.takeWhile space).length else 0) = 0 := by
    cases left with
    | false => rfl
    | true =>
      cases ds with
      | nil => rfl
      | cons c ds => simp [hfirst rfl c (by simp)]
  have hs : n.strip space left right =
      (let lead := if left then (ds.takeWhile space).length else 0
       let trail := if right then (ds.reverse.takeWhile space).length else 0
       if lead > 0 ∨ trail > 0 then n.transform (stripItems ds lead trail) lead else .ok n) := by
    simp only [NStr.strip, ht, runes_encStr, stripItems]
  rw [hs]
  simp only [hl0] at htx ⊢
  generalize (if right = true then (ds.reverse.takeWhile space).length else 0) = trail at htx
  split
  · have hu := stripItems_uses ds 0 trail (by omega)
    obtain ⟨n', e1, e2, e3, e4⟩ := hc.step hw ht (items := stripItems ds 0 trail) (by omega)
    exact ⟨n', e1, by rw [e2, stripItems_text, htx], e3, e4⟩
  · next h =>
    refine ⟨n, rfl, ?_, rfl, hw.lenA⟩
    rw [ht, ← htx, show trail = 0 by omega]
    simp

/-- **C90, partial.** The default normalizer with the two options set lower-cases the text and takes
away the white space around it, if the text begins with another character and lower-casing keeps the
number of bytes. -/
theorem C90_default_partial (T : Tables) (lower strip : Bool) (n : NStr) (hw : WF n) (hc : Cover n) (cs ds : Str)
    (ht : n.normalized = encStr cs) (hl : T.lower (encStr cs) = encStr ds) (hb : blen ds = blen cs)
    (hfirst : ∀ c ∈ (if lower then ds else cs).head?, T.space c = false) :
    ∃ n', (Normalizer.default lower strip).normalize T (some n) = .ok (some n') ∧
      n'.normalized = encStr (
        let s := if lower then ds else cs
        if strip then stripped T.space true true s else s) ∧
      n'.original = n.original ∧ n'.aligns.length = n'.normalized.length := by
  have st : ∃ n1, (if lower then n.recase T.lower else n) = n1 ∧ WF n1 ∧ Cover n1 ∧
      n1.normalized = encStr (if lower then ds else cs) ∧ n1.original = n.original := by
    cases lower with
    | false => exact ⟨n, rfl, hw, hc, ht, rfl⟩
    | true =>
      obtain ⟨w, c⟩ := hc.recase hw (f := T.lower) (by rw [ht, hl, length_encStr, length_encStr, hb])
      refine ⟨_, rfl, w, c, ?_, rfl⟩
      show T.lower n.normalized = _
      rw [ht, hl]
      rfl
  obtain ⟨n1, e1, w1, c1, t1, o1⟩ := st
  simp only [Normalizer.normalize, e1]
  cases strip with
  | false => exact ⟨n1, rfl, t1, o1, w1.lenA⟩
  | true =>
    obtain ⟨n', f1, f2, f3, f4⟩ := c1.rstrip w1 t1 T.space true true (fun _ => hfirst)
    refine ⟨n', ?_, f2, by rw [f3, o1], f4⟩
    simp only [if_true, f1, Res.bind]

example : ∃ n', (Normalizer.default true true).normalize
    { formTables [] with lower := fun _ => encStr "ab  ".toList, space := (· == ' ') }
    (some (newNStr (encStr "Ab  ".toList))) = .ok (some n') ∧ n'.normalized = encStr "ab".toList := by
  obtain ⟨n', h1, h2, _⟩ := C90_default_partial
    { formTables [] with lower := fun _ => encStr "ab  ".toList, space := (· == ' ') } true true
    (newNStr (encStr "Ab  ".toList)) (newNStr_wf _) (newNStr_cover _) "Ab  ".toList "ab  ".toList rfl rfl
    (by decide +kernel) (by decide +kernel)
  exact ⟨n', h1, h2⟩

end Tok.Norm
