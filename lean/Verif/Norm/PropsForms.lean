import Verif.Norm.PropsBertChain

/-! # C86, C87: the Unicode normal forms -/

namespace Tok.Norm

/-- `norm.Iter` delivers non-empty segments, at most one for each character. -/
structure Segments (segs : List Str) (cs : Str) : Prop where
  nonempty : ∀ s ∈ segs, s ≠ []
  count : segs.length ≤ cs.length

theorem inserted_text : ∀ s : Str, ((s.map (fun c => ([c], (1 : Int)))).map (·.1)).flatten = s := by
  intro s; induction s with
  | nil => rfl
  | cons c s ih => simp only [List.map_cons, List.flatten_cons, ih]; rfl

theorem inserted_uses : ∀ s : Str, usesAll (s.map (fun c => ([c], (1 : Int)))) = 0 := by
  intro s; induction s with
  | nil => rfl
  | cons c s ih => rw [List.map_cons, usesAll_cons, ih]; rfl

theorem seg_items (segs : List Str) (h : ∀ s ∈ segs, s ≠ []) :
    ((segs.flatMap segItems).map (·.1)).flatten = segs.flatten ∧ usesAll (segs.flatMap segItems) = segs.length := by
  induction segs with
  | nil => exact ⟨rfl, rfl⟩
  | cons s segs ih =>
    obtain ⟨i1, i2⟩ := ih (fun t ht => h t (by simp [ht]))
    rw [List.flatMap_cons, List.map_append, List.flatten_append, usesAll_append, i1, i2, List.flatten_cons]
    cases s with
    | nil => exact absurd rfl (h [] (by simp))
    | cons c s =>
      simp only [segItems]
      constructor
      · rw [List.map_cons, List.flatten_cons, inserted_text]; rfl
      · rw [usesAll_cons, inserted_uses, List.length_cons]; simp only [uses]; simp; omega

theorem segC_text (segs : List Str) (h : ∀ s ∈ segs, s ≠ []) :
    ((segs.flatMap segItemsC).map (·.1)).flatten = segs.flatten := by
  induction segs with
  | nil => rfl
  | cons s segs ih =>
    rw [List.flatMap_cons, List.map_append, List.flatten_append, ih (fun t ht => h t (by simp [ht])), List.flatten_cons]
    match s with
    | [] => exact absurd rfl (h [] (by simp))
    | [c] => rfl
    | c :: d :: s => simp [segItemsC]

theorem segC_uses (segs : List Str) :
    usesAll (segs.flatMap segItemsC) ≤ segs.length + (segs.filter (fun s => 1 < s.length)).length := by
  induction segs with
  | nil => exact Nat.le_refl _
  | cons s segs ih =>
    rw [List.flatMap_cons, usesAll_append, List.length_cons, List.filter_cons]
    match s with
    | [] => simp [segItemsC, usesAll] at ih ⊢; omega
    | [c] => simp [segItemsC, usesAll, uses] at ih ⊢; omega
    | c :: d :: s => simp [segItemsC, usesAll, uses] at ih ⊢; omega

/-! ### C86 -/

/-- **C86, partial.** NFD gives the decomposed text: the segments that the package for normal forms
delivers, put together, with one alignment per byte. -/
theorem C86_nfd_partial (T : Tables) (n : NStr) (hw : WF n) (hc : Cover n) (cs : Str)
    (ht : n.normalized = encStr cs) (hs : Segments (T.nfd n.normalized) cs) :
    ∃ n', n.nfd T = .ok n' ∧ n'.normalized = encStr (T.nfd n.normalized).flatten ∧
      n'.original = n.original ∧ n'.aligns.length = n'.normalized.length := by
  obtain ⟨h1, h2⟩ := seg_items _ hs.nonempty
  unfold NStr.nfd
  rw [← h1]
  exact hc.step hw ht (by rw [h2]; exact hs.count)

/-- **C86, partial.** NFKD gives the compatibility decomposition of a text that is not yet in this
form. -/
theorem C86_nfkd_partial (T : Tables) (n : NStr) (hw : WF n) (hc : Cover n) (cs : Str)
    (ht : n.normalized = encStr cs) (hs : Segments (T.nfkd n.normalized) cs)
    (hn : T.isNFKD n.normalized = false) :
    ∃ n', n.nfkd T = .ok (some n') ∧ n'.normalized = encStr (T.nfkd n.normalized).flatten ∧
      n'.original = n.original ∧ n'.aligns.length = n'.normalized.length := by
  obtain ⟨h1, h2⟩ := seg_items _ hs.nonempty
  obtain ⟨n', e1, e2⟩ := hc.step hw ht (items := (T.nfkd n.normalized).flatMap segItems) (by rw [h2]; exact hs.count)
  rw [h1] at e2
  refine ⟨n', ?_, e2⟩
  unfold NStr.nfkd
  rw [hn, e1]
  rfl

/-- **C86, violated.** NFKD loses a text that is in this form: it returns nil. -/
theorem C86_nfkd_violated (T : Tables) (n : NStr) (hn : T.isNFKD n.normalized = true) :
    n.nfkd T = .ok none := by
  unfold NStr.nfkd
  rw [if_pos hn]

/-- **C86, partial.** NFC and NFKC keep a text that is in their form. -/
theorem C86_composed_partial (T : Tables) (n : NStr) :
    (T.isNFC n.normalized = true → n.nfc T = .ok n) ∧ (T.isNFKC n.normalized = true → n.nfkc T = .ok n) := by
  constructor <;> intro h
  · unfold NStr.nfc; rw [if_pos h]
  · unfold NStr.nfkc; rw [if_pos h]

/-- **C86, violated.** NFC never composes: a text that is not in this form gets its decomposed
form. -/
theorem C86_nfc_violated (T : Tables) (n : NStr) (hw : WF n) (hc : Cover n) (cs : Str)
    (ht : n.normalized = encStr cs) (hs : Segments (T.nfd n.normalized) cs)
    (hn : T.isNFC n.normalized = false) :
    ∃ n', n.nfc T = .ok n' ∧ n'.normalized = encStr (T.nfd n.normalized).flatten := by
  obtain ⟨n', h1, h2, _⟩ := C86_nfd_partial T n hw hc cs ht hs
  refine ⟨n', ?_, h2⟩
  unfold NStr.nfc
  rw [hn]
  exact h1

/-- **C86, violated.** NFKC never composes either: a text that is not in this form gets its
compatibility decomposition, if the call succeeds; it does if the characters suffice for two for
each segment of several characters. -/
theorem C86_nfkc_violated (T : Tables) (n : NStr) (hw : WF n) (hc : Cover n) (cs : Str)
    (ht : n.normalized = encStr cs) (hs : Segments (T.nfkd n.normalized) cs)
    (hn : T.isNFKC n.normalized = false) :
    (∀ n', n.nfkc T = .ok n' → n'.normalized = encStr (T.nfkd n.normalized).flatten) ∧
    ((T.nfkd n.normalized).length + ((T.nfkd n.normalized).filter (fun s => 1 < s.length)).length ≤ cs.length →
      ∃ n', n.nfkc T = .ok n') := by
  have h1 := segC_text _ hs.nonempty
  have h2 := segC_uses (T.nfkd n.normalized)
  unfold NStr.nfkc
  rw [hn]
  simp only [Bool.false_eq_true, if_false]
  constructor
  · intro n' h
    rw [transform_eq hc hw.lenA] at h
    have := (transformRange_outcome hw h (Nat.le_refl _)).text
    rw [this, h1]
    simp
  · intro hle
    obtain ⟨n', h, _⟩ := hc.step hw ht (items := (T.nfkd n.normalized).flatMap segItemsC) (by omega)
    exact ⟨n', h⟩

/-- Tables with given segments and normal forms. -/
def formTables (segs : List Str) : Tables :=
  ⟨fun _ => false, fun _ => false, fun _ => false, id, fun _ => segs, fun _ => segs, fun _ => false, fun _ => false, fun _ => false⟩

-- "éa" in composed form is decomposed
example : ∃ n', (newNStr (encStr ['é', 'a'])).nfd (formTables [['e', '́'], ['a']]) = .ok n' ∧
    n'.normalized = encStr ['e', '́', 'a'] := by
  obtain ⟨n', h1, h2, _⟩ := C86_nfd_partial (formTables [['e', '́'], ['a']]) (newNStr (encStr ['é', 'a']))
    (newNStr_wf _) (newNStr_cover _) ['é', 'a'] rfl ⟨by decide, by decide⟩
  exact ⟨n', h1, h2⟩

-- "é" in decomposed form stays decomposed in NFC
example : ∃ n', (newNStr (encStr ['e', '́'])).nfc (formTables [['e', '́']]) = .ok n' ∧
    n'.normalized = encStr ['e', '́'] :=
  C86_nfc_violated (formTables [['e', '́']]) (newNStr (encStr ['e', '́']))
    (newNStr_wf _) (newNStr_cover _) ['e', '́'] rfl ⟨by decide, by decide⟩ rfl

/-! ### C87 -/

/-- The places of the bytes when segment `m` is the decomposition of character `m`. -/
def segPlaces (cs : Str) (segs : List Str) : List (Int × Int) :=
  (List.range segs.length).flatMap (fun m => List.replicate (blen (segs[m]?.getD [])) (charRange cs m))

theorem sources_inserted (cs : Str) (s : Str) (m : Nat) (items : List (Str × Int)) :
    sources cs (m + 1) (s.map (fun c => ([c], (1 : Int))) ++ items) =
      List.replicate (blen s) (charRange cs m) ++ sources cs (m + 1) items := by
  induction s with
  | nil => simp
  | cons c s ih =>
    have u1 : uses 1 = 0 := by decide
    rw [List.map_cons, List.cons_append, sources]
    simp only [u1, Nat.add_zero, Int.zero_lt_one, gt_iff_lt, if_true, Nat.add_one_ne_zero, if_false,
      Nat.add_sub_cancel]
    rw [ih, ← List.append_assoc, List.replicate_append_replicate, blen_cons, blen_cons, blen_nil, Nat.add_zero]

theorem sources_segs (cs : Str) (segs : List Str) (h : ∀ s ∈ segs, s ≠ []) : ∀ m,
    sources cs m (segs.flatMap segItems) = (List.range' m segs.length).flatMap (fun j =>
      List.replicate (blen (segs[j - m]?.getD [])) (charRange cs j)) := by
  induction segs with
  | nil => intro m; rfl
  | cons s segs ih =>
    intro m
    have ih := ih (fun t ht => h t (by simp [ht])) (m + 1)
    rw [List.flatMap_cons, List.length_cons, List.range'_succ, List.flatMap_cons]
    have e : (List.range' (m + 1) segs.length).flatMap (fun j =>
        List.replicate (blen ((s :: segs)[j - m]?.getD [])) (charRange cs j)) =
        (List.range' (m + 1) segs.length).flatMap (fun j =>
          List.replicate (blen (segs[j - (m + 1)]?.getD [])) (charRange cs j)) := by
      rw [List.flatMap_def, List.flatMap_def]
      congr 1
      apply List.map_congr_left
      intro j hj
      have := (List.mem_range'_1.1 hj).1
      rw [show j - m = (j - (m + 1)) + 1 by omega, List.getElem?_cons_succ]
    rw [e, ← ih]
    cases s with
    | nil => exact absurd rfl (h [] (by simp))
    | cons c s =>
      have u0 : uses 0 = 1 := by decide
      simp only [segItems, List.cons_append, sources, u0]
      rw [sources_inserted]
      simp only [Int.lt_irrefl, gt_iff_lt, if_false, Nat.sub_self, List.getElem?_cons_zero, Option.getD_some]
      rw [← List.append_assoc, List.replicate_append_replicate, blen_cons, blen_cons, blen_nil, Nat.add_zero]

/-- **C87, partial.** If every segment is the decomposition of one character, all bytes of NFD have
the place of this character in the original. -/
theorem C87_places_partial (T : Tables) (cs : Str) (hz : '\x00' ∉ cs)
    (hs : ∀ s ∈ T.nfd (encStr cs), s ≠ []) (hl : (T.nfd (encStr cs)).length = cs.length) :
    ∃ n', (newNStr (encStr cs)).nfd T = .ok n' ∧ n'.aligns = segPlaces cs (T.nfd (encStr cs)) := by
  obtain ⟨h1, h2⟩ := seg_items _ hs
  obtain ⟨n', e1, _, _, _, _, e6⟩ := C41_transform_partial cs ((T.nfd (encStr cs)).flatMap segItems) (by omega)
  refine ⟨n', e1, ?_⟩
  rw [(e6 hz).1, sources_segs cs _ hs, segPlaces, List.range_eq_range']
  simp

example : segPlaces ['é', 'a'] [['e', '́'], ['a']] = [(0, 2), (0, 2), (0, 2), (2, 3)] := by decide +kernel

/-- **C87, violated.** Once a segment comes from several characters, what follows has the place of
an earlier character: of a letter, a mark and a character `x`, `x` gets the place of the mark. -/
theorem C87_shifted_violated (T : Tables) (a m x : Char) (hz : '\x00' ∉ [a, m, x])
    (hs : T.nfd (encStr [a, m, x]) = [[a, m], [x]]) :
    ∃ n', (newNStr (encStr [a, m, x])).nfd T = .ok n' ∧ n'.normalized = encStr [a, m, x] ∧
      n'.aligns = List.replicate (a.utf8Size + m.utf8Size) (charRange [a, m, x] 0) ++
        List.replicate x.utf8Size (charRange [a, m, x] 1) := by
  obtain ⟨n', e1, e2, _, _, _, e6⟩ := C41_transform_partial [a, m, x] [([a], 0), ([m], 1), ([x], 0)]
    (by simp [usesAll, uses])
  refine ⟨n', ?_, by rw [e2]; rfl, ?_⟩
  · unfold NStr.nfd
    have : (newNStr (encStr [a, m, x])).normalized = encStr [a, m, x] := rfl
    rw [this, hs]
    exact e1
  · rw [(e6 hz).1]
    simp only [sources, uses]
    simp [← List.replicate_append_replicate]

/-- **C87, violated.** NFKC gives the character after a ligature the place of the character after
that one: `x` in "ﬁxy" has the place of `y`. -/
theorem C87_ligature_violated (T : Tables) (hs : T.nfkd (encStr ['ﬁ', 'x', 'y']) = [['f', 'i'], ['x'], ['y']])
    (hn : T.isNFKC (encStr ['ﬁ', 'x', 'y']) = false) :
    ∃ n', (newNStr (encStr ['ﬁ', 'x', 'y'])).nfkc T = .ok n' ∧ n'.normalized = encStr ['f', 'i', 'x', 'y'] ∧
      n'.aligns = [(0, 3), (0, 3), (4, 5), (4, 5)] ∧ charRange ['ﬁ', 'x', 'y'] 1 = (3, 4) := by
  have hk : okAnd ((newNStr (encStr ['ﬁ', 'x', 'y'])).transform [(['f', 'i'], -1), (['x'], 0), (['y'], 0)] 0)
      (fun n => n.normalized == encStr ['f', 'i', 'x', 'y'] && n.aligns == [(0, 3), (0, 3), (4, 5), (4, 5)]) = true := by
    decide +kernel
  have hc : charRange ['ﬁ', 'x', 'y'] 1 = (3, 4) := by decide +kernel
  have e : (newNStr (encStr ['ﬁ', 'x', 'y'])).nfkc T =
      (newNStr (encStr ['ﬁ', 'x', 'y'])).transform [(['f', 'i'], -1), (['x'], 0), (['y'], 0)] 0 := by
    unfold NStr.nfkc
    have : (newNStr (encStr ['ﬁ', 'x', 'y'])).normalized = encStr ['ﬁ', 'x', 'y'] := rfl
    rw [this, hs, hn]
    rfl
  rw [e]
  cases hx : (newNStr (encStr ['ﬁ', 'x', 'y'])).transform [(['f', 'i'], -1), (['x'], 0), (['y'], 0)] 0 with
  | err => rw [hx] at hk; simp [okAnd] at hk
  | panic => rw [hx] at hk; simp [okAnd] at hk
  | ok n' =>
    rw [hx] at hk
    simp only [okAnd, Bool.and_eq_true, beq_iff_eq] at hk
    exact ⟨n', rfl, hk.1, hk.2, hc⟩

end Tok.Norm
