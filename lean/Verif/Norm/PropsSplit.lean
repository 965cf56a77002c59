import Verif.Norm.Slice

/-! The pieces of C44: slicing and splitting normalized strings. -/

namespace Tok.Norm

theorem cutOut_enc (u m v : Str) : cutOut (encStr (u ++ m ++ v)) (blen u, blen (u ++ m)) = encStr m := by
  rw [encStr_append, cutOut]
  dsimp only
  rw [← length_encStr (u ++ m), List.take_left, encStr_append, ← length_encStr, List.drop_left]

theorem regroupFrom_ends (join : Bool → Bool → Bool) (b : Nat) (ms : List Span) :
    ∀ (m : Span) (a : Nat), a < m.stop → Tiles m.stop b ms → (∀ x ∈ ms, x.start < x.stop) →
    ∀ p ∈ regroupFrom join a m ms, p.1 < p.2 ∧ (p.1 = a ∨ ∃ x ∈ ms, p.1 = x.start) ∧
      (p.2 = m.stop ∨ ∃ x ∈ ms, p.2 = x.stop) := by
  induction ms with
  | nil =>
    intro m a ha _ _ p hp
    simp only [regroupFrom, List.mem_singleton] at hp
    subst hp
    exact ⟨ha, .inl rfl, .inl rfl⟩
  | cons x ms ih =>
    intro m a ha ht hne p hp
    obtain ⟨h1, h2, h3⟩ := ht
    have hx := hne x (by simp)
    have hms : ∀ y ∈ ms, y.start < y.stop := fun y hy => hne y (by simp [hy])
    rw [regroupFrom] at hp
    split at hp
    · obtain ⟨e1, e2, e3⟩ := ih x a (by omega) h3 hms p hp
      refine ⟨e1, ?_, .inr ?_⟩
      · rcases e2 with e | ⟨y, hy, e⟩
        · exact .inl e
        · exact .inr ⟨y, by simp [hy], e⟩
      · rcases e3 with e | ⟨y, hy, e⟩
        · exact ⟨x, by simp, e⟩
        · exact ⟨y, by simp [hy], e⟩
    · rcases List.mem_cons.mp hp with rfl | hp
      · exact ⟨ha, .inl rfl, .inl rfl⟩
      · obtain ⟨e1, e2, e3⟩ := ih x x.start hx h3 hms p hp
        refine ⟨e1, .inr ?_, .inr ?_⟩
        · rcases e2 with e | ⟨y, hy, e⟩
          · exact ⟨x, by simp, e⟩
          · exact ⟨y, by simp [hy], e⟩
        · rcases e3 with e | ⟨y, hy, e⟩
          · exact ⟨x, by simp, e⟩
          · exact ⟨y, by simp [hy], e⟩

/-- The kept spans are not empty and begin and end where spans of the pattern do. -/
theorem keptSpans_ends (b : Behavior) {ms : List Span} {N : Nat} (ht : Tiles 0 N ms)
    (hne : ∀ x ∈ ms, x.start < x.stop) {p : Nat × Nat} (hp : p ∈ keptSpans b ms) :
    p.1 < p.2 ∧ (∃ x ∈ ms, p.1 = x.start) ∧ (∃ x ∈ ms, p.2 = x.stop) := by
  rw [C44_spans] at hp
  split at hp
  · simp only [List.mem_map, List.mem_filter] at hp
    obtain ⟨x, ⟨hx, _⟩, rfl⟩ := hp
    exact ⟨hne x hx, ⟨x, hx, rfl⟩, ⟨x, hx, rfl⟩⟩
  · cases ms with
    | nil => cases hp
    | cons m ms =>
      obtain ⟨h1, h2, h3⟩ := ht
      obtain ⟨e1, e2, e3⟩ := regroupFrom_ends (joins b) N ms m m.start (hne m (by simp)) h3
        (fun x hx => hne x (by simp [hx])) p hp
      refine ⟨e1, ?_, ?_⟩
      · rcases e2 with e | ⟨y, hy, e⟩
        · exact ⟨m, by simp, e⟩
        · exact ⟨y, by simp [hy], e⟩
      · rcases e3 with e | ⟨y, hy, e⟩
        · exact ⟨m, by simp, e⟩
        · exact ⟨y, by simp [hy], e⟩

/-- The strings `xs` are the slices of `n` at the spans `ps`, in order. -/
def SlicesOf (n : NStr) : List (Nat × Nat) → List NStr → Prop
  | [], [] => True
  | p :: ps, x :: xs => SliceOf n p.1 p.2 x ∧ WF x ∧ SlicesOf n ps xs
  | _, _ => False

theorem splitAt_ok {n : NStr} (hw : WF n) {s : Str} (hs : n.normalized = encStr s)
    (ps : List (Nat × Nat)) (h : ∀ p ∈ ps, Boundary s p.1 ∧ Boundary s p.2 ∧ p.1 < p.2) :
    ∃ xs, n.splitAt ps = .ok xs ∧ SlicesOf n ps xs := by
  induction ps with
  | nil => exact ⟨[], rfl, trivial⟩
  | cons p ps ih =>
    obtain ⟨h1, h2, h3⟩ := h p (by simp)
    obtain ⟨x, hx, hso, hwx⟩ := slice_ok hw hs h1 h2 h3
    obtain ⟨xs, hxs, hr⟩ := ih (fun q hq => h q (by simp [hq]))
    refine ⟨x :: xs, ?_, hso, hwx, hr⟩
    simp only [NStr.splitAt, hx, Res.bind_ok, hxs]

theorem SlicesOf.texts {n : NStr} {ps : List (Nat × Nat)} {xs : List NStr} (h : SlicesOf n ps xs) :
    xs.map (·.normalized) = ps.map (cutOut n.normalized) := by
  induction ps generalizing xs with
  | nil =>
    cases xs with
    | nil => rfl
    | cons x xs => exact h.elim
  | cons p ps ih =>
    cases xs with
    | nil => exact h.elim
    | cons x xs =>
      obtain ⟨h1, _, h3⟩ := h
      rw [List.map_cons, List.map_cons, ih h3, h1.text]

/-- C44 (Slice): a slice of whole characters of a well-formed string has the text of that range,
one alignment per byte naming the same places of the original, holds the part of the original
those alignments need, and is itself well-formed. -/
theorem C44_slice {n : NStr} (hw : WF n) {s : Str} (hs : n.normalized = encStr s) (u m v : Str)
    (hs' : s = u ++ m ++ v) (hm : m ≠ []) :
    ∃ x, n.slice ⟨blen u, (blen (u ++ m) : Nat), .normalized⟩ = .ok (some x) ∧
      x.normalized = encStr m ∧ SliceOf n (blen u) (blen (u ++ m)) x ∧ WF x := by
  have hpos : 0 < blen m := Nat.pos_of_ne_zero (fun h => hm (blen_eq_zero.mp h))
  obtain ⟨x, hx, h1, h2⟩ := slice_ok hw hs (a := blen u) (b := blen (u ++ m))
    ⟨u, m ++ v, by rw [hs', List.append_assoc], rfl⟩ ⟨u ++ m, v, hs', rfl⟩ (by rw [blen_append]; omega)
  refine ⟨x, hx, ?_, h1, h2⟩
  rw [h1.text, hs, hs', cutOut_enc]

/-- C44 (Split): when the spans of the pattern tile the text, are not empty and lie on character
boundaries, Split succeeds; its pieces are the slices of the joined spans, so that they
concatenate to the whole text, or, for `Removed`, to the text without the matches. -/
theorem C44_split {n : NStr} (hw : WF n) {s : Str} (hs : n.normalized = encStr s) (pat : Pat)
    (b : Behavior) (ms : List Span) (hf : pat.find n.normalized = .ok ms)
    (ht : Tiles 0 n.normalized.length ms)
    (hms : ∀ m ∈ ms, m.start < m.stop ∧ Boundary s m.start ∧ Boundary s m.stop) :
    ∃ xs, n.split pat b = .ok xs ∧
      SlicesOf n (if b = .removed then (ms.filter (fun m => !m.isMatch)).map (fun m => (m.start, m.stop))
        else regroup (joins b) ms) xs ∧
      (b ≠ .removed → (xs.map (·.normalized)).flatten = n.normalized) ∧
      (b = .removed → (xs.map (·.normalized)).flatten =
        (ms.map (fun m => if m.isMatch then [] else cutOut n.normalized (m.start, m.stop))).flatten) := by
  have hk : ∀ p ∈ keptSpans b ms, Boundary s p.1 ∧ Boundary s p.2 ∧ p.1 < p.2 := by
    intro p hp
    obtain ⟨h1, ⟨x, hx, e1⟩, ⟨y, hy, e2⟩⟩ := keptSpans_ends b ht (fun x hx => (hms x hx).1) hp
    exact ⟨e1 ▸ (hms x hx).2.1, e2 ▸ (hms y hy).2.2, h1⟩
  obtain ⟨xs, hxs, hr⟩ := splitAt_ok hw hs _ hk
  have hc := C44_concat b n.normalized ms ht
  rw [← hr.texts] at hc
  rw [C44_spans] at hr
  refine ⟨xs, ?_, hr, hc.1, hc.2⟩
  simp only [NStr.split, hf, Res.bind_ok, hxs]

theorem spansAt_bounds (ps : List (Str × Bool)) (hne : ∀ p ∈ ps, p.1 ≠ []) (pre : Str) :
    ∀ m ∈ spansAt (blen pre) ps, m.start < m.stop ∧
      Boundary (pre ++ (ps.map (·.1)).flatten) m.start ∧ Boundary (pre ++ (ps.map (·.1)).flatten) m.stop := by
  induction ps generalizing pre with
  | nil => simp [spansAt]
  | cons p ps ih =>
    obtain ⟨t, f⟩ := p
    intro m hm
    rw [spansAt] at hm
    have hpos : 0 < blen t := Nat.pos_of_ne_zero (fun h => hne (t, f) (by simp) (blen_eq_zero.mp h))
    rcases List.mem_cons.mp hm with rfl | hm
    · refine ⟨by dsimp only; omega, ⟨pre, _, rfl, rfl⟩, ⟨pre ++ t, (ps.map (·.1)).flatten, ?_, ?_⟩⟩
      · simp
      · rw [blen_append]
    · rw [← blen_append] at hm
      have := ih (fun q hq => hne q (by simp [hq])) (pre ++ t) m hm
      simpa using this

theorem fnCut_ne {fn : Char → Bool} {s : Str} {ps : List (Str × Bool)} (h : FnCut fn s ps) :
    ∀ p ∈ ps, p.1 ≠ [] := by
  induction h with
  | nil => simp
  | hit c s ps _ _ ih =>
    intro p hp
    rcases List.mem_cons.mp hp with rfl | hp
    · simp
    · exact ih p hp
  | run r s ps hne _ _ _ ih =>
    intro p hp
    rcases List.mem_cons.mp hp with rfl | hp
    · exact hne
    · exact ih p hp

theorem tiles_invert {ms : List Span} {a b : Nat} (h : Tiles a b ms) : Tiles a b (invertSpans ms) := by
  induction ms generalizing a with
  | nil => exact h
  | cons m ms ih =>
    obtain ⟨h1, h2, h3⟩ := h
    exact ⟨h1, h2, ih h3⟩

/-- C44 (Split at characters): on every well-formed non-empty text, splitting at the characters
satisfying a predicate, or at those not satisfying it, always succeeds and loses nothing but
what `Removed` removes. -/
theorem C44_split_fn {n : NStr} (hw : WF n) {s : Str} (hs : n.normalized = encStr s) (hne : s ≠ [])
    (fn : Char → Bool) (inverted : Bool) (b : Behavior) :
    ∃ xs, n.split (if inverted then .invert (.fn fn) else .fn fn) b = .ok xs ∧
      (∀ x ∈ xs, WF x) ∧
      (b ≠ .removed → (xs.map (·.normalized)).flatten = encStr s) ∧
      (b = .removed → (xs.map (·.normalized)).flatten =
        encStr (s.filter (fun c => fn c == inverted))) := by
  obtain ⟨ps, hcut⟩ := fnCut_exists fn s
  have hfind := C43_fn fn s hne ps hcut
  have hflat := fnCut_flatten hcut
  have hlen : n.normalized.length = blen s := by rw [hs, length_encStr]
  have htile : Tiles 0 n.normalized.length (spansAt 0 ps) := by
    have := C43_fn_tiles fn s
    rw [hfind] at this
    rw [hlen]; exact this
  have hbd : ∀ m ∈ spansAt 0 ps, m.start < m.stop ∧ Boundary s m.start ∧ Boundary s m.stop := by
    have := spansAt_bounds ps (fnCut_ne hcut) []
    rw [hflat] at this
    exact this
  have hw' : ∀ (qs : List (Nat × Nat)) (xs : List NStr), SlicesOf n qs xs → ∀ x ∈ xs, WF x := by
    intro qs
    induction qs with
    | nil => intro xs h; cases xs with
      | nil => simp
      | cons x xs => exact h.elim
    | cons q qs ih => intro xs h; cases xs with
      | nil => simp
      | cons x xs =>
        obtain ⟨_, h2, h3⟩ := h
        intro y hy
        rcases List.mem_cons.mp hy with rfl | hy
        · exact h2
        · exact ih xs h3 y hy
  -- text without the matches
  have hrem : ∀ (inv : Bool) (pre : Str) (qs : List (Str × Bool)) (t : Str), FnCut fn t qs →
      ((spansAt (blen pre) qs).map (fun m => if (if inv then !m.isMatch else m.isMatch) then []
        else cutOut (encStr (pre ++ t)) (m.start, m.stop))).flatten =
        encStr (t.filter (fun c => fn c == inv)) := by
    intro inv pre qs t h
    induction h generalizing pre with
    | nil => simp [spansAt]
    | hit c t qs hc _ ih =>
      have := ih (pre ++ [c])
      rw [blen_append] at this
      simp only [spansAt, List.map_cons, List.flatten_cons]
      simp only [List.append_assoc, List.singleton_append] at this
      rw [this]
      have hcut : cutOut (encStr (pre ++ c :: t)) (blen pre, blen pre + blen [c]) = encStr [c] := by
        rw [← blen_append, show pre ++ c :: t = (pre ++ [c]) ++ t by simp, cutOut_enc]
      rw [hcut]
      cases inv <;> simp [hc]
    | run r t qs _ hr _ _ ih =>
      have := ih (pre ++ r)
      rw [blen_append] at this
      simp only [spansAt, List.map_cons, List.flatten_cons]
      simp only [List.append_assoc] at this
      rw [this]
      have hcut : cutOut (encStr (pre ++ (r ++ t))) (blen pre, blen pre + blen r) = encStr r := by
        rw [← blen_append, ← List.append_assoc, cutOut_enc]
      rw [hcut]
      cases inv with
      | false =>
        have : r.filter (fun c => fn c == false) = r := by
          rw [List.filter_eq_self]; intro c hc; simp [hr c hc]
        rw [List.filter_append, this, encStr_append]; simp
      | true =>
        have : r.filter (fun c => fn c == true) = [] := by
          rw [List.filter_eq_nil_iff]; intro c hc; simp [hr c hc]
        rw [List.filter_append, this]; simp
  cases inverted with
  | false =>
    obtain ⟨xs, h1, h2, h3, h4⟩ := C44_split hw hs (.fn fn) b (spansAt 0 ps)
      (by simp only [Pat.find]; rw [hs, hfind]) htile hbd
    refine ⟨xs, h1, hw' _ _ h2, fun hb => by rw [h3 hb, hs], fun hb => ?_⟩
    rw [h4 hb]
    have := hrem false [] ps s hcut
    rw [hs]
    simpa using this
  | true =>
    obtain ⟨xs, h1, h2, h3, h4⟩ := C44_split hw hs (.invert (.fn fn)) b (invertSpans (spansAt 0 ps))
      (by simp only [Pat.find]; rw [hs, hfind]; rfl) (tiles_invert htile) (by
        intro m hm
        simp only [invertSpans, List.mem_map] at hm
        obtain ⟨m', hm', rfl⟩ := hm
        exact hbd m' hm')
    refine ⟨xs, h1, hw' _ _ h2, fun hb => by rw [h3 hb, hs], fun hb => ?_⟩
    rw [h4 hb]
    have := hrem true [] ps s hcut
    rw [hs]
    simp only [invertSpans, List.map_map, Function.comp_def]
    simpa using this

/-- C44 fails for a pattern that matches the empty string at the end: slicing the empty range at
the end of a non-empty string panics, whatever the string. -/
theorem C44_empty_end_violated (n : NStr) (h : n.normalized ≠ []) :
    n.slice ⟨n.normalized.length, n.normalized.length, .normalized⟩ = .panic := by
  have hpos := List.length_pos_iff.mpr h
  have hidx : idx n.normalized (n.normalized.length : Int) = .panic := by
    unfold idx
    rw [if_neg (by omega)]
    simp
  have hval : n.validate ⟨n.normalized.length, n.normalized.length, .normalized⟩ = .panic := by
    unfold NStr.validate
    simp only [full_eq _ (Nat.le_refl n.normalized.length)]
    rw [if_neg (by omega), if_neg (by omega), boundOk, if_neg (by omega), hidx]
    rfl
  unfold NStr.slice
  rw [hval]
  rfl

/-- So Split by the regular expression `x*`, which matches the empty string before and after "é",
panics. -/
theorem C44_regexp_violated :
    (newNStr (encStr ['é'])).split (.regexp (fun _ => [(0, 0), (2, 2)])) .isolated = .panic ∧
    LegalMatches (blen ['é']) 0 [(0, 0), (2, 2)] := by
  refine ⟨by decide +kernel, ?_⟩
  simp [LegalMatches, show ('é' : Char).utf8Size = 2 by decide]

example : WF (newNStr (encStr "the-é--b".toList)) := newNStr_wf _
example : okAnd ((newNStr (encStr "the-é--b".toList)).split (.fn (fun c => c == '-')) .mergedWithNext)
    (fun xs => xs.map (·.normalized) == ["the".toList, "-é".toList, "-".toList, "-b".toList].map encStr &&
      xs.map (·.shift) == [0, 3, 6, 7]) = true := by decide +kernel

end Tok.Norm
