import Verif.Regex.PropsCuts

/-!
# C72: where `Split` cuts, for every pattern, behaviour and inversion

A pattern divides a text into parts with a flag: matches and what lies between them. `Parted` says, in
characters, which division each kind of pattern makes; `kept` says what a behaviour does with the parts.
-/

namespace Tok.Regex

open Tok.Norm Tok.PreTok

/-! ### Specification -/

/-- The text of some parts. -/
def textOf (us : List (Str × Bool)) : Str := (us.map (·.1)).flatten

/-- The division of a text by a regular expression: every part with the flag is the match the expression prefers
at its place; in a part without the flag the expression matches nowhere, and no other such part follows. -/
inductive ReCut (re : Re) : List (Str × Bool) → Prop
  | nil : ReCut re []
  | hit (t : Str) (us : List (Str × Bool)) : t ≠ [] → (re.ends (t ++ textOf us)).head? = some t.length → ReCut re us →
      ReCut re ((t, true) :: us)
  | gap (t : Str) (us : List (Str × Bool)) : t ≠ [] → (∀ u v, t = u ++ v → v ≠ [] → re.ends (v ++ textOf us) = []) →
      (∀ x ∈ us.head?, x.2 = true) → ReCut re us → ReCut re ((t, false) :: us)

/-- The division of a text by the occurrences of a word, from the left and without overlaps. -/
inductive WordCut (w : Str) : List (Str × Bool) → Prop
  | nil : WordCut w []
  | hit (us : List (Str × Bool)) : WordCut w us → WordCut w ((w, true) :: us)
  | gap (t : Str) (us : List (Str × Bool)) : t ≠ [] → (∀ u v, t = u ++ v → v ≠ [] → ¬ w <+: v ++ textOf us) →
      (∀ x ∈ us.head?, x.2 = true) → WordCut w us → WordCut w ((t, false) :: us)

/-- The other flag. -/
def flipped (us : List (Str × Bool)) : List (Str × Bool) := us.map (fun u => (u.1, !u.2))

/-- The division of a text by a pattern that is not inverted. -/
inductive Parted : Pat → Str → List (Str × Bool) → Prop
  | rune (c : Char) (s : Str) (us : List (Str × Bool)) : FnCut (· == c) s us → Parted (.rune c) s us
  | fn (f : Char → Bool) (s : Str) (us : List (Str × Bool)) : FnCut f s us → Parted (.fn f) s us
  | regexp (re : Re) (us : List (Str × Bool)) : (∀ s, 0 ∉ re.ends s) → ReCut re us →
      Parted (.regexp re.engine) (textOf us) us
  | word (w : Str) (us : List (Str × Bool)) : w ≠ [] → WordCut w us →
      Parted (.str (encStr w) (Re.lit w).engine) (textOf us) us
  | noWord (engine : List UInt8 → List (Nat × Nat)) (s : Str) : Parted (.str [] engine) s [(s, false)]

/-- Join neighbours when the behaviour says so, seeing the flags of the two parts that touch. -/
def joined (b : Behavior) : List (Str × Bool) → List Str
  | [] => []
  | [u] => [u.1]
  | u :: v :: us =>
    if joins b u.2 v.2 then joined b ((u.1 ++ v.1, v.2) :: us) else u.1 :: joined b (v :: us)
  termination_by us => us.length

/-- What a behaviour leaves of the parts. -/
def kept (b : Behavior) (us : List (Str × Bool)) : List Str :=
  if b = .removed then (us.filter (fun u => !u.2)).map (·.1) else joined b us

/-! ### Helpers -/

theorem joined_glue (b : Behavior) (us : List (Str × Bool)) : ∀ (t : Str) (f : Bool),
    joined b ((t, f) :: us) = glue (joins b) t f us := by
  induction us with
  | nil => intro t f; simp [joined, glue]
  | cons u us ih =>
    intro t f
    obtain ⟨u, g⟩ := u
    rw [joined, glue, ih, ih]

theorem flipped_texts (us : List (Str × Bool)) : textOf (flipped us) = textOf us := by
  simp [textOf, flipped, List.map_map, Function.comp_def]

theorem spansAt_flipped (us : List (Str × Bool)) : ∀ a, spansAt a (flipped us) = invertSpans (spansAt a us) := by
  induction us with
  | nil => intro a; rfl
  | cons u us ih =>
    intro a
    obtain ⟨t, f⟩ := u
    have := ih (a + blen t)
    simp only [flipped, List.map_cons, spansAt, invertSpans] at this ⊢
    rw [this]

theorem glue_ne (j : Bool → Bool → Bool) (us : List (Str × Bool)) : ∀ (t : Str) (f : Bool), t ≠ [] → (∀ u ∈ us, u.1 ≠ []) →
    ∀ w ∈ glue j t f us, w ≠ [] := by
  induction us with
  | nil =>
    intro t f ht _ w hw
    simp only [glue, List.mem_singleton] at hw
    exact hw ▸ ht
  | cons u us ih =>
    intro t f ht hu w hw
    obtain ⟨u, g⟩ := u
    have h1 := hu (u, g) (by simp)
    rw [glue] at hw
    split at hw
    · exact ih _ _ (by simp [ht]) (fun x hx => hu x (by simp [hx])) w hw
    · rcases List.mem_cons.mp hw with rfl | hw
      · exact ht
      · exact ih _ _ h1 (fun x hx => hu x (by simp [hx])) w hw

theorem kept_ne (b : Behavior) (us : List (Str × Bool)) (h : ∀ u ∈ us, u.1 ≠ []) : ∀ w ∈ kept b us, w ≠ [] := by
  intro w hw
  unfold kept at hw
  split at hw
  · rw [List.mem_map] at hw
    obtain ⟨u, hu, rfl⟩ := hw
    exact h u (List.mem_filter.mp hu).1
  · cases us with
    | nil => simp [joined] at hw
    | cons u us =>
      obtain ⟨t, f⟩ := u
      rw [joined_glue] at hw
      exact glue_ne _ us t f (h (t, f) (by simp)) (fun x hx => h x (by simp [hx])) w hw

theorem kept_spans (b : Behavior) (us : List (Str × Bool)) :
    (if b = .removed then ((spansAt 0 us).filter (fun m => !m.isMatch)).map (fun m => (m.start, m.stop))
        else regroup (joins b) (spansAt 0 us)).map (cutOut (encStr (textOf us))) = (kept b us).map encStr := by
  unfold kept
  split
  · have := spansAt_texts (fun b => !b) us [] []
    simpa [textOf] using this
  · cases us with
    | nil => simp [spansAt, regroup, joined]
    | cons u us =>
      obtain ⟨t, f⟩ := u
      rw [joined_glue]
      have := regroup_glue (joins b) us [] t f 0 []
      rw [← this]
      simp [spansAt, regroup, textOf]

theorem split_parts {n : NStr} (hw : WF n) {us : List (Str × Bool)} (hs : n.normalized = encStr (textOf us))
    (hne : ∀ u ∈ us, u.1 ≠ []) (pat : Pat) (hf : pat.find n.normalized = .ok (spansAt 0 us)) (b : Behavior) :
    ∃ xs, n.split pat b = .ok xs ∧ xs.map (·.normalized) = (kept b us).map encStr ∧ ∀ x ∈ xs, WF x := by
  have htile : Tiles 0 n.normalized.length (spansAt 0 us) := by
    have := spansAt_tiles us 0
    rw [Nat.zero_add] at this
    rw [hs, length_encStr]; exact this
  have hbd : ∀ m ∈ spansAt 0 us, m.start < m.stop ∧ Boundary (textOf us) m.start ∧ Boundary (textOf us) m.stop := by
    have := spansAt_bounds us hne []
    exact this
  obtain ⟨xs, h1, h2, _⟩ := C44_split hw hs pat b _ hf htile hbd
  refine ⟨xs, h1, ?_, ?_⟩
  · rw [h2.texts, hs]
    exact kept_spans b us
  · have : ∀ (qs : List (Nat × Nat)) (xs : List NStr), SlicesOf n qs xs → ∀ x ∈ xs, WF x := by
      intro qs
      induction qs with
      | nil => intro xs h; cases xs with
        | nil => simp
        | cons x xs => exact h.elim
      | cons q qs ih => intro xs h; cases xs with
        | nil => simp
        | cons x xs =>
          obtain ⟨_, h2, h3⟩ := h
          intro y hy
          rcases List.mem_cons.mp hy with rfl | hy
          · exact h2
          · exact ih xs h3 y hy
    exact this _ _ h2

/-! The matches of an expression. -/

theorem reCut_ne {re : Re} {us : List (Str × Bool)} (h : ReCut re us) : ∀ u ∈ us, u.1 ≠ [] := by
  induction h with
  | nil => simp
  | hit t us ht _ _ ih => exact List.forall_mem_cons.mpr ⟨ht, ih⟩
  | gap t us ht _ _ _ ih => exact List.forall_mem_cons.mpr ⟨ht, ih⟩

theorem reCut_spaced {re : Re} {us : List (Str × Bool)} (h : ReCut re us) : Spaced us := by
  induction h with
  | nil => trivial
  | hit t us ht _ _ ih =>
    cases us with
    | nil => exact ht
    | cons v us => exact ⟨ht, .inl rfl, ih⟩
  | gap t us ht _ hh _ ih =>
    cases us with
    | nil => exact ht
    | cons v us => exact ⟨ht, .inr (hh v (by simp)), ih⟩

theorem findLoop_skip (re : Re) (t : Str) : ∀ (fuel : Nat) (v : Str) (pos : Nat),
    (∀ x y, t = x ++ y → y ≠ [] → re.ends (y ++ v) = []) →
    findLoop re (t.length + fuel) (charsOf (t ++ v)) pos = findLoop re fuel (charsOf v) (pos + blen t) := by
  induction t with
  | nil => intro fuel v pos _; simp
  | cons c t ih =>
    intro fuel v pos h
    have hcons : charsOf (c :: t ++ v) = (c, c.utf8Size) :: charsOf (t ++ v) := rfl
    have hfst : ((c, c.utf8Size) :: charsOf (t ++ v)).map (·.1) = c :: (t ++ v) := by rw [← hcons, charsOf_fst]; rfl
    have h0 : re.first (c :: (t ++ v)) = none := by
      have := h [] (c :: t) rfl (by simp)
      rw [List.cons_append] at this
      simp [Re.first, this]
    rw [hcons, List.length_cons, show t.length + 1 + fuel = (t.length + fuel) + 1 by omega, findLoop, hfst, h0]
    dsimp only
    rw [ih fuel v _ (fun x y e hy => h (c :: x) y (by rw [e]; rfl) hy), blen_cons, Nat.add_assoc]

theorem findLoop_reCut {re : Re} {us : List (Str × Bool)} (h : ReCut re us) : ∀ (fuel pos : Nat), (textOf us).length ≤ fuel →
    findLoop re fuel (charsOf (textOf us)) pos = marks pos us := by
  induction h with
  | nil => intro fuel pos _; cases fuel <;> rfl
  | hit t us ht hm _ ih =>
    intro fuel pos hl
    cases t with
    | nil => exact absurd rfl ht
    | cons c t =>
      have ht : textOf ((c :: t, true) :: us) = c :: (t ++ textOf us) := by simp [textOf]
      rw [ht] at hl ⊢
      cases fuel with
      | zero => simp at hl
      | succ fuel =>
        have hcons : charsOf (c :: (t ++ textOf us)) = (c, c.utf8Size) :: charsOf (t ++ textOf us) := rfl
        have hfst : ((c, c.utf8Size) :: charsOf (t ++ textOf us)).map (·.1) = c :: (t ++ textOf us) := by
          rw [← hcons, charsOf_fst]
        have hm : re.first (c :: (t ++ textOf us)) = some (t.length + 1) := hm
        rw [hcons, findLoop, hfst, hm]
        dsimp only
        rw [← hcons]
        have htake : width ((charsOf (c :: (t ++ textOf us))).take (t.length + 1)) = blen (c :: t) := by
          rw [← width_chars]
          simp only [charsOf, ← List.map_take, List.take_succ_cons, List.take_left]
        have hdrop : (charsOf (c :: (t ++ textOf us))).drop (t.length + 1) = charsOf (textOf us) := by
          simp only [charsOf, ← List.map_drop, List.drop_succ_cons, List.drop_left]
        rw [htake, hdrop, ih fuel _ (by simp at hl; omega)]
        simp [marks, spansAt]
  | gap t us ht hm _ _ ih =>
    intro fuel pos hl
    have e : textOf ((t, false) :: us) = t ++ textOf us := by simp [textOf]
    rw [e, List.length_append] at hl
    rw [e, show fuel = t.length + (fuel - t.length) by omega, findLoop_skip re t _ _ _ hm, ih _ _ (by omega)]
    simp [marks, spansAt]

theorem engine_reCut {re : Re} {us : List (Str × Bool)} (h : ReCut re us) : re.engine (encStr (textOf us)) = marks 0 us := by
  unfold Re.engine
  rw [charsOf_enc]
  exact findLoop_reCut h _ _ (by simp [charsOf])

theorem wordCut_re {w : Str} (hw : w ≠ []) {us : List (Str × Bool)} (h : WordCut w us) : ReCut (Re.lit w) us := by
  induction h with
  | nil => exact .nil
  | hit us _ ih =>
    refine .hit w us hw ?_ ih
    rw [ends_lit, if_pos (by simp)]
    rfl
  | gap t us ht hm hh _ ih =>
    refine .gap t us ht ?_ hh ih
    intro u v e hv
    rw [ends_lit, if_neg]
    intro h
    exact hm u v e hv (List.isPrefixOf_iff_prefix.mp h)

/-- Every text has such a division. -/
theorem reCut_exists (re : Re) (hr : ∀ s, 0 ∉ re.ends s) (s : Str) : ∃ us, ReCut re us ∧ textOf us = s := by
  have step : ∀ (n : Nat) (s : Str), s.length ≤ n → ∃ us, ReCut re us ∧ textOf us = s := by
    intro n
    induction n with
    | zero =>
      intro s hs
      have : s = [] := List.length_eq_zero_iff.mp (by omega)
      exact ⟨[], .nil, this.symm⟩
    | succ n ih =>
      intro s hs
      cases s with
      | nil => exact ⟨[], .nil, rfl⟩
      | cons c s =>
        cases hf : (re.ends (c :: s)).head? with
        | some k =>
          have hmem : k ∈ re.ends (c :: s) := List.mem_of_mem_head? hf
          have hk := ends_le re _ _ hmem
          have hk0 : k ≠ 0 := fun h => hr _ (h ▸ hmem)
          obtain ⟨us, h1, h2⟩ := ih ((c :: s).drop k) (by rw [List.length_drop]; omega)
          refine ⟨((c :: s).take k, true) :: us, .hit _ _ ?_ ?_ h1, ?_⟩
          · intro h
            have := congrArg List.length h
            rw [List.length_take] at this
            simp only [List.length_nil] at this
            omega
          · rw [h2, List.take_append_drop, hf, List.length_take, Nat.min_eq_left hk]
          · simp only [textOf, List.map_cons, List.flatten_cons] at h2 ⊢
            rw [h2, List.take_append_drop]
        | none =>
          have hn : re.ends (c :: s) = [] := List.head?_eq_none_iff.mp hf
          obtain ⟨us, h1, h2⟩ := ih s (by simp at hs; omega)
          cases h1 with
          | nil =>
            refine ⟨[([c], false)], .gap _ _ (by simp) ?_ (by simp) .nil, ?_⟩
            · intro u v e hv
              have : v = [c] := by
                cases u with
                | nil => exact e.symm
                | cons d u =>
                  rw [List.cons_append, List.cons.injEq] at e
                  exact absurd (List.append_eq_nil_iff.mp e.2.symm).2 hv
              subst this
              rw [← h2] at hn
              exact hn
            · rw [← h2]; rfl
          | hit t us ht hm h1 =>
            refine ⟨([c], false) :: (t, true) :: us, .gap _ _ (by simp) ?_ (by simp) (.hit t us ht hm h1), ?_⟩
            · intro u v e hv
              have : v = [c] := by
                cases u with
                | nil => exact e.symm
                | cons d u =>
                  rw [List.cons_append, List.cons.injEq] at e
                  exact absurd (List.append_eq_nil_iff.mp e.2.symm).2 hv
              subst this
              rw [h2]
              exact hn
            · rw [← h2]; rfl
          | gap t us ht hm hh h1 =>
            have e2 : t ++ textOf us = s := by rw [← h2]; simp [textOf]
            refine ⟨(c :: t, false) :: us, .gap _ _ (by simp) ?_ hh h1, ?_⟩
            · intro u v e hv
              cases u with
              | nil =>
                have : v = c :: t := e.symm
                rw [this, List.cons_append, e2]
                exact hn
              | cons d u =>
                rw [List.cons_append, List.cons.injEq] at e
                exact hm u v e.2 hv
            · simp only [textOf, List.map_cons, List.flatten_cons] at e2 ⊢
              rw [List.cons_append, e2]
  exact step s.length s (Nat.le_refl _)

theorem reCut_word {w : Str} {us : List (Str × Bool)} (h : ReCut (Re.lit w) us) : WordCut w us := by
  induction h with
  | nil => exact .nil
  | hit t us ht hm _ ih =>
    rw [ends_lit] at hm
    split at hm
    · next hp =>
      have hp := List.isPrefixOf_iff_prefix.mp hp
      have hl : w.length = t.length := by simpa using hm
      have : w = t := by
        obtain ⟨z, hz⟩ := hp
        exact (List.append_inj hz hl).1
      subst this
      exact .hit us ih
    · simp at hm
  | gap t us ht hm hh _ ih =>
    refine .gap t us ht ?_ hh ih
    intro u v e hv hp
    have := hm u v e hv
    rw [ends_lit, if_pos (List.isPrefixOf_iff_prefix.mpr hp)] at this
    cases this

theorem find_reCut {re : Re} {us : List (Str × Bool)} (h : ReCut re us) (hne : textOf us ≠ []) :
    reFind (encStr (textOf us)).length (re.engine (encStr (textOf us))) = spansAt 0 us := by
  rw [engine_reCut h, length_encStr]
  exact reFind_units us (by intro h; subst h; exact hne rfl) (reCut_spaced h)

theorem parted_find {pat : Pat} {s : Str} {us : List (Str × Bool)} (h : Parted pat s us) (hne : s ≠ []) :
    pat.find (encStr s) = .ok (spansAt 0 us) ∧ textOf us = s ∧ ∀ u ∈ us, u.1 ≠ [] := by
  have hpos : 0 < blen s := Nat.pos_of_ne_zero (fun h => hne (blen_eq_zero.mp h))
  cases h with
  | rune c s us h =>
    refine ⟨?_, fnCut_flatten h, fnCut_ne h⟩
    simp only [Pat.find, runeFind]
    rw [C43_fn _ s hne us h]
  | fn f s us h =>
    refine ⟨?_, fnCut_flatten h, fnCut_ne h⟩
    simp only [Pat.find]
    rw [C43_fn _ s hne us h]
  | regexp re us hr h =>
    refine ⟨?_, rfl, reCut_ne h⟩
    simp only [Pat.find]
    rw [if_neg (by rw [length_encStr]; omega), find_reCut h hne]
  | word w us hw h =>
    have h := wordCut_re hw h
    refine ⟨?_, rfl, reCut_ne h⟩
    simp only [Pat.find]
    have : 0 < blen w := Nat.pos_of_ne_zero (fun h => hw (blen_eq_zero.mp h))
    rw [if_neg (by rw [length_encStr]; omega), find_reCut h hne]
  | noWord engine s =>
    refine ⟨?_, by simp [textOf], by simpa using hne⟩
    simp [Pat.find, spansAt, length_encStr]

theorem parted_invert {pat : Pat} {s : Str} {us : List (Str × Bool)} (h : Parted pat s us) (hne : s ≠ []) :
    (Pat.invert pat).find (encStr s) = .ok (spansAt 0 (flipped us)) := by
  have h1 := (parted_find h hne).1
  have : (Pat.invert pat).find (encStr s) = (pat.find (encStr s)).bind (fun ms => .ok (invertSpans ms)) := by
    cases h <;> rfl
  rw [this, h1, spansAt_flipped]
  rfl

/-! ### The properties -/

/-- C72 (Split): a text without tokens is replaced by what the behaviour leaves of the parts that the pattern
finds, the flags being exchanged when the pattern is inverted. -/
theorem C72_split_any (pat : Pat) (b : Behavior) (invert : Bool) (cut : Str → List (Str × Bool))
    (h : ∀ s, s ≠ [] → Parted pat s (cut s)) :
    CutsTexts (splitPre pat b invert) (fun s => kept b (if invert then flipped (cut s) else cut s)) := by
  refine cutsTexts_split ?_
  intro x m hw hm hne
  obtain ⟨h1, h2, h3⟩ := parted_find (h m hne) hne
  cases invert with
  | false =>
    obtain ⟨xs, e1, e2, e3⟩ := split_parts hw (us := cut m) (by rw [h2, hm]) h3 pat (by rw [hm, h1]) b
    refine ⟨kept_ne b _ h3, xs, ?_, e2, e3⟩
    simp [cutWith, e1]
  | true =>
    have hne' : ∀ u ∈ flipped (cut m), u.1 ≠ [] := by
      intro u hu
      simp only [flipped, List.mem_map] at hu
      obtain ⟨v, hv, rfl⟩ := hu
      exact h3 v hv
    obtain ⟨xs, e1, e2, e3⟩ := split_parts hw (us := flipped (cut m)) (by rw [flipped_texts, h2, hm]) hne' (.invert pat)
      (by rw [hm, parted_invert (h m hne) hne]) b
    refine ⟨kept_ne b _ hne', xs, ?_, e2, e3⟩
    simp [cutWith, e1]

/-- C72 (Split): the parts exist, for a character, a class, an expression that never matches the empty text, and a
word; an empty word is found nowhere. -/
theorem C72_split_parts (s : Str) :
    (∀ c, ∃ us, Parted (.rune c) s us) ∧ (∀ f, ∃ us, Parted (.fn f) s us) ∧
    (∀ re : Re, (∀ s, 0 ∉ re.ends s) → ∃ us, Parted (.regexp re.engine) s us) ∧
    (∀ w, w ≠ [] → ∃ us, Parted (.str (encStr w) (Re.lit w).engine) s us) ∧
    ∀ engine, Parted (.str [] engine) s [(s, false)] := by
  refine ⟨fun c => ?_, fun f => ?_, fun re hr => ?_, fun w hw => ?_, fun e => .noWord e s⟩
  · obtain ⟨us, h⟩ := fnCut_exists (· == c) s
    exact ⟨us, .rune c s us h⟩
  · obtain ⟨us, h⟩ := fnCut_exists f s
    exact ⟨us, .fn f s us h⟩
  · obtain ⟨us, h, rfl⟩ := reCut_exists re hr s
    exact ⟨us, .regexp re us hr h⟩
  · obtain ⟨us, h, rfl⟩ := reCut_exists (Re.lit w) (solid_lit w hw) s
    exact ⟨us, .word w us hw (reCut_word h)⟩

/-- C72 (Split): inverting a pattern that is inverted already ends the program when a text is to be cut. -/
theorem C72_split_twice_fatal (pat : Pat) (b : Behavior) (pt : PTS) (sp : Split) (hs : sp ∈ pt.splits.head?)
    (ht : sp.tokens = none) : splitPre (.invert pat) b true pt = .panic := by
  obtain ⟨o, ss⟩ := pt
  cases ss with
  | nil => simp at hs
  | cons x ss =>
    simp only [List.head?_cons, Option.mem_def, Option.some.injEq] at hs
    subst hs
    simp [splitPre, PTS.split, splitLoop, ht, cutWith, NStr.split, Pat.find]

/-- A word divides a text, and the five behaviours. -/
example : WordCut "ab".toList [("x".toList, false), ("ab".toList, true), ("ab".toList, true), ("a".toList, false)] := by
  refine .gap _ _ (by decide) ?_ (by decide) (.hit _ (.hit _ (.gap _ _ (by decide) ?_ (by decide) .nil)))
  all_goals
    intro u v e hv hp
    cases u with
    | nil =>
      have : v = _ := e.symm
      subst this
      revert hp
      decide
    | cons d u =>
      simp at e
      simp [e] at hv

example (us : List (Str × Bool)) (h : us = [("x".toList, false), ("ab".toList, true), ("ab".toList, true), ("a".toList, false)]) :
    kept .removed us = ["x".toList, "a".toList] ∧
    kept .isolated us = ["x".toList, "ab".toList, "ab".toList, "a".toList] ∧
    kept .mergedWithPrevious us = ["xab".toList, "ab".toList, "a".toList] ∧
    kept .mergedWithNext us = ["x".toList, "ab".toList, "aba".toList] ∧
    kept .contiguous us = ["x".toList, "abab".toList, "a".toList] ∧
    kept .removed (flipped us) = ["ab".toList, "ab".toList] := by
  subst h
  simp [kept, flipped, joined, joins]

end Tok.Regex
