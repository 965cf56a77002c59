import Verif.Regex.Props
import Verif.Norm.Runs
import Verif.PreTok.PropsSplitters

/-! Expressions that match runs of characters of one class. -/

namespace Tok.Regex

open Tok.Norm Tok.PreTok

/-- The spans with the flag. -/
def marks (a : Nat) (us : List (Str × Bool)) : List (Nat × Nat) :=
  ((spansAt a us).filter (·.isMatch)).map (fun m => (m.start, m.stop))

/-- No unit is empty, and no two without the flag are adjacent. -/
def Spaced : List (Str × Bool) → Prop
  | [] => True
  | [u] => u.1 ≠ []
  | u :: v :: us => u.1 ≠ [] ∧ (u.2 = true ∨ v.2 = true) ∧ Spaced (v :: us)

theorem spaced_tail {u : Str × Bool} {us : List (Str × Bool)} (h : Spaced (u :: us)) : Spaced us := by
  cases us with
  | nil => trivial
  | cons v us => exact h.2.2

theorem spaced_ne {u : Str × Bool} {us : List (Str × Bool)} (h : Spaced (u :: us)) : 0 < blen u.1 := by
  have : u.1 ≠ [] := by
    cases us with
    | nil => exact h
    | cons v us => exact h.1
  exact Nat.pos_of_ne_zero (fun h => this (blen_eq_zero.mp h))

theorem reLoop_units (n : Nat) : ∀ (us : List (Str × Bool)) (a : Nat), us.length ≤ n → Spaced us →
    (∀ u ∈ us.head?, u.2 = true) →
    reLoop (a + blen (us.map (·.1)).flatten) (marks a us) a = spansAt a us := by
  induction n with
  | zero =>
    intro us a hn _ _
    have : us = [] := List.length_eq_zero_iff.mp (by omega)
    subst this
    simp [marks, spansAt, reLoop]
  | succ n ih =>
    intro us a hn hs hh
    match us, hn, hs, hh with
    | [], _, _, _ => simp [marks, spansAt, reLoop]
    | (w, false) :: us, _, _, hh => exact absurd (hh (w, false) (by simp)) (by simp)
    | [(w, true)], _, _, _ =>
      simp [marks, spansAt, reLoop]
    | (w, true) :: (v, true) :: us, hn, hs, _ =>
      have := ih ((v, true) :: us) (a + blen w) (by simp at hn ⊢; omega) hs.2.2 (by simp)
      simp only [marks, spansAt, List.filter_cons, if_true, List.map_cons, List.flatten_cons, blen_append] at this ⊢
      rw [reLoop, if_neg (by simp)]
      dsimp only
      rw [show a + (a + blen w - a) = a + blen w by omega, ← Nat.add_assoc, this]
    | [(w, true), (g, false)], _, hs, _ =>
      have hg := spaced_ne hs.2.2
      simp only [marks, spansAt, List.filter_cons, if_true, List.map_cons, List.flatten_cons, blen_append, Bool.false_eq_true,
        if_false, List.filter_nil, List.map_nil, List.flatten_nil, blen_nil]
      rw [reLoop, reLoop, if_pos (by dsimp only at hg ⊢; omega)]
      dsimp only
      rw [show a + (a + blen w - a) = a + blen w by omega]
      simp only [Nat.add_zero, Nat.add_assoc]
    | (w, true) :: (g, false) :: (v, false) :: us, _, hs, _ =>
      have := hs.2.2.2.1
      simp at this
    | (w, true) :: (g, false) :: (v, true) :: us, hn, hs, _ =>
      have hg := spaced_ne hs.2.2
      dsimp only at hg
      have := ih ((v, true) :: us) (a + blen w + blen g) (by simp at hn ⊢; omega) hs.2.2.2.2 (by simp)
      simp only [marks, spansAt, List.filter_cons, if_true, List.map_cons, List.flatten_cons, blen_append, Bool.false_eq_true,
        if_false] at this ⊢
      rw [reLoop, if_pos (by dsimp only; omega)]
      dsimp only
      rw [show a + (a + blen w - a) + (a + blen w + blen g - (a + blen w)) = a + blen w + blen g by omega]
      rw [show a + (blen w + (blen g + (blen v + blen (us.map (·.1)).flatten))) =
        a + blen w + blen g + (blen v + blen (us.map (·.1)).flatten) by omega, this]

/-- The spans of a pattern, from the matches of the expression. -/
theorem reFind_units (us : List (Str × Bool)) (hne : us ≠ []) (hs : Spaced us) :
    reFind (blen (us.map (·.1)).flatten) (marks 0 us) = spansAt 0 us := by
  match us, hne, hs with
  | (w, true) :: us, _, hs =>
    have := reLoop_units _ ((w, true) :: us) 0 (Nat.le_refl _) hs (by simp)
    rw [Nat.zero_add] at this
    rw [← this]
    simp [marks, spansAt, reFind]
  | [(g, false)], _, _ => simp [marks, spansAt, reFind]
  | (g, false) :: (v, false) :: us, _, hs =>
    have := hs.2.1
    simp at this
  | (g, false) :: (v, true) :: us, _, hs =>
    have hg := spaced_ne hs
    dsimp only at hg
    have := reLoop_units _ ((v, true) :: us) (blen g) (Nat.le_refl _) hs.2.2 (by simp)
    simp only [marks, spansAt, List.filter_cons, if_true, List.map_cons, List.flatten_cons, blen_append, Bool.false_eq_true,
        if_false, Nat.zero_add, reFind] at this ⊢
    rw [if_pos (by omega), this]

/-- The texts at the spans that have a certain flag. -/
theorem spansAt_texts (p : Bool → Bool) (us : List (Str × Bool)) : ∀ (pre post : Str),
    (((spansAt (blen pre) us).filter (fun m => p m.isMatch)).map (fun m => (m.start, m.stop))).map
      (cutOut (encStr (pre ++ (us.map (·.1)).flatten ++ post))) =
    ((us.filter (fun u => p u.2)).map (·.1)).map encStr := by
  induction us with
  | nil => intro pre post; rfl
  | cons u us ih =>
    intro pre post
    obtain ⟨t, fl⟩ := u
    have := ih (pre ++ t) post
    rw [blen_append] at this
    simp only [spansAt, List.map_cons, List.filter_cons, List.flatten_cons]
    have e : pre ++ t ++ (us.map (·.1)).flatten ++ post = pre ++ (t ++ (us.map (·.1)).flatten) ++ post := by simp
    rw [e] at this
    cases hp : p fl with
    | false => simpa [hp] using this
    | true =>
      simp only [if_true, List.map_cons, this]
      congr 1
      have := cutOut_enc pre t ((us.map (·.1)).flatten ++ post)
      rw [blen_append] at this
      rw [← this]
      simp

/-- The flag of a run: that of its first character. -/
def headKeep (keep : Char → Bool) : Str → Bool
  | c :: _ => keep c
  | [] => false

def runUnits (r : Char → Char → Bool) (keep : Char → Bool) (s : Str) : List (Str × Bool) :=
  (runs r s).map (fun w => (w, headKeep keep w))

theorem runs_tail {r : Char → Char → Bool} : ∀ {s p : Str} {ps : List Str}, runs r s = p :: ps → runs r (s.drop p.length) = ps := by
  intro s
  induction s with
  | nil => intro p ps h; cases h
  | cons c s ih =>
    intro p ps h
    rcases runs_cons r c s with ⟨rfl, h'⟩ | ⟨d, s', q, qs, e, h1, h2⟩
    · rw [h'] at h
      cases h
      rfl
    · rw [h2] at h
      split at h
      · cases h
        exact ih h1
      · cases h
        rw [← h1]
        rfl

/-- The expression matches exactly whole runs of kept characters. -/
def MatchesRuns (re : Re) (r : Char → Char → Bool) (keep : Char → Bool) : Prop :=
  (∀ a b, r a b = true → keep a = keep b) ∧
  ∀ c s, re.first (c :: s) = if keep c then some ((runs r (c :: s)).headD []).length else none

theorem findLoop_runs {re : Re} {r : Char → Char → Bool} {keep : Char → Bool} (h : MatchesRuns re r keep) (fuel : Nat) :
    ∀ s pos, s.length ≤ fuel → findLoop re fuel (charsOf s) pos = marks pos (runUnits r keep s) := by
  induction fuel with
  | zero =>
    intro s pos hl
    have hw : s = [] := List.length_eq_zero_iff.mp (by omega)
    subst hw
    rfl
  | succ fuel ih =>
    intro s pos hl
    cases s with
    | nil => rfl
    | cons c s =>
      have hcons : charsOf (c :: s) = (c, c.utf8Size) :: charsOf s := rfl
      have hdrop : ∀ k, (charsOf (c :: s)).drop k = charsOf ((c :: s).drop k) := by
        intro k; simp only [charsOf, List.map_drop]
      have htake : ∀ k, width ((charsOf (c :: s)).take k) = blen ((c :: s).take k) := by
        intro k; rw [← width_chars]; simp only [charsOf, List.map_take]
      have hfst : ((c, c.utf8Size) :: charsOf s).map (·.1) = c :: s := by rw [← hcons, charsOf_fst]
      rw [hcons, findLoop, hfst, ← hcons, h.2]
      rw [List.length_cons] at hl
      have hflat := runs_flatten r (c :: s)
      cases hk : keep c with
      | true =>
        rw [if_pos rfl]
        cases hr : runs r (c :: s) with
        | nil => rw [hr] at hflat; cases hflat
        | cons p ps =>
          have hp : p ≠ [] := runs_ne r (c :: s) p (by rw [hr]; simp)
          have htl := runs_tail hr
          rw [hr, List.flatten_cons] at hflat
          cases p with
          | nil => exact absurd rfl hp
          | cons c' p =>
            rw [List.cons_append, List.cons.injEq] at hflat
            obtain ⟨rfl, hflat⟩ := hflat
            simp only [List.headD_cons, List.length_cons]
            rw [htake, hdrop, ih _ _ (by rw [List.length_drop, List.length_cons]; omega)]
            have hpt : (c' :: s).take (p.length + 1) = c' :: p := by
              rw [List.take_succ_cons, ← hflat, List.take_left]
            rw [hpt]
            have htl : runs r ((c' :: s).drop (p.length + 1)) = ps := htl
            simp only [runUnits, marks, hr, htl, List.map_cons, spansAt, headKeep, hk, List.filter_cons, if_true]
      | false =>
        rw [if_neg (by simp)]
        dsimp only
        rw [ih _ _ (by omega)]
        rcases runs_cons r c s with ⟨rfl, h'⟩ | ⟨d, s', q, qs, e, h1, h2⟩
        · simp [runUnits, marks, runs, spansAt, headKeep, hk]
        · unfold runUnits
          rw [h1, h2]
          split
          · next hcd =>
            have := h.1 c d hcd
            rw [hk] at this
            simp only [marks, List.map_cons, headKeep, hk, ← this, spansAt, List.filter_cons, Bool.false_eq_true, if_false,
              blen_cons, Nat.add_assoc]
          · simp only [marks, List.map_cons, headKeep, hk, spansAt, List.filter_cons, Bool.false_eq_true, if_false,
              blen_cons, blen_nil, Nat.add_zero, Nat.add_assoc]

theorem runUnits_spaced {r : Char → Char → Bool} {keep : Char → Bool}
    (h : ∀ a b, keep a = false → keep b = false → r a b = true) (hk : ∀ a b, r a b = true → keep a = keep b) (s : Str) :
    Spaced (runUnits r keep s) := by
  induction s with
  | nil => trivial
  | cons c s ih =>
    unfold runUnits at ih ⊢
    rcases runs_cons r c s with ⟨rfl, h'⟩ | ⟨d, s', q, qs, e, h1, h2⟩
    · rw [h']; simp [Spaced]
    · rw [h1] at ih
      rw [h2]
      split
      · next hcd =>
        have hcd := hk c d hcd
        cases qs with
        | nil => simp [Spaced]
        | cons q' qs =>
          obtain ⟨_, i2, i3⟩ := ih
          exact ⟨by simp, by simpa [headKeep, hcd] using i2, i3⟩
      · next hcd =>
        refine ⟨by simp, ?_, ih⟩
        cases h3 : keep c with
        | true => simp [headKeep, h3]
        | false =>
          cases h4 : keep d with
          | true => simp [headKeep, h4]
          | false => exact absurd (h c d h3 h4) hcd

theorem runUnits_texts (r : Char → Char → Bool) (keep : Char → Bool) (s : Str) : (runUnits r keep s).map (·.1) = runs r s := by
  unfold runUnits
  rw [List.map_map]
  exact List.map_id'' (fun _ => rfl) _

/-- `Split` removing the matches of an expression that matches runs, or all but its matches. -/
theorem split_runs {re : Re} {r : Char → Char → Bool} {keep : Char → Bool} (h : MatchesRuns re r keep)
    (hgap : ∀ a b, keep a = false → keep b = false → r a b = true)
    {n : NStr} (hw : WF n) {s : Str} (hs : n.normalized = encStr s) (hne : s ≠ []) (inverted : Bool) :
    ∃ xs, n.split (if inverted then .invert (.regexp re.engine) else .regexp re.engine) .removed = .ok xs ∧
      xs.map (·.normalized) = ((runs r s).filter (fun w => headKeep keep w == inverted)).map encStr ∧ ∀ x ∈ xs, WF x := by
  have heng : re.engine (encStr s) = marks 0 (runUnits r keep s) := by
    unfold Re.engine
    rw [charsOf_enc]
    exact findLoop_runs h _ _ _ (by simp [charsOf])
  have hflat : ((runUnits r keep s).map (·.1)).flatten = s := by rw [runUnits_texts, runs_flatten]
  have hune : runUnits r keep s ≠ [] := by
    intro h0
    rw [h0] at hflat
    exact hne hflat.symm
  have hsp := runUnits_spaced hgap h.1 s
  have hpos : 0 < blen s := Nat.pos_of_ne_zero (fun h => hne (blen_eq_zero.mp h))
  have hfind : (Pat.regexp re.engine).find n.normalized = .ok (spansAt 0 (runUnits r keep s)) := by
    simp only [Pat.find]
    rw [hs, length_encStr, if_neg (by omega), heng]
    have := reFind_units _ hune hsp
    rw [hflat] at this
    rw [this]
  have htile : Tiles 0 n.normalized.length (spansAt 0 (runUnits r keep s)) := by
    have := spansAt_tiles (runUnits r keep s) 0
    rw [hflat, Nat.zero_add] at this
    rw [hs, length_encStr]; exact this
  have hbd : ∀ m ∈ spansAt 0 (runUnits r keep s), m.start < m.stop ∧ Boundary s m.start ∧ Boundary s m.stop := by
    have := spansAt_bounds (runUnits r keep s) (by
      intro u hu
      unfold runUnits at hu
      rw [List.mem_map] at hu
      obtain ⟨w, hw, rfl⟩ := hu
      exact runs_ne r s w hw) []
    rw [hflat] at this
    exact this
  have hwf : ∀ (qs : List (Nat × Nat)) (xs : List NStr), SlicesOf n qs xs → ∀ x ∈ xs, WF x := by
    intro qs
    induction qs with
    | nil => intro xs h; cases xs with
      | nil => simp
      | cons x xs => exact h.elim
    | cons q qs ih => intro xs h; cases xs with
      | nil => simp
      | cons x xs =>
        obtain ⟨_, h2, h3⟩ := h
        intro y hy
        rcases List.mem_cons.mp hy with rfl | hy
        · exact h2
        · exact ih xs h3 y hy
  cases inverted with
  | false =>
    obtain ⟨xs, h1, h2, _⟩ := C44_split hw hs (.regexp re.engine) .removed _ hfind htile hbd
    refine ⟨xs, h1, ?_, hwf _ _ h2⟩
    rw [h2.texts, hs]
    have := spansAt_texts (fun b => !b) (runUnits r keep s) [] []
    simp only [List.nil_append, List.append_nil, hflat, blen_nil] at this
    rw [if_pos rfl, this]
    unfold runUnits
    rw [List.filter_map, List.map_map]
    simp [Function.comp_def]
  | true =>
    obtain ⟨xs, h1, h2, _⟩ := C44_split hw hs (.invert (.regexp re.engine)) .removed (invertSpans (spansAt 0 (runUnits r keep s)))
      (by
        simp only [Pat.find]
        simp only [Pat.find] at hfind
        rw [hfind]; rfl) (tiles_invert htile) (by
        intro m hm
        simp only [invertSpans, List.mem_map] at hm
        obtain ⟨m', hm', rfl⟩ := hm
        exact hbd m' hm')
    refine ⟨xs, h1, ?_, hwf _ _ h2⟩
    rw [h2.texts, hs]
    have := spansAt_texts (fun b => b) (runUnits r keep s) [] []
    simp only [List.nil_append, List.append_nil, hflat, blen_nil] at this
    rw [if_pos rfl]
    simp only [invertSpans, List.filter_map, List.map_map, Function.comp_def, Bool.not_not] at this ⊢
    rw [this]
    unfold runUnits
    rw [List.filter_map, List.map_map]
    simp [Function.comp_def]

/-! ### The two expressions -/

theorem runs_head_takeWhile (r : Char → Char → Bool) (f : Char → Bool) (hf : ∀ a b, f a = true → r a b = f b) (s : Str) : ∀ c,
    f c = true → ((runs r (c :: s)).headD []).length = (s.takeWhile f).length + 1 := by
  induction s with
  | nil => intro c _; rfl
  | cons d s ih =>
    intro c hc
    rcases runs_cons r c (d :: s) with ⟨h, _⟩ | ⟨d', s', q, qs, e, h1, h2⟩
    · cases h
    · cases e
      rw [h2, hf c d hc]
      cases hd : f d with
      | true =>
        have := ih d hd
        rw [h1] at this
        simp only [if_true, List.headD_cons, List.length_cons] at this ⊢
        rw [List.takeWhile_cons, hd, if_pos rfl, List.length_cons, this]
      | false =>
        rw [List.takeWhile_cons, hd]
        rfl

theorem bert_runs : MatchesRuns bertRe (fun a b => isS a == isS b) isS := by
  refine ⟨fun a b h => by simpa using h, fun c s => ?_⟩
  rw [bertRe, first_plus_chr, runOf, List.takeWhile_cons]
  cases hc : isS c with
  | true =>
    rw [runs_head_takeWhile _ isS (by intro a b h; simp [h]) s c hc]
    simp
  | false => simp

/-- Letters, digits and `_`; spaces; the others. -/
def sameKind (a b : Char) : Bool := isW a == isW b && isS a == isS b

theorem isW_isS (c : Char) (h : isW c = true) : isS c = false := by
  unfold isW at h
  unfold isS
  simp only [decide_eq_true_eq] at h
  rw [decide_eq_false_iff_not]
  rintro (rfl | rfl | rfl | rfl | rfl) <;> revert h <;> decide

theorem whitespace_runs : MatchesRuns whitespaceRe sameKind (fun c => !isS c) := by
  refine ⟨fun a b h => by simp [sameKind] at h; simp [h.2], fun c s => ?_⟩
  rw [whitespaceRe, first_alt, first_plus_chr, first_plus_chr, runOf, runOf, List.takeWhile_cons, List.takeWhile_cons]
  cases hc : isW c with
  | true =>
    have hs := isW_isS c hc
    rw [runs_head_takeWhile _ isW (by
      intro a b h
      have := isW_isS a h
      unfold sameKind
      rw [h, this]
      cases hb : isW b with
      | true => simp [isW_isS b hb]
      | false => simp) s c hc]
    simp [hs]
  | false =>
    cases hs : isS c with
    | true => simp [hs]
    | false =>
      rw [runs_head_takeWhile _ (fun c => !isW c && !isS c) (by
        intro a b h
        simp only [Bool.and_eq_true, Bool.not_eq_true'] at h
        unfold sameKind
        rw [h.1, h.2]
        cases isW b <;> cases isS b <;> rfl) s c (by simp [hc, hs])]
      simp [hs]

end Tok.Regex
