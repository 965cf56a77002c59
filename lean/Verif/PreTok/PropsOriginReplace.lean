import Verif.PreTok.PropsOriginNorm
import Verif.Norm.PropsReplace

/-!
# C112: Replace

The characters a replacement stands for.
-/

namespace Tok.PreTok

open Tok.Norm

/-- The blocks that `Replace` makes of a text cut into matches and other pieces: the replacement
belongs to the last character of its match, the rest of the match is gone. -/
def replaceBlocks (content : Str) (ps : List (Str × Bool)) : List (Str × Str) :=
  ps.flatMap (fun p => if p.2 then [(p.1.dropLast, []), (p.1.drop (p.1.length - 1), content)] else singles p.1)

theorem lefts_replaceBlocks (content : Str) (ps : List (Str × Bool)) :
    lefts (replaceBlocks content ps) = (ps.map (·.1)).flatten := by
  induction ps with
  | nil => rfl
  | cons p ps ih =>
    have : replaceBlocks content (p :: ps) =
      (if p.2 then [(p.1.dropLast, []), (p.1.drop (p.1.length - 1), content)] else singles p.1) ++ replaceBlocks content ps := rfl
    rw [this, lefts_append, ih, List.map_cons, List.flatten_cons]
    congr 1
    cases p.2 with
    | true => simp [lefts, List.dropLast_eq_take]
    | false => simp [lefts_singles]

theorem rights_replaceBlocks (content : Str) (ps : List (Str × Bool)) :
    rights (replaceBlocks content ps) = replacedText content ps := by
  induction ps with
  | nil => rfl
  | cons p ps ih =>
    have : replaceBlocks content (p :: ps) =
      (if p.2 then [(p.1.dropLast, []), (p.1.drop (p.1.length - 1), content)] else singles p.1) ++ replaceBlocks content ps := rfl
    have e2 : replacedText content (p :: ps) = (if p.2 then content else p.1) ++ replacedText content ps := rfl
    rw [this, rights_append, ih, e2]
    congr 1
    cases p.2 with
    | true => simp [rights]
    | false => simp [rights_singles]

theorem alignsOf_replaceBlocks (content : Str) (ps : List (Str × Bool)) : ∀ k,
    alignsOf (replaceBlocks content ps) k = replacedAligns content k ps := by
  induction ps with
  | nil => intro k; rfl
  | cons p ps ih =>
    intro k
    obtain ⟨t, f⟩ := p
    have e : replaceBlocks content ((t, f) :: ps) =
      (if f then [(t.dropLast, []), (t.drop (t.length - 1), content)] else singles t) ++ replaceBlocks content ps := rfl
    have hl : blen t.dropLast + blen (t.drop (t.length - 1)) = blen t := by
      rw [← blen_append, List.dropLast_eq_take, List.take_append_drop]
    rw [e, alignsOf_append, ih, replacedAligns]
    cases f with
    | true =>
      simp only [if_true, alignsOf, blen_nil, List.replicate_zero, List.nil_append, List.append_nil]
      have e2 : lefts [(t.dropLast, []), (t.drop (t.length - 1), content)] = t := by
        simp [lefts, List.dropLast_eq_take]
      rw [e2, show k + blen t.dropLast + blen (t.drop (t.length - 1)) = k + blen t by omega]
    | false =>
      simp only [Bool.false_eq_true, if_false, lefts_singles, byteRanges_blocks]

theorem rinv_fresh {x : NStr} {m : Str} (h : Fresh x m) : RInv x.shift [] [] m [] x := by
  have hlo : x.refs.length = blen m := by
    rw [← alignsO_length, h.alignsO, length_byteRanges]
  refine ⟨by rw [h.original]; rfl, by rw [h.text]; rfl, by rw [h.aligns]; simp, rfl, by rw [hlo]; simp, ?_, ?_, rfl⟩
  · have := h.alignsO
    simpa [NStr.alignsO] using this
  · simpa using h.sep

/-- `Replace` on a part of a text that has not been changed. -/
theorem fresh_replace {x : NStr} {m : Str} (hx : Fresh x m) (p : Pat) (content : Str) (ps : List (Str × Bool))
    (hm : m = (ps.map (·.1)).flatten) (hne : ∀ q ∈ ps, q.1 ≠ []) (hfind : p.find (encStr m) = .ok (spansAt 0 ps)) :
    ∃ y, x.replace p (encStr content) = .ok y ∧ y.normalized = encStr (rights (replaceBlocks content ps)) ∧
      y.aligns = alignsOf (replaceBlocks content ps) 0 ∧ y.shift = x.shift := by
  have h0 := rinv_fresh hx
  rw [hm] at h0
  obtain ⟨y, h1, h2⟩ := replaceLoop_exact content ps hne (off := 0) h0 (by simp)
  refine ⟨y, ?_, ?_, ?_, h2.shift⟩
  · unfold NStr.replace
    rw [hx.text, hfind, runes_encStr]
    exact h1
  · rw [rights_replaceBlocks]; have := h2.normalized; simpa using this
  · rw [alignsOf_replaceBlocks]; have := h2.aligns; simpa [byteRanges] using this

/-- **C112.** Replace: what a replacement stands for is the last character of its match; other
characters stand for themselves. `cut` says what the pattern matches in each part of the text. -/
theorem C112_replace_partial (t : Tk) (s : Str) (p : Pat) (content : Str) (cut : Str → List (Str × Bool))
    (hn : t.normalizer = some (fun n => n.replace p (encStr content)))
    (hcut : ∀ m, ((cut m).map (·.1)).flatten = m) (hne : ∀ m, ∀ q ∈ cut m, q.1 ≠ [])
    (hfind : ∀ u m v, s = u ++ m ++ v → m ≠ [] → p.find (encStr m) = .ok (spansAt 0 (cut m))) :
    Rewrites t s (fun m => replaceBlocks content (cut m)) := by
  refine ⟨fun m => by rw [lefts_replaceBlocks, hcut], ?_⟩
  intro u m x y hf hm h
  obtain ⟨⟨v, hv⟩, hx, _⟩ := hf
  have h := normalizeOrDie_ok hn h
  obtain ⟨y', e1, e2⟩ := fresh_replace hx p content (cut m) (hcut m).symm (hne m) (hfind u m v hv hm)
  rw [e1] at h
  cases h
  exact e2

/-- **C112.** Replace with a class of characters, on any text: every character is a block of its own,
with the replacement if it is of the class. -/
theorem C112_replace_class (t : Tk) (s : Str) (f : Char → Bool) (content : Str)
    (hn : t.normalizer = some (fun n => n.replace (.regexp (classEngine f)) (encStr content))) :
    Rewrites t s (fun m => m.map (fun c => ([c], if f c then content else [c]))) := by
  refine ⟨lefts_chars _, ?_⟩
  intro u m x y hf hm h
  obtain ⟨⟨v, hv⟩, hx, _⟩ := hf
  have h := normalizeOrDie_ok hn h
  obtain ⟨ps, hcut⟩ := fnCut_exists f m
  obtain ⟨y', e1, e2, e3, e4⟩ := fresh_replace hx _ content ps (fnCut_flatten hcut).symm (fnCut_ne hcut)
    (reFind_class f m hm hcut)
  rw [e1] at h
  cases h
  have key : rights (replaceBlocks content ps) = rights (m.map (fun c => ([c], if f c then content else [c]))) ∧
      ∀ k, alignsOf (replaceBlocks content ps) k = alignsOf (m.map (fun c => ([c], if f c then content else [c]))) k := by
    clear e1 e2 e3 e4 hx hv hm
    induction hcut with
    | nil => exact ⟨rfl, fun k => rfl⟩
    | hit c t ps hc _ ih =>
      have e : replaceBlocks content (([c], true) :: ps) = ([], []) :: ([c], content) :: replaceBlocks content ps := rfl
      rw [e, List.map_cons, if_pos hc]
      refine ⟨by rw [rights_cons, rights_cons, rights_cons, ih.1]; rfl, fun k => ?_⟩
      rw [alignsOf, alignsOf, alignsOf, ih.2]
      simp
    | run r t ps _ hr _ _ ih =>
      have e : replaceBlocks content ((r, false) :: ps) = singles r ++ replaceBlocks content ps := rfl
      have e2 : r.map (fun c => ([c], if f c then content else [c])) = singles r := by
        unfold singles
        apply List.map_congr_left
        intro c hc
        rw [if_neg (by simp [hr c hc])]
      rw [e, List.map_append, e2]
      exact ⟨by rw [rights_append, rights_append, ih.1], fun k => by rw [alignsOf_append, alignsOf_append, ih.2]⟩
  exact ⟨by rw [e2, key.1], by rw [e3, key.2], e4⟩

/-! ### Example -/

/-- Puts "--" for every underscore and cuts at spaces. -/
def dashTk : Tk :=
  { splitRe := ⟨[], fun _ => []⟩, splitNormalizedRe := ⟨[], fun _ => []⟩
    normalizer := some (fun n => n.replace (.regexp (classEngine (· = '_'))) (encStr ['-', '-']))
    preTokenizer := some (delimiterSplit ' ')
    model := some (wordLevelModel (fun _ => some 1) ['?']) }

/-- The second word has a byte more after normalizing, and offsets in the text as it was. -/
example : Rewrites dashTk ['a', '_', ' ', '_', 'b'] (fun m => m.map (fun c => ([c], if c = '_' then ['-', '-'] else [c]))) ∧
    (dashTk.encodeSingle (.raw (encStr ['a', '_', ' ', '_', 'b'])) 0 .byte).bind (fun e => .ok (e.tokens, e.offsets)) =
      .ok ([['a', '-', '-'], ['-', '-', 'b']], [(0, 2), (3, 5)]) := by
  refine ⟨?_, by decide +kernel⟩
  have := C112_replace_class dashTk ['a', '_', ' ', '_', 'b'] (· = '_') ['-', '-'] rfl
  simpa using this

end Tok.PreTok
