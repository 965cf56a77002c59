import Verif.Concurrency.PropsTrain

/-!
# C47: what one chunk of a file counts, and where the next one starts
-/

namespace Tok

/-- The bytes of the lines themselves, without their ends. -/
def textSize (lines : List (List UInt8)) : Nat := (lines.map List.length).sum

theorem chunkLines_stop (limit : Nat) (part after : List (List UInt8)) : ∀ cum,
    cum + textSize part ≤ limit → (∀ l, after.head? = some l → limit < cum + textSize part + l.length) →
    chunkLines limit cum (part ++ after) = (part, cum + textSize part + (after.headD []).length) := by
  induction part with
  | nil =>
    intro cum _ h2
    cases after with
    | nil => simp [chunkLines, textSize]
    | cons l after =>
      have := h2 l rfl
      simp only [textSize, List.map_nil, List.sum_nil, Nat.add_zero] at this
      simp [chunkLines, textSize, this]
  | cons p part ih =>
    intro cum h1 h2
    simp only [textSize, List.map_cons, List.sum_cons] at h1 h2
    rw [List.cons_append, chunkLines, if_neg (by omega), ih (cum + p.length) (by simp only [textSize]; omega)
      (by intro l hl; have := h2 l hl; simp only [textSize]; omega)]
    simp only [textSize, List.map_cons, List.sum_cons, Prod.mk.injEq, true_and]
    omega

theorem drop_lines (before rest : List (List UInt8)) :
    (fileBytes (before ++ rest)).drop (fileBytes before).length = fileBytes rest := by
  unfold fileBytes
  rw [List.map_append, List.flatten_append, List.drop_left]

/-- C47. A chunk that starts at a line counts the words of the lines from there on, up to the line
with which their text exceeds the limit: no line before it, no line after it, each line once. -/
theorem C47_chunk_partial (wordsOf : List UInt8 → List Str) (limit : Nat) (before part after : List (List UInt8))
    (hpl : ∀ l ∈ part ++ after, PlainLine l) (hfit : textSize part ≤ limit)
    (hover : ∀ l, after.head? = some l → limit < textSize part + l.length) (w : Str) :
    msgCnt w (processChunk wordsOf (fileBytes before).length limit (fileBytes (before ++ (part ++ after)))).1 =
      (part.map (fun l => (wordsOf l).count w)).sum := by
  unfold processChunk msgCnt
  simp only
  rw [drop_lines, scanLines_file _ hpl, chunkLines_stop limit part after 0 (by omega) (by simpa using hover), List.map_map]
  congr 1
  apply List.map_congr_left
  intro l _
  simp only [Function.comp]
  rw [(processTokens_spec (wordsOf l) [] (by simp) (by simp)).2.2]
  simp [cnt]

/-- C47, violated: the chunk after the first one starts at the first line that has not been counted
only when that line happens to be as long as the number of lines counted so far. Otherwise lines are
counted twice or left out, or a line is cut, even if the goroutines run one after the other. -/
theorem C47_next_start_violated (wordsOf : List UInt8 → List Str) (limit : Nat) (part : List (List UInt8))
    (next : List UInt8) (after : List (List UInt8)) (hpl : ∀ l ∈ part ++ next :: after, PlainLine l)
    (hfit : textSize part ≤ limit) (hover : limit < textSize part + next.length) :
    (processChunk wordsOf 0 limit (fileBytes (part ++ next :: after))).2 = (fileBytes part).length ↔
      next.length = part.length := by
  unfold processChunk
  simp only [List.drop_zero]
  rw [scanLines_file _ hpl, chunkLines_stop limit part (next :: after) 0 (by omega)
    (by intro l hl; simp at hl; subst hl; omega)]
  have : (fileBytes part).length = textSize part + part.length := by
    rw [length_fileBytes]; rfl
  rw [this]
  simp only [List.headD_cons]
  omega

/-- With a limit of 3 bytes the first chunk of a, b, cd, ef counts a and b; the next one starts at
byte 4, the line cd. -/
example : (processChunk (fun l => [l.map (fun b => Char.ofNat b.toNat)]) 0 3
      (fileBytes [[97], [98], [99, 100], [101, 102]])) = ([[("a".toList, 1)], [("b".toList, 1)]], 4) ∧
    (processChunk (fun l => [l.map (fun b => Char.ofNat b.toNat)]) 4 3
      (fileBytes [[97], [98], [99, 100], [101, 102]])) = ([[("cd".toList, 1)]], 4) := by
  constructor <;> decide +kernel

end Tok
