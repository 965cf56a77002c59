import Verif.PreTok.Gpt2
import Verif.PreTok.PropsTokenizers

/-!
# C66: the byte-level pre-tokenizer
-/

namespace Tok.PreTok

open Tok.Norm

/-- C66: for every text, every class of letters and digits without the space, with and without
`AddPrefixSpace`: the pieces are the matches of the expression in the text (with a space in front
if wanted) and the stretches between them, in order; the text of each piece is the byte-level image
of its bytes; its original is the part of the original text it stands for, at its place; and (for
texts without NUL) the alignments of the image are those of the bytes. Missing: texts that start
with NUL when a space is added, and splits that already have tokens (below). -/
theorem C66_pieces_partial (a : Bool) (isL isN : Char → Bool) (hL : isL ' ' = false) (hN : isN ' ' = false)
    (s : Str) (hs : s ≠ []) (hnul : a = true → s.head? ≠ some '\x00') :
    ∃ ys bss ms,
      byteLevelPre a (gpt2Engine isL isN) (newPTS (encStr s)) = .ok ⟨encStr s, ys.map (fun y => ⟨y, none⟩)⟩ ∧
      bss.flatten = prefixedBlocks a s ∧ Each Imaged 0 bss ys ∧
      Tiles 0 (blen (prefixed a s)) ms ∧ rangesOf 0 (bss.map rights) = ms.map (fun m => (m.start, m.stop)) ∧
      (ms.filter (·.isMatch)).map (fun m => (m.start, m.stop)) = gpt2Engine isL isN (encStr (prefixed a s)) :=
  byteLevelPre_fresh a (gpt2_proper isL isN) hs (fresh_new s) (encStr s) hnul
    (fun _ h => gpt2_keeps isL isN hL hN hs h)

/-- C66 for another expression, as long as it does not cut behind the space put in front. -/
theorem C66_engine_partial (a : Bool) (engine : List UInt8 → List (Nat × Nat)) (he : ProperEngine engine)
    (s : Str) (hs : s ≠ []) (hnul : a = true → s.head? ≠ some '\x00')
    (hsp : a = true → s.head? ≠ some ' ' → KeepsSpace engine s) :
    ∃ ys bss ms, byteLevelPre a engine (newPTS (encStr s)) = .ok ⟨encStr s, ys.map (fun y => ⟨y, none⟩)⟩ ∧
      bss.flatten = prefixedBlocks a s ∧ Each Imaged 0 bss ys ∧
      Tiles 0 (blen (prefixed a s)) ms ∧ rangesOf 0 (bss.map rights) = ms.map (fun m => (m.start, m.stop)) ∧
      (ms.filter (·.isMatch)).map (fun m => (m.start, m.stop)) = engine (encStr (prefixed a s)) :=
  byteLevelPre_fresh a he hs (fresh_new s) (encStr s) hnul hsp

/-- C66 (nothing is lost): for every text without tokens found before, the texts of the pieces, one
after the other, are the byte-level image of the text, with a space in front if wanted, and their
originals the text itself. -/
theorem C66_complete_partial (a : Bool) (isL isN : Char → Bool) (hL : isL ' ' = false) (hN : isN ' ' = false)
    (s : Str) (hs : s ≠ []) (hnul : a = true → s.head? ≠ some '\x00') :
    ∃ p, byteLevelPre a (gpt2Engine isL isN) (newPTS (encStr s)) = .ok p ∧
      (p.splits.map (·.normalized.normalized)).flatten = encStr (byteLevelImage (encStr (prefixed a s))) ∧
      (p.splits.map (·.normalized.original)).flatten = encStr s := by
  obtain ⟨ys, bss, ms, h1, h2, h3, -⟩ := C66_pieces_partial a isL isN hL hN s hs hnul
  obtain ⟨t1, t2⟩ := each_texts h3
  obtain ⟨r1, r2⟩ := rights_prefixed a s
  refine ⟨_, h1, ?_, ?_⟩
  · rw [h2, r1] at t2
    rw [← t2, List.map_map]; rfl
  · rw [h2, r2] at t1
    rw [← t1, List.map_map]; rfl

/-- The empty text has no pieces. -/
theorem C66_empty (a : Bool) (engine : List UInt8 → List (Nat × Nat)) :
    byteLevelPre a engine (newPTS []) = .ok ⟨[], []⟩ := by
  have h1 : spacePrefix a (newNStr []) = .ok (newNStr []) := by cases a <;> decide +kernel
  have h2 : (newNStr []).splitAt (keptSpans .isolated [⟨0, 0, false⟩]) = .ok [newNStr []] := by decide +kernel
  have h3 : (newNStr []).normalized = [] := rfl
  simp [byteLevelPre, newPTS, PTS.split, splitLoop, h1, cutWith, NStr.split, Pat.find, h3, h2, keepPieces,
    PTS.normalize, normalizeLoop]

/-- C66 fails for every text in which tokens were found before (added tokens): the pre-tokenizer
gives what it gives without these parts of the text, and no piece of its result has tokens. -/
theorem C66_found_tokens_violated (a : Bool) (engine : List UInt8 → List (Nat × Nat)) (pt : PTS) :
    byteLevelPre a engine pt =
      byteLevelPre a engine { pt with splits := pt.splits.filter (fun x => x.tokens.isNone) } ∧
    ∀ r, byteLevelPre a engine pt = .ok r → ∀ x ∈ r.splits, x.tokens = none := by
  have hfn : ∀ (n : NStr) ps, (do
      let n' ← spacePrefix a n
      cutWith (.regexp engine) .isolated n') = .ok ps → ∀ p ∈ ps, p.tokens = none := by
    intro n ps h
    simp only [cutWith, Res.bind_eq_ok] at h
    obtain ⟨_, _, xs, _, h⟩ := h
    cases h
    intro p hp
    obtain ⟨x, _, rfl⟩ := List.mem_map.mp hp
    rfl
  have hsp := splitLoop_filter _ hfn pt.splits 0 0
  constructor
  · simp only [byteLevelPre, PTS.split]
    rw [← hsp]
    cases splitLoop (fun _ n => do
      let n' ← spacePrefix a n
      cutWith (.regexp engine) .isolated n') pt.splits 0 with
    | err => rfl
    | panic => rfl
    | ok r =>
      simp only [Res.bind_ok, PTS.normalize]
      rw [normalizeLoop_filter toByteLevel r]
  · intro r h
    simp only [byteLevelPre, PTS.normalize, Res.bind_eq_ok] at h
    obtain ⟨p, _, ss, h2, h3⟩ := h
    cases h3
    exact normalizeLoop_tokens _ _ ss h2

/-- A tokenizer with the added token "@" and the byte-level pre-tokenizer; the model makes one token
of each piece. -/
def exampleByteLevel : Tk :=
  { splitRe := charSet 7 '@'
    splitNormalizedRe := ⟨[], fun _ => []⟩
    normalizer := none
    preTokenizer := some (byteLevelPre false (gpt2Engine (fun c => decide ('a' ≤ c ∧ c ≤ 'z')) (fun _ => false)))
    model := some (fun bs => .ok (some [⟨0, decStr bs, (0, bs.length)⟩])) }

/-- C66 fails in an encoding: the added token of "a@b" is lost, with its part of the text. -/
theorem C66_added_token_lost_violated :
    ∃ e : Encoding, exampleByteLevel.encodeSingle (.raw (encStr ['a', '@', 'b'])) 0 .byte = .ok e ∧
      e.tokens = [['a'], ['b']] ∧ e.ids = [0, 0] ∧ e.offsets = [(0, 1), (2, 3)] := by
  have h : okAnd (exampleByteLevel.encodeSingle (.raw (encStr ['a', '@', 'b'])) 0 .byte)
      (fun e => decide (e.tokens = [['a'], ['b']] ∧ e.ids = [0, 0] ∧ e.offsets = [(0, 1), (2, 3)])) = true := by
    decide +kernel
  obtain ⟨e, h1, h2⟩ := okAnd_spec h
  exact ⟨e, h1, of_decide_eq_true h2⟩

/-- C66 fails for a text that starts with NUL if a space is put in front: the call panics. -/
theorem C66_nul_prefix_violated :
    byteLevelPre true (gpt2Engine (fun c => decide ('a' ≤ c ∧ c ≤ 'z')) (fun _ => false))
      (newPTS (encStr ['\x00', 'a'])) = .panic := by
  decide +kernel

/-- The hypotheses of `C66_pieces_partial` are met, and the result is not trivial. -/
example : okAnd (byteLevelPre true (gpt2Engine (fun c => decide ('a' ≤ c ∧ c ≤ 'z') || decide (c = 'é')) (fun _ => false))
    (newPTS (encStr ['h', 'é', ' ', 'a', '\'', 's'])))
    (fun p => decide (p.splits.map (fun x => decStr x.normalized.normalized) =
        [['Ġ', 'h', 'Ã', '©'], ['Ġ', 'a'], ['\'', 's']] ∧
      p.splits.map (fun x => decStr x.normalized.original) = [['h', 'é'], [' ', 'a'], ['\'', 's']] ∧
      p.splits.map (fun x => x.normalized.shift) = [0, 3, 5])) = true := by decide +kernel

end Tok.PreTok
