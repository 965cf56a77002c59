import Verif.PreTok.PropsSplitters
import Verif.Unigram.Model

/-!
# C64 for complete tokenizers
-/

namespace Tok.PreTok

open Tok.Norm

/-- An added token of one character, found wherever the character occurs. -/
def charSet (id : Int) (c : Char) : MatchingSet :=
  ⟨[id], fun bs => (classEngine (fun d => d == c) bs).map (fun p => ⟨0, p.1, p.2⟩)⟩

theorem properSet_char (id : Int) (c : Char) : ProperSet (charSet id c) := by
  intro m hm p hp
  obtain ⟨q, hq, rfl⟩ := List.mem_map.mp hp
  obtain ⟨h1, h2, h3⟩ := (properEngine_class (fun d => d == c) m hm).2 q hq
  exact ⟨by simp [charSet], h1, h2, h3⟩

theorem properSet_none : ProperSet ⟨[], fun _ => []⟩ := by
  intro m _ p hp; cases hp

/-- A word-level tokenizer with the added token "@" that splits at spaces. -/
def exampleTk (vocab : Str → Option Int) : Tk :=
  { splitRe := charSet 7 '@'
    splitNormalizedRe := ⟨[], fun _ => []⟩
    normalizer := none
    preTokenizer := some (whitespaceSplit (fun c => c == ' '))
    model := some (wordLevelModel vocab ['?']) }

/-- The hypotheses of `C64_wordlevel_partial` hold for it. -/
example (vocab : Str → Option Int) (h : vocab ['?'] ≠ none) (s : Str) :
    ∃ e, (exampleTk vocab).encodeSingle (.raw (encStr s)) 0 .byte = .ok e ∧
      ∀ (k : Nat) v o, e.tokens[k]? = some v → e.offsets[k]? = some o →
        ∃ g b, s = g ++ v ++ b ∧ v ≠ [] ∧ o = (((blen g : Nat) : Int), ((blen (g ++ v) : Nat) : Int)) := by
  refine C64_wordlevel_partial (gaps := true) vocab ['?'] h rfl (properSet_char 7 '@') properSet_none ?_ rfl s 0
  intro p hp
  cases hp
  exact C65_whitespaceSplit _

/-- "é @b" becomes three entries. -/
example : okAnd ((exampleTk (fun w => if w = ['?'] then some 0 else if w = ['b'] then some 1 else none)).encodeSingle
    (.raw (encStr ['é', ' ', '@', 'b'])) 0 .byte)
    (fun e => decide (e.ids = [0, 7, 1] ∧ e.tokens = [['é'], ['@'], ['b']] ∧
      e.offsets = [(0, 2), (3, 4), (4, 5)] ∧ e.words = [0, 1, 2])) = true := by decide +kernel

/-! ### WordPiece -/

/-- `WordPiece.Tokenize` (wordpiece.go:254-332) as the model of a tokenizer. -/
def wordPieceModel (m : WordPiece) (bs : List UInt8) : Res (Option (List Token)) := do
  let ts ← m.tokenize (decStr bs)
  .ok (some ts)

end Tok.PreTok
