import Verif.PreTok.Pipeline
import Verif.PreTok.Splitters
import Verif.ByteLevel.Props

/-!
# The byte-level pre-tokenizer (pretokenizer/bytelevel.go)
-/

namespace Tok.PreTok

open Tok.Norm

/-- The change map of one split (bytelevel.go:203-216) for `Transform`. The loop over the runes of
the text sees U+FFFD for a byte that starts no character. -/
def byteLevelItems (bs : List UInt8) : List (Str × Int) :=
  (byteLevelChanges (decStr bs)).map (fun p => (decStr p.1, p.2))

/-- The closure `ByteLevel.PreTokenize` gives to `Normalize` (bytelevel.go:201-219). -/
def toByteLevel (n : NStr) : Res NStr := n.transform (byteLevelItems n.normalized) 0

/-- The space in front of a split (bytelevel.go:185-188). -/
def spacePrefix (addPrefixSpace : Bool) (n : NStr) : Res NStr :=
  if addPrefixSpace && !(encStr [' ']).isPrefixOf n.normalized then n.prepend (encStr [' ']) else .ok n

/-- `ByteLevel.PreTokenize` (bytelevel.go:182-222); the engine is that of `splitRegStr`. -/
def byteLevelPre (addPrefixSpace : Bool) (engine : List UInt8 → List (Nat × Nat)) (pt : PTS) : Res PTS := do
  let p ← pt.split (fun _ n => do
    let n' ← spacePrefix addPrefixSpace n
    cutWith (.regexp engine) .isolated n')
  p.normalize toByteLevel

/-! ### The regular expression of the pre-tokenizer -/

/-- The characters of a text with their lengths in bytes. -/
abbrev Chars := List (Char × Nat)

/-- The length, in characters, of the longest run of characters of a class at the start. -/
def runLen (f : Char → Bool) : Chars → Nat
  | [] => 0
  | c :: cs => if f c.1 then runLen f cs + 1 else 0

/-- One literal alternative of the expression. -/
def litLen (w : Str) (cs : Chars) : Option Nat :=
  if w.isPrefixOf (cs.map (·.1)) then some w.length else none

/-- ` ?[class]+`: with the space if that leads to a match, else without. -/
def spacedRun (f : Char → Bool) (cs : Chars) : Option Nat :=
  let with' := match cs with
    | c :: r => if c.1 = ' ' ∧ runLen f r ≠ 0 then some (runLen f r + 1) else none
    | [] => none
  with'.or (if runLen f cs ≠ 0 then some (runLen f cs) else none)

/-- The match of `'s|'t|'re|'ve|'m|'ll|'d| ?\p{L}+| ?\p{N}+| ?[^\s\p{L}\p{N}]+` (bytelevel.go:18) at
the start of a text, in characters: the first alternative that matches. `isL`, `isN` are `\p{L}`
and `\p{N}`; `\s` is `[\t\n\f\r ]` in Go. -/
def gpt2Len (isL isN : Char → Bool) (cs : Chars) : Option Nat :=
  (litLen ['\'', 's'] cs).or <| (litLen ['\'', 't'] cs).or <| (litLen ['\'', 'r', 'e'] cs).or <|
  (litLen ['\'', 'v', 'e'] cs).or <| (litLen ['\'', 'm'] cs).or <| (litLen ['\'', 'l', 'l'] cs).or <|
  (litLen ['\'', 'd'] cs).or <| (spacedRun isL cs).or <| (spacedRun isN cs).or <|
  spacedRun (fun c => !(c = '\t' ∨ c = '\n' ∨ c = '\x0c' ∨ c = '\r' ∨ c = ' ') && !isL c && !isN c) cs

/-- The number of bytes of some characters. -/
def width (cs : Chars) : Nat := (cs.map (·.2)).sum

/-- The successive matches (`FindAllStringIndex`), leftmost first; the first argument bounds the
steps, one per character. -/
def gpt2Loop (isL isN : Char → Bool) : Nat → Chars → Nat → List (Nat × Nat)
  | 0, _, _ => []
  | _, [], _ => []
  | fuel + 1, c :: cs, pos =>
    match gpt2Len isL isN (c :: cs) with
    | some (k + 1) =>
      let w := width ((c :: cs).take (k + 1))
      (pos, pos + w) :: gpt2Loop isL isN fuel ((c :: cs).drop (k + 1)) (pos + w)
    | _ => gpt2Loop isL isN fuel cs (pos + c.2)

/-- The regular expression of the pre-tokenizer (bytelevel.go:18). -/
def gpt2Engine (isL isN : Char → Bool) (bs : List UInt8) : List (Nat × Nat) :=
  let cs := (explode bs).map (fun p => (runeOf p.1, p.2.length))
  gpt2Loop isL isN cs.length cs 0

end Tok.PreTok
