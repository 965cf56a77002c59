import Verif.PreTok.Model

/-!
# The pre-tokenizers that only cut (pretokenizer/*.go)

Regular expression engines and character classes of the Unicode tables are parameters.
-/

namespace Tok.PreTok

open Tok.Norm

/-- The closure all of them give to `Split`: cut by a pattern, attach no tokens
(e.g. pretokenizer/punctuation.go:60-72). -/
def cutWith (pat : Pat) (b : Behavior) (n : NStr) : Res (List SplitIdx) := do
  let xs ← n.split pat b
  .ok (xs.map (fun x => ⟨some x, none⟩))

/-- `CharDelimiterSplit.PreTokenize` (pretokenizer/delimiter.go:20-36). -/
def delimiterSplit (d : Char) (pt : PTS) : Res PTS := pt.split (fun _ n => cutWith (.rune d) .removed n)

/-- `Digits.PreTokenize` (pretokenizer/digits.go:23-53); `isNumber` is `unicode.IsNumber`. -/
def digits (isNumber : Char → Bool) (individual : Bool) (pt : PTS) : Res PTS :=
  pt.split (fun _ n => cutWith (.fn isNumber) (if individual then .isolated else .contiguous) n)

/-- `Punctuation.PreTokenize` (pretokenizer/punctuation.go:59-75); `isPunc` is `isPunctuation`. -/
def punctuation (isPunc : Char → Bool) (b : Behavior) (pt : PTS) : Res PTS :=
  pt.split (fun _ n => cutWith (.fn isPunc) b n)

/-- `Split.PreTokenize` (pretokenizer/split.go:26-61). -/
def splitPre (pat : Pat) (b : Behavior) (invert : Bool) (pt : PTS) : Res PTS :=
  pt.split (fun _ n => cutWith (if invert then .invert pat else pat) b n)

/-- `Whitespace.PreTokenize` (pretokenizer/whitespace.go:22-40); the engine is that of
`\w+|[^\w\s]+`. -/
def whitespace (engine : List UInt8 → List (Nat × Nat)) (pt : PTS) : Res PTS :=
  pt.split (fun _ n => cutWith (.invert (.regexp engine)) .removed n)

/-- `WhitespaceSplit.PreTokenize` (pretokenizer/whitespace.go:52-68); `isWs` is
`normalizer.IsWhitespace`. -/
def whitespaceSplit (isWs : Char → Bool) (pt : PTS) : Res PTS :=
  pt.split (fun _ n => cutWith (.fn isWs) .removed n)

/-- The inner loop of `BertPreTokenizer.PreTokenize` (pretokenizer/bert.go:81-84). -/
def bertInner (isPunc : Char → Bool) : List NStr → Res (List NStr)
  | [] => .ok []
  | x :: xs => do
    let ys ← x.split (.fn isPunc) .isolated
    let rest ← bertInner isPunc xs
    .ok (ys ++ rest)

/-- The closure of `BertPreTokenizer.PreTokenize` (pretokenizer/bert.go:76-94). -/
def bertCut (engine : List UInt8 → List (Nat × Nat)) (isPunc : Char → Bool) (n : NStr) :
    Res (List SplitIdx) := do
  let ws ← n.split (.regexp engine) .removed
  let xs ← bertInner isPunc ws
  .ok (xs.map (fun x => ⟨some x, none⟩))

/-- `BertPreTokenizer.PreTokenize` (pretokenizer/bert.go:75-97); the engine is that of `\s+`,
`isPunc` is `normalizer.IsBertPunctuation`. -/
def bertPre (engine : List UInt8 → List (Nat × Nat)) (isPunc : Char → Bool) (pt : PTS) : Res PTS :=
  pt.split (fun _ n => bertCut engine isPunc n)

/-- `Sequence.PreTokenize` (pretokenizer/sequence.go:19-30). -/
def sequencePre : List (PTS → Res PTS) → PTS → Res PTS
  | [], pt => .ok pt
  | f :: fs, pt => do
    let out ← f pt
    sequencePre fs out

/-- The loop over the characters in `UnicodeScript.PreTokenize`
(pretokenizer/unicode-script.go:56-78), with the offset and the last script; `script` is
`FixedScript`, whose tables are not modelled. -/
def scriptRanges (script : Char → String) : List (Option Char × List UInt8) → Nat → String → List Nat
  | [], _, _ => []
  | (o, _) :: rest, offset, last =>
    let c := runeOf o
    let sc := script c
    (if sc ≠ "Any" && last ≠ "Any" && last ≠ sc then [offset] else []) ++
      scriptRanges script rest (offset + c.utf8Size) (if sc ≠ "Any" then sc else last)

/-- The loop over adjacent ranges (pretokenizer/unicode-script.go:84-98); a nil slice is a nil
dereference. -/
def sliceWindows (n : NStr) : List Nat → Res (List NStr)
  | a :: b :: rest => do
    match ← n.slice ⟨a, b, .normalized⟩ with
    | none => .panic
    | some x => do
      let xs ← sliceWindows n (b :: rest)
      .ok (x :: xs)
  | _ => .ok []

/-- The closure of `UnicodeScript.PreTokenize` (pretokenizer/unicode-script.go:52-108). -/
def scriptCut (script : Char → String) (n : NStr) : Res (List SplitIdx) := do
  let xs ← sliceWindows n (scriptRanges script (explode n.normalized) 0 "" ++ [n.normalized.length])
  .ok (xs.map (fun x => ⟨some x, none⟩))

/-- `UnicodeScript.PreTokenize` (pretokenizer/unicode-script.go:51-111). -/
def unicodeScript (script : Char → String) (pt : PTS) : Res PTS :=
  pt.split (fun _ n => scriptCut script n)

end Tok.PreTok
