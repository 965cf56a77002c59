import Verif.PreTok.Model
import Verif.Vocab.Split

/-!
# From text to encoding: added tokens, normalizer, pre-tokenizer and model
(added-vocabulary.go:472-526, tokenizer.go:390-448 and 555-585)
-/

namespace Tok.PreTok

open Tok.Norm

/-- The characters of a Go string. Token values are lists of characters in the model of encodings;
a byte that starts no character is shown as U+FFFD there (simplification: Go keeps the byte). -/
def decStr (bs : List UInt8) : Str := (explode bs).map (fun p => runeOf p.1)

/-- `matchingSet` (added-vocabulary.go:182-185): the ids, and the answer of the regular expressions
for a text after the two sorts of `findMatches`. -/
structure MatchingSet where
  ids : List Int
  engine : List UInt8 → List PatMatch

/-- The loop of `splitWithIndices` (added-vocabulary.go:482-492). -/
def sliceMatches (n : NStr) : List SplitPiece → Res (List SplitIdx)
  | [] => .ok []
  | p :: ps => do
    let slice ← n.slice ⟨p.start, p.stop, .normalized⟩
    if p.id = -1 then do
      let rest ← sliceMatches n ps
      .ok (⟨slice, none⟩ :: rest)
    else
      match slice with
      | none => .panic
      | some x => do
        let rest ← sliceMatches n ps
        .ok (⟨some x, some [⟨p.id, decStr x.normalized, (0, x.normalized.length)⟩]⟩ :: rest)

/-- `splitWithIndices` (added-vocabulary.go:476-495). -/
def splitWithIndices (re : MatchingSet) (n : NStr) : Res (List SplitIdx) := do
  let ps ← findMatches re.ids n.normalized.length (re.engine n.normalized)
  sliceMatches n ps

/-- The parts of `Tokenizer` that encoding uses (tokenizer.go:257-271), with `none` for nil. The
engines of the added tokens are parameters; normalizer, pre-tokenizer and model are functions. -/
structure Tk where
  splitRe : MatchingSet
  splitNormalizedRe : MatchingSet
  normalizer : Option (NStr → Res NStr)
  preTokenizer : Option (PTS → Res PTS)
  model : Option (List UInt8 → Res (Option (List Token)))

/-- The normalizer in `ExtractAndNormalize` (added-vocabulary.go:515-522): an error ends the
process. -/
def Tk.normalizeOrDie (t : Tk) (n : NStr) : Res NStr :=
  match t.normalizer with
  | none => .ok n
  | some f =>
    match f n with
    | .ok x => .ok x
    | _ => .panic

/-- `ExtractAndNormalize` (added-vocabulary.go:503-526). -/
def Tk.extractAndNormalize (t : Tk) (sequence : List UInt8) : Res PTS := do
  let p1 ← (newPTS sequence).split (fun _ n => splitWithIndices t.splitRe n)
  p1.split (fun _ n => do
    let x ← t.normalizeOrDie n
    splitWithIndices t.splitNormalizedRe x)

/-- Pre-tokenization if a pre-tokenizer is set (tokenizer.go:398-403, 557-563). -/
def Tk.doPreTokenize (t : Tk) (pt : PTS) : Res PTS :=
  match t.preTokenizer with
  | none => .ok pt
  | some f => f pt

/-- `doTokenize` (tokenizer.go:567-585). -/
def Tk.doTokenize (t : Tk) (pt : PTS) (typeId wordIdx : Int) (ot : OffsetType) : Res Encoding := do
  let p ← pt.tokenize (fun n =>
    match t.model with
    | none => .err
    | some f => f n.normalized)
  p.intoEncoding typeId wordIdx ot

/-- The closure `encode` of `EncodeSingleSequence` (tokenizer.go:391-420); `word` is `-1` or the
index of the pre-tokenized sequence. -/
def Tk.encodeOne (t : Tk) (subseq : List UInt8) (typeId word : Int) (ot : OffsetType) : Res Encoding := do
  let normalized ← t.extractAndNormalize subseq
  let pretokenized ← t.doPreTokenize normalized
  t.doTokenize pretokenized typeId word ot

/-- `InputSequence` (tokenizer.go:184-197): raw text, or pre-tokenized words (the three pre-tokenized
kinds are treated alike by the code). -/
inductive InputSequence where
  | raw (s : List UInt8)
  | words (ws : List (List UInt8))

/-- The loop over pre-tokenized words (tokenizer.go:424-431). -/
def Tk.encodeWords (t : Tk) (typeId : Int) (ot : OffsetType) : List (List UInt8) → Nat → Res (List Encoding)
  | [], _ => .ok []
  | w :: ws, i => do
    let e ← t.encodeOne w typeId i ot
    let rest ← t.encodeWords typeId ot ws (i + 1)
    .ok (e :: rest)

/-- `EncodeSingleSequence` (tokenizer.go:390-448). `Merge` changes the receiver, so dropping its
result drops nothing. -/
def Tk.encodeSingle (t : Tk) (input : InputSequence) (typeId : Int) (ot : OffsetType) : Res Encoding := do
  let encodings ← match input with
    | .raw s => do
      let e ← t.encodeOne s typeId (-1) ot
      .ok [e]
    | .words ws => t.encodeWords typeId ot ws 0
  Encoding.default.merge encodings false

end Tok.PreTok
