import Verif.Utf8

/-!
# Patterns and split behaviours (normalizer/pattern.go, the span part of normalizer/normalized.go)

Strings are byte lists, so that byte offsets and invalid UTF-8 are those of the code.
-/

namespace Tok.Norm

/-- The rune `range` yields: U+FFFD for a byte that starts no character. -/
def runeOf (o : Option Char) : Char := o.getD '�'

/-- `OffsetsMatch` (normalizer/pattern.go:23-26). -/
structure Span where
  start : Nat
  stop : Nat
  isMatch : Bool
  deriving Repr, DecidableEq

/-- The loop of `FnPattern.FindMatches` (normalizer/pattern.go:240-268), with the characters
still to visit, the byte index, `prevStart` and `hasPrevious`. -/
def fnLoop (fn : Char → Bool) (len : Nat) :
    List (Option Char × List UInt8) → Nat → Nat → Bool → List Span
  | [], _, prevStart, hasPrev => if hasPrev then [⟨prevStart, len, false⟩] else []
  | (o, bs) :: rest, byteIdx, prevStart, hasPrev =>
    let c := runeOf o
    if fn c then
      let next := byteIdx + c.utf8Size
      (if hasPrev then [⟨prevStart, byteIdx, false⟩] else []) ++ ⟨byteIdx, next, true⟩ ::
        fnLoop fn len rest (byteIdx + bs.length) next false
    else fnLoop fn len rest (byteIdx + bs.length) prevStart true

/-- `FnPattern.FindMatches` (normalizer/pattern.go:224-272). -/
def fnFind (fn : Char → Bool) (inside : List UInt8) : List Span :=
  if inside.length = 0 then [⟨0, 0, false⟩]
  else fnLoop fn inside.length (explode inside) 0 0 false

/-- `RunePattern.FindMatches` (normalizer/pattern.go:39-87): the same loop with equality. -/
def runeFind (r : Char) (inside : List UInt8) : List Span := fnFind (fun c => c == r) inside

/-- The loop over the matches in `findMatches` (normalizer/pattern.go:147-182), with
`currIndex`. -/
def reLoop (len : Nat) : List (Nat × Nat) → Nat → List Span
  | [], cur => if cur < len then [⟨cur, len, false⟩] else []
  | [m], cur => ⟨m.1, m.2, true⟩ :: reLoop len [] (cur + (m.2 - m.1))
  | m :: next :: ms, cur =>
    if m.2 ≠ next.1 then
      ⟨m.1, m.2, true⟩ :: ⟨m.2, next.1, false⟩ ::
        reLoop len (next :: ms) (cur + (m.2 - m.1) + (next.1 - m.2))
    else ⟨m.1, m.2, true⟩ :: reLoop len (next :: ms) (cur + (m.2 - m.1))

/-- `findMatches` (normalizer/pattern.go:117-185) on what `FindAllStringIndex` returned; the
regular expression engine is not modelled. -/
def reFind (len : Nat) (ms : List (Nat × Nat)) : List Span :=
  match ms with
  | [] => [⟨0, len, false⟩]
  | m :: _ => if m.1 > 0 then ⟨0, m.1, false⟩ :: reLoop len ms m.1 else reLoop len ms 0

/-- `invert` (normalizer/pattern.go:306-314). -/
def invertSpans (ms : List Span) : List Span := ms.map (fun m => { m with isMatch := !m.isMatch })

/-- The pattern types of the package; `string` and `regexp` carry the engine's answer
(normalizer/pattern.go:30-32, 91-93, 187-189, 215-217, 277-279). -/
inductive Pat where
  | rune (r : Char)
  | str (s : List UInt8) (engine : List UInt8 → List (Nat × Nat))
  | regexp (engine : List UInt8 → List (Nat × Nat))
  | fn (f : Char → Bool)
  | invert (p : Pat)

/-- `FindMatches` of the pattern types; `Invert` of another `Invert` ends in `log.Fatalf`
(normalizer/pattern.go:99-115, 199-210, 286-304). -/
def Pat.find : Pat → List UInt8 → Res (List Span)
  | .rune r, s => .ok (runeFind r s)
  | .str p engine, s => if p.length = 0 then .ok [⟨0, s.length, false⟩] else .ok (reFind s.length (engine s))
  | .regexp engine, s => if s.length = 0 then .ok [⟨0, 0, false⟩] else .ok (reFind s.length (engine s))
  | .fn f, s => .ok (fnFind f s)
  | .invert (.invert _), _ => .panic
  | .invert p, s => (Pat.find p s).bind (fun ms => .ok (invertSpans ms))

/-- `SplitDelimiterBehavior` (normalizer/normalized.go:24-32). -/
inductive Behavior where
  | removed | isolated | mergedWithPrevious | mergedWithNext | contiguous
  deriving Repr, DecidableEq

/-- Set the end of the last span: `acc[len(acc)-1].Offsets[1] = e`. -/
def setLastEnd (acc : List Span) (e : Nat) : List Span :=
  match acc.getLast? with
  | none => acc
  | some l => acc.dropLast ++ [{ l with stop := e }]

/-- Set the start of the last span: `acc[len(acc)-1].Offsets[0] = b`. -/
def setLastStart (acc : List Span) (b : Nat) : List Span :=
  match acc.getLast? with
  | none => acc
  | some l => acc.dropLast ++ [{ l with start := b }]

/-- The loop of `MergedWithPreviousBehavior` (normalizer/normalized.go:1213-1230). -/
def mwpLoop : List Span → Bool → List Span → List Span
  | [], _, acc => acc
  | m :: ms, prev, acc =>
    mwpLoop ms m.isMatch
      (if m.isMatch && !prev then
        if acc.length > 0 then setLastEnd acc m.stop else acc ++ [⟨m.start, m.stop, false⟩]
      else acc ++ [⟨m.start, m.stop, false⟩])

/-- The loop of `ContiguousBehavior` (normalizer/normalized.go:1231-1248). -/
def contLoop : List Span → Bool → List Span → List Span
  | [], _, acc => acc
  | m :: ms, prev, acc =>
    contLoop ms m.isMatch
      (if m.isMatch == prev then
        if acc.length > 0 then setLastEnd acc m.stop else acc ++ [⟨m.start, m.stop, false⟩]
      else acc ++ [⟨m.start, m.stop, false⟩])

/-- The loop of `MergedWithNextBehavior` (normalizer/normalized.go:1250-1268), over the matches
from the last to the first. -/
def mwnLoop : List Span → Bool → List Span → List Span
  | [], _, acc => acc
  | m :: ms, prev, acc =>
    mwnLoop ms m.isMatch
      (if m.isMatch && !prev then
        if acc.length > 0 then setLastStart acc m.start else acc ++ [⟨m.start, m.stop, false⟩]
      else acc ++ [⟨m.start, m.stop, false⟩])

/-- The splits computed from the matches (normalizer/normalized.go:1202-1274); the flag now means
"to be removed". -/
def behave (b : Behavior) (ms : List Span) : List Span :=
  match b with
  | .isolated => ms.map (fun m => { m with isMatch := false })
  | .removed => ms
  | .mergedWithPrevious => mwpLoop ms false []
  | .contiguous => contLoop ms false []
  | .mergedWithNext => (mwnLoop ms.reverse false []).reverse

/-- The spans that are sliced out (normalizer/normalized.go:1276-1285). -/
def keptSpans (b : Behavior) (ms : List Span) : List (Nat × Nat) :=
  ((behave b ms).filter (fun m => !m.isMatch)).map (fun m => (m.start, m.stop))

end Tok.Norm
