import Verif.Encoding.Model

/-!
# Model of `TruncateEncodings` and `PadEncodings` (util.go)
-/

namespace Tok

/-- util.go:69-76 `TruncationStrategy`. -/
inductive TruncStrategy where
  | longestFirst
  | onlyFirst
  | onlySecond
  deriving Repr, DecidableEq

/-- util.go:8-12 `TruncationParams`. -/
structure TruncParams where
  maxLength : Int
  strategy : TruncStrategy
  stride : Int
  deriving Repr

/-- util.go:113-118, the loop `for i := 0; i < toRemove; i++` of `LongestFirst`. -/
def longestFirstLoop : (rounds : Nat) → (nFirst nSecond : Int) → Int × Int
  | 0, nFirst, nSecond => (nFirst, nSecond)
  | k + 1, nFirst, nSecond =>
    longestFirstLoop k (if nFirst > nSecond then nFirst - 1 else nFirst) (nSecond - 1)

/-- util.go:126-136 `truncateFunc`; its error ends in `log.Fatal` (util.go:148-150). -/
def truncateTarget (target : Encoding) (toRemove stride : Int) : Res Encoding :=
  if (target.ids.length : Int) > toRemove then
    target.truncateMut (target.ids.length - toRemove) stride
  else .panic

/-- util.go:83-152 `TruncateEncodings`; `none` is a nil pair. -/
def truncateEncodings (encoding : Encoding) (pair : Option Encoding) (params : TruncParams) :
    Res (Encoding × Option Encoding) :=
  if params.maxLength = 0 then .ok (encoding, pair)
  else
    let totalLength : Int := match pair with
      | none => encoding.ids.length
      | some p => encoding.ids.length + p.ids.length
    if totalLength < params.maxLength then .ok (encoding, pair)
    else
      let toRemove := totalLength - params.maxLength
      match params.strategy with
      | .longestFirst => do
        let nSecond : Int := match pair with
          | none => 0
          | some p => p.ids.length
        let (nFirst, nSecond) := longestFirstLoop toRemove.toNat encoding.ids.length nSecond
        let encoding ← encoding.truncateMut nFirst params.stride
        match pair with
        | none => .ok (encoding, none)
        | some p => do
          let p ← p.truncateMut nSecond params.stride
          .ok (encoding, some p)
      | .onlyFirst => do
        let encoding ← truncateTarget encoding toRemove params.stride
        .ok (encoding, pair)
      | .onlySecond =>
        match pair with
        | none => .panic
        | some p => do
          let p ← truncateTarget p toRemove params.stride
          .ok (encoding, some p)

/-- util.go:32-35 `PaddingStrategy`: `Fixed` with its size, `BatchLongest`, or
any other name (which leaves the pad length at 0).  Simplified: a strategy
named "Fixed" whose `Value` is not an int panics in Go and is not modelled. -/
inductive PadStrategy where
  | fixed (size : Int)
  | batchLongest
  | other
  deriving Repr

/-- util.go:14-20 `PaddingParams`. -/
structure PadParams where
  strategy : PadStrategy
  direction : Direction
  padId : Int
  padTypeId : Int
  padToken : Str
  deriving Repr

/-- util.go:165-170, the running maximum. -/
def maxLenLoop : (max : Nat) → List Encoding → Nat
  | m, [] => m
  | m, e :: es => maxLenLoop (if e.ids.length > m then e.ids.length else m) es

/-- util.go:154-183 `PadEncodings`. -/
def padEncodings (encodings : List Encoding) (params : PadParams) : Res (List Encoding) :=
  if encodings.length = 0 then .ok encodings
  else
    let padLength : Int := match params.strategy with
      | .fixed n => n
      | .batchLongest => maxLenLoop 0 encodings
      | .other => 0
    mapRes (fun e => e.pad padLength params.padId params.padTypeId params.padToken
      params.direction) encodings

end Tok
