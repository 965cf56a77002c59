import Verif.Norm.Model

/-!
# `RangeOf`
-/

namespace Tok.Norm

/-- `RangeOf` (normalizer/normalized.go:1384-1407). The indices are in characters; the last element of
`r` is read even if `r` is empty. -/
def rangeOf (s : List UInt8) (r : List Int) : Res (List UInt8) :=
  let chars := runes s
  let start := r.headD 0
  match r.getLast? with
  | none => .panic
  | some last =>
    let stop := if last > chars.length then (chars.length : Int) else last
    if start < 0 ∨ start ≥ chars.length ∨ stop > chars.length ∨ start ≥ stop then .ok []
    else .ok (encStr ((chars.take stop.toNat).drop start.toNat))

end Tok.Norm
