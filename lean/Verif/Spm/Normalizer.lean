import Verif.Norm.Items

/-!
# The normalizer for compiled character maps (normalizer/precompiled.go, spm/spm-precompiled.go)

The grapheme clusters of a text, which package uniseg finds, are a parameter: a list of non-empty
texts. `tr` stands for `Transform` (see `Verif.Spm.Model`), here from bytes to text, empty if there
is no entry; `mn` for `normalizeMn`, which spells out non-spacing marks.
-/

namespace Tok.Spm

open Tok.Norm

/-- `NormalizeString` (spm-precompiled.go:186-234). -/
def normalizeString (tr : List UInt8 → Str) (mn : Str → Str) : List Str → Str → Str
  | [], chars => chars
  | g :: gs, chars =>
    if blen g < 6 ∧ tr (encStr g) ≠ [] then chars ++ tr (encStr g)
    else
      normalizeString tr mn gs (chars ++ (mn g).flatMap (fun r =>
        let norm := mn (tr (encStr [r]))
        if norm ≠ [] then norm else [r]))

/-- `replace` (precompiled.go:11-41). The loop for more characters than before runs down to 0,
as `i >= diff || i >= 0` says. `old` is the number of characters of the old part. -/
def replaceItems (ts : List (Str × Int)) (old : Nat) (new : Str) : List (Str × Int) :=
  let ts := ts ++ new.map (fun c => ([c], 0))
  let diff := (new.length : Int) - old
  if diff > 0 then ts.map (fun t => (t.1, 1))
  else if diff < 0 then
    match ts.getLast? with
    | some t => ts.dropLast ++ [(t.1, t.2 + diff)]
    | none => ts
  else ts

/-- The loop over the characters of a grapheme (precompiled.go:79-95); `charIdx` stays 0, so that
`part` is made of the first bytes of the grapheme. -/
def runeLoop (tr : List UInt8 → Str) (mn : Str → Str) (grapheme : Str) :
    Str → List (Str × Int) × Bool → List (Str × Int) × Bool
  | [], st => st
  | r :: rs, st =>
    let part := (encStr grapheme).take r.utf8Size
    let norm := mn (tr part)
    runeLoop tr mn grapheme rs
      (if norm ≠ [] then (replaceItems st.1 (explode part).length norm, true) else (st.1 ++ [([r], 0)], st.2))

/-- The loop over the graphemes (precompiled.go:60-96). -/
def graphemeLoop (tr : List UInt8 → Str) (mn : Str → Str) :
    List Str → List (Str × Int) × Bool → List (Str × Int) × Bool
  | [], st => st
  | g :: gs, st =>
    if blen g < 6 ∧ tr (encStr g) ≠ [] then graphemeLoop tr mn gs (replaceItems st.1 g.length (tr (encStr g)), true)
    else graphemeLoop tr mn gs (runeLoop tr mn (mn g) (mn g) st)

/-- `Normalize` (precompiled.go:48-102): one empty change per byte comes first. -/
def normalize (tr : List UInt8 → Str) (mn : Str → Str) (gs : List Str) (n : NStr) : Res NStr :=
  let r := graphemeLoop tr mn gs (List.replicate n.normalized.length ([], 0), false)
  if r.2 then n.transform r.1 0 else .ok n

end Tok.Spm
