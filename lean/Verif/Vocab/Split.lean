import Verif.Go

/-!
# Splitting text on added tokens

Mirrors `AddedVocabulary.findMatches` (added-vocabulary.go:387-465).  The
regular expressions are a parameter: the function receives the list of matches.
-/

namespace Tok

/-- `idOffsets` (added-vocabulary.go:362-365) before the pattern index is
replaced by a token id: pattern index and byte span. -/
structure PatMatch where
  pat : Nat
  start : Nat
  stop : Nat
  deriving DecidableEq, Repr

/-- `idOffsets` (added-vocabulary.go:362-365) as returned: token id (-1 for
text between tokens) and byte span. -/
structure SplitPiece where
  id : Int
  start : Nat
  stop : Nat
  deriving DecidableEq, Repr

/-- The selection loop (added-vocabulary.go:412-444) on the sorted list
`ioPairs`; the accumulator is `currentOffsets`.  `sort.Sort(byId(ioPairs[i:]))`
is applied to a list that is already sorted by id and leaves it unchanged, so
`overlapPairs[0]` is `ioPairs[i]` and both branches keep `ioPairs[i]`. -/
def selectMatches (cur : Nat) : List PatMatch → List PatMatch
  | [] => []
  | m :: ms => if m.start < cur then selectMatches cur ms else m :: selectMatches m.stop ms

/-- The gap-filling loop and the final piece (added-vocabulary.go:447-463). -/
def fillGaps (ids : List Int) (len : Nat) (start : Nat) : List PatMatch → Res (List SplitPiece)
  | [] => .ok (if start ≠ len then [⟨-1, start, len⟩] else [])
  | m :: ms => do
    let id ← idx ids m.pat
    let rest ← fillGaps ids len m.stop ms
    let p : List SplitPiece := [⟨id, m.start, m.stop⟩]
    pure ((if start < m.start then [⟨-1, start, m.start⟩] else []) ++ p ++ rest)

/-- `findMatches` (added-vocabulary.go:387-465) for a sentence of `len` bytes;
`ms` is the list of matches after the two sorts. -/
def findMatches (ids : List Int) (len : Nat) (ms : List PatMatch) : Res (List SplitPiece) :=
  if len = 0 then .ok [⟨-1, 0, 0⟩]
  else fillGaps ids len 0 (selectMatches 0 ms)

/-- Ordered by pattern index, as after `sort.Sort(byId(ioPairs))`
(added-vocabulary.go:408-409); the order of matches of one pattern is the one
the (unstable) sort leaves, any order here. -/
def SortedById (ms : List PatMatch) : Prop := ms.Pairwise (fun a b => a.pat ≤ b.pat)

end Tok
