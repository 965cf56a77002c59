import Verif.Bpe.Model

/-! # `Word.Merge`, used in training (model/bpe/word.go) -/

namespace Tok

/-- `WChange` (word.go:166-170). -/
structure WChange where
  c1 : Int
  c2 : Int
  change : Int
  deriving DecidableEq, Repr

/-- `Symbols.Insert` (word.go:71-79). -/
def symInsert (ss : List Symbol) (s : Symbol) (i : Nat) : Res (List Symbol) :=
  if i > ss.length then .err else .ok (ss.take i ++ (s :: ss.drop i))

/-- `Symbols.Remove` (word.go:82-90). -/
def symRemove (ss : List Symbol) (i : Nat) : Res (List Symbol) :=
  if (i : Int) > (ss.length : Int) - 1 then .err else .ok (ss.take i ++ ss.drop (i + 1))

/-- The changes for the symbol before the pair (word.go:189-201). -/
def changesBefore (i : Nat) (ss : List Symbol) (first : Symbol) (r : Int) : Res (List WChange) :=
  if i > 0 then
    match ss[i - 1]? with
    | some p => .ok [⟨p.c, first.c, -1⟩, ⟨p.c, r, 1⟩]
    | none => .panic
  else .ok []

/-- The changes for the symbol after the pair (word.go:228-241); `ss` is the word after the
replacement. -/
def changesAfter (i : Nat) (ss : List Symbol) (second : Symbol) (r : Int) : Res (List WChange) :=
  if i > 0 ∧ (i : Int) < (ss.length : Int) - 1 then
    match ss[i + 1]? with
    | some n => .ok [⟨second.c, n.c, -1⟩, ⟨r, n.c, 1⟩]
    | none => .panic
  else .ok []

/-- The loop of `Word.Merge` (word.go:181-248). The first argument bounds the number of
iterations; `wordMerge` gives a bound that is never reached. -/
def wordMergeLoop (c1 c2 r : Int) : Nat → Nat → List Symbol → List WChange →
    Res (List Symbol × List WChange)
  | 0, _, _, _ => .panic
  | fuel + 1, i, ss, ch =>
    if i ≥ ss.length then .ok (ss, ch)
    else
      match ss[i]?, ss[i + 1]? with
      | some first, some second =>
        if first.c = c1 ∧ second.c = c2 then do
          let before ← changesBefore i ss first r
          let s1 ← symInsert ss ⟨r, first.prev, second.next, first.len + second.len⟩ i
          let s2 ← symRemove s1 (i + 1)
          let s3 ← symRemove s2 (i + 1)
          let after ← changesAfter i s3 second r
          wordMergeLoop c1 c2 r fuel (i + 1) s3 (ch ++ before ++ after)
        else wordMergeLoop c1 c2 r fuel (i + 1) ss ch
      | _, _ => wordMergeLoop c1 c2 r fuel (i + 1) ss ch

/-- `Word.Merge` (word.go:174-255). -/
def wordMerge (c1 c2 r : Int) (ss : List Symbol) : Res (List Symbol × List WChange) :=
  wordMergeLoop c1 c2 r (ss.length + 1) 0 ss []

end Tok
