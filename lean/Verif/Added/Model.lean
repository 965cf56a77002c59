import Verif.Vocab.Model
import Verif.PreTok.Pipeline
import Verif.Regex.Props

/-!
# The regular expressions of added tokens (added-vocabulary.go:125-179 and 318-360)

Syntax trees instead of the texts of the expressions; `regexp.QuoteMeta` makes a text match itself.
-/

namespace Tok.Added

open Tok.Norm Tok.PreTok Tok.Regex

/-- The expressions that `GetPattern` builds: a class of characters, the word boundary `\b`, sequence
and `a?`. -/
inductive Pat where
  | empty
  | chr (f : Char → Bool)
  | bound
  | seq (a b : Pat)
  | opt (a : Pat)

/-- `\b` of package regexp: exactly one of the two neighbours is of `\w` (which is ASCII only). -/
def atBound (before after : Option Char) : Bool := (before.any isW) != (after.any isW)

/-- The character before the place `k` of `s`, when `p` is the one before `s`. -/
def prevAt (p : Option Char) (s : Str) : Nat → Option Char
  | 0 => p
  | k + 1 => s[k]?

/-- The lengths, in characters, of the matches at the start of `s`, the preferred ones first; `p` is
the character before. -/
def Pat.ends : Pat → Option Char → Str → List Nat
  | .empty, _, _ => [0]
  | .chr f, _, s => match s with
    | c :: _ => if f c then [1] else []
    | [] => []
  | .bound, p, s => if atBound p s.head? then [0] else []
  | .seq a b, p, s => (a.ends p s).flatMap (fun k => (b.ends (prevAt p s k) (s.drop k)).map (k + ·))
  | .opt a, p, s => a.ends p s ++ [0]

/-- A text, literally (`regexp.QuoteMeta`). -/
def Pat.lit : Str → Pat
  | [] => .empty
  | c :: w => .seq (.chr (· == c)) (Pat.lit w)

/-- `FindAllStringIndex` (package regexp): leftmost matches; an empty match at the end of the match
before is not counted. `prev` is the character before, `last` the end of the last match; the first
argument bounds the steps. -/
def findAll (re : Pat) : Nat → Option Char → Chars → Nat → Option Nat → List (Nat × Nat)
  | 0, _, _, _, _ => []
  | fuel + 1, prev, cs, pos, last =>
    match (re.ends prev (cs.map (·.1))).head? with
    | some (k + 1) =>
      let w := width (cs.take (k + 1))
      (pos, pos + w) :: findAll re fuel (prevAt prev (cs.map (·.1)) (k + 1)) (cs.drop (k + 1)) (pos + w) (some (pos + w))
    | some 0 =>
      (if last = some pos then [] else [(pos, pos)]) ++
      match cs with
      | [] => []
      | c :: cs => findAll re fuel (some c.1) cs (pos + c.2) last
    | none =>
      match cs with
      | [] => []
      | c :: cs => findAll re fuel (some c.1) cs (pos + c.2) last

/-- `FindAllStringIndex` on a text. A byte that starts no character is read as U+FFFD. -/
def Pat.engine (re : Pat) (bs : List UInt8) : List (Nat × Nat) :=
  let cs := (explode bs).map (fun p => (runeOf p.1, p.2.length))
  findAll re (cs.length + 1) none cs 0 none

/-- The content of a token, normalized, in `GetPattern` (added-vocabulary.go:143-155). An error of the
normalizer ends the process. -/
def normContent (norm : Option (NStr → Res NStr)) (content : Str) : Res Str :=
  match norm with
  | none => .ok content
  | some f =>
    match f (newNStr (encStr content)) with
    | .ok n => .ok (decStr n.normalized)
    | _ => .panic

/-- A `\b` if the character is a word character (added-vocabulary.go:133-142); `wordChar` is
`isWordCharacter` (174-179): letters, marks, digits, control characters and punctuation of package
unicode. -/
def boundIf (wordChar : Char → Bool) (c : Char) : Pat := if wordChar c then .bound else .empty

/-- The middle part of the expression (added-vocabulary.go:128-161). -/
def core (wordChar : Char → Bool) (norm : Option (NStr → Res NStr)) (t : AddedToken) : Res Pat :=
  if t.singleWord then
    match t.content with
    | [] => .panic
    | c :: cs => do
      let w ← normContent norm t.content
      .ok (.seq (boundIf wordChar c) (.seq (.lit w) (boundIf wordChar ((c :: cs).getLast (by simp)))))
  else .ok (.lit t.content)

/-- White space left and right of an expression (added-vocabulary.go:163-169). -/
def stripped (left right : Bool) (re : Pat) : Pat :=
  if left && right then .seq (.opt (.chr isS)) (.seq re (.opt (.chr isS)))
  else if left then .seq (.opt (.chr isS)) re
  else if right then .seq re (.opt (.chr isS))
  else re

/-- `GetPattern` (added-vocabulary.go:125-172). -/
def getPattern (wordChar : Char → Bool) (norm : Option (NStr → Res NStr)) (t : AddedToken) : Res Pat := do
  let re ← core wordChar norm t
  .ok (stripped t.lstrip t.rstrip re)

/-- The matches of all expressions in `findMatches` (added-vocabulary.go:393-405); an expression that
`regexpset` does not report has no matches. -/
def allMatches (res : List Pat) (bs : List UInt8) : List PatMatch :=
  res.zipIdx.flatMap (fun r => (r.1.engine bs).map (fun m => ⟨r.2, m.1, m.2⟩))

/-- Building the expressions in `refreshAddedTokens` (added-vocabulary.go:318-360), for the entries
with or without the flag `normalized`. -/
def buildPatterns (wordChar : Char → Bool) (norm : Option (NStr → Res NStr)) :
    List (AddedToken × Int) → Res (List Pat)
  | [] => .ok []
  | e :: es => do
    let re ← getPattern wordChar norm e.1
    let rest ← buildPatterns wordChar norm es
    .ok (re :: rest)

/-- `matchingSet` (added-vocabulary.go:182-185) for a list of tokens with their ids; `order` is what
the two calls of `sort.Sort` (408-409) leave. -/
def buildSet (wordChar : Char → Bool) (norm : Option (NStr → Res NStr)) (order : List PatMatch → List PatMatch)
    (es : List (AddedToken × Int)) : Res MatchingSet := do
  let res ← buildPatterns wordChar norm es
  .ok ⟨es.map (·.2), fun bs => order (allMatches res bs)⟩

end Tok.Added
