import Verif.PreTok.ByteLevel

/-!
# Regular expressions as package regexp matches them

Syntax trees instead of their texts. Only what the expressions in this project need; the leftmost-first
rule of package regexp (the match that a backtracking search finds first).
-/

namespace Tok.Regex

open Tok.Norm Tok.PreTok

/-- Regular expressions: the empty one, a class of characters, sequence, choice (`a|b`, the first one
preferred) and repetition (`a*`, as often as possible preferred). -/
inductive Re where
  | empty
  | chr (f : Char → Bool)
  | seq (a b : Re)
  | alt (a b : Re)
  | star (a : Re)

/-- The lengths of the matches of `a*`, given those of `a`: one more round is preferred; a round that
matches nothing is not counted. The first argument bounds the rounds. -/
def starEnds (e : Str → List Nat) : Nat → Str → List Nat
  | 0, _ => [0]
  | fuel + 1, s =>
    ((e s).filter (fun k => k ≠ 0)).flatMap (fun k => (starEnds e fuel (s.drop k)).map (k + ·)) ++ [0]

/-- The lengths, in characters, of the matches at the start of a text, the preferred ones first. -/
def Re.ends : Re → Str → List Nat
  | .empty, _ => [0]
  | .chr f, s => match s with
    | c :: _ => if f c then [1] else []
    | [] => []
  | .seq a b, s => (a.ends s).flatMap (fun k => (b.ends (s.drop k)).map (k + ·))
  | .alt a b, s => a.ends s ++ b.ends s
  | .star a, s => starEnds a.ends s.length s

/-- `a?`. -/
def Re.opt (a : Re) : Re := .alt a .empty

/-- `a+`. -/
def Re.plus (a : Re) : Re := .seq a (.star a)

/-- A text, literally. -/
def Re.lit : Str → Re
  | [] => .empty
  | [c] => .chr (· == c)
  | c :: w => .seq (.chr (· == c)) (Re.lit w)

/-- The match at the start of a text. -/
def Re.first (re : Re) (s : Str) : Option Nat := (re.ends s).head?

/-- `FindAllStringIndex` for expressions that never match the empty text; the first argument bounds
the steps, one per character. -/
def findLoop (re : Re) : Nat → Chars → Nat → List (Nat × Nat)
  | 0, _, _ => []
  | _, [], _ => []
  | fuel + 1, c :: cs, pos =>
    match re.first ((c :: cs).map (·.1)) with
    | some (k + 1) =>
      let w := width ((c :: cs).take (k + 1))
      (pos, pos + w) :: findLoop re fuel ((c :: cs).drop (k + 1)) (pos + w)
    | _ => findLoop re fuel cs (pos + c.2)

/-- `FindAllStringIndex` on a text. A byte that starts no character is read as U+FFFD. -/
def Re.engine (re : Re) (bs : List UInt8) : List (Nat × Nat) :=
  let cs := (explode bs).map (fun p => (runeOf p.1, p.2.length))
  findLoop re cs.length cs 0

/-- `\s` of package regexp. -/
def isS (c : Char) : Bool := c = '\t' ∨ c = '\n' ∨ c = '\x0c' ∨ c = '\r' ∨ c = ' '

/-- `\w` of package regexp. -/
def isW (c : Char) : Bool := ('0' ≤ c ∧ c ≤ '9') ∨ ('A' ≤ c ∧ c ≤ 'Z') ∨ ('a' ≤ c ∧ c ≤ 'z') ∨ c = '_'

/-- `'s|'t|'re|'ve|'m|'ll|'d| ?\p{L}+| ?\p{N}+| ?[^\s\p{L}\p{N}]+` (pretokenizer/bytelevel.go:18). -/
def gpt2Re (isL isN : Char → Bool) : Re :=
  .alt (.lit "'s".toList) <| .alt (.lit "'t".toList) <| .alt (.lit "'re".toList) <| .alt (.lit "'ve".toList) <|
  .alt (.lit "'m".toList) <| .alt (.lit "'ll".toList) <| .alt (.lit "'d".toList) <|
  .alt (.seq (.opt (.lit " ".toList)) (.plus (.chr isL))) <|
  .alt (.seq (.opt (.lit " ".toList)) (.plus (.chr isN))) <|
  .seq (.opt (.lit " ".toList)) (.plus (.chr (fun c => !isS c && !isL c && !isN c)))

/-- `\w+|[^\w\s]+` (pretokenizer/whitespace.go:24). -/
def whitespaceRe : Re := .alt (.plus (.chr isW)) (.plus (.chr (fun c => !isW c && !isS c)))

/-- `\s+` (pretokenizer/bert.go:78). -/
def bertRe : Re := .plus (.chr isS)

end Tok.Regex
