import Verif.Go

/-! # Occurrences of a text in the training data: specification -/

namespace Tok.Train

/-- At how many positions of the text the (non-empty) text `t` begins. -/
def occurrences (t : Str) : Str → Nat
  | [] => 0
  | c :: w => (if t.isPrefixOf (c :: w) then 1 else 0) + occurrences t w

/-- The same in the training data, a list of words with their counts. -/
def frequency (t : Str) (wc : List (Str × Int)) : Int :=
  (wc.map fun e => e.2 * (occurrences t e.1 : Int)).sum

example : occurrences ['a', 'a'] ['a', 'a', 'a', 'b', 'a'] = 2 := by decide
example : frequency ['a', 'b'] [(['a', 'b', 'a', 'b'], (3 : Int)), (['b'], 5), (['c', 'a', 'b'], 2)] = 8 := by decide

end Tok.Train
