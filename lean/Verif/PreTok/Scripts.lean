import Verif.Go

/-!
# The script of a character (pretokenizer/unicode-script.go:11-46)
-/

namespace Tok.PreTok

/-- `GetScript` (pretokenizer/unicode-script.go:12-20). `unicode.Scripts` is a map of the standard library;
`tables` are its entries in the order in which `range` visits them, which is another one in every call. -/
def getScript (tables : List (String × (Char → Bool))) (c : Char) : String :=
  match tables with
  | [] => ""
  | (n, t) :: rest => if t c then n else getScript rest c

/-- `FixedScript` (pretokenizer/unicode-script.go:32-46). -/
def fixedScript (tables : List (String × (Char → Bool))) (c : Char) : String :=
  let rawScript := getScript tables c
  if c.toNat = 0x30FC then "Han"
  else if c = ' ' then "Any"
  else if rawScript = "Hiragana" ∨ rawScript = "Katakana" then "Han"
  else rawScript

end Tok.PreTok
