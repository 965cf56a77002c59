import Verif.PreTok.Model
import Verif.Norm.Class

/-!
# Metaspace (pretokenizer/metaspace.go)
-/

namespace Tok.PreTok

open Tok.Norm

/-- `PrependScheme` (pretokenizer/metaspace.go:12-21). -/
inductive Scheme where
  | never | first | always
  deriving Repr, DecidableEq

/-- `Metaspace` (pretokenizer/metaspace.go:26-31). `StrRep` is always equal to `Replacement`. The
regular expression engine for `Replacement` as an expression is a parameter. -/
structure Metaspace where
  rep : Str
  scheme : Scheme
  addPrefix : Bool
  engine : List UInt8 → List (Nat × Nat)

/-- `NewMetaspace` (pretokenizer/metaspace.go:33-46) with a replacement of one character that is
not special in regular expressions. -/
def newMetaspace (r : Char) (addPrefix : Bool) : Metaspace :=
  ⟨[r], if addPrefix then .always else .never, addPrefix, classEngine (fun c => c == r)⟩

/-- `NewMetaspaceWithScheme` (pretokenizer/metaspace.go:49-59), with the same restriction. -/
def newMetaspaceWithScheme (r : Char) (scheme : Scheme) : Metaspace :=
  ⟨[r], scheme, decide (scheme ≠ .never), classEngine (fun c => c == r)⟩

/-- The class `\s` of RE2: tab, newline, form feed, carriage return, space. -/
def isSpace (c : Char) : Bool := c == '\t' || c == '\n' || c == '\x0c' || c == '\r' || c == ' '

/-- The test whether to prepend (pretokenizer/metaspace.go:87-99). -/
def Metaspace.prepends (m : Metaspace) (idx : Nat) (n : NStr) : Bool :=
  (match m.scheme with
    | .always => true
    | .first => idx == 0
    | .never => false) && !(encStr m.rep).isPrefixOf n.normalized

/-- The optional prefix (pretokenizer/metaspace.go:87-99). -/
def Metaspace.withPrefix (m : Metaspace) (idx : Nat) (n : NStr) : Res NStr :=
  if m.prepends idx n then n.prepend (encStr m.rep) else .ok n

/-- The function given to `Split` in `PreTokenize` (pretokenizer/metaspace.go:77-114). -/
def Metaspace.splitFn (m : Metaspace) (idx : Nat) (n : NStr) : Res (List SplitIdx) := do
  let n1 ← n.replace (.regexp (classEngine isSpace)) (encStr m.rep)
  let n2 ← m.withPrefix idx n1
  let xs ← n2.split (.regexp m.engine) .mergedWithNext
  .ok (xs.map (fun x => ⟨some x, none⟩))

/-- `PreTokenize` (pretokenizer/metaspace.go:75-117). -/
def Metaspace.preTokenize (m : Metaspace) (pt : PTS) : Res PTS := pt.split m.splitFn

/-- The loop of `DecodeChain` over the characters of token `i`
(pretokenizer/metaspace.go:124-136). -/
def Metaspace.decodeToken (m : Metaspace) (i : Nat) (token : Str) : Str :=
  token.flatMap (fun c => if [c] = m.rep then (if i = 0 ∧ m.addPrefix then [] else [' ']) else [c])

/-- `DecodeChain` (pretokenizer/metaspace.go:120-143). Tokens are valid UTF-8. -/
def Metaspace.decodeChain (m : Metaspace) (tokens : List Str) : List Str :=
  tokens.zipIdx.map (fun p => m.decodeToken p.2 p.1)

/-- `Decode` (pretokenizer/metaspace.go:145-149). -/
def Metaspace.decode (m : Metaspace) (tokens : List Str) : Str := (m.decodeChain tokens).flatten

end Tok.PreTok
