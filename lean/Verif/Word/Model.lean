import Verif.Encoding.Model

/-!
# The WordPiece and WordLevel models (model/wordpiece/wordpiece.go, model/wordlevel/wordlevel.go)
and the WordPiece decoder (decoder/wordpiece.go)

Vocabularies are Go maps that are only read, here functions.  Input is valid UTF-8, so
`[]rune(sequence)` is the list of characters.
-/

namespace Tok

/-- The fields of `WordPiece` that tokenization reads (wordpiece.go:191-204). -/
structure WordPiece where
  vocab : Str → Option Int
  unk : Str
  pre : Str
  maxChars : Int

namespace WordPiece

/-- The text looked up for a piece (wordpiece.go:286-289). -/
def key (m : WordPiece) (start : Nat) (piece : Str) : Str := if start > 0 then m.pre ++ piece else piece

/-- `chars[start:end]`. -/
def sub (chars : Str) (start stop : Nat) : Str := (chars.take stop).drop start

/-- The inner loop (wordpiece.go:285-301), `end` counting down. -/
def inner (m : WordPiece) (chars : Str) (start : Nat) : Nat → Option Token
  | 0 => none
  | stop + 1 =>
    if start < stop + 1 then
      match m.vocab (m.key start (sub chars start (stop + 1))) with
      | some id => some ⟨id, m.key start (sub chars start (stop + 1)), ((start : Int), ((stop + 1 : Nat) : Int))⟩
      | none => inner m chars start stop
    else none

/-- The outer loop (wordpiece.go:281-309) from `start`; `none` is `isBad`. The first argument
bounds the iterations, `tokenize` gives a bound that is not reached. -/
def outer (m : WordPiece) (chars : Str) : Nat → Nat → List Token → Option (List Token)
  | 0, _, _ => none
  | fuel + 1, start, acc =>
    if start < chars.length then
      match inner m chars start chars.length with
      | none => none
      | some t => outer m chars fuel t.offsets.2.toNat (acc ++ [t])
    else some acc

/-- The unknown token for the whole word (wordpiece.go:263-274, 311-323). -/
def unkToken (m : WordPiece) (n : Nat) : Res (List Token) :=
  match m.vocab m.unk with
  | none => .err
  | some id => .ok [⟨id, m.unk, (0, (n : Int))⟩]

/-- `Tokenize` (wordpiece.go:254-332). -/
def tokenize (m : WordPiece) (w : Str) : Res (List Token) :=
  if (w.length : Int) > m.maxChars then m.unkToken w.length
  else
    match outer m w (w.length + 1) 0 [] with
    | none => m.unkToken w.length
    | some ts => .ok ts

end WordPiece

/-- The loop of the WordPiece decoder's `DecodeChain` (decoder/wordpiece.go:84-105), `i` is the
index of the token. `strings.Replace(token, prefix, "", 1)` on a token that has the prefix
removes it there. `cleanup` stands for the eleven replacements of `Cleanup`. -/
def wpDecode (pre : Str) (cleanup : Option (Str → Str)) : Nat → List Str → List Str
  | _, [] => []
  | i, t :: ts =>
    let tok := if i ≠ 0 then (if pre.isPrefixOf t then t.drop pre.length else ' ' :: t) else t
    (match cleanup with
      | some f => f tok
      | none => tok) :: wpDecode pre cleanup (i + 1) ts

/-- `WordPieceDecoder.DecodeChain`. -/
def wpDecodeChain (pre : Str) (cleanup : Option (Str → Str)) (ts : List Str) : List Str :=
  wpDecode pre cleanup 0 ts

/-- `DecoderBase.Decode` (decoder/decoder.go:13-15): the joined chain. -/
def joinDecode (chain : List Str → List Str) (ts : List Str) : Str := (chain ts).flatten

/-- `WordLevel.Tokenize` (wordlevel.go:142-167). -/
def wordLevelTokenize (vocab : Str → Option Int) (unk w : Str) : Res (List Token) :=
  match vocab w with
  | some id => .ok [⟨id, w, (0, (blen w : Int))⟩]
  | none =>
    match vocab unk with
    | none => .err
    | some id => .ok [⟨id, w, (0, (blen w : Int))⟩]

end Tok
