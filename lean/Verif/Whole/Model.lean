import Verif.PreTok.Pipeline
import Verif.Processor.Model

/-!
# A whole tokenizer: from inputs to encodings (tokenizer.go:184-271, 452-512 and 1064-1122)
-/

namespace Tok.Whole

open Tok.PreTok

/-- `Tokenizer` (tokenizer.go:257-271) as far as encoding uses it. -/
structure Tokenizer where
  tk : Tk
  trunc : Option TruncParams
  padding : Option PadParams
  processor : Option PostProcessor

/-- `EncodeInput` (tokenizer.go:230-253): `Single` or `Dual`. Another type (only nil is possible outside the
package) ends the process in `Encode` and is not modelled. -/
inductive EncodeInput where
  | single (sentence : InputSequence)
  | dual (sentence pair : InputSequence)

/-- The two functions `Encode` and `EncodeCharOffsets` (tokenizer.go:452-512), which differ in the kind
of offsets. -/
def Tokenizer.encodeWith (t : Tokenizer) (ot : OffsetType) (input : EncodeInput) (special : Bool) :
    Res (Option Encoding) :=
  match input with
  | .single s => do
    let e ← t.tk.encodeSingle s 0 ot
    postProcess t.trunc t.processor t.padding e none special
  | .dual s p => do
    let e ← t.tk.encodeSingle s 0 ot
    let q ← t.tk.encodeSingle p 1 ot
    postProcess t.trunc t.processor t.padding e (some q) special

/-- `Encode` (tokenizer.go:452-478). -/
def Tokenizer.encode (t : Tokenizer) (input : EncodeInput) (special : Bool) : Res (Option Encoding) :=
  t.encodeWith .byte input special

/-- `EncodeSingle` (tokenizer.go:1074-1083); `opts` are the optional arguments. -/
def Tokenizer.encodeSingle (t : Tokenizer) (input : List UInt8) (opts : List Bool) : Res (Option Encoding) :=
  t.encode (.single (.raw input)) (opts.headD false)

/-- `EncodePair` (tokenizer.go:1092-1103). -/
def Tokenizer.encodePair (t : Tokenizer) (input pair : List UInt8) (opts : List Bool) : Res (Option Encoding) :=
  t.encode (.dual (.raw input) (.raw pair)) (opts.headD false)

/-- `Tokenize` (tokenizer.go:1111-1122); a nil encoding is dereferenced. -/
def Tokenizer.tokenize (t : Tokenizer) (input : List UInt8) (opts : List Bool) : Res (List Str) := do
  let en ← t.encodeSingle input [opts.headD false]
  match en with
  | none => .panic
  | some e => .ok e.tokens

end Tok.Whole
