import Verif.Vocab.Model
import Verif.Encoding.Budget

/-! # Options of added tokens and of the padding strategy (added-vocabulary.go:34-120, util.go:32-67) -/

namespace Tok

/-- The options of `NewAddedToken` (added-vocabulary.go:45-77). -/
inductive AtOption where
  | singleWord (b : Bool)
  | lstrip (b : Bool)
  | rstrip (b : Bool)
  | normalized (b : Bool)

/-- `DefaultAddedToken` (added-vocabulary.go:35-43). -/
def defaultAddedToken : AddedToken := ⟨[], false, false, false, true⟩

/-- What an option does to the token (added-vocabulary.go:49-77). -/
def atOption (t : AddedToken) : AtOption → AddedToken
  | .singleWord b => { t with singleWord := b }
  | .lstrip b => { t with lstrip := b }
  | .rstrip b => { t with rstrip := b }
  | .normalized b => { t with normalized := b }

/-- `NewAddedToken` (added-vocabulary.go:82-92). -/
def newAddedToken (s : Str) (special : Bool) (opts : List AtOption) : AddedToken :=
  opts.foldl atOption { defaultAddedToken with content := s, normalized := !special }

/-- `SetSingleWord` (added-vocabulary.go:96-99): the receiver is a copy, which is changed and returned. -/
def setSingleWord (t : AddedToken) (b : Bool) : AddedToken := { t with singleWord := b }

/-- `SetLStrip` (added-vocabulary.go:103-106). -/
def setLStrip (t : AddedToken) (b : Bool) : AddedToken := { t with lstrip := b }

/-- `SetRStrip` (added-vocabulary.go:110-113). -/
def setRStrip (t : AddedToken) (b : Bool) : AddedToken := { t with rstrip := b }

/-- `SetNormalized` (added-vocabulary.go:117-120). -/
def setNormalized (t : AddedToken) (b : Bool) : AddedToken := { t with normalized := b }

/-- The options of `NewPaddingStrategy` (util.go:37-51). -/
inductive PsOption where
  | batchLongest
  | fixed (size : Int)

/-- What an option does (util.go:39-51): it sets both fields. -/
def psOption (_ps : PadStrategy) : PsOption → PadStrategy
  | .batchLongest => .batchLongest
  | .fixed n => .fixed n

/-- `NewPaddingStrategy` (util.go:53-67). -/
def newPaddingStrategy (opts : List PsOption) : PadStrategy := opts.foldl psOption .batchLongest

end Tok
