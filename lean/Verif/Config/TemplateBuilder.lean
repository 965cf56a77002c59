import Verif.Config.Model

/-!
# The builder of template processors (processor/template.go)
-/

namespace Tok.Config

/-- What `NewTemplate` is given, an `interface{}` (processor/template.go:197). -/
inductive TemplateArg where
  | str (s : Str)
  | strs (l : List Str)
  | other

/-- `NewTemplate` (processor/template.go:197-207). -/
def newTemplate : TemplateArg → Res (List Piece)
  | .str s => templateFromOne s
  | .strs l => templateFromMulti l
  | .other => .err

/-- `Tokens` (processor/template.go:210-213). -/
structure Tokens where
  tokenMap : TokenTable
  orderedKeys : List Str

/-- `DefaultTokens` (processor/template.go:215-220). -/
def defaultTokens : Tokens := ⟨fun _ => none, []⟩

/-- `NewSpecialTokenFrom` (processor/template.go:172-174). -/
def specialTokenFrom (s : Str) (id : Int) : SpecialToken := ⟨s, [id], [s]⟩

/-- The loop of `NewTokens` (processor/template.go:252-256). A token is its value and id. -/
def newTokensLoop : List (Str × Int) → Tokens → Tokens
  | [], t => t
  | (v, i) :: rest, t =>
    newTokensLoop rest
      ⟨fun k => if k = v then some (specialTokenFrom v i) else t.tokenMap k, t.orderedKeys ++ [v]⟩

/-- `NewTokens` (processor/template.go:249-262). -/
def newTokens (toks : List (Str × Int)) : Tokens := newTokensLoop toks ⟨fun _ => none, []⟩

/-- `GetItemByKey` (processor/template.go:270-273). -/
def Tokens.byKey (t : Tokens) (id : Str) : Option SpecialToken := t.tokenMap id

/-- `GetItemByOrder` (processor/template.go:264-268). -/
def Tokens.byOrder (t : Tokens) (i : Int) : Res (Option SpecialToken) := do
  let k ← idx t.orderedKeys i
  .ok (t.byKey k)

/-- A `TemplateProcessing` with its stored counts (processor/template.go:293-299); `tokens` is
`none` for a nil pointer. -/
structure TemplateObj where
  single : List Piece
  pair : List Piece
  addedSingle : Nat
  addedPair : Nat
  tokens : Option Tokens

/-- `countAdded` (processor/template.go:329-350) with a pointer that may be nil: `GetItemByKey` reads
a field of it. -/
def countAddedPtr (tpl : List Piece) (toks : Option Tokens) : Res Nat :=
  match tpl with
  | [] => .ok 0
  | .seq _ _ :: rest => countAddedPtr rest toks
  | .special id _ :: rest =>
    match toks with
    | none => .panic
    | some t => do
      let n ← countAddedPtr rest toks
      .ok ((match t.byKey id with | some x => x.ids.length | none => 0) + n)

/-- `NewTemplateProcessing` and `NewTemplateProcessingFrom` (processor/template.go:307-326). -/
def newTemplateObj (single pair : List Piece) (toks : Option Tokens) : Res TemplateObj := do
  let a ← countAddedPtr single toks
  let b ← countAddedPtr pair toks
  .ok ⟨single, pair, a, b, toks⟩

/-- `updateAddedTokens` (processor/template.go:364-367). -/
def TemplateObj.update (o : TemplateObj) : Res TemplateObj := do
  let a ← countAddedPtr o.single o.tokens
  let b ← countAddedPtr o.pair o.tokens
  .ok { o with addedSingle := a, addedPair := b }

/-- `NewSingle` (processor/template.go:369-377). An error of `NewTemplate` is a panic. -/
def TemplateObj.newSingle (o : TemplateObj) (v : TemplateArg) : Res TemplateObj :=
  match newTemplate v with
  | .ok tpl => TemplateObj.update { o with single := tpl }
  | _ => .panic

/-- `NewPair` (processor/template.go:379-387). -/
def TemplateObj.newPair (o : TemplateObj) (v : TemplateArg) : Res TemplateObj :=
  match newTemplate v with
  | .ok tpl => TemplateObj.update { o with pair := tpl }
  | _ => .panic

/-- `NewSpecialTokens` (processor/template.go:389-392). -/
def TemplateObj.newSpecialTokens (o : TemplateObj) (toks : List (Str × Int)) : Res TemplateObj :=
  TemplateObj.update { o with tokens := some (newTokens toks) }

/-- `DefaultAdded` (processor/template.go:394-403). -/
def TemplateObj.defaultAdded (o : TemplateObj) (isSingle : Bool) : Res Nat :=
  countAddedPtr (if isSingle then o.single else o.pair) o.tokens

/-- `DefaultTemplateProcessing` (processor/template.go:474-494). -/
def defaultTemplateObj : Res TemplateObj := do
  let single ← templateFromOne "$0".toList
  let pair ← templateFromOne "$1".toList
  .ok ⟨single, pair, 0, 0, some defaultTokens⟩

/-- A call of a method of the builder that sets something. -/
inductive BuilderCall where
  | single (v : TemplateArg)
  | pair (v : TemplateArg)
  | tokens (toks : List (Str × Int))

/-- The method that is called (processor/template.go:369-392). -/
def TemplateObj.call (o : TemplateObj) : BuilderCall → Res TemplateObj
  | .single v => o.newSingle v
  | .pair v => o.newPair v
  | .tokens toks => o.newSpecialTokens toks

/-- Several calls in a row, on an object that nobody else changes. -/
def TemplateObj.calls (o : TemplateObj) : List BuilderCall → Res TemplateObj
  | [] => .ok o
  | c :: cs => do
    let o' ← o.call c
    o'.calls cs

/-- `AddedTokens` and `Process` (processor/template.go:560-583) of an object: the counts are the
stored ones. A nil token pointer is only looked at for special tokens; such objects are not given a
processor here. -/
def TemplateObj.toProcessor (o : TemplateObj) (t : Tokens) : PostProcessor :=
  ⟨fun isPair => if isPair then o.addedPair else o.addedSingle,
   (⟨o.single, o.pair, t.tokenMap⟩ : TemplateProc).process⟩

/-! ### Pointers -/

/-- The objects behind the pointers of type `*TemplateProcessing`. -/
abbrev Objs := Nat → TemplateObj

/-- A `TemplateProcessingBuilder` (processor/template.go:360-362) embeds a pointer. -/
structure Builder where
  ptr : Nat

/-- `Builder` (processor/template.go:496-498). -/
def builderOf (p : Nat) : Builder := ⟨p⟩

/-- `Build` (processor/template.go:500-502). -/
def Builder.build (b : Builder) : Nat := b.ptr

/-- Calls on a builder change the object behind its pointer. -/
def Builder.calls (b : Builder) (h : Objs) (cs : List BuilderCall) : Res Objs := do
  let o ← (h b.ptr).calls cs
  .ok (fun p => if p = b.ptr then o else h p)

end Tok.Config
