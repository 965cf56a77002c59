import Verif.Vocab.Model

/-!
# Added tokens of a configuration (pretrained/added-tokens.go, pretrained/tokenizer.go)
-/

namespace Tok

/-- `TokenConfig` (config.go:21-29). -/
structure TokenConfig where
  id : Int
  content : Str
  singleWord : Bool := false
  lstrip : Bool := false
  rstrip : Bool := false
  normalized : Bool := false
  special : Bool := false
  deriving DecidableEq, Repr

/-- The token made of an entry (pretrained/added-tokens.go:9-14): `id` and `special` are not copied. -/
def TokenConfig.token (d : TokenConfig) : AddedToken :=
  ⟨d.content, d.singleWord, d.lstrip, d.rstrip, d.normalized⟩

/-- `CreateAddedTokens` (pretrained/added-tokens.go:7-24): the special tokens and the others. -/
def createAddedTokens : List TokenConfig → List AddedToken × List AddedToken
  | [] => ([], [])
  | d :: ds =>
    let (sp, oth) := createAddedTokens ds
    if d.special then (d.token :: sp, oth) else (sp, d.token :: oth)

/-- `if len(specialAddedTokens) > 0 { tk.AddSpecialTokens(...) }` (pretrained/tokenizer.go:76-78). -/
def loadSpecial (T : VocabState) (sp : List AddedToken) : Res VocabState :=
  if sp.length > 0 then (do let r ← T.addSpecialTokens sp; pure r.1) else pure T

/-- `if len(addedTokens) > 0 { tk.AddTokens(...) }` (pretrained/tokenizer.go:79-81). -/
def loadOthers (T : VocabState) (oth : List AddedToken) : Res VocabState :=
  if oth.length > 0 then (do let r ← T.addTokens oth; pure r.1) else pure T

/-- Step 6 of `FromReader` (pretrained/tokenizer.go:74-81). -/
def loadAdded (T : VocabState) (cfg : List TokenConfig) : Res VocabState := do
  let l := createAddedTokens cfg
  let T ← loadSpecial T l.1
  loadOthers T l.2

end Tok
