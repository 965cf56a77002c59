import Verif.Processor.Model
import Verif.Encoding.Budget
import Verif.GoMap

/-!
# Templates as text and configuration values (processor/template.go, pretrained/padding.go,
pretrained/truncation.go, pretrained/processor.go)
-/

namespace Tok.Config

/-! ### Template text -/

/-- `strings.Split(s, string(sep))`, for a separator of one character. -/
def splitChar (sep : Char) : Str → Str → List Str
  | [], acc => [acc]
  | c :: s, acc => if c = sep then acc :: splitChar sep s [] else splitChar sep s (acc ++ [c])

/-- The loop of `strconv.Atoi` over digits; `none` is a syntax error. -/
def digitsLoop : Str → Nat → Option Nat
  | [], n => some n
  | c :: s, n => if '0' ≤ c ∧ c ≤ '9' then digitsLoop s (n * 10 + (c.toNat - 48)) else none

/-- `strconv.Atoi` after the sign, on a 64-bit platform; `none` is an error. -/
def atoiAbs (neg : Bool) (rest : Str) : Option Int :=
  if rest = [] then none
  else match digitsLoop rest 0 with
    | none => none
    | some n =>
      let v : Int := if neg then -(n : Int) else n
      if -9223372036854775808 ≤ v ∧ v < 9223372036854775808 then some v else none

/-- `strconv.Atoi`. -/
def atoi : Str → Option Int
  | '-' :: r => atoiAbs true r
  | '+' :: r => atoiAbs false r
  | r => atoiAbs false r

/-- `extractId` (processor/template.go:39-80). -/
def extractId (s : Str) : Res Piece :=
  match s with
  | '$' :: rest =>
    if rest = [] ∨ rest = ['A'] ∨ rest = ['a'] then .ok (.seq false 0)
    else if rest = ['B'] ∨ rest = ['b'] then .ok (.seq true 0)
    else match atoi rest with
      | some n => .ok (.seq false n)
      | none => .err
  | s => .ok (.special s 0)

/-- `WithTypeId` (processor/template.go:104-110). -/
def withTypeId (p : Piece) (v : Int) : Piece :=
  match p with
  | .seq b _ => .seq b v
  | .special id _ => .special id v

/-- `NewPiece` (processor/template.go:112-148). -/
def newPiece (s : Str) : Res Piece :=
  match splitChar ':' s [] with
  | [a, b] =>
    match atoi b with
    | none => .err
    | some ty => do
      let p ← extractId a
      .ok (withTypeId p ty)
  | [a] => extractId a
  | _ => .err

/-- `NewTemplateFromMulti` (processor/template.go:184-195). -/
def templateFromMulti : List Str → Res (List Piece)
  | [] => .ok []
  | s :: rest => do
    let p ← newPiece s
    let ps ← templateFromMulti rest
    .ok (p :: ps)

/-- `NewTemplateFromOne` (processor/template.go:178-182). -/
def templateFromOne (s : Str) : Res (List Piece) := templateFromMulti (splitChar ' ' s [])

/-! ### Validation -/

/-- `getType` (processor/template.go:352-358) on a piece. -/
def getType : Piece → Str
  | .seq _ _ => "*SequencePiece".toList
  | .special _ _ => "*SpecialTokenPiece".toList

/-- The first loop of `Validate` (processor/template.go:412-420); the type assertion panics. -/
def pairLoop : List Piece → Bool → Bool → Res (Bool × Bool)
  | [], a, b => .ok (a, b)
  | .special _ _ :: _, _, _ => .panic
  | .seq isB _ :: rest, a, b => pairLoop rest (a || !isB) (b || isB)

/-- The function `check` (processor/template.go:429-443). `order` is `orderedKeys`. -/
def checkToken (tab : TokenTable) (order : List Str) (sp : Str) : Res Str := do
  let k ← idx order 0
  match tab k with
  | none => .ok []
  | some t => .ok (if sp ∈ t.tokens then sp else [])

/-- The second loop of `Validate` (processor/template.go:445-459). -/
def missingLoop (tab : TokenTable) (order : List Str) : List Piece → Res (List Str)
  | [] => .ok []
  | p :: rest =>
    if getType p = "*SequencePeice".toList then missingLoop tab order rest
    else if getType p = "*SpecialToken".toList then
      match p with
      | .special id _ => do
        let s ← checkToken tab order id
        let ms ← missingLoop tab order rest
        .ok (if s = [] then ms else s :: ms)
      | .seq _ _ => .panic
    else missingLoop tab order rest

/-- `Validate` (processor/template.go:405-472): `.ok ()` is a nil error. -/
def validate (tp : TemplateProc) (order : List Str) : Res Unit := do
  let (a, b) ← pairLoop tp.pair false false
  if !(a && b) then .err
  else do
    let ms ← missingLoop tp.tab order (tp.single ++ tp.pair)
    if ms.length > 0 then .err else .ok ()

/-- `DefaultTemplateProcessing` (processor/template.go:474-494). -/
def defaultTemplate : Res TemplateProc := do
  let single ← templateFromOne "$0".toList
  let pair ← templateFromOne "$1".toList
  .ok ⟨single, pair, fun _ => none⟩

/-! ### Configuration values -/

/-- A value of `map[string]interface{}` as made by `encoding/json`; `int` is a Go `int`, which only
maps made by hand contain. A `float64` is the rational number it stands for; `encoding/json` makes
no infinities or NaNs. -/
inductive Val where
  | null
  | bool (b : Bool)
  | float (x : Rat)
  | int (i : Int)
  | str (s : Str)
  | arr (l : List Val)
  | obj (l : List (Str × Val))

/-- `int(x)` of a `float64`: towards zero. Values that do not fit into an `int` are not modelled. -/
def truncInt (x : Rat) : Int := x.num.tdiv x.den

@[simp] theorem truncInt_int (n : Int) : truncInt (n : Rat) = n := by simp [truncInt]

/-- `config[key]`, `none` if absent. The order of the list is the order of iteration. -/
def lookup (m : List (Str × Val)) (k : String) : Option Val := mget m k.toList

/-- `Params.Get` (util/param.go:59-73): `null` if absent or nil. -/
def get (m : List (Str × Val)) (k : String) : Val := (lookup m k).getD .null

/-- `Params.Has` (util/param.go:44-55). -/
def has (m : List (Str × Val)) (k : String) : Bool :=
  match lookup m k with
  | none => false
  | some .null => false
  | some _ => true

/-- The type assertion `.(float64)` followed by `int`. -/
def asFloat : Val → Res Int
  | .float x => .ok (truncInt x)
  | _ => .panic

/-- The type assertion `.(string)`. -/
def asStr : Val → Res Str
  | .str s => .ok s
  | _ => .panic

/-- The type assertion `.([]interface{})`. -/
def asArr : Val → Res (List Val)
  | .arr l => .ok l
  | _ => .panic

/-- The type assertion `.(map[string]interface{})`. -/
def asObj : Val → Res (List (Str × Val))
  | .obj l => .ok l
  | _ => .panic

/-- A size (pretrained/padding.go:28-41, 48-55). -/
def fixedSize : Val → Int
  | .float x => truncInt x
  | .int i => i
  | _ => 512

/-- The loop over the strategy object (pretrained/padding.go:25-42). -/
def strategyLoop : List (Str × Val) → Str → Int → Str × Int
  | [], name, size => (name, size)
  | (k, v) :: rest, _, _ => strategyLoop rest k (fixedSize v)

/-- The `strategy` field (pretrained/padding.go:21-63). -/
def strategyOf (config : List (Str × Val)) : Str × Int :=
  match get config "strategy" with
  | .obj l => strategyLoop l [] 0
  | .str s =>
    (s, match lookup config "size" with
      | some v => fixedSize v
      | none => 512)
  | _ => ("Fixed".toList, 512)

/-- `CreatePaddingParams` (pretrained/padding.go:10-128); `none` is the nil configuration. -/
def createPadding : Option (List (Str × Val)) → Option PadParams
  | none => none
  | some config =>
    let (name, size) := strategyOf config
    let strategy := if name = "BatchLongest".toList then PadStrategy.batchLongest else .fixed size
    let direction := match get config "direction" with
      | .str s => if s = "left".toList ∨ s = "Left".toList then Direction.left else .right
      | _ => .right
    let number := fun (v : Val) => match v with
      | .float x => truncInt x
      | _ => (0 : Int)
    let token := match get config "pad_token" with
      | .str s => s
      | _ => "[PAD]".toList
    some ⟨strategy, direction, number (get config "pad_id"), number (get config "pad_type_id"), token⟩

/-- `CreateTruncationParams` (pretrained/truncation.go:8-34). -/
def createTruncation : Option (List (Str × Val)) → Res (Option TruncParams)
  | none => .ok none
  | some config => do
    let maxLen ← asFloat (get config "max_length")
    let stride ← asFloat (get config "stride")
    let name ← asStr (get config "strategy")
    let strategy :=
      if name = "LongestFirst".toList then TruncStrategy.longestFirst
      else if name = "OnlyFirst".toList then .onlyFirst
      else if name = "OnlySecond".toList then .onlySecond
      else .longestFirst
    .ok (some ⟨maxLen, strategy, stride⟩)

/-- One entry of `single` or `pair`: a `Sequence` (pretrained/processor.go:150-156, 173-179). -/
def sequencePieces (ps : List (Str × Val)) : Res (List Piece) :=
  if has ps "Sequence" then do
    let item ← asObj (get ps "Sequence")
    let id ← asStr (get item "id")
    let ty ← asFloat (get item "type_id")
    .ok [.seq (!decide (id = ['A'])) ty]
  else .ok []

/-- One entry of `single` or `pair`: a `SpecialToken` (pretrained/processor.go:158-164,
181-187). -/
def specialPieces (ps : List (Str × Val)) : Res (List Piece) :=
  if has ps "SpecialToken" then do
    let item ← asObj (get ps "SpecialToken")
    let id ← asStr (get item "id")
    let ty ← asFloat (get item "type_id")
    .ok [.special id ty]
  else .ok []

/-- The loop over `single` or `pair` (pretrained/processor.go:148-165, 171-188). -/
def piecesLoop : List Val → Res (List Piece)
  | [] => .ok []
  | v :: rest => do
    let ps ← asObj v
    let a ← sequencePieces ps
    let b ← specialPieces ps
    let r ← piecesLoop rest
    .ok (a ++ b ++ r)

/-- `single` or `pair` (pretrained/processor.go:146-166, 169-189). -/
def templateOf (config : List (Str × Val)) (k : String) : Res (List Piece) :=
  if has config k then do
    let l ← asArr (get config k)
    piecesLoop l
  else .ok []

/-- `util.CastSlice[float64]` followed by `util.ConvertSlice[float64, int]`. -/
def intsOf : List Val → Res (List Int)
  | [] => .ok []
  | v :: rest => do
    let i ← asFloat v
    let r ← intsOf rest
    .ok (i :: r)

/-- `util.CastSlice[string]`. -/
def strsOf : List Val → Res (List Str)
  | [] => .ok []
  | v :: rest => do
    let s ← asStr v
    let r ← strsOf rest
    .ok (s :: r)

/-- The loop over `special_tokens` (pretrained/processor.go:195-203). -/
def tokensLoop : List (Str × Val) → Res (List SpecialToken)
  | [] => .ok []
  | (_, v) :: rest => do
    let d ← asObj v
    let id ← asStr (get d "id")
    let is ← asArr (get d "ids")
    let ids ← intsOf is
    let ts ← asArr (get d "tokens")
    let tokens ← strsOf ts
    let r ← tokensLoop rest
    .ok (⟨id, ids, tokens⟩ :: r)

/-- `NewTokensFrom` (processor/template.go:222-234): the map. -/
def tableLoop : List SpecialToken → TokenTable → TokenTable
  | [], tab => tab
  | t :: rest, tab => tableLoop rest (fun k => if k = t.id then some t else tab k)

/-- `createTemplateProcessing` (pretrained/processor.go:138-209). Without `special_tokens` the
table is a nil pointer, and counting the added tokens dereferences it if a template has a special
token. -/
def createTemplate (config : List (Str × Val)) : Res TemplateProc := do
  let single ← templateOf config "single"
  let pair ← templateOf config "pair"
  if has config "special_tokens" then do
    let data ← asObj (get config "special_tokens")
    let toks ← tokensLoop data
    .ok ⟨single, pair, tableLoop toks (fun _ => none)⟩
  else if (single ++ pair).any (fun p => match p with | .special _ _ => true | .seq _ _ => false) then .panic
  else .ok ⟨single, pair, fun _ => none⟩

end Tok.Config
