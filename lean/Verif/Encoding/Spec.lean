import Verif.Encoding.Model

/-!
# Specification vocabulary for encodings

`Field` names the seven per-token arrays, so a statement "in every per-token
array" is `∀ f : Field, …`.
-/

namespace Tok

/-- The seven per-token arrays of an encoding. -/
inductive Field where
  | ids | typeIds | tokens | offsets | specialMask | attentionMask | words
  deriving Repr, DecidableEq

/-- Element type of an array. -/
@[reducible] def Field.Ty : Field → Type
  | .tokens => Str
  | .offsets => Int × Int
  | _ => Int

/-- The array named by a field. -/
@[reducible] def Encoding.arr (e : Encoding) : (f : Field) → List f.Ty
  | .ids => e.ids
  | .typeIds => e.typeIds
  | .tokens => e.tokens
  | .offsets => e.offsets
  | .specialMask => e.specialMask
  | .attentionMask => e.attentionMask
  | .words => e.words

/-- All seven arrays have one entry per token. -/
def Encoding.Aligned (e : Encoding) : Prop := ∀ f : Field, (e.arr f).length = e.ids.length

/-- Aligned, and so are all overflowing parts at any depth. -/
inductive DeepAligned : Encoding → Prop where
  | mk (e : Encoding) : e.Aligned → (∀ o ∈ e.overflowing, DeepAligned o) → DeepAligned e

/-- Window number `k` (number 0 is the kept prefix): `m` entries starting at
`k * step`, fewer at the end. -/
def window (l : List α) (m step k : Nat) : List α := (l.drop (k * step)).take m

/-- `⌈a / b⌉`. -/
def ceilDiv (a b : Nat) : Nat := (a + b - 1) / b

/-- The pad entry of each array. -/
def padEntry (padId padTypeId : Int) (padToken : Str) : (f : Field) → f.Ty
  | .ids => padId
  | .typeIds => padTypeId
  | .tokens => padToken
  | .offsets => (0, 0)
  | .specialMask => 1
  | .attentionMask => 0
  | .words => -1

end Tok
