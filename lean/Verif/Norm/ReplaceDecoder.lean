import Verif.Norm.Model

/-! # Replace as a decoder (normalizer/replace.go:48-72) -/

namespace Tok.Norm

/-- The loop over the matches in a token (normalizer/replace.go:54-63), with the join of the parts. -/
def replaceParts (content token : List UInt8) : List Span → Res (List UInt8)
  | [] => .ok []
  | m :: ms => do
    let part ← if m.isMatch then .ok content else slc token m.start m.stop
    let rest ← replaceParts content token ms
    .ok (part ++ rest)

/-- `Replace.DecodeChain` (normalizer/replace.go:49-68). -/
def replaceChain (p : Pat) (content : List UInt8) : List (List UInt8) → Res (List (List UInt8))
  | [] => .ok []
  | t :: ts => do
    let ms ← p.find t
    let new ← replaceParts content t ms
    let rest ← replaceChain p content ts
    .ok (new :: rest)

/-- `Replace.Decode` (normalizer/replace.go:70-72). -/
def replaceDecode (p : Pat) (content : List UInt8) (ts : List (List UInt8)) : Res (List UInt8) := do
  let out ← replaceChain p content ts
  .ok out.flatten

/-- What `FindAllStringIndex` of a quoted text gives (normalizer/pattern.go:110-112, 119; the engine
is in the standard library): the leftmost places of the text that do not overlap, from byte `i`. -/
def literalFrom (p : List UInt8) (i : Nat) (s : List UInt8) : List (Nat × Nat) :=
  match s with
  | [] => []
  | c :: cs =>
    if p ≠ [] ∧ p.isPrefixOf (c :: cs) then
      (i, i + p.length) :: literalFrom p (i + p.length) ((c :: cs).drop p.length)
    else literalFrom p (i + 1) cs
termination_by s.length
decreasing_by
  · have h : p ≠ [] := by simp_all
    have := List.length_pos_iff.2 h
    simp only [List.length_drop, List.length_cons]
    omega
  · simp

/-- `NewStringPattern` (normalizer/pattern.go:95-97). -/
def stringPattern (p : List UInt8) : Pat := .str p (literalFrom p 0)

end Tok.Norm
