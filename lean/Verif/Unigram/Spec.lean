import Verif.Unigram.Model

/-!
# What the Unigram model should compute

A segmentation of a text is a list of pieces whose concatenation is the text; every piece is
either a vocabulary entry or a single unknown character.
-/

namespace Tok.Unigram

variable {K : Type} [AddCommGroup K] [LinearOrder K]

/-- `Segm u s pieces w`: `pieces` (each with its id) is a segmentation of `s` of total weight
`w`.  A vocabulary piece of at most 20 bytes weighs its score plus `bonus` for each byte; a
character that is not in the vocabulary may be an unknown piece of weight `unkScore`. -/
inductive Segm (u : Unigram K) : Bytes → List (Bytes × Int) → K → Prop
  | nil : Segm u [] [] 0
  | known (p r : Bytes) (id : Nat) (ps : List (Bytes × Int)) (w : K) :
      p ≠ [] → p.length ≤ 20 → u.tokenToId p = some id → Segm u r ps w →
      Segm u (p ++ r) ((p, (id : Int)) :: ps) (u.scoreOf id + p.length • u.bonus + w)
  | unknown (p r : Bytes) (uid : Int) (ps : List (Bytes × Int)) (w : K) :
      p.length = charLen (p ++ r) → u.tokenToId p = none → u.unkId = some uid → Segm u r ps w →
      Segm u (p ++ r) ((p, uid) :: ps) (u.unkScore + w)

/-- A heaviest segmentation. -/
def Best (u : Unigram K) (s : Bytes) (ps : List (Bytes × Int)) : Prop :=
  ∃ w, Segm u s ps w ∧ ∀ qs v, Segm u s qs v → v ≤ w

/-- Joins maximal runs of adjacent pieces that carry the id `uid`. -/
def fuseRuns (uid : Int) : List (Bytes × Int) → List Bytes
  | [] => []
  | (p, id) :: ps =>
    if id = uid then
      match ps with
      | (_, id') :: _ =>
        if id' = uid then
          match fuseRuns uid ps with
          | r :: rs => (p ++ r) :: rs
          | [] => [p]
        else p :: fuseRuns uid ps
      | [] => [p]
    else p :: fuseRuns uid ps

/-- The texts produced from the pieces: unknown ones fused if the model says so. -/
def output (u : Unigram K) (ps : List (Bytes × Int)) : List Bytes :=
  match u.fuseUnk, u.unkId with
  | true, some uid => fuseRuns uid ps
  | _, _ => ps.map (·.1)

/-- The weight of a segmentation by the scores alone: no length bonus. -/
def trueScore (u : Unigram K) : List (Bytes × Int) → K
  | [] => 0
  | (p, _) :: ps =>
    (match u.tokenToId p with
      | some id => u.scoreOf id
      | none => u.unkScore) + trueScore u ps

end Tok.Unigram
