import Verif.Vocab.PropsAdded

/-!
# C19: Decode drops exactly unknown and skipped special ids
-/

namespace Tok
open VocabState

/-- The known tokens of `ids`, in order, without special ones when `skip`. -/
def keptTokens (T : VocabState) (ids : List Int) (skip : Bool) : List Str :=
  (ids.filterMap T.idToToken).filter (fun t => !(skip && T.isSpecial t))

/-- C19: `Decode` hands exactly the kept tokens to the decoder, or joins them
with single spaces when there is none. -/
theorem C19_decode (T : VocabState) (decoder : Option (List Str → Res Str)) (ids : List Int)
    (skip : Bool) :
    T.decode decoder ids skip =
      match decoder with
      | some d => d (keptTokens T ids skip)
      | none => .ok (List.intercalate [' '] (keptTokens T ids skip)) := by
  have hk : ∀ ids, T.decodeTokens skip ids = keptTokens T ids skip := by
    intro ids
    induction ids with
    | nil => rfl
    | cons i is ih =>
      unfold decodeTokens keptTokens
      rw [List.filterMap_cons]
      cases h : T.idToToken i with
      | none => simpa [keptTokens] using ih
      | some t =>
        simp only [List.filter_cons, ih]
        cases skip <;> cases T.isSpecial t <;> rfl
  have hj : ∀ l : List Str, joinStr [' '] l = List.intercalate [' '] l := by
    intro l
    induction l with
    | nil => rfl
    | cons a l ih =>
      cases l with
      | nil => simp [joinStr, List.intercalate, List.intersperse]
      | cons b l => simp [joinStr, ih, List.intercalate, List.intersperse]
  unfold decode
  rw [hk]
  cases decoder with
  | some d => rfl
  | none => simp only [hj]

/-- C19: after any history, decoding with `skip` drops exactly the tokens that
were added as special ones, and a decode of the ids of known tokens without
`skip` keeps them all. -/
theorem C19_decode_known {T₀ T : VocabState} (h₀ : FreshModel T₀) (h : VocabRuns T₀ T)
    (toks : List Str) (ids : List Int) (hids : toks.map T.tokenToId = ids.map some) :
    keptTokens T ids false = toks ∧
    keptTokens T ids true = toks.filter (fun t => !T.isSpecial t) := by
  have : ids.filterMap T.idToToken = toks := by
    induction toks generalizing ids with
    | nil => cases ids with
      | nil => rfl
      | cons => cases hids
    | cons t toks ih =>
      cases ids with
      | nil => cases hids
      | cons i ids =>
        simp only [List.map_cons, List.cons.injEq] at hids
        rw [List.filterMap_cons, (C14_round_trip h₀ h t i).1 hids.1, ih ids hids.2]
  unfold keptTokens
  rw [this]
  constructor <;> simp

/-- Non-vacuity: a special token in the middle, an unknown id at the end. -/
example : ∃ T n, sampleModel.addSpecialTokens [⟨['x'], false, false, false, false⟩] = .ok (T, n) ∧
    T.decode none [0, 2, 1, 9] true = .ok ['a', ' ', 'b'] ∧
    T.decode none [0, 2, 1, 9] false = .ok ['a', ' ', 'x', ' ', 'b'] ∧
    [['a'], ['x']].map T.tokenToId = ([0, 2] : List Int).map some := by
  refine ⟨_, _, rfl, ?_⟩
  decide

end Tok
