import Verif.Encoding.PropsPad

/-!
# C04, C05: left padding of empty encodings, encodings made from tokens
-/

namespace Tok

/-- C04, what left padding gives for an empty encoding without overflowing parts: every array but the
type ids is right; the type ids are twice as long, the second half of them the padding id. -/
theorem C04_pad_left_empty_partial (e : Encoding) (n : Nat) (hn : 0 < n) (padId padTypeId : Int) (padToken : Str)
    (he : ∀ f : Field, e.arr f = []) (ho : e.overflowing = []) :
    ∃ e', e.pad n padId padTypeId padToken .left = .ok e' ∧
      (∀ f : Field, f ≠ .typeIds → e'.arr f = List.replicate n (padEntry padId padTypeId padToken f)) ∧
      e'.typeIds = List.replicate n padTypeId ++ List.replicate n padId := by
  have h1 := he .ids
  have h2 := he .typeIds
  have h3 := he .tokens
  have h4 := he .offsets
  have h5 := he .specialMask
  have h6 := he .attentionMask
  have h7 := he .words
  obtain ⟨ids, typeIds, tokens, offsets, specialMask, attentionMask, words, overflowing, ranges⟩ := e
  simp only [Encoding.arr] at h1 h2 h3 h4 h5 h6 h7 ho
  subst h1 h2 h3 h4 h5 h6 h7 ho
  have hn' : ¬ ((n : Int) < 0) := by omega
  have hn2 : ¬ ((0 : Int) ≥ (n : Int)) := by omega
  simp only [Encoding.pad, mapRes, Res.bind_ok, List.length_nil, Int.natCast_zero, if_neg hn2, Encoding.pad1,
    Encoding.padLeft, goMake, Int.sub_zero, if_neg hn', List.length_replicate, fillLoop_make, List.append_nil,
    Int.toNat_natCast]
  refine ⟨_, rfl, ?_, rfl⟩
  intro f hf
  cases f <;> first | rfl | exact absurd rfl hf

example : (Encoding.default.pad 2 9 1 ['P'] .left).bind (fun e => .ok (e.ids, e.typeIds, e.specialMask)) =
    .ok ([9, 9], [1, 1, 9, 9], [1, 1]) := by decide +kernel

/-- **C05, violated.** An encoding made from tokens has no word entries, for every list of tokens but
the empty one, and its type ids are 0 whatever is asked for. -/
theorem C05_from_tokens_violated (ts : List Token) (h : ts ≠ []) (typeId : Int) :
    ¬ (newEncodingFromTokens ts typeId).Aligned ∧ (newEncodingFromTokens ts typeId).typeIds = List.replicate ts.length 0 := by
  refine ⟨?_, rfl⟩
  intro ha
  have := ha .words
  simp only [Encoding.arr, newEncodingFromTokens, List.length_nil, List.length_map] at this
  exact h (List.length_eq_zero_iff.mp this.symm)

/-- **C05.** The other arrays have one entry per token: its id, text and offsets, attended and not
special. -/
theorem C05_from_tokens_partial (ts : List Token) (typeId : Int) (i : Nat) (t : Token) (h : ts[i]? = some t) :
    (newEncodingFromTokens ts typeId).ids[i]? = some t.id ∧ (newEncodingFromTokens ts typeId).tokens[i]? = some t.value ∧
    (newEncodingFromTokens ts typeId).offsets[i]? = some t.offsets ∧
    (newEncodingFromTokens ts typeId).specialMask[i]? = some 0 ∧
    (newEncodingFromTokens ts typeId).attentionMask[i]? = some 1 ∧
    (newEncodingFromTokens ts typeId).ids.length = ts.length := by
  obtain ⟨hi, rfl⟩ := List.getElem?_eq_some_iff.mp h
  simp [newEncodingFromTokens, hi]

example : (newEncodingFromTokens [⟨7, ['a'], (0, 1)⟩, ⟨8, ['b'], (1, 2)⟩] 1).offsets = [(0, 1), (1, 2)] := rfl

end Tok
