import Verif.Vocab.Options
import Verif.Added.Props
import Verif.Encoding.PropsBudget
import Verif.Word.PropsBuilders

/-! # C116: added tokens and padding strategies have the options that they were given last -/

namespace Tok

open Tok.Added Tok.Norm

/-! ### Specification -/

def AtOption.singleWord? : AtOption → Option Bool | .singleWord b => some b | _ => none
def AtOption.lstrip? : AtOption → Option Bool | .lstrip b => some b | _ => none
def AtOption.rstrip? : AtOption → Option Bool | .rstrip b => some b | _ => none
def AtOption.normalized? : AtOption → Option Bool | .normalized b => some b | _ => none

/-! ### C116 -/

/-- **C116.** An added token has its content and of every option the value given last; without options it is
not a single word, takes no white space, and is normalized unless it is special. -/
theorem C116_token (s : Str) (special : Bool) (opts : List AtOption) : newAddedToken s special opts =
    { content := s
      singleWord := (lastOf AtOption.singleWord? opts).getD false
      lstrip := (lastOf AtOption.lstrip? opts).getD false
      rstrip := (lastOf AtOption.rstrip? opts).getD false
      normalized := (lastOf AtOption.normalized? opts).getD (!special) } := by
  unfold newAddedToken
  induction opts using snoc_ind with
  | h0 => rfl
  | h1 ks k ih =>
  rw [List.foldl_append, ih]
  simp only [lastOf_snoc]
  cases k <;> simp [atOption, AtOption.singleWord?, AtOption.lstrip?, AtOption.rstrip?, AtOption.normalized?]

/-- **C116.** The default token is the ordinary token with empty content and no options: any text can be set as its
content. -/
theorem C116_default (s : Str) : defaultAddedToken = newAddedToken [] false [] ∧
    { defaultAddedToken with content := s } = newAddedToken s false [] := ⟨rfl, rfl⟩

/-- **C116.** The setters give the token that has the option as well. -/
theorem C116_set (s : Str) (special : Bool) (opts : List AtOption) (b : Bool) :
    setSingleWord (newAddedToken s special opts) b = newAddedToken s special (opts ++ [.singleWord b]) ∧
    setLStrip (newAddedToken s special opts) b = newAddedToken s special (opts ++ [.lstrip b]) ∧
    setRStrip (newAddedToken s special opts) b = newAddedToken s special (opts ++ [.rstrip b]) ∧
    setNormalized (newAddedToken s special opts) b = newAddedToken s special (opts ++ [.normalized b]) := by
  simp only [newAddedToken, List.foldl_append]
  exact ⟨rfl, rfl, rfl, rfl⟩

/-- **C116.** A token without options is found exactly at the leftmost occurrences of its content, special
or not, and whatever the normalizer does. -/
theorem C116_found (wordChar : Char → Bool) (norm : Option (NStr → Res NStr)) (s : Str) (special : Bool)
    (hs : s ≠ []) : ∃ re, getPattern wordChar norm (newAddedToken s special []) = .ok re ∧
      ∀ text, LeftmostOf (fun _ w _ => w = s) text (re.engine (encStr text)) := by
  have e := C116_token s special []
  have h := C91_plain wordChar norm (newAddedToken s special [])
  rw [e] at h ⊢
  exact h rfl rfl rfl hs

/-- **C116.** The padding strategy is the one given last, and without one it is the longest of the batch. -/
theorem C116_strategy (opts : List PsOption) : newPaddingStrategy opts =
    match opts.getLast? with
    | some (.fixed n) => .fixed n
    | _ => .batchLongest := by
  unfold newPaddingStrategy
  induction opts using snoc_ind with
  | h0 => rfl
  | h1 ks k ih =>
  rw [List.foldl_append]
  cases k <;> simp [psOption]

/-- **C116.** A batch padded on the right with the strategy without options is made as long as its longest
encoding; with `WithFixed(n)` as the last option, every encoding gets `n` entries, or keeps its own number if
it has more. -/
theorem C116_padded (opts : List PsOption) (batch : List Encoding) (padId padTypeId : Int) (padToken : Str) :
    (∀ n, batch ≠ [] → IsLongest batch n → ∃ out,
      padEncodings batch ⟨newPaddingStrategy [], .right, padId, padTypeId, padToken⟩ = .ok out ∧
      out.length = batch.length ∧ ∀ e ∈ out, e.ids.length = n) ∧
    (∀ n, ∃ out,
      padEncodings batch ⟨newPaddingStrategy (opts ++ [.fixed n]), .right, padId, padTypeId, padToken⟩ = .ok out ∧
      List.Forall₂ (fun e e' => (e'.ids.length : Int) = max n e.ids.length) batch out) := by
  constructor
  · intro n hne hn
    obtain ⟨out, h, hf⟩ := C10_pad_batchLongest batch hne n hn padId padTypeId padToken
    refine ⟨out, h, ?_⟩
    clear h hn hne
    induction hf with
    | nil => simp
    | cons h _ ih =>
      refine ⟨by simp [ih.1], ?_⟩
      intro e he
      rcases List.mem_cons.mp he with rfl | he
      · exact h.2
      · exact ih.2 e he
  · intro n
    obtain ⟨out, h, hf⟩ := C10_pad_fixed batch n padId padTypeId padToken
    refine ⟨out, ?_, ?_⟩
    · rw [C116_strategy]
      simpa using h
    · clear h
      induction hf with
      | nil => exact .nil
      | cons h _ ih => exact .cons h.2 ih

/-! ### Cases -/

/-- A special token that takes the white space on its left, given twice. -/
example : newAddedToken "<s>".toList true [.lstrip false, .singleWord true, .lstrip true] =
    ⟨"<s>".toList, true, true, false, false⟩ := by decide

example : newPaddingStrategy [.fixed 3, .batchLongest, .fixed 5] = .fixed 5 := rfl

end Tok
