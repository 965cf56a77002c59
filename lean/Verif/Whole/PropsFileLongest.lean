import Verif.Whole.PropsFileQuestion

/-!
# C138: pairs that are too long, with the strategy "LongestFirst" in a file
-/

namespace Tok.Whole

open Tok.PreTok Tok.Added Tok.Config
open Tok.Norm (okAnd okAnd_spec)

/-! ### Specification -/

/-- The texts have the same number of tokens, and each of them has more than there is room for beside the special tokens. -/
structure BothTooLong (t : Tokenizer) (L : Int) (special : Bool) (x y : InputSequence) (n : Nat) : Prop where
  first : ∃ e, t.tk.encodeSingle x 0 .byte = .ok e ∧ e.ids.length = n
  second : ∃ d, t.tk.encodeSingle y 1 .byte = .ok d ∧ d.ids.length = n
  room : (if special then (announced t true : Int) else 0) < L
  long : L < n + (if special then (announced t true : Int) else 0)

/-! ### C138 -/

/-- C138 is violated by the strategy "LongestFirst" for pairs, whatever else is in the file: two texts of the same number of
tokens, more than `max_length` leaves room for, are not cut at all. The result is that of the file without the section
"truncation". -/
theorem C138_longest_violated (E : FileEnv) (c : FileConfig) (q : List (Str × Val)) (L stride : Int) (hs : 0 ≤ stride)
    (hq : c.truncation = some q) (h1 : get q "max_length" = .float L) (h2 : get q "stride" = .float stride)
    (h3 : get q "strategy" = .str "LongestFirst".toList) (b : Built)
    (hb : fromReader E (some { c with truncation := none }) = .ok b) :
    ∃ b', fromReader E (some c) = .ok b' ∧ ∀ (x y : InputSequence) (special : Bool) (n : Nat), BothTooLong b.tok L special x y n →
      b'.tok.encode (.dual x y) special = b.tok.encode (.dual x y) special := by
  rw [reader_limits] at hb
  obtain ⟨b0, h0, hb⟩ := Res.bind_eq_ok.mp hb
  cases hb
  refine ⟨{ b0 with tok := { b0.tok with trunc := some ⟨L, .longestFirst, stride⟩, padding := createPadding c.padding } }, ?_, ?_⟩
  · rw [reader_limits, show unlimited c = unlimited { c with truncation := none } from rfl, h0, hq,
      C52_truncation_partial q L stride .longestFirst h1 h2 h3]
    rfl
  · intro x y special n hx
    obtain ⟨e, he, hen⟩ := hx.first
    obtain ⟨d, hd, hdn⟩ := hx.second
    have hroom := hx.room
    have hlong := hx.long
    simp only at he hd
    have hae : e.Aligned := by
      obtain ⟨rows, rfl⟩ := encodeSingle_ofRows he
      exact ofRows_aligned rows 0
    have had : d.Aligned := by
      obtain ⟨rows, rfl⟩ := encodeSingle_ofRows hd
      exact ofRows_aligned rows 1
    have hcut : postTruncate (some ⟨L, .longestFirst, stride⟩) b0.tok.processor e (some d) special = .ok (e, some d) := by
      have key : ∀ k : Int, 0 < L - k → L - k < n →
          truncateEncodings e (some d) ⟨L - k, .longestFirst, stride⟩ = .ok (e, some d) := fun k g1 g2 =>
        (C09_longestFirst_over_budget_violated e d hae had (L - k) stride g1 hs (by omega) (by omega)).1
      simp only [announced] at hroom hlong
      cases hP : b0.tok.processor with
      | none =>
        rw [hP] at hroom hlong
        simp only [postTruncate]
        rw [if_neg (by omega)]
        have := key 0 (by cases special <;> simp at hroom <;> omega) (by cases special <;> simp at hlong <;> omega)
        rwa [Int.sub_zero] at this
      | some P =>
        rw [hP] at hroom hlong
        simp only [postTruncate, Option.isSome_some]
        split
        · next h =>
          rw [h.1, if_pos rfl] at hroom hlong
          dsimp only at hroom hlong
          exact key _ (by omega) (by omega)
        · next h =>
          have := key 0 (by cases special <;> simp at hroom h <;> omega) (by cases special <;> simp at hlong h <;> omega)
          rwa [Int.sub_zero] at this
    simp only [Tokenizer.encode, Tokenizer.encodeWith, he, hd, Res.bind_ok, postProcess, hcut]
    rfl

/-- C138 is violated by the strategy "LongestFirst" for pairs: with BertProcessing and without padding, two texts of `n` tokens
each, more than there is room for, give `2 * n + 3` tokens, more than `max_length`. -/
theorem C138_longest_length_violated (E : FileEnv) (c : FileConfig) (q : List (Str × Val)) (L stride : Int) (hs : 0 ≤ stride)
    (hq : c.truncation = some q) (h1 : get q "max_length" = .float L) (h2 : get q "stride" = .float stride)
    (h3 : get q "strategy" = .str "LongestFirst".toList) (hpad : c.padding = none) (pq : List (Str × Val)) (cls sep : Str × Int)
    (hpost : c.postProcessor = some pq) (hty : TypeIs pq "BertProcessing") (hcls : TokenIs pq "cls" cls)
    (hsep : TokenIs pq "sep" sep) (b : Built) (hb : fromReader E (some (unlimited c)) = .ok b) :
    ∃ b', fromReader E (some c) = .ok b' ∧ ∀ (x y : InputSequence) (n : Nat), BothTooLong b.tok L true x y n →
      ∃ r, b'.tok.encode (.dual x y) true = .ok (some r) ∧ r.ids.length = 2 * n + 3 ∧ L < r.ids.length := by
  have hun : ({ c with truncation := none } : FileConfig) = unlimited c := by
    cases c
    cases hpad
    rfl
  obtain ⟨b', g1, g2⟩ := C138_longest_violated E c q L stride hs hq h1 h2 h3 b (by rw [hun]; exact hb)
  refine ⟨b', g1, ?_⟩
  intro x y n hx
  rw [g2 x y true n hx]
  obtain ⟨u1, u2, pc, u3, u4⟩ := unlimited_tok hb
  rw [hpost, fromSection_some (C70_postProcessor pq _ (.bert pq sep cls hty hsep hcls))] at u3
  cases u3
  rw [Option.map_some, procFn] at u4
  obtain ⟨e, he, hen⟩ := hx.first
  obtain ⟨d, hd, hdn⟩ := hx.second
  obtain ⟨r, k1, _, _, _, k2⟩ := C22_bert_pair ⟨⟨sep.1, sep.2⟩, ⟨cls.1, cls.2⟩⟩ e d
  have hk : r.ids.length = 2 * n + 3 := by
    rw [k2, hen, hdn]
    simp [Bert.addedTokens]
    omega
  refine ⟨r, ?_, hk, ?_⟩
  · simp only [Tokenizer.encode, Tokenizer.encodeWith, he, hd, Res.bind_ok, u1, u2, u4, postProcess, postTruncate,
      Bert.toProcessor, k1]
  · have h := hx.long
    rw [if_pos rfl, announced, u4] at h
    simp only [Bert.toProcessor, Bert.addedTokens, if_true] at h
    omega

/-! ### A case -/

/-- At most five tokens. -/
def longestSection : List (Str × Val) :=
  [("max_length".toList, .float 5), ("strategy".toList, .str "LongestFirst".toList), ("stride".toList, .float 0)]

/-- Two texts of four tokens come out as eleven tokens, where the file says five. -/
example : ∃ (b' : Built) (r : Encoding), fromReader caseBertEnv (some { questionFile with truncation := some longestSection }) = .ok b' ∧
    b'.tok.encode (.dual (.raw (encStr "Yes  no!".toList)) (.raw (encStr "Yes  no!".toList))) true = .ok (some r) ∧
    r.ids.length = 11 := by
  have h : okAnd (fromReader caseBertEnv (some questionFile)) (fun b =>
      okAnd (b.tok.tk.encodeSingle (.raw (encStr "Yes  no!".toList)) 0 .byte) (fun e =>
        okAnd (b.tok.tk.encodeSingle (.raw (encStr "Yes  no!".toList)) 1 .byte) (fun d =>
          decide (e.ids.length = 4 ∧ d.ids.length = 4 ∧ announced b.tok true = 3)))) = true := by decide +kernel
  obtain ⟨b, hb, h⟩ := okAnd_spec h
  obtain ⟨e, he, h⟩ := okAnd_spec h
  obtain ⟨d, hd, h⟩ := okAnd_spec h
  obtain ⟨k1, k2, k3⟩ := of_decide_eq_true h
  obtain ⟨b', g1, g2⟩ := C138_longest_length_violated caseBertEnv { questionFile with truncation := some longestSection } longestSection
    5 0 (by decide) rfl (by rfl) (by rfl) (by rfl) rfl _ (clsT, 0) (sepT, 1) rfl (by unfold TypeIs; rfl) (by unfold TokenIs; rfl)
    (by unfold TokenIs; rfl) b hb
  obtain ⟨r, g3, g4, _⟩ := g2 _ _ 4 ⟨⟨e, he, k1⟩, ⟨d, hd, k2⟩, by rw [k3]; decide, by rw [k3]; decide⟩
  exact ⟨b', r, g1, g3, g4⟩

end Tok.Whole
