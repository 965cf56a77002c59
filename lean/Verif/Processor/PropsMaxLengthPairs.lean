import Verif.Processor.PropsMaxLength

/-!
# C25: the length of pairs with the strategy `LongestFirst`, in all cases
-/

namespace Tok

/-! ### Lemmas -/

theorem truncateMut_usable {e e' : Encoding} (h : Delivered e) (n stride : Int) (hs0 : 0 ≤ stride)
    (ht : e.truncateMut n stride = .ok e') : Usable e' := by
  by_cases hs : stride < n
  · exact CutTo.usable h n stride (by omega) hs0 hs ht
  · rw [truncateMut_err e n stride (.inl (by omega))] at ht
    cases ht
    exact h.usable

theorem longestFirst_usable {e p e' : Encoding} {p' : Option Encoding} (he : Delivered e) (hp : Delivered p) (L stride : Int)
    (hs0 : 0 ≤ stride) (h : truncateEncodings e (some p) ⟨L, .longestFirst, stride⟩ = .ok (e', p')) :
    Usable e' ∧ ∀ q, p' = some q → Usable q := by
  unfold truncateEncodings at h
  split at h
  · cases h
    exact ⟨he.usable, by rintro _ ⟨⟩; exact hp.usable⟩
  · simp only at h
    split at h
    · cases h
      exact ⟨he.usable, by rintro _ ⟨⟩; exact hp.usable⟩
    · obtain ⟨a, g1, h⟩ := Res.bind_eq_ok.mp h
      obtain ⟨b, g2, h⟩ := Res.bind_eq_ok.mp h
      cases h
      exact ⟨truncateMut_usable he _ stride hs0 g1, by rintro _ ⟨⟩; exact truncateMut_usable hp _ stride hs0 g2⟩

/-! ### C25 -/

/-- C25, pairs with `LongestFirst`, exactly: with room for `room` tokens beside the special tokens, and `n1` and `n2` tokens of
which `k` are too many, the loop is to leave `firstTarget n1 n2 k` tokens of the first text and `n2 - k` of the second. A text
for which this is not more than the stride is not cut at all. -/
theorem C25_longestFirst_length (proc : PostProcessor) (hx : AddsExactly proc) (e p : Encoding) (he : Delivered e)
    (hp : Delivered p) (L stride : Int) (hs0 : 0 ≤ stride) (room n1 n2 k : Int) (hroom : room = L - proc.addedTokens true)
    (hpos : 0 < room) (hn1 : n1 = e.ids.length) (hn2 : n2 = p.ids.length) (hk : k = n1 + n2 - room) (hle : 0 ≤ k) :
    ∃ r, postProcess (some ⟨L, .longestFirst, stride⟩) (some proc) none e (some p) true = .ok (some r) ∧
      (r.ids.length : Int) = (if stride < firstTarget n1 n2 k then firstTarget n1 n2 k else n1) +
        (if stride < n2 - k then n2 - k else n2) + proc.addedTokens true := by
  obtain ⟨e', p', h1, _, _, h2⟩ := C09_longestFirst_pair e p he.1 hp.1 room stride hpos (by simp only [totalLen]; omega) n1 n2 k
    hn1 hn2 hk hs0
  obtain ⟨u1, u2⟩ := longestFirst_usable he hp room stride hs0 h1
  subst hroom
  obtain ⟨r, k1, k2⟩ := postProcess_of_truncated hx (L := L) (pair := some p) h1 rfl u1 u2
  refine ⟨r, k1, ?_⟩
  rw [k2, h2]
  rfl

/-- C25 is violated by `LongestFirst` for every post-processor that adds as many tokens as it says, and all pairs of texts with
the same number of tokens, more than there is room for beside the special tokens: nothing is cut, and there are more tokens than
the maximum. -/
theorem C25_longestFirst_same_violated (proc : PostProcessor) (hx : AddsExactly proc) (e p : Encoding) (he : Delivered e)
    (hp : Delivered p) (L stride : Int) (hs0 : 0 ≤ stride) (hsame : e.ids.length = p.ids.length)
    (hpos : (proc.addedTokens true : Int) < L) (hlong : L < e.ids.length + proc.addedTokens true) :
    ∃ r, postProcess (some ⟨L, .longestFirst, stride⟩) (some proc) none e (some p) true = .ok (some r) ∧
      r.ids.length = 2 * e.ids.length + proc.addedTokens true ∧ L < r.ids.length := by
  obtain ⟨r, h1, h2⟩ := C25_longestFirst_length proc hx e p he hp L stride hs0 _ _ _ _ rfl (by omega) rfl rfl rfl (by omega)
  have hft : firstTarget e.ids.length p.ids.length
      ((e.ids.length : Int) + p.ids.length - (L - proc.addedTokens true)) ≤ 0 := by
    unfold firstTarget
    rw [if_neg (by omega), if_neg (by omega)]
    omega
  rw [if_neg (by omega), if_neg (by omega)] at h2
  exact ⟨r, h1, by omega, by omega⟩

/-- C25 is violated by `LongestFirst` in the other direction for all pairs whose first text is the longer one and fits: as many
tokens as are too many are missing from the maximum. -/
theorem C25_longestFirst_short_violated (proc : PostProcessor) (hx : AddsExactly proc) (e p : Encoding) (he : Delivered e)
    (hp : Delivered p) (L stride : Int) (hs0 : 0 ≤ stride) (hlt : p.ids.length < e.ids.length)
    (hfits : stride + e.ids.length + proc.addedTokens true < L) (hlong : L < e.ids.length + p.ids.length + proc.addedTokens true) :
    ∃ r, postProcess (some ⟨L, .longestFirst, stride⟩) (some proc) none e (some p) true = .ok (some r) ∧
      (r.ids.length : Int) = L - (e.ids.length + p.ids.length + proc.addedTokens true - L) ∧ (r.ids.length : Int) < L := by
  obtain ⟨r, h1, h2⟩ := C25_longestFirst_length proc hx e p he hp L stride hs0 _ _ _ _ rfl (by omega) rfl rfl rfl (by omega)
  have hft : firstTarget e.ids.length p.ids.length
      ((e.ids.length : Int) + p.ids.length - (L - proc.addedTokens true)) = L - proc.addedTokens true - p.ids.length := by
    unfold firstTarget
    rw [if_pos (by omega)]
    omega
  rw [hft, if_pos (by omega), if_pos (by omega)] at h2
  exact ⟨r, h1, by omega, by omega⟩

/-! ### A case -/

/-- Five and five tokens with the maximum 7 and BERT's special tokens: 13 tokens. -/
example (bp : Bert) : ∃ r, postProcess (some ⟨7, .longestFirst, 0⟩) (some bp.toProcessor) none sampleEnc (some sampleEnc) true =
    .ok (some r) ∧ r.ids.length = 2 * 5 + 3 := by
  have hd : Delivered sampleEnc := ⟨sampleEnc_aligned, rfl, _, rfl, by
    intro p hp
    simp only [List.mem_singleton] at hp
    subst hp
    exact ⟨0, 5, by decide, by decide, rfl⟩⟩
  obtain ⟨r, h1, h2, _⟩ := C25_longestFirst_same_violated bp.toProcessor (C25_processors_add_exactly.1 bp) sampleEnc sampleEnc hd hd 7 0
    (by decide) rfl (by simp [Bert.toProcessor, Bert.addedTokens]) (by simp [Bert.toProcessor, Bert.addedTokens, sampleEnc])
  exact ⟨r, h1, by rw [h2]; rfl⟩

end Tok
