import Verif.Encoding.Lookup
import Verif.Encoding.PropsMerge

/-!
# C11, C12, C53: lookups
-/

namespace Tok

/-! ### C11 -/

/-- Token `i` covers character position `pos`. -/
def Encoding.Covers (e : Encoding) (i : Nat) (pos : Int) : Prop :=
  ∃ o, e.offsets[i]? = some o ∧ o.1 ≤ pos ∧ pos < o.2

theorem char2TokenLoop_spec (pos : Int) (k : Nat) (os : List (Int × Int)) :
    (∀ i, char2TokenLoop pos k os = some i ↔
      ∃ j, i = k + j ∧ (∃ o, os[j]? = some o ∧ o.1 ≤ pos ∧ pos < o.2) ∧
        ∀ j' < j, ¬ ∃ o, os[j']? = some o ∧ o.1 ≤ pos ∧ pos < o.2) := by
  induction os generalizing k with
  | nil => intro i; simp [char2TokenLoop]
  | cons o os ih =>
    intro i
    unfold char2TokenLoop
    by_cases h : pos ≥ o.1 ∧ pos < o.2
    · rw [if_pos h]
      constructor
      · rintro h'; cases h'
        exact ⟨0, rfl, ⟨o, by simp, h.1, h.2⟩, by omega⟩
      · rintro ⟨j, rfl, -, hmin⟩
        rcases j with _ | j
        · rfl
        · exact absurd ⟨o, by simp, h.1, h.2⟩ (hmin 0 (by omega))
    · rw [if_neg h, ih]
      constructor
      · rintro ⟨j, rfl, hc, hmin⟩
        refine ⟨j + 1, by omega, by simpa using hc, ?_⟩
        intro j' hj'
        rcases j' with _ | j'
        · simp only [List.getElem?_cons_zero, Option.some.injEq]
          rintro ⟨_, rfl, h1, h2⟩; exact h ⟨h1, h2⟩
        · simpa using hmin j' (by omega)
      · rintro ⟨j, rfl, hc, hmin⟩
        rcases j with _ | j
        · simp only [List.getElem?_cons_zero, Option.some.injEq] at hc
          obtain ⟨_, rfl, h1, h2⟩ := hc
          exact absurd ⟨h1, h2⟩ h
        · refine ⟨j, by omega, by simpa using hc, ?_⟩
          intro j' hj'
          simpa using hmin (j' + 1) (by omega)

/-- C11.  `Char2Token` returns the first token covering the position. -/
theorem C11_char2Token (e : Encoding) (pos : Int) (i : Nat) :
    e.char2Token pos = some i ↔ e.Covers i pos ∧ ∀ j < i, ¬ e.Covers j pos := by
  unfold Encoding.char2Token
  rw [char2TokenLoop_spec]
  constructor
  · rintro ⟨j, rfl, h⟩; simpa [Encoding.Covers] using h
  · intro h; exact ⟨i, by simp, h⟩

/-- C11.  Not-found exactly when no token covers the position. -/
theorem C11_char2Token_none (e : Encoding) (pos : Int) :
    e.char2Token pos = none ↔ ∀ i, ¬ e.Covers i pos := by
  constructor
  · intro h i
    induction i using Nat.strongRecOn with
    | _ i ih =>
      intro hc
      have := (C11_char2Token e pos i).2 ⟨hc, ih⟩
      rw [h] at this; cases this
  · intro h
    cases hc : e.char2Token pos with
    | none => rfl
    | some i => exact absurd ((C11_char2Token e pos i).1 hc).1 (h i)

/-- C11.  `Token2Chars` inside the range of tokens. -/
theorem C11_token2Chars_partial (e : Encoding) (i : Int) :
    (i < 0 ∨ i > e.offsets.length → e.token2Chars i = .ok none) ∧
    (∀ n : Nat, i = n → n < e.offsets.length →
      ∃ o, e.offsets[n]? = some o ∧ e.token2Chars i = .ok (some o)) := by
  constructor
  · intro h
    unfold Encoding.token2Chars
    rw [if_pos h]
  · rintro n rfl hn
    refine ⟨e.offsets[n], by simp [hn], ?_⟩
    unfold Encoding.token2Chars idx
    rw [if_neg (by omega), if_neg (by omega)]
    simp [hn]

/-- C11 is violated, for every encoding: asking for the token just past the end
panics instead of reporting not-found. -/
theorem C11_token2Chars_violated (e : Encoding) :
    e.token2Chars e.offsets.length = .panic := by
  unfold Encoding.token2Chars idx
  rw [if_neg (by omega), if_neg (by omega)]
  simp

/-- C11.  The characters of the token found for a position contain it. -/
theorem C11_char2Token_token2Chars (e : Encoding) (pos : Int) (i : Nat)
    (h : e.char2Token pos = some i) :
    ∃ o, e.token2Chars i = .ok (some o) ∧ o.1 ≤ pos ∧ pos < o.2 := by
  obtain ⟨⟨o, ho, h1⟩, -⟩ := (C11_char2Token e pos i).1 h
  have hi : i < e.offsets.length := (List.getElem?_eq_some_iff.1 ho).1
  obtain ⟨o', ho', h2⟩ := (C11_token2Chars_partial e i).2 i rfl hi
  rw [ho] at ho'; cases ho'
  exact ⟨o, h2, h1⟩

theorem token2WordLoop_spec (t : Int) (k : Nat) (ws : List Int) :
    token2WordLoop t k ws = if t < k then none else ws[(t - k).toNat]? := by
  induction ws generalizing k with
  | nil => simp [token2WordLoop]
  | cons w ws ih =>
    unfold token2WordLoop
    by_cases h : (k : Int) = t
    · rw [if_pos h, if_neg (by omega)]
      have : (t - (k : Int)).toNat = 0 := by omega
      simp [this]
    · rw [if_neg h, ih]
      by_cases h2 : t < k
      · rw [if_pos (by omega), if_pos h2]
      · rw [if_neg (by omega), if_neg h2]
        have : (t - (k : Int)).toNat = (t - ((k + 1 : Nat) : Int)).toNat + 1 := by omega
        rw [this, List.getElem?_cons_succ]

/-- C11.  `Token2Word` is the word entry of the token, not-found outside. -/
theorem C11_token2Word (e : Encoding) (t : Int) :
    e.token2Word t = if t < 0 then none else e.words[t.toNat]? := by
  unfold Encoding.token2Word
  rw [token2WordLoop_spec]
  simp

/-- C11.  `Char2Word` is the word of the first token covering the position. -/
theorem C11_char2Word (e : Encoding) (pos w : Int) :
    e.char2Word pos = some w ↔
      ∃ i : Nat, e.Covers i pos ∧ (∀ j < i, ¬ e.Covers j pos) ∧ e.words[i]? = some w := by
  unfold Encoding.char2Word
  constructor
  · intro h
    cases hc : e.char2Token pos with
    | none => rw [hc] at h; cases h
    | some i =>
      rw [hc] at h
      simp only [C11_token2Word] at h
      rw [if_neg (by omega)] at h
      obtain ⟨h1, h2⟩ := (C11_char2Token e pos i).1 hc
      exact ⟨i, h1, h2, by simpa using h⟩
  · rintro ⟨i, h1, h2, h3⟩
    rw [(C11_char2Token e pos i).2 ⟨h1, h2⟩]
    simp only [C11_token2Word]
    rw [if_neg (by omega)]
    simpa using h3

example : sampleEnc.char2Token 3 = some 3 ∧ sampleEnc.char2Token 99 = none ∧
    sampleEnc.Covers 3 3 := by
  refine ⟨by rfl, by rfl, (3, 4), ?_⟩
  decide

/-! ### C12 -/

/-- The tokens of word `w` are exactly those at positions `s ≤ i < t`. -/
def TokensOfWord (words : List Int) (w : Int) (s t : Nat) : Prop :=
  ∀ i, words[i]? = some w ↔ s ≤ i ∧ i < t

/-- The answer `Word2Tokens` should give. -/
def Word2TokensCorrect (e : Encoding) (w : Int) : Prop :=
  match e.word2Tokens w with
  | (s, t, true) => s < t ∧ TokensOfWord e.words w s t
  | (_, _, false) => w ∉ e.words

theorem firstIndex_none (w : Int) (k : Nat) (l : List Int) :
    firstIndex w k l = none ↔ w ∉ l := by
  induction l generalizing k with
  | nil => simp [firstIndex]
  | cons a l ih =>
    unfold firstIndex
    by_cases h : a = w
    · simp [h]
    · rw [if_neg h, ih]; simp [Ne.symm h]

theorem firstIndex_append (w : Int) (k : Nat) (pre l : List Int) (h : ∀ x ∈ pre, x ≠ w) :
    firstIndex w k (pre ++ w :: l) = some (k + pre.length) := by
  induction pre generalizing k with
  | nil => simp [firstIndex]
  | cons a pre ih =>
    simp only [List.cons_append, firstIndex]
    rw [if_neg (h a (by simp)), ih _ (fun x hx => h x (by simp [hx]))]
    simp; omega

/-- C12.  Not-found is reported exactly when no token has the word. -/
theorem C12_word2Tokens_notFound (e : Encoding) (w : Int) :
    (e.word2Tokens w).2.2 = false ↔ w ∉ e.words := by
  unfold Encoding.word2Tokens
  have h := firstIndex_none w 0 (e.words.filter (fun x => x ≤ w))
  simp only [List.mem_filter, decide_eq_true_eq, Int.le_refl, and_true] at h
  rw [← h]
  dsimp only
  generalize firstIndex w 0 (e.words.filter (fun x => x ≤ w)) = o
  cases o <;> simp

/-- C12, partial: missing are encodings with a smaller word index (such as the
−1 of a special token) after the word.  Correct when smaller indices come
before and larger ones after, as for the tokens of one sequence. -/
theorem C12_word2Tokens_partial (e : Encoding) (w : Int) (pre post : List Int) (n : Nat)
    (hn : 0 < n) (hw : e.words = pre ++ List.replicate n w ++ post)
    (hpre : ∀ x ∈ pre, x < w) (hpost : ∀ x ∈ post, w < x) :
    e.word2Tokens w = (pre.length, pre.length + n, true) ∧ Word2TokensCorrect e w := by
  have h1 : e.word2Tokens w = (pre.length, pre.length + n, true) := by
    unfold Encoding.word2Tokens
    have hf : e.words.filter (fun x => x ≤ w) = pre ++ List.replicate n w := by
      rw [hw, List.filter_append, List.filter_append]
      rw [List.filter_eq_self.2 (by intro x hx; simpa using Int.le_of_lt (hpre x hx))]
      rw [List.filter_eq_self.2 (by intro x hx; simp [List.eq_of_mem_replicate hx])]
      rw [List.filter_eq_nil_iff.2 (by intro x hx; simpa using hpost x hx)]
      simp
    rw [hf]
    dsimp only
    obtain ⟨m, rfl⟩ : ∃ m, n = m + 1 := ⟨n - 1, by omega⟩
    rw [List.replicate_succ, firstIndex_append _ _ _ _ (fun x hx => Int.ne_of_lt (hpre x hx))]
    simp
  refine ⟨h1, ?_⟩
  unfold Word2TokensCorrect
  rw [h1]
  refine ⟨by omega, ?_⟩
  intro i
  rw [hw]
  by_cases hi : i < pre.length
  · rw [List.append_assoc, List.getElem?_append_left hi]
    constructor
    · intro h
      have := hpre w (List.mem_of_getElem? h)
      omega
    · omega
  · by_cases hi2 : i < pre.length + n
    · rw [List.getElem?_append_left (by simp; omega), List.getElem?_append_right (by omega),
        List.getElem?_replicate, if_pos (by omega)]
      simp; omega
    · rw [List.getElem?_append_right (by simp; omega)]
      constructor
      · intro h
        have := hpost w (List.mem_of_getElem? h)
        omega
      · omega

/-- C12, when the answer is right: for a word whose tokens stand together,
`Word2Tokens` is correct exactly when every earlier token has a smaller word
index and every later token a larger one. -/
theorem C12_word2Tokens_iff (e : Encoding) (w : Int) (pre post : List Int) (n : Nat)
    (hn : 0 < n) (hw : e.words = pre ++ List.replicate n w ++ post)
    (hpre : w ∉ pre) (hpost : w ∉ post) :
    Word2TokensCorrect e w ↔ (∀ x ∈ pre, x < w) ∧ (∀ x ∈ post, w < x) := by
  constructor
  · intro hc
    have hres : e.word2Tokens w = ((pre.filter (fun x => x ≤ w)).length,
        (pre.filter (fun x => x ≤ w)).length + n + (post.filter (fun x => x ≤ w)).length, true) := by
      unfold Encoding.word2Tokens
      have hf : e.words.filter (fun x => x ≤ w) =
          pre.filter (fun x => x ≤ w) ++ List.replicate n w ++ post.filter (fun x => x ≤ w) := by
        rw [hw, List.filter_append, List.filter_append]
        have hr : (List.replicate n w).filter (fun x => decide (x ≤ w)) = List.replicate n w :=
          List.filter_eq_self.2 (by intro x hx; simp [List.eq_of_mem_replicate hx])
        rw [hr]
      rw [hf]
      dsimp only
      obtain ⟨m, rfl⟩ : ∃ m, n = m + 1 := ⟨n - 1, by omega⟩
      rw [List.replicate_succ, List.append_assoc, List.cons_append,
        firstIndex_append w 0 _ _ (by
          rintro x hx rfl
          exact hpre (List.mem_filter.1 hx).1)]
      simp; omega
    unfold Word2TokensCorrect at hc
    rw [hres] at hc
    obtain ⟨-, hc⟩ := hc
    have hlp := List.length_filter_le (fun x => decide (x ≤ w)) pre
    -- the first token of the answer has the word, so nothing was dropped before it
    have h1 : (pre.filter (fun x => x ≤ w)).length = pre.length := by
      have h := (hc (pre.filter (fun x => x ≤ w)).length).2 (by omega)
      rw [hw] at h
      by_cases hlt : (pre.filter (fun x => x ≤ w)).length < pre.length
      · rw [List.append_assoc, List.getElem?_append_left hlt] at h
        exact absurd (List.mem_of_getElem? h) hpre
      · omega
    have h2 : (post.filter (fun x => x ≤ w)).length = 0 := by
      by_cases h0 : (post.filter (fun x => x ≤ w)).length = 0
      · exact h0
      · have h := (hc (pre.length + n)).2 (by omega)
        rw [hw, List.getElem?_append_right (by simp)] at h
        exact absurd (List.mem_of_getElem? h) hpost
    constructor
    · intro x hx
      have h := List.length_filter_eq_length_iff.1 h1 x hx
      simp only [decide_eq_true_eq] at h
      have : x ≠ w := fun he => hpre (he ▸ hx)
      omega
    · intro x hx
      have h := List.filter_eq_nil_iff.1 (List.eq_nil_of_length_eq_zero h2) x hx
      simp only [decide_eq_true_eq] at h
      omega
  · rintro ⟨h1, h2⟩
    exact (C12_word2Tokens_partial e w pre post n hn hw h1 h2).2

/-- C12 is violated by every encoded sentence that ends in a special token (word
−1), for every word of it: `Word2Tokens` gives a wrong range. -/
theorem C12_word2Tokens_violated (e : Encoding) (w : Int) (pre post : List Int) (n : Nat)
    (hn : 0 < n) (h0 : 0 ≤ w) (hw : e.words = pre ++ List.replicate n w ++ (post ++ [-1]))
    (hpre : w ∉ pre) (hpost : w ∉ post) : ¬ Word2TokensCorrect e w := by
  intro h
  have h := ((C12_word2Tokens_iff e w pre (post ++ [-1]) n hn hw hpre
    (by simp [hpost]; omega)).1 h).2 (-1) (by simp)
  omega

example : ¬ Word2TokensCorrect
    { ids := [1, 2, 3, 4, 5], typeIds := [0, 0, 0, 0, 0],
      tokens := [['C'], ['a'], ['b'], ['c'], ['S']],
      offsets := [(0, 0), (0, 1), (1, 2), (3, 4), (0, 0)],
      specialMask := [1, 0, 0, 0, 1], attentionMask := [1, 1, 1, 1, 1],
      words := [-1, 0, 0, 1, -1], overflowing := [], ranges := some [] } 0 :=
  C12_word2Tokens_violated _ 0 [-1] [1] 2 (by omega) (by omega) rfl (by simp) (by simp)

example : ∃ pre post : List Int, [(-1 : Int), 0, 0, 1] = pre ++ List.replicate 2 0 ++ post ∧
    (∀ x ∈ pre, x < 0) ∧ (∀ x ∈ post, 0 < x) := ⟨[-1], [1], rfl, by simp, by simp⟩

/-- C12.  `Word2Chars` spans from the first token of the word to its last one,
under the same condition; and it is not-found when the word does not occur. -/
theorem C12_word2Chars_partial (e : Encoding) (w : Int) :
    (w ∉ e.words → e.word2Chars w = .ok none) ∧
    (∀ (pre post : List Int) (n : Nat) (a b : Int × Int), 0 < n →
      e.words = pre ++ List.replicate n w ++ post →
      (∀ x ∈ pre, x < w) → (∀ x ∈ post, w < x) →
      e.offsets[pre.length]? = some a → e.offsets[pre.length + n - 1]? = some b →
      e.word2Chars w = .ok (some (a.1, b.2))) := by
  constructor
  · intro h
    have h1 := (C12_word2Tokens_notFound e w).2 h
    unfold Encoding.word2Chars
    unfold Encoding.word2Tokens at h1 ⊢
    cases hf : firstIndex w 0 (e.words.filter (fun x => x ≤ w)) with
    | none => simp [hf]
    | some i => simp [hf] at h1
  · intro pre post n a b hn hw hpre hpost ha hb
    unfold Encoding.word2Chars
    rw [(C12_word2Tokens_partial e w pre post n hn hw hpre hpost).1]
    simp only
    rw [if_neg (by omega)]
    have hb' : (((pre.length + n : Nat) : Int) - 1).toNat = pre.length + n - 1 := by omega
    unfold idx
    rw [if_neg (by omega), if_neg (by omega), hb']
    simp [ha, hb]

/-! ### C53 -/

/-- Every range of `e` is a run of positions of `e`. -/
def Encoding.RangesInside (e : Encoding) : Prop :=
  ∀ l, e.ranges = some l → ∀ p ∈ l, ∃ a b : Int, 0 ≤ a ∧ a < b ∧ b ≤ e.ids.length ∧
    newRange a b = .ok p.2

theorem newRange_length {a b : Int} (h0 : 0 ≤ a) (h : a < b) {r : Range}
    (hr : newRange a b = .ok r) : r.length = (b - a).toNat := by
  rw [newRange_ok h0 h] at hr; cases hr; simp

theorem sequenceIdsStep_length (s : Int) (r : Range) (l l' : List Int) (a b : Int) (h0 : 0 ≤ a)
    (hab : a < b) (hb : b ≤ l.length) (hr : newRange a b = .ok r)
    (h : sequenceIdsStep s r l = .ok l') : l'.length = l.length + 1 := by
  obtain ⟨h1, h2⟩ := newRange_head_last h0 hab hr
  have hlen := newRange_length h0 hab hr
  unfold sequenceIdsStep at h
  rw [h1, h2] at h
  simp only [Res.bind_ok] at h
  rw [if_neg (by omega), if_pos (by omega)] at h
  cases h
  simp only [List.length_append, List.length_take, List.length_replicate, List.length_drop, hlen]
  omega

theorem sequenceIdsLoop_length (m : Option (List (Int × Range))) (N : Nat)
    (hv : ∀ s r, rangesGet m s = some r → ∃ a b : Int, 0 ≤ a ∧ a < b ∧ b ≤ N ∧
      newRange a b = .ok r) (n : Nat) (s : Int) (l l' : List Int) (hl : N ≤ l.length)
    (h : sequenceIdsLoop m n s l = .ok l') : l'.length = l.length + n := by
  induction n generalizing s l with
  | zero => cases h; rfl
  | succ n ih =>
    unfold sequenceIdsLoop at h
    rw [Res.bind_eq_ok] at h
    obtain ⟨l1, h1, h2⟩ := h
    cases hg : rangesGet m s with
    | none => rw [hg] at h1; simp [sequenceIdsStep, idx] at h1
    | some r =>
      rw [hg] at h1
      obtain ⟨a, b, h0, hab, hb, hr⟩ := hv s r hg
      have := sequenceIdsStep_length s r l l1 a b h0 hab (by omega) hr h1
      rw [ih _ _ (by omega) h2]
      omega

theorem rangesGet_mem {m : Option (List (Int × Range))} {s : Int} {r : Range}
    (h : rangesGet m s = some r) : ∃ l, m = some l ∧ (s, r) ∈ l := by
  unfold rangesGet at h
  cases m with
  | none => cases h
  | some l =>
    simp only [Option.map_eq_some_iff] at h
    obtain ⟨p, hp, rfl⟩ := h
    have h1 := List.mem_of_find?_eq_some hp
    have h2 := List.find?_some hp
    simp only [beq_iff_eq] at h2
    subst h2
    exact ⟨l, rfl, h1⟩

/-- C53 is violated, for every encoding: `GetSequenceIds` never returns one id
per token (it panics or returns as many extra entries as there are sequences). -/
theorem C53_getSequenceIds_violated (e : Encoding) (hv : e.RangesInside) :
    ¬ ∃ ids, e.getSequenceIds = .ok ids ∧ ids.length = e.ids.length := by
  rintro ⟨ids, h, hlen⟩
  unfold Encoding.getSequenceIds at h
  have := sequenceIdsLoop_length e.ranges e.ids.length (by
    intro s r hg
    obtain ⟨l, hl, hm⟩ := rangesGet_mem hg
    exact hv l hl (s, r) hm) _ _ _ _ (by simp) h
  have hn : 0 < e.nSequences := by
    unfold Encoding.nSequences
    cases e.ranges with
    | none => simp
    | some l => simp only; split <;> omega
  simp at this
  omega

theorem newRange_run (a n : Nat) (h : 0 < n) :
    newRange (a : Int) ((a + n : Nat) : Int) = .ok ((List.range n).map (fun (k : Nat) => (a : Int) + (k : Int))) := by
  rw [newRange_ok (by omega) (by omega), show (((a + n : Nat) : Int) - (a : Int)).toNat = n by omega]

theorem sequenceIdsStep_run (s : Int) (a n : Nat) (hn : 0 < n) (r : Range) (hr : newRange (a : Int) ((a + n : Nat) : Int) = .ok r)
    (l : List Int) (hl : a + n ≤ l.length) :
    sequenceIdsStep s r l = .ok (l.take a ++ List.replicate (n + 1) s ++ l.drop (a + n)) := by
  obtain ⟨h1, h2⟩ := newRange_head_last (by omega) (by omega) hr
  have hlen := newRange_length (by omega) (by omega) hr
  rw [show (((a + n : Nat) : Int) - (a : Int)).toNat = n by omega] at hlen
  unfold sequenceIdsStep
  rw [h1, h2]
  simp only [Res.bind_ok]
  rw [if_neg (by omega), hlen, if_pos (by omega)]
  have e1 : ((a : Int)).toNat = a := by omega
  have e2 : (((a + n : Nat) : Int) - 1).toNat = a + (n - 1) := by omega
  rw [e1, e2]
  congr 1
  obtain ⟨m, rfl⟩ : ∃ m, n = m + 1 := ⟨n - 1, by omega⟩
  have e3 : (l.take a ++ List.replicate (m + 1) s ++ l.drop (a + (m + 1))).drop (a + m) =
      s :: l.drop (a + (m + 1)) := by
    have hX : (l.take a ++ List.replicate m s).length = a + m := by
      simp only [List.length_append, List.length_take, List.length_replicate]; omega
    rw [List.replicate_succ', ← List.append_assoc (l.take a), List.append_assoc, List.drop_left' hX]
    rfl
  rw [Nat.add_sub_cancel, e3, List.replicate_succ' (n := m + 1)]
  simp

/-- C53, partial (what comes after the entries for the tokens is too much): for a first sequence and a second one, the
entries for the tokens are 0 for those of the first and 1 for those of the second; tokens before the first have 0. -/
theorem C53_getSequenceIds_partial (e : Encoding) (a n k : Nat) (hn : 0 < n) (hk : 0 < k) (hlen : e.ids.length = a + n + k)
    (r0 r1 : Range) (h0 : newRange (a : Int) ((a + n : Nat) : Int) = .ok r0)
    (h1 : newRange ((a + n : Nat) : Int) ((a + n + k : Nat) : Int) = .ok r1)
    (hr : e.ranges = some [(0, r0), (1, r1)] ∨ e.ranges = some [(1, r1), (0, r0)]) :
    ∃ ids, e.getSequenceIds = .ok ids ∧
      ids.take e.ids.length = List.replicate a 0 ++ List.replicate n 0 ++ List.replicate k 1 := by
  have g0 : rangesGet e.ranges 0 = some r0 := by rcases hr with h | h <;> simp [h, rangesGet]
  have g1 : rangesGet e.ranges 1 = some r1 := by rcases hr with h | h <;> simp [h, rangesGet]
  have hs : e.nSequences = 2 := by rcases hr with h | h <;> simp [h, Encoding.nSequences]
  unfold Encoding.getSequenceIds
  rw [hs, hlen]
  simp only [sequenceIdsLoop, g0, Option.getD_some]
  rw [sequenceIdsStep_run 0 a n hn r0 h0 _ (by simp +arith)]
  simp only [Res.bind_ok]
  rw [show (0 : Int) + 1 = 1 by rfl, g1, Option.getD_some, sequenceIdsStep_run 1 (a + n) k hk r1 h1 _ (by simp; omega)]
  refine ⟨_, rfl, ?_⟩
  have e1 : (List.take a (List.replicate (a + n + k) (0 : Int)) ++ List.replicate (n + 1) 0 ++
      List.drop (a + n) (List.replicate (a + n + k) 0)).take (a + n) = List.replicate a 0 ++ List.replicate n 0 := by
    rw [List.take_replicate, show min a (a + n + k) = a by omega,
      List.take_append_of_le_length (by simp only [List.length_append, List.length_replicate]; omega),
      List.take_append, List.length_replicate, Nat.add_sub_cancel_left, List.take_replicate, List.take_replicate,
      show min (a + n) a = a by omega, show min n (n + 1) = n by omega]
  rw [e1, List.append_assoc (_ ++ _), List.take_append, List.take_of_length_le (by simp)]
  simp only [List.length_append, List.length_replicate, Nat.add_sub_cancel_left]
  rw [List.take_append_of_le_length (by simp), List.take_replicate, show min k (k + 1) = k by omega]

/-- Two tokens and one. -/
example : ∃ ids, ({ Encoding.default with ids := [5, 6, 7], ranges := some [(0, [0, 1]), (1, [2])] } : Encoding).getSequenceIds =
    .ok ids ∧ ids.take 3 = [0, 0, 1] :=
  C53_getSequenceIds_partial { Encoding.default with ids := [5, 6, 7], ranges := some [(0, [0, 1]), (1, [2])] } 0 2 1 (by decide)
    (by decide) rfl [0, 1] [2] rfl rfl (.inl rfl)

/-- C53.  Without sequence ranges (a fresh encoding) it panics. -/
theorem C53_getSequenceIds_panics (e : Encoding) (h : e.ranges = some [] ∨ e.ranges = none) :
    e.getSequenceIds = .panic := by
  unfold Encoding.getSequenceIds Encoding.nSequences
  rcases h with h | h <;> rw [h] <;>
    simp [sequenceIdsLoop, sequenceIdsStep, rangesGet, idx]

example : mergeSampleA.RangesInside := by
  intro l hl p hp
  cases hl
  simp only [List.mem_singleton] at hp
  subst hp
  exact ⟨0, 2, by decide, by decide, by decide, rfl⟩

/-- What `Token2Sequence` should answer: the sequence holding the token, 0 when
no sequence has been recorded, not-found outside the encoding. -/
def Token2SequenceCorrect (e : Encoding) (i : Int) : Prop :=
  (0 ≤ i ∧ i < e.ids.length →
    ((∀ s j, ¬ e.Belongs s j) → e.token2Sequence i = some 0) ∧
    ((∃ s j, e.Belongs s j) → ∀ s, e.token2Sequence i = some s ↔ e.Belongs s i)) ∧
  (¬ (0 ≤ i ∧ i < e.ids.length) → e.token2Sequence i = none)

/-- C53 is violated by every fresh encoding: the token just past the end is
said to belong to sequence 0. -/
theorem C53_token2Sequence_violated (e : Encoding) (h : e.ranges = some []) :
    ¬ Token2SequenceCorrect e e.ids.length := by
  intro hc
  have := hc.2 (by omega)
  unfold Encoding.token2Sequence at this
  rw [if_neg (by omega), h] at this
  cases this

theorem token2Sequence_inside (e : Encoding) (l : List (Int × Range)) (i : Int)
    (hl : e.ranges = some l) (hi : 0 ≤ i ∧ i < e.ids.length)
    (hne : ∀ p ∈ l, p.2 ≠ [])
    (hdis : ∀ p ∈ l, ∀ q ∈ l, ∀ j, j ∈ p.2 → j ∈ q.2 → p.1 = q.1) :
    Token2SequenceCorrect e i := by
  refine ⟨fun _ => ?_, fun h => absurd hi h⟩
  cases l with
  | nil =>
    refine ⟨fun _ => ?_, ?_⟩
    · unfold Encoding.token2Sequence
      rw [if_neg (by omega), hl]
    · rintro ⟨s, j, l, r, h1, h2, -⟩
      rw [hl] at h1; cases h1; cases h2
  | cons p l =>
    refine ⟨fun h => ?_, fun _ => ?_⟩
    · obtain ⟨j, hj⟩ := List.exists_mem_of_ne_nil _ (hne p (by simp))
      exact absurd ⟨_, p.2, hl, by simp, hj⟩ (h p.1 j)
    intro s
    unfold Encoding.token2Sequence
    rw [if_neg (by omega), hl]
    simp only [Option.map_eq_some_iff]
    constructor
    · rintro ⟨q, hq, rfl⟩
      have h1 := List.mem_of_find?_eq_some hq
      have h2 := List.find?_some hq
      exact ⟨_, q.2, hl, h1, by simpa using h2⟩
    · rintro ⟨l', r, h1, h2, h3⟩
      rw [hl] at h1; cases h1
      cases hf : (p :: l).find? (fun p => p.2.contains i) with
      | none =>
        have := List.find?_eq_none.1 hf (s, r) h2
        simp [h3] at this
      | some q =>
        have h4 := List.mem_of_find?_eq_some hf
        have h5 := List.find?_some hf
        exact ⟨q, rfl, hdis q h4 (s, r) h2 i (by simpa using h5) h3⟩

/-- C53, partial: with disjoint non-empty ranges, `Token2Sequence` is membership
inside the encoding, and not-found beyond its end; not-found holds for every
position outside when some sequence is recorded and the ranges lie inside the
encoding.  Missing: the position just past the end and negative positions when
no sequence is recorded. -/
theorem C53_token2Sequence_partial (e : Encoding) (l : List (Int × Range)) (i : Int)
    (hl : e.ranges = some l)
    (hi : (0 ≤ i ∧ i < e.ids.length) ∨ e.ids.length < i ∨ (l ≠ [] ∧ e.RangesInside))
    (hne : ∀ p ∈ l, p.2 ≠ [])
    (hdis : ∀ p ∈ l, ∀ q ∈ l, ∀ j, j ∈ p.2 → j ∈ q.2 → p.1 = q.1) :
    Token2SequenceCorrect e i := by
  by_cases hin : 0 ≤ i ∧ i < e.ids.length
  · exact token2Sequence_inside e l i hl hin hne hdis
  refine ⟨fun h => absurd h hin, fun _ => ?_⟩
  unfold Encoding.token2Sequence
  split
  · rfl
  · next hlen =>
    rcases hi with h | h | ⟨hl0, hr⟩
    · exact absurd h hin
    · omega
    · rw [hl]
      cases l with
      | nil => exact absurd rfl hl0
      | cons p l =>
        simp only [Option.map_eq_none_iff, List.find?_eq_none]
        intro q hq hc
        obtain ⟨a, b, h0, hab, hb, hnr⟩ := hr _ hl q hq
        rw [newRange_ok h0 hab] at hnr
        simp only [Res.ok.injEq] at hnr
        rw [← hnr] at hc
        simp only [List.contains_eq_mem, List.mem_map, List.mem_range, decide_eq_true_eq] at hc
        obtain ⟨k, hk, e'⟩ := hc
        omega

/-- C53 is violated for every sequence that does not fill the encoding:
`SequenceRange` panics or returns something else than the range. -/
theorem C53_sequenceRange_violated (e : Encoding) (s : Int) (r : Range) (spare : List Int)
    (hr : rangesGet e.ranges s = some r) (hlt : r.length < e.ids.length) :
    e.sequenceRange s spare ≠ .ok r := by
  unfold Encoding.sequenceRange
  rw [hr]
  simp only
  split
  · next hle =>
    intro h
    have := congrArg List.length (Res.ok.inj h)
    rw [List.length_take] at this
    omega
  · simp

/-- C53, partial: the only sequence of an encoding is returned as it is, an
unknown id is an error. -/
theorem C53_sequenceRange_partial (e : Encoding) (s : Int) (spare : List Int) :
    (rangesGet e.ranges s = none → e.sequenceRange s spare = .err) ∧
    (∀ r, rangesGet e.ranges s = some r → r.length = e.ids.length →
      e.sequenceRange s spare = .ok r) := by
  unfold Encoding.sequenceRange
  constructor
  · intro h; rw [h]
  · intro r h hl
    rw [h]
    simp only
    rw [if_pos (by simp; omega), ← hl]
    simp

example : rangesGet mergeSampleA.ranges 0 = some [0, 1] := by rfl

end Tok
