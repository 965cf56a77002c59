import Verif.PreTok.Offsets
import Verif.Norm.Lemmas2
import Verif.Norm.PropsPattern

/-! C45. -/

namespace Tok.PreTok

open Tok.Norm

theorem b2cFrom_append (u v : Str) (k : Nat) : b2cFrom (u ++ v) k = b2cFrom u k ++ b2cFrom v (k + u.length) := by
  induction u generalizing k with
  | nil => simp [b2cFrom]
  | cons c u ih =>
    rw [List.cons_append, b2cFrom, b2cFrom, ih, List.append_assoc, List.length_cons]
    rw [show k + 1 + u.length = k + (u.length + 1) by omega]

theorem length_b2cFrom (s : Str) (k : Nat) : (b2cFrom s k).length = blen s := by
  induction s generalizing k with
  | nil => rfl
  | cons c s ih => rw [b2cFrom, List.length_append, ih, List.length_replicate, blen_cons]

theorem b2cGet_inside (u : Str) (c : Char) (v : Str) (j : Nat) (hj : j < c.utf8Size) :
    b2cGet (b2c (encStr (u ++ c :: v))) ((blen u + j : Nat) : Int) = some u.length := by
  unfold b2cGet b2c
  rw [if_neg (by omega), runes_encStr, b2cFrom_append, Int.toNat_natCast,
    List.getElem?_append_right (by rw [length_b2cFrom]; omega), length_b2cFrom, b2cFrom,
    List.getElem?_append_left (by simp; omega), Nat.zero_add, show blen u + j - blen u = j by omega]
  simp [hj]

/-- C45 (converter): a byte offset inside or at the start of a character is converted to the
number of characters before that character. -/
theorem C45_converter_partial (s u v : Str) (c : Char) (j : Nat) (hj : j < c.utf8Size) (hs : s = u ++ c :: v)
    (u' v' : Str) (c' : Char) (j' : Nat) (hj' : j' < c'.utf8Size) (hs' : s = u' ++ c' :: v') :
    convertOffsets (b2c (encStr s)) ((blen u + j : Nat), (blen u' + j' : Nat)) =
      .ok ((u.length : Int), (u'.length : Int)) := by
  unfold convertOffsets
  have h1 := b2cGet_inside u c v j hj
  have h2 := b2cGet_inside u' c' v' j' hj'
  rw [← hs] at h1
  rw [← hs'] at h2
  rw [h1, h2]

/-- C45 fails for the converter at the end of the text: every range that ends there is refused,
for every text. -/
theorem C45_end_violated (s : Str) (a : Int) :
    convertOffsets (b2c (encStr s)) (a, (blen s : Nat)) = .err := by
  have h : b2cGet (b2c (encStr s)) (blen s : Nat) = none := by
    unfold b2cGet b2c
    rw [if_neg (by omega), runes_encStr]
    simp [length_b2cFrom]
  unfold convertOffsets
  rw [h]
  cases b2cGet (b2c (encStr s)) a <;> rfl

theorem foldl_start (a b : Int) (l : List (Char × Nat)) : ∀ st : Int × Int,
    ((∀ p ∈ l, (p.2 : Int) ≠ a) →
    (l.foldl (fun st p =>
      let start := if (p.2 : Int) = a then (p.2 : Int) else st.1
      let stop := if (p.2 : Int) = b then (p.2 : Int) else st.2
      let stop := if (p.2 : Int) + p.1.utf8Size = b then (p.2 : Int) + 1 else stop
      (start, stop)) st).1 = st.1) := by
  induction l with
  | nil => intro st _; rfl
  | cons p l ih =>
    intro st h
    rw [List.foldl_cons, ih _ (fun q hq => h q (by simp [hq]))]
    simp [h p (by simp)]

/-- C45 fails for BytesToChar: whenever the byte offset is not smaller than the number of
characters, the answer is -1. -/
theorem C45_bytesToChar_violated (s : Str) (a b : Int) (ha : (s.length : Int) ≤ a) (h0 : ¬ (a = 0 ∧ b = 0)) :
    (bytesToChar (encStr s) a b).1 = -1 := by
  unfold bytesToChar
  rw [runes_encStr]
  dsimp only
  rw [foldl_start a b, if_neg h0]
  intro p hp
  have hp := (List.mem_filter.mp hp).1
  have := List.snd_lt_of_mem_zipIdx hp
  omega

/-- In the text "éa" the character "a" is at bytes 2 to 3, and it is character 1. -/
example : bytesToChar (encStr ['é', 'a']) 2 3 = (-1, -1) := by decide +kernel

theorem foldl_snoc_start (a b : Int) (l : List (Char × Nat)) (st : Int × Int) (h : ∃ p ∈ l, (p.2 : Int) = a) :
    (l.foldl (fun st p =>
      let start := if (p.2 : Int) = a then (p.2 : Int) else st.1
      let stop := if (p.2 : Int) = b then (p.2 : Int) else st.2
      let stop := if (p.2 : Int) + p.1.utf8Size = b then (p.2 : Int) + 1 else stop
      (start, stop)) st).1 = a := by
  induction l generalizing st with
  | nil => obtain ⟨p, hp, _⟩ := h; cases hp
  | cons q l ih =>
    rw [List.foldl_cons]
    by_cases hl : ∃ p ∈ l, (p.2 : Int) = a
    · exact ih _ hl
    · rw [foldl_start a b l _ (fun p hp he => hl ⟨p, hp, he⟩)]
      obtain ⟨p, hp, he⟩ := h
      rcases List.mem_cons.mp hp with rfl | hp
      · simp [he]
      · exact absurd ⟨p, hp, he⟩ hl

theorem foldl_stop (a b : Int) (l : List (Char × Nat)) (h1 : ∀ p ∈ l, p.1.utf8Size = 1) (st : Int × Int)
    (h : st.2 = b ∨ ∃ p ∈ l, (p.2 : Int) + 1 = b) :
    (l.foldl (fun st p =>
      let start := if (p.2 : Int) = a then (p.2 : Int) else st.1
      let stop := if (p.2 : Int) = b then (p.2 : Int) else st.2
      let stop := if (p.2 : Int) + p.1.utf8Size = b then (p.2 : Int) + 1 else stop
      (start, stop)) st).2 = b := by
  induction l generalizing st with
  | nil => simpa using h
  | cons q l ih =>
    rw [List.foldl_cons]
    apply ih (fun p hp => h1 p (by simp [hp]))
    have hq := h1 q (by simp)
    dsimp only
    rw [hq]
    by_cases hb : (q.2 : Int) + 1 = b
    · left; rw [if_pos (by omega)]; exact hb
    · rw [if_neg (by omega)]
      rcases h with h | ⟨p, hp, he⟩
      · left
        split
        · assumption
        · exact h
      · rcases List.mem_cons.mp hp with rfl | hp
        · exact absurd he hb
        · exact .inr ⟨p, hp, he⟩

/-- C45 (BytesToChar): exact on texts of single-byte characters, for non-empty ranges. -/
theorem C45_bytesToChar_ascii_partial (s : Str) (h1 : ∀ c ∈ s, c.utf8Size = 1) (a b : Nat) (hab : a < b)
    (hb : b ≤ s.length) : bytesToChar (encStr s) a b = ((a : Int), (b : Int)) := by
  have hmem : ∀ k : Nat, k < s.length → a ≤ k → k ≤ b → ∃ p ∈ (s.zipIdx.filter
      (fun p => decide ((p.2 : Int) ≥ (a : Int) ∧ (p.2 : Int) ≤ (b : Int)))), (p.2 : Int) = k := by
    intro k hk h2 h3
    refine ⟨(s[k], k), List.mem_filter.mpr ⟨?_, by simp; omega⟩, rfl⟩
    rw [List.mem_zipIdx_iff_getElem?]
    simp [hk]
  unfold bytesToChar
  rw [runes_encStr]
  dsimp only
  apply Prod.ext
  · exact foldl_snoc_start _ _ _ _ (hmem a (by omega) (by omega) (by omega))
  · refine foldl_stop _ _ _ ?_ _ (.inr ?_)
    · intro p hp
      have := (List.mem_filter.mp hp).1
      exact h1 p.1 (List.fst_mem_of_mem_zipIdx this)
    · obtain ⟨p, hp, he⟩ := hmem (b - 1) (by omega) (by omega) (by omega)
      exact ⟨p, hp, by omega⟩

theorem foldl_first (l : List (Char × Nat)) : ∀ st : Int × Int, st.1 ≠ -1 →
    (l.foldl (fun st p => (if st.1 = -1 then (p.2 : Int) else st.1, (p.2 : Int) + p.1.utf8Size)) st).1 = st.1 := by
  induction l with
  | nil => intro st _; rfl
  | cons p l ih =>
    intro st h
    rw [List.foldl_cons, ih _ (by simp [h])]
    simp [h]

theorem filter_zipIdx_head (s : Str) (i : Nat) (j : Int) (k : Nat) (hk : k ≤ i + 1) (hi : i + 1 < k + s.length)
    (hij : ((i + 1 : Nat) : Int) ≤ j) :
    ∃ c l, (s.zipIdx k).filter (fun p => decide ((p.2 : Int) > i ∧ (p.2 : Int) ≤ j)) = (c, i + 1) :: l := by
  induction s generalizing k with
  | nil => simp at hi; omega
  | cons c s ih =>
    rw [List.zipIdx_cons, List.filter_cons]
    by_cases h : k = i + 1
    · subst h
      rw [if_pos (by simp; omega)]
      exact ⟨_, _, rfl⟩
    · rw [if_neg (by simp; omega)]
      exact ih (k + 1) (by omega) (by simp at hi; omega)

/-- C45 fails for CharToBytes: the start of every range is one more than the character number,
so it is wrong for every text of single-byte characters. -/
theorem C45_charToBytes_violated (s : Str) (i j : Nat) (hij : i < j) (hj : j < s.length) :
    ∃ e, charToBytes (encStr s) i j = .ok ((i : Int) + 1, e) := by
  obtain ⟨c, l, hl⟩ := filter_zipIdx_head s i j 0 (by omega) (by omega) (by omega)
  have : charToBytes (encStr s) i j = .ok ((((i + 1 : Nat) : Int)),
      (l.foldl (fun st p => (if st.1 = -1 then (p.2 : Int) else st.1, (p.2 : Int) + p.1.utf8Size))
        (((i + 1 : Nat) : Int), ((i + 1 : Nat) : Int) + c.utf8Size)).2) := by
    unfold charToBytes
    rw [runes_encStr]
    dsimp only
    rw [if_neg (by omega), hl, if_neg (by omega), List.foldl_cons]
    congr 1
    apply Prod.ext
    · simp only [if_true]
      exact foldl_first l _ (by dsimp only; omega)
    · simp
  exact ⟨_, by rw [this]; rfl⟩

/-- C45 fails for CharToBytes: the empty range at the last character panics, for every text. -/
theorem C45_charToBytes_panic_violated (s : Str) (h : s ≠ []) :
    charToBytes (encStr s) ((s.length : Int) - 1) ((s.length : Int) - 1) = .panic := by
  have := List.length_pos_iff.mpr h
  unfold charToBytes
  rw [runes_encStr]
  simp only [if_true, List.length_zipIdx]
  rw [if_pos (by omega), idx, if_neg (by omega)]
  rw [List.getElem?_eq_none (by simp)]
  rfl

/-- C45 for CharToBytes: the empty text has the range 0, 0; ranges that hold no character and are not empty are -1, -1. -/
theorem C45_charToBytes_none :
    charToBytes [] 0 0 = .ok (0, 0) ∧
    ∀ (s : Str) (a b : Int), b < a ∨ (s.length : Int) ≤ a → a ≠ b → charToBytes (encStr s) a b = .ok (-1, -1) := by
  refine ⟨by decide +kernel, ?_⟩
  intro s a b h hab
  unfold charToBytes
  rw [runes_encStr]
  dsimp only
  rw [if_neg hab, if_neg (by omega)]
  have : s.zipIdx.filter (fun p => decide ((p.2 : Int) > a ∧ (p.2 : Int) ≤ b)) = [] := by
    rw [List.filter_eq_nil_iff]
    intro p hp
    have := List.snd_lt_of_mem_zipIdx hp
    simp only [decide_eq_true_eq]
    omega
  rw [this]
  rfl

example : charToBytes (encStr "abc".toList) 0 1 = .ok (1, 2) := by decide +kernel
example : convertOffsets (b2c (encStr "aéb".toList)) (1, 3) = .ok (1, 2) := by decide +kernel

end Tok.PreTok
