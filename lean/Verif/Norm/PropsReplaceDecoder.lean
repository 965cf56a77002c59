import Verif.Norm.ReplaceDecoder
import Verif.Norm.PropsReplace

/-! # C109: Replace as a decoder -/

namespace Tok.Norm

/-! ### Specification -/

/-- The text with every occurrence of `old` replaced, from left to right without overlaps. -/
def replaceBytes (old new : List UInt8) (s : List UInt8) : List UInt8 :=
  match s with
  | [] => []
  | c :: cs =>
    if old ≠ [] ∧ old.isPrefixOf (c :: cs) then new ++ replaceBytes old new ((c :: cs).drop old.length)
    else c :: replaceBytes old new cs
termination_by s.length
decreasing_by
  · have h : old ≠ [] := by simp_all
    have := List.length_pos_iff.2 h
    simp only [List.length_drop, List.length_cons]
    omega
  · simp

/-! ### Lemmas -/

/-- The text from byte `cur` on with the given places replaced. -/
def between (content whole : List UInt8) : Nat → List (Nat × Nat) → List UInt8
  | cur, [] => whole.drop cur
  | cur, m :: ms => (whole.take m.1).drop cur ++ content ++ between content whole m.2 ms

/-- The places are in order, not empty and inside the text. -/
def Ordered (len : Nat) : Nat → List (Nat × Nat) → Prop
  | cur, [] => cur ≤ len
  | cur, m :: ms => cur ≤ m.1 ∧ m.1 < m.2 ∧ m.2 ≤ len ∧ Ordered len m.2 ms

theorem slc_nat {l : List UInt8} {a b : Nat} (h1 : a ≤ b) (h2 : b ≤ l.length) :
    slc l a b = .ok ((l.take b).drop a) := by
  unfold slc
  rw [if_pos (by omega)]
  simp

theorem parts_reLoop (content whole : List UInt8) (ms : List (Nat × Nat)) : ∀ m : Nat × Nat,
    Ordered whole.length m.1 (m :: ms) →
    replaceParts content whole (reLoop whole.length (m :: ms) m.1) = .ok (content ++ between content whole m.2 ms) := by
  induction ms with
  | nil =>
    intro m h
    obtain ⟨_, h2, h3, _⟩ := h
    have e : m.1 + (m.2 - m.1) = m.2 := by omega
    simp only [reLoop, e]
    split
    · next h4 =>
      simp only [replaceParts, if_true, Bool.false_eq_true, if_false, Res.bind_ok]
      rw [slc_nat (by omega) (Nat.le_refl _)]
      simp [between]
    · next h4 =>
      have : whole.drop m.2 = [] := List.drop_eq_nil_of_le (by omega)
      simp [replaceParts, between, this]
  | cons n ms ih =>
    intro m h
    obtain ⟨_, h2, h3, h4⟩ := h
    have h5 := h4.1
    have hn : Ordered whole.length n.1 (n :: ms) := ⟨Nat.le_refl _, h4.2⟩
    have hl : n.1 ≤ whole.length := by have := h4.2; omega
    have ih := ih n hn
    simp only [reLoop]
    split
    · next h6 =>
      have e : m.1 + (m.2 - m.1) + (n.1 - m.2) = n.1 := by omega
      simp only [replaceParts, if_true, Bool.false_eq_true, if_false, Res.bind_ok, e]
      rw [slc_nat h5 hl, ih]
      simp [between]
    · next h6 =>
      have h6 : m.2 = n.1 := by simpa using h6
      have e : m.1 + (m.2 - m.1) = n.1 := by omega
      simp only [replaceParts, if_true, Res.bind_ok, e]
      rw [ih]
      have : (whole.take n.1).drop m.2 = [] := by
        apply List.drop_eq_nil_of_le
        rw [List.length_take]
        omega
      simp [between, this]

theorem parts_reFind (content whole : List UInt8) {ms : List (Nat × Nat)} (h : Ordered whole.length 0 ms) :
    replaceParts content whole (reFind whole.length ms) = .ok (between content whole 0 ms) := by
  cases ms with
  | nil =>
    simp only [reFind, replaceParts, Bool.false_eq_true, if_false]
    have := slc_nat (l := whole) (Nat.zero_le whole.length) (Nat.le_refl _)
    rw [this]
    simp [between]
  | cons m ms =>
    have hm : Ordered whole.length m.1 (m :: ms) := ⟨Nat.le_refl _, h.2⟩
    have hl : m.1 ≤ whole.length := by have := h.2; omega
    have key := parts_reLoop content whole ms m hm
    simp only [reFind]
    split
    · simp only [replaceParts, Bool.false_eq_true, if_false]
      have := slc_nat (l := whole) (Nat.zero_le m.1) hl
      rw [this]
      simp only [Res.bind_ok, key]
      simp [between]
    · next h0 =>
      have h0 : m.1 = 0 := by omega
      rw [h0] at key
      rw [key]
      simp [between, h0]

theorem literal_ordered (p : List UInt8) (len : Nat) : ∀ (k i : Nat) (s : List UInt8), s.length ≤ k →
    i + s.length = len → Ordered len i (literalFrom p i s) ∧
      ∀ j, j ≤ i → Ordered len j (literalFrom p i s) := by
  have mono : ∀ (ms : List (Nat × Nat)) (i j : Nat), j ≤ i → Ordered len i ms → Ordered len j ms := by
    intro ms i j h
    cases ms with
    | nil => exact fun h' => Nat.le_trans h h'
    | cons m ms => exact fun h' => ⟨Nat.le_trans h h'.1, h'.2⟩
  intro k
  induction k with
  | zero =>
    intro i s hs hl
    have : s = [] := List.length_eq_zero_iff.1 (by omega)
    subst this
    unfold literalFrom
    simp only [List.length_nil] at hl
    exact ⟨by simp only [Ordered]; omega, fun j hj => by simp only [Ordered]; omega⟩
  | succ k ih =>
    intro i s hs hl
    have key : Ordered len i (literalFrom p i s) := by
      cases s with
      | nil => unfold literalFrom; simp only [List.length_nil] at hl; simp only [Ordered]; omega
      | cons c cs =>
        unfold literalFrom
        simp only [List.length_cons] at hs hl
        split
        · next h =>
          have hp := List.length_pos_iff.2 h.1
          have hle := (List.isPrefixOf_iff_prefix.1 h.2).length_le
          simp only [List.length_cons] at hle
          refine ⟨Nat.le_refl _, by dsimp only; omega, by dsimp only; omega, ?_⟩
          exact (ih (i + p.length) _ (by simp only [List.length_drop, List.length_cons]; omega)
            (by simp only [List.length_drop, List.length_cons]; omega)).1
        · exact (ih (i + 1) cs (by omega) (by omega)).2 i (by omega)
    exact ⟨key, fun j hj => mono _ i j hj key⟩

theorem drop_head {whole : List UInt8} {i : Nat} {c : UInt8} {cs : List UInt8} (h : whole.drop i = c :: cs) :
    whole.drop (i + 1) = cs ∧ ∀ n, i < n → (whole.take n).drop i = c :: (whole.take n).drop (i + 1) := by
  have h1 : whole.drop (i + 1) = cs := by rw [← List.drop_drop, h]; rfl
  refine ⟨h1, ?_⟩
  intro n hn
  rw [List.drop_take, List.drop_take, h, h1]
  obtain ⟨d, hd⟩ : ∃ d, n - i = d + 1 := ⟨n - i - 1, by omega⟩
  rw [hd, show n - (i + 1) = d by omega]
  rfl

theorem between_literal (p content whole : List UInt8) : ∀ (k i : Nat) (s : List UInt8), s.length ≤ k →
    whole.drop i = s → i + s.length = whole.length →
    between content whole i (literalFrom p i s) = replaceBytes p content s := by
  intro k
  induction k with
  | zero =>
    intro i s hs hw _
    have : s = [] := List.length_eq_zero_iff.1 (by omega)
    subst this
    unfold literalFrom replaceBytes
    exact hw
  | succ k ih =>
    intro i s hs hw hl
    cases s with
    | nil => unfold literalFrom replaceBytes; exact hw
    | cons c cs =>
      simp only [List.length_cons] at hs hl
      unfold literalFrom replaceBytes
      by_cases h : p ≠ [] ∧ p.isPrefixOf (c :: cs) = true
      · rw [if_pos h, if_pos h]
        have hp := List.length_pos_iff.2 h.1
        have hle := (List.isPrefixOf_iff_prefix.1 h.2).length_le
        simp only [List.length_cons] at hle
        have e : (whole.take i).drop i = [] := List.drop_eq_nil_of_le (by rw [List.length_take]; omega)
        simp only [between, e, List.nil_append]
        rw [ih (i + p.length) ((c :: cs).drop p.length) (by simp only [List.length_drop, List.length_cons]; omega)
          (by rw [← List.drop_drop, hw]) (by simp only [List.length_drop, List.length_cons]; omega)]
      · rw [if_neg h, if_neg h]
        obtain ⟨h1, h2⟩ := drop_head hw
        rw [← ih (i + 1) cs (by omega) h1 (by omega)]
        have ho := (literal_ordered p whole.length cs.length (i + 1) cs (Nat.le_refl _) (by omega)).1
        cases hm : literalFrom p (i + 1) cs with
        | nil => simp only [between]; rw [hw, h1]
        | cons m ms =>
          rw [hm] at ho
          simp only [between]
          rw [h2 m.1 (by have := ho.1; omega)]
          rfl

theorem replaceBytes_nil (new : List UInt8) (s : List UInt8) : replaceBytes [] new s = s := by
  induction s with
  | nil => unfold replaceBytes; rfl
  | cons c cs ih => unfold replaceBytes; simp [ih]

/-- A text that is shorter than `old` has no occurrence of it. -/
theorem replaceBytes_short (old new : List UInt8) : ∀ s : List UInt8, s.length < old.length →
    replaceBytes old new s = s := by
  intro s
  induction s with
  | nil => intro _; unfold replaceBytes; rfl
  | cons c cs ih =>
    intro h
    unfold replaceBytes
    have : ¬ (old ≠ [] ∧ old.isPrefixOf (c :: cs) = true) := by
      rintro ⟨_, h'⟩
      have := (List.isPrefixOf_iff_prefix.1 h').length_le
      omega
    rw [if_neg this, ih (by simp only [List.length_cons] at h; omega)]

theorem replaceBytes_self {old : List UInt8} (h : old ≠ []) (new : List UInt8) : replaceBytes old new old = new := by
  cases old with
  | nil => exact absurd rfl h
  | cons c cs =>
    unfold replaceBytes
    rw [if_pos ⟨h, by simp⟩]
    rw [List.drop_length]
    unfold replaceBytes
    simp

/-! ### C109 -/

/-- **C109.** Replacing a string: `DecodeChain` gives one text per token, which is the token with every
occurrence of the string replaced, and never fails, whatever the bytes of the tokens. An empty string
replaces nothing. -/
theorem C109_string (p content : List UInt8) (ts : List (List UInt8)) :
    replaceChain (stringPattern p) content ts = .ok (ts.map (replaceBytes p content)) := by
  induction ts with
  | nil => rfl
  | cons t ts ih =>
    have key : ∃ ms, (stringPattern p).find t = .ok ms ∧ replaceParts content t ms = .ok (replaceBytes p content t) := by
      unfold stringPattern Pat.find
      by_cases hp : p.length = 0
      · rw [if_pos hp]
        refine ⟨_, rfl, ?_⟩
        have hp : p = [] := List.length_eq_zero_iff.1 hp
        rw [hp, replaceBytes_nil]
        simp only [replaceParts, Bool.false_eq_true, if_false]
        have := slc_nat (l := t) (Nat.zero_le t.length) (Nat.le_refl _)
        rw [this]
        simp
      · rw [if_neg hp]
        refine ⟨_, rfl, ?_⟩
        rw [parts_reFind content t (literal_ordered p t.length t.length 0 t (Nat.le_refl _) (by omega)).1,
          between_literal p content t t.length 0 t (Nat.le_refl _) rfl (by omega)]
    obtain ⟨ms, h1, h2⟩ := key
    simp only [replaceChain, h1, h2, ih, Res.bind_ok, List.map_cons]

/-- **C109.** As a decoder and as a normalizer, `Replace` makes the same text, for every pattern whose
matches are not empty and on character boundaries. -/
theorem C109_agree (p : Pat) (content : Str) (ps : List (Str × Bool)) (hne : ∀ q ∈ ps, q.1 ≠ [])
    (hfind : p.find (encStr (ps.map (·.1)).flatten) = .ok (spansAt 0 ps)) :
    ∃ n t, (newNStr (encStr (ps.map (·.1)).flatten)).replace p (encStr content) = .ok n ∧
      replaceChain p (encStr content) [encStr (ps.map (·.1)).flatten] = .ok [t] ∧ t = n.normalized := by
  obtain ⟨n, h1, h2, _⟩ := C61_replace p content ps hne hfind
  refine ⟨n, n.normalized, h1, ?_, rfl⟩
  have key : ∀ (qs : List (Str × Bool)) (u : Str),
      replaceParts (encStr content) (encStr (u ++ (qs.map (·.1)).flatten)) (spansAt (blen u) qs) =
        .ok (encStr (replacedText content qs)) := by
    intro qs
    induction qs with
    | nil => intro u; rfl
    | cons q qs ih =>
      intro u
      obtain ⟨t, f⟩ := q
      have ih := ih (u ++ t)
      simp only [List.append_assoc, blen_append] at ih
      simp only [List.map_cons, List.flatten_cons, spansAt, replaceParts]
      rw [ih]
      cases f with
      | true => simp [replacedText, encStr_append]
      | false =>
        simp only [Bool.false_eq_true, if_false]
        rw [slc_nat (by omega) (by simp only [length_encStr, blen_append]; omega)]
        have e : ((encStr (u ++ (t ++ (qs.map (·.1)).flatten))).take (blen u + blen t)).drop (blen u) = encStr t := by
          rw [encStr_append, encStr_append, ← List.append_assoc]
          rw [List.take_left' (by simp [length_encStr]), List.drop_left' (length_encStr u)]
        rw [e]
        simp [replacedText, encStr_append]
  simp only [replaceChain, hfind, Res.bind_ok]
  have := key ps []
  simp only [List.nil_append] at this
  rw [show blen ([] : Str) = 0 from rfl] at this
  rw [this, h2]
  rfl

/-- **C109, violated.** `Decode` does not replace what the tokens make together: a string that is cut
anywhere between two tokens stays, although `Replace` of the whole text replaces it. -/
theorem C109_border_violated (a b content : List UInt8) (ha : a ≠ []) (hb : b ≠ []) (hc : content ≠ a ++ b) :
    replaceDecode (stringPattern (a ++ b)) content [a, b] = .ok (a ++ b) ∧
      replaceDecode (stringPattern (a ++ b)) content [a ++ b] = .ok content ∧ content ≠ a ++ b := by
  have h1 := List.length_pos_iff.2 ha
  have h2 := List.length_pos_iff.2 hb
  refine ⟨?_, ?_, hc⟩
  · simp only [replaceDecode, C109_string, Res.bind_ok, List.map_cons, List.map_nil]
    rw [replaceBytes_short _ _ a (by simp; omega), replaceBytes_short _ _ b (by simp; omega)]
    simp
  · simp only [replaceDecode, C109_string, Res.bind_ok, List.map_cons, List.map_nil]
    rw [replaceBytes_self (by simp [ha])]
    simp

/-- **C109, violated.** The other way round, a decoder that puts the replacement back does not undo it
when the text has the replacement already. -/
theorem C109_undo_violated (p q : List UInt8) (hq : q ≠ []) (hpq : p ≠ q)
    (h : replaceBytes p q q = q) :
    ∃ t, replaceDecode (stringPattern p) q [t] = .ok t ∧ replaceDecode (stringPattern q) p [t] = .ok p ∧ p ≠ t := by
  refine ⟨q, ?_, ?_, hpq⟩
  · simp [replaceDecode, C109_string, h]
  · simp [replaceDecode, C109_string, replaceBytes_self hq]

/-! ### Cases -/

/-- The usual decoder of SentencePiece models: the marker becomes a space. -/
example : replaceDecode (stringPattern (encStr "▁".toList)) [32] [encStr "▁a▁".toList, encStr "b".toList] =
    .ok (encStr " a b".toList) := by
  simp only [replaceDecode, C109_string, Res.bind_ok]
  decide +kernel

example : ([97] : List UInt8) ≠ [] ∧ ([98] : List UInt8) ≠ [] ∧ ([99] : List UInt8) ≠ [97] ++ [98] := by decide

/-- A space and the marker: a marker in the text comes back as a space. -/
example : ([32] : List UInt8) ≠ [95] ∧ replaceBytes [32] [95] [95] = [95] := by decide +kernel

example : (stringPattern (encStr ['b'])).find (encStr "abc".toList) =
    .ok (spansAt 0 [(['a'], false), (['b'], true), (['c'], false)]) := by decide +kernel

end Tok.Norm
