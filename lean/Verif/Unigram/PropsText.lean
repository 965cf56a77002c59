import Verif.Unigram.Props
import Verif.Unigram.PropsVocab

/-!
# C37 for texts

The segmentations of `Spec.lean` are of byte lists, with the model's own idea of a character. Here a
text is a list of characters, and an unknown piece is one of them.
-/

namespace Tok.Unigram

set_option linter.unusedSectionVars false

variable {K : Type} [AddCommGroup K] [LinearOrder K] [IsOrderedAddMonoid K]

/-! ### Specification -/

/-- All tokens of the vocabulary are texts. -/
def TextVocab (u : Unigram K) : Prop := ∀ e ∈ u.vocab, ∃ t : Str, e.1 = encStr t

/-- A segmentation of a text into tokens of at most 20 bytes and single characters that are not in the
vocabulary, with its weight: score and bonus of the tokens, the score for unknown characters. -/
inductive SegmText (u : Unigram K) : Str → List (Str × Int) → K → Prop
  | nil : SegmText u [] [] 0
  | known (t s : Str) (id : Nat) (ps : List (Str × Int)) (w : K) :
      t ≠ [] → blen t ≤ 20 → u.tokenToId (encStr t) = some id → SegmText u s ps w →
      SegmText u (t ++ s) ((t, (id : Int)) :: ps) (u.scoreOf id + blen t • u.bonus + w)
  | unknown (c : Char) (s : Str) (uid : Int) (ps : List (Str × Int)) (w : K) :
      u.tokenToId (encStr [c]) = none → u.unkId = some uid → SegmText u s ps w →
      SegmText u (c :: s) (([c], uid) :: ps) (u.unkScore + w)

/-- The pieces in bytes. -/
def inBytes (ps : List (Str × Int)) : List (Bytes × Int) := ps.map (fun p => (encStr p.1, p.2))

/-! ### Lemmas -/

theorem encStr_cons' (c : Char) (s : Str) : encStr (c :: s) = String.utf8EncodeChar c ++ encStr s := by
  simp [encStr]

theorem charLen_enc (c : Char) (r : Bytes) : charLen (String.utf8EncodeChar c ++ r) = c.utf8Size := by
  unfold charLen
  rw [decodeRune_enc]

theorem decodeRune_nil : decodeRune [] = none := by decide +kernel

theorem decodeRune_255 : decodeRune [255] = none := by decide +kernel

theorem enc_cons_inj {c d : Char} {a b : Bytes}
    (h : String.utf8EncodeChar c ++ a = String.utf8EncodeChar d ++ b) : c = d ∧ a = b := by
  have h1 := decodeRune_enc c a
  rw [h, decodeRune_enc] at h1
  cases h1
  exact ⟨rfl, List.append_cancel_left h⟩

/-- A text in front of a text with something behind that begins no character. -/
theorem encStr_prefix {x : Bytes} (hx : decodeRune x = none) (t : Str) : ∀ {r : Bytes} {s : Str},
    encStr t ++ r = encStr s ++ x → ∃ s', s = t ++ s' ∧ r = encStr s' ++ x := by
  induction t with
  | nil => intro r s h; exact ⟨s, rfl, by simpa [encStr] using h⟩
  | cons c t ih =>
    intro r s h
    cases s with
    | nil =>
      exfalso
      rw [encStr_cons', List.append_assoc] at h
      have h1 := decodeRune_enc c (encStr t ++ r)
      rw [h] at h1
      simp only [encStr, List.flatMap_nil, List.nil_append, hx] at h1
      cases h1
    | cons d s =>
      rw [encStr_cons', encStr_cons', List.append_assoc, List.append_assoc] at h
      obtain ⟨rfl, h2⟩ := enc_cons_inj h
      obtain ⟨s', rfl, h'⟩ := ih h2
      exact ⟨s', rfl, h'⟩

theorem token_text {u : Unigram K} (hu : TextVocab u) {p : Bytes} {id : Nat} (h : u.tokenToId p = some id) :
    ∃ t : Str, p = encStr t := by
  by_cases hn : u.tokenToId p = none
  · rw [hn] at h; cases h
  · rw [C68_unknown] at hn
    have : ∃ e ∈ u.vocab, e.1 = p := by
      apply Classical.byContradiction
      intro hc
      exact hn fun e he hp => hc ⟨e, he, hp⟩
    obtain ⟨e, he, rfl⟩ := this
    exact hu e he

theorem segm_text {u : Unigram K} (hu : TextVocab u) {b : Bytes} {ps : List (Bytes × Int)} {w : K}
    (h : Segm u b ps w) : ∀ s : Str, b = encStr s → ∃ qs, ps = inBytes qs ∧ SegmText u s qs w := by
  induction h with
  | nil =>
    intro s hs
    cases s with
    | nil => exact ⟨[], rfl, .nil⟩
    | cons c s =>
      exfalso
      have h1 := decodeRune_enc c (encStr s)
      rw [← encStr_cons', ← hs, decodeRune_nil] at h1
      cases h1
  | known p r id ps w hp hl hid _ ih =>
    intro s hs
    obtain ⟨t, rfl⟩ := token_text hu hid
    obtain ⟨s', rfl, hr⟩ := encStr_prefix decodeRune_nil t (r := r) (s := s) (by simpa using hs)
    obtain ⟨qs, rfl, hq⟩ := ih s' (by simpa using hr)
    refine ⟨(t, id) :: qs, rfl, ?_⟩
    rw [length_encStr] at hl ⊢
    exact .known t s' id qs w (by rintro rfl; exact hp rfl) hl hid hq
  | unknown p r uid ps w hl hn huid _ ih =>
    intro s hs
    cases s with
    | nil =>
      exfalso
      have hs : p ++ r = [] := by simpa [encStr] using hs
      rw [hs] at hl
      have hp : p = [] := (List.append_eq_nil_iff.1 hs).1
      rw [hp] at hl
      unfold charLen at hl
      rw [decodeRune_nil] at hl
      cases hl
    | cons c s =>
      rw [encStr_cons'] at hs
      rw [hs, charLen_enc] at hl
      have hp : p = String.utf8EncodeChar c ∧ r = encStr s :=
        List.append_inj hs (by rw [hl, String.length_utf8EncodeChar])
      obtain ⟨rfl, rfl⟩ := hp
      obtain ⟨qs, rfl, hq⟩ := ih s rfl
      have e : encStr [c] = String.utf8EncodeChar c := by simp [encStr]
      refine ⟨([c], uid) :: qs, by simp [inBytes, e], ?_⟩
      exact .unknown c s uid qs w (by rw [e]; exact hn) huid hq

theorem text_segm {u : Unigram K} {s : Str} {qs : List (Str × Int)} {w : K} (h : SegmText u s qs w) :
    Segm u (encStr s) (inBytes qs) w := by
  induction h with
  | nil => exact .nil
  | known t s id ps w ht hl hid _ ih =>
    rw [encStr_append, ← length_encStr]
    refine .known (encStr t) (encStr s) id (inBytes ps) w ?_ (by rw [length_encStr]; exact hl) hid ih
    intro h
    cases t with
    | nil => exact ht rfl
    | cons c t =>
      have h1 := decodeRune_enc c (encStr t)
      rw [← encStr_cons', h, decodeRune_nil] at h1
      cases h1
  | unknown c s uid ps w hn huid _ ih =>
    have e : encStr [c] = String.utf8EncodeChar c := by simp [encStr]
    have : inBytes (([c], uid) :: ps) = (String.utf8EncodeChar c, uid) :: inBytes ps := by simp [inBytes, e]
    rw [encStr_cons', this]
    refine .unknown _ _ uid _ w ?_ (by rw [← e]; exact hn) huid ih
    rw [charLen_enc, String.length_utf8EncodeChar]

/-- With an unknown token every text has a segmentation. -/
theorem text_exists {u : Unigram K} {uid : Int} (h : u.unkId = some uid) (s : Str) :
    ∃ qs w, SegmText u s qs w := by
  induction s with
  | nil => exact ⟨[], 0, .nil⟩
  | cons c s ih =>
    obtain ⟨qs, w, hq⟩ := ih
    cases hc : u.tokenToId (encStr [c]) with
    | none => exact ⟨_, _, .unknown c s uid qs w hc h hq⟩
    | some id =>
      have hs : blen [c] ≤ 20 := by have := c.utf8Size_le_four; simp [blen]; omega
      exact ⟨_, _, .known [c] s id qs w (by simp) hs hc hq⟩

/-! ### C37 -/

/-- **C37.** For a vocabulary of texts and an unknown token, every text is cut into tokens of at most 20
bytes and single unknown characters, with the greatest weight of all such segmentations. -/
theorem C37_text (u : Unigram K) (hu : TextVocab u) {uid : Int} (h : u.unkId = some uid) (s : Str) :
    ∃ qs w, SegmText u s qs w ∧ (∀ qs' w', SegmText u s qs' w' → w' ≤ w) ∧
      u.viterbi (encStr s) = .ok (u.output (inBytes qs)) := by
  obtain ⟨qs₀, w₀, h₀⟩ := text_exists h s
  obtain ⟨ps, ⟨w, hp, hb⟩, hv⟩ := C37_optimal u (encStr s) ⟨_, _, text_segm h₀⟩
  obtain ⟨qs, rfl, hq⟩ := segm_text hu hp s rfl
  exact ⟨qs, w, hq, fun qs' w' h' => hb _ _ (text_segm h'), hv⟩

/-- **C37.** The same without an unknown token: a text that has a segmentation gets one of the greatest
weight, and one that has none is an error. -/
theorem C37_text_known (u : Unigram K) (hu : TextVocab u) (h : u.unkId = none) (hf : u.bytesFallback = false)
    (s : Str) :
    (∃ qs w, SegmText u s qs w ∧ (∀ qs' w', SegmText u s qs' w' → w' ≤ w) ∧
      u.viterbi (encStr s) = .ok (qs.map fun q => encStr q.1)) ∨
    ((¬ ∃ qs w, SegmText u s qs w) ∧ u.viterbi (encStr s) = .err) := by
  by_cases he : ∃ qs w, SegmText u s qs w
  · left
    obtain ⟨qs₀, w₀, h₀⟩ := he
    obtain ⟨ps, ⟨w, hp, hb⟩, hv⟩ := C37_optimal u (encStr s) ⟨_, _, text_segm h₀⟩
    obtain ⟨qs, rfl, hq⟩ := segm_text hu hp s rfl
    refine ⟨qs, w, hq, fun qs' w' h' => hb _ _ (text_segm h'), ?_⟩
    rw [hv]
    simp only [output, h]
    cases u.fuseUnk <;> simp [inBytes]
  · right
    refine ⟨he, (C37_no_segmentation u (encStr s) ?_).2 h hf⟩
    rintro ⟨ps, w, hp⟩
    obtain ⟨qs, _, hq⟩ := segm_text hu hp s rfl
    exact he ⟨qs, w, hq⟩

/-- **C37, violated.** One byte at the end that belongs to no character makes the whole text one unknown
piece, whatever tokens the text in front of it is made of: the code steps over three bytes for it. -/
theorem C37_invalid_violated (u : Unigram K) (hu : TextVocab u) {uid : Int} (h : u.unkId = some uid) (s : Str) :
    u.viterbi (encStr s ++ [255]) = .ok [encStr s ++ [255]] := by
  refine (C37_no_segmentation u _ ?_).1 (by rw [h]; simp)
  rintro ⟨ps, w, hp⟩
  have key : ∀ {b : Bytes} {ps : List (Bytes × Int)} {w : K}, Segm u b ps w → ∀ s : Str, b ≠ encStr s ++ [255] := by
    intro b ps w hp
    induction hp with
    | nil => intro s hs; simp at hs
    | known p r id ps w _ _ hid _ ih =>
      intro s hs
      obtain ⟨t, rfl⟩ := token_text hu hid
      obtain ⟨s', _, hr⟩ := encStr_prefix decodeRune_255 t hs
      exact ih s' hr
    | unknown p r uid ps w hl _ _ _ ih =>
      intro s hs
      cases s with
      | nil =>
        have hs : p ++ r = [255] := by simpa [encStr] using hs
        have h1 := congrArg List.length hs
        rw [hs] at hl
        unfold charLen at hl
        rw [decodeRune_255] at hl
        simp only [List.length_append, List.length_cons, List.length_nil] at h1
        dsimp only at hl
        omega
      | cons c s =>
        rw [encStr_cons', List.append_assoc] at hs
        rw [hs, charLen_enc] at hl
        exact ih s (List.append_inj hs (by rw [hl, String.length_utf8EncodeChar])).2
  exact key hp s rfl

/-! ### Cases -/

/-- A vocabulary with the unknown token, "a" and "ab". -/
def textSample : Unigram Int :=
  { vocab := [(encStr "<unk>".toList, 0), (encStr ['a'], -1), (encStr ['a', 'b'], -1)], unkId := some 0,
    bytesFallback := false, fuseUnk := false, bonus := 0, penalty := 10 }

theorem textSample_text : TextVocab textSample := by
  intro e he
  simp only [textSample, List.mem_cons, List.not_mem_nil, or_false] at he
  rcases he with rfl | rfl | rfl
  · exact ⟨_, rfl⟩
  · exact ⟨_, rfl⟩
  · exact ⟨_, rfl⟩

/-- "ab" is found, but not in front of an invalid byte. -/
example : textSample.viterbi (encStr ['a', 'b']) = .ok [encStr ['a', 'b']] ∧
    textSample.viterbi (encStr ['a', 'b'] ++ [255]) = .ok [encStr ['a', 'b'] ++ [255]] ∧
    textSample.tokenToId (encStr ['a', 'b'] ++ [255]) = none :=
  ⟨by decide +kernel, C37_invalid_violated textSample textSample_text (uid := 0) rfl ['a', 'b'], by decide +kernel⟩

end Tok.Unigram
