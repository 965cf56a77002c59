import Verif.PreTok.PropsWordPieceText
import Verif.PreTok.ByteRows
import Verif.Norm.PropsNormalized

/-!
# C64 with a WordPiece model: where the tokens of any text are placed

The offsets of WordPiece count characters and are taken for bytes. So a token from the character `i` to
the character `j` gets the place of the characters that hold the bytes `i` to `j - 1`.
-/

namespace Tok.PreTok

open Tok.Norm

/-- The byte where the character begins that holds byte `i`. -/
def charStart : Str → Nat → Nat
  | [], _ => 0
  | c :: s, i => if i < c.utf8Size then 0 else c.utf8Size + charStart s (i - c.utf8Size)

/-- The byte where the character ends that holds byte `i`. -/
def charEnd : Str → Nat → Nat
  | [], _ => 0
  | c :: s, i => if i < c.utf8Size then c.utf8Size else c.utf8Size + charEnd s (i - c.utf8Size)

theorem char_at (s : Str) : ∀ i, i < blen s → ∃ u c v j, s = u ++ c :: v ∧ j < c.utf8Size ∧ i = blen u + j ∧
    charStart s i = blen u ∧ charEnd s i = blen u + c.utf8Size := by
  induction s with
  | nil => intro i h; exact absurd h (Nat.not_lt_zero _)
  | cons c s ih =>
    intro i h
    by_cases hi : i < c.utf8Size
    · exact ⟨[], c, s, i, rfl, hi, (Nat.zero_add i).symm, by rw [charStart, if_pos hi]; rfl,
        by rw [charEnd, if_pos hi]; exact (Nat.zero_add _).symm⟩
    · rw [blen_cons] at h
      obtain ⟨u, d, v, j, e1, e2, e3, e4, e5⟩ := ih (i - c.utf8Size) (by omega)
      refine ⟨c :: u, d, v, j, by rw [e1]; rfl, e2, by rw [blen_cons]; omega, ?_, ?_⟩
      · rw [charStart, if_neg hi, e4, blen_cons]
      · rw [charEnd, if_neg hi, e5, blen_cons]; omega

theorem fresh_convert {x : NStr} {m : Str} (h : Fresh x m) (a b : Int) :
    x.convert ⟨a, b, .normalized⟩ = (newNStr (encStr m)).convert ⟨a, b, .normalized⟩ := by
  unfold NStr.convert
  simp only [h.text, h.aligns, newNStr_aligns]
  rfl

/-- The bytes `a` to `b - 1` of a piece of the text have the place of the characters that hold them. -/
theorem origOffsets_bytes {s u w : Str} {x : NStr} (h : FPart s u w x) (a b : Nat) (hab : a < b) (hb : b ≤ blen w) :
    origOffsets x ((a : Int), (b : Int)) =
      .ok (((blen u + charStart w a : Nat) : Int), ((blen u + charEnd w (b - 1) : Nat) : Int)) := by
  obtain ⟨_, hf, hsh⟩ := h
  obtain ⟨p, c, v, j, e1, e2, e3, e4, _⟩ := char_at w a (by omega)
  obtain ⟨p', d, v', j', f1, f2, f3, _, f5⟩ := char_at w (b - 1) (by omega)
  have hcut := (C40_cut w p v p' v' c d j j' e1 f1 e2 f2 (by omega)).1
  rw [← e3, show blen p' + j' + 1 = b by omega] at hcut
  unfold origOffsets
  rw [fresh_convert hf, hcut]
  simp only [Res.bind_ok, hsh, e4, f5]
  rfl

/-- The offsets of WordPiece tokens lie within the characters of the word, and the last ends with it. -/
theorem wordPiece_offsets (m : WordPiece) (w : Str) (hw : w ≠ []) (ts : List Token) (h : m.tokenize w = .ok ts) :
    ts ≠ [] ∧ ∀ t ∈ ts, ∃ a b : Nat, t.offsets = ((a : Int), (b : Int)) ∧ a < b ∧ b ≤ w.length := by
  have hpos : 0 < w.length := List.length_pos_iff.mpr hw
  have key : TokensTile 0 (w.length : Int) ts := by
    by_cases hl : (w.length : Int) ≤ m.maxChars
    · by_cases hg : ∃ ps, Greedy m true w ps
      · obtain ⟨ps, hps⟩ := hg
        obtain ⟨ts', h1, _, _, h2⟩ := C35_reconstruct m w hl ps hps
        rw [h] at h1
        cases h1
        exact h2
      · have := C34_unknown m w (Or.inr fun ps hps => hg ⟨ps, hps⟩)
        rw [h] at this
        cases hv : m.vocab m.unk with
        | none => rw [hv] at this; cases this
        | some id =>
          rw [hv] at this; cases this
          exact ⟨rfl, by simp only []; omega, rfl⟩
    · have := C34_unknown m w (Or.inl (by omega))
      rw [h] at this
      cases hv : m.vocab m.unk with
      | none => rw [hv] at this; cases this
      | some id =>
        rw [hv] at this; cases this
        exact ⟨rfl, by simp only []; omega, rfl⟩
  have hin : ∀ (ts : List Token) (a b : Int), 0 ≤ a → TokensTile a b ts → a ≤ b ∧ ∀ t ∈ ts, 0 ≤ t.offsets.1 ∧
      t.offsets.1 < t.offsets.2 ∧ t.offsets.2 ≤ b := by
    intro ts
    induction ts with
    | nil => intro a b _ h; exact ⟨Int.le_of_eq h, by simp⟩
    | cons t ts ih =>
      intro a b ha h
      obtain ⟨h1, h2, h3⟩ := h
      obtain ⟨i1, i2⟩ := ih t.offsets.2 b (by omega) h3
      refine ⟨by omega, ?_⟩
      intro x hx
      rcases List.mem_cons.mp hx with rfl | hx
      · exact ⟨by omega, h2, i1⟩
      · exact i2 x hx
  refine ⟨?_, ?_⟩
  · rintro rfl
    have : (0 : Int) = w.length := key
    omega
  · intro t ht
    obtain ⟨h1, h2, h3⟩ := (hin ts 0 _ (Int.le_refl 0) key).2 t ht
    exact ⟨t.offsets.1.toNat, t.offsets.2.toNat, by ext <;> simp only [] <;> omega, by omega, by omega⟩

/-- The places that the tokens of a word get. -/
def wordPiecePlace (u w : Str) (o : Int × Int) : Int × Int :=
  (((blen u + charStart w o.1.toNat : Nat) : Int), ((blen u + charEnd w (o.2.toNat - 1) : Nat) : Int))

theorem rowsOfTokens_wordPiece {s u w : Str} {x : NStr} (h : FPart s u w x) (word : Int) (ts : List Token)
    (ht : ∀ t ∈ ts, ∃ a b : Nat, t.offsets = ((a : Int), (b : Int)) ∧ a < b ∧ b ≤ blen w) :
    rowsOfTokens (charMap .byte (encStr s)) x word ts = .ok (ts.map (fun t => ⟨t, wordPiecePlace u w t.offsets, word⟩)) := by
  induction ts with
  | nil => rfl
  | cons t ts ih =>
    obtain ⟨a, b, e1, e2, e3⟩ := ht t (by simp)
    rw [rowsOfTokens, ih (fun t h => ht t (by simp [h])), e1, origOffsets_bytes h a b e2 e3]
    simp only [Res.bind_ok, charMap, charOffsets, List.lookup, List.map_cons, wordPiecePlace, e1, Int.toNat_natCast]

theorem length_le_blen (w : Str) : w.length ≤ blen w := by
  induction w with
  | nil => exact Nat.zero_le _
  | cons c w ih =>
    have := c.utf8Size_pos
    rw [blen_cons, List.length_cons]; omega

/-- C64, WordPiece on any word: each token gets the place of the characters that hold the bytes with the
numbers of the token's characters. -/
theorem C64_wordpiece_rows {s u w : Str} {x : NStr} (h : FPart s u w x) (hw : w ≠ []) (m : WordPiece)
    (ts : List Token) (ht : m.tokenize w = .ok ts) (word : Int) :
    rowsOfTokens (charMap .byte (encStr s)) x word ts = .ok (ts.map (fun t => ⟨t, wordPiecePlace u w t.offsets, word⟩)) := by
  apply rowsOfTokens_wordPiece h
  intro t hts
  obtain ⟨a, b, e1, e2, e3⟩ := (wordPiece_offsets m w hw ts ht).2 t hts
  exact ⟨a, b, e1, e2, Nat.le_trans e3 (length_le_blen w)⟩

/-- C64, WordPiece on any text that is one word: the entries of the encoding. -/
theorem C64_wordpiece_entries {t : Tk} (m : WordPiece) (hn : t.normalizer = none) (hp : t.preTokenizer = none)
    (hm : t.model = some (wordPieceModel m)) (s : Str) (hs : s ≠ []) (ha : NoAdded t s) (ts : List Token)
    (ht : m.tokenize s = .ok ts) (typeId : Int) :
    ∃ e, t.encodeSingle (.raw (encStr s)) typeId .byte = .ok e ∧ e.ids = ts.map (·.id) ∧
      e.tokens = ts.map (·.value) ∧ e.offsets = ts.map (fun t => wordPiecePlace [] s t.offsets) := by
  obtain ⟨y, h1, h2⟩ := extract_none hn ha hs
  have hrows := C64_wordpiece_rows h2 hs m ts ht 0
  have hone : t.encodeOne (encStr s) typeId (-1) .byte =
      .ok (ofRows (ts.map (fun t => ⟨t, wordPiecePlace [] s t.offsets, 0⟩)) typeId) := by
    have hne := (wordPiece_offsets m s hs ts ht).1
    have hne' : ts.isEmpty = false := by cases ts with
      | nil => exact absurd rfl hne
      | cons => rfl
    simp only [Tk.encodeOne, h1, Tk.doPreTokenize, hp, Res.bind_ok, Tk.doTokenize, PTS.tokenize, hm, tokenizeLoop,
      fpart_text h2, wordPieceModel, decStr_enc, ht, PTS.intoEncoding, List.any_cons, List.any_nil, Option.getD_some,
      hne', rowsOfSplits]
    simp only [if_true]
    simp [hrows, ofRows]
  refine ⟨ofRows (ts.map (fun t => ⟨t, wordPiecePlace [] s t.offsets, 0⟩)) typeId, ?_, ?_, ?_, ?_⟩
  · simp only [Tk.encodeSingle, hone, Res.bind_ok]
    have := merge_ofRows typeId [ts.map (fun t => ⟨t, wordPiecePlace [] s t.offsets, 0⟩)] []
    rw [default_ofRows typeId]
    simpa using this
  · simp [ofRows]
  · simp [ofRows]
  · simp [ofRows]

theorem charEnd_le (s v : Str) : ∀ i, i < blen s → charEnd (s ++ v) i ≤ blen s := by
  induction s with
  | nil => intro i h; exact absurd h (Nat.not_lt_zero _)
  | cons c s ih =>
    intro i h
    rw [blen_cons] at h ⊢
    rw [List.cons_append, charEnd]
    split
    · omega
    · have := ih (i - c.utf8Size) (by omega)
      omega

/-- C64 fails for WordPiece: its offsets count characters, the encoding takes them for bytes. Whatever the
vocabulary, no token of a text covers its last part `v` if the text has no more characters than its part
before `v` has bytes. -/
theorem C64_wordpiece_violated {t : Tk} (m : WordPiece) (hn : t.normalizer = none) (hp : t.preTokenizer = none)
    (hm : t.model = some (wordPieceModel m)) (u v : Str) (hv : v ≠ []) (ha : NoAdded t (u ++ v))
    (hu : m.vocab m.unk ≠ none) (hlen : (u ++ v).length ≤ blen u) (typeId : Int) :
    ∃ e, t.encodeSingle (.raw (encStr (u ++ v))) typeId .byte = .ok e ∧ e.offsets ≠ [] ∧
      ∀ o ∈ e.offsets, o.2 ≤ (blen u : Nat) := by
  have hs : u ++ v ≠ [] := by simp [hv]
  have hok : ∃ ts, m.tokenize (u ++ v) = .ok ts := by
    obtain ⟨uid, huid⟩ := Option.ne_none_iff_exists'.mp hu
    by_cases hl : ((u ++ v).length : Int) ≤ m.maxChars
    · by_cases hg : ∃ ps, Greedy m true (u ++ v) ps
      · obtain ⟨ps, hps⟩ := hg
        exact ⟨_, C34_greedy m _ hl ps hps⟩
      · have := C34_unknown m (u ++ v) (Or.inr fun ps hps => hg ⟨ps, hps⟩)
        rw [huid] at this
        exact ⟨_, this⟩
    · have := C34_unknown m (u ++ v) (Or.inl (by omega))
      rw [huid] at this
      exact ⟨_, this⟩
  obtain ⟨ts, hts⟩ := hok
  obtain ⟨e, h1, _, _, h4⟩ := C64_wordpiece_entries m hn hp hm (u ++ v) hs ha ts hts typeId
  obtain ⟨hne, hoff⟩ := wordPiece_offsets m (u ++ v) hs ts hts
  refine ⟨e, h1, by rw [h4]; simpa using hne, ?_⟩
  intro o ho
  rw [h4] at ho
  obtain ⟨x, hx, rfl⟩ := List.mem_map.mp ho
  obtain ⟨a, b, e1, e2, e3⟩ := hoff x hx
  simp only [wordPiecePlace, e1, Int.toNat_natCast, blen_nil, Nat.zero_add]
  have := charEnd_le u v (b - 1) (by omega)
  omega

/-- The texts of that kind: "ééa" has three characters, four bytes before the last. -/
example : let t : Tk := ⟨⟨[], fun _ => []⟩, ⟨[], fun _ => []⟩, none, none, some (wordPieceModel someWordPiece)⟩
    NoAdded t ("éé".toList ++ ['a']) ∧ someWordPiece.vocab someWordPiece.unk ≠ none ∧
      ("éé".toList ++ ['a']).length ≤ blen "éé".toList := by
  refine ⟨⟨rfl, rfl⟩, by decide, by decide⟩

/-- With the vocabulary "é", "##a" the second token of "éa" gets the place of "é". -/
example :
    let m : WordPiece := ⟨fun w => if w = ['é'] then some 0 else if w = ['#', '#', 'a'] then some 1 else none,
      ['?'], ['#', '#'], 100⟩
    let t : Tk := ⟨⟨[], fun _ => []⟩, ⟨[], fun _ => []⟩, none, none, some (wordPieceModel m)⟩
    okAnd (t.encodeSingle (.raw (encStr ['é', 'a'])) 0 .byte)
      (fun e => decide (e.tokens = [['é'], ['#', '#', 'a']] ∧ e.offsets = [(0, 2), (0, 2)])) = true := by
  decide +kernel

end Tok.PreTok
