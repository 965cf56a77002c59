import Verif.Whole.Props

/-!
# C98: character offsets of whole encodings
-/

namespace Tok.Whole

open Tok.Norm Tok.PreTok

/-! ### Specification -/

/-- The pre-tokenizer leaves the text that the splits are of. -/
def KeepsOriginal (t : Tk) : Prop := ∀ f, t.preTokenizer = some f → ∀ pt pt', f pt = .ok pt' → pt'.original = pt.original

/-! ### Lemmas -/

theorem charOffsets_nil (o : Int × Int) : charOffsets [] o = o := rfl

theorem rowsOfTokens_map {n : NStr} {word : Int} {ts : List Token} {rs : List Row} (m : List (Int × Nat))
    (h : rowsOfTokens [] n word ts = .ok rs) :
    rowsOfTokens m n word ts = .ok (rs.map (fun r => { r with offsets := charOffsets m r.offsets })) := by
  induction ts generalizing rs with
  | nil => cases h; rfl
  | cons t ts ih =>
    simp only [rowsOfTokens] at h ⊢
    obtain ⟨o, h1, h⟩ := Res.bind_eq_ok.mp h
    obtain ⟨rest, h2, h⟩ := Res.bind_eq_ok.mp h
    cases h
    simp only [h1, ih h2, Res.bind_ok, List.map_cons, charOffsets_nil]

theorem rowsOfSplits_map {word : Int} {ss : List Split} {i : Nat} {rs : List Row} (m : List (Int × Nat))
    (h : rowsOfSplits [] word ss i = .ok rs) :
    rowsOfSplits m word ss i = .ok (rs.map (fun r => { r with offsets := charOffsets m r.offsets })) := by
  induction ss generalizing i rs with
  | nil => cases h; rfl
  | cons s ss ih =>
    simp only [rowsOfSplits] at h ⊢
    obtain ⟨r1, h1, h⟩ := Res.bind_eq_ok.mp h
    obtain ⟨rest, h2, h⟩ := Res.bind_eq_ok.mp h
    cases h
    simp only [rowsOfTokens_map m h1, ih h2, Res.bind_ok, List.map_append]

theorem split_original {pt pt' : PTS} {fn : Nat → NStr → Res (List SplitIdx)} (h : pt.split fn = .ok pt') :
    pt'.original = pt.original := by
  unfold PTS.split at h
  obtain ⟨ss, _, h⟩ := Res.bind_eq_ok.mp h
  cases h
  rfl

theorem tokenize_original {pt pt' : PTS} {fn : NStr → Res (Option (List Token))} (h : pt.tokenize fn = .ok pt') :
    pt'.original = pt.original := by
  unfold PTS.tokenize at h
  obtain ⟨ss, _, h⟩ := Res.bind_eq_ok.mp h
  cases h
  rfl

theorem extract_original {t : Tk} {s : List UInt8} {pt : PTS} (h : t.extractAndNormalize s = .ok pt) :
    pt.original = s := by
  unfold Tk.extractAndNormalize at h
  obtain ⟨p1, h1, h⟩ := Res.bind_eq_ok.mp h
  rw [split_original h, split_original h1]
  rfl

theorem intoEncoding_chars {pt : PTS} {typeId word : Int} {e : Encoding} (h : pt.intoEncoding typeId word .byte = .ok e) :
    ∃ rows, e = ofRows rows typeId ∧ pt.intoEncoding typeId word .char =
      .ok (ofRows (rows.map (fun r => { r with offsets := charOffsets (charMap .char pt.original) r.offsets })) typeId) := by
  unfold PTS.intoEncoding at h ⊢
  by_cases h0 : pt.splits = []
  · rw [if_pos h0] at h ⊢
    cases h
    exact ⟨[], rfl, rfl⟩
  · rw [if_neg h0] at h ⊢
    by_cases h1 : (pt.splits.any (fun s => (s.tokens.getD []).isEmpty)) = true
    · rw [if_pos h1] at h
      cases h
    · rw [if_neg h1] at h ⊢
      obtain ⟨rows, h2, h⟩ := Res.bind_eq_ok.mp h
      cases h
      refine ⟨rows, rfl, ?_⟩
      have h3 : rowsOfSplits [] word pt.splits 0 = .ok rows := h2
      rw [rowsOfSplits_map _ h3]
      simp only [Res.bind_ok]
      rfl

theorem encodeOne_chars {t : Tk} (hk : KeepsOriginal t) {s : List UInt8} {typeId word : Int} {e : Encoding}
    (h : t.encodeOne s typeId word .byte = .ok e) :
    ∃ rows, e = ofRows rows typeId ∧ t.encodeOne s typeId word .char =
      .ok (ofRows (rows.map (fun r => { r with offsets := charOffsets (charMap .char s) r.offsets })) typeId) := by
  unfold Tk.encodeOne at h ⊢
  obtain ⟨n, h1, h⟩ := Res.bind_eq_ok.mp h
  obtain ⟨p, h2, h⟩ := Res.bind_eq_ok.mp h
  simp only [h1, h2, Res.bind_ok]
  unfold Tk.doTokenize at h ⊢
  obtain ⟨q, h3, h⟩ := Res.bind_eq_ok.mp h
  simp only [h3, Res.bind_ok]
  obtain ⟨rows, h4, h5⟩ := intoEncoding_chars h
  have ho : q.original = s := by
    rw [tokenize_original h3, ← extract_original h1]
    unfold Tk.doPreTokenize at h2
    cases hp : t.preTokenizer with
    | none => rw [hp] at h2; cases h2; rfl
    | some f => rw [hp] at h2; exact hk f hp _ _ h2
  rw [ho] at h5
  exact ⟨rows, h4, h5⟩

theorem encodeSingle_chars {t : Tk} (hk : KeepsOriginal t) {s : List UInt8} {typeId : Int} {e : Encoding}
    (h : t.encodeSingle (.raw s) typeId .byte = .ok e) :
    ∃ rows, e = ofRows rows typeId ∧ t.encodeSingle (.raw s) typeId .char =
      .ok (ofRows (rows.map (fun r => { r with offsets := charOffsets (charMap .char s) r.offsets })) typeId) := by
  simp only [Tk.encodeSingle] at h ⊢
  obtain ⟨x, h1, h⟩ := Res.bind_eq_ok.mp h
  simp only [Res.bind_ok] at h
  obtain ⟨rows, rfl, h2⟩ := encodeOne_chars hk h1
  have h3 := merge_ofRows typeId [rows] []
  rw [default_ofRows typeId] at h ⊢
  have h4 : (ofRows [] typeId).merge [ofRows rows typeId] false = .ok (ofRows rows typeId) := by simpa using h3
  rw [h4] at h
  cases h
  refine ⟨rows, rfl, ?_⟩
  simp only [h2, Res.bind_ok]
  simpa using merge_ofRows typeId [rows.map (fun r => { r with offsets := charOffsets (charMap .char s) r.offsets })] []

theorem charOffsets_inside (g w b : Str) (hw : w ≠ []) (hb : b ≠ []) :
    charOffsets (charMap .char (encStr (g ++ w ++ b))) (((blen g : Nat) : Int), ((blen (g ++ w) : Nat) : Int)) =
      ((g.length : Int), ((g ++ w).length : Int)) := by
  obtain ⟨c, w', rfl⟩ := List.exists_cons_of_ne_nil hw
  obtain ⟨d, z, rfl⟩ := List.exists_cons_of_ne_nil hb
  have e1 := charMap_boundary g c (w' ++ d :: z)
  have e2 := charMap_boundary (g ++ c :: w') d z
  have hs : g ++ c :: (w' ++ d :: z) = g ++ c :: w' ++ d :: z := by simp
  rw [hs] at e1
  simp only [charOffsets, e1, e2]

theorem charOffsets_end (g w : Str) (hw : w ≠ []) :
    charOffsets (charMap .char (encStr (g ++ w))) (((blen g : Nat) : Int), ((blen (g ++ w) : Nat) : Int)) =
      ((g.length : Int), ((g ++ w).length : Int) - 1) := by
  obtain ⟨c, w', hc⟩ := List.exists_cons_of_ne_nil hw
  obtain ⟨y, d, hy⟩ : ∃ y d, g ++ w = y ++ [d] := by
    rcases List.eq_nil_or_concat (g ++ w) with h0 | ⟨y, d, h0⟩
    · simp [hw] at h0
    · exact ⟨y, d, by simp [h0]⟩
  have e1 := charMap_boundary g c w'
  rw [← hc] at e1
  have e2 : (charMap .char (encStr (g ++ w))).lookup ((blen (g ++ w) : Nat) : Int) = none := by
    rw [charMap_lookup, if_neg (by omega)]
  have hd := d.utf8Size_pos
  have hbs : blen (g ++ w) = blen y + d.utf8Size := by rw [hy, blen_append]; simp
  have e3 : (charMap .char (encStr (g ++ w))).lookup (((blen (g ++ w) : Nat) : Int) - 1) = some y.length := by
    have := b2cGet_inside y d [] (d.utf8Size - 1) (by omega)
    rw [← hy] at this
    unfold b2cGet b2c at this
    rw [if_neg (by omega), runes_encStr] at this
    rw [charMap_lookup, if_pos (by omega), ← this]
    congr 1
    omega
  have hl : (g ++ w).length = y.length + 1 := by rw [hy]; simp
  simp only [charOffsets, e1, e2, e3]
  congr 1
  omega

/-! ### C98 -/

/-- C98 (the part that holds): for every text on which `EncodeSingleSequence` succeeds with byte offsets it
succeeds with character offsets; all entries but the offsets are the same; and for an entry whose byte offsets
enclose a piece `w` of the text that is not at its end, the character offsets enclose the same piece.
Missing: pieces at the end of the text (`C98_end_violated`), offsets that enclose nothing. -/
theorem C98_chars_partial (t : Tk) (hk : KeepsOriginal t) (s : Str) (typeId : Int) (e : Encoding)
    (h : t.encodeSingle (.raw (encStr s)) typeId .byte = .ok e) :
    ∃ e', t.encodeSingle (.raw (encStr s)) typeId .char = .ok e' ∧
      (∀ f, f ≠ .offsets → e'.arr f = e.arr f) ∧ e'.offsets.length = e.offsets.length ∧
      ∀ (k : Nat) (g w b : Str), s = g ++ w ++ b → w ≠ [] → b ≠ [] →
        e.offsets[k]? = some (((blen g : Nat) : Int), ((blen (g ++ w) : Nat) : Int)) →
        e'.offsets[k]? = some ((g.length : Int), ((g ++ w).length : Int)) := by
  obtain ⟨rows, rfl, h2⟩ := encodeSingle_chars hk h
  refine ⟨_, h2, ?_, by simp [ofRows], ?_⟩
  · intro f hf
    cases f <;> first | exact absurd rfl hf | simp [ofRows, Encoding.arr]
  · intro k g w b hs hw hb ho
    subst hs
    simp only [ofRows, List.getElem?_map, Option.map_map, Option.map_eq_some_iff] at ho ⊢
    obtain ⟨r, hr, ho⟩ := ho
    refine ⟨r, hr, ?_⟩
    simp only [Function.comp, ho, charOffsets_inside g w b hw hb]

/-- C98 is violated at the end of every text: an entry whose byte offsets enclose a piece at the end of the
text has character offsets that leave out the last character. -/
theorem C98_end_violated (t : Tk) (hk : KeepsOriginal t) (s : Str) (typeId : Int) (e : Encoding)
    (h : t.encodeSingle (.raw (encStr s)) typeId .byte = .ok e) :
    ∃ e', t.encodeSingle (.raw (encStr s)) typeId .char = .ok e' ∧
      ∀ (k : Nat) (g w : Str), s = g ++ w → w ≠ [] →
        e.offsets[k]? = some (((blen g : Nat) : Int), ((blen (g ++ w) : Nat) : Int)) →
        e'.offsets[k]? = some ((g.length : Int), ((g ++ w).length : Int) - 1) := by
  obtain ⟨rows, rfl, h2⟩ := encodeSingle_chars hk h
  refine ⟨_, h2, ?_⟩
  intro k g w hs hw ho
  subst hs
  simp only [ofRows, List.getElem?_map, Option.map_map, Option.map_eq_some_iff] at ho ⊢
  obtain ⟨r, hr, ho⟩ := ho
  refine ⟨r, hr, ?_⟩
  simp only [Function.comp, ho, charOffsets_end g w hw]

/-- So a tokenizer that takes a text of one character as one token locates it nowhere. -/
example : okAnd (sample.tk.encodeSingle (.raw (encStr "é".toList)) 0 .byte) (fun e => e.offsets = [(0, 2)]) = true ∧
    okAnd (sample.tk.encodeSingle (.raw (encStr "é".toList)) 0 .char) (fun e => e.offsets = [(0, 0)]) = true := by
  decide +kernel

/-- C98 (whole tokenizers): without truncation, padding and post-processor, `EncodeCharOffsets` gives the entries
of `Encode` except for the offsets. -/
theorem C98_whole_partial (t : Tokenizer) (htr : t.trunc = none) (hpad : t.padding = none) (hproc : BertOrNone t)
    (hk : KeepsOriginal t.tk) (s : Str) (special : Bool) :
    ∀ r, t.encode (.single (.raw (encStr s))) special = .ok (some r) →
      ∃ r', t.encodeWith .char (.single (.raw (encStr s))) special = .ok (some r') ∧
        ∀ f, f ≠ .offsets → r'.arr f = r.arr f := by
  intro r hr
  simp only [Tokenizer.encode, Tokenizer.encodeWith] at hr ⊢
  obtain ⟨e, he, hr⟩ := Res.bind_eq_ok.mp hr
  obtain ⟨e', he', hsame, _⟩ := C98_chars_partial t.tk hk s 0 e he
  simp only [he', Res.bind_ok]
  simp only [postProcess, postTruncate, htr, hpad, Res.bind_ok] at hr ⊢
  rcases hproc with h | ⟨bp, h⟩
  · rw [h] at hr ⊢
    simp only [defaultProcess, Res.bind_ok, Res.ok.injEq, Option.some.injEq] at hr ⊢
    subst hr
    exact ⟨e', rfl, hsame⟩
  · rw [h] at hr ⊢
    cases special with
    | false =>
      simp only [Bert.toProcessor, (C22_bert_plain bp e).1, (C22_bert_plain bp e').1, Res.bind_ok, Res.ok.injEq,
        Option.some.injEq] at hr ⊢
      subst hr
      exact ⟨e', rfl, hsame⟩
    | true =>
      obtain ⟨x, h1, h2, _⟩ := C22_bert_single bp e
      obtain ⟨x', h1', h2', _⟩ := C22_bert_single bp e'
      simp only [Bert.toProcessor, h1, h1', Res.bind_ok, Res.ok.injEq, Option.some.injEq] at hr ⊢
      subst hr
      refine ⟨x', rfl, ?_⟩
      intro f hf
      have hids := hsame .ids (by simp)
      simp only [Encoding.arr] at hids
      rw [h2 f, h2' f, bertSingle, bertSingle]
      congr 2
      have := hsame f hf
      cases f <;> simp only [plainArr, hids] <;> first | rfl | exact this

end Tok.Whole
