import Verif.PreTok.ByteRows

/-!
# C67: byte-level BPE from text to encoding and back
-/

namespace Tok.PreTok

open Tok.Norm

/-- What a byte-level tokenizer gives for a text; all entries come from the model. -/
theorem byteTk_encode {t : Tk} {a : Bool} {engine : List UInt8 → List (Nat × Nat)} (h : ByteTk t a engine)
    (he : ProperEngine engine) (s : Str) (hno : NoAdded t s) (hnul : a = true → s.head? ≠ some '\x00')
    (hsp : s ≠ [] → a = true → s.head? ≠ some ' ' → KeepsSpace engine s) (typeId : Int) :
    ∃ (e : Encoding) (tb : List (List UInt8)),
      t.encodeSingle (.raw (encStr s)) typeId .byte = .ok e ∧
      tb.flatten = encStr (prefixed a s) ∧ (∀ x ∈ tb, x ≠ []) ∧
      e.tokens = tb.map byteLevelImage ∧
      ('\x00' ∉ s → e.offsets = placesFrom (alignsOf (prefixedBlocks a s) 0) 0 tb) ∧
      ∃ rows : List Row, e = ofRows rows typeId ∧
        ∀ r ∈ rows, ∃ f bs ts, t.model = some f ∧ f bs = .ok (some ts) ∧ r.token ∈ ts := by
  obtain ⟨f, hf, hm⟩ := h.model
  by_cases hs : s = []
  · subst hs
    refine ⟨Encoding.default, [], ?_, by simp [prefixed], by simp, rfl, fun _ => rfl, [], default_ofRows typeId, by simp⟩
    have hpre : byteLevelPre a engine ⟨[], []⟩ = .ok ⟨[], []⟩ := rfl
    simp only [Tk.encodeSingle, Tk.encodeOne, encStr_nil, extract_nil, Tk.doPreTokenize, h.preTokenizer, hpre,
      Res.bind_ok, Tk.doTokenize, PTS.tokenize, tokenizeLoop, PTS.intoEncoding, if_true]
    have := merge_ofRows typeId [[]] []
    rw [default_ofRows typeId]
    simpa using this
  · obtain ⟨x, h1, h2⟩ := extract_none h.normalizer hno hs
    obtain ⟨ys, bss, ms, p1, p2, p3, -⟩ := byteLevelPre_fresh a he hs h2.2.1 (encStr s) hnul (hsp hs)
    have hk : x.shift = ((0 : Nat) : Int) := h2.2.2
    rw [hk] at p3
    obtain ⟨ss, rows, tb, e1, e2, e3, e4, e5, e6, e7, e8, e9⟩ := rows_each hm (-1) ys 0 bss 0 p3 (by
      rw [p2]; exact prefixedBlocks_ne a s)
    obtain ⟨hr, _⟩ := rights_prefixed a s
    rw [p2, hr] at e5 e8
    refine ⟨ofRows rows typeId, tb, ?_, e5, e6, e7, ?_, rows, rfl, ?_⟩
    · have hone : t.encodeOne (encStr s) typeId (-1) .byte = .ok (ofRows rows typeId) := by
        simp only [Tk.encodeOne, h1, Tk.doPreTokenize, h.preTokenizer, p1, Res.bind_ok, Tk.doTokenize, PTS.tokenize,
          hf, e1, PTS.intoEncoding]
        split
        · next hss =>
          rw [hss] at e4
          simp only [rowsOfSplits, Res.ok.injEq] at e4
          rw [← e4]; rfl
        · rw [if_neg (by rw [e3]; simp)]
          simp only [charMap, e4, Res.bind_ok]
          rfl
      simp only [Tk.encodeSingle, hone, Res.bind_ok]
      have := merge_ofRows typeId [rows] []
      rw [default_ofRows typeId]
      simpa using this
    · intro hn
      apply e8
      unfold prefixed
      split
      · intro hx
        rcases List.mem_cons.mp hx with hx | hx
        · exact absurd hx (by decide)
        · exact hn hx
      · exact hn
    · intro r hr
      obtain ⟨bs, ts, k1, k2⟩ := e9 r hr
      exact ⟨f, bs, ts, hf, k1, k2⟩

/-- C67 (general form): any model that cuts the image of bytes into images of pieces. -/
theorem C67_model_partial {t : Tk} {a : Bool} {engine : List UInt8 → List (Nat × Nat)} (h : ByteTk t a engine)
    (he : ProperEngine engine) (s : Str) (hno : NoAdded t s) (hnul : a = true → s.head? ≠ some '\x00')
    (hsp : s ≠ [] → a = true → s.head? ≠ some ' ' → KeepsSpace engine s) (typeId : Int) :
    ∃ (e : Encoding) (tb : List (List UInt8)),
      t.encodeSingle (.raw (encStr s)) typeId .byte = .ok e ∧
      tb.flatten = encStr (prefixed a s) ∧ (∀ x ∈ tb, x ≠ []) ∧
      e.tokens = tb.map byteLevelImage ∧
      ('\x00' ∉ s → e.offsets = placesFrom (alignsOf (prefixedBlocks a s) 0) 0 tb) := by
  obtain ⟨e, tb, h1, h2, h3, h4, h5, _⟩ := byteTk_encode h he s hno hnul hsp typeId
  exact ⟨e, tb, h1, h2, h3, h4, h5⟩

/-- C67 (round trip and places): a byte-level BPE tokenizer whose tables contain the byte-level
alphabet encodes every text in which no added token occurs. Its tokens are the images of
consecutive pieces of the bytes of the text (with a space in front if wanted), `ByteLevel.Decode`
of the tokens gives these bytes back, and (for texts without NUL) the offsets of a token go from
the start of the character its first byte belongs to, to the end of the one its last byte belongs
to; the space put in front belongs to the first character. -/
theorem C67_bpe_partial {t : Tk} (a : Bool) (isL isN : Char → Bool) (hL : isL ' ' = false) (hN : isN ' ' = false)
    (H : Heap) {b : BpeModel} (hb : ByteTables b) (hn : t.normalizer = none)
    (hp : t.preTokenizer = some (byteLevelPre a (gpt2Engine isL isN))) (hm : t.model = some (bpeModel H b))
    (s : Str) (hno : NoAdded t s) (hnul : a = true → s.head? ≠ some '\x00') (typeId : Int) :
    ∃ (e : Encoding) (tb : List (List UInt8)),
      t.encodeSingle (.raw (encStr s)) typeId .byte = .ok e ∧
      tb.flatten = encStr (prefixed a s) ∧ (∀ x ∈ tb, x ≠ []) ∧
      e.tokens = tb.map byteLevelImage ∧
      (∀ order : List (UInt8 × List UInt8), order.Perm bytesCharMap →
        byteLevelDecode (charBytes order) (e.tokens.map encStr) = encStr (prefixed a s)) ∧
      ('\x00' ∉ s → e.offsets = placesFrom (alignsOf (prefixedBlocks a s) 0) 0 tb) := by
  obtain ⟨e, tb, h1, h2, h3, h4, h5⟩ := C67_model_partial ⟨hn, hp, _, hm, byteModel_bpe H hb⟩ (gpt2_proper isL isN) s hno hnul
    (fun hs _ h => gpt2_keeps isL isN hL hN hs h) typeId
  refine ⟨e, tb, h1, h2, h3, h4, ?_, h5⟩
  intro order ho
  apply C26_decode order ho
  rw [← h2, h4]
  clear h1 h2 h3 h4 h5
  induction tb with
  | nil => rfl
  | cons x tb ih =>
    simp only [List.map_cons, List.flatten_cons, byteLevelImage_append, encStr_append]
    rw [ih]

/-- Without a space in front, the places are those of the characters of the text. -/
theorem C67_places (s : Str) : prefixed false s = s ∧ alignsOf (prefixedBlocks false s) 0 = byteRanges s 0 := by
  constructor
  · simp [prefixed]
  · cases s with
    | nil => rfl
    | cons c t => simp only [prefixedBlocks]; rw [if_neg (by simp), byteRanges_blocks]

theorem exampleBpe_bytes : ByteTables exampleBpe := by
  refine ⟨rfl, ?_, ?_⟩
  · intro x
    refine ⟨((alphabetChar x).toNat : Int), rfl, ?_⟩
    unfold exampleBpe
    dsimp only
    rw [if_neg (by omega)]
    simp
  · intro x y m p q h hp hq
    simp only [exampleBpe] at h hp hq ⊢
    split at h
    · next hxy =>
      cases h
      obtain ⟨rfl, rfl⟩ := hxy
      simp at hp hq
      subst hp hq
      rfl
    · cases h

/-- The hypotheses of `C67_bpe_partial` are met, for every text. -/
example (s : Str) : ∃ e, (⟨⟨[], fun _ => []⟩, ⟨[], fun _ => []⟩, none,
      some (byteLevelPre false (gpt2Engine (fun c => decide ('a' ≤ c ∧ c ≤ 'z')) (fun _ => false))),
      some (bpeModel listHeap exampleBpe)⟩ : Tk).encodeSingle (.raw (encStr s)) 0 .byte = .ok e ∧
    byteLevelDecode (charBytes bytesCharMap) (e.tokens.map encStr) = encStr s := by
  obtain ⟨e, tb, h1, _, _, _, h5, _⟩ := C67_bpe_partial false (fun c => decide ('a' ≤ c ∧ c ≤ 'z')) (fun _ => false)
    (by decide) rfl listHeap exampleBpe_bytes (t := ⟨⟨[], fun _ => []⟩, ⟨[], fun _ => []⟩, none,
      some (byteLevelPre false (gpt2Engine (fun c => decide ('a' ≤ c ∧ c ≤ 'z')) (fun _ => false))),
      some (bpeModel listHeap exampleBpe)⟩) rfl rfl rfl s ⟨rfl, rfl⟩ (by intro h; cases h) 0
  exact ⟨e, h1, by rw [h5 _ (List.Perm.refl _), (C67_places s).1]⟩

/-- With a space in front: "éab" becomes " é" (two tokens for its two bytes, and one for the space)
and "ab"; all three tokens of " é" are placed at "é". -/
example : okAnd ((⟨⟨[], fun _ => []⟩, ⟨[], fun _ => []⟩, none,
      some (byteLevelPre true (gpt2Engine (fun c => decide ('a' ≤ c ∧ c ≤ 'z')) (fun _ => false))),
      some (bpeModel listHeap exampleBpe)⟩ : Tk).encodeSingle (.raw (encStr ['é', 'a', 'b'])) 0 .byte)
    (fun e => decide (e.tokens = [['Ġ'], ['Ã'], ['©'], ['a', 'b']] ∧
      e.offsets = [(0, 2), (0, 2), (0, 2), (2, 4)])) = true := by decide +kernel

end Tok.PreTok
