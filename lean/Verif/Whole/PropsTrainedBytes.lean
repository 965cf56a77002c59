import Verif.Whole.PropsTrained
import Verif.PreTok.PropsByteBpe
import Verif.PreTok.Gpt2

/-!
# C141: a byte-level BPE tokenizer trained on any files gives every text back
-/

namespace Tok.Whole

open Tok.Norm Tok.PreTok Tok.Regex Tok.Train

/-- `ByteLevel.Alphabet` (pretokenizer/bytelevel.go:157-165), decoded to characters; the order of the map is one of
many. -/
def byteAlphabet : List Str := bytesCharMap.map (fun p => decStr p.2)

/-- A tokenizer without normalizer and with the pre-tokenizer ByteLevel. -/
structure ByteLevelTk (t : Tk) (a : Bool) (isL isN : Char → Bool) : Prop where
  normalizer : t.normalizer = none
  preTokenizer : t.preTokenizer = some (byteLevelPre a (gpt2Engine isL isN))

/-! ### Lemmas -/

theorem byteAlphabet_all (x : UInt8) : [alphabetChar x] ∈ byteAlphabet := by
  have h := (mem_bytesCharMap x _).2 rfl
  unfold byteAlphabet
  have := List.mem_map_of_mem (f := fun p : UInt8 × List UInt8 => decStr p.2) h
  have e : decStr (String.utf8EncodeChar (alphabetChar x)) = [alphabetChar x] := by
    have := decStr_enc [alphabetChar x]
    rwa [encStr_cons, encStr_nil, List.append_nil] at this
  simpa only [e] using this

theorem trained_byteTables {cfg : Cfg} {addr : Nat → Nat → Str} {wc : List (Str × Int)} {r : Trained} (hc : Train.Plain cfg)
    (hl : cfg.limitAlphabet = none) (ha : ∀ x ∈ byteAlphabet, x ∈ cfg.initialAlphabet) (h : Trains cfg addr wc r)
    (hk : ResultsKnown r) : ByteTables r.model := by
  refine ⟨?_, ?_, ?_⟩
  · obtain ⟨s, _, _, rfl⟩ := h
    show (cfg.pre).getD [] = []
    rw [hc.pre]; rfl
  · intro x
    obtain ⟨i, hi⟩ := Option.isSome_iff_exists.mp (C74_alphabet_known hc hl h _ (.inl (ha _ (byteAlphabet_all x))))
    exact ⟨i, hi, (C74_ids_round_trip hc h _ _).1 hi⟩
  · intro x y m p q hm hx hy
    cases hv : r.model.vocabR m.newId with
    | none => exact absurd hv (hk x y m hm)
    | some z => rw [(C75_merge_text hc h hm hx hy).2 z hv]

/-- ByteLevel gives words for every line. -/
theorem trainWords_bytes {t : Tk} {a : Bool} {isL isN : Char → Bool} (ht : ByteLevelTk t a isL isN) (hL : isL ' ' = false)
    (hN : isN ' ' = false) (s : Str) (hnul : a = true → s.head? ≠ some '\x00') :
    ∃ ws, trainWords t (encStr s) = .ok ws ∧ ws.flatten = byteLevelImage (encStr (prefixed a s)) := by
  by_cases hs : s = []
  · subst hs
    refine ⟨[], ?_, by simp [prefixed, byteLevelImage]⟩
    simp only [trainWords, lineNormalized, ht.normalizer, orFatal, Res.bind_ok, linePreTokenized, ht.preTokenizer, encStr_nil]
    have e : byteLevelPre a (gpt2Engine isL isN) ⟨(newNStr []).original, [⟨newNStr [], none⟩]⟩ = .ok ⟨[], []⟩ :=
      C66_empty a _
    rw [e]; rfl
  · obtain ⟨ys, bss, ms, h1, h2, h3, h4⟩ := byteLevelPre_fresh a (gpt2_proper isL isN) hs (fpart_whole s).2.1
      (newNStr (encStr s)).original hnul (fun _ h => gpt2_keeps isL isN hL hN hs h)
    obtain ⟨ls, hls⟩ := getSplits_ok (ys.map (fun y => (⟨y, none⟩ : Split))) 0
    have hl : PTS.getSplits ⟨(newNStr (encStr s)).original, ys.map (fun y => ⟨y, none⟩)⟩ .original .byte = .ok ls := hls
    refine ⟨ls.map (fun p => decStr p.value), ?_, ?_⟩
    · simp only [trainWords, lineNormalized, ht.normalizer, orFatal, Res.bind_ok, linePreTokenized, ht.preTokenizer, h1,
        hl, Res.pure_eq]
    · have e := C73_listed _ _ _ _ hl
      have e' : ls.map (fun p => decStr p.value) = ys.map (fun y => decStr y.normalized) := by
        have := congrArg (List.map (fun x : List UInt8 × Option (List Token) => decStr x.1)) e
        simpa [List.map_map, Function.comp_def] using this
      rw [e', ← (rights_prefixed a s).1, ← h2]
      clear e e' hl hls h1 h2 h4 ms
      generalize (newNStr (encStr s)).shift = k at h3
      induction ys generalizing k bss with
      | nil =>
        cases bss with
        | nil => rfl
        | cons b bss => exact h3.elim
      | cons y ys ih =>
        cases bss with
        | nil => exact h3.elim
        | cons b bss =>
          obtain ⟨_, g2, g3⟩ := h3
          simp only [List.map_cons, List.flatten_cons, rights_append, encStr_append, byteLevelImage_append, g2.text,
            decStr_enc, ih _ _ g3]

theorem each_imaged {k : Int} {bss : List (List (Str × Str))} {ys : List NStr} (h : Each Imaged k bss ys)
    (hne : ∀ b ∈ bss.flatten, b.1 ≠ [] ∧ b.2 ≠ []) :
    ys.map (·.normalized) = bss.map (fun b => encStr (byteLevelImage (encStr (rights b)))) ∧
    (∀ y ∈ ys, y.aligns.length = y.normalized.length) ∧
    ∀ w ∈ bss.map (fun b => encStr (rights b)), w ≠ [] := by
  induction ys generalizing k bss with
  | nil =>
    cases bss with
    | nil => exact ⟨rfl, by simp, by simp⟩
    | cons b bss => exact h.elim
  | cons y ys ih =>
    cases bss with
    | nil => exact h.elim
    | cons b bss =>
      obtain ⟨g1, g2, g3⟩ := h
      obtain ⟨i1, i2, i3⟩ := ih g3 (fun x hx => hne x (by
        rw [List.flatten_cons]; exact List.mem_append_right _ hx))
      refine ⟨by rw [List.map_cons, List.map_cons, i1, g2.text], ?_, ?_⟩
      · intro z hz
        rcases List.mem_cons.mp hz with rfl | hz
        · exact g2.lenA
        · exact i2 z hz
      · intro w hw
        rw [List.map_cons] at hw
        rcases List.mem_cons.mp hw with rfl | hw
        · cases b with
          | nil => exact absurd rfl g1
          | cons x b =>
            apply enc_ne
            rw [rights_cons]
            intro h0
            exact (hne x (by simp)).2 (List.append_eq_nil_iff.mp h0).1
        · exact i3 w hw

/-- The pieces of a text. -/
theorem bytes_ready {t : Tk} {a : Bool} {isL isN : Char → Bool} (ht : ByteLevelTk t a isL isN) (hL : isL ' ' = false)
    (hN : isN ' ' = false) (s : Str) (hno : NoAdded t s) (hnul : a = true → s.head? ≠ some '\x00') :
    ∃ (pt pt' : PTS) (ps : List (List UInt8)), t.extractAndNormalize (encStr s) = .ok pt ∧ t.doPreTokenize pt = .ok pt' ∧
      pt'.splits.map (fun sp => (sp.normalized.normalized, sp.tokens)) =
        (ps.map byteLevelImage).map (fun w => (encStr w, none)) ∧
      (∀ sp ∈ pt'.splits, sp.normalized.aligns.length = sp.normalized.normalized.length) ∧
      (∀ w ∈ ps, w ≠ []) ∧ ps.flatten = encStr (prefixed a s) := by
  by_cases hs : s = []
  · subst hs
    exact ⟨⟨[], []⟩, ⟨[], []⟩, [], by rw [encStr_nil]; exact extract_nil t, by
      simp only [Tk.doPreTokenize, ht.preTokenizer]; rfl, rfl, by simp, by simp, by simp [prefixed]⟩
  · obtain ⟨x, h1, h2⟩ := extract_none ht.normalizer hno hs
    obtain ⟨ys, bss, ms, p1, p2, p3, -⟩ := byteLevelPre_fresh a (gpt2_proper isL isN) hs h2.2.1 (encStr s) hnul
      (fun _ h => gpt2_keeps isL isN hL hN hs h)
    have hne := prefixedBlocks_ne a s
    rw [← p2] at hne
    obtain ⟨q1, q2, q3⟩ := each_imaged p3 hne
    refine ⟨_, ⟨encStr s, ys.map (fun y => ⟨y, none⟩)⟩, bss.map (fun b => encStr (rights b)), h1, ?_, ?_, ?_, q3, ?_⟩
    · simp only [Tk.doPreTokenize, ht.preTokenizer, p1]
    · dsimp only
      have := congrArg (List.map (fun x => (x, (none : Option (List Token))))) q1
      simpa [List.map_map, Function.comp_def] using this
    · intro sp hsp
      obtain ⟨y, hy, rfl⟩ := List.mem_map.mp hsp
      exact q2 y hy
    · rw [← (rights_prefixed a s).1, ← p2]
      clear p1 p2 p3 hne q1 q2 q3
      induction bss with
      | nil => rfl
      | cons b bss ih => rw [List.map_cons, List.flatten_cons, ih, List.flatten_cons, rights_append, encStr_append]

theorem image_flatten (ps : List (List UInt8)) : (ps.map byteLevelImage).flatten = byteLevelImage ps.flatten := by
  induction ps with
  | nil => rfl
  | cons p ps ih => rw [List.map_cons, List.flatten_cons, ih, List.flatten_cons, byteLevelImage_append]

/-! ### C141 -/

/-- C141 (training): training a byte-level tokenizer on any files of texts has a result. (Missing: lines that are not
UTF-8, and with a space in front lines that start with NUL.) -/
theorem C141_trains_partial (t : Tk) (a : Bool) (isL isN : Char → Bool) (ht : ByteLevelTk t a isL isN)
    (hL : isL ' ' = false) (hN : isN ' ' = false) (cfg : Cfg) (hc : Train.Plain cfg) (limit : Nat) (texts : List TextFile)
    (h : ∀ f ∈ texts, ∀ l ∈ f.lines, ∃ s : Str, l = encStr s ∧ (a = true → s.head? ≠ some '\x00')) :
    ∃ r, TrainedOn t cfg limit texts r := by
  apply C140_trains t cfg hc
  intro f hf l hl
  obtain ⟨s, rfl, hn⟩ := h f hf l hl
  obtain ⟨ws, h, _⟩ := trainWords_bytes ht hL hN s hn
  exact ⟨ws, h⟩

/-- C141 (every text): a byte-level tokenizer trained with the byte-level alphabet encodes every text, whatever it was
trained on: consecutive parts of the bytes of the text become one token each, and the token of a part is the
byte-level image of the part, unless its id has no text in the vocabulary. -/
theorem C141_every_text_partial (t t' : Tk) (a : Bool) (isL isN : Char → Bool) (ht : ByteLevelTk t a isL isN)
    (hL : isL ' ' = false) (hN : isN ' ' = false) (cfg : Cfg) (hc : Train.Plain cfg) (hl : cfg.limitAlphabet = none)
    (ha : ∀ x ∈ byteAlphabet, x ∈ cfg.initialAlphabet) (limit : Nat) (texts : List TextFile) (r : Trained)
    (htr : TrainedOn t cfg limit texts r) (H : Heap) (ht' : Retrained t t' H r) (s : Str) (hno : NoAdded t' s)
    (hnul : a = true → s.head? ≠ some '\x00') (typeId : Int) (ot : OffsetType) :
    ∃ (e : Encoding) (parts : List (Int × List UInt8)), t'.encodeSingle (.raw (encStr s)) typeId ot = .ok e ∧
      (parts.map (·.2)).flatten = encStr (prefixed a s) ∧ e.ids = parts.map (·.1) ∧
      e.tokens = parts.map (fun q => (r.model.vocabR q.1).getD []) ∧
      ∀ q ∈ parts, q.2 ≠ [] ∧ ∀ x, r.model.vocabR q.1 = some x → x = byteLevelImage q.2 := by
  obtain ⟨_, _, addr, wc, _, _, _, _, h5⟩ := htr
  have ht2 : ByteLevelTk t' a isL isN := ⟨by rw [ht'.normalizer]; exact ht.normalizer,
    by rw [ht'.preTokenizer]; exact ht.preTokenizer⟩
  obtain ⟨pt, pt', ps, e1, e2, e3, e4, e5, e6⟩ := bytes_ready ht2 hL hN s hno hnul
  have hknown : ∀ w ∈ ps.map byteLevelImage, ∀ c ∈ w, (r.model.vocab [c]).isSome := by
    intro w hw c hcw
    obtain ⟨bs, _, rfl⟩ := List.mem_map.mp hw
    obtain ⟨b, _, rfl⟩ := List.mem_map.mp hcw
    exact C74_alphabet_known hc hl h5 _ (.inl (ha _ (byteAlphabet_all b)))
  obtain ⟨e, parts, k1, k2, k3, k4, k5, _⟩ := trained_encode hc h5 ht'.model e1 e2 e3 e4 (by
    intro w hw
    obtain ⟨bs, hb, rfl⟩ := List.mem_map.mp hw
    have := e5 bs hb
    intro h0
    exact this (by simpa [byteLevelImage] using h0)) hknown typeId ot
  have himg : (ps.map byteLevelImage).flatten = byteLevelImage (encStr (prefixed a s)) := by
    rw [← e6]
    exact image_flatten ps
  rw [himg] at k2
  have key : ∀ (us : List (Int × Str)) (bs : List UInt8), (us.map (·.2)).flatten = byteLevelImage bs →
      ∃ vs : List (Int × List UInt8), (vs.map (·.2)).flatten = bs ∧ us = vs.map (fun q => (q.1, byteLevelImage q.2)) := by
    intro us
    induction us with
    | nil =>
      intro bs h
      refine ⟨[], ?_, rfl⟩
      have : byteLevelImage bs = [] := h.symm
      have : bs = [] := by simpa [byteLevelImage] using this
      rw [this]; rfl
    | cons u us ih =>
      intro bs h
      rw [List.map_cons, List.flatten_cons] at h
      unfold byteLevelImage at h
      obtain ⟨b1, b2, rfl, h1, h2⟩ := List.map_eq_append_iff.mp h.symm
      obtain ⟨vs, g1, g2⟩ := ih b2 h2.symm
      refine ⟨(u.1, b1) :: vs, by rw [List.map_cons, List.flatten_cons, g1], ?_⟩
      rw [List.map_cons, ← g2]
      simp only [byteLevelImage, h1]
  obtain ⟨vs, g1, rfl⟩ := key parts _ k2
  refine ⟨e, vs, k1, g1, by rw [k3, List.map_map]; rfl, by rw [k4, List.map_map]; rfl, ?_⟩
  intro q hq
  obtain ⟨j1, j2⟩ := k5 _ (List.mem_map_of_mem hq)
  exact ⟨fun h0 => j1 (by dsimp only; rw [h0]; rfl), j2⟩

/-- C141 (round trip): if every merge makes a token with a text, the tokens are the images of consecutive parts of the
bytes, decoding them gives the text back (with a space in front if the pre-tokenizer puts one there), and the offsets
of a token are those of the characters its bytes belong to. -/
theorem C141_round_trip_partial (t t' : Tk) (a : Bool) (isL isN : Char → Bool) (ht : ByteLevelTk t a isL isN)
    (hL : isL ' ' = false) (hN : isN ' ' = false) (cfg : Cfg) (hc : Train.Plain cfg) (hl : cfg.limitAlphabet = none)
    (ha : ∀ x ∈ byteAlphabet, x ∈ cfg.initialAlphabet) (limit : Nat) (texts : List TextFile) (r : Trained)
    (htr : TrainedOn t cfg limit texts r) (hk : ResultsKnown r) (H : Heap) (ht' : Retrained t t' H r) (s : Str)
    (hno : NoAdded t' s) (hnul : a = true → s.head? ≠ some '\x00') (typeId : Int) :
    ∃ (e : Encoding) (tb : List (List UInt8)),
      t'.encodeSingle (.raw (encStr s)) typeId .byte = .ok e ∧
      tb.flatten = encStr (prefixed a s) ∧ (∀ x ∈ tb, x ≠ []) ∧
      e.tokens = tb.map byteLevelImage ∧
      (∀ order : List (UInt8 × List UInt8), order.Perm bytesCharMap →
        byteLevelDecode (charBytes order) (e.tokens.map encStr) = encStr (prefixed a s)) ∧
      ('\x00' ∉ s → e.offsets = placesFrom (alignsOf (prefixedBlocks a s) 0) 0 tb) := by
  obtain ⟨_, _, addr, wc, _, _, _, _, h5⟩ := htr
  exact C67_bpe_partial a isL isN hL hN H (trained_byteTables hc hl ha h5 hk) (by rw [ht'.normalizer]; exact ht.normalizer)
    (by rw [ht'.preTokenizer]; exact ht.preTokenizer) ht'.model s hno hnul typeId

/-! ### A case -/

/-- A byte-level tokenizer, for letters of ASCII. -/
def bytesTk (model : Option (List UInt8 → Res (Option (List Token)))) : Tk :=
  ⟨⟨[], fun _ => []⟩, ⟨[], fun _ => []⟩, none, some (byteLevelPre false (gpt2Engine Char.isAlpha Char.isDigit)), model⟩

/-- A trainer with the byte-level alphabet. -/
def bytesCfg : Cfg := { newBpeTrainer 2 300 with initialAlphabet := byteAlphabet }

set_option maxRecDepth 100000 in
theorem bytesCfg_train : (train bytesCfg (fun _ _ => []) [(['a', 'b'], 3)] 5).map
    (fun r => (r.merges, r.model.vocabR 256)) = some ([((64, 65), ⟨0, 256⟩)], some ['a', 'b']) := by decide +kernel

/-- Trained on a file with the line "ab" three times, it learns one merge, with a text, and gives every text back. -/
example : ∃ r, TrainedOn (bytesTk none) bytesCfg 100 [⟨[encStr ['a', 'b'], encStr ['a', 'b'], encStr ['a', 'b']], false, true⟩] r ∧
    r.merges.length = 1 ∧ ResultsKnown r ∧
    ∀ (H : Heap) (s : Str), ∃ e, (bytesTk (some (bpeModel H r.model))).encodeSingle (.raw (encStr s)) 0 .byte = .ok e ∧
      byteLevelDecode (charBytes bytesCharMap) (e.tokens.map encStr) = encStr s := by
  have h := bytesCfg_train
  rw [Option.map_eq_some_iff] at h
  obtain ⟨r, h1, h2⟩ := h
  simp only [Prod.mk.injEq] at h2
  have htr := train_trains h1
  have htr2 : TrainedOn (bytesTk none) bytesCfg 100
      [⟨[encStr ['a', 'b'], encStr ['a', 'b'], encStr ['a', 'b']], false, true⟩] r := by
    refine trainedOn_of_counts (wordsOf := fun l => [decStr l]) (m := [(['a', 'b'], 3)]) ?_ ?_ ?_ (by decide +kernel) ?_ htr
    · intro f hf
      rw [List.mem_singleton] at hf
      subst hf
      refine ⟨?_, by simp⟩
      intro l hl
      have : l = encStr ['a', 'b'] := by simpa using hl
      subst this
      exact ⟨by decide +kernel, by decide +kernel⟩
    · intro f hf
      rw [List.mem_singleton] at hf
      subst hf
      decide +kernel
    · intro f hf l hl
      rw [List.mem_singleton] at hf
      subst hf
      have : l = encStr ['a', 'b'] := by simpa using hl
      subst this
      decide +kernel
    · intro w
      by_cases a1 : w = ['a', 'b']
      · subst a1; decide +kernel
      rw [if_pos (count_zero _ _ (fun f hf l hl hw => by
        rw [List.mem_singleton] at hf
        subst hf
        rw [List.mem_singleton] at hw
        have : l = encStr ['a', 'b'] := by simpa using hl
        subst this
        rw [decStr_enc] at hw
        exact a1 hw))]
      rw [mget_eq_none]
      simp [a1]
  have hmer : r.model.merges = fun a b => mget r.merges (a, b) := by
    obtain ⟨s, _, _, rfl⟩ := htr
    rfl
  have hk : ResultsKnown r := by
    intro a b v hv
    rw [hmer, h2.1] at hv
    have : v = ⟨0, 256⟩ := by
      simp only [mget] at hv
      split at hv
      · cases hv; rfl
      · cases hv
    rw [this, h2.2]
    simp
  have halph : ∀ x ∈ byteAlphabet, x ∈ bytesCfg.initialAlphabet := by
    intro x hx
    have e : bytesCfg.initialAlphabet = byteAlphabet := by simp only [bytesCfg]
    rw [e]
    exact hx
  refine ⟨r, htr2, by rw [h2.1]; rfl, hk, fun H s => ?_⟩
  obtain ⟨e, _, e1, _, _, _, e2, _⟩ := C141_round_trip_partial (bytesTk none) (bytesTk (some (bpeModel H r.model))) false
    Char.isAlpha Char.isDigit ⟨rfl, rfl⟩ (by decide) (by decide) bytesCfg ⟨rfl, rfl⟩ rfl halph 100 _ r htr2 hk H
    ⟨rfl, rfl, rfl⟩ s ⟨rfl, rfl⟩ (by simp) 0
  refine ⟨e, e1, ?_⟩
  have := e2 _ (.refl _)
  rwa [(C67_places s).1] at this

end Tok.Whole
