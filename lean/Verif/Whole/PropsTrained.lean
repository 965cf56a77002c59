import Verif.Whole.TrainLines
import Verif.Train.PropsRun

/-!
# C140: a tokenizer trained on text files encodes the texts made of what it was trained on
-/

namespace Tok.Whole

open Tok.Norm Tok.PreTok Tok.Regex Tok.Train

/-! ### Specification -/

/-- The character occurs in a word of the training files, or is of the alphabet that the trainer was given. -/
def Seen (t : Tk) (cfg : Cfg) (texts : List TextFile) (c : Char) : Prop :=
  [c] ∈ cfg.initialAlphabet ∨
    ∃ f ∈ texts, ∃ l ∈ f.lines, ∃ ws, trainWords t l = .ok ws ∧ ∃ w ∈ ws, c ∈ w

/-- The tokenizer after training: the same normalizer and pre-tokenizer, and the trained model. -/
structure Retrained (t t' : Tk) (H : Heap) (r : Trained) : Prop where
  normalizer : t'.normalizer = t.normalizer
  preTokenizer : t'.preTokenizer = t.preTokenizer
  model : t'.model = some (bpeModel H r.model)

/-- Every merge makes a token that has a text. -/
def ResultsKnown (r : Trained) : Prop := ∀ a b v, r.model.merges a b = some v → r.model.vocabR v.newId ≠ none

/-! ### Lemmas -/

theorem dict_words {t : Tk} {limit : Nat} {texts : List TextFile} (hpl : ∀ f ∈ texts, f.Plain)
    (hsz : ∀ f ∈ texts, f.bytes.length ≤ limit) {wordsOf : List UInt8 → List Str} {st : TrainSt} {wc : List (Str × Int)}
    (h1 : ∀ f ∈ texts, ∀ l ∈ f.lines, trainWords t l = .ok (wordsOf l))
    (h2 : Star (TrainStep wordsOf limit (texts.map TextFile.bytes)) (TrainSt.init limit (texts.map TextFile.bytes)) st)
    (h3 : st.finished = true) (h4 : wc.Perm (st.dict.map (fun e => (e.1, (e.2 : Int))))) (w : Str) :
    (∃ e ∈ wc, e.1 = w) ↔ ∃ f ∈ texts, ∃ l ∈ f.lines, ∃ ws, trainWords t l = .ok ws ∧ w ∈ ws := by
  have hd := C47_counts_partial wordsOf limit texts hpl hsz st h2 h3 w
  constructor
  · rintro ⟨e, he, rfl⟩
    obtain ⟨d, hd1, rfl⟩ := List.mem_map.mp (h4.mem_iff.mp he)
    apply Classical.byContradiction
    intro hno
    rw [if_pos (count_zero wordsOf texts (fun f hf l hl hw => hno ⟨f, hf, l, hl, _, h1 f hf l hl, hw⟩))] at hd
    have hmem : ∀ (m : List (Str × Nat)) (k : Str) (v : Nat), (k, v) ∈ m → mget m k ≠ none := by
      intro m k v
      induction m with
      | nil => intro h; cases h
      | cons p m ih =>
        intro h hx
        obtain ⟨a, b⟩ := p
        rw [mget] at hx
        split at hx
        · cases hx
        · next hne =>
          rcases List.mem_cons.mp h with h | h
          · cases h; exact hne (by simp)
          · exact ih h hx
    exact hmem _ _ _ hd1 hd
  · rintro ⟨f, hf, l, hl, ws, hws, hw⟩
    rw [h1 f hf l hl] at hws
    cases hws
    rw [if_neg (expectedCount_pos wordsOf texts hf hl hw)] at hd
    exact ⟨_, h4.mem_iff.mpr (List.mem_map_of_mem (mem_of_mget hd)), rfl⟩

/-- After training, exactly the characters seen have a token of their own. -/
theorem trained_chars {t : Tk} {cfg : Cfg} {limit : Nat} {texts : List TextFile} {r : Trained} (hc : Train.Plain cfg)
    (hl : cfg.limitAlphabet = none) (hpl : ∀ f ∈ texts, f.Plain) (hsz : ∀ f ∈ texts, f.bytes.length ≤ limit)
    (h : TrainedOn t cfg limit texts r) (c : Char) : (r.model.vocab [c]).isSome ↔ Seen t cfg texts c := by
  obtain ⟨wordsOf, st, addr, wc, h1, h2, h3, h4, h5⟩ := h
  have hd := dict_words hpl hsz h1 h2 h3 h4
  constructor
  · intro hk
    obtain ⟨s, hr, _, rfl⟩ := h5
    rcases mem_of_keptChars ((char_known_iff hc hr c).1 hk) with h | ⟨e, he, d, hd1, h⟩
    · exact Or.inl h
    · obtain ⟨f, hf, l, hl, ws, hws, hw⟩ := (hd e.1).1 ⟨e, he, rfl⟩
      cases h
      exact Or.inr ⟨f, hf, l, hl, ws, hws, e.1, hw, hd1⟩
  · intro hs
    apply C74_alphabet_known hc hl h5
    rcases hs with h | ⟨f, hf, l, hl, ws, hws, w, hw, hcw⟩
    · exact Or.inl h
    · obtain ⟨e, he, rfl⟩ := (hd w).2 ⟨f, hf, l, hl, ws, hws, hw⟩
      exact Or.inr ⟨e, he, c, hcw, rfl⟩

/-- What a trained tokenizer makes of a text with known pieces. -/
theorem trained_encode {cfg : Cfg} {addr : Nat → Nat → Str} {wc : List (Str × Int)} {r : Trained} (hc : Train.Plain cfg)
    (h5 : Trains cfg addr wc r) {t : Tk} {H : Heap} (ht : t.model = some (bpeModel H r.model)) {s : Str} {pt pt' : PTS}
    {ps : List Str} (e1 : t.extractAndNormalize (encStr s) = .ok pt) (e3 : t.doPreTokenize pt = .ok pt')
    (e4 : pt'.splits.map (fun sp => (sp.normalized.normalized, sp.tokens)) = ps.map (fun w => (encStr w, none)))
    (e5 : ∀ sp ∈ pt'.splits, sp.normalized.aligns.length = sp.normalized.normalized.length) (hne : ∀ w ∈ ps, w ≠ [])
    (hseen : ∀ w ∈ ps, ∀ c ∈ w, (r.model.vocab [c]).isSome) (typeId : Int) (ot : OffsetType) :
    ∃ (e : Encoding) (parts : List (Int × Str)), t.encodeSingle (.raw (encStr s)) typeId ot = .ok e ∧
      (parts.map (·.2)).flatten = ps.flatten ∧ e.ids = parts.map (·.1) ∧
      e.tokens = parts.map (fun q => (r.model.vocabR q.1).getD []) ∧
      (∀ q ∈ parts, q.2 ≠ [] ∧ ∀ x, r.model.vocabR q.1 = some x → x = q.2) ∧
      (ResultsKnown r → e.tokens.flatten = ps.flatten ∧ (∀ x ∈ e.tokens, x ≠ []) ∧
        e.tokens.map r.model.vocab = e.ids.map some) := by
  have hone : ∀ w ∈ ps, _ := fun w hw =>
    trained_pieces hc h5 H w (hseen w hw)
  have hall : ∀ w, ∃ (qs : List (Int × Str)) (ts : List Token), w ∈ ps →
      bpeModel H r.model (encStr w) = .ok (some ts) ∧
      (qs.map (·.2)).flatten = w ∧ (∀ q ∈ qs, q.2 ≠ [] ∧ (∀ x, r.model.vocabR q.1 = some x → x = q.2) ∧
        (ResultsKnown r → r.model.vocabR q.1 = some q.2)) ∧
      ts.map (·.offsets) = spansFrom 0 (qs.map (·.2)) ∧ ts.map (·.id) = qs.map (·.1) ∧
      ts.map (·.value) = qs.map (fun q => (r.model.vocabR q.1).getD []) := by
    intro w
    by_cases hw : w ∈ ps
    · obtain ⟨qs, ts, h⟩ := hone w hw
      exact ⟨qs, ts, fun _ => h⟩
    · exact ⟨[], [], fun h => absurd h hw⟩
  let Q : Str → List (Int × Str) := fun w => (hall w).choose
  let T : Str → List Token := fun w => (hall w).choose_spec.choose
  have hQT : ∀ w ∈ ps, bpeModel H r.model (encStr w) = .ok (some (T w)) ∧
      ((Q w).map (·.2)).flatten = w ∧ (∀ q ∈ Q w, q.2 ≠ [] ∧ (∀ x, r.model.vocabR q.1 = some x → x = q.2) ∧
        (ResultsKnown r → r.model.vocabR q.1 = some q.2)) ∧
      (T w).map (·.offsets) = spansFrom 0 ((Q w).map (·.2)) ∧ (T w).map (·.id) = (Q w).map (·.1) ∧
      (T w).map (·.value) = (Q w).map (fun q => (r.model.vocabR q.1).getD []) :=
    fun w hw => (hall w).choose_spec.choose_spec hw
  obtain ⟨e, k1, k2, k3, _⟩ := held_encode (tok := T) e1 e3 e4 e5 (by
    intro w hw
    obtain ⟨f1, f2, f3, f4, f5, _⟩ := hQT w hw
    refine ⟨_, ht, f1, ?_, ?_⟩
    · intro h0
      rw [h0] at f5
      have : Q w = [] := by simpa using f5.symm
      rw [this] at f2
      exact hne w hw f2.symm
    · intro x hx
      have : x.offsets ∈ (T w).map (·.offsets) := List.mem_map_of_mem hx
      rw [f4] at this
      exact mem_spansFrom _ _ _ this) typeId ot
  have key : ∀ us : List Str, (∀ w ∈ us, w ∈ ps) →
      ((us.flatMap Q).map (·.2)).flatten = us.flatten ∧
      (us.flatMap T).map (·.id) = (us.flatMap Q).map (·.1) ∧
      (us.flatMap T).map (·.value) = (us.flatMap Q).map (fun q => (r.model.vocabR q.1).getD []) ∧
      ∀ q ∈ us.flatMap Q, q.2 ≠ [] ∧ (∀ x, r.model.vocabR q.1 = some x → x = q.2) ∧
        (ResultsKnown r → r.model.vocabR q.1 = some q.2) := by
    intro us
    induction us with
    | nil => intro _; exact ⟨rfl, rfl, rfl, by simp⟩
    | cons w us ih =>
      intro hps
      obtain ⟨i1, i2, i3, i4⟩ := ih (fun v hv => hps v (by simp [hv]))
      obtain ⟨f1, f2, f3, f4, f5, f6⟩ := hQT w (hps w (by simp))
      refine ⟨?_, ?_, ?_, ?_⟩
      · rw [List.flatMap_cons, List.map_append, List.flatten_append, i1, f2, List.flatten_cons]
      · rw [List.flatMap_cons, List.map_append, i2, f5, List.flatMap_cons, List.map_append]
      · rw [List.flatMap_cons, List.map_append, i3, f6, List.flatMap_cons, List.map_append]
      · intro q hq
        rw [List.flatMap_cons] at hq
        rcases List.mem_append.mp hq with hq | hq
        · exact f3 q hq
        · exact i4 q hq
  obtain ⟨j1, j2, j3, j4⟩ := key _ (fun w hw => hw)
  refine ⟨e, ps.flatMap Q, k1, j1, by rw [k2, j2], by rw [k3, j3],
    fun q hq => ⟨(j4 q hq).1, (j4 q hq).2.1⟩, fun hkn => ?_⟩
  have hto : e.tokens = (ps.flatMap Q).map (·.2) := by
    rw [k3, j3]
    apply List.map_congr_left
    intro q hq
    rw [(j4 q hq).2.2 hkn]
    rfl
  refine ⟨by rw [hto, j1], ?_, ?_⟩
  · intro x hx
    rw [hto] at hx
    obtain ⟨q, hq, rfl⟩ := List.mem_map.mp hx
    exact (j4 q hq).1
  · rw [hto, k2, j2, List.map_map, List.map_map]
    apply List.map_congr_left
    intro q hq
    exact (C74_ids_round_trip hc h5 _ _).2 ((j4 q hq).2.2 hkn)

/-! ### C140 -/

/-- C140 (training ends): if no line ends the process, training has a result, whatever the schedule of the goroutines. -/
theorem C140_trains (t : Tk) (cfg : Cfg) (hc : Train.Plain cfg) (limit : Nat) (texts : List TextFile)
    (h : ∀ f ∈ texts, ∀ l ∈ f.lines, ∃ ws, trainWords t l = .ok ws) : ∃ r, TrainedOn t cfg limit texts r := by
  let W : List UInt8 → List Str := fun l => match trainWords t l with | .ok ws => ws | _ => []
  obtain ⟨st, h1, h2⟩ := train_completes (wordsOf := W) (limit := limit) (files := texts.map TextFile.bytes) _
    (TrainOk.init _ _) (TrainFiles.init _ _)
  obtain ⟨r, hr⟩ := C76_result_exists hc (fun _ _ => []) (st.dict.map (fun e => (e.1, (e.2 : Int))))
  refine ⟨r, W, st, _, _, ?_, h1, h2, .refl _, hr⟩
  intro f hf l hl
  obtain ⟨ws, hws⟩ := h f hf l hl
  simp only [W, hws]

/-- C140: a tokenizer trained with a BPE trainer encodes every text all of whose characters, after normalization and
pre-tokenization, were seen in training: consecutive parts of the pieces of the text become one token each, and the
token of a part is the part itself, unless its id has no text in the vocabulary (then it is empty). If every merge
makes a token with a text, the tokens put together are the pieces of the text, and the ids are those of the tokens.
Missing: prefixes and suffixes, a limit on the alphabet, dropout, larger files, texts with added tokens, offsets. -/
theorem C140_known_partial (t t' : Tk) (cfg : Cfg) (hc : Train.Plain cfg) (hl : cfg.limitAlphabet = none) (limit : Nat)
    (texts : List TextFile) (hpl : ∀ f ∈ texts, f.Plain) (hsz : ∀ f ∈ texts, f.bytes.length ≤ limit) (r : Trained)
    (htr : TrainedOn t cfg limit texts r) (H : Heap) (ht : Retrained t t' H r) (s u : Str) (g : Str → List Str)
    (hn : Normalizes t' s u) (hg : CutsInto t' g) (h1 : t'.splitRe.engine (encStr s) = [])
    (h2 : t'.splitNormalizedRe.engine (encStr u) = []) (hne : ∀ w ∈ piecesOf g s u, w ≠ [])
    (hseen : ∀ w ∈ piecesOf g s u, ∀ c ∈ w, Seen t cfg texts c) (typeId : Int) (ot : OffsetType) :
    ∃ (e : Encoding) (parts : List (Int × Str)), t'.encodeSingle (.raw (encStr s)) typeId ot = .ok e ∧
      (parts.map (·.2)).flatten = (piecesOf g s u).flatten ∧ e.ids = parts.map (·.1) ∧
      e.tokens = parts.map (fun q => (r.model.vocabR q.1).getD []) ∧
      (∀ q ∈ parts, q.2 ≠ [] ∧ ∀ x, r.model.vocabR q.1 = some x → x = q.2) ∧
      (ResultsKnown r → e.tokens.flatten = (piecesOf g s u).flatten ∧ (∀ x ∈ e.tokens, x ≠ []) ∧
        e.tokens.map r.model.vocab = e.ids.map some) := by
  have hk := fun c => trained_chars hc hl hpl hsz htr c
  obtain ⟨_, _, addr, wc, _, _, _, _, h5⟩ := htr
  obtain ⟨pt, pt', e1, e3, e4⟩ := pieces_ready hn h1 h2 hg
  exact trained_encode hc h5 ht.model e1 e3 (by rw [e4.texts, List.map_map]; rfl) (fun sp hsp => (e4.wf sp hsp).lenA) hne
    (fun w hw c hcw => (hk c).2 (hseen w hw c hcw)) typeId ot

/-- C140 (its own lines): in particular it encodes every line of the files it was trained on. -/
theorem C140_lines_partial (t t' : Tk) (cfg : Cfg) (hc : Train.Plain cfg) (hl : cfg.limitAlphabet = none) (limit : Nat)
    (texts : List TextFile) (hpl : ∀ f ∈ texts, f.Plain) (hsz : ∀ f ∈ texts, f.bytes.length ≤ limit) (r : Trained)
    (htr : TrainedOn t cfg limit texts r) (H : Heap) (ht : Retrained t t' H r) (s u : Str) (p : PTS → Res PTS)
    (g : Str → List Str) (f : TextFile) (hf : f ∈ texts) (hs : encStr s ∈ f.lines)
    (hn : Normalizes t s u) (hp : t.preTokenizer = some p) (hg : CutsTexts p g) (h1 : t'.splitRe.engine (encStr s) = [])
    (h2 : t'.splitNormalizedRe.engine (encStr u) = []) (typeId : Int) (ot : OffsetType) :
    ∃ (e : Encoding) (parts : List (Int × Str)), t'.encodeSingle (.raw (encStr s)) typeId ot = .ok e ∧
      (parts.map (·.2)).flatten = (piecesOf g s u).flatten ∧ e.ids = parts.map (·.1) ∧
      e.tokens = parts.map (fun q => (r.model.vocabR q.1).getD []) ∧
      (∀ q ∈ parts, q.2 ≠ [] ∧ ∀ x, r.model.vocabR q.1 = some x → x = q.2) ∧
      (ResultsKnown r → e.tokens.flatten = (piecesOf g s u).flatten ∧ (∀ x ∈ e.tokens, x ≠ []) ∧
        e.tokens.map r.model.vocab = e.ids.map some) := by
  have hn' : Normalizes t' s u := by
    unfold Normalizes
    rw [ht.normalizer]
    exact hn
  refine C140_known_partial t t' cfg hc hl limit texts hpl hsz r htr H ht s u g hn'
    (.inr ⟨p, by rw [ht.preTokenizer]; exact hp, hg⟩) h1 h2 ?_ ?_ typeId ot
  · intro w hw
    obtain ⟨pt, pt', _, _, e⟩ := pieces_ready hn' h1 h2 (.inr ⟨p, by rw [ht.preTokenizer]; exact hp, hg⟩)
    exact e.filled _ (List.mem_map_of_mem hw) rfl
  · intro w hw c hcw
    unfold piecesOf at hw
    split at hw
    · cases hw
    · next hne =>
      have h := trainWords_pieces hp hg hn (fun h => hne (Or.inl h)) (fun h => hne (Or.inr h))
      exact Or.inr ⟨f, hf, _, hs, _, h, w, hw, hcw⟩

/-- C140 (unseen): a trained model has no unknown token. If a piece of a text has a character that was not seen in
training, encoding the text ends the process. -/
theorem C140_unseen (t t' : Tk) (cfg : Cfg) (hc : Train.Plain cfg) (hl : cfg.limitAlphabet = none) (limit : Nat)
    (texts : List TextFile) (hpl : ∀ f ∈ texts, f.Plain) (hsz : ∀ f ∈ texts, f.bytes.length ≤ limit) (r : Trained)
    (htr : TrainedOn t cfg limit texts r) (H : Heap) (ht : Retrained t t' H r) (s u : Str) (g : Str → List Str)
    (hn : Normalizes t' s u) (hg : CutsInto t' g) (h1 : t'.splitRe.engine (encStr s) = [])
    (h2 : t'.splitNormalizedRe.engine (encStr u) = [])
    (hbad : ∃ w ∈ piecesOf g s u, ∃ c ∈ w, ¬ Seen t cfg texts c) (typeId : Int) (ot : OffsetType) :
    t'.encodeSingle (.raw (encStr s)) typeId ot = .panic := by
  have hk := fun c => trained_chars hc hl hpl hsz htr c
  obtain ⟨_, _, addr, wc, _, _, _, _, h5⟩ := htr
  obtain ⟨pt, pt', e1, e3, e4⟩ := pieces_ready hn h1 h2 hg
  obtain ⟨fn, hfn, hdo⟩ := doTokenize_fn t'
  have hdie : ∀ w, ∀ c ∈ w, ¬ Seen t cfg texts c → bpeModel H r.model (encStr w) = .panic := by
    intro w c hcw hns
    have hu : r.model.vocab [c] = none := by
      cases hv : r.model.vocab [c] with
      | none => rfl
      | some i => exact absurd ((hk c).1 (by rw [hv]; rfl)) hns
    simp only [bpeModel, decStr_enc, C75_unknown_char_fatal hc h5 H w hcw hu, Res.bind_panic]
  have hloop : tokenizeLoop fn pt'.splits = .panic := by
    refine tokenizeLoop_dies (m := fun w => bpeModel H r.model (encStr w)) (piecesOf g s u) pt'.splits
      (by rw [e4.texts, List.map_map]; rfl) ?_ ?_
    · intro w hw
      refine ⟨?_, fun n hnw => by rw [hfn _ ht.model n, hnw]⟩
      by_cases hall : ∀ c ∈ w, Seen t cfg texts c
      · obtain ⟨qs, ts, h, _⟩ := trained_pieces hc h5 H w (fun c hc => (hk c).2 (hall c hc))
        exact Or.inr ⟨_, h⟩
      · left
        apply Classical.byContradiction
        intro hx
        exact hall (fun c hcw => Classical.byContradiction (fun hns => hx (hdie w c hcw hns)))
    · obtain ⟨w, hw, c, hcw, hns⟩ := hbad
      exact ⟨w, hw, hdie w c hcw hns⟩
  simp only [Tk.encodeSingle, Tk.encodeOne, e1, Res.bind_ok, e3, hdo, PTS.tokenize, hloop, Res.bind_panic]

/-- C140 is violated by tokenizers without a pre-tokenizer: they encode texts (as one piece), but training them ends
the process at the first line of the first file. -/
theorem C140_no_pretokenizer_violated (t : Tk) (hp : t.preTokenizer = none) :
    (∀ l, trainWords t l = .panic) ∧
    (∀ pt, t.doPreTokenize pt = .ok pt) ∧
    ∀ cfg limit texts r, (∃ f ∈ texts, f.lines ≠ []) → ¬ TrainedOn t cfg limit texts r := by
  have hdie : ∀ l, trainWords t l = .panic := by
    intro l
    unfold trainWords
    cases lineNormalized t l with
    | ok n => simp only [orFatal, Res.bind_ok, linePreTokenized, hp, Res.bind_panic]
    | err => rfl
    | panic => rfl
  refine ⟨hdie, fun pt => by simp only [Tk.doPreTokenize, hp], ?_⟩
  rintro cfg limit texts r ⟨f, hf, hl⟩ ⟨wordsOf, _, _, _, h, _⟩
  cases hls : f.lines with
  | nil => exact hl hls
  | cons l ls =>
    have := h f hf l (by rw [hls]; simp)
    rw [hdie l] at this
    cases this

/-- A tokenizer that splits at spaces. -/
def spaceTk (model : Option (List UInt8 → Res (Option (List Token)))) : Tk :=
  ⟨⟨[], fun _ => []⟩, ⟨[], fun _ => []⟩, none, some (whitespaceSplit (· == ' ')), model⟩

theorem spaceTk_word {w : Str} (hw : w ≠ []) (hg : (runs (fun a b => !(a == ' ') && !(b == ' ')) w).filter
    (fun w => !w.any (· == ' ')) = [w]) : trainWords (spaceTk none) (encStr w) = .ok [w] := by
  rw [trainWords_pieces (t := spaceTk none) (u := w) rfl (C72_whitespaceSplit (· == ' ')) (.inl ⟨rfl, rfl⟩) hw hw, hg]

/-- C140 is violated by merges that make the same text: the vocabulary keeps only the last id. A tokenizer trained on
this file encodes `abcd`, a line of the file, to one token with an id that is not in the vocabulary and no text. -/
theorem C140_lost_violated : let s : Str := ['a', 'b', 'c', 'd']
    let file : TextFile := ⟨[encStr s, encStr s, encStr ('y' :: s), encStr ('y' :: s), encStr ('y' :: s), encStr ('z' :: s),
      encStr ('z' :: s), encStr ('z' :: s), encStr ['x', 'a', 'b', 'c'], encStr ['x', 'a', 'b', 'c'],
      encStr ['x', 'a', 'b', 'c']], false, true⟩
    ∃ r, TrainedOn (spaceTk none) (newBpeTrainer 2 100) 100 [file] r ∧ ∀ H : Heap, ∃ e id,
      (spaceTk (some (bpeModel H r.model))).encodeSingle (.raw (encStr s)) 0 .byte = .ok e ∧
      e.ids = [id] ∧ r.model.vocabR id = none ∧ e.tokens = [[]] := by
  intro s file
  obtain ⟨r, h1, _, h3⟩ := dupWords_lost (fun _ _ => [])
  have hlines : ∀ l ∈ file.lines, l = encStr s ∨ l = encStr ('y' :: s) ∨ l = encStr ('z' :: s) ∨
      l = encStr ['x', 'a', 'b', 'c'] := by
    intro l hl
    simp only [file, List.mem_cons, List.not_mem_nil, or_false] at hl
    rcases hl with h | h | h | h | h | h | h | h | h | h | h <;> simp [h]
  refine ⟨r, ?_, ?_⟩
  · refine trainedOn_of_counts (wordsOf := fun l => [decStr l])
      (m := [(s, 2), ('y' :: s, 3), ('z' :: s, 3), (['x', 'a', 'b', 'c'], 3)]) ?_ ?_ ?_ (by decide +kernel) ?_ h1
    · intro f hf
      rw [List.mem_singleton] at hf
      subst hf
      refine ⟨?_, by simp [file]⟩
      intro l hl
      rcases hlines l hl with rfl | rfl | rfl | rfl <;> exact ⟨by decide +kernel, by decide +kernel⟩
    · intro f hf
      rw [List.mem_singleton] at hf
      subst hf
      decide +kernel
    · intro f hf l hl
      rw [List.mem_singleton] at hf
      subst hf
      rcases hlines l hl with rfl | rfl | rfl | rfl <;> rw [decStr_enc] <;>
        exact spaceTk_word (by simp [s]) (by decide +kernel)
    · intro w
      by_cases a1 : w = s
      · subst a1; decide +kernel
      by_cases a2 : w = 'y' :: s
      · subst a2; decide +kernel
      by_cases a3 : w = 'z' :: s
      · subst a3; decide +kernel
      by_cases a4 : w = ['x', 'a', 'b', 'c']
      · subst a4; decide +kernel
      rw [if_pos (count_zero _ _ (fun f hf l hl hw => by
        rw [List.mem_singleton] at hf
        subst hf
        rw [List.mem_singleton] at hw
        rcases hlines l hl with rfl | rfl | rfl | rfl <;> rw [decStr_enc] at hw
        · exact a1 hw
        · exact a2 hw
        · exact a3 hw
        · exact a4 hw))]
      rw [mget_eq_none]
      simp [a1, a2, a3, a4]
  · intro H
    obtain ⟨ss, id, m1, m2, m3⟩ := h3 H
    have hmodel : bpeModel H r.model (encStr s) = .ok (some [⟨id, [], (0, 4)⟩]) := by
      simp only [bpeModel, decStr_enc]
      rw [m1, Res.bind_ok]
      simp only [m2]
      rfl
    have hp : piecesOf (fun s => (runs (fun a b => !(a == ' ') && !(b == ' ')) s).filter (fun w => !w.any (· == ' '))) s s =
        [s] := by decide +kernel
    obtain ⟨e, e1, e2, e3, _⟩ := C100_pieces (spaceTk (some (bpeModel H r.model))) s s _
      (fun _ => [⟨id, [], (0, 4)⟩]) (.inl ⟨rfl, rfl⟩) rfl rfl (.inr ⟨_, rfl, C72_whitespaceSplit (· == ' ')⟩) (by
        rw [hp]
        intro w hw
        rw [List.mem_singleton] at hw
        subst hw
        refine ⟨_, rfl, hmodel, by simp, ?_⟩
        intro x hx
        rw [List.mem_singleton] at hx
        subst hx
        exact ⟨by simp, by simp⟩) 0 .byte
    rw [hp] at e2 e3
    exact ⟨e, id, e1, e2, m3, e3⟩

/-! ### A case -/

/-- Trained on a file with the lines "ab c" and "a", it has a result, and with every result the line "ab c" is
encoded, "cab" too, and "d" ends the process. -/
example : let texts : List TextFile := [⟨[encStr ['a', 'b', ' ', 'c'], encStr ['a']], false, true⟩]
    (∃ r, TrainedOn (spaceTk none) (newBpeTrainer 0 30) 100 texts r) ∧
    ∀ r, TrainedOn (spaceTk none) (newBpeTrainer 0 30) 100 texts r → ∀ H : Heap,
      (∃ e, (spaceTk (some (bpeModel H r.model))).encodeSingle (.raw (encStr ['a', 'b', ' ', 'c'])) 0 .byte = .ok e ∧
        (ResultsKnown r → e.tokens.flatten = ['a', 'b', 'c'])) ∧
      (∃ e, (spaceTk (some (bpeModel H r.model))).encodeSingle (.raw (encStr ['c', 'a', 'b'])) 0 .byte = .ok e) ∧
      (spaceTk (some (bpeModel H r.model))).encodeSingle (.raw (encStr ['d'])) 0 .byte = .panic := by
  intro texts
  have hcut := C72_whitespaceSplit (· == ' ')
  have w1 : trainWords (spaceTk none) (encStr ['a', 'b', ' ', 'c']) = .ok [['a', 'b'], ['c']] := by
    rw [trainWords_pieces (t := spaceTk none) (u := ['a', 'b', ' ', 'c']) rfl hcut (.inl ⟨rfl, rfl⟩) (by simp) (by simp)]
    decide +kernel
  have w2 : trainWords (spaceTk none) (encStr ['a']) = .ok [['a']] := by
    rw [trainWords_pieces (t := spaceTk none) (u := ['a']) rfl hcut (.inl ⟨rfl, rfl⟩) (by simp) (by simp)]
    decide +kernel
  have hplain : ∀ f ∈ texts, f.Plain := by
    intro f hf
    simp only [texts, List.mem_singleton] at hf
    subst hf
    refine ⟨?_, by simp⟩
    intro l hl
    simp only [List.mem_cons, List.not_mem_nil, or_false] at hl
    rcases hl with rfl | rfl <;> exact ⟨by decide +kernel, by decide +kernel⟩
  have hsz : ∀ f ∈ texts, f.bytes.length ≤ 100 := by decide +kernel
  refine ⟨C140_trains _ _ ⟨rfl, rfl⟩ _ _ ?_, ?_⟩
  · intro f hf l hl
    simp only [texts, List.mem_singleton] at hf
    subst hf
    simp only [List.mem_cons, List.not_mem_nil, or_false] at hl
    rcases hl with rfl | rfl
    · exact ⟨_, w1⟩
    · exact ⟨_, w2⟩
  · intro r hr H
    have hre : Retrained (spaceTk none) (spaceTk (some (bpeModel H r.model))) H r := ⟨rfl, rfl, rfl⟩
    have hseen : ∀ c ∈ ['a', 'b', 'c'], Seen (spaceTk none) (newBpeTrainer 0 30) texts c := by
      intro c hc
      refine .inr ⟨_, by simp only [texts]; exact List.mem_singleton_self _, _, List.mem_cons_self, _, w1, ?_⟩
      simp only [List.mem_cons, List.not_mem_nil, or_false] at hc
      rcases hc with rfl | rfl | rfl <;> simp
    refine ⟨?_, ?_, ?_⟩
    · obtain ⟨e, ps, h1, _, _, _, _, h2⟩ := C140_lines_partial (spaceTk none) (spaceTk (some (bpeModel H r.model)))
        (newBpeTrainer 0 30) ⟨rfl, rfl⟩ rfl 100 texts hplain hsz r hr H hre ['a', 'b', ' ', 'c'] ['a', 'b', ' ', 'c'] _ _
        _ (by simp only [texts]; exact List.mem_singleton_self _) (by simp) (.inl ⟨rfl, rfl⟩) rfl hcut rfl rfl 0 .byte
      refine ⟨e, h1, fun hk => ?_⟩
      rw [(h2 hk).1]
      decide +kernel
    · obtain ⟨e, ps, h1, _⟩ := C140_known_partial (spaceTk none) (spaceTk (some (bpeModel H r.model)))
        (newBpeTrainer 0 30) ⟨rfl, rfl⟩ rfl 100 texts hplain hsz r hr H hre ['c', 'a', 'b'] ['c', 'a', 'b'] _
        (.inl ⟨rfl, rfl⟩) (.inr ⟨_, rfl, hcut⟩) rfl rfl (by decide +kernel) (by
          intro w hw c hc
          apply hseen
          have : ∀ w ∈ piecesOf (fun s => (runs (fun a b => !(a == ' ') && !(b == ' ')) s).filter
            (fun w => !w.any (· == ' '))) ['c', 'a', 'b'] ['c', 'a', 'b'], ∀ c ∈ w, c ∈ ['a', 'b', 'c'] := by
            decide +kernel
          exact this w hw c hc) 0 .byte
      exact ⟨e, h1⟩
    · refine C140_unseen (spaceTk none) (spaceTk (some (bpeModel H r.model)))
        (newBpeTrainer 0 30) ⟨rfl, rfl⟩ rfl 100 texts hplain hsz r hr H hre ['d'] ['d'] _
        (.inl ⟨rfl, rfl⟩) (.inr ⟨_, rfl, hcut⟩) rfl rfl ⟨['d'], by decide +kernel, 'd', by simp, ?_⟩ 0 .byte
      rintro (h | ⟨f, hf, l, hl, ws, hws, w, hw, hd⟩)
      · simp [newBpeTrainer] at h
      · simp only [texts, List.mem_singleton] at hf
        subst hf
        simp only [List.mem_cons, List.not_mem_nil, or_false] at hl
        rcases hl with rfl | rfl
        · rw [w1] at hws
          cases hws
          simp only [List.mem_cons, List.not_mem_nil, or_false] at hw
          rcases hw with rfl | rfl <;> simp at hd
        · rw [w2] at hws
          cases hws
          simp only [List.mem_cons, List.not_mem_nil, or_false] at hw
          subst hw
          simp at hd

end Tok.Whole
