import Verif.Config.CreateModel
import Verif.Files.PropsMerges

/-!
# C69: models from a configuration
-/

namespace Tok.Config

open Files (Merges createMerges mergeLine)

/-! ### How the parts of a configuration are written in tokenizer.json -/

/-- A vocabulary: an object of numbers. -/
def vocabVal (v : List (Str × Int)) : Val := .obj (v.map (fun e => (e.1, .float e.2)))

/-- A field that is absent, null or a value. -/
def IsOpt (m : List (Str × Val)) (k : String) (f : α → Val) (o : Option α) : Prop :=
  get m k = match o with
    | some x => f x
    | none => .null

/-- One merge: a line with a space or an array of two strings. -/
inductive MergeVal : Val → Str × Str → Prop
  | line (a b : Str) : MergeVal (.str (a ++ ' ' :: b)) (a, b)
  | pair (a b : Str) : MergeVal (.arr [.str a, .str b]) (a, b)

/-- Merges, one after the other. -/
inductive MergeVals : List Val → List (Str × Str) → Prop
  | nil : MergeVals [] []
  | cons (v : Val) (e : Str × Str) (vs : List Val) (es : List (Str × Str)) :
      MergeVal v e → MergeVals vs es → MergeVals (v :: vs) (e :: es)

/-- A Unigram vocabulary: an array of arrays of a token and its score. -/
def scoresVal (v : List (Str × Rat)) : Val := .arr (v.map (fun e => .arr [.str e.1, .float e.2]))

/-- The type that a configuration asks for: the one given, or else the one of the decoder. -/
inductive Asks (model decoder : List (Str × Val)) : String → Prop
  | given (s : String) : get model "type" = .str s.toList → Asks model decoder s
  | byteLevel : get model "type" = .null → get decoder "type" = .str "ByteLevel".toList → Asks model decoder "BPE"
  | decoder (s : String) : s = "WordPiece" ∨ s = "WordLevel" ∨ s = "Unigram" → get model "type" = .null →
      get decoder "type" = .str s.toList → Asks model decoder s
  | nothing : get model "type" = .null → get decoder "type" = .null → Asks model decoder "BPE"

/-! ### Helpers -/

theorem has_iff (m : List (Str × Val)) (k : String) : has m k = true ↔ get m k ≠ .null := by
  unfold has get
  cases lookup m k with
  | none => simp
  | some v => cases v <;> simp

theorem opt_null {m : List (Str × Val)} {k : String} {cast : Val → Res α} (h : get m k = .null) :
    opt m k cast = .ok none := by
  unfold opt
  rw [if_neg]
  rw [has_iff]
  exact fun hn => hn h

theorem opt_some {m : List (Str × Val)} {k : String} {cast : Val → Res α} {v : Val} {x : α} (h : get m k = v)
    (hv : v ≠ .null) (hc : cast v = .ok x) : opt m k cast = .ok (some x) := by
  unfold opt
  rw [if_pos ((has_iff m k).mpr (h ▸ hv)), h, hc]
  rfl

theorem opt_panic {m : List (Str × Val)} {k : String} {cast : Val → Res α} (h : get m k ≠ .null)
    (hc : cast (get m k) = .panic) : opt m k cast = .panic := by
  unfold opt
  rw [if_pos ((has_iff m k).mpr h), hc]
  rfl

theorem opt_str {m : List (Str × Val)} {k : String} {o : Option Str} (h : IsOpt m k .str o) :
    opt m k asStr = .ok o := by
  cases o with
  | none => exact opt_null h
  | some s => exact opt_some (v := .str s) h (by simp) rfl

theorem opt_num {m : List (Str × Val)} {k : String} {o : Option Rat} (h : IsOpt m k .float o) :
    opt m k asNum = .ok o := by
  cases o with
  | none => exact opt_null h
  | some s => exact opt_some (v := .float s) h (by simp) rfl

theorem opt_bool {m : List (Str × Val)} {k : String} {o : Option Bool} (h : IsOpt m k .bool o) :
    opt m k asBool = .ok o := by
  cases o with
  | none => exact opt_null h
  | some s => exact opt_some (v := .bool s) h (by simp) rfl

theorem opt_float {m : List (Str × Val)} {k : String} {o : Option Int}
    (h : IsOpt m k (fun i : Int => .float i) o) : opt m k asFloat = .ok o := by
  cases o with
  | none => exact opt_null h
  | some s => exact opt_some (v := .float s) h (by simp) (by simp only [asFloat, truncInt_int])

theorem castVocab_ok (v : List (Str × Int)) : castVocab (v.map (fun e => (e.1, .float e.2))) = .ok v := by
  induction v with
  | nil => rfl
  | cons e v ih =>
    rw [List.map_cons, castVocab, ih]
    simp only [asFloat, truncInt_int, Res.bind_ok]

theorem castMerge_ok {vs : List Val} {es : List (Str × Str)} (h : MergeVals vs es) :
    castMerge vs = .ok (es.map mergeLine) := by
  induction h with
  | nil => rfl
  | cons v e vs es hv _ ih =>
    rw [castMerge, ih]
    cases hv <;> rfl

theorem castScores_ok (v : List (Str × Rat)) :
    castScores (v.map (fun e => .arr [.str e.1, .float e.2])) = .ok (v.map (fun e => (encStr e.1, e.2))) := by
  induction v with
  | nil => rfl
  | cons e v ih =>
    rw [List.map_cons, castScores]
    simp only [asArr, asStr, asNum, ih, Res.bind_ok, List.map_cons]

/-- The function that a type leads to. -/
theorem asks_create {model decoder : List (Str × Val)} {s : String} (h : Asks model decoder s) :
    (s = "BPE" → createModel model decoder = createBpe model) ∧
    (s = "WordPiece" → createModel model decoder = createWordPiece model) ∧
    (s = "WordLevel" → createModel model decoder = createWordLevel model) ∧
    (s = "Unigram" → createModel model decoder = createUnigram model) := by
  have key : ∀ s, Asks model decoder s → createModel model decoder =
      (if s.toList = "BPE".toList then createBpe model
      else if s.toList = "WordPiece".toList then createWordPiece model
      else if s.toList = "WordLevel".toList then createWordLevel model
      else if s.toList = "Unigram".toList then createUnigram model
      else .err) := by
    intro s h
    unfold createModel
    cases h with
    | given _ h =>
      rw [opt_str (o := some s.toList) h]
      simp only [Res.bind_ok]
    | byteLevel h1 h2 =>
      rw [opt_null h1]
      simp only [Res.bind_ok, guessType]
      rw [opt_str (o := some "ByteLevel".toList) h2]
      rfl
    | decoder _ hs h1 h2 =>
      rw [opt_null h1]
      simp only [Res.bind_ok, guessType]
      rw [opt_str (o := some s.toList) h2]
      rcases hs with rfl | rfl | rfl <;> rfl
    | nothing h1 h2 =>
      rw [opt_null h1]
      simp only [Res.bind_ok, guessType]
      rw [opt_null h2]
      rfl
  refine ⟨?_, ?_, ?_, ?_⟩ <;> (rintro rfl; rw [key _ h]; rfl)

/-! ### Reverse vocabulary -/

theorem reverseVocab_some (v : List (Str × Int)) (i : Int) (t : Str) : reverseVocab v i = some t → (t, i) ∈ v := by
  have : ∀ (v : List (Str × Int)) (r : Int → Option Str),
      v.foldl (fun r e => fun i => if i = e.2 then some e.1 else r i) r i = some t → (t, i) ∈ v ∨ r i = some t := by
    intro v
    induction v with
    | nil => intro r h; exact .inr h
    | cons e v ih =>
      intro r h
      rw [List.foldl_cons] at h
      rcases ih _ h with h | h
      · exact .inl (List.mem_cons_of_mem _ h)
      · by_cases hi : i = e.2
        · rw [if_pos hi] at h
          injection h with h
          left
          rw [hi, ← h]
          exact List.mem_cons_self ..
        · rw [if_neg hi] at h
          exact .inr h
  intro h
  rcases this v _ h with h | h
  · exact h
  · cases h

theorem reverseVocab_mem (v : List (Str × Int)) (i : Int) (t : Str) (h : (t, i) ∈ v) : (reverseVocab v i).isSome := by
  have : ∀ (v : List (Str × Int)) (r : Int → Option Str), ((t, i) ∈ v ∨ (r i).isSome) →
      (v.foldl (fun r e => fun i => if i = e.2 then some e.1 else r i) r i).isSome := by
    intro v
    induction v with
    | nil =>
      intro r h
      rcases h with h | h
      · cases h
      · exact h
    | cons e v ih =>
      intro r h
      rw [List.foldl_cons]
      apply ih
      rcases h with h | h
      · rcases List.mem_cons.mp h with h | h
        · right
          rw [← h]
          simp
        · exact .inl h
      · right
        split
        · rfl
        · exact h
  exact this v _ (.inl h)

/-! ### The properties -/

/-- C69 for BPE: a complete configuration gives the model with its vocabulary, in both directions, its merges in
the order of the file, and its options. The merges fail or succeed as in C49. -/
theorem C69_bpe_partial (model decoder : List (Str × Val)) (v : List (Str × Int)) (ms : List Val)
    (es : List (Str × Str)) (dropout : Option Rat) (unk pre suf : Option Str)
    (ht : Asks model decoder "BPE") (hv : get model "vocab" = vocabVal v) (hm : get model "merges" = .arr ms)
    (he : MergeVals ms es) (hd : IsOpt model "dropout" .float dropout) (hu : IsOpt model "unk_token" .str unk)
    (hp : IsOpt model "continuing_subword_prefix" .str pre) (hs : IsOpt model "end_of_word_suffix" .str suf)
    (hd1 : ∀ p, dropout = some p → 0 < p ∧ p ≤ 1) :
    (createMerges (mget v) (es.map mergeLine) = .err ∧ createModel model decoder = .err) ∨
    ∃ m b, createMerges (mget v) (es.map mergeLine) = .ok m ∧ createModel model decoder = .ok (.bpe b dropout) ∧
      (∀ t, b.vocab t = mget v t) ∧ (∀ x y, b.merges x y = (mget m (x, y)).map (fun p => ⟨p.1, p.2⟩)) ∧
      b.unk = unk ∧ b.pre = pre ∧ b.suf = suf ∧
      (∀ i, (∀ t, b.vocabR i = some t → (t, i) ∈ v) ∧ (∀ t, (t, i) ∈ v → (b.vocabR i).isSome)) := by
  rw [(asks_create ht).1 rfl, createBpe, opt_num hd, opt_str hu, opt_str hp, opt_str hs, hv, hm]
  simp only [vocabVal, asObj, asArr, castVocab_ok, castMerge_ok he, Res.bind_ok, bpeNew]
  rcases (Files.C49_fails (mget v) (es.map mergeLine)).2 with h | ⟨m, h⟩
  · left
    rw [h]
    exact ⟨rfl, rfl⟩
  · right
    rw [h]
    simp only [Res.bind_ok]
    rw [if_neg]
    · exact ⟨m, _, rfl, rfl, fun _ => rfl, fun _ _ => rfl, rfl, rfl, rfl,
        fun i => ⟨fun t => reverseVocab_some v i t, fun t => reverseVocab_mem v i t⟩⟩
    · cases dropout with
      | none => simp
      | some p =>
        have := hd1 p rfl
        simp only [Option.any_some, decide_eq_true_eq, not_or, not_le, not_lt]
        exact ⟨this.1, this.2⟩

/-- C69: a dropout outside of what is allowed is an error, also 0. -/
theorem C69_dropout (model decoder : List (Str × Val)) (v : List (Str × Int)) (ms : List Val)
    (es : List (Str × Str)) (p : Rat) (unk pre suf : Option Str)
    (ht : Asks model decoder "BPE") (hv : get model "vocab" = vocabVal v) (hm : get model "merges" = .arr ms)
    (he : MergeVals ms es) (hd : get model "dropout" = .float p) (hu : IsOpt model "unk_token" .str unk)
    (hp : IsOpt model "continuing_subword_prefix" .str pre) (hs : IsOpt model "end_of_word_suffix" .str suf)
    (hd1 : p ≤ 0 ∨ 1 < p) : createModel model decoder = .err := by
  rw [(asks_create ht).1 rfl, createBpe, opt_num (o := some p) hd, opt_str hu, opt_str hp, opt_str hs, hv, hm]
  simp only [vocabVal, asObj, asArr, castVocab_ok, castMerge_ok he, Res.bind_ok, bpeNew]
  rcases (Files.C49_fails (mget v) (es.map mergeLine)).2 with h | ⟨m, h⟩
  · rw [h]; rfl
  · rw [h]
    simp only [Res.bind_ok]
    rw [if_pos (by simpa using hd1)]

/-- C69 fails for merges written as arrays: an operand with a space, which only an array can express,
makes the whole configuration an error. -/
theorem C69_space_violated (model decoder : List (Str × Val)) (v : List (Str × Int)) (ms : List Val)
    (es : List (Str × Str)) (dropout : Option Rat) (unk pre suf : Option Str)
    (ht : Asks model decoder "BPE") (hv : get model "vocab" = vocabVal v) (hm : get model "merges" = .arr ms)
    (he : MergeVals ms es) (hd : IsOpt model "dropout" .float dropout) (hu : IsOpt model "unk_token" .str unk)
    (hp : IsOpt model "continuing_subword_prefix" .str pre) (hs : IsOpt model "end_of_word_suffix" .str suf)
    (e : Str × Str) (hmem : e ∈ es) (hsp : ' ' ∈ e.1 ∨ ' ' ∈ e.2) : createModel model decoder = .err := by
  rw [(asks_create ht).1 rfl, createBpe, opt_num hd, opt_str hu, opt_str hp, opt_str hs, hv, hm]
  simp only [vocabVal, asObj, asArr, castVocab_ok, castMerge_ok he, Res.bind_ok, bpeNew]
  have : createMerges (mget v) (es.map mergeLine) = .err := by
    rw [(Files.C49_fails _ _).1]
    refine ⟨mergeLine e, List.mem_map_of_mem hmem, Or.inl ?_⟩
    unfold mergeLine
    rw [List.count_append, List.count_cons]
    have h1 : ' ' ∈ e.1 → 0 < e.1.count ' ' := List.count_pos_iff.mpr
    have h2 : ' ' ∈ e.2 → 0 < e.2.count ' ' := List.count_pos_iff.mpr
    simp only [BEq.rfl, if_true]
    rcases hsp with h | h
    · have := h1 h; omega
    · have := h2 h; omega
  rw [this]
  rfl

theorem castMerge_bad {vs : List Val} {es : List (Str × Str)} (h : MergeVals vs es) (l rest : List Val)
    (hl : l.length ≠ 2) : castMerge (vs ++ .arr l :: rest) = .err := by
  induction h with
  | nil =>
    rw [List.nil_append, castMerge]
    match l, hl with
    | [], _ => rfl
    | [_], _ => rfl
    | _ :: _ :: _ :: _, _ => rfl
  | cons v e vs es hv _ ih =>
    rw [List.cons_append, castMerge, ih]
    cases hv <;> rfl

/-- C69: a merge written as an array that has not two entries is an error. -/
theorem C69_bad_merge (model decoder : List (Str × Val)) (v : List (Str × Int)) (ms l rest : List Val)
    (es : List (Str × Str)) (dropout : Option Rat) (unk pre suf : Option Str)
    (ht : Asks model decoder "BPE") (hv : get model "vocab" = vocabVal v)
    (hm : get model "merges" = .arr (ms ++ .arr l :: rest)) (hl : l.length ≠ 2)
    (he : MergeVals ms es) (hd : IsOpt model "dropout" .float dropout) (hu : IsOpt model "unk_token" .str unk)
    (hp : IsOpt model "continuing_subword_prefix" .str pre) (hs : IsOpt model "end_of_word_suffix" .str suf) :
    createModel model decoder = .err := by
  rw [(asks_create ht).1 rfl, createBpe, opt_num hd, opt_str hu, opt_str hp, opt_str hs, hv, hm]
  simp only [vocabVal, asObj, asArr, castVocab_ok, castMerge_bad he l rest hl, Res.bind_ok]
  rfl

/-- C69 for WordPiece, without a prefix or with the prefix "##". -/
theorem C69_wordPiece_partial (model decoder : List (Str × Val)) (v : List (Str × Int)) (unk pre : Option Str)
    (max : Option Int) (ht : Asks model decoder "WordPiece") (hv : get model "vocab" = vocabVal v)
    (hu : IsOpt model "unk_token" .str unk) (hp : IsOpt model "continuing_subword_prefix" .str pre)
    (hm : IsOpt model "max_input_chars_per_word" (fun i : Int => .float i) max)
    (hpre : ∀ p, pre = some p → p = "##".toList) :
    ∃ w, createModel model decoder = .ok (.wordPiece w) ∧ (∀ t, w.vocab t = mget v t) ∧
      w.unk = unk.getD "[UNK]".toList ∧ w.pre = pre.getD "##".toList ∧ w.maxChars = max.getD 100 := by
  rw [(asks_create ht).2.1 rfl, createWordPiece, opt_str hu, opt_str hp, opt_float hm, hv]
  simp only [vocabVal, asObj, castVocab_ok, Res.bind_ok]
  have hpp : pre.getD "##".toList = "##".toList := by
    cases pre with
    | none => rfl
    | some p => exact hpre p rfl
  rw [hpp]
  cases unk <;> cases max <;> exact ⟨_, rfl, fun _ => rfl, rfl, rfl, rfl⟩

/-- C69 fails for WordPiece with any other prefix, always: the model has the prefix "##". -/
theorem C69_prefix_violated (model decoder : List (Str × Val)) (v : List (Str × Int)) (unk : Option Str) (pre : Str)
    (max : Option Int) (ht : Asks model decoder "WordPiece") (hv : get model "vocab" = vocabVal v)
    (hu : IsOpt model "unk_token" .str unk) (hp : get model "continuing_subword_prefix" = .str pre)
    (hm : IsOpt model "max_input_chars_per_word" (fun i : Int => .float i) max) (hpre : pre ≠ "##".toList) :
    ∃ w, createModel model decoder = .ok (.wordPiece w) ∧ w.pre = "##".toList ∧ w.pre ≠ pre := by
  rw [(asks_create ht).2.1 rfl, createWordPiece, opt_str hu, opt_str (o := some pre) hp, opt_float hm, hv]
  simp only [vocabVal, asObj, castVocab_ok, Res.bind_ok]
  cases unk <;> cases max <;> exact ⟨_, rfl, rfl, hpre.symm⟩

/-- C69 fails for `wordpiece.New` as well: the option "continuing_subword_prefix" alone has no
effect, and "continuingSubwordPrefix" alone is a panic, for every vocabulary and value. -/
theorem C69_prefix_option_violated (v : List (Str × Int)) (x : Val) (s : Str) :
    (∃ w, wordPieceNew v [("continuing_subword_prefix".toList, .str s)] = .ok (.wordPiece w) ∧ w.pre = "##".toList) ∧
    (x ≠ .null → wordPieceNew v [("continuingSubwordPrefix".toList, x)] = .panic) := by
  constructor
  · exact ⟨_, rfl, rfl⟩
  · intro hx
    cases x <;> first | exact absurd rfl hx | rfl

/-- C69 for WordLevel: the unknown token is the one given, "<unk>" if it is absent or empty. -/
theorem C69_wordLevel (model decoder : List (Str × Val)) (v : List (Str × Int)) (unk : Option Str)
    (ht : Asks model decoder "WordLevel") (hv : get model "vocab" = vocabVal v)
    (hu : IsOpt model "unk_token" .str unk) :
    ∃ f u, createModel model decoder = .ok (.wordLevel f u) ∧ (∀ t, f t = mget v t) ∧
      (∀ s, unk = some s → s ≠ [] → u = s) ∧ (unk = none ∨ unk = some [] → u = "<unk>".toList) := by
  rw [(asks_create ht).2.2.1 rfl, createWordLevel, opt_str hu, hv]
  simp only [vocabVal, asObj, castVocab_ok, Res.bind_ok]
  refine ⟨_, _, rfl, fun _ => rfl, ?_, ?_⟩
  · rintro s rfl hs
    exact if_neg hs
  · rintro (rfl | rfl) <;> rfl

/-- C69 for Unigram: vocabulary in the order of the file, scores, unknown id and flags with their
defaults. -/
theorem C69_unigram (model decoder : List (Str × Val)) (v : List (Str × Rat)) (unk : Option Int)
    (bf fu : Option Bool) (ht : Asks model decoder "Unigram") (hv : get model "vocab" = scoresVal v)
    (hu : IsOpt model "unk_id" (fun i : Int => .float i) unk) (hb : IsOpt model "byte_fallback" .bool bf)
    (hf : IsOpt model "fuse_unk" .bool fu) :
    (∀ i, unk = some i → (v.length : Int) ≤ i → createModel model decoder = .err) ∧
    ((∀ i, unk = some i → i < (v.length : Int)) →
      ∃ u, createModel model decoder = .ok (.unigram u) ∧ u.vocab = v.map (fun e => (encStr e.1, e.2)) ∧
        u.unkId = unk ∧ u.bytesFallback = bf.getD false ∧ u.fuseUnk = fu.getD true ∧
        u.bonus = 1 / 10 ∧ u.penalty = 10) := by
  have hhas : has model "vocab" = true := by
    rw [has_iff, hv, scoresVal]
    simp
  rw [(asks_create ht).2.2.2 rfl, createUnigram, opt_float hu, opt_bool hb, opt_bool hf]
  simp only [Res.bind_ok]
  rw [if_pos hhas, hv]
  simp only [scoresVal, asArr, castScores_ok, Res.bind_ok]
  have key : unigramNew (v.map (fun e => (encStr e.1, e.2)))
      (mset (mset (setOpt [] "unk_id" (unk.map .int)) "byte_fallback".toList (.bool (bf.getD false)))
        "fuse_unk".toList (.bool (fu.getD true))) =
      (do let u ← Unigram.build (v.map (fun e => (encStr e.1, e.2))) unk (bf.getD false) (fu.getD true) (1 / 10) 10
          .ok (.unigram u)) := by
    cases unk <;> rfl
  rw [key]
  constructor
  · rintro i rfl hi
    simp only [Unigram.build, List.length_map]
    rw [if_pos hi]
    rfl
  · intro hi
    cases unk with
    | none => exact ⟨_, rfl, rfl, rfl, rfl, rfl, rfl, rfl⟩
    | some i =>
      have := hi i rfl
      simp only [Unigram.build, List.length_map]
      rw [if_neg (by omega)]
      exact ⟨_, rfl, rfl, rfl, rfl, rfl, rfl, rfl⟩

/-- C69 for a Unigram model made directly from options: no byte fallback and fused unknown tokens
unless the options say otherwise. -/
theorem C69_unigram_options (v : List (Bytes × Rat)) (opts : List (Str × Val)) (unk : Option Int) (bf fu : Option Bool)
    (hu : IsOpt opts "unk_id" (fun i : Int => .int i) unk) (hb : IsOpt opts "byte_fallback" .bool bf)
    (hf : IsOpt opts "fuse_unk" .bool fu) (hi : ∀ i, unk = some i → i < (v.length : Int)) :
    ∃ u, unigramNew v opts = .ok (.unigram u) ∧ u.vocab = v ∧ u.unkId = unk ∧
      u.bytesFallback = bf.getD false ∧ u.fuseUnk = fu.getD true := by
  unfold unigramNew
  rw [opt_bool hb, opt_bool hf]
  cases unk with
  | none =>
    have hu' : get opts "unk_id" = .null := hu
    rw [if_neg (by rw [has_iff]; exact fun hn => hn hu')]
    exact ⟨_, rfl, rfl, rfl, rfl, rfl⟩
  | some i =>
    have hu' : get opts "unk_id" = .int i := hu
    have := hi i rfl
    rw [if_pos (by rw [has_iff, hu']; simp), hu']
    simp only [Res.bind_ok, Unigram.build]
    rw [if_neg (by omega)]
    exact ⟨_, rfl, rfl, rfl, rfl, rfl⟩

theorem castScores_bad (v : List (Str × Rat)) (l rest : List Val) (hl : l.length ≠ 2) :
    castScores (v.map (fun e => .arr [.str e.1, .float e.2]) ++ .arr l :: rest) = .err := by
  induction v with
  | nil =>
    rw [List.map_nil, List.nil_append, castScores]
    simp only [asArr, Res.bind_ok]
    split
    · simp at hl
    · rfl
  | cons e v ih =>
    rw [List.map_cons, List.cons_append, castScores]
    simp only [asArr, Res.bind_ok, asStr, asNum, ih]
    rfl

/-- C69: an entry of a Unigram vocabulary that has not two parts is an error. -/
theorem C69_bad_score (model decoder : List (Str × Val)) (v : List (Str × Rat)) (l rest : List Val) (unk : Option Int)
    (bf fu : Option Bool) (ht : Asks model decoder "Unigram")
    (hv : get model "vocab" = .arr (v.map (fun e => .arr [.str e.1, .float e.2]) ++ .arr l :: rest)) (hl : l.length ≠ 2)
    (hu : IsOpt model "unk_id" (fun i : Int => .float i) unk) (hb : IsOpt model "byte_fallback" .bool bf)
    (hf : IsOpt model "fuse_unk" .bool fu) : createModel model decoder = .err := by
  rw [(asks_create ht).2.2.2 rfl, createUnigram, opt_float hu, opt_bool hb, opt_bool hf]
  simp only [Res.bind_ok]
  rw [if_pos (by rw [has_iff, hv]; simp), hv]
  simp only [asArr, castScores_bad v l rest hl, Res.bind_ok]
  rfl

/-- C69: another type is an error. -/
theorem C69_unknown_type (model decoder : List (Str × Val)) (s : Str) (h : get model "type" = .str s)
    (hs : s ≠ "BPE".toList ∧ s ≠ "WordPiece".toList ∧ s ≠ "WordLevel".toList ∧ s ≠ "Unigram".toList) :
    createModel model decoder = .err := by
  unfold createModel
  rw [opt_str (o := some s) h]
  simp only [Res.bind_ok]
  rw [if_neg hs.1, if_neg hs.2.1, if_neg hs.2.2.1, if_neg hs.2.2.2]

/-- C69: a Unigram configuration without a vocabulary is an error. -/
theorem C69_unigram_missing (model decoder : List (Str × Val)) (unk : Option Int)
    (bf fu : Option Bool) (ht : Asks model decoder "Unigram") (hv : get model "vocab" = .null)
    (hu : IsOpt model "unk_id" (fun i : Int => .float i) unk) (hb : IsOpt model "byte_fallback" .bool bf)
    (hf : IsOpt model "fuse_unk" .bool fu) : createModel model decoder = .err := by
  rw [(asks_create ht).2.2.2 rfl, createUnigram, opt_float hu, opt_bool hb, opt_bool hf]
  simp only [Res.bind_ok]
  rw [if_neg]
  rw [has_iff]
  exact fun hn => hn hv

/-- C69 fails for the other models without a vocabulary, always: a panic instead of an error. -/
theorem C69_missing_violated (model decoder : List (Str × Val)) (s : String)
    (hs : s = "BPE" ∨ s = "WordPiece" ∨ s = "WordLevel")
    (ht : Asks model decoder s) (hv : get model "vocab" = .null) (dropout : Option Rat) (unk pre suf : Option Str)
    (max : Option Int) (hd : IsOpt model "dropout" .float dropout) (hu : IsOpt model "unk_token" .str unk)
    (hp : IsOpt model "continuing_subword_prefix" .str pre) (hsu : IsOpt model "end_of_word_suffix" .str suf)
    (hm : IsOpt model "max_input_chars_per_word" (fun i : Int => .float i) max) :
    createModel model decoder = .panic := by
  rcases hs with rfl | rfl | rfl
  · rw [(asks_create ht).1 rfl, createBpe, opt_num hd, opt_str hu, opt_str hp, opt_str hsu, hv]
    rfl
  · rw [(asks_create ht).2.1 rfl, createWordPiece, opt_str hu, opt_str hp, opt_float hm, hv]
    rfl
  · rw [(asks_create ht).2.2.1 rfl, createWordLevel, opt_str hu, hv]
    rfl

/-- C69 fails for two documented BPE fields: whatever they are set to, the result is the same. -/
theorem C69_ignored_violated (model decoder : List (Str × Val)) (k : String) (x : Val)
    (hk : k = "fuse_unk" ∨ k = "byte_fallback") (ht : Asks model decoder "BPE") :
    createModel ((k.toList, x) :: model) decoder = createModel model decoder := by
  have hl : ∀ j : String, j.toList ≠ "fuse_unk".toList → j.toList ≠ "byte_fallback".toList →
      lookup ((k.toList, x) :: model) j = lookup model j := by
    intro j h1 h2
    unfold lookup
    rw [mget, if_neg]
    intro h
    rcases hk with rfl | rfl
    · exact h1 (beq_iff_eq.mp h).symm
    · exact h2 (beq_iff_eq.mp h).symm
  have hg : ∀ j : String, j.toList ≠ "fuse_unk".toList → j.toList ≠ "byte_fallback".toList →
      get ((k.toList, x) :: model) j = get model j := by
    intro j h1 h2
    unfold get
    rw [hl j h1 h2]
  have hopt : ∀ {α : Type} (j : String) (cast : Val → Res α), j.toList ≠ "fuse_unk".toList →
      j.toList ≠ "byte_fallback".toList → opt ((k.toList, x) :: model) j cast = opt model j cast := by
    intro α j cast h1 h2
    unfold opt has
    rw [hl j h1 h2, hg j h1 h2]
  have ht' : Asks ((k.toList, x) :: model) decoder "BPE" := by
    have e := hg "type" (by decide) (by decide)
    cases ht with
    | given _ h => exact .given _ (e.trans h)
    | byteLevel h1 h2 => exact .byteLevel (e.trans h1) h2
    | decoder _ hs h1 h2 => exact .decoder _ hs (e.trans h1) h2
    | nothing h1 h2 => exact .nothing (e.trans h1) h2
  rw [(asks_create ht').1 rfl, (asks_create ht).1 rfl, createBpe, createBpe,
    hopt "dropout" _ (by decide) (by decide), hopt "unk_token" _ (by decide) (by decide),
    hopt "continuing_subword_prefix" _ (by decide) (by decide), hopt "end_of_word_suffix" _ (by decide) (by decide),
    hg "vocab" (by decide) (by decide), hg "merges" (by decide) (by decide)]

/-- C69 fails for what `Unigram.Save` writes: reading it is a panic, for every model with a token. -/
theorem C69_unigram_saved_violated (v : List (Str × Rat)) (hv : v ≠ []) (unk : Option Int) (bf : Bool)
    (decoder : List (Str × Val)) : createModel (saveUnigram v unk bf) decoder = .panic := by
  have ht : Asks (saveUnigram v unk bf) decoder "Unigram" := .given _ rfl
  have hu : IsOpt (saveUnigram v unk bf) "unk_id" (fun i : Int => .float i) unk := by
    cases unk <;> rfl
  have hb : IsOpt (saveUnigram v unk bf) "byte_fallback" .bool (some bf) := rfl
  have hf : IsOpt (saveUnigram v unk bf) "fuse_unk" .bool none := rfl
  rw [(asks_create ht).2.2.2 rfl, createUnigram, opt_float hu, opt_bool hb, opt_bool hf]
  cases v with
  | nil => exact absurd rfl hv
  | cons e v => rfl

/-! ### Examples -/

/-- A small BPE configuration, with one merge as a line and one as an array. -/
def exBpeConfig : List (Str × Val) :=
  [("type".toList, .str "BPE".toList), ("dropout".toList, .float (1 / 2)), ("unk_token".toList, .str "<unk>".toList),
   ("vocab".toList, vocabVal [("a".toList, 0), ("b".toList, 1), ("ab".toList, 2), ("aba".toList, 3)]),
   ("merges".toList, .arr [.str "a b".toList, .arr [.str "ab".toList, .str "a".toList]])]

example : Asks exBpeConfig [] "BPE" := .given _ rfl
example : MergeVals [.str "a b".toList, .arr [.str "ab".toList, .str "a".toList]]
    [("a".toList, "b".toList), ("ab".toList, "a".toList)] :=
  .cons _ _ _ _ (.line ['a'] ['b']) (.cons _ _ _ _ (.pair _ _) .nil)
example : IsOpt exBpeConfig "dropout" .float (some (1 / 2)) := rfl
example : IsOpt exBpeConfig "end_of_word_suffix" .str none := rfl
example : createMerges (mget [("a".toList, 0), ("b".toList, 1), ("ab".toList, 2), ("aba".toList, 3)])
    [mergeLine ("a".toList, "b".toList), mergeLine ("ab".toList, "a".toList)] = .ok [((0, 1), (0, 2)), ((2, 0), (1, 3))] := by
  decide +kernel
/-- A WordPiece configuration with another prefix and no type, as in the files of BERT. -/
example : Asks [("continuing_subword_prefix".toList, .str "@@".toList),
    ("vocab".toList, vocabVal [("a".toList, 0), ("@@b".toList, 1)])] [("type".toList, .str "WordPiece".toList)] "WordPiece" :=
  .decoder "WordPiece" (Or.inl rfl) rfl rfl
/-- A Unigram configuration. -/
example : Asks [("type".toList, .str "Unigram".toList), ("unk_id".toList, .float 0),
    ("vocab".toList, scoresVal [("<unk>".toList, 0), ("a".toList, -3 / 2)])] [] "Unigram" := .given _ rfl

/-- A merge of three entries. -/
example : createModel [("type".toList, .str "BPE".toList), ("vocab".toList, vocabVal [("a".toList, 0)]),
    ("merges".toList, .arr [.str "a a".toList, .arr [.str "a".toList, .str "a".toList, .str "a".toList]])] [] = .err :=
  C69_bad_merge _ [] [("a".toList, 0)] [.str "a a".toList] [.str "a".toList, .str "a".toList, .str "a".toList] []
    [("a".toList, "a".toList)] none none none none (.given _ rfl) rfl rfl (by decide) (.cons _ _ _ _ (.line ['a'] ['a']) .nil)
    rfl rfl rfl rfl

end Tok.Config
