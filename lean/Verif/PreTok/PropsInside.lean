import Verif.PreTok.Inside
import Verif.PreTok.PropsTokenizers

/-!
# C111: the offsets of an encoding lie in the text
-/

namespace Tok.PreTok

open Tok.Norm

/-! ### Specification -/

/-- The pre-tokenizers of the package, with any settings; those with `true` only cut. -/
inductive LibPre : Bool → (PTS → Res PTS) → Prop
  | delimiter (o : Bool) (d : Char) : LibPre o (delimiterSplit d)
  | digits (o : Bool) (isNumber : Char → Bool) (individual : Bool) : LibPre o (digits isNumber individual)
  | punctuation (o : Bool) (isPunc : Char → Bool) (b : Behavior) : LibPre o (punctuation isPunc b)
  | split (o : Bool) (pat : Pat) (b : Behavior) (invert : Bool) : LibPre o (splitPre pat b invert)
  | whitespace (o : Bool) (engine : List UInt8 → List (Nat × Nat)) : LibPre o (whitespace engine)
  | whitespaceSplit (o : Bool) (isWs : Char → Bool) : LibPre o (whitespaceSplit isWs)
  | bert (o : Bool) (engine : List UInt8 → List (Nat × Nat)) (isPunc : Char → Bool) : LibPre o (bertPre engine isPunc)
  | script (o : Bool) (script : Char → String) : LibPre o (unicodeScript script)
  | metaspace (m : Metaspace) : LibPre false m.preTokenize
  | byteLevel (space : Bool) (engine : List UInt8 → List (Nat × Nat)) : LibPre false (byteLevelPre space engine)
  | sequence (o : Bool) (ps : List (PTS → Res PTS)) (h : ∀ p ∈ ps, LibPre o p) : LibPre o (sequencePre ps)

/-- The normalizers of the package, with any settings; with `true`, changes of case only. The string
that a normalizer returns is used at once (added-vocabulary.go:515-524), so nil is a crash. -/
inductive LibNorm : Bool → (NStr → Res NStr) → Prop
  | package (T : Tables) (z : Normalizer) : LibNorm false (fun n => do
      match ← z.normalize T (some n) with
      | none => .panic
      | some y => .ok y)
  | precompiled (tr : List UInt8 → Str) (mn : Str → Str) (graphemes : List UInt8 → List Str) :
      LibNorm false (fun n => Spm.normalize tr mn (graphemes n.normalized) n)
  | recase (o : Bool) (f : List UInt8 → List UInt8) : LibNorm o (fun n => .ok (n.recase f))

/-- The offsets of every token that the model gives are not empty and begin inside the text, or are (0, 0). -/
def ModelRanged (f : List UInt8 → Res (Option (List Token))) : Prop :=
  ∀ bs ts, f bs = .ok (some ts) → ∀ t ∈ ts,
    (0 ≤ t.offsets.1 ∧ t.offsets.1 < t.offsets.2 ∧ t.offsets.1 < (bs.length : Int)) ∨ t.offsets = (0, 0)

/-! ### Pre-tokenizers and normalizers -/

theorem libPre_fit {o : Bool} {p : PTS → Res PTS} (hp : LibPre o p) {s : Str} : ∀ {pt pt' : PTS},
    (∀ sp ∈ pt.splits, FitSplit s o sp) → p pt = .ok pt' → ∀ sp ∈ pt'.splits, FitSplit s o sp := by
  induction hp with
  | delimiter o d => intro pt pt' hs h; exact (split_fit (fun i x ps hx hc => cutWith_good hx.placed hc) hs h).1
  | digits o f i => intro pt pt' hs h; exact (split_fit (fun i x ps hx hc => cutWith_good hx.placed hc) hs h).1
  | punctuation o f b => intro pt pt' hs h; exact (split_fit (fun i x ps hx hc => cutWith_good hx.placed hc) hs h).1
  | split o pat b i => intro pt pt' hs h; exact (split_fit (fun i x ps hx hc => cutWith_good hx.placed hc) hs h).1
  | whitespace o e => intro pt pt' hs h; exact (split_fit (fun i x ps hx hc => cutWith_good hx.placed hc) hs h).1
  | whitespaceSplit o f => intro pt pt' hs h; exact (split_fit (fun i x ps hx hc => cutWith_good hx.placed hc) hs h).1
  | bert o e f =>
    intro pt pt' hs h
    refine (split_fit (fun i x ps hx hc => ?_) hs h).1
    unfold bertCut at hc
    obtain ⟨ws, h1, hc⟩ := Res.bind_eq_ok.mp hc
    obtain ⟨xs, h2, hc⟩ := Res.bind_eq_ok.mp hc
    cases hc
    exact good_untokened (bertInner_good (split_good (.inr hx.placed) h1) h2)
  | script o f =>
    intro pt pt' hs h
    refine (split_fit (fun i x ps hx hc => ?_) hs h).1
    unfold scriptCut at hc
    obtain ⟨xs, h1, hc⟩ := Res.bind_eq_ok.mp hc
    cases hc
    exact good_untokened (sliceWindows_good hx.placed _ h1)
  | metaspace m =>
    intro pt pt' hs h
    refine (split_fit (fun i x ps hx hc => ?_) hs h).1
    unfold Metaspace.splitFn at hc
    obtain ⟨n1, h1, hc⟩ := Res.bind_eq_ok.mp hc
    obtain ⟨n2, h2, hc⟩ := Res.bind_eq_ok.mp hc
    obtain ⟨xs, h3, hc⟩ := Res.bind_eq_ok.mp hc
    cases hc
    have e1 := replace_placed hx.placed h1
    have e2 : Placed s false n2 := by
      unfold Metaspace.withPrefix at h2
      split at h2
      · exact prepend_placed e1 h2
      · cases h2; exact e1
    exact good_untokened (split_good (.inr e2) h3)
  | byteLevel sp e =>
    intro pt pt' hs h
    unfold byteLevelPre at h
    obtain ⟨p1, h1, h⟩ := Res.bind_eq_ok.mp h
    have e1 := (split_fit (fun i x ps hx hc => ?_) hs h1).1
    · unfold PTS.normalize at h
      obtain ⟨ss, h2, h⟩ := Res.bind_eq_ok.mp h
      cases h
      exact normalizeLoop_fit (fun x y hx hy => transform_fit hx hy) e1 h2
    · obtain ⟨n1, h2, hc⟩ := Res.bind_eq_ok.mp hc
      refine cutWith_good ?_ hc
      unfold spacePrefix at h2
      split at h2
      · exact prepend_placed hx.placed h2
      · cases h2; exact hx.placed
  | sequence o ps hps ih =>
    clear hps
    induction ps with
    | nil => intro pt pt' hs h; cases h; exact hs
    | cons p ps ihp =>
      intro pt pt' hs h
      rw [sequencePre] at h
      obtain ⟨p1, h1, h⟩ := Res.bind_eq_ok.mp h
      exact ihp (fun q hq => ih q (by simp [hq])) (ih p (by simp) hs h1) h

theorem libNorm_placed {o : Bool} {f : NStr → Res NStr} (hf : LibNorm o f) {s : Str} {x y : NStr}
    (hx : Placed s o x) (h : f x = .ok y) : Placed s o y := by
  cases hf with
  | package T z =>
    obtain ⟨r, h1, h⟩ := Res.bind_eq_ok.mp h
    split at h
    · cases h
    · cases h; exact normalize_placed T z hx h1 _ rfl
  | precompiled tr mn g =>
    unfold Spm.normalize at h
    simp only at h
    split at h
    · exact transform_placed hx h
    · cases h; exact hx
  | recase o f => cases h; exact recase_placed hx f

/-! ### Encoding -/

theorem rowsOfTokens_span {s : Str} {o : Bool} {n : NStr} (hn : Fit s o n) (word : Int) (ts : List Token) :
    ∀ {rs : List Row}, (∀ t ∈ ts, Ranged n.normalized.length t) → rowsOfTokens [] n word ts = .ok rs →
      ∀ r ∈ rs, SpanIn s o r.offsets ∧ r.word = word := by
  induction ts with
  | nil => intro rs _ h; cases h; simp
  | cons t ts ih =>
    intro rs ht h
    rw [rowsOfTokens] at h
    obtain ⟨q, h1, h⟩ := Res.bind_eq_ok.mp h
    obtain ⟨rest, h2, h⟩ := Res.bind_eq_ok.mp h
    cases h
    intro r hr
    rcases List.mem_cons.mp hr with rfl | hr
    · exact ⟨origOffsets_span hn (ht t (by simp)) h1, rfl⟩
    · exact ih (fun y hy => ht y (by simp [hy])) h2 r hr

theorem rowsOfSplits_span {s : Str} {o : Bool} (wordIdx : Int) (ss : List Split) : ∀ {i : Nat} {rs : List Row},
    (∀ sp ∈ ss, FitSplit s o sp) → rowsOfSplits [] wordIdx ss i = .ok rs →
      ∀ r ∈ rs, SpanIn s o r.offsets ∧ (wordIdx ≠ -1 → r.word = wordIdx) := by
  induction ss with
  | nil => intro i rs _ h; cases h; simp
  | cons sp ss ih =>
    intro i rs hs h
    rw [rowsOfSplits] at h
    obtain ⟨r1, h1, h⟩ := Res.bind_eq_ok.mp h
    obtain ⟨rest, h2, h⟩ := Res.bind_eq_ok.mp h
    cases h
    intro r hr
    rcases List.mem_append.mp hr with hr | hr
    · have hsp := hs sp (by simp)
      obtain ⟨e1, e2⟩ := rowsOfTokens_span hsp.fit _ _ (by
        cases ht : sp.tokens with
        | none => simp
        | some ts => exact hsp.tokens ts ht) h1 r hr
      exact ⟨e1, fun hw => by rw [e2, if_neg hw]⟩
    · exact ih (fun y hy => hs y (by simp [hy])) h2 r hr

theorem extract_fit {t : Tk} {o : Bool} (hn : ∀ f, t.normalizer = some f → LibNorm o f) {s : Str} {pt : PTS}
    (h : t.extractAndNormalize (encStr s) = .ok pt) : ∀ sp ∈ pt.splits, FitSplit s o sp := by
  unfold Tk.extractAndNormalize at h
  obtain ⟨p1, h1, h⟩ := Res.bind_eq_ok.mp h
  have hs : ∀ sp ∈ (newPTS (encStr s)).splits, FitSplit s o sp := by
    intro sp hsp
    simp only [newPTS, List.mem_singleton] at hsp
    subst hsp
    exact ⟨newNStr_fit s o, by simp⟩
  have e1 := (split_fit (fun i x ps hx hc => splitWithIndices_good hx.placed hc) hs h1).1
  refine (split_fit (fun i x ps hx hc => ?_) e1 h).1
  obtain ⟨y, h2, hc⟩ := Res.bind_eq_ok.mp hc
  refine splitWithIndices_good ?_ hc
  unfold Tk.normalizeOrDie at h2
  cases hf : t.normalizer with
  | none => rw [hf] at h2; cases h2; exact hx.placed
  | some f =>
    rw [hf] at h2
    simp only at h2
    split at h2
    · next z hz => cases h2; exact libNorm_placed (hn f hf) hx.placed hz
    · cases h2

theorem encodeOne_span {t : Tk} {o : Bool} (hn : ∀ f, t.normalizer = some f → LibNorm o f)
    (hp : ∀ p, t.preTokenizer = some p → LibPre o p) (hm : ∀ f, t.model = some f → ModelRanged f)
    {s : Str} {typeId word : Int} {e : Encoding} (h : t.encodeOne (encStr s) typeId word .byte = .ok e) :
    ∃ rows, e = ofRows rows typeId ∧ ∀ r ∈ rows, SpanIn s o r.offsets ∧ (word ≠ -1 → r.word = word) := by
  unfold Tk.encodeOne at h
  obtain ⟨p1, h1, h⟩ := Res.bind_eq_ok.mp h
  obtain ⟨p2, h2, h⟩ := Res.bind_eq_ok.mp h
  have e1 := extract_fit hn h1
  have e2 : ∀ sp ∈ p2.splits, FitSplit s o sp := by
    unfold Tk.doPreTokenize at h2
    cases hq : t.preTokenizer with
    | none => rw [hq] at h2; cases h2; exact e1
    | some p => rw [hq] at h2; exact libPre_fit (hp p hq) e1 h2
  unfold Tk.doTokenize at h
  obtain ⟨p3, h3, h⟩ := Res.bind_eq_ok.mp h
  unfold PTS.tokenize at h3
  obtain ⟨ss, h4, h3⟩ := Res.bind_eq_ok.mp h3
  cases h3
  have e3 : ∀ sp ∈ ss, FitSplit s o sp := by
    refine tokenizeLoop_fit (fun x ts hx => ?_) e2 h4
    cases hq : t.model with
    | none => rw [hq] at hx; cases hx
    | some f => rw [hq] at hx; exact hm f hq _ _ hx
  unfold PTS.intoEncoding at h
  simp only at h
  split at h
  · cases h
    exact ⟨[], rfl, by simp⟩
  · split at h
    · cases h
    · obtain ⟨rows, h5, h⟩ := Res.bind_eq_ok.mp h
      cases h
      exact ⟨rows, rfl, rowsOfSplits_span word ss e3 h5⟩

theorem encodeSingle_span {t : Tk} {o : Bool} (hn : ∀ f, t.normalizer = some f → LibNorm o f)
    (hp : ∀ p, t.preTokenizer = some p → LibPre o p) (hm : ∀ f, t.model = some f → ModelRanged f)
    {s : Str} {typeId : Int} {e : Encoding} (h : t.encodeSingle (.raw (encStr s)) typeId .byte = .ok e) :
    ∀ p ∈ e.offsets, SpanIn s o p := by
  rw [Tk.encodeSingle] at h
  obtain ⟨e1, h2, h⟩ := Res.bind_eq_ok.mp h
  simp only [Res.bind_ok] at h
  obtain ⟨rows, rfl, hr⟩ := encodeOne_span hn hp hm h2
  have := merge_ofRows typeId [rows] []
  rw [default_ofRows typeId] at h
  simp only [List.map_cons, List.map_nil] at this
  rw [this] at h
  cases h
  intro p hp
  simp only [ofRows, List.flatten_cons, List.flatten_nil, List.append_nil, List.nil_append, List.mem_map] at hp
  obtain ⟨r, hr', rfl⟩ := hp
  exact (hr r hr').1

theorem encodeWords_span {t : Tk} {o : Bool} (hn : ∀ f, t.normalizer = some f → LibNorm o f)
    (hp : ∀ p, t.preTokenizer = some p → LibPre o p) (hm : ∀ f, t.model = some f → ModelRanged f)
    {typeId : Int} (ws : List Str) : ∀ {i : Nat} {es : List Encoding},
    t.encodeWords typeId .byte (ws.map encStr) i = .ok es →
    ∃ rss : List (List Row), es = rss.map (fun r => ofRows r typeId) ∧
      ∀ r ∈ rss.flatten, ∃ k s, ws[k]? = some s ∧ r.word = ((i + k : Nat) : Int) ∧ SpanIn s o r.offsets := by
  induction ws with
  | nil => intro i es h; cases h; exact ⟨[], rfl, by simp⟩
  | cons s ws ih =>
    intro i es h
    rw [List.map_cons, Tk.encodeWords] at h
    obtain ⟨e1, h1, h⟩ := Res.bind_eq_ok.mp h
    obtain ⟨rest, h2, h⟩ := Res.bind_eq_ok.mp h
    cases h
    obtain ⟨rows, rfl, hr⟩ := encodeOne_span hn hp hm h1
    obtain ⟨rss, rfl, hrs⟩ := ih h2
    refine ⟨rows :: rss, rfl, ?_⟩
    intro r hr'
    rw [List.flatten_cons] at hr'
    rcases List.mem_append.mp hr' with h3 | h3
    · refine ⟨0, s, rfl, ?_, (hr r h3).1⟩
      rw [(hr r h3).2 (by omega)]; simp
    · obtain ⟨k, s', a, b, c⟩ := hrs r h3
      exact ⟨k + 1, s', by simpa using a, by rw [b]; congr 1; omega, c⟩

theorem span_text {s : Str} {p : Int × Int} (h : SpanIn s true p) :
    ∃ g m b, s = g ++ m ++ b ∧ p = ((blen g : Int), (blen (g ++ m) : Int)) := by
  obtain ⟨⟨u, v, e1, e2⟩, ⟨u', v', e3, e4⟩, hle⟩ := h
  have hle := hle rfl
  rw [e2, e4] at hle
  obtain ⟨w, rfl, _⟩ := prefix_of_le e1 e3 (by omega)
  exact ⟨u, w, v', e3, Prod.ext e2 e4⟩

/-! ### Properties -/

/-- **C111.** Whatever normalizer and pre-tokenizer of the package are used, and whatever the added
tokens: the offsets of every entry of an encoding are positions of the text, each between two of its
characters or at an end, when the offsets that the model gives for a piece begin inside the piece. -/
theorem C111_inside_partial (t : Tk) (hn : ∀ f, t.normalizer = some f → LibNorm false f)
    (hp : ∀ p, t.preTokenizer = some p → LibPre false p) (hm : ∀ f, t.model = some f → ModelRanged f)
    (s : Str) (typeId : Int) (e : Encoding) (h : t.encodeSingle (.raw (encStr s)) typeId .byte = .ok e) :
    ∀ p ∈ e.offsets, (∃ u v, s = u ++ v ∧ p.1 = (blen u : Int)) ∧ ∃ u v, s = u ++ v ∧ p.2 = (blen u : Int) :=
  fun p hpm => let ⟨a, b, _⟩ := encodeSingle_span hn hp hm h p hpm; ⟨a, b⟩

/-- **C111.** With pre-tokenizers that only cut and no normalizer or one that changes case only, the
offsets of every entry are those of a part of the text. -/
theorem C111_part_partial (t : Tk) (hn : ∀ f, t.normalizer = some f → LibNorm true f)
    (hp : ∀ p, t.preTokenizer = some p → LibPre true p) (hm : ∀ f, t.model = some f → ModelRanged f)
    (s : Str) (typeId : Int) (e : Encoding) (h : t.encodeSingle (.raw (encStr s)) typeId .byte = .ok e) :
    ∀ p ∈ e.offsets, ∃ g m b, s = g ++ m ++ b ∧ p = ((blen g : Int), (blen (g ++ m) : Int)) :=
  fun p hpm => span_text (encodeSingle_span hn hp hm h p hpm)

/-- **C111.** In an encoding of words the offsets of an entry are positions of the word that the entry
names. -/
theorem C111_words_partial (t : Tk) (hn : ∀ f, t.normalizer = some f → LibNorm false f)
    (hp : ∀ p, t.preTokenizer = some p → LibPre false p) (hm : ∀ f, t.model = some f → ModelRanged f)
    (ws : List Str) (typeId : Int) (e : Encoding) (h : t.encodeSingle (.words (ws.map encStr)) typeId .byte = .ok e)
    (j : Nat) (p : Int × Int) (hj : e.offsets[j]? = some p) :
    ∃ (k : Nat) (s : Str), e.words[j]? = some (k : Int) ∧ ws[k]? = some s ∧
      (∃ u v, s = u ++ v ∧ p.1 = (blen u : Int)) ∧ ∃ u v, s = u ++ v ∧ p.2 = (blen u : Int) := by
  simp only [Tk.encodeSingle] at h
  obtain ⟨es, h1, h⟩ := Res.bind_eq_ok.mp h
  obtain ⟨rss, rfl, hr⟩ := encodeWords_span hn hp hm ws h1
  rw [default_ofRows typeId, merge_ofRows typeId rss []] at h
  cases h
  simp only [ofRows, List.nil_append, List.getElem?_map, Option.map_eq_some_iff] at hj ⊢
  obtain ⟨r, hr', rfl⟩ := hj
  obtain ⟨k, s, a, b, c⟩ := hr r (List.mem_of_getElem? hr')
  refine ⟨k, s, ⟨r, hr', by simpa using b⟩, a, c.1, c.2.1⟩

/-! ### Models -/

theorem explode_pos (bs : List UInt8) : (bs ≠ [] → 0 < (explode bs).length) ∧ (explode bs).length ≤ bs.length := by
  induction bs using explode.induct with
  | case1 => simp [explode]
  | case2 b rest c hd ih =>
    rw [explode, hd]
    simp only [List.length_cons, List.length_drop] at ih ⊢
    omega
  | case3 b rest hd ih =>
    rw [explode, hd]
    simp only [List.length_cons] at ih ⊢
    omega

/-- WordLevel gives the whole text as one token. -/
theorem C111_wordLevel (vocab : Str → Option Int) (unk : Str) : ModelRanged (wordLevelModel vocab unk) := by
  intro bs ts h t ht
  have key : t.offsets = (0, ((blen (decStr bs) : Nat) : Int)) := by
    unfold wordLevelModel wordLevelTokenize at h
    split at h
    · cases h; simp only [List.mem_singleton] at ht; rw [ht]
    · split at h
      · cases h
      · cases h; simp only [List.mem_singleton] at ht; rw [ht]
  rw [key]
  by_cases hb : bs = []
  · subst hb
    right; simp [decStr, explode, blen]
  · left
    have h1 := List.length_pos_iff.mpr hb
    have h2 := (explode_pos bs).1 hb
    have h3 : 0 < blen (decStr bs) := by
      have : (decStr bs).length = (explode bs).length := by simp [decStr]
      cases hd : decStr bs with
      | nil => rw [hd] at this; simp at this; omega
      | cons c cs => have := c.utf8Size_pos; simp only [blen_cons]; omega
    simp only
    omega

theorem inner_ranged {m : WordPiece} {chars : Str} {start : Nat} : ∀ {stop : Nat} {t : Token},
    WordPiece.inner m chars start stop = some t → t.offsets.1 = (start : Int) ∧ t.offsets.1 < t.offsets.2 := by
  intro stop
  induction stop with
  | zero => intro t h; cases h
  | succ stop ih =>
    intro t h
    rw [WordPiece.inner] at h
    by_cases hlt : start < stop + 1
    · rw [if_pos hlt] at h
      split at h
      · cases h; refine ⟨rfl, ?_⟩; simp only; omega
      · exact ih h
    · rw [if_neg hlt] at h; cases h

theorem outer_ranged {m : WordPiece} {chars : Str} : ∀ {fuel start : Nat} {acc ts : List Token},
    WordPiece.outer m chars fuel start acc = some ts →
    (∀ t ∈ acc, 0 ≤ t.offsets.1 ∧ t.offsets.1 < t.offsets.2 ∧ t.offsets.1 < (chars.length : Int)) →
    ∀ t ∈ ts, 0 ≤ t.offsets.1 ∧ t.offsets.1 < t.offsets.2 ∧ t.offsets.1 < (chars.length : Int) := by
  intro fuel
  induction fuel with
  | zero => intro start acc ts h; cases h
  | succ fuel ih =>
    intro start acc ts h ha
    rw [WordPiece.outer] at h
    split at h
    · next hlt =>
      split at h
      · cases h
      · next t hi =>
        refine ih h ?_
        intro t' ht'
        rcases List.mem_append.mp ht' with h1 | h1
        · exact ha t' h1
        · simp only [List.mem_singleton] at h1
          subst h1
          obtain ⟨e1, e2⟩ := inner_ranged hi
          omega
    · cases h; exact ha

/-- WordPiece counts characters, which are no more than bytes. -/
theorem C111_wordPiece (m : WordPiece) : ModelRanged (wordPieceModel m) := by
  intro bs ts h t ht
  unfold wordPieceModel at h
  obtain ⟨l, h1, h⟩ := Res.bind_eq_ok.mp h
  cases h
  have hlen : (decStr bs).length = (explode bs).length := by simp [decStr]
  obtain ⟨hp, hle⟩ := explode_pos bs
  have unk : m.unkToken (decStr bs).length = .ok ts →
      (0 ≤ t.offsets.1 ∧ t.offsets.1 < t.offsets.2 ∧ t.offsets.1 < (bs.length : Int)) ∨ t.offsets = (0, 0) := by
    intro hu
    unfold WordPiece.unkToken at hu
    split at hu
    · cases hu
    · cases hu
      simp only [List.mem_singleton] at ht
      subst ht
      simp only [Prod.mk.injEq, true_and]
      by_cases hb : bs = []
      · subst hb; right; simp [decStr, explode]
      · have := hp hb
        have := List.length_pos_iff.mpr hb
        left; omega
  unfold WordPiece.tokenize at h1
  split at h1
  · exact unk h1
  · split at h1
    · exact unk h1
    · next ho =>
      cases h1
      have := outer_ranged ho (by simp) t ht
      left
      omega

/-! ### Example -/

/-- A tokenizer that makes letters small, cuts at digits and spaces, and has a WordLevel model. -/
def insideTk : Tk :=
  { splitRe := ⟨[], fun _ => []⟩, splitNormalizedRe := ⟨[], fun _ => []⟩
    normalizer := some (fun n => .ok (n.recase fun bs => bs.map (fun b => if 65 ≤ b ∧ b ≤ 90 then b + 32 else b)))
    preTokenizer := some (sequencePre [digits (fun c => c.isDigit) false, delimiterSplit ' '])
    model := some (wordLevelModel (fun w => if w = ['h', 'i'] then some 1 else some 0) ['?']) }

/-- The hypotheses of C111 for `insideTk`, and an encoding of it. -/
example : (∀ f, insideTk.normalizer = some f → LibNorm true f) ∧
    (∀ p, insideTk.preTokenizer = some p → LibPre true p) ∧ (∀ f, insideTk.model = some f → ModelRanged f) ∧
    (insideTk.encodeSingle (.raw (encStr ['H', 'i', ' ', 'é', '1', '2'])) 0 .byte).bind (fun e => .ok (e.ids, e.offsets)) =
      .ok ([1, 0, 0], [(0, 2), (3, 5), (5, 7)]) := by
  refine ⟨?_, ?_, ?_, by decide +kernel⟩
  · rintro f ⟨⟩
    exact .recase true _
  · rintro p ⟨⟩
    refine .sequence true _ ?_
    intro q hq
    simp only [List.mem_cons, List.not_mem_nil, or_false] at hq
    rcases hq with rfl | rfl
    · exact .digits true _ _
    · exact .delimiter true _
  · rintro f ⟨⟩
    exact C111_wordLevel _ _

end Tok.PreTok
