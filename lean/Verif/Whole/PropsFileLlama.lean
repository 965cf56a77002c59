import Verif.Whole.PropsFileWords

/-!
# C132: a BPE tokenizer from a file that writes spaces as a mark

The files of SentencePiece BPE models: the normalizer puts a mark in front of the text and in place of the spaces, there is
no pre-tokenizer, and the decoder turns the marks into spaces and takes the first one away.
-/

namespace Tok.Whole

open Tok.PreTok Tok.Added Tok.Config Tok.Regex
open Tok.Norm (NStr WF replacedText replaceBytes)

/-! ### Specification -/

/-- The normalizer of such a file. -/
def markNorm (r : Char) : NormCfg := .sequence [.prepend [r], .replace false [' '] [r]]

/-- The decoder of such a file. -/
def markDec (r : Char) : DecCfg := .sequence [.replace false [r] [' '], .byteFallback, .fuse, .strip [' '] 1 0]

/-- The text with the marks; nothing is put in front of the empty text. -/
def marked (r : Char) (s : Str) : Str := if s = [] then [] else r :: s.map (fun c => if c = ' ' then r else c)

/-- Such a file. -/
structure MarkFile (E : FileEnv) (c : FileConfig) (r : Char) (v : List (Str × Int)) (es : List (Str × Str))
    (before after : List (Str × Int)) : Prop where
  order : ∀ l, (E.order l).Perm l
  model : ∃ m d, c.model = some m ∧ c.decoder = some d ∧ BpeFile m d v es ∧ DecDesc d (markDec r)
  norm : ∃ n, c.normalizer = some n ∧ NormDesc E.cfg n (markNorm r)
  mark : r ≠ ' '
  pre : c.preTokenizer = none
  proc : Surrounds c.postProcessor before after
  places : ∀ x ∈ before ++ after, x ∈ v ∧ ∃ y ∈ c.addedTokens, y.special = true ∧ y.content = x.1
  truncation : c.truncation = none
  padding : c.padding = none

/-- A character that has a token of its own. -/
def HasToken (v : List (Str × Int)) (ch : Char) : Prop := ∃ id, ([ch], id) ∈ v

/-! ### Lemmas -/

theorem spansFrom_order (ws : List Str) : ∀ (k : Nat), ∀ o ∈ spansFrom k ws, 0 ≤ o.1 ∧ o.1 ≤ o.2 := by
  induction ws with
  | nil => intro k o ho; cases ho
  | cons w ws ih =>
    intro k o ho
    rcases List.mem_cons.mp ho with rfl | ho
    · dsimp only
      omega
    · exact ih _ o ho

/-- A word of known characters. -/
theorem bpe_known (H : Heap) {b : BpeModel} {v : List (Str × Int)} (hpre : b.pre.getD [] = [])
    (hmerge : ∀ x y m p q, b.merges x y = some m → b.vocabR x = some p → b.vocabR y = some q → b.vocabR m.newId = some (p ++ q))
    (hv : ∀ t, b.vocab t = mget v t) (hR : ∀ i t, b.vocabR i = some t ↔ mget v t = some i) (w : Str)
    (hw : ∀ c ∈ w, ∃ i, mget v [c] = some i) :
    ∃ ts, bpeModel H b (encStr w) = .ok (some ts) ∧ (ts.map (·.value)).flatten = w ∧
      (∀ t ∈ ts, t.value ≠ [] ∧ mget v t.value = some t.id ∧ 0 ≤ t.offsets.1 ∧ t.offsets.1 ≤ t.offsets.2) ∧
      ts.map (·.offsets) = spansFrom 0 (ts.map (·.value)) := by
  have hsym : ∀ first (c : Char) i, mget v [c] = some i → symbolId b first c = some i := by
    intro first c i h
    unfold symbolId
    rw [hpre]
    cases first <;> simp [hv, h]
  have hinit : initialSymbols b w ≠ none := by
    have hone : ∀ first c, (∃ i, mget v [c] = some i) → ∃ p, runeSymbol b first c = some p := by
      rintro first c ⟨i, h⟩
      exact ⟨(i, c.utf8Size), by simp [runeSymbol, hsym first c i h]⟩
    have hmany : ∀ w : Str, (∀ c ∈ w, ∃ i, mget v [c] = some i) → ∃ ps, w.mapM (runeSymbol b false) = some ps := by
      intro w
      induction w with
      | nil => intro _; exact ⟨[], rfl⟩
      | cons c w ih =>
        intro hw
        obtain ⟨ps, h⟩ := ih (fun c hc => hw c (by simp [hc]))
        obtain ⟨p, hp⟩ := hone false c (hw c (by simp))
        exact ⟨p :: ps, by rw [List.mapM_cons, hp, h]; rfl⟩
    cases w with
    | nil => simp [initialSymbols]
    | cons c w =>
      obtain ⟨ps, h⟩ := hmany w (fun c hc => hw c (by simp [hc]))
      obtain ⟨p, hp⟩ := hone true c (hw c (by simp))
      simp [initialSymbols, hp, h]
  obtain ⟨qs, ts, e1, e2, e3, e4, e5, e6⟩ := bpe_pieces H b
    (fun id w => (∀ c ∈ w, ∃ i, mget v [c] = some i) → b.vocabR id = some w) (by
      intro first c id hid hc
      obtain ⟨i, hi⟩ := hc c (by simp)
      rw [hsym first c i hi] at hid
      cases hid
      exact (hR _ _).2 hi) (by
      intro x y m p q hxy hp hq hpq
      exact hmerge x y m p q hxy (hp fun c hc => hpq c (by simp [hc])) (hq fun c hc => hpq c (by simp [hc])))
    w hinit
  have hq : ∀ q ∈ qs, b.vocabR q.1 = some q.2 := by
    intro q hq
    apply (e3 q hq).2
    intro c hc
    apply hw
    rw [← e2]
    exact List.mem_flatten.mpr ⟨q.2, List.mem_map_of_mem hq, hc⟩
  have hval : ts.map (·.value) = qs.map (·.2) := by
    rw [e6]
    apply List.map_congr_left
    intro q h
    rw [hq q h]
    rfl
  refine ⟨ts, e1, by rw [hval, e2], ?_, by rw [hval, e4]⟩
  intro t ht
  have hboth : ts.map (fun t => (t.id, t.value)) = qs := by
    have h1 : (ts.map (fun t => (t.id, t.value))).map (·.1) = qs.map (·.1) := by rw [List.map_map]; exact e5
    have h2 : (ts.map (fun t => (t.id, t.value))).map (·.2) = qs.map (·.2) := by rw [List.map_map]; exact hval
    clear e1 e2 e3 e4 e5 e6 hq hval ht
    generalize ts.map (fun t => (t.id, t.value)) = l at h1 h2
    induction l generalizing qs with
    | nil => cases qs with
      | nil => rfl
      | cons q qs => cases h1
    | cons p l ih =>
      cases qs with
      | nil => cases h1
      | cons q qs =>
        simp only [List.map_cons, List.cons.injEq] at h1 h2
        rw [ih qs h1.2 h2.2]
        congr 1
        exact Prod.ext h1.1 h2.1
  have hm : (t.id, t.value) ∈ qs := by rw [← hboth]; exact List.mem_map_of_mem ht
  have ho : t.offsets ∈ spansFrom 0 (qs.map (·.2)) := by rw [← e4]; exact List.mem_map_of_mem ht
  exact ⟨(e3 _ hm).1, (hR _ _).1 (hq _ hm), spansFrom_order _ _ _ ho⟩

/-- A word with unknown characters: each of them is a token of its own, the unknown token. -/
theorem bpe_unknown (H : Heap) {b : BpeModel} {v : List (Str × Int)} (hpre : b.pre.getD [] = [])
    (hmerge : ∀ x y m p q, b.merges x y = some m → b.vocabR x = some p → b.vocabR y = some q → b.vocabR m.newId = some (p ++ q))
    (hv : ∀ t, b.vocab t = mget v t) (hR : ∀ i t, b.vocabR i = some t ↔ mget v t = some i) {unk : Str} {ui : Int}
    (hu : b.unk = some unk) (hui : mget v unk = some ui) (hfree : ∀ x y m, b.merges x y = some m → x ≠ ui ∧ y ≠ ui) (w : Str) :
    ∃ (qs : List Str) (ts : List Token), bpeModel H b (encStr w) = .ok (some ts) ∧ qs.flatten = w ∧
      (∀ q ∈ qs, q ≠ [] ∧ ((mget v q ≠ none ∧ ∀ c ∈ q, mget v [c] ≠ none) ∨ ∃ x, q = [x] ∧ mget v [x] = none)) ∧
      ts.map (·.value) = qs.map (shown v unk) ∧ ts.map (fun t => some t.id) = qs.map (wordId v unk) ∧
      (∀ t ∈ ts, 0 ≤ t.offsets.1 ∧ t.offsets.1 ≤ t.offsets.2) ∧ ts.map (·.offsets) = spansFrom 0 qs := by
  have hsym : ∀ first (c : Char), symbolId b first c = some ((mget v [c]).getD ui) := by
    intro first c
    unfold symbolId
    rw [hpre, hu]
    cases h : mget v [c] <;> cases first <;> simp [hv, h, hui]
  have hinit : initialSymbols b w ≠ none := by
    have hone : ∀ first c, ∃ p, runeSymbol b first c = some p := by
      intro first c
      exact ⟨_, by rw [runeSymbol, hsym first c]; rfl⟩
    have hmany : ∀ w : Str, ∃ ps, w.mapM (runeSymbol b false) = some ps := by
      intro w
      induction w with
      | nil => exact ⟨[], rfl⟩
      | cons c w ih =>
        obtain ⟨ps, h⟩ := ih
        obtain ⟨p, hp⟩ := hone false c
        exact ⟨p :: ps, by rw [List.mapM_cons, hp, h]; rfl⟩
    cases w with
    | nil => simp [initialSymbols]
    | cons c w =>
      obtain ⟨ps, h⟩ := hmany w
      obtain ⟨p, hp⟩ := hone true c
      simp [initialSymbols, hp, h]
  obtain ⟨qs, ts, e1, e2, e3, e4, e5, e6⟩ := bpe_pieces H b
    (fun id w => (b.vocabR id = some w ∧ ∀ c ∈ w, mget v [c] ≠ none) ∨ (id = ui ∧ ∃ x, w = [x] ∧ mget v [x] = none)) (by
      intro first c id hid
      rw [hsym first c] at hid
      cases hc : mget v [c] with
      | none => rw [hc] at hid; cases hid; exact .inr ⟨rfl, c, rfl, hc⟩
      | some i =>
        rw [hc] at hid
        cases hid
        exact .inl ⟨(hR _ _).2 hc, fun d hd => by rw [List.mem_singleton.mp hd, hc]; simp⟩) (by
      intro x y m p q hxy hp hq
      obtain ⟨h1, h2⟩ := hfree x y m hxy
      rcases hp with ⟨p1, p2⟩ | ⟨p1, _⟩
      · rcases hq with ⟨q1, q2⟩ | ⟨q1, _⟩
        · refine .inl ⟨hmerge x y m p q hxy p1 q1, ?_⟩
          intro c hc
          rcases List.mem_append.mp hc with h | h
          · exact p2 c h
          · exact q2 c h
        · exact absurd q1 h2
      · exact absurd p1 h1) w hinit
  have hui' : b.vocabR ui = some unk := (hR _ _).2 hui
  have hq : ∀ q ∈ qs, (b.vocabR q.1).getD [] = shown v unk q.2 ∧ some q.1 = wordId v unk q.2 := by
    intro q hq
    rcases (e3 q hq).2 with ⟨h1, _⟩ | ⟨h1, x, h2, h3⟩
    · have := (hR _ _).1 h1
      rw [h1, shown, wordId, this]
      exact ⟨rfl, rfl⟩
    · rw [h1, hui', shown, wordId, h2, h3, hui]
      exact ⟨rfl, rfl⟩
  refine ⟨qs.map (·.2), ts, e1, e2, ?_, ?_, ?_, ?_, e4⟩
  · intro q hqm
    obtain ⟨p, hp, rfl⟩ := List.mem_map.mp hqm
    refine ⟨(e3 p hp).1, ?_⟩
    rcases (e3 p hp).2 with ⟨h1, h2⟩ | ⟨_, h⟩
    · exact .inl ⟨by rw [(hR _ _).1 h1]; simp, h2⟩
    · exact .inr h
  · rw [e6, List.map_map]
    exact List.map_congr_left (fun q h => (hq q h).1)
  · have : ts.map (fun t => some t.id) = (ts.map (·.id)).map some := by rw [List.map_map]; rfl
    rw [this, e5, List.map_map, List.map_map]
    exact List.map_congr_left (fun q h => (hq q h).2)
  · intro t ht
    have ho : t.offsets ∈ spansFrom 0 (qs.map (·.2)) := by rw [← e4]; exact List.mem_map_of_mem ht
    exact spansFrom_order _ _ _ ho

/-- What is left without the unknown pieces. -/
theorem known_pieces {v : List (Str × Int)} (qs : List Str)
    (h : ∀ q ∈ qs, q ≠ [] ∧ ((mget v q ≠ none ∧ ∀ c ∈ q, mget v [c] ≠ none) ∨ ∃ x, q = [x] ∧ mget v [x] = none)) :
    (qs.filter (fun q => (mget v q).isSome)).flatten = qs.flatten.filter (fun c => (mget v [c]).isSome) := by
  induction qs with
  | nil => rfl
  | cons q qs ih =>
    rw [List.flatten_cons, List.filter_append, ← ih (fun q hq => h q (by simp [hq])), List.filter_cons]
    rcases (h q (by simp)).2 with ⟨h1, h2⟩ | ⟨x, rfl, h1⟩
    · rw [if_pos (Option.isSome_iff_ne_none.mpr h1), List.flatten_cons, List.filter_eq_self.2 (fun c hc => Option.isSome_iff_ne_none.mpr (h2 c hc))]
    · simp [h1]

/-- What the normalizer makes. -/
theorem markNorm_form (E : FileEnv) {r : Char} (hr : r ≠ ' ') (c : Char) (s : Str) (hc : c ≠ '\x00') :
    FirstForm E (markNorm r) (c :: s) (marked r (c :: s)) := by
  obtain ⟨us, h1, h2⟩ := wordCut_exists (w := [' ']) (by simp) (r :: c :: s)
  cases h1 with
  | nil => cases h2
  | hit us h1 =>
    rw [textOf_cons] at h2
    simp only [List.cons_append, List.cons.injEq] at h2
    exact absurd h2.1.symm hr
  | gap t us ht hg hh h1 =>
    cases t with
    | nil => exact absurd rfl ht
    | cons r' q =>
      have h2' := h2
      rw [textOf_cons] at h2
      simp only [List.cons_append, List.cons.injEq] at h2
      obtain ⟨rfl, h2⟩ := h2
      have hcut : WordCut [' '] ((r' :: q, false) :: us) := .gap _ _ ht hg hh h1
      refine .prepended r' c s q [' '] [r'] _ us [] hc (by simp) hcut h2 ?_
      have he : r' :: q ++ replacedText [r'] us = replacedText [r'] ((r' :: q, false) :: us) := by simp [replacedText]
      have : marked r' (c :: s) = r' :: q ++ replacedText [r'] us := by
        rw [he, replacedText_char [r'] hcut, h2', marked, if_neg (by simp), List.flatMap_cons, if_neg hr]
        show _ :: _ = _ :: _
        congr 1
        generalize c :: s = l
        induction l with
        | nil => rfl
        | cons d l ih =>
          rw [List.map_cons, List.flatMap_cons, ih]
          split <;> rfl
      rw [this]
      exact .nil _

theorem replaceBytes_char (r : Char) (t : Str) :
    replaceBytes (encStr [r]) (encStr [' ']) (encStr t) = encStr (t.map (fun c => if c = r then ' ' else c)) := by
  obtain ⟨us, h1, rfl⟩ := wordCut_exists (w := [r]) (by simp) t
  rw [replaceBytes_cut (by simp) [' '] h1, replacedText_char [' '] h1]
  congr 1
  generalize textOf us = l
  induction l with
  | nil => rfl
  | cons d l ih =>
    rw [List.map_cons, List.flatMap_cons, ih]
    split <;> rfl

theorem byteFallback_same (ts : List Bytes) (h : ∀ t ∈ ts, byteOf t = .ok none) : byteFallbackChain ts = .ok ts := by
  have : ∀ (ts out : List Bytes), (∀ t ∈ ts, byteOf t = .ok none) → byteFallbackLoop ts out [] = .ok (out ++ ts) := by
    intro ts
    induction ts with
    | nil => intro out _; simp [byteFallbackLoop, flushRun]
    | cons t ts ih =>
      intro out h
      rw [byteFallbackLoop, h t (by simp)]
      dsimp only
      rw [ih _ (fun t ht => h t (by simp [ht]))]
      simp [flushRun]
  exact this ts [] h

theorem byteOf_none {t : Str} (h : ¬ "<0x".toList <+: t) : byteOf (encStr t) = .ok none := by
  unfold byteOf
  split
  · next a b he =>
    exfalso
    apply h
    exact prefix_enc "<0x".toList t [a, b, 62] (by rw [he]; rfl)
  · rfl

theorem strip_one (s : Str) : stripToken [' '] 1 0 (' ' :: s) = .ok s := by
  have : ∀ l : Str, (l.map (fun c => [c])).flatten = l := by
    intro l
    induction l with
    | nil => rfl
    | cons c l ih => simp [ih]
  have hl : List.take s.length (s.map (fun c => [c])) = s.map (fun c => [c]) := List.take_of_length_le (by simp)
  simp [stripToken, stripStart, stripStop, this, hl]

/-- What the decoder makes of the pieces of a marked text. -/
theorem markDec_text (E : FileEnv) {r : Char} {s : Str} (hrs : r ∉ s) (hbyte : ¬ "<0x".toList <:+: s) (ts : List Str)
    (hts : ts.flatten = r :: s.map (fun c => if c = ' ' then r else c)) : decodeFn E (markDec r) (ts.map encStr) = .ok (encStr s) := by
  have hback : ∀ l : Str, r ∉ l → (l.map (fun c => if c = ' ' then r else c)).map (fun c => if c = r then ' ' else c) = l := by
    intro l
    induction l with
    | nil => intro _; rfl
    | cons d l ih =>
      intro h
      rw [List.map_cons, List.map_cons, ih (fun hh => h (by simp [hh]))]
      congr 1
      by_cases hd : d = ' '
      · simp [hd]
      · have : d ≠ r := fun e => h (by simp [e])
        simp [hd, this]
  have hflat : (ts.map (fun t => t.map (fun c => if c = r then ' ' else c))).flatten = ' ' :: s := by
    rw [← List.map_flatten, hts, List.map_cons, if_pos rfl, hback s hrs]
  have h1 : Norm.replaceChain (replacePat E false [r]) (encStr [' ']) (ts.map encStr) =
      .ok ((ts.map (fun t => t.map (fun c => if c = r then ' ' else c))).map encStr) := by
    rw [replacePat, if_neg (by simp), Norm.C109_string, List.map_map, List.map_map]
    congr 1
    apply List.map_congr_left
    intro t _
    exact replaceBytes_char r t
  have h2 : byteFallbackChain ((ts.map (fun t => t.map (fun c => if c = r then ' ' else c))).map encStr) =
      .ok ((ts.map (fun t => t.map (fun c => if c = r then ' ' else c))).map encStr) := by
    apply byteFallback_same
    intro t ht
    obtain ⟨t', ht', rfl⟩ := List.mem_map.mp ht
    apply byteOf_none
    rintro ⟨y, hy⟩
    obtain ⟨u, v, e⟩ := List.append_of_mem ht'
    rw [e] at hflat
    rw [← hy] at hflat
    simp only [List.flatten_append, List.flatten_cons] at hflat
    cases hu : u.flatten with
    | nil =>
      rw [hu] at hflat
      have := congrArg List.head? hflat
      cases this
    | cons d us =>
      rw [hu] at hflat
      simp only [List.cons_append, List.cons.injEq] at hflat
      exact hbyte ⟨us, y ++ v.flatten, by rw [← hflat.2]; simp⟩
  have h3 : onText fuseChain ((ts.map (fun t => t.map (fun c => if c = r then ' ' else c))).map encStr) =
      .ok [encStr (' ' :: s)] := by
    simp only [onText, List.map_map, Function.comp_def, decStr_enc, fuseChain, Res.bind_ok]
    rw [hflat]
    rfl
  have h4 : onText (stripChain [' '] (1 : Int).toNat (0 : Int).toNat) [encStr (' ' :: s)] = .ok [encStr s] := by
    have := strip_one s
    simp only [onText, List.map_cons, List.map_nil, decStr_enc, stripChain]
    rw [show (1 : Int).toNat = 1 from rfl, show (0 : Int).toNat = 0 from rfl, this]
    rfl
  simp only [markDec, decodeFn, chainFn, chainFns, h1, h2, h3, h4, Res.bind_ok]
  simp

theorem markDec_nothing (E : FileEnv) (r : Char) : decodeFn E (markDec r) [] = .panic := by
  have h : decStr (encStr []) = [] := decStr_enc []
  have h1 : Norm.replaceChain (replacePat E false [r]) (encStr [' ']) [] = .ok [] := by
    rw [replacePat, if_neg (by simp), Norm.C109_string]; rfl
  have h2 : byteFallbackChain [] = .ok [] := rfl
  have h3 : onText fuseChain [] = .ok [encStr []] := rfl
  have h4 : onText (stripChain [' '] (1 : Int).toNat (0 : Int).toNat) [encStr []] = .panic := by
    simp only [onText, List.map_cons, List.map_nil, h]
    rfl
  simp only [markDec, decodeFn, chainFn, chainFns, h1, h2, h3, h4, Res.bind_ok, Res.bind_panic]

theorem bpe_fresh {m : List (Str × Val)} {v : List (Str × Int)} {b : BpeModel} (hv : get m "vocab" = vocabVal v) (hg : GoodVocab v)
    (hR : ∀ i t, b.vocabR i = some t ↔ mget v t = some i) : FreshModel (vocabOf m (.bpe b none)) := by
  have hvl := vocabList_ok hv
  refine ⟨⟨rfl, rfl, rfl, rfl, rfl, rfl, rfl⟩, ?_, ?_, ?_⟩
  · show ((vocabList m).map (·.1)).Nodup
    rw [hvl]; exact hg.names
  · intro w i hw
    have hw : mget v w = some i := by rw [← hvl]; exact hw
    have := hg.range _ ((mget_mem hg.names w i).1 hw)
    show 0 ≤ i ∧ i < ((vocabList m).length : Int)
    rw [hvl]; exact this
  · intro w i
    show b.vocabR i = some w ↔ mget (vocabList m) w = some i
    rw [hvl]; exact hR i w

/-- The tokenizer of such a file and what it does with a text in which no added token occurs. -/
theorem mark_file {E : FileEnv} {c : FileConfig} {r : Char} {v : List (Str × Int)} {es : List (Str × Str)}
    {before after : List (Str × Int)} (hf : MarkFile E c r v es before after) (s : Str) (hnul : s.head? ≠ some '\x00')
    (hadd : ∀ x ∈ c.addedTokens, x.content ≠ [] ∧ x.singleWord = false ∧ ¬ x.content <:+: s ∧ ¬ x.content <:+: marked r s) :
    ∃ (b : Built) (bm : BpeModel), fromReader E (some c) = .ok b ∧ (∃ m d, c.model = some m ∧ BpeFile m d v es ∧
        createModel m d = .ok (.bpe bm none)) ∧
      b.decoder = some (decodeFn E (markDec r)) ∧
      (∀ t i, mget v t = some i → b.state.idToToken i = some t) ∧
      (∀ t, b.state.isSpecial t = true ↔ t ≠ [] ∧ ∃ d ∈ c.addedTokens, d.special = true ∧ d.content = t) ∧
      (∀ ts : List Token, (if s = [] then ts = [] else ts ≠ [] ∧ bpeModel E.heap bm (encStr (marked r s)) = .ok (some ts)) →
        (∀ t ∈ ts, 0 ≤ t.offsets.1 ∧ t.offsets.1 ≤ t.offsets.2) →
        ∃ e, b.tok.encodeSingle (encStr s) [true] = .ok (some e) ∧
          e.tokens = before.map (·.1) ++ ts.map (·.value) ++ after.map (·.1) ∧
          e.ids = before.map (·.2) ++ ts.map (·.id) ++ after.map (·.2)) := by
  obtain ⟨m, d, hm, hd, hb, hdec⟩ := hf.model
  obtain ⟨nm, hnm, hnd⟩ := hf.norm
  obtain ⟨bm, m1, m2, m3, m4, m5, _⟩ := bpe_file hb
  have hst := bpe_fresh hb.vocab hb.good m5
  have hn : NormSection E c.normalizer s (marked r s) := by
    cases s with
    | nil => exact .inr (.inl ⟨nm, _, hnm, hnd, rfl, rfl⟩)
    | cons ch t => exact .inr (.inr (.inl ⟨nm, _, hnm, hnd, markNorm_form E hf.mark ch t (fun e => hnul (by rw [e]; rfl))⟩))
  obtain ⟨n, en, _⟩ := normSection_normalizes hn
  have habs : ∀ t : Str, ∀ x ∈ c.addedTokens, ¬ x.content <:+: t → Absent (n.map (normalizerOf E)) t x.token := by
    intro t x hx ht
    obtain ⟨h0, h1, _⟩ := hadd x hx
    refine ⟨h0, x.content, h0, ht, fun _ => rfl, fun h => ?_⟩
    exact absurd (h1.symm.trans h) (by simp)
  obtain ⟨T, re, reN, k1, k2, k3, k4, k5, k6, k7⟩ := load_quiet hst c.addedTokens E.wordChar
    (norm := n.map (normalizerOf E)) hf.order s (marked r s)
    (fun x hx _ => habs s x hx (hadd x hx).2.2.1) (fun x hx _ => habs _ x hx (hadd x hx).2.2.2)
  obtain ⟨b, b1, b2, b3, b4, _⟩ := file_encode (E := E) (c := c) (by rw [hm, hd]; exact m1) hn
    (g := fun s => [s]) (.inl ⟨hf.pre, fun _ => rfl⟩) hf.proc
    (dec := some (markDec r)) (by rw [hd]; exact fromSection_some (C70_decoder_partial d _ hdec)) hf.truncation hf.padding
    en (by rw [hm]; exact k1) k2 k3 k4 k5
  refine ⟨b, bm, b1, ⟨m, d, hm, hb, m1⟩, b3, ?_, by rw [b2]; exact k7, ?_⟩
  · intro t i h
    rw [b2]
    apply k6
    show mget (vocabList m) t = some i
    rw [vocabList_ok hb.vocab, h]
  · intro ts h1 h2
    obtain ⟨e, l1, l2, l3⟩ := b4 (fun _ => ts) (by
      intro w hw
      unfold piecesOf at hw
      split at hw
      · cases hw
      · next hne =>
        rw [if_neg (fun h => hne (.inl h))] at h1
        obtain rfl := List.mem_singleton.mp hw
        exact ⟨h1.2, h1.1, h2⟩)
    have : (piecesOf (fun s => [s]) s (marked r s)).flatMap (fun _ => ts) = ts := by
      unfold piecesOf
      by_cases hs : s = []
      · rw [if_pos hs] at h1
        simp [h1]
      · rw [if_neg (by simp [hs, marked])]
        simp
    rw [this] at l2 l3
    exact ⟨e, l1, l2, l3⟩

/-! ### C132 -/

/-- C132: the tokenizer of such a file cuts the marked text into tokens of the vocabulary, and decoding gives the text back.
Partial: all characters of the marked text are in the vocabulary, no added token occurs, the mark and "<0x" do not
occur in the text, and the text does not begin with NUL. -/
theorem C132_marks_partial (E : FileEnv) (c : FileConfig) (r : Char) (v : List (Str × Int)) (es : List (Str × Str))
    (before after : List (Str × Int)) (hf : MarkFile E c r v es before after) (s : Str) (hnul : s.head? ≠ some '\x00')
    (hrs : r ∉ s) (hbyte : ¬ "<0x".toList <:+: s) (hknown : ∀ ch ∈ marked r s, HasToken v ch)
    (hadd : ∀ x ∈ c.addedTokens, x.content ≠ [] ∧ x.singleWord = false ∧ ¬ x.content <:+: s ∧ ¬ x.content <:+: marked r s) :
    ∃ b e, fromReader E (some c) = .ok b ∧ b.tok.encodeSingle (encStr s) [true] = .ok (some e) ∧
      (∃ ts : List (Str × Int), (ts.map (·.1)).flatten = marked r s ∧ (∀ t ∈ ts, t.1 ≠ [] ∧ t ∈ v) ∧
        e.tokens = before.map (·.1) ++ ts.map (·.1) ++ after.map (·.1) ∧
        e.ids = before.map (·.2) ++ ts.map (·.2) ++ after.map (·.2)) ∧
      (s ≠ [] → b.decode e.ids true = .ok (encStr s)) := by
  obtain ⟨b, bm, b1, ⟨m, d, _, hb, hm⟩, b3, b4, b5, b6⟩ := mark_file hf s hnul hadd
  obtain ⟨bm', m1, m2, m3, m4, m5, _⟩ := bpe_file hb
  obtain rfl : bm' = bm := by rw [hm] at m1; cases m1; rfl
  obtain ⟨ts, t1, t2, t3, _⟩ := bpe_known E.heap m2 m3 m4 m5 (marked r s) (by
    intro ch hch
    obtain ⟨i, hi⟩ := hknown ch hch
    exact ⟨i, (mget_mem hb.good.names _ _).2 hi⟩)
  obtain ⟨e, e1, e2, e3⟩ := b6 ts (by
    split
    · next hs =>
      rw [hs, marked, if_pos rfl] at t2
      cases ts with
      | nil => rfl
      | cons t ts =>
        have := (t3 t (by simp)).1
        simp [this] at t2
    · next hs =>
      refine ⟨?_, t1⟩
      rintro rfl
      rw [marked, if_neg hs] at t2
      cases t2) (fun t ht => (t3 t ht).2.2)
  have hv : (ts.map (fun t => (t.value, t.id))).map (·.1) = ts.map (·.value) := by rw [List.map_map]; rfl
  have hi : (ts.map (fun t => (t.value, t.id))).map (·.2) = ts.map (·.id) := by rw [List.map_map]; rfl
  refine ⟨b, e, b1, e1, ⟨ts.map (fun t => (t.value, t.id)), by rw [hv, t2], ?_, by rw [hv, e2], by rw [hi, e3]⟩, ?_⟩
  · intro p hp
    obtain ⟨t, ht, rfl⟩ := List.mem_map.mp hp
    exact ⟨(t3 t ht).1, (mget_mem hb.good.names _ _).1 (t3 t ht).2.1⟩
  · intro hs
    have hsp : ∀ x ∈ before ++ after, b.state.idToToken x.2 = some x.1 ∧ b.state.isSpecial x.1 = true := by
      intro x hx
      obtain ⟨g1, y, hy, g2, g3⟩ := hf.places x hx
      exact ⟨b4 _ _ ((mget_mem hb.good.names _ _).2 g1), (b5 _).2 ⟨g3 ▸ (hadd y hy).1, y, hy, g2, g3⟩⟩
    have hkeep : (ts.map (·.value)).filter (fun w => !b.state.isSpecial w) = ts.map (·.value) := by
      apply List.filter_eq_self.2
      intro w hw
      cases hq : b.state.isSpecial w with
      | false => rfl
      | true =>
        obtain ⟨_, y, hy, _, rfl⟩ := (b5 _).1 hq
        exfalso
        apply (hadd y hy).2.2.2
        obtain ⟨p, q, e⟩ := List.append_of_mem hw
        rw [← t2, e]
        exact ⟨p.flatten, q.flatten, by simp⟩
    simp only [Built.decode, b3]
    rw [e3, decodeTokens_append, decodeTokens_append, decodeTokens_special before (fun x hx => hsp x (by simp [hx])),
      decodeTokens_special after (fun x hx => hsp x (by simp [hx])), List.nil_append, List.append_nil, ← hi, kept_filter, hv, hkeep]
    · rw [markDec_text E hrs hbyte _ (by rw [t2, marked, if_neg hs])]
    · intro p hp
      obtain ⟨t, ht, rfl⟩ := List.mem_map.mp hp
      exact b4 _ _ (t3 t ht).2.1

/-- C132: unknown characters. The file names an unknown token, which is a special token and no part of a merge. Each character
without a token becomes this token, and decoding leaves those characters out. -/
theorem C132_unknown_partial (E : FileEnv) (c : FileConfig) (r : Char) (v : List (Str × Int)) (es : List (Str × Str))
    (before after : List (Str × Int)) (hf : MarkFile E c r v es before after) (unk : Str) (ui : Int)
    (hunk : ∀ m, c.model = some m → IsOpt m "unk_token" .str (some unk)) (hui : (unk, ui) ∈ v)
    (hspec : ∃ y ∈ c.addedTokens, y.special = true ∧ y.content = unk) (hfree : ∀ e ∈ es, e.1 ≠ unk ∧ e.2 ≠ unk)
    (s : Str) (hs : s ≠ []) (hnul : s.head? ≠ some '\x00') (hrs : r ∉ s) (hr : HasToken v r)
    (hbyte : ¬ "<0x".toList <:+: s.filter (fun ch => ch = ' ' ∨ (mget v [ch]).isSome))
    (hadd : ∀ x ∈ c.addedTokens, x.content ≠ [] ∧ x.singleWord = false ∧ ¬ x.content <:+: s ∧ ¬ x.content <:+: marked r s) :
    ∃ b e, fromReader E (some c) = .ok b ∧ b.tok.encodeSingle (encStr s) [true] = .ok (some e) ∧
      (∃ qs : List Str, qs.flatten = marked r s ∧
        (∀ q ∈ qs, q ≠ [] ∧ ((mget v q ≠ none ∧ ∀ ch ∈ q, HasToken v ch) ∨ ∃ x, q = [x] ∧ ¬ HasToken v x)) ∧
        e.tokens = before.map (·.1) ++ qs.map (shown v unk) ++ after.map (·.1) ∧
        e.ids.map some = before.map (fun p => some p.2) ++ qs.map (wordId v unk) ++ after.map (fun p => some p.2)) ∧
      b.decode e.ids true = .ok (encStr (s.filter (fun ch => ch = ' ' ∨ (mget v [ch]).isSome))) := by
  obtain ⟨b, bm, b1, ⟨m, d, hcm, hb, hm⟩, b3, b4, b5, b6⟩ := mark_file hf s hnul hadd
  obtain ⟨bm', m1, m2, m3, m4, m5, m6, m7⟩ := bpe_file hb
  obtain rfl : bm' = bm := by rw [hm] at m1; cases m1; rfl
  have hv : ∀ t i, mget v t = some i ↔ (t, i) ∈ v := mget_mem hb.good.names
  have htok : ∀ ch, mget v [ch] ≠ none ↔ HasToken v ch := by
    intro ch
    rw [Option.ne_none_iff_exists']
    exact exists_congr fun i => hv _ _
  have hui' := (hv _ _).2 hui
  obtain ⟨qs, ts, t1, t2, t3, t4, t5, t6, _⟩ := bpe_unknown E.heap m2 m3 m4 m5 (m7 _ (hunk m hcm)) hui' (by
    intro x y mm hxy
    obtain ⟨e, he, h1, h2⟩ := m6 x y mm hxy
    constructor
    · rintro rfl
      exact (hfree e he).1 (nodup_fst hb.good.ids hui ((hv _ _).1 h1))
    · rintro rfl
      exact (hfree e he).2 (nodup_fst hb.good.ids hui ((hv _ _).1 h2))) (marked r s)
  obtain ⟨e, e1, e2, e3⟩ := b6 ts (by
    rw [if_neg hs]
    refine ⟨?_, t1⟩
    rintro rfl
    cases qs with
    | nil =>
      rw [marked, if_neg hs] at t2
      cases t2
    | cons q qs => cases t4) t6
  refine ⟨b, e, b1, e1, ⟨qs, t2, ?_, by rw [e2, t4], ?_⟩, ?_⟩
  · intro q hq
    refine ⟨(t3 q hq).1, ?_⟩
    rcases (t3 q hq).2 with ⟨h1, h2⟩ | ⟨x, h1, h2⟩
    · exact .inl ⟨h1, fun ch hch => (htok ch).1 (h2 ch hch)⟩
    · exact .inr ⟨x, h1, fun h => (htok x).2 h h2⟩
  · rw [e3, List.map_append, List.map_append, ← t5, List.map_map, List.map_map, List.map_map]
    rfl
  · have hsp : ∀ x ∈ before ++ after, b.state.idToToken x.2 = some x.1 ∧ b.state.isSpecial x.1 = true := by
      intro x hx
      obtain ⟨g1, y, hy, g2, g3⟩ := hf.places x hx
      exact ⟨b4 _ _ ((hv _ _).2 g1), (b5 _).2 ⟨g3 ▸ (hadd y hy).1, y, hy, g2, g3⟩⟩
    have hunksp : b.state.isSpecial unk = true := by
      obtain ⟨y, hy, g2, g3⟩ := hspec
      exact (b5 _).2 ⟨g3 ▸ (hadd y hy).1, y, hy, g2, g3⟩
    have hkeep : ∀ l : List Str, (∀ q ∈ l, q ∈ qs) → (l.map (shown v unk)).filter (fun w => !b.state.isSpecial w) =
        l.filter (fun q => (mget v q).isSome) := by
      intro l
      induction l with
      | nil => intro _; rfl
      | cons q l ih =>
        intro hl
        rw [List.map_cons, List.filter_cons, List.filter_cons, ih (fun q hq => hl q (by simp [hq]))]
        cases hq : mget v q with
        | none => simp [shown, hq, hunksp]
        | some i =>
          have : b.state.isSpecial q = false := by
            cases hq' : b.state.isSpecial q with
            | false => rfl
            | true =>
              obtain ⟨_, y, hy, _, rfl⟩ := (b5 _).1 hq'
              exfalso
              apply (hadd y hy).2.2.2
              obtain ⟨p, p', e'⟩ := List.append_of_mem (hl y.content (by simp))
              rw [← t2, e']
              exact ⟨p.flatten, p'.flatten, by simp⟩
          simp [shown, hq, this]
    have hi : (ts.map (fun t => (t.value, t.id))).map (·.2) = ts.map (·.id) := by rw [List.map_map]; rfl
    have hval : (ts.map (fun t => (t.value, t.id))).map (·.1) = ts.map (·.value) := by rw [List.map_map]; rfl
    have hpair : ∀ t ∈ ts, mget v t.value = some t.id := by
      have : ∀ (ts : List Token) (qs : List Str), ts.map (·.value) = qs.map (shown v unk) →
          ts.map (fun t => some t.id) = qs.map (wordId v unk) → ∀ t ∈ ts, mget v t.value = some t.id := by
        intro ts
        induction ts with
        | nil => intro qs _ _ t ht; cases ht
        | cons a ts ih =>
          intro qs h1 h2 t ht
          cases qs with
          | nil => cases h1
          | cons q qs =>
            simp only [List.map_cons, List.cons.injEq] at h1 h2
            rcases List.mem_cons.mp ht with rfl | ht
            · rw [h1.1, h2.1]
              unfold shown wordId
              cases hq : mget v q with
              | none => simp
              | some i => simp [hq]
            · exact ih qs h1.2 h2.2 t ht
      exact this ts qs t4 t5
    simp only [Built.decode, b3]
    rw [e3, decodeTokens_append, decodeTokens_append, decodeTokens_special before (fun x hx => hsp x (by simp [hx])),
      decodeTokens_special after (fun x hx => hsp x (by simp [hx])), List.nil_append, List.append_nil, ← hi, kept_filter, hval, t4,
      hkeep qs (fun _ h => h)]
    · apply markDec_text E (fun h => hrs (List.mem_filter.mp h).1) hbyte
      rw [known_pieces qs t3, t2, marked, if_neg hs, List.filter_cons, if_pos (Option.isSome_iff_ne_none.mpr ((htok r).2 hr))]
      congr 1
      clear hbyte hadd b6 e1 e2 e3 t1 t2 hs hnul hrs
      induction s with
      | nil => rfl
      | cons d s ih =>
        rw [List.map_cons, List.filter_cons, List.filter_cons, ih]
        by_cases hd : d = ' '
        · rw [if_pos hd, if_pos (Option.isSome_iff_ne_none.mpr ((htok r).2 hr)), if_pos (by simp [hd]), List.map_cons, if_pos hd]
        · rw [if_neg hd]
          by_cases hk : (mget v [d]).isSome
          · rw [if_pos hk, if_pos (by simp [hk]), List.map_cons, if_neg hd]
          · rw [if_neg hk, if_neg (by simp [hd, hk])]
    · intro p hp
      obtain ⟨t, ht, rfl⟩ := List.mem_map.mp hp
      exact b4 _ _ (hpair t ht)

/-- "byte_fallback" has no effect: although the file asks for it and the vocabulary has a token for every byte, no text with a
character without a token comes back. -/
theorem C132_fallback_violated (E : FileEnv) (c : FileConfig) (r : Char) (v : List (Str × Int)) (es : List (Str × Str))
    (before after : List (Str × Int)) (hf : MarkFile E c r v es before after) (unk : Str) (ui : Int)
    (hunk : ∀ m, c.model = some m → IsOpt m "unk_token" .str (some unk)) (hui : (unk, ui) ∈ v)
    (hspec : ∃ y ∈ c.addedTokens, y.special = true ∧ y.content = unk) (hfree : ∀ e ∈ es, e.1 ≠ unk ∧ e.2 ≠ unk)
    (_hfall : ∃ m, c.model = some m ∧ get m "byte_fallback" = .bool true) (_hall : ∀ x : UInt8, ∃ id, (decStr (Unigram.byteToken x), id) ∈ v)
    (s : Str) (hnul : s.head? ≠ some '\x00') (hrs : r ∉ s) (hr : HasToken v r) (hbyte : '<' ∉ s)
    (x : Char) (hx : x ∈ s) (hx' : x ≠ ' ') (hxu : ¬ HasToken v x)
    (hadd : ∀ x ∈ c.addedTokens, x.content ≠ [] ∧ x.singleWord = false ∧ ¬ x.content <:+: s ∧ ¬ x.content <:+: marked r s) :
    ∃ b e out, fromReader E (some c) = .ok b ∧ b.tok.encodeSingle (encStr s) [true] = .ok (some e) ∧
      b.decode e.ids true = .ok out ∧ out ≠ encStr s := by
  have hs : s ≠ [] := by rintro rfl; cases hx
  obtain ⟨b, e, h1, h2, _, h3⟩ := C132_unknown_partial E c r v es before after hf unk ui hunk hui hspec hfree s hs hnul hrs hr (by
    rintro ⟨p, q, h⟩
    apply hbyte
    have : '<' ∈ s.filter (fun ch => ch = ' ' ∨ (mget v [ch]).isSome) := by rw [← h]; simp
    exact (List.mem_filter.mp this).1) hadd
  refine ⟨b, e, _, h1, h2, h3, ?_⟩
  intro h
  have h := congrArg decStr h
  rw [decStr_enc, decStr_enc] at h
  have hx2 := hx
  rw [← h] at hx2
  have := (List.mem_filter.mp hx2).2
  obtain ⟨m, d, _, _, hb, _⟩ := hf.model
  apply hxu
  simp only [hx', decide_eq_true_eq, false_or] at this
  obtain ⟨i, hi⟩ := Option.isSome_iff_exists.mp this
  exact ⟨i, (mget_mem hb.good.names _ _).1 hi⟩

/-- The encoding of the empty text cannot be decoded: the decoder panics. -/
theorem C132_empty_violated (E : FileEnv) (c : FileConfig) (r : Char) (v : List (Str × Int)) (es : List (Str × Str))
    (before after : List (Str × Int)) (hf : MarkFile E c r v es before after)
    (hadd : ∀ x ∈ c.addedTokens, x.content ≠ [] ∧ x.singleWord = false) :
    ∃ b e, fromReader E (some c) = .ok b ∧ b.tok.encodeSingle (encStr []) [true] = .ok (some e) ∧
      e.ids = before.map (·.2) ++ after.map (·.2) ∧ b.decode e.ids true = .panic ∧ b.decode [] true = .panic := by
  have hadd' : ∀ x ∈ c.addedTokens, x.content ≠ [] ∧ x.singleWord = false ∧ ¬ x.content <:+: ([] : Str) ∧
      ¬ x.content <:+: marked r [] := by
    intro x hx
    obtain ⟨h1, h2⟩ := hadd x hx
    refine ⟨h1, h2, ?_, ?_⟩
    · intro h; exact h1 (List.infix_nil.mp h)
    · intro h
      rw [marked, if_pos rfl] at h
      exact h1 (List.infix_nil.mp h)
  obtain ⟨b, bm, b1, ⟨m, d, _, hb, hm⟩, b3, b4, b5, b6⟩ := mark_file hf [] (by simp) hadd'
  obtain ⟨e, e1, e2, e3⟩ := b6 [] (by simp) (by simp)
  have hsp : ∀ x ∈ before ++ after, b.state.idToToken x.2 = some x.1 ∧ b.state.isSpecial x.1 = true := by
    intro x hx
    obtain ⟨g1, y, hy, g2, g3⟩ := hf.places x hx
    exact ⟨b4 _ _ ((mget_mem hb.good.names _ _).2 g1), (b5 _).2 ⟨g3 ▸ (hadd y hy).1, y, hy, g2, g3⟩⟩
  refine ⟨b, e, b1, e1, by rw [e3]; simp, ?_, ?_⟩
  · simp only [Built.decode, b3]
    rw [e3, decodeTokens_append, decodeTokens_append, decodeTokens_special before (fun x hx => hsp x (by simp [hx])),
      decodeTokens_special after (fun x hx => hsp x (by simp [hx]))]
    exact markDec_nothing E r
  · simp only [Built.decode, b3]
    exact markDec_nothing E r

/-! ### A case -/

/-- The unknown token, a token put in front, three characters, a merged token, and a token for each byte. -/
def exampleMarkVocab : List (Str × Int) :=
  [("<unk>".toList, 0), ("<s>".toList, 1), (['▁'], 2), (['a'], 3), (['b'], 4), (['▁', 'a'], 5)] ++
    (List.range 256).map (fun i => (decStr (Unigram.byteToken (UInt8.ofNat i)), (i : Int) + 6))

/-- The section "decoder". -/
def exampleMarkDec : List (Str × Val) :=
  [("type".toList, .str "Sequence".toList), ("decoders".toList, .arr ([
    [("type".toList, .str "Replace".toList), ("pattern".toList, .obj [("String".toList, .str ['▁'])]), ("content".toList, .str [' '])],
    [("type".toList, .str "ByteFallback".toList)], [("type".toList, .str "Fuse".toList)],
    [("type".toList, .str "Strip".toList), ("content".toList, .str [' ']), ("start".toList, .float 1),
     ("stop".toList, .float 0)]].map .obj))]

/-- The section "normalizer". -/
def exampleMarkNorm : List (Str × Val) :=
  [("type".toList, .str "Sequence".toList), ("normalizers".toList, .arr ([
    [("type".toList, .str "Prepend".toList), ("prepend".toList, .str ['▁'])],
    [("type".toList, .str "Replace".toList), ("pattern".toList, .obj [("String".toList, .str [' '])]), ("content".toList, .str ['▁'])]].map .obj))]

/-- The section "model". -/
def exampleMarkModel : List (Str × Val) :=
  [("type".toList, .str "BPE".toList), ("unk_token".toList, .str "<unk>".toList), ("byte_fallback".toList, .bool true),
   ("vocab".toList, vocabVal exampleMarkVocab), ("merges".toList, .arr [.str "▁ a".toList])]

/-- The section "post_processor". -/
def exampleMarkProc : List (Str × Val) :=
  [("type".toList, .str "TemplateProcessing".toList),
   ("single".toList, .arr ((surround [("<s>".toList, 1)] [] 0).map pieceVal)), ("pair".toList, .arr []),
   ("special_tokens".toList, .obj ([⟨"<s>".toList, [1], ["<s>".toList]⟩].map tokenVal))]

/-- The file. -/
def exampleMarkFile : FileConfig where
  model := some exampleMarkModel
  decoder := some exampleMarkDec
  normalizer := some exampleMarkNorm
  preTokenizer := none
  postProcessor := some exampleMarkProc
  addedTokens := [{ id := 0, content := "<unk>".toList, special := true }, { id := 1, content := "<s>".toList, special := true }]
  truncation := none
  padding := none

/-- The byte of the text of a byte token. -/
def byteBack (t : Str) : Nat :=
  let hex := fun c : Char => if c.toNat < 58 then c.toNat - 48 else c.toNat - 55
  16 * hex (t.getD 3 '0') + hex (t.getD 4 '0')

theorem exampleMark_names : (exampleMarkVocab.map (·.1)).Nodup := by
  have h1 : ∀ i ∈ List.range 256, byteBack (decStr (Unigram.byteToken (UInt8.ofNat i))) = i := by decide +kernel
  have h2 : ((List.range 256).map (fun i => decStr (Unigram.byteToken (UInt8.ofNat i)))).Nodup := by
    refine List.Pairwise.of_map (S := (· ≠ ·)) byteBack (fun a b h e => h (by rw [e])) ?_
    have h : (List.range 256).map (byteBack ∘ fun i => decStr (Unigram.byteToken (UInt8.ofNat i))) = List.range 256 := by
      refine (List.map_congr_left (g := id) h1).trans (List.map_id _)
    rw [List.map_map, h]
    exact List.nodup_range
  have h3 : ∀ i ∈ List.range 256, (decStr (Unigram.byteToken (UInt8.ofNat i))).length = 6 := by decide +kernel
  rw [exampleMarkVocab, List.map_append, List.nodup_append]
  refine ⟨by decide +kernel, by rw [List.map_map]; exact h2, ?_⟩
  rintro a ha b hb rfl
  rw [List.map_map] at hb
  obtain ⟨i, hi, rfl⟩ := List.mem_map.mp hb
  have h4 := h3 i hi
  simp only [List.map_cons, List.map_nil, List.mem_cons, List.not_mem_nil, or_false] at ha
  have h5 : ∀ t ∈ ["<unk>".toList, "<s>".toList, ['▁'], ['a'], ['b'], ['▁', 'a']], t.length ≠ 6 := by decide
  exact h5 _ (by simpa using ha) h4

theorem exampleMark_bpe : BpeFile exampleMarkModel exampleMarkDec exampleMarkVocab [(['▁'], ['a'])] where
  type := .given _ (by rfl)
  vocab := by rfl
  merges := ⟨_, rfl, .cons _ _ _ _ (.line ['▁'] ['a']) .nil⟩
  dropout := by rfl
  unk := ⟨some "<unk>".toList, by rfl⟩
  subword := .inl (by rfl)
  suffix := ⟨none, by rfl⟩
  good := ⟨exampleMark_names, by decide +kernel, by decide +kernel⟩
  closed := by
    intro e he
    cases List.mem_singleton.mp he
    exact ⟨by decide, by decide, 5, by decide +kernel⟩

theorem exampleMark_file (E : FileEnv) (ho : ∀ l, (E.order l).Perm l) :
    MarkFile E exampleMarkFile '▁' exampleMarkVocab [(['▁'], ['a'])] [("<s>".toList, 1)] [] where
  order := ho
  model := by
    refine ⟨exampleMarkModel, exampleMarkDec, rfl, rfl, exampleMark_bpe, ?_⟩
    · refine .sequence _ _ _ (by unfold TypeIs; rfl) rfl rfl ?_
      intro i x c hx hc
      match i with
      | 0 => cases hx; cases hc; exact .replace _ _ _ _ (by unfold TypeIs; rfl) rfl (by unfold StrIs; rfl) (by unfold StrIs; rfl)
      | 1 => cases hx; cases hc; exact .byteFallback _ (by unfold TypeIs; rfl)
      | 2 => cases hx; cases hc; exact .fuse _ (by unfold TypeIs; rfl)
      | 3 => cases hx; cases hc; exact .strip _ _ _ _ (by unfold TypeIs; rfl) (by unfold StrIs; rfl) rfl rfl
      | n + 4 => cases hc
  norm := by
    refine ⟨_, rfl, .sequence _ _ _ (by unfold TypeIs; rfl) rfl rfl ?_⟩
    intro i x c hx hc
    match i with
    | 0 => cases hx; cases hc; exact .prepend _ _ (by unfold TypeIs; rfl) (by unfold StrIs; rfl)
    | 1 => cases hx; cases hc; exact .replace _ _ _ _ (by unfold TypeIs; rfl) rfl (by unfold StrIs; rfl) (by unfold StrIs; rfl)
    | n + 2 => cases hc
  mark := by decide
  pre := rfl
  proc := .inr ⟨_, rfl, .one _ _ _ (.template _ _ _ 0 [] _ (by unfold TypeIs; rfl) rfl rfl rfl (by decide) (by simp))⟩
  places := by
    intro x hx
    simp only [List.append_nil, List.mem_singleton] at hx
    subst hx
    exact ⟨by decide +kernel, { id := 1, content := "<s>".toList, special := true }, by simp [exampleMarkFile], rfl, rfl⟩
  truncation := rfl
  padding := rfl

theorem exampleMark_added (s : Str) (h : '<' ∉ s) : ∀ x ∈ exampleMarkFile.addedTokens,
    x.content ≠ [] ∧ x.singleWord = false ∧ ¬ x.content <:+: s ∧ ¬ x.content <:+: marked '▁' s := by
  have hm : '<' ∉ marked '▁' s := by
    unfold marked
    split
    · simp
    · intro hh
      rcases List.mem_cons.mp hh with hh | hh
      · cases hh
      · obtain ⟨c, hc, e⟩ := List.mem_map.mp hh
        split at e
        · cases e
        · rw [e] at hc; exact h hc
  intro x hx
  have hlt : '<' ∈ x.content ∧ x.singleWord = false := by
    simp only [exampleMarkFile, List.mem_cons, List.not_mem_nil, or_false] at hx
    rcases hx with rfl | rfl
    · exact ⟨by decide, rfl⟩
    · exact ⟨by decide, rfl⟩
  exact ⟨List.ne_nil_of_mem hlt.1, hlt.2, fun hi => h (hi.subset hlt.1), fun hi => hm (hi.subset hlt.1)⟩

example (E : FileEnv) (ho : ∀ l, (E.order l).Perm l) : ∃ b e, fromReader E (some exampleMarkFile) = .ok b ∧
    b.tok.encodeSingle (encStr "a ba".toList) [true] = .ok (some e) ∧ b.decode e.ids true = .ok (encStr "a ba".toList) := by
  obtain ⟨b, e, h1, h2, _, h3⟩ := C132_marks_partial E _ _ _ _ _ _ (exampleMark_file E ho) "a ba".toList (by decide) (by decide)
    (by decide +kernel) (by
      intro ch hch
      have : ch = '▁' ∨ ch = 'a' ∨ ch = 'b' := by
        have : marked '▁' "a ba".toList = ['▁', 'a', '▁', 'b', 'a'] := by decide +kernel
        rw [this] at hch
        simp at hch
        rcases hch with h | h | h | h | h <;> simp [h]
      rcases this with rfl | rfl | rfl
      · exact ⟨2, by decide +kernel⟩
      · exact ⟨3, by decide +kernel⟩
      · exact ⟨4, by decide +kernel⟩) (exampleMark_added _ (by decide))
  exact ⟨b, e, h1, h2, h3 (by decide)⟩

-- byte fallback
example (E : FileEnv) (ho : ∀ l, (E.order l).Perm l) : ∃ b e out, fromReader E (some exampleMarkFile) = .ok b ∧
    b.tok.encodeSingle (encStr "aé b".toList) [true] = .ok (some e) ∧ b.decode e.ids true = .ok out ∧
    out ≠ encStr "aé b".toList :=
  C132_fallback_violated E _ _ _ _ _ _ (exampleMark_file E ho) "<unk>".toList 0
    (by intro m hm; cases hm; rfl) (by decide +kernel) ⟨_, List.mem_cons_self, rfl, rfl⟩
    (by intro e he; cases List.mem_singleton.mp he; decide) ⟨_, rfl, rfl⟩
    (by
      intro x
      refine ⟨(x.toNat : Int) + 6, List.mem_append_right _ (List.mem_map.mpr ⟨x.toNat, List.mem_range.mpr x.toNat_lt, by simp⟩)⟩)
    "aé b".toList (by decide) (by decide) ⟨2, by decide +kernel⟩ (by decide) 'é' (by decide) (by decide)
    (by
      rintro ⟨id, h⟩
      have h : ['é'] ∈ exampleMarkVocab.map (·.1) := List.mem_map_of_mem (f := Prod.fst) h
      exact absurd h (by decide +kernel))
    (exampleMark_added _ (by decide))

end Tok.Whole
