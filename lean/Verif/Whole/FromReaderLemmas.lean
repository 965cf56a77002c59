import Verif.Whole.FromReader
import Verif.Whole.PropsPresetsBert
import Verif.Vocab.PropsFlags
import Verif.Config.PropsComponents
import Verif.Added.PropsEncode

/-!
# Lemmas about the tokenizer from a file
-/

namespace Tok.Whole

open Tok.PreTok Tok.Added Tok.Config
open Tok.Norm (NStr)

/-- The vocabulary of a file is in order: no name and no id twice, ids from 0 on without gaps. -/
structure GoodVocab (v : List (Str × Int)) : Prop where
  names : (v.map (·.1)).Nodup
  ids : (v.map (·.2)).Nodup
  range : ∀ e ∈ v, 0 ≤ e.2 ∧ e.2 < v.length

theorem mget_mem {v : List (Str × Int)} (h : (v.map (·.1)).Nodup) (t : Str) (i : Int) :
    mget v t = some i ↔ (t, i) ∈ v :=
  ⟨mem_of_mget, mget_of_mem h⟩

theorem nodup_fst {v : List (Str × Int)} (h : (v.map (·.2)).Nodup) {a b : Str} {i : Int} (ha : (a, i) ∈ v) (hb : (b, i) ∈ v) :
    b = a := by
  induction v with
  | nil => cases ha
  | cons e v ih =>
    rw [List.map_cons, List.nodup_cons] at h
    rcases List.mem_cons.mp ha with ha | ha <;> rcases List.mem_cons.mp hb with hb | hb
    · rw [← ha] at hb; cases hb; rfl
    · exact absurd (List.mem_map.mpr ⟨_, hb, by rw [← ha]⟩) h.1
    · exact absurd (List.mem_map.mpr ⟨_, ha, by rw [← hb]⟩) h.1
    · exact ih h.2 ha hb

theorem reverse_good {v : List (Str × Int)} (h : GoodVocab v) (t : Str) (i : Int) :
    reverseVocab v i = some t ↔ mget v t = some i := by
  rw [mget_mem h.names]
  constructor
  · exact reverseVocab_some v i t
  · intro hm
    obtain ⟨t', ht⟩ := Option.isSome_iff_exists.mp (reverseVocab_mem v i t hm)
    have h2 := reverseVocab_some v i t' ht
    have := nodup_fst h.ids hm h2
    rw [ht, this]

theorem fresh_good {v : List (Str × Int)} (h : GoodVocab v) :
    FreshModel { vocab := v, vocabR := reverseVocab v, fixedSize := none } where
  noAdded := ⟨rfl, rfl, rfl, rfl, rfl, rfl, rfl⟩
  keys := h.names
  ids := by
    intro c i hc
    exact h.range _ ((mget_mem h.names c i).1 hc)
  inverse := fun c i => reverse_good h c i

theorem vocabList_ok {m : List (Str × Val)} {v : List (Str × Int)} (h : get m "vocab" = vocabVal v) : vocabList m = v := by
  unfold vocabList
  rw [h]
  simp only [vocabVal, castVocab_ok]

/-- Added tokens that can be searched for and are not in the text. -/
def Absent (norm : Option (NStr → Res NStr)) (s : Str) (t : AddedToken) : Prop :=
  t.content ≠ [] ∧ ∃ w, w ≠ [] ∧ ¬ w <:+: s ∧ (t.singleWord = false → w = t.content) ∧ (t.singleWord = true → Gives norm t.content w)

theorem pattern_quiet {wordChar : Char → Bool} {norm : Option (NStr → Res NStr)} {s : Str} {t : AddedToken}
    (h : Absent norm s t) {re : Pat} (hr : getPattern wordChar norm t = .ok re) : re.engine (encStr s) = [] := by
  obtain ⟨h0, w, hw, hi, h1, h2⟩ := h
  unfold getPattern core at hr
  apply List.eq_nil_iff_forall_not_mem.mpr
  intro p hp
  cases hs : t.singleWord with
  | false =>
    rw [hs] at hr
    cases hr
    rw [← h1 hs] at hp
    obtain ⟨u, a, m, b, v, e, _, rfl, _⟩ := (lit_spec hw t.lstrip t.rstrip s).sound p hp
    exact hi ⟨u ++ a, b ++ v, by rw [e]; simp⟩
  | true =>
    have hg := (h2 hs).content
    cases hc : t.content with
    | nil => exact h0 hc
    | cons c cs =>
      simp only [hs, hc, if_true] at hr
      rw [hc] at hg
      rw [hg] at hr
      cases hr
      obtain ⟨u, a, m, b, v, e, _, ⟨rfl, _⟩, _⟩ := (word_spec wordChar c _ hw t.lstrip t.rstrip s).sound p hp
      exact hi ⟨u ++ a, b ++ v, by rw [e]; simp⟩

theorem set_quiet (wordChar : Char → Bool) {norm : Option (NStr → Res NStr)} (order : List PatMatch → List PatMatch)
    (ho : Permutes order) {es : List (AddedToken × Int)} {s : Str} (h : ∀ e ∈ es, Absent norm s e.1) :
    ∃ re, buildSet wordChar norm order es = .ok re ∧ re.engine (encStr s) = [] := by
  obtain ⟨res, h1, h2, _, h3⟩ := buildPatterns_ok (wordChar := wordChar) (norm := norm) (es := es) (by
    intro e he
    obtain ⟨h0, w, hw, _, _, h2⟩ := h e he
    exact ⟨h0, fun hs => ⟨w, h2 hs, hw⟩⟩)
  refine ⟨⟨es.map (·.2), fun bs => order (allMatches res bs)⟩, by simp only [buildSet, h1, Res.bind_ok], ?_⟩
  dsimp only
  have : allMatches res (encStr s) = [] := by
    apply List.eq_nil_iff_forall_not_mem.mpr
    intro m hm
    obtain ⟨re, hr, hm⟩ := mem_allMatches.mp hm
    have hlt : m.pat < es.length := by rw [← h2]; exact (List.getElem?_eq_some_iff.mp hr).1
    obtain ⟨re', h4, h5⟩ := h3 m.pat es[m.pat] (List.getElem?_eq_getElem hlt)
    rw [hr] at h4
    cases h4
    rw [pattern_quiet (h _ (List.getElem_mem hlt)) h5] at hm
    cases hm
  rw [this]
  exact List.perm_nil.mp (ho [])

/-- Loading the added tokens of a file. -/
theorem load_quiet {T₀ : VocabState} (h₀ : FreshModel T₀) (cfg : List TokenConfig) (wordChar : Char → Bool)
    {norm : Option (NStr → Res NStr)} {order : List PatMatch → List PatMatch} (ho : Permutes order) (s u : Str)
    (h1 : ∀ d ∈ cfg, d.normalized = false → Absent norm s d.token)
    (h2 : ∀ d ∈ cfg, d.normalized = true → Absent norm u d.token) :
    ∃ T re reN, loadAdded T₀ cfg = .ok T ∧ buildSet wordChar norm order T.splitRe = .ok re ∧
      buildSet wordChar norm order T.splitNormalizedRe = .ok reN ∧ re.engine (encStr s) = [] ∧ reN.engine (encStr u) = [] ∧
      (∀ c i, mget T₀.vocab c = some i → T.idToToken i = some c) ∧
      (∀ c, T.isSpecial c = true ↔ c ≠ [] ∧ ∃ d ∈ cfg, d.special = true ∧ d.content = c) := by
  obtain ⟨T₁, T, e, r1, r2, _⟩ := load_steps h₀ cfg
  obtain ⟨f1, f2, f3, _⟩ := C71_flags h₀ cfg T e
  have back : ∀ p ∈ T.splitRe ++ T.splitNormalizedRe, ∃ d ∈ cfg, p.1 = d.token := by
    intro p hp
    obtain ⟨d, hd, g1, g2, g3, g4, g5, _⟩ := f1 p hp
    refine ⟨d, hd, ?_⟩
    obtain ⟨⟨_, _, _, _, _⟩, _⟩ := p
    simp only [TokenConfig.token] at *
    simp [g1, g2, g3, g4, g5]
  obtain ⟨re, k1, k2⟩ := set_quiet wordChar order ho (norm := norm) (es := T.splitRe) (s := s) (by
    intro p hp
    obtain ⟨d, hd, hh⟩ := back p (by simp [hp])
    have := f2 p hp
    rw [hh] at this ⊢
    exact h1 d hd this)
  obtain ⟨reN, k3, k4⟩ := set_quiet wordChar order ho (norm := norm) (es := T.splitNormalizedRe) (s := u) (by
    intro p hp
    obtain ⟨d, hd, hh⟩ := back p (by simp [hp])
    have := f3 p hp
    rw [hh] at this ⊢
    exact h2 d hd this)
  refine ⟨T, re, reN, e, k1, k3, k2, k4, ?_, ?_⟩
  · intro c i hc
    have := (C71_ids h₀ cfg T e).1 c i hc
    exact ((r2.full (r1.full h₀.full)).inv.roundtrip c i).1 this
  · obtain ⟨T', e', _, h⟩ := C71_known h₀ cfg
    rw [e] at e'
    cases e'
    exact h

theorem fromSection_some {f : List (Str × Val) → Res α} {m : List (Str × Val)} {x : α} (h : f m = .ok x) :
    fromSection f (some m) = .ok (some x) := by
  simp only [fromSection, h, Res.bind_ok]

theorem fromReader_ok {E : FileEnv} {c : FileConfig} {a : AnyModel} {n : Option NormCfg} {pre : Option PreCfg}
    {proc : Option ProcCfg} {dec : Option DecCfg} {T : VocabState} {re reN : MatchingSet} {tr : Option TruncParams}
    (h1 : createModel (c.model.getD []) (c.decoder.getD []) = .ok a)
    (h2 : fromSection (createNorm E.cfg) c.normalizer = .ok n) (h3 : fromSection (createPre E.cfg) c.preTokenizer = .ok pre)
    (h4 : fromSection createProc c.postProcessor = .ok proc) (h5 : fromSection createDec c.decoder = .ok dec)
    (h6 : loadAdded (vocabOf (c.model.getD []) a) c.addedTokens = .ok T)
    (h7 : buildSet E.wordChar (n.map (normalizerOf E)) E.order T.splitRe = .ok re)
    (h8 : buildSet E.wordChar (n.map (normalizerOf E)) E.order T.splitNormalizedRe = .ok reN)
    (h9 : createTruncation c.truncation = .ok tr) :
    fromReader E (some c) = .ok ⟨⟨⟨re, reN, n.map (normalizerOf E), pre.map (preFn E), some (modelFn E a)⟩, tr,
      createPadding c.padding, proc.map procFn⟩, T, dec.map (decodeFn E)⟩ := by
  simp only [fromReader, h1, h2, h3, h4, h5, h6, h7, h8, h9, Res.bind_ok]

end Tok.Whole
