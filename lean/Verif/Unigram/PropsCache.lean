import Verif.Unigram.Cache
import Verif.Unigram.PropsVocab
import Verif.Unigram.Props
import Verif.Vocab.PropsAdded
import Verif.Word.Props

/-!
# C110: the cache of the Unigram model; C16: what reading the vocabulary does to tokenizing
-/

namespace Tok.Unigram

set_option linter.unusedSectionVars false

variable {K : Type} [AddCommGroup K] [LinearOrder K]

/-! ### Specification -/

/-- The map a model is built with. -/
def ownIds (u : Unigram K) (t : Bytes) : Option Int := (u.tokenToId t).map (fun i : Nat => (i : Int))

/-! ### The model with its own map is the model without a map -/

theorem idx_own {u : Unigram K} {t : Bytes} {id : Nat} (h : u.tokenToId t = some id) :
    ∃ s, idx u.vocab (id : Int) = .ok (t, s) ∧ u.scoreOf id = s := by
  obtain ⟨⟨s, hs⟩, _⟩ := (C68_lookup u t id).1 h
  refine ⟨s, ?_, ?_⟩
  · unfold idx
    rw [if_neg (by omega)]
    simp [hs]
  · simp [scoreOf, hs]

theorem tryLenM_own (u : Unigram K) (rest : Bytes) (i : Nat) (base : K) (st : Lattice K × Bool) (l : Nat) :
    tryLenM u (ownIds u) rest i base st l = .ok (tryLen u rest i base st l) := by
  unfold tryLenM tryLen ownIds
  cases h : u.tokenToId (rest.take l) with
  | none => rfl
  | some id =>
    obtain ⟨s, h1, h2⟩ := idx_own h
    simp only [Option.map_some, h1, Res.bind_ok, h2]

theorem tryLensM_own (u : Unigram K) (rest : Bytes) (i : Nat) (base : K) (ls : List Nat) :
    ∀ st : Lattice K × Bool, tryLensM u (ownIds u) rest i base ls st = .ok (ls.foldl (tryLen u rest i base) st) := by
  induction ls with
  | nil => intro st; rfl
  | cons l ls ih =>
    intro st
    simp only [tryLensM, tryLenM_own, Res.bind_ok, ih, List.foldl_cons]

theorem positionM_own (u : Unigram K) (seq : Bytes) (lat : Lattice K) (i : Nat) :
    positionM u (ownIds u) seq lat i = .ok (position u seq lat i) := by
  unfold positionM position
  cases lat i with
  | none => rfl
  | some c =>
    simp only [tryLensM_own, Res.bind_ok]
    rfl

theorem positionsM_own (u : Unigram K) (seq : Bytes) (is : List Nat) :
    ∀ lat : Lattice K, positionsM u (ownIds u) seq is lat = .ok (is.foldl (position u seq) lat) := by
  induction is with
  | nil => intro lat; rfl
  | cons i is ih =>
    intro lat
    simp only [positionsM, positionM_own, Res.bind_ok, ih, List.foldl_cons]

theorem byteFallbackM_own (u : Unigram K) (seq : Bytes) : byteFallbackM u (ownIds u) seq = u.byteFallback seq := by
  unfold byteFallbackM byteFallback ownIds
  apply List.map_congr_left
  intro b _
  cases u.tokenToId (byteToken b) <;> cases u.unkId <;> rfl

theorem viterbiM_own (u : Unigram K) (seq : Bytes) : viterbiM u (ownIds u) seq = u.viterbi seq := by
  unfold viterbiM viterbi
  simp only [positionsM_own, Res.bind_ok, byteFallbackM_own, lattice]
  split
  · rfl
  · cases (List.range seq.length).foldl (position u seq) initLattice seq.length with
    | none => rfl
    | some c => cases u.fuseUnk <;> cases u.unkId <;> rfl

theorem toTokensM_own (u : Unigram K) (ts : List Bytes) : ∀ o : Nat,
    toTokensM u (ownIds u) o ts = u.tokensToTokenizer o ts := by
  induction ts with
  | nil => intro o; rfl
  | cons t ts ih =>
    intro o
    simp only [toTokensM, tokensToTokenizer, ih, ownIds]
    cases u.tokenToId t <;> cases u.unkId <;> rfl

/-- With the map it was built with the model gives what `Model.lean` says; so no index is out of range. -/
theorem tokenizeM_own (u : Unigram K) (seq : Bytes) : tokenizeM u (ownIds u) seq = u.tokenize seq := by
  unfold tokenizeM piecesM tokenize
  rw [byteFallbackM_own, viterbiM_own]
  cases u.bytesFallback with
  | true => simp [toTokensM_own]
  | false =>
    simp only [Bool.false_eq_true, if_false]
    cases u.viterbi seq with
    | ok ts => simp [toTokensM_own]
    | err => rfl
    | panic => rfl

/-! ### C110 -/

/-- Every entry of the cache is right. -/
def Right (u : Unigram K) (ids : Bytes → Option Int) (items : List Item) : Prop :=
  ∀ e ∈ items, piecesM u ids e.text = .ok e.pieces

theorem Right.get {u : Unigram K} {ids : Bytes → Option Int} {items : List Item} (h : Right u ids items) {now : Nat}
    {seq : Bytes} {ts : List Bytes} (hg : cacheGet items now seq = some ts) : piecesM u ids seq = .ok ts := by
  unfold cacheGet at hg
  cases hf : items.find? (fun e => e.text == seq) with
  | none => rw [hf] at hg; cases hg
  | some e =>
    rw [hf] at hg
    dsimp only at hg
    split at hg
    · cases hg
    · cases hg
      have h1 := h e (List.mem_of_find?_eq_some hf)
      have h2 : e.text = seq := by simpa using List.find?_some hf
      rw [← h2]
      exact h1

theorem Right.set {u : Unigram K} {ids : Bytes → Option Int} {items : List Item} (h : Right u ids items) {now time : Nat}
    {seq : Bytes} {ts : List Bytes} (hp : piecesM u ids seq = .ok ts) : Right u ids (cacheSet items now seq ts time) := by
  intro e he
  rcases List.mem_cons.1 he with rfl | he
  · exact hp
  · exact h e (List.mem_filter.1 he).1

/-- **C110.** Under every interleaving of calls of Tokenize by any number of goroutines, with any time
going by between the steps and any cleaning of the cache, every call returns what the model without a
cache gives for its text. -/
theorem C110_transparent (u : Unigram K) (s : TimedState)
    (h : Star (TimedStep u (ownIds u)) ⟨[], 0, fun _ => none, []⟩ s) :
    ∀ p ∈ s.log, p.2 = u.tokenize p.1 := by
  have key : Right u (ownIds u) s.items ∧ ∀ p ∈ s.log, p.2 = tokenizeM u (ownIds u) p.1 := by
    refine h.invariant (P := fun s => Right u (ownIds u) s.items ∧ ∀ p ∈ s.log, p.2 = tokenizeM u (ownIds u) p.1) ?_ ?_
    · rintro s t ⟨h1, h2⟩ hst
      cases hst with
      | hit _ seq ts _ hg =>
        refine ⟨h1, ?_⟩
        intro p hp
        rcases List.mem_cons.1 hp with rfl | hp
        · simp only [tokenizeM, h1.get hg, Res.bind_ok]
        · exact h2 p hp
      | miss => exact ⟨h1, h2⟩
      | finish _ seq ts _ hp =>
        refine ⟨h1.set hp, ?_⟩
        intro p hq
        rcases List.mem_cons.1 hq with rfl | hq
        · simp only [tokenizeM, hp, Res.bind_ok]
        · exact h2 p hq
      | fail _ seq _ hp =>
        refine ⟨h1, ?_⟩
        intro p hq
        rcases List.mem_cons.1 hq with rfl | hq
        · simp only [tokenizeM, hp, Res.bind_err]
        · exact h2 p hq
      | tick => exact ⟨h1, h2⟩
      | clean => exact ⟨fun e he => h1 e (List.mem_filter.1 he).1, h2⟩
    · constructor
      · intro e he; cases he
      · intro p hp; cases hp
  intro p hp
  rw [key.2 p hp, tokenizeM_own]

/-- The results of calls of `Tokenize` one after the other, each with its time. -/
def runCached (u : Unigram K) : List Item → List (Nat × Bytes) → List (Res (List (Int × Bytes × Nat × Nat)))
  | _, [] => []
  | items, (now, seq) :: cs =>
    (tokenizeCached u (ownIds u) items now seq).1 :: runCached u (tokenizeCached u (ownIds u) items now seq).2 cs

theorem tokenizeCached_right (u : Unigram K) {items : List Item} (h : Right u (ownIds u) items) (now : Nat) (seq : Bytes) :
    (tokenizeCached u (ownIds u) items now seq).1 = u.tokenize seq ∧
      Right u (ownIds u) (tokenizeCached u (ownIds u) items now seq).2 := by
  rw [← tokenizeM_own]
  unfold tokenizeCached tokenizeM
  cases hg : cacheGet items now seq with
  | some ts => rw [h.get hg]; exact ⟨rfl, h⟩
  | none =>
    cases hp : piecesM u (ownIds u) seq with
    | ok ts => exact ⟨rfl, h.set hp⟩
    | err => exact ⟨rfl, h⟩
    | panic => exact ⟨rfl, h⟩

/-- **C110.** Calls one after the other, at any times, return what the model without a cache gives. -/
theorem C110_sequence (u : Unigram K) (calls : List (Nat × Bytes)) :
    runCached u [] calls = calls.map (fun c => u.tokenize c.2) := by
  have key : ∀ items, Right u (ownIds u) items → runCached u items calls = calls.map (fun c => u.tokenize c.2) := by
    induction calls with
    | nil => intro _ _; rfl
    | cons c cs ih =>
      intro items h
      obtain ⟨h1, h2⟩ := tokenizeCached_right u h c.1 c.2
      simp only [runCached, List.map_cons, h1, ih _ h2]
  exact key [] (fun e he => by cases he)

/-- Where the cache is looked up after a store. -/
theorem cacheGet_set (items : List Item) (now now' : Nat) (seq : Bytes) (ts : List Bytes) (time : Nat) :
    cacheGet (cacheSet items now seq ts time) now' seq = if now' > now + time then none else some ts := by
  simp [cacheGet, cacheSet]

/-- **C110.** With byte fallback a result is found again for five minutes. -/
theorem C110_kept_partial (u : Unigram K) (hf : u.bytesFallback = true) (items : List Item) (now now' : Nat)
    (seq : Bytes) (hc : cacheGet items now seq = none) (hn : now' ≤ now + 5 * 60 * 1000000000) :
    cacheGet (tokenizeCached u (ownIds u) items now seq).2 now' seq = some (u.byteFallback seq) := by
  unfold tokenizeCached
  rw [hc]
  simp only [piecesM, hf, if_true, byteFallbackM_own]
  rw [cacheGet_set, if_neg]
  simp only [keepTime, hf, if_true]
  omega

/-- **C110, violated.** Without byte fallback a result is forgotten after five nanoseconds. -/
theorem C110_kept_violated (u : Unigram K) (hf : u.bytesFallback = false) (items : List Item) (now now' : Nat)
    (seq : Bytes) (hc : cacheGet items now seq = none) (hn : now + 5 < now') :
    cacheGet (tokenizeCached u (ownIds u) items now seq).2 now' seq = none := by
  have old : cacheGet items now' seq = none := by
    unfold cacheGet at hc ⊢
    cases h : items.find? (fun e => e.text == seq) with
    | none => rfl
    | some e =>
      rw [h] at hc
      dsimp only at hc ⊢
      split at hc
      · rw [if_pos (by omega)]
      · cases hc
  unfold tokenizeCached
  rw [hc]
  simp only [piecesM, hf, Bool.false_eq_true, if_false, viterbiM_own]
  cases u.viterbi seq with
  | ok ts =>
    simp only
    rw [cacheGet_set, if_pos]
    simp only [keepTime, hf, Bool.false_eq_true, if_false]
    omega
  | err => exact old
  | panic => exact old

/-! ### C16 -/

/-- The map of a model as the code uses it: keys are strings, so bytes. -/
def byteMap (m : List (Str × Int)) (b : Bytes) : Option Int := (m.find? (fun p => encStr p.1 == b)).map (·.2)

theorem byteMap_enc (m : List (Str × Int)) (c : Str) : byteMap m (encStr c) = mget m c := by
  induction m with
  | nil => rfl
  | cons p m ih =>
    unfold byteMap at ih ⊢
    rw [List.find?_cons]
    by_cases h : p.1 = c
    · simp [h, mget]
    · have : encStr p.1 ≠ encStr c := fun he => h (encStr_inj he)
      simp only [mget, beq_iff_eq, h, if_false]
      rw [← ih]
      have hb : (encStr p.1 == encStr c) = false := by simpa using this
      rw [hb]

theorem tryLenM_not_err (u : Unigram K) (ids : Bytes → Option Int) (rest : Bytes) (i : Nat) (base : K)
    (st : Lattice K × Bool) (l : Nat) : tryLenM u ids rest i base st l ≠ .err := by
  unfold tryLenM
  cases ids (rest.take l) with
  | none => simp
  | some id =>
    have : idx u.vocab id ≠ .err := by
      unfold idx
      split
      · simp
      · split <;> simp
    cases h : idx u.vocab id with
    | ok a => simp only [h, Res.bind_ok]; simp
    | err => exact absurd h this
    | panic => simp only [h, Res.bind_panic]; simp

theorem tryLensM_panic (u : Unigram K) (ids : Bytes → Option Int) (rest : Bytes) (i : Nat) (base : K) (l : Nat)
    (id : Int) (hid : ids (rest.take l) = some id) (hl : (u.vocab.length : Int) ≤ id) (ls : List Nat) (hm : l ∈ ls) :
    ∀ st : Lattice K × Bool, tryLensM u ids rest i base ls st = .panic := by
  induction ls with
  | nil => cases hm
  | cons k ls ih =>
    intro st
    simp only [tryLensM]
    by_cases hk : k = l
    · subst hk
      have : tryLenM u ids rest i base st k = .panic := by
        unfold tryLenM
        rw [hid]
        have hi : idx u.vocab id = .panic := by
          unfold idx
          rw [if_neg (by omega), List.getElem?_eq_none (by omega)]
        simp [hi]
      rw [this]
      rfl
    · have hm' : l ∈ ls := by
        rcases List.mem_cons.1 hm with h | h
        · exact absurd h.symm hk
        · exact h
      cases h : tryLenM u ids rest i base st k with
      | ok st' => simp only [Res.bind_ok]; exact ih hm' st'
      | err => exact absurd h (tryLenM_not_err u ids rest i base st k)
      | panic => rfl

/-- A map with a token whose id is out of range: every text that begins with the token panics. -/
theorem tokenizeM_panic (u : Unigram K) (hf : u.bytesFallback = false) (ids : Bytes → Option Int) (t r : Bytes)
    (ht : t ≠ []) (hl : t.length ≤ 20) (id : Int) (hid : ids t = some id) (hb : (u.vocab.length : Int) ≤ id) :
    tokenizeM u ids (t ++ r) = .panic := by
  have hpos : 0 < t.length := List.length_pos_iff.2 ht
  have hlen : (t ++ r).length = t.length + r.length := List.length_append
  have h0 : positionM u ids (t ++ r) initLattice 0 = .panic := by
    simp only [positionM, initLattice, if_true]
    rw [tryLensM_panic u ids _ 0 0 t.length id (by simpa using hid) hb]
    · rfl
    · rw [List.mem_range'_1]
      split <;> omega
  unfold tokenizeM piecesM viterbiM
  rw [hf]
  simp only [Bool.false_eq_true, if_false]
  rw [if_neg (by omega)]
  have : List.range (t ++ r).length = 0 :: List.range' 1 ((t ++ r).length - 1) := by
    rw [List.range_eq_range']
    obtain ⟨k, hk⟩ : ∃ k, (t ++ r).length = k + 1 := ⟨(t ++ r).length - 1, by omega⟩
    rw [hk]
    rfl
  rw [this]
  simp only [positionsM, h0, Res.bind_panic]

/-- **C16, violated for Unigram.** After GetVocab(true) the model panics on every text that begins with an
added token of at most 20 bytes which the model did not know. -/
theorem C16_unigram_violated (u : Unigram K) (hf : u.bytesFallback = false) {T₀ T : VocabState}
    (h₀ : FreshModel T₀) (hs : T₀.fixedSize = some u.vocab.length) (h : VocabRuns T₀ T)
    (c : Str) (hc : c ≠ []) (hl : blen c ≤ 20) (i : Int) (hm : mget T₀.vocab c = none) (ha : T.tokenToId c = some i)
    (order : List (Str × Int)) (hp : T.added.Perm order) (r : Str) :
    tokenizeM u (byteMap (T.getVocab true order).1.vocab) (encStr (c ++ r)) = .panic := by
  have h1 : mget (T.getVocab true order).2 c = T.tokenToId c := (C16_queries_partial h₀ h order hp).2.2.1 c
  have h2 := C14_ids_above_model h₀ h c i hm ha
  rw [encStr_append]
  refine tokenizeM_panic u hf _ _ _ ?_ (by rw [length_encStr]; exact hl) i ?_ ?_
  · intro he
    have : encStr c = encStr [] := he
    exact hc (encStr_inj this)
  · rw [byteMap_enc, ← ha, ← h1]
    rfl
  · simpa [VocabState.getVocabSize, VocabState.modelSize, hs] using h2

/-- **C16, violated for WordLevel.** A word the model did not know is encoded as unknown before
GetVocab(true), and with the id of the added token after it. -/
theorem C16_wordlevel_violated {T₀ T : VocabState} (h₀ : FreshModel T₀) (h : VocabRuns T₀ T)
    (c unk : Str) (i j : Int) (hm : mget T.vocab c = none) (ha : T.tokenToId c = some i) (hu : mget T.vocab unk = some j)
    (order : List (Str × Int)) (hp : T.added.Perm order) :
    wordLevelTokenize (mget T.vocab) unk c = .ok [⟨j, c, (0, (blen c : Int))⟩] ∧
      wordLevelTokenize (mget (T.getVocab true order).1.vocab) unk c = .ok [⟨i, c, (0, (blen c : Int))⟩] := by
  have h1 : mget (T.getVocab true order).2 c = T.tokenToId c := (C16_queries_partial h₀ h order hp).2.2.1 c
  have h2 : mget (T.getVocab true order).1.vocab c = some i := by rw [← ha, ← h1]; rfl
  constructor
  · exact (C36_word_level _ unk c).1 j (by simp [hm, hu])
  · exact (C36_word_level _ unk c).1 i (by simp [h2])

/-! ### Cases -/

/-- A vocabulary of one token. -/
def cacheSample : Unigram Int :=
  { vocab := [([97], -1)], unkId := some 0, bytesFallback := false, fuseUnk := false, bonus := 0, penalty := 10 }

/-- A text is computed, and found again at once; a second goroutine computes it a microsecond later. -/
example : Star (TimedStep cacheSample (ownIds cacheSample)) ⟨[], 0, fun _ => none, []⟩
    ⟨[⟨[97], [[97]], 5⟩], 1000, fun v => if v = 1 then some [97] else if v = 0 then none else if v = 0 then some [97] else none,
      [([97], .ok [(0, [97], 0, 1)]), ([97], .ok [(0, [97], 0, 1)])]⟩ := by
  have h1 := TimedStep.miss (u := cacheSample) (ids := ownIds cacheSample) ⟨[], 0, fun _ => none, []⟩ 0 [97] rfl rfl
  have h2 := TimedStep.finish (u := cacheSample) (ids := ownIds cacheSample)
    ⟨[], 0, fun v => if v = 0 then some [97] else none, []⟩ 0 [97] [[97]] rfl (by decide +kernel)
  have h3 := TimedStep.hit (u := cacheSample) (ids := ownIds cacheSample)
    ⟨[⟨[97], [[97]], 5⟩], 0, fun v => if v = 0 then none else if v = 0 then some [97] else none,
      [([97], .ok [(0, [97], 0, 1)])]⟩ 1 [97] [[97]] rfl (by decide +kernel)
  have h4 := TimedStep.tick (u := cacheSample) (ids := ownIds cacheSample)
    ⟨[⟨[97], [[97]], 5⟩], 0, fun v => if v = 0 then none else if v = 0 then some [97] else none,
      [([97], .ok [(0, [97], 0, 1)]), ([97], .ok [(0, [97], 0, 1)])]⟩ 1000
  have h5 := TimedStep.miss (u := cacheSample) (ids := ownIds cacheSample)
    ⟨[⟨[97], [[97]], 5⟩], 1000, fun v => if v = 0 then none else if v = 0 then some [97] else none,
      [([97], .ok [(0, [97], 0, 1)]), ([97], .ok [(0, [97], 0, 1)])]⟩ 1 [97] rfl (by decide +kernel)
  exact .tail (.tail (.tail (.tail (.tail .refl h1) h2) h3) h4) h5

/-- The tokenizer of this model before a token is added. -/
def mapSample : VocabState :=
  { vocab := [(['a'], 0)], vocabR := fun i => if i = 0 then some ['a'] else none, fixedSize := some 1 }

theorem mapSample_fresh : FreshModel mapSample := by
  refine ⟨⟨rfl, rfl, rfl, rfl, rfl, rfl, rfl⟩, by decide, ?_, ?_⟩
  · intro c i h
    simp only [mapSample, mget] at h
    show 0 ≤ i ∧ i < 1
    split at h <;> cases h
    omega
  · intro c i
    simp only [mapSample, mget]
    by_cases h0 : i = 0
    · subst h0
      by_cases hc : c = ['a']
      · simp [hc]
      · simp [Ne.symm hc]
    · by_cases hc : c = ['a']
      · simp [hc, h0, Ne.symm h0]
      · simp [h0, Ne.symm hc]

/-- After adding "b" the model still gives "b" as unknown; after GetVocab(true) it panics. -/
example : ∃ T n, mapSample.addTokens [⟨['b'], false, false, false, true⟩] = .ok (T, n) ∧
    tokenizeM cacheSample (byteMap T.vocab) (encStr ['b']) = .ok [(0, [98], 0, 1)] ∧
    tokenizeM cacheSample (byteMap (T.getVocab true [(['b'], 1)]).1.vocab) (encStr ['b']) = .panic := by
  refine ⟨_, _, rfl, by decide +kernel, ?_⟩
  exact C16_unigram_violated cacheSample rfl mapSample_fresh rfl (.step .refl (.addTokens [⟨['b'], false, false, false, true⟩] rfl)) ['b'] (by decide)
    (by decide) 1 (by decide) (by decide) _ (by decide) []

end Tok.Unigram
