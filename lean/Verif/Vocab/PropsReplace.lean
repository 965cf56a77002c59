import Verif.Vocab.Replace
import Verif.Vocab.PropsAdded
import Verif.Train.PropsPrefix

/-! # C106: replacing the model of a tokenizer -/

namespace Tok
open VocabState

/-! ### Specification -/

/-- The two directions of a model's vocabulary agree, and ids are below its size. -/
structure ModelView.Sound (m : ModelView) : Prop where
  keys : (m.vocab.map (·.1)).Nodup
  ids : ∀ c i, mget m.vocab c = some i → 0 ≤ i ∧ i < m.size
  inverse : ∀ c i, m.vocabR i = some c ↔ mget m.vocab c = some i

/-- Nothing was added to the tokenizer. -/
def NothingAdded (T : VocabState) : Prop :=
  T.added = [] ∧ T.addedR = [] ∧ T.addedTokens = [] ∧ T.specialTokens = [] ∧ T.specialSet = [] ∧
    T.splitRe = [] ∧ T.splitNormalizedRe = []

/-! ### Lemmas -/

theorem withModel_fresh {T : VocabState} {m : ModelView} (h : NothingAdded T) (hm : m.Sound) :
    FreshModel (T.withModel m) :=
  ⟨h, hm.keys, hm.ids, hm.inverse⟩

/-- Adding tokens never makes an id name a content that was not given. -/
theorem addLoop_addedR (ts : List AddedToken) : ∀ {T : VocabState} (k : Nat) {i : Int} {d : Str},
    (∀ t ∈ ts, t.content ≠ d) → mget T.addedR i ≠ none → mget T.addedR i ≠ some d →
    mget (T.addLoop k ts).1.addedR i ≠ none ∧ mget (T.addLoop k ts).1.addedR i ≠ some d := by
  induction ts with
  | nil => intro T k i d _ h1 h2; exact ⟨h1, h2⟩
  | cons t ts ih =>
    intro T k i d hd h1 h2
    have hw : ∀ j, mget (mset T.addedR j t.content) i ≠ none ∧ mget (mset T.addedR j t.content) i ≠ some d := by
      intro j
      rw [mget_mset]
      split
      · refine ⟨by simp, ?_⟩
        intro e
        exact hd t (by simp) (Option.some.inj e)
      · exact ⟨h1, h2⟩
    have : mget (T.addOne k t).1.addedR i ≠ none ∧ mget (T.addOne k t).1.addedR i ≠ some d := by
      unfold addOne
      split
      · exact ⟨h1, h2⟩
      · split
        · exact hw _
        · exact hw _
    exact ih _ (fun u hu => hd u (by simp [hu])) this.1 this.2

theorem refresh_fields {T T' : VocabState} (h : T.refresh = .ok T') :
    T'.vocab = T.vocab ∧ T'.vocabR = T.vocabR ∧ T'.added = T.added ∧ T'.addedR = T.addedR := by
  unfold refresh at h
  rw [Res.bind_eq_ok] at h
  obtain ⟨l, _, h⟩ := h
  cases h
  exact ⟨rfl, rfl, rfl, rfl⟩

theorem addTokens_fields {T T' : VocabState} {ts : List AddedToken} {n : Int} (h : T.addTokens ts = .ok (T', n)) :
    T'.tokenToId = (T.addLoop 0 ts).1.tokenToId ∧ T'.addedR = (T.addLoop 0 ts).1.addedR ∧
      T'.vocabR = (T.addLoop 0 ts).1.vocabR := by
  unfold addTokens at h
  rw [Res.bind_eq_ok] at h
  obtain ⟨T1, h1, h⟩ := h
  cases h
  obtain ⟨a, b, c, d⟩ := refresh_fields h1
  refine ⟨?_, d, b⟩
  funext x
  unfold tokenToId
  rw [c, a]

theorem refreshIds_panic {T : VocabState} (l : List AddedToken) (t : AddedToken) (ht : t ∈ l)
    (h : T.tokenToId t.content = none) : T.refreshIds l = .panic := by
  induction l with
  | nil => cases ht
  | cons u l ih =>
    rw [refreshIds]
    cases hu : T.tokenToId u.content with
    | none => rfl
    | some i =>
      rcases List.mem_cons.1 ht with rfl | ht
      · rw [h] at hu; cases hu
      · simp only [ih ht, Res.bind_panic]

/-! ### C106 -/

/-- **C106.** After training a tokenizer to which nothing was added, names and ids correspond one to
one, the tokens of the trained model have the ids of the model, and the special tokens of the
trainer are special and have ids. The trained model must be sound. -/
theorem C106_train_partial {T : VocabState} (h : NothingAdded T) {m : ModelView} (hm : m.Sound)
    (specials : List AddedToken) :
    ∃ T', T.afterTrain m specials = .ok T' ∧
      (∀ c i, T'.tokenToId c = some i ↔ T'.idToToken i = some c) ∧
      (∀ c i, mget m.vocab c = some i → T'.tokenToId c = some i) ∧
      (∀ t ∈ specials, t.content ≠ [] → T'.isSpecial t.content = true ∧ ∃ i, T'.tokenToId t.content = some i) := by
  have hf := withModel_fresh h hm
  obtain ⟨T', n, e, h1, h2, h3⟩ := addSpecialTokens_full specials hf.full
  have hs : VocabStep (T.withModel m) T' := .addSpecialTokens _ e
  refine ⟨T', by unfold afterTrain; rw [e]; rfl, fun c i => h1.inv.roundtrip c i, ?_, ?_⟩
  · intro c i hc
    apply hs.stable hf.full
    unfold tokenToId
    rw [show (T.withModel m).added = [] from h.1]
    exact hc
  · intro t ht h0
    constructor
    · rw [h3]
      exact ((registerSpecial_full specials hf.full.specSet hf.full.specNe).2.2 _).2 (Or.inr ⟨h0, t, ht, rfl⟩)
    · rw [h2]
      exact Option.isSome_iff_exists.1 (addLoop_has specials 0 t ht h0)

/-- A trained BPE model is sound if no text was learned from two pairs, that is if all ids are below
the number of tokens. -/
theorem bpeView_sound {cfg : Train.Cfg} {addr : Nat → Nat → Str} {wc : List (Str × Int)} {r : Train.Trained}
    (hp : Train.Plain cfg) (h : Train.Trains cfg addr wc r)
    (hi : ∀ c i, mget r.vocab c = some i → i < r.vocab.length) : (bpeView r).Sound := by
  refine ⟨(Train.C74_size hp h _ (fun t ht => List.mem_append_left (wc.flatMap fun e => e.1.map fun c => [c]) ht)
    (fun e he c hc => List.mem_append_right _ (List.mem_flatMap.2 ⟨e, he, List.mem_map.2 ⟨c, hc, rfl⟩⟩))).1, ?_, ?_⟩
  · intro c i hc
    refine ⟨?_, hi c i hc⟩
    obtain ⟨s, hr, _, rfl⟩ := h
    obtain ⟨n, rfl, _⟩ := (Train.reach_inv hp hr).1.tab c i hc
    omega
  · intro c i
    obtain ⟨s, hr, _, rfl⟩ := h
    exact Train.vocabR_get (cfg := cfg) (Train.reach_inv hp hr).1 c i

/-- **C106.** Training a new tokenizer with the BPE trainer: every special token of the trainer is
special and has an id of its own, and the learned tokens keep theirs, if no text was learned from two
pairs. -/
theorem C106_bpe_partial {cfg : Train.Cfg} {addr : Nat → Nat → Str} {wc : List (Str × Int)} {r : Train.Trained}
    (hp : Train.Plain cfg) (h : Train.Trains cfg addr wc r)
    (hi : ∀ c i, mget r.vocab c = some i → i < r.vocab.length) (m₀ : ModelView) (specials : List AddedToken) :
    ∃ T', (newTokenizer m₀).afterTrain (bpeView r) specials = .ok T' ∧
      (∀ c i, T'.tokenToId c = some i ↔ T'.idToToken i = some c) ∧
      (∀ c i, mget r.vocab c = some i → T'.tokenToId c = some i) ∧
      (∀ t ∈ specials, t.content ≠ [] → T'.isSpecial t.content = true ∧ ∃ i, T'.tokenToId t.content = some i) :=
  C106_train_partial ⟨rfl, rfl, rfl, rfl, rfl, rfl, rfl⟩ (bpeView_sound hp h hi) specials

/-- **C106.** A tokenizer to which nothing was added answers as its model, however the model came into it:
by `WithModel` or by `NewTokenizer`. Missing: tokenizers with added tokens, for which it fails
(`C106_clash_violated`). -/
theorem C106_model_partial {T : VocabState} (h : NothingAdded T) (m : ModelView) :
    ∀ U : VocabState, U = T.withModel m ∨ U = newTokenizer m →
      (∀ c, U.tokenToId c = mget m.vocab c) ∧ (∀ i, U.idToToken i = m.vocabR i) ∧
        (∀ c, U.isSpecial c = false) ∧ ∀ w, U.getVocabSize w = m.fixedSize.getD m.vocab.length := by
  obtain ⟨h1, h2, _, _, h3, _, _⟩ := h
  rintro U (rfl | rfl)
  · refine ⟨fun c => ?_, fun i => ?_, fun c => ?_, fun w => ?_⟩
    · simp [tokenToId, withModel, h1]
    · simp [idToToken, withModel, h2]
    · simp [isSpecial, withModel, h3]
    · simp [getVocabSize, modelSize, withModel, h1]
  · refine ⟨fun c => ?_, fun i => ?_, fun c => ?_, fun w => ?_⟩
    · simp [tokenToId, newTokenizer]
    · simp [idToToken, newTokenizer]
    · simp [isSpecial, newTokenizer]
    · simp [getVocabSize, modelSize, newTokenizer]

/-- **C106, violated.** Training a tokenizer with a special token that was a token of its model ends
the process if the new model does not know this token (and the trainer does not add it again). -/
theorem C106_fatal_violated {T : VocabState} {t : AddedToken} (ht : t ∈ T.specialTokens)
    (h1 : mget T.added t.content = none) (m : ModelView) (h2 : mget m.vocab t.content = none)
    (specials : List AddedToken) (h3 : ∀ u ∈ specials, u.content ≠ t.content) :
    T.afterTrain m specials = .panic := by
  have hk : ((T.withModel m).registerSpecial specials).tokenToId t.content = none := by
    rw [(registerSpecial_same specials).1]
    exact tokenToId_none.2 ⟨h1, h2⟩
  have hk2 : (((T.withModel m).registerSpecial specials).addLoop 0 specials).1.tokenToId t.content = none := by
    cases hc : (((T.withModel m).registerSpecial specials).addLoop 0 specials).1.tokenToId t.content with
    | none => rfl
    | some i =>
      rcases addLoop_only specials 0 (by rw [hc]; rfl) with h | ⟨_, u, hu, e⟩
      · rw [hk] at h; cases h
      · exact absurd e (h3 u hu)
  have hmem : t ∈ (((T.withModel m).registerSpecial specials).addLoop 0 specials).1.specialTokens := by
    rw [(addLoop_size specials (T := (T.withModel m).registerSpecial specials) 0).2.2.2.2.2.1]
    have : ∀ (ss : List AddedToken) (S : VocabState), t ∈ S.specialTokens → t ∈ (S.registerSpecial ss).specialTokens := by
      intro ss
      induction ss with
      | nil => intro S h; exact h
      | cons u ss ih =>
        intro S h
        unfold registerSpecial
        split
        · exact ih _ (by simp [h])
        · exact ih _ h
    exact this specials _ ht
  unfold afterTrain addSpecialTokens addTokens refresh
  dsimp only
  rw [refreshIds_panic _ t (List.mem_append_left _ hmem) hk2]
  rfl

/-- **C106, violated.** If an id was given a name by adding tokens (`i` is `c`) and the new model uses
this id for another token `d`, then after replacing the model `d` has the id `i`, and `i` is still
`c`; training does not repair it, whatever special tokens other than `d` the trainer adds. -/
theorem C106_clash_violated {T : VocabState} {c d : Str} {i : Int} (hc : mget T.addedR i = some c)
    (hcd : c ≠ d) (ha : mget T.added d = none) (m : ModelView) (hd : mget m.vocab d = some i) :
    (T.withModel m).tokenToId d = some i ∧ (T.withModel m).idToToken i = some c ∧
    ∀ specials T', (∀ u ∈ specials, u.content ≠ d) → T.afterTrain m specials = .ok T' →
      T'.tokenToId d = some i ∧ T'.idToToken i ≠ some d := by
  have h0 : (T.withModel m).tokenToId d = some i := by
    unfold tokenToId
    rw [show (T.withModel m).added = T.added from rfl, ha]
    exact hd
  refine ⟨h0, ?_, ?_⟩
  · unfold idToToken
    rw [show (T.withModel m).addedR = T.addedR from rfl, hc]
  · intro specials T' hs he
    unfold afterTrain at he
    rw [Res.bind_eq_ok] at he
    obtain ⟨⟨T'', n⟩, he, e⟩ := he
    cases e
    obtain ⟨f1, f2, _⟩ := addTokens_fields he
    obtain ⟨r1, _, _, _, _, _, r2, _⟩ := @registerSpecial_same specials (T.withModel m)
    constructor
    · rw [f1]
      exact addLoop_stable _ 0 (by rw [r1]; exact h0)
    · have := addLoop_addedR specials 0 (T := (T.withModel m).registerSpecial specials) (i := i) hs
        (by rw [r2]; show mget T.addedR i ≠ none; rw [hc]; simp)
        (by rw [r2]; show mget T.addedR i ≠ some d; rw [hc]; simpa using hcd)
      rw [← f2] at this
      unfold idToToken
      cases hx : mget T''.addedR i with
      | none => exact absurd hx this.1
      | some e =>
        simp only
        rw [← hx]
        exact this.2

/-- **C106, violated.** After `WithModel` the tokens that are searched in texts keep their old ids:
if `t` is searched with the id `i` and was a token of the old model, and the new model gives it the id
`j`, then `TokenToId` answers `j`, and the search still carries `i`. -/
theorem C106_stale_violated {T : VocabState} {t : AddedToken} {i j : Int}
    (ht : (t, i) ∈ T.splitRe ++ T.splitNormalizedRe) (h1 : mget T.added t.content = none) (m : ModelView)
    (h2 : mget m.vocab t.content = some j) :
    (t, i) ∈ (T.withModel m).splitRe ++ (T.withModel m).splitNormalizedRe ∧
      (T.withModel m).tokenToId t.content = some j := by
  refine ⟨ht, ?_⟩
  unfold tokenToId
  rw [show (T.withModel m).added = T.added from rfl, h1]
  exact h2

/-- **C106, violated.** A model with an id that is not below its size (a vocabulary with gaps): once
enough new special tokens are added, one of them gets this id, and the model's token with it is no
longer what the id means. -/
theorem C106_gap_violated {T : VocabState} (h : NothingAdded T) {m : ModelView} {d : Str} {i : Nat}
    (hd : mget m.vocab d = some (i : Int)) (hi : m.size ≤ i) (specials : List AddedToken)
    (hnew : ∀ t ∈ specials, t.content ≠ [] ∧ mget m.vocab t.content = none)
    (hdist : (specials.map (·.content)).Nodup) (hlong : i < m.size + specials.length) :
    ∃ T' t, T.afterTrain m specials = .ok T' ∧ t ∈ specials ∧ t.content ≠ d ∧
      T'.tokenToId d = some (i : Int) ∧ T'.tokenToId t.content = some (i : Int) ∧
      T'.idToToken (i : Int) ≠ some d := by
  obtain ⟨a1, a2, a3, a4, a5, a6, a7⟩ := h
  obtain ⟨r1, r0, r3, r4, r5, r6, r2, r7⟩ := @registerSpecial_same specials (T.withModel m)
  let S := (T.withModel m).registerSpecial specials
  have hS : S.added = [] := by show S.added = []; rw [r6]; exact a1
  have hSt : ∀ c, S.tokenToId c = mget m.vocab c := by
    intro c
    rw [r1]
    unfold tokenToId
    rw [show (T.withModel m).added = T.added from rfl, a1]
    rfl
  have hnc : newContents S specials = specials.map (·.content) := by
    unfold newContents
    have : (specials.map (·.content)).filter (fun c => !c.isEmpty && (S.tokenToId c).isNone) =
        specials.map (·.content) := by
      rw [List.filter_eq_self]
      intro c hc
      obtain ⟨t, ht, rfl⟩ := List.mem_map.1 hc
      rw [hSt, (hnew t ht).2]
      simpa using (hnew t ht).1
    rw [this]
    have : ∀ l : List Str, l.Nodup → l.eraseDups = l := by
      intro l
      induction l with
      | nil => intro _; rfl
      | cons c l ih =>
        intro hn
        rw [List.nodup_cons] at hn
        rw [List.eraseDups_cons]
        have : l.filter (fun b => !b == c) = l := by
          rw [List.filter_eq_self]
          intro b hb
          simp only [Bool.not_eq_true', beq_eq_false_iff_ne, ne_eq]
          rintro rfl
          exact hn.1 hb
        rw [this, ih hn.2]
    exact this _ hdist
  have hsize : S.modelSize = m.size := by
    unfold modelSize
    rw [r3, r5]; rfl
  have hk : i - m.size < specials.length := by omega
  let t := specials[i - m.size]
  have ht : t ∈ specials := List.getElem_mem hk
  have hadd := (addLoop_added specials (T := S) 0).1
  rw [hnc, hS, hsize] at hadd
  simp only [List.nil_append, List.length_nil] at hadd
  have hget : mget (S.addLoop 0 specials).1.added t.content = some (i : Int) := by
    apply mget_of_mem
    · rw [hadd]
      have : ((specials.map (·.content)).mapIdx (fun j c => (c, (m.size : Int) + ((0 : Nat) : Int) + j))).map (·.1) =
          specials.map (·.content) := by
        apply List.ext_getElem
        · simp
        · intro n h1 h2; simp
      rw [this]; exact hdist
    · rw [hadd, List.mem_mapIdx]
      refine ⟨i - m.size, by simpa using hk, ?_⟩
      simp only [List.getElem_map, Prod.mk.injEq]
      refine ⟨rfl, ?_⟩
      omega
  have htid : (S.addLoop 0 specials).1.tokenToId t.content = some (i : Int) := by
    unfold tokenToId; rw [hget]
  have hdid : (S.addLoop 0 specials).1.tokenToId d = some (i : Int) := by
    apply addLoop_stable
    rw [hSt]; exact hd
  have htd : t.content ≠ d := by
    intro e
    have := (hnew t ht).2
    rw [e, hd] at this; cases this
  have hnd : ∀ u ∈ specials, u.content ≠ d := by
    intro u hu e
    have := (hnew u hu).2
    rw [e, hd] at this; cases this
  have hspec : ∀ u ∈ S.specialTokens, u ∈ specials ∧ u.content ≠ [] := by
    intro u hu
    rcases registerSpecial_mem specials u hu with h | h
    · rw [show (T.withModel m).specialTokens = T.specialTokens from rfl, a4] at h; cases h
    · exact h
  have hz := addLoop_size specials (T := S) 0
  have hreg : (S.addLoop 0 specials).1.Registered := by
    apply addLoop_registered
    intro u hu
    rw [show S.addedTokens = T.addedTokens from r7, a3] at hu; cases hu
  have hsk : (S.addLoop 0 specials).1.SpecialKnown := by
    intro u hu
    rw [hz.2.2.2.2.2.1] at hu
    exact addLoop_has specials 0 u (hspec u hu).1 (hspec u hu).2
  obtain ⟨r, s, e, _⟩ := refresh_ok hreg hsk
  have he : (T.withModel m).addSpecialTokens specials =
      .ok ({ (S.addLoop 0 specials).1 with splitNormalizedRe := r, splitRe := s },
        (specials.length : Int) - (S.addLoop 0 specials).2) := by
    show S.addTokens specials = _
    unfold addTokens
    dsimp only
    rw [e]
    rfl
  refine ⟨{ (S.addLoop 0 specials).1 with splitNormalizedRe := r, splitRe := s }, t,
    by unfold afterTrain; rw [he]; rfl, ht, htd, hdid, htid, ?_⟩
  -- some later content names the id
  have hR : ∀ (ts : List AddedToken) (S : VocabState) (k : Nat), (∀ u ∈ ts, u.content ≠ d) →
      (∀ j c, mget S.added c = some j → mget S.addedR j ≠ none ∧ mget S.addedR j ≠ some d) →
      ∀ j c, mget (S.addLoop k ts).1.added c = some j →
        mget (S.addLoop k ts).1.addedR j ≠ none ∧ mget (S.addLoop k ts).1.addedR j ≠ some d := by
    intro ts
    induction ts with
    | nil => intro S k _ h; exact h
    | cons u ts ih =>
      intro S k hu h
      have hud := hu u (by simp)
      refine ih (S.addOne k u).1 (S.addOne k u).2 (fun v hv => hu v (by simp [hv])) ?_
      intro j c hj
      by_cases h0 : u.content = []
      · rw [addOne_eq_empty h0] at hj ⊢
        exact h j c hj
      cases hx : S.tokenToId u.content with
      | some x =>
        rw [addOne_known h0 hx] at hj ⊢
        simp only at hj ⊢
        rw [mget_mset]
        split
        · exact ⟨by simp, by simpa using hud⟩
        · exact h j c hj
      | none =>
        rw [addOne_new h0 hx] at hj ⊢
        simp only at hj ⊢
        rw [mget_mset]
        split
        · exact ⟨by simp, by simpa using hud⟩
        · next hne =>
          rw [mget_mset] at hj
          split at hj
          · cases hj; exact absurd rfl hne
          · exact h j c hj
  have := hR specials S 0 hnd (by rw [hS]; intro j c hc; cases hc) _ _ hget
  unfold idToToken
  cases hx : mget (S.addLoop 0 specials).1.addedR (i : Int) with
  | none => exact absurd hx this.1
  | some e => simp only; rw [← hx]; exact this.2

/-- **C106, violated.** This happens after training: a new tokenizer, trained on `dupWords`, in which
`abcd` is learned from two pairs. The only special token gets the id of `abcd`. -/
theorem C106_trained_violated (addr : Nat → Nat → Str) (m₀ : ModelView) :
    ∃ r, Train.Trains (Train.newBpeTrainer 2 100) addr Train.dupWords r ∧
      ∃ T', (newTokenizer m₀).afterTrain (bpeView r) [⟨"<s>".toList, false, false, false, false⟩] = .ok T' ∧
        T'.tokenToId "<s>".toList = T'.tokenToId "abcd".toList ∧ T'.tokenToId "abcd".toList = some 14 ∧
        T'.idToToken 14 ≠ some "abcd".toList := by
  have h := Train.dupWords_train (addr := addr)
  rw [Option.map_eq_some_iff] at h
  obtain ⟨r, h1, h2⟩ := h
  simp only [Prod.mk.injEq] at h2
  refine ⟨r, Train.train_trains h1, ?_⟩
  have hv : (bpeView r).vocab = Train.dupVocab := h2.1
  have hs : (bpeView r).size = 14 := by
    show (bpeView r).vocab.length = 14
    rw [hv]; decide
  obtain ⟨T', t, e1, e2, _, e3, e4, e5⟩ := C106_gap_violated (T := newTokenizer m₀)
    ⟨rfl, rfl, rfl, rfl, rfl, rfl, rfl⟩ (m := bpeView r) (d := "abcd".toList) (i := 14)
    (by rw [hv]; decide +kernel) (by rw [hs]; omega) [⟨"<s>".toList, false, false, false, false⟩]
    (by rw [hv]; decide +kernel) (by decide) (by rw [hs]; decide)
  refine ⟨T', e1, ?_, e3, e5⟩
  rw [List.mem_singleton] at e2
  subst e2
  rw [e3]
  exact e4

/-! ### Cases -/

example : ∃ r, Train.Trains Train.sampleCfg (fun _ _ => []) Train.sampleWords r ∧ r.vocab.length = 5 ∧
    ∀ c i, mget r.vocab c = some i → i < r.vocab.length := by
  have h : (Train.train Train.sampleCfg (fun _ _ => []) Train.sampleWords 20).map (·.vocab) =
      some [(['a'], 0), (['b'], 1), (['c'], 2), (['z'], 3), (['a', 'b'], 4)] := by decide +kernel
  rw [Option.map_eq_some_iff] at h
  obtain ⟨r, h1, h2⟩ := h
  refine ⟨r, Train.train_trains h1, by rw [h2]; rfl, ?_⟩
  intro c i hc
  have := mem_of_mget hc
  rw [h2] at this ⊢
  revert this
  simp only [List.mem_cons, Prod.mk.injEq, List.not_mem_nil, or_false, List.length_cons, List.length_nil]
  omega

/-- A model in which `[CLS]` has the id 1. -/
def oldView : ModelView :=
  ⟨[(['a'], 0), ("[CLS]".toList, 1)], fun i => if i = 0 then some ['a'] else if i = 1 then some "[CLS]".toList else none,
    none⟩

/-- A model without it. -/
def newView : ModelView :=
  ⟨[(['a'], 0), (['b'], 1)], fun i => if i = 0 then some ['a'] else if i = 1 then some ['b'] else none, none⟩

example : newView.Sound := by
  refine ⟨by decide, ?_, ?_⟩
  · intro c i h
    simp only [newView, mget] at h
    split at h
    · cases h; decide
    · split at h
      · cases h; decide
      · cases h
  · intro c i
    simp only [newView, mget]
    by_cases h0 : i = 0
    · subst h0
      by_cases hc : (['a'] : Str) = c
      · subst hc; decide
      · have : ((['a'] : Str) == c) = false := by simpa using hc
        simp [this, hc]
    · by_cases h1 : i = 1
      · subst h1
        by_cases ha : (['a'] : Str) = c
        · subst ha; decide
        · have h1 : ((['a'] : Str) == c) = false := by simpa using ha
          by_cases hb : (['b'] : Str) = c
          · subst hb; decide
          · have h2 : ((['b'] : Str) == c) = false := by simpa using hb
            simp [h1, h2, hb]
      · simp only [if_neg h0, if_neg h1]
        constructor
        · intro h; cases h
        · intro h
          split at h
          · cases h; exact absurd rfl h0
          · split at h
            · cases h; exact absurd rfl h1
            · cases h

/-- The state after adding `[CLS]`, a token of the model, and `[NEW]`, as special tokens. -/
def clsState : Res (VocabState × Int) :=
  (newTokenizer oldView).addSpecialTokens
    [⟨"[CLS]".toList, false, false, false, false⟩, ⟨"[NEW]".toList, false, false, false, false⟩]

example : ∃ T n, clsState = .ok (T, n) ∧ (⟨"[CLS]".toList, false, false, false, false⟩ : AddedToken) ∈ T.specialTokens ∧
    mget T.added "[CLS]".toList = none ∧ mget newView.vocab "[CLS]".toList = none ∧
    T.afterTrain newView [] = .panic := by
  refine ⟨_, _, rfl, ?_, ?_, ?_, ?_⟩
  · decide +kernel
  · decide +kernel
  · decide +kernel
  · exact C106_fatal_violated (t := ⟨"[CLS]".toList, false, false, false, false⟩) (by decide +kernel)
      (by decide +kernel) _ (by decide +kernel) [] (by simp)

example : ∃ T n, clsState = .ok (T, n) ∧ mget T.addedR 1 = some "[CLS]".toList ∧ mget T.added ['b'] = none ∧
    mget newView.vocab ['b'] = some 1 ∧ (T.withModel newView).tokenToId ['b'] = some 1 ∧
    (T.withModel newView).idToToken 1 = some "[CLS]".toList := by
  refine ⟨_, _, rfl, ?_, ?_, ?_, ?_, ?_⟩ <;> decide +kernel

example : ∃ T n, clsState = .ok (T, n) ∧
    ((⟨"[CLS]".toList, false, false, false, false⟩ : AddedToken), (1 : Int)) ∈ T.splitRe ++ T.splitNormalizedRe := by
  refine ⟨_, _, rfl, ?_⟩
  decide +kernel

end Tok
