import Verif.Vocab.Lemmas

/-!
# C14, C15, C16: added tokens and vocabulary queries
-/

namespace Tok
open VocabState

/-! ### Specification -/

/-- A tokenizer as built, before any token is added: the model's vocabulary is
injective with ids below its size, and its two directions agree. -/
structure FreshModel (T : VocabState) : Prop where
  noAdded : T.added = [] ∧ T.addedR = [] ∧ T.addedTokens = [] ∧ T.specialTokens = [] ∧
    T.specialSet = [] ∧ T.splitRe = [] ∧ T.splitNormalizedRe = []
  keys : (T.vocab.map (·.1)).Nodup
  ids : ∀ c i, mget T.vocab c = some i → 0 ≤ i ∧ i < T.modelSize
  inverse : ∀ c i, T.vocabR i = some c ↔ mget T.vocab c = some i

/-- One public call that may change the state.  `GetVocab` visits the added map
in any order. -/
inductive VocabStep : VocabState → VocabState → Prop
  | addTokens (ts : List AddedToken) : T.addTokens ts = .ok (T', n) → VocabStep T T'
  | addSpecialTokens (ts : List AddedToken) : T.addSpecialTokens ts = .ok (T', n) → VocabStep T T'
  | getVocab : T.added.Perm order → VocabStep T (T.getVocab b order).1

/-- Any sequence of calls. -/
inductive VocabRuns : VocabState → VocabState → Prop
  | refl : VocabRuns T T
  | step : VocabRuns T T' → VocabStep T' T'' → VocabRuns T T''

/-- The distinct non-empty contents of `ts` unknown to `T`, in order of first
occurrence. -/
def newContents (T : VocabState) (ts : List AddedToken) : List Str :=
  ((ts.map (·.content)).filter (fun c => !c.isEmpty && (T.tokenToId c).isNone)).eraseDups

/-! ### Invariant over histories -/

structure Full (T : VocabState) : Prop where
  inv : T.Inv
  reg : T.Registered
  spec : T.SpecialKnown
  split : T.SplitOk
  specSet : ∀ c, T.isSpecial c = true ↔ ∃ t ∈ T.specialTokens, t.content = c
  specNe : ∀ t ∈ T.specialTokens, t.content ≠ []

theorem FreshModel.full {T : VocabState} (h : FreshModel T) : Full T := by
  obtain ⟨h1, h2, h3, h4, h5, h6, h7⟩ := h.noAdded
  have ht : ∀ c, T.tokenToId c = mget T.vocab c := by
    intro c; unfold tokenToId; rw [h1]; rfl
  refine ⟨⟨h.keys, by rw [h1]; simp, ?_, ?_, ?_, ?_, ?_, ?_, ?_⟩, ?_, ?_, ?_, ?_, ?_⟩
  · intro c i hc; rw [ht] at hc; have := h.ids c i hc; rw [h1]; simp; omega
  · intro a b i ha hb
    rw [ht, ← h.inverse] at ha hb
    rw [ha] at hb; exact Option.some.inj hb
  · intro c i j _ hj; rw [h1] at hj; cases hj
  · intro i c hc; rw [h2] at hc; cases hc
  · intro i c hc; rw [h1] at hc; cases hc
  · intro i c hc; rw [ht]; exact (h.inverse _ _).1 hc
  · intro c i hc _; exact (h.inverse _ _).2 hc
  · intro t ht; rw [h3] at ht; cases ht
  · intro t ht; rw [h4] at ht; cases ht
  · intro t ht; rw [h6, h7] at ht; cases ht
  · intro c; unfold isSpecial; rw [h5, h4]; simp
  · intro t ht; rw [h4] at ht; cases ht

/-- What `addTokens` does, given that the special tokens of the state are among
the known or just-added ones. -/
theorem addTokens_spec {T : VocabState} (ts : List AddedToken) (h : T.Inv) (hr : T.Registered)
    (hs : ∀ t ∈ T.specialTokens, (T.tokenToId t.content).isSome ∨ (t ∈ ts ∧ t.content ≠ [])) :
    ∃ r s, T.addTokens ts = .ok ({ (T.addLoop 0 ts).1 with splitNormalizedRe := r, splitRe := s },
        (ts.length : Int) - (T.addLoop 0 ts).2) ∧
      (∀ p ∈ s ++ r, (T.addLoop 0 ts).1.tokenToId p.1.content = some p.2) ∧
      (T.addLoop 0 ts).1.Inv ∧ (T.addLoop 0 ts).1.Registered ∧
      (T.addLoop 0 ts).1.SpecialKnown := by
  have h1 := addLoop_inv ts 0 h
  have h2 := addLoop_registered ts 0 hr
  have h3 : (T.addLoop 0 ts).1.SpecialKnown := by
    intro t ht
    rw [(addLoop_size ts 0).2.2.2.2.2.1] at ht
    rcases hs t ht with hk | ⟨hm, h0⟩
    · obtain ⟨i, hi⟩ := Option.isSome_iff_exists.1 hk
      rw [addLoop_stable ts 0 hi]; rfl
    · exact addLoop_has ts 0 t hm h0
  obtain ⟨r, s, e, hp⟩ := refresh_ok h2 h3
  refine ⟨r, s, ?_, hp, h1, h2, h3⟩
  unfold VocabState.addTokens
  simp only
  rw [e]; rfl

theorem registerSpecial_full (ts : List AddedToken) : ∀ {T : VocabState},
    (∀ c, T.isSpecial c = true ↔ ∃ t ∈ T.specialTokens, t.content = c) →
    (∀ t ∈ T.specialTokens, t.content ≠ []) →
    (∀ c, (T.registerSpecial ts).isSpecial c = true ↔
      ∃ t ∈ (T.registerSpecial ts).specialTokens, t.content = c) ∧
    (∀ t ∈ (T.registerSpecial ts).specialTokens, t.content ≠ []) ∧
    (∀ c, (T.registerSpecial ts).isSpecial c = true ↔
      T.isSpecial c = true ∨ (c ≠ [] ∧ ∃ t ∈ ts, t.content = c)) := by
  induction ts with
  | nil => intro T h1 h2; refine ⟨h1, h2, ?_⟩; intro c; simp [registerSpecial]
  | cons t ts ih =>
    intro T h1 h2
    unfold registerSpecial
    split
    · next hc =>
      have := @ih { T with specialTokens := T.specialTokens ++ [t]
                           specialSet := T.specialSet ++ [t.content] } ?_ ?_
      · refine ⟨this.1, this.2.1, ?_⟩
        intro c
        rw [this.2.2]
        unfold isSpecial
        simp only [List.contains_eq_mem, List.mem_append, List.mem_cons, List.not_mem_nil, or_false]
        simp only [decide_eq_true_eq]
        constructor
        · rintro ((h | h) | h)
          · exact Or.inl h
          · exact Or.inr ⟨h ▸ hc.1, t, Or.inl rfl, h.symm⟩
          · exact Or.inr ⟨h.1, h.2.choose, Or.inr h.2.choose_spec.1, h.2.choose_spec.2⟩
        · rintro (h | ⟨h0, u, (rfl | hu), e⟩)
          · exact Or.inl (Or.inl h)
          · exact Or.inl (Or.inr e.symm)
          · exact Or.inr ⟨h0, u, hu, e⟩
      · intro c
        have := h1 c
        unfold isSpecial at this ⊢
        simp only [List.contains_eq_mem, List.mem_append, List.mem_singleton, decide_eq_true_eq] at this ⊢
        constructor
        · rintro (h | h)
          · obtain ⟨u, hu, e⟩ := this.1 h; exact ⟨u, Or.inl hu, e⟩
          · exact ⟨t, Or.inr rfl, h.symm⟩
        · rintro ⟨u, (hu | rfl), e⟩
          · exact Or.inl (this.2 ⟨u, hu, e⟩)
          · exact Or.inr e.symm
      · intro u hu
        rcases List.mem_append.1 hu with hu | hu
        · exact h2 u hu
        · simp only [List.mem_singleton] at hu; subst hu; exact hc.1
    · next hc =>
      obtain ⟨a, b, d⟩ := ih h1 h2
      refine ⟨a, b, ?_⟩
      intro c
      rw [d]
      constructor
      · rintro (h | ⟨h0, u, hu, e⟩)
        · exact Or.inl h
        · exact Or.inr ⟨h0, u, by simp [hu], e⟩
      · rintro (h | ⟨h0, u, hu, e⟩)
        · exact Or.inl h
        · rcases List.mem_cons.1 hu with rfl | hu
          · subst e
            simp only [ne_eq, h0, not_false_eq_true, true_and, Bool.not_eq_false] at hc
            exact Or.inl hc
          · exact Or.inr ⟨h0, u, hu, e⟩

theorem addTokens_full {T : VocabState} (ts : List AddedToken) (h : Full T) :
    ∃ T' n, T.addTokens ts = .ok (T', n) ∧ Full T' ∧
      T'.tokenToId = (T.addLoop 0 ts).1.tokenToId := by
  obtain ⟨r, s, e, hp, h1, h2, h3⟩ := addTokens_spec ts h.inv h.reg (fun t ht => Or.inl (h.spec t ht))
  refine ⟨_, _, e, ⟨Inv_congr h1 rfl rfl rfl rfl rfl, h2, h3, hp, ?_, ?_⟩, rfl⟩
  · intro c
    have := h.specSet c
    have hz := addLoop_size ts (T := T) 0
    unfold isSpecial at this ⊢
    simp only [hz.2.2.2.2.1, hz.2.2.2.2.2.1]
    exact this
  · intro t ht
    have hz := addLoop_size ts (T := T) 0
    simp only [hz.2.2.2.2.2.1] at ht
    exact h.specNe t ht

theorem addSpecialTokens_full {T : VocabState} (ts : List AddedToken) (h : Full T) :
    ∃ T' n, T.addSpecialTokens ts = .ok (T', n) ∧ Full T' ∧
      T'.tokenToId = ((T.registerSpecial ts).addLoop 0 ts).1.tokenToId ∧
      T'.isSpecial = (T.registerSpecial ts).isSpecial := by
  have hreg := @registerSpecial_same ts T
  obtain ⟨ht, hid, hv, hvR, hfs, hadd, haddR, hat⟩ := hreg
  obtain ⟨ha, hb, hc⟩ := registerSpecial_full ts h.specSet h.specNe
  have hinv : (T.registerSpecial ts).Inv := Inv_congr h.inv hv hvR hfs hadd haddR
  have hr : (T.registerSpecial ts).Registered := by
    intro t htm; rw [hat] at htm; rw [ht]; exact h.reg t htm
  obtain ⟨r, s, e, hp, h1, h2, h3⟩ := addTokens_spec ts hinv hr (by
    intro t htm
    rcases registerSpecial_mem ts t htm with hm | hm
    · rw [ht]; exact Or.inl (h.spec t hm)
    · exact Or.inr hm)
  have hz := addLoop_size ts (T := T.registerSpecial ts) 0
  refine ⟨_, _, e, ⟨Inv_congr h1 rfl rfl rfl rfl rfl, h2, h3, hp, ?_, ?_⟩, rfl, ?_⟩
  · intro c
    have := ha c
    unfold isSpecial at this ⊢
    simp only [hz.2.2.2.2.1, hz.2.2.2.2.2.1]
    exact this
  · intro t htm
    simp only [hz.2.2.2.2.2.1] at htm
    exact hb t htm
  · funext c
    unfold isSpecial
    simp only [hz.2.2.2.2.1]

theorem getVocab_full {T : VocabState} (h : Full T) {order : List (Str × Int)}
    (hp : T.added.Perm order) (b : Bool) : Full (T.getVocab b order).1 := by
  have ht := getVocab_tokenToId h.inv hp b
  refine ⟨getVocab_inv h.inv hp b, ?_, ?_, ?_, ?_, ?_⟩
  · unfold Registered; rw [ht]
    have : (T.getVocab b order).1.addedTokens = T.addedTokens := by unfold getVocab; split <;> rfl
    rw [this]; exact h.reg
  · unfold SpecialKnown; rw [ht]
    have : (T.getVocab b order).1.specialTokens = T.specialTokens := by unfold getVocab; split <;> rfl
    rw [this]; exact h.spec
  · unfold SplitOk; rw [ht]
    have h1 : (T.getVocab b order).1.splitRe = T.splitRe := by unfold getVocab; split <;> rfl
    have h2 : (T.getVocab b order).1.splitNormalizedRe = T.splitNormalizedRe := by
      unfold getVocab; split <;> rfl
    rw [h1, h2]; exact h.split
  · unfold getVocab; split <;> exact h.specSet
  · unfold getVocab; split <;> exact h.specNe

theorem VocabStep.full {T T' : VocabState} (h : VocabStep T T') (hT : Full T) : Full T' := by
  cases h with
  | addTokens ts e =>
    obtain ⟨T'', n, e', hf, _⟩ := addTokens_full _ hT
    rw [e'] at e; cases e; exact hf
  | addSpecialTokens ts e =>
    obtain ⟨T'', n, e', hf, _⟩ := addSpecialTokens_full _ hT
    rw [e'] at e; cases e; exact hf
  | getVocab hp => exact getVocab_full hT hp _

theorem VocabRuns.full {T T' : VocabState} (h : VocabRuns T T') (hT : Full T) : Full T' := by
  induction h with
  | refl => exact hT
  | step _ hs ih => exact hs.full ih

theorem VocabStep.stable {T T' : VocabState} (h : VocabStep T T') (hT : Full T) {c : Str} {i : Int}
    (hc : T.tokenToId c = some i) : T'.tokenToId c = some i := by
  cases h with
  | addTokens ts e =>
    obtain ⟨T'', n, e', hf, ht⟩ := addTokens_full _ hT
    rw [e'] at e; cases e; rw [ht]; exact addLoop_stable _ 0 hc
  | addSpecialTokens ts e =>
    obtain ⟨T'', n, e', hf, ht, _⟩ := addSpecialTokens_full _ hT
    rw [e'] at e; cases e; rw [ht]; apply addLoop_stable
    rw [(registerSpecial_same _).1]; exact hc
  | getVocab hp => rw [getVocab_tokenToId hT.inv hp]; exact hc

/-! ### The growth of the added map -/

theorem addOne_eq_empty {T : VocabState} {k : Nat} {t : AddedToken} (h : t.content = []) :
    T.addOne k t = (T, k + 1) := by
  unfold addOne; rw [if_pos h]

theorem mset_new {m : List (Str × Int)} {k : Str} {v : Int} (h : mget m k = none) :
    mset m k v = m ++ [(k, v)] := by
  induction m with
  | nil => rfl
  | cons p l ih =>
    unfold mget at h
    split at h
    · cases h
    · next hne =>
      unfold mset
      rw [if_neg hne, ih h]; rfl

theorem addLoop_added (ts : List AddedToken) : ∀ {T : VocabState} (k : Nat),
    (T.addLoop k ts).1.added = T.added ++
      (newContents T ts).mapIdx (fun j c => (c, (T.modelSize : Int) + T.added.length + j)) ∧
    (T.addLoop k ts).2 + (newContents T ts).length = k + ts.length := by
  induction ts with
  | nil => intro T k; simp [addLoop, newContents]
  | cons t ts ih =>
    intro T k
    by_cases h0 : t.content = []
    · have hn : newContents T (t :: ts) = newContents T ts := by
        simp [newContents, h0]
      have := ih (T := T) (k + 1)
      unfold addLoop
      rw [addOne_eq_empty h0, hn]
      simp only [List.length_cons]
      refine ⟨this.1, by omega⟩
    cases hk : T.tokenToId t.content with
    | some i =>
      have hn : newContents T (t :: ts) = newContents (T.addOne k t).1 ts := by
        unfold newContents
        rw [addOne_known h0 hk]
        simp only [List.map_cons, List.filter_cons, hk]
        simp [tokenToId]
      have := ih (T := (T.addOne k t).1) (T.addOne k t).2
      rw [← hn] at this
      show (addLoop (T.addOne k t).1 (T.addOne k t).2 ts).1.added = _ ∧
        (addLoop (T.addOne k t).1 (T.addOne k t).2 ts).2 + _ = _
      refine ⟨?_, ?_⟩
      · rw [this.1, addOne_known h0 hk]
        rfl
      · rw [this.2, addOne_known h0 hk]
        simp only [List.length_cons]; omega
    | none =>
      have hn : newContents T (t :: ts) = t.content :: newContents (T.addOne k t).1 ts := by
        unfold newContents
        simp only [List.map_cons, List.filter_cons, hk]
        have : t.content.isEmpty = false := by simpa using h0
        simp only [this, Option.isNone_none, Bool.and_self, Bool.not_false, if_true,
          List.eraseDups_cons, List.filter_filter]
        congr 2
        apply List.filter_congr
        intro c _
        rw [addOne_tokenToId_new c h0 hk]
        by_cases e : c = t.content
        · simp [e]
        · simp [e]
      have := ih (T := (T.addOne k t).1) (T.addOne k t).2
      have hz := addOne_size (T := T) k t
      have hadd : (T.addOne k t).1.added =
          T.added ++ [(t.content, (T.modelSize + T.added.length : Int))] := by
        rw [addOne_new h0 hk]
        exact mset_new (tokenToId_none.1 hk).1
      show (addLoop (T.addOne k t).1 (T.addOne k t).2 ts).1.added = _ ∧
        (addLoop (T.addOne k t).1 (T.addOne k t).2 ts).2 + _ = _
      refine ⟨?_, ?_⟩
      · rw [this.1, hn, hadd, hz.1]
        simp only [List.append_assoc, List.singleton_append, List.mapIdx_cons, List.length_append,
          List.length_cons, List.length_nil]
        congr 2
        · simp
          apply List.ext_getElem
          · simp
          · intro n h1 h2
            simp only [List.getElem_mapIdx, Prod.mk.injEq, true_and]
            omega
      · rw [hn]
        simp only [List.length_cons]
        have h2 := this.2
        rw [show (T.addOne k t).2 = k by rw [addOne_new h0 hk]] at h2 ⊢
        omega

/-! ### C14 -/

/-- C14: in every state reached by adding tokens and reading the vocabulary,
ids and contents correspond one to one: a content has id `i` exactly when `i`
maps back to it (so distinct contents have distinct ids). -/
theorem C14_round_trip {T₀ T : VocabState} (h₀ : FreshModel T₀) (h : VocabRuns T₀ T)
    (c : Str) (i : Int) : T.tokenToId c = some i ↔ T.idToToken i = some c :=
  (h.full h₀.full).inv.roundtrip c i

/-- C14: adding never fails, gives every non-empty content an id, and knows
nothing else that was not known before. -/
theorem C14_added_known {T₀ T : VocabState} (h₀ : FreshModel T₀) (h : VocabRuns T₀ T)
    (ts : List AddedToken) :
    (∃ T' n, T.addTokens ts = .ok (T', n) ∧
      ∀ c, (T'.tokenToId c).isSome ↔
        (T.tokenToId c).isSome ∨ (c ≠ [] ∧ ∃ t ∈ ts, t.content = c)) ∧
    (∃ T' n, T.addSpecialTokens ts = .ok (T', n) ∧
      (∀ c, (T'.tokenToId c).isSome ↔
        (T.tokenToId c).isSome ∨ (c ≠ [] ∧ ∃ t ∈ ts, t.content = c)) ∧
      (∀ c, T'.isSpecial c = true ↔
        T.isSpecial c = true ∨ (c ≠ [] ∧ ∃ t ∈ ts, t.content = c))) := by
  have hT := h.full h₀.full
  have key : ∀ (S : VocabState) (c : Str), ((S.addLoop 0 ts).1.tokenToId c).isSome ↔
        (S.tokenToId c).isSome ∨ (c ≠ [] ∧ ∃ t ∈ ts, t.content = c) := by
    intro S c
    constructor
    · intro hc; exact addLoop_only ts 0 hc
    · rintro (hc | ⟨h0, t, ht, rfl⟩)
      · obtain ⟨i, hi⟩ := Option.isSome_iff_exists.1 hc
        rw [addLoop_stable ts 0 hi]; rfl
      · exact addLoop_has ts 0 t ht h0
  constructor
  · obtain ⟨T', n, e, _, ht⟩ := addTokens_full ts hT
    exact ⟨T', n, e, fun c => by rw [ht]; exact key T c⟩
  · obtain ⟨T', n, e, _, ht, hsp⟩ := addSpecialTokens_full ts hT
    refine ⟨T', n, e, fun c => ?_, fun c => ?_⟩
    · rw [ht, key, (registerSpecial_same ts).1]
    · rw [hsp]; exact (registerSpecial_full ts hT.specSet hT.specNe).2.2 c

/-- C14: an id once given never changes. -/
theorem C14_stable {T₀ T T' : VocabState} (h₀ : FreshModel T₀) (h : VocabRuns T₀ T)
    (h' : VocabRuns T T') (c : Str) (i : Int) (hc : T.tokenToId c = some i) :
    T'.tokenToId c = some i := by
  have hT := h.full h₀.full
  induction h' with
  | refl => exact hc
  | step hr hs ih => exact hs.stable (hr.full hT) ih

theorem modelSize_step {T T' : VocabState} (hs : VocabStep T T') (hT : Full T) :
    T.modelSize ≤ T'.modelSize := by
  cases hs with
  | addTokens ts e =>
    obtain ⟨r, s, e', _⟩ := addTokens_spec _ hT.inv hT.reg (fun t ht => Or.inl (hT.spec t ht))
    rw [e'] at e; cases e
    exact Nat.le_of_eq (addLoop_size _ 0).1.symm
  | addSpecialTokens ts e =>
    have hreg := @registerSpecial_same ts T
    obtain ⟨ht, hid, hv, hvR, hfs, hadd, haddR, hat⟩ := hreg
    obtain ⟨r, s, e', _⟩ := addTokens_spec ts
      (Inv_congr hT.inv hv hvR hfs hadd haddR)
      (by intro t htm; rw [hat] at htm; rw [ht]; exact hT.reg t htm)
      (by
        intro t htm
        rcases registerSpecial_mem ts t htm with hm | hm
        · rw [ht]; exact Or.inl (hT.spec t hm)
        · exact Or.inr hm)
    unfold VocabState.addSpecialTokens at e
    rw [e'] at e; cases e
    refine Nat.le_of_eq (Eq.symm ((addLoop_size ts 0).1.trans ?_))
    unfold modelSize; rw [hfs, hv]
  | getVocab hp =>
    exact getVocab_size_le T _ _ ((hp.map _).nodup_iff.1 hT.inv.addedNodup)

/-- C14: a token that is not the model's gets an id at or above the model's
vocabulary size. -/
theorem C14_ids_above_model {T₀ T : VocabState} (h₀ : FreshModel T₀) (h : VocabRuns T₀ T)
    (c : Str) (i : Int) (hm : mget T₀.vocab c = none) (hc : T.tokenToId c = some i) :
    (T₀.getVocabSize false : Int) ≤ i := by
  have key : T₀.modelSize ≤ T.modelSize ∧
      ∀ c i, mget T₀.vocab c = none → T.tokenToId c = some i → (T₀.modelSize : Int) ≤ i := by
    clear hc
    induction h with
    | refl =>
      refine ⟨Nat.le_refl _, ?_⟩
      intro c i h1 h2
      unfold tokenToId at h2
      rw [h₀.noAdded.1] at h2
      simp only [mget_nil] at h2
      rw [h1] at h2; cases h2
    | step hr hs ih =>
      have hT := hr.full h₀.full
      have hle := modelSize_step hs hT
      refine ⟨Nat.le_trans ih.1 hle, ?_⟩
      intro c i h1 h2
      rename_i T₁ T₂
      cases hk : T₁.tokenToId c with
      | some j =>
        rw [hs.stable hT hk] at h2; cases h2
        exact ih.2 c _ h1 hk
      | none =>
        have hmap : ∀ (S : VocabState) (ts : List AddedToken), S.modelSize = T₁.modelSize →
            S.tokenToId = T₁.tokenToId →
            (S.addLoop 0 ts).1.tokenToId c = some i → (T₁.modelSize : Int) ≤ i := by
          intro S ts hsz htk hc
          have hnone : S.tokenToId c = none := by rw [htk]; exact hk
          have ha := addLoop_added ts (T := S) 0
          have hv := (addLoop_size ts (T := S) 0).2.1
          unfold tokenToId at hc
          rw [hv, (tokenToId_none.1 hnone).2, ha.1] at hc
          cases hg : mget (S.added ++ (newContents S ts).mapIdx
              (fun j c => (c, (S.modelSize : Int) + S.added.length + j))) c with
          | none => rw [hg] at hc; cases hc
          | some v =>
            rw [hg] at hc; cases hc
            rcases List.mem_append.1 (mem_of_mget hg) with hm | hm
            · exact absurd (List.mem_map.2 ⟨_, hm, rfl⟩) (mget_eq_none.1 (tokenToId_none.1 hnone).1)
            · obtain ⟨j, hj, e⟩ := List.mem_mapIdx.1 hm
              simp only [Prod.mk.injEq] at e
              omega
        have h3 : (T₁.modelSize : Int) ≤ i := by
          cases hs with
          | addTokens ts e =>
            obtain ⟨T'', n, e', hf, ht⟩ := addTokens_full ts hT
            rw [e'] at e; cases e; rw [ht] at h2
            exact hmap T₁ ts rfl rfl h2
          | addSpecialTokens ts e =>
            obtain ⟨T'', n, e', hf, ht, _⟩ := addSpecialTokens_full ts hT
            rw [e'] at e; cases e; rw [ht] at h2
            have hreg := @registerSpecial_same ts T₁
            refine hmap _ ts ?_ hreg.1 h2
            unfold modelSize; rw [hreg.2.2.2.2.1, hreg.2.2.1]
          | getVocab hp => rw [getVocab_tokenToId hT.inv hp, hk] at h2; cases h2
        have := ih.1
        omega
  exact key.2 c i hm hc

/-- C14: new contents get consecutive ids, in order of first occurrence,
starting at the current size of the vocabulary with added tokens. -/
theorem C14_consecutive_ids {T₀ T : VocabState} (h₀ : FreshModel T₀) (h : VocabRuns T₀ T)
    (ts : List AddedToken) (T' : VocabState) (n : Int)
    (he : T.addTokens ts = .ok (T', n) ∨ T.addSpecialTokens ts = .ok (T', n)) (j : Nat)
    (hj : j < (newContents T ts).length) :
    T'.tokenToId (newContents T ts)[j] = some ((T.getVocabSize true : Int) + j) := by
  have hT := h.full h₀.full
  have key : ∀ S : VocabState, S.Inv → S.tokenToId = T.tokenToId → S.modelSize = T.modelSize →
      S.added = T.added →
      (S.addLoop 0 ts).1.tokenToId (newContents T ts)[j] =
        some ((T.getVocabSize true : Int) + j) := by
    intro S hS h1 h2 h3
    have hn : newContents S ts = newContents T ts := by unfold newContents; rw [h1]
    have ha := (addLoop_added ts (T := S) 0).1
    have hnd := (addLoop_inv ts 0 hS).addedNodup
    unfold tokenToId
    rw [mget_of_mem (v := (T.getVocabSize true : Int) + j) hnd]
    rw [ha, hn, h2, h3]
    apply List.mem_append_right
    rw [List.mem_mapIdx]
    exact ⟨j, hj, by simp [getVocabSize]⟩
  rcases he with he | he
  · obtain ⟨T'', n', e', _, ht⟩ := addTokens_full ts hT
    rw [e'] at he; cases he
    rw [ht]; exact key T hT.inv rfl rfl rfl
  · obtain ⟨T'', n', e', _, ht, _⟩ := addSpecialTokens_full ts hT
    rw [e'] at he; cases he
    obtain ⟨ht', hid, hv, hvR, hfs, hadd, haddR, hat⟩ := @registerSpecial_same ts T
    rw [ht]
    refine key _ (Inv_congr hT.inv hv hvR hfs hadd haddR) ht' ?_ hadd
    unfold modelSize; rw [hfs, hv]

/-- C14: the patterns used to split text on added tokens carry the tokens'
current ids. -/
theorem C14_patterns_current {T₀ T : VocabState} (h₀ : FreshModel T₀) (h : VocabRuns T₀ T)
    (t : AddedToken) (i : Int) (hp : (t, i) ∈ T.splitRe ++ T.splitNormalizedRe) :
    T.tokenToId t.content = some i :=
  (h.full h₀.full).split _ hp

/-- A model with two tokens. -/
def sampleModel : VocabState :=
  { vocab := [(['a'], 0), (['b'], 1)],
    vocabR := fun i => if i = 0 then some ['a'] else if i = 1 then some ['b'] else none,
    fixedSize := none }

theorem sampleModel_fresh : FreshModel sampleModel := by
  refine ⟨⟨rfl, rfl, rfl, rfl, rfl, rfl, rfl⟩, by decide, ?_, ?_⟩
  · intro c i h
    simp only [sampleModel, mget] at h
    show 0 ≤ i ∧ i < 2
    split at h
    · cases h; omega
    · split at h <;> cases h; omega
  · intro c i
    simp only [sampleModel, mget]
    by_cases h0 : i = 0
    · subst h0
      by_cases hc : c = ['a']
      · simp [hc]
      · by_cases hb : c = ['b']
        · simp [hb]
        · simp [Ne.symm hc, Ne.symm hb]
    · by_cases h1 : i = 1
      · subst h1
        by_cases hc : c = ['a']
        · simp [hc]
        · by_cases hb : c = ['b']
          · simp [hb]
          · simp [Ne.symm hc, Ne.symm hb]
      · by_cases hc : c = ['a']
        · simp [hc, h0, h1, Ne.symm h0]
        · by_cases hb : c = ['b']
          · simp [hb, h0, h1, Ne.symm h1]
          · simp [h0, h1, Ne.symm hc, Ne.symm hb]

/-- Non-vacuity: a history with a repeated, an empty and a model content. -/
example : ∃ T n, sampleModel.addSpecialTokens
      [⟨['x'], false, false, false, false⟩, ⟨[], false, false, false, true⟩,
       ⟨['a'], false, false, false, true⟩, ⟨['x'], false, false, false, true⟩,
       ⟨['y'], false, false, false, true⟩] = .ok (T, n) ∧
    n = 2 ∧ T.tokenToId ['x'] = some 2 ∧ T.tokenToId ['y'] = some 3 ∧ T.isSpecial ['a'] = true ∧
    (T.getVocab true [(['y'], 3), (['x'], 2)]).1.getVocabSize true = 6 := by
  refine ⟨_, _, rfl, ?_⟩
  decide

/-! ### C15 -/

/-- C15: `AddTokens` and `AddSpecialTokens` return the number of distinct
non-empty contents that were unknown, and `GetVocabSize(true)` grows by exactly
that number. -/
theorem C15_add_count {T₀ T : VocabState} (h₀ : FreshModel T₀) (h : VocabRuns T₀ T)
    (ts : List AddedToken) (T' : VocabState) (n : Int)
    (he : T.addTokens ts = .ok (T', n) ∨ T.addSpecialTokens ts = .ok (T', n)) :
    n = (newContents T ts).length ∧
    (T'.getVocabSize true : Int) = T.getVocabSize true + n ∧
    T'.getVocabSize false = T.getVocabSize false := by
  have hT := h.full h₀.full
  have key : ∀ S : VocabState, S.tokenToId = T.tokenToId → S.modelSize = T.modelSize →
      S.added = T.added →
      ((ts.length : Int) - (S.addLoop 0 ts).2 = (newContents T ts).length) ∧
      (S.addLoop 0 ts).1.modelSize = T.modelSize ∧
      (S.addLoop 0 ts).1.added.length = T.added.length + (newContents T ts).length := by
    intro S h1 h2 h3
    have hn : newContents S ts = newContents T ts := by unfold newContents; rw [h1]
    obtain ⟨ha, hl⟩ := addLoop_added ts (T := S) 0
    rw [hn] at ha hl
    refine ⟨by omega, (addLoop_size ts 0).1.trans h2, ?_⟩
    rw [ha, h3]; simp
  rcases he with he | he
  · obtain ⟨r, s, e', _⟩ := addTokens_spec ts hT.inv hT.reg (fun t ht => Or.inl (hT.spec t ht))
    rw [e'] at he; cases he
    obtain ⟨k1, k2, k3⟩ := key T rfl rfl rfl
    refine ⟨k1, ?_, ?_⟩
    · rw [k1]
      simp only [getVocabSize, if_true]
      show (((T.addLoop 0 ts).1.modelSize + (T.addLoop 0 ts).1.added.length : Nat) : Int) = _
      rw [k2, k3]; omega
    · exact k2
  · obtain ⟨ht, hid, hv, hvR, hfs, hadd, haddR, hat⟩ := @registerSpecial_same ts T
    obtain ⟨r, s, e', _⟩ := addTokens_spec ts
      (Inv_congr hT.inv hv hvR hfs hadd haddR)
      (by intro t htm; rw [hat] at htm; rw [ht]; exact hT.reg t htm)
      (by
        intro t htm
        rcases registerSpecial_mem ts t htm with hm | hm
        · rw [ht]; exact Or.inl (hT.spec t hm)
        · exact Or.inr hm)
    unfold VocabState.addSpecialTokens at he
    rw [e'] at he; cases he
    obtain ⟨k1, k2, k3⟩ := key (T.registerSpecial ts) ht
      (by unfold modelSize; rw [hfs, hv]) hadd
    refine ⟨k1, ?_, ?_⟩
    · rw [k1]
      simp only [getVocabSize, if_true]
      show ((((T.registerSpecial ts).addLoop 0 ts).1.modelSize +
        ((T.registerSpecial ts).addLoop 0 ts).1.added.length : Nat) : Int) = _
      rw [k2, k3]; omega
    · exact k2

/-! ### C16 -/

/-- C16 is violated by every model whose size is the length of its map (BPE,
WordPiece, WordLevel): as soon as some added token is not in the model's map,
calling `GetVocab(true)` makes `GetVocabSize` answer more, with and without
added tokens. -/
theorem C16_getVocab_violated {T₀ T : VocabState} (h₀ : FreshModel T₀) (h : VocabRuns T₀ T)
    (hsize : T.fixedSize = none) (c : Str) (i : Int) (ha : mget T.added c = some i)
    (hv : mget T.vocab c = none) (order : List (Str × Int)) (hp : T.added.Perm order)
    (w : Bool) :
    T.getVocabSize w < (T.getVocab true order).1.getVocabSize w := by
  have hT := (h.full h₀.full).inv
  have hn : (order.map (·.1)).Nodup := (hp.map _).nodup_iff.1 hT.addedNodup
  have hlt : T.modelSize < (T.getVocab true order).1.modelSize := by
    simp only [getVocab, modelSize, hsize, if_true, Option.getD_none]
    rw [writeAll_length _ _ hn]
    have : 0 < (order.filter (fun p => (mget T.vocab p.1).isNone)).length := by
      apply List.length_pos_of_mem (a := (c, i))
      rw [List.mem_filter]
      exact ⟨hp.mem_iff.1 (mem_of_mget ha), by simp [hv]⟩
    omega
  cases w with
  | false => exact hlt
  | true =>
    simp only [getVocabSize, if_true]
    have : (T.getVocab true order).1.added = T.added := rfl
    rw [this]; omega

/-- Non-vacuity: the sample model after adding "x". -/
example : ∃ T n, sampleModel.addTokens [⟨['x'], false, false, false, true⟩] = .ok (T, n) ∧
    T.fixedSize = none ∧ mget T.added ['x'] = some 2 ∧ mget T.vocab ['x'] = none := by
  refine ⟨_, _, rfl, ?_⟩
  decide

/-- C16, the part that holds: `GetVocab` in either form never changes the
answers of `TokenToId` and `IdToToken` nor which tokens are special;
`GetVocab(false)` changes nothing at all; `GetVocab(true)` returns exactly the
known tokens with their ids, and a second call changes no size any more.
Missing from the full property: the sizes (see `C16_getVocab_violated`). -/
theorem C16_queries_partial {T₀ T : VocabState} (h₀ : FreshModel T₀) (h : VocabRuns T₀ T)
    (order : List (Str × Int)) (hp : T.added.Perm order) :
    (∀ w, (T.getVocab w order).1.tokenToId = T.tokenToId ∧
      (T.getVocab w order).1.idToToken = T.idToToken ∧
      (T.getVocab w order).1.isSpecial = T.isSpecial) ∧
    (T.getVocab false order).1 = T ∧
    (∀ c, mget (T.getVocab true order).2 c = T.tokenToId c) ∧
    (∀ order' w, T.added.Perm order' →
      ((T.getVocab true order).1.getVocab true order').1.getVocabSize w =
        (T.getVocab true order).1.getVocabSize w) := by
  have hT := (h.full h₀.full).inv
  have hn : (order.map (·.1)).Nodup := (hp.map _).nodup_iff.1 hT.addedNodup
  have hlook : ∀ c, mget (writeAll T.vocab order) c = T.tokenToId c := by
    intro c
    rw [mget_writeAll _ _ _ hn, mget_perm hp hT.addedNodup]
    unfold tokenToId
    cases mget T.added c <;> simp
  refine ⟨fun w => ⟨getVocab_tokenToId hT hp w, ?_, ?_⟩, rfl, ?_, ?_⟩
  · unfold getVocab; split <;> rfl
  · unfold getVocab; split <;> rfl
  · exact hlook
  · intro order' w hp'
    have hn' : (order'.map (·.1)).Nodup := (hp'.map _).nodup_iff.1 hT.addedNodup
    have hm : ((T.getVocab true order).1.getVocab true order').1.modelSize =
        (T.getVocab true order).1.modelSize := by
      simp only [getVocab, if_true, modelSize]
      cases T.fixedSize with
      | some n => rfl
      | none =>
        simp only [Option.getD_none]
        rw [writeAll_length _ _ hn']
        have : order'.filter (fun p => (mget (writeAll T.vocab order) p.1).isNone) = [] := by
          rw [List.filter_eq_nil_iff]
          intro p hp''
          rw [hlook]
          have := mget_of_mem (m := T.added) hT.addedNodup (hp'.mem_iff.2 hp'')
          unfold tokenToId; rw [this]; simp
        rw [this]; simp
    simp only [getVocabSize, hm]
    rfl

/-- Histories that only add tokens. -/
inductive VocabAdds : VocabState → VocabState → Prop
  | refl : VocabAdds T T
  | addTokens (ts : List AddedToken) : VocabAdds T T' →
      T'.addTokens ts = .ok (T'', n) → VocabAdds T T''
  | addSpecialTokens (ts : List AddedToken) : VocabAdds T T' →
      T'.addSpecialTokens ts = .ok (T'', n) → VocabAdds T T''

theorem VocabAdds.runs {T T' : VocabState} (h : VocabAdds T T') : VocabRuns T T' := by
  induction h with
  | refl => exact .refl
  | addTokens ts _ e ih => exact .step ih (.addTokens ts e)
  | addSpecialTokens ts _ e ih => exact .step ih (.addSpecialTokens ts e)

theorem addLoop_disjoint (ts : List AddedToken) : ∀ {T : VocabState} (k : Nat),
    (∀ c, (mget T.added c).isSome → mget T.vocab c = none) →
    ∀ c, (mget (T.addLoop k ts).1.added c).isSome → mget T.vocab c = none := by
  induction ts with
  | nil => intro T k h; exact h
  | cons t ts ih =>
    intro T k h c hc
    have hz := addOne_size (T := T) k t
    rw [← hz.2.1]
    refine ih (T := (T.addOne k t).1) (T.addOne k t).2 ?_ c hc
    intro c hc
    rw [hz.2.1]
    by_cases h0 : t.content = []
    · rw [addOne_eq_empty h0] at hc; exact h c hc
    cases hk : T.tokenToId t.content with
    | some i => rw [addOne_known h0 hk] at hc; exact h c hc
    | none =>
      rw [addOne_new h0 hk] at hc
      simp only [mget_mset] at hc
      split at hc
      · next e => rw [e]; exact (tokenToId_none.1 hk).2
      · exact h c hc

theorem VocabAdds.disjoint {T₀ T : VocabState} (h₀ : FreshModel T₀) (h : VocabAdds T₀ T) :
    T.vocab = T₀.vocab ∧ T.fixedSize = T₀.fixedSize ∧
      ∀ c, (mget T.added c).isSome → mget T.vocab c = none := by
  induction h with
  | refl => exact ⟨rfl, rfl, by intro c hc; rw [h₀.noAdded.1] at hc; simp at hc⟩
  | @addTokens T' _ _ ts hr e ih =>
    have hT := hr.runs.full h₀.full
    obtain ⟨r, s, e', _⟩ := addTokens_spec ts hT.inv hT.reg (fun t ht => Or.inl (hT.spec t ht))
    rw [e'] at e; cases e
    have hz := addLoop_size ts (T := T') 0
    refine ⟨hz.2.1.trans ih.1, hz.2.2.2.1.trans ih.2.1, ?_⟩
    intro c hc
    have := addLoop_disjoint ts 0 ih.2.2 c hc
    show mget (T'.addLoop 0 ts).1.vocab c = none
    rw [hz.2.1]; exact this
  | @addSpecialTokens T' _ _ ts hr e ih =>
    have hT := hr.runs.full h₀.full
    obtain ⟨ht, hid, hv, hvR, hfs, hadd, haddR, hat⟩ := @registerSpecial_same ts T'
    obtain ⟨r, s, e', _⟩ := addTokens_spec ts
      (Inv_congr hT.inv hv hvR hfs hadd haddR)
      (by intro t htm; rw [hat] at htm; rw [ht]; exact hT.reg t htm)
      (by
        intro t htm
        rcases registerSpecial_mem ts t htm with hm | hm
        · rw [ht]; exact Or.inl (hT.spec t hm)
        · exact Or.inr hm)
    unfold VocabState.addSpecialTokens at e
    rw [e'] at e; cases e
    have hz := addLoop_size ts (T := T'.registerSpecial ts) 0
    refine ⟨hz.2.1.trans (hv.trans ih.1), hz.2.2.2.1.trans (hfs.trans ih.2.1), ?_⟩
    intro c hc
    have := addLoop_disjoint ts (T := T'.registerSpecial ts) 0 (by rw [hadd, hv]; exact ih.2.2) c hc
    show mget ((T'.registerSpecial ts).addLoop 0 ts).1.vocab c = none
    rw [hz.2.1]; exact this

/-- C16, the part that holds about sizes: as long as `GetVocab(true)` has not
been called, `GetVocabSize(true)` is the number of distinct known tokens. -/
theorem C16_size_partial {T₀ T : VocabState} (h₀ : FreshModel T₀)
    (hs : T₀.getVocabSize false = T₀.vocab.length) (h : VocabAdds T₀ T) :
    ∃ toks : List Str, toks.Nodup ∧ (∀ c, c ∈ toks ↔ (T.tokenToId c).isSome) ∧
      toks.length = T.getVocabSize true := by
  have hT := (h.runs.full h₀.full).inv
  obtain ⟨hv, hf, hdis⟩ := h.disjoint h₀
  refine ⟨T.vocab.map (·.1) ++ T.added.map (·.1), ?_, ?_, ?_⟩
  · rw [List.nodup_append]
    refine ⟨hT.vocabNodup, hT.addedNodup, ?_⟩
    intro a ha b hb e
    subst e
    have h1 : ¬ mget T.added a = none := by rw [mget_eq_none]; simpa using hb
    have h2 : (mget T.added a).isSome := by cases hm : mget T.added a <;> simp_all
    exact mget_eq_none.1 (hdis a h2) ha
  · intro c
    rw [List.mem_append]
    have h1 := @mget_eq_none _ _ _ _ T.added c
    have h2 := @mget_eq_none _ _ _ _ T.vocab c
    unfold tokenToId
    cases ha : mget T.added c <;> cases hb : mget T.vocab c <;> simp_all
  · have : T.modelSize = T.vocab.length := by
      unfold modelSize at *; simp only [getVocabSize, modelSize] at hs
      rw [hf, hv]; simpa using hs
    simp [getVocabSize, this]

end Tok
