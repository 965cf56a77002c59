import Verif.Unigram.Build
import Verif.Unigram.Props

/-!
# C68: the vocabulary of a Unigram model
-/

set_option linter.unusedSectionVars false

namespace Tok.Unigram

variable {K : Type} [AddCommGroup K] [LinearOrder K]

/-- Entry `id` has token `t` and no later entry has. -/
def LastAt (vocab : List (Bytes × K)) (t : Bytes) (id : Nat) : Prop :=
  (∃ s, vocab[id]? = some (t, s)) ∧ ∀ j, id < j → ∀ s, vocab[j]? ≠ some (t, s)

omit [AddCommGroup K] [LinearOrder K] in
theorem lastAt_unique {vocab : List (Bytes × K)} {t : Bytes} {i j : Nat} (hi : LastAt vocab t i)
    (hj : LastAt vocab t j) : i = j := by
  obtain ⟨⟨s, hs⟩, hi⟩ := hi
  obtain ⟨⟨r, hr⟩, hj⟩ := hj
  rcases Nat.lt_trichotomy i j with h | h | h
  · exact absurd hr (hi j h r)
  · exact h
  · exact absurd hs (hj i h s)

omit [AddCommGroup K] [LinearOrder K] in
theorem lastAt_exists (vocab : List (Bytes × K)) (t : Bytes) :
    ∀ (i : Nat) (s : K), vocab[i]? = some (t, s) → ∃ id, LastAt vocab t id := by
  induction vocab with
  | nil => intro i s h; simp at h
  | cons x l ih =>
    intro i s h
    by_cases hl : ∃ (j : Nat) (r : K), l[j]? = some (t, r)
    · obtain ⟨j, r, hj⟩ := hl
      obtain ⟨id, ⟨s', hs'⟩, hlast⟩ := ih j r hj
      refine ⟨id + 1, ⟨s', by simpa using hs'⟩, ?_⟩
      intro k hk s''
      cases k with
      | zero => omega
      | succ k => simpa using hlast k (by omega) s''
    · cases i with
      | zero =>
        refine ⟨0, ⟨s, h⟩, ?_⟩
        intro k hk s''
        cases k with
        | zero => omega
        | succ k => intro hh; exact hl ⟨k, s'', by simpa using hh⟩
      | succ i => exact absurd ⟨i, s, by simpa using h⟩ hl

/-- C68: `TokenToId` finds a token exactly if it is in the vocabulary, and answers the last entry
that has it. -/
theorem C68_lookup (u : Unigram K) (t : Bytes) (id : Nat) :
    u.tokenToId t = some id ↔ LastAt u.vocab t id := by
  have fwd : ∀ id, u.tokenToId t = some id → LastAt u.vocab t id := by
    intro id h
    unfold tokenToId at h
    rw [Option.map_eq_some_iff] at h
    obtain ⟨⟨⟨t', s⟩, i⟩, hf, rfl⟩ := h
    rw [List.find?_eq_some_iff_getElem] at hf
    obtain ⟨hp, k, hk, he, hlt⟩ := hf
    have ht : t' = t := by simpa using hp
    subst ht
    simp only [List.length_reverse, List.length_zipIdx] at hk
    rw [List.getElem_reverse, List.getElem_zipIdx] at he
    simp only [List.length_zipIdx, Nat.zero_add, Prod.mk.injEq] at he
    obtain ⟨he, hi⟩ := he
    refine ⟨⟨s, ?_⟩, ?_⟩
    · dsimp only
      rw [← hi, List.getElem?_eq_getElem (by omega), he]
    · intro j hj s' hjs
      dsimp only at hj
      have hjl : j < u.vocab.length := by
        rcases Nat.lt_or_ge j u.vocab.length with h | h
        · exact h
        · rw [List.getElem?_eq_none h] at hjs; cases hjs
      have := hlt (u.vocab.length - 1 - j) (by omega)
      rw [List.getElem_reverse, List.getElem_zipIdx] at this
      simp only [List.length_zipIdx] at this
      rw [List.getElem?_eq_getElem hjl] at hjs
      have e : u.vocab.length - 1 - (u.vocab.length - 1 - j) = j := by omega
      simp only [e, Option.some.inj hjs] at this
      simp at this
  constructor
  · exact fwd id
  · intro h
    cases hx : u.tokenToId t with
    | some id' => rw [lastAt_unique (fwd id' hx) h]
    | none =>
      exfalso
      unfold tokenToId at hx
      rw [Option.map_eq_none_iff, List.find?_eq_none] at hx
      obtain ⟨⟨s, hs⟩, -⟩ := h
      have hm : ((t, s), id) ∈ u.vocab.zipIdx.reverse := by
        rw [List.mem_reverse, List.mk_mem_zipIdx_iff_getElem?]
        exact hs
      exact hx _ hm (by simp)

/-- C68: an unknown token is one that no entry has. -/
theorem C68_unknown (u : Unigram K) (t : Bytes) : u.tokenToId t = none ↔ ∀ e ∈ u.vocab, e.1 ≠ t := by
  constructor
  · rintro h ⟨t', s⟩ he rfl
    obtain ⟨i, hi⟩ := List.getElem?_of_mem he
    obtain ⟨id, hid⟩ := lastAt_exists u.vocab t' i s hi
    rw [(C68_lookup u t' id).mpr hid] at h
    cases h
  · intro h
    cases hx : u.tokenToId t with
    | none => rfl
    | some id =>
      obtain ⟨⟨s, hs⟩, -⟩ := (C68_lookup u t id).mp hx
      exact absurd rfl (h _ (List.mem_of_getElem? hs))

/-- C68: the id found for a token leads back to the token. -/
theorem C68_token_id_token (u : Unigram K) (t : Bytes) (id : Nat) (h : u.tokenToId t = some id) :
    u.idToToken id = some t ∧ id < u.getVocabSize := by
  obtain ⟨⟨s, hs⟩, -⟩ := (C68_lookup u t id).mp h
  constructor
  · unfold idToToken
    rw [if_neg (by omega), Int.toNat_natCast, hs]
    rfl
  · unfold getVocabSize
    rcases Nat.lt_or_ge id u.vocab.length with h | h
    · exact h
    · rw [List.getElem?_eq_none h] at hs; cases hs

/-- C68: exactly the numbers below the size are ids of tokens. -/
theorem C68_ids (u : Unigram K) (id : Int) :
    (∃ t, u.idToToken id = some t) ↔ 0 ≤ id ∧ id < u.getVocabSize := by
  unfold idToToken getVocabSize
  constructor
  · rintro ⟨t, h⟩
    split at h
    · cases h
    · next hn =>
      rw [Option.map_eq_some_iff] at h
      obtain ⟨e, he, -⟩ := h
      rcases Nat.lt_or_ge id.toNat u.vocab.length with h | h
      · omega
      · rw [List.getElem?_eq_none h] at he; cases he
  · rintro ⟨h0, h1⟩
    rw [if_neg (by omega), List.getElem?_eq_getElem (by omega)]
    exact ⟨_, rfl⟩

/-- C68, for a vocabulary without repeated tokens: the token of an id leads back to the id. -/
theorem C68_id_token_id_partial (u : Unigram K) (hn : (u.vocab.map (·.1)).Nodup) (id : Nat) (t : Bytes)
    (h : u.idToToken id = some t) : u.tokenToId t = some id := by
  have hg : u.idToToken id = (u.vocab[id]?).map (·.1) := by
    unfold idToToken
    rw [if_neg (by omega), Int.toNat_natCast]
  rw [hg, ← List.getElem?_map] at h
  rw [C68_lookup]
  constructor
  · rw [List.getElem?_map, Option.map_eq_some_iff] at h
    obtain ⟨⟨t', s⟩, he, rfl⟩ := h
    exact ⟨s, he⟩
  · intro j hj s hs
    have hj' : (u.vocab.map (·.1))[j]? = some t := by rw [List.getElem?_map, hs]; rfl
    have hlt : ∀ {k : Nat}, (u.vocab.map (·.1))[k]? = some t → k < (u.vocab.map (·.1)).length := by
      intro k hk
      rcases Nat.lt_or_ge k (u.vocab.map (·.1)).length with h | h
      · exact h
      · rw [List.getElem?_eq_none h] at hk; cases hk
    have := (List.getElem?_inj (hlt h) hn).mp (h.trans hj'.symm)
    omega

/-- C68 fails for a vocabulary with a repeated token, always: `Build` takes it without an error, and
the earlier id has a token whose id is another one. -/
theorem C68_repeated_violated (u : Unigram K) (i j : Nat) (t : Bytes) (hij : i < j)
    (hi : u.idToToken i = some t) (hj : u.idToToken j = some t) : u.tokenToId t ≠ some i := by
  intro h
  obtain ⟨-, hl⟩ := (C68_lookup u t i).mp h
  unfold idToToken at hj
  rw [if_neg (by omega), Int.toNat_natCast, Option.map_eq_some_iff] at hj
  obtain ⟨⟨t', s⟩, he, rfl⟩ := hj
  exact hl j hij s he

omit [AddCommGroup K] [LinearOrder K] in
theorem vocabLoop_get (vocab : List (Bytes × K)) (t : Bytes) : ∀ (i : Nat) (m : List (Bytes × Nat)),
    (∀ id, LastAt vocab t id → mget (vocabLoop i vocab m) t = some (i + id)) ∧
    ((∀ e ∈ vocab, e.1 ≠ t) → mget (vocabLoop i vocab m) t = mget m t) := by
  induction vocab with
  | nil =>
    intro i m
    refine ⟨?_, fun _ => rfl⟩
    rintro id ⟨⟨s, hs⟩, -⟩
    simp at hs
  | cons x l ih =>
    intro i m
    rw [vocabLoop]
    obtain ⟨h1, h2⟩ := ih (i + 1) (mset m x.1 i)
    constructor
    · rintro id ⟨⟨s, hs⟩, hlast⟩
      cases id with
      | zero =>
        have hx : x = (t, s) := by simpa using hs
        subst hx
        rw [h2, mget_mset_self]
        · rfl
        · rintro ⟨t', r⟩ he rfl
          obtain ⟨k, hk⟩ := List.getElem?_of_mem he
          exact hlast (k + 1) (by omega) r (by simpa using hk)
      | succ id =>
        have : i + (id + 1) = i + 1 + id := by omega
        rw [this]
        refine h1 id ⟨⟨s, by simpa using hs⟩, ?_⟩
        intro j hj r hr
        exact hlast (j + 1) (by omega) r (by simpa using hr)
    · intro h
      rw [h2 (fun e he => h e (List.mem_cons_of_mem _ he)), mget_mset_ne]
      exact (h x List.mem_cons_self).symm

/-- C68: the map of `GetVocab` and `TokenToId` agree. -/
theorem C68_vocab (u : Unigram K) (t : Bytes) : mget u.getVocab t = u.tokenToId t := by
  unfold getVocab
  obtain ⟨h1, h2⟩ := vocabLoop_get u.vocab t 0 []
  cases h : u.tokenToId t with
  | none => rw [h2 ((C68_unknown u t).mp h)]; rfl
  | some id => rw [h1 id ((C68_lookup u t id).mp h), Nat.zero_add]

/-- C68 for the unknown id: a model that `Build` returns has a token for it or it is negative. -/
theorem C68_build_partial (vocab : List (Bytes × K)) (i : Int) (bf fu : Bool) (bonus penalty : K) :
    ((vocab.length : Int) ≤ i → build vocab (some i) bf fu bonus penalty = .err) ∧
    (0 ≤ i → i < vocab.length → ∃ u, build vocab (some i) bf fu bonus penalty = .ok u ∧ u.vocab = vocab ∧
      u.unkId = some i ∧ ∃ t, u.idToToken i = some t) := by
  constructor
  · intro h
    simp only [build]
    rw [if_pos h]
  · intro h0 h1
    simp only [build]
    rw [if_neg (by omega)]
    refine ⟨_, rfl, rfl, rfl, ?_⟩
    rw [C68_ids]
    exact ⟨h0, h1⟩

/-- C68 fails for negative unknown ids: `Build` accepts every one, and there is no token for it. -/
theorem C68_negative_violated (vocab : List (Bytes × K)) (i : Int) (hi : i < 0) (bf fu : Bool) (bonus penalty : K) :
    ∃ u, build vocab (some i) bf fu bonus penalty = .ok u ∧ u.unkId = some i ∧ u.idToToken i = none := by
  simp only [build]
  rw [if_neg (by omega)]
  refine ⟨_, rfl, rfl, ?_⟩
  unfold idToToken
  rw [if_pos hi]

theorem tokensToTokenizer_ids (u : Unigram K) (ts : List Bytes) : ∀ (o : Nat), ∀ x ∈ u.tokensToTokenizer o ts,
    (∃ id : Nat, x.1 = id ∧ u.tokenToId x.2.1 = some id) ∨ (u.tokenToId x.2.1 = none ∧ u.unkId = some x.1) := by
  induction ts with
  | nil => intro o x hx; simp [tokensToTokenizer] at hx
  | cons t ts ih =>
    intro o x hx
    rw [tokensToTokenizer] at hx
    split at hx
    · next id h1 =>
      rcases List.mem_cons.mp hx with rfl | hx
      · exact Or.inl ⟨id, rfl, h1⟩
      · exact ih _ x hx
    · next uid h1 h2 =>
      rcases List.mem_cons.mp hx with rfl | hx
      · exact Or.inr ⟨h1, h2⟩
      · exact ih _ x hx
    · exact ih _ x hx

/-- C68: every id that `Tokenize` gives is the id of the text of its token, or the unknown id for a
text that is not in the vocabulary. -/
theorem C68_tokenize (u : Unigram K) (seq : Bytes) (xs : List (Int × Bytes × Nat × Nat))
    (h : u.tokenize seq = .ok xs) : ∀ x ∈ xs,
      u.idToToken x.1 = some x.2.1 ∨ ((∀ e ∈ u.vocab, e.1 ≠ x.2.1) ∧ u.unkId = some x.1) := by
  have key : ∀ (o : Nat) (ts : List Bytes), ∀ x ∈ u.tokensToTokenizer o ts,
      u.idToToken x.1 = some x.2.1 ∨ ((∀ e ∈ u.vocab, e.1 ≠ x.2.1) ∧ u.unkId = some x.1) := by
    intro o ts x hx
    rcases tokensToTokenizer_ids u ts o x hx with ⟨id, h1, h2⟩ | ⟨h1, h2⟩
    · left
      rw [h1]
      exact (C68_token_id_token u _ id h2).1
    · exact Or.inr ⟨(C68_unknown u _).mp h1, h2⟩
  unfold tokenize at h
  split at h
  · cases h; exact key _ _
  · split at h
    · cases h; exact key _ _
    · cases h
    · cases h

/-- C68: with a valid unknown id every id that `Tokenize` gives is below the size. -/
theorem C68_tokenize_range (u : Unigram K) (hu : ∀ i, u.unkId = some i → 0 ≤ i ∧ i < u.getVocabSize)
    (seq : Bytes) (xs : List (Int × Bytes × Nat × Nat)) (h : u.tokenize seq = .ok xs) :
    ∀ x ∈ xs, 0 ≤ x.1 ∧ x.1 < u.getVocabSize := by
  intro x hx
  rcases C68_tokenize u seq xs h x hx with h1 | ⟨-, h1⟩
  · exact (C68_ids u x.1).mp ⟨_, h1⟩
  · exact hu _ h1

/-! ### Examples -/

/-- A vocabulary with a repeated token: "a" has the ids 0 and 2. -/
def exRepeated : Unigram Int :=
  { vocab := [([97], 5), ([98], 1), ([97], 2)], unkId := some 1, bytesFallback := false, fuseUnk := false,
    bonus := 0, penalty := 0 }

example : exRepeated.tokenToId [97] = some 2 ∧ exRepeated.idToToken 0 = some [97] ∧
    exRepeated.idToToken 2 = some [97] ∧ exRepeated.getVocab.length = 2 ∧ exRepeated.getVocabSize = 3 := by decide +kernel
/-- Ids of a tokenized text, with an unknown character. -/
example : exRepeated.tokenize [98, 97, 120] = .ok [(1, [98], 0, 1), (2, [97], 1, 2), (1, [120], 2, 3)] := by decide +kernel
example : ∀ i, exRepeated.unkId = some i → 0 ≤ i ∧ i < exRepeated.getVocabSize := by decide +kernel
/-- An unknown id of -1. -/
example : ({ exRepeated with unkId := some (-1) } : Unigram Int).tokenize [120] = .ok [(-1, [120], 0, 1)] := by decide +kernel
example : (exUni.vocab.map (·.1)).Nodup := by decide

end Tok.Unigram
