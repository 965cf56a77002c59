import Verif.Train.PropsVocab

/-! # C76, C77, C78: training ends; special tokens; the alphabet limit -/

namespace Tok.Train

variable {cfg : Cfg} {addr : Nat → Nat → Str} {wc : List (Str × Int)} {r : Trained}

/-! ### C76 -/

/-- **C76.** Everything before the loop works, in whatever order the workers deliver. -/
theorem C76_start_ok (hp : Plain cfg) (addr : Nat → Nat → Str) (wc : List (Str × Int))
    (arrival : List (Nat × Nat)) (ha : arrival.Perm (chunks wc.length)) :
    ∃ s, start cfg addr wc arrival = .ok s := by
  obtain ⟨s, _, h, _⟩ := start_spec hp addr wc arrival ha
  exact ⟨s, h⟩

/-- **C76.** No round of the loop crashes, whichever entry of highest count the queue gives and in
whatever order sets are iterated. -/
theorem C76_no_crash (hp : Plain cfg) {s : State} (h : Reaches cfg addr wc s) {o : Res (Option State)}
    (hr : Round cfg (wordCounts wc) s o) : o = .ok none ∨ ∃ s', o = .ok (some s') :=
  round_ok hp (reach_inv hp h).1 (reach_inv hp h).2 hr

/-- **C76.** The loop does not run for ever. -/
theorem C76_no_infinite_run (hp : Plain cfg) (f : Nat → State) (h : Reaches cfg addr wc (f 0)) :
    ¬ ∀ n, Step cfg (wordCounts wc) (f n) (f (n + 1)) :=
  no_infinite hp _ _ f (reach_inv hp h).1 (reach_inv hp h).2 rfl rfl

/-- **C76.** A state in which the loop does not stop has a next one. -/
theorem C76_progress (hp : Plain cfg) {s : State} (h : Reaches cfg addr wc s) :
    Stops cfg (wordCounts wc) s ∨ ∃ s', Step cfg (wordCounts wc) s s' ∧ Reaches cfg addr wc s' := by
  rcases stops_or_steps hp (reach_inv hp h).1 (reach_inv hp h).2 with h1 | ⟨s', h1⟩
  · exact Or.inl h1
  · obtain ⟨arrival, s0, a1, a2, a3⟩ := h
    exact Or.inr ⟨s', h1, arrival, s0, a1, a2, .tail a3 h1⟩

/-- **C76.** Training has a result, for all data and settings without prefix and suffix. -/
theorem C76_result_exists (hp : Plain cfg) (addr : Nat → Nat → Str) (wc : List (Str × Int)) :
    ∃ r, Trains cfg addr wc r := by
  obtain ⟨s, h⟩ := C76_start_ok hp addr wc _ (.refl _)
  have hr : Reaches cfg addr wc s := ⟨_, s, .refl _, h, .refl⟩
  obtain ⟨s', h1, h2⟩ := reaches_end hp _ _ s (reach_inv hp hr).1 (reach_inv hp hr).2 rfl rfl
  exact ⟨_, s', ⟨_, s, .refl _, h, h1⟩, h2, rfl⟩

example : ∃ r, Trains sampleCfg addr sampleWords r := C76_result_exists ⟨rfl, rfl⟩ _ _

/-! ### C77 -/

theorem fillChars_special (cfg : Cfg) (other : List Str) (addr : Nat → Str) (n : Nat) (w : Str) :
    ∀ (i : Nat) (t : Tab) (ss : List Symbol),
      fillChars { cfg with specialTokens := other } addr n i w t ss = fillChars cfg addr n i w t ss := by
  induction w with
  | nil => intro i t ss; rfl
  | cons c w ih =>
    intro i t ss
    have hc : charText { cfg with specialTokens := other } (addr i) n i c = charText cfg (addr i) n i c := rfl
    simp only [fillChars, ih, hc]

theorem fillWords_special (cfg : Cfg) (other : List Str) (addr : Nat → Nat → Str) (l : List Str) :
    ∀ (k : Nat) (t : Tab) (ws : List (List Symbol)),
      fillWords { cfg with specialTokens := other } addr k l t ws = fillWords cfg addr k l t ws := by
  induction l with
  | nil => intro k t ws; rfl
  | cons w l ih => intro k t ws; simp only [fillWords, fillChars_special, ih]

theorem start_special (cfg : Cfg) (other : List Str) (addr : Nat → Nat → Str) (wc : List (Str × Int))
    (arrival : List (Nat × Nat)) :
    start { cfg with specialTokens := other } addr wc arrival = start cfg addr wc arrival := by
  have : computeAlphabet { cfg with specialTokens := other } wc = computeAlphabet cfg wc := rfl
  simp only [start, this, tokenizeWords, fillWords_special]

/-- **C77, violated.** The special tokens do not enter the vocabulary: with other special tokens
training gives the same vocabulary, merges and model. -/
theorem C77_special_tokens_violated (h : Trains cfg addr wc r) (other : List Str) :
    Trains { cfg with specialTokens := other } addr wc { r with specialTokens := other } := by
  obtain ⟨s, ⟨arrival, s0, a1, a2, a3⟩, h2, rfl⟩ := h
  exact ⟨s, ⟨arrival, s0, a1, by rw [start_special]; exact a2, a3⟩, h2, rfl⟩

/-- **C77, violated.** A special token that contains a character of no training word, and is not in
the initial alphabet, is not in the vocabulary. -/
theorem C77_special_tokens_absent_violated (hp : Plain cfg) (h : Trains cfg addr wc r) {t : Str}
    (_ht : t ∈ cfg.specialTokens) (hi : t ∉ cfg.initialAlphabet) {c : Char} (hc : c ∈ t)
    (hw : ∀ e ∈ wc, c ∉ e.1) : r.model.vocab t = none := by
  obtain ⟨s, hr, _, rfl⟩ := h
  cases hv : (finish cfg s).model.vocab t with
  | none => rfl
  | some i =>
    exfalso
    rcases vocab_cases (reach_inv hp hr).1 hv with hk | ⟨n, n1, n2⟩
    · rcases mem_of_keptChars hk with h | ⟨e, he, d, hd, rfl⟩
      · exact hi h
      · rw [List.mem_singleton] at hc
        subst hc
        exact hw e he hd
    · obtain ⟨_, k, w, _, hk, hin⟩ := (near_all hp hr).2 n t n1 n2
      obtain ⟨v, _, rfl, e, he, rfl⟩ := startTexts_at hk
      exact hw e he (mem_knownPart (hin.subset hc))

example : "[UNK]".toList ∈ sampleCfg.specialTokens ∧ "[UNK]".toList ∉ sampleCfg.initialAlphabet ∧
    '[' ∈ "[UNK]".toList ∧ ∀ e ∈ sampleWords, '[' ∉ e.1 := by decide +kernel

/-! ### C78 -/

/-- The alphabet of the training data: every string of the initial alphabet and every character of
the words once. -/
def IsAlphabet (cfg : Cfg) (wc : List (Str × Int)) (A : List Str) : Prop :=
  A.Nodup ∧ ∀ t, t ∈ A ↔ t ∈ cfg.initialAlphabet ∨ ∃ e ∈ wc, ∃ c ∈ e.1, t = [c]

theorem alphabet_perm {A : List Str} (hA : IsAlphabet cfg wc A) :
    A.Perm ((alphabetCounts cfg wc).map (·.1)) := by
  rw [List.perm_ext_iff_of_nodup hA.1 (alphabetCounts_keys cfg wc).1]
  intro t
  rw [hA.2, (alphabetCounts_keys cfg wc).2]

theorem known_iff_kept (hp : Plain cfg) (h1 : ∀ t ∈ cfg.initialAlphabet, t.length = 1) {A : List Str}
    (hA : IsAlphabet cfg wc A) {s : State} (hr : Reaches cfg addr wc s) {t : Str} (ht : t ∈ A) :
    ((finish cfg s).model.vocab t).isSome ↔ t ∈ keptChars cfg wc := by
  have : ∃ c, t = [c] := by
    rcases (hA.2 t).1 ht with h | ⟨e, _, c, _, rfl⟩
    · exact List.length_eq_one_iff.1 (h1 t h)
    · exact ⟨c, rfl⟩
  obtain ⟨c, rfl⟩ := this
  exact char_known_iff hp hr c

/-- **C78, violated.** With an alphabet limit smaller than the alphabet, as many characters are kept
as exceed the limit: `len - limit` instead of `limit`. -/
theorem C78_limit_violated (hp : Plain cfg) (h1 : ∀ t ∈ cfg.initialAlphabet, t.length = 1)
    {A : List Str} (hA : IsAlphabet cfg wc A) {limit : Nat} (hl : cfg.limitAlphabet = some limit)
    (hlt : limit < A.length) (h : Trains cfg addr wc r) :
    (A.filter fun t => (r.model.vocab t).isSome).length = A.length - limit := by
  obtain ⟨s, hr, _, rfl⟩ := h
  have hperm := alphabet_perm hA
  have hlen : (alphabetCounts cfg wc).length = A.length := by
    rw [hperm.length_eq, List.length_map]
  have hkl : (keptChars cfg wc).length = A.length - limit := by
    unfold keptChars toRemove
    rw [hl, hlen]
    simp only [gt_iff_lt, if_pos hlt]
    rw [if_pos (by omega), List.length_take, (sortStrs_perm _).length_eq, List.length_map, hlen]
    omega
  rw [← hkl]
  apply List.Perm.length_eq
  rw [List.perm_ext_iff_of_nodup (hA.1.sublist List.filter_sublist) (keptChars_nodup cfg wc)]
  intro t
  rw [List.mem_filter]
  constructor
  · rintro ⟨a1, a2⟩
    exact (known_iff_kept hp h1 hA hr a1).1 a2
  · intro hk
    have : t ∈ A := (hA.2 t).2 (mem_of_keptChars hk)
    exact ⟨this, (known_iff_kept hp h1 hA hr this).2 hk⟩

/-- **C78, violated.** Which characters are kept has nothing to do with how often they occur: it is
those of the lowest code points. -/
theorem C78_not_by_frequency_violated (hp : Plain cfg) (h : Trains cfg addr wc r) {c d : Char} (hc : (r.model.vocab [c]).isSome)
    (hd : [d] ∈ cfg.initialAlphabet ∨ ∃ e ∈ wc, d ∈ e.1) (hlt : d.toNat < c.toNat) :
    (r.model.vocab [d]).isSome := by
  obtain ⟨s, hr, _, rfl⟩ := h
  have hk := (char_known_iff hp hr c).1 hc
  refine (char_known_iff hp hr d).2 ?_
  have hmem : [d] ∈ sortStrs ((alphabetCounts cfg wc).map (·.1)) := by
    rw [(sortStrs_perm _).mem_iff, (alphabetCounts_keys cfg wc).2]
    rcases hd with h | ⟨e, h1, h2⟩
    · exact Or.inl h
    · exact Or.inr ⟨e, h1, d, h2, rfl⟩
  have hs := sortStrs_sorted ((alphabetCounts cfg wc).map (·.1))
  unfold keptChars at hk ⊢
  dsimp only at hk ⊢
  split at hk
  · next hpos =>
    rw [if_pos hpos]
    generalize sortStrs ((alphabetCounts cfg wc).map (·.1)) = l at *
    generalize toRemove cfg (alphabetCounts cfg wc).length = k at *
    rw [← List.take_append_drop k l] at hmem hs
    rcases List.mem_append.1 hmem with h | h
    · exact h
    · exfalso
      have := (List.pairwise_append.1 hs).2.2 _ hk _ h
      simp only [strLe, Bool.and_true, Bool.or_eq_true, decide_eq_true_eq, beq_iff_eq] at this
      omega
  · next hpos => rw [if_neg hpos]; exact hmem

/-- **C78, partial.** A limit at least as large as the alphabet drops nothing. -/
theorem C78_limit_large_partial (hp : Plain cfg) {A : List Str} (hA : IsAlphabet cfg wc A) {limit : Nat}
    (hl : cfg.limitAlphabet = some limit) (hle : A.length ≤ limit) (h : Trains cfg addr wc r) :
    ∀ t ∈ A, (r.model.vocab t).isSome := by
  obtain ⟨s, hr, _, rfl⟩ := h
  intro t ht
  have hi := (reach_inv hp hr).1
  have hperm := alphabet_perm hA
  have hlen : (alphabetCounts cfg wc).length = A.length := by
    rw [hperm.length_eq, List.length_map]
  apply hi.all
  obtain ⟨L, b1, _⟩ := hi.base
  rw [b1]
  apply List.mem_append_left
  unfold keptChars toRemove
  rw [hl, hlen]
  have : ¬ A.length > limit := by omega
  simp only [this, if_false, gt_iff_lt, Nat.lt_irrefl]
  rw [(sortStrs_perm _).mem_iff]
  exact hperm.mem_iff.1 ht

/-- Settings with a limit. -/
def limitCfg : Cfg := { sampleCfg with limitAlphabet := some 1 }

example : Plain limitCfg ∧ (∀ t ∈ limitCfg.initialAlphabet, t.length = 1) ∧
    limitCfg.limitAlphabet = some 1 := ⟨⟨rfl, rfl⟩, by decide +kernel, rfl⟩

example : IsAlphabet limitCfg sampleWords [['a'], ['b'], ['c'], ['z']] := by
  refine ⟨by decide, ?_⟩
  intro t
  simp [limitCfg, sampleCfg, sampleWords]
  constructor
  · rintro (rfl | rfl | rfl | rfl) <;> simp
  · rintro (rfl | (rfl | rfl) | (rfl | rfl | rfl) | rfl) <;> simp

end Tok.Train
