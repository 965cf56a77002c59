import Verif.Vocab.PropsLoad

/-! # C71: the flags of the added tokens -/

namespace Tok
open VocabState

theorem refreshIds_map {T : VocabState} (l : List AddedToken) : ∀ {r}, T.refreshIds l = .ok r → r.map (·.1) = l := by
  induction l with
  | nil => intro r h; cases h; rfl
  | cons t l ih =>
    intro r h
    unfold refreshIds at h
    split at h
    · cases h
    · obtain ⟨r', h1, h2⟩ := Res.bind_eq_ok.mp h
      cases h2
      simp [ih h1]

/-- What is kept while tokens of `src` are added to a model with vocabulary `V`. -/
structure FromList (src : List AddedToken) (V : List (Str × Int)) (T : VocabState) : Prop where
  mem : ∀ t ∈ T.specialTokens ++ T.addedTokens, t ∈ src
  listed : ∀ c, (mget T.added c).isSome → T.isSpecial c = true ∨ ∃ t ∈ T.addedTokens, t.content = c
  vocab : T.vocab = V

/-- The patterns hold the registered tokens. -/
def Refreshed (T : VocabState) : Prop :=
  T.splitNormalizedRe.map (·.1) = (T.specialTokens ++ T.addedTokens).filter (·.normalized) ∧
  T.splitRe.map (·.1) = (T.specialTokens ++ T.addedTokens).filter (fun t => !t.normalized)

theorem FromList.addOne {src : List AddedToken} {V : List (Str × Int)} {T : VocabState} (h : FromList src V T)
    (k : Nat) (t : AddedToken) (ht : t ∈ src) : FromList src V (T.addOne k t).1 := by
  unfold VocabState.addOne
  split
  · exact h
  · split
    · exact ⟨h.mem, h.listed, h.vocab⟩
    · refine ⟨?_, ?_, h.vocab⟩
      · intro u hu
        simp only at hu
        rcases List.mem_append.1 hu with hu | hu
        · exact h.mem u (List.mem_append_left _ hu)
        · split at hu
          · exact h.mem u (List.mem_append_right _ hu)
          · rcases List.mem_append.1 hu with hu | hu
            · exact h.mem u (List.mem_append_right _ hu)
            · simp only [List.mem_singleton] at hu
              rw [hu]; exact ht
      · intro c hc
        simp only at hc ⊢
        have hsp : ∀ c, (VocabState.isSpecial { T with
            added := mset T.added t.content (T.modelSize + T.added.length)
            addedTokens := if T.isSpecial t.content then T.addedTokens else T.addedTokens ++ [t]
            addedR := mset T.addedR (T.modelSize + T.added.length) t.content } c) = T.isSpecial c := fun _ => rfl
        rw [hsp]
        rw [mget_mset] at hc
        by_cases he : c = t.content
        · subst he
          cases hs : T.isSpecial t.content with
          | true => exact .inl rfl
          | false => exact .inr ⟨t, by simp, rfl⟩
        · rw [if_neg he] at hc
          rcases h.listed c hc with h1 | ⟨u, h1, h2⟩
          · exact .inl h1
          · refine .inr ⟨u, ?_, h2⟩
            split
            · exact h1
            · exact List.mem_append_left _ h1

theorem FromList.addLoop {src : List AddedToken} {V : List (Str × Int)} (ts : List AddedToken) :
    ∀ {T : VocabState} (k : Nat), FromList src V T → (∀ t ∈ ts, t ∈ src) → FromList src V (T.addLoop k ts).1 := by
  induction ts with
  | nil => intro T k h _; exact h
  | cons t ts ih =>
    intro T k h hts
    exact ih _ (h.addOne k t (hts t (by simp))) (fun u hu => hts u (by simp [hu]))

theorem FromList.addTokens {src : List AddedToken} {V : List (Str × Int)} {T T' : VocabState} {ts : List AddedToken}
    {n : Int} (h : FromList src V T) (hts : ∀ t ∈ ts, t ∈ src) (e : T.addTokens ts = .ok (T', n)) :
    FromList src V T' ∧ Refreshed T' := by
  have h1 := FromList.addLoop ts 0 h hts
  unfold VocabState.addTokens at e
  simp only at e
  obtain ⟨T'', e1, e2⟩ := Res.bind_eq_ok.mp e
  cases e2
  unfold VocabState.refresh at e1
  obtain ⟨l, e3, e4⟩ := Res.bind_eq_ok.mp e1
  cases e4
  have hm := refreshIds_map _ e3
  refine ⟨⟨h1.mem, h1.listed, h1.vocab⟩, ?_⟩
  unfold Refreshed
  simp only
  rw [← hm, List.filter_map, List.filter_map]
  exact ⟨rfl, rfl⟩

theorem FromList.register {src : List AddedToken} {V : List (Str × Int)} (ts : List AddedToken) :
    ∀ {T : VocabState}, FromList src V T → (∀ t ∈ ts, t ∈ src) → FromList src V (T.registerSpecial ts) := by
  induction ts with
  | nil => intro T h _; exact h
  | cons t ts ih =>
    intro T h hts
    unfold registerSpecial
    split
    · refine ih ⟨?_, ?_, h.vocab⟩ (fun u hu => hts u (by simp [hu]))
      · intro u hu
        simp only [List.mem_append, List.mem_singleton] at hu
        rcases hu with (hu | hu) | hu
        · exact h.mem u (by simp [hu])
        · rw [hu]; exact hts t (by simp)
        · exact h.mem u (by simp [hu])
      · intro c hc
        rcases h.listed c hc with h1 | h1
        · left
          unfold isSpecial at h1 ⊢
          simp only [List.contains_eq_mem, decide_eq_true_eq, List.mem_append] at h1 ⊢
          exact .inl h1
        · exact .inr h1
    · exact ih h (fun u hu => hts u (by simp [hu]))

/-- **C71.** The tokens that the tokenizer looks for in texts come from the configuration, with the
flags given there, in the list for raw or for normalized text according to their flag, with their ids;
and every entry that is special or that the model does not know is looked for. -/
theorem C71_flags {T₀ : VocabState} (h₀ : FreshModel T₀) (cfg : List TokenConfig) (T : VocabState)
    (e : loadAdded T₀ cfg = .ok T) :
    (∀ p ∈ T.splitRe ++ T.splitNormalizedRe, ∃ d ∈ cfg, p.1.content = d.content ∧
      p.1.singleWord = d.singleWord ∧ p.1.lstrip = d.lstrip ∧ p.1.rstrip = d.rstrip ∧
      p.1.normalized = d.normalized ∧ T.tokenToId d.content = some p.2) ∧
    (∀ p ∈ T.splitRe, p.1.normalized = false) ∧ (∀ p ∈ T.splitNormalizedRe, p.1.normalized = true) ∧
    (∀ d ∈ cfg, d.content ≠ [] → d.special = true ∨ mget T₀.vocab d.content = none →
      ∃ p ∈ T.splitRe ++ T.splitNormalizedRe, p.1.content = d.content) := by
  obtain ⟨T₁, T', e', r1, r2, _⟩ := load_steps h₀ cfg
  rw [e] at e'
  cases e'
  have full := r2.full (r1.full h₀.full)
  have f0 : FromList (cfg.map (·.token)) T₀.vocab T₀ := by
    obtain ⟨a1, a2, a3, a4, _⟩ := h₀.noAdded
    refine ⟨by simp [a3, a4], ?_, rfl⟩
    intro c hc
    rw [a1] at hc
    cases hc
  have q0 : Refreshed T₀ := by
    obtain ⟨a1, a2, a3, a4, a5, a6, a7⟩ := h₀.noAdded
    simp [Refreshed, a3, a4, a6, a7]
  have hsub : ∀ b, ∀ t ∈ (entries b cfg).map (·.token), t ∈ cfg.map (·.token) := by
    intro b t ht
    obtain ⟨d, hd, rfl⟩ := List.mem_map.mp ht
    exact List.mem_map.mpr ⟨d, (List.mem_filter.mp hd).1, rfl⟩
  have key : FromList (cfg.map (·.token)) T₀.vocab T ∧ Refreshed T := by
    unfold loadAdded at e
    rw [createAddedTokens_eq] at e
    obtain ⟨U, e1, e2⟩ := Res.bind_eq_ok.mp e
    have fU : FromList (cfg.map (·.token)) T₀.vocab U ∧ Refreshed U := by
      unfold loadSpecial at e1
      split at e1
      · obtain ⟨⟨U', n⟩, e4, e3⟩ := Res.bind_eq_ok.mp e1
        cases e3
        exact (f0.register _ (hsub true)).addTokens (hsub true) e4
      · cases e1; exact ⟨f0, q0⟩
    unfold loadOthers at e2
    split at e2
    · obtain ⟨⟨U', n⟩, e4, e3⟩ := Res.bind_eq_ok.mp e2
      cases e3
      exact fU.1.addTokens (hsub false) e4
    · cases e2; exact fU
  obtain ⟨hf, hq⟩ := key
  have hmem : ∀ t, t ∈ T.specialTokens ++ T.addedTokens ↔ ∃ p ∈ T.splitRe ++ T.splitNormalizedRe, p.1 = t := by
    intro t
    constructor
    · intro ht
      cases hn : t.normalized with
      | true =>
        have : t ∈ T.splitNormalizedRe.map (·.1) := by rw [hq.1]; exact List.mem_filter.mpr ⟨ht, hn⟩
        obtain ⟨p, hp, e⟩ := List.mem_map.mp this
        exact ⟨p, List.mem_append_right _ hp, e⟩
      | false =>
        have : t ∈ T.splitRe.map (·.1) := by rw [hq.2]; exact List.mem_filter.mpr ⟨ht, by simp [hn]⟩
        obtain ⟨p, hp, e⟩ := List.mem_map.mp this
        exact ⟨p, List.mem_append_left _ hp, e⟩
    · rintro ⟨p, hp, rfl⟩
      rcases List.mem_append.1 hp with hp | hp
      · have : p.1 ∈ T.splitRe.map (·.1) := List.mem_map.mpr ⟨p, hp, rfl⟩
        rw [hq.2] at this
        exact (List.mem_filter.mp this).1
      · have : p.1 ∈ T.splitNormalizedRe.map (·.1) := List.mem_map.mpr ⟨p, hp, rfl⟩
        rw [hq.1] at this
        exact (List.mem_filter.mp this).1
  refine ⟨?_, ?_, ?_, ?_⟩
  · intro p hp
    obtain ⟨d, hd, hdt⟩ := List.mem_map.mp (hf.mem p.1 ((hmem _).2 ⟨p, hp, rfl⟩))
    have hid := full.split p hp
    rw [← hdt] at hid ⊢
    exact ⟨d, hd, rfl, rfl, rfl, rfl, rfl, hid⟩
  · intro p hp
    have : p.1 ∈ T.splitRe.map (·.1) := List.mem_map.mpr ⟨p, hp, rfl⟩
    rw [hq.2] at this
    simpa using (List.mem_filter.mp this).2
  · intro p hp
    have : p.1 ∈ T.splitNormalizedRe.map (·.1) := List.mem_map.mpr ⟨p, hp, rfl⟩
    rw [hq.1] at this
    simpa using (List.mem_filter.mp this).2
  · intro d hd hne hc
    obtain ⟨T', e', k1, k2⟩ := C71_known h₀ cfg
    rw [e] at e'
    cases e'
    have hsome := (k1 d.content).2 (.inr ⟨hne, d, hd, rfl⟩)
    have hreg : T.isSpecial d.content = true ∨ ∃ t ∈ T.addedTokens, t.content = d.content := by
      rcases hc with hc | hc
      · exact .inl ((k2 d.content).2 ⟨hne, d, hd, hc, rfl⟩)
      · apply hf.listed
        unfold tokenToId at hsome
        rw [hf.vocab, hc] at hsome
        split at hsome
        · next i hi => rw [hi]; rfl
        · cases hsome
    have : ∃ t ∈ T.specialTokens ++ T.addedTokens, t.content = d.content := by
      rcases hreg with h | ⟨t, h1, h2⟩
      · obtain ⟨t, h1, h2⟩ := (full.specSet _).1 h
        exact ⟨t, List.mem_append_left _ h1, h2⟩
      · exact ⟨t, List.mem_append_right _ h1, h2⟩
    obtain ⟨t, h1, h2⟩ := this
    obtain ⟨p, hp, rfl⟩ := (hmem t).1 h1
    exact ⟨p, hp, h2⟩

/-- A mask that takes the spaces before it, and a token that stands alone. -/
example : ∃ T, loadAdded sampleModel
      [⟨2, "<mask>".toList, false, true, false, false, true⟩, ⟨3, "xyz".toList, true, false, false, true, false⟩] = .ok T ∧
    ∃ p ∈ T.splitRe ++ T.splitNormalizedRe, p.1.content = "<mask>".toList := by
  obtain ⟨T, e, _⟩ := C71_known sampleModel_fresh
    [⟨2, "<mask>".toList, false, true, false, false, true⟩, ⟨3, "xyz".toList, true, false, false, true, false⟩]
  exact ⟨T, e, (C71_flags sampleModel_fresh _ T e).2.2.2 _ (List.mem_cons_self ..) (by decide) (.inl rfl)⟩

end Tok
