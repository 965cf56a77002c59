import Verif.Vocab.PropsFlags

/-! # The tokens that are searched for are different -/

namespace Tok
open VocabState

/-- What holds after the special tokens are registered. -/
structure Separate (T : VocabState) : Prop where
  specials : T.specialSet = T.specialTokens.map (·.content)
  nodup : T.specialSet.Nodup
  nodupA : (T.addedTokens.map (·.content)).Nodup
  known : ∀ t ∈ T.addedTokens, (mget T.added t.content).isSome
  apart : ∀ t ∈ T.addedTokens, T.isSpecial t.content = false

theorem Separate.contents {T : VocabState} (h : Separate T) : ((T.specialTokens ++ T.addedTokens).map (·.content)).Nodup := by
  rw [List.map_append, List.nodup_append, ← h.specials]
  refine ⟨h.nodup, h.nodupA, ?_⟩
  intro a ha b hb e
  subst e
  obtain ⟨t, ht, rfl⟩ := List.mem_map.mp hb
  have := h.apart t ht
  simp [isSpecial, ha] at this

theorem Separate.addOne {T : VocabState} (h : Separate T) (k : Nat) (t : AddedToken) : Separate (T.addOne k t).1 := by
  unfold VocabState.addOne
  split
  · exact h
  · split
    · exact ⟨h.specials, h.nodup, h.nodupA, h.known, h.apart⟩
    · next hnone =>
      have hnot : mget T.added t.content = none := by
        unfold tokenToId at hnone
        cases hm : mget T.added t.content with
        | none => rfl
        | some i => rw [hm] at hnone; cases hnone
      have hsp : ∀ c, (VocabState.isSpecial { T with
            added := mset T.added t.content (T.modelSize + T.added.length)
            addedTokens := if T.isSpecial t.content then T.addedTokens else T.addedTokens ++ [t]
            addedR := mset T.addedR (T.modelSize + T.added.length) t.content } c) = T.isSpecial c := fun _ => rfl
      have hold : ∀ u ∈ T.addedTokens, (mget (mset T.added t.content (T.modelSize + T.added.length)) u.content).isSome := by
        intro u hu
        rw [mget_mset]
        split
        · rfl
        · exact h.known u hu
      cases hs : T.isSpecial t.content with
      | true => exact ⟨h.specials, h.nodup, h.nodupA, hold, h.apart⟩
      | false =>
        refine ⟨h.specials, h.nodup, ?_, ?_, ?_⟩
        · simp only [Bool.false_eq_true, if_false, List.map_append, List.map_cons, List.map_nil]
          rw [List.nodup_append]
          refine ⟨h.nodupA, by simp, ?_⟩
          intro a ha b hb e
          rw [List.mem_singleton] at hb
          subst hb; subst e
          obtain ⟨u, hu, e⟩ := List.mem_map.mp ha
          have := h.known u hu
          rw [e, hnot] at this
          cases this
        · intro u hu
          simp only [Bool.false_eq_true, if_false, List.mem_append, List.mem_singleton] at hu
          rcases hu with hu | rfl
          · exact hold u hu
          · dsimp only; rw [mget_mset, if_pos rfl]; rfl
        · intro u hu
          rw [← hs] 
          simp only [Bool.false_eq_true, if_false, List.mem_append, List.mem_singleton] at hu
          rcases hu with hu | rfl
          · exact (h.apart u hu).trans hs.symm
          · rfl

theorem Separate.addLoop (ts : List AddedToken) : ∀ {T : VocabState} (k : Nat), Separate T → Separate (T.addLoop k ts).1 := by
  induction ts with
  | nil => intro T k h; exact h
  | cons t ts ih => intro T k h; exact ih _ (h.addOne k t)

theorem Separate.addTokens {T T' : VocabState} {ts : List AddedToken} {n : Int} (h : Separate T)
    (e : T.addTokens ts = .ok (T', n)) : Separate T' := by
  have h1 := Separate.addLoop ts 0 h
  unfold VocabState.addTokens at e
  simp only at e
  obtain ⟨T'', e1, e2⟩ := Res.bind_eq_ok.mp e
  cases e2
  unfold VocabState.refresh at e1
  obtain ⟨l, e3, e4⟩ := Res.bind_eq_ok.mp e1
  cases e4
  exact ⟨h1.specials, h1.nodup, h1.nodupA, h1.known, h1.apart⟩

theorem Separate.register (ts : List AddedToken) :
    ∀ {T : VocabState}, Separate T → T.addedTokens = [] → Separate (T.registerSpecial ts) := by
  induction ts with
  | nil => intro T h _; exact h
  | cons t ts ih =>
    intro T h h0
    unfold registerSpecial
    split
    · next hc =>
      refine ih ⟨by simp [h.specials], ?_, h.nodupA, h.known, by simp [h0]⟩ h0
      simp only
      rw [List.nodup_append]
      refine ⟨h.nodup, by simp, ?_⟩
      intro a ha b hb e
      rw [List.mem_singleton] at hb
      subst hb; subst e
      have := hc.2
      simp [isSpecial, ha] at this
    · exact ih h h0

/-- After loading, no two tokens that are searched for have the same content, and a token that is not normalized is searched
for in the text as it is. -/
theorem load_unique {T₀ : VocabState} (h₀ : FreshModel T₀) (cfg : List TokenConfig) (T : VocabState)
    (e : loadAdded T₀ cfg = .ok T) : (T.splitRe.map (·.1.content)).Nodup := by
  obtain ⟨a1, a2, a3, a4, a5, a6, a7⟩ := h₀.noAdded
  have s0 : Separate T₀ := ⟨by simp [a4, a5], by simp [a5], by simp [a3], by simp [a3], by simp [a3]⟩
  have q0 : Refreshed T₀ := by simp [Refreshed, a3, a4, a6, a7]
  have f0 : FromList (cfg.map (·.token)) T₀.vocab T₀ := by
    refine ⟨by simp [a3, a4], ?_, rfl⟩
    intro c hc
    rw [a1] at hc
    cases hc
  have hsub : ∀ b, ∀ t ∈ (entries b cfg).map (·.token), t ∈ cfg.map (·.token) := by
    intro b t ht
    obtain ⟨d, hd, rfl⟩ := List.mem_map.mp ht
    exact List.mem_map.mpr ⟨d, (List.mem_filter.mp hd).1, rfl⟩
  have key : Separate T ∧ Refreshed T := by
    unfold loadAdded at e
    rw [createAddedTokens_eq] at e
    obtain ⟨U, e1, e2⟩ := Res.bind_eq_ok.mp e
    have fU : FromList (cfg.map (·.token)) T₀.vocab U ∧ Refreshed U ∧ Separate U := by
      unfold loadSpecial at e1
      split at e1
      · obtain ⟨⟨U', n⟩, e4, e3⟩ := Res.bind_eq_ok.mp e1
        cases e3
        obtain ⟨g1, g2⟩ := (f0.register _ (hsub true)).addTokens (hsub true) e4
        exact ⟨g1, g2, (s0.register _ a3).addTokens e4⟩
      · cases e1; exact ⟨f0, q0, s0⟩
    unfold loadOthers at e2
    split at e2
    · obtain ⟨⟨U', n⟩, e4, e3⟩ := Res.bind_eq_ok.mp e2
      cases e3
      exact ⟨fU.2.2.addTokens e4, (fU.1.addTokens (hsub false) e4).2⟩
    · cases e2
      exact ⟨fU.2.2, fU.2.1⟩
  have : T.splitRe.map (·.1.content) = ((T.specialTokens ++ T.addedTokens).filter (fun t => !t.normalized)).map (·.content) := by
    rw [← key.2.2, List.map_map]; rfl
  rw [this]
  exact List.Sublist.nodup (List.Sublist.map _ List.filter_sublist) key.1.contents

end Tok
