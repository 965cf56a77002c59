import Verif.Vocab.Unique

/-! # The order in which the tokens of a file are searched for -/

namespace Tok
open VocabState

theorem register_all (ts : List AddedToken) : ∀ {T : VocabState}, (ts.map (·.content)).Nodup →
    (∀ t ∈ ts, t.content ≠ [] ∧ T.isSpecial t.content = false) →
    (T.registerSpecial ts).specialTokens = T.specialTokens ++ ts ∧ (T.registerSpecial ts).addedTokens = T.addedTokens ∧
      (T.registerSpecial ts).added = T.added ∧ (T.registerSpecial ts).vocab = T.vocab ∧
      (∀ c, (T.registerSpecial ts).isSpecial c = true ↔ T.isSpecial c = true ∨ c ∈ ts.map (·.content)) := by
  induction ts with
  | nil => intro T _ _; exact ⟨by simp [registerSpecial], rfl, rfl, rfl, by simp [registerSpecial]⟩
  | cons t ts ih =>
    intro T hd h
    rw [List.map_cons, List.nodup_cons] at hd
    obtain ⟨h1, h2⟩ := h t (by simp)
    have hsp : ∀ c, VocabState.isSpecial { T with specialTokens := T.specialTokens ++ [t], specialSet := T.specialSet ++ [t.content] } c
        = (T.isSpecial c || decide (c = t.content)) := by
      intro c
      unfold isSpecial
      simp only [List.contains_eq_mem, List.mem_append, List.mem_singleton, Bool.decide_or]
    obtain ⟨g1, g2, g3, g4, g5⟩ := ih (T := { T with specialTokens := T.specialTokens ++ [t], specialSet := T.specialSet ++ [t.content] })
      hd.2 (by
        intro x hx
        refine ⟨(h x (by simp [hx])).1, ?_⟩
        rw [hsp, (h x (by simp [hx])).2, Bool.false_or, decide_eq_false_iff_not]
        intro he
        exact hd.1 (List.mem_map.mpr ⟨x, hx, he⟩))
    unfold registerSpecial
    rw [if_pos ⟨h1, h2⟩]
    refine ⟨by rw [g1]; simp, g2, g3, g4, ?_⟩
    intro c
    rw [g5, hsp, List.map_cons, List.mem_cons, Bool.or_eq_true, decide_eq_true_eq]
    constructor
    · rintro ((h | h) | h) <;> simp [h]
    · rintro (h | h | h) <;> simp [h]

theorem addLoop_specials (ts : List AddedToken) : ∀ {T : VocabState} (k : Nat), (∀ t ∈ ts, T.isSpecial t.content = true) →
    (T.addLoop k ts).1.addedTokens = T.addedTokens ∧ (T.addLoop k ts).1.specialTokens = T.specialTokens ∧
      (T.addLoop k ts).1.specialSet = T.specialSet ∧ (T.addLoop k ts).1.vocab = T.vocab ∧
      (∀ c, (mget (T.addLoop k ts).1.added c).isSome → (mget T.added c).isSome ∨ c ∈ ts.map (·.content)) := by
  induction ts with
  | nil => intro T k _; exact ⟨rfl, rfl, rfl, rfl, fun c h => .inl h⟩
  | cons t ts ih =>
    intro T k h
    have ht := h t (by simp)
    have key : (T.addOne k t).1.addedTokens = T.addedTokens ∧ (T.addOne k t).1.specialTokens = T.specialTokens ∧
        (T.addOne k t).1.specialSet = T.specialSet ∧ (T.addOne k t).1.vocab = T.vocab ∧
        (∀ c, (mget (T.addOne k t).1.added c).isSome → (mget T.added c).isSome ∨ c = t.content) := by
      unfold VocabState.addOne
      split
      · exact ⟨rfl, rfl, rfl, rfl, fun c h => .inl h⟩
      · split
        · exact ⟨rfl, rfl, rfl, rfl, fun c h => .inl h⟩
        · refine ⟨rfl, rfl, rfl, rfl, ?_⟩
          intro c hc
          dsimp only at hc
          rw [mget_mset] at hc
          split at hc
          · next h => exact .inr h
          · exact .inl hc
    obtain ⟨k1, k2, k3, k4, k5⟩ := key
    obtain ⟨g1, g2, g3, g4, g5⟩ := ih (T := (T.addOne k t).1) (T.addOne k t).2 (by
      intro x hx
      have := h x (by simp [hx])
      unfold isSpecial at this ⊢
      rw [k3]; exact this)
    show ((T.addOne k t).1.addLoop (T.addOne k t).2 ts).1.addedTokens = _ ∧ _
    refine ⟨g1.trans k1, g2.trans k2, g3.trans k3, g4.trans k4, ?_⟩
    intro c hc
    rcases g5 c hc with h | h
    · rcases k5 c h with h | h
      · exact .inl h
      · exact .inr (by simp [h])
    · exact .inr (by simp [h])

theorem addLoop_others (ts : List AddedToken) : ∀ {T : VocabState} (k : Nat), (ts.map (·.content)).Nodup →
    (∀ t ∈ ts, t.content ≠ [] ∧ T.isSpecial t.content = false ∧ mget T.added t.content = none) →
    (T.addLoop k ts).1.addedTokens = T.addedTokens ++ ts.filter (fun t => (mget T.vocab t.content).isNone) ∧
      (T.addLoop k ts).1.specialTokens = T.specialTokens := by
  induction ts with
  | nil => intro T k _ _; exact ⟨by simp [VocabState.addLoop], rfl⟩
  | cons t ts ih =>
    intro T k hd h
    rw [List.map_cons, List.nodup_cons] at hd
    obtain ⟨h1, h2, h3⟩ := h t (by simp)
    have hid : T.tokenToId t.content = mget T.vocab t.content := by unfold tokenToId; rw [h3]
    have key : (T.addOne k t).1.addedTokens = T.addedTokens ++ [t].filter (fun t => (mget T.vocab t.content).isNone) ∧
        (T.addOne k t).1.specialTokens = T.specialTokens ∧
        (T.addOne k t).1.specialSet = T.specialSet ∧ (T.addOne k t).1.vocab = T.vocab ∧
        (∀ c, c ≠ t.content → mget (T.addOne k t).1.added c = mget T.added c) := by
      unfold VocabState.addOne
      rw [if_neg h1]
      split
      · next i hi =>
        rw [hid] at hi
        exact ⟨by simp [hi], rfl, rfl, rfl, fun c _ => rfl⟩
      · next hi =>
        rw [hid] at hi
        refine ⟨by simp [hi, h2], rfl, rfl, rfl, ?_⟩
        intro c hc
        dsimp only
        rw [mget_mset, if_neg hc]
    obtain ⟨k1, k2, k3, k4, k5⟩ := key
    obtain ⟨g1, g2⟩ := ih (T := (T.addOne k t).1) (T.addOne k t).2 hd.2 (by
      intro x hx
      obtain ⟨q1, q2, q3⟩ := h x (by simp [hx])
      refine ⟨q1, ?_, ?_⟩
      · unfold isSpecial at q2 ⊢
        rw [k3]; exact q2
      · rw [k5 _ (fun he => hd.1 (List.mem_map.mpr ⟨x, hx, he⟩))]; exact q3)
    show ((T.addOne k t).1.addLoop (T.addOne k t).2 ts).1.addedTokens = _ ∧ _
    refine ⟨?_, g2.trans k2⟩
    rw [g1, k1, k4, List.append_assoc, ← List.filter_append]
    rfl

theorem addTokens_lists {T T' : VocabState} {ts : List AddedToken} {n : Int} (e : T.addTokens ts = .ok (T', n)) :
    T'.addedTokens = (T.addLoop 0 ts).1.addedTokens ∧ T'.specialTokens = (T.addLoop 0 ts).1.specialTokens ∧
      T'.specialSet = (T.addLoop 0 ts).1.specialSet ∧ T'.vocab = (T.addLoop 0 ts).1.vocab ∧ T'.added = (T.addLoop 0 ts).1.added ∧
      T'.splitRe.map (·.1) = (T'.specialTokens ++ T'.addedTokens).filter (fun t => !t.normalized) := by
  unfold VocabState.addTokens at e
  simp only at e
  obtain ⟨T'', e1, e2⟩ := Res.bind_eq_ok.mp e
  cases e2
  unfold VocabState.refresh at e1
  obtain ⟨l, e3, e4⟩ := Res.bind_eq_ok.mp e1
  cases e4
  have hm := refreshIds_map _ e3
  refine ⟨rfl, rfl, rfl, rfl, rfl, ?_⟩
  simp only
  rw [← hm, List.filter_map]
  rfl

/-- The tokens of a file that are searched for in the text as it is: the special ones in their order, then those of the
others that the model does not have, in their order. -/
theorem load_order {T₀ : VocabState} (h₀ : FreshModel T₀) (cfg : List TokenConfig) (hd : (cfg.map (·.content)).Nodup)
    (hne : ∀ d ∈ cfg, d.content ≠ []) (T : VocabState) (e : loadAdded T₀ cfg = .ok T) :
    T.splitRe.map (·.1) = ((cfg.filter (·.special) ++ cfg.filter (fun d => !d.special && (mget T₀.vocab d.content).isNone)).map
      (·.token)).filter (fun t => !t.normalized) := by
  obtain ⟨a1, a2, a3, a4, a5, a6, a7⟩ := h₀.noAdded
  have hnd : ∀ b, (((entries b cfg).map (·.token)).map (·.content)).Nodup := by
    intro b
    rw [token_contents]
    exact List.Sublist.nodup (List.Sublist.map _ List.filter_sublist) hd
  have hmem : ∀ b, ∀ t ∈ (entries b cfg).map (·.token), ∃ d ∈ cfg, d.special = b ∧ t = d.token := by
    intro b t ht
    obtain ⟨d, hd, rfl⟩ := List.mem_map.mp ht
    obtain ⟨h1, h2⟩ := List.mem_filter.mp hd
    exact ⟨d, h1, by simpa using h2, rfl⟩
  unfold loadAdded at e
  rw [createAddedTokens_eq] at e
  obtain ⟨U, e1, e2⟩ := Res.bind_eq_ok.mp e
  have hU : U.specialTokens = (entries true cfg).map (·.token) ∧ U.addedTokens = [] ∧ U.vocab = T₀.vocab ∧
      (∀ c, U.isSpecial c = true → ∃ d ∈ cfg, d.special = true ∧ d.content = c) ∧
      (∀ c, (mget U.added c).isSome → ∃ d ∈ cfg, d.special = true ∧ d.content = c) ∧
      U.splitRe.map (·.1) = (U.specialTokens ++ U.addedTokens).filter (fun t => !t.normalized) := by
    unfold loadSpecial at e1
    split at e1
    · obtain ⟨⟨U', n⟩, e4, e3⟩ := Res.bind_eq_ok.mp e1
      cases e3
      obtain ⟨r1, r2, r3, r4, r5⟩ := register_all ((entries true cfg).map (·.token)) (T := T₀) (hnd true) (by
        intro t ht
        obtain ⟨d, hd, _, rfl⟩ := hmem true t ht
        exact ⟨hne d hd, by unfold isSpecial; rw [a5]; rfl⟩)
      obtain ⟨s1, s2, s3, s4, s5⟩ := addLoop_specials ((entries true cfg).map (·.token)) (T := T₀.registerSpecial ((entries true cfg).map (·.token))) 0
        (fun t ht => (r5 _).mpr (.inr (List.mem_map.mpr ⟨t, ht, rfl⟩)))
      obtain ⟨f1, f2, f3, f4, f5, f6⟩ := addTokens_lists e4
      refine ⟨by rw [f2, s2, r1, a4]; rfl, by rw [f1, s1, r2, a3], by rw [f4, s4, r4], ?_, ?_, f6⟩
      · intro c hc
        have : (T₀.registerSpecial ((entries true cfg).map (·.token))).isSpecial c = true := by
          unfold isSpecial at hc ⊢
          rw [f3, s3] at hc; exact hc
        rcases (r5 c).mp this with h | h
        · unfold isSpecial at h; rw [a5] at h; cases h
        · obtain ⟨t, ht, rfl⟩ := List.mem_map.mp h
          obtain ⟨d, hd, h2, rfl⟩ := hmem true t ht
          exact ⟨d, hd, h2, rfl⟩
      · intro c hc
        rw [f5] at hc
        rcases s5 c hc with h | h
        · rw [r3, a1] at h; cases h
        · obtain ⟨t, ht, rfl⟩ := List.mem_map.mp h
          obtain ⟨d, hd, h2, rfl⟩ := hmem true t ht
          exact ⟨d, hd, h2, rfl⟩
    · next hlen =>
      cases e1
      have : (entries true cfg).map (·.token) = [] := List.eq_nil_of_length_eq_zero (by simpa using hlen)
      refine ⟨by rw [this, a4], a3, rfl, ?_, ?_, by simp [a3, a4, a6]⟩
      · intro c hc; unfold isSpecial at hc; rw [a5] at hc; cases hc
      · intro c hc; rw [a1] at hc; cases hc
  obtain ⟨u1, u2, u3, u4, u5, u6⟩ := hU
  have hclash : ∀ d ∈ cfg, d.special = false → ¬ ∃ x ∈ cfg, x.special = true ∧ x.content = d.content := by
    rintro d hd' hs ⟨x, hx, hx', he⟩
    obtain ⟨i, hi, rfl⟩ := List.mem_iff_getElem.mp hd'
    obtain ⟨j, hj, rfl⟩ := List.mem_iff_getElem.mp hx
    have key := List.pairwise_iff_getElem.mp hd
    rcases Nat.lt_trichotomy i j with h | h | h
    · exact key i j (by simpa using hi) (by simpa using hj) h (by simpa using he.symm)
    · subst h; rw [hs] at hx'; cases hx'
    · exact key j i (by simpa using hj) (by simpa using hi) h (by simpa using he)
  have hfin : T.splitRe.map (·.1) = (T.specialTokens ++ T.addedTokens).filter (fun t => !t.normalized) ∧
      T.specialTokens = (entries true cfg).map (·.token) ∧
      T.addedTokens = ((entries false cfg).map (·.token)).filter (fun t => (mget T₀.vocab t.content).isNone) := by
    unfold loadOthers at e2
    split at e2
    · obtain ⟨⟨U', n⟩, e4, e3⟩ := Res.bind_eq_ok.mp e2
      cases e3
      obtain ⟨g1, g2⟩ := addLoop_others ((entries false cfg).map (·.token)) (T := U) 0 (hnd false) (by
        intro t ht
        obtain ⟨d, hd', hs, rfl⟩ := hmem false t ht
        refine ⟨hne d hd', ?_, ?_⟩
        · cases hq : U.isSpecial d.token.content with
          | false => rfl
          | true => exact absurd (u4 _ hq) (hclash d hd' hs)
        · exact Option.not_isSome_iff_eq_none.mp (fun hq => hclash d hd' hs (u5 _ hq)))
      obtain ⟨f1, f2, _, _, _, f6⟩ := addTokens_lists e4
      exact ⟨f6, by rw [f2, g2, u1], by rw [f1, g1, u2, u3]; rfl⟩
    · next hlen =>
      cases e2
      have : (entries false cfg).map (·.token) = [] := List.eq_nil_of_length_eq_zero (by simpa using hlen)
      exact ⟨u6, u1, by rw [this, u2]; rfl⟩
  obtain ⟨g1, g2, g3⟩ := hfin
  rw [g1, g2, g3]
  congr 1
  rw [List.map_append]
  congr 1
  · unfold entries; simp
  · rw [List.filter_map]
    congr 1
    unfold entries
    rw [List.filter_filter]
    apply List.filter_congr
    intro d _
    simp [Bool.and_comm, TokenConfig.token]

end Tok
