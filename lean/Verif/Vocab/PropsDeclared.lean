import Verif.Vocab.PropsFlags

/-!
# C125: which tokens are special, and which tokens are looked for
-/

namespace Tok
open VocabState

/-! ### Specification -/

/-- The calls on a tokenizer so far, as the list of all tokens that were given, each with whether it was given to
`AddSpecialTokens` (`true`) or to `AddTokens`. `GetVocab` may be called in between. -/
inductive Given (T₀ : VocabState) : VocabState → List (Bool × AddedToken) → Prop
  | none : Given T₀ T₀ []
  | ordinary {T T' : VocabState} {gs : List (Bool × AddedToken)} {n : Int} (ts : List AddedToken) : Given T₀ T gs →
      T.addTokens ts = .ok (T', n) → Given T₀ T' (gs ++ ts.map (fun t => (false, t)))
  | special {T T' : VocabState} {gs : List (Bool × AddedToken)} {n : Int} (ts : List AddedToken) : Given T₀ T gs →
      T.addSpecialTokens ts = .ok (T', n) → Given T₀ T' (gs ++ ts.map (fun t => (true, t)))
  | getVocab {T : VocabState} {gs : List (Bool × AddedToken)} {b : Bool} {order : List (Str × Int)} : Given T₀ T gs →
      T.added.Perm order → Given T₀ (T.getVocab b order).1 gs

/-- The tokens given to `AddSpecialTokens`, the first of each content; the empty token does not count. -/
def specials (gs : List (Bool × AddedToken)) : List AddedToken :=
  gs.foldl (fun acc g => if g.1 = false ∨ g.2.content = [] ∨ g.2.content ∈ acc.map (·.content) then acc else acc ++ [g.2]) []

/-- The tokens given to `AddTokens` whose content the model does not have and which was not given before, to either
function; `seen` are the contents given before. -/
def ordinaries (known : Str → Bool) : List Str → List (Bool × AddedToken) → List AddedToken
  | _, [] => []
  | seen, (special, t) :: gs =>
    (if special = false ∧ t.content ≠ [] ∧ known t.content = false ∧ t.content ∉ seen then [t] else []) ++
      ordinaries known (t.content :: seen) gs

/-! ### Lemmas -/

/-- The step of `specials`. -/
def declare (acc : List AddedToken) (g : Bool × AddedToken) : List AddedToken :=
  if g.1 = false ∨ g.2.content = [] ∨ g.2.content ∈ acc.map (·.content) then acc else acc ++ [g.2]

theorem specials_append (gs hs : List (Bool × AddedToken)) : specials (gs ++ hs) = hs.foldl declare (specials gs) := by
  unfold specials; rw [List.foldl_append]; rfl

theorem declare_ordinary (ts : List AddedToken) (acc : List AddedToken) :
    (ts.map (fun t => (false, t))).foldl declare acc = acc := by
  induction ts generalizing acc with
  | nil => rfl
  | cons t ts ih => rw [List.map_cons, List.foldl_cons, show declare acc (false, t) = acc by simp [declare]]; exact ih acc

theorem ordinaries_append (known : Str → Bool) (gs hs : List (Bool × AddedToken)) : ∀ seen,
    ordinaries known seen (gs ++ hs) = ordinaries known seen gs ++
      ordinaries known ((gs.map (·.2.content)).reverse ++ seen) hs := by
  induction gs with
  | nil => intro seen; rfl
  | cons g gs ih =>
    intro seen
    rw [List.cons_append, ordinaries, ordinaries, ih]
    simp

theorem ordinaries_special (known : Str → Bool) (ts : List AddedToken) : ∀ seen,
    ordinaries known seen (ts.map (fun t => (true, t))) = [] := by
  induction ts with
  | nil => intro seen; rfl
  | cons t ts ih => intro seen; rw [List.map_cons, ordinaries, ih]; simp

/-- The two lists of a state, and what it knows. -/
structure Lists (T₀ T : VocabState) (gs : List (Bool × AddedToken)) : Prop where
  special : T.specialTokens = specials gs
  set : T.specialSet = (specials gs).map (·.content)
  added : T.addedTokens = ordinaries (fun c => (mget T₀.vocab c).isSome) [] gs
  known : ∀ c, (T.tokenToId c).isSome ↔ (mget T₀.vocab c).isSome ∨ (c ≠ [] ∧ ∃ g ∈ gs, g.2.content = c)

theorem registerSpecial_lists (ts : List AddedToken) : ∀ {T : VocabState}, T.specialSet = T.specialTokens.map (·.content) →
    (T.registerSpecial ts).specialTokens = (ts.map (fun t => (true, t))).foldl declare T.specialTokens ∧
    (T.registerSpecial ts).specialSet = ((T.registerSpecial ts).specialTokens).map (·.content) := by
  induction ts with
  | nil => intro T h; exact ⟨rfl, h⟩
  | cons t ts ih =>
    intro T h
    have hs : T.isSpecial t.content = false ↔ t.content ∉ T.specialTokens.map (·.content) := by
      unfold isSpecial; rw [h]; simp
    unfold registerSpecial
    rw [List.map_cons, List.foldl_cons]
    split
    · next hc =>
      rw [show declare T.specialTokens (true, t) = T.specialTokens ++ [t] by
        unfold declare; rw [if_neg]; simp only [Bool.true_eq_false, false_or, not_or]; exact ⟨hc.1, hs.mp hc.2⟩]
      exact ih (by simp [h])
    · next hc =>
      rw [show declare T.specialTokens (true, t) = T.specialTokens by
        unfold declare
        rw [if_pos]
        refine .inr ?_
        by_cases h0 : t.content = []
        · exact .inl h0
        · refine .inr (Classical.byContradiction fun hn => hc ⟨h0, hs.mpr hn⟩)]
      exact ih h

/-- What the loop adds to the list of ordinary tokens. -/
theorem addLoop_lists (known : Str → Bool) (ts : List AddedToken) : ∀ {T : VocabState} (k : Nat) (seen : List Str),
    (∀ c, c ≠ [] → ((T.tokenToId c).isSome ↔ known c = true ∨ c ∈ seen)) → (∀ c, T.isSpecial c = true → c ∈ seen) →
    (T.addLoop k ts).1.addedTokens = T.addedTokens ++ ordinaries known seen (ts.map (fun t => (false, t))) := by
  induction ts with
  | nil => intro T k seen _ _; simp [VocabState.addLoop, ordinaries]
  | cons t ts ih =>
    intro T k seen hk hs
    show ((T.addOne k t).1.addLoop (T.addOne k t).2 ts).1.addedTokens = _
    rw [List.map_cons, ordinaries]
    have hsp : ∀ c, (T.addOne k t).1.isSpecial c = true → c ∈ t.content :: seen := by
      intro c hc
      unfold isSpecial at hc
      rw [(addOne_size k t).2.2.2.2.1] at hc
      exact List.mem_cons_of_mem _ (hs c hc)
    have hkn : ∀ c, c ≠ [] → (((T.addOne k t).1.tokenToId c).isSome ↔ known c = true ∨ c ∈ t.content :: seen) := by
      intro c h0
      constructor
      · intro h
        rcases addOne_only k t h with h | ⟨h, _⟩
        · rcases (hk c h0).mp h with h | h
          · exact .inl h
          · exact .inr (List.mem_cons_of_mem _ h)
        · exact .inr (h ▸ List.mem_cons_self)
      · rintro (h | h)
        · obtain ⟨i, hi⟩ := Option.isSome_iff_exists.mp ((hk c h0).mpr (.inl h))
          rw [addOne_stable k t hi]; rfl
        · rcases List.mem_cons.mp h with h | h
          · rw [h]; exact addOne_has k t (h ▸ h0)
          · obtain ⟨i, hi⟩ := Option.isSome_iff_exists.mp ((hk c h0).mpr (.inr h))
            rw [addOne_stable k t hi]; rfl
    rw [ih _ (t.content :: seen) hkn hsp, ← List.append_assoc]
    congr 1
    by_cases h0 : t.content = []
    · rw [addOne_eq_empty h0]; simp [h0]
    cases hi : T.tokenToId t.content with
    | some i =>
      rw [addOne_known h0 hi, if_neg]
      · simp
      · rintro ⟨_, _, h1, h2⟩
        rcases (hk _ h0).mp (by rw [hi]; rfl) with h | h
        · rw [h1] at h; cases h
        · exact h2 h
    | none =>
      have hn : ¬ (known t.content = true ∨ t.content ∈ seen) := by
        rw [← hk _ h0, hi]; simp
      have hns : T.isSpecial t.content = false := by
        cases hx : T.isSpecial t.content with
        | false => rfl
        | true => exact absurd (.inr (hs _ hx)) hn
      have hkf : known t.content = false := by
        cases hx : known t.content with
        | false => rfl
        | true => exact absurd (.inl hx) hn
      have hse : t.content ∉ seen := fun h => hn (.inr h)
      rw [addOne_new h0 hi]
      simp [hns, h0, hkf, hse]

/-- The loop adds nothing to the ordinary tokens when all are special. -/
theorem addLoop_special (ts : List AddedToken) : ∀ {T : VocabState} (k : Nat),
    (∀ t ∈ ts, t.content ≠ [] → T.isSpecial t.content = true) → (T.addLoop k ts).1.addedTokens = T.addedTokens := by
  induction ts with
  | nil => intro T k _; rfl
  | cons t ts ih =>
    intro T k h
    show ((T.addOne k t).1.addLoop (T.addOne k t).2 ts).1.addedTokens = _
    rw [ih _ (by
      intro u hu h0
      unfold isSpecial
      rw [(addOne_size k t).2.2.2.2.1]
      exact h u (List.mem_cons_of_mem _ hu) h0)]
    by_cases h0 : t.content = []
    · rw [addOne_eq_empty h0]
    cases hi : T.tokenToId t.content with
    | some i => rw [addOne_known h0 hi]
    | none => rw [addOne_new h0 hi]; simp [h t List.mem_cons_self h0]

theorem addTokens_refreshed {T T' : VocabState} {ts : List AddedToken} {n : Int} (e : T.addTokens ts = .ok (T', n)) :
    Refreshed T' ∧ T'.addedTokens = (T.addLoop 0 ts).1.addedTokens ∧ T'.specialTokens = T.specialTokens ∧
      T'.specialSet = T.specialSet ∧ T'.tokenToId = (T.addLoop 0 ts).1.tokenToId := by
  unfold VocabState.addTokens at e
  simp only at e
  obtain ⟨T'', e1, e2⟩ := Res.bind_eq_ok.mp e
  cases e2
  unfold VocabState.refresh at e1
  obtain ⟨l, e3, e4⟩ := Res.bind_eq_ok.mp e1
  cases e4
  have hm := refreshIds_map _ e3
  have hz := addLoop_size ts (T := T) 0
  refine ⟨?_, rfl, hz.2.2.2.2.2.1, hz.2.2.2.2.1, rfl⟩
  unfold Refreshed
  simp only
  rw [← hm, List.filter_map, List.filter_map]
  exact ⟨rfl, rfl⟩

theorem mem_specials (gs : List (Bool × AddedToken)) : ∀ acc : List AddedToken, ∀ c, c ∈ (gs.foldl declare acc).map (·.content) ↔
    c ∈ acc.map (·.content) ∨ (c ≠ [] ∧ ∃ g ∈ gs, g.1 = true ∧ g.2.content = c) := by
  induction gs with
  | nil => intro acc c; simp
  | cons g gs ih =>
    intro acc c
    rw [List.foldl_cons, ih]
    unfold declare
    split
    · next h =>
      constructor
      · rintro (h1 | ⟨h1, g', h2, h3⟩)
        · exact .inl h1
        · exact .inr ⟨h1, g', List.mem_cons_of_mem _ h2, h3⟩
      · rintro (h1 | ⟨h1, g', h2, h3, h4⟩)
        · exact .inl h1
        · rcases List.mem_cons.mp h2 with rfl | h2
          · rcases h with h | h | h
            · rw [h3] at h; cases h
            · rw [h4] at h; exact absurd h h1
            · exact .inl (h4 ▸ h)
          · exact .inr ⟨h1, g', h2, h3, h4⟩
    · next h =>
      simp only [not_or, Bool.not_eq_false] at h
      rw [List.map_append, List.mem_append]
      constructor
      · rintro ((h1 | h1) | ⟨h1, g', h2, h3⟩)
        · exact .inl h1
        · have : c = g.2.content := by simpa using h1
          exact .inr ⟨this ▸ h.2.1, g, List.mem_cons_self, h.1, this.symm⟩
        · exact .inr ⟨h1, g', List.mem_cons_of_mem _ h2, h3⟩
      · rintro (h1 | ⟨h1, g', h2, h3, h4⟩)
        · exact .inl (.inl h1)
        · rcases List.mem_cons.mp h2 with rfl | h2
          · exact .inl (.inr (by simp [h4]))
          · exact .inr ⟨h1, g', h2, h3, h4⟩

theorem nodup_specials (gs : List (Bool × AddedToken)) : ∀ acc : List AddedToken, (acc.map (·.content)).Nodup →
    ((gs.foldl declare acc).map (·.content)).Nodup := by
  induction gs with
  | nil => intro acc h; exact h
  | cons g gs ih =>
    intro acc h
    rw [List.foldl_cons]
    refine ih _ ?_
    unfold declare
    split
    · exact h
    · next hn =>
      simp only [not_or] at hn
      rw [List.map_append, List.nodup_append]
      refine ⟨h, by simp, ?_⟩
      intro a ha b hb hab
      simp only [List.map_cons, List.map_nil, List.mem_singleton] at hb
      exact hn.2.2 (hb ▸ hab ▸ ha)

theorem Given.runs {T₀ T : VocabState} {gs : List (Bool × AddedToken)} (h : Given T₀ T gs) : VocabRuns T₀ T := by
  induction h with
  | none => exact .refl
  | ordinary ts _ e ih => exact .step ih (.addTokens ts e)
  | special ts _ e ih => exact .step ih (.addSpecialTokens ts e)
  | getVocab _ hp ih => exact .step ih (.getVocab hp)

theorem Given.lists {T₀ T : VocabState} {gs : List (Bool × AddedToken)} (h₀ : FreshModel T₀) (h : Given T₀ T gs) :
    Lists T₀ T gs ∧ Refreshed T := by
  induction h with
  | none =>
    obtain ⟨h1, h2, h3, h4, h5, h6, h7⟩ := h₀.noAdded
    refine ⟨⟨h4, h5, h3, fun c => ?_⟩, by rw [h7, h3, h4]; rfl, by rw [h6, h3, h4]; rfl⟩
    unfold tokenToId
    rw [h1]
    simp [mget]
  | @ordinary T T' gs n ts hg e ih =>
    obtain ⟨hl, _⟩ := ih
    obtain ⟨r1, r2, r3, r4, r5⟩ := addTokens_refreshed e
    refine ⟨⟨?_, ?_, ?_, ?_⟩, r1⟩
    · rw [r3, hl.special, specials_append, declare_ordinary]
    · rw [r4, hl.set, specials_append, declare_ordinary]
    · rw [r2, ordinaries_append, List.append_nil,
        addLoop_lists (fun c => (mget T₀.vocab c).isSome) ts 0 (gs.map (·.2.content)).reverse, hl.added]
      · intro c h0
        rw [hl.known]
        simp [h0]
      · intro c hc
        unfold isSpecial at hc
        rw [hl.set] at hc
        have := (mem_specials gs [] c).mp (List.contains_iff_mem.mp hc)
        rcases this with h | ⟨_, g, h1, _, h2⟩
        · cases h
        · exact List.mem_reverse.mpr (List.mem_map.mpr ⟨g, h1, h2⟩)
    · intro c
      have := (C14_added_known h₀ hg.runs ts).1
      obtain ⟨T'', n', e', h⟩ := this
      rw [e] at e'
      cases e'
      rw [h, hl.known]
      constructor
      · rintro ((h | ⟨h1, g, h2, h3⟩) | ⟨h1, t, h2, h3⟩)
        · exact .inl h
        · exact .inr ⟨h1, g, List.mem_append_left _ h2, h3⟩
        · exact .inr ⟨h1, (false, t), List.mem_append_right _ (List.mem_map_of_mem h2), h3⟩
      · rintro (h | ⟨h1, g, h2, h3⟩)
        · exact .inl (.inl h)
        · rcases List.mem_append.mp h2 with h2 | h2
          · exact .inl (.inr ⟨h1, g, h2, h3⟩)
          · obtain ⟨t, ht, rfl⟩ := List.mem_map.mp h2
            exact .inr ⟨h1, t, ht, h3⟩
  | @special T T' gs n ts hg e ih =>
    obtain ⟨hl, _⟩ := ih
    obtain ⟨s1, s2⟩ := registerSpecial_lists ts (T := T) (by rw [hl.set, hl.special])
    have e' : (T.registerSpecial ts).addTokens ts = .ok (T', n) := e
    obtain ⟨r1, r2, r3, r4, r5⟩ := addTokens_refreshed e'
    refine ⟨⟨?_, ?_, ?_, ?_⟩, r1⟩
    · rw [r3, s1, hl.special, specials_append]
    · rw [r4, s2, s1, hl.special, specials_append]
    · rw [r2, ordinaries_append, ordinaries_special, List.append_nil, addLoop_special]
      · rw [(registerSpecial_same ts).2.2.2.2.2.2.2, hl.added]
      · intro t ht h0
        unfold isSpecial
        rw [s2, s1]
        have := (mem_specials (ts.map (fun t => (true, t))) T.specialTokens t.content).mpr
          (.inr ⟨h0, (true, t), List.mem_map_of_mem ht, rfl, rfl⟩)
        simpa using this
    · intro c
      have := (C14_added_known h₀ hg.runs ts).2
      obtain ⟨T'', n', e', h, _⟩ := this
      rw [e] at e'
      cases e'
      rw [h, hl.known]
      constructor
      · rintro ((h | ⟨h1, g, h2, h3⟩) | ⟨h1, t, h2, h3⟩)
        · exact .inl h
        · exact .inr ⟨h1, g, List.mem_append_left _ h2, h3⟩
        · exact .inr ⟨h1, (true, t), List.mem_append_right _ (List.mem_map_of_mem h2), h3⟩
      · rintro (h | ⟨h1, g, h2, h3⟩)
        · exact .inl (.inl h)
        · rcases List.mem_append.mp h2 with h2 | h2
          · exact .inl (.inr ⟨h1, g, h2, h3⟩)
          · obtain ⟨t, ht, rfl⟩ := List.mem_map.mp h2
            exact .inr ⟨h1, t, ht, h3⟩
  | @getVocab T gs b order hg hp ih =>
    obtain ⟨hl, hr⟩ := ih
    have ht := getVocab_tokenToId (hg.runs.full h₀.full).inv hp b
    refine ⟨⟨?_, ?_, ?_, ?_⟩, ?_⟩
    · rw [show (T.getVocab b order).1.specialTokens = T.specialTokens by unfold VocabState.getVocab; split <;> rfl]; exact hl.special
    · rw [show (T.getVocab b order).1.specialSet = T.specialSet by unfold VocabState.getVocab; split <;> rfl]; exact hl.set
    · rw [show (T.getVocab b order).1.addedTokens = T.addedTokens by unfold VocabState.getVocab; split <;> rfl]; exact hl.added
    · rw [ht]; exact hl.known
    · unfold VocabState.getVocab
      split <;> exact hr

/-! ### Theorems -/

/-- **C125.** `GetSpecialTokens` gives, in some order and each once, the contents that were ever given to
`AddSpecialTokens` and are not empty, whatever else was called; these are the tokens that `Decode` leaves out. -/
theorem C125_list {T₀ T : VocabState} {gs : List (Bool × AddedToken)} (h₀ : FreshModel T₀) (h : Given T₀ T gs)
    (order : List Str) (ho : T.specialSet.Perm order) :
    (T.getSpecialTokens order).Nodup ∧
    (∀ c, c ∈ T.getSpecialTokens order ↔ c ≠ [] ∧ ∃ t : AddedToken, (true, t) ∈ gs ∧ t.content = c) ∧
    (∀ c, c ∈ T.getSpecialTokens order ↔ T.isSpecial c = true) := by
  obtain ⟨hl, _⟩ := h.lists h₀
  have e : specials gs = gs.foldl declare [] := rfl
  unfold getSpecialTokens
  refine ⟨ho.nodup_iff.mp (by rw [hl.set, e]; exact nodup_specials gs [] (by simp)), fun c => ?_, fun c => ?_⟩
  · rw [← ho.mem_iff, hl.set, e, mem_specials]
    constructor
    · rintro (h | ⟨h1, ⟨b, t⟩, h2, h3, h4⟩)
      · cases h
      · cases h3; exact ⟨h1, t, h2, h4⟩
    · rintro ⟨h1, t, h2, h3⟩
      exact .inr ⟨h1, (true, t), h2, rfl, h3⟩
  · rw [← ho.mem_iff]
    unfold isSpecial
    simp

/-- **C125.** The tokens looked for in texts are: of each content given to `AddSpecialTokens` the token given first,
and each token given to `AddTokens` whose content was new then; with these options, with the id that the tokenizer
gives for the content, in the list for raw or for normalized text by their option. Nothing else is looked for. -/
theorem C125_patterns {T₀ T : VocabState} {gs : List (Bool × AddedToken)} (h₀ : FreshModel T₀) (h : Given T₀ T gs) :
    T.splitRe.map (·.1) =
      (specials gs ++ ordinaries (fun c => (mget T₀.vocab c).isSome) [] gs).filter (fun t => !t.normalized) ∧
    T.splitNormalizedRe.map (·.1) =
      (specials gs ++ ordinaries (fun c => (mget T₀.vocab c).isSome) [] gs).filter (·.normalized) ∧
    ∀ p ∈ T.splitRe ++ T.splitNormalizedRe, T.tokenToId p.1.content = some p.2 := by
  obtain ⟨hl, hr⟩ := h.lists h₀
  refine ⟨by rw [hr.2, hl.special, hl.added], by rw [hr.1, hl.special, hl.added], ?_⟩
  intro p hp
  exact C14_patterns_current h₀ h.runs p.1 p.2 hp

/-- **C125.** When a token is given to `AddSpecialTokens` once more, even with other options, none is counted as
added and the tokens looked for stay as they are. -/
theorem C125_again {T₀ T T' : VocabState} {gs : List (Bool × AddedToken)} {n : Int} (h₀ : FreshModel T₀)
    (h : Given T₀ T gs) (t t' : AddedToken) (hc : t'.content = t.content) (hg : (true, t) ∈ gs)
    (e : T.addSpecialTokens [t'] = .ok (T', n)) :
    n = 0 ∧ T'.splitRe.map (·.1) = T.splitRe.map (·.1) ∧ T'.splitNormalizedRe.map (·.1) = T.splitNormalizedRe.map (·.1) := by
  have h' := Given.special [t'] h e
  obtain ⟨p1, p2, _⟩ := C125_patterns h₀ h
  obtain ⟨q1, q2, _⟩ := C125_patterns h₀ h'
  have hs : specials (gs ++ [t'].map (fun t => (true, t))) = specials gs := by
    rw [specials_append]
    show declare (specials gs) (true, t') = _
    unfold declare
    rw [if_pos]
    by_cases h0 : t'.content = []
    · exact .inr (.inl h0)
    · refine .inr (.inr ?_)
      exact (mem_specials gs [] t'.content).mpr (.inr ⟨h0, (true, t), hg, rfl, hc.symm⟩)
  have ho : ordinaries (fun c => (mget T₀.vocab c).isSome) [] (gs ++ [t'].map (fun t => (true, t))) =
      ordinaries (fun c => (mget T₀.vocab c).isSome) [] gs := by
    rw [ordinaries_append, ordinaries_special, List.append_nil]
  refine ⟨?_, by rw [p1, q1, hs, ho], by rw [p2, q2, hs, ho]⟩
  rw [(C15_add_count h₀ h.runs [t'] T' n (.inr e)).1]
  obtain ⟨hl, _⟩ := h.lists h₀
  unfold newContents
  by_cases h0 : t'.content = []
  · simp [h0]
  · have : (T.tokenToId t'.content).isSome := (hl.known _).mpr (.inr ⟨h0, (true, t), hg, hc.symm⟩)
    obtain ⟨i, hi⟩ := Option.isSome_iff_exists.mp this
    simp [hi]

/-! ### Cases -/

/-- A special token given twice with different options, and an ordinary one that is made special later. -/
def declared : List (Bool × AddedToken) :=
  [(true, ⟨['s'], false, false, false, false⟩), (true, ⟨['s'], true, false, false, true⟩),
   (false, ⟨['o'], false, true, false, true⟩), (true, ⟨['o'], false, false, false, false⟩), (false, ⟨['a'], false, false, false, true⟩)]

example : (specials declared).map (·.content) = [['s'], ['o']] ∧ (specials declared).map (·.singleWord) = [false, false] ∧
    ordinaries (fun c => (mget sampleModel.vocab c).isSome) [] declared = [⟨['o'], false, true, false, true⟩] := by
  decide +kernel

example : ∃ T, Given sampleModel T ([⟨['s'], false, false, false, false⟩].map (fun t => (true, t))) ∧
    T.specialSet = [['s']] := by
  refine ⟨_, .special (gs := []) [⟨['s'], false, false, false, false⟩] .none (by rfl), by rfl⟩

end Tok
