import Verif.Regex.Lemmas

/-!
# C72: the matches of the regular expressions of the pre-tokenizers
-/

namespace Tok.Regex

open Tok.Norm Tok.PreTok

/-! ### Specification -/

/-- The leftmost matches in a text, one after the other: each is the preferred match at its place, they
do not overlap, and where none of them lies, nothing would match. Places are in bytes. -/
structure Leftmost (re : Re) (s : Str) (ms : List (Nat × Nat)) : Prop where
  matching : ∀ p ∈ ms, ∃ u m v, s = u ++ m ++ v ∧ p.1 = blen u ∧ p.2 = blen (u ++ m) ∧ m ≠ [] ∧
    (re.ends (m ++ v)).head? = some m.length
  ordered : LegalMatches (blen s) 0 ms
  complete : ∀ u v, s = u ++ v → re.ends v ≠ [] → ∃ p ∈ ms, p.1 ≤ blen u ∧ blen u < p.2

/-! ### Helpers -/

theorem findLoop_leftmost {re : Re} (hr : Solid re) (s : Str) (fuel : Nat) : ∀ (u w : Str), s = u ++ w → w.length ≤ fuel →
    (∀ p ∈ findLoop re fuel (charsOf w) (blen u), blen u ≤ p.1 ∧ ∃ u' m v, s = u' ++ m ++ v ∧ p.1 = blen u' ∧
      p.2 = blen (u' ++ m) ∧ m ≠ [] ∧ (re.ends (m ++ v)).head? = some m.length) ∧
    (∀ a, a ≤ blen u → LegalMatches (blen s) a (findLoop re fuel (charsOf w) (blen u))) ∧
    (∀ x v, w = x ++ v → re.ends v ≠ [] →
      ∃ p ∈ findLoop re fuel (charsOf w) (blen u), p.1 ≤ blen (u ++ x) ∧ blen (u ++ x) < p.2) := by
  have hnil : re.ends [] = [] := by
    cases h : re.ends [] with
    | nil => rfl
    | cons k l =>
      have := ends_le re [] k (by rw [h]; simp)
      have : k = 0 := by simpa using this
      exact absurd (by rw [h, this]; simp : 0 ∈ re.ends []) (hr [])
  induction fuel with
  | zero =>
    intro u w hs hl
    have hw : w = [] := List.length_eq_zero_iff.mp (by omega)
    subst hw
    refine ⟨by simp [findLoop], fun a _ => by simp [findLoop, LegalMatches], ?_⟩
    intro x v hx hv
    have : v = [] := (List.append_eq_nil_iff.mp hx.symm).2
    rw [this] at hv
    exact absurd hnil hv
  | succ fuel ih =>
    intro u w hs hl
    cases w with
    | nil =>
      refine ⟨by simp [findLoop, charsOf], fun a _ => by simp [findLoop, charsOf, LegalMatches], ?_⟩
      intro x v hx hv
      have : v = [] := (List.append_eq_nil_iff.mp hx.symm).2
      rw [this] at hv
      exact absurd hnil hv
    | cons c w =>
      have hc := c.utf8Size_pos
      have hcons : charsOf (c :: w) = (c, c.utf8Size) :: charsOf w := rfl
      have hdrop : ∀ k, (charsOf (c :: w)).drop k = charsOf ((c :: w).drop k) := by
        intro k; simp only [charsOf, List.map_drop]
      have htake : ∀ k, width ((charsOf (c :: w)).take k) = blen ((c :: w).take k) := by
        intro k; rw [← width_chars]; simp only [charsOf, List.map_take]
      have hfst : ((c, c.utf8Size) :: charsOf w).map (·.1) = c :: w := by rw [← hcons, charsOf_fst]
      rw [hcons, findLoop, hfst, ← hcons]
      rw [List.length_cons] at hl
      cases hf : re.first (c :: w) with
      | none =>
        have hsplit : s = (u ++ [c]) ++ w := by rw [hs]; simp
        have hb : blen (u ++ [c]) = blen u + c.utf8Size := by simp [blen_append]
        obtain ⟨i1, i2, i3⟩ := ih _ _ hsplit (by omega)
        rw [hb] at i1 i2
        refine ⟨?_, fun a ha => i2 a (by omega), ?_⟩
        · intro p hp
          obtain ⟨j1, j2⟩ := i1 p hp
          exact ⟨by omega, j2⟩
        · intro x v hx hv
          cases x with
          | nil =>
            have hx : c :: w = v := hx
            rw [← hx] at hv
            rw [Re.first, List.head?_eq_none_iff] at hf
            exact absurd hf hv
          | cons d x =>
            rw [List.cons_append, List.cons.injEq] at hx
            obtain ⟨rfl, hx⟩ := hx
            obtain ⟨p, hp, h1⟩ := i3 x v hx hv
            rw [hb] at hp
            refine ⟨p, hp, ?_⟩
            simpa using h1
      | some k =>
        cases k with
        | zero =>
          exact absurd (List.mem_of_head? hf) (hr _)
        | succ k =>
          dsimp only
          rw [htake, hdrop]
          have hkl := first_le hf
          have hsplit : s = (u ++ (c :: w).take (k + 1)) ++ (c :: w).drop (k + 1) := by
            rw [List.append_assoc, List.take_append_drop, hs]
          have hb : blen (u ++ (c :: w).take (k + 1)) = blen u + blen ((c :: w).take (k + 1)) := blen_append _ _
          have hpos : 0 < blen ((c :: w).take (k + 1)) := by
            rw [List.take_succ_cons, blen_cons]; omega
          have hle : blen u + blen ((c :: w).take (k + 1)) ≤ blen s := by
            rw [hsplit, blen_append, hb]; omega
          obtain ⟨i1, i2, i3⟩ := ih _ _ hsplit (by rw [List.length_drop, List.length_cons]; omega)
          rw [hb] at i1 i2
          refine ⟨?_, ?_, ?_⟩
          · intro p hp
            rcases List.mem_cons.mp hp with rfl | hp
            · refine ⟨Nat.le_refl _, u, (c :: w).take (k + 1), (c :: w).drop (k + 1), hsplit, rfl, hb.symm, by simp, ?_⟩
              rw [List.take_append_drop, List.length_take, Nat.min_eq_left hkl]
              exact hf
            · obtain ⟨j1, j2⟩ := i1 p hp
              exact ⟨by omega, j2⟩
          · intro a ha
            exact ⟨ha, by dsimp only; omega, hle, i2 _ (Nat.le_refl _)⟩
          · intro x v hx hv
            by_cases hxl : x.length ≤ k
            · refine ⟨_, List.mem_cons_self, by rw [blen_append]; dsimp only; omega, ?_⟩
              dsimp only
              rw [blen_append]
              have : (c :: w).take (k + 1) = x ++ v.take (k + 1 - x.length) := by
                rw [hx, List.take_append, List.take_of_length_le (by omega)]
              rw [this, blen_append]
              have hv1 : v.take (k + 1 - x.length) ≠ [] := by
                intro h
                have := congrArg List.length this
                rw [h, List.append_nil, List.length_take, Nat.min_eq_left hkl] at this
                omega
              have : 0 < blen (v.take (k + 1 - x.length)) := Nat.pos_of_ne_zero (fun h => hv1 (blen_eq_zero.mp h))
              omega
            · have hx1 : x = (c :: w).take (k + 1) ++ x.drop (k + 1) := by
                have : (c :: w).take (k + 1) = x.take (k + 1) := by
                  rw [hx, List.take_append_of_le_length (by omega)]
                rw [this, List.take_append_drop]
              have hx2 : (c :: w).drop (k + 1) = x.drop (k + 1) ++ v := by
                rw [hx, List.drop_append_of_le_length (by omega)]
              obtain ⟨p, hp, h1⟩ := i3 _ v hx2 hv
              rw [List.append_assoc, ← hx1] at h1
              rw [hb] at hp
              exact ⟨p, List.mem_cons_of_mem _ hp, h1⟩

/-- Two lists of matches that are both leftmost. -/
theorem legal_from {len : Nat} : ∀ {ms : List (Nat × Nat)} {a : Nat}, LegalMatches len a ms → ∀ p ∈ ms, a ≤ p.1 ∧ p.1 ≤ p.2 := by
  intro ms
  induction ms with
  | nil => intro a _ p hp; cases hp
  | cons m ms ih =>
    intro a ⟨h1, h2, _, h4⟩ p hp
    rcases List.mem_cons.mp hp with rfl | hp
    · exact ⟨h1, h2⟩
    · have := ih h4 p hp
      exact ⟨by omega, this.2⟩

theorem blen_inj {s u u' v v' : Str} (h1 : s = u ++ v) (h2 : s = u' ++ v') (h : blen u = blen u') : u = u' ∧ v = v' := by
  induction u generalizing s u' with
  | nil =>
    cases u' with
    | nil => exact ⟨rfl, by rw [h1] at h2; exact h2⟩
    | cons c u' =>
      have := c.utf8Size_pos
      simp only [blen_nil, blen_cons] at h
      omega
  | cons c u ih =>
    cases u' with
    | nil =>
      have := c.utf8Size_pos
      simp only [blen_nil, blen_cons] at h
      omega
    | cons c' u' =>
      rw [h1, List.cons_append, List.cons_append, List.cons.injEq] at h2
      obtain ⟨rfl, h2⟩ := h2
      simp only [blen_cons] at h
      obtain ⟨e1, e2⟩ := ih rfl h2 (by omega)
      exact ⟨by rw [e1], e2⟩

theorem leftmost_tail_unique {re : Re} {s : Str} :
    ∀ (ms ms' : List (Nat × Nat)) (a : Nat),
      (∀ p ∈ ms, ∃ u m v, s = u ++ m ++ v ∧ p.1 = blen u ∧ p.2 = blen (u ++ m) ∧ m ≠ [] ∧ (re.ends (m ++ v)).head? = some m.length) →
      (∀ p ∈ ms', ∃ u m v, s = u ++ m ++ v ∧ p.1 = blen u ∧ p.2 = blen (u ++ m) ∧ m ≠ [] ∧ (re.ends (m ++ v)).head? = some m.length) →
      LegalMatches (blen s) a ms → LegalMatches (blen s) a ms' →
      (∀ u v, s = u ++ v → a ≤ blen u → re.ends v ≠ [] → ∃ p ∈ ms, p.1 ≤ blen u ∧ blen u < p.2) →
      (∀ u v, s = u ++ v → a ≤ blen u → re.ends v ≠ [] → ∃ p ∈ ms', p.1 ≤ blen u ∧ blen u < p.2) → ms = ms' := by
  intro ms
  -- the first match starts nowhere later than any other one
  have first : ∀ (m : Nat × Nat) (ms ms' : List (Nat × Nat)) (a : Nat),
      (∀ p ∈ ms', ∃ u m v, s = u ++ m ++ v ∧ p.1 = blen u ∧ p.2 = blen (u ++ m) ∧ m ≠ [] ∧ (re.ends (m ++ v)).head? = some m.length) →
      LegalMatches (blen s) a (m :: ms) → LegalMatches (blen s) a ms' →
      (∀ u v, s = u ++ v → a ≤ blen u → re.ends v ≠ [] → ∃ p ∈ m :: ms, p.1 ≤ blen u ∧ blen u < p.2) →
      ∀ p ∈ ms', m.1 ≤ p.1 := by
    intro m ms ms' a h1 l1 l2 c1 p hp
    obtain ⟨u, x, v, e, e1, _, _, e4⟩ := h1 p hp
    obtain ⟨q, hq, hq1, _⟩ := c1 u (x ++ v) (by rw [e, List.append_assoc]) (by have := legal_from l2 p hp; omega)
      (by intro h; rw [h] at e4; cases e4)
    have : m.1 ≤ q.1 := by
      rcases List.mem_cons.mp hq with rfl | hq
      · exact Nat.le_refl _
      · have := legal_from l1.2.2.2 q hq
        have := l1.2.1
        omega
    omega
  induction ms with
  | nil =>
    intro ms' a _ h2 _ l2 c1 _
    cases ms' with
    | nil => rfl
    | cons m' ms' =>
      obtain ⟨u, x, v, e, e1, _, _, e4⟩ := h2 m' (by simp)
      obtain ⟨p, hp, _⟩ := c1 u (x ++ v) (by rw [e, List.append_assoc]) (by rw [← e1]; exact l2.1) (by intro h; rw [h] at e4; cases e4)
      cases hp
  | cons m ms ih =>
    intro ms' a h1 h2 l1 l2 c1 c2
    cases ms' with
    | nil =>
      obtain ⟨u, x, v, e, e1, _, _, e4⟩ := h1 m (by simp)
      obtain ⟨p, hp, _⟩ := c2 u (x ++ v) (by rw [e, List.append_assoc]) (by rw [← e1]; exact l1.1) (by intro h; rw [h] at e4; cases e4)
      cases hp
    | cons m' ms' =>
      have f1 := first m ms (m' :: ms') a h2 l1 l2 c1 m' (by simp)
      have f2 := first m' ms' (m :: ms) a h1 l2 l1 c2 m (by simp)
      have hm : m = m' := by
        obtain ⟨u, x, v, e, e1, e2, _, e4⟩ := h1 m (by simp)
        obtain ⟨u', x', v', e', e1', e2', _, e4'⟩ := h2 m' (by simp)
        rw [List.append_assoc] at e e'
        obtain ⟨hu, hv⟩ := blen_inj e e' (by omega)
        rw [hv, e4'] at e4
        have hlen : x'.length = x.length := by simpa using e4
        have := List.append_inj_left hv hlen.symm
        apply Prod.ext
        · omega
        · rw [e2, e2', hu, this]
      subst hm
      rw [ih ms' m.2 (fun p hp => h1 p (by simp [hp])) (fun p hp => h2 p (by simp [hp])) l1.2.2.2 l2.2.2.2 ?_ ?_]
      · intro u v e ha hv
        obtain ⟨p, hp, h3⟩ := c1 u v e (by have := l1.1; have := l1.2.1; omega) hv
        rcases List.mem_cons.mp hp with rfl | hp
        · omega
        · exact ⟨p, hp, h3⟩
      · intro u v e ha hv
        obtain ⟨p, hp, h3⟩ := c2 u v e (by have := l1.1; have := l1.2.1; omega) hv
        rcases List.mem_cons.mp hp with rfl | hp
        · omega
        · exact ⟨p, hp, h3⟩

/-! ### The properties -/

/-- C72: the matches found in a text are the leftmost ones, for every expression that does not match
the empty text. -/
theorem C72_leftmost (re : Re) (hr : ∀ s, 0 ∉ re.ends s) (s : Str) : Leftmost re s (re.engine (encStr s)) := by
  unfold Re.engine
  rw [charsOf_enc]
  obtain ⟨h1, h2, h3⟩ := findLoop_leftmost hr s (charsOf s).length [] s rfl (by simp [charsOf])
  exact ⟨fun p hp => (h1 p hp).2, h2 0 (Nat.zero_le _), fun u v => h3 u v⟩

/-- There is only one list of leftmost matches. -/
theorem C72_unique (re : Re) (s : Str) (ms ms' : List (Nat × Nat)) (h : Leftmost re s ms) (h' : Leftmost re s ms') :
    ms = ms' :=
  leftmost_tail_unique ms ms' 0 h.matching h'.matching h.ordered h'.ordered (fun u v e _ => h.complete u v e)
    (fun u v e _ => h'.complete u v e)

theorem gpt2_first (isL isN : Char → Bool) (cs : Chars) :
    (gpt2Re isL isN).first (cs.map (·.1)) = gpt2Len isL isN cs := by
  have hspaced : ∀ f : Char → Bool, f ' ' = f ' ' →
      (Re.seq (.opt (.lit " ".toList)) (.plus (.chr f))).first (cs.map (·.1)) = spacedRun f cs := by
    intro f _
    have h0 : (Re.seq (.opt (.lit " ".toList)) (.plus (.chr f))).first (cs.map (·.1)) =
        ((Re.seq (.lit " ".toList) (.plus (.chr f))).first (cs.map (·.1))).or ((Re.plus (.chr f)).first (cs.map (·.1))) := by
      simp only [Re.first, Re.opt, Re.ends, List.flatMap_append, List.head?_append, List.flatMap_cons, List.flatMap_nil,
        List.drop_zero, List.append_nil, Nat.zero_add, List.map_id']
    rw [h0, first_plus_chr]
    unfold spacedRun
    rw [runLen_eq]
    congr 1
    cases cs with
    | nil => rfl
    | cons c cs =>
      dsimp only
      rw [Re.first, Re.ends, ends_lit]
      by_cases hc : c.1 = ' '
      · have hp : (" ".toList).isPrefixOf ((c :: cs).map (·.1)) = true := by
          rw [List.map_cons, hc]
          rfl
        rw [if_pos hp]
        simp only [List.flatMap_cons, List.flatMap_nil, List.append_nil, List.head?_map]
        have := first_plus_chr f (cs.map (·.1))
        rw [Re.first] at this
        have hd : List.drop (" ".toList).length ((c :: cs).map (·.1)) = cs.map (·.1) := rfl
        rw [hd, this, runLen_eq]
        by_cases h : runOf f (cs.map (·.1)) = 0
        · simp [h]
        · simp only [hc, ne_eq, h, not_false_eq_true, and_self, if_true, Option.map_some]
          congr 1
          exact Nat.add_comm _ _
      · have hp : ¬ (" ".toList).isPrefixOf ((c :: cs).map (·.1)) = true := by
          rw [List.map_cons]
          have : " ".toList = [' '] := rfl
          rw [this, List.isPrefixOf]
          simp [Ne.symm hc]
        rw [if_neg hp]
        simp [hc]
  unfold gpt2Re gpt2Len
  simp only [first_alt, first_lit, hspaced _ rfl]
  rfl

/-- C72: the byte-level pre-tokenizer cuts at the leftmost matches of
`'s|'t|'re|'ve|'m|'ll|'d| ?\p{L}+| ?\p{N}+| ?[^\s\p{L}\p{N}]+`. -/
theorem C72_byteLevel (isL isN : Char → Bool) (s : Str) :
    Leftmost (gpt2Re isL isN) s (gpt2Engine isL isN (encStr s)) := by
  have h : gpt2Engine isL isN (encStr s) = (gpt2Re isL isN).engine (encStr s) := by
    unfold gpt2Engine Re.engine
    dsimp only
    rw [findLoop_gpt2 isL isN (gpt2_first isL isN)]
  rw [h]
  apply C72_leftmost
  have hl : ∀ w : Str, w ≠ [] → Solid (.lit w) := solid_lit
  have hs : ∀ f, Solid (Re.seq (.opt (.lit " ".toList)) (.plus (.chr f))) :=
    fun f => solid_seq_right (solid_plus (solid_chr f))
  exact solid_alt (hl _ (by decide)) <| solid_alt (hl _ (by decide)) <| solid_alt (hl _ (by decide)) <|
    solid_alt (hl _ (by decide)) <| solid_alt (hl _ (by decide)) <| solid_alt (hl _ (by decide)) <|
    solid_alt (hl _ (by decide)) <| solid_alt (hs _) <| solid_alt (hs _) (hs _)

end Tok.Regex
