import Verif.Added.Model

/-! Facts about the expressions of added tokens. -/

namespace Tok.Added

open Tok.Norm Tok.PreTok Tok.Regex

theorem ends_le (re : Pat) : ∀ p s, ∀ k ∈ re.ends p s, k ≤ s.length := by
  induction re with
  | empty => intro p s k hk; simp [Pat.ends] at hk; omega
  | chr f =>
    intro p s k hk
    cases s with
    | nil => simp [Pat.ends] at hk
    | cons c s =>
      simp only [Pat.ends] at hk
      split at hk
      · simp at hk; simp [hk]
      · cases hk
  | bound =>
    intro p s k hk
    simp only [Pat.ends] at hk
    split at hk
    · simp at hk; omega
    · cases hk
  | seq a b iha ihb =>
    intro p s k hk
    obtain ⟨j, hj, hk⟩ := List.mem_flatMap.mp hk
    obtain ⟨i, hi, rfl⟩ := List.mem_map.mp hk
    have h1 := iha p s j hj
    have h2 := ihb _ _ i hi
    rw [List.length_drop] at h2
    omega
  | opt a iha =>
    intro p s k hk
    rcases List.mem_append.mp hk with hk | hk
    · exact iha p s k hk
    · simp at hk; omega

/-- The expression does not match the empty text. -/
def Solid (re : Pat) : Prop := ∀ p s, 0 ∉ re.ends p s

theorem Solid.seq_left {a b : Pat} (h : Solid a) : Solid (.seq a b) := by
  intro p s hk
  obtain ⟨j, hj, hk⟩ := List.mem_flatMap.mp hk
  obtain ⟨i, hi, h0⟩ := List.mem_map.mp hk
  have : j = 0 := by omega
  subst this
  exact h _ _ hj

theorem Solid.seq_right {a b : Pat} (h : Solid b) : Solid (.seq a b) := by
  intro p s hk
  obtain ⟨j, hj, hk⟩ := List.mem_flatMap.mp hk
  obtain ⟨i, hi, h0⟩ := List.mem_map.mp hk
  have : i = 0 := by omega
  subst this
  exact h _ _ hi

theorem solid_lit {w : Str} (h : w ≠ []) : Solid (.lit w) := by
  cases w with
  | nil => exact absurd rfl h
  | cons c w =>
    refine Solid.seq_left ?_
    intro p s hk
    cases s with
    | nil => cases hk
    | cons d s =>
      simp only [Pat.ends] at hk
      split at hk <;> simp at hk

theorem prevAt_last {u w : Str} {k : Nat} (hk : k ≤ w.length) :
    prevAt u.getLast? w k = (u ++ w.take k).getLast? := by
  cases k with
  | zero => simp [prevAt]
  | succ k =>
    simp only [prevAt]
    rw [List.getLast?_append]
    have : (w.take (k + 1)).getLast? = w[k]? := by
      rw [List.getLast?_eq_getElem?, List.length_take, Nat.min_eq_left hk, List.getElem?_take]
      simp
    rw [this, List.getElem?_eq_getElem (by omega)]
    rfl

theorem findAll_leftmost {re : Pat} (hr : Solid re) (s : Str) (fuel : Nat) : ∀ (u w : Str) (last : Option Nat),
    s = u ++ w → w.length < fuel →
    (∀ p ∈ findAll re fuel u.getLast? (charsOf w) (blen u) last, blen u ≤ p.1 ∧ ∃ u' m v, s = u' ++ m ++ v ∧
      p.1 = blen u' ∧ p.2 = blen (u' ++ m) ∧ m ≠ [] ∧ (re.ends u'.getLast? (m ++ v)).head? = some m.length) ∧
    (∀ a, a ≤ blen u → LegalMatches (blen s) a (findAll re fuel u.getLast? (charsOf w) (blen u) last)) ∧
    (∀ x v, w = x ++ v → re.ends (u ++ x).getLast? v ≠ [] →
      ∃ p ∈ findAll re fuel u.getLast? (charsOf w) (blen u) last, p.1 ≤ blen (u ++ x) ∧ blen (u ++ x) < p.2) := by
  have hnil : ∀ p, re.ends p [] = [] := by
    intro p
    cases h : re.ends p [] with
    | nil => rfl
    | cons k l =>
      have := ends_le re p [] k (by rw [h]; simp)
      have : k = 0 := by simpa using this
      exact absurd (by rw [h, this]; simp : 0 ∈ re.ends p []) (hr p [])
  induction fuel with
  | zero => intro u w last hs hl; omega
  | succ fuel ih =>
    intro u w last hs hl
    cases w with
    | nil =>
      have : findAll re (fuel + 1) u.getLast? (charsOf []) (blen u) last = [] := by
        have e : (charsOf []).map (·.1) = [] := rfl
        rw [findAll.eq_def]
        dsimp only
        rw [e, hnil]
        rfl
      rw [this]
      refine ⟨by simp, fun a _ => trivial, ?_⟩
      intro x v hx hv
      have : v = [] := (List.append_eq_nil_iff.mp hx.symm).2
      rw [this] at hv
      exact absurd (hnil _) hv
    | cons c w =>
      have hc := c.utf8Size_pos
      have hcons : charsOf (c :: w) = (c, c.utf8Size) :: charsOf w := rfl
      have hdrop : ∀ k, (charsOf (c :: w)).drop k = charsOf ((c :: w).drop k) := by
        intro k; simp only [charsOf, List.map_drop]
      have htake : ∀ k, width ((charsOf (c :: w)).take k) = blen ((c :: w).take k) := by
        intro k; rw [← width_chars]; simp only [charsOf, List.map_take]
      have hfst : (charsOf (c :: w)).map (·.1) = c :: w := charsOf_fst _
      rw [findAll.eq_def]
      dsimp only
      rw [hfst]
      rw [List.length_cons] at hl
      cases hf : (re.ends u.getLast? (c :: w)).head? with
      | none =>
        have hsplit : s = (u ++ [c]) ++ w := by rw [hs]; simp
        have hb : blen (u ++ [c]) = blen u + c.utf8Size := by simp [blen_append]
        obtain ⟨i1, i2, i3⟩ := ih _ _ last hsplit (by omega)
        have hlast : (u ++ [c]).getLast? = some c := by simp
        rw [hb, hlast] at i1 i2
        simp only [hcons]
        refine ⟨?_, fun a ha => i2 a (by omega), ?_⟩
        · intro p hp
          obtain ⟨j1, j2⟩ := i1 p hp
          exact ⟨by omega, j2⟩
        · intro x v hx hv
          cases x with
          | nil =>
            have hx : c :: w = v := hx
            rw [← hx, List.append_nil] at hv
            rw [List.head?_eq_none_iff] at hf
            exact absurd hf hv
          | cons d x =>
            rw [List.cons_append, List.cons.injEq] at hx
            obtain ⟨rfl, hx⟩ := hx
            obtain ⟨p, hp, h1⟩ := i3 x v hx (by simpa using hv)
            rw [hb, hlast] at hp
            refine ⟨p, hp, ?_⟩
            simpa using h1
      | some k =>
        cases k with
        | zero => exact absurd (List.mem_of_head? hf) (hr _ _)
        | succ k =>
          dsimp only
          rw [htake, hdrop]
          have hkl : k + 1 ≤ (c :: w).length := ends_le re _ _ _ (List.mem_of_head? hf)
          have hsplit : s = (u ++ (c :: w).take (k + 1)) ++ (c :: w).drop (k + 1) := by
            rw [List.append_assoc, List.take_append_drop, hs]
          have hb : blen (u ++ (c :: w).take (k + 1)) = blen u + blen ((c :: w).take (k + 1)) := blen_append _ _
          have hpos : 0 < blen ((c :: w).take (k + 1)) := by
            rw [List.take_succ_cons, blen_cons]; omega
          have hle : blen u + blen ((c :: w).take (k + 1)) ≤ blen s := by
            rw [hsplit, blen_append, hb]; omega
          obtain ⟨i1, i2, i3⟩ := ih _ _ (some (blen u + blen ((c :: w).take (k + 1)))) hsplit
            (by rw [List.length_drop, List.length_cons]; omega)
          rw [hb] at i1 i2
          rw [prevAt_last hkl]
          refine ⟨?_, ?_, ?_⟩
          · intro p hp
            rcases List.mem_cons.mp hp with rfl | hp
            · refine ⟨Nat.le_refl _, u, (c :: w).take (k + 1), (c :: w).drop (k + 1), hsplit, rfl, hb.symm, by simp, ?_⟩
              rw [List.take_append_drop, List.length_take, Nat.min_eq_left hkl]
              exact hf
            · obtain ⟨j1, j2⟩ := i1 p hp
              exact ⟨by omega, j2⟩
          · intro a ha
            exact ⟨ha, by dsimp only; omega, hle, i2 _ (Nat.le_refl _)⟩
          · intro x v hx hv
            by_cases hxl : x.length ≤ k
            · refine ⟨_, List.mem_cons_self, by rw [blen_append]; dsimp only; omega, ?_⟩
              dsimp only
              rw [blen_append]
              have : (c :: w).take (k + 1) = x ++ v.take (k + 1 - x.length) := by
                rw [hx, List.take_append, List.take_of_length_le (by omega)]
              rw [this, blen_append]
              have hv1 : v.take (k + 1 - x.length) ≠ [] := by
                intro h
                have := congrArg List.length this
                rw [h, List.append_nil, List.length_take, Nat.min_eq_left hkl] at this
                omega
              have : 0 < blen (v.take (k + 1 - x.length)) := Nat.pos_of_ne_zero (fun h => hv1 (blen_eq_zero.mp h))
              omega
            · have hx1 : x = (c :: w).take (k + 1) ++ x.drop (k + 1) := by
                have : (c :: w).take (k + 1) = x.take (k + 1) := by
                  rw [hx, List.take_append_of_le_length (by omega)]
                rw [this, List.take_append_drop]
              have hx2 : (c :: w).drop (k + 1) = x.drop (k + 1) ++ v := by
                rw [hx, List.drop_append_of_le_length (by omega)]
              obtain ⟨p, hp, h1⟩ := i3 _ v hx2 (by rw [List.append_assoc, ← hx1]; exact hv)
              rw [List.append_assoc, ← hx1] at h1
              rw [hb] at hp
              exact ⟨p, List.mem_cons_of_mem _ hp, h1⟩

/-! ### The matches of the parts -/

theorem ends_lit (w : Str) : ∀ p s, (Pat.lit w).ends p s = if w <+: s then [w.length] else [] := by
  induction w with
  | nil => intro p s; simp [Pat.lit, Pat.ends]
  | cons c w ih =>
    intro p s
    cases s with
    | nil => simp [Pat.lit, Pat.ends]
    | cons d s =>
      simp only [Pat.lit, Pat.ends]
      by_cases h : d = c
      · subst h
        simp only [beq_self_eq_true, if_true, List.flatMap_cons, List.flatMap_nil, List.append_nil, List.drop_succ_cons,
          List.drop_zero, ih]
        by_cases hw : w <+: s
        · simp [hw, List.cons_prefix_cons, Nat.add_comm]
        · simp [hw, List.cons_prefix_cons]
      · have h' : (d == c) = false := by simpa using h
        have : ¬ (c :: w <+: d :: s) := by
          rw [List.cons_prefix_cons]
          exact fun hh => h hh.1.symm
        simp [h', this]

/-- Whether a boundary is there if one is asked for. -/
def boundOk (b : Bool) (x y : Option Char) : Prop := b = true → atBound x y = true

instance (b : Bool) (x y : Option Char) : Decidable (boundOk b x y) := by unfold boundOk; infer_instance

theorem ends_boundIf (f : Char → Bool) (c : Char) (p : Option Char) (s : Str) :
    (boundIf f c).ends p s = if boundOk (f c) p s.head? then [0] else [] := by
  unfold boundIf boundOk
  cases hf : f c with
  | true => simp [Pat.ends]
  | false => simp [Pat.ends]

theorem ends_word (f : Char → Bool) (a b : Char) (w : Str) (hw : w ≠ []) (p : Option Char) (s : Str) :
    (Pat.seq (boundIf f a) (.seq (.lit w) (boundIf f b))).ends p s =
      if w <+: s ∧ boundOk (f a) p w.head? ∧ boundOk (f b) w.getLast? (s.drop w.length).head? then [w.length] else [] := by
  simp only [Pat.ends, ends_boundIf, ends_lit]
  by_cases h1 : w <+: s
  · obtain ⟨v, rfl⟩ := h1
    have hh : (w ++ v).head? = w.head? := by
      cases w with
      | nil => exact absurd rfl hw
      | cons c w => rfl
    have hp : prevAt p (w ++ v) w.length = w.getLast? := by
      cases w with
      | nil => exact absurd rfl hw
      | cons c w =>
        simp only [List.length_cons, prevAt]
        rw [List.getLast?_eq_getElem?, List.getElem?_append_left (by simp)]
        rfl
    have hp0 : prevAt p (w ++ v) 0 = p := rfl
    rw [hh]
    by_cases h2 : boundOk (f a) p w.head?
    · simp only [h2, if_true, List.flatMap_cons, List.flatMap_nil, List.append_nil, List.drop_zero, List.prefix_append,
        hp0, hp, true_and]
      by_cases h3 : boundOk (f b) w.getLast? ((w ++ v).drop w.length).head?
      · rw [if_pos h3, if_pos h3]; simp
      · rw [if_neg h3, if_neg h3]; simp
    · simp [h2]
  · by_cases h2 : boundOk (f a) p s.head? <;> simp [h1, h2]

end Tok.Added
