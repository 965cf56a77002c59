import Verif.Added.Lemmas

/-! What an expression with white space on its sides matches. -/

namespace Tok.Added

open Tok.Norm Tok.PreTok Tok.Regex

theorem solid_stripped {re : Pat} (h : Solid re) (l r : Bool) : Solid (stripped l r re) := by
  unfold stripped
  split
  · exact (h.seq_left).seq_right
  · split
    · exact h.seq_right
    · split
      · exact h.seq_left
      · exact h

theorem engine_leftmost {re : Pat} (hr : Solid re) (s : Str) :
    (∀ p ∈ re.engine (encStr s), ∃ u m v, s = u ++ m ++ v ∧ p.1 = blen u ∧ p.2 = blen (u ++ m) ∧ m ≠ [] ∧
      (re.ends u.getLast? (m ++ v)).head? = some m.length) ∧
    LegalMatches (blen s) 0 (re.engine (encStr s)) ∧
    (∀ u v, s = u ++ v → re.ends u.getLast? v ≠ [] → ∃ p ∈ re.engine (encStr s), p.1 ≤ blen u ∧ blen u < p.2) := by
  unfold Pat.engine
  rw [charsOf_enc]
  obtain ⟨h1, h2, h3⟩ := findAll_leftmost hr s ((charsOf s).length + 1) [] s none rfl (by simp [charsOf])
  exact ⟨fun p hp => (h1 p hp).2, h2 0 (Nat.zero_le _), fun u v => h3 u v⟩

/-- Nothing, or one white space (of package regexp) if white space is stripped. -/
def Stripped (on : Bool) (a : Str) : Prop := a = [] ∨ (on = true ∧ ∃ x, isS x = true ∧ a = [x])

theorem ends_opt (p : Option Char) (s : Str) :
    (Pat.opt (.chr isS)).ends p s = if s.head?.any isS then [1, 0] else [0] := by
  cases s with
  | nil => rfl
  | cons c s =>
    simp only [Pat.ends, List.head?_cons, Option.any_some]
    by_cases h : isS c = true <;> simp [h]

/-- The right side. -/
def rightPat (r : Bool) (re : Pat) : Pat := if r then .seq re (.opt (.chr isS)) else re

/-- The left side. -/
def leftPat (l : Bool) (re : Pat) : Pat := if l then .seq (.opt (.chr isS)) re else re

theorem stripped_eq (l r : Bool) (re : Pat) : stripped l r re = leftPat l (rightPat r re) := by
  cases l <;> cases r <;> rfl

variable {B : Pat} {n : Nat} {Q : Option Char → Str → Prop} [∀ p s, Decidable (Q p s)]

theorem right_ends (hB : ∀ p s, B.ends p s = if Q p s then [n] else []) (r : Bool) (p : Option Char) (s : Str) :
    (rightPat r B).ends p s = if Q p s then (if r && (s.drop n).head?.any isS then [n + 1, n] else [n]) else [] := by
  unfold rightPat
  cases r with
  | false => simp [hB]
  | true =>
    simp only [if_true, Bool.true_and]
    rw [Pat.ends, hB]
    by_cases h : Q p s
    · simp only [h, if_true, List.flatMap_cons, List.flatMap_nil, List.append_nil, ends_opt]
      split <;> simp
    · simp [h]

theorem left_ends (re : Pat) (p : Option Char) (s : Str) :
    (leftPat true re).ends p s =
      (match s with
        | [] => []
        | x :: s => if isS x then (re.ends (some x) s).map (1 + ·) else []) ++ re.ends p s := by
  simp only [leftPat, if_true, Pat.ends]
  cases s with
  | nil => simp [prevAt]
  | cons x s =>
    dsimp only
    cases h : isS x <;> simp [prevAt]

/-- The matches of the whole expression, for a middle part that matches `n` characters or nothing. -/
theorem stripped_spec (hn : 0 < n) (hB : ∀ p s, B.ends p s = if Q p s then [n] else [])
    (hQ : ∀ p s, Q p s → n ≤ s.length) (l r : Bool) (s : Str) :
    let ms := (stripped l r B).engine (encStr s)
    (∀ p ∈ ms, ∃ u a w b v, s = u ++ a ++ w ++ b ++ v ∧ p = (blen u, blen (u ++ a ++ w ++ b)) ∧ w.length = n ∧
      Q (u ++ a).getLast? (w ++ b ++ v) ∧ Stripped l a ∧ Stripped r b ∧
      (r = true → b = [] → ∀ x, v.head? = some x → isS x = false) ∧
      (l = true → a = [] → ∀ x u', u = u' ++ [x] → isS x = true →
        ∃ q ∈ ms, q.1 ≤ blen u' ∧ blen u' < q.2 ∧ q.2 ≤ p.1)) ∧
    LegalMatches (blen s) 0 ms ∧
    (∀ u v, s = u ++ v → Q u.getLast? v → ∃ p ∈ ms, p.1 ≤ blen u ∧ blen u < p.2) := by
  have hsol : Solid B := by
    intro p s h0
    rw [hB] at h0
    split at h0
    · simp at h0; omega
    · cases h0
  obtain ⟨h1, h2, h3⟩ := engine_leftmost (solid_stripped hsol l r) s
  have hR := right_ends hB r
  have hends : ∀ p t, Q p t → (stripped l r B).ends p t ≠ [] := by
    intro p t hq
    rw [stripped_eq]
    have : (rightPat r B).ends p t ≠ [] := by
      rw [hR, if_pos hq]
      split <;> simp
    cases l with
    | false => exact this
    | true =>
      rw [left_ends]
      intro h
      exact this (List.append_eq_nil_iff.mp h).2
  have hleft : l = true → ∀ p x t, isS x = true → Q (some x) t → (stripped l r B).ends p (x :: t) ≠ [] := by
    intro hl p x t hx hq
    subst hl
    rw [stripped_eq, left_ends]
    dsimp only
    rw [if_pos hx, hR, if_pos hq]
    split <;> simp
  dsimp only
  refine ⟨?_, h2, fun u v hs hq => h3 u v hs (hends _ _ hq)⟩
  intro p hp
  obtain ⟨u, m, v, hs, hp1, hp2, hm, hh⟩ := h1 p hp
  -- the right side, from the place where the middle part starts
  have hright : ∀ (a t : Str), (a : Str).length ≤ 1 → a ++ t = m ++ v →
      (((rightPat r B).ends (u ++ a).getLast? t).map (a.length + ·)).head? = some m.length → Q (u ++ a).getLast? t →
      ∃ w b, m = a ++ w ++ b ∧ w.length = n ∧ Stripped r b ∧
        (r = true → b = [] → ∀ x, v.head? = some x → isS x = false) ∧ t = w ++ b ++ v := by
    intro a t _ ht hh hq
    have hnl := hQ _ _ hq
    rw [hR, if_pos hq] at hh
    have hlen := congrArg List.length ht
    simp only [List.length_append] at hlen
    by_cases hc : (r && (t.drop n).head?.any isS) = true
    · rw [if_pos hc] at hh
      simp only [List.map_cons, List.head?_cons, Option.some.injEq] at hh
      simp only [Bool.and_eq_true] at hc
      obtain ⟨x, hx1, hx2⟩ : ∃ x, (t.drop n).head? = some x ∧ isS x = true := by
        cases hd : (t.drop n).head? with
        | none => rw [hd] at hc; simp at hc
        | some x => rw [hd] at hc; exact ⟨x, rfl, hc.2⟩
      have ht2 : t.drop n = x :: t.drop (n + 1) := by
        cases hd : t.drop n with
        | nil => rw [hd] at hx1; cases hx1
        | cons y z =>
          rw [hd] at hx1
          cases hx1
          rw [← List.drop_drop, hd]
          rfl
      have ht3 : t = t.take n ++ [x] ++ t.drop (n + 1) := by
        have := List.take_append_drop n t
        rw [ht2] at this
        simpa using this.symm
      have hm2 : m = a ++ t.take n ++ [x] ∧ v = t.drop (n + 1) := by
        have : (a ++ t.take n ++ [x]) ++ t.drop (n + 1) = m ++ v := by
          rw [← ht]
          rw [List.append_assoc, List.append_assoc, ← List.append_assoc (t.take n), ← ht3]
        have := List.append_inj this (by simp [List.length_take, Nat.min_eq_left hnl]; omega)
        exact ⟨this.1.symm, this.2.symm⟩
      refine ⟨t.take n, [x], hm2.1, by simp [List.length_take, Nat.min_eq_left hnl], .inr ⟨hc.1, x, hx2, rfl⟩, by simp, ?_⟩
      rw [hm2.2]
      exact ht3
    · rw [if_neg hc] at hh
      simp only [List.map_cons, List.head?_cons, Option.some.injEq] at hh
      have hm2 : m = a ++ t.take n ∧ v = t.drop n := by
        have : (a ++ t.take n) ++ t.drop n = m ++ v := by
          rw [← ht, List.append_assoc, List.take_append_drop]
        have := List.append_inj this (by simp [List.length_take, Nat.min_eq_left hnl]; omega)
        exact ⟨this.1.symm, this.2.symm⟩
      refine ⟨t.take n, [], by rw [List.append_nil]; exact hm2.1, by simp [List.length_take, Nat.min_eq_left hnl],
        .inl rfl, ?_, by rw [List.append_nil, hm2.2, List.take_append_drop]⟩
      intro hr _ x hx
      rw [hm2.2] at hx
      rw [hr, hx] at hc
      simpa using hc
  have hpe : p = (blen u, blen (u ++ m)) := Prod.ext hp1 hp2
  have hqR : ∀ p t k, ((rightPat r B).ends p t).head? = some k → Q p t := by
    intro p t k hk
    rw [hR] at hk
    by_cases hq : Q p t
    · exact hq
    · rw [if_neg hq] at hk; cases hk
  rw [stripped_eq] at hh
  cases l with
  | false =>
    have hh : ((rightPat r B).ends u.getLast? (m ++ v)).head? = some m.length := hh
    have hq := hqR _ _ _ hh
    obtain ⟨w, b, e1, e2, e3, e4, e5⟩ := hright [] (m ++ v) (by simp) (by simp) (by simpa using hh) (by simpa using hq)
    rw [List.nil_append] at e1
    refine ⟨u, [], w, b, v, by rw [hs, e1]; simp, by rw [hpe, e1]; simp, e2, ?_, .inl rfl, e3, e4, by simp⟩
    rw [List.append_nil, ← e5]
    exact hq
  | true =>
    rw [left_ends] at hh
    by_cases hcase : ∃ x t, m ++ v = x :: t ∧ isS x = true ∧ Q (some x) t
    · obtain ⟨x, t, ht, hx, hq⟩ := hcase
      rw [ht] at hh
      dsimp only at hh
      rw [if_pos hx] at hh
      have hne : (rightPat r B).ends (some x) t ≠ [] := by
        rw [hR, if_pos hq]; split <;> simp
      have hh : (((rightPat r B).ends (u ++ [x]).getLast? t).map ([x].length + ·)).head? = some m.length := by
        rw [show (u ++ [x]).getLast? = some x by simp]
        rw [List.head?_append] at hh
        cases hz : (rightPat r B).ends (some x) t with
        | nil => exact absurd hz hne
        | cons y z => rw [hz] at hh; simpa using hh
      obtain ⟨w, b, e1, e2, e3, e4, e5⟩ := hright [x] t (by simp) (by simpa using ht.symm) hh (by simpa using hq)
      refine ⟨u, [x], w, b, v, by rw [hs, e1]; simp, by rw [hpe, e1]; simp, e2, ?_, .inr ⟨rfl, x, hx, rfl⟩, e3, e4, by simp⟩
      rw [← e5]
      simpa using hq
    · have hh : ((rightPat r B).ends u.getLast? (m ++ v)).head? = some m.length := by
        cases hmv : m ++ v with
        | nil => rw [hmv] at hh; simpa using hh
        | cons x t =>
          rw [hmv] at hh
          dsimp only at hh
          by_cases hx : isS x = true
          · rw [if_pos hx, hR, if_neg (fun hq => hcase ⟨x, t, hmv, hx, hq⟩)] at hh
            simpa using hh
          · rw [if_neg hx] at hh
            simpa using hh
      have hq := hqR _ _ _ hh
      obtain ⟨w, b, e1, e2, e3, e4, e5⟩ := hright [] (m ++ v) (by simp) (by simp) (by simpa using hh) (by simpa using hq)
      rw [List.nil_append] at e1
      refine ⟨u, [], w, b, v, by rw [hs, e1]; simp, by rw [hpe, e1]; simp, e2, ?_, .inl rfl, e3, e4, ?_⟩
      · rw [List.append_nil, ← e5]
        exact hq
      · intro _ _ x u' hu hx
        have hs' : s = u' ++ (x :: (m ++ v)) := by rw [hs, hu]; simp
        have hq' : Q (some x) (m ++ v) := by
          rw [hu] at hq
          simpa using hq
        obtain ⟨q, hq1, hq2, hq3⟩ := h3 u' _ hs' (hleft rfl _ _ _ hx hq')
        refine ⟨q, hq1, hq2, hq3, ?_⟩
        -- two matches do not overlap
        have hord : ∀ (len a : Nat) (l : List (Nat × Nat)), LegalMatches len a l → ∀ x ∈ l, ∀ y ∈ l,
            x = y ∨ x.2 ≤ y.1 ∨ y.2 ≤ x.1 := by
          intro len a l
          induction l generalizing a with
          | nil => intro _ x hx; cases hx
          | cons z l ih =>
            intro h x hx y hy
            have hlow : ∀ (a : Nat) (l : List (Nat × Nat)), LegalMatches len a l → ∀ x ∈ l, a ≤ x.1 := by
              intro a l
              induction l generalizing a with
              | nil => intro _ x hx; cases hx
              | cons z l ih =>
                intro h x hx
                rcases List.mem_cons.mp hx with rfl | hx
                · exact h.1
                · have := ih _ h.2.2.2 x hx
                  have h1 := h.1
                  have h2 := h.2.1
                  omega
            rcases List.mem_cons.mp hx with hxz | hxl
            · rcases List.mem_cons.mp hy with hyz | hyl
              · exact .inl (hxz.trans hyz.symm)
              · exact .inr (.inl (hxz ▸ hlow _ _ h.2.2.2 _ hyl))
            · rcases List.mem_cons.mp hy with hyz | hyl
              · exact .inr (.inr (hyz ▸ hlow _ _ h.2.2.2 _ hxl))
              · exact ih _ h.2.2.2 x hxl y hyl
        have hb : blen u = blen u' + x.utf8Size := by rw [hu]; simp [blen_append]
        have hxp := x.utf8Size_pos
        rcases hord _ _ _ h2 q hq1 p hp with rfl | h | h
        · omega
        · exact h
        · have : p.1 ≤ p.2 := by
            rw [hp1, hp2, blen_append]; omega
          omega

end Tok.Added
