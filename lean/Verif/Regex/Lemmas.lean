import Verif.Regex.Model
import Verif.PreTok.Gpt2

/-! Facts about matches of regular expressions. -/

namespace Tok.Regex

open Tok.Norm Tok.PreTok

theorem starEnds_le {e : Str → List Nat} (he : ∀ s, ∀ k ∈ e s, k ≤ s.length) :
    ∀ fuel s, ∀ k ∈ starEnds e fuel s, k ≤ s.length := by
  intro fuel
  induction fuel with
  | zero => intro s k hk; simp [starEnds] at hk; omega
  | succ fuel ih =>
    intro s k hk
    rw [starEnds] at hk
    rcases List.mem_append.mp hk with hk | hk
    · obtain ⟨j, hj, hk⟩ := List.mem_flatMap.mp hk
      obtain ⟨i, hi, rfl⟩ := List.mem_map.mp hk
      have h1 := he s j (List.mem_filter.mp hj).1
      have h2 := ih _ i hi
      rw [List.length_drop] at h2
      omega
    · simp at hk; omega

theorem ends_le (re : Re) : ∀ s, ∀ k ∈ re.ends s, k ≤ s.length := by
  induction re with
  | empty => intro s k hk; simp [Re.ends] at hk; omega
  | chr f =>
    intro s k hk
    cases s with
    | nil => simp [Re.ends] at hk
    | cons c s =>
      simp only [Re.ends] at hk
      split at hk
      · simp at hk; simp [hk]
      · cases hk
  | seq a b iha ihb =>
    intro s k hk
    obtain ⟨j, hj, hk⟩ := List.mem_flatMap.mp hk
    obtain ⟨i, hi, rfl⟩ := List.mem_map.mp hk
    have h1 := iha s j hj
    have h2 := ihb _ i hi
    rw [List.length_drop] at h2
    omega
  | alt a b iha ihb =>
    intro s k hk
    rcases List.mem_append.mp hk with hk | hk
    · exact iha s k hk
    · exact ihb s k hk
  | star a iha => intro s k hk; exact starEnds_le iha _ s k hk

/-- The expression does not match the empty text. -/
def Solid (re : Re) : Prop := ∀ s, 0 ∉ re.ends s

theorem solid_chr (f : Char → Bool) : Solid (.chr f) := by
  intro s h
  cases s with
  | nil => cases h
  | cons c s =>
    simp only [Re.ends] at h
    split at h <;> simp at h

theorem solid_alt {a b : Re} (ha : Solid a) (hb : Solid b) : Solid (.alt a b) := by
  intro s h
  rcases List.mem_append.mp h with h | h
  · exact ha s h
  · exact hb s h

theorem solid_seq_left {a b : Re} (ha : Solid a) : Solid (.seq a b) := by
  intro s h
  obtain ⟨j, hj, hk⟩ := List.mem_flatMap.mp h
  obtain ⟨i, _, e⟩ := List.mem_map.mp hk
  have : j = 0 := by omega
  exact ha s (this ▸ hj)

theorem solid_seq_right {a b : Re} (hb : Solid b) : Solid (.seq a b) := by
  intro s h
  obtain ⟨j, hj, hk⟩ := List.mem_flatMap.mp h
  obtain ⟨i, hi, e⟩ := List.mem_map.mp hk
  have : i = 0 := by omega
  exact hb _ (this ▸ hi)

theorem solid_plus {a : Re} (ha : Solid a) : Solid a.plus := solid_seq_left ha

theorem solid_lit (w : Str) (hw : w ≠ []) : Solid (.lit w) := by
  match w with
  | [] => exact absurd rfl hw
  | [c] => exact solid_chr _
  | c :: d :: w => exact solid_seq_left (solid_chr _)

/-! ### Literal texts, runs -/

theorem first_alt (a b : Re) (s : Str) : (Re.alt a b).first s = (a.first s).or (b.first s) := by
  simp only [Re.first, Re.ends, List.head?_append]

theorem ends_lit (w : Str) : ∀ s, (Re.lit w).ends s = if w.isPrefixOf s then [w.length] else [] := by
  induction w with
  | nil => intro s; simp [Re.lit, Re.ends]
  | cons c w ih =>
    intro s
    cases w with
    | nil =>
      cases s with
      | nil => simp [Re.lit, Re.ends]
      | cons d s =>
        simp only [Re.lit, Re.ends, List.isPrefixOf, Bool.and_true, List.length_cons, List.length_nil]
        by_cases h : c = d
        · subst h; simp
        · have h' : ¬ d = c := fun e => h e.symm
          simp [h, h']
    | cons c' w =>
      cases s with
      | nil => simp [Re.lit, Re.ends]
      | cons d s =>
        simp only [Re.lit, Re.ends, List.isPrefixOf]
        by_cases h : c = d
        · subst h
          simp only [beq_self_eq_true, if_true, List.flatMap_cons, List.flatMap_nil, List.append_nil, List.drop_succ_cons,
            List.drop_zero, Bool.true_and]
          have := ih s
          rw [this]
          by_cases h2 : (c' :: w).isPrefixOf s = true
          · rw [if_pos h2, if_pos (by simpa [List.isPrefixOf] using h2)]
            simp
            omega
          · rw [if_neg h2, if_neg (by simpa [List.isPrefixOf] using h2)]
            rfl
        · have h' : ¬ d = c := fun e => h e.symm
          simp [h, h']

theorem first_lit (w : Str) (cs : Chars) : (Re.lit w).first (cs.map (·.1)) = litLen w cs := by
  rw [Re.first, ends_lit, litLen]
  split <;> rfl

/-- How long a run of characters of a class at the start of a text is. -/
def runOf (f : Char → Bool) (s : Str) : Nat := (s.takeWhile f).length

theorem runLen_eq (f : Char → Bool) (cs : Chars) : runLen f cs = runOf f (cs.map (·.1)) := by
  induction cs with
  | nil => rfl
  | cons c cs ih =>
    rw [runLen, List.map_cons, runOf, List.takeWhile_cons]
    by_cases h : f c.1 = true
    · rw [if_pos h, if_pos h, List.length_cons, ih]; rfl
    · rw [if_neg h, if_neg h]; rfl

theorem star_chr_head (f : Char → Bool) : ∀ fuel s, s.length ≤ fuel →
    (starEnds (Re.chr f).ends fuel s).head? = some (runOf f s) := by
  intro fuel
  induction fuel with
  | zero =>
    intro s hs
    have : s = [] := List.length_eq_zero_iff.mp (by omega)
    subst this
    rfl
  | succ fuel ih =>
    intro s hs
    cases s with
    | nil => simp [starEnds, Re.ends, runOf]
    | cons c s =>
      rw [starEnds]
      by_cases h : f c = true
      · have := ih s (by simpa using hs)
        simp only [Re.ends] at this
        simp only [Re.ends, h, if_true]
        simp only [ne_eq, decide_not, List.filter_cons, Nat.succ_ne_zero, decide_false, Bool.not_false, if_true, List.filter_nil, List.flatMap_cons,
          List.drop_succ_cons, List.drop_zero, List.flatMap_nil, List.append_nil, List.head?_append, List.head?_map, runOf, List.takeWhile_cons, h, List.length_cons]
        rw [this]
        simp [runOf]
        omega
      · simp [Re.ends, h, runOf]

theorem first_plus_chr (f : Char → Bool) (s : Str) :
    (Re.chr f).plus.first s = if runOf f s ≠ 0 then some (runOf f s) else none := by
  cases s with
  | nil => rfl
  | cons c s =>
    simp only [Re.first, Re.plus, Re.ends]
    by_cases h : f c = true
    · simp only [h, if_true, List.flatMap_cons, List.flatMap_nil, List.append_nil, List.head?_map, List.drop_succ_cons, List.drop_zero]
      have := star_chr_head f s.length s (Nat.le_refl _)
      simp only [Re.ends] at this
      rw [this]
      simp [runOf, h]
      omega
    · simp [h, runOf]

/-! ### All matches -/

theorem first_le {re : Re} {s : Str} {k : Nat} (h : re.first s = some k) : k ≤ s.length :=
  ends_le re s k (List.mem_of_head? h)

theorem charsOf_fst (m : Str) : (charsOf m).map (·.1) = m := by
  unfold charsOf
  rw [List.map_map]
  exact List.map_id m

theorem findLoop_gpt2 (isL isN : Char → Bool) (h : ∀ cs, (gpt2Re isL isN).first (cs.map (·.1)) = gpt2Len isL isN cs) :
    ∀ fuel cs pos, findLoop (gpt2Re isL isN) fuel cs pos = gpt2Loop isL isN fuel cs pos := by
  intro fuel
  induction fuel with
  | zero => intro cs pos; rw [findLoop, gpt2Loop]
  | succ fuel ih =>
    intro cs pos
    cases cs with
    | nil => rw [findLoop, gpt2Loop] <;> simp
    | cons c cs =>
      rw [findLoop, gpt2Loop, h (c :: cs)]
      cases gpt2Len isL isN (c :: cs) with
      | none => simp only [ih]
      | some k =>
        cases k with
        | zero => simp only [ih]
        | succ k => simp only [ih]

end Tok.Regex
