import Verif.Norm.PropsPattern

/-! Regular expressions that match single characters of a class. -/

namespace Tok.Norm

/-- The matches of a regular expression for one character of a class, as `FindAllStringIndex` gives
them; `\s` is one (RE2: tab, newline, form feed, carriage return, space), a literal character
another. -/
def classLoop (f : Char → Bool) : List (Option Char × List UInt8) → Nat → List (Nat × Nat)
  | [], _ => []
  | (o, bs) :: rest, i =>
    if f (runeOf o) then (i, i + bs.length) :: classLoop f rest (i + bs.length) else classLoop f rest (i + bs.length)

/-- The answer of the engine for a character class. -/
def classEngine (f : Char → Bool) (s : List UInt8) : List (Nat × Nat) := classLoop f (explode s) 0

/-- The same for characters. -/
def charLoop (f : Char → Bool) : Str → Nat → List (Nat × Nat)
  | [], _ => []
  | c :: s, i => if f c then (i, i + c.utf8Size) :: charLoop f s (i + c.utf8Size) else charLoop f s (i + c.utf8Size)

theorem classEngine_enc (f : Char → Bool) (s : Str) : classEngine f (encStr s) = charLoop f s 0 := by
  unfold classEngine
  rw [explode_encStr]
  generalize 0 = i
  induction s generalizing i with
  | nil => rfl
  | cons c s ih =>
    rw [List.map_cons, classLoop, charLoop]
    simp only [runeOf, Option.getD_some, String.length_utf8EncodeChar, ih]

theorem charLoop_run (f : Char → Bool) (r s : Str) (h : ∀ c ∈ r, f c = false) (i : Nat) :
    charLoop f (r ++ s) i = charLoop f s (i + blen r) := by
  induction r generalizing i with
  | nil => rfl
  | cons c r ih =>
    rw [List.cons_append, charLoop, h c List.mem_cons_self, ih (fun d hd => h d (List.mem_cons_of_mem _ hd))]
    simp [Nat.add_assoc]

theorem fnCut_head {f : Char → Bool} {s : Str} {ps : List (Str × Bool)} (h : FnCut f s ps)
    (hh : ∀ c ∈ s.head?, f c = true) : s = [] ∨ ∃ c s', s = c :: s' ∧ f c = true := by
  cases s with
  | nil => exact .inl rfl
  | cons c s => exact .inr ⟨c, s, rfl, hh c (by simp)⟩

/-- After a match that ends where the text begins, the spans of the rest follow. -/
theorem reLoop_class (f : Char → Bool) (len : Nat) {s : Str} {ps : List (Str × Bool)} (h : FnCut f s ps) :
    ∀ (a : Nat) (m : Nat × Nat), a + blen s = len → m.1 ≤ m.2 → m.2 = a →
      reLoop len (m :: charLoop f s a) m.1 = ⟨m.1, m.2, true⟩ :: spansAt a ps := by
  induction h with
  | nil =>
    intro a m ha h1 h2
    simp only [blen_nil, Nat.add_zero] at ha
    rw [charLoop, reLoop, reLoop, if_neg (by omega)]
    rfl
  | hit c s ps hc _ ih =>
    intro a m ha h1 h2
    rw [blen_cons] at ha
    rw [charLoop, if_pos hc, reLoop, if_neg (by simp [h2])]
    rw [show m.1 + (m.2 - m.1) = (a, a + c.utf8Size).1 by dsimp only; omega, ih _ _ (by omega) (by dsimp only; omega) rfl]
    simp [spansAt]
  | run r s ps hne hr hs hcut ih =>
    intro a m ha h1 h2
    rw [blen_append] at ha
    have hrpos : 0 < blen r := Nat.pos_of_ne_zero (fun h => hne (blen_eq_zero.mp h))
    rw [charLoop_run f r s hr, spansAt]
    rcases fnCut_head hcut hs with rfl | ⟨c, s', rfl, hc⟩
    · have : ps = [] := fnCut_nil hcut rfl
      subst this
      simp only [blen_nil, Nat.add_zero] at ha
      rw [charLoop, reLoop, reLoop, if_pos (by omega)]
      simp only [spansAt]
      congr 2
      congr 1 <;> omega
    · have hih := ih (a + blen r) (a + blen r, a + blen r) (by omega) (Nat.le_refl _) rfl
      rw [charLoop, if_pos hc] at hih ⊢
      rw [reLoop, if_neg (by simp)] at hih
      injection hih with _ hih
      rw [reLoop, if_pos (by dsimp only; omega)]
      rw [show m.1 + (m.2 - m.1) + ((a + blen r, a + blen r + c.utf8Size).1 - m.2) = a + blen r by dsimp only; omega]
      dsimp only at hih ⊢
      rw [show a + blen r + (a + blen r - (a + blen r)) = a + blen r by omega] at hih
      rw [hih, h2]

/-- A regular expression for a character class finds the spans that the function pattern for the
class finds. -/
theorem reFind_class (f : Char → Bool) (s : Str) (hs : s ≠ []) {ps : List (Str × Bool)} (h : FnCut f s ps) :
    Pat.find (.regexp (classEngine f)) (encStr s) = .ok (spansAt 0 ps) := by
  have hl : (encStr s).length ≠ 0 := by rw [length_encStr]; exact fun h => hs (blen_eq_zero.mp h)
  rw [Pat.find, if_neg hl, classEngine_enc, length_encStr]
  congr 1
  cases h with
  | nil => exact absurd rfl hs
  | hit c s ps hc hcut =>
    rw [charLoop, if_pos hc, reFind, if_neg (by simp)]
    have := reLoop_class f (blen (c :: s)) hcut (0 + c.utf8Size) (0, 0 + c.utf8Size) (by simp) (by simp) rfl
    rw [this]
    simp [spansAt]
  | run r s ps hne hr hh hcut =>
    have hrpos : 0 < blen r := Nat.pos_of_ne_zero (fun h => hne (blen_eq_zero.mp h))
    rw [charLoop_run f r s hr, spansAt]
    rcases fnCut_head hcut hh with rfl | ⟨c, s', rfl, hc⟩
    · have : ps = [] := fnCut_nil hcut rfl
      subst this
      simp [charLoop, reFind, spansAt]
    · rw [charLoop, if_pos hc, reFind, if_pos (by dsimp only; omega)]
      have hih := reLoop_class f (blen (r ++ c :: s')) hcut (0 + blen r) (0 + blen r, 0 + blen r) (by rw [blen_append]; omega)
        (Nat.le_refl _) rfl
      rw [charLoop, if_pos hc, reLoop, if_neg (by simp)] at hih
      injection hih with _ hih
      dsimp only at hih ⊢
      rw [show 0 + blen r + (0 + blen r - (0 + blen r)) = 0 + blen r by omega] at hih
      rw [hih]

end Tok.Norm
