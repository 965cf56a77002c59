import Verif.PreTok.ByteLevelPieces

/-!
# The regular expression of the byte-level pre-tokenizer
-/

namespace Tok.PreTok

open Tok.Norm

/-- The characters of a text with their lengths. -/
def charsOf (m : Str) : Chars := m.map (fun c => (c, c.utf8Size))

theorem charsOf_enc (s : Str) : (explode (encStr s)).map (fun p => (runeOf p.1, p.2.length)) = charsOf s := by
  rw [explode_encStr, List.map_map]
  unfold charsOf
  apply List.map_congr_left
  intro c _
  simp [runeOf]

theorem width_chars (m : Str) : width (charsOf m) = blen m := by
  induction m with
  | nil => rfl
  | cons c m ih =>
    simp only [charsOf, width, List.map_cons, List.sum_cons, blen_cons] at ih ⊢
    rw [ih]

theorem gpt2Loop_proper (isL isN : Char → Bool) (s : Str) (fuel : Nat) : ∀ (u m : Str), s = u ++ m → ∀ a, a ≤ blen u →
    LegalMatches (blen s) a (gpt2Loop isL isN fuel (charsOf m) (blen u)) ∧
    ∀ p ∈ gpt2Loop isL isN fuel (charsOf m) (blen u), blen u ≤ p.1 ∧ p.1 < p.2 ∧ Boundary s p.1 ∧ Boundary s p.2 := by
  induction fuel with
  | zero => intro u m _ a _; simp [gpt2Loop, LegalMatches]
  | succ fuel ih =>
    intro u m hs a ha
    cases m with
    | nil => simp [charsOf, gpt2Loop, LegalMatches]
    | cons c m =>
      have hc := c.utf8Size_pos
      have hcons : charsOf (c :: m) = (c, c.utf8Size) :: charsOf m := rfl
      have hdrop : ∀ k, (charsOf (c :: m)).drop k = charsOf ((c :: m).drop k) := by
        intro k; simp only [charsOf, List.map_drop]
      have htake : ∀ k, width ((charsOf (c :: m)).take k) = blen ((c :: m).take k) := by
        intro k; rw [← width_chars]; simp only [charsOf, List.map_take]
      rw [hcons, gpt2Loop, ← hcons]
      split
      · rename_i k hk
        rw [htake, hdrop]
        have hsplit : s = (u ++ (c :: m).take (k + 1)) ++ (c :: m).drop (k + 1) := by
          rw [List.append_assoc, List.take_append_drop, hs]
        have hb : blen (u ++ (c :: m).take (k + 1)) = blen u + blen ((c :: m).take (k + 1)) := blen_append _ _
        obtain ⟨i1, i2⟩ := ih _ _ hsplit (blen u + blen ((c :: m).take (k + 1))) (by omega)
        have hpos : 0 < blen ((c :: m).take (k + 1)) := by
          rw [List.take_succ_cons, blen_cons]; omega
        have hle : blen u + blen ((c :: m).take (k + 1)) ≤ blen s := by
          rw [hsplit, blen_append, hb]; omega
        rw [hb] at i1 i2
        refine ⟨⟨ha, by dsimp only; omega, hle, i1⟩, ?_⟩
        intro p hp
        rcases List.mem_cons.mp hp with rfl | hp
        · exact ⟨Nat.le_refl _, by dsimp only; omega, ⟨u, _, hs, rfl⟩, ⟨_, _, hsplit, hb.symm⟩⟩
        · obtain ⟨j1, j2⟩ := i2 p hp
          exact ⟨by omega, j2⟩
      · have hsplit : s = (u ++ [c]) ++ m := by rw [hs]; simp
        have hb : blen (u ++ [c]) = blen u + c.utf8Size := by simp [blen_append]
        obtain ⟨i1, i2⟩ := ih _ _ hsplit a (by omega)
        rw [hb] at i1 i2
        refine ⟨i1, ?_⟩
        intro p hp
        obtain ⟨j1, j2⟩ := i2 p hp
        exact ⟨by omega, j2⟩

/-- The matches of the expression are never empty, in order, and whole characters. -/
theorem gpt2_proper (isL isN : Char → Bool) : ProperEngine (gpt2Engine isL isN) := by
  intro m _
  unfold gpt2Engine
  rw [charsOf_enc]
  obtain ⟨h1, h2⟩ := gpt2Loop_proper isL isN m (charsOf m).length [] m rfl 0 (Nat.zero_le _)
  exact ⟨h1, fun p hp => (h2 p hp).2⟩

/-- The expression never cuts between a space at the start and the character behind it. -/
theorem gpt2_keeps (isL isN : Char → Bool) (hL : isL ' ' = false) (hN : isN ' ' = false) {s : Str} (hs : s ≠ [])
    (h : s.head? ≠ some ' ') : KeepsSpace (gpt2Engine isL isN) s := by
  intro p hp
  cases s with
  | nil => exact absurd rfl hs
  | cons c t =>
    have hc : c ≠ ' ' := by simpa using h
    have hcp := c.utf8Size_pos
    unfold gpt2Engine at hp
    rw [charsOf_enc] at hp
    dsimp only at hp
    have hcons : charsOf (' ' :: c :: t) = (' ', 1) :: (c, c.utf8Size) :: charsOf t := rfl
    have hlen : (charsOf (' ' :: c :: t)).length = (charsOf t).length + 2 := rfl
    have hlit : ∀ w : Str, litLen ('\'' :: w) (charsOf (' ' :: c :: t)) = none := by
      intro w; simp [litLen, hcons]
    have hrun : ∀ f : Char → Bool, f ' ' = false → runLen f (charsOf (' ' :: c :: t)) = 0 := by
      intro f hf; simp [hcons, runLen, hf]
    have hsr : ∀ f : Char → Bool, f ' ' = false →
        spacedRun f (charsOf (' ' :: c :: t)) = none ∧ f c = false ∨
        ∃ k, spacedRun f (charsOf (' ' :: c :: t)) = some (k + 2) := by
      intro f hf
      unfold spacedRun
      rw [hrun f hf]
      by_cases hfc : f c = true
      · right
        refine ⟨runLen f (charsOf t), ?_⟩
        simp [hcons, runLen, hfc]
      · left
        simp [hcons, runLen, hfc]
    -- at the start there is no match, or one with the character
    have hcase : (gpt2Len isL isN (charsOf (' ' :: c :: t)) = none ∧
          (c = '\t' ∨ c = '\n' ∨ c = '\x0c' ∨ c = '\r') ∧ isL c = false ∧ isN c = false) ∨
        ∃ k, gpt2Len isL isN (charsOf (' ' :: c :: t)) = some (k + 2) := by
      unfold gpt2Len
      simp only [hlit, Option.none_or]
      rcases hsr isL hL with ⟨h1, h1'⟩ | ⟨k, h1⟩
      · rw [h1, Option.none_or]
        rcases hsr isN hN with ⟨h2, h2'⟩ | ⟨k, h2⟩
        · rw [h2, Option.none_or]
          rcases hsr (fun c => !(c = '\t' ∨ c = '\n' ∨ c = '\x0c' ∨ c = '\r' ∨ c = ' ') && !isL c && !isN c)
            (by simp) with ⟨h3, h3'⟩ | ⟨k, h3⟩
          · left
            refine ⟨h3, ?_, h1', h2'⟩
            simp only [h1', h2', Bool.not_false, Bool.and_true, Bool.not_eq_false', decide_eq_true_eq] at h3'
            rcases h3' with h | h | h | h | h
            · exact .inl h
            · exact .inr (.inl h)
            · exact .inr (.inr (.inl h))
            · exact .inr (.inr (.inr h))
            · exact absurd h hc
          · exact .inr ⟨k, h3⟩
        · rw [h2, Option.some_or]; exact .inr ⟨k, rfl⟩
      · rw [h1, Option.some_or]; exact .inr ⟨k, rfl⟩
    have hsplit1 : ' ' :: c :: t = [' '] ++ (c :: t) := rfl
    rcases hcase with ⟨h1, h2, h3, h4⟩ | ⟨k, h1⟩
    · -- no match with the space; the character is white space and starts no match either
      have hnone : gpt2Len isL isN (charsOf (c :: t)) = none := by
        have hq : c ≠ '\'' := by
          rcases h2 with rfl | rfl | rfl | rfl <;> decide
        have hlit' : ∀ w : Str, litLen ('\'' :: w) (charsOf (c :: t)) = none := by
          intro w; simp [litLen, charsOf, Ne.symm hq]
        have hsr' : ∀ f : Char → Bool, f c = false → spacedRun f (charsOf (c :: t)) = none := by
          intro f hf
          simp [spacedRun, charsOf, runLen, hf, hc]
        unfold gpt2Len
        simp only [hlit', Option.none_or]
        rw [hsr' isL h3, hsr' isN h4, Option.none_or, Option.none_or]
        apply hsr'
        rcases h2 with rfl | rfl | rfl | rfl <;> simp
      have e1 : gpt2Loop isL isN ((charsOf t).length + 2) (charsOf (' ' :: c :: t)) 0 =
          gpt2Loop isL isN ((charsOf t).length + 1) (charsOf (c :: t)) 1 := by
        conv => lhs; rw [hcons, gpt2Loop, ← hcons, h1]
        rfl
      have e2 : gpt2Loop isL isN ((charsOf t).length + 1) (charsOf (c :: t)) 1 =
          gpt2Loop isL isN (charsOf t).length (charsOf t) (blen [' ', c]) := by
        have hcons2 : charsOf (c :: t) = (c, c.utf8Size) :: charsOf t := rfl
        conv => lhs; rw [hcons2, gpt2Loop, ← hcons2, hnone]
        simp [show (' ').utf8Size = 1 from rfl]
      rw [hlen, e1, e2] at hp
      obtain ⟨-, j2⟩ := gpt2Loop_proper isL isN (' ' :: c :: t) (charsOf t).length [' ', c] t rfl 0 (Nat.zero_le _)
      obtain ⟨g1, g2, -⟩ := j2 p hp
      simp only [blen_cons, blen_nil] at g1
      have : (' ').utf8Size = 1 := rfl
      omega
    · have e1 : gpt2Loop isL isN ((charsOf t).length + 2) (charsOf (' ' :: c :: t)) 0 =
          (0, blen (' ' :: c :: t.take k)) ::
          gpt2Loop isL isN ((charsOf t).length + 1) (charsOf (t.drop k)) (blen (' ' :: c :: t.take k)) := by
        conv => lhs; rw [hcons, gpt2Loop, ← hcons, h1]
        have hw : width ((charsOf (' ' :: c :: t)).take (k + 1 + 1)) = blen (' ' :: c :: t.take k) := by
          rw [← width_chars]; simp [charsOf, List.map_take]
        have hd : (charsOf (' ' :: c :: t)).drop (k + 1 + 1) = charsOf (t.drop k) := by
          simp [charsOf, List.map_drop]
        simp only [hw, hd, Nat.zero_add]
      rw [hlen, e1] at hp
      have hb : 2 ≤ blen (' ' :: c :: t.take k) := by
        have : (' ').utf8Size = 1 := rfl
        simp only [blen_cons]; omega
      rcases List.mem_cons.mp hp with rfl | hp
      · exact ⟨by simp, by dsimp only; omega⟩
      · obtain ⟨-, j2⟩ := gpt2Loop_proper isL isN (' ' :: c :: t) ((charsOf t).length + 1) (' ' :: c :: t.take k) (t.drop k)
          (by simp) 0 (Nat.zero_le _)
        obtain ⟨g1, g2, -⟩ := j2 p hp
        omega

end Tok.PreTok
