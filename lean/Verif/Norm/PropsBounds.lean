import Verif.Norm.PropsSplit

/-! C44: ranges that do not lie on characters. -/

namespace Tok.Norm

theorem cont_byte (x : Nat) : runeStart (UInt8.ofNat (x % 64 + 128)) = false := by
  have key : ∀ k : Fin 64, runeStart (UInt8.ofNat (k.val + 128)) = false := by decide +kernel
  exact key ⟨x % 64, Nat.mod_lt _ (by decide)⟩

theorem enc_cont (c : Char) (i : Nat) (h0 : 0 < i) (b : UInt8) (h : (String.utf8EncodeChar c)[i]? = some b) :
    runeStart b = false := by
  unfold String.utf8EncodeChar at h
  dsimp only at h
  obtain ⟨j, rfl⟩ : ∃ j, i = j + 1 := ⟨i - 1, by omega⟩
  split at h
  · simp at h
  · split at h
    · match j, h with
      | 0, h => simp only [List.getElem?_cons_succ, List.getElem?_cons_zero, Option.some.injEq] at h; rw [← h]; exact cont_byte _
      | j + 1, h => simp at h
    · split at h
      · match j, h with
        | 0, h => simp only [List.getElem?_cons_succ, List.getElem?_cons_zero, Option.some.injEq] at h; rw [← h]; exact cont_byte _
        | 1, h => simp only [List.getElem?_cons_succ, List.getElem?_cons_zero, Option.some.injEq] at h; rw [← h]; exact cont_byte _
        | j + 2, h => simp at h
      · match j, h with
        | 0, h => simp only [List.getElem?_cons_succ, List.getElem?_cons_zero, Option.some.injEq] at h; rw [← h]; exact cont_byte _
        | 1, h => simp only [List.getElem?_cons_succ, List.getElem?_cons_zero, Option.some.injEq] at h; rw [← h]; exact cont_byte _
        | 2, h => simp only [List.getElem?_cons_succ, List.getElem?_cons_zero, Option.some.injEq] at h; rw [← h]; exact cont_byte _
        | j + 3, h => simp at h

theorem inside_cont (s : Str) : ∀ (i : Nat), i < blen s → ¬ Boundary s i → ∃ b, (encStr s)[i]? = some b ∧ runeStart b = false := by
  induction s with
  | nil => intro i hi; simp at hi
  | cons c s ih =>
    intro i hi hb
    rw [encStr_cons]
    have hlen := String.length_utf8EncodeChar c
    by_cases hc : i < c.utf8Size
    · have h0 : 0 < i := by
        rcases Nat.eq_zero_or_pos i with rfl | h
        · exact absurd ⟨[], c :: s, rfl, rfl⟩ hb
        · exact h
      have hi' : i < (String.utf8EncodeChar c).length := by omega
      refine ⟨_, by rw [List.getElem?_append_left hi', List.getElem?_eq_getElem hi'], ?_⟩
      exact enc_cont c i h0 _ (List.getElem?_eq_getElem hi')
    · rw [List.getElem?_append_right (by omega), hlen]
      rw [blen_cons] at hi
      refine ih _ (by omega) ?_
      rintro ⟨u, v, rfl, hu⟩
      exact hb ⟨c :: u, v, rfl, by rw [blen_cons]; omega⟩

theorem boundOk_inside {s : Str} {i : Nat} (hi : i < blen s) (hb : ¬ Boundary s i) (skip : Int) (hs : (i : Int) ≠ skip) :
    boundOk (encStr s) i skip = .ok false := by
  obtain ⟨b, h1, h2⟩ := inside_cont s i hi hb
  have hlt : i < (encStr s).length := by rw [length_encStr]; exact hi
  have : idx (encStr s) (i : Int) = .ok b := by
    rw [idx_ok hlt]
    rw [List.getElem?_eq_getElem hlt] at h1
    exact congrArg _ (Option.some.inj h1)
  unfold boundOk
  rw [if_neg hs, this]
  simp [h2]

/-- C44 (Slice): a range of the normalized or of the original text that cuts a character in two gives nil. -/
theorem C44_slice_inside (n : NStr) (on : IndexOn) (s : Str)
    (hs : (match on with | .original => n.original | .normalized => n.normalized) = encStr s) (a b : Nat)
    (ha : a ≤ blen s) (hb : b ≤ blen s) (h : ¬ Boundary s a ∨ (a < blen s ∧ ¬ Boundary s b)) :
    n.slice ⟨a, b, on⟩ = .ok none := by
  have hlen : (encStr s).length = blen s := length_encStr s
  have hend : Boundary s (blen s) := ⟨s, [], by simp, rfl⟩
  have hzero : Boundary s 0 := ⟨[], s, rfl, rfl⟩
  have hv : n.validate ⟨a, b, on⟩ = .ok none := by
    have e : n.validate ⟨a, b, on⟩ = (let r := (⟨a, b, on⟩ : Rng).full (encStr s).length
        if r.start < 0 ∨ r.stop < 0 ∨ r.start > (encStr s).length ∨ r.stop > (encStr s).length then .ok none
        else if r.start = 0 ∧ r.stop = 0 then .ok (some r)
        else (boundOk (encStr s) r.start 0).bind (fun ok1 => if ok1 = false then .ok none
          else (boundOk (encStr s) r.stop (encStr s).length).bind (fun ok2 => if ok2 = false then .ok none else .ok (some r)))) := by
      rw [← hs]; cases on <;> rfl
    rw [e]
    simp only [hlen, full_eq on hb]
    rw [if_neg (by omega)]
    have hne : ¬ ((a : Int) = 0 ∧ (b : Int) = 0) := by
      rintro ⟨h1, h2⟩
      have h1 : a = 0 := by omega
      have h2 : b = 0 := by omega
      subst h1; subst h2
      rcases h with h | h
      · exact h hzero
      · exact h.2 hzero
    rw [if_neg hne]
    by_cases hba : Boundary s a
    · rcases h with h | ⟨hlt, h⟩
      · exact absurd hba h
      · have h1 : boundOk (encStr s) a 0 = .ok true := by
          unfold boundOk
          by_cases h0 : (a : Int) = 0
          · rw [if_pos h0]
          · obtain ⟨x, e1, e2⟩ := boundary_runeStart hba hlt
            rw [if_neg h0, e1]
            simp [e2]
        have hbl : b < blen s := by
          rcases Nat.lt_or_ge b (blen s) with h' | h'
          · exact h'
          · have : b = blen s := by omega
            rw [this] at h
            exact absurd hend h
        rw [h1]
        simp only [Res.bind, Bool.true_eq_false, if_false]
        rw [boundOk_inside hbl h _ (by omega)]
        rfl
    · have hal : a < blen s := by
        rcases Nat.lt_or_ge a (blen s) with h' | h'
        · exact h'
        · have : a = blen s := by omega
          rw [this] at hba
          exact absurd hend hba
      have ha0 : (a : Int) ≠ 0 := by
        intro h0
        have : a = 0 := by omega
        subst this
        exact hba hzero
      rw [boundOk_inside hal hba _ ha0]
      rfl
  unfold NStr.slice
  rw [hv]
  rfl

example : ¬ Boundary ['a', 'é'] 2 := by
  have e1 : ('a' : Char).utf8Size = 1 := by decide
  have e2 : ('é' : Char).utf8Size = 2 := by decide
  rintro ⟨u, v, h, hb⟩
  match u, h, hb with
  | [], _, hb => simp at hb
  | [a], h, hb =>
    simp only [List.cons_append, List.cons.injEq] at h
    obtain ⟨rfl, _⟩ := h
    simp only [blen_cons, blen_nil] at hb
    omega
  | a :: b :: u, h, hb =>
    simp only [List.cons_append, List.cons.injEq] at h
    obtain ⟨rfl, rfl, _⟩ := h
    simp only [blen_cons] at hb
    omega

end Tok.Norm
