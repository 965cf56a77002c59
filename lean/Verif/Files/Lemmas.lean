import Verif.Files.Model

namespace Tok.Files

theorem rawLines_line (l rest : Str) (acc : Str) (h : '\n' ∉ l) :
    rawLines (l ++ '\n' :: rest) acc = (acc ++ l) :: rawLines rest [] := by
  induction l generalizing acc with
  | nil => simp [rawLines]
  | cons c l ih =>
    have hc : c ≠ '\n' := fun e => h (by simp [e])
    rw [List.cons_append, rawLines, if_neg hc, ih _ (fun hm => h (List.mem_cons_of_mem _ hm))]
    simp

theorem rawLines_write (ls : List Str) (h : ∀ l ∈ ls, '\n' ∉ l) : rawLines (writeLines ls) [] = ls := by
  induction ls with
  | nil => rfl
  | cons l ls ih =>
    have : writeLines (l :: ls) = l ++ '\n' :: writeLines ls := by simp [writeLines]
    rw [this, rawLines_line _ _ _ (h l List.mem_cons_self), ih (fun x hx => h x (List.mem_cons_of_mem _ hx))]
    rfl

/-- A text that survives as a line. -/
def LineOk (l : Str) : Prop := '\n' ∉ l ∧ l.getLast? ≠ some '\r' ∧ blen l < 65536

theorem scan_write (ls : List Str) (h : ∀ l ∈ ls, LineOk l) : scan (writeLines ls) = some ls := by
  unfold scan
  rw [rawLines_write ls (fun l hl => (h l hl).1), if_pos]
  · congr 1
    conv => rhs; rw [← List.map_id ls]
    apply List.map_congr_left
    intro l hl
    unfold dropCR
    rw [if_neg (h l hl).2.1]; rfl
  · rw [List.all_eq_true]
    intro l hl
    simpa using (h l hl).2.2

theorem mget_readLoop (ls : List Str) (hn : ls.Nodup) :
    ∀ (i : Nat) (m : Vocab) (k : Str), mget (readLoop ls i m) k =
      match ls.idxOf? k with
      | some j => some ((i + j : Nat) : Int)
      | none => mget m k := by
  induction ls with
  | nil => intro i m k; rfl
  | cons l ls ih =>
    intro i m k
    rw [readLoop, ih (List.nodup_cons.mp hn).2, List.idxOf?_cons]
    have hnot := (List.nodup_cons.mp hn).1
    by_cases hk : l = k
    · subst hk
      have : ls.idxOf? l = none := by rw [List.idxOf?_eq_none_iff]; exact hnot
      rw [this]
      simp
    · rw [if_neg (by simpa using hk)]
      cases hj : ls.idxOf? k with
      | none => simp [mget_mset_ne _ _ _ _ (fun e => hk e.symm)]
      | some j => simp; omega

theorem splitSpace_two (p q : Str) (acc : Str) (hp : ' ' ∉ p) (hq : ' ' ∉ q) :
    splitSpace (p ++ ' ' :: q) acc = [acc ++ p, q] := by
  have hone : ∀ (q acc : Str), ' ' ∉ q → splitSpace q acc = [acc ++ q] := by
    intro q
    induction q with
    | nil => intro acc _; simp [splitSpace]
    | cons c q ih =>
      intro acc h
      have hc : c ≠ ' ' := fun e => h (by simp [e])
      rw [splitSpace, if_neg hc, ih _ (fun hm => h (List.mem_cons_of_mem _ hm))]
      simp
  induction p generalizing acc with
  | nil => simp [splitSpace, hone q [] hq]
  | cons c p ih =>
    have hc : c ≠ ' ' := fun e => hp (by simp [e])
    rw [List.cons_append, splitSpace, if_neg hc, ih _ (fun hm => hp (List.mem_cons_of_mem _ hm))]
    simp

theorem splitSpace_ne_nil (s acc : Str) : splitSpace s acc ≠ [] := by
  induction s generalizing acc with
  | nil => simp [splitSpace]
  | cons c s ih => rw [splitSpace]; split <;> simp [ih]

theorem splitSpace_length (s acc : Str) : (splitSpace s acc).length = s.count ' ' + 1 := by
  induction s generalizing acc with
  | nil => simp [splitSpace]
  | cons c s ih =>
    rw [splitSpace]
    by_cases hc : c = ' '
    · rw [if_pos hc, List.length_cons, ih, hc]; simp
    · rw [if_neg hc, ih, List.count_cons_of_ne hc]

/-- Two parts are what stands before and behind the only space. -/
theorem splitSpace_eq_two {s p q : Str} (h : splitSpace s [] = [p, q]) :
    s = p ++ ' ' :: q ∧ ' ' ∉ p ∧ ' ' ∉ q := by
  have hone : ∀ (s acc q : Str), splitSpace s acc = [q] → q = acc ++ s ∧ ' ' ∉ s := by
    intro s
    induction s with
    | nil => intro acc q h; simp [splitSpace] at h; simp [h]
    | cons c s ih =>
      intro acc q h
      rw [splitSpace] at h
      by_cases hc : c = ' '
      · rw [if_pos hc] at h
        injection h with _ h2
        exact absurd h2 (splitSpace_ne_nil _ _)
      · rw [if_neg hc] at h
        obtain ⟨e1, e2⟩ := ih _ _ h
        refine ⟨by rw [e1]; simp, ?_⟩
        intro hm
        rcases List.mem_cons.mp hm with e | hm
        · exact hc e.symm
        · exact e2 hm
  have main : ∀ (s acc p q : Str), splitSpace s acc = [p, q] →
      ∃ p', p = acc ++ p' ∧ s = p' ++ ' ' :: q ∧ ' ' ∉ p' ∧ ' ' ∉ q := by
    intro s
    induction s with
    | nil => intro acc p q h; simp [splitSpace] at h
    | cons c s ih =>
      intro acc p q h
      rw [splitSpace] at h
      by_cases hc : c = ' '
      · rw [if_pos hc] at h
        injection h with h1 h2
        obtain ⟨e1, e2⟩ := hone _ _ _ h2
        simp only [List.nil_append] at e1
        exact ⟨[], by simp [h1], by simp [hc, e1], by simp, by rw [e1]; exact e2⟩
      · rw [if_neg hc] at h
        obtain ⟨p', e1, e2, e3, e4⟩ := ih _ _ _ h
        refine ⟨c :: p', by simp [e1], by simp [e2], ?_, e4⟩
        intro hm
        rcases List.mem_cons.mp hm with e | hm
        · exact hc e.symm
        · exact e3 hm
  obtain ⟨p', e1, e2, e3, e4⟩ := main s [] p q h
  simp only [List.nil_append] at e1
  subst e1
  exact ⟨e2, e3, e4⟩

end Tok.Files
