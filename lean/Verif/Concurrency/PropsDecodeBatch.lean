import Verif.Concurrency.DecodeBatch
import Verif.Concurrency.PropsEncodeBatch

/-!
# C21: batch decoding
-/

namespace Tok

/-- Running goroutine `i` alone appends its string. -/
theorem dec_run_one (dec : Nat → Str) (s : DecSt) (i : Nat) (h : s.pcs[i]? = some .start) :
    Star (DecStep dec) s ⟨s.pcs.set i .done, s.decodings ++ [dec i]⟩ := by
  have h1 : (s.pcs.set i (.read s.decodings))[i]? = some (.read s.decodings) := by
    rw [getElem?_set_of_some h]; simp
  have := Star.tail (Star.single (DecStep.read (dec := dec) i h)) (DecStep.store i s.decodings h1)
  simpa using this

theorem dec_run_list (dec : Nat → Str) (order : List Nat) : ∀ (s : DecSt), order.Nodup →
    (∀ i ∈ order, s.pcs[i]? = some .start) →
    ∃ t, Star (DecStep dec) s t ∧ t.decodings = s.decodings ++ order.map dec ∧
      t.pcs.length = s.pcs.length ∧
      ∀ i, t.pcs[i]? = if i ∈ order then some .done else s.pcs[i]? := by
  induction order with
  | nil => intro s _ _; exact ⟨s, .refl, by simp, rfl, by simp⟩
  | cons i order ih =>
    intro s hn hs
    have hi := hs i (by simp)
    rw [List.nodup_cons] at hn
    have h1 := dec_run_one dec s i hi
    obtain ⟨t, ht, hd, hl, hp⟩ := ih ⟨s.pcs.set i .done, s.decodings ++ [dec i]⟩ hn.2 (by
      intro j hj
      show (s.pcs.set i .done)[j]? = _
      rw [getElem?_set_of_some hi]
      have : i ≠ j := by intro e; subst e; exact hn.1 hj
      rw [if_neg this]
      exact hs j (by simp [hj]))
    refine ⟨t, h1.trans ht, by simp [hd], by simp [hl], ?_⟩
    intro j
    rw [hp j]
    show (if j ∈ order then _ else (s.pcs.set i .done)[j]?) = _
    rw [getElem?_set_of_some hi]
    by_cases e : i = j
    · subst e; simp [hn.1]
    · by_cases hj : j ∈ order <;> simp [hj, e, Ne.symm e]

/-- C21 is violated for every batch: any order of the results is possible, even
when no two goroutines overlap. -/
theorem C21_any_order_violated (dec : Nat → Str) (n : Nat) (order : List Nat)
    (hp : order.Perm (List.range n)) :
    ∃ s, Star (DecStep dec) (DecSt.init n) s ∧ s.finished ∧ s.decodings = order.map dec := by
  have hn : order.Nodup := hp.nodup_iff.2 List.nodup_range
  obtain ⟨t, ht, hd, hl, hpc⟩ := dec_run_list dec order (DecSt.init n) hn (by
    intro i hi
    have : i < n := by simpa using hp.mem_iff.1 hi
    simp [DecSt.init, this])
  refine ⟨t, ht, ?_, by simpa [DecSt.init] using hd⟩
  intro pc hm
  obtain ⟨i, hi, e⟩ := List.getElem_of_mem hm
  have hin : i < n := by rw [hl] at hi; simpa [DecSt.init] using hi
  have h1 := hpc i
  rw [if_pos (hp.mem_iff.2 (by simpa using hin)), List.getElem?_eq_getElem hi, e] at h1
  exact Option.some.inj h1

/-- C21 is violated for every batch of at least two: results can be lost. All
goroutines read the empty slice before any stores, and one string remains. -/
theorem C21_lost_results_violated (dec : Nat → Str) (n : Nat) (hn : 2 ≤ n) :
    ∃ s, Star (DecStep dec) (DecSt.init n) s ∧ s.finished ∧ s.decodings.length < n := by
  -- all goroutines read first
  have hread : ∀ k, k ≤ n → ∃ s, Star (DecStep dec) (DecSt.init n) s ∧ s.decodings = [] ∧
      s.pcs.length = n ∧
      ∀ i, i < n → s.pcs[i]? = if i < k then some (.read []) else some .start := by
    intro k
    induction k with
    | zero =>
      intro _
      exact ⟨_, .refl, rfl, by simp [DecSt.init], by intro i hi; simp [DecSt.init, hi]⟩
    | succ k ih =>
      intro hk
      obtain ⟨s, hs, hd, hl, hp⟩ := ih (by omega)
      have hpk : s.pcs[k]? = some .start := by rw [hp k (by omega)]; simp
      refine ⟨_, hs.tail (.read k hpk), hd, by simp [hl], ?_⟩
      intro i hi
      simp only [getElem?_set_of_some hpk, hd]
      by_cases e : k = i
      · subst e; simp
      · rw [if_neg e, hp i hi]
        by_cases hik : i < k
        · rw [if_pos hik, if_pos (by omega)]
        · rw [if_neg hik, if_neg (by omega)]
  obtain ⟨s₀, hs₀, hd₀, hl₀, hp₀⟩ := hread n (Nat.le_refl n)
  have hstore : ∀ k, k ≤ n → ∃ s, Star (DecStep dec) (DecSt.init n) s ∧ s.decodings.length ≤ 1 ∧
      s.pcs.length = n ∧
      ∀ i, i < n → s.pcs[i]? = if i < k then some .done else some (.read []) := by
    intro k
    induction k with
    | zero =>
      intro _
      exact ⟨s₀, hs₀, by simp [hd₀], hl₀, by intro i hi; rw [hp₀ i hi]; simp [hi]⟩
    | succ k ih =>
      intro hk
      obtain ⟨s, hs, hd, hl, hp⟩ := ih (by omega)
      have hpk : s.pcs[k]? = some (.read []) := by rw [hp k (by omega)]; simp
      refine ⟨_, hs.tail (.store k [] hpk), by simp, by simp [hl], ?_⟩
      intro i hi
      simp only [getElem?_set_of_some hpk]
      by_cases e : k = i
      · subst e; simp
      · rw [if_neg e, hp i hi]
        by_cases hik : i < k
        · rw [if_pos hik, if_pos (by omega)]
        · rw [if_neg hik, if_neg (by omega)]
  obtain ⟨s, hs, hd, hl, hp⟩ := hstore n (Nat.le_refl n)
  refine ⟨s, hs, ?_, by omega⟩
  intro pc hm
  obtain ⟨i, hi, e⟩ := List.getElem_of_mem hm
  have h1 := hp i (by omega)
  rw [if_pos (by omega), List.getElem?_eq_getElem hi, e] at h1
  exact Option.some.inj h1

/-- What every state satisfies: each list is a list of results of different
goroutines that have finished. -/
structure DecInv (dec : Nat → Str) (n : Nat) (s : DecSt) : Prop where
  len : s.pcs.length = n
  shared : ∃ l : List Nat, l.Nodup ∧ s.decodings = l.map dec ∧ ∀ i ∈ l, s.pcs[i]? = some .done
  snap : ∀ (j : Nat) old, s.pcs[j]? = some (.read old) →
    ∃ l : List Nat, l.Nodup ∧ old = l.map dec ∧ ∀ i ∈ l, s.pcs[i]? = some .done
  nonempty : (∃ i : Nat, s.pcs[i]? = some .done) → s.decodings ≠ []

theorem DecInv.step {dec : Nat → Str} {n : Nat} (s t : DecSt) (h : DecInv dec n s)
    (hs : DecStep dec s t) : DecInv dec n t := by
  cases hs with
  | read i hpc =>
    have hg := fun j => getElem?_set_of_some (a := DecPc.read s.decodings) hpc j
    have hkeep : ∀ j : Nat, s.pcs[j]? = some .done → (s.pcs.set i (.read s.decodings))[j]? = some .done := by
      intro j hj
      rw [hg]
      by_cases e : i = j
      · subst e; rw [hpc] at hj; cases hj
      · rw [if_neg e]; exact hj
    obtain ⟨l, h1, h2, h3⟩ := h.shared
    refine ⟨by simp [h.len], ⟨l, h1, h2, fun j hj => hkeep j (h3 j hj)⟩, ?_, ?_⟩
    · intro j old hj
      simp only [hg] at hj
      split at hj
      · cases hj
        exact ⟨l, h1, h2, fun j hj => hkeep j (h3 j hj)⟩
      · obtain ⟨l', h1', h2', h3'⟩ := h.snap j old hj
        exact ⟨l', h1', h2', fun j hj => hkeep j (h3' j hj)⟩
    · rintro ⟨j, hj⟩
      simp only [hg] at hj
      split at hj
      · cases hj
      · exact h.nonempty ⟨j, hj⟩
  | store i old hpc =>
    have hg := fun j => getElem?_set_of_some (a := DecPc.done) hpc j
    have hkeep : ∀ j : Nat, s.pcs[j]? = some .done → (s.pcs.set i .done)[j]? = some .done := by
      intro j hj
      rw [hg]
      split
      · rfl
      · exact hj
    obtain ⟨l, h1, h2, h3⟩ := h.snap i old hpc
    have hi : i ∉ l := by
      intro hm
      rw [h3 i hm] at hpc; cases hpc
    refine ⟨by simp [h.len], ⟨l ++ [i], ?_, by simp [h2], ?_⟩, ?_, by simp⟩
    · rw [List.nodup_append]
      refine ⟨h1, by simp, ?_⟩
      intro a ha b hb e
      simp only [List.mem_singleton] at hb
      subst hb; subst e; exact hi ha
    · intro j hj
      rcases List.mem_append.1 hj with hj | hj
      · exact hkeep j (h3 j hj)
      · simp only [List.mem_singleton] at hj; subst hj
        show (s.pcs.set j .done)[j]? = _
        rw [hg]; simp
    · intro j old' hj
      simp only [hg] at hj
      split at hj
      · cases hj
      · obtain ⟨l', h1', h2', h3'⟩ := h.snap j old' hj
        exact ⟨l', h1', h2', fun j hj => hkeep j (h3' j hj)⟩

/-- C21, the part that holds under every schedule: the result lists decoded
sentences of the batch, none of them twice, and at least one when the batch is
not empty; for at most one sentence it is right.
Missing from the full property: order and completeness (both fail, see above). -/
theorem C21_decode_batch_partial (dec : Nat → Str) (n : Nat) (s : DecSt)
    (h : Star (DecStep dec) (DecSt.init n) s) (hfin : s.finished) :
    (∃ l : List Nat, l.Nodup ∧ (∀ i ∈ l, i < n) ∧ s.decodings = l.map dec) ∧
    (0 < n → s.decodings ≠ []) ∧
    (n ≤ 1 → s.decodings = (List.range n).map dec) := by
  have hI : DecInv dec n s := h.invariant (fun s t => DecInv.step s t) (by
    have hpc : ∀ (i : Nat) (pc : DecPc), (DecSt.init n).pcs[i]? = some pc → pc = DecPc.start := by
      intro i pc h
      simp only [DecSt.init, List.getElem?_replicate] at h
      split at h
      · exact (Option.some.inj h).symm
      · cases h
    refine ⟨by simp [DecSt.init], ⟨[], by simp, rfl, by simp⟩, ?_, ?_⟩
    · intro j old hj; cases hpc _ _ hj
    · rintro ⟨j, hj⟩; cases hpc _ _ hj)
  obtain ⟨l, h1, h2, h3⟩ := hI.shared
  have hlt : ∀ i ∈ l, i < n := by
    intro i hi
    have := (List.getElem?_eq_some_iff.1 (h3 i hi)).1
    rw [hI.len] at this; exact this
  have hne : 0 < n → s.decodings ≠ [] := by
    intro hn
    apply hI.nonempty
    have hl : 0 < s.pcs.length := by rw [hI.len]; exact hn
    refine ⟨0, ?_⟩
    rw [List.getElem?_eq_getElem hl]
    exact congrArg some (hfin _ (List.getElem_mem hl))
  refine ⟨⟨l, h1, hlt, h2⟩, hne, ?_⟩
  intro hn
  match n, hn with
  | 0, _ =>
    have : l = [] := List.eq_nil_iff_forall_not_mem.2 (fun i hi => by have := hlt i hi; omega)
    rw [h2, this]; rfl
  | 1, _ =>
    have hall : ∀ i ∈ l, i = 0 := fun i hi => by have := hlt i hi; omega
    cases l with
    | nil => exact absurd h2 (hne (by omega))
    | cons a l =>
      have ha := hall a (by simp)
      subst ha
      cases l with
      | nil => rw [h2]; rfl
      | cons b l =>
        have hb := hall b (by simp)
        subst hb
        simp at h1

end Tok
