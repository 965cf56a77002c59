import Verif.Norm.Fresh

/-! The change lists built by `Filter`, `Prepend`, `Append` and `lrstrip`. -/

namespace Tok.Norm

theorem usesAll_append (a b : List (Str × Int)) : usesAll (a ++ b) = usesAll a + usesAll b := by
  simp [usesAll]

theorem filterLoop_spec (fn : Char → Bool) : ∀ (pre : List Char) (removed : Nat) (acc : List (Str × Int)),
    (((filterLoop fn pre.reverse removed acc).1.map (·.1)).flatten =
      pre.filter fn ++ (acc.map (·.1)).flatten) ∧
    usesAll (filterLoop fn pre.reverse removed acc).1 + (filterLoop fn pre.reverse removed acc).2 =
      pre.length + removed + usesAll acc ∧
    (filterLoop fn pre.reverse removed acc).2 =
      (pre.takeWhile (fun c => !fn c)).length + (if pre.all (fun c => !fn c) then removed else 0) := by
  intro pre
  generalize hn : pre.length = n
  induction n generalizing pre with
  | zero =>
    intro removed acc
    have : pre = [] := List.length_eq_zero_iff.mp hn
    subst this
    simp [filterLoop]
    omega
  | succ n ih =>
    intro removed acc
    obtain ⟨u, x, rfl⟩ : ∃ u x, pre = u ++ [x] := by
      rcases List.eq_nil_or_concat pre with h | ⟨d, x, h⟩
      · subst h; simp at hn
      · exact ⟨d, x, by simp [h]⟩
    have hlen : u.length = n := by simp at hn; exact hn
    have htw : ((u ++ [x]).takeWhile (fun c => !fn c)).length =
        if u.all (fun c => !fn c) then u.length + (if fn x then 0 else 1)
        else (u.takeWhile (fun c => !fn c)).length := by
      clear ih hlen hn
      induction u with
      | nil => cases hx : fn x <;> simp [hx]
      | cons y u ih =>
        cases hy : fn y with
        | true => simp [hy]
        | false => simp [hy] at ih ⊢; rw [ih]; split <;> omega
    have htwall : u.all (fun c => !fn c) = true → (u.takeWhile (fun c => !fn c)).length = u.length := by
      intro h
      clear ih hlen hn htw
      induction u with
      | nil => rfl
      | cons y u ih => simp at h; simp [h.1]; simpa using ih (by simpa using h.2)
    rw [List.reverse_append, List.reverse_singleton, List.singleton_append]
    by_cases hx : fn x = true
    · by_cases hr : removed > 0
      · rw [filterLoop, if_pos hx, if_pos hr]
        obtain ⟨h1, h2, h3⟩ := ih u hlen 0 (([x], -(removed : Int)) :: acc)
        refine ⟨?_, ?_, ?_⟩
        · rw [h1]; simp [hx]
        · rw [h2, usesAll_cons]
          have : uses (-(removed : Int)) = 1 + removed := by
            unfold uses; rw [if_neg (by omega)]; omega
          rw [this]; omega
        · rw [h3, htw]
          simp only [hx, if_true, List.all_append, List.all_cons, List.all_nil, Bool.not_true,
            Bool.false_and, Bool.and_false, Bool.false_eq_true, if_false, Nat.add_zero]
          split <;> simp_all
      · rw [filterLoop, if_pos hx, if_neg hr]
        obtain ⟨h1, h2, h3⟩ := ih u hlen removed (([x], 0) :: acc)
        refine ⟨?_, ?_, ?_⟩
        · rw [h1]; simp [hx]
        · rw [h2, usesAll_cons]
          have : uses 0 = 1 := by simp [uses]
          rw [this]; omega
        · rw [h3, htw]
          have hr0 : removed = 0 := by omega
          simp only [hx, if_true, List.all_append, List.all_cons, List.all_nil, Bool.not_true,
            Bool.false_and, Bool.and_false, Bool.false_eq_true, if_false, Nat.add_zero, hr0]
          split <;> simp_all
    · rw [filterLoop, if_neg hx]
      obtain ⟨h1, h2, h3⟩ := ih u hlen (removed + 1) acc
      refine ⟨?_, ?_, ?_⟩
      · rw [h1]; simp [hx]
      · rw [h2]; omega
      · have hx' : fn x = false := by simpa using hx
        rw [h3, htw]
        simp only [hx', List.all_append, List.all_cons, List.all_nil, Bool.not_false,
          Bool.and_true, Bool.false_eq_true, if_false]
        split
        · next h => rw [htwall h]; omega
        · omega

/-- The change list of `Filter`: the kept characters, the number of removed leading characters,
and together they use up the text. -/
theorem filter_items (fn : Char → Bool) (cs : Str) :
    ((filterLoop fn cs.reverse 0 []).1.map (·.1)).flatten = cs.filter fn ∧
    usesAll (filterLoop fn cs.reverse 0 []).1 + (filterLoop fn cs.reverse 0 []).2 = cs.length ∧
    (filterLoop fn cs.reverse 0 []).2 = (cs.takeWhile (fun c => !fn c)).length := by
  obtain ⟨h1, h2, h3⟩ := filterLoop_spec fn cs 0 []
  refine ⟨by simpa using h1, by simpa [usesAll] using h2, ?_⟩
  rw [h3]; split <;> rfl

theorem prepend_items (s : Str) (next : Char) :
    ((prependItems s next).map (·.1)).flatten = s ++ [next] ∧ usesAll (prependItems s next) ≤ 1 := by
  have h1 : ∀ s : Str, ((s.map (fun c => ([c], (1 : Int)))).map (·.1)).flatten = s := by
    intro s; induction s with
    | nil => rfl
    | cons c s ih => simp only [List.map_cons, List.flatten_cons, ih]; rfl
  have h2 : ∀ s : Str, usesAll (s.map (fun c => ([c], (1 : Int)))) = 0 := by
    intro s; induction s with
    | nil => rfl
    | cons c s ih => rw [List.map_cons, usesAll_cons, ih]; rfl
  cases s with
  | nil => exact ⟨rfl, by simp [prependItems, usesAll, uses]⟩
  | cons c s =>
    simp only [prependItems]
    constructor
    · rw [List.map_cons, List.flatten_cons, List.map_append, List.flatten_append, h1]; simp
    · rw [usesAll_cons, usesAll_append, h2]; simp [usesAll, uses]

theorem append_items (c : Char) (s : Str) :
    ((([c], (0 : Int)) :: s.map (fun c => ([c], (1 : Int)))).map (·.1)).flatten = c :: s ∧
    usesAll (([c], (0 : Int)) :: s.map (fun c => ([c], (1 : Int)))) = 1 := by
  have h1 : ∀ s : Str, ((s.map (fun c => ([c], (1 : Int)))).map (·.1)).flatten = s := by
    intro s; induction s with
    | nil => rfl
    | cons c s ih => simp only [List.map_cons, List.flatten_cons, ih]; rfl
  have h2 : ∀ s : Str, usesAll (s.map (fun c => ([c], (1 : Int)))) = 0 := by
    intro s; induction s with
    | nil => rfl
    | cons c s ih => rw [List.map_cons, usesAll_cons, ih]; rfl
  constructor
  · rw [List.map_cons, List.flatten_cons, h1]; rfl
  · rw [usesAll_cons, h2]; simp [uses]

theorem lastRune_enc (u : Str) (c : Char) (i : Nat) :
    lastRune (explode (encStr (u ++ [c]))) i = some (i + blen u, c) := by
  rw [explode_encStr]
  induction u generalizing i with
  | nil => simp [lastRune, runeOf]
  | cons d u ih =>
    cases hu : (u ++ [c]).map (fun c => (some c, String.utf8EncodeChar c)) with
    | nil => simp at hu
    | cons p rest =>
      rw [List.cons_append, List.map_cons, hu, lastRune, ← hu, ih, String.length_utf8EncodeChar, blen_cons]
      congr 2; omega

/-- The change list of `lrstrip` (normalizer/normalized.go:1340-1356), by position. -/
def stripItems (rs : Str) (lead trail : Nat) : List (Str × Int) :=
  (List.range rs.length).filterMap (fun i =>
      if i < lead ∨ (i : Int) ≥ (rs.length : Int) - trail then none
      else (rs[i]?).map (fun c =>
        ([c], if (i : Int) = (rs.length : Int) - trail - 1 then -(trail : Int) else 0)))

theorem stripItems_text (rs : Str) (lead trail : Nat) :
    ((stripItems rs lead trail).map (·.1)).flatten = (rs.take (rs.length - trail)).drop lead := by
  unfold stripItems
  have : ∀ (k : Nat), k ≤ rs.length →
      (((List.range k).filterMap (fun i =>
        if i < lead ∨ (i : Int) ≥ (rs.length : Int) - trail then none
        else (rs[i]?).map (fun c => ([c], if (i : Int) = (rs.length : Int) - trail - 1 then -(trail : Int) else 0)))).map
          (fun x : Str × Int => x.1)).flatten = (rs.take (min k (rs.length - trail))).drop lead := by
    intro k
    induction k with
    | zero => intro _; simp
    | succ k ih =>
      intro hk
      rw [List.range_succ, List.filterMap_append, List.map_append, List.flatten_append, ih (by omega)]
      have hg : rs[k]? = some rs[k] := List.getElem?_eq_getElem (by omega)
      by_cases hc : k < lead ∨ (k : Int) ≥ (rs.length : Int) - trail
      · simp only [List.filterMap_cons, if_pos hc, List.filterMap_nil, List.map_nil, List.flatten_nil,
          List.append_nil]
        rcases hc with hc | hc
        · rw [List.drop_of_length_le (by simp; omega), List.drop_of_length_le (by simp; omega)]
        · congr 2; omega
      · have : ¬ (k < lead) ∧ ¬ ((k : Int) ≥ (rs.length : Int) - trail) := by omega
        simp only [List.filterMap_cons, if_neg hc, hg, Option.map_some, List.filterMap_nil, List.map_cons,
          List.map_nil, List.flatten_cons, List.flatten_nil, List.append_nil]
        rw [show min (k + 1) (rs.length - trail) = k + 1 by omega,
          show min k (rs.length - trail) = k by omega, List.take_add_one, hg]
        rw [List.drop_append_of_le_length (by simp; omega)]
        rfl
  have h := this rs.length (Nat.le_refl _)
  rw [h]
  congr 2
  omega

theorem stripItems_uses (rs : Str) (lead trail : Nat) (hl : lead ≤ rs.length) :
    usesAll (stripItems rs lead trail) + lead ≤ rs.length := by
  unfold stripItems
  have : ∀ (k : Nat), k ≤ rs.length →
      usesAll ((List.range k).filterMap (fun i =>
        if i < lead ∨ (i : Int) ≥ (rs.length : Int) - trail then none
        else (rs[i]?).map (fun c => ([c], if (i : Int) = (rs.length : Int) - trail - 1 then -(trail : Int) else 0))))
        ≤ (k - lead) + (if (k : Int) ≥ (rs.length : Int) - trail ∧ (lead : Int) < (rs.length : Int) - trail
            then (rs.length - k) else 0) := by
    intro k
    induction k with
    | zero => intro _; simp [usesAll]
    | succ k ih =>
      intro hk
      have ih := ih (by omega)
      rw [List.range_succ, List.filterMap_append, usesAll_append]
      have hg : rs[k]? = some rs[k] := List.getElem?_eq_getElem (by omega)
      by_cases hc : k < lead ∨ (k : Int) ≥ (rs.length : Int) - trail
      · simp only [List.filterMap_cons, if_pos hc, List.filterMap_nil]
        have hz : usesAll [] = 0 := rfl
        rw [hz]
        split at ih <;> split <;> omega
      · simp only [List.filterMap_cons, if_neg hc, hg, Option.map_some, List.filterMap_nil]
        rw [usesAll_cons]
        have hz : usesAll [] = 0 := rfl
        rw [hz]
        rw [if_neg (by omega)] at ih
        by_cases he : (k : Int) = (rs.length : Int) - trail - 1
        · rw [if_pos he, if_pos (by omega)]
          have : uses (-(trail : Int)) = 1 + trail := by unfold uses; rw [if_neg (by omega)]; omega
          simp only [this]
          omega
        · rw [if_neg he, if_neg (by omega)]
          have : uses 0 = 1 := by decide
          simp only [this]
          omega
  have h := this rs.length (Nat.le_refl _)
  split at h <;> omega

theorem take_leading (cs : Str) {k : Nat} (hk : k ≤ cs.length)
    (h : blen (cs.take k) ≤ blen (cs.drop (cs.length - k))) {u : Nat} (hu : u + k ≤ cs.length) :
    blen (cs.take k) + blen (cs.take u) ≤ blen cs := by
  have h1 := blen_take_drop cs (cs.length - k)
  have h2 : blen (cs.take u) ≤ blen (cs.take (cs.length - k)) := by
    have := blen_take_drop (cs.take (cs.length - k)) u
    rw [List.take_take, Nat.min_eq_left (by omega)] at this
    omega
  omega

theorem length_le_blen (s : Str) : s.length ≤ blen s := by
  induction s with
  | nil => simp
  | cons c s ih => have := c.utf8Size_pos; simp; omega

/-- Single-byte characters at the start never have more bytes than as many at the end. -/
theorem single_byte_leading (cs : Str) {k : Nat} (hk : k ≤ cs.length)
    (h : ∀ c ∈ cs.take k, c.utf8Size = 1) : blen (cs.take k) ≤ blen (cs.drop (cs.length - k)) := by
  have h1 : blen (cs.take k) = k := by
    have : ∀ s : Str, (∀ c ∈ s, c.utf8Size = 1) → blen s = s.length := by
      intro s hs
      induction s with
      | nil => rfl
      | cons c s ih =>
        rw [blen_cons, hs c (by simp), ih (fun d hd => hs d (by simp [hd]))]
        simp; omega
    rw [this _ h, List.length_take]; omega
  have h2 := length_le_blen (cs.drop (cs.length - k))
  rw [List.length_drop] at h2
  omega

end Tok.Norm
