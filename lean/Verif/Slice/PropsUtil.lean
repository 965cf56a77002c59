import Verif.Slice.PropsKeep
import Verif.Slice.Util

/-! # C119: the iterators give the elements once, in order, and the helpers of package util what they name -/

namespace Tok.SliceUtil

theorem idx_get {l : List α} {i : Nat} (hi : i < l.length) : idx l (i : Int) = .ok l[i] := by
  rw [idx, if_neg (by omega), Int.toNat_natCast, List.getElem?_eq_getElem hi]

/-! ### Iterators -/

/-- What `k` calls on `l` should give: the elements in order, then nothing. -/
def firstOf (l : List α) (k : Nat) : List (Option α) := (l.take k).map some ++ List.replicate (k - l.length) none

theorem firstOf_nil (k : Nat) : firstOf ([] : List α) k = List.replicate k none := by simp [firstOf]

theorem firstOf_cons (x : α) (l : List α) (k : Nat) : firstOf (x :: l) (k + 1) = some x :: firstOf l k := by
  simp [firstOf]

theorem runeIter_end (items : Str) : ∀ k, RuneIter.steps k ⟨items, -1⟩ = .ok (List.replicate k none, ⟨items, -1⟩) := by
  intro k
  induction k with
  | zero => rfl
  | succ k ih =>
    rw [RuneIter.steps, RuneIter.step, if_pos rfl, Res.bind_ok, ih, Res.bind_ok]
    rfl

/-- Where the iterator is after `k` calls from `i` on. -/
def runeAt (n i : Nat) : Int := if i < n then i else -1

theorem runeIter_from (items : Str) : ∀ k i, i ≤ items.length → RuneIter.steps k ⟨items, runeAt items.length i⟩ =
    .ok (firstOf (items.drop i) k, ⟨items, runeAt items.length (i + k)⟩) := by
  intro k
  induction k with
  | zero => intro i hi; simp [RuneIter.steps, firstOf]
  | succ k ih =>
    intro i hi
    by_cases hlt : i < items.length
    · rw [RuneIter.steps, RuneIter.step]
      have e : runeAt items.length i = (i : Int) := by rw [runeAt, if_pos hlt]
      simp only [e]
      rw [if_neg (by omega), idx_get hlt, Res.bind_ok]
      have hs : (if (i : Int) + 1 ≥ items.length then (.ok (some items[i], ⟨items, -1⟩) : Res (Option Char × RuneIter))
          else .ok (some items[i], ⟨items, (i : Int) + 1⟩)) = .ok (some items[i], ⟨items, runeAt items.length (i + 1)⟩) := by
        split
        · rw [runeAt, if_neg (by omega)]
        · rw [runeAt, if_pos (by omega)]; rfl
      rw [hs, Res.bind_ok, ih (i + 1) (by omega), Res.bind_ok, List.drop_eq_getElem_cons hlt, firstOf_cons,
        show i + 1 + k = i + (k + 1) by omega]
    · have hi' : i = items.length := by omega
      subst hi'
      have e : ∀ m, runeAt items.length (items.length + m) = -1 := by intro m; rw [runeAt, if_neg (by omega)]
      have e0 := e 0
      rw [Nat.add_zero] at e0
      rw [e0, e, runeIter_end, List.drop_length, firstOf_nil]

/-- A `RuneIter` gives each rune once, in order, and then nothing more, however often it is asked. It does not panic. -/
theorem C119_runeIter (data : Str) (k : Nat) : ∃ it, RuneIter.steps k (newRuneIter data) = .ok (firstOf data k, it) := by
  have := runeIter_from data k 0 (Nat.zero_le _)
  have e : newRuneIter data = ⟨data, runeAt data.length 0⟩ := rfl
  rw [e]
  exact ⟨_, this⟩

/-- After `Reset`, at any time, it begins again. -/
theorem C119_reset (data : Str) (j k : Nat) (gave : List (Option Char)) (it : RuneIter)
    (h : RuneIter.steps j (newRuneIter data) = .ok (gave, it)) :
    ∃ it', RuneIter.steps k it.reset = .ok (firstOf data k, it') := by
  have e : newRuneIter data = ⟨data, runeAt data.length 0⟩ := rfl
  rw [e, runeIter_from data j 0 (Nat.zero_le _)] at h
  cases h
  have : RuneIter.reset ⟨data, runeAt data.length (0 + j)⟩ = newRuneIter data := by
    simp only [RuneIter.reset, newRuneIter]
    by_cases hz : data.length = 0
    · rw [if_pos hz, if_neg (by omega)]
    · rw [if_neg hz, if_pos (by omega)]
  rw [this]
  exact C119_runeIter data k

/-- `Len` is the number of runes at any time; `CurrentIndex` is the index of the rune given last, but not after the
last rune. -/
theorem C119_current_partial (data : Str) (k : Nat) (gave : List (Option Char)) (it : RuneIter)
    (h : RuneIter.steps k (newRuneIter data) = .ok (gave, it)) :
    it.len = data.length ∧ (k < data.length → it.currentIndex = (k : Int) - 1) := by
  have e : newRuneIter data = ⟨data, runeAt data.length 0⟩ := rfl
  rw [e, runeIter_from data k 0 (Nat.zero_le _)] at h
  cases h
  refine ⟨rfl, fun hk => ?_⟩
  simp only [RuneIter.currentIndex, runeAt]
  rw [if_neg (by omega), if_pos (by omega), Nat.zero_add]

/-- After the last rune of any data, `CurrentIndex` is -2. -/
theorem C119_current_violated (data : Str) (hne : data ≠ []) (k : Nat) (hk : data.length ≤ k) (gave : List (Option Char))
    (it : RuneIter) (h : RuneIter.steps k (newRuneIter data) = .ok (gave, it)) : it.currentIndex = -2 := by
  have e : newRuneIter data = ⟨data, runeAt data.length 0⟩ := rfl
  rw [e, runeIter_from data k 0 (Nat.zero_le _)] at h
  cases h
  have : data.length ≠ 0 := by simpa using hne
  simp only [RuneIter.currentIndex, runeAt]
  rw [if_neg this, if_neg (by omega)]
  rfl

theorem iter_from (items : List α) : ∀ k i, i ≤ items.length →
    ∃ it, Iter.steps k ⟨items, (i : Int)⟩ = .ok (firstOf (items.drop i) k, it) := by
  intro k
  induction k with
  | zero => intro i _; exact ⟨_, by simp [Iter.steps, firstOf]; rfl⟩
  | succ k ih =>
    intro i hi
    by_cases hlt : i < items.length
    · obtain ⟨it, he⟩ := ih (i + 1) (by omega)
      refine ⟨it, ?_⟩
      rw [Iter.steps, Iter.step, if_neg (by simp only []; omega)]
      simp only []
      rw [idx_get hlt, Res.bind_ok, Res.bind_ok]
      have e : ((i + 1 : Nat) : Int) = (i : Int) + 1 := by omega
      rw [e] at he
      simp only []
      rw [he, Res.bind_ok, List.drop_eq_getElem_cons hlt, firstOf_cons]
    · obtain ⟨it, he⟩ := ih i hi
      refine ⟨it, ?_⟩
      rw [Iter.steps, Iter.step, if_pos (by simp only []; omega), Res.bind_ok, he, Res.bind_ok,
        List.drop_of_length_le (by omega), firstOf_nil, firstOf_nil]
      rfl

/-- So does an `Iter` of any elements. -/
theorem C119_iter (data : List α) (k : Nat) : ∃ it, Iter.steps k (newIter data) = .ok (firstOf data k, it) := by
  cases data with
  | nil =>
    have : ∀ k, Iter.steps k (⟨[], -1⟩ : Iter α) = .ok (List.replicate k none, ⟨[], -1⟩) := by
      intro k
      induction k with
      | zero => rfl
      | succ k ih =>
        rw [Iter.steps, Iter.step, if_pos (.inl rfl), Res.bind_ok, ih, Res.bind_ok]
        rfl
    refine ⟨⟨[], -1⟩, ?_⟩
    rw [firstOf_nil]
    exact this k
  | cons x data => exact iter_from (x :: data) k 0 (by omega)

/-- A `RuneReader` gives the runes in order and then the end of file; the size it gives for each is 1. -/
theorem C119_reader_partial (src : Str) (k : Nat) :
    (RuneReader.reads k (newRuneReader src)).1 = (firstOf src k).map (Option.map (fun c => (c, 1))) := by
  have : ∀ k (i : Nat), (RuneReader.reads k ⟨src, i⟩).1 = (firstOf (src.drop i) k).map (Option.map (fun c => (c, 1))) := by
    intro k
    induction k with
    | zero => intro i; simp [RuneReader.reads, firstOf]
    | succ k ih =>
      intro i
      rw [RuneReader.reads, RuneReader.readRune]
      by_cases hlt : i < src.length
      · simp only [List.getElem?_eq_getElem hlt]
        rw [ih, List.drop_eq_getElem_cons hlt, firstOf_cons]
        rfl
      · simp only [List.getElem?_eq_none (Nat.le_of_not_lt hlt)]
        rw [ih, List.drop_of_length_le (by omega), firstOf_nil, firstOf_nil]
        rfl
  exact this k 0

/-- `io.RuneReader` wants the size in bytes; for every rune beyond ASCII this is not what it gives. -/
theorem C119_reader_violated (c : Char) (rest : Str) (hc : c.utf8Size ≠ 1) :
    ((newRuneReader (c :: rest)).readRune).1 ≠ some (c, c.utf8Size) := by
  simp [newRuneReader, RuneReader.readRune, Ne.symm hc]

/-! ### Ranges and lists -/

theorem makeRangeLoop_eq (start : Int) : ∀ k r, makeRangeLoop start k r = r ++ List.replicate k start := by
  intro k
  induction k with
  | zero => intro r; simp [makeRangeLoop]
  | succ k ih => intro r; rw [makeRangeLoop, ih, List.append_assoc, List.replicate_succ]; rfl

/-- `MakeRange` gives as many numbers as the range has, all of them its start. -/
theorem C119_makeRange_partial (start stop : Int) : makeRange start stop = List.replicate (stop - start).toNat start := by
  rw [makeRange]
  split
  · simp [*]
  · rw [makeRangeLoop_eq, List.nil_append]

/-- So it does not give the numbers of the range if there are two or more. -/
theorem C119_makeRange_violated (start stop : Int) (_h : start + 1 < stop) : start + 1 ∉ makeRange start stop := by
  rw [C119_makeRange_partial, List.mem_replicate]
  omega

theorem minMaxLoop_eq : ∀ (l : List Int) (m M : Int), m ≤ M →
    (minMaxLoop l m M).1 ∈ m :: l ∧ (∀ v ∈ m :: l, (minMaxLoop l m M).1 ≤ v) ∧
    (minMaxLoop l m M).2 ∈ M :: l ∧ (∀ v ∈ M :: l, v ≤ (minMaxLoop l m M).2) := by
  intro l
  induction l with
  | nil => intro m M _; simp [minMaxLoop]
  | cons x l ih =>
    intro m M hm
    rw [minMaxLoop]
    obtain ⟨h1, h2, h3, h4⟩ := ih (if m > x then x else m) (if M < x then x else M) (by split <;> split <;> omega)
    refine ⟨?_, ?_, ?_, ?_⟩
    · rcases List.mem_cons.mp h1 with h | h
      · rw [h]; split <;> simp
      · simp [h]
    · intro v hv
      have hb := h2 _ (List.mem_cons_self ..)
      have hq : (if m > x then x else m) ≤ m ∧ (if m > x then x else m) ≤ x := by split <;> omega
      rcases List.mem_cons.mp hv with h | h
      · subst h; omega
      · rcases List.mem_cons.mp h with h | h
        · subst h; omega
        · exact h2 v (List.mem_cons_of_mem _ h)
    · rcases List.mem_cons.mp h3 with h | h
      · rw [h]; split <;> simp
      · simp [h]
    · intro v hv
      have hb := h4 _ (List.mem_cons_self ..)
      have hq : M ≤ (if M < x then x else M) ∧ x ≤ (if M < x then x else M) := by split <;> omega
      rcases List.mem_cons.mp hv with h | h
      · subst h; omega
      · rcases List.mem_cons.mp h with h | h
        · subst h; omega
        · exact h4 v (List.mem_cons_of_mem _ h)

/-- `MinMax` gives the least and the greatest element; it panics only on an empty list. -/
theorem C119_minMax (array : List Int) :
    (array = [] ∧ minMax array = .panic) ∨
    ∃ m M, minMax array = .ok (m, M) ∧ m ∈ array ∧ M ∈ array ∧ ∀ v ∈ array, m ≤ v ∧ v ≤ M := by
  cases array with
  | nil => exact .inl ⟨rfl, rfl⟩
  | cons x l =>
    right
    obtain ⟨h1, h2, h3, h4⟩ := minMaxLoop_eq (x :: l) x x (Int.le_refl _)
    refine ⟨(minMaxLoop (x :: l) x x).1, (minMaxLoop (x :: l) x x).2, rfl, ?_, ?_, fun v hv => ⟨h2 v (List.mem_cons_of_mem _ hv), h4 v (List.mem_cons_of_mem _ hv)⟩⟩
    · rcases List.mem_cons.mp h1 with h | h
      · rw [h]; simp
      · exact h
    · rcases List.mem_cons.mp h3 with h | h
      · rw [h]; simp
      · exact h

/-- Without line breaks `ReadAllLn` gives the lines. -/
theorem C119_lines_partial (lines : List Str) : readAllLn false lines = lines := by
  induction lines with
  | nil => rfl
  | cons l ls ih => simp [readAllLn, ih]

/-- With line breaks it gives each line twice, once with and once without. -/
theorem C119_lines_violated (lines : List Str) :
    readAllLn true lines = lines.flatMap (fun l => [l ++ ['\n'], l]) ∧
    (lines ≠ [] → readAllLn true lines ≠ lines.map (· ++ ['\n'])) := by
  have h1 : ∀ lines, readAllLn true lines = lines.flatMap (fun l => [l ++ ['\n'], l]) := by
    intro lines
    induction lines with
    | nil => rfl
    | cons l ls ih => simp [readAllLn, ih]
  refine ⟨h1 lines, fun hne he => ?_⟩
  have hlen : ∀ ls : List Str, (readAllLn true ls).length = 2 * ls.length := by
    intro ls
    induction ls with
    | nil => rfl
    | cons l ls ih => simp [readAllLn, ih]; omega
  have := congrArg List.length he
  rw [hlen, List.length_map] at this
  have : lines.length ≠ 0 := by simpa using hne
  omega

theorem zipLoop_eq (a b : List α) (hab : a.length = b.length) : ∀ k i c, i + k = a.length →
    zipLoop a b k i c = .ok (c ++ List.zip (a.drop i) (b.drop i)) := by
  intro k
  induction k with
  | zero =>
    intro i c hi
    rw [zipLoop, List.drop_of_length_le (by omega)]
    simp
  | succ k ih =>
    intro i c hi
    have h1 : i < a.length := by omega
    have h2 : i < b.length := by omega
    rw [zipLoop, idx_get h1, idx_get h2, Res.bind_ok, Res.bind_ok, ih (i + 1) _ (by omega), List.drop_eq_getElem_cons h1,
      List.drop_eq_getElem_cons h2, List.zip_cons_cons, List.append_assoc]
    rfl

/-- `Zip` appends the pairs; for slices of different length it is an error. -/
theorem C119_zip (a b : List α) (c : List (α × α)) :
    (a.length = b.length → zip a b c = .ok (c ++ List.zip a b)) ∧ (a.length ≠ b.length → zip a b c = .err) := by
  constructor
  · intro h
    rw [zip, if_neg (by simp [h]), zipLoop_eq a b h _ _ _ (by omega)]
    rfl
  · intro h
    rw [zip, if_pos h]

/-- `Repeat` gives the item `length` times, none for a negative length. -/
theorem C119_repeat (item : α) (length : Int) :
    ((repeatItem item length).length : Int) = max length 0 ∧ ∀ x ∈ repeatItem item length, x = item := by
  have : ∀ k (r : List α), repeatLoop item k r = r ++ List.replicate k item := by
    intro k
    induction k with
    | zero => intro r; simp [repeatLoop]
    | succ k ih => intro r; rw [repeatLoop, ih, List.append_assoc, List.replicate_succ]; rfl
  rw [repeatItem, this, List.nil_append]
  refine ⟨by simp, fun x hx => (List.mem_replicate.mp hx).2⟩

/-- `Merge` gives the elements of both, nil if there are none, and changes no slice. What it gives is in a new array, so
appending to it or writing to it changes no slice of the caller either. -/
theorem C119_merge {h : Heap α} {a b : Slice} (ha : Valid h a) (hb : Valid h b) (spare : List α) (zero : α) :
    Kept h (merge spare zero h a b).1 ∧
    (read h a ++ read h b = [] → (merge spare zero h a b).2 = none) ∧
    (read h a ++ read h b ≠ [] → ∃ s, (merge spare zero h a b).2 = some s ∧ Valid (merge spare zero h a b).1 s ∧
      read (merge spare zero h a b).1 s = read h a ++ read h b ∧ h.length ≤ s.arr) := by
  have la := read_length ha
  have lb := read_length hb
  have hw : (writeAt (List.replicate (a.len + b.len) zero) 0 (read h a)).length = a.len + b.len := by
    rw [writeAt_length (by simp; omega)]; simp
  have hvo : Valid (h ++ [writeAt (List.replicate (a.len + b.len) zero) 0 (read h a)])
      ⟨h.length, 0, a.len, a.len + b.len⟩ := ⟨by simp, by simp only []; omega, by simp [arrayOf, hw]⟩
  have hro : read (h ++ [writeAt (List.replicate (a.len + b.len) zero) 0 (read h a)]) ⟨h.length, 0, a.len, a.len + b.len⟩ =
      read h a := by
    generalize read h a = L at la ⊢
    simp only [read, arrayOf, List.getElem?_concat_length, Option.getD_some, List.drop_zero]
    rw [writeAt, List.take_zero, List.nil_append, ← la, List.take_append_of_le_length (Nat.le_refl _), List.take_length]
  have hrb : read (h ++ [writeAt (List.replicate (a.len + b.len) zero) 0 (read h a)]) b = read h b := read_alloc_old h _ hb.1
  have hk := kept_alloc h (writeAt (List.replicate (a.len + b.len) zero) 0 (read h a))
  have hfit := append_fits hvo spare (read h b) (by simp only []; omega)
  obtain ⟨g1, g2⟩ := append_read hvo spare (read h b)
  have hk2 : Kept h (append spare (h ++ [writeAt (List.replicate (a.len + b.len) zero) 0 (read h a)])
      ⟨h.length, 0, a.len, a.len + b.len⟩ (read h b)).1 := by
    intro t ht
    have := append_keeps (s := ⟨h.length, 0, a.len, a.len + b.len⟩) spare (read h b) (hk t ht).1 (by have := ht.1; simp only []; omega)
    exact ⟨this.1, this.2.trans (hk t ht).2⟩
  have hm : merge spare zero h a b = if a.len + b.len = 0 then
      ((append spare (h ++ [writeAt (List.replicate (a.len + b.len) zero) 0 (read h a)])
        ⟨h.length, 0, a.len, a.len + b.len⟩ (read h b)).1, none)
      else ((append spare (h ++ [writeAt (List.replicate (a.len + b.len) zero) 0 (read h a)])
        ⟨h.length, 0, a.len, a.len + b.len⟩ (read h b)).1, some ⟨h.length, 0, a.len + b.len, a.len + b.len⟩) := by
    simp only [merge, alloc, hw, hrb, hfit, lb]
  have he : read h a ++ read h b = [] ↔ a.len + b.len = 0 := by
    rw [← List.length_eq_zero_iff, List.length_append, la, lb]
  rw [hm]
  refine ⟨?_, ?_, ?_⟩
  · split <;> exact hk2
  · intro h0
    rw [if_pos (he.mp h0)]
  · intro h0
    rw [if_neg (fun e => h0 (he.mpr e))]
    rw [hro] at g1
    have e2 : (append spare (h ++ [writeAt (List.replicate (a.len + b.len) zero) 0 (read h a)])
        ⟨h.length, 0, a.len, a.len + b.len⟩ (read h b)).2 = ⟨h.length, 0, a.len + b.len, a.len + b.len⟩ := by rw [hfit, lb]
    rw [e2] at g1 g2
    exact ⟨_, rfl, g2, g1, Nat.le_refl _⟩

/-- `CastSlice` gives the values if all have the type, and panics otherwise. -/
theorem C119_cast (cast : β → Option α) (vals : List β) :
    (∀ out, castSlice cast vals = .ok out ↔ vals.map cast = out.map some) ∧
    (castSlice cast vals = .panic ↔ none ∈ vals.map cast) := by
  induction vals with
  | nil =>
    refine ⟨fun out => ?_, by simp [castSlice]⟩
    cases out <;> simp [castSlice]
  | cons v vs ih =>
    rw [castSlice]
    cases hv : cast v with
    | none =>
      refine ⟨fun out => ?_, by simp [hv]⟩
      cases out <;> simp [hv]
    | some x =>
      cases hs : castSlice cast vs with
      | ok xs =>
        have h1 := (ih.1 xs).mp hs
        have h2 := ih.2
        rw [hs] at h2
        constructor
        · intro out
          simp only [Res.bind_ok, Res.ok.injEq, List.map_cons, hv, h1]
          cases out with
          | nil => simp
          | cons y out =>
            simp only [List.cons.injEq, List.map_cons, Option.some.injEq]
            constructor
            · rintro ⟨rfl, rfl⟩; exact ⟨rfl, rfl⟩
            · rintro ⟨rfl, h⟩
              exact ⟨rfl, by simpa using congrArg (List.filterMap id) h⟩
        · simp only [Res.bind_ok, List.map_cons, List.mem_cons, hv]
          simpa using h2
      | err =>
        exfalso
        clear ih hv
        revert hs
        induction vs with
        | nil => simp [castSlice]
        | cons w ws ihw =>
          rw [castSlice]
          cases cast w with
          | none => simp
          | some y => cases h : castSlice cast ws <;> simp_all
      | panic =>
        have h2 := ih.2.mp hs
        simp only [Res.bind_panic]
        refine ⟨fun out => ?_, by simpa [hv] using h2⟩
        have : none ∈ (v :: vs).map cast := by rw [List.map_cons]; exact List.mem_cons_of_mem _ h2
        constructor
        · intro h; cases h
        · intro h; rw [h] at this; simp at this

/-! ### Cases -/

example : RuneIter.steps 3 (newRuneIter ['a', 'b']) = .ok ([some 'a', some 'b', none], ⟨['a', 'b'], -1⟩) := by decide

example : (RuneReader.reads 2 (newRuneReader ['世'])).1 = [some ('世', 1), none] ∧ '世'.utf8Size = 3 := by decide

example : makeRange 3 6 = [3, 3, 3] := by decide

example : minMax [2, 5, -1] = .ok (-1, 5) := by decide

example : merge [] 0 [[1, 2, 3]] ⟨0, 0, 1, 3⟩ ⟨0, 1, 1, 2⟩ = ([[1, 2, 3], [1, 2]], some ⟨1, 0, 2, 2⟩) := by decide

end Tok.SliceUtil
