import Verif.Slice.Loops

/-!
# C117: the functions of util/slice give the list that they name

"Gives a list" is said of the elements that can be read in the slice that comes out; the slices that go in
are any slices of any arrays, with any capacity, shared or not.
-/

namespace Tok.SliceUtil

/-- The function succeeds, with a slice that has these elements. -/
def Gives (r : Res (Heap α × Slice)) (L : List α) : Prop :=
  ∃ h s, r = .ok (h, s) ∧ Valid h s ∧ read h s = L

theorem gives_append {h : Heap α} {s : Slice} (hv : Valid h s) (spare vs : List α) {L : List α} (hL : read h s ++ vs = L) :
    Gives (.ok (append spare h s vs)) L :=
  ⟨_, _, rfl, (append_read hv spare vs).2, (append_read hv spare vs).1.trans hL⟩

/-- Appending keeps the slices of other arrays. -/
theorem append_keeps {h : Heap α} {s t : Slice} (spare vs : List α) (ht : Valid h t) (hn : t.arr ≠ s.arr) :
    Valid (append spare h s vs).1 t ∧ read (append spare h s vs).1 t = read h t := by
  have e : arrayOf (append spare h s vs).1 t = arrayOf h t := by
    rw [append]
    split
    · simp [arrayOf, Ne.symm hn]
    · simp [arrayOf, List.getElem?_append, ht.1]
  refine ⟨⟨?_, ht.2.1, by rw [e]; exact ht.2.2⟩, by rw [read, e]; rfl⟩
  have := ht.1
  rw [append]
  split
  · simpa using this
  · simp; omega

/-- `append(a[:i], append(vs, a[i:]...)...)`, with new `vs`. -/
theorem gives_between {h : Heap α} {a : Slice} (hv : Valid h a) (spare spare' vs : List α) {i : Nat} (hi : i ≤ a.len) :
    Gives (.ok (append spare
        (append spare' (alloc h vs).1 (alloc h vs).2 (read (alloc h vs).1 ⟨a.arr, a.off + i, a.len - i, a.cap - i⟩)).1
        { a with len := i }
        (read (append spare' (alloc h vs).1 (alloc h vs).2 (read (alloc h vs).1 ⟨a.arr, a.off + i, a.len - i, a.cap - i⟩)).1
          (append spare' (alloc h vs).1 (alloc h vs).2 (read (alloc h vs).1 ⟨a.arr, a.off + i, a.len - i, a.cap - i⟩)).2)))
      ((read h a).take i ++ vs ++ (read h a).drop i) := by
  have hb : read (alloc h vs).1 ⟨a.arr, a.off + i, a.len - i, a.cap - i⟩ = (read h a).drop i := by
    rw [← read_from hi]
    exact read_alloc_old h vs hv.1
  rw [hb]
  obtain ⟨hz1, hz2⟩ := read_alloc h vs
  have hr := append_read hz2 spare' ((read h a).drop i)
  have hvf : Valid (alloc h vs).1 { a with len := i } :=
    valid_len (s := a) (valid_alloc_old vs hv) (by have := hv.2.1; omega)
  have hk := append_keeps (s := (alloc h vs).2) spare' ((read h a).drop i) hvf (by have := hv.1; simp [alloc]; omega)
  refine gives_append hk.1 spare _ ?_
  rw [hk.2, hr.1, hz1, ← List.append_assoc]
  congr 2
  rw [← read_upTo hi]
  exact read_alloc_old h vs hv.1

/-! ### Copy, cut, delete -/

/-- `CopyInt`: the same elements. -/
theorem C117_copy {h : Heap α} {a : Slice} (hv : Valid h a) (spare : List α) :
    Gives (.ok (copySlice spare h a)) (read h a) := by
  refine gives_append ?_ spare _ (by simp [read])
  exact ⟨hv.1, Nat.le_refl _, by have := hv.2.2; simp only [arrayOf] at this ⊢; omega⟩

/-- `CutInt` and `CutStr`: all but the elements from `start` to `stop`. -/
theorem C117_cut (least : Int) (hl : least ≤ 0) {h : Heap α} {a : Slice} (hv : Valid h a) (spare : List α) (start stop : Nat)
    (h1 : start ≤ stop) (h2 : stop ≤ a.len) :
    Gives (cut least spare h a start stop) ((read h a).take start ++ (read h a).drop stop) := by
  have hc := hv.2.1
  rw [cut, if_neg (by omega), if_neg (by omega), if_neg (by omega), upTo_eq (by omega), from_eq h2, Res.bind_ok, Res.bind_ok]
  refine gives_append (valid_len hv (by omega)) spare _ ?_
  rw [read_upTo (by omega), read_from h2]

/-- `CutStr` refuses all other indices with an error. -/
theorem C117_cut_refuses (spare : List α) (h : Heap α) (a : Slice) (start stop : Int)
    (hbad : ¬ (0 ≤ start ∧ start ≤ stop ∧ stop ≤ a.len)) : cut 0 spare h a start stop = .err := by
  rw [cut]
  split
  · rfl
  · split
    · rfl
    · rw [if_pos (by omega)]

/-- `CutInt` too, but for `start = -1`. -/
theorem C117_cut_int_refuses_partial (spare : List α) (h : Heap α) (a : Slice) (start stop : Int) (hm : start ≠ -1)
    (hbad : ¬ (0 ≤ start ∧ start ≤ stop ∧ stop ≤ a.len)) : cut (-1) spare h a start stop = .err := by
  rw [cut]
  split
  · rfl
  · split
    · rfl
    · rw [if_pos (by omega)]

/-- With `start = -1`, for which it has an error, `CutInt` panics. -/
theorem C117_cut_int_violated (spare : List α) (h : Heap α) (a : Slice) (stop : Int) (h1 : -1 ≤ stop) (h2 : stop ≤ a.len) :
    cut (-1) spare h a (-1) stop = .panic := by
  rw [cut, if_neg (by omega), if_neg (by omega), if_neg (by omega), Slice.upTo, if_neg (by omega), Res.bind_panic]

/-- `DeleteInt`: all but the element at `i`. -/
theorem C117_delete {h : Heap α} {a : Slice} (hv : Valid h a) (spare : List α) (i : Nat) (hi : i < a.len) :
    Gives (delete spare h a i) ((read h a).eraseIdx i) := by
  have hc := hv.2.1
  rw [delete, if_neg (by omega), upTo_eq (by omega), show (i : Int) + 1 = ((i + 1 : Nat) : Int) by omega,
    from_eq (show i + 1 ≤ a.len by omega), Res.bind_ok, Res.bind_ok]
  refine gives_append (valid_len hv (by omega)) spare _ ?_
  rw [read_upTo (by omega), read_from (by omega), List.eraseIdx_eq_take_drop_succ]

/-- It refuses other indices with an error, but for the length. -/
theorem C117_delete_refuses_partial (spare : List α) (h : Heap α) (a : Slice) (i : Int) (hi : i < 0 ∨ i > a.len) :
    delete spare h a i = .err := by
  rw [delete, if_pos hi]

/-- With the length as index, `DeleteInt` panics, also for an empty slice. -/
theorem C117_delete_violated (spare : List α) (h : Heap α) (a : Slice) (hc : a.len ≤ a.cap) :
    delete spare h a a.len = .panic := by
  rw [delete, if_neg (by omega), upTo_eq hc, Res.bind_ok, Slice.from, if_neg (by omega), Res.bind_panic]

/-! ### Expand, extend, insert -/

/-- `ExpandInt` puts `stop` zero values at `start`. -/
theorem C117_expand_partial (zero : α) {h : Heap α} {a : Slice} (hv : Valid h a) (spare spare' : List α) (start stop : Nat)
    (h1 : start ≤ stop) (h2 : stop ≤ a.len) :
    Gives (expand zero spare spare' h a start stop)
      ((read h a).take start ++ List.replicate stop zero ++ (read h a).drop start) := by
  have hc := hv.2.1
  rw [expand, if_neg (by omega), if_neg (by omega), if_neg (by omega), upTo_eq (by omega), from_eq (by omega), Res.bind_ok, Res.bind_ok]
  exact gives_between hv spare spare' (List.replicate stop zero) (by omega)

/-- So what comes out has not the zero values from `start` to `stop` put into it, unless `start = 0`. -/
theorem C117_expand_violated (zero : α) {h : Heap α} {a : Slice} (hv : Valid h a) (spare spare' : List α) (start stop : Nat)
    (h1 : start ≤ stop) (h2 : stop ≤ a.len) (hs : 0 < start) :
    ¬ Gives (expand zero spare spare' h a start stop)
      ((read h a).take start ++ List.replicate (stop - start) zero ++ (read h a).drop start) := by
  obtain ⟨h', s', he, _, hr⟩ := C117_expand_partial zero hv spare spare' start stop h1 h2
  rintro ⟨h'', s'', he2, _, hr2⟩
  rw [he] at he2
  cases he2
  have := congrArg List.length (hr.symm.trans hr2)
  simp at this
  omega

/-- `ExpandInt` refuses other indices with an error. -/
theorem C117_expand_refuses (zero : α) (spare spare' : List α) (h : Heap α) (a : Slice) (start stop : Int)
    (hbad : ¬ (0 ≤ start ∧ start ≤ stop ∧ stop ≤ a.len)) : expand zero spare spare' h a start stop = .err := by
  rw [expand]
  split
  · rfl
  · split
    · rfl
    · rw [if_pos (by omega)]

/-- `ExtendInt` puts `size` zero values at the end, and refuses sizes below 1. -/
theorem C117_extend (zero : α) {h : Heap α} {a : Slice} (hv : Valid h a) (spare : List α) (size : Int) :
    (0 < size → Gives (extend zero spare h a size) (read h a ++ List.replicate size.toNat zero)) ∧
    (size ≤ 0 → extend zero spare h a size = .err) := by
  constructor
  · intro hs
    rw [extend, if_neg (by omega)]
    exact gives_append hv spare _ rfl
  · intro hs
    rw [extend, if_pos hs]

/-- `InsertInt` puts the item at `i`, and refuses indices out of range. -/
theorem C117_insert {h : Heap α} {a : Slice} (hv : Valid h a) (spare spare' : List α) (item : α) (i : Nat) (hi : i ≤ a.len) :
    Gives (insert spare spare' h a item i) ((read h a).take i ++ item :: (read h a).drop i) := by
  have hc := hv.2.1
  rw [insert, if_neg (by omega), upTo_eq (by omega), from_eq hi, Res.bind_ok, Res.bind_ok]
  have := gives_between hv spare spare' [item] hi
  rwa [List.append_assoc] at this

theorem C117_insert_refuses (spare spare' : List α) (h : Heap α) (a : Slice) (item : α) (i : Int) (hi : i < 0 ∨ i > a.len) :
    insert spare spare' h a item i = .err := by
  rw [insert, if_pos hi]

/-- `InsertVecInt` puts the items of `b` at `i`, if `b` is a slice of another array or has no room left. -/
theorem C117_insertVec_partial {h : Heap α} {a b : Slice} (hv : Valid h a) (hb : Valid h b) (spare spare' : List α) (i : Nat)
    (hi : i ≤ a.len) (hn : a.arr ≠ b.arr ∨ b.cap < b.len + (a.len - i)) :
    Gives (insertVec spare spare' h a b i) ((read h a).take i ++ read h b ++ (read h a).drop i) := by
  have hc := hv.2.1
  rw [insertVec, if_neg (by omega), upTo_eq (by omega), from_eq hi, Res.bind_ok, Res.bind_ok, read_from hi]
  have hvf : Valid h { a with len := i } := valid_len hv (by omega)
  have hk : Valid (append spare' h b ((read h a).drop i)).1 { a with len := i } ∧
      read (append spare' h b ((read h a).drop i)).1 { a with len := i } = read h { a with len := i } := by
    by_cases hn' : a.arr = b.arr
    · have hlen := read_length hv
      have hlt : ¬ b.len + ((read h a).drop i).length ≤ b.cap := by
        cases hn with
        | inl h => exact absurd hn' h
        | inr h => simp; omega
      rw [append, if_neg hlt]
      exact ⟨valid_alloc_old _ hvf, read_alloc_old h _ hv.1⟩
    · exact append_keeps spare' _ hvf hn'
  refine gives_append hk.1 spare _ ?_
  rw [hk.2, (append_read hb spare' _).1, read_upTo hi, List.append_assoc]

theorem C117_insertVec_refuses (spare spare' : List α) (h : Heap α) (a b : Slice) (i : Int) (hi : i < 0 ∨ i > a.len) :
    insertVec spare spare' h a b i = .err := by
  rw [insertVec, if_pos hi]

/-- `InsertVecInt` with items of the slice itself, its first `l`, at an index behind them: the elements from `l`
on are written over before they are copied. -/
theorem C117_insertVec_own {h : Heap α} {a : Slice} (hv : Valid h a) (spare spare' : List α) (l i : Nat) (hl : l < i)
    (hi : i < a.len) :
    Gives (insertVec spare spare' h a { a with len := l } i)
      (((read h a).take l ++ (read h a).drop i ++ (read h a).drop (l + (a.len - i))).take i ++
        (read h a).take l ++ (read h a).drop i) := by
  have hc := hv.2.1
  have hlen := read_length hv
  have hb : Valid h { a with len := l } := valid_len hv (by omega)
  rw [insertVec, if_neg (by omega), upTo_eq (by omega), from_eq (by omega), Res.bind_ok, Res.bind_ok, read_from (by omega)]
  have hvf : Valid h { a with len := i } := valid_len hv (by omega)
  have hfit : l + ((read h a).drop i).length ≤ a.cap := by simp; omega
  have harr : arrayOf (append spare' h { a with len := l } ((read h a).drop i)).1 a =
      writeAt (arrayOf h a) (a.off + l) ((read h a).drop i) := by
    rw [append, if_pos hfit]
    simp [arrayOf, hv.1]
  have hk : Valid (append spare' h { a with len := l } ((read h a).drop i)).1 { a with len := i } := by
    refine ⟨?_, hvf.2.1, ?_⟩
    · rw [append, if_pos hfit]; simpa using hv.1
    · show _ ≤ (arrayOf (append spare' h { a with len := l } ((read h a).drop i)).1 a).length
      rw [harr]
      have h3 := hv.2.2
      simp [writeAt]
      omega
  refine gives_append hk spare _ ?_
  rw [(append_read hb spare' _).1, show read h { a with len := l } = (read h a).take l from read_upTo (by omega),
    ← List.append_assoc]
  congr 2
  show ((arrayOf (append spare' h { a with len := l } ((read h a).drop i)).1 a).drop a.off).take i = _
  rw [harr]
  have h3 := hv.2.2
  have hd : ((arrayOf h a).drop (a.off + l + (a.len - i))).take (i - (l + (a.len - i))) =
      ((read h a).drop (l + (a.len - i))).take (i - (l + (a.len - i))) := by
    rw [read, List.drop_take, List.drop_drop, List.take_take, Nat.min_eq_left (by omega), Nat.add_assoc]
  have h0 : (writeAt (arrayOf h a) (a.off + l) ((read h a).drop i)).drop a.off =
      (read h a).take l ++ (read h a).drop i ++ (arrayOf h a).drop (a.off + l + (a.len - i)) := by
    rw [writeAt, List.append_assoc, List.drop_append, List.drop_take, List.length_take, Nat.min_eq_left (by omega),
      show a.off + l - a.off = l by omega, show a.off - (a.off + l) = 0 by omega, List.drop_zero, List.length_drop, hlen,
      List.append_assoc]
    congr 1
    rw [read, List.take_take, Nat.min_eq_left (by omega)]
  have hT : ((read h a).take l ++ (read h a).drop i).length = l + (a.len - i) := by simp; omega
  rw [h0, List.take_append, List.take_append (l₂ := (read h a).drop (l + (a.len - i))), hT, hd]

/-- So the items of the slice itself are not inserted as they are, if the element that is written over
differs from the one that takes its place. -/
theorem C117_insertVec_violated {h : Heap α} {a : Slice} (hv : Valid h a) (spare spare' : List α) (l i : Nat) (hl : l < i)
    (hi : i < a.len) (hne : (read h a)[l]? ≠ (read h a)[i]?) :
    ¬ Gives (insertVec spare spare' h a { a with len := l } i)
      ((read h a).take i ++ read h { a with len := l } ++ (read h a).drop i) := by
  have hlen := read_length hv
  obtain ⟨h', s', he, _, hr⟩ := C117_insertVec_own hv spare spare' l i hl hi
  rintro ⟨h'', s'', he2, _, hr2⟩
  rw [he] at he2
  cases he2
  have h1 := congrArg (·[l]?) (hr.symm.trans hr2)
  have hll : ((read h a).take l).length = l := by simp; omega
  simp only [List.append_assoc] at h1
  rw [List.getElem?_append_left (by simp; omega), List.getElem?_append_left (by simp; omega),
    List.getElem?_take_of_lt hl, List.getElem?_take_of_lt hl, List.getElem?_append_right (by omega), hll,
    Nat.sub_self, List.getElem?_append_left (by simp; omega), List.getElem?_drop, Nat.add_zero] at h1
  exact hne h1.symm

/-- For `a = [1 2 3 4]`, the item of `a[0:1]` at index 2 should give `[1 2 1 3 4]`, and gives `[1 3 1 3 4]`. -/
example : Valid [[1, 2, 3, 4]] (⟨0, 0, 4, 4⟩ : Slice) ∧ (read [[1, 2, 3, 4]] (⟨0, 0, 4, 4⟩ : Slice))[1]? ≠
      (read [[1, 2, 3, 4]] (⟨0, 0, 4, 4⟩ : Slice))[2]? ∧
    insertVec [] [] [[1, 2, 3, 4]] ⟨0, 0, 4, 4⟩ ⟨0, 0, 1, 4⟩ 2 = .ok ([[1, 3, 4, 4], [1, 3, 1, 3, 4]], ⟨1, 0, 5, 5⟩) ∧
    read [[1, 3, 4, 4], [1, 3, 1, 3, 4]] (⟨1, 0, 5, 5⟩ : Slice) = [1, 3, 1, 3, 4] := by unfold Valid; decide

/-! ### Push and pop -/

/-- `PushInt` and `PushFrontInt` put the item at the end and at the start. -/
theorem C117_push {h : Heap α} {a : Slice} (hv : Valid h a) (spare : List α) (item : α) :
    Gives (.ok (push spare h a item)) (read h a ++ [item]) ∧ Gives (.ok (pushFront spare h a item)) (item :: read h a) := by
  refine ⟨gives_append hv spare _ rfl, gives_append (read_alloc h [item]).2 spare _ ?_⟩
  rw [(read_alloc h [item]).1]
  exact congrArg (item :: ·) (read_alloc_old h [item] hv.1)

/-- `PopInt` and `PopFrontInt` give the item that `PushInt` and `PushFrontInt` put there, and the elements it had. -/
theorem C117_pop {h : Heap α} {a : Slice} (hv : Valid h a) (item : α) (L : List α) :
    (read h a = L ++ [item] → ∃ s, pop h a = .ok (item, s) ∧ Valid h s ∧ read h s = L) ∧
    (read h a = item :: L → ∃ s, popFront h a = .ok (item, s) ∧ Valid h s ∧ read h s = L) := by
  have hl := read_length hv
  have hc := hv.2.1
  constructor
  · intro hr
    have hlen : L.length + 1 = a.len := by rw [← hl, hr]; simp
    refine ⟨{ a with len := a.len - 1 }, ?_, valid_len hv (by omega), ?_⟩
    · rw [pop, if_neg (by omega), get_eq hr (by simp; omega), Res.bind_ok,
        show (a.len : Int) - 1 = ((a.len - 1 : Nat) : Int) by omega, upTo_eq (by omega), Res.bind_ok]
      have : (L ++ [item])[a.len - 1]'(by simp; omega) = item := by
        rw [List.getElem_append_right (by omega)]; simp
      rw [this]
    · rw [read_upTo (by omega), hr, List.take_append_of_le_length (by omega), List.take_of_length_le (by omega)]
  · intro hr
    have hlen : L.length + 1 = a.len := by rw [← hl, hr]; simp
    refine ⟨⟨a.arr, a.off + 1, a.len - 1, a.cap - 1⟩, ?_, valid_from hv (by omega), ?_⟩
    · rw [popFront, get_eq hr (by simp), Res.bind_ok, show (1 : Int) = ((1 : Nat) : Int) by omega, from_eq (by omega), Res.bind_ok]
      rfl
    · rw [read_from (by omega), hr]
      rfl

/-- On empty slices they panic. -/
theorem C117_pop_violated {h : Heap α} {a : Slice} (he : a.len = 0) : pop h a = .panic ∧ popFront h a = .panic := by
  simp [pop, popFront, get, read, he, Res.bind_panic]

/-! ### In place -/

theorem filter_eq (f : α → Bool) {h : Heap α} {a : Slice} (hv : Valid h a) :
    filter f h a = .ok (store h a (filtered f (read h a) a.len), { a with len := ((read h a).filter f).length }) := by
  have hl := read_length hv
  have hc := hv.2.1
  have := filterLoop_eq f hv hl a.len (Nat.le_refl _)
  have e0 : filtered f (read h a) 0 = read h a := by simp [filtered]
  simp only [Nat.sub_self, List.take_zero, List.filter_nil, List.length_nil, e0, store_read hv] at this
  have hle : ((read h a).filter f).length ≤ a.len := by rw [← hl]; exact List.length_filter_le _ _
  rw [filter, this, Res.bind_ok, upTo_eq (by omega), Res.bind_ok]

/-- `FilterInt`: the elements that meet the condition. -/
theorem C117_filter (f : α → Bool) {h : Heap α} {a : Slice} (hv : Valid h a) :
    Gives (filter f h a) ((read h a).filter f) := by
  have hl := read_length hv
  have hc := hv.2.1
  have hle : ((read h a).filter f).length ≤ a.len := by rw [← hl]; exact List.length_filter_le _ _
  have hfl := filtered_length f (read h a) (Nat.le_of_eq hl.symm)
  refine ⟨_, _, filter_eq f hv, valid_len (valid_store hv (hfl.trans hl)) (by omega), ?_⟩
  rw [read_upTo hle, read_store hv (hfl.trans hl), filtered, ← hl, List.take_length,
    List.take_append_of_le_length (Nat.le_refl _), List.take_length]

theorem filterReuse_eq (zero : α) (f : α → Bool) (spare : List α) {h : Heap α} {a : Slice} (hv : Valid h a) :
    filterReuse zero f spare h a =
      .ok (store h a ((read h a).filter f ++ List.replicate (a.len - ((read h a).filter f).length) zero),
        { a with len := ((read h a).filter f).length }) := by
  have hl := read_length hv
  have := reuseLoop_eq f spare hv hl a.len (Nat.le_refl _)
  have e0 : filtered f (read h a) 0 = read h a := by simp [filtered]
  simp only [Nat.sub_self, List.take_zero, List.filter_nil, List.length_nil, e0, store_read hv] at this
  have hle : ((read h a).filter f).length ≤ a.len := by rw [← hl]; exact List.length_filter_le _ _
  have hfl := filtered_length f (read h a) (Nat.le_of_eq hl.symm)
  rw [filterReuse, show (0 : Int) = ((0 : Nat) : Int) by omega, upTo_eq (Nat.zero_le _), Res.bind_ok, this, Res.bind_ok,
    zeroLoop_eq zero hv _ _ (hfl.trans hl) (by simp only []; omega), Res.bind_ok]
  simp only []
  congr 4
  rw [Nat.sub_sub_self hle, filtered, ← hl, List.take_length, List.take_append_of_le_length (Nat.le_refl _), List.take_length]

/-- `FilterIntNoAllocate`: the elements that meet the condition; behind them the slice has zero values. -/
theorem C117_filterReuse (zero : α) (f : α → Bool) (spare : List α) {h : Heap α} {a : Slice} (hv : Valid h a) :
    Gives (filterReuse zero f spare h a) ((read h a).filter f) ∧
    ∀ h' s, filterReuse zero f spare h a = .ok (h', s) →
      read h' a = (read h a).filter f ++ List.replicate (a.len - ((read h a).filter f).length) zero := by
  have hl := read_length hv
  have hc := hv.2.1
  have hle : ((read h a).filter f).length ≤ a.len := by rw [← hl]; exact List.length_filter_le _ _
  have hlen : ((read h a).filter f ++ List.replicate (a.len - ((read h a).filter f).length) zero).length = a.len := by simp; omega
  rw [filterReuse_eq zero f spare hv]
  refine ⟨⟨_, _, rfl, valid_len (valid_store hv hlen) (by omega), ?_⟩, ?_⟩
  · rw [read_upTo hle, read_store hv hlen, List.take_append_of_le_length (Nat.le_refl _), List.take_length]
  · intro h' s he
    cases he
    exact read_store hv hlen

theorem reverse_eq {h : Heap α} {a : Slice} (hv : Valid h a) :
    reverse h a = .ok (store h a (read h a).reverse, a) ∧ reverseLR h a = .ok (store h a (read h a).reverse, a) := by
  have hl := read_length hv
  constructor
  · have := reverseLoop_eq hv hl (a.len / 2) (read h a) (Nat.le_refl _) ⟨rfl, fun p hp => by
      split
      · congr 1; omega
      · rfl⟩
    rw [store_read hv] at this
    rw [reverse, this, Res.bind_ok]
  · have := reverseLRLoop_eq hv hl a.len 0 (read h a) (by omega) (by omega) ⟨rfl, fun p hp => by rw [if_neg (by omega)]⟩
    rw [store_read hv, Nat.sub_zero] at this
    rw [reverseLR, this, Res.bind_ok]

/-- `ReverseInt`, `ReverseLRInt` and `Reverse`: the elements from last to first. -/
theorem C117_reverse {h : Heap α} {a : Slice} (hv : Valid h a) :
    Gives (reverse h a) (read h a).reverse ∧ Gives (reverseLR h a) (read h a).reverse ∧
    Gives (reversed h a) (read h a).reverse := by
  have hl := read_length hv
  have g := fun (h : Heap α) (a : Slice) (hv : Valid h a) => (⟨valid_store hv (L := (read h a).reverse)
    (by simpa using read_length hv), read_store hv (by simpa using read_length hv)⟩ :
    Valid (store h a (read h a).reverse) a ∧ read (store h a (read h a).reverse) a = (read h a).reverse)
  obtain ⟨r1, r2⟩ := read_alloc h (read h a)
  refine ⟨⟨_, _, (reverse_eq hv).1, g h a hv⟩, ⟨_, _, (reverse_eq hv).2, g h a hv⟩,
    ⟨_, _, (reverse_eq r2).2, (g _ _ r2).1, (g _ _ r2).2.trans (by rw [r1])⟩⟩

theorem shuffle_eq (random : Nat → Nat) (hr : ∀ i, random i ≤ i) {h : Heap α} {a : Slice} (hv : Valid h a) :
    ∃ M, M.Perm (read h a) ∧ shuffle random h a = .ok (store h a M, a) := by
  obtain ⟨M, hp, he⟩ := shuffleLoop_eq random hr hv (a.len - 1) (read h a) (read_length hv) (by omega)
  rw [store_read hv] at he
  exact ⟨M, hp, by rw [shuffle, he, Res.bind_ok]⟩

/-- `ShuffleInt`: the same elements in some order, whatever the random numbers; and every order comes out for some
random numbers. -/
theorem C117_shuffle {h : Heap α} {a : Slice} (hv : Valid h a) :
    (∀ random : Nat → Nat, (∀ i, random i ≤ i) → ∃ M, M.Perm (read h a) ∧ Gives (shuffle random h a) M) ∧
    (∀ M : List α, M.Perm (read h a) → ∃ random : Nat → Nat, (∀ i, random i ≤ i) ∧ Gives (shuffle random h a) M) := by
  have hl := read_length hv
  constructor
  · intro random hr
    obtain ⟨M, hp, he⟩ := shuffle_eq random hr hv
    exact ⟨M, hp, _, _, he, valid_store hv (hp.length_eq.trans hl), read_store hv (hp.length_eq.trans hl)⟩
  · intro M hp
    obtain ⟨r, hr, he⟩ := shuffleLoop_reach hv (a.len - 1) (read h a) M hl (by omega) hp (by
      rw [List.drop_of_length_le (by rw [hp.length_eq]; omega), List.drop_of_length_le (by omega)])
    rw [store_read hv] at he
    exact ⟨r, hr, _, _, by rw [shuffle, he, Res.bind_ok], valid_store hv (hp.length_eq.trans hl),
      read_store hv (hp.length_eq.trans hl)⟩

theorem dedup_eq [DecidableEq α] (sort : List α → List α) {h : Heap α} {a : Slice} (hv : Valid h a) (hn : a.len ≠ 0)
    (hlen : (sort (read h a)).length = a.len) :
    dedup sort h a = .ok (store h a (deduped (sort (read h a)) a.len), { a with len := (uniq (sort (read h a))).length }) := by
  have hc := hv.2.1
  have hu := uniq_length_le (sort (read h a)) _ (Nat.le_refl _)
  have h1 : 1 ≤ (uniq (sort (read h a))).length := by
    have := uniq_take_succ (sort (read h a)) (i := a.len - 1) (by omega)
    rw [Nat.sub_add_cancel (by omega), List.take_of_length_le (by omega)] at this
    rw [this]
    exact uniqSnoc_length _ _
  rw [List.take_length] at hu
  have := dedupLoop_eq hv hlen (a.len - 1) (by omega)
  rw [show a.len - (a.len - 1) = 0 + 1 by omega] at this
  have e0 : deduped (sort (read h a)) (0 + 1) = sort (read h a) ∧ (uniq ((sort (read h a)).take (0 + 1))).length = 1 := by
    rw [deduped]
    generalize sort (read h a) = M at hlen ⊢
    cases M with
    | nil => simp at hlen; omega
    | cons x M => simp [uniq, uniqSnoc]
  rw [e0.1, e0.2] at this
  have e1 : h.set a.arr (writeAt (arrayOf h a) a.off (sort (read h a))) = store h a (sort (read h a)) := rfl
  simp only [Nat.sub_self] at this
  rw [dedup, e1, this, Res.bind_ok]
  simp only []
  rw [show (((uniq (sort (read h a))).length - 1 : Nat) : Int) + 1 = (((uniq (sort (read h a))).length : Nat) : Int) by omega,
    upTo_eq (by omega), Res.bind_ok]

/-- `DeduplicateInt`: for a slice that is not empty, each element once, in increasing order. `r` is "at most", and
`sort.Ints` sorts. -/
theorem C117_dedup_partial [DecidableEq α] (r : α → α → Prop) (hanti : ∀ x y, r x y → r y x → x = y)
    (sort : List α → List α) (hsort : ∀ L, (sort L).Perm L ∧ (sort L).Pairwise r) {h : Heap α} {a : Slice}
    (hv : Valid h a) (hn : a.len ≠ 0) :
    ∃ M : List α, Gives (dedup sort h a) M ∧ M.Pairwise (fun x y => r x y ∧ x ≠ y) ∧ ∀ x, x ∈ M ↔ x ∈ read h a := by
  have hl := read_length hv
  have hc := hv.2.1
  obtain ⟨hp, hs⟩ := hsort (read h a)
  have hlen : (sort (read h a)).length = a.len := hp.length_eq.trans hl
  have hu := uniq_length_le (sort (read h a)) _ (Nat.le_refl _)
  rw [List.take_length] at hu
  have hdl := deduped_length (sort (read h a)) (Nat.le_of_eq hlen.symm)
  refine ⟨uniq (sort (read h a)), ⟨_, _, dedup_eq sort hv hn hlen, valid_len (valid_store hv (hdl.trans hlen)) (by omega), ?_⟩,
    uniq_increasing r hanti hs, fun x => (uniq_mem _ x).trans hp.mem_iff⟩
  rw [read_upTo (by omega), read_store hv (hdl.trans hlen), deduped, ← hlen, List.take_length,
    List.take_append_of_le_length (Nat.le_refl _), List.take_length]

/-- Of an empty slice, `DeduplicateInt` gives no empty slice: it panics, or gives one element that is in the array
behind the slice. -/
theorem C117_dedup_violated [DecidableEq α] (sort : List α → List α) (hsort : ∀ L, (sort L).Perm L) {h : Heap α} {a : Slice}
    (hv : Valid h a) (he : a.len = 0) :
    (a.cap = 0 → dedup sort h a = .panic) ∧ (0 < a.cap → dedup sort h a = .ok (h, { a with len := 1 })) := by
  have hr : read h a = [] := by simp [read, he]
  have hs : sort [] = [] := List.perm_nil.mp (hsort [])
  have hst := store_read hv
  rw [hr] at hst
  have e1 : h.set a.arr (writeAt (arrayOf h a) a.off (sort (read h a))) = h := by rw [hr, hs]; exact hst
  rw [dedup, e1, he]
  simp only [Nat.zero_sub, dedupLoop, Res.bind_ok]
  constructor
  · intro hc
    rw [Slice.upTo, if_neg (by simp [hc]), Res.bind_panic]
  · intro hc
    rw [Slice.upTo, if_pos (by simp; omega), Res.bind_ok]
    rfl

/-! ### Batches -/

/-- `BatchInt`: the batches together are the slice; all but the last have `size` elements, the last has at most as many,
and at least one if the slice has one. -/
theorem C117_batch_partial {h : Heap α} {a : Slice} (hv : Valid h a) (size : Nat) (hs : 0 < size) :
    ∃ front last, batch a size = .ok (front ++ [last]) ∧ (front ++ [last]).flatMap (read h) = read h a ∧
      (∀ s ∈ front, (read h s).length = size) ∧ (read h last).length ≤ size ∧ (read h a ≠ [] → read h last ≠ []) := by
  obtain ⟨front, last, h1, h2, h3, h4, h5, h6⟩ := batchLoop_eq (h := h) hs a.len a (Nat.le_refl _) hv
  refine ⟨front, last, ?_, h2, ?_, ?_, ?_⟩
  · rw [batch, if_neg (by omega), if_neg (by omega), Int.toNat_natCast, h1]
  · intro s hs
    rw [read_length (h3 s hs).2.2]
    exact (h3 s hs).1
  · rw [read_length h4]; exact h5
  · intro hne hne'
    have e1 := read_length hv
    have e2 := read_length h4
    rw [hne'] at e2
    apply h6 _ e2.symm
    intro e
    apply hne
    rw [← List.length_eq_zero_iff, e1, e]

/-- A negative size is refused with an error; size 0 is not, it panics. -/
theorem C117_batch_violated (a : Slice) : (∀ size : Int, size < 0 → batch a size = .err) ∧ batch a 0 = .panic := by
  constructor
  · intro size hs
    rw [batch, if_pos hs]
  · rfl

/-- `Contain` says whether the item is in the list. -/
theorem C117_contain [DecidableEq α] (item : α) (L : List α) : contain item L = true ↔ item ∈ L := by
  induction L with
  | nil => simp [contain]
  | cons v vs ih =>
    rw [contain]
    split
    · next h => simp [h]
    · next h => rw [ih, List.mem_cons]; simp [Ne.symm h]

/-! ### Cases -/

example : Valid [[0, 1, 2, 3, 2, 9]] ⟨0, 1, 4, 5⟩ ∧ read [[0, 1, 2, 3, 2, 9]] ⟨0, 1, 4, 5⟩ = [1, 2, 3, 2] := by
  simp [Valid, read, arrayOf]

example : cut (-1) [] [[0, 1, 2, 3, 2, 9]] ⟨0, 1, 4, 5⟩ 1 3 = .ok ([[0, 1, 2, 3, 2, 9]], ⟨0, 1, 2, 5⟩) := by decide

example : cut 0 [] [[0, 1, 2, 3, 2, 9]] ⟨0, 1, 4, 5⟩ (-1) 3 = .err := by decide

example : expand 0 [] [] [[7, 8, 9]] ⟨0, 0, 3, 3⟩ 1 2 =
    .ok ([[7, 8, 9], [0, 0], [0, 0, 8, 9], [7, 0, 0, 8, 9]], ⟨3, 0, 5, 5⟩) := by decide

example : dedup (fun _ => [1, 2, 2, 3]) [[0, 1, 2, 3, 2, 9]] ⟨0, 1, 4, 5⟩ =
    .ok ([[0, 1, 2, 3, 3, 9]], ⟨0, 1, 3, 5⟩) := by decide

example : dedup (fun l => l) [[0, 1, 2]] ⟨0, 1, 0, 2⟩ = .ok ([[0, 1, 2]], ⟨0, 1, 1, 2⟩) ∧
    read [[0, 1, 2]] (⟨0, 1, 1, 2⟩ : Slice) = [1] := by decide

example : batch ⟨0, 1, 5, 5⟩ 2 = .ok [⟨0, 1, 2, 2⟩, ⟨0, 3, 2, 2⟩, ⟨0, 5, 1, 1⟩] := by decide

example : filterReuse 0 (fun n => n = 2) [] [[0, 1, 2, 3, 2, 9]] ⟨0, 1, 4, 5⟩ =
    .ok ([[0, 2, 2, 0, 0, 9]], ⟨0, 1, 2, 5⟩) := by decide

example : shuffle (fun _ => 0) [[1, 2, 3]] ⟨0, 0, 3, 3⟩ = .ok ([[2, 3, 1]], ⟨0, 0, 3, 3⟩) := by decide

end Tok.SliceUtil
