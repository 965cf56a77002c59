import Verif.Slice.Props

/-!
# C118: which of the functions of util/slice leave the slices of the caller as they were

`t` is any other slice of the caller, of the same array or of another.
-/

namespace Tok.SliceUtil

/-- All slices there are have the elements they had. -/
def Kept (h h' : Heap α) : Prop := ∀ t, Valid h t → Valid h' t ∧ read h' t = read h t

theorem Kept.refl (h : Heap α) : Kept h h := fun _ ht => ⟨ht, rfl⟩

theorem Kept.trans {h h' h'' : Heap α} (h1 : Kept h h') (h2 : Kept h' h'') : Kept h h'' :=
  fun t ht => ⟨(h2 t (h1 t ht).1).1, (h2 t (h1 t ht).1).2.trans (h1 t ht).2⟩

theorem kept_alloc (h : Heap α) (vs : List α) : Kept h (h ++ [vs]) :=
  fun _ ht => ⟨valid_alloc_old vs ht, read_alloc_old h vs ht.1⟩

/-- Appending to a slice without room keeps all. -/
theorem kept_append {h : Heap α} {s : Slice} (hv : Valid h s) (spare vs : List α) (hc : s.cap < s.len + vs.length ∨ vs = []) :
    Kept h (append spare h s vs).1 := by
  by_cases hf : s.cap < s.len + vs.length
  · rw [append, if_neg (by omega)]
    exact kept_alloc h _
  · have hn : vs = [] := hc.resolve_left hf
    subst hn
    rw [append_fits hv spare [] (by simpa using hv.2.1)]
    simp only [List.append_nil, List.length_nil, Nat.add_zero]
    rw [store_read hv]
    exact Kept.refl h

/-! ### New arrays -/

/-- `CopyInt`, `PushFrontInt` and `Reverse` change no slice. -/
theorem C118_new {h : Heap α} {a : Slice} (hv : Valid h a) (spare : List α) (item : α) :
    Kept h (copySlice spare h a).1 ∧ Kept h (pushFront spare h a item).1 ∧
    ∀ h' s, reversed h a = .ok (h', s) → Kept h h' := by
  refine ⟨?_, ?_, ?_⟩
  · refine kept_append (s := { a with len := 0, cap := 0 })
      ⟨hv.1, Nat.le_refl _, by have := hv.2.2; simp only [arrayOf] at this ⊢; omega⟩ spare (read h a) ?_
    cases hr : read h a with
    | nil => exact .inr rfl
    | cons => exact .inl (by simp)
  · rw [pushFront]
    refine (kept_alloc h [item]).trans (kept_append (read_alloc h [item]).2 spare _ ?_)
    generalize read (alloc h [item]).1 a = l
    cases l with
    | nil => exact .inr rfl
    | cons => exact .inl (by simp [alloc])
  · intro h' s he
    obtain ⟨r1, r2⟩ := read_alloc h (read h a)
    have e : reversed h a = _ := (reverse_eq r2).2
    rw [e] at he
    cases he
    have hw := within_store r2 (L := (read (alloc h (read h a)).1 (alloc h (read h a)).2).reverse) (by simpa using read_length r2)
    intro t ht
    have ht' := kept_alloc h (read h a) t ht
    have hn : t.arr ≠ (alloc h (read h a)).2.arr := by have := ht.1; simp [alloc]; omega
    refine ⟨⟨by rw [hw.count]; exact ht'.1.1, ht.2.1, ?_⟩, (hw.other (.inl hn)).trans ht'.2⟩
    have := ht'.1.2.2
    simp only [arrayOf] at this ⊢
    rw [hw.arrays t.arr hn]
    exact this

/-! ### In place -/

/-- The functions that work in place change no more than the elements of the slice they are called with. -/
theorem C118_inplace [DecidableEq α] {h : Heap α} {a : Slice} (hv : Valid h a) (zero : α) (f : α → Bool) (spare : List α)
    (random : Nat → Nat) (hr : ∀ i, random i ≤ i) (sort : List α → List α) (hsort : ∀ L, (sort L).Perm L)
    (r : Res (Heap α × Slice))
    (hin : r ∈ [filter f h a, filterReuse zero f spare h a, reverse h a, reverseLR h a, shuffle random h a, dedup sort h a])
    (h' : Heap α) (s : Slice) (he : r = .ok (h', s)) : Within a h h' := by
  have hl := read_length hv
  subst he
  simp only [List.mem_cons, List.not_mem_nil, or_false] at hin
  rcases hin with e | e | e | e | e | e
  · rw [filter_eq f hv] at e
    cases e
    exact within_store hv ((filtered_length f (read h a) (Nat.le_of_eq hl.symm)).trans hl)
  · rw [filterReuse_eq zero f spare hv] at e
    cases e
    have : ((read h a).filter f).length ≤ a.len := by rw [← hl]; exact List.length_filter_le _ _
    exact within_store hv (by simp; omega)
  · rw [(reverse_eq hv).1] at e
    cases e
    exact within_store hv (by simpa using hl)
  · rw [(reverse_eq hv).2] at e
    cases e
    exact within_store hv (by simpa using hl)
  · obtain ⟨M, hp, he⟩ := shuffle_eq random hr hv
    rw [he] at e
    cases e
    exact within_store hv (hp.length_eq.trans hl)
  · by_cases hn : a.len = 0
    · have hd := C117_dedup_violated sort hsort hv hn
      by_cases hc : a.cap = 0
      · rw [hd.1 hc] at e; cases e
      · rw [hd.2 (by omega)] at e
        cases e
        exact Within.refl a h
    · have hlen : (sort (read h a)).length = a.len := (hsort _).length_eq.trans hl
      rw [dedup_eq sort hv hn hlen] at e
      cases e
      exact within_store hv ((deduped_length _ (Nat.le_of_eq hlen.symm)).trans hlen)

/-- So slices of other arrays, and before and behind it, keep their elements. -/
theorem C118_inplace_others {h h' : Heap α} {a : Slice} (hw : Within a h h') (t : Slice)
    (ht : t.arr ≠ a.arr ∨ t.off + t.len ≤ a.off ∨ a.off + a.len ≤ t.off) : read h' t = read h t := hw.other ht

/-! ### Cut and delete -/

theorem cut_eq (least : Int) (hl : least ≤ 0) {h : Heap α} {a : Slice} (hv : Valid h a) (spare : List α) (start stop : Nat)
    (h1 : start ≤ stop) (h2 : stop ≤ a.len) :
    cut least spare h a start stop =
      .ok (store h a ((read h a).take start ++ (read h a).drop stop ++ (read h a).drop (start + (a.len - stop))),
        { a with len := start + (a.len - stop) }) := by
  have hc := hv.2.1
  have hlen := read_length hv
  rw [cut, if_neg (by omega), if_neg (by omega), if_neg (by omega), upTo_eq (by omega), from_eq h2, Res.bind_ok, Res.bind_ok,
    read_from h2, append_fits (valid_len hv (by omega)) spare _ (by simp; omega)]
  have e : ((read h a).drop stop).length = a.len - stop := by simp [hlen]
  simp only [e]
  rw [read_upTo (by omega)]
  congr 2
  exact store_front hv (n := start + (a.len - stop)) (by simp; omega) (by omega)

/-- `CutInt` and `CutStr` change the slice they are called with: it has the elements that are left, and behind them
its last elements as before. They change nothing else. -/
theorem C118_cut_violated (least : Int) (hl : least ≤ 0) {h : Heap α} {a : Slice} (hv : Valid h a) (spare : List α)
    (start stop : Nat) (h1 : start ≤ stop) (h2 : stop ≤ a.len) (h' : Heap α) (s : Slice)
    (he : cut least spare h a start stop = .ok (h', s)) :
    read h' a = (read h a).take start ++ (read h a).drop stop ++ (read h a).drop (a.len - (stop - start)) ∧ Within a h h' := by
  have hlen := read_length hv
  rw [cut_eq least hl hv spare start stop h1 h2] at he
  cases he
  rw [read_store hv (by simp; omega), show start + (a.len - stop) = a.len - (stop - start) by omega]
  exact ⟨rfl, within_store hv (by simp; omega)⟩

/-- So does `DeleteInt`: it doubles the last element. -/
theorem C118_delete_violated {h : Heap α} {a : Slice} (hv : Valid h a) (spare : List α) (i : Nat) (hi : i < a.len)
    (h' : Heap α) (s : Slice) (he : delete spare h a i = .ok (h', s)) :
    read h' a = (read h a).eraseIdx i ++ (read h a).drop (a.len - 1) ∧ Within a h h' := by
  have e : delete spare h a i = cut 0 spare h a (i : Nat) ((i + 1 : Nat) : Int) := by
    rw [delete, cut, if_neg (by omega), if_neg (by omega), if_neg (by omega), if_neg (by omega)]
    rfl
  rw [e] at he
  have := C118_cut_violated 0 (by omega) hv spare i (i + 1) (by omega) (by omega) h' s he
  rw [List.eraseIdx_eq_take_drop_succ]
  simpa using this

/-! ### Push, extend, insert -/

/-- `PushInt` changes no slice if there is no room behind the elements; else it changes none that ends where the slice
ends or before. -/
theorem C118_push_partial {h : Heap α} {a : Slice} (hv : Valid h a) (spare : List α) (item : α) :
    (a.len = a.cap → Kept h (push spare h a item).1) ∧
    ∀ t, Valid h t → (t.arr ≠ a.arr ∨ t.off + t.len ≤ a.off + a.len) → read (push spare h a item).1 t = read h t :=
  ⟨fun hc => kept_append hv spare _ (.inl (by simp; omega)),
    fun t ht ho => append_other hv ht.1 spare _ (ho.elim .inl (fun h => .inr (.inl h)))⟩

/-- If there is room, the element behind is overwritten, in whatever slices it is. -/
theorem C118_push_violated {h : Heap α} {a : Slice} (hv : Valid h a) (spare : List α) (item : α) (hc : a.len < a.cap) :
    Valid h ⟨a.arr, a.off + a.len, 1, a.cap - a.len⟩ ∧
    read (push spare h a item).1 ⟨a.arr, a.off + a.len, 1, a.cap - a.len⟩ = [item] := by
  have hb := hv.2.2
  have hr := append_read hv spare [item]
  constructor
  · exact ⟨hv.1, by simp only []; omega, by simp only [arrayOf] at hb ⊢; omega⟩
  · rw [push]
    rw [append_fits hv spare [item] (by simp; omega)] at hr ⊢
    have := read_from (h := store h { a with len := a.len + 1 } (read h a ++ [item])) (s := { a with len := a.len + 1 })
      (n := a.len) (by simp only []; omega)
    simp only [Nat.add_sub_cancel_left] at this
    simp only [List.length_singleton] at hr ⊢
    have e : read (store h { a with len := a.len + 1 } (read h a ++ [item])) ⟨a.arr, a.off + a.len, 1, a.cap - a.len⟩ =
      (read (store h { a with len := a.len + 1 } (read h a ++ [item])) { a with len := a.len + 1 }).drop a.len := this
    rw [e, hr.1, List.drop_append_of_le_length (by rw [read_length hv]; exact Nat.le_refl _),
      List.drop_of_length_le (by rw [read_length hv]; exact Nat.le_refl _), List.nil_append]

/-- `InsertInt` changes no slice if there is no room behind the elements. -/
theorem C118_insert_partial {h : Heap α} {a : Slice} (hv : Valid h a) (spare spare' : List α) (item : α) (i : Nat)
    (hi : i ≤ a.len) (hc : a.len = a.cap) (h' : Heap α) (s : Slice) (he : insert spare spare' h a item i = .ok (h', s)) :
    Kept h h' := by
  rw [insert, if_neg (by omega), upTo_eq (by omega), from_eq hi, Res.bind_ok, Res.bind_ok] at he
  simp only [Res.ok.injEq] at he
  have hb : read (alloc h [item]).1 ⟨a.arr, a.off + i, a.len - i, a.cap - i⟩ = (read h a).drop i := by
    rw [← read_from hi]
    exact read_alloc_old h [item] hv.1
  rw [hb] at he
  obtain ⟨hz1, hz2⟩ := read_alloc h [item]
  have hr := append_read hz2 spare' ((read h a).drop i)
  rw [hr.1, hz1] at he
  have k1 : Kept h (append spare' (alloc h [item]).1 (alloc h [item]).2 ((read h a).drop i)).1 := by
    refine (kept_alloc h [item]).trans (kept_append hz2 spare' _ ?_)
    cases (read h a).drop i with
    | nil => exact .inr rfl
    | cons => exact .inl (by simp [alloc])
  have hvf := (k1 { a with len := i } (valid_len hv (by omega))).1
  have k2 := kept_append hvf spare ([item] ++ (read h a).drop i) (.inl (by
    simp only [List.length_append, List.length_drop, read_length hv, List.length_singleton]; omega))
  have e : h' = (append spare (append spare' (alloc h [item]).1 (alloc h [item]).2 ((read h a).drop i)).1 { a with len := i }
    ([item] ++ (read h a).drop i)).1 := by rw [he]
  rw [e]
  exact k1.trans k2

/-- If there is room, the slice it is called with changes: its elements from `i` on move one further, the last one
behind its end. -/
theorem C118_insert_violated {h : Heap α} {a : Slice} (hv : Valid h a) (spare spare' : List α) (item : α) (i : Nat)
    (hi : i < a.len) (hc : a.len < a.cap) (h' : Heap α) (s : Slice) (he : insert spare spare' h a item i = .ok (h', s)) :
    read h' a = ((read h a).take i ++ item :: (read h a).drop i).take a.len := by
  have hl := read_length hv
  obtain ⟨h2, s2, e2, hv2, hr2⟩ := C117_insert hv spare spare' item i (by omega)
  rw [he] at e2
  cases e2
  rw [insert, if_neg (by omega), upTo_eq (by omega), from_eq (by omega), Res.bind_ok, Res.bind_ok] at he
  simp only [Res.ok.injEq] at he
  have hb : read (alloc h [item]).1 ⟨a.arr, a.off + i, a.len - i, a.cap - i⟩ = (read h a).drop i := by
    rw [← read_from (by omega)]
    exact read_alloc_old h [item] hv.1
  rw [hb] at he
  obtain ⟨hz1, hz2⟩ := read_alloc h [item]
  have hr := append_read hz2 spare' ((read h a).drop i)
  rw [hr.1, hz1, append, if_pos (by simp [hl]; omega)] at he
  have es : s = { a with len := a.len + 1 } := by
    have := congrArg Prod.snd he
    simp only [List.length_append, List.length_drop, hl, List.length_singleton] at this
    rw [← this]
    congr 1
    omega
  subst es
  rw [← hr2]
  exact read_upTo (s := { a with len := a.len + 1 }) (n := a.len) (by simp only []; omega)

/-! ### Batches -/

/-- Appending to a batch that is not the last changes no slice, so none of the other batches. -/
theorem C118_batch {h : Heap α} {a : Slice} (hv : Valid h a) (size : Nat) (hs : 0 < size) (bs : List Slice)
    (hb : batch a size = .ok bs) (b : Slice) (hmem : b ∈ bs.dropLast) (spare vs : List α) :
    Kept h (append spare h b vs).1 := by
  obtain ⟨front, last, h1, h2, h3, -⟩ := batchLoop_eq (h := h) hs a.len a (Nat.le_refl _) hv
  rw [batch, if_neg (by omega), if_neg (by omega), Int.toNat_natCast, h1] at hb
  cases hb
  rw [List.dropLast_concat] at hmem
  obtain ⟨g1, g2, g3⟩ := h3 b hmem
  refine kept_append g3 spare vs ?_
  cases vs with
  | nil => exact .inr rfl
  | cons => exact .inl (by simp; omega)

/-! ### Cases -/

example : delete [] [[1, 2, 3]] ⟨0, 0, 3, 3⟩ 0 = .ok ([[2, 3, 3]], ⟨0, 0, 2, 3⟩) := by decide

example : push [] [[1, 2, 3]] ⟨0, 0, 2, 3⟩ 9 = ([[1, 2, 9]], ⟨0, 0, 3, 3⟩) := by decide

example : insert [] [] [[1, 2, 3]] ⟨0, 0, 2, 3⟩ 9 0 = .ok ([[9, 1, 2], [9], [9, 1, 2]], ⟨0, 0, 3, 3⟩) := by decide

example : reversed [[1, 2, 3]] ⟨0, 0, 3, 3⟩ = .ok ([[1, 2, 3], [3, 2, 1]], ⟨1, 0, 3, 3⟩) := by decide

end Tok.SliceUtil
