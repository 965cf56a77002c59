import Verif.Norm.Fresh
import Verif.Norm.PropsPattern

/-! Lemmas about slicing normalized strings. -/

namespace Tok.Norm

/-- `i` is the byte offset of a character of the text, or its end. -/
def Boundary (s : Str) (i : Nat) : Prop := ∃ u v, s = u ++ v ∧ i = blen u

theorem firstByte_runeStart (b : UInt8) (h : b.IsUTF8FirstByte) : runeStart b = true := by
  have key : ∀ k : Fin 256, (UInt8.ofNat k.val).IsUTF8FirstByte → runeStart (UInt8.ofNat k.val) = true := by
    unfold UInt8.IsUTF8FirstByte; decide +kernel
  have := key ⟨b.toNat, b.toNat_lt⟩
  simp only [UInt8.ofNat_toNat] at this
  exact this h

theorem boundary_le {s : Str} {i : Nat} (h : Boundary s i) : i ≤ blen s := by
  obtain ⟨u, v, rfl, rfl⟩ := h
  rw [blen_append]; omega

theorem boundary_runeStart {s : Str} {i : Nat} (h : Boundary s i) (hi : i < blen s) :
    ∃ b, idx (encStr s) (i : Int) = .ok b ∧ runeStart b = true := by
  obtain ⟨u, v, rfl, rfl⟩ := h
  cases v with
  | nil => simp at hi
  | cons c v =>
    have hl : blen u < (encStr (u ++ c :: v)).length := by rw [length_encStr]; exact hi
    refine ⟨_, idx_ok hl, firstByte_runeStart _ ?_⟩
    have hpos : 0 < (String.utf8EncodeChar c).length := by
      rw [String.length_utf8EncodeChar]; exact c.utf8Size_pos
    have he : (encStr (u ++ c :: v))[blen u]'hl = (String.utf8EncodeChar c)[0]'hpos := by
      have : (encStr (u ++ c :: v))[blen u]? = (String.utf8EncodeChar c)[0]? := by
        rw [encStr_append, List.getElem?_append_right (by rw [length_encStr]; omega), length_encStr,
          Nat.sub_self, encStr_cons, List.getElem?_append_left hpos]
      rw [List.getElem?_eq_getElem hl, List.getElem?_eq_getElem hpos] at this
      exact Option.some.inj this
    rw [he]
    exact UInt8.isUTF8FirstByte_getElem_utf8EncodeChar.mpr rfl

theorem full_eq {a b N : Nat} (on : IndexOn) (hb : b ≤ N) :
    (⟨(a : Int), (b : Int), on⟩ : Rng).full N = ⟨(a : Int), (b : Int), on⟩ := by
  unfold Rng.full
  simp only [Rng.mk.injEq, and_true]
  exact ⟨by rw [if_neg (by omega)], by rw [if_neg (by omega)]⟩

/-- `validateRange` accepts ranges of whole characters, unless they start at the end. -/
theorem validate_ok {n : NStr} {s : Str} (hs : n.normalized = encStr s) {a b : Nat}
    (ha : Boundary s a) (hb : Boundary s b) (hend : a = blen s → a = 0 ∧ b = 0) :
    n.validate ⟨a, b, .normalized⟩ = .ok (some ⟨a, b, .normalized⟩) := by
  have hal := boundary_le ha
  have hbl := boundary_le hb
  have hlen : n.normalized.length = blen s := by rw [hs, length_encStr]
  unfold NStr.validate
  simp only [hlen, full_eq _ hbl]
  rw [if_neg (by omega)]
  by_cases h0 : (a : Int) = 0 ∧ (b : Int) = 0
  · rw [if_pos h0]
  · rw [if_neg h0]
    have h1 : boundOk n.normalized a 0 = .ok true := by
      unfold boundOk
      by_cases hz : (a : Int) = 0
      · rw [if_pos hz]
      · obtain ⟨x, hx, hr⟩ := boundary_runeStart ha (by
          rcases Nat.lt_or_eq_of_le hal with h | h
          · exact h
          · have := hend h; omega)
        rw [if_neg hz, hs, hx]
        simp [hr]
    have h2 : boundOk n.normalized b (blen s : Int) = .ok true := by
      unfold boundOk
      by_cases hz : (b : Int) = (blen s : Int)
      · rw [if_pos hz]
      · obtain ⟨x, hx, hr⟩ := boundary_runeStart hb (by omega)
        rw [if_neg hz, hs, hx]
        simp [hr]
    rw [h1]
    simp only [Res.bind_ok, Bool.true_eq_false, if_false]
    rw [h2]
    simp

/-- What a slice of the normalized string holds: its text, alignments that name the same places of
the original, and the part of the original they need. -/
structure SliceOf (n : NStr) (a b : Nat) (x : NStr) : Prop where
  text : x.normalized = cutOut n.normalized (a, b)
  lenA : x.aligns.length = b - a
  aligns : ∀ (j : Nat), j < b - a → ∃ p q, x.aligns[j]? = some p ∧ n.aligns[a + j]? = some q ∧
    p.1 + x.shift = q.1 + n.shift ∧ p.2 + x.shift = q.2 + n.shift
  original : ∃ k : Nat, x.shift = n.shift + k ∧ k + x.original.length ≤ n.original.length ∧
    x.original = cutOut n.original (k, k + x.original.length)

theorem expand_seg {al : List (Int × Int)} {a b : Nat} (hab : a < b) (hb : b ≤ al.length) :
    expand ((al.take b).drop a) = some ((al[a]'(by omega)).1, (al[b - 1]'(by omega)).2) := by
  have hlen : ((al.take b).drop a).length = b - a := by
    rw [List.length_drop, List.length_take]; omega
  have h1 : ((al.take b).drop a).head? = some (al[a]'(by omega)) := by
    rw [List.head?_eq_getElem?, List.getElem?_drop, List.getElem?_take, if_pos (by omega), Nat.add_zero,
      List.getElem?_eq_getElem]
  have h2 : ((al.take b).drop a).getLast? = some (al[b - 1]'(by omega)) := by
    rw [List.getLast?_eq_getElem?, hlen, List.getElem?_drop, List.getElem?_take, if_pos (by omega),
      show a + (b - a - 1) = b - 1 by omega, List.getElem?_eq_getElem]
  unfold expand
  rw [h1, h2]

theorem alignsO_length (n : NStr) : n.alignsO.length = n.refs.length := by
  simp [NStr.alignsO]

theorem map_range_cells (l : List (Int × Int)) : (List.range l.length).map (cellAt l) = l := by
  apply List.ext_getElem?
  intro i
  rw [List.getElem?_map]
  by_cases h : i < l.length
  · rw [List.getElem?_eq_getElem (by simpa using h), List.getElem?_eq_getElem h]
    simp [cellAt, h]
  · rw [List.getElem?_eq_none (by simpa using h), List.getElem?_eq_none (by omega)]; rfl

/-- A slice of whole characters of a well-formed string succeeds and is well-formed. -/
theorem slice_ok {n : NStr} (hw : WF n) {s : Str} (hs : n.normalized = encStr s) {a b : Nat}
    (ha : Boundary s a) (hb : Boundary s b) (hab : a < b) :
    ∃ x, n.slice ⟨a, b, .normalized⟩ = .ok (some x) ∧ SliceOf n a b x ∧ WF x := by
  have hbl := boundary_le hb
  have hlen : n.normalized.length = blen s := by rw [hs, length_encStr]
  have hal : n.aligns.length = blen s := by rw [hw.lenA, hlen]
  have hbA : b ≤ n.aligns.length := by omega
  have hconv : n.convert ⟨a, b, .normalized⟩ =
      .ok (some ⟨(n.aligns[a]'(by omega)).1, (n.aligns[b - 1]'(by omega)).2, .original⟩) := by
    unfold NStr.convert
    simp only [hlen, full_eq _ hbl]
    rw [if_neg (by omega), if_neg (by omega), slc_ok (by omega) (by omega) (by omega)]
    simp only [Res.bind_ok, Int.toNat_natCast]
    rw [expand_seg hab hbA]
  generalize hp : n.aligns[a]'(by omega) = p at hconv
  generalize hq : n.aligns[b - 1]'(by omega) = q at hconv
  have hpw := hw.within p (by rw [← hp]; exact List.getElem_mem _)
  have hqw := hw.within q (by rw [← hq]; exact List.getElem_mem _)
  have hpq := nd_get hw.mono (i := a) (j := b - 1) (by omega) (by omega)
  rw [hp, hq] at hpq
  have hp12 : p.1 ≤ q.2 := by omega
  have hval := validate_ok hs ha hb (by omega)
  have hsub : ∀ r ∈ (n.aligns.take b).drop a, p.1 ≤ r.1 ∧ r.1 ≤ r.2 ∧ r.2 ≤ q.2 := by
    intro r hr
    obtain ⟨j, hj, rfl⟩ := List.getElem_of_mem hr
    rw [List.length_drop, List.length_take] at hj
    have he : ((n.aligns.take b).drop a)[j]'(by rw [List.length_drop, List.length_take]; exact hj) =
        n.aligns[a + j]'(by omega) := by simp
    rw [he]
    have h1 := nd_get hw.mono (i := a) (j := a + j) (by omega) (by omega)
    have h2 := nd_get hw.mono (i := a + j) (j := b - 1) (by omega) (by omega)
    rw [hp] at h1
    rw [hq] at h2
    exact ⟨h1.1, (hw.within _ (List.getElem_mem _)).2.1, h2.2⟩
  have hO : n.alignsO.length = n.original.length := by rw [alignsO_length, hw.lenO]
  have hpre : slc n.alignsO 0 p.1 = .ok ((n.alignsO.take p.1.toNat).drop 0) :=
    slc_ok (by omega) (by omega) (by omega)
  have hro : n.rangeOriginal ⟨a, b, .normalized⟩ = .ok ((n.original.take q.2.toNat).drop p.1.toNat) := by
    simp only [NStr.rangeOriginal, hconv, Res.bind_ok]
    exact slc_ok (by omega) hp12 (by omega)
  have hrn : n.range ⟨a, b, .normalized⟩ = .ok (cutOut n.normalized (a, b)) := by
    simp only [NStr.range, hlen, full_eq _ hbl]
    rw [slc_ok (by omega) (by omega) (by omega)]
    rfl
  have hsa : slc n.aligns (a : Int) (b : Int) = .ok ((n.aligns.take b).drop a) := by
    rw [slc_ok (by omega) (by omega) (by omega)]; rfl
  have hso : slc n.alignsO p.1 q.2 = .ok ((n.alignsO.take q.2.toNat).drop p.1.toNat) :=
    slc_ok (by omega) hp12 (by omega)
  have hlo : ((n.original.take q.2.toNat).drop p.1.toNat).length = q.2.toNat - p.1.toNat := by
    rw [List.length_drop, List.length_take]; omega
  have hla : ((n.aligns.take b).drop a).length = b - a := by
    rw [List.length_drop, List.length_take]; omega
  unfold NStr.slice
  simp only [hval, Res.bind_ok, hconv, hpre, hro, hrn, hsa, hso]
  refine ⟨_, rfl, ⟨rfl, ?_, ?_, ?_⟩, ⟨?_, ?_, ?_, ?_⟩⟩
  · simp only [List.length_map, hla]
  · intro j hj
    refine ⟨((n.aligns[a + j]'(by omega)).1 - p.1, (n.aligns[a + j]'(by omega)).2 - p.1),
      n.aligns[a + j]'(by omega), ?_, List.getElem?_eq_getElem _, ?_, ?_⟩
    · simp only [List.getElem?_map, List.getElem?_drop, List.getElem?_take]
      rw [if_pos (by omega), List.getElem?_eq_getElem (by omega)]
      rfl
    · simp only; omega
    · simp only; omega
  · refine ⟨p.1.toNat, ?_, ?_, ?_⟩
    · simp only; omega
    · simp only [hlo]; omega
    · simp only [hlo, cutOut]
      rw [show p.1.toNat + (q.2.toNat - p.1.toNat) = q.2.toNat by omega]
  · simp only [List.length_map, hla, cutOut, List.length_drop, List.length_take, hlen]; omega
  · simp only [List.length_range, hlo, List.length_drop, List.length_take, hO]; omega
  · intro r hr
    simp only [List.mem_map] at hr
    obtain ⟨r', hr', rfl⟩ := hr
    have := hsub r' hr'
    simp only [hlo]
    omega
  · simp only [NonDecreasing]
    rw [List.pairwise_map]
    have := List.Pairwise.sublist (List.drop_sublist a _) (List.Pairwise.sublist (List.take_sublist b _) hw.mono)
    refine List.Pairwise.imp ?_ this
    intro x y h
    simp only
    omega

end Tok.Norm
