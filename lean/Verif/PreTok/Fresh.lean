import Verif.PreTok.Blocks
import Verif.Norm.Replace

/-!
# Unchanged parts of a text
-/

namespace Tok.PreTok

open Tok.Norm

/-- Every character is a block of its own. -/
def singles (m : Str) : List (Str × Str) := m.map (fun c => ([c], [c]))

/-- Nothing has been changed in `x`, whose text is `m`, and different characters share no inner
slice. -/
structure Fresh (x : NStr) (m : Str) : Prop where
  toBlocks : Blocks x (singles m)
  sep : Sep m x.refs

/-- `x` is the part `m` of the text `s` after its prefix `u`, unchanged. -/
def FPart (s u m : Str) (x : NStr) : Prop := (∃ v, s = u ++ m ++ v) ∧ Fresh x m ∧ x.shift = (blen u : Nat)

theorem lefts_singles (m : Str) : lefts (singles m) = m := by
  induction m with
  | nil => rfl
  | cons c m ih => simpa [lefts, singles] using ih

theorem rights_singles (m : Str) : rights (singles m) = m := by
  induction m with
  | nil => rfl
  | cons c m ih => simpa [rights, singles] using ih

theorem swap_singles (m : Str) : (singles m).map Prod.swap = singles m := by
  rw [singles, List.map_map]; rfl

theorem singles_append (a b : Str) : singles (a ++ b) = singles a ++ singles b := by simp [singles]

theorem singles_ne (m : Str) : ∀ b ∈ singles m, b.1 ≠ [] ∧ b.2 ≠ [] := by
  intro b hb
  obtain ⟨c, _, rfl⟩ := List.mem_map.mp hb
  exact ⟨by simp, by simp⟩

theorem byteRanges_blocks (m : Str) : ∀ k, byteRanges m k = alignsOf (singles m) k := by
  induction m with
  | nil => intro k; rfl
  | cons c m ih =>
    intro k
    rw [byteRanges, singles, List.map_cons, alignsOf, ih]
    simp [singles]

theorem Fresh.text {x : NStr} {m : Str} (h : Fresh x m) : x.normalized = encStr m := by
  have := h.toBlocks.text; rwa [rights_singles] at this

theorem Fresh.original {x : NStr} {m : Str} (h : Fresh x m) : x.original = encStr m := by
  have := h.toBlocks.original; rwa [lefts_singles] at this

theorem Fresh.aligns {x : NStr} {m : Str} (h : Fresh x m) : x.aligns = byteRanges m 0 := by
  rw [byteRanges_blocks]; exact h.toBlocks.aligns

theorem Fresh.alignsO {x : NStr} {m : Str} (h : Fresh x m) : x.alignsO = byteRanges m 0 := by
  have := h.toBlocks.alignsO
  rw [swap_singles] at this
  rw [byteRanges_blocks]; exact this

theorem Fresh.wf {x : NStr} {m : Str} (h : Fresh x m) : WF x := h.toBlocks.wf

theorem alignRefs_lt (s : Str) : ∀ k cur, ∀ r ∈ alignRefs s k, r < k + (alignCells s cur).length := by
  induction s with
  | nil => intro k cur r hr; cases hr
  | cons c s ih =>
    intro k cur r hr
    rw [alignRefs, List.mem_append] at hr
    rw [alignCells, List.length_cons]
    rcases hr with hr | hr
    · have := List.eq_of_mem_replicate hr; omega
    · have := ih (k + 1) (cur + c.utf8Size) r hr; omega

theorem fresh_new (s : Str) : Fresh (newNStr (encStr s)) s := by
  refine ⟨⟨singles_ne s, ?_, ?_, ?_, ?_, ?_⟩, ?_⟩
  · rw [rights_singles]; rfl
  · rw [lefts_singles]; rfl
  · rw [newNStr_aligns, byteRanges_blocks]
  · rw [newNStr_alignsO, byteRanges_blocks, swap_singles]
  · have := alignRefs_lt (runes (encStr s)) 0 0
    rw [Nat.zero_add] at this
    exact this
  · have := (sep_alignRefs s 0).1
    simpa [newNStr, runes_encStr] using this

theorem sep_nodup (s : Str) : ∀ l : List Nat, l.Nodup → l.length = blen s → Sep s l := by
  induction s with
  | nil => intro l _ h; exact List.length_eq_zero_iff.mp h
  | cons c s ih =>
    intro l hn hl
    rw [blen_cons] at hl
    refine ⟨l.take c.utf8Size, l.drop c.utf8Size, (List.take_append_drop _ _).symm, ?_, ?_, ih _ ?_ ?_⟩
    · rw [List.length_take]; omega
    · rw [← List.take_append_drop c.utf8Size l] at hn
      intro x hx hx'
      exact (List.nodup_append.mp hn).2.2 x hx x hx' rfl
    · exact hn.sublist (List.drop_sublist _ _)
    · rw [List.length_drop]; omega

/-- A slice has inner slices of its own. -/
theorem slice_refs {x y : NStr} {r : Rng} (h : x.slice r = .ok (some y)) : y.refs.Nodup := by
  unfold NStr.slice at h
  obtain ⟨v, _, h⟩ := Res.bind_eq_ok.mp h
  cases v with
  | none => cases h
  | some full =>
    obtain ⟨conv, _, h⟩ := Res.bind_eq_ok.mp h
    cases conv with
    | none => cases h
    | some conv =>
      obtain ⟨_, _, h⟩ := Res.bind_eq_ok.mp h
      obtain ⟨_, _, h⟩ := Res.bind_eq_ok.mp h
      obtain ⟨_, _, h⟩ := Res.bind_eq_ok.mp h
      obtain ⟨_, _, h⟩ := Res.bind_eq_ok.mp h
      obtain ⟨_, _, h⟩ := Res.bind_eq_ok.mp h
      injection h with h
      injection h with h
      rw [← h]
      exact List.nodup_range

/-- A slice of whole characters of an unchanged string is unchanged. -/
theorem fresh_slice {x : NStr} {m : Str} (h : Fresh x m) (a w b : Str) (hm : m = a ++ w ++ b) (hw : w ≠ []) :
    ∃ y, x.slice ⟨(blen a : Nat), (blen (a ++ w) : Nat), .normalized⟩ = .ok (some y) ∧ Fresh y w ∧
      y.shift = x.shift + (blen a : Nat) := by
  have := blocks_slice h.toBlocks (singles a) (singles w) (singles b) (by rw [hm, singles_append, singles_append])
    (by cases w with
        | nil => exact absurd rfl hw
        | cons c w => simp [singles])
  rw [← singles_append, rights_singles, rights_singles, lefts_singles] at this
  obtain ⟨y, h1, h2, h3⟩ := this
  refine ⟨y, h1, ⟨h2, sep_nodup w _ (slice_refs h1) ?_⟩, h3⟩
  rw [← alignsO_length, h2.alignsO, length_alignsOf, rights_swap, lefts_singles]

theorem fpart_partOf {s u m : Str} {x : NStr} (h : FPart s u m x) : PartOf s u m x := by
  obtain ⟨⟨v, hv⟩, hf, hs⟩ := h
  have hum : blen (u ++ m) = blen u + blen m := blen_append _ _
  refine ⟨⟨v, hv⟩, ⟨?_, ?_, ?_, ?_⟩, hf.wf⟩
  · rw [hf.text, hv]; exact (cutOut_enc u m v).symm
  · rw [hf.aligns, length_byteRanges]; omega
  · intro j hj
    have hjm : j < (byteRanges m 0).length := by rw [length_byteRanges]; omega
    refine ⟨(byteRanges m 0)[j], (((byteRanges m 0)[j]).1 + (blen u : Nat), ((byteRanges m 0)[j]).2 + (blen u : Nat)), ?_, ?_, ?_, ?_⟩
    · rw [hf.aligns, List.getElem?_eq_getElem hjm]
    · rw [newNStr_aligns, hv, List.append_assoc, byteRanges_append,
        List.getElem?_append_right (by rw [length_byteRanges]; omega), length_byteRanges,
        show blen u + j - blen u = j by omega, byteRanges_append,
        List.getElem?_append_left (by rw [length_byteRanges]; omega), show byteRanges m (0 + blen u) = (byteRanges m 0).map (fun p => (p.1 + ((blen u : Nat) : Int), p.2 + ((blen u : Nat) : Int))) by rw [byteRanges_blocks, byteRanges_blocks, alignsOf_shift],
        List.getElem?_map, List.getElem?_eq_getElem hjm]
      rfl
    · have hz : (newNStr (encStr s)).shift = 0 := rfl
      rw [hs, hz]; simp
    · have hz : (newNStr (encStr s)).shift = 0 := rfl
      rw [hs, hz]; simp
  · have hz : (newNStr (encStr s)).shift = 0 := rfl
    have ho : (newNStr (encStr s)).original = encStr s := rfl
    refine ⟨blen u, by rw [hs, hz]; simp, ?_, ?_⟩
    · rw [ho, hf.original, length_encStr, length_encStr, hv, blen_append, blen_append]; omega
    · rw [ho, hf.original, length_encStr, hv, ← hum]; exact (cutOut_enc u m v).symm

theorem fpart_text {s u m : Str} {x : NStr} (h : FPart s u m x) : x.normalized = encStr m := h.2.1.text

theorem fpart_slice {s u m : Str} {x : NStr} (h : FPart s u m x) {a w b : Str} (hm : m = a ++ w ++ b)
    (hw : w ≠ []) : ∃ y, x.slice ⟨(blen a : Nat), (blen (a ++ w) : Nat), .normalized⟩ = .ok (some y) ∧
      FPart s (u ++ a) w y := by
  obtain ⟨⟨v, hv⟩, hf, hs⟩ := h
  obtain ⟨y, h1, h2, h3⟩ := fresh_slice hf a w b hm hw
  exact ⟨y, h1, ⟨b ++ v, by rw [hv, hm]; simp⟩, h2, by rw [h3, hs, blen_append]; push_cast; rfl⟩

theorem fpart_whole (s : Str) : FPart s [] s (newNStr (encStr s)) :=
  ⟨⟨[], by simp⟩, fresh_new s, rfl⟩

/-- The whole original of an unchanged string converts to its whole text. -/
theorem Fresh.cover {x : NStr} {m : Str} (h : Fresh x m) : Cover x := h.toBlocks.cover

end Tok.PreTok
