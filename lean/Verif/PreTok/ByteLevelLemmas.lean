import Verif.PreTok.ByteLevel
import Verif.PreTok.Prefix
import Verif.PreTok.Parts
import Verif.Norm.Items

namespace Tok.PreTok

open Tok.Norm

/-- Each byte's entry, once for every byte of the character that replaces it. -/
def stretch : List UInt8 → List (Int × Int) → List (Int × Int)
  | b :: bs, a :: al => List.replicate (alphabetChar b).utf8Size a ++ stretch bs al
  | _, _ => []

theorem stretch_append (bs cs : List UInt8) : ∀ (al am : List (Int × Int)), al.length = bs.length →
    stretch (bs ++ cs) (al ++ am) = stretch bs al ++ stretch cs am := by
  induction bs with
  | nil => intro al am h; cases al with
    | nil => simp [stretch]
    | cons a al => cases h
  | cons b bs ih =>
    intro al am h
    cases al with
    | nil => cases h
    | cons a al =>
      simp only [List.cons_append, stretch]
      rw [ih al am (by simpa using h), List.append_assoc]

theorem byteLevelImage_append (a b : List UInt8) : byteLevelImage (a ++ b) = byteLevelImage a ++ byteLevelImage b := by
  simp [byteLevelImage]

theorem length_stretch (bs : List UInt8) : ∀ (al : List (Int × Int)), al.length = bs.length →
    (stretch bs al).length = blen (byteLevelImage bs) := by
  induction bs with
  | nil => intro al h; cases al <;> rfl
  | cons b bs ih =>
    intro al h
    cases al with
    | nil => cases h
    | cons a al =>
      rw [stretch, List.length_append, List.length_replicate, ih al (by simpa using h)]
      simp [byteLevelImage]

theorem stretch_replicate (bs : List UInt8) (v : Int × Int) :
    stretch bs (List.replicate bs.length v) = List.replicate (blen (byteLevelImage bs)) v := by
  induction bs with
  | nil => rfl
  | cons b bs ih =>
    rw [List.length_cons, List.replicate_succ, stretch, ih, List.replicate_append_replicate]
    simp [byteLevelImage]

/-- First and last entry. -/
theorem expand_stretch (bs : List UInt8) (al : List (Int × Int)) (hl : al.length = bs.length) (hne : bs ≠ []) :
    ∃ a b, al.head? = some a ∧ al.getLast? = some b ∧ expand (stretch bs al) = some (a.1, b.2) := by
  have hhead : ∀ (b : UInt8) bs a al, (stretch (b :: bs) (a :: al)).head? = some a := by
    intro b bs a al
    have := (alphabetChar b).utf8Size_pos
    obtain ⟨n, hn⟩ : ∃ n, (alphabetChar b).utf8Size = n + 1 := ⟨(alphabetChar b).utf8Size - 1, by omega⟩
    rw [stretch, hn, List.replicate_succ]; rfl
  obtain ⟨bs', b', rfl⟩ : ∃ bs' b', bs = bs' ++ [b'] := by
    rcases List.eq_nil_or_concat bs with h | ⟨d, x, h⟩
    · exact absurd h hne
    · exact ⟨d, x, by simp [h]⟩
  obtain ⟨al', a', rfl⟩ : ∃ al' a', al = al' ++ [a'] := by
    rcases List.eq_nil_or_concat al with h | ⟨d, x, h⟩
    · subst h; simp at hl
    · exact ⟨d, x, by simp [h]⟩
  have hl' : al'.length = bs'.length := by simpa using hl
  have hlast : (stretch (bs' ++ [b']) (al' ++ [a'])).getLast? = some a' := by
    have := (alphabetChar b').utf8Size_pos
    obtain ⟨n, hn⟩ : ∃ n, (alphabetChar b').utf8Size = n + 1 := ⟨(alphabetChar b').utf8Size - 1, by omega⟩
    have he : stretch [b'] [a'] = List.replicate n a' ++ [a'] := by
      rw [← List.replicate_succ', ← hn]; simp [stretch]
    rw [stretch_append _ _ _ _ hl', he, ← List.append_assoc, List.getLast?_concat]
  cases bs' with
  | nil =>
    cases al' with
    | cons a al' => cases hl'
    | nil =>
      refine ⟨a', a', rfl, rfl, ?_⟩
      unfold expand
      rw [hlast]
      have := hhead b' [] a' []
      simp only [List.nil_append]
      rw [this]
  | cons b bs' =>
    cases al' with
    | nil => cases hl'
    | cons a al' =>
      refine ⟨a, a', rfl, List.getLast?_concat, ?_⟩
      unfold expand
      rw [hlast]
      have := hhead b (bs' ++ [b']) a (al' ++ [a'])
      simp only [List.cons_append] at this ⊢
      rw [this]

/-! ### The changes -/

/-- The changes for one character. -/
def charItems (c : Char) : List (Str × Int) :=
  (String.utf8EncodeChar c).zipIdx.map (fun p => ([alphabetChar p.1], if p.2 > 0 then 1 else 0))

theorem bytesChar_eq (b : UInt8) : bytesChar b = encStr [alphabetChar b] := by
  simp [bytesChar, C26_table.2]

theorem byteLevelItems_enc (s : Str) : byteLevelItems (encStr s) = s.flatMap charItems := by
  unfold byteLevelItems byteLevelChanges
  rw [decStr_enc]
  induction s with
  | nil => rfl
  | cons c s ih =>
    rw [List.flatMap_cons, List.map_append, ih, List.flatMap_cons]
    congr 1
    unfold charItems
    rw [List.map_map]
    apply List.map_congr_left
    intro p _
    simp only [Function.comp]
    rw [bytesChar_eq, decStr_enc]

theorem charItems_cons (c : Char) : ∃ b bs, String.utf8EncodeChar c = b :: bs ∧
    charItems c = ([alphabetChar b], 0) :: bs.map (fun b => ([alphabetChar b], (1 : Int))) := by
  cases h : String.utf8EncodeChar c with
  | nil => exact absurd h (enc_ne_nil c)
  | cons b bs =>
    refine ⟨b, bs, rfl, ?_⟩
    unfold charItems
    rw [h, List.zipIdx_cons, List.map_cons]
    congr 1
    have : ∀ (l : List UInt8) (n : Nat), (l.zipIdx (n + 1)).map (fun p => ([alphabetChar p.1], if p.2 > 0 then (1 : Int) else 0)) =
        l.map (fun b => ([alphabetChar b], (1 : Int))) := by
      intro l
      induction l with
      | nil => intro n; rfl
      | cons b l ih => intro n; rw [List.zipIdx_cons, List.map_cons, ih, List.map_cons]; simp
    exact this bs 0

theorem charItems_flat (c : Char) : ((charItems c).map (·.1)).flatten = byteLevelImage (String.utf8EncodeChar c) ∧
    usesAll (charItems c) = 1 := by
  obtain ⟨b, bs, h1, h2⟩ := charItems_cons c
  have h3 : ∀ l : List UInt8, ((l.map (fun b => ([alphabetChar b], (1 : Int)))).map (·.1)).flatten = l.map alphabetChar ∧
      usesAll (l.map (fun b => ([alphabetChar b], (1 : Int)))) = 0 := by
    intro l
    induction l with
    | nil => exact ⟨rfl, rfl⟩
    | cons b l ih =>
      rw [List.map_cons, usesAll_cons, ih.2, List.map_cons, List.flatten_cons, ih.1]
      exact ⟨by simp, rfl⟩
  rw [h1, h2, usesAll_cons, (h3 bs).2, List.map_cons, List.flatten_cons, (h3 bs).1]
  exact ⟨by simp [byteLevelImage], rfl⟩

theorem items_flat (s : Str) : (((s.flatMap charItems)).map (·.1)).flatten = byteLevelImage (encStr s) ∧
    usesAll (s.flatMap charItems) = s.length := by
  induction s with
  | nil => exact ⟨rfl, rfl⟩
  | cons c s ih =>
    obtain ⟨h1, h2⟩ := charItems_flat c
    rw [List.flatMap_cons, List.map_append, List.flatten_append, h1, ih.1, usesAll_append, h2, ih.2, encStr_cons,
      byteLevelImage_append, List.length_cons]
    exact ⟨rfl, by omega⟩

/-- The entries of the bytes of each character are equal. -/
def Even : Str → List (Int × Int) → Prop
  | [], al => al = []
  | c :: s, al => ∃ v al', al = List.replicate c.utf8Size v ++ al' ∧ Even s al'

theorem sources_even (s : Str) : ∀ (pre al : List (Int × Int)), Even s al →
    sourcesAt (pre ++ al) pre.length s (s.flatMap charItems) = stretch (encStr s) al := by
  induction s with
  | nil => intro pre al h; simp [sourcesAt, stretch]
  | cons c s ih =>
    intro pre al h
    obtain ⟨v, al', rfl, hev⟩ := h
    obtain ⟨b, bs, h1, h2⟩ := charItems_cons c
    have hlen := String.length_utf8EncodeChar c
    rw [h1, List.length_cons] at hlen
    have hp := c.utf8Size_pos
    have hins : ∀ (l : List UInt8) (items : List (Str × Int)),
        sourcesAt (pre ++ (List.replicate c.utf8Size v ++ al')) (pre.length + c.utf8Size) s
          (l.map (fun b => ([alphabetChar b], (1 : Int))) ++ items) =
        List.replicate (blen (byteLevelImage l)) v ++
          sourcesAt (pre ++ (List.replicate c.utf8Size v ++ al')) (pre.length + c.utf8Size) s items := by
      intro l items
      induction l with
      | nil => rfl
      | cons b l ihl =>
        rw [List.map_cons, List.cons_append, sourcesAt]
        have hu : uses (1 : Int) = 0 := rfl
        rw [hu, List.take_zero, List.drop_zero, blen_nil, Nat.add_zero, ihl, if_pos (by omega), if_neg (by omega)]
        have hget : (pre ++ (List.replicate c.utf8Size v ++ al'))[pre.length + c.utf8Size - 1]? = some v := by
          rw [List.getElem?_append_right (by omega), List.getElem?_append_left (by simp; omega), List.getElem?_replicate,
            if_pos (by omega)]
        rw [hget, Option.getD_some, ← List.append_assoc, List.replicate_append_replicate]
        simp [byteLevelImage]
    rw [List.flatMap_cons, h2, List.cons_append, sourcesAt]
    have hu : uses (0 : Int) = 1 := rfl
    have hget : (pre ++ (List.replicate c.utf8Size v ++ al'))[pre.length]? = some v := by
      rw [List.getElem?_append_right (by omega), List.getElem?_append_left (by simp; omega), List.getElem?_replicate,
        if_pos (by omega)]
    rw [hu, if_neg (by omega), hget, Option.getD_some]
    simp only [List.take_succ_cons, List.take_zero, List.drop_succ_cons, List.drop_zero, blen_cons, blen_nil, Nat.add_zero]
    rw [hins]
    have := ih (pre ++ List.replicate c.utf8Size v) al' hev
    rw [List.length_append, List.length_replicate, List.append_assoc] at this
    rw [this, encStr_cons, stretch_append _ _ _ _ (by rw [String.length_utf8EncodeChar]; simp), ← List.append_assoc,
      List.replicate_append_replicate]
    congr 1
    have hs := stretch_replicate (String.utf8EncodeChar c) v
    rw [String.length_utf8EncodeChar] at hs
    rw [hs, h1]
    simp [byteLevelImage]

theorem even_append (a b : Str) (al am : List (Int × Int)) (h1 : Even a al) (h2 : Even b am) :
    Even (a ++ b) (al ++ am) := by
  induction a generalizing al with
  | nil => have : al = [] := h1
           subst this; exact h2
  | cons c a ih =>
    obtain ⟨v, al', rfl, hev⟩ := h1
    exact ⟨v, al' ++ am, by simp, ih al' hev⟩

theorem even_replicate (n : Str) (v : Int × Int) : Even n (List.replicate (blen n) v) := by
  induction n with
  | nil => rfl
  | cons c n ih => exact ⟨v, _, by rw [blen_cons, ← List.replicate_append_replicate], ih⟩

theorem alignsOf_even (bs : List (Str × Str)) : ∀ k, Even (rights bs) (alignsOf bs k) := by
  induction bs with
  | nil => intro k; rfl
  | cons b bs ih => intro k; rw [rights_cons, alignsOf]; exact even_append _ _ _ _ (even_replicate _ _) (ih _)

/-- The split after `Transform`: every byte has become its character, with its alignment. -/
structure Imaged (bs : List (Str × Str)) (k : Int) (y : NStr) : Prop where
  text : y.normalized = encStr (byteLevelImage (encStr (rights bs)))
  original : y.original = encStr (lefts bs)
  shift : y.shift = k
  lenA : y.aligns.length = y.normalized.length
  aligns : '\x00' ∉ rights bs → y.aligns = stretch (encStr (rights bs)) (alignsOf bs 0)

theorem toByteLevel_blocks {x : NStr} {bs : List (Str × Str)} (h : Blocks x bs) :
    ∃ y, toByteLevel x = .ok y ∧ Imaged bs x.shift y := by
  have hw := h.wf
  have hl : x.normalized.length = blen (rights bs) := by rw [h.text, length_encStr]
  obtain ⟨i1, i2⟩ := items_flat (rights bs)
  obtain ⟨y, h1, h2, h3⟩ := transformRange_ok hw (a := 0) (b := x.normalized.length)
    (items := (rights bs).flatMap charItems) (by omega) (by omega) (cs := rights bs)
    (by rw [List.take_length, List.drop_zero, h.text]) (by omega)
  refine ⟨y, ?_, ?_, ?_, h2.shift, h2.lenA, ?_⟩
  · unfold toByteLevel
    rw [transform_eq h.cover hw.lenA, ← h1, h.text, byteLevelItems_enc]
  · rw [h2.text, i1]; simp
  · rw [h2.original, h.original]
  · intro hnul
    rw [(h3 hnul).1]
    have := sources_even (rights bs) [] (alignsOf bs 0) (alignsOf_even bs 0)
    rw [← h.aligns] at this
    simp only [List.nil_append, List.length_nil] at this
    rw [this, h.aligns, List.take_zero, List.nil_append, List.drop_of_length_le (by rw [length_alignsOf]; omega), List.append_nil]

end Tok.PreTok
