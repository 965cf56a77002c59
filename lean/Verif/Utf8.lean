import Verif.Go

/-!
# Strings as bytes

Go strings are byte sequences.  `utf8.DecodeRune` and friends belong to Go's
standard library and are modelled by Lean's library functions for the same
encoding (RFC 3629: no surrogates, no overlong forms).
-/

namespace Tok

/-- The bytes of a text. -/
def encStr (s : Str) : List UInt8 := s.flatMap String.utf8EncodeChar

@[simp] theorem encStr_nil : encStr [] = [] := rfl
@[simp] theorem encStr_cons (c : Char) (s : Str) :
    encStr (c :: s) = String.utf8EncodeChar c ++ encStr s := by simp [encStr]
@[simp] theorem encStr_append (s t : Str) : encStr (s ++ t) = encStr s ++ encStr t := by
  simp [encStr]

theorem length_encStr (s : Str) : (encStr s).length = blen s := by
  induction s with
  | nil => rfl
  | cons c s ih => simp [ih]

/-- `utf8.DecodeRuneInString` on a non-empty string: the first character, or `none`
where Go returns `(RuneError, 1)`. -/
def decodeRune (bs : List UInt8) : Option Char := bs.toByteArray.utf8DecodeChar? 0

theorem decodeRune_enc (c : Char) (bs : List UInt8) :
    decodeRune (String.utf8EncodeChar c ++ bs) = some c := by
  unfold decodeRune
  have : (String.utf8EncodeChar c ++ bs).toByteArray =
      (String.utf8EncodeChar c).toByteArray ++ bs.toByteArray := by
    simp
  rw [this]
  exact ByteArray.utf8DecodeChar?_utf8EncodeChar_append

theorem toByteArray_inj {a b : List UInt8} (h : a.toByteArray = b.toByteArray) : a = b := by
  have := congrArg (fun x => x.data.toList) h
  simpa using this

theorem decodeRune_some {bs : List UInt8} {c : Char} (h : decodeRune bs = some c) :
    ∃ rest, bs = String.utf8EncodeChar c ++ rest := by
  obtain ⟨l, hl⟩ := ByteArray.exists_of_utf8DecodeChar?_eq_some h
  refine ⟨l.data.toList, ?_⟩
  apply toByteArray_inj
  rw [hl]
  have : l.data.toList.toByteArray = l := by
    apply ByteArray.ext
    simp
  simp [this]

theorem enc_ne_nil (c : Char) : String.utf8EncodeChar c ≠ [] := by
  intro h
  have := String.length_utf8EncodeChar c
  rw [h] at this
  have := c.utf8Size_pos
  simp_all

/-- The characters of a Go string as `range` and `strings.Split(s, "")` visit
them: each valid character, and each byte that does not start one (`none`), with
the bytes consumed. -/
def explode (bs : List UInt8) : List (Option Char × List UInt8) :=
  match bs with
  | [] => []
  | b :: rest =>
    match decodeRune (b :: rest) with
    | some c => (some c, (b :: rest).take c.utf8Size) :: explode (rest.drop (c.utf8Size - 1))
    | none => (none, [b]) :: explode rest
termination_by bs.length
decreasing_by all_goals simp <;> omega

theorem explode_enc (c : Char) (bs : List UInt8) :
    explode (String.utf8EncodeChar c ++ bs) =
      (some c, String.utf8EncodeChar c) :: explode bs := by
  have hlen := String.length_utf8EncodeChar c
  cases he : String.utf8EncodeChar c with
  | nil => exact absurd he (enc_ne_nil c)
  | cons b t =>
    rw [he] at hlen
    simp only [List.cons_append]
    rw [explode]
    have hd := decodeRune_enc c bs
    rw [he] at hd
    simp only [List.cons_append] at hd
    rw [hd]
    simp only [List.length_cons] at hlen
    have h1 : (b :: (t ++ bs)).take c.utf8Size = b :: t := by
      rw [← hlen]; simp
    have h2 : (t ++ bs).drop (c.utf8Size - 1) = bs := by
      rw [← hlen]; simp
    simp only [h1, h2]

theorem explode_encStr (s : Str) :
    explode (encStr s) = s.map (fun c => (some c, String.utf8EncodeChar c)) := by
  induction s with
  | nil => simp [explode]
  | cons c s ih => rw [encStr_cons, explode_enc, ih]; rfl

/-- The pieces of `explode` are the string. -/
theorem explode_flatten (bs : List UInt8) : ((explode bs).map (·.2)).flatten = bs := by
  induction bs using explode.induct with
  | case1 => simp [explode]
  | case2 b rest c hd ih =>
    rw [explode, hd]
    simp only [List.map_cons, List.flatten_cons, ih]
    have := c.utf8Size_pos
    obtain ⟨n, hn⟩ : ∃ n, c.utf8Size = n + 1 := ⟨c.utf8Size - 1, by omega⟩
    rw [hn]
    simp
  | case3 b rest hd ih =>
    rw [explode, hd]
    simp [ih]

/-- Distinct texts have distinct bytes. -/
theorem encStr_inj {s t : Str} (h : encStr s = encStr t) : s = t := by
  have := congrArg explode h
  rw [explode_encStr, explode_encStr] at this
  have h2 := congrArg (List.map (fun p : Option Char × List UInt8 => p.1)) this
  simp only [List.map_map] at h2
  have h3 : s.map some = t.map some := h2
  exact (List.map_inj_right (fun _ _ e => Option.some.inj e)).1 h3

/-- `utf8.Valid`: the bytes are those of some text. -/
def validUtf8 (bs : List UInt8) : Bool := (explode bs).all (fun p => p.1.isSome)

theorem validUtf8_iff (bs : List UInt8) : validUtf8 bs = true ↔ ∃ s, bs = encStr s := by
  constructor
  · induction bs using explode.induct with
    | case1 => intro _; exact ⟨[], rfl⟩
    | case2 b rest c hd ih =>
      intro h
      unfold validUtf8 at h
      rw [explode, hd] at h
      simp only [List.all_cons, Option.isSome_some, Bool.true_and] at h
      obtain ⟨s, hs⟩ := ih h
      obtain ⟨r, hr⟩ := decodeRune_some hd
      refine ⟨c :: s, ?_⟩
      have hlen := String.length_utf8EncodeChar c
      have : rest.drop (c.utf8Size - 1) = r := by
        have h1 : (b :: rest).drop c.utf8Size = r := by rw [hr, ← hlen]; simp
        have := c.utf8Size_pos
        obtain ⟨n, hn⟩ : ∃ n, c.utf8Size = n + 1 := ⟨c.utf8Size - 1, by omega⟩
        rw [hn] at h1 ⊢
        simpa using h1
      rw [encStr_cons, ← hs, this, hr]
    | case3 b rest hd ih =>
      intro h
      unfold validUtf8 at h
      rw [explode, hd] at h
      simp at h
  · rintro ⟨s, rfl⟩
    unfold validUtf8
    rw [explode_encStr]
    simp

end Tok
