import Verif.ByteLevel.Model

/-!
# C26, C27: byte-level alphabet and UTF-8 encoder
-/

namespace Tok

/-! ### Specification -/

/-- Bytes shown as themselves by GPT-2's byte-level alphabet: printable Latin-1. -/
def printableByte (b : Nat) : Bool := (33 ≤ b ∧ b ≤ 126) ∨ (161 ≤ b ∧ b ≤ 172) ∨ (174 ≤ b ∧ b ≤ 255)

/-- GPT-2's byte-level alphabet: printable bytes stand for themselves, the others
get the code points from 256 on, in order. -/
def alphabetChar (b : UInt8) : Char :=
  if printableByte b.toNat then Char.ofNat b.toNat
  else Char.ofNat (256 + ((List.range b.toNat).filter (fun x => !printableByte x)).length)

/-- The byte-level image of a byte string. -/
def byteLevelImage (bs : List UInt8) : Str := bs.map alphabetChar

/-! ### C27 -/

theorem mask_eq (x : UInt8) (k m : Nat) (hm : m = 2 ^ k - 1) (hk : k ≤ 8) (h : x.toNat < 2 ^ k) :
    x &&& UInt8.ofNat m = x := by
  apply UInt8.toNat_inj.1
  have : m < 256 := by
    have := Nat.pow_le_pow_right (n := 2) (by omega) hk
    omega
  rw [UInt8.toNat_and, UInt8.toNat_ofNat', Nat.mod_eq_of_lt (by simpa using this), hm,
    Nat.and_two_pow_sub_one_eq_mod, Nat.mod_eq_of_lt h]

/-- C27: the encoder agrees with UTF-8 on every scalar value. -/
theorem C27_encode (c : Char) : encodeUTF8 c.val = String.utf8EncodeChar c := by
  rw [String.utf8EncodeChar_eq_utf8EncodeCharFast]
  unfold encodeUTF8 String.utf8EncodeCharFast
  have hmax : c.val.toNat < 0x110000 := by
    have := c.valid
    unfold UInt32.isValidChar Nat.isValidChar at this
    omega
  simp only
  split
  · rfl
  · rename_i h1
    split
    · rename_i h2
      have : ((c.val >>> 6).toUInt8).toNat < 2 ^ 5 := by
        rw [UInt32.le_iff_toNat_le] at h2
        simp [Nat.shiftRight_eq_div_pow] at h2 ⊢
        omega
      have e := mask_eq _ 5 31 rfl (by omega) this
      rw [show (0x1f : UInt8) = UInt8.ofNat 31 from rfl, e]
      simp [UInt8.or_comm]
    · rename_i h2
      split
      · rename_i h3
        have : ((c.val >>> 12).toUInt8).toNat < 2 ^ 4 := by
          rw [UInt32.le_iff_toNat_le] at h3
          simp [Nat.shiftRight_eq_div_pow] at h3 ⊢
          omega
        have e := mask_eq _ 4 15 rfl (by omega) this
        rw [show (0x0f : UInt8) = UInt8.ofNat 15 from rfl, e]
        simp [UInt8.or_comm]
      · have : ((c.val >>> 18).toUInt8).toNat < 2 ^ 3 := by
          have e2 : c.toNat = c.val.toNat := rfl
          simp [Nat.shiftRight_eq_div_pow]
          omega
        have e := mask_eq _ 3 7 rfl (by omega) this
        rw [show (0x07 : UInt8) = UInt8.ofNat 7 from rfl, e]
        simp [UInt8.or_comm]

/-- C27: no encoding is a prefix of another; in particular distinct characters have
distinct encodings. -/
theorem C27_prefix_free (c d : Char) (h : encodeUTF8 c.val <+: encodeUTF8 d.val) : c = d := by
  rw [C27_encode, C27_encode] at h
  obtain ⟨t, ht⟩ := h
  have h1 := decodeRune_enc c t
  have h2 := decodeRune_enc d []
  rw [List.append_nil, ← ht, h1] at h2
  exact Option.some.inj h2

example : encodeUTF8 'é'.val = [0xC3, 0xA9] := by decide

/-! ### The table -/

theorem bytesCharMap_eq : bytesCharMap =
    (List.range 256).map (fun b => (UInt8.ofNat b, String.utf8EncodeChar (alphabetChar (UInt8.ofNat b)))) := by
  decide +kernel


theorem alphabet_nodup : ((List.range 256).map (fun i => alphabetChar (UInt8.ofNat i))).Nodup := by
  decide +kernel

theorem alphabetChar_inj {a b : UInt8} (h : alphabetChar a = alphabetChar b) : a = b := by
  have key : ∀ i < 256, ∀ j < 256,
      alphabetChar (UInt8.ofNat i) = alphabetChar (UInt8.ofNat j) → i = j := by
    have hn := alphabet_nodup
    intro i hi j hj e
    have h2 : ∀ i j, i < j → j < 256 →
        alphabetChar (UInt8.ofNat i) ≠ alphabetChar (UInt8.ofNat j) := by
      intro i j hij hj
      rw [List.nodup_iff_pairwise_ne, List.pairwise_iff_getElem] at hn
      have h3 := hn i j (by simp; omega) (by simpa using hj) hij
      rw [List.getElem_map, List.getElem_map, List.getElem_range, List.getElem_range] at h3
      exact h3
    rcases Nat.lt_trichotomy i j with h | h | h
    · exact absurd e (h2 i j h hj)
    · exact h
    · exact absurd e.symm (h2 j i h hi)
  have := key a.toNat a.toNat_lt b.toNat b.toNat_lt (by simpa using h)
  exact UInt8.toNat_inj.1 this

theorem bytesCharMap_nodup : (bytesCharMap.map (·.1)).Nodup := by
  rw [bytesCharMap_eq, List.map_map]
  decide +kernel

theorem mem_bytesCharMap (b : UInt8) (s : List UInt8) :
    (b, s) ∈ bytesCharMap ↔ s = String.utf8EncodeChar (alphabetChar b) := by
  rw [bytesCharMap_eq, List.mem_map]
  constructor
  · rintro ⟨n, _, h⟩
    cases h; rfl
  · rintro rfl
    exact ⟨b.toNat, by simpa using b.toNat_lt, by simp⟩

theorem utf8EncodeChar_inj {c d : Char} (h : String.utf8EncodeChar c = String.utf8EncodeChar d) :
    c = d := by
  have := encStr_inj (s := [c]) (t := [d]) (by simpa using h)
  simpa using this

/-- The map `CharBytes` is the inverse of `BytesChar`, whatever order its loop uses. -/
theorem charBytes_spec (order : List (UInt8 × List UInt8)) :
    ∀ (cb : List (List UInt8 × UInt8)), (order.map (·.2)).Nodup → ∀ s,
      mget (order.foldl (fun cb p => mset cb p.2 p.1) cb) s =
        match order.find? (fun p => p.2 == s) with
        | some p => some p.1
        | none => mget cb s := by
  induction order with
  | nil => intro cb _ s; rfl
  | cons p order ih =>
    intro cb hn s
    simp only [List.map_cons, List.nodup_cons] at hn
    rw [List.foldl_cons, ih _ hn.2 s, List.find?_cons, mget_mset]
    by_cases h : p.2 = s
    · subst h
      have : order.find? (fun q => q.2 == p.2) = none := by
        rw [List.find?_eq_none]
        intro q hq e
        exact hn.1 (List.mem_map.2 ⟨q, hq, by simpa using e⟩)
      rw [this]
      simp
    · have : (p.2 == s) = false := by simpa using h
      rw [this]
      simp only [if_neg (Ne.symm h)]

theorem mget_charBytes {order : List (UInt8 × List UInt8)} (ho : order.Perm bytesCharMap)
    (s : List UInt8) (b : UInt8) :
    mget (charBytes order) s = some b ↔ s = String.utf8EncodeChar (alphabetChar b) := by
  have hn : (order.map (·.2)).Nodup := by
    apply (ho.map (·.2)).nodup_iff.2
    rw [bytesCharMap_eq]
    rw [List.map_map]
    have := alphabet_nodup
    rw [List.nodup_iff_pairwise_ne, List.pairwise_map] at this ⊢
    exact this.imp fun h e => h (utf8EncodeChar_inj e)
  unfold charBytes
  rw [charBytes_spec order [] hn s]
  cases hf : order.find? (fun p => p.2 == s) with
  | none =>
    simp only
    constructor
    · intro h; cases h
    · intro h
      rw [List.find?_eq_none] at hf
      exact absurd (by simp [h]) (hf (b, s) (ho.mem_iff.2 ((mem_bytesCharMap b s).2 h)))
  | some p =>
    simp only [Option.some.injEq]
    have h1 : p.2 = s := by simpa using List.find?_some hf
    have h2 := (mem_bytesCharMap p.1 p.2).1 (ho.mem_iff.1 (List.mem_of_find?_eq_some hf))
    constructor
    · rintro rfl; rw [← h1, h2]
    · intro h
      rw [h1, h] at h2
      exact (alphabetChar_inj (utf8EncodeChar_inj h2)).symm

/-! ### C26 -/

/-- C26: the table has exactly the 256 bytes as keys, and each stands for its
character of the alphabet. -/
theorem C26_table : bytesCharMap.length = 256 ∧
    ∀ b, mget bytesCharMap b = some (String.utf8EncodeChar (alphabetChar b)) := by
  constructor
  · rw [bytesCharMap_eq]; simp
  · intro b
    exact mget_of_mem bytesCharMap_nodup ((mem_bytesCharMap b _).2 rfl)

/-- C26: the characters are distinct, and none is a space, a control character or
the soft hyphen (all of which are at or below 32, within 127-160, or 173). -/
theorem C26_distinct_printable :
    (∀ a b, alphabetChar a = alphabetChar b → a = b) ∧
    ∀ b, 32 < (alphabetChar b).toNat ∧ (alphabetChar b).toNat < 324 ∧
      ¬(127 ≤ (alphabetChar b).toNat ∧ (alphabetChar b).toNat ≤ 160) ∧
      (alphabetChar b).toNat ≠ 173 := by
  refine ⟨fun a b => alphabetChar_inj, ?_⟩
  intro b
  have key : ∀ i < 256, 32 < (alphabetChar (UInt8.ofNat i)).toNat ∧
      (alphabetChar (UInt8.ofNat i)).toNat < 324 ∧
      ¬(127 ≤ (alphabetChar (UInt8.ofNat i)).toNat ∧ (alphabetChar (UInt8.ofNat i)).toNat ≤ 160) ∧
      (alphabetChar (UInt8.ofNat i)).toNat ≠ 173 := by
    decide +kernel
  simpa using key b.toNat b.toNat_lt

/-- C26: the inverse table inverts the table and knows nothing else. -/
theorem C26_inverse (order : List (UInt8 × List UInt8)) (ho : order.Perm bytesCharMap)
    (s : List UInt8) (b : UInt8) :
    mget (charBytes order) s = some b ↔ mget bytesCharMap b = some s := by
  rw [mget_charBytes ho, C26_table.2]
  simp [eq_comm]

theorem decodeChars_image {order : List (UInt8 × List UInt8)} (ho : order.Perm bytesCharMap)
    (bs : List UInt8) : decodeChars (charBytes order) (encStr (byteLevelImage bs)) = bs := by
  unfold decodeChars byteLevelImage
  rw [explode_encStr, List.map_map, List.map_map]
  conv => rhs; rw [← List.map_id bs]
  apply List.map_congr_left
  intro b _
  simp only [Function.comp]
  rw [(mget_charBytes ho _ b).2 rfl]
  rfl

/-- C26: decoding any segmentation (even inside characters) of the byte-level image
of a byte string gives the byte string. -/
theorem C26_decode (order : List (UInt8 × List UInt8)) (ho : order.Perm bytesCharMap)
    (bs : List UInt8) (tokens : List (List UInt8))
    (h : tokens.flatten = encStr (byteLevelImage bs)) :
    byteLevelDecode (charBytes order) tokens = bs := by
  unfold byteLevelDecode
  rw [h, decodeChars_image ho]

/-- C26: token by token, when every token is the image of some bytes. -/
theorem C26_decodeChain (order : List (UInt8 × List UInt8)) (ho : order.Perm bytesCharMap)
    (segments : List (List UInt8)) :
    byteLevelDecodeChain (charBytes order) (segments.map (fun bs => encStr (byteLevelImage bs))) =
      segments := by
  unfold byteLevelDecodeChain
  rw [List.map_map]
  conv => rhs; rw [← List.map_id segments]
  apply List.map_congr_left
  intro bs _
  exact decodeChars_image ho bs

/-- C26: the change map built by `PreTokenize` spells the image of the text, with
`Changes` 0 exactly at the first byte of every character. -/
theorem C26_changes (s : Str) :
    ((byteLevelChanges s).map (·.1)).flatten = encStr (byteLevelImage (encStr s)) ∧
    (byteLevelChanges s).map (·.2) =
      s.flatMap (fun c => 0 :: List.replicate (c.utf8Size - 1) 1) := by
  induction s with
  | nil => exact ⟨rfl, rfl⟩
  | cons c s ih =>
    have e : byteLevelChanges (c :: s) = (String.utf8EncodeChar c).zipIdx.map
        (fun p => (bytesChar p.1, if p.2 > 0 then 1 else 0)) ++ byteLevelChanges s := by
      simp [byteLevelChanges]
    rw [e]
    constructor
    · rw [List.map_append, List.flatten_append, ih.1, encStr_cons]
      unfold byteLevelImage
      rw [List.map_append, encStr_append]
      congr 1
      rw [List.map_map]
      have : ∀ (l : List UInt8) (n : Nat),
          ((l.zipIdx n).map ((·.1) ∘ fun p : UInt8 × Nat =>
            (bytesChar p.1, if p.2 > 0 then (1 : Int) else 0))).flatten =
          encStr (l.map alphabetChar) := by
        intro l
        induction l with
        | nil => intro n; rfl
        | cons b l ih =>
          intro n
          simp only [List.zipIdx_cons, List.map_cons, List.flatten_cons, ih (n + 1), encStr_cons]
          simp [bytesChar, C26_table.2]
      exact this _ 0
    · rw [List.map_append, ih.2, List.flatMap_cons]
      congr 1
      have hlen := String.length_utf8EncodeChar c
      cases he : String.utf8EncodeChar c with
      | nil => exact absurd he (enc_ne_nil c)
      | cons b t =>
        rw [he] at hlen
        simp only [List.length_cons] at hlen
        rw [← hlen]
        simp only [List.zipIdx_cons, List.map_cons, Nat.add_sub_cancel]
        simp only [Nat.lt_irrefl, if_false, gt_iff_lt, List.cons.injEq, true_and]
        rw [List.map_map]
        apply List.eq_replicate_iff.2
        refine ⟨by simp, ?_⟩
        intro x hx
        obtain ⟨p, hp, rfl⟩ := List.mem_map.1 hx
        have := List.le_snd_of_mem_zipIdx hp
        simp only [Function.comp]
        rw [if_pos (by omega)]

/-- Decoding a text that has characters outside the alphabet turns each of them
into a zero byte, silently. -/
theorem C26_foreign_characters (order : List (UInt8 × List UInt8)) (ho : order.Perm bytesCharMap)
    (s : Str) (h : ∀ c ∈ s, ∀ b, c ≠ alphabetChar b) :
    byteLevelDecode (charBytes order) [encStr s] = List.replicate s.length 0 := by
  unfold byteLevelDecode decodeChars
  simp only [List.flatten_cons, List.flatten_nil, List.append_nil]
  rw [explode_encStr, List.map_map]
  apply List.eq_replicate_iff.2
  refine ⟨by simp, ?_⟩
  intro x hx
  obtain ⟨c, hc, rfl⟩ := List.mem_map.1 hx
  simp only [Function.comp]
  cases hm : mget (charBytes order) (String.utf8EncodeChar c) with
  | none => rfl
  | some b =>
    exact absurd (utf8EncodeChar_inj ((mget_charBytes ho _ b).1 hm)) (h c hc b)

/-- Non-vacuity: "é " as three tokens that cut through a character's two bytes. -/
example : byteLevelDecode (charBytes bytesCharMap)
    [[0xC3], [0x83, 0xC2, 0xA9], [0xC4, 0xA0]] = [0xC3, 0xA9, 0x20] :=
  C26_decode bytesCharMap (List.Perm.refl _) [0xC3, 0xA9, 0x20] _ (by decide +kernel)

end Tok
