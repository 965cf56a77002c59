import Verif.Whole.PropsFilePlaces

/-!
# C143: the offsets of byte-level files are the places of the tokens in the text, without spaces if they are trimmed
-/

namespace Tok.Whole

open Tok.PreTok Tok.Added Tok.Config Tok.Norm

/-! ### Specification -/

/-- `o'` is the place `o` in the bytes of a text without the spaces at its ends. -/
structure WithoutSpaces (bs : List UInt8) (o o' : Int × Int) : Prop where
  inside : o.1 ≤ o'.1 ∧ o'.1 ≤ o'.2 ∧ o'.2 ≤ o.2
  front : ∀ i : Nat, o.1 ≤ (i : Int) → (i : Int) < o'.1 → bs[i]? = some 32
  behind : ∀ i : Nat, o'.2 ≤ (i : Int) → (i : Int) < o.2 → bs[i]? = some 32
  ends : o'.1 < o'.2 → bs[o'.1.toNat]? ≠ some 32 ∧ bs[(o'.2 - 1).toNat]? ≠ some 32

/-- How a post-processor of a file treats offsets: `none` if it keeps them, `some a` if it trims them and its setting
"add_prefix_space" is `a`. -/
inductive TrimsOne : List (Str × Val) → Option Bool → Prop
  | byteLevel (q : List (Str × Val)) (a t : Bool) : TypeIs q "ByteLevel" → FlagIs q "add_prefix_space" a →
      FlagIs q "trim_offsets" t → TrimsOne q (if t then some a else none)
  | roberta (q : List (Str × Val)) (cls sep : Str × Int) (a : Bool) : TypeIs q "RobertaProcessing" → TokenIs q "sep" sep →
      TokenIs q "cls" cls → get q "trim_offsets" = .bool true → get q "add_prefix_space" = .bool a → TrimsOne q (some a)
  | bert (q : List (Str × Val)) (cls sep : Str × Int) : TypeIs q "BertProcessing" → TokenIs q "sep" sep → TokenIs q "cls" cls →
      TrimsOne q none
  | template (q : List (Str × Val)) : TypeIs q "TemplateProcessing" → TrimsOne q none

/-- The section "post_processor" puts these tokens around a text and treats offsets like this. The Sequence is the one that
newer LLaMA files have. -/
inductive Places : Option (List (Str × Val)) → List (Str × Int) → List (Str × Int) → Option Bool → Prop
  | none : Places none [] [] none
  | one (q : List (Str × Val)) (before after : List (Str × Int)) (tr : Option Bool) : OneAdds q before after → TrimsOne q tr →
      Places (some q) before after tr
  | sequence (q x y : List (Str × Val)) (before after : List (Str × Int)) (a t : Bool) : TypeIs q "Sequence" →
      get q "processors" = .arr [.obj x, .obj y] →
      TypeIs x "ByteLevel" ∧ FlagIs x "add_prefix_space" a ∧ FlagIs x "trim_offsets" t → TypeIs y "TemplateProcessing" →
      OneAdds y before after → Places (some q) before after (if t then some a else none)

/-- The first token can be trimmed: a space was put in front, the post-processor knows it, and the token is not only this
space; or no space was put in front, and the post-processor knows it or the text does not begin with a space. -/
def FirstFits (a aps : Bool) (s : Str) (tb : List (List UInt8)) : Prop :=
  if a = true ∧ s.head? ≠ some ' ' then aps = true ∧ tb.head? ≠ some [32] else aps = false ∨ s.head? ≠ some ' '

/-! ### Bytes and characters -/

theorem utf8_space (c : Char) (h : 32 ∈ String.utf8EncodeChar c) : c = ' ' := by
  have h1 := count_enc c
  have h2 := List.count_pos_iff.mpr h
  by_cases hc : c = ' '
  · exact hc
  · rw [if_neg hc] at h1; omega

theorem at_byte (s : Str) : ∀ p, p < blen s → ∃ u c v j, s = u ++ c :: v ∧ j < c.utf8Size ∧ p = blen u + j := by
  induction s with
  | nil => intro p hp; simp at hp
  | cons c s ih =>
    intro p hp
    by_cases h : p < c.utf8Size
    · exact ⟨[], c, s, p, rfl, h, by simp⟩
    · obtain ⟨u, d, v, j, h1, h2, h3⟩ := ih (p - c.utf8Size) (by simp at hp; omega)
      exact ⟨c :: u, d, v, j, by rw [h1]; rfl, h2, by simp; omega⟩

theorem byte_of (u : Str) (c : Char) (v : Str) (j : Nat) (hj : j < c.utf8Size) :
    (encStr (u ++ c :: v))[blen u + j]? = (String.utf8EncodeChar c)[j]? := by
  rw [encStr_append, List.getElem?_append_right (by rw [length_encStr]; omega), length_encStr, encStr_cons,
    List.getElem?_append_left (by simp; omega)]
  congr 1; omega

theorem place_space (s : Str) (p : Nat) (hp : p < blen s) : ∃ x y : Nat, (byteRanges s 0)[p]? = some ((x : Int), (y : Int)) ∧
    x ≤ p ∧ p < y ∧ y ≤ blen s ∧ ((encStr s)[p]? = some 32 → x = p ∧ y = p + 1) ∧
    ((encStr s)[p]? ≠ some 32 → (encStr s)[x]? ≠ some 32 ∧ (encStr s)[y - 1]? ≠ some 32) := by
  obtain ⟨u, c, v, j, rfl, hj, rfl⟩ := at_byte s p hp
  refine ⟨blen u, blen u + c.utf8Size, byteRanges_at u c v j hj, by omega, by omega, by simp, fun h => ?_, fun h => ?_⟩
  · rw [byte_of u c v j hj] at h
    have : c = ' ' := utf8_space c (List.mem_of_getElem? h)
    subst this
    have : (' ' : Char).utf8Size = 1 := by decide
    omega
  · have hc : c ≠ ' ' := by
      rintro rfl
      have : (' ' : Char).utf8Size = 1 := by decide
      have hj0 : j = 0 := by omega
      subst hj0
      rw [byte_of u ' ' v 0 hj] at h
      exact h (by decide)
    have hpos := c.utf8Size_pos
    constructor
    · intro h'
      rw [show blen u = blen u + 0 from rfl, byte_of u c v 0 hpos] at h'
      exact hc (utf8_space c (List.mem_of_getElem? h'))
    · intro h'
      rw [show blen u + c.utf8Size - 1 = blen u + (c.utf8Size - 1) by omega, byte_of u c v _ (by omega)] at h'
      exact hc (utf8_space c (List.mem_of_getElem? h'))

/-! ### One token -/

theorem image_front (t : List UInt8) : ((byteLevelImage t).takeWhile (· == 'Ġ')).length = (t.takeWhile (· == 32)).length := by
  induction t with
  | nil => rfl
  | cons x t ih =>
    have h := alphabetChar_marker x
    by_cases hx : x = 32
    · have := h.2 hx
      simp only [byteLevelImage, List.map_cons, this] at ih ⊢
      subst hx
      simpa using ih
    · have : alphabetChar x ≠ 'Ġ' := fun e => hx (h.1 e)
      simp [byteLevelImage, this, hx]

theorem image_behind (t : List UInt8) :
    ((byteLevelImage t).reverse.takeWhile (· == 'Ġ')).length = (t.reverse.takeWhile (· == 32)).length := by
  rw [← image_front]
  simp [byteLevelImage]

theorem lead_spec (t : List UInt8) : (∀ i, i < (t.takeWhile (· == 32)).length → t[i]? = some 32) ∧
    t[(t.takeWhile (· == 32)).length]? ≠ some 32 ∧ (t.takeWhile (· == 32)).length ≤ t.length := by
  induction t with
  | nil => simp
  | cons x t ih =>
    by_cases hx : x = 32
    · subst hx
      simp only [List.takeWhile_cons, beq_self_eq_true, if_true, List.length_cons]
      refine ⟨fun i hi => ?_, ?_, by omega⟩
      · cases i with
        | zero => rfl
        | succ i => simpa using ih.1 i (by omega)
      · simpa using ih.2.1
    · simp [hx]

theorem tail_spec (t : List UInt8) : (∀ i, i < (t.reverse.takeWhile (· == 32)).length → t[t.length - 1 - i]? = some 32) ∧
    ((t.reverse.takeWhile (· == 32)).length < t.length →
      t[t.length - 1 - (t.reverse.takeWhile (· == 32)).length]? ≠ some 32) ∧
    (t.reverse.takeWhile (· == 32)).length ≤ t.length := by
  obtain ⟨h1, h2, h3⟩ := lead_spec t.reverse
  rw [List.length_reverse] at h3
  refine ⟨fun i hi => ?_, fun h => ?_, h3⟩
  · rw [← List.getElem?_reverse (by omega)]
    exact h1 i hi
  · rw [← List.getElem?_reverse (by omega)]
    exact h2

/-- Trimming the place of a token of the text takes the spaces at its ends away. -/
theorem trim_token (bs t : List UInt8) (q x y k : Nat) (ht : t ≠ []) (hbs : ∀ i, i < t.length → bs[q + i]? = t[i]?)
    (hx : x ≤ q) (hy : q + t.length ≤ y)
    (hx1 : bs[q]? = some 32 → x = q) (hx2 : bs[q]? ≠ some 32 → bs[x]? ≠ some 32)
    (hy1 : bs[q + t.length - 1]? = some 32 → y = q + t.length) (hy2 : bs[q + t.length - 1]? ≠ some 32 → bs[y - 1]? ≠ some 32) :
    WithoutSpaces bs ((x : Int), (y : Int)) (trimmedPlace false k (byteLevelImage t) ((x : Int), (y : Int))) := by
  have hpos : 0 < t.length := List.length_pos_of_ne_nil ht
  obtain ⟨f1, f2, f3⟩ := lead_spec t
  obtain ⟨b1, b2, b3⟩ := tail_spec t
  unfold trimmedPlace
  rw [image_front, image_behind]
  generalize (t.takeWhile (· == 32)).length = n at *
  generalize (t.reverse.takeWhile (· == 32)).length = m at *
  simp only [Bool.false_eq_true, false_and, and_false, if_false]
  have hxn : 0 < n → x = q := by
    intro h
    apply hx1
    have := hbs 0 hpos
    rw [Nat.add_zero] at this
    rw [this]
    exact f1 0 h
  have hym : 0 < m → y = q + t.length := by
    intro h
    apply hy1
    have := hbs (t.length - 1) (by omega)
    rw [show q + t.length - 1 = q + (t.length - 1) by omega, this]
    simpa using b1 0 h
  by_cases hall : n = t.length
  · have hxq := hxn (by omega)
    have hm : 0 < m := by
      apply Nat.pos_of_ne_zero
      rintro rfl
      apply b2 hpos
      exact f1 _ (by omega)
    have hyq := hym hm
    have hs : min ((x : Int) + (n : Int)) y = y := by omega
    rw [hs]
    have he : (if (m : Int) ≤ (y : Int) then max ((y : Int) - m) (y : Int) else (y : Int)) = y := by
      split <;> omega
    rw [he]
    refine ⟨by dsimp only; omega, fun i h1 h2 => ?_, fun i h1 h2 => ?_, fun h => ?_⟩
    · dsimp only at h1 h2
      have := hbs (i - q) (by omega)
      rw [show q + (i - q) = i by omega] at this
      rw [this]
      exact f1 _ (by omega)
    · dsimp only at h1 h2; omega
    · dsimp only at h; omega
  · have hn : n < t.length := by omega
    have hnm : n + m < t.length := by
      apply Nat.lt_of_not_le
      intro h
      apply f2
      have := b1 (t.length - 1 - n) (by omega)
      rwa [show t.length - 1 - (t.length - 1 - n) = n by omega] at this
    have hs : min ((x : Int) + (n : Int)) y = x + n := by
      have : x + n ≤ y := by omega
      omega
    rw [hs]
    have hle : x + n + m ≤ y := by omega
    have he : (if (m : Int) ≤ (y : Int) then max ((y : Int) - m) ((x : Int) + n) else (y : Int)) = y - m := by
      rw [if_pos (by omega)]; omega
    rw [he]
    refine ⟨by dsimp only; omega, fun i h1 h2 => ?_, fun i h1 h2 => ?_, fun h => ?_⟩
    · dsimp only at h1 h2
      have hxq := hxn (by omega)
      have := hbs (i - q) (by omega)
      rw [show q + (i - q) = i by omega] at this
      rw [this]
      exact f1 _ (by omega)
    · dsimp only at h1 h2
      have hyq := hym (by omega)
      have := hbs (i - q) (by omega)
      rw [show q + (i - q) = i by omega] at this
      rw [this]
      have := b1 (t.length - 1 - (i - q)) (by omega)
      rwa [show t.length - 1 - (t.length - 1 - (i - q)) = i - q by omega] at this
    · dsimp only
      constructor
      · rw [show ((x : Int) + n).toNat = x + n by omega]
        by_cases h0 : n = 0
        · subst h0
          apply hx2
          have := hbs 0 hpos
          rw [Nat.add_zero] at this
          rw [this]
          exact f2
        · rw [hxn (by omega), hbs n hn]
          exact f2
      · by_cases h0 : m = 0
        · subst h0
          rw [show ((y : Int) - ((0 : Nat) : Int) - 1).toNat = y - 1 by omega]
          apply hy2
          have := hbs (t.length - 1) (by omega)
          rw [show q + t.length - 1 = q + (t.length - 1) by omega, this]
          exact b2 hpos
        · have hyq := hym (by omega)
          rw [show ((y : Int) - (m : Int) - 1).toNat = q + (t.length - 1 - m) by omega, hbs _ (by omega)]
          exact b2 (by omega)

/-! ### All tokens of a text -/

theorem placesFrom_at (al : List (Int × Int)) (tb : List (List UInt8)) : ∀ (p k : Nat), (placesFrom al p tb)[k]? =
    (tb[k]?).map (fun t => (((al[p + (tb.take k).flatten.length]?).getD (0, 0)).1,
      ((al[p + (tb.take k).flatten.length + t.length - 1]?).getD (0, 0)).2)) := by
  induction tb with
  | nil => intro p k; simp [placesFrom]
  | cons t tb ih =>
    intro p k
    cases k with
    | zero => simp [placesFrom]
    | succ k =>
      rw [placesFrom, List.getElem?_cons_succ, ih]
      simp [Nat.add_assoc]

theorem flatten_at (tb : List (List UInt8)) (k : Nat) (t : List UInt8) (h : tb[k]? = some t) :
    (∀ i, i < t.length → tb.flatten[(tb.take k).flatten.length + i]? = t[i]?) ∧
    (tb.take k).flatten.length + t.length ≤ tb.flatten.length := by
  obtain ⟨hk, hk'⟩ := List.getElem?_eq_some_iff.mp h
  have hs : tb = tb.take k ++ t :: tb.drop (k + 1) := by
    rw [← hk', List.getElem_cons_drop, List.take_append_drop]
  have hf : tb.flatten = (tb.take k).flatten ++ (t ++ (tb.drop (k + 1)).flatten) := by
    have := congrArg List.flatten hs
    simpa using this
  constructor
  · intro i hi
    rw [hf, List.getElem?_append_right (by omega), Nat.add_sub_cancel_left, List.getElem?_append_left hi]
  · rw [hf]; simp

theorem first_byte (s : Str) (h : s.head? ≠ some ' ') : (encStr s)[0]? ≠ some 32 := by
  cases s with
  | nil => simp
  | cons c t =>
    intro h'
    have := byte_of [] c t 0 c.utf8Size_pos
    simp only [List.nil_append, blen_nil, Nat.add_zero] at this
    rw [this] at h'
    exact h (by rw [utf8_space c (List.mem_of_getElem? h')]; rfl)

theorem trimmedPlace_same (aps : Bool) (k : Nat) (t : List UInt8) (o : Int × Int)
    (h : k = 0 → aps = true → (t.takeWhile (· == 32)).length ≠ 1) :
    trimmedPlace aps k (byteLevelImage t) o = trimmedPlace false k (byteLevelImage t) o := by
  unfold trimmedPlace
  rw [image_front]
  have h1 : ¬ (k = 0 ∧ aps = true ∧ (t.takeWhile (· == 32)).length = 1) := fun ⟨a, b, c⟩ => h a b c
  simp [h1]

theorem aligns_prefix (a : Bool) (c : Char) (t : Str) (h : a = true ∧ (c :: t).head? ≠ some ' ') :
    prefixed a (c :: t) = ' ' :: c :: t ∧
    alignsOf (prefixedBlocks a (c :: t)) 0 = ((0 : Int), (c.utf8Size : Int)) :: byteRanges (c :: t) 0 := by
  have hc : c ≠ ' ' := fun e => h.2 (by rw [e]; rfl)
  constructor
  · simp [prefixed, h.1, hc]
  · simp only [prefixedBlocks]
    rw [if_pos ⟨h.1, hc⟩, alignsOf, ← byteRanges_blocks, byteRanges]
    have : blen [' ', c] = c.utf8Size + 1 := by
      simp only [blen_cons, blen_nil]
      have : (' ' : Char).utf8Size = 1 := by decide
      omega
    rw [this, List.replicate_succ]
    simp

theorem aligns_plain (a : Bool) (s : Str) (h : ¬ (a = true ∧ s.head? ≠ some ' ')) :
    prefixed a s = s ∧ alignsOf (prefixedBlocks a s) 0 = byteRanges s 0 := by
  cases s with
  | nil => simp [prefixed, prefixedBlocks, alignsOf, byteRanges]
  | cons c t =>
    have hc : ¬ (a = true ∧ c ≠ ' ') := by
      rintro ⟨h1, h2⟩
      exact h ⟨h1, by simpa using h2⟩
    constructor
    · simp only [prefixed]
      rw [if_neg]
      simpa using hc
    · simp only [prefixedBlocks]
      rw [if_neg hc, byteRanges_blocks]

/-- The place of each token, and what trimming makes of it. -/
theorem token_places (a aps : Bool) (s : Str) (tb : List (List UInt8)) (hfl : tb.flatten = encStr (prefixed a s))
    (hne : ∀ x ∈ tb, x ≠ []) (k : Nat) (t : List UInt8) (ht : tb[k]? = some t) :
    ∃ o, (placesFrom (alignsOf (prefixedBlocks a s) 0) 0 tb)[k]? = some o ∧ o.1 ≤ o.2 ∧
      ((k = 0 → FirstFits a aps s tb) → WithoutSpaces (encStr s) o (trimmedPlace aps k (byteLevelImage t) o)) := by
  have htn : t ≠ [] := hne t (List.mem_of_getElem? ht)
  have hpos : 0 < t.length := List.length_pos_of_ne_nil htn
  obtain ⟨g1, g2⟩ := flatten_at tb k t ht
  rw [placesFrom_at, ht]
  refine ⟨_, rfl, ?_⟩
  rw [hfl] at g1 g2
  simp only [Nat.zero_add]
  by_cases hadded : a = true ∧ s.head? ≠ some ' '
  · cases s with
    | nil =>
      have h0 : (encStr (prefixed a [])).length = 0 := by simp [prefixed]
      omega
    | cons c s =>
    obtain ⟨p1, p2⟩ := aligns_prefix a c s hadded
    have hsp : String.utf8EncodeChar ' ' = [32] := by decide
    have hb0 := first_byte (c :: s) hadded.2
    rw [p1, encStr_cons, hsp] at g1 g2
    rw [p2]
    simp only [List.length_append, List.length_singleton, length_encStr] at g2
    by_cases hk : k = 0
    · subst hk
      simp only [List.take_zero, List.flatten_nil, List.length_nil, Nat.zero_add] at g1 g2 ⊢
      have h0 := g1 0 hpos
      cases t with
      | nil => exact absurd rfl htn
      | cons z t =>
      simp only [List.singleton_append, List.getElem?_cons_zero, Option.some.injEq] at h0
      subst h0
      cases t with
      | nil =>
        simp only [List.length_singleton, Nat.sub_self, List.getElem?_cons_zero, Option.getD_some]
        refine ⟨by omega, fun hf => ?_⟩
        have := hf trivial
        unfold FirstFits at this
        rw [if_pos hadded] at this
        have htb : tb.head? = some [32] := by rw [← ht]; cases tb <;> rfl
        exact absurd htb this.2
      | cons w t =>
      have g1' : ∀ i, i < (w :: t).length → (encStr (c :: s))[0 + i]? = (w :: t)[i]? := by
        intro i hi
        have := g1 (i + 1) (by simpa using hi)
        simpa [Nat.add_comm] using this
      obtain ⟨x, y, e1, e2, e3, e4, e5, e6⟩ := place_space (c :: s) t.length (by simp at g2 ⊢; omega)
      have hidx : (((0 : Int), (c.utf8Size : Int)) :: byteRanges (c :: s) 0)[(32 :: w :: t).length - 1]? = some ((x : Int), (y : Int)) := by
        simpa using e1
      rw [hidx]
      simp only [List.getElem?_cons_zero, Option.getD_some]
      refine ⟨by omega, fun hf => ?_⟩
      have hf := hf trivial
      unfold FirstFits at hf
      rw [if_pos hadded] at hf
      have hw : w ≠ 32 := by
        have := g1' 0 (by simp)
        rw [Nat.zero_add] at this
        rw [this] at hb0
        simpa using hb0
      have hn : ((w :: t).takeWhile (· == 32)).length = 0 := by simp [hw]
      have key := trim_token (encStr (c :: s)) (w :: t) 0 0 y 0 (by simp) g1' (by omega) (by simp; omega) (fun _ => rfl) (fun h => h)
        (by
          intro h
          have := (e5 (by simpa using h)).2
          simp; omega)
        (by
          intro h
          exact (e6 (by simpa using h)).2)
      have hsame : trimmedPlace aps 0 (byteLevelImage (32 :: w :: t)) ((0 : Int), (y : Int)) =
          trimmedPlace false 0 (byteLevelImage (w :: t)) ((0 : Int), (y : Int)) := by
        unfold trimmedPlace
        rw [image_front, image_behind, image_front, image_behind, hn]
        have h1 : ((32 :: w :: t).takeWhile (· == 32)).length = 1 := by simp [hw]
        have h2 : ((32 :: w :: t).reverse.takeWhile (· == 32)).length = ((w :: t).reverse.takeWhile (· == 32)).length := by
          rw [List.reverse_cons, List.takeWhile_append, if_neg]
          intro h
          have h3 : (w :: t).reverse.takeWhile (· == 32) = (w :: t).reverse := by
            have := List.takeWhile_prefix (l := (w :: t).reverse) (fun x : UInt8 => x == 32)
            exact this.eq_of_length h
          have h4 := List.all_takeWhile (l := (w :: t).reverse) (p := fun x : UInt8 => x == 32)
          rw [h3] at h4
          simp [hw] at h4
        rw [h1, h2, hf.1]
        simp
      rw [hsame]
      exact key
    · have hq : 1 ≤ (tb.take k).flatten.length := by
        cases tb with
        | nil => cases ht
        | cons z tb =>
          obtain ⟨k, rfl⟩ := Nat.exists_eq_succ_of_ne_zero hk
          have := List.length_pos_of_ne_nil (hne z (by simp))
          simp; omega
      obtain ⟨q, hq⟩ := Nat.exists_eq_add_of_le hq
      rw [hq] at g1 g2 ⊢
      have g1' : ∀ i, i < t.length → (encStr (c :: s))[q + i]? = t[i]? := by
        intro i hi
        have := g1 i hi
        rw [show 1 + q + i = (q + i) + 1 by omega] at this
        simpa using this
      obtain ⟨x, y', e1, e2, e3, e4, e5, e6⟩ := place_space (c :: s) q (by omega)
      obtain ⟨x', y, f1, f2, f3, f4, f5, f6⟩ := place_space (c :: s) (q + t.length - 1) (by omega)
      rw [show 1 + q + t.length - 1 = (q + t.length - 1) + 1 by omega, show 1 + q = q + 1 by omega, List.getElem?_cons_succ,
        List.getElem?_cons_succ, e1, f1]
      simp only [Option.getD_some]
      refine ⟨by omega, fun _ => ?_⟩
      rw [trimmedPlace_same aps k t _ (fun h => absurd h hk)]
      exact trim_token _ t q x y k htn g1' e2 (by omega) (fun h => (e5 h).1) (fun h => (e6 h).1)
        (fun h => by have := (f5 h).2; omega) (fun h => (f6 h).2)
  · obtain ⟨p1, p2⟩ := aligns_plain a s hadded
    rw [p1] at g1 g2
    rw [p2]
    rw [length_encStr] at g2
    generalize hq : (tb.take k).flatten.length = q at *
    obtain ⟨x, y', e1, e2, e3, e4, e5, e6⟩ := place_space s q (by omega)
    obtain ⟨x', y, f1, f2, f3, f4, f5, f6⟩ := place_space s (q + t.length - 1) (by omega)
    rw [e1, f1]
    simp only [Option.getD_some]
    refine ⟨by omega, fun hf => ?_⟩
    rw [trimmedPlace_same aps k t _ (by
      intro h0 ha
      have hf := hf h0
      unfold FirstFits at hf
      rw [if_neg hadded] at hf
      rcases hf with hf | hf
      · rw [hf] at ha; cases ha
      · have hb := first_byte s hf
        subst h0
        simp only [List.take_zero, List.flatten_nil, List.length_nil] at hq
        subst hq
        rw [g1 0 hpos] at hb
        cases t with
        | nil => exact absurd rfl htn
        | cons z t =>
          have : z ≠ 32 := by simpa using hb
          simp [this])]
    exact trim_token _ t q x y k htn g1 e2 (by omega) (fun h => (e5 h).1) (fun h => (e6 h).1)
      (fun h => by have := (f5 h).2; omega) (fun h => (f6 h).2)

/-! ### Post-processors -/

theorem proc_unique {q : List (Str × Val)} {c d : ProcCfg} (h : ProcDesc q c) (h' : ProcDesc q d) : c = d := by
  have h1 := C70_postProcessor q _ h
  have h2 := C70_postProcessor q _ h'
  rw [h1] at h2
  exact Res.ok.inj h2

theorem type_unique {q : List (Str × Val)} {s t : String} (h : TypeIs q s) (h' : TypeIs q t) : s = t := by
  have h1 : get q "type" = .str s.toList := h
  have h2 : get q "type" = .str t.toList := h'
  rw [h1] at h2
  injection h2 with h2
  exact String.toList_injective h2

theorem one_places {q : List (Str × Val)} {before after : List (Str × Int)} {tr : Option Bool} (h : OneAdds q before after)
    (ht : TrimsOne q tr) :
    ∃ c, ProcDesc q c ∧ ∀ e : Encoding, Delivered e → PlainMasks e → ∃ x r, (procFn c).process e none false = .ok (some x) ∧
      (procFn c).process e none true = .ok (some r) ∧ Beside before.length after.length x r ∧
      TrimmedIf tr.isSome (tr.getD false) e x := by
  obtain ⟨c, h1, h2⟩ := one_beside h
  refine ⟨c, h1, fun e he hm => ?_⟩
  obtain ⟨x, r, k1, k2, _, k3, k4⟩ := h2 e he hm
  refine ⟨x, r, k1, k2, k3, ?_⟩
  have ho : ∀ o ∈ e.overflowing, o.Aligned := by rw [he.2.1]; simp
  cases ht with
  | byteLevel a t g1 g2 g3 =>
    cases proc_unique h1 (.byteLevel q a t g1 g2 g3)
    obtain ⟨r', l1, l2, _⟩ := C102_single t a false e he.usable.2.2 he.1 ho
    rw [procFn] at k1
    rw [k1] at l1
    cases l1
    have := l2.offsets
    cases t
    · exact ⟨this.1, by simpa [TrimmedIf] using this.2⟩
    · exact this
  | roberta cls sep a g1 g2 g3 g4 g5 =>
    cases proc_unique h1 (.roberta q sep cls true a g1 g2 g3 g4 g5)
    obtain ⟨t, ⟨⟨d, d1, d2⟩, _⟩, l2, _⟩ := C23_roberta_plain_partial (Roberta.mk ⟨sep.1, sep.2⟩ ⟨cls.1, cls.2⟩ true a) rfl e he.1 ho
    rw [procFn] at k1
    have : some x = some t := Res.ok.inj (k1.symm.trans l2)
    cases this
    obtain ⟨d', m1, m2, m3, _, _⟩ := processOffsets_trimmed e he.1 a
    have hd : d = d' := Res.ok.inj (d1.symm.trans m1)
    subst hd
    rw [d2]
    exact m3
  | bert cls sep g1 g2 g3 =>
    cases proc_unique h1 (.bert q sep cls g1 g2 g3)
    rw [procFn] at k1
    have : some x = some e := Res.ok.inj (k1.symm.trans rfl)
    cases this
    exact ⟨rfl, rfl⟩
  | template g1 =>
    have : x.offsets = e.offsets := by
      apply k4
      cases h with
      | plain h =>
        cases h with
        | bert _ _ g2 => exact absurd (type_unique g1 g2) (by decide)
        | roberta _ _ _ g2 => exact absurd (type_unique g1 g2) (by decide)
        | byteLevel _ _ g2 => exact absurd (type_unique g1 g2) (by decide)
      | template ty pair toks e1 e2 e3 e4 e5 e6 =>
        obtain ⟨tp, g1, _⟩ := C52_processor q _ pair toks e2 e3 e4 e5
        exact ⟨tp, proc_unique h1 (.template q tp e1 g1)⟩
    exact ⟨by rw [this], this⟩

theorem places_post {o : Option (List (Str × Val))} {before after : List (Str × Int)} {tr : Option Bool}
    (h : Places o before after tr) :
    ∃ pc, fromSection createProc o = .ok pc ∧ ∀ rows : List Row, ∃ x r,
      postProcess none (pc.map procFn) none (ofRows rows 0) none false = .ok (some x) ∧
      postProcess none (pc.map procFn) none (ofRows rows 0) none true = .ok (some r) ∧ Beside before.length after.length x r ∧
      TrimmedIf tr.isSome (tr.getD false) (ofRows rows 0) x := by
  cases h with
  | none =>
    exact ⟨none, rfl, fun rows => ⟨ofRows rows 0, ofRows rows 0, rfl, rfl, beside_self (rows_masks rows 0), rfl, rfl⟩⟩
  | one q _ _ _ h ht =>
    obtain ⟨c, h1, h2⟩ := one_places h ht
    refine ⟨some c, fromSection_some (C70_postProcessor q _ h1), fun rows => ?_⟩
    obtain ⟨x, r, k1, k2, k3, k4⟩ := h2 _ (ofRows_delivered rows 0) (rows_masks rows 0)
    refine ⟨x, r, ?_, ?_, k3, k4⟩
    · simp only [Option.map_some, postProcess, postTruncate, Res.bind_ok, k1]
    · simp only [Option.map_some, postProcess, postTruncate, Res.bind_ok, k2]
  | sequence q x y _ _ a t g1 g2 g3 g4 g5 =>
    obtain ⟨c, h1, h2⟩ := one_places g5 (.template y g4)
    have hx : TrimsOne x (if t then some a else none) := .byteLevel x a t g3.1 g3.2.1 g3.2.2
    obtain ⟨d, d1, d2⟩ := one_places (.plain x [] [] (.byteLevel x a t g3.1 g3.2.1 g3.2.2)) hx
    cases proc_unique d1 (.byteLevel x a t g3.1 g3.2.1 g3.2.2)
    refine ⟨some (.sequence [.byteLevel a t, c]), fromSection_some (C70_postProcessor q _ (.sequence q [x, y] _ g1 g2 rfl (by
      intro i w e hw he
      match i, hw, he with
      | 0, hw, he => cases hw; cases he; exact d1
      | 1, hw, he => cases hw; cases he; exact h1))), fun rows => ?_⟩
    obtain ⟨e', k1, k2, k3⟩ := byteLevel_beside t a (ofRows_delivered rows 0) (rows_masks rows 0)
    obtain ⟨e'', _, l1, _, _, l4⟩ := d2 _ (ofRows_delivered rows 0) (rows_masks rows 0)
    have : some e'' = some e' := Res.ok.inj (l1.symm.trans (k1 false))
    cases this
    obtain ⟨z, r, n1, n2, n3, n4⟩ := h2 e' k2 k3
    have s1 : sequenceProcess (procFns [.byteLevel a t, c]) (ofRows rows 0) none false = .ok (some z) := by
      simp only [procFns, sequenceProcess, k1, Res.bind_ok, n1]
    have s2 : sequenceProcess (procFns [.byteLevel a t, c]) (ofRows rows 0) none true = .ok (some r) := by
      simp only [procFns, sequenceProcess, k1, Res.bind_ok, n2]
    refine ⟨z, r, ?_, ?_, n3, ?_⟩
    · simp only [Option.map_some, postProcess, postTruncate, Res.bind_ok, procFn, sequenceProcessor, s1]
    · simp only [Option.map_some, postProcess, postTruncate, Res.bind_ok, procFn, sequenceProcessor, s2]
    · have hz : z.offsets = e'.offsets := n4.2
      unfold TrimmedIf at l4 ⊢
      rw [hz]
      exact l4

theorem places_surrounds {o : Option (List (Str × Val))} {before after : List (Str × Int)} {tr : Option Bool}
    (h : Places o before after tr) : Surrounds o before after := by
  cases h with
  | none => exact .inl ⟨rfl, rfl, rfl⟩
  | one q _ _ _ h _ => exact .inr ⟨q, rfl, .one q _ _ h⟩
  | sequence q x y _ _ a t g1 g2 g3 g4 g5 =>
    have := ProcAdds.sequence q [(x, [], [])] y before after g1 g2 (by
      intro w hw
      cases List.mem_singleton.mp hw
      exact .byteLevel x a t g3.1 g3.2.1 g3.2.2) g5
    simp only [List.reverse_singleton, List.flatMap_cons, List.flatMap_nil, List.append_nil, List.nil_append] at this
    exact .inr ⟨q, rfl, this⟩

/-! ### C143 -/

/-- What a byte-level file makes of a text: the tokens, their offsets `l`, and the places that the tokens have in the text. -/
theorem byte_places {E : FileEnv} (hL : E.isL ' ' = false) (hN : E.isN ' ' = false) (ho : ∀ l, (E.order l).Perm l)
    {c : FileConfig} {m p d : List (Str × Val)} {v : List (Str × Int)}
    {es : List (Str × Str)} (hm : c.model = some m) (hs : BpeSection m d v es) (hd : c.decoder = some d) {a₁ t₁ : Bool}
    (hdec : DecDesc d (.byteLevel a₁ t₁)) (hp : c.preTokenizer = some p) {a t : Bool} (hpre : PreDesc E.cfg p (.byteLevel a t))
    {before after : List (Str × Int)} {tr : Option Bool} (hproc : Places c.postProcessor before after tr)
    (hn : c.normalizer = none) (htr : c.truncation = none) (hpad : c.padding = none)
    {s : Str} (hadd : ∀ x ∈ c.addedTokens, x.content ≠ [] ∧ ¬ x.content <:+: s) (hnul : '\x00' ∉ s) :
    ∃ (b : Built) (r : Encoding) (tb : List (List UInt8)) (l : List (Int × Int)), fromReader E (some c) = .ok b ∧
      b.tok.encodeSingle (encStr s) [true] = .ok (some r) ∧ tb.flatten = encStr (prefixed a s) ∧ (∀ x ∈ tb, x ≠ []) ∧
      r.tokens = before.map (·.1) ++ tb.map byteLevelImage ++ after.map (·.1) ∧
      r.offsets = List.replicate before.length (0, 0) ++ l ++ List.replicate after.length (0, 0) ∧ l.length = tb.length ∧
      ∀ k t, tb[k]? = some t → ∃ o, (placesFrom (alignsOf (prefixedBlocks a s) 0) 0 tb)[k]? = some o ∧ o.1 ≤ o.2 ∧
        l[k]? = some (if tr.isSome then trimmedPlace (tr.getD false) k (byteLevelImage t) o else o) := by
  obtain ⟨pc, p1, p2⟩ := places_post hproc
  obtain ⟨pc', q1, q2⟩ := surrounds_post (places_surrounds hproc)
  rw [p1] at q1
  cases q1
  obtain ⟨b, rows, tb, h1, h2, h3, h4, h5, h6, h7, h8, h9, _, h10⟩ := byte_file hL hN ho hm hs hd hdec hp hpre p1 hn htr hpad hadd
    (by
      intro _ h
      cases s with
      | nil => cases h
      | cons c t => cases h; simp at hnul)
  have h10 := h10 hnul
  obtain ⟨x, r, k1, k2, k3, k4⟩ := p2 rows
  obtain ⟨r', l1, l2, l3⟩ := q2 rows
  rw [k2] at l1
  cases l1
  have hlen : tb.length = rows.length := by
    have := congrArg List.length h6
    simpa using this.symm
  refine ⟨b, r, tb, x.offsets, h1, (h2 [true]).trans k2, h4, h5, ?_, k3.offsets, ?_, ?_⟩
  · rw [l3, ← h6]; rfl
  · rw [k4.1, hlen]; simp [ofRows]
  · intro k t ht
    obtain ⟨o, o1, o2, _⟩ := token_places a false s tb h4 h5 k t ht
    refine ⟨o, o1, o2, ?_⟩
    have k5 := k4.2
    have e1 : (ofRows rows 0).offsets[k]? = some o := by
      show (rows.map (·.offsets))[k]? = _
      rw [h10]; exact o1
    have e2 : (ofRows rows 0).tokens[k]? = some (byteLevelImage t) := by
      show (rows.map (·.token.value))[k]? = _
      rw [h6, List.getElem?_map, ht]; rfl
    cases tr with
    | none =>
      simp only [Option.isSome_none, Bool.false_eq_true, if_false] at k5 ⊢
      rw [k5]; exact e1
    | some aps =>
      simp only [Option.isSome_some, if_true, Option.getD_some] at k5 ⊢
      exact k5 k _ o e2 e1 o2

/-- C143: a file with a byte-level BPE model, the pre-tokenizer and the decoder ByteLevel makes a tokenizer for which, for every
text without NUL in which no added token occurs, the offsets of the tokens of the text are their places: from the start of the
character of the first byte of the token to the end of the character of its last byte. If the post-processor trims, the offsets
are these places without the spaces at their ends. -/
theorem C143_places_partial (E : FileEnv) (hL : E.isL ' ' = false) (hN : E.isN ' ' = false) (ho : ∀ l, (E.order l).Perm l)
    (c : FileConfig) (m p d : List (Str × Val)) (v : List (Str × Int))
    (es : List (Str × Str)) (hm : c.model = some m) (hs : BpeSection m d v es) (hd : c.decoder = some d) (a₁ t₁ : Bool)
    (hdec : DecDesc d (.byteLevel a₁ t₁)) (hp : c.preTokenizer = some p) (a t : Bool) (hpre : PreDesc E.cfg p (.byteLevel a t))
    (before after : List (Str × Int)) (tr : Option Bool) (hproc : Places c.postProcessor before after tr)
    (hn : c.normalizer = none) (htr : c.truncation = none) (hpad : c.padding = none)
    (s : Str) (hadd : ∀ x ∈ c.addedTokens, x.content ≠ [] ∧ ¬ x.content <:+: s) (hnul : '\x00' ∉ s) :
    ∃ (b : Built) (r : Encoding) (tb : List (List UInt8)) (l : List (Int × Int)), fromReader E (some c) = .ok b ∧
      b.tok.encodeSingle (encStr s) [true] = .ok (some r) ∧ tb.flatten = encStr (prefixed a s) ∧ (∀ x ∈ tb, x ≠ []) ∧
      r.tokens = before.map (·.1) ++ tb.map byteLevelImage ++ after.map (·.1) ∧
      r.offsets = List.replicate before.length (0, 0) ++ l ++ List.replicate after.length (0, 0) ∧
      (tr = none → l = placesFrom (alignsOf (prefixedBlocks a s) 0) 0 tb) ∧
      ∀ aps, tr = some aps → l.length = tb.length ∧
        ∀ (k : Nat) (o o' : Int × Int), (placesFrom (alignsOf (prefixedBlocks a s) 0) 0 tb)[k]? = some o → l[k]? = some o' →
          (k = 0 → FirstFits a aps s tb) → WithoutSpaces (encStr s) o o' := by
  obtain ⟨b, r, tb, l, h1, h2, h3, h4, h5, h6, h7, h8⟩ := byte_places hL hN ho hm hs hd hdec hp hpre hproc hn htr hpad hadd hnul
  refine ⟨b, r, tb, l, h1, h2, h3, h4, h5, h6, ?_, ?_⟩
  · rintro rfl
    apply List.ext_getElem?
    intro k
    cases hk : tb[k]? with
    | none =>
      rw [placesFrom_at, hk]
      have := List.getElem?_eq_none_iff.mp hk
      rw [List.getElem?_eq_none_iff.mpr (by omega)]
      rfl
    | some t =>
      obtain ⟨o, o1, _, o3⟩ := h8 k t hk
      rw [o1, o3]; rfl
  · rintro aps rfl
    refine ⟨h7, fun k o o' ho ho' hf => ?_⟩
    cases hk : tb[k]? with
    | none => rw [placesFrom_at, hk] at ho; cases ho
    | some t =>
      obtain ⟨o₁, o1, _, o3⟩ := h8 k t hk
      rw [ho] at o1
      cases o1
      rw [ho'] at o3
      cases o3
      obtain ⟨o₂, g1, _, g3⟩ := token_places a aps s tb h3 h4 k t hk
      rw [ho] at g1
      cases g1
      exact g3 hf

/-- C143 is violated by the first token if the post-processor has "add_prefix_space" and trims: the space that a text begins
with stays in the offsets of the first token. -/
theorem C143_first_space_violated (E : FileEnv) (hL : E.isL ' ' = false) (hN : E.isN ' ' = false) (ho : ∀ l, (E.order l).Perm l)
    (c : FileConfig) (m p d : List (Str × Val)) (v : List (Str × Int))
    (es : List (Str × Str)) (hm : c.model = some m) (hs : BpeSection m d v es) (hd : c.decoder = some d) (a₁ t₁ : Bool)
    (hdec : DecDesc d (.byteLevel a₁ t₁)) (hp : c.preTokenizer = some p) (a t : Bool) (hpre : PreDesc E.cfg p (.byteLevel a t))
    (before after : List (Str × Int)) (hproc : Places c.postProcessor before after (some true))
    (hn : c.normalizer = none) (htr : c.truncation = none) (hpad : c.padding = none)
    (x : Char) (s : Str) (hx : x ≠ ' ') (hadd : ∀ y ∈ c.addedTokens, y.content ≠ [] ∧ ¬ y.content <:+: ' ' :: x :: s)
    (hnul : '\x00' ∉ ' ' :: x :: s) :
    ∃ (b : Built) (r : Encoding) (tb : List (List UInt8)) (l : List (Int × Int)), fromReader E (some c) = .ok b ∧
      b.tok.encodeSingle (encStr (' ' :: x :: s)) [true] = .ok (some r) ∧ tb.flatten = encStr (' ' :: x :: s) ∧
      r.tokens = before.map (·.1) ++ tb.map byteLevelImage ++ after.map (·.1) ∧
      r.offsets = List.replicate before.length (0, 0) ++ l ++ List.replicate after.length (0, 0) ∧
      (tb.head? ≠ some [32] → ∃ o' : Int × Int, l.head? = some o' ∧ o'.1 = 0 ∧ 0 < o'.2) := by
  obtain ⟨b, r, tb, l, h1, h2, h3, h4, h5, h6, h7, h8⟩ := byte_places hL hN ho hm hs hd hdec hp hpre hproc hn htr hpad hadd hnul
  have hno : ¬ (a = true ∧ (' ' :: x :: s).head? ≠ some ' ') := by rintro ⟨_, h⟩; exact h rfl
  obtain ⟨p1, p2⟩ := aligns_plain a (' ' :: x :: s) hno
  rw [p1] at h3
  refine ⟨b, r, tb, l, h1, h2, h3, h5, h6, fun hone => ?_⟩
  cases tb with
  | nil => simp at h3
  | cons t tb =>
  have hsp : String.utf8EncodeChar ' ' = [32] := by decide
  cases t with
  | nil => exact absurd rfl (h4 _ (by simp))
  | cons z t =>
  simp only [List.flatten_cons, encStr_cons, hsp, List.cons_append, List.nil_append, List.cons.injEq] at h3
  obtain ⟨rfl, h3⟩ := h3
  cases t with
  | nil => exact absurd rfl hone
  | cons w t =>
  have hw : w ≠ 32 := by
    rintro rfl
    obtain ⟨y, ys, hy⟩ := List.exists_cons_of_ne_nil (enc_ne_nil x)
    rw [hy] at h3
    simp only [List.cons_append, List.cons.injEq] at h3
    exact hx (utf8_space x (by rw [hy, h3.1]; simp))
  have hlen : t.length + 1 < blen (' ' :: x :: s) := by
    have h := congrArg List.length h3
    simp only [List.length_append, List.length_cons, length_encStr] at h
    have h1 : (' ' : Char).utf8Size = 1 := by decide
    have h2 : (String.utf8EncodeChar x).length = x.utf8Size := by simp
    simp only [blen_cons, h1]
    omega
  obtain ⟨o, o1, o2, o3⟩ := h8 0 (32 :: w :: t) rfl
  rw [placesFrom_at, p2] at o1
  obtain ⟨x1, y1, e1, e2, e3, _⟩ := place_space (' ' :: x :: s) 0 (by omega)
  obtain ⟨x2, y2, f1, f2, f3, _⟩ := place_space (' ' :: x :: s) (t.length + 1) hlen
  simp only [List.getElem?_cons_zero, Option.map_some, List.take_zero, List.flatten_nil, List.length_nil, Nat.zero_add,
    List.length_cons, Option.some.injEq] at o1
  rw [e1, show t.length + 1 + 1 - 1 = t.length + 1 by omega, f1] at o1
  simp only [Option.getD_some] at o1
  subst o1
  have hm : ((32 :: w :: t).reverse.takeWhile (· == 32)).length ≤ t.length := by
    apply Nat.le_of_not_lt
    intro h
    have := (tail_spec (32 :: w :: t)).1 t.length h
    simp only [List.length_cons] at this
    rw [show t.length + 1 + 1 - 1 - t.length = 1 by omega] at this
    simp at this
    exact hw this
  have hf : ((32 :: w :: t).takeWhile (· == 32)).length = 1 := by simp [hw]
  refine ⟨_, by rw [List.head?_eq_getElem?]; exact o3, ?_⟩
  simp only [Option.isSome_some, if_true, Option.getD_some]
  unfold trimmedPlace
  rw [image_front, image_behind, hf]
  generalize ((32 :: w :: t).reverse.takeWhile (· == 32)).length = n at *
  simp only [and_self, if_true]
  constructor
  · omega
  · rw [if_pos (by omega)]
    omega

/-- C143 is violated if a space was put in front and the first token is only this space: its offsets, trimmed, end one byte
before the end of the first character of the text, for characters of several bytes inside the character. -/
theorem C143_lone_space_violated (E : FileEnv) (hL : E.isL ' ' = false) (hN : E.isN ' ' = false) (ho : ∀ l, (E.order l).Perm l)
    (c : FileConfig) (m p d : List (Str × Val)) (v : List (Str × Int))
    (es : List (Str × Str)) (hm : c.model = some m) (hs : BpeSection m d v es) (hd : c.decoder = some d) (a₁ t₁ : Bool)
    (hdec : DecDesc d (.byteLevel a₁ t₁)) (hp : c.preTokenizer = some p) (t : Bool) (hpre : PreDesc E.cfg p (.byteLevel true t))
    (before after : List (Str × Int)) (hproc : Places c.postProcessor before after (some true))
    (hn : c.normalizer = none) (htr : c.truncation = none) (hpad : c.padding = none)
    (x : Char) (s : Str) (hx : x ≠ ' ') (hadd : ∀ y ∈ c.addedTokens, y.content ≠ [] ∧ ¬ y.content <:+: x :: s)
    (hnul : '\x00' ∉ x :: s) :
    ∃ (b : Built) (r : Encoding) (tb : List (List UInt8)) (l : List (Int × Int)), fromReader E (some c) = .ok b ∧
      b.tok.encodeSingle (encStr (x :: s)) [true] = .ok (some r) ∧ tb.flatten = encStr (' ' :: x :: s) ∧
      r.tokens = before.map (·.1) ++ tb.map byteLevelImage ++ after.map (·.1) ∧
      r.offsets = List.replicate before.length (0, 0) ++ l ++ List.replicate after.length (0, 0) ∧
      (tb.head? = some [32] → l.head? = some (0, (x.utf8Size : Int) - 1)) := by
  obtain ⟨b, r, tb, l, h1, h2, h3, h4, h5, h6, h7, h8⟩ := byte_places hL hN ho hm hs hd hdec hp hpre hproc hn htr hpad hadd hnul
  obtain ⟨p1, p2⟩ := aligns_prefix true x s ⟨rfl, by simpa using hx⟩
  rw [p1] at h3
  refine ⟨b, r, tb, l, h1, h2, h3, h5, h6, fun hone => ?_⟩
  obtain ⟨o, o1, o2, o3⟩ := h8 0 [32] (by rw [← List.head?_eq_getElem?]; exact hone)
  rw [placesFrom_at, p2, ← List.head?_eq_getElem?, hone] at o1
  simp only [Option.map_some, List.take_zero, List.flatten_nil, List.length_nil, Nat.zero_add, List.length_singleton, Nat.sub_self,
    List.getElem?_cons_zero, Option.getD_some, Option.some.injEq] at o1
  subst o1
  rw [List.head?_eq_getElem?, o3]
  have hpos := x.utf8Size_pos
  simp only [Option.isSome_some, if_true, Option.getD_some, Option.some.injEq]
  unfold trimmedPlace
  rw [image_front, image_behind]
  have e1 : (([32] : List UInt8).takeWhile (· == 32)).length = 1 := by decide
  have e2 : (([32] : List UInt8).reverse.takeWhile (· == 32)).length = 1 := by decide
  rw [e1, e2]
  simp only [and_self, if_true]
  rw [if_pos (by omega)]
  refine Prod.ext ?_ ?_
  · dsimp only; omega
  · dsimp only; omega

/-! ### Cases -/

/-- The byte-level alphabet, and the token "Ġh". -/
def trimmedVocab : List (Str × Int) :=
  (List.range 256).map (fun i => ([alphabetChar (UInt8.ofNat i)], (i : Int))) ++ [(['Ġ', 'h'], 256)]

def trimmedModel : List (Str × Val) :=
  [("type".toList, .str "BPE".toList), ("dropout".toList, .null), ("unk_token".toList, .null),
   ("continuing_subword_prefix".toList, .str []), ("end_of_word_suffix".toList, .str []),
   ("vocab".toList, vocabVal trimmedVocab), ("merges".toList, .arr [.str "Ġ h".toList])]

theorem trimmed_section : BpeSection trimmedModel exampleFileBytes trimmedVocab [(['Ġ'], ['h'])] where
  type := .given _ (by rfl)
  vocab := by rfl
  merges := ⟨_, rfl, .cons _ _ _ _ (.line ['Ġ'] ['h']) .nil⟩
  dropout := by rfl
  unk := ⟨none, by rfl⟩
  subword := .inr (by rfl)
  suffix := ⟨some [], by rfl⟩
  good := ⟨by decide +kernel, by decide +kernel, by decide +kernel⟩
  alphabet := by
    intro x
    refine ⟨(x.toNat : Int), List.mem_append_left _ (List.mem_map.mpr ⟨x.toNat, ?_, ?_⟩)⟩
    · exact List.mem_range.mpr x.toNat_lt
    · simp
  closed := by
    intro e he
    cases List.mem_singleton.mp he
    exact ⟨by decide, by decide, 256, by decide +kernel⟩

/-- The pre-tokenizer that puts a space in front. -/
def prefixBytes : List (Str × Val) :=
  [("type".toList, .str "ByteLevel".toList), ("add_prefix_space".toList, .bool true), ("trim_offsets".toList, .bool true)]

/-- The post-processor of RoBERTa, with "add_prefix_space" or without it. -/
def robertaTrims (a : Bool) : List (Str × Val) :=
  [("type".toList, .str "RobertaProcessing".toList), ("sep".toList, .arr [.str ['<', '/', 's', '>'], .float (258 : Int)]),
   ("cls".toList, .arr [.str ['<', 's', '>'], .float (257 : Int)]), ("trim_offsets".toList, .bool true),
   ("add_prefix_space".toList, .bool a)]

theorem robertaTrims_places (a : Bool) :
    Places (some (robertaTrims a)) [(['<', 's', '>'], 257)] [(['<', '/', 's', '>'], 258)] (some a) :=
  .one _ _ _ _ (.plain _ _ _ (.roberta _ (['<', 's', '>'], 257) (['<', '/', 's', '>'], 258) a (by unfold TypeIs; rfl)
      (by unfold TokenIs; rfl) (by unfold TokenIs; rfl) (by rfl) (by rfl)))
    (.roberta _ (['<', 's', '>'], 257) (['<', '/', 's', '>'], 258) a (by unfold TypeIs; rfl)
      (by unfold TokenIs; rfl) (by unfold TokenIs; rfl) (by rfl) (by rfl))

def trimmedFile (pre post : List (Str × Val)) : FileConfig :=
  { addedTokens := exampleBosTokens, preTokenizer := some pre, postProcessor := some post,
    decoder := some exampleFileBytes, model := some trimmedModel }

def caseFileEnv : FileEnv where
  toEnv := caseEnv
  cfg := ⟨fun _ => true, fun _ => true, id⟩
  engine := fun _ _ => []
  number := fun _ => false
  punctuation := fun _ => false
  whitespace := fun _ => false
  words := fun _ => []
  scripts := []
  precompiled := fun _ x => .ok x
  charOrder := bytesCharMap
  heap := listHeap
  dropped := fun _ _ _ => .err

/-- The hypotheses are met: every token of "h h" has its place without spaces. -/
example : ∃ (b : Built) (r : Encoding) (tb : List (List UInt8)) (l : List (Int × Int)),
    fromReader caseFileEnv (some (trimmedFile exampleFileBytes (robertaTrims false))) = .ok b ∧
    b.tok.encodeSingle (encStr ['h', ' ', 'h']) [true] = .ok (some r) ∧ tb.flatten = encStr ['h', ' ', 'h'] ∧
    r.offsets = [(0, 0)] ++ l ++ [(0, 0)] ∧
    ∀ (k : Nat) (o o' : Int × Int), (placesFrom (byteRanges ['h', ' ', 'h'] 0) 0 tb)[k]? = some o → l[k]? = some o' →
      WithoutSpaces (encStr ['h', ' ', 'h']) o o' := by
  obtain ⟨b, r, tb, l, h1, h2, h3, _, _, h4, _, h5⟩ := C143_places_partial caseFileEnv (by decide) rfl (fun _ => .refl _)
    (trimmedFile exampleFileBytes (robertaTrims false)) _ _ _ _ _ rfl trimmed_section rfl false true
    (DecDesc.byteLevel _ false true (by unfold TypeIs; rfl) (.inl (by rfl)) (.inl (by rfl))) rfl false true
    (PreDesc.byteLevel _ false true (by unfold TypeIs; rfl) (.inl (by rfl)) (.inl (by rfl))) _ _ _ (robertaTrims_places false)
    rfl rfl rfl ['h', ' ', 'h']
    (by
      intro x hx
      rcases List.mem_cons.mp hx with rfl | hx
      · exact ⟨by decide, by decide⟩
      · cases List.mem_singleton.mp hx
        exact ⟨by decide, by decide⟩) (by decide)
  obtain ⟨p1, p2⟩ := aligns_plain false ['h', ' ', 'h'] (by decide)
  rw [p2] at h5
  exact ⟨b, r, tb, l, h1, h2, h3, h4, fun k o o' ho ho' => (h5 false rfl).2 k o o' ho ho' (fun _ => .inl rfl)⟩

/-- Its offsets: "Ġh" is at (2, 3). -/
example : okAnd (fromReader caseFileEnv (some (trimmedFile exampleFileBytes (robertaTrims false)))) (fun b =>
    okAnd (b.tok.encodeSingle (encStr ['h', ' ', 'h']) [true]) (fun o =>
      decide (o.map (fun r => (r.tokens.length, r.offsets)) = some (4, [(0, 0), (0, 1), (2, 3), (0, 0)])))) = true := by
  decide +kernel

/-- With "add_prefix_space" in the post-processor the first token of " hé" is at (0, 2), with the space. -/
example : okAnd (fromReader caseFileEnv (some (trimmedFile exampleFileBytes (robertaTrims true)))) (fun b =>
    okAnd (b.tok.encodeSingle (encStr [' ', 'h', 'é']) [true]) (fun o =>
      decide (o.map (·.offsets) = some [(0, 0), (0, 2), (2, 4), (2, 4), (0, 0)]))) = true := by
  decide +kernel

/-- The space in front of "é" is a token of its own, at (0, 1), inside the character. -/
example : okAnd (fromReader caseFileEnv (some (trimmedFile prefixBytes (robertaTrims true)))) (fun b =>
    okAnd (b.tok.encodeSingle (encStr ['é']) [true]) (fun o =>
      decide (o.map (·.offsets) = some [(0, 0), (0, 1), (0, 2), (0, 2), (0, 0)]))) = true := by
  decide +kernel

end Tok.Whole
