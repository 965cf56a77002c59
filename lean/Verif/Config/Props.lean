import Verif.Config.Model
import Verif.Processor.PropsTemplate

/-! C52 and the validation of templates. -/

namespace Tok.Config

/-! ### Specification -/

/-- A decimal digit. -/
def IsDigit (c : Char) : Prop := '0' ≤ c ∧ c ≤ '9'

/-- The number a string of digits stands for, most significant first. -/
def decValue : Str → Nat
  | [] => 0
  | c :: s => (c.toNat - 48) * 10 ^ s.length + decValue s

/-- The 64-bit integer a literal stands for. -/
inductive IntLit : Str → Int → Prop where
  | plain (ds : Str) (hne : ds ≠ []) (hd : ∀ c ∈ ds, IsDigit c) (hr : decValue ds < 2 ^ 63) :
      IntLit ds (decValue ds : Int)
  | plus (ds : Str) (hne : ds ≠ []) (hd : ∀ c ∈ ds, IsDigit c) (hr : decValue ds < 2 ^ 63) :
      IntLit ('+' :: ds) (decValue ds : Int)
  | minus (ds : Str) (hne : ds ≠ []) (hd : ∀ c ∈ ds, IsDigit c) (hr : decValue ds ≤ 2 ^ 63) :
      IntLit ('-' :: ds) (-(decValue ds : Int))

/-- The pieces without a type id, as documented. -/
inductive BasePiece : Str → Piece → Prop where
  | seqA (s : Str) (hs : s = "$".toList ∨ s = "$A".toList ∨ s = "$a".toList) : BasePiece s (.seq false 0)
  | seqB (s : Str) (hs : s = "$B".toList ∨ s = "$b".toList) : BasePiece s (.seq true 0)
  | typed (s : Str) (n : Int) (hn : IntLit s n) : BasePiece ('$' :: s) (.seq false n)
  | token (s : Str) (hs : s.head? ≠ some '$') : BasePiece s (.special s 0)

/-- The pieces, as documented. -/
inductive DocPiece : Str → Piece → Prop where
  | base (s : Str) (p : Piece) (hc : ':' ∉ s) (hp : BasePiece s p) : DocPiece s p
  | seqWith (s t : Str) (b : Bool) (n0 n : Int) (hc : ':' ∉ s) (hp : BasePiece s (.seq b n0)) (hn : IntLit t n) :
      DocPiece (s ++ ':' :: t) (.seq b n)
  | tokenWith (s t id : Str) (n0 n : Int) (hc : ':' ∉ s) (hp : BasePiece s (.special id n0)) (hn : IntLit t n) :
      DocPiece (s ++ ':' :: t) (.special id n)

/-! ### Numbers -/

theorem digitsLoop_eq (s : Str) : ∀ n, digitsLoop s n =
    if ∀ c ∈ s, '0' ≤ c ∧ c ≤ '9' then some (n * 10 ^ s.length + decValue s) else none := by
  induction s with
  | nil => intro n; simp [digitsLoop, decValue]
  | cons c s ih =>
    intro n
    rw [digitsLoop, ih]
    by_cases hc : '0' ≤ c ∧ c ≤ '9'
    · rw [if_pos hc]
      by_cases hs : ∀ c ∈ s, '0' ≤ c ∧ c ≤ '9'
      · rw [if_pos hs, if_pos (by intro d hd; exact (List.mem_cons.mp hd).elim (fun e => e ▸ hc) (hs d))]
        congr 1
        rw [decValue, List.length_cons, Nat.pow_succ, Nat.add_mul, Nat.mul_assoc, Nat.mul_comm 10, Nat.add_assoc]
      · rw [if_neg hs, if_neg (fun h => hs (fun d hd => h d (List.mem_cons_of_mem _ hd)))]
    · rw [if_neg hc, if_neg (fun h => hc (h c List.mem_cons_self))]

theorem digitsLoop_some {s : Str} {n : Nat} :
    digitsLoop s 0 = some n ↔ (∀ c ∈ s, IsDigit c) ∧ n = decValue s := by
  rw [digitsLoop_eq]
  unfold IsDigit
  by_cases h : ∀ c ∈ s, '0' ≤ c ∧ c ≤ '9'
  · rw [if_pos h, Nat.zero_mul, Nat.zero_add, Option.some.injEq]
    exact ⟨fun e => ⟨h, e.symm⟩, fun e => e.2.symm⟩
  · rw [if_neg h]
    constructor
    · intro e; cases e
    · intro e; exact absurd e.1 h

theorem not_isDigit_sign {c : Char} (h : c = '-' ∨ c = '+') : ¬ IsDigit c := by
  rcases h with rfl | rfl <;> (unfold IsDigit; decide)

theorem atoiAbs_iff (neg : Bool) (s : Str) (v : Int) : atoiAbs neg s = some v ↔
    s ≠ [] ∧ (∀ c ∈ s, IsDigit c) ∧ v = (if neg then -(decValue s : Int) else decValue s) ∧
      (if neg then decValue s ≤ 2 ^ 63 else decValue s < 2 ^ 63) := by
  unfold atoiAbs
  by_cases hne : s = []
  · rw [if_pos hne]; simp [hne]
  · rw [if_neg hne]
    cases hd : digitsLoop s 0 with
    | none =>
      simp only
      constructor
      · intro h; cases h
      · rintro ⟨_, h2, _⟩
        rw [digitsLoop_some.mpr ⟨h2, rfl⟩] at hd; cases hd
    | some n =>
      obtain ⟨h1, h2⟩ := digitsLoop_some.mp hd
      subst h2
      simp only
      cases neg with
      | true =>
        simp only [if_true]
        by_cases hr : -9223372036854775808 ≤ -(decValue s : Int) ∧ -(decValue s : Int) < 9223372036854775808
        · rw [if_pos hr, Option.some.injEq]
          exact ⟨fun e => ⟨hne, h1, e.symm, by omega⟩, fun e => e.2.2.1.symm⟩
        · rw [if_neg hr]
          constructor
          · intro e; cases e
          · rintro ⟨_, _, _, h4⟩; omega
      | false =>
        simp only [Bool.false_eq_true, if_false]
        by_cases hr : -9223372036854775808 ≤ (decValue s : Int) ∧ (decValue s : Int) < 9223372036854775808
        · rw [if_pos hr, Option.some.injEq]
          exact ⟨fun e => ⟨hne, h1, e.symm, by omega⟩, fun e => e.2.2.1.symm⟩
        · rw [if_neg hr]
          constructor
          · intro e; cases e
          · rintro ⟨_, _, _, h4⟩; omega

theorem atoi_iff (s : Str) (v : Int) : atoi s = some v ↔ IntLit s v := by
  constructor
  · intro h
    unfold atoi at h
    split at h
    · next r =>
      obtain ⟨h1, h2, h3, h4⟩ := (atoiAbs_iff _ _ _).mp h
      rw [h3]
      exact IntLit.minus r h1 h2 h4
    · next r =>
      obtain ⟨h1, h2, h3, h4⟩ := (atoiAbs_iff _ _ _).mp h
      rw [h3]
      exact IntLit.plus r h1 h2 h4
    · obtain ⟨h1, h2, h3, h4⟩ := (atoiAbs_iff _ _ _).mp h
      rw [h3]
      exact IntLit.plain s h1 h2 h4
  · intro h
    cases h with
    | plain _ hne hd hr =>
      have hh : ∀ r c, s = c :: r → ¬ (c = '-' ∨ c = '+') := by
        intro r c hs hc
        exact not_isDigit_sign hc (hd c (by rw [hs]; simp))
      unfold atoi
      split
      · next r => exact absurd (Or.inl rfl) (hh r '-' rfl)
      · next r => exact absurd (Or.inr rfl) (hh r '+' rfl)
      · exact (atoiAbs_iff _ _ _).mpr ⟨hne, hd, rfl, hr⟩
    | plus ds hne hd hr => exact (atoiAbs_iff _ _ _).mpr ⟨hne, hd, rfl, hr⟩
    | minus ds hne hd hr => exact (atoiAbs_iff _ _ _).mpr ⟨hne, hd, rfl, hr⟩

theorem intLit_none {s : Str} (h : atoi s = none) (v : Int) : ¬ IntLit s v := by
  intro hv
  rw [(atoi_iff s v).mpr hv] at h
  cases h

theorem not_intLit_letter {s : Str} {n : Int} (h : IntLit s n) : s ≠ [] ∧ s ≠ ['A'] ∧ s ≠ ['a'] ∧ s ≠ ['B'] ∧ s ≠ ['b'] := by
  have e := (atoi_iff s n).mpr h
  refine ⟨?_, ?_, ?_, ?_, ?_⟩ <;> (intro hs; subst hs; revert e; simp [atoi, atoiAbs, digitsLoop])

/-! ### Pieces -/

theorem extractId_iff (s : Str) (p : Piece) : extractId s = .ok p ↔ BasePiece s p := by
  constructor
  · intro h
    unfold extractId at h
    split at h
    · next rest =>
      split at h
      · next hr =>
        injection h with h; subst h
        apply BasePiece.seqA
        rcases hr with rfl | rfl | rfl <;> simp
      · split at h
        · next hr =>
          injection h with h; subst h
          apply BasePiece.seqB
          rcases hr with rfl | rfl <;> simp
        · split at h
          · next n hn =>
            injection h with h; subst h
            exact BasePiece.typed rest n ((atoi_iff _ _).mp hn)
          · cases h
    · next hs =>
      injection h with h; subst h
      apply BasePiece.token
      intro e
      cases s with
      | nil => cases e
      | cons c s => simp at e; subst e; exact hs s rfl
  · intro h
    cases h with
    | seqA _ hs => rcases hs with rfl | rfl | rfl <;> rfl
    | seqB _ hs => rcases hs with rfl | rfl <;> rfl
    | typed t n hn =>
      obtain ⟨h1, h2, h3, h4, h5⟩ := not_intLit_letter hn
      simp only [extractId, h1, h2, h3, h4, h5, or_self, if_false, (atoi_iff _ _).mpr hn]
    | token _ hs =>
      unfold extractId
      split
      · next rest => exact absurd rfl hs
      · rfl

theorem extractId_noPanic (s : Str) : extractId s ≠ .panic := by
  unfold extractId
  split
  · split
    · intro h; cases h
    · split
      · intro h; cases h
      · split <;> (intro h; cases h)
  · intro h; cases h

/-- Splitting at a separator: the text is its parts joined, and no part has the separator. -/
theorem splitChar_spec (sep : Char) (s : Str) : ∀ acc, sep ∉ acc →
    ∃ p ps, splitChar sep s acc = p :: ps ∧ (∀ x ∈ p :: ps, sep ∉ x) ∧
      acc ++ s = p ++ ps.flatMap (fun x => sep :: x) := by
  induction s with
  | nil => intro acc h; exact ⟨acc, [], rfl, by simpa using h, by simp⟩
  | cons c s ih =>
    intro acc h
    rw [splitChar]
    by_cases hc : c = sep
    · obtain ⟨p, ps, h1, h2, h3⟩ := ih [] (by simp)
      refine ⟨acc, p :: ps, by rw [if_pos hc, h1], ?_, ?_⟩
      · intro x hx
        rcases List.mem_cons.mp hx with rfl | hx
        · exact h
        · exact h2 x hx
      · rw [List.nil_append] at h3
        rw [hc, h3]; simp
    · obtain ⟨p, ps, h1, h2, h3⟩ := ih (acc ++ [c]) (by
        simp only [List.mem_append, List.mem_singleton, not_or]; exact ⟨h, fun e => hc e.symm⟩)
      exact ⟨p, ps, by rw [if_neg hc, h1], h2, by rw [← h3]; simp⟩

theorem splitChar_append (sep : Char) (a : Str) (ha : sep ∉ a) (t : Str) : ∀ acc,
    splitChar sep (a ++ sep :: t) acc = (acc ++ a) :: splitChar sep t [] := by
  induction a with
  | nil => intro acc; rw [List.nil_append, splitChar, if_pos rfl, List.append_nil]
  | cons c a ih =>
    intro acc
    have hc : ¬ c = sep := fun h => ha (by simp [h])
    rw [List.cons_append, splitChar, if_neg hc, ih (fun h => ha (List.mem_cons_of_mem _ h))]
    simp

theorem splitChar_none (sep : Char) (a : Str) (ha : sep ∉ a) : ∀ acc, splitChar sep a acc = [acc ++ a] := by
  induction a with
  | nil => intro acc; simp [splitChar]
  | cons c a ih =>
    intro acc
    have hc : ¬ c = sep := fun h => ha (by simp [h])
    rw [splitChar, if_neg hc, ih (fun h => ha (List.mem_cons_of_mem _ h))]
    simp

theorem intLit_no_colon {s : Str} {n : Int} (h : IntLit s n) : ':' ∉ s ∧ ' ' ∉ s := by
  have hd : ∀ ds : Str, (∀ c ∈ ds, IsDigit c) → ':' ∉ ds ∧ ' ' ∉ ds := by
    intro ds hds
    refine ⟨fun hm => ?_, fun hm => ?_⟩
    · have := hds _ hm; revert this; unfold IsDigit; decide
    · have := hds _ hm; revert this; unfold IsDigit; decide
  cases h with
  | plain _ hne hds hr => exact hd s hds
  | plus ds hne hds hr => have := hd ds hds; simp [this.1, this.2]
  | minus ds hne hds hr => have := hd ds hds; simp [this.1, this.2]

/-- C52 for template pieces: a string is accepted exactly if it is one of the documented forms, and
then gives the documented piece. -/
theorem C52_piece (s : Str) (p : Piece) : newPiece s = .ok p ↔ DocPiece s p := by
  constructor
  · intro h
    unfold newPiece at h
    obtain ⟨a, ps, h1, h2, h3⟩ := splitChar_spec ':' s [] (by simp)
    rw [h1] at h
    rw [List.nil_append] at h3
    cases ps with
    | nil =>
      simp only at h
      have : s = a := by simpa using h3
      subst this
      exact DocPiece.base s p (h2 s (by simp)) ((extractId_iff s p).mp h)
    | cons b ps =>
      cases ps with
      | cons c ps => simp at h
      | nil =>
        simp only at h
        have hs : s = a ++ ':' :: b := by simpa using h3
        have ha : ':' ∉ a := h2 a (by simp)
        cases hb : atoi b with
        | none => rw [hb] at h; cases h
        | some ty =>
          rw [hb] at h
          simp only at h
          obtain ⟨q, hq, he⟩ := Res.bind_eq_ok.mp h
          injection he with he
          have hbase := (extractId_iff a q).mp hq
          have hlit := (atoi_iff b ty).mp hb
          rw [hs, ← he]
          cases q with
          | seq bb n0 => exact DocPiece.seqWith a b bb n0 ty ha hbase hlit
          | special id n0 => exact DocPiece.tokenWith a b id n0 ty ha hbase hlit
  · intro h
    cases h with
    | base _ _ hc hp =>
      unfold newPiece
      rw [splitChar_none ':' s hc, List.nil_append]
      exact (extractId_iff s p).mpr hp
    | seqWith a t b n0 n hc hp hn =>
      unfold newPiece
      rw [splitChar_append ':' a hc, splitChar_none ':' t (intLit_no_colon hn).1, List.nil_append, List.nil_append]
      simp only [(atoi_iff t n).mpr hn, (extractId_iff a _).mpr hp, Res.bind_ok, withTypeId]
    | tokenWith a t id n0 n hc hp hn =>
      unfold newPiece
      rw [splitChar_append ':' a hc, splitChar_none ':' t (intLit_no_colon hn).1, List.nil_append, List.nil_append]
      simp only [(atoi_iff t n).mpr hn, (extractId_iff a _).mpr hp, Res.bind_ok, withTypeId]

/-- C52: everything else is an error, never a panic. -/
theorem C52_piece_error (s : Str) : newPiece s = .err ↔ ¬ ∃ p, DocPiece s p := by
  have hnp : newPiece s ≠ .panic := by
    unfold newPiece
    split
    · split
      · intro h; cases h
      · intro h
        next a b _ _ ty _ =>
        cases he : extractId a with
        | ok q => rw [he] at h; cases h
        | err => rw [he] at h; cases h
        | panic => exact extractId_noPanic a he
    · exact extractId_noPanic _
    · intro h; cases h
  constructor
  · rintro h ⟨p, hp⟩
    rw [(C52_piece s p).mpr hp] at h
    cases h
  · intro h
    cases hs : newPiece s with
    | ok p => exact absurd ⟨p, (C52_piece s p).mp hs⟩ h
    | err => rfl
    | panic => exact absurd hs hnp

/-- `[CLS]:0`, `$B:1`, `$7` and `$x`. -/
example : newPiece "[CLS]:0".toList = .ok (.special "[CLS]".toList 0) ∧ newPiece "$B:1".toList = .ok (.seq true 1) ∧
    newPiece "$7".toList = .ok (.seq false 7) ∧ newPiece "$x".toList = .err ∧ newPiece "a:b:1".toList = .err := by
  decide +kernel

/-! ### Templates -/

/-- Two lists of the same length, related entry by entry. -/
inductive Each {α β : Type} (R : α → β → Prop) : List α → List β → Prop where
  | nil : Each R [] []
  | cons {a : α} {b : β} {as : List α} {bs : List β} (h : R a b) (t : Each R as bs) : Each R (a :: as) (b :: bs)

/-- Pieces joined by a space. -/
def joinSpace : List Str → Str
  | [] => []
  | [s] => s
  | s :: rest => s ++ ' ' :: joinSpace rest

/-- C52 for template texts: the pieces between single spaces, in order. -/
theorem C52_template (parts : List Str) (hne : parts ≠ []) (hsp : ∀ s ∈ parts, ' ' ∉ s) (ps : List Piece) :
    templateFromOne (joinSpace parts) = .ok ps ↔ Each DocPiece parts ps := by
  have hsplit : splitChar ' ' (joinSpace parts) [] = parts := by
    clear ps
    induction parts with
    | nil => exact absurd rfl hne
    | cons s rest ih =>
      cases rest with
      | nil => rw [joinSpace, splitChar_none ' ' s (hsp s (by simp))]; rfl
      | cons t rest =>
        rw [joinSpace, splitChar_append ' ' s (hsp s (by simp)), ih (by simp) (fun x hx => hsp x (List.mem_cons_of_mem _ hx))]
        · rfl
        · simp
  unfold templateFromOne
  rw [hsplit]
  clear hsplit hsp hne
  induction parts generalizing ps with
  | nil =>
    simp only [templateFromMulti, Res.ok.injEq]
    constructor
    · rintro rfl; exact .nil
    · intro h; cases h; rfl
  | cons s rest ih =>
    rw [templateFromMulti]
    constructor
    · intro h
      obtain ⟨p, hp, h⟩ := Res.bind_eq_ok.mp h
      obtain ⟨qs, hq, h⟩ := Res.bind_eq_ok.mp h
      injection h with h; subst h
      exact .cons ((C52_piece s p).mp hp) ((ih qs).mp hq)
    · intro h
      cases h with
      | cons hp hq => simp only [(C52_piece s _).mpr hp, (ih _).mpr hq, Res.bind_ok]

example : templateFromOne "[CLS] $A [SEP] $B:1".toList =
    .ok [.special "[CLS]".toList 0, .seq false 0, .special "[SEP]".toList 0, .seq true 1] := by decide +kernel

/-! ### Padding and truncation -/

/-- C52 for padding configurations: every field is read as documented, with the defaults for absent
fields; there is no error. -/
theorem C52_padding (config : List (Str × Val)) :
    ∃ p, createPadding (some config) = some p ∧
      (∀ n : Int, get config "strategy" = .obj [("Fixed".toList, .float n)] → p.strategy = .fixed n) ∧
      (get config "strategy" = .str "BatchLongest".toList → p.strategy = .batchLongest) ∧
      (∀ n : Int, get config "strategy" = .str "Fixed".toList → lookup config "size" = some (.float n) → p.strategy = .fixed n) ∧
      (get config "strategy" = .str "Fixed".toList → lookup config "size" = none → p.strategy = .fixed 512) ∧
      (∀ w, get config "strategy" = .str "Fixed".toList → lookup config "size" = some (.str w) → p.strategy = .fixed 512) ∧
      (get config "strategy" = .null → p.strategy = .fixed 512) ∧
      (get config "strategy" = .obj [] → p.strategy = .fixed 0) ∧
      (get config "direction" = .str "Left".toList → p.direction = .left) ∧
      (get config "direction" = .str "Right".toList ∨ get config "direction" = .null → p.direction = .right) ∧
      (∀ n : Int, get config "pad_id" = .float n → p.padId = n) ∧
      (get config "pad_id" = .null → p.padId = 0) ∧
      (∀ n : Int, get config "pad_type_id" = .float n → p.padTypeId = n) ∧
      (get config "pad_type_id" = .null → p.padTypeId = 0) ∧
      (∀ s, get config "pad_token" = .str s → p.padToken = s) ∧
      (get config "pad_token" = .null → p.padToken = "[PAD]".toList) := by
  unfold createPadding strategyOf
  refine ⟨_, rfl, ?_, ?_, ?_, ?_, ?_, ?_, ?_, ?_, ?_, ?_, ?_, ?_, ?_, ?_, ?_⟩
  · intro n h
    simp only [h, strategyLoop, fixedSize, truncInt_int]
    rw [if_neg (by decide)]
  · intro h
    simp only [h, if_true]
  · intro n h hn
    simp only [h, hn, fixedSize, truncInt_int]
    rw [if_neg (by decide)]
  · intro h hn
    simp only [h, hn]
    rw [if_neg (by decide)]
  · intro w h hn
    simp only [h, hn, fixedSize]
    rw [if_neg (by decide)]
  · intro h
    simp only [h]
    rw [if_neg (by decide)]
  · intro h
    simp only [h, strategyLoop]
    rw [if_neg (by decide)]
  · intro h
    simp only [h, or_true, if_true]
  · rintro (h | h)
    · simp only [h]
      rw [if_neg (by decide)]
    · simp only [h]
  · intro n h; simp only [h, truncInt_int]
  · intro h; simp only [h]
  · intro n h; simp only [h, truncInt_int]
  · intro h; simp only [h]
  · intro n h; simp only [h]
  · intro h; simp only [h]

/-- C52 fails: the documented padding field `pad_to_multiple_of` has no effect, for every
configuration and value. -/
theorem C52_multiple_violated (config : List (Str × Val)) (v : Val) :
    createPadding (some (("pad_to_multiple_of".toList, v) :: config)) = createPadding (some config) := by
  have hl : ∀ k : String, k.toList ≠ "pad_to_multiple_of".toList →
      lookup (("pad_to_multiple_of".toList, v) :: config) k = lookup config k := by
    intro k hk
    unfold lookup
    rw [mget, if_neg]
    intro h
    exact hk (beq_iff_eq.mp h).symm
  unfold createPadding
  simp only [strategyOf, get, hl "strategy" (by decide), hl "size" (by decide), hl "direction" (by decide),
    hl "pad_id" (by decide), hl "pad_type_id" (by decide), hl "pad_token" (by decide)]
  rfl

/-- The names of the truncation strategies. -/
def strategyName : TruncStrategy → Str
  | .longestFirst => "LongestFirst".toList
  | .onlyFirst => "OnlyFirst".toList
  | .onlySecond => "OnlySecond".toList

/-- C52 for truncation configurations with all fields. -/
theorem C52_truncation_partial (config : List (Str × Val)) (n k : Int) (st : TruncStrategy)
    (h1 : get config "max_length" = .float n) (h2 : get config "stride" = .float k)
    (h3 : get config "strategy" = .str (strategyName st)) :
    createTruncation (some config) = .ok (some ⟨n, st, k⟩) := by
  unfold createTruncation
  simp only [h1, h2, h3, asFloat, truncInt_int, asStr, Res.bind_ok]
  cases st <;> rfl

/-- C52 fails for truncation configurations without one of the fields, or with one of another type:
they end in a panic instead of an error or a default. -/
theorem C52_truncation_violated (config : List (Str × Val))
    (h : (∀ n, get config "max_length" ≠ .float n) ∨ (∀ n, get config "stride" ≠ .float n) ∨
      (∀ s, get config "strategy" ≠ .str s)) : createTruncation (some config) = .panic := by
  unfold createTruncation
  have hf : ∀ v : Val, (∀ n, v ≠ .float n) → asFloat v = .panic := by
    intro v hv
    cases v <;> first | rfl | exact absurd rfl (hv _)
  have hs : ∀ v : Val, (∀ s, v ≠ .str s) → asStr v = .panic := by
    intro v hv
    cases v <;> first | rfl | exact absurd rfl (hv _)
  have hfo : ∀ v : Val, (∃ n, asFloat v = .ok n) ∨ asFloat v = .panic := by
    intro v
    cases v <;> first | exact Or.inr rfl | exact Or.inl ⟨_, rfl⟩
  rcases hfo (get config "max_length") with ⟨n, hn⟩ | hn
  · rcases hfo (get config "stride") with ⟨k, hk⟩ | hk
    · rcases h with h | h | h
      · rw [hf _ h] at hn; cases hn
      · rw [hf _ h] at hk; cases hk
      · simp only [hn, hk, hs _ h, Res.bind_ok, Res.bind_panic]
    · simp only [hn, hk, Res.bind_ok, Res.bind_panic]
  · simp only [hn, Res.bind_panic]

/-- C52 fails: a strategy that is not known is taken for `LongestFirst` instead of being an error,
and the documented field `direction` has no effect. -/
theorem C52_strategy_violated (config : List (Str × Val)) (n k : Int) (s : Str) (hs : ∀ st, s ≠ strategyName st)
    (h1 : get config "max_length" = .float n) (h2 : get config "stride" = .float k)
    (h3 : get config "strategy" = .str s) (v : Val) :
    createTruncation (some config) = .ok (some ⟨n, .longestFirst, k⟩) ∧
    createTruncation (some (("direction".toList, v) :: config)) = createTruncation (some config) := by
  constructor
  · unfold createTruncation
    simp only [h1, h2, h3, asFloat, truncInt_int, asStr, Res.bind_ok]
    have e1 : s ≠ "LongestFirst".toList := hs .longestFirst
    have e2 : s ≠ "OnlyFirst".toList := hs .onlyFirst
    have e3 : s ≠ "OnlySecond".toList := hs .onlySecond
    rw [if_neg e1, if_neg e2, if_neg e3]
  · have hl : ∀ k : String, k.toList ≠ "direction".toList →
        lookup (("direction".toList, v) :: config) k = lookup config k := by
      intro k hk
      unfold lookup
      rw [mget, if_neg]
      intro h
      exact hk (beq_iff_eq.mp h).symm
    unfold createTruncation
    simp only [get]
    rw [hl "max_length" (by decide), hl "stride" (by decide), hl "strategy" (by decide)]

/-- A configuration as in tokenizer.json. -/
example : (createPadding (some [("strategy".toList, .obj [("Fixed".toList, .float 128)]), ("direction".toList, .str "Left".toList),
      ("pad_id".toList, .float 3), ("pad_token".toList, .str "<pad>".toList)])).map
      (fun p => (p.direction, p.padId, p.padTypeId, p.padToken)) = some (.left, 3, 0, "<pad>".toList) := by decide +kernel

/-! ### Template processors from tokenizer.json -/

/-- A piece as written in tokenizer.json. -/
def pieceVal : Piece → Val
  | .seq b ty =>
    .obj [("Sequence".toList, .obj [("id".toList, .str (if b then ['B'] else ['A'])), ("type_id".toList, .float ty)])]
  | .special id ty =>
    .obj [("SpecialToken".toList, .obj [("id".toList, .str id), ("type_id".toList, .float ty)])]

/-- A special token as written in tokenizer.json. -/
def tokenVal (t : SpecialToken) : Str × Val :=
  (t.id, .obj [("id".toList, .str t.id), ("ids".toList, .arr (t.ids.map (fun i : Int => .float i))), ("tokens".toList, .arr (t.tokens.map .str))])

theorem piecesLoop_ok (ps : List Piece) : piecesLoop (ps.map pieceVal) = .ok ps := by
  induction ps with
  | nil => rfl
  | cons p ps ih =>
    rw [List.map_cons, piecesLoop, ih]
    cases p with
    | seq b ty =>
      cases b
      · exact Eq.trans (b := .ok (.seq false (truncInt (ty : Rat)) :: ps)) rfl (by rw [truncInt_int])
      · exact Eq.trans (b := .ok (.seq true (truncInt (ty : Rat)) :: ps)) rfl (by rw [truncInt_int])
    | special id ty => exact Eq.trans (b := .ok (.special id (truncInt (ty : Rat)) :: ps)) rfl (by rw [truncInt_int])

theorem intsOf_ok (l : List Int) : intsOf (l.map (fun i : Int => .float i)) = .ok l := by
  induction l with
  | nil => rfl
  | cons x l ih => rw [List.map_cons, intsOf, ih]; simp only [asFloat, truncInt_int, Res.bind_ok]

theorem strsOf_ok (l : List Str) : strsOf (l.map .str) = .ok l := by
  induction l with
  | nil => rfl
  | cons x l ih => rw [List.map_cons, strsOf, ih]; rfl

theorem tokensLoop_ok (ts : List SpecialToken) : tokensLoop (ts.map tokenVal) = .ok ts := by
  induction ts with
  | nil => rfl
  | cons t ts ih =>
    rw [List.map_cons, tokenVal, tokensLoop, ih]
    have e2 : get [("id".toList, Val.str t.id), ("ids".toList, .arr (t.ids.map (fun i : Int => .float i))), ("tokens".toList, .arr (t.tokens.map .str))] "ids"
        = .arr (t.ids.map (fun i : Int => .float i)) := rfl
    have e3 : get [("id".toList, Val.str t.id), ("ids".toList, .arr (t.ids.map (fun i : Int => .float i))), ("tokens".toList, .arr (t.tokens.map .str))] "tokens"
        = .arr (t.tokens.map .str) := rfl
    have e1 : get [("id".toList, Val.str t.id), ("ids".toList, .arr (t.ids.map (fun i : Int => .float i))), ("tokens".toList, .arr (t.tokens.map .str))] "id"
        = .str t.id := rfl
    simp only [asObj, Res.bind_ok, e1, e2, e3, asStr, asArr, intsOf_ok, strsOf_ok]

theorem tableLoop_other (ts : List SpecialToken) (k : Str) (h : ∀ t ∈ ts, t.id ≠ k) :
    ∀ tab, tableLoop ts tab k = tab k := by
  induction ts with
  | nil => intro tab; rfl
  | cons t ts ih =>
    intro tab
    rw [tableLoop, ih (fun x hx => h x (List.mem_cons_of_mem _ hx)), if_neg (fun e => h t List.mem_cons_self e.symm)]

theorem tableLoop_mem (ts : List SpecialToken) (hn : (ts.map (·.id)).Nodup) (t : SpecialToken) (ht : t ∈ ts) :
    ∀ tab, tableLoop ts tab t.id = some t := by
  induction ts with
  | nil => cases ht
  | cons u ts ih =>
    intro tab
    rw [List.map_cons, List.nodup_cons] at hn
    rw [tableLoop]
    rcases List.mem_cons.mp ht with rfl | ht
    · rw [tableLoop_other ts t.id (fun x hx e => hn.1 (e ▸ List.mem_map_of_mem hx)), if_pos rfl]
    · exact ih hn.2 ht _

theorem has_of_get {m : List (Str × Val)} {k : String} (h : get m k ≠ .null) : has m k = true := by
  unfold has
  unfold get at h
  cases hl : lookup m k with
  | none => rw [hl] at h; exact absurd rfl h
  | some v =>
    rw [hl] at h
    cases v <;> first | rfl | exact absurd rfl h

/-- C52 for template processors in tokenizer.json: the templates are read piece by piece, and the
table has exactly the special tokens of the file, in whatever order the map is iterated. -/
theorem C52_processor (config : List (Str × Val)) (single pair : List Piece) (toks : List SpecialToken)
    (hs : get config "single" = .arr (single.map pieceVal)) (hp : get config "pair" = .arr (pair.map pieceVal))
    (ht : get config "special_tokens" = .obj (toks.map tokenVal)) (hn : (toks.map (·.id)).Nodup) :
    ∃ tp, createTemplate config = .ok tp ∧ tp.single = single ∧ tp.pair = pair ∧
      (∀ t ∈ toks, tp.tab t.id = some t) ∧ ∀ k, (∀ t ∈ toks, t.id ≠ k) → tp.tab k = none := by
  have h1 : templateOf config "single" = .ok single := by
    unfold templateOf
    rw [if_pos (has_of_get (by rw [hs]; intro h; cases h)), hs]
    exact piecesLoop_ok single
  have h2 : templateOf config "pair" = .ok pair := by
    unfold templateOf
    rw [if_pos (has_of_get (by rw [hp]; intro h; cases h)), hp]
    exact piecesLoop_ok pair
  refine ⟨⟨single, pair, tableLoop toks (fun _ => none)⟩, ?_, rfl, rfl, ?_, ?_⟩
  · unfold createTemplate
    simp only [h1, h2, Res.bind_ok]
    rw [if_pos (has_of_get (by rw [ht]; intro h; cases h)), ht]
    simp only [asObj, Res.bind_ok, tokensLoop_ok]
  · intro t htm
    exact tableLoop_mem toks hn t htm _
  · intro k hk
    exact tableLoop_other toks k hk _

/-- C52: a template that the configuration does not have is empty. -/
theorem C52_no_template (config : List (Str × Val)) (toks : List SpecialToken)
    (hs : lookup config "single" = none) (hp : lookup config "pair" = none)
    (ht : get config "special_tokens" = .obj (toks.map tokenVal)) :
    ∃ tp, createTemplate config = .ok tp ∧ tp.single = [] ∧ tp.pair = [] := by
  have h : ∀ k, lookup config k = none → templateOf config k = .ok [] := by
    intro k hk
    unfold templateOf
    rw [if_neg (by simp [has, hk])]
  refine ⟨⟨[], [], tableLoop toks (fun _ => none)⟩, ?_, rfl, rfl⟩
  unfold createTemplate
  simp only [h _ hs, h _ hp, Res.bind_ok]
  rw [if_pos (has_of_get (by rw [ht]; intro h; cases h)), ht]
  simp only [asObj, Res.bind_ok, tokensLoop_ok]

/-- C52: an entry of a template that names a sequence and a special token stands for both, the sequence first. -/
theorem C52_both (a b c : List Val) (ps qs : List Piece) (ha : piecesLoop a = .ok ps) (hb : piecesLoop b = .ok qs)
    (id : Str) (ty : Int) (seq : Bool) (ty' : Int)
    (hc : c = a ++ .obj [("SpecialToken".toList, .obj [("id".toList, .str id), ("type_id".toList, .float ty)]),
      ("Sequence".toList, .obj [("id".toList, .str (if seq then ['B'] else ['A'])), ("type_id".toList, .float ty')])] :: b) :
    piecesLoop c = .ok (ps ++ .seq seq ty' :: .special id ty :: qs) := by
  subst hc
  induction a generalizing ps with
  | nil =>
    obtain rfl : [] = ps := Res.ok.inj ha
    rw [List.nil_append, piecesLoop, hb]
    cases seq
    · exact Eq.trans (b := .ok (.seq false (truncInt (ty' : Rat)) :: .special id (truncInt (ty : Rat)) :: qs)) rfl
        (by rw [truncInt_int, truncInt_int]; rfl)
    · exact Eq.trans (b := .ok (.seq true (truncInt (ty' : Rat)) :: .special id (truncInt (ty : Rat)) :: qs)) rfl
        (by rw [truncInt_int, truncInt_int]; rfl)
  | cons v a ih =>
    simp only [piecesLoop, Res.bind_eq_ok] at ha
    obtain ⟨p, h1, x, h2, y, h3, r, h4, h5⟩ := ha
    obtain rfl := Res.ok.inj h5
    simp only [List.cons_append, piecesLoop, h1, h2, h3, ih r h4, Res.bind_ok]
    simp

/-- C52 for configurations without special tokens: templates of sequences only are read; a template with a special
token ends the program. -/
theorem C52_no_tokens (config : List (Str × Val)) (single pair : List Piece)
    (hs : get config "single" = .arr (single.map pieceVal)) (hp : get config "pair" = .arr (pair.map pieceVal))
    (ht : lookup config "special_tokens" = none) :
    ((∃ id ty, Piece.special id ty ∈ single ++ pair) → createTemplate config = .panic) ∧
    ((∀ id ty, Piece.special id ty ∉ single ++ pair) → createTemplate config = .ok ⟨single, pair, fun _ => none⟩) := by
  have h1 : templateOf config "single" = .ok single := by
    unfold templateOf
    rw [if_pos (has_of_get (by rw [hs]; intro h; cases h)), hs]
    exact piecesLoop_ok single
  have h2 : templateOf config "pair" = .ok pair := by
    unfold templateOf
    rw [if_pos (has_of_get (by rw [hp]; intro h; cases h)), hp]
    exact piecesLoop_ok pair
  have h3 : has config "special_tokens" = false := by simp [has, ht]
  constructor
  · rintro ⟨id, ty, hm⟩
    unfold createTemplate
    simp only [h1, h2, h3, Res.bind_ok, Bool.false_eq_true, if_false]
    rw [if_pos (List.any_eq_true.mpr ⟨_, hm, rfl⟩)]
  · intro hm
    unfold createTemplate
    simp only [h1, h2, h3, Res.bind_ok, Bool.false_eq_true, if_false]
    rw [if_neg]
    intro ha
    obtain ⟨p, hp, hq⟩ := List.any_eq_true.mp ha
    cases p with
    | special id ty => exact hm id ty hp
    | seq _ _ => cases hq

example : createTemplate [("single".toList, .arr ([Piece.special "[CLS]".toList 0].map pieceVal)),
    ("pair".toList, .arr [])] = .panic :=
  (C52_no_tokens _ [.special "[CLS]".toList 0] [] rfl rfl rfl).1 ⟨_, _, by simp; exact ⟨rfl, rfl⟩⟩

/-! ### Validation -/

theorem pairLoop_special (tpl : List Piece) (id : Str) (ty : Int) (h : .special id ty ∈ tpl) :
    ∀ a b, pairLoop tpl a b = .panic := by
  induction tpl with
  | nil => cases h
  | cons p tpl ih =>
    intro a b
    cases p with
    | special _ _ => rfl
    | seq c ty' =>
      rw [pairLoop]
      rcases List.mem_cons.mp h with h | h
      · cases h
      · exact ih h _ _

/-- C62 fails for every pair template with a special token, as in `[CLS] $A [SEP] $B:1 [SEP]:1`:
validation panics. -/
theorem C62_special_violated (tp : TemplateProc) (order : List Str) (id : Str) (ty : Int)
    (h : .special id ty ∈ tp.pair) : validate tp order = .panic := by
  unfold validate
  rw [pairLoop_special tp.pair id ty h]
  rfl

theorem types_differ : "*SequencePiece".toList ≠ "*SequencePeice".toList ∧ "*SpecialTokenPiece".toList ≠ "*SequencePeice".toList ∧
    "*SequencePiece".toList ≠ "*SpecialToken".toList ∧ "*SpecialTokenPiece".toList ≠ "*SpecialToken".toList := by
  decide +kernel

theorem missingLoop_nil (tab : TokenTable) (order : List Str) (ps : List Piece) : missingLoop tab order ps = .ok [] := by
  induction ps with
  | nil => rfl
  | cons p ps ih =>
    have h1 : getType p ≠ "*SequencePeice".toList := by
      cases p with
      | seq _ _ => exact types_differ.1
      | special _ _ => exact types_differ.2.1
    have h2 : getType p ≠ "*SpecialToken".toList := by
      cases p with
      | seq _ _ => exact types_differ.2.2.1
      | special _ _ => exact types_differ.2.2.2
    unfold missingLoop
    rw [if_neg h1, if_neg h2, ih]

/-- A template uses a sequence. -/
def Uses (tpl : List Piece) (isB : Bool) : Prop := ∃ ty, Piece.seq isB ty ∈ tpl

theorem pairLoop_ok (tpl : List Piece) (h : ∀ id ty, Piece.special id ty ∉ tpl) : ∀ a b,
    ∃ a' b', pairLoop tpl a b = .ok (a', b') ∧ (a' = true ↔ a = true ∨ Uses tpl false) ∧
      (b' = true ↔ b = true ∨ Uses tpl true) := by
  induction tpl with
  | nil => intro a b; exact ⟨a, b, rfl, by simp [Uses], by simp [Uses]⟩
  | cons p tpl ih =>
    intro a b
    cases p with
    | special id ty => exact absurd List.mem_cons_self (h id ty)
    | seq c ty =>
      obtain ⟨a', b', h1, h2, h3⟩ := ih (fun id ty hm => h id ty (List.mem_cons_of_mem _ hm)) (a || !c) (b || c)
      refine ⟨a', b', by rw [pairLoop]; exact h1, ?_, ?_⟩
      · rw [h2]
        cases c
        · simp only [Bool.not_false, Bool.or_true, true_or, true_iff]
          exact Or.inr ⟨ty, List.mem_cons_self⟩
        · simp [Uses]
      · rw [h3]
        cases c
        · simp [Uses]
        · simp only [Bool.or_true, true_or, true_iff]
          exact Or.inr ⟨ty, List.mem_cons_self⟩

/-- C62 as far as it holds: without special tokens in the pair template, validation succeeds exactly
if the pair template uses both sequences, and otherwise reports an error. -/
theorem C62_sequences_partial (tp : TemplateProc) (order : List Str) (h : ∀ id ty, Piece.special id ty ∉ tp.pair) :
    (validate tp order = .ok () ↔ Uses tp.pair false ∧ Uses tp.pair true) ∧
    (validate tp order = .err ↔ ¬ (Uses tp.pair false ∧ Uses tp.pair true)) := by
  obtain ⟨a, b, h1, h2, h3⟩ := pairLoop_ok tp.pair h false false
  unfold validate
  simp only [h1, Res.bind_ok, missingLoop_nil]
  simp only [Bool.false_eq_true, false_or] at h2 h3
  rw [← h2, ← h3]
  cases a <;> cases b <;> simp

/-- C62 fails: a special token of the single template that is not in the table is not reported, for
every table and single template. -/
theorem C62_missing_violated (single : List Piece) (tab : TokenTable) (order : List Str) (ta tb : Int) :
    validate ⟨single, [.seq false ta, .seq true tb], tab⟩ order = .ok () := by
  apply (C62_sequences_partial _ _ _).1.mpr
  · exact ⟨⟨ta, by simp⟩, ⟨tb, by simp⟩⟩
  · intro id ty h
    simp at h

/-! ### The default template -/

/-- C63 as far as it holds: with a template that fits and uses both sequences, the tokens of both
sequences are in the result, in a row. -/
theorem C63_keeps_partial (tp : TemplateProc) (e p : Encoding) (special : Bool) (he : Fresh e) (hp : Fresh p)
    (hfit : TemplateFits tp.tab tp.pair true special) (hA : Uses tp.pair false) (hB : Uses tp.pair true) :
    ∃ r, tp.process e (some p) special = .ok (some r) ∧ e.tokens <:+: r.tokens ∧ p.tokens <:+: r.tokens := by
  obtain ⟨ta, hA⟩ := hA
  obtain ⟨tb, hB⟩ := hB
  obtain ⟨r, h1, h2⟩ := C24_template tp e (some p) special he (fun q hq => by injection hq with hq; exact hq ▸ hp) hfit
    (Or.inl ⟨false, ta, hA⟩)
  refine ⟨r, h1, ?_, ?_⟩
  · have := h2 .tokens
    simp only [Encoding.arr] at this
    obtain ⟨x, y, hxy⟩ := List.append_of_mem hA
    have hc : tp.chosen (some p).isSome = tp.pair := rfl
    rw [hc, hxy, List.flatMap_append, List.flatMap_cons] at this
    rw [this]
    exact ⟨_, _, List.append_assoc _ _ _⟩
  · have := h2 .tokens
    simp only [Encoding.arr] at this
    obtain ⟨x, y, hxy⟩ := List.append_of_mem hB
    have hc : tp.chosen (some p).isSome = tp.pair := rfl
    rw [hc, hxy, List.flatMap_append, List.flatMap_cons] at this
    rw [this]
    exact ⟨_, _, List.append_assoc _ _ _⟩

/-- C63 fails for the default template: the second sequence is dropped, whatever it is. -/
theorem C63_default_violated (tp : TemplateProc) (h : defaultTemplate = .ok tp) (e p : Encoding) (special : Bool)
    (he : Fresh e) (hp : Fresh p) :
    ∃ r, tp.process e (some p) special = .ok (some r) ∧ r.tokens = e.tokens := by
  have htp : tp = ⟨[.seq false 0], [.seq false 1], fun _ => none⟩ := by
    have e0 : templateFromOne "$0".toList = .ok [.seq false 0] := by decide +kernel
    have e1 : templateFromOne "$1".toList = .ok [.seq false 1] := by decide +kernel
    unfold defaultTemplate at h
    simp only [e0, e1, Res.bind_ok, Res.ok.injEq] at h
    exact h.symm
  subst htp
  obtain ⟨r, h1, h2⟩ := C24_template ⟨[.seq false 0], [.seq false 1], fun _ => none⟩ e (some p) special he
    (fun q hq => by injection hq with hq; exact hq ▸ hp)
    ⟨fun ty hm => rfl, fun _ id ty hm => by simp [TemplateProc.chosen] at hm⟩
    (Or.inl ⟨false, 1, by simp [TemplateProc.chosen]⟩)
  refine ⟨r, h1, ?_⟩
  have := h2 .tokens
  simpa [Encoding.arr, TemplateProc.chosen, pieceArr, seqArr] using this

end Tok.Config
