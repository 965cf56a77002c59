import Verif.Spm.Model

/-! C50. -/

namespace Tok.Spm

/-- A map from byte strings to values, as a tree. -/
inductive Trie where
  | node (value : Option Nat) (child : UInt8 → Option Trie)

namespace Trie

def value : Trie → Option Nat
  | node v _ => v

def child : Trie → UInt8 → Option Trie
  | node _ f => f

/-- The value stored for a key. -/
def lookup : Trie → List UInt8 → Option Nat
  | t, [] => t.value
  | t, c :: key =>
    match t.child c with
    | some t' => t'.lookup key
    | none => none

end Trie

/-- The array stores the tree `t`, whose node has the base `pos`: the unit at `pos` xor `c` carries
the label `c` exactly if there is a child for `c`; the child's base is that index xor its offset,
its leaf mark says whether it has a value, which then is in the unit at the base. (This is the
format of darts-clone.) -/
inductive Stores (da : List Nat) : Nat → Trie → Prop where
  | mk (pos : Nat) (t : Trie)
    (noChild : ∀ c : UInt8, c ≠ 0 → t.child c = none →
      ∃ u, da[pos ^^^ c.toNat]? = some u ∧ label u ≠ c.toNat)
    (hasChild : ∀ (c : UInt8) (t' : Trie), c ≠ 0 → t.child c = some t' →
      ∃ u, da[pos ^^^ c.toNat]? = some u ∧ label u = c.toNat ∧ hasLeaf u = t'.value.isSome ∧
        (∀ v, t'.value = some v → ∃ w, da[pos ^^^ c.toNat ^^^ offset u]? = some w ∧ value w = v))
    (children : ∀ (c : UInt8) (t' : Trie) (u : Nat), c ≠ 0 → t.child c = some t' →
      da[pos ^^^ c.toNat]? = some u → Stores da (pos ^^^ c.toNat ^^^ offset u) t') :
    Stores da pos t

/-- The non-empty prefixes of a list, from the shortest. -/
def prefixes : List α → List (List α)
  | [] => []
  | c :: l => [c] :: (prefixes l).map (c :: ·)

theorem mem_prefixes {l p : List α} : p ∈ prefixes l ↔ p ≠ [] ∧ p <+: l := by
  induction l generalizing p with
  | nil =>
    simp only [prefixes, List.not_mem_nil, false_iff, List.prefix_nil]
    rintro ⟨h1, h2⟩; exact h1 h2
  | cons c l ih =>
    simp only [prefixes, List.mem_cons, List.mem_map, ih]
    constructor
    · rintro (rfl | ⟨q, ⟨_, h2⟩, rfl⟩)
      · exact ⟨by simp, by simp⟩
      · exact ⟨by simp, by simpa using h2⟩
    · rintro ⟨h1, h2⟩
      cases p with
      | nil => exact absurd rfl h1
      | cons d q =>
        rw [List.cons_prefix_cons] at h2
        obtain ⟨rfl, h2⟩ := h2
        by_cases hq : q = []
        · subst hq; exact Or.inl rfl
        · exact Or.inr ⟨q, ⟨hq, h2⟩, rfl⟩

theorem searchLoop_ok {da : List Nat} :
    ∀ (key : List UInt8) (pos : Nat) (t : Trie), Stores da pos t →
      searchLoop da pos key = .ok ((prefixes (key.takeWhile (· ≠ 0))).filterMap t.lookup) := by
  intro key
  induction key with
  | nil => intro pos t _; rfl
  | cons c key ih =>
    intro pos t hst
    cases hst with
    | mk _ _ hnone hsome hsub =>
      rw [searchLoop]
      by_cases hc : c = 0
      · rw [if_pos hc, List.takeWhile_cons, if_neg (by simp [hc])]; rfl
      · rw [if_neg hc, List.takeWhile_cons, if_pos (by simp [hc])]
        rw [prefixes]
        cases ht : t.child c with
        | none =>
          obtain ⟨u, hu, hl⟩ := hnone c hc ht
          rw [unitAt, hu]
          dsimp only
          rw [if_pos hl]
          congr 1
          symm
          rw [List.filterMap_eq_nil_iff]
          intro p hp
          rcases List.mem_cons.mp hp with rfl | hp
          · simp [Trie.lookup, ht]
          · obtain ⟨q, _, rfl⟩ := List.mem_map.mp hp
            simp [Trie.lookup, ht]
        | some t' =>
          obtain ⟨u, hu, hl, hleaf, hval⟩ := hsome c t' hc ht
          have hs := hsub c t' u hc ht hu
          have e1 : ∀ q, t.lookup (c :: q) = t'.lookup q := by intro q; simp [Trie.lookup, ht]
          have e2 : (((prefixes (key.takeWhile (· ≠ 0))).map (c :: ·)).filterMap t.lookup) =
              (prefixes (key.takeWhile (· ≠ 0))).filterMap t'.lookup := by
            rw [List.filterMap_map]
            congr 1
            funext q
            exact e1 q
          rw [unitAt, hu]
          dsimp only
          rw [if_neg (by simp [hl]), List.filterMap_cons, e1, e2]
          cases hv : t'.value with
          | none =>
            rw [hv] at hleaf
            rw [if_neg (by simp [hleaf]), ih _ _ hs]
            have : t'.lookup [] = none := by rw [Trie.lookup]; exact hv
            rw [this]
          | some v =>
            obtain ⟨w, hw, hwv⟩ := hval v hv
            rw [hv] at hleaf
            have : t'.lookup [] = some v := by rw [Trie.lookup]; exact hv
            rw [if_pos (by simp [hleaf]), unitAt, hw, ih _ _ hs, this]
            dsimp only
            rw [hwv]

theorem bit_and (u i : Nat) : u &&& (1 <<< i) = (u / 2 ^ i % 2) * 2 ^ i := by
  rw [Nat.one_shiftLeft]
  apply Nat.eq_of_testBit_eq
  intro j
  rw [Nat.testBit_and, Nat.testBit_two_pow]
  rcases Nat.mod_two_eq_zero_or_one (u / 2 ^ i) with h | h
  · rw [h, Nat.zero_mul, Nat.zero_testBit]
    by_cases e : i = j
    · subst e; rw [Nat.testBit_eq_decide_div_mod_eq, h]; rfl
    · simp [e]
  · rw [h, Nat.one_mul, Nat.testBit_two_pow]
    by_cases e : i = j
    · subst e; rw [Nat.testBit_eq_decide_div_mod_eq, h]; rfl
    · simp [e]

/-- C50, units. The format of the units (darts-clone): a unit with the label `c`, the leaf mark `h`, the
extension mark `x` and 21 bits `o` of offset is the number `c + 256 h + 512 x + 1024 o`; its offset is
`o`, or 256 `o` if it is extended. A value `v` of 31 bits is in the unit `2^31 + v`, which has no byte as
its label. -/
theorem C50_units (c h x o v : Nat) (hc : c < 256) (hh : h < 2) (hx : x < 2) (ho : o < 2 ^ 21) (hv : v < 2 ^ 31) :
    label (c + 256 * h + 512 * x + 1024 * o) = c ∧ hasLeaf (c + 256 * h + 512 * x + 1024 * o) = decide (h = 1) ∧
      offset (c + 256 * h + 512 * x + 1024 * o) = (if x = 1 then 256 * o else o) ∧
      value (2 ^ 31 + v) = v ∧ ∀ b : UInt8, label (2 ^ 31 + v) ≠ b.toNat := by
  have e31 : (1 <<< 31 : Nat) = 2 ^ 31 := Nat.one_shiftLeft 31
  have hlab : ∀ u, label u = (u / 2 ^ 31 % 2) * 2 ^ 31 ||| u % 256 := by
    intro u
    unfold label
    rw [Nat.and_or_distrib_left, bit_and, show (0xFF : Nat) = 2 ^ 8 - 1 from rfl, Nat.and_two_pow_sub_one_eq_mod]
  refine ⟨?_, ?_, ?_, ?_, ?_⟩
  · rw [hlab, show (c + 256 * h + 512 * x + 1024 * o) / 2 ^ 31 = 0 by omega,
      show (c + 256 * h + 512 * x + 1024 * o) % 256 = c by omega]
    simp
  · unfold hasLeaf
    rw [Nat.shiftRight_eq_div_pow, Nat.and_one_is_mod]
    rw [show (c + 256 * h + 512 * x + 1024 * o) / 2 ^ 8 % 2 = h by omega]
    rfl
  · unfold offset
    rw [bit_and, Nat.shiftRight_eq_div_pow, Nat.shiftRight_eq_div_pow, Nat.shiftLeft_eq,
      show (c + 256 * h + 512 * x + 1024 * o) / 2 ^ 9 % 2 = x by omega,
      show (c + 256 * h + 512 * x + 1024 * o) / 2 ^ 10 = o by omega]
    rcases (by omega : x = 0 ∨ x = 1) with rfl | rfl
    · simp
    · simp; omega
  · unfold value
    rw [e31, Nat.and_two_pow_sub_one_eq_mod]
    omega
  · intro b hb
    rw [hlab, show (2 ^ 31 + v) / 2 ^ 31 % 2 = 1 by omega] at hb
    have h1 := Nat.left_le_or (n := 1 * 2 ^ 31) (m := (2 ^ 31 + v) % 256)
    have h2 := b.toNat_lt
    omega

/-- C50, search. For an array that stores a tree, the search does not fail and returns the values of
the stored keys that are prefixes of the query, from the shortest (a zero byte ends the query). -/
theorem C50_search {da : List Nat} {u : Nat} {t : Trie} (h0 : da[0]? = some u) (h : Stores da (offset u) t)
    (key : List UInt8) :
    search da key = .ok ((prefixes (key.takeWhile (· ≠ 0))).filterMap t.lookup) := by
  rw [search, unitAt, h0]
  exact searchLoop_ok key _ t h

theorem takeWhile_self (l : List UInt8) (h : 0 ∉ l) : l.takeWhile (· ≠ 0) = l := by
  induction l with
  | nil => rfl
  | cons c l ih =>
    rw [List.takeWhile_cons, if_pos, ih (fun hm => h (List.mem_cons_of_mem _ hm))]
    simp only [ne_eq, decide_not, Bool.not_eq_true', decide_eq_false_iff_not]
    rintro rfl
    exact h List.mem_cons_self

/-- C50, transformation. It yields the text that stands at the value of the shortest stored prefix. -/
theorem C50_transform {da : List Nat} {u : Nat} {t : Trie} (h0 : da[0]? = some u) (h : Stores da (offset u) t)
    (text chunk : List UInt8) (hz : 0 ∉ chunk) (p : List UInt8) (i : Nat) (hp : p ≠ []) (hpre : p <+: chunk)
    (hl : t.lookup p = some i) (hmin : ∀ q, q ≠ [] → q <+: p → q ≠ p → t.lookup q = none)
    (before entry after : List UInt8) (htext : text = before ++ entry ++ 0 :: after)
    (hi : before.length = i) (he : 0 ∉ entry) :
    transform da text chunk = .ok entry := by
  have htw : chunk.takeWhile (· ≠ 0) = chunk := takeWhile_self chunk hz
  have hhead : ∀ (chunk p : List UInt8) (t : Trie), p ≠ [] → p <+: chunk → t.lookup p = some i →
      (∀ q, q ≠ [] → q <+: p → q ≠ p → t.lookup q = none) →
      ((prefixes chunk).filterMap t.lookup).head? = some i := by
    intro chunk
    induction chunk with
    | nil => intro p t hp hpre; rw [List.prefix_nil] at hpre; exact absurd hpre hp
    | cons c chunk ih =>
      intro p t hp hpre hl hmin
      cases p with
      | nil => exact absurd rfl hp
      | cons d q =>
        rw [List.cons_prefix_cons] at hpre
        obtain ⟨rfl, hpre⟩ := hpre
        by_cases hq : q = []
        · subst hq
          rw [prefixes, List.filterMap_cons, hl]; rfl
        · have h1 := hmin [d] (by simp) (by simp) (by
            intro e; injection e with _ e; exact hq e.symm)
          rw [prefixes, List.filterMap_cons, h1, List.filterMap_map]
          cases ht : t.child d with
          | none => simp [Trie.lookup, ht] at hl
          | some t' =>
            have e1 : ∀ q, t.lookup (d :: q) = t'.lookup q := by intro q; simp [Trie.lookup, ht]
            have e2 : (t.lookup ∘ fun x => d :: x) = t'.lookup := by funext q; exact e1 q
            rw [e2]
            exact ih q t' hq hpre (by rw [← e1]; exact hl) (fun r hr1 hr2 hr3 => by
              rw [← e1]
              exact hmin (d :: r) (by simp) (by simpa using hr2) (by simpa using hr3))
  have hh := hhead chunk p t hp hpre hl hmin
  rw [transform, C50_search h0 h, htw]
  cases hf : (prefixes chunk).filterMap t.lookup with
  | nil => rw [hf] at hh; cases hh
  | cons j rest =>
    rw [hf] at hh
    simp only [List.head?_cons, Option.some.injEq] at hh
    subst hh
    dsimp only
    rw [if_pos (by rw [htext]; simp; omega), htext, ← hi, List.append_assoc, List.drop_left,
      List.takeWhile_append_of_pos, List.takeWhile_cons, if_neg (by simp)]
    · simp
    · intro c hc
      simp only [ne_eq, decide_not, Bool.not_eq_true', decide_eq_false_iff_not]
      rintro rfl
      exact he hc

/-- The four bytes of a number, lowest first. -/
def u32 (n : Nat) : List UInt8 :=
  [UInt8.ofNat n, UInt8.ofNat (n / 256), UInt8.ofNat (n / 65536), UInt8.ofNat (n / 16777216)]

theorem takeU32_u32 (n : Nat) (h : n < 4294967296) (rest : List UInt8) :
    takeU32 (u32 n ++ rest) = .ok (n, rest) := by
  have e : ∀ k, (UInt8.ofNat k).toNat = k % 256 := fun k => by simp
  have : u32 n ++ rest = UInt8.ofNat n :: UInt8.ofNat (n / 256) :: UInt8.ofNat (n / 65536) ::
      UInt8.ofNat (n / 16777216) :: rest := rfl
  rw [this, takeU32, e, e, e, e]
  congr 2
  omega

theorem parseLoop_ok (us : List Nat) (text : List UInt8) (h : ∀ u ∈ us, u < 4294967296) :
    parseLoop us.length (us.flatMap u32 ++ text) = .ok (text, us) := by
  induction us with
  | nil => rfl
  | cons u us ih =>
    rw [List.flatMap_cons, List.append_assoc, List.length_cons, parseLoop,
      takeU32_u32 u (h u List.mem_cons_self)]
    dsimp only
    rw [ih (fun x hx => h x (List.mem_cons_of_mem _ hx))]

/-- C50, parsing. A blob made of the length of the units in bytes, the units and the text is taken
apart into these. -/
theorem C50_parse (us : List Nat) (text : List UInt8) (h : ∀ u ∈ us, u < 4294967296)
    (hlen : 4 * us.length < 4294967296) :
    parse (u32 (4 * us.length) ++ us.flatMap u32 ++ text) = .ok (text, us) := by
  rw [List.append_assoc, parse, takeU32_u32 _ hlen]
  dsimp only
  rw [Nat.mul_div_cancel_left _ (by omega)]
  exact parseLoop_ok us text h

/-- C50 fails for damaged blobs: one that is cut off within its units makes `Parse` panic, it does
not report an error. -/
theorem C50_truncated_violated (size : Nat) (hs : size < 4294967296) (rest : List UInt8)
    (h : rest.length < size / 4 * 4) : parse (u32 size ++ rest) = .panic := by
  rw [parse, takeU32_u32 _ hs]
  dsimp only
  have : ∀ (n : Nat) (rest : List UInt8), rest.length < n * 4 → parseLoop n rest = .panic := by
    intro n
    induction n with
    | zero => intro rest h; omega
    | succ n ih =>
      intro rest h
      rw [parseLoop]
      match rest, h with
      | a :: b :: c :: d :: rest, h =>
        rw [takeU32]
        dsimp only
        rw [ih rest (by simp only [List.length_cons] at h; omega)]
      | [], _ => rfl
      | [_], _ => rfl
      | [_, _], _ => rfl
      | [_, _, _], _ => rfl
  exact this _ _ h

/-- C50 fails for damaged arrays: whenever the root leads out of the array, the search panics, and so
does the transformation. -/
theorem C50_range_violated (da : List Nat) (u : Nat) (h0 : da[0]? = some u) (c : UInt8) (key : List UInt8)
    (hc : c ≠ 0) (h : da.length ≤ offset u ^^^ c.toNat) :
    search da (c :: key) = .panic ∧ ∀ text, transform da text (c :: key) = .panic := by
  have hs : search da (c :: key) = .panic := by
    rw [search, unitAt, h0]
    dsimp only
    rw [searchLoop, if_neg hc, unitAt, List.getElem?_eq_none h]
  exact ⟨hs, fun text => by rw [transform, hs]⟩

/-! ### A stored tree

The keys "a" with value 5 and "ab" with value 7. -/

def exTrie : Trie :=
  .node none (fun c => if c = 97 then some (.node (some 5) (fun d => if d = 98 then some (.node (some 7) (fun _ => none))
    else none)) else none)

/-- The array: root at 0 with base 256, child "a" at 256 xor 97 with base 512, its child "b" at
512 xor 98 with base 768. -/
def exArray : List Nat :=
  (List.range 1024).map (fun i =>
    if i = 0 then 256 <<< 10
    else if i = 256 ^^^ 97 then ((256 ^^^ 97 ^^^ 512) <<< 10) ||| 256 ||| 97
    else if i = 512 then (1 <<< 31) ||| 5
    else if i = 512 ^^^ 98 then ((512 ^^^ 98 ^^^ 768) <<< 10) ||| 256 ||| 98
    else if i = 768 then (1 <<< 31) ||| 7
    else 0)

theorem exArray_other : ∀ n < 256, n ≠ 0 →
    (n ≠ 97 → ∃ u ∈ exArray[256 ^^^ n]?, label u ≠ n) ∧ (n ≠ 98 → ∃ u ∈ exArray[512 ^^^ n]?, label u ≠ n) ∧
      ∃ u ∈ exArray[768 ^^^ n]?, label u ≠ n := by
  decide +kernel

theorem exArray_stores : exArray[0]? = some (256 <<< 10) ∧ Stores exArray (offset (256 <<< 10)) exTrie := by
  have hne : ∀ (c : UInt8), c ≠ 0 → c.toNat ≠ 0 := by
    intro c h e
    exact h (UInt8.toNat_inj.mp (by simpa using e))
  have ha : exArray[256 ^^^ 97]? = some (((256 ^^^ 97 ^^^ 512) <<< 10) ||| 256 ||| 97) := by decide +kernel
  have hb : exArray[512 ^^^ 98]? = some (((512 ^^^ 98 ^^^ 768) <<< 10) ||| 256 ||| 98) := by decide +kernel
  have h5 : exArray[512]? = some ((1 <<< 31) ||| 5) := by decide +kernel
  have h7 : exArray[768]? = some ((1 <<< 31) ||| 7) := by decide +kernel
  refine ⟨by decide +kernel, ?_⟩
  have e0 : offset (256 <<< 10) = 256 := by decide
  have e1 : 256 ^^^ (97 : UInt8).toNat ^^^ offset (((256 ^^^ 97 ^^^ 512) <<< 10) ||| 256 ||| 97) = 512 := by decide
  have e2 : 512 ^^^ (98 : UInt8).toNat ^^^ offset (((512 ^^^ 98 ^^^ 768) <<< 10) ||| 256 ||| 98) = 768 := by decide
  rw [e0]
  refine .mk _ _ ?_ ?_ ?_
  · intro c hc ht
    have : c ≠ 97 := by rintro rfl; simp [exTrie, Trie.child] at ht
    obtain ⟨u, hu, hl⟩ := (exArray_other c.toNat (UInt8.toNat_lt c) (hne c hc)).1 (by
      intro e; exact this (UInt8.toNat_inj.mp (by simpa using e)))
    exact ⟨u, hu, hl⟩
  · intro c t' hc ht
    simp only [exTrie, Trie.child] at ht
    split at ht
    · next h =>
      subst h
      injection ht with ht
      subst ht
      refine ⟨_, ha, by decide, by decide, ?_⟩
      intro v hv
      rw [e1]
      exact ⟨_, h5, by simp only [Trie.value, Option.some.injEq] at hv; subst hv; decide⟩
    · cases ht
  · intro c t' u hc ht hu
    simp only [exTrie, Trie.child] at ht
    split at ht
    · next h =>
      subst h
      injection ht with ht
      subst ht
      have : u = ((256 ^^^ 97 ^^^ 512) <<< 10) ||| 256 ||| 97 := by
        have := hu.symm.trans ha; simpa using this
      rw [this, e1]
      refine .mk _ _ ?_ ?_ ?_
      · intro c hc ht
        have : c ≠ 98 := by rintro rfl; simp [Trie.child] at ht
        obtain ⟨u, hu, hl⟩ := (exArray_other c.toNat (UInt8.toNat_lt c) (hne c hc)).2.1 (by
          intro e; exact this (UInt8.toNat_inj.mp (by simpa using e)))
        exact ⟨u, hu, hl⟩
      · intro c t' hc ht
        simp only [Trie.child] at ht
        split at ht
        · next h =>
          subst h
          injection ht with ht
          subst ht
          refine ⟨_, hb, by decide, by decide, ?_⟩
          intro v hv
          rw [e2]
          exact ⟨_, h7, by simp only [Trie.value, Option.some.injEq] at hv; subst hv; decide⟩
        · cases ht
      · intro c t' u hc ht hu
        simp only [Trie.child] at ht
        split at ht
        · next h =>
          subst h
          injection ht with ht
          subst ht
          have : u = ((512 ^^^ 98 ^^^ 768) <<< 10) ||| 256 ||| 98 := by
            have := hu.symm.trans hb; simpa using this
          rw [this, e2]
          refine .mk _ _ ?_ ?_ ?_
          · intro c hc _
            obtain ⟨u, hu, hl⟩ := (exArray_other c.toNat (UInt8.toNat_lt c) (hne c hc)).2.2
            exact ⟨u, hu, hl⟩
          · intro c t' _ ht; simp [Trie.child] at ht
          · intro c t' u _ ht; simp [Trie.child] at ht
        · cases ht
    · cases ht

/-- Both keys are found in "abc". -/
example : search exArray [97, 98, 99] = .ok [5, 7] := by
  rw [C50_search exArray_stores.1 exArray_stores.2]
  decide +kernel

end Tok.Spm
