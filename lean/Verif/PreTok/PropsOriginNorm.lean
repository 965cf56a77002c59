import Verif.PreTok.PropsOrigin
import Verif.PreTok.Prefix
import Verif.Norm.PropsForms

/-!
# C112: normalizers that rewrite a text block by block
-/

namespace Tok.PreTok

open Tok.Norm

/-! ### Change lists -/

/-- Text is inserted after the last block. -/
def addLast (acc : List (Str × Str)) (t : Str) : List (Str × Str) :=
  match acc.getLast? with
  | none => [([], t)]
  | some b => acc.dropLast ++ [(b.1, b.2 ++ t)]

/-- The blocks that a change list makes of a text: a change ≤ 0 replaces the next character and
removes as many after it as it says, a change > 0 inserts after what has been used up. -/
def changeBlocks (acc : List (Str × Str)) : Str → List (Str × Int) → List (Str × Str)
  | rest, [] => acc ++ rest.map (fun c => ([c], []))
  | rest, (t, ch) :: items =>
    if ch > 0 then changeBlocks (addLast acc t) rest items
    else changeBlocks (acc ++ (rest.take 1, t) :: ((rest.drop 1).take (-ch).toNat).map (fun r => ([r], [])))
      ((rest.drop 1).drop (-ch).toNat) items

theorem lefts_gone (l : Str) : lefts (l.map (fun c => (([c], []) : Str × Str))) = l := by
  induction l with
  | nil => rfl
  | cons c l ih => rw [List.map_cons, lefts_cons, ih]; rfl

theorem rights_gone (l : Str) : rights (l.map (fun c => (([c], []) : Str × Str))) = [] := by
  induction l with
  | nil => rfl
  | cons c l ih => rw [List.map_cons, rights_cons, ih]; rfl

theorem addLast_eq (acc : List (Str × Str)) (t : Str) :
    lefts (addLast acc t) = lefts acc ∧ rights (addLast acc t) = rights acc ++ t := by
  unfold addLast
  rcases List.eq_nil_or_concat acc with h | ⟨as, b, h⟩
  · subst h; exact ⟨rfl, by simp [rights]⟩
  · subst h
    simp [lefts, rights]

theorem changeBlocks_eq (items : List (Str × Int)) : ∀ (acc : List (Str × Str)) (rest : Str),
    lefts (changeBlocks acc rest items) = lefts acc ++ rest ∧
    rights (changeBlocks acc rest items) = rights acc ++ (items.map (·.1)).flatten := by
  induction items with
  | nil =>
    intro acc rest
    simp only [changeBlocks]
    rw [lefts_append, rights_append, lefts_gone, rights_gone]
    simp
  | cons item items ih =>
    obtain ⟨t, ch⟩ := item
    intro acc rest
    rw [changeBlocks]
    split
    · rw [(ih _ _).1, (ih _ _).2, (addLast_eq acc t).1, (addLast_eq acc t).2]; simp
    · rw [(ih _ _).1, (ih _ _).2, lefts_append, rights_append, lefts_cons, rights_cons, lefts_gone, rights_gone]
      constructor
      · rw [List.append_assoc, List.append_assoc, List.take_append_drop, List.take_append_drop]
      · simp

theorem alignsOf_gone (l : Str) (k : Nat) : alignsOf (l.map (fun c => (([c], []) : Str × Str))) k = [] := by
  have := length_alignsOf (l.map (fun c => (([c], []) : Str × Str))) k
  rw [rights_gone] at this
  exact List.length_eq_zero_iff.mp this

/-- The place where inserted text is put after `m` characters of `cs`. -/
def insertPlace (cs : Str) (m : Nat) : Int × Int := if m = 0 then (0, 0) else charRange cs (m - 1)

/-- The last block is the last used character, or nothing has been used. -/
def LastIs (cs : Str) (m : Nat) (acc : List (Str × Str)) : Prop :=
  lefts acc = cs.take m ∧ ((acc = [] ∧ m = 0) ∨ ∃ as b, acc = as ++ [b] ∧
    insertPlace cs m = (((blen (lefts as) : Nat) : Int), ((blen (lefts as) + blen b.1 : Nat) : Int)))

theorem addLast_aligns {cs : Str} {m : Nat} {acc : List (Str × Str)} (h : LastIs cs m acc) (t : Str) :
    alignsOf (addLast acc t) 0 = alignsOf acc 0 ++ List.replicate (blen t) (insertPlace cs m) ∧
      LastIs cs m (addLast acc t) := by
  obtain ⟨h1, h2⟩ := h
  rcases h2 with ⟨rfl, rfl⟩ | ⟨as, b, rfl, h2⟩
  · have e : addLast [] t = [([], t)] := rfl
    rw [e]
    refine ⟨?_, by simp [lefts], .inr ⟨[], ([], t), rfl, by simp [insertPlace, lefts, blen]⟩⟩
    simp [alignsOf, insertPlace, blen]
  · have e : addLast (as ++ [b]) t = as ++ [(b.1, b.2 ++ t)] := by unfold addLast; simp
    rw [e]
    refine ⟨?_, ?_, .inr ⟨as, (b.1, b.2 ++ t), rfl, h2⟩⟩
    · rw [alignsOf_append, alignsOf_append, h2, List.append_assoc]
      congr 1
      simp [alignsOf, ← List.replicate_append_replicate]
    · rw [← h1]; simp [lefts]

theorem changeBlocks_aligns (cs : Str) (items : List (Str × Int)) : ∀ (m : Nat) (acc : List (Str × Str)),
    m + usesAll items ≤ cs.length → LastIs cs m acc →
    alignsOf (changeBlocks acc (cs.drop m) items) 0 = alignsOf acc 0 ++ sources cs m items := by
  induction items with
  | nil =>
    intro m acc _ _
    simp only [changeBlocks]
    rw [alignsOf_append, alignsOf_gone]
    rfl
  | cons item items ih =>
    obtain ⟨t, ch⟩ := item
    intro m acc hm hl
    rw [usesAll_cons] at hm
    simp only at hm
    rw [changeBlocks, sources]
    by_cases hp : ch > 0
    · obtain ⟨e1, e2⟩ := addLast_aligns hl t
      have hu : uses ch = 0 := by unfold uses; rw [if_pos hp]
      rw [if_pos hp, if_pos hp, hu, Nat.add_zero, ih m _ (by omega) e2, e1, List.append_assoc]
      rfl
    · have hu : uses ch = 1 + (-ch).toNat := by unfold uses; rw [if_neg hp]
      rw [if_neg hp, if_neg hp]
      have hlt : m < cs.length := by omega
      have hd : cs.drop m = cs[m] :: cs.drop (m + 1) := by rw [List.getElem_cons_drop]
      rw [hd, List.take_succ_cons, List.take_zero, List.drop_succ_cons, List.drop_zero, List.drop_drop, show m + 1 + (-ch).toNat = m + uses ch by omega]
      have htk : cs.take (m + 1) = cs.take m ++ [cs[m]] := by
        rw [List.take_add_one, List.getElem?_eq_getElem hlt]; rfl
      have hblen : blen (cs.take (m + 1)) = blen (cs.take m) + (cs[m]).utf8Size := by
        rw [List.take_add_one, List.getElem?_eq_getElem hlt, blen_append]; simp
      rw [ih (m + uses ch) _ (by omega) ?_]
      · rw [alignsOf_append, alignsOf, alignsOf_gone, List.append_nil, hl.1, List.append_assoc]
        congr 3
        simp only [charRange, hblen, Nat.zero_add, blen_cons, blen_nil, Nat.add_zero]
      · constructor
        · rw [lefts_append, lefts_cons, lefts_gone, hl.1, hu, show m + (1 + (-ch).toNat) = m + 1 + (-ch).toNat by omega,
            List.take_add (l := cs) (i := m + 1), htk, List.append_assoc]
        · right
          rcases List.eq_nil_or_concat ((cs.drop (m + 1)).take (-ch).toNat) with h0 | ⟨l, r, h0⟩
          · refine ⟨acc, ([cs[m]], t), by rw [h0]; rfl, ?_⟩
            have hz : (-ch).toNat = 0 := by
              have := congrArg List.length h0
              rw [List.length_take, List.length_drop, List.length_nil] at this
              omega
            unfold insertPlace
            rw [if_neg (by omega), hu, hz, hl.1]
            simp only [Nat.add_sub_cancel, charRange, hblen]
            simp
          · refine ⟨acc ++ ([cs[m]], t) :: l.map (fun r => ([r], [])), ([r], []), by rw [h0]; simp, ?_⟩
            have hk : (-ch).toNat = l.length + 1 := by
              have := congrArg List.length h0
              rw [List.length_take, List.length_drop, List.length_concat] at this
              omega
            unfold insertPlace
            rw [if_neg (by omega), hu, hk, lefts_append, lefts_cons, lefts_gone, hl.1]
            have hl2 : cs.take (m + 1 + (l.length + 1)) = cs.take m ++ cs[m] :: l ++ [r] := by
              rw [List.take_add, ← hk, h0, htk, List.concat_eq_append, ← List.append_assoc, List.append_assoc (cs.take m)]
              rfl
            have hl1 : cs.take (m + 1 + l.length) = cs.take m ++ cs[m] :: l := by
              have e := congrArg (List.take (m + 1 + l.length)) hl2
              rw [List.take_take, Nat.min_eq_left (by omega), List.take_left' (by simp; omega)] at e
              exact e
            simp only [charRange, show m + (1 + (l.length + 1)) - 1 = m + 1 + l.length by omega]
            rw [show m + 1 + l.length + 1 = m + 1 + (l.length + 1) by omega, hl2, hl1]
            simp only [blen_append, blen_cons, blen_nil, List.singleton_append]

theorem fresh_transform {x : NStr} {m : Str} (hx : Fresh x m) (hz : '\x00' ∉ m) {items : List (Str × Int)}
    (hu : usesAll items ≤ m.length) : ∃ y, x.transform items 0 = .ok y ∧
      y.normalized = encStr (rights (changeBlocks [] m items)) ∧ y.aligns = alignsOf (changeBlocks [] m items) 0 ∧
      y.shift = x.shift := by
  have hw := hx.wf
  have ht := hx.text
  rw [transform_eq (hx.cover) hw.lenA]
  obtain ⟨y, h, ho, he⟩ := transformRange_ok hw (a := 0) (b := x.normalized.length) (items := items)
    (by omega) (by omega) (cs := m) (by rw [ht]; simp) hu
  refine ⟨y, h, ?_, ?_, (transformRange_places h).1⟩
  · have := ho.text
    rw [(changeBlocks_eq items [] m).2]
    simpa [show rights [] = [] from rfl] using this
  · rw [(he hz).1, ← hw.lenA]
    simp only [List.take_zero, List.nil_append, List.drop_length, List.append_nil]
    have h1 := sourcesAt_fresh m items 0 (by omega)
    have h2 := changeBlocks_aligns m items 0 [] (by omega) ⟨by simp [lefts], .inl ⟨rfl, rfl⟩⟩
    rw [List.drop_zero] at h2
    rw [h2, hx.aligns]
    simpa [alignsOf] using h1

theorem normalizeOrDie_ok {t : Tk} {f : NStr → Res NStr} (hf : t.normalizer = some f) {x y : NStr}
    (h : t.normalizeOrDie x = .ok y) : f x = .ok y := by
  unfold Tk.normalizeOrDie at h
  rw [hf] at h
  simp only at h
  split at h
  · next z hz => cases h; exact hz
  · cases h

/-! ### Properties -/

/-- **C112.** Without a normalizer every character is a block of its own. -/
theorem C112_none (t : Tk) (s : Str) (hn : t.normalizer = none) : Rewrites t s singles := by
  refine ⟨lefts_singles, ?_⟩
  intro u m x y hf hm h
  unfold Tk.normalizeOrDie at h
  rw [hn] at h
  cases h
  exact ⟨hf.2.1.toBlocks.text, hf.2.1.toBlocks.aligns, rfl⟩

/-- **C112.** A normalizer that gives `Transform` a change list which asks for no more characters than
there are: the blocks are those of the change list. -/
theorem C112_changes (t : Tk) (s : Str) (hz : '\x00' ∉ s) (items : Str → List (Str × Int))
    (hn : t.normalizer = some (fun n => n.transform (items (runes n.normalized)) 0))
    (hu : ∀ m, usesAll (items m) ≤ m.length) : Rewrites t s (fun m => changeBlocks [] m (items m)) := by
  refine ⟨fun m => by rw [(changeBlocks_eq _ _ _).1]; rfl, ?_⟩
  intro u m x y hf hm h
  obtain ⟨⟨v, rfl⟩, hx, _⟩ := hf
  have h := normalizeOrDie_ok hn h
  rw [hx.text, runes_encStr] at h
  obtain ⟨y', e1, e2⟩ := fresh_transform hx (by simp at hz; exact hz.2.1) (hu m)
  rw [e1] at h
  cases h
  exact e2

theorem changeBlocks_seg (c d : Char) (ds : Str) (rest : Str) (items : List (Str × Int)) (acc : List (Str × Str)) :
    changeBlocks acc (c :: rest) (segItems (d :: ds) ++ items) =
      changeBlocks (acc ++ [([c], d :: ds)]) rest items := by
  have key : ∀ (es ds : Str), changeBlocks (acc ++ [([c], ds)]) rest (es.map (fun c => ([c], (1 : Int))) ++ items) =
      changeBlocks (acc ++ [([c], ds ++ es)]) rest items := by
    intro es
    induction es with
    | nil => intro ds; simp
    | cons e es ih =>
      intro ds
      rw [List.map_cons, List.cons_append, changeBlocks, if_pos (by omega)]
      have : addLast (acc ++ [([c], ds)]) [e] = acc ++ [([c], ds ++ [e])] := by unfold addLast; simp
      rw [this, ih]
      simp
  rw [segItems, List.cons_append, changeBlocks, if_neg (by omega)]
  simpa using key ds [d]

/-- When the characters are decomposed one by one, each is a block with its decomposition. -/
theorem changeBlocks_segs (g : Char → Str) (m : Str) (hg : ∀ c ∈ m, g c ≠ []) : ∀ acc : List (Str × Str),
    changeBlocks acc m ((m.map g).flatMap segItems) = acc ++ m.map (fun c => ([c], g c)) := by
  induction m with
  | nil => intro acc; simp [changeBlocks]
  | cons c m ih =>
    intro acc
    rw [List.map_cons, List.flatMap_cons]
    obtain ⟨d, ds, hd⟩ : ∃ d ds, g c = d :: ds := by
      cases h : g c with
      | nil => exact absurd h (hg c (by simp))
      | cons d ds => exact ⟨d, ds, rfl⟩
    rw [hd, changeBlocks_seg, ih (fun c hc => hg c (by simp [hc])), ← hd]
    simp

theorem lefts_chars (g : Char → Str) (m : Str) : lefts (m.map (fun c => ([c], g c))) = m := by
  induction m with
  | nil => rfl
  | cons c m ih => rw [List.map_cons, lefts_cons, ih]; rfl

/-- **C112.** NFD, for a text without NUL whose characters are decomposed one by one: every character is
a block with its decomposition. -/
theorem C112_nfd_partial (t : Tk) (T : Tables) (s : Str) (hz : '\x00' ∉ s) (g : Char → Str) (hg : ∀ c ∈ s, g c ≠ [])
    (hn : t.normalizer = some (fun n => n.nfd T))
    (hT : ∀ u m v : Str, s = u ++ m ++ v → T.nfd (encStr m) = m.map g) :
    Rewrites t s (fun m => m.map (fun c => ([c], g c))) := by
  refine ⟨lefts_chars g, ?_⟩
  intro u m x y hf hm h
  obtain ⟨⟨v, hv⟩, hx, _⟩ := hf
  have hmem : ∀ c ∈ m, c ∈ s := by intro c hc; rw [hv]; simp [hc]
  have h := normalizeOrDie_ok hn h
  unfold NStr.nfd at h
  rw [hx.text, hT u m v hv] at h
  have hus : usesAll ((m.map g).flatMap segItems) = m.length := by
    rw [(seg_items (m.map g) (by
      intro a ha
      obtain ⟨c, hc, rfl⟩ := List.mem_map.mp ha
      exact hg c (hmem c hc))).2, List.length_map]
  obtain ⟨y', e1, e2⟩ := fresh_transform hx (fun h0 => hz (hmem _ h0)) (items := (m.map g).flatMap segItems) (by omega)
  rw [e1] at h
  cases h
  rw [changeBlocks_segs g m (fun c hc => hg c (hmem c hc))] at e2
  exact e2

theorem alignsOf_sizes (f : Str × Str → Str) (bs : List (Str × Str)) (h : ∀ b ∈ bs, blen (f b) = blen b.2) :
    ∀ k, alignsOf (bs.map (fun b => (b.1, f b))) k = alignsOf bs k := by
  induction bs with
  | nil => intro k; rfl
  | cons b bs ih =>
    intro k
    rw [List.map_cons, alignsOf, alignsOf, ih (fun b hb => h b (by simp [hb])), h b (by simp)]

theorem blen_map_same (g : Char → Char) (l : Str) (h : ∀ c ∈ l, (g c).utf8Size = c.utf8Size) : blen (l.map g) = blen l := by
  induction l with
  | nil => rfl
  | cons c l ih => rw [List.map_cons, blen_cons, blen_cons, h c (by simp), ih (fun c hc => h c (by simp [hc]))]

/-- **C112.** A change of case, alone or after a normalizer that rewrites block by block, of characters
that keep their sizes: the characters of the blocks change. -/
theorem C112_recase_partial (t : Tk) (s : Str) (f : List UInt8 → List UInt8) (g : Char → Char)
    (f0 : Option (NStr → Res NStr)) (G : Str → List (Str × Str)) (h0 : Rewrites { t with normalizer := f0 } s G)
    (hn : t.normalizer = some (fun n => do
      let n ← (match f0 with | none => .ok n | some f0 => f0 n)
      .ok (n.recase f)))
    (hf : ∀ u m v, s = u ++ m ++ v → f (encStr (rights (G m))) = encStr ((rights (G m)).map g))
    (hg : ∀ u m v, s = u ++ m ++ v → ∀ c ∈ rights (G m), (g c).utf8Size = c.utf8Size) :
    Rewrites t s (fun m => (G m).map (fun b => (b.1, b.2.map g))) := by
  constructor
  · intro m
    have := h0.lefts m
    rw [lefts, List.map_map]
    exact this
  · intro u m x y hfp hm h
    have h := normalizeOrDie_ok hn h
    obtain ⟨z, hz, h⟩ := Res.bind_eq_ok.mp h
    cases h
    have hz' : ({ t with normalizer := f0 } : Tk).normalizeOrDie x = .ok z := by
      unfold Tk.normalizeOrDie
      cases f0 with
      | none => exact hz
      | some f0 => simp only at hz ⊢; rw [hz]
    obtain ⟨e1, e2, e3⟩ := h0.norm u m x z hfp hm hz'
    obtain ⟨⟨v, hv⟩, _, _⟩ := hfp
    refine ⟨?_, ?_, e3⟩
    · have : rights ((G m).map (fun b => (b.1, b.2.map g))) = (rights (G m)).map g := by
        rw [rights, rights, List.map_map, List.map_flatten, List.map_map]
        rfl
      rw [this, ← hf u m v hv, ← e1]
      rfl
    · show z.aligns = _
      rw [e2, alignsOf_sizes (fun b => b.2.map g)]
      intro b hb
      refine blen_map_same g b.2 (fun c hc => hg u m v hv c ?_)
      rw [rights]
      exact List.mem_flatten.mpr ⟨b.2, List.mem_map.mpr ⟨b, hb, rfl⟩, hc⟩

/-- **C112.** A prefix of one character belongs to the first character of the text. -/
theorem C112_prepend_partial (t : Tk) (s : Str) (hz : '\x00' ∉ s) (r : Char)
    (hn : t.normalizer = some (fun n => n.prepend (encStr [r]))) :
    Rewrites t s (fun m => match m with | [] => [] | c :: m => ([c], [r, c]) :: singles m) := by
  constructor
  · intro m
    cases m with
    | nil => rfl
    | cons c m => simp only; rw [lefts_cons, lefts_singles]; rfl
  · intro u m x y hf hm h
    obtain ⟨⟨v, hv⟩, hx, _⟩ := hf
    have h := normalizeOrDie_ok hn h
    cases m with
    | nil => exact absurd rfl hm
    | cons c m =>
      obtain ⟨y', e1, e2, e3⟩ := prepend_fresh hx (by rintro rfl; exact hz (by rw [hv]; simp)) r
      rw [e1] at h
      cases h
      exact ⟨e2.text, e2.aligns, e3⟩

/-! ### Example -/

/-- Decomposes "é" and cuts at spaces; the model gives the text of a piece as one token. -/
def originTk : Tk :=
  { splitRe := ⟨[], fun _ => []⟩, splitNormalizedRe := ⟨[], fun _ => []⟩
    normalizer := some (fun n => n.nfd ⟨fun _ => false, fun _ => false, fun _ => false, id,
      fun bs => (runes bs).map (fun c => if c = 'é' then ['e', '́'] else [c]), fun _ => [], fun _ => false,
      fun _ => false, fun _ => false⟩)
    preTokenizer := some (delimiterSplit ' ')
    model := some (wordLevelModel (fun _ => some 1) ['?']) }

/-- The hypotheses of C112 for `originTk`, and an encoding: the second word has two bytes more after
normalizing, and offsets in the text as it was. -/
example : Rewrites originTk ['é', ' ', 'é', 'a'] (fun m => m.map (fun c => ([c], if c = 'é' then ['e', '́'] else [c]))) ∧
    ProperSet originTk.splitRe ∧ (∀ p, originTk.preTokenizer = some p → LibPre true p) ∧
    (originTk.encodeSingle (.raw (encStr ['é', ' ', 'é', 'a'])) 0 .byte).bind (fun e => .ok (e.tokens, e.offsets)) =
      .ok ([['e', '́'], ['e', '́', 'a']], [(0, 2), (3, 6)]) := by
  refine ⟨?_, ?_, ?_, by decide +kernel⟩
  · refine C112_nfd_partial originTk _ _ (by decide) _ ?_ rfl ?_
    · intro c hc; split <;> simp
    · intro u m v _
      simp only [runes_encStr]
  · intro m hm p hp; cases hp
  · rintro p ⟨⟩; exact .delimiter true _

end Tok.PreTok
