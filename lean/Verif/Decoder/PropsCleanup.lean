import Verif.Decoder.Props

/-!
# C39: clean-up of a token; the decoder that strips
-/

namespace Tok

/-- What clean-up draws to the word before. -/
def drawn : List Str :=
  [['.'], ['?'], ['!'], [','], ['n', '\'', 't'], ['\'', 'm'], ['\'', 's'], ['\'', 'v', 'e'], ['\'', 'r', 'e']]

theorem replaceNE_spaceless (p new w : Str) (h : ' ' ∉ w) : replaceNE (' ' :: p) new w = w := by
  induction w with
  | nil => simp [replaceNE]
  | cons c w ih =>
    rw [replaceNE, if_neg, ih (fun x => h (by simp [x]))]
    rintro ⟨_, hp⟩
    simp only [List.isPrefixOf, Bool.and_eq_true, beq_iff_eq] at hp
    exact h (by rw [hp.1]; simp)

theorem replaceNE_space (p new w : Str) (h : ' ' ∉ w) :
    replaceNE (' ' :: p) new (' ' :: w) = if p <+: w then new ++ w.drop p.length else ' ' :: w := by
  rw [replaceNE]
  have hiff : ((' ' :: p) ≠ [] ∧ (' ' :: p).isPrefixOf (' ' :: w) = true) ↔ p <+: w := by
    simp [List.isPrefixOf]
  by_cases hp : p <+: w
  · rw [if_pos (hiff.2 hp), if_pos hp, List.length_cons, List.drop_succ_cons,
      replaceNE_spaceless p new _ (fun x => h (List.mem_of_mem_drop x))]
  · rw [if_neg (fun x => hp (hiff.1 x)), if_neg hp, replaceNE_spaceless p new w h]

/-- One step that draws `p` to the word before. -/
theorem draw_step (p w : Str) (h : ' ' ∉ w) :
    replaceAll (' ' :: p) p w = w ∧
    replaceAll (' ' :: p) p (' ' :: w) = if p <+: w then w else ' ' :: w := by
  unfold replaceAll
  rw [if_neg (by simp), if_neg (by simp), replaceNE_spaceless p p w h, replaceNE_space p p w h]
  refine ⟨rfl, ?_⟩
  by_cases hp : p <+: w
  · rw [if_pos hp, if_pos hp]
    obtain ⟨r, rfl⟩ := hp
    simp
  · rw [if_neg hp, if_neg hp]

/-- A step whose pattern has a second space. -/
theorem other_step (p new w : Str) (hp : ' ' ∈ p) (h : ' ' ∉ w) :
    replaceAll (' ' :: p) new w = w ∧ replaceAll (' ' :: p) new (' ' :: w) = ' ' :: w := by
  unfold replaceAll
  rw [if_neg (by simp), if_neg (by simp), replaceNE_spaceless p new w h, replaceNE_space p new w h, if_neg]
  · exact ⟨rfl, rfl⟩
  · rintro ⟨r, rfl⟩
    exact h (by simp [hp])

/-- The replacements of `cleanupText`, in order, without the space each pattern begins with. -/
def steps : List (Str × Str) :=
  [(['.'], ['.']), (['?'], ['?']), (['!'], ['!']), ([','], [',']), (['\'', ' '], ['\'']),
    (['n', '\'', 't'], ['n', '\'', 't']), (['\'', 'm'], ['\'', 'm']),
    (['d', 'o', ' ', 'n', 'o', 't'], " don't".toList), (['\'', 's'], ['\'', 's']),
    (['\'', 'v', 'e'], ['\'', 'v', 'e']), (['\'', 'r', 'e'], ['\'', 'r', 'e'])]

theorem cleanupText_steps (t : Str) :
    cleanupText t = steps.foldl (fun o p => replaceAll (' ' :: p.1) p.2 o) t := by
  have h : [(" .", "."), (" ?", "?"), (" !", "!"), (" ,", ","), (" ' ", "'"), (" n't", "n't"), (" 'm", "'m"),
      (" do not", " don't"), (" 's", "'s"), (" 've", "'ve"), (" 're", "'re")].map
        (fun p : String × String => (p.1.toList, p.2.toList)) = steps.map (fun p => (' ' :: p.1, p.2)) := by
    decide +kernel
  have g : ∀ l : List (String × String), ∀ t : Str,
      l.foldl (fun o (p : String × String) => replaceAll p.1.toList p.2.toList o) t =
        (l.map (fun p : String × String => (p.1.toList, p.2.toList))).foldl
          (fun o (p : Str × Str) => replaceAll p.1 p.2 o) t := by
    intro l t; rw [List.foldl_map]
  rw [cleanupText, g, h, List.foldl_map]

theorem foldl_steps (w : Str) (h : ' ' ∉ w) (ss : List (Str × Str)) (hs : ∀ p ∈ ss, p.1 = p.2 ∨ ' ' ∈ p.1) :
    ss.foldl (fun o p => replaceAll (' ' :: p.1) p.2 o) w = w ∧
    ss.foldl (fun o p => replaceAll (' ' :: p.1) p.2 o) (' ' :: w) =
      if ∃ p ∈ ss, p.1 <+: w then w else ' ' :: w := by
  induction ss with
  | nil => simp
  | cons p ss ih =>
    obtain ⟨i1, i2⟩ := ih (fun q hq => hs q (List.mem_cons_of_mem _ hq))
    rw [List.foldl_cons, List.foldl_cons]
    rcases hs p List.mem_cons_self with hp | hp
    · obtain ⟨d1, d2⟩ := draw_step p.1 w h
      rw [← hp, d1, d2]
      refine ⟨i1, ?_⟩
      by_cases hw : p.1 <+: w
      · rw [if_pos hw, if_pos ⟨p, List.mem_cons_self, hw⟩, i1]
      · rw [if_neg hw, i2]
        congr 1
        simp [hw]
    · obtain ⟨d1, d2⟩ := other_step p.1 p.2 w hp h
      rw [d1, d2]
      refine ⟨i1, ?_⟩
      have hw : ¬ p.1 <+: w := fun ⟨r, hr⟩ => h (by rw [← hr]; simp [hp])
      rw [i2]
      congr 1
      simp [hw]

/-- C39 (clean-up): a token without a space in it stays as it is; of a space and such a token the space is dropped
exactly if the token begins with one of the marks `. ? ! ,` or the endings `n't 'm 's 've 're`. -/
theorem C39_cleanup (w : Str) (h : ' ' ∉ w) :
    cleanupText w = w ∧ cleanupText (' ' :: w) = if ∃ p ∈ drawn, p <+: w then w else ' ' :: w := by
  obtain ⟨a, b⟩ := foldl_steps w h steps (by decide +kernel)
  rw [cleanupText_steps, cleanupText_steps]
  refine ⟨a, b.trans ?_⟩
  congr 1
  have hd : drawn = (steps.filter (fun p => p.1 = p.2)).map Prod.fst := by decide +kernel
  rw [hd]
  apply propext
  constructor
  · rintro ⟨p, hp, hw⟩
    refine ⟨p.1, List.mem_map.2 ⟨p, List.mem_filter.2 ⟨hp, ?_⟩, rfl⟩, hw⟩
    have hg : ∀ p ∈ steps, p.1 = p.2 ∨ ' ' ∈ p.1 := by decide +kernel
    rcases hg p hp with e | e
    · simpa using e
    · exact absurd (List.IsPrefix.subset hw e) h
  · rintro ⟨q, hq, hw⟩
    obtain ⟨p, hp, rfl⟩ := List.mem_map.1 hq
    exact ⟨p, (List.mem_filter.1 hp).1, hw⟩

example : cleanupText " .".toList = ".".toList ∧ cleanupText " 'sun".toList = "'sun".toList ∧
    cleanupText " sun".toList = " sun".toList := by decide +kernel

/-! ### The WordPiece decoder with clean-up -/

/-- With clean-up each token of the result is cleaned on its own. -/
theorem wpDecode_clean (pre : Str) (f : Str → Str) (i : Nat) (ts : List Str) :
    wpDecode pre (some f) i ts = (wpDecode pre none i ts).map f := by
  induction ts generalizing i with
  | nil => rfl
  | cons t ts ih => simp only [wpDecode, List.map_cons, ih]

theorem clean_cont (pre : Str) : ∀ (ps : List Str) (i : Nat), 0 < i → (∀ p ∈ ps, ' ' ∉ p) →
    wpDecode pre (some cleanupText) i (ps.map (pre ++ ·)) = ps := by
  intro ps
  induction ps with
  | nil => intro _ _ _; rfl
  | cons p ps ih =>
    intro i hi h
    have hp : pre.isPrefixOf (pre ++ p) = true := by simp
    simp only [List.map_cons, wpDecode, hp, if_true]
    rw [if_pos (by omega), List.drop_left, (C39_cleanup p (h p List.mem_cons_self)).1,
      ih (i + 1) (by omega) (fun q hq => h q (List.mem_cons_of_mem _ hq))]

/-- A word after another one: with a space before it, unless its first piece begins with a mark or an ending. -/
def drawnTo (s : List Str) : Str := if ∃ p ∈ drawn, p <+: s.headD [] then s.flatten else ' ' :: s.flatten

theorem clean_words (pre : Str) : ∀ (segs : List (List Str)) (i : Nat), 0 < i →
    (∀ s ∈ segs, (∃ p ps, s = p :: ps ∧ pre.isPrefixOf p = false) ∧ ∀ p ∈ s, ' ' ∉ p) →
    (wpDecode pre (some cleanupText) i (segs.map (wordValues pre)).flatten).flatten =
      (segs.map drawnTo).flatten := by
  intro segs
  induction segs with
  | nil => intro _ _ _; rfl
  | cons s segs ih =>
    intro i hi h
    obtain ⟨⟨p, ps, rfl, hp⟩, hsp⟩ := h s List.mem_cons_self
    rw [List.map_cons, List.flatten_cons, wpDecode_append, List.flatten_append,
      ih _ (by omega) (fun s hs => h s (List.mem_cons_of_mem _ hs)), List.map_cons, List.flatten_cons]
    congr 1
    have h1 := (C39_cleanup p (hsp p List.mem_cons_self)).2
    have h2 := clean_cont pre ps (i + 1) (by omega) (fun q hq => hsp q (List.mem_cons_of_mem _ hq))
    have h3 : ¬ i = 0 := by omega
    simp only [wordValues, wpDecode, hp, ne_eq, h3, not_false_eq_true, if_true, h2]
    have h4 : drawnTo (p :: ps) = if ∃ q ∈ drawn, q <+: p then (p :: ps).flatten else ' ' :: (p :: ps).flatten := rfl
    rw [if_neg Bool.false_ne_true, h1, h4]
    by_cases hd : ∃ q ∈ drawn, q <+: p
    · rw [if_pos hd, if_pos hd, List.flatten_cons]
    · rw [if_neg hd, if_neg hd]; simp

/-- C39 (WordPiece with clean-up): words cut into pieces without spaces, the first piece of each not beginning with
the prefix, decode to the words separated by single spaces, but without a space before a word whose first piece
begins with one of the marks `. ? ! ,` or one of the endings `n't 'm 's 've 're`. -/
theorem C39_wordpiece (pre : Str) (w : List Str) (ws : List (List Str))
    (h : ∀ s ∈ w :: ws, (∃ p ps, s = p :: ps ∧ pre.isPrefixOf p = false) ∧ ∀ p ∈ s, ' ' ∉ p) :
    (newDecoder (fun ts => .ok (wpDecodeChain pre (some cleanupText) ts))).decode
        ((w :: ws).map (wordValues pre)).flatten = .ok (w.flatten ++ (ws.map drawnTo).flatten) := by
  rw [C39_decode (fun ts => .ok (wpDecodeChain pre (some cleanupText) ts)) _ _ rfl]
  congr 1
  obtain ⟨⟨p, ps, rfl, hp⟩, hsp⟩ := h w List.mem_cons_self
  unfold wpDecodeChain
  rw [List.map_cons, List.flatten_cons, wpDecode_append, List.flatten_append]
  simp only [wordValues, wpDecode, List.length_cons, List.length_map]
  rw [clean_words pre ws _ (by omega) (fun s hs => h s (List.mem_cons_of_mem _ hs)),
    clean_cont pre ps (0 + 1) (by omega) (fun q hq => hsp q (List.mem_cons_of_mem _ hq))]
  simp [(C39_cleanup p (hsp p List.mem_cons_self)).1]

/-- `DecodeChain` of `DefaultWordpieceDecoder` does so with the prefix `##`. -/
theorem C39_wordpiece_default (w : List Str) (ws : List (List Str))
    (h : ∀ s ∈ w :: ws, (∃ p ps, s = p :: ps ∧ "##".toList.isPrefixOf p = false) ∧ ∀ p ∈ s, ' ' ∉ p) :
    ∃ r, defaultWordpieceDecoder.chain ((w :: ws).map (wordValues "##".toList)).flatten = .ok r ∧
      r.flatten = w.flatten ++ (ws.map drawnTo).flatten := by
  have := C39_wordpiece "##".toList w ws h
  rw [C39_decode (fun ts => .ok (wpDecodeChain "##".toList (some cleanupText) ts)) _ _ rfl] at this
  injection this with this
  exact ⟨_, rfl, this⟩

/-- "yes", "!" and "don" as "do" and "##n". -/
example : (newDecoder (fun ts => .ok (wpDecodeChain ['#', '#'] (some cleanupText) ts))).decode
    [['y', 'e', 's'], ['!'], ['d', 'o'], ['#', '#', 'n'], ['n', '\'', 't']] =
    .ok ['y', 'e', 's', '!', ' ', 'd', 'o', 'n', 'n', '\'', 't'] := by
  have := C39_wordpiece ['#', '#'] [['y', 'e', 's']] [[['!']], [['d', 'o'], ['n']], [['n', '\'', 't']]] (by
    intro s hs
    simp only [List.mem_cons, List.not_mem_nil, or_false] at hs
    rcases hs with rfl | rfl | rfl | rfl <;> exact ⟨⟨_, _, rfl, rfl⟩, by decide⟩)
  refine Eq.trans this (congrArg Res.ok ?_)
  decide +kernel

/-! ### Strip -/

/-- C39 (Strip, the whole list; partial as `C39_strip_partial` is): every token is stripped, at most `start` content
characters before and at most `stop` after what else it holds, and the texts left over are put together. -/
theorem C39_strip_chain_partial (x : Char) (start stop : Nat) (ps : List (Nat × Str × Nat))
    (h : ∀ p ∈ ps, (∃ y, p.2.1.head? = some y ∧ y ≠ x) ∧ ∃ z, p.2.1.getLast? = some z ∧ z ≠ x) :
    (newDecoder (stripChain [x] start stop)).decode
        (ps.map fun p => List.replicate p.1 x ++ p.2.1 ++ List.replicate p.2.2 x) =
      .ok (ps.flatMap fun p => List.replicate (p.1 - start) x ++ p.2.1 ++ List.replicate (p.2.2 - stop) x) := by
  have hc : stripChain [x] start stop (ps.map fun p => List.replicate p.1 x ++ p.2.1 ++ List.replicate p.2.2 x) =
      .ok (ps.map fun p => List.replicate (p.1 - start) x ++ p.2.1 ++ List.replicate (p.2.2 - stop) x) := by
    induction ps with
    | nil => rfl
    | cons p ps ih =>
      obtain ⟨⟨y, hy, hyx⟩, z, hz, hzx⟩ := h p List.mem_cons_self
      rw [List.map_cons, stripChain, C39_strip_partial x start stop p.1 p.2.2 p.2.1 y z hy hyx hz hzx,
        ih (fun q hq => h q (List.mem_cons_of_mem _ hq))]
      rfl
  rw [C39_decode _ _ _ hc, List.flatMap_def]

example : (newDecoder (stripChain ['_'] 1 1)).decode [['_', '_', 'a', '_', 'b'], ['c', '_']] =
    .ok ['_', 'a', '_', 'b', 'c'] :=
  C39_strip_chain_partial '_' 1 1 [(2, ['a', '_', 'b'], 0), (0, ['c'], 1)] (by decide)

end Tok
