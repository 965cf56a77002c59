import Verif.PreTok.Decompose
import Verif.PreTok.PropsOriginNorm

/-!
# C112: characters removed behind a normalizer that rewrites block by block
-/

namespace Tok.PreTok

open Tok.Norm

/-! ### The alignments of the characters that stay -/

/-- The alignments of the bytes of the characters that stay. -/
def keepAls (al : List (Int × Int)) (fn : Char → Bool) : Nat → Str → List (Int × Int)
  | _, [] => []
  | i, c :: cs => (if fn c then List.replicate c.utf8Size (al[i]?.getD (0, 0)) else []) ++ keepAls al fn (i + c.utf8Size) cs

theorem keepAls_append (al : List (Int × Int)) (fn : Char → Bool) (a b : Str) : ∀ i,
    keepAls al fn i (a ++ b) = keepAls al fn i a ++ keepAls al fn (i + blen a) b := by
  induction a with
  | nil => intro i; rfl
  | cons c a ih => intro i; rw [List.cons_append, keepAls, keepAls, ih, List.append_assoc, blen_cons, Nat.add_assoc]

theorem filterLoop_sources (al : List (Int × Int)) (fn : Char → Bool) (i : Nat) : ∀ (n : Nat) (pre : Str), pre.length = n →
    ∀ (gone post : Str) (acc : List (Str × Int)), (filterLoop fn pre.reverse gone.length acc).2 = 0 →
    sourcesAt al i (pre ++ gone ++ post) (filterLoop fn pre.reverse gone.length acc).1 =
      keepAls al fn i pre ++ sourcesAt al (i + blen (pre ++ gone)) post acc := by
  intro n
  induction n with
  | zero =>
    intro pre hn gone post acc h
    have : pre = [] := List.length_eq_zero_iff.mp hn
    subst this
    have h' : gone.length = 0 := h
    have : gone = [] := List.length_eq_zero_iff.mp h'
    subst this
    simp [filterLoop, keepAls]
  | succ n ih =>
    intro pre hn gone post acc h
    obtain ⟨u, x, rfl⟩ : ∃ u x, pre = u ++ [x] := by
      rcases List.eq_nil_or_concat pre with h | ⟨d, x, h⟩
      · subst h; simp at hn
      · exact ⟨d, x, by simp [h]⟩
    have hlen : u.length = n := by simp at hn; exact hn
    rw [List.reverse_append, List.reverse_singleton, List.singleton_append, filterLoop] at h ⊢
    by_cases hx : fn x = true
    · rw [if_pos hx] at h ⊢
      by_cases hr : gone.length > 0
      · rw [if_pos hr] at h ⊢
        have := ih u hlen [] (x :: gone ++ post) (([x], -(gone.length : Int)) :: acc) h
        rw [show u ++ [x] ++ gone ++ post = u ++ [] ++ (x :: gone ++ post) by simp]
        rw [show (0 : Nat) = ([] : Str).length from rfl, this, sourcesAt, if_neg (by omega)]
        have hus : uses (-(gone.length : Int)) = 1 + gone.length := by
          unfold uses; rw [if_neg (by omega)]; omega
        rw [hus, keepAls_append, keepAls, if_pos hx, keepAls, List.append_nil, List.append_nil,
          show 1 + gone.length = (x :: gone).length by simp +arith, List.take_left, List.drop_left,
          List.append_assoc]
        simp [blen_append, Nat.add_assoc]
      · rw [if_neg hr] at h ⊢
        have hg : gone = [] := List.length_eq_zero_iff.mp (by omega)
        subst hg
        have := ih u hlen [] (x :: post) (([x], 0) :: acc) h
        rw [show u ++ [x] ++ [] ++ post = u ++ [] ++ (x :: post) by simp]
        rw [this, sourcesAt, if_neg (by omega)]
        rw [show uses 0 = 1 by simp [uses], keepAls_append, keepAls, if_pos hx, keepAls]
        simp [blen_append, Nat.add_assoc]
    · rw [if_neg hx] at h ⊢
      have := ih u hlen (x :: gone) post acc h
      rw [show u ++ [x] ++ gone ++ post = u ++ (x :: gone) ++ post by simp]
      rw [show gone.length + 1 = (x :: gone).length from rfl, this, keepAls_append, keepAls, if_neg hx, keepAls]
      simp

/-- Blocks that lose characters. -/
def keepBlocks (fn : Char → Bool) (bs : List (Str × Str)) : List (Str × Str) := bs.map (fun b => (b.1, b.2.filter fn))

theorem lefts_keep (fn : Char → Bool) (bs : List (Str × Str)) : lefts (keepBlocks fn bs) = lefts bs := by
  simp [lefts, keepBlocks, Function.comp_def]

theorem rights_keep (fn : Char → Bool) (bs : List (Str × Str)) : rights (keepBlocks fn bs) = (rights bs).filter fn := by
  simp [rights, keepBlocks, Function.comp_def, List.filter_flatten]

theorem keepAls_block (al : List (Int × Int)) (fn : Char → Bool) (p : Int × Int) (r : Str) : ∀ i,
    (∀ j, i ≤ j → j < i + blen r → al[j]? = some p) → keepAls al fn i r = List.replicate (blen (r.filter fn)) p := by
  induction r with
  | nil => intro i _; rfl
  | cons c r ih =>
    intro i h
    have hp := c.utf8Size_pos
    rw [blen_cons] at h
    rw [keepAls, ih _ (fun j h1 h2 => h j (by omega) (by omega)), h i (by omega) (by omega)]
    by_cases hc : fn c = true
    · rw [if_pos hc, List.filter_cons_of_pos hc, blen_cons, ← List.replicate_append_replicate]; rfl
    · rw [if_neg hc, List.filter_cons_of_neg hc]; rfl

theorem keepAls_blocks (fn : Char → Bool) (bs : List (Str × Str)) : ∀ (as : List (Str × Str)),
    keepAls (alignsOf (as ++ bs) 0) fn (blen (rights as)) (rights bs) = alignsOf (keepBlocks fn bs) (blen (lefts as)) := by
  induction bs with
  | nil => intro as; rfl
  | cons b bs ih =>
    intro as
    have h := ih (as ++ [b])
    rw [List.append_assoc, List.singleton_append] at h
    rw [rights_cons, keepAls_append, show blen (rights as) + blen b.2 = blen (rights (as ++ [b])) by
      rw [rights_append, blen_append]; simp [rights], h]
    show _ = alignsOf ((b.1, b.2.filter fn) :: keepBlocks fn bs) _
    rw [alignsOf]
    congr 1
    · apply keepAls_block
      intro j h1 h2
      rw [alignsOf_append, Nat.zero_add, List.getElem?_append_right (by rw [length_alignsOf]; exact h1), length_alignsOf,
        alignsOf, List.getElem?_append_left (by rw [List.length_replicate]; omega), List.getElem?_replicate,
        if_pos (by omega)]
    · congr 1
      rw [lefts_append, blen_append]; simp [lefts]

/-! ### Properties -/

/-- The normalizer makes the blocks `G m` of a part `m` of the text, aligned in both directions, or fails. -/
structure Makes (t : Tk) (s : Str) (G : Str → List (Str × Str)) : Prop where
  lefts : ∀ m, lefts (G m) = m
  norm : ∀ u m x y, FPart s u m x → m ≠ [] → t.normalizeOrDie x = .ok y → Blocks y (G m) ∧ y.shift = x.shift

theorem Makes.rewrites {t : Tk} {s : Str} {G : Str → List (Str × Str)} (h : Makes t s G) : Rewrites t s G :=
  ⟨h.lefts, fun u m x y hf hm hy => ⟨(h.norm u m x y hf hm hy).1.text, (h.norm u m x y hf hm hy).1.aligns,
    (h.norm u m x y hf hm hy).2⟩⟩

/-- **C112.** NFD, for a text without NUL whose characters are decomposed one by one: the alignments in
both directions. -/
theorem C112_nfd_blocks_partial (t : Tk) (T : Tables) (s : Str) (hz : '\x00' ∉ s) (g : Char → Str) (hg : ∀ c ∈ s, g c ≠ [])
    (hn : t.normalizer = some (fun n => n.nfd T))
    (hT : ∀ u m v : Str, s = u ++ m ++ v → T.nfd (encStr m) = m.map g) :
    Makes t s (fun m => m.map (fun c => ([c], g c))) := by
  refine ⟨lefts_chars g, ?_⟩
  intro u m x y hf hm h
  obtain ⟨⟨v, hv⟩, hx, _⟩ := hf
  have hmem : ∀ c ∈ m, c ∈ s := by intro c hc; rw [hv]; simp [hc]
  have h := normalizeOrDie_ok hn h
  unfold NStr.nfd at h
  rw [hx.text, hT u m v hv] at h
  obtain ⟨y', e1, e2⟩ := fresh_segs hx (fun h0 => hz (hmem _ h0)) g (fun c hc => hg c (hmem c hc))
  rw [e1] at h
  cases h
  exact e2

/-- `f0`, if there is one, and then `f1`. -/
def andThen (f0 : Option (NStr → Res NStr)) (f1 : NStr → Res NStr) (n : NStr) : Res NStr :=
  (match f0 with | none => (.ok n : Res NStr) | some f0 => f0 n).bind f1

theorem andThen_ok {t : Tk} {f0 : Option (NStr → Res NStr)} {f1 : NStr → Res NStr} (hn : t.normalizer = some (andThen f0 f1))
    {x y : NStr} (h : t.normalizeOrDie x = .ok y) :
    ∃ z, ({ t with normalizer := f0 } : Tk).normalizeOrDie x = .ok z ∧ f1 z = .ok y := by
  have h := normalizeOrDie_ok hn h
  obtain ⟨z, hz, h⟩ := Res.bind_eq_ok.mp h
  refine ⟨z, ?_, h⟩
  unfold Tk.normalizeOrDie
  cases f0 with
  | none => exact hz
  | some f0 => simp only at hz ⊢; rw [hz]

/-- **C112.** A change of case of characters that keep their sizes, behind a normalizer that makes blocks:
the alignments in both directions stay. -/
theorem C112_recase_blocks_partial (t : Tk) (s : Str) (f : List UInt8 → List UInt8) (g : Char → Char)
    (f0 : Option (NStr → Res NStr)) (G : Str → List (Str × Str)) (h0 : Makes { t with normalizer := f0 } s G)
    (hn : t.normalizer = some (andThen f0 (fun n => .ok (n.recase f))))
    (hf : ∀ u m v, s = u ++ m ++ v → f (encStr (rights (G m))) = encStr ((rights (G m)).map g))
    (hg : ∀ u m v, s = u ++ m ++ v → ∀ c ∈ rights (G m), (g c).utf8Size = c.utf8Size) :
    Makes t s (fun m => (G m).map (fun b => (b.1, b.2.map g))) := by
  refine ⟨fun m => by have := h0.lefts m; rw [lefts, List.map_map]; exact this, ?_⟩
  intro u m x y hfp hm h
  obtain ⟨z, hz, h⟩ := andThen_ok hn h
  cases h
  obtain ⟨hb, hs⟩ := h0.norm u m x z hfp hm hz
  obtain ⟨⟨v, hv⟩, _, _⟩ := hfp
  have hsz : ∀ b ∈ G m, blen (b.2.map g) = blen b.2 := by
    intro b hb
    refine blen_map_same g b.2 (fun c hc => hg u m v hv c ?_)
    rw [rights]
    exact List.mem_flatten.mpr ⟨b.2, List.mem_map.mpr ⟨b, hb, rfl⟩, hc⟩
  have hr : rights ((G m).map (fun b => (b.1, b.2.map g))) = (rights (G m)).map g := by
    rw [rights, rights, List.map_map, List.map_flatten, List.map_map]
    rfl
  refine ⟨⟨?_, ?_, ?_, ?_, ?_, hb.refs⟩, hs⟩
  · intro b hb'
    obtain ⟨b0, hb0, rfl⟩ := List.mem_map.mp hb'
    have := hb.ne b0 hb0
    exact ⟨this.1, by simpa using this.2⟩
  · rw [hr, ← hf u m v hv, ← hb.text]; rfl
  · have : lefts ((G m).map (fun b => (b.1, b.2.map g))) = lefts (G m) := by rw [lefts, List.map_map]; rfl
    rw [this]; exact hb.original
  · rw [alignsOf_sizes (fun b => b.2.map g) _ hsz]; exact hb.aligns
  · have key : ∀ (bs : List (Str × Str)), (∀ b ∈ bs, blen (b.2.map g) = blen b.2) → ∀ k,
        alignsOf ((bs.map (fun b => (b.1, b.2.map g))).map Prod.swap) k = alignsOf (bs.map Prod.swap) k := by
      intro bs
      induction bs with
      | nil => intro _ k; rfl
      | cons b bs ih =>
        intro hb k
        simp only [List.map_cons, alignsOf, Prod.swap, hb b (by simp)]
        rw [ih (fun b hb' => hb b (by simp [hb']))]
    rw [key _ hsz]; exact hb.alignsO

/-- **C112.** Characters are removed, for instance accents, behind a normalizer that makes blocks, and the
first character is none of them: a block loses the characters that are removed, the characters that stay
stand for what they stood for. -/
theorem C112_remove_partial (t : Tk) (s : Str) (fn : Char → Bool)
    (f0 : Option (NStr → Res NStr)) (G : Str → List (Str × Str)) (h0 : Makes { t with normalizer := f0 } s G)
    (hn : t.normalizer = some (andThen f0 (fun n => n.filter fn)))
    (hz : ∀ u m v, s = u ++ m ++ v → '\x00' ∉ rights (G m) ∧ ∀ c ∈ (rights (G m)).head?, fn c = true) :
    Rewrites t s (fun m => keepBlocks fn (G m)) := by
  refine ⟨fun m => by rw [lefts_keep, h0.lefts], ?_⟩
  intro u m x y hfp hm h
  obtain ⟨z, hzz, h⟩ := andThen_ok hn h
  obtain ⟨hb, hs⟩ := h0.norm u m x z hfp hm hzz
  obtain ⟨⟨v, hv⟩, _, _⟩ := hfp
  obtain ⟨hnul, hfirst⟩ := hz u m v hv
  have hw := hb.wf
  obtain ⟨f1, f2, f3⟩ := filter_items fn (rights (G m))
  have hr0 : (filterLoop fn (rights (G m)).reverse 0 []).2 = 0 := by
    rw [f3]
    cases hr : rights (G m) with
    | nil => rfl
    | cons c ds => rw [hr] at hfirst; simp [hfirst c (by simp)]
  have h : z.filter fn = .ok y := h
  unfold NStr.filter at h
  rw [hb.text, runes_encStr] at h
  simp only at h
  rw [hr0] at h f2
  rw [transform_eq hb.cover hw.lenA] at h
  obtain ⟨y', e1, e2, e3⟩ := transformRange_ok hw (a := 0) (b := z.normalized.length)
    (items := (filterLoop fn (rights (G m)).reverse 0 []).1) (by omega) (by omega) (cs := rights (G m))
    (by rw [hb.text]; simp) (by omega)
  rw [e1] at h
  cases h
  refine ⟨?_, ?_, ?_⟩
  · rw [rights_keep, ← f1]
    have := e2.text
    simpa using this
  · rw [(e3 hnul).1, ← hw.lenA]
    simp only [List.take_zero, List.nil_append, List.drop_length, List.append_nil]
    have k1 := filterLoop_sources z.aligns fn 0 _ (rights (G m)) rfl [] [] [] hr0
    simp only [List.append_nil, List.length_nil, sourcesAt] at k1
    rw [k1, hb.aligns]
    exact keepAls_blocks fn (G m) []
  · rw [(transformRange_places e1).1, hs]

/-- A normalizer that does what another one does. -/
theorem Rewrites.of {t : Tk} {f f' : NStr → Res NStr} {s : Str} {G : Str → List (Str × Str)}
    (h : Rewrites { t with normalizer := some f' } s G) (hn : t.normalizer = some f)
    (hf : ∀ n y, f n = .ok y → f' n = .ok y) : Rewrites t s G := by
  refine ⟨h.lefts, fun u m x y hfp hm hy => h.norm u m x y hfp hm ?_⟩
  have := hf x y (normalizeOrDie_ok hn hy)
  unfold Tk.normalizeOrDie
  simp only
  rw [this]

theorem nfdLowerAccents_ok {T : Tables} {n y : NStr}
    (h : (Normalizer.sequence [.nfd, .default true false, .stripAccents]).normalize T (some n) = .ok (some y)) :
    ∃ x, n.nfd T = .ok x ∧ (x.recase T.lower).removeAccents T.mn = .ok y := by
  rw [Normalizer.normalize, Normalizer.normalizeAll, Normalizer.normalize] at h
  obtain ⟨o, h1, h⟩ := Res.bind_eq_ok.mp h
  obtain ⟨x, hx, h1⟩ := Res.bind_eq_ok.mp h1
  cases h1
  rw [Normalizer.normalizeAll, Normalizer.normalize] at h
  obtain ⟨o, h1, h⟩ := Res.bind_eq_ok.mp h
  simp only [if_true, Bool.false_eq_true, if_false] at h1
  cases h1
  rw [Normalizer.normalizeAll, Normalizer.normalize] at h
  obtain ⟨o, h1, h⟩ := Res.bind_eq_ok.mp h
  obtain ⟨w, hw, h1⟩ := Res.bind_eq_ok.mp h1
  cases h1
  rw [Normalizer.normalizeAll] at h
  cases h
  exact ⟨x, hx, hw⟩

/-- **C112.** The sequence of NFD, lowercase and strip accents. For a text without NUL whose characters are
decomposed one by one, `g c` being the decomposition of `c`, which begins with a character that is no
mark and `low` gives lower case of characters in as many bytes: every character of the text is a block
with its decomposition in lower case without marks. -/
theorem C112_accents_partial (t : Tk) (T : Tables) (f : NStr → Res NStr) (s : Str) (g : Char → Str) (low : Char → Char)
    (hn : t.normalizer = some f)
    (hf : ∀ n y, f n = .ok y →
      (Normalizer.sequence [.nfd, .default true false, .stripAccents]).normalize T (some n) = .ok (some y))
    (hg : ∀ c ∈ s, g c ≠ []) (hz : '\x00' ∉ s)
    (hT : ∀ u m v : Str, s = u ++ m ++ v → T.nfd (encStr m) = m.map g)
    (hl : ∀ m : Str, T.lower (encStr m) = encStr (m.map low))
    (hlow : ∀ c ∈ s, ∀ d ∈ g c, (low d).utf8Size = d.utf8Size ∧ low d ≠ '\x00')
    (hmark : ∀ c ∈ s, ∀ d ∈ (g c).head?, T.mn (low d) = false) :
    Rewrites t s (fun m => m.map (fun c => ([c], ((g c).map low).filter (fun d => !T.mn d)))) := by
  have h1 := C112_nfd_blocks_partial { t with normalizer := some (fun n => n.nfd T) } T s hz g hg rfl hT
  have hr : ∀ m : Str, rights (m.map (fun c => (([c], g c) : Str × Str))) = m.flatMap g := by
    intro m; simp [rights, List.flatMap, Function.comp_def]
  have hmem : ∀ u m v, s = u ++ m ++ v → ∀ c ∈ m, c ∈ s := by intro u m v hv c hc; rw [hv]; simp [hc]
  have h2 := C112_recase_blocks_partial { t with normalizer := some (andThen (some (fun n => n.nfd T)) (fun n => .ok (n.recase T.lower))) }
    s T.lower low _ _ h1 rfl (fun u m v _ => hl _) (by
      intro u m v hv c hc
      rw [hr] at hc
      obtain ⟨d, hd, hc⟩ := List.mem_flatMap.mp hc
      exact (hlow d (hmem u m v hv d hd) c hc).1)
  have h3 := C112_remove_partial
    { t with normalizer := some (andThen (some (andThen (some (fun n => n.nfd T)) (fun n => .ok (n.recase T.lower)))) (fun n => n.filter (fun d => !T.mn d))) }
    s (fun d => !T.mn d) _ _ h2 rfl (by
      intro u m v hv
      have hr2 : rights (((m.map (fun c => (([c], g c) : Str × Str)))).map (fun b => (b.1, b.2.map low))) = m.flatMap (fun c => (g c).map low) := by
        simp [rights, List.flatMap, Function.comp_def]
      rw [hr2]
      constructor
      · intro h
        obtain ⟨c, hc, h⟩ := List.mem_flatMap.mp h
        obtain ⟨d, hd, h⟩ := List.mem_map.mp h
        exact (hlow c (hmem u m v hv c hc) d hd).2 h
      · intro d hd
        cases m with
        | nil => simp at hd
        | cons c m =>
          have hc := hmem u _ v hv c (by simp)
          cases hgc : g c with
          | nil => exact absurd hgc (hg c hc)
          | cons e es =>
            rw [List.flatMap_cons, hgc] at hd
            simp at hd
            subst hd
            simp [hmark c hc e (by rw [hgc]; rfl)])
  have h4 := h3.of (t := t) hn (fun n y h => by
    obtain ⟨x, e1, e2⟩ := nfdLowerAccents_ok (hf n y h)
    simp only [andThen, e1]
    exact e2)
  have e : (fun m : Str => keepBlocks (fun d => !T.mn d) ((m.map (fun c => (([c], g c) : Str × Str))).map (fun b => (b.1, b.2.map low)))) =
      (fun m => m.map (fun c => ([c], ((g c).map low).filter (fun d => !T.mn d)))) := by
    funext m
    simp [keepBlocks, Function.comp_def]
  rw [← e]
  exact h4

/-! ### Example -/

/-- Decomposes "É", makes lower case of "E" and removes the accent, cuts at spaces. -/
def accentTables : Tables :=
  ⟨fun _ => false, fun c => c = '́', fun _ => false, fun bs => encStr ((runes bs).map (fun c => if c = 'E' then 'e' else c)),
    fun bs => (runes bs).map (fun c => if c = 'É' then ['E', '́'] else [c]), fun _ => [], fun _ => false,
    fun _ => false, fun _ => false⟩

def accentTk : Tk :=
  { splitRe := ⟨[], fun _ => []⟩, splitNormalizedRe := ⟨[], fun _ => []⟩
    normalizer := some (fun n => ((Normalizer.sequence [.nfd, .default true false, .stripAccents]).normalize accentTables (some n)).bind
      (fun o => match o with | some y => .ok y | none => .panic))
    preTokenizer := some (delimiterSplit ' ')
    model := some (wordLevelModel (fun _ => some 1) ['?']) }

/-- The text "aÉ Éb": two bytes are one, and the second word has the offsets of the text as it was. -/
example : Rewrites accentTk ['a', 'É', ' ', 'É', 'b']
      (fun m => m.map (fun c => ([c], (((if c = 'É' then ['E', '́'] else [c]) : Str).map (fun c => if c = 'E' then 'e' else c)).filter
        (fun d => !accentTables.mn d)))) ∧
    (accentTk.encodeSingle (.raw (encStr ['a', 'É', ' ', 'É', 'b'])) 0 .byte).bind (fun e => .ok (e.tokens, e.offsets)) =
      .ok ([['a', 'e'], ['e', 'b']], [(0, 3), (4, 7)]) := by
  refine ⟨?_, by decide +kernel⟩
  refine C112_accents_partial accentTk accentTables _ _ (fun c => if c = 'É' then ['E', '́'] else [c]) (fun c => if c = 'E' then 'e' else c)
    rfl ?_ (by decide) (by decide) ?_ ?_ (by decide +kernel) (by decide +kernel)
  · intro n y h
    obtain ⟨o, h1, h⟩ := Res.bind_eq_ok.mp h
    rw [h1]
    cases o with
    | some z => cases h; rfl
    | none => cases h
  · intro u m v _
    simp only [accentTables, runes_encStr]
  · intro m
    simp only [accentTables, runes_encStr]

end Tok.PreTok
