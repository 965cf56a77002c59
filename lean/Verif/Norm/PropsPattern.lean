import Verif.Norm.Pattern

/-! C43 and the span part of C44. -/

namespace Tok.Norm

/-- The spans follow each other without gap from `a` to `b`. -/
def Tiles : Nat → Nat → List Span → Prop
  | a, b, [] => a = b
  | a, b, m :: ms => m.start = a ∧ m.start ≤ m.stop ∧ Tiles m.stop b ms

/-- The text is cut into single characters that satisfy `fn` (flag `true`) and maximal runs of
characters that do not (flag `false`). -/
inductive FnCut (fn : Char → Bool) : Str → List (Str × Bool) → Prop
  | nil : FnCut fn [] []
  | hit (c : Char) (s : Str) (ps : List (Str × Bool)) : fn c = true → FnCut fn s ps →
      FnCut fn (c :: s) (([c], true) :: ps)
  | run (r s : Str) (ps : List (Str × Bool)) : r ≠ [] → (∀ c ∈ r, fn c = false) →
      (∀ c ∈ s.head?, fn c = true) → FnCut fn s ps → FnCut fn (r ++ s) ((r, false) :: ps)

/-- The spans of consecutive pieces, in bytes. -/
def spansAt : Nat → List (Str × Bool) → List Span
  | _, [] => []
  | a, (t, f) :: ps => ⟨a, a + blen t, f⟩ :: spansAt (a + blen t) ps

theorem fnLoop_run (fn : Char → Bool) (len : Nat) (r s : Str) (hr : ∀ c ∈ r, fn c = false)
    (a p : Nat) (hp : Bool) (hne : r ≠ []) :
    fnLoop fn len ((r ++ s).map (fun c => (some c, String.utf8EncodeChar c))) a p hp =
      fnLoop fn len (s.map (fun c => (some c, String.utf8EncodeChar c))) (a + blen r) p true := by
  induction r generalizing a hp with
  | nil => exact absurd rfl hne
  | cons c r ih =>
    have hc := hr c (by simp)
    rw [List.cons_append, List.map_cons, fnLoop]
    simp only [runeOf, Option.getD_some, hc, Bool.false_eq_true, if_false,
      String.length_utf8EncodeChar, blen_cons]
    cases r with
    | nil => simp
    | cons d r =>
      rw [ih (fun x hx => hr x (by simp [hx])) _ _ (by simp)]
      rw [Nat.add_assoc]

theorem fnCut_nil {fn : Char → Bool} {s : Str} {ps : List (Str × Bool)} (h : FnCut fn s ps)
    (hs : s = []) : ps = [] := by
  cases h with
  | nil => rfl
  | hit c s ps _ _ => cases hs
  | run r s ps hne _ _ _ => exact absurd (List.append_eq_nil_iff.mp hs).1 hne

theorem fnLoop_cut (fn : Char → Bool) (len : Nat) {s : Str} {ps : List (Str × Bool)}
    (h : FnCut fn s ps) : ∀ a, a + blen s = len →
    fnLoop fn len (s.map (fun c => (some c, String.utf8EncodeChar c))) a a false = spansAt a ps := by
  induction h with
  | nil => intro a _; simp [fnLoop, spansAt]
  | hit c s ps hc _ ih =>
    intro a ha
    rw [blen_cons] at ha
    rw [List.map_cons, fnLoop]
    simp only [runeOf, Option.getD_some, hc, if_true, Bool.false_eq_true, if_false, List.nil_append,
      String.length_utf8EncodeChar, spansAt, blen_cons, blen_nil, Nat.add_zero]
    rw [ih _ (by omega)]
  | run r s ps hne hr hs hcut ih =>
    intro a ha
    rw [blen_append] at ha
    rw [fnLoop_run fn len r s hr _ _ _ hne, spansAt]
    cases s with
    | nil =>
      have hps : ps = [] := fnCut_nil hcut rfl
      subst hps
      simp at ha
      simp [fnLoop, spansAt, ha]
    | cons c s =>
      have hc := hs c (by simp)
      have := ih (a + blen r) (by omega)
      rw [List.map_cons, fnLoop] at this ⊢
      simp only [runeOf, Option.getD_some, hc, if_true, Bool.false_eq_true, if_false, List.nil_append]
        at this ⊢
      rw [← this]
      rfl

theorem fnCut_exists (fn : Char → Bool) (s : Str) : ∃ ps, FnCut fn s ps := by
  have take : ∀ s : Str, ∃ r t, s = r ++ t ∧ (∀ c ∈ r, fn c = false) ∧ (∀ c ∈ t.head?, fn c = true) := by
    intro s
    induction s with
    | nil => exact ⟨[], [], rfl, by simp, by simp⟩
    | cons c s ih =>
      by_cases hc : fn c = true
      · exact ⟨[], c :: s, rfl, by simp, by simpa using hc⟩
      · obtain ⟨r, t, h1, h2, h3⟩ := ih
        refine ⟨c :: r, t, by simp [h1], ?_, h3⟩
        intro d hd
        rcases List.mem_cons.mp hd with rfl | hd
        · simpa using hc
        · exact h2 d hd
  generalize hn : s.length = n
  induction n using Nat.strongRecOn generalizing s with
  | _ n ih =>
    obtain ⟨r, t, h1, h2, h3⟩ := take s
    by_cases hr : r = []
    · subst hr
      cases t with
      | nil => subst h1; exact ⟨[], .nil⟩
      | cons c t =>
        subst h1
        obtain ⟨ps, hp⟩ := ih t.length (by simp at hn; omega) t rfl
        exact ⟨_, .hit c t ps (h3 c (by simp)) hp⟩
    · subst h1
      have := List.length_pos_iff.mpr hr
      obtain ⟨ps, hp⟩ := ih t.length (by simp at hn; omega) t rfl
      exact ⟨_, .run r t ps hr h2 h3 hp⟩

theorem spansAt_tiles (ps : List (Str × Bool)) (a : Nat) :
    Tiles a (a + blen (ps.map (·.1)).flatten) (spansAt a ps) := by
  induction ps generalizing a with
  | nil => simp [spansAt, Tiles]
  | cons p ps ih =>
    obtain ⟨t, f⟩ := p
    refine ⟨rfl, Nat.le_add_right _ _, ?_⟩
    have := ih (a + blen t)
    simp only [List.map_cons, List.flatten_cons, blen_append]
    rw [← Nat.add_assoc]
    exact this

theorem fnCut_flatten {fn : Char → Bool} {s : Str} {ps : List (Str × Bool)} (h : FnCut fn s ps) :
    (ps.map (·.1)).flatten = s := by
  induction h with
  | nil => rfl
  | hit c s ps _ _ ih => simp [ih]
  | run r s ps _ _ _ _ ih => simp [ih]

theorem blen_eq_zero {s : Str} : blen s = 0 ↔ s = [] := by
  cases s with
  | nil => simp
  | cons c s => have := c.utf8Size_pos; simp; omega

/-- C43 (function patterns): on a non-empty text the spans are those of its cut into single
matching characters and maximal runs of others. -/
theorem C43_fn (fn : Char → Bool) (s : Str) (hs : s ≠ []) (ps : List (Str × Bool))
    (h : FnCut fn s ps) : fnFind fn (encStr s) = spansAt 0 ps := by
  have : (encStr s).length ≠ 0 := by
    rw [length_encStr]; exact fun h => hs (blen_eq_zero.mp h)
  rw [fnFind, if_neg this, explode_encStr, fnLoop_cut fn _ h 0 (by rw [length_encStr]; omega)]

/-- C43 (tiling): for every text, the spans of a function or rune pattern follow each other from 0
to its length. -/
theorem C43_fn_tiles (fn : Char → Bool) (s : Str) : Tiles 0 (blen s) (fnFind fn (encStr s)) := by
  by_cases hs : s = []
  · subst hs; simp [fnFind, Tiles]
  · obtain ⟨ps, hp⟩ := fnCut_exists fn s
    rw [C43_fn fn s hs ps hp]
    have := spansAt_tiles ps 0
    rw [fnCut_flatten hp] at this
    simpa using this

/-- The matches a regular expression engine may return for a text of `len` bytes: in order, not
overlapping, inside the text; they may be empty. -/
def LegalMatches (len : Nat) : Nat → List (Nat × Nat) → Prop
  | _, [] => True
  | a, m :: ms => a ≤ m.1 ∧ m.1 ≤ m.2 ∧ m.2 ≤ len ∧ LegalMatches len m.2 ms

theorem reLoop_tiles (len : Nat) : ∀ (ms : List (Nat × Nat)) (a : Nat), LegalMatches len a ms →
    (∀ m ∈ ms.head?, m.1 = a) → a ≤ len → Tiles a len (reLoop len ms a) := by
  intro ms
  induction ms with
  | nil =>
    intro a _ _ hle
    rw [reLoop]
    split
    · exact ⟨rfl, hle, rfl⟩
    · show a = len; omega
  | cons m ms ih =>
    intro a hl hm0 hle
    have hm : m.1 = a := hm0 m (by simp)
    clear hm0
    obtain ⟨h1, h2, h3, h4⟩ := hl
    cases ms with
    | nil =>
      rw [reLoop]
      refine ⟨hm, h2, ?_⟩
      have := ih m.2 trivial (by simp) h3
      rwa [show a + (m.2 - m.1) = m.2 by omega]
    | cons next ms =>
      obtain ⟨h5, h6, h7, h8⟩ := h4
      rw [reLoop]
      split
      · refine ⟨hm, h2, rfl, h5, ?_⟩
        rw [show a + (m.2 - m.1) + (next.1 - m.2) = next.1 by omega]
        exact ih next.1 ⟨Nat.le_refl _, h6, h7, h8⟩ (by simp) (by omega)
      · next he =>
        refine ⟨hm, h2, ?_⟩
        rw [show a + (m.2 - m.1) = m.2 by omega]
        exact ih m.2 ⟨h5, h6, h7, h8⟩ (by simp; omega) h3

theorem reLoop_matches (len : Nat) : ∀ (ms : List (Nat × Nat)) (a : Nat),
    ((reLoop len ms a).filter (·.isMatch)).map (fun m => (m.start, m.stop)) = ms := by
  intro ms
  induction ms with
  | nil => intro a; rw [reLoop]; split <;> simp
  | cons m ms ih =>
    intro a
    cases ms with
    | nil => rw [reLoop]; simp [ih]
    | cons next ms =>
      rw [reLoop]
      split <;> simp [ih]

/-- The gaps are not empty. -/
theorem reLoop_gaps (len : Nat) (l : List (Nat × Nat)) : ∀ (b : Nat), LegalMatches len 0 l →
    ∀ m ∈ reLoop len l b, m.isMatch = false → m.start < m.stop := by
  induction l with
  | nil =>
    intro b _ m hm hf
    rw [reLoop] at hm
    split at hm
    · simp at hm; subst hm; assumption
    · simp at hm
  | cons x l ih =>
    intro b hl m hm hf
    obtain ⟨h1, h2, h3, h4⟩ := hl
    cases l with
    | nil =>
      rw [reLoop] at hm
      rcases List.mem_cons.mp hm with rfl | hm
      · simp at hf
      · exact ih _ trivial m hm hf
    | cons next l =>
      have h0 : LegalMatches len 0 (next :: l) := ⟨Nat.zero_le _, h4.2⟩
      rw [reLoop] at hm
      split at hm
      · next hne =>
        rcases List.mem_cons.mp hm with rfl | hm
        · simp at hf
        · rcases List.mem_cons.mp hm with rfl | hm
          · have := h4.1; show x.2 < next.1; omega
          · exact ih _ h0 m hm hf
      · rcases List.mem_cons.mp hm with rfl | hm
        · simp at hf
        · exact ih _ h0 m hm hf

/-- C43 (regular expressions and strings): for every answer of the engine the spans follow each
other from 0 to the length, the spans with the flag are exactly the matches, and no gap is
empty (unless there is no match at all). -/
theorem C43_regexp (len : Nat) (ms : List (Nat × Nat)) (h : LegalMatches len 0 ms) :
    Tiles 0 len (reFind len ms) ∧
    ((reFind len ms).filter (·.isMatch)).map (fun m => (m.start, m.stop)) = ms ∧
    (ms ≠ [] → ∀ m ∈ reFind len ms, m.isMatch = false → m.start < m.stop) := by
  cases ms with
  | nil => exact ⟨⟨rfl, Nat.zero_le _, rfl⟩, by simp [reFind], fun h => absurd rfl h⟩
  | cons m ms =>
    have h' : LegalMatches len m.1 (m :: ms) := ⟨Nat.le_refl _, h.2⟩
    rw [reFind]
    split
    · next hpos =>
      refine ⟨⟨rfl, Nat.zero_le _, ?_⟩, ?_, ?_⟩
      · exact reLoop_tiles len _ m.1 h' (by simp) (Nat.le_trans h.2.1 h.2.2.1)
      · simp [reLoop_matches]
      · intro _ x hx hf
        rcases List.mem_cons.mp hx with rfl | hx
        · exact hpos
        · exact reLoop_gaps len _ m.1 h x hx hf
    · next hpos =>
      have h0 : m.1 = 0 := by omega
      refine ⟨?_, reLoop_matches _ _ _, fun _ => reLoop_gaps len _ 0 h⟩
      exact reLoop_tiles len _ 0 h (by simp [h0]) (Nat.zero_le _)

/-- C43 (inversion): only the flags change, each to its opposite; inverting the result again
gives back the spans. -/
theorem C43_invert (p : Pat) (s : List UInt8) (ms : List Span) (h : p.find s = .ok ms)
    (hp : ∀ q, p ≠ .invert q) :
    ∃ ns, (Pat.invert p).find s = .ok ns ∧
      ns.map (fun m => (m.start, m.stop)) = ms.map (fun m => (m.start, m.stop)) ∧
      ns.map (·.isMatch) = ms.map (fun m => !m.isMatch) := by
  refine ⟨invertSpans ms, ?_, by simp [invertSpans], by simp [invertSpans]⟩
  cases p with
  | invert q => exact absurd rfl (hp q)
  | rune r => simp only [Pat.find, Res.ok.injEq] at h ⊢; simp [Res.bind, h]
  | fn f => simp only [Pat.find, Res.ok.injEq] at h ⊢; simp [Res.bind, h]
  | str t e => simp only [Pat.find] at h ⊢; rw [h]; rfl
  | regexp e => simp only [Pat.find] at h ⊢; rw [h]; rfl

/-- C43 fails for an inverted pattern that is inverted again: the process exits, for every
text. -/
theorem C43_double_invert_violated (p : Pat) (s : List UInt8) :
    (Pat.invert (.invert p)).find s = .panic := rfl

/-- C43 fails on invalid UTF-8: a single byte that starts no character and that the function
accepts (as U+FFFD) gives a span of three bytes. -/
theorem C43_invalid_bytes_violated (fn : Char → Bool) (b : UInt8) (hb : decodeRune [b] = none)
    (hf : fn '�' = true) : fnFind fn [b] = [⟨0, 3, true⟩] ∧ ¬ Tiles 0 1 (fnFind fn [b]) := by
  have h : fnFind fn [b] = [⟨0, 3, true⟩] := by
    have hx : explode [b] = [(none, [b])] := by
      rw [explode, hb]; simp [explode]
    have h3 : ('�' : Char).utf8Size = 3 := by decide
    rw [fnFind, if_neg (by simp), hx, fnLoop]
    simp only [runeOf, Option.getD_none, hf, if_true, h3]
    simp [fnLoop]
  refine ⟨h, ?_⟩
  rw [h]
  rintro ⟨_, _, h2⟩
  exact absurd h2 (by show ¬ (3 : Nat) = 1; decide)

example : decodeRune [0xFF] = none := by decide +kernel
example : fnFind (fun c => c == '-') (encStr "a-é--b".toList) =
    [⟨0, 1, false⟩, ⟨1, 2, true⟩, ⟨2, 4, false⟩, ⟨4, 5, true⟩, ⟨5, 6, true⟩, ⟨6, 7, false⟩] := by
  decide +kernel
example : LegalMatches 9 0 [(0, 2), (2, 3), (5, 5), (6, 7)] := by simp [LegalMatches]
example : reFind 9 [(2, 3), (5, 5), (6, 7)] = [⟨0, 2, false⟩, ⟨2, 3, true⟩, ⟨3, 5, false⟩,
    ⟨5, 5, true⟩, ⟨5, 6, false⟩, ⟨6, 7, true⟩, ⟨7, 9, false⟩] := by decide +kernel

/-! ### C44: which spans are kept -/

/-- Adjacent spans are joined into one piece when `join` says so; `s` is where the current piece
began. -/
def regroupFrom (join : Bool → Bool → Bool) (s : Nat) : Span → List Span → List (Nat × Nat)
  | m, [] => [(s, m.stop)]
  | m, m' :: ms =>
    if join m.isMatch m'.isMatch then regroupFrom join s m' ms
    else (s, m.stop) :: regroupFrom join m'.start m' ms

/-- The pieces made by joining adjacent spans. -/
def regroup (join : Bool → Bool → Bool) : List Span → List (Nat × Nat)
  | [] => []
  | m :: ms => regroupFrom join m.start m ms

/-- When a span and the next one are joined: a match with the text before it, a match with the
text after it, equal flags; `Isolated` joins nothing. -/
def joins : Behavior → Bool → Bool → Bool
  | .mergedWithPrevious, this, next => !this && next
  | .mergedWithNext, this, next => this && !next
  | .contiguous, this, next => this == next
  | _, _, _ => false

theorem setLastEnd_snoc (acc : List Span) (l : Span) (e : Nat) :
    setLastEnd (acc ++ [l]) e = acc ++ [{ l with stop := e }] := by
  simp [setLastEnd]

theorem setLastStart_snoc (acc : List Span) (l : Span) (e : Nat) :
    setLastStart (acc ++ [l]) e = acc ++ [{ l with start := e }] := by
  simp [setLastStart]

/-- All flags false, and these offsets. -/
def plain (l : List (Nat × Nat)) : List Span := l.map (fun p => ⟨p.1, p.2, false⟩)

theorem mwpLoop_eq (ms : List Span) (m : Span) (acc : List Span) (s : Nat) :
    mwpLoop ms m.isMatch (acc ++ [⟨s, m.stop, false⟩]) =
      acc ++ plain (regroupFrom (joins .mergedWithPrevious) s m ms) := by
  induction ms generalizing m acc s with
  | nil => simp [mwpLoop, regroupFrom, plain]
  | cons x ms ih =>
    rw [mwpLoop, regroupFrom]
    by_cases h : joins .mergedWithPrevious m.isMatch x.isMatch = true
    · have h' : (x.isMatch && !m.isMatch) = true := by
        simp only [joins] at h; rw [Bool.and_comm]; exact h
      rw [if_pos h', if_pos (by simp), if_pos h, setLastEnd_snoc]
      exact ih x acc s
    · have h' : ¬ (x.isMatch && !m.isMatch) = true := by
        simp only [joins] at h; rw [Bool.and_comm]; exact h
      rw [if_neg h', if_neg h]
      have := ih x (acc ++ [⟨s, m.stop, false⟩]) x.start
      rw [this]
      simp [plain]

theorem contLoop_eq (ms : List Span) (m : Span) (acc : List Span) (s : Nat) :
    contLoop ms m.isMatch (acc ++ [⟨s, m.stop, false⟩]) =
      acc ++ plain (regroupFrom (joins .contiguous) s m ms) := by
  induction ms generalizing m acc s with
  | nil => simp [contLoop, regroupFrom, plain]
  | cons x ms ih =>
    rw [contLoop, regroupFrom]
    by_cases h : joins .contiguous m.isMatch x.isMatch = true
    · have h' : (x.isMatch == m.isMatch) = true := by
        simp only [joins] at h; rw [beq_iff_eq] at h ⊢; exact h.symm
      rw [if_pos h', if_pos (by simp), if_pos h, setLastEnd_snoc]
      exact ih x acc s
    · have h' : ¬ (x.isMatch == m.isMatch) = true := by
        simp only [joins] at h; rw [beq_iff_eq] at h ⊢; exact fun e => h e.symm
      rw [if_neg h', if_neg h]
      have := ih x (acc ++ [⟨s, m.stop, false⟩]) x.start
      rw [this]
      simp [plain]

/-- The last piece can be cut off. -/
theorem regroup_split (join : Bool → Bool → Bool) (pre : List Span) (x : Span) :
    ∃ g s, ∀ e ms, regroup join (pre ++ { x with stop := e } :: ms) =
      g ++ regroupFrom join s { x with stop := e } ms := by
  have aux : ∀ (pre : List Span) (m : Span) (s0 : Nat), ∃ g s, ∀ e ms,
      regroupFrom join s0 m (pre ++ { x with stop := e } :: ms) =
        g ++ regroupFrom join s { x with stop := e } ms := by
    intro pre
    induction pre with
    | nil =>
      intro m s0
      by_cases h : join m.isMatch x.isMatch = true
      · exact ⟨[], s0, fun e ms => by simp [regroupFrom, h]⟩
      · exact ⟨[(s0, m.stop)], x.start, fun e ms => by simp [regroupFrom, h]⟩
    | cons y pre ih =>
      intro m s0
      by_cases h : join m.isMatch y.isMatch = true
      · obtain ⟨g, s, hg⟩ := ih y s0
        exact ⟨g, s, fun e ms => by rw [List.cons_append, regroupFrom, if_pos h, hg]⟩
      · obtain ⟨g, s, hg⟩ := ih y y.start
        exact ⟨(s0, m.stop) :: g, s, fun e ms => by
          rw [List.cons_append, regroupFrom, if_neg h, hg]; rfl⟩
  cases pre with
  | nil => exact ⟨[], x.start, fun e ms => rfl⟩
  | cons y pre =>
    obtain ⟨g, s, hg⟩ := aux pre y y.start
    exact ⟨g, s, fun e ms => hg e ms⟩

theorem mwnLoop_eq (pre : List Span) : ∀ (m : Span) (e : Nat) (acc : List Span),
    (mwnLoop pre.reverse m.isMatch (acc ++ [⟨m.start, e, false⟩])).reverse =
      plain (regroup (joins .mergedWithNext) (pre ++ [{ m with stop := e }])) ++ acc.reverse := by
  generalize hn : pre.length = n
  induction n generalizing pre with
  | zero =>
    intro m e acc
    have : pre = [] := List.length_eq_zero_iff.mp hn
    subst this
    simp [mwnLoop, regroup, regroupFrom, plain]
  | succ n ih =>
    intro m e acc
    obtain ⟨pre', x, rfl⟩ : ∃ pre' x, pre = pre' ++ [x] := by
      rcases List.eq_nil_or_concat pre with h | ⟨d, x, h⟩
      · subst h; simp at hn
      · exact ⟨d, x, by simp [h]⟩
    have hlen : pre'.length = n := by simp at hn; exact hn
    obtain ⟨g, s, hg⟩ := regroup_split (joins .mergedWithNext) pre' x
    have hx : ∀ l, pre' ++ [x] ++ l = pre' ++ { x with stop := x.stop } :: l := by intro l; simp
    rw [hx, hg]
    rw [List.reverse_append, List.reverse_singleton, List.singleton_append, mwnLoop]
    by_cases h : (x.isMatch && !m.isMatch) = true
    · rw [if_pos h, if_pos (by simp), setLastStart_snoc]
      have := ih pre' hlen x e acc
      rw [this, hg]
      simp [regroupFrom, joins, h]
    · rw [if_neg h]
      have := ih pre' hlen x x.stop (acc ++ [⟨m.start, e, false⟩])
      rw [this]
      have hgx := hg x.stop []
      rw [hgx]
      simp [regroupFrom, joins, h, plain]

/-- C44 (spans): the pieces are the spans with adjacent ones joined as the behaviour says;
`Removed` keeps exactly the spans without a match. -/
theorem C44_spans (b : Behavior) (ms : List Span) :
    keptSpans b ms =
      if b = .removed then (ms.filter (fun m => !m.isMatch)).map (fun m => (m.start, m.stop))
      else regroup (joins b) ms := by
  have hplain : ∀ l, ((plain l).filter (fun m => !m.isMatch)).map (fun m => (m.start, m.stop)) = l := by
    intro l
    induction l with
    | nil => rfl
    | cons p l ih => simp only [plain, List.map_cons] at ih ⊢; simp [ih]
  cases b with
  | removed => simp [keptSpans, behave]
  | isolated =>
    rw [if_neg (by simp)]
    have : ∀ (m : Span) (ms : List Span), regroupFrom (joins .isolated) m.start m ms =
        (m :: ms).map (fun m => (m.start, m.stop)) := by
      intro m ms
      induction ms generalizing m with
      | nil => rfl
      | cons x ms ih => rw [regroupFrom, if_neg (by simp [joins]), ih]; rfl
    have hk : ∀ l : List Span, keptSpans .isolated l = l.map (fun m => (m.start, m.stop)) := by
      intro l
      induction l with
      | nil => rfl
      | cons m l ih => simp only [keptSpans, behave, List.map_cons] at ih ⊢; simp [ih]
    rw [hk]
    cases ms with
    | nil => rfl
    | cons m ms => rw [regroup, this]
  | mergedWithPrevious =>
    rw [if_neg (by simp), keptSpans, behave]
    cases ms with
    | nil => rfl
    | cons m ms =>
      have h0 : mwpLoop (m :: ms) false [] = mwpLoop ms m.isMatch ([] ++ [⟨m.start, m.stop, false⟩]) := by
        rw [mwpLoop]; congr 1; split <;> simp
      rw [h0, mwpLoop_eq, List.nil_append, hplain]
      rfl
  | contiguous =>
    rw [if_neg (by simp), keptSpans, behave]
    cases ms with
    | nil => rfl
    | cons m ms =>
      have h0 : contLoop (m :: ms) false [] = contLoop ms m.isMatch ([] ++ [⟨m.start, m.stop, false⟩]) := by
        rw [contLoop]; congr 1; split <;> simp
      rw [h0, contLoop_eq, List.nil_append, hplain]
      rfl
  | mergedWithNext =>
    rw [if_neg (by simp), keptSpans, behave]
    rcases List.eq_nil_or_concat ms with h | ⟨pre, m, h⟩
    · subst h; rfl
    · rw [List.concat_eq_append] at h
      subst h
      have h0 : mwnLoop (pre ++ [m]).reverse false [] =
          mwnLoop pre.reverse m.isMatch ([] ++ [⟨m.start, m.stop, false⟩]) := by
        rw [List.reverse_append, List.reverse_singleton, List.singleton_append, mwnLoop]
        congr 1; split <;> simp
      rw [h0, mwnLoop_eq]
      simp only [List.reverse_nil, List.append_nil]
      rw [hplain]

/-- The pieces as byte strings. -/
def cutOut (s : List UInt8) (p : Nat × Nat) : List UInt8 := (s.take p.2).drop p.1

theorem cutOut_join (s : List UInt8) {a b c : Nat} (h1 : a ≤ b) (h2 : b ≤ c) :
    cutOut s (a, b) ++ cutOut s (b, c) = cutOut s (a, c) := by
  unfold cutOut
  dsimp only
  apply List.ext_getElem?
  intro i
  simp only [List.getElem?_append, List.getElem?_drop, List.getElem?_take, List.length_drop,
    List.length_take]
  by_cases hi : i < min b s.length - a
  · rw [if_pos hi, if_pos (by omega), if_pos (by omega)]
  · rw [if_neg hi]
    by_cases hb : b ≤ s.length
    · rw [show b + (i - (min b s.length - a)) = a + i by omega]
    · have : s.length ≤ a + i := by omega
      have h3 : s.length ≤ b + (i - (min b s.length - a)) := by omega
      rw [List.getElem?_eq_none this, List.getElem?_eq_none h3]
      simp

theorem regroupFrom_concat (join : Bool → Bool → Bool) (s : List UInt8) (b : Nat) :
    ∀ (ms : List Span) (m : Span) (a : Nat), a ≤ m.stop → Tiles m.stop b ms →
    ((regroupFrom join a m ms).map (cutOut s)).flatten = cutOut s (a, b) := by
  intro ms
  induction ms with
  | nil => intro m a _ h; have : m.stop = b := h; simp [regroupFrom, this]
  | cons x ms ih =>
    intro m a ha h
    obtain ⟨h1, h2, h3⟩ := h
    rw [regroupFrom]
    split
    · exact ih x a (by omega) h3
    · rw [List.map_cons, List.flatten_cons, ih x x.start h2 h3, ← h1]
      refine cutOut_join s (by omega) ?_
      exact Nat.le_trans h2 (tiles_le h3)
where
  tiles_le : ∀ {ms : List Span} {a b : Nat}, Tiles a b ms → a ≤ b
  | [], _, _, h => by have : _ = _ := h; omega
  | m :: ms, _, _, ⟨h1, h2, h3⟩ => by have := tiles_le h3; omega

/-- C44 (nothing lost): for spans that tile the string, the pieces of every behaviour but
`Removed` concatenate to the string, and those of `Removed` to the string without the matches. -/
theorem C44_concat (b : Behavior) (s : List UInt8) (ms : List Span) (h : Tiles 0 s.length ms) :
    (b ≠ .removed → ((keptSpans b ms).map (cutOut s)).flatten = s) ∧
    (b = .removed → ((keptSpans b ms).map (cutOut s)).flatten =
      (ms.map (fun m => if m.isMatch then [] else cutOut s (m.start, m.stop))).flatten) := by
  constructor
  · intro hb
    rw [C44_spans, if_neg hb]
    cases ms with
    | nil =>
      have : 0 = s.length := h
      have : s = [] := List.length_eq_zero_iff.mp this.symm
      subst this; rfl
    | cons m ms =>
      obtain ⟨h1, h2, h3⟩ := h
      rw [regroup, regroupFrom_concat _ _ s.length ms m m.start h2 h3, h1]
      simp [cutOut]
  · intro hb
    rw [C44_spans, if_pos hb]
    clear h
    induction ms with
    | nil => rfl
    | cons m ms ih =>
      rw [List.filter_cons]
      cases hm : m.isMatch with
      | true => simp only [Bool.not_true, Bool.false_eq_true, if_false, ih]; simp [hm]
      | false =>
        simp only [hm, Bool.not_false, if_true, List.map_cons, List.flatten_cons, ih]; simp

example : keptSpans .mergedWithPrevious (fnFind (fun c => c == '-') (encStr "the-f--c".toList)) =
    [(0, 4), (4, 6), (6, 7), (7, 8)] := by decide +kernel
example : keptSpans .mergedWithNext (fnFind (fun c => c == '-') (encStr "the-f--c".toList)) =
    [(0, 3), (3, 5), (5, 6), (6, 8)] := by decide +kernel
example : keptSpans .contiguous (fnFind (fun c => c == '-') (encStr "the-f--c".toList)) =
    [(0, 3), (3, 4), (4, 5), (5, 7), (7, 8)] := by decide +kernel

end Tok.Norm
