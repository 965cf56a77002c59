import Verif.PreTok.PropsPipeline

/-!
# C65, C66: pre-tokenizers that cut the text
-/

namespace Tok.PreTok

open Tok.Norm

theorem onlyCuts_split {gaps : Bool} {fn : NStr → Res (List SplitIdx)}
    (hfn : ∀ s (ok : Str → List Token → Prop) u m x, FPart s u m x → m ≠ [] →
      ∃ ps kept, fn x = .ok ps ∧ keepPieces ps = .ok kept ∧ Cut s gaps ok u (u ++ m) kept) :
    OnlyCuts gaps (fun pt => pt.split (fun _ n => fn n)) := by
  intro s ok pt ho hc
  obtain ⟨ss', h1, h2, h3⟩ := splitLoop_cut (fn := fun _ n => fn n) (fun _ => hfn s ok) hc 0
  exact ⟨{ pt with splits := ss' }, by simp only [PTS.split, h1, Res.bind_ok], rfl, h2, h3⟩

/-- The matches of a character class are never empty and are whole characters. -/
theorem properEngine_class (f : Char → Bool) : ProperEngine (classEngine f) := by
  intro m _
  rw [classEngine_enc]
  have key : ∀ (r a : Str), m = a ++ r → LegalMatches (blen m) (blen a) (charLoop f r (blen a)) ∧
      ∀ p ∈ charLoop f r (blen a), p.1 < p.2 ∧ Boundary m p.1 ∧ Boundary m p.2 := by
    intro r
    induction r with
    | nil => intro a hm; exact ⟨by simp [charLoop, LegalMatches, hm], by simp [charLoop]⟩
    | cons c r ih =>
      intro a hm
      have hm' : m = (a ++ [c]) ++ r := by rw [hm]; simp
      have hc := Char.utf8Size_pos c
      have hb : blen (a ++ [c]) = blen a + c.utf8Size := by simp
      obtain ⟨h1, h2⟩ := ih (a ++ [c]) hm'
      rw [hb] at h1 h2
      have hle : blen a + c.utf8Size ≤ blen m := by rw [hm', ← hb]; simp only [blen_append]; omega
      rw [charLoop]
      split
      · refine ⟨?_, ?_⟩
        · exact ⟨Nat.le_refl _, by dsimp only; omega, hle, h1⟩
        · intro p hp
          rcases List.mem_cons.mp hp with rfl | hp
          · exact ⟨by dsimp only; omega, ⟨a, c :: r, hm, rfl⟩, ⟨a ++ [c], r, hm', hb.symm⟩⟩
          · exact h2 p hp
      · refine ⟨?_, h2⟩
        cases hl : charLoop f r (blen a + c.utf8Size) with
        | nil => trivial
        | cons p ps =>
          rw [hl] at h1
          exact ⟨by have := h1.1; omega, h1.2⟩
  exact key m [] rfl

/-- C65 (Split): with any pattern whose spans tile the text, none empty, of whole characters, and
any behaviour, Split only cuts, and leaves text out only if told to remove it. -/
theorem C65_split_partial (pat : Pat) (b : Behavior) (invert : Bool) (hp : Suits pat) (hi : ∀ q, pat ≠ .invert q)
    (gaps : Bool) (hg : b = .removed → gaps = true) : OnlyCuts gaps (splitPre pat b invert) := by
  refine onlyCuts_split (fun s ok u m x h hm => ?_)
  refine cutWith_part h hm ?_ b _ hg ok
  cases invert with
  | true => exact suits_invert hp hi
  | false => exact hp

/-- C65 (Punctuation): for every class of characters and every behaviour. -/
theorem C65_punctuation (isPunc : Char → Bool) (b : Behavior) (gaps : Bool)
    (hg : b = .removed → gaps = true) : OnlyCuts gaps (punctuation isPunc b) :=
  onlyCuts_split (fun _ ok _ _ _ h hm => cutWith_part h hm (suits_fn isPunc) b _ hg ok)

/-- C65 (Digits): nothing is left out. -/
theorem C65_digits (isNumber : Char → Bool) (individual gaps : Bool) :
    OnlyCuts gaps (digits isNumber individual) :=
  onlyCuts_split (fun _ ok _ _ _ h hm => cutWith_part h hm (suits_fn isNumber) _ _
    (by cases individual <;> simp) ok)

theorem keepPieces_nil {ps : List SplitIdx} (h : ∃ p ∈ ps, p.normalized = none) : keepPieces ps = .panic := by
  induction ps with
  | nil => obtain ⟨p, hp, -⟩ := h; cases hp
  | cons q ps ih =>
    rw [keepPieces]
    cases hq : q.normalized with
    | none => rfl
    | some n =>
      obtain ⟨p, hp, hpn⟩ := h
      rcases List.mem_cons.1 hp with rfl | hp
      · rw [hq] at hpn; cases hpn
      · simp only [ih ⟨p, hp, hpn⟩, Res.bind_panic]

/-- C65 fails for every split function that gives a nil piece, as `Slice` does outside the text: `Split` panics. -/
theorem C65_nil_piece_violated (orig : List UInt8) (n : NStr) (rest : List Split) (fn : Nat → NStr → Res (List SplitIdx))
    (ps : List SplitIdx) (h : fn 0 n = .ok ps) (hn : ∃ p ∈ ps, p.normalized = none) :
    (⟨orig, ⟨n, none⟩ :: rest⟩ : PTS).split fn = .panic := by
  simp only [PTS.split, splitLoop, h, Res.bind_ok, keepPieces_nil hn, Res.bind_panic]

/-- C65 (CharDelimiterSplit). -/
theorem C65_delimiter (d : Char) : OnlyCuts true (delimiterSplit d) :=
  onlyCuts_split (fun _ ok _ _ _ h hm => cutWith_part h hm (suits_rune d) _ _ (fun _ => rfl) ok)

/-- C65 (Whitespace): for every regular expression whose matches are never empty and are whole
characters, as those of `\w+|[^\w\s]+` are. -/
theorem C65_whitespace (engine : List UInt8 → List (Nat × Nat)) (he : ProperEngine engine) :
    OnlyCuts true (whitespace engine) :=
  onlyCuts_split (fun _ ok _ _ _ h hm =>
    cutWith_part h hm (suits_invert (suits_regexp he) (by simp)) _ _ (fun _ => rfl) ok)

/-- C65 (WhitespaceSplit). -/
theorem C65_whitespaceSplit (isWs : Char → Bool) : OnlyCuts true (whitespaceSplit isWs) :=
  onlyCuts_split (fun _ ok _ _ _ h hm => cutWith_part h hm (suits_fn isWs) _ _ (fun _ => rfl) ok)

theorem bertInner_cut {s : Str} {ok : Str → List Token → Prop} (isPunc : Char → Bool) (ys : List NStr) :
    ∀ u w, Cut s true ok u w (ys.map (fun y => ⟨y, none⟩)) →
      ∃ zs, bertInner isPunc ys = .ok zs ∧ (∀ z ∈ zs, z.normalized ≠ []) ∧
        Cut s true ok u w (zs.map (fun y => ⟨y, none⟩)) := by
  intro u w h
  generalize hss : ys.map (fun y => (⟨y, none⟩ : Split)) = ss at h
  induction h generalizing ys with
  | done u =>
    rw [List.map_eq_nil_iff] at hss
    subst hss
    exact ⟨[], rfl, by simp, .done u⟩
  | skip u g _ ss hg _ ih =>
    obtain ⟨zs, h1, h2, h3⟩ := ih ys hss
    exact ⟨zs, h1, h2, .skip u g _ _ hg h3⟩
  | part u m _ x t ss hp hm ht _ ih =>
    cases ys with
    | nil => cases hss
    | cons y ys =>
      rw [List.map_cons, List.cons.injEq] at hss
      obtain ⟨e1, e2⟩ := hss
      cases e1
      obtain ⟨zs, h1, h2, h3⟩ := ih ys e2
      obtain ⟨vs, k1, k2, k3⟩ := split_part hp hm (suits_fn isPunc) .isolated true (fun _ => rfl) ok
      refine ⟨vs ++ zs, by simp only [bertInner, k1, h1, Res.bind_ok], ?_, ?_⟩
      · intro z hz
        rcases List.mem_append.mp hz with hz | hz
        · exact k2 z hz
        · exact h2 z hz
      · rw [List.map_append]; exact k3.append h3

/-- C65 (BertPreTokenizer): for every regular expression as above, as `\s+` is. -/
theorem C65_bert (engine : List UInt8 → List (Nat × Nat)) (he : ProperEngine engine) (isPunc : Char → Bool) :
    OnlyCuts true (bertPre engine isPunc) := by
  refine onlyCuts_split (fun s ok u m x h hm => ?_)
  obtain ⟨ys, h1, _, h3⟩ := split_part h hm (suits_regexp he) .removed true (fun _ => rfl) ok
  obtain ⟨zs, k1, k2, k3⟩ := bertInner_cut isPunc ys _ _ h3
  exact ⟨_, _, by simp only [bertCut, h1, k1, Res.bind_ok], keepPieces_some zs k2, k3⟩

/-- C65 (Sequence): a sequence of pre-tokenizers that only cut only cuts. -/
theorem C65_sequence (gaps : Bool) (ps : List (PTS → Res PTS)) (h : ∀ p ∈ ps, OnlyCuts gaps p) :
    OnlyCuts gaps (sequencePre ps) := by
  induction ps with
  | nil => intro s ok pt _ hc; exact ⟨pt, rfl, rfl, hc, fun sp hsp _ => hsp⟩
  | cons p ps ih =>
    intro s ok pt ho hc
    obtain ⟨pt1, h1, h2, h3, h4⟩ := h p (by simp) s ok pt ho hc
    obtain ⟨pt2, k1, k2, k3, k4⟩ := ih (fun q hq => h q (by simp [hq])) s ok pt1 (by rw [h2, ho]) h3
    refine ⟨pt2, by simp only [sequencePre, h1, Res.bind_ok, k1], by rw [k2, h2], k3, ?_⟩
    intro sp hsp hne
    exact k4 sp (h4 sp hsp hne) hne

/-! ### UnicodeScript -/

/-- `scriptRanges` on characters. -/
def charRanges (script : Char → String) : Str → Nat → String → List Nat
  | [], _, _ => []
  | c :: s, i, last =>
    (if script c ≠ "Any" && last ≠ "Any" && last ≠ script c then [i] else []) ++
      charRanges script s (i + c.utf8Size) (if script c ≠ "Any" then script c else last)

theorem scriptRanges_enc (script : Char → String) (s : Str) : ∀ i last,
    scriptRanges script (explode (encStr s)) i last = charRanges script s i last := by
  rw [explode_encStr]
  induction s with
  | nil => intro i last; rfl
  | cons c s ih =>
    intro i last
    rw [List.map_cons, scriptRanges, charRanges]
    simp only [runeOf, Option.getD_some, ih]
    rfl

/-- Ends of prefixes, strictly increasing from beyond `i`. -/
def Ascend (m : Str) : Nat → List Nat → Prop
  | _, [] => True
  | i, k :: ks => i < k ∧ Boundary m k ∧ Ascend m k ks

theorem ascend_weaken {m : Str} {i j : Nat} {ks : List Nat} (h : Ascend m j ks) (hij : i ≤ j) : Ascend m i ks := by
  cases ks with
  | nil => trivial
  | cons k ks => exact ⟨by have := h.1; omega, h.2⟩

theorem charRanges_ascend (script : Char → String) (m : Str) : ∀ (a r : Str) last, m = a ++ r →
    (∀ i, i < blen a → Ascend m i (charRanges script r (blen a) last ++ [blen m]) ∨ r = []) := by
  intro a r
  induction r generalizing a with
  | nil => intro last _ i _; exact .inr rfl
  | cons c r ih =>
    intro last hm i hi
    left
    have hm' : m = (a ++ [c]) ++ r := by rw [hm]; simp
    have hc := Char.utf8Size_pos c
    have hb : blen (a ++ [c]) = blen a + c.utf8Size := by simp
    have hend : Boundary m (blen m) := ⟨m, [], by simp, rfl⟩
    have rest : ∀ l, Ascend m (blen a) (charRanges script r (blen a + c.utf8Size) l ++ [blen m]) := by
      intro l
      rw [← hb]
      rcases ih (a ++ [c]) l hm' (blen a) (by omega) with h | h
      · exact h
      · subst h
        rw [charRanges, List.nil_append]
        exact ⟨by rw [hm']; simp only [blen_append]; simp; omega, hend, trivial⟩
    rw [charRanges]
    split
    · exact ⟨hi, ⟨a, c :: r, hm, rfl⟩, rest _⟩
    · exact ascend_weaken (rest _) (by omega)

theorem sliceWindows_part {s u m : Str} {x : NStr} (h : FPart s u m x) {ok : Str → List Token → Prop}
    (ks : List Nat) : ∀ (a r : Str), m = a ++ r → Ascend m (blen a) ks → (blen a :: ks).getLast? = some (blen m) →
      ∃ xs, sliceWindows x (blen a :: ks) = .ok xs ∧ (∀ y ∈ xs, y.normalized ≠ []) ∧
        Cut s false ok (u ++ a) (u ++ m) (xs.map (fun y => ⟨y, none⟩)) := by
  induction ks with
  | nil =>
    intro a r hm _ hl
    simp only [List.getLast?_singleton, Option.some.injEq] at hl
    rw [hm, blen_append] at hl
    have := blen_eq_zero.mp (show blen r = 0 by omega)
    subst this
    rw [hm, List.append_nil]
    exact ⟨[], rfl, by simp, .done _⟩
  | cons k ks ih =>
    intro a r hm ha hl
    obtain ⟨h1, ⟨a2, r2, f1, f2⟩, h3⟩ := ha
    obtain ⟨w, hw, hr⟩ := prefix_of_le hm f1 (by omega)
    have hwne : w ≠ [] := by
      rintro rfl
      rw [List.append_nil] at hw
      rw [f2, hw] at h1
      omega
    have hm' : m = a ++ w ++ r2 := by rw [f1, hw]
    obtain ⟨y, hy, hpart⟩ := fpart_slice h hm' hwne
    have hyt := fpart_text hpart
    have hyne : y.normalized ≠ [] := by
      rw [hyt]; intro h0
      have := length_encStr w
      rw [h0] at this
      exact hwne (blen_eq_zero.mp this.symm)
    rw [f2, hw] at h3 hl ⊢
    obtain ⟨xs, i1, i2, i3⟩ := ih (a ++ w) r2 hm' h3 (by simpa using hl)
    refine ⟨y :: xs, ?_, ?_, ?_⟩
    · rw [sliceWindows, hy]
      simp only [Res.bind_ok, i1]
    · intro z hz
      rcases List.mem_cons.mp hz with rfl | hz
      · exact hyne
      · exact i2 z hz
    · rw [← List.append_assoc] at i3
      exact .part _ w _ y none _ hpart hwne (by simp) i3

/-- The pieces of one part: nothing is left out but text before the first script. -/
theorem scriptCut_part (script : Char → String) {s u m : Str} {x : NStr} (h : FPart s u m x) (hm : m ≠ [])
    (ok : Str → List Token → Prop) : ∃ a r xs, m = a ++ r ∧
      sliceWindows x (charRanges script m 0 "" ++ [blen m]) = .ok xs ∧ (∀ y ∈ xs, y.normalized ≠ []) ∧
      Cut s false ok (u ++ a) (u ++ m) (xs.map (fun y => ⟨y, none⟩)) ∧
      (∀ c s', m = c :: s' → script c ≠ "Any" → script c ≠ "" → a = []) := by
  have hend : Boundary m (blen m) := ⟨m, [], by simp, rfl⟩
  have hasc : ∃ k ks, charRanges script m 0 "" ++ [blen m] = k :: ks ∧ Boundary m k ∧ Ascend m k ks := by
    cases m with
    | nil => exact absurd rfl hm
    | cons c m' =>
      have hc := Char.utf8Size_pos c
      have key : ∀ l, Ascend (c :: m') 0 (charRanges script m' (0 + c.utf8Size) l ++ [blen (c :: m')]) := by
        intro l
        have := charRanges_ascend script (c :: m') [c] m' l rfl 0 (by simpa using hc)
        rcases this with h' | h'
        · simpa using h'
        · subst h'
          exact ⟨by simpa [charRanges] using hc, by simpa using hend, trivial⟩
      rw [charRanges]
      split
      · exact ⟨0, _, rfl, ⟨[], _, rfl, rfl⟩, key _⟩
      · next hcond =>
        have hk := key (if script c ≠ "Any" then script c else "")
        cases hl : charRanges script m' (0 + c.utf8Size) (if script c ≠ "Any" then script c else "") ++
            [blen (c :: m')] with
        | nil => simp at hl
        | cons k ks =>
          rw [hl] at hk
          exact ⟨k, ks, by simpa using hl, hk.2⟩
  obtain ⟨k, ks, hks, ⟨a, r, e1, e2⟩, hasc⟩ := hasc
  have hlast : (k :: ks).getLast? = some (blen m) := by rw [← hks]; simp
  rw [e2] at hks hasc hlast
  obtain ⟨xs, h1, h2, h3⟩ := sliceWindows_part h (ok := ok) ks a r e1 hasc hlast
  refine ⟨a, r, xs, e1, by rw [hks]; exact h1, h2, h3, ?_⟩
  intro c s' hcs hc1 hc2
  subst hcs
  rw [charRanges, if_pos (by simp [hc1, Ne.symm hc2])] at hks
  simp only [List.cons_append, List.nil_append, List.cons.injEq] at hks
  exact blen_eq_zero.mp hks.1.symm

/-- C65 (UnicodeScript): for every table of scripts, only cuts. -/
theorem C65_unicodeScript (script : Char → String) : OnlyCuts true (unicodeScript script) := by
  refine onlyCuts_split (fun s ok u m x h hm => ?_)
  obtain ⟨a, r, xs, e1, e2, e3, e4, _⟩ := scriptCut_part script h hm ok
  refine ⟨_, _, ?_, keepPieces_some xs e3, .skip u a _ _ rfl e4.gaps⟩
  rw [scriptCut, fpart_text h, scriptRanges_enc, length_encStr, e2]
  rfl

/-- C65 (UnicodeScript): nothing of a text is left out if its first character has a script. -/
theorem C65_unicodeScript_partial (script : Char → String) (c : Char) (s : Str)
    (h1 : script c ≠ "Any") (h2 : script c ≠ "") (ok : Str → List Token → Prop) :
    ∃ pt, unicodeScript script (newPTS (encStr (c :: s))) = .ok pt ∧ Cut (c :: s) false ok [] (c :: s) pt.splits := by
  have hp := fpart_whole (c :: s)
  obtain ⟨a, r, xs, e1, e2, e3, e4, e5⟩ := scriptCut_part script hp (by simp) ok
  have ha := e5 c s rfl h1 h2
  subst ha
  refine ⟨⟨encStr (c :: s), xs.map (fun y => ⟨y, none⟩)⟩, ?_, by simpa using e4⟩
  have hcut : scriptCut script (newNStr (encStr (c :: s))) = .ok (xs.map (fun x => ⟨some x, none⟩)) := by
    rw [scriptCut, fpart_text hp, scriptRanges_enc, length_encStr, e2]
    rfl
  simp only [unicodeScript, PTS.split, newPTS, splitLoop, hcut, Res.bind_ok, keepPieces_some xs e3,
    List.append_nil]

/-- C65 fails for UnicodeScript: of a text of spaces nothing is left, for every table of scripts
that gives the space the script "Any", as `FixedScript` does. -/
theorem C65_unicodeScript_violated (script : Char → String) (h : script ' ' = "Any") (n : Nat) :
    unicodeScript script (newPTS (encStr (List.replicate n ' '))) =
      .ok ⟨encStr (List.replicate n ' '), []⟩ := by
  have key : ∀ n i, charRanges script (List.replicate n ' ') i "" = [] := by
    intro n
    induction n with
    | zero => intro i; rfl
    | succ n ih => intro i; rw [List.replicate_succ, charRanges, if_neg (by simp [h]), if_neg (by simp [h]), ih]; rfl
  simp only [unicodeScript, PTS.split, newPTS, splitLoop, scriptCut]
  have hn : (newNStr (encStr (List.replicate n ' '))).normalized = encStr (List.replicate n ' ') := rfl
  rw [hn, scriptRanges_enc, key]
  rfl

/-! ### Examples -/

/-- Dashes as the matches of an engine. -/
example : ProperEngine (classEngine (· == '-')) := properEngine_class _

example (isPunc : Char → Bool) : OnlyCuts true (sequencePre [whitespaceSplit (· == ' '), punctuation isPunc .isolated,
    whitespace (classEngine (· == 'x')), bertPre (classEngine (· == ' ')) isPunc]) := by
  refine C65_sequence true _ ?_
  intro p hp
  simp only [List.mem_cons, List.not_mem_nil, or_false] at hp
  rcases hp with rfl | rfl | rfl | rfl
  · exact C65_whitespaceSplit _
  · exact C65_punctuation isPunc .isolated true (by simp)
  · exact C65_whitespace _ (properEngine_class _)
  · exact C65_bert _ (properEngine_class _) isPunc

end Tok.PreTok
