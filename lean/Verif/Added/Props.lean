import Verif.Added.Strip
import Verif.Vocab.PropsSplit

/-!
# C91–C94: where the expression of an added token matches
-/

namespace Tok.Added

open Tok.Norm Tok.PreTok Tok.Regex

/-! ### Specification -/

/-- `ms` are the places of the leftmost non-overlapping occurrences in `s`, in bytes; `At u w v`
says that in the text `u ++ w ++ v` there is an occurrence `w` between `u` and `v`. Every place is one
of an occurrence, the places follow one another, and the first byte of every occurrence is in one of
the places. -/
structure LeftmostOf (At : Str → Str → Str → Prop) (s : Str) (ms : List (Nat × Nat)) : Prop where
  sound : ∀ p ∈ ms, ∃ u w v, s = u ++ w ++ v ∧ p = (blen u, blen (u ++ w)) ∧ At u w v
  ordered : LegalMatches (blen s) 0 ms
  complete : ∀ u w v, s = u ++ w ++ v → At u w v → ∃ p ∈ ms, p.1 ≤ blen u ∧ blen u < p.2

/-- The same with white space: every place is one of an occurrence, with at most one white space (tab,
line feed, form feed, carriage return, blank) before it if `l` and after it if `r`; a white space that
follows is taken if `r`; one that precedes is taken if `l`, unless it belongs to an earlier place. -/
structure StrippedOf (l r : Bool) (At : Str → Str → Str → Prop) (s : Str) (ms : List (Nat × Nat)) : Prop where
  sound : ∀ p ∈ ms, ∃ u a w b v, s = u ++ a ++ w ++ b ++ v ∧ p = (blen u, blen (u ++ a ++ w ++ b)) ∧
    At (u ++ a) w (b ++ v) ∧ Stripped l a ∧ Stripped r b ∧
    (r = true → b = [] → ∀ x, v.head? = some x → isS x = false) ∧
    (l = true → a = [] → ∀ x u', u = u' ++ [x] → isS x = true → ∃ q ∈ ms, q.1 ≤ blen u' ∧ blen u' < q.2 ∧ q.2 ≤ p.1)
  ordered : LegalMatches (blen s) 0 ms
  complete : ∀ u w v, s = u ++ w ++ v → At u w v → ∃ p ∈ ms, p.1 ≤ blen u ∧ blen u < p.2

/-- The neighbours of a word that stands alone, for `\w` of package regexp. -/
def Alone (u v : Str) : Prop := u.getLast?.any isW = false ∧ v.head?.any isW = false

/-- What the normalizer of the tokenizer, if any, makes of a content: the text `w`. -/
def Gives (norm : Option (NStr → Res NStr)) (content w : Str) : Prop :=
  (norm = none ∧ w = content) ∨
    ∃ f n, norm = some f ∧ f (newNStr (encStr content)) = .ok n ∧ n.normalized = encStr w

theorem Gives.content {norm : Option (NStr → Res NStr)} {content w : Str} (h : Gives norm content w) :
    normContent norm content = .ok w := by
  rcases h with ⟨rfl, rfl⟩ | ⟨f, n, rfl, h1, h2⟩
  · rfl
  · simp only [normContent, h1, h2, decStr_enc]

theorem StrippedOf.leftmost {At : Str → Str → Str → Prop} {s : Str} {ms : List (Nat × Nat)}
    (h : StrippedOf false false At s ms) : LeftmostOf At s ms := by
  refine ⟨?_, h.ordered, h.complete⟩
  intro p hp
  obtain ⟨u, a, w, b, v, h1, h2, h3, h4, h5, _⟩ := h.sound p hp
  have ha : a = [] := by 
    rcases h4 with h | ⟨h, _⟩
    · exact h
    · cases h
  have hb : b = [] := by 
    rcases h5 with h | ⟨h, _⟩
    · exact h
    · cases h
  subst ha; subst hb
  simp only [List.append_nil, List.nil_append] at h1 h2 h3
  exact ⟨u, w, v, h1, h2, h3⟩

/-- The ordinary expressions: the content, literally. -/
theorem lit_spec {w : Str} (hw : w ≠ []) (l r : Bool) (s : Str) :
    StrippedOf l r (fun _ m _ => m = w) s ((stripped l r (.lit w)).engine (encStr s)) := by
  obtain ⟨h1, h2, h3⟩ := stripped_spec (B := .lit w) (n := w.length) (Q := fun _ s => w <+: s)
    (List.length_pos_iff.mpr hw) (ends_lit w) (fun _ _ h => h.length_le) l r s
  refine ⟨?_, h2, ?_⟩
  · intro p hp
    obtain ⟨u, a, m, b, v, e1, e2, e3, e4, e5⟩ := h1 p hp
    refine ⟨u, a, m, b, v, e1, e2, ?_, e5⟩
    rw [List.append_assoc] at e4
    exact ((List.prefix_iff_eq_take.mp e4).trans (by rw [← e3]; simp)).symm
  · intro u m v hs hm
    subst hm
    rw [List.append_assoc] at hs
    exact h3 u (m ++ v) hs (List.prefix_append _ _)

/-- Single words: the content, with boundaries. -/
theorem word_spec (f : Char → Bool) (a b : Char) {w : Str} (hw : w ≠ []) (l r : Bool) (s : Str) :
    StrippedOf l r (fun u m v => m = w ∧ boundOk (f a) u.getLast? w.head? ∧ boundOk (f b) w.getLast? v.head?) s
      ((stripped l r (.seq (boundIf f a) (.seq (.lit w) (boundIf f b)))).engine (encStr s)) := by
  obtain ⟨h1, h2, h3⟩ := stripped_spec (B := .seq (boundIf f a) (.seq (.lit w) (boundIf f b))) (n := w.length)
    (Q := fun p s => w <+: s ∧ boundOk (f a) p w.head? ∧ boundOk (f b) w.getLast? (s.drop w.length).head?)
    (List.length_pos_iff.mpr hw) (ends_word f a b w hw) (fun _ _ h => h.1.length_le) l r s
  refine ⟨?_, h2, ?_⟩
  · intro p hp
    obtain ⟨u, x, m, y, v, e1, e2, e3, ⟨e4, e6, e7⟩, e5⟩ := h1 p hp
    rw [List.append_assoc] at e4 e7
    have hm : m = w := ((List.prefix_iff_eq_take.mp e4).trans (by rw [← e3]; simp)).symm
    refine ⟨u, x, m, y, v, e1, e2, ⟨hm, e6, ?_⟩, e5⟩
    rw [← e3] at e7
    simpa using e7
  · intro u m v hs hm
    obtain ⟨rfl, h4, h5⟩ := hm
    rw [List.append_assoc] at hs
    exact h3 u (m ++ v) hs ⟨List.prefix_append _ _, h4, by simpa using h5⟩

/-! ### C91 -/

/-- C91: the expression of a token without `SingleWord`, `LStrip` and `RStrip` matches, in every
text, the leftmost non-overlapping occurrences of its content, character by character: no character of
the content has a special meaning. -/
theorem C91_plain (wordChar : Char → Bool) (norm : Option (NStr → Res NStr)) (t : AddedToken)
    (h1 : t.singleWord = false) (h2 : t.lstrip = false) (h3 : t.rstrip = false) (hc : t.content ≠ []) :
    ∃ re, getPattern wordChar norm t = .ok re ∧
      ∀ s, LeftmostOf (fun _ w _ => w = t.content) s (re.engine (encStr s)) := by
  refine ⟨_, by simp only [getPattern, core, h1, h2, h3]; rfl, fun s => ?_⟩
  exact (lit_spec hc false false s).leftmost

/-- There is only one list of leftmost occurrences of a content. -/
theorem C91_unique (c s : Str) (hc : c ≠ []) (ms ms' : List (Nat × Nat))
    (h : LeftmostOf (fun _ w _ => w = c) s ms) (h' : LeftmostOf (fun _ w _ => w = c) s ms') : ms = ms' := by
  -- an occurrence is as long as the content
  have hlen : ∀ ns, LeftmostOf (fun _ w _ => w = c) s ns → ∀ p ∈ ns, p.2 = p.1 + blen c := by
    intro ns hn p hp
    obtain ⟨u, w, v, _, e, rfl⟩ := hn.sound p hp
    rw [e, blen_append]
  have hpos : 0 < blen c := Nat.pos_of_ne_zero (fun h => hc (blen_eq_zero.mp h))
  have key : ∀ (l l' : List (Nat × Nat)) (a : Nat),
      LegalMatches (blen s) a l → LegalMatches (blen s) a l' →
      (∀ p ∈ l, p.2 = p.1 + blen c) → (∀ p ∈ l', p.2 = p.1 + blen c) →
      (∀ p ∈ l, ∃ q ∈ l', q.1 ≤ p.1 ∧ p.1 < q.2) → (∀ p ∈ l', ∃ q ∈ l, q.1 ≤ p.1 ∧ p.1 < q.2) → l = l' := by
    have hlow : ∀ (l : List (Nat × Nat)) (a : Nat), LegalMatches (blen s) a l → ∀ x ∈ l, a ≤ x.1 := by
      intro l
      induction l with
      | nil => intro a _ x hx; cases hx
      | cons z l ih =>
        intro a h x hx
        rcases List.mem_cons.mp hx with rfl | hx
        · exact h.1
        · have := ih _ h.2.2.2 x hx
          have h1 := h.1
          have h2 := h.2.1
          omega
    intro l
    induction l with
    | nil =>
      intro l' a _ _ _ _ _ h6
      cases l' with
      | nil => rfl
      | cons q l' => obtain ⟨x, hx, _⟩ := h6 q (by simp); cases hx
    | cons p l ih =>
      intro l' a h1 h2 h3 h4 h5 h6
      cases l' with
      | nil => obtain ⟨x, hx, _⟩ := h5 p (by simp); cases hx
      | cons q l' =>
        have e1 : q.1 ≤ p.1 := by
          obtain ⟨x, hx, h7, _⟩ := h5 p (by simp)
          rcases List.mem_cons.mp hx with rfl | hx
          · exact h7
          · have := hlow _ _ h2.2.2.2 x hx
            have := h2.2.1
            omega
        have e2 : p.1 ≤ q.1 := by
          obtain ⟨x, hx, h7, _⟩ := h6 q (by simp)
          rcases List.mem_cons.mp hx with rfl | hx
          · exact h7
          · have := hlow _ _ h1.2.2.2 x hx
            have := h1.2.1
            omega
        have e3 : p = q := Prod.ext (by omega) (by rw [h3 p (by simp), h4 q (by simp)]; omega)
        subst e3
        congr 1
        refine ih l' p.2 h1.2.2.2 h2.2.2.2 (fun x hx => h3 x (by simp [hx])) (fun x hx => h4 x (by simp [hx])) ?_ ?_
        · intro x hx
          obtain ⟨y, hy, h7, h8⟩ := h5 x (by simp [hx])
          rcases List.mem_cons.mp hy with rfl | hy
          · have := hlow _ _ h1.2.2.2 x hx
            omega
          · exact ⟨y, hy, h7, h8⟩
        · intro x hx
          obtain ⟨y, hy, h7, h8⟩ := h6 x (by simp [hx])
          rcases List.mem_cons.mp hy with rfl | hy
          · have := hlow _ _ h2.2.2.2 x hx
            omega
          · exact ⟨y, hy, h7, h8⟩
  refine key ms ms' 0 h.ordered h'.ordered (hlen ms h) (hlen ms' h') ?_ ?_
  · intro p hp
    obtain ⟨u, w, v, e1, e2, e3⟩ := h.sound p hp
    rw [e2]
    exact h'.complete u w v e1 e3
  · intro p hp
    obtain ⟨u, w, v, e1, e2, e3⟩ := h'.sound p hp
    rw [e2]
    exact h.complete u w v e1 e3

/-- A content whose characters all mean something in regular expressions. -/
example : (stripped false false (.lit "[a.*".toList)).engine (encStr "x[a.*[a.*abb".toList) = [(1, 5), (5, 9)] := by
  decide +kernel

/-! ### C92 -/

/-- C92, the part that holds: the expression of a token with `LStrip` or `RStrip` matches the
leftmost occurrences of its content, each with one neighbouring white space if there is one.
Missing from the full property: all the white space beside an occurrence belongs to the match. -/
theorem C92_strip_partial (wordChar : Char → Bool) (norm : Option (NStr → Res NStr)) (t : AddedToken)
    (h1 : t.singleWord = false) (hc : t.content ≠ []) :
    ∃ re, getPattern wordChar norm t = .ok re ∧
      ∀ s, StrippedOf t.lstrip t.rstrip (fun _ w _ => w = t.content) s (re.engine (encStr s)) := by
  refine ⟨_, by simp only [getPattern, core, h1]; rfl, fun s => ?_⟩
  exact lit_spec hc _ _ s

/-- C92 is violated for every token with `LStrip` whose content does not begin with white space: of
two white spaces before it the first one is left in the text. -/
theorem C92_left_violated (wordChar : Char → Bool) (norm : Option (NStr → Res NStr)) (t : AddedToken)
    (h1 : t.singleWord = false) (_ : t.lstrip = true) (c : Char) (cs : Str) (hc : t.content = c :: cs)
    (x y : Char) (hx : isS x = true) (hy : isS y = true) (hcs : isS c = false) :
    ∃ re, getPattern wordChar norm t = .ok re ∧
      (∃ p ∈ re.engine (encStr ([x, y] ++ t.content)), p.1 ≤ blen [x, y] ∧ blen [x, y] < p.2) ∧
      ∀ p ∈ re.engine (encStr ([x, y] ++ t.content)), blen [x] ≤ p.1 := by
  obtain ⟨re, e, hre⟩ := C92_strip_partial wordChar norm t h1 (by rw [hc]; simp)
  refine ⟨re, e, (hre _).complete [x, y] t.content [] (by simp) rfl, ?_⟩
  intro p hp
  obtain ⟨u, a, w, b, v, e1, e2, e3, e4, _⟩ := (hre _).sound p hp
  rw [e2]
  dsimp only
  -- the match cannot start at the start of the text
  cases u with
  | cons z u =>
    simp only [List.cons_append] at e1
    rw [List.cons.injEq] at e1
    rw [← e1.1, blen_cons, blen_cons]
    simp [blen]
  | nil =>
    exfalso
    have e3 : w = t.content := e3
    rw [e3, hc] at e1
    rcases e4 with rfl | ⟨_, z, _, rfl⟩
    · simp only [List.nil_append, List.cons_append, List.cons.injEq] at e1
      rw [e1.1, hcs] at hx
      cases hx
    · simp only [List.nil_append, List.cons_append, List.cons.injEq] at e1
      rw [e1.2.1, hcs] at hy
      cases hy

/-- The same for `RStrip`: of two white spaces after the content the second one is left. -/
theorem C92_right_violated (wordChar : Char → Bool) (norm : Option (NStr → Res NStr)) (t : AddedToken)
    (h1 : t.singleWord = false) (_ : t.rstrip = true) (hc : t.content ≠ []) (hns : ∀ z ∈ t.content, isS z = false)
    (x y : Char) (hx : isS x = true) (hy : isS y = true) :
    ∃ re, getPattern wordChar norm t = .ok re ∧
      (∃ p ∈ re.engine (encStr (t.content ++ [x, y])), p.1 = 0) ∧
      ∀ p ∈ re.engine (encStr (t.content ++ [x, y])), p.2 ≤ blen (t.content ++ [x]) := by
  obtain ⟨re, e, hre⟩ := C92_strip_partial wordChar norm t h1 hc
  refine ⟨re, e, ?_, ?_⟩
  · obtain ⟨p, hp, h2, _⟩ := (hre (t.content ++ [x, y])).complete [] t.content [x, y] (by simp) rfl
    exact ⟨p, hp, by simpa using h2⟩
  · intro p hp
    obtain ⟨u, a, w, b, v, e1, e2, e3, _, e5, _⟩ := (hre _).sound p hp
    have e3 : w = t.content := e3
    subst e3
    have hl := congrArg List.length e1
    simp only [List.length_append, List.length_cons, List.length_nil] at hl
    -- the content occurs only at the start: white space is not in it
    have hu : u ++ a = [] := by
      cases hua : (u ++ a).length with
      | zero => exact List.length_eq_zero_iff.mp hua
      | succ k =>
        exfalso
        rw [List.append_assoc, List.append_assoc] at e1
        have hk : k + 1 ≤ 2 := by rw [List.length_append] at hua; omega
        have hcl := List.length_pos_iff.mpr hc
        -- the last character of the occurrence stands where `x` or `y` is
        have hg := congrArg (fun l => l[(u ++ a).length + (t.content.length - 1)]?) e1
        rw [List.getElem?_append_right (by omega), List.getElem?_append_right (by omega),
          List.getElem?_append_left (by omega)] at hg
        rw [show (u ++ a).length + (t.content.length - 1) - (u ++ a).length = t.content.length - 1 by omega,
          List.getElem?_eq_getElem (l := t.content) (by omega)] at hg
        have hmem := hns _ (List.getElem_mem (l := t.content) (n := t.content.length - 1) (by omega))
        have : (u ++ a).length + (t.content.length - 1) - t.content.length = k := by omega
        rw [this] at hg
        have hk2 : k = 0 ∨ k = 1 := by omega
        rcases hk2 with rfl | rfl
        · simp only [List.getElem?_cons_zero, Option.some.injEq] at hg
          rw [← hg, hx] at hmem
          cases hmem
        · simp only [List.getElem?_cons_succ, List.getElem?_cons_zero, Option.some.injEq] at hg
          rw [← hg, hy] at hmem
          cases hmem
    rw [e2, hu]
    dsimp only
    rw [hu] at e1
    simp only [List.nil_append] at e1 ⊢
    rcases e5 with rfl | ⟨_, z, _, rfl⟩
    · simp [blen_append]
    · rw [List.append_assoc] at e1
      have := List.append_cancel_left e1
      simp only [List.cons_append, List.nil_append, List.cons.injEq] at this
      rw [this.1]
      exact Nat.le_refl _

/-- C92 is violated for white space that is not ASCII, such as the ideographic space U+3000: it is not
taken. -/
theorem C92_unicode_violated (wordChar : Char → Bool) (norm : Option (NStr → Res NStr)) (t : AddedToken)
    (h1 : t.singleWord = false) (_ : t.lstrip = true) (c : Char) (cs : Str) (hc : t.content = c :: cs)
    (x : Char) (hx : 128 ≤ x.toNat) (hne : x ≠ c) :
    ∃ re, getPattern wordChar norm t = .ok re ∧
      (∃ p ∈ re.engine (encStr (x :: t.content)), p.1 = blen [x]) ∧
      ∀ p ∈ re.engine (encStr (x :: t.content)), blen [x] ≤ p.1 := by
  obtain ⟨re, e, hre⟩ := C92_strip_partial wordChar norm t h1 (by rw [hc]; simp)
  have hge : ∀ p ∈ re.engine (encStr (x :: t.content)), blen [x] ≤ p.1 := by
    intro p hp
    obtain ⟨u, a, w, b, v, e1, e2, e3, e4, _⟩ := (hre _).sound p hp
    rw [e2]
    dsimp only
    cases u with
    | cons z u =>
      simp only [List.cons_append, List.cons.injEq] at e1
      rw [← e1.1, blen_cons, blen_cons]
      simp [blen]
    | nil =>
      exfalso
      have e3 : w = t.content := e3
      rw [e3, hc] at e1
      rcases e4 with rfl | ⟨_, z, hz, rfl⟩
      · simp only [List.nil_append, List.cons_append, List.cons.injEq] at e1
        exact hne e1.1
      · simp only [List.nil_append, List.cons_append, List.cons.injEq] at e1
        rw [← e1.1] at hz
        simp only [isS, decide_eq_true_eq] at hz
        rcases hz with rfl | rfl | rfl | rfl | rfl <;> revert hx <;> decide
  refine ⟨re, e, ?_, hge⟩
  obtain ⟨p, hp, h2, _⟩ := (hre (x :: t.content)).complete [x] t.content [] (by simp) rfl
  have := hge p hp
  exact ⟨p, hp, by omega⟩

/-- Two blanks before `[M]`, with both options. -/
example : (stripped true true (.lit "[M]".toList)).engine (encStr "a  [M] \n b".toList) = [(2, 7)] := by
  decide +kernel

/-! ### C93 -/

theorem getPattern_word {wordChar : Char → Bool} {norm : Option (NStr → Res NStr)} {t : AddedToken}
    (h1 : t.singleWord = true) {a b : Char} {w : Str} (ha : t.content.head? = some a) (hb : t.content.getLast? = some b)
    (hw : normContent norm t.content = .ok w) :
    getPattern wordChar norm t =
      .ok (stripped t.lstrip t.rstrip (.seq (boundIf wordChar a) (.seq (.lit w) (boundIf wordChar b)))) := by
  cases hc : t.content with
  | nil => rw [hc] at ha; cases ha
  | cons c cs =>
    rw [hc] at ha hb hw
    simp only [List.head?_cons, Option.some.injEq] at ha
    rw [List.getLast?_eq_some_getLast (by simp), Option.some.injEq] at hb
    simp only [getPattern, core, h1, if_true, hc, hw, Res.bind_ok]
    rw [← ha, ← hb]

/-- C93, the part that holds: when the first and the last character of the content are ASCII letters,
digits or `_`, the content is found exactly where no such character is beside it (with white space as
in C92).
Missing from the full property: contents that begin or end otherwise, and letters outside ASCII beside
the content. -/
theorem C93_word_partial (wordChar : Char → Bool) (hwc : ∀ c, isW c = true → wordChar c = true)
    (norm : Option (NStr → Res NStr)) (t : AddedToken) (h1 : t.singleWord = true) (a b : Char)
    (ha : t.content.head? = some a) (hb : t.content.getLast? = some b) (haw : isW a = true) (hbw : isW b = true)
    (hn : Gives norm t.content t.content) :
    ∃ re, getPattern wordChar norm t = .ok re ∧
      ∀ s, StrippedOf t.lstrip t.rstrip (fun u w v => w = t.content ∧ Alone u v) s (re.engine (encStr s)) := by
  have hc : t.content ≠ [] := by intro h; rw [h] at ha; cases ha
  refine ⟨_, getPattern_word h1 ha hb hn.content, fun s => ?_⟩
  have h := word_spec wordChar a b hc t.lstrip t.rstrip s
  have hat : (fun (u m v : Str) => m = t.content ∧ boundOk (wordChar a) u.getLast? t.content.head? ∧
      boundOk (wordChar b) t.content.getLast? v.head?) = (fun u m v => m = t.content ∧ Alone u v) := by
    funext u m v
    apply propext
    unfold Alone boundOk atBound
    rw [hwc a haw, hwc b hbw, ha, hb, Option.any_some, Option.any_some, haw, hbw]
    cases u.getLast?.any isW <;> cases v.head?.any isW <;> simp
  rw [hat] at h
  exact h

example : (stripped false false (.seq (boundIf isW 'a') (.seq (.lit "ab".toList) (boundIf isW 'b')))).engine
    (encStr "ab abc,ab xab".toList) = [(0, 2), (7, 9)] := by
  decide +kernel

/-- C93 is violated for every content that begins with a word character (of `isWordCharacter`: a letter
or mark outside ASCII, or punctuation such as `[`) that `\w` does not have: it is found only directly
after an ASCII letter, digit or `_`; so not at the start of a text and not after white space. -/
theorem C93_violated (wordChar : Char → Bool) (norm : Option (NStr → Res NStr)) (t : AddedToken)
    (h1 : t.singleWord = true) (h2 : t.lstrip = false) (h3 : t.rstrip = false) (a : Char)
    (ha : t.content.head? = some a) (haw : isW a = false) (hwa : wordChar a = true)
    (hn : Gives norm t.content t.content) :
    ∃ re, getPattern wordChar norm t = .ok re ∧
      (∀ s, ∀ p ∈ re.engine (encStr s), ∃ u x v, s = u ++ [x] ++ t.content ++ v ∧ p.1 = blen (u ++ [x]) ∧ isW x = true) ∧
      re.engine (encStr t.content) = [] ∧ re.engine (encStr (' ' :: t.content)) = [] := by
  have hc : t.content ≠ [] := by intro h; rw [h] at ha; cases ha
  have hb : t.content.getLast? = some (t.content.getLast hc) := List.getLast?_eq_some_getLast hc
  have hs : ∀ s, ∀ p ∈ (stripped t.lstrip t.rstrip (.seq (boundIf wordChar a)
      (.seq (.lit t.content) (boundIf wordChar (t.content.getLast hc))))).engine (encStr s),
      ∃ u x v, s = u ++ [x] ++ t.content ++ v ∧ p.1 = blen (u ++ [x]) ∧ isW x = true := by
    intro s p hp
    rw [h2, h3] at hp
    obtain ⟨u, w, v, e1, e2, e3, e4, _⟩ := (word_spec wordChar a _ hc false false s).leftmost.sound p hp
    unfold boundOk atBound at e4
    have e6 := e4 hwa
    rw [ha, Option.any_some, haw] at e6
    cases hl : u.getLast? with
    | none => rw [hl] at e6; simp at e6
    | some x =>
      rw [hl] at e6
      simp only [Option.any_some, bne_iff_ne, ne_eq, Bool.not_eq_false] at e6
      obtain ⟨u', rfl⟩ := List.getLast?_eq_some_iff.mp hl
      exact ⟨u', x, v, by rw [e1, e3], by rw [e2], e6⟩
  refine ⟨_, getPattern_word h1 ha hb hn.content, hs, ?_, ?_⟩
  · rw [List.eq_nil_iff_forall_not_mem]
    intro p hp
    obtain ⟨u, x, v, e, _⟩ := hs _ p hp
    have := congrArg List.length e
    simp only [List.length_append, List.length_cons, List.length_nil] at this
    omega
  · rw [List.eq_nil_iff_forall_not_mem]
    intro p hp
    obtain ⟨u, x, v, e, _, hx⟩ := hs _ p hp
    have := congrArg List.length e
    simp only [List.length_append, List.length_cons, List.length_nil] at this
    have hu : u = [] := List.length_eq_zero_iff.mp (by omega)
    subst hu
    simp only [List.nil_append, List.cons_append, List.cons.injEq] at e
    rw [← e.1] at hx
    exact absurd hx (by decide)

/-- C93 is violated for letters outside ASCII beside the content: `ab` is found in `abé`. -/
theorem C93_letters_violated (wordChar : Char → Bool) (hwc : ∀ c, isW c = true → wordChar c = true)
    (norm : Option (NStr → Res NStr)) (t : AddedToken) (h1 : t.singleWord = true) (a b : Char)
    (ha : t.content.head? = some a) (hb : t.content.getLast? = some b) (haw : isW a = true) (hbw : isW b = true)
    (hn : Gives norm t.content t.content) (x : Char) (hx : 128 ≤ x.toNat) :
    ∃ re, getPattern wordChar norm t = .ok re ∧ ∃ p ∈ re.engine (encStr (t.content ++ [x])), p.1 = 0 := by
  obtain ⟨re, e, h⟩ := C93_word_partial wordChar hwc norm t h1 a b ha hb haw hbw hn
  refine ⟨re, e, ?_⟩
  have hxw : isW x = false := by
    simp only [isW, decide_eq_false_iff_not, Char.le_def, UInt32.le_iff_toNat_le]
    have : x.val.toNat = x.toNat := rfl
    have h1 : '9'.val.toNat = 57 := rfl
    have h2 : 'Z'.val.toNat = 90 := rfl
    have h3 : 'z'.val.toNat = 122 := rfl
    rintro (⟨_, h⟩ | ⟨_, h⟩ | ⟨_, h⟩ | h)
    · omega
    · omega
    · omega
    · subst h; revert hx; decide
  obtain ⟨p, hp, h2, _⟩ := (h (t.content ++ [x])).complete [] t.content [x] (by simp) ⟨rfl, rfl, by simp [hxw]⟩
  exact ⟨p, hp, by simpa using h2⟩

/-- A single word with an empty content ends the process. -/
theorem C93_empty_violated (wordChar : Char → Bool) (norm : Option (NStr → Res NStr)) (t : AddedToken)
    (h1 : t.singleWord = true) (hc : t.content = []) : getPattern wordChar norm t = .panic := by
  simp only [getPattern, core, h1, if_true, hc]
  rfl

/-! ### C94 -/

/-- C94, the part that holds: for a content that the normalizer leaves as it is, the expression does
not depend on the normalizer.
Missing from the full property: other contents. -/
theorem C94_normal_partial (wordChar : Char → Bool) (f : NStr → Res NStr) (t : AddedToken)
    (hn : Gives (some f) t.content t.content) :
    getPattern wordChar (some f) t = getPattern wordChar none t := by
  have hn := hn.content
  unfold getPattern core
  cases t.singleWord with
  | false => rfl
  | true =>
    cases hc : t.content with
    | nil => rfl
    | cons c cs =>
      rw [hc] at hn
      simp only [if_true, hn]
      rfl

/-- C94 is violated for every token that is no single word and has a character that the normalizer
never gives (a capital letter, with a lower-casing one): it is found in no normalized text, whatever
its flag `Normalized` says. -/
theorem C94_never_violated (wordChar : Char → Bool) (f : NStr → Res NStr) (t : AddedToken) (c : Char)
    (h1 : t.singleWord = false) (hc : c ∈ t.content)
    (hf : ∀ n n' s, f n = .ok n' → n'.normalized = encStr s → c ∉ s) :
    ∃ re, getPattern wordChar (some f) t = .ok re ∧
      ∀ n n' s, f n = .ok n' → n'.normalized = encStr s → re.engine n'.normalized = [] := by
  obtain ⟨re, e, h⟩ := C92_strip_partial wordChar (some f) t h1 (by intro h; rw [h] at hc; cases hc)
  refine ⟨re, e, ?_⟩
  intro n n' s hn hs
  rw [hs, List.eq_nil_iff_forall_not_mem]
  intro p hp
  obtain ⟨u, a, w, b, v, e1, _, e3, _⟩ := (h s).sound p hp
  have e3 : w = t.content := e3
  refine hf n n' s hn hs ?_
  rw [e1, e3]
  simp [hc]

/-- C94 is violated for every single word that is to be searched in the text as it is, when the
normalizer changes its content into a text that the content does not contain: the token is not found
where its content stands, and it is found where the changed content stands. -/
theorem C94_raw_violated (wordChar : Char → Bool) (f : NStr → Res NStr) (t : AddedToken) (h1 : t.singleWord = true) (h2 : t.lstrip = false) (h3 : t.rstrip = false)
    (a b a' b' : Char) (w : Str) (ha : t.content.head? = some a) (hb : t.content.getLast? = some b)
    (hn : Gives (some f) t.content w) (ha' : w.head? = some a') (hb' : w.getLast? = some b')
    (haw : isW a' = true) (hbw : isW b' = true)
    (hno : ∀ u v, t.content ≠ u ++ w ++ v) :
    ∃ re, getPattern wordChar (some f) t = .ok re ∧ re.engine (encStr t.content) = [] ∧
      ∃ p ∈ re.engine (encStr w), p = (0, blen w) := by
  have hw : w ≠ [] := by intro h; rw [h] at ha'; cases ha'
  have hs := fun s => (word_spec wordChar a b hw false false s).leftmost
  refine ⟨_, getPattern_word h1 ha hb hn.content, ?_, ?_⟩
  · rw [h2, h3, List.eq_nil_iff_forall_not_mem]
    intro p hp
    obtain ⟨u, m, v, e1, _, e3, _⟩ := (hs _).sound p hp
    rw [e3] at e1
    exact hno u v e1
  · rw [h2, h3]
    obtain ⟨p, hp, h4, h5⟩ := (hs w).complete [] w [] (by simp)
      ⟨rfl, by unfold boundOk atBound; rw [ha', Option.any_some, haw]; simp,
        by unfold boundOk atBound; rw [hb', Option.any_some, hbw]; simp⟩
    refine ⟨p, hp, ?_⟩
    obtain ⟨u, m, v, e1, e2, e3, _⟩ := (hs w).sound p hp
    subst e3
    have := congrArg List.length e1
    simp only [List.length_append] at this
    have hu : u = [] := List.length_eq_zero_iff.mp (by omega)
    rw [e2, hu]
    simp

/-- A normalizer that lower-cases changes `AB` into `ab`, which `AB` does not contain. -/
example : Gives (some fun n => .ok (newNStr (encStr ((decStr n.normalized).map Char.toLower)))) "AB".toList
    "ab".toList := .inr ⟨_, _, rfl, rfl, by decide +kernel⟩

end Tok.Added
