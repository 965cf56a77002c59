import Verif.Norm.PropsSplit

/-! Cutting a text between characters that do not belong together. -/

namespace Tok.Norm

/-! ### Specification -/

/-- The text cut between adjacent characters that `r` does not hold together. -/
def runs (r : Char → Char → Bool) : Str → List Str
  | [] => []
  | c :: s =>
    match runs r s with
    | (d :: p) :: ps => if r c d then (c :: d :: p) :: ps else [c] :: (d :: p) :: ps
    | _ => [[c]]

/-- Every two adjacent characters are held together. -/
def Linked (r : Char → Char → Bool) : Str → Prop
  | c :: d :: s => r c d = true ∧ Linked r (d :: s)
  | _ => True

/-- Which adjacent characters a behaviour holds together: `Isolated` and `Removed` those that do not
match, `Contiguous` those that both do or both do not; a match goes with the text before it, or
after it. -/
def together (f : Char → Bool) : Behavior → Char → Char → Bool
  | .isolated, a, b => !f a && !f b
  | .removed, a, b => !f a && !f b
  | .contiguous, a, b => f a == f b
  | .mergedWithPrevious, a, _ => !f a
  | .mergedWithNext, _, b => !f b

/-- The pieces of a text: cut between characters that are not held together; `Removed` drops the
matches. -/
def pieces (f : Char → Bool) (b : Behavior) (s : Str) : List Str :=
  if b = .removed then (runs (together f b) s).filter (fun w => !w.any f) else runs (together f b) s

/-! ### Lemmas -/

theorem runs_cons (r : Char → Char → Bool) (c : Char) (s : Str) :
    (s = [] ∧ runs r (c :: s) = [[c]]) ∨ (∃ d s' p ps, s = d :: s' ∧ runs r s = (d :: p) :: ps ∧
      runs r (c :: s) = if r c d then (c :: d :: p) :: ps else [c] :: (d :: p) :: ps) := by
  induction s generalizing c with
  | nil => exact .inl ⟨rfl, rfl⟩
  | cons d s ih =>
    refine .inr ?_
    rcases ih d with ⟨rfl, h⟩ | ⟨e, s', p, ps, rfl, h1, h2⟩
    · exact ⟨d, [], [], [], rfl, h, by rw [runs, h]⟩
    · by_cases hr : r d e = true
      · rw [if_pos hr] at h2
        exact ⟨d, e :: s', e :: p, ps, rfl, h2, by rw [runs, h2]⟩
      · rw [if_neg hr] at h2
        exact ⟨d, e :: s', [], (e :: p) :: ps, rfl, h2, by rw [runs, h2]⟩

theorem runs_flatten (r : Char → Char → Bool) (s : Str) : (runs r s).flatten = s := by
  induction s with
  | nil => rfl
  | cons c s ih =>
    rcases runs_cons r c s with ⟨rfl, h⟩ | ⟨d, s', p, ps, e, h1, h2⟩
    · rw [h]; rfl
    · rw [h2]
      rw [h1] at ih
      split
      · rw [List.flatten_cons, List.cons_append, ← ih]; rfl
      · rw [List.flatten_cons, ih]; rfl

theorem runs_ne (r : Char → Char → Bool) (s : Str) : ∀ w ∈ runs r s, w ≠ [] := by
  induction s with
  | nil => simp [runs]
  | cons c s ih =>
    rcases runs_cons r c s with ⟨rfl, h⟩ | ⟨d, s', p, ps, e, h1, h2⟩
    · rw [h]; simp
    · rw [h2]
      rw [h1] at ih
      intro w hw
      split at hw
      · rcases List.mem_cons.mp hw with rfl | hw
        · simp
        · exact ih w (by simp [hw])
      · rcases List.mem_cons.mp hw with rfl | hw
        · simp
        · exact ih w hw

theorem runs_linked (r : Char → Char → Bool) (s : Str) : ∀ w ∈ runs r s, Linked r w := by
  induction s with
  | nil => simp [runs]
  | cons c s ih =>
    rcases runs_cons r c s with ⟨rfl, h⟩ | ⟨d, s', p, ps, e, h1, h2⟩
    · rw [h]; intro w hw; simp at hw; subst hw; trivial
    · rw [h2]
      rw [h1] at ih
      intro w hw
      split at hw
      · next hr =>
        rcases List.mem_cons.mp hw with rfl | hw
        · exact ⟨hr, ih _ (by simp)⟩
        · exact ih w (by simp [hw])
      · rcases List.mem_cons.mp hw with rfl | hw
        · trivial
        · exact ih w hw

/-- A linked text in front is one piece, alone or together with the first piece of the rest. -/
theorem runs_block (r : Char → Char → Bool) (a : Str) (l : Char) (t : Str) (hl : Linked r (a ++ [l])) :
    (t = [] → runs r (a ++ [l] ++ t) = [a ++ [l]]) ∧
    ∀ d t', t = d :: t' → r l d = false → runs r (a ++ [l] ++ t) = (a ++ [l]) :: runs r t := by
  induction a with
  | nil =>
    refine ⟨fun h => by subst h; rfl, fun d t' h hr => ?_⟩
    subst h
    rcases runs_cons r l (d :: t') with ⟨h, _⟩ | ⟨d', s', p, ps, e, h1, h2⟩
    · cases h
    · cases e
      rw [hr] at h2
      show runs r (l :: d :: t') = _
      rw [h2, h1]
      rfl
  | cons c a ih =>
    have hl' : Linked r (a ++ [l]) := by
      cases a with
      | nil => trivial
      | cons e a => exact hl.2
    have hc : ∀ e x, a ++ [l] = e :: x → r c e = true := by
      intro e x hx
      rw [List.cons_append, hx] at hl
      exact hl.1
    obtain ⟨i1, i2⟩ := ih hl'
    cases hx : a ++ [l] with
    | nil => simp at hx
    | cons e x =>
      have hce := hc e x hx
      rw [hx] at i1 i2
      refine ⟨fun h => ?_, fun d t' h hr => ?_⟩
      · rw [List.cons_append, hx, List.cons_append, runs, i1 h]
        simp [hce]
      · rw [List.cons_append, hx, List.cons_append, runs, i2 d t' h hr]
        simp [hce]

theorem linked_snoc {r : Char → Char → Bool} {a : Str} {l c : Char} (h : Linked r (a ++ [l])) (hr : r l c = true) :
    Linked r (a ++ [l] ++ [c]) := by
  induction a with
  | nil => exact ⟨hr, trivial⟩
  | cons x a ih =>
    cases a with
    | nil => exact ⟨h.1, hr, trivial⟩
    | cons y a => exact ⟨h.1, ih h.2⟩

theorem linked_append {r : Char → Char → Bool} {b : Str} (hb : Linked r b) : ∀ {a : Str} {l : Char},
    Linked r (a ++ [l]) → (∀ c ∈ b.head?, r l c = true) → Linked r (a ++ [l] ++ b) := by
  induction b with
  | nil => intro a l h _; simpa using h
  | cons c b ih =>
    intro a l h hr
    have h1 := linked_snoc h (hr c (by simp))
    have := ih (by cases b with
      | nil => trivial
      | cons d b => exact hb.2) h1 (by
        intro d hd
        cases b with
        | nil => simp at hd
        | cons d' b =>
          simp at hd
          subst hd
          exact hb.1)
    simpa using this

theorem linked_all {r : Char → Char → Bool} {b : Str} (h : ∀ x ∈ b, ∀ y ∈ b, r x y = true) : Linked r b := by
  induction b with
  | nil => trivial
  | cons c b ih =>
    cases b with
    | nil => trivial
    | cons d b => exact ⟨h c (by simp) d (by simp), ih (fun x hx y hy => h x (by simp [hx]) y (by simp [hy]))⟩

/-! ### Joining the spans of a pattern -/

/-- Joining adjacent pieces; the first arguments are the text and the flag of the last one so far. -/
def glue (join : Bool → Bool → Bool) : Str → Bool → List (Str × Bool) → List Str
  | acc, _, [] => [acc]
  | acc, f, (t, f') :: us => if join f f' then glue join (acc ++ t) f' us else acc :: glue join t f' us

theorem regroup_glue (join : Bool → Bool → Bool) (us : List (Str × Bool)) : ∀ (pre acc : Str) (f : Bool) (k : Nat) (post : Str),
    (regroupFrom join (blen pre) ⟨k, blen (pre ++ acc), f⟩ (spansAt (blen (pre ++ acc)) us)).map
        (cutOut (encStr (pre ++ acc ++ (us.map (·.1)).flatten ++ post))) = (glue join acc f us).map encStr := by
  induction us with
  | nil =>
    intro pre acc f k post
    simp only [spansAt, regroupFrom, List.map_cons, List.map_nil, glue, List.flatten_nil, List.append_nil, List.cons.injEq, and_true]
    exact cutOut_enc pre acc post
  | cons u us ih =>
    intro pre acc f k post
    obtain ⟨t, f'⟩ := u
    simp only [spansAt, regroupFrom, glue, List.map_cons, List.flatten_cons]
    split
    · have := ih pre (acc ++ t) f' (blen (pre ++ acc)) post
      rw [show blen (pre ++ (acc ++ t)) = blen (pre ++ acc) + blen t by rw [← List.append_assoc, blen_append]] at this
      rw [← this]
      simp
    · have := ih (pre ++ acc) t f' (blen (pre ++ acc)) post
      rw [show blen ((pre ++ acc) ++ t) = blen (pre ++ acc) + blen t by rw [blen_append]] at this
      rw [List.map_cons, List.map_cons, ← this]
      congr 1
      · have := cutOut_enc pre acc (t ++ (us.map (·.1)).flatten ++ post)
        rw [← this]
        simp
      · simp

theorem together_joins (f : Char → Bool) (b : Behavior) (x y : Char) (h : f x = true ∨ f y = true) :
    together f b x y = joins b (f x) (f y) := by
  cases b <;> cases hx : f x <;> cases hy : f y <;> simp_all [together, joins]

theorem together_none (f : Char → Bool) (b : Behavior) (x y : Char) (hx : f x = false) (hy : f y = false) :
    together f b x y = true := by
  cases b <;> simp [together, hx, hy]

theorem glue_runs (f : Char → Bool) (b : Behavior) {s : Str} {us : List (Str × Bool)} (h : FnCut f s us) :
    ∀ (a : Str) (l : Char), Linked (together f b) (a ++ [l]) → (f l = false → ∀ c ∈ s.head?, f c = true) →
      glue (joins b) (a ++ [l]) (f l) us = runs (together f b) (a ++ [l] ++ s) := by
  induction h with
  | nil =>
    intro a l hl _
    rw [(runs_block _ a l [] hl).1 rfl]
    rfl
  | hit c s us hc hcut ih =>
    intro a l hl _
    have hj := together_joins f b l c (.inr hc)
    rw [hc] at hj
    have hf : f c = false → ∀ d ∈ s.head?, f d = true := fun h => by rw [hc] at h; cases h
    rw [glue]
    cases hr : together f b l c with
    | true =>
      rw [← hj, hr, if_pos rfl]
      have := ih (a ++ [l]) c (linked_snoc hl hr) hf
      rw [hc] at this
      rw [this]
      simp
    | false =>
      rw [← hj, hr, if_neg (by simp)]
      have := ih [] c trivial hf
      rw [hc] at this
      rw [(runs_block _ a l (c :: s) hl).2 c s rfl hr]
      exact congrArg _ this
  | run w s us hne hw hs hcut ih =>
    intro a l hl hlast
    cases w with
    | nil => exact absurd rfl hne
    | cons d w =>
      have hd := hw d (by simp)
      have hfl : f l = true := by
        cases hf : f l with
        | true => rfl
        | false =>
          have := hlast hf d (by simp)
          rw [hd] at this; cases this
      have hj := together_joins f b l d (.inl hfl)
      rw [hd] at hj
      obtain ⟨w', e, hwe⟩ : ∃ w' e, d :: w = w' ++ [e] := ⟨_, _, (List.dropLast_concat_getLast (by simp)).symm⟩
      have hfe : f e = false := hw e (by rw [hwe]; simp)
      have hlw : Linked (together f b) (d :: w) := linked_all (fun x hx y hy => together_none f b x y (hw x hx) (hw y hy))
      rw [glue]
      cases hr : together f b l d with
      | true =>
        rw [← hj, hr, if_pos rfl]
        have := ih (a ++ [l] ++ w') e (by
          have := linked_append hlw hl (by simpa using hr)
          rw [hwe] at this
          simpa using this) (fun _ => hs)
        rw [hfe] at this
        rw [hwe, ← List.append_assoc, this]
        simp
      | false =>
        rw [← hj, hr, if_neg (by simp)]
        have := ih w' e (by rw [← hwe]; exact hlw) (fun _ => hs)
        rw [hfe] at this
        rw [(runs_block _ a l (d :: w ++ s) hl).2 d (w ++ s) rfl hr, hwe, this]

theorem glue_none (us : List (Str × Bool)) : ∀ acc f, glue (fun _ _ => false) acc f us = acc :: us.map (·.1) := by
  induction us with
  | nil => intro acc f; rfl
  | cons u us ih => intro acc f; obtain ⟨t, f'⟩ := u; simp [glue, ih]

theorem fnCut_any {f : Char → Bool} {s : Str} {us : List (Str × Bool)} (h : FnCut f s us) :
    ∀ u ∈ us, u.1.any f = u.2 := by
  induction h with
  | nil => simp
  | hit c s us hc _ ih =>
    intro u hu
    rcases List.mem_cons.mp hu with rfl | hu
    · simp [hc]
    · exact ih u hu
  | run w s us _ hw _ _ ih =>
    intro u hu
    rcases List.mem_cons.mp hu with rfl | hu
    · rw [List.any_eq_false]
      intro c hc
      simp [hw c hc]
    · exact ih u hu

theorem glue_all (f : Char → Bool) (b : Behavior) {s : Str} {t : Str} {fl : Bool} {us : List (Str × Bool)}
    (h : FnCut f s ((t, fl) :: us)) : glue (joins b) t fl us = runs (together f b) s := by
  cases h with
  | hit c s us hc hcut =>
    have := glue_runs f b hcut [] c trivial (fun h => by rw [hc] at h; cases h)
    rw [hc] at this
    exact this
  | run w s us hne hw hs hcut =>
    obtain ⟨w', e, hwe⟩ : ∃ w' e, t = w' ++ [e] := ⟨_, _, (List.dropLast_concat_getLast hne).symm⟩
    have hfe : f e = false := hw e (by rw [hwe]; simp)
    have hlw : Linked (together f b) t := linked_all (fun x hx y hy => together_none f b x y (hw x hx) (hw y hy))
    have := glue_runs f b hcut w' e (by rw [← hwe]; exact hlw) (fun _ => hs)
    rw [hfe, ← hwe] at this
    exact this

/-- The texts at the spans that `Split` keeps. -/
theorem spans_pieces (f : Char → Bool) (b : Behavior) {s : Str} {us : List (Str × Bool)} (h : FnCut f s us) :
    (if b = .removed then ((spansAt 0 us).filter (fun m => !m.isMatch)).map (fun m => (m.start, m.stop))
        else regroup (joins b) (spansAt 0 us)).map (cutOut (encStr s)) = (pieces f b s).map encStr := by
  have hflat := fnCut_flatten h
  have hiso : (runs (together f .removed) s) = us.map (·.1) := by
    cases us with
    | nil =>
      rw [← hflat]; rfl
    | cons u us =>
      obtain ⟨t, fl⟩ := u
      rw [← glue_all f .removed h]
      exact glue_none us t fl
  unfold pieces
  by_cases hb : b = .removed
  · subst hb
    simp only [if_true]
    rw [hiso]
    have key : ∀ (us : List (Str × Bool)) (pre post : Str), (∀ u ∈ us, u.1.any f = u.2) →
        (((spansAt (blen pre) us).filter (fun m => !m.isMatch)).map (fun m => (m.start, m.stop))).map
          (cutOut (encStr (pre ++ (us.map (·.1)).flatten ++ post))) =
        ((us.map (·.1)).filter (fun w => !w.any f)).map encStr := by
      intro us
      induction us with
      | nil => intro pre post _; rfl
      | cons u us ih =>
        intro pre post hu
        obtain ⟨t, fl⟩ := u
        have h0 := hu (t, fl) (by simp)
        have := ih (pre ++ t) post (fun u h => hu u (by simp [h]))
        rw [blen_append] at this
        simp only [spansAt, List.map_cons, List.filter_cons, List.flatten_cons]
        dsimp only at h0
        rw [h0]
        have e : pre ++ t ++ (us.map (·.1)).flatten ++ post = pre ++ (t ++ (us.map (·.1)).flatten) ++ post := by simp
        rw [e] at this
        cases fl with
        | true => simpa using this
        | false =>
          simp only [Bool.not_false, if_true, List.map_cons, this]
          congr 1
          have := cutOut_enc pre t ((us.map (·.1)).flatten ++ post)
          rw [blen_append] at this
          rw [← this]
          simp
    have := key us [] [] (fnCut_any h)
    rw [hflat] at this
    simpa using this
  · rw [if_neg hb, if_neg hb]
    cases us with
    | nil => rw [← hflat]; rfl
    | cons u us =>
      obtain ⟨t, fl⟩ := u
      have := regroup_glue (joins b) us [] t fl 0 []
      rw [glue_all f b h] at this
      rw [← this]
      simp only [List.map_cons, List.flatten_cons] at hflat
      rw [← hflat]
      simp [spansAt, regroup]

/-- The flags and the pieces only depend on the characters. -/
theorem split_fn_pieces {n : NStr} (hw : WF n) {s : Str} (hs : n.normalized = encStr s) (hne : s ≠ [])
    (f : Char → Bool) (b : Behavior) :
    ∃ xs, n.split (.fn f) b = .ok xs ∧ xs.map (·.normalized) = (pieces f b s).map encStr ∧ ∀ x ∈ xs, WF x := by
  obtain ⟨us, hcut⟩ := fnCut_exists f s
  have hfind := C43_fn f s hne us hcut
  have hflat := fnCut_flatten hcut
  have hlen : n.normalized.length = blen s := by rw [hs, length_encStr]
  have htile : Tiles 0 n.normalized.length (spansAt 0 us) := by
    have := C43_fn_tiles f s
    rw [hfind] at this
    rw [hlen]; exact this
  have hbd : ∀ m ∈ spansAt 0 us, m.start < m.stop ∧ Boundary s m.start ∧ Boundary s m.stop := by
    have := spansAt_bounds us (fnCut_ne hcut) []
    rw [hflat] at this
    exact this
  obtain ⟨xs, h1, h2, _⟩ := C44_split hw hs (.fn f) b (spansAt 0 us) (by simp only [Pat.find]; rw [hs, hfind]) htile hbd
  refine ⟨xs, h1, ?_, ?_⟩
  · rw [h2.texts, hs]
    exact spans_pieces f b hcut
  · have : ∀ (qs : List (Nat × Nat)) (xs : List NStr), SlicesOf n qs xs → ∀ x ∈ xs, WF x := by
      intro qs
      induction qs with
      | nil => intro xs h; cases xs with
        | nil => simp
        | cons x xs => exact h.elim
      | cons q qs ih => intro xs h; cases xs with
        | nil => simp
        | cons x xs =>
          obtain ⟨_, h2, h3⟩ := h
          intro y hy
          rcases List.mem_cons.mp hy with rfl | hy
          · exact h2
          · exact ih xs h3 y hy
    exact this _ _ h2

end Tok.Norm
