import Verif.Norm.Overrun
import Verif.Norm.PropsNormalized

/-!
# C41, C42: exactly when removing characters panics

`TransformRange` counts the bytes of the characters to replace from the start of the text, although
it starts at the byte after the removed leading characters.  When the leading characters have more
bytes than those it should have counted, it looks beyond the end of the text.
-/

namespace Tok.Norm

/-- C41, when removal at the start works: on every text without NUL, a change list that finds its
characters panics exactly when some change overruns the text (`Overruns`), and otherwise gives the
listed text. -/
theorem C41_removed_iff (cs : Str) (items : List (Str × Int)) (k : Nat)
    (huse : k + usesAll items ≤ cs.length) (hz : '\x00' ∉ cs) :
    ((newNStr (encStr cs)).transform items k = .panic ↔ Overruns cs k items) ∧
    ((∃ n', (newNStr (encStr cs)).transform items k = .ok n' ∧
      n'.normalized = encStr (items.map (·.1)).flatten) ↔ ¬ Overruns cs k items) := by
  obtain ⟨h1, h2⟩ := transform_cases cs items k (by omega) (by omega) hz
  constructor
  · refine ⟨fun h => ?_, h1⟩
    apply Classical.byContradiction
    intro hn
    obtain ⟨n', hn'⟩ := h2 hn
    rw [hn'] at h; cases h
  · constructor
    · rintro ⟨n', hn', -⟩ ho
      rw [h1 ho] at hn'; cases hn'
    · intro hn
      obtain ⟨n', hn'⟩ := h2 hn
      exact ⟨n', hn', (C41_removed_partial cs items k huse n' hn').1⟩

/-! ### Filter -/

/-- The change list of `Filter`, from the front. -/
def filterFront (fn : Char → Bool) : Str → List (Str × Int) × Nat
  | [] => ([], 0)
  | c :: cs =>
    let r := filterFront fn cs
    if fn c then (([c], -(r.2 : Int)) :: r.1, 0) else (r.1, r.2 + 1)

theorem filterLoop_snoc (fn : Char → Bool) (xs : List Char) (c : Char) :
    ∀ (r : Nat) (acc : List (Str × Int)), filterLoop fn (xs ++ [c]) r acc =
      if fn c then (([c], -((filterLoop fn xs r acc).2 : Int)) :: (filterLoop fn xs r acc).1, 0)
      else ((filterLoop fn xs r acc).1, (filterLoop fn xs r acc).2 + 1) := by
  induction xs with
  | nil =>
    intro r acc
    simp only [List.nil_append, filterLoop]
    by_cases h : fn c
    · simp only [h, if_true]
      split
      · rfl
      · have : r = 0 := by omega
        subst this; rfl
    · simp [h]
  | cons x xs ih =>
    intro r acc
    simp only [List.cons_append, filterLoop]
    by_cases h : fn x
    · simp only [h, if_true]
      split
      · exact ih _ _
      · exact ih _ _
    · simp only [h]
      exact ih _ _

theorem filterLoop_front (fn : Char → Bool) (cs : Str) :
    filterLoop fn cs.reverse 0 [] = filterFront fn cs := by
  induction cs with
  | nil => rfl
  | cons c cs ih => rw [List.reverse_cons, filterLoop_snoc, ih, filterFront]

theorem filterFront_lead (fn : Char → Bool) (cs : Str) :
    (filterFront fn cs).2 = (cs.takeWhile (fun c => !fn c)).length := by
  rw [← filterLoop_front]; exact (filter_items fn cs).2.2

theorem filterFront_uses (fn : Char → Bool) (cs : Str) :
    usesAll (filterFront fn cs).1 + (filterFront fn cs).2 = cs.length := by
  rw [← filterLoop_front]; exact (filter_items fn cs).2.1

theorem filterFront_append (fn : Char → Bool) (y : Str) (hy : (filterFront fn y).2 = 0) (a : Str) :
    filterFront fn (a ++ y) = ((filterFront fn a).1 ++ (filterFront fn y).1, (filterFront fn a).2) := by
  induction a with
  | nil => simp [filterFront, ← hy]
  | cons c a ih =>
    simp only [List.cons_append, filterFront, ih]
    split <;> simp

theorem filterFront_removed (fn : Char → Bool) (g : Str) (h : ∀ c ∈ g, fn c = false) :
    filterFront fn g = ([], g.length) := by
  induction g with
  | nil => rfl
  | cons c g ih =>
    rw [filterFront, ih (fun x hx => h x (by simp [hx]))]
    simp [h c (by simp)]

/-- Every change of `Filter` is a kept character with the removed characters after it. -/
theorem filterFront_split (fn : Char → Bool) (cs : Str) :
    ∀ (pre post : List (Str × Int)) (item : Str × Int),
    (filterFront fn cs).1 = pre ++ item :: post →
    ∃ a c g b, cs = cs.takeWhile (fun c => !fn c) ++ (a ++ c :: (g ++ b)) ∧ fn c = true ∧
      (∀ x ∈ g, fn x = false) ∧ (∀ x, b.head? = some x → fn x = true) ∧
      usesAll pre = a.length ∧ item = ([c], -(g.length : Int)) := by
  induction cs with
  | nil => intro pre post item h; simp [filterFront] at h
  | cons c cs ih =>
    intro pre post item h
    rw [filterFront] at h
    by_cases hc : fn c = true
    · simp only [hc, if_true] at h
      rw [List.takeWhile_cons]
      simp only [hc, Bool.not_true, Bool.false_eq_true, if_false]
      cases pre with
      | nil =>
        simp only [List.nil_append, List.cons.injEq] at h
        obtain ⟨h1, h2⟩ := h
        refine ⟨[], c, cs.takeWhile (fun c => !fn c), cs.dropWhile (fun c => !fn c), ?_, hc, ?_, ?_,
          rfl, ?_⟩
        · simp [List.takeWhile_append_dropWhile]
        · intro x hx
          have := List.all_eq_true.mp List.all_takeWhile x hx
          simpa using this
        · intro x hx
          have := List.head?_dropWhile_not (fun c => !fn c) cs
          rw [hx] at this
          simpa using this
        · rw [← h1, filterFront_lead]
      | cons p pre =>
        simp only [List.cons_append, List.cons.injEq] at h
        obtain ⟨h1, h2⟩ := h
        obtain ⟨a, d, g, b, e1, e2, e3, e4, e5, e6⟩ := ih pre post item h2
        refine ⟨c :: (cs.takeWhile (fun c => !fn c) ++ a), d, g, b, ?_, e2, e3, e4, ?_, e6⟩
        · simp only [List.nil_append, List.cons_append, List.append_assoc]
          rw [← e1]
        · rw [usesAll_cons, e5, ← h1, filterFront_lead]
          have : uses (-((cs.takeWhile (fun c => !fn c)).length : Int)) =
              1 + (cs.takeWhile (fun c => !fn c)).length := by
            unfold uses; rw [if_neg (by omega)]; omega
          simp only [this, List.length_cons, List.length_append]
          omega
    · simp only [hc] at h
      obtain ⟨a, d, g, b, e1, e2, e3, e4, e5, e6⟩ := ih pre post item h
      refine ⟨a, d, g, b, ?_, e2, e3, e4, e5, e6⟩
      rw [List.takeWhile_cons]
      simp only [hc, Bool.not_false, if_true, List.cons_append]
      rw [← e1]

theorem filterFront_join (fn : Char → Bool) (lead a : Str) (c : Char) (g b : Str)
    (hl : ∀ x ∈ lead, fn x = false) (ha : ∀ x, a.head? = some x → fn x = true) (hc : fn c = true)
    (hg : ∀ x ∈ g, fn x = false) (hb : ∀ x, b.head? = some x → fn x = true) :
    ∃ pre post, (filterFront fn (lead ++ (a ++ c :: (g ++ b)))).1 =
      pre ++ ([c], -(g.length : Int)) :: post ∧ usesAll pre = a.length := by
  have head0 : ∀ y : Str, (∀ x, y.head? = some x → fn x = true) → (filterFront fn y).2 = 0 := by
    intro y hy
    cases y with
    | nil => rfl
    | cons x y => rw [filterFront]; simp [hy x rfl]
  have h1 : filterFront fn (g ++ b) = ((filterFront fn b).1, g.length) := by
    rw [filterFront_append fn b (head0 b hb) g, filterFront_removed fn g hg]; simp
  have h2 : filterFront fn (c :: (g ++ b)) = (([c], -(g.length : Int)) :: (filterFront fn b).1, 0) := by
    rw [filterFront, h1]; simp [hc]
  have h3 : filterFront fn (a ++ c :: (g ++ b)) =
      ((filterFront fn a).1 ++ ([c], -(g.length : Int)) :: (filterFront fn b).1, 0) := by
    rw [filterFront_append fn _ (by rw [h2]) a, h2, head0 a ha]
  refine ⟨(filterFront fn a).1, (filterFront fn b).1, ?_, ?_⟩
  · rw [filterFront_append fn _ (by rw [h3]) lead, h3, filterFront_removed fn lead hl]; simp
  · have := filterFront_uses fn a
    rw [head0 a ha] at this
    omega

/-- `Filter` overruns the text: for some kept character `c` with the removed characters `g` after
it, the bytes counted from the wrong place reach the end of the text, although the count did not
start in the last character. -/
def FilterOverruns (fn : Char → Bool) (cs : Str) : Prop :=
  ∃ a c g b, cs = cs.takeWhile (fun c => !fn c) ++ (a ++ c :: (g ++ b)) ∧ fn c = true ∧ g ≠ [] ∧
    (∀ x ∈ g, fn x = false) ∧ (∀ x, b.head? = some x → fn x = true) ∧
    let i := blen (cs.takeWhile (fun c => !fn c)) + blen (cs.take a.length)
    i < blen cs.dropLast ∧ blen cs ≤ i + blen ((cs.drop (a.length + 1)).take g.length)

/-- C42 (Filter), exactly when it works: on every text without NUL, `Filter` panics when it
overruns the text, and otherwise keeps exactly the characters satisfying the predicate. -/
theorem C42_filter_iff (fn : Char → Bool) (cs : Str) (hz : '\x00' ∉ cs) :
    ((newNStr (encStr cs)).filter fn = .panic ↔ FilterOverruns fn cs) ∧
    ((∃ n', (newNStr (encStr cs)).filter fn = .ok n' ∧ n'.normalized = encStr (cs.filter fn)) ↔
      ¬ FilterOverruns fn cs) := by
  have hr : runes (newNStr (encStr cs)).normalized = cs := runes_encStr cs
  have hu := filterFront_uses fn cs
  have hlead := filterFront_lead fn cs
  have heq : (newNStr (encStr cs)).filter fn =
      (newNStr (encStr cs)).transform (filterFront fn cs).1 (filterFront fn cs).2 := by
    unfold NStr.filter
    rw [hr, filterLoop_front]
  have htxt : ((filterFront fn cs).1.map (·.1)).flatten = cs.filter fn := by
    rw [← filterLoop_front]; exact (filter_items fn cs).1
  obtain ⟨h1, h2⟩ := C41_removed_iff cs (filterFront fn cs).1 (filterFront fn cs).2 (by omega) hz
  rw [heq, h1, ← htxt, h2]
  have ht : cs.take (filterFront fn cs).2 = cs.takeWhile (fun c => !fn c) := by
    rw [hlead]; exact (List.prefix_iff_eq_take.mp (List.takeWhile_prefix _)).symm
  have key : Overruns cs (filterFront fn cs).2 (filterFront fn cs).1 ↔ FilterOverruns fn cs := by
    constructor
    · rintro ⟨pre, item, post, hit, hbad⟩
      obtain ⟨a, c, g, b, e1, e2, e3, e4, e5, e6⟩ := filterFront_split fn cs pre post item hit
      subst e6
      rw [ht, e5] at hbad
      rcases hbad with ⟨hb, -⟩ | ⟨hb, hb1, hb2⟩
      · simp only at hb; omega
      · refine ⟨a, c, g, b, e1, e2, ?_, e3, e4, hb1, ?_⟩
        · rintro rfl; simp at hb
        · simpa [List.tail_drop] using hb2
    · rintro ⟨a, c, g, b, e1, e2, e3, e4, e5, e6, e7⟩
      have ha : ∀ x, a.head? = some x → fn x = true := by
        intro x hx
        have hd : cs.dropWhile (fun c => !fn c) = a ++ c :: (g ++ b) := by
          have := List.takeWhile_append_dropWhile (p := fun c => !fn c) (l := cs)
          exact List.append_cancel_left (this.trans e1)
        have := List.head?_dropWhile_not (fun c => !fn c) cs
        rw [hd, List.head?_append, hx] at this
        simpa using this
      have hl : ∀ x ∈ cs.takeWhile (fun c => !fn c), fn x = false := by
        intro x hx
        have := List.all_eq_true.mp List.all_takeWhile x hx
        simpa using this
      obtain ⟨pre, post, p1, p2⟩ := filterFront_join fn _ a c g b hl ha e2 e4 e5
      rw [← e1] at p1
      refine ⟨pre, _, post, p1, Or.inr ⟨?_, ?_, ?_⟩⟩
      · have : 0 < g.length := List.length_pos_iff.2 e3
        simp only; omega
      · rw [ht, p2]; exact e6
      · rw [ht, p2]; simpa [List.tail_drop] using e7
  rw [key]
  exact ⟨Iff.rfl, Iff.rfl⟩

/-! ### Strip -/

theorem filterMap_id_map (f : α → Option β) (l : List α) :
    (l.map f).filterMap id = l.filterMap f := by
  rw [List.filterMap_map]; rfl

theorem filterMap_range_get (f : α → β) (u : List α) :
    (List.range u.length).filterMap (fun i => (u[i]?).map f) = u.map f := by
  induction u with
  | nil => rfl
  | cons a u ih =>
    rw [List.length_cons, List.range_succ_eq_map, List.filterMap_cons, List.filterMap_map]
    simp only [List.getElem?_cons_zero, Option.map_some, List.map_cons]
    rw [← ih]
    rfl

theorem stripItems_eq (L body T : Str) (hbody : body ≠ []) :
    ∃ c, stripItems (L ++ body ++ T) L.length T.length =
      body.dropLast.map (fun c => ([c], 0)) ++ [([c], -(T.length : Int))] := by
  obtain ⟨c, hc⟩ := blen_dropLast hbody
  generalize body.dropLast = u at hc
  subst hc
  refine ⟨c, ?_⟩
  unfold stripItems
  have hlen : (L ++ (u ++ [c]) ++ T).length = L.length + (u.length + 1) + T.length := by simp; omega
  generalize hcs : L ++ (u ++ [c]) ++ T = cs at *
  rw [hlen]
  have r1 : List.range (L.length + (u.length + 1) + T.length) =
      List.range L.length ++ (List.range u.length).map (L.length + ·) ++ [L.length + u.length] ++
        (List.range T.length).map (L.length + (u.length + 1) + ·) := by
    rw [List.range_add, List.range_add, List.range_succ, List.map_append]
    simp
  rw [r1]
  simp only [List.filterMap_append]
  have f1 : (List.range L.length).filterMap (fun i =>
      if i < L.length ∨ (i : Int) ≥ ((L.length + (u.length + 1) + T.length : Nat) : Int) - T.length then none
      else (cs[i]?).map (fun c => (([c] : Str),
        if (i : Int) = ((L.length + (u.length + 1) + T.length : Nat) : Int) - T.length - 1 then -(T.length : Int) else 0))) = [] := by
    rw [List.filterMap_eq_nil_iff]
    intro i hi
    rw [if_pos (Or.inl (List.mem_range.1 hi))]
  have f4 : ((List.range T.length).map (L.length + (u.length + 1) + ·)).filterMap (fun i =>
      if i < L.length ∨ (i : Int) ≥ ((L.length + (u.length + 1) + T.length : Nat) : Int) - T.length then none
      else (cs[i]?).map (fun c => (([c] : Str),
        if (i : Int) = ((L.length + (u.length + 1) + T.length : Nat) : Int) - T.length - 1 then -(T.length : Int) else 0))) = [] := by
    rw [List.filterMap_eq_nil_iff]
    intro i hi
    obtain ⟨j, -, rfl⟩ := List.mem_map.1 hi
    rw [if_pos (Or.inr (by omega))]
  have f2 : ((List.range u.length).map (L.length + ·)).filterMap (fun i =>
      if i < L.length ∨ (i : Int) ≥ ((L.length + (u.length + 1) + T.length : Nat) : Int) - T.length then none
      else (cs[i]?).map (fun c => (([c] : Str),
        if (i : Int) = ((L.length + (u.length + 1) + T.length : Nat) : Int) - T.length - 1 then -(T.length : Int) else 0))) =
      u.map (fun c => ([c], 0)) := by
    have : ∀ i ∈ List.range u.length, (fun i =>
      if i < L.length ∨ (i : Int) ≥ ((L.length + (u.length + 1) + T.length : Nat) : Int) - T.length then none
      else (cs[i]?).map (fun c => (([c] : Str),
        if (i : Int) = ((L.length + (u.length + 1) + T.length : Nat) : Int) - T.length - 1 then -(T.length : Int) else 0)))
        (L.length + i) = (u[i]?).map (fun c => (([c] : Str), (0 : Int))) := by
      intro i hi
      have hi := List.mem_range.1 hi
      simp only
      rw [if_neg (by omega), if_neg (by omega), ← hcs]
      rw [List.append_assoc, List.getElem?_append_right (by omega), List.append_assoc,
        List.getElem?_append_left (by omega)]
      congr 2; omega
    rw [List.filterMap_map, ← filterMap_id_map]
    refine (congrArg (List.filterMap id) (List.map_congr_left this)).trans ?_
    rw [filterMap_id_map]
    exact filterMap_range_get (fun c => (([c] : Str), (0 : Int))) u
  have f3 : cs[L.length + u.length]? = some c := by
    rw [← hcs, List.append_assoc, List.getElem?_append_right (by omega), List.append_assoc,
      List.getElem?_append_right (by omega)]
    simp
  rw [f1, f2, f4]
  simp only [List.nil_append, List.append_nil, List.filterMap_cons, List.filterMap_nil]
  rw [if_neg (by omega), if_pos (by omega), f3]
  rfl

theorem takeWhile_lead {space : Char → Bool} {L rest : Str} (hL : ∀ c ∈ L, space c = true)
    (hf : ∀ c, rest.head? = some c → space c = false) : (L ++ rest).takeWhile space = L := by
  rw [List.takeWhile_append_of_pos hL]
  cases rest with
  | nil => simp
  | cons c rest => simp [hf c rfl]

theorem usesAll_kept (u : Str) : usesAll (u.map (fun c => (([c] : Str), (0 : Int)))) = u.length := by
  induction u with
  | nil => rfl
  | cons c u ih =>
    rw [List.map_cons, usesAll_cons, ih]
    have : uses 0 = 1 := by decide
    simp only [this, List.length_cons]
    omega

/-- C42 (Strip), exactly when it works: a text without NUL made of white space `L`, a part `body`
that starts and ends with other characters, and white space `T`.  `Strip` gives `body`, or panics
when there is trailing white space and the bytes counted from the wrong place reach the end of the
text, although the count did not start in the last character. -/
theorem C42_strip_iff (space : Char → Bool) (L body T cs : Str) (hcs : cs = L ++ body ++ T)
    (hL : ∀ c ∈ L, space c = true) (hT : ∀ c ∈ T, space c = true) (hne : body ≠ [])
    (hf : ∀ c, body.head? = some c → space c = false)
    (hl : ∀ c, body.getLast? = some c → space c = false) (hz : '\x00' ∉ cs) :
    let i := blen L + blen (cs.take (body.length - 1))
    ((newNStr (encStr cs)).strip space true true = .panic ↔
      T ≠ [] ∧ i < blen cs.dropLast ∧ blen cs ≤ i + blen ((cs.drop body.length).take T.length)) ∧
    ((∃ n', (newNStr (encStr cs)).strip space true true = .ok n' ∧ n'.normalized = encStr body) ↔
      ¬ (T ≠ [] ∧ i < blen cs.dropLast ∧
        blen cs ≤ i + blen ((cs.drop body.length).take T.length))) := by
  have hs := strip_eq space true true cs
  simp only [if_true] at hs
  have hlead : cs.takeWhile space = L := by
    rw [hcs, List.append_assoc]
    apply takeWhile_lead hL
    cases body with
    | nil => exact absurd rfl hne
    | cons c body => simpa using hf c rfl
  have htrail : (cs.reverse.takeWhile space).length = T.length := by
    have : cs.reverse.takeWhile space = T.reverse := by
      rw [hcs, List.append_assoc, List.reverse_append, List.reverse_append, List.append_assoc]
      apply takeWhile_lead
      · intro c hc; exact hT c (List.mem_reverse.1 hc)
      · intro c hc
        apply hl c
        rw [List.head?_append, List.head?_reverse] at hc
        cases hb : body.getLast? with
        | none => exact absurd (List.getLast?_eq_none_iff.1 hb) hne
        | some d => rw [hb] at hc; simpa using hc
    rw [this, List.length_reverse]
  rw [hlead, htrail] at hs
  have hmid : (cs.take (cs.length - T.length)).drop L.length = body := by
    have e : cs.length - T.length = (L ++ body).length := by rw [hcs]; simp; omega
    rw [e, hcs, List.take_left' rfl]
    simp
  have hblen : 0 < body.length := List.length_pos_iff.2 hne
  intro i
  by_cases hp : L.length > 0 ∨ T.length > 0
  · rw [if_pos hp] at hs
    obtain ⟨c, hit⟩ := stripItems_eq L body T hne
    rw [← hcs] at hit
    have huse := stripItems_uses cs L.length T.length (by rw [hcs]; simp)
    obtain ⟨h1, h2⟩ := C41_removed_iff cs (stripItems cs L.length T.length) L.length (by omega) hz
    rw [hs, h1]
    have htx : ((stripItems cs L.length T.length).map (·.1)).flatten = body := by
      rw [stripItems_text, hmid]
    rw [htx] at h2
    rw [h2]
    have htk : cs.take L.length = L := by rw [hcs]; simp
    have key : Overruns cs L.length (stripItems cs L.length T.length) ↔
        (T ≠ [] ∧ i < blen cs.dropLast ∧
          blen cs ≤ i + blen ((cs.drop body.length).take T.length)) := by
      rw [hit]
      constructor
      · rintro ⟨pre, item, post, heq, hbad⟩
        rcases List.eq_nil_or_concat post with rfl | ⟨post', x, rfl⟩
        · -- the last change
          obtain ⟨e1, e2⟩ := List.append_inj' heq rfl
          simp only [List.cons.injEq, and_true] at e2
          subst e1 e2
          rw [usesAll_kept, htk, List.length_dropLast] at hbad
          rcases hbad with ⟨hb, -⟩ | ⟨hb, hb1, hb2⟩
          · simp only at hb; omega
          · refine ⟨?_, hb1, ?_⟩
            · rintro rfl; simp at hb
            · rw [List.tail_drop, show body.length - 1 + 1 = body.length by omega] at hb2
              simpa using hb2
        · -- an earlier change removes nothing
          exfalso
          have hmem : item ∈ body.dropLast.map (fun c => (([c] : Str), (0 : Int))) := by
            have h3 : body.dropLast.map (fun c => (([c] : Str), (0 : Int))) = pre ++ item :: post' := by
              have : pre ++ item :: (post' ++ [x]) = (pre ++ item :: post') ++ [x] := by simp
              rw [List.concat_eq_append] at heq
              rw [this] at heq
              exact (List.append_inj' heq rfl).1
            rw [h3]; simp
          obtain ⟨d, -, rfl⟩ := List.mem_map.1 hmem
          rcases hbad with ⟨hb, -⟩ | ⟨hb, -⟩ <;> simp at hb
      · rintro ⟨h3, h4, h5⟩
        refine ⟨_, _, [], rfl, ?_⟩
        rw [usesAll_kept, htk, List.length_dropLast]
        refine Or.inr ⟨?_, h4, ?_⟩
        · have : 0 < T.length := List.length_pos_iff.2 h3
          simp only; omega
        · rw [List.tail_drop, show body.length - 1 + 1 = body.length by omega]
          simpa using h5
    rw [key]
    exact ⟨Iff.rfl, Iff.rfl⟩
  · rw [if_neg hp] at hs
    have hT0 : T = [] := List.eq_nil_of_length_eq_zero (by omega)
    have hL0 : L = [] := List.eq_nil_of_length_eq_zero (by omega)
    rw [hs]
    constructor
    · constructor
      · intro h; cases h
      · intro h; exact absurd hT0 h.1
    · constructor
      · intro _ h; exact absurd hT0 h.1
      · intro _
        refine ⟨_, rfl, ?_⟩
        rw [hcs, hT0, hL0]; simp [newNStr]

/-- C42 (LStrip): always succeeds on a text without NUL, and removes exactly the leading white
space. -/
theorem C42_lstrip (space : Char → Bool) (cs : Str) (hz : '\x00' ∉ cs) :
    ∃ n', (newNStr (encStr cs)).strip space true false = .ok n' ∧
      n'.normalized = encStr (cs.dropWhile space) := by
  have hok : ∃ n', (newNStr (encStr cs)).strip space true false = .ok n' := by
    have hs := strip_eq space true false cs
    simp only [if_true, Bool.false_eq_true, if_false] at hs
    rw [hs]
    split
    · have hle := (List.takeWhile_sublist (l := cs) space).length_le
      have huse := stripItems_uses cs (cs.takeWhile space).length 0 hle
      obtain ⟨-, h2⟩ := transform_cases cs (stripItems cs (cs.takeWhile space).length 0)
        (cs.takeWhile space).length hle (by omega) hz
      apply h2
      rintro ⟨pre, item, post, heq, hbad⟩
      have hmem : item ∈ stripItems cs (cs.takeWhile space).length 0 := by rw [heq]; simp
      have h0 : item.2 = 0 := by
        unfold stripItems at hmem
        obtain ⟨i, -, hi⟩ := List.mem_filterMap.1 hmem
        split at hi
        · cases hi
        · obtain ⟨c, -, rfl⟩ := Option.map_eq_some_iff.1 hi
          simp
      rcases hbad with ⟨hb, -⟩ | ⟨hb, -⟩ <;> omega
    · exact ⟨_, rfl⟩
  obtain ⟨n', hn'⟩ := hok
  refine ⟨n', hn', ?_⟩
  rw [(C42_strip_partial space true false cs n' hn').1]
  simp [stripped]

/-! ### Texts on which the functions panic -/

theorem blen_ge_two (s : Str) (h : ∀ c ∈ s, 2 ≤ c.utf8Size) : 2 * s.length ≤ blen s := by
  induction s with
  | nil => simp
  | cons c s ih =>
    have := h c (by simp)
    have := ih (fun x hx => h x (by simp [hx]))
    simp; omega

theorem blen_ascii (s : Str) (h : ∀ c ∈ s, c.utf8Size = 1) : blen s = s.length := by
  induction s with
  | nil => rfl
  | cons c s ih =>
    rw [blen_cons, h c (by simp), ih (fun x hx => h x (by simp [hx]))]
    simp; omega

/-- The byte counts of a single-byte character between multi-byte characters and fewer single-byte
ones. -/
theorem one_between (L T : Str) (c : Char) (hL : ∀ x ∈ L, 2 ≤ x.utf8Size)
    (hT : ∀ x ∈ T, x.utf8Size = 1) (hc : c.utf8Size = 1) (hT0 : T ≠ []) (hlen : T.length < L.length) :
    blen L < blen (L ++ [c] ++ T).dropLast ∧
    blen (L ++ [c] ++ T) ≤ blen L + blen (((L ++ [c] ++ T).drop 1).take T.length) := by
  have hT1 : 0 < T.length := List.length_pos_iff.2 hT0
  constructor
  · obtain ⟨d, hd⟩ := blen_dropLast hT0
    have e : (L ++ [c] ++ T).dropLast = L ++ [c] ++ T.dropLast := by
      rw [List.dropLast_append_of_ne_nil hT0]
    rw [e]
    simp only [blen_append, blen_cons, blen_nil]
    omega
  · have e : ((L ++ [c] ++ T).drop 1).take T.length = (L.drop 1).take T.length := by
      rw [List.append_assoc, List.drop_append_of_le_length (by omega),
        List.take_append_of_le_length (by rw [List.length_drop]; omega)]
    have h2 := blen_ge_two ((L.drop 1).take T.length)
      (fun x hx => hL x (List.mem_of_mem_drop (List.mem_of_mem_take hx)))
    rw [List.length_take, List.length_drop] at h2
    rw [e]
    simp only [blen_append, blen_cons, blen_nil, blen_ascii T hT]
    omega

/-- C42 fails for Strip: every single-byte character between multi-byte white space and fewer
single-byte white space. -/
theorem C42_strip_violated (space : Char → Bool) (L T : Str) (c : Char)
    (hLs : ∀ x ∈ L, space x = true) (hTs : ∀ x ∈ T, space x = true) (hcs : space c = false)
    (hL : ∀ x ∈ L, 2 ≤ x.utf8Size) (hT : ∀ x ∈ T, x.utf8Size = 1) (hc : c.utf8Size = 1)
    (hz : '\x00' ∉ L ++ [c] ++ T) (hT0 : T ≠ []) (hlen : T.length < L.length) :
    (newNStr (encStr (L ++ [c] ++ T))).strip space true true = .panic := by
  obtain ⟨h1, h2⟩ := one_between L T c hL hT hc hT0 hlen
  refine (C42_strip_iff space L [c] T _ rfl hLs hTs (by simp) ?_ ?_ hz).1.2 ⟨hT0, ?_, ?_⟩
  · intro x hx; simp at hx; rw [← hx]; exact hcs
  · intro x hx; simp at hx; rw [← hx]; exact hcs
  · simpa using h1
  · simpa using h2

/-- C42 fails for Filter: every kept single-byte character between removed multi-byte characters
and fewer removed single-byte characters. -/
theorem C42_filter_violated (fn : Char → Bool) (L T : Str) (c : Char)
    (hLs : ∀ x ∈ L, fn x = false) (hTs : ∀ x ∈ T, fn x = false) (hcs : fn c = true)
    (hL : ∀ x ∈ L, 2 ≤ x.utf8Size) (hT : ∀ x ∈ T, x.utf8Size = 1) (hc : c.utf8Size = 1)
    (hz : '\x00' ∉ L ++ [c] ++ T) (hT0 : T ≠ []) (hlen : T.length < L.length) :
    (newNStr (encStr (L ++ [c] ++ T))).filter fn = .panic := by
  obtain ⟨h1, h2⟩ := one_between L T c hL hT hc hT0 hlen
  have htw : (L ++ [c] ++ T).takeWhile (fun c => !fn c) = L := by
    rw [List.append_assoc]
    apply takeWhile_lead
    · intro x hx; simp [hLs x hx]
    · intro x hx; simp at hx; rw [← hx]; simp [hcs]
  refine (C42_filter_iff fn _ hz).1.2 ⟨[], c, T, [], ?_, hcs, hT0, hTs, by simp, ?_, ?_⟩
  · rw [htw]; simp
  · rw [htw]; simpa using h1
  · rw [htw]; simpa using h2

/-- C41 fails for removal at the start: the change list that keeps a single-byte character between
multi-byte characters and fewer single-byte ones. -/
theorem C41_removed_violated (L T : Str) (c : Char)
    (hL : ∀ x ∈ L, 2 ≤ x.utf8Size) (hT : ∀ x ∈ T, x.utf8Size = 1) (hc : c.utf8Size = 1)
    (hz : '\x00' ∉ L ++ [c] ++ T) (hT0 : T ≠ []) (hlen : T.length < L.length) :
    L.length + usesAll [([c], -(T.length : Int))] = (L ++ [c] ++ T).length ∧
    (newNStr (encStr (L ++ [c] ++ T))).transform [([c], -(T.length : Int))] L.length = .panic := by
  obtain ⟨h1, h2⟩ := one_between L T c hL hT hc hT0 hlen
  have hu : usesAll [([c], -(T.length : Int))] = 1 + T.length := by
    rw [usesAll_cons]
    have : uses (-(T.length : Int)) = 1 + T.length := by unfold uses; rw [if_neg (by omega)]; omega
    simp only [this]
    simp [usesAll]
  have hT1 : 0 < T.length := List.length_pos_iff.2 hT0
  refine ⟨by rw [hu]; simp; omega, ?_⟩
  refine (C41_removed_iff _ _ _ (by rw [hu]; simp; omega) hz).1.2 ⟨[], _, [], rfl, Or.inr ⟨?_, ?_, ?_⟩⟩
  · simp only; omega
  · have : (L ++ [c] ++ T).take L.length = L := by simp
    rw [this]; simpa [usesAll] using h1
  · have : (L ++ [c] ++ T).take L.length = L := by simp
    rw [this]; simpa [usesAll] using h2

example : (newNStr (encStr "　　a ".toList)).strip (fun c => c == ' ' || c == '　') true true = .panic := by
  decide +kernel
example : (newNStr (encStr "ééa ".toList)).filter (fun c => c == 'a') = .panic := by decide +kernel

end Tok.Norm
