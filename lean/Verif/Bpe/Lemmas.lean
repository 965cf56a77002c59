import Verif.Bpe.Model

/-! # The linked list of symbols -/

namespace Tok

/-- Symbol id at an index. -/
def cAt (syms : List Symbol) (i : Nat) : Int := ((syms[i]?).map (·.c)).getD 0
/-- Symbol length at an index. -/
def lenAt (syms : List Symbol) (i : Nat) : Nat := ((syms[i]?).map (·.len)).getD 0

/-- First element of a list of indices, or the given end marker. -/
def headD (L : List Nat) (nxt : Int) : Int := match L with | [] => nxt | i :: _ => (i : Int)
/-- Last element of a list of indices, or the given start marker. -/
def lastD (prev : Int) (L : List Nat) : Int := match L.getLast? with | none => prev | some i => (i : Int)

/-- Index `i` holds a live symbol with these links. -/
def Node (syms : List Symbol) (i : Nat) (prev next : Int) : Prop :=
  ∃ s, syms[i]? = some s ∧ 0 < s.len ∧ s.prev = prev ∧ s.next = next

/-- The indices `L` are linked in this order, between `prev` and `nxt`. -/
def Seg (syms : List Symbol) : Int → List Nat → Int → Prop
  | _, [], _ => True
  | prev, i :: L, nxt => Node syms i prev (headD L nxt) ∧ Seg syms i L nxt

theorem Seg.append {syms : List Symbol} {nxt : Int} {B : List Nat} : ∀ {A : List Nat} {prev : Int},
    Seg syms prev (A ++ B) nxt ↔ Seg syms prev A (headD B nxt) ∧ Seg syms (lastD prev A) B nxt := by
  intro A
  induction A with
  | nil => intro prev; simp [Seg, lastD]
  | cons i A ih =>
    intro prev
    simp only [List.cons_append, Seg]
    rw [ih]
    have h1 : headD (A ++ B) nxt = headD A (headD B nxt) := by cases A <;> rfl
    have h2 : lastD prev (i :: A) = lastD i A := by
      cases A with
      | nil => rfl
      | cons a A =>
        unfold lastD
        rw [List.getLast?_cons_cons]
        cases hl : (a :: A).getLast? with
        | none => simp at hl
        | some x => rfl
    rw [h1, h2, and_assoc]

theorem Seg.congr {syms syms' : List Symbol} {nxt : Int} : ∀ {L : List Nat} {prev : Int},
    (∀ x ∈ L, syms'[x]? = syms[x]?) → Seg syms prev L nxt → Seg syms' prev L nxt := by
  intro L
  induction L with
  | nil => intro _ _ _; trivial
  | cons i L ih =>
    intro prev h hs
    refine ⟨?_, ih (fun x hx => h x (by simp [hx])) hs.2⟩
    obtain ⟨s, h1, h2⟩ := hs.1
    exact ⟨s, by rw [h i (by simp)]; exact h1, h2⟩

theorem Seg.node {syms : List Symbol} {nxt : Int} : ∀ {L : List Nat} {prev : Int},
    Seg syms prev L nxt → ∀ x ∈ L, ∃ s, syms[x]? = some s ∧ 0 < s.len := by
  intro L
  induction L with
  | nil => intro _ _ x hx; cases hx
  | cons i L ih =>
    intro prev hs x hx
    rcases List.mem_cons.1 hx with rfl | hx
    · obtain ⟨s, h1, h2, _⟩ := hs.1
      exact ⟨s, h1, h2⟩
    · exact ih hs.2 x hx

/-- The symbols with positive length are exactly those at `L`, in this order, and
the links join them. -/
structure WordInv (syms : List Symbol) (L : List Nat) : Prop where
  sorted : L.Pairwise (· < ·)
  live : ∀ i s, syms[i]? = some s → (0 < s.len ↔ i ∈ L)
  linked : Seg syms (-1) L (-1)

/-- Ids and lengths of the live symbols. -/
def content (syms : List Symbol) (L : List Nat) : List (Int × Nat) :=
  L.map (fun i => (cAt syms i, lenAt syms i))

theorem sorted_ext : ∀ {L M : List Nat}, L.Pairwise (· < ·) → M.Pairwise (· < ·) →
    (∀ x, x ∈ L ↔ x ∈ M) → L = M := by
  intro L
  induction L with
  | nil =>
    intro M _ _ h
    cases M with
    | nil => rfl
    | cons m M => exact absurd ((h m).2 (by simp)) (by simp)
  | cons a L ih =>
    intro M hL hM h
    cases M with
    | nil => exact absurd ((h a).1 (by simp)) (by simp)
    | cons b M =>
      rw [List.pairwise_cons] at hL hM
      have hab : a = b := by
        have h1 : a ∈ b :: M := (h a).1 (by simp)
        have h2 : b ∈ a :: L := (h b).2 (by simp)
        rcases List.mem_cons.1 h1 with e | h1
        · exact e
        · rcases List.mem_cons.1 h2 with e | h2
          · exact e.symm
          · have := hL.1 b h2; have := hM.1 a h1; omega
      subst hab
      congr 1
      apply ih hL.2 hM.2
      intro x
      constructor
      · intro hx
        rcases List.mem_cons.1 ((h x).1 (by simp [hx])) with e | hx'
        · subst e; exact absurd (hL.1 x hx) (by omega)
        · exact hx'
      · intro hx
        rcases List.mem_cons.1 ((h x).2 (by simp [hx])) with e | hx'
        · subst e; exact absurd (hM.1 x hx) (by omega)
        · exact hx'

theorem filter_range (syms : List Symbol) :
    ((List.range syms.length).filter (fun i => decide (0 < lenAt syms i))).map
      (fun i => (cAt syms i, lenAt syms i)) =
    (removeSymbols syms).map (fun s => (s.c, s.len)) := by
  induction syms with
  | nil => rfl
  | cons s syms ih =>
    rw [List.length_cons, List.range_succ_eq_map, List.filter_cons]
    have h0 : lenAt (s :: syms) 0 = s.len := rfl
    have hf : ((List.range syms.length).map Nat.succ).filter
        (fun i => decide (0 < lenAt (s :: syms) i)) =
        ((List.range syms.length).filter (fun i => decide (0 < lenAt syms i))).map Nat.succ := by
      rw [List.filter_map]; rfl
    have hm : ((((List.range syms.length).filter (fun i => decide (0 < lenAt syms i))).map
        Nat.succ).map (fun i => (cAt (s :: syms) i, lenAt (s :: syms) i))) =
        (removeSymbols syms).map (fun s => (s.c, s.len)) := by
      rw [List.map_map, ← ih]; rfl
    rw [hf, h0]
    unfold removeSymbols at hm ⊢
    rw [List.filter_cons]
    by_cases h : s.len = 0
    · simp only [h]
      simpa using hm
    · have : 0 < s.len := by omega
      simp only [this, decide_true, if_true, h, ne_eq, not_false_eq_true, List.map_cons]
      rw [hm]; rfl

theorem WordInv.removeSymbols {syms : List Symbol} {L : List Nat} (h : WordInv syms L) :
    (removeSymbols syms).map (fun s => (s.c, s.len)) = content syms L := by
  rw [← filter_range]
  unfold content
  congr 1
  apply sorted_ext
  · exact List.Pairwise.filter _ List.pairwise_lt_range
  · exact h.sorted
  · intro x
    rw [List.mem_filter, List.mem_range]
    constructor
    · rintro ⟨hx, hl⟩
      have hg := List.getElem?_eq_getElem hx
      apply (h.live x _ hg).1
      simpa [lenAt, hg] using hl
    · intro hx
      obtain ⟨s, h1, h2⟩ := h.linked.node x hx
      have : x < syms.length := by
        rcases Nat.lt_or_ge x syms.length with h' | h'
        · exact h'
        · rw [List.getElem?_eq_none h'] at h1; cases h1
      exact ⟨this, by simpa [lenAt, h1] using h2⟩

theorem removeSymbols_pos (syms : List Symbol) : ∀ s ∈ removeSymbols syms, 0 < s.len := by
  intro s hs
  have := (List.mem_filter.1 hs).2
  simp at this; omega

/-! ### Building the word -/

/-- Symbols as `Add` builds them. -/
def builtSyms (n : Nat) : Nat → List (Int × Nat) → List Symbol
  | _, [] => []
  | i, p :: ps => ⟨p.1, (i : Int) - 1, if i + 1 = n then -1 else (i : Int) + 1, p.2⟩ ::
      builtSyms n (i + 1) ps

theorem relink_built (ps : List (Int × Nat)) : ∀ (n i : Nat), i + ps.length = n →
    relink n i (builtSyms n i ps) = builtSyms (n + 1) i ps := by
  induction ps with
  | nil => intro n i _; rfl
  | cons p ps ih =>
    intro n i h
    simp only [List.length_cons] at h
    simp only [builtSyms, relink]
    rw [ih n (i + 1) (by omega)]
    congr 1
    by_cases h0 : i = 0
    · subst h0
      simp
      omega
    · simp only [h0, if_false]
      by_cases h1 : i = n - 1
      · rw [if_pos h1]
        simp
        omega
      · rw [if_neg h1]
        have h3 : ¬(i + 1 = n) := by omega
        simp [h3]
        omega

theorem built_append (n : Nat) (ps : List (Int × Nat)) (p : Int × Nat) : ∀ i,
    builtSyms n i (ps ++ [p]) = builtSyms n i ps ++ builtSyms n (i + ps.length) [p] := by
  induction ps with
  | nil => intro i; rfl
  | cons q ps ih =>
    intro i
    simp only [List.cons_append, builtSyms, List.length_cons]
    rw [ih (i + 1), show i + 1 + ps.length = i + (ps.length + 1) by omega]
    rfl

theorem length_built (n : Nat) (ps : List (Int × Nat)) : ∀ i, (builtSyms n i ps).length = ps.length := by
  induction ps with
  | nil => intro _; rfl
  | cons p ps ih => intro i; simp [builtSyms, ih]

theorem wordAdd_built (ps : List (Int × Nat)) (c : Int) (l : Nat) :
    wordAdd (builtSyms ps.length 0 ps) c l = builtSyms (ps.length + 1) 0 (ps ++ [(c, l)]) := by
  unfold wordAdd
  rw [length_built]
  by_cases h : ps.length = 0
  · have : ps = [] := List.eq_nil_of_length_eq_zero h
    subst this
    rfl
  · rw [if_neg h, relink_built _ _ _ (by omega), built_append]
    congr 1
    simp [builtSyms]

theorem built_get (n : Nat) (ps : List (Int × Nat)) : ∀ i (k : Nat),
    (builtSyms n i ps)[k]? = (ps[k]?).map (fun p =>
      ⟨p.1, ((i + k : Nat) : Int) - 1, if i + k + 1 = n then -1 else ((i + k : Nat) : Int) + 1, p.2⟩) := by
  induction ps with
  | nil => intro i k; simp [builtSyms]
  | cons p ps ih =>
    intro i k
    cases k with
    | zero => simp [builtSyms]
    | succ k =>
      simp only [builtSyms, List.getElem?_cons_succ]
      rw [ih (i + 1) k, show i + 1 + k = i + (k + 1) by omega]

theorem built_seg {n : Nat} {ps : List (Int × Nat)} (hn : ps.length = n) (hp : ∀ p ∈ ps, 0 < p.2) :
    ∀ (m i : Nat), i + m = n →
      Seg (builtSyms n 0 ps) ((i : Int) - 1) ((List.range m).map (i + ·)) (-1) := by
  intro m
  induction m with
  | zero => intro i _; trivial
  | succ m ih =>
    intro i h
    rw [List.range_succ_eq_map]
    simp only [List.map_cons, List.map_map, Nat.add_zero]
    have e : (List.range m).map ((fun x => i + x) ∘ Nat.succ) = (List.range m).map (i + 1 + ·) := by
      apply List.map_congr_left
      intro x _
      simp only [Function.comp]; omega
    rw [e]
    refine ⟨?_, ?_⟩
    · have hi : i < ps.length := by omega
      refine ⟨_, by rw [built_get, List.getElem?_eq_getElem hi]; rfl, ?_, ?_, ?_⟩
      · exact hp _ (List.getElem_mem hi)
      · simp
      · cases m with
        | zero => simp [headD]; omega
        | succ m =>
          rw [List.range_succ_eq_map]
          have : ¬(0 + i + 1 = n) := by omega
          simp [headD]; omega
    · have := ih (i + 1) (by omega)
      simpa using this

theorem built_inv {ps : List (Int × Nat)} (hp : ∀ p ∈ ps, 0 < p.2) :
    WordInv (builtSyms ps.length 0 ps) (List.range ps.length) := by
  refine ⟨List.pairwise_lt_range, ?_, ?_⟩
  · intro i s hs
    rw [built_get] at hs
    cases hg : ps[i]? with
    | none => rw [hg] at hs; cases hs
    | some p =>
      rw [hg] at hs
      simp only [Option.map_some, Option.some.injEq] at hs
      subst hs
      have hi : i < ps.length := by
        rcases Nat.lt_or_ge i ps.length with h | h
        · exact h
        · rw [List.getElem?_eq_none h] at hg; cases hg
      simp only [List.mem_range, hi, iff_true]
      exact hp p (List.mem_of_getElem? hg)
  · have := built_seg (n := ps.length) rfl hp ps.length 0 (by omega)
    simpa using this

theorem content_built (n : Nat) (ps : List (Int × Nat)) :
    content (builtSyms n 0 ps) (List.range ps.length) = ps := by
  unfold content
  apply List.ext_getElem?
  intro k
  rw [List.getElem?_map]
  rcases Nat.lt_or_ge k ps.length with h | h
  · rw [List.getElem?_range h, List.getElem?_eq_getElem h]
    simp [cAt, lenAt, built_get, List.getElem?_eq_getElem h]
  · rw [List.getElem?_eq_none (by simpa using h), List.getElem?_eq_none h]; rfl

/-- Ids and byte lengths `MergeWord` gives to the runes, `none` when it panics. -/
def runeIds (vocab : Str → Option Int) (unk pre suf : Option Str) (n : Nat) :
    Nat → Str → Option (List (Int × Nat))
  | _, [] => some []
  | i, r :: rs =>
    match vocab (runeText pre suf n i r), unk, runeIds vocab unk pre suf n (i + 1) rs with
    | some id, _, some t => some ((id, r.utf8Size) :: t)
    | none, some u, some t => some (((vocab u).getD 0, r.utf8Size) :: t)
    | _, _, _ => none

theorem fillWord_eq (vocab : Str → Option Int) (unk pre suf : Option Str) (n : Nat) (w : Str) :
    ∀ (i : Nat) (ps : List (Int × Nat)),
      fillWord vocab unk pre suf n i w (builtSyms ps.length 0 ps) =
        match runeIds vocab unk pre suf n i w with
        | some t => .ok (builtSyms (ps ++ t).length 0 (ps ++ t))
        | none => .panic := by
  induction w with
  | nil => intro i ps; simp [fillWord, runeIds]
  | cons r rs ih =>
    intro i ps
    unfold fillWord runeIds
    cases hv : vocab (runeText pre suf n i r) with
    | some id =>
      simp only
      rw [wordAdd_built]
      have := ih (i + 1) (ps ++ [(id, r.utf8Size)])
      rw [List.length_append] at this
      rw [show ps.length + 1 = ps.length + [(id, r.utf8Size)].length from rfl, this]
      cases runeIds vocab unk pre suf n (i + 1) rs <;> simp
    | none =>
      cases hu : unk with
      | none => simp
      | some u =>
        simp only
        rw [wordAdd_built]
        have := ih (i + 1) (ps ++ [((vocab u).getD 0, r.utf8Size)])
        rw [List.length_append, hu] at this
        rw [show ps.length + 1 = ps.length + [((vocab u).getD 0, r.utf8Size)].length from rfl, this]
        cases runeIds vocab (some u) pre suf n (i + 1) rs <;> simp

theorem runeIds_lens {vocab : Str → Option Int} {unk pre suf : Option Str} {n : Nat} (w : Str) :
    ∀ (i : Nat) (t : List (Int × Nat)), runeIds vocab unk pre suf n i w = some t →
      t.map (·.2) = w.map Char.utf8Size := by
  induction w with
  | nil => intro i t h; simp [runeIds] at h; subst h; rfl
  | cons r rs ih =>
    intro i t h
    unfold runeIds at h
    split at h
    · cases h; simp [ih _ _ (by assumption)]
    · cases h; simp [ih _ _ (by assumption)]
    · cases h

end Tok
