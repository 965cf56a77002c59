import Verif.Added.Props
import Verif.PreTok.PropsPipeline

/-!
# C95: added tokens in an encoding
-/

namespace Tok.Added

open Tok.Norm Tok.PreTok Tok.Regex

/-! ### Specification -/

/-- What sorting may do: the same entries. -/
def Permutes (order : List PatMatch → List PatMatch) : Prop := ∀ l, (order l).Perm l

/-- A token with a content that can be found. -/
def Usable (norm : Option (NStr → Res NStr)) (t : AddedToken) : Prop :=
  t.content ≠ [] ∧ (t.singleWord = true → ∃ w, Gives norm t.content w ∧ w ≠ [])

/-! ### Lemmas -/

theorem getPattern_solid {wordChar : Char → Bool} {norm : Option (NStr → Res NStr)} {t : AddedToken}
    (h : Usable norm t) : ∃ re, getPattern wordChar norm t = .ok re ∧ Solid re := by
  unfold getPattern core
  cases hs : t.singleWord with
  | false => exact ⟨_, rfl, solid_stripped (solid_lit h.1) _ _⟩
  | true =>
    obtain ⟨w, hw, hne⟩ := h.2 hs
    have hw := hw.content
    cases hc : t.content with
    | nil => exact absurd hc h.1
    | cons c cs =>
      rw [hc] at hw
      simp only [if_true, hw, Res.bind_ok]
      exact ⟨_, rfl, solid_stripped ((solid_lit hne).seq_left).seq_right _ _⟩

theorem buildPatterns_ok {wordChar : Char → Bool} {norm : Option (NStr → Res NStr)} {es : List (AddedToken × Int)}
    (h : ∀ e ∈ es, Usable norm e.1) :
    ∃ res, buildPatterns wordChar norm es = .ok res ∧ res.length = es.length ∧ (∀ re ∈ res, Solid re) ∧
      ∀ (i : Nat) (t : AddedToken × Int), es[i]? = some t → ∃ re, res[i]? = some re ∧ getPattern wordChar norm t.1 = .ok re := by
  induction es with
  | nil => exact ⟨[], rfl, rfl, by simp, by simp⟩
  | cons e es ih =>
    obtain ⟨re, h1, h2⟩ := getPattern_solid (wordChar := wordChar) (h e (by simp))
    obtain ⟨res, h3, h4, h5, h6⟩ := ih (fun x hx => h x (by simp [hx]))
    refine ⟨re :: res, by simp only [buildPatterns, h1, h3, Res.bind_ok], by simp [h4], ?_, ?_⟩
    · intro x hx
      rcases List.mem_cons.mp hx with rfl | hx
      · exact h2
      · exact h5 x hx
    · intro i t ht
      cases i with
      | zero =>
        simp only [List.getElem?_cons_zero, Option.some.injEq] at ht
        subst ht
        exact ⟨re, rfl, h1⟩
      | succ i => exact h6 i t ht

theorem mem_allMatches {res : List Pat} {bs : List UInt8} {m : PatMatch} :
    m ∈ allMatches res bs ↔ ∃ re, res[m.pat]? = some re ∧ (m.start, m.stop) ∈ re.engine bs := by
  unfold allMatches
  rw [List.mem_flatMap]
  constructor
  · rintro ⟨⟨re, i⟩, hr, hm⟩
    obtain ⟨x, hx, rfl⟩ := List.mem_map.mp hm
    exact ⟨re, List.mem_zipIdx_iff_getElem?.mp hr, hx⟩
  · rintro ⟨re, hr, hm⟩
    exact ⟨(re, m.pat), List.mem_zipIdx_iff_getElem?.mpr hr, List.mem_map.mpr ⟨_, hm, rfl⟩⟩

/-! ### C95 -/

/-- C95: the expressions of any list of added tokens with contents are built, and give what C64 and
C65 need of them: matches of existing tokens, not empty, of whole characters. -/
theorem C95_proper (wordChar : Char → Bool) (norm : Option (NStr → Res NStr)) (order : List PatMatch → List PatMatch)
    (ho : Permutes order) (es : List (AddedToken × Int)) (h : ∀ e ∈ es, Usable norm e.1) :
    ∃ set, buildSet wordChar norm order es = .ok set ∧ set.ids = es.map (·.2) ∧ ProperSet set := by
  obtain ⟨res, h1, h2, h3, _⟩ := buildPatterns_ok (wordChar := wordChar) h
  refine ⟨⟨es.map (·.2), fun bs => order (allMatches res bs)⟩, by simp only [buildSet, h1, Res.bind_ok], rfl, ?_⟩
  intro s _ p hp
  have hp := (ho _).mem_iff.mp hp
  obtain ⟨re, hr, hm⟩ := mem_allMatches.mp hp
  obtain ⟨u, m, v, e1, e2, e3, e4, _⟩ := (engine_leftmost (h3 re (List.mem_of_getElem? hr)) s).1 _ hm
  refine ⟨?_, ?_, ⟨u, m ++ v, by rw [e1]; simp, e2⟩, ⟨u ++ m, v, e1, e3⟩⟩
  · have := (List.getElem?_eq_some_iff.mp hr).1
    rw [List.length_map]
    omega
  · have e2 : p.start = blen u := e2
    have e3 : p.stop = blen (u ++ m) := e3
    have : 0 < blen m := Nat.pos_of_ne_zero (fun h => e4 (blen_eq_zero.mp h))
    rw [e2, e3, blen_append]
    omega

/-- C95, the part that holds: with one token without options that is searched in the text as it is,
every leftmost occurrence of its content has an entry with its id, its content and its place.
Missing from the full property: more than one token (see below). -/
theorem C95_one_partial {tk : Tk} {gaps : Bool} (h : Plain tk gaps) (wordChar : Char → Bool)
    (order : List PatMatch → List PatMatch)
    (ho : ∀ l : List PatMatch, SortedById l → l.Pairwise (fun a b => a.start ≤ b.start) → order l = l)
    (t : AddedToken) (id : Int) (hid : id ≠ -1) (h1 : t.singleWord = false) (h2 : t.lstrip = false)
    (h3 : t.rstrip = false) (hc : t.content ≠ []) (hset : buildSet wordChar none order [(t, id)] = .ok tk.splitRe)
    (s : Str) (typeId : Int) :
    ∃ e ms, tk.encodeSingle (.raw (encStr s)) typeId .byte = .ok e ∧ LeftmostOf (fun _ w _ => w = t.content) s ms ∧
      ∀ p ∈ ms, ∃ k : Nat, e.ids[k]? = some id ∧ e.tokens[k]? = some t.content ∧
        e.offsets[k]? = some ((p.1 : Int), (p.2 : Int)) := by
  obtain ⟨re, hre, hl⟩ := C91_plain wordChar none t h1 h2 h3 hc
  obtain ⟨e, ps, he, hps, hall⟩ := C64_added_partial h s typeId
  refine ⟨e, re.engine (encStr s), he, hl s, ?_⟩
  intro p hp
  obtain ⟨u, w, v, e1, e2, e3⟩ := (hl s).sound p hp
  have e3 : w = t.content := e3
  subst e3
  have hset' : tk.splitRe = ⟨[id], fun bs => order (allMatches [re] bs)⟩ := by
    simp only [buildSet, buildPatterns, hre, Res.bind_ok, Res.ok.injEq] at hset
    exact hset.symm
  have hm : allMatches [re] (encStr s) = (re.engine (encStr s)).map (fun m => ⟨0, m.1, m.2⟩) := by
    simp [allMatches]
  have hord := (hl s).ordered
  have hlow : ∀ (l : List (Nat × Nat)) (a : Nat), LegalMatches (blen s) a l → ∀ x ∈ l, a ≤ x.1 := by
    intro l
    induction l with
    | nil => intro a _ x hx; cases hx
    | cons z l ih =>
      intro a h x hx
      rcases List.mem_cons.mp hx with rfl | hx
      · exact h.1
      · have := ih _ h.2.2.2 x hx
        have h1 := h.1
        have h2 := h.2.1
        omega
  have hpair : ∀ (l : List (Nat × Nat)) (a : Nat), LegalMatches (blen s) a l →
      l.Pairwise (fun x y => x.2 ≤ y.1) ∧ ∀ x ∈ l, x.1 ≤ x.2 ∧ x.2 ≤ blen s := by
    intro l
    induction l with
    | nil => intro a _; simp
    | cons z l ih =>
      intro a h
      obtain ⟨i1, i2⟩ := ih _ h.2.2.2
      refine ⟨List.pairwise_cons.mpr ⟨fun x hx => hlow _ _ h.2.2.2 x hx, i1⟩, ?_⟩
      intro x hx
      rcases List.mem_cons.mp hx with rfl | hx
      · exact ⟨h.2.1, h.2.2.1⟩
      · exact i2 x hx
  obtain ⟨hpw, hfit⟩ := hpair _ _ hord
  have hs1 : SortedById (allMatches [re] (encStr s)) := by
    rw [hm]
    unfold SortedById
    rw [List.pairwise_map]
    exact hpw.imp (fun _ => Nat.le_refl _)
  have hs2 : (allMatches [re] (encStr s)).Pairwise (fun a b => a.start ≤ b.start) := by
    rw [hm, List.pairwise_map]
    refine hpw.imp_of_mem ?_
    intro a b ha _ hab
    have := (hfit a ha).1
    dsimp only
    omega
  have heng : tk.splitRe.engine (encStr s) = allMatches [re] (encStr s) := by
    rw [hset']
    exact ho _ hs1 hs2
  have hids : tk.splitRe.ids = [id] := by rw [hset']
  rw [heng, hids] at hps
  have hpos : 0 < blen t.content := Nat.pos_of_ne_zero (fun h => hc (blen_eq_zero.mp h))
  have hlen : 0 < blen s := by rw [e1, blen_append, blen_append]; omega
  obtain ⟨ps', sel, k1, k2, k3⟩ := C18_leftmost_partial [id] (blen s) (allMatches [re] (encStr s)) (by
    intro m hmm
    rw [hm] at hmm
    obtain ⟨x, hx, rfl⟩ := List.mem_map.mp hmm
    exact ⟨(hfit x hx).1, (hfit x hx).2, by simp⟩) hlen hs1 hs2
  rw [hps] at k1
  cases k1
  have hpm : (⟨0, p.1, p.2⟩ : PatMatch) ∈ allMatches [re] (encStr s) := by
    rw [hm]
    exact List.mem_map.mpr ⟨p, hp, rfl⟩
  have hp12 : p.1 < p.2 := by rw [e2]; dsimp only; rw [blen_append]; omega
  have hsel : (⟨0, p.1, p.2⟩ : PatMatch) ∈ sel := by
    by_cases hin : (⟨0, p.1, p.2⟩ : PatMatch) ∈ sel
    · exact hin
    · obtain ⟨q, hq, q1, q2, _⟩ := k2.2.2 _ hpm hin
      have hq' := k2.1 q hq
      rw [hm] at hq'
      obtain ⟨x, hx, rfl⟩ := List.mem_map.mp hq'
      have hne : x ≠ p := by
        intro h
        subst h
        exact hin hq
      have hdis : x.2 ≤ p.1 ∨ p.2 ≤ x.1 := by
        rcases List.getElem_of_mem hx with ⟨i, hi, hxi⟩
        rcases List.getElem_of_mem hp with ⟨j, hj, hpj⟩
        rw [List.pairwise_iff_getElem] at hpw
        rcases Nat.lt_trichotomy i j with hij | hij | hij
        · left
          have := hpw i j hi hj hij
          rw [hxi, hpj] at this
          exact this
        · subst hij
          exact absurd (hxi.symm.trans hpj) hne
        · right
          have := hpw j i hj hi hij
          rw [hxi, hpj] at this
          exact this
      dsimp only at q1 q2
      omega
  have hpiece := (k3 ⟨id, p.1, p.2⟩ hid).mpr ⟨_, hsel, rfl, rfl, rfl⟩
  obtain ⟨g, w, b, k, g1, g2, g3, g4, g5, g6⟩ := hall _ hpiece hid
  refine ⟨k, g4, ?_, g6⟩
  have hu : blen u = blen g := by
    have := congrArg Prod.fst e2
    exact this.symm.trans g2
  obtain ⟨rfl, hvv⟩ := blen_inj (s := s) (u := u) (v := t.content ++ v) (u' := g) (v' := w ++ b)
    (by rw [e1]; simp) (by rw [g1]; simp) hu
  have hw : blen (u ++ t.content) = blen (u ++ w) := by
    have := congrArg Prod.snd e2
    exact this.symm.trans g3
  have := (blen_inj e1 g1 hw).1
  rw [g5, List.append_cancel_left this]

/-- C95 is violated with two tokens or more: when the content of the token registered first occurs,
but not at the start of the text, the text before one of its occurrences is one piece; any other token
there, as at the start of the text, is not found. -/
theorem C95_order_violated (wordChar : Char → Bool) (order : List PatMatch → List PatMatch) (hp : Permutes order)
    (ho : ∀ l, SortedById (order l)) (t : AddedToken) (id : Int) (es : List (AddedToken × Int))
    (h1 : t.singleWord = false) (h2 : t.lstrip = false) (h3 : t.rstrip = false) (hc : t.content ≠ [])
    (hes : ∀ e ∈ es, Usable none e.1) (s u v : Str) (hs : s = u ++ t.content ++ v) (hfirst : ¬ t.content <+: s) :
    ∃ set ps u' v', buildSet wordChar none order ((t, id) :: es) = .ok set ∧ s = u' ++ t.content ++ v' ∧ u' ≠ [] ∧
      findMatches set.ids (blen s) (set.engine (encStr s)) = .ok (⟨-1, 0, blen u'⟩ :: ps) ∧
      ∀ p ∈ ps, blen u' ≤ p.start := by
  have hus : ∀ e ∈ (t, id) :: es, Usable none e.1 := by
    intro e he
    rcases List.mem_cons.mp he with rfl | he
    · refine ⟨hc, fun h => ?_⟩
      have h : t.singleWord = true := h
      rw [h1] at h
      cases h
    · exact hes e he
  obtain ⟨res, b1, b2, b3, b4⟩ := buildPatterns_ok (wordChar := wordChar) hus
  obtain ⟨set, hset, hids, hprop⟩ := C95_proper wordChar none order hp _ hus
  have hset' : set = ⟨((t, id) :: es).map (·.2), fun bs => order (allMatches res bs)⟩ := by
    simp only [buildSet, b1, Res.bind_ok, Res.ok.injEq] at hset
    exact hset.symm
  obtain ⟨re, hre, hl⟩ := C91_plain wordChar none t h1 h2 h3 hc
  obtain ⟨re', hr0, hr1⟩ := b4 0 (t, id) rfl
  have hrr : re' = re := by
    have : getPattern wordChar none t = .ok re' := hr1
    rw [hre] at this
    exact (Res.ok.inj this).symm
  subst hrr
  -- there is a match of the first token
  obtain ⟨q, hq, _⟩ := (hl s).complete u t.content v hs rfl
  have hqm : (⟨0, q.1, q.2⟩ : PatMatch) ∈ order (allMatches res (encStr s)) :=
    (hp _).mem_iff.mpr (mem_allMatches.mpr ⟨re', hr0, hq⟩)
  have heng : set.engine (encStr s) = order (allMatches res (encStr s)) := by rw [hset']
  have hsn : s ≠ [] := by
    intro h
    rw [h] at hs
    have := congrArg List.length hs
    have hcl := List.length_pos_iff.mpr hc
    simp only [List.length_append, List.length_nil] at this
    omega
  have hfit : MatchesFit set.ids (blen s) (set.engine (encStr s)) := by
    intro m hm
    obtain ⟨p1, p2, ⟨_, _, p3, p4⟩, ⟨x, y, p5, p6⟩⟩ := hprop s hsn m hm
    refine ⟨by omega, ?_, p1⟩
    rw [p6, p5, blen_append]
    omega
  cases hl0 : order (allMatches res (encStr s)) with
  | nil => rw [hl0] at hqm; cases hqm
  | cons m ms =>
    have hm0 : m.pat = 0 := by
      have hsort := ho (allMatches res (encStr s))
      unfold SortedById at hsort
      rw [hl0] at hsort hqm
      rcases List.mem_cons.mp hqm with h | h
      · rw [← h]
      · have := (List.pairwise_cons.mp hsort).1 _ h
        dsimp only at this
        omega
    have hmm : m ∈ allMatches res (encStr s) := (hp _).mem_iff.mp (by rw [hl0]; simp)
    obtain ⟨re2, hr2, hme⟩ := mem_allMatches.mp hmm
    rw [hm0, hr0] at hr2
    cases hr2
    obtain ⟨u', w, v', e1, e2, e3⟩ := (hl s).sound _ hme
    have e3 : w = t.content := e3
    subst e3
    have hu' : u' ≠ [] := by
      intro h
      subst h
      exact hfirst ⟨v', by rw [e1]; simp⟩
    have hst : m.start = blen u' := congrArg Prod.fst e2
    have hpos : 0 < m.start := by
      rw [hst]
      exact Nat.pos_of_ne_zero (fun h => hu' (blen_eq_zero.mp h))
    rw [heng, hl0] at hfit
    obtain ⟨ps, k1, k2⟩ := C18_leftmost_violated set.ids (blen s) m ms hfit hpos
    refine ⟨set, ps, u', v', hset, e1, hu', ?_, ?_⟩
    · rw [heng, hl0, k1, hst]
    · rw [← hst]
      exact k2

/-- Two tokens in the order of registration `<b>`, `<a>`: in `<a><b>` only `<b>` is found. -/
example : ∃ set : MatchingSet, buildSet isW none id
    [(⟨"<b>".toList, false, false, false, false⟩, 7), (⟨"<a>".toList, false, false, false, false⟩, 8)] = .ok set ∧
    findMatches set.ids 6 (set.engine (encStr "<a><b>".toList)) = .ok [⟨-1, 0, 3⟩, ⟨7, 3, 6⟩] := by
  refine ⟨_, rfl, ?_⟩
  decide +kernel

end Tok.Added
