import Verif.Whole.Several
import Verif.Whole.PropsMarked

/-!
# Texts with an added token that takes white space
-/

namespace Tok.Whole

open Tok.PreTok Tok.Regex Tok.Added
open Tok.Norm (NStr)

/-! ### Specification -/

/-- The text `s` begins with `w` and goes on with occurrences of `c`, each with the white space that it takes (at most one on the
left if `l`, at most one on the right if `r`) and the text from there to the next one. A white space that could be taken is taken;
what is between two occurrences belongs to the first one, if it takes what is on its right. -/
inductive Taking (l r : Bool) (c : Str) : Str → Str → List (Str × Str) → Prop
  | last (w : Str) : ¬ c <:+: w → Taking l r c w w []
  | cons (w x y s v : Str) (rs : List (Str × Str)) :
      (∀ p q, w ++ (x ++ c ++ y) ++ s = p ++ c ++ q → (w ++ x).length ≤ p.length) → Stripped l x → Stripped r y →
      (l = true → x = [] → ∀ z, w.getLast? = some z → isS z = false) →
      (r = true → y = [] → ∀ z, s.head? = some z → isS z = false) →
      Taking l r c s v rs → Taking l r c (w ++ (x ++ c ++ y) ++ s) w ((x ++ c ++ y, v) :: rs)

/-! ### The matches -/

/-- The places, in bytes. -/
def takenAt : Nat → Str → List (Str × Str) → List (Nat × Nat)
  | _, _, [] => []
  | k, w, r :: rs => (k + blen w, k + blen w + blen r.1) :: takenAt (k + blen w + blen r.1) r.2 rs

theorem findAll_skip {re : Pat} (t : Str) (fuel : Nat) (last : Option Nat) (w : Str) :
    ∀ (prev : Option Char) (pos : Nat), (∀ a b, w = a ++ b → b ≠ [] → ∀ p, re.ends p (b ++ t) = []) →
    ∃ prev', findAll re (w.length + fuel) prev (charsOf (w ++ t)) pos last = findAll re fuel prev' (charsOf t) (pos + blen w) last := by
  induction w with
  | nil => intro prev pos _; exact ⟨prev, by simp⟩
  | cons c w ih =>
    intro prev pos h
    obtain ⟨prev', e⟩ := ih (some c) (pos + c.utf8Size) (fun a b hw hb => h (c :: a) b (by rw [hw]; rfl) hb)
    refine ⟨prev', ?_⟩
    have h0 := h [] (c :: w) rfl (by simp) prev
    have hf : (charsOf (c :: w ++ t)).map (·.1) = c :: w ++ t := charsOf_fst _
    have hl : (c :: w).length + fuel = (w.length + fuel) + 1 := by simp only [List.length_cons]; omega
    have hcons : charsOf (c :: w ++ t) = (c, c.utf8Size) :: charsOf (w ++ t) := rfl
    rw [hl]
    simp only [findAll, hf, h0, List.head?_nil]
    rw [hcons]
    dsimp only
    rw [e, blen_cons, Nat.add_assoc]

theorem ends_none {l r : Bool} {c s : Str} (h1 : ¬ c <+: s) (h2 : l = true → ∀ z t, s = z :: t → isS z = true → ¬ c <+: t)
    (p : Option Char) : (stripped l r (.lit c)).ends p s = [] := by
  have hR := right_ends (ends_lit c) r
  rw [stripped_eq]
  cases l with
  | false =>
    simp only [leftPat]
    rw [if_neg (by simp), hR, if_neg h1]
  | true =>
    rw [left_ends, hR p s, if_neg h1]
    cases s with
    | nil => rfl
    | cons z t =>
      dsimp only
      by_cases hz : isS z = true
      · rw [if_pos hz, hR, if_neg (h2 rfl z t rfl hz)]; rfl
      · rw [if_neg hz]; rfl

theorem ends_hit {l r : Bool} {c₀ : Char} {cs x y s : Str} (hc : isS c₀ = false) (hx : Stripped l x) (hy : Stripped r y)
    (hmax : r = true → y = [] → ∀ z, s.head? = some z → isS z = false) (p : Option Char) :
    ((stripped l r (.lit (c₀ :: cs))).ends p (x ++ (c₀ :: cs) ++ y ++ s)).head? = some (x ++ (c₀ :: cs) ++ y).length := by
  have hR := right_ends (ends_lit (c₀ :: cs)) r
  have hright : ∀ p, ((rightPat r (.lit (c₀ :: cs))).ends p ((c₀ :: cs) ++ y ++ s)).head? = some ((c₀ :: cs) ++ y).length := by
    intro p
    have hp : (c₀ :: cs) <+: (c₀ :: cs) ++ y ++ s := ⟨y ++ s, by simp⟩
    rw [hR, if_pos hp]
    have hdrop : ((c₀ :: cs) ++ y ++ s).drop (c₀ :: cs).length = y ++ s := by simp
    rw [hdrop]
    rcases hy with rfl | ⟨hr, z, hz, rfl⟩
    · by_cases hr : r = true
      · have : (([] : Str) ++ s).head?.any isS = false := by
          cases s with
          | nil => rfl
          | cons z s => simpa using hmax hr rfl z rfl
        rw [this]; simp
      · simp [hr]
    · subst hr
      simp [hz]
  rw [stripped_eq]
  rcases hx with rfl | ⟨hl, z, hz, rfl⟩
  · cases l with
    | false =>
      simp only [leftPat]
      rw [if_neg (by simp)]
      simpa using hright p
    | true =>
      rw [left_ends]
      simp only [List.nil_append, List.cons_append, hc]
      rw [if_neg (by simp)]
      simpa using hright p
  · subst hl
    rw [left_ends]
    simp only [List.cons_append, List.nil_append, hz, if_true]
    have := hright (some z)
    simp only [List.cons_append] at this
    rw [List.head?_append, List.head?_map, this]
    simp [Nat.add_comm]

theorem taking_engine {l r : Bool} {c₀ : Char} {cs : Str} (hc : isS c₀ = false) {s w : Str} {rs : List (Str × Str)}
    (h : Taking l r (c₀ :: cs) s w rs) : ∀ (fuel : Nat) (prev : Option Char) (pos : Nat) (last : Option Nat), s.length < fuel →
      findAll (stripped l r (.lit (c₀ :: cs))) fuel prev (charsOf s) pos last = takenAt pos w rs := by
  induction h with
  | last w hw =>
    intro fuel prev pos last hf
    have he : ∀ a b, w = a ++ b → b ≠ [] → ∀ p, (stripped l r (.lit (c₀ :: cs))).ends p (b ++ []) = [] := by
      intro a b hab _ p
      rw [List.append_nil]
      refine ends_none ?_ ?_ p
      · rintro ⟨q, hq⟩
        exact hw ⟨a, q, by rw [hab, ← hq]; simp⟩
      · rintro _ z t rfl _ ⟨q, hq⟩
        exact hw ⟨a ++ [z], q, by rw [hab, ← hq]; simp⟩
    obtain ⟨prev', e⟩ := findAll_skip (re := stripped l r (.lit (c₀ :: cs))) [] (fuel - w.length) last w prev pos he
    rw [List.append_nil, Nat.add_sub_cancel' (by omega)] at e
    rw [e, takenAt]
    obtain ⟨k, hk⟩ : ∃ k, fuel - w.length = k + 1 := ⟨fuel - w.length - 1, by omega⟩
    have h0 : (stripped l r (.lit (c₀ :: cs))).ends prev' [] = [] :=
      ends_none (by simp) (by intro _ z t h; cases h) _
    have hm : (charsOf []).map (·.1) = [] := rfl
    rw [hk]
    simp only [findAll, hm, h0, List.head?_nil]
    rfl
  | cons w x y s v rs hfirst hx hy hxm hym _ ih =>
    intro fuel prev pos last hf
    have he : ∀ a b, w = a ++ b → b ≠ [] → ∀ p, (stripped l r (.lit (c₀ :: cs))).ends p (b ++ (x ++ (c₀ :: cs) ++ y ++ s)) = [] := by
      intro a b hab hb p
      have hbl := List.length_pos_iff.mpr hb
      refine ends_none ?_ ?_ p
      · rintro ⟨q, hq⟩
        have := hfirst a q (by
          have : w ++ (x ++ (c₀ :: cs) ++ y) ++ s = a ++ (b ++ (x ++ (c₀ :: cs) ++ y ++ s)) := by rw [hab]; simp
          rw [this, ← hq]; simp)
        rw [hab] at this
        simp only [List.length_append] at this
        omega
      · rintro hl z t ht hz ⟨q, hq⟩
        have := hfirst (a ++ [z]) q (by
          have : w ++ (x ++ (c₀ :: cs) ++ y) ++ s = a ++ (b ++ (x ++ (c₀ :: cs) ++ y ++ s)) := by rw [hab]; simp
          rw [this, ht, ← hq]; simp)
        rw [hab] at this
        simp only [List.length_append, List.length_cons, List.length_nil] at this
        have hx0 : x = [] := List.length_eq_zero_iff.mp (by omega)
        obtain ⟨z', rfl⟩ : ∃ z', b = [z'] := List.length_eq_one_iff.mp (by omega)
        have hz' : z' = z := by simpa using (List.cons.inj ht).1
        subst hz'
        have := hxm hl hx0 z' (by rw [hab]; simp)
        rw [this] at hz
        cases hz
    have hlen : (w ++ (x ++ (c₀ :: cs) ++ y) ++ s).length = w.length + ((x ++ (c₀ :: cs) ++ y).length + s.length) := by
      simp only [List.length_append]; omega
    rw [hlen] at hf
    obtain ⟨prev', e⟩ := findAll_skip (re := stripped l r (.lit (c₀ :: cs))) (x ++ (c₀ :: cs) ++ y ++ s) (fuel - w.length) last w
      prev pos he
    rw [Nat.add_sub_cancel' (by omega)] at e
    have ha : w ++ (x ++ (c₀ :: cs) ++ y) ++ s = w ++ (x ++ (c₀ :: cs) ++ y ++ s) := by simp
    rw [ha, e, takenAt]
    obtain ⟨k, hk⟩ : ∃ k, fuel - w.length = k + 1 := ⟨fuel - w.length - 1, by omega⟩
    have hh := ends_hit (cs := cs) hc hx hy hym prev'
    obtain ⟨n, hn⟩ : ∃ n, (x ++ (c₀ :: cs) ++ y).length = n + 1 := ⟨x.length + cs.length + y.length, by
      simp only [List.length_append, List.length_cons]; omega⟩
    rw [hn] at hh
    rw [hk]
    simp only [findAll, charsOf_fst, hh]
    have hdrop : (charsOf (x ++ (c₀ :: cs) ++ y ++ s)).drop (n + 1) = charsOf s := by
      rw [← hn]; unfold charsOf; rw [← List.map_drop, List.drop_left]
    have htake : width ((charsOf (x ++ (c₀ :: cs) ++ y ++ s)).take (n + 1)) = blen (x ++ (c₀ :: cs) ++ y) := by
      rw [← width_chars, ← hn]; unfold charsOf; rw [← List.map_take, List.take_left]
    rw [hdrop, htake, ih _ _ _ _ (by omega)]

theorem taking_head {l r : Bool} {c s w : Str} {rs : List (Str × Str)} (h : Taking l r c s w rs) :
    ∀ id, s = spelled w (rs.map (fun r => ((r.1, id), r.2))) := by
  induction h with
  | last w _ => intro id; simp [spelled]
  | cons w x y s v rs _ _ _ _ _ _ ih =>
    intro id
    rw [List.map_cons, spelled_cons, ← ih id]

/-- The matched texts contain the content. -/
theorem taking_taken {l r : Bool} {c s w : Str} {rs : List (Str × Str)} (h : Taking l r c s w rs) :
    ∀ p ∈ rs, ∃ x y, p.1 = x ++ c ++ y ∧ Stripped l x ∧ Stripped r y := by
  induction h with
  | last w _ => intro p hp; cases hp
  | cons w x y s v rs _ h1 h2 _ _ _ ih =>
    intro p hp
    rcases List.mem_cons.mp hp with rfl | hp
    · exact ⟨x, y, rfl, h1, h2⟩
    · exact ih p hp

theorem taking_infix {l r : Bool} {c s w : Str} {rs : List (Str × Str)} (h : Taking l r c s w rs) :
    ∀ v ∈ w :: rs.map (·.2), v <:+: s := by
  induction h with
  | last w _ => intro v hv; simp at hv; subst hv; exact List.infix_refl _
  | cons w x y s v rs _ _ _ _ _ _ ih =>
    intro u hu
    rcases List.mem_cons.mp hu with rfl | hu
    · exact ⟨[], x ++ c ++ y ++ s, by simp⟩
    · obtain ⟨a, b, e⟩ := ih u hu
      exact ⟨w ++ (x ++ c ++ y) ++ a, b, by rw [← e]; simp⟩

theorem taking_free {l r : Bool} {c s w : Str} (hc : c ≠ []) {rs : List (Str × Str)} (h : Taking l r c s w rs) :
    ∀ v ∈ w :: rs.map (·.2), ¬ c <:+: v := by
  induction h with
  | last w hw => intro v hv; simp at hv; subst hv; exact hw
  | cons w x y s v rs hf _ _ _ _ _ ih =>
    intro u hu
    rcases List.mem_cons.mp hu with rfl | hu
    · rintro ⟨a, b, e⟩
      have := hf a (b ++ (x ++ c ++ y) ++ s) (by rw [← e]; simp)
      have h1 := congrArg List.length e
      simp only [List.length_append] at h1 this
      have := List.length_pos_iff.mpr hc
      omega
    · exact ih u hu

theorem takenAt_hits {ids : List Int} {i : Nat} {id : Int} (hi : ids[i]? = some id) (rs : List (Str × Str)) : ∀ (k : Nat) (w : Str),
    Hits ids k w (rs.map (fun r => ((r.1, id), r.2))) ((takenAt k w rs).map (fun m => ⟨i, m.1, m.2⟩)) := by
  induction rs with
  | nil => intro k w; rfl
  | cons r rs ih => intro k w; exact ⟨i, _, rfl, hi, ih _ _⟩

theorem takenAt_sorted (rs : List (Str × Str)) : ∀ (k : Nat) (w : Str),
    (takenAt k w rs).Pairwise (fun x y => x.1 ≤ y.1) ∧ ∀ x ∈ takenAt k w rs, k ≤ x.1 := by
  induction rs with
  | nil => intro k w; simp [takenAt]
  | cons r rs ih =>
    intro k w
    obtain ⟨h1, h2⟩ := ih (k + blen w + blen r.1) r.2
    refine ⟨List.pairwise_cons.mpr ⟨fun x hx => ?_, h1⟩, fun x hx => ?_⟩
    · have := h2 x hx
      dsimp only
      omega
    · rcases List.mem_cons.mp hx with rfl | hx
      · dsimp only; omega
      · have := h2 x hx; omega

/-- The matches of a set of tokens of which only one is in the text. -/
theorem set_taking (wordChar : Char → Bool) {norm : Option (NStr → Res NStr)} (order : List PatMatch → List PatMatch)
    (ho : ∀ l : List PatMatch, SortedById l → l.Pairwise (fun a b => a.start ≤ b.start) → order l = l)
    {es : List (AddedToken × Int)} {s w : Str} {i : Nat} {a : AddedToken} {id : Int} (hi : es[i]? = some (a, id))
    (h1 : a.singleWord = false) (hc : ∃ c₀ cs, a.content = c₀ :: cs ∧ isS c₀ = false)
    (h : ∀ j e, es[j]? = some e → j ≠ i → Absent norm s e.1) {rs : List (Str × Str)}
    (hm : Taking a.lstrip a.rstrip a.content s w rs) :
    ∃ re, buildSet wordChar norm order es = .ok re ∧ re.ids[i]? = some id ∧
      re.engine (encStr s) = (takenAt 0 w rs).map (fun m => ⟨i, m.1, m.2⟩) := by
  obtain ⟨c₀, cs, hcc, hcs⟩ := hc
  have hc : a.content ≠ [] := by rw [hcc]; simp
  obtain ⟨res, e1, e2, _, e3⟩ := buildPatterns_ok (wordChar := wordChar) (norm := norm) (es := es) (by
    intro e he
    obtain ⟨j, hj⟩ := List.getElem?_of_mem he
    by_cases hji : j = i
    · subst hji
      rw [hi] at hj
      cases hj
      exact ⟨hc, fun hs => by rw [h1] at hs; cases hs⟩
    · obtain ⟨h0, w, hw, _, _, h2⟩ := h j e hj hji
      exact ⟨h0, fun hs => ⟨w, h2 hs, hw⟩⟩)
  obtain ⟨re, f1, f2⟩ := e3 i _ hi
  have f3 : getPattern wordChar norm a = .ok (stripped a.lstrip a.rstrip (.lit a.content)) := by
    simp only [getPattern, core, h1]; rfl
  rw [f2] at f3
  cases f3
  have hen : (stripped a.lstrip a.rstrip (.lit a.content)).engine (encStr s) = takenAt 0 w rs := by
    unfold Pat.engine
    rw [charsOf_enc]
    rw [hcc] at hm ⊢
    exact taking_engine hcs hm _ _ _ _ (by simp [charsOf])
  have hall := allMatches_one (res := res) (encStr s) f1 (by
    intro j q hj hne
    have hlt : j < es.length := by rw [← e2]; exact (List.getElem?_eq_some_iff.mp hj).1
    obtain ⟨q', g1, g2⟩ := e3 j es[j] (List.getElem?_eq_getElem hlt)
    rw [hj] at g1
    cases g1
    exact pattern_quiet (h j _ (List.getElem?_eq_getElem hlt) hne) g2)
  rw [hen] at hall
  refine ⟨⟨es.map (·.2), fun bs => order (allMatches res bs)⟩, by simp only [buildSet, e1, Res.bind_ok], by simp [hi], ?_⟩
  dsimp only
  rw [hall]
  apply ho
  · unfold SortedById
    rw [List.pairwise_map]
    exact (takenAt_sorted rs 0 w).1.imp (fun _ => Nat.le_refl _)
  · rw [List.pairwise_map]
    exact (takenAt_sorted rs 0 w).1

end Tok.Whole
