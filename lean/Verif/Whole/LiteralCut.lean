import Verif.Whole.PropsPresetsRoberta
import Verif.Regex.PropsSplitAny
import Verif.Norm.PropsReplaceDecoder
import Verif.PreTok.PropsOriginReplace

/-!
# Where a quoted text is found, and a text that has been given a prefix
-/

namespace Tok.Whole

open Tok.PreTok Tok.Regex
open Tok.Norm

/-! ### The search for a word in bytes -/

theorem literalFrom_skip {p rest : List UInt8} : ∀ (bs : List UInt8) (i : Nat),
    (∀ a b, bs = a ++ b → b ≠ [] → ¬ p <+: b ++ rest) → literalFrom p i (bs ++ rest) = literalFrom p (i + bs.length) rest := by
  intro bs
  induction bs with
  | nil => intro i _; rfl
  | cons b bs ih =>
    intro i h
    have h0 := h [] (b :: bs) rfl (by simp)
    rw [List.cons_append, literalFrom, if_neg (fun hh => h0 (List.isPrefixOf_iff_prefix.mp hh.2)),
      ih (i + 1) (fun a c e => h (b :: a) c (by rw [e]; rfl)), List.length_cons]
    congr 1
    omega

theorem replaceBytes_skip {p new rest : List UInt8} : ∀ (bs : List UInt8),
    (∀ a b, bs = a ++ b → b ≠ [] → ¬ p <+: b ++ rest) → replaceBytes p new (bs ++ rest) = bs ++ replaceBytes p new rest := by
  intro bs
  induction bs with
  | nil => intro _; rfl
  | cons b bs ih =>
    intro h
    have h0 := h [] (b :: bs) rfl (by simp)
    rw [List.cons_append, replaceBytes, if_neg (fun hh => h0 (List.isPrefixOf_iff_prefix.mp hh.2)),
      ih (fun a c e => h (b :: a) c (by rw [e]; rfl))]
    rfl

/-- A word that begins inside of a text begins at a character. -/
theorem word_at_char {w t rest : Str} (hw : w ≠ []) {a b : List UInt8} (hab : encStr t = a ++ b) (hb : b ≠ [])
    (hp : encStr w <+: b ++ encStr rest) : ∃ u v, t = u ++ v ∧ v ≠ [] ∧ w <+: v ++ rest := by
  obtain ⟨y, hy⟩ := hp
  have hbl : 0 < b.length := List.length_pos_iff.mpr hb
  have hlen : a.length + b.length = blen t := by rw [← length_encStr, hab, List.length_append]
  have hall : encStr (t ++ rest) = a ++ encStr w ++ y := by
    rw [encStr_append, hab, List.append_assoc, ← hy, List.append_assoc]
  have hpos : 0 < (encStr w).length := by
    rw [length_encStr]
    exact Nat.pos_of_ne_zero (fun h => hw (blen_eq_zero.mp h))
  have hbd : Boundary t a.length := by
    apply Classical.byContradiction
    intro hn
    obtain ⟨c, e1, e2⟩ := inside_cont t a.length (by omega) hn
    obtain ⟨c', f1, f2⟩ := boundary_runeStart (s := w) (i := 0) ⟨[], w, rfl, rfl⟩ (by rw [← length_encStr]; exact hpos)
    have hz : (encStr w)[0]? = some c' := by
      cases hw' : encStr w with
      | nil => rw [hw'] at hpos; cases hpos
      | cons z zs =>
        rw [hw'] at f1
        have : idx (z :: zs) ((0 : Nat) : Int) = .ok z := rfl
        rw [this] at f1
        cases f1
        rfl
    have h1 : (encStr (t ++ rest))[a.length]? = some c' := by
      rw [hall, List.append_assoc, List.getElem?_append_right (Nat.le_refl _), Nat.sub_self, List.getElem?_append_left hpos, hz]
    rw [encStr_append, List.getElem?_append_left (by rw [length_encStr]; omega), e1] at h1
    cases h1
    rw [f2] at e2
    cases e2
  obtain ⟨u, v, rfl, hu⟩ := hbd
  have hv : v ≠ [] := by rintro rfl; rw [blen_append, blen_nil] at hlen; omega
  refine ⟨u, v, rfl, hv, prefix_enc w (v ++ rest) y ?_⟩
  rw [List.append_assoc, encStr_append, List.append_assoc] at hall
  exact (List.append_inj hall (by rw [length_encStr, hu])).2

theorem gap_free {w t rest : Str} (hw : w ≠ []) (h : ∀ u v, t = u ++ v → v ≠ [] → ¬ w <+: v ++ rest) :
    ∀ a b, encStr t = a ++ b → b ≠ [] → ¬ encStr w <+: b ++ encStr rest := by
  intro a b e hb hp
  obtain ⟨u, v, h1, h2, h3⟩ := word_at_char hw e hb hp
  exact h u v h1 h2 h3

theorem encStr_ne {w : Str} (hw : w ≠ []) : encStr w ≠ [] := by
  intro h
  have := length_encStr w
  rw [h] at this
  exact hw (blen_eq_zero.mp this.symm)

theorem cons_of_ne {l : List UInt8} (h : l ≠ []) : ∃ c cs, l = c :: cs := by
  cases l with
  | nil => exact absurd rfl h
  | cons c cs => exact ⟨c, cs, rfl⟩

theorem literalFrom_hit {p rest : List UInt8} (hp : p ≠ []) (i : Nat) :
    literalFrom p i (p ++ rest) = (i, i + p.length) :: literalFrom p (i + p.length) rest := by
  obtain ⟨c, cs, rfl⟩ := cons_of_ne hp
  rw [List.cons_append, literalFrom, if_pos ⟨by simp, List.isPrefixOf_iff_prefix.mpr ⟨rest, rfl⟩⟩, ← List.cons_append, List.drop_left]

theorem replaceBytes_hit {p new rest : List UInt8} (hp : p ≠ []) :
    replaceBytes p new (p ++ rest) = new ++ replaceBytes p new rest := by
  obtain ⟨c, cs, rfl⟩ := cons_of_ne hp
  rw [List.cons_append, replaceBytes, if_pos ⟨by simp, List.isPrefixOf_iff_prefix.mpr ⟨rest, rfl⟩⟩, ← List.cons_append, List.drop_left]

theorem textOf_cons (t : Str) (f : Bool) (us : List (Str × Bool)) : textOf ((t, f) :: us) = t ++ textOf us := rfl

theorem literalFrom_cut {w : Str} (hw : w ≠ []) {us : List (Str × Bool)} (h : WordCut w us) : ∀ i,
    literalFrom (encStr w) i (encStr (textOf us)) = marks i us := by
  induction h with
  | nil => intro i; rw [show encStr (textOf []) = [] from rfl, literalFrom]; rfl
  | hit us h ih =>
    intro i
    rw [textOf_cons, encStr_append, literalFrom_hit (encStr_ne hw), ih, length_encStr]
    simp [marks, spansAt]
  | gap t us ht hg hh h ih =>
    intro i
    rw [textOf_cons, encStr_append, literalFrom_skip _ _ (gap_free hw hg), ih, length_encStr]
    simp [marks, spansAt]

theorem replaceBytes_cut {w : Str} (hw : w ≠ []) (new : Str) {us : List (Str × Bool)} (h : WordCut w us) :
    replaceBytes (encStr w) (encStr new) (encStr (textOf us)) = encStr (replacedText new us) := by
  induction h with
  | nil => rw [show encStr (textOf []) = [] from rfl, replaceBytes]; rfl
  | hit us h ih =>
    rw [textOf_cons, encStr_append, replaceBytes_hit (encStr_ne hw), ih, ← encStr_append]
    simp [replacedText]
  | gap t us ht hg hh h ih =>
    rw [textOf_cons, encStr_append, replaceBytes_skip _ (gap_free hw hg), ih, ← encStr_append]
    simp [replacedText]

theorem string_find {w : Str} (hw : w ≠ []) {us : List (Str × Bool)} (h : WordCut w us) (hne : textOf us ≠ []) :
    (stringPattern (encStr w)).find (encStr (textOf us)) = .ok (spansAt 0 us) := by
  have h1 : 0 < (encStr w).length := List.length_pos_iff.mpr (encStr_ne hw)
  have h2 : 0 < (encStr (textOf us)).length := List.length_pos_iff.mpr (encStr_ne hne)
  simp only [stringPattern, Pat.find]
  rw [if_neg (by omega), literalFrom_cut hw h, length_encStr]
  exact congrArg Res.ok (reFind_units us (by intro h; subst h; exact hne rfl) (reCut_spaced (wordCut_re hw h)))

theorem wordCut_exists {w : Str} (hw : w ≠ []) (s : Str) : ∃ us, WordCut w us ∧ textOf us = s := by
  obtain ⟨us, h1, h2⟩ := reCut_exists (Re.lit w) (by
    intro s h
    rw [ends_lit] at h
    split at h
    · rw [List.mem_singleton] at h
      exact hw (List.length_eq_zero_iff.mp h.symm)
    · cases h) s
  exact ⟨us, reCut_word h1, h2⟩

/-- Replacing one character. -/
theorem replacedText_char {a : Char} (new : Str) {us : List (Str × Bool)} (h : WordCut [a] us) :
    replacedText new us = (textOf us).flatMap (fun c => if c = a then new else [c]) := by
  induction h with
  | nil => rfl
  | hit us h ih =>
    rw [textOf_cons, List.flatMap_append, ← ih]
    simp [replacedText]
  | gap t us ht hg hh h ih =>
    rw [textOf_cons, List.flatMap_append, ← ih]
    have : t.flatMap (fun c => if c = a then new else [c]) = t := by
      have hn : ∀ c ∈ t, c ≠ a := by
        intro c hc e
        subst e
        obtain ⟨u, v, e⟩ := List.append_of_mem hc
        exact hg u (c :: v) e (by simp) ⟨v ++ textOf us, rfl⟩
      clear ht hg
      induction t with
      | nil => rfl
      | cons c t iht => rw [List.flatMap_cons, if_neg (hn c (by simp)), iht (fun c hc => hn c (by simp [hc]))]; rfl
    rw [this]
    simp [replacedText]

end Tok.Whole
