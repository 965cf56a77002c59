import Verif.PreTok.Scripts
import Verif.PreTok.PropsSplitters
import Verif.Regex.PropsCuts

/-!
# C126: the pre-tokenizer by scripts cuts where the script changes
-/

namespace Tok.Regex

open Tok.Norm Tok.PreTok

/-! ### Specification -/

/-- Pieces one after the other: each begins with a character of a script that is not the one before, and has
only characters of that script and characters of script "Any" (for `FixedScript`, spaces). -/
def ScriptPieces (script : Char → String) : String → List Str → Prop
  | _, [] => True
  | last, w :: ps => ∃ c v, w = c :: v ∧ script c ≠ "Any" ∧ script c ≠ last ∧
      (∀ d ∈ v, script d = "Any" ∨ script d = script c) ∧ ScriptPieces script (script c) ps

/-- The text `s` is `lead`, which has no script that differs from `last`, and then such pieces. -/
structure CutByScript (script : Char → String) (last : String) (s lead : Str) (ps : List Str) : Prop where
  text : s = lead ++ ps.flatten
  lead : ∀ c ∈ lead, script c = "Any" ∨ script c = last
  pieces : ScriptPieces script last ps

/-- Each character is in at most one of the tables. -/
def Disjoint (tables : List (String × (Char → Bool))) : Prop :=
  ∀ a ∈ tables, ∀ b ∈ tables, ∀ c, a.2 c = true → b.2 c = true → a.1 = b.1

/-! ### The pieces -/

/-- What comes before the first change of the script, and the pieces from there on. -/
def scriptPieces (script : Char → String) : String → Str → Str × List Str
  | _, [] => ([], [])
  | last, c :: s =>
    let r := scriptPieces script (if script c ≠ "Any" then script c else last) s
    if script c ≠ "Any" ∧ last ≠ script c then ([], (c :: r.1) :: r.2) else (c :: r.1, r.2)

theorem scriptPieces_cut (script : Char → String) (s : Str) : ∀ last, last ≠ "Any" →
    CutByScript script last s (scriptPieces script last s).1 (scriptPieces script last s).2 := by
  induction s with
  | nil => intro last _; exact ⟨rfl, by simp [scriptPieces], trivial⟩
  | cons c s ih =>
    intro last hl
    rw [scriptPieces]
    split
    · next h =>
      rw [if_pos h.1]
      have := ih (script c) h.1
      exact ⟨by simp only [List.nil_append, List.flatten_cons, List.cons_append, ← this.text], by simp,
        c, _, rfl, h.1, Ne.symm h.2, this.lead, this.pieces⟩
    · next h =>
      by_cases hc : script c = "Any"
      · rw [if_neg (by simp [hc])]
        have := ih last hl
        refine ⟨by simp only [List.cons_append, ← this.text], ?_, this.pieces⟩
        intro d hd
        rcases List.mem_cons.mp hd with rfl | hd
        · exact .inl hc
        · exact this.lead d hd
      · have hlc : last = script c := Classical.byContradiction (fun hn => h ⟨hc, hn⟩)
        rw [if_pos hc]
        have := ih (script c) hc
        rw [← hlc] at this ⊢
        refine ⟨by simp only [List.cons_append, ← this.text], ?_, this.pieces⟩
        intro d hd
        rcases List.mem_cons.mp hd with rfl | hd
        · exact .inr hlc.symm
        · exact this.lead d hd

theorem scriptPieces_ne (script : Char → String) (ps : List Str) : ∀ last, ScriptPieces script last ps → ∀ w ∈ ps, w ≠ [] := by
  induction ps with
  | nil => intro _ _ w hw; cases hw
  | cons p ps ih =>
    rintro last ⟨c, v, rfl, _, _, _, h⟩ w hw
    rcases List.mem_cons.mp hw with rfl | hw
    · simp
    · exact ih _ h w hw

/-- Where the pieces begin. -/
def pieceStarts : Nat → List Str → List Nat
  | _, [] => []
  | i, w :: ps => i :: pieceStarts (i + blen w) ps

theorem charRanges_starts (script : Char → String) (s : Str) : ∀ i last, last ≠ "Any" →
    charRanges script s i last =
      pieceStarts (i + blen (scriptPieces script last s).1) (scriptPieces script last s).2 := by
  induction s with
  | nil => intro i last _; rfl
  | cons c s ih =>
    intro i last hl
    rw [charRanges, scriptPieces]
    by_cases hc : script c = "Any"
    · rw [if_neg (by simp [hc]), if_neg (by simp [hc]), if_neg (by simp [hc]), ih _ _ hl]
      simp only [List.nil_append, blen_cons, Nat.add_assoc]
    · by_cases hlc : last = script c
      · rw [if_neg (by simp [hlc]), if_pos hc, if_neg (by simp [hlc]), ih _ _ hc]
        simp only [List.nil_append, blen_cons, Nat.add_assoc]
      · rw [if_pos (by simp [hc, hl, hlc]), if_pos hc, if_pos ⟨hc, hlc⟩, ih _ _ hc, pieceStarts]
        simp only [List.cons_append, List.nil_append, blen_nil, Nat.add_zero, blen_cons, Nat.add_assoc]

theorem sliceWindows_texts {x : NStr} (hw : WF x) (ps : List Str) : ∀ u : Str, x.normalized = encStr (u ++ ps.flatten) →
    (∀ w ∈ ps, w ≠ []) → ∃ xs, sliceWindows x (pieceStarts (blen u) ps ++ [blen (u ++ ps.flatten)]) = .ok xs ∧
      xs.map (·.normalized) = ps.map encStr ∧ ∀ y ∈ xs, WF y := by
  induction ps with
  | nil => intro u _ _; exact ⟨[], rfl, rfl, by simp⟩
  | cons w ps ih =>
    intro u hx hne
    obtain ⟨y, hy, h1, -, h2⟩ := C44_slice hw hx u w ps.flatten (by simp) (hne w (by simp))
    obtain ⟨xs, k1, k2, k3⟩ := ih (u ++ w) (by rw [hx]; simp) (fun v hv => hne v (by simp [hv]))
    refine ⟨y :: xs, ?_, by simp [h1, k2], ?_⟩
    · have hhead : ∃ l, pieceStarts (blen u + blen w) ps ++ [blen (u ++ (w :: ps).flatten)] = (blen (u ++ w)) :: l ∧
          (blen (u ++ w)) :: l = pieceStarts (blen (u ++ w)) ps ++ [blen (u ++ w ++ ps.flatten)] := by
        cases ps with
        | nil => exact ⟨[], by simp [pieceStarts], by simp [pieceStarts]⟩
        | cons v ps =>
          refine ⟨pieceStarts (blen (u ++ w) + blen v) ps ++ [blen (u ++ w ++ (v :: ps).flatten)], ?_, ?_⟩
          · rw [pieceStarts, List.cons_append, ← blen_append, List.flatten_cons, List.append_assoc]
          · rw [pieceStarts, List.cons_append]
      obtain ⟨l, e1, e2⟩ := hhead
      rw [pieceStarts, List.cons_append, e1, sliceWindows, hy]
      simp only [Res.bind_ok]
      rw [e2, k1]
      rfl
    · intro z hz
      rcases List.mem_cons.mp hz with rfl | hz
      · exact h2
      · exact k3 z hz

/-! ### The properties -/

/-- **C126.** The pieces of a text are those of the specification; what is before the first script is left out. -/
theorem C126_cut_partial (script : Char → String) :
    ∃ g : Str → List Str, CutsTexts (unicodeScript script) g ∧
      ∀ s, ∃ lead, CutByScript script "" s lead (g s) := by
  refine ⟨fun s => (scriptPieces script "" s).2, ?_, fun s => ⟨_, scriptPieces_cut script s "" (by decide)⟩⟩
  apply cutsTexts_split
  intro x m hw hm _
  have hc := scriptPieces_cut script m "" (by decide)
  have hne := scriptPieces_ne script _ _ hc.pieces
  refine ⟨hne, ?_⟩
  obtain ⟨xs, h1, h2, h3⟩ := sliceWindows_texts hw (scriptPieces script "" m).2 (scriptPieces script "" m).1
    (by rw [← hc.text]; exact hm) hne
  refine ⟨xs, ?_, h2, h3⟩
  rw [scriptCut, hm, scriptRanges_enc, length_encStr, charRanges_starts _ _ _ _ (by decide), Nat.zero_add]
  rw [← hc.text] at h1
  rw [h1]
  rfl

/-- The specification leaves no choice. -/
theorem C126_unique (script : Char → String) (s : Str) : ∀ last lead lead' ps ps', CutByScript script last s lead ps →
    CutByScript script last s lead' ps' → lead = lead' ∧ ps = ps' := by
  induction s with
  | nil =>
    intro last lead lead' ps ps' h h'
    have key : ∀ l qs, CutByScript script last [] l qs → l = [] ∧ qs = [] := by
      intro l qs k
      have := k.text.symm
      rw [List.append_eq_nil_iff] at this
      refine ⟨this.1, ?_⟩
      cases qs with
      | nil => rfl
      | cons q qs =>
        obtain ⟨c, v, rfl, _⟩ := k.pieces
        simp at this
    rw [(key _ _ h).1, (key _ _ h).2, (key _ _ h').1, (key _ _ h').2]
    exact ⟨rfl, rfl⟩
  | cons c s ih =>
    intro last lead lead' ps ps' h h'
    -- a text that begins with a change has no lead
    have begins : ∀ l qs, CutByScript script last (c :: s) l qs → script c ≠ "Any" → script c ≠ last →
        l = [] ∧ ∃ v rest, qs = (c :: v) :: rest ∧ CutByScript script (script c) s v rest := by
      intro l qs k h1 h2
      have hl : l = [] := by
        cases l with
        | nil => rfl
        | cons d l =>
          have : c = d := by have := k.text; simp at this; exact this.1
          subst this
          rcases k.lead c (by simp) with e | e
          · exact absurd e h1
          · exact absurd e h2
      subst hl
      refine ⟨rfl, ?_⟩
      cases qs with
      | nil => have := k.text; simp at this
      | cons q qs =>
        obtain ⟨d, v, rfl, k1, k2, k3, k4⟩ := k.pieces
        have ht := k.text
        simp only [List.nil_append, List.flatten_cons, List.cons_append, List.cons.injEq] at ht
        obtain ⟨rfl, ht⟩ := ht
        exact ⟨v, qs, rfl, ht, k3, k4⟩
    have goes : ∀ l qs, CutByScript script last (c :: s) l qs → (script c = "Any" ∨ script c = last) →
        ∃ l', l = c :: l' ∧ CutByScript script last s l' qs := by
      intro l qs k h1
      cases l with
      | nil =>
        cases qs with
        | nil => have := k.text; simp at this
        | cons q qs =>
          obtain ⟨d, v, rfl, k1, k2, k3, k4⟩ := k.pieces
          have ht := k.text
          simp only [List.nil_append, List.flatten_cons, List.cons_append, List.cons.injEq] at ht
          obtain ⟨rfl, ht⟩ := ht
          rcases h1 with e | e
          · exact absurd e k1
          · exact absurd e k2
      | cons d l =>
        have ht := k.text
        simp only [List.cons_append, List.cons.injEq] at ht
        obtain ⟨rfl, ht⟩ := ht
        exact ⟨l, rfl, ht, fun d hd => k.lead d (by simp [hd]), k.pieces⟩
    by_cases hc : script c = "Any" ∨ script c = last
    · obtain ⟨l1, rfl, k1⟩ := goes _ _ h hc
      obtain ⟨l2, rfl, k2⟩ := goes _ _ h' hc
      obtain ⟨rfl, rfl⟩ := ih _ _ _ _ _ k1 k2
      exact ⟨rfl, rfl⟩
    · have h1 : script c ≠ "Any" := fun e => hc (.inl e)
      have h2 : script c ≠ last := fun e => hc (.inr e)
      obtain ⟨rfl, v1, r1, rfl, k1⟩ := begins _ _ h h1 h2
      obtain ⟨rfl, v2, r2, rfl, k2⟩ := begins _ _ h' h1 h2
      obtain ⟨rfl, rfl⟩ := ih _ _ _ _ _ k1 k2
      exact ⟨rfl, rfl⟩

/-- C126 fails, always: white space before the first script, and characters without a script there, are left out. -/
theorem C126_lead_violated (script : Char → String) (lead : Str) (hl : lead ≠ [])
    (h : ∀ c ∈ lead, script c = "Any" ∨ script c = "") (c : Char) (hc : script c ≠ "Any" ∧ script c ≠ "") (s : Str) :
    ∃ pt ts, unicodeScript script (newPTS (encStr (lead ++ c :: s))) = .ok pt ∧ Holding pt ts ∧
      (ts.map (·.1)).flatten = c :: s ∧ c :: s ≠ lead ++ c :: s := by
  obtain ⟨g, hg, hs⟩ := C126_cut_partial script
  obtain ⟨pt, h1, -, h2⟩ := hg _ _ (C72_new (lead ++ c :: s) (by simp))
  refine ⟨pt, _, h1, h2, ?_, fun e => hl (by simpa using e)⟩
  obtain ⟨l, hk⟩ := hs (lead ++ c :: s)
  have hp := scriptPieces_cut script (c :: s) "" (by decide)
  have hl1 : (scriptPieces script "" (c :: s)).1 = [] := by
    rw [scriptPieces]
    rw [if_pos ⟨hc.1, Ne.symm hc.2⟩]
  have := C126_unique script _ "" l lead _ _ hk ⟨by
    have := hp.text
    rw [hl1, List.nil_append] at this
    rw [← this], h, hp.pieces⟩
  rw [List.flatMap_cons, List.flatMap_nil, List.append_nil, cutOne, List.map_map]
  simp only [Function.comp_def, List.map_id']
  rw [this.2]
  have := hp.text
  rw [hl1, List.nil_append] at this
  exact this.symm

/-- **C126.** If no character is in two tables, the script does not depend on the order of the map. -/
theorem C126_order (t t' : List (String × (Char → Bool))) (hd : Disjoint t) (hp : t.Perm t') (c : Char) :
    fixedScript t c = fixedScript t' c := by
  have char : ∀ (l : List (String × (Char → Bool))), (∀ e ∈ l, e.2 c = false) ∧ getScript l c = "" ∨
      ∃ e ∈ l, e.2 c = true ∧ getScript l c = e.1 := by
    intro l
    induction l with
    | nil => exact .inl ⟨by simp, rfl⟩
    | cons e l ih =>
      rw [getScript]
      cases he : e.2 c with
      | true => exact .inr ⟨e, by simp, he, by simp⟩
      | false =>
        rcases ih with ⟨h1, h2⟩ | ⟨f, h1, h2, h3⟩
        · refine .inl ⟨?_, by simpa using h2⟩
          intro f hf
          rcases List.mem_cons.mp hf with rfl | hf
          · exact he
          · exact h1 f hf
        · exact .inr ⟨f, by simp [h1], h2, by simpa using h3⟩
  have : getScript t c = getScript t' c := by
    rcases char t with ⟨h1, h2⟩ | ⟨e, h1, h2, h3⟩ <;> rcases char t' with ⟨k1, k2⟩ | ⟨f, k1, k2, k3⟩
    · rw [h2, k2]
    · rw [h1 f (hp.mem_iff.mpr k1)] at k2; cases k2
    · rw [k1 e (hp.mem_iff.mp h1)] at h2; cases h2
    · rw [h3, k3]
      exact hd e h1 f (hp.mem_iff.mpr k1) c h2 k2
  rw [fixedScript, fixedScript, this]

/-- **C126.** The script of a character: that of its table, where the two Japanese syllabaries and the mark of a long
vowel count as Han and the space counts as any. -/
theorem C126_script (t : List (String × (Char → Bool))) (hd : Disjoint t) :
    fixedScript t ' ' = "Any" ∧ fixedScript t (Char.ofNat 0x30FC) = "Han" ∧
    ∀ c n f, c ≠ ' ' → c ≠ Char.ofNat 0x30FC → (n, f) ∈ t → f c = true →
      fixedScript t c = if n = "Hiragana" ∨ n = "Katakana" then "Han" else n := by
  refine ⟨rfl, rfl, ?_⟩
  intro c n f h1 h2 hm hf
  have hg : getScript t c = n := by
    have key : ∀ (l : List (String × (Char → Bool))), (∀ e ∈ l, e ∈ t) → (∃ e ∈ l, e.2 c = true) → getScript l c = n := by
      intro l
      induction l with
      | nil => rintro _ ⟨e, he, _⟩; cases he
      | cons e l ih =>
        rintro hl ⟨e', he', hc'⟩
        rw [getScript]
        cases he : e.2 c with
        | true =>
          rw [if_pos rfl]
          exact hd e (hl e (by simp)) (n, f) hm c he hf
        | false =>
          rw [if_neg (by simp)]
          refine ih (fun x hx => hl x (by simp [hx])) ⟨e', ?_, hc'⟩
          rcases List.mem_cons.mp he' with rfl | h
          · rw [he] at hc'; cases hc'
          · exact h
    exact key t (fun e he => he) ⟨(n, f), hm, hf⟩
  have h3 : c.toNat ≠ 0x30FC := by
    intro e
    apply h2
    rw [← Char.ofNat_toNat c, e]
  rw [fixedScript]
  rw [if_neg h3, if_neg h1, hg]

/-! ### An instance -/

/-- Two scripts. -/
def twoScripts : List (String × (Char → Bool)) := [("Latin", Char.isAlpha), ("Katakana", fun c => 0x30A1 ≤ c.toNat && c.toNat ≤ 0x30FA),
  ("Hiragana", fun c => 0x3041 ≤ c.toNat && c.toNat ≤ 0x3096)]

example : (scriptPieces (fixedScript twoScripts) "" " ab cカー のd".toList) =
    (" ".toList, ["ab c".toList, "カー の".toList, "d".toList]) := by decide +kernel

end Tok.Regex
