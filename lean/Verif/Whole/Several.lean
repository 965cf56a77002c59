import Verif.Whole.Marked

/-!
# Texts with several added tokens in them
-/

namespace Tok.Whole

open Tok.Norm Tok.PreTok Tok.Regex Tok.Added

/-! ### Specification -/

/-- An added token in a text, with its content and its id, and the text from there to the next added token. -/
abbrev Mark := (Str × Int) × Str

/-- The text that begins with `w` and goes on with the added tokens. -/
def spelled (w : Str) (rs : List Mark) : Str := w ++ rs.flatMap (fun r => r.1.1 ++ r.2)

/-! ### The matches -/

/-- The matches are at the places of the added tokens. -/
def Hits (ids : List Int) : Nat → Str → List Mark → List PatMatch → Prop
  | _, _, [], ms => ms = []
  | k, w, r :: rs, ms => ∃ i ms', ms = ⟨i, k + blen w, k + blen w + blen r.1.1⟩ :: ms' ∧ ids[i]? = some r.1.2 ∧
      Hits ids (k + blen w + blen r.1.1) r.2 rs ms'

/-- The pieces `findMatches` gives. -/
def pieceSpans : Nat → Str → List Mark → List SplitPiece
  | k, w, [] => if w = [] then [] else [⟨-1, k, k + blen w⟩]
  | k, w, r :: rs => (if w = [] then [] else [⟨-1, k, k + blen w⟩]) ++
      ⟨r.1.2, k + blen w, k + blen w + blen r.1.1⟩ :: pieceSpans (k + blen w + blen r.1.1) r.2 rs

theorem spelled_cons (w : Str) (r : Mark) (rs : List Mark) : spelled w (r :: rs) = w ++ r.1.1 ++ spelled r.2 rs := by
  simp [spelled]

theorem select_hits {ids : List Int} (rs : List Mark) : ∀ (k : Nat) (w : Str) (ms : List PatMatch), Hits ids k w rs ms →
    selectMatches k ms = ms := by
  induction rs with
  | nil => intro k w ms h; cases h; rfl
  | cons r rs ih =>
    intro k w ms h
    obtain ⟨i, ms', rfl, _, h3⟩ := h
    rw [selectMatches, if_neg (by dsimp only; omega), ih _ _ _ h3]

theorem fill_hits {ids : List Int} (rs : List Mark) : ∀ (k n : Nat) (w : Str) (ms : List PatMatch), Hits ids k w rs ms →
    n = k + blen (spelled w rs) → fillGaps ids n k ms = .ok (pieceSpans k w rs) := by
  induction rs with
  | nil =>
    intro k n w ms h hn
    cases h
    simp only [spelled, List.flatMap_nil, List.append_nil] at hn
    subst hn
    simp only [fillGaps, pieceSpans]
    by_cases hw : w = []
    · subst hw; simp
    · have := Nat.pos_of_ne_zero (fun h => hw (blen_eq_zero.mp h))
      rw [if_pos (by omega), if_neg hw]
  | cons r rs ih =>
    intro k n w ms h hn
    obtain ⟨i, ms', rfl, h2, h3⟩ := h
    rw [spelled_cons] at hn
    simp only [blen_append] at hn
    rw [fillGaps, ih _ n _ _ h3 (by omega)]
    have : idx ids i = .ok r.1.2 := by simp [idx, h2]
    simp only [this, Res.bind_ok, Res.pure_eq]
    rw [pieceSpans]
    by_cases hw : w = []
    · subst hw; simp
    · have := Nat.pos_of_ne_zero (fun h => hw (blen_eq_zero.mp h))
      rw [if_pos (by omega), if_neg hw]
      simp

/-- The splits of a text. -/
def Parts (s : Str) : Str → Str → List Mark → List Split → Prop
  | u, w, [], l => Gap s u w l
  | u, w, r :: rs, l => ∃ g z l', l = g ++ ⟨z, some [addedToken r.1.2 r.1.1]⟩ :: l' ∧ Gap s u w g ∧ FPart s (u ++ w) r.1.1 z ∧
      Parts s (u ++ w ++ r.1.1) r.2 rs l'

theorem slice_parts {s u m : Str} {x : NStr} (h : FPart s u m x) (rs : List Mark) : ∀ (w : Str),
    (∀ r ∈ rs, r.1.1 ≠ [] ∧ r.1.2 ≠ -1) → ∀ a, m = a ++ spelled w rs →
      ∃ qs l, sliceMatches x (pieceSpans (blen a) w rs) = .ok qs ∧ keepPieces qs = .ok l ∧ Parts s (u ++ a) w rs l := by
  induction rs with
  | nil =>
    intro w _ a e
    exact gap_slices h (a := a) (w := w) (b := []) (by rw [e]; simp [spelled])
  | cons r rs ih =>
    intro w hc a e
    rw [spelled_cons] at e
    obtain ⟨hr, hid⟩ := hc r (by simp)
    obtain ⟨q1, l1, e1, e2, e3⟩ := gap_slices h (a := a) (w := w) (b := r.1.1 ++ spelled r.2 rs) (by rw [e]; simp)
    obtain ⟨q2, l2, f1, f2, f3⟩ := ih r.2 (fun x hx => hc x (by simp [hx])) (a ++ w ++ r.1.1) (by rw [e]; simp)
    obtain ⟨z, g1, g2⟩ := fpart_slice h (a := a ++ w) (w := r.1.1) (b := spelled r.2 rs) (by rw [e]; simp) hr
    have hz : z.normalized ≠ [] := by rw [fpart_text g2]; exact enc_ne hr
    have htok : (⟨r.1.2, decStr z.normalized, ((0 : Int), (z.normalized.length : Int))⟩ : Token) = addedToken r.1.2 r.1.1 := by
      rw [fpart_text g2, decStr_enc, length_encStr]; rfl
    rw [pieceSpans]
    refine ⟨q1 ++ ⟨some z, some [addedToken r.1.2 r.1.1]⟩ :: q2, l1 ++ ⟨z, some [addedToken r.1.2 r.1.1]⟩ :: l2,
      sliceMatches_append e1 ?_, keepPieces_append e2 ?_, l1, z, l2, rfl, e3, ?_, ?_⟩
    · simp only [blen_append] at g1 f1
      simp only [sliceMatches, g1, Res.bind_ok, if_neg hid, f1, htok]
    · simp only [keepPieces, f2, Res.bind_ok, if_neg hz]
    · simpa using g2
    · simpa using f3

/-- What there is to cut or to tokenize: what `f` gives for the texts around, and the added tokens. -/
def mixed (f : Str → List Str) (w : Str) (rs : List Mark) : List (Str × Option (List Token)) :=
  (f w).map (fun v => (v, none)) ++
    rs.flatMap (fun r => (r.1.1, some [addedToken r.1.2 r.1.1]) :: (f r.2).map (fun v => (v, none)))

theorem mixed_cons (f : Str → List Str) (w : Str) (r : Mark) (rs : List Mark) : mixed f w (r :: rs) =
    (f w).map (fun v => (v, none)) ++ (r.1.1, some [addedToken r.1.2 r.1.1]) :: mixed f r.2 rs := by
  simp [mixed]

/-- The texts around that are not empty. -/
def filledTexts (N : Str → Str) (w : Str) : List Str := if w = [] ∨ N w = [] then [] else [N w]

theorem parts_normalized {t : Tk} {s : Str} {N : Str → Str} (rs : List Mark) : ∀ (u w : Str) (l : List Split),
    Parts s u w rs l → (∀ v ∈ w :: rs.map (·.2), NormalizesPart t v (N v)) →
    (∀ v ∈ w :: rs.map (·.2), t.splitNormalizedRe.engine (encStr (N v)) = []) → ∀ i : Nat,
    ∃ l', splitLoop (fun _ n => do
        let x ← t.normalizeOrDie n
        splitWithIndices t.splitNormalizedRe x) l i = .ok l' ∧
      l'.map (fun sp => (sp.normalized.normalized, sp.tokens)) = (mixed (filledTexts N) w rs).map (fun t => (encStr t.1, t.2)) ∧
      ∀ sp ∈ l', WF sp.normalized := by
  have hgap : ∀ w, (filledTexts N w).map (fun v => ((v, none) : Str × Option (List Token))) =
      if w = [] ∨ N w = [] then [] else [(N w, none)] := by
    intro w
    unfold filledTexts
    split <;> rfl
  induction rs with
  | nil =>
    intro u w l h hn h2 i
    obtain ⟨l', a1, a2, a3⟩ := gap_normalized h (hn w (by simp)) (h2 w (by simp)) i
    exact ⟨l', a1, by rw [a2, mixed, hgap]; simp, a3⟩
  | cons r rs ih =>
    intro u w l h hn h2 i
    obtain ⟨g, z, l', rfl, hg, hz, hr⟩ := h
    obtain ⟨g', a1, a2, a3⟩ := gap_normalized hg (hn w (by simp)) (h2 w (by simp)) i
    obtain ⟨r', b1, b2, b3⟩ := ih _ _ _ hr (fun x hx => hn x (by simp at hx ⊢; rcases hx with h | h <;> simp [h]))
      (fun x hx => h2 x (by simp at hx ⊢; rcases hx with h | h <;> simp [h])) 1
    refine ⟨g' ++ ⟨z, some [addedToken r.1.2 r.1.1]⟩ :: r', splitLoop_append (fun _ _ _ => rfl) i 0 a1 ?_, ?_, ?_⟩
    · simp only [splitLoop, Nat.zero_add, b1, Res.bind_ok]
    · rw [List.map_append, a2, List.map_cons, b2, mixed_cons, List.map_append, List.map_cons, fpart_text hz, hgap]
    · intro sp hsp
      rcases List.mem_append.mp hsp with h | h
      · exact a3 sp h
      · rcases List.mem_cons.mp h with rfl | h
        · exact (fpart_partOf hz).2.2
        · exact b3 sp h

theorem mixed_mem {f : Str → List Str} (rs : List Mark) : ∀ (w : Str), ∀ p ∈ mixed f w rs,
    (p.2 = none ∧ ∃ v ∈ w :: rs.map (·.2), p.1 ∈ f v) ∨ ∃ r ∈ rs, p = (r.1.1, some [addedToken r.1.2 r.1.1]) := by
  have hgap : ∀ w, ∀ p ∈ (f w).map (fun v => ((v, none) : Str × Option (List Token))), p.2 = none ∧ p.1 ∈ f w := by
    intro w p hp
    obtain ⟨v, hv, rfl⟩ := List.mem_map.mp hp
    exact ⟨rfl, hv⟩
  intro w p hp
  rcases List.mem_append.mp hp with h | h
  · exact .inl ⟨(hgap w p h).1, w, by simp, (hgap w p h).2⟩
  · obtain ⟨r, hr, h⟩ := List.mem_flatMap.mp h
    rcases List.mem_cons.mp h with rfl | h
    · exact .inr ⟨r, hr, rfl⟩
    · exact .inl ⟨(hgap _ p h).1, r.2, List.mem_cons_of_mem _ (List.mem_map.mpr ⟨r, hr, rfl⟩), (hgap _ p h).2⟩

theorem mixed_cut (g : Str → List Str) (N : Str → Str) (rs : List Mark) : ∀ w,
    (mixed (filledTexts N) w rs).flatMap (cutOne g) = mixed (fun w => piecesOf g w (N w)) w rs := by
  have hgap : ∀ w, ((filledTexts N w).map (fun v => ((v, none) : Str × Option (List Token)))).flatMap (cutOne g) =
      (piecesOf g w (N w)).map (fun v => (v, none)) := by
    intro w
    unfold piecesOf filledTexts
    split <;> simp [cutOne]
  induction rs with
  | nil => intro w; simpa [mixed] using hgap w
  | cons r rs ih =>
    intro w
    rw [mixed_cons, mixed_cons, List.flatMap_append, hgap, List.flatMap_cons, ih]
    rfl

/-- The pieces of a text with added tokens. -/
theorem several_ready {t : Tk} {w : Str} {rs : List Mark} (hc : ∀ r ∈ rs, r.1.1 ≠ [] ∧ r.1.2 ≠ -1) {ms : List PatMatch}
    (h1 : selectMatches 0 (t.splitRe.engine (encStr (spelled w rs))) = ms) (h0 : Hits t.splitRe.ids 0 w rs ms)
    {N : Str → Str} (hn : ∀ v ∈ w :: rs.map (·.2), NormalizesPart t v (N v))
    (h2 : ∀ v ∈ w :: rs.map (·.2), t.splitNormalizedRe.engine (encStr (N v)) = []) {g : Str → List Str} (hg : CutsInto t g) :
    ∃ pt pt', t.extractAndNormalize (encStr (spelled w rs)) = .ok pt ∧ t.doPreTokenize pt = .ok pt' ∧
      Holding pt' (mixed (fun w => piecesOf g w (N w)) w rs) := by
  obtain ⟨pt, e1, e2⟩ : ∃ pt, t.extractAndNormalize (encStr (spelled w rs)) = .ok pt ∧ Holding pt (mixed (filledTexts N) w rs) := by
    by_cases hs : spelled w rs = []
    · rw [hs]
      refine ⟨⟨[], []⟩, by rw [encStr_nil]; exact extract_nil t, ?_⟩
      have : mixed (filledTexts N) w rs = [] := by
        cases rs with
        | nil =>
          have hw : w = [] := by simpa [spelled] using hs
          simp [mixed, filledTexts, hw]
        | cons r rs =>
          rw [spelled_cons] at hs
          have := (hc r (by simp)).1
          simp [this] at hs
      rw [this]
      exact ⟨rfl, by simp, by simp⟩
    · obtain ⟨qs, l, k1, k2, k3⟩ := slice_parts (fpart_whole (spelled w rs)) rs w hc [] rfl
      have hpos := length_pos_of_ne hs
      have hsp : splitWithIndices t.splitRe (newNStr (encStr (spelled w rs))) = .ok qs := by
        simp only [splitWithIndices, fpart_text (fpart_whole (spelled w rs)), length_encStr, findMatches]
        rw [if_neg (by omega), h1, fill_hits rs 0 _ w ms h0 (by omega)]
        exact k1
      obtain ⟨l', f1, f2, f3⟩ := parts_normalized rs _ _ _ k3 hn h2 0
      refine ⟨⟨encStr (spelled w rs), l'⟩, ?_, ⟨f2, ?_, f3⟩⟩
      · simp only [Tk.extractAndNormalize, PTS.split, newPTS, splitLoop, hsp, Res.bind_ok, k2, List.append_nil, f1]
      · intro p hp hnone
        rcases mixed_mem rs w p hp with ⟨_, v, _, hv⟩ | ⟨r, _, rfl⟩
        · unfold filledTexts at hv
          split at hv
          · cases hv
          · next h => rw [List.mem_singleton] at hv; rw [hv]; exact fun h' => h (.inr h')
        · cases hnone
  obtain ⟨pt', e3, e4⟩ : ∃ pt', t.doPreTokenize pt = .ok pt' ∧ Holding pt' (mixed (fun w => piecesOf g w (N w)) w rs) := by
    rcases hg with ⟨h, hg⟩ | ⟨p, h, hg⟩
    · refine ⟨pt, by simp only [Tk.doPreTokenize, h], ?_⟩
      rw [← mixed_cut]
      have : (mixed (filledTexts N) w rs).flatMap (cutOne g) = mixed (filledTexts N) w rs := by
        have hone : ∀ t, cutOne g t = [t] := by
          rintro ⟨a, b⟩
          cases b <;> simp [cutOne, hg]
        rw [show cutOne g = fun t => [t] from funext hone]
        exact List.flatMap_singleton' _
      rw [this]; exact e2
    · obtain ⟨pt', k1, _, k2⟩ := hg pt _ e2
      exact ⟨pt', by simp only [Tk.doPreTokenize, h, k1], by rw [← mixed_cut]; exact k2⟩
  exact ⟨pt, pt', e1, e3, e4⟩

theorem mixed_tokens (f : Str → List Str) (tok : Str → List Token) (w : Str) (rs : List Mark) :
    (mixed f w rs).flatMap (pieceTokens tok) =
      (f w).flatMap tok ++ rs.flatMap (fun r => addedToken r.1.2 r.1.1 :: (f r.2).flatMap tok) := by
  have hgap : ∀ w, ((f w).map (fun v => ((v, none) : Str × Option (List Token)))).flatMap (pieceTokens tok) = (f w).flatMap tok := by
    intro w
    rw [List.flatMap_map]
    rfl
  rw [mixed, List.flatMap_append, hgap, List.flatMap_assoc]
  congr 1
  congr 1
  funext r
  rw [List.flatMap_cons, hgap]
  rfl

/-- The encoding of a text with added tokens. -/
theorem several_encode {t : Tk} {w : Str} {rs : List Mark} (hc : ∀ r ∈ rs, r.1.1 ≠ [] ∧ r.1.2 ≠ -1) {ms : List PatMatch}
    (h1 : selectMatches 0 (t.splitRe.engine (encStr (spelled w rs))) = ms) (h0 : Hits t.splitRe.ids 0 w rs ms)
    {N : Str → Str} (hn : ∀ v ∈ w :: rs.map (·.2), NormalizesPart t v (N v))
    (h2 : ∀ v ∈ w :: rs.map (·.2), t.splitNormalizedRe.engine (encStr (N v)) = []) {g : Str → List Str} (hg : CutsInto t g)
    {tok : Str → List Token} (htok : ∀ v ∈ w :: rs.map (·.2), ∀ y ∈ piecesOf g v (N v), ModelGives t tok y)
    (typeId : Int) (ot : OffsetType) :
    ∃ rows, t.encodeSingle (.raw (encStr (spelled w rs))) typeId ot = .ok (ofRows rows typeId) ∧
      (ofRows rows typeId).ids = ((piecesOf g w (N w)).flatMap tok).map (·.id) ++
        rs.flatMap (fun r => r.1.2 :: ((piecesOf g r.2 (N r.2)).flatMap tok).map (·.id)) ∧
      (ofRows rows typeId).tokens = ((piecesOf g w (N w)).flatMap tok).map (·.value) ++
        rs.flatMap (fun r => r.1.1 :: ((piecesOf g r.2 (N r.2)).flatMap tok).map (·.value)) := by
  obtain ⟨pt, pt', e1, e2, e3⟩ := several_ready hc h1 h0 hn h2 hg
  obtain ⟨e, k1, k2, k3, rows, rfl⟩ := mixed_encode e1 e2 e3 (tok := tok) (by
      intro p hp hnone
      rcases mixed_mem rs w p hp with ⟨_, v, hv, hy⟩ | ⟨r, _, rfl⟩
      · exact htok v hv _ hy
      · cases hnone) (by
      intro p hp k hk
      rcases mixed_mem rs w p hp with ⟨h, _⟩ | ⟨r, _, rfl⟩
      · rw [hk] at h; cases h
      · cases hk
        refine ⟨by simp, ?_⟩
        intro x hx
        rw [List.mem_singleton] at hx
        subst hx
        simp only [addedToken]
        omega) typeId ot
  refine ⟨rows, k1, ?_, ?_⟩
  · rw [k2, mixed_tokens, List.map_append]; exact congrArg (_ ++ ·) (List.map_flatMap ..)
  · rw [k3, mixed_tokens, List.map_append]; exact congrArg (_ ++ ·) (List.map_flatMap ..)

/-! ### The matches of tokens in the order of their registration -/

/-- The added tokens in a text with their places. -/
def marksAt : Nat → Str → List Mark → List ((Str × Int) × (Nat × Nat))
  | _, _, [] => []
  | k, w, r :: rs => (r.1, (k + blen w, k + blen w + blen r.1.1)) :: marksAt (k + blen w + blen r.1.1) r.2 rs

/-- `c` occurs in the text only where it is meant to. -/
def OnlyThere (w : Str) (rs : List Mark) (c : Str) : Prop :=
  ∀ a b, spelled w rs = a ++ c ++ b → ∃ r1 r r2, rs = r1 ++ r :: r2 ∧ r.1.1 = c ∧ a = spelled w r1

theorem marksAt_keys (rs : List Mark) : ∀ (k : Nat) (w : Str), (marksAt k w rs).map (·.1) = rs.map (·.1) := by
  induction rs with
  | nil => intro k w; rfl
  | cons r rs ih => intro k w; simp [marksAt, ih]

theorem marksAt_sound (rs : List Mark) : ∀ (u w : Str), ∀ p ∈ marksAt (blen u) w rs,
    ∃ a b, u ++ spelled w rs = a ++ p.1.1 ++ b ∧ p.2 = (blen a, blen (a ++ p.1.1)) := by
  induction rs with
  | nil => intro u w p hp; cases hp
  | cons r rs ih =>
    intro u w p hp
    rw [spelled_cons]
    rcases List.mem_cons.mp hp with rfl | hp
    · exact ⟨u ++ w, spelled r.2 rs, by simp, by simp [blen_append, Nat.add_assoc]⟩
    · obtain ⟨a, b, e1, e2⟩ := ih (u ++ w ++ r.1.1) r.2 p (by simpa [blen_append, Nat.add_assoc] using hp)
      exact ⟨a, b, by rw [← e1]; simp, e2⟩

theorem marksAt_legal (q : (Str × Int) × (Nat × Nat) → Bool) (rs : List Mark) : ∀ (n k₀ k : Nat) (w : Str), k₀ ≤ k → k + blen (spelled w rs) ≤ n →
    LegalMatches n k₀ (((marksAt k w rs).filter q).map (·.2)) := by
  induction rs with
  | nil => intro n k₀ k w _ _; trivial
  | cons r rs ih =>
    intro n k₀ k w h hn
    rw [spelled_cons] at hn
    simp only [blen_append] at hn
    rw [marksAt, List.filter_cons]
    split
    · exact ⟨by dsimp only; omega, by dsimp only; omega, by dsimp only; omega, ih n _ _ _ (by dsimp only; omega) (by omega)⟩
    · exact ih n _ _ _ (by omega) (by omega)

theorem marksAt_at (r : Mark) (r2 : List Mark) : ∀ (r1 : List Mark) (k : Nat) (w : Str),
    (r.1, (k + blen (spelled w r1), k + blen (spelled w r1) + blen r.1.1)) ∈ marksAt k w (r1 ++ r :: r2) := by
  intro r1
  induction r1 with
  | nil => intro k w; simp [marksAt, spelled]
  | cons x r1 ih =>
    intro k w
    rw [List.cons_append, marksAt]
    apply List.mem_cons_of_mem
    have := ih (k + blen w + blen x.1.1) x.2
    rw [spelled_cons]
    simp only [blen_append]
    simpa only [Nat.add_assoc] using this

theorem marksAt_leftmost {w : Str} {rs : List Mark} {c : Str} (hc : c ≠ []) (h : OnlyThere w rs c) :
    LeftmostOf (fun _ w _ => w = c) (spelled w rs) (((marksAt 0 w rs).filter (fun p => decide (p.1.1 = c))).map (·.2)) := by
  refine ⟨?_, marksAt_legal _ rs _ _ _ _ (Nat.le_refl _) (by omega), ?_⟩
  · intro p hp
    obtain ⟨q, hq, rfl⟩ := List.mem_map.mp hp
    obtain ⟨h1, h2⟩ := List.mem_filter.mp hq
    obtain ⟨a, b, e1, e2⟩ := marksAt_sound rs [] w q (by simpa using h1)
    exact ⟨a, q.1.1, b, by simpa using e1, e2, by simpa using h2⟩
  · intro a v b e hv
    subst hv
    obtain ⟨r1, r, r2, rfl, e2, rfl⟩ := h a b e
    refine ⟨_, List.mem_map.mpr ⟨_, List.mem_filter.mpr ⟨marksAt_at r r2 r1 0 w, by simpa using e2⟩, rfl⟩, by dsimp only; omega, ?_⟩
    have := Nat.pos_of_ne_zero (fun h => hc (blen_eq_zero.mp h))
    rw [e2]
    dsimp only
    omega

/-- If the entries come in the order of the keys, going through the keys gives them in this order. -/
theorem match_marks (n : Str → Nat) (es : List (AddedToken × Int)) : (es.map (·.1.content)).Nodup →
    ∀ (k : Nat) (L : List ((Str × Int) × (Nat × Nat))),
    L.map (·.1) = es.flatMap (fun e => List.replicate (n e.1.content) (e.1.content, e.2)) →
    ∃ ms : List PatMatch, (es.zipIdx k).flatMap (fun e => ((L.filter (fun p => decide (p.1.1 = e.1.1.content))).map (·.2)).map
        (fun m => ⟨e.2, m.1, m.2⟩)) = ms ∧
      ms.map (fun m => (m.start, m.stop)) = L.map (·.2) ∧
      ms.map (fun m => (es.map (·.2))[m.pat - k]?) = L.map (fun p => some p.1.2) ∧
      SortedById ms ∧ ∀ m ∈ ms, k ≤ m.pat := by
  induction es with
  | nil =>
    intro _ k L h
    have : L = [] := by simpa using h
    subst this
    exact ⟨[], rfl, rfl, rfl, .nil, by simp⟩
  | cons e es ih =>
    intro hd k L h
    rw [List.map_cons, List.nodup_cons] at hd
    rw [List.flatMap_cons] at h
    obtain ⟨L1, L2, rfl, h1, h2⟩ := List.map_eq_append_iff.mp h
    obtain ⟨ms, g1, g2, g3, g4, g5⟩ := ih hd.2 (k + 1) L2 h2
    have k1 : ∀ p ∈ L1, p.1 = (e.1.content, e.2) := by
      intro p hp
      have : p.1 ∈ L1.map (·.1) := List.mem_map.mpr ⟨p, hp, rfl⟩
      rw [h1] at this
      exact (List.mem_replicate.mp this).2
    have k2 : ∀ p ∈ L2, ∃ x ∈ es, p.1.1 = x.1.content := by
      intro p hp
      have : p.1 ∈ L2.map (·.1) := List.mem_map.mpr ⟨p, hp, rfl⟩
      rw [h2] at this
      obtain ⟨x, hx, hq⟩ := List.mem_flatMap.mp this
      exact ⟨x, hx, by rw [(List.mem_replicate.mp hq).2]⟩
    have f1 : (L1 ++ L2).filter (fun p => decide (p.1.1 = e.1.content)) = L1 := by
      rw [List.filter_append, List.filter_eq_self.mpr (fun p hp => by simp [k1 p hp]),
        List.filter_eq_nil_iff.mpr (fun p hp => ?_), List.append_nil]
      obtain ⟨x, hx, hq⟩ := k2 p hp
      intro he
      apply hd.1
      rw [decide_eq_true_eq] at he
      exact List.mem_map.mpr ⟨x, hx, by rw [← hq, he]⟩
    have f2 : ∀ x ∈ es.zipIdx (k + 1), (L1 ++ L2).filter (fun p => decide (p.1.1 = x.1.1.content)) =
        L2.filter (fun p => decide (p.1.1 = x.1.1.content)) := by
      intro x hx
      rw [List.filter_append, List.filter_eq_nil_iff.mpr (fun p hp => ?_), List.nil_append]
      intro he
      apply hd.1
      rw [decide_eq_true_eq, k1 p hp] at he
      exact List.mem_map.mpr ⟨x.1, List.fst_mem_of_mem_zipIdx hx, he.symm⟩
    refine ⟨L1.map (fun p => ⟨k, p.2.1, p.2.2⟩) ++ ms, ?_, ?_, ?_, ?_, ?_⟩
    · rw [List.zipIdx_cons, List.flatMap_cons, f1, ← g1, List.map_map]
      refine congrArg (_ ++ ·) ?_
      rw [List.flatMap_def, List.flatMap_def]
      congr 1
      apply List.map_congr_left
      intro x hx
      rw [f2 x hx]
    · rw [List.map_append, g2, List.map_append, List.map_map]; rfl
    · rw [List.map_append, List.map_append]
      congr 1
      · rw [List.map_map]
        apply List.map_congr_left
        intro p hp
        simp [k1 p hp]
      · rw [← g3]
        apply List.map_congr_left
        intro m hm
        have := g5 m hm
        rw [show m.pat - k = (m.pat - (k + 1)) + 1 by omega, List.map_cons, List.getElem?_cons_succ]
    · unfold SortedById
      rw [List.pairwise_append]
      refine ⟨?_, g4, ?_⟩
      · rw [List.pairwise_map]
        exact List.Pairwise.imp (fun _ => Nat.le_refl _) (List.pairwise_of_forall (R := fun _ _ => True) (fun _ _ => trivial))
      · intro a ha b hb
        obtain ⟨p, _, rfl⟩ := List.mem_map.mp ha
        have := g5 b hb
        dsimp only
        omega
    · intro m hm
      rcases List.mem_append.mp hm with h | h
      · obtain ⟨p, _, rfl⟩ := List.mem_map.mp h
        exact Nat.le_refl _
      · have := g5 m h; omega

theorem hits_marks {ids : List Int} (rs : List Mark) : ∀ (k : Nat) (w : Str) (ms : List PatMatch),
    ms.map (fun m => (m.start, m.stop)) = (marksAt k w rs).map (·.2) →
    ms.map (fun m => ids[m.pat]?) = (marksAt k w rs).map (fun p => some p.1.2) → Hits ids k w rs ms := by
  induction rs with
  | nil =>
    intro k w ms h _
    exact List.map_eq_nil_iff.mp h
  | cons r rs ih =>
    intro k w ms h1 h2
    cases ms with
    | nil => cases h1
    | cons m ms =>
      simp only [marksAt, List.map_cons, List.cons.injEq, Prod.mk.injEq] at h1 h2
      refine ⟨m.pat, ms, ?_, h2.1, ih _ _ _ h1.2 h2.2⟩
      obtain ⟨p, s, e⟩ := m
      dsimp only at h1
      rw [h1.1.1, h1.1.2]

theorem allMatches_by {wordChar : Char → Bool} {norm : Option (NStr → Res NStr)} {bs : List UInt8} {F : AddedToken → List (Nat × Nat)}
    (es : List (AddedToken × Int)) : ∀ (k : Nat) (res : List Added.Pat), buildPatterns wordChar norm es = .ok res →
    (∀ e ∈ es, ∀ re, getPattern wordChar norm e.1 = .ok re → re.engine bs = F e.1) →
    (res.zipIdx k).flatMap (fun r => (r.1.engine bs).map (fun m => (⟨r.2, m.1, m.2⟩ : PatMatch))) =
      (es.zipIdx k).flatMap (fun e => (F e.1.1).map (fun m => ⟨e.2, m.1, m.2⟩)) := by
  induction es with
  | nil => intro k res h _; cases h; rfl
  | cons e es ih =>
    intro k res h hF
    simp only [buildPatterns] at h
    obtain ⟨re, h1, h⟩ := Res.bind_eq_ok.mp h
    obtain ⟨res', h2, h⟩ := Res.bind_eq_ok.mp h
    cases h
    rw [List.zipIdx_cons, List.zipIdx_cons, List.flatMap_cons, List.flatMap_cons,
      ih (k + 1) res' h2 (fun x hx => hF x (by simp [hx])), hF e (by simp) re h1]

/-- The added tokens are in the text where they are meant to be and nowhere else, without options, and in the order in which
they are registered. -/
structure InOrder (es : List (AddedToken × Int)) (w : Str) (rs : List Mark) : Prop where
  plain : ∀ e ∈ es, e.1.content ≠ [] ∧ e.1.singleWord = false ∧
    (e.1.content <:+: spelled w rs → e.1.lstrip = false ∧ e.1.rstrip = false)
  apart : (es.map (·.1.content)).Nodup
  only : ∀ e ∈ es, OnlyThere w rs e.1.content
  order : ∃ n : Str → Nat, rs.map (·.1) = es.flatMap (fun e => List.replicate (n e.1.content) (e.1.content, e.2))

theorem set_several (wordChar : Char → Bool) {norm : Option (NStr → Res NStr)} (order : List PatMatch → List PatMatch)
    (ho : ∀ l : List PatMatch, SortedById l → l.Pairwise (fun a b => a.start ≤ b.start) → order l = l)
    {es : List (AddedToken × Int)} {w : Str} {rs : List Mark} (h : InOrder es w rs) :
    ∃ re, buildSet wordChar norm order es = .ok re ∧
      Hits re.ids 0 w rs (re.engine (encStr (spelled w rs))) := by
  obtain ⟨res, e1, _⟩ := buildPatterns_ok (wordChar := wordChar) (norm := norm) (es := es) (by
    intro e he
    obtain ⟨h1, h2, _⟩ := h.plain e he
    exact ⟨h1, fun hs => by rw [h2] at hs; cases hs⟩)
  have hall := allMatches_by (bs := encStr (spelled w rs))
    (F := fun t => ((marksAt 0 w rs).filter (fun p => decide (p.1.1 = t.content))).map (·.2)) es 0 res e1 (by
      intro e he re hre
      obtain ⟨h1, h2, h3⟩ := h.plain e he
      by_cases hi : e.1.content <:+: spelled w rs
      · obtain ⟨re', f3, f4⟩ := C91_plain wordChar norm e.1 h2 (h3 hi).1 (h3 hi).2 h1
        rw [hre] at f3
        cases f3
        exact C91_unique _ _ h1 _ _ (f4 _) (marksAt_leftmost h1 (h.only e he))
      · rw [pattern_quiet ⟨h1, _, h1, hi, fun _ => rfl, fun hs => by rw [h2] at hs; cases hs⟩ hre]
        symm
        rw [List.map_eq_nil_iff, List.filter_eq_nil_iff]
        intro p hp hq
        obtain ⟨a, b, e1, _⟩ := marksAt_sound rs [] w p (by simpa using hp)
        rw [decide_eq_true_eq] at hq
        exact hi ⟨a, b, by rw [← hq]; simpa using e1.symm⟩)
  obtain ⟨n, hn⟩ := h.order
  obtain ⟨ms, g1, g2, g3, g4, _⟩ := match_marks n es h.apart 0 (marksAt 0 w rs) (by rw [marksAt_keys]; exact hn)
  have hms : allMatches res (encStr (spelled w rs)) = ms := by rw [← g1]; exact hall
  have hhits : Hits (es.map (·.2)) 0 w rs ms := hits_marks rs 0 w ms g2 (by simpa using g3)
  refine ⟨⟨es.map (·.2), fun bs => order (allMatches res bs)⟩, by simp only [buildSet, e1, Res.bind_ok], ?_⟩
  dsimp only
  rw [hms, ho ms g4]
  · exact hhits
  · have hpair : ∀ (l : List (Nat × Nat)) (k n : Nat), LegalMatches n k l → l.Pairwise (fun x y => x.1 ≤ y.1) ∧ ∀ x ∈ l, k ≤ x.1 := by
      intro l
      induction l with
      | nil => intro k n _; simp
      | cons z l ih =>
        intro k n ⟨g1, g2, g3, g4⟩
        obtain ⟨i1, i2⟩ := ih _ _ g4
        refine ⟨List.pairwise_cons.mpr ⟨fun x hx => by have := i2 x hx; omega, i1⟩, ?_⟩
        intro x hx
        rcases List.mem_cons.mp hx with rfl | hx
        · exact g1
        · have := i2 x hx; omega
    have hl := marksAt_legal (fun _ => true) rs _ 0 0 w (Nat.le_refl _) (Nat.le_refl _)
    rw [List.filter_true, ← g2] at hl
    have := (hpair _ _ _ hl).1
    rw [List.pairwise_map] at this
    exact this

theorem spelled_append (w : Str) (r1 r2 : List Mark) : (spelled w (r1 ++ r2)) = spelled w r1 ++ r2.flatMap (fun r => r.1.1 ++ r.2) := by
  simp [spelled]

/-- No added token is in the texts between. -/
theorem inOrder_free {es : List (AddedToken × Int)} {w : Str} {rs : List Mark} (h : InOrder es w rs)
    (hc : ∀ r ∈ rs, r.1.1 ≠ []) : ∀ v ∈ w :: rs.map (·.2), ∀ e ∈ es, ¬ e.1.content <:+: v := by
  intro v hv e he ⟨x, y, hxy⟩
  have hpos := List.length_pos_iff.mpr (h.plain e he).1
  have hlen : v.length = x.length + e.1.content.length + y.length := by rw [← hxy]; simp [Nat.add_assoc]
  have hpre : ∀ p q : List Mark, (spelled w p).length ≤ (spelled w (p ++ q)).length := by
    intro p q
    rw [spelled_append, List.length_append]
    omega
  rcases List.mem_cons.mp hv with rfl | hv
  · obtain ⟨r1, r, r2, _, _, e3⟩ := h.only e he x (y ++ rs.flatMap (fun r => r.1.1 ++ r.2)) (by rw [spelled, ← hxy]; simp)
    have := congrArg List.length e3
    have h0 := hpre [] r1
    simp only [List.nil_append, spelled, List.flatMap_nil, List.append_nil] at h0
    simp only [spelled] at this
    omega
  · obtain ⟨r0, hr0, rfl⟩ := List.mem_map.mp hv
    obtain ⟨p, q, rfl⟩ := List.append_of_mem hr0
    have hr0c := List.length_pos_iff.mpr (hc r0 (by simp))
    obtain ⟨r1, r, r2, e1, e2, e3⟩ := h.only e he (spelled w p ++ r0.1.1 ++ x) (y ++ q.flatMap (fun r => r.1.1 ++ r.2)) (by
      rw [spelled_append, List.flatMap_cons, ← hxy]
      simp)
    have hl := congrArg List.length e3
    simp only [List.length_append] at hl
    rcases List.append_eq_append_iff.mp e1 with ⟨z, hz1, hz2⟩ | ⟨z, hz1, hz2⟩
    · cases z with
      | nil =>
        rw [hz1, List.append_nil] at hl
        omega
      | cons z0 z =>
        simp only [List.cons_append, List.cons.injEq] at hz2
        rw [hz1, ← hz2.1, show p ++ r0 :: z = (p ++ [r0]) ++ z by simp] at hl
        have h1 := hpre (p ++ [r0]) z
        rw [spelled_append] at h1
        simp only [List.flatMap_cons, List.flatMap_nil, List.length_append, List.append_nil] at h1
        omega
    · have := hpre r1 z
      rw [← hz1] at this
      omega

/-- If the token at hand is the first registered of those in the text and nothing comes after it, only it is found. -/
theorem set_first (wordChar : Char → Bool) {norm : Option (NStr → Res NStr)} (order : List PatMatch → List PatMatch)
    (hp : Permutes order) (ho : ∀ l, SortedById (order l)) {before after : List (AddedToken × Int)} {a : AddedToken} {id : Int}
    (h1 : a.singleWord = false) (h2 : a.lstrip = false) (h3 : a.rstrip = false) (hc : a.content ≠ [])
    {s x y : Str} (hm : Marked a.content s [x, y]) (hb : ∀ e ∈ before, Absent norm s e.1)
    (ha : ∀ e ∈ after, e.1.content ≠ [] ∧ e.1.singleWord = false ∧ e.1.lstrip = false ∧ e.1.rstrip = false ∧
      ∀ p q, s = p ++ e.1.content ++ q → p.length < x.length + a.content.length) :
    ∃ re, buildSet wordChar norm order (before ++ (a, id) :: after) = .ok re ∧ re.ids = (before ++ (a, id) :: after).map (·.2) ∧
      selectMatches 0 (re.engine (encStr s)) = [⟨before.length, blen x, blen x + blen a.content⟩] := by
  have hus : ∀ e ∈ before ++ (a, id) :: after, Added.Usable norm e.1 := by
    intro e he
    rcases List.mem_append.mp he with h | h
    · obtain ⟨h0, w, hw, _, _, h2⟩ := hb e h
      exact ⟨h0, fun hs => ⟨w, h2 hs, hw⟩⟩
    · rcases List.mem_cons.mp h with rfl | h
      · exact ⟨hc, fun hs => by rw [h1] at hs; cases hs⟩
      · obtain ⟨g1, g2, _⟩ := ha e h
        exact ⟨g1, fun hs => by rw [g2] at hs; cases hs⟩
  obtain ⟨res, e1, e2, _, e3⟩ := buildPatterns_ok (wordChar := wordChar) hus
  refine ⟨⟨(before ++ (a, id) :: after).map (·.2), fun bs => order (allMatches res bs)⟩, by simp only [buildSet, e1, Res.bind_ok], rfl, ?_⟩
  dsimp only
  obtain ⟨re, f1, f2⟩ := e3 before.length (a, id) (by simp)
  have hen : re.engine (encStr s) = [(blen x, blen x + blen a.content)] := by
    obtain ⟨re', f3, f4⟩ := C91_plain wordChar norm a h1 h2 h3 hc
    have f2 : getPattern wordChar norm a = .ok re := f2
    rw [f2] at f3
    cases f3
    rw [C91_unique _ s hc _ _ (f4 s) (places_leftmost hm)]
    simp [places]
  have hs : s = x ++ a.content ++ y := by
    cases hm with
    | cons _ r _ _ h =>
      cases h with
      | last w _ => rfl
      | cons _ _ _ _ h' => exact absurd rfl (marked_ne h')
  -- all matches
  have hmem : ∀ m ∈ allMatches res (encStr s), before.length ≤ m.pat ∧ m.start < blen x + blen a.content ∧
      (m.pat = before.length → m = ⟨before.length, blen x, blen x + blen a.content⟩) := by
    intro m hm
    obtain ⟨re', g1, g2⟩ := mem_allMatches.mp hm
    have hlt : m.pat < (before ++ (a, id) :: after).length := by rw [← e2]; exact (List.getElem?_eq_some_iff.mp g1).1
    obtain ⟨q', k1, k2⟩ := e3 m.pat _ (List.getElem?_eq_getElem hlt)
    rw [g1] at k1
    cases k1
    have hposa := Nat.pos_of_ne_zero (fun h => hc (blen_eq_zero.mp h))
    rcases Nat.lt_trichotomy m.pat before.length with h | h | h
    · exfalso
      rw [List.getElem_append_left h] at k2
      rw [pattern_quiet (hb _ (List.getElem_mem h)) k2] at g2
      cases g2
    · rw [h] at g1
      rw [f1] at g1
      cases g1
      rw [hen, List.mem_singleton, Prod.mk.injEq] at g2
      obtain ⟨p, st, en⟩ := m
      dsimp only at g2 h ⊢
      refine ⟨by omega, by omega, fun _ => by rw [h, g2.1, g2.2]⟩
    · rw [List.getElem_append_right (by omega)] at k2
      obtain ⟨j, hj⟩ : ∃ j, m.pat - before.length = j + 1 := ⟨m.pat - before.length - 1, by omega⟩
      have hjl : j < after.length := by
        simp only [List.length_append, List.length_cons] at hlt
        omega
      simp only [hj, List.getElem_cons_succ] at k2
      obtain ⟨c1, c2, c3, c4, c5⟩ := ha after[j] (List.getElem_mem hjl)
      obtain ⟨re'', f3, f4⟩ := C91_plain wordChar norm _ c2 c3 c4 c1
      rw [k2] at f3
      cases f3
      obtain ⟨u, v, t, l1, l2, rfl⟩ := (f4 s).sound _ g2
      refine ⟨by omega, ?_, fun h' => by omega⟩
      have hlen := c5 u t l1
      obtain ⟨z, hz, hzn⟩ : ∃ z, x ++ a.content = u ++ z ∧ z ≠ [] := by
        have e' : u ++ (after[j].1.content ++ t) = (x ++ a.content) ++ y := by
          rw [← hs, l1]; simp
        rcases List.append_eq_append_iff.mp e' with ⟨z, g1, g2⟩ | ⟨z, g1, g2⟩
        · refine ⟨z, g1, ?_⟩
          rintro rfl
          have := congrArg List.length g1
          simp at this
          omega
        · exfalso
          have := congrArg List.length g1
          simp at this
          omega
      have h3 := congrArg blen hz
      simp only [blen_append] at h3
      have := Nat.pos_of_ne_zero (fun h => hzn (blen_eq_zero.mp h))
      have h4 : m.start = blen u := congrArg Prod.fst l2
      omega
  have hin : (⟨before.length, blen x, blen x + blen a.content⟩ : PatMatch) ∈ allMatches res (encStr s) :=
    mem_allMatches.mpr ⟨re, f1, by rw [hen]; simp⟩
  have hmem' : ∀ m ∈ order (allMatches res (encStr s)), m ∈ allMatches res (encStr s) := fun m h => (hp _).mem_iff.mp h
  have hin' := (hp _).mem_iff.mpr hin
  cases hl : order (allMatches res (encStr s)) with
  | nil => rw [hl] at hin'; cases hin'
  | cons m ms =>
    have hsort := ho (allMatches res (encStr s))
    unfold SortedById at hsort
    rw [hl] at hsort hin' hmem'
    have hm0 : m = ⟨before.length, blen x, blen x + blen a.content⟩ := by
      rcases List.mem_cons.mp hin' with h | h
      · exact h.symm
      · have := (List.pairwise_cons.mp hsort).1 _ h
        have h2 := hmem m (hmem' m (by simp))
        exact h2.2.2 (by dsimp only at this; omega)
    rw [selectMatches, if_neg (by omega), hm0]
    dsimp only
    have : ∀ l : List PatMatch, (∀ m ∈ l, m.start < blen x + blen a.content) → selectMatches (blen x + blen a.content) l = [] := by
      intro l
      induction l with
      | nil => intro _; rfl
      | cons q l ih =>
        intro h
        rw [selectMatches, if_pos (h q (by simp)), ih (fun m hm => h m (by simp [hm]))]
    rw [this ms (fun q hq => (hmem q (hmem' q (by simp [hq]))).2.1)]

end Tok.Whole
