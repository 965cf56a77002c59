import Verif.PreTok.Pipeline
import Verif.PreTok.Splitters
import Verif.PreTok.PropsIntoEncoding
import Verif.PreTok.Fresh
import Verif.Vocab.PropsSplit

/-!
# Splits that are parts of the text, in order
-/

namespace Tok.PreTok

open Tok.Norm

theorem decStr_enc (s : Str) : decStr (encStr s) = s := by
  rw [decStr, explode_encStr, List.map_map]
  induction s with
  | nil => rfl
  | cons c s ih => rw [List.map_cons, ih]; rfl

/-! ### Splits in order -/

/-- The splits `ss` are parts of the text `s`, one after the other, from the end of its prefix `u`
to the end of its prefix `w`; with `gaps`, text may be left out between them. The tokens attached
to a part satisfy `ok`. -/
inductive Cut (s : Str) (gaps : Bool) (ok : Str → List Token → Prop) : Str → Str → List Split → Prop
  | done (u : Str) : Cut s gaps ok u u []
  | skip (u g w : Str) (ss : List Split) : gaps = true → Cut s gaps ok (u ++ g) w ss → Cut s gaps ok u w ss
  | part (u m w : Str) (x : NStr) (t : Option (List Token)) (ss : List Split) : FPart s u m x → m ≠ [] →
      (∀ ts, t = some ts → ok m ts) → Cut s gaps ok (u ++ m) w ss → Cut s gaps ok u w (⟨x, t⟩ :: ss)

theorem Cut.append {s : Str} {gaps : Bool} {ok : Str → List Token → Prop} {u v w : Str} {as bs : List Split}
    (h1 : Cut s gaps ok u v as) (h2 : Cut s gaps ok v w bs) : Cut s gaps ok u w (as ++ bs) := by
  induction h1 with
  | done u => exact h2
  | skip u g _ ss hg _ ih => exact .skip u g _ _ hg (ih h2)
  | part u m _ x t ss hp hm ht _ ih => exact .part u m _ x t _ hp hm ht (ih h2)

theorem Cut.gaps {s : Str} {gaps : Bool} {ok : Str → List Token → Prop} {u w : Str} {ss : List Split}
    (h : Cut s false ok u w ss) : Cut s gaps ok u w ss := by
  induction h with
  | done u => exact .done u
  | skip u g _ ss hg _ ih => cases hg
  | part u m _ x t ss hp hm ht _ ih => exact .part u m _ x t _ hp hm ht ih

theorem Cut.mono {s : Str} {gaps : Bool} {ok ok' : Str → List Token → Prop} (hok : ∀ m ts, ok m ts → ok' m ts)
    {u w : Str} {ss : List Split} (h : Cut s gaps ok u w ss) : Cut s gaps ok' u w ss := by
  induction h with
  | done u => exact .done u
  | skip u g _ ss hg _ ih => exact .skip u g _ _ hg ih
  | part u m _ x t ss hp hm ht _ ih => exact .part u m _ x t _ hp hm (fun ts e => hok _ _ (ht ts e)) ih

/-- Splitting every part into parts gives parts again, and leaves the splits that have tokens. -/
theorem splitLoop_cut {s : Str} {gaps : Bool} {ok : Str → List Token → Prop}
    {fn : Nat → NStr → Res (List SplitIdx)}
    (hfn : ∀ i u m x, FPart s u m x → m ≠ [] → ∃ ps kept, fn i x = .ok ps ∧ keepPieces ps = .ok kept ∧
      Cut s gaps ok u (u ++ m) kept)
    {u w : Str} {ss : List Split} (h : Cut s gaps ok u w ss) (i : Nat) :
    ∃ ss', splitLoop fn ss i = .ok ss' ∧ Cut s gaps ok u w ss' ∧
      ∀ sp ∈ ss, sp.tokens ≠ none → sp ∈ ss' := by
  induction h generalizing i with
  | done u => exact ⟨[], rfl, .done u, by simp⟩
  | skip u g _ ss hg _ ih =>
    obtain ⟨ss', h1, h2, h3⟩ := ih i
    exact ⟨ss', h1, .skip u g _ _ hg h2, h3⟩
  | part u m _ x t ss hp hm ht _ ih =>
    obtain ⟨ss', h1, h2, h3⟩ := ih (i + 1)
    cases t with
    | some ts =>
      refine ⟨⟨x, some ts⟩ :: ss', ?_, .part u m _ x _ _ hp hm ht h2, ?_⟩
      · simp only [splitLoop, h1, Res.bind_ok]
      · intro sp hsp hne
        rcases List.mem_cons.mp hsp with rfl | hsp
        · simp
        · exact List.mem_cons_of_mem _ (h3 sp hsp hne)
    | none =>
      obtain ⟨ps, kept, e1, e2, e3⟩ := hfn i u m x hp hm
      refine ⟨kept ++ ss', ?_, e3.append h2, ?_⟩
      · simp only [splitLoop, e1, e2, h1, Res.bind_ok]
      · intro sp hsp hne
        rcases List.mem_cons.mp hsp with rfl | hsp
        · exact absurd rfl hne
        · exact List.mem_append_right _ (h3 sp hsp hne)

/-! ### Spans in order -/

/-- Non-empty spans from `a` to `b`, one after the other, with text left out between them only if
`gaps`. -/
def InOrder (gaps : Bool) : Nat → Nat → List (Nat × Nat) → Prop
  | a, b, [] => a ≤ b ∧ (gaps = false → a = b)
  | a, b, p :: ps => a ≤ p.1 ∧ (gaps = false → a = p.1) ∧ p.1 < p.2 ∧ InOrder gaps p.2 b ps

theorem prefix_of_le {m a r a1 r1 : Str} (h : m = a ++ r) (h1 : m = a1 ++ r1) (hl : blen a ≤ blen a1) :
    ∃ g, a1 = a ++ g ∧ r = g ++ r1 := by
  rw [h] at h1
  rcases List.append_eq_append_iff.mp h1 with ⟨g, e1, e2⟩ | ⟨g, e1, e2⟩
  · exact ⟨g, e1, e2⟩
  · have : blen g = 0 := by rw [e1, blen_append] at hl; omega
    have hg := blen_eq_zero.mp this
    subst hg
    exact ⟨[], by simpa using e1.symm, by simpa using e2.symm⟩

theorem prefix_of_eq {m a r a1 r1 : Str} (h : m = a ++ r) (h1 : m = a1 ++ r1) (hl : blen a = blen a1) :
    a1 = a := by
  obtain ⟨g, e1, _⟩ := prefix_of_le h h1 (by omega)
  have : blen g = 0 := by rw [e1, blen_append] at hl; omega
  rw [e1, blen_eq_zero.mp this, List.append_nil]

/-- The parts between two positions, from spans in order: the next part and what is left. -/
theorem inOrder_step {m a r : Str} (hm : m = a ++ r) {gaps : Bool} {p : Nat × Nat} {ps : List (Nat × Nat)}
    (h : InOrder gaps (blen a) (blen m) (p :: ps)) (hb1 : Boundary m p.1) (hb2 : Boundary m p.2) :
    ∃ g w r', r = g ++ w ++ r' ∧ (gaps = false → g = []) ∧ w ≠ [] ∧ p.1 = blen (a ++ g) ∧
      p.2 = blen (a ++ g ++ w) ∧ InOrder gaps (blen (a ++ g ++ w)) (blen m) ps := by
  obtain ⟨h1, h2, h3, h4⟩ := h
  obtain ⟨a1, r1, e1, e2⟩ := hb1
  obtain ⟨a2, r2, f1, f2⟩ := hb2
  obtain ⟨g, hg, hr⟩ := prefix_of_le hm e1 (by omega)
  obtain ⟨w, hw, hr1⟩ := prefix_of_le e1 f1 (by omega)
  refine ⟨g, w, r2, by rw [hr, hr1]; simp, ?_, ?_, by rw [e2, hg], by rw [f2, hw, hg], ?_⟩
  · intro hgap
    have := h2 hgap
    rw [e2, hg, blen_append] at this
    exact blen_eq_zero.mp (by omega)
  · rintro rfl
    rw [List.append_nil] at hw
    rw [e2, f2, hw] at h3
    omega
  · rw [← hg, ← hw, ← f2]; exact h4

theorem enc_ne {w : Str} (hw : w ≠ []) : encStr w ≠ [] := by
  intro h0
  have := length_encStr w
  rw [h0] at this
  exact hw (blen_eq_zero.mp this.symm)

theorem slices_cut {s u m : Str} {x : NStr} (h : FPart s u m x) {gaps : Bool} {ok : Str → List Token → Prop}
    (ps : List (Nat × Nat)) : ∀ (a r : Str), m = a ++ r → InOrder gaps (blen a) (blen m) ps →
      (∀ p ∈ ps, Boundary m p.1 ∧ Boundary m p.2) → ∃ ys, x.splitAt ps = .ok ys ∧
      (∀ y ∈ ys, y.normalized ≠ []) ∧
      Cut s gaps ok (u ++ a) (u ++ m) (ys.map (fun y => ⟨y, none⟩)) := by
  induction ps with
  | nil =>
    intro a r hm ho _
    refine ⟨[], rfl, by simp, ?_⟩
    cases gaps with
    | true => rw [hm, ← List.append_assoc]; exact .skip _ r _ _ rfl (.done _)
    | false =>
      have := ho.2 rfl
      rw [hm, blen_append] at this
      rw [hm, blen_eq_zero.mp (show blen r = 0 by omega), List.append_nil]
      exact .done _
  | cons p ps ih =>
    intro a r hm ho hb
    obtain ⟨hb1, hb2⟩ := hb p (by simp)
    obtain ⟨g, w, r', hr, hg, hw, e1, e2, ho'⟩ := inOrder_step hm ho hb1 hb2
    have hmm : m = a ++ g ++ w ++ r' := by rw [hm, hr]; simp
    obtain ⟨y, hy, hpart⟩ := fpart_slice h hmm hw
    obtain ⟨ys, hys, hne, hrest⟩ := ih (a ++ g ++ w) r' hmm ho' (fun q hq => hb q (by simp [hq]))
    refine ⟨y :: ys, ?_, ?_, ?_⟩
    · simp only [NStr.splitAt, e1, e2, hy, hys, Res.bind_ok]
    · intro z hz
      rcases List.mem_cons.mp hz with rfl | hz
      · rw [fpart_text hpart]; exact enc_ne hw
      · exact hne z hz
    · have hcut : Cut s gaps ok (u ++ (a ++ g)) (u ++ m) (⟨y, none⟩ :: ys.map (fun y => ⟨y, none⟩)) :=
        .part _ w _ y none _ hpart hw (by simp) (by simpa using hrest)
      rw [List.map_cons]
      cases gaps with
      | true => exact .skip _ g _ _ rfl (by simpa using hcut)
      | false => have := hg rfl; subst this; simpa using hcut

theorem regroupFrom_inOrder (join : Bool → Bool → Bool) (b : Nat) (ms : List Span) :
    ∀ (m : Span) (a : Nat), a < m.stop → Tiles m.stop b ms → (∀ x ∈ ms, x.start < x.stop) →
      InOrder false a b (regroupFrom join a m ms) := by
  induction ms with
  | nil =>
    intro m a ha ht _
    have : m.stop = b := ht
    exact ⟨Nat.le_refl _, fun _ => rfl, ha, by omega, fun _ => this⟩
  | cons x ms ih =>
    intro m a ha ht hne
    obtain ⟨h1, h2, h3⟩ := ht
    have hx := hne x (by simp)
    have hms : ∀ y ∈ ms, y.start < y.stop := fun y hy => hne y (by simp [hy])
    rw [regroupFrom]
    split
    · exact ih x a (by omega) h3 hms
    · refine ⟨Nat.le_refl _, fun _ => rfl, ha, ?_⟩
      have := ih x x.start hx h3 hms
      rw [h1] at this
      dsimp only
      rw [h1]; exact this

theorem inOrder_weaken {a a' b : Nat} {ps : List (Nat × Nat)} (h : InOrder true a b ps) (ha : a' ≤ a) :
    InOrder true a' b ps := by
  cases ps with
  | nil => exact ⟨by have := h.1; omega, by simp⟩
  | cons p ps => exact ⟨by have := h.1; omega, by simp, h.2.2⟩

theorem inOrder_gaps {a b : Nat} {ps : List (Nat × Nat)} (h : InOrder false a b ps) (gaps : Bool) :
    InOrder gaps a b ps := by
  induction ps generalizing a with
  | nil => exact ⟨h.1, fun _ => h.2 rfl⟩
  | cons p ps ih => exact ⟨h.1, fun _ => h.2.1 rfl, h.2.2.1, ih h.2.2.2⟩

theorem removed_inOrder (b : Nat) (ms : List Span) : ∀ a, Tiles a b ms → (∀ x ∈ ms, x.start < x.stop) →
    InOrder true a b ((ms.filter (fun m => !m.isMatch)).map (fun m => (m.start, m.stop))) := by
  induction ms with
  | nil => intro a ht _; have : a = b := ht; exact ⟨by omega, by simp⟩
  | cons x ms ih =>
    intro a ht hne
    obtain ⟨h1, h2, h3⟩ := ht
    have := ih x.stop h3 (fun y hy => hne y (by simp [hy]))
    rw [List.filter_cons]
    split
    · exact ⟨by dsimp only; omega, by simp, hne x (by simp), this⟩
    · exact inOrder_weaken this (by omega)

theorem keptSpans_inOrder (b : Behavior) {ms : List Span} {N : Nat} (ht : Tiles 0 N ms)
    (hne : ∀ x ∈ ms, x.start < x.stop) : InOrder (b == .removed) 0 N (keptSpans b ms) := by
  rw [C44_spans]
  split
  · next h => subst h; exact removed_inOrder N ms 0 ht hne
  · next h =>
    have : (b == .removed) = false := by simpa using h
    rw [this]
    cases ms with
    | nil => have : 0 = N := ht; exact ⟨by omega, fun _ => this⟩
    | cons m ms =>
      obtain ⟨h1, h2, h3⟩ := ht
      have hm := hne m (by simp)
      have := regroupFrom_inOrder (joins b) N ms m 0 (by omega) h3 (fun y hy => hne y (by simp [hy]))
      rw [regroup, h1]; exact this

/-! ### Patterns -/

/-- On every non-empty text the pattern finds spans that tile it, none of them empty, all of whole
characters. -/
def Suits (pat : Pat) : Prop := ∀ m : Str, m ≠ [] → ∃ ms, pat.find (encStr m) = .ok ms ∧
  Tiles 0 (blen m) ms ∧ ∀ x ∈ ms, x.start < x.stop ∧ Boundary m x.start ∧ Boundary m x.stop

theorem suits_fn (fn : Char → Bool) : Suits (.fn fn) := by
  intro m hm
  obtain ⟨ps, hcut⟩ := fnCut_exists fn m
  refine ⟨_, rfl, C43_fn_tiles fn m, ?_⟩
  rw [C43_fn fn m hm ps hcut]
  have := spansAt_bounds ps (fnCut_ne hcut) []
  rw [fnCut_flatten hcut] at this
  exact this

theorem suits_rune (c : Char) : Suits (.rune c) := suits_fn (fun x => x == c)

/-- A regular expression whose matches are never empty and are whole characters. -/
def ProperEngine (engine : List UInt8 → List (Nat × Nat)) : Prop := ∀ m : Str, m ≠ [] →
  LegalMatches (blen m) 0 (engine (encStr m)) ∧
  ∀ p ∈ engine (encStr m), p.1 < p.2 ∧ Boundary m p.1 ∧ Boundary m p.2

theorem reLoop_bounds (Q : Nat → Prop) (len : Nat) (hlen : Q len) (ms : List (Nat × Nat)) :
    ∀ cur, LegalMatches len cur ms → (∀ p ∈ ms, Q p.1 ∧ Q p.2) →
      (∀ m, ms.head? = some m → cur = m.1) → (ms = [] → Q cur) →
      ∀ x ∈ reLoop len ms cur, Q x.start ∧ Q x.stop := by
  induction ms with
  | nil =>
    intro cur _ _ _ hq x hx
    rw [reLoop] at hx
    split at hx
    · simp only [List.mem_singleton] at hx; subst hx; exact ⟨hq rfl, hlen⟩
    · cases hx
  | cons m ms ih =>
    intro cur hl hb hc _ x hx
    obtain ⟨h1, h2, h3, h4⟩ := hl
    have hcm := hc m rfl
    obtain ⟨q1, q2⟩ := hb m (by simp)
    cases ms with
    | nil =>
      rw [reLoop] at hx
      rcases List.mem_cons.mp hx with rfl | hx
      · exact ⟨q1, q2⟩
      · exact ih _ trivial (by simp) (by simp) (fun _ => by rw [hcm, show m.1 + (m.2 - m.1) = m.2 by omega]; exact q2) x hx
    | cons n ms =>
      obtain ⟨g1, g2, g3, g4⟩ := h4
      rw [reLoop] at hx
      split at hx
      · rcases List.mem_cons.mp hx with rfl | hx
        · exact ⟨q1, q2⟩
        · rcases List.mem_cons.mp hx with rfl | hx
          · exact ⟨q2, (hb n (by simp)).1⟩
          · refine ih _ ?_ (fun p hp => hb p (by simp [hp])) ?_ (by simp) x hx
            · exact ⟨by omega, g2, g3, g4⟩
            · intro k hk; cases hk; omega
      · next he =>
        rcases List.mem_cons.mp hx with rfl | hx
        · exact ⟨q1, q2⟩
        · refine ih _ ?_ (fun p hp => hb p (by simp [hp])) ?_ (by simp) x hx
          · exact ⟨by omega, g2, g3, g4⟩
          · intro k hk; cases hk; omega

theorem suits_regexp {engine : List UInt8 → List (Nat × Nat)} (he : ProperEngine engine) :
    Suits (.regexp engine) := by
  intro m hm
  obtain ⟨hl, hp⟩ := he m hm
  have hpos := length_pos_of_ne hm
  have hlen : (encStr m).length = blen m := length_encStr m
  obtain ⟨h1, h2, h3⟩ := C43_regexp (blen m) _ hl
  refine ⟨reFind (blen m) (engine (encStr m)), ?_, h1, ?_⟩
  · simp only [Pat.find, hlen]; rw [if_neg (by omega)]
  · have hend : Boundary m (blen m) := ⟨m, [], by simp, rfl⟩
    have h0 : Boundary m 0 := ⟨[], m, rfl, rfl⟩
    intro x hx
    refine ⟨?_, ?_⟩
    · cases hms : engine (encStr m) with
      | nil =>
        rw [hms] at hx
        simp only [reFind, List.mem_singleton] at hx
        subst hx; exact hpos
      | cons a as =>
        cases hf : x.isMatch with
        | false => exact h3 (by rw [hms]; simp) x hx hf
        | true =>
          have : (x.start, x.stop) ∈ engine (encStr m) := by
            rw [← h2, List.mem_map]
            exact ⟨x, List.mem_filter.mpr ⟨hx, hf⟩, rfl⟩
          exact (hp _ this).1
    · have hb : ∀ p ∈ engine (encStr m), Boundary m p.1 ∧ Boundary m p.2 := fun p hq => (hp p hq).2
      generalize engine (encStr m) = ms at hx hl hb
      cases ms with
      | nil =>
        simp only [reFind, List.mem_singleton] at hx
        subst hx; exact ⟨h0, hend⟩
      | cons a as =>
        rw [reFind] at hx
        split at hx
        · rcases List.mem_cons.mp hx with rfl | hx
          · exact ⟨h0, (hb a (by simp)).1⟩
          · exact reLoop_bounds (Boundary m) _ hend (a :: as) a.1 ⟨Nat.le_refl _, hl.2⟩ hb
              (by intro k hk; cases hk; rfl) (by simp) x hx
        · exact reLoop_bounds (Boundary m) _ hend _ 0 hl hb
            (by intro k hk; cases hk; omega) (by simp) x hx

theorem suits_invert {p : Pat} (h : Suits p) (hp : ∀ q, p ≠ .invert q) : Suits (.invert p) := by
  intro m hm
  obtain ⟨ms, h1, h2, h3⟩ := h m hm
  refine ⟨invertSpans ms, ?_, tiles_invert h2, ?_⟩
  · cases p with
    | invert q => exact absurd rfl (hp q)
    | rune r => simp only [Pat.find, Res.ok.injEq] at h1 ⊢; simp [Res.bind, h1]
    | fn f => simp only [Pat.find, Res.ok.injEq] at h1 ⊢; simp [Res.bind, h1]
    | str t e => simp only [Pat.find] at h1 ⊢; rw [h1]; rfl
    | regexp e => simp only [Pat.find] at h1 ⊢; rw [h1]; rfl
  · intro x hx
    simp only [invertSpans, List.mem_map] at hx
    obtain ⟨y, hy, rfl⟩ := hx
    exact h3 y hy

/-- Splitting a part at the spans of a suitable pattern. -/
theorem split_part {s u m : Str} {x : NStr} (h : FPart s u m x) (hm : m ≠ []) {pat : Pat} (hp : Suits pat)
    (b : Behavior) (gaps : Bool) (hg : b = .removed → gaps = true) (ok : Str → List Token → Prop) :
    ∃ ys, x.split pat b = .ok ys ∧ (∀ y ∈ ys, y.normalized ≠ []) ∧
      Cut s gaps ok u (u ++ m) (ys.map (fun y => ⟨y, none⟩)) := by
  obtain ⟨ms, h1, h2, h3⟩ := hp m hm
  have ht := fpart_text h
  have hlen : x.normalized.length = blen m := by rw [ht, length_encStr]
  have hk : ∀ p ∈ keptSpans b ms, Boundary m p.1 ∧ Boundary m p.2 ∧ p.1 < p.2 := by
    intro p hp
    obtain ⟨h1, ⟨x, hx, e1⟩, ⟨y, hy, e2⟩⟩ := keptSpans_ends b h2 (fun x hx => (h3 x hx).1) hp
    exact ⟨e1 ▸ (h3 x hx).2.1, e2 ▸ (h3 y hy).2.2, h1⟩
  have hin := keptSpans_inOrder b h2 (fun x hx => (h3 x hx).1)
  have hin' : InOrder gaps 0 (blen m) (keptSpans b ms) := by
    cases hb : (b == Behavior.removed) with
    | false => rw [hb] at hin; exact inOrder_gaps hin gaps
    | true => rw [hb] at hin; rw [hg (by simpa using hb)]; exact hin
  obtain ⟨ys, hys, hne, hcut⟩ := slices_cut h (gaps := gaps) (ok := ok) (keptSpans b ms) [] m rfl
    (by simpa using hin') (fun p hp => ⟨(hk p hp).1, (hk p hp).2.1⟩)
  exact ⟨ys, by simp only [NStr.split, ht, h1, Res.bind_ok, hys], hne, by simpa using hcut⟩

theorem keepPieces_some (xs : List NStr) (h : ∀ x ∈ xs, x.normalized ≠ []) :
    keepPieces (xs.map (fun x => ⟨some x, none⟩)) = .ok (xs.map (fun x => ⟨x, none⟩)) := by
  induction xs with
  | nil => rfl
  | cons x xs ih =>
    rw [List.map_cons, keepPieces]
    simp only [ih (fun y hy => h y (List.mem_cons_of_mem _ hy)), Res.bind_ok, if_neg (h x List.mem_cons_self), List.map_cons]

theorem cutWith_part {s u m : Str} {x : NStr} (h : FPart s u m x) (hm : m ≠ []) {pat : Pat} (hp : Suits pat)
    (b : Behavior) (gaps : Bool) (hg : b = .removed → gaps = true) (ok : Str → List Token → Prop) :
    ∃ ps kept, cutWith pat b x = .ok ps ∧ keepPieces ps = .ok kept ∧ Cut s gaps ok u (u ++ m) kept := by
  obtain ⟨ys, h1, h2, h3⟩ := split_part h hm hp b gaps hg ok
  exact ⟨_, _, by simp only [cutWith, h1, Res.bind_ok], keepPieces_some ys h2, h3⟩

/-! ### Added tokens -/

/-- What the regular expressions of added tokens must report: on every non-empty text, non-empty
matches of whole characters, for existing patterns. -/
def ProperSet (re : MatchingSet) : Prop := ∀ m : Str, m ≠ [] → ∀ p ∈ re.engine (encStr m),
  p.pat < re.ids.length ∧ p.start < p.stop ∧ Boundary m p.start ∧ Boundary m p.stop

/-- The token of an added token with text `m`. -/
def addedToken (id : Int) (m : Str) : Token := ⟨id, m, (0, (blen m : Nat))⟩

theorem sliceMatches_part {s u m : Str} {x : NStr} (h : FPart s u m x) {ok : Str → List Token → Prop}
    (ps : List SplitPiece) (hok : ∀ p ∈ ps, p.id ≠ -1 → ∀ w, w ≠ [] → ok w [addedToken p.id w]) :
    ∀ (a r : Str), m = a ++ r → TilesFrom (blen a) (blen m) ps →
      (∀ p ∈ ps, p.start < p.stop ∧ Boundary m p.start ∧ Boundary m p.stop) →
      ∃ qs kept, sliceMatches x ps = .ok qs ∧ keepPieces qs = .ok kept ∧
        Cut s false ok (u ++ a) (u ++ m) kept ∧
        ∀ p ∈ ps, p.id ≠ -1 → ∃ g w b y, m = g ++ w ++ b ∧ p.start = blen g ∧ p.stop = blen (g ++ w) ∧
          FPart s (u ++ g) w y ∧ (⟨y, some [addedToken p.id w]⟩ : Split) ∈ kept := by
  induction ps with
  | nil =>
    intro a r hm ht _
    have hl : blen a = blen m := ht
    rw [hm, blen_append] at hl
    have := blen_eq_zero.mp (show blen r = 0 by omega)
    subst this
    rw [hm, List.append_nil]
    exact ⟨[], [], rfl, rfl, .done _, by simp⟩
  | cons p ps ih =>
    intro a r hm ht hb
    obtain ⟨h1, h2, h3⟩ := ht
    obtain ⟨b0, b1, b2⟩ := hb p (by simp)
    obtain ⟨a1, r1, e1, e2⟩ := b1
    obtain ⟨a2, r2, f1, f2⟩ := b2
    have ha1 := prefix_of_eq hm e1 (by omega)
    subst ha1
    obtain ⟨w, hw, hr1⟩ := prefix_of_le e1 f1 (by omega)
    have hwne : w ≠ [] := by
      rintro rfl
      rw [List.append_nil] at hw
      rw [e2, f2, hw] at b0
      omega
    have hm' : m = a1 ++ w ++ r2 := by rw [f1, hw]
    obtain ⟨y, hy, hpart⟩ := fpart_slice h hm' hwne
    have hyt := fpart_text hpart
    have hyne : y.normalized ≠ [] := by
      rw [hyt]; intro h0
      have := length_encStr w
      rw [h0] at this
      exact hwne (blen_eq_zero.mp this.symm)
    have hslice : x.slice ⟨(p.start : Int), (p.stop : Int), .normalized⟩ = .ok (some y) := by
      rw [e2, f2, hw]; exact hy
    obtain ⟨qs, kept, i1, i2, i3, i4⟩ := ih (fun q hq => hok q (by simp [hq])) (a1 ++ w) r2 hm'
      (by rw [← hw, ← f2]; exact h3) (fun q hq => hb q (by simp [hq]))
    rw [← List.append_assoc] at i3
    by_cases hid : p.id = -1
    · refine ⟨⟨some y, none⟩ :: qs, ⟨y, none⟩ :: kept, ?_, ?_, ?_, ?_⟩
      · simp only [sliceMatches, hslice, Res.bind_ok, hid, if_true, i1]
      · simp only [keepPieces, i2, Res.bind_ok, if_neg hyne]
      · exact .part _ w _ y none _ hpart hwne (by simp) i3
      · intro q hq hqid
        rcases List.mem_cons.mp hq with rfl | hq
        · exact absurd hid hqid
        · obtain ⟨g, w', b, y', k1, k2, k3, k4, k5⟩ := i4 q hq hqid
          exact ⟨g, w', b, y', k1, k2, k3, k4, List.mem_cons_of_mem _ k5⟩
    · have htok : (⟨p.id, decStr y.normalized, ((0 : Int), (y.normalized.length : Int))⟩ : Token) =
          addedToken p.id w := by
        rw [hyt, decStr_enc, length_encStr]; rfl
      refine ⟨⟨some y, some [addedToken p.id w]⟩ :: qs, ⟨y, some [addedToken p.id w]⟩ :: kept, ?_, ?_, ?_, ?_⟩
      · simp only [sliceMatches, hslice, Res.bind_ok, hid, if_false, i1, htok]
      · simp only [keepPieces, i2, Res.bind_ok, if_neg hyne]
      · refine .part _ w _ y _ _ hpart hwne ?_ i3
        intro ts hts
        cases hts
        exact hok p (by simp) hid w hwne
      · intro q hq hqid
        rcases List.mem_cons.mp hq with rfl | hq
        · exact ⟨a1, w, r2, y, hm', e2, by rw [f2, hw], hpart, by simp⟩
        · obtain ⟨g, w', b, y', k1, k2, k3, k4, k5⟩ := i4 q hq hqid
          exact ⟨g, w', b, y', k1, k2, k3, k4, List.mem_cons_of_mem _ k5⟩

theorem fillGaps_bounds (Q : Nat → Prop) (ids : List Int) (len : Nat) (hl : Q len) (ms : List PatMatch) :
    ∀ (start : Nat) ps, Q start → start ≤ len → (∀ m ∈ ms, m.start < m.stop ∧ m.stop ≤ len ∧ Q m.start ∧ Q m.stop) →
      fillGaps ids len start ms = .ok ps → ∀ p ∈ ps, p.start < p.stop ∧ Q p.start ∧ Q p.stop := by
  induction ms with
  | nil =>
    intro start ps hs hle _ h p hp
    simp only [fillGaps, Res.ok.injEq] at h
    subst h
    split at hp
    · next hne =>
      simp only [List.mem_singleton] at hp
      subst hp
      exact ⟨by dsimp only; omega, hs, hl⟩
    · cases hp
  | cons m ms ih =>
    intro start ps hs hle hms h p hp
    obtain ⟨m1, m2, m3, m4⟩ := hms m (by simp)
    simp only [fillGaps] at h
    obtain ⟨id, _, h⟩ := Res.bind_eq_ok.mp h
    obtain ⟨rest, hr, h⟩ := Res.bind_eq_ok.mp h
    simp only [Res.pure_eq, Res.ok.injEq] at h
    subst h
    rw [List.append_assoc, List.mem_append, List.mem_append] at hp
    rcases hp with hp | hp | hp
    · split at hp
      · next hc =>
        simp only [List.mem_singleton] at hp; subst hp
        exact ⟨hc, hs, m3⟩
      · cases hp
    · simp only [List.mem_singleton] at hp; subst hp
      exact ⟨m1, m3, m4⟩
    · exact ih m.stop rest m4 m2 (fun x hx => hms x (by simp [hx])) hr p hp

/-- The pieces of a non-empty text cut at its added tokens. -/
theorem findMatches_proper {re : MatchingSet} (hre : ProperSet re) {m : Str} (hm : m ≠ []) :
    ∃ ps, findMatches re.ids (blen m) (re.engine (encStr m)) = .ok ps ∧ TilesFrom 0 (blen m) ps ∧
      (∀ p ∈ ps, p.start < p.stop ∧ Boundary m p.start ∧ Boundary m p.stop) ∧
      (∀ p ∈ ps, p.id ≠ -1 → p.id ∈ re.ids) := by
  have hpos := length_pos_of_ne hm
  have hfit : MatchesFit re.ids (blen m) (re.engine (encStr m)) := by
    intro p hp
    obtain ⟨h1, h2, h3, h4⟩ := hre m hm p hp
    exact ⟨by omega, boundary_le h4, h1⟩
  obtain ⟨ps, h1, h2, h3, h4⟩ := C17_split_covers re.ids (blen m) _ hfit
  refine ⟨ps, h1, h2, ?_, ?_⟩
  · unfold findMatches at h1
    rw [if_neg (by omega)] at h1
    refine fillGaps_bounds (Boundary m) re.ids (blen m) ⟨m, [], by simp, rfl⟩ _ 0 ps ⟨[], m, rfl, rfl⟩
      (Nat.zero_le _) ?_ h1
    intro p hp
    obtain ⟨k1, k2, k3, k4⟩ := hre m hm p (selectMatches_sub _ _ p hp)
    exact ⟨k2, boundary_le k4, k3, k4⟩
  · intro p hp hid
    rcases h4 p hp with ⟨h, _⟩ | ⟨q, _, h, _⟩
    · exact absurd h hid
    · exact List.mem_of_getElem? h

theorem splitWithIndices_part {s u m : Str} {x : NStr} (h : FPart s u m x) (hm : m ≠ []) {re : MatchingSet}
    (hre : ProperSet re) {ok : Str → List Token → Prop}
    (hok : ∀ id ∈ re.ids, id ≠ -1 → ∀ w, w ≠ [] → ok w [addedToken id w]) :
    ∃ ps qs kept, findMatches re.ids (blen m) (re.engine (encStr m)) = .ok ps ∧
      splitWithIndices re x = .ok qs ∧ keepPieces qs = .ok kept ∧
      Cut s false ok u (u ++ m) kept ∧
      ∀ p ∈ ps, p.id ≠ -1 → ∃ g w b y, m = g ++ w ++ b ∧ p.start = blen g ∧ p.stop = blen (g ++ w) ∧
        FPart s (u ++ g) w y ∧ (⟨y, some [addedToken p.id w]⟩ : Split) ∈ kept := by
  obtain ⟨ps, h1, h2, h3, h4⟩ := findMatches_proper hre hm
  obtain ⟨qs, kept, e1, e2, e3, e4⟩ := sliceMatches_part h ps
    (fun p hp hid => hok p.id (h4 p hp hid) hid) [] m rfl (by simpa using h2) h3
  have ht := fpart_text h
  refine ⟨ps, qs, kept, h1, ?_, e2, by simpa using e3, e4⟩
  simp only [splitWithIndices, ht, length_encStr, h1, Res.bind_ok, e1]

/-! ### Tokens and rows -/

theorem tokenizeLoop_cut {s : Str} {gaps : Bool} {ok : Str → List Token → Prop}
    {fn : NStr → Res (Option (List Token))}
    (hfn : ∀ m x, m ≠ [] → x.normalized = encStr m → ∃ ts, fn x = .ok (some ts) ∧ ok m ts)
    {u w : Str} {ss : List Split} (h : Cut s gaps ok u w ss) :
    ∃ ss', tokenizeLoop fn ss = .ok ss' ∧ Cut s gaps ok u w ss' ∧ (∀ sp ∈ ss', sp.tokens ≠ none) ∧
      ∀ sp ∈ ss, sp.tokens ≠ none → sp ∈ ss' := by
  induction h with
  | done u => exact ⟨[], rfl, .done u, by simp, by simp⟩
  | skip u g _ ss hg _ ih =>
    obtain ⟨ss', h1, h2, h3, h4⟩ := ih
    exact ⟨ss', h1, .skip u g _ _ hg h2, h3, h4⟩
  | part u m _ x t ss hp hm ht _ ih =>
    obtain ⟨ss', h1, h2, h3, h4⟩ := ih
    cases t with
    | some ts =>
      refine ⟨⟨x, some ts⟩ :: ss', ?_, .part u m _ x _ _ hp hm ht h2, ?_, ?_⟩
      · simp only [tokenizeLoop, h1, Res.bind_ok]
      · intro sp hsp
        rcases List.mem_cons.mp hsp with rfl | hsp
        · simp
        · exact h3 sp hsp
      · intro sp hsp hne
        rcases List.mem_cons.mp hsp with rfl | hsp
        · simp
        · exact List.mem_cons_of_mem _ (h4 sp hsp hne)
    | none =>
      obtain ⟨ts, e1, e2⟩ := hfn m x hm (fpart_text hp)
      refine ⟨⟨x, some ts⟩ :: ss', ?_, .part u m _ x _ _ hp hm (by intro ts' h; cases h; exact e2) h2, ?_, ?_⟩
      · simp only [tokenizeLoop, e1, h1, Res.bind_ok]
      · intro sp hsp
        rcases List.mem_cons.mp hsp with rfl | hsp
        · simp
        · exact h3 sp hsp
      · intro sp hsp hne
        rcases List.mem_cons.mp hsp with rfl | hsp
        · exact absurd rfl hne
        · exact List.mem_cons_of_mem _ (h4 sp hsp hne)

/-- The token's offsets enclose whole characters of its text. -/
def Located (m : Str) (t : Token) : Prop :=
  ∃ a w b, m = a ++ w ++ b ∧ w ≠ [] ∧ t.offsets = (((blen a : Nat) : Int), ((blen (a ++ w) : Nat) : Int))

/-- The rows of a list of parts with their tokens (`none`: left out), from byte `pos` and word `i`
on: offsets are shifted by the place of the part. -/
def rowsFrom (word : Nat → Int) : Nat → Nat → List (Str × Option (List Token)) → List Row
  | _, _, [] => []
  | pos, i, (m, none) :: ps => rowsFrom word (pos + blen m) i ps
  | pos, i, (m, some ts) :: ps =>
    ts.map (fun t => ⟨t, ((pos : Int) + t.offsets.1, (pos : Int) + t.offsets.2), word i⟩) ++
      rowsFrom word (pos + blen m) (i + 1) ps

theorem rowsOfTokens_part {s u m : Str} {x : NStr} (h : PartOf s u m x) (word : Int) (ts : List Token)
    (hts : ∀ t ∈ ts, Located m t) :
    rowsOfTokens (charMap .byte (encStr s)) x word ts =
      .ok (ts.map (fun t => ⟨t, (((blen u : Nat) : Int) + t.offsets.1, ((blen u : Nat) : Int) + t.offsets.2), word⟩)) := by
  induction ts with
  | nil => rfl
  | cons t ts ih =>
    obtain ⟨a, w, b, e1, e2, e3⟩ := hts t (by simp)
    have := origOffsets_part h a w b e1 e2
    have hi := ih (fun y hy => hts y (by simp [hy]))
    have hc : ∀ o : Int × Int, charOffsets (charMap .byte (encStr s)) o = o := fun o => rfl
    rw [rowsOfTokens, e3, this]
    simp only [Res.bind_ok, hi, hc, List.map_cons, e3]
    congr 3
    simp only [blen_append]
    congr 1 <;> push_cast <;> omega

theorem rowsOfSplits_cut {s : Str} {gaps : Bool} {ok : Str → List Token → Prop}
    (hloc : ∀ m ts, ok m ts → ts ≠ [] ∧ ∀ t ∈ ts, Located m t) (wordIdx : Int)
    {u w : Str} {ss : List Split} (h : Cut s gaps ok u w ss) (hall : ∀ sp ∈ ss, sp.tokens ≠ none) (i : Nat) :
    ∃ parts : List (Str × Option (List Token)), u ++ (parts.map (·.1)).flatten = w ∧
      (∀ p ∈ parts, p.2 = none → gaps = true) ∧
      (∀ p ∈ parts, ∀ ts, p.2 = some ts → p.1 ≠ [] ∧ ok p.1 ts) ∧
      rowsOfSplits (charMap .byte (encStr s)) wordIdx ss i =
        .ok (rowsFrom (fun k => if wordIdx = -1 then (k : Int) else wordIdx) (blen u) i parts) ∧
      ss.any (fun s => (s.tokens.getD []).isEmpty) = false := by
  induction h generalizing i with
  | done u => exact ⟨[], by simp, by simp, by simp, rfl, rfl⟩
  | skip u g w ss hg _ ih =>
    obtain ⟨parts, h1, h2, h3, h4, h5⟩ := ih hall i
    refine ⟨(g, none) :: parts, by simpa using h1, ?_, ?_, ?_, h5⟩
    · intro p hp _; exact hg
    · intro p hp ts hts
      rcases List.mem_cons.mp hp with rfl | hp
      · cases hts
      · exact h3 p hp ts hts
    · rw [rowsFrom, ← blen_append]; exact h4
  | part u m w x t ss hp hm ht _ ih =>
    obtain ⟨parts, h1, h2, h3, h4, h5⟩ := ih (fun sp hsp => hall sp (by simp [hsp])) (i + 1)
    cases t with
    | none => exact absurd rfl (hall ⟨x, none⟩ (by simp))
    | some ts =>
      have hk := ht ts rfl
      obtain ⟨hne, hl⟩ := hloc m ts hk
      refine ⟨(m, some ts) :: parts, by simpa using h1, ?_, ?_, ?_, ?_⟩
      · intro p hp hpn
        rcases List.mem_cons.mp hp with rfl | hp
        · cases hpn
        · exact h2 p hp hpn
      · intro p hp ts' hts
        rcases List.mem_cons.mp hp with rfl | hp
        · cases hts; exact ⟨hm, hk⟩
        · exact h3 p hp ts' hts
      · simp only [rowsOfSplits, Option.getD_some]
        rw [rowsOfTokens_part (fpart_partOf hp) _ ts hl]
        simp only [Res.bind_ok, h4]
        rw [rowsFrom, blen_append]
      · rw [List.any_cons, h5]
        simpa using hne

end Tok.PreTok
