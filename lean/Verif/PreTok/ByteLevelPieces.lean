import Verif.PreTok.ByteLevelLemmas
import Verif.PreTok.PropsMetaspace

/-!
# Cutting a text in blocks; the pieces of the byte-level pre-tokenizer
-/

namespace Tok.PreTok

open Tok.Norm

/-! ### Specification -/

/-- The text that is cut: with a space in front if wanted and not there yet. -/
def prefixed (addPrefixSpace : Bool) (s : Str) : Str :=
  if addPrefixSpace ∧ s ≠ [] ∧ s.head? ≠ some ' ' then ' ' :: s else s

/-- That text in blocks (original, new): each character for itself, the space together with the
first character. -/
def prefixedBlocks (addPrefixSpace : Bool) : Str → List (Str × Str)
  | [] => []
  | c :: t => if addPrefixSpace ∧ c ≠ ' ' then ([c], [' ', c]) :: singles t else singles (c :: t)

/-- `P` holds for each group of blocks, the place of its original text, and its split. -/
def Each (P : List (Str × Str) → Int → NStr → Prop) : Int → List (List (Str × Str)) → List NStr → Prop
  | _, [], [] => True
  | k, b :: bss, y :: ys => b ≠ [] ∧ P b k y ∧ Each P (k + (blen (lefts b) : Nat)) bss ys
  | _, _, _ => False

/-- No match of the regular expression starts or ends right behind the space in front of `s`. -/
def KeepsSpace (engine : List UInt8 → List (Nat × Nat)) (s : Str) : Prop :=
  ∀ p ∈ engine (encStr (' ' :: s)), p.1 ≠ 1 ∧ p.2 ≠ 1

/-! ### Cutting blocks -/

theorem rights_prefixed (a : Bool) (s : Str) : rights (prefixedBlocks a s) = prefixed a s ∧
    lefts (prefixedBlocks a s) = s := by
  cases s with
  | nil => simp [prefixedBlocks, prefixed, rights, lefts]
  | cons c t =>
    simp only [prefixedBlocks]
    unfold prefixed
    by_cases h : a = true ∧ c ≠ ' '
    · rw [if_pos h, if_pos ⟨h.1, by simp, by simpa using h.2⟩, rights_cons, lefts_cons, rights_singles, lefts_singles]
      exact ⟨rfl, rfl⟩
    · rw [if_neg h, if_neg (by
        rintro ⟨h1, _, h2⟩
        exact h ⟨h1, by simpa using h2⟩), rights_singles, lefts_singles]
      exact ⟨rfl, rfl⟩

theorem blocks_prefix_of_le {bs as r as1 r1 : List (Str × Str)} (hne : ∀ b ∈ bs, b.1 ≠ [] ∧ b.2 ≠ [])
    (h : bs = as ++ r) (h1 : bs = as1 ++ r1) (hl : blen (rights as) ≤ blen (rights as1)) :
    ∃ g, as1 = as ++ g ∧ r = g ++ r1 := by
  have h2 := h1
  rw [h] at h1
  rcases List.append_eq_append_iff.mp h1 with ⟨g, e1, e2⟩ | ⟨g, e1, e2⟩
  · exact ⟨g, e1, e2⟩
  · by_cases hg : g = []
    · subst hg
      exact ⟨[], by simpa using e1.symm, by simpa using e2.symm⟩
    · have hgp := length_pos_of_ne (lefts_pos (bs := g) (by
        intro b hb; exact hne b (by rw [h, e1]; simp [hb])) hg).2
      rw [e1, rights_append, blen_append] at hl
      omega

/-- A place between two blocks. -/
def BlockBoundary (bs : List (Str × Str)) (p : Nat) : Prop := ∃ as zs, bs = as ++ zs ∧ p = blen (rights as)

theorem blocks_splitAt {x : NStr} {bs : List (Str × Str)} (h : Blocks x bs) (ps : List (Nat × Nat)) :
    ∀ (as zs : List (Str × Str)), bs = as ++ zs → InOrder false (blen (rights as)) (blen (rights bs)) ps →
      (∀ p ∈ ps, BlockBoundary bs p.1 ∧ BlockBoundary bs p.2) →
      ∃ ys bss, x.splitAt ps = .ok ys ∧ bss.flatten = zs ∧
        Each (fun b k y => Blocks y b ∧ y.shift = k) (x.shift + (blen (lefts as) : Nat)) bss ys ∧
        rangesOf (blen (rights as)) (bss.map rights) = ps := by
  induction ps with
  | nil =>
    intro as zs hb ho _
    have := ho.2 rfl
    refine ⟨[], [], rfl, ?_, trivial, rfl⟩
    by_cases hz : zs = []
    · rw [hz]; rfl
    · have hp := length_pos_of_ne (lefts_pos (bs := zs) (by
        intro b hb'; exact h.ne b (by rw [hb]; simp [hb'])) hz).2
      rw [hb, rights_append, blen_append] at this
      omega
  | cons p ps ih =>
    intro as zs hb ho hbd
    obtain ⟨h1, h2, h3, h4⟩ := ho
    obtain ⟨⟨as1, zs1, e1, e2⟩, ⟨as2, zs2, f1, f2⟩⟩ := hbd p (by simp)
    have h2' := h2 rfl
    obtain ⟨g, hg, hr⟩ := blocks_prefix_of_le h.ne hb e1 (by omega)
    have hg0 : g = [] := by
      by_cases hg0 : g = []
      · exact hg0
      · have hp := length_pos_of_ne (lefts_pos (bs := g) (by
          intro b hb'; exact h.ne b (by rw [e1, hg]; simp [hb'])) hg0).2
        rw [e2, hg, rights_append, blen_append] at h2'
        omega
    subst hg0
    rw [List.append_nil] at hg
    subst hg
    obtain ⟨w, hw, hr1⟩ := blocks_prefix_of_le h.ne e1 f1 (by omega)
    subst hw
    have hwne : w ≠ [] := by
      rintro rfl
      rw [List.append_nil] at f2
      omega
    obtain ⟨y, hy, hyb, hys⟩ := blocks_slice h as1 w zs2 f1 hwne
    obtain ⟨ys, bss, i1, i2, i3, i4⟩ := ih (as1 ++ w) zs2 f1 (by rw [← f2]; exact h4) (fun q hq => hbd q (by simp [hq]))
    refine ⟨y :: ys, w :: bss, ?_, ?_, ⟨hwne, ⟨hyb, hys⟩, ?_⟩, ?_⟩
    · simp only [NStr.splitAt, e2, f2, hy, i1, Res.bind_ok]
    · rw [List.flatten_cons, i2]
      have := f1
      rw [hb, List.append_assoc] at this
      exact (List.append_cancel_left this).symm
    · rw [lefts_append, blen_append] at i3
      push_cast at i3
      rw [← Int.add_assoc] at i3
      exact i3
    · rw [List.map_cons, rangesOf, ← blen_append, ← rights_append, i4, ← e2, ← f2]

theorem isolated_spans (ms : List Span) : keptSpans .isolated ms = ms.map (fun m => (m.start, m.stop)) := by
  rw [C44_spans, if_neg (by decide)]
  have : ∀ (ms : List Span) (m : Span), regroupFrom (joins .isolated) m.start m ms = (m :: ms).map (fun m => (m.start, m.stop)) := by
    intro ms
    induction ms with
    | nil => intro m; rfl
    | cons n ms ih => intro m; rw [regroupFrom, if_neg (by simp [joins]), ih]; rfl
  cases ms with
  | nil => rfl
  | cons m ms => exact this ms m

theorem singles_boundary {m : Str} {p : Nat} (h : Boundary m p) : BlockBoundary (singles m) p := by
  obtain ⟨a, b, h1, h2⟩ := h
  exact ⟨singles a, singles b, by rw [h1, singles_append], by rw [rights_singles, h2]⟩

theorem prefix_boundary {c : Char} {t : Str} {p : Nat} (h : Boundary (' ' :: c :: t) p) (hp : p ≠ 1) :
    BlockBoundary (([c], [' ', c]) :: singles t) p := by
  obtain ⟨a, b, h1, h2⟩ := h
  cases a with
  | nil => exact ⟨[], _, rfl, by rw [h2]; rfl⟩
  | cons d a =>
    simp only [List.cons_append, List.cons.injEq] at h1
    obtain ⟨rfl, h1⟩ := h1
    cases a with
    | nil => exfalso; apply hp; rw [h2]; rfl
    | cons e a =>
      simp only [List.cons_append, List.cons.injEq] at h1
      obtain ⟨rfl, h1⟩ := h1
      refine ⟨([c], [' ', c]) :: singles a, singles b, by rw [h1, singles_append]; rfl, ?_⟩
      rw [h2, rights_cons, rights_singles]
      simp only [blen_cons, blen_append, blen_nil]
      omega

/-- The blocks after the space has been put in front. -/
theorem spacePrefix_fresh {x : NStr} {s : Str} (h : Fresh x s) (hs : s ≠ []) (a : Bool)
    (hnul : a = true → s.head? ≠ some '\x00') :
    ∃ y, spacePrefix a x = .ok y ∧ Blocks y (prefixedBlocks a s) ∧ y.shift = x.shift := by
  cases s with
  | nil => exact absurd rfl hs
  | cons c t =>
    simp only [prefixedBlocks]
    unfold spacePrefix
    rw [h.text, isPrefixOf_enc, List.head?_cons]
    by_cases hc : a = true ∧ c ≠ ' '
    · obtain ⟨y, h1, h2, h3⟩ := prepend_fresh h (by
        rintro rfl
        exact hnul hc.1 rfl) ' '
      rw [if_pos hc, if_pos (by simp [hc.1, hc.2])]
      exact ⟨y, h1, h2, h3⟩
    · rw [if_neg hc, if_neg (by
        intro h'
        apply hc
        simpa using h')]
      exact ⟨x, rfl, h.toBlocks, rfl⟩

theorem each_ne {k : Int} {bss : List (List (Str × Str))} {ys : List NStr}
    (h : Each (fun b k y => Blocks y b ∧ y.shift = k) k bss ys) : ∀ y ∈ ys, y.normalized ≠ [] := by
  induction ys generalizing k bss with
  | nil => intro y hy; cases hy
  | cons z ys ih =>
    cases bss with
    | nil => exact h.elim
    | cons b bss =>
      obtain ⟨h1, ⟨h2, _⟩, h3⟩ := h
      intro y hy
      rcases List.mem_cons.mp hy with rfl | hy
      · rw [h2.text]; exact enc_ne (lefts_pos h2.ne h1).2
      · exact ih h3 y hy

theorem each_image {k : Int} {bss : List (List (Str × Str))} {ys : List NStr}
    (h : Each (fun b k y => Blocks y b ∧ y.shift = k) k bss ys) :
    ∃ zs, normalizeLoop toByteLevel (ys.map (fun y => ⟨y, none⟩)) = .ok (zs.map (fun y => ⟨y, none⟩)) ∧
      Each Imaged k bss zs := by
  induction ys generalizing k bss with
  | nil =>
    cases bss with
    | nil => exact ⟨[], rfl, trivial⟩
    | cons b bss => exact h.elim
  | cons y ys ih =>
    cases bss with
    | nil => exact h.elim
    | cons b bss =>
      obtain ⟨h1, ⟨h2, rfl⟩, h3⟩ := h
      obtain ⟨z, e1, e2⟩ := toByteLevel_blocks h2
      obtain ⟨zs, f1, f2⟩ := ih h3
      refine ⟨z :: zs, ?_, h1, e2, f2⟩
      simp only [List.map_cons, normalizeLoop, e1, f1, Res.bind_ok]

/-- The pieces of one unchanged split. -/
theorem byteLevelPre_fresh (a : Bool) {engine : List UInt8 → List (Nat × Nat)} (he : ProperEngine engine)
    {s : Str} (hs : s ≠ []) {x : NStr} (h : Fresh x s) (orig : List UInt8)
    (hnul : a = true → s.head? ≠ some '\x00')
    (hsp : a = true → s.head? ≠ some ' ' → KeepsSpace engine s) :
    ∃ ys bss ms, byteLevelPre a engine ⟨orig, [⟨x, none⟩]⟩ = .ok ⟨orig, ys.map (fun y => ⟨y, none⟩)⟩ ∧
      bss.flatten = prefixedBlocks a s ∧ Each Imaged x.shift bss ys ∧
      Tiles 0 (blen (prefixed a s)) ms ∧ rangesOf 0 (bss.map rights) = ms.map (fun m => (m.start, m.stop)) ∧
      (ms.filter (·.isMatch)).map (fun m => (m.start, m.stop)) = engine (encStr (prefixed a s)) := by
  obtain ⟨x1, h1, h2, h3⟩ := spacePrefix_fresh h hs a hnul
  obtain ⟨hr, hl⟩ := rights_prefixed a s
  have htext := h2.text
  rw [hr] at htext
  have hpne : prefixed a s ≠ [] := by
    unfold prefixed; split
    · simp
    · exact hs
  obtain ⟨ms, m1, m2, m3⟩ := suits_regexp he (prefixed a s) hpne
  obtain ⟨hl1, hp1⟩ := he (prefixed a s) hpne
  obtain ⟨_, c2, _⟩ := C43_regexp _ _ hl1
  have hms : ms = reFind (blen (prefixed a s)) (engine (encStr (prefixed a s))) := by
    have hpos := length_pos_of_ne hpne
    simp only [Pat.find, length_encStr] at m1
    rw [if_neg (by omega)] at m1
    cases m1; rfl
  have hbd : ∀ m ∈ ms, BlockBoundary (prefixedBlocks a s) m.start ∧ BlockBoundary (prefixedBlocks a s) m.stop := by
    intro m hm
    obtain ⟨_, b1, b2⟩ := m3 m hm
    cases s with
    | nil => exact absurd rfl hs
    | cons c t =>
      simp only [prefixedBlocks]
      by_cases hc : a = true ∧ c ≠ ' '
      · rw [if_pos hc]
        have hpre : prefixed a (c :: t) = ' ' :: c :: t := by
          unfold prefixed; rw [if_pos ⟨hc.1, by simp, by simpa using hc.2⟩]
        rw [hpre] at b1 b2 hms hl1
        have hk := hsp hc.1 (by simpa using hc.2)
        have hQ : m.start ≠ 1 ∧ m.stop ≠ 1 := by
          have hlen : blen (' ' :: c :: t) ≠ 1 := by
            have := c.utf8Size_pos
            have h2 := (' ').utf8Size_pos
            simp only [blen_cons]; omega
          rw [hms] at hm
          unfold KeepsSpace at hk
          generalize engine (encStr (' ' :: c :: t)) = es at hm hk hl1
          cases es with
          | nil =>
            simp only [reFind, List.mem_singleton] at hm
            subst hm; exact ⟨by simp, hlen⟩
          | cons e es =>
            rw [reFind] at hm
            split at hm
            · rcases List.mem_cons.mp hm with rfl | hm
              · exact ⟨by simp, (hk e (by simp)).1⟩
              · exact reLoop_bounds (fun q => q ≠ 1) _ hlen (e :: es) e.1 ⟨Nat.le_refl _, hl1.2⟩ hk
                  (by intro k hk; cases hk; rfl) (by simp) m hm
            · exact reLoop_bounds (fun q => q ≠ 1) _ hlen _ 0 hl1 hk
                (by intro k hk; cases hk; omega) (by simp) m hm
        exact ⟨prefix_boundary b1 hQ.1, prefix_boundary b2 hQ.2⟩
      · rw [if_neg hc]
        have hpre : prefixed a (c :: t) = c :: t := by
          unfold prefixed
          rw [if_neg (by rintro ⟨k1, _, k2⟩; exact hc ⟨k1, by simpa using k2⟩)]
        rw [hpre] at b1 b2
        exact ⟨singles_boundary b1, singles_boundary b2⟩
  have hin := keptSpans_inOrder .isolated m2 (fun x hx => (m3 x hx).1)
  rw [isolated_spans] at hin
  obtain ⟨ys, bss, k1, k2, k3, k4⟩ := blocks_splitAt h2 (ms.map (fun m => (m.start, m.stop))) [] (prefixedBlocks a s) rfl
    (by rw [hr]; exact hin) (by
      intro p hp
      obtain ⟨m, hm, rfl⟩ := List.mem_map.mp hp
      exact hbd m hm)
  have k3' : Each (fun b k y => Blocks y b ∧ y.shift = k) x.shift bss ys := by
    have hz : x1.shift + ((blen (lefts []) : Nat) : Int) = x.shift := by rw [h3]; simp [lefts]
    rw [hz] at k3; exact k3
  obtain ⟨zs, z1, z2⟩ := each_image k3'
  refine ⟨zs, bss, ms, ?_, k2, z2, m2, k4, ?_⟩
  · have hcut : cutWith (.regexp engine) .isolated x1 = .ok (ys.map (fun y => ⟨some y, none⟩)) := by
      simp only [cutWith, NStr.split, htext, m1, Res.bind_ok, isolated_spans, k1]
    simp only [byteLevelPre, PTS.split, splitLoop, h1, hcut, Res.bind_ok, keepPieces_some ys (each_ne k3'),
      List.append_nil, PTS.normalize, z1]
  · rw [hms]; exact c2

/-- What `Each Imaged` says about the texts: the originals of the pieces, one after the other, are
the text, and the normalized texts, one after the other, the byte-level image of the (prefixed)
text. -/
theorem each_texts {k : Int} {bss : List (List (Str × Str))} {ys : List NStr} (h : Each Imaged k bss ys) :
    (ys.map (·.original)).flatten = encStr (lefts bss.flatten) ∧
    (ys.map (·.normalized)).flatten = encStr (byteLevelImage (encStr (rights bss.flatten))) := by
  induction ys generalizing k bss with
  | nil =>
    cases bss with
    | nil => exact ⟨rfl, rfl⟩
    | cons b bss => exact h.elim
  | cons y ys ih =>
    cases bss with
    | nil => exact h.elim
    | cons b bss =>
      obtain ⟨_, h2, h3⟩ := h
      obtain ⟨i1, i2⟩ := ih h3
      simp only [List.map_cons, List.flatten_cons, lefts_append, rights_append, encStr_append,
        byteLevelImage_append, i1, i2, h2.text, h2.original, and_self]

theorem normalizeLoop_filter (g : NStr → Res NStr) (ss : List Split) :
    normalizeLoop g ss = normalizeLoop g (ss.filter (fun x => x.tokens.isNone)) := by
  induction ss with
  | nil => rfl
  | cons x ss ih =>
    cases hx : x.tokens with
    | none => rw [List.filter_cons_of_pos (by simp [hx])]; simp only [normalizeLoop, hx, ih]
    | some ts => rw [List.filter_cons_of_neg (by simp [hx])]; simp only [normalizeLoop, hx, ih]

theorem normalizeLoop_tokens (g : NStr → Res NStr) (ss : List Split) :
    ∀ r, normalizeLoop g ss = .ok r → ∀ x ∈ r, x.tokens = none := by
  induction ss with
  | nil => intro r h; cases h; intro x hx; cases hx
  | cons x ss ih =>
    intro r h
    cases hx : x.tokens with
    | some ts => simp only [normalizeLoop, hx] at h; exact ih r h
    | none =>
      simp only [normalizeLoop, hx, Res.bind_eq_ok] at h
      obtain ⟨n, _, rest, h2, h3⟩ := h
      cases h3
      intro y hy
      rcases List.mem_cons.mp hy with rfl | hy
      · rfl
      · exact ih _ h2 y hy

theorem keepPieces_tokens (ps : List SplitIdx) (hps : ∀ p ∈ ps, p.tokens = none) :
    ∀ r, keepPieces ps = .ok r → ∀ x ∈ r, x.tokens = none := by
  induction ps with
  | nil => intro r h; cases h; intro x hx; cases hx
  | cons p ps ih =>
    intro r h
    cases hn : p.normalized with
    | none => simp [keepPieces, hn] at h
    | some n =>
      simp only [keepPieces, hn, Res.bind_eq_ok] at h
      obtain ⟨rest, h1, h2⟩ := h
      cases h2
      have := ih (fun q hq => hps q (by simp [hq])) rest h1
      intro x hx
      split at hx
      · exact this x hx
      · rcases List.mem_cons.mp hx with rfl | hx
        · exact hps p (by simp)
        · exact this x hx

theorem splitLoop_filter (fn : NStr → Res (List SplitIdx))
    (hfn : ∀ n ps, fn n = .ok ps → ∀ p ∈ ps, p.tokens = none) (ss : List Split) : ∀ i j,
    (do let r ← splitLoop (fun _ => fn) ss i
        Res.ok (r.filter (fun x => x.tokens.isNone))) =
      splitLoop (fun _ => fn) (ss.filter (fun x => x.tokens.isNone)) j := by
  induction ss with
  | nil => intro i j; rfl
  | cons x ss ih =>
    intro i j
    cases hx : x.tokens with
    | some ts =>
      rw [List.filter_cons_of_neg (by simp [hx]), ← ih (i + 1) j]
      simp only [splitLoop, hx]
      cases splitLoop (fun _ => fn) ss (i + 1) with
      | ok r => simp only [Res.bind_ok]; rw [List.filter_cons_of_neg (by simp [hx])]
      | err => rfl
      | panic => rfl
    | none =>
      rw [List.filter_cons_of_pos (by simp [hx])]
      simp only [splitLoop, hx]
      cases hf : fn x.normalized with
      | err => rfl
      | panic => rfl
      | ok ps =>
        simp only [Res.bind_ok]
        cases hk : keepPieces ps with
        | err => rfl
        | panic => rfl
        | ok ks =>
          simp only [Res.bind_ok]
          rw [← ih (i + 1) (j + 1)]
          cases splitLoop (fun _ => fn) ss (i + 1) with
          | err => rfl
          | panic => rfl
          | ok r =>
            simp only [Res.bind_ok, List.filter_append]
            rw [List.filter_eq_self.mpr (by
              intro y hy
              rw [keepPieces_tokens ps (hfn _ _ hf) ks hk y hy]; rfl)]

end Tok.PreTok
