import Verif.PreTok.Metaspace
import Verif.PreTok.ByteLevel
import Verif.Norm.PropsNormalizers
import Verif.Norm.Slice
import Verif.Spm.Normalizer

/-!
# Where the alignments of a piece point to
-/

namespace Tok.PreTok

open Tok.Norm

/-- `i` is the byte position of a character of the text, or its end. -/
def OnChar (s : Str) (i : Int) : Prop := ∃ u v, s = u ++ v ∧ i = (blen u : Int)

/-- The piece starts at a character of the text `s`, and so do the beginnings and ends of its
alignments, counted from there; with `o`, they never go back. -/
structure Placed (s : Str) (o : Bool) (x : NStr) : Prop where
  base : OnChar s x.shift
  spans : ∀ p ∈ x.aligns, OnChar s (x.shift + p.1) ∧ OnChar s (x.shift + p.2) ∧ p.1 ≤ p.2
  ord : o = true → NonDecreasing x.aligns

/-- Moreover there is one alignment per byte. -/
structure Fit (s : Str) (o : Bool) (x : NStr) : Prop where
  placed : Placed s o x
  even : x.aligns.length = x.normalized.length

theorem newNStr_fit (s : Str) (o : Bool) : Fit s o (newNStr (encStr s)) := by
  have hw := newNStr_wf s
  refine ⟨⟨⟨[], s, rfl, rfl⟩, ?_, fun _ => hw.mono⟩, hw.lenA⟩
  intro p hp
  rw [newNStr_aligns] at hp
  have key : ∀ (m pre : Str), p ∈ byteRanges m (blen pre) →
      OnChar (pre ++ m) p.1 ∧ OnChar (pre ++ m) p.2 ∧ p.1 ≤ p.2 := by
    intro m
    induction m with
    | nil => intro pre h; cases h
    | cons c m ih =>
      intro pre h
      rw [byteRanges, List.mem_append] at h
      rcases h with h | h
      · have := List.eq_of_mem_replicate h
        subst this
        refine ⟨⟨pre, c :: m, rfl, rfl⟩, ⟨pre ++ [c], m, by simp, ?_⟩, ?_⟩
        · rw [blen_append]
          simp [blen]
        · simp only; omega
      · have := ih (pre ++ [c]) (by rw [blen_append]; simpa [blen] using h)
        simpa using this
  have := key s [] (by simpa [blen] using hp)
  have h0 : (newNStr (encStr s)).shift = 0 := rfl
  rw [h0]
  simpa using this

/-! ### Slices -/

theorem convert_normalized {n : NStr} {a b : Int} {r : Rng} (hb : b ≤ n.normalized.length) (ha : 0 ≤ a)
    (hab : a ≠ b) (h : n.convert ⟨a, b, .normalized⟩ = .ok (some r)) :
    ∃ p ∈ n.aligns, r.start = p.1 ∧ b ≤ n.aligns.length := by
  have hfull : (⟨a, b, .normalized⟩ : Rng).full n.normalized.length = ⟨a, b, .normalized⟩ := by
    unfold Rng.full
    simp only [Rng.mk.injEq, and_true]
    exact ⟨by rw [if_neg (by omega)], by rw [if_neg (by omega)]⟩
  unfold NStr.convert at h
  simp only [hfull] at h
  rw [if_neg hab] at h
  split at h
  · cases h
  · next hr =>
    obtain ⟨seg, h1, h⟩ := Res.bind_eq_ok.mp h
    split at h
    · cases h
    · next p hp =>
      cases h
      unfold expand at hp
      split at hp
      · next x y hx hy =>
        cases hp
        obtain ⟨_, _, _, rfl⟩ := slc_eq_ok h1
        exact ⟨x, List.mem_of_mem_take (List.mem_of_mem_drop (List.mem_of_mem_head? hx)), rfl, by omega⟩
      · cases hp

theorem nd_sub {al : List (Int × Int)} (h : NonDecreasing al) (a b : Nat) (k : Int) :
    NonDecreasing (((al.take b).drop a).map (fun p => (p.1 - k, p.2 - k))) := by
  unfold NonDecreasing at h ⊢
  rw [List.pairwise_map]
  have h1 : ((al.take b).drop a).Pairwise (fun x y => x.1 ≤ y.1 ∧ x.2 ≤ y.2) :=
    h.sublist ((List.drop_sublist _ _).trans (List.take_sublist _ _))
  refine h1.imp ?_
  rintro x y ⟨e1, e2⟩
  exact ⟨by simp only; omega, by simp only; omega⟩

/-- Whatever was sliced out of a placed piece is empty, or placed, with one alignment per byte. -/
theorem slice_fit {s : Str} {o : Bool} {n : NStr} (hn : Placed s o n) {a b : Int} {x : NStr}
    (h : n.slice ⟨a, b, .normalized⟩ = .ok (some x)) : x.normalized = [] ∨ Fit s o x := by
  unfold NStr.slice at h
  obtain ⟨full, hv, h⟩ := Res.bind_eq_ok.mp h
  cases full with
  | none => cases h
  | some full =>
    have hf : full = (⟨a, b, .normalized⟩ : Rng).full n.normalized.length ∧ 0 ≤ full.start ∧
        full.stop ≤ n.normalized.length := by
      unfold NStr.validate at hv
      simp only at hv
      split at hv
      · cases hv
      · next hr =>
        split at hv
        · cases hv; exact ⟨rfl, by omega, by omega⟩
        · obtain ⟨b1, _, hv⟩ := Res.bind_eq_ok.mp hv
          split at hv
          · cases hv
          · obtain ⟨b2, _, hv⟩ := Res.bind_eq_ok.mp hv
            split at hv
            · cases hv
            · cases hv; exact ⟨rfl, by omega, by omega⟩
    obtain ⟨hfe, h0, hle⟩ := hf
    have hon : full.on = .normalized := by rw [hfe]; rfl
    clear hfe hv
    obtain ⟨fa, fb, fon⟩ := full
    simp only at hon h0 hle
    subst hon
    simp only at h
    obtain ⟨conv, hc, h⟩ := Res.bind_eq_ok.mp h
    cases conv with
    | none => cases h
    | some conv =>
      simp only at h
      obtain ⟨pre, _, h⟩ := Res.bind_eq_ok.mp h
      obtain ⟨so, _, h⟩ := Res.bind_eq_ok.mp h
      obtain ⟨sn, hsn, h⟩ := Res.bind_eq_ok.mp h
      obtain ⟨al, hal, h⟩ := Res.bind_eq_ok.mp h
      obtain ⟨alO, _, h⟩ := Res.bind_eq_ok.mp h
      simp only [Res.ok.injEq, Option.some.injEq] at h
      subst h
      have hff : (⟨fa, fb, .normalized⟩ : Rng).full n.normalized.length = ⟨fa, fb, .normalized⟩ := by
        unfold Rng.full
        simp only [Rng.mk.injEq, and_true]
        exact ⟨by rw [if_neg (by omega)], by rw [if_neg (by omega)]⟩
      simp only [NStr.range, hff] at hsn
      have hl := slc_length hsn
      have hl2 := slc_length hal
      by_cases hab : fa = fb
      · left
        simp only
        exact List.length_eq_zero_iff.mp (by omega)
      · right
        obtain ⟨p, hp, e1, _⟩ := convert_normalized hle h0 hab hc
        obtain ⟨_, _, _, rfl⟩ := slc_eq_ok hal
        refine ⟨⟨?_, ?_, ?_⟩, ?_⟩
        · simp only [e1]
          exact (hn.spans p hp).1
        · intro q hq
          simp only [List.mem_map] at hq
          obtain ⟨r, hr, rfl⟩ := hq
          have := hn.spans r (List.mem_of_mem_take (List.mem_of_mem_drop hr))
          simp only
          rw [show n.shift + conv.start + (r.1 - conv.start) = n.shift + r.1 by omega,
            show n.shift + conv.start + (r.2 - conv.start) = n.shift + r.2 by omega]
          exact ⟨this.1, this.2.1, by omega⟩
        · intro ho
          exact nd_sub (hn.ord ho) _ _ _
        · simp only [List.length_map]; omega

/-- A slice of an empty text is empty. -/
theorem slice_nil {n : NStr} (hn : n.normalized = []) {a b : Int} {x : NStr}
    (h : n.slice ⟨a, b, .normalized⟩ = .ok (some x)) : x.normalized = [] := by
  unfold NStr.slice at h
  obtain ⟨full, hv, h⟩ := Res.bind_eq_ok.mp h
  cases full with
  | none => cases h
  | some full =>
    have hon : full.on = .normalized := by
      unfold NStr.validate at hv
      simp only at hv
      split at hv
      · cases hv
      · split at hv
        · cases hv; rfl
        · obtain ⟨b1, _, hv⟩ := Res.bind_eq_ok.mp hv
          split at hv
          · cases hv
          · obtain ⟨b2, _, hv⟩ := Res.bind_eq_ok.mp hv
            split at hv
            · cases hv
            · cases hv; rfl
    obtain ⟨conv, hc, h⟩ := Res.bind_eq_ok.mp h
    cases conv with
    | none => cases h
    | some conv =>
      obtain ⟨pre, _, h⟩ := Res.bind_eq_ok.mp h
      obtain ⟨so, _, h⟩ := Res.bind_eq_ok.mp h
      obtain ⟨sn, hsn, h⟩ := Res.bind_eq_ok.mp h
      obtain ⟨al, hal, h⟩ := Res.bind_eq_ok.mp h
      obtain ⟨alO, _, h⟩ := Res.bind_eq_ok.mp h
      simp only [Res.ok.injEq, Option.some.injEq] at h
      subst h
      simp only [NStr.range, hon] at hsn
      obtain ⟨_, _, _, e⟩ := slc_eq_ok hsn
      rw [hn] at e
      simpa using e

/-- An empty piece, which `Split` drops, or a placed one. -/
def Good (s : Str) (o : Bool) (x : NStr) : Prop := x.normalized = [] ∨ Fit s o x

theorem splitAt_good {s : Str} {o : Bool} {n : NStr} (hn : x0 = n → (n.normalized = [] ∨ Placed s o n))
    (hx : x0 = n) (ps : List (Nat × Nat)) : ∀ {xs : List NStr}, n.splitAt ps = .ok xs → ∀ x ∈ xs, Good s o x := by
  induction ps with
  | nil => intro xs h; cases h; simp
  | cons p ps ih =>
    intro xs h
    rw [NStr.splitAt] at h
    obtain ⟨piece, h1, h⟩ := Res.bind_eq_ok.mp h
    obtain ⟨rest, h2, h⟩ := Res.bind_eq_ok.mp h
    cases piece with
    | none => cases h; exact ih h2
    | some y =>
      cases h
      intro x hx'
      rcases List.mem_cons.mp hx' with rfl | hx'
      · rcases hn hx with h0 | h0
        · exact .inl (slice_nil h0 h1)
        · exact slice_fit h0 h1
      · exact ih h2 x hx'

theorem split_good {s : Str} {o : Bool} {n : NStr} (hn : n.normalized = [] ∨ Placed s o n) {pat : Pat}
    {b : Behavior} {xs : List NStr} (h : n.split pat b = .ok xs) : ∀ x ∈ xs, Good s o x := by
  unfold NStr.split at h
  obtain ⟨ms, _, h⟩ := Res.bind_eq_ok.mp h
  exact splitAt_good (fun _ => hn) rfl _ h

/-! ### Changes of the text -/

/-- Every change of the text leaves each alignment as it was or puts it at the start. -/
theorem transformRange_places {n n' : NStr} {r : Rng} {items : List (Str × Int)} {k : Nat}
    (h : n.transformRange r items k = .ok n') : n'.shift = n.shift ∧
      (∀ p ∈ n'.aligns, p ∈ n.aligns ∨ p = (0, 0)) ∧
      (n.aligns.length = n.normalized.length → n'.aligns.length = n'.normalized.length) := by
  unfold NStr.transformRange at h
  have key : ∀ nR : Rng, (do
      let stop := if nR.stop > n.aligns.length then (n.aligns.length : Int) else nR.stop
      let nBytes ← slc n.normalized nR.start stop
      let chars := runes nBytes
      if k > chars.length then .panic
      else do
        let removed := chars.take k
        let start := nR.start.toNat
        let cl ← clearChars n.aligns n.refs removed start 0 n.cells stop
        let st ← changeLoop n.aligns items
          { refs := n.refs, cells := cl.1, rest := chars, offset := blen removed + start,
            oShift := -(blen removed : Int), als := [], out := [] }
        let tl ← shiftTail n.aligns cl.2 st.oShift st.refs st.cells
        let before ← slc n.aligns 0 start
        let after ← slc n.aligns stop n.aligns.length
        let nBefore ← slc n.normalized 0 start
        let nAfter ← slc n.normalized stop n.normalized.length
        .ok { n with
          normalized := nBefore ++ encStr st.out ++ nAfter
          aligns := before ++ st.als ++ after
          refs := tl.1
          cells := tl.2 }) = Res.ok n' → n'.shift = n.shift ∧
      (∀ p ∈ n'.aligns, p ∈ n.aligns ∨ p = (0, 0)) ∧
      (n.aligns.length = n.normalized.length → n'.aligns.length = n'.normalized.length) := by
    intro nR h
    simp only at h
    obtain ⟨nb, hnb, h⟩ := Res.bind_eq_ok.mp h
    split at h
    · cases h
    · obtain ⟨cl, _, h⟩ := Res.bind_eq_ok.mp h
      obtain ⟨st, h3, h⟩ := Res.bind_eq_ok.mp h
      obtain ⟨tl, _, h⟩ := Res.bind_eq_ok.mp h
      obtain ⟨bf, h5, h⟩ := Res.bind_eq_ok.mp h
      obtain ⟨af, h6, h⟩ := Res.bind_eq_ok.mp h
      obtain ⟨nbf, h7, h⟩ := Res.bind_eq_ok.mp h
      obtain ⟨naf, h8, h⟩ := Res.bind_eq_ok.mp h
      simp only [Res.ok.injEq] at h
      obtain ⟨c1, c2, c3, _⟩ := changeLoop_eq _ h3
      simp only [List.nil_append, List.length_nil, Nat.zero_add] at c1 c2
      have e5 := slc_length h5
      have e6 := slc_length h6
      have e7 := slc_length h7
      have e8 := slc_length h8
      subst h
      refine ⟨rfl, ?_, ?_⟩
      · intro p hp
        simp only at hp
        rcases List.mem_append.mp hp with hp | hp
        · rcases List.mem_append.mp hp with hp | hp
          · obtain ⟨_, _, _, rfl⟩ := slc_eq_ok h5
            exact .inl (List.mem_of_mem_take (List.mem_of_mem_drop hp))
          · rcases c3 p hp with h | h | h
            · cases h
            · exact .inl h
            · exact .inr h
        · obtain ⟨_, _, _, rfl⟩ := slc_eq_ok h6
          exact .inl (List.mem_of_mem_take (List.mem_of_mem_drop hp))
      · intro hl
        simp only [List.length_append]
        rw [c2, length_encStr, c1]
        omega
  split at h
  · exact key _ h
  · obtain ⟨o, _, h⟩ := Res.bind_eq_ok.mp h
    split at h
    · cases h
    · exact key _ h

theorem transformRange_placed {s : Str} {n n' : NStr} {r : Rng} {items : List (Str × Int)} {k : Nat}
    (hn : Placed s false n) (h : n.transformRange r items k = .ok n') : Placed s false n' := by
  obtain ⟨h1, h2, _⟩ := transformRange_places h
  refine ⟨by rw [h1]; exact hn.base, ?_, by simp⟩
  intro p hp
  rw [h1]
  rcases h2 p hp with h | rfl
  · exact hn.spans p h
  · simpa using hn.base

theorem transform_placed {s : Str} {n n' : NStr} {items : List (Str × Int)} {k : Nat}
    (hn : Placed s false n) (h : n.transform items k = .ok n') : Placed s false n' := transformRange_placed hn h

theorem transform_fit {s : Str} {n n' : NStr} {items : List (Str × Int)} {k : Nat}
    (hn : Fit s false n) (h : n.transform items k = .ok n') : Fit s false n' :=
  ⟨transformRange_placed hn.placed h, (transformRange_places h).2.2 hn.even⟩

theorem recase_placed {s : Str} {o : Bool} {n : NStr} (hn : Placed s o n) (f : List UInt8 → List UInt8) :
    Placed s o (n.recase f) := ⟨hn.base, hn.spans, hn.ord⟩

theorem prepend_placed {s : Str} {n n' : NStr} {p : List UInt8} (hn : Placed s false n)
    (h : n.prepend p = .ok n') : Placed s false n' := by
  unfold NStr.prepend at h
  split at h
  · cases h; exact hn
  · exact transformRange_placed hn h

theorem strip_placed {s : Str} {n n' : NStr} {space : Char → Bool} {l r : Bool} (hn : Placed s false n)
    (h : n.strip space l r = .ok n') : Placed s false n' := by
  unfold NStr.strip at h
  simp only at h
  generalize (if l = true then ((runes n.normalized).takeWhile space).length else 0) = lead at h
  generalize (if r = true then ((runes n.normalized).reverse.takeWhile space).length else 0) = trail at h
  split at h
  · exact transformRange_placed hn h
  · cases h; exact hn

theorem replaceLoop_placed {s : Str} (content : Str) (ms : List Span) : ∀ {off : Int} {n n' : NStr},
    Placed s false n → replaceLoop content ms off n = .ok n' → Placed s false n' := by
  induction ms with
  | nil => intro off n n' hn h; cases h; exact hn
  | cons m ms ih =>
    intro off n n' hn h
    rw [replaceLoop] at h
    split at h
    · obtain ⟨_, _, h⟩ := Res.bind_eq_ok.mp h
      obtain ⟨n1, h1, h⟩ := Res.bind_eq_ok.mp h
      exact ih (transformRange_placed hn h1) h
    · exact ih hn h

theorem replace_placed {s : Str} {n n' : NStr} {p : Pat} {c : List UInt8} (hn : Placed s false n)
    (h : n.replace p c = .ok n') : Placed s false n' := by
  unfold NStr.replace at h
  obtain ⟨ms, _, h⟩ := Res.bind_eq_ok.mp h
  exact replaceLoop_placed _ _ hn h

theorem bert_placed {s : Str} {b : Bert} {T : Tables} {n n' : NStr} (hn : Placed s false n)
    (h : b.normalize T n = .ok n') : Placed s false n' := by
  unfold Bert.normalize at h
  obtain ⟨n1, h1, h⟩ := Res.bind_eq_ok.mp h
  obtain ⟨n2, h2, h⟩ := Res.bind_eq_ok.mp h
  have e1 : Placed s false n1 := by
    split at h1
    · exact transform_placed hn h1
    · cases h1; exact hn
  have e2 : Placed s false n2 := by
    split at h2
    · exact transform_placed e1 h2
    · cases h2; exact e1
  have e3 : Placed s false (if b.lowercase then n2.recase T.lower else n2) := by
    split
    · exact recase_placed e2 _
    · exact e2
  simp only at h
  generalize (if b.lowercase then n2.recase T.lower else n2) = n3 at h e3
  split at h
  · exact transform_placed e3 h
  · cases h; exact e3

mutual
theorem normalize_none (T : Tables) (z : Normalizer) {o : Option NStr} (h : z.normalize T none = .ok o) :
    o = none := by
  cases z with
  | sequence l => rw [Normalizer.normalize] at h; exact normalizeAll_none T l h
  | bert b => rw [Normalizer.normalize] at h; split at h <;> cases h; rfl
  | strip l r => rw [Normalizer.normalize] at h; split at h <;> cases h; rfl
  | default l r => rw [Normalizer.normalize] at h; split at h <;> cases h; rfl
  | _ => rw [Normalizer.normalize] at h <;> first | (cases h; done) | (cases h; rfl) | (intros; intro hc; cases hc)

theorem normalizeAll_none (T : Tables) (l : List Normalizer) {o : Option NStr}
    (h : Normalizer.normalizeAll T l none = .ok o) : o = none := by
  cases l with
  | nil => rw [Normalizer.normalizeAll] at h; cases h; rfl
  | cons z l =>
    rw [Normalizer.normalizeAll] at h
    obtain ⟨o1, h1, h⟩ := Res.bind_eq_ok.mp h
    have := normalize_none T z h1
    subst this
    exact normalizeAll_none T l h
end

mutual
theorem normalize_placed (T : Tables) {s : Str} (z : Normalizer) {n : NStr} (hn : Placed s false n) {o : Option NStr}
    (h : z.normalize T (some n) = .ok o) : ∀ y, o = some y → Placed s false y := by
  intro y hy
  subst hy
  cases z with
  | bert b =>
    rw [Normalizer.normalize] at h
    obtain ⟨x, h1, e⟩ := bind_some h
    cases e
    exact bert_placed hn h1
  | nfc =>
    rw [Normalizer.normalize] at h
    obtain ⟨x, h1, e⟩ := bind_some h
    cases e
    unfold NStr.nfc at h1
    split at h1
    · cases h1; exact hn
    · exact transformRange_placed hn h1
  | nfd =>
    rw [Normalizer.normalize] at h
    obtain ⟨x, h1, e⟩ := bind_some h
    cases e
    exact transform_placed hn h1
  | nfkc =>
    rw [Normalizer.normalize] at h
    obtain ⟨x, h1, e⟩ := bind_some h
    cases e
    unfold NStr.nfkc at h1
    split at h1
    · cases h1; exact hn
    · exact transformRange_placed hn h1
  | nfkd =>
    rw [Normalizer.normalize] at h
    unfold NStr.nfkd at h
    split at h
    · cases h
    · obtain ⟨x, h1, e⟩ := bind_some h
      cases e
      exact transformRange_placed hn h1
  | strip l r =>
    rw [Normalizer.normalize] at h
    obtain ⟨x, h1, e⟩ := bind_some h
    cases e
    unfold stripNormalize at h1
    split at h1
    · exact strip_placed hn h1
    · split at h1
      · exact strip_placed hn h1
      · split at h1
        · exact strip_placed hn h1
        · cases h1; exact hn
  | stripAccents =>
    rw [Normalizer.normalize] at h
    obtain ⟨x, h1, e⟩ := bind_some h
    cases e
    exact transform_placed hn h1
  | prepend p =>
    rw [Normalizer.normalize] at h
    split at h
    · cases h
    · obtain ⟨x, h1, e⟩ := bind_some h
      cases e
      exact prepend_placed hn h1
  | replace p c =>
    rw [Normalizer.normalize] at h
    obtain ⟨x, h1, e⟩ := bind_some h
    cases e
    exact replace_placed hn h1
  | default l st =>
    rw [Normalizer.normalize] at h
    have e : Placed s false (if l = true then n.recase T.lower else n) := by
      split
      · exact recase_placed hn _
      · exact hn
    generalize (if l = true then n.recase T.lower else n) = n1 at h e
    split at h
    · obtain ⟨x, h1, e'⟩ := bind_some h
      cases e'
      exact strip_placed e h1
    · cases h; exact e
  | wrapped z =>
    rw [Normalizer.normalize] at h
    cases h
    exact hn
  | sequence l =>
    rw [Normalizer.normalize] at h
    exact normalizeAll_placed T l hn h y rfl

theorem normalizeAll_placed (T : Tables) {s : Str} (l : List Normalizer) {n : NStr} (hn : Placed s false n)
    {o : Option NStr} (h : Normalizer.normalizeAll T l (some n) = .ok o) : ∀ y, o = some y → Placed s false y := by
  cases l with
  | nil =>
    rw [Normalizer.normalizeAll] at h
    cases h
    rintro y ⟨⟩
    exact hn
  | cons z l =>
    rw [Normalizer.normalizeAll] at h
    obtain ⟨o1, h1, h⟩ := Res.bind_eq_ok.mp h
    cases o1 with
    | some n1 => exact normalizeAll_placed T l (normalize_placed T z hn h1 n1 rfl) h
    | none =>
      have := normalizeAll_none T l h
      subst this
      simp
end

/-! ### Splits -/

/-- The token's offsets are not empty and begin inside a text of `len` bytes, or are (0, 0). -/
def Ranged (len : Nat) (t : Token) : Prop :=
  (0 ≤ t.offsets.1 ∧ t.offsets.1 < t.offsets.2 ∧ t.offsets.1 < len) ∨ t.offsets = (0, 0)

/-- The split is placed and its tokens are parts of its text. -/
structure FitSplit (s : Str) (o : Bool) (sp : Split) : Prop where
  fit : Fit s o sp.normalized
  tokens : ∀ ts, sp.tokens = some ts → ∀ t ∈ ts, Ranged sp.normalized.normalized.length t

/-- What a closure gives to `Split`: pieces that are empty or placed, with tokens that are parts of
their text. -/
def GoodPiece (s : Str) (o : Bool) (p : SplitIdx) : Prop :=
  ∀ y, p.normalized = some y → y.normalized ≠ [] → FitSplit s o ⟨y, p.tokens⟩

theorem keepPieces_fit {s : Str} {o : Bool} {ps : List SplitIdx} (hp : ∀ p ∈ ps, GoodPiece s o p)
    {kept : List Split} (h : keepPieces ps = .ok kept) : ∀ sp ∈ kept, FitSplit s o sp := by
  induction ps generalizing kept with
  | nil => cases h; simp
  | cons p ps ih =>
    rw [keepPieces] at h
    split at h
    · cases h
    · next y hy =>
      obtain ⟨rest, h1, h⟩ := Res.bind_eq_ok.mp h
      cases h
      have hr := ih (fun q hq => hp q (by simp [hq])) h1
      split
      · exact hr
      · next hne =>
        intro sp hsp
        rcases List.mem_cons.mp hsp with rfl | hsp
        · exact hp p (by simp) y hy hne
        · exact hr sp hsp

theorem splitLoop_fit {s : Str} {o : Bool} {fn : Nat → NStr → Res (List SplitIdx)}
    (hfn : ∀ i x ps, Fit s o x → fn i x = .ok ps → ∀ p ∈ ps, GoodPiece s o p) {ss : List Split} :
    ∀ {i : Nat} {ss' : List Split}, (∀ sp ∈ ss, FitSplit s o sp) → splitLoop fn ss i = .ok ss' →
      ∀ sp ∈ ss', FitSplit s o sp := by
  induction ss with
  | nil => intro i ss' _ h; cases h; simp
  | cons x ss ih =>
    intro i ss' hs h
    have hrest : ∀ sp ∈ ss, FitSplit s o sp := fun sp hsp => hs sp (by simp [hsp])
    rw [splitLoop] at h
    split at h
    · obtain ⟨rest, h1, h⟩ := Res.bind_eq_ok.mp h
      cases h
      intro sp hsp
      rcases List.mem_cons.mp hsp with rfl | hsp
      · exact hs _ (by simp)
      · exact ih hrest h1 sp hsp
    · obtain ⟨ps, h1, h⟩ := Res.bind_eq_ok.mp h
      obtain ⟨kept, h2, h⟩ := Res.bind_eq_ok.mp h
      obtain ⟨rest, h3, h⟩ := Res.bind_eq_ok.mp h
      cases h
      intro sp hsp
      rcases List.mem_append.mp hsp with hsp | hsp
      · exact keepPieces_fit (hfn i _ ps (hs x (by simp)).fit h1) h2 sp hsp
      · exact ih hrest h3 sp hsp

theorem split_fit {s : Str} {o : Bool} {fn : Nat → NStr → Res (List SplitIdx)}
    (hfn : ∀ i x ps, Fit s o x → fn i x = .ok ps → ∀ p ∈ ps, GoodPiece s o p) {pt pt' : PTS}
    (hs : ∀ sp ∈ pt.splits, FitSplit s o sp) (h : pt.split fn = .ok pt') :
    (∀ sp ∈ pt'.splits, FitSplit s o sp) ∧ pt'.original = pt.original := by
  unfold PTS.split at h
  obtain ⟨ss, h1, h⟩ := Res.bind_eq_ok.mp h
  cases h
  exact ⟨splitLoop_fit hfn hs h1, rfl⟩

theorem good_untokened {s : Str} {o : Bool} {xs : List NStr} (h : ∀ x ∈ xs, Good s o x) :
    ∀ p ∈ xs.map (fun x => (⟨some x, none⟩ : SplitIdx)), GoodPiece s o p := by
  intro p hp
  simp only [List.mem_map] at hp
  obtain ⟨x, hx, rfl⟩ := hp
  intro y hy hne
  cases hy
  refine ⟨?_, by simp⟩
  rcases h x hx with h0 | h0
  · exact absurd h0 hne
  · exact h0

theorem cutWith_good {s : Str} {o : Bool} {pat : Pat} {b : Behavior} {n : NStr} (hn : Placed s o n)
    {ps : List SplitIdx} (h : cutWith pat b n = .ok ps) : ∀ p ∈ ps, GoodPiece s o p := by
  unfold cutWith at h
  obtain ⟨xs, h1, h⟩ := Res.bind_eq_ok.mp h
  cases h
  exact good_untokened (split_good (.inr hn) h1)

theorem sliceMatches_good {s : Str} {o : Bool} {n : NStr} (hn : Placed s o n) (qs : List SplitPiece) :
    ∀ {ps : List SplitIdx}, sliceMatches n qs = .ok ps → ∀ p ∈ ps, GoodPiece s o p := by
  induction qs with
  | nil => intro ps h; cases h; simp
  | cons q qs ih =>
    intro ps h
    rw [sliceMatches] at h
    obtain ⟨slice, h1, h⟩ := Res.bind_eq_ok.mp h
    split at h
    · obtain ⟨rest, h2, h⟩ := Res.bind_eq_ok.mp h
      cases h
      intro p hp
      rcases List.mem_cons.mp hp with rfl | hp
      · intro y hy hne
        simp only at hy
        subst hy
        refine ⟨?_, by simp⟩
        rcases slice_fit hn h1 with h0 | h0
        · exact absurd h0 hne
        · exact h0
      · exact ih h2 p hp
    · split at h
      · cases h
      · next x =>
        obtain ⟨rest, h2, h⟩ := Res.bind_eq_ok.mp h
        cases h
        intro p hp
        rcases List.mem_cons.mp hp with rfl | hp
        · intro y hy hne
          cases hy
          refine ⟨?_, ?_⟩
          · rcases slice_fit hn h1 with h0 | h0
            · exact absurd h0 hne
            · exact h0
          · intro ts hts t ht
            simp only [Option.some.injEq] at hts
            subst hts
            simp only [List.mem_singleton] at ht
            subst ht
            have := List.length_pos_iff.mpr hne
            exact .inl ⟨by simp only; omega, by simp only; omega, by simp only; omega⟩
        · exact ih h2 p hp

theorem splitWithIndices_good {s : Str} {o : Bool} {re : MatchingSet} {n : NStr} (hn : Placed s o n)
    {ps : List SplitIdx} (h : splitWithIndices re n = .ok ps) : ∀ p ∈ ps, GoodPiece s o p := by
  unfold splitWithIndices at h
  obtain ⟨qs, _, h⟩ := Res.bind_eq_ok.mp h
  exact sliceMatches_good hn qs h

theorem bertInner_good {s : Str} {o : Bool} {isPunc : Char → Bool} {ws : List NStr} :
    ∀ {xs : List NStr}, (∀ x ∈ ws, Good s o x) → bertInner isPunc ws = .ok xs → ∀ x ∈ xs, Good s o x := by
  induction ws with
  | nil => intro xs _ h; cases h; simp
  | cons w ws ih =>
    intro xs hw h
    rw [bertInner] at h
    obtain ⟨ys, h1, h⟩ := Res.bind_eq_ok.mp h
    obtain ⟨rest, h2, h⟩ := Res.bind_eq_ok.mp h
    cases h
    intro x hx
    rcases List.mem_append.mp hx with hx | hx
    · refine split_good ?_ h1 x hx
      rcases hw w (by simp) with h0 | h0
      · exact .inl h0
      · exact .inr h0.placed
    · exact ih (fun y hy => hw y (by simp [hy])) h2 x hx

theorem sliceWindows_good {s : Str} {o : Bool} {n : NStr} (hn : Placed s o n) (qs : List Nat) :
    ∀ {xs : List NStr}, sliceWindows n qs = .ok xs → ∀ x ∈ xs, Good s o x := by
  induction qs with
  | nil => intro xs h; simp only [sliceWindows] at h; cases h; simp
  | cons a qs ih =>
    intro xs h
    cases qs with
    | nil => simp only [sliceWindows] at h; cases h; simp
    | cons b qs =>
      rw [sliceWindows] at h
      obtain ⟨o1, h1, h⟩ := Res.bind_eq_ok.mp h
      split at h
      · cases h
      · obtain ⟨ys, h2, h⟩ := Res.bind_eq_ok.mp h
        cases h
        intro x hx
        rcases List.mem_cons.mp hx with rfl | hx
        · exact slice_fit hn h1
        · exact ih h2 x hx

theorem normalizeLoop_fit {s : Str} {fn : NStr → Res NStr}
    (hfn : ∀ x y, Fit s false x → fn x = .ok y → Fit s false y) {ss : List Split} :
    ∀ {ss' : List Split}, (∀ sp ∈ ss, FitSplit s false sp) → normalizeLoop fn ss = .ok ss' →
      ∀ sp ∈ ss', FitSplit s false sp := by
  induction ss with
  | nil => intro ss' _ h; cases h; simp
  | cons x ss ih =>
    intro ss' hs h
    have hrest : ∀ sp ∈ ss, FitSplit s false sp := fun sp hsp => hs sp (by simp [hsp])
    rw [normalizeLoop] at h
    split at h
    · exact ih hrest h
    · obtain ⟨y, h1, h⟩ := Res.bind_eq_ok.mp h
      obtain ⟨rest, h2, h⟩ := Res.bind_eq_ok.mp h
      cases h
      intro sp hsp
      rcases List.mem_cons.mp hsp with rfl | hsp
      · exact ⟨hfn _ _ (hs x (by simp)).fit h1, by simp⟩
      · exact ih hrest h2 sp hsp

theorem tokenizeLoop_fit {s : Str} {o : Bool} {fn : NStr → Res (Option (List Token))}
    (hfn : ∀ x ts, fn x = .ok (some ts) → ∀ t ∈ ts, Ranged x.normalized.length t) {ss : List Split} :
    ∀ {ss' : List Split}, (∀ sp ∈ ss, FitSplit s o sp) → tokenizeLoop fn ss = .ok ss' →
      ∀ sp ∈ ss', FitSplit s o sp := by
  induction ss with
  | nil => intro ss' _ h; cases h; simp
  | cons x ss ih =>
    intro ss' hs h
    have hrest : ∀ sp ∈ ss, FitSplit s o sp := fun sp hsp => hs sp (by simp [hsp])
    rw [tokenizeLoop] at h
    split at h
    · obtain ⟨rest, h1, h⟩ := Res.bind_eq_ok.mp h
      cases h
      intro sp hsp
      rcases List.mem_cons.mp hsp with rfl | hsp
      · exact hs _ (by simp)
      · exact ih hrest h1 sp hsp
    · obtain ⟨ts, h1, h⟩ := Res.bind_eq_ok.mp h
      obtain ⟨rest, h2, h⟩ := Res.bind_eq_ok.mp h
      cases h
      intro sp hsp
      rcases List.mem_cons.mp hsp with rfl | hsp
      · refine ⟨(hs x (by simp)).fit, ?_⟩
        rintro ts' rfl
        exact hfn _ _ h1
      · exact ih hrest h2 sp hsp

/-! ### Offsets -/

/-- The two numbers are positions of characters of the text, in order if `o`. -/
def SpanIn (s : Str) (o : Bool) (p : Int × Int) : Prop :=
  OnChar s p.1 ∧ OnChar s p.2 ∧ (o = true → p.1 ≤ p.2)

theorem origOffsets_span {s : Str} {o : Bool} {n : NStr} (hn : Fit s o n)
    {t : Token} (ht : Ranged n.normalized.length t) {r : Int × Int} (h : origOffsets n t.offsets = .ok r) :
    SpanIn s o r := by
  rcases ht with ht | ht
  rotate_left
  · rw [ht] at h
    unfold origOffsets NStr.convert Rng.full at h
    have e1 : ¬ ((0 : Int) > n.normalized.length) := by omega
    simp only [if_neg e1, Res.bind_ok, show ¬ ((0 : Int) = -1) by omega, if_false, if_true, Res.ok.injEq] at h
    subst h
    simp only [Int.add_zero]
    exact ⟨hn.placed.base, hn.placed.base, fun _ => Int.le_refl _⟩
  obtain ⟨h0, h1, h2⟩ := ht
  generalize t.offsets = q at h h0 h1 h2
  obtain ⟨a, b⟩ := q
  simp only at h0 h1 h2
  obtain ⟨a, rfl⟩ := Int.eq_ofNat_of_zero_le h0
  obtain ⟨b, rfl⟩ := Int.eq_ofNat_of_zero_le (show 0 ≤ b by omega)
  have hlen := hn.even
  generalize hc : (if (b : Int) > n.normalized.length then n.normalized.length else b) = c
  have hcl : a < c ∧ c ≤ n.normalized.length := by rw [← hc]; split <;> omega
  have hfull : (⟨(a : Int), (b : Int), .normalized⟩ : Rng).full n.normalized.length = ⟨(a : Int), (c : Int), .normalized⟩ := by
    unfold Rng.full
    simp only [Rng.mk.injEq, and_true]
    refine ⟨by rw [if_neg (by omega)], ?_⟩
    rw [← hc]
    split <;> rfl
  have hconv : n.convert ⟨(a : Int), (b : Int), .normalized⟩ =
      .ok (some ⟨(n.aligns[a]'(by omega)).1, (n.aligns[c - 1]'(by omega)).2, .original⟩) := by
    unfold NStr.convert
    simp only [hfull]
    rw [if_neg (by omega), if_neg (by omega), slc_ok (by omega) (by omega) (by omega)]
    simp only [Res.bind_ok, Int.toNat_natCast]
    rw [expand_seg (by omega) (by omega)]
  unfold origOffsets at h
  simp only [hconv, Res.bind_ok, Res.ok.injEq] at h
  subst h
  refine ⟨(hn.placed.spans _ (List.getElem_mem _)).1, (hn.placed.spans _ (List.getElem_mem _)).2.1, ?_⟩
  intro ho
  have h3 := nd_get (hn.placed.ord ho) (i := a) (j := c - 1) (by omega) (by omega)
  have h4 := (hn.placed.spans _ (List.getElem_mem (l := n.aligns) (n := a) (by omega))).2.2
  simp only
  omega

end Tok.PreTok
