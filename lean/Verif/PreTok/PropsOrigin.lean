import Verif.PreTok.Segment

/-!
# C112: offsets behind a normalizer
-/

namespace Tok.PreTok

open Tok.Norm

/-! ### Specification -/

/-- Byte `i` of the normalized text is in the normalized part of block `b`, which comes after the
blocks `as`. -/
def InBlock (bs : List (Str × Str)) (i : Nat) (as : List (Str × Str)) (b : Str × Str) : Prop :=
  ∃ zs, bs = as ++ b :: zs ∧ blen (rights as) ≤ i ∧ i < blen (rights as) + blen b.2

/-- The normalizer changes a part `m` of the text block by block as `G m` says, or fails. -/
structure Rewrites (t : Tk) (s : Str) (G : Str → List (Str × Str)) : Prop where
  lefts : ∀ m, lefts (G m) = m
  norm : ∀ u m x y, FPart s u m x → m ≠ [] → t.normalizeOrDie x = .ok y →
    y.normalized = encStr (rights (G m)) ∧ y.aligns = alignsOf (G m) 0 ∧ y.shift = x.shift

/-- `tok` stands for the piece `w` of the normalized text because of an added token with one of the ids. -/
def FromAdded (ids : List Int) (w : List UInt8) (tok : Token) : Prop :=
  ∃ id ∈ ids, tok = ⟨id, decStr w, (0, (w.length : Nat))⟩

/-- The model gives `tok` for the piece `w` of the normalized text. -/
def FromModel (t : Tk) (w : List UInt8) (tok : Token) : Prop :=
  ∃ f ts, t.model = some f ∧ f w = .ok (some ts) ∧ tok ∈ ts

/-! ### Pieces -/

/-- The piece is the part of the blocks' text that begins at byte `k`, and so are its alignments; the
blocks' originals begin at byte `d` of the whole text. -/
structure SegOf (d : Nat) (bs : List (Str × Str)) (k : Nat) (x : NStr) : Prop where
  inside : k + x.normalized.length ≤ blen (rights bs)
  text : x.normalized = ((encStr (rights bs)).drop k).take x.normalized.length
  aligns : x.aligns.map (fun p => (x.shift + p.1, x.shift + p.2)) =
    ((alignsOf bs d).drop k).take x.normalized.length

theorem take_drop_part (l : List α) (k n i j : Nat) (hj : j ≤ n) :
    ((((l.drop k).take n).take j).drop i) = (l.drop (k + i)).take (j - i) := by
  rw [List.take_take, Nat.min_eq_left hj, List.drop_take, List.drop_drop]

theorem segOf_slice {d : Nat} {bs : List (Str × Str)} {k : Nat} {n : NStr} (hn : SegOf d bs k n) {a b : Int}
    {x : NStr} (h : n.slice ⟨a, b, .normalized⟩ = .ok (some x)) :
    x.normalized = [] ∨ ∃ k', SegOf d bs k' x := by
  rcases slice_bytes h with h | ⟨i, j, e, h1, h2, h3, h4, h5, h6⟩
  · exact .inl h
  · right
    have hl : x.normalized.length = j - i := by rw [h4, List.length_drop, List.length_take]; omega
    have := hn.inside
    refine ⟨k + i, by omega, ?_, ?_⟩
    · rw [hl, h4, hn.text, take_drop_part _ _ _ _ _ h2]
    · have e : x.aligns.map (fun p => (x.shift + p.1, x.shift + p.2)) =
          ((n.aligns.map (fun p => (n.shift + p.1, n.shift + p.2))).take j).drop i := by
        rw [h5, List.map_map, h6, ← List.map_take, ← List.map_drop]
        apply List.map_congr_left
        intro p _
        simp only [Function.comp, Prod.mk.injEq]
        omega
      rw [e, hn.aligns, hl, take_drop_part _ _ _ _ _ h2]

/-- The piece comes from a normalized part of the text. -/
def NormPiece (s : Str) (G : Str → List (Str × Str)) (x : NStr) : Prop :=
  ∃ u m v k, s = u ++ m ++ v ∧ SegOf (blen u) (G m) k x

theorem normPiece_closed (s : Str) (G : Str → List (Str × Str)) : Closed (NormPiece s G) := by
  rintro n a b x ⟨u, m, v, k, h1, h2⟩ h
  rcases segOf_slice h2 h with h | ⟨k', h⟩
  · exact .inl h
  · exact .inr ⟨u, m, v, k', h1, h⟩

/-- Where a token comes from. -/
def TokenOf (t : Tk) (s : Str) (G : Str → List (Str × Str)) (x : NStr) (tok : Token) : Prop :=
  ∃ u m v bs k, s = u ++ m ++ v ∧ SegOf (blen u) bs k x ∧
    ((bs = singles m ∧ FromAdded t.splitRe.ids x.normalized tok) ∨
     (bs = G m ∧ (FromAdded t.splitNormalizedRe.ids x.normalized tok ∨ FromModel t x.normalized tok)))

theorem segOf_whole {d : Nat} {bs : List (Str × Str)} {x : NStr} (h1 : x.normalized = encStr (rights bs))
    (h2 : x.aligns = alignsOf bs 0) (h3 : x.shift = (d : Nat)) : SegOf d bs 0 x := by
  refine ⟨?_, ?_, ?_⟩
  · rw [h1, length_encStr]; omega
  · rw [h1]; simp
  · have e := alignsOf_shift bs d 0
    rw [Nat.zero_add] at e
    have hl := length_alignsOf bs d
    rw [h2, h3, h1, length_encStr, List.drop_zero, ← hl, List.take_length, e]
    apply List.map_congr_left
    intro p _
    simp only [Prod.mk.injEq]
    omega

theorem cut_mem {s : Str} {gaps : Bool} {ok : Str → List Token → Prop} {u w : Str} {ss : List Split}
    (h : Cut s gaps ok u w ss) : ∀ sp ∈ ss, ∃ u' m, FPart s u' m sp.normalized ∧ m ≠ [] ∧
      ∀ ts, sp.tokens = some ts → ok m ts := by
  induction h with
  | done u => simp
  | skip u g _ ss hg _ ih => exact ih
  | part u m _ x t ss hp hm ht _ ih =>
    intro sp hsp
    rcases List.mem_cons.mp hsp with rfl | hsp
    · exact ⟨u, m, hp, hm, ht⟩
    · exact ih sp hsp

theorem extract_origin {t : Tk} {s : Str} {G : Str → List (Str × Str)} (hg : Rewrites t s G)
    (hre : ProperSet t.splitRe) {pt : PTS} (h : t.extractAndNormalize (encStr s) = .ok pt) :
    ∀ sp ∈ pt.splits, Has (NormPiece s G) (TokenOf t s G) sp := by
  by_cases hs : s = []
  · subst hs
    have : encStr [] = [] := rfl
    rw [this, extract_nil] at h
    cases h
    simp
  obtain ⟨ps, qs, kept, h1, h2, h3, h4, h5⟩ := splitWithIndices_part
    (ok := fun m ts => ∃ id ∈ t.splitRe.ids, ts = [addedToken id m]) (fpart_whole s) hs hre
    (fun id hid _ w _ => ⟨id, hid, rfl⟩)
  have hp1 : (newPTS (encStr s)).split (fun _ n => splitWithIndices t.splitRe n) = .ok ⟨encStr s, kept⟩ := by
    simp only [PTS.split, newPTS, splitLoop, h2, h3, Res.bind_ok, List.append_nil]
  unfold Tk.extractAndNormalize at h
  rw [hp1, Res.bind_ok] at h
  have hk : ∀ sp ∈ kept, Has (fun x => ∃ u m, FPart s u m x ∧ m ≠ []) (TokenOf t s G) sp := by
    intro sp hsp
    obtain ⟨u, m, k1, k2, k3⟩ := cut_mem h4 sp hsp
    refine ⟨fun _ => ⟨u, m, k1, k2⟩, ?_⟩
    intro ts hts tok htok
    obtain ⟨id, hid, rfl⟩ := k3 ts hts
    simp only [List.mem_singleton] at htok
    subst htok
    obtain ⟨⟨v, hv⟩, hf, hsh⟩ := k1
    have ht := hf.text
    refine ⟨u, m, v, singles m, 0, hv, segOf_whole (by rw [rights_singles]; exact ht) (hf.toBlocks.aligns) hsh,
      .inl ⟨rfl, id, hid, ?_⟩⟩
    rw [ht, decStr_enc, length_encStr]
    rfl
  refine split_has (fun i x ps hx hc => ?_) hk h
  obtain ⟨u, m, hf, hm⟩ := hx
  obtain ⟨y, hy, hc⟩ := Res.bind_eq_ok.mp hc
  obtain ⟨e1, e2, e3⟩ := hg.norm u m x y hf hm hy
  obtain ⟨⟨v, hv⟩, _, hsh⟩ := hf
  refine splitWithIndices_has (normPiece_closed s G)
    ⟨u, m, v, 0, hv, segOf_whole e1 e2 (by rw [e3, hsh])⟩ ?_ hc
  rintro z tok ⟨u, m, v, k, k1, k2⟩ hadd
  exact ⟨u, m, v, G m, k, k1, k2, .inr ⟨rfl, .inl hadd⟩⟩

theorem encodeOne_origin {t : Tk} {s : Str} {G : Str → List (Str × Str)} (hg : Rewrites t s G)
    (hre : ProperSet t.splitRe) (hp : ∀ p, t.preTokenizer = some p → LibPre true p) {typeId word : Int}
    {e : Encoding} (h : t.encodeOne (encStr s) typeId word .byte = .ok e) :
    ∃ rows, e = ofRows rows typeId ∧ ∀ r ∈ rows, ∃ x, TokenOf t s G x r.token ∧
      origOffsets x r.token.offsets = .ok r.offsets := by
  unfold Tk.encodeOne at h
  obtain ⟨p1, h1, h⟩ := Res.bind_eq_ok.mp h
  obtain ⟨p2, h2, h⟩ := Res.bind_eq_ok.mp h
  have e1 := extract_origin hg hre h1
  have e2 : ∀ sp ∈ p2.splits, Has (NormPiece s G) (TokenOf t s G) sp := by
    unfold Tk.doPreTokenize at h2
    cases hq : t.preTokenizer with
    | none => rw [hq] at h2; cases h2; exact e1
    | some p => rw [hq] at h2; exact libPre_has (normPiece_closed s G) (hp p hq) e1 h2
  unfold Tk.doTokenize at h
  obtain ⟨p3, h3, h⟩ := Res.bind_eq_ok.mp h
  unfold PTS.tokenize at h3
  obtain ⟨ss, h4, h3⟩ := Res.bind_eq_ok.mp h3
  cases h3
  have e3 : ∀ sp ∈ ss, Has (NormPiece s G) (TokenOf t s G) sp := by
    refine tokenizeLoop_has (fun x ts hx hf tok htok => ?_) e2 h4
    cases hq : t.model with
    | none => rw [hq] at hf; cases hf
    | some f =>
      rw [hq] at hf
      obtain ⟨u, m, v, k, k1, k2⟩ := hx
      exact ⟨u, m, v, G m, k, k1, k2, .inr ⟨rfl, .inr ⟨f, ts, hq, hf, htok⟩⟩⟩
  unfold PTS.intoEncoding at h
  simp only at h
  split at h
  · cases h
    exact ⟨[], rfl, by simp⟩
  · split at h
    · cases h
    · obtain ⟨rows, h5, h⟩ := Res.bind_eq_ok.mp h
      cases h
      refine ⟨rows, rfl, ?_⟩
      intro r hr
      obtain ⟨sp, k1, ts, k2, k3, k4⟩ := rowsOfSplits_from word ss h5 r hr
      exact ⟨sp.normalized, (e3 sp k1).tokens ts k2 _ k3, k4⟩

theorem alignsOf_at (bs : List (Str × Str)) : ∀ (d i : Nat), i < blen (rights bs) →
    ∃ as b, InBlock bs i as b ∧
      (alignsOf bs d)[i]? = some (((d + blen (lefts as) : Nat) : Int), ((d + blen (lefts as) + blen b.1 : Nat) : Int)) := by
  induction bs with
  | nil => intro d i h; simp [rights, blen] at h
  | cons b bs ih =>
    intro d i h
    rw [rights_cons, blen_append] at h
    by_cases hi : i < blen b.2
    · refine ⟨[], b, ⟨bs, rfl, by simp [rights, blen], by simpa [rights, blen] using hi⟩, ?_⟩
      rw [alignsOf, List.getElem?_append_left (by simpa using hi), List.getElem?_replicate, if_pos hi]
      simp [lefts, blen]
    · obtain ⟨as, c, ⟨zs, e1, e2, e3⟩, e4⟩ := ih (d + blen b.1) (i - blen b.2) (by omega)
      refine ⟨b :: as, c, ⟨zs, by rw [e1]; rfl, ?_, ?_⟩, ?_⟩
      · rw [rights_cons, blen_append]; omega
      · rw [rights_cons, blen_append]; omega
      · rw [alignsOf, List.getElem?_append_right (by simpa using Nat.le_of_not_lt hi), List.length_replicate, e4,
          lefts_cons, blen_append, Nat.add_assoc]

theorem origOffsets_seg {d : Nat} {bs : List (Str × Str)} {k : Nat} {x : NStr} (hx : SegOf d bs k x)
    {o r : Int × Int} (h : origOffsets x o = .ok r) (h0 : 0 ≤ o.1) (h1 : o.1 < o.2)
    (h2 : o.2 ≤ x.normalized.length) :
    ∃ as b cs e, InBlock bs (k + o.1.toNat) as b ∧ InBlock bs (k + o.2.toNat - 1) cs e ∧
      r = (((d + blen (lefts as) : Nat) : Int), ((d + blen (lefts cs) + blen e.1 : Nat) : Int)) := by
  obtain ⟨a, b⟩ := o
  simp only at h0 h1 h2
  obtain ⟨a, rfl⟩ := Int.eq_ofNat_of_zero_le h0
  obtain ⟨b, rfl⟩ := Int.eq_ofNat_of_zero_le (show 0 ≤ b by omega)
  simp only [Int.toNat_natCast]
  have hin := hx.inside
  have hal : x.aligns.length = x.normalized.length := by
    have := congrArg List.length hx.aligns
    rw [List.length_map, List.length_take, List.length_drop, length_alignsOf] at this
    omega
  have hget : ∀ i (hi : i < x.aligns.length), (alignsOf bs d)[k + i]? =
      some (x.shift + (x.aligns[i]).1, x.shift + (x.aligns[i]).2) := by
    intro i hi
    have := congrArg (fun l => l[i]?) hx.aligns
    simp only [List.getElem?_map, List.getElem?_take, List.getElem?_drop] at this
    rw [if_pos (by omega), List.getElem?_eq_getElem hi] at this
    rw [← this]
    rfl
  have hfull : (⟨(a : Int), (b : Int), .normalized⟩ : Rng).full x.normalized.length = ⟨(a : Int), (b : Int), .normalized⟩ := by
    unfold Rng.full
    simp only [Rng.mk.injEq, and_true]
    exact ⟨by rw [if_neg (by omega)], by rw [if_neg (by omega)]⟩
  have hconv : x.convert ⟨(a : Int), (b : Int), .normalized⟩ =
      .ok (some ⟨(x.aligns[a]'(by omega)).1, (x.aligns[b - 1]'(by omega)).2, .original⟩) := by
    unfold NStr.convert
    simp only [hfull]
    rw [if_neg (by omega), if_neg (by omega), slc_ok (by omega) (by omega) (by omega)]
    simp only [Res.bind_ok, Int.toNat_natCast]
    rw [expand_seg (by omega) (by omega)]
  unfold origOffsets at h
  simp only [hconv, Res.bind_ok, Res.ok.injEq] at h
  obtain ⟨as, b1, i1, e1⟩ := alignsOf_at bs d (k + a) (by omega)
  obtain ⟨cs, b2, i2, e2⟩ := alignsOf_at bs d (k + (b - 1)) (by omega)
  rw [hget a (by omega)] at e1
  rw [hget (b - 1) (by omega)] at e2
  simp only [Option.some.injEq, Prod.mk.injEq] at e1 e2
  refine ⟨as, b1, cs, b2, i1, by rwa [show k + b - 1 = k + (b - 1) by omega], ?_⟩
  rw [← h, e1.1, e2.2]

/-! ### Properties -/

/-- **C112.** If the normalizer rewrites the text block by block and the pre-tokenizer only cuts: every
entry of an encoding comes from a piece `w` of the normalized text of a part `m` of the text. The
model, or an added token, gives its id, its text and a range of `w`; and its offsets begin where the
original of the block with the first byte of this range begins, and end where the original of the
block with the last byte ends. Added tokens that are looked for before normalizing are found in the
text itself. -/
theorem C112_origin_partial (t : Tk) (s : Str) (G : Str → List (Str × Str)) (hg : Rewrites t s G)
    (hre : ProperSet t.splitRe) (hp : ∀ p, t.preTokenizer = some p → LibPre true p) (typeId : Int) (e : Encoding)
    (h : t.encodeSingle (.raw (encStr s)) typeId .byte = .ok e) (j : Nat) (p : Int × Int)
    (hj : e.offsets[j]? = some p) :
    ∃ (u m v : Str) (bs : List (Str × Str)) (pre w post : List UInt8) (tok : Token),
      s = u ++ m ++ v ∧ encStr (rights bs) = pre ++ w ++ post ∧
      e.ids[j]? = some tok.id ∧ e.tokens[j]? = some tok.value ∧
      ((bs = singles m ∧ FromAdded t.splitRe.ids w tok) ∨
       (bs = G m ∧ (FromAdded t.splitNormalizedRe.ids w tok ∨ FromModel t w tok))) ∧
      (0 ≤ tok.offsets.1 → tok.offsets.1 < tok.offsets.2 → tok.offsets.2 ≤ w.length →
        ∃ as b cs d, InBlock bs (pre.length + tok.offsets.1.toNat) as b ∧
          InBlock bs (pre.length + tok.offsets.2.toNat - 1) cs d ∧
          p = ((blen (u ++ lefts as) : Int), (blen (u ++ lefts cs ++ d.1) : Int))) := by
  rw [Tk.encodeSingle] at h
  obtain ⟨e1, h2, h⟩ := Res.bind_eq_ok.mp h
  simp only [Res.bind_ok] at h
  obtain ⟨rows, rfl, hr⟩ := encodeOne_origin hg hre hp h2
  have := merge_ofRows typeId [rows] []
  rw [default_ofRows typeId] at h
  simp only [List.map_cons, List.map_nil] at this
  rw [this] at h
  cases h
  simp only [ofRows, List.flatten_cons, List.flatten_nil, List.append_nil, List.nil_append, List.getElem?_map,
    Option.map_eq_some_iff] at hj ⊢
  obtain ⟨r, hr', rfl⟩ := hj
  obtain ⟨x, ⟨u, m, v, bs, k, k1, k2, k3⟩, hoff⟩ := hr r (List.mem_of_getElem? hr')
  have hin := k2.inside
  have hle : k ≤ (encStr (rights bs)).length := by rw [length_encStr]; omega
  refine ⟨u, m, v, bs, (encStr (rights bs)).take k, x.normalized,
    ((encStr (rights bs)).drop k).drop x.normalized.length, r.token, k1, ?_, ⟨r, hr', rfl⟩, ⟨r, hr', rfl⟩, k3, ?_⟩
  · conv => lhs; rw [← List.take_append_drop k (encStr (rights bs)), ← List.take_append_drop x.normalized.length ((encStr (rights bs)).drop k)]
    rw [← k2.text, List.append_assoc]
  · intro q0 q1 q2
    obtain ⟨as, b, cs, d, i1, i2, e⟩ := origOffsets_seg k2 hoff q0 q1 q2
    rw [List.length_take, Nat.min_eq_left hle]
    refine ⟨as, b, cs, d, i1, i2, ?_⟩
    rw [e, blen_append, blen_append, blen_append]

end Tok.PreTok
