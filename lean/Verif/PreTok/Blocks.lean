import Verif.PreTok.PropsIntoEncoding

/-!
# Texts whose characters were replaced block by block
-/

namespace Tok.PreTok

open Tok.Norm

/-- The original text of the blocks. -/
def lefts (bs : List (Str × Str)) : Str := (bs.map (·.1)).flatten

/-- The normalized text of the blocks. -/
def rights (bs : List (Str × Str)) : Str := (bs.map (·.2)).flatten

/-- Every byte of a normalized block is aligned with its whole original block. -/
def alignsOf : List (Str × Str) → Nat → List (Int × Int)
  | [], _ => []
  | b :: bs, k => List.replicate (blen b.2) ((k : Int), ((k + blen b.1 : Nat) : Int)) ++ alignsOf bs (k + blen b.1)

/-- The text is made of blocks (original, normalized), both not empty, aligned with each other. -/
structure Blocks (x : NStr) (bs : List (Str × Str)) : Prop where
  ne : ∀ b ∈ bs, b.1 ≠ [] ∧ b.2 ≠ []
  text : x.normalized = encStr (rights bs)
  original : x.original = encStr (lefts bs)
  aligns : x.aligns = alignsOf bs 0
  alignsO : x.alignsO = alignsOf (bs.map Prod.swap) 0
  refs : ∀ r ∈ x.refs, r < x.cells.length

theorem lefts_append (a b : List (Str × Str)) : lefts (a ++ b) = lefts a ++ lefts b := by simp [lefts]
theorem rights_append (a b : List (Str × Str)) : rights (a ++ b) = rights a ++ rights b := by simp [rights]
theorem lefts_cons (a : Str × Str) (b : List (Str × Str)) : lefts (a :: b) = a.1 ++ lefts b := by simp [lefts]
theorem rights_cons (a : Str × Str) (b : List (Str × Str)) : rights (a :: b) = a.2 ++ rights b := by simp [rights]
theorem lefts_swap (b : List (Str × Str)) : lefts (b.map Prod.swap) = rights b := by rw [lefts, rights, List.map_map]; rfl
theorem rights_swap (b : List (Str × Str)) : rights (b.map Prod.swap) = lefts b := by rw [lefts, rights, List.map_map]; rfl

theorem length_alignsOf (bs : List (Str × Str)) : ∀ k, (alignsOf bs k).length = blen (rights bs) := by
  induction bs with
  | nil => intro k; rfl
  | cons b bs ih => intro k; rw [alignsOf, List.length_append, ih, List.length_replicate, rights_cons, blen_append]

theorem alignsOf_append (as bs : List (Str × Str)) : ∀ k,
    alignsOf (as ++ bs) k = alignsOf as k ++ alignsOf bs (k + blen (lefts as)) := by
  induction as with
  | nil => intro k; simp [alignsOf, lefts]
  | cons a as ih =>
    intro k
    rw [List.cons_append, alignsOf, alignsOf, ih, List.append_assoc, lefts_cons, blen_append, Nat.add_assoc]

theorem alignsOf_shift (bs : List (Str × Str)) (k : Nat) : ∀ j : Nat,
    alignsOf bs (j + k) = (alignsOf bs j).map (fun p => (p.1 + (k : Int), p.2 + (k : Int))) := by
  induction bs with
  | nil => intro j; rfl
  | cons b bs ih =>
    intro j
    rw [alignsOf, alignsOf, List.map_append, List.map_replicate]
    congr 1
    · congr 1
      simp only [Prod.mk.injEq]
      push_cast
      omega
    · rw [← ih, show j + k + blen b.1 = j + blen b.1 + k by omega]

theorem alignsOf_unshift (bs : List (Str × Str)) (k : Nat) :
    (alignsOf bs k).map (fun a => (a.1 - (k : Int), a.2 - (k : Int))) = alignsOf bs 0 := by
  have := alignsOf_shift bs k 0
  rw [Nat.zero_add] at this
  rw [this, List.map_map]
  conv => rhs; rw [← List.map_id (alignsOf bs 0)]
  apply List.map_congr_left
  intro p _
  simp

theorem alignsOf_mem {bs : List (Str × Str)} {k : Nat} {p : Int × Int} (h : p ∈ alignsOf bs k) :
    (k : Int) ≤ p.1 ∧ p.1 ≤ p.2 ∧ p.2 ≤ ((k + blen (lefts bs) : Nat) : Int) := by
  induction bs generalizing k with
  | nil => cases h
  | cons b bs ih =>
    rw [alignsOf, List.mem_append] at h
    rw [lefts_cons, blen_append]
    rcases h with h | h
    · have := List.eq_of_mem_replicate h
      subst this
      push_cast; omega
    · have := ih h
      push_cast at this ⊢; omega

theorem alignsOf_nd (bs : List (Str × Str)) : ∀ k, NonDecreasing (alignsOf bs k) := by
  induction bs with
  | nil => intro k; exact List.Pairwise.nil
  | cons b bs ih =>
    intro k
    unfold NonDecreasing
    rw [alignsOf, List.pairwise_append]
    refine ⟨?_, ih _, ?_⟩
    · rw [List.pairwise_replicate]
      right; exact ⟨Int.le_refl _, Int.le_refl _⟩
    · intro p hp q hq
      have := List.eq_of_mem_replicate hp
      subst this
      have := alignsOf_mem hq
      push_cast at this ⊢; omega

theorem lefts_pos {bs : List (Str × Str)} (hne : ∀ b ∈ bs, b.1 ≠ [] ∧ b.2 ≠ []) (hb : bs ≠ []) :
    lefts bs ≠ [] ∧ rights bs ≠ [] := by
  cases bs with
  | nil => exact absurd rfl hb
  | cons b bs =>
    obtain ⟨h1, h2⟩ := hne b (by simp)
    rw [lefts_cons, rights_cons]
    exact ⟨by simp [h1], by simp [h2]⟩

theorem expand_alignsOf {bs : List (Str × Str)} (hne : ∀ b ∈ bs, b.1 ≠ [] ∧ b.2 ≠ []) (hb : bs ≠ []) (k : Nat) :
    expand (alignsOf bs k) = some ((k : Int), ((k + blen (lefts bs) : Nat) : Int)) := by
  have h1 : ∃ p, (alignsOf bs k).head? = some p ∧ p.1 = k := by
    cases bs with
    | nil => exact absurd rfl hb
    | cons b bs =>
      have := length_pos_of_ne (hne b (by simp)).2
      obtain ⟨n, hn⟩ : ∃ n, blen b.2 = n + 1 := ⟨blen b.2 - 1, by omega⟩
      rw [alignsOf, hn, List.replicate_succ]
      exact ⟨_, rfl, rfl⟩
  have h2 : ∃ p, (alignsOf bs k).getLast? = some p ∧ p.2 = ((k + blen (lefts bs) : Nat) : Int) := by
    obtain ⟨as, b, rfl⟩ : ∃ as b, bs = as ++ [b] := by
      rcases List.eq_nil_or_concat bs with h | ⟨as, b, h⟩
      · exact absurd h hb
      · exact ⟨as, b, by simp [h]⟩
    have := length_pos_of_ne (hne b (by simp)).2
    obtain ⟨n, hn⟩ : ∃ n, blen b.2 = n + 1 := ⟨blen b.2 - 1, by omega⟩
    rw [alignsOf_append, alignsOf, alignsOf, List.append_nil, hn, List.replicate_succ', ← List.append_assoc,
      List.getLast?_concat]
    refine ⟨_, rfl, ?_⟩
    rw [lefts_append, blen_append]
    simp [lefts, Nat.add_assoc]
  obtain ⟨p, e1, e2⟩ := h1
  obtain ⟨q, f1, f2⟩ := h2
  unfold expand
  rw [e1, f1]
  simp [e2, f2]

theorem Blocks.wf {x : NStr} {bs : List (Str × Str)} (h : Blocks x bs) : WF x := by
  have hlo : x.refs.length = blen (lefts bs) := by
    rw [← alignsO_length, h.alignsO, length_alignsOf, rights_swap]
  refine ⟨?_, ?_, ?_, ?_⟩
  · rw [h.aligns, h.text, length_alignsOf, length_encStr]
  · rw [hlo, h.original, length_encStr]
  · intro p hp
    rw [h.aligns] at hp
    have := alignsOf_mem hp
    rw [h.original, length_encStr]
    omega
  · rw [h.aligns]; exact alignsOf_nd bs 0

theorem swap_ne {bs : List (Str × Str)} (hne : ∀ b ∈ bs, b.1 ≠ [] ∧ b.2 ≠ []) :
    ∀ b ∈ bs.map Prod.swap, b.1 ≠ [] ∧ b.2 ≠ [] := by
  intro b hb
  obtain ⟨a, ha, rfl⟩ := List.mem_map.mp hb
  exact ⟨(hne a ha).2, (hne a ha).1⟩

theorem alignsOf_cut (as ws zs : List (Str × Str)) :
    ((alignsOf (as ++ ws ++ zs) 0).take (blen (rights (as ++ ws)))).drop (blen (rights as)) =
      alignsOf ws (blen (lefts as)) := by
  rw [alignsOf_append, ← length_alignsOf (as ++ ws) 0, List.take_left, alignsOf_append,
    ← length_alignsOf as 0, List.drop_left, Nat.zero_add]

/-- A slice of whole blocks is made of these blocks. -/
theorem blocks_slice {x : NStr} {bs : List (Str × Str)} (h : Blocks x bs) (as ws zs : List (Str × Str))
    (hb : bs = as ++ ws ++ zs) (hw : ws ≠ []) :
    ∃ y, x.slice ⟨(blen (rights as) : Nat), (blen (rights (as ++ ws)) : Nat), .normalized⟩ = .ok (some y) ∧
      Blocks y ws ∧ y.shift = x.shift + (blen (lefts as) : Nat) := by
  have hne := h.ne
  have hnew : ∀ b ∈ ws, b.1 ≠ [] ∧ b.2 ≠ [] := fun b hb' => hne b (by rw [hb]; simp [hb'])
  have hnea : ∀ b ∈ as, b.1 ≠ [] ∧ b.2 ≠ [] := fun b hb' => hne b (by rw [hb]; simp [hb'])
  obtain ⟨hwl, hwr⟩ := lefts_pos hnew hw
  have hposl := length_pos_of_ne hwl
  have hposr := length_pos_of_ne hwr
  have hab : blen (rights (as ++ ws)) = blen (rights as) + blen (rights ws) := by rw [rights_append, blen_append]
  have habl : blen (lefts (as ++ ws)) = blen (lefts as) + blen (lefts ws) := by rw [lefts_append, blen_append]
  have hler : blen (rights (as ++ ws)) ≤ blen (rights bs) := by rw [hb, rights_append _ zs, blen_append]; omega
  have hlel : blen (lefts (as ++ ws)) ≤ blen (lefts bs) := by rw [hb, lefts_append _ zs, blen_append]; omega
  have hlen : x.normalized.length = blen (rights bs) := by rw [h.text, length_encStr]
  have hlo : x.original.length = blen (lefts bs) := by rw [h.original, length_encStr]
  have hla : x.aligns.length = blen (rights bs) := by rw [h.aligns, length_alignsOf]
  have hlO : x.alignsO.length = blen (lefts bs) := by rw [h.alignsO, length_alignsOf, rights_swap]
  have hval := validate_ok h.text (a := blen (rights as)) (b := blen (rights (as ++ ws)))
    ⟨rights as, rights ws ++ rights zs, by rw [hb, rights_append, rights_append, List.append_assoc], rfl⟩
    ⟨rights (as ++ ws), rights zs, by rw [hb, rights_append _ zs], rfl⟩ (by omega)
  have hcutA : (x.aligns.take (blen (rights (as ++ ws)))).drop (blen (rights as)) = alignsOf ws (blen (lefts as)) := by
    rw [h.aligns, hb, alignsOf_cut]
  have hcutO : (x.alignsO.take (blen (lefts (as ++ ws)))).drop (blen (lefts as)) =
      alignsOf (ws.map Prod.swap) (blen (rights as)) := by
    have := alignsOf_cut (as.map Prod.swap) (ws.map Prod.swap) (zs.map Prod.swap)
    rw [← List.map_append, ← List.map_append, rights_swap, rights_swap, lefts_swap] at this
    rw [h.alignsO, hb, this]
  have hsa : slc x.aligns ((blen (rights as) : Nat) : Int) ((blen (rights (as ++ ws)) : Nat) : Int) =
      .ok (alignsOf ws (blen (lefts as))) := by
    rw [slc_ok (by omega) (by omega) (by omega)]
    simp only [Int.toNat_natCast, hcutA]
  have hso : slc x.alignsO ((blen (lefts as) : Nat) : Int) ((blen (lefts (as ++ ws)) : Nat) : Int) =
      .ok (alignsOf (ws.map Prod.swap) (blen (rights as))) := by
    rw [slc_ok (by omega) (by omega) (by omega)]
    simp only [Int.toNat_natCast, hcutO]
  have hconv : x.convert ⟨(blen (rights as) : Nat), (blen (rights (as ++ ws)) : Nat), .normalized⟩ =
      .ok (some ⟨(blen (lefts as) : Nat), (blen (lefts (as ++ ws)) : Nat), .original⟩) := by
    unfold NStr.convert
    simp only [hlen, full_eq _ hler]
    rw [if_neg (by omega), if_neg (by omega), hsa]
    simp only [Res.bind_ok, expand_alignsOf hnew hw, habl]
  have hpre : slc x.alignsO 0 ((blen (lefts as) : Nat) : Int) = .ok (alignsOf (as.map Prod.swap) 0) := by
    rw [slc_ok (by omega) (by omega) (by omega)]
    simp only [Int.toNat_natCast, Int.toNat_zero, List.drop_zero]
    rw [h.alignsO, hb, List.append_assoc, List.map_append, alignsOf_append]
    have := length_alignsOf (as.map Prod.swap) 0
    rw [rights_swap] at this
    rw [← this, List.take_left]
  have hro : x.rangeOriginal ⟨(blen (rights as) : Nat), (blen (rights (as ++ ws)) : Nat), .normalized⟩ =
      .ok (encStr (lefts ws)) := by
    simp only [NStr.rangeOriginal, hconv, Res.bind_ok]
    rw [slc_ok (by omega) (by omega) (by omega), h.original]
    simp only [Int.toNat_natCast]
    have := cutOut_enc (lefts as) (lefts ws) (lefts zs)
    rw [hb, lefts_append _ zs, lefts_append as ws]
    rw [← this]; rfl
  have hrn : x.range ⟨(blen (rights as) : Nat), (blen (rights (as ++ ws)) : Nat), .normalized⟩ =
      .ok (encStr (rights ws)) := by
    simp only [NStr.range, hlen, full_eq _ hler]
    rw [slc_ok (by omega) (by omega) (by omega), h.text]
    simp only [Int.toNat_natCast]
    have := cutOut_enc (rights as) (rights ws) (rights zs)
    rw [hb, rights_append _ zs, rights_append as ws]
    rw [← this]; rfl
  have hshift : (match expand (alignsOf (as.map Prod.swap) 0) with | none => (0 : Int) | some p => p.2) =
      ((blen (rights as) : Nat) : Int) := by
    by_cases ha : as = []
    · subst ha; rfl
    · rw [expand_alignsOf (swap_ne hnea) (by simpa using ha) 0, lefts_swap]; simp
  unfold NStr.slice
  simp only [hval, Res.bind_ok, hconv, hpre, hro, hrn, hsa, hso]
  refine ⟨_, rfl, ⟨hnew, rfl, rfl, ?_, ?_, ?_⟩, rfl⟩
  · dsimp only; exact alignsOf_unshift ws _
  · rw [NStr.alignsO]
    dsimp only
    have hs : ∀ o : Int, o = (blen (rights as) : Nat) →
        (List.range (alignsOf (ws.map Prod.swap) (blen (rights as))).length).map
          (cellAt ((alignsOf (ws.map Prod.swap) (blen (rights as))).map (fun p => (p.1 - o, p.2 - o)))) =
        alignsOf (ws.map Prod.swap) 0 := by
      rintro o rfl
      rw [alignsOf_unshift, show (alignsOf (ws.map Prod.swap) (blen (rights as))).length =
        (alignsOf (ws.map Prod.swap) 0).length by rw [length_alignsOf, length_alignsOf], map_range_cells]
    exact hs _ hshift
  · dsimp only
    intro r hr
    rw [List.length_map]
    exact List.mem_range.mp hr

/-- The whole original of blocks converts to their whole text. -/
theorem Blocks.cover {x : NStr} {bs : List (Str × Str)} (h : Blocks x bs) : Cover x := by
  have hl : x.original.length = blen (lefts bs) := by rw [h.original, length_encStr]
  have hn : x.normalized.length = blen (rights bs) := by rw [h.text, length_encStr]
  have ho : x.alignsO.length = blen (lefts bs) := by rw [h.alignsO, length_alignsOf, rights_swap]
  unfold Cover NStr.convert
  have hf : (⟨0, (x.original.length : Int), .original⟩ : Rng).full x.original.length =
      ⟨0, (blen (lefts bs) : Int), .original⟩ := by
    simp [Rng.full, hl]
  simp only [hf]
  by_cases hm : bs = []
  · subst hm
    exact ⟨⟨0, 0, .original⟩, by simp [lefts], rfl, by rw [hn]; simp [rights]⟩
  · have hne := length_pos_of_ne (lefts_pos h.ne hm).1
    rw [if_neg (by omega), if_neg (by rw [ho]; omega)]
    have hsl : slc x.alignsO 0 (blen (lefts bs) : Int) = .ok (alignsOf (bs.map Prod.swap) 0) := by
      rw [← ho, slc_all, h.alignsO]
    rw [hsl]
    simp only [Res.bind_ok, expand_alignsOf (swap_ne h.ne) (by simpa using hm), lefts_swap]
    exact ⟨_, rfl, by simp, by rw [hn]; simp⟩

end Tok.PreTok
