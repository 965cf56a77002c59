import Verif.PreTok.PropsInside
import Verif.PreTok.ByteRows
import Verif.Unigram.Props

/-!
# C111: offsets with a Unigram model
-/

set_option linter.unusedSectionVars false

namespace Tok.PreTok

open Tok.Norm

variable {K : Type} [AddCommGroup K] [LinearOrder K] [IsOrderedAddMonoid K]

/-- `Tokenize` of a Unigram model (unigram.go:246-270) as the model of a tokenizer; the cache is left
out, C110 shows that it changes nothing. -/
def unigramModel (u : Unigram K) (bs : List UInt8) : Res (Option (List Token)) := do
  let ts ← u.tokenize bs
  .ok (some (ts.map (fun t => ⟨t.1, decStr t.2.1, ((t.2.2.1 : Int), (t.2.2.2 : Int))⟩)))

theorem toTokens_ranged (u : Unigram K) (ts : List (List UInt8)) : ∀ k, (∀ t ∈ ts, t ≠ []) →
    ∀ x ∈ u.tokensToTokenizer k ts, x.2.2.1 < x.2.2.2 ∧ x.2.2.1 < k + ts.flatten.length := by
  induction ts with
  | nil => intro k _ x hx; cases hx
  | cons t ts ih =>
    intro k hne x hx
    have hp := List.length_pos_iff.mpr (hne t (by simp))
    have hr := ih (k + t.length) (fun y hy => hne y (by simp [hy]))
    simp only [List.flatten_cons, List.length_append]
    rw [Unigram.tokensToTokenizer] at hx
    split at hx
    · rcases List.mem_cons.mp hx with rfl | hx
      · simp only; omega
      · have := hr x hx; omega
    · rcases List.mem_cons.mp hx with rfl | hx
      · simp only; omega
      · have := hr x hx; omega
    · have := hr x hx; omega

/-- **C111.** Unigram without byte fallback gives offsets inside the text. -/
theorem C111_unigram (u : Unigram K) (hb : u.bytesFallback = false) : ModelRanged (unigramModel u) := by
  intro bs ts h t ht
  unfold unigramModel at h
  obtain ⟨l, h1, h⟩ := Res.bind_eq_ok.mp h
  cases h
  obtain ⟨x, hx, rfl⟩ := List.mem_map.mp ht
  unfold Unigram.tokenize at h1
  rw [hb] at h1
  simp only [Bool.false_eq_true, if_false] at h1
  split at h1
  · next ts' hv =>
    cases h1
    obtain ⟨e1, e2⟩ := Unigram.C37_concat u bs ts' hb hv
    have := toTokens_ranged u ts' 0 e2 x hx
    rw [e1] at this
    left
    simp only
    omega
  · cases h1
  · cases h1

theorem tokens_fallback (u : Unigram K) (bs : List UInt8) (hv : ∀ b ∈ bs, u.tokenToId (Unigram.byteToken b) ≠ none) :
    ∀ k, (u.tokensToTokenizer k (bs.map Unigram.byteToken)).map (fun t => ((t.2.2.1 : Int), (t.2.2.2 : Int))) =
      (List.range bs.length).map (fun i => (((k + 6 * i : Nat) : Int), ((k + 6 * (i + 1) : Nat) : Int))) := by
  induction bs with
  | nil => intro k; rfl
  | cons b bs ih =>
    intro k
    have hb := hv b (by simp)
    have hr := ih (fun x hx => hv x (by simp [hx])) (k + 6)
    have h6 : (Unigram.byteToken b).length = 6 := rfl
    cases hid : u.tokenToId (Unigram.byteToken b) with
    | none => exact absurd hid hb
    | some id =>
      rw [List.map_cons, Unigram.tokensToTokenizer]
      simp only [hid, h6, List.map_cons, hr, List.length_cons, List.range_succ_eq_map, List.map_map]
      refine List.cons_eq_cons.mpr ⟨by simp, ?_⟩
      apply List.map_congr_left
      intro i _
      simp only [Function.comp, Prod.mk.injEq]
      constructor <;> congr 1 <;> omega

theorem fallback_tokens (u : Unigram K) (seq : List UInt8) (hv : ∀ b ∈ seq, u.tokenToId (Unigram.byteToken b) ≠ none) :
    u.byteFallback seq = seq.map Unigram.byteToken := by
  apply List.map_congr_left
  intro b hb
  cases hid : u.tokenToId (Unigram.byteToken b) with
  | none => exact absurd hid (hv b hb)
  | some id => rfl

/-- Offsets that are not empty convert; those that begin behind the text are taken over. -/
theorem origOffsets_any {n : NStr} (hl : n.aligns.length = n.normalized.length) (hs : n.shift = 0) {a b : Nat} (hab : a < b) :
    ∃ q, origOffsets n ((a : Int), (b : Int)) = .ok q ∧ (n.normalized.length < a → q = ((a : Int), (b : Int))) := by
  unfold origOffsets NStr.convert Rng.full
  simp only [show ¬ ((a : Int) = -1) by omega, if_false, hs, Int.zero_add]
  by_cases hb : (b : Int) > n.normalized.length
  · simp only [if_pos hb]
    by_cases h1 : (a : Int) = n.normalized.length
    · simp only [if_pos h1, Res.bind_ok]
      exact ⟨_, rfl, fun h => by omega⟩
    · rw [if_neg h1]
      by_cases h2 : n.normalized.length < a
      · rw [if_pos (by omega)]
        exact ⟨_, rfl, fun _ => rfl⟩
      · rw [if_neg (by omega), slc_ok (by omega) (by omega) (by omega)]
        simp only [Res.bind_ok, Int.toNat_natCast]
        rw [expand_seg (by omega) (by omega)]
        exact ⟨_, rfl, fun h => by omega⟩
  · simp only [if_neg hb]
    rw [if_neg (by omega), if_neg (by omega), slc_ok (by omega) (by omega) (by omega)]
    simp only [Res.bind_ok, Int.toNat_natCast]
    rw [expand_seg (by omega) (by omega)]
    exact ⟨_, rfl, fun h => by omega⟩

theorem rowsOfTokens_any {n : NStr} (hl : n.aligns.length = n.normalized.length) (hs : n.shift = 0) (word : Int)
    (ts : List Token) : (∀ t ∈ ts, ∃ a b : Nat, a < b ∧ t.offsets = ((a : Int), (b : Int))) →
    ∃ rows, rowsOfTokens [] n word ts = .ok rows ∧ (∀ t, ts.getLast? = some t → (n.normalized.length : Int) < t.offsets.1 →
      (rows.map (·.offsets)).getLast? = some t.offsets) ∧ rows.length = ts.length := by
  induction ts with
  | nil => intro _; exact ⟨[], rfl, by simp, rfl⟩
  | cons t ts ih =>
    intro h
    obtain ⟨rows, h1, h2, h2'⟩ := ih (fun x hx => h x (by simp [hx]))
    obtain ⟨a, b, hab, ht⟩ := h t (by simp)
    obtain ⟨q, h3, h4⟩ := origOffsets_any hl hs hab
    rw [← ht] at h3
    refine ⟨⟨t, charOffsets [] q, word⟩ :: rows, by simp only [rowsOfTokens, h3, h1, Res.bind_ok], ?_, by simp [h2']⟩
    intro x hx hlt
    cases ts with
    | nil =>
      simp only [List.getLast?_singleton, Option.some.injEq] at hx
      subst hx
      have : rows = [] := List.eq_nil_of_length_eq_zero (by simpa using h2')
      subst this
      rw [ht] at hlt ⊢
      simp only at hlt
      simp only [List.map_cons, List.map_nil, List.getLast?_singleton]
      rw [h4 (by omega)]
      rfl
    | cons t' ts =>
      rw [List.getLast?_cons_cons] at hx
      have := h2 x hx hlt
      cases rows with
      | nil => simp at h2'
      | cons r rows =>
        simp only [List.map_cons, List.getLast?_cons_cons] at this ⊢
        exact this

/-- **C111 fails for Unigram with byte fallback.** Every byte of the text advances the offsets by the six
bytes of its token's name (unigram.go:273-301), so the last entry of every text of two bytes or more has
offsets that lie behind the text. -/
theorem C111_fallback_violated (u : Unigram K) (hb : u.bytesFallback = true) (t : Tk) (hm : t.model = some (unigramModel u))
    (hn : t.normalizer = none) (hp : t.preTokenizer = none) (s : Str) (hs : NoAdded t s) (h2 : 2 ≤ blen s)
    (hv : ∀ b ∈ encStr s, u.tokenToId (Unigram.byteToken b) ≠ none) (typeId : Int) :
    ∃ e, t.encodeSingle (.raw (encStr s)) typeId .byte = .ok e ∧
      e.offsets.getLast? = some (((6 * (blen s - 1) : Nat) : Int), ((6 * blen s : Nat) : Int)) ∧
      blen s < 6 * (blen s - 1) := by
  have hne : s ≠ [] := by rintro rfl; simp [blen] at h2
  obtain ⟨y, h1, hy⟩ := extract_none hn hs hne
  have hfit := extract_fit (o := false) (t := t) (by rw [hn]; simp) h1 ⟨y, none⟩ (by simp)
  have hlen : y.normalized.length = blen s := by rw [fpart_text hy, length_encStr]
  have hsh : y.shift = 0 := by rw [hy.2.2]; rfl
  have htok := tokens_fallback u (encStr s) hv 0
  have hts : ∃ ts, unigramModel u y.normalized = .ok (some ts) ∧
      ts.map (·.offsets) = (List.range (blen s)).map (fun i => (((6 * i : Nat) : Int), ((6 * (i + 1) : Nat) : Int))) := by
    refine ⟨(u.tokensToTokenizer 0 ((encStr s).map Unigram.byteToken)).map
      (fun t => ⟨t.1, decStr t.2.1, ((t.2.2.1 : Int), (t.2.2.2 : Int))⟩), ?_, ?_⟩
    · unfold unigramModel Unigram.tokenize
      rw [hb, if_pos rfl, fpart_text hy, fallback_tokens u _ hv]
      rfl
    · rw [List.map_map]
      simp only [Nat.zero_add, length_encStr] at htok
      exact htok
  obtain ⟨ts, h3, h4⟩ := hts
  have hmem : ∀ x ∈ ts, ∃ a b : Nat, a < b ∧ x.offsets = ((a : Int), (b : Int)) := by
    intro x hx
    have : x.offsets ∈ ts.map (·.offsets) := List.mem_map_of_mem hx
    rw [h4, List.mem_map] at this
    obtain ⟨i, _, hi⟩ := this
    exact ⟨6 * i, 6 * (i + 1), by omega, hi.symm⟩
  have hn1 : ts.length = blen s := by
    have := congrArg List.length h4
    simpa using this
  obtain ⟨rows, h5, h6, h7⟩ := rowsOfTokens_any hfit.fit.even hsh 0 ts hmem
  obtain ⟨x, hx⟩ : ∃ x, ts.getLast? = some x := by
    cases hg : ts.getLast? with
    | none => rw [List.getLast?_eq_none_iff] at hg; subst hg; simp at hn1; omega
    | some x => exact ⟨x, rfl⟩
  have hxo : x.offsets = (((6 * (blen s - 1) : Nat) : Int), ((6 * blen s : Nat) : Int)) := by
    have h8 : (ts.map (·.offsets)).getLast? = some x.offsets := by rw [List.getLast?_map, hx]; rfl
    rw [h4, List.getLast?_map] at h8
    obtain ⟨k, hk⟩ : ∃ k, blen s = k + 1 := ⟨blen s - 1, by omega⟩
    rw [hk, List.range_succ, List.getLast?_append] at h8
    simp only [List.getLast?_singleton, Option.some_or, Option.map_some, Option.some.injEq] at h8
    rw [← h8, hk]
    simp
  refine ⟨ofRows rows typeId, ?_, ?_, by omega⟩
  · have hone : t.encodeOne (encStr s) typeId (-1) .byte = .ok (ofRows rows typeId) := by
      unfold Tk.encodeOne
      rw [h1]
      simp only [Res.bind_ok, Tk.doPreTokenize, hp, Tk.doTokenize, PTS.tokenize, tokenizeLoop, hm, h3, PTS.intoEncoding]
      have hts' : ¬ (ts = []) := by rintro rfl; simp at hn1; omega
      simp [hts', rowsOfSplits, charMap, h5, ofRows]
    rw [Tk.encodeSingle]
    simp only [hone, Res.bind_ok]
    have := merge_ofRows typeId [rows] []
    rw [default_ofRows typeId]
    simpa using this
  · rw [show (ofRows rows typeId).offsets = rows.map (·.offsets) from rfl, h6 x hx (by rw [hxo, hlen]; simp only; omega), hxo]

/-- A vocabulary with the byte tokens of "a" and "b" meets the hypotheses for the text "ab". -/
example : ∃ u : Unigram Int, u.bytesFallback = true ∧
    ∀ b ∈ encStr ['a', 'b'], u.tokenToId (Unigram.byteToken b) ≠ none :=
  ⟨⟨[(Unigram.byteToken 97, 0), (Unigram.byteToken 98, 0)], none, true, false, 0, 0⟩, rfl, by decide +kernel⟩

end Tok.PreTok
