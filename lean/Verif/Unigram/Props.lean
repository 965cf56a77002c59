import Verif.Unigram.Lemmas
import Mathlib.Algebra.Order.Group.Int
import Mathlib.Tactic.Abel

/-! C37 and the Unigram parts of C57 and C58. -/

namespace Tok.Unigram

set_option linter.unusedSectionVars false

variable {K : Type} [AddCommGroup K] [LinearOrder K] [IsOrderedAddMonoid K]

theorem segm_flatten {u : Unigram K} {s : Bytes} {ps : List (Bytes × Int)} {w : K}
    (h : Segm u s ps w) : (ps.map (·.1)).flatten = s := by
  induction h with
  | nil => rfl
  | known p r id ps w _ _ _ _ ih => simp [ih]
  | unknown p r uid ps w _ _ _ _ ih => simp [ih]

theorem segm_pieces {u : Unigram K} {s : Bytes} {ps : List (Bytes × Int)} {w : K}
    (h : Segm u s ps w) : ∀ p ∈ ps, p.1 ≠ [] ∧ (u.tokenToId p.1 ≠ none ∨ u.unkId ≠ none) := by
  induction h with
  | nil => simp
  | known p r id ps w hp _ ht _ ih =>
    intro q hq
    rcases List.mem_cons.mp hq with rfl | hq
    · exact ⟨hp, .inl (by simp [ht])⟩
    · exact ih q hq
  | unknown p r uid ps w hl _ hu _ ih =>
    intro q hq
    rcases List.mem_cons.mp hq with rfl | hq
    · refine ⟨?_, .inr (by simp [hu])⟩
      intro h0
      have := charLen_pos (p ++ r)
      rw [← hl] at this
      simp at h0
      simp [h0] at this
    · exact ih q hq

theorem fuse_flatten (uid : Int) (ps : List (Bytes × Int)) :
    (fuseRuns uid ps).flatten = (ps.map (·.1)).flatten := by
  induction ps with
  | nil => rfl
  | cons x ps ih =>
    obtain ⟨p, id⟩ := x
    by_cases hi : id = uid
    · subst hi
      cases ps with
      | nil => rw [fuse_last]; simp
      | cons y ps =>
        obtain ⟨q, i⟩ := y
        by_cases hi' : i = id
        · subst hi'
          obtain ⟨r, rs, hr⟩ := fuse_ne_nil i (q, i) ps
          rw [fuse_step _ _ _ hr]
          rw [hr] at ih
          simpa using ih
        · rw [fuse_stop _ _ _ hi']
          simpa using ih
    · rw [fuse_known _ _ hi]
      simpa using ih

theorem fuse_mem_ne_nil (uid : Int) (ps : List (Bytes × Int)) (h : ∀ p ∈ ps, p.1 ≠ []) :
    ∀ t ∈ fuseRuns uid ps, t ≠ [] := by
  induction ps with
  | nil => simp [fuseRuns]
  | cons x ps ih =>
    obtain ⟨p, id⟩ := x
    have ih := ih (fun q hq => h q (by simp [hq]))
    have hp : p ≠ [] := h (p, id) (by simp)
    by_cases hi : id = uid
    · subst hi
      cases ps with
      | nil => rw [fuse_last]; simpa using hp
      | cons y ps =>
        obtain ⟨q, i⟩ := y
        by_cases hi' : i = id
        · subst hi'
          obtain ⟨r, rs, hr⟩ := fuse_ne_nil i (q, i) ps
          rw [fuse_step _ _ _ hr]
          rw [hr] at ih
          intro t ht
          rcases List.mem_cons.mp ht with rfl | ht
          · simp [hp]
          · exact ih t (by simp [ht])
        · rw [fuse_stop _ _ _ hi']
          intro t ht
          rcases List.mem_cons.mp ht with rfl | ht
          · exact hp
          · exact ih t ht
    · rw [fuse_known _ _ hi]
      intro t ht
      rcases List.mem_cons.mp ht with rfl | ht
      · exact hp
      · exact ih t ht

/-- C37 (the search): whenever the text has a segmentation into vocabulary pieces of at most 20
bytes and unknown characters, the Viterbi search returns the pieces of one whose total weight
is maximal, with adjacent unknown pieces joined if `fuseUnk` is set. -/
theorem C37_optimal (u : Unigram K) (seq : Bytes) (h : ∃ qs v, Segm u seq qs v) :
    ∃ ps, Best u seq ps ∧ u.viterbi seq = .ok (u.output ps) := by
  have hinv := inv_lattice u seq
  obtain ⟨qs, v, hq⟩ := h
  have hle : ∀ qs v, Segm u seq qs v →
      ∃ s c, u.lattice seq seq.length = some (s, c) ∧ v ≤ s := by
    intro qs v hq
    have hp := segm_path (seq := seq) hq 0 (Nat.zero_le _) (by simp)
    obtain ⟨s, c, h1, h2⟩ := path_le hinv hp 0 _ hinv.sound.1
    exact ⟨s, c, h1, by simpa using h2⟩
  obtain ⟨s, c, hs, _⟩ := hle qs v hq
  have best : ∀ ps, Path u seq 0 seq.length ps s → Best u seq ps := by
    intro ps hp
    refine ⟨s, by simpa using path_segm hp rfl, ?_⟩
    intro qs v hq
    obtain ⟨s', c', h1, h2⟩ := hle qs v hq
    rw [hs] at h1
    simp only [Option.some.injEq, Prod.mk.injEq] at h1
    rw [h1.1]; exact h2
  have hplain : ∃ ps, Best u seq ps ∧
      backtrack (u.lattice seq) seq (seq.length + 1) seq.length [] = .ok (ps.map (·.1)) := by
    obtain ⟨ps, hp, hb⟩ := backtrack_path hinv seq.length s c hs
    exact ⟨ps, best ps hp, by rw [hb _ _ (Nat.lt_succ_self _)]; simp⟩
  by_cases h0 : seq.length = 0
  · have : seq = [] := List.length_eq_zero_iff.mp h0
    subst this
    refine ⟨[], ?_, ?_⟩
    · obtain ⟨ps, hp, hb⟩ := hplain
      simp [backtrack] at hb
      subst hb; exact hp
    · simp only [viterbi, List.length_nil, if_true, output]
      cases u.fuseUnk <;> cases u.unkId <;> rfl
  · simp only [viterbi, h0, if_false, hs, output]
    cases hf : u.fuseUnk with
    | false => exact hplain
    | true =>
      cases hu : u.unkId with
      | none => exact hplain
      | some uid =>
        obtain ⟨ps, hp, hb⟩ := backtrackFuse_path uid hinv seq.length s c hs
        refine ⟨ps, best ps hp, ?_⟩
        dsimp only
        rw [hb _ _ _ (Nat.lt_succ_self _)]; simp

/-- C37 (no segmentation): otherwise the whole text is the only piece if there is an unknown
token, and the call fails if there is none (and no byte fallback). -/
theorem C37_no_segmentation (u : Unigram K) (seq : Bytes) (h : ¬ ∃ qs v, Segm u seq qs v) :
    (u.unkId ≠ none → u.viterbi seq = .ok [seq]) ∧
    (u.unkId = none → u.bytesFallback = false → u.viterbi seq = .err) := by
  have hinv := inv_lattice u seq
  have hn : u.lattice seq seq.length = none := by
    cases hs : u.lattice seq seq.length with
    | none => rfl
    | some c =>
      obtain ⟨ps, hp, _⟩ := backtrack_path hinv seq.length c.1 c.2 hs
      exact absurd ⟨ps, c.1, by simpa using path_segm hp rfl⟩ h
  have h0 : seq.length ≠ 0 := by
    intro h0
    have : seq = [] := List.length_eq_zero_iff.mp h0
    subst this
    exact h ⟨[], 0, .nil⟩
  constructor
  · intro hu
    simp only [viterbi, h0, if_false, hn]
    cases hu' : u.unkId with
    | none => exact absurd hu' hu
    | some _ => simp
  · intro hu hb
    simp [viterbi, h0, hn, hu, hb]

/-- C37 (concatenation): the pieces always concatenate to the text, and none is empty. -/
theorem C37_concat (u : Unigram K) (seq : Bytes) (ts : List Bytes) (hb : u.bytesFallback = false)
    (h : u.viterbi seq = .ok ts) : ts.flatten = seq ∧ ∀ t ∈ ts, t ≠ [] := by
  by_cases hs : ∃ qs v, Segm u seq qs v
  · obtain ⟨ps, ⟨w, hp, _⟩, hv⟩ := C37_optimal u seq hs
    rw [hv] at h
    cases h
    have hne : ∀ p ∈ ps, p.1 ≠ [] := fun p hp' => (segm_pieces hp p hp').1
    unfold output
    split
    · exact ⟨by rw [fuse_flatten, segm_flatten hp], fuse_mem_ne_nil _ _ hne⟩
    · refine ⟨segm_flatten hp, ?_⟩
      intro t ht
      obtain ⟨p, hp', rfl⟩ := List.mem_map.mp ht
      exact hne p hp'
  · obtain ⟨h1, h2⟩ := C37_no_segmentation u seq hs
    cases hu : u.unkId with
    | none => rw [h2 hu hb] at h; cases h
    | some x =>
      rw [h1 (by simp [hu])] at h
      cases h
      refine ⟨by simp, ?_⟩
      intro t ht
      simp at ht
      subst ht
      intro h0
      subst h0
      exact hs ⟨[], 0, .nil⟩

/-- The weight is the score plus the bonus of the bytes, if nothing is unknown. -/
theorem segm_true {u : Unigram K} {s : Bytes} {ps : List (Bytes × Int)} {w : K}
    (hu : u.unkId = none) (h : Segm u s ps w) : w = u.trueScore ps + s.length • u.bonus := by
  induction h with
  | nil => simp [trueScore]
  | known p r id ps w _ _ ht _ ih =>
    rw [ih]
    simp only [trueScore, ht, List.length_append, add_nsmul]
    abel
  | unknown p r uid ps w _ _ hu' _ _ => rw [hu] at hu'; cases hu'

/-- C37 (partial: only without an unknown token): then the length bonus does not matter, and the
pieces returned have the greatest sum of scores.  With an unknown token the bonus changes the
choice: `C37_true_score_violated`. -/
theorem C37_true_score_partial (u : Unigram K) (seq : Bytes) (hu : u.unkId = none)
    (h : ∃ qs v, Segm u seq qs v) :
    ∃ ps w, Segm u seq ps w ∧ u.viterbi seq = .ok (ps.map (·.1)) ∧
      ∀ qs v, Segm u seq qs v → u.trueScore qs ≤ u.trueScore ps := by
  obtain ⟨ps, ⟨w, hp, hbest⟩, hv⟩ := C37_optimal u seq h
  refine ⟨ps, w, hp, ?_, ?_⟩
  · rw [hv]; unfold output; rw [hu]; cases u.fuseUnk <;> rfl
  · intro qs v hq
    have := hbest qs v hq
    rw [segm_true hu hq, segm_true hu hp] at this
    exact le_of_add_le_add_right this

/-- A model with an unknown token, a bonus of 10 for a byte and a penalty of 1000. -/
def exUni : Unigram Int :=
  { vocab := [([97, 98], -1000), ([99], -1000), ([98, 99], 5)], unkId := some 3,
    bytesFallback := false, fuseUnk := false, bonus := 10, penalty := 1000 }

/-- C37 fails for the plain scores: the pieces returned for "abc" are "ab" and "c", with scores
adding to -2000, while the unknown "a" (-2000) followed by "bc" (5) adds to -1995. -/
theorem C37_true_score_violated :
    ∃ (u : Unigram Int) (seq : Bytes) (ps qs : List (Bytes × Int)) (v w : Int),
      u.viterbi seq = .ok (ps.map (·.1)) ∧ Segm u seq ps v ∧ Segm u seq qs w ∧
      u.trueScore ps < u.trueScore qs := by
  refine ⟨exUni, [97, 98, 99], [([97, 98], 0), ([99], 1)], [([97], 3), ([98, 99], 2)], -1970, -1975,
    by decide +kernel, ?_, ?_, by decide +kernel⟩
  · have h3 : Segm exUni [] [] 0 := .nil
    have h2 := Segm.known (u := exUni) [99] [] 1 [] 0 (by simp) (by simp) (by decide +kernel) h3
    have h1 := Segm.known (u := exUni) [97, 98] [99] 0 _ _ (by simp) (by simp) (by decide +kernel) h2
    exact h1
  · have h3 : Segm exUni [] [] 0 := .nil
    have h2 := Segm.known (u := exUni) [98, 99] [] 2 [] 0 (by simp) (by simp) (by decide +kernel) h3
    have h1 := Segm.unknown (u := exUni) [97] [98, 99] 3 _ _ (by decide +kernel) (by decide +kernel)
      rfl h2
    exact h1

/-! ### Tokens -/

/-- Each token is the text between its offsets, and they follow each other from `a` to the end. -/
def CoversText (seq : Bytes) : Nat → List (Int × Bytes × Nat × Nat) → Prop
  | a, [] => a = seq.length
  | a, (_, v, b, e) :: ts => a = b ∧ b < e ∧ (seq.take e).drop b = v ∧ CoversText seq e ts

theorem coversText_aux (u : Unigram K) : ∀ (ts : List Bytes) (pre : Bytes),
    (∀ t ∈ ts, t ≠ []) → (∀ t ∈ ts, u.tokenToId t ≠ none ∨ u.unkId ≠ none) →
    CoversText (pre ++ ts.flatten) pre.length (u.tokensToTokenizer pre.length ts) := by
  intro ts
  induction ts with
  | nil => intro pre _ _; simp [tokensToTokenizer, CoversText]
  | cons t ts ih =>
    intro pre h1 h2
    have ht : 0 < t.length := List.length_pos_iff.mpr (h1 t (by simp))
    have := ih (pre ++ t) (fun x hx => h1 x (by simp [hx])) (fun x hx => h2 x (by simp [hx]))
    simp only [List.append_assoc, List.length_append] at this
    have hv : ((pre ++ (t ++ ts.flatten)).take (pre.length + t.length)).drop pre.length = t := by
      rw [← List.append_assoc, ← List.length_append, List.take_left]; simp
    have h2t := h2 t (by simp)
    rw [tokensToTokenizer, List.flatten_cons]
    split
    · exact ⟨rfl, by omega, hv, this⟩
    · exact ⟨rfl, by omega, hv, this⟩
    · next h3 h4 => simp [h3, h4] at h2t

/-- C57 (Unigram): without byte fallback the tokens cover the bytes of the text without gap and
their values are the bytes between their offsets. -/
theorem C57_unigram_bytes (u : Unigram K) (seq : Bytes) (ts : List (Int × Bytes × Nat × Nat))
    (hb : u.bytesFallback = false) (h : u.tokenize seq = .ok ts) : CoversText seq 0 ts := by
  simp only [tokenize, hb, Bool.false_eq_true, if_false] at h
  split at h
  · next vs hv =>
    cases h
    obtain ⟨h1, h2⟩ := C37_concat u seq vs hb hv
    have hk : ∀ t ∈ vs, u.tokenToId t ≠ none ∨ u.unkId ≠ none := by
      intro t ht
      by_cases hu : u.unkId = none
      · left
        by_cases hs : ∃ qs v, Segm u seq qs v
        · obtain ⟨ps, ⟨w, hp, _⟩, hv'⟩ := C37_optimal u seq hs
          rw [hv] at hv'
          simp only [Res.ok.injEq] at hv'
          have : u.output ps = ps.map (·.1) := by
            unfold output; rw [hu]; cases u.fuseUnk <;> rfl
          rw [this] at hv'
          rw [hv'] at ht
          obtain ⟨p, hp', rfl⟩ := List.mem_map.mp ht
          rcases (segm_pieces hp p hp').2 with h | h
          · exact h
          · exact absurd hu h
        · rw [(C37_no_segmentation u seq hs).2 hu hb] at hv; cases hv
      · exact .inr hu
    have := coversText_aux u vs [] h2 hk
    rw [h1] at this
    simpa using this
  · cases h
  · cases h

/-- C57 fails for byte fallback: when the byte tokens are in the vocabulary, the token of the
`k`-th byte has the offsets `6k` and `6k+6` instead of `k` and `k+1`. -/
theorem C57_unigram_fallback_violated (u : Unigram K) (seq : Bytes) (hb : u.bytesFallback = true)
    (hv : ∀ b ∈ seq, u.tokenToId (byteToken b) ≠ none) (hne : seq ≠ []) :
    ∃ ts, u.tokenize seq = .ok ts ∧ ts.length = seq.length ∧
      (∀ (k : Nat) t, ts[k]? = some t → t.2.2 = (6 * k, 6 * k + 6)) ∧ ¬ CoversText seq 0 ts := by
  have h1 : u.byteFallback seq = seq.map byteToken := by
    unfold byteFallback
    apply List.map_congr_left
    intro b hb'
    have := hv b hb'
    cases h : u.tokenToId (byteToken b) with
    | none => exact absurd h this
    | some _ => rfl
  have hlen : ∀ b, (byteToken b).length = 6 := fun _ => rfl
  have key : ∀ (bs : Bytes) (m : Nat), (∀ b ∈ bs, u.tokenToId (byteToken b) ≠ none) →
      (u.tokensToTokenizer (6 * m) (bs.map byteToken)).length = bs.length ∧
      ∀ (k : Nat) t, (u.tokensToTokenizer (6 * m) (bs.map byteToken))[k]? = some t →
        t.2.2 = (6 * (m + k), 6 * (m + k) + 6) := by
    intro bs
    induction bs with
    | nil => intro m _; simp [tokensToTokenizer]
    | cons b bs ih =>
      intro m hbs
      obtain ⟨i1, i2⟩ := ih (m + 1) (fun x hx => hbs x (by simp [hx]))
      have hb := hbs b (by simp)
      simp only [List.map_cons, tokensToTokenizer, hlen]
      rw [show 6 * m + 6 = 6 * (m + 1) by omega]
      split
      · refine ⟨by simp [i1], ?_⟩
        intro k t ht
        cases k with
        | zero => simp at ht; subst ht; simp; omega
        | succ k =>
          simp only [List.getElem?_cons_succ] at ht
          rw [i2 k t ht]
          simp only [Prod.mk.injEq]
          omega
      · next h _ => exact absurd h hb
      · next h _ => exact absurd h hb
  obtain ⟨k1, k2⟩ := key seq 0 hv
  refine ⟨_, by simp [tokenize, hb]; rfl, ?_, ?_, ?_⟩
  · rw [h1]; exact k1
  · intro k t ht
    rw [h1] at ht
    simpa using k2 k t ht
  · rw [h1]
    intro hc
    cases seq with
    | nil => exact hne rfl
    | cons b bs =>
      have hlast : ∀ (ts : List (Int × Bytes × Nat × Nat)) (s : Bytes) (a : Nat), CoversText s a ts →
          ∀ t ∈ ts, (s.take t.2.2.2).drop t.2.2.1 = t.2.1 := by
        intro ts
        induction ts with
        | nil => simp
        | cons x ts ih =>
          intro s a h t ht
          obtain ⟨i, v, b, e⟩ := x
          rcases List.mem_cons.mp ht with rfl | ht
          · exact h.2.2.1
          · exact ih s e h.2.2.2 t ht
      have hb := hv b (by simp)
      obtain ⟨id, hid⟩ : ∃ id, u.tokenToId (byteToken b) = some id := by
        cases h : u.tokenToId (byteToken b) with
        | none => exact absurd h hb
        | some id => exact ⟨id, rfl⟩
      simp only [List.map_cons, tokensToTokenizer, hid] at hc
      have hend : ∀ (ts : List (Int × Bytes × Nat × Nat)) (s : Bytes) (a : Nat), CoversText s a ts →
          a + ts.length ≤ s.length := by
        intro ts
        induction ts with
        | nil => intro s a h; simp only [CoversText] at h; simp [h]
        | cons x ts ih =>
          intro s a h
          obtain ⟨i, v, b, e⟩ := x
          obtain ⟨h1, h2, _, h4⟩ := h
          have := ih s e h4
          simp only [List.length_cons]
          omega
      have h5 := hend _ _ _ hc.2.2.2
      have h6 := (key bs 1 (fun x hx => hv x (by simp [hx]))).1
      simp only [hlen, Nat.zero_add] at h5
      rw [h6] at h5
      simp at h5
      omega

/-- C58 fails: with byte fallback switched on, no vocabulary piece is ever used; every byte of
every text becomes its own token, whether the text is known or not. -/
theorem C58_fallback_only_unknown_violated (u : Unigram K) (seq : Bytes)
    (hb : u.bytesFallback = true) (hv : ∀ b ∈ seq, u.tokenToId (byteToken b) ≠ none) :
    ∃ ts, u.tokenize seq = .ok ts ∧ ts.map (·.2.1) = seq.map byteToken := by
  have h1 : u.byteFallback seq = seq.map byteToken := by
    unfold byteFallback
    apply List.map_congr_left
    intro b hb'
    have := hv b hb'
    cases h : u.tokenToId (byteToken b) with
    | none => exact absurd h this
    | some _ => rfl
  refine ⟨_, by simp [tokenize, hb]; rfl, ?_⟩
  rw [h1]
  have : ∀ (bs : Bytes) (m : Nat), (∀ b ∈ bs, u.tokenToId (byteToken b) ≠ none) →
      (u.tokensToTokenizer m (bs.map byteToken)).map (·.2.1) = bs.map byteToken := by
    intro bs
    induction bs with
    | nil => intro m _; rfl
    | cons b bs ih =>
      intro m hbs
      have hb := hbs b (by simp)
      simp only [List.map_cons, tokensToTokenizer]
      split
      · simp [ih _ (fun x hx => hbs x (by simp [hx]))]
      · next h _ => exact absurd h hb
      · next h _ => exact absurd h hb
  exact this seq 0 hv

/-- C58 (what holds): without byte fallback, a text that is in the vocabulary is not turned into
byte tokens: the pieces are those of a best segmentation and concatenate to the text. -/
theorem C58_known_text_partial (u : Unigram K) (seq : Bytes) (id : Nat) (hb : u.bytesFallback = false)
    (h1 : seq ≠ []) (h20 : seq.length ≤ 20) (hid : u.tokenToId seq = some id) :
    ∃ ps ts, Best u seq ps ∧ u.tokenize seq = .ok ts ∧ ts.map (·.2.1) = u.output ps ∧
      CoversText seq 0 ts := by
  have hs : ∃ qs v, Segm u seq qs v :=
    ⟨_, _, by simpa using Segm.known (u := u) seq [] id [] 0 h1 h20 hid .nil⟩
  obtain ⟨ps, hp, hv⟩ := C37_optimal u seq hs
  have ht : u.tokenize seq = .ok (u.tokensToTokenizer 0 (u.output ps)) := by
    simp [tokenize, hb, hv]
  have hc := C57_unigram_bytes u seq _ hb ht
  refine ⟨ps, _, hp, ht, ?_, hc⟩
  have hcat := (C37_concat u seq _ hb hv).1
  by_cases hu : u.unkId = none
  · have hout : u.output ps = ps.map (·.1) := by
      unfold output; rw [hu]; cases u.fuseUnk <;> rfl
    rw [hout]
    obtain ⟨w, hseg, _⟩ := hp
    have hk := segm_pieces hseg
    have : ∀ (l : List (Bytes × Int)) (m : Nat),
        (∀ p ∈ l, u.tokenToId p.1 ≠ none ∨ u.unkId ≠ none) →
        (u.tokensToTokenizer m (l.map (·.1))).map (·.2.1) = l.map (·.1) := by
      intro l
      induction l with
      | nil => intro _ _; rfl
      | cons p l ih =>
        intro m h
        have hp := h p (by simp)
        simp only [List.map_cons, tokensToTokenizer]
        split
        · simp [ih _ (fun x hx => h x (by simp [hx]))]
        · simp [ih _ (fun x hx => h x (by simp [hx]))]
        · next h1 h2 => simp [h1, h2] at hp
    exact this ps 0 (fun p hp => (hk p hp).2)
  · obtain ⟨uid, hu'⟩ := Option.ne_none_iff_exists'.mp hu
    have : ∀ (l : List Bytes) (m : Nat), (u.tokensToTokenizer m l).map (·.2.1) = l := by
      intro l
      induction l with
      | nil => intro _; rfl
      | cons t l ih =>
        intro m
        simp only [tokensToTokenizer, hu']
        split <;> simp_all
    exact this _ 0

/-! ### Examples -/

/-- The hypotheses are met: "abc" has a segmentation in `exUni`. -/
example : ∃ qs v, Segm exUni [97, 98, 99] qs v := by
  have h3 : Segm exUni [] [] 0 := .nil
  have h2 := Segm.known (u := exUni) [99] [] 1 [] 0 (by simp) (by simp) (by decide +kernel) h3
  have h1 := Segm.known (u := exUni) [97, 98] [99] 0 _ _ (by simp) (by simp) (by decide +kernel) h2
  exact ⟨_, _, h1⟩
example : exUni.viterbi [97, 98, 99] = .ok [[97, 98], [99]] := by decide +kernel
/-- Fused unknown characters around a known piece. -/
example : ({ exUni with fuseUnk := true } : Unigram Int).viterbi [120, 121, 98, 99, 120] =
    .ok [[120, 121], [98, 99], [120]] := by decide +kernel
/-- No segmentation: an invalid byte at the end of the text, no unknown token. -/
example : ({ exUni with unkId := none } : Unigram Int).viterbi [97, 255] = .err := by
  decide +kernel
/-- A model with byte fallback that knows the text "a". -/
def exFallback : Unigram Int :=
  { vocab := [([60, 48, 120, 54, 49, 62], 0), ([97], 1)], unkId := none,
    bytesFallback := true, fuseUnk := false, bonus := 0, penalty := 0 }
/-- Byte fallback on a known text. -/
example : exFallback.tokenize [97] = .ok [(0, [60, 48, 120, 54, 49, 62], 0, 6)] := by decide +kernel

end Tok.Unigram
