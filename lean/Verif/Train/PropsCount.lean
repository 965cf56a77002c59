import Verif.Train.First
import Verif.Word.Props

/-! # C79, C80, C81, C82: counting, stopping, lost tokens, prefixes -/

namespace Tok.Train

variable {cfg : Cfg} {addr : Nat → Nat → Str} {wc : List (Str × Int)} {r : Trained}

theorem nolimit_mem (hl : cfg.limitAlphabet = none) {t : Str} :
    t ∈ keptChars cfg wc ↔ t ∈ cfg.initialAlphabet ∨ ∃ e ∈ wc, ∃ c ∈ e.1, t = [c] := by
  rw [keptChars_nolimit hl, (sortStrs_perm _).mem_iff, (alphabetCounts_keys cfg wc).2]

theorem nolimit_part (hl : cfg.limitAlphabet = none) {e : Str × Int} (he : e ∈ wc) :
    knownPart (keptChars cfg wc) e.1 = e.1 := by
  unfold knownPart
  rw [List.filter_eq_self]
  intro c hc
  simpa using (nolimit_mem hl).2 (Or.inr ⟨e, he, c, hc, rfl⟩)

theorem nolimit_map (hl : cfg.limitAlphabet = none) :
    (wc.map fun e => (knownPart (keptChars cfg wc) e.1, e.2)) = wc := by
  conv => rhs; rw [← List.map_id wc]
  apply List.map_congr_left
  intro e he
  rw [nolimit_part hl he]
  rfl

/-! ### C79 -/

/-- **C79, partial.** With fewer than 10000 words the trainer starts from the exact counts: the
count of two characters is the number of times they are adjacent in the training data. Missing:
10000 words and more. -/
theorem C79_counts_partial (hp : Plain cfg) (hl : cfg.limitAlphabet = none) (hsmall : wc.length < 10000)
    (hn : (wc.map (·.1)).Nodup) {arrival : List (Nat × Nat)} (ha : arrival.Perm (chunks wc.length))
    {s : State} (hs : start cfg addr wc arrival = .ok s) {c d : Char} {i j : Int}
    (hi : mget s.w2id [c] = some i) (hj : mget s.w2id [d] = some j) :
    (mget s.pc (i, j)).getD 0 = frequency [c, d] wc := by
  obtain ⟨r, h⟩ := first_of_start hp ha hs
  have key : ∀ {c : Char} {i : Int}, mget s.w2id [c] = some i → [c] ∈ keptChars cfg wc := by
    intro c i hc
    obtain ⟨n, _, hn⟩ := (h.exact.get [c] i).1 hc
    exact List.mem_of_getElem? hn
  have := h.count hn hsmall (key hi) (key hj)
  rw [hi, hj, nolimit_map hl] at this
  exact this

/-- **C79, violated.** With 10000 words or more, none of them very long, only the first quarter of
the sorted words is counted (a worker compares the index of its first word with the length of a
word): a text of several characters that occurs only in later words never becomes a token, however
often these words occur. -/
theorem C79_counts_violated (hp : Plain cfg) (hl : cfg.limitAlphabet = none)
    (hlarge : 10000 ≤ wc.length) (hn : (wc.map (·.1)).Nodup)
    (hshort : ∀ e ∈ wc, e.1.length ≤ wc.length / 4 + 1) (h : Trains cfg addr wc r) {t : Str}
    (hi : t ∉ cfg.initialAlphabet) (ht : 2 ≤ t.length)
    (hlate : ∀ e ∈ wc, t <:+: e.1 →
      wc.length / 4 ≤ ((wc.map (·.1)).filter fun x => decide (x ≠ e.1) && strLe x e.1).length) :
    r.model.vocab t = none := by
  obtain ⟨s, hr, _, rfl⟩ := h
  have hnear := reach_near hp (fun k => k < wc.length / 4) (by
    intro ij hij k h1 h2 w hw hlt
    rcases chunks_large hlarge ij hij with rfl | hge
    · exact h2
    · exfalso
      obtain ⟨v, _, rfl, e, he, rfl⟩ := startTexts_at hw
      rw [nolimit_part hl he] at hlt
      have := hshort e he
      omega) hr
  cases hv : (finish cfg s).model.vocab t with
  | none => rfl
  | some i =>
    exfalso
    rcases vocab_cases (reach_inv hp hr).1 hv with hk | ⟨n, n1, n2⟩
    · rcases mem_of_keptChars hk with h | ⟨e, he, d, hd, rfl⟩
      · exact hi h
      · simp at ht
    · obtain ⟨_, k, w, hQ, hk, hin⟩ := hnear.2 n t n1 n2
      obtain ⟨v, hv, rfl, e, he, rfl⟩ := startTexts_at hk
      rw [nolimit_part hl he] at hin
      have := hlate e he hin
      have := before_le hn hv
      omega

/-- Ten thousand words of one character and a frequent word of two. -/
def manyWords : List (Str × Int) :=
  (List.range 10000).map (fun i => ([Char.ofNat (0x4E00 + i)], (1 : Int))) ++ [(['龍', '龍'], 1000000)]

theorem ofNat_toNat' {n : Nat} (h : n < 0xD800) : (Char.ofNat n).toNat = n := by
  have hv : n.isValidChar := Or.inl h
  unfold Char.ofNat
  rw [dif_pos hv]
  rfl

example : 10000 ≤ manyWords.length ∧ (manyWords.map (·.1)).Nodup ∧
    (∀ e ∈ manyWords, e.1.length ≤ manyWords.length / 4 + 1) ∧
    (∀ e ∈ manyWords, ['龍', '龍'] <:+: e.1 → manyWords.length / 4 ≤
      ((manyWords.map (·.1)).filter fun x => decide (x ≠ e.1) && strLe x e.1).length) ∧
    frequency ['龍', '龍'] manyWords ≥ 1000000 := by
  have hlen : manyWords.length = 10001 := by simp [manyWords]
  have hone : ∀ i < 10000, (Char.ofNat (0x4E00 + i)).toNat = 0x4E00 + i := by
    intro i hi; exact ofNat_toNat' (by omega)
  have hmem : ∀ e ∈ manyWords, (∃ i < 10000, e = ([Char.ofNat (0x4E00 + i)], (1 : Int))) ∨
      e = (['龍', '龍'], 1000000) := by
    intro e he
    unfold manyWords at he
    rcases List.mem_append.1 he with h | h
    · obtain ⟨i, h1, rfl⟩ := List.mem_map.1 h
      exact Or.inl ⟨i, List.mem_range.1 h1, rfl⟩
    · exact Or.inr (by simpa using h)
  refine ⟨by omega, ?_, ?_, ?_, ?_⟩
  · unfold manyWords
    rw [List.map_append, List.nodup_append]
    refine ⟨?_, by simp, ?_⟩
    · rw [List.map_map]
      refine List.pairwise_map.2 ?_
      refine List.Pairwise.imp_of_mem ?_ List.nodup_range
      intro a b ha hb hab he
      simp only [Function.comp_apply, List.cons.injEq, and_true] at he
      have := congrArg Char.toNat he
      rw [hone a (List.mem_range.1 ha), hone b (List.mem_range.1 hb)] at this
      omega
    · intro a ha b hb hab
      simp only [List.map_map, List.mem_map, List.mem_range, Function.comp_apply, List.map_cons,
        List.map_nil, List.mem_singleton] at ha hb
      obtain ⟨i, _, rfl⟩ := ha
      rw [hb] at hab
      simp at hab
  · intro e he
    rcases hmem e he with ⟨i, _, rfl⟩ | rfl <;> simp [hlen]
  · intro e he hin
    rcases hmem e he with ⟨i, _, rfl⟩ | rfl
    · have := hin.length_le
      simp at this
    · rw [hlen]
      have : ((List.range 10000).map fun i => [Char.ofNat (0x4E00 + i)]).Sublist
          ((manyWords.map (·.1)).filter fun x => decide (x ≠ ['龍', '龍']) && strLe x ['龍', '龍']) := by
        have e1 : ((List.range 10000).map fun i => [Char.ofNat (0x4E00 + i)]) =
            ((List.range 10000).map fun i => [Char.ofNat (0x4E00 + i)]).filter
              fun x => decide (x ≠ ['龍', '龍']) && strLe x ['龍', '龍'] := by
          rw [eq_comm, List.filter_eq_self]
          intro x hx
          obtain ⟨i, hi, rfl⟩ := List.mem_map.1 hx
          have h1 := hone i (List.mem_range.1 hi)
          have h2 : '龍'.toNat = 0x9F8D := by decide
          have h3 := List.mem_range.1 hi
          simp only [ne_eq, decide_not, strLe, h1, h2, Bool.and_eq_true, Bool.or_eq_true,
            decide_eq_true_eq]
          exact ⟨by simp, Or.inl (by omega)⟩
        rw [e1]
        apply List.Sublist.filter
        unfold manyWords
        rw [List.map_append, List.map_map]
        exact List.sublist_append_left _ _
      have := this.length_le
      simp only [List.length_map, List.length_range] at this
      exact Nat.le_trans (by decide) this
  · have hnn : ∀ l : List (Str × Int), (∀ e ∈ l, 0 ≤ e.2) → 0 ≤ frequency ['龍', '龍'] l := by
      intro l
      induction l with
      | nil => intro _; decide
      | cons e l ih =>
        intro hl
        have h1 := ih (fun x hx => hl x (by simp [hx]))
        have h2 := Int.mul_nonneg (hl e (by simp)) (Int.natCast_nonneg (occurrences ['龍', '龍'] e.1))
        unfold frequency at h1 ⊢
        simp only [List.map_cons, List.sum_cons]
        omega
    have h1 := hnn ((List.range 10000).map (fun i => ([Char.ofNat (0x4E00 + i)], (1 : Int)))) (by
      intro e he
      obtain ⟨i, _, rfl⟩ := List.mem_map.1 he
      show (0 : Int) ≤ 1
      decide)
    have h2 : frequency ['龍', '龍'] [(['龍', '龍'], 1000000)] = 1000000 := by decide
    unfold manyWords frequency at *
    rw [List.map_append, List.sum_append]
    omega

/-! ### C80 -/

/-- **C80, partial.** If the vocabulary is to be larger than the alphabet and some two characters are
adjacent often enough, the first merge joins two characters that are adjacent most often. -/
theorem C80_first_merge_partial (hp : Plain cfg) (hl : cfg.limitAlphabet = none)
    (hsmall : wc.length < 10000) (hn : (wc.map (·.1)).Nodup) {A : List Str} (hA : IsAlphabet cfg wc A)
    (hroom : (A.length : Int) < cfg.vocabSize) (h : Trains cfg addr wc r) {x y : Char}
    (hxy : (∃ e ∈ wc, x ∈ e.1) ∧ ∃ e ∈ wc, y ∈ e.1)
    (hf : 1 ≤ frequency [x, y] wc ∧ cfg.minFrequency ≤ frequency [x, y] wc) :
    ∃ a b v c d, r.model.merges a b = some v ∧ v.rank = 0 ∧ r.model.vocab [c] = some a ∧
      r.model.vocab [d] = some b ∧ ∀ x y, (∃ e ∈ wc, x ∈ e.1) → (∃ e ∈ wc, y ∈ e.1) →
        frequency [x, y] wc ≤ frequency [c, d] wc ∨ frequency [x, y] wc ≤ 0 := by
  obtain ⟨s, hr, hstop, rfl⟩ := h
  have hinv := (reach_inv hp hr).1
  obtain ⟨arrival, s0, a1, a2, a3⟩ := hr
  obtain ⟨rc, h0⟩ := first_of_start hp a1 a2
  have hkl : (keptChars cfg wc).length = A.length := by
    rw [keptChars_nolimit hl, (sortStrs_perm _).length_eq, (alphabet_perm hA).length_eq]
  have hkept : ∀ {z : Char}, (∃ e ∈ wc, z ∈ e.1) → [z] ∈ keptChars cfg wc := by
    rintro z ⟨e, he, hz⟩
    exact (nolimit_mem hl).2 (Or.inr ⟨e, he, z, hz, rfl⟩)
  -- a pair that occurs has a count
  have hsome : ∀ {x y : Char}, (∃ e ∈ wc, x ∈ e.1) → (∃ e ∈ wc, y ∈ e.1) → 1 ≤ frequency [x, y] wc →
      mget s0.pc ((mget s0.w2id [x]).getD 0, (mget s0.w2id [y]).getD 0) = some (frequency [x, y] wc) := by
    intro x y hx hy h1
    have := h0.count hn hsmall (hkept hx) (hkept hy)
    rw [nolimit_map hl] at this
    unfold pcOf at this
    cases hg : mget s0.pc ((mget s0.w2id [x]).getD 0, (mget s0.w2id [y]).getD 0) with
    | none => rw [hg] at this; simp at this; omega
    | some n => rw [hg] at this; simp at this; rw [this]
  rcases first_merge hp hsmall h0 a3 with rfl | ⟨p, i, l, j1, j2, j3⟩
  · exfalso
    obtain ⟨e, e1, e2, e3, _⟩ := h0.entry (hsome hxy.1 hxy.2 hf.1)
    rcases hstop with (hx | hx) | ⟨_, top, rest, order, t1, t2, t3⟩
    · have := exact_length h0.exact
      omega
    · rw [hx] at e1; cases e1
    · have hle := t1.2 e e1
      rcases round_cases (cfg := cfg) (counts := wordCounts wc) (order := order) h0.inv t1 with
        ⟨h4, _⟩ | ⟨h4, ⟨h5, h6⟩ | ⟨h5, h6⟩⟩
      · omega
      · rw [h6] at t3; cases t3
      · obtain ⟨words', rc', m1, _⟩ := mergeTop_spec hp h0.inv
          (by rw [wordCounts_length, h0.len]) t1 t2
        rw [h6, m1] at t3
        cases t3
  · obtain ⟨c, d, hc, hd, rfl⟩ := h0.pair_chars j2
    have hid : ∀ {z : Char}, [z] ∈ keptChars cfg wc →
        mget s.w2id [z] = some ((mget s0.w2id [z]).getD 0) := by
      intro z hz
      obtain ⟨n, hn⟩ := List.getElem?_of_mem hz
      rw [hinv.chars n z hn, (h0.exact.get [z] n).2 ⟨n, rfl, hn⟩]
      rfl
    refine ⟨_, _, ⟨0, i⟩, c, d, (merges_get hinv).2 ⟨0, by rw [j1]; rfl, rfl⟩, rfl, hid hc, hid hd, ?_⟩
    intro x y hx hy
    by_cases h1 : 1 ≤ frequency [x, y] wc
    · left
      have := j3 _ _ (hsome hx hy h1)
      rw [h0.count hn hsmall hc hd, nolimit_map hl] at this
      exact this
    · right; omega

theorem mergeRest_two {c1 c2 m i j : Int} {ss : List Symbol} (h : ss.map (·.c) = [i, j])
    (hne : ¬ (i = c1 ∧ j = c2)) : (mergeRest c1 c2 m none ss).1 = ss := by
  match ss with
  | [] => simp at h
  | [a] => simp at h
  | [a, b] =>
    simp only [List.map_cons, List.map_nil, List.cons.injEq, and_true] at h
    rw [(mergeRest_neg (by rw [h.1, h.2]; exact hne) none []).1]
    simp [mergeRest]
  | a :: b :: c :: v => simp at h

/-- **C80, partial.** If the vocabulary is not full at the end, every word of two characters whose
characters are adjacent often enough is a token. Missing: longer words. -/
theorem C80_two_chars_partial (hp : Plain cfg) (hl : cfg.limitAlphabet = none)
    (hsmall : wc.length < 10000) (hn : (wc.map (·.1)).Nodup) (h : Trains cfg addr wc r)
    (hroom : (r.vocab.length : Int) < cfg.vocabSize) {x y : Char} (hw : [x, y] ∈ wc.map (·.1))
    (hf : 1 ≤ frequency [x, y] wc ∧ cfg.minFrequency ≤ frequency [x, y] wc) :
    (r.model.vocab [x, y]).isSome := by
  obtain ⟨s, hr, hstop, rfl⟩ := h
  obtain ⟨arrival, s0, a1, a2, a3⟩ := hr
  obtain ⟨rc, h0⟩ := first_of_start hp a1 a2
  obtain ⟨e0, he0, hw0⟩ := List.mem_map.1 hw
  have hkx : [x] ∈ keptChars cfg wc := (nolimit_mem hl).2 (Or.inr ⟨e0, he0, x, by rw [hw0]; simp, rfl⟩)
  have hky : [y] ∈ keptChars cfg wc := (nolimit_mem hl).2 (Or.inr ⟨e0, he0, y, by rw [hw0]; simp, rfl⟩)
  obtain ⟨nx, hnx⟩ := List.getElem?_of_mem hkx
  obtain ⟨ny, hny⟩ := List.getElem?_of_mem hky
  have ix := (h0.exact.get [x] nx).2 ⟨nx, rfl, hnx⟩
  have iy := (h0.exact.get [y] ny).2 ⟨ny, rfl, hny⟩
  obtain ⟨k, hk⟩ := List.getElem?_of_mem (show [x, y] ∈ sortedKeys wc by
    unfold sortedKeys; rw [(sortStrs_perm _).mem_iff]; exact hw)
  have hpart : knownPart (keptChars cfg wc) [x, y] = [x, y] := by
    have := nolimit_part hl he0
    rwa [hw0] at this
  have hids := h0.ids hk
  rw [hpart] at hids
  simp only [List.map_cons, List.map_nil, ix, iy, Option.getD_some] at hids
  have hcnt := h0.count hn hsmall hkx hky
  rw [nolimit_map hl, ix, iy] at hcnt
  simp only [Option.getD_some] at hcnt
  have hsm : mget s0.pc ((nx : Int), (ny : Int)) = some (frequency [x, y] wc) := by
    unfold pcOf at hcnt
    cases hg : mget s0.pc ((nx : Int), (ny : Int)) with
    | none => rw [hg] at hcnt; simp at hcnt; omega
    | some n => rw [hg] at hcnt; simp at hcnt; rw [hcnt]
  obtain ⟨e, e1, e2, e3, ij, e4, e5⟩ := h0.entry hsm
  have hklt : k < wc.length := by
    have := (List.getElem?_eq_some_iff.1 hk).1
    rwa [sortedKeys_length] at this
  have hkpos : k ∈ e.pos := by
    rw [e5, chunks_one hsmall h0.perm e4]
    refine ⟨by simp, hklt, ?_⟩
    have := h0.seen0 hkx hky k
    rw [ix, iy] at this
    simp only [Option.getD_some] at this
    rw [this]
    have : ((startTexts cfg wc)[k]?).getD [] = [x, y] := by
      unfold startTexts
      rw [List.getElem?_map, hk]
      exact hpart
    rw [this]
    simp [occurrences, List.isPrefixOf]
  -- the entry stays in the queue until the pair is merged
  have key := Star.invariant (P := fun s => (Inv (keptChars cfg wc) (startTexts cfg wc) s ∧
    (wordCounts wc).length = s.words.length) ∧
    ((e ∈ s.queue ∧ (wordAt s.words k).map (·.c) = [(nx : Int), (ny : Int)]) ∨
      (mget s.w2id [x, y]).isSome)) ?_ a3
      ⟨⟨h0.inv, by rw [wordCounts_length, h0.len]⟩, Or.inl ⟨e1, hids⟩⟩
  · obtain ⟨⟨hinv, hlen⟩, ⟨q1, q2⟩ | hdone⟩ := key
    · exfalso
      have hroom' : ¬ (s.w2id.length : Int) ≥ cfg.vocabSize := by
        have : (s.w2id.length : Int) < cfg.vocabSize := hroom
        omega
      rcases hstop with (hx | hx) | ⟨_, top, rest, order, t1, t2, t3⟩
      · exact hroom' hx
      · rw [hx] at q1; cases q1
      · have hle := t1.2 e q1
        rcases round_cases (cfg := cfg) (counts := wordCounts wc) (order := order) hinv t1 with
          ⟨h4, _⟩ | ⟨h4, ⟨h5, h6⟩ | ⟨h5, h6⟩⟩
        · omega
        · rw [h6] at t3; cases t3
        · obtain ⟨words', rc', m1, _⟩ := mergeTop_spec hp hinv hlen t1 t2
          rw [h6, m1] at t3
          cases t3
    · exact hdone
  · rintro s t ⟨⟨i1, i2⟩, i3⟩ hst
    refine ⟨i1.step hp i2 hst, ?_⟩
    obtain ⟨_, top, rest, h1, _, _, hcase⟩ := step_cases hp i1 i2 hst
    rcases i3 with ⟨q1, q2⟩ | hdone
    · by_cases htop : top.pair = ((nx : Int), (ny : Int))
      · -- it is this pair's turn
        have hte : top = e := by
          have hd := (List.nodup_append.1 i1.distinct).1
          have hp' := (h1.1.map (·.pair)).nodup_iff.1 hd
          simp only [List.map_cons, List.nodup_cons] at hp'
          rcases List.mem_cons.1 (h1.1.mem_iff.1 q1) with h | h
          · exact h.symm
          · exact absurd (List.mem_map.2 ⟨e, h, by rw [e2, htop]⟩) hp'.1
        have hhas : ∃ k ∈ top.pos, hasPair top.pair.1 top.pair.2 (wordAt s.words k) = true := by
          refine ⟨k, by rw [hte]; exact hkpos, ?_⟩
          rw [htop]
          match hwk : wordAt s.words k, q2 with
          | [], q2 => simp at q2
          | [a], q2 => simp at q2
          | a :: b :: v, q2 =>
            simp only [List.map_cons, List.cons.injEq] at q2
            simp [hasPair, q2.1, q2.2.1]
        rcases hcase with ⟨hno, _⟩ | ⟨_, words', rc', rfl, _⟩
        · exact absurd hhas hno
        · right
          have hb : s.id2w = keptChars cfg wc ++ s.id2w.drop (keptChars cfg wc).length := by
            obtain ⟨L, b1, _⟩ := i1.base
            rw [b1]; simp
          have tx : textOf s.id2w (nx : Int) = [x] := by
            have := (List.getElem?_eq_some_iff.1 hnx).1
            unfold textOf
            rw [hb, Int.toNat_natCast, List.getElem?_append_left this, hnx]; rfl
          have ty : textOf s.id2w (ny : Int) = [y] := by
            have := (List.getElem?_eq_some_iff.1 hny).1
            unfold textOf
            rw [hb, Int.toNat_natCast, List.getElem?_append_left this, hny]; rfl
          have : pairText s.id2w top.pair = [x, y] := by
            unfold pairText
            rw [htop, tx, ty]; rfl
          simp only [this]
          rw [mget_mset, if_pos rfl]; rfl
      · -- another pair
        have hrest : e ∈ rest := by
          rcases List.mem_cons.1 (h1.1.mem_iff.1 q1) with h | h
          · rw [← h, e2] at htop; exact absurd rfl htop
          · exact h
        rcases hcase with ⟨_, rfl⟩ | ⟨_, words', rc', rfl, _, m3, _⟩
        · exact Or.inl ⟨hrest, q2⟩
        · left
          refine ⟨List.mem_append_left _ hrest, ?_⟩
          simp only
          rw [m3]
          split
          · rw [mergeRest_two q2]
            · exact q2
            · rintro ⟨h3, h4⟩
              exact htop (Prod.ext h3.symm h4.symm)
          · exact q2
    · right
      rcases hcase with ⟨_, rfl⟩ | ⟨_, words', rc', rfl, _⟩
      · exact hdone
      · simp only
        rw [mget_mset]
        split
        · rfl
        · exact hdone

/-- Training data in which a pair arises at the front of a word. -/
def frontWords : List (Str × Int) := [(['a', 'b', 'c'], 5), (['a', 'b'], 1)]

theorem frontWords_train : (train (newBpeTrainer 2 100) addr frontWords 10).map
    (fun r => (r.vocab, r.merges)) =
      some ([(['a'], 0), (['b'], 1), (['c'], 2), (['a', 'b'], 3)], [((0, 1), ⟨0, 3⟩)]) := by
  rw [train_plain ⟨rfl, rfl⟩ addr (fun _ _ => [])]
  decide +kernel

/-- **C80, violated.** Training stops although the vocabulary is not full and a training word that
is frequent enough is not yet a token: of `abc` (5 times) with `MinFrequency` 2 only `ab` is
learned, because the pair `ab`, `c` at the front of the word is not counted. -/
theorem C80_stops_early_violated : ∃ cfg wc, Plain cfg ∧ ∀ addr, ∃ r, Trains cfg addr wc r ∧
    (r.vocab.length : Int) < cfg.vocabSize ∧ ∃ w n, (w, n) ∈ wc ∧ 1 ≤ n ∧ cfg.minFrequency ≤ n ∧
      r.model.vocab w = none := by
  refine ⟨newBpeTrainer 2 100, frontWords, ⟨rfl, rfl⟩, fun addr => ?_⟩
  have h := frontWords_train (addr := addr)
  rw [Option.map_eq_some_iff] at h
  obtain ⟨r, h1, h2⟩ := h
  simp only [Prod.mk.injEq] at h2
  refine ⟨r, train_trains h1, ?_, ['a', 'b', 'c'], 5, by simp [frontWords], by decide, by decide, ?_⟩
  · rw [h2.1]; decide
  · obtain ⟨s, _, _, rfl⟩ := train_trains h1
    have : s.w2id = [(['a'], 0), (['b'], 1), (['c'], 2), (['a', 'b'], 3)] := h2.1
    show mget s.w2id _ = none
    rw [this]
    decide

end Tok.Train
