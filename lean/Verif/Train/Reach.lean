import Verif.Train.Inv

/-! # Reachable states: lemmas -/

namespace Tok.Train

/-- What a step is: the entry of a pair that occurs nowhere any more is dropped, or the pair
is merged. -/
theorem step_cases {cfg : Cfg} (hp : Plain cfg) {counts : List Int} {kept W : List Str} {s s' : State}
    (h : Inv kept W s) (hl : counts.length = s.words.length) (hs : Step cfg counts s s') :
    ¬ Full cfg s ∧ ∃ top rest, Pops s.queue top rest ∧ 1 ≤ top.count ∧ cfg.minFrequency ≤ top.count ∧
      ((¬ (∃ k ∈ top.pos, hasPair top.pair.1 top.pair.2 (wordAt s.words k) = true) ∧
          s' = { s with queue := rest }) ∨
        ((∃ k ∈ top.pos, hasPair top.pair.1 top.pair.2 (wordAt s.words k) = true) ∧
          ∃ words' rc, s' = ⟨mset s.w2id (pairText s.id2w top.pair) (s.id2w.length : Int),
              s.id2w ++ [pairText s.id2w top.pair], words', rc.pc, rest ++ newEntries rc,
              s.merges ++ [(top.pair, (s.id2w.length : Int))]⟩ ∧
            words'.length = s.words.length ∧
            (∀ k, wordAt words' k = if k ∈ top.pos then
              (mergeRest top.pair.1 top.pair.2 (s.id2w.length : Int) none (wordAt s.words k)).1
              else wordAt s.words k) ∧
            CountsFrom s.pc rc (fun p => (top.pos.map fun k => countAt counts k *
                (newIn top.pair.1 top.pair.2 (s.id2w.length : Int) s.words k p : Nat)).sum)
              (fun p k => k ∈ top.pos ∧
                0 < newIn top.pair.1 top.pair.2 (s.id2w.length : Int) s.words k p))) := by
  obtain ⟨hf, top, rest, order, h1, h2, h3⟩ := hs
  refine ⟨hf, top, rest, h1, ?_⟩
  rcases round_cases (cfg := cfg) (counts := counts) (order := order) h h1 with ⟨_, h4⟩ | ⟨h4, ⟨h5, h6⟩ | ⟨h5, h6⟩⟩
  · rw [h4] at h3; cases h3
  · rw [h6] at h3
    cases h3
    exact ⟨h4.1, h4.2, Or.inl ⟨h5, rfl⟩⟩
  · obtain ⟨words', rc, m1, m2, m3, m4⟩ := mergeTop_spec hp h hl h1 h2
    rw [h6, m1] at h3
    cases h3
    exact ⟨h4.1, h4.2, Or.inr ⟨h5, words', rc, rfl, m2, m3, m4⟩⟩

theorem Inv.drop {kept W : List Str} {s : State} (h : Inv kept W s) {top : TMerge} {rest : List TMerge}
    (ht : Pops s.queue top rest) : Inv kept W { s with queue := rest } := by
  refine ⟨h.base, h.mergeIds, h.mergeOk, h.tab, h.all, h.keys, h.chars, h.syms, h.spells, h.pcKeys, h.pcOk,
    fun e he => h.queue e (ht.sub he), ?_⟩
  have hperm : (s.queue.map (·.pair) ++ s.merges.map (·.1)).Perm
      ((top.pair :: rest.map (·.pair)) ++ s.merges.map (·.1)) :=
    List.Perm.append_right _ (by simpa using ht.1.map (·.pair))
  have := hperm.nodup_iff.1 h.distinct
  rw [List.cons_append, List.nodup_cons] at this
  exact this.2

theorem Inv.step {cfg : Cfg} (hp : Plain cfg) {counts : List Int} {kept W : List Str} {s s' : State}
    (h : Inv kept W s) (hl : counts.length = s.words.length) (hs : Step cfg counts s s') :
    Inv kept W s' ∧ counts.length = s'.words.length := by
  obtain ⟨_, top, rest, h1, _, _, ⟨_, rfl⟩ | ⟨_, words', rc, rfl, m2, m3, m4⟩⟩ := step_cases hp h hl hs
  · exact ⟨h.drop h1, hl⟩
  · exact ⟨h.merge h1 m2 m3 m4, by rw [hl]; exact m2.symm⟩

/-- Reaching a state keeps what holds at the start and is kept by every step. -/
theorem reach_ind {cfg : Cfg} (hp : Plain cfg) {addr : Nat → Nat → Str} {wc : List (Str × Int)}
    (P : State → Prop)
    (h0 : ∀ s r arrival, arrival.Perm (chunks wc.length) →
      Inv (keptChars cfg wc) (startTexts cfg wc) s → s.merges = [] → s.id2w = keptChars cfg wc →
      Exact s.w2id (keptChars cfg wc) → s.pc = r.pc → s.queue = firstQueue r → s.words.length = wc.length →
      Counted s.words (wordCounts wc) arrival r → P s)
    (h1 : ∀ s s', Inv (keptChars cfg wc) (startTexts cfg wc) s → (wordCounts wc).length = s.words.length →
      P s → Step cfg (wordCounts wc) s s' → P s') :
    ∀ s, Reaches cfg addr wc s →
      (Inv (keptChars cfg wc) (startTexts cfg wc) s ∧ (wordCounts wc).length = s.words.length) ∧ P s := by
  rintro s ⟨arrival, s0, ha, hs, hstar⟩
  obtain ⟨s1, r, a1, a2, a3, a4, a5, a6, a7, a8, a9, _⟩ := start_spec hp addr wc arrival ha
  rw [hs] at a1
  cases a1
  refine Star.invariant (P := fun s => (Inv (keptChars cfg wc) (startTexts cfg wc) s ∧
    (wordCounts wc).length = s.words.length) ∧ P s) ?_ hstar ?_
  · rintro s t ⟨⟨i1, i2⟩, i3⟩ hst
    exact ⟨i1.step hp i2 hst, h1 s t i1 i2 i3 hst⟩
  · exact ⟨⟨a2, by rw [wordCounts_length, a3]⟩, h0 s0 r arrival ha a2 a4 a5 a6 a7 a8 a3 a9⟩

theorem reach_inv {cfg : Cfg} (hp : Plain cfg) {addr : Nat → Nat → Str} {wc : List (Str × Int)} {s : State}
    (h : Reaches cfg addr wc s) :
    Inv (keptChars cfg wc) (startTexts cfg wc) s ∧ (wordCounts wc).length = s.words.length :=
  (reach_ind hp (fun _ => True) (fun _ _ _ _ _ _ _ _ _ _ _ _ => trivial) (fun _ _ _ _ _ _ => trivial) s h).1

/-! ### The size of the vocabulary -/

theorem exact_length {m : List (Str × Int)} {a : List Str} (h : Exact m a) : m.length = a.length := by
  have := congrArg List.length h.keys
  simpa using this

theorem reach_size {cfg : Cfg} (hp : Plain cfg) {addr : Nat → Nat → Str} {wc : List (Str × Int)} {s : State}
    (h : Reaches cfg addr wc s) :
    (s.w2id.length : Int) ≤ max cfg.vocabSize ((keptChars cfg wc).length : Int) := by
  refine (reach_ind hp (fun s => (s.w2id.length : Int) ≤ max cfg.vocabSize ((keptChars cfg wc).length : Int))
    ?_ ?_ s h).2
  · intro s r arrival _ _ _ _ he _ _ _ _
    rw [exact_length he]
    omega
  · intro s s' hi hl hP hs
    obtain ⟨hf, top, rest, h1, _, _, ⟨_, rfl⟩ | ⟨_, words', rc, rfl, m2, m3, m4⟩⟩ := step_cases hp hi hl hs
    · exact hP
    · simp only
      rw [mset_length]
      have : ¬ ((s.w2id.length : Int) ≥ cfg.vocabSize) := fun hx => hf (Or.inl hx)
      split
      · exact hP
      · omega

/-! ### How often tokens occur -/

/-- How often a text occurs in words with the given counts. -/
def freqIn (counts : List Int) (W : List Str) (t : Str) : Int :=
  ((List.range W.length).map fun k => countAt counts k * (occurrences t ((W[k]?).getD []) : Int)).sum

/-- The counts are not negative. -/
def NonNeg (counts : List Int) : Prop := ∀ c ∈ counts, 0 ≤ c

theorem NonNeg.countAt {counts : List Int} (h : NonNeg counts) (k : Nat) : 0 ≤ countAt counts k := by
  unfold Train.countAt
  cases hg : counts[k]? with
  | none => simp
  | some c => simpa using h c (List.mem_of_getElem? hg)

/-- A sum over part of a range is at most the whole. -/
theorem sum_part_le (f : Nat → Int) (hf : ∀ k, 0 ≤ f k) (l : List Nat) (n : Nat) (hn : l.Nodup)
    (hb : ∀ k ∈ l, k < n) : (l.map f).sum ≤ ((List.range n).map f).sum := by
  induction l generalizing f with
  | nil =>
    have : ∀ (m : List Nat), 0 ≤ (m.map f).sum := by
      intro m
      induction m with
      | nil => simp
      | cons a m ih => simp only [List.map_cons, List.sum_cons]; have := hf a; omega
    exact this _
  | cons a l ih =>
    simp only [List.nodup_cons] at hn
    have h1 := ih (fun k => if k = a then 0 else f k) (by intro k; split; omega; exact hf k) hn.2
      (fun k hk => hb k (by simp [hk]))
    have h2 : (l.map fun k => if k = a then 0 else f k) = l.map f := by
      apply List.map_congr_left
      intro k hk
      rw [if_neg]
      rintro rfl; exact hn.1 hk
    rw [h2] at h1
    have h3 : ∀ m : Nat, ((List.range m).map fun k => if k = a then 0 else f k).sum +
        (if a < m then f a else 0) = ((List.range m).map f).sum := by
      intro m
      induction m with
      | zero => simp
      | succ m ihm =>
        rw [List.range_succ, List.map_append, List.map_append, List.sum_append, List.sum_append, ← ihm]
        simp only [List.map_cons, List.map_nil, List.sum_cons, List.sum_nil]
        by_cases hm : m = a
        · subst hm
          have e1 : ¬ m < m := by omega
          have e2 : m < m + 1 := by omega
          simp only [e1, e2, if_true, if_false]
          omega
        · rw [if_neg hm]
          by_cases hlt : a < m
          · rw [if_pos hlt, if_pos (by omega)]; omega
          · rw [if_neg hlt, if_neg (by omega)]; omega
    have := h3 n
    rw [if_pos (hb a (by simp))] at this
    rw [List.map_cons, List.sum_cons, ← this]
    omega

theorem spells_at {words : List (List Symbol)} {T : Int → Str} {W : List Str} (h : words.map (spell T) = W)
    (k : Nat) : (W[k]?).getD [] = spell T (wordAt words k) := by
  rw [← h, List.getElem?_map]
  unfold wordAt
  cases words[k]? <;> rfl

/-- The counts of the pairs do not exceed the number of times their text occurs. -/
def PcBound (counts : List Int) (W : List Str) (s : State) : Prop :=
  ∀ p, (mget s.pc p).isSome → pcOf s.pc p ≤ freqIn counts W (pairText s.id2w p)

/-- The learned tokens occur often enough. -/
def Learned (cfg : Cfg) (counts : List Int) (kept W : List Str) (s : State) : Prop :=
  ∀ (n : Nat) t, kept.length ≤ n → s.id2w[n]? = some t →
    1 ≤ freqIn counts W t ∧ cfg.minFrequency ≤ freqIn counts W t

theorem windows_sum {counts : List Int} (hn : NonNeg counts) {kept W : List Str} {s : State}
    (h : Inv kept W s) {arrival : List (Nat × Nat)} {n : Nat} (hw : s.words.length = n)
    (ha : arrival.Perm (chunks n)) (p : Pair) :
    (arrival.map fun ij => chunkSum s.words counts ij p).sum ≤ freqIn counts W (pairText s.id2w p) := by
  have e1 := sum_perm (fun ij => chunkSum s.words counts ij p) ha
  rw [e1]
  have hW : W.length = n := by rw [← h.spells, List.length_map, hw]
  have bound : ∀ k (i : Nat), countAt counts k * (seen s.words i k p : Int) ≤
      countAt counts k * (occurrences (pairText s.id2w p) ((W[k]?).getD []) : Int) := by
    intro k i
    apply Int.mul_le_mul_of_nonneg_left _ (hn.countAt k)
    rw [spells_at h.spells]
    have := windows_occ (textOf s.id2w) p i (wordAt s.words k).length (wordAt s.words k)
      (fun x hx => (h.syms k x hx).ne)
    unfold seen pairText
    omega
  unfold freqIn
  rw [hW]
  have e2 := (chunks_spec n).2
  rw [← e2, ← sum_flatMap_map]
  apply sum_map_le
  intro ij _
  unfold chunkSum
  apply sum_map_le
  intro k _
  exact bound k ij.1

theorem reach_learned {cfg : Cfg} (hp : Plain cfg) {addr : Nat → Nat → Str} {wc : List (Str × Int)}
    (hn : NonNeg (wordCounts wc)) {s : State} (h : Reaches cfg addr wc s) :
    PcBound (wordCounts wc) (startTexts cfg wc) s ∧
      Learned cfg (wordCounts wc) (keptChars cfg wc) (startTexts cfg wc) s := by
  refine (reach_ind hp (fun s => PcBound (wordCounts wc) (startTexts cfg wc) s ∧
      Learned cfg (wordCounts wc) (keptChars cfg wc) (startTexts cfg wc) s) ?_ ?_ s h).2
  · intro s r arrival ha hi _ hid _ hpc _ hlen hc
    refine ⟨?_, ?_⟩
    · intro p _
      rw [hpc, hc.pc]
      exact windows_sum hn hi hlen ha p
    · intro n t h1 h2
      rw [hid] at h2
      have := (List.getElem?_eq_some_iff.1 h2).1
      omega
  · intro s s' hi hl hP hs
    obtain ⟨hf, top, rest, h1, t1, t2, ⟨_, rfl⟩ | ⟨_, words', rc, rfl, m2, m3, m4⟩⟩ := step_cases hp hi hl hs
    · exact hP
    · obtain ⟨q1, q2, q3⟩ := hi.queue top h1.mem
      have hpk := hi.pcOk top.pair (by rw [q1]; rfl)
      have htop : top.count ≤ freqIn (wordCounts wc) (startTexts cfg wc) (pairText s.id2w top.pair) := by
        have := hP.1 top.pair (by rw [q1]; rfl)
        unfold pcOf at this
        rw [q1] at this
        exact this
      have hnew : textOf (s.id2w ++ [pairText s.id2w top.pair]) (s.id2w.length : Int) =
        pairText s.id2w top.pair := textOf_new _ _
      have hi' := hi.merge h1 m2 m3 m4
      refine ⟨?_, ?_⟩
      · intro p hps
        simp only at hps ⊢
        rw [m4.pc]
        by_cases hold : (mget s.pc p).isSome
        · -- an old pair: nothing new is reported
          have hok := hi.pcOk p hold
          have hz : ∀ k ∈ top.pos, countAt (wordCounts wc) k *
              (newIn top.pair.1 top.pair.2 (s.id2w.length : Int) s.words k p : Nat) = 0 := by
            intro k _
            cases hz : newIn top.pair.1 top.pair.2 (s.id2w.length : Int) s.words k p with
            | zero => simp
            | succ z =>
              exfalso
              have := (newIn_pairs hi (k := k) (p := p) (by rw [hz]; omega)).1
              have := hok.ok1.2
              have := hok.ok2.2
              omega
          have hs0 : (top.pos.map fun k => countAt (wordCounts wc) k *
              (newIn top.pair.1 top.pair.2 (s.id2w.length : Int) s.words k p : Nat)).sum ≤
              (top.pos.map fun _ => (0 : Int)).sum := sum_map_le _ _ _ (fun k hk => by rw [hz k hk]; omega)
          have hs1 : (top.pos.map fun _ => (0 : Int)).sum = 0 := by
            induction top.pos with
            | nil => rfl
            | cons a l ih => simpa using ih
          have := hP.1 p hold
          rw [hok.text]
          omega
        · have h0 : pcOf s.pc p = 0 := by
            unfold pcOf
            simp only [Option.not_isSome_iff_eq_none] at hold
            rw [hold]; rfl
          rw [h0, Int.zero_add]
          have hWl : (startTexts cfg wc).length = s.words.length := by
            rw [← hi.spells, List.length_map]
          refine Int.le_trans (b := (top.pos.map fun k => countAt (wordCounts wc) k *
            (occurrences (pairText (s.id2w ++ [pairText s.id2w top.pair]) p)
              (((startTexts cfg wc)[k]?).getD []) : Int)).sum) ?_ ?_
          · apply sum_map_le
            intro k _
            apply Int.mul_le_mul_of_nonneg_left _ (hn.countAt k)
            have e1 : ((startTexts cfg wc)[k]?).getD [] =
                spell (textOf (s.id2w ++ [pairText s.id2w top.pair])) (wordAt s.words k) := by
              rw [spells_at hi.spells]
              apply spell_congr
              intro x hx
              exact (textOf_append (hi.syms k x hx).ok _).symm
            rw [e1]
            have := ups_occ_none top.pair.1 top.pair.2 (s.id2w.length : Int)
              (textOf (s.id2w ++ [pairText s.id2w top.pair]))
              (by rw [hnew, textOf_append hpk.ok1, textOf_append hpk.ok2]; rfl) p (wordAt s.words k)
              (fun x hx => by
                have hx := hi.syms k x hx
                have := hx.ok.2
                exact ⟨by omega, by rw [textOf_append hx.ok]; exact hx.ne⟩)
            unfold newIn pairText at *
            omega
          · exact sum_part_le (fun k => countAt (wordCounts wc) k *
              (occurrences (pairText (s.id2w ++ [pairText s.id2w top.pair]) p)
                (((startTexts cfg wc)[k]?).getD []) : Int))
              (fun k => Int.mul_nonneg (hn.countAt k) (by omega)) top.pos _ q2
              (fun k hk => by rw [hWl]; exact q3 k hk)
      · intro n t hk hg
        simp only at hg
        rw [List.getElem?_append] at hg
        split at hg
        · exact hP.2 n t hk hg
        · rw [List.getElem?_singleton] at hg
          split at hg
          · cases hg
            omega
          · cases hg

end Tok.Train
