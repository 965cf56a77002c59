import Verif.Train.Result

/-! # Where learned tokens come from; sorted words: lemmas -/

namespace Tok.Train

/-! ### Sorting -/

theorem strLe_refl (a : Str) : strLe a a = true := by
  induction a with
  | nil => rfl
  | cons x a ih => simp [strLe, ih]

theorem strLe_total (a b : Str) : strLe a b = true ∨ strLe b a = true := by
  induction a generalizing b with
  | nil => exact Or.inl rfl
  | cons x a ih =>
    cases b with
    | nil => exact Or.inr rfl
    | cons y b =>
      simp only [strLe, Bool.or_eq_true, decide_eq_true_eq, Bool.and_eq_true, beq_iff_eq]
      rcases Nat.lt_trichotomy x.toNat y.toNat with h | h | h
      · exact Or.inl (Or.inl h)
      · rcases ih b with h' | h'
        · exact Or.inl (Or.inr ⟨h, h'⟩)
        · exact Or.inr (Or.inr ⟨h.symm, h'⟩)
      · exact Or.inr (Or.inl h)

theorem strLe_trans {a b c : Str} (h1 : strLe a b = true) (h2 : strLe b c = true) : strLe a c = true := by
  induction a generalizing b c with
  | nil => rfl
  | cons x a ih =>
    cases b with
    | nil => cases h1
    | cons y b =>
      cases c with
      | nil => cases h2
      | cons z c =>
        simp only [strLe, Bool.or_eq_true, decide_eq_true_eq, Bool.and_eq_true, beq_iff_eq] at h1 h2 ⊢
        rcases h1 with h1 | ⟨h1, h1'⟩ <;> rcases h2 with h2 | ⟨h2, h2'⟩
        · left; omega
        · left; omega
        · left; omega
        · right; exact ⟨by omega, ih h1' h2'⟩

theorem strLe_antisymm {a b : Str} (h1 : strLe a b = true) (h2 : strLe b a = true) : a = b := by
  induction a generalizing b with
  | nil =>
    cases b with
    | nil => rfl
    | cons y b => cases h2
  | cons x a ih =>
    cases b with
    | nil => cases h1
    | cons y b =>
      simp only [strLe, Bool.or_eq_true, decide_eq_true_eq, Bool.and_eq_true, beq_iff_eq] at h1 h2
      rcases h1 with h1 | ⟨h1, h1'⟩
      · omega
      · rcases h2 with h2 | ⟨h2, h2'⟩
        · omega
        · rw [ih h1' h2', Char.toNat_inj.1 h1]

theorem insertStr_sorted {a : Str} {l : List Str} (h : l.Pairwise (strLe · ·)) :
    (insertStr a l).Pairwise (strLe · ·) := by
  induction l with
  | nil => simp [insertStr]
  | cons b l ih =>
    rw [List.pairwise_cons] at h
    simp only [insertStr]
    split
    · next hab =>
      rw [List.pairwise_cons]
      refine ⟨?_, List.pairwise_cons.2 h⟩
      intro x hx
      rcases List.mem_cons.1 hx with rfl | hx
      · exact hab
      · exact strLe_trans hab (h.1 x hx)
    · next hab =>
      rw [List.pairwise_cons]
      refine ⟨?_, ih h.2⟩
      intro x hx
      rcases List.mem_cons.1 ((insertStr_perm a l).mem_iff.1 hx) with rfl | hx
      · rcases strLe_total x b with h' | h'
        · exact absurd h' hab
        · exact h'
      · exact h.1 x hx

theorem sortStrs_sorted (l : List Str) : (sortStrs l).Pairwise (strLe · ·) := by
  induction l with
  | nil => exact .nil
  | cons a l ih => exact insertStr_sorted ih

/-- The words before a word in sorted order. -/
theorem before_le {l : List Str} (hn : l.Nodup) {k : Nat} {w : Str} (hk : (sortStrs l)[k]? = some w) :
    (l.filter fun x => decide (x ≠ w) && strLe x w).length ≤ k := by
  have hn' := (sortStrs_perm l).nodup_iff.2 hn
  have hs := sortStrs_sorted l
  rw [← ((sortStrs_perm l).filter _).length_eq]
  generalize sortStrs l = s at *
  have hlt := (List.getElem?_eq_some_iff.1 hk).1
  have hw := (List.getElem?_eq_some_iff.1 hk).2
  have : s = s.take k ++ w :: s.drop (k + 1) := by
    rw [← hw]
    simp
  rw [this] at hs hn' ⊢
  rw [List.filter_append, List.length_append]
  have h1 : ((w :: s.drop (k + 1)).filter fun x => decide (x ≠ w) && strLe x w) = [] := by
    rw [List.filter_eq_nil_iff]
    intro x hx hc
    simp only [ne_eq, decide_not, Bool.and_eq_true, Bool.not_eq_eq_eq_not, Bool.not_true,
      decide_eq_false_iff_not] at hc
    rcases List.mem_cons.1 hx with rfl | hx
    · exact hc.1 rfl
    · have := (List.pairwise_cons.1 (List.pairwise_append.1 hs).2.1).1 x hx
      exact hc.1 (strLe_antisymm hc.2 this)
  rw [h1]
  have := List.length_filter_le (fun x => decide (x ≠ w) && strLe x w) (s.take k)
  have := List.length_take_le k s
  simp only [List.length_nil]
  omega

/-! ### Where learned tokens occur -/

theorem hasPair_spell {c1 c2 : Int} {T : Int → Str} {ss : List Symbol} (h : hasPair c1 c2 ss = true) :
    (T c1 ++ T c2) <:+: spell T ss := by
  induction ss with
  | nil => cases h
  | cons a ss ih =>
    cases ss with
    | nil => cases h
    | cons b v =>
      simp only [hasPair, Bool.or_eq_true, decide_eq_true_eq] at h
      rcases h with ⟨rfl, rfl⟩ | h
      · exact ⟨[], spell T v, by simp [spell]⟩
      · obtain ⟨x, y, hxy⟩ := ih h
        exact ⟨T a.c ++ x, y, by
          show _ = T a.c ++ spell T (b :: v)
          rw [← hxy]; simp⟩

/-- Every learned token occurs in a word satisfying `Q`, every place of a queue entry satisfies `Q`. -/
def Near (Q : Nat → Prop) (kept W : List Str) (s : State) : Prop :=
  (∀ e ∈ s.queue, ∀ k ∈ e.pos, Q k) ∧
    ∀ (n : Nat) t, kept.length ≤ n → s.id2w[n]? = some t →
      2 ≤ t.length ∧ ∃ k w, Q k ∧ W[k]? = some w ∧ t <:+: w

theorem reach_near {cfg : Cfg} (hp : Plain cfg) {addr : Nat → Nat → Str} {wc : List (Str × Int)}
    (Q : Nat → Prop)
    (hQ : ∀ ij ∈ chunks wc.length, ∀ k, ij.1 ≤ k → k < ij.2 → ∀ w, (startTexts cfg wc)[k]? = some w →
      (ij.1 : Int) < (w.length : Int) - 1 → Q k) {s : State} (h : Reaches cfg addr wc s) :
    Near Q (keptChars cfg wc) (startTexts cfg wc) s := by
  refine (reach_ind hp (Near Q (keptChars cfg wc) (startTexts cfg wc)) ?_ ?_ s h).2
  · intro s r arrival ha hi _ hid _ _ hq hlen hc
    refine ⟨?_, ?_⟩
    · intro e he k hk
      rw [hq] at he
      obtain ⟨e1, e2⟩ := mem_firstQueue he
      obtain ⟨ij, hij, hn, hm⟩ := hc.wt e.pair e.pos (mget_of_mem hc.keys_wt e1)
      obtain ⟨s1, s2, s3⟩ := (hm k).1 hk
      have hb := ((chunks_spec wc.length).1 ij (ha.mem_iff.1 hij)).2
      have hkl : k < (startTexts cfg wc).length := by
        rw [← hi.spells, List.length_map]; omega
      have hw := spells_at hi.spells k
      rw [List.getElem?_eq_getElem hkl] at hw
      simp only [Option.getD_some] at hw
      refine hQ ij (ha.mem_iff.1 hij) k s1 s2 _ (List.getElem?_eq_getElem hkl) ?_
      rw [hw]
      have hne : windows ij.1 (wordAt s.words k).length (wordAt s.words k) ≠ [] := by
        intro hx
        unfold seen at s3
        rw [hx] at s3
        simp at s3
      have hlt : (ij.1 : Int) < ((wordAt s.words k).length : Int) - 1 := by
        revert hne
        generalize (wordAt s.words k).length = m
        cases wordAt s.words k with
        | nil => intro hx; exact absurd rfl hx
        | cons a v =>
          cases v with
          | nil => intro hx; exact absurd rfl hx
          | cons b v =>
            simp only [windows]
            split
            · next h => intro _; exact h
            · intro hx; exact absurd rfl hx
      have hle : (wordAt s.words k).length ≤ (spell (textOf s.id2w) (wordAt s.words k)).length := by
        have := hi.syms k
        revert this
        generalize wordAt s.words k = v
        intro hv
        induction v with
        | nil => simp
        | cons a v ih =>
          have := ih (fun x hx => hv x (by simp [hx]))
          have h1 := List.length_pos_iff.2 (hv a (by simp)).ne
          show v.length + 1 ≤ (textOf s.id2w a.c ++ spell (textOf s.id2w) v).length
          rw [List.length_append]
          omega
      omega
    · intro n t h1 h2
      rw [hid] at h2
      have := (List.getElem?_eq_some_iff.1 h2).1
      omega
  · intro s s' hi hl hP hs
    obtain ⟨hf, top, rest, h1, _, _, ⟨_, rfl⟩ | ⟨⟨k, k1, k2⟩, words', rc, rfl, m2, m3, m4⟩⟩ := step_cases hp hi hl hs
    · exact ⟨fun e he => hP.1 e (h1.sub he), hP.2⟩
    · obtain ⟨q1, q2, q3⟩ := hi.queue top h1.mem
      have hpk := hi.pcOk top.pair (by rw [q1]; rfl)
      refine ⟨?_, ?_⟩
      · intro e he j hj
        simp only [List.mem_append] at he
        rcases he with he | he
        · exact hP.1 e (h1.sub he) j hj
        · obtain ⟨e1, _⟩ := mem_newEntries he
          have := ((m4.wt e.pair e.pos (mget_of_mem m4.keys_wt e1)).2 j).1 hj
          exact hP.1 top h1.mem j this.1
      · intro n t hk hg
        simp only at hg
        rw [List.getElem?_append] at hg
        split at hg
        · exact hP.2 n t hk hg
        · rw [List.getElem?_singleton] at hg
          split at hg
          · cases hg
            have l1 := List.length_pos_iff.2 hpk.ne1
            have l2 := List.length_pos_iff.2 hpk.ne2
            refine ⟨by unfold pairText; rw [List.length_append]; omega,
              k, spell (textOf s.id2w) (wordAt s.words k), hP.1 top h1.mem k k1, ?_, hasPair_spell k2⟩
            have hkl : k < (startTexts cfg wc).length := by
              rw [← hi.spells, List.length_map]; exact q3 k k1
            have hw := spells_at hi.spells k
            rw [List.getElem?_eq_getElem hkl] at hw ⊢
            simp only [Option.getD_some] at hw
            rw [hw]
          · cases hg

/-- What the entries of the vocabulary are. -/
theorem vocab_cases {kept W : List Str} {s : State} (h : Inv kept W s) {t : Str} {i : Int}
    (hv : mget s.w2id t = some i) :
    (t ∈ kept) ∨ ∃ n : Nat, kept.length ≤ n ∧ s.id2w[n]? = some t := by
  obtain ⟨n, _, hn⟩ := h.tab t i hv
  by_cases hk : n < kept.length
  · left
    obtain ⟨L, b1, _⟩ := h.base
    rw [b1, List.getElem?_append_left hk] at hn
    exact List.mem_of_getElem? hn
  · exact Or.inr ⟨n, by omega, hn⟩

theorem mem_knownPart {kept : List Str} {w : Str} {c : Char} (h : c ∈ knownPart kept w) : c ∈ w :=
  (List.mem_filter.1 h).1

theorem startTexts_at {cfg : Cfg} {wc : List (Str × Int)} {k : Nat} {w : Str}
    (h : (startTexts cfg wc)[k]? = some w) :
    ∃ v, (sortedKeys wc)[k]? = some v ∧ w = knownPart (keptChars cfg wc) v ∧ ∃ e ∈ wc, e.1 = v := by
  unfold startTexts at h
  rw [List.getElem?_map, Option.map_eq_some_iff] at h
  obtain ⟨v, h1, h2⟩ := h
  have := List.mem_of_getElem? h1
  unfold sortedKeys at this
  obtain ⟨e, he⟩ := List.mem_map.1 ((sortStrs_perm _).mem_iff.1 this)
  exact ⟨v, h1, h2.symm, e, he⟩

theorem chunksFrom_ge (n size fuel : Nat) : ∀ i j, i ≤ j → ∀ ij ∈ chunksFrom n size fuel i j, i ≤ ij.1 := by
  induction fuel with
  | zero => intro i j _ ij h; cases h
  | succ fuel ih =>
    intro i j hij x hx
    simp only [chunksFrom] at hx
    split at hx
    · next hi =>
      rcases List.mem_cons.1 hx with rfl | hx
      · exact Nat.le_refl _
      · have : i ≤ (if j > n then n else j) := by split <;> omega
        exact Nat.le_trans this (ih _ _ (by omega) x hx)
    · cases hx

theorem chunks_large {n : Nat} (h : 10000 ≤ n) : ∀ ij ∈ chunks n, ij = (0, n / 4) ∨ n / 4 ≤ ij.1 := by
  intro x hx
  have hs : chunkSize n = n / 4 := by
    simp only [chunkSize]
    rw [if_neg (show ¬ n < 10000 by omega), if_neg (by omega)]
  obtain ⟨m, rfl⟩ : ∃ m, n = m + 1 := ⟨n - 1, by omega⟩
  unfold chunks at hx
  rw [hs] at hx
  simp only [chunksFrom] at hx
  rw [if_pos (by omega), if_neg (by omega)] at hx
  rcases List.mem_cons.1 hx with rfl | hx
  · exact Or.inl rfl
  · exact Or.inr (chunksFrom_ge _ _ _ _ _ (by omega) x hx)

end Tok.Train
