import Verif.Files.Lemmas

/-! C49. -/

namespace Tok.Files

/-- The line of a merge. -/
def mergeLine (e : Str × Str) : Str := e.1 ++ ' ' :: e.2

/-- Both operands are in the vocabulary. -/
def known (vocab : Str → Option Int) (e : Str × Str) : Bool := (vocab e.1).isSome && (vocab e.2).isSome

/-- The ids of the operands. -/
def HasIds (vocab : Str → Option Int) (e : Str × Str) (ab : Int × Int) : Prop :=
  vocab e.1 = some ab.1 ∧ vocab e.2 = some ab.2

theorem mergesLoop_line (vocab : Str → Option Int) (e : Str × Str) (hp : ' ' ∉ e.1) (hq : ' ' ∉ e.2)
    (ls : List Str) (n : Nat) (m : Merges) :
    mergesLoop vocab (mergeLine e :: ls) n m =
      match vocab e.1, vocab e.2 with
      | some a, some b =>
        match vocab (e.1 ++ e.2) with
        | none => .err
        | some id => mergesLoop vocab ls (n + 1) (mset m (a, b) ((n : Int), id))
      | _, _ => mergesLoop vocab ls n m := by
  rw [mergesLoop, mergeLine, splitSpace_two _ _ _ hp hq]
  simp only [List.nil_append]
  cases vocab e.1 with
  | none => rfl
  | some a =>
    cases vocab e.2 with
    | none => rfl
    | some b => rfl

theorem mergesLoop_ok (vocab : Str → Option Int) :
    ∀ (es : List (Str × Str)) (n : Nat) (m m' : Merges),
      (∀ e ∈ es, ' ' ∉ e.1 ∧ ' ' ∉ e.2) →
      mergesLoop vocab (es.map mergeLine) n m = .ok m' →
      ∀ ab r id, mget m' ab = some (r, id) ↔
        (∃ i e, r = ((n + i : Nat) : Int) ∧ (es.filter (known vocab))[i]? = some e ∧ HasIds vocab e ab ∧
          vocab (e.1 ++ e.2) = some id ∧
          ∀ i' e', i < i' → (es.filter (known vocab))[i']? = some e' → ¬ HasIds vocab e' ab) ∨
        ((∀ e ∈ es.filter (known vocab), ¬ HasIds vocab e ab) ∧ mget m ab = some (r, id)) := by
  intro es
  induction es with
  | nil =>
    intro n m m' _ h ab r id
    simp only [List.map_nil, mergesLoop, Res.ok.injEq] at h
    subst h
    simp
  | cons e es ih =>
    intro n m m' hs h ab r id
    obtain ⟨hp, hq⟩ := hs e List.mem_cons_self
    have hs' := fun x hx => hs x (List.mem_cons_of_mem _ hx)
    rw [List.map_cons, mergesLoop_line vocab e hp hq] at h
    cases ha : vocab e.1 with
    | none =>
      rw [ha] at h
      have hk : known vocab e = false := by simp [known, ha]
      rw [List.filter_cons, if_neg (by simp [hk])]
      exact ih n m m' hs' h ab r id
    | some a =>
      cases hb : vocab e.2 with
      | none =>
        rw [ha, hb] at h
        have hk : known vocab e = false := by simp [known, hb]
        rw [List.filter_cons, if_neg (by simp [hk])]
        exact ih n m m' hs' h ab r id
      | some b =>
        rw [ha, hb] at h
        dsimp only at h
        cases hc : vocab (e.1 ++ e.2) with
        | none => rw [hc] at h; cases h
        | some c =>
          rw [hc] at h
          dsimp only at h
          have hk : known vocab e = true := by simp [known, ha, hb]
          rw [List.filter_cons, if_pos hk, ih (n + 1) _ m' hs' h ab r id]
          have hids : ∀ ab', HasIds vocab e ab' ↔ ab' = (a, b) := by
            intro ab'
            unfold HasIds
            rw [ha, hb]
            constructor
            · rintro ⟨h1, h2⟩
              injection h1 with h1; injection h2 with h2
              rw [h1, h2]
            · rintro rfl; exact ⟨rfl, rfl⟩
          constructor
          · rintro (⟨i, e', h1, h2, h3, h4, h5⟩ | ⟨h1, h2⟩)
            · refine Or.inl ⟨i + 1, e', by rw [h1]; omega, by simpa using h2, h3, h4, ?_⟩
              intro i' e'' hlt he''
              cases i' with
              | zero => omega
              | succ i' => exact h5 i' e'' (by omega) (by simpa using he'')
            · by_cases hab : ab = (a, b)
              · subst hab
                rw [mget_mset_self] at h2
                injection h2 with h2
                refine Or.inl ⟨0, e, by injection h2 with h2; rw [← h2]; rfl, rfl, (hids _).mpr rfl, ?_, ?_⟩
                · injection h2 with _ h2; rw [hc, h2]
                · intro i' e'' hlt he''
                  cases i' with
                  | zero => omega
                  | succ i' =>
                    rw [List.getElem?_cons_succ] at he''
                    exact h1 e'' (List.mem_of_getElem? he'')
              · rw [mget_mset_ne _ _ _ _ hab] at h2
                refine Or.inr ⟨?_, h2⟩
                intro x hx
                rcases List.mem_cons.mp hx with rfl | hx
                · rw [hids]; exact hab
                · exact h1 x hx
          · rintro (⟨i, e', h1, h2, h3, h4, h5⟩ | ⟨h1, h2⟩)
            · cases i with
              | zero =>
                simp only [List.getElem?_cons_zero, Option.some.injEq] at h2
                subst h2
                have hab := (hids ab).mp h3
                subst hab
                refine Or.inr ⟨?_, ?_⟩
                · intro x hx
                  obtain ⟨j, hj⟩ := List.getElem?_of_mem hx
                  exact h5 (j + 1) x (by omega) (by simpa using hj)
                · rw [mget_mset_self, h1]
                  rw [hc] at h4
                  injection h4 with h4
                  rw [h4]; rfl
              | succ i =>
                refine Or.inl ⟨i, e', by rw [h1]; omega, by simpa using h2, h3, h4, ?_⟩
                intro i' e'' hlt he''
                exact h5 (i' + 1) e'' (by omega) (by simpa using he'')
            · refine Or.inr ⟨fun x hx => h1 x (List.mem_cons_of_mem _ hx), ?_⟩
              rw [mget_mset_ne _ _ _ _ (fun hab => h1 e List.mem_cons_self ((hids ab).mpr hab))]
              exact h2

/-- C49, the result. Of the merges whose operands are both in the vocabulary, number `i` in the
order of the file maps the ids of its operands to rank `i` and the id of the concatenated token,
unless a later one has the same operand ids; there are no other entries. -/
theorem C49_ranks_partial (vocab : Str → Option Int) (es : List (Str × Str)) (m : Merges)
    (hs : ∀ e ∈ es, ' ' ∉ e.1 ∧ ' ' ∉ e.2) (h : createMerges vocab (es.map mergeLine) = .ok m)
    (ab : Int × Int) (r id : Int) :
    mget m ab = some (r, id) ↔
      ∃ (i : Nat) (e : Str × Str), r = (i : Int) ∧ (es.filter (known vocab))[i]? = some e ∧ HasIds vocab e ab ∧
        vocab (e.1 ++ e.2) = some id ∧
        ∀ i' e', i < i' → (es.filter (known vocab))[i']? = some e' → ¬ HasIds vocab e' ab := by
  rw [mergesLoop_ok vocab es 0 [] m hs h ab r id]
  simp

/-- C49, ranks are distinct. -/
theorem C49_distinct (vocab : Str → Option Int) (es : List (Str × Str)) (m : Merges)
    (hs : ∀ e ∈ es, ' ' ∉ e.1 ∧ ' ' ∉ e.2) (h : createMerges vocab (es.map mergeLine) = .ok m)
    {ab cd : Int × Int} {r id id' : Int} (h1 : mget m ab = some (r, id)) (h2 : mget m cd = some (r, id')) :
    ab = cd := by
  obtain ⟨i, e, e1, e2, e3, _⟩ := (C49_ranks_partial vocab es m hs h ab r id).mp h1
  obtain ⟨j, e', f1, f2, f3, _⟩ := (C49_ranks_partial vocab es m hs h cd r id').mp h2
  have : i = j := by omega
  subst this
  rw [e2] at f2
  injection f2 with f2
  subst f2
  obtain ⟨g1, g2⟩ := e3
  obtain ⟨g3, g4⟩ := f3
  rw [g1] at g3
  rw [g2] at g4
  injection g3 with g3
  injection g4 with g4
  exact Prod.ext g3 g4

/-- C49, failure. `CreateMerges` fails exactly for a line that has not one space, or whose operands
are known but whose concatenation is not. It never panics. -/
theorem C49_fails (vocab : Str → Option Int) (lines : List Str) :
    (createMerges vocab lines = .err ↔
      ∃ l ∈ lines, l.count ' ' ≠ 1 ∨
        ∃ p q, l = p ++ ' ' :: q ∧ ' ' ∉ p ∧ ' ' ∉ q ∧ (vocab p).isSome ∧ (vocab q).isSome ∧ vocab (p ++ q) = none) ∧
      (createMerges vocab lines = .err ∨ ∃ m, createMerges vocab lines = .ok m) := by
  unfold createMerges
  suffices h : ∀ (lines : List Str) (n : Nat) (m : Merges),
      (mergesLoop vocab lines n m = .err ↔
      ∃ l ∈ lines, l.count ' ' ≠ 1 ∨
        ∃ p q, l = p ++ ' ' :: q ∧ ' ' ∉ p ∧ ' ' ∉ q ∧ (vocab p).isSome ∧ (vocab q).isSome ∧ vocab (p ++ q) = none) ∧
      (mergesLoop vocab lines n m = .err ∨ ∃ m', mergesLoop vocab lines n m = .ok m') from h lines 0 []
  intro lines
  induction lines with
  | nil => intro n m; simp [mergesLoop]
  | cons l ls ih =>
    intro n m
    by_cases hc : l.count ' ' = 1
    · obtain ⟨p, q, hl⟩ : ∃ p q, splitSpace l [] = [p, q] := by
        have hlen := splitSpace_length l []
        rw [hc] at hlen
        match hx : splitSpace l [], hlen with
        | [p, q], _ => exact ⟨p, q, rfl⟩
      obtain ⟨e1, e2, e3⟩ := splitSpace_eq_two hl
      have huniq : ∀ p' q', l = p' ++ ' ' :: q' → ' ' ∉ p' → ' ' ∉ q' → p' = p ∧ q' = q := by
        intro p' q' h1 h2 h3
        have := splitSpace_two p' q' [] h2 h3
        rw [← h1, hl] at this
        simp only [List.nil_append, List.cons.injEq, and_true] at this
        exact ⟨this.1.symm, this.2.symm⟩
      have hline := mergesLoop_line vocab (p, q) e2 e3 ls n m
      have hml : mergeLine (p, q) = l := e1.symm
      rw [hml] at hline
      rw [hline]
      simp only [List.mem_cons, exists_eq_or_imp]
      have hbad : (l.count ' ' ≠ 1 ∨ ∃ p q, l = p ++ ' ' :: q ∧ ' ' ∉ p ∧ ' ' ∉ q ∧ (vocab p).isSome ∧
          (vocab q).isSome ∧ vocab (p ++ q) = none) ↔
          ((vocab p).isSome ∧ (vocab q).isSome ∧ vocab (p ++ q) = none) := by
        constructor
        · rintro (h | ⟨p', q', h1, h2, h3, h4⟩)
          · exact absurd hc h
          · obtain ⟨rfl, rfl⟩ := huniq p' q' h1 h2 h3
            exact h4
        · intro h4; exact Or.inr ⟨p, q, e1, e2, e3, h4⟩
      rw [hbad]
      cases ha : vocab p with
      | none => simpa using ih n m
      | some a =>
        cases hb : vocab q with
        | none => simpa using ih n m
        | some b =>
          cases hd : vocab (p ++ q) with
          | none => simp
          | some d => simpa using ih (n + 1) (mset m (a, b) ((n : Int), d))
    · have : mergesLoop vocab (l :: ls) n m = .err := by
        rw [mergesLoop]
        have hlen := splitSpace_length l []
        split
        · next p q heq => rw [heq] at hlen; simp at hlen; omega
        · rfl
      rw [this]
      refine ⟨⟨fun _ => ⟨l, List.mem_cons_self, Or.inl hc⟩, fun _ => rfl⟩, Or.inl rfl⟩

/-- C49 fails for missing operands. A line with an operand that is not in the vocabulary is no
error: it is passed over, for every vocabulary and list. -/
theorem C49_missing_operand_violated (vocab : Str → Option Int) (pre post : List Str) (e : Str × Str)
    (hp : ' ' ∉ e.1) (hq : ' ' ∉ e.2) (h : vocab e.1 = none ∨ vocab e.2 = none) :
    createMerges vocab (pre ++ mergeLine e :: post) = createMerges vocab (pre ++ post) := by
  unfold createMerges
  suffices hg : ∀ (pre : List Str) (n : Nat) (m : Merges),
      mergesLoop vocab (pre ++ mergeLine e :: post) n m = mergesLoop vocab (pre ++ post) n m from hg pre 0 []
  intro pre
  induction pre with
  | nil =>
    intro n m
    rw [List.nil_append, mergesLoop_line vocab e hp hq]
    rcases h with h | h
    · rw [h]; rfl
    · rw [h]; cases vocab e.1 <;> rfl
  | cons l pre ih =>
    intro n m
    rw [List.cons_append, List.cons_append, mergesLoop, mergesLoop]
    split
    · split
      · exact ih _ _
      · split
        · exact ih _ _
        · split
          · rfl
          · exact ih _ _
    · rfl

/-- Three merges of which one has an unknown operand. -/
def exVocab : Str → Option Int := fun s =>
  mget [("a".toList, 0), ("b".toList, 1), ("c".toList, 2), ("ab".toList, 3), ("abc".toList, 4)] s

example : createMerges exVocab (["a b".toList, "x y".toList, "ab c".toList]) =
    .ok [((0, 1), (0, 3)), ((3, 2), (1, 4))] := by decide

example : createMerges exVocab ["a b c".toList] = .err ∧ createMerges exVocab ["b c".toList] = .err := by decide

end Tok.Files
