import Verif.Train.Model

/-! # The alphabet and the first words: lemmas -/

namespace Tok.Train

theorem insertStr_perm (a : Str) (l : List Str) : (insertStr a l).Perm (a :: l) := by
  induction l with
  | nil => exact .refl _
  | cons b l ih =>
    simp only [insertStr]
    split
    · exact .refl _
    · exact (ih.cons b).trans (.swap a b l)

theorem sortStrs_perm (l : List Str) : (sortStrs l).Perm l := by
  induction l with
  | nil => exact .refl _
  | cons a l ih => exact (insertStr_perm a _).trans (ih.cons a)

/-! ### Numbering -/

/-- The map and the slice say the same. -/
structure Exact (m : List (Str × Int)) (a : List Str) : Prop where
  get : ∀ t i, mget m t = some i ↔ ∃ n : Nat, i = (n : Int) ∧ a[n]? = some t
  nodup : a.Nodup
  keys : m.map (·.1) = a

theorem Exact.nil : Exact [] [] := by
  refine ⟨?_, List.nodup_nil, rfl⟩
  intro t i
  simp

theorem Exact.snoc {m : List (Str × Int)} {a : List Str} (h : Exact m a) {t : Str} (ht : t ∉ a) :
    mget m t = none ∧ Exact (mset m t (a.length : Int)) (a ++ [t]) := by
  have hn : mget m t = none := by rw [mget_eq_none, h.keys]; exact ht
  refine ⟨hn, ?_, ?_, ?_⟩
  · intro u i
    rw [mget_mset]
    split
    · next he =>
      subst he
      constructor
      · intro hi
        cases hi
        exact ⟨a.length, rfl, by simp⟩
      · rintro ⟨n, rfl, hg⟩
        rw [List.getElem?_append] at hg
        split at hg
        · exact absurd (List.mem_of_getElem? hg) ht
        · rw [List.getElem?_singleton] at hg
          split at hg
          · next h1 h2 => rw [show a.length = n by omega]
          · cases hg
    · next he =>
      rw [h.get]
      constructor
      · rintro ⟨n, rfl, hg⟩
        refine ⟨n, rfl, ?_⟩
        have := (List.getElem?_eq_some_iff.1 hg).1
        rw [List.getElem?_append_left this, hg]
      · rintro ⟨n, rfl, hg⟩
        refine ⟨n, rfl, ?_⟩
        rw [List.getElem?_append] at hg
        split at hg
        · exact hg
        · rw [List.getElem?_singleton] at hg
          split at hg
          · cases hg; exact absurd rfl he
          · cases hg
  · rw [List.nodup_append]
    refine ⟨h.nodup, by simp, ?_⟩
    intro x hx y hy
    simp only [List.mem_singleton] at hy
    subst hy
    intro hc; subst hc; exact ht hx
  · rw [mset_keys, hn, h.keys]
    rfl

theorem numberFold (l : List Str) : ∀ (m : List (Str × Int)) (a : List Str), Exact m a → (a ++ l).Nodup →
    ∃ m', l.foldl addNew (m, a) = (m', a ++ l) ∧ Exact m' (a ++ l) := by
  induction l with
  | nil => intro m a h _; exact ⟨m, by simp, by simpa using h⟩
  | cons t l ih =>
    intro m a h hn
    have ht : t ∉ a := by
      rw [List.nodup_append] at hn
      intro hc
      exact hn.2.2 t hc t (by simp) rfl
    obtain ⟨h1, h2⟩ := h.snoc ht
    obtain ⟨m', h3, h4⟩ := ih _ _ h2 (by simpa using hn)
    refine ⟨m', ?_, by simpa using h4⟩
    rw [List.foldl_cons]
    simp only [addNew, h1]
    rw [h3]
    simp

theorem numberChars_spec (l : List Str) (hn : l.Nodup) :
    ∃ m, numberChars l = (m, l) ∧ Exact m l := by
  obtain ⟨m, h1, h2⟩ := numberFold l [] [] Exact.nil (by simpa using hn)
  exact ⟨m, by simpa [numberChars] using h1, by simpa using h2⟩

/-! ### The characters -/

theorem countChar_keys (count : Int) (m : List (Str × Int)) (c : Char) (hn : (m.map (·.1)).Nodup) :
    ((countChar count m c).map (·.1)).Nodup ∧
      ∀ t, t ∈ (countChar count m c).map (·.1) ↔ t ∈ m.map (·.1) ∨ t = [c] := by
  unfold countChar
  split
  · next n h =>
    refine ⟨mset_nodup _ _ _ hn, ?_⟩
    intro t
    rw [mset_keys, h]
    simp only [Option.isSome_some, if_true]
    constructor
    · exact Or.inl
    · rintro (ht | rfl)
      · exact ht
      · have := mem_of_mget h
        exact List.mem_map.2 ⟨_, this, rfl⟩
  · next h =>
    refine ⟨mset_nodup _ _ _ hn, ?_⟩
    intro t
    rw [mset_keys, h]
    simp

theorem countChars_keys (count : Int) (w : Str) : ∀ (m : List (Str × Int)), (m.map (·.1)).Nodup →
    ((w.foldl (countChar count) m).map (·.1)).Nodup ∧
      ∀ t, t ∈ (w.foldl (countChar count) m).map (·.1) ↔ t ∈ m.map (·.1) ∨ ∃ c ∈ w, t = [c] := by
  induction w with
  | nil => intro m h; exact ⟨h, by simp⟩
  | cons c w ih =>
    intro m h
    obtain ⟨h1, h2⟩ := countChar_keys count m c h
    obtain ⟨h3, h4⟩ := ih _ h1
    refine ⟨h3, ?_⟩
    intro t
    rw [List.foldl_cons, h4, h2]
    simp only [List.mem_cons]
    constructor
    · rintro ((h | h) | ⟨d, h, h'⟩)
      · exact Or.inl h
      · exact Or.inr ⟨c, Or.inl rfl, h⟩
      · exact Or.inr ⟨d, Or.inr h, h'⟩
    · rintro (h | ⟨d, rfl | h, h'⟩)
      · exact Or.inl (Or.inl h)
      · exact Or.inl (Or.inr h')
      · exact Or.inr ⟨d, h, h'⟩

theorem countAll_keys (wc : List (Str × Int)) : ∀ (m : List (Str × Int)), (m.map (·.1)).Nodup →
    ((wc.foldl (fun m e => e.1.foldl (countChar e.2) m) m).map (·.1)).Nodup ∧
      ∀ t, t ∈ (wc.foldl (fun m e => e.1.foldl (countChar e.2) m) m).map (·.1) ↔
        t ∈ m.map (·.1) ∨ ∃ e ∈ wc, ∃ c ∈ e.1, t = [c] := by
  induction wc with
  | nil => intro m h; exact ⟨h, by simp⟩
  | cons e wc ih =>
    intro m h
    obtain ⟨h1, h2⟩ := countChars_keys e.2 e.1 m h
    obtain ⟨h3, h4⟩ := ih _ h1
    refine ⟨h3, ?_⟩
    intro t
    rw [List.foldl_cons, h4, h2]
    simp only [List.mem_cons]
    constructor
    · rintro ((h | h) | ⟨d, h, h'⟩)
      · exact Or.inl h
      · exact Or.inr ⟨e, Or.inl rfl, h⟩
      · exact Or.inr ⟨d, Or.inr h, h'⟩
    · rintro (h | ⟨d, rfl | h, h'⟩)
      · exact Or.inl (Or.inl h)
      · exact Or.inl (Or.inr h')
      · exact Or.inr ⟨d, h, h'⟩

theorem initial_keys (l : List Str) : ∀ (m : List (Str × Int)), (m.map (·.1)).Nodup →
    ((l.foldl (fun m s => mset m s 4294967295) m).map (·.1)).Nodup ∧
      ∀ t, t ∈ (l.foldl (fun m s => mset m s 4294967295) m).map (·.1) ↔ t ∈ m.map (·.1) ∨ t ∈ l := by
  induction l with
  | nil => intro m h; exact ⟨h, by simp⟩
  | cons s l ih =>
    intro m h
    obtain ⟨h3, h4⟩ := ih _ (mset_nodup m s 4294967295 h)
    refine ⟨h3, ?_⟩
    intro t
    rw [List.foldl_cons, h4, mset_keys]
    split
    · next hs =>
      obtain ⟨v, hv⟩ := Option.isSome_iff_exists.1 hs
      have : s ∈ m.map (·.1) := List.mem_map.2 ⟨_, mem_of_mget hv, rfl⟩
      simp only [List.mem_cons]
      constructor
      · rintro (h | h)
        · exact Or.inl h
        · exact Or.inr (Or.inr h)
      · rintro (h | rfl | h)
        · exact Or.inl h
        · exact Or.inl this
        · exact Or.inr h
    · simp only [List.mem_append, List.mem_cons, List.not_mem_nil, false_or, or_assoc]

/-- The characters known: those of the words and the initial alphabet. -/
theorem alphabetCounts_keys (cfg : Cfg) (wc : List (Str × Int)) :
    ((alphabetCounts cfg wc).map (·.1)).Nodup ∧
      ∀ t, t ∈ (alphabetCounts cfg wc).map (·.1) ↔
        t ∈ cfg.initialAlphabet ∨ ∃ e ∈ wc, ∃ c ∈ e.1, t = [c] := by
  obtain ⟨h1, h2⟩ := countAll_keys wc [] List.nodup_nil
  obtain ⟨h3, h4⟩ := initial_keys cfg.initialAlphabet _ h1
  refine ⟨h3, ?_⟩
  intro t
  unfold alphabetCounts
  rw [h4, h2]
  simp only [List.map_nil, List.not_mem_nil, false_or]
  exact Or.comm

theorem keptChars_sublist (cfg : Cfg) (wc : List (Str × Int)) :
    (keptChars cfg wc).Sublist (sortStrs ((alphabetCounts cfg wc).map (·.1))) := by
  unfold keptChars
  split
  · exact List.take_sublist _ _
  · exact List.Sublist.refl _

theorem keptChars_nodup (cfg : Cfg) (wc : List (Str × Int)) : (keptChars cfg wc).Nodup :=
  (keptChars_sublist cfg wc).nodup ((sortStrs_perm _).nodup_iff.2 (alphabetCounts_keys cfg wc).1)

theorem mem_of_keptChars {cfg : Cfg} {wc : List (Str × Int)} {t : Str} (h : t ∈ keptChars cfg wc) :
    t ∈ cfg.initialAlphabet ∨ ∃ e ∈ wc, ∃ c ∈ e.1, t = [c] :=
  ((alphabetCounts_keys cfg wc).2 t).1
    ((sortStrs_perm _).mem_iff.1 ((keptChars_sublist cfg wc).subset h))

theorem keptChars_nolimit {cfg : Cfg} (hl : cfg.limitAlphabet = none) (wc : List (Str × Int)) :
    keptChars cfg wc = sortStrs ((alphabetCounts cfg wc).map (·.1)) := by
  unfold keptChars toRemove
  rw [hl]
  rfl

theorem computeAlphabet_spec (cfg : Cfg) (wc : List (Str × Int)) :
    ∃ m, computeAlphabet cfg wc = (m, keptChars cfg wc) ∧ Exact m (keptChars cfg wc) :=
  numberChars_spec _ (keptChars_nodup cfg wc)

/-! ### The first words -/

/-- A symbol as id and length. -/
def view (s : Symbol) : Int × Nat := (s.c, s.len)

theorem relink_view (n : Nat) (ss : List Symbol) : ∀ i, (relink n i ss).map view = ss.map view := by
  induction ss with
  | nil => intro i; rfl
  | cons s ss ih =>
    intro i
    simp only [relink, List.map_cons, ih]
    congr 1
    split
    · rfl
    · split <;> rfl

theorem wordAdd_view (ss : List Symbol) (c : Int) (l : Nat) :
    (wordAdd ss c l).map view = ss.map view ++ [(c, l)] := by
  unfold wordAdd
  split
  · next h => rw [List.eq_nil_of_length_eq_zero h]; rfl
  · rw [List.map_append, relink_view]; rfl

/-- The symbols of the characters of a word that the table knows. -/
def charIds (m : List (Str × Int)) (w : Str) : List (Int × Nat) :=
  w.filterMap fun c => (mget m [c]).map fun i => (i, c.utf8Size)

/-- No prefix and no suffix. -/
structure Plain (cfg : Cfg) : Prop where
  pre : cfg.pre = none
  suf : cfg.suf = none

theorem charText_plain {cfg : Cfg} (hp : Plain cfg) (addr : Str) (n i : Nat) (c : Char) :
    charText cfg addr n i c = [c] := by
  unfold charText
  rw [hp.pre, hp.suf]
  simp

theorem fillChars_plain {cfg : Cfg} (hp : Plain cfg) (addr : Nat → Str) (n : Nat) (w : Str) (t : Tab) :
    ∀ (i : Nat) (ss : List Symbol), ∃ ss', fillChars cfg addr n i w t ss = (t, ss') ∧
      ss'.map view = ss.map view ++ charIds t.w2id w := by
  induction w with
  | nil => intro i ss; exact ⟨ss, rfl, by simp [charIds]⟩
  | cons c w ih =>
    intro i ss
    simp only [fillChars]
    split
    · next h =>
      obtain ⟨ss', h1, h2⟩ := ih (i + 1) ss
      exact ⟨ss', h1, by rw [h2]; simp [charIds, h]⟩
    · next h =>
      rw [charText_plain hp, h]
      simp only
      obtain ⟨ss', h1, h2⟩ := ih (i + 1) (wordAdd ss _ (blen [c]))
      refine ⟨ss', h1, ?_⟩
      rw [h2, wordAdd_view]
      simp [charIds, h]

theorem fillWords_plain {cfg : Cfg} (hp : Plain cfg) (addr : Nat → Nat → Str) (t : Tab) (l : List Str) :
    ∀ (k : Nat) (ws : List (List Symbol)), ∃ ws', fillWords cfg addr k l t ws = (t, ws ++ ws') ∧
      ws'.map (·.map view) = l.map (charIds t.w2id) := by
  induction l with
  | nil => intro k ws; exact ⟨[], by simp [fillWords], rfl⟩
  | cons w l ih =>
    intro k ws
    obtain ⟨ss', h1, h2⟩ := fillChars_plain hp (addr k) w.length w t 0 []
    obtain ⟨ws', h3, h4⟩ := ih (k + 1) (ws ++ [ss'])
    refine ⟨ss' :: ws', ?_, ?_⟩
    · simp only [fillWords, h1, h3]
      simp
    · simp only [List.map_cons, h4, h2]
      simp

theorem tokenizeWords_plain {cfg : Cfg} (hp : Plain cfg) (addr : Nat → Nat → Str)
    (wc : List (Str × Int)) (t : Tab) :
    ∃ ws, tokenizeWords cfg addr wc t = (t, ws) ∧
      ws.map (·.map view) = (sortedKeys wc).map (charIds t.w2id) := by
  obtain ⟨ws, h1, h2⟩ := fillWords_plain hp addr t (sortedKeys wc) 0 []
  exact ⟨ws, by simpa [tokenizeWords] using h1, h2⟩

theorem sortedKeys_length (wc : List (Str × Int)) : (sortedKeys wc).length = wc.length := by
  unfold sortedKeys
  rw [(sortStrs_perm _).length_eq, List.length_map]

theorem wordCounts_length (wc : List (Str × Int)) : (wordCounts wc).length = wc.length := by
  unfold wordCounts
  rw [List.length_map, sortedKeys_length]

end Tok.Train
