import Verif.Files.PropsMerges

/-! C48. -/

namespace Tok.Files

theorem sorted_mergeSort_key (m : List α) (key : α → Int) :
    (m.mergeSort (fun a b => decide (key a ≤ key b))).Pairwise (fun a b => key a ≤ key b) := by
  have := List.pairwise_mergeSort (le := fun a b => decide (key a ≤ key b))
    (by intro a b c h1 h2; simp only [decide_eq_true_eq] at *; omega)
    (by intro a b; simp only [Bool.or_eq_true, decide_eq_true_eq]; omega) m
  exact this.imp (by intro a b h; simpa using h)

/-- In a list sorted by distinct keys, the number of smaller keys is the position. -/
theorem countP_lt (key : α → Int) : ∀ (l : List α), l.Pairwise (fun a b => key a ≤ key b) → (l.map key).Nodup →
    ∀ (i : Nat) (x : α), l[i]? = some x → l.countP (fun y => decide (key y < key x)) = i := by
  intro l
  induction l with
  | nil => intro _ _ i x h; simp at h
  | cons a l ih =>
    intro hp hn i x hx
    obtain ⟨hp1, hp2⟩ := List.pairwise_cons.mp hp
    rw [List.map_cons, List.nodup_cons] at hn
    obtain ⟨hn1, hn2⟩ := hn
    cases i with
    | zero =>
      simp only [List.getElem?_cons_zero, Option.some.injEq] at hx
      subst hx
      rw [List.countP_eq_zero]
      intro y hy
      rcases List.mem_cons.mp hy with rfl | hy
      · simp
      · have := hp1 y hy; simp; omega
    | succ i =>
      rw [List.getElem?_cons_succ] at hx
      have hm := List.mem_of_getElem? hx
      have h1 := hp1 x hm
      have h2 : key a ≠ key x := fun e => hn1 (by rw [e]; exact List.mem_map.mpr ⟨x, hm, rfl⟩)
      rw [List.countP_cons_of_pos (by simp; omega), ih hp2 hn2 i x hx]

/-- A vocabulary that can be written: distinct tokens, each fit to be a line, and distinct ids. -/
structure Writable (m : Vocab) : Prop where
  tokens : (m.map (·.1)).Nodup
  ids : (m.map (·.2)).Nodup
  lines : ∀ e ∈ m, LineOk e.1

/-- Saving and loading numbers the tokens by increasing id. -/
theorem C48_vocab_rank (m : Vocab) (h : Writable m) :
    ∃ m', readVocab (saveVocab m) = some m' ∧
      ∀ k, mget m' k = (mget m k).map (fun v => ((m.countP (fun e => decide (e.2 < v)) : Nat) : Int)) := by
  let l := m.mergeSort (fun a b => decide (a.2 ≤ b.2))
  have hperm : l.Perm m := List.mergeSort_perm m _
  have hsorted := sorted_mergeSort_key m (fun e => e.2)
  have hln : (l.map (·.1)).Nodup := (hperm.map _).nodup_iff.mpr h.tokens
  have hlid : (l.map (·.2)).Nodup := (hperm.map _).nodup_iff.mpr h.ids
  have hscan : scan (saveVocab m) = some (l.map (·.1)) := by
    apply scan_write
    intro x hx
    obtain ⟨e, he, rfl⟩ := List.mem_map.mp hx
    exact h.lines e (hperm.mem_iff.mp he)
  refine ⟨readLoop (l.map (·.1)) 0 [], by rw [readVocab, hscan]; rfl, ?_⟩
  intro k
  rw [mget_readLoop _ hln]
  cases hi : (l.map (·.1)).idxOf? k with
  | none =>
    rw [List.idxOf?_eq_none_iff] at hi
    have : mget m k = none := by
      rw [mget_eq_none]
      intro hm
      exact hi ((hperm.map _).mem_iff.mpr hm)
    rw [this]; rfl
  | some j =>
    obtain ⟨hj, hk, _⟩ := List.idxOf?_eq_some_iff.mp hi
    obtain ⟨e, he⟩ : ∃ e, l[j]? = some e := by
      rw [List.length_map] at hj
      exact ⟨l[j], List.getElem?_eq_getElem hj⟩
    have hek : e.1 = k := by
      have : (l.map (·.1))[j]? = some k := by
        rw [List.getElem?_eq_getElem hj]; congr 1
      rw [List.getElem?_map, he] at this
      simpa using this
    have hem : e ∈ m := hperm.mem_iff.mp (List.mem_of_getElem? he)
    have hget : mget m k = some e.2 := mget_of_mem h.tokens (by rw [← hek]; exact hem)
    rw [hget]
    have hcount := countP_lt (fun e : Str × Int => e.2) l hsorted hlid j e he
    have : m.countP (fun y => decide (y.2 < e.2)) = j := by rw [← hcount]; exact (hperm.countP_eq _).symm
    simp [this]

/-- C48 for WordPiece and WordLevel. If the ids are `0, …, n-1`, the file gives the same map. -/
theorem C48_vocab_roundtrip (m : Vocab) (h : Writable m)
    (hid : (m.map (·.2)).Perm ((List.range m.length).map Int.ofNat)) :
    ∃ m', readVocab (saveVocab m) = some m' ∧ SameMap m' m := by
  obtain ⟨m', h1, h2⟩ := C48_vocab_rank m h
  refine ⟨m', h1, fun k => ?_⟩
  rw [h2]
  cases hk : mget m k with
  | none => rfl
  | some v =>
    have hv : v ∈ m.map (·.2) := List.mem_map.mpr ⟨(k, v), mem_of_mget hk, rfl⟩
    obtain ⟨w, hw, rfl⟩ := List.mem_map.mp (hid.mem_iff.mp hv)
    have hw := List.mem_range.mp hw
    have : m.countP (fun e => decide (e.2 < Int.ofNat w)) = w := by
      have e1 : m.countP (fun e => decide (e.2 < Int.ofNat w)) =
          (m.map (·.2)).countP (fun v => decide (v < Int.ofNat w)) := by rw [List.countP_map]; rfl
      rw [e1, hid.countP_eq, List.countP_map]
      have e2 : ((fun v => decide (v < Int.ofNat w)) ∘ Int.ofNat) = (fun i => decide (i < w)) := by
        funext i; simp
      rw [e2]
      have e3 : ∀ n, (List.range n).countP (fun i => decide (i < w)) = min n w := by
        intro n
        induction n with
        | zero => simp
        | succ n ih =>
          rw [List.range_succ, List.countP_append, ih]
          by_cases hn : n < w
          · simp [hn]; omega
          · simp [hn]; omega
      rw [e3]; omega
    rw [Option.map_some, this]; rfl

/-- C48 fails for ids with a gap: whenever some id is not below the number of tokens, the token
comes back with another id. -/
theorem C48_gap_violated (m : Vocab) (h : Writable m) (k : Str) (v : Int) (hk : mget m k = some v)
    (hv : (m.length : Int) ≤ v) :
    ∃ m' v', readVocab (saveVocab m) = some m' ∧ mget m' k = some v' ∧ v' ≠ v := by
  obtain ⟨m', h1, h2⟩ := C48_vocab_rank m h
  refine ⟨m', _, h1, by rw [h2, hk, Option.map_some], ?_⟩
  have hm : (k, v) ∈ m := mem_of_mget hk
  have hle : m.countP (fun e => decide (e.2 < v)) ≤ m.length := List.countP_le_length
  have hne : m.countP (fun e => decide (e.2 < v)) ≠ m.length := by
    intro e
    have := (List.countP_eq_length.mp e) _ hm
    simp at this
  omega

/-- C48 fails for long lines: a token of 64 KiB or more is written but cannot be read. -/
theorem C48_long_violated (m : Vocab) (e : Str × Int) (he : e ∈ m) (hnl : ∀ e ∈ m, '\n' ∉ e.1)
    (hlong : 65536 ≤ blen e.1) : readVocab (saveVocab m) = none := by
  have hperm := List.mergeSort_perm m (fun a b => decide (a.2 ≤ b.2))
  unfold readVocab saveVocab scan
  rw [rawLines_write, if_neg]
  · rfl
  · intro hall
    rw [List.all_eq_true] at hall
    have := hall e.1 (List.mem_map.mpr ⟨e, hperm.mem_iff.mpr he, rfl⟩)
    simp only [decide_eq_true_eq] at this
    omega
  · intro x hx
    obtain ⟨e, he, rfl⟩ := List.mem_map.mp hx
    exact hnl e (hperm.mem_iff.mp he)

/-! ### Merges -/

/-- Merges that can be written and read: ranks are `0, …, n-1`; the operands have tokens that are
free of spaces and read back as the operands; the result is the id of the concatenated token; the
line is fit to be read and has no version mark. -/
structure WritableMerges (vocab : Str → Option Int) (vocabR : Int → Option Str) (m : Merges) : Prop where
  pairs : (m.map (·.1)).Nodup
  ranks : (m.map (·.2.1)).Perm ((List.range m.length).map Int.ofNat)
  entries : ∀ e ∈ m, ∃ p q, vocabR e.1.1 = some p ∧ vocabR e.1.2 = some q ∧ ' ' ∉ p ∧ ' ' ∉ q ∧
    vocab p = some e.1.1 ∧ vocab q = some e.1.2 ∧ vocab (p ++ q) = some e.2.2 ∧
    LineOk (p ++ ' ' :: q) ∧ hasVersion (p ++ ' ' :: q) = false

/-- A list sorted by a key whose values are `0, …, n-1` has them in place. -/
theorem sorted_range (l : List Int) (hs : l.Pairwise (· ≤ ·)) (hp : l.Perm ((List.range l.length).map Int.ofNat)) :
    l = (List.range l.length).map Int.ofNat := by
  apply List.Perm.eq_of_pairwise (le := fun a b => a ≤ b) _ hs _ hp
  · intro a b _ _ h1 h2; omega
  · rw [List.pairwise_map]
    have := List.pairwise_lt_range (n := l.length)
    exact this.imp (by intro a b h; simp; omega)

/-- The two tokens of a merge. -/
def operands (vocabR : Int → Option Str) (e : (Int × Int) × (Int × Int)) : Str × Str :=
  ((vocabR e.1.1).getD [], (vocabR e.1.2).getD [])

theorem mergesLoop_succeeds (vocab : Str → Option Int) :
    ∀ (es : List (Str × Str)) (n : Nat) (m : Merges), (∀ e ∈ es, ' ' ∉ e.1 ∧ ' ' ∉ e.2 ∧
      (vocab e.1).isSome ∧ (vocab e.2).isSome ∧ (vocab (e.1 ++ e.2)).isSome) →
      ∃ m', mergesLoop vocab (es.map mergeLine) n m = .ok m' := by
  intro es
  induction es with
  | nil => intro n m _; exact ⟨m, rfl⟩
  | cons e es ih =>
    intro n m h
    obtain ⟨h1, h2, h3, h4, h5⟩ := h e List.mem_cons_self
    rw [List.map_cons, mergesLoop_line vocab e h1 h2]
    obtain ⟨a, ha⟩ := Option.isSome_iff_exists.mp h3
    obtain ⟨b, hb⟩ := Option.isSome_iff_exists.mp h4
    obtain ⟨c, hc⟩ := Option.isSome_iff_exists.mp h5
    rw [ha, hb, hc]
    exact ih _ _ (fun x hx => h x (List.mem_cons_of_mem _ hx))

/-- C48 for the merges of BPE: they come back as they were. -/
theorem C48_merges_roundtrip (vocab : Str → Option Int) (vocabR : Int → Option Str) (m : Merges)
    (h : WritableMerges vocab vocabR m) :
    ∃ m', readMerges vocab (saveMerges vocabR m) = .ok m' ∧ SameMap m' m := by
  let l := m.mergeSort (fun a b => decide (a.2.1 ≤ b.2.1))
  have hperm : l.Perm m := List.mergeSort_perm m _
  have hlen : l.length = m.length := hperm.length_eq
  have hsorted : (l.map (·.2.1)).Pairwise (· ≤ ·) := by
    rw [List.pairwise_map]; exact sorted_mergeSort_key m (fun e => e.2.1)
  have hranks : l.map (·.2.1) = (List.range l.length).map Int.ofNat := by
    have := sorted_range (l.map (·.2.1)) hsorted (by
      rw [List.length_map, hlen]; exact (hperm.map _).trans h.ranks)
    rwa [List.length_map] at this
  have hop : ∀ e ∈ l, ' ' ∉ (operands vocabR e).1 ∧ ' ' ∉ (operands vocabR e).2 ∧
      HasIds vocab (operands vocabR e) e.1 ∧ vocab ((operands vocabR e).1 ++ (operands vocabR e).2) = some e.2.2 ∧
      LineOk (mergeLine (operands vocabR e)) ∧ hasVersion (mergeLine (operands vocabR e)) = false := by
    intro e he
    obtain ⟨p, q, e1, e2, e3, e4, e5, e6, e7, e8, e9⟩ := h.entries e (hperm.mem_iff.mp he)
    have : operands vocabR e = (p, q) := by unfold operands; rw [e1, e2]; rfl
    rw [this]
    exact ⟨e3, e4, ⟨e5, e6⟩, e7, e8, e9⟩
  let es := l.map (operands vocabR)
  have hes : ∀ e ∈ es, ' ' ∉ e.1 ∧ ' ' ∉ e.2 := by
    intro x hx
    obtain ⟨e, he, rfl⟩ := List.mem_map.mp hx
    exact ⟨(hop e he).1, (hop e he).2.1⟩
  have hfile : saveMerges vocabR m = writeLines (es.map mergeLine) := by
    unfold saveMerges; simp only [es, List.map_map]; rfl
  have hscan : scan (saveMerges vocabR m) = some (es.map mergeLine) := by
    rw [hfile]
    apply scan_write
    intro x hx
    simp only [es, List.map_map, List.mem_map] at hx
    obtain ⟨e, he, rfl⟩ := hx
    exact (hop e he).2.2.2.2.1
  have hfilter : (es.map mergeLine).filter (fun l => !hasVersion l) = es.map mergeLine := by
    rw [List.filter_eq_self]
    intro x hx
    simp only [es, List.map_map, List.mem_map] at hx
    obtain ⟨e, he, rfl⟩ := hx
    have := (hop e he).2.2.2.2.2
    simp only [Function.comp_apply, this, Bool.not_false]
  have hread : readMerges vocab (saveMerges vocabR m) = createMerges vocab (es.map mergeLine) := by
    unfold readMerges; rw [hscan]; dsimp only; rw [hfilter]; rfl
  obtain ⟨m', hm'⟩ := mergesLoop_succeeds vocab es 0 [] (by
    intro x hx
    obtain ⟨e, he, rfl⟩ := List.mem_map.mp hx
    obtain ⟨h1, h2, ⟨h3, h4⟩, h5, _⟩ := hop e he
    exact ⟨h1, h2, by rw [h3]; rfl, by rw [h4]; rfl, by rw [h5]; rfl⟩)
  refine ⟨m', by rw [hread]; exact hm', ?_⟩
  have hknown : es.filter (known vocab) = es := by
    rw [List.filter_eq_self]
    intro x hx
    obtain ⟨e, he, rfl⟩ := List.mem_map.mp hx
    obtain ⟨_, _, ⟨h3, h4⟩, _⟩ := hop e he
    simp [known, h3, h4]
  have hchar := C49_ranks_partial vocab es m' hes hm'
  rw [hknown] at hchar
  have hget : ∀ (i : Nat) (e : Str × Str), es[i]? = some e →
      ∃ x, l[i]? = some x ∧ e = operands vocabR x ∧ x ∈ l ∧ x.2.1 = (i : Int) := by
    intro i e hi
    simp only [es, List.getElem?_map] at hi
    cases hx : l[i]? with
    | none => rw [hx] at hi; cases hi
    | some x =>
      rw [hx] at hi
      simp only [Option.map_some, Option.some.injEq] at hi
      refine ⟨x, rfl, hi.symm, List.mem_of_getElem? hx, ?_⟩
      have hr := congrArg (fun z => z[i]?) hranks
      simp only [List.getElem?_map, hx, Option.map_some] at hr
      have hil : i < l.length := (List.getElem?_eq_some_iff.mp hx).1
      rw [List.getElem?_range hil] at hr
      simpa using hr
  -- the ids determine the entry
  have hsame : ∀ x ∈ l, ∀ ab, HasIds vocab (operands vocabR x) ab → x.1 = ab := by
    intro x hx ab hab
    obtain ⟨_, _, ⟨h3, h4⟩, _⟩ := hop x hx
    obtain ⟨h5, h6⟩ := hab
    rw [h3] at h5
    rw [h4] at h6
    injection h5 with h5
    injection h6 with h6
    exact Prod.ext h5 h6
  have hlp : (l.map (·.1)).Nodup := (hperm.map _).nodup_iff.mpr h.pairs
  have hiff : ∀ ab r id, mget m' ab = some (r, id) ↔ mget m ab = some (r, id) := by
    intro ab r id
    rw [hchar]
    constructor
    · rintro ⟨i, e, hr, hi, hids, hid, _⟩
      obtain ⟨x, _, rfl, hxl, hxr⟩ := hget i e hi
      have hx1 := hsame x hxl ab hids
      have hx2 := (hop x hxl).2.2.2.1
      rw [hid] at hx2
      injection hx2 with hx2
      have hxm := hperm.mem_iff.mp hxl
      have : x = (ab, (r, id)) := by
        rw [hr]
        exact Prod.ext hx1 (Prod.ext hxr hx2.symm)
      rw [this] at hxm
      exact mget_of_mem h.pairs hxm
    · intro hg
      have hxl : (ab, (r, id)) ∈ l := hperm.mem_iff.mpr (mem_of_mget hg)
      obtain ⟨i, hi⟩ := List.getElem?_of_mem hxl
      have hei : es[i]? = some (operands vocabR (ab, (r, id))) := by
        simp only [es, List.getElem?_map, hi, Option.map_some]
      obtain ⟨x, hx, _, _, hxr⟩ := hget i _ hei
      rw [hi] at hx
      injection hx with hx
      subst hx
      obtain ⟨_, _, hids, hid, _⟩ := hop _ hxl
      refine ⟨i, _, hxr, hei, hids, hid, ?_⟩
      intro i' e' hlt hi' hids'
      obtain ⟨y, hy, rfl, hyl, _⟩ := hget i' e' hi'
      have hy1 := hsame y hyl ab hids'
      have hii : (l.map (·.1))[i]? = some ab := by rw [List.getElem?_map, hi]; rfl
      have hii' : (l.map (·.1))[i']? = some ab := by rw [List.getElem?_map, hy, Option.map_some, hy1]
      have hil : i < (l.map (·.1)).length := (List.getElem?_eq_some_iff.mp hii).1
      have := (List.getElem?_inj hil hlp).mp (hii.trans hii'.symm)
      omega
  intro ab
  cases hm : mget m ab with
  | some v => exact (hiff ab v.1 v.2).mpr hm
  | none =>
    cases hm2 : mget m' ab with
    | none => rfl
    | some v => have := (hiff ab v.1 v.2).mp hm2; rw [hm] at this; cases this

/-- C48 fails for operands with a space: the merges are saved but cannot be read back. -/
theorem C48_space_violated (vocab : Str → Option Int) (vocabR : Int → Option Str) (m : Merges)
    (e : (Int × Int) × (Int × Int)) (he : e ∈ m)
    (hl : ∀ e ∈ m, LineOk (mergeLine (operands vocabR e)))
    (hv : hasVersion (mergeLine (operands vocabR e)) = false)
    (hs : ' ' ∈ (operands vocabR e).1 ∨ ' ' ∈ (operands vocabR e).2) :
    readMerges vocab (saveMerges vocabR m) = .err := by
  let l := m.mergeSort (fun a b => decide (a.2.1 ≤ b.2.1))
  have hperm : l.Perm m := List.mergeSort_perm m _
  have hscan : scan (saveMerges vocabR m) = some (l.map (fun e => mergeLine (operands vocabR e))) := by
    apply scan_write
    intro x hx
    obtain ⟨e, he, rfl⟩ := List.mem_map.mp hx
    exact hl e (hperm.mem_iff.mp he)
  have : readMerges vocab (saveMerges vocabR m) =
      createMerges vocab ((l.map (fun e => mergeLine (operands vocabR e))).filter (fun l => !hasVersion l)) := by
    unfold readMerges; rw [hscan]; rfl
  rw [this, (C49_fails vocab _).1]
  refine ⟨mergeLine (operands vocabR e), ?_, Or.inl ?_⟩
  · rw [List.mem_filter]
    exact ⟨List.mem_map.mpr ⟨e, hperm.mem_iff.mpr he, rfl⟩, by rw [hv]; rfl⟩
  · unfold mergeLine
    rw [List.count_append, List.count_cons_self]
    rcases hs with h | h
    · have := List.count_pos_iff.mpr h; omega
    · have := List.count_pos_iff.mpr h; omega

/-- C48 fails for the merges too when a line has 64 KiB or more: they are saved but cannot be read back. -/
theorem C48_long_merges_violated (vocab : Str → Option Int) (vocabR : Int → Option Str) (m : Merges)
    (e : (Int × Int) × (Int × Int)) (he : e ∈ m)
    (hnl : ∀ e ∈ m, '\n' ∉ (operands vocabR e).1 ∧ '\n' ∉ (operands vocabR e).2)
    (hlong : 65535 ≤ blen (operands vocabR e).1 + blen (operands vocabR e).2) :
    readMerges vocab (saveMerges vocabR m) = .err := by
  have hperm := List.mergeSort_perm m (fun a b => decide (a.2.1 ≤ b.2.1))
  unfold readMerges saveMerges scan
  rw [rawLines_write, if_neg]
  · intro hall
    rw [List.all_eq_true] at hall
    have := hall _ (List.mem_map.mpr ⟨e, hperm.mem_iff.mpr he, rfl⟩)
    simp only [decide_eq_true_eq] at this
    have h1 : blen ((vocabR e.1.1).getD [] ++ ' ' :: (vocabR e.1.2).getD []) =
        blen (operands vocabR e).1 + (1 + blen (operands vocabR e).2) := by
      rw [blen_append, blen_cons]; rfl
    omega
  · intro x hx
    obtain ⟨e, he, rfl⟩ := List.mem_map.mp hx
    obtain ⟨h1, h2⟩ := hnl e (hperm.mem_iff.mp he)
    simp only [operands] at h1 h2
    simp [h1, h2]

/-- C48 fails with a continuing-subword prefix: a merge whose result is not the plain concatenation
of its operands is saved but cannot be read back. -/
theorem C48_prefix_violated (vocab : Str → Option Int) (vocabR : Int → Option Str) (m : Merges)
    (e : (Int × Int) × (Int × Int)) (he : e ∈ m)
    (hl : ∀ e ∈ m, LineOk (mergeLine (operands vocabR e)))
    (hv : hasVersion (mergeLine (operands vocabR e)) = false)
    (h1 : ' ' ∉ (operands vocabR e).1) (h2 : ' ' ∉ (operands vocabR e).2)
    (h3 : (vocab (operands vocabR e).1).isSome) (h4 : (vocab (operands vocabR e).2).isSome)
    (h5 : vocab ((operands vocabR e).1 ++ (operands vocabR e).2) = none) :
    readMerges vocab (saveMerges vocabR m) = .err := by
  let l := m.mergeSort (fun a b => decide (a.2.1 ≤ b.2.1))
  have hperm : l.Perm m := List.mergeSort_perm m _
  have hscan : scan (saveMerges vocabR m) = some (l.map (fun e => mergeLine (operands vocabR e))) := by
    apply scan_write
    intro x hx
    obtain ⟨e, he, rfl⟩ := List.mem_map.mp hx
    exact hl e (hperm.mem_iff.mp he)
  have : readMerges vocab (saveMerges vocabR m) =
      createMerges vocab ((l.map (fun e => mergeLine (operands vocabR e))).filter (fun l => !hasVersion l)) := by
    unfold readMerges; rw [hscan]; rfl
  rw [this, (C49_fails vocab _).1]
  refine ⟨mergeLine (operands vocabR e), ?_, Or.inr ⟨_, _, rfl, h1, h2, h3, h4, h5⟩⟩
  rw [List.mem_filter]
  exact ⟨List.mem_map.mpr ⟨e, hperm.mem_iff.mpr he, rfl⟩, by rw [hv]; rfl⟩

/-! ### Cases -/

def exFile : Vocab := [("b".toList, 1), ("".toList, 2), ("[UNK]".toList, 0)]

example : Writable exFile ∧ (exFile.map (·.2)).Perm ((List.range exFile.length).map Int.ofNat) := by
  refine ⟨⟨by decide, by decide, ?_⟩, by decide⟩
  intro e he
  have : ∀ e ∈ exFile, '\n' ∉ e.1 ∧ e.1.getLast? ≠ some '\r' ∧ blen e.1 < 65536 := by decide
  exact this e he

/-- The merge `a ##b` whose result is `ab`, not `a##b`. -/
def exPrefix : Vocab := [("a".toList, 0), ("##b".toList, 1), ("ab".toList, 2)]
def exPrefixR : List (Int × Str) := [(0, "a".toList), (1, "##b".toList), (2, "ab".toList)]

example : readMerges (mget exPrefix) (saveMerges (mget exPrefixR) [((0, 1), (0, 2))]) = .err := by
  apply C48_prefix_violated (mget exPrefix) (mget exPrefixR) [((0, 1), (0, 2))] ((0, 1), (0, 2)) (by simp)
  · intro e he
    have : e = ((0, 1), (0, 2)) := by simpa using he
    subst this
    exact ⟨by decide, by decide, by decide⟩
  · decide
  · decide
  · decide
  · decide
  · decide
  · decide

/-- Merges that come back. -/
example : WritableMerges (mget [("a".toList, 0), ("b".toList, 1), ("ab".toList, 2), ("abb".toList, 3)])
    (mget [(0, "a".toList), (1, "b".toList), (2, "ab".toList), (3, "abb".toList)])
    [((2, 1), (1, 3)), ((0, 1), (0, 2))] := by
  refine ⟨by decide, by decide, ?_⟩
  intro e he
  rcases List.mem_cons.mp he with rfl | he
  · exact ⟨"ab".toList, "b".toList, by decide, by decide, by decide, by decide, by decide, by decide, by decide,
      ⟨by decide, by decide, by decide⟩, by decide⟩
  · have : e = ((0, 1), (0, 2)) := by simpa using he
    subst this
    exact ⟨"a".toList, "b".toList, by decide, by decide, by decide, by decide, by decide, by decide, by decide,
      ⟨by decide, by decide, by decide⟩, by decide⟩

end Tok.Files
