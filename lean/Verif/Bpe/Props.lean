import Verif.Bpe.Priority

/-! # C29, C30, C31, C55, C56: BPE tokenization of a word -/

namespace Tok

/-! ### A priority queue, for the examples -/

/-- The entry of least rank, the earliest of these. -/
def minE : MergeE → List MergeE → MergeE
  | e, [] => e
  | e, x :: xs => if x.rank < e.rank then minE x xs else minE e xs

theorem minE_spec : ∀ (xs : List MergeE) (e : MergeE),
    minE e xs ∈ e :: xs ∧ ∀ y ∈ e :: xs, (minE e xs).rank ≤ y.rank := by
  intro xs
  induction xs with
  | nil => intro e; simp [minE]
  | cons x xs ih =>
    intro e
    unfold minE
    split
    · obtain ⟨h1, h2⟩ := ih x
      refine ⟨List.mem_cons.2 (Or.inr h1), ?_⟩
      intro y hy
      rcases List.mem_cons.1 hy with rfl | hy
      · have := h2 x (by simp); omega
      · exact h2 y hy
    · obtain ⟨h1, h2⟩ := ih e
      refine ⟨?_, ?_⟩
      · rcases List.mem_cons.1 h1 with h | h
        · rw [h]; simp
        · simp [h]
      · intro y hy
        simp only [List.mem_cons] at hy
        rcases hy with rfl | rfl | hy
        · exact h2 y (by simp)
        · have := h2 e (by simp); omega
        · exact h2 y (by simp [hy])

/-- A priority queue as an unsorted list: shows that the laws of `Heap` can be met. -/
def listHeap : Heap where
  push q m := q ++ [m]
  pop
    | [] => none
    | e :: xs => some (minE e xs, (e :: xs).erase (minE e xs))
  Ok _ := True
  ok_nil := trivial
  ok_push _ _ _ := trivial
  push_perm q m _ := by simp
  pop_none q _ := by cases q <;> simp
  ok_pop _ _ _ _ _ := trivial
  pop_perm q m q' _ h := by
    cases q with
    | nil => cases h
    | cons e xs =>
      simp only [Option.some.injEq, Prod.mk.injEq] at h
      obtain ⟨rfl, rfl⟩ := h
      exact List.perm_cons_erase (minE_spec xs e).1
  pop_min q m q' _ h := by
    cases q with
    | nil => cases h
    | cons e xs =>
      simp only [Option.some.injEq, Prod.mk.injEq] at h
      obtain ⟨rfl, rfl⟩ := h
      exact (minE_spec xs e).2

/-! ### From runes to symbols -/

theorem runeIds_cons (b : BpeModel) (n i : Nat) (r : Char) (rs : Str) (first : Bool)
    (ht : runeText b.pre b.suf n i r = if first then b.pre.getD [] ++ [r] else [r]) :
    runeIds b.vocab b.unk b.pre b.suf n i (r :: rs) =
      (runeSymbol b first r).bind (fun p =>
        (runeIds b.vocab b.unk b.pre b.suf n (i + 1) rs).map (p :: ·)) := by
  conv => lhs; unfold runeIds
  unfold runeSymbol symbolId
  rw [ht]
  cases b.vocab (if first then b.pre.getD [] ++ [r] else [r]) <;> cases b.unk <;>
    cases runeIds b.vocab _ b.pre b.suf n (i + 1) rs <;> rfl

theorem runeIds_tail (b : BpeModel) (n : Nat) : ∀ (w : Str) (i : Nat), 0 < i → i + w.length ≤ n →
    runeIds b.vocab b.unk b.pre b.suf n i w = w.mapM (runeSymbol b false) := by
  intro w
  induction w with
  | nil => intro i _ _; rfl
  | cons r rs ih =>
    intro i hi hn
    simp only [List.length_cons] at hn
    rw [runeIds_cons b n i r rs false (by
      unfold runeText
      rw [if_neg (by omega), if_neg (by omega)]; rfl), ih (i + 1) (by omega) (by omega), List.mapM_cons]
    cases runeSymbol b false r with
    | none => rfl
    | some p => cases rs.mapM (runeSymbol b false) <;> rfl

theorem runeIds_initial (b : BpeModel) (w : Str) :
    runeIds b.vocab b.unk b.pre b.suf w.length 0 w = initialSymbols b w := by
  cases w with
  | nil => rfl
  | cons r rs =>
    rw [runeIds_cons b _ 0 r rs true (by simp [runeText]),
      runeIds_tail b _ rs 1 (by omega) (by simp; omega)]
    simp only [initialSymbols]
    cases runeSymbol b true r with
    | none => rfl
    | some p => cases rs.mapM (runeSymbol b false) <;> rfl

theorem initialSymbols_lens {b : BpeModel} {w : Str} {ps : List (Int × Nat)}
    (h : initialSymbols b w = some ps) : ps.map (·.2) = w.map Char.utf8Size := by
  rw [← runeIds_initial] at h
  exact runeIds_lens w 0 ps h

theorem initialSymbols_pos {b : BpeModel} {w : Str} {ps : List (Int × Nat)}
    (h : initialSymbols b w = some ps) : ∀ p ∈ ps, 0 < p.2 := by
  intro p hp
  have h1 : p.2 ∈ ps.map (·.2) := List.mem_map_of_mem hp
  rw [initialSymbols_lens h] at h1
  obtain ⟨c, _, hc⟩ := List.mem_map.1 h1
  rw [← hc]
  exact Char.utf8Size_pos c

theorem mergeWord_eq (H : Heap) (b : BpeModel) (drop : Nat → Bool) (fuel : Nat) (w : Str) :
    mergeWord H b drop fuel w = match initialSymbols b w with
      | some ps => mergeAll H b.merges drop fuel (builtSyms ps.length 0 ps)
      | none => .panic := by
  unfold mergeWord
  have := fillWord_eq b.vocab b.unk b.pre b.suf w.length w 0 []
  simp only [builtSyms, List.nil_append] at this
  rw [this, runeIds_initial]
  cases initialSymbols b w <;> rfl

theorem mergeAll_run (H : Heap) (merges : MergeTable) (drop : Nat → Bool) (fuel : Nat)
    {ps : List (Int × Nat)} (hp : ∀ p ∈ ps, 0 < p.2) :
    mergeAll H merges drop fuel (builtSyms ps.length 0 ps) = .ok none ∨
    ∃ ss, mergeAll H merges drop fuel (builtSyms ps.length 0 ps) = .ok (some ss) ∧
      (∀ s ∈ ss, 0 < s.len) ∧
      Star (TableMerge merges) ps (ss.map (fun s => (s.c, s.len))) := by
  have hinv := built_inv hp
  have hc := content_built ps.length ps
  have hl := length_built ps.length ps 0
  obtain ⟨h1, h2⟩ := loadQueue_complete H merges (builtSyms ps.length 0 ps)
  obtain ⟨h3, _, _⟩ := loadQueue_spec H merges (builtSyms ps.length 0 ps) 0 [] H.ok_nil
  unfold mergeAll
  rcases mergeLoop_inv H merges drop fuel 0 _ _ [] _ hinv h3 h2 (by intro e he; cases he) with
    h | ⟨r, L', h, hr, hs⟩
  · left; rw [h]
  · right
    rw [h]
    refine ⟨_, rfl, removeSymbols_pos r, ?_⟩
    rw [hr.removeSymbols]
    rw [hc] at hs
    exact hs

theorem star_sum {merges : MergeTable} {l l' : List (Int × Nat)} (h : Star (TableMerge merges) l l') :
    (l'.map (·.2)).sum = (l.map (·.2)).sum := by
  induction h with
  | refl => rfl
  | tail _ hst ih =>
    rw [← ih]
    cases hst with
    | mk u v a b la lb m h =>
      simp only [List.map_append, List.map_cons, List.sum_append, List.sum_cons]
      omega

theorem getOffsets_tiles : ∀ (ss : List Symbol) (p : Nat), (∀ s ∈ ss, 0 < s.len) →
    TilesRange p (p + (ss.map (·.len)).sum) (getOffsets p ss) := by
  intro ss
  induction ss with
  | nil => intro p _; simp [getOffsets, TilesRange]
  | cons s ss ih =>
    intro p h
    have hs := h s (by simp)
    refine ⟨rfl, ?_, ?_⟩
    · show p < p + s.len
      omega
    · have := ih (p + s.len) (fun t ht => h t (by simp [ht]))
      simpa [Nat.add_assoc] using this

theorem length_getOffsets : ∀ (ss : List Symbol) (p : Nat), (getOffsets p ss).length = ss.length := by
  intro ss
  induction ss with
  | nil => intro _; rfl
  | cons s ss ih => intro p; simp [getOffsets, ih]

theorem wordToTokens_offsets (b : BpeModel) (ss : List Symbol) :
    (wordToTokens b ss).map (·.offsets) = getOffsets 0 ss := by
  unfold wordToTokens
  rw [List.map_map]
  have : ((fun t : BpeToken => t.offsets) ∘ fun p : Int × Nat × Nat =>
      (⟨p.1, (b.vocabR p.1).getD [], p.2⟩ : BpeToken)) = Prod.snd := rfl
  rw [this, List.map_snd_zip]
  simp [length_getOffsets]

theorem wordToTokens_ids (b : BpeModel) (ss : List Symbol) :
    (wordToTokens b ss).map (·.id) = ss.map (·.c) := by
  unfold wordToTokens
  rw [List.map_map]
  have : ((fun t : BpeToken => t.id) ∘ fun p : Int × Nat × Nat =>
      (⟨p.1, (b.vocabR p.1).getD [], p.2⟩ : BpeToken)) = Prod.fst := rfl
  rw [this, List.map_fst_zip]
  simp [length_getOffsets]

/-! ### C29 -/

/-- **C29.** The tokens of a word cover it from its first to its last byte without gap or
overlap, none empty, for every priority queue, vocabulary, merge table and every sequence
of dropout outcomes. -/
theorem C29_tokens_tile (H : Heap) (b : BpeModel) (drop : Nat → Bool) (fuel : Nat) (w : Str)
    (ss : List Symbol) (h : mergeWord H b drop fuel w = .ok (some ss)) :
    TilesRange 0 (blen w) ((wordToTokens b ss).map (·.offsets)) := by
  rw [mergeWord_eq] at h
  cases hi : initialSymbols b w with
  | none => rw [hi] at h; cases h
  | some ps =>
    rw [hi] at h
    simp only at h
    rcases mergeAll_run H b.merges drop fuel (initialSymbols_pos hi) with h' | ⟨ss', h', hpos, hstar⟩
    · rw [h'] at h; cases h
    · rw [h'] at h; cases h
      rw [wordToTokens_offsets]
      have hsum := star_sum hstar
      rw [initialSymbols_lens hi, List.map_map] at hsum
      have e : ((fun x : Int × Nat => x.2) ∘ fun s : Symbol => (s.c, s.len)) = (·.len) := rfl
      rw [e] at hsum
      have := getOffsets_tiles ss 0 hpos
      rw [hsum, Nat.zero_add] at this
      exact this

/-- **C29.** Merging a word never fails with an error, and panics exactly when some rune has
neither an id nor an unknown token. -/
theorem C29_panic_iff (H : Heap) (b : BpeModel) (drop : Nat → Bool) (fuel : Nat) (w : Str) :
    mergeWord H b drop fuel w ≠ .err ∧
    (mergeWord H b drop fuel w = .panic ↔ initialSymbols b w = none) := by
  rw [mergeWord_eq]
  cases hi : initialSymbols b w with
  | none => simp
  | some ps =>
    simp only
    rcases mergeAll_run H b.merges drop fuel (initialSymbols_pos hi) with h' | ⟨ss', h', _⟩ <;>
      simp [h']

/-! ### C30 -/

/-- **C30.** Without dropout merging ends after at most `3 · n` pops for a word of `n` runes,
and then no two adjacent symbols form a pair of the table. -/
theorem C30_fixpoint (H : Heap) (b : BpeModel) (w : Str) (hw : initialSymbols b w ≠ none)
    (fuel : Nat) (hf : 3 * w.length < fuel) :
    ∃ ss, mergeWord H b (fun _ => false) fuel w = .ok (some ss) ∧
      Irreducible b.merges (ss.map (fun s => (s.c, s.len))) := by
  rw [mergeWord_eq]
  cases hi : initialSymbols b w with
  | none => exact absurd hi hw
  | some ps =>
    simp only
    have hlen : ps.length = w.length := by
      have := congrArg List.length (initialSymbols_lens hi)
      simpa using this
    have hinv := built_inv (initialSymbols_pos hi)
    have hl := length_built ps.length ps 0
    obtain ⟨h1, h2⟩ := loadQueue_complete H b.merges (builtSyms ps.length 0 ps)
    obtain ⟨h3, h4, _⟩ := loadQueue_spec H b.merges (builtSyms ps.length 0 ps) 0 [] H.ok_nil
    rw [hl] at h1 h4
    simp only [List.length_nil, Nat.zero_add] at h4
    obtain ⟨r, L', hr, hr', hc⟩ := mergeLoop_nodrop H b.merges fuel 0 _ _ _ hinv h3 h2 h1
      (by rw [List.length_range]; omega)
    refine ⟨removeSymbols r, ?_, ?_⟩
    · unfold mergeAll
      rw [hr]
    · rw [hr'.removeSymbols]
      exact hc.irreducible

/-- **C30.** The result does not depend on the bound once merging has ended. -/
theorem C30_result_unique (H : Heap) (b : BpeModel) (drop : Nat → Bool) (w : Str)
    (fuel fuel' : Nat) (ss ss' : List Symbol) (h : mergeWord H b drop fuel w = .ok (some ss))
    (h' : mergeWord H b drop fuel' w = .ok (some ss')) : ss = ss' := by
  have key : ∀ f k s, mergeWord H b drop f w = .ok (some s) →
      mergeWord H b drop (f + k) w = .ok (some s) := by
    intro f k s h
    rw [mergeWord_eq] at h ⊢
    cases hi : initialSymbols b w with
    | none => rw [hi] at h; cases h
    | some ps =>
      rw [hi] at h
      simp only at h ⊢
      unfold mergeAll at h ⊢
      cases hl : mergeLoop H b.merges drop f 0 (builtSyms ps.length 0 ps)
        (loadQueue H b.merges 0 (builtSyms ps.length 0 ps) []) [] with
      | err => rw [hl] at h; cases h
      | panic => rw [hl] at h; cases h
      | ok o =>
        cases o with
        | none => rw [hl] at h; cases h
        | some r =>
          rw [hl] at h
          rw [mergeLoop_fuel H b.merges drop f 0 _ _ _ r k hl]
          exact h
  have h1 := key fuel fuel' ss h
  have h2 := key fuel' fuel ss' h'
  rw [Nat.add_comm] at h1
  rw [h1] at h2
  cases h2
  rfl

/-! ### C31 -/

/-- **C31.** The final symbols come from those of the runes by merges of the table, with or
without dropout. -/
theorem C31_table_merges (H : Heap) (b : BpeModel) (drop : Nat → Bool) (fuel : Nat) (w : Str)
    (ss : List Symbol) (h : mergeWord H b drop fuel w = .ok (some ss)) :
    ∃ ps, initialSymbols b w = some ps ∧
      Star (TableMerge b.merges) ps (ss.map (fun s => (s.c, s.len))) := by
  rw [mergeWord_eq] at h
  cases hi : initialSymbols b w with
  | none => rw [hi] at h; cases h
  | some ps =>
    rw [hi] at h
    simp only at h
    rcases mergeAll_run H b.merges drop fuel (initialSymbols_pos hi) with h' | ⟨ss', h', _, hstar⟩
    · rw [h'] at h; cases h
    · rw [h'] at h; cases h
      exact ⟨ps, rfl, hstar⟩

/-- **C31, partial.** Each merge takes a pair of lowest rank, provided the ids of the table
can be given sizes that add up. Missing: tables where one id is the merge of parts of
different sizes (`C31_priority_violated`). -/
theorem C31_priority_partial (H : Heap) (b : BpeModel) (size : Int → Nat)
    (ha : Additive b.merges size) (fuel : Nat) (w : Str) (ss : List Symbol)
    (h : mergeWord H b (fun _ => false) fuel w = .ok (some ss)) :
    ∃ ps, initialSymbols b w = some ps ∧
      Star (PriorityMerge b.merges) ps (ss.map (fun s => (s.c, s.len))) := by
  rw [mergeWord_eq] at h
  cases hi : initialSymbols b w with
  | none => rw [hi] at h; cases h
  | some ps =>
    refine ⟨ps, rfl, ?_⟩
    rw [hi] at h
    simp only at h
    have hinv := built_inv (initialSymbols_pos hi)
    have hcont := content_built ps.length ps
    have hl := length_built ps.length ps 0
    obtain ⟨h1, h2⟩ := loadQueue_complete H b.merges (builtSyms ps.length 0 ps)
    obtain ⟨h3, h4, _⟩ := loadQueue_spec H b.merges (builtSyms ps.length 0 ps) 0 [] H.ok_nil
    have h5 := fresh_load H b.merges size (builtSyms ps.length 0 ps)
    rw [hl] at h1 h5
    unfold mergeAll at h
    cases hm : mergeLoop H b.merges (fun _ => false) fuel 0 (builtSyms ps.length 0 ps)
        (loadQueue H b.merges 0 (builtSyms ps.length 0 ps) []) [] with
    | err => rw [hm] at h; cases h
    | panic => rw [hm] at h; cases h
    | ok o =>
      cases o with
      | none => rw [hm] at h; cases h
      | some r =>
        rw [hm] at h
        cases h
        obtain ⟨L', h6, h7⟩ := mergeLoop_priority H b.merges size ha fuel 0 _ _ _ hinv h3 h2 h1 h5 r hm
        rw [h6.removeSymbols]
        rw [hcont] at h7
        exact h7

/-! A vocabulary for the examples: the letters `a` to `d` are 0 to 3. -/

/-- Ids of the letters. -/
def letterVocab : Str → Option Int
  | ['a'] => some 0
  | ['b'] => some 1
  | ['c'] => some 2
  | ['d'] => some 3
  | _ => none

/-- `ab` has rank 1, `abc` rank 0: ids 10 and 11. -/
def abcMerges : MergeTable := fun x y =>
  if x = 0 ∧ y = 1 then some ⟨1, 10⟩ else if x = 10 ∧ y = 2 then some ⟨0, 11⟩ else none

/-- The example model. -/
def letterBpe (merges : MergeTable) : BpeModel := ⟨letterVocab, fun _ => none, merges, none, none, none⟩

example : mergeWord listHeap (letterBpe abcMerges) (fun _ => false) 20 ['a', 'b', 'c', 'd'] =
    .ok (some [⟨11, -1, 3, 3⟩, ⟨3, 0, -1, 1⟩]) := by decide

example : mergeWord listHeap (letterBpe abcMerges) (fun n => n == 0) 20 ['a', 'b', 'c', 'd'] =
    .ok (some [⟨0, -1, 1, 1⟩, ⟨1, 0, 2, 1⟩, ⟨2, 1, 3, 1⟩, ⟨3, 2, -1, 1⟩]) := by decide

/-- The example table is additive. -/
example : Additive abcMerges (fun i => if i = 10 then 2 else if i = 11 then 3 else 1) := by
  constructor
  · intro a
    show 0 < if a = 10 then 2 else if a = 11 then 3 else 1
    split
    · omega
    · split <;> omega
  · intro a b m h
    unfold abcMerges at h
    split at h
    · rename_i hc; cases h; simp [hc.1, hc.2]
    · split at h
      · rename_i hc; cases h; simp [hc.1, hc.2]
      · cases h

/-- A table where id 9 is both the merge of 0 and 1 and that of 0 and 8. -/
def twoWays : MergeTable := fun x y =>
  if x = 0 ∧ y = 1 then some ⟨5, 9⟩
  else if x = 1 ∧ y = 2 then some ⟨1, 8⟩
  else if x = 0 ∧ y = 8 then some ⟨7, 9⟩
  else if x = 8 ∧ y = 3 then some ⟨6, 10⟩
  else none

/-- A queue whose least rank is attained once is popped there. -/
theorem Heap.pop_unique (H : Heap) {q rest : List MergeE} {e : MergeE} (hok : H.Ok q)
    (hp : q.Perm (e :: rest)) (hmin : ∀ x ∈ rest, e.rank < x.rank) :
    ∃ q', H.pop q = some (e, q') ∧ H.Ok q' ∧ q'.Perm rest := by
  cases hpop : H.pop q with
  | none =>
    have := (H.pop_none q hok).1 hpop
    rw [this] at hp
    have := hp.length_eq
    simp at this
  | some p =>
    obtain ⟨m, q'⟩ := p
    have h1 := H.pop_perm _ _ _ hok hpop
    have h2 := H.pop_min _ _ _ hok hpop e (hp.mem_iff.2 (by simp))
    have h3 : m ∈ e :: rest := hp.mem_iff.1 (h1.mem_iff.2 (by simp))
    have : m = e := by
      rcases List.mem_cons.1 h3 with h | h
      · exact h
      · have := hmin m h; omega
    subst this
    exact ⟨q', rfl, H.ok_pop _ _ _ hok hpop, List.Perm.cons_inv (h1.symm.trans hp)⟩

/-- What the code makes of `abcd` with this table, whatever the queue. -/
theorem twoWays_run (H : Heap) : mergeWord H (letterBpe twoWays) (fun _ => false) 5 ['a', 'b', 'c', 'd'] =
    .ok (some [⟨9, -1, 3, 3⟩, ⟨3, 0, -1, 1⟩]) := by
  have e0 : mergeWord H (letterBpe twoWays) (fun _ => false) 5 ['a', 'b', 'c', 'd'] =
      match mergeLoop H twoWays (fun _ => false) 5 0
        [⟨0, -1, 1, 1⟩, ⟨1, 0, 2, 1⟩, ⟨2, 1, 3, 1⟩, ⟨3, 2, -1, 1⟩]
        (H.push (H.push [] ⟨0, 5, 9⟩) ⟨1, 1, 8⟩) [] with
      | .ok (some r) => .ok (some (removeSymbols r))
      | .ok none => .ok none
      | .err => .err
      | .panic => .panic := rfl
  rw [e0]
  have k1 := H.ok_push [] ⟨0, 5, 9⟩ H.ok_nil
  have k2 := H.ok_push _ ⟨1, 1, 8⟩ k1
  have p2 := (H.push_perm _ ⟨1, 1, 8⟩ k1).trans (List.Perm.cons _ (H.push_perm [] ⟨0, 5, 9⟩ H.ok_nil))
  obtain ⟨q1, a1, a2, a3⟩ := H.pop_unique k2 p2 (by simp)
  have e1 : mergeAt H twoWays [⟨0, -1, 1, 1⟩, ⟨1, 0, 2, 1⟩, ⟨2, 1, 3, 1⟩, ⟨3, 2, -1, 1⟩] q1 ⟨1, 1, 8⟩ =
      .ok ([⟨0, -1, 1, 1⟩, ⟨8, 0, 3, 2⟩, ⟨2, 1, 3, 0⟩, ⟨3, 1, -1, 1⟩],
        H.push (H.push q1 ⟨0, 7, 9⟩) ⟨1, 6, 10⟩) := rfl
  have k3 := H.ok_push _ ⟨0, 7, 9⟩ a2
  have k4 := H.ok_push _ ⟨1, 6, 10⟩ k3
  have p4 : (H.push (H.push q1 ⟨0, 7, 9⟩) ⟨1, 6, 10⟩).Perm [⟨0, 5, 9⟩, ⟨1, 6, 10⟩, ⟨0, 7, 9⟩] :=
    ((H.push_perm _ ⟨1, 6, 10⟩ k3).trans (List.Perm.cons _ ((H.push_perm _ ⟨0, 7, 9⟩ a2).trans
      (List.Perm.cons _ a3)))).trans (by decide)
  obtain ⟨q2, b1, b2, b3⟩ := H.pop_unique k4 p4 (by simp)
  have e2 : mergeAt H twoWays [⟨0, -1, 1, 1⟩, ⟨8, 0, 3, 2⟩, ⟨2, 1, 3, 0⟩, ⟨3, 1, -1, 1⟩] q2 ⟨0, 5, 9⟩ =
      .ok ([⟨9, -1, 3, 3⟩, ⟨8, 0, 3, 0⟩, ⟨2, 1, 3, 0⟩, ⟨3, 0, -1, 1⟩], q2) := rfl
  obtain ⟨q3, c1, c2, c3⟩ := H.pop_unique b2 b3 (by simp)
  have e3 : mergeAt H twoWays [⟨9, -1, 3, 3⟩, ⟨8, 0, 3, 0⟩, ⟨2, 1, 3, 0⟩, ⟨3, 0, -1, 1⟩] q3 ⟨1, 6, 10⟩ =
      .ok ([⟨9, -1, 3, 3⟩, ⟨8, 0, 3, 0⟩, ⟨2, 1, 3, 0⟩, ⟨3, 0, -1, 1⟩], q3) := rfl
  obtain ⟨q4, d1, d2, d3⟩ := H.pop_unique c2 c3 (by simp)
  have e4 : mergeAt H twoWays [⟨9, -1, 3, 3⟩, ⟨8, 0, 3, 0⟩, ⟨2, 1, 3, 0⟩, ⟨3, 0, -1, 1⟩] q4 ⟨0, 7, 9⟩ =
      .ok ([⟨9, -1, 3, 3⟩, ⟨8, 0, 3, 0⟩, ⟨2, 1, 3, 0⟩, ⟨3, 0, -1, 1⟩], q4) := rfl
  have f1 : H.pop q4 = none := (H.pop_none q4 d2).2 (List.Perm.eq_nil d3)
  simp [mergeLoop, a1, e1, b1, e2, c1, e3, d1, e4, f1, removeSymbols]

/-- The symbol lists that merging `abcd` by lowest rank goes through. -/
def onTheWay (l : List (Int × Nat)) : Prop :=
  l = [(0, 1), (1, 1), (2, 1), (3, 1)] ∨ l = [(0, 1), (8, 2), (3, 1)] ∨ l = [(0, 1), (10, 3)]

theorem twoWays_step (l l' : List (Int × Nat)) (h : onTheWay l) (hs : PriorityMerge twoWays l l') :
    onTheWay l' := by
  generalize hl : l = l0 at hs
  cases hs with
  | mk u v a b la lb m hm hmin =>
    rw [hl] at h
    rcases h with h | h | h
    · have hr := hmin [(0, 1)] [(3, 1)] 1 2 1 1 ⟨1, 8⟩ h rfl
      match u with
      | [] => simp at h; obtain ⟨⟨rfl, _⟩, ⟨rfl, _⟩, _⟩ := h; cases hm; simp at hr
      | [_] =>
        simp at h; obtain ⟨rfl, ⟨rfl, rfl⟩, ⟨rfl, rfl⟩, rfl⟩ := h; cases hm
        right; left; rfl
      | [_, _] => simp at h; obtain ⟨_, _, ⟨rfl, _⟩, ⟨rfl, _⟩, _⟩ := h; cases hm
      | [_, _, _] => simp at h
      | _ :: _ :: _ :: _ :: _ => simp at h
    · have hr := hmin [(0, 1)] [] 8 3 2 1 ⟨6, 10⟩ h rfl
      match u with
      | [] => simp at h; obtain ⟨⟨rfl, _⟩, ⟨rfl, _⟩, _⟩ := h; cases hm; simp at hr
      | [_] =>
        simp at h; obtain ⟨rfl, ⟨rfl, rfl⟩, ⟨rfl, rfl⟩, rfl⟩ := h; cases hm
        right; right; rfl
      | [_, _] => simp at h
      | _ :: _ :: _ :: _ => simp at h
    · match u with
      | [] => simp at h; obtain ⟨⟨rfl, _⟩, ⟨rfl, _⟩, _⟩ := h; cases hm
      | [_] => simp at h
      | _ :: _ :: _ => simp at h

/-- **C31, violated.** With a table that reaches one id from different parts, a stale queue
entry is taken for the new pair with its old rank: for every priority queue, the result
for this word is not reachable by merges of lowest rank. -/
theorem C31_priority_violated : ∃ (b : BpeModel) (w : Str), ∀ H : Heap, ∃ ss,
    mergeWord H b (fun _ => false) 5 w = .ok (some ss) ∧
    ¬ ∃ ps, initialSymbols b w = some ps ∧
      Star (PriorityMerge b.merges) ps (ss.map (fun s => (s.c, s.len))) := by
  refine ⟨letterBpe twoWays, ['a', 'b', 'c', 'd'], fun H => ⟨_, twoWays_run H, ?_⟩⟩
  rintro ⟨ps, hi, hs⟩
  have : ps = [(0, 1), (1, 1), (2, 1), (3, 1)] := (Option.some.inj hi).symm
  have h := hs.invariant twoWays_step (Or.inl this)
  simp [onTheWay] at h

/-! ### C55: dropout -/

/-- **C55, violated.** Dropped merges are pushed back after every merge that is not dropped,
without being taken off the skip list. Whenever a word has two adjacent pairs of the
table, dropping the first draw and no later one makes the loop run for ever: for every
queue, table and bound. -/
theorem C55_dropout_terminates_violated (H : Heap) (b : BpeModel) (w : Str)
    (ps : List (Int × Nat)) (hi : initialSymbols b w = some ps) (i j : Nat) (hij : i ≠ j)
    (x y x' y' : Int × Nat) (h1 : ps[i]? = some x) (h2 : ps[i + 1]? = some y)
    (h3 : ps[j]? = some x') (h4 : ps[j + 1]? = some y')
    (hm : b.merges x.1 y.1 ≠ none) (hm' : b.merges x'.1 y'.1 ≠ none) (fuel : Nat) :
    mergeWord H b (fun n => n == 0) fuel w = .ok none := by
  rw [mergeWord_eq, hi]
  simp only
  have hinv := built_inv (initialSymbols_pos hi)
  have hl := length_built ps.length ps 0
  have hb := built_get ps.length ps 0
  obtain ⟨hc, hpos⟩ := loadQueue_complete H b.merges (builtSyms ps.length 0 ps)
  obtain ⟨hok, _, hmem⟩ := loadQueue_spec H b.merges (builtSyms ps.length 0 ps) 0 [] H.ok_nil
  generalize builtSyms ps.length 0 ps = ss at *
  unfold mergeAll
  have key : mergeLoop H b.merges (fun n => n == 0) fuel 0 ss (loadQueue H b.merges 0 ss []) [] =
      .ok none := by
    cases fuel with
    | zero => rfl
    | succ fuel =>
      obtain ⟨m, hm⟩ := Option.ne_none_iff_exists'.1 hm
      obtain ⟨m', hm'⟩ := Option.ne_none_iff_exists'.1 hm'
      have q1 : ⟨i, m.rank, m.newId⟩ ∈ loadQueue H b.merges 0 ss [] := by
        rw [hmem]; right
        refine ⟨i, _, _, m, by rw [hb, h1]; rfl, by rw [hb, h2]; rfl, hm, by simp⟩
      have q2 : ⟨j, m'.rank, m'.newId⟩ ∈ loadQueue H b.merges 0 ss [] := by
        rw [hmem]; right
        refine ⟨j, _, _, m', by rw [hb, h3]; rfl, by rw [hb, h4]; rfl, hm', by simp⟩
      unfold mergeLoop
      cases hpop : H.pop (loadQueue H b.merges 0 ss []) with
      | none =>
        have := (H.pop_none _ hok).1 hpop
        rw [this] at q1
        cases q1
      | some p =>
        obtain ⟨top, q⟩ := p
        have hperm := H.pop_perm _ _ _ hok hpop
        simp only [beq_self_eq_true, if_true, List.nil_append]
        apply mergeLoop_forever H b.merges _ fuel (0 + 1) ss q [top] _ hinv (H.ok_pop _ _ _ hok hpop)
        · exact fun e he => hpos e (hperm.mem_iff.2 (by simp [he]))
        · intro e he
          simp at he; subst he
          exact hpos _ (hperm.mem_iff.2 (by simp))
        · intro hq
          subst hq
          have e1 := hperm.mem_iff.1 q1
          have e2 := hperm.mem_iff.1 q2
          simp at e1 e2
          rw [← e1] at e2
          simp at e2
          exact hij e2.1.symm
        · simp
        · intro k hk
          simp; omega
  rw [key]

/-- A word with two mergeable pairs. -/
example : initialSymbols (letterBpe twoWays) ['a', 'b', 'c'] = some [(0, 1), (1, 1), (2, 1)] ∧
    twoWays 0 1 ≠ none ∧ twoWays 1 2 ≠ none := by decide

/-! ### C56: prefix and suffix symbols -/

/-- **C56, violated.** The end-of-word suffix has no effect on any word. -/
theorem C56_suffix_violated (H : Heap) (b : BpeModel) (suf : Option Str) (drop : Nat → Bool)
    (fuel : Nat) (w : Str) :
    mergeWord H { b with suf := suf } drop fuel w = mergeWord H b drop fuel w := by
  rw [mergeWord_eq, mergeWord_eq]
  rfl

/-- **C56, violated.** The continuing-subword prefix is put on the first rune and on no other:
`ab`, with `a` and `##b` in the vocabulary, becomes two unknown tokens. -/
theorem C56_prefix_violated : ∃ b : BpeModel, b.pre = some ['#', '#'] ∧ b.vocab ['a'] = some 0 ∧
    b.vocab ['#', '#', 'b'] = some 1 ∧ ∀ H : Heap,
      mergeWord H b (fun _ => false) 1 ['a', 'b'] = .ok (some [⟨7, -1, 1, 1⟩, ⟨7, 0, -1, 1⟩]) := by
  refine ⟨⟨fun s => if s = ['a'] then some 0 else if s = ['#', '#', 'b'] then some 1 else
      if s = ['U'] then some 7 else none, fun _ => none, fun _ _ => none, some ['U'],
      some ['#', '#'], none⟩, rfl, by decide, by decide, fun H => ?_⟩
  rw [mergeWord_eq]
  have hi : initialSymbols ⟨fun s => if s = ['a'] then some 0 else if s = ['#', '#', 'b'] then some 1 else
      if s = ['U'] then some 7 else none, fun _ => none, fun _ _ => none, some ['U'],
      some ['#', '#'], none⟩ ['a', 'b'] = some [(7, 1), (7, 1)] := by decide
  rw [hi]
  have hp : H.pop [] = none := (H.pop_none [] H.ok_nil).2 rfl
  simp [mergeAll, mergeLoop, loadQueue, builtSyms, hp, removeSymbols]

end Tok
