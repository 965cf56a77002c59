import Verif.Concurrency.Train
import Verif.Concurrency.PropsEncodeBatch

/-!
# C47: word counting in training
-/

namespace Tok

/-! ### Specification -/

/-- How often word `w` occurs in the lines of the files. -/
def expectedCount (wordsOf : List UInt8 → List Str) (files : List (List (List UInt8))) (w : Str) :
    Nat :=
  (files.map (fun lines => (lines.map (fun l => (wordsOf l).count w)).sum)).sum

/-- The bytes of a text file with these lines, each ended by a line feed. -/
def fileBytes (lines : List (List UInt8)) : List UInt8 :=
  (lines.map (fun l => l ++ [10])).flatten

/-- A line: no line feed inside, no carriage return at the end. -/
def PlainLine (l : List UInt8) : Prop := 10 ∉ l ∧ l.getLast? ≠ some 13

/-- A text file: its lines, whether they end in carriage return and line feed, and whether the last
one has an end. -/
structure TextFile where
  lines : List (List UInt8)
  crlf : Bool := false
  ended : Bool := true

/-- The bytes of a text file. -/
def TextFile.bytes (f : TextFile) : List UInt8 :=
  let eol := if f.crlf then [13, 10] else [10]
  if f.ended then (f.lines.map (fun l => l ++ eol)).flatten
  else (f.lines.dropLast.map (fun l => l ++ eol)).flatten ++ f.lines.getLast?.getD []

/-- The lines are lines, and a last line without an end is not empty. -/
structure TextFile.Plain (f : TextFile) : Prop where
  lines : ∀ l ∈ f.lines, PlainLine l
  last : f.ended = false → f.lines.getLast? ≠ some []

/-! ### Counting lemmas -/

/-- Sum of the counts of `w` in a list of entries. -/
def cnt (w : Str) (l : List (Str × Nat)) : Nat :=
  ((l.filter (fun p => p.1 == w)).map (·.2)).sum

theorem cnt_perm {l l' : List (Str × Nat)} (h : l.Perm l') (w : Str) : cnt w l = cnt w l' := by
  unfold cnt
  exact ((h.filter _).map _).sum_nat

theorem cnt_cons (w : Str) (p : Str × Nat) (l : List (Str × Nat)) :
    cnt w (p :: l) = (if p.1 = w then p.2 else 0) + cnt w l := by
  unfold cnt
  by_cases h : p.1 = w <;> simp [h]

theorem cnt_eq_mget {m : List (Str × Nat)} (hn : (m.map (·.1)).Nodup) (w : Str) :
    cnt w m = (mget m w).getD 0 := by
  induction m with
  | nil => rfl
  | cons p m ih =>
    simp only [List.map_cons, List.nodup_cons] at hn
    rw [cnt_cons, ih hn.2]
    have e : mget (p :: m) w = if p.1 = w then some p.2 else mget m w := by
      obtain ⟨a, b⟩ := p
      conv => lhs; unfold mget
      simp
    rw [e]
    by_cases h : p.1 = w
    · subst h
      have : mget m p.1 = none := mget_eq_none.2 hn.1
      simp [this]
    · simp [h]

theorem cnt_mset {m : List (Str × Nat)} (hn : (m.map (·.1)).Nodup) (w k : Str) (v : Nat) :
    cnt w (mset m k v) = if w = k then v else cnt w m := by
  rw [cnt_eq_mget (mset_nodup m k v hn), mget_mset, cnt_eq_mget hn]
  split <;> rfl

theorem processTokens_spec (ts : List Str) : ∀ (m : List (Str × Nat)), (m.map (·.1)).Nodup →
    (∀ p ∈ m, 0 < p.2) →
    ((processTokens m ts).map (·.1)).Nodup ∧ (∀ p ∈ processTokens m ts, 0 < p.2) ∧
    ∀ w, cnt w (processTokens m ts) = cnt w m + ts.count w := by
  induction ts with
  | nil => intro m h1 h2; exact ⟨h1, h2, by simp [processTokens]⟩
  | cons t ts ih =>
    intro m h1 h2
    unfold processTokens
    obtain ⟨a, b, c⟩ := ih _ (mset_nodup m t ((mget m t).getD 0 + 1) h1) (by
      intro p hp
      have := mget_of_mem (mset_nodup m t ((mget m t).getD 0 + 1) h1) hp
      rw [mget_mset] at this
      split at this
      · have := Option.some.inj this; omega
      · exact h2 _ (mem_of_mget this))
    refine ⟨a, b, ?_⟩
    intro w
    rw [c, cnt_mset h1, List.count_cons]
    by_cases h : w = t
    · subst h; simp [cnt_eq_mget h1]; omega
    · have : (t == w) = false := by simpa using Ne.symm h
      simp [h, this]

theorem dictAdd_eq (d : List (Str × Nat)) (w : Str) (c : Nat) :
    dictAdd d w c = mset d w ((mget d w).getD 0 + c) := by
  unfold dictAdd
  cases mget d w <;> simp

/-! ### Scanning -/

theorem scanLines_line (l rest : List UInt8) (h : 10 ∉ l) : ∀ cur,
    scanLines cur (l ++ 10 :: rest) = dropCR (cur.reverse ++ l) :: scanLines [] rest := by
  induction l with
  | nil => intro cur; simp [scanLines]
  | cons b l ih =>
    intro cur
    have hb : b ≠ 10 := by intro e; subst e; exact h (by simp)
    simp only [List.cons_append]
    have e : scanLines cur (b :: (l ++ 10 :: rest)) = scanLines (b :: cur) (l ++ 10 :: rest) := by
      conv => lhs; unfold scanLines
      rw [if_neg hb]
    rw [e, ih (fun hc => h (by simp [hc]))]
    simp

theorem scanLines_file (lines : List (List UInt8)) (h : ∀ l ∈ lines, PlainLine l) :
    scanLines [] (fileBytes lines) = lines := by
  induction lines with
  | nil => rfl
  | cons l ls ih =>
    have hl := h l (by simp)
    have : fileBytes (l :: ls) = l ++ 10 :: fileBytes ls := by simp [fileBytes]
    rw [this, scanLines_line _ _ hl.1, ih (fun l hl => h l (by simp [hl]))]
    simp [dropCR, hl.2]

theorem length_fileBytes (lines : List (List UInt8)) :
    (fileBytes lines).length = (lines.map (fun l => l.length)).sum + lines.length := by
  induction lines with
  | nil => rfl
  | cons l ls ih =>
    have : fileBytes (l :: ls) = l ++ 10 :: fileBytes ls := by simp [fileBytes]
    rw [this]; simp [ih]; omega

theorem chunkLines_all (limit : Nat) (ls : List (List UInt8)) : ∀ cum,
    cum + (ls.map (fun l => l.length)).sum ≤ limit → (chunkLines limit cum ls).1 = ls := by
  induction ls with
  | nil => intro cum _; rfl
  | cons l ls ih =>
    intro cum h
    simp only [List.map_cons, List.sum_cons] at h
    unfold chunkLines
    rw [if_neg (by omega)]
    simp only
    rw [ih _ (by omega)]

/-- Total count of `w` in a list of messages. -/
def msgCnt (w : Str) (ms : List (List (Str × Nat))) : Nat := (ms.map (cnt w)).sum

theorem scanLines_ends (crlf : Bool) (ls : List (List UInt8)) (h : ∀ l ∈ ls, PlainLine l) (tail : List UInt8) :
    scanLines [] ((ls.map (fun l => l ++ (if crlf then [13, 10] else [10]))).flatten ++ tail) =
      ls ++ scanLines [] tail := by
  induction ls with
  | nil => rfl
  | cons l ls ih =>
    have hl := h l (by simp)
    have ih := ih (fun l hl => h l (by simp [hl]))
    rw [List.map_cons, List.flatten_cons]
    cases crlf with
    | false =>
      simp only [Bool.false_eq_true, if_false, List.append_assoc, List.cons_append, List.nil_append] at ih ⊢
      rw [scanLines_line _ _ hl.1, ih]
      simp [dropCR, hl.2]
    | true =>
      simp only [if_true] at ih ⊢
      have : (l ++ [13, 10] ++ (ls.map (fun l => l ++ [13, 10])).flatten) ++ tail =
          (l ++ [13]) ++ 10 :: ((ls.map (fun l => l ++ [13, 10])).flatten ++ tail) := by simp
      rw [this, scanLines_line _ _ (by
        intro hc
        rcases List.mem_append.1 hc with hc | hc
        · exact hl.1 hc
        · simp at hc), ih]
      simp [dropCR]

theorem scanLines_last (l : List UInt8) (h : 10 ∉ l) : ∀ cur, cur ≠ [] ∨ l ≠ [] →
    scanLines cur l = [dropCR (cur.reverse ++ l)] := by
  induction l with
  | nil =>
    intro cur hc
    have : cur ≠ [] := by
      rcases hc with h | h
      · exact h
      · exact absurd rfl h
    simp [scanLines, this]
  | cons b l ih =>
    intro cur _
    have hb : b ≠ 10 := by intro e; subst e; exact h (by simp)
    have e : scanLines cur (b :: l) = scanLines (b :: cur) l := by
      conv => lhs; unfold scanLines
      rw [if_neg hb]
    rw [e, ih (fun hc => h (by simp [hc])) (b :: cur) (.inl (by simp))]
    simp

theorem scanLines_text (f : TextFile) (h : f.Plain) : scanLines [] f.bytes = f.lines := by
  unfold TextFile.bytes
  simp only
  cases he : f.ended with
  | true =>
    have := scanLines_ends f.crlf f.lines h.lines []
    simpa [scanLines] using this
  | false =>
    simp only [Bool.false_eq_true, if_false]
    rw [scanLines_ends f.crlf f.lines.dropLast (fun l hl => h.lines l (List.dropLast_subset _ hl))]
    rcases List.eq_nil_or_concat f.lines with hn | ⟨init, l, hn⟩
    · simp [hn, scanLines]
    · have hl := h.lines l (by rw [hn]; simp)
      have hne : l ≠ [] := by
        intro e
        apply h.last he
        rw [hn, e]; simp
      rw [hn]
      simp only [List.concat_eq_append, List.dropLast_concat, List.getLast?_concat, Option.getD_some]
      rw [scanLines_last l hl.1 [] (.inr hne)]
      simp [dropCR, hl.2]

theorem sum_le_bytes (eol : List UInt8) (ls : List (List UInt8)) : (ls.map (fun l => l.length)).sum ≤
    ((ls.map (fun l => l ++ eol)).flatten).length := by
  induction ls with
  | nil => simp
  | cons l ls ih => simp only [List.map_cons, List.sum_cons, List.flatten_cons, List.length_append]; omega

theorem length_text (f : TextFile) (h : f.Plain) : (f.lines.map (fun l => l.length)).sum ≤ f.bytes.length ∧
    (f.bytes = [] ↔ f.lines = []) := by
  unfold TextFile.bytes
  simp only
  have hel : (if f.crlf then [13, 10] else [10] : List UInt8) ≠ [] := by split <;> simp
  generalize (if f.crlf then [13, 10] else [10] : List UInt8) = eol at hel
  cases he : f.ended with
  | true =>
    simp only [if_true]
    refine ⟨sum_le_bytes _ _, ?_⟩
    cases f.lines with
    | nil => simp
    | cons l ls => simp [hel]
  | false =>
    simp only [Bool.false_eq_true, if_false]
    rcases List.eq_nil_or_concat f.lines with hn | ⟨init, l, hn⟩
    · simp [hn]
    · have hne : l ≠ [] := by
        intro e
        apply h.last he
        rw [hn, e]; simp
      rw [hn]
      simp only [List.concat_eq_append, List.dropLast_concat, List.getLast?_concat, Option.getD_some]
      have := sum_le_bytes eol init
      refine ⟨by simp only [List.map_append, List.sum_append, List.length_append, List.map_cons, List.map_nil,
        List.sum_cons, List.sum_nil]; omega, ?_⟩
      simp [hne]

theorem processChunk_file (wordsOf : List UInt8 → List Str) (limit : Nat)
    (f : TextFile) (h : f.Plain) (hsz : f.bytes.length ≤ limit) (w : Str) :
    msgCnt w (processChunk wordsOf 0 limit f.bytes).1 =
      (f.lines.map (fun l => (wordsOf l).count w)).sum := by
  unfold processChunk msgCnt
  simp only [List.drop_zero]
  have := (length_text f h).1
  rw [scanLines_text f h, chunkLines_all _ _ _ (by omega)]
  rw [List.map_map]
  congr 1
  apply List.map_congr_left
  intro l _
  simp only [Function.comp]
  rw [(processTokens_spec (wordsOf l) [] (by simp) (by simp)).2.2]
  simp [cnt]

/-! ### Conservation -/

/-- What a goroutine will still contribute to `w`, if it starts at the current
value of its file's `current`. -/
def pending (wordsOf : List UInt8 → List Str) (limit : Nat) (files : List (List UInt8))
    (current : List Nat) (w : Str) : ChunkPc → Nat
  | .start f => match current[f]?, files[f]? with
    | some cur, some file => msgCnt w (processChunk wordsOf cur limit file).1
    | _, _ => 0
  | .sending _ ms _ => msgCnt w ms
  | .done _ => 0

/-- Everything counted or still to be counted. -/
def TrainSt.total (wordsOf : List UInt8 → List Str) (limit : Nat) (files : List (List UInt8))
    (w : Str) (s : TrainSt) : Nat :=
  cnt w s.dict + cnt w s.inflight + (s.pcs.map (pending wordsOf limit files s.current w)).sum

/-- Well-formed state. -/
structure TrainOk (s : TrainSt) : Prop where
  nodup : (s.dict.map (·.1)).Nodup
  dpos : ∀ p ∈ s.dict, 0 < p.2
  ipos : ∀ p ∈ s.inflight, 0 < p.2
  mpos : ∀ f ms ret, ChunkPc.sending f ms ret ∈ s.pcs → ∀ m ∈ ms, ∀ p ∈ m, 0 < p.2
  closed : s.closed = true → ∀ pc ∈ s.pcs, ∃ f, pc = .done f
  fin : s.finished = true → s.closed = true ∧ s.inflight = []

theorem processChunk_pos (wordsOf : List UInt8 → List Str) (off limit : Nat) (file : List UInt8) :
    ∀ m ∈ (processChunk wordsOf off limit file).1, ∀ p ∈ m, 0 < p.2 := by
  intro m hm
  unfold processChunk at hm
  simp only [List.mem_map] at hm
  obtain ⟨l, _, rfl⟩ := hm
  exact (processTokens_spec _ [] (by simp) (by simp)).2.1

theorem TrainOk.step {wordsOf : List UInt8 → List Str} {limit : Nat} {files : List (List UInt8)}
    (s t : TrainSt) (h : TrainOk s) (hs : TrainStep wordsOf limit files s t) : TrainOk t := by
  cases hs with
  | begin i f cur file hpc hc hf =>
    refine ⟨h.nodup, h.dpos, h.ipos, ?_, ?_, h.fin⟩
    · intro f' ms ret hm
      rcases List.mem_or_eq_of_mem_set hm with hm | hm
      · exact h.mpos f' ms ret hm
      · cases hm; exact processChunk_pos _ _ _ _
    · intro hcl
      obtain ⟨f', e⟩ := h.closed hcl _ (List.mem_of_getElem? hpc)
      cases e
  | send i f m order ms ret hpc hi hcl hp =>
    have hmem := List.mem_of_getElem? hpc
    refine ⟨h.nodup, h.dpos, ?_, ?_, ?_, ?_⟩
    · intro p hp'
      exact h.mpos _ _ _ hmem m (by simp) p (hp.mem_iff.2 hp')
    · intro f' ms' ret' hm
      rcases List.mem_or_eq_of_mem_set hm with hm | hm
      · exact h.mpos f' ms' ret' hm
      · cases hm
        intro m' hm'
        exact h.mpos _ _ _ hmem m' (by simp [hm'])
    · intro hcl'; rw [hcl] at hcl'; cases hcl'
    · intro hf
      have := (h.fin hf).1
      rw [hcl] at this; cases this
  | add w c rest hi =>
    refine ⟨?_, ?_, ?_, h.mpos, h.closed, ?_⟩
    · show ((dictAdd s.dict w c).map (·.1)).Nodup
      rw [dictAdd_eq]; exact mset_nodup _ _ _ h.nodup
    · intro p hp
      have hc : 0 < c := h.ipos (w, c) (by rw [hi]; simp)
      have hp' : p ∈ mset s.dict w ((mget s.dict w).getD 0 + c) := by rw [← dictAdd_eq]; exact hp
      have := mget_of_mem (mset_nodup _ _ _ h.nodup) hp'
      rw [mget_mset] at this
      split at this
      · have := Option.some.inj this; omega
      · exact h.dpos _ (mem_of_mget this)
    · intro p hp
      exact h.ipos p (by rw [hi]; simp [hp])
    · intro hf
      have := (h.fin hf).2
      rw [hi] at this; cases this
  | finish i f ret hpc =>
    refine ⟨h.nodup, h.dpos, h.ipos, ?_, ?_, h.fin⟩
    · intro f' ms ret' hm
      rcases List.mem_or_eq_of_mem_set hm with hm | hm
      · exact h.mpos f' ms ret' hm
      · cases hm
    · intro hcl pc hm
      rcases List.mem_or_eq_of_mem_set hm with hm | hm
      · exact h.closed hcl pc hm
      · exact ⟨f, hm⟩
  | close hd hcl => exact ⟨h.nodup, h.dpos, h.ipos, h.mpos, fun _ => hd, fun hf => ⟨rfl, (h.fin hf).2⟩⟩
  | signal hc hi hf => exact ⟨h.nodup, h.dpos, h.ipos, h.mpos, h.closed, fun _ => ⟨hc, hi⟩⟩

theorem sum_map_set {l : List α} {i : Nat} {a b : α} (g : α → Nat) (h : l[i]? = some a) :
    ((l.set i b).map g).sum + g a = (l.map g).sum + g b := by
  induction l generalizing i with
  | nil => cases h
  | cons c l ih =>
    cases i with
    | zero => simp at h; subst h; simp; omega
    | succ i =>
      simp only [List.getElem?_cons_succ] at h
      have := ih h
      simp only [List.set_cons_succ, List.map_cons, List.sum_cons]
      omega

/-- A step conserves the total, provided that no goroutine is waiting to start
on a file whose `current` is overwritten. -/
theorem total_step {wordsOf : List UInt8 → List Str} {limit : Nat} {files : List (List UInt8)}
    (w : Str) (s t : TrainSt) (hok : TrainOk s) (hs : TrainStep wordsOf limit files s t)
    (hsafe : ∀ f ms ret, ChunkPc.sending f ms ret ∈ s.pcs → ChunkPc.start f ∉ s.pcs) :
    t.total wordsOf limit files w = s.total wordsOf limit files w := by
  cases hs with
  | begin i f cur file hpc hc hf =>
    have := sum_map_set (pending wordsOf limit files s.current w)
      (b := ChunkPc.sending f (processChunk wordsOf cur limit file).1
        (processChunk wordsOf cur limit file).2) hpc
    simp only [pending, hc, hf] at this
    unfold TrainSt.total
    simp only
    omega
  | send i f m order ms ret hpc hi hcl hp =>
    have := sum_map_set (pending wordsOf limit files s.current w)
      (b := ChunkPc.sending f ms ret) hpc
    simp only [pending, msgCnt, List.map_cons, List.sum_cons] at this
    unfold TrainSt.total
    simp only [hi]
    have hc := cnt_perm hp w
    have h0 : cnt w [] = 0 := rfl
    omega
  | add w' c rest hi =>
    unfold TrainSt.total
    simp only [hi, dictAdd_eq]
    rw [cnt_mset hok.nodup, cnt_cons]
    by_cases h : w = w'
    · subst h; simp [cnt_eq_mget hok.nodup]; omega
    · simp [h, Ne.symm h]
  | finish i f ret hpc =>
    have hmem := List.mem_of_getElem? hpc
    have h1 := sum_map_set (pending wordsOf limit files s.current w) (b := ChunkPc.done f) hpc
    have h2 : (s.pcs.set i (.done f)).map (pending wordsOf limit files (s.current.set f ret) w) =
        (s.pcs.set i (.done f)).map (pending wordsOf limit files s.current w) := by
      apply List.map_congr_left
      intro pc hm
      cases pc with
      | start f' =>
        have hne : f ≠ f' := by
          intro e; subst e
          rcases List.mem_or_eq_of_mem_set hm with hm | hm
          · exact hsafe _ _ _ hmem hm
          · cases hm
        simp [pending, List.getElem?_set_ne hne]
      | sending f' ms r => rfl
      | done f' => rfl
    have h3 : pending wordsOf limit files s.current w (.sending f [] ret) = 0 := rfl
    have h4 : pending wordsOf limit files s.current w (.done f) = 0 := rfl
    unfold TrainSt.total
    simp only [h2]
    omega
  | close hd hcl => rfl
  | signal hc hi hf => rfl

theorem final_dict {wordsOf : List UInt8 → List Str} {limit : Nat} {files : List (List UInt8)}
    {s : TrainSt} (hok : TrainOk s) (hf : s.finished = true) (w : Str) (n : Nat)
    (hn : s.total wordsOf limit files w = n) : mget s.dict w = if n = 0 then none else some n := by
  have hd := hok.closed (hok.fin hf).1
  have hp : (s.pcs.map (pending wordsOf limit files s.current w)).sum = 0 := by
    rw [List.sum_eq_zero_iff_forall_eq_nat]
    intro x hx
    obtain ⟨pc, hpc, rfl⟩ := List.mem_map.1 hx
    obtain ⟨f, rfl⟩ := hd pc hpc
    rfl
  unfold TrainSt.total at hn
  rw [hp, (hok.fin hf).2, cnt_eq_mget hok.nodup] at hn
  have h0 : cnt w [] = 0 := rfl
  cases hm : mget s.dict w with
  | none => rw [hm] at hn; simp at hn; rw [if_pos (by omega)]
  | some v =>
    rw [hm] at hn
    have := hok.dpos _ (mem_of_mget hm)
    simp at hn this
    rw [if_neg (by omega)]
    congr 1

/-! ### Small files -/

theorem chunkNum_le_one {size limit : Nat} (h : size ≤ limit) : chunkNum size limit ≤ 1 := by
  unfold chunkNum
  by_cases h0 : limit = 0
  · subst h0; simp
  · have : (size + limit - 1) / limit < 2 := by
      rw [Nat.div_lt_iff_lt_mul (by omega)]; omega
    omega

theorem startWorkers_files (limit : Nat) (files : List (List UInt8)) : ∀ f,
    (∀ pc ∈ startWorkers limit f files, ∃ g, f ≤ g ∧ g < f + files.length ∧ pc = .start g) := by
  induction files with
  | nil => intro f pc h; cases h
  | cons file files ih =>
    intro f pc h
    unfold startWorkers at h
    rcases List.mem_append.1 h with h | h
    · exact ⟨f, Nat.le_refl _, by simp, (List.mem_replicate.1 h).2⟩
    · obtain ⟨g, h1, h2, h3⟩ := ih (f + 1) pc h
      exact ⟨g, by omega, by simp; omega, h3⟩

theorem startWorkers_nodup (limit : Nat) (files : List (List UInt8))
    (hsz : ∀ file ∈ files, file.length ≤ limit) : ∀ f,
    ((startWorkers limit f files).map ChunkPc.file).Nodup := by
  induction files with
  | nil => intro f; simp [startWorkers]
  | cons file files ih =>
    intro f
    unfold startWorkers
    rw [List.map_append, List.nodup_append]
    refine ⟨?_, ih (fun x hx => hsz x (by simp [hx])) (f + 1), ?_⟩
    · have := chunkNum_le_one (hsz file (by simp))
      rw [List.map_replicate]
      match chunkNum file.length limit, this with
      | 0, _ => simp
      | 1, _ => simp
    · intro a ha b hb e
      subst e
      obtain ⟨pc, hpc, rfl⟩ := List.mem_map.1 ha
      obtain ⟨pc', hpc', e⟩ := List.mem_map.1 hb
      have h1 := (List.mem_replicate.1 hpc).2
      obtain ⟨g, hg, _, h3⟩ := startWorkers_files limit files (f + 1) pc' hpc'
      subst h1; subst h3
      simp only [ChunkPc.file] at e
      omega

theorem map_set_eq {l : List α} {i : Nat} {a b : α} (g : α → β) (h : l[i]? = some a)
    (e : g b = g a) : (l.set i b).map g = l.map g := by
  induction l generalizing i with
  | nil => rfl
  | cons c l ih =>
    cases i with
    | zero => simp at h; subst h; simp [e]
    | succ i =>
      simp only [List.getElem?_cons_succ] at h
      simp [ih h]

theorem files_const {wordsOf : List UInt8 → List Str} {limit : Nat} {files : List (List UInt8)}
    (s t : TrainSt) (hs : TrainStep wordsOf limit files s t) :
    t.pcs.map ChunkPc.file = s.pcs.map ChunkPc.file := by
  cases hs with
  | begin i f cur file hpc hc hf => exact map_set_eq _ hpc rfl
  | send i f m order ms ret hpc hi hcl hp => exact map_set_eq _ hpc rfl
  | add w' c rest hi => rfl
  | finish i f ret hpc => exact map_set_eq _ hpc rfl
  | close hd hcl => rfl
  | signal hc hi hf => rfl

theorem nodup_map_inj {g : α → β} {l : List α} (h : (l.map g).Nodup) {a b : α} (ha : a ∈ l)
    (hb : b ∈ l) (e : g a = g b) : a = b := by
  induction l with
  | nil => cases ha
  | cons c l ih =>
    simp only [List.map_cons, List.nodup_cons] at h
    rcases List.mem_cons.1 ha with ha' | ha' <;> rcases List.mem_cons.1 hb with hb' | hb'
    · rw [ha', hb']
    · exact absurd (List.mem_map.2 ⟨b, hb', by rw [← e, ha']⟩) h.1
    · exact absurd (List.mem_map.2 ⟨a, ha', by rw [e, hb']⟩) h.1
    · exact ih h.2 ha' hb'

theorem total_init (wordsOf : List UInt8 → List Str) (limit : Nat)
    (w : Str) (texts : List TextFile)
    (hpl : ∀ f ∈ texts, f.Plain)
    (hsz : ∀ f ∈ texts, f.bytes.length ≤ limit) :
    (TrainSt.init limit (texts.map TextFile.bytes)).total wordsOf limit (texts.map TextFile.bytes) w =
      expectedCount wordsOf (texts.map TextFile.lines) w := by
  -- generalise to a suffix of the files
  have key : ∀ (rest : List TextFile) (all : List (List UInt8)) (cur : List Nat) (f : Nat),
      (∀ x ∈ rest, x.Plain) → (∀ x ∈ rest, x.bytes.length ≤ limit) →
      (∀ k (h : k < rest.length), all[f + k]? = some rest[k].bytes ∧ cur[f + k]? = some 0) →
      ((startWorkers limit f (rest.map TextFile.bytes)).map (pending wordsOf limit all cur w)).sum =
        expectedCount wordsOf (rest.map TextFile.lines) w := by
    intro rest
    induction rest with
    | nil => intro all cur f _ _ _; rfl
    | cons ls rest ih =>
      intro all cur f h1 h2 h3
      have h0 := h3 0 (by simp)
      simp only [Nat.add_zero, List.getElem_cons_zero] at h0
      have ih' := ih all cur (f + 1) (fun x hx => h1 x (by simp [hx]))
        (fun x hx => h2 x (by simp [hx])) (by
          intro k hk
          have := h3 (k + 1) (by simp; omega)
          simp only [List.getElem_cons_succ] at this
          rw [show f + 1 + k = f + (k + 1) by omega]; exact this)
      simp only [List.map_cons, startWorkers, List.map_append, List.sum_append, ih',
        List.map_replicate]
      unfold expectedCount
      simp only [List.map_cons, List.sum_cons]
      congr 1
      have hp : pending wordsOf limit all cur w (.start f) =
          msgCnt w (processChunk wordsOf 0 limit ls.bytes).1 := by
        simp [pending, h0.1, h0.2]
      rw [hp, processChunk_file wordsOf limit ls (h1 ls (by simp)) (h2 ls (by simp))]
      have hle := h2 ls (by simp)
      have hnil := (length_text ls (h1 ls (by simp))).2
      by_cases hb : ls.bytes = []
      · rw [hnil.1 hb, hb]; simp
      · have hpos : 0 < ls.bytes.length := List.length_pos_iff.2 hb
        have : chunkNum ls.bytes.length limit = 1 := by
          have h1 := chunkNum_le_one hle
          have h2 : 0 < chunkNum ls.bytes.length limit := by
            unfold chunkNum
            apply Nat.div_pos <;> omega
          omega
        rw [this]; simp
  unfold TrainSt.total
  simp only [TrainSt.init]
  rw [key texts (texts.map TextFile.bytes) _ 0 hpl hsz (by
    intro k hk; simp [hk])]
  simp [cnt]

/-- C47, for files no larger than the chunk limit (100 MB in the code): under
every schedule, when the counting phase ends, the dictionary handed to the
trainer holds for every word exactly its number of occurrences in all lines, whichever way the lines end and
whether or not the last one has an end.
Missing from the full property: larger files (see below). -/
theorem C47_counts_partial (wordsOf : List UInt8 → List Str) (limit : Nat)
    (texts : List TextFile) (hpl : ∀ f ∈ texts, f.Plain)
    (hsz : ∀ f ∈ texts, f.bytes.length ≤ limit) (s : TrainSt)
    (h : Star (TrainStep wordsOf limit (texts.map TextFile.bytes))
      (TrainSt.init limit (texts.map TextFile.bytes)) s)
    (hf : s.finished = true) (w : Str) :
    mget s.dict w = if expectedCount wordsOf (texts.map TextFile.lines) w = 0 then none
      else some (expectedCount wordsOf (texts.map TextFile.lines) w) := by
  have hnd0 := startWorkers_nodup limit (texts.map TextFile.bytes) (by
    intro file hm
    obtain ⟨ls, hls, rfl⟩ := List.mem_map.1 hm
    exact hsz ls hls) 0
  have hinv : TrainOk s ∧ (s.pcs.map ChunkPc.file).Nodup ∧
      s.total wordsOf limit (texts.map TextFile.bytes) w = expectedCount wordsOf (texts.map TextFile.lines) w := by
    refine h.invariant (P := fun s => TrainOk s ∧ (s.pcs.map ChunkPc.file).Nodup ∧
      s.total wordsOf limit (texts.map TextFile.bytes) w = expectedCount wordsOf (texts.map TextFile.lines) w)
      ?_ ⟨?_, hnd0, total_init wordsOf limit w texts hpl hsz⟩
    · rintro s t ⟨h1, h2, h3⟩ hs
      refine ⟨h1.step _ _ hs, by rw [files_const _ _ hs]; exact h2, ?_⟩
      rw [total_step w s t h1 hs ?_, h3]
      intro f ms ret hm hm'
      have := nodup_map_inj h2 hm hm' rfl
      cases this
    · refine ⟨by simp [TrainSt.init], by simp [TrainSt.init], by simp [TrainSt.init], ?_, ?_, ?_⟩
      · intro f ms ret hm
        obtain ⟨g, _, _, e⟩ := startWorkers_files _ _ _ _ hm
        cases e
      · intro hc; cases hc
      · intro hc; cases hc
  exact final_dict hinv.1 hf w _ hinv.2.2


/-! ### Progress and termination -/

/-- Every goroutine's file exists. -/
def TrainFiles (files : List (List UInt8)) (s : TrainSt) : Prop :=
  s.current.length = files.length ∧ ∀ pc ∈ s.pcs, pc.file < files.length

theorem TrainFiles.step {wordsOf : List UInt8 → List Str} {limit : Nat}
    {files : List (List UInt8)} (s t : TrainSt) (h : TrainFiles files s)
    (hs : TrainStep wordsOf limit files s t) : TrainFiles files t := by
  constructor
  · cases hs <;> simp [h.1]
  · intro pc hpc
    have h1 : pc.file ∈ t.pcs.map ChunkPc.file := List.mem_map.2 ⟨pc, hpc, rfl⟩
    rw [files_const _ _ hs] at h1
    obtain ⟨pc', h2, h3⟩ := List.mem_map.1 h1
    rw [← h3]; exact h.2 pc' h2

theorem TrainFiles.init (limit : Nat) (files : List (List UInt8)) :
    TrainFiles files (TrainSt.init limit files) := by
  constructor
  · simp [TrainSt.init]
  · intro pc hpc
    obtain ⟨g, _, h, rfl⟩ := startWorkers_files _ _ _ _ hpc
    simpa [ChunkPc.file] using h

theorem TrainOk.init (limit : Nat) (files : List (List UInt8)) :
    TrainOk (TrainSt.init limit files) := by
  refine ⟨by simp [TrainSt.init], by simp [TrainSt.init], by simp [TrainSt.init], ?_, ?_, ?_⟩
  · intro f ms ret hm
    obtain ⟨g, _, _, e⟩ := startWorkers_files _ _ _ _ hm
    cases e
  · intro hc; cases hc
  · intro hc; cases hc

theorem train_progress {wordsOf : List UInt8 → List Str} {limit : Nat}
    {files : List (List UInt8)} {s : TrainSt} (hfl : TrainFiles files s) :
    s.finished = true ∨ ∃ t, TrainStep wordsOf limit files s t := by
  cases hfin : s.finished with
  | true => exact Or.inl rfl
  | false =>
  right
  cases hi : s.inflight with
  | cons p rest => exact ⟨_, .add p.1 p.2 rest hi⟩
  | nil =>
  cases hcl : s.closed with
  | true => exact ⟨_, .signal hcl hi hfin⟩
  | false =>
  by_cases hd : ∀ pc ∈ s.pcs, ∃ f, pc = ChunkPc.done f
  · exact ⟨_, .close hd hcl⟩
  · obtain ⟨pc, hpc⟩ := Classical.not_forall.1 hd
    obtain ⟨hm, hnd⟩ := Classical.not_imp.1 hpc
    obtain ⟨i, hi'⟩ := List.getElem?_of_mem hm
    cases pc with
    | start f =>
      have hf : f < files.length := hfl.2 _ hm
      have hc : f < s.current.length := by rw [hfl.1]; exact hf
      exact ⟨_, .begin i f s.current[f] files[f] hi' (List.getElem?_eq_getElem hc)
        (List.getElem?_eq_getElem hf)⟩
    | sending f ms ret =>
      cases ms with
      | nil => exact ⟨_, .finish i f ret hi'⟩
      | cons m ms => exact ⟨_, .send i f m m ms ret hi' hi hcl (List.Perm.refl _)⟩
    | done f => exact absurd ⟨f, rfl⟩ hnd

/-- The counting phase cannot deadlock: from every state reached under any
schedule it has ended or some step is possible. -/
theorem C47_progress (wordsOf : List UInt8 → List Str) (limit : Nat)
    (files : List (List UInt8)) (s : TrainSt)
    (h : Star (TrainStep wordsOf limit files) (TrainSt.init limit files) s) :
    s.finished = true ∨ ∃ t, TrainStep wordsOf limit files s t :=
  train_progress (h.invariant (fun s t => TrainFiles.step s t) (TrainFiles.init _ _))

/-- Number of goroutines that have not read `current` yet. -/
def TrainSt.starts (s : TrainSt) : Nat :=
  (s.pcs.map (fun pc => match pc with | .start _ => 1 | _ => 0)).sum

/-- Work left in goroutines that have. -/
def ChunkPc.todo : ChunkPc → Nat
  | .start _ => 0
  | .sending _ ms _ => 1 + (ms.map (fun m => m.length + 1)).sum
  | .done _ => 0

/-- Work left apart from goroutines that have not started. -/
def TrainSt.todo (s : TrainSt) : Nat :=
  (s.pcs.map ChunkPc.todo).sum + s.inflight.length + (if s.closed then 0 else 1) +
    (if s.finished then 0 else 1)

theorem train_decreases {wordsOf : List UInt8 → List Str} {limit : Nat}
    {files : List (List UInt8)} (s t : TrainSt) (h : TrainStep wordsOf limit files s t) :
    t.starts < s.starts ∨ (t.starts = s.starts ∧ t.todo < s.todo) := by
  cases h with
  | begin i f cur file hpc hc hf =>
    left
    have := sum_map_set (fun pc => match pc with | ChunkPc.start _ => 1 | _ => 0)
      (b := ChunkPc.sending f (processChunk wordsOf cur limit file).1
        (processChunk wordsOf cur limit file).2) hpc
    unfold TrainSt.starts
    simp only at this ⊢
    omega
  | send i f m order ms ret hpc hi hcl hp =>
    right
    have h1 := sum_map_set (fun pc => match pc with | ChunkPc.start _ => 1 | _ => 0)
      (b := ChunkPc.sending f ms ret) hpc
    have h2 := sum_map_set ChunkPc.todo (b := ChunkPc.sending f ms ret) hpc
    have h3 := hp.length_eq
    unfold TrainSt.starts TrainSt.todo
    simp only [ChunkPc.todo, List.map_cons, List.sum_cons, hi, List.length_nil] at h1 h2 ⊢
    constructor <;> omega
  | add w' c rest hi =>
    right
    refine ⟨rfl, ?_⟩
    unfold TrainSt.todo
    simp only [hi, List.length_cons]
    omega
  | finish i f ret hpc =>
    right
    have h1 := sum_map_set (fun pc => match pc with | ChunkPc.start _ => 1 | _ => 0)
      (b := ChunkPc.done f) hpc
    have h2 := sum_map_set ChunkPc.todo (b := ChunkPc.done f) hpc
    unfold TrainSt.starts TrainSt.todo
    simp only [ChunkPc.todo, List.map_nil, List.sum_nil] at h1 h2 ⊢
    constructor <;> omega
  | close hd hcl =>
    right
    refine ⟨rfl, ?_⟩
    unfold TrainSt.todo
    simp [hcl]
  | signal hc hi hf =>
    right
    refine ⟨rfl, ?_⟩
    unfold TrainSt.todo
    simp [hf]

theorem train_acc (wordsOf : List UInt8 → List Str) (limit : Nat) (files : List (List UInt8)) :
    ∀ n k (s : TrainSt), s.starts ≤ n → s.todo ≤ k →
      Acc (fun b a => TrainStep wordsOf limit files a b) s := by
  intro n
  induction n with
  | zero =>
    intro k
    induction k with
    | zero =>
      intro s hn hk
      refine ⟨_, fun t ht => ?_⟩
      rcases train_decreases s t ht with h | ⟨_, h⟩ <;> omega
    | succ k ihk =>
      intro s hn hk
      refine ⟨_, fun t ht => ?_⟩
      rcases train_decreases s t ht with h | ⟨h1, h⟩
      · omega
      · exact ihk t (by omega) (by omega)
  | succ n ihn =>
    intro k
    induction k with
    | zero =>
      intro s hn hk
      refine ⟨_, fun t ht => ?_⟩
      rcases train_decreases s t ht with h | ⟨_, h⟩
      · exact ihn _ t (by omega) (Nat.le_refl _)
      · omega
    | succ k ihk =>
      intro s hn hk
      refine ⟨_, fun t ht => ?_⟩
      rcases train_decreases s t ht with h | ⟨h1, h⟩
      · exact ihn _ t (by omega) (Nat.le_refl _)
      · exact ihk t (by omega) (by omega)

/-- No schedule runs for ever: the step relation is well-founded. -/
theorem C47_terminates (wordsOf : List UInt8 → List Str) (limit : Nat)
    (files : List (List UInt8)) : WellFounded (fun b a => TrainStep wordsOf limit files a b) :=
  ⟨fun s => train_acc wordsOf limit files _ _ s (Nat.le_refl _) (Nat.le_refl _)⟩

theorem train_completes {wordsOf : List UInt8 → List Str} {limit : Nat}
    {files : List (List UInt8)} (s : TrainSt) (hok : TrainOk s) (hfl : TrainFiles files s) :
    ∃ t, Star (TrainStep wordsOf limit files) s t ∧ t.finished = true := by
  induction s using (C47_terminates wordsOf limit files).induction with
  | _ s ih =>
    rcases train_progress (wordsOf := wordsOf) (limit := limit) hfl with h | ⟨t, h⟩
    · exact ⟨s, .refl, h⟩
    · obtain ⟨u, hu, hf⟩ := ih t h (hok.step _ _ h) (hfl.step _ _ h)
      exact ⟨u, (Star.single h).trans hu, hf⟩

/-! ### Larger files -/

theorem chunkLines_short (L n : Nat) (b : UInt8) : ∀ cum, cum ≤ L →
    (chunkLines L cum (List.replicate n [b])).1 = List.replicate (min n (L - cum)) [b] := by
  induction n with
  | zero => intro cum _; simp [chunkLines]
  | succ n ih =>
    intro cum h
    rw [List.replicate_succ]
    unfold chunkLines
    by_cases hc : cum + 1 > L
    · have : L - cum = 0 := by omega
      simp [hc, this]
    · simp only [List.length_singleton, if_neg hc]
      rw [ih (cum + 1) (by omega), ← List.replicate_succ]
      congr 1
      omega

theorem no_start_step {wordsOf : List UInt8 → List Str} {limit : Nat}
    {files : List (List UInt8)} (s t : TrainSt) (h : TrainStep wordsOf limit files s t)
    (hs : ∀ f, ChunkPc.start f ∉ s.pcs) : ∀ f, ChunkPc.start f ∉ t.pcs := by
  intro f hm
  cases h with
  | begin i f' cur file hpc hc hf => exact hs _ (List.mem_of_getElem? hpc)
  | send i f' m order ms ret hpc hi hcl hp =>
    rcases List.mem_or_eq_of_mem_set hm with hm | hm
    · exact hs f hm
    · cases hm
  | add w' c rest hi => exact hs f hm
  | finish i f' ret hpc =>
    rcases List.mem_or_eq_of_mem_set hm with hm | hm
    · exact hs f hm
    · cases hm
  | close hd hcl => exact hs f hm
  | signal hc hi hf => exact hs f hm

/-- All goroutines of one file may read `current` before any of them assigns it. -/
theorem all_begin (wordsOf : List UInt8 → List Str) (limit : Nat) (file : List UInt8) (n : Nat) :
    ∀ k, k ≤ n → Star (TrainStep wordsOf limit [file])
      ⟨List.replicate n (.start 0), [0], [], [], false, false⟩
      ⟨List.replicate k (.sending 0 (processChunk wordsOf 0 limit file).1
          (processChunk wordsOf 0 limit file).2) ++ List.replicate (n - k) (.start 0),
        [0], [], [], false, false⟩ := by
  intro k
  induction k with
  | zero => intro _; simpa using Star.refl
  | succ k ih =>
    intro hk
    refine .tail (ih (by omega)) ?_
    have e : n - k = (n - (k + 1)) + 1 := by omega
    have hpc : (List.replicate k (ChunkPc.sending 0 (processChunk wordsOf 0 limit file).1
        (processChunk wordsOf 0 limit file).2) ++ List.replicate (n - k) (ChunkPc.start 0))[k]? =
        some (.start 0) := by
      rw [List.getElem?_append_right (by simp), e]
      simp [List.replicate_succ]
    have := TrainStep.begin (wordsOf := wordsOf) (limit := limit) (files := [file])
      (s := ⟨List.replicate k (.sending 0 (processChunk wordsOf 0 limit file).1
          (processChunk wordsOf 0 limit file).2) ++ List.replicate (n - k) (.start 0),
        [0], [], [], false, false⟩) k 0 0 file hpc rfl rfl
    rw [List.set_append_right _ _ (by simp), e] at this
    simp only [List.length_replicate, Nat.sub_self, List.replicate_succ, List.set_cons_zero] at this
    rw [show n - (k + 1) = n - (k + 1) from rfl, List.replicate_succ', List.append_assoc]
    rw [e] 
    exact this

/-- C47 does not hold for files larger than the chunk limit `L`: the goroutines of
a file share the variable `current`, and all may read it while it is 0.  For the
file of `2 * L` lines "a" there is a complete run after which every word is
counted twice. -/
theorem C47_large_file_violated (wordsOf : List UInt8 → List Str) (L : Nat) (hL : 0 < L) :
    ∃ s, Star (TrainStep wordsOf L [fileBytes (List.replicate (2 * L) [97])])
        (TrainSt.init L [fileBytes (List.replicate (2 * L) [97])]) s ∧ s.finished = true ∧
      ∀ w, 0 < (wordsOf [97]).count w →
        mget s.dict w = some (2 * expectedCount wordsOf [List.replicate (2 * L) [97]] w) := by
  have hlen : (fileBytes (List.replicate (2 * L) [97])).length = 4 * L := by
    rw [length_fileBytes]; simp; omega
  have hnum : chunkNum (4 * L) L = 4 := by
    unfold chunkNum
    rw [Nat.div_eq_iff hL]; omega
  have hscan : scanLines [] (fileBytes (List.replicate (2 * L) [97])) =
      List.replicate (2 * L) [97] := by
    apply scanLines_file
    intro l hl
    rw [(List.mem_replicate.1 hl).2]
    exact ⟨by decide, by decide⟩
  have hcnt : ∀ w, msgCnt w (processChunk wordsOf 0 L (fileBytes (List.replicate (2 * L) [97]))).1
      = L * (wordsOf [97]).count w := by
    intro w
    unfold processChunk msgCnt
    simp only [List.drop_zero]
    rw [hscan, chunkLines_short _ _ _ _ (by omega), show min (2 * L) (L - 0) = L by omega]
    rw [List.map_replicate, List.map_replicate, List.sum_replicate_nat,
      (processTokens_spec (wordsOf [97]) [] (by simp) (by simp)).2.2]
    simp [cnt]
  have hinit : TrainSt.init L [fileBytes (List.replicate (2 * L) [97])] =
      ⟨List.replicate 4 (.start 0), [0], [], [], false, false⟩ := by
    simp [TrainSt.init, startWorkers, hlen, hnum]
  have hb := all_begin wordsOf L (fileBytes (List.replicate (2 * L) [97])) 4 4 (Nat.le_refl _)
  rw [← hinit] at hb
  obtain ⟨t, ht, hfin⟩ := train_completes (wordsOf := wordsOf) (limit := L) _
    (hb.invariant (fun s t => TrainOk.step s t) (TrainOk.init _ _))
    (hb.invariant (fun s t => TrainFiles.step s t) (TrainFiles.init _ _))
  refine ⟨t, hb.trans ht, hfin, ?_⟩
  intro w hw
  have hinv := ht.invariant (P := fun s => TrainOk s ∧ (∀ f, ChunkPc.start f ∉ s.pcs) ∧
      s.total wordsOf L [fileBytes (List.replicate (2 * L) [97])] w =
        4 * (L * (wordsOf [97]).count w)) (by
      rintro s t ⟨h1, h2, h3⟩ hs
      exact ⟨h1.step _ _ hs, no_start_step _ _ hs h2,
        by rw [total_step w s t h1 hs (fun f _ _ _ => h2 f), h3]⟩)
    ⟨hb.invariant (fun s t => TrainOk.step s t) (TrainOk.init _ _), by
      intro f; simp [List.replicate], by
      simp [TrainSt.total, cnt, List.replicate, pending, hcnt]; omega⟩
  rw [final_dict hinv.1 hfin w _ hinv.2.2]
  have he : expectedCount wordsOf [List.replicate (2 * L) [97]] w =
      2 * L * (wordsOf [97]).count w := by
    simp [expectedCount, List.sum_replicate_nat]
  rw [he, if_neg (by have := Nat.mul_pos hL hw; omega)]
  congr 1
  rw [Nat.mul_assoc 2 L]; omega

/-- Non-vacuity: two small files, and a schedule that completes. -/
example : ∃ s, Star (TrainStep (fun l => [l.map (fun b => Char.ofNat b.toNat)]) 10
      ([[[97], [98]], [[97]]].map fileBytes))
    (TrainSt.init 10 ([[[97], [98]], [[97]]].map fileBytes)) s ∧ s.finished = true :=
  train_completes _ (TrainOk.init _ _) (TrainFiles.init _ _)

/-- A file with lines "a" and "b" in one of the other forms. -/
example : (⟨[[97], [98]], true, false⟩ : TextFile).bytes = [97, 13, 10, 98] ∧
    (⟨[[97], [98]], true, false⟩ : TextFile).Plain :=
  ⟨by decide, by intro l hl; simp at hl; rcases hl with rfl | rfl <;> exact ⟨by decide, by decide⟩, by decide⟩

end Tok
