import Verif.Files.Cache

/-! # C107: the file cache -/

namespace Tok.Files

/-! ### Specification -/

/-- A history: calls of `CachedPath` for names that are not local files, and of `CleanCache`, with
everything the network answered: the model and the name that were asked for, the status, the body. -/
inductive Downloads (cache : Str) (fs₀ : FS) : FS → List (Str × Str × Nat × List UInt8) → Prop
  | start : Downloads cache fs₀ fs₀ []
  | call {fs as} (f : Faults) (model name : Str) : Downloads cache fs₀ fs as →
      fs.stat (model ++ ['/'] ++ name) = false →
      Downloads cache fs₀ (cachedPath cache fs f model name).1 (as ++ f.answer.toList.map fun a => (model, name, a.1, a.2))
  | clean {fs as} : Downloads cache fs₀ fs as → Downloads cache fs₀ (cleanCache cache fs) as

/-- The name ends with the extension of incomplete files. -/
def Temporary (p : Str) : Prop := ∃ q, p = q ++ ".tmp".toList

/-! ### Lemmas -/

theorem tmp_ne (p : Str) : tmp p ≠ p := by
  intro h
  have := congrArg List.length h
  simp [tmp] at this

/-- What a download leaves under a name that is not temporary. -/
theorem downloadFile_file (fs : FS) (f : Faults) (dst p : Str) (hp : ¬ Temporary p) :
    (downloadFile fs f dst).1.file p = fs.file p ∨
      (p = dst ∧ ∃ body, f.answer = some (200, body) ∧ f.breaks = none ∧
        (downloadFile fs f dst).1.file p = some body) := by
  have hpt : p ≠ tmp dst := fun h => hp ⟨dst, h⟩
  have h1 : (fs.withDir dst).file p = fs.file p := by
    unfold FS.withDir
    split <;> rfl
  unfold downloadFile
  split
  · exact Or.inl rfl
  dsimp only
  split
  · exact Or.inl h1
  cases ha : f.answer with
  | none =>
    left
    simp only [FS.write, if_neg hpt]
    exact h1
  | some a =>
    obtain ⟨status, body⟩ := a
    simp only
    split
    · left
      simp only [FS.write, if_neg hpt]
      exact h1
    · next hs =>
      have hs : status = 200 := by simpa using hs
      subst hs
      cases hb : f.breaks with
      | some n =>
        left
        simp only [copyInto, hb, FS.write, if_neg hpt]
        exact h1
      | none =>
        simp only [copyInto, hb]
        split
        · left
          simp only [FS.write, if_neg hpt]
          exact h1
        · by_cases hd : p = dst
          · right
            refine ⟨hd, body, rfl, trivial, ?_⟩
            simp [FS.rename, FS.write, hd]
          · left
            simp only [FS.rename, FS.write, if_neg hd, if_neg hpt]
            exact h1

theorem cachedPath_file {cache : Str} {fs : FS} (f : Faults) {model name : Str}
    (h : fs.stat (model ++ ['/'] ++ name) = false) (p : Str) (hp : ¬ Temporary p) :
    (cachedPath cache fs f model name).1.file p = fs.file p ∨
      (p = candidate cache model name ∧ ∃ body, f.answer = some (200, body) ∧
        (cachedPath cache fs f model name).1.file p = some body) := by
  unfold cachedPath
  dsimp only
  split
  · exact Or.inl rfl
  rw [h]
  simp only [Bool.false_eq_true, if_false]
  split
  · exact Or.inl rfl
  · have := downloadFile_file fs f (candidate cache model name) p hp
    revert this
    generalize downloadFile fs f (candidate cache model name) = r
    intro this
    obtain ⟨a, b⟩ := r
    cases b <;> dsimp only at this ⊢
    all_goals
      rcases this with h | ⟨h0, body, h1, _, h2⟩
      · exact Or.inl h
      · exact Or.inr ⟨h0, body, h1, h2⟩

theorem dropWhile_append_all (q : Char → Bool) (l m : Str) (h : ∀ c ∈ l, q c = true) :
    (l ++ m).dropWhile q = m.dropWhile q := by
  induction l with
  | nil => rfl
  | cons a l ih =>
    rw [List.cons_append, List.dropWhile_cons, if_pos (h a (List.mem_cons_self ..))]
    exact ih fun c hc => h c (List.mem_cons_of_mem _ hc)

theorem dirOf_tmp (p : Str) : dirOf (tmp p) = dirOf p := by
  unfold dirOf tmp
  rw [List.reverse_append, dropWhile_append_all _ _ _ (by decide)]

theorem dropWhile_length_le (q : Char → Bool) (l : Str) : (l.dropWhile q).length ≤ l.length := by
  induction l with
  | nil => exact Nat.le_refl _
  | cons a l ih =>
    rw [List.dropWhile_cons]
    split
    · exact Nat.le_succ_of_le ih
    · exact Nat.le_refl _

theorem dirOf_length (p : Str) (h : p ≠ []) : (dirOf p).length < p.length := by
  have h1 := dropWhile_length_le (fun c => decide (c ≠ '/')) p.reverse
  have h2 : 0 < p.length := List.length_pos_iff.2 h
  unfold dirOf
  rw [List.length_reverse] at h1
  rw [List.length_reverse, List.length_drop]
  omega

/-- Making the directory of `dst` makes no directory whose name is as long as `dst`. -/
theorem withDir_dir (fs : FS) {dst x : Str} (h : dst ≠ []) (hx : dst.length ≤ x.length) :
    (fs.withDir dst).dir x = fs.dir x := by
  have hl := dirOf_length dst h
  unfold FS.withDir
  split
  · rfl
  · simp only [FS.mkdirAll]
    have h1 : (x == dirOf dst) = false := by
      rw [beq_eq_false_iff_ne]
      intro e
      rw [e] at hx
      omega
    have h2 : (x ++ ['/']).isPrefixOf (dirOf dst) = false := by
      rw [Bool.eq_false_iff]
      intro e
      have := (List.isPrefixOf_iff_prefix.1 e).length_le
      simp at this
      omega
    rw [h1, h2]
    simp

theorem withDir_self (fs : FS) {dst : Str} (h : fs.file (dirOf dst) = none) :
    (fs.withDir dst).dir (dirOf dst) = true := by
  unfold FS.withDir
  split
  · next hs => simpa [FS.stat, h] using hs
  · simp [FS.mkdirAll]

/-! ### C107 -/

/-- **C107.** Whatever fails on the way, the cache never holds an incomplete or refused download under
a name that is not temporary: after any history of downloads, every such file is unchanged from the
beginning or is a whole body that the server sent with status 200 for a model and a name that belong in
this place. Missing: calls that copy a local file,
for which it fails (`C107_incomplete_violated`). -/
theorem C107_complete_partial {cache : Str} {fs₀ fs : FS} {as : List (Str × Str × Nat × List UInt8)} (h : Downloads cache fs₀ fs as)
    (p : Str) (hp : ¬ Temporary p) (c : List UInt8) (hc : fs.file p = some c) :
    fs₀.file p = some c ∨
      ∃ model name : Str, p = cache ++ ['/'] ++ model ++ ['/'] ++ name ∧ (model, name, 200, c) ∈ as := by
  induction h generalizing c with
  | start => exact Or.inl hc
  | call f model name _ hl ih =>
    rcases cachedPath_file (cache := cache) f hl p hp with h | ⟨h0, body, h1, h2⟩
    · rw [h] at hc
      rcases ih c hc with h | ⟨m, n, h, h'⟩
      · exact Or.inl h
      · exact Or.inr ⟨m, n, h, List.mem_append_left _ h'⟩
    · rw [h2] at hc
      cases hc
      refine Or.inr ⟨model, name, h0, ?_⟩
      rw [h1]
      simp
  | clean _ ih =>
    simp only [cleanCache] at hc
    split at hc
    · cases hc
    · exact ih c hc

/-- **C107.** When `CachedPath` returns a path, it is the one in the cache, something is there, and
every later call gives the same without touching anything. -/
theorem C107_returned {cache : Str} {fs fs' : FS} {f : Faults} {model name p : Str}
    (h : cachedPath cache fs f model name = (fs', .ok p)) :
    p = candidate cache model name ∧ fs'.stat p = true ∧
      ∀ g, cachedPath cache fs' g model name = (fs', .ok p) := by
  have key : p = candidate cache model name ∧ fs'.stat p = true := by
    unfold cachedPath at h
    dsimp only at h
    split at h
    · next hs => cases h; exact ⟨rfl, hs⟩
    split at h
    · split at h
      · next he =>
        cases h
        refine ⟨rfl, ?_⟩
        unfold copyFile at he
        split at he
        · cases he
        · next c _ =>
          split at he
          · cases he
          split at he
          · cases he
          · unfold copyInto at he
            split at he
            · cases he; simp [FS.stat, FS.write]
            · cases he
      · cases h
      · cases h
    split at h
    · cases h
    · split at h
      · next he =>
        cases h
        refine ⟨rfl, ?_⟩
        unfold downloadFile at he
        split at he
        · cases he
        dsimp only at he
        split at he
        · cases he
        split at he
        · cases he
        · split at he
          · cases he
          · split at he
            · next h3 =>
              split at he
              · cases he
              · cases he
                unfold copyInto at h3
                split at h3
                · cases h3; simp [FS.stat, FS.rename, FS.write]
                · cases h3
            · cases he
      · cases h
      · cases h
  refine ⟨key.1, key.2, ?_⟩
  intro g
  obtain ⟨rfl, k⟩ := key
  unfold cachedPath
  dsimp only
  rw [if_pos k]

/-- **C107.** A file that is neither cached nor local and is sent with status 200 without trouble is
in the cache with its content, if no regular file is in the place of its directory and no directory in
the place of the temporary file. -/
theorem C107_download {cache : Str} {fs : FS} {f : Faults} {model name : Str} {body : List UInt8}
    (h1 : fs.stat (candidate cache model name) = false) (h2 : fs.stat (model ++ ['/'] ++ name) = false)
    (h3 : f.reached = true ∧ f.mkdirs = true ∧ f.creates = true ∧ f.breaks = none ∧ f.renames = true)
    (h4 : f.answer = some (200, body))
    (h5 : fs.file (dirOf (candidate cache model name)) = none)
    (h6 : fs.dir (candidate cache model name ++ ".tmp".toList) = false) :
    ∃ fs', cachedPath cache fs f model name = (fs', .ok (candidate cache model name)) ∧
      fs'.file (candidate cache model name) = some body := by
  obtain ⟨a1, a2, a3, a4, a5⟩ := h3
  have hne : candidate cache model name ≠ [] := by simp [candidate]
  have b1 := withDir_self fs h5
  have b2 : (fs.withDir (candidate cache model name)).dir (tmp (candidate cache model name)) = false := by
    rw [withDir_dir fs hne (by simp [tmp])]
    exact h6
  have b3 : (fs.withDir (candidate cache model name)).dir (candidate cache model name) = false := by
    rw [withDir_dir fs hne (Nat.le_refl _)]
    simp only [FS.stat, Bool.or_eq_false_iff] at h1
    exact h1.2
  have hd : downloadFile fs f (candidate cache model name) =
      ((((fs.withDir (candidate cache model name)).write (tmp (candidate cache model name)) []).write
          (tmp (candidate cache model name)) body).rename (tmp (candidate cache model name))
            (candidate cache model name), .ok ()) := by
    unfold downloadFile
    rw [a2]
    simp only [Bool.not_true, Bool.and_false, Bool.false_eq_true, if_false]
    have hc : canCreate (fs.withDir (candidate cache model name)) f (tmp (candidate cache model name)) = true := by
      unfold canCreate
      rw [dirOf_tmp, b1, b2, a3]; rfl
    rw [hc, h4]
    simp only [Bool.true_eq_false, if_false, ne_eq, not_true_eq_false, copyInto, a4, a5, FS.write, false_or]
    rw [b3]
    rfl
  refine ⟨(((fs.withDir (candidate cache model name)).write (tmp (candidate cache model name)) []).write
    (tmp (candidate cache model name)) body).rename (tmp (candidate cache model name))
      (candidate cache model name), ?_, ?_⟩
  · unfold cachedPath
    dsimp only
    rw [h1, h2, a1, hd]
    rfl
  · simp [FS.rename, FS.write]

/-- **C107, violated.** A local file is not put into the cache: as long as the cache has no directory
for it, `CachedPath` fails, whatever its content. -/
theorem C107_local_violated {cache : Str} {fs : FS} {model name : Str} {c : List UInt8}
    (h1 : fs.stat (candidate cache model name) = false) (h2 : fs.file (model ++ ['/'] ++ name) = some c)
    (h3 : fs.dir (dirOf (candidate cache model name)) = false) (f : Faults) :
    cachedPath cache fs f model name = (fs, .err) := by
  have hs : fs.stat (model ++ ['/'] ++ name) = true := by unfold FS.stat; rw [h2]; rfl
  have hc : copyFile fs f (model ++ ['/'] ++ name) (candidate cache model name) = (fs, .err) := by
    unfold copyFile
    rw [h2]
    simp only
    split
    · rfl
    · rw [show canCreate fs f (candidate cache model name) = false by unfold canCreate; rw [h3]; rfl]
      rfl
  unfold cachedPath
  dsimp only
  rw [h1, hs, hc]
  rfl

/-- **C107, violated.** A local file whose copying breaks off stays in the cache as an incomplete file,
and the next call returns it without an error. -/
theorem C107_incomplete_violated {cache : Str} {fs : FS} {model name : Str} {c : List UInt8} {f : Faults} {n : Nat}
    (h1 : fs.stat (candidate cache model name) = false) (h2 : fs.file (model ++ ['/'] ++ name) = some c)
    (h3 : fs.dir (dirOf (candidate cache model name)) = true) (h4 : f.opens = true ∧ f.creates = true)
    (h5 : f.breaks = some n) (h6 : n < c.length) (g : Faults) :
    ∃ fs', cachedPath cache fs f model name = (fs', .err) ∧
      cachedPath cache fs' g model name = (fs', .ok (candidate cache model name)) ∧
      fs'.file (candidate cache model name) = some (c.take n) ∧ c.take n ≠ c := by
  have hs : fs.stat (model ++ ['/'] ++ name) = true := by unfold FS.stat; rw [h2]; rfl
  have hd : fs.dir (candidate cache model name) = false := by
    simp only [FS.stat, Bool.or_eq_false_iff] at h1
    exact h1.2
  refine ⟨fs.write (candidate cache model name) (c.take n), ?_, ?_, by simp [FS.write], ?_⟩
  · have hc : copyFile fs f (model ++ ['/'] ++ name) (candidate cache model name) =
        (fs.write (candidate cache model name) (c.take n), .err) := by
      unfold copyFile
      rw [h2]
      simp only
      rw [h4.1, show canCreate fs f (candidate cache model name) = true by
        unfold canCreate; rw [h3, hd, h4.2]; rfl]
      simp only [Bool.true_eq_false, if_false, copyInto, h5]
    unfold cachedPath
    dsimp only
    rw [h1, hs, hc]
    rfl
  · unfold cachedPath
    dsimp only
    rw [if_pos (by simp [FS.stat, FS.write])]
  · intro e
    have := congrArg List.length e
    rw [List.length_take] at this
    omega

/-- **C107.** If the cache has the directory of the model, a local file is copied into it completely when nothing
goes wrong, and all other files stay. -/
theorem C107_local {cache : Str} {fs : FS} {model name : Str} {c : List UInt8} {f : Faults}
    (h1 : fs.stat (candidate cache model name) = false) (h2 : fs.file (model ++ ['/'] ++ name) = some c)
    (h3 : fs.dir (dirOf (candidate cache model name)) = true) (h4 : f.opens = true ∧ f.creates = true)
    (h5 : f.breaks = none) :
    ∃ fs', cachedPath cache fs f model name = (fs', .ok (candidate cache model name)) ∧
      fs'.file (candidate cache model name) = some c ∧
      ∀ q, q ≠ candidate cache model name → fs'.file q = fs.file q := by
  have hs : fs.stat (model ++ ['/'] ++ name) = true := by unfold FS.stat; rw [h2]; rfl
  have hd : fs.dir (candidate cache model name) = false := by
    simp only [FS.stat, Bool.or_eq_false_iff] at h1
    exact h1.2
  refine ⟨fs.write (candidate cache model name) c, ?_, by simp [FS.write], fun q hq => by simp [FS.write, hq]⟩
  have hc : copyFile fs f (model ++ ['/'] ++ name) (candidate cache model name) =
      (fs.write (candidate cache model name) c, .ok ()) := by
    unfold copyFile
    rw [h2]
    simp only
    rw [h4.1, show canCreate fs f (candidate cache model name) = true by
      unfold canCreate; rw [h3, hd, h4.2]; rfl]
    simp only [Bool.true_eq_false, if_false, copyInto, h5]
  unfold cachedPath
  dsimp only
  rw [h1, hs, hc]
  rfl

/-- **C107.** A directory in the place of the local file is an error, and nothing is put into the cache. -/
theorem C107_directory {cache : Str} {fs : FS} {model name : Str} (f : Faults)
    (h1 : fs.stat (candidate cache model name) = false) (h2 : fs.dir (model ++ ['/'] ++ name) = true)
    (h3 : fs.file (model ++ ['/'] ++ name) = none) :
    cachedPath cache fs f model name = (fs, .err) := by
  have hs : fs.stat (model ++ ['/'] ++ name) = true := by unfold FS.stat; rw [h2, Bool.or_true]
  have hc : copyFile fs f (model ++ ['/'] ++ name) (candidate cache model name) = (fs, .err) := by
    unfold copyFile
    rw [h3]
  unfold cachedPath
  dsimp only
  rw [h1, hs, hc]
  rfl

/-- **C107, violated.** Different files share a place in the cache: a file in a subdirectory of one
model and a file of a model in the subdirectory. Once one is cached the other is never fetched. -/
theorem C107_shared_violated {cache : Str} {fs fs' : FS} {f : Faults} {a b c p : Str}
    (h : cachedPath cache fs f (a ++ ['/'] ++ b) c = (fs', .ok p)) (g : Faults) :
    cachedPath cache fs' g a (b ++ ['/'] ++ c) = (fs', .ok p) := by
  have e : candidate cache (a ++ ['/'] ++ b) c = candidate cache a (b ++ ['/'] ++ c) := by
    simp [candidate]
  obtain ⟨h1, h2, _⟩ := C107_returned h
  unfold cachedPath
  dsimp only
  rw [← e, ← h1, if_pos h2]

/-- C107: an answer of the server other than 200 is an error, and no file stands in the cache. -/
theorem C107_refused {cache : Str} {fs : FS} {f : Faults} {model name : Str} {status : Nat} {body : List UInt8}
    (h1 : fs.stat (candidate cache model name) = false) (h2 : fs.stat (model ++ ['/'] ++ name) = false)
    (h3 : f.reached = true) (h4 : f.mkdirs = true) (h5 : f.answer = some (status, body)) (h6 : status ≠ 200) :
    ∃ fs', cachedPath cache fs f model name = (fs', .err) ∧ fs'.file (candidate cache model name) = none := by
  have h0 : fs.file (candidate cache model name) = none := by
    simp only [FS.stat, Bool.or_eq_false_iff, Option.isSome_eq_false_iff, Option.isNone_iff_eq_none] at h1
    exact h1.1
  have hw : (fs.withDir (candidate cache model name)).file (candidate cache model name) = none := by
    unfold FS.withDir
    split
    · exact h0
    · exact h0
  have ht : candidate cache model name ≠ tmp (candidate cache model name) := by
    intro e
    have := congrArg List.length e
    simp [tmp] at this
  have hd : ∃ fs', downloadFile fs f (candidate cache model name) = (fs', .err) ∧ fs'.file (candidate cache model name) = none := by
    unfold downloadFile
    rw [h4, h5]
    simp only [Bool.not_true, Bool.and_false, Bool.false_eq_true, if_false]
    split
    · exact ⟨_, rfl, hw⟩
    · exact ⟨_, rfl, by simp [FS.write, ht, hw]⟩
  obtain ⟨fs', e1, e2⟩ := hd
  refine ⟨fs', ?_, e2⟩
  unfold cachedPath
  simp only [h1, h2, h3, e1]
  rfl

/-! ### Cases -/

/-- A file system with the cache `/c` and a local file `m/v`. -/
def localFS : FS := ⟨fun p => if p = "m/v".toList then some [1, 2, 3] else none, fun p => p == "/c".toList⟩

/-- No trouble. -/
def noFaults (status : Nat) (body : List UInt8) : Faults := ⟨true, true, true, none, true, true, some (status, body)⟩

example : localFS.stat (candidate "/c".toList "m".toList "v".toList) = false ∧
    localFS.file ("m".toList ++ ['/'] ++ "v".toList) = some [1, 2, 3] ∧
    localFS.dir (dirOf (candidate "/c".toList "m".toList "v".toList)) = false := by decide +kernel

/-- The same with the directory `/c/m`. -/
def localFS2 : FS := { localFS with dir := fun p => p == "/c".toList || p == "/c/m".toList }

example : localFS2.stat (candidate "/c".toList "m".toList "v".toList) = false ∧
    localFS2.dir (dirOf (candidate "/c".toList "m".toList "v".toList)) = true := by decide +kernel

example : ∃ fs', cachedPath "/c".toList localFS2 (noFaults 200 []) "m".toList "v".toList = (fs', .ok "/c/m/v".toList) ∧
    fs'.file "/c/m/v".toList = some [1, 2, 3] := by
  obtain ⟨fs', h1, h2, _⟩ := C107_local (cache := "/c".toList) (fs := localFS2) (model := "m".toList)
    (name := "v".toList) (c := [1, 2, 3]) (f := noFaults 200 []) (by decide +kernel) (by decide +kernel)
    (by decide +kernel) ⟨rfl, rfl⟩ rfl
  exact ⟨fs', h1, h2⟩

/-- A directory `m/v`. -/
def dirFS : FS := ⟨fun _ => none, fun p => p == "/c".toList || p == "m/v".toList⟩

example (f : Faults) : cachedPath "/c".toList dirFS f "m".toList "v".toList = (dirFS, .err) :=
  C107_directory f (by decide +kernel) (by decide +kernel) rfl

/-- The copy breaks off after two bytes. -/
def brokenCopy : Faults := { noFaults 200 [] with breaks := some 2 }

example (g : Faults) : ∃ fs', cachedPath "/c".toList localFS2 brokenCopy "m".toList "v".toList = (fs', .err) ∧
    cachedPath "/c".toList fs' g "m".toList "v".toList = (fs', .ok "/c/m/v".toList) ∧
    fs'.file "/c/m/v".toList = some [1, 2] := by
  obtain ⟨fs', h1, h2, h3, _⟩ := C107_incomplete_violated (cache := "/c".toList) (fs := localFS2)
    (model := "m".toList) (name := "v".toList) (c := [1, 2, 3]) (f := brokenCopy) (n := 2)
    (by decide +kernel) (by decide +kernel) (by decide +kernel) ⟨rfl, rfl⟩ rfl (by decide) g
  exact ⟨fs', h1, h2, h3⟩

/-- An empty cache. -/
def emptyFS : FS := ⟨fun _ => none, fun p => p == "/c".toList⟩

example : ∃ fs', cachedPath "/c".toList emptyFS (noFaults 200 [7, 8]) "m".toList "v".toList =
    (fs', .ok "/c/m/v".toList) ∧ fs'.file "/c/m/v".toList = some [7, 8] ∧
    Downloads "/c".toList emptyFS fs' [("m".toList, "v".toList, 200, [7, 8])] := by
  obtain ⟨fs', h1, h2⟩ := C107_download (cache := "/c".toList) (fs := emptyFS) (f := noFaults 200 [7, 8])
    (model := "m".toList) (name := "v".toList) (body := [7, 8]) (by decide +kernel) (by decide +kernel)
    ⟨rfl, rfl, rfl, rfl, rfl⟩ rfl (by decide +kernel) (by decide +kernel)
  refine ⟨fs', h1, h2, ?_⟩
  have := Downloads.call (noFaults 200 [7, 8]) "m".toList "v".toList (.start (cache := "/c".toList) (fs₀ := emptyFS))
    (by decide +kernel)
  rw [h1] at this
  exact this

end Tok.Files
