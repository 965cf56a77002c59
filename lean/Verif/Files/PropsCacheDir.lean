import Verif.Files.CacheDir
import Verif.Files.PropsCache

/-! # C124: the directory of the cache, and cleaning it -/

namespace Tok.Files

/-! ### Specification -/

/-- The directory of the cache: that of `GO_TOKENIZER`, else one in the home directory. -/
def cacheDir (e : Environ) : Str :=
  if e.tokenizer = [] then e.home ++ "/.cache/tokenizer".toList else e.tokenizer

/-- The path is the directory or in it. -/
def Within (dir p : Str) : Prop := p = dir ∨ ∃ q, p = dir ++ ['/'] ++ q

/-- Later calls, with any environment and any trouble; the program has not ended. -/
inductive Later : Prog → Prog → Prop
  | none {P} : Later P P
  | call {P Q R r} (e : Environ) (f : Faults) (model name : Str) : Later P Q → Q.cachedPath e f model name = .ok (R, r) → Later P R
  | clean {P Q} : Later P Q → Later P Q.cleanCache

/-! ### Lemmas -/

theorem cachedPath_dir {P Q : Prog} {r : Res Str} {e : Environ} {f : Faults} {model name : Str}
    (hd : P.dir ≠ notSetting) (h : P.cachedPath e f model name = .ok (Q, r)) :
    Q = ⟨P.dir, (cachedPath P.dir P.fs f model name).1⟩ ∧ r = (cachedPath P.dir P.fs f model name).2 := by
  unfold Prog.cachedPath at h
  rw [if_neg hd] at h
  simp only [Res.bind_ok] at h
  split at h
  · cases h
  · next x hx => cases h; exact ⟨rfl, rfl⟩

theorem initCachePath_ok {P Q : Prog} {e : Environ} {f : Faults} (h : initCachePath e f P = .ok Q) :
    Q.dir = cacheDir e ∧ Q.fs.file = P.fs.file ∧ Q.fs.stat (cacheDir e) = true := by
  unfold initCachePath initEnv at h
  have e1 : (if e.tokenizer ≠ [] then e.tokenizer else e.home ++ "/.cache/tokenizer".toList) = cacheDir e := by
    unfold cacheDir
    by_cases hc : e.tokenizer = [] <;> simp [hc]
  dsimp only at h
  rw [e1] at h
  split at h
  · next hs => cases h; exact ⟨rfl, rfl, hs⟩
  split at h
  · cases h
    exact ⟨rfl, rfl, by simp [FS.stat, FS.mkdirAll]⟩
  · cases h

theorem within_iff (dir p : Str) : (p = dir ∨ (dir ++ ['/']).isPrefixOf p = true) ↔ Within dir p := by
  unfold Within
  rw [List.isPrefixOf_iff_prefix]
  constructor
  · rintro (h | ⟨q, h⟩)
    · exact .inl h
    · exact .inr ⟨q, h.symm⟩
  · rintro (h | ⟨q, h⟩)
    · exact .inl h
    · exact .inr ⟨q, h.symm⟩

theorem clean_file (P : Prog) (p : Str) : (Within P.dir p → P.cleanCache.fs.file p = none ∧ P.cleanCache.fs.dir p = false) ∧
    (¬ Within P.dir p → P.cleanCache.fs.file p = P.fs.file p ∧ P.cleanCache.fs.dir p = P.fs.dir p) := by
  constructor
  · intro h
    have := (within_iff _ _).mpr h
    simp only [Prog.cleanCache, cleanCache]
    rw [if_pos this, if_pos this]
    exact ⟨rfl, rfl⟩
  · intro h
    have := fun h' => h ((within_iff _ _).mp h')
    simp only [Prog.cleanCache, cleanCache]
    rw [if_neg this, if_neg this]
    exact ⟨rfl, rfl⟩

theorem dropWhile_none {p : Char → Bool} : ∀ l : Str, (∀ c ∈ l, p c = true) → l.dropWhile p = []
  | [], _ => rfl
  | c :: l, h => by
    rw [List.dropWhile_cons_of_pos (h c List.mem_cons_self)]
    exact dropWhile_none l (fun d hd => h d (List.mem_cons_of_mem _ hd))

/-! ### Theorems -/

/-- **C124.** The first call of `CachedPath` makes the directory that the environment names at the time the cache,
and it stays the cache whatever is called later and whatever the environment becomes. -/
theorem C124_dir {fs : FS} {e : Environ} {f : Faults} {model name : Str} {P Q : Prog} {r : Res Str}
    (h : Prog.cachedPath ⟨notSetting, fs⟩ e f model name = .ok (P, r)) (hd : cacheDir e ≠ notSetting) (hl : Later P Q) :
    P.dir = cacheDir e ∧ Q.dir = cacheDir e := by
  have h0 : P.dir = cacheDir e := by
    unfold Prog.cachedPath at h
    rw [if_pos rfl] at h
    obtain ⟨P', h1, h2⟩ := Res.bind_eq_ok.mp h
    dsimp only at h2
    split at h2
    · cases h2
    · cases h2
      exact (initCachePath_ok h1).1
  refine ⟨h0, ?_⟩
  induction hl with
  | none => exact h0
  | call e' f' m n _ hc ih =>
    have hq := ih
    rw [(cachedPath_dir (by rw [hq]; exact hd) hc).1]
    exact hq
  | clean _ ih => exact ih

/-- **C124.** A program that sets `CachedDir` itself keeps it. -/
theorem C124_own {P Q : Prog} (hd : P.dir ≠ notSetting) (hl : Later P Q) : Q.dir = P.dir := by
  induction hl with
  | none => rfl
  | call e' f' m n _ hc ih =>
    have hq := ih
    rw [(cachedPath_dir (by rw [hq]; exact hd) hc).1]
    exact hq
  | clean _ ih => exact ih

/-- **C124.** Once the directory is set, `CleanCache` removes the directory and everything in it, and nothing else;
the next call for a file that is not local gives what the server sends then, not what was there before. -/
theorem C124_clean_partial (P : Prog) (hd : P.dir ≠ notSetting) :
    (∀ p, Within P.dir p → P.cleanCache.fs.file p = none ∧ P.cleanCache.fs.dir p = false) ∧
    (∀ p, ¬ Within P.dir p → P.cleanCache.fs.file p = P.fs.file p ∧ P.cleanCache.fs.dir p = P.fs.dir p) ∧
    ∀ (e : Environ) (f : Faults) (model name : Str) (body : List UInt8), model ≠ [] → '/' ∉ name →
      P.fs.stat (model ++ ['/'] ++ name) = false →
      (f.reached = true ∧ f.mkdirs = true ∧ f.creates = true ∧ f.breaks = none ∧ f.renames = true) →
      f.answer = some (200, body) →
      ∃ Q, P.cleanCache.cachedPath e f model name = .ok (Q, .ok (candidate P.dir model name)) ∧
        Q.fs.file (candidate P.dir model name) = some body := by
  refine ⟨fun p => (clean_file P p).1, fun p => (clean_file P p).2, ?_⟩
  intro e f model name body hm hn hl h3 h4
  have hin : ∀ q, Within P.dir (P.dir ++ ['/'] ++ q) := fun q => .inr ⟨q, rfl⟩
  have hc : Within P.dir (candidate P.dir model name) := by
    rw [show candidate P.dir model name = P.dir ++ ['/'] ++ (model ++ ['/'] ++ name) by simp [candidate]]; exact hin _
  have hdir : dirOf (candidate P.dir model name) = P.dir ++ ['/'] ++ model := by
    unfold dirOf candidate
    have e1 : (P.dir ++ ['/'] ++ model ++ ['/'] ++ name).reverse = name.reverse ++ ('/' :: (P.dir ++ ['/'] ++ model).reverse) := by simp
    have e2 : (name.reverse ++ ('/' :: (P.dir ++ ['/'] ++ model).reverse)).dropWhile (· ≠ '/') =
        '/' :: (P.dir ++ ['/'] ++ model).reverse := by
      rw [List.dropWhile_append]
      have : name.reverse.dropWhile (· ≠ '/') = [] := by
        refine dropWhile_none _ fun c hcm => ?_
        have : c ≠ '/' := by rintro rfl; exact hn (List.mem_reverse.mp hcm)
        simp [this]
      rw [this]
      simp
    rw [e1, e2]
    simp
  obtain ⟨fs', g1, g2⟩ := C107_download (cache := P.dir) (fs := P.cleanCache.fs) (f := f) (model := model) (name := name)
    (body := body)
    (by have := (clean_file P _).1 hc; simp [FS.stat, this.1, this.2])
    (by
      by_cases hw : Within P.dir (model ++ ['/'] ++ name)
      · have := (clean_file P _).1 hw; simp only [FS.stat, this.1, this.2]; rfl
      · have := (clean_file P _).2 hw; rw [FS.stat, this.1, this.2]; exact hl) h3 h4
    (by rw [hdir]; exact ((clean_file P _).1 (hin _)).1)
    (by
      have : Within P.dir (candidate P.dir model name ++ ".tmp".toList) := by
        rw [show candidate P.dir model name ++ ".tmp".toList = P.dir ++ ['/'] ++ (model ++ ['/'] ++ name ++ ".tmp".toList) by
          simp [candidate]]
        exact hin _
      exact ((clean_file P _).1 this).2)
  refine ⟨⟨P.dir, fs'⟩, ?_, g2⟩
  unfold Prog.cachedPath
  rw [if_neg (show ¬ P.cleanCache.dir = notSetting from hd)]
  simp only [Res.bind_ok]
  rw [show P.cleanCache.dir = P.dir from rfl, g1]

/-- C124 fails for `CleanCache` before the first call of `CachedPath`: the variable has no directory yet, a directory
`NOT_SETTING` in the working directory is removed instead, every file of the cache stays, and `CachedPath` gives it
out again. -/
theorem C124_first_violated (fs : FS) (e : Environ) (f : Faults) (model name : Str) (c : List UInt8)
    (ha : (cacheDir e).head? = some '/') (hs : fs.stat (cacheDir e) = true)
    (hc : fs.file (candidate (cacheDir e) model name) = some c) :
    (∀ p, Within notSetting p → (Prog.mk notSetting fs).cleanCache.fs.file p = none) ∧
    (∀ p, Within (cacheDir e) p → (Prog.mk notSetting fs).cleanCache.fs.file p = fs.file p) ∧
    ∃ Q, (Prog.mk notSetting fs).cleanCache.cachedPath e f model name = .ok (Q, .ok (candidate (cacheDir e) model name)) ∧
      Q.fs.file (candidate (cacheDir e) model name) = some c := by
  have hout : ∀ p, Within (cacheDir e) p → ¬ Within notSetting p := by
    intro p h h'
    have hp : p.head? = some '/' := by
      rcases h with rfl | ⟨q, rfl⟩
      · exact ha
      · cases hd : cacheDir e with
        | nil => rw [hd] at ha; cases ha
        | cons x xs => rw [hd] at ha; simpa using ha
    have hn : notSetting = 'N' :: "OT_SETTING".toList := by decide +kernel
    rcases h' with h' | ⟨q, h'⟩ <;> rw [h', hn] at hp <;> exact absurd (Option.some.inj hp) (by decide)
  have hkeep : ∀ p, Within (cacheDir e) p → (Prog.mk notSetting fs).cleanCache.fs.file p = fs.file p ∧
      (Prog.mk notSetting fs).cleanCache.fs.dir p = fs.dir p := fun p h => (clean_file ⟨notSetting, fs⟩ p).2 (hout p h)
  have hin : Within (cacheDir e) (candidate (cacheDir e) model name) :=
    .inr ⟨model ++ ['/'] ++ name, by simp [candidate]⟩
  refine ⟨fun p h => ((clean_file ⟨notSetting, fs⟩ p).1 h).1, fun p h => (hkeep p h).1,
    ⟨cacheDir e, (Prog.mk notSetting fs).cleanCache.fs⟩, ?_, by rw [(hkeep _ hin).1, hc]⟩
  have hi : initCachePath e f (Prog.mk notSetting fs).cleanCache = .ok ⟨cacheDir e, (Prog.mk notSetting fs).cleanCache.fs⟩ := by
    unfold initCachePath initEnv
    have e1 : (if e.tokenizer ≠ [] then e.tokenizer else e.home ++ "/.cache/tokenizer".toList) = cacheDir e := by
      unfold cacheDir
      by_cases hc : e.tokenizer = [] <;> simp [hc]
    dsimp only
    rw [e1, if_pos]
    have := hkeep _ (.inl rfl)
    rw [FS.stat, this.1, this.2]
    exact hs
  unfold Prog.cachedPath
  rw [if_pos (show (Prog.mk notSetting fs).cleanCache.dir = notSetting from rfl), hi]
  simp only [Res.bind_ok]
  have : cachedPath (cacheDir e) (Prog.mk notSetting fs).cleanCache.fs f model name =
      ((Prog.mk notSetting fs).cleanCache.fs, .ok (candidate (cacheDir e) model name)) := by
    unfold cachedPath
    dsimp only
    rw [if_pos]
    rw [FS.stat, (hkeep _ hin).1, hc]
    rfl
  rw [this]

/-! ### Cases -/

/-- A home directory with a cache that has a file of an earlier program. -/
def homeFS : FS := ⟨fun p => if p = "/h/.cache/tokenizer/m/v".toList then some [1] else none,
  fun p => p == "/h/.cache/tokenizer".toList || p == "/h/.cache/tokenizer/m".toList⟩

/-- `GO_TOKENIZER` is not set. -/
def homeEnv : Environ := ⟨"/h".toList, []⟩

example : (cacheDir homeEnv).head? = some '/' ∧ homeFS.stat (cacheDir homeEnv) = true ∧
    homeFS.file (candidate (cacheDir homeEnv) "m".toList "v".toList) = some [1] := by decide +kernel

example : ∃ P, Prog.cachedPath ⟨notSetting, homeFS⟩ homeEnv (noFaults 200 []) "m".toList "v".toList =
      .ok (P, .ok "/h/.cache/tokenizer/m/v".toList) ∧
    Later P P.cleanCache ∧ P.cleanCache.fs.file "/h/.cache/tokenizer/m/v".toList = none :=
  ⟨⟨cacheDir homeEnv, homeFS⟩, by rfl, .clean .none, by decide +kernel⟩

end Tok.Files
