import Verif.Files.Cache

/-!
# The directory of the file cache (init.go; the variable in file-util.go:47-51, 242-250)

`CachedDir` is a variable of the package. It is also exported: a program that sets it itself is one that starts
with that value.
-/

namespace Tok.Files

/-- The value of `CachedDir` when the program starts (init.go:10). -/
def notSetting : Str := "NOT_SETTING".toList

/-- The variables of the environment that are read (init.go:11, 16, 25); a variable that is not set is empty. -/
structure Environ where
  home : Str
  tokenizer : Str

/-- A running program: `CachedDir` (init.go:10) and the file system. -/
structure Prog where
  dir : Str
  fs : FS

/-- `initEnv` (init.go:24-35). -/
def initEnv (e : Environ) (f : Faults) (P : Prog) : Res Prog :=
  let dir := if e.tokenizer ≠ [] then e.tokenizer else P.dir
  if P.fs.stat dir then .ok ⟨dir, P.fs⟩
  else if f.mkdirs then .ok ⟨dir, P.fs.mkdirAll dir⟩
  else .panic

/-- `initCachePath` (init.go:14-22). Its line in the log is left out. -/
def initCachePath (e : Environ) (f : Faults) (P : Prog) : Res Prog :=
  initEnv e f { P with dir := e.home ++ "/.cache/tokenizer".toList }

/-- `CachedPath` (file-util.go:47-93) with its first lines. The outer result says whether the program goes on. -/
def Prog.cachedPath (P : Prog) (e : Environ) (f : Faults) (model name : Str) : Res (Prog × Res Str) := do
  let P ← if P.dir = notSetting then initCachePath e f P else .ok P
  let r := Files.cachedPath P.dir P.fs f model name
  match r.2 with
  | .panic => .panic
  | x => .ok (⟨P.dir, r.1⟩, x)

/-- `CleanCache` (file-util.go:242-250), which removes the directory that the variable names at the time. -/
def Prog.cleanCache (P : Prog) : Prog := { P with fs := Files.cleanCache P.dir P.fs }

end Tok.Files
