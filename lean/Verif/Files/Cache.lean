import Verif.Go

/-!
# The file cache (file-util.go: CachedPath, downloadFile, copyFile, CleanCache)

The file system is a set of directories and of regular files with contents. Everything that can go
wrong outside the program is given by `Faults`, a new one for every call. Permissions, links and the
clean-up of paths by package path are not modelled, and the directory of the cache (init.go:14-35) is
a parameter.
-/

namespace Tok.Files

/-- A file system, as package os shows it to file-util.go:57-63, 109-117, 215-230. -/
structure FS where
  file : Str → Option (List UInt8)
  dir : Str → Bool

/-- `os.Stat(p)` succeeds (file-util.go:57, 63, 109, 215). -/
def FS.stat (fs : FS) (p : Str) : Bool := (fs.file p).isSome || fs.dir p

/-- Writing a whole file (file-util.go:117, 156, 235). -/
def FS.write (fs : FS) (p : Str) (c : List UInt8) : FS :=
  { fs with file := fun q => if q = p then some c else fs.file q }

/-- `os.Rename(p, q)` of a regular file (file-util.go:166). -/
def FS.rename (fs : FS) (p q : Str) : FS :=
  { fs with file := fun x => if x = q then fs.file p else if x = p then none else fs.file x }

/-- `path.Dir` of a clean path: the part before the last slash (file-util.go:107). -/
def dirOf (p : Str) : Str := ((p.reverse.dropWhile (· ≠ '/')).drop 1).reverse

/-- `os.MkdirAll(d)`: `d` and the directories above it (file-util.go:110). -/
def FS.mkdirAll (fs : FS) (d : Str) : FS :=
  { fs with dir := fun x => fs.dir x || x == d || (x ++ ['/']).isPrefixOf d }

/-- What the outside does during a call: the errors tested at file-util.go:76, 110, 118, 125, 131, 157, 167,
225, 231, 236. -/
structure Faults where
  /-- opening the source works -/
  opens : Bool
  /-- creating a file in an existing directory works -/
  creates : Bool
  /-- creating directories works -/
  mkdirs : Bool
  /-- the copy breaks off after so many bytes -/
  breaks : Option Nat
  /-- renaming works -/
  renames : Bool
  /-- the first request of `CachedPath` gets an answer -/
  reached : Bool
  /-- the answer to the request of `downloadFile`: status and body -/
  answer : Option (Nat × List UInt8)

/-- `os.Create(p)` works: its directory exists and it is no directory (file-util.go:117, 230). -/
def canCreate (fs : FS) (f : Faults) (p : Str) : Bool := fs.dir (dirOf p) && !fs.dir p && f.creates

/-- `io.Copy` into the new file `p` (which `os.Create` has emptied; file-util.go:156, 235). -/
def copyInto (fs : FS) (f : Faults) (p : Str) (c : List UInt8) : FS × Res Unit :=
  match f.breaks with
  | none => (fs.write p c, .ok ())
  | some n => (fs.write p (c.take n), .err)

/-- `copyFile` (file-util.go:214-237). -/
def copyFile (fs : FS) (f : Faults) (src dst : Str) : FS × Res Unit :=
  match fs.file src with
  | none => (fs, .err)
  | some c =>
    if f.opens = false then (fs, .err)
    else if canCreate fs f dst = false then (fs, .err)
    else copyInto fs f dst c

/-- The extension of files that are not complete (file-util.go:117). -/
def tmp (p : Str) : Str := p ++ ".tmp".toList

/-- The directory of a download is made if nothing is there (file-util.go:109-113). -/
def FS.withDir (fs : FS) (dst : Str) : FS :=
  if fs.stat (dirOf dst) then fs else fs.mkdirAll (dirOf dst)

/-- `downloadFile` (file-util.go:105-172). Its progress display is left out. -/
def downloadFile (fs : FS) (f : Faults) (dst : Str) : FS × Res Unit :=
  if !fs.stat (dirOf dst) && !f.mkdirs then (fs, .panic)
  else
    let fs1 := fs.withDir dst
    if canCreate fs1 f (tmp dst) = false then (fs1, .err)
    else
      let fs2 := fs1.write (tmp dst) []
      match f.answer with
      | none => (fs2, .err)
      | some (status, body) =>
        if status ≠ 200 then (fs2, .err)
        else
          match copyInto fs2 f (tmp dst) body with
          | (fs3, .ok ()) =>
            if f.renames = false ∨ fs3.dir dst = true then (fs3, .err) else (fs3.rename (tmp dst) dst, .ok ())
          | (fs3, _) => (fs3, .err)

/-- The file of the cache (file-util.go:54). -/
def candidate (cache model name : Str) : Str := cache ++ ['/'] ++ model ++ ['/'] ++ name

/-- `CachedPath` (file-util.go:47-93). -/
def cachedPath (cache : Str) (fs : FS) (f : Faults) (model name : Str) : FS × Res Str :=
  let cand := candidate cache model name
  if fs.stat cand then (fs, .ok cand)
  else
    let path := model ++ ['/'] ++ name
    if fs.stat path then
      match copyFile fs f path cand with
      | (fs', .ok ()) => (fs', .ok cand)
      | (fs', .err) => (fs', .err)
      | (fs', .panic) => (fs', .panic)
    else if f.reached = false then (fs, .err)
    else
      match downloadFile fs f cand with
      | (fs', .ok ()) => (fs', .ok cand)
      | (fs', .err) => (fs', .err)
      | (fs', .panic) => (fs', .panic)

/-- `os.RemoveAll(CachedDir)` in `CleanCache` (file-util.go:242-250). -/
def cleanCache (cache : Str) (fs : FS) : FS :=
  ⟨fun p => if p = cache ∨ (cache ++ ['/']).isPrefixOf p then none else fs.file p,
    fun p => if p = cache ∨ (cache ++ ['/']).isPrefixOf p then false else fs.dir p⟩

end Tok.Files
