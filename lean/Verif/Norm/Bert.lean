import Verif.Norm.PropsNormalized

/-!
# The normalizers (normalizer/bert.go, unicode.go, strip.go, prepend.go, sequence.go, default.go,
normalizer.go)

Tables of package unicode and the functions of golang.org/x/text/unicode/norm and strings are
parameters (`Tables`).
-/

namespace Tok.Norm

/-- What the normalizers use of other packages. -/
structure Tables where
  /-- `unicode.In(c, unicode.Cc, unicode.Cf)` -/
  ctl : Char → Bool
  /-- `unicode.Is(unicode.Mn, c)` -/
  mn : Char → Bool
  /-- `unicode.IsSpace` -/
  space : Char → Bool
  /-- `strings.ToLower` -/
  lower : List UInt8 → List UInt8
  /-- the segments that `norm.Iter` delivers for `norm.NFD` -/
  nfd : List UInt8 → List Str
  /-- the same for `norm.NFKD` -/
  nfkd : List UInt8 → List Str
  /-- `norm.Form.IsNormalString` -/
  isNFC : List UInt8 → Bool
  isNFKC : List UInt8 → Bool
  isNFKD : List UInt8 → Bool

/-! ### BERT -/

/-- `isWhitespace` (bert.go:24-32). -/
def isBertSpace (c : Char) : Bool := c = ' ' ∨ c = '\t' ∨ c = '\n' ∨ c = '\r'

/-- `isControl` (bert.go:35-45). -/
def isControl (ctl : Char → Bool) (c : Char) : Bool :=
  if c = '\t' ∨ c = '\n' ∨ c = '\r' then false else ctl c

/-- A `unicode.RangeTable` whose strides are 1. -/
structure RangeTable where
  r16 : List (Nat × Nat)
  r32 : List (Nat × Nat)

/-- The linear search of package unicode (`is16`, `is32`), used for up to 18 ranges: it stops at the
first range that begins after the character, as the ranges are to be sorted. -/
def searchRanges (r : Nat) : List (Nat × Nat) → Bool
  | [] => false
  | (lo, hi) :: l => if r < lo then false else if r ≤ hi then true else searchRanges r l

/-- `unicode.Is` (standard library, unicode/letter.go), for tables of up to 18 ranges. -/
def RangeTable.is (t : RangeTable) (c : Char) : Bool :=
  if t.r16 ≠ [] ∧ c.toNat ≤ (t.r16.getLast?.getD (0, 0)).2 then searchRanges c.toNat t.r16
  else if t.r32 ≠ [] ∧ (t.r32.head?.getD (0, 0)).1 ≤ c.toNat then searchRanges c.toNat t.r32
  else false

/-- `cjk` (bert.go:72-86), in the order of the code. -/
def cjk : RangeTable where
  r16 := [(0x4e00, 0x9fff), (0x3400, 0x4dbf), (0xf900, 0xfaff)]
  r32 := [(0x20000, 0x2a6df), (0x2a700, 0x2b73f), (0x2b740, 0x2b81f), (0x2b820, 0x2ceaf), (0x2f800, 0x2fa1f)]

/-- `isChinese` (bert.go:89-102). -/
def isChinese (c : Char) : Bool := cjk.is c

/-- The characters `doCleanText` removes (bert.go:125). -/
def isDirty (ctl : Char → Bool) (c : Char) : Bool := c = '\x00' ∨ c = '�' ∨ isControl ctl c

/-- The loop of `doCleanText` over the reversed characters (bert.go:123-144), with the number of
characters removed since; the change list is built from its end (147-150). -/
def cleanLoop (ctl : Char → Bool) : List Char → Nat → List (Str × Int) → List (Str × Int) × Nat
  | [], removed, acc => (acc, removed)
  | c :: cs, removed, acc =>
    if isDirty ctl c then cleanLoop ctl cs (removed + 1) acc
    else if removed > 0 then
      cleanLoop ctl cs 0 (([if isBertSpace c then ' ' else c], -(removed : Int)) :: acc)
    else cleanLoop ctl cs removed (([c], 0) :: acc)

/-- `doCleanText` (bert.go:109-153). -/
def NStr.cleanText (n : NStr) (ctl : Char → Bool) : Res NStr :=
  let r := cleanLoop ctl (runes n.normalized).reverse 0 []
  n.transform r.1 r.2

/-- The changes of `doHandleChineseChars` (bert.go:155-181). -/
def chineseItems (cs : Str) : List (Str × Int) :=
  cs.flatMap fun c => if isChinese c then [([' '], 1), ([c], 0), ([' '], 1)] else [([c], 0)]

/-- `doHandleChineseChars` (bert.go:155-181). -/
def NStr.handleChinese (n : NStr) : Res NStr := n.transform (chineseItems (runes n.normalized)) 0

/-- `RemoveAccents` (normalized.go:1147-1151). -/
def NStr.removeAccents (n : NStr) (mn : Char → Bool) : Res NStr := n.filter (fun c => !mn c)

/-- `BertNormalizer` (bert.go:7-12). -/
structure Bert where
  clean : Bool
  lowercase : Bool
  chinese : Bool
  accents : Bool

/-- `BertNormalizer.Normalize` (bert.go:192-210). -/
def Bert.normalize (b : Bert) (T : Tables) (n : NStr) : Res NStr :=
  (if b.clean then n.cleanText T.ctl else .ok n).bind fun n1 =>
  (if b.chinese then n1.handleChinese else .ok n1).bind fun n2 =>
  let n3 := if b.lowercase then n2.recase T.lower else n2
  if b.accents then n3.removeAccents T.mn else .ok n3

/-! ### Unicode normal forms -/

/-- The changes of one segment: the first character replaces one, the others are new
(normalized.go:888-902, 928-942, 966-980). -/
def segItems : Str → List (Str × Int)
  | [] => []
  | c :: cs => ([c], 0) :: cs.map (fun c => ([c], (1 : Int)))

/-- `NFD` (normalized.go:866-911). -/
def NStr.nfd (n : NStr) (T : Tables) : Res NStr := n.transform ((T.nfd n.normalized).flatMap segItems) 0

/-- `NFC` (normalized.go:914-949): the segments are those of NFD. -/
def NStr.nfc (n : NStr) (T : Tables) : Res NStr :=
  if T.isNFC n.normalized then .ok n else n.transform ((T.nfd n.normalized).flatMap segItems) 0

/-- `NFKD` (normalized.go:952-985); `none` is the nil returned for a text in normal form. -/
def NStr.nfkd (n : NStr) (T : Tables) : Res (Option NStr) :=
  if T.isNFKD n.normalized then .ok none
  else (n.transform ((T.nfkd n.normalized).flatMap segItems) 0).bind (fun n' => .ok (some n'))

/-- The changes of one segment in `NFKC` (normalized.go:1007-1017). -/
def segItemsC : Str → List (Str × Int)
  | [] => []
  | [c] => [([c], 0)]
  | s => [(s, -1)]

/-- `NFKC` (normalized.go:988-1021). -/
def NStr.nfkc (n : NStr) (T : Tables) : Res NStr :=
  if T.isNFKC n.normalized then .ok n else n.transform ((T.nfkd n.normalized).flatMap segItemsC) 0

/-! ### Normalizers -/

/-- The normalizers of the package. `Precompiled` is modelled in `Verif.Spm.Normalizer`. -/
inductive Normalizer where
  | bert (b : Bert)
  | nfc | nfd | nfkc | nfkd
  | strip (left right : Bool)
  | stripAccents
  | prepend (s : List UInt8)
  | replace (p : Pat) (content : List UInt8)
  /-- `DefaultNormalizer` (default.go:21-79); `Lowercase()` (normalizer.go:59-65) is the one with
  `strip = false` -/
  | default (lower strip : Bool)
  /-- `normalizer` (normalizer.go:11-13) -/
  | wrapped (inner : Normalizer)
  | sequence (l : List Normalizer)

/-- The options of `NewNormalizer` (normalizer.go:32-45). -/
inductive NewOption where
  | bert (b : Bert)
  | unicode (form : Normalizer)

/-- Applying an option: the normalizer it builds is dropped (normalizer.go:33-45). -/
def applyOption (inner : Normalizer) : NewOption → Normalizer
  | .bert _ => inner
  | .unicode _ => inner

/-- `NewNormalizer` (normalizer.go:15-23, 47-56). -/
def newNormalizer (opts : List NewOption) : Normalizer :=
  .wrapped (opts.foldl applyOption (.default true true))

/-- `Strip.Normalize` (strip.go:18-33). -/
def stripNormalize (T : Tables) (left right : Bool) (n : NStr) : Res NStr :=
  if left && right then n.strip T.space true true
  else if left then n.strip T.space true false
  else if right then n.strip T.space false true
  else .ok n

mutual
/-- `Normalize` of the normalizers (bert.go:192-210, unicode.go:20-72, strip.go:18-43,
prepend.go:13-19, replace.go:44-46, default.go:50-63, normalizer.go:25-28); `none` is a nil pointer.
A method called on a nil pointer dereferences it. -/
def Normalizer.normalize (T : Tables) (nz : Normalizer) (n : Option NStr) : Res (Option NStr) :=
  match nz, n with
  | .sequence l, n => Normalizer.normalizeAll T l n
  | .wrapped _, n => .ok n
  | .bert b, some n => (b.normalize T n).bind (fun x => .ok (some x))
  | .nfc, some n => (n.nfc T).bind (fun x => .ok (some x))
  | .nfd, some n => (n.nfd T).bind (fun x => .ok (some x))
  | .nfkc, some n => (n.nfkc T).bind (fun x => .ok (some x))
  | .nfkd, some n => n.nfkd T
  | .strip l r, some n => (stripNormalize T l r n).bind (fun x => .ok (some x))
  | .stripAccents, some n => (n.removeAccents T.mn).bind (fun x => .ok (some x))
  | .prepend s, some n =>
    if n.normalized = [] then .ok none else (n.prepend s).bind (fun x => .ok (some x))
  | .replace p c, some n => (n.replace p c).bind (fun x => .ok (some x))
  | .default lo st, some n =>
    let n1 := if lo then n.recase T.lower else n
    if st then (n1.strip T.space true true).bind (fun x => .ok (some x)) else .ok (some n1)
  | .bert b, none => if b.clean || b.chinese || b.lowercase || b.accents then .panic else .ok none
  | .strip l r, none => if l || r then .panic else .ok none
  | .default l s, none => if l || s then .panic else .ok none
  | _, none => .panic

/-- The loop of `Sequence.Normalize` (sequence.go:16-27). -/
def Normalizer.normalizeAll (T : Tables) (l : List Normalizer) (n : Option NStr) : Res (Option NStr) :=
  match l with
  | [] => .ok n
  | z :: l => (Normalizer.normalize T z n).bind (fun n' => Normalizer.normalizeAll T l n')
end

end Tok.Norm
