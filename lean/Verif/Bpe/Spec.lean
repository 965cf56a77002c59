import Verif.Bpe.Model

/-! # What BPE tokenization should do: specification -/

namespace Tok

/-- Replacing one adjacent pair that is in the table by its merged symbol. A symbol is its
id and its length in bytes. -/
inductive TableMerge (merges : MergeTable) : List (Int × Nat) → List (Int × Nat) → Prop
  | mk (u v : List (Int × Nat)) (a b : Int) (la lb : Nat) (m : PairVal) (h : merges a b = some m) :
      TableMerge merges (u ++ (a, la) :: (b, lb) :: v) (u ++ (m.newId, la + lb) :: v)

/-- The same, for a pair whose rank is the lowest among all adjacent pairs. -/
inductive PriorityMerge (merges : MergeTable) : List (Int × Nat) → List (Int × Nat) → Prop
  | mk (u v : List (Int × Nat)) (a b : Int) (la lb : Nat) (m : PairVal) (h : merges a b = some m)
      (hmin : ∀ u' v' x y lx ly m', u ++ (a, la) :: (b, lb) :: v = u' ++ (x, lx) :: (y, ly) :: v' →
        merges x y = some m' → m.rank ≤ m'.rank) :
      PriorityMerge merges (u ++ (a, la) :: (b, lb) :: v) (u ++ (m.newId, la + lb) :: v)

/-- No adjacent pair is in the table. -/
def Irreducible (merges : MergeTable) (l : List (Int × Nat)) : Prop :=
  ∀ u v a b la lb, l = u ++ (a, la) :: (b, lb) :: v → merges a b = none

/-- The offsets run from `a` to `b` without gap, each covering at least one byte. -/
def TilesRange : Nat → Nat → List (Nat × Nat) → Prop
  | a, b, [] => a = b
  | a, b, o :: os => o.1 = a ∧ o.1 < o.2 ∧ TilesRange o.2 b os

/-- The id of a rune: that of its text, with the prefix for the first rune, or else the id of
the unknown token (0 when that is not in the vocabulary). `none`: neither exists. -/
def symbolId (b : BpeModel) (first : Bool) (r : Char) : Option Int :=
  (b.vocab (if first then b.pre.getD [] ++ [r] else [r])).or (b.unk.map fun u => (b.vocab u).getD 0)

/-- The symbol of a rune: its id and its length. -/
def runeSymbol (b : BpeModel) (first : Bool) (r : Char) : Option (Int × Nat) :=
  (symbolId b first r).map fun id => (id, r.utf8Size)

/-- The symbols a word starts with: one per rune, of the length of that rune. -/
def initialSymbols (b : BpeModel) : Str → Option (List (Int × Nat))
  | [] => some []
  | r :: rs => do
    let p ← runeSymbol b true r
    let ps ← rs.mapM (runeSymbol b false)
    return p :: ps

end Tok
