import Verif.Encoding.Spec
import Batteries.Data.List.Basic

namespace Tok

theorem padRightLoop_arr (padId padTypeId : Int) (padToken : Str) (n : Nat) (e : Encoding)
    (f : Field) :
    (Encoding.padRightLoop padId padTypeId padToken n e).arr f
      = e.arr f ++ List.replicate n (padEntry padId padTypeId padToken f) := by
  induction n generalizing e with
  | zero => simp [Encoding.padRightLoop]
  | succ n ih =>
    unfold Encoding.padRightLoop
    rw [ih]
    cases f <;> simp [List.replicate_succ, padEntry, Encoding.arr]

theorem padRightLoop_rest (padId padTypeId : Int) (padToken : Str) (n : Nat) (e : Encoding) :
    (Encoding.padRightLoop padId padTypeId padToken n e).overflowing = e.overflowing ∧
    (Encoding.padRightLoop padId padTypeId padToken n e).ranges = e.ranges := by
  induction n generalizing e with
  | zero => simp [Encoding.padRightLoop]
  | succ n ih =>
    unfold Encoding.padRightLoop
    exact ih _

theorem mapRes_ok (f : α → β) (g : α → Res β) (l : List α) (h : ∀ a ∈ l, g a = .ok (f a)) :
    mapRes g l = .ok (l.map f) := by
  induction l with
  | nil => rfl
  | cons a l ih =>
    unfold mapRes
    rw [h a (by simp), ih (fun b hb => h b (by simp [hb]))]
    rfl

theorem mapRes_eq_ok {g : α → Res β} {l : List α} {r : List β} :
    mapRes g l = .ok r ↔ List.Forall₂ (fun a b => g a = .ok b) l r := by
  induction l generalizing r with
  | nil =>
    cases r with
    | nil => simp [mapRes]
    | cons b r => simp [mapRes]; intro h; cases h
  | cons a l ih =>
    unfold mapRes
    constructor
    · intro h
      cases hg : g a with
      | err => rw [hg] at h; cases h
      | panic => rw [hg] at h; cases h
      | ok b =>
        rw [hg] at h
        cases hm : mapRes g l with
        | err => rw [hm] at h; cases h
        | panic => rw [hm] at h; cases h
        | ok bs =>
          rw [hm] at h
          cases h
          exact .cons hg (ih.1 hm)
    · intro h
      cases h with
      | cons h1 h2 => rw [h1, ih.2 h2]; rfl

theorem fillLoop_panic (v : α) (rounds k : Nat) (arr : List α) (h : arr.length < rounds + k)
    (hr : 0 < rounds) : fillLoop v rounds k arr = .panic := by
  induction rounds generalizing k arr with
  | zero => omega
  | succ n ih =>
    unfold fillLoop
    split
    · next hk =>
      by_cases hn : 0 < n
      · exact ih (k + 1) (arr.set k v) (by simp; omega) hn
      · omega
    · rfl

theorem fillLoop_ok (v : α) (rounds k : Nat) (arr : List α) (h : rounds + k = arr.length) :
    fillLoop v rounds k arr = .ok (arr.take k ++ List.replicate rounds v) := by
  induction rounds generalizing k arr with
  | zero => simp [fillLoop]; rw [List.take_of_length_le (by omega)]
  | succ n ih =>
    unfold fillLoop
    rw [if_pos (by omega), ih (k + 1) (arr.set k v) (by simp; omega)]
    congr 1
    rw [List.replicate_succ]
    have hk : k < arr.length := by omega
    rw [List.take_succ_eq_append_getElem (by simpa using hk)]
    simp [List.take_set_of_le]

theorem fillLoop_make (v z : α) (n : Nat) :
    fillLoop v n 0 (List.replicate n z) = .ok (List.replicate n v) := by
  rw [fillLoop_ok _ _ _ _ (by simp)]; simp

end Tok
