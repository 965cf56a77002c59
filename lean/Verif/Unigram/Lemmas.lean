import Verif.Unigram.Spec
import Mathlib.Algebra.Order.Monoid.Defs

/-! Helper lemmas about the Viterbi lattice. -/

namespace Tok.Unigram

set_option linter.unusedSectionVars false

variable {K : Type} [AddCommGroup K] [LinearOrder K]

theorem charLen_pos (r : Bytes) : 0 < charLen r := by
  unfold charLen; split
  · exact Char.utf8Size_pos _
  · omega

theorem charLen_le (r : Bytes) : charLen r ≤ 4 := by
  unfold charLen; split
  · exact Char.utf8Size_le_four _
  · omega

/-- An arc of the lattice. -/
inductive Arc (u : Unigram K) (seq : Bytes) : Nat → Nat → K → Int → Prop
  | known (i l id : Nat) : 0 < l → l ≤ 20 → i + l ≤ seq.length →
      u.tokenToId ((seq.drop i).take l) = some id →
      Arc u seq i (i + l) (u.scoreOf id + l • u.bonus) id
  | unk (i : Nat) (uid : Int) : i + charLen (seq.drop i) ≤ seq.length →
      u.tokenToId ((seq.drop i).take (charLen (seq.drop i))) = none → u.unkId = some uid →
      Arc u seq i (i + charLen (seq.drop i)) u.unkScore uid

theorem Arc.lt {u : Unigram K} {seq : Bytes} {i j : Nat} {w : K} {id : Int}
    (h : Arc u seq i j w id) : i < j := by
  cases h with
  | known _ _ _ _ => omega
  | unk _ _ => have := charLen_pos (seq.drop i); omega

theorem Arc.le {u : Unigram K} {seq : Bytes} {i j : Nat} {w : K} {id : Int}
    (h : Arc u seq i j w id) : j ≤ seq.length := by
  cases h <;> assumption

/-- Every node is the end of an arc from an earlier processed node. -/
def Sound (u : Unigram K) (seq : Bytes) (i : Nat) (lat : Lattice K) : Prop :=
  lat 0 = some (0, 0, -1) ∧
  ∀ (j : Nat) (s : K) (k : Nat) (id : Int), 0 < j → lat j = some (s, k, id) →
    k < i ∧ ∃ w s' c, Arc u seq k j w id ∧ lat k = some (s', c) ∧ s = s' + w

/-- The arcs in `A` are no better than the nodes. -/
def Covers (lat : Lattice K) (i j : Nat) (w : K) : Prop :=
  ∀ s' c, lat i = some (s', c) → ∃ s c', lat j = some (s, c') ∧ s' + w ≤ s

theorem relax_ne (lat : Lattice K) (i j : Nat) (s : K) (id : Int) {k : Nat} (h : k ≠ j) :
    relax lat i j s id k = lat k := by
  unfold relax
  cases lat j with
  | none => simp [h]
  | some c => dsimp only; split <;> simp [h]

theorem relax_at (lat : Lattice K) (i j : Nat) (s : K) (id : Int) :
    (relax lat i j s id j = some (s, i, id) ∧ ∀ c, lat j = some c → c.1 < s) ∨
    (relax lat i j s id j = lat j ∧ ∃ c, lat j = some c ∧ s ≤ c.1) := by
  unfold relax
  cases h : lat j with
  | none => left; simp
  | some c =>
    dsimp only
    split
    · next hlt => left; simp [hlt]
    · next hlt => right; exact ⟨h, c, rfl, not_lt.mp hlt⟩

theorem relax_ge (lat : Lattice K) (i j : Nat) (s : K) (id : Int) {k : Nat} {a : K} {c}
    (h : lat k = some (a, c)) : ∃ a' c', relax lat i j s id k = some (a', c') ∧ a ≤ a' := by
  by_cases hk : k = j
  · subst hk
    rcases relax_at lat i k s id with ⟨h1, h2⟩ | ⟨h1, _⟩
    · exact ⟨s, _, h1, le_of_lt (h2 _ h)⟩
    · exact ⟨a, c, h1.trans h, le_rfl⟩
  · exact ⟨a, c, (relax_ne lat i j s id hk).trans h, le_rfl⟩

/-- What one step at position `i` with base score `b` preserves. -/
structure Mid (u : Unigram K) (seq : Bytes) (i : Nat) (b : K) (lat : Lattice K) : Prop where
  zero : lat 0 = some (0, 0, -1)
  base : ∃ c, lat i = some (b, c)
  sound : ∀ (j : Nat) (s : K) (k : Nat) (id : Int), 0 < j → lat j = some (s, k, id) →
    k ≤ i ∧ ∃ w s' c, Arc u seq k j w id ∧ lat k = some (s', c) ∧ s = s' + w

theorem Mid.relax {u : Unigram K} {seq : Bytes} {i j : Nat} {b w : K} {id : Int} {lat : Lattice K}
    (h : Mid u seq i b lat) (ha : Arc u seq i j w id) :
    Mid u seq i b (relax lat i j (b + w) id) := by
  have hlt := ha.lt
  refine ⟨?_, ?_, ?_⟩
  · rw [relax_ne _ _ _ _ _ (by omega)]; exact h.zero
  · obtain ⟨c, hc⟩ := h.base
    exact ⟨c, by rw [relax_ne _ _ _ _ _ (by omega)]; exact hc⟩
  · intro j' s k id' hj' hl
    have keep : ∀ k', k' ≤ i → Unigram.relax lat i j (b + w) id k' = lat k' := fun k' hk' =>
      relax_ne _ _ _ _ _ (by omega)
    by_cases hjj : j' = j
    · subst hjj
      rcases relax_at lat i j' (b + w) id with ⟨h1, _⟩ | ⟨h1, _⟩
      · rw [h1] at hl
        simp only [Option.some.injEq, Prod.mk.injEq] at hl
        obtain ⟨rfl, rfl, rfl⟩ := hl
        obtain ⟨c, hc⟩ := h.base
        exact ⟨le_rfl, w, b, c, ha, by rw [keep _ le_rfl]; exact hc, rfl⟩
      · rw [h1] at hl
        obtain ⟨h2, w', s', c, h3, h4, h5⟩ := h.sound _ _ _ _ hj' hl
        exact ⟨h2, w', s', c, h3, by rw [keep _ h2]; exact h4, h5⟩
    · rw [relax_ne _ _ _ _ _ hjj] at hl
      obtain ⟨h2, w', s', c, h3, h4, h5⟩ := h.sound _ _ _ _ hj' hl
      exact ⟨h2, w', s', c, h3, by rw [keep _ h2]; exact h4, h5⟩

/-- Nodes never get worse and nodes up to `i` stay. -/
structure Grow (i : Nat) (lat lat' : Lattice K) : Prop where
  keep : ∀ k, k ≤ i → lat' k = lat k
  ge : ∀ (k : Nat) (a : K) c, lat k = some (a, c) → ∃ a' c', lat' k = some (a', c') ∧ a ≤ a'

theorem Grow.refl (i : Nat) (lat : Lattice K) : Grow i lat lat :=
  ⟨fun _ _ => rfl, fun _ a c h => ⟨a, c, h, le_rfl⟩⟩

theorem Grow.trans {i : Nat} {a b c : Lattice K} (h : Grow i a b) (h' : Grow i b c) : Grow i a c :=
  ⟨fun k hk => (h'.keep k hk).trans (h.keep k hk), fun k x d hx => by
    obtain ⟨y, e, hy, h1⟩ := h.ge k x d hx
    obtain ⟨z, f, hz, h2⟩ := h'.ge k y e hy
    exact ⟨z, f, hz, h1.trans h2⟩⟩

theorem Grow.relax {i j : Nat} (hij : i < j) (lat : Lattice K) (s : K) (id : Int) :
    Grow i lat (relax lat i j s id) :=
  ⟨fun k hk => relax_ne _ _ _ _ _ (by omega), fun _ _ _ h => relax_ge lat i j s id h⟩

theorem relax_covers (lat : Lattice K) (i j : Nat) (s : K) (id : Int) :
    ∃ a c, relax lat i j s id j = some (a, c) ∧ s ≤ a := by
  rcases relax_at lat i j s id with ⟨h1, _⟩ | ⟨h1, c, h2, h3⟩
  · exact ⟨s, _, h1, le_rfl⟩
  · exact ⟨c.1, c.2, by rw [h1, h2], h3⟩

theorem tryLen_foldl (u : Unigram K) (seq : Bytes) (i : Nat) (b : K) (ls : List Nat)
    (hls : ∀ l ∈ ls, 0 < l ∧ l ≤ 20 ∧ i + l ≤ seq.length) (lat : Lattice K) (f : Bool)
    (h : Mid u seq i b lat) :
    let st := ls.foldl (tryLen u (seq.drop i) i b) (lat, f)
    Mid u seq i b st.1 ∧ Grow i lat st.1 ∧
    (∀ l ∈ ls, ∀ id, u.tokenToId ((seq.drop i).take l) = some id →
      ∃ a c, st.1 (i + l) = some (a, c) ∧ b + (u.scoreOf id + l • u.bonus) ≤ a) ∧
    (st.2 = true ↔ f = true ∨ (charLen (seq.drop i) ∈ ls ∧
      u.tokenToId ((seq.drop i).take (charLen (seq.drop i))) ≠ none)) := by
  induction ls generalizing lat f with
  | nil => exact ⟨h, Grow.refl _ _, by simp, by simp⟩
  | cons l ls ih =>
    have hl := hls l (by simp)
    have hls' : ∀ l ∈ ls, 0 < l ∧ l ≤ 20 ∧ i + l ≤ seq.length := fun x hx => hls x (by simp [hx])
    simp only [List.foldl_cons]
    cases ht : u.tokenToId ((seq.drop i).take l) with
    | none =>
      have he : tryLen u (seq.drop i) i b (lat, f) l = (lat, f) := by simp [tryLen, ht]
      rw [he]
      obtain ⟨h1, h2, h3, h4⟩ := ih hls' lat f h
      refine ⟨h1, h2, ?_, ?_⟩
      · intro x hx id hid
        rcases List.mem_cons.mp hx with rfl | hx
        · rw [ht] at hid; cases hid
        · exact h3 x hx id hid
      · rw [h4]
        constructor
        · rintro (h | ⟨h, h'⟩)
          · exact .inl h
          · exact .inr ⟨by simp [h], h'⟩
        · rintro (h | ⟨h, h'⟩)
          · exact .inl h
          · refine .inr ⟨?_, h'⟩
            rcases List.mem_cons.mp h with h | h
            · rw [h] at h'; exact absurd ht h'
            · exact h
    | some id =>
      have ha : Arc u seq i (i + l) (u.scoreOf id + l • u.bonus) id :=
        .known i l id hl.1 hl.2.1 hl.2.2 ht
      have he : tryLen u (seq.drop i) i b (lat, f) l =
          (relax lat i (i + l) (b + (u.scoreOf id + l • u.bonus)) id,
            if l = charLen (seq.drop i) then true else f) := by
        simp [tryLen, ht, add_assoc]
      rw [he]
      obtain ⟨h1, h2, h3, h4⟩ := ih hls' _ (if l = charLen (seq.drop i) then true else f) (h.relax ha)
      refine ⟨h1, (Grow.relax (by omega) _ _ _).trans h2, ?_, ?_⟩
      · intro x hx id' hid
        rcases List.mem_cons.mp hx with rfl | hx
        · rw [ht] at hid; cases hid
          obtain ⟨a, c, ha', hle⟩ := relax_covers lat i (i + x) (b + (u.scoreOf id + x • u.bonus)) id
          obtain ⟨a', c', h5, h6⟩ := h2.ge _ _ _ ha'
          exact ⟨a', c', h5, hle.trans h6⟩
        · exact h3 x hx id' hid
      · rw [h4]
        by_cases hc : l = charLen (seq.drop i)
        · simp only [hc, if_true, true_or, true_iff, List.mem_cons, true_or, true_and]
          right; rw [← hc, ht]; simp
        · simp only [hc, if_false, List.mem_cons]
          have : ¬ charLen (seq.drop i) = l := fun h => hc h.symm
          simp [this]

variable [IsOrderedAddMonoid K]

/-- The invariant of the loop over positions. -/
structure Inv (u : Unigram K) (seq : Bytes) (i : Nat) (lat : Lattice K) : Prop where
  sound : Sound u seq i lat
  done : ∀ (k j : Nat) (w : K) (id : Int), k < i → Arc u seq k j w id → Covers lat k j w

theorem inv_init (u : Unigram K) (seq : Bytes) : Inv u seq 0 initLattice := by
  refine ⟨⟨by simp [initLattice], ?_⟩, fun k _ _ _ h => absurd h (Nat.not_lt_zero k)⟩
  intro j s k id hj h
  simp [initLattice, show j ≠ 0 by omega] at h

theorem inv_position (u : Unigram K) (seq : Bytes) (i : Nat) (hi : i < seq.length)
    (lat : Lattice K) (h : Inv u seq i lat) : Inv u seq (i + 1) (position u seq lat i) := by
  unfold position
  split
  · next hn =>
    refine ⟨⟨h.sound.1, fun j s k id hj hl => ?_⟩, fun k j w id hk ha => ?_⟩
    · obtain ⟨h1, h2⟩ := h.sound.2 j s k id hj hl
      exact ⟨by omega, h2⟩
    · by_cases hki : k = i
      · subst hki; intro s' c hc; rw [hn] at hc; cases hc
      · exact h.done k j w id (by omega) ha
  · next c hc =>
    obtain ⟨b, c⟩ := c
    have hm : Mid u seq i b lat := ⟨h.sound.1, ⟨c, hc⟩, fun j s k id hj hl => by
      obtain ⟨h1, h2⟩ := h.sound.2 j s k id hj hl
      exact ⟨by omega, h2⟩⟩
    have hls : ∀ l ∈ List.range' 1 (if i + 20 > seq.length then seq.length - i else 20),
        0 < l ∧ l ≤ 20 ∧ i + l ≤ seq.length := by
      intro l hl
      simp only [List.mem_range'_1] at hl
      split at hl <;> omega
    have hmem : ∀ l, 0 < l → l ≤ 20 → i + l ≤ seq.length →
        l ∈ List.range' 1 (if i + 20 > seq.length then seq.length - i else 20) := by
      intro l h1 h2 h3
      simp only [List.mem_range'_1]
      split <;> omega
    obtain ⟨h1, h2, h3, h4⟩ := tryLen_foldl u seq i b _ hls lat false hm
    dsimp only
    generalize hst : List.foldl (tryLen u (seq.drop i) i b) (lat, false) _ = st at h1 h2 h3 h4 ⊢
    have hcl : 0 < charLen (seq.drop i) ∧ charLen (seq.drop i) ≤ 4 := ⟨charLen_pos _, charLen_le _⟩
    -- the final lattice
    suffices hfin : ∀ L : Lattice K, Mid u seq i b L → Grow i st.1 L →
        (∀ uid, i + charLen (seq.drop i) ≤ seq.length →
          u.tokenToId ((seq.drop i).take (charLen (seq.drop i))) = none → u.unkId = some uid →
          ∃ a c, L (i + charLen (seq.drop i)) = some (a, c) ∧ b + u.unkScore ≤ a) →
        Inv u seq (i + 1) L by
      split
      · next uid hf hu =>
        have hnone : i + charLen (seq.drop i) ≤ seq.length →
            u.tokenToId ((seq.drop i).take (charLen (seq.drop i))) = none := by
          intro hle
          refine Classical.byContradiction fun hc => ?_
          have := h4.mpr (.inr ⟨hmem _ hcl.1 (by omega) hle, hc⟩)
          rw [hf] at this; cases this
        split
        · next hle =>
          refine hfin _ (h1.relax (.unk i uid hle (hnone hle) hu)) (Grow.relax (by omega) _ _ _) ?_
          intro _ _ _ _
          exact relax_covers _ _ _ _ _
        · next hle =>
          exact hfin _ h1 (Grow.refl _ _) (fun _ h _ _ => absurd h hle)
      · next hne =>
        refine hfin _ h1 (Grow.refl _ _) ?_
        intro uid hle hn hu
        exfalso
        have : st.2 = false := by
          cases hs : st.2 with
          | false => rfl
          | true =>
            rcases h4.mp hs with h | ⟨_, h⟩
            · cases h
            · exact absurd hn h
        exact hne uid this hu
    intro L hM hG hU
    have hG' := h2.trans hG
    refine ⟨⟨hM.zero, fun j s k id hj hl => ?_⟩, fun k j w id hk ha => ?_⟩
    · obtain ⟨h5, h6⟩ := hM.sound j s k id hj hl
      exact ⟨by omega, h6⟩
    · intro s' c' hc'
      by_cases hki : k = i
      · subst hki
        obtain ⟨cb, hcb⟩ := hM.base
        rw [hcb] at hc'
        simp only [Option.some.injEq, Prod.mk.injEq] at hc'
        obtain ⟨rfl, -⟩ := hc'
        cases ha with
        | known l id hl0 hl hle ht =>
          obtain ⟨a, d, h5, h6⟩ := h3 l (hmem l hl0 hl hle) id ht
          obtain ⟨a', d', h7, h8⟩ := hG.ge _ _ _ h5
          exact ⟨a', d', h7, h6.trans h8⟩
        | unk uid hle ht hu => exact hU id hle ht hu
      · rw [hG'.keep k (by omega)] at hc'
        obtain ⟨s, d, h5, h6⟩ := h.done k j w id (by omega) ha s' c' hc'
        obtain ⟨a', d', h7, h8⟩ := hG'.ge _ _ _ h5
        exact ⟨a', d', h7, h6.trans h8⟩

theorem inv_lattice (u : Unigram K) (seq : Bytes) : Inv u seq seq.length (u.lattice seq) := by
  have : ∀ m, m ≤ seq.length →
      Inv u seq m ((List.range m).foldl (position u seq) initLattice) := by
    intro m
    induction m with
    | zero => intro _; exact inv_init u seq
    | succ m ih =>
      intro hm
      rw [List.range_succ, List.foldl_append]
      exact inv_position u seq m (by omega) _ (ih (by omega))
  exact this _ le_rfl

/-! ## Paths and segmentations -/

/-- A path of arcs from `i` to `j`. -/
inductive Path (u : Unigram K) (seq : Bytes) : Nat → Nat → List (Bytes × Int) → K → Prop
  | nil (i : Nat) : Path u seq i i [] 0
  | cons (i j k : Nat) (w v : K) (id : Int) (ps : List (Bytes × Int)) : Arc u seq i j w id →
      Path u seq j k ps v → Path u seq i k (((seq.take j).drop i, id) :: ps) (w + v)

theorem take_drop_eq (seq : Bytes) (i l : Nat) : (seq.take (i + l)).drop i = (seq.drop i).take l := by
  rw [List.drop_take]; congr 1; omega

theorem Path.snoc {u : Unigram K} {seq : Bytes} {i j k : Nat} {ps : List (Bytes × Int)} {w v : K}
    {id : Int} (h : Path u seq i j ps v) (ha : Arc u seq j k w id) :
    Path u seq i k (ps ++ [((seq.take k).drop j, id)]) (v + w) := by
  induction h with
  | nil i =>
    have := Path.cons i k k w 0 id [] ha (.nil k)
    rw [add_zero] at this
    rw [zero_add]
    exact this
  | cons i j m w' v' id' ps' ha' _ ih =>
    rw [add_assoc]
    exact .cons _ _ _ _ _ _ _ ha' (ih ha)

theorem path_segm {u : Unigram K} {seq : Bytes} {i j : Nat} {ps : List (Bytes × Int)} {w : K}
    (h : Path u seq i j ps w) (hj : j = seq.length) : Segm u (seq.drop i) ps w := by
  induction h with
  | nil i => subst hj; rw [List.drop_length]; exact .nil
  | cons i j k w v id ps ha _ ih =>
    have ih := ih hj
    cases ha with
    | known l id hl0 hl hle ht =>
      rw [take_drop_eq]
      have hlen : ((seq.drop i).take l).length = l := by
        rw [List.length_take, List.length_drop]; omega
      have heq : seq.drop i = (seq.drop i).take l ++ seq.drop (i + l) := by
        rw [← List.drop_drop, List.take_append_drop]
      have := Segm.known (u := u) ((seq.drop i).take l) (seq.drop (i + l)) id ps v
        (by intro h; rw [h] at hlen; simp at hlen; omega) (by omega) ht ih
      rw [hlen] at this
      rw [← heq] at this
      exact this
    | unk uid hle ht hu =>
      rw [take_drop_eq]
      have hlen : ((seq.drop i).take (charLen (seq.drop i))).length = charLen (seq.drop i) := by
        rw [List.length_take, List.length_drop]; omega
      have heq : seq.drop i =
          (seq.drop i).take (charLen (seq.drop i)) ++ seq.drop (i + charLen (seq.drop i)) := by
        rw [← List.drop_drop, List.take_append_drop]
      have := Segm.unknown (u := u) ((seq.drop i).take (charLen (seq.drop i)))
        (seq.drop (i + charLen (seq.drop i))) id ps v (by rw [← heq]; exact hlen) ht hu ih
      rw [← heq] at this
      exact this

theorem segm_path {u : Unigram K} {seq s : Bytes} {ps : List (Bytes × Int)} {w : K}
    (h : Segm u s ps w) : ∀ i, i ≤ seq.length → s = seq.drop i → Path u seq i seq.length ps w := by
  induction h with
  | nil =>
    intro i hi hs
    have : i = seq.length := by
      have := congrArg List.length hs
      simp at this; omega
    subst this
    exact .nil _
  | known p r id ps w hp hl ht _ ih =>
    intro i hi hs
    have hlen := congrArg List.length hs
    simp only [List.length_append, List.length_drop] at hlen
    have hpos : 0 < p.length := List.length_pos_iff.mpr hp
    have htk : (seq.drop i).take p.length = p := by rw [← hs]; simp
    have hdr : r = seq.drop (i + p.length) := by
      rw [← List.drop_drop, ← hs]; simp
    have := Path.cons i (i + p.length) seq.length _ _ _ _
      (.known i p.length id hpos hl (by omega) (by rw [htk]; exact ht))
      (ih (i + p.length) (by omega) hdr)
    rw [take_drop_eq, htk] at this
    exact this
  | unknown p r uid ps w hl ht hu _ ih =>
    intro i hi hs
    have hlen := congrArg List.length hs
    simp only [List.length_append, List.length_drop] at hlen
    have hpos : 0 < p.length := by rw [hl]; exact charLen_pos _
    have htk : (seq.drop i).take p.length = p := by rw [← hs]; simp
    have hdr : r = seq.drop (i + p.length) := by
      rw [← List.drop_drop, ← hs]; simp
    rw [hs] at hl
    have := Path.cons i (i + charLen (seq.drop i)) seq.length _ _ _ _
      (.unk i uid (by omega) (by rw [← hl, htk]; exact ht) hu)
      (ih (i + charLen (seq.drop i)) (by omega) (by rw [← hl]; exact hdr))
    rw [take_drop_eq, ← hl, htk] at this
    exact this

theorem path_le {u : Unigram K} {seq : Bytes} {lat : Lattice K} (h : Inv u seq seq.length lat)
    {i j : Nat} {ps : List (Bytes × Int)} {w : K} (hp : Path u seq i j ps w) :
    ∀ s c, lat i = some (s, c) → ∃ s' c', lat j = some (s', c') ∧ s + w ≤ s' := by
  induction hp with
  | nil i => intro s c hc; exact ⟨s, c, hc, by simp⟩
  | cons i j k w v id ps ha _ ih =>
    intro s c hc
    have hil : i < seq.length := lt_of_lt_of_le ha.lt ha.le
    obtain ⟨s1, c1, h1, h2⟩ := h.done i j w id hil ha s c hc
    obtain ⟨s2, c2, h3, h4⟩ := ih s1 c1 h1
    refine ⟨s2, c2, h3, le_trans ?_ h4⟩
    rw [← add_assoc]
    exact add_le_add_left h2 v

theorem backtrack_path {u : Unigram K} {seq : Bytes} {lat : Lattice K}
    (h : Inv u seq seq.length lat) : ∀ (j : Nat) (s : K) c, lat j = some (s, c) →
      ∃ ps, Path u seq 0 j ps s ∧
        (∀ fuel tokens, j < fuel → backtrack lat seq fuel j tokens = .ok (ps.map (·.1) ++ tokens)) := by
  intro j
  induction j using Nat.strong_induction_on with
  | _ j ih =>
    intro s c hc
    by_cases hj : j = 0
    · subst hj
      rw [h.sound.1] at hc
      simp only [Option.some.injEq, Prod.mk.injEq] at hc
      obtain ⟨rfl, -⟩ := hc
      refine ⟨[], .nil 0, ?_⟩
      intro fuel tokens hf
      obtain ⟨f, rfl⟩ : ∃ f, fuel = f + 1 := ⟨fuel - 1, by omega⟩
      simp [backtrack]
    · obtain ⟨k, id⟩ := c
      obtain ⟨_, w, s', c', ha, hk, rfl⟩ := h.sound.2 j s k id (by omega) hc
      have hlt := ha.lt
      obtain ⟨ps, hp, hb⟩ := ih k hlt s' c' hk
      refine ⟨_, hp.snoc ha, ?_⟩
      intro fuel tokens hf
      obtain ⟨f, rfl⟩ : ∃ f, fuel = f + 1 := ⟨fuel - 1, by omega⟩
      rw [backtrack, if_pos (by omega), hc]
      dsimp only
      rw [hb f _ (by omega)]
      simp

/-! ## Fusing -/

theorem fuse_known {uid id : Int} (p : Bytes) (ps : List (Bytes × Int)) (h : id ≠ uid) :
    fuseRuns uid ((p, id) :: ps) = p :: fuseRuns uid ps := by
  rw [fuseRuns.eq_def]; simp [h]

theorem fuse_last (uid : Int) (p : Bytes) : fuseRuns uid [(p, uid)] = [p] := by
  rw [fuseRuns.eq_def]; simp

theorem fuse_stop {uid id : Int} (p q : Bytes) (ps : List (Bytes × Int)) (h : id ≠ uid) :
    fuseRuns uid ((p, uid) :: (q, id) :: ps) = p :: fuseRuns uid ((q, id) :: ps) := by
  rw [fuseRuns.eq_def]; simp [h]

theorem fuse_ne_nil (uid : Int) (x : Bytes × Int) (ps : List (Bytes × Int)) :
    ∃ r rs, fuseRuns uid (x :: ps) = r :: rs := by
  rw [fuseRuns.eq_def]
  obtain ⟨p, id⟩ := x
  dsimp only
  split
  · split
    · split
      · split <;> simp
      · simp
    · simp
  · simp

theorem fuse_step {uid : Int} (p q : Bytes) (ps : List (Bytes × Int)) {r : Bytes} {rs : List Bytes}
    (h : fuseRuns uid ((q, uid) :: ps) = r :: rs) :
    fuseRuns uid ((p, uid) :: (q, uid) :: ps) = (p ++ r) :: rs := by
  rw [fuseRuns.eq_def]; simp [h]

theorem fuse_split (uid : Int) (xs ys : List (Bytes × Int)) (p : Bytes) (id : Int) (h : id ≠ uid) :
    fuseRuns uid (xs ++ (p, id) :: ys) = fuseRuns uid xs ++ p :: fuseRuns uid ys := by
  induction xs with
  | nil => simpa [fuseRuns] using fuse_known p ys h
  | cons x xs ih =>
    obtain ⟨q, i⟩ := x
    by_cases hi : i = uid
    · subst hi
      cases xs with
      | nil =>
        simp only [List.cons_append, List.nil_append]
        rw [fuse_stop _ _ _ h, fuse_last, fuse_known _ _ h]; rfl
      | cons x' xs' =>
        obtain ⟨q', i'⟩ := x'
        simp only [List.cons_append] at ih ⊢
        by_cases hi' : i' = i
        · subst hi'
          obtain ⟨r, rs, hr⟩ := fuse_ne_nil i' (q', i') xs'
          rw [hr] at ih
          rw [fuse_step _ _ _ hr, fuse_step _ _ _ ih]
          rfl
        · rw [fuse_stop _ _ _ hi', fuse_stop _ _ _ hi', ih]; rfl
    · rw [List.cons_append, fuse_known _ _ hi, fuse_known _ _ hi, ih]; rfl

theorem fuse_run (uid : Int) (us : List Bytes) (h : us ≠ []) :
    fuseRuns uid (us.map (fun p => (p, uid))) = [us.flatten] := by
  induction us with
  | nil => exact absurd rfl h
  | cons a us ih =>
    cases us with
    | nil => simpa using fuse_last uid a
    | cons b us =>
      have := ih (by simp)
      simp only [List.map_cons] at this ⊢
      rw [fuse_step _ _ _ this]
      simp

theorem backtrackFuse_path {u : Unigram K} {seq : Bytes} {lat : Lattice K} (uid : Int)
    (h : Inv u seq seq.length lat) : ∀ (j : Nat) (s : K) c, lat j = some (s, c) →
      ∃ ps, Path u seq 0 j ps s ∧
        (∀ fuel tokens unks, j < fuel → backtrackFuse lat seq uid fuel j tokens unks =
          .ok (fuseRuns uid (ps ++ unks.map (fun p => (p, uid))) ++ tokens)) := by
  have fin : ∀ (unks : List Bytes) (tokens : List Bytes),
      (if unks.length > 0 then unks.flatten :: tokens else tokens) =
        fuseRuns uid (unks.map (fun p => (p, uid))) ++ tokens := by
    intro unks tokens
    cases unks with
    | nil => simp [fuseRuns]
    | cons a us => rw [fuse_run uid _ (by simp)]; simp
  intro j
  induction j using Nat.strong_induction_on with
  | _ j ih =>
    intro s c hc
    by_cases hj : j = 0
    · subst hj
      rw [h.sound.1] at hc
      simp only [Option.some.injEq, Prod.mk.injEq] at hc
      obtain ⟨rfl, -⟩ := hc
      refine ⟨[], .nil 0, ?_⟩
      intro fuel tokens unks hf
      obtain ⟨f, rfl⟩ : ∃ f, fuel = f + 1 := ⟨fuel - 1, by omega⟩
      rw [backtrackFuse, if_neg (by omega), fin]
      simp
    · obtain ⟨k, id⟩ := c
      obtain ⟨_, w, s', c', ha, hk, rfl⟩ := h.sound.2 j s k id (by omega) hc
      have hlt := ha.lt
      obtain ⟨ps, hp, hb⟩ := ih k hlt s' c' hk
      refine ⟨_, hp.snoc ha, ?_⟩
      intro fuel tokens unks hf
      obtain ⟨f, rfl⟩ : ∃ f, fuel = f + 1 := ⟨fuel - 1, by omega⟩
      rw [backtrackFuse, if_pos (by omega), hc]
      dsimp only
      by_cases hid : id = uid
      · rw [if_pos hid, hb f _ _ (by omega)]
        simp [hid]
      · rw [if_neg hid, hb f _ _ (by omega), fin]
        simp only [List.map_nil, List.append_nil, List.append_assoc, List.singleton_append]
        rw [fuse_split uid _ _ _ _ hid]
        simp

end Tok.Unigram
