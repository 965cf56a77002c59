import Verif.Whole.PropsPieces
import Verif.Whole.FromReaderLemmas

/-!
# Texts with an added token in them
-/

namespace Tok.Whole

open Tok.Norm Tok.PreTok Tok.Regex Tok.Added

/-! ### Specification -/

/-- `ws` are the texts between the occurrences of `c` in a text, if one looks for them from the left. -/
inductive Marked (c : Str) : Str → List Str → Prop
  | last (w : Str) : ¬ c <:+: w → Marked c w [w]
  | cons (w r : Str) (ws : List Str) : (∀ a b, w ++ c ++ r = a ++ c ++ b → w.length ≤ a.length) → Marked c r ws →
      Marked c (w ++ c ++ r) (w :: ws)

/-- The lists, with `a` between them. -/
def between (a : α) : List (List α) → List α
  | [] => []
  | [x] => x
  | x :: y :: xs => x ++ a :: between a (y :: xs)

/-- The normalizer of the tokenizer, if any, makes `u` of the text `w`, also if it is part of a longer one. -/
def NormalizesPart (t : Tk) (w u : Str) : Prop :=
  (t.normalizer = none ∧ u = w) ∨
    (∃ f, t.normalizer = some f ∧ ∀ x, PreTok.Fresh x w → ∃ n, f x = .ok n ∧ WF n ∧ n.normalized = encStr u) ∨
    (w = [] ∧ u = [])

theorem NormalizesPart.normalizes {t : Tk} {w u : Str} (h : NormalizesPart t w u) : Normalizes t w u := by
  rcases h with h | ⟨f, h1, h2⟩ | h
  · exact .inl h
  · exact .inr (.inl ⟨f, h1, fun x hx => h2 x hx.2.1⟩)
  · exact .inr (.inr h)

/-! ### The places -/

theorem marked_ne {c s : Str} {ws : List Str} (h : Marked c s ws) : ws ≠ [] := by
  cases h <;> simp

/-- The places of the occurrences, in bytes. -/
def places (c : Str) : Nat → List Str → List (Nat × Nat)
  | _, [] => []
  | _, [_] => []
  | k, w :: v :: ws => (k + blen w, k + blen w + blen c) :: places c (k + blen w + blen c) (v :: ws)

theorem places_cons {c : Str} {k : Nat} {w : Str} {ws : List Str} (h : ws ≠ []) :
    places c k (w :: ws) = (k + blen w, k + blen w + blen c) :: places c (k + blen w + blen c) ws := by
  cases ws with
  | nil => exact absurd rfl h
  | cons v ws => rfl

theorem between_cons {a : α} {x : List α} {xs : List (List α)} (h : xs ≠ []) : between a (x :: xs) = x ++ a :: between a xs := by
  cases xs with
  | nil => exact absurd rfl h
  | cons v ws => rfl

theorem places_sound {c r : Str} {ws : List Str} (h : Marked c r ws) : ∀ u : Str, ∀ p ∈ places c (blen u) ws,
    ∃ a v, u ++ r = a ++ c ++ v ∧ p = (blen a, blen (a ++ c)) := by
  induction h with
  | last w _ => intro u p hp; cases hp
  | cons w r ws hl hr ih =>
    intro u p hp
    rw [places_cons (marked_ne hr)] at hp
    rcases List.mem_cons.mp hp with rfl | hp
    · exact ⟨u ++ w, r, by simp, by simp [blen_append, Nat.add_assoc]⟩
    · obtain ⟨a, v, e1, e2⟩ := ih (u ++ w ++ c) p (by simpa [blen_append, Nat.add_assoc] using hp)
      exact ⟨a, v, by rw [← e1]; simp, e2⟩

theorem places_legal {c r : Str} {ws : List Str} (h : Marked c r ws) : ∀ n k : Nat, k + blen r ≤ n →
    LegalMatches n k (places c k ws) := by
  induction h with
  | last w _ => intro n k _; trivial
  | cons w r ws hl hr ih =>
    intro n k hn
    rw [places_cons (marked_ne hr)]
    simp only [blen_append] at hn
    exact ⟨by dsimp only; omega, by dsimp only; omega, by dsimp only; omega, ih n _ (by dsimp only; omega)⟩

theorem places_complete {c r : Str} {ws : List Str} (h : Marked c r ws) : ∀ k : Nat, ∀ a v, r = a ++ c ++ v →
    ∃ p ∈ places c k ws, p.1 ≤ k + blen a ∧ k + blen a < p.2 := by
  induction h with
  | last w hw => intro k a v e; exact absurd ⟨a, v, by rw [e]⟩ hw
  | cons w r ws hl hr ih =>
    intro k a v e
    rw [places_cons (marked_ne hr)]
    have hle := hl a v e
    have e' : w ++ (c ++ r) = a ++ (c ++ v) := by simpa using e
    obtain ⟨x, rfl⟩ : ∃ x, a = w ++ x := by
      have := List.append_eq_append_iff.mp e'
      rcases this with ⟨x, h1, _⟩ | ⟨x, h1, _⟩
      · exact ⟨x, h1⟩
      · have : x = [] := by
          have := congrArg List.length h1
          simp at this
          exact List.eq_nil_of_length_eq_zero (by omega)
        subst this
        exact ⟨[], by simpa using h1.symm⟩
    have e2 : c ++ r = x ++ (c ++ v) := by simpa using e'
    by_cases hx : x.length < c.length
    · refine ⟨_, List.mem_cons_self .., ?_, ?_⟩
      · simp only [blen_append]; omega
      · obtain ⟨y, rfl⟩ : ∃ y, c = x ++ y := by
          rcases List.append_eq_append_iff.mp e2 with ⟨y, h1, _⟩ | ⟨y, h1, _⟩
          · exfalso
            have := congrArg List.length h1
            simp at this
            omega
          · exact ⟨y, h1⟩
        have : 0 < blen y := Nat.pos_of_ne_zero (fun h => by
          rw [blen_eq_zero.mp h] at hx
          simp at hx)
        simp only [blen_append]
        omega
    · obtain ⟨y, rfl⟩ : ∃ y, x = c ++ y := by
        rcases List.append_eq_append_iff.mp e2 with ⟨y, h1, _⟩ | ⟨y, h1, _⟩
        · exact ⟨y, h1⟩
        · have : y = [] := by
            have := congrArg List.length h1
            simp at this
            exact List.eq_nil_of_length_eq_zero (by omega)
          subst this
          exact ⟨[], by simpa using h1.symm⟩
      obtain ⟨p, hp, h1, h2⟩ := ih (k + blen w + blen c) y v (by simpa using e2)
      refine ⟨p, List.mem_cons_of_mem _ hp, ?_, ?_⟩ <;> simp only [blen_append] at * <;> omega

theorem places_leftmost {c s : Str} {ws : List Str} (h : Marked c s ws) :
    LeftmostOf (fun _ w _ => w = c) s (places c 0 ws) := by
  refine ⟨?_, places_legal h _ _ (by omega), ?_⟩
  · intro p hp
    obtain ⟨a, v, e1, e2⟩ := places_sound h [] p (by simpa using hp)
    exact ⟨a, c, v, by simpa using e1, e2, rfl⟩
  · intro a w v e hw
    subst hw
    simpa using places_complete h 0 a v e

/-- Every text has its places. -/
theorem marked_exists {c : Str} (hc : c ≠ []) (s : Str) : ∃ ws, Marked c s ws := by
  suffices H : ∀ (n : Nat) (s : Str), s.length ≤ n → ∃ ws, Marked c s ws from H _ s (Nat.le_refl _)
  intro n
  induction n with
  | zero =>
    intro s hs
    obtain rfl : s = [] := List.eq_nil_of_length_eq_zero (by omega)
    refine ⟨[[]], .last _ ?_⟩
    rintro ⟨a, b, e⟩
    simp [hc] at e
  | succ n ih =>
    intro s hs
    by_cases h : c <:+: s
    · have hex : ∃ k, ∃ a b, a.length = k ∧ s = a ++ c ++ b := by
        obtain ⟨a, b, e⟩ := h
        exact ⟨_, a, b, rfl, e.symm⟩
      classical
      obtain ⟨k, ⟨a, b, ha, e⟩, hmin⟩ : ∃ k, (∃ a b, a.length = k ∧ s = a ++ c ++ b) ∧ ∀ j, (∃ a b, a.length = j ∧ s = a ++ c ++ b) → k ≤ j := by
        obtain ⟨k, hk⟩ := hex
        induction k using Nat.strongRecOn with
        | ind k ihk =>
          by_cases hj : ∃ j, j < k ∧ ∃ a b, a.length = j ∧ s = a ++ c ++ b
          · obtain ⟨j, h1, h2⟩ := hj
            exact ihk j h1 h2
          · exact ⟨k, hk, fun j h => Nat.le_of_not_lt (fun hlt => hj ⟨j, hlt, h⟩)⟩
      subst e
      have hlen : 0 < c.length := List.length_pos_iff.mpr hc
      simp only [List.length_append] at hs
      obtain ⟨ws, hw⟩ := ih b (by omega)
      exact ⟨a :: ws, .cons a b ws (fun x y e' => by rw [ha]; exact hmin _ ⟨x, y, rfl, e'⟩) hw⟩
    · exact ⟨[s], .last s h⟩

/-! ### The splits -/

/-- The splits of a text between two occurrences. -/
def Gap (s u w : Str) (l : List Split) : Prop := (w = [] ∧ l = []) ∨ ∃ y, l = [⟨y, none⟩] ∧ w ≠ [] ∧ FPart s u w y

/-- The splits of a text. -/
def Items (s c : Str) (id : Int) : Str → List Str → List Split → Prop
  | _, [], _ => False
  | u, [w], l => Gap s u w l
  | u, w :: v :: ws, l => ∃ g z r, l = g ++ ⟨z, some [addedToken id c]⟩ :: r ∧ Gap s u w g ∧ FPart s (u ++ w) c z ∧
      Items s c id (u ++ w ++ c) (v :: ws) r

/-- The pieces `findMatches` gives. -/
def spansOf (c : Str) (id : Int) : Nat → List Str → List SplitPiece
  | _, [] => []
  | k, [w] => if w = [] then [] else [⟨-1, k, k + blen w⟩]
  | k, w :: v :: ws => (if w = [] then [] else [⟨-1, k, k + blen w⟩]) ++
      ⟨id, k + blen w, k + blen w + blen c⟩ :: spansOf c id (k + blen w + blen c) (v :: ws)

theorem select_places {i : Nat} {c : Str} (ws : List Str) : ∀ k : Nat,
    selectMatches k ((places c k ws).map (fun m => ⟨i, m.1, m.2⟩)) = (places c k ws).map (fun m => ⟨i, m.1, m.2⟩) := by
  induction ws with
  | nil => intro k; rfl
  | cons w ws ih =>
    intro k
    by_cases h : ws = []
    · subst h; rfl
    · rw [places_cons h, List.map_cons, selectMatches, if_neg (by dsimp only; omega), ih]

theorem fill_places {ids : List Int} {i : Nat} {id : Int} (hid : ids[i]? = some id) {c r : Str} {ws : List Str} (h : Marked c r ws) :
    ∀ k n : Nat, n = k + blen r →
      fillGaps ids n k ((places c k ws).map (fun m => ⟨i, m.1, m.2⟩)) = .ok (spansOf c id k ws) := by
  induction h with
  | last w _ =>
    intro k n hn
    subst hn
    simp only [places, List.map_nil, fillGaps, spansOf]
    by_cases hw : w = []
    · subst hw; simp
    · have := Nat.pos_of_ne_zero (fun h => hw (blen_eq_zero.mp h))
      rw [if_pos (by omega), if_neg hw]
  | cons w r ws hl hr ih =>
    intro k n hn
    have hne := marked_ne hr
    rw [places_cons hne, List.map_cons, fillGaps]
    simp only [blen_append] at hn
    rw [ih (k + blen w + blen c) n (by omega)]
    have : idx ids i = .ok id := by simp [idx, hid]
    simp only [this, Res.bind_ok, Res.pure_eq]
    cases ws with
    | nil => exact absurd rfl hne
    | cons v ws =>
      rw [spansOf]
      by_cases hw : w = []
      · subst hw; simp
      · have := Nat.pos_of_ne_zero (fun h => hw (blen_eq_zero.mp h))
        rw [if_pos (by omega), if_neg hw]
        simp

theorem gap_slices {s u m : Str} {x : NStr} (h : FPart s u m x) {a w b : Str} (hm : m = a ++ w ++ b) :
    ∃ qs l, sliceMatches x (if w = [] then [] else [⟨-1, blen a, blen a + blen w⟩]) = .ok qs ∧
      keepPieces qs = .ok l ∧ Gap s (u ++ a) w l := by
  by_cases hw : w = []
  · subst hw
    exact ⟨[], [], rfl, rfl, .inl ⟨rfl, rfl⟩⟩
  · obtain ⟨y, h1, h2⟩ := fpart_slice h hm hw
    have hy : y.normalized ≠ [] := by rw [fpart_text h2]; exact enc_ne hw
    rw [blen_append] at h1
    refine ⟨[⟨some y, none⟩], [⟨y, none⟩], ?_, ?_, .inr ⟨y, rfl, hw, h2⟩⟩
    · rw [if_neg hw]; simp only [sliceMatches, h1, Res.bind_ok, if_true]
    · simp only [keepPieces, Res.bind_ok, if_neg hy]

theorem sliceMatches_append {x : NStr} {ps qs : List SplitPiece} {a b : List SplitIdx} (h1 : sliceMatches x ps = .ok a)
    (h2 : sliceMatches x qs = .ok b) : sliceMatches x (ps ++ qs) = .ok (a ++ b) := by
  induction ps generalizing a with
  | nil => cases h1; exact h2
  | cons p ps ih =>
    simp only [List.cons_append, sliceMatches] at h1 ⊢
    obtain ⟨y, e1, e2⟩ := Res.bind_eq_ok.mp h1
    rw [e1, Res.bind_ok]
    split at e2
    · next hid =>
      rw [if_pos hid]
      obtain ⟨r, e3, e4⟩ := Res.bind_eq_ok.mp e2
      cases e4
      rw [ih e3]; rfl
    · next hid =>
      rw [if_neg hid]
      cases y with
      | none => cases e2
      | some z =>
        obtain ⟨r, e3, e4⟩ := Res.bind_eq_ok.mp e2
        cases e4
        dsimp only
        rw [ih e3]; rfl

theorem keepPieces_append {ps qs : List SplitIdx} {a b : List Split} (h1 : keepPieces ps = .ok a)
    (h2 : keepPieces qs = .ok b) : keepPieces (ps ++ qs) = .ok (a ++ b) := by
  induction ps generalizing a with
  | nil => cases h1; exact h2
  | cons p ps ih =>
    simp only [List.cons_append, keepPieces] at h1 ⊢
    cases hp : p.normalized with
    | none => rw [hp] at h1; cases h1
    | some n =>
      rw [hp] at h1
      dsimp only at h1 ⊢
      obtain ⟨r, e3, e4⟩ := Res.bind_eq_ok.mp h1
      cases e4
      rw [ih e3, Res.bind_ok]
      split <;> rfl

theorem slice_spans {s u m : Str} {x : NStr} (h : FPart s u m x) {c : Str} (hc : c ≠ []) {id : Int} (hid : id ≠ -1) {r : Str}
    {ws : List Str} (hm : Marked c r ws) : ∀ a, m = a ++ r →
      ∃ qs l, sliceMatches x (spansOf c id (blen a) ws) = .ok qs ∧ keepPieces qs = .ok l ∧ Items s c id (u ++ a) ws l := by
  induction hm with
  | last w _ =>
    intro a e
    exact gap_slices h (a := a) (w := w) (b := []) (by rw [e]; simp)
  | cons w r ws hl hr ih =>
    intro a e
    obtain ⟨q1, l1, e1, e2, e3⟩ := gap_slices h (a := a) (w := w) (b := c ++ r) (by rw [e]; simp)
    obtain ⟨q2, l2, f1, f2, f3⟩ := ih (a ++ w ++ c) (by rw [e]; simp)
    obtain ⟨z, g1, g2⟩ := fpart_slice h (a := a ++ w) (w := c) (b := r) (by rw [e]; simp) hc
    have hz : z.normalized ≠ [] := by rw [fpart_text g2]; exact enc_ne hc
    have htok : (⟨id, decStr z.normalized, ((0 : Int), (z.normalized.length : Int))⟩ : Token) = addedToken id c := by
      rw [fpart_text g2, decStr_enc, length_encStr]; rfl
    have hne := marked_ne hr
    cases ws with
    | nil => exact absurd rfl hne
    | cons v ws =>
      rw [spansOf]
      refine ⟨q1 ++ ⟨some z, some [addedToken id c]⟩ :: q2, l1 ++ ⟨z, some [addedToken id c]⟩ :: l2, sliceMatches_append e1 ?_,
        keepPieces_append e2 ?_, l1, z, l2, rfl, e3, ?_, ?_⟩
      · simp only [blen_append] at g1 f1
        simp only [sliceMatches, g1, Res.bind_ok, if_neg hid, f1, htok]
      · simp only [keepPieces, f2, Res.bind_ok, if_neg hz]
      · simpa using g2
      · simpa using f3

/-! ### Normalizing the parts -/

/-- The texts of the splits. -/
def markedTexts (N : Str → Str) (c : Str) (id : Int) : List Str → List (Str × Option (List Token))
  | [] => []
  | [w] => if w = [] ∨ N w = [] then [] else [(N w, none)]
  | w :: v :: ws => (if w = [] ∨ N w = [] then [] else [(N w, none)]) ++
      (c, some [addedToken id c]) :: markedTexts N c id (v :: ws)

theorem splitLoop_append {fn : Nat → NStr → Res (List SplitIdx)} (hfn : ∀ i j n, fn i n = fn j n) {a b : List Split} :
    ∀ (i j : Nat) {a' b' : List Split}, splitLoop fn a i = .ok a' → splitLoop fn b j = .ok b' → splitLoop fn (a ++ b) i = .ok (a' ++ b') := by
  have hshift : ∀ (b : List Split) (i j : Nat), splitLoop fn b i = splitLoop fn b j := by
    intro b
    induction b with
    | nil => intro i j; rfl
    | cons s b ih =>
      intro i j
      simp only [splitLoop, hfn i j, ih (i + 1) (j + 1)]
  induction a with
  | nil =>
    intro i j a' b' h1 h2
    cases h1
    rw [List.nil_append, hshift b i j]; exact h2
  | cons s a ih =>
    intro i j a' b' h1 h2
    simp only [List.cons_append, splitLoop] at h1 ⊢
    cases hs : s.tokens with
    | some k =>
      rw [hs] at h1
      dsimp only at h1 ⊢
      obtain ⟨r, e3, e4⟩ := Res.bind_eq_ok.mp h1
      cases e4
      rw [ih (i + 1) j e3 h2]; rfl
    | none =>
      rw [hs] at h1
      dsimp only at h1 ⊢
      obtain ⟨ps, e1, h1⟩ := Res.bind_eq_ok.mp h1
      obtain ⟨k, e2, h1⟩ := Res.bind_eq_ok.mp h1
      obtain ⟨r, e3, e4⟩ := Res.bind_eq_ok.mp h1
      cases e4
      rw [e1, Res.bind_ok, e2, Res.bind_ok, ih (i + 1) j e3 h2]
      simp

theorem gap_normalized {t : Tk} {s u w v : Str} {l : List Split} (hg : Gap s u w l) (hn : NormalizesPart t w v)
    (h2 : t.splitNormalizedRe.engine (encStr v) = []) (i : Nat) :
    ∃ l', splitLoop (fun _ n => do
        let x ← t.normalizeOrDie n
        splitWithIndices t.splitNormalizedRe x) l i = .ok l' ∧
      l'.map (fun sp => (sp.normalized.normalized, sp.tokens)) =
        (if w = [] ∨ v = [] then [] else [(v, none)]).map (fun t : Str × Option (List Token) => (encStr t.1, t.2)) ∧
      ∀ sp ∈ l', WF sp.normalized := by
  rcases hg with ⟨rfl, rfl⟩ | ⟨x, rfl, hw, hx⟩
  · exact ⟨[], rfl, by simp, by simp⟩
  · obtain ⟨n, e1, e2, e3⟩ : ∃ n, t.normalizeOrDie x = .ok n ∧ WF n ∧ n.normalized = encStr v := by
      rcases hn with ⟨h, rfl⟩ | ⟨f, hf, h⟩ | ⟨h, _⟩
      · exact ⟨x, by simp only [Tk.normalizeOrDie, h], (fpart_partOf hx).2.2, fpart_text hx⟩
      · obtain ⟨n, e1, e2, e3⟩ := h x hx.2.1
        exact ⟨n, by simp only [Tk.normalizeOrDie, hf, e1], e2, e3⟩
      · exact absurd h hw
    by_cases hv : v = []
    · subst hv
      obtain ⟨y, f1, f2⟩ := split_empty (re := t.splitNormalizedRe) (x := n) (by simpa using e3)
      exact ⟨[], by simp [splitLoop, e1, f1, keepPieces, f2], by simp, by simp⟩
    · obtain ⟨y, f1, f2, f3⟩ := split_none_wf h2 hv e3 e2
      have hy : y.normalized ≠ [] := by rw [f3]; exact enc_ne hv
      refine ⟨[⟨y, none⟩], by simp [splitLoop, e1, f1, keepPieces, hy], by simp [hw, hv, f3], ?_⟩
      intro sp hsp
      rw [List.mem_singleton] at hsp
      subst hsp
      exact f2

theorem items_normalized {t : Tk} {s c : Str} {id : Int} {N : Str → Str} (ws : List Str) : ∀ (u : Str) (l : List Split),
    Items s c id u ws l → (∀ w ∈ ws, NormalizesPart t w (N w)) →
    (∀ w ∈ ws, t.splitNormalizedRe.engine (encStr (N w)) = []) → ∀ i : Nat,
    ∃ l', splitLoop (fun _ n => do
        let x ← t.normalizeOrDie n
        splitWithIndices t.splitNormalizedRe x) l i = .ok l' ∧
      l'.map (fun sp => (sp.normalized.normalized, sp.tokens)) = (markedTexts N c id ws).map (fun t => (encStr t.1, t.2)) ∧
      ∀ sp ∈ l', WF sp.normalized := by
  induction ws with
  | nil => intro u l h; cases h
  | cons w ws ih =>
    intro u l h hn h2 i
    cases ws with
    | nil => exact gap_normalized h (hn w (by simp)) (h2 w (by simp)) i
    | cons v ws =>
      obtain ⟨g, z, r, rfl, hg, hz, hr⟩ := h
      obtain ⟨g', a1, a2, a3⟩ := gap_normalized hg (hn w (by simp)) (h2 w (by simp)) i
      obtain ⟨r', b1, b2, b3⟩ := ih _ _ hr (fun x hx => hn x (by simp [hx])) (fun x hx => h2 x (by simp [hx])) 1
      refine ⟨g' ++ ⟨z, some [addedToken id c]⟩ :: r', splitLoop_append (fun _ _ _ => rfl) i 0 a1 ?_, ?_, ?_⟩
      · simp only [splitLoop, Nat.zero_add, b1, Res.bind_ok]
      · rw [List.map_append, a2, List.map_cons, b2, markedTexts, List.map_append, List.map_cons, fpart_text hz]
      · intro sp hsp
        rcases List.mem_append.mp hsp with h | h
        · exact a3 sp h
        · rcases List.mem_cons.mp h with rfl | h
          · exact (fpart_partOf hz).2.2
          · exact b3 sp h

theorem markedTexts_filled (N : Str → Str) (c : Str) (id : Int) (ws : List Str) :
    ∀ t ∈ markedTexts N c id ws, t.2 = none → t.1 ≠ [] := by
  induction ws with
  | nil => intro t ht; cases ht
  | cons w ws ih =>
    have hgap : ∀ t ∈ (if w = [] ∨ N w = [] then [] else [(N w, none)] : List (Str × Option (List Token))), t.2 = none → t.1 ≠ [] := by
      intro t ht _
      split at ht
      · cases ht
      · next h =>
        rw [List.mem_singleton] at ht
        subst ht
        exact fun h' => h (.inr h')
    cases ws with
    | nil => exact hgap
    | cons v ws =>
      intro t ht h
      rw [markedTexts] at ht
      rcases List.mem_append.mp ht with h' | h'
      · exact hgap t h' h
      · rcases List.mem_cons.mp h' with rfl | h'
        · cases h
        · exact ih t h' h

/-- What there is to tokenize. -/
def markedPieces (g : Str → List Str) (N : Str → Str) (c : Str) (id : Int) : List Str → List (Str × Option (List Token))
  | [] => []
  | [w] => (piecesOf g w (N w)).map (fun v => (v, none))
  | w :: v :: ws => (piecesOf g w (N w)).map (fun v => (v, none)) ++
      (c, some [addedToken id c]) :: markedPieces g N c id (v :: ws)

theorem marked_cut (g : Str → List Str) (N : Str → Str) (c : Str) (id : Int) (ws : List Str) :
    (markedTexts N c id ws).flatMap (cutOne g) = markedPieces g N c id ws := by
  have hgap : ∀ w, (if w = [] ∨ N w = [] then [] else [(N w, none)] : List (Str × Option (List Token))).flatMap (cutOne g) =
      (piecesOf g w (N w)).map (fun v => (v, none)) := by
    intro w
    unfold piecesOf
    split <;> simp [cutOne]
  induction ws with
  | nil => rfl
  | cons w ws ih =>
    cases ws with
    | nil => exact hgap w
    | cons v ws =>
      rw [markedTexts, List.flatMap_append, hgap, List.flatMap_cons, ih, markedPieces]
      rfl

/-- The pieces of a text with an added token. -/
theorem marked_ready {t : Tk} {s c : Str} {ws : List Str} (hc : c ≠ []) (hm : Marked c s ws) {i : Nat} {id : Int} (hid : id ≠ -1)
    (h0 : t.splitRe.ids[i]? = some id) (h1 : t.splitRe.engine (encStr s) = (places c 0 ws).map (fun m => ⟨i, m.1, m.2⟩))
    {N : Str → Str} (hn : ∀ w ∈ ws, NormalizesPart t w (N w))
    (h2 : ∀ w ∈ ws, t.splitNormalizedRe.engine (encStr (N w)) = []) {g : Str → List Str} (hg : CutsInto t g) :
    ∃ pt pt', t.extractAndNormalize (encStr s) = .ok pt ∧ t.doPreTokenize pt = .ok pt' ∧
      Holding pt' (markedPieces g N c id ws) := by
  obtain ⟨pt, e1, e2⟩ : ∃ pt, t.extractAndNormalize (encStr s) = .ok pt ∧ Holding pt (markedTexts N c id ws) := by
    by_cases hs : s = []
    · subst hs
      refine ⟨⟨[], []⟩, by rw [encStr_nil]; exact extract_nil t, ?_⟩
      have : markedTexts N c id ws = [] := by
        generalize hs : ([] : Str) = s at hm
        cases hm with
        | last w _ => subst hs; simp [markedTexts]
        | cons w r ws => simp [hc] at hs
      rw [this]
      exact ⟨rfl, by simp, by simp⟩
    · obtain ⟨qs, l, k1, k2, k3⟩ := slice_spans (fpart_whole s) hc hid hm [] rfl
      have hpos := length_pos_of_ne hs
      have hsp : splitWithIndices t.splitRe (newNStr (encStr s)) = .ok qs := by
        simp only [splitWithIndices, fpart_text (fpart_whole s), h1, length_encStr, findMatches]
        rw [if_neg (by omega), select_places, fill_places h0 hm 0 (blen s) (by omega)]
        exact k1
      obtain ⟨l', f1, f2, f3⟩ := items_normalized ws _ _ k3 hn h2 0
      refine ⟨⟨encStr s, l'⟩, ?_, ⟨f2, markedTexts_filled N c id ws, f3⟩⟩
      simp only [Tk.extractAndNormalize, PTS.split, newPTS, splitLoop, hsp, Res.bind_ok, k2, List.append_nil, f1]
  obtain ⟨pt', e3, e4⟩ : ∃ pt', t.doPreTokenize pt = .ok pt' ∧ Holding pt' (markedPieces g N c id ws) := by
    rcases hg with ⟨h, hg⟩ | ⟨p, h, hg⟩
    · refine ⟨pt, by simp only [Tk.doPreTokenize, h], ?_⟩
      rw [← marked_cut]
      have : (markedTexts N c id ws).flatMap (cutOne g) = markedTexts N c id ws := by
        have hone : ∀ t, cutOne g t = [t] := by
          rintro ⟨a, b⟩
          cases b <;> simp [cutOne, hg]
        rw [show cutOne g = fun t => [t] from funext hone]
        exact List.flatMap_singleton' _
      rw [this]; exact e2
    · obtain ⟨pt', k1, _, k2⟩ := hg pt _ e2
      exact ⟨pt', by simp only [Tk.doPreTokenize, h, k1], by rw [← marked_cut]; exact k2⟩
  exact ⟨pt, pt', e1, e3, e4⟩

/-! ### Tokenizing -/

/-- The tokens of a piece. -/
def pieceTokens (tok : Str → List Token) (p : Str × Option (List Token)) : List Token := p.2.getD (tok p.1)

theorem tokenizeLoop_mixed {fn : NStr → Res (Option (List Token))} {tok : Str → List Token} (ps : List (Str × Option (List Token))) :
    ∀ ss : List Split, ss.map (fun sp => (sp.normalized.normalized, sp.tokens)) = ps.map (fun p => (encStr p.1, p.2)) →
      (∀ p ∈ ps, p.2 = none → ∀ n : NStr, n.normalized = encStr p.1 → fn n = .ok (some (tok p.1))) →
      ∃ ss', tokenizeLoop fn ss = .ok ss' ∧ ss'.map (·.tokens) = ps.map (fun p => some (pieceTokens tok p)) ∧
        ss'.map (·.normalized) = ss.map (·.normalized) := by
  induction ps with
  | nil =>
    intro ss h _
    have : ss = [] := by simpa using h
    subst this
    exact ⟨[], rfl, rfl, rfl⟩
  | cons w ps ih =>
    intro ss h hf
    cases ss with
    | nil => cases h
    | cons sp ss =>
      rw [List.map_cons, List.map_cons, List.cons.injEq, Prod.mk.injEq] at h
      obtain ⟨⟨e1, e2⟩, e3⟩ := h
      obtain ⟨ss', k1, k2, k3⟩ := ih ss e3 (fun v hv => hf v (by simp [hv]))
      obtain ⟨w, o⟩ := w
      cases o with
      | some k =>
        refine ⟨sp :: ss', ?_, by simp [k2, e2, pieceTokens], by simp [k3]⟩
        simp only [tokenizeLoop, e2, k1, Res.bind_ok]
      | none =>
        refine ⟨⟨sp.normalized, some (tok w)⟩ :: ss', ?_, by simp [k2, pieceTokens], by simp [k3]⟩
        simp only [tokenizeLoop, e2, hf (w, none) (by simp) rfl _ e1, k1, Res.bind_ok]

theorem allTokens_mixed {α : Type} {tok : α → List Token} {ps : List α} {ss : List Split}
    (h : ss.map (·.tokens) = ps.map (fun w => some (tok w))) : allTokens ss = ps.flatMap tok := by
  induction ps generalizing ss with
  | nil =>
    have : ss = [] := by simpa using h
    subst this
    rfl
  | cons w ps ih =>
    cases ss with
    | nil => cases h
    | cons sp ss =>
      rw [List.map_cons, List.map_cons, List.cons.injEq] at h
      have := ih h.2
      simp only [allTokens] at this
      simp only [allTokens, List.flatMap_cons, h.1, Option.getD_some, this]

theorem mixed_encode {t : Tk} {s : Str} {pt pt' : PTS} {ps : List (Str × Option (List Token))} {tok : Str → List Token}
    (e1 : t.extractAndNormalize (encStr s) = .ok pt) (e3 : t.doPreTokenize pt = .ok pt')
    (e4 : Holding pt' ps) (hm : ∀ p ∈ ps, p.2 = none → ModelGives t tok p.1)
    (hk : ∀ p ∈ ps, ∀ k, p.2 = some k → k ≠ [] ∧ ∀ x ∈ k, 0 ≤ x.offsets.1 ∧ x.offsets.1 ≤ x.offsets.2) (typeId : Int) (ot : OffsetType) :
    ∃ e, t.encodeSingle (.raw (encStr s)) typeId ot = .ok e ∧
      e.ids = (ps.flatMap (pieceTokens tok)).map (·.id) ∧
      e.tokens = (ps.flatMap (pieceTokens tok)).map (·.value) ∧
      ∃ rows, e = ofRows rows typeId := by
  have key : ∃ e, t.encodeOne (encStr s) typeId (-1) ot = .ok e ∧
      e.ids = (ps.flatMap (pieceTokens tok)).map (·.id) ∧
      e.tokens = (ps.flatMap (pieceTokens tok)).map (·.value) := by
    obtain ⟨fn, hfn, hdo⟩ := doTokenize_fn t
    obtain ⟨ss', k1, k2, k3⟩ := tokenizeLoop_mixed (fn := fn) (tok := tok) ps pt'.splits e4.texts
      (by
        intro w hw h n hnw
        obtain ⟨f, hf, h, _⟩ := hm w hw h
        rw [hfn f hf n, hnw, h])
    have hok : ∃ e, PTS.intoEncoding { pt' with splits := ss' } typeId (-1) ot = .ok e := by
      apply C46_ok
      intro sp hsp
      obtain ⟨i, hi, rfl⟩ := List.getElem_of_mem hsp
      have htok := congrArg (fun l => l[i]?) k2
      have hnrm := congrArg (fun l => l[i]?) k3
      simp only [List.getElem?_map, List.getElem?_eq_getElem hi, Option.map_some] at htok hnrm
      obtain ⟨w, hw, hw2⟩ := Option.map_eq_some_iff.mp htok.symm
      obtain ⟨sp, hsp2, hsp3⟩ := Option.map_eq_some_iff.mp hnrm.symm
      have hmem := List.mem_of_getElem? hw
      have hwf := e4.wf sp (List.mem_of_getElem? hsp2)
      rw [← hw2, Option.getD_some, ← hsp3]
      obtain ⟨w, o⟩ := w
      cases o with
      | none =>
        obtain ⟨f, _, _, hne, hoff⟩ := hm _ hmem rfl
        exact ⟨hne, hwf.lenA, hoff⟩
      | some k => exact ⟨(hk _ hmem k rfl).1, hwf.lenA, (hk _ hmem k rfl).2⟩
    obtain ⟨e, he⟩ := hok
    obtain ⟨f1, f2, f3, _⟩ := C46_entries _ _ _ _ _ he
    refine ⟨e, ?_, ?_, ?_⟩
    · simp only [Tk.encodeOne, e1, Res.bind_ok, e3, hdo, PTS.tokenize, k1, he]
    · rw [f1, allTokens_mixed k2]
    · rw [f2, allTokens_mixed k2]
  obtain ⟨e, h3, h4, h5⟩ := key
  obtain ⟨rows, rfl⟩ := encodeOne_ofRows h3
  refine ⟨ofRows rows typeId, ?_, h4, h5, rows, rfl⟩
  simp only [Tk.encodeSingle, h3, Res.bind_ok]
  rw [default_ofRows typeId, show [ofRows rows typeId] = [rows].map (fun r => ofRows r typeId) from rfl, merge_ofRows]
  simp

theorem marked_tokens (g : Str → List Str) (N : Str → Str) (c : Str) (id : Int) (tok : Str → List Token) (ws : List Str) :
    (markedPieces g N c id ws).flatMap (pieceTokens tok) =
      between (addedToken id c) (ws.map (fun w => (piecesOf g w (N w)).flatMap tok)) := by
  have hgap : ∀ w, ((piecesOf g w (N w)).map (fun v => ((v, none) : Str × Option (List Token)))).flatMap (pieceTokens tok) =
      (piecesOf g w (N w)).flatMap tok := by
    intro w
    rw [List.flatMap_map]
    rfl
  induction ws with
  | nil => rfl
  | cons w ws ih =>
    cases ws with
    | nil => exact hgap w
    | cons v ws =>
      rw [markedPieces, List.flatMap_append, hgap, List.flatMap_cons, ih]
      rfl

theorem map_between (f : α → β) (a : α) (xs : List (List α)) : (between a xs).map f = between (f a) (xs.map (List.map f)) := by
  induction xs with
  | nil => rfl
  | cons x xs ih =>
    cases xs with
    | nil => rfl
    | cons y xs =>
      rw [between, List.map_append, List.map_cons, ih]
      rfl

theorem marked_mem {g : Str → List Str} {N : Str → Str} {c : Str} {id : Int} (ws : List Str) :
    ∀ p ∈ markedPieces g N c id ws, (p.2 = none ∧ ∃ w ∈ ws, p.1 ∈ piecesOf g w (N w)) ∨ p = (c, some [addedToken id c]) := by
  induction ws with
  | nil => intro p hp; cases hp
  | cons w ws ih =>
    have hgap : ∀ p ∈ (piecesOf g w (N w)).map (fun v => ((v, none) : Str × Option (List Token))),
        p.2 = none ∧ p.1 ∈ piecesOf g w (N w) := by
      intro p hp
      obtain ⟨v, hv, rfl⟩ := List.mem_map.mp hp
      exact ⟨rfl, hv⟩
    cases ws with
    | nil =>
      intro p hp
      exact .inl ⟨(hgap p hp).1, w, by simp, (hgap p hp).2⟩
    | cons v ws =>
      intro p hp
      rw [markedPieces] at hp
      rcases List.mem_append.mp hp with h | h
      · exact .inl ⟨(hgap p h).1, w, by simp, (hgap p h).2⟩
      · rcases List.mem_cons.mp h with rfl | h
        · exact .inr rfl
        · rcases ih p h with ⟨h1, x, hx, h2⟩ | h1
          · exact .inl ⟨h1, x, List.mem_cons_of_mem _ hx, h2⟩
          · exact .inr h1

/-- The encoding of a text with an added token. -/
theorem marked_encode {t : Tk} {s c : Str} {ws : List Str} (hc : c ≠ []) (hm : Marked c s ws) {i : Nat} {id : Int} (hid : id ≠ -1)
    (h0 : t.splitRe.ids[i]? = some id) (h1 : t.splitRe.engine (encStr s) = (places c 0 ws).map (fun m => ⟨i, m.1, m.2⟩))
    {N : Str → Str} (hn : ∀ w ∈ ws, NormalizesPart t w (N w))
    (h2 : ∀ w ∈ ws, t.splitNormalizedRe.engine (encStr (N w)) = []) {g : Str → List Str} (hg : CutsInto t g)
    {tok : Str → List Token} (htok : ∀ w ∈ ws, ∀ v ∈ piecesOf g w (N w), ModelGives t tok v) (typeId : Int) (ot : OffsetType) :
    ∃ rows, t.encodeSingle (.raw (encStr s)) typeId ot = .ok (ofRows rows typeId) ∧
      (ofRows rows typeId).ids = between id (ws.map (fun w => ((piecesOf g w (N w)).flatMap tok).map (·.id))) ∧
      (ofRows rows typeId).tokens = between c (ws.map (fun w => ((piecesOf g w (N w)).flatMap tok).map (·.value))) := by
  obtain ⟨pt, pt', e1, e2, e3⟩ := marked_ready hc hm hid h0 h1 hn h2 hg
  obtain ⟨e, k1, k2, k3, rows, rfl⟩ := mixed_encode e1 e2 e3 (tok := tok) (by
      intro p hp hnone
      rcases marked_mem ws p hp with ⟨_, w, hw, hv⟩ | rfl
      · exact htok w hw _ hv
      · cases hnone) (by
      intro p hp k hk
      rcases marked_mem ws p hp with ⟨h, _⟩ | rfl
      · rw [hk] at h; cases h
      · cases hk
        refine ⟨by simp, ?_⟩
        intro x hx
        rw [List.mem_singleton] at hx
        subst hx
        simp only [addedToken]
        omega) typeId ot
  refine ⟨rows, k1, ?_, ?_⟩
  · rw [k2, marked_tokens, map_between, List.map_map]; rfl
  · rw [k3, marked_tokens, map_between, List.map_map]; rfl

/-! ### The expressions of the added tokens -/

theorem allMatches_one {res : List Added.Pat} {i : Nat} {re : Added.Pat} (bs : List UInt8) (h1 : res[i]? = some re)
    (h2 : ∀ j q, res[j]? = some q → j ≠ i → q.engine bs = []) :
    allMatches res bs = (re.engine bs).map (fun m => ⟨i, m.1, m.2⟩) := by
  unfold allMatches
  suffices H : ∀ (l : List Added.Pat) (k : Nat), (∀ j q, l[j]? = some q → j + k ≠ i → q.engine bs = []) →
      ((∀ j q, l[j]? = some q → j + k ≠ i) →
        (l.zipIdx k).flatMap (fun r => (r.1.engine bs).map (fun m => (⟨r.2, m.1, m.2⟩ : PatMatch))) = []) ∧
      (∀ j, l[j]? = some re → j + k = i →
        (l.zipIdx k).flatMap (fun r => (r.1.engine bs).map (fun m => (⟨r.2, m.1, m.2⟩ : PatMatch))) =
          (re.engine bs).map (fun m => ⟨i, m.1, m.2⟩)) by
    exact (H res 0 (by simpa using h2)).2 i h1 (by omega)
  intro l
  induction l with
  | nil =>
    intro k _
    refine ⟨fun _ => rfl, ?_⟩
    intro j hj
    simp at hj
  | cons q l ih =>
    intro k hq
    obtain ⟨i1, i2⟩ := ih (k + 1) (fun j x hj hne => hq (j + 1) x (by simpa using hj) (by omega))
    simp only [List.zipIdx_cons, List.flatMap_cons]
    constructor
    · intro hno
      rw [hq 0 q rfl (hno 0 q rfl), i1 (fun j x hj => by
        have := hno (j + 1) x (by simpa using hj)
        omega)]
      rfl
    · intro j hj hk
      cases j with
      | zero =>
        simp only [List.getElem?_cons_zero, Option.some.injEq] at hj
        subst hj
        rw [i1 (fun j x _ => by omega), List.append_nil]
        obtain rfl : k = i := by omega
        rfl
      | succ j =>
        rw [hq 0 q rfl (by omega), i2 j (by simpa using hj) (by omega)]
        rfl

/-- If one of the added tokens, without options, is in the text and no other is, the matches are its places. -/
theorem set_marked (wordChar : Char → Bool) {norm : Option (NStr → Res NStr)} (order : List PatMatch → List PatMatch)
    (ho : ∀ l : List PatMatch, SortedById l → l.Pairwise (fun a b => a.start ≤ b.start) → order l = l)
    {es : List (AddedToken × Int)} {s : Str} {i : Nat} {a : AddedToken} {id : Int} (hi : es[i]? = some (a, id))
    (h1 : a.singleWord = false) (h2 : a.lstrip = false) (h3 : a.rstrip = false) (hc : a.content ≠ [])
    (h : ∀ j e, es[j]? = some e → j ≠ i → Absent norm s e.1) {ws : List Str} (hm : Marked a.content s ws) :
    ∃ re, buildSet wordChar norm order es = .ok re ∧ re.ids[i]? = some id ∧
      re.engine (encStr s) = (places a.content 0 ws).map (fun m => ⟨i, m.1, m.2⟩) := by
  obtain ⟨res, e1, e2, _, e3⟩ := buildPatterns_ok (wordChar := wordChar) (norm := norm) (es := es) (by
    intro e he
    obtain ⟨j, hj⟩ := List.getElem?_of_mem he
    by_cases hji : j = i
    · subst hji
      rw [hi] at hj
      cases hj
      exact ⟨hc, fun hs => by rw [h1] at hs; cases hs⟩
    · obtain ⟨h0, w, hw, _, _, h2⟩ := h j e hj hji
      exact ⟨h0, fun hs => ⟨w, h2 hs, hw⟩⟩)
  obtain ⟨re, f1, f2⟩ := e3 i _ hi
  obtain ⟨re', f3, f4⟩ := C91_plain wordChar norm a h1 h2 h3 hc
  rw [f2] at f3
  cases f3
  have hen : re.engine (encStr s) = places a.content 0 ws := C91_unique _ s hc _ _ (f4 s) (places_leftmost hm)
  have hall := allMatches_one (res := res) (encStr s) f1 (by
    intro j q hj hne
    have hlt : j < es.length := by rw [← e2]; exact (List.getElem?_eq_some_iff.mp hj).1
    obtain ⟨q', g1, g2⟩ := e3 j es[j] (List.getElem?_eq_getElem hlt)
    rw [hj] at g1
    cases g1
    exact pattern_quiet (h j _ (List.getElem?_eq_getElem hlt) hne) g2)
  rw [hen] at hall
  refine ⟨⟨es.map (·.2), fun bs => order (allMatches res bs)⟩, by simp only [buildSet, e1, Res.bind_ok], by simp [hi], ?_⟩
  dsimp only
  rw [hall]
  have hpair : ∀ (l : List (Nat × Nat)) (k n : Nat), LegalMatches n k l → l.Pairwise (fun x y => x.1 ≤ y.1) ∧ ∀ x ∈ l, k ≤ x.1 := by
    intro l
    induction l with
    | nil => intro k n _; simp
    | cons z l ih =>
      intro k n ⟨g1, g2, g3, g4⟩
      obtain ⟨i1, i2⟩ := ih _ _ g4
      refine ⟨List.pairwise_cons.mpr ⟨fun x hx => by have := i2 x hx; omega, i1⟩, ?_⟩
      intro x hx
      rcases List.mem_cons.mp hx with rfl | hx
      · exact g1
      · have := i2 x hx; omega
  apply ho
  · unfold SortedById
    rw [List.pairwise_map]
    exact (hpair _ _ _ (places_legal hm _ _ (Nat.le_refl _))).1.imp (fun _ => Nat.le_refl _)
  · rw [List.pairwise_map]
    exact (hpair _ _ _ (places_legal hm _ _ (Nat.le_refl _))).1

end Tok.Whole
