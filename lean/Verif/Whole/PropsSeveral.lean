import Verif.Whole.Several
import Verif.Whole.PropsMarked

/-!
# C137: several added tokens in one text
-/

namespace Tok.Whole

open Tok.PreTok Tok.Added Tok.Config Tok.Regex
open Tok.Norm (NStr WF)

/-! ### C137 -/

/-- C137: every added token in a text becomes one entry with its id and its content, and the texts between them are encoded
as they are alone. Partial: tokens without options that are searched for in the text as it is and that occur in the order in
which they are registered. -/
theorem C137_in_order_partial (t : Tk) (wordChar : Char → Bool) (order : List PatMatch → List PatMatch) (ho : Permutes order)
    (ho' : ∀ l : List PatMatch, SortedById l → l.Pairwise (fun a b => a.start ≤ b.start) → order l = l)
    (es : List (AddedToken × Int)) (hset : buildSet wordChar t.normalizer order es = .ok t.splitRe)
    (hes : ∀ e ∈ es, 0 ≤ e.2) (w : Str) (rs : List Mark) (hin : InOrder es w rs)
    (N : Str → Str) (hn : ∀ v ∈ w :: rs.map (·.2), NormalizesPart t v (N v))
    (hN : ∀ v ∈ w :: rs.map (·.2), t.splitNormalizedRe.engine (encStr (N v)) = []) (g : Str → List Str) (hg : CutsInto t g)
    (tok : Str → List Token) (htok : ∀ v ∈ w :: rs.map (·.2), ∀ y ∈ piecesOf g v (N v), ModelGives t tok y)
    (typeId : Int) (ot : OffsetType) :
    ∃ (e : Encoding) (f : Str → Encoding), t.encodeSingle (.raw (encStr (spelled w rs))) typeId ot = .ok e ∧
      (∀ v ∈ w :: rs.map (·.2), t.encodeSingle (.raw (encStr v)) typeId ot = .ok (f v)) ∧
      e.ids = (f w).ids ++ rs.flatMap (fun r => r.1.2 :: (f r.2).ids) ∧
      e.tokens = (f w).tokens ++ rs.flatMap (fun r => r.1.1 :: (f r.2).tokens) := by
  have hc : ∀ r ∈ rs, r.1.1 ≠ [] ∧ r.1.2 ≠ -1 := by
    intro r hr
    obtain ⟨n, hn⟩ := hin.order
    have : r.1 ∈ rs.map (·.1) := List.mem_map.mpr ⟨r, hr, rfl⟩
    rw [hn] at this
    obtain ⟨x, hx, hq⟩ := List.mem_flatMap.mp this
    rw [(List.mem_replicate.mp hq).2]
    have := hes x hx
    exact ⟨(hin.plain x hx).1, by dsimp only; omega⟩
  obtain ⟨re, k1, k2⟩ := set_several wordChar (norm := t.normalizer) order ho' hin
  rw [hset] at k1
  cases k1
  obtain ⟨rows, e1, e2, e3⟩ := several_encode hc (select_hits rs 0 w _ k2) k2 hn hN hg htok typeId ot
  have alone : ∀ v ∈ w :: rs.map (·.2), ∃ e, t.encodeSingle (.raw (encStr v)) typeId ot = .ok e ∧
      e.ids = ((piecesOf g v (N v)).flatMap tok).map (·.id) ∧ e.tokens = ((piecesOf g v (N v)).flatMap tok).map (·.value) := by
    intro v hv
    obtain ⟨re, q1, q2⟩ := set_quiet wordChar (norm := t.normalizer) order ho (es := es) (s := v) (by
      intro x hx
      obtain ⟨h1, h2, _⟩ := hin.plain x hx
      exact ⟨h1, _, h1, inOrder_free hin (fun r hr => (hc r hr).1) v hv x hx, fun _ => rfl,
        fun h => absurd (h2.symm.trans h) (by simp)⟩)
    rw [hset] at q1
    cases q1
    obtain ⟨e, g1, g2, g3, _⟩ := C100_pieces t v (N v) g tok (hn v hv).normalizes q2 (hN v hv) hg (htok v hv) typeId ot
    exact ⟨e, g1, g2, g3⟩
  classical
  have hw : w ∈ w :: rs.map (·.2) := by simp
  have hr : ∀ r ∈ rs, r.2 ∈ w :: rs.map (·.2) := fun r hr => List.mem_cons_of_mem _ (List.mem_map.mpr ⟨r, hr, rfl⟩)
  refine ⟨_, fun v => if h : v ∈ w :: rs.map (·.2) then (alone v h).choose else ofRows [] 0, e1, ?_, ?_, ?_⟩
  · intro v hv
    simp only [hv, dif_pos]
    exact (alone v hv).choose_spec.1
  · rw [e2]
    simp only [hw, dif_pos, (alone w hw).choose_spec.2.1]
    refine congrArg (_ ++ ·) ?_
    rw [List.flatMap_def, List.flatMap_def]
    congr 1
    apply List.map_congr_left
    intro r h
    simp only [hr r h, dif_pos, (alone r.2 (hr r h)).choose_spec.2.1]
  · rw [e3]
    simp only [hw, dif_pos, (alone w hw).choose_spec.2.2]
    refine congrArg (_ ++ ·) ?_
    rw [List.flatMap_def, List.flatMap_def]
    congr 1
    apply List.map_congr_left
    intro r h
    simp only [hr r h, dif_pos, (alone r.2 (hr r h)).choose_spec.2.2]

/-- C137 is violated for any two tokens in the other order: if the added token `a` is in the text, no token registered before
it is, and no token registered after it comes after it in the text, then the tokens registered after it are not found at all:
the text before `a` is cut up as if nothing in it were an added token, and the encoding is that of a tokenizer without them. -/
theorem C137_order_violated (t : Tk) (wordChar : Char → Bool) (order : List PatMatch → List PatMatch) (hp : Permutes order)
    (ho : ∀ l, SortedById (order l))
    (before after : List (AddedToken × Int)) (a : AddedToken) (id : Int)
    (hset : buildSet wordChar t.normalizer order (before ++ (a, id) :: after) = .ok t.splitRe) (hid : 0 ≤ id)
    (h1 : a.singleWord = false) (h2 : a.lstrip = false) (h3 : a.rstrip = false) (hc : a.content ≠ [])
    (s x y : Str) (hm : Marked a.content s [x, y]) (hb : ∀ e ∈ before, Absent t.normalizer s e.1)
    (ha : ∀ e ∈ after, e.1.content ≠ [] ∧ e.1.singleWord = false ∧ e.1.lstrip = false ∧ e.1.rstrip = false ∧
      ∀ p q, s = p ++ e.1.content ++ q → p.length < x.length + a.content.length)
    (N : Str → Str) (hn : ∀ w ∈ [x, y], NormalizesPart t w (N w))
    (hN : ∀ w ∈ [x, y], t.splitNormalizedRe.engine (encStr (N w)) = []) (g : Str → List Str) (hg : CutsInto t g)
    (tok : Str → List Token) (htok : ∀ w ∈ [x, y], ∀ v ∈ piecesOf g w (N w), ModelGives t tok v) (typeId : Int) (ot : OffsetType) :
    ∃ (e e' : Encoding) (fewer : MatchingSet), t.encodeSingle (.raw (encStr s)) typeId ot = .ok e ∧
      e.ids = ((piecesOf g x (N x)).flatMap tok).map (·.id) ++ id :: ((piecesOf g y (N y)).flatMap tok).map (·.id) ∧
      e.tokens = ((piecesOf g x (N x)).flatMap tok).map (·.value) ++ a.content :: ((piecesOf g y (N y)).flatMap tok).map (·.value) ∧
      buildSet wordChar t.normalizer order (before ++ [(a, id)]) = .ok fewer ∧
      { t with splitRe := fewer }.encodeSingle (.raw (encStr s)) typeId ot = .ok e' ∧ e'.ids = e.ids ∧ e'.tokens = e.tokens := by
  have hs : s = spelled x [((a.content, id), y)] := by
    cases hm with
    | cons _ r _ _ h =>
      cases h with
      | last w _ => simp [spelled]
      | cons _ _ _ _ h' => exact absurd rfl (marked_ne h')
  have hits : ∀ ids : List Int, ids[before.length]? = some id →
      Hits ids 0 x [((a.content, id), y)] [⟨before.length, blen x, blen x + blen a.content⟩] := by
    intro ids h
    exact ⟨before.length, [], by simp, h, rfl⟩
  have main : ∀ (af : List (AddedToken × Int)) (re : MatchingSet), (∀ e ∈ af, e ∈ after) →
      buildSet wordChar t.normalizer order (before ++ (a, id) :: af) = .ok re →
      ∃ rows, { t with splitRe := re }.encodeSingle (.raw (encStr s)) typeId ot = .ok (ofRows rows typeId) ∧
      (ofRows rows typeId).ids = ((piecesOf g x (N x)).flatMap tok).map (·.id) ++ id :: ((piecesOf g y (N y)).flatMap tok).map (·.id) ∧
      (ofRows rows typeId).tokens = ((piecesOf g x (N x)).flatMap tok).map (·.value) ++
        a.content :: ((piecesOf g y (N y)).flatMap tok).map (·.value) := by
    intro af re hsub hre
    obtain ⟨re', k1, k2, k3⟩ := set_first wordChar (norm := t.normalizer) order hp ho (before := before) (after := af) (id := id)
      h1 h2 h3 hc hm hb (fun e he => ha e (hsub e he))
    rw [hre] at k1
    cases k1
    obtain ⟨rows, e1, e2, e3⟩ := several_encode (t := { t with splitRe := re }) (w := x) (rs := [((a.content, id), y)])
      (by intro r hr; rw [List.mem_singleton] at hr; subst hr; exact ⟨hc, by dsimp only; omega⟩) (by rw [← hs]; exact k3)
      (hits _ (by rw [k2]; simp)) (N := N) hn hN (g := g) hg (tok := tok) htok typeId ot
    rw [← hs] at e1
    exact ⟨rows, e1, by rw [e2]; simp, by rw [e3]; simp⟩
  obtain ⟨fewer, k1, _⟩ := set_first wordChar (norm := t.normalizer) order hp ho (before := before) (after := []) (id := id)
    h1 h2 h3 hc hm hb (by simp)
  obtain ⟨rows, e1, e2, e3⟩ := main after t.splitRe (fun _ h => h) hset
  obtain ⟨rows', f1, f2, f3⟩ := main [] fewer (by simp) k1
  exact ⟨_, _, fewer, e1, e2, e3, k1, f1, by rw [f2, e2], by rw [f3, e3]⟩

end Tok.Whole
