import Verif.Model.Rle
import Verif.Proof.Util
import Verif.Props.C38

/-!
# C40: `Sliceable::update_with_split` partitions the element

`content` interprets an element as a list of `rle_len` units; the only assumption on the element type is
that `split` cuts this list and that `f` does not panic on the middle part.
-/

namespace GB

/-- For a non-empty range `a..b` inside the element, `f` is applied to an element `mid` whose content
is exactly the units `a..b`, exactly once, and the parts returned (with `self` first) concatenate to
`before ++ f(mid) ++ after`. -/
theorem C40_update_with_split {E α : Type} (content : E → List α) (ok : E → Prop) (rleLen : E → Nat)
    (split : E → Nat → M (E × E)) (hlen : ∀ e, ok e → rleLen e = (content e).length)
    (hsplit : ∀ e i, ok e → i ≤ (content e).length → ∃ l r, split e i = .ok (l, r) ∧ ok l ∧ ok r ∧
      content l = (content e).take i ∧ content r = (content e).drop i)
    (e : E) (he : ok e) (a b : Nat) (hab : a < b) (hb : b ≤ (content e).length)
    (f : E → M E) (hf : ∀ m, ok m → content m = ((content e).take b).drop a → ∃ m', f m = .ok m') :
    ∃ mid mid' self' p q, updateWithSplit rleLen split e a b f = .ok (self', p, q) ∧ ok mid ∧
      content mid = ((content e).take b).drop a ∧ f mid = .ok mid' ∧
      (self' :: (p.toList ++ q.toList)).flatMap content =
        (content e).take a ++ content mid' ++ (content e).drop b := by
  unfold updateWithSplit
  rw [if_neg (by omega)]
  have hl := hlen e he
  rcases Nat.eq_zero_or_pos a with ha | ha <;> rcases Nat.lt_or_eq_of_le hb with hb' | hb'
  · subst ha
    rw [decide_eq_true rfl, decide_eq_false (by omega)]
    obtain ⟨l, r, e1, o1, o2, c1, c2⟩ := hsplit e b he hb
    obtain ⟨m', em⟩ := hf l o1 (by simpa using c1)
    refine ⟨l, m', m', some r, none, ?_, o1, by simpa using c1, em, ?_⟩
    · simp only [e1, bind_ok, em, pure_ok]
    · simp [c2]
  · subst ha
    rw [decide_eq_true rfl, decide_eq_true (by omega)]
    have hc : content e = ((content e).take b).drop 0 := by rw [hb']; simp
    obtain ⟨m', em⟩ := hf e he hc
    refine ⟨e, m', m', none, none, ?_, he, hc, em, ?_⟩
    · simp only [bind_ok, em, pure_ok]
    · simp [hb']
  · rw [decide_eq_false (by omega), decide_eq_false (by omega)]
    obtain ⟨l, r, e1, o1, o2, c1, c2⟩ := hsplit e b he hb
    obtain ⟨l2, m, e2, o3, o4, c3, c4⟩ := hsplit l a o1 (by rw [c1]; simp; omega)
    obtain ⟨m', em⟩ := hf m o4 (by rw [c4, c1])
    refine ⟨m, m', l2, some m', some r, ?_, o4, by rw [c4, c1], em, ?_⟩
    · simp only [bind_ok, e1, e2, em, pure_ok]
    · simp [c2, c3, c1, List.take_take, Nat.min_eq_left (Nat.le_of_lt hab)]
  · rw [decide_eq_false (by omega), decide_eq_true (by omega)]
    obtain ⟨l, r, e1, o1, o2, c1, c2⟩ := hsplit e a he (by omega)
    have hc : content r = ((content e).take b).drop a := by rw [c2, hb']; simp
    obtain ⟨m', em⟩ := hf r o2 hc
    refine ⟨r, m', l, some m', none, ?_, o2, hc, em, ?_⟩
    · simp only [bind_ok, e1, em, pure_ok]
    · simp [c1, hb']

/-- An empty range leaves the element alone and does not call `f`. -/
theorem C40_empty_range {E : Type} (rleLen : E → Nat) (split : E → Nat → M (E × E)) (e : E) (a b : Nat)
    (h : b ≤ a) (f : E → M E) : updateWithSplit rleLen split e a b f = .ok (e, none, none) := by
  simp [updateWithSplit, h]

/-- The provided `split` (via `slice`) satisfies the splitting hypothesis whenever `slice` is the
sub-list operation. -/
theorem C40_default_split {E α : Type} (content : E → List α) (ok : E → Prop) (rleLen : E → Nat)
    (slice : E → Nat → Nat → M E) (hlen : ∀ e, ok e → rleLen e = (content e).length)
    (hslice : ∀ e a b, ok e → a ≤ b → b ≤ (content e).length → ∃ e', slice e a b = .ok e' ∧ ok e' ∧
      content e' = ((content e).take b).drop a)
    (e : E) (i : Nat) (he : ok e) (hi : i ≤ (content e).length) :
    ∃ l r, defaultSplit rleLen slice e i = .ok (l, r) ∧ ok l ∧ ok r ∧
      content l = (content e).take i ∧ content r = (content e).drop i := by
  obtain ⟨r, e1, o1, c1⟩ := hslice e i (rleLen e) he (by rw [hlen e he]; exact hi) (by rw [hlen e he]; exact Nat.le_refl _)
  obtain ⟨l, e2, o2, c2⟩ := hslice e 0 i he (Nat.zero_le _) hi
  refine ⟨l, r, ?_, o2, o1, by simpa using c2, ?_⟩
  · simp only [defaultSplit, e1, e2, bind_ok, pure_ok]
  · rw [c1, hlen e he]; simp

/-- Non-vacuity: the gap buffer satisfies the hypotheses, all four shapes of the range occur. -/
example : (∀ e : GapBuf, e.WF → e.len = e.toVec.length) ∧
    (∀ (e : GapBuf) i, e.WF → i ≤ e.toVec.length → ∃ l r, e.split i = .ok (l, r) ∧ l.WF ∧ r.WF ∧
      l.toVec = e.toVec.take i ∧ r.toVec = e.toVec.drop i) ∧
    (updateWithSplit GapBuf.len GapBuf.split gapSample 1 2 (fun e => e.delete 0 1)).map
      (fun r => (r.1.toVec, r.2.1.map GapBuf.toVec, r.2.2.map GapBuf.toVec)) =
      .ok ([1], some [], some [3]) := by
  refine ⟨fun e h => (GapBuf.toVec_length e h).symm, fun e i h hi => ?_, rfl⟩
  obtain ⟨l, r, h1, h2, h3, -, -, h4, h5⟩ := C38_split e h i hi
  exact ⟨l, r, h1, h2, h3, h4, h5⟩

private theorem gap_split_law (e : GapBuf) (i : Nat) (h : e.WF) (hi : i ≤ e.toVec.length) : ∃ l r, e.split i = .ok (l, r) ∧ l.WF ∧ r.WF ∧
    l.toVec = e.toVec.take i ∧ r.toVec = e.toVec.drop i := by
  obtain ⟨l, r, h1, h2, h3, -, -, h4, h5⟩ := C38_split e h i hi
  exact ⟨l, r, h1, h2, h3, h4, h5⟩

example := C40_update_with_split GapBuf.toVec GapBuf.WF GapBuf.len GapBuf.split (fun e h => (GapBuf.toVec_length e h).symm) gap_split_law
  gapSample (by simp [GapBuf.WF, gapSample]) 1 2 (by decide) (by decide) (fun e => e.delete 0 1) (fun m hm _ => let ⟨g, h, _⟩ := C38_delete m hm 0 1; ⟨g, h⟩)

example := C40_empty_range GapBuf.len GapBuf.split gapSample 2 2 (by decide) (fun _ => .error .panic)

example := C40_default_split GapBuf.toVec GapBuf.WF GapBuf.len GapBuf.slice (fun e h => (GapBuf.toVec_length e h).symm)
  (fun e a b h hab hb => let ⟨g, h1, h2, _, h3⟩ := C38_slice e h a b hab hb; ⟨g, h1, h2, h3⟩) gapSample 2 (by simp [GapBuf.WF, gapSample]) (by decide)

end GB
