import Verif.Model.Ord
import Verif.Model.RangeMap
import Verif.Spec.Bounds
import Verif.Props.C35
import Verif.Props.C40
import Verif.Proof.SampleTwo

/-!
# C53: ranges given by bounds

`slice`, `slice_`, `split`, `update_with_split`, `GapBuffer::delete` and `Rope::delete_range` take any kind of range.  Each means the
positions between the bounds (`within`).
-/

namespace GB

theorem pickFrom_congr {α : Type} {p q : Nat → Bool} : ∀ (l : List α) (k : Nat), (∀ i, k ≤ i → i < k + l.length → p i = q i) → pickFrom p k l = pickFrom q k l
  | [], _, _ => rfl
  | a :: l, k, h => by
    rw [pickFrom, pickFrom, h k (Nat.le_refl k) (by simp), pickFrom_congr l (k + 1) fun i h1 h2 => h i (by omega) (by simp at h2 ⊢; omega)]

theorem pickFrom_range {α : Type} (a b : Nat) : ∀ (l : List α) (k : Nat), pickFrom (fun i => decide (a ≤ i) && decide (i < b)) k l = (l.take (b - k)).drop (a - k)
  | [], _ => by simp [pickFrom]
  | x :: l, k => by
    rw [pickFrom, pickFrom_range a b l (k + 1)]
    by_cases h1 : a ≤ k <;> by_cases h2 : k < b
    · rw [if_pos (by simp [h1, h2]), show a - k = 0 by omega, show a - (k + 1) = 0 by omega, show b - k = b - (k + 1) + 1 by omega]
      simp
    · rw [if_neg (by simp [h2]), show b - k = 0 by omega, show b - (k + 1) = 0 by omega]
      simp
    · rw [if_neg (by simp [h1]), show a - k = a - (k + 1) + 1 by omega, show b - k = b - (k + 1) + 1 by omega]
      simp
    · rw [if_neg (by simp [h1]), show b - k = 0 by omega, show b - (k + 1) = 0 by omega]
      simp

theorem pickFrom_not {α : Type} (a b : Nat) : ∀ (l : List α) (k : Nat), pickFrom (fun i => !(decide (a ≤ i) && decide (i < b))) k l =
    l.take (min a b - k) ++ l.drop (b - k)
  | [], _ => by simp [pickFrom]
  | x :: l, k => by
    rw [pickFrom, pickFrom_not a b l (k + 1)]
    by_cases h1 : a ≤ k <;> by_cases h2 : k < b
    · rw [if_neg (by simp [h1, h2]), show min a b - k = 0 by omega, show min a b - (k + 1) = 0 by omega, show b - k = b - (k + 1) + 1 by omega]
      simp
    · rw [if_pos (by simp [h2]), show b - k = 0 by omega, show b - (k + 1) = 0 by omega, show min a b - k = 0 by omega, show min a b - (k + 1) = 0 by omega]
      simp
    · rw [if_pos (by simp [h1]), show min a b - k = min a b - (k + 1) + 1 by omega, show b - k = b - (k + 1) + 1 by omega]
      simp
    · rw [if_pos (by simp [h1]), show b - k = 0 by omega, show b - (k + 1) = 0 by omega]
      cases hc : min a b - k with
      | zero => rw [show min a b - (k + 1) = 0 by omega]; simp
      | succ n => omega

/-- The bounds resolve to the positions between them. -/
theorem within_resolve (lo hi : PBound) {len i : Nat} (h : i < len) : within lo hi i = (decide (lo.start ≤ i) && decide (i < hi.stop len)) := by
  rw [Bool.eq_iff_iff, Bool.and_eq_true, decide_eq_true_eq, decide_eq_true_eq]
  cases lo <;> cases hi <;> simp [within, PBound.start, PBound.stop] <;> omega

theorem pick_within {α : Type} (lo hi : PBound) (l : List α) : pick (within lo hi) l = (l.take (hi.stop l.length)).drop lo.start := by
  rw [pick, pickFrom_congr (q := fun i => decide (lo.start ≤ i) && decide (i < hi.stop l.length)) l 0
    fun i _ h => within_resolve lo hi (by omega), pickFrom_range]
  rfl

theorem pick_not_within {α : Type} (lo hi : PBound) (l : List α) :
    pick (fun i => !within lo hi i) l = l.take (min lo.start (hi.stop l.length)) ++ l.drop (hi.stop l.length) := by
  rw [pick, pickFrom_congr (q := fun i => !(decide (lo.start ≤ i) && decide (i < hi.stop l.length))) l 0
    fun i _ h => by rw [within_resolve lo hi (show i < l.length by omega)], pickFrom_not]
  rfl

/-- `slice(range)` of any element type whose `_slice` cuts its content: the units between the bounds, if they are not inverted and
lie inside. -/
theorem C53_slice {E α : Type} (content : E → List α) (ok : E → Prop) (rleLen : E → Nat) (slice : E → Nat → Nat → M E)
    (hlen : ∀ e, ok e → rleLen e = (content e).length)
    (hslice : ∀ e a b, ok e → a ≤ b → b ≤ (content e).length → ∃ e', slice e a b = .ok e' ∧ ok e' ∧ content e' = ((content e).take b).drop a)
    (e : E) (he : ok e) (lo hi : PBound) (h1 : lo.start ≤ hi.stop (content e).length) (h2 : hi.stop (content e).length ≤ (content e).length) :
    ∃ e', sliceB rleLen slice e lo hi = .ok e' ∧ ok e' ∧ content e' = pick (within lo hi) (content e) := by
  rw [sliceB, hlen e he, pick_within]
  exact hslice e _ _ he h1 h2

/-- The provided `split(pos)` leaves the units before `pos` and returns the others. -/
theorem C53_split {E α : Type} (content : E → List α) (ok : E → Prop) (rleLen : E → Nat) (slice : E → Nat → Nat → M E)
    (hlen : ∀ e, ok e → rleLen e = (content e).length)
    (hslice : ∀ e a b, ok e → a ≤ b → b ≤ (content e).length → ∃ e', slice e a b = .ok e' ∧ ok e' ∧ content e' = ((content e).take b).drop a)
    (e : E) (he : ok e) (pos : Nat) (hp : pos ≤ (content e).length) :
    ∃ l r, defaultSplitB rleLen slice e pos = .ok (l, r) ∧ ok l ∧ ok r ∧ content l = pick (fun i => decide (i < pos)) (content e) ∧
      content r = pick (fun i => decide (pos ≤ i)) (content e) := by
  obtain ⟨l, r, h1, h2, h3, h4, h5⟩ := C40_default_split content ok rleLen slice hlen hslice e pos he hp
  refine ⟨l, r, h1, h2, h3, ?_, ?_⟩
  · have := pick_within .unbounded (.excluded pos) (content e)
    rw [show within .unbounded (.excluded pos) = fun i => decide (i < pos) from rfl] at this
    rw [h4, this]
    rfl
  · have := pick_within (.included pos) .unbounded (content e)
    rw [show within (.included pos) .unbounded = fun i => decide (pos ≤ i) from funext fun i => by simp [within]] at this
    rw [h5, this]
    simp [PBound.start, PBound.stop]

/-- `update_with_split(range, f)`: the closure gets the units between the bounds; the parts concatenate to the rest around its result. -/
theorem C53_update_with_split {E α : Type} (content : E → List α) (ok : E → Prop) (rleLen : E → Nat)
    (split : E → Nat → M (E × E)) (hlen : ∀ e, ok e → rleLen e = (content e).length)
    (hsplit : ∀ e i, ok e → i ≤ (content e).length → ∃ l r, split e i = .ok (l, r) ∧ ok l ∧ ok r ∧
      content l = (content e).take i ∧ content r = (content e).drop i)
    (e : E) (he : ok e) (lo hi : PBound) (hb : hi.stop (content e).length ≤ (content e).length)
    (hne : pick (within lo hi) (content e) ≠ [])
    (f : E → M E) (hf : ∀ m, ok m → content m = pick (within lo hi) (content e) → ∃ m', f m = .ok m') :
    ∃ mid mid' self' p q, updateWithSplitB rleLen split e lo hi f = .ok (self', p, q) ∧ ok mid ∧ content mid = pick (within lo hi) (content e) ∧
      f mid = .ok mid' ∧ (self' :: (p.toList ++ q.toList)).flatMap content =
        (content e).take lo.start ++ content mid' ++ (content e).drop (hi.stop (content e).length) := by
  rw [pick_within] at hne hf ⊢
  rw [updateWithSplitB, hlen e he]
  refine C40_update_with_split content ok rleLen split hlen hsplit e he _ _ ?_ hb f hf
  apply Decidable.byContradiction
  intro h
  exact hne (List.drop_eq_nil_of_le (by simp; omega))

/-- `GapBuffer::delete(range)` keeps the bytes that are not between the bounds.  No range panics. -/
theorem C53_gap_delete (g : GapBuf) (h : g.WF) (lo hi : PBound) : ∃ g', g.deleteB lo hi = .ok g' ∧ g'.WF ∧ g'.capacity = g.capacity ∧
    g'.toVec = pick (fun i => !within lo hi i) g.toVec := by
  rw [pick_not_within, GapBuf.toVec_length g h]
  exact C38_delete g h _ _

/-- `GapBuffer::slice_(range)` keeps the bytes between the bounds. -/
theorem C53_gap_slice (g : GapBuf) (h : g.WF) (lo hi : PBound) (hab : lo.start ≤ hi.stop g.toVec.length) (hb : hi.stop g.toVec.length ≤ g.toVec.length) :
    ∃ g', g.sliceMutB lo hi = .ok g' ∧ g'.WF ∧ g'.capacity = g.capacity ∧ g'.toVec = pick (within lo hi) g.toVec := by
  rw [pick_within]
  have := GapBuf.toVec_length g h
  rw [GapBuf.sliceMutB, ← this]
  exact C38_slice_in_place g h _ _ hab hb

/-- `Rope::delete_range(range)` keeps the bytes that are not between the bounds, in any reachable rope of at most 8 levels (of any height, if it does not panic). -/
theorem C53_rope_delete {cap h : Nat} {m : Fill} (hm : 1 ≤ m.lo ∧ m.lo + m.d ≤ 5) {r : Rope} (ri : RopeInv cap m r) (hi : InvH (ropeLaw cap) m h r.tree)
    (lo hb : PBound) (hh : h ≤ 8 ∨ r.deleteRangeB lo hb ≠ .error .panic) : ∃ r', r.deleteRangeB lo hb = .ok r' ∧ r'.text = pick (fun i => !within lo hb i) r.text := by
  obtain ⟨r', h1, -, h3⟩ := C35_delete hm ri hi lo.start (hb.stop r.len) hh
  refine ⟨r', h1, ?_⟩
  rw [h3, pick_not_within, ri.len hm.1]
  generalize hb.stop r.text.length = b
  rcases Nat.le_total lo.start b with hab | hab
  · rw [Nat.min_eq_left hab, Nat.max_eq_right hab]
  · rw [Nat.min_eq_right hab, Nat.max_eq_left hab, List.take_append_drop, List.take_append_drop]

/-- `Unmergeable` can be sliced only by ranges of length one, wherever they lie. -/
theorem C53_unmergeable {T : Type} (rleLen : T → Nat) (x : T) (lo hi : PBound) (h : rleLen x = 1) :
    (sliceB rleLen unmergeableSlice x lo hi = .ok x ∧ hi.stop 1 = lo.start + 1) ∨
    (sliceB rleLen unmergeableSlice x lo hi = .error .panic ∧ hi.stop 1 ≠ lo.start + 1) := by
  rw [sliceB, unmergeableSlice, h]
  split
  · next h => exact .inl ⟨rfl, h⟩
  · next h => exact .inr ⟨rfl, h⟩

/-- So its `split` always panics. -/
theorem C53_unmergeable_split {K V : Type} (x : K × V) (pos : Nat) :
    defaultSplitB (ordTrait K V).rleLen unmergeableSlice x pos = .error .panic ∧ (ordTrait K V).split x pos = .error .panic := by
  refine ⟨?_, rfl⟩
  have h1 : sliceB (ordTrait K V).rleLen unmergeableSlice x (.included pos) .unbounded = if 1 = pos + 1 then .ok x else .error .panic := rfl
  have h2 : sliceB (ordTrait K V).rleLen unmergeableSlice x .unbounded (.excluded pos) = if pos = 0 + 1 then .ok x else .error .panic := rfl
  rw [defaultSplitB, h1, h2]
  by_cases h : pos = 0
  · subst h; rfl
  · rw [if_neg (by omega)]; rfl

/-- `_slice` of the gap buffer and of the elements of the range map cut the content; `2..=3`, `..2` and `1..` -/
example : (∀ (e : GapBuf) a b, e.WF → a ≤ b → b ≤ e.toVec.length → ∃ e', e.slice a b = .ok e' ∧ e'.WF ∧ e'.toVec = (e.toVec.take b).drop a) ∧
    (∀ (e : RElem) a b, True → a ≤ b → b ≤ (List.replicate e.len e.value).length → ∃ e', e.slice a b = .ok e' ∧ True ∧
      List.replicate e'.len e'.value = ((List.replicate e.len e.value).take b).drop a) ∧
    (sliceB GapBuf.len GapBuf.slice gapSample (.excluded 0) (.included 1)).map GapBuf.toVec = .ok [2] ∧
    (gapSample.deleteB .unbounded (.excluded 2)).map GapBuf.toVec = .ok [3] ∧
    (gapSample.sliceMutB (.included 1) .unbounded).map GapBuf.toVec = .ok [2, 3] := by
  refine ⟨fun e a b h1 h2 h3 => ?_, fun e a b _ h1 h2 => ⟨_, rfl, trivial, ?_⟩, rfl, rfl, rfl⟩
  · obtain ⟨g, e1, e2, -, e3⟩ := C38_slice e h1 a b h2 h3
    exact ⟨g, e1, e2, e3⟩
  · simp only [List.length_replicate] at h2
    simp [List.take_replicate, List.drop_replicate, Nat.min_eq_left h2]

/-- `5..7` of a key and its value, which has length one -/
example : sliceB (fun _ => 1) unmergeableSlice (8, 9) (.included 5) (.excluded 7) = .error .panic ∧
    sliceB (fun _ => 1) unmergeableSlice (8, 9) (.included 5) (.excluded 6) = .ok (8, 9) :=
  ⟨((C53_unmergeable (fun _ => 1) (8, 9) (.included 5) (.excluded 7) rfl).resolve_left fun h => absurd h.2 (by decide)).1,
    ((C53_unmergeable (fun _ => 1) (8, 9) (.included 5) (.excluded 6) rfl).resolve_right fun h => h.2 rfl).1⟩

private theorem gapSample_ok : gapSample.WF := by simp [GapBuf.WF, gapSample]

private theorem gap_slice_law (e : GapBuf) (a b : Nat) (h : e.WF) (hab : a ≤ b) (hb : b ≤ e.toVec.length) :
    ∃ e', e.slice a b = .ok e' ∧ e'.WF ∧ e'.toVec = (e.toVec.take b).drop a :=
  let ⟨g, h1, h2, _, h3⟩ := C38_slice e h a b hab hb; ⟨g, h1, h2, h3⟩

example := C53_slice GapBuf.toVec GapBuf.WF GapBuf.len GapBuf.slice (fun e h => (GapBuf.toVec_length e h).symm) gap_slice_law
  gapSample gapSample_ok (.excluded 0) (.included 1) (by decide) (by decide)

example := C53_split GapBuf.toVec GapBuf.WF GapBuf.len GapBuf.slice (fun e h => (GapBuf.toVec_length e h).symm) gap_slice_law
  gapSample gapSample_ok 2 (by decide)

example := C53_update_with_split GapBuf.toVec GapBuf.WF GapBuf.len GapBuf.split (fun e h => (GapBuf.toVec_length e h).symm)
  (fun e i h hi => let ⟨l, r, h1, h2, h3, _, _, h4, h5⟩ := C38_split e h i hi; ⟨l, r, h1, h2, h3, h4, h5⟩)
  gapSample gapSample_ok (.excluded 0) .unbounded (by decide) (by decide) (fun e => e.delete 0 1) (fun m hm _ => let ⟨g, h, _⟩ := C38_delete m hm 0 1; ⟨g, h⟩)

example := C53_gap_delete gapSample gapSample_ok (.excluded 0) (.included 1)

example := C53_gap_slice gapSample gapSample_ok (.excluded 0) .unbounded (by decide) (by decide)

example := C53_rope_delete (by decide) (r := ⟨ropeSample, none⟩)
  ⟨ropeSample_spec.1, by show ∀ x ∈ (abs ropeSample).es, _; rw [ropeSample_es]; decide, fun c h => by cases h⟩ ropeSample_two (.excluded 9) (.included 61) (.inl (by decide))

example := C53_unmergeable_split (8, 9) 0

end GB
