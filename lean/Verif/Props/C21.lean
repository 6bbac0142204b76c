import Verif.Proof.UpdateRange
import Verif.Props.C18
import Verif.Proof.SampleTwo

/-!
# C21: `update` applies the closure exactly to the range

The closure may have a state (`FnMut`) and is arbitrary, as long as it does not panic, keeps elements valid and reports
its change of the cache exactly (`ClosureOK`, relative to a meaning `R` of diffs that obeys `DiffLaw`).  The hash map of
dirty nodes is visited in any order.  Side conditions as for `drain` (C18): positive lengths; on trees of more than 8 levels `update`
may panic (`C21_panics_iff` says when), but is never wrong.

The documentation says that the closure is also called for a range of zero length.  It is not: `C21_empty_range`.
-/

namespace GB
variable {E C D X σ : Type}
open Tree

/-- Every valid tree of height at most 8, or of any height if the call does not panic; any two cursors in order, every closure, every hash order: no panic; the tree
stays valid, so all caches are exact; the new sequence is that of `specUpdate` (cut, run the closure over the middle from left to
right, drop removable elements); the closure ends in the state of `specUpdate`; the leaves returned are exactly the new ones. -/
theorem C21_update {B : Trait E C D} {A : Law B} {R : C → D → C → Prop} (L : DiffLaw A R) {m : Fill} {h : Nat} {s : Tree E C} (hm : 1 ≤ m.lo ∧ m.lo + m.d ≤ 5)
    (hE : 2 ≤ m.lo ∨ LawE A) (hi : InvH A m h s) (hsl : SplitLen B A.okE) (hpos : ∀ x ∈ (abs s).es, 0 < B.rleLen x.2)
    {ho : HashOrd E} (hho : ∀ l, (ho.idx l).Perm l) {f : σ → E → M (σ × E × Option D)} (hf : ClosureOK A R f) (st : σ)
    {a b : Cursor} {Ua Va Ub Vb : List (Nat × E)} {ea eb : E} (ha : (abs s).es = Ua ++ (a.leaf, ea) :: Va) (hoa : a.offset ≤ B.rleLen ea)
    (hb : (abs s).es = Ub ++ (b.leaf, eb) :: Vb) (hob : b.offset ≤ B.rleLen eb) (hle : unitLen B Ua + a.offset ≤ unitLen B Ub + b.offset)
    (hh : h ≤ 8 ∨ update B ho f st s a b ≠ .error .panic) :
    ∃ st' s' h', update B ho f st s a b = .ok (st', List.range' (abs s).next ((abs s').next - (abs s).next), s') ∧
      specUpdate B f st (abs s) a b = .ok (st', abs s') ∧ InvH A m h' s' ∧ h' ≤ h + 1 ∧ (abs s).next ≤ (abs s').next := by
  obtain ⟨⟨lvl, g⟩, sz⟩ := hi
  obtain ⟨ua, va, o1, rfl, -, hea⟩ := entries_split g.wf ha
  obtain ⟨ub, vb, o2, rfl, -, heb⟩ := entries_split g.wf hb
  obtain ⟨st', s', lvl', h', u1, u2, u3, u4, u5, L', R', X, n, Y, Y', k1, k2, k3, k4⟩ := update_spec hm.1 hm.2 hE L hho hf st g sz hsl
    (fun l x hx => hpos (l, x) ((entries_mem g.wf).mpr hx)) o1 hea hoa o2 heb hob hle hh
  refine ⟨st', s', h', u1, ?_, ⟨⟨lvl', u3⟩, u4⟩, u5, u2⟩
  simp only [specUpdate, k1, bind_ok, k2, List.length_append, Nat.add_sub_cancel, List.take_left, k3, pure_ok]
  rw [abs, k4]

/-- When `update` panics: on ten or more levels always; on nine exactly if a cut raises the tree; on fewer never. -/
theorem C21_panics_iff {B : Trait E C D} {A : Law B} {R : C → D → C → Prop} (L : DiffLaw A R) {m : Fill} {h : Nat} {s : Tree E C} (hm : 1 ≤ m.lo ∧ m.lo + m.d ≤ 5)
    (hE : 2 ≤ m.lo ∨ LawE A) (hi : InvH A m h s) (hsl : SplitLen B A.okE) (hpos : ∀ x ∈ (abs s).es, 0 < B.rleLen x.2)
    {ho : HashOrd E} (hho : ∀ l, (ho.idx l).Perm l) {f : σ → E → M (σ × E × Option D)} (hf : ClosureOK A R f) (st : σ)
    {a b : Cursor} {Ua Va Ub Vb : List (Nat × E)} {ea eb : E} (ha : (abs s).es = Ua ++ (a.leaf, ea) :: Va) (hoa : a.offset ≤ B.rleLen ea)
    (hb : (abs s).es = Ub ++ (b.leaf, eb) :: Vb) (hob : b.offset ≤ B.rleLen eb) (hle : unitLen B Ua + a.offset ≤ unitLen B Ub + b.offset)
    (hend : unitLen B Ua + a.offset < unitLen B (abs s).es) :
    update B ho f st s a b = .error .panic ↔ 10 ≤ h ∨ h = 9 ∧ CutsRaise B s a b := by
  obtain ⟨⟨lvl, g⟩, sz⟩ := hi
  obtain ⟨ua, va, o1, rfl, -, hea⟩ := entries_split g.wf ha
  obtain ⟨ub, vb, o2, rfl, -, heb⟩ := entries_split g.wf hb
  exact update_panics hm.1 hm.2 hE L hho hf st g sz hsl (fun l x hx => hpos (l, x) ((entries_mem g.wf).mpr hx)) o1 hea hoa o2 heb hob hle hend

/-- The same in units: the closure is run, from left to right, over pieces `Y` that make up exactly the units from `i` to `j`. -/
theorem C21_update_content {B : Trait E C D} {A : Law B} {R : C → D → C → Prop} (L : DiffLaw A R) {cont : E → List X} (K : ContentLaw B A.okE cont)
    {m : Fill} {h : Nat} {s : Tree E C} (hm : 1 ≤ m.lo ∧ m.lo + m.d ≤ 5) (hE : 2 ≤ m.lo ∨ LawE A) (hi : InvH A m h s) (hpos : ∀ x ∈ (abs s).es, 0 < B.rleLen x.2)
    {ho : HashOrd E} (hho : ∀ l, (ho.idx l).Perm l) {f : σ → E → M (σ × E × Option D)} (hf : ClosureOK A R f) (st : σ)
    {a b : Cursor} {Ua Va Ub Vb : List (Nat × E)} {ea eb : E} {i j : Nat}
    (ha : (abs s).es = Ua ++ (a.leaf, ea) :: Va) (hoa : a.offset ≤ B.rleLen ea) (hia : unitLen B Ua + a.offset = i)
    (hb : (abs s).es = Ub ++ (b.leaf, eb) :: Vb) (hob : b.offset ≤ B.rleLen eb) (hjb : unitLen B Ub + b.offset = j) (hle : i ≤ j)
    (hh : h ≤ 8 ∨ update B ho f st s a b ≠ .error .panic) :
    ∃ Y st' Y' s' h', update B ho f st s a b = .ok (st', List.range' (abs s).next ((abs s').next - (abs s).next), s') ∧ InvH A m h' s' ∧ h' ≤ h + 1 ∧
      content cont Y = ((content cont (abs s).es).drop i).take (j - i) ∧ (∀ x ∈ Y, A.okE x.2 ∧ 0 < B.rleLen x.2) ∧ runOn f st Y = .ok (st', Y') ∧
      content cont (abs s').es = (content cont (abs s).es).take i ++ content cont (Y'.filter fun x => !B.canRemove x.2) ++ (content cont (abs s).es).drop j ∧
      ((∀ x ∈ Y', 0 < B.rleLen x.2) → ∀ x ∈ (abs s').es, 0 < B.rleLen x.2) := by
  obtain ⟨⟨lvl, g⟩, sz⟩ := hi
  have nd := entries_nodup g.wf
  have hpa : posOf B (abs s) a = some i := by
    rw [posOf, show locate a.leaf (abs s).es = _ from locate_split nd ha, ← hia]; rfl
  have hpb : posOf B (abs s) b = some j := by
    rw [posOf, show locate b.leaf (abs s).es = _ from locate_split nd hb, ← hjb]; rfl
  obtain ⟨ua, va, o1, rfl, -, hea⟩ := entries_split g.wf ha
  obtain ⟨ub, vb, o2, rfl, -, heb⟩ := entries_split g.wf hb
  have hsl := K.splitLen
  obtain ⟨st', s', lvl', h', u1, u2, u3, u4, u5, L', R', X, n, Y, Y', k1, k2, k3, k4⟩ := update_spec hm.1 hm.2 hE L hho hf st g sz hsl
    (fun l x hx => hpos (l, x) ((entries_mem g.wf).mpr hx)) o1 hea hoa o2 heb hob (by omega) hh
  have hfr : (abs s).next ∉ (abs s).es.map Prod.fst := by
    show s.lf.items.length ∉ (entries s).map Prod.fst
    rw [entries_fst g.wf]; exact fresh_order g.wf
  have hok : ∀ x ∈ (abs s).es, A.okE x.2 ∧ 0 < B.rleLen x.2 := fun x hx => ⟨g.okE x.1 x.2 ((entries_mem g.wf).mp hx), hpos x hx⟩
  have hsp : ∀ e i x y, A.okE e ∧ 0 < B.rleLen e → 0 < i → i < B.rleLen e → B.split e i = .ok (x, y) →
      (A.okE x ∧ 0 < B.rleLen x) ∧ (A.okE y ∧ 0 < B.rleLen y) ∧ cont x = (cont e).take i ∧ cont y = (cont e).drop i := by
    intro e i x y he h0 h1 hs
    obtain ⟨x', y', q1, q2, q3, -⟩ := A.split e i he.1 h0 h1
    rw [hs] at q1
    cases q1
    obtain ⟨l1, l2⟩ := hsl e i x y he.1 h0 h1 hs
    obtain ⟨c1, c2⟩ := K.split e i x y he.1 h0 h1 hs
    exact ⟨⟨q2, by omega⟩, ⟨q3, by omega⟩, c1, c2⟩
  obtain ⟨c1, c2, c3⟩ := drain_content (fun e he => K.len e he.1) hsp hok nd hfr k1 k2 hpa hpb
  have hsp' := fun e i x y h1 h2 h3 h4 => And.intro (hsp e i x y h1 h2 h3 h4).1 (hsp e i x y h1 h2 h3 h4).2.1
  have ok1 := specCut_ok hsp' hok k1
  have ok2 := specCut_ok hsp' (t := ⟨n, L' ++ R'⟩) ok1 k2
  refine ⟨Y, st', Y', s', h', u1, ⟨⟨lvl', u3⟩, u4⟩, u5, ?_, fun x hx => ok2 x (by simp [hx]), k3, ?_, ?_⟩
  · rw [← c3, content_append]
    have hl := congrArg List.length c3
    rw [content_append, c2, List.length_append, List.length_drop, List.length_drop] at hl
    have ht : j ≤ (content cont (abs s).es).length := by
      rw [content_length K (fun x hx => (hok x hx).1), hb, ← hjb, unitLen_append, unitLen_cons]
      simp only
      omega
    rw [show j - i = (content cont Y).length by omega, List.take_left]
  · show content cont (entries s') = _
    rw [k4, content_append, content_append, c1, c2]
  · intro hY x hx
    have hx : x ∈ entries s' := hx
    rw [k4, List.mem_append, List.mem_append] at hx
    rcases hx with (hx | hx) | hx
    · exact (ok2 x (by simp [hx])).2
    · exact hY x (List.mem_filter.mp hx).1
    · exact (ok1 x (by simp [hx])).2

/-- An empty range: the closure is not called, contrary to the documentation (src/lib.rs:985-986), and no unit changes. -/
theorem C21_empty_range {B : Trait E C D} {A : Law B} {R : C → D → C → Prop} (L : DiffLaw A R) {cont : E → List X} (K : ContentLaw B A.okE cont)
    {m : Fill} {h : Nat} {s : Tree E C} (hm : 1 ≤ m.lo ∧ m.lo + m.d ≤ 5) (hE : 2 ≤ m.lo ∨ LawE A) (hi : InvH A m h s) (hpos : ∀ x ∈ (abs s).es, 0 < B.rleLen x.2)
    {ho : HashOrd E} (hho : ∀ l, (ho.idx l).Perm l) {f : σ → E → M (σ × E × Option D)} (hf : ClosureOK A R f) (st : σ)
    {a b : Cursor} {Ua Va Ub Vb : List (Nat × E)} {ea eb : E} {i : Nat}
    (ha : (abs s).es = Ua ++ (a.leaf, ea) :: Va) (hoa : a.offset ≤ B.rleLen ea) (hia : unitLen B Ua + a.offset = i)
    (hb : (abs s).es = Ub ++ (b.leaf, eb) :: Vb) (hob : b.offset ≤ B.rleLen eb) (hjb : unitLen B Ub + b.offset = i)
    (hh : h ≤ 8 ∨ update B ho f st s a b ≠ .error .panic) :
    ∃ sp s', update B ho f st s a b = .ok (st, sp, s') ∧ content cont (abs s').es = content cont (abs s).es := by
  obtain ⟨Y, st', Y', s', h', u1, -, -, u2, u3, u4, u5, -⟩ := C21_update_content L K hm hE hi hpos hho hf st ha hoa hia hb hob hjb (Nat.le_refl _) hh
  have hY : Y = [] := by
    cases Y with
    | nil => rfl
    | cons y Y =>
      exfalso
      have h1 := congrArg List.length u2
      rw [content_cons, List.length_append, K.len _ (u3 y (by simp)).1] at h1
      have := (u3 y (by simp)).2
      simp at h1
      omega
  subst hY
  cases u4
  exact ⟨_, s', u1, by rw [u5]; simp [content]⟩

/-- The rope obeys `DiffLaw`: diffs are differences of lengths. -/
theorem C21_rope_diffs (cap : Nat) : DiffLaw (ropeLaw cap) (fun c d c' => c' = c + d) where
  apply := (ropeLaw cap).diff_apply rfl
  ctx := (ropeLaw cap).diff_ctx rfl
  merge := by
    intro a d b e c h1 h2
    show c = a + (d + e)
    omega

/-- The ordered map: closures that report no diff, so may not change a key. -/
theorem C21_ord_diffs (K V : Type) : DiffLaw (ordLaw K V) (fun _ _ _ => False) := ⟨fun _ _ _ h => h.elim, fun _ _ _ _ _ h => h.elim, fun _ _ _ _ _ h => h.elim⟩

/-- A closure for the rope that counts its calls and empties every chunk, returning the exact diff. -/
def wipe (n : Nat) (g : GapBuf) : M (Nat × GapBuf × Option Int) := .ok (n + 1, GapBuf.new g.capacity, some (-(g.len : Int)))

theorem wipe_ok (cap : Nat) : ClosureOK (ropeLaw cap) (fun c d c' => c' = c + d) wipe := by
  intro st e he
  have he : e.WF ∧ e.capacity = cap := he
  refine ⟨_, _, _, rfl, ?_, ?_, by simp⟩
  · show (GapBuf.new e.capacity).WF ∧ (GapBuf.new e.capacity).capacity = cap
    simp [GapBuf.new, GapBuf.WF, GapBuf.capacity, ← he.2]
  · intro x hx
    cases hx
    show ((GapBuf.new e.capacity).len : Int) = (e.len : Int) + -(e.len : Int)
    simp [GapBuf.new, GapBuf.len]
    omega

/-- Wipe from the middle of chunk 3 to the middle of chunk 20, visiting the dirty map backwards. -/
example : ∃ (Y : List (Nat × GapBuf)) (st' : Nat) (Y' : List (Nat × GapBuf)) (s' : Tree GapBuf Int) (h' : Nat),
    update ropeTrait ⟨List.reverse, id, id⟩ wipe 0 ropeSample ⟨3, 1⟩ ⟨20, 2⟩ = .ok (st', List.range' (abs ropeSample).next ((abs s').next - (abs ropeSample).next), s') ∧
    InvH (ropeLaw 4) 5 h' s' ∧ runOn wipe 0 Y = .ok (st', Y') := by
  obtain ⟨h, h7, hi⟩ := C18_height ropeSample_spec.1 (by decide) (by rw [ropeSample_spec.2]; decide)
  obtain ⟨Y, st', Y', s', h', d1, d2, -, -, -, d5, -⟩ := C21_update_content (C21_rope_diffs 4) (ropeContent 4) (by decide) (.inl (by decide)) hi (by rw [ropeSample_spec.2]; decide)
    (ho := ⟨List.reverse, id, id⟩) List.reverse_perm (wipe_ok 4) 0
    (a := ⟨3, 1⟩) (b := ⟨20, 2⟩) (i := 10) (j := 62) (ea := ⟨[3, 1, 2, 0], 3, 1⟩) (eb := ⟨[20, 1, 2, 0], 3, 1⟩)
    (Ua := (List.range 3).map fun i => (i, ⟨[UInt8.ofNat i, 1, 2, 0], 3, 1⟩))
    (Va := (List.range 26).map fun i => (i + 4, ⟨[UInt8.ofNat (i + 4), 1, 2, 0], 3, 1⟩))
    (by rw [ropeSample_spec.2]; rfl) (by decide) (by decide)
    (Ub := (List.range 20).map fun i => (i, ⟨[UInt8.ofNat i, 1, 2, 0], 3, 1⟩))
    (Vb := (List.range 9).map fun i => (i + 21, ⟨[UInt8.ofNat (i + 21), 1, 2, 0], 3, 1⟩))
    (by rw [ropeSample_spec.2]; rfl) (by decide) (by decide) (by decide) (.inl h7)
  exact ⟨Y, st', Y', s', h', d1, d2, d5⟩

/-- on the sample, of three levels, no `update` panics -/
example : update ropeTrait ⟨List.reverse, id, id⟩ wipe 0 ropeSample ⟨3, 1⟩ ⟨20, 2⟩ ≠ .error .panic := by
  obtain ⟨h, h7, hi⟩ := C18_height ropeSample_spec.1 (by decide) (by rw [ropeSample_spec.2]; decide)
  rw [ne_eq, C21_panics_iff (C21_rope_diffs 4) (by decide) (.inl (by decide)) hi (ropeContent 4).splitLen (by rw [ropeSample_spec.2]; decide)
    (ho := ⟨List.reverse, id, id⟩) List.reverse_perm (wipe_ok 4) 0
    (a := ⟨3, 1⟩) (b := ⟨20, 2⟩) (ea := ⟨[3, 1, 2, 0], 3, 1⟩) (eb := ⟨[20, 1, 2, 0], 3, 1⟩)
    (Ua := (List.range 3).map fun i => (i, ⟨[UInt8.ofNat i, 1, 2, 0], 3, 1⟩))
    (Va := (List.range 26).map fun i => (i + 4, ⟨[UInt8.ofNat (i + 4), 1, 2, 0], 3, 1⟩))
    (by rw [ropeSample_spec.2]; rfl) (by decide)
    (Ub := (List.range 20).map fun i => (i, ⟨[UInt8.ofNat i, 1, 2, 0], 3, 1⟩))
    (Vb := (List.range 9).map fun i => (i + 21, ⟨[UInt8.ofNat (i + 21), 1, 2, 0], 3, 1⟩))
    (by rw [ropeSample_spec.2]; rfl) (by decide) (by decide) (by rw [ropeSample_spec.2]; decide)]
  omega

/-- The specification on a small sequence: three chunks, the range starts and ends inside a chunk. -/
example : specUpdate ropeTrait wipe 0 ⟨3, [(0, ⟨[1, 2, 3, 0], 3, 1⟩), (1, ⟨[4, 5, 6, 0], 3, 1⟩), (2, ⟨[7, 8, 9, 0], 3, 1⟩)]⟩ ⟨0, 1⟩ ⟨2, 1⟩ =
    .ok (3, ⟨5, [(0, ⟨[1, 2, 2, 3], 1, 3⟩), (3, ⟨[8, 9, 0, 0], 2, 2⟩)]⟩) := rfl

example := C21_update (C21_rope_diffs 4) (by decide) (.inl (by decide)) ropeSample_two (ropeContent 4).splitLen (by rw [ropeSample_es]; decide)
  (ho := ⟨List.reverse, id, id⟩) List.reverse_perm (wipe_ok 4) 0 (a := ⟨3, 1⟩) (b := ⟨20, 2⟩)
  (ropeSample_at (k := 3) (by decide)) (by decide) (ropeSample_at (k := 20) (by decide)) (by decide) (by decide) (.inl (by decide))

/-- between two chunks -/
example := C21_empty_range (C21_rope_diffs 4) (ropeContent 4) (by decide) (.inl (by decide)) ropeSample_two (by rw [ropeSample_es]; decide)
  (ho := ⟨List.reverse, id, id⟩) List.reverse_perm (wipe_ok 4) 0 (a := ⟨3, 3⟩) (b := ⟨4, 0⟩) (i := 12)
  (ropeSample_at (k := 3) (by decide)) (by decide) (by decide) (ropeSample_at (k := 4) (by decide)) (by decide) (by decide) (.inl (by decide))

end GB
