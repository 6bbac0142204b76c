import Verif.Proof.SkelSound
import Verif.Spec.AnyCall
import Verif.Props.C18
import Verif.Props.C20
import Verif.Props.C21
import Verif.Props.C84

/-!
# C85: the range operations and wrong caches

C84 for `drain`, `update_leaf` and `update`.  None of them looks at a cache either.  So on a tree whose caches hold anything, with any functions on
caches and any differences reported by the closures, they return and keep exactly the right elements.

`SoundH okE m h s` (Verif.Proof.SkelSound) is validity of a tree of `h` levels apart from its caches.
-/

namespace GB
variable {E C C' D D' σ : Type}
open Tree

section
variable {B : Trait E C D} {B' : Trait E C' D'} (hb : ElemSame B B') (ct : CacheTotal B) (ct' : CacheTotal B') {s : Tree E C} {t : Tree E C'}
include hb ct ct'

/-- `drain` (any two cursors, dropped after any number of elements) yields the same elements and does the same to two trees that differ in their caches -/
theorem C85_same_drain (h : TreeSame s t) (a b : QueryResult) (k : Nat) :
    MRel (fun x y => x.1 = y.1 ∧ x.2.1 = y.2.1 ∧ TreeSame x.2.2 y.2.2) (drain B s a b k) (drain B' t a b k) :=
  (drain_rel hb ct ct' h a b k).imp fun _ _ h => ⟨h.1, h.2.1, h.2.2⟩

/-- the same for `update_leaf` -/
theorem C85_same_update_leaf (h : TreeSame s t) (l : Nat) (f : E → M (E × Bool × Option E × Option E)) :
    MRel (fun x y => x.1 = y.1 ∧ x.2.1 = y.2.1 ∧ TreeSame x.2.2 y.2.2) (updateLeaf B s l f) (updateLeaf B' t l f) :=
  (updateLeaf_rel hb ct ct' h l f).imp fun _ _ h => ⟨h.1, h.2.1, h.2.2⟩

/-- the same for `update`; the two closures do the same to the elements and report a difference for the same elements, but not the same one -/
theorem C85_same_update (h : TreeSame s t) (ho : HashOrd E) {f : σ → E → M (σ × E × Option D)} {f' : σ → E → M (σ × E × Option D')} (hf : UpdFnSame f f') (st : σ)
    (a b : Cursor) :
    MRel (fun x y => x.1 = y.1 ∧ x.2.1 = y.2.1 ∧ TreeSame x.2.2 y.2.2) (update B ho f st s a b) (update B' ho f' st t a b) :=
  (update_rel hb ct ct' ho hf st h a b).imp fun _ _ h => ⟨h.1, h.2.1, h.2.2⟩

end

section
variable {B : Trait E C D} {okE : E → Prop} (L : ElemLaw B okE) (ct : CacheTotal B) {m : Fill} {h : Nat} {s : Tree E C}
include L ct

/-- one operation (push, prepend, insertion, removal, clear) on a tree with any caches -/
theorem C85_op (hm : 1 ≤ m.lo ∧ m.lo + m.d ≤ 5) (hs : SoundH okE m h s) {o : Op E} (hv : o.fits B okE (abs s)) :
    ∃ s' h', o.run B s = .ok s' ∧ o.spec B (abs s) = .ok (abs s') ∧ SoundH okE m h' s' := by
  have ts := strip_same s
  rw [ts.abs] at hv ⊢
  obtain ⟨t', h1, ⟨h', hi⟩, h2⟩ := bare_step L hm ⟨h, hs.strip L⟩ hv
  have hr := Op.run_rel (bare_same B) ct (bare_total B) ts o
  rw [h1] at hr
  obtain ⟨s', e1, ts'⟩ := hr.of_ok
  exact ⟨s', h', e1, by rw [ts'.abs]; exact h2, ts'.sound hi.sound⟩

/-- `drain` on a tree with any caches: it yields the elements of the range and keeps all others (hypotheses as in C18, none about caches) -/
theorem C85_drain (hm : 1 ≤ m.lo ∧ m.lo + m.d ≤ 5) (hs : SoundH okE m h s)
    (hsl : SplitLen B okE) (hpos : ∀ x ∈ (abs s).es, 0 < B.rleLen x.2) {a b : Cursor} {Ua Va Ub Vb : List (Nat × E)} {ea eb : E}
    (ha : (abs s).es = Ua ++ (a.leaf, ea) :: Va) (hoa : a.offset ≤ B.rleLen ea)
    (hb : (abs s).es = Ub ++ (b.leaf, eb) :: Vb) (hob : b.offset ≤ B.rleLen eb)
    (hle : unitLen B Ua + a.offset ≤ unitLen B Ub + b.offset) (hend : unitLen B Ua + a.offset < unitLen B (abs s).es) (fa fb : Bool) (k : Nat)
    (hh : h ≤ 8 ∨ drain B s ⟨a, fa⟩ ⟨b, fb⟩ k ≠ .error .panic) :
    ∃ Y s' h', drain B s ⟨a, fa⟩ ⟨b, fb⟩ k = .ok ((Y.take k).map Prod.snd, (Y.drop k).map Prod.snd, s') ∧
      specDrain B (abs s) a b = .ok (Y, abs s') ∧ SoundH okE m.drained h' s' ∧ h' ≤ h + 1 := by
  have ts := strip_same s
  have hr := drain_rel (bare_same B) ct (bare_total B) ts ⟨a, fa⟩ ⟨b, fb⟩ k
  rw [ne_eq, hr.of_panic] at hh
  rw [ts.abs] at hpos ha hb hend ⊢
  obtain ⟨Y, t', h', h1, h2, h3, h4⟩ := C18_drain (B := bare B) hm (hs.strip L) hsl hpos ha hoa hb hob hle hend fa fb k hh
  rw [h1] at hr
  obtain ⟨⟨x, y, s'⟩, e1, hx, hy, ts'⟩ := hr.of_ok
  cases hx
  cases hy
  exact ⟨Y, s', h', e1, by rw [ts'.abs, ← specDrain_bare]; exact h2, ts'.sound h3.sound, h4⟩

/-- `update_leaf` on a tree with any caches.  The hypotheses of C20 about the caches (that the closure asks for an update of the caches if it changes the
cache of the element, and that an element that may be removed has a neutral cache) are not needed. -/
theorem C85_update_leaf (hm : 1 ≤ m.lo ∧ m.lo + m.d ≤ 5) (hs : SoundH okE m h s) {l : Nat} {e : E} {U V : List (Nat × E)}
    {f : E → M (E × Bool × Option E × Option E)} {e1 : E} {need : Bool} {n1 n2 : Option E} (hes : (abs s).es = U ++ (l, e) :: V)
    (hf : f e = .ok (e1, need, n1, n2)) (ok1 : okE e1) (okn1 : ∀ b, n1 = some b → okE b) (okn2 : ∀ b, n2 = some b → okE b) :
    ∃ b ids s' h', updateLeaf B s l f = .ok (b, ids, s') ∧ SoundH okE m h' s' ∧
      UpdRel B (abs s).next l U V (survivors B e1 n1 n2) b ids (abs s').next (abs s').es := by
  have ts := strip_same s
  have hr := updateLeaf_rel (bare_same B) ct (bare_total B) ts l f
  rw [ts.abs] at hes ⊢
  obtain ⟨b, ids, t', h1, ⟨h', h2⟩, h3⟩ := C20_update_leaf (B := bare B) (A := bareLaw L) hm ⟨h, hs.strip L⟩ hes hf ok1 okn1 okn2 (.inr rfl)
    (fun _ => ⟨bareLawE L, fun _ _ => rfl⟩)
  rw [h1] at hr
  obtain ⟨⟨x, y, s'⟩, q1, hx, hy, ts'⟩ := hr.of_ok
  cases hx
  cases hy
  exact ⟨b, ids, s', h', q1, ts'.sound h2.sound, by rw [ts'.abs]; exact h3.bare⟩

/-- `update` on a tree with any caches.  The closure does not panic on well-formed elements and leaves well-formed elements; the differences that it
reports, and whether it reports one at all, do not matter. -/
theorem C85_update (hm : 1 ≤ m.lo ∧ m.lo + m.d ≤ 5) (hs : SoundH okE m h s)
    (hsl : SplitLen B okE) (hpos : ∀ x ∈ (abs s).es, 0 < B.rleLen x.2)
    {ho : HashOrd E} (hho : ∀ l, (ho.idx l).Perm l) {f : σ → E → M (σ × E × Option D)} (hf : ∀ st e, okE e → ∃ st' e' d, f st e = .ok (st', e', d) ∧ okE e') (st : σ)
    {a b : Cursor} {Ua Va Ub Vb : List (Nat × E)} {ea eb : E} (ha : (abs s).es = Ua ++ (a.leaf, ea) :: Va) (hoa : a.offset ≤ B.rleLen ea)
    (hb : (abs s).es = Ub ++ (b.leaf, eb) :: Vb) (hob : b.offset ≤ B.rleLen eb) (hle : unitLen B Ua + a.offset ≤ unitLen B Ub + b.offset)
    (hh : h ≤ 8 ∨ update B ho f st s a b ≠ .error .panic) :
    ∃ st' s' h', update B ho f st s a b = .ok (st', List.range' (abs s).next ((abs s').next - (abs s).next), s') ∧
      specUpdate B f st (abs s) a b = .ok (st', abs s') ∧ SoundH okE m h' s' ∧ h' ≤ h + 1 ∧ (abs s).next ≤ (abs s').next := by
  have ts := strip_same s
  have hr := update_rel (bare_same B) ct (bare_total B) ho (bareFn_same f) st ts a b
  rw [ne_eq, hr.of_panic] at hh
  rw [ts.abs] at hpos ha hb ⊢
  obtain ⟨st', t', h', h1, h2, h3, h4, h5⟩ := C21_update (B := bare B) (A := bareLaw L) (R := fun _ _ _ => True)
    ⟨fun _ _ _ _ => rfl, fun _ _ _ _ _ _ => trivial, fun _ _ _ _ _ _ _ => trivial⟩ hm (.inr (bareLawE L)) (hs.strip L) hsl hpos hho
    (f := bareFn f) (by
      intro st e he
      obtain ⟨st', e', d, h1, h2⟩ := hf st e he
      exact ⟨st', e', d.map fun _ => (), by simp only [bareFn, h1, bind_ok, pure_ok], h2, fun _ _ => trivial, fun _ => rfl⟩)
    st ha hoa hb hob hle hh
  rw [h1] at hr
  obtain ⟨⟨x, y, s'⟩, q1, hx, hy, ts'⟩ := hr.of_ok
  cases hx
  cases hy
  rw [specUpdate_bare] at h2
  exact ⟨st', s', h', by rw [ts'.abs]; exact q1, by rw [ts'.abs]; exact h2, ts'.sound h3.sound, h4, by rw [ts'.abs]; exact h5⟩

end

/-- the iterator visits all the elements of such a tree (unless it has more than nine levels, C24) -/
theorem C85_iter {okE : E → Prop} {m : Fill} (hm : 1 ≤ m.lo) {h : Nat} {s : Tree E C} (hs : SoundH okE m h s) (h9 : h ≤ 9) :
    iter s = .ok ((abs s).es.map Prod.snd) := by
  obtain ⟨lvl, w⟩ := hs.ex
  exact iter_spec w (Sz.ne hs.sz hm) h9

/-- a valid tree whose caches have been replaced by anything is such a tree -/
theorem C85_damaged {B : Trait E C D} {A : Law B} {m : Fill} {h : Nat} {t : Tree E C} {s : Tree E C'} (hi : InvH A m h t) (hs : TreeSame s t) :
    SoundH A.okE m h s := hs.sound hi.sound

/-- elements of a tree that is valid apart from its caches are well-formed -/
theorem SoundH.okEs {okE : E → Prop} {m : Fill} {h : Nat} {s : Tree E C} (hs : SoundH okE m h s) : ∀ x ∈ (abs s).es, okE x.2 :=
  fun x hx => hs.okE x.1 x.2 (mem_entries_elm hx).2

/-- one call of any kind: it does to the sequence what it should, or it panics (which only trees of more than eight levels can make it do) -/
theorem C85_call {B : Trait E C D} {okE : E → Prop} (L : ElemLaw B okE) (ct : CacheTotal B) (hsl : SplitLen B okE) (hpos : ∀ e, okE e → 0 < B.rleLen e)
    {ho : HashOrd E} (hho : ∀ l, (ho.idx l).Perm l) {h : Nat} {s : Tree E C} (hs : SoundH okE ⟨1, 4⟩ h s) {e : AnyCall E D} (hv : e.fits B okE (abs s)) :
    (∃ s' h', e.run B ho s = .ok s' ∧ e.spec B (abs s) (abs s') ∧ SoundH okE ⟨1, 4⟩ h' s') ∨ (e.run B ho s = .error .panic ∧ 8 < h) := by
  have hp : ∀ x ∈ (abs s).es, 0 < B.rleLen x.2 := fun x hx => hpos _ (hs.okEs x hx)
  cases e with
  | op o =>
    obtain ⟨s', h', h1, h2, h3⟩ := C85_op L ct (by decide) hs hv
    exact .inl ⟨s', h', h1, h2, h3⟩
  | drain a b k =>
    obtain ⟨Ua, Va, Ub, Vb, ea, eb, ha, hoa, hb, hob, hle, hend⟩ := hv
    by_cases hh : h ≤ 8 ∨ drain B s ⟨a, true⟩ ⟨b, true⟩ k ≠ .error .panic
    · obtain ⟨Y, s', h', h1, h2, h3, -⟩ := C85_drain L ct (by decide) hs hsl hp ha hoa hb hob hle (hend trivial) true true k hh
      exact .inl ⟨s', h', by simp only [AnyCall.run, h1, bind_ok, pure_ok], ⟨Y, h2⟩, h3⟩
    · rw [not_or, Classical.not_not] at hh
      exact .inr ⟨by simp only [AnyCall.run, hh.2]; rfl, by omega⟩
  | updateLeaf l f =>
    obtain ⟨U, V, e, e1, need, n1, n2, hes, hf, o1, o2, o3⟩ := hv
    obtain ⟨b, ids, s', h', h1, h2, h3⟩ := C85_update_leaf L ct (by decide) hs hes hf o1 o2 o3
    exact .inl ⟨s', h', by simp only [AnyCall.run, h1, bind_ok, pure_ok], ⟨U, V, e, e1, need, n1, n2, b, ids, hes, hf, h3⟩, h2⟩
  | update f a b =>
    obtain ⟨⟨Ua, Va, Ub, Vb, ea, eb, ha, hoa, hb, hob, hle, -⟩, hf⟩ := hv
    by_cases hh : h ≤ 8 ∨ update B ho f () s a b ≠ .error .panic
    · obtain ⟨st', s', h', h1, h2, h3, -⟩ := C85_update L ct (by decide) hs hsl hp hho (fun _ e he => by
        obtain ⟨e', d, q1, q2⟩ := hf e he; exact ⟨(), e', d, q1, q2⟩) () ha hoa hb hob hle hh
      exact .inl ⟨s', h', by simp only [AnyCall.run, h1, bind_ok, pure_ok], h2, h3⟩
    · rw [not_or, Classical.not_not] at hh
      exact .inr ⟨by simp only [AnyCall.run, hh.2]; rfl, by omega⟩

/-- Every history of such calls on a tree with any caches, with any functions on caches that do not panic and any differences reported by the closures: if it
does not panic the elements are the right ones. -/
theorem C85_history {B : Trait E C D} {okE : E → Prop} (L : ElemLaw B okE) (ct : CacheTotal B) (hsl : SplitLen B okE) (hpos : ∀ e, okE e → 0 < B.rleLen e)
    {ho : HashOrd E} (hho : ∀ l, (ho.idx l).Perm l) : ∀ (es : List (AnyCall E D)) {h : Nat} {s : Tree E C}, SoundH okE ⟨1, 4⟩ h s → fitsCalls B okE (abs s) es →
    (∃ s' h', runCalls B ho s es = .ok s' ∧ specCalls B (abs s) es (abs s') ∧ SoundH okE ⟨1, 4⟩ h' s') ∨ runCalls B ho s es = .error .panic := by
  intro es
  induction es with
  | nil => intro h s hs _; exact .inl ⟨s, h, rfl, rfl, hs⟩
  | cons e es ih =>
    intro h s hs hv
    rcases C85_call L ct hsl hpos hho hs hv.1 with ⟨s1, h1, q1, q2, q3⟩ | ⟨q, -⟩
    · simp only [runCalls, q1, bind_ok]
      rcases ih q3 (hv.2 _ q2) with ⟨s', h', p1, p2, p3⟩ | p
      · exact .inl ⟨s', h', p1, ⟨_, q2, p2⟩, p3⟩
      · exact .inr p
    · exact .inr (by simp only [runCalls, q]; rfl)

/-- a new tree is such a tree -/
theorem C85_new {B : Trait E C D} {okE : E → Prop} (L : ElemLaw B okE) : SoundH okE ⟨1, 4⟩ 1 (newTree B) :=
  (newTree_rel B (bare B)).sound (new_inv (bareLaw L) ⟨1, 4⟩).sound

/-! The trait of C84 whose functions on caches return garbage, and the tree that `junkOps` builds with it. -/

theorem junkSplit : SplitLen junkTrait fun e => 0 < e.2 := by
  intro e i x y _ _ hi h
  have hi : i < e.2 := hi
  have h : (if i < e.2 then (.ok ((e.1, i), (e.1, e.2 - i)) : M _) else .error .panic) = .ok (x, y) := h
  rw [if_pos hi] at h
  cases h
  exact ⟨rfl, rfl⟩

theorem junkTree : ∃ s h, runAll junkTrait (newTree junkTrait) junkOps = .ok s ∧ abs s = ⟨4, [(0, (1, 2)), (3, (3, 1)), (2, (1, 3))]⟩ ∧
    SoundH (fun e : Nat × Nat => 0 < e.2) 5 h s ∧ h ≤ 8 := by
  obtain ⟨s, h1, h2, ⟨t, ts, hi, -⟩, -⟩ := C84_history junkElems junkTotal junkFits
  have he : abs s = ⟨4, [(0, (1, 2)), (3, (3, 1)), (2, (1, 3))]⟩ := (Except.ok.inj h2).symm
  obtain ⟨h, h7, hi⟩ := C18_height hi (by decide) (by rw [← ts.abs, he]; decide)
  exact ⟨s, h, h1, he, ts.sound hi.sound, by omega⟩

/-- drain the second half of the first run, the second run and a third of the last -/
example : ∃ s s' h', runAll junkTrait (newTree junkTrait) junkOps = .ok s ∧
    drain junkTrait s ⟨⟨0, 1⟩, true⟩ ⟨⟨2, 1⟩, true⟩ 1 = .ok ([(1, 1)], [(3, 1), (1, 1)], s') ∧
    (abs s').es.map Prod.snd = [(1, 1), (1, 2)] ∧ SoundH (fun e : Nat × Nat => 0 < e.2) ⟨1, 4⟩ h' s' := by
  obtain ⟨s, h, h1, he, hs, h8⟩ := junkTree
  obtain ⟨Y, s', h', d1, d2, d3, -⟩ := C85_drain junkElems junkTotal (by decide) hs junkSplit (by rw [he]; decide) (a := ⟨0, 1⟩) (b := ⟨2, 1⟩)
    (Ua := []) (Va := [(3, (3, 1)), (2, (1, 3))]) (ea := (1, 2)) (by rw [he]; rfl) (by decide)
    (Ub := [(0, (1, 2)), (3, (3, 1))]) (Vb := []) (eb := (1, 3)) (by rw [he]; rfl) (by decide) (by decide) (by rw [he]; decide) true true 1 (.inl h8)
  rw [he] at d2
  have hq : specDrain junkTrait ⟨4, [(0, (1, 2)), (3, (3, 1)), (2, (1, 3))]⟩ ⟨0, 1⟩ ⟨2, 1⟩ = .ok (Y, abs s') := d2
  obtain ⟨hY, hs'⟩ := Prod.mk.inj (Except.ok.inj (hq.symm.trans (show specDrain junkTrait ⟨4, [(0, (1, 2)), (3, (3, 1)), (2, (1, 3))]⟩ ⟨0, 1⟩ ⟨2, 1⟩ = .ok (_, _) from rfl)))
  refine ⟨s, s', h', h1, ?_, ?_, d3⟩
  · rw [d1, hY]; rfl
  · rw [hs']; rfl

/-- a closure that numbers the runs and reports a meaningless difference, but for every other run only -/
def junkFn (n : Nat) (e : Nat × Nat) : M (Nat × (Nat × Nat) × Option Nat) := .ok (n + 1, (n, e.2), if n % 2 = 0 then some 41 else none)

example : ∃ s st' ids s', runAll junkTrait (newTree junkTrait) junkOps = .ok s ∧ update junkTrait ⟨List.reverse, id, id⟩ junkFn 10 s ⟨0, 1⟩ ⟨2, 1⟩ = .ok (st', ids, s') ∧
    st' = 13 ∧ (abs s').es.map Prod.snd = [(1, 1), (10, 1), (11, 1), (12, 1), (1, 2)] ∧ iter s' = .ok [(1, 1), (10, 1), (11, 1), (12, 1), (1, 2)] := by
  obtain ⟨s, h, h1, he, hs, h8⟩ := junkTree
  obtain ⟨st', s', h', d1, d2, d3, d4, -⟩ := C85_update junkElems junkTotal (by decide) hs junkSplit (by rw [he]; decide) (ho := ⟨List.reverse, id, id⟩)
    (fun l => List.reverse_perm l) (f := junkFn) (fun st e he => ⟨_, _, _, rfl, he⟩) 10 (a := ⟨0, 1⟩) (b := ⟨2, 1⟩)
    (Ua := []) (Va := [(3, (3, 1)), (2, (1, 3))]) (ea := (1, 2)) (by rw [he]; rfl) (by decide)
    (Ub := [(0, (1, 2)), (3, (3, 1))]) (Vb := []) (eb := (1, 3)) (by rw [he]; rfl) (by decide) (by decide) (.inl h8)
  rw [he] at d2
  obtain ⟨hY, hs'⟩ := Prod.mk.inj (Except.ok.inj (d2.symm.trans (show specUpdate junkTrait junkFn 10 ⟨4, [(0, (1, 2)), (3, (3, 1)), (2, (1, 3))]⟩ ⟨0, 1⟩ ⟨2, 1⟩ = .ok (_, _) from rfl)))
  have hl : (abs s').es.map Prod.snd = [(1, 1), (10, 1), (11, 1), (12, 1), (1, 2)] := by rw [hs']; rfl
  refine ⟨s, st', _, s', h1, d1, hY, hl, ?_⟩
  rw [C85_iter (by decide) d3 (by omega), hl]

example : ∃ s b ids s', runAll junkTrait (newTree junkTrait) junkOps = .ok s ∧
    updateLeaf junkTrait s 3 (fun _ => .ok ((8, 8), false, some (9, 9), none)) = .ok (b, ids, s') ∧
    UpdRel junkTrait 4 3 [(0, (1, 2))] [(2, (1, 3))] [(8, 8), (9, 9)] b ids (abs s').next (abs s').es := by
  obtain ⟨s, h, h1, he, hs, -⟩ := junkTree
  obtain ⟨b, ids, s', h', d1, -, d3⟩ := C85_update_leaf junkElems junkTotal (by decide) hs (l := 3) (e := (3, 1)) (U := [(0, (1, 2))]) (V := [(2, (1, 3))])
    (f := fun _ => .ok ((8, 8), false, some (9, 9), none)) (by rw [he]; rfl) rfl (by decide)
    (fun _ h => by cases h; decide) (fun _ h => by cases h)
  rw [he] at d3
  exact ⟨s, b, ids, s', h1, d1, d3⟩

example : ∃ s s' h', runAll junkTrait (newTree junkTrait) junkOps = .ok s ∧ (Op.prepend (6, 6)).run junkTrait s = .ok s' ∧ SoundH (fun e : Nat × Nat => 0 < e.2) 5 h' s' := by
  obtain ⟨s, h, h1, he, hs, -⟩ := junkTree
  obtain ⟨s', h', q1, -, q3⟩ := C85_op junkElems junkTotal (by decide) hs (o := .prepend (6, 6)) (by show 0 < 6; decide)
  exact ⟨s, s', h', h1, q1, q3⟩

example := C85_same_drain (bare_same junkTrait) junkTotal (bare_total junkTrait) (newTree_rel junkTrait (bare junkTrait))
example := C85_same_update_leaf (bare_same junkTrait) junkTotal (bare_total junkTrait) (newTree_rel junkTrait (bare junkTrait))
example := C85_same_update (bare_same junkTrait) junkTotal (bare_total junkTrait) (newTree_rel junkTrait (bare junkTrait)) ⟨id, id, id⟩ (bareFn_same junkFn)

/-- the sample rope with its caches removed -/
example := C85_damaged ropeSample_two (strip_same ropeSample).symm

/-- prepend to a new tree, append, overwrite a range that starts and ends within runs -/
def junkCalls : List (AnyCall (Nat × Nat) Nat) := [.op (.prepend (1, 5)), .op (.push (2, 3)), .update (fun _ e => .ok ((), (9, e.2), none)) ⟨0, 2⟩ ⟨1, 1⟩]

theorem junkCallsFit : fitsCalls junkTrait (fun e => 0 < e.2) ⟨0, []⟩ junkCalls := by
  refine ⟨by show 0 < 5; decide, fun _ h => ?_⟩
  cases h
  refine ⟨by show 0 < 3; decide, fun _ h => ?_⟩
  cases h
  refine ⟨⟨⟨[], [(1, (2, 3))], [(0, (1, 5))], [], (1, 5), (2, 3), rfl, by decide, rfl, by decide, by decide, False.elim⟩, fun e he => ⟨_, _, rfl, he⟩⟩, fun _ _ => trivial⟩

example := C85_history junkElems junkTotal junkSplit (fun _ h => h) (ho := ⟨List.reverse, id, id⟩) (fun l => List.reverse_perm l) junkCalls
  (C85_new junkElems) (by rw [new_entries]; exact junkCallsFit)
example {e : AnyCall (Nat × Nat) Nat} := @C85_call _ _ _ _ _ junkElems junkTotal junkSplit (fun _ h => h) ⟨List.reverse, id, id⟩ (fun l => List.reverse_perm l) 1 _ (C85_new junkElems) e

end GB
