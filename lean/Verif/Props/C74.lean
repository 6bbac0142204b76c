import Verif.Proof.Repair
import Verif.Proof.CheckSound
import Verif.Proof.Sample
import Verif.Props.C06
import Verif.Props.C43
import Verif.Proof.SampleTwo

/-!
# C74: repairing the caches by hand

`get_elem_mut` lends out elements and `recursive_update_cache` is public, so a caller may write to elements and repair the
caches afterwards.  The ledger of `Spec/Repair.lean` says when that works.
-/

namespace GB
variable {E C D : Type}
open Tree

/-- Every program of writes and repairs on a valid tree, with the diffs it gives right: no panic; the elements are those
written; the root cache is that of the elements the caches were last told about; and the tree is valid exactly if the caches
know the cache of every element. -/
theorem C74_repairs {B : Trait E C D} {A : Law B} {m : Fill} (hm : 1 ≤ m.lo) {s : Tree E C} (hi : Inv A m s) {os : List (RepairOp E D)}
    (hv : validRepairs A (ledgerOf (abs s).es) os) :
    ∃ s', repairRun B s os = .ok s' ∧
      abs s' = ⟨(abs s).next, (bookAll os (ledgerOf (abs s).es)).map fun x => (x.1, x.2.1)⟩ ∧
      (bookAll os (ledgerOf (abs s).es) ≠ [] →
        s'.rootCache = A.total ((bookAll os (ledgerOf (abs s).es)).map fun x => B.elemCache x.2.2)) ∧
      (Inv A m s' ↔ ∀ x ∈ bookAll os (ledgerOf (abs s).es), B.elemCache x.2.1 = B.elemCache x.2.2) := by
  obtain ⟨h, ⟨lvl, g⟩, sz⟩ := hi
  obtain ⟨g', s', h1, b, hn⟩ := Booked.run os (Booked.start g sz) hv
  refine ⟨s', h1, ?_, fun hne => ?_, ⟨fun ⟨h', ⟨lvl', gs⟩, _⟩ => b.inv_only gs, fun hc => ⟨h, b.inv hc⟩⟩⟩
  · rw [abs, b.held, hn]; rfl
  · have hg : InvH A m h g' := ⟨⟨lvl, b.good⟩, b.sz⟩
    have := rootCache_spec b.good (hg.ne hm) (fun ho => hne (by
      have he := b.told
      rw [entries, ho] at he
      exact List.map_eq_nil_iff.mp he.symm))
    rw [show s'.rootCache = g'.rootCache by rw [b.eq]; rfl, this, b.told, List.map_map]
    rfl

/-- `check()` decides the same, for trees with elements and within the capacity of the paths. -/
theorem C74_check [DecidableEq C] {B : Trait E C D} {A : Law B} {m : Fill} (hm : 1 ≤ m.lo) {s : Tree E C} {h : Nat} (hi : InvH A m h s) (hh : h ≤ 9)
    (hne : (abs s).es ≠ []) {os : List (RepairOp E D)} (hv : validRepairs A (ledgerOf (abs s).es) os) {s' : Tree E C} (hr : repairRun B s os = .ok s') :
    check B s' = .ok () ↔ ∀ x ∈ bookAll os (ledgerOf (abs s).es), B.elemCache x.2.1 = B.elemCache x.2.2 := by
  obtain ⟨⟨lvl, g⟩, sz⟩ := id hi
  obtain ⟨g', s2, h1, b, -⟩ := Booked.run os (Booked.start g sz) hv
  rw [hr] at h1
  cases h1
  constructor
  · intro hck
    exact b.check_only (check_sound hck).leaf
  · intro hc
    refine (C06_check_iff hm (b.inv hc) hh).mpr fun he => absurd ?_ hne
    have h2 : (bookAll os (ledgerOf (entries s))).map (fun x => (x.1, x.2.1)) = [] := by rw [← b.held]; exact he
    have h3 := congrArg List.length h2
    rw [List.length_map, bookAll_length] at h3
    simpa [ledgerOf, abs] using h3

/-- Any number of writes and then one plain repair for every written leaf, in any order: a valid tree with the written
elements. -/
theorem C74_batch {B : Trait E C D} {A : Law B} {m : Fill} (hm : 1 ≤ m.lo) {s : Tree E C} (hi : Inv A m s) {ws : List (Nat × (E → E))} {ls : List Nat}
    (hw : ∀ w ∈ ws, w.1 ∈ ls) (hl : ∀ l ∈ ls, l ∈ (abs s).es.map Prod.fst) (hok : ∀ w ∈ ws, ∀ e, A.okE e → A.okE (w.2 e)) :
    ∃ s', repairRun B s (ws.map (fun w => .write w.1 w.2) ++ ls.map (fun l => .fix l false none)) = .ok s' ∧ Inv A m s' ∧
      abs s' = ⟨(abs s).next, ws.foldl (fun es w => es.map fun x => if x.1 = w.1 then (x.1, w.2 x.2) else x) (abs s).es⟩ := by
  have hE : ∀ x ∈ (abs s).es, A.okE x.2 := by
    obtain ⟨h, ⟨lvl, g⟩, sz⟩ := hi
    exact fun x hx => g.okE x.1 x.2 ((entries_mem g.wf).mp hx)
  obtain ⟨k1, k2, k3, k4⟩ := writes_book (B := B) (A := A) ws (ledgerOf (abs s).es) (fun x hx => by
      obtain ⟨y, hy, rfl⟩ := List.mem_map.mp hx
      exact hE y hy) hok
  obtain ⟨f1, f2⟩ := fixes_book (A := A) ls (bookAll (ws.map fun w => RepairOp.write (D := D) w.1 w.2) (ledgerOf (abs s).es)) (fun l h => by
    rw [k4]
    simpa [ledgerOf, Function.comp_def] using hl l h)
  obtain ⟨s', h1, h2, -, h4⟩ := C74_repairs hm hi ((validRepairs_append _ _ _).mpr ⟨k1, f1⟩)
  rw [bookAll_append, f2] at h2 h4
  refine ⟨s', h1, h4.mpr fun x hx => ?_, ?_⟩
  · obtain ⟨y, hy, rfl⟩ := List.mem_map.mp hx
    split
    · rfl
    · rename_i hn
      have := k3 y hy (fun hc => by
        obtain ⟨w, hw1, hw2⟩ := List.mem_map.mp hc
        exact hn (hw2 ▸ hw w hw1))
      obtain ⟨z, -, rfl⟩ := List.mem_map.mp this
      rfl
  · rw [h2, List.map_map]
    have : ((fun x : Nat × E × E => (x.1, x.2.1)) ∘ fun x => if x.1 ∈ ls then (x.1, x.2.1, x.2.1) else x) = fun x => (x.1, x.2.1) := by
      funext x
      simp only [Function.comp_apply]
      split <;> rfl
    rw [this, k2]
    simp [ledgerOf, Function.comp_def]

/-- The repair of a dead leaf panics. -/
theorem C74_dead {B : Trait E C D} {A : Law B} {m : Fill} {s : Tree E C} (hi : Inv A m s) {l : Nat} (hl : l ∉ (abs s).es.map Prod.fst)
    (c : Bool) (d : Option D) : recursiveUpdateCache B s (.leaf l) c d = .error .panic := by
  obtain ⟨h, ⟨lvl, g⟩, sz⟩ := hi
  have h1 := (locate_dead g.wf).mp (locate_none.mpr hl)
  have h2 : s.lf.get l = none := by simpa [elm] using h1
  simp [recursiveUpdateCache, getLf, h2, unwrap]

/-- A given diff is applied to the root cache whatever the leaf holds, and without the trait's support there is no way to. -/
theorem C74_diff_root {B : Trait E C D} {s s' : Tree E C} {l : Nat} {d : D}
    (hr : recursiveUpdateCache B s (.leaf l) true (some d) = .ok s') : B.apply s.rootCache d = .ok s'.rootCache :=
  recursiveUpdateCache_root hr

/-- `OrdTreeMap`'s tree: a repair with a diff never returns. -/
theorem C74_ord_diff {K V : Type} [LT K] [DecidableLT K] [DecidableEq K] {s : Tree (K × V) (OrdCache K)} {l : Nat} {d : Unit} (s' : Tree (K × V) (OrdCache K)) :
    recursiveUpdateCache (ordTrait K V) s (.leaf l) true (some d) ≠ .ok s' := by
  intro hr
  have := C74_diff_root hr
  cases this

/-- Ropes: after a write, a repair with any diff returns, and leaves a valid tree exactly if the diff is the difference of
the lengths. -/
theorem C74_rope_diff {cap : Nat} {m : Fill} (hm : 1 ≤ m.lo) {s : Tree GapBuf Int} (hi : Inv (ropeLaw cap) m s) {l : Nat} {e : GapBuf} {f : GapBuf → GapBuf}
    (hl : getElem s l = some e) (hok : (ropeLaw cap).okE (f e)) (d : Int) :
    ∃ s', repairRun ropeTrait s [.write l f, .fix l true (some d)] = .ok s' ∧ (Inv (ropeLaw cap) m s' ↔ d = ((f e).len : Int) - (e.len : Int)) := by
  obtain ⟨h, ⟨lvl, g⟩, sz⟩ := id hi
  cases hL : s.lf.get l with
  | none => rw [getElem, hL] at hl; cases hl
  | some n =>
    obtain ⟨e2, q⟩ := n
    rw [getElem, hL] at hl
    cases hl
    have hg : (getElemMut s l f).2 = s.setLf l ⟨f e2, q⟩ := by rw [getElemMut, hL]
    have sh : SameShape s (s.setLf l ⟨f e2, q⟩) := SameShape.setLf hL rfl
    have hlive : lpar s l ≠ none := by rw [lpar_of hL]; simp
    have hel : ∀ k, elm (s.setLf l ⟨f e2, q⟩) k = if k = l then some (f e2) else elm s k := fun k => elm_setLf s hlive ⟨f e2, q⟩ k
    obtain ⟨s', h1, h2, h3⟩ := recursiveUpdateCache_total (B := ropeTrait) (d := d) (fun c => ⟨c + d, rfl⟩) (sh.wf g.wf) (l := l)
      (by obtain ⟨p, hp⟩ := Option.ne_none_iff_exists'.mp hlive
          obtain ⟨i, hi⟩ := (sh.wf g.wf).lpar_edge (l := l) (p := q) (lpar_of (by rw [setLf_lf, Arena.get_set_live hL, if_pos rfl]))
          exact ((sh.wf g.wf).klf hi).2 ▸ by simp)
    have hrun : repairRun ropeTrait s [.write l f, .fix l true (some d)] = .ok s' := by
      simp only [repairRun, RepairOp.run, hg, pure_ok, bind_ok, h1]
    refine ⟨s', hrun, ?_, ?_⟩
    · rintro ⟨h', hi'⟩
      obtain ⟨⟨lvl', g'⟩, -⟩ := id hi'
      have hroot := C74_diff_root h1
      have hroot : s.rootCache + d = s'.rootCache := Except.ok.inj hroot
      have hm1 := (entries_mem g.wf).mpr (elm_of hL)
      obtain ⟨U, V, hUV⟩ := List.append_of_mem hm1
      have hent' : entries s' = U ++ (l, f e2) :: V := by
        refine entries_upd g.wf (h2.order.trans sh.order) (fun k => ?_) hUV
        rw [← hel k]; simp only [elm, h3]
      have ho : order s ≠ [] := fun ho => by rw [entries, ho] at hUV; simp [entriesOf] at hUV
      have ho' : order s' ≠ [] := by rw [h2.order, sh.order]; exact ho
      have e1 := rootCache_spec g (InvH.ne (A := ropeLaw cap) ⟨⟨lvl, g⟩, sz⟩ hm) ho
      have e2' := rootCache_spec g' (hi'.ne hm) ho'
      rw [hUV] at e1
      rw [hent'] at e2'
      have ht : ∀ cs : List Int, (ropeLaw cap).total cs = cs.sum := fun _ => rfl
      simp only [ht, List.map_append, List.map_cons, List.sum_append, List.sum_cons] at e1 e2'
      have hc : ∀ x : GapBuf, ropeTrait.elemCache x = (x.len : Int) := fun _ => rfl
      rw [hc] at e1 e2'
      show d = ((f e2).len : Int) - (e2.len : Int)
      omega
    · rintro rfl
      obtain ⟨s2, k1, -, -, k4⟩ := C74_repairs hm hi (os := [.write l f, .fix l true (some (((f e2).len : Int) - (e2.len : Int)))]) (by
        have huniq : ∀ x ∈ ledgerOf (abs s).es, x.1 = l → x.2.1 = e2 ∧ x.2.2 = e2 := by
          intro x hx hxl
          obtain ⟨y, hy, rfl⟩ := List.mem_map.mp hx
          have := (entries_mem g.wf).mp (show (y.1, y.2) ∈ entries s from hy)
          rw [show y.1 = l from hxl, elm_of hL] at this
          cases this
          exact ⟨rfl, rfl⟩
        refine ⟨fun x hx hxl => by rw [(huniq x hx hxl).1]; exact hok, ⟨?_, fun _ => rfl, ?_⟩, trivial⟩
        · have : l ∈ (ledgerOf (abs s).es).map Prod.fst :=
            List.mem_map.mpr ⟨(l, e2, e2), List.mem_map.mpr ⟨(l, e2), (entries_mem g.wf).mpr (elm_of hL), rfl⟩, rfl⟩
          simpa [RepairOp.book, Function.comp_def, apply_ite] using this
        · intro d' _ hd' x hx hxl
          cases hd'
          obtain ⟨y, hy, rfl⟩ := List.mem_map.mp hx
          by_cases hy1 : y.1 = l
          · rw [if_pos hy1]
            show (_ : Int) = _ + _
            simp only [(huniq y hy hy1).1, (huniq y hy hy1).2]
            show ((f e2).len : Int) = (e2.len : Int) + _
            omega
          · rw [if_neg hy1] at hxl; exact absurd hxl hy1)
      rw [hrun] at k1
      cases k1
      refine k4.mpr fun x hx => ?_
      simp only [bookAll, List.foldl_cons, List.foldl_nil, RepairOp.book, List.map_map, List.mem_map] at hx
      obtain ⟨y, hy, rfl⟩ := hx
      obtain ⟨z, hz, rfl⟩ := List.mem_map.mp hy
      simp only [Function.comp_apply]
      split <;> rfl

/-- thirty keys `0, 2, …, 58`: two keys are written, one of them twice, and the two leaves repaired in the other order -/
example : ∃ s', repairRun (ordTrait Nat Nat) ordSample
      [.write 7 (fun x => (15, x.2)), .write 29 (fun x => (x.1 + 1, x.2)), .write 7 (fun x => (x.1, 99)), .fix 29 false none, .fix 7 false none] = .ok s' ∧
    Inv (ordLaw Nat Nat) 6 s' ∧ (15, 99) ∈ (abs s').es.map Prod.snd ∧ (59, 29) ∈ (abs s').es.map Prod.snd := by
  obtain ⟨s', h1, h2, h3⟩ := C74_batch (A := ordLaw Nat Nat) (m := 6) (by decide) ordSample_spec.1
    (ws := [(7, fun x => (15, x.2)), (29, fun x => (x.1 + 1, x.2)), (7, fun x => (x.1, 99))]) (ls := [29, 7])
    (by simp) (by rw [ordSample_spec.2]; decide) (fun _ _ _ _ => trivial)
  refine ⟨s', h1, h2, ?_, ?_⟩ <;> rw [h3, ordSample_spec.2] <;> decide

/-- one repair too few: the tree is not valid, and the root cache is that of the old last key -/
example : ∃ s', repairRun (ordTrait Nat Nat) ordSample [.write 29 (fun x => (99, x.2)), .write 7 (fun x => (15, x.2)), .fix 7 false none] = .ok s' ∧
    ¬ Inv (ordLaw Nat Nat) 6 s' ∧ s'.rootCache = some (0, 58) := by
  obtain ⟨s', h1, -, h3, h4⟩ := C74_repairs (A := ordLaw Nat Nat) (m := 6) (by decide) ordSample_spec.1
    (os := [.write 29 (fun x => (99, x.2)), .write 7 (fun x => (15, x.2)), .fix 7 false none])
    ⟨fun _ _ _ => trivial, fun _ _ _ => trivial,
      ⟨by rw [ordSample_spec.2]; decide, (fun h => absurd h (by decide)), (fun _ h => absurd h (by decide))⟩, trivial⟩
  refine ⟨s', h1, fun hi => ?_, ?_⟩
  · have := h4.mp hi (29, (99, 29), (58, 29)) (by rw [ordSample_spec.2]; decide)
    exact absurd this (by decide)
  · rw [h3 (by rw [ordSample_spec.2]; decide), ordSample_spec.2]
    decide

/-- a chunk of a rope shrinks from three bytes to two: the diff is `-1` -/
example : ∃ s', repairRun ropeTrait ropeSample [.write 4 (fun _ => ⟨[7, 8, 0, 0], 2, 2⟩), .fix 4 true (some (-1))] = .ok s' ∧ Inv (ropeLaw 4) 5 s' := by
  obtain ⟨s', h1, h2⟩ := C74_rope_diff (m := 5) (by decide) ropeSample_spec.1 (l := 4) (e := ⟨[4, 1, 2, 0], 3, 1⟩)
    (f := fun _ => ⟨[7, 8, 0, 0], 2, 2⟩) ((getElem_entries ropeSample_spec.1).mpr (by rw [ropeSample_spec.2]; decide))
    ⟨by simp [GapBuf.WF], rfl⟩ (-1)
  exact ⟨s', h1, h2.mpr (by decide)⟩

/-- a write that changes the cache, and no repair: `check` fails -/
example : ∃ s', repairRun ropeTrait ropeSample [.write 4 (fun _ => ⟨[7, 8, 0, 0], 2, 2⟩)] = .ok s' ∧ check ropeTrait s' ≠ .ok () := by
  have hv : validRepairs (ropeLaw 4) (ledgerOf (abs ropeSample).es) [.write 4 (fun _ => ⟨[7, 8, 0, 0], 2, 2⟩)] := ⟨fun _ _ _ => ⟨by simp [GapBuf.WF], rfl⟩, trivial⟩
  obtain ⟨s', h1, -⟩ := C74_repairs (A := ropeLaw 4) (m := 5) (by decide) ropeSample_spec.1 hv
  refine ⟨s', h1, fun hc => ?_⟩
  have := (C74_check (by decide) ropeSample_two (by decide) (by rw [ropeSample_es]; decide) hv h1).mp hc (4, ⟨[7, 8, 0, 0], 2, 2⟩, chunk 4) (by rw [ropeSample_es]; decide)
  exact absurd this (by decide)

example := C74_dead ropeSample_spec.1 (l := 30) (by rw [ropeSample_es]; decide) true (some 1)

/-- a repair with the diff 5, of a tree of one leaf -/
example : ∃ s s', pushList ropeTrait (newTree ropeTrait) [⟨[1, 2, 3, 4], 4, 0⟩] = .ok s ∧ recursiveUpdateCache ropeTrait s (.leaf 0) true (some 5) = .ok s' ∧
    ropeTrait.apply s.rootCache 5 = .ok s'.rootCache := ⟨_, _, rfl, rfl, C74_diff_root (B := ropeTrait) (l := 0) rfl⟩

example := C74_ord_diff (s := ordSample) (l := 11) (d := ())

end GB
