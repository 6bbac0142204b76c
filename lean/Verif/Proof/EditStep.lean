import Verif.Proof.EditMany
import Verif.Proof.History
import Verif.Props.C18
import Verif.Props.C20
import Verif.Props.C21
import Verif.Props.C22
import Verif.Props.C23

/-!
# One step of a history of `BOp`
-/

namespace GB
variable {E C D X : Type} {B : Trait E C D}
open Tree

/-- the cursors are in the sequence, in order, and all elements have positive length -/
def InRange (B : Trait E C D) (t : Seq E) (a b : Cursor) : Prop :=
  (∀ x ∈ t.es, 0 < B.rleLen x.2) ∧ ∃ Ua ea Va Ub eb Vb, t.es = Ua ++ (a.leaf, ea) :: Va ∧ a.offset ≤ B.rleLen ea ∧
    t.es = Ub ++ (b.leaf, eb) :: Vb ∧ b.offset ≤ B.rleLen eb ∧ unitLen B Ua + a.offset ≤ unitLen B Ub + b.offset

/-- the closure of `update_leaf_by_search` reports an exact diff, or no change of the cache -/
def SearchOK (A : Law B) (e : E) (r : M (E × Option (D × Option E × Option E))) : Prop :=
  (∃ e1 d n1, r = .ok (e1, some (d, n1, none)) ∧ A.okE e1 ∧ (∀ a, n1 = some a → A.okE a) ∧ (B.canRemove e1 = true → n1 = none ∧ LawE A) ∧
    Exact A (B.elemCache e) d ((searchResults B e1 n1).map B.elemCache)) ∨
  ∃ e1, r = .ok (e1, none) ∧ A.okE e1 ∧ B.elemCache e1 = B.elemCache e

/-- preconditions, those of C01–C04 and C18–C24; `m` is the fill bound of the tree.  Drains and updates ask for a `depth()` of at
most 8, searches for at most 10.  As `drain` guarantees only one child on the left edge, it needs `m.lo = 1`. -/
def BOp.valid (A : Law B) (R : C → D → C → Prop) (m : Fill) (s : Tree E C) : BOp E C D → Prop
  | .basic o => o.valid B A.okE (abs s)
  | .updateLeaf l f => ∃ e e1 need n1 n2, (l, e) ∈ (abs s).es ∧ f e = .ok (e1, need, n1, n2) ∧ A.okE e1 ∧ (∀ b, n1 = some b → A.okE b) ∧
      (∀ b, n2 = some b → A.okE b) ∧ (need = true ∨ B.elemCache ((survivors B e1 n1 n2).headD e1) = B.elemCache e) ∧
      (survivors B e1 n1 n2 = [] → LawE A ∧ Neutral A e1)
  | .drain a b _ => m.lo = 1 ∧ (∀ d, depth s = .ok d → d ≤ 8) ∧ InRange B (abs s) a b ∧ ∀ i, posOf B (abs s) a = some i → i < unitLen B (abs s).es
  | .update f _ a b => (∀ d, depth s = .ok d → d ≤ 8) ∧ InRange B (abs s) a b ∧ ClosureOK A R f
  | .ranges f _ args => SubLaw A R ∧ ArgOK A f ∧ ∀ a ∈ args, ∃ e, (a.1, e) ∈ (abs s).es ∧ Fits a.2.1 a.2.2.1 (B.rleLen e)
  | .insertMany c data => (∀ d ∈ data, A.okE d) ∧ ∃ e, (c.leaf, e) ∈ (abs s).es ∧ c.offset ≤ B.rleLen e
  | .bySearch q arg f => (∀ d, depth s = .ok d → d ≤ 10) ∧ ∃ r e, query q s arg = .ok (some r) ∧ (r.cursor.leaf, e) ∈ (abs s).es ∧
      ∀ fnd, SearchOK A e (f e ⟨r.cursor, fnd⟩)

theorem Inv.seqOK {A : Law B} {m : Fill} {s : Tree E C} (hi : Inv A m s) : SeqOK (abs s) := ⟨hi.nodup, fun _ hx => entries_lt hx⟩

/-- a tree that is not empty has `depth()` levels -/
theorem Inv.depth_low {A : Law B} {m : Fill} {s : Tree E C} (hi : Inv A m s) (hm : 1 ≤ m.lo) (hne : (abs s).es ≠ []) {n : Nat} (hd : ∀ d, depth s = .ok d → d ≤ n) :
    ∃ h, h ≤ n ∧ InvH A m h s := by
  obtain ⟨h, hi⟩ := hi
  have ne := hi.ne hm
  have ho : order s ≠ [] := fun h => hne ((abs_nil hi).mpr h)
  obtain ⟨lvl, g⟩ := hi.ex
  exact ⟨h, hd h (depth_spec g.wf ne ho), hi⟩

theorem seq_eta (t : Seq E) : (⟨t.next, t.es⟩ : Seq E) = t := rfl

theorem bdrain {A : Law B} {m : Fill} (hm : 1 ≤ m.lo ∧ m.lo + m.d ≤ 5) (hsl : SplitLen B A.okE) {ho : HashOrd E} {s : Tree E C} {a b : Cursor} (hlow : ∃ h, h ≤ 8 ∧ InvH A m h s) (hr : InRange B (abs s) a b)
    (hend : ∀ i, posOf B (abs s) a = some i → i < unitLen B (abs s).es) (k : Nat) :
    ∃ s', (BOp.drain a b k).run B ho s = .ok s' ∧ Inv A m.drained s' ∧ Edit (fun l => ¬ Before (abs s) l a.leaf ∧ ¬ Before (abs s) b.leaf l) (abs s) (abs s') := by
  obtain ⟨h, hh, hi'⟩ := hlow
  obtain ⟨hpos, Ua, ea, Va, Ub, eb, Vb, ha, hoa, hb, hob, hle⟩ := hr
  have sok : SeqOK (abs s) := Inv.seqOK ⟨h, hi'⟩
  have hend := hend (unitLen B Ua + a.offset) (by rw [posOf, locate_split sok.nd ha]; rfl)
  obtain ⟨⟨lvl, g⟩, sz⟩ := hi'
  obtain ⟨ua, va, o1, rfl, -, hea⟩ := entries_split g.wf ha
  obtain ⟨ub, vb, o2, rfl, -, heb⟩ := entries_split g.wf hb
  obtain ⟨Y, s', lvl', h', d1, d2, d3, -, L', R', X, n, k1, k2, k3⟩ := drain_spec hm.1 hm.2 g sz hsl
    (fun l x hx => hpos (l, x) ((entries_mem g.wf).mpr hx)) o1 hea hoa o2 heb hob hle hend true true k (.inl hh)
  refine ⟨s', by simp only [BOp.run, d1, bind_ok, pure_ok], ⟨h', ⟨lvl', d2⟩, d3⟩, ?_⟩
  have := cuts_edit sok hpos ha hb hle k1 k2 (Y' := []) (by simp)
  rw [List.append_nil, ← k3] at this
  exact this

/-- Every valid operation on a valid tree: no panic, the tree stays valid, and unless it is `clear` only the leaves it touches are changed. -/
theorem bstep {A : Law B} {R : C → D → C → Prop} {cont : E → List X} (K : ContentLaw B A.okE cont) {m : Fill} (hm : 1 ≤ m.lo ∧ m.lo + m.d ≤ 5) (hE : 2 ≤ m.lo ∨ LawE A)
    (L : DiffLaw A R) {ho : HashOrd E} (hho : ∀ l, (ho.idx l).Perm l)
    (hcur : ∀ l, (ho.cur l).Perm l) (hgrp : ∀ l, (ho.grp l).Perm l) {s : Tree E C} (hi : Inv A m s) {o : BOp E C D} (hv : o.valid A R m s) :
    ∃ s', o.run B ho s = .ok s' ∧ Inv A m s' ∧ (o ≠ .basic .clear → Edit (o.touches B s (abs s)) (abs s) (abs s')) := by
  have hsl := K.splitLen
  have sok := hi.seqOK
  cases o with
  | basic o =>
    obtain ⟨s', h1, h2, h3⟩ := step_spec (B := B) hm hE hi hv
    refine ⟨s', h1, h2, fun hc => ?_⟩
    cases o with
    | push e =>
      obtain ⟨⟨c, t'⟩, h4, h5⟩ := bind_inv h3
      cases h5
      exact push_edit sok h4
    | prepend e =>
      obtain ⟨⟨c, t'⟩, h4, h5⟩ := bind_inv h3
      cases h5
      exact prepend_edit sok h4
    | insertAt cur e =>
      obtain ⟨⟨c, t'⟩, h4, h5⟩ := bind_inv h3
      cases h5
      exact insert_edit sok h4
    | remove cur =>
      have h3 : (specRemove (abs s) cur.leaf).2 = abs s' := by simpa [Op.spec] using h3
      rw [← h3]
      exact remove_edit sok cur.leaf
    | clear => exact absurd rfl hc
  | updateLeaf l f =>
    obtain ⟨e, e1, need, n1, n2, hl, hf, ok1, okn1, okn2, hneed, hrem⟩ := hv
    obtain ⟨U, V, hes⟩ := List.append_of_mem hl
    obtain ⟨b, ids, s', h1, h2, h3⟩ := C20_update_leaf hm hi hes hf ok1 okn1 okn2 hneed hrem
    exact ⟨s', by simp only [BOp.run, h1, bind_ok, pure_ok], h2, fun _ => updateLeaf_edit sok hes h3⟩
  | drain a b k =>
    obtain ⟨hlo, hlow, hr, hend⟩ := hv
    have hlow := hi.depth_low hm.1 (by obtain ⟨-, U, e, V, -, -, -, h, -⟩ := hr; rw [h]; simp) hlow
    obtain ⟨s', h1, h2, h3⟩ := bdrain (ho := ho) hm hsl hlow hr hend k
    rw [Fill.drained_self hlo] at h2
    exact ⟨s', h1, h2, fun _ => h3⟩
  | update f st a b =>
    obtain ⟨hd, ⟨hpos, Ua, ea, Va, Ub, eb, Vb, ha, hoa, hb, hob, hle⟩, hf⟩ := hv
    obtain ⟨h, hh, hi'⟩ := hi.depth_low hm.1 (by rw [ha]; simp) hd
    obtain ⟨⟨lvl, g⟩, sz⟩ := hi'
    obtain ⟨ua, va, o1, rfl, -, hea⟩ := entries_split g.wf ha
    obtain ⟨ub, vb, o2, rfl, -, heb⟩ := entries_split g.wf hb
    obtain ⟨st', s', lvl', h', u1, -, u3, u4, -, L', R', X, n, Y, Y', k1, k2, k3, k4⟩ := update_spec hm.1 hm.2 hE L hho hf st g sz hsl
      (fun l x hx => hpos (l, x) ((entries_mem g.wf).mpr hx)) o1 hea hoa o2 heb hob hle (.inl hh)
    refine ⟨s', by simp only [BOp.run, u1, bind_ok, pure_ok], ⟨h', ⟨lvl', u3⟩, u4⟩, fun _ => ?_⟩
    have := cuts_edit sok hpos ha hb hle k1 k2 (Y' := Y'.filter fun x => !B.canRemove x.2) (by
      rw [← runOn_fst _ _ _ _ k3]
      exact List.filter_sublist.map _)
    rw [← k4] at this
    exact this
  | insertMany c data =>
    obtain ⟨hok, e, he, hoff⟩ := hv
    obtain ⟨U, V, hes⟩ := List.append_of_mem he
    by_cases hne : data = []
    · subst hne
      exact ⟨s, rfl, hi, fun _ => Edit.refl sok⟩
    · obtain ⟨data', h1, h2⟩ := mergeAdj_ok A hne hok
      obtain ⟨s', h3, h4, h5⟩ := insertMany_edit K hm hne hok h1 h2 hi hes hoff
      exact ⟨s', h3, h4, fun _ => h5⟩
  | bySearch q arg f =>
    obtain ⟨hd, r, e, hq, he, hf⟩ := hv
    obtain ⟨h, hh, hi'⟩ := hi.depth_low hm.1 (List.ne_nil_of_mem he) hd
    obtain ⟨U, V, hes⟩ := List.append_of_mem he
    obtain ⟨fnd, -, h2, h2'⟩ := C22_search hm.1 hi' hh hq hes
    rcases hf fnd with ⟨e1, d, n1, k1, k2, k3, k4, k5⟩ | ⟨e1, k1, k2, k3⟩
    · obtain ⟨cur, ids, s', u1, u2, u3⟩ := h2 hm.2 f e1 d n1 k1 k2 k3 k4 k5
      exact ⟨s', by simp only [BOp.run, u1, bind_ok, pure_ok], u2, fun _ => (search_edit sok hes u3).weaken sok (fun l _ hl => ⟨r, hq, hl⟩)⟩
    · obtain ⟨s', u1, u2, u3⟩ := h2' f e1 k1 k2 k3
      refine ⟨s', by simp only [BOp.run, u1, bind_ok, pure_ok], ⟨h, u2⟩, fun _ => ?_⟩
      rw [u3]
      exact (search_edit sok hes (.one e1)).weaken sok (fun l _ hl => ⟨r, hq, hl⟩)
  | ranges f st args =>
    obtain ⟨hsub, hf, hargs⟩ := hv
    obtain ⟨h, ⟨lvl, g⟩, sz⟩ := hi
    obtain ⟨st', new, s', lvl', h', out, blk, u1, u2, u3, u4, u5, u6, u7, u8, u9, u10, u11, u12⟩ := updateLeavesWithArg_spec hm.1 (by omega : m.lo + m.d ≤ 6) L hsub hho hcur hgrp hf st g sz hsl hargs
    have hi2 : Inv A m s' := ⟨h', ⟨lvl', u2⟩, u3⟩
    refine ⟨s', by simp only [BOp.run, u1, bind_ok, pure_ok], hi2, fun _ => ⟨?_, ?_, u10⟩⟩
    · intro l e hl he
      show (l, e) ∈ entries s'
      rw [u7, List.mem_flatMap]
      exact ⟨(l, e), he, by rw [u8 (l, e) he hl]; simp⟩
    · -- every block keeps its number
      have hnd2 := hi2.nodup
      rw [u7] at hnd2
      have hb : ∀ x ∈ entries s, ∀ k ∈ (blk x.1).map Prod.fst, k = x.1 ∨ s.lf.items.length ≤ k := by
        intro x hx k hk
        by_cases hxa : x.1 ∈ args.map (fun a => a.1)
        · have : x.1 ∈ out.map Prod.fst := by rw [u5, (hgrp _).mem_iff, List.mem_eraseDups]; exact hxa
          obtain ⟨y, hy, hyx⟩ := List.mem_map.mp this
          obtain ⟨-, -, h5⟩ := u9 y hy
          rw [hyx] at h5
          exact h5 k hk
        · rw [u8 x hx hxa] at hk
          left; simpa using hk
      show (((entries s').map Prod.fst).filter fun l => decide (l < s.lf.items.length)).Sublist ((entries s).map Prod.fst)
      rw [u7]
      revert hnd2 hb
      generalize entries s = w
      intro hnd2 hb
      induction w with
      | nil => simp
      | cons x w ih =>
        rw [List.flatMap_cons, List.map_append, List.nodup_append] at hnd2
        rw [List.flatMap_cons, List.map_append, List.filter_append, List.map_cons]
        rw [show x.1 :: w.map Prod.fst = [x.1] ++ w.map Prod.fst from rfl]
        refine List.Sublist.append ?_ (ih hnd2.2.1 (fun y hy => hb y (by simp [hy])))
        have hall : ∀ k ∈ ((blk x.1).map Prod.fst).filter (fun l => decide (l < s.lf.items.length)), k = x.1 := by
          intro k hk
          rw [List.mem_filter] at hk
          rcases hb x (by simp) k hk.1 with h | h
          · exact h
          · have := hk.2
            simp only [decide_eq_true_eq] at this
            omega
        have hnd3 := hnd2.1.filter (fun l => decide (l < s.lf.items.length))
        revert hall hnd3
        generalize ((blk x.1).map Prod.fst).filter (fun l => decide (l < s.lf.items.length)) = z
        intro hall hnd3
        match z with
        | [] => simp
        | [k] => rw [hall k (by simp)]; exact List.Sublist.refl _
        | k :: j :: z =>
          exfalso
          exact (List.pairwise_cons.mp hnd3).1 j (by simp) (by rw [hall k (by simp), hall j (by simp)])

end GB
