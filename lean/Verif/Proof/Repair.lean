import Verif.Spec.Repair
import Verif.Proof.Caches
import Verif.Proof.Abs

/-!
# Writes and repairs, against a ghost tree

The caches of the tree are those of a valid tree that holds the elements the caches were last told about.
-/

namespace GB
variable {E C D : Type} {B : Trait E C D} {A : Law B}
open Tree

/-- the same nodes over other leaves -/
def withLf (s : Tree E C) (lf : Arena (LeafNode E)) : Tree E C := { s with lf := lf }

theorem recUpdDiff_lf : ∀ (n : Nat) (s : Tree E C) (x : Nat) (d : D) (lf : Arena (LeafNode E)),
    recUpdDiff B n (withLf s lf) x d = (recUpdDiff B n s x d).map (withLf · lf) := by
  intro n
  induction n with
  | zero => intro s x d lf; rfl
  | succ n ih =>
    intro s x d lf
    simp only [recUpdDiff]
    have hg : ∀ y, (withLf s lf).getIn y = s.getIn y := fun _ => rfl
    rw [hg]
    cases s.getIn x with
    | error e => rfl
    | ok N =>
      simp only [bind_ok]
      cases N.parent with
      | none =>
        simp only [show (withLf s lf).rootCache = s.rootCache from rfl]
        cases B.apply s.rootCache d with
        | error e => rfl
        | ok c => rfl
      | some p =>
        simp only [hg]
        cases s.getIn p with
        | error e => rfl
        | ok P =>
          simp only [bind_ok]
          cases vget P.children N.slot with
          | error e => rfl
          | ok ch =>
            simp only [bind_ok]
            cases B.apply ch.cache d with
            | error e => rfl
            | ok c => exact ih (s.setIn p _) p d lf

theorem recUpdCalc_lf : ∀ (n : Nat) (s : Tree E C) (x : Nat) (lf : Arena (LeafNode E)),
    recUpdCalc B n (withLf s lf) x = (recUpdCalc B n s x).map (withLf · lf) := by
  intro n
  induction n with
  | zero => intro s x lf; rfl
  | succ n ih =>
    intro s x lf
    simp only [recUpdCalc]
    have hg : ∀ y, (withLf s lf).getIn y = s.getIn y := fun _ => rfl
    rw [hg]
    cases s.getIn x with
    | error e => rfl
    | ok N =>
      simp only [bind_ok]
      cases N.parent with
      | none =>
        simp only [show (withLf s lf).rootCache = s.rootCache from rfl, show (withLf s lf).root = s.root from rfl, hg]
        cases s.getIn s.root with
        | error e => rfl
        | ok R =>
          simp only [bind_ok]
          cases calcCache B R s.rootCache none with
          | error e => rfl
          | ok c => rfl
      | some p =>
        simp only [hg]
        cases assertM (decide (x ≠ p)) with
        | error e => rfl
        | ok _ =>
          simp only [bind_ok]
          cases s.getIn p with
          | error e => rfl
          | ok P =>
            simp only [bind_ok]
            cases vget P.children N.slot with
            | error e => rfl
            | ok ch =>
              simp only [bind_ok]
              cases calcCache B N ch.cache none with
              | error e => rfl
              | ok c => exact ih (s.setIn p _) p lf

/-- of the leaves, `recursive_update_cache` reads the one it is given -/
theorem recursiveUpdateCache_lf (s : Tree E C) (l : Nat) (c : Bool) (d : Option D) (lf : Arena (LeafNode E)) (hl : lf.get l = s.lf.get l) :
    recursiveUpdateCache B (withLf s lf) (.leaf l) c d = (recursiveUpdateCache B s (.leaf l) c d).map (withLf · lf) := by
  have hg : ∀ y, (withLf s lf).getIn y = s.getIn y := fun _ => rfl
  have hl' : (withLf s lf).getLf l = s.getLf l := by simp only [getLf, withLf, hl]
  simp only [recursiveUpdateCache, hl', hg]
  cases s.getLf l with
  | error e => rfl
  | ok L =>
    simp only [bind_ok]
    cases s.getIn L.parent with
    | error e => rfl
    | ok N =>
      simp only [bind_ok]
      cases getLeafSlot N.children l with
      | error e => rfl
      | ok i =>
        simp only [bind_ok]
        cases vget N.children i with
        | error e => rfl
        | ok ch =>
          simp only [bind_ok, pure_ok]
          generalize hs1 : s.setIn L.parent { N with children := N.children.set i { ch with cache := B.elemCache L.elem } } = s1
          have hs2 : (withLf s lf).setIn L.parent { N with children := N.children.set i { ch with cache := B.elemCache L.elem } } =
              withLf s1 lf := by rw [← hs1]; rfl
          rw [hs2]
          have hf : (withLf s1 lf).fuel = s1.fuel := rfl
          have hg1 : ∀ y, (withLf s1 lf).getIn y = s1.getIn y := fun _ => rfl
          cases c with
          | false => simp only [hf]; exact recUpdCalc_lf _ _ _ _
          | true =>
            cases d with
            | some d => simp only [hf]; exact recUpdDiff_lf _ _ _ _ _
            | none =>
              simp only [hg1]
              cases s1.getIn L.parent with
              | error e => rfl
              | ok N1 =>
                simp only [bind_ok]
                cases N1.parent with
                | none =>
                  simp only [show (withLf s1 lf).rootCache = s1.rootCache from rfl, show (withLf s1 lf).root = s1.root from rfl]
                  cases s1.getIn s1.root with
                  | error e => rfl
                  | ok R =>
                    simp only [bind_ok]
                    cases calcCache B R s1.rootCache none with
                    | error e => rfl
                    | ok c => rfl
                | some p =>
                  simp only
                  cases assertM (decide (L.parent ≠ p)) with
                  | error e => rfl
                  | ok _ =>
                    simp only [bind_ok]
                    cases s1.getIn p with
                    | error e => rfl
                    | ok P =>
                      simp only [bind_ok]
                      cases vget P.children N1.slot with
                      | error e => rfl
                      | ok ch1 =>
                        simp only [bind_ok]
                        cases calcCache B N1 ch1.cache none with
                        | error e => rfl
                        | ok c => exact recUpdDiff_lf _ (s1.setIn p _) _ _ _

/-- The tree `s` and its ledger: the nodes of `s` are those of the valid tree `g`, over other elements. -/
structure Booked (A : Law B) (m : Fill) (h : Nat) (lvl : Nat → Nat) (k : Ledger E) (g s : Tree E C) : Prop where
  good : Good A g lvl h
  sz : Sz m g h
  eq : s = withLf g s.lf
  items : s.lf.items.length = g.lf.items.length
  lf : ∀ l, (s.lf.get l).map LeafNode.parent = (g.lf.get l).map LeafNode.parent
  told : entries g = k.map fun x => (x.1, x.2.2)
  held : entries s = k.map fun x => (x.1, x.2.1)
  okE : ∀ l e, elm s l = some e → A.okE e

variable {m : Fill} {h : Nat} {lvl : Nat → Nat} {k : Ledger E} {g s : Tree E C}

theorem Booked.shape (b : Booked A m h lvl k g s) : SameShape g s := by
  refine ⟨by rw [b.eq]; rfl, by rw [b.eq]; rfl, b.items, fun x => by rw [b.eq]; rfl, b.lf⟩

theorem Booked.start (gd : Good A s lvl h) (sz : Sz m s h) : Booked A m h lvl (ledgerOf (entries s)) s s :=
  ⟨gd, sz, rfl, rfl, fun _ => rfl, by simp [ledgerOf, Function.comp_def], by simp [ledgerOf, Function.comp_def], gd.okE⟩

theorem Booked.nodup (b : Booked A m h lvl k g s) : (k.map Prod.fst).Nodup := by
  have := entries_nodup b.good.wf
  rw [b.told, List.map_map] at this
  exact this

theorem book_split : ∀ {k : Ledger E} {l : Nat}, (k.map Prod.fst).Nodup → l ∈ k.map Prod.fst →
    ∃ U e e0 V, k = U ++ (l, e, e0) :: V ∧ ∀ F : Nat × E × E → Nat × E × E,
      (k.map fun x => if x.1 = l then F x else x) = U ++ F (l, e, e0) :: V := by
  intro k l
  induction k with
  | nil => intro _ hl; simp at hl
  | cons x k ih =>
    intro nd hl
    rw [List.map_cons, List.nodup_cons] at nd
    obtain ⟨a, e, e0⟩ := x
    by_cases ha : a = l
    · subst ha
      refine ⟨[], e, e0, k, rfl, fun F => ?_⟩
      rw [List.map_cons, if_pos rfl]
      have : (k.map fun x => if x.1 = a then F x else x) = k := by
        conv => rhs; rw [← List.map_id k]
        apply List.map_congr_left
        intro y hy
        rw [if_neg (fun e => nd.1 (List.mem_map.mpr ⟨y, hy, e⟩))]
        rfl
      rw [this]; rfl
    · obtain ⟨U, e', e0', V, h1, h2⟩ := ih nd.2 (by
        rw [List.map_cons, List.mem_cons] at hl
        rcases hl with hl | hl
        · exact absurd hl.symm ha
        · exact hl)
      refine ⟨(a, e, e0) :: U, e', e0', V, by rw [h1]; rfl, fun F => ?_⟩
      rw [List.map_cons, if_neg ha, h2 F]; rfl

theorem book_miss {k : Ledger E} {l : Nat} (hl : l ∉ k.map Prod.fst) (F : Nat × E × E → Nat × E × E) :
    (k.map fun x => if x.1 = l then F x else x) = k := by
  conv => rhs; rw [← List.map_id k]
  apply List.map_congr_left
  intro y hy
  rw [if_neg (fun e => hl (List.mem_map.mpr ⟨y, hy, e⟩))]
  rfl

theorem Booked.write (b : Booked A m h lvl k g s) (l : Nat) (f : E → E) (hv : (RepairOp.write (D := D) l f).valid A k) :
    Booked A m h lvl ((RepairOp.write (D := D) l f).book k) g (getElemMut s l f).2 := by
  have w := b.shape.wf b.good.wf
  by_cases hl : l ∈ k.map Prod.fst
  · obtain ⟨U, e, e0, V, hk, hF⟩ := book_split b.nodup hl
    have hent : entries s = U.map (fun x => (x.1, x.2.1)) ++ (l, e) :: V.map (fun x => (x.1, x.2.1)) := by
      rw [b.held, hk]; simp
    obtain ⟨u, v, p1, -, -, hle⟩ := entries_split w hent
    obtain ⟨e2, q, i, N, hL, he2, -⟩ := leaf_get w (l := l) (by rw [p1]; simp)
    rw [hle] at he2
    cases he2
    have sh : SameShape s (s.setLf l ⟨f e, q⟩) := SameShape.setLf hL rfl
    have hel : ∀ k, elm (s.setLf l ⟨f e, q⟩) k = if k = l then some (f e) else elm s k :=
      fun k => elm_setLf s (by rw [lpar_of hL]; simp) ⟨f e, q⟩ k
    have hg : (getElemMut s l f).2 = s.setLf l ⟨f e, q⟩ := by rw [getElemMut, hL]
    rw [hg]
    have hb := hF fun x => (x.1, f x.2.1, x.2.2)
    refine ⟨b.good, b.sz, ?_, sh.lfitems.trans b.items, fun j => (sh.lf j).trans (b.lf j), ?_, ?_, ?_⟩
    · rw [b.eq]; rfl
    · rw [b.told, RepairOp.book, hb, hk]; simp
    · rw [entries_upd w sh.order hel hent, RepairOp.book, hb]; simp
    · intro j x hx
      rw [hel] at hx
      split at hx
      · cases hx; exact hv (l, e, e0) (by rw [hk]; simp) rfl
      · exact b.okE j x hx
  · have hd : s.lf.get l = none := by
      cases hL : s.lf.get l with
      | none => rfl
      | some L =>
        refine absurd ?_ hl
        have : (l, L.elem) ∈ entries s := (entries_mem w).mpr (elm_of hL)
        rw [b.held] at this
        obtain ⟨x, hx, e⟩ := List.mem_map.mp this
        exact List.mem_map.mpr ⟨x, hx, congrArg Prod.fst e⟩
    have hg : (getElemMut s l f).2 = s := by rw [getElemMut, hd]
    rw [hg]
    have hb : (RepairOp.write (D := D) l f).book k = k := book_miss hl _
    rw [hb]
    exact b

theorem Booked.fix (b : Booked A m h lvl k g s) (l : Nat) (c : Bool) (d : Option D) (hv : (RepairOp.fix (E := E) l c d).valid A k) :
    ∃ g' s', recursiveUpdateCache B s (.leaf l) c d = .ok s' ∧ Booked A m h lvl ((RepairOp.fix (E := E) l c d).book k) g' s' ∧ s'.lf = s.lf := by
  have w := b.good.wf
  have ws := b.shape.wf w
  obtain ⟨hl, hu, hd⟩ := hv
  obtain ⟨U, e, e0, V, hk, hF⟩ := book_split b.nodup hl
  have hent : entries g = U.map (fun x => (x.1, x.2.2)) ++ (l, e0) :: V.map (fun x => (x.1, x.2.2)) := by
    rw [b.told, hk]; simp
  have hmem : (l, e) ∈ entries s := by rw [b.held, hk]; simp
  have hes := (entries_mem ws).mp hmem
  have hok := b.okE l e hes
  obtain ⟨u, v, p1, -, -, hle⟩ := entries_split w hent
  obtain ⟨e2, q, i, N, hL, he2, -⟩ := leaf_get w (l := l) (by rw [p1]; simp)
  rw [hle] at he2
  cases he2
  obtain ⟨g', h1, sh, h3, h4, h5, h6⟩ := updLeaf_spec (A := A) w b.good.cok b.good.rok b.good.cinv hL (e' := e)
    (A.elem_ok _ hok) c d hu (fun d' hc hd' => hd d' hc hd' (l, e, e0) (by rw [hk]; simp) rfl)
  have hel : ∀ k, elm g' k = if k = l then some e else elm g k := by
    intro k
    have : elm g' k = elm (g.setLf l ⟨e, q⟩) k := by simp only [elm, h3]; rfl
    rw [this, elm_setLf g (by rw [lpar_of hL]; simp)]
  have hsl : s.lf.get l = some ⟨e, q⟩ := by
    have h7 := b.lf l
    rw [hL] at h7
    cases hsl : s.lf.get l with
    | none => rw [hsl] at h7; simp at h7
    | some L =>
      obtain ⟨a, p⟩ := L
      rw [hsl] at h7
      simp only [Option.map_some, Option.some.injEq] at h7
      have h8 := elm_of hsl
      rw [hes] at h8
      cases h8
      rw [h7]
  have hrun := recursiveUpdateCache_lf (B := B) (g.setLf l ⟨e, q⟩) l c d s.lf (by
    rw [hsl, setLf_lf, Arena.get_set_live hL, if_pos rfl])
  have hs : withLf (g.setLf l ⟨e, q⟩) s.lf = s := by rw [b.eq]; rfl
  rw [hs] at hrun
  have h1 : recursiveUpdateCache B (g.setLf l ⟨e, q⟩) (.leaf l) c d = .ok g' := h1
  rw [h1] at hrun
  have hb := hF fun x => (x.1, x.2.1, x.2.1)
  have hg'l : ∀ j, (s.lf.get j).map LeafNode.parent = (g'.lf.get j).map LeafNode.parent := fun j => (b.lf j).trans (sh.lf j).symm
  have hgg : SameShape g (withLf g' s.lf) := ⟨sh.root, sh.items, b.items, sh.inn, b.lf⟩
  refine ⟨g', withLf g' s.lf, hrun, ⟨⟨sh.wf w, h6, h4, h5, ?_⟩, SzX.congr sh b.sz, rfl, b.items.trans sh.lfitems.symm, hg'l, ?_, ?_, b.okE⟩, rfl⟩
  · intro j x hx
    rw [hel] at hx
    split at hx
    · cases hx; exact hok
    · exact b.good.okE j x hx
  · rw [entries_upd w sh.order hel hent, RepairOp.book, hb]; simp
  · have : entries (withLf g' s.lf) = entries s := by
      rw [entries, entries, hgg.order, b.shape.order]; rfl
    rw [this, b.held, RepairOp.book, hb, hk]; simp

theorem getElemMut_items (s : Tree E C) (l : Nat) (f : E → E) : (getElemMut s l f).2.lf.items.length = s.lf.items.length := by
  unfold getElemMut
  cases s.lf.get l with
  | none => rfl
  | some n => simp [setLf, Arena.set]

theorem Booked.run : ∀ (os : List (RepairOp E D)) {k : Ledger E} {g s : Tree E C}, Booked A m h lvl k g s → validRepairs A k os →
    ∃ g' s', repairRun B s os = .ok s' ∧ Booked A m h lvl (bookAll os k) g' s' ∧ s'.lf.items.length = s.lf.items.length := by
  intro os
  induction os with
  | nil => intro k g s b _; exact ⟨g, s, rfl, b, rfl⟩
  | cons o os ih =>
    intro k g s b hv
    obtain ⟨g1, s1, e1, b1, n1⟩ : ∃ g1 s1, o.run B s = .ok s1 ∧ Booked A m h lvl (o.book k) g1 s1 ∧ s1.lf.items.length = s.lf.items.length := by
      cases o with
      | write l f => exact ⟨g, _, rfl, b.write l f hv.1, getElemMut_items s l f⟩
      | fix l c d =>
        obtain ⟨g1, s1, e1, b1, n1⟩ := b.fix l c d hv.1
        exact ⟨g1, s1, e1, b1, by rw [n1]⟩
    obtain ⟨g2, s2, e2, b2, n2⟩ := ih b1 hv.2
    exact ⟨g2, s2, by rw [repairRun, e1, bind_ok, e2], b2, n2.trans n1⟩

/-- if the caches know the caches of the elements, the tree is valid -/
theorem Booked.inv (b : Booked A m h lvl k g s) (hc : ∀ x ∈ k, B.elemCache x.2.1 = B.elemCache x.2.2) : InvH A m h s := by
  have hinn : s.inn = g.inn := by rw [b.eq]; rfl
  have hch : ∀ p, chs s p = chs g p := fun p => by rw [b.eq]; rfl
  have ws := b.shape.wf b.good.wf
  refine ⟨⟨lvl, ws, ?_, ?_, ?_, b.okE⟩, SzX.congr b.shape b.sz⟩
  · intro p c hcm hX
    rw [hch] at hcm
    have := b.good.cinv p c hcm hX
    unfold EntryOK at *
    cases ha : c.arena with
    | internal y =>
      rw [ha] at this
      simp only [cch, hch] at *
      exact this
    | leaf l =>
      rw [ha] at this
      simp only at *
      intro e he
      have h1 := (entries_mem ws).mpr he
      rw [b.held] at h1
      obtain ⟨x, hx, ex⟩ := List.mem_map.mp h1
      have h2 : (x.1, x.2.2) ∈ entries g := by rw [b.told]; exact List.mem_map_of_mem (f := fun x : Nat × E × E => (x.1, x.2.2)) hx
      have h3 := this x.2.2 (by rw [← (entries_mem b.good.wf).mp h2, show x.1 = l from congrArg Prod.fst ex])
      rw [h3, ← hc x hx, show x.2.1 = e from congrArg Prod.snd ex]
  · intro p c hcm
    rw [hch] at hcm
    exact b.good.cok p c hcm
  · exact RootOK.congr (by rw [b.eq]; rfl) (by rw [b.eq]; rfl) b.good.rok

/-- and only then -/
theorem Booked.inv_only (b : Booked A m h lvl k g s) {lvl' : Nat → Nat} {h' : Nat} (gs : Good A s lvl' h') :
    ∀ x ∈ k, B.elemCache x.2.1 = B.elemCache x.2.2 := by
  intro x hx
  have ws := b.shape.wf b.good.wf
  have h1 : (x.1, x.2.1) ∈ entries s := by rw [b.held]; exact List.mem_map_of_mem (f := fun x : Nat × E × E => (x.1, x.2.1)) hx
  have h2 : (x.1, x.2.2) ∈ entries g := by rw [b.told]; exact List.mem_map_of_mem (f := fun x : Nat × E × E => (x.1, x.2.2)) hx
  have h1 := (entries_mem ws).mp h1
  have h2 := (entries_mem b.good.wf).mp h2
  obtain ⟨p, hp⟩ := Option.ne_none_iff_exists'.mp (elm_live h2)
  obtain ⟨i, hi⟩ := b.good.wf.lpar_edge hp
  obtain ⟨ch, hch, har⟩ := edge_chs.mp hi
  have hm := List.mem_of_getElem? hch
  have e1 := b.good.cinv p ch hm (fun f => f)
  have e2 := gs.cinv p ch (by rw [show chs s p = chs g p by rw [b.eq]; rfl]; exact hm) (fun f => f)
  simp only [EntryOK, har] at e1 e2
  rw [← e2 _ h1, ← e1 _ h2]

/-- whatever the diff, it ends up on the root cache -/
theorem recUpdDiff_root : ∀ (n : Nat) {s s' : Tree E C} {x : Nat} {d : D}, recUpdDiff B n s x d = .ok s' →
    B.apply s.rootCache d = .ok s'.rootCache := by
  intro n
  induction n with
  | zero => intro s s' x d hr; cases hr
  | succ n ih =>
    intro s s' x d hr
    simp only [recUpdDiff] at hr
    cases hN : s.getIn x with
    | error e => rw [hN] at hr; cases hr
    | ok N =>
      rw [hN, bind_ok] at hr
      cases hp : N.parent with
      | none =>
        rw [hp] at hr
        simp only at hr
        cases ha : B.apply s.rootCache d with
        | error e => rw [ha] at hr; cases hr
        | ok c => rw [ha] at hr; cases hr; rfl
      | some p =>
        rw [hp] at hr
        simp only at hr
        cases hP : s.getIn p with
        | error e => rw [hP] at hr; cases hr
        | ok P =>
          rw [hP, bind_ok] at hr
          cases hv : vget P.children N.slot with
          | error e => rw [hv] at hr; cases hr
          | ok ch =>
            rw [hv, bind_ok] at hr
            cases ha : B.apply ch.cache d with
            | error e => rw [ha] at hr; cases hr
            | ok c => rw [ha, bind_ok] at hr; exact ih (s := s.setIn p _) hr

theorem recursiveUpdateCache_root {s s' : Tree E C} {l : Nat} {d : D} (hr : recursiveUpdateCache B s (.leaf l) true (some d) = .ok s') :
    B.apply s.rootCache d = .ok s'.rootCache := by
  simp only [recursiveUpdateCache] at hr
  cases hL : s.getLf l with
  | error e => rw [hL] at hr; cases hr
  | ok L =>
    rw [hL] at hr
    simp only [bind_ok] at hr
    cases hN : s.getIn L.parent with
    | error e => rw [hN] at hr; cases hr
    | ok N =>
      rw [hN] at hr
      simp only [bind_ok] at hr
      cases hi : getLeafSlot N.children l with
      | error e => rw [hi] at hr; cases hr
      | ok i =>
        rw [hi] at hr
        simp only [bind_ok] at hr
        cases hv : vget N.children i with
        | error e => rw [hv] at hr; cases hr
        | ok ch =>
          rw [hv] at hr
          simp only [bind_ok, pure_ok] at hr
          have := recUpdDiff_root _ hr
          exact this

theorem recUpdDiff_total {d : D} (ha : ∀ c, ∃ c', B.apply c d = .ok c') : ∀ (n : Nat) (s : Tree E C) (x : Nat), WF s lvl h → lnk s x ≠ none →
    h - lvl x < n → ∃ s', recUpdDiff B n s x d = .ok s' ∧ SameShape s s' ∧ s'.lf = s.lf := by
  intro n
  induction n with
  | zero => intro s x _ _ hn; omega
  | succ n ih =>
    intro s x w hx hn
    obtain ⟨N, hN⟩ := lnk_isSome.mp hx
    simp only [recUpdDiff, getIn_ok hN, bind_ok]
    cases hp : N.parent with
    | none =>
      obtain ⟨c, hc⟩ := ha s.rootCache
      simp only [hc, bind_ok]
      exact ⟨_, rfl, SameShape.rootCache s c, rfl⟩
    | some p =>
      obtain ⟨hr, he, hl⟩ := w.parent_some hN hp
      obtain ⟨ch, hch, har⟩ := edge_chs.mp he
      obtain ⟨P, hP⟩ := lnk_isSome.mp (edge_live he)
      rw [chs_of hP] at hch
      obtain ⟨c, hc⟩ := ha ch.cache
      simp only [getIn_ok hP, bind_ok, vget_ok hch, hc]
      have sh := setEntry_shape (c' := c) hP hch
      have hplvl := (w.lvl_pos' (edge_live he)).2
      obtain ⟨s', h1, h2, h3⟩ := ih (setEntry s p P N.slot ch c) p (sh.wf w) (by
        obtain ⟨P', hP', -⟩ := sh.get hP
        exact lnk_isSome.mpr ⟨P', hP'⟩) (by omega)
      exact ⟨s', h1, sh.trans h2, h3⟩

/-- a given diff is applied without a look at the element -/
theorem recursiveUpdateCache_total {d : D} (ha : ∀ c, ∃ c', B.apply c d = .ok c') {s : Tree E C} (w : WF s lvl h) {l : Nat} (hl : lpar s l ≠ none) :
    ∃ s', recursiveUpdateCache B s (.leaf l) true (some d) = .ok s' ∧ SameShape s s' ∧ s'.lf = s.lf := by
  obtain ⟨p, hlp⟩ := Option.ne_none_iff_exists'.mp hl
  obtain ⟨i, he⟩ := w.lpar_edge hlp
  obtain ⟨e, hL, hel⟩ := getLf_of hlp
  obtain ⟨ch, hch, har⟩ := edge_chs.mp he
  obtain ⟨P, hP⟩ := lnk_isSome.mp (edge_live he)
  have hslot := getLeafSlot_wf w he
  rw [chs_of hP] at hch hslot
  have sh := setEntry_shape (c' := B.elemCache e) hP hch
  obtain ⟨s', h1, h2, h3⟩ := recUpdDiff_total ha (setEntry s p P i ch (B.elemCache e)).fuel (setEntry s p P i ch (B.elemCache e)) p (sh.wf w)
    (by obtain ⟨P', hP', -⟩ := sh.get hP; exact lnk_isSome.mpr ⟨P', hP'⟩) (fuel_ok (sh.wf w) p)
  refine ⟨s', ?_, sh.trans h2, h3⟩
  rw [← h1]
  simp only [recursiveUpdateCache, getLf_ok hL, getIn_ok hP, bind_ok, hslot, vget_ok hch, pure_ok]
  rfl

/-- the same from what `check()` finds at the leaves -/
theorem Booked.check_only (b : Booked A m h lvl k g s)
    (hc : ∀ l L, s.lf.get l = some L → ∃ (P : Node C) (i : Nat) (c : Child C), s.inn.get L.parent = some P ∧
      P.children[i]? = some c ∧ c.arena = .leaf l ∧ c.cache = B.elemCache L.elem) :
    ∀ x ∈ k, B.elemCache x.2.1 = B.elemCache x.2.2 := by
  intro x hx
  have ws := b.shape.wf b.good.wf
  have h1 : (x.1, x.2.1) ∈ entries s := by rw [b.held]; exact List.mem_map_of_mem (f := fun x : Nat × E × E => (x.1, x.2.1)) hx
  have h2 : (x.1, x.2.2) ∈ entries g := by rw [b.told]; exact List.mem_map_of_mem (f := fun x : Nat × E × E => (x.1, x.2.2)) hx
  have h1 := (entries_mem ws).mp h1
  have h2 := (entries_mem b.good.wf).mp h2
  cases hL : s.lf.get x.1 with
  | none => simp [elm, hL] at h1
  | some L =>
    rw [elm_of hL, Option.some.injEq] at h1
    obtain ⟨P, i, c, p1, p2, p3, p4⟩ := hc x.1 L hL
    have e1 := b.good.cinv L.parent c (by
      rw [show chs g L.parent = chs s L.parent by rw [b.eq]; rfl, chs_of p1]
      exact List.mem_of_getElem? p2) (fun f => f)
    simp only [EntryOK, p3] at e1
    rw [← e1 _ h2, p4, h1]

theorem bookAll_length : ∀ (os : List (RepairOp E D)) (k : Ledger E), (bookAll os k).length = k.length := by
  intro os
  induction os with
  | nil => intro k; rfl
  | cons o os ih =>
    intro k
    show (bookAll os (o.book k)).length = _
    rw [ih]
    cases o <;> simp [RepairOp.book]

theorem bookAll_append (os os' : List (RepairOp E D)) (k : Ledger E) : bookAll (os ++ os') k = bookAll os' (bookAll os k) := by
  simp [bookAll, List.foldl_append]

theorem validRepairs_append : ∀ (os os' : List (RepairOp E D)) (k : Ledger E),
    validRepairs A k (os ++ os') ↔ validRepairs A k os ∧ validRepairs A (bookAll os k) os' := by
  intro os os'
  induction os with
  | nil => intro k; simp [validRepairs, bookAll]
  | cons o os ih =>
    intro k
    rw [List.cons_append, validRepairs, validRepairs, ih, and_assoc]
    rfl

/-- a batch of plain repairs -/
theorem fixes_book : ∀ (ls : List Nat) (k : Ledger E), (∀ l ∈ ls, l ∈ k.map Prod.fst) →
    validRepairs A k (ls.map fun l => .fix l false none) ∧
    bookAll (ls.map fun l => RepairOp.fix (D := D) l false none) k = k.map fun x => if x.1 ∈ ls then (x.1, x.2.1, x.2.1) else x := by
  intro ls
  induction ls with
  | nil => intro k _; exact ⟨trivial, by simp [bookAll]⟩
  | cons l ls ih =>
    intro k hk
    have hf : ((RepairOp.fix (E := E) (D := D) l false none).book k).map Prod.fst = k.map Prod.fst := by
      rw [RepairOp.book, List.map_map]
      apply List.map_congr_left
      intro x _
      simp only [Function.comp_apply]
      split <;> rfl
    obtain ⟨h1, h2⟩ := ih ((RepairOp.fix (E := E) (D := D) l false none).book k) (fun j hj => by rw [hf]; exact hk j (by simp [hj]))
    refine ⟨⟨⟨hk l (by simp), (fun h => absurd h (by decide)), (fun _ h => absurd h (by decide))⟩, h1⟩, ?_⟩
    show bookAll _ ((RepairOp.fix (E := E) (D := D) l false none).book k) = _
    rw [h2, RepairOp.book, List.map_map]
    apply List.map_congr_left
    intro x _
    simp only [Function.comp_apply, List.mem_cons]
    by_cases hx : x.1 = l
    · simp [hx]
    · simp [hx]

/-- a batch of writes -/
theorem writes_book : ∀ (ws : List (Nat × (E → E))) (k : Ledger E), (∀ x ∈ k, A.okE x.2.1) → (∀ w ∈ ws, ∀ e, A.okE e → A.okE (w.2 e)) →
    validRepairs A k (ws.map fun w => .write w.1 w.2) ∧
    (bookAll (ws.map fun w => RepairOp.write (D := D) w.1 w.2) k).map (fun x => (x.1, x.2.1)) =
      ws.foldl (fun es w => es.map fun x => if x.1 = w.1 then (x.1, w.2 x.2) else x) (k.map fun x => (x.1, x.2.1)) ∧
    (∀ x ∈ bookAll (ws.map fun w => RepairOp.write (D := D) w.1 w.2) k, x.1 ∉ ws.map Prod.fst → x ∈ k) ∧
    (bookAll (ws.map fun w => RepairOp.write (D := D) w.1 w.2) k).map Prod.fst = k.map Prod.fst := by
  intro ws
  induction ws with
  | nil => intro k _ _; exact ⟨trivial, rfl, fun x hx _ => hx, rfl⟩
  | cons w ws ih =>
    intro k hk hw
    obtain ⟨h1, h2, h3, h4⟩ := ih ((RepairOp.write (D := D) w.1 w.2).book k) (fun x hx => by
      obtain ⟨y, hy, rfl⟩ := List.mem_map.mp hx
      split
      · exact hw w (by simp) _ (hk y hy)
      · exact hk y hy) (fun v hv => hw v (by simp [hv]))
    refine ⟨⟨fun x hx _ => hw w (by simp) _ (hk x hx), h1⟩, ?_, ?_, ?_⟩
    · show (bookAll _ ((RepairOp.write (D := D) w.1 w.2).book k)).map _ = _
      rw [h2, List.foldl_cons]
      congr 1
      rw [RepairOp.book, List.map_map, List.map_map]
      apply List.map_congr_left
      intro x _
      simp only [Function.comp_apply]
      split <;> rfl
    · intro x hx hn
      simp only [List.map_cons, List.mem_cons, not_or] at hn
      obtain ⟨y, hy, e⟩ := List.mem_map.mp (h3 x hx hn.2)
      split at e
      · rw [← e] at hn; exact absurd (by assumption) hn.1
      · rw [← e]; exact hy
    · show (bookAll _ ((RepairOp.write (D := D) w.1 w.2).book k)).map Prod.fst = _
      rw [h4, RepairOp.book, List.map_map]
      apply List.map_congr_left
      intro x _
      simp only [Function.comp_apply]
      split <;> rfl

end GB
