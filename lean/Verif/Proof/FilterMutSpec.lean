import Verif.Proof.FilterMut
import Verif.Proof.CheckSound
import Verif.Proof.OrdMap

/-!
# `update_cache_and_elem_with_filter`: the whole tree, logs and contents
-/

namespace GB
variable {E C D σ : Type}
open Tree

section
variable {s s' : Tree E C} {lvl : Nat → Nat} {h : Nat}

theorem updateFilter_spec (w : WF s lvl h) (f : σ → C → σ × C × Bool) (g : σ → E → σ × E) (st : σ) :
    ∃ t s', shapeOf s h (.internal s.root) = some t ∧ updateCacheAndElemWithFilter f g st s = .ok ((Shape.visit f g h st t).1, s') ∧
      shapeOf s' h (.internal s'.root) = some (Shape.visit f g h st t).2 ∧ SameShape s s' ∧ s'.rootCache = s.rootCache := by
  obtain ⟨i, hi⟩ := w.root'
  have hr : AtLvl s lvl h (.internal s.root) := ⟨by rw [hi]; simp, w.root_lvl⟩
  obtain ⟨t, s', k1, k2, k3, k4⟩ := visitOk f g h s _ st w hr
  have hle := size_root_le w
  obtain ⟨N', n1, n2⟩ := k4 (leafFuel s) [] (by unfold leafFuel; omega)
  obtain ⟨N, rfl⟩ : ∃ N, N' = N + 1 := ⟨N' - 1, by unfold leafFuel at n1; omega⟩
  refine ⟨t, s', k1, ?_, by rw [k3.sh.root]; exact k2, k3.sh, k3.rc⟩
  rw [updateCacheAndElemWithFilter, n2]
  rfl

/-- the elements of the nested list are the elements of the tree -/
theorem shape_elems : ∀ (n : Nat) (a : Idx) (t : Shape C E n), shapeOf s n a = some t → Shape.elems n t = (entriesOf s (sub s n a)).map Prod.snd := by
  intro n
  induction n with
  | zero =>
    intro a t ht
    cases a with
    | internal x => cases ht
    | leaf l =>
      have ht : elm s l = some t := ht
      show [t] = _
      rw [show sub s 0 (.leaf l) = [l] from rfl, entriesOf]
      simp only [List.filterMap_cons, List.filterMap_nil]
      rw [ht]
      rfl
  | succ n ih =>
    intro a t ht
    cases a with
    | leaf l => cases ht
    | internal x =>
      replace ht : ((chs s x).mapM fun c => (shapeOf s n c.arena).map fun t => (c.cache, t)) = some t := ht
      show List.flatMap (fun x => Shape.elems n x.2) t = _
      rw [show sub s (n + 1) (.internal x) = leavesAt s (n + 1) x from rfl, leavesAt_succ, kids_chs]
      generalize chs s x = cs at ht ⊢
      induction cs generalizing t with
      | nil =>
        rw [List.mapM_nil] at ht
        cases ht
        rfl
      | cons c cs ihc =>
        rw [List.mapM_cons] at ht
        cases hc : shapeOf s n c.arena with
        | none => rw [hc] at ht; cases ht
        | some tc =>
          cases hcs : (cs.mapM fun c => (shapeOf s n c.arena).map fun t => (c.cache, t)) with
          | none => rw [hc, hcs] at ht; cases ht
          | some ts =>
            rw [hc, hcs] at ht
            cases ht
            have e := ihc ts hcs
            rw [List.map_cons, List.flatMap_cons, List.flatMap_cons, entriesOf_append, List.map_append, ← e, ← ih _ _ hc]

theorem shape_root (w : WF s lvl h) {t : Shape C E h} (ht : shapeOf s h (.internal s.root) = some t) : Shape.elems h t = (entries s).map Prod.snd := by
  rw [shape_elems h _ t ht, entries, order]
  obtain ⟨i, hi⟩ := w.root'
  obtain ⟨N, hN⟩ := lnk_isSome.mp (show lnk s s.root ≠ none by rw [hi]; simp)
  have := leavesAt_stable w s.inn.items.length s.root ⟨N, hN⟩ (by rw [w.root_lvl]; exact w.h_le)
  rw [this, w.root_lvl]
  rfl

end

/-! ## Closures without side effects, with a log -/

/-- the filter: `p` decides, `u` is the new cache; the cache is logged -/
def logF (p : C → Bool) (u : C → C) (st : List C × List E) (c : C) : (List C × List E) × C × Bool := ((st.1 ++ [c], st.2), u c, p c)

/-- `v` is the new element; the element is logged -/
def logG (v : E → E) (st : List C × List E) (e : E) : (List C × List E) × E := ((st.1, st.2 ++ [e]), v e)

theorem askAll_log {X : Type} (p : C → Bool) (u : C → C) : ∀ (cs : List (C × X)) (st : List C × List E),
    askAll (logF p u) st cs = ((st.1 ++ cs.map Prod.fst, st.2), cs.map fun x => (u x.1, p x.1, x.2)) := by
  intro cs
  induction cs with
  | nil => intro st; simp [askAll]
  | cons x cs ih => intro st; simp [askAll, ih, logF]

theorem visit_log (p : C → Bool) (u : C → C) (v : E → E) : ∀ (n : Nat) (t : Shape C E n) (st : List C × List E),
    (Shape.visit (logF p u) (logG v) n st t).2 = Shape.replace p u v n t ∧
    (Shape.visit (logF p u) (logG v) n st t).1.2 = st.2 ++ (Shape.picked p n t).reverse ∧
    ((Shape.visit (logF p u) (logG v) n st t).1.1).Perm (st.1 ++ Shape.asked p n t) := by
  intro n
  induction n with
  | zero =>
    intro t st
    refine ⟨rfl, rfl, ?_⟩
    show List.Perm st.1 (st.1 ++ [])
    simp
  | succ n ih =>
    intro t st
    have key : ∀ (t : List (C × Shape C E n)) (st : List C × List E),
        (visitRev (Shape.visit (logF p u) (logG v) n) st (t.map fun x => (u x.1, p x.1, x.2))).2 =
          List.map (fun x => (u x.1, if p x.1 then Shape.replace p u v n x.2 else x.2)) t ∧
        (visitRev (Shape.visit (logF p u) (logG v) n) st (t.map fun x => (u x.1, p x.1, x.2))).1.2 =
          st.2 ++ (List.flatMap (fun x => if p x.1 then Shape.picked p n x.2 else []) t).reverse ∧
        ((visitRev (Shape.visit (logF p u) (logG v) n) st (t.map fun x => (u x.1, p x.1, x.2))).1.1).Perm
          (st.1 ++ List.flatMap (fun x => if p x.1 then Shape.asked p n x.2 else []) t) := by
      intro t
      induction t with
      | nil => intro st; simp [visitRev]
      | cons x t iht =>
        intro st
        obtain ⟨k1, k2, k3⟩ := iht st
        rw [List.map_cons, visitRev]
        generalize visitRev (Shape.visit (logF p u) (logG v) n) st (t.map fun x => (u x.1, p x.1, x.2)) = R at *
        obtain ⟨R1, R2⟩ := R
        simp only at k1 k2 k3
        cases hp : p x.1 with
        | false => simp [hp, k1, k2, k3]
        | true =>
          obtain ⟨q1, q2, q3⟩ := ih x.2 R1
          simp only [hp, if_true, List.map_cons, List.flatMap_cons, List.reverse_append]
          refine ⟨by rw [q1, k1], by rw [q2, k2, List.append_assoc], ?_⟩
          refine q3.trans ?_
          refine (k3.append_right _).trans ?_
          rw [List.append_assoc]
          exact List.Perm.append_left _ List.perm_append_comm
    have hv : Shape.visit (logF p u) (logG v) (n + 1) st t = visitRev (Shape.visit (logF p u) (logG v) n) (st.1 ++ List.map Prod.fst t, st.2)
        (List.map (fun x => (u x.1, p x.1, x.2)) t) := by
      show visitRev (Shape.visit (logF p u) (logG v) n) (askAll (logF p u) st _).1 (askAll (logF p u) st _).2 = _
      have e := askAll_log (E := E) (X := Shape C E n) p u t st
      exact congrArg (fun r => visitRev (Shape.visit (logF p u) (logG v) n) r.1 r.2) e
    obtain ⟨k1, k2, k3⟩ := key t (st.1 ++ List.map Prod.fst t, st.2)
    rw [hv]
    refine ⟨k1, k2, k3.trans ?_⟩
    rw [List.append_assoc]
    refine List.Perm.append_left _ ?_
    show List.Perm _ (List.flatMap (fun x => x.1 :: if p x.1 then Shape.asked p n x.2 else []) t)
    have key2 : ∀ t : List (C × Shape C E n), List.Perm (t.map Prod.fst ++ List.flatMap (fun x => if p x.1 then Shape.asked p n x.2 else []) t)
        (List.flatMap (fun x => x.1 :: if p x.1 then Shape.asked p n x.2 else []) t) := by
      intro t
      induction t with
      | nil => exact .nil
      | cons x t iht =>
        simp only [List.map_cons, List.flatMap_cons, List.cons_append]
        refine List.Perm.cons _ ?_
        rw [← List.append_assoc]
        refine (List.Perm.append_right _ List.perm_append_comm).trans ?_
        rw [List.append_assoc]
        exact List.Perm.append_left _ iht
    exact key2 t

theorem picked_all {p : C → Bool} (hp : ∀ c, p c = true) : ∀ (n : Nat) (t : Shape C E n), Shape.picked p n t = Shape.elems n t ∧ Shape.asked p n t = Shape.caches n t := by
  intro n
  induction n with
  | zero => intro t; exact ⟨rfl, rfl⟩
  | succ n ih =>
    intro t
    have e1 : Shape.picked p (n + 1) t = List.flatMap (fun x => if p x.1 then Shape.picked p n x.2 else []) t := rfl
    have e2 : Shape.asked p (n + 1) t = List.flatMap (fun x => x.1 :: if p x.1 then Shape.asked p n x.2 else []) t := rfl
    rw [e1, e2]
    simp only [hp, if_true, ih]
    exact ⟨rfl, rfl⟩

theorem replace_all {p : C → Bool} (hp : ∀ c, p c = true) (u : C → C) (v : E → E) : ∀ (n : Nat) (t : Shape C E n),
    Shape.elems n (Shape.replace p u v n t) = (Shape.elems n t).map v ∧ Shape.caches n (Shape.replace p u v n t) = (Shape.caches n t).map u := by
  intro n
  induction n with
  | zero => intro t; exact ⟨rfl, rfl⟩
  | succ n ih =>
    have key : ∀ t : List (C × Shape C E n),
        List.flatMap (fun x => Shape.elems n x.2) (List.map (fun x => (u x.1, if p x.1 then Shape.replace p u v n x.2 else x.2)) t) =
          (List.flatMap (fun x => Shape.elems n x.2) t).map v ∧
        List.flatMap (fun x => x.1 :: Shape.caches n x.2) (List.map (fun x => (u x.1, if p x.1 then Shape.replace p u v n x.2 else x.2)) t) =
          (List.flatMap (fun x => x.1 :: Shape.caches n x.2) t).map u := by
      intro t
      induction t with
      | nil => exact ⟨rfl, rfl⟩
      | cons x t iht =>
        simp only [List.map_cons, List.flatMap_cons, hp, if_true, ih, List.map_append] at iht ⊢
        simp only [iht.1, iht.2, List.cons_append, true_and]
    intro t
    exact key t

theorem Arena.set_self {α : Type} {a : Arena α} {i : Nat} {v : α} (h : a.get i = some v) : a.set i v = a := by
  obtain ⟨items⟩ := a
  simp only [Arena.set, Arena.get] at *
  congr 1
  apply List.ext_getElem?
  intro j
  rw [List.getElem?_set]
  split
  · next hj =>
    subst hj
    cases hx : items[i]? with
    | none => rw [hx] at h; cases h
    | some o =>
      rw [hx] at h
      rw [if_pos (List.getElem?_eq_some_iff.mp hx).1]
      simpa using h.symm
  · rfl

/-! ## Updates that do not change any cache -/

theorem filterMut_neutral {B : Trait E C D} {A : Law B} {f : σ → C → σ × C × Bool} {g : σ → E → σ × E} (hf : ∀ st c, (f st c).2.1 = c)
    (hg : ∀ st e, A.okE e → A.okE (g st e).2 ∧ B.elemCache (g st e).2 = B.elemCache e) {lvl : Nat → Nat} {h : Nat} :
    ∀ (N : Nat) (st : σ) (s : Tree E C) (stack : List Idx) (st' : σ) (s' : Tree E C), Good A s lvl h → filterMutF f g N st s stack = .ok (st', s') →
      Good A s' lvl h ∧ SameShape s s' := by
  have hch : ∀ (cs : List (Child C)) st, (filterMutChildren f st cs).2.1 = cs := by
    intro cs
    induction cs with
    | nil => intro st; rfl
    | cons c cs ih =>
      intro st
      rw [filterMutChildren]
      simp only [ih, hf]
  intro N
  induction N with
  | zero => intro st s stack st' s' _ hr; cases hr
  | succ N ih =>
    intro st s stack st' s' gd hr
    cases stack with
    | nil => rw [filterMutF] at hr; cases hr; exact ⟨gd, .refl _⟩
    | cons a stack =>
      cases a with
      | leaf l =>
        rw [filterMutF] at hr
        obtain ⟨L, hL, hr⟩ := bind_inv hr
        have hL : s.lf.get l = some L := by
          simp only [getLf, unwrap] at hL
          cases hx : s.lf.get l with
          | none => rw [hx] at hL; cases hL
          | some c => rw [hx] at hL; cases hL; rfl
        obtain ⟨e, q⟩ := L
        have he : elm s l = some e := by simp [elm, hL]
        obtain ⟨k1, k2⟩ := hg st e (gd.okE l e he)
        obtain ⟨g1, sh1, -⟩ := Good.same_cache gd hL k1 k2
        obtain ⟨g2, sh2⟩ := ih _ _ _ _ _ g1 hr
        exact ⟨g2, sh1.trans sh2⟩
      | internal x =>
        rw [filterMutF] at hr
        obtain ⟨X, hX, hr⟩ := bind_inv hr
        have hX := getIn_inv hX
        have e := hch X.children st
        generalize filterMutChildren f st X.children = R at hr e
        obtain ⟨st1, cs1, push⟩ := R
        simp only at hr e
        subst e
        have : s.setIn x X = s := by
          show { s with inn := s.inn.set x X } = s
          rw [Arena.set_self hX]
        rw [show ({ parent := X.parent, slot := X.slot, children := X.children } : Node C) = X from rfl, this] at hr
        exact ih _ _ _ _ _ gd hr

end GB
