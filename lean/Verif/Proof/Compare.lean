import Verif.Proof.Read

/-!
# `compare_pos`
-/

namespace GB
variable {E C D : Type}
open Tree

section
variable {s : Tree E C} {lvl : Nat → Nat} {h : Nat}

/-- positions of two children of nodes in the same row -/
theorem row_before (w : WF s lvl h) {d : Nat} {x y p q : Idx} {np nq i j : Nat} {ux m vy : List Idx}
    (hrow : rowI s (d + 1) = ux ++ x :: (m ++ y :: vy)) (hp : p = .internal np) (hq : q = .internal nq)
    (hpr : p ∈ rowI s d) (hqr : q ∈ rowI s d)
    (hx : Edge s np i x) (hy : Edge s nq j y) :
    (np = nq ∧ i < j) ∨ ∃ u m' v, rowI s d = u ++ p :: (m' ++ q :: v) := by
  subst hp hq
  obtain ⟨u, v, huv⟩ := List.append_of_mem hpr
  have hx1 := row_child huv hx
  have hux := (row_uniq w hrow hx1).1
  have hrow2 : rowI s (d + 1) = (ux ++ x :: m) ++ y :: vy := by rw [hrow]; simp
  have hi := (List.getElem?_eq_some_iff.mp hx).1
  have hj := (List.getElem?_eq_some_iff.mp hy).1
  by_cases hpq : np = nq
  · subst hpq
    left
    refine ⟨rfl, ?_⟩
    have hy1 := row_child huv hy
    have := (row_uniq w hrow2 hy1).1
    have h1 := congrArg List.length this
    have h2 := congrArg List.length hux
    simp only [List.length_append, List.length_cons, List.length_take] at h1 h2
    omega
  · right
    rw [huv] at hqr
    simp only [List.mem_append, List.mem_cons, Idx.internal.injEq] at hqr
    rcases hqr with hu | hu | hu
    · -- `q` before `p`: contradiction
      exfalso
      obtain ⟨u1, u2, hu12⟩ := List.append_of_mem hu
      have huv' : rowI s d = u1 ++ .internal nq :: (u2 ++ .internal np :: v) := by rw [huv, hu12]; simp
      have hy1 := row_child huv' hy
      have := (row_uniq w hrow2 hy1).1
      have h1 := congrArg List.length this
      have h2 := congrArg List.length hux
      rw [hu12, List.flatMap_append, List.flatMap_cons] at h2
      simp only [kidsI, List.length_append, List.length_cons, List.length_take] at h1 h2
      omega
    · exact absurd hu.symm hpq
    · obtain ⟨m', v', hm⟩ := List.append_of_mem hu
      exact ⟨u, m', v', by rw [huv, hm]⟩

theorem cmpClimb_spec (w : WF s lvl h) : ∀ (n d x y : Nat) (X Y : Node C) (ux m vy : List Idx), d < h → d < n →
    rowI s d = ux ++ .internal x :: (m ++ .internal y :: vy) → s.inn.get x = some X → s.inn.get y = some Y →
    cmpClimb n s X Y = .ok .lt ∧ cmpClimb n s Y X = .ok .gt := by
  intro n
  induction n with
  | zero => intro d x y X Y ux m vy _ hn; omega
  | succ n ih =>
    intro d x y X Y ux m vy hd hn hrow hX hY
    cases d with
    | zero =>
      have := congrArg List.length hrow
      simp only [rowI, List.length_append, List.length_cons, List.length_nil] at this
      omega
    | succ d =>
      have hlx := row_live w hd hrow
      obtain ⟨x', e, hx, hlx⟩ := hlx
      cases e
      obtain ⟨y', e, hy, hly⟩ := row_live w (u := ux ++ .internal x :: m) (a := .internal y) (v := vy) hd (by rw [hrow]; simp)
      cases e
      have hxr := row_not_root w hlx hd
      have hyr := row_not_root w hly hd
      obtain ⟨p, i, hpe⟩ := w.par_in' hx hxr
      obtain ⟨q, j, hqe⟩ := w.par_in' hy hyr
      have hkx := w.kin hpe
      have hky := w.kin hqe
      have e1 := lnk_of hX
      have e2 := lnk_of hY
      rw [hkx.2] at e1
      rw [hky.2] at e2
      simp only [Option.some.injEq, Prod.mk.injEq] at e1 e2
      have hpl := edge_live hpe
      have hql := edge_live hqe
      have hpm := mem_row w d hpl (by have := w.lvl_pos' hpl; omega)
      have hqm := mem_row w d hql (by have := w.lvl_pos' hql; omega)
      obtain ⟨P, hP⟩ := lnk_isSome.mp hpl
      obtain ⟨Q, hQ⟩ := lnk_isSome.mp hql
      simp only [cmpClimb, ← e1.1, ← e2.1, ← e1.2, ← e2.2, unwrap_some, bind_ok, getIn_ok hP, getIn_ok hQ]
      by_cases hpq : p = q
      · subst hpq
        rcases row_before w hrow rfl rfl hpm hqm hpe hqe with ⟨-, hij⟩ | ⟨u, m', v, hr⟩
        · simp only [ne_eq, not_true, if_false]
          rw [Nat.compare_eq_lt.mpr hij, Nat.compare_eq_gt.mpr hij]
          exact ⟨rfl, rfl⟩
        · exfalso
          have nd := row_nodup w d
          rw [hr, List.nodup_append] at nd
          exact (List.nodup_cons.mp nd.2.1).1 (by simp)
      · have h1 : some p ≠ some q := fun e => hpq (Option.some.inj e)
        rw [if_pos h1, if_pos (Ne.symm h1)]
        rcases row_before w hrow rfl rfl hpm hqm hpe hqe with ⟨e, -⟩ | ⟨u, m', v, hr⟩
        · exact absurd e hpq
        · exact ih d p q P Q u m' v (by omega) (by omega) hr hP hQ

theorem cmpInParent_lt {a b : Nat} : ∀ (cs : List (Child C)) (i j : Nat), (cs.map Child.arena)[i]? = some (.leaf a) →
    (cs.map Child.arena)[j]? = some (.leaf b) → i < j → (∀ c ∈ cs, ∃ l, c.arena = .leaf l) → (cs.map Child.arena).Nodup →
    cmpInParent a b cs = some .lt ∧ cmpInParent b a cs = some .gt := by
  intro cs
  induction cs with
  | nil => intro i j h1; simp at h1
  | cons c cs ih =>
    intro i j h1 h2 hij hl nd
    have hj : j ≠ 0 := by omega
    obtain ⟨j', rfl⟩ : ∃ j', j = j' + 1 := ⟨j - 1, by omega⟩
    obtain ⟨lc, hlc⟩ := hl c (by simp)
    simp only [List.map_cons, List.getElem?_cons_succ] at h2
    have nd' := List.nodup_cons.mp (by simpa using nd : (c.arena :: cs.map Child.arena).Nodup)
    have hcb : lc ≠ b := by
      intro e; subst e
      exact nd'.1 (by rw [hlc]; exact List.mem_of_getElem? h2)
    cases i with
    | zero =>
      simp only [List.map_cons, List.getElem?_cons_zero, Option.some.injEq] at h1
      rw [hlc] at h1
      cases h1
      simp only [cmpInParent, hlc, Idx.raw, if_true, if_neg hcb]
      exact ⟨trivial, trivial⟩
    | succ i' =>
      simp only [List.map_cons, List.getElem?_cons_succ] at h1
      have hca : lc ≠ a := by
        intro e; subst e
        exact nd'.1 (by rw [hlc]; exact List.mem_of_getElem? h1)
      simp only [cmpInParent, hlc, Idx.raw, if_neg hca, if_neg hcb]
      exact ih i' j' h1 h2 (by omega) (fun c hc => hl c (by simp [hc])) nd'.2

/-- `compare_pos` of two different leaves is their order in the sequence. -/
theorem comparePos_spec (w : WF s lvl h) {a b : Cursor} {ea eb : E} {U M V : List (Nat × E)}
    (hent : entries s = U ++ (a.leaf, ea) :: (M ++ (b.leaf, eb) :: V)) :
    comparePos s a b = .ok .lt ∧ comparePos s b a = .ok .gt := by
  have hab : a.leaf ≠ b.leaf := by
    intro e
    have nd := entries_nodup w
    rw [hent, List.map_append, List.nodup_append, List.map_cons] at nd
    have := (List.nodup_cons.mp nd.2.1).1
    apply this
    simp [e]
  have hf := entries_fst w
  rw [hent] at hf
  have hord : order s = U.map Prod.fst ++ a.leaf :: (M.map Prod.fst ++ b.leaf :: V.map Prod.fst) := by rw [← hf]; simp
  have hla : lpar s a.leaf ≠ none := (mem_order w).mp (by rw [hord]; simp)
  have hlb : lpar s b.leaf ≠ none := (mem_order w).mp (by rw [hord]; simp)
  obtain ⟨p, hp⟩ := Option.ne_none_iff_exists'.mp hla
  obtain ⟨q, hq⟩ := Option.ne_none_iff_exists'.mp hlb
  obtain ⟨xa, hLa, -⟩ := getLf_of hp
  obtain ⟨xb, hLb, -⟩ := getLf_of hq
  obtain ⟨i, hpe⟩ := w.lpar_edge hp
  obtain ⟨j, hqe⟩ := w.lpar_edge hq
  have hp1 := (w.klf hpe).1
  have hq1 := (w.klf hqe).1
  have hpos := w.h_pos
  obtain ⟨P, hP⟩ := lnk_isSome.mp (edge_live hpe)
  obtain ⟨Q, hQ⟩ := lnk_isSome.mp (edge_live hqe)
  have hpm := mem_row w (h - 1) (edge_live hpe) (by omega)
  have hqm := mem_row w (h - 1) (edge_live hqe) (by omega)
  have hrow : rowI s (h - 1 + 1) = (U.map Prod.fst).map .leaf ++ .leaf a.leaf :: ((M.map Prod.fst).map .leaf ++ .leaf b.leaf :: (V.map Prod.fst).map .leaf) := by
    rw [show h - 1 + 1 = h by omega, row_order w, hord]; simp
  simp only [comparePos, if_neg hab, if_neg (Ne.symm hab), getLf_ok hLa, getLf_ok hLb, bind_ok, getIn_ok hP, getIn_ok hQ]
  rcases row_before w hrow rfl rfl hpm hqm hpe hqe with ⟨e, hij⟩ | ⟨u, m', v, hr⟩
  · subst e
    rw [hP] at hQ
    cases hQ
    have hk := kids_of hP
    have key := cmpInParent_lt (a := a.leaf) (b := b.leaf) P.children i j (by rw [← hk]; exact hpe) (by rw [← hk]; exact hqe) hij
      (by
        intro c hc
        obtain ⟨k, hk2⟩ := mem_kids.mp (show c.arena ∈ kids s p by rw [hk]; exact List.mem_map.mpr ⟨c, hc, rfl⟩)
        exact (w.kid_leaf_iff hk2).mp hp1) (by rw [← hk]; exact w.kids_nodup p)
    simp only [if_true, key.1, key.2]
    exact ⟨rfl, rfl⟩
  · have hpq : p ≠ q := by
      intro e
      subst e
      have nd := row_nodup w (h - 1)
      rw [hr, List.nodup_append] at nd
      exact (List.nodup_cons.mp nd.2.1).1 (by simp)
    have hle := w.h_le
    have := cmpClimb_spec w s.fuel (h - 1) p q P Q u m' v (by omega) (by rw [fuel]; omega) hr hP hQ
    simp only [if_neg hpq, if_neg (Ne.symm hpq), this.1, this.2]
    exact ⟨trivial, trivial⟩

end
end GB
