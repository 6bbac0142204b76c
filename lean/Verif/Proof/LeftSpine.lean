import Verif.Proof.Lift

/-!
# The left edge of the tree

`drain` can leave nodes with few children on the left edge, and only there.  The occupancy invariant therefore
has one lower bound for the left edge and another for the rest of the tree.
-/

namespace GB
variable {E C D : Type}
open Tree

/-- the nodes on the left edge of the tree -/
inductive LSp (s : Tree E C) : Nat → Prop
  | root : LSp s s.root
  | step {q y : Nat} : LSp s q → (kids s q).head? = some (.internal y) → LSp s y

/-- lower bounds for the number of children: `lo` on the left edge, `lo + d` elsewhere -/
structure Fill where
  lo : Nat
  d : Nat

instance : Coe Nat Fill := ⟨fun m => ⟨m, 0⟩⟩
instance (n : Nat) : OfNat Fill n := ⟨⟨n, 0⟩⟩

/-- `n` children are enough for node `y` -/
def Fill.le (m : Fill) (s : Tree E C) (y n : Nat) : Prop := m.lo ≤ n ∧ (¬ LSp s y → m.lo + m.d ≤ n)

section
variable {s s' : Tree E C} {lvl : Nat → Nat} {h p : Nat}

theorem Fill.le.of {m : Fill} {y n : Nat} (hn : m.lo + m.d ≤ n) : m.le s y n := ⟨by omega, fun _ => hn⟩

theorem Fill.le.keep {m : Fill} {y n n' : Nat} (hm : m.le s y n) (hk : LSp s y → LSp s' y) (hn : n ≤ n') : m.le s' y n' :=
  ⟨Nat.le_trans hm.1 hn, fun h => Nat.le_trans (hm.2 fun hh => h (hk hh)) hn⟩

theorem head?_edge {q : Nat} {a : Idx} (hq : (kids s q).head? = some a) : Edge s q 0 a := by
  rw [Edge, ← List.head?_eq_getElem?]; exact hq

theorem LSp.live (w : WF s lvl h) {y : Nat} (hy : LSp s y) : lnk s y ≠ none := by
  cases hy with
  | root => obtain ⟨i, hi⟩ := w.root'; rw [hi]; simp
  | step _ hq => rw [(w.kin (head?_edge hq)).2]; simp

theorem LSp.of_head (hr : s'.root = s.root) (hh : ∀ q y, LSp s q → (kids s q).head? = some (.internal y) →
    (kids s' q).head? = some (.internal y)) {y : Nat} (hy : LSp s y) : LSp s' y := by
  induction hy with
  | root => rw [← hr]; exact .root
  | step h1 h2 ih => exact .step ih (hh _ _ h1 h2)

theorem LSp.shape (sh : SameShape s s') {y : Nat} (hy : LSp s y) : LSp s' y :=
  hy.of_head sh.root fun q y _ h => by rw [sh.kids]; exact h

theorem LSp.edit (r : LeafEdit s s' p) (w : WF s lvl h) (hl : lvl p = 1) {y : Nat} (hy : LSp s y) : LSp s' y := by
  refine hy.of_head r.root fun q y _ hq => ?_
  by_cases hqp : q = p
  · subst hqp
    have := w.kin (head?_edge hq)
    have := (w.lvl_pos' (by rw [this.2]; simp : lnk s y ≠ none)).1
    omega
  · rw [r.kids_ne hqp]; exact hq

/-- an additional level below the root -/
theorem LSp.lift {l : Nat} (r : Lift s s' l) (w : WF s lvl h) {y : Nat} (hy : LSp s y) : LSp s' y := by
  have hrt : LSp s' s.root := by rw [← r.root]; exact .root
  induction hy with
  | root => exact hrt
  | @step q y h1 h2 ih =>
    by_cases hq : q = s.root
    · subst hq
      refine .step (.step hrt (by rw [r.c_root]; rfl)) ?_
      rw [kids_chs, r.c_l, ← kids_chs]; exact h2
    · refine .step ih ?_
      rw [kids_chs, r.chs q hq, ← kids_chs]
      · exact h2
      · intro e; subst e; exact h1.live w r.l_fresh

/-- one level less below the root -/
theorem LSp.unlift {l : Nat} (r : Lift s s' l) (w : WF s' lvl h) {y : Nat} (hy : LSp s' y) (hyl : y ≠ l) : LSp s y := by
  suffices hs : (y ≠ l → LSp s y) from hs hyl
  clear hyl
  induction hy with
  | root => intro _; rw [r.root]; exact .root
  | @step q y h1 h2 ih =>
    intro hyl
    by_cases hq : q = s.root
    · subst hq
      rw [r.c_root] at h2
      simp only [List.head?_cons, Option.some.injEq, Idx.internal.injEq] at h2
      exact absurd h2.symm hyl
    · by_cases hql : q = l
      · subst hql
        refine .step .root ?_
        rw [kids_chs, ← r.c_l, ← kids_chs]; exact h2
      · refine .step (ih hql) ?_
        rw [kids_chs, ← r.chs q hq hql, ← kids_chs]; exact h2

/-- Regrouping the grandchildren of `p`. -/
theorem LSp.regroup (r : Regroup s s' p) (w : WF s lvl h) (hp : lnk s p ≠ none) (hl : 2 ≤ lvl p)
    (hne : ∀ g, (kids s' p).head? = some (.internal g) → chs s' g ≠ [])
    (hk : ∀ z, (kids s p).head? = some (.internal z) → lnk s' z ≠ none → (kids s' p).head? = some (.internal z))
    {y : Nat} (hy : LSp s y) (hy' : lnk s' y ≠ none) : LSp s' y := by
  suffices hs : (.internal y ∉ kids s p → LSp s' y) ∧
      (.internal y ∈ kids s p → LSp s' p ∧ (kids s p).head? = some (.internal y)) by
    by_cases hm : Idx.internal y ∈ kids s p
    · exact .step (hs.2 hm).1 (hk y (hs.2 hm).2 hy')
    · exact hs.1 hm
  clear hy'
  induction hy with
  | root =>
    refine ⟨fun _ => by rw [← r.root]; exact .root, fun hm => ?_⟩
    obtain ⟨j, hj⟩ := mem_kids.mp hm
    exact absurd hj w.root_not_kid
  | @step q y h1 h2 ih =>
    have he := head?_edge h2
    by_cases hqp : q = p
    · subst hqp
      exact ⟨fun hm => absurd (mem_kids.mpr ⟨0, he⟩) hm, fun _ => ⟨ih.1 (r.p_not_kid w), h2⟩⟩
    · have hym : Idx.internal y ∉ kids s p := by
        intro hm
        obtain ⟨j, hj⟩ := mem_kids.mp hm
        exact hqp (w.kid_in_inj he hj).1
      refine ⟨fun _ => ?_, fun hm => absurd hm hym⟩
      by_cases hqk : Idx.internal q ∈ kids s p
      · obtain ⟨k1, k2⟩ := ih.2 hqk
        obtain ⟨c0, t0, e0⟩ : ∃ c t, chs s p = c :: t := by
          cases hc : chs s p with
          | nil => rw [kids_chs, hc] at k2; cases k2
          | cons c t => exact ⟨c, t, rfl⟩
        have ha0 : c0.arena = .internal q := by rw [kids_chs, e0] at k2; simpa using k2
        obtain ⟨c1, t1, e1⟩ : ∃ c t, chs s q = c :: t := by
          cases hc : chs s q with
          | nil => rw [kids_chs, hc] at h2; cases h2
          | cons c t => exact ⟨c, t, rfl⟩
        have ha1 : c1.arena = .internal y := by rw [kids_chs, e1] at h2; simpa using h2
        have hg : (grand s p).head? = some c1 := by
          rw [grand, e0, List.flatMap_cons, ha0]; simp [chsI, e1]
        rw [← r.flat] at hg
        cases hc : chs s' p with
        | nil => rw [grand, hc] at hg; cases hg
        | cons c2 t2 =>
          have hk2 : (kids s' p).head? = some c2.arena := by rw [kids_chs, hc]; rfl
          obtain ⟨g, hg2, -⟩ := r.p_kid 0 _ (head?_edge hk2)
          rw [hg2] at hk2
          have hgn := hne g hk2
          refine .step (.step k1 hk2) ?_
          rw [grand, hc, List.flatMap_cons, hg2] at hg
          cases hc3 : chs s' g with
          | nil => exact absurd hc3 hgn
          | cons c3 t3 =>
            simp only [chsI, hc3, List.cons_append, List.head?_cons, Option.some.injEq] at hg
            rw [kids_chs, hc3, List.map_cons, List.head?_cons, hg, ha1]
      · refine .step (ih.1 hqk) ?_
        rw [kids_chs, r.frame_chs w hp hl (h1.live w) hqp hqk, ← kids_chs]
        exact h2

end
end GB
