import Verif.Proof.Lack4
import Verif.Proof.LeftSpine

/-!
# Rebalancing and the left edge
-/

namespace GB
variable {E C D : Type}
open Tree

section
variable {B : Trait E C D} {A : Law B} {s s' : Tree E C} {lvl : Nat → Nat} {h p : Nat} {X : Idx → Prop} {Q : Prop}

/-- a child that is on the left edge is the first child of a node on the left edge -/
theorem LSp.first (w : WF s lvl h) {y j : Nat} (hy : LSp s y) (he : Edge s p j (.internal y)) : LSp s p ∧ j = 0 := by
  cases hy with
  | root => exact absurd he w.root_not_kid
  | step h1 h2 =>
    obtain ⟨rfl, rfl⟩ := w.kid_in_inj he (head?_edge h2)
    exact ⟨h1, rfl⟩

theorem PairPost.edges {a b : Nat} (d : PairPost A s s' lvl h p a b X Q) :
    ∃ i, Edge s p i (.internal a) ∧ Edge s p (i + 1) (.internal b) := by
  obtain ⟨L, R, M, h1, -⟩ := d.shape
  refine ⟨L.length, ?_, ?_⟩ <;> rw [Edge, h1] <;> simp

theorem PairPost.not_lsp {a b : Nat} (d : PairPost A s s' lvl h p a b X Q) (w : WF s lvl h) : ¬ LSp s b := by
  intro hb
  obtain ⟨i, -, h2⟩ := d.edges
  have := (hb.first w h2).2
  omega

theorem PairPost.ls {a b : Nat} (d : PairPost A s s' lvl h p a b X Q) (w : WF s lvl h) {y : Nat} (hy : LSp s y)
    (hy' : lnk s' y ≠ none) : LSp s' y := by
  obtain ⟨i, ea, eb⟩ := d.edges
  have hpl := edge_live ea
  have hl : 2 ≤ lvl p := by
    have := (w.kin ea).1
    have := (w.lvl_pos' (kids_live_in w (mem_kids.mpr ⟨_, ea⟩))).1
    omega
  obtain ⟨L, R, M, h1, h2, h3, h4⟩ := d.shape
  cases L with
  | nil =>
    refine LSp.regroup d.rg w hpl hl ?_ ?_ hy hy'
    · intro g hg
      apply h4
      rw [h2] at hg
      rcases h3 with rfl | ⟨rfl, -⟩ | ⟨rfl, -⟩ <;> simp at hg <;> simp [hg]
    · intro z hz hzl
      rw [h1] at hz
      simp only [List.nil_append, List.cons_append, List.head?_cons, Option.some.injEq, Idx.internal.injEq] at hz
      subst hz
      rw [h2]
      rcases h3 with rfl | ⟨rfl, -⟩ | ⟨rfl, h3⟩
      · rfl
      · rfl
      · exact absurd h3 hzl
  | cons c L =>
    have na : ¬ LSp s a := by
      intro ha
      have : Edge s p (c :: L).length (.internal a) := by rw [Edge, h1]; simp
      have := (ha.first w this).2
      simp at this
    refine hy.of_head d.same.root fun q y hq hq2 => ?_
    by_cases hqp : q = p
    · subst hqp
      rw [h1] at hq2
      rw [h2]
      simpa using hq2
    · have : chs s' q = chs s q := d.frame q hqp (by rintro rfl; exact na hq) (by rintro rfl; exact d.not_lsp w hq)
      rw [kids_chs, this, ← kids_chs]
      exact hq2

/-- If the left one of the two nodes was on the left edge, then what remains is large or on the left edge. -/
theorem PairPost.lsm {a b : Nat} (d : PairPost A s s' lvl h p a b X Q) (w : WF s lvl h) (ha : LSp s a) {y : Nat}
    (hy : y = a ∨ y = b) (hy' : lnk s' y ≠ none) : 6 ≤ (chs s' y).length ∨ LSp s' y := by
  obtain ⟨i, ea, eb⟩ := d.edges
  have hpa : p ≠ a := Ne.symm (kid_ne_self w ea)
  have hpb : p ≠ b := Ne.symm (kid_ne_self w eb)
  obtain ⟨hp, rfl⟩ := ha.first w ea
  have hp' := d.ls w hp (d.keep p (edge_live ea) hpa hpb)
  obtain ⟨L, R, M, h1, h2, h3, h4⟩ := d.shape
  have hL : L = [] := by
    have : Edge s p L.length (.internal a) := by rw [Edge, h1]; simp
    exact List.length_eq_zero_iff.mp (ha.first w this).2
  subst hL
  rcases d.kind with ⟨-, -, k1, k2, -⟩ | hk
  · left; rcases hy with rfl | rfl <;> assumption
  · right
    refine .step hp' ?_
    rw [h2]
    rcases h3 with rfl | ⟨rfl, h5⟩ | ⟨rfl, h5⟩
    · exfalso
      have e1 : Edge s' p 0 (.internal a) := by rw [Edge, h2]; simp
      have e2 : Edge s' p 1 (.internal b) := by rw [Edge, h2]; simp
      rcases hk with hk | hk
      · rw [(d.good.wf.kin e1).2] at hk; cases hk
      · rw [(d.good.wf.kin e2).2] at hk; cases hk
    · rcases hy with rfl | rfl
      · rfl
      · exact absurd h5 hy'
    · rcases hy with rfl | rfl
      · exact absurd h5 hy'
      · rfl

theorem DelPost.ls {x : Nat} (d : DelPost A s s' lvl h p x X Q) (hx : chs s x = []) {y : Nat} (hy : LSp s y) (hyx : y ≠ x) :
    LSp s' y := by
  obtain ⟨i, he, hk⟩ := d.kids
  suffices hs : (y ≠ x → LSp s' y) from hs hyx
  clear hyx
  induction hy with
  | root => intro _; rw [← d.same.root]; exact .root
  | @step q y h1 h2 ih =>
    intro hyx
    have hqx : q ≠ x := by
      rintro rfl
      rw [kids_chs, hx] at h2
      cases h2
    refine .step (ih hqx) ?_
    by_cases hqp : q = p
    · subst hqp
      rw [hk]
      cases hc : GB.kids s q with
      | nil => rw [hc] at h2; cases h2
      | cons c t =>
        cases i with
        | zero =>
          rw [Edge, hc] at he
          rw [hc] at h2
          simp only [List.getElem?_cons_zero] at he
          simp only [List.head?_cons] at h2
          rw [h2] at he
          simp only [Option.some.injEq, Idx.internal.injEq] at he
          exact absurd he hyx
        | succ i => rw [hc] at h2; simpa using h2
    · rw [kids_chs, d.frame q hqp, ← kids_chs]; exact h2

end
end GB
