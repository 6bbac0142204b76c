import Verif.Proof.EditStep

/-!
# Histories of `BOp`
-/

namespace GB
variable {E C D X : Type} {B : Trait E C D}
open Tree

/-- every operation of the history meets its precondition when it is executed -/
def validB (A : Law B) (R : C → D → C → Prop) (m : Fill) (ho : HashOrd E) : Tree E C → List (BOp E C D) → Prop
  | _, [] => True
  | s, o :: os => o.valid A R m s ∧ ∀ s', o.run B ho s = .ok s' → validB A R m ho s' os

theorem brun {A : Law B} {R : C → D → C → Prop} {cont : E → List X} (K : ContentLaw B A.okE cont) {m : Fill} (hm : 1 ≤ m.lo ∧ m.lo + m.d ≤ 5) (hE : 2 ≤ m.lo ∨ LawE A) (L : DiffLaw A R) {ho : HashOrd E} (hho : ∀ l, (ho.idx l).Perm l)
    (hcur : ∀ l, (ho.cur l).Perm l) (hgrp : ∀ l, (ho.grp l).Perm l) : ∀ (os : List (BOp E C D)) {s : Tree E C}, Inv A m s → validB A R m ho s os →
    ∃ s', runB B ho s os = .ok s' ∧ Inv A m s' ∧ ((∀ o ∈ os, o ≠ .basic .clear) → Edit (touchedB B ho abs s os) (abs s) (abs s')) := by
  intro os
  induction os with
  | nil => intro s hi _; exact ⟨s, rfl, hi, fun _ => Edit.refl hi.seqOK⟩
  | cons o os ih =>
    intro s hi hv
    obtain ⟨s1, h1, i1, e1⟩ := bstep K hm hE L hho hcur hgrp hi hv.1
    obtain ⟨s2, h2, i2, e2⟩ := ih i1 (hv.2 s1 h1)
    refine ⟨s2, by simp only [runB, h1, bind_ok, h2], i2, fun hc => ?_⟩
    have := (e1 (hc o (by simp))).trans (e2 (fun x hx => hc x (by simp [hx])))
    refine ⟨fun l e hl he => this.keep l e (fun h => hl ?_) he, this.order, this.next⟩
    rcases h with h | h
    · exact .inl h
    · exact .inr ⟨s1, h1, h⟩

end GB
