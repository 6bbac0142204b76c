import Verif.Proof.Relink

/-!
# Local change of the leaf sequence

If a state differs from another one only in the child lists of one node and of its children, the leaf
sequences differ only in the segment below that node.
-/

namespace GB
variable {E C D : Type}
open Tree

section
variable {s s' : Tree E C} {lvl : Nat → Nat} {h : Nat}

theorem Anc.trans {x y z : Nat} (h1 : Anc s x y) (h2 : Anc s y z) : Anc s x z := by
  induction h1 with
  | refl => exact h2
  | step e _ ih => exact .step e (ih h2)

theorem Anc.lvl_le (w : WF s lvl h) {x y : Nat} (ha : Anc s x y) : lvl x ≤ lvl y := by
  induction ha with
  | refl => exact Nat.le_refl _
  | step e _ ih =>
    have := (w.kin e).1
    omega

/-- the root is an ancestor of every stored node -/
theorem anc_root (w : WF s lvl h) : ∀ (d : Nat) {x : Nat}, lnk s x ≠ none → h - lvl x = d → Anc s x s.root := by
  intro d
  induction d with
  | zero =>
    intro x hx hd
    have hr : x = s.root := by
      apply Decidable.byContradiction
      intro hr
      obtain ⟨N, hN⟩ := lnk_isSome.mp hx
      have := w.live_lt hN hr
      omega
    subst hr
    exact .refl _
  | succ d ih =>
    intro x hx hd
    by_cases hr : x = s.root
    · subst hr; exact .refl _
    · obtain ⟨p, i, he⟩ := w.par_in' hx hr
      have := (w.kin he).1
      exact .step he (ih (edge_live he) (by omega))

/-- subtrees that do not contain `p` are unaffected -/
theorem leavesAt_frame (w : WF s lvl h) {p : Nat}
    (hc : ∀ y, lnk s y ≠ none → y ≠ p → (∀ i, ¬ Edge s p i (.internal y)) → kids s' y = kids s y) :
    ∀ (n x : Nat), lnk s x ≠ none → ¬ Anc s p x → (∀ i, ¬ Edge s p i (.internal x)) →
      leavesAt s' n x = leavesAt s n x := by
  intro n
  induction n with
  | zero => intro x _ _ _; rfl
  | succ n ih =>
    intro x hx ha hn
    have hxp : x ≠ p := fun e => ha (e ▸ .refl _)
    rw [leavesAt_succ, leavesAt_succ, hc x hx hxp hn]
    apply flatMap_congr'
    intro a hm
    cases a with
    | leaf l => rfl
    | internal y =>
      obtain ⟨i, hi⟩ := mem_kids.mp hm
      have hl := (w.kin hi).2
      refine ih y (by rw [hl]; simp) (fun hy => ha (hy.trans (.step hi (.refl _)))) ?_
      intro j hj
      exact hxp (w.kid_in_inj hi hj).1

/-- the segment below `p` inside the segment below an ancestor -/
theorem leavesAt_context (w : WF s lvl h) {p : Nat} (hp : lnk s p ≠ none)
    (hc : ∀ y, lnk s y ≠ none → y ≠ p → (∀ i, ¬ Edge s p i (.internal y)) → kids s' y = kids s y)
    {x : Nat} (ha : Anc s p x) :
    ∃ u v, leavesAt s (lvl x) x = u ++ leavesAt s (lvl p) p ++ v ∧
      leavesAt s' (lvl x) x = u ++ leavesAt s' (lvl p) p ++ v := by
  have key : ∀ (p0 : Nat), Anc s p p0 → ∀ x, Anc s p0 x → 
      (∃ u v, leavesAt s (lvl p0) p0 = u ++ leavesAt s (lvl p) p ++ v ∧
        leavesAt s' (lvl p0) p0 = u ++ leavesAt s' (lvl p) p ++ v) →
      (∃ u v, leavesAt s (lvl x) x = u ++ leavesAt s (lvl p) p ++ v ∧
        leavesAt s' (lvl x) x = u ++ leavesAt s' (lvl p) p ++ v) := by
    intro p0 hp0 x hx
    induction hx with
    | refl => exact id
    | @step y q i z e hz ih =>
      intro ⟨u, v, h1, h2⟩
      apply ih (hp0.trans (.step e (.refl _)))
      have hlq := (w.kin e).1
      have hqp : q ≠ p := by
        intro e2
        have := hp0.lvl_le w
        rw [e2] at hlq
        omega
      have hqn : ∀ j, ¬ Edge s p j (.internal q) := by
        intro j hj
        have := (w.kin hj).1
        have := hp0.lvl_le w
        omega
      have hkq := hc q (edge_live e) hqp hqn
      have hsp : ∀ f : Idx → List Nat, (kids s q).flatMap f = ((kids s q).take i).flatMap f ++
          (f (.internal y) ++ ((kids s q).drop (i + 1)).flatMap f) := by
        intro f
        have := congrArg (fun l => List.flatMap f l) (set_split e (Idx.internal y)).1
        simpa only [List.flatMap_append, List.flatMap_cons] using this
      have hfr : ∀ j a, Edge s q j a → j ≠ i → sub s' (lvl y) a = sub s (lvl y) a := by
        intro j a hj hne
        cases a with
        | leaf l => rfl
        | internal z =>
          have hz := w.kin hj
          refine leavesAt_frame w hc _ _ (by rw [hz.2]; simp) ?_ ?_
          · intro han
            -- two children of `q` cannot both be ancestors of `p`
            have : ∀ a b, Anc s a b → ∀ c, Anc s a c → lvl b = lvl c → b = c := by
              intro a b hab
              induction hab with
              | refl x =>
                intro c hc hl
                cases hc with
                | refl => rfl
                | step e2 h2 =>
                  have := (w.kin e2).1
                  have := h2.lvl_le w
                  omega
              | @step x q2 i2 y2 e2 h2 ih2 =>
                intro c hc hl
                cases hc with
                | refl =>
                  have := (w.kin e2).1
                  have := h2.lvl_le w
                  omega
                | @step _ q3 i3 _ e3 h3 =>
                  have := (w.kid_in_inj e2 e3).1
                  subst this
                  exact ih2 c h3 hl
            have hzy := this _ _ han _ hp0 (by omega)
            subst hzy
            exact hne (w.kid_in_inj hj e).2
          · intro j2 hj2
            exact hqp (w.kid_in_inj hj hj2).1
      have hL : ∀ a ∈ (kids s q).take i, sub s' (lvl y) a = sub s (lvl y) a := by
        intro a ha
        obtain ⟨j, hj⟩ := List.mem_iff_getElem?.mp ha
        rw [List.getElem?_take] at hj
        split at hj
        · exact hfr j a hj (by omega)
        · cases hj
      have hR : ∀ a ∈ (kids s q).drop (i + 1), sub s' (lvl y) a = sub s (lvl y) a := by
        intro a ha
        obtain ⟨j, hj⟩ := List.mem_iff_getElem?.mp ha
        rw [List.getElem?_drop] at hj
        exact hfr _ a hj (by omega)
      refine ⟨((kids s q).take i).flatMap (sub s (lvl y)) ++ u,
        v ++ ((kids s q).drop (i + 1)).flatMap (sub s (lvl y)), ?_, ?_⟩
      · rw [hlq, leavesAt_succ, hsp]
        simp only [sub, h1]
        simp
      · rw [hlq, leavesAt_succ, hkq, hsp,
          flatMap_congr' hL, flatMap_congr' hR]
        simp only [sub, h2]
        simp
  exact key p (.refl _) x ha ⟨[], [], by simp, by simp⟩

/-- The leaf sequence changes only in the segment below `p`. -/
theorem order_context (w : WF s lvl h) {lvl' : Nat → Nat} (w' : WF s' lvl' h) {p : Nat} (hp : lnk s p ≠ none)
    (hroot : s'.root = s.root)
    (hc : ∀ y, lnk s y ≠ none → y ≠ p → (∀ i, ¬ Edge s p i (.internal y)) → kids s' y = kids s y) :
    ∃ u v, order s = u ++ leavesAt s (lvl p) p ++ v ∧ order s' = u ++ leavesAt s' (lvl p) p ++ v := by
  have := leavesAt_context (s' := s') w hp hc (anc_root w _ hp rfl)
  rw [order_eq w, order_eq w', hroot, ← w.root_lvl]
  exact this

end

end GB
