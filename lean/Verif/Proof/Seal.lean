import Verif.Proof.Path
import Verif.Proof.Remove
import Verif.Model.Iter

/-!
# `seal` after a drain: rebalancing along a path terminates and keeps the tree valid
-/

namespace GB
variable {E C D : Type}
open Tree

/-! ## Sums over an initial segment -/

/-- `f 0 + … + f (n - 1)` -/
def sumN : Nat → (Nat → Nat) → Nat
  | 0, _ => 0
  | n + 1, f => sumN n f + f n

theorem sumN_congr {n : Nat} {f g : Nat → Nat} (hfg : ∀ x, x < n → f x = g x) : sumN n f = sumN n g := by
  induction n with
  | zero => rfl
  | succ n ih => rw [sumN, sumN, ih (fun x hx => hfg x (by omega)), hfg n (by omega)]

theorem sumN_le {n k : Nat} {f : Nat → Nat} (hf : ∀ x, f x ≤ k) : sumN n f ≤ k * n := by
  induction n with
  | zero => simp [sumN]
  | succ n ih => rw [sumN, Nat.mul_succ]; have := hf n; omega

/-- `f` with one value replaced -/
def updN (f : Nat → Nat) (a v : Nat) : Nat → Nat := fun x => if x = a then v else f x

theorem sumN_upd {n : Nat} {f : Nat → Nat} {a v : Nat} (ha : a < n) : sumN n (updN f a v) + f a = sumN n f + v := by
  induction n with
  | zero => omega
  | succ n ih =>
    rw [sumN, sumN]
    by_cases e : a = n
    · subst e
      rw [sumN_congr (g := f) (by intro x hx; rw [updN, if_neg (by omega)]), updN, if_pos rfl]
      omega
    · have := ih (by omega)
      have h2 : updN f a v n = f n := by rw [updN, if_neg (Ne.symm e)]
      omega

theorem sumN_three {n : Nat} {f g : Nat → Nat} {a b c : Nat} (ha : a < n) (hb : b < n) (hc : c < n) (hab : a ≠ b)
    (hac : a ≠ c) (hbc : b ≠ c) (hfr : ∀ x, x < n → x ≠ a → x ≠ b → x ≠ c → f x = g x) (hlt : f a + f b + f c < g a + g b + g c) :
    sumN n f < sumN n g := by
  have h1 := sumN_upd (f := f) (v := g a) ha
  have h2 := sumN_upd (f := updN f a (g a)) (v := g b) hb
  have h3 := sumN_upd (f := updN (updN f a (g a)) b (g b)) (v := g c) hc
  have e1 : updN f a (g a) b = f b := by rw [updN, if_neg (Ne.symm hab)]
  have e2 : updN (updN f a (g a)) b (g b) c = f c := by
    rw [updN, if_neg (Ne.symm hbc), updN, if_neg (Ne.symm hac)]
  have e3 : sumN n (updN (updN (updN f a (g a)) b (g b)) c (g c)) = sumN n g := by
    apply sumN_congr
    intro x hx
    simp only [updN]
    split
    · next h => rw [h]
    · next h1 =>
      split
      · next h => rw [h]
      · next h2 =>
        split
        · next h => rw [h]
        · next h3 => exact hfr x hx h3 h2 h1
  omega

section
variable {B : Trait E C D} {A : Law B} {s : Tree E C} {lvl : Nat → Nat} {h : Nat}

/-- no node has more than 11 children, and only the root may be empty -/
def Thin (s : Tree E C) : Prop :=
  ∀ y, lnk s y ≠ none → (chs s y).length ≤ 11 ∧ (y ≠ s.root → chs s y ≠ [])

theorem Thin.ne (t : Thin s) : NE s := fun y hy hr => (t y hy).2 hr

theorem Thin.of_sz {m : Fill} (hm : 1 ≤ m.lo) (sz : Sz m s h) : Thin s := by
  intro y hy
  have := sz y hy (fun h => h)
  exact ⟨this.1, fun hr hn => by have := (this.2.1 hr).1; rw [hn] at this; simp at this; omega⟩

theorem Thin.szx (t : Thin s) (h : Nat) : SzX 1 s h (fun y => y = s.root) := by
  intro y hy hr
  refine ⟨(t y hy).1, fun hn => ?_, fun e => absurd e hr⟩
  have := (t y hy).2 hn
  cases hc : chs s y with
  | nil => exact absurd hc this
  | cons c cs => exact .of (Nat.succ_le_succ (Nat.zero_le _))

/-- number of stored nodes, counted twice, plus the number of nodes with fewer than 6 children -/
def wt (s : Tree E C) (x : Nat) : Nat :=
  match lnk s x with
  | none => 0
  | some _ => 2 + (if (chs s x).length < 6 then 1 else 0)

def psi (s : Tree E C) : Nat := sumN s.inn.items.length (wt s)

theorem wt_le (s : Tree E C) (x : Nat) : wt s x ≤ 3 := by
  unfold wt; split
  · omega
  · split <;> omega

theorem wt_ge {x : Nat} (hx : lnk s x ≠ none) : 2 ≤ wt s x := by
  obtain ⟨v, hv⟩ := Option.ne_none_iff_exists'.mp hx
  rw [wt, hv]; simp

theorem wt_lack {x : Nat} (hx : lnk s x ≠ none) (hl : (chs s x).length < 6) : wt s x = 3 := by
  obtain ⟨v, hv⟩ := Option.ne_none_iff_exists'.mp hx
  rw [wt, hv]; simp [hl]

theorem wt_full {x : Nat} (hl : 6 ≤ (chs s x).length) : wt s x ≤ 2 := by
  unfold wt; split
  · omega
  · rw [if_neg (by omega)]; omega

theorem wt_dead {x : Nat} (hx : lnk s x = none) : wt s x = 0 := by rw [wt, hx]

/-- One call of `handle_lack_single_layer` on a node with fewer than 6 children. -/
theorem lackStep {x : Nat} (g : Good A s lvl h) (th : Thin s) (hx : lnk s x ≠ none) (hr : x ≠ s.root)
    (hlack : (chs s x).length < 6) :
    ∃ r s', handleLackSingle B s x = .ok (r, s') ∧ Good A s' lvl h ∧ Thin s' ∧ Same s s' ∧
      s'.inn.items.length = s.inn.items.length ∧ (∀ y, lnk s y ≠ none → lvl y < lvl x → lnk s' y ≠ none) ∧
      (s' = s ∨ psi s' < psi s) := by
  obtain ⟨p, k, he⟩ := g.wf.par_in' hx hr
  have hlk := (g.wf.kin he).2
  obtain ⟨r, s', e1, e2⟩ := lackSingle_spec g.toX (fun _ _ hf => hf) hlk
    (fun y hy => (th y (kids_live_in g.wf hy)).1)
    (fun y hy => Or.inl ((th y (kids_live_in g.wf hy)).2 (by
      rintro rfl; obtain ⟨i, hi⟩ := mem_kids.mp hy; exact g.wf.root_not_kid hi)))
  refine ⟨r, s', e1, ?_⟩
  cases e2 with
  | empty le hx0 d => exact absurd hx0 ((th x hx).2 hr)
  | alone hx0 hp => exact ⟨g, th, Same.refl s, rfl, fun _ hy _ => hy, Or.inl rfl⟩
  | @pair _ a b hx0 hab ha hb hne d =>
    obtain ⟨ia, hia⟩ := mem_kids.mp ha
    obtain ⟨ib, hib⟩ := mem_kids.mp hb
    have hap : a ≠ p := kid_ne_self g.wf hia
    have hbp : b ≠ p := kid_ne_self g.wf hib
    have la := kids_live_in g.wf ha
    have lb := kids_live_in g.wf hb
    have lp := edge_live he
    have lvl_eq : lvl a = lvl x ∧ lvl b = lvl x := by
      have := (g.wf.kin hia).1
      have := (g.wf.kin hib).1
      have := (g.wf.kin he).1
      omega
    have lp' := d.keep p lp (Ne.symm hap) (Ne.symm hbp)
    refine ⟨d.good.good, ?_, d.same, d.items, ?_, Or.inr ?_⟩
    · intro y hy
      have hyl := d.live y hy
      by_cases hya : y = a ∨ y = b
      · obtain ⟨h1, h2⟩ := d.pair y hy hya
        refine ⟨h1, fun _ hn => ?_⟩
        rw [hn] at h2
        have l1 : (chs s a).length ≠ 0 := by
          intro e
          exact (th a la).2 (by rintro rfl; exact g.wf.root_not_kid hia) (List.length_eq_zero_iff.mp e)
        simp at h2
        omega
      · by_cases hyp : y = p
        · subst hyp
          refine ⟨Nat.le_trans d.plen.1 (th y lp).1, fun _ hn => ?_⟩
          have h2 := d.plen.2
          rw [hn] at h2
          -- `p` has at least the two children `a`, `b`
          have l1 := (List.getElem?_eq_some_iff.mp hia).1
          have l2 := (List.getElem?_eq_some_iff.mp hib).1
          rw [kids_chs, List.length_map] at l1 l2
          have : ia ≠ ib := by
            intro e
            have e1 : (kids s y)[ia]? = some (.internal a) := hia
            have e2 : (kids s y)[ib]? = some (.internal b) := hib
            rw [e, e2] at e1
            cases e1
            exact hne rfl
          simp at h2
          omega
        · rw [d.frame y hyp (fun e => hya (Or.inl e)) (fun e => hya (Or.inr e)), d.same.root]
          exact th y hyl
    · intro y hy hl
      exact d.keep y hy (by rintro rfl; omega) (by rintro rfl; omega)
    · unfold psi
      rw [d.items]
      refine sumN_three (a := p) (b := a) (c := b) (g.wf.lnk_lt lp) (g.wf.lnk_lt la) (g.wf.lnk_lt lb) (Ne.symm hap)
        (Ne.symm hbp) hne ?_ ?_
      · intro y _ h1 h2 h3
        have hc := d.frame y h1 h2 h3
        cases hy : lnk s y with
        | none =>
          have : lnk s' y = none := Decidable.byContradiction fun hn => d.live y hn hy
          rw [wt_dead this, wt_dead hy]
        | some v =>
          obtain ⟨v', hv'⟩ := Option.ne_none_iff_exists'.mp (d.keep y (by rw [hy]; simp) h2 h3)
          simp only [wt, hy, hv', hc]
      · have hsum : 5 ≤ wt s a + wt s b := by
          have h1 := wt_ge la
          have h2 := wt_ge lb
          have h3 := wt_lack hx hlack
          rcases hab with rfl | rfl <;> omega
        rcases d.kind with ⟨k1, k2, k3, k4, k5⟩ | k1
        · have h1 := wt_full k3
          have h2 := wt_full k4
          have h3 : wt s' p = wt s p := by
            obtain ⟨v, hv⟩ := Option.ne_none_iff_exists'.mp lp
            obtain ⟨v', hv'⟩ := Option.ne_none_iff_exists'.mp lp'
            simp only [wt, hv, hv', k5]
          omega
        · have h1 := wt_le s' p
          have h2 := wt_ge lp
          have h3 := wt_le s' a
          have h4 := wt_le s' b
          rcases k1 with k1 | k1
          · have := wt_dead k1; omega
          · have := wt_dead k1; omega

/-- all members of the list are stored inner nodes other than the root, and their levels decrease -/
def Desc (s : Tree E C) (lvl : Nat → Nat) (L : List PIdx) : Prop :=
  (∀ i ∈ L, ∃ x, i.arena = .internal x ∧ lnk s x ≠ none ∧ x ≠ s.root) ∧
  L.Pairwise fun i j => ∀ x y, i.arena = .internal x → j.arena = .internal y → lvl y < lvl x

theorem lackOnPath_spec : ∀ (path : List PIdx) (s : Tree E C) (k : Nat), Good A s lvl h → Thin s → Desc s lvl path →
    ∃ k' s', lackOnPath B s path k = .ok (k', s') ∧ Good A s' lvl h ∧ Thin s' ∧ Same s s' ∧
      s'.inn.items.length = s.inn.items.length ∧ (s' = s ∨ psi s' < psi s) := by
  intro path
  induction path with
  | nil => intro s k g th _; exact ⟨k, s, rfl, g, th, Same.refl s, rfl, Or.inl rfl⟩
  | cons i rest ih =>
    intro s k g th hd
    obtain ⟨hd1, hd2⟩ := hd
    rw [List.pairwise_cons] at hd2
    obtain ⟨x, hia, hx, hr⟩ := hd1 i (by simp)
    obtain ⟨N, hN⟩ := lnk_isSome.mp hx
    by_cases hl : (chs s x).length < 6
    · have hlk : N.isLack = true := by rw [Node.isLack, ← chs_of hN]; exact decide_eq_true hl
      obtain ⟨r, s1, e1, g1, th1, sm1, it1, keep1, ps1⟩ := lackStep g th hx hr hl
      have hd1 : Desc s1 lvl rest := by
        refine ⟨fun j hj => ?_, hd2.2⟩
        obtain ⟨y, h1, h2, h3⟩ := hd1 j (by simp [hj])
        exact ⟨y, h1, keep1 y h2 (hd2.1 j hj x y hia h1), by rw [sm1.root]; exact h3⟩
      obtain ⟨k', s', f1, f2, f3, f4, f5, f6⟩ := ih s1 (if r.isSome then k + 1 else k) g1 th1 hd1
      refine ⟨k', s', ?_, f2, f3, sm1.trans f4, f5.trans it1, ?_⟩
      · simp only [lackOnPath, hia, Idx.unwrapInternal, bind_ok, getIn_ok hN, hlk, if_true, e1]
        exact f1
      · rcases ps1 with rfl | h1
        · exact f6
        · rcases f6 with rfl | h2
          · exact Or.inr h1
          · exact Or.inr (Nat.lt_trans h2 h1)
    · have hlk : N.isLack = false := by rw [Node.isLack, ← chs_of hN]; exact decide_eq_false hl
      obtain ⟨k', s', f1, f2⟩ := ih s k g th ⟨fun j hj => hd1 j (by simp [hj]), hd2.2⟩
      refine ⟨k', s', ?_, f2⟩
      simp only [lackOnPath, hia, Idx.unwrapInternal, bind_ok, getIn_ok hN, hlk]
      exact f1

/-- the nodes of a root path of an inner node, deepest first -/
theorem PathTo.nodes (w : WF s lvl h) : ∀ {path : List PIdx}, PathTo s path → ∀ {x i rest}, path = ⟨.internal x, i⟩ :: rest →
    lnk s x ≠ none → (∀ q ∈ path, ∃ y, q.arena = .internal y ∧ lnk s y ≠ none ∧ lvl x ≤ lvl y) ∧
    (∀ q ∈ path.dropLast, q.arena ≠ .internal s.root) ∧
    path.Pairwise fun i j => ∀ x y, i.arena = .internal x → j.arena = .internal y → lvl x < lvl y := by
  intro path hp
  induction hp with
  | root =>
    intro x i rest e hx
    cases e
    exact ⟨fun q hq => ⟨s.root, by simp at hq; rw [hq], hx, Nat.le_refl _⟩, by simp, by simp⟩
  | @step a i p j rest he hp ih =>
    intro x i' rest' e hx
    cases e
    obtain ⟨h1, h2, h3⟩ := ih rfl (edge_live he)
    have hl := (w.kin he).1
    refine ⟨?_, ?_, ?_⟩
    · intro q hq
      rw [List.mem_cons] at hq
      rcases hq with rfl | hq
      · exact ⟨x, rfl, hx, Nat.le_refl _⟩
      · obtain ⟨y, e1, e2, e3⟩ := h1 q hq
        exact ⟨y, e1, e2, by omega⟩
    · rw [List.dropLast_cons_of_ne_nil (by simp)]
      intro q hq
      rw [List.mem_cons] at hq
      rcases hq with rfl | hq
      · intro e; cases e; exact w.root_not_kid he
      · exact h2 q hq
    · rw [List.pairwise_cons]
      refine ⟨?_, h3⟩
      intro q hq y z hy hz
      cases hy
      obtain ⟨z', e1, -, e3⟩ := h1 q hq
      rw [hz] at e1
      cases e1
      omega

theorem leaf_desc (w : WF s lvl h) {l i : Nat} {rest : List PIdx} (hp : PathTo s (⟨.leaf l, i⟩ :: rest)) :
    Desc s lvl (rest.dropLast.reverse) := by
  generalize hpath : (⟨.leaf l, i⟩ :: rest : List PIdx) = path at hp
  cases hp with
  | root => cases hpath
  | @step a i p j rest' he hp =>
    cases hpath
    obtain ⟨h1, h2, h3⟩ := PathTo.nodes w hp rfl (edge_live he)
    refine ⟨?_, ?_⟩
    · intro q hq
      have hq := List.mem_reverse.mp hq
      obtain ⟨y, e1, e2, -⟩ := h1 q (List.dropLast_subset _ hq)
      exact ⟨y, e1, e2, fun e => h2 q hq (by rw [e1, e])⟩
    · rw [List.pairwise_reverse]
      exact (h3.sublist (List.dropLast_sublist _)).imp fun hab x y hx hy => hab y x hy hx

theorem same_lpar {s' : Tree E C} {l : Nat} (sm : Same s s') (hl : lpar s l ≠ none) : lpar s' l ≠ none := by
  intro hn
  have h1 : elm s' l = none := by
    simp [elm, lpar_none.mp hn]
  rw [sm.elm] at h1
  obtain ⟨L, hL⟩ := lpar_isSome.mp hl
  rw [elm_of hL] at h1
  cases h1

/-- The loop of `handle_lack_on_path_to_leaf`. -/
theorem handleLackPathF_spec (hh : h ≤ 9) : ∀ (n : Nat) (s : Tree E C) (l last : Nat), Good A s lvl h → Thin s →
    lpar s l ≠ none → (psi s + 2 ≤ n ∨ (psi s + 1 ≤ n ∧ ∃ path, getPath s (.leaf l) = .ok path ∧
      lackOnPath B s ((path.drop 1).dropLast).reverse 0 = .ok (last, s))) →
    ∃ s', handleLackPathF B n s (.leaf l) last = .ok s' ∧ Good A s' lvl h ∧ Thin s' ∧ Same s s' ∧
      s'.inn.items.length = s.inn.items.length := by
  intro n
  induction n with
  | zero => intro s l last _ _ _ hn; omega
  | succ n ih =>
    intro s l last g th hl hn
    obtain ⟨i, rest, p1, p2, p3⟩ := getPath_leaf g.wf hh hl
    obtain ⟨k, s1, e1, g1, th1, sm1, it1, ps1⟩ := lackOnPath_spec (B := B) (rest.dropLast.reverse) s 0 g th (leaf_desc g.wf p2)
    simp only [handleLackPathF, p1, bind_ok, List.drop_succ_cons, List.drop_zero, e1]
    by_cases hk : k = 0 ∨ k = last
    · rw [if_pos hk]
      exact ⟨s1, rfl, g1, th1, sm1, it1⟩
    · rw [if_neg hk]
      have hl1 := same_lpar sm1 hl
      rcases hn with hn | ⟨hn, path, q1, q2⟩
      case inr =>
        rw [p1] at q1
        cases q1
        simp only [List.drop_succ_cons, List.drop_zero] at q2
        rw [e1] at q2
        cases q2
        exact absurd (Or.inr rfl) hk
      rcases ps1 with rfl | ps1
      · exact ih s1 l k g1 th1 hl1 (Or.inr ⟨by omega, _, p1, by simpa using e1⟩)
      · obtain ⟨s', f1, f2, f3, f4, f5⟩ := ih s1 l k g1 th1 hl1 (Or.inl (by omega))
        exact ⟨s', f1, f2, f3, sm1.trans f4, f5.trans it1⟩

theorem handleLackPath_spec (hh : h ≤ 9) {l : Nat} (g : Good A s lvl h) (th : Thin s) (hl : lpar s l ≠ none) :
    ∃ s', handleLackPath B s (.leaf l) = .ok s' ∧ Good A s' lvl h ∧ Thin s' ∧ Same s s' ∧
      s'.inn.items.length = s.inn.items.length := by
  refine handleLackPathF_spec hh _ s l 0 g th hl (Or.inl ?_)
  have : psi s ≤ 3 * s.inn.items.length := sumN_le (wt_le s)
  omega

/-- `seal` keeps the leaves and restores the conditions on the root. -/
theorem sealTree_spec (hh : h ≤ 9) {l : Nat} (g : Good A s lvl h) (th : Thin s) (hl : lpar s l ≠ none) :
    ∃ s' lvl' h', sealTree B s (.leaf l) = .ok s' ∧ Good A s' lvl' h' ∧ Sz 1 s' h' ∧ h' ≤ h ∧ Same s s' := by
  obtain ⟨s1, e1, g1, th1, sm1, it1⟩ := handleLackPath_spec (B := B) hh g th hl
  have hl1 := same_lpar sm1 hl
  obtain ⟨u, v, o1, o2⟩ := nextSameLevelLeaf_spec g1.wf th1.ne hl1
  have mid : ∃ s2, (do
      match ← nextSameLevel s1 (.leaf l) with
      | some sib => handleLackPath B s1 sib
      | none => pure s1 : M (Tree E C)) = .ok s2 ∧ Good A s2 lvl h ∧ Thin s2 ∧ Same s1 s2 := by
    rw [nextSameLevel, o2]
    cases v with
    | nil => exact ⟨s1, rfl, g1, th1, Same.refl _⟩
    | cons b v =>
      have hb : lpar s1 b ≠ none := (mem_order g1.wf).mp (by rw [o1]; simp)
      obtain ⟨s2, f1, f2, f3, f4, -⟩ := handleLackPath_spec (B := B) hh g1 th1 hb
      exact ⟨s2, f1, f2, f3, f4⟩
  obtain ⟨s2, f1, g2, th2, sm2⟩ := mid
  have hroot : lnk s2 s2.root ≠ none := by obtain ⟨i, hi⟩ := g2.wf.root'; rw [hi]; simp
  obtain ⟨s3, lvl3, h3, r1, r2, r3, r4, -, r6, -⟩ := tryReduce_spec (by decide) g2 (th2.szx h) (th2 _ hroot).1
  refine ⟨s3, lvl3, h3, ?_, r2, r3, r4, (sm1.trans sm2).trans r6⟩
  simp only [sealTree, e1, bind_ok]
  exact (congrArg (fun r => r >>= fun s => tryReduceLevels s) f1).trans r1

end
end GB
