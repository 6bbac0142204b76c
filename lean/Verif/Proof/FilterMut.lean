import Verif.Proof.Filter
import Verif.Spec.Shape

/-!
# `update_cache_and_elem_with_filter`
-/

namespace GB
variable {E C D σ : Type}
open Tree

/-- the subtree at an index as a nested list -/
def shapeOf (s : Tree E C) : (n : Nat) → Idx → Option (Shape C E n)
  | 0, .leaf l => elm s l
  | 0, .internal _ => none
  | n + 1, .internal x => (chs s x).mapM fun c => (shapeOf s n c.arena).map fun t => (c.cache, t)
  | _ + 1, .leaf _ => none

/-- `b` is `a` or below `a` -/
inductive Below (s : Tree E C) (a : Idx) : Idx → Prop
  | refl : Below s a a
  | step {p i : Nat} {b : Idx} : Below s a (.internal p) → Edge s p i b → Below s a b

section
variable {s s' : Tree E C} {lvl : Nat → Nat} {h : Nat}

theorem SameShape.below (sh : SameShape s s') {a b : Idx} (hb : Below s a b) : Below s' a b := by
  induction hb with
  | refl => exact .refl
  | step _ he ih => exact .step ih (sh.edge.mpr he)

theorem SameShape.atLvl (sh : SameShape s s') {k : Nat} {a : Idx} (ha : AtLvl s lvl k a) : AtLvl s' lvl k a := by
  cases a with
  | leaf l =>
    obtain ⟨h1, h2⟩ := ha
    refine ⟨h1, ?_⟩
    intro h
    apply h2
    have := sh.lf l
    unfold lpar at h ⊢
    rw [← this]; exact h
  | internal x => exact ⟨(sh.live x).mpr ha.1, ha.2⟩

theorem SameShape.size (sh : SameShape s s') : ∀ n a, size s' n a = size s n a := by
  intro n
  induction n with
  | zero => intro a; cases a <;> rfl
  | succ n ih =>
    intro a
    cases a with
    | leaf l => rfl
    | internal x =>
      rw [GB.size, GB.size, sh.kids, List.map_congr_left fun a _ => ih a]

theorem AtLvl.uniq {k k' : Nat} {a : Idx} (h1 : AtLvl s lvl k a) (h2 : AtLvl s lvl k' a) : k = k' := by
  cases a with
  | leaf l => rw [h1.1, h2.1]
  | internal x => rw [← h1.2, ← h2.2]

theorem AtLvl.edge (w : WF s lvl h) {k p i : Nat} {b : Idx} (hp : AtLvl s lvl k (.internal p)) (he : Edge s p i b) : ∃ j, k = j + 1 ∧ AtLvl s lvl j b := by
  have hk := (w.lvl_pos' hp.1).1
  rw [hp.2] at hk
  obtain ⟨j, rfl⟩ : ∃ j, k = j + 1 := ⟨k - 1, by omega⟩
  exact ⟨j, rfl, hp.kid w b (mem_kids.mpr ⟨i, he⟩)⟩

theorem Below.level (w : WF s lvl h) {n : Nat} {a b : Idx} (ha : AtLvl s lvl n a) (hb : Below s a b) : ∃ k, k ≤ n ∧ AtLvl s lvl k b ∧ (k = n → a = b) := by
  induction hb with
  | refl => exact ⟨n, Nat.le_refl _, ha, fun _ => rfl⟩
  | step _ he ih =>
    obtain ⟨k, h1, h2, -⟩ := ih
    obtain ⟨j, rfl, h3⟩ := h2.edge w he
    exact ⟨j, by omega, h3, fun h => by omega⟩

theorem Below.inj (w : WF s lvl h) {n : Nat} {a b y : Idx} (ha : AtLvl s lvl n a) (hb : AtLvl s lvl n b) (h1 : Below s a y) (h2 : Below s b y) : a = b := by
  induction h1 with
  | refl =>
    obtain ⟨k, -, k2, k3⟩ := h2.level w hb
    exact (k3 (k2.uniq ha)).symm
  | step h1 he ih =>
    cases h2 with
    | refl =>
      obtain ⟨k, k1, k2, -⟩ := h1.level w ha
      obtain ⟨j, rfl, k4⟩ := k2.edge w he
      have := k4.uniq hb
      omega
    | step h2 he2 =>
      obtain ⟨rfl, -⟩ := w.kid_inj he he2
      exact ih h2

theorem Below.cons {x i : Nat} {a b : Idx} (he : Edge s x i a) (hb : Below s a b) : Below s (.internal x) b := by
  induction hb with
  | refl => exact .step .refl he
  | step _ he2 ih => exact .step ih he2

theorem mapM_congr' {α β : Type} {f g : α → Option β} : ∀ {l : List α}, (∀ a ∈ l, f a = g a) → l.mapM f = l.mapM g := by
  intro l
  induction l with
  | nil => intro _; rfl
  | cons a l ih =>
    intro h
    rw [List.mapM_cons, List.mapM_cons, h a (by simp), ih (fun b hb => h b (by simp [hb]))]

/-- the nested list depends on the subtree only -/
theorem shapeOf_congr : ∀ (n : Nat) (a : Idx), (∀ y, Below s a (.internal y) → chs s' y = chs s y) →
    (∀ l, Below s a (.leaf l) → elm s' l = elm s l) → shapeOf s' n a = shapeOf s n a := by
  intro n
  induction n with
  | zero =>
    intro a h1 h2
    cases a with
    | leaf l => exact h2 l .refl
    | internal x => rfl
  | succ n ih =>
    intro a h1 h2
    cases a with
    | leaf l => rfl
    | internal x =>
      rw [shapeOf, shapeOf, h1 x .refl]
      apply mapM_congr'
      intro c hc
      obtain ⟨i, hi⟩ := List.mem_iff_getElem?.mp hc
      have he : Edge s x i c.arena := edge_chs.mpr ⟨c, hi, rfl⟩
      rw [ih c.arena (fun y hy => h1 y (hy.cons he)) (fun l hl => h2 l (hl.cons he))]

/-- what one call on a list of subtrees achieves -/
structure Visited (s s' : Tree E C) (as : List Idx) : Prop where
  sh : SameShape s s'
  rc : s'.rootCache = s.rootCache
  chs : ∀ y, (∀ a ∈ as, ¬ Below s a (.internal y)) → chs s' y = chs s y
  elm : ∀ l, (∀ a ∈ as, ¬ Below s a (.leaf l)) → elm s' l = elm s l

theorem filterMutChildren_spec (f : σ → C → σ × C × Bool) {X : Type} : ∀ (cs : List (Child C)) (ts : List X) (st : σ), ts.length = cs.length →
    ∃ flags : List Bool, flags.length = cs.length ∧
      askAll f st ((cs.zip ts).map fun x => (x.1.cache, x.2)) =
        ((filterMutChildren f st cs).1, (((filterMutChildren f st cs).2.1.zip (flags.zip ts)).map fun x => (x.1.cache, x.2))) ∧
      (filterMutChildren f st cs).2.1.map Child.arena = cs.map Child.arena ∧
      (filterMutChildren f st cs).2.2 = ((cs.zip flags).filter fun x => x.2).map fun x => x.1.arena := by
  intro cs
  induction cs with
  | nil =>
    intro ts st ht
    refine ⟨[], rfl, ?_, rfl, rfl⟩
    simp [askAll, filterMutChildren]
  | cons c cs ih =>
    intro ts st ht
    cases ts with
    | nil => cases ht
    | cons t ts =>
      obtain ⟨flags, h1, h2, h3, h4⟩ := ih ts (f st c.cache).1 (by simpa using ht)
      refine ⟨(f st c.cache).2.2 :: flags, by simp [h1], ?_, ?_, ?_⟩
      · simp only [List.zip_cons_cons, List.map_cons, askAll, h2, filterMutChildren]
      · simp only [filterMutChildren, List.map_cons, h3]
      · simp only [filterMutChildren, h4, List.zip_cons_cons, List.filter_cons]
        split <;> simp

/-- the subtrees at several indices -/
def ShapesOf (s : Tree E C) (n : Nat) : List Idx → List (Shape C E n) → Prop
  | [], [] => True
  | a :: as, t :: ts => shapeOf s n a = some t ∧ ShapesOf s n as ts
  | _, _ => False

theorem ShapesOf.length {n : Nat} : ∀ {as : List Idx} {ts : List (Shape C E n)}, ShapesOf s n as ts → ts.length = as.length := by
  intro as
  induction as with
  | nil => intro ts h; cases ts with
    | nil => rfl
    | cons => exact h.elim
  | cons a as ih => intro ts h; cases ts with
    | nil => exact h.elim
    | cons t ts => simp [ih h.2]

theorem ShapesOf.mapM {n : Nat} : ∀ {cs : List (Child C)} {ts : List (Shape C E n)}, ShapesOf s n (cs.map Child.arena) ts →
    (cs.mapM fun c => (shapeOf s n c.arena).map fun t => (c.cache, t)) = some ((cs.zip ts).map fun x => (x.1.cache, x.2)) := by
  intro cs
  induction cs with
  | nil => intro ts h; cases ts with
    | nil => rfl
    | cons => exact h.elim
  | cons c cs ih => intro ts h; cases ts with
    | nil => exact h.elim
    | cons t ts =>
      rw [List.mapM_cons, h.1, ih h.2]
      rfl

theorem ShapesOf.congr {n : Nat} : ∀ {as : List Idx} {ts : List (Shape C E n)}, (∀ a ∈ as, shapeOf s' n a = shapeOf s n a) → ShapesOf s n as ts → ShapesOf s' n as ts := by
  intro as
  induction as with
  | nil => intro ts _ h; cases ts with
    | nil => exact trivial
    | cons => exact h.elim
  | cons a as ih => intro ts hs h; cases ts with
    | nil => exact h.elim
    | cons t ts => exact ⟨by rw [hs a (by simp)]; exact h.1, ih (fun b hb => hs b (by simp [hb])) h.2⟩

theorem Visited.trans {s'' : Tree E C} {as bs : List Idx} (h1 : Visited s s' as) (h2 : Visited s' s'' bs) : Visited s s'' (as ++ bs) := by
  refine ⟨h1.sh.trans h2.sh, by rw [h2.rc, h1.rc], ?_, ?_⟩
  · intro y hy
    rw [h2.chs y (fun a ha hb => hy a (by simp [ha]) (h1.sh.symm.below hb)), h1.chs y (fun a ha => hy a (by simp [ha]))]
  · intro y hy
    rw [h2.elm y (fun a ha hb => hy a (by simp [ha]) (h1.sh.symm.below hb)), h1.elm y (fun a ha => hy a (by simp [ha]))]

theorem Visited.refl (s : Tree E C) : Visited s s [] := ⟨.refl _, rfl, fun _ _ => rfl, fun _ _ => rfl⟩

/-- a subtree outside is not touched -/
theorem Visited.shape (w : WF s lvl h) {n : Nat} {as : List Idx} (v : Visited s s' as) (has : ∀ a ∈ as, AtLvl s lvl n a) {b : Idx} (hb : AtLvl s lvl n b)
    (hn : b ∉ as) : shapeOf s' n b = shapeOf s n b := by
  apply shapeOf_congr
  · intro y hy
    apply v.chs
    intro a ha hay
    have := Below.inj w (has a ha) hb hay hy
    subst this
    exact hn ha
  · intro y hy
    apply v.elm
    intro a ha hay
    have := Below.inj w (has a ha) hb hay hy
    subst this
    exact hn ha

/-- the statement for one subtree of `n` levels -/
def VisitOk (f : σ → C → σ × C × Bool) (g : σ → E → σ × E) (lvl : Nat → Nat) (h n : Nat) : Prop :=
  ∀ (s : Tree E C) (a : Idx) (st : σ), WF s lvl h → AtLvl s lvl n a →
    ∃ t s', shapeOf s n a = some t ∧ shapeOf s' n a = some (Shape.visit f g n st t).2 ∧ Visited s s' [a] ∧
      ∀ N stack, size s n a ≤ N → ∃ N', N ≤ N' + size s n a ∧
        filterMutF f g N st s (a :: stack) = filterMutF f g N' (Shape.visit f g n st t).1 s' stack

theorem visitList {f : σ → C → σ × C × Bool} {g : σ → E → σ × E} {n : Nat} (ih : VisitOk f g lvl h n) : ∀ (cs : List (Child C)) (flags : List Bool) (s : Tree E C) (st : σ)
    (ts : List (Shape C E n)), WF s lvl h → flags.length = cs.length → (cs.map Child.arena).Nodup → (∀ c ∈ cs, AtLvl s lvl n c.arena) →
    ShapesOf s n (cs.map Child.arena) ts →
    ∃ st' ts' s', visitRev (Shape.visit f g n) st ((cs.zip (flags.zip ts)).map fun x => (x.1.cache, x.2)) = (st', (cs.zip ts').map fun x => (x.1.cache, x.2)) ∧
      ShapesOf s' n (cs.map Child.arena) ts' ∧ Visited s s' (cs.map Child.arena) ∧
      ∀ N stack, (cs.map fun c => size s n c.arena).sum ≤ N → ∃ N', N ≤ N' + (cs.map fun c => size s n c.arena).sum ∧
        filterMutF f g N st s ((((cs.zip flags).filter fun x => x.2).map fun x => x.1.arena).reverse ++ stack) = filterMutF f g N' st' s' stack := by
  intro cs
  induction cs with
  | nil =>
    intro flags s st ts w hf _ _ hts
    cases flags with
    | cons => cases hf
    | nil =>
      refine ⟨st, [], s, by simp [visitRev], trivial, .refl s, ?_⟩
      intro N stack _
      exact ⟨N, by simp, by simp⟩
  | cons c cs ihc =>
    intro flags s st ts w hf nd hat hts
    cases flags with
    | nil => cases hf
    | cons b flags =>
      cases ts with
      | nil => exact hts.elim
      | cons t ts =>
        have hts : shapeOf s n c.arena = some t ∧ ShapesOf s n (cs.map Child.arena) ts := hts
        rw [List.map_cons, List.nodup_cons] at nd
        obtain ⟨st1, ts1, s1, k1, k2, k3, k4⟩ := ihc flags s st ts w (by simpa using hf) nd.2 (fun d hd => hat d (by simp [hd])) hts.2
        have hatc := hat c (by simp)
        have hat' : ∀ a ∈ cs.map Child.arena, AtLvl s lvl n a := by
          intro a ha
          obtain ⟨d, hd, rfl⟩ := List.mem_map.mp ha
          exact hat d (by simp [hd])
        have hc1 : shapeOf s1 n c.arena = some t := by
          rw [k3.shape w hat' hatc nd.1]; exact hts.1
        have w1 := k3.sh.wf w
        cases b with
        | false =>
          refine ⟨st1, t :: ts1, s1, ?_, ⟨hc1, k2⟩, ?_, ?_⟩
          · simp [visitRev, k1]
          · have := (Visited.refl s).trans k3
            refine ⟨k3.sh, k3.rc, fun y hy => k3.chs y (fun a ha => hy a (by simp at ha ⊢; exact Or.inr ha)),
              fun y hy => k3.elm y (fun a ha => hy a (by simp at ha ⊢; exact Or.inr ha))⟩
          · intro N stack hN
            rw [List.map_cons, List.sum_cons] at hN ⊢
            obtain ⟨N', n1, n2⟩ := k4 N stack (by omega)
            refine ⟨N', by omega, ?_⟩
            simpa using n2
        | true =>
          obtain ⟨t0, s2, q1, q2, q3, q4⟩ := ih s1 c.arena st1 w1 (k3.sh.atLvl hatc)
          rw [hc1] at q1
          cases q1
          refine ⟨(Shape.visit f g n st1 t).1, (Shape.visit f g n st1 t).2 :: ts1, s2, ?_, ⟨q2, ?_⟩, ?_, ?_⟩
          · simp [visitRev, k1]
          · refine ShapesOf.congr ?_ k2
            intro a ha
            refine q3.shape w1 (by intro a ha; rw [List.mem_singleton] at ha; subst ha; exact k3.sh.atLvl hatc) (k3.sh.atLvl (hat' a ha)) ?_
            intro hx
            rw [List.mem_singleton] at hx
            subst hx
            exact nd.1 ha
          · have v := k3.trans q3
            refine ⟨v.sh, v.rc, fun y hy => v.chs y (fun a ha => hy a ?_), fun y hy => v.elm y (fun a ha => hy a ?_)⟩
            all_goals
              rw [List.map_cons]
              rcases List.mem_append.mp ha with ha | ha
              · exact List.mem_cons_of_mem _ ha
              · rw [List.mem_singleton] at ha; subst ha; exact List.mem_cons_self
          · intro N stack hN
            rw [List.map_cons, List.sum_cons] at hN ⊢
            obtain ⟨N1, n1, n2⟩ := k4 N (c.arena :: stack) (by omega)
            obtain ⟨N2, n3, n4⟩ := q4 N1 stack (by rw [k3.sh.size]; omega)
            rw [k3.sh.size] at n3
            refine ⟨N2, by omega, ?_⟩
            rw [← n4, ← n2]
            simp

theorem visitOk (f : σ → C → σ × C × Bool) (g : σ → E → σ × E) : ∀ n, VisitOk f g lvl h n := by
  intro n
  induction n with
  | zero =>
    intro s a st w ha
    obtain ⟨l, rfl, hl⟩ := ha.zero w
    obtain ⟨p, hp⟩ := Option.ne_none_iff_exists'.mp hl
    obtain ⟨e, hL, he⟩ := getLf_of hp
    refine ⟨e, s.setLf l ⟨(g st e).2, p⟩, he, ?_, ⟨SameShape.setLf hL rfl, rfl, fun _ _ => rfl, ?_⟩, ?_⟩
    · show elm _ l = _
      exact (elm_setLf s hl _ _).trans (if_pos rfl)
    · intro k hk
      rw [elm_setLf s hl, if_neg]
      rintro rfl
      exact hk _ (by simp) .refl
    · intro N stack hN
      obtain ⟨N, rfl⟩ : ∃ M, N = M + 1 := ⟨N - 1, by simp only [size] at hN; omega⟩
      refine ⟨N, by simp [size], ?_⟩
      rw [filterMutF, getLf_ok hL, bind_ok]
      rfl
  | succ n ih =>
    intro s a st w ha
    obtain ⟨x, rfl, hx⟩ := ha.succ
    obtain ⟨N, hN⟩ := lnk_isSome.mp hx
    have hch := chs_of hN
    have hatk : ∀ c ∈ N.children, AtLvl s lvl n c.arena := fun c hc => ha.kid w c.arena (by rw [kids_of hN]; exact List.mem_map.mpr ⟨c, hc, rfl⟩)
    obtain ⟨ts, hts⟩ : ∃ ts, ShapesOf s n (N.children.map Child.arena) ts := by
      have : ∀ cs : List (Child C), (∀ c ∈ cs, AtLvl s lvl n c.arena) → ∃ ts, ShapesOf s n (cs.map Child.arena) ts := by
        intro cs
        induction cs with
        | nil => intro _; exact ⟨[], trivial⟩
        | cons c cs ihc =>
          intro h
          obtain ⟨ts, hts⟩ := ihc fun d hd => h d (by simp [hd])
          obtain ⟨t, -, ht, -⟩ := ih s c.arena st w (h c (by simp))
          exact ⟨t :: ts, ht, hts⟩
      exact this _ hatk
    obtain ⟨flags, f1, f2, f3, f4⟩ := filterMutChildren_spec f N.children ts st (by rw [hts.length]; simp)
    generalize hfc : filterMutChildren f st N.children = R at f2 f3 f4
    obtain ⟨st1, cs1, push⟩ := R
    simp only at f2 f3 f4
    have sh1 : SameShape s (s.setIn x { N with children := cs1 }) := SameShape.setIn hN (by simp [Node.shape, f3])
    have hch1 : ∀ y, chs (s.setIn x { N with children := cs1 }) y = if y = x then cs1 else chs s y := chs_setIn s hx _
    have hel1 : ∀ l, elm (s.setIn x { N with children := cs1 }) l = elm s l := fun _ => rfl
    have hrc : (s.setIn x { N with children := cs1 }).rootCache = s.rootCache := rfl
    have hnb : ∀ c ∈ N.children, ¬ Below s c.arena (.internal x) := by
      intro c hc hb
      obtain ⟨k, k1, k2, -⟩ := hb.level w (hatk c hc)
      have := k2.uniq ha
      omega
    have w1 := sh1.wf w
    generalize hs1 : s.setIn x { N with children := cs1 } = s1 at *
    have hshape1 : ∀ c ∈ N.children, shapeOf s1 n c.arena = shapeOf s n c.arena := by
      intro c hc
      apply shapeOf_congr
      · intro y hy
        rw [hch1, if_neg]
        rintro rfl
        exact hnb c hc hy
      · intro l _; exact hel1 l
    have hl1 : cs1.length = N.children.length := by simpa using congrArg List.length f3
    have nd1 : (cs1.map Child.arena).Nodup := by
      rw [f3, ← kids_of hN]; exact w.kids_nodup x
    have hmem1 : ∀ c ∈ cs1, ∃ d ∈ N.children, d.arena = c.arena := by
      intro c hc
      have : c.arena ∈ cs1.map Child.arena := List.mem_map.mpr ⟨c, hc, rfl⟩
      rw [f3] at this
      exact List.mem_map.mp this
    have hts1 : ShapesOf s1 n (cs1.map Child.arena) ts := by
      rw [f3]
      refine ShapesOf.congr ?_ hts
      intro a ha
      obtain ⟨c, hc, rfl⟩ := List.mem_map.mp ha
      exact hshape1 c hc
    have hzip : ∀ (as bs : List (Child C)) (fl : List Bool), as.map Child.arena = bs.map Child.arena →
        ((as.zip fl).filter fun x => x.2).map (fun x => x.1.arena) = ((bs.zip fl).filter fun x => x.2).map (fun x => x.1.arena) := by
      intro as
      induction as with
      | nil => intro bs fl h; cases bs with
        | nil => rfl
        | cons => cases h
      | cons a as iha => intro bs fl h; cases bs with
        | nil => cases h
        | cons b bs =>
          simp only [List.map_cons, List.cons.injEq] at h
          cases fl with
          | nil => rfl
          | cons v fl =>
            have := iha bs fl h.2
            simp only [List.zip_cons_cons, List.filter_cons]
            cases v <;> simp [this, h.1]
    obtain ⟨st2, ts2, s2, k1, k2, k3, k4⟩ := visitList ih cs1 flags s1 st1 ts w1 (by rw [hl1]; exact f1) nd1
      (by
        intro c hc
        obtain ⟨d, hd, e⟩ := hmem1 c hc
        rw [← e]
        exact sh1.atLvl (hatk d hd)) hts1
    have hvis : Shape.visit f g (n + 1) st ((N.children.zip ts).map fun x => (x.1.cache, x.2)) = (st2, (cs1.zip ts2).map fun x => (x.1.cache, x.2)) := by
      show visitRev (Shape.visit f g n) (askAll f st _).1 (askAll f st _).2 = _
      rw [f2]
      exact k1
    have hx2 : chs s2 x = cs1 := by
      rw [k3.chs x, hch1, if_pos rfl]
      intro a ha hb
      rw [f3] at ha
      obtain ⟨c, hc, rfl⟩ := List.mem_map.mp ha
      exact hnb c hc (sh1.symm.below hb)
    refine ⟨(N.children.zip ts).map fun x => (x.1.cache, x.2), s2, ?_, ?_, ⟨sh1.trans k3.sh, by rw [k3.rc, hrc], ?_, ?_⟩, ?_⟩
    · rw [shapeOf, hch]; exact hts.mapM
    · rw [hvis, shapeOf, hx2]; exact k2.mapM
    · intro y hy
      have hyx : y ≠ x := by rintro rfl; exact hy _ (by simp) .refl
      rw [k3.chs y, hch1, if_neg hyx]
      intro a ha hb
      rw [f3] at ha
      obtain ⟨c, hc, rfl⟩ := List.mem_map.mp ha
      obtain ⟨i, hi⟩ := List.mem_iff_getElem?.mp hc
      exact hy (.internal x) (by simp) (Below.cons (edge_chs.mpr ⟨c, by rw [hch]; exact hi, rfl⟩) (sh1.symm.below hb))
    · intro y hy
      rw [k3.elm y, hel1]
      intro a ha hb
      rw [f3] at ha
      obtain ⟨c, hc, rfl⟩ := List.mem_map.mp ha
      obtain ⟨i, hi⟩ := List.mem_iff_getElem?.mp hc
      exact hy (.internal x) (by simp) (Below.cons (edge_chs.mpr ⟨c, by rw [hch]; exact hi, rfl⟩) (sh1.symm.below hb))
    · intro M stack hM
      have hsz : size s (n + 1) (.internal x) = 1 + (cs1.map fun c => size s1 n c.arena).sum := by
        rw [size, kids_of hN, ← f3, List.map_map]
        congr 2
        apply List.map_congr_left
        intro c _
        exact (sh1.size n c.arena).symm
      rw [hsz] at hM ⊢
      obtain ⟨M, rfl⟩ : ∃ M', M = M' + 1 := ⟨M - 1, by omega⟩
      obtain ⟨M', m1, m2⟩ := k4 M stack (by omega)
      refine ⟨M', by omega, ?_⟩
      rw [hvis, ← m2, hzip cs1 N.children flags f3, ← f4]
      rw [filterMutF, getIn_ok hN, bind_ok, hfc, ← hs1]

end
end GB
