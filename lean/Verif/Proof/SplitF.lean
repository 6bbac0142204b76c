import Verif.Proof.SplitRoot
import Verif.Proof.LeftSpine

/-!
# `split`: the whole cascade
-/

namespace GB
variable {E C D : Type}
open Tree

/-- structure, caches and elements are right -/
structure Good {B : Trait E C D} (A : Law B) (s : Tree E C) (lvl : Nat → Nat) (h : Nat) : Prop where
  wf : WF s lvl h
  cinv : CInv A s noX
  cok : COk A s
  rok : RootOK A s
  okE : ∀ l e, elm s l = some e → A.okE e

/-- as `Good`, except that the entries for the indices in `X`, and the root cache if `R`, may be stale -/
structure GoodX {B : Trait E C D} (A : Law B) (s : Tree E C) (lvl : Nat → Nat) (h : Nat) (X : Idx → Prop) (R : Prop) :
    Prop where
  wf : WF s lvl h
  cinv : CInv A s X
  cok : COk A s
  rok : ¬ R → RootOK A s
  okE : ∀ l e, elm s l = some e → A.okE e

theorem Good.toX {B : Trait E C D} {A : Law B} {s : Tree E C} {lvl : Nat → Nat} {h : Nat} (g : Good A s lvl h) :
    GoodX A s lvl h noX False := ⟨g.wf, g.cinv, g.cok, fun _ => g.rok, g.okE⟩

theorem GoodX.good {B : Trait E C D} {A : Law B} {s : Tree E C} {lvl : Nat → Nat} {h : Nat}
    (g : GoodX A s lvl h noX False) : Good A s lvl h := ⟨g.wf, g.cinv, g.cok, g.rok (fun h => h), g.okE⟩

/-- occupancy: at most 11 children, at least `m` in a non-root node (`m.lo` on the left spine, `m.lo + m.d`
elsewhere), at least 2 in the root of a tree with more than one level; nodes in `P` are exempt -/
def SzX (m : Fill) (s : Tree E C) (h : Nat) (P : Nat → Prop) : Prop :=
  ∀ y, lnk s y ≠ none → ¬ P y → (chs s y).length ≤ 11 ∧ (y ≠ s.root → m.le s y (chs s y).length) ∧
    (y = s.root → 2 ≤ h → 2 ≤ (chs s y).length)

abbrev Sz (m : Fill) (s : Tree E C) (h : Nat) : Prop := SzX m s h fun _ => False

/-- the same leaves in the same order with the same elements -/
structure Same (s s' : Tree E C) : Prop where
  order : order s' = order s
  elm : ∀ l, elm s' l = elm s l
  root : s'.root = s.root
  lfitems : s'.lf.items.length = s.lf.items.length

theorem Same.refl (s : Tree E C) : Same s s := ⟨rfl, fun _ => rfl, rfl, rfl⟩

theorem Same.trans {s s' s'' : Tree E C} (h : Same s s') (h' : Same s' s'') : Same s s'' :=
  ⟨h'.order.trans h.order, fun l => (h'.elm l).trans (h.elm l), h'.root.trans h.root, h'.lfitems.trans h.lfitems⟩

theorem elm_none {s : Tree E C} {l : Nat} : elm s l = none ↔ lpar s l = none := by
  simp [elm, lpar]

section
variable {B : Trait E C D} {A : Law B} {s : Tree E C} {lvl : Nat → Nat} {h : Nat}

theorem kids_ne_nil {x : Nat} : kids s x = [] ↔ chs s x = [] := by
  rw [kids_chs, List.map_eq_nil_iff]

theorem kids_internal (w : WF s lvl h) {p : Nat} (hl : 2 ≤ lvl p) : ∀ a ∈ kids s p, ∃ g, a = .internal g := by
  intro a ha
  obtain ⟨i, hi⟩ := mem_kids.mp ha
  cases a with
  | leaf l => have := (w.klf hi).1; omega
  | internal g => exact ⟨g, rfl⟩

theorem kids_live_in (w : WF s lvl h) {p g : Nat} (hg : .internal g ∈ kids s p) : lnk s g ≠ none := by
  obtain ⟨i, hi⟩ := mem_kids.mp hg
  rw [(w.kin hi).2]; simp

/-- Regrouping below `p` keeps the caches, provided the old and new entries of `p` are right. -/
theorem Regroup.goodX {s' : Tree E C} {p : Nat} {X : Idx → Prop} {Q : Prop} (r : Regroup s s' p)
    (g : GoodX A s lvl h X Q) (hX : ∀ a ∈ kids s p, ¬ X a) (hp : lnk s p ≠ none) (hl : 2 ≤ lvl p) (hrc : s'.rootCache = s.rootCache)
    (hne : ∀ x, .internal x ∈ kids s p → chs s x ≠ [] ∨ LawE A)
    (hne' : ∀ x, .internal x ∈ kids s' p → chs s' x ≠ [] ∨ LawE A)
    (hp0 : chs s p ≠ []) (hp1 : chs s' p ≠ [] ∨ LawE A)
    (hok : ∀ c ∈ chs s' p, A.okC c.cache) (hnew : ∀ c ∈ chs s' p, EntryOK A s' c) :
    GoodX A s' (relvl s lvl p) h X Q ∧ A.total (cch s' p) = A.total (cch s p) := by
  have hi : h ≤ s'.inn.items.length := Nat.le_trans g.wf.h_le r.items
  have w' := r.wf g.wf hp hl hi
  have htot : A.total (cch s' p) = A.total (cch s p) := by
    rw [total_grand (kids_internal g.wf hl) (fun c hc => g.cinv p c hc (hX _ (by rw [kids_chs]; exact List.mem_map_of_mem hc))) hne,
      total_grand (s := s') (p := p) ?_ hnew hne', r.flat]
    intro a ha
    obtain ⟨i, hi⟩ := mem_kids.mp ha
    obtain ⟨g, hg, -⟩ := r.p_kid i _ hi
    exact ⟨g, hg⟩
  refine ⟨⟨w', ?_, r.cok g.wf hp hl g.cok hok, ?_, ?_⟩, htot⟩
  · exact r.cinv g.wf hp hl g.cinv (fun _ h => h) (fun c hc _ => hnew c hc) (fun _ => htot)
  · intro hQ
    have hrk : Idx.internal s.root ∉ kids s p := by
      intro hm; obtain ⟨j, hj⟩ := mem_kids.mp hm; exact g.wf.root_not_kid hj
    by_cases hpr : p = s.root
    · subst hpr
      constructor
      · intro _
        rw [hrc, r.root, htot, (g.rok hQ).1 hp0]
      · intro he
        rw [r.root] at he
        rcases hp1 with hp1 | le
        · exact absurd he hp1
        · have h1 := (g.rok hQ).1 hp0
          rw [← htot, cch, he] at h1
          rw [hrc, h1]
          exact le.empty_nil
    · have hrl : lnk s s.root ≠ none := by
        obtain ⟨i, hi⟩ := g.wf.root'
        rw [hi]; simp
      refine RootOK.congr (s := s) ?_ hrc (g.rok hQ)
      rw [r.root]
      exact r.frame_chs g.wf hp hl hrl (Ne.symm hpr) hrk
  · intro l e he
    rw [r.elm] at he
    exact g.okE l e he

/-- Regrouping keeps `Good`, provided the new entries are right. -/
theorem Regroup.good {s' : Tree E C} {p : Nat} (r : Regroup s s' p) (g : Good A s lvl h)
    (hp : lnk s p ≠ none) (hl : 2 ≤ lvl p) (hrc : s'.rootCache = s.rootCache)
    (hne : ∀ x, .internal x ∈ kids s p → chs s x ≠ [] ∨ LawE A)
    (hne' : ∀ x, .internal x ∈ kids s' p → chs s' x ≠ [] ∨ LawE A)
    (hp0 : chs s p ≠ []) (hp1 : chs s' p ≠ [] ∨ LawE A)
    (hok : ∀ c ∈ chs s' p, A.okC c.cache) (hnew : ∀ c ∈ chs s' p, EntryOK A s' c) :
    Good A s' (relvl s lvl p) h :=
  (r.goodX g.toX (fun _ _ h => h) hp hl hrc hne hne' hp0 hp1 hok hnew).1.good

/-- `split` at the root, whatever the root cache is. -/
theorem splitRoot_good {m : Fill} {Q : Prop} (hm1 : 1 ≤ m.lo) (g : GoodX A s lvl h noX Q) {slot : Nat}
    (hlk : lnk s s.root = some (none, slot)) (hx : lnk s s.root ≠ none) (sz : SzX m s h (fun y => y = s.root))
    (hlm : 2 * (m.lo + m.d) ≤ (chs s s.root).length) (hl2 : 2 ≤ (chs s s.root).length) (hl12 : (chs s s.root).length ≤ 12) :
    ∃ s4 s' lvl', splitNode B s s.root = .ok ((none, slot,
        A.total (((chs s s.root).take ((chs s s.root).length / 2)).map Child.cache),
        ⟨.internal s.inn.items.length,
          A.total (((chs s s.root).drop ((chs s s.root).length / 2)).map Child.cache)⟩), s4) ∧
      splitRoot B s4 (A.total (((chs s s.root).take ((chs s s.root).length / 2)).map Child.cache))
        ⟨.internal s.inn.items.length,
          A.total (((chs s s.root).drop ((chs s s.root).length / 2)).map Child.cache)⟩ = .ok s' ∧
      Good A s' lvl' (h + 1) ∧ Sz m s' (h + 1) ∧ Same s s' ∧ (chs s' s'.root).length = 2 ∧
      (∀ y, lnk s y ≠ none → lvl y < lvl s.root → chs s' y = chs s y) ∧
      (∀ a ∈ kids s s.root, ∃ q, a ∈ kids s' q ∧ (chs s' q).length ≤ 6) := by
  obtain ⟨s4, s', t, e1, e2, lift, ct, it, rg, is', rc', croot, cl, cr, co, lv, lf⟩ :=
    splitRoot_spec (A := A) g.wf g.cok hlk hl2
  have hrlt := g.wf.lnk_lt hx
  have w1 := lift.wf_up g.wf (by rw [it]; have := g.wf.h_le; omega)
  have hlr : lnk t s.root ≠ none := by obtain ⟨i, hi⟩ := lift.lnk_root; rw [hi]; simp
  have hup : Lift.up s (s.inn.items.length + 1) lvl h s.root = h + 1 := by simp [Lift.up]
  have hpos := g.wf.h_pos
  have hne : chs s s.root ≠ [] := by intro e; rw [e] at hl2; simp at hl2
  have hcne : cch s s.root ≠ [] := by simpa [cch] using hne
  have okL : ∀ k, ((chs s s.root).take k) ≠ [] → A.okC (A.total (((chs s s.root).take k).map Child.cache)) := by
    intro k hk
    apply A.total_ok
    · simpa using hk
    · intro c hc
      obtain ⟨c2, h2, rfl⟩ := List.mem_map.mp hc
      exact g.cok _ c2 (List.mem_of_mem_take h2)
  have okR : ∀ k, ((chs s s.root).drop k) ≠ [] → A.okC (A.total (((chs s s.root).drop k).map Child.cache)) := by
    intro k hk
    apply A.total_ok
    · simpa using hk
    · intro c hc
      obtain ⟨c2, h2, rfl⟩ := List.mem_map.mp hc
      exact g.cok _ c2 (List.mem_of_mem_drop h2)
  have hLne : (chs s s.root).take ((chs s s.root).length / 2) ≠ [] := by
    intro e
    have := congrArg List.length e
    simp only [List.length_take, List.length_nil] at this
    omega
  have hRne : (chs s s.root).drop ((chs s s.root).length / 2) ≠ [] := by
    intro e
    have := congrArg List.length e
    simp only [List.length_drop, List.length_nil] at this
    omega
  -- the ghost state is good
  have gt : Good A { t with rootCache := A.total (cch s s.root) } (Lift.up s (s.inn.items.length + 1) lvl h) (h + 1) := by
    refine ⟨(SameShape.rootCache t _).wf w1, ?_, ?_, ?_, ?_⟩
    · have := lift.cinv_up (A := A) g.wf g.cinv (by
        intro c hc
        rw [ct] at hc
        simp only [List.mem_singleton] at hc
        subst hc
        simp only [EntryOK, cch, lift.c_l])
      exact this
    · have := lift.cok_up (A := A) g.cok (by
        intro c hc
        rw [ct] at hc
        simp only [List.mem_singleton] at hc
        subst hc
        refine A.total_ok _ hcne ?_
        intro c hc
        obtain ⟨c2, h2, rfl⟩ := List.mem_map.mp hc
        exact g.cok _ c2 h2)
      exact this
    · constructor
      · intro _
        show A.total (cch s s.root) = A.total (cch t t.root)
        have hct : cch t t.root = [A.total (cch s s.root)] := by
          rw [lift.root]; unfold cch; rw [ct]; rfl
        rw [hct, A.total_single]
        refine A.total_ok _ hcne ?_
        intro c hc
        obtain ⟨c2, h2, rfl⟩ := List.mem_map.mp hc
        exact g.cok _ c2 h2
      · intro he
        have he : chs t t.root = [] := he
        rw [lift.root, ct] at he
        cases he
    · intro l e he
      have he : elm t l = some e := he
      rw [lift.elm] at he
      exact g.okE l e he
  have rg' : Regroup { t with rootCache := A.total (cch s s.root) } s' s.root :=
    ⟨rg.root, rg.items, rg.elm, rg.lpar_live, rg.p_lnk, rg.p_kid, rg.removed, rg.kin', rg.klf', rg.fr_lnk,
      rg.fr_chs, rg.fr_lpar, rg.flat⟩
  have kroot : kids s' s.root = [.internal (s.inn.items.length + 1), .internal s.inn.items.length] := by
    rw [kids_chs, croot]; rfl
  have hrc' : s'.rootCache = A.total (cch s s.root) := by
    rw [rc', cch, croot]
    simp only [List.map_cons, List.map_nil]
    have h1 := total_groups A [((chs s s.root).take ((chs s s.root).length / 2)).map Child.cache,
      ((chs s s.root).drop ((chs s s.root).length / 2)).map Child.cache] [] (by
      intro l hl
      simp only [List.mem_cons, List.not_mem_nil, or_false] at hl
      rcases hl with rfl | rfl
      · left; simpa using hLne
      · left; simpa using hRne)
    simp only [List.nil_append, List.map_cons, List.map_nil, List.flatten_cons, List.flatten_nil,
      List.append_nil] at h1
    rw [h1, ← List.map_append, List.take_append_drop]
    rfl
  have g' := rg'.good (A := A) gt hlr (by rw [hup]; omega) hrc'
    (by
      intro y hy
      left
      have hy : Idx.internal y ∈ kids t s.root := hy
      rw [lift.c_root] at hy
      simp only [List.mem_singleton, Idx.internal.injEq] at hy
      subst hy
      show chs t _ ≠ []
      rw [lift.c_l]; exact hne)
    (by
      intro y hy
      left
      rw [kroot] at hy
      simp only [List.mem_cons, Idx.internal.injEq, List.not_mem_nil, or_false] at hy
      rcases hy with rfl | rfl
      · rw [cl]; exact hLne
      · rw [cr]; exact hRne)
    (by show chs t s.root ≠ []; rw [ct]; simp)
    (by rw [croot]; simp)
    (by
      intro c hc
      rw [croot] at hc
      simp only [List.mem_cons, List.not_mem_nil, or_false] at hc
      rcases hc with rfl | rfl
      · exact okL _ hLne
      · exact okR _ hRne)
    (by
      intro c hc
      rw [croot] at hc
      simp only [List.mem_cons, List.not_mem_nil, or_false] at hc
      rcases hc with rfl | rfl
      · simp only [EntryOK, cch, cl]
      · simp only [EntryOK, cch, cr])
  have hsr : s'.root = s.root := by rw [rg.root, lift.root]
  have hls : ∀ y, lnk s' y ≠ none → LSp s y → LSp s' y := by
    intro y hy h1
    refine LSp.regroup rg w1 hlr (by rw [hup]; omega) ?_ ?_ (h1.lift lift g.wf) hy
    · intro z hz
      rw [kroot] at hz
      simp only [List.head?_cons, Option.some.injEq, Idx.internal.injEq] at hz
      subst hz; rw [cl]; exact hLne
    · intro z hz _
      rw [lift.c_root] at hz
      rw [kroot]; exact hz
  refine ⟨s4, s', _, e1, e2, g', ?_, ⟨?_, ?_, hsr, lf⟩, by rw [hsr, croot]; rfl, ?_, ?_⟩
  · intro y hy _
    rw [hsr]
    by_cases h1 : y = s.root
    · subst h1; rw [croot]
      exact ⟨by simp, fun h => absurd rfl h, by simp⟩
    · by_cases h2 : y = s.inn.items.length
      · subst h2
        rw [cr]
        simp only [List.length_drop]
        refine ⟨by omega, fun _ => .of (by omega), fun h => absurd h h1⟩
      · by_cases h3 : y = s.inn.items.length + 1
        · subst h3
          rw [cl]
          simp only [List.length_take]
          refine ⟨by omega, fun _ => .of (by omega), fun h => absurd h h1⟩
        · rw [co y h1 h2 h3]
          have := sz y (fun e => hy ((lv y h2 h3).mpr e)) h1
          exact ⟨this.1, fun h => (this.2.1 h).keep (hls y hy) (Nat.le_refl _), fun h => absurd h h1⟩
  · have o1 := lift.order g.wf w1
    have o2 := rg.order w1 hlr (by rw [hup]; omega) (by rw [is']; have := g.wf.h_le; omega)
    rw [o2, o1]
  · intro l; rw [rg.elm, lift.elm]
  · intro y hy hyl
    have := g.wf.lnk_lt hy
    apply co y
    · intro e; subst e; omega
    · omega
    · omega
  · intro a ha
    rw [kids_chs, ← List.take_append_drop ((chs s s.root).length / 2) (chs s s.root), List.map_append] at ha
    rcases List.mem_append.mp ha with ha | ha
    · refine ⟨s.inn.items.length + 1, ?_, ?_⟩
      · rw [kids_chs, cl]; exact ha
      · rw [cl, List.length_take]; omega
    · refine ⟨s.inn.items.length, ?_, ?_⟩
      · rw [kids_chs, cr]; exact ha
      · rw [cr, List.length_drop]; omega

/-- all nodes above `x` are full: one more child makes them split -/
inductive Jam (s : Tree E C) : Nat → Prop
  | root : Jam s s.root
  | up {x p i : Nat} : Edge s p i (.internal x) → 11 ≤ (chs s p).length → Jam s p → Jam s x

theorem Jam.root_full {s : Tree E C} {x : Nat} (j : Jam s x) : s.root = x ∨ 11 ≤ (chs s s.root).length := by
  induction j with
  | root => exact .inl rfl
  | up _ hl _ ih =>
    rcases ih with e | h
    · rw [e]; exact .inr hl
    · exact .inr h

/-- only the nodes above `x` matter -/
theorem Jam.move {s s' : Tree E C} {lvl : Nat → Nat} {h : Nat} (w : WF s lvl h) (hr : s'.root = s.root) {k : Nat}
    (hc : ∀ y, lnk s y ≠ none → k < lvl y → kids s' y = kids s y) {x : Nat} (j : Jam s x) : k ≤ lvl x → Jam s' x := by
  induction j with
  | root => intro _; rw [← hr]; exact .root
  | @up x p i he hl _ ih =>
    intro hk
    have h1 := (w.kin he).1
    have hp := hc p (edge_live he) (by omega)
    refine .up (p := p) (i := i) (by unfold Edge; rw [hp]; exact he) ?_ (ih (by omega))
    have := congrArg List.length hp
    simp only [kids_chs, List.length_map] at this
    omega

/-- all nodes above the leaf `l` are full -/
def FullAbove (s : Tree E C) (l : Nat) : Prop := ∃ q i, Edge s q i (.leaf l) ∧ 11 ≤ (chs s q).length ∧ Jam s q

theorem FullAbove.root_full {s : Tree E C} {l : Nat} (j : FullAbove s l) : 11 ≤ (chs s s.root).length := by
  obtain ⟨q, i, -, h1, h2⟩ := j
  rcases h2.root_full with e | h
  · rw [e]; exact h1
  · exact h

/-- one level more exactly if `P` -/
def Steps (P : Prop) (h h' : Nat) : Prop := (h' = h ∧ ¬ P) ∨ (h' = h + 1 ∧ P)

theorem Steps.le {P : Prop} {h h' : Nat} (r : Steps P h h') : h ≤ h' ∧ h' ≤ h + 1 := by
  rcases r with h | h <;> omega

theorem Steps.iff {P Q : Prop} {h h' : Nat} (r : Steps P h h') (hpq : P ↔ Q) : Steps Q h h' := by
  unfold Steps
  rw [← hpq]
  exact r

/-- How a split of node `x` changes the height: it grows exactly if all nodes above are full; then the root has two children. -/
def Raise (s s' : Tree E C) (x h h' : Nat) : Prop :=
  (h' = h ∧ ¬ Jam s x) ∨ (h' = h + 1 ∧ Jam s x ∧ (chs s' s'.root).length = 2)

/-- `split` at any node. -/
theorem splitF_spec {m : Fill} (hm1 : 1 ≤ m.lo) (hm6 : m.lo + m.d ≤ 6) :
    ∀ (n : Nat) (s : Tree E C) (lvl : Nat → Nat) (h x : Nat), Good A s lvl h → lnk s x ≠ none →
    SzX m s h (fun y => y = x) → 2 * (m.lo + m.d) ≤ (chs s x).length → 2 ≤ (chs s x).length → (chs s x).length ≤ 12 →
    h - lvl x < n →
    ∃ s' lvl' h', splitF B n s x = .ok s' ∧ Good A s' lvl' h' ∧ Sz m s' h' ∧ Same s s' ∧ h ≤ h' ∧ Raise s s' x h h' ∧
      (∀ y, lnk s y ≠ none → lvl y < lvl x → chs s' y = chs s y) ∧
      (∀ a ∈ kids s x, ∃ q, a ∈ kids s' q ∧ (chs s' q).length ≤ 6) := by
  intro n
  induction n with
  | zero => intro s lvl h x _ _ _ _ _ _ hn; omega
  | succ n ih =>
    intro s lvl h x g hx sz hlm hl2 hl12 hn
    obtain ⟨⟨par, slot⟩, hlk⟩ := Option.ne_none_iff_exists'.mp hx
    cases par with
    | none =>
      -- the root
      have hxr : x = s.root := g.wf.root_of_parent_none (get_of_lnk hlk) rfl
      subst hxr
      obtain ⟨s4, s', lvl', e1, e2, g', k1, k2, k5, k3, k4⟩ := splitRoot_good hm1 g.toX hlk hx sz hlm hl2 hl12
      refine ⟨s', lvl', h + 1, ?_, g', k1, k2, by omega, .inr ⟨rfl, .root, k5⟩, k3, k4⟩
      simp only [splitF, e1, bind_ok, e2]
    | some p =>
      obtain ⟨he, hxr⟩ := g.wf.lnk_edge hlk
      have hlx := (g.wf.kin he).1
      have hplive := edge_live he
      have hxpos := (g.wf.lvl_pos' hx).1
      have hxp : x ≠ p := kid_ne_self g.wf he
      have hph := (g.wf.lvl_pos' hplive).2
      obtain ⟨ch, hch, har⟩ := edge_chs.mp he
      have hpsz := sz p hplive (Ne.symm hxp)
      obtain ⟨s4, s6, e1, e2, e3, ⟨q, i, e4, e5, e6⟩, rg, i6, rc6, lf6, cp, cx, cr, co, lv, lkr⟩ :=
        splitStep (A := A) g.wf g.cok hlk hch hl2 (by have := hpsz.1; simp only [MAXC]; omega)
      have hlt := (List.getElem?_eq_some_iff.mp hch).1
      have hLne : (chs s x).take ((chs s x).length / 2) ≠ [] := by
        intro e
        have := congrArg List.length e
        simp only [List.length_take, List.length_nil] at this
        omega
      have hRne : (chs s x).drop ((chs s x).length / 2) ≠ [] := by
        intro e
        have := congrArg List.length e
        simp only [List.length_drop, List.length_nil] at this
        omega
      have okL : A.okC (A.total (((chs s x).take ((chs s x).length / 2)).map Child.cache)) := by
        apply A.total_ok
        · simpa using hLne
        · intro c hc
          obtain ⟨c2, h2, rfl⟩ := List.mem_map.mp hc
          exact g.cok _ c2 (List.mem_of_mem_take h2)
      have okR : A.okC (A.total (((chs s x).drop ((chs s x).length / 2)).map Child.cache)) := by
        apply A.total_ok
        · simpa using hRne
        · intro c hc
          obtain ⟨c2, h2, rfl⟩ := List.mem_map.mp hc
          exact g.cok _ c2 (List.mem_of_mem_drop h2)
      have hrn : lnk s s.inn.items.length = none := lnk_fresh s
      have hpr : p ≠ s.inn.items.length := by intro e; rw [e] at hplive; exact hplive hrn
      have hxr' : x ≠ s.inn.items.length := by intro e; rw [e] at hx; exact hx hrn
      have hlenp : (chs s6 p).length = (chs s p).length + 1 := by
        rw [cp, splitPar]
        simp only [List.length_append, List.length_take, List.length_set, List.length_cons, List.length_drop]
        omega
      -- entries of p after the step
      have hmem : ∀ c ∈ chs s6 p, c = { ch with cache := A.total (((chs s x).take ((chs s x).length / 2)).map Child.cache) } ∨
          c = ⟨.internal s.inn.items.length, A.total (((chs s x).drop ((chs s x).length / 2)).map Child.cache)⟩ ∨
          (∃ j : Nat, j ≠ slot ∧ (chs s p)[j]? = some c) := by
        intro c hc
        rw [cp, splitPar] at hc
        have key : ∀ c ∈ (chs s p).set slot { ch with cache := A.total (((chs s x).take ((chs s x).length / 2)).map Child.cache) },
          c = { ch with cache := A.total (((chs s x).take ((chs s x).length / 2)).map Child.cache) } ∨
          (∃ j : Nat, j ≠ slot ∧ (chs s p)[j]? = some c) := by
          intro c hc
          obtain ⟨j, hj⟩ := List.mem_iff_getElem?.mp hc
          rw [List.getElem?_set] at hj
          split at hj
          · cases hj; exact Or.inl rfl
          · next hne => exact Or.inr ⟨j, Ne.symm hne, hj⟩
        rcases List.mem_append.mp hc with h1 | h1
        · rcases key c (List.mem_of_mem_take h1) with h2 | h2
          · exact Or.inl h2
          · exact Or.inr (Or.inr h2)
        · rcases List.mem_cons.mp h1 with h1 | h1
          · exact Or.inr (Or.inl h1)
          · rcases key c (List.mem_of_mem_drop h1) with h2 | h2
            · exact Or.inl h2
            · exact Or.inr (Or.inr h2)
      have hothk : ∀ j c, j ≠ slot → (chs s p)[j]? = some c → ∃ y, c.arena = .internal y ∧ Edge s p j (.internal y) ∧
          chs s6 y = chs s y := by
        intro j c hj hc
        have hed : Edge s p j c.arena := edge_chs.mpr ⟨c, hc, rfl⟩
        obtain ⟨y, hy⟩ := kids_internal g.wf (p := p) (by omega) _ (mem_kids.mpr ⟨j, hed⟩)
        rw [hy] at hed
        refine ⟨y, hy, hed, co y ?_ (kid_ne_self g.wf hed) ?_⟩
        · intro e; subst e; exact hj (g.wf.kid_in_inj hed he).2
        · intro e
          have := (g.wf.kin hed).2
          rw [e, hrn] at this
          cases this
      have hkne : ∀ y, .internal y ∈ kids s p → chs s y ≠ [] := by
        intro y hy hnil
        by_cases h1 : y = x
        · subst h1; rw [hnil] at hl2; simp at hl2
        · have hyl := kids_live_in g.wf hy
          obtain ⟨j, hj⟩ := mem_kids.mp hy
          have := ((sz y hyl h1).2.1 (by intro e; subst e; exact g.wf.root_not_kid hj)).1
          rw [hnil] at this
          simp at this
          omega
      have g6 := rg.good (A := A) g hplive (by omega) rc6
        (fun y hy => Or.inl (hkne y hy))
        (by
          intro y hy
          left
          obtain ⟨c, hc, hcy⟩ := mem_kids_chs.mp hy
          rcases hmem c hc with rfl | rfl | ⟨j, hj, hc⟩
          · rw [har] at hcy; cases hcy; rw [cx]; exact hLne
          · cases hcy; rw [cr]; exact hRne
          · obtain ⟨y', h1, h2, h3⟩ := hothk j c hj hc
            rw [h1] at hcy
            cases hcy
            rw [h3]
            exact hkne y (mem_kids.mpr ⟨j, h2⟩))
        (by intro e; rw [e] at hch; simp at hch)
        (Or.inl (by intro e; rw [e] at hlenp; simp at hlenp))
        (by
          intro c hc
          rcases hmem c hc with rfl | rfl | ⟨j, hj, hc⟩
          · exact okL
          · exact okR
          · exact g.cok p c (List.mem_iff_getElem?.mpr ⟨j, hc⟩))
        (by
          intro c hc
          rcases hmem c hc with rfl | rfl | ⟨j, hj, hc⟩
          · simp only [EntryOK, har, cch, cx]
          · simp only [EntryOK, cch, cr]
          · obtain ⟨y', h1, h2, h3⟩ := hothk j c hj hc
            have := g.cinv p c (List.mem_iff_getElem?.mpr ⟨j, hc⟩) (fun h => h)
            simp only [EntryOK, h1, cch, h3] at this ⊢
            exact this)
      have h6same : Same s s6 := by
        refine ⟨rg.order g.wf hplive (by omega) (Nat.le_trans g.wf.h_le rg.items), rg.elm, rg.root, lf6⟩
      have kp6 : kids s6 p = (kids s p).take (slot + 1) ++ .internal s.inn.items.length :: (kids s p).drop (slot + 1) := by
        rw [kids_chs, cp, splitPar_arena hch, ← kids_chs]
      have hkp0 : (kids s6 p).head? = (kids s p).head? := by
        rw [kp6]
        cases hkp : kids s p with
        | nil => rw [kids_chs] at hkp; rw [List.map_eq_nil_iff.mp hkp] at hch; simp at hch
        | cons a t => rfl
      have hls : ∀ y, lnk s6 y ≠ none → LSp s y → LSp s6 y := by
        intro y hy h1
        refine LSp.regroup rg g.wf hplive (by omega) ?_ ?_ h1 hy
        · intro z hz
          obtain ⟨c, hc, hcy⟩ := mem_kids_chs.mp (List.mem_of_head? hz)
          rcases hmem c hc with rfl | rfl | ⟨j, hj, hc⟩
          · rw [har] at hcy; cases hcy; rw [cx]; exact hLne
          · cases hcy; rw [cr]; exact hRne
          · obtain ⟨y', h1, h2, h3⟩ := hothk j c hj hc
            rw [h1] at hcy
            cases hcy
            rw [h3]
            exact hkne z (mem_kids.mpr ⟨j, h2⟩)
        · intro z hz _
          rw [hkp0]; exact hz
      have sz6 : SzX m s6 h (fun y => y = p) := by
        intro y hy hyp
        rw [rg.root]
        by_cases h1 : y = x
        · subst h1
          rw [cx]
          simp only [List.length_take]
          exact ⟨by omega, fun _ => .of (by omega), fun h => absurd h hxr⟩
        · by_cases h2 : y = s.inn.items.length
          · subst h2
            rw [cr]
            simp only [List.length_drop]
            refine ⟨by omega, fun _ => .of (by omega), fun h => ?_⟩
            have hr := g.wf.root'
            obtain ⟨i, hi⟩ := hr
            rw [← h, hrn] at hi
            cases hi
          · rw [co y h1 hyp h2]
            have := sz y (fun e => hy ((lv y h2).mpr e)) h1
            exact ⟨this.1, fun h => (this.2.1 h).keep (hls y hy) (Nat.le_refl _), this.2.2⟩
      have hp6 : lnk s6 p ≠ none := fun e => hplive ((lv p hpr).mp e)
      -- evaluate the step
      have hget4 : s4.inn.get p = some ⟨q, i, chs s4 p⟩ := get_of_lnk e4
      have hstep : splitF B (n + 1) s x = (if MAXC ≤ (chs s6 p).length then splitF B n s6 p else .ok s6) := by
        simp only [splitF, e1, bind_ok, getIn_ok hget4]
        rw [vget_ok (l := chs s4 p) (by rw [e3]; exact hch)]
        simp only [bind_ok, e5, e6, Node.isFull, decide_eq_true_eq]
        rfl
      rw [hstep]
      have hfr6 : ∀ y, lnk s y ≠ none → lvl y < lvl x → chs s6 y = chs s y := by
        intro y hy hyl
        apply co y
        · intro e; subst e; omega
        · intro e; subst e; omega
        · intro e; subst e; exact hy hrn
      have hk6 : ∀ a ∈ kids s x, (a ∈ kids s6 x ∧ (chs s6 x).length ≤ 6) ∨
          (a ∈ kids s6 s.inn.items.length ∧ (chs s6 s.inn.items.length).length ≤ 6) := by
        intro a ha
        rw [kids_chs, ← List.take_append_drop ((chs s x).length / 2) (chs s x), List.map_append] at ha
        rcases List.mem_append.mp ha with ha | ha
        · left
          refine ⟨?_, ?_⟩
          · rw [kids_chs, cx]; exact ha
          · rw [cx, List.length_take]; omega
        · right
          refine ⟨?_, ?_⟩
          · rw [kids_chs, cr]; exact ha
          · rw [cr, List.length_drop]; omega
      by_cases hfull : MAXC ≤ (chs s6 p).length
      · rw [if_pos hfull]
        have hl12' : (chs s6 p).length = 12 := by
          simp only [MAXC] at hfull
          have := hpsz.1
          omega
        obtain ⟨s', lvl', h', r1, r2, r3, r4, r5, r6, r7, r8⟩ := ih s6 _ h p g6 hp6 sz6 (by omega) (by omega) (by omega) (by
          rw [relvl_live hplive]; omega)
        refine ⟨s', lvl', h', r1, r2, r3, h6same.trans r4, r5, ?_, ?_, ?_⟩
        · have hj : Jam s6 p ↔ Jam s x := by
            constructor
            · intro j
              refine .up he (by omega) (j.move g6.wf (s' := s) (k := lvl p) rg.root.symm ?_ (by rw [relvl_live hplive]; omega))
              intro y hy hk
              have hyf : y ≠ s.inn.items.length := by
                intro e
                subst e
                simp only [relvl, hrn, if_true] at hk
                omega
              rw [relvl_live (fun e => hy ((lv y hyf).mpr e))] at hk
              rw [kids_chs, kids_chs, co y (by intro e; subst e; omega) (by intro e; subst e; omega) hyf]
            · intro j
              have j : Jam s p := by
                cases j with
                | root => exact absurd rfl hxr
                | up he' _ j => rw [(g.wf.kid_in_inj he he').1]; exact j
              refine j.move g.wf (k := lvl p) rg.root ?_ (Nat.le_refl _)
              intro y hy hk
              rw [kids_chs, kids_chs, co y (by intro e; subst e; omega) (by intro e; subst e; omega) (by intro e; subst e; exact hy hrn)]
          rcases r6 with ⟨r6, r6'⟩ | ⟨r6, r6', r6''⟩
          · exact .inl ⟨r6, fun j => r6' (hj.mpr j)⟩
          · exact .inr ⟨r6, hj.mp r6', r6''⟩
        · intro y hy hyl
          have hy6 : lnk s6 y ≠ none := by
            intro e
            refine hy ((lv y ?_).mp e)
            intro e'; subst e'; exact hy hrn
          rw [r7 y hy6 (by rw [relvl_live hy, relvl_live hplive]; omega), hfr6 y hy hyl]
        · have fr : ∀ q, lnk s6 q ≠ none → relvl s lvl p q = lvl x → chs s' q = chs s6 q := by
            intro q hq hlq
            exact r7 q hq (by rw [hlq, relvl_live hplive]; omega)
          have hx6 : lnk s6 x ≠ none := fun e => hx ((lv x hxr').mp e)
          have hr6 : lnk s6 s.inn.items.length ≠ none := by
            intro e; have h9 := cr; rw [chs_none e] at h9; exact hRne h9.symm
          intro a ha
          rcases hk6 a ha with ⟨k1, k2⟩ | ⟨k1, k2⟩
          · have hf := fr x hx6 (relvl_live hx)
            exact ⟨x, by rw [kids_chs, hf, ← kids_chs]; exact k1, by rw [hf]; exact k2⟩
          · have hf := fr _ hr6 (by simp only [relvl, hrn, if_true]; omega)
            exact ⟨_, by rw [kids_chs, hf, ← kids_chs]; exact k1, by rw [hf]; exact k2⟩
      · rw [if_neg hfull]
        have hnj : ¬ Jam s x := by
          intro j
          cases j with
          | root => exact hxr rfl
          | up he' hl' _ =>
            rw [← (g.wf.kid_in_inj he he').1] at hl'
            simp only [MAXC] at hfull
            omega
        refine ⟨s6, _, h, rfl, g6, ?_, h6same, Nat.le_refl _, .inl ⟨rfl, hnj⟩, hfr6, fun a ha => (hk6 a ha).elim (fun k => ⟨_, k⟩) (fun k => ⟨_, k⟩)⟩
        intro y hy _
        by_cases hyp : y = p
        · subst hyp
          simp only [MAXC] at hfull
          rw [rg.root]
          refine ⟨by omega, fun hr => ?_, fun hr hh => ?_⟩
          · exact (hpsz.2.1 hr).keep (hls y hy) (by omega)
          · have := hpsz.2.2 hr hh; omega
        · exact sz6 y hy hyp

/-- `split` on a node. -/
theorem split_spec {m : Fill} (hm1 : 1 ≤ m.lo) (hm6 : m.lo + m.d ≤ 6) {x : Nat} (g : Good A s lvl h) (hx : lnk s x ≠ none)
    (sz : SzX m s h (fun y => y = x)) (h1 : 2 * (m.lo + m.d) ≤ (chs s x).length) (h2 : 2 ≤ (chs s x).length)
    (h3 : (chs s x).length ≤ 12) :
    ∃ s' lvl' h', split B s x = .ok s' ∧ Good A s' lvl' h' ∧ Sz m s' h' ∧ Same s s' ∧ h ≤ h' ∧ Raise s s' x h h' ∧
      (∀ y, lnk s y ≠ none → lvl y < lvl x → chs s' y = chs s y) ∧
      (∀ a ∈ kids s x, ∃ q, a ∈ kids s' q ∧ (chs s' q).length ≤ 6) :=
  splitF_spec hm1 hm6 _ s lvl h x g hx sz h1 h2 h3 (fuel_ok g.wf x)

end
end GB
