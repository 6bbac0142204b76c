import Verif.Proof.Climb
import Verif.Proof.Repair
import Verif.Proof.SkelSound

/-!
# Repairing arbitrary caches
-/

namespace GB
variable {E C D : Type} {B : Trait E C D} {A : Law B} {okW : C → Prop} {s : Tree E C} {lvl : Nat → Nat} {h : Nat}
open Tree

/-- all stored caches are in `okW` -/
def COkW (okW : C → Prop) (s : Tree E C) : Prop := ∀ p c, c ∈ chs s p → okW c.cache

/-- recomputing a cache is right on caches in `okW`, which need not be the admissible ones of the contract -/
structure CalcW (A : Law B) (okW : C → Prop) : Prop where
  recalc : ∀ c0 cs, cs ≠ [] → (∀ c ∈ cs, okW c) → ∃ d, B.calcC c0 cs = .ok (A.total cs, d)
  total : ∀ cs, cs ≠ [] → (∀ c ∈ cs, okW c) → okW (A.total cs)
  elem : ∀ e, A.okE e → okW (B.elemCache e)

theorem Law.calcW (A : Law B) : CalcW A A.okC := ⟨fun c0 cs h1 h2 => (A.calc_ok c0 cs h1 h2).imp fun _ h => h.1, A.total_ok, A.elem_ok⟩

/-- the part of the contract on elements -/
theorem elemsOf (A : Law B) : ElemLaw B A.okE where
  right := fun a b h1 h2 h3 => (A.merge_right a b h1 h2 h3).imp fun _ h => ⟨h.1, h.2.1⟩
  left := fun a b h1 h2 h3 => (A.merge_left a b h1 h2 h3).imp fun _ h => ⟨h.1, h.2.1⟩
  splits := fun e i h1 h2 h3 => by
    obtain ⟨a, b, k1, k2, k3, -⟩ := A.split e i h1 h2 h3
    exact ⟨a, b, k1, k2, k3⟩
  insert := fun e i d h1 h2 h3 => (A.tryInsert e i d h1 h2 h3).imp_left fun ⟨e', k1, k2, _⟩ => ⟨e', k1, k2⟩

theorem calcCache_heal (W : CalcW A okW) {N : Node C} (hne : N.children ≠ []) (cok : ∀ c ∈ N.children, okW c.cache) (c0 : C) :
    ∃ d, calcCache B N c0 none = .ok (A.total (N.children.map Child.cache), d) :=
  W.recalc c0 _ (by simpa using hne) (by
    intro c hc
    obtain ⟨c2, h2, rfl⟩ := List.mem_map.mp hc
    exact cok c2 h2)

theorem total_heal (W : CalcW A okW) {N : Node C} (hne : N.children ≠ []) (cok : ∀ c ∈ N.children, okW c.cache) : okW (A.total (N.children.map Child.cache)) :=
  W.total _ (by simpa using hne) (by
    intro c hc
    obtain ⟨c2, h2, rfl⟩ := List.mem_map.mp hc
    exact cok c2 h2)

theorem rootCalc_heal (W : CalcW A okW) {N : Node C} (cok : ∀ c ∈ N.children, okW c.cache) (c0 : C) :
    ∃ c d, calcCache B N c0 none = .ok (c, d) ∧ (N.children ≠ [] → c = A.total (N.children.map Child.cache)) ∧ (N.children = [] → A.emptyOk c) := by
  by_cases he : N.children = []
  · unfold calcCache
    obtain ⟨c, d, h1, h2⟩ := A.calc_empty c0
    refine ⟨c, d, by rw [he]; exact h1, fun hn => absurd he hn, fun _ => h2⟩
  · obtain ⟨d, h1⟩ := calcCache_heal W he cok c0
    exact ⟨_, d, h1, fun _ => rfl, fun hn => absurd hn he⟩

theorem setEntry_cokW {p i : Nat} {N : Node C} {ch : Child C} {c' : C} (hN : s.inn.get p = some N) (cok : COkW okW s) (hc : okW c') :
    COkW okW (setEntry s p N i ch c') := by
  intro q c hc'
  rw [chs_setEntry hN] at hc'
  split at hc'
  · rcases List.mem_or_eq_of_mem_set hc' with hm | hm
    · exact cok p c (by rw [chs_of hN]; exact hm)
    · rw [hm]; exact hc
  · exact cok q c hc'

/-- the climb makes every entry on its way right, whatever was there -/
theorem recUpdCalc_heal (W : CalcW A okW) : ∀ (n : Nat) (s : Tree E C) (x : Nat) (X : Idx → Prop),
    WF s lvl h → COkW okW s → lnk s x ≠ none → (chs s x ≠ [] ∨ x = s.root) →
    CInv A s (fun a => X a ∨ a = .internal x) → h - lvl x < n →
    ∃ s', recUpdCalc B n s x = .ok s' ∧ SameShape s s' ∧ s'.lf = s.lf ∧ COkW okW s' ∧ RootOK A s' ∧
      CInv A s' (fun a => X a ∧ ∀ y, Anc s x y → a ≠ .internal y) := by
  intro n
  induction n with
  | zero => intro s x X _ _ _ _ _ hn; omega
  | succ n ih =>
    intro s x X w cok hx hne cinv hn
    obtain ⟨N, hN⟩ := lnk_isSome.mp hx
    simp only [recUpdCalc, getIn_ok hN, bind_ok]
    cases hp : N.parent with
    | none =>
      have hr := w.root_of_parent_none hN hp
      subst hr
      simp only [getIn_ok hN, bind_ok]
      obtain ⟨c, d, h1, h2, h3⟩ := rootCalc_heal W (N := N) (by
        intro c hc; exact cok s.root c (by rw [chs_of hN]; exact hc)) s.rootCache
      rw [h1, bind_ok]
      refine ⟨_, rfl, SameShape.rootCache s c, rfl, cok, ?_, ?_⟩
      · have hN' : ({ s with rootCache := c } : Tree E C).inn.get s.root = some N := hN
        constructor
        · intro hne; rw [cch, chs_of hN']; exact h2 (by rwa [← chs_of hN'])
        · intro he; exact h3 (by rwa [← chs_of hN'])
      · intro p c2 hc2 hX
        have hno : ¬ ∃ i, Edge s p i (.internal s.root) := fun ⟨i, hi⟩ => w.root_not_kid hi
        refine cinv p c2 hc2 ?_
        rintro (hx | hx)
        · apply hX
          refine ⟨hx, fun y hy => ?_⟩
          intro e
          cases hy with
          | refl =>
            obtain ⟨j, hj⟩ := List.mem_iff_getElem?.mp hc2
            exact hno ⟨j, edge_chs.mpr ⟨c2, hj, e⟩⟩
          | step he _ => exact w.root_not_kid he
        · obtain ⟨j, hj⟩ := List.mem_iff_getElem?.mp hc2
          exact hno ⟨j, edge_chs.mpr ⟨c2, hj, hx⟩⟩
    | some p =>
      obtain ⟨hr, he, hl⟩ := w.parent_some hN hp
      obtain ⟨ch, hch, har⟩ := edge_chs.mp he
      obtain ⟨P, hP⟩ := lnk_isSome.mp (edge_live he)
      rw [chs_of hP] at hch
      have hxp : x ≠ p := fun e => by subst e; omega
      simp only [assertM_true (decide_eq_true hxp), getIn_ok hP, bind_ok, vget_ok hch]
      have hne' : N.children ≠ [] := by
        rw [← chs_of hN]
        rcases hne with h1 | h1
        · exact h1
        · exact absurd h1 hr
      have hcok : ∀ c ∈ N.children, okW c.cache := fun c hc => cok x c (by rw [chs_of hN]; exact hc)
      obtain ⟨d, h1⟩ := calcCache_heal W hne' hcok ch.cache
      rw [h1, bind_ok]
      have hpx : x ≠ p := kid_ne_self w he
      have sh := setEntry_shape (c' := A.total (N.children.map Child.cache)) hP hch
      have w' := sh.wf w
      have hp' : lnk (setEntry s p P N.slot ch (A.total (N.children.map Child.cache))) p ≠ none := by
        obtain ⟨P', hP', -⟩ := sh.get hP
        exact lnk_isSome.mpr ⟨P', hP'⟩
      have hplvl := (w.lvl_pos' (edge_live he)).2
      have huniq : ∀ q j, Edge s q j ch.arena → q = p ∧ j = N.slot := by
        intro q j hq
        rw [har] at hq
        exact w.kid_in_inj hq he
      have hE : EntryOK A s { ch with cache := A.total (N.children.map Child.cache) } := by
        simp only [EntryOK, har, cch, chs_of hN]
      have cinv' := setEntry_cinv hP hch huniq cinv hE
      obtain ⟨s', e1, sh', lf', cok', rok', ci'⟩ := ih _ p (fun a => X a ∧ a ≠ .internal x) w'
        (setEntry_cokW hP cok (total_heal W hne' hcok)) hp' (Or.inl (by
          rw [chs_setEntry hP, if_pos rfl]
          intro hnil
          have := (List.getElem?_eq_some_iff.mp hch).1
          have : P.children = [] := by simpa using hnil
          rw [this] at hch
          simp at hch))
        (cinv'.mono (by
          intro a ha
          rw [har] at ha
          rcases ha with ⟨h1 | h1, h2⟩ | h1
          · exact Or.inl ⟨h1, h2⟩
          · exact absurd h1 h2
          · exact Or.inr h1)) (by omega)
      refine ⟨s', e1, sh.trans sh', lf', cok', rok', ci'.mono ?_⟩
      intro a ⟨⟨h1, h2⟩, h3⟩
      refine ⟨h1, fun y hy => ?_⟩
      cases hy with
      | refl => exact h2
      | step he2 ha =>
        have := (w.kid_in_inj he2 he).1
        subst this
        exact h3 y (sh.anc ha)


/-- `recursive_update_cache(leaf l, false, _)` makes the entries of `l` and of all nodes above it right -/
theorem fix_heal (W : CalcW A okW) {s : Tree E C} {l p i : Nat} {e : E} {X : Idx → Prop} (w : WF s lvl h) (cok : COkW okW s) (he : Edge s p i (.leaf l)) (hel : elm s l = some e)
    (hok : A.okE e) (cinv : CInv A s X) (d : Option D) :
    ∃ s', recursiveUpdateCache B s (.leaf l) false d = .ok s' ∧ SameShape s s' ∧ s'.lf = s.lf ∧ COkW okW s' ∧ RootOK A s' ∧
      CInv A s' (fun a => X a ∧ a ≠ .leaf l ∧ ∀ y, Anc s p y → a ≠ .internal y) := by
  obtain ⟨hl1, hlp⟩ := w.klf he
  obtain ⟨e', hL, hel'⟩ := getLf_of hlp
  rw [hel] at hel'
  cases hel'
  obtain ⟨ch, hch, har⟩ := edge_chs.mp he
  obtain ⟨P, hP⟩ := lnk_isSome.mp (edge_live he)
  have hslot := getLeafSlot_wf w he
  rw [chs_of hP] at hch hslot
  have sh := setEntry_shape (c' := B.elemCache e) hP hch
  have huniq : ∀ q j, Edge s q j ch.arena → q = p ∧ j = i := by
    intro q j hq
    rw [har] at hq
    exact w.kid_lf_inj hq he
  have hE : EntryOK A s { ch with cache := B.elemCache e } := by
    simp only [EntryOK, har]
    intro e2 h2
    rw [hel] at h2
    cases h2
    rfl
  have cinv' := setEntry_cinv hP hch huniq cinv hE
  have hpl := (w.lvl_pos' (edge_live he)).1
  obtain ⟨s', e1, sh', lf', cok', rok', ci'⟩ := recUpdCalc_heal (A := A) W (setEntry s p P i ch (B.elemCache e)).fuel _ p (fun a => X a ∧ a ≠ .leaf l) (sh.wf w)
    (setEntry_cokW hP cok (W.elem e hok)) (by
      obtain ⟨P', hP', -⟩ := sh.get hP
      exact lnk_isSome.mpr ⟨P', hP'⟩) (Or.inl (by
        rw [chs_setEntry hP, if_pos rfl]
        intro hnil
        have : P.children = [] := by simpa using hnil
        rw [this] at hch
        simp at hch))
    (cinv'.mono (by
      intro a ha
      rw [har] at ha
      rcases ha with h1 | h1
      · exact .inl h1
      · exact .inr h1)) (by
      have := (sh.wf w).h_le
      simp only [Tree.fuel]
      omega)
  refine ⟨s', ?_, sh.trans sh', lf', cok', rok', ci'.mono ?_⟩
  · simp only [recursiveUpdateCache, getLf_ok hL, getIn_ok hP, hslot, vget_ok hch, bind_ok, pure_ok]
    exact e1
  · rintro a ⟨⟨h1, h2⟩, h3⟩
    exact ⟨h1, h2, fun y hy => h3 y (sh.anc hy)⟩

theorem SameShape.treeSame {s s' : Tree E C} (sh : SameShape s s') (lf : s'.lf = s.lf) : TreeSame s s' where
  len := sh.items.symm
  inn := by
    intro x
    cases hx : s.inn.get x with
    | some N =>
      obtain ⟨N', h1, h2, h3, h4⟩ := sh.get hx
      rw [h1]
      exact .some ⟨h2.symm, h3.symm, h4.symm⟩
    | none =>
      have : s'.inn.get x = none := by
        cases hy : s'.inn.get x with
        | none => rfl
        | some N => exact absurd hx (fun h => (lnk_isSome.mp ((sh.live x).mp (lnk_isSome.mpr ⟨N, hy⟩))).elim fun _ h2 => by rw [h] at h2; cases h2)
      rw [this]
      exact .none
  lf := lf.symm
  root := sh.root.symm

theorem TreeSame.trans {C1 C2 C3 : Type} {s : Tree E C1} {t : Tree E C2} {u : Tree E C3} (h1 : TreeSame s t) (h2 : TreeSame t u) : TreeSame s u where
  len := h1.len.trans h2.len
  inn := by
    intro x
    have a1 := h1.inn x
    have a2 := h2.inn x
    generalize s.inn.get x = a at a1
    generalize t.inn.get x = b at a1 a2
    generalize u.inn.get x = c at a2
    cases a1 with
    | none => cases a2; exact .none
    | some k1 =>
      cases a2 with
      | some k2 => exact .some ⟨k1.parent.trans k2.parent, k1.slot.trans k2.slot, k1.kids.trans k2.kids⟩
  lf := h1.lf.trans h2.lf
  root := h1.root.trans h2.root

/-- `a` is leaf `l` or a node above it -/
def OnPath (s : Tree E C) (l : Nat) (a : Idx) : Prop := a = .leaf l ∨ ∃ p i y, Edge s p i (.leaf l) ∧ Anc s p y ∧ a = .internal y

theorem OnPath.shape {s s' : Tree E C} (sh : SameShape s s') {l : Nat} {a : Idx} (ho : OnPath s l a) : OnPath s' l a := by
  rcases ho with ho | ⟨p, i, y, h1, h2, h3⟩
  · exact .inl ho
  · exact .inr ⟨p, i, y, sh.edge.mpr h1, sh.anc h2, h3⟩

theorem fixes_heal (W : CalcW A okW) : ∀ (ls : List Nat) {s : Tree E C} {X : Idx → Prop}, WF s lvl h → COkW okW s → (∀ l e, elm s l = some e → A.okE e) →
    (∀ l ∈ ls, elm s l ≠ none) → CInv A s X →
    ∃ s', repairRun B s (ls.map fun l => .fix l false none) = .ok s' ∧ SameShape s s' ∧ s'.lf = s.lf ∧ (ls ≠ [] ∨ RootOK A s → RootOK A s') ∧
      CInv A s' (fun a => X a ∧ ∀ l ∈ ls, ¬ OnPath s l a) := by
  intro ls
  induction ls with
  | nil =>
    intro s X w cok _ _ cinv
    exact ⟨s, rfl, SameShape.refl s, rfl, fun hx => hx.elim (fun hx => absurd rfl hx) id, cinv.mono fun a ha => ⟨ha, by simp⟩⟩
  | cons l ls ih =>
    intro s X w cok okE hl cinv
    obtain ⟨e, he⟩ := Option.ne_none_iff_exists'.mp (hl l (by simp))
    have hlp : lpar s l ≠ none := fun hn => by rw [elm_none.mpr hn] at he; cases he
    obtain ⟨L, hL⟩ : ∃ L, s.lf.get l = some L := by
      cases hx : s.lf.get l with
      | none => exact absurd (by simp [lpar, hx]) hlp
      | some L => exact ⟨L, rfl⟩
    obtain ⟨p, i, hE⟩ := w.par_lf l L hL
    obtain ⟨s1, e1, sh1, lf1, cok1, rok1, ci1⟩ := fix_heal W w cok hE he (okE l e he) cinv none
    have helm : ∀ k, elm s1 k = elm s k := fun k => by simp only [elm, lf1]
    obtain ⟨s2, e2, sh2, lf2, rok2, ci2⟩ := ih (sh1.wf w) cok1 (fun k x hx => okE k x (by rw [← helm]; exact hx))
      (fun k hk => by rw [helm]; exact hl k (by simp [hk])) ci1
    refine ⟨s2, ?_, sh1.trans sh2, lf2.trans lf1, fun _ => rok2 (.inr rok1), ci2.mono ?_⟩
    · simp only [List.map_cons, repairRun, RepairOp.run, e1, bind_ok]
      exact e2
    · rintro a ⟨⟨h1, h2, h3⟩, h4⟩
      refine ⟨h1, fun k hk ho => ?_⟩
      rcases List.mem_cons.mp hk with rfl | hk
      · rcases ho with ho | ⟨q, j, y, g1, g2, g3⟩
        · exact h2 ho
        · cases (w.kid_lf_inj g1 hE).1
          exact h3 y g2 g3
      · exact h4 k hk (ho.shape sh1)

theorem Anc.up {s : Tree E C} {x y z i : Nat} (ha : Anc s x y) (he : Edge s z i (.internal y)) : Anc s x z := by
  induction ha with
  | refl x => exact .step he (.refl _)
  | step h1 _ ih => exact .step h1 (ih he)

/-- below every node there is a leaf -/
theorem leaf_below {s : Tree E C} (w : WF s lvl h) (ne : NE s) : ∀ (n y : Nat), lvl y ≤ n → lnk s y ≠ none → chs s y ≠ [] →
    ∃ l p i, Edge s p i (.leaf l) ∧ Anc s p y := by
  intro n
  induction n with
  | zero =>
    intro y hn hy _
    have := (w.lvl_pos' hy).1
    omega
  | succ n ih =>
    intro y hn hy hc
    obtain ⟨c, cs, hcs⟩ := List.exists_cons_of_ne_nil hc
    have he : Edge s y 0 c.arena := edge_chs.mpr ⟨c, by rw [hcs]; rfl, rfl⟩
    cases ha : c.arena with
    | leaf l => exact ⟨l, y, 0, ha ▸ he, .refl y⟩
    | internal z =>
      rw [ha] at he
      obtain ⟨h1, h2⟩ := w.kin he
      have hz : lnk s z ≠ none := by rw [h2]; simp
      have hzr : z ≠ s.root := fun hz => w.root_not_kid (hz ▸ he)
      obtain ⟨l, p, i, g1, g2⟩ := ih z (by omega) hz (ne z hz hzr)
      exact ⟨l, p, i, g1, g2.up he⟩

/-- right entries are admissible -/
theorem CInv.cok {s : Tree E C} (w : WF s lvl h) (ne : NE s) (okE : ∀ l e, elm s l = some e → A.okE e) (ci : CInv A s noX) : COk A s := by
  have key : ∀ n p, lvl p ≤ n → ∀ c ∈ chs s p, A.okC c.cache := by
    intro n
    induction n with
    | zero =>
      intro p hn c hc
      obtain ⟨j, hj⟩ := List.mem_iff_getElem?.mp hc
      have := (w.lvl_pos' (edge_live (edge_chs.mpr ⟨c, hj, rfl⟩))).1
      omega
    | succ n ih =>
      intro p hn c hc
      obtain ⟨j, hj⟩ := List.mem_iff_getElem?.mp hc
      have he : Edge s p j c.arena := edge_chs.mpr ⟨c, hj, rfl⟩
      have ho := ci p c hc (fun h => h)
      cases ha : c.arena with
      | leaf l =>
        rw [ha] at he
        simp only [EntryOK, ha] at ho
        obtain ⟨e, -, h3⟩ := getLf_of (w.klf he).2
        rw [ho e h3]
        exact A.elem_ok e (okE l e h3)
      | internal y =>
        rw [ha] at he
        simp only [EntryOK, ha] at ho
        obtain ⟨h1, h2⟩ := w.kin he
        have hy : lnk s y ≠ none := by rw [h2]; simp
        have hyr : y ≠ s.root := fun hy => w.root_not_kid (hy ▸ he)
        rw [ho]
        refine A.total_ok _ (by simpa [cch] using ne y hy hyr) (fun c2 hc2 => ?_)
        obtain ⟨c3, h3, rfl⟩ := List.mem_map.mp hc2
        exact ih y (by omega) c3 h3
  exact fun p c hc => key (lvl p) p (Nat.le_refl _) c hc

/-- if every wrong entry is above (or at) a leaf of `ls`, then repairing the leaves of `ls` makes the tree valid -/
theorem heal_paths (W : CalcW A okW) {m : Fill} (hm : 1 ≤ m.lo) {s : Tree E C} (hs : SoundH A.okE m h s) (cok : COkW okW s) {ls : List Nat} (hl : ∀ l ∈ ls, elm s l ≠ none)
    (hroot : ls ≠ [] ∨ RootOK A s) (hX : CInv A s fun a => ∃ l ∈ ls, OnPath s l a) :
    ∃ s', repairRun B s (ls.map fun l => .fix l false none) = .ok s' ∧ InvH A m h s' ∧ abs s' = abs s ∧ TreeSame s s' := by
  obtain ⟨⟨lvl, w⟩, sz, okE⟩ := hs
  obtain ⟨s', e1, sh, lf, rok, ci⟩ := fixes_heal W ls w cok okE hl hX
  have helm : ∀ k, elm s' k = elm s k := fun k => by simp only [elm, lf]
  have okE' : ∀ l e, elm s' l = some e → A.okE e := fun l e he => okE l e (by rw [← helm]; exact he)
  have ci' : CInv A s' noX := ci.mono fun a ⟨⟨l, h1, h2⟩, h3⟩ => h3 l h1 h2
  have ne' := NE.shape sh (Sz.ne sz hm)
  refine ⟨s', e1, ⟨⟨lvl, sh.wf w, ci', ci'.cok (sh.wf w) ne' okE', rok hroot, okE'⟩, SzX.congr sh sz⟩, ?_, sh.treeSame lf⟩
  show (⟨s'.lf.items.length, entries s'⟩ : Seq E) = ⟨s.lf.items.length, entries s⟩
  rw [lf, (sh.same lf).entries]

theorem heal_all (W : CalcW A okW) {m : Fill} (hm : 1 ≤ m.lo) {s : Tree E C} (hs : SoundH A.okE m h s) (cok : COkW okW s) {ls : List Nat}
    (hl : ∀ l, l ∈ ls ↔ l ∈ (abs s).es.map Prod.fst) (hne : (abs s).es ≠ []) :
    ∃ s', repairRun B s (ls.map fun l => .fix l false none) = .ok s' ∧ InvH A m h s' ∧ abs s' = abs s ∧ TreeSame s s' := by
  obtain ⟨lvl, w⟩ := hs.ex
  have hmem : ∀ l, l ∈ ls ↔ elm s l ≠ none := by
    intro l
    rw [hl, List.mem_map]
    constructor
    · rintro ⟨⟨k, e⟩, h1, rfl⟩
      rw [(entries_mem w).mp h1]
      simp
    · intro h1
      obtain ⟨e, he⟩ := Option.ne_none_iff_exists'.mp h1
      exact ⟨(l, e), (entries_mem w).mpr he, rfl⟩
  refine heal_paths W hm hs cok (fun l h => (hmem l).mp h) (.inl ?_) ?_
  · obtain ⟨x, xs, hx⟩ := List.exists_cons_of_ne_nil hne
    exact List.ne_nil_of_mem ((hl x.1).mpr (by rw [hx]; simp))
  · intro q c hc hX
    refine absurd ?_ hX
    obtain ⟨j, hj⟩ := List.mem_iff_getElem?.mp hc
    have he : Edge s q j c.arena := edge_chs.mpr ⟨c, hj, rfl⟩
    cases ha : c.arena with
    | leaf l =>
      rw [ha] at he
      obtain ⟨e, -, h3⟩ := getLf_of (w.klf he).2
      exact ⟨l, (hmem l).mpr (by rw [h3]; simp), .inl rfl⟩
    | internal y =>
      rw [ha] at he
      obtain ⟨h1, h2⟩ := w.kin he
      have hy : lnk s y ≠ none := by rw [h2]; simp
      have hyr : y ≠ s.root := fun hy => w.root_not_kid (hy ▸ he)
      have ne := Sz.ne hs.sz hm
      obtain ⟨l, p, i, g1, g2⟩ := leaf_below w ne _ y (Nat.le_refl _) hy (ne y hy hyr)
      obtain ⟨e, -, h3⟩ := getLf_of (w.klf g1).2
      exact ⟨l, (hmem l).mpr (by rw [h3]; simp), .inr ⟨p, i, y, g1, g2, rfl⟩⟩

/-- right caches are determined by the elements -/
theorem same_chs {s t : Tree E C} (ts : TreeSame s t) (w : WF s lvl h) (cs : CInv A s noX) (ct : CInv A t noX) : ∀ (n p : Nat), lvl p ≤ n → lnk s p ≠ none → chs s p = chs t p := by
  have hk : ∀ p, (chs s p).map Child.arena = (chs t p).map Child.arena := by
    intro p
    have := ts.inn p
    unfold chs
    generalize s.inn.get p = a at this
    generalize t.inn.get p = b at this
    cases this with
    | none => rfl
    | some hN => exact hN.kids
  have helm : ∀ l, elm s l = elm t l := fun l => by simp only [elm, ts.lf]
  intro n
  induction n with
  | zero =>
    intro p hn hp
    have := (w.lvl_pos' hp).1
    omega
  | succ n ih =>
    intro p hn hp
    have hlen : (chs s p).length = (chs t p).length := by simpa using congrArg List.length (hk p)
    refine List.ext_getElem? fun i => ?_
    have hi := congrArg (fun l => l[i]?) (hk p)
    simp only [List.getElem?_map] at hi
    cases h1 : (chs s p)[i]? with
    | none =>
      rw [h1] at hi
      cases h2 : (chs t p)[i]? with
      | none => rfl
      | some d => rw [h2] at hi; cases hi
    | some c =>
      rw [h1] at hi
      cases h2 : (chs t p)[i]? with
      | none => rw [h2] at hi; cases hi
      | some d =>
        rw [h2] at hi
        have har : c.arena = d.arena := Option.some.inj hi
        have o1 := cs p c (List.mem_iff_getElem?.mpr ⟨i, h1⟩) (fun h => h)
        have o2 := ct p d (List.mem_iff_getElem?.mpr ⟨i, h2⟩) (fun h => h)
        have he : Edge s p i c.arena := edge_chs.mpr ⟨c, h1, rfl⟩
        unfold EntryOK at o1 o2
        rw [← har] at o2
        have hca : c.cache = d.cache := by
          cases ha : c.arena with
          | leaf l =>
            rw [ha] at o1 o2 he
            obtain ⟨e, -, h3⟩ := getLf_of (w.klf he).2
            rw [o1 e h3, o2 e (by rw [← helm]; exact h3)]
          | internal y =>
            rw [ha] at o1 o2 he
            obtain ⟨g1, g2⟩ := w.kin he
            simp only at o1 o2
            rw [o1, o2, cch, cch, ih y (by omega) (by rw [g2]; simp)]
        obtain ⟨ca, cc⟩ := c
        obtain ⟨da, dc⟩ := d
        cases har
        cases hca
        rfl

theorem tree_ext {s t : Tree E C} (ts : TreeSame s t) (hr : s.rootCache = t.rootCache) (hc : ∀ p, lnk s p ≠ none → chs s p = chs t p) : s = t := by
  have hget : ∀ p, s.inn.get p = t.inn.get p := by
    intro p
    have h1 := ts.inn p
    have h2 := hc p
    unfold chs lnk at h2
    generalize s.inn.get p = a at h1 h2
    generalize t.inn.get p = b at h1 h2
    cases h1 with
    | none => rfl
    | @some a b hN =>
      have h3 : a.children = b.children := h2 (by simp)
      obtain ⟨a1, a2, a3⟩ := a
      obtain ⟨b1, b2, b3⟩ := b
      obtain ⟨k1, k2, -⟩ := hN
      cases k1
      cases k2
      cases h3
      rfl
  have hitems : s.inn.items = t.inn.items := by
    refine List.ext_getElem? fun i => ?_
    have h1 := hget i
    have h2 := ts.len
    unfold Arena.get at h1
    by_cases hi : i < s.inn.items.length
    · rw [List.getElem?_eq_getElem hi, List.getElem?_eq_getElem (h2 ▸ hi)] at h1 ⊢
      exact congrArg some h1
    · rw [List.getElem?_eq_none (by omega), List.getElem?_eq_none (by omega)]
  obtain ⟨⟨s1⟩, s2, s3, s4⟩ := s
  obtain ⟨⟨t1⟩, t2, t3, t4⟩ := t
  cases hitems
  cases ts.lf
  cases ts.root
  cases hr
  rfl

end GB
