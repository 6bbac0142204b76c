import Verif.Proof.DrainIter
import Verif.Proof.LackPath

/-!
# The cache updates at the end of `Drain::drop`
-/

namespace GB
variable {E C D : Type} {B : Trait E C D} {A : Law B}
open Tree

/-- the end of `Drain::drop` (src/iter.rs:229-252), a name for the last part of `drainDrop` -/
def dropTail (B : Trait E C D) (before after : Option Idx) (s : Tree E C) : M (Tree E C) := do
  let s ← (match after with
    | some af => recursiveUpdateCache B s af (decide (after = before)) none
    | none => pure s : M (Tree E C))
  (match before with
    | some be => do
      let s ← (if before = after then recursiveUpdateCache B s be B.useDiff none
        else do
          let s ← recursiveUpdateCache B s be false none
          match after with
          | some af => recursiveUpdateCache B s af false none
          | none => pure s : M (Tree E C))
      sealTree B s be
    | none => do
      let s ← updateRootCache B s
      tryReduceLevels s : M (Tree E C))

/-- the cache updates of `dropTail` when a leaf `b` is left before the gap -/
def dropCaches (B : Trait E C D) (b : Idx) (after : Option Idx) (s : Tree E C) : M (Tree E C) := do
  let s ← (match after with
    | some af => recursiveUpdateCache B s af (decide (after = some b)) none
    | none => pure s : M (Tree E C))
  (if some b = after then recursiveUpdateCache B s b B.useDiff none
  else do
    let s ← recursiveUpdateCache B s b false none
    match after with
    | some af => recursiveUpdateCache B s af false none
    | none => pure s : M (Tree E C))

section
variable {s v : Tree E C} {lvl : Nat → Nat} {h : Nat} {X Y Z : List Nat} {y e : Nat}

theorem anc_of_mem (w : WF s lvl h) {l : Nat} : ∀ (n y : Nat), lvl y ≤ n → lnk s y ≠ none → l ∈ lvs s lvl (.internal y) →
    ∃ p i, Edge s p i (.leaf l) ∧ Anc s p y := by
  intro n
  induction n with
  | zero => intro y hn hy _; have := (w.lvl_pos' hy).1; omega
  | succ n ih =>
    intro y hn hy hl
    rw [lvs_kids w hy, List.mem_flatMap] at hl
    obtain ⟨a, ha, hla⟩ := hl
    obtain ⟨i, hi⟩ := mem_kids.mp ha
    cases a with
    | leaf l' =>
      simp only [lvs, List.mem_singleton] at hla
      subst hla
      exact ⟨y, i, hi, .refl y⟩
    | internal z =>
      have h1 := w.kin hi
      obtain ⟨p, j, e1, e2⟩ := ih z (by omega) (by rw [h1.2]; simp) hla
      exact ⟨p, j, e1, e2.trans (.step hi (.refl y))⟩

/-- a climb from a leaf that recomputes all caches on the way -/
theorem calcLeaf_spec (w : WF s lvl h) (cok : COk A s) (okE : ∀ l e, elm s l = some e → A.okE e) {l : Nat} (hl : lpar s l ≠ none)
    {St : Idx → Prop} (cinv : CInv A s St) :
    ∃ s', recursiveUpdateCache B s (.leaf l) false none = .ok s' ∧ SameShape s s' ∧ s'.lf = s.lf ∧ COk A s' ∧ RootOK A s' ∧
      CInv A s' (fun a => St a ∧ ∀ y, lnk s y ≠ none → l ∈ lvs s lvl (.internal y) → a ≠ .internal y) := by
  obtain ⟨p, hlp⟩ := Option.ne_none_iff_exists'.mp hl
  obtain ⟨i, he⟩ := w.lpar_edge hlp
  obtain ⟨e, hL, hel⟩ := getLf_of hlp
  have hec := A.elem_ok e (okE l e hel)
  obtain ⟨ch, hch, har⟩ := edge_chs.mp he
  obtain ⟨P, hP⟩ := lnk_isSome.mp (edge_live he)
  have hslot := getLeafSlot_wf w he
  rw [chs_of hP] at hch hslot
  have sh := setEntry_shape (c' := B.elemCache e) hP hch
  have huniq : ∀ q j, Edge s q j ch.arena → q = p ∧ j = i := by
    intro q j hq
    rw [har] at hq
    exact w.kid_lf_inj hq he
  have hE : EntryOK A s { ch with cache := B.elemCache e } := by
    simp only [EntryOK, har]
    intro e2 h2
    rw [hel] at h2
    cases h2
    rfl
  have cinv' := setEntry_cinv hP hch huniq cinv hE
  have hne1 : chs (setEntry s p P i ch (B.elemCache e)) p ≠ [] := by
    rw [chs_setEntry hP, if_pos rfl]
    intro hnil
    have : P.children = [] := by simpa using hnil
    rw [this] at hch
    simp at hch
  obtain ⟨s', e1, sh', lf', cok', rok', ci'⟩ := recUpdCalc_spec (A := A) (setEntry s p P i ch (B.elemCache e)).fuel (setEntry s p P i ch (B.elemCache e)) p St (sh.wf w)
    (setEntry_cok hP cok hec) (by obtain ⟨P', hP', -⟩ := sh.get hP; exact lnk_isSome.mpr ⟨P', hP'⟩) (Or.inl hne1)
    (cinv'.mono (by
      intro a ha
      rcases ha with ⟨h1, -⟩ | h1
      · exact Or.inl h1
      · exact Or.inr h1)) (fuel_ok (sh.wf w) p)
  refine ⟨s', ?_, sh.trans sh', lf', cok', rok', ci'.mono ?_⟩
  · rw [← e1]
    simp only [recursiveUpdateCache, getLf_ok hL, getIn_ok hP, bind_ok, hslot, vget_ok hch, pure_ok]
    rfl
  · rintro a ⟨h1, h2⟩
    refine ⟨h1, fun y hy hly => h2 y ?_⟩
    obtain ⟨q, j, f1, f2⟩ := anc_of_mem w _ y (Nat.le_refl _) hy hly
    rw [(w.kid_lf_inj f1 he).1] at f2
    exact sh.anc f2

theorem shape_leavesAt {s' : Tree E C} (hs : SameShape s s') : ∀ n x, leavesAt s' n x = leavesAt s n x := by
  intro n
  induction n with
  | zero => intro x; rfl
  | succ n ih =>
    intro x
    rw [leavesAt_succ, leavesAt_succ, hs.kids]
    apply flatMap_congr'
    intro a _
    cases a with
    | leaf l => rfl
    | internal y => exact ih y

theorem shape_lvs {s' : Tree E C} (hs : SameShape s s') (a : Idx) : lvs s' lvl a = lvs s lvl a := by
  cases a with
  | leaf l => rfl
  | internal y => exact shape_leavesAt hs _ _

theorem shape_lpar {s' : Tree E C} (hlf : s'.lf = s.lf) (l : Nat) : lpar s' l = lpar s l := by simp [lpar, hlf]

theorem shape_elm {s' : Tree E C} (hlf : s'.lf = s.lf) (l : Nat) : elm s' l = elm s l := by simp [elm, hlf]

/-- the stale entries after pruning belong to ancestors of the two leaves at the cut -/
theorem pruned_stale (c : Cuts s X Y Z y e) (g : Good A s lvl h) (ne : NE s) (pr : Pruned s lvl Y v) :
    CInv A v fun a => ∃ z l, a = .internal z ∧ lnk v z ≠ none ∧ (X.getLast? = some l ∨ Z.head? = some l) ∧ l ∈ lvs v lvl (.internal z) := by
  have ci := pruned_cinv (A := A) pr g.cinv
  intro p ch hc hX
  refine ci p ch hc ?_
  rintro ⟨z, ha, hz, b, hb, hd⟩
  obtain ⟨i, hi⟩ := mem_kids.mp hb
  obtain ⟨j, hj⟩ := List.mem_iff_getElem?.mp hc
  have he : Edge v p j (.internal z) := edge_chs.mpr ⟨ch, hj, ha⟩
  have hnd := (pruned_edge pr he).2
  obtain ⟨l, hl, hl'⟩ := stale_leaf c g.wf ne hi hd hnd
  refine hX ⟨z, l, ha, hz, hl', ?_⟩
  have hlY : l ∉ Y := by
    rcases hl' with h1 | h1
    · obtain ⟨X', rfl⟩ := getLast_split h1
      exact fun hm => c.XY g.wf (by simp) hm
    · cases Z with
      | nil => cases h1
      | cons z' Z => cases h1; exact fun hm => c.YZ g.wf hm (by simp)
  show l ∈ leavesAt v (lvl z) z
  rw [pruned_leaves g.wf pr (lvl z) z rfl hz, List.mem_filter]
  exact ⟨hl, by simp [hlY]⟩

theorem thin_shape {s' : Tree E C} (hs : SameShape s s') (th : Thin s) : Thin s' := by
  intro y hy
  have h1 := th y ((hs.live y).mp hy)
  refine ⟨by rw [hs.len]; exact h1.1, fun hr hn => h1.2 (by rw [← hs.root]; exact hr) ?_⟩
  have := hs.len y
  rw [hn] at this
  exact List.length_eq_zero_iff.mp this.symm

theorem Occ.shape {s' : Tree E C} {n : Nat} {F : Nat → Prop} (sh : SameShape s s') (o : Occ n F s) : Occ n F s' := by
  intro y hy
  rw [sh.len]
  rcases o y ((sh.live y).mp hy) with h1 | h1 | ⟨a, h1, h2⟩
  · exact Or.inl h1
  · exact Or.inr (Or.inl (h1.shape sh))
  · exact Or.inr (Or.inr ⟨a, h1, h2.shape sh⟩)

theorem up_of_mem (w : WF s lvl h) {l y : Nat} (hy : lnk s y ≠ none) (hl : l ∈ lvs s lvl (.internal y)) : LeafUp s l y := by
  obtain ⟨p, i, he, ha⟩ := anc_of_mem w _ y (Nat.le_refl _) hy hl
  have : ∀ {p y : Nat}, Anc s p y → LeafUp s l p → LeafUp s l y := by
    intro p y ha
    induction ha with
    | refl x => exact id
    | step e _ ih => exact fun hp => ih (.up hp e)
  exact this ha (.leaf he)

theorem LeafUp.mem (w : WF s lvl h) {l y : Nat} (hy : LeafUp s l y) : l ∈ lvs s lvl (.internal y) := by
  induction hy with
  | leaf e => exact kid_lvs w e (by simp [lvs])
  | up _ e ih => exact kid_lvs w e ih

/-- the nodes above the first leaf are on the left edge -/
theorem LeafUp.first (w : WF s lvl h) (ne : NE s) {l : Nat} {R : List Nat} (ho : order s = l :: R) : ∀ (d y : Nat), h - lvl y = d → LeafUp s l y → LSp s y := by
  intro d
  induction d with
  | zero =>
    intro y hd hy
    have hr : y = s.root := Decidable.byContradiction fun hr => by
      obtain ⟨p, i, he⟩ := w.par_in' hy.live hr
      have := (w.kin he).1
      have := (w.lvl_pos' (edge_live he)).2
      omega
    subst hr; exact .root
  | succ d ih =>
    intro y hd hy
    by_cases hr : y = s.root
    · subst hr; exact .root
    obtain ⟨p, i, he⟩ := w.par_in' hy.live hr
    have hl := (w.kin he).1
    have hp := ih p (by omega) (.up hy he)
    refine .step hp ?_
    rw [List.head?_eq_getElem?]
    cases i with
    | zero => exact he
    | succ i =>
      exfalso
      have hlen := (List.getElem?_eq_some_iff.mp he).1
      have h0 : Edge s p 0 ((kids s p)[0]'(by omega)) := List.getElem?_eq_getElem _
      cases hm : lvs s lvl ((kids s p)[0]'(by omega)) with
      | nil => exact lvs_ne' w ne h0 hm
      | cons u us =>
        have := left_of w he (hy.mem w) (U := []) (V := R) ho h0 (by omega) (by rw [hm]; simp : u ∈ _)
        simp at this

/-- after pruning, few children are left only on the left edge and above the two leaves at the cut -/
theorem pruned_occ {n : Nat} (c : Cuts s X Y Z y e) (w : WF s lvl h) (ne : NE s) (o : Occ n (fun _ => False) s) (pr : Pruned s lvl Y v) :
    Occ n (fun l => X.getLast? = some l ∨ Z.head? = some l) v := by
  have wv := pruned_wf w pr
  have hls : ∀ {y}, LSp s y → lnk v y ≠ none → LSp v y := by
    intro y hy
    induction hy with
    | root => intro _; rw [← pr.root]; exact .root
    | @step q y h1 h2 ih =>
      intro hy
      have he := head?_edge h2
      have hnd : ¬ Dead s lvl Y (.internal y) := by
        rcases ((pr.live y).mp hy).2 with rfl | h3
        · exact absurd he w.root_not_kid
        · exact h3
      obtain ⟨hq, -⟩ := pruned_mem w pr he hnd
      refine .step (ih hq) ?_
      rw [pruned_kids pr hq]
      cases hk : kids s q with
      | nil => rw [hk] at h2; cases h2
      | cons b t =>
        rw [hk] at h2
        cases h2
        have : deadB s lvl Y (.internal y) = false := by simpa [Dead] using hnd
        simp [List.filter_cons, this]
  intro y hy
  obtain ⟨hys, hyd⟩ := (pr.live y).mp hy
  rcases hyd with rfl | hyd
  · rw [← pr.root]; exact Or.inr (Or.inl .root)
  by_cases hex : ∃ b ∈ kids s y, Dead s lvl Y b
  · obtain ⟨b, hb, hd⟩ := hex
    obtain ⟨i, hi⟩ := mem_kids.mp hb
    obtain ⟨l, hl, hl'⟩ := stale_leaf c w ne hi hd hyd
    refine Or.inr (Or.inr ⟨l, hl', up_of_mem wv hy ?_⟩)
    have hlY : l ∉ Y := by
      rcases hl' with h1 | h1
      · obtain ⟨X', rfl⟩ := getLast_split h1
        exact fun hm => c.XY w (by simp) hm
      · cases Z with
        | nil => cases h1
        | cons z' Z => cases h1; exact fun hm => c.YZ w hm (by simp)
    show l ∈ leavesAt v (lvl y) y
    rw [pruned_leaves w pr (lvl y) y rfl hy, List.mem_filter]
    exact ⟨hl, by simp [hlY]⟩
  · have hk : kids v y = kids s y := by
      rw [pruned_kids pr hy, List.filter_eq_self]
      intro b hb
      have : ¬ Dead s lvl Y b := fun hd => hex ⟨b, hb, hd⟩
      simpa [Dead] using this
    have hlen : (chs v y).length = (chs s y).length := by
      have := congrArg List.length hk
      simpa [kids_chs] using this
    rcases o y hys with h1 | h1 | ⟨_, h1, -⟩
    · exact Or.inl (by omega)
    · exact Or.inr (Or.inl (hls h1 hy))
    · exact absurd h1 id

theorem Sz.occ {m : Fill} (sz : Sz m s h) : Occ (m.lo + m.d) (fun _ => False) s := by
  intro y hy
  by_cases hr : y = s.root
  · subst hr; exact Or.inr (Or.inl .root)
  by_cases hl : LSp s y
  · exact Or.inr (Or.inl hl)
  · exact Or.inl (((sz y hy (fun h => h)).2.1 hr).2 hl)

/-- the end of `Drain::drop` repairs the caches, the root and the nodes with few children that are not on the left edge -/
theorem dropTail_spec {m : Fill} (hm1 : 1 ≤ m.lo) (hm5 : m.lo + m.d ≤ 5) (hh : h ≤ 9) (c : Cuts s X Y Z y e) (g : Good A s lvl h) (sz : Sz m s h)
    (pr : Pruned s lvl Y v) :
    ∃ s' lvl' h', dropTail B (X.getLast?.map .leaf) (Z.head?.map .leaf) v = .ok s' ∧ Good A s' lvl' h' ∧ Sz m.drained s' h' ∧ h' ≤ h ∧ Same v s' ∧
      ∀ b, X.getLast? = some b → ∃ t, dropCaches B (.leaf b) (Z.head?.map .leaf) v = .ok t ∧ Good A t lvl h ∧ Thin t ∧ sealTree B t (.leaf b) = .ok s' := by
  have th := Thin.of_sz hm1 sz
  have w := pruned_wf g.wf pr
  have cok := pruned_cok (A := A) pr g.cok
  have thv := pruned_thin g.wf pr th
  have st := pruned_stale c g th.ne pr
  have oc := pruned_occ c g.wf th.ne sz.occ pr
  generalize hF : (fun l => X.getLast? = some l ∨ Z.head? = some l) = F at oc
  have hF : ∀ l, F l ↔ X.getLast? = some l ∨ Z.head? = some l := fun l => by rw [← hF]
  have okE : ∀ l e, elm v l = some e → A.okE e := by
    intro l e he
    rw [pruned_elm pr] at he
    split at he
    · cases he
    · exact g.okE l e he
  have hordv : order v = X ++ Z := by
    rw [pruned_order g.wf pr, c.ord, List.filter_append, List.filter_append]
    have nd := c.nodup g.wf
    have e1 : X.filter (fun l => decide (l ∉ Y)) = X := by
      rw [List.filter_eq_self]; intro l hl; simp; exact fun hm => c.XY g.wf hl hm
    have e2 : Y.filter (fun l => decide (l ∉ Y)) = [] := by
      rw [List.filter_eq_nil_iff]; intro l hl; simp [hl]
    have e3 : Z.filter (fun l => decide (l ∉ Y)) = Z := by
      rw [List.filter_eq_self]; intro l hl; simp; exact fun hm => c.YZ g.wf hm hl
    rw [e1, e2, e3, List.append_nil]
  -- finishing: everything is up to date
  have fin : ∀ t : Tree E C, SameShape v t → t.lf = v.lf → COk A t → RootOK A t → CInv A t noX → Good A t lvl h ∧ Thin t ∧
      Same v t ∧ Occ (m.lo + m.d) F t := by
    intro t sh lf ck rk ci
    exact ⟨⟨sh.wf w, ci, ck, rk, fun l e he => okE l e (by rw [← shape_elm lf]; exact he)⟩, thin_shape sh thv, sh.same lf, oc.shape sh⟩
  cases hx : X.getLast? with
  | some b =>
    have hbX : b ∈ X := List.mem_of_getLast? hx
    have hb : lpar v b ≠ none := (mem_order w).mp (by rw [hordv]; simp [hbX])
    have hclimb : ∃ t, dropCaches B (.leaf b) (Z.head?.map Idx.leaf) v = .ok t ∧ Good A t lvl h ∧ Thin t ∧ Same v t ∧
          Occ (m.lo + m.d) F t := by
      cases hz : Z.head? with
      | none =>
        obtain ⟨t, e1, sh, lf, ck, rk, ci⟩ := calcLeaf_spec w cok okE hb st
        have := fin t sh lf ck rk (ci.mono (by
          rintro a ⟨⟨z, l, ha, h1, h2, h3⟩, h4⟩
          rcases h2 with h2 | h2
          · rw [hx] at h2; cases h2
            exact h4 z h1 h3 ha
          · rw [hz] at h2; cases h2))
        refine ⟨t, ?_, this⟩
        simp only [dropCaches, Option.map_none, pure_ok, bind_ok, reduceCtorEq, if_false, e1]
      | some a =>
        have haZ : a ∈ Z := List.mem_of_head? hz
        have hab : a ≠ b := by rintro rfl; exact c.XZ g.wf hbX haZ
        have ha : lpar v a ≠ none := (mem_order w).mp (by rw [hordv]; simp [haZ])
        obtain ⟨t1, e1, sh1, lf1, ck1, rk1, ci1⟩ := calcLeaf_spec w cok okE ha st
        obtain ⟨t2, e2, sh2, lf2, ck2, rk2, ci2⟩ := calcLeaf_spec (sh1.wf w) ck1 (fun l e he => okE l e (by rw [← shape_elm lf1]; exact he))
          (by rw [shape_lpar lf1]; exact hb) ci1
        have sh12 := sh1.trans sh2
        have lf12 : t2.lf = v.lf := lf2.trans lf1
        obtain ⟨t3, e3, sh3, lf3, ck3, rk3, ci3⟩ := calcLeaf_spec (sh12.wf w) ck2 (fun l e he => okE l e (by rw [← shape_elm lf12]; exact he))
          (by rw [shape_lpar lf12]; exact ha) ci2
        have := fin t3 (sh12.trans sh3) (lf3.trans lf12) ck3 rk3 (ci3.mono (by
          rintro a' ⟨⟨⟨⟨z, l, ha, h1, h2, h3⟩, h4⟩, h5⟩, -⟩
          rcases h2 with h2 | h2
          · rw [hx] at h2; cases h2
            exact h5 z ((sh1.live z).mpr h1) (by rw [shape_lvs sh1]; exact h3) ha
          · rw [hz] at h2; cases h2
            exact h4 z h1 h3 ha))
        refine ⟨t3, ?_, this⟩
        have n1 : ¬ (some (Idx.leaf a) = some (Idx.leaf b)) := by intro hc; cases hc; exact hab rfl
        have n2 : ¬ (some (Idx.leaf b) = some (Idx.leaf a)) := by intro hc; cases hc; exact hab rfl
        simp only [dropCaches, Option.map_some, decide_eq_false n1, if_neg n2, e1, bind_ok, e2, e3]
    obtain ⟨t, e1, gt, tht, sm, oct⟩ := hclimb
    obtain ⟨X', hX'⟩ := getLast_split hx
    obtain ⟨s', lvl', h', f1, f2, f3, f4, f5⟩ := sealTree_occ (B := B) hm1 hm5 hh (l := b) (U := X') (V := Z) gt tht
      (by rw [sm.order, hordv, hX']; simp) (fun y hy => by
        rcases oct y hy with h1 | h1 | ⟨a, h1, h2⟩
        · exact Or.inl h1
        · exact Or.inr (Or.inl h1)
        · refine Or.inr (Or.inr ⟨a, ?_, h2⟩)
          rcases (hF a).mp h1 with h1 | h1
          · rw [hx] at h1; cases h1; exact Or.inr rfl
          · exact Or.inl h1)
    refine ⟨s', lvl', h', ?_, f2, f3, f4, sm.trans f5, fun b' hb' => by cases hb'; exact ⟨t, e1, gt, tht, f1⟩⟩
    rw [← f1]
    have := congrArg (fun r => r >>= fun s => sealTree B s (.leaf b)) e1
    simp only [bind_ok] at this
    rw [← this]
    simp only [dropTail, dropCaches, Option.map_some, bind_assoc]
  | none =>
    have hclimb : ∃ t, (match Z.head?.map Idx.leaf with
          | some af => recursiveUpdateCache B v af (decide (Z.head?.map Idx.leaf = (none : Option Idx))) none
          | none => pure v : M (Tree E C)) = .ok t ∧ SameShape v t ∧ t.lf = v.lf ∧ COk A t ∧ CInv A t noX := by
      cases hz : Z.head? with
      | none =>
        refine ⟨v, rfl, SameShape.refl v, rfl, cok, st.mono ?_⟩
        rintro a ⟨z, l, -, -, h2, -⟩
        rw [hx, hz] at h2
        rcases h2 with h2 | h2 <;> cases h2
      | some a =>
        have haZ : a ∈ Z := List.mem_of_head? hz
        have ha : lpar v a ≠ none := (mem_order w).mp (by rw [hordv]; simp [haZ])
        obtain ⟨t, e1, sh, lf, ck, rk, ci⟩ := calcLeaf_spec w cok okE ha st
        refine ⟨t, ?_, sh, lf, ck, ci.mono ?_⟩
        · simp only [Option.map_some, decide_eq_false (show ¬ (some (Idx.leaf a) = none) by simp), e1]
        · rintro a' ⟨⟨z, l, ha, h1, h2, h3⟩, h4⟩
          rcases h2 with h2 | h2
          · rw [hx] at h2; cases h2
          · rw [hz] at h2; cases h2
            exact h4 z h1 h3 ha
    obtain ⟨t, e1, sh, lf, ck, ci⟩ := hclimb
    obtain ⟨i, hi⟩ := (sh.wf w).root'
    obtain ⟨R, hR⟩ := lnk_isSome.mp (show lnk t t.root ≠ none by rw [hi]; simp)
    obtain ⟨rc, d, r1, r2, r3⟩ := rootCalc_ok (A := A) (N := R) (fun c hc => ck t.root c (by rw [chs_of hR]; exact hc)) t.rootCache
    have hR' : ({ t with rootCache := rc } : Tree E C).inn.get t.root = some R := hR
    obtain ⟨gt, tht, sm, oct⟩ := fin { t with rootCache := rc } (sh.trans (SameShape.rootCache t rc)) lf ck
      ⟨fun hn => by rw [cch, chs_of hR']; exact r2 (by rwa [← chs_of hR']), fun he => r3 (by rwa [← chs_of hR'])⟩ ci
    have hroot : lnk ({ t with rootCache := rc } : Tree E C) ({ t with rootCache := rc } : Tree E C).root ≠ none := by
      obtain ⟨i, hi⟩ := gt.wf.root'; rw [hi]; simp
    obtain ⟨s3, lvl3, h3, q1, q2, q3, q4, -, q6, -⟩ := tryReduce_spec (m := m.drained) (Nat.le_refl 1) gt (Occ.szx hm1 tht (fun y hy => by
      rcases oct y hy with h1 | h1 | ⟨a, h1, h2⟩
      · exact Or.inl h1
      · exact Or.inr (Or.inl h1)
      · rcases (hF a).mp h1 with h1 | h1
        · rw [hx] at h1; cases h1
        · have hX : X = [] := List.getLast?_eq_none_iff.mp hx
          obtain ⟨R, rfl⟩ : ∃ R, Z = a :: R := by
            cases Z with
            | nil => cases h1
            | cons z R => cases h1; exact ⟨R, rfl⟩
          exact Or.inr (Or.inl (LeafUp.first gt.wf tht.ne (by rw [sm.order, hordv, hX]; rfl) _ y rfl h2)))) (tht _ hroot).1
    refine ⟨s3, lvl3, h3, ?_, q2, q3, q4, sm.trans q6, fun b hb => by cases hb⟩
    rw [← q1]
    simp only [dropTail, Option.map_none]
    refine (congrArg (fun r => r >>= fun s => (do
        let s ← updateRootCache B s
        tryReduceLevels s : M (Tree E C))) e1).trans ?_
    simp only [bind_ok, updateRootCache, getIn_ok hR, r1, pure_ok]

end
end GB
