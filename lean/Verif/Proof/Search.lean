import Verif.Proof.UpdateLeaf

/-!
# `update_leaf_by_search`: the upward passes

During the pass the entry of one node `x` on the path is stale by the reported diff; everything else is right.
-/

namespace GB
variable {E C D : Type}
open Tree

/-- in every context the diff `d` leads from the cache `c` to the caches `new` -/
def Exact {B : Trait E C D} (A : Law B) (c : C) (d : D) (new : List C) : Prop :=
  ∀ l r, (∀ x ∈ l ++ r, A.okC x) → B.apply (A.total (l ++ c :: r)) d = .ok (A.total (l ++ new ++ r))

/-- `old`, the cache stored for `x`, still has `c` where the children of `x` have `new` -/
def Off {B : Trait E C D} (A : Law B) (c : C) (new : List C) (s : Tree E C) (x : Nat) (old : C) : Prop :=
  ∃ l r, (∀ y ∈ l ++ r, A.okC y) ∧ old = A.total (l ++ c :: r) ∧ A.total (cch s x) = A.total (l ++ new ++ r)

/-- `Up s x arr c path`: `path` leads from the parent of `x` to the root, `arr` is the slot of `x` and `c` its stored
cache -/
inductive Up (s : Tree E C) : Nat → Nat → C → List PIdx → Prop
  | root (arr : Nat) : Up s s.root arr s.rootCache []
  | step {x arr p arr' : Nat} {ch : Child C} {cp : C} {rest : List PIdx} : (chs s p)[arr]? = some ch →
      ch.arena = .internal x → Up s p arr' cp rest → Up s x arr ch.cache (⟨.internal p, arr'⟩ :: rest)

section
variable {B : Trait E C D} {A : Law B} {s s' : Tree E C} {lvl : Nat → Nat} {h : Nat}

theorem Up.congr (w : WF s lvl h) (root : s'.root = s.root) (rc : s'.rootCache = s.rootCache) {x arr : Nat} {c : C}
    {path : List PIdx} (u : Up s x arr c path) (hc : ∀ y, lnk s y ≠ none → lvl x < lvl y → chs s' y = chs s y) : Up s' x arr c path := by
  induction u with
  | root arr => rw [← root, ← rc]; exact .root arr
  | step h1 h2 _ ih =>
    have := (w.kin (edge_chs.mpr ⟨_, h1, h2⟩)).1
    exact .step (by rw [hc _ (edge_live (edge_chs.mpr ⟨_, h1, h2⟩)) (by omega)]; exact h1) h2 (ih (fun y hy0 hy => hc y hy0 (by omega)))

/-- the cache stored for the node above a stale one is the combination of its entries -/
theorem Up.cache {x arr p : Nat} {ch : Child C} (g : GoodX A s lvl h (fun a => a = .internal x) (x = s.root))
    (hch : (chs s p)[arr]? = some ch) (har : ch.arena = .internal x) {arr' : Nat} {cp : C} {rest : List PIdx}
    (u : Up s p arr' cp rest) : cp = A.total (cch s p) := by
  have he : Edge s p arr (.internal x) := edge_chs.mpr ⟨ch, hch, har⟩
  have hxr : x ≠ s.root := by rintro rfl; exact g.wf.root_not_kid he
  cases u with
  | root => exact (g.rok hxr).1 (by intro e; rw [e] at hch; simp at hch)
  | step h1 h2 _ =>
    have hpx : p ≠ x := Ne.symm (kid_ne_self g.wf he)
    have := g.cinv _ _ (List.mem_iff_getElem?.mpr ⟨_, h1⟩) (by rw [h2]; simpa using hpx)
    simpa only [EntryOK, h2] using this

theorem total_flat' {l m r : List C} (hm : m ≠ [] ∨ LawE A) : A.total (l ++ A.total m :: r) = A.total (l ++ m ++ r) := by
  rcases hm with hm | le
  · exact A.total_flat l m r hm
  · by_cases hm : m = []
    · subst hm; rw [le.total_nil]; simp
    · exact A.total_flat l m r hm

/-- The entry of the stale node is repaired; now its parent is stale. -/
theorem fix_entry {c : C} {d : D} {new : List C} (ex : Exact A c d new) (hnew : new ≠ [] ∨ LawE A)
    {x arr p arr' : Nat} {ch : Child C} {N : Node C} {cp : C} {rest : List PIdx}
    (g : GoodX A s lvl h (fun a => a = .internal x) (x = s.root)) (hne : chs s x ≠ [] ∨ LawE A)
    (hN : s.inn.get p = some N) (hch : (chs s p)[arr]? = some ch) (har : ch.arena = .internal x)
    (u : Up s p arr' cp rest) (off : Off A c new s x ch.cache) :
    B.apply ch.cache d = .ok (A.total (cch s x)) ∧
    GoodX A (setEntry s p N arr ch (A.total (cch s x))) lvl h (fun a => a = .internal p) (p = s.root) ∧
    Off A c new (setEntry s p N arr ch (A.total (cch s x))) p cp ∧
    Up (setEntry s p N arr ch (A.total (cch s x))) p arr' cp rest ∧
    SameShape s (setEntry s p N arr ch (A.total (cch s x))) := by
  have he : Edge s p arr (.internal x) := edge_chs.mpr ⟨ch, hch, har⟩
  have hxp : x ≠ p := kid_ne_self g.wf he
  have hxr : x ≠ s.root := by rintro rfl; exact g.wf.root_not_kid he
  have hch' := hch
  rw [chs_of hN] at hch'
  have sh := setEntry_shape (c' := A.total (cch s x)) hN hch'
  have hcp := Up.cache g hch har u
  have hchs := fun y => chs_setEntry (i := arr) (ch := ch) (c' := A.total (cch s x)) hN y
  obtain ⟨l, r, hok, hold, htot⟩ := off
  have hokx : A.okC (A.total (cch s x)) := by
    by_cases hx : chs s x = []
    · rw [cch, hx]; exact (hne.resolve_left (fun h => h hx)).ok_nil
    · refine A.total_ok _ (by simpa [cch] using hx) ?_
      intro c hc
      obtain ⟨c2, h2, rfl⟩ := List.mem_map.mp hc
      exact g.cok _ c2 h2
  refine ⟨by rw [hold, htot]; exact ex l r hok, ⟨sh.wf g.wf, ?_, setEntry_cok hN g.cok hokx, ?_, ?_⟩, ?_, ?_, sh⟩
  · refine (setEntry_cinv hN hch' ?_ g.cinv ?_).mono ?_
    · intro q j hq
      rw [har] at hq
      exact g.wf.kid_in_inj hq he
    · simp only [EntryOK, har]
    · rintro a (⟨h1, h2⟩ | h1)
      · rw [har] at h2; exact absurd h1 h2
      · exact h1
  · intro hpr
    refine RootOK.congr (s := s) ?_ rfl (g.rok hxr)
    rw [hchs, sh.root, if_neg (Ne.symm hpr)]
  · intro l e he; exact g.okE l e he
  · have hsp := set_split hch { ch with cache := A.total (cch s x) }
    have hset : chs (setEntry s p N arr ch (A.total (cch s x))) p = (chs s p).set arr { ch with cache := A.total (cch s x) } := by
      rw [hchs, if_pos rfl, chs_of hN]
    have hmem : ∀ y ∈ ((chs s p).take arr).map Child.cache ++ ((chs s p).drop (arr + 1)).map Child.cache, A.okC y := by
      intro y hy
      rw [← List.map_append] at hy
      obtain ⟨c2, h2, rfl⟩ := List.mem_map.mp hy
      refine g.cok p c2 ?_
      rcases List.mem_append.mp h2 with h2 | h2
      · exact List.mem_of_mem_take h2
      · exact List.mem_of_mem_drop h2
    refine ⟨((chs s p).take arr).map Child.cache ++ l, r ++ ((chs s p).drop (arr + 1)).map Child.cache, ?_, ?_, ?_⟩
    · intro y hy
      simp only [List.mem_append] at hy hok hmem
      rcases hy with (h1 | h1) | (h1 | h1)
      · exact hmem y (Or.inl h1)
      · exact hok y (Or.inl h1)
      · exact hok y (Or.inr h1)
      · exact hmem y (Or.inr h1)
    · have hL := congrArg (List.map Child.cache) hsp.1
      rw [List.map_append, List.map_cons, hold] at hL
      rw [hcp, cch, hL, A.total_flat _ _ _ (by simp)]
      simp
    · rw [cch, hset, hsp.2, List.map_append, List.map_cons]
      show A.total (_ ++ A.total (cch s x) :: _) = _
      rw [htot, total_flat']
      · simp
      · rcases hnew with h1 | h1
        · left; simp [h1]
        · exact Or.inr h1
  · refine u.congr g.wf sh.root rfl ?_
    intro y _ hy
    rw [hchs, if_neg (by rintro rfl; omega)]

/-- what is known about the size of the node that the deletion pass has reached -/
structure DelSz (m : Fill) (s : Tree E C) (h x : Nat) (lack : Bool) : Prop where
  le : (chs s x).length ≤ 11
  inner : x ≠ s.root → m.le s x ((chs s x).length + 1) ∧ (lack = false → m.le s x (chs s x).length)
  root : x = s.root → 2 ≤ h → 1 ≤ (chs s x).length ∧ (lack = false → 2 ≤ (chs s x).length)

/-- The deletion pass. -/
theorem searchDel_spec {m : Fill} (hm : 1 ≤ m.lo ∧ m.lo + m.d ≤ 5) (le : LawE A) {c : C} {d : D} {new : List C} (ex : Exact A c d new) :
    ∀ (path : List PIdx) (s : Tree E C) (x arr : Nat) (lack : Bool) (old : C),
    GoodX A s lvl h (fun a => a = .internal x) (x = s.root) → lnk s x ≠ none → Up s x arr old path → Off A c new s x old →
    SzX m s h (fun y => y = x) → DelSz m s h x lack →
    ∃ b s', searchDelF B d s path false lack (.internal x) arr = .ok (b, s') ∧
      GoodX A s' lvl h (fun a => a = .internal s'.root) True ∧ Off A c new s' s'.root s'.rootCache ∧
      SzX m s' h (fun y => y = s'.root) ∧ DelSz m s' h s'.root b ∧ Same s s' := by
  intro path
  induction path with
  | nil =>
    intro s x arr lack old g hx u off sz ds
    cases u with
    | root =>
      refine ⟨lack, s, rfl, ⟨g.wf, g.cinv, g.cok, fun h => absurd trivial h, g.okE⟩, off, sz, ds, Same.refl s⟩
  | cons pi rest ih =>
    intro s x arr lack old g hx u off sz ds
    cases u with
    | @step _ _ p arr' ch cp _ hch har u =>
    have he : Edge s p arr (.internal x) := edge_chs.mpr ⟨ch, hch, har⟩
    have hpl := edge_live he
    have hxp : x ≠ p := kid_ne_self g.wf he
    have hxr : x ≠ s.root := by rintro rfl; exact g.wf.root_not_kid he
    obtain ⟨N, hN⟩ := lnk_isSome.mp hpl
    obtain ⟨f1, f2, f3, f4, f5⟩ := fix_entry ex (Or.inr le) g (Or.inr le) hN hch har u off
    have hNp : setEntry s p N arr ch (A.total (cch s x)) = s.setIn p { N with children := N.children.set arr { ch with cache := A.total (cch s x) } } := rfl
    generalize hs1 : setEntry s p N arr ch (A.total (cch s x)) = s1 at *
    have hchs : ∀ y, (chs s1 y).length = (chs s y).length := f5.len
    have hk1 : ∀ y, kids s1 y = kids s y := f5.kids
    have hpz := sz p hpl (Ne.symm hxp)
    have hxn := ds.inner hxr
    have hlk : lnk s1 x = some (some p, arr) := by
      exact (f2.wf.kin (by rw [Edge, hk1]; exact he)).2
    have h1r : s1.root = s.root := f5.root
    have hX : ∀ a ∈ kids s1 p, ¬ a = .internal p := by
      intro a ha e
      subst e
      obtain ⟨j, hj⟩ := mem_kids.mp ha
      exact kid_ne_self f2.wf hj rfl
    have same1 : Same s s1 := f5.same (by rw [hNp]; rfl)
    have hxlv := (g.wf.kin he).1
    -- the state after the child has been handled
    have key : ∃ s2, (if lack then do
          let (_, s) ← handleLackSingle B s1 x
          pure s
        else pure s1 : M (Tree E C)) = .ok s2 ∧ GoodX A s2 lvl h (fun a => a = .internal p) (p = s2.root) ∧
        lnk s2 p ≠ none ∧ A.total (cch s2 p) = A.total (cch s1 p) ∧ (∀ y, lvl p < lvl y → chs s2 y = chs s1 y) ∧
        Same s1 s2 ∧ s2.rootCache = s1.rootCache ∧ SzX m s2 h (fun y => y = p) ∧ (LSp s1 p → LSp s2 p) ∧
        (chs s2 p).length ≤ (chs s1 p).length ∧ (chs s1 p).length ≤ (chs s2 p).length + 1 := by
      cases lack with
      | false =>
        refine ⟨s1, rfl, by rw [h1r]; exact f2, (f5.live p).mpr hpl, rfl, fun _ _ => rfl, Same.refl _, rfl, ?_, id, Nat.le_refl _, by omega⟩
        intro y hy hyp
        rw [hchs, h1r]
        by_cases hyx : y = x
        · subst hyx
          exact ⟨ds.le, fun _ => (hxn.2 rfl).keep (fun hh => hh.shape f5) (Nat.le_refl _), fun e => absurd e hxr⟩
        · obtain ⟨q1, q2, q3⟩ := sz y ((f5.live y).mp hy) hyx
          exact ⟨q1, fun hr => (q2 hr).keep (fun hh => hh.shape f5) (Nat.le_refl _), q3⟩
      | true =>
        obtain ⟨r, s2, e1, post⟩ := lackSingle_spec f2 hX hlk
          (by
            intro y hy
            rw [hchs]
            by_cases hyx : y = x
            · subst hyx; exact ds.le
            · rw [hk1] at hy
              exact (sz y (kids_live_in g.wf hy) hyx).1)
          (fun _ _ => Or.inr le)
        refine ⟨s2, by simp only [if_true, e1, bind_ok, pure_ok], ?_⟩
        have lvlk : ∀ y, .internal y ∈ kids s1 p → lvl p = lvl y + 1 := by
          intro y hy
          obtain ⟨j, hj⟩ := mem_kids.mp hy
          exact (f2.wf.kin hj).1
        have nr : ∀ y, .internal y ∈ kids s1 p → y ≠ s1.root := by
          intro y hy
          obtain ⟨j, hj⟩ := mem_kids.mp hy
          rintro rfl
          exact f2.wf.root_not_kid hj
        have hpl1 : lnk s1 p ≠ none := (f5.live p).mpr hpl
        have sz1 : SzX m s1 h (fun y => y = x) := SzX.congr f5 sz
        have hxk : Idx.internal x ∈ kids s1 p := by rw [hk1]; exact mem_kids.mpr ⟨arr, he⟩
        cases post with
        | empty le' hx0 dd =>
          have hsr : s2.root = s1.root := dd.same.root
          refine ⟨by rw [hsr, h1r]; exact dd.good, (dd.live p).mpr ⟨hpl1, Ne.symm hxp⟩, dd.ptot, ?_, dd.same, dd.rc, ?_,
            fun hh => dd.ls hx0 hh (Ne.symm hxp), by have := dd.plen; omega, by have := dd.plen; omega⟩
          · intro y hy; exact dd.frame y (by rintro rfl; omega)
          · intro y hy hyp
            obtain ⟨h2, h3⟩ := (dd.live y).mp hy
            rw [dd.frame y hyp, hsr]
            obtain ⟨q1, q2, q3⟩ := sz1 y h2 h3
            exact ⟨q1, fun hr => (q2 hr).keep (fun hh => dd.ls hx0 hh h3) (Nat.le_refl _), q3⟩
        | alone hx0 hp1 =>
          refine ⟨by rw [h1r]; exact f2, hpl1, rfl, fun _ _ => rfl, Same.refl _, rfl, ?_, id, Nat.le_refl _, by omega⟩
          intro y hy hyp
          by_cases hyx : y = x
          · subst hyx
            have hlen : 1 ≤ (chs s1 y).length := by
              have : (chs s1 y).length ≠ 0 := fun e => hx0 (List.length_eq_zero_iff.mp e)
              omega
            refine ⟨by rw [hchs]; exact ds.le, fun _ => ?_, fun e => absurd e (by rw [h1r]; exact hxr)⟩
            by_cases hpr : p = s.root
            · have := hpz.2.2 hpr (by
                have := g.wf.root_lvl
                have := (g.wf.lvl_pos' hx).1
                rw [← hpr] at *
                omega)
              rw [hchs] at hp1
              omega
            · have hpm := (hpz.2.1 hpr).keep (s' := s1) (fun hh => hh.shape f5) (Nat.le_refl _)
              rw [hchs] at hp1
              rw [hp1] at hpm
              have hls : LSp s1 p → LSp s1 y := by
                intro hh
                refine hh.step ?_
                rw [List.head?_eq_getElem?, hk1]
                have hk0 : arr = 0 := by
                  have := (List.getElem?_eq_some_iff.mp he).1
                  rw [kids_chs, List.length_map] at this
                  omega
                rw [← hk0]; exact he
              have := hpm.1
              exact ⟨by omega, fun hn => by have := hpm.2 (fun hh => hn (hls hh)); omega⟩
          · exact sz1 y hy hyx
        | @pair _ a b hx0 hab ha hb hne dd =>
          have hsr : s2.root = s1.root := dd.same.root
          have la := lvlk a ha
          have lb := lvlk b hb
          refine ⟨by rw [hsr, h1r]; exact dd.good, dd.keep p hpl1 (by rintro rfl; omega) (by rintro rfl; omega), dd.ptot, ?_, dd.same, dd.rc, ?_,
            fun hh => dd.ls f2.wf hh (dd.keep p hpl1 (by rintro rfl; omega) (by rintro rfl; omega)), dd.plen.1, dd.plen.2⟩
          · intro y hy
            exact dd.frame y (by rintro rfl; omega) (by rintro rfl; omega) (by rintro rfl; omega)
          · intro y hy hyp
            rw [hsr]
            by_cases hyab : y = a ∨ y = b
            · obtain ⟨h2, h3⟩ := dd.pair y hy hyab
              have hyk : y ≠ s1.root := by rcases hyab with rfl | rfl; exact nr _ ha; exact nr _ hb
              refine ⟨h2, fun _ => ?_, fun e => absurd e hyk⟩
              have hx1 : 1 ≤ (chs s1 x).length := by
                have : (chs s1 x).length ≠ 0 := fun e => hx0 (List.length_eq_zero_iff.mp e)
                omega
              have hother : ∀ z, .internal z ∈ kids s1 p → z ≠ x → m.le s1 z (chs s1 z).length :=
                fun z hz hzx => (sz1 z (kids_live_in f2.wf hz) hzx).2.1 (nr z hz)
              rcases h3 with h3 | h3
              · exact .of (by omega)
              · rcases hab with rfl | rfl
                · have := (hother b hb (Ne.symm hne)).2 (dd.not_lsp f2.wf); exact .of (by omega)
                · have q := hother a ha hne
                  have := q.1
                  refine ⟨by omega, fun hn => ?_⟩
                  by_cases hla : LSp s1 a
                  · rcases dd.lsm f2.wf hla hyab hy with h4 | h4
                    · omega
                    · exact absurd h4 hn
                  · have := q.2 hla; omega
            · rw [dd.frame y hyp (fun e => hyab (Or.inl e)) (fun e => hyab (Or.inr e))]
              obtain ⟨q1, q2, q3⟩ := sz1 y (dd.live y hy) (by rintro rfl; exact hyab hab)
              exact ⟨q1, fun hr => (q2 hr).keep (fun hh => dd.ls f2.wf hh hy) (Nat.le_refl _), q3⟩
    obtain ⟨s2, k1, k2, k3, k4, k5, k6, k7, k8, kls, k9, k10⟩ := key
    have off2 : Off A c new s2 p cp := by
      obtain ⟨l, r, o1, o2, o3⟩ := f3
      exact ⟨l, r, o1, o2, by rw [k4]; exact o3⟩
    have u2 : Up s2 p arr' cp rest := f4.congr f2.wf k6.root k7 (fun y _ => k5 y)
    have ds2 : DelSz m s2 h p (Node.mk N.parent N.slot (N.children.set arr { ch with cache := A.total (cch s x) })).isLack := by
      have hlen : (N.children.set arr { ch with cache := A.total (cch s x) }).length = (chs s1 p).length := by
        rw [List.length_set, hchs, chs_of hN]
      have hlk : (Node.mk N.parent N.slot (N.children.set arr { ch with cache := A.total (cch s x) })).isLack = false → 6 ≤ (chs s1 p).length := by
        intro hf
        simp only [Node.isLack, decide_eq_false_iff_not, hlen, MAXC] at hf
        omega
      have hpz1 := hpz
      rw [← hchs] at hpz1
      have hp2r : s2.root = s.root := k6.root.trans h1r
      refine ⟨by omega, ?_, ?_⟩
      · intro hpr
        rw [hp2r] at hpr
        have := (hpz1.2.1 hpr).keep (s' := s2) (fun hh => kls (hh.shape f5)) k10
        exact ⟨this, fun hf => by have := hlk hf; exact .of (by omega)⟩
      · intro hpr hh
        rw [hp2r] at hpr
        have := hpz1.2.2 hpr hh
        exact ⟨by omega, fun hf => by have := hlk hf; omega⟩
    obtain ⟨b, s', r1, r2, r3, r4, r5, r6⟩ := ih s2 p arr' _ cp k2 k3 u2 off2 k8 ds2
    refine ⟨b, s', ?_, r2, r3, r4, r5, (same1.trans k6).trans r6⟩
    have hch' := hch
    rw [chs_of hN] at hch'
    simp only [searchDelF, Idx.unwrapInternal, bind_ok, getIn_ok hN, Bool.false_eq_true, if_false, vget_ok hch', f1, pure_ok]
    simp only [pure_ok] at k1
    rw [← hNp, k1]
    simp only [bind_ok]
    exact r1

theorem GoodX.weaken {X X' : Idx → Prop} {Q Q' : Prop} (g : GoodX A s lvl h X Q) (hX : ∀ a, X a → X' a) (hQ : Q → Q') :
    GoodX A s lvl h X' Q' := ⟨g.wf, g.cinv.mono hX, g.cok, fun hq => g.rok (fun h => hq (hQ h)), g.okE⟩

/-- only the root cache is left to repair -/
theorem root_fix {c : C} {d : D} {new : List C} (ex : Exact A c d new)
    (g : GoodX A s lvl h (fun a => a = .internal s.root) True) (hne : chs s s.root ≠ [] ∨ LawE A)
    (off : Off A c new s s.root s.rootCache) :
    B.apply s.rootCache d = .ok (A.total (cch s s.root)) ∧
      Good A { s with rootCache := A.total (cch s s.root) } lvl h := by
  obtain ⟨l, r, hok, hold, htot⟩ := off
  refine ⟨by rw [hold, htot]; exact ex l r hok, ⟨(SameShape.rootCache s _).wf g.wf, ?_, g.cok, ?_, g.okE⟩⟩
  · intro p c hc _
    refine g.cinv p c hc ?_
    intro e
    obtain ⟨i, hi⟩ := List.mem_iff_getElem?.mp hc
    exact g.wf.root_not_kid (edge_chs.mpr ⟨c, hi, e⟩)
  · refine ⟨fun _ => rfl, fun he => ?_⟩
    have he : chs s s.root = [] := he
    show A.emptyOk (A.total (cch s s.root))
    rw [cch, he]
    exact (hne.resolve_left (fun h => h he)).empty_nil

theorem regroup_pre {s1 : Tree E C} {p : Nat} (sh : SameShape s s1) (hlnk : ∀ y, lnk s1 y = lnk s y)
    (hlf : s1.lf = s.lf) (hc : ∀ y, y ≠ p → chs s1 y = chs s y) (hin : ∀ y, .internal y ∈ kids s p → y ≠ p)
    (r : Regroup s s' p) : Regroup s1 s' p := by
  have hk := sh.kids
  have hlp : ∀ l, lpar s1 l = lpar s l := by intro l; simp only [lpar, hlf]
  have hel : ∀ l, elm s1 l = elm s l := by intro l; simp only [elm, hlf]
  refine ⟨r.root.trans sh.root.symm, by rw [sh.items]; exact r.items, fun l => (r.elm l).trans (hel l).symm,
    fun l => by rw [hlp]; exact r.lpar_live l, by rw [hlnk]; exact r.p_lnk, ?_, ?_, r.kin', r.klf', ?_, ?_, ?_, ?_⟩
  · intro i a he
    obtain ⟨g, h1, h2, h3⟩ := r.p_kid i a he
    exact ⟨g, h1, h2, by rw [hlnk, hk]; exact h3⟩
  · intro y h1 h2; rw [hk] at h1; exact r.removed y h1 h2
  · intro y h1 h2 h3
    rw [hlnk]
    refine r.fr_lnk y (by rw [← hk]; exact h1) h2 ?_
    intro g h4; rw [← hk g]; exact h3 g (by rw [hk]; exact h4)
  · intro y h1 h2 h3
    rw [hc y h1]
    exact r.fr_chs y h1 (by rw [← hk]; exact h2) h3
  · intro l h1
    rw [hlp]
    refine r.fr_lpar l ?_
    intro g h4; rw [← hk g]; exact h1 g (by rw [hk]; exact h4)
  · rw [r.flat]
    have : ∀ t : Tree E C, grand t p = (kids t p).flatMap (chsI t) := by
      intro t; simp [grand, kids_chs, List.flatMap_map]
    rw [this, this, hk]
    rw [List.flatMap_def, List.flatMap_def]
    congr 1
    apply List.map_congr_left
    intro a ha
    cases a with
    | leaf l => rfl
    | internal y => exact (hc y (hin y ha)).symm

/-- The stale node `x` below `p` is split: its entry is right afterwards, and `p` is stale. -/
theorem split_fix {m : Fill} (hm : 1 ≤ m.lo ∧ m.lo + m.d ≤ 6) {c : C} {d : D} {new : List C} (ex : Exact A c d new) (hnew : new ≠ [])
    {x arr p arr' : Nat} {ch : Child C} {cp : C} {rest : List PIdx}
    (g : GoodX A s lvl h (fun a => a = .internal x) (x = s.root)) (hlen : (chs s x).length = 12)
    (sz : SzX m s h (fun y => y = x))
    (hch : (chs s p)[arr]? = some ch) (har : ch.arena = .internal x) (u : Up s p arr' cp rest)
    (off : Off A c new s x ch.cache) :
    ∃ s4 s6 q i c1 rc, splitNode B s x = .ok ((some p, arr, c1, rc), s4) ∧ lnk s4 p = some (q, i) ∧
      (chs s4 p)[arr]? = some ch ∧
      vinsert ((chs s4 p).set arr { ch with cache := c1 }) (arr + 1) rc = .ok (chs s6 p) ∧
      updSlotsFrom (s4.setIn p ⟨q, i, chs s6 p⟩) p (arr + 1) = .ok s6 ∧
      ∃ lvl', GoodX A s6 lvl' h (fun a => a = .internal p) (p = s6.root) ∧ lnk s6 p ≠ none ∧ Up s6 p arr' cp rest ∧
        Off A c new s6 p cp ∧ SzX m s6 h (fun y => y = p) ∧ (chs s6 p).length = (chs s p).length + 1 ∧ Same s s6 ∧ 2 ≤ lvl' p ∧
        (∀ y, lnk s6 y ≠ none → LSp s y → LSp s6 y) := by
  have he : Edge s p arr (.internal x) := edge_chs.mpr ⟨ch, hch, har⟩
  have hlk : lnk s x = some (some p, arr) := (g.wf.kin he).2
  have hx : lnk s x ≠ none := by rw [hlk]; simp
  have hlx := (g.wf.kin he).1
  have hplive := edge_live he
  have hxr : x ≠ s.root := by rintro rfl; exact g.wf.root_not_kid he
  have hxpos := (g.wf.lvl_pos' hx).1
  have hxp : x ≠ p := kid_ne_self g.wf he
  have hpsz := sz p hplive (Ne.symm hxp)
  obtain ⟨N, hN⟩ := lnk_isSome.mp hplive
  have hxne : chs s x ≠ [] := by intro e; rw [e] at hlen; simp at hlen
  obtain ⟨-, f2, f3, f4, f5⟩ := fix_entry ex (Or.inl hnew) g (Or.inl hxne) hN hch har u off
  have hchs1 := fun y => chs_setEntry (i := arr) (ch := ch) (c' := A.total (cch s x)) hN y
  have hlnk1 : ∀ y, lnk (setEntry s p N arr ch (A.total (cch s x))) y = lnk s y := by
    intro y
    unfold setEntry
    rw [lnk_setIn s hplive]
    split
    · next e => subst e; exact (lnk_of hN).symm
    · rfl
  have hlf1 : (setEntry s p N arr ch (A.total (cch s x))).lf = s.lf := rfl
  have hrc1 : (setEntry s p N arr ch (A.total (cch s x))).rootCache = s.rootCache := rfl
  generalize hs1 : setEntry s p N arr ch (A.total (cch s x)) = s1 at *
  have hk1 := f5.kids
  obtain ⟨s4, s6, e1, e2, e3, ⟨q, i, e4, e5, e6⟩, rg, i6, rc6, lf6, cp6, cx, cr, co, lv, lkr⟩ :=
    splitStep (A := A) g.wf g.cok hlk hch (by omega) (by have := hpsz.1; simp only [MAXC]; omega)
  have rg1 : Regroup s1 s6 p := regroup_pre f5 hlnk1 hlf1 (fun y hy => by rw [hchs1, if_neg hy])
    (fun y hy => by obtain ⟨j, hj⟩ := mem_kids.mp hy; exact kid_ne_self g.wf hj) rg
  have hlt := (List.getElem?_eq_some_iff.mp hch).1
  have hLne : (chs s x).take ((chs s x).length / 2) ≠ [] := by
    intro e
    have := congrArg List.length e
    simp only [List.length_take, List.length_nil] at this
    omega
  have hRne : (chs s x).drop ((chs s x).length / 2) ≠ [] := by
    intro e
    have := congrArg List.length e
    simp only [List.length_drop, List.length_nil] at this
    omega
  have okL : A.okC (A.total (((chs s x).take ((chs s x).length / 2)).map Child.cache)) := by
    apply A.total_ok
    · simpa using hLne
    · intro c hc
      obtain ⟨c2, h2, rfl⟩ := List.mem_map.mp hc
      exact g.cok _ c2 (List.mem_of_mem_take h2)
  have okR : A.okC (A.total (((chs s x).drop ((chs s x).length / 2)).map Child.cache)) := by
    apply A.total_ok
    · simpa using hRne
    · intro c hc
      obtain ⟨c2, h2, rfl⟩ := List.mem_map.mp hc
      exact g.cok _ c2 (List.mem_of_mem_drop h2)
  have hrn : lnk s s.inn.items.length = none := lnk_fresh s
  have hpr : p ≠ s.inn.items.length := by intro e; rw [e] at hplive; exact hplive hrn
  have hlenp : (chs s6 p).length = (chs s p).length + 1 := by
    rw [cp6, splitPar]
    simp only [List.length_append, List.length_take, List.length_set, List.length_cons, List.length_drop]
    omega
  have hmem : ∀ c ∈ chs s6 p, c = { ch with cache := A.total (((chs s x).take ((chs s x).length / 2)).map Child.cache) } ∨
      c = ⟨.internal s.inn.items.length, A.total (((chs s x).drop ((chs s x).length / 2)).map Child.cache)⟩ ∨
      (∃ j : Nat, j ≠ arr ∧ (chs s p)[j]? = some c) := by
    intro c hc
    rw [cp6, splitPar] at hc
    have key : ∀ c ∈ (chs s p).set arr { ch with cache := A.total (((chs s x).take ((chs s x).length / 2)).map Child.cache) },
      c = { ch with cache := A.total (((chs s x).take ((chs s x).length / 2)).map Child.cache) } ∨
      (∃ j : Nat, j ≠ arr ∧ (chs s p)[j]? = some c) := by
      intro c hc
      obtain ⟨j, hj⟩ := List.mem_iff_getElem?.mp hc
      rw [List.getElem?_set] at hj
      split at hj
      · cases hj; exact Or.inl rfl
      · next hne => exact Or.inr ⟨j, Ne.symm hne, hj⟩
    rcases List.mem_append.mp hc with h1 | h1
    · rcases key c (List.mem_of_mem_take h1) with h2 | h2
      · exact Or.inl h2
      · exact Or.inr (Or.inr h2)
    · rcases List.mem_cons.mp h1 with h1 | h1
      · exact Or.inr (Or.inl h1)
      · rcases key c (List.mem_of_mem_drop h1) with h2 | h2
        · exact Or.inl h2
        · exact Or.inr (Or.inr h2)
  have hothk : ∀ j c, j ≠ arr → (chs s p)[j]? = some c → ∃ y, c.arena = .internal y ∧ Edge s p j (.internal y) ∧ y ≠ x ∧
      chs s6 y = chs s y := by
    intro j c hj hc
    have hed : Edge s p j c.arena := edge_chs.mpr ⟨c, hc, rfl⟩
    obtain ⟨y, hy⟩ := kids_internal g.wf (p := p) (by omega) _ (mem_kids.mpr ⟨j, hed⟩)
    rw [hy] at hed
    have hyx : y ≠ x := by intro e; subst e; exact hj (g.wf.kid_in_inj hed he).2
    refine ⟨y, hy, hed, hyx, co y hyx (kid_ne_self g.wf hed) ?_⟩
    intro e
    have := (g.wf.kin hed).2
    rw [e, hrn] at this
    cases this
  have hkne : ∀ y, .internal y ∈ kids s p → chs s y ≠ [] := by
    intro y hy hnil
    by_cases h1 : y = x
    · subst h1; exact hxne hnil
    · have hyl := kids_live_in g.wf hy
      obtain ⟨j, hj⟩ := mem_kids.mp hy
      have := ((sz y hyl h1).2.1 (by intro e; subst e; exact g.wf.root_not_kid hj)).1
      rw [hnil] at this
      simp at this
      omega
  have hX : ∀ a ∈ kids s1 p, ¬ a = .internal p := by
    intro a ha e
    subst e
    obtain ⟨j, hj⟩ := mem_kids.mp ha
    exact kid_ne_self f2.wf hj rfl
  have g6 := rg1.goodX (A := A) f2 hX (by rw [hlnk1]; exact hplive) (by omega) (rc6.trans hrc1.symm)
    (by
      intro y hy
      rw [hk1] at hy
      obtain ⟨j, hj⟩ := mem_kids.mp hy
      rw [hchs1, if_neg (kid_ne_self g.wf hj)]
      exact Or.inl (hkne y hy))
    (by
      intro y hy
      left
      obtain ⟨c, hc, hcy⟩ := mem_kids_chs.mp hy
      rcases hmem c hc with rfl | rfl | ⟨j, hj, hc⟩
      · rw [har] at hcy; cases hcy; rw [cx]; exact hLne
      · cases hcy; rw [cr]; exact hRne
      · obtain ⟨y', h1, h2, -, h3⟩ := hothk j c hj hc
        rw [h1] at hcy
        cases hcy
        rw [h3]
        exact hkne y (mem_kids.mpr ⟨j, h2⟩))
    (by
      intro e
      have := f5.len p
      rw [e] at this
      simp at this
      omega)
    (Or.inl (by intro e; rw [e] at hlenp; simp at hlenp))
    (by
      intro c hc
      rcases hmem c hc with rfl | rfl | ⟨j, hj, hc⟩
      · exact okL
      · exact okR
      · exact g.cok p c (List.mem_iff_getElem?.mpr ⟨j, hc⟩))
    (by
      intro c hc
      rcases hmem c hc with rfl | rfl | ⟨j, hj, hc⟩
      · simp only [EntryOK, har, cch, cx]
      · simp only [EntryOK, cch, cr]
      · obtain ⟨y', h1, h2, hyx, h3⟩ := hothk j c hj hc
        have := g.cinv p c (List.mem_iff_getElem?.mpr ⟨j, hc⟩) (by rw [h1]; simpa using hyx)
        simp only [EntryOK, h1, cch, h3] at this ⊢
        exact this)
  have kp6 : kids s6 p = (kids s p).take (arr + 1) ++ .internal s.inn.items.length :: (kids s p).drop (arr + 1) := by
    rw [kids_chs, cp6, splitPar_arena hch, ← kids_chs]
  have hkp0 : (kids s6 p).head? = (kids s p).head? := by
    rw [kp6]
    cases hkp : kids s p with
    | nil => rw [kids_chs] at hkp; rw [List.map_eq_nil_iff.mp hkp] at hch; simp at hch
    | cons a t => rfl
  have hls : ∀ y, lnk s6 y ≠ none → LSp s y → LSp s6 y := by
    intro y hy h1
    refine LSp.regroup rg g.wf hplive (by omega) ?_ ?_ h1 hy
    · intro z hz
      obtain ⟨c, hc, hcy⟩ := mem_kids_chs.mp (List.mem_of_head? hz)
      rcases hmem c hc with rfl | rfl | ⟨j, hj, hc⟩
      · rw [har] at hcy; cases hcy; rw [cx]; exact hLne
      · cases hcy; rw [cr]; exact hRne
      · obtain ⟨y', h1, h2, -, h3⟩ := hothk j c hj hc
        rw [h1] at hcy
        cases hcy
        rw [h3]
        exact hkne z (mem_kids.mpr ⟨j, h2⟩)
    · intro z hz _
      rw [hkp0]; exact hz
  refine ⟨s4, s6, q, i, _, _, e1, e4, by rw [e3]; exact hch, e5, e6, relvl s1 lvl p, ?_, ?_, ?_, ?_, ?_, hlenp, ?_, ?_, hls⟩
  · rw [rg.root]; exact g6.1
  · exact fun e => hplive ((lv p hpr).mp e)
  · refine u.congr g.wf rg.root rc6 ?_
    intro y hy0 hy
    exact co y (by rintro rfl; omega) (by rintro rfl; omega) (by rintro rfl; exact hy0 hrn)
  · obtain ⟨l, r, o1, o2, o3⟩ := f3
    exact ⟨l, r, o1, o2, by rw [g6.2]; exact o3⟩
  · intro y hy hyp
    rw [rg.root]
    by_cases h1 : y = x
    · subst h1
      rw [cx]
      simp only [List.length_take]
      exact ⟨by omega, fun _ => .of (by omega), fun h => absurd h hxr⟩
    · by_cases h2 : y = s.inn.items.length
      · subst h2
        rw [cr]
        simp only [List.length_drop]
        refine ⟨by omega, fun _ => .of (by omega), fun h => ?_⟩
        obtain ⟨i, hi⟩ := g.wf.root'
        rw [← h, hrn] at hi
        cases hi
      · rw [co y h1 hyp h2]
        obtain ⟨q1, q2, q3⟩ := sz y (fun e => hy ((lv y h2).mpr e)) h1
        exact ⟨q1, fun hr => (q2 hr).keep (hls y hy) (Nat.le_refl _), q3⟩
  · exact ⟨rg.order g.wf hplive (by omega) (Nat.le_trans g.wf.h_le rg.items), rg.elm, rg.root, lf6⟩
  · rw [relvl_live (by rw [hlnk1]; exact hplive)]; omega

/-- the rest of the insertion pass after node `x` has got its new children -/
def insRun (B : Trait E C D) (d : D) (s : Tree E C) (x : Nat) (path : List PIdx) (arr : Nat) :
    M (Option (C × Child C) × Tree E C) :=
  if MAXC ≤ (chs s x).length then do
    let ((_, _, tc, rc), s) ← splitNode B s x
    searchInsF B d s path (some (tc, rc)) arr
  else searchInsF B d s path none arr

/-- the end of the insertion pass at the root -/
def insEnd (B : Trait E C D) (d : D) (r : Option (C × Child C) × Tree E C) : M (Tree E C) :=
  match r with
  | (some (cache, child), s) => splitRoot B s cache child
  | (none, s) => do
    let rc ← B.apply s.rootCache d
    pure { s with rootCache := rc }

/-- The insertion pass. -/
theorem searchIns_spec {m : Fill} (hm : 1 ≤ m.lo ∧ m.lo + m.d ≤ 6) {c : C} {d : D} {new : List C} (ex : Exact A c d new) (hnew : new ≠ []) :
    ∀ (path : List PIdx) (s : Tree E C) (lvl : Nat → Nat) (x arr : Nat) (old : C),
    GoodX A s lvl h (fun a => a = .internal x) (x = s.root) → lnk s x ≠ none → Up s x arr old path → Off A c new s x old →
    SzX m s h (fun y => y = x) → chs s x ≠ [] → (chs s x).length ≤ 12 → (x ≠ s.root → m.le s x (chs s x).length) →
    (x = s.root → 2 ≤ h → 2 ≤ (chs s x).length) →
    ∃ r s' lvl' h', insRun B d s x path arr = .ok r ∧ insEnd B d r = .ok s' ∧ Good A s' lvl' h' ∧ Sz m s' h' ∧ Same s s' := by
  intro path
  induction path with
  | nil =>
    intro s lvl x arr old g hx u off sz hne h12 hlo hlr
    cases u
    have gT := g.weaken (X' := fun a => a = .internal s.root) (Q' := True) (fun _ h => h) (fun _ => trivial)
    by_cases hf : MAXC ≤ (chs s s.root).length
    · have hl : (chs s s.root).length = 12 := by simp only [MAXC] at hf; omega
      obtain ⟨slot, hlk⟩ := g.wf.root'
      have g0 : GoodX A s lvl h noX True := by
        refine ⟨g.wf, ?_, g.cok, fun h => absurd trivial h, g.okE⟩
        intro p c hc _
        refine g.cinv p c hc ?_
        intro e
        obtain ⟨i, hi⟩ := List.mem_iff_getElem?.mp hc
        exact g.wf.root_not_kid (edge_chs.mpr ⟨c, hi, e⟩)
      obtain ⟨s4, s', lvl', e1, e2, e3, e4, e5, -, -⟩ := splitRoot_good (B := B) hm.1 g0 hlk hx sz (by omega) (by omega) (by omega)
      refine ⟨(some (_, _), s4), s', lvl', h + 1, ?_, e2, e3, e4, e5⟩
      simp only [insRun, if_pos hf, e1, bind_ok, searchInsF]
    · obtain ⟨e1, e2⟩ := root_fix ex gT (Or.inl hne) off
      refine ⟨(none, s), _, lvl, h, by simp only [insRun, if_neg hf, searchInsF], by simp only [insEnd, e1, bind_ok, pure_ok], e2, ?_,
        (SameShape.rootCache s _).same rfl⟩
      intro y hy _
      by_cases hyr : y = s.root
      · subst hyr
        exact ⟨by simp only [MAXC] at hf; exact (by omega : (chs s s.root).length ≤ 11), fun h => absurd rfl h, fun _ h2 => hlr rfl h2⟩
      · obtain ⟨q1, q2, q3⟩ := sz y hy hyr
        exact ⟨q1, fun hr => (q2 hr).keep (fun hh => hh.shape (SameShape.rootCache s _)) (Nat.le_refl _), q3⟩
  | cons pi rest ih =>
    intro s lvl x arr old g hx u off sz hne h12 hlo hlr
    cases u with
    | @step _ _ p arr' ch cp _ hch har u =>
    have he : Edge s p arr (.internal x) := edge_chs.mpr ⟨ch, hch, har⟩
    have hpl := edge_live he
    have hxp : x ≠ p := kid_ne_self g.wf he
    have hxr : x ≠ s.root := by rintro rfl; exact g.wf.root_not_kid he
    obtain ⟨N, hN⟩ := lnk_isSome.mp hpl
    have hpz := sz p hpl (Ne.symm hxp)
    by_cases hf : MAXC ≤ (chs s x).length
    · have hl : (chs s x).length = 12 := by simp only [MAXC] at hf; omega
      obtain ⟨s4, s6, q, i, c1, rc, e1, e2, e3, e4, e5, lvl6, g6, hp6, u6, off6, sz6, hlen6, same6, hl2, hls6⟩ :=
        split_fix hm ex hnew g hl sz hch har u off
      have hne6 : chs s6 p ≠ [] := by intro e; rw [e] at hlen6; simp at hlen6
      obtain ⟨r, s', lvl', h', r1, r2, r3, r4, r5⟩ := ih s6 lvl6 p arr' cp g6 hp6 u6 off6 sz6 hne6 (by have := hpz.1; omega)
        (by intro hpr; rw [same6.root] at hpr; exact (hpz.2.1 hpr).keep (hls6 p hp6) (by omega))
        (by intro hpr h2; rw [same6.root] at hpr; have := hpz.2.2 hpr h2; omega)
      refine ⟨r, s', lvl', h', ?_, r2, r3, r4, same6.trans r5⟩
      have hN4 := get_of_lnk e2
      have hcl : (Node.mk q i (chs s6 p)).isChildLeaf = false := by
        cases hc6 : chs s6 p with
        | nil => exact absurd hc6 hne6
        | cons c0 cs =>
          obtain ⟨y, hy⟩ := kids_internal g6.wf hl2 c0.arena (by rw [kids_chs, hc6]; simp)
          simp [Node.isChildLeaf, hy, Idx.isLeaf]
      have hcl' : (Node.mk q i (chs s6 p)).isFull = decide (MAXC ≤ (chs s6 p).length) := rfl
      simp only [insRun, if_pos hf, e1, bind_ok, searchInsF, Idx.unwrapInternal, getIn_ok hN4, vget_ok e3, e4, hcl, Bool.false_eq_true, if_false,
        e5, hcl', decide_eq_true_eq]
      exact r1
    · obtain ⟨f1, f2, f3, f4, f5⟩ := fix_entry ex (Or.inl hnew) g (Or.inl hne) hN hch har u off
      have hNp : setEntry s p N arr ch (A.total (cch s x)) = s.setIn p { N with children := N.children.set arr { ch with cache := A.total (cch s x) } } := rfl
      have hlf1 : (setEntry s p N arr ch (A.total (cch s x))).lf = s.lf := rfl
      generalize hs1 : setEntry s p N arr ch (A.total (cch s x)) = s1 at *
      have hlen1 := f5.len p
      have sz1 : SzX m s1 h (fun y => y = p) := by
        intro y hy hyp
        rw [f5.len, f5.root]
        by_cases hyx : y = x
        · subst hyx
          exact ⟨by simp only [MAXC] at hf; omega, fun _ => (hlo hxr).keep (fun hh => hh.shape f5) (Nat.le_refl _), fun e => absurd e hxr⟩
        · obtain ⟨q1, q2, q3⟩ := sz y ((f5.live y).mp hy) hyx
          exact ⟨q1, fun hr => (q2 hr).keep (fun hh => hh.shape f5) (Nat.le_refl _), q3⟩
      have hlt := (List.getElem?_eq_some_iff.mp hch).1
      obtain ⟨r, s', lvl', h', r1, r2, r3, r4, r5⟩ := ih s1 lvl p arr' cp (by rw [f5.root]; exact f2) ((f5.live p).mpr hpl) f4 f3 sz1
        (by intro e; rw [e] at hlen1; simp at hlen1; omega) (by have := hpz.1; omega)
        (by intro hpr; rw [f5.root] at hpr; exact (hpz.2.1 hpr).keep (fun hh => hh.shape f5) (by omega))
        (by intro hpr h2; rw [f5.root] at hpr; have := hpz.2.2 hpr h2; omega)
      refine ⟨r, s', lvl', h', ?_, r2, r3, r4, (f5.same hlf1).trans r5⟩
      have hch' := hch
      rw [chs_of hN] at hch'
      rw [insRun, if_neg (by rw [hlen1]; have := hpz.1; simp only [MAXC]; omega)] at r1
      simp only [insRun, if_neg hf, searchInsF, Idx.unwrapInternal, bind_ok, getIn_ok hN, vget_ok hch', f1]
      rw [← hNp]
      exact r1

end
end GB
