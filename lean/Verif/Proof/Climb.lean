import Verif.Proof.Law

/-!
# Cache maintenance: `recursive_update_cache`
-/

namespace GB
variable {E C D : Type} {B : Trait E C D} {A : Law B} {lvl : Nat → Nat} {h : Nat}
open Tree

/-- the entry (or root cache) of node `x` is off by exactly the diff `d` -/
structure Stale (A : Law B) (s : Tree E C) (x : Nat) (d : D) : Prop where
  root : x = s.root → A.IsDiff s.rootCache d (A.total (cch s x))
  inner : x ≠ s.root → RootOK A s ∧
    ∀ (p i : Nat) (c : Child C), (chs s p)[i]? = some c → c.arena = .internal x → A.IsDiff c.cache d (A.total (cch s x))

theorem RootOK.congr {s s' : Tree E C} (h1 : chs s' s'.root = chs s s.root) (h2 : s'.rootCache = s.rootCache)
    (r : RootOK A s) : RootOK A s' := by
  unfold RootOK cch at *
  rw [h1, h2]
  exact r

theorem set_split {α : Type} {l : List α} {i : Nat} {a : α} (hi : l[i]? = some a) (b : α) :
    l = l.take i ++ a :: l.drop (i + 1) ∧ l.set i b = l.take i ++ b :: l.drop (i + 1) := by
  have hlt := (List.getElem?_eq_some_iff.mp hi).1
  have ha : l[i] = a := (List.getElem?_eq_some_iff.mp hi).2
  constructor
  · rw [← ha, List.getElem_cons_drop hlt, List.take_append_drop]
  · exact List.set_eq_take_append_cons_drop .. |>.trans (by simp [hlt])

theorem recUpdDiff_spec (hd : B.useDiff = true) : ∀ (n : Nat) (s : Tree E C) (x : Nat) (d : D),
    WF s lvl h → COk A s → lnk s x ≠ none → (chs s x ≠ [] ∨ LawE A) →
    CInv A s (fun a => a = .internal x) → Stale A s x d → h - lvl x < n →
    ∃ s', recUpdDiff B n s x d = .ok s' ∧ SameShape s s' ∧ s'.lf = s.lf ∧ COk A s' ∧ RootOK A s' ∧
      CInv A s' noX := by
  intro n
  induction n with
  | zero => intro s x d _ _ _ _ _ _ hn; omega
  | succ n ih =>
    intro s x d w cok hx hne cinv st hn
    obtain ⟨N, hN⟩ := lnk_isSome.mp hx
    simp only [recUpdDiff, getIn_ok hN, bind_ok]
    cases hp : N.parent with
    | none =>
      have hr := w.root_of_parent_none hN hp
      subst hr
      simp only
      rw [A.diff_apply hd _ _ _ (st.root rfl), bind_ok]
      refine ⟨_, rfl, SameShape.rootCache s _, rfl, cok, ?_, ?_⟩
      · have hN' : ({ s with rootCache := A.total (cch s s.root) } : Tree E C).inn.get s.root = some N := hN
        constructor
        · intro _; rfl
        · intro he
          rcases hne with hne | le
          · exact absurd he hne
          · show A.emptyOk (A.total (cch s s.root))
            have : chs s s.root = [] := he
            rw [cch, this]
            exact le.empty_nil
      · intro p c2 hc2 _
        refine cinv p c2 hc2 ?_
        intro hx
        obtain ⟨j, hj⟩ := List.mem_iff_getElem?.mp hc2
        exact w.root_not_kid (edge_chs.mpr ⟨c2, hj, hx⟩)
    | some p =>
      obtain ⟨hr, he, hl⟩ := w.parent_some hN hp
      obtain ⟨ch, hch, har⟩ := edge_chs.mp he
      obtain ⟨P, hP⟩ := lnk_isSome.mp (edge_live he)
      obtain ⟨rok, hst⟩ := st.inner hr
      have hst := hst p N.slot ch hch har
      rw [chs_of hP] at hch
      simp only [getIn_ok hP, bind_ok, vget_ok hch, A.diff_apply hd _ _ _ hst]
      have hne' : N.children ≠ [] ∨ LawE A := by
        rw [← chs_of hN]; exact hne
      have hcok : ∀ c ∈ N.children, A.okC c.cache := fun c hc => cok x c (by rw [chs_of hN]; exact hc)
      have htx : A.okC (A.total (cch s x)) := by
        rw [cch, chs_of hN]; exact total_ok' hne' hcok
      have hpx : x ≠ p := kid_ne_self w he
      have sh := setEntry_shape (c' := A.total (cch s x)) hP hch
      have w' := sh.wf w
      have hp' : lnk (setEntry s p P N.slot ch (A.total (cch s x))) p ≠ none := by
        obtain ⟨P', hP', -⟩ := sh.get hP
        exact lnk_isSome.mpr ⟨P', hP'⟩
      have hplvl := (w.lvl_pos' (edge_live he)).2
      have huniq : ∀ q j, Edge s q j ch.arena → q = p ∧ j = N.slot := by
        intro q j hq
        rw [har] at hq
        exact w.kid_in_inj hq he
      have hE : EntryOK A s { ch with cache := A.total (cch s x) } := by
        simp only [EntryOK, har]
      have cinv' := setEntry_cinv hP hch huniq cinv hE
      have hctx : A.IsDiff (A.total (cch s p)) d (A.total ((cch s p).set N.slot (A.total (cch s x)))) := by
        have hg : (cch s p)[N.slot]? = some ch.cache := by
          rw [cch, chs_of hP, List.getElem?_map, hch]; rfl
        obtain ⟨e1, e2⟩ := set_split hg (A.total (cch s x))
        rw [e2]
        conv => arg 2; rw [e1]
        exact A.diff_ctx hd _ _ _ _ _ hst
      obtain ⟨s', e1, sh', lf', cok', rok', ci'⟩ := ih _ p d w'
        (setEntry_cok hP cok htx) hp' (Or.inl (by
          rw [chs_setEntry hP, if_pos rfl]
          intro hnil
          have : P.children = [] := by simpa using hnil
          rw [this] at hch
          simp at hch))
        (cinv'.mono (by
          intro a ha
          rw [har] at ha
          rcases ha with ⟨h1, h2⟩ | h1
          · exact absurd h1 h2
          · exact h1))
        (by
          constructor
          · intro hpr
            have hpr : p = s.root := hpr
            rw [cch_setEntry_self hP]
            show A.IsDiff s.rootCache d _
            rw [rok.1 (by
              rw [← hpr, chs_of hP]; intro hnil; rw [hnil] at hch; simp at hch), ← hpr]
            exact hctx
          · intro hpr
            have hpr : p ≠ s.root := hpr
            refine ⟨?_, ?_⟩
            · have : chs (setEntry s p P N.slot ch (A.total (cch s x))) s.root = chs s s.root := by
                rw [chs_setEntry hP, if_neg (Ne.symm hpr)]
              exact RootOK.congr this rfl rok
            · intro q j c2 hj ha
              rw [cch_setEntry_self hP]
              have hq : q ≠ p := by
                intro e
                rw [e] at hj
                have : Edge (setEntry s p P N.slot ch (A.total (cch s x))) p j (.internal p) :=
                  edge_chs.mpr ⟨c2, hj, ha⟩
                exact kid_ne_self w' this rfl
              rw [chs_setEntry hP, if_neg hq] at hj
              have hok := cinv q c2 (List.mem_iff_getElem?.mpr ⟨j, hj⟩) (by
                rw [ha]; intro e; cases e; exact hpx rfl)
              rw [EntryOK, ha] at hok
              rw [hok]
              exact hctx)
        (by omega)
      exact ⟨s', e1, sh.trans sh', lf', cok', rok', ci'⟩

theorem fuel_ok {s : Tree E C} (w : WF s lvl h) (x : Nat) : h - lvl x < s.fuel := by
  have := w.h_le
  simp only [fuel]
  omega

/-- `recursive_update_cache(internal x, can_use_diff, diff)`: three ways to repair the caches on the path of
`x` when only the cache of `x` is out of date. -/
theorem recursiveUpdateCache_internal {s : Tree E C} {x : Nat} (w : WF s lvl h) (cok : COk A s)
    (hx : lnk s x ≠ none) (hne : chs s x ≠ [] ∨ x = s.root ∨ LawE A)
    (cinv : CInv A s (fun a => a = .internal x)) (cud : Bool) (diff : Option D)
    (hcud : cud = true → B.useDiff = true)
    (hdiff : ∀ d, cud = true → diff = some d → Stale A s x d ∧ (chs s x ≠ [] ∨ LawE A))
    (hrok : cud = true → diff = none → x ≠ s.root → RootOK A s) :
    ∃ s', recursiveUpdateCache B s (.internal x) cud diff = .ok s' ∧ SameShape s s' ∧ s'.lf = s.lf ∧
      COk A s' ∧ RootOK A s' ∧ CInv A s' noX := by
  unfold recursiveUpdateCache
  simp only [pure_ok, bind_ok]
  cases cud with
  | false =>
    obtain ⟨s', h1, h2, h3, h4, h5, h6⟩ := recUpdCalc_spec s.fuel s x noX w cok hx hne
      (cinv.mono fun a ha => Or.inr ha) (fuel_ok w x)
    refine ⟨s', ?_, h2, h3, h4, h5, h6.mono fun a ha => ha.1⟩
    cases diff <;> exact h1
  | true =>
    have hd := hcud rfl
    cases diff with
    | some d =>
      simp only
      obtain ⟨st, hne'⟩ := hdiff d rfl rfl
      exact recUpdDiff_spec hd _ s x d w cok hx hne' cinv st (fuel_ok w x)
    | none =>
      simp only
      obtain ⟨N, hN⟩ := lnk_isSome.mp hx
      have hcok : ∀ c ∈ N.children, A.okC c.cache := fun c hc => cok x c (by rw [chs_of hN]; exact hc)
      simp only [getIn_ok hN, bind_ok]
      cases hp : N.parent with
      | none =>
        have hr := w.root_of_parent_none hN hp
        subst hr
        simp only [getIn_ok hN, bind_ok]
        obtain ⟨c, d, h1, h2, h3⟩ := rootCalc_ok (A := A) hcok s.rootCache
        rw [h1, bind_ok]
        refine ⟨_, rfl, SameShape.rootCache s c, rfl, cok, ?_, ?_⟩
        · have hN' : ({ s with rootCache := c } : Tree E C).inn.get s.root = some N := hN
          constructor
          · intro hne; rw [cch, chs_of hN']; exact h2 (by rwa [← chs_of hN'])
          · intro he; exact h3 (by rwa [← chs_of hN'])
        · intro p c2 hc2 _
          refine cinv p c2 hc2 ?_
          intro hx
          obtain ⟨j, hj⟩ := List.mem_iff_getElem?.mp hc2
          exact w.root_not_kid (edge_chs.mpr ⟨c2, hj, hx⟩)
      | some p =>
        obtain ⟨hr, he, hl⟩ := w.parent_some hN hp
        obtain ⟨ch, hch, har⟩ := edge_chs.mp he
        obtain ⟨P, hP⟩ := lnk_isSome.mp (edge_live he)
        rw [chs_of hP] at hch
        have hxp : x ≠ p := fun e => by subst e; omega
        simp only [assertM_true (decide_eq_true hxp), getIn_ok hP, bind_ok, vget_ok hch]
        have hne' : N.children ≠ [] ∨ LawE A := by
          rw [← chs_of hN]
          rcases hne with h1 | h1 | h1
          · exact Or.inl h1
          · exact absurd h1 hr
          · exact Or.inr h1
        obtain ⟨d, h1, hid⟩ := calcCache_ok hne' hcok ch.cache
        rw [h1, bind_ok]
        have hid := hid hd
        -- instead of repeating the step: this is one step of the diff climb from `x` with diff `d`
        have hcx : cch s x = N.children.map Child.cache := by rw [cch, chs_of hN]
        have st : Stale A s x d := by
          refine ⟨fun e => absurd e hr, fun _ => ⟨hrok rfl rfl hr, ?_⟩⟩
          intro q j c2 hj ha
          have heq : Edge s q j (.internal x) := edge_chs.mpr ⟨c2, hj, ha⟩
          obtain ⟨rfl, rfl⟩ := w.kid_in_inj heq he
          rw [chs_of hP, hch] at hj
          cases hj
          rw [hcx]
          exact hid
        obtain ⟨s', e1, rest⟩ := recUpdDiff_spec hd (s.fuel + 1) s x d w cok hx
          (by rw [chs_of hN]; exact hne') cinv st (by have := fuel_ok w x; omega)
        refine ⟨s', ?_, rest⟩
        rw [← e1]
        simp only [recUpdDiff, getIn_ok hN, bind_ok, hp, getIn_ok hP, vget_ok hch]
        rw [A.diff_apply hd _ _ _ hid, bind_ok]
        simp only [Tree.fuel, items_setIn]

/-- the entry (or root cache) of node `x` is off by `d` from the total of `cs` -/
structure StaleTo (A : Law B) (s : Tree E C) (x : Nat) (cs : List C) (d : D) : Prop where
  root : x = s.root → A.IsDiff s.rootCache d (A.total cs)
  inner : x ≠ s.root → RootOK A s ∧
    ∀ (p i : Nat) (c : Child C), (chs s p)[i]? = some c → c.arena = .internal x → A.IsDiff c.cache d (A.total cs)

theorem getLeafSlot_ok {cs : List (Child C)} {l : Nat} : ∀ {i : Nat},
    (∀ c ∈ cs, ∃ k, c.arena = .leaf k) →
    (∃ c, cs[i]? = some c ∧ c.arena = .leaf l) → (∀ (j : Nat) (c : Child C), cs[j]? = some c → c.arena = .leaf l → j = i) →
    getLeafSlot cs l = .ok i := by
  induction cs with
  | nil => intro i _ ⟨c, hc, _⟩; simp at hc
  | cons a cs ih =>
    intro i hl ⟨c, hc, ha⟩ hu
    obtain ⟨k, hk⟩ := hl a (by simp)
    simp only [getLeafSlot, hk, Idx.unwrapLeaf, bind_ok]
    by_cases hkl : k = l
    · rw [if_pos hkl]
      have : 0 = i := hu 0 a (by simp) (by rw [hk, hkl])
      rw [← this]; rfl
    · rw [if_neg hkl]
      cases i with
      | zero =>
        simp only [List.getElem?_cons_zero, Option.some.injEq] at hc
        rw [hc, ha] at hk
        cases hk
        exact absurd rfl hkl
      | succ i =>
        have := ih (i := i) (fun c hc => hl c (by simp [hc])) ⟨c, by simpa using hc, ha⟩ (by
          intro j c2 hj h2
          have := hu (j + 1) c2 (by simpa using hj) h2
          omega)
        rw [this]
        rfl

theorem leaf_kids {s : Tree E C} (w : WF s lvl h) {p : Nat} (hp : lvl p = 1) :
    ∀ c ∈ chs s p, ∃ k, c.arena = .leaf k := by
  intro c hc
  obtain ⟨j, hj⟩ := List.mem_iff_getElem?.mp hc
  exact (w.kid_leaf_iff (edge_chs.mpr ⟨c, hj, rfl⟩)).mp hp

theorem getLeafSlot_wf {s : Tree E C} (w : WF s lvl h) {p i l : Nat} (he : Edge s p i (.leaf l)) :
    getLeafSlot (chs s p) l = .ok i := by
  apply getLeafSlot_ok
  · exact leaf_kids w (w.klf he).1
  · obtain ⟨c, hc, ha⟩ := edge_chs.mp he
    exact ⟨c, hc, ha⟩
  · intro j c hj ha
    exact (w.kid_lf_inj (edge_chs.mpr ⟨c, hj, ha⟩) he).2

/-- `recursive_update_cache(leaf l, …)` when the entries of `l` and of its parent are out of date. -/
theorem recursiveUpdateCache_leaf {s : Tree E C} {l p i : Nat} {e : E} (w : WF s lvl h) (cok : COk A s)
    (he : Edge s p i (.leaf l)) (hel : elm s l = some e) (hec : A.okC (B.elemCache e))
    (cinv : CInv A s (fun a => a = .leaf l ∨ a = .internal p)) (cud : Bool) (diff : Option D)
    (hcud : cud = true → B.useDiff = true)
    (hdiff : ∀ d, cud = true → diff = some d → StaleTo A s p ((cch s p).set i (B.elemCache e)) d)
    (hrok : cud = true → diff = none → p ≠ s.root → RootOK A s) :
    ∃ s', recursiveUpdateCache B s (.leaf l) cud diff = .ok s' ∧ SameShape s s' ∧ s'.lf = s.lf ∧
      COk A s' ∧ RootOK A s' ∧ CInv A s' noX := by
  obtain ⟨hl1, hlp⟩ := w.klf he
  obtain ⟨e', hL, hel'⟩ := getLf_of hlp
  rw [hel] at hel'
  cases hel'
  obtain ⟨ch, hch, har⟩ := edge_chs.mp he
  obtain ⟨P, hP⟩ := lnk_isSome.mp (edge_live he)
  have hslot := getLeafSlot_wf w he
  rw [chs_of hP] at hch hslot
  have hpl := (w.lvl_pos' (edge_live he)).1
  have sh := setEntry_shape (c' := B.elemCache e) hP hch
  have huniq : ∀ q j, Edge s q j ch.arena → q = p ∧ j = i := by
    intro q j hq
    rw [har] at hq
    exact w.kid_lf_inj hq he
  have hE : EntryOK A s { ch with cache := B.elemCache e } := by
    simp only [EntryOK, har]
    intro e2 h2
    rw [hel] at h2
    cases h2
    rfl
  have cinv' := setEntry_cinv hP hch huniq cinv hE
  have hne1 : chs (setEntry s p P i ch (B.elemCache e)) p ≠ [] := by
    rw [chs_setEntry hP, if_pos rfl]
    intro hnil
    have : P.children = [] := by simpa using hnil
    rw [this] at hch
    simp at hch
  have hedge : ∀ q j a, Edge (setEntry s p P i ch (B.elemCache e)) q j a ↔ Edge s q j a :=
    fun q j a => sh.edge
  have hnop : ∀ (q j : Nat) (c2 : Child C), (chs (setEntry s p P i ch (B.elemCache e)) q)[j]? = some c2 →
      c2.arena = .internal p → (chs s q)[j]? = some c2 := by
    intro q j c2 hj ha
    rw [chs_setEntry hP] at hj
    split at hj
    · next hq =>
      exfalso
      have : Edge s q j (.internal p) := (hedge q j _).mp (edge_chs.mpr ⟨c2, by
        rw [chs_setEntry hP, if_pos hq]; exact hj, ha⟩)
      rw [hq] at this
      exact kid_ne_self w this rfl
    · exact hj
  have hrokc : p ≠ s.root → RootOK A s → RootOK A (setEntry s p P i ch (B.elemCache e)) := by
    intro hpr rok
    refine RootOK.congr (s := s) ?_ rfl rok
    show chs (setEntry s p P i ch (B.elemCache e)) s.root = chs s s.root
    rw [chs_setEntry hP, if_neg (Ne.symm hpr)]
  have main := recursiveUpdateCache_internal (A := A) (sh.wf w) (setEntry_cok hP cok hec)
    (x := p) (by
      obtain ⟨P', hP', -⟩ := sh.get hP
      exact lnk_isSome.mpr ⟨P', hP'⟩) (Or.inl hne1)
    (cinv'.mono (by
      intro a ha
      rw [har] at ha
      rcases ha with ⟨h1 | h1, h2⟩ | h1
      · exact absurd h1 h2
      · exact h1
      · exact h1)) cud diff hcud
    (by
      intro d h1 h2
      refine ⟨⟨?_, ?_⟩, Or.inl hne1⟩
      · intro hpr
        rw [cch_setEntry_self hP]
        exact (hdiff d h1 h2).root hpr
      · intro hpr
        obtain ⟨r1, r2⟩ := (hdiff d h1 h2).inner hpr
        refine ⟨hrokc hpr r1, ?_⟩
        intro q j c2 hj ha
        rw [cch_setEntry_self hP]
        exact r2 q j c2 (hnop q j c2 hj ha) ha)
    (by
      intro h1 h2 hpr
      exact hrokc hpr (hrok h1 h2 hpr))
  obtain ⟨s', e1, sh', lf', r⟩ := main
  refine ⟨s', ?_, sh.trans sh', lf', r⟩
  rw [← e1]
  simp only [recursiveUpdateCache, getLf_ok hL, getIn_ok hP, bind_ok, hslot, vget_ok hch, pure_ok]
  rfl

/-- Replacing the element of one leaf and repairing the caches. -/
theorem updLeaf_spec {s0 : Tree E C} {l : Nat} {L : LeafNode E} {e' : E} (w : WF s0 lvl h) (cok : COk A s0)
    (rok : RootOK A s0) (cinv : CInv A s0 noX) (hL : s0.lf.get l = some L)
    (hec : A.okC (B.elemCache e')) (cud : Bool) (diff : Option D)
    (hcud : cud = true → B.useDiff = true)
    (hdiff : ∀ d, cud = true → diff = some d → A.IsDiff (B.elemCache L.elem) d (B.elemCache e')) :
    ∃ s', recursiveUpdateCache B (s0.setLf l { L with elem := e' }) (.leaf l) cud diff = .ok s' ∧
      SameShape s0 s' ∧ s'.lf = s0.lf.set l { L with elem := e' } ∧
      COk A s' ∧ RootOK A s' ∧ CInv A s' noX := by
  have sh : SameShape s0 (s0.setLf l { L with elem := e' }) := SameShape.setLf hL rfl
  obtain ⟨i, he, hl1⟩ := w.parent_lf hL
  have hlive : lpar s0 l ≠ none := by rw [lpar_of hL]; simp
  obtain ⟨ch, hch, har⟩ := edge_chs.mp he
  have hold : ch.cache = B.elemCache L.elem := by
    have := cinv L.parent ch (List.mem_iff_getElem?.mpr ⟨i, hch⟩) (fun f => f)
    rw [EntryOK, har] at this
    exact this _ (elm_of hL)
  have hcchi : (cch s0 L.parent)[i]? = some (B.elemCache L.elem) := by
    rw [cch, List.getElem?_map, hch, Option.map_some, hold]
  obtain ⟨s', h1, h2, h3, h4, h5, h6⟩ := recursiveUpdateCache_leaf (A := A) (s := s0.setLf l { L with elem := e' })
    (l := l) (p := L.parent) (i := i) (e := e') (sh.wf w) cok (sh.edge.mpr he)
    (by rw [elm_setLf s0 hlive]; simp) hec
    (by
      intro p c hc hX
      have := cinv p c hc (fun f => f)
      unfold EntryOK at *
      cases ha : c.arena with
      | internal y => rw [ha] at this; exact this
      | leaf k =>
        rw [ha] at this
        have hk : k ≠ l := fun e => hX (Or.inl (by rw [ha, e]))
        simp only
        rw [elm_setLf s0 hlive, if_neg hk]
        exact this) cud diff hcud
    (by
      intro d hd1 hd2
      have hd := hdiff d hd1 hd2
      have hctx : A.IsDiff (A.total (cch s0 L.parent)) d (A.total ((cch s0 L.parent).set i (B.elemCache e'))) := by
        obtain ⟨e1, e2⟩ := set_split hcchi (B.elemCache e')
        rw [e2]
        conv => arg 2; rw [e1]
        exact A.diff_ctx (hcud hd1) _ _ _ _ _ hd
      constructor
      · intro hpr
        show A.IsDiff s0.rootCache d _
        rw [rok.1 (by
          show chs s0 s0.root ≠ []
          have hpr : L.parent = s0.root := hpr
          rw [← hpr]; intro hn; rw [hn] at hch; simp at hch)]
        have hpr : L.parent = s0.root := hpr
        rw [← hpr]
        exact hctx
      · intro hpr
        refine ⟨RootOK.congr rfl rfl rok, ?_⟩
        intro q j c hj ha
        have := cinv q c (List.mem_iff_getElem?.mpr ⟨j, hj⟩) (fun f => f)
        rw [EntryOK, ha] at this
        rw [this]
        exact hctx)
    (fun _ _ _ => RootOK.congr rfl rfl rok)
  exact ⟨s', h1, sh.trans h2, h3, h4, h5, h6⟩

end GB
