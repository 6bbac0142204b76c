import Verif.Proof.Lack4

/-!
# `try_reduce_levels`
-/

namespace GB
variable {E C D : Type}
open Tree

section
variable {B : Trait E C D} {A : Law B} {s t : Tree E C} {lvl : Nat → Nat} {h : Nat}

/-- Removing the single internal child of the root (used as ghost state in proofs). -/
theorem unlift (w : WF t lvl h) {y : Nat} (hy : kids t t.root = [.internal y]) :
    ∃ t', Lift t' t y ∧ t'.rootCache = t.rootCache ∧ t'.inn.items.length = t.inn.items.length ∧
      t'.lf.items.length = t.lf.items.length ∧ lnk t' t.root = some (none, SLOT_MAX) ∧
      (∀ z, chs t' z = if z = t.root then chs t y else if z = y then [] else chs t z) ∧
      (∀ z i, .internal z ∈ kids t y → lnk t z = some (some y, i) → lnk t' z = some (some t.root, i)) ∧
      (∀ l, .leaf l ∈ kids t y → lpar t' l = some t.root) := by
  obtain ⟨i0, hroot⟩ := w.root'
  have hrl : lnk t t.root ≠ none := by rw [hroot]; simp
  have hey : Edge t t.root 0 (.internal y) := by rw [Edge, hy]; rfl
  have hyr : y ≠ t.root := kid_ne_self w hey
  have hrl' : lnk (freeIn t y) t.root ≠ none := by rw [lnk_free, if_neg (Ne.symm hyr)]; exact hrl
  generalize ht0 : (freeIn t y).setIn t.root ⟨none, SLOT_MAX, chs t y⟩ = t0
  have l0 : ∀ z, lnk t0 z = if z = t.root then some (none, SLOT_MAX) else if z = y then none else lnk t z := by
    intro z; rw [← ht0, lnk_setIn _ hrl', lnk_free]
  have c0 : ∀ z, chs t0 z = if z = t.root then chs t y else if z = y then [] else chs t z := by
    intro z; rw [← ht0, chs_setIn _ hrl', chs_free]
  have p0 : ∀ l, lpar t0 l = lpar t l := by intro l; rw [← ht0]; rfl
  have e0 : ∀ l, elm t0 l = elm t l := by intro l; rw [← ht0]; rfl
  have nroot : Idx.internal t.root ∉ kids t y := by
    intro hm; obtain ⟨j, hj⟩ := mem_kids.mp hm; exact w.root_not_kid hj
  have ny : Idx.internal y ∉ kids t y := by
    intro hm; obtain ⟨j, hj⟩ := mem_kids.mp hm; exact kid_ne_self w hj rfl
  obtain ⟨t', r1, r2, r3, r4, r5, r6⟩ := resetParents_spec (chs t y) t0 t.root (by
    intro c hc
    have := kids_live w hc
    cases ha : c.arena with
    | leaf l => rw [ha] at this; simp only [Live] at *; rw [p0]; exact this
    | internal z =>
      have hm : Idx.internal z ∈ kids t y := by rw [← ha, kids_chs]; exact List.mem_map_of_mem hc
      rw [ha] at this
      simp only [Live] at *
      rw [l0, if_neg (by rintro rfl; exact nroot hm), if_neg (by rintro rfl; exact ny hm)]
      exact this)
  rw [← kids_chs] at r3 r4 r5 r6
  have ct : ∀ z, chs t' z = if z = t.root then chs t y else if z = y then [] else chs t z := by
    intro z; rw [r2.chs, c0]
  have rt : t'.root = t.root := by rw [r2.root, ← ht0]; rfl
  have lroot : lnk t' t.root = some (none, SLOT_MAX) := by rw [r3 _ nroot, l0, if_pos rfl]
  have kroot : kids t' t.root = kids t y := by rw [kids_chs, ct, if_pos rfl, ← kids_chs]
  have kk : ∀ z i, .internal z ∈ kids t y → lnk t z = some (some y, i) → lnk t' z = some (some t.root, i) := by
    intro z i hz hl
    exact r4 z (some y) i hz (by
      rw [l0, if_neg (by rintro rfl; exact nroot hz), if_neg (by rintro rfl; exact ny hz)]; exact hl)
  refine ⟨t', ⟨rt.symm, ?_, ?_, ?_, ?_, ?_, ?_, ?_, ?_, ?_, ?_, ?_, ?_, ?_, ?_⟩, ?_, ?_, ?_, lroot, ct, kk, r6⟩
  · rw [r3 _ ny, l0, if_neg hyr, if_pos rfl]
  · rw [rt]; exact hy
  · rw [rt, ct, if_pos rfl]
  · intro z h1 h2; rw [rt] at h1; rw [ct, if_neg h1, if_neg h2]
  · rw [rt]; exact (w.kin hey).2
  · rw [rt]; exact ⟨i0, hroot⟩
  · rw [rt]; exact ⟨_, lroot⟩
  · intro z h1 h2 h3
    rw [rt] at h1 h3
    rw [kroot] at h3
    rw [r3 z h3, l0, if_neg h1, if_neg h2]
  · intro z i h1 h2 h3
    rw [rt] at h1 h3 ⊢
    rw [kroot] at h3
    obtain ⟨j, hj⟩ := mem_kids.mp h3
    rw [kk z j h3 (w.kin hj).2, (w.kin hj).2]
    simp
  · intro z h1 h2
    rw [rt] at h1
    by_cases h3 : .internal z ∈ kids t y
    · obtain ⟨j, hj⟩ := mem_kids.mp h3
      rw [kk z j h3 (w.kin hj).2, (w.kin hj).2]
      simp
    · rw [r3 z h3, l0, if_neg h1, if_neg h2]
  · intro l hl
    rw [rt, kroot] at hl
    rw [r5 l hl, p0]
  · intro l hl
    rw [rt, kroot] at hl
    obtain ⟨j, hj⟩ := mem_kids.mp hl
    rw [r6 l hl, (w.klf hj).2, rt]
    simp
  · intro l
    by_cases h3 : .leaf l ∈ kids t y
    · obtain ⟨j, hj⟩ := mem_kids.mp h3
      rw [r6 l h3, (w.klf hj).2]
      simp
    · rw [r5 l h3, p0]
  · intro l; rw [r2.elm, e0]
  · rw [r2.rootCache, ← ht0]; rfl
  · rw [r2.items, ← ht0]; simp
  · rw [r2.lfitems, ← ht0]; rfl

/-- `s` is `t` except for the links of the root and of its children -/
structure PreRoot (s t : Tree E C) : Prop where
  root : s.root = t.root
  rootCache : s.rootCache = t.rootCache
  items : s.inn.items.length = t.inn.items.length
  lfitems : s.lf.items.length = t.lf.items.length
  chs : ∀ y, chs s y = chs t y
  elm : ∀ l, elm s l = elm t l
  lroot : lnk s t.root ≠ none
  lnk_out : ∀ y, y ≠ t.root → .internal y ∉ kids t t.root → lnk s y = lnk t y
  lnk_kid : ∀ y i, .internal y ∈ kids t t.root → lnk t y = some (some t.root, i) → ∃ q, lnk s y = some (q, i)
  lpar_out : ∀ l, .leaf l ∉ kids t t.root → lpar s l = lpar t l
  lpar_kid : ∀ l, .leaf l ∈ kids t t.root → lpar s l ≠ none

theorem PreRoot.refl (w : WF t lvl h) : PreRoot t t := by
  obtain ⟨i0, hroot⟩ := w.root'
  refine ⟨rfl, rfl, rfl, rfl, fun _ => rfl, fun _ => rfl, by rw [hroot]; simp, fun _ _ _ => rfl, ?_, fun _ _ => rfl, ?_⟩
  · intro y i _ hl; exact ⟨_, hl⟩
  · intro l hl
    obtain ⟨j, hj⟩ := mem_kids.mp hl
    rw [(w.klf hj).2]; simp

/-- Same data and same links: `Good` carries over. -/
theorem Good.of_views (g : Good A t lvl h) (root : s.root = t.root) (rc : s.rootCache = t.rootCache)
    (items : s.inn.items.length = t.inn.items.length)
    (hchs : ∀ y, chs s y = chs t y) (helm : ∀ l, elm s l = elm t l) (hlnk : ∀ y, lnk s y = lnk t y)
    (hlpar : ∀ l, lpar s l = lpar t l) : Good A s lvl h := by
  have hk : ∀ y, kids s y = kids t y := by intro y; rw [kids_chs, kids_chs, hchs]
  have he : ∀ p i a, Edge s p i a ↔ Edge t p i a := by intro p i a; rw [Edge, Edge, hk]
  have hent : ∀ c, EntryOK A t c → EntryOK A s c := by
    intro c hc
    unfold EntryOK at *
    cases ha : c.arena with
    | leaf l => rw [ha] at hc; simp only at hc ⊢; rw [helm]; exact hc
    | internal y => rw [ha] at hc; simp only at hc ⊢; rw [hc, cch, cch, hchs]
  refine ⟨WF.of_views ?_ ?_ g.wf.h_pos ?_ ?_ ?_ ?_ ?_ ?_ ?_, ?_, ?_, ?_, ?_⟩
  · rw [root, hlnk]; exact g.wf.root'
  · rw [root]; exact g.wf.root_lvl
  · rw [items]; exact g.wf.h_le
  · intro p i y h1; rw [hlnk]; exact g.wf.kin ((he _ _ _).mp h1)
  · intro p i y h1; rw [hlpar]; exact g.wf.klf ((he _ _ _).mp h1)
  · intro p i j l h1 h2; exact g.wf.uniq p i j l ((he _ _ _).mp h1) ((he _ _ _).mp h2)
  · intro p hp; rw [hlnk] at hp; exact g.wf.lvl_pos' hp
  · intro y hy hr
    rw [hlnk] at hy
    rw [root] at hr
    obtain ⟨p, i, h1⟩ := g.wf.par_in' hy hr
    exact ⟨p, i, (he _ _ _).mpr h1⟩
  · intro y hy
    rw [hlpar] at hy
    obtain ⟨p, i, h1⟩ := g.wf.par_lf' hy
    exact ⟨p, i, (he _ _ _).mpr h1⟩
  · intro p c hc hx
    rw [hchs] at hc
    exact hent c (g.cinv p c hc hx)
  · intro p c hc
    rw [hchs] at hc
    exact g.cok p c hc
  · refine RootOK.congr (s := t) ?_ rc g.rok
    rw [root, hchs]
  · intro l e hl; rw [helm] at hl; exact g.okE l e hl

/-- the order depends only on the children -/
theorem order_of_kids (root : s.root = t.root) (items : s.inn.items.length = t.inn.items.length)
    (hk : ∀ y, kids s y = kids t y) : order s = order t := by
  have : ∀ n x, leavesAt s n x = leavesAt t n x := by
    intro n
    induction n with
    | zero => intro x; rfl
    | succ n ih =>
      intro x
      rw [leavesAt_succ, leavesAt_succ, hk]
      apply flatMap_congr'
      intro a _
      cases a with
      | leaf l => rfl
      | internal y => exact ih y
  unfold order
  rw [root, items, this]


/-- what the loop of `try_reduce_levels` leaves unchanged -/
structure Lower (t t' : Tree E C) (lvl lvl' : Nat → Nat) : Prop where
  same : Same t t'
  items : t'.inn.items.length = t.inn.items.length
  live : ∀ y, lnk t' y ≠ none → lnk t y ≠ none
  frame : ∀ y, lnk t' y ≠ none → y ≠ t.root → chs t' y = chs t y ∧ lvl' y = lvl y

theorem Lower.refl (t : Tree E C) (lvl : Nat → Nat) : Lower t t lvl lvl :=
  ⟨Same.refl t, rfl, fun _ h => h, fun _ _ _ => ⟨rfl, rfl⟩⟩

theorem Lower.trans {t t' t'' : Tree E C} {lvl lvl' lvl'' : Nat → Nat} (h : Lower t t' lvl lvl')
    (h' : Lower t' t'' lvl' lvl'') : Lower t t'' lvl lvl'' := by
  refine ⟨h.same.trans h'.same, h'.items.trans h.items, fun y hy => h.live y (h'.live y hy), ?_⟩
  intro y hy hr
  obtain ⟨h1, h2⟩ := h'.frame y hy (by rw [h.same.root]; exact hr)
  obtain ⟨h3, h4⟩ := h.frame y (h'.live y hy) hr
  exact ⟨h1.trans h3, h2.trans h4⟩

/-- One reduction, on the ghost state. -/
theorem unlift_good {m : Fill} (hm1 : 1 ≤ m.lo) (g : Good A t lvl h) (sz : SzX m t h (fun z => z = t.root)) {y : Nat}
    (hy : kids t t.root = [.internal y]) :
    ∃ t' lvl', Good A t' lvl' (h - 1) ∧ 2 ≤ h ∧ SzX m t' (h - 1) (fun z => z = t'.root) ∧ (chs t' t'.root).length ≤ 11 ∧ chs t' t'.root ≠ [] ∧
      Lower t t' lvl lvl' ∧ t'.rootCache = t.rootCache ∧ lnk t' t.root = some (none, SLOT_MAX) ∧
      (∀ z, chs t' z = if z = t.root then chs t y else if z = y then [] else chs t z) ∧
      (∀ z i, .internal z ∈ kids t y → lnk t z = some (some y, i) → lnk t' z = some (some t.root, i)) ∧
      (∀ l, .leaf l ∈ kids t y → lpar t' l = some t.root) ∧ Lift t' t y := by
  obtain ⟨t', lf, rc, it, lit, lr, ct, kk, pk⟩ := unlift g.wf hy
  have hey : Edge t t.root 0 (.internal y) := by rw [Edge, hy]; rfl
  have hyr : y ≠ t.root := kid_ne_self g.wf hey
  have hyl : lnk t y ≠ none := kids_live_in g.wf (mem_kids.mpr ⟨_, hey⟩)
  obtain ⟨w', h2⟩ := lf.wf_down g.wf (by rw [it]; have := g.wf.h_le; omega)
  have ho := lf.order w' (lvl' := lvl) (by rw [show h - 1 + 1 = h by omega]; exact g.wf)
  have rt : t'.root = t.root := lf.root.symm
  have hyn : chs t y ≠ [] := by
    intro e
    have := ((sz y hyl hyr).2.1 hyr).1
    rw [e] at this
    simp at this
    omega
  have croot : chs t' t'.root = chs t y := by rw [rt, ct, if_pos rfl]
  have live : ∀ z, lnk t' z ≠ none → lnk t z ≠ none := by
    intro z hz
    by_cases h1 : z = t.root
    · subst h1; obtain ⟨i, hi⟩ := g.wf.root'; rw [hi]; simp
    · by_cases h3 : z = y
      · subst h3; exact hyl
      · rw [Ne, lf.live_kid z (by rw [rt]; exact h1) h3]; exact hz
  have ynl : lnk t' y = none := lf.l_fresh
  refine ⟨t', Lift.down t' lvl h, ⟨w', lf.cinv_down w' g.cinv, lf.cok_down g.cok, ?_, ?_⟩, h2, ?_, ?_, by rw [croot]; exact hyn, ?_, rc, lr, ct, kk, pk, lf⟩
  · constructor
    · intro _
      rw [rc]
      obtain ⟨c, hc, hca⟩ := edge_chs.mp hey
      have hcm := List.mem_of_getElem? hc
      have hcl : chs t t.root = [c] := by
        have hlen : (chs t t.root).length = 1 := by
          have := congrArg List.length hy
          rw [kids_chs, List.length_map] at this
          simpa using this
        obtain ⟨c', hc'⟩ := List.length_eq_one_iff.mp hlen
        rw [hc'] at hc
        simp only [List.getElem?_cons_zero, Option.some.injEq] at hc
        rw [hc', hc]
      rw [g.rok.1 (by rw [hcl]; simp)]
      have he := g.cinv _ c hcm (fun h => h)
      simp only [EntryOK, hca] at he
      rw [cch, hcl, List.map_cons, List.map_nil, A.total_single _ (g.cok _ c hcm), he, cch, cch, croot]
    · intro e
      rw [croot] at e
      exact absurd e hyn
  · intro l e hl
    rw [← lf.elm] at hl
    exact g.okE l e hl
  · intro z hz hzr
    have h1 : z ≠ t.root := by rw [← rt]; exact hzr
    have h3 : z ≠ y := by rintro rfl; exact hz ynl
    obtain ⟨s1, s2, -⟩ := sz z (live z hz) h1
    have hc : chs t' z = chs t z := by rw [ct, if_neg h1, if_neg h3]
    rw [hc]
    exact ⟨s1, fun _ => (s2 h1).keep (fun k => k.unlift lf g.wf h3) (Nat.le_refl _), fun e => absurd e hzr⟩
  · rw [croot]; exact (sz y hyl hyr).1
  · refine ⟨⟨ho.symm, fun l => (lf.elm l).symm, rt, lit⟩, it, live, ?_⟩
    intro z hz hzr
    have h3 : z ≠ y := by rintro rfl; exact hz ynl
    exact ⟨by rw [ct, if_neg hzr, if_neg h3], by simp [Lift.down, rt, hzr]⟩

theorem reduceLoop_spec {m : Fill} (hm1 : 1 ≤ m.lo) : ∀ (n : Nat) (s t : Tree E C) (lvl : Nat → Nat) (h : Nat) (b : Bool),
    PreRoot s t → Good A t lvl h → SzX m t h (fun z => z = t.root) → (chs t t.root).length ≤ 11 → h ≤ n →
    ∃ b' s' t' lvl' h', reduceLoop n s b = .ok (b', s') ∧ PreRoot s' t' ∧ Good A t' lvl' h' ∧ Lower t t' lvl lvl' ∧
      SzX m t' h' (fun z => z = t'.root) ∧ (chs t' t'.root).length ≤ 11 ∧ h' ≤ h ∧
      (2 ≤ h' → (chs t' t'.root).length ≠ 1) ∧ (chs t t.root ≠ [] → chs t' t'.root ≠ []) ∧
      ((b' = b ∧ s' = s ∧ t' = t ∧ lvl' = lvl ∧ h' = h) ∨ (b' = true ∧ lnk t' t'.root = some (none, SLOT_MAX))) := by
  intro n
  induction n with
  | zero => intro s t lvl h b _ g _ _ hn; have := g.wf.h_pos; omega
  | succ n ih =>
    intro s t lvl h b pre g sz hl11 hn
    obtain ⟨N, hN⟩ := lnk_isSome.mp pre.lroot
    have hNc : N.children = chs t t.root := by rw [← chs_of hN, pre.chs]
    simp only [reduceLoop, pre.root, getIn_ok hN, bind_ok, hNc]
    match hc : chs t t.root with
    | [] =>
      refine ⟨b, s, t, lvl, h, rfl, pre, g, Lower.refl t lvl, sz, hl11, Nat.le_refl _, ?_, by rw [hc]; exact fun h => h, Or.inl ⟨rfl, rfl, rfl, rfl, rfl⟩⟩
      intro _; rw [hc]; simp
    | c :: d :: rest =>
      refine ⟨b, s, t, lvl, h, rfl, pre, g, Lower.refl t lvl, sz, hl11, Nat.le_refl _, ?_, by rw [hc]; exact fun h => h, Or.inl ⟨rfl, rfl, rfl, rfl, rfl⟩⟩
      intro _; rw [hc]; simp
    | [c] =>
      have hk : kids t t.root = [c.arena] := by rw [kids_chs, hc]; rfl
      cases ha : c.arena with
      | leaf l =>
        refine ⟨b, s, t, lvl, h, by simp only [ha]; rfl, pre, g, Lower.refl t lvl, sz, hl11, Nat.le_refl _, ?_, by rw [hc]; exact fun h => h, Or.inl ⟨rfl, rfl, rfl, rfl, rfl⟩⟩
        intro h2
        have he : Edge t t.root 0 (.leaf l) := by rw [Edge, hk, ha]; rfl
        have := (g.wf.klf he).1
        rw [g.wf.root_lvl] at this
        omega
      | internal y =>
        rw [ha] at hk
        have hey : Edge t t.root 0 (.internal y) := by rw [Edge, hk]; rfl
        have hyr : y ≠ t.root := kid_ne_self g.wf hey
        obtain ⟨t', lvl', g', h2, sz', l11, hne', low, rc, lr, ct, kk, pk, lft⟩ := unlift_good hm1 g sz hk
        have rt : t'.root = t.root := lft.root.symm
        obtain ⟨q, hq⟩ := pre.lnk_kid y 0 (mem_kids.mpr ⟨0, hey⟩) (g.wf.kin hey).2
        have hY := get_of_lnk hq
        have hrl' : lnk (freeIn s y) t.root ≠ none := by
          rw [lnk_free, if_neg (Ne.symm hyr)]; exact pre.lroot
        generalize hs' : (freeIn s y).setIn t.root ⟨q, 0, chs s y⟩ = s'
        have ls : ∀ z, lnk s' z = if z = t.root then some (q, 0) else if z = y then none else lnk s z := by
          intro z; rw [← hs', lnk_setIn _ hrl', lnk_free]
        have cs : ∀ z, chs s' z = if z = t.root then chs s y else if z = y then [] else chs s z := by
          intro z; rw [← hs', chs_setIn _ hrl', chs_free]
        have kroot : kids t' t.root = kids t y := by rw [kids_chs, ct, if_pos rfl, ← kids_chs]
        have nroot : Idx.internal t.root ∉ kids t y := by
          intro hm; obtain ⟨j, hj⟩ := mem_kids.mp hm; exact g.wf.root_not_kid hj
        have ny : Idx.internal y ∉ kids t y := by
          intro hm; obtain ⟨j, hj⟩ := mem_kids.mp hm; exact kid_ne_self g.wf hj rfl
        have kroot0 : ∀ a, a ∈ kids t t.root → a = .internal y := by intro a hm; rw [hk] at hm; simpa using hm
        have pre' : PreRoot s' t' := by
          refine ⟨?_, ?_, ?_, ?_, ?_, ?_, ?_, ?_, ?_, ?_, ?_⟩
          · rw [rt, ← pre.root, ← hs']; rfl
          · rw [rc, ← pre.rootCache, ← hs']; rfl
          · rw [low.items, ← pre.items, ← hs']; simp
          · rw [low.same.lfitems, ← pre.lfitems, ← hs']; rfl
          · intro z; rw [cs, ct, pre.chs, pre.chs]
          · intro l; rw [low.same.elm, ← pre.elm, ← hs']; rfl
          · rw [rt, ls, if_pos rfl]; simp
          · intro z h1 h3
            rw [rt] at h1 h3
            rw [kroot] at h3
            by_cases h4 : z = y
            · subst h4
              rw [ls, if_neg h1, if_pos rfl]
              exact lft.l_fresh.symm
            · rw [ls, if_neg h1, if_neg h4, pre.lnk_out z h1 (fun hm => h4 (by have := kroot0 _ hm; cases this; rfl))]
              exact lft.lnk_in z (by rw [rt]; exact h1) h4 (by rw [rt, kroot]; exact h3)
          · intro z i hz hl
            rw [rt, kroot] at hz
            have h1 : z ≠ t.root := by rintro rfl; exact nroot hz
            have h4 : z ≠ y := by rintro rfl; exact ny hz
            obtain ⟨j, hj⟩ := mem_kids.mp hz
            have hlz := (g.wf.kin hj).2
            have := kk z j hz hlz
            rw [this, rt] at hl
            simp only [Option.some.injEq, Prod.mk.injEq, true_and] at hl
            subst hl
            refine ⟨some y, ?_⟩
            rw [ls, if_neg h1, if_neg h4, pre.lnk_out z h1 (fun hm => h4 (by have := kroot0 _ hm; cases this; rfl)), hlz]
          · intro l hl
            rw [rt, kroot] at hl
            rw [← hs', lpar_setIn, lpar_free, pre.lpar_out l (fun hm => by have := kroot0 _ hm; cases this)]
            exact lft.lpar_out l (by rw [rt, kroot]; exact hl)
          · intro l hl
            rw [rt, kroot] at hl
            obtain ⟨j, hj⟩ := mem_kids.mp hl
            rw [← hs', lpar_setIn, lpar_free, pre.lpar_out l (fun hm => by have := kroot0 _ hm; cases this), (g.wf.klf hj).2]
            simp
        obtain ⟨b'', s'', t'', lvl'', h'', e1, e2, e3, e4, e5, e6, e7, e8, e10, e9⟩ :=
          ih s' t' lvl' (h - 1) true pre' g' sz' l11 (by omega)
        refine ⟨b'', s'', t'', lvl'', h'', ?_, e2, e3, low.trans e4, e5, e6, by omega, e8, fun _ => e10 hne', ?_⟩
        · simp only [ha, hY, unwrap_some, bind_ok]
          have hg : ({ s with inn := s.inn.remove y } : Tree E C).getIn s.root = .ok N := by
            apply getIn_ok
            show (s.inn.remove y).get s.root = some N
            rw [Arena.get_remove, if_neg (by rw [pre.root]; exact Ne.symm hyr), pre.root]
            exact hN
          rw [pre.root] at hg
          simp only [hg, bind_ok]
          simp only [freeIn, pre.root] at hs'
          rw [hs', e1]
        · right
          rcases e9 with ⟨h1, h2, h3, h4, h5⟩ | h1
          · subst h3
            exact ⟨h1, by rw [rt]; exact lr⟩
          · exact h1

/-- `try_reduce_levels`. -/
theorem tryReduce_spec {m : Fill} (hm1 : 1 ≤ m.lo) (g : Good A s lvl h) (sz : SzX m s h (fun z => z = s.root))
    (hl11 : (chs s s.root).length ≤ 11) :
    ∃ s' lvl' h', tryReduceLevels s = .ok s' ∧ Good A s' lvl' h' ∧ Sz m s' h' ∧ h' ≤ h ∧
      (chs s s.root ≠ [] → Lower s s' lvl lvl') ∧ Same s s' ∧ s'.inn.items.length = s.inn.items.length := by
  obtain ⟨b', s1, t1, lvl1, h1, e1, pre, g1, low, sz1, l11, hh, hne1, hne2, hor⟩ :=
    reduceLoop_spec hm1 s.fuel s s lvl h false (PreRoot.refl g.wf) g sz hl11 (by
      unfold fuel; have := g.wf.h_le; omega)
  have fin : ∀ s', Good A s' lvl1 h1 → SzX m s' h1 (fun z => z = s'.root) → (chs s' s'.root).length ≤ 11 →
      (2 ≤ h1 → (chs s' s'.root).length ≠ 1) → (chs s s.root ≠ [] → chs s' s'.root ≠ []) → Lower s s' lvl lvl1 → tryReduceLevels s = .ok s' →
      ∃ s' lvl' h', tryReduceLevels s = .ok s' ∧ Good A s' lvl' h' ∧ Sz m s' h' ∧ h' ≤ h ∧
      (chs s s.root ≠ [] → Lower s s' lvl lvl') ∧ Same s s' ∧ s'.inn.items.length = s.inn.items.length := by
    intro s' g' sz' l' hn hn2 lw hs'
    have szr : ∀ k, (2 ≤ k → 2 ≤ (chs s' s'.root).length) → Sz m s' k := by
      intro k hk y hy _
      by_cases hyr : y = s'.root
      · subst hyr
        exact ⟨l', fun h => absurd rfl h, fun _ h2 => hk h2⟩
      · obtain ⟨a1, a2, a3⟩ := sz' y hy hyr
        exact ⟨a1, a2, fun h => absurd h hyr⟩
    by_cases hemp : chs s' s'.root = []
    · refine ⟨s', _, 1, hs', g'.reset hemp, szr 1 (by omega), g.wf.h_pos, ?_, lw.same, lw.items⟩
      intro hne
      exact absurd hemp (hn2 hne)
    · refine ⟨s', lvl1, h1, hs', g', szr h1 ?_, hh, fun _ => lw, lw.same, lw.items⟩
      intro h2
      have := hn h2
      have : (chs s' s'.root).length ≠ 0 := fun e => hemp (List.length_eq_zero_iff.mp e)
      omega
  rcases hor with ⟨hb, hs1, ht1, hlv, hh'⟩ | ⟨hb, hr⟩
  · subst ht1
    apply fin t1 g1 sz1 l11 hne1 hne2 low
    simp only [tryReduceLevels, e1, bind_ok, hb, hs1]
    rfl
  · -- final fix of the links
    obtain ⟨N, hN⟩ := lnk_isSome.mp pre.lroot
    have hNc : N.children = chs t1 t1.root := by rw [← chs_of hN, pre.chs]
    generalize hs2 : s1.setIn t1.root { N with parent := none, slot := SLOT_MAX } = s2
    have l2 : ∀ z, lnk s2 z = if z = t1.root then some (none, SLOT_MAX) else lnk s1 z := by
      intro z; rw [← hs2, lnk_setIn _ pre.lroot]
    have c2 : ∀ z, chs s2 z = chs t1 z := by
      intro z; rw [← hs2, chs_setIn _ pre.lroot]
      split
      · next e => subst e; exact hNc
      · exact pre.chs z
    obtain ⟨s3, r1, r2, r3, r4, r5, r6⟩ := resetParents_spec (chs t1 t1.root) s2 t1.root (by
      intro c hc
      have hm : c.arena ∈ kids t1 t1.root := by rw [kids_chs]; exact List.mem_map_of_mem hc
      cases ha : c.arena with
      | leaf l =>
        rw [ha] at hm
        have := pre.lpar_kid l hm
        simp only [Live]
        rw [← hs2]; exact this
      | internal z =>
        rw [ha] at hm
        obtain ⟨j, hj⟩ := mem_kids.mp hm
        obtain ⟨q, hq⟩ := pre.lnk_kid z j hm (g1.wf.kin hj).2
        simp only [Live]
        rw [l2, if_neg (kid_ne_self g1.wf hj), hq]
        simp)
    rw [← kids_chs] at r3 r4 r5 r6
    have c3 : ∀ z, chs s3 z = chs t1 z := by intro z; rw [r2.chs, c2]
    have root3 : s3.root = t1.root := by rw [r2.root, ← hs2]; exact pre.root
    have nroot : Idx.internal t1.root ∉ kids t1 t1.root := by
      intro hm; obtain ⟨j, hj⟩ := mem_kids.mp hm; exact g1.wf.root_not_kid hj
    have l3 : ∀ z, lnk s3 z = lnk t1 z := by
      intro z
      by_cases hz : .internal z ∈ kids t1 t1.root
      · obtain ⟨j, hj⟩ := mem_kids.mp hz
        obtain ⟨q, hq⟩ := pre.lnk_kid z j hz (g1.wf.kin hj).2
        rw [r4 z q j hz (by rw [l2, if_neg (kid_ne_self g1.wf hj), hq]), (g1.wf.kin hj).2]
      · rw [r3 z hz, l2]
        split
        · next e => subst e; exact hr.symm
        · next e => exact pre.lnk_out z e hz
    have p3 : ∀ l, lpar s3 l = lpar t1 l := by
      intro l
      by_cases hl : .leaf l ∈ kids t1 t1.root
      · obtain ⟨j, hj⟩ := mem_kids.mp hl
        rw [r6 l hl, (g1.wf.klf hj).2]
      · rw [r5 l hl, ← hs2]; exact pre.lpar_out l hl
    have e3 : ∀ l, elm s3 l = elm t1 l := by intro l; rw [r2.elm, ← hs2]; exact pre.elm l
    have i3 : s3.inn.items.length = t1.inn.items.length := by rw [r2.items, ← hs2]; simpa using pre.items
    have g3 := g1.of_views (s := s3) root3 (by rw [r2.rootCache, ← hs2]; exact pre.rootCache) i3 c3 e3 l3 p3
    have hk3 : ∀ z, kids s3 z = kids t1 z := by intro z; rw [kids_chs, kids_chs, c3]
    have low3 : Lower t1 s3 lvl1 lvl1 := by
      refine ⟨⟨order_of_kids root3 i3 hk3, e3, root3, by rw [r2.lfitems, ← hs2]; exact pre.lfitems⟩, i3, ?_, ?_⟩
      · intro y hy; rw [l3] at hy; exact hy
      · intro y _ _; exact ⟨c3 y, rfl⟩
    apply fin s3 g3 ?_ (by rw [root3, c3]; exact l11) (by rw [root3, c3]; exact hne1) (by rw [root3, c3]; exact hne2) (low.trans low3)
    · simp only [tryReduceLevels, e1, bind_ok, hb, if_true, pre.root, getIn_ok hN, hNc]
      simp only [setIn, hNc, pre.root] at hs2 ⊢
      rw [hs2]
      exact r1
    · intro y hy hyr
      rw [l3] at hy
      rw [root3] at hyr ⊢
      rw [c3]
      have := sz1 y hy hyr
      exact ⟨this.1, fun hr => (this.2.1 hr).keep (LSp.of_head root3 fun q z _ hq => by rw [hk3]; exact hq) (Nat.le_refl _), this.2.2⟩

end
end GB
