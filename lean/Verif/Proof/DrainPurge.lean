import Verif.Proof.DrainLoop

/-!
# `filter_deleted_children` and `purge` in `Drain::drop`
-/

namespace GB
variable {E C D : Type}
open Tree

/-! ## Removal of leaves that are gone, number of stored nodes -/

theorem remove_gone {V : Type} {a : Arena V} {i : Nat} (h : a.get i = none) : a.remove i = a := by
  unfold Arena.remove
  congr 1
  apply List.ext_getElem?
  intro j
  rw [List.getElem?_set]
  split
  · next e =>
    subst e
    split
    · next hlt =>
      simp only [Arena.get] at h
      rw [List.getElem?_eq_getElem hlt] at h ⊢
      simp at h
      rw [h]
    · next hlt => rw [List.getElem?_eq_none (by omega)]
  · rfl

theorem len_remove {V : Type} {a : Arena V} {i : Nat} {v : V} (h : a.get i = some v) : (a.remove i).len + 1 = a.len := by
  have hlt := Arena.get_lt h
  simp only [Arena.get] at h
  rw [List.getElem?_eq_getElem hlt] at h
  simp at h
  unfold Arena.len Arena.remove
  have e1 : a.items = a.items.take i ++ a.items[i] :: a.items.drop (i + 1) := by simp
  rw [List.set_eq_take_append_cons_drop, if_pos hlt]
  conv => rhs; rw [e1]
  rw [List.countP_append, List.countP_append, List.countP_cons, List.countP_cons, h]
  simp
  omega

theorem len_le {V : Type} (a : Arena V) : a.len ≤ a.items.length := List.countP_le_length

theorem get_lnk {u v : Tree E C} {x : Nat} (h : v.inn.get x = u.inn.get x) : lnk v x = lnk u x ∧ chs v x = chs u x ∧ kids v x = kids u x := by
  refine ⟨by rw [lnk, lnk, h], by rw [chs, chs, h], by rw [kids, kids, h]⟩

/-- what `purge` does: `P` covers everything reachable from the stack -/
structure PurgeRel (P : Idx → Prop) (st : List Idx) (u v : Tree E C) : Prop where
  root : v.root = u.root
  rc : v.rootCache = u.rootCache
  items : v.inn.items.length = u.inn.items.length
  lf : v.lf = u.lf
  get : ∀ x, v.inn.get x = u.inn.get x ∨ (v.inn.get x = none ∧ P (.internal x))
  top : ∀ x, Idx.internal x ∈ st → v.inn.get x = none
  below : ∀ x y, u.inn.get x ≠ none → v.inn.get x = none → .internal y ∈ kids u x → v.inn.get y = none

theorem purgeF_spec {P : Idx → Prop} : ∀ (n : Nat) (u : Tree E C) (st : List Idx), (∀ a ∈ st, P a) →
    (∀ x, P (.internal x) → ∀ a ∈ kids u x, P a) → (∀ l, P (.leaf l) → u.lf.get l = none) → (∀ x, (chs u x).length ≤ 12) →
    13 * u.inn.len + st.length < n → ∃ v, purgeF n u st = .ok v ∧ PurgeRel P st u v := by
  intro n
  induction n with
  | zero => intro u st _ _ _ _ h; omega
  | succ n ih =>
    intro u st hst hP hl h12 hn
    cases st with
    | nil => exact ⟨u, rfl, rfl, rfl, rfl, rfl, fun x => Or.inl rfl, by simp, fun x y h1 h2 => absurd h2 h1⟩
    | cons a st =>
      simp only [List.length_cons] at hn
      cases a with
      | leaf l =>
        have : ({ u with lf := u.lf.remove l } : Tree E C) = u := by rw [remove_gone (hl l (hst _ (by simp)))]
        simp only [purgeF, this]
        obtain ⟨v, e1, e2⟩ := ih u st (fun a ha => hst a (by simp [ha])) hP hl h12 (by omega)
        exact ⟨v, e1, e2.root, e2.rc, e2.items, e2.lf, e2.get, by intro x hx; simp at hx; exact e2.top x hx, e2.below⟩
      | internal x =>
        cases hx : u.inn.get x with
        | none =>
          simp only [purgeF, hx]
          obtain ⟨v, e1, e2⟩ := ih u st (fun a ha => hst a (by simp [ha])) hP hl h12 (by omega)
          refine ⟨v, e1, e2.root, e2.rc, e2.items, e2.lf, e2.get, ?_, e2.below⟩
          intro z hz
          rw [List.mem_cons] at hz
          rcases hz with hz | hz
          · cases hz
            rcases e2.get x with h1 | h1
            · rw [h1, hx]
            · exact h1.1
          · exact e2.top z hz
        | some N =>
          simp only [purgeF, hx]
          have hk : kids u x = N.children.map Child.arena := by rw [kids, hx]
          have hPx : P (.internal x) := hst _ (by simp)
          have hlen : N.children.length ≤ 12 := by have := h12 x; rw [chs_of hx] at this; exact this
          have hg : ∀ z, (u.inn.remove x).get z = if z = x then none else u.inn.get z := fun z => Arena.get_remove _ _ _
          have hsame : ∀ z, z ≠ x → (({ u with inn := u.inn.remove x } : Tree E C)).inn.get z = u.inn.get z := by
            intro z hz; simp only [hg]; rw [if_neg hz]
          have hxn : (({ u with inn := u.inn.remove x } : Tree E C)).inn.get x = none := by show (u.inn.remove x).get x = none; rw [hg, if_pos rfl]
          obtain ⟨v, e1, e2⟩ := ih { u with inn := u.inn.remove x } ((N.children.map Child.arena).reverse ++ st) (by
              intro a ha
              rw [List.mem_append, List.mem_reverse, ← hk] at ha
              rcases ha with ha | ha
              · exact hP x hPx a ha
              · exact hst a (by simp [ha])) (by
              intro z hz a ha
              by_cases hzx : z = x
              · subst hzx; rw [kids, hxn] at ha; simp at ha
              · rw [(get_lnk (hsame z hzx)).2.2] at ha; exact hP z hz a ha) hl (by
              intro z
              by_cases hzx : z = x
              · subst hzx; rw [GB.chs, hxn]; simp
              · rw [(get_lnk (hsame z hzx)).2.1]; exact h12 z) (by
              have := len_remove hx
              simp only [List.length_append, List.length_reverse, List.length_map]
              omega)
          have hvx : v.inn.get x = none := by
            rcases e2.get x with h1 | h1
            · rw [h1, hxn]
            · exact h1.1
          refine ⟨v, e1, e2.root, e2.rc, ?_, e2.lf, ?_, ?_, ?_⟩
          · rw [e2.items]; simp
          · intro z
            by_cases hzx : z = x
            · subst hzx; exact Or.inr ⟨hvx, hPx⟩
            · have := e2.get z; rwa [hsame z hzx] at this
          · intro z hz
            rw [List.mem_cons] at hz
            rcases hz with hz | hz
            · cases hz; exact hvx
            · exact e2.top z (by simp [hz])
          · intro z y h1 h2 h3
            by_cases hzx : z = x
            · subst hzx
              rw [hk] at h3
              exact e2.top y (by rw [List.mem_append, List.mem_reverse]; exact Or.inl h3)
            · refine e2.below z y (by rw [hsame z hzx]; exact h1) h2 ?_
              rw [(get_lnk (hsame z hzx)).2.2]; exact h3

theorem purgeAll_spec {P : Idx → Prop} : ∀ (st : List Idx) (u : Tree E C), (∀ a ∈ st, P a) →
    (∀ x, P (.internal x) → ∀ a ∈ kids u x, P a) → (∀ l, P (.leaf l) → u.lf.get l = none) → (∀ x, (chs u x).length ≤ 12) →
    ∃ v, purgeAll u st = .ok v ∧ PurgeRel P st u v := by
  intro st
  induction st with
  | nil => intro u _ _ _ _; exact ⟨u, rfl, rfl, rfl, rfl, rfl, fun x => Or.inl rfl, by simp, fun x y h1 h2 => absurd h2 h1⟩
  | cons a st ih =>
    intro u hst hP hl h12
    obtain ⟨t, e1, e2⟩ := purgeF_spec (P := P) ((u.inn.items.length + 1) * (MAXC + 1) + 1) u [a] (by intro b hb; simp at hb; subst hb; exact hst _ (by simp)) hP hl h12
      (by have := len_le u.inn; simp only [MAXC, List.length_cons, List.length_nil]; omega)
    have hmono : ∀ x, kids t x = kids u x ∨ kids t x = [] := by
      intro x
      rcases e2.get x with h1 | h1
      · exact Or.inl (get_lnk h1).2.2
      · right; rw [kids, h1.1]
    have hmonoc : ∀ x, chs t x = chs u x ∨ chs t x = [] := by
      intro x
      rcases e2.get x with h1 | h1
      · exact Or.inl (get_lnk h1).2.1
      · right; rw [GB.chs, h1.1]
    obtain ⟨v, f1, f2⟩ := ih t (fun b hb => hst b (by simp [hb])) (by
        intro x hx b hb
        rcases hmono x with h1 | h1
        · rw [h1] at hb; exact hP x hx b hb
        · rw [h1] at hb; simp at hb) (by intro l hl'; rw [e2.lf]; exact hl l hl') (by
        intro x
        rcases hmonoc x with h1 | h1
        · rw [h1]; exact h12 x
        · rw [h1]; simp)
    have hdown : ∀ x, t.inn.get x = none → v.inn.get x = none := by
      intro x hx
      rcases f2.get x with h1 | h1
      · rw [h1, hx]
      · exact h1.1
    refine ⟨v, ?_, f2.root.trans e2.root, f2.rc.trans e2.rc, f2.items.trans e2.items, f2.lf.trans e2.lf, ?_, ?_, ?_⟩
    · simp only [purgeAll, purge, e1, bind_ok, f1]
    · intro x
      rcases f2.get x with h1 | h1
      · rw [h1]; exact e2.get x
      · exact Or.inr h1
    · intro x hx
      rw [List.mem_cons] at hx
      rcases hx with rfl | hx
      · exact hdown x (e2.top x (by simp))
      · exact f2.top x hx
    · intro x y h1 h2 h3
      by_cases ht : t.inn.get x = none
      · exact hdown y (e2.below x y h1 ht h3)
      · rcases e2.get x with h4 | h4
        · exact f2.below x y ht h2 (by rw [(get_lnk h4).2.2]; exact h3)
        · exact absurd h4.1 ht

section
variable {s : Tree E C} {lvl : Nat → Nat} {h : Nat} {X Y Z : List Nat} {y e : Nat} {sp ep : List PIdx} {F : Arena (LeafNode E)}

/-- cutting and purging prunes -/
theorem purge_pruned (w : WF s lvl h) (h12 : ∀ x, (chs s x).length ≤ 12) (hF : ∀ l, F.get l = if l ∈ Y then none else s.lf.get l)
    (hFi : F.items.length = s.lf.items.length) {u : Tree E C} {S : Nat → Prop} {del : List Idx} (j : CutInv s lvl Y F u S del)
    (hfin : ∀ x, lnk s x ≠ none → (x = s.root ∨ ¬ Dead s lvl Y (.internal x)) → ¬ S x → ∀ a ∈ kids s x, ¬ Dead s lvl Y a) :
    ∃ v, purgeAll u del = .ok v ∧ Pruned s lvl Y v ∧ v.rootCache = s.rootCache := by
  obtain ⟨v, e1, r⟩ := purgeAll_spec (P := fun a => Dead s lvl Y a ∧ a ≠ .internal s.root) del u (by
      intro a ha
      obtain ⟨h1, p, i, y, rfl, he⟩ := j.dels a ha
      exact ⟨h1, fun hc => by cases hc; exact w.root_not_kid he⟩) (by
      rintro x ⟨hx, -⟩ a ha
      have ha := j.kid ha
      obtain ⟨i, hi⟩ := mem_kids.mp ha
      refine ⟨(dead_kids w (edge_live hi)).mp hx a ha, fun hc => ?_⟩
      rw [hc] at hi
      exact w.root_not_kid hi) (by
      rintro l ⟨hl, -⟩
      rw [j.lf, hF, if_pos (dead_iff.mp hl l (by simp [lvs]))]) (by
      intro x; exact Nat.le_trans j.sub.length_le (h12 x))
  have dead_gone : ∀ (n x : Nat), h - lvl x ≤ n → lnk s x ≠ none → x ≠ s.root → Dead s lvl Y (.internal x) → v.inn.get x = none := by
    intro n
    induction n with
    | zero =>
      intro x hn hx hr _
      obtain ⟨p, i, he⟩ := w.par_in' hx hr
      have h1 := w.kin he
      have h2 := w.lvl_pos' (edge_live he)
      omega
    | succ n ih =>
      intro x hn hx hr hd
      obtain ⟨p, i, he⟩ := w.par_in' hx hr
      have hp := edge_live he
      have h1 := w.kin he
      have h2 := w.lvl_pos' hp
      have hkx : Idx.internal x ∈ kids s p := mem_kids.mpr ⟨i, he⟩
      by_cases hS : S p
      · exact r.top x (j.cover p i x hS he hd)
      · by_cases hpr : p = s.root ∨ ¬ Dead s lvl Y (.internal p)
        · exact absurd hd (hfin p hp hpr hS _ hkx)
        · have hpd : Dead s lvl Y (.internal p) := Decidable.byContradiction fun hc => hpr (Or.inr hc)
          have hpn := ih p (by omega) hp (fun hc => hpr (Or.inl hc)) hpd
          refine r.below p x (fun hc => ?_) hpn ?_
          · exact j.live.mpr hp (lnk_none.mpr hc)
          · rw [kids_chs, j.unproc p hS, ← kids_chs]; exact hkx
  have hlive : ∀ x, lnk v x ≠ none ↔ lnk s x ≠ none ∧ (x = s.root ∨ ¬ Dead s lvl Y (.internal x)) := by
    intro x
    constructor
    · intro hv
      have hu : lnk u x ≠ none := by
        intro hc
        rcases r.get x with h1 | h1
        · exact hv ((get_lnk h1).1.trans hc)
        · exact hv (lnk_none.mpr h1.1)
      have hs := j.live.mp hu
      refine ⟨hs, ?_⟩
      by_cases hr : x = s.root
      · exact Or.inl hr
      · refine Or.inr fun hd => hv (lnk_none.mpr (dead_gone _ x (Nat.le_refl _) hs hr hd))
    · rintro ⟨hs, hx⟩ hv
      rcases r.get x with h1 | ⟨-, h1, h2⟩
      · exact j.live.mpr hs ((get_lnk h1).1.symm.trans hv)
      · rcases hx with rfl | hx
        · exact h2 rfl
        · exact hx h1
  have heq : ∀ x, lnk v x ≠ none → v.inn.get x = u.inn.get x := by
    intro x hx
    rcases r.get x with h1 | h1
    · exact h1
    · exact absurd (lnk_none.mpr h1.1) hx
  have hchs : ∀ x, lnk v x ≠ none → chs v x = (chs s x).filter (keepB s lvl Y) := by
    intro x hx
    rw [(get_lnk (heq x hx)).2.1]
    by_cases hS : S x
    · exact j.proc x hS
    · obtain ⟨h1, h2⟩ := (hlive x).mp hx
      rw [j.unproc x hS]
      symm
      rw [List.filter_eq_self]
      intro c hc
      rw [keep_iff]
      exact hfin x h1 h2 hS _ (by rw [kids_chs]; exact List.mem_map_of_mem hc)
  refine ⟨v, e1, ⟨r.root.trans j.root, r.items.trans j.items, ?_, ?_, hlive, ?_, ?_, hchs⟩, r.rc.trans j.rc⟩
  · rw [r.lf, j.lf, hFi]
  · intro l; rw [r.lf, j.lf, hF]
  · intro x hx; rw [(get_lnk (heq x hx)).1, j.par]
  · intro p i y he
    have hp := edge_live he
    have hy : lnk v y ≠ none := by
      rw [hlive]
      have hm : Idx.internal y ∈ kids v p := mem_kids.mpr ⟨i, he⟩
      rw [kids_chs, hchs p hp, List.mem_map] at hm
      obtain ⟨c, hc, hca⟩ := hm
      rw [List.mem_filter, keep_iff, hca] at hc
      exact ⟨kids_live_in w (p := p) (by rw [← hca, kids_chs]; exact List.mem_map_of_mem hc.1), Or.inr hc.2⟩
    rw [(get_lnk (heq y hy)).1]
    rw [Edge, (get_lnk (heq p hp)).2.2] at he
    exact j.slot p i y he

/-- `filter_deleted_children` on a parent of leaves -/
theorem filterDeleted_cut (w : WF s lvl h) (hF : ∀ l, F.get l = if l ∈ Y then none else s.lf.get l) {u : Tree E C} {S : Nat → Prop}
    (j : CutInv s lvl Y F u S []) {p : Nat} (hp : lnk s p ≠ none) (hl : lvl p = 1) :
    ∃ u', filterDeleted u (.internal p) = .ok u' ∧ CutInv s lvl Y F u' (fun x => S x ∨ x = p) [] := by
  obtain ⟨N, hN⟩ := lnk_isSome.mp (j.live.mpr hp)
  have hleaf : ∀ c ∈ chs s p, ∃ l, c.arena = .leaf l ∧ (keepB s lvl Y c = F.contains l) := by
    intro c hc
    have hm : c.arena ∈ kids s p := by rw [kids_chs]; exact List.mem_map_of_mem hc
    obtain ⟨i, hi⟩ := mem_kids.mp hm
    cases ha : c.arena with
    | internal z =>
      rw [ha] at hi
      have h1 := w.kin hi
      have := (w.lvl_pos' (kids_live_in w (mem_kids.mpr ⟨i, hi⟩))).1
      omega
    | leaf l =>
      refine ⟨l, rfl, ?_⟩
      rw [ha] at hi
      have h1 := (w.klf hi).2
      rw [lpar] at h1
      simp only [keepB, deadB, ha, lvs, Arena.contains, hF]
      by_cases hY : l ∈ Y
      · simp [hY]
      · cases hg : s.lf.get l with
        | none => rw [hg] at h1; cases h1
        | some v => simp [hY]
  have hfil : N.children.filter (fun c => match c.arena with | .leaf l => u.lf.contains l | .internal y => u.inn.contains y) =
      (chs s p).filter (keepB s lvl Y) := by
    have hc : ∀ L : List (Child C), (∀ c ∈ L, c ∈ chs s p) →
        L.filter (fun c => match c.arena with | .leaf l => u.lf.contains l | .internal y => u.inn.contains y) = L.filter (keepB s lvl Y) := by
      intro L hL
      apply List.filter_congr
      intro c hc
      obtain ⟨l, h1, h2⟩ := hleaf c (hL c hc)
      rw [h2, h1, j.lf]
    rw [← chs_of hN, hc _ (fun c hc => j.sub.subset hc)]
    by_cases hS : S p
    · rw [j.proc p hS, List.filter_filter]; simp
    · rw [j.unproc p hS]
  have hpu : lnk u p ≠ none := j.live.mpr hp
  refine ⟨u.setIn p { N with children := (chs s p).filter (keepB s lvl Y) }, ?_, ?_⟩
  · simp only [filterDeleted, Idx.unwrapInternal, bind_ok, getIn_ok hN]
    exact congrArg (fun cs => Except.ok (u.setIn p { N with children := cs })) hfil
  · generalize ht : u.setIn p { N with children := (chs s p).filter (keepB s lvl Y) } = t
    have l1 : ∀ y, lnk t y = lnk u y := by
      intro y; rw [← ht, lnk_setIn u hpu]; split
      · next e => subst e; exact (lnk_of hN).symm
      · rfl
    have c1 : ∀ y, chs t y = if y = p then (chs s p).filter (keepB s lvl Y) else chs u y := by
      intro y; rw [← ht, chs_setIn u hpu]
    have noin : ∀ i y, ¬ Edge s p i (.internal y) := by
      intro i y he
      have h1 := w.kin he
      have := (w.lvl_pos' (kids_live_in w (mem_kids.mpr ⟨i, he⟩))).1
      omega
    refine ⟨?_, ?_, ?_, ?_, ?_, ?_, ?_, ?_, by simp, ?_⟩
    · rw [← ht]; exact j.root
    · rw [← ht]; exact j.rc
    · rw [← ht, items_setIn]; exact j.items
    · rw [← ht]; exact j.lf
    · intro x; rw [l1, j.par]
    · intro q i y he
      by_cases hq : q = p
      · subst hq
        exfalso
        have hm : Idx.internal y ∈ kids t q := mem_kids.mpr ⟨i, he⟩
        rw [kids_chs, c1, if_pos rfl] at hm
        have : Idx.internal y ∈ kids s q := by rw [kids_chs]; exact (List.filter_sublist.map _).subset hm
        obtain ⟨i', hi'⟩ := mem_kids.mp this
        exact noin i' y hi'
      · rw [Edge, kids_chs, c1, if_neg hq, ← kids_chs] at he
        rw [l1]; exact j.slot q i y he
    · intro x hx
      rw [c1]
      split
      · next e => rw [e]
      · next e => exact j.proc x (hx.resolve_right e)
    · intro x hx
      rw [c1, if_neg (fun e => hx (Or.inr e))]
      exact j.unproc x (fun h => hx (Or.inl h))
    · intro x i y hx he hd
      rcases hx with hx | rfl
      · exact j.cover x i y hx he hd
      · exact absurd he (noin i y)

/-- Everything in `Drain::drop` between the end of the iteration and the cache updates: the drained leaves are out of the arena, the nodes
that only had such leaves are unlinked and freed. -/
theorem drop_prune (c : Cuts s X Y Z y e) (w : WF s lvl h) (ne : NE s) (h12 : ∀ x, (chs s x).length ≤ 12) (rs : RPath s y h sp) (re : RPath s e h ep)
    {t0 : Tree E C} (t1 : t0.inn = s.inn) (t2 : t0.root = s.root) (t3 : t0.rootCache = s.rootCache)
    (hF : ∀ l, t0.lf.get l = if l ∈ Y then none else s.lf.get l) (hFi : t0.lf.items.length = s.lf.items.length) :
    ∃ v, (do
      assertM (decide (2 ≤ sp.length))
      let level := sp.length - 2
      let a ← vget sp level
      let s ← filterDeleted t0 a.arena
      let b ← vget ep level
      let s ← filterDeleted s b.arena
      let (level, deleted, s) ← dropLoop1 sp ep level s []
      let (deleted, s) ← dropLoop2 sp level s deleted
      purgeAll s deleted : M (Tree E C)) = .ok v ∧ Pruned s lvl Y v ∧ v.rootCache = s.rootCache := by
  have hh := w.h_pos
  have hg : ∀ x, t0.inn.get x = s.inn.get x := by intro x; rw [t1]
  have j0 : CutInv s lvl Y t0.lf t0 (fun _ => False) [] := by
    refine ⟨t2, t3, by rw [t1], rfl, fun x => by rw [(get_lnk (hg x)).1], ?_, fun x hx => hx.elim, fun x _ => (get_lnk (hg x)).2.1, by simp,
      fun x i y hx => hx.elim⟩
    intro p i y he
    rw [Edge, (get_lnk (hg p)).2.2] at he
    rw [(get_lnk (hg y)).1, (w.kin he).2]
    rfl
  obtain ⟨p, pj, hp⟩ := rs.get (d := h - 1) (by omega)
  obtain ⟨q, qj, hq⟩ := re.get (d := h - 1) (by omega)
  obtain ⟨p1, p2⟩ := rs.node w (by omega) hp
  obtain ⟨q1, q2⟩ := re.node w (by omega) hq
  obtain ⟨u1, a1, a2⟩ := filterDeleted_cut w hF j0 p1 (by omega)
  obtain ⟨u2, b1, b2⟩ := filterDeleted_cut w hF a2 q1 (by omega)
  have j2 : CutInv s lvl Y t0.lf u2 (SetP s lvl h y e (h - 1)) [] := by
    apply b2.congr
    intro x
    have hpm : y ∈ lvs s lvl (.internal p) := rs.mem' w (by omega) hp
    have hqm : e ∈ lvs s lvl (.internal q) := re.mem' w (by omega) hq
    constructor
    · rintro ((hf | rfl) | rfl)
      · exact hf.elim
      · exact ⟨p1, Or.inl hpm, by omega⟩
      · exact ⟨q1, Or.inr hqm, by omega⟩
    · rintro ⟨h1, h2, h3⟩
      have := w.lvl_pos' h1
      rcases h2 with h2 | h2
      · exact Or.inl (Or.inr (lvs_inj w (by omega) h2 hpm))
      · exact Or.inr (lvs_inj w (by omega) h2 hqm)
  obtain ⟨d, del, u3, x, i, k, c1, c2, c3, c4, c5⟩ := dropLoop1_spec c w ne rs re (h - 1) u2 [] (by omega) j2
  obtain ⟨del', u4, S, d1, d2, d3⟩ := dropLoop2_spec c w ne rs re d u3 del x i k c2 c3 c4 c5
  obtain ⟨v, f1, f2⟩ := purge_pruned w h12 hF hFi d2 d3
  refine ⟨v, ?_, f2⟩
  have hsl : sp.length - 2 = h - 1 := by rw [rs.len]; omega
  rw [hsl, rs.len]
  simp only [decide_eq_true (show 2 ≤ h + 1 by omega), assertM, if_true, bind_ok, vget_ok hp, vget_ok hq, a1, b1, c1, d1]
  exact f1

end
end GB
