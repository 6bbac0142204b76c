import Verif.Proof.FilterMut
import Verif.Proof.Search

/-!
# `update_dirty_cache_map`

The pending diffs are pushed up level by level, in any order within a level.  The invariant `DI`: every entry is right
except those with a pending diff, and a pending diff leads from the entry to the right value.
-/

namespace GB
variable {E C D : Type} {B : Trait E C D} {A : Law B} {R : C → D → C → Prop} {s s' : Tree E C} {lvl : Nat → Nat} {h : Nat}
open Tree

/-- What `update` needs from the diffs returned by the closure: `R c d c'` says that `d` leads from `c` to `c'`. Diffs can be applied,
act on the combination of the caches of a node in the same way, and merging composes them. -/
structure DiffLaw (A : Law B) (R : C → D → C → Prop) : Prop where
  apply : ∀ c d c', R c d c' → B.apply c d = .ok c'
  ctx : ∀ l r c d c', R c d c' → R (A.total (l ++ c :: r)) d (A.total (l ++ c' :: r))
  merge : ∀ a d b e c, R a d b → R b e c → R a (B.mergeDiff d e) c

/-- the diff leads from the entry to the right cache -/
def EntryDiff (A : Law B) (R : C → D → C → Prop) (s : Tree E C) (c : Child C) (d : D) : Prop :=
  match c.arena with
  | .leaf l => ∀ e, elm s l = some e → R c.cache d (B.elemCache e)
  | .internal y => R c.cache d (A.total (cch s y))

theorem dmGet_cons {dm : List (Idx × D)} {k a : Idx} {d : D} : dmGet ((k, d) :: dm) a = if a = k then some d else dmGet dm a := by
  unfold dmGet
  rw [List.find?_cons]
  by_cases h : a = k
  · simp [h]
  · have : k ≠ a := fun e => h e.symm
    simp [h, this]

theorem dmGet_erase {dm : List (Idx × D)} {k a : Idx} : dmGet (dmErase dm k) a = if a = k then none else dmGet dm a := by
  induction dm with
  | nil => simp [dmGet, dmErase]
  | cons x dm ih =>
    obtain ⟨k', d⟩ := x
    unfold dmErase at ih ⊢
    rw [List.filter_cons]
    by_cases h1 : k' = k
    · subst h1
      simp only [ne_eq, not_true_eq_false, decide_false, Bool.false_eq_true, if_false]
      rw [ih, dmGet_cons]
      by_cases h2 : a = k'
      · simp [h2]
      · simp [h2]
    · simp only [ne_eq, h1, not_false_eq_true, decide_true, if_true]
      rw [dmGet_cons, dmGet_cons, ih]
      by_cases h2 : a = k'
      · subst h2; simp [h1]
      · simp [h2]

theorem dmGet_merge {dm : List (Idx × D)} {k a : Idx} {d : D} :
    dmGet (dmMerge B dm k d) a = if a = k then some (match dmGet dm k with | some e => B.mergeDiff e d | none => d) else dmGet dm a := by
  unfold dmMerge
  cases hk : dmGet dm k with
  | none => simp only [dmGet_cons]
  | some e =>
    simp only [dmGet_cons, dmGet_erase]
    by_cases h : a = k <;> simp [h]

theorem dmGet_insert {dm : List (Idx × D)} {k a : Idx} {d : D} : dmGet (dmInsert dm k d) a = if a = k then some d else dmGet dm a := by
  unfold dmInsert
  simp only [dmGet_cons, dmGet_erase]
  by_cases h : a = k <;> simp [h]

theorem dmGet_none {dm : List (Idx × D)} {a : Idx} : dmGet dm a = none ↔ a ∉ dm.map Prod.fst := by
  unfold dmGet
  rw [Option.map_eq_none_iff, List.find?_eq_none]
  simp only [decide_eq_true_eq, List.mem_map, not_exists, not_and]

/-- the invariant: `ks` are the indices of level `k` still to be visited, `vs` those of level `k + 1` to be visited next -/
structure DI (A : Law B) (R : C → D → C → Prop) (s : Tree E C) (lvl : Nat → Nat) (h : Nat) (dm : List (Idx × D)) (ks vs : List Idx) (k : Nat) :
    Prop where
  good : GoodX A s lvl h (fun a => a ∈ ks ∨ a ∈ vs) True
  ne : NE s
  nd : ks.Nodup
  vnd : vs.Nodup
  kat : ∀ a ∈ ks, AtLvl s lvl k a
  vat : ∀ a ∈ vs, AtLvl s lvl (k + 1) a
  pend : ∀ a, a ∈ ks ∨ a ∈ vs → ∃ d, dmGet dm a = some d
  free : ∀ a, ¬ (a ∈ ks ∨ a ∈ vs) → dmGet dm a = none
  diff : ∀ a d, dmGet dm a = some d → ∀ p (c : Child C), c ∈ chs s p → c.arena = a → EntryDiff A R s c d

theorem AtLvl.shape (sh : SameShape s s') {k : Nat} {a : Idx} (ha : AtLvl s lvl k a) : AtLvl s' lvl k a := by
  cases a with
  | leaf l =>
    refine ⟨ha.1, ?_⟩
    obtain ⟨L, hL⟩ := lpar_isSome.mp ha.2
    obtain ⟨L', hL', -⟩ := sh.getLf hL
    exact lpar_isSome.mpr ⟨L', hL'⟩
  | internal x =>
    refine ⟨?_, ha.2⟩
    obtain ⟨L, hL⟩ := lnk_isSome.mp ha.1
    obtain ⟨L', hL', -⟩ := sh.get hL
    exact lnk_isSome.mpr ⟨L', hL'⟩

theorem chs_nil_iff {x : Nat} : chs s x = [] ↔ kids s x = [] := by rw [kids_chs, List.map_eq_nil_iff]

theorem SameShape.lnk_ne (sh : SameShape s s') {x : Nat} : lnk s x ≠ none → lnk s' x ≠ none := fun h => (AtLvl.shape (lvl := fun _ => 0) sh (a := .internal x) ⟨h, rfl⟩).1

theorem NE.shape (sh : SameShape s s') (ne : NE s) : NE s' := by
  intro y hy hr
  rw [sh.root] at hr
  have := ne y (sh.symm.lnk_ne hy) hr
  rwa [ne_eq, chs_nil_iff, sh.kids, ← chs_nil_iff]

/-- the right value of an entry -/
theorem entry_value (w : WF s lvl h) (cok : COk A s) (hoke : ∀ l e, elm s l = some e → A.okE e) (ne : NE s) {p i : Nat} {c : Child C}
    (hc : (chs s p)[i]? = some c) :
    ∃ v, EntryOK A s { c with cache := v } ∧ A.okC v ∧ ∀ d, EntryDiff A R s c d → R c.cache d v := by
  cases ha : c.arena with
  | leaf l =>
    have he : Edge s p i (.leaf l) := edge_chs.mpr ⟨c, hc, ha⟩
    obtain ⟨e, hL, -⟩ := getLf_of (w.klf he).2
    have hel := elm_of hL
    refine ⟨B.elemCache e, ?_, A.elem_ok e (hoke l e hel), ?_⟩
    · simp only [EntryOK, ha]
      intro e' he'
      rw [hel] at he'
      cases he'
      rfl
    · intro d hd
      simp only [EntryDiff, ha] at hd
      exact hd e hel
  | internal y =>
    have he : Edge s p i (.internal y) := edge_chs.mpr ⟨c, hc, ha⟩
    have hy : lnk s y ≠ none := by rw [(w.kin he).2]; simp
    have hr : y ≠ s.root := fun e => w.root_not_kid (e ▸ he)
    refine ⟨A.total (cch s y), ?_, ?_, ?_⟩
    · simp only [EntryOK, ha]
    · refine A.total_ok _ ?_ ?_
      · rw [cch, ne_eq, List.map_eq_nil_iff]
        exact ne y hy hr
      · intro x hx
        obtain ⟨c2, h2, rfl⟩ := List.mem_map.mp hx
        exact cok y c2 h2
    · intro d hd
      simp only [EntryDiff, ha] at hd
      exact hd

theorem nodup_insert' {l : List Idx} (h : l.Nodup) {a : Idx} : (l.insert a).Nodup := by
  unfold List.insert
  split
  · exact h
  · next hn => exact List.nodup_cons.mpr ⟨by simpa using hn, h⟩

/-- one entry is repaired and its diff passed on to the parent -/
theorem DI.entry (L : DiffLaw A R) {dm : List (Idx × D)} {k0 : Idx} {ks vs : List Idx} {k : Nat} (di : DI A R s lvl h dm (k0 :: ks) vs k)
    {p i : Nat} {N : Node C} {ch : Child C} {v : C} {d : D} (hN : s.inn.get p = some N) (hi : N.children[i]? = some ch) (har : ch.arena = k0)
    (hd : dmGet dm k0 = some d) (hv : EntryOK A s { ch with cache := v }) (hok : A.okC v) (hR : R ch.cache d v) :
    DI A R (setEntry s p N i ch v) lvl h (dmMerge B (dmErase dm k0) (.internal p) d) ks (vs.insert (.internal p)) k := by
  have w := di.good.wf
  have sh := setEntry_shape (c' := v) hN hi
  have hik : (chs s p)[i]? = some ch := by rw [chs_of hN]; exact hi
  have he : Edge s p i k0 := edge_chs.mpr ⟨ch, hik, har⟩
  have hk0 := di.kat k0 (by simp)
  have hP : AtLvl s lvl (k + 1) (.internal p) := by
    have hp : AtLvl s lvl (lvl p) (.internal p) := ⟨edge_live he, rfl⟩
    obtain ⟨j, e1, e2⟩ := hp.edge w he
    have := e2.uniq hk0
    subst this
    rw [← e1]; exact hp
  have hkP : ∀ a, AtLvl s lvl k a → a ≠ .internal p := by
    intro a ha e
    subst e
    have := ha.uniq hP
    omega
  have hvk : ∀ a ∈ vs, a ≠ k0 := by
    intro a ha e
    subst e
    have := (di.vat a ha).uniq hk0
    omega
  have hk0' : k0 ∉ ks := (List.nodup_cons.mp di.nd).1
  have hget : ∀ a, dmGet (dmMerge B (dmErase dm k0) (.internal p) d) a =
      if a = .internal p then some (match dmGet dm (.internal p) with | some e => B.mergeDiff e d | none => d) else
        if a = k0 then none else dmGet dm a := by
    intro a
    rw [dmGet_merge, dmGet_erase, dmGet_erase, if_neg (hkP k0 hk0).symm]
  have hmi : ∀ a, a ∈ vs.insert (.internal p) ↔ a = .internal p ∨ a ∈ vs := fun a => List.mem_insert_iff
  refine ⟨⟨sh.wf w, ?_, setEntry_cok hN di.good.cok hok, fun hn => absurd trivial hn, di.good.okE⟩, di.ne.shape sh, (List.nodup_cons.mp di.nd).2,
    nodup_insert' di.vnd, fun a ha => (di.kat a (by simp [ha])).shape sh, ?_, ?_, ?_, ?_⟩
  · have := setEntry_cinv (c' := v) hN hi (fun q j hq => w.kid_inj hq (har ▸ he)) di.good.cinv hv
    refine this.mono ?_
    intro a ha
    rw [har] at ha
    rw [hmi]
    rcases ha with ⟨h1 | h1, h2⟩ | h1
    · rcases List.mem_cons.mp h1 with h1 | h1
      · exact absurd h1 h2
      · exact .inl h1
    · exact .inr (.inr h1)
    · exact .inr (.inl h1)
  · intro a ha
    rcases (hmi a).mp ha with rfl | ha
    · exact hP.shape sh
    · exact (di.vat a ha).shape sh
  · intro a ha
    rw [hget]
    by_cases hp : a = .internal p
    · rw [if_pos hp]; exact ⟨_, rfl⟩
    · rw [if_neg hp]
      have ha : a ∈ ks ∨ a ∈ vs := by
        rcases ha with h1 | h1
        · exact .inl h1
        · exact .inr (((hmi a).mp h1).resolve_left hp)
      have hak : a ≠ k0 := by
        rcases ha with h1 | h1
        · intro e; exact hk0' (e ▸ h1)
        · exact hvk a h1
      rw [if_neg hak]
      exact di.pend a (ha.imp (fun h => by simp [h]) id)
  · intro a ha
    rw [hget, if_neg (fun e => ha (.inr ((hmi a).mpr (.inl e))))]
    by_cases hak : a = k0
    · rw [if_pos hak]
    · rw [if_neg hak]
      refine di.free a ?_
      rintro (h1 | h1)
      · rcases List.mem_cons.mp h1 with h1 | h1
        · exact hak h1
        · exact ha (.inl h1)
      · exact ha (.inr ((hmi a).mpr (.inr h1)))
  · intro a e hge q c hc hca
    rw [hget] at hge
    -- an entry other than the repaired one is unchanged
    have hold : a ≠ k0 → c ∈ chs s q := by
      intro hak
      rw [chs_setEntry hN] at hc
      split at hc
      · next e =>
        subst e
        rcases List.mem_or_eq_of_mem_set hc with hm | hm
        · rw [chs_of hN]; exact hm
        · rw [hm] at hca
          exact absurd (hca.symm.trans har) hak
      · exact hc
    by_cases hp : a = .internal p
    · rw [if_pos hp] at hge
      cases hge
      have hcs := hold (by rw [hp]; exact (hkP k0 hk0).symm)
      rw [hp] at hca
      simp only [EntryDiff, hca]
      have hcc : (cch s p)[i]? = some ch.cache := by rw [cch, List.getElem?_map, hik]; rfl
      obtain ⟨s1, s2⟩ := set_split hcc v
      have hstep : R (A.total (cch s p)) d (A.total (cch (setEntry s p N i ch v) p)) := by
        have := L.ctx ((cch s p).take i) ((cch s p).drop (i + 1)) _ _ _ hR
        rw [← s1, ← s2] at this
        rw [cch_setEntry_self hN]
        exact this
      cases hq : dmGet dm (.internal p) with
      | none =>
        have : EntryOK A s c := by
          refine di.good.cinv q c hcs ?_
          intro hx
          rw [hca] at hx
          obtain ⟨d', hd'⟩ := di.pend _ hx
          rw [hq] at hd'
          cases hd'
        simp only [EntryOK, hca] at this
        rw [this]
        exact hstep
      | some e =>
        have := di.diff _ e hq q c hcs hca
        simp only [EntryDiff, hca] at this
        exact L.merge _ _ _ _ _ this hstep
    · rw [if_neg hp] at hge
      by_cases hak : a = k0
      · rw [if_pos hak] at hge; cases hge
      · rw [if_neg hak] at hge
        have := di.diff a e hge q c (hold hak) hca
        unfold EntryDiff at this ⊢
        rw [hca] at this ⊢
        cases a with
        | leaf l => exact this
        | internal y =>
          have hy : y ≠ p := fun e => hp (by rw [e])
          simp only [cch_setEntry_ne hN hy]
          exact this

theorem applyToChild_spec {k : Idx} {d : D} {v : C} : ∀ {cs : List (Child C)} {i : Nat} {ch : Child C}, cs[i]? = some ch → ch.arena = k →
    (∀ (j : Nat) (c : Child C), cs[j]? = some c → c.arena = k → j = i) → B.apply ch.cache d = .ok v → applyToChild B cs k d = .ok (cs.set i { ch with cache := v })
  | [], i, ch, hi, _, _, _ => by simp at hi
  | c :: cs, 0, ch, hi, ha, _, hv => by
    simp at hi
    subst hi
    simp only [applyToChild, ha, if_true, hv, bind_ok, pure_ok, List.set_cons_zero]
  | c :: cs, i + 1, ch, hi, ha, hu, hv => by
    have hc : c.arena ≠ k := fun e => by have := hu 0 c (by simp) e; omega
    have := applyToChild_spec (cs := cs) (i := i) (by simpa using hi) ha (fun j c hj he => by have := hu (j + 1) c (by simpa using hj) he; omega) hv
    simp only [applyToChild, if_neg hc, this, bind_ok, pure_ok, List.set_cons_succ]

/-- what the propagation leaves alone -/
def OnlyCaches (s s' : Tree E C) : Prop := SameShape s s' ∧ s'.lf = s.lf

theorem OnlyCaches.trans {s'' : Tree E C} (h1 : OnlyCaches s s') (h2 : OnlyCaches s' s'') : OnlyCaches s s'' := ⟨h1.1.trans h2.1, h2.2.trans h1.2⟩

theorem dirtyStep_spec (L : DiffLaw A R) {dm : List (Idx × D)} {k0 : Idx} {ks vs : List Idx} {k : Nat} (di : DI A R s lvl h dm (k0 :: ks) vs k)
    (hk : k < h) : ∃ s' dm' vs', dirtyStep B s dm vs k0 = .ok (s', dm', vs') ∧ OnlyCaches s s' ∧ DI A R s' lvl h dm' ks vs' k := by
  have w := di.good.wf
  have hk0 := di.kat k0 (by simp)
  obtain ⟨d, hd⟩ := di.pend k0 (by simp)
  -- the entry of the index
  have key : ∀ p i, Edge s p i k0 → ∃ N ch v, s.inn.get p = some N ∧ N.children[i]? = some ch ∧ ch.arena = k0 ∧ B.apply ch.cache d = .ok v ∧
      OnlyCaches s (setEntry s p N i ch v) ∧ DI A R (setEntry s p N i ch v) lvl h (dmMerge B (dmErase dm k0) (.internal p) d) ks (vs.insert (.internal p)) k := by
    intro p i he
    obtain ⟨ch, hch, har⟩ := edge_chs.mp he
    obtain ⟨N, hN⟩ := lnk_isSome.mp (edge_live he)
    obtain ⟨v, v1, v2, v3⟩ := entry_value (R := R) w di.good.cok di.good.okE di.ne hch
    have hR := v3 d (di.diff k0 d hd p ch (List.mem_of_getElem? hch) har)
    rw [chs_of hN] at hch
    exact ⟨N, ch, v, hN, hch, har, L.apply _ _ _ hR, ⟨setEntry_shape hN hch, rfl⟩, di.entry L hN hch har hd v1 v2 hR⟩
  cases k0 with
  | leaf l =>
    obtain ⟨LF, hL⟩ := lpar_isSome.mp hk0.2
    obtain ⟨i, he, -⟩ := w.parent_lf hL
    obtain ⟨N, ch, v, hN, hch, har, hv, o, di'⟩ := key _ i he
    refine ⟨_, _, _, ?_, o, di'⟩
    have hap := applyToChild_spec (k := .leaf l) hch har (fun j c hj hc => (w.kid_inj (edge_chs.mpr ⟨c, by rw [chs_of hN]; exact hj, hc⟩) he).2) hv
    simp only [dirtyStep, getLf_ok hL, bind_ok, getIn_ok hN, hd, unwrap, hap, pure_ok]
    rfl
  | internal x =>
    obtain ⟨M, hM⟩ := lnk_isSome.mp hk0.1
    have hr : x ≠ s.root := by
      intro e
      have h1 := hk0.2
      rw [e, w.root_lvl] at h1
      omega
    obtain ⟨p, hp, he, -⟩ := w.parent_in hM hr
    have hxp : x ≠ p := fun e => by
      subst e
      have := (w.kin he).1
      omega
    obtain ⟨N, ch, v, hN, hch, har, hv, o, di'⟩ := key _ _ he
    refine ⟨_, _, _, ?_, o, di'⟩
    simp only [dirtyStep, getIn_ok hM, bind_ok, hp, assertM_true (decide_eq_true hxp), getIn_ok hN, vget_ok hch, calcCache, hd, hv, pure_ok]
    rfl

theorem dirtyLevel_spec (L : DiffLaw A R) {k : Nat} (hk : k < h) : ∀ (ks : List Idx) (s : Tree E C) (dm : List (Idx × D)) (vs : List Idx),
    DI A R s lvl h dm ks vs k →
    ∃ s' dm' vs', dirtyLevel B s dm vs ks = .ok (s', dm', vs') ∧ OnlyCaches s s' ∧ DI A R s' lvl h dm' [] vs' k := by
  intro ks
  induction ks with
  | nil => intro s dm vs di; exact ⟨s, dm, vs, rfl, ⟨SameShape.refl s, rfl⟩, di⟩
  | cons k0 ks ih =>
    intro s dm vs di
    obtain ⟨s1, dm1, vs1, e1, o1, d1⟩ := dirtyStep_spec L di hk
    obtain ⟨s2, dm2, vs2, e2, o2, d2⟩ := ih s1 dm1 vs1 d1
    exact ⟨s2, dm2, vs2, by simp only [dirtyLevel, e1, bind_ok, e2], o1.trans o2, d2⟩

theorem dirtyLevel_root (w : WF s lvl h) {dm : List (Idx × D)} : ∀ (ks : List Idx), (∀ a ∈ ks, a = .internal s.root) →
    dirtyLevel B s dm [] ks = .ok (s, dm, []) := by
  intro ks
  induction ks with
  | nil => intro _; rfl
  | cons k ks ih =>
    intro hk
    have := hk k (by simp)
    subst this
    obtain ⟨N, hN, hp⟩ := w.root
    simp only [dirtyLevel, dirtyStep, getIn_ok hN, bind_ok, hp, pure_ok]
    exact ih (fun a ha => hk a (by simp [ha]))

theorem AtLvl.top (w : WF s lvl h) {a : Idx} (ha : AtLvl s lvl h a) : a = .internal s.root := by
  cases a with
  | leaf l => have := ha.1; have := w.h_pos; omega
  | internal x =>
    apply Decidable.byContradiction
    intro hn
    obtain ⟨M, hM⟩ := lnk_isSome.mp ha.1
    obtain ⟨p, -, he, hl⟩ := w.parent_in hM (fun e => hn (by rw [e]))
    have := (w.lvl_pos' (edge_live he)).2
    have := ha.2
    omega

theorem dirtyF_spec (L : DiffLaw A R) {ho : HashOrd E} (hho : ∀ l, (ho.idx l).Perm l) : ∀ (n : Nat) (s : Tree E C) (dm : List (Idx × D)) (vs : List Idx) (k : Nat),
    DI A R s lvl h dm vs [] k → k ≤ h → h + 1 < n + k →
    ∃ s', dirtyF B ho n s dm vs = .ok s' ∧ OnlyCaches s s' ∧ GoodX A s' lvl h noX True := by
  intro n
  induction n with
  | zero => intro s dm vs k _ hk hn; omega
  | succ n ih =>
    intro s dm vs k di hk hn
    cases vs with
    | nil =>
      exact ⟨s, rfl, ⟨SameShape.refl s, rfl⟩, di.good.weaken (fun a ha => by simpa using ha) id⟩
    | cons v vs =>
      have hp := hho (v :: vs)
      by_cases hkh : k = h
      · have hroot : ∀ a ∈ v :: vs, a = .internal s.root := fun a ha => (hkh ▸ di.kat a ha).top di.good.wf
        have := dirtyLevel_root (B := B) (dm := dm) di.good.wf (ho.idx (v :: vs)) (fun a ha => hroot a (hp.mem_iff.mp ha))
        simp only [dirtyF, this, bind_ok]
        obtain ⟨n, rfl⟩ : ∃ n', n = n' + 1 := ⟨n - 1, by omega⟩
        refine ⟨s, by simp only [dirtyF], ⟨SameShape.refl s, rfl⟩, di.good.wf, ?_, di.good.cok, di.good.rok, di.good.okE⟩
        intro p c hc _
        refine di.good.cinv p c hc ?_
        intro hx
        have hx := hroot c.arena (by simpa using hx)
        obtain ⟨i, hi⟩ := List.mem_iff_getElem?.mp hc
        exact di.good.wf.root_not_kid (edge_chs.mpr ⟨c, hi, hx⟩)
      · have di1 : DI A R s lvl h dm (ho.idx (v :: vs)) [] k :=
          ⟨di.good.weaken (fun a ha => ha.imp hp.mem_iff.mpr id) id, di.ne, hp.nodup_iff.mpr di.nd, di.vnd, fun a ha => di.kat a (hp.mem_iff.mp ha), di.vat,
            fun a ha => di.pend a (ha.imp hp.mem_iff.mp id), fun a ha => di.free a (fun h => ha (h.imp hp.mem_iff.mpr id)), di.diff⟩
        obtain ⟨s1, dm1, vs1, e1, o1, d1⟩ := dirtyLevel_spec L (by omega) _ s dm [] di1
        have hsw : ∀ a : Idx, (a ∈ vs1 ∨ a ∈ ([] : List Idx)) ↔ (a ∈ ([] : List Idx) ∨ a ∈ vs1) := fun a => Or.comm
        have d2 : DI A R s1 lvl h dm1 vs1 [] (k + 1) :=
          ⟨d1.good.weaken (fun a ha => (hsw a).mpr ha) id, d1.ne, d1.vnd, by simp, d1.vat, by simp,
            fun a ha => d1.pend a ((hsw a).mp ha), fun a ha => d1.free a (fun h => ha ((hsw a).mpr h)), d1.diff⟩
        obtain ⟨s2, e2, o2, g2⟩ := ih s1 dm1 vs1 (k + 1) d2 (by omega) (by omega)
        exact ⟨s2, by simp only [dirtyF, e1, bind_ok, e2], o1.trans o2, g2⟩

theorem updateRootCache_spec (g : GoodX A s lvl h noX True) :
    ∃ s', updateRootCache B s = .ok s' ∧ OnlyCaches s s' ∧ Good A s' lvl h := by
  obtain ⟨N, hN, -⟩ := g.wf.root
  obtain ⟨c, d, h1, h2, h3⟩ := rootCalc_ok (A := A) (N := N) (by
    intro c hc; exact g.cok s.root c (by rw [chs_of hN]; exact hc)) s.rootCache
  refine ⟨{ s with rootCache := c }, by simp only [updateRootCache, getIn_ok hN, bind_ok, h1, pure_ok], ⟨SameShape.rootCache s c, rfl⟩,
    (SameShape.rootCache s c).wf g.wf, g.cinv, g.cok, ?_, g.okE⟩
  have hN' : ({ s with rootCache := c } : Tree E C).inn.get s.root = some N := hN
  constructor
  · intro hne; rw [cch, chs_of hN']; exact h2 (by rwa [← chs_of hN'])
  · intro he; exact h3 (by rwa [← chs_of hN'])

/-- the propagation repairs all caches -/
theorem updateDirty_spec (L : DiffLaw A R) {ho : HashOrd E} (hho : ∀ l, (ho.idx l).Perm l) {dm : List (Idx × D)}
    (di : DI A R s lvl h dm (dm.map Prod.fst) [] 0) : ∃ s', updateDirty B ho s dm = .ok s' ∧ OnlyCaches s s' ∧ Good A s' lvl h := by
  obtain ⟨s1, e1, o1, g1⟩ := dirtyF_spec L hho (s.fuel + 2) s dm _ 0 di (Nat.zero_le _) (by
    have := di.good.wf.h_le
    simp only [Tree.fuel]
    omega)
  obtain ⟨s2, e2, o2, g2⟩ := updateRootCache_spec g1
  exact ⟨s2, by simp only [updateDirty, e1, bind_ok, e2], o1.trans o2, g2⟩

end GB
