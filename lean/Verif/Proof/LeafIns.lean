import Verif.Proof.Row

/-!
# Inserting and removing one leaf
-/

namespace GB
variable {E C D : Type}
open Tree

/-- state after `leaf_nodes.insert` -/
def addLf (s : Tree E C) (L : LeafNode E) : Tree E C := { s with lf := (s.lf.insert L).2 }

section
variable (s : Tree E C) (L : LeafNode E)

theorem lpar_addLf (l : Nat) : lpar (addLf s L) l = if l = s.lf.items.length then some L.parent else lpar s l := by
  simp only [lpar, addLf, Arena.get_insert]
  split <;> simp
theorem elm_addLf (l : Nat) : elm (addLf s L) l = if l = s.lf.items.length then some L.elem else elm s l := by
  simp only [elm, addLf, Arena.get_insert]
  split <;> simp
@[simp] theorem lnk_addLf (x : Nat) : lnk (addLf s L) x = lnk s x := rfl
@[simp] theorem chs_addLf (x : Nat) : chs (addLf s L) x = chs s x := rfl
@[simp] theorem inn_addLf : (addLf s L).inn = s.inn := rfl
@[simp] theorem root_addLf : (addLf s L).root = s.root := rfl
@[simp] theorem rootCache_addLf : (addLf s L).rootCache = s.rootCache := rfl
@[simp] theorem lfitems_addLf : (addLf s L).lf.items.length = s.lf.items.length + 1 := by
  simp [addLf, Arena.insert]

theorem allocLeafChild_eq (B : Trait E C D) (data : E) (p : Nat) :
    allocLeafChild B s data p = (⟨.leaf s.lf.items.length, B.elemCache data⟩, addLf s ⟨data, p⟩) := rfl

end

theorem lpar_fresh (s : Tree E C) : lpar s s.lf.items.length = none := by
  rw [lpar_none]
  exact Arena.get_ge _ (Nat.le_refl _)

theorem elm_live {s : Tree E C} {l : Nat} {e : E} (he : elm s l = some e) : lpar s l ≠ none := by
  intro hn
  rw [elm_none.mpr hn] at he
  cases he

theorem elm_some {s : Tree E C} {l : Nat} (hl : lpar s l ≠ none) : ∃ e, elm s l = some e := by
  apply Option.ne_none_iff_exists'.mp
  intro hn
  exact hl (elm_none.mp hn)

section
variable {s s' : Tree E C} {lvl : Nat → Nat} {h p : Nat}

/-- one leaf is inserted below `p` -/
theorem leafEdit_ins (w : WF s lvl h) (hl : lvl p = 1) {j l0 : Nat} (root : s'.root = s.root)
    (items : s'.inn.items.length = s.inn.items.length) (hlnk : ∀ y, lnk s' y = lnk s y)
    (hchs : ∀ y, y ≠ p → chs s' y = chs s y)
    (hk : kids s' p = (kids s p).take j ++ .leaf l0 :: (kids s p).drop j)
    (h0 : lpar s l0 = none) (h0' : lpar s' l0 = some p) (ho : ∀ l, l ≠ l0 → lpar s' l = lpar s l) :
    LeafEdit s s' p := by
  have hmem : ∀ a, a ∈ kids s' p ↔ a = .leaf l0 ∨ a ∈ kids s p := by
    intro a
    rw [hk]
    simp only [List.mem_append, List.mem_cons]
    conv => rhs; rw [← List.take_append_drop j (kids s p), List.mem_append]
    grind
  have hnew : Idx.leaf l0 ∉ kids s p := by
    intro hm
    obtain ⟨i, hi⟩ := mem_kids.mp hm
    rw [(w.klf hi).2] at h0
    cases h0
  refine ⟨root, items, hlnk, hchs, ?_, ?_, ?_, ?_⟩
  · intro a ha
    rcases (hmem a).mp ha with rfl | ha
    · exact ⟨l0, rfl, h0', Or.inl h0⟩
    · obtain ⟨i, hi⟩ := mem_kids.mp ha
      obtain ⟨l, rfl⟩ := (w.kid_leaf_iff hi).mp hl
      have := w.klf hi
      refine ⟨l, rfl, ?_, Or.inr ha⟩
      rw [ho l, this.2]
      intro e; subst e; exact hnew ha
  · rw [hk]
    have nd := w.kids_nodup p
    rw [← List.take_append_drop j (kids s p)] at nd hnew
    rw [List.nodup_append] at nd ⊢
    simp only [List.mem_append, not_or] at hnew
    refine ⟨nd.1, List.nodup_cons.mpr ⟨hnew.2, nd.2.1⟩, ?_⟩
    intro a ha b hb
    rcases List.mem_cons.mp hb with rfl | hb
    · intro e; subst e; exact hnew.1 ha
    · exact nd.2.2 a ha b hb
  · intro l h1 h2
    exact absurd ((hmem _).mpr (Or.inr h1)) h2
  · intro l h1 h2
    apply ho
    intro e; subst e
    exact h2 ((hmem _).mpr (Or.inl rfl))

/-- one leaf is removed below `p` -/
theorem leafEdit_del (w : WF s lvl h) (hl : lvl p = 1) {j l0 : Nat} (root : s'.root = s.root)
    (items : s'.inn.items.length = s.inn.items.length) (hlnk : ∀ y, lnk s' y = lnk s y)
    (hchs : ∀ y, y ≠ p → chs s' y = chs s y)
    (he : Edge s p j (.leaf l0))
    (hk : kids s' p = (kids s p).take j ++ (kids s p).drop (j + 1))
    (h0' : lpar s' l0 = none) (ho : ∀ l, l ≠ l0 → lpar s' l = lpar s l) :
    LeafEdit s s' p := by
  have hsp := get_split he
  have nd := w.kids_nodup p
  have hmem : ∀ a, a ∈ kids s' p ↔ a ≠ .leaf l0 ∧ a ∈ kids s p := by
    intro a
    rw [hk]
    rw [hsp] at nd
    conv => rhs; rw [hsp]
    rw [List.nodup_append] at nd
    simp only [List.mem_append, List.mem_cons]
    have h1 := nd.2.2
    have h2 := List.nodup_cons.mp nd.2.1
    constructor
    · rintro (ha | ha)
      · exact ⟨h1 a ha _ (by simp), Or.inl ha⟩
      · exact ⟨fun e => h2.1 (e ▸ ha), Or.inr (Or.inr ha)⟩
    · rintro ⟨h3, h4 | h4 | h4⟩
      · exact Or.inl h4
      · exact absurd h4 h3
      · exact Or.inr h4
  refine ⟨root, items, hlnk, hchs, ?_, ?_, ?_, ?_⟩
  · intro a ha
    obtain ⟨h1, ha⟩ := (hmem a).mp ha
    obtain ⟨i, hi⟩ := mem_kids.mp ha
    obtain ⟨l, rfl⟩ := (w.kid_leaf_iff hi).mp hl
    have := w.klf hi
    refine ⟨l, rfl, ?_, Or.inr ha⟩
    rw [ho l, this.2]
    intro e; subst e; exact h1 rfl
  · rw [hk]
    rw [hsp] at nd
    rw [List.nodup_append] at nd ⊢
    have h2 := List.nodup_cons.mp nd.2.1
    exact ⟨nd.1, h2.2, fun a ha b hb => nd.2.2 a ha b (by simp [hb])⟩
  · intro l h1 h2
    have : l = l0 := by
      apply Decidable.byContradiction
      intro hne
      exact h2 ((hmem _).mpr ⟨by simpa using hne, h1⟩)
    rw [this]; exact h0'
  · intro l h1 h2
    apply ho
    intro e; subst e
    exact h1 (mem_kids.mpr ⟨j, he⟩)

variable {B : Trait E C D} {A : Law B}

/-- same nodes, same element store -/
theorem SameShape.same {s s' : Tree E C} (sh : SameShape s s') (hlf : s'.lf = s.lf) : Same s s' :=
  ⟨sh.order, fun l => by simp [elm, hlf], sh.root, by rw [hlf]⟩

theorem SameShape.live {s s' : Tree E C} (sh : SameShape s s') (y : Nat) : lnk s' y ≠ none ↔ lnk s y ≠ none := by
  rw [lnk_isSome, lnk_isSome]
  constructor
  · rintro ⟨N, hN⟩
    obtain ⟨M, hM, -⟩ := sh.symm.get hN
    exact ⟨M, hM⟩
  · rintro ⟨N, hN⟩
    obtain ⟨M, hM, -⟩ := sh.get hN
    exact ⟨M, hM⟩

theorem SameShape.len {s s' : Tree E C} (sh : SameShape s s') (y : Nat) : (chs s' y).length = (chs s y).length := by
  have := congrArg List.length (sh.kids y)
  rw [kids_chs, kids_chs, List.length_map, List.length_map] at this
  exact this

theorem SzX.congr {m : Fill} {P : Nat → Prop} {s s' : Tree E C} (sh : SameShape s s') (sz : SzX m s h P) : SzX m s' h P := by
  intro y hy hP
  rw [sh.len, sh.root]
  have := sz y ((sh.live y).mp hy) hP
  exact ⟨this.1, fun hr => (this.2.1 hr).keep (LSp.shape sh) (Nat.le_refl _), this.2.2⟩

/-- the occupancy of a node is not affected by a change of the leaves of another node -/
theorem SzX.edit {m : Fill} {P : Nat → Prop} {s s' : Tree E C} {p : Nat} (r : LeafEdit s s' p) (w : WF s lvl h) (hl : lvl p = 1)
    (sz : SzX m s h P) : SzX m s' h (fun y => y = p ∨ P y) := by
  intro y hy hyp
  have hyp := not_or.mp hyp
  rw [r.root, r.chs y hyp.1]
  rw [r.lnk] at hy
  have := sz y hy hyp.2
  exact ⟨this.1, fun hr => (this.2.1 hr).keep (LSp.edit r w hl) (Nat.le_refl _), this.2.2⟩

theorem SzX.weak {m : Fill} {P Q : Nat → Prop} {s : Tree E C} (sz : SzX m s h P) (hpq : ∀ y, P y → Q y) : SzX m s h Q :=
  fun y hy hq => sz y hy fun hp => hq (hpq y hp)

theorem kid_ne_self' (w : WF s lvl h) {q i x : Nat} {c : Child C} (hc : (chs s q)[i]? = some c)
    (ha : c.arena = .internal x) : q ≠ x := by
  intro e
  subst e
  exact kid_ne_self w (edge_chs.mpr ⟨c, hc, ha⟩) rfl

/-- linking a new leaf and repairing the caches -/
theorem ins_climb (g : Good A s lvl h)
    (hp : lnk s p ≠ none) (hl : lvl p = 1) (hne : chs s p ≠ [] ∨ p = s.root) {j l0 : Nat} {data : E}
    (hdata : A.okE data) (hrc : s'.rootCache = s.rootCache)
    (r : LeafEdit s s' p)
    (hch : chs s' p = (chs s p).take j ++ ⟨.leaf l0, B.elemCache data⟩ :: (chs s p).drop j)
    (hl0 : lpar s l0 = none)
    (hel : ∀ l, elm s' l = if l = l0 then some data else elm s l)
    (idx : Idx) (hidx : idx = .internal p ∨ (∃ k, idx = .leaf k ∧ .leaf k ∈ kids s' p)) (diff : Option D)
    (hdiff : diff = none ∨ diff = some (B.newCacheToDiff (B.elemCache data))) :
    ∃ s2, recursiveUpdateCache B s' idx B.useDiff diff = .ok s2 ∧ SameShape s' s2 ∧ s2.lf = s'.lf ∧ Good A s2 lvl h := by
  have w' := r.wf g.wf hp hl
  have hp' : lnk s' p ≠ none := by rw [r.lnk]; exact hp
  have hlenj : (chs s' p).length = (chs s p).length + 1 := by
    rw [hch]
    conv => rhs; rw [← List.take_append_drop j (chs s p)]
    simp only [List.length_append, List.length_cons]
    omega
  have hne' : chs s' p ≠ [] := by intro e; rw [e] at hlenj; simp at hlenj
  have hmem : ∀ c ∈ chs s' p, c = ⟨.leaf l0, B.elemCache data⟩ ∨ c ∈ chs s p := by
    intro c hc
    rw [hch] at hc
    rcases List.mem_append.mp hc with hc | hc
    · exact Or.inr (List.mem_of_mem_take hc)
    · rcases List.mem_cons.mp hc with hc | hc
      · exact Or.inl hc
      · exact Or.inr (List.mem_of_mem_drop hc)
  have hoth : ∀ c ∈ chs s p, ∃ l, c.arena = .leaf l ∧ l ≠ l0 := by
    intro c hc
    obtain ⟨i, hi⟩ := List.mem_iff_getElem?.mp hc
    have hed : Edge s p i c.arena := edge_chs.mpr ⟨c, hi, rfl⟩
    obtain ⟨l, hl⟩ := (g.wf.kid_leaf_iff hed).mp hl
    refine ⟨l, hl, ?_⟩
    intro e
    rw [hl, e] at hed
    rw [(g.wf.klf hed).2] at hl0
    cases hl0
  have entries : ∀ c ∈ chs s' p, EntryOK A s' c := by
    intro c hc
    rcases hmem c hc with rfl | hc
    · simp only [EntryOK]
      intro e he
      rw [hel, if_pos rfl] at he
      cases he; rfl
    · obtain ⟨l, h1, h2⟩ := hoth c hc
      have := g.cinv p c hc (fun h => h)
      simp only [EntryOK, h1, hel, if_neg h2] at this ⊢
      exact this
  have cok' : COk A s' := r.cok g.cok (by
    intro c hc
    rcases hmem c hc with rfl | hc
    · exact A.elem_ok _ hdata
    · exact g.cok p c hc)
  have cinv' : CInv A s' (fun a => a = .internal p) := by
    refine r.cinv g.wf (X := noX) (X' := fun a => a = .internal p) g.cinv (fun _ h => absurd h (fun h => h)) rfl ?_ ?_
    · intro l e _ hlv he _
      rw [hel, if_neg] at he
      · exact he
      · intro e; subst e; exact hlv hl0
    · intro c hc _; exact entries c hc
  have hcch : cch s' p = (cch s p).take j ++ B.elemCache data :: (cch s p).drop j := by
    simp only [cch, hch, List.map_append, List.map_take, List.map_cons, List.map_drop]
  have hisd : B.useDiff = true → chs s p ≠ [] →
      A.IsDiff (A.total (cch s p)) (B.newCacheToDiff (B.elemCache data)) (A.total (cch s' p)) := by
    intro hd hn
    rw [hcch]
    conv => arg 2; rw [← List.take_append_drop j (cch s p)]
    apply A.diff_ins hd
    rw [List.take_append_drop]
    simpa [cch] using hn
  have hpinv : ∀ (q i : Nat) (c : Child C), (chs s' q)[i]? = some c → c.arena = .internal p →
      (chs s q)[i]? = some c ∧ p ≠ s.root := by
    intro q i c hc ha
    have hqp : q ≠ p := kid_ne_self' w' hc ha
    rw [r.chs q hqp] at hc
    refine ⟨hc, ?_⟩
    intro e
    have : Edge s q i (.internal s.root) := edge_chs.mpr ⟨c, hc, by rw [ha, e]⟩
    exact g.wf.root_not_kid this
  have rok' : p ≠ s.root → RootOK A s' := by
    intro hpr
    refine RootOK.congr (s := s) ?_ hrc g.rok
    rw [r.root]
    exact r.chs _ (Ne.symm hpr)
  have stale : B.useDiff = true → ∀ d, diff = some d →
      (p = s'.root → A.IsDiff s'.rootCache d (A.total (cch s' p))) ∧
      (p ≠ s'.root → RootOK A s' ∧ ∀ (q i : Nat) (c : Child C), (chs s' q)[i]? = some c → c.arena = .internal p →
        A.IsDiff c.cache d (A.total (cch s' p))) := by
    intro hd d he
    rcases hdiff with h1 | h1
    · rw [h1] at he; cases he
    · rw [h1] at he
      cases he
      rw [r.root, hrc]
      constructor
      · intro hpr
        by_cases hnil : chs s p = []
        · have h2 := g.rok.2 (by rw [← hpr]; exact hnil)
          have : cch s' p = [B.elemCache data] := by
            rw [hcch]; simp [cch, hnil]
          rw [this]
          exact A.diff_empty hd _ _ h2
        · rw [g.rok.1 (by rw [← hpr]; exact hnil), ← hpr]
          exact hisd hd hnil
      · intro hpr
        refine ⟨rok' hpr, ?_⟩
        intro q i c hc ha
        obtain ⟨hc0, -⟩ := hpinv q i c hc ha
        have := g.cinv q c (List.mem_iff_getElem?.mpr ⟨i, hc0⟩) (fun h => h)
        simp only [EntryOK, ha] at this
        rw [this]
        exact hisd hd (hne.resolve_right hpr)
  have climb : ∃ s2, recursiveUpdateCache B s' idx B.useDiff diff = .ok s2 ∧ SameShape s' s2 ∧ s2.lf = s'.lf ∧
      COk A s2 ∧ RootOK A s2 ∧ CInv A s2 noX := by
    rcases hidx with rfl | ⟨k, rfl, hk⟩
    · refine recursiveUpdateCache_internal w' cok' hp' (Or.inl hne') cinv' _ _ (fun h => h) ?_ ?_
      · intro d h1 h2
        obtain ⟨s1, s2⟩ := stale h1 d h2
        exact ⟨⟨s1, s2⟩, Or.inl hne'⟩
      · intro _ _ hpr
        rw [r.root] at hpr
        exact rok' hpr
    · obtain ⟨i, hi⟩ := mem_kids.mp hk
      have hkl : lpar s' k ≠ none := by rw [(w'.klf hi).2]; simp
      obtain ⟨e, he⟩ := elm_some hkl
      obtain ⟨c, hc, hca⟩ := edge_chs.mp hi
      have hent := entries c (List.mem_iff_getElem?.mpr ⟨i, hc⟩)
      simp only [EntryOK, hca] at hent
      have hce := hent e he
      have hself : (cch s' p).set i (B.elemCache e) = cch s' p := by
        apply List.ext_getElem?
        intro t
        rw [List.getElem?_set]
        split
        · next ht =>
          subst ht
          rw [cch, List.getElem?_map, hc, Option.map_some, hce]
          split
          · rfl
          · next hlt => exact absurd (by simpa [cch] using (List.getElem?_eq_some_iff.mp hc).1) hlt
        · rfl
      refine recursiveUpdateCache_leaf w' cok' hi he ?_ (cinv'.mono fun a ha => Or.inr ha) _ _ (fun h => h) ?_ ?_
      · rw [← hce]; exact cok' p c (List.mem_iff_getElem?.mpr ⟨i, hc⟩)
      · intro d h1 h2
        obtain ⟨s1, s2⟩ := stale h1 d h2
        rw [hself]
        exact ⟨s1, s2⟩
      · intro _ _ hpr
        rw [r.root] at hpr
        exact rok' hpr
  obtain ⟨s2, e2, sh, hlf, cok2, rok2, cinv2⟩ := climb
  have hsame := sh.same hlf
  have g2 : Good A s2 lvl h := by
    refine ⟨sh.wf w', cinv2, cok2, rok2, ?_⟩
    intro l e he
    rw [hsame.elm, hel] at he
    split at he
    · cases he; exact hdata
    · exact g.okE l e he
  exact ⟨s2, e2, sh, hlf, g2⟩

/-- The tail of every insertion: a new leaf has been put below `p`, now the caches are repaired and `p` is split
when it is full. -/
theorem ins_finish {m : Fill} (hm1 : 1 ≤ m.lo) (hm6 : m.lo + m.d ≤ 6) (g : Good A s lvl h) (sz : Sz m s h)
    (hp : lnk s p ≠ none) (hl : lvl p = 1) (hne : chs s p ≠ [] ∨ p = s.root) {j l0 : Nat} {data : E}
    (hdata : A.okE data) (hrc : s'.rootCache = s.rootCache)
    (r : LeafEdit s s' p)
    (hch : chs s' p = (chs s p).take j ++ ⟨.leaf l0, B.elemCache data⟩ :: (chs s p).drop j)
    (hl0 : lpar s l0 = none)
    (hel : ∀ l, elm s' l = if l = l0 then some data else elm s l)
    (idx : Idx) (hidx : idx = .internal p ∨ (∃ k, idx = .leaf k ∧ .leaf k ∈ kids s' p)) (diff : Option D)
    (hdiff : diff = none ∨ diff = some (B.newCacheToDiff (B.elemCache data))) :
    ∃ s3 lvl' h', (do
        let s ← recursiveUpdateCache B s' idx B.useDiff diff
        if MAXC ≤ (chs s' p).length then split B s p else pure s : M (Tree E C)) = .ok s3 ∧
      Good A s3 lvl' h' ∧ Sz m s3 h' ∧ Same s' s3 ∧ Steps (11 ≤ (chs s p).length ∧ Jam s p) h h' := by
  have hp' : lnk s' p ≠ none := by rw [r.lnk]; exact hp
  have hlenj : (chs s' p).length = (chs s p).length + 1 := by
    rw [hch]
    conv => rhs; rw [← List.take_append_drop j (chs s p)]
    simp only [List.length_append, List.length_cons]
    omega
  obtain ⟨s2, e2, sh, hlf, g2⟩ := ins_climb g hp hl hne hdata hrc r hch hl0 hel idx hidx diff hdiff
  have hsame := sh.same hlf
  have szp := sz p hp (fun h => h)
  have sz2 : SzX m s2 h (fun y => y = p) := by
    exact SzX.congr sh ((SzX.edit r g.wf hl sz).weak (by simp))
  have hp2 : lnk s2 p ≠ none := (sh.live p).mpr hp'
  simp only [e2, bind_ok]
  by_cases hfull : MAXC ≤ (chs s' p).length
  · rw [if_pos hfull]
    have h12 : (chs s2 p).length = 12 := by
      rw [sh.len]
      simp only [MAXC] at hfull
      have := szp.1
      omega
    obtain ⟨s3, lvl3, h3, r1, r2, r3, r4, r5, r6, -, -⟩ := split_spec hm1 hm6 g2 hp2 sz2 (by omega) (by omega) (by omega)
    refine ⟨s3, lvl3, h3, r1, r2, r3, hsame.trans r4, ?_⟩
    have hj : Jam s2 p ↔ Jam s p := by
      constructor
      · intro j
        refine j.move g2.wf (k := 1) (by rw [sh.root, r.root]) (fun y _ hk => ?_) (by omega)
        rw [sh.kids, r.kids_ne (by intro e; subst e; omega)]
      · intro j
        refine j.move g.wf (k := 1) (by rw [sh.root, r.root]) (fun y _ hk => ?_) (by omega)
        rw [sh.kids, r.kids_ne (by intro e; subst e; omega)]
    rcases r6 with ⟨h1, h2⟩ | ⟨h1, h2, -⟩
    · exact .inl ⟨h1, fun h => h2 (hj.mpr h.2)⟩
    · exact .inr ⟨h1, by simp only [MAXC] at hfull; omega, hj.mp h2⟩
  · rw [if_neg hfull]
    simp only [MAXC] at hfull
    refine ⟨s2, lvl, h, rfl, g2, ?_, hsame, .inl ⟨rfl, by omega⟩⟩
    intro y hy _
    by_cases hyp : y = p
    · subst hyp
      rw [sh.len, hlenj, sh.root, r.root]
      refine ⟨by omega, fun hr => (szp.2.1 hr).keep (fun k => (k.edit r g.wf hl).shape sh) (by omega), fun hr hh => by have := szp.2.2 hr hh; omega⟩
    · exact sz2 y hy hyp

end
end GB
