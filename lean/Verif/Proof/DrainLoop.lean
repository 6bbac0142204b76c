import Verif.Proof.DrainCut

/-!
# The loops of `Drain::drop`
-/

namespace GB
variable {E C D : Type}
open Tree

section
variable {s : Tree E C} {lvl : Nat → Nat} {h : Nat} {X Y Z : List Nat} {y e : Nat} {sp ep : List PIdx} {F : Arena (LeafNode E)}

/-- the path nodes at depth `d` and below -/
def SetP (s : Tree E C) (lvl : Nat → Nat) (h y e d : Nat) (x : Nat) : Prop := lnk s x ≠ none ∧ OnP s lvl y e x ∧ d ≤ h - lvl x

theorem setP_step (w : WF s lvl h) (rs : RPath s y h sp) (re : RPath s e h ep) {d p q j k : Nat} (hd : d < h) (hp : sp[d]? = some ⟨.internal p, j⟩)
    (hq : ep[d]? = some ⟨.internal q, k⟩) (x : Nat) :
    ((SetP s lvl h y e (d + 1) x ∨ x = p) ∨ x = q) ↔ SetP s lvl h y e d x := by
  have hp1 := rs.node w hd hp
  have hq1 := re.node w hd hq
  have hpm : y ∈ lvs s lvl (.internal p) := rs.mem' w (by omega) hp
  have hqm : e ∈ lvs s lvl (.internal q) := re.mem' w (by omega) hq
  constructor
  · rintro ((⟨h1, h2, h3⟩ | rfl) | rfl)
    · exact ⟨h1, h2, by omega⟩
    · exact ⟨hp1.1, Or.inl hpm, by omega⟩
    · exact ⟨hq1.1, Or.inr hqm, by omega⟩
  · rintro ⟨h1, h2, h3⟩
    by_cases h4 : d + 1 ≤ h - lvl x
    · exact Or.inl (Or.inl ⟨h1, h2, h4⟩)
    · have := (w.lvl_pos' h1).2
      rcases h2 with h2 | h2
      · exact Or.inl (Or.inr (lvs_inj w (by omega) h2 hpm))
      · exact Or.inr (lvs_inj w (by omega) h2 hqm)

theorem isEmpty_iff {u : Tree E C} {x : Nat} {N : Node C} (hN : u.inn.get x = some N) : N.isEmpty = decide (chs u x = []) := by
  rw [chs_of hN, Node.isEmpty]
  cases N.children <;> simp

/-- the range `ds..de` below a common parent -/
theorem same_filter (c : Cuts s X Y Z y e) (w : WF s lvl h) (ne : NE s) {p i j : Nat} {a b : Idx} (ha : Edge s p i a) (hy : y ∈ lvs s lvl a)
    (hb : Edge s p j b) (he : e ∈ lvs s lvl b) (hne : a ≠ b) {ds de : Nat} (hds : ds = if Dead s lvl Y a then i else i + 1)
    (hde : de = if Dead s lvl Y b then j + 1 else j) : ds ≤ de ∧ de ≤ (chs s p).length ∧
    (∀ (k : Nat) (c : Child C), (chs s p)[k]? = some c → k < ds ∨ de ≤ k → keepB s lvl Y c = true) ∧
    (∀ (k : Nat) (c : Child C), (chs s p)[k]? = some c → ds ≤ k → k < de → keepB s lvl Y c = false) := by
  have hle := same_le c w ha hy hb he
  have hij : i ≠ j := by
    rintro rfl
    have h1 : (kids s p)[i]? = some a := ha
    have h2 : (kids s p)[i]? = some b := hb
    rw [h1] at h2
    cases h2
    exact hne rfl
  have hjl : j < (chs s p).length := by
    have := (List.getElem?_eq_some_iff.mp hb).1
    rwa [kids_chs, List.length_map] at this
  have hed : ∀ (k : Nat) (c : Child C), (chs s p)[k]? = some c → Edge s p k c.arena := fun k c hc => edge_chs.mpr ⟨c, hc, rfl⟩
  have hsa : ∀ (c : Child C), (chs s p)[i]? = some c → c.arena = a := by
    intro c hc
    have h1 : (kids s p)[i]? = some c.arena := hed i c hc
    rw [show (kids s p)[i]? = some a from ha] at h1
    cases h1; rfl
  have hsb : ∀ (c : Child C), (chs s p)[j]? = some c → c.arena = b := by
    intro c hc
    have h1 : (kids s p)[j]? = some c.arena := hed j c hc
    rw [show (kids s p)[j]? = some b from hb] at h1
    cases h1; rfl
  refine ⟨?_, ?_, ?_, ?_⟩
  · split at hds <;> split at hde <;> omega
  · split at hde <;> omega
  · intro k ch hc hk
    rw [keep_iff]
    rcases hk with hk | hk
    · by_cases hki : k < i
      · exact start_left c w ne ha hy (hed k ch hc) hki
      · split at hds
        · omega
        · next hnd => rw [show k = i by omega] at hc; rw [hsa ch hc]; exact hnd
    · by_cases hkj : j < k
      · exact end_right c w ne hb he (hed k ch hc) hkj
      · split at hde
        · omega
        · next hnd => rw [show k = j by omega] at hc; rw [hsb ch hc]; exact hnd
  · intro k ch hc h1 h2
    have key : Dead s lvl Y ch.arena := by
      by_cases hki : k = i
      · split at hds
        · next hd => rw [hki] at hc; rw [hsa ch hc]; exact hd
        · omega
      · by_cases hkj : k = j
        · split at hde
          · next hd => rw [hkj] at hc; rw [hsb ch hc]; exact hd
          · omega
        · exact same_mid c w ha hy hb he (hed k ch hc) (by split at hds <;> omega) (by split at hde <;> omega)
    simp only [keepB, Dead] at key ⊢
    rw [key]; rfl

/-- the range `ds..` below the start parent -/
theorem start_filter (c : Cuts s X Y Z y e) (w : WF s lvl h) (ne : NE s) {p i : Nat} {a : Idx} (ha : Edge s p i a) (hy : y ∈ lvs s lvl a)
    (hne : e ∉ lvs s lvl (.internal p)) {ds : Nat} (hds : ds = if Dead s lvl Y a then i else i + 1) : ds ≤ (chs s p).length ∧
    (∀ (k : Nat) (c : Child C), (chs s p)[k]? = some c → k < ds → keepB s lvl Y c = true) ∧
    (∀ (k : Nat) (c : Child C), (chs s p)[k]? = some c → ds ≤ k → keepB s lvl Y c = false) := by
  have hil : i < (chs s p).length := by
    have := (List.getElem?_eq_some_iff.mp ha).1
    rwa [kids_chs, List.length_map] at this
  have hed : ∀ (k : Nat) (c : Child C), (chs s p)[k]? = some c → Edge s p k c.arena := fun k c hc => edge_chs.mpr ⟨c, hc, rfl⟩
  have hsa : ∀ (c : Child C), (chs s p)[i]? = some c → c.arena = a := by
    intro c hc
    have h1 : (kids s p)[i]? = some c.arena := hed i c hc
    rw [show (kids s p)[i]? = some a from ha] at h1
    cases h1; rfl
  refine ⟨by split at hds <;> omega, ?_, ?_⟩
  · intro k ch hc hk
    rw [keep_iff]
    by_cases hki : k < i
    · exact start_left c w ne ha hy (hed k ch hc) hki
    · split at hds
      · omega
      · next hnd => rw [show k = i by omega] at hc; rw [hsa ch hc]; exact hnd
  · intro k ch hc h1
    have key : Dead s lvl Y ch.arena := by
      by_cases hki : k = i
      · split at hds
        · next hd => rw [hki] at hc; rw [hsa ch hc]; exact hd
        · omega
      · exact apart_right c w ha hy (hed k ch hc) (by split at hds <;> omega) hne
    simp only [keepB, Dead] at key ⊢
    rw [key]; rfl

/-- the range `..de` below the end parent -/
theorem end_filter (c : Cuts s X Y Z y e) (w : WF s lvl h) (ne : NE s) {p j : Nat} {b : Idx} (hb : Edge s p j b) (he : e ∈ lvs s lvl b)
    (hne : y ∉ lvs s lvl (.internal p)) {de : Nat} (hde : de = if Dead s lvl Y b then j + 1 else j) : de ≤ (chs s p).length ∧
    (∀ (k : Nat) (c : Child C), (chs s p)[k]? = some c → de ≤ k → keepB s lvl Y c = true) ∧
    (∀ (k : Nat) (c : Child C), (chs s p)[k]? = some c → k < de → keepB s lvl Y c = false) := by
  have hil : j < (chs s p).length := by
    have := (List.getElem?_eq_some_iff.mp hb).1
    rwa [kids_chs, List.length_map] at this
  have hed : ∀ (k : Nat) (c : Child C), (chs s p)[k]? = some c → Edge s p k c.arena := fun k c hc => edge_chs.mpr ⟨c, hc, rfl⟩
  have hsb : ∀ (c : Child C), (chs s p)[j]? = some c → c.arena = b := by
    intro c hc
    have h1 : (kids s p)[j]? = some c.arena := hed j c hc
    rw [show (kids s p)[j]? = some b from hb] at h1
    cases h1; rfl
  refine ⟨by split at hde <;> omega, ?_, ?_⟩
  · intro k ch hc hk
    rw [keep_iff]
    by_cases hkj : j < k
    · exact end_right c w ne hb he (hed k ch hc) hkj
    · split at hde
      · omega
      · next hnd => rw [show k = j by omega] at hc; rw [hsb ch hc]; exact hnd
  · intro k ch hc h1
    have key : Dead s lvl Y ch.arena := by
      by_cases hkj : k = j
      · split at hde
        · next hd => rw [hkj] at hc; rw [hsb ch hc]; exact hd
        · omega
      · exact apart_left c w hb he (hed k ch hc) (by split at hde <;> omega) hne
    simp only [keepB, Dead] at key ⊢
    rw [key]; rfl

/-- membership in the list of cut children -/
theorem del_iff {p ds de : Nat} (h1 : ∀ (k : Nat) (c : Child C), (chs s p)[k]? = some c → k < ds ∨ de ≤ k → keepB s lvl Y c = true)
    (h2 : ∀ (k : Nat) (c : Child C), (chs s p)[k]? = some c → ds ≤ k → k < de → keepB s lvl Y c = false) (a : Idx) :
    a ∈ (((chs s p).take de).drop ds).map Child.arena ↔ a ∈ kids s p ∧ Dead s lvl Y a := by
  have kd : ∀ c : Child C, keepB s lvl Y c = false ↔ Dead s lvl Y c.arena := by intro c; simp [keepB, Dead]
  rw [List.mem_map]
  constructor
  · rintro ⟨c, hc, rfl⟩
    obtain ⟨k, e1, e2, e3⟩ := mem_range.mp hc
    exact ⟨by rw [kids_chs]; exact List.mem_map_of_mem (List.mem_of_getElem? e1), (kd c).mp (h2 k c e1 e2 e3)⟩
  · rintro ⟨hk, hd⟩
    rw [kids_chs, List.mem_map] at hk
    obtain ⟨c, hc, rfl⟩ := hk
    refine ⟨c, ?_, rfl⟩
    obtain ⟨k, hk⟩ := List.mem_iff_getElem?.mp hc
    rw [mem_range]
    refine ⟨k, hk, ?_, ?_⟩
    · apply Decidable.byContradiction
      intro hn
      have := h1 k c hk (Or.inl (by omega))
      rw [(kd c).mpr hd] at this
      cases this
    · apply Decidable.byContradiction
      intro hn
      have := h1 k c hk (Or.inr (by omega))
      rw [(kd c).mpr hd] at this
      cases this

theorem decide_dead {a : Idx} {α : Type} (x y : α) : (if decide (Dead s lvl Y a) = true then x else y) = if Dead s lvl Y a then x else y := by
  by_cases hd : Dead s lvl Y a
  · rw [if_pos (decide_eq_true hd), if_pos hd]
  · rw [if_neg (by simpa using hd), if_neg hd]

/-- the first loop -/
theorem dropLoop1_spec (c : Cuts s X Y Z y e) (w : WF s lvl h) (ne : NE s) (rs : RPath s y h sp) (re : RPath s e h ep) :
    ∀ (d : Nat) (u : Tree E C) (del : List Idx), d < h → CutInv s lvl Y F u (SetP s lvl h y e d) del →
    ∃ d' del' u' x i j, dropLoop1 sp ep d u del = .ok (d', del', u') ∧ d' < h ∧ CutInv s lvl Y F u' (SetP s lvl h y e d') del' ∧
      sp[d']? = some ⟨.internal x, i⟩ ∧ ep[d']? = some ⟨.internal x, j⟩ := by
  intro d
  induction d with
  | zero =>
    intro u del hd j
    obtain ⟨i1, h1⟩ := rs.top
    obtain ⟨i2, h2⟩ := re.top
    refine ⟨0, del, u, s.root, i1, i2, ?_, hd, j, h1, h2⟩
    rw [dropLoop1.eq_def]
    simp only [vget_ok h1, vget_ok h2, bind_ok, if_true]
    rfl
  | succ d ih =>
    intro u del hd j
    obtain ⟨p, pj, a, i, s1, s2, s3⟩ := rs.step d (by omega)
    obtain ⟨q, qj, b, k, t1, t2, t3⟩ := re.step d (by omega)
    obtain ⟨a1, ai, ha⟩ := rs.get hd
    obtain ⟨b1, bi, hb⟩ := re.get hd
    rw [ha] at s2; cases s2
    rw [hb] at t2; cases t2
    have hya : y ∈ lvs s lvl (.internal a1) := rs.mem' w (by omega) ha
    have heb : e ∈ lvs s lvl (.internal b1) := re.mem' w (by omega) hb
    obtain ⟨na1, na2⟩ := rs.node w hd ha
    obtain ⟨nb1, nb2⟩ := re.node w hd hb
    obtain ⟨np1, np2⟩ := rs.node w (by omega) s1
    obtain ⟨nq1, nq2⟩ := re.node w (by omega) t1
    by_cases hab : (Idx.internal a1 : Idx) = .internal b1
    · refine ⟨d + 1, del, u, a1, i, k, ?_, hd, j, ha, by rw [hb, hab]⟩
      rw [dropLoop1.eq_def]
      simp only [vget_ok ha, vget_ok hb, bind_ok, if_pos hab]
      rfl
    · have hSa : SetP s lvl h y e (d + 1) a1 := ⟨na1, Or.inl hya, by omega⟩
      have hSb : SetP s lvl h y e (d + 1) b1 := ⟨nb1, Or.inr heb, by omega⟩
      obtain ⟨An, hAn⟩ := lnk_isSome.mp (j.live.mpr na1)
      obtain ⟨Bn, hBn⟩ := lnk_isSome.mp (j.live.mpr nb1)
      have ea : An.isEmpty = decide (Dead s lvl Y (.internal a1)) := by
        rw [isEmpty_iff hAn]; exact decide_eq_decide.mpr (j.empty w na1 hSa)
      have eb : Bn.isEmpty = decide (Dead s lvl Y (.internal b1)) := by
        rw [isEmpty_iff hBn]; exact decide_eq_decide.mpr (j.empty w nb1 hSb)
      have hSp : ¬ SetP s lvl h y e (d + 1) p := by rintro ⟨-, -, h3⟩; omega
      have hSq : ¬ SetP s lvl h y e (d + 1) q := by rintro ⟨-, -, h3⟩; omega
      obtain ⟨Pn, hPn⟩ := lnk_isSome.mp (j.live.mpr np1)
      have hPc : Pn.children = chs s p := by rw [← chs_of hPn, j.unproc p hSp]
      have hl2 : 2 ≤ lvl p := by omega
      have hl2' : 2 ≤ lvl q := by omega
      generalize hds : (if Dead s lvl Y (.internal a1) then i else i + 1) = ds
      generalize hde : (if Dead s lvl Y (.internal b1) then k + 1 else k) = de
      rw [dropLoop1.eq_def]
      simp only [vget_ok ha, vget_ok hb, bind_ok, if_neg hab, getInIdx_ok hAn, getInIdx_ok hBn, ea, eb, decide_dead, hds, hde, vget_ok s1, vget_ok t1,
        Idx.unwrapInternal]
      by_cases hpq : p = q
      · subst hpq
        simp only [if_true, getIn_ok hPn, bind_ok, hPc]
        obtain ⟨f1, f2, f3, f4⟩ := same_filter c w ne s3 hya t3 heb hab hds.symm hde.symm
        have hfil := filter_range f1 f3 f4
        obtain ⟨u', e1, e2⟩ := j.cut w hPn hSp hl2 (k := ds) (by
          intro m ch hm hc
          rw [hfil, List.getElem?_append_left (by rw [List.length_take]; omega), List.getElem?_take, if_pos hm] at hc
          exact hc) (del_iff f3 f4)
        rw [hfil] at e1
        obtain ⟨d', del', u'', x, i', j', r1, r2⟩ := ih u' _ (by omega) (e2.congr (fun x => by
          rw [← setP_step w rs re (by omega) s1 t1]
          exact ⟨fun h => Or.inl h, fun h => h.elim id Or.inr⟩))
        refine ⟨d', del', u'', x, i', j', ?_, r2⟩
        rw [decide_eq_true ⟨f1, f2⟩]
        simp only [assertM, if_true, bind_ok, delRange_ok f1 f2, e1]
        exact r1
      · have hidx : ¬ (Idx.internal p = .internal q) := by intro e; cases e; exact hpq rfl
        have hep : e ∉ lvs s lvl (.internal p) := fun hm => hpq (lvs_inj w (by omega) hm (kid_lvs w t3 heb))
        have hyq : y ∉ lvs s lvl (.internal q) := fun hm => hpq (lvs_inj w (by omega) (kid_lvs w s3 hya) hm)
        obtain ⟨f1, f2, f3⟩ := start_filter c w ne s3 hya hep hds.symm
        obtain ⟨g1, g2, g3⟩ := end_filter c w ne t3 heb hyq hde.symm
        have f2' : ∀ (k : Nat) (c : Child C), (chs s p)[k]? = some c → k < ds ∨ (chs s p).length ≤ k → keepB s lvl Y c = true := by
          intro k c hc hk
          rcases hk with hk | hk
          · exact f2 k c hc hk
          · have := (List.getElem?_eq_some_iff.mp hc).1; omega
        have f3' : ∀ (k : Nat) (c : Child C), (chs s p)[k]? = some c → ds ≤ k → k < (chs s p).length → keepB s lvl Y c = false :=
          fun k c hc hk _ => f3 k c hc hk
        have hfil := filter_range f1 f2' f3'
        rw [List.drop_length, List.append_nil] at hfil
        have hdelP := del_iff f2' f3'
        rw [List.take_length] at hdelP
        have j1 := j.cutEnd w hPn hSp hl2 hfil hdelP
        have hSq' : ¬ (SetP s lvl h y e (d + 1) q ∨ q = p) := by rintro (hh | hh); exact hSq hh; exact hpq hh.symm
        obtain ⟨Qn, hQn⟩ := lnk_isSome.mp (j1.live.mpr nq1)
        have hQc : Qn.children = chs s q := by rw [← chs_of hQn, j1.unproc q hSq']
        have g2' : ∀ (k : Nat) (c : Child C), (chs s q)[k]? = some c → k < 0 ∨ de ≤ k → keepB s lvl Y c = true := by
          intro k c hc hk
          exact g2 k c hc (by omega)
        have g3' : ∀ (k : Nat) (c : Child C), (chs s q)[k]? = some c → 0 ≤ k → k < de → keepB s lvl Y c = false :=
          fun k c hc _ hk => g3 k c hc hk
        have hfilQ := filter_range (Nat.zero_le _) g2' g3'
        have hdelQ := del_iff g2' g3'
        rw [List.drop_zero] at hdelQ
        obtain ⟨u', e1, e2⟩ := j1.cut w hQn hSq' hl2' (k := 0) (by intro m ch hm; omega) hdelQ
        rw [hfilQ] at e1
        obtain ⟨d', del', u'', x, i', j', r1, r2⟩ := ih u' _ (by omega) (e2.congr (fun x => setP_step w rs re (by omega) s1 t1 x))
        refine ⟨d', del', u'', x, i', j', ?_, r2⟩
        rw [if_neg hidx]
        simp only [getIn_ok hPn, bind_ok, hPc, decide_eq_true f1, assertM, if_true, delRange_ok f1 (Nat.le_refl _), List.drop_length, List.append_nil,
          getIn_ok hQn, hQc, decide_eq_true g1, delRange_ok (Nat.zero_le _) g1, e1]
        exact r1

/-- the second loop: afterwards every node that stays has lost exactly its dead children -/
theorem dropLoop2_spec (c : Cuts s X Y Z y e) (w : WF s lvl h) (ne : NE s) (rs : RPath s y h sp) (re : RPath s e h ep) :
    ∀ (d : Nat) (u : Tree E C) (del : List Idx) (x1 i1 j1 : Nat), d < h → CutInv s lvl Y F u (SetP s lvl h y e d) del →
    sp[d]? = some ⟨.internal x1, i1⟩ → ep[d]? = some ⟨.internal x1, j1⟩ →
    ∃ del' u' S, dropLoop2 sp d u del = .ok (del', u') ∧ CutInv s lvl Y F u' S del' ∧
      ∀ x, lnk s x ≠ none → (x = s.root ∨ ¬ Dead s lvl Y (.internal x)) → ¬ S x → ∀ a ∈ kids s x, ¬ Dead s lvl Y a := by
  -- nodes off the paths
  have hroot : OnP s lvl y e s.root := by
    obtain ⟨j, hj⟩ := rs.top
    exact Or.inl (rs.mem' w (Nat.zero_le _) hj)
  have off : ∀ x, (x = s.root ∨ ¬ Dead s lvl Y (.internal x)) → ¬ OnP s lvl y e x → ∀ a ∈ kids s x, ¬ Dead s lvl Y a := by
    intro x hx hn a ha hd
    obtain ⟨i, hi⟩ := mem_kids.mp ha
    rcases hx with rfl | hx
    · exact hn hroot
    · exact hx (off_path c w ne hi hd hn)
  intro d
  induction d with
  | zero =>
    intro u del x1 i1 j1 hd j h1 h2
    refine ⟨del, u, _, rfl, j, ?_⟩
    intro x hx hr hn
    exact off x hr (fun hp => hn ⟨hx, hp, Nat.zero_le _⟩)
  | succ d ih =>
    intro u del x1 i1 j1 hd j h1 h2
    obtain ⟨p, pj, a, i, s1, s2, s3⟩ := rs.step d (by omega)
    obtain ⟨q, qj, b, k, t1, t2, t3⟩ := re.step d (by omega)
    rw [h1] at s2; cases s2
    rw [h2] at t2; cases t2
    obtain ⟨rfl, rfl⟩ := w.kid_in_inj s3 t3
    have hy1 : y ∈ lvs s lvl (.internal x1) := rs.mem' w (by omega) h1
    have he1 : e ∈ lvs s lvl (.internal x1) := re.mem' w (by omega) h2
    obtain ⟨nx1, nx2⟩ := rs.node w hd h1
    obtain ⟨np1, np2⟩ := rs.node w (by omega) s1
    have hSx : SetP s lvl h y e (d + 1) x1 := ⟨nx1, Or.inl hy1, by omega⟩
    have hSp : ¬ SetP s lvl h y e (d + 1) p := by rintro ⟨-, -, h3⟩; omega
    obtain ⟨Xn, hXn⟩ := lnk_isSome.mp (j.live.mpr nx1)
    obtain ⟨Pn, hPn⟩ := lnk_isSome.mp (j.live.mpr np1)
    have hPc : Pn.children = chs s p := by rw [← chs_of hPn, j.unproc p hSp]
    have ex : Xn.isEmpty = decide (Dead s lvl Y (.internal x1)) := by
      rw [isEmpty_iff hXn]; exact decide_eq_decide.mpr (j.empty w nx1 hSx)
    have hxp : x1 ≠ p := fun e => hSp (e ▸ hSx)
    simp only [dropLoop2, vget_ok h1, vget_ok s1, bind_ok, Idx.unwrapInternal, assertM_true (decide_eq_true hxp), getIn_ok hXn, getIn_ok hPn, ex, decide_dead, hPc]
    by_cases hdx : Dead s lvl Y (.internal x1)
    · rw [if_pos hdx]
      obtain ⟨ch, hch, hcha⟩ := edge_chs.mp s3
      have hed : ∀ (k : Nat) (c : Child C), (chs s p)[k]? = some c → Edge s p k c.arena := fun k c hc => edge_chs.mpr ⟨c, hc, rfl⟩
      have f3 : ∀ (k : Nat) (c : Child C), (chs s p)[k]? = some c → k < i1 ∨ i1 + 1 ≤ k → keepB s lvl Y c = true := by
        intro k ch hc hk
        rw [keep_iff]
        rcases hk with hk | hk
        · exact start_left c w ne s3 hy1 (hed k ch hc) hk
        · exact end_right c w ne s3 he1 (hed k ch hc) hk
      have f4 : ∀ (k : Nat) (c : Child C), (chs s p)[k]? = some c → i1 ≤ k → k < i1 + 1 → keepB s lvl Y c = false := by
        intro k ch' hc hk1 hk2
        rw [show k = i1 by omega, hch] at hc
        cases hc
        have hdx' := hdx
        simp only [keepB, Dead, hcha] at hdx' ⊢
        rw [hdx']; rfl
      have hfil := filter_range (Nat.le_succ i1) f3 f4
      have hil := (List.getElem?_eq_some_iff.mp hch).1
      have hdel := del_iff f3 f4
      have hone : (((chs s p).take (i1 + 1)).drop i1).map Child.arena = [ch.arena] := by
        have : ((chs s p).take (i1 + 1)).drop i1 = [ch] := by
          rw [List.take_add_one, hch, List.drop_append, List.drop_eq_nil_of_le (by rw [List.length_take]; omega), List.length_take,
            show i1 - min i1 (chs s p).length = 0 by omega]
          rfl
        rw [this]; rfl
      rw [hone] at hdel
      obtain ⟨u', e1, e2⟩ := j.cut w hPn hSp (by omega) (k := i1) (by
        intro m ch hm hc
        rw [hfil, List.getElem?_append_left (by rw [List.length_take]; omega), List.getElem?_take, if_pos hm] at hc
        exact hc) hdel
      rw [hfil, ← List.eraseIdx_eq_take_drop_succ] at e1
      obtain ⟨del', u'', S, r1, r2⟩ := ih u' _ p pj qj (by omega) (e2.congr (fun x => by
        rw [← setP_step w rs re (by omega) s1 t1]
        exact ⟨fun h => Or.inl h, fun h => h.elim id Or.inr⟩)) s1 t1
      refine ⟨del', u'', S, ?_, r2⟩
      simp only [vget_ok hch, bind_ok, hcha, decide_true, assertM, if_true, vremove, hch, e1]
      rw [hcha] at r1
      exact r1
    · rw [if_neg hdx]
      refine ⟨del, u, _, rfl, j, ?_⟩
      intro x hx hr hn
      by_cases ho : OnP s lvl y e x
      · -- `x` is above `x1` on the paths
        have hlt : h - lvl x < d + 1 := by
          apply Decidable.byContradiction
          intro hc
          exact hn ⟨hx, ho, by omega⟩
        have hxl := w.lvl_pos' hx
        obtain ⟨x', j', a', i', u1, u2, u3⟩ := rs.step (h - lvl x) (by omega)
        obtain ⟨nx1', nx2'⟩ := rs.node w (by omega) u1
        have up : ∀ m, m ∈ lvs s lvl (.internal x1) → m ∈ lvs s lvl a' := fun m hm =>
          rs.mono w (d + 1 - (h - lvl x + 1)) (h - lvl x + 1) (by omega) u2 (by rw [show h - lvl x + 1 + (d + 1 - (h - lvl x + 1)) = d + 1 by omega]; exact h1) hm
        have hxx : x = x' := by
          rcases ho with ho | ho
          · exact lvs_inj w (by omega) ho (kid_lvs w u3 (up y hy1))
          · exact lvs_inj w (by omega) ho (kid_lvs w u3 (up e he1))
        subst hxx
        intro b hb hdb
        obtain ⟨k, hk⟩ := mem_kids.mp hb
        rcases Nat.lt_trichotomy k i' with hlt | heq | hgt
        · exact start_left c w ne u3 (up y hy1) hk hlt hdb
        · subst heq
          have h1 : (kids s x)[k]? = some b := hk
          rw [show (kids s x)[k]? = some a' from u3] at h1
          cases h1
          exact hdx (dead_iff.mpr fun m hm => dead_iff.mp hdb m (up m hm))
        · exact end_right c w ne u3 (up e he1) hk hgt hdb
      · exact off x hr ho

end
end GB
