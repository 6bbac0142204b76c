import Verif.Proof.Context

/-!
# Regrouping the grandchildren of a node

Splitting a node, moving children between neighbours, merging neighbours and removing an empty node have
the same form: the children of one node `p` are replaced by other nodes that together hold the same
grandchildren in the same order.
-/

namespace GB
variable {E C D : Type}
open Tree

/-- child list of an index (leaves have none) -/
def chsI (s : Tree E C) : Idx → List (Child C)
  | .leaf _ => []
  | .internal y => chs s y

/-- the grandchild entries of a node in order -/
def grand (s : Tree E C) (p : Nat) : List (Child C) := (chs s p).flatMap fun c => chsI s c.arena

/-- `s'` arises from `s` by regrouping the grandchildren of `p`. -/
structure Regroup (s s' : Tree E C) (p : Nat) : Prop where
  root : s'.root = s.root
  items : s.inn.items.length ≤ s'.inn.items.length
  elm : ∀ l, elm s' l = elm s l
  lpar_live : ∀ l, lpar s' l = none ↔ lpar s l = none
  p_lnk : lnk s' p = lnk s p
  p_kid : ∀ (i : Nat) (a : Idx), Edge s' p i a → ∃ g, a = .internal g ∧ lnk s' g = some (some p, i) ∧
    (lnk s g = none ∨ .internal g ∈ kids s p)
  removed : ∀ y, .internal y ∈ kids s p → .internal y ∉ kids s' p → lnk s' y = none
  kin' : ∀ g i y, .internal g ∈ kids s' p → Edge s' g i (.internal y) → lnk s' y = some (some g, i)
  klf' : ∀ g i l, .internal g ∈ kids s' p → Edge s' g i (.leaf l) → lpar s' l = some g
  fr_lnk : ∀ y, .internal y ∉ kids s p → .internal y ∉ kids s' p →
    (∀ g, .internal g ∈ kids s p → .internal y ∉ kids s g) → lnk s' y = lnk s y
  fr_chs : ∀ y, y ≠ p → .internal y ∉ kids s p → .internal y ∉ kids s' p → chs s' y = chs s y
  fr_lpar : ∀ l, (∀ g, .internal g ∈ kids s p → .leaf l ∉ kids s g) → lpar s' l = lpar s l
  flat : grand s' p = grand s p

theorem mem_kids_chs {s : Tree E C} {x : Nat} {a : Idx} : a ∈ kids s x ↔ ∃ c ∈ chs s x, c.arena = a := by
  rw [kids_chs, List.mem_map]

theorem mem_grand {s : Tree E C} {p : Nat} {c : Child C} :
    c ∈ grand s p ↔ ∃ g, .internal g ∈ kids s p ∧ c ∈ chs s g := by
  simp only [grand, List.mem_flatMap]
  constructor
  · rintro ⟨c1, h1, h2⟩
    cases ha : c1.arena with
    | leaf l => rw [ha] at h2; simp [chsI] at h2
    | internal g => exact ⟨g, mem_kids_chs.mpr ⟨c1, h1, ha⟩, by rw [ha] at h2; exact h2⟩
  · rintro ⟨g, h1, h2⟩
    obtain ⟨c1, h3, h4⟩ := mem_kids_chs.mp h1
    exact ⟨c1, h3, by rw [h4]; exact h2⟩

theorem grand_kids (s : Tree E C) (p : Nat) : (grand s p).map Child.arena =
    (kids s p).flatMap fun a => (chsI s a).map Child.arena := by
  simp [grand, List.map_flatMap, kids_chs, List.flatMap_map]

theorem nodup_of_flatMap {α β : Type} {l : List α} {f : α → List β} (h : (l.flatMap f).Nodup) :
    ∀ a ∈ l, (f a).Nodup := by
  induction l with
  | nil => intro a ha; simp at ha
  | cons b l ih =>
    rw [List.flatMap_cons, List.nodup_append] at h
    intro a ha
    rcases List.mem_cons.mp ha with rfl | ha
    · exact h.1
    · exact ih h.2.1 a ha

theorem grand_nodup {s : Tree E C} {lvl : Nat → Nat} {h : Nat} (w : WF s lvl h) (p : Nat) :
    ((grand s p).map Child.arena).Nodup := by
  rw [grand_kids]
  apply nodup_flatMap'
  · intro a _
    cases a with
    | leaf l => simp [chsI]
    | internal y => simp only [chsI]; rw [← kids_chs]; exact w.kids_nodup y
  · have hn := w.kids_nodup p
    refine hn.imp ?_
    intro a b hab x hxa hxb
    cases a with
    | leaf l => simp [chsI] at hxa
    | internal y =>
      cases b with
      | leaf l => simp [chsI] at hxb
      | internal z =>
        simp only [chsI] at hxa hxb
        rw [← kids_chs] at hxa hxb
        obtain ⟨i, hi⟩ := mem_kids.mp hxa
        obtain ⟨j, hj⟩ := mem_kids.mp hxb
        exact hab (by rw [(w.kid_inj hi hj).1])

section
variable {s s' : Tree E C} {lvl : Nat → Nat} {h p : Nat}

/-- levels after a regrouping -/
def relvl (s : Tree E C) (lvl : Nat → Nat) (p : Nat) (y : Nat) : Nat :=
  if lnk s y = none then lvl p - 1 else lvl y

theorem relvl_live {y : Nat} (hy : lnk s y ≠ none) : relvl s lvl p y = lvl y := by
  simp [relvl, hy]

namespace Regroup
variable (r : Regroup s s' p) (w : WF s lvl h) (hp : lnk s p ≠ none) (hl : 2 ≤ lvl p)
include r

theorem gkids : (kids s' p).flatMap (fun a => (chsI s' a).map Child.arena) =
    (kids s p).flatMap (fun a => (chsI s a).map Child.arena) := by
  rw [← grand_kids, ← grand_kids, r.flat]

/-- an entry of a new group was an entry of an old group -/
theorem old_of_new {g : Nat} {c : Child C} (hg : .internal g ∈ kids s' p) (hc : c ∈ chs s' g) :
    ∃ g0, .internal g0 ∈ kids s p ∧ c ∈ chs s g0 := by
  rw [← mem_grand, ← r.flat, mem_grand]
  exact ⟨g, hg, hc⟩

theorem new_of_old {g : Nat} {c : Child C} (hg : .internal g ∈ kids s p) (hc : c ∈ chs s g) :
    ∃ g0, .internal g0 ∈ kids s' p ∧ c ∈ chs s' g0 := by
  rw [← mem_grand, r.flat, mem_grand]
  exact ⟨g, hg, hc⟩

include w

theorem p_not_kid : Idx.internal p ∉ kids s p := by
  intro hm
  obtain ⟨i, hi⟩ := mem_kids.mp hm
  have := (w.kin hi).1
  omega

theorem p_not_kid' : Idx.internal p ∉ kids s' p := by
  intro hm
  obtain ⟨i, hi⟩ := mem_kids.mp hm
  obtain ⟨g, h1, h2, h3⟩ := r.p_kid i _ hi
  cases h1
  rcases h3 with h3 | h3
  · rw [r.p_lnk, h3] at h2
    cases h2
  · exact r.p_not_kid w h3

include hp hl

theorem relvl_kid {g : Nat} (hg : .internal g ∈ kids s' p) : relvl s lvl p g = lvl p - 1 := by
  obtain ⟨i, hi⟩ := mem_kids.mp hg
  obtain ⟨g', h1, h2, h3⟩ := r.p_kid i _ hi
  cases h1
  unfold relvl
  split
  · rfl
  · next hne =>
    rcases h3 with h3 | h3
    · exact absurd h3 hne
    · obtain ⟨j, hj⟩ := mem_kids.mp h3
      have := (w.kin hj).1
      omega

/-- a node whose child list is not touched -/
theorem wf (hi : h ≤ s'.inn.items.length) : WF s' (relvl s lvl p) h := by
  have hpk := r.p_not_kid w
  have hpk' := r.p_not_kid' w
  -- parents of a grandchild
  have gpar : ∀ g a, .internal g ∈ kids s p → a ∈ kids s g → ∀ q j, Edge s q j a → q = g := by
    intro g a hg ha q j hj
    obtain ⟨i, hi⟩ := mem_kids.mp ha
    exact (w.kid_inj hj hi).1
  have kidp : ∀ y, .internal y ∈ kids s p → ∀ q j, Edge s q j (.internal y) → q = p := by
    intro y hy q j hj
    obtain ⟨i, hi⟩ := mem_kids.mp hy
    exact (w.kid_inj hj hi).1
  -- classification of a node of s' with a child
  have hcases : ∀ q, lnk s' q ≠ none → q = p ∨ .internal q ∈ kids s' p ∨
      (q ≠ p ∧ .internal q ∉ kids s p ∧ .internal q ∉ kids s' p) := by
    intro q hq
    by_cases h1 : q = p
    · exact Or.inl h1
    · by_cases h2 : Idx.internal q ∈ kids s' p
      · exact Or.inr (Or.inl h2)
      · by_cases h3 : Idx.internal q ∈ kids s p
        · exact absurd (r.removed q h3 h2) hq
        · exact Or.inr (Or.inr ⟨h1, h3, h2⟩)
  -- untouched nodes keep their edges
  have hfr : ∀ q, q ≠ p → Idx.internal q ∉ kids s p → Idx.internal q ∉ kids s' p → kids s' q = kids s q := by
    intro q h1 h2 h3
    rw [kids_chs, kids_chs, r.fr_chs q h1 h2 h3]
  have new_not_kid : ∀ y, .internal y ∈ kids s' p → ∀ q j, Edge s q j (.internal y) → q = p := by
    intro y hy q j hj
    obtain ⟨i, hi⟩ := mem_kids.mp hy
    obtain ⟨g, h1, h2, h3⟩ := r.p_kid i _ hi
    cases h1
    rcases h3 with h3 | h3
    · have := (w.kin hj).2
      rw [h3] at this
      cases this
    · exact kidp y h3 q j hj
  refine WF.of_views ?_ ?_ w.h_pos hi ?_ ?_ ?_ ?_ ?_ ?_
  · obtain ⟨i, hi⟩ := w.root'
    refine ⟨i, ?_⟩
    rw [r.root, r.fr_lnk, hi]
    · intro hm; obtain ⟨j, hj⟩ := mem_kids.mp hm; exact w.root_not_kid hj
    · intro hm
      obtain ⟨j, hj⟩ := mem_kids.mp hm
      obtain ⟨g, h1, h2, h3⟩ := r.p_kid j _ hj
      cases h1
      rcases h3 with h3 | h3
      · rw [hi] at h3; cases h3
      · obtain ⟨j, hj⟩ := mem_kids.mp h3; exact w.root_not_kid hj
    · intro g _ hm; obtain ⟨j, hj⟩ := mem_kids.mp hm; exact w.root_not_kid hj
  · rw [r.root]
    obtain ⟨i, hi⟩ := w.root'
    rw [relvl_live (by rw [hi]; simp)]
    exact w.root_lvl
  · -- internal edges
    intro q i y he
    rcases hcases q (edge_live he) with rfl | hq | ⟨h1, h2, h3⟩
    · obtain ⟨g, hg, h4, -⟩ := r.p_kid i _ he
      cases hg
      refine ⟨?_, h4⟩
      rw [relvl_live hp, r.relvl_kid w hp hl (mem_kids.mpr ⟨i, he⟩)]
      omega
    · refine ⟨?_, r.kin' q i y hq he⟩
      obtain ⟨c, hc, ha⟩ := edge_chs.mp he
      obtain ⟨g0, hg0, hc0⟩ := r.old_of_new hq (List.mem_iff_getElem?.mpr ⟨i, hc⟩)
      have : Idx.internal y ∈ kids s g0 := mem_kids_chs.mpr ⟨c, hc0, ha⟩
      obtain ⟨j, hj⟩ := mem_kids.mp this
      obtain ⟨j2, hj2⟩ := mem_kids.mp hg0
      have e1 := w.kin hj
      have e2 := w.kin hj2
      rw [r.relvl_kid w hp hl hq, relvl_live (by rw [e1.2]; simp)]
      omega
    · have he0 : Edge s q i (.internal y) := by rw [Edge, ← hfr q h1 h2 h3]; exact he
      have e1 := w.kin he0
      have hylive : lnk s y ≠ none := by rw [e1.2]; simp
      rw [relvl_live (edge_live he0), relvl_live hylive]
      refine ⟨e1.1, ?_⟩
      rw [r.fr_lnk, e1.2]
      · intro hm; exact h1 (kidp y hm q i he0)
      · intro hm; exact h1 (new_not_kid y hm q i he0)
      · intro g hg hm
        have := gpar g _ hg hm q i he0
        subst this
        exact h2 hg
  · intro q i l he
    rcases hcases q (edge_live he) with rfl | hq | ⟨h1, h2, h3⟩
    · obtain ⟨g, hg, -⟩ := r.p_kid i _ he
      cases hg
    · refine ⟨?_, r.klf' q i l hq he⟩
      obtain ⟨c, hc, ha⟩ := edge_chs.mp he
      obtain ⟨g0, hg0, hc0⟩ := r.old_of_new hq (List.mem_iff_getElem?.mpr ⟨i, hc⟩)
      have : Idx.leaf l ∈ kids s g0 := mem_kids_chs.mpr ⟨c, hc0, ha⟩
      obtain ⟨j, hj⟩ := mem_kids.mp this
      obtain ⟨j2, hj2⟩ := mem_kids.mp hg0
      have e1 := w.klf hj
      have e2 := w.kin hj2
      rw [r.relvl_kid w hp hl hq]
      omega
    · have he0 : Edge s q i (.leaf l) := by rw [Edge, ← hfr q h1 h2 h3]; exact he
      have e1 := w.klf he0
      rw [relvl_live (edge_live he0)]
      refine ⟨e1.1, ?_⟩
      rw [r.fr_lpar, e1.2]
      intro g hg hm
      have := gpar g _ hg hm q i he0
      subst this
      exact h2 hg
  · intro q i j l he he2
    rcases hcases q (edge_live he) with rfl | hq | ⟨h1, h2, h3⟩
    · obtain ⟨g, hg, -⟩ := r.p_kid i _ he
      cases hg
    · have nd := grand_nodup w p
      rw [← r.flat, grand_kids] at nd
      have := nodup_of_flatMap nd _ hq
      simp only [chsI] at this
      rw [← kids_chs, List.Nodup, List.pairwise_iff_getElem] at this
      have hi := (List.getElem?_eq_some_iff.mp he)
      have hj := (List.getElem?_eq_some_iff.mp he2)
      apply Decidable.byContradiction
      intro hne
      rcases Nat.lt_or_gt_of_ne hne with hlt | hlt
      · exact this i j hi.1 hj.1 hlt (hi.2.trans hj.2.symm)
      · exact this j i hj.1 hi.1 hlt (hj.2.trans hi.2.symm)
    · have he0 : Edge s q i (.leaf l) := by rw [Edge, ← hfr q h1 h2 h3]; exact he
      have he1 : Edge s q j (.leaf l) := by rw [Edge, ← hfr q h1 h2 h3]; exact he2
      exact w.uniq q i j l he0 he1
  · intro q hq
    have hple := (w.lvl_pos' hp).2
    unfold relvl
    split
    · omega
    · next hne => exact w.lvl_pos' hne
  · intro y hy hr
    rw [r.root] at hr
    by_cases h2 : Idx.internal y ∈ kids s' p
    · obtain ⟨i, hi⟩ := mem_kids.mp h2
      exact ⟨p, i, hi⟩
    · by_cases h3 : Idx.internal y ∈ kids s p
      · exact absurd (r.removed y h3 h2) hy
      · by_cases h4 : ∃ g, .internal g ∈ kids s p ∧ .internal y ∈ kids s g
        · obtain ⟨g, hg, hm⟩ := h4
          obtain ⟨c, hc, ha⟩ := mem_kids_chs.mp hm
          obtain ⟨g0, hg0, hc0⟩ := r.new_of_old hg hc
          obtain ⟨i, hi⟩ := mem_kids.mp (mem_kids_chs.mpr ⟨c, hc0, ha⟩)
          exact ⟨g0, i, hi⟩
        · have hlk := r.fr_lnk y h3 h2 (fun g hg hm => h4 ⟨g, hg, hm⟩)
          obtain ⟨q, i, he⟩ := w.par_in' (by rw [← hlk]; exact hy) hr
          refine ⟨q, i, ?_⟩
          have h5 : q ≠ p := fun e => h3 (e ▸ mem_kids.mpr ⟨i, he⟩)
          have h6 : Idx.internal q ∉ kids s p := fun hm => h4 ⟨q, hm, mem_kids.mpr ⟨i, he⟩⟩
          have h7 : Idx.internal q ∉ kids s' p := by
            intro hm
            obtain ⟨j, hj⟩ := mem_kids.mp hm
            obtain ⟨g, hg, -, h8⟩ := r.p_kid j _ hj
            cases hg
            rcases h8 with h8 | h8
            · exact edge_live he h8
            · exact h6 h8
          rw [Edge, hfr q h5 h6 h7]
          exact he
  · intro l hlive
    obtain ⟨q, i, he⟩ := w.par_lf' (fun e => hlive ((r.lpar_live l).mpr e))
    by_cases h6 : Idx.internal q ∈ kids s p
    · obtain ⟨c, hc, ha⟩ := edge_chs.mp he
      obtain ⟨g0, hg0, hc0⟩ := r.new_of_old h6 (List.mem_iff_getElem?.mpr ⟨i, hc⟩)
      obtain ⟨i, hi⟩ := mem_kids.mp (mem_kids_chs.mpr ⟨c, hc0, ha⟩)
      exact ⟨g0, i, hi⟩
    · have h5 : q ≠ p := by
        intro e
        subst e
        have := (w.klf he).1
        omega
      have h7 : Idx.internal q ∉ kids s' p := by
        intro hm
        obtain ⟨j, hj⟩ := mem_kids.mp hm
        obtain ⟨g, hg, -, h8⟩ := r.p_kid j _ hj
        cases hg
        rcases h8 with h8 | h8
        · exact edge_live he h8
        · exact h6 h8
      exact ⟨q, i, by rw [Edge, hfr q h5 h6 h7]; exact he⟩

/-- live nodes other than `p` and its children keep their child lists -/
theorem frame_chs {y : Nat} (hy : lnk s y ≠ none) (h1 : y ≠ p) (h2 : Idx.internal y ∉ kids s p) :
    chs s' y = chs s y := by
  refine r.fr_chs y h1 h2 ?_
  intro hm
  obtain ⟨j, hj⟩ := mem_kids.mp hm
  obtain ⟨g, hg, -, h8⟩ := r.p_kid j _ hj
  cases hg
  rcases h8 with h8 | h8
  · exact hy h8
  · exact h2 h8

theorem segment : leavesAt s' (lvl p) p = leavesAt s (lvl p) p := by
  obtain ⟨k, hk⟩ : ∃ k, lvl p = k + 2 := ⟨lvl p - 2, by omega⟩
  have hsub : ∀ (t : Tree E C), (∀ a ∈ kids t p, ∃ g, a = .internal g) →
      leavesAt t (k + 2) p = ((grand t p).map Child.arena).flatMap (sub t k) := by
    intro t ht
    rw [leavesAt_succ, grand_kids, List.flatMap_assoc]
    apply flatMap_congr'
    intro a ha
    obtain ⟨g, rfl⟩ := ht a ha
    simp only [sub, chsI]
    rw [leavesAt_succ, kids_chs]
  rw [hk, hsub s', hsub s, r.flat]
  · apply flatMap_congr'
    intro a ha
    cases a with
    | leaf l => rfl
    | internal y =>
      obtain ⟨c, hc, hca⟩ := List.mem_map.mp ha
      obtain ⟨g, hg, hcg⟩ := mem_grand.mp hc
      obtain ⟨i, hi⟩ := mem_kids.mp hg
      obtain ⟨j, hj⟩ := mem_kids.mp (mem_kids_chs.mpr ⟨c, hcg, hca⟩)
      have e1 := w.kin hi
      have e2 := w.kin hj
      refine leavesAt_frame w (p := p) ?_ k y (by rw [e2.2]; simp) ?_ ?_
      · intro z hz hzp hzn
        rw [kids_chs, kids_chs, r.frame_chs w hp hl hz hzp (fun hm => by
          obtain ⟨i, hi⟩ := mem_kids.mp hm
          exact hzn i hi)]
      · intro han
        have := han.lvl_le w
        omega
      · intro j2 hj2
        have := (w.kin hj2).1
        omega
  · intro a ha
    obtain ⟨i, hi⟩ := mem_kids.mp ha
    cases a with
    | leaf l => have := (w.klf hi).1; omega
    | internal g => exact ⟨g, rfl⟩
  · intro a ha
    obtain ⟨i, hi⟩ := mem_kids.mp ha
    obtain ⟨g, hg, -⟩ := r.p_kid i _ hi
    exact ⟨g, hg⟩

theorem order (hi : h ≤ s'.inn.items.length) : order s' = order s := by
  obtain ⟨u, v, h1, h2⟩ := order_context (s' := s') w (r.wf w hp hl hi) hp r.root (by
    intro z hz hzp hzn
    rw [kids_chs, kids_chs, r.frame_chs w hp hl hz hzp (fun hm => by
      obtain ⟨i, hi⟩ := mem_kids.mp hm
      exact hzn i hi)])
  rw [h1, h2, r.segment w hp hl]

end Regroup

/-! ## Caches after regrouping -/

variable {B : Trait E C D} {A : Law B}

theorem total_groups (A : Law B) : ∀ (gs : List (List C)) (acc : List C), (∀ g ∈ gs, g ≠ [] ∨ LawE A) →
    A.total (acc ++ gs.map A.total) = A.total (acc ++ gs.flatten) := by
  intro gs
  induction gs with
  | nil => intro acc _; rfl
  | cons g gs ih =>
    intro acc hg
    have h1 : A.total (acc ++ (g :: gs).map A.total) = A.total (acc ++ g ++ gs.map A.total) := by
      rw [List.map_cons]
      by_cases hn : g = []
      · rcases hg g (by simp) with h | le
        · exact absurd hn h
        · subst hn
          rw [le.total_nil, List.append_nil]
      · exact A.total_flat acc g _ hn
    rw [h1, ih (acc ++ g) (fun g' hg' => hg g' (by simp [hg']))]
    simp

/-- the combination over the children of `p` is the combination over the grandchildren -/
theorem total_grand {s : Tree E C} {p : Nat} (hin : ∀ a ∈ kids s p, ∃ g, a = .internal g)
    (hok : ∀ c ∈ chs s p, EntryOK A s c) (hne : ∀ g, .internal g ∈ kids s p → chs s g ≠ [] ∨ LawE A) :
    A.total (cch s p) = A.total ((grand s p).map Child.cache) := by
  have h1 : cch s p = ((chs s p).map fun c => (chsI s c.arena).map Child.cache).map A.total := by
    rw [cch, List.map_map]
    apply List.map_congr_left
    intro c hc
    obtain ⟨g, hg⟩ := hin c.arena (mem_kids_chs.mpr ⟨c, hc, rfl⟩)
    have := hok c hc
    unfold EntryOK at this
    rw [hg] at this
    simp [Function.comp, hg, chsI, this, cch]
  have h2 := total_groups A ((chs s p).map fun c => (chsI s c.arena).map Child.cache) [] (by
    intro l hl
    obtain ⟨c, hc, rfl⟩ := List.mem_map.mp hl
    obtain ⟨g, hg⟩ := hin c.arena (mem_kids_chs.mpr ⟨c, hc, rfl⟩)
    rw [hg]
    rcases hne g (mem_kids_chs.mpr ⟨c, hc, hg⟩) with h | h
    · left; simpa [chsI] using h
    · exact Or.inr h)
  rw [List.nil_append, List.nil_append, ← h1] at h2
  rw [h2, grand, List.map_flatMap, List.flatMap]

namespace Regroup
variable (r : Regroup s s' p) (w : WF s lvl h) (hp : lnk s p ≠ none) (hl : 2 ≤ lvl p)
include r w hp hl

/-- entries other than those of `p` after a regrouping were there before, in a live node -/
theorem old_entry {q : Nat} {c : Child C} (hc : c ∈ chs s' q) (hq : q ≠ p) :
    ∃ q0, q0 ≠ p ∧ c ∈ chs s q0 := by
  by_cases h2 : Idx.internal q ∈ kids s' p
  · obtain ⟨g0, h3, h4⟩ := r.old_of_new h2 hc
    refine ⟨g0, ?_, h4⟩
    intro e
    subst e
    exact r.p_not_kid w h3
  · by_cases h3 : Idx.internal q ∈ kids s p
    · have := r.removed q h3 h2
      rw [chs_none this] at hc
      simp at hc
    · refine ⟨q, hq, ?_⟩
      rw [← r.fr_chs q hq h3 h2]
      exact hc

theorem cok (cok : COk A s) (hnew : ∀ c ∈ chs s' p, A.okC c.cache) : COk A s' := by
  intro q c hc
  by_cases hq : q = p
  · subst hq; exact hnew c hc
  · obtain ⟨q0, -, hc0⟩ := r.old_entry w hp hl hc hq
    exact cok q0 c hc0

theorem cinv {X X' : Idx → Prop} (cinv : CInv A s X) (hX : ∀ a, X a → X' a)
    (hnew : ∀ c ∈ chs s' p, ¬ X' c.arena → EntryOK A s' c)
    (htot : ¬ X' (.internal p) → A.total (cch s' p) = A.total (cch s p)) : CInv A s' X' := by
  intro q c hc hx
  by_cases hq : q = p
  · subst hq; exact hnew c hc hx
  · obtain ⟨q0, hq0, hc0⟩ := r.old_entry w hp hl hc hq
    have ho := cinv q0 c hc0 (fun hx' => hx (hX _ hx'))
    unfold EntryOK at *
    cases ha : c.arena with
    | leaf l => rw [ha] at ho; simp only [r.elm]; exact ho
    | internal y =>
      rw [ha] at ho hx
      simp only at ho ⊢
      rw [ho]
      obtain ⟨i, hi⟩ := List.mem_iff_getElem?.mp hc0
      have he : Edge s q0 i (.internal y) := edge_chs.mpr ⟨c, hi, ha⟩
      have hlive : lnk s y ≠ none := by rw [(w.kin he).2]; simp
      by_cases hy : y = p
      · subst hy; exact (htot hx).symm
      · unfold cch
        rw [r.frame_chs w hp hl hlive hy]
        intro hm
        obtain ⟨j, hj⟩ := mem_kids.mp hm
        exact hq0 (w.kid_in_inj he hj).1

end Regroup

end
end GB
