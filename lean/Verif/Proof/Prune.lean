import Verif.Proof.Seal

/-!
# Removing a set of leaves together with the nodes that become empty
-/

namespace GB
variable {E C D : Type}
open Tree

/-- leaves below an index -/
def lvs (s : Tree E C) (lvl : Nat → Nat) : Idx → List Nat
  | .leaf l => [l]
  | .internal x => leavesAt s (lvl x) x

/-- all leaves below the index are in `Y` -/
def deadB (s : Tree E C) (lvl : Nat → Nat) (Y : List Nat) (a : Idx) : Bool := (lvs s lvl a).all fun l => decide (l ∈ Y)

abbrev Dead (s : Tree E C) (lvl : Nat → Nat) (Y : List Nat) (a : Idx) : Prop := deadB s lvl Y a = true

/-- the child entry is not for a dead index -/
def keepB (s : Tree E C) (lvl : Nat → Nat) (Y : List Nat) (c : Child C) : Bool := !deadB s lvl Y c.arena

section
variable {s : Tree E C} {lvl : Nat → Nat} {h : Nat} {Y : List Nat}

theorem dead_iff {a : Idx} : Dead s lvl Y a ↔ ∀ l ∈ lvs s lvl a, l ∈ Y := by simp [Dead, deadB]

theorem keep_iff {c : Child C} : keepB s lvl Y c = true ↔ ¬ Dead s lvl Y c.arena := by simp [keepB, Dead]

theorem lvs_kids (w : WF s lvl h) {x : Nat} (hx : lnk s x ≠ none) :
    lvs s lvl (.internal x) = (kids s x).flatMap (lvs s lvl) := by
  obtain ⟨n, hn⟩ : ∃ n, lvl x = n + 1 := ⟨lvl x - 1, by have := (w.lvl_pos' hx).1; omega⟩
  simp only [lvs]
  rw [hn, leavesAt_succ]
  apply flatMap_congr'
  intro a ha
  obtain ⟨i, hi⟩ := mem_kids.mp ha
  cases a with
  | leaf l => rfl
  | internal y =>
    have := (w.kin hi).1
    simp only [sub, lvs]
    rw [show lvl y = n by omega]

theorem dead_kids (w : WF s lvl h) {x : Nat} (hx : lnk s x ≠ none) :
    Dead s lvl Y (.internal x) ↔ ∀ a ∈ kids s x, Dead s lvl Y a := by
  simp only [dead_iff, lvs_kids w hx, List.mem_flatMap]
  constructor
  · intro h a ha l hl; exact h l ⟨a, ha, hl⟩
  · rintro h l ⟨a, ha, hl⟩; exact h a ha l hl

/-- an index that occurs in the tree, other than the root, has leaves -/
theorem lvs_ne (w : WF s lvl h) (ne : NE s) : ∀ (n : Nat) {p i : Nat} {a : Idx}, lvl p ≤ n → Edge s p i a → lvs s lvl a ≠ [] := by
  intro n
  induction n with
  | zero => intro p i a hn he; have := (w.lvl_pos' (edge_live he)).1; omega
  | succ n ih =>
    intro p i a hn he
    cases a with
    | leaf l => simp [lvs]
    | internal y =>
      have h1 := w.kin he
      have hy : lnk s y ≠ none := by rw [h1.2]; simp
      have hyr : y ≠ s.root := by rintro rfl; exact w.root_not_kid he
      have hc := ne y hy hyr
      cases hk : kids s y with
      | nil => exact absurd (kids_ne_nil.mp hk) hc
      | cons b bs =>
        have he' : Edge s y 0 b := by rw [Edge, hk]; rfl
        have := ih (by omega) he'
        rw [lvs_kids w hy, hk, List.flatMap_cons]
        simp [this]

theorem lvs_ne' (w : WF s lvl h) (ne : NE s) {p i : Nat} {a : Idx} (he : Edge s p i a) : lvs s lvl a ≠ [] :=
  lvs_ne w ne _ (Nat.le_refl _) he

end

/-- `v` is `s` without the leaves in `Y` and without the inner nodes that only have leaves in `Y`. -/
structure Pruned (s : Tree E C) (lvl : Nat → Nat) (Y : List Nat) (v : Tree E C) : Prop where
  root : v.root = s.root
  items : v.inn.items.length = s.inn.items.length
  lfitems : v.lf.items.length = s.lf.items.length
  lf : ∀ l, v.lf.get l = if l ∈ Y then none else s.lf.get l
  live : ∀ x, lnk v x ≠ none ↔ lnk s x ≠ none ∧ (x = s.root ∨ ¬ Dead s lvl Y (.internal x))
  par : ∀ x, lnk v x ≠ none → (lnk v x).map Prod.fst = (lnk s x).map Prod.fst
  slot : ∀ p i y, Edge v p i (.internal y) → (lnk v y).map Prod.snd = some i
  chs : ∀ x, lnk v x ≠ none → chs v x = (chs s x).filter (keepB s lvl Y)

section
variable {s v : Tree E C} {lvl : Nat → Nat} {h : Nat} {Y : List Nat}

theorem pruned_kids (pr : Pruned s lvl Y v) {x : Nat} (hx : lnk v x ≠ none) :
    kids v x = (kids s x).filter fun a => !deadB s lvl Y a := by
  rw [kids_chs, pr.chs x hx, kids_chs, List.filter_map]
  rfl

theorem pruned_edge (pr : Pruned s lvl Y v) {p i : Nat} {a : Idx} (he : Edge v p i a) :
    (∃ j, Edge s p j a) ∧ ¬ Dead s lvl Y a := by
  have hm : a ∈ kids v p := mem_kids.mpr ⟨i, he⟩
  rw [pruned_kids pr (edge_live he), List.mem_filter] at hm
  exact ⟨mem_kids.mp hm.1, by simpa [Dead] using hm.2⟩

theorem pruned_mem (w : WF s lvl h) (pr : Pruned s lvl Y v) {p i : Nat} {a : Idx} (he : Edge s p i a) (hd : ¬ Dead s lvl Y a) :
    lnk v p ≠ none ∧ ∃ j, Edge v p j a := by
  have hp : lnk v p ≠ none := by
    rw [pr.live]
    refine ⟨edge_live he, Or.inr fun hd' => hd ?_⟩
    exact (dead_kids w (edge_live he)).mp hd' a (mem_kids.mpr ⟨i, he⟩)
  refine ⟨hp, mem_kids.mp ?_⟩
  rw [pruned_kids pr hp, List.mem_filter]
  exact ⟨mem_kids.mpr ⟨i, he⟩, by simpa [Dead] using hd⟩

theorem pruned_lpar (pr : Pruned s lvl Y v) (l : Nat) : lpar v l = if l ∈ Y then none else lpar s l := by
  rw [lpar, pr.lf, lpar]; split <;> rfl

theorem pruned_elm (pr : Pruned s lvl Y v) (l : Nat) : elm v l = if l ∈ Y then none else elm s l := by
  rw [elm, pr.lf, elm]; split <;> rfl

theorem pruned_wf (w : WF s lvl h) (pr : Pruned s lvl Y v) : WF v lvl h := by
  obtain ⟨ir, hir⟩ := w.root'
  have hroot : lnk v s.root ≠ none := by rw [pr.live, hir]; exact ⟨by simp, Or.inl rfl⟩
  apply WF.of_views
  · obtain ⟨⟨q, i⟩, hv⟩ := Option.ne_none_iff_exists'.mp hroot
    have := pr.par _ hroot
    rw [hv, hir] at this
    simp at this
    rw [pr.root]
    exact ⟨i, by rw [hv, this]⟩
  · rw [pr.root]; exact w.root_lvl
  · exact w.h_pos
  · rw [pr.items]; exact w.h_le
  · intro p i y he
    obtain ⟨⟨j, hj⟩, hd⟩ := pruned_edge pr he
    have h1 := w.kin hj
    refine ⟨h1.1, ?_⟩
    have hy : lnk v y ≠ none := by rw [pr.live, h1.2]; exact ⟨by simp, Or.inr hd⟩
    obtain ⟨⟨q, k⟩, hv⟩ := Option.ne_none_iff_exists'.mp hy
    have h2 := pr.par _ hy
    have h3 := pr.slot _ _ _ he
    rw [hv, h1.2] at h2
    rw [hv] at h3
    simp at h2 h3
    rw [hv, h2, h3]
  · intro p i l he
    obtain ⟨⟨j, hj⟩, hd⟩ := pruned_edge pr he
    have h1 := w.klf hj
    refine ⟨h1.1, ?_⟩
    rw [pruned_lpar pr, if_neg (fun hm => hd (dead_iff.mpr (by intro l' hl'; simp [lvs] at hl'; rw [hl']; exact hm))), h1.2]
  · intro p i j l h1 h2
    have nd : (kids v p).Nodup := by
      rw [pruned_kids pr (edge_live h1)]
      exact (w.kids_nodup p).filter _
    obtain ⟨l1, e1⟩ := List.getElem?_eq_some_iff.mp h1
    obtain ⟨l2, e2⟩ := List.getElem?_eq_some_iff.mp h2
    exact (List.getElem_inj nd).mp (e1.trans e2.symm)
  · intro p hp; exact w.lvl_pos' ((pr.live p).mp hp).1
  · intro y hy hr
    rw [pr.root] at hr
    obtain ⟨h1, h2⟩ := (pr.live y).mp hy
    obtain ⟨p, i, he⟩ := w.par_in' h1 hr
    obtain ⟨-, j, hj⟩ := pruned_mem w pr he (h2.resolve_left hr)
    exact ⟨p, j, hj⟩
  · intro l hl
    rw [pruned_lpar pr] at hl
    split at hl
    · exact absurd rfl hl
    · next hY =>
      obtain ⟨p, i, he⟩ := w.par_lf' hl
      obtain ⟨-, j, hj⟩ := pruned_mem w pr he (fun hd => hY (dead_iff.mp hd l (by simp [lvs])))
      exact ⟨p, j, hj⟩

theorem pruned_ne (w : WF s lvl h) (pr : Pruned s lvl Y v) : NE v := by
  intro y hy hr hn
  rw [pr.root] at hr
  obtain ⟨h1, h2⟩ := (pr.live y).mp hy
  apply h2.resolve_left hr
  rw [dead_kids w h1]
  intro a ha
  have hk : kids v y = [] := kids_ne_nil.mpr hn
  rw [pruned_kids pr hy, List.filter_eq_nil_iff] at hk
  have := hk a ha
  simpa [Dead] using this

theorem filter_flatMap {α β : Type} (l : List α) (f : α → List β) (q : β → Bool) :
    (l.flatMap f).filter q = l.flatMap fun a => (f a).filter q := by
  induction l with
  | nil => rfl
  | cons a l ih => rw [List.flatMap_cons, List.flatMap_cons, List.filter_append, ih]

theorem pruned_leaves (w : WF s lvl h) (pr : Pruned s lvl Y v) : ∀ (n x : Nat), lvl x = n → lnk v x ≠ none →
    leavesAt v n x = (leavesAt s n x).filter fun l => decide (l ∉ Y) := by
  intro n
  induction n with
  | zero => intro x _ _; rfl
  | succ n ih =>
    intro x hx hv
    rw [leavesAt_succ, leavesAt_succ, filter_flatMap, pruned_kids pr hv]
    have key : ∀ K : List Idx, (∀ a ∈ K, ∃ i, Edge s x i a) →
        (K.filter fun a => !deadB s lvl Y a).flatMap (sub v n) = K.flatMap fun a => (sub s n a).filter fun l => decide (l ∉ Y) := by
      intro K
      induction K with
      | nil => intro _; rfl
      | cons a K ihK =>
        intro hK
        have hrec := ihK (fun b hb => hK b (by simp [hb]))
        obtain ⟨i, hi⟩ := hK a (by simp)
        have hsub : sub s n a = lvs s lvl a := by
          cases a with
          | leaf l => rfl
          | internal y =>
            have := (w.kin hi).1
            simp only [sub, lvs]
            rw [show lvl y = n by omega]
        rw [List.flatMap_cons]
        cases hd : deadB s lvl Y a with
        | true =>
          rw [List.filter_cons_of_neg (by simp [hd]), hrec, hsub]
          have : (lvs s lvl a).filter (fun l => decide (l ∉ Y)) = [] := by
            rw [List.filter_eq_nil_iff]
            intro l hl
            have := dead_iff.mp hd l hl
            simp [this]
          rw [this, List.nil_append]
        | false =>
          rw [List.filter_cons_of_pos (by simp [hd]), List.flatMap_cons, hrec]
          congr 1
          cases a with
          | leaf l =>
            simp only [sub]
            have : l ∉ Y := by
              intro hm
              have : deadB s lvl Y (.leaf l) = true := dead_iff.mpr (by intro l' hl'; simp [lvs] at hl'; rw [hl']; exact hm)
              rw [hd] at this
              cases this
            simp [this]
          | internal y =>
            have h1 := w.kin hi
            simp only [sub]
            exact ih y (by omega) (by rw [pr.live, h1.2]; exact ⟨by simp, Or.inr (by simp [Dead, hd])⟩)
    exact key (kids s x) (fun a ha => mem_kids.mp ha)

theorem pruned_order (w : WF s lvl h) (pr : Pruned s lvl Y v) : order v = (order s).filter fun l => decide (l ∉ Y) := by
  rw [order_eq (pruned_wf w pr), order_eq w, pr.root]
  obtain ⟨i, hi⟩ := w.root'
  exact pruned_leaves w pr h s.root w.root_lvl (by rw [pr.live, hi]; exact ⟨by simp, Or.inl rfl⟩)

theorem pruned_thin (w : WF s lvl h) (pr : Pruned s lvl Y v) (th : Thin s) : Thin v := by
  intro y hy
  refine ⟨?_, fun hr => pruned_ne w pr y hy hr⟩
  rw [pr.chs y hy]
  exact Nat.le_trans (List.length_filter_le _ _) (th y ((pr.live y).mp hy).1).1

variable {B : Trait E C D} {A : Law B}

theorem pruned_mem_chs (pr : Pruned s lvl Y v) {p : Nat} {c : Child C} (hc : c ∈ GB.chs v p) : c ∈ GB.chs s p ∧ lnk v p ≠ none := by
  have hp : lnk v p ≠ none := by
    intro hn
    rw [chs_none hn] at hc
    simp at hc
  rw [pr.chs p hp, List.mem_filter] at hc
  exact ⟨hc.1, hp⟩

theorem pruned_cok (pr : Pruned s lvl Y v) (ck : COk A s) : COk A v := fun p c hc => ck p c (pruned_mem_chs pr hc).1

/-- after pruning only the caches of nodes that lost a child are out of date -/
theorem pruned_cinv (pr : Pruned s lvl Y v) (ci : CInv A s noX) :
    CInv A v fun a => ∃ y, a = .internal y ∧ lnk v y ≠ none ∧ ∃ b ∈ kids s y, Dead s lvl Y b := by
  intro p c hc hX
  obtain ⟨hcs, hp⟩ := pruned_mem_chs pr hc
  have hE := ci p c hcs (fun h => h)
  have hkeep : ¬ Dead s lvl Y c.arena := by
    rw [pr.chs p hp, List.mem_filter] at hc
    exact keep_iff.mp hc.2
  unfold EntryOK at hE ⊢
  cases ha : c.arena with
  | leaf l =>
    simp only [ha] at hE ⊢
    intro e he
    rw [pruned_elm pr] at he
    split at he
    · cases he
    · exact hE e he
  | internal y =>
    simp only [ha] at hE ⊢
    rw [hE]
    by_cases hy : lnk v y = none
    · -- cannot happen, but then the entry is dead
      exfalso
      by_cases hys : lnk s y = none
      · apply hkeep
        rw [ha, dead_iff]
        intro l hl
        simp only [lvs] at hl
        have hk : kids s y = [] := by rw [kids_chs, chs_none hys]; rfl
        cases hn : lvl y with
        | zero => rw [hn] at hl; simp [leavesAt] at hl
        | succ n => rw [hn, leavesAt_succ, hk] at hl; simp at hl
      · exact (pr.live y).mpr ⟨hys, Or.inr (ha ▸ hkeep)⟩ hy
    · congr 1
      rw [cch, cch, pr.chs y hy]
      congr 1
      symm
      rw [List.filter_eq_self]
      intro c' hc'
      rw [keep_iff]
      intro hd
      exact hX ⟨y, ha, hy, c'.arena, by rw [kids_chs]; exact List.mem_map_of_mem hc', hd⟩

end
end GB
