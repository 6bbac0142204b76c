import Verif.Proof.FilterSpec

/-!
# `check` succeeds on valid trees
-/

namespace GB
variable {E C D : Type}
open Tree

section
variable {s : Tree E C} {lvl : Nat → Nat} {h : Nat} {B : Trait E C D} {A : Law B} [DecidableEq C]

theorem assertM_triv : assertM (decide True) = .ok () := rfl

theorem checkAll_ok {α : Type} {f : α → M Unit} : ∀ {l : List α}, (∀ a ∈ l, f a = .ok ()) → checkAll f l = .ok () := by
  intro l
  induction l with
  | nil => intro _; rfl
  | cons a l ih =>
    intro hl
    simp only [checkAll, hl a (by simp), bind_ok]
    exact ih (fun b hb => hl b (by simp [hb]))

theorem checkChildren_ok (g : Good A s lvl h) (ne : NE s) {x : Nat} {N : Node C} (hN : s.inn.get x = some N) :
    ∀ (cs : List (Child C)) (i : Nat), (∀ (j : Nat) (c : Child C), cs[j]? = some c → (chs s x)[i + j]? = some c) →
      checkChildren B s x N cs i = .ok () := by
  intro cs
  induction cs with
  | nil => intro i _; rfl
  | cons c cs ih =>
    intro i hc
    have h0 : (chs s x)[i]? = some c := hc 0 c rfl
    have hi : checkChildren B s x N cs (i + 1) = .ok () := ih (i + 1) (by
      intro j d hd
      have := hc (j + 1) d (by simpa using hd)
      rw [show i + 1 + j = i + (j + 1) by omega]; exact this)
    cases ha : c.arena with
    | leaf l => simp only [checkChildren, ha, pure_ok, bind_ok, hi]
    | internal y =>
      have hed : Edge s x i (.internal y) := edge_chs.mpr ⟨c, h0, ha⟩
      obtain ⟨h1, Y, hY, hp, hsl⟩ := g.wf.kid_in x i y hed
      have hy : lnk s y ≠ none := lnk_isSome.mpr ⟨Y, hY⟩
      have hyr : y ≠ s.root := by intro e; subst e; exact g.wf.root_not_kid hed
      have hcm : c ∈ chs s x := List.mem_iff_getElem?.mpr ⟨i, h0⟩
      have hYc : Y.children ≠ [] := by rw [← chs_of hY]; exact ne y hy hyr
      obtain ⟨d, hd, -⟩ := calcCache_ok (A := A) (Or.inl hYc) (fun c hc => g.cok y c (by rw [chs_of hY]; exact hc)) B.dflt
      have hce := g.cinv x c hcm (fun h => h)
      simp only [EntryOK, ha, cch, chs_of hY] at hce
      have hcl : N.isChildLeaf = false := by
        have hne : N.children ≠ [] := by
          rw [← chs_of hN]; intro e; rw [e] at h0; simp at h0
        obtain ⟨c0, cs0, h0'⟩ := List.exists_cons_of_ne_nil hne
        have hed0 : Edge s x 0 c0.arena := edge_chs.mpr ⟨c0, by rw [chs_of hN, h0']; rfl, rfl⟩
        simp only [Node.isChildLeaf, h0']
        cases ha0 : c0.arena with
        | internal z => rfl
        | leaf l =>
          rw [ha0] at hed0
          have := (g.wf.klf hed0).1
          have := (g.wf.lvl_pos' hy).1
          omega
      simp only [checkChildren, ha, hcl, getIn_ok hY, bind_ok, hd, hsl, hp, ← hce]
      simp only [assertM_true (show (!false) = true from rfl), assertM_triv, bind_ok, hi]

theorem checkNode_ok (g : Good A s lvl h) (ne : NE s) (hh : h ≤ 9) (x : Nat) : checkNode B s x = .ok () := by
  unfold checkNode
  cases hN : s.inn.get x with
  | none => rfl
  | some N =>
    have hx : lnk s x ≠ none := lnk_isSome.mpr ⟨N, hN⟩
    have hc := checkChildren_ok (B := B) g ne hN N.children 0 (by
      intro j c hj; rw [chs_of hN, Nat.zero_add]; exact hj)
    have hE : x ≠ s.root → (!N.isEmpty) = true := by
      intro hr
      have := ne x hx hr
      rw [chs_of hN] at this
      simp [Node.isEmpty, this]
    simp only
    cases hp : N.parent with
    | none =>
      have hr := g.wf.root_of_parent_none hN hp
      subst hr
      simp only [ne_eq, not_true, if_false, hc, bind_ok, pure_ok, assertM_triv]
    | some p =>
      obtain ⟨hr, he, hl⟩ := g.wf.parent_some hN hp
      obtain ⟨ch, hch, har⟩ := edge_chs.mp he
      obtain ⟨P, hP⟩ := lnk_isSome.mp (edge_live he)
      rw [chs_of hP] at hch
      obtain ⟨j, rest, hpath, -, -⟩ := getPath_internal g.wf (by omega) hx
      simp only [if_pos (show x ≠ s.root from hr), assertM_true (hE hr), bind_ok, hc, getIn_ok hP, vget_ok hch, har,
        assertM_triv, hpath, pure_ok]

theorem levelF_spec (w : WF s lvl h) : ∀ (n x len : Nat), lnk s x ≠ none → h - lvl x < n →
    levelF n s x len = .ok (len + (h - lvl x)) := by
  intro n
  induction n with
  | zero => intro x len _ hn; omega
  | succ n ih =>
    intro x len hx hn
    unfold levelF
    by_cases hr : x = s.root
    · rw [if_pos hr, hr, w.root_lvl]; simp
    · rw [if_neg hr]
      obtain ⟨N, hN⟩ := lnk_isSome.mp hx
      obtain ⟨p, hp, he, hl⟩ := w.parent_in hN hr
      have hpl := edge_live he
      have := (w.lvl_pos' hpl).2
      simp only [getIn_ok hN, bind_ok, hp, unwrap_some, ih p (len + 1) hpl (by omega)]
      congr 1
      omega

theorem checkLeaves_ok (g : Good A s lvl h) (hh : h ≤ 9) : ∀ (ls : List Nat) (o : Option Nat), (o = none ∨ o = some h) →
    checkLeaves B s ls o = .ok () := by
  intro ls
  induction ls with
  | nil => intro o _; rfl
  | cons l ls ih =>
    intro o ho
    unfold checkLeaves
    cases hL : s.lf.get l with
    | none => exact ih o ho
    | some L =>
      obtain ⟨i, hi, hl1⟩ := g.wf.parent_lf hL
      have hlp : lpar s l ≠ none := by rw [(g.wf.klf hi).2]; simp
      have hpl := edge_live hi
      have hb := g.wf.lvl_pos' hpl
      have hlev : levelF s.fuel s L.parent 1 = .ok h := by
        rw [levelF_spec g.wf s.fuel L.parent 1 hpl (by have := g.wf.h_le; simp only [Tree.fuel]; omega)]
        congr 1
        omega
      obtain ⟨P, hP⟩ := lnk_isSome.mp hpl
      have hslot := getLeafSlot_wf g.wf hi
      rw [chs_of hP] at hslot
      obtain ⟨c, hc, har⟩ := edge_chs.mp hi
      have hce := g.cinv L.parent c (List.mem_iff_getElem?.mpr ⟨i, hc⟩) (fun h => h)
      rw [chs_of hP] at hc
      simp only [EntryOK, har] at hce
      have hce := hce L.elem (by simp [elm, hL])
      obtain ⟨j, rest, hpath, -, -⟩ := getPath_leaf g.wf hh hlp
      rcases ho with ho | ho <;> subst ho <;> simp only [hlev, pure_ok, assertM_triv, bind_ok, getIn_ok hP, hslot, vget_ok hc, assertM_true (decide_eq_true hce), hpath,
        ih (some h) (Or.inr rfl)]

/-- `check` succeeds on valid trees (an empty tree must store the root cache a fresh recomputation yields). -/
theorem check_ok (g : Good A s lvl h) (ne : NE s) (hh : h ≤ 9)
    (hE : order s = [] → ∃ d, B.calcC B.dflt [] = .ok (s.rootCache, d)) : check B s = .ok () := by
  obtain ⟨N, hN, -⟩ := g.wf.root
  have hrc : ∃ d, calcCache B N B.dflt none = .ok (s.rootCache, d) := by
    by_cases hc : N.children = []
    · obtain ⟨d, hd⟩ := hE ((empty_iff g.wf ne).mpr (by rw [chs_of hN]; exact hc))
      exact ⟨d, by rw [calcCache, hc]; exact hd⟩
    · obtain ⟨d, hd, -⟩ := calcCache_ok (A := A) (Or.inl hc) (fun c hc => g.cok s.root c (by rw [chs_of hN]; exact hc)) B.dflt
      refine ⟨d, ?_⟩
      rw [hd, g.rok.1 (by rw [chs_of hN]; exact hc), cch, chs_of hN]
  obtain ⟨d, hd⟩ := hrc
  simp only [check, checkAll_ok (fun x _ => checkNode_ok g ne hh x), bind_ok, getIn_ok hN, hd,
    assertM_triv, checkLeaves_ok g hh _ none (Or.inl rfl)]

end
end GB
