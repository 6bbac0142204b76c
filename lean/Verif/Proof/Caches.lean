import Verif.Proof.Compare

/-!
# Stored caches are the combination of the element caches below; `visit_previous_caches`
-/

namespace GB
variable {E C D : Type}
open Tree

/-- the caches of the elements of a list of leaves -/
def lc (B : Trait E C D) (s : Tree E C) (ls : List Nat) : List C := (entriesOf s ls).map fun x => B.elemCache x.2

section
variable {s : Tree E C} {lvl : Nat → Nat} {h : Nat} {B : Trait E C D} {A : Law B}

theorem lc_append (u v : List Nat) : lc B s (u ++ v) = lc B s u ++ lc B s v := by
  simp [lc, entriesOf_append]

theorem lc_cons {l : Nat} {e : E} (he : elm s l = some e) (v : List Nat) : lc B s (l :: v) = B.elemCache e :: lc B s v := by
  simp [lc, entriesOf_cons he]

/-- replacing the caches of consecutive children by the element caches below them -/
theorem flat_list {n : Nat} {cs0 : List (Child C)} (K : ∀ c : Child C, ∀ l r, c ∈ cs0 → A.total (l ++ c.cache :: r) = A.total (l ++ lc B s (sub s n c.arena) ++ r)) :
    ∀ (cs : List (Child C)), (∀ c ∈ cs, c ∈ cs0) → ∀ l r,
      A.total (l ++ cs.map Child.cache ++ r) = A.total (l ++ lc B s ((cs.map Child.arena).flatMap (sub s n)) ++ r) := by
  intro cs
  induction cs with
  | nil => intro _ l r; simp [lc]
  | cons c cs ih =>
    intro hcs l r
    have h1 := K c l (cs.map Child.cache ++ r) (hcs c (by simp))
    have h2 := ih (fun c hc => hcs c (by simp [hc])) (l ++ lc B s (sub s n c.arena)) r
    simp only [List.map_cons, List.flatMap_cons, lc_append]
    rw [show l ++ c.cache :: cs.map Child.cache ++ r = l ++ c.cache :: (cs.map Child.cache ++ r) by simp, h1]
    rw [show l ++ lc B s (sub s n c.arena) ++ (cs.map Child.cache ++ r) = l ++ lc B s (sub s n c.arena) ++ cs.map Child.cache ++ r by simp, h2]
    simp

/-- A stored cache may be replaced by the caches of all elements below the child. -/
theorem cache_flat (g : Good A s lvl h) (ne : NE s) : ∀ (n x : Nat), lvl x = n + 1 →
    ∀ c ∈ chs s x, ∀ l r, A.total (l ++ c.cache :: r) = A.total (l ++ lc B s (sub s n c.arena) ++ r) := by
  intro n
  induction n with
  | zero =>
    intro x hx c hc l r
    have hm : c.arena ∈ kids s x := by rw [kids_chs]; exact List.mem_map.mpr ⟨c, hc, rfl⟩
    obtain ⟨i, hi⟩ := mem_kids.mp hm
    obtain ⟨k, hk⟩ := (g.wf.kid_leaf_iff hi).mp hx
    have he := g.cinv x c hc (fun h => h)
    rw [hk] at hi
    obtain ⟨e, hel⟩ := elm_some (show lpar s k ≠ none by rw [(g.wf.klf hi).2]; simp)
    simp only [EntryOK, hk] at he
    rw [he e hel, hk]
    simp only [sub, lc_cons hel]
    simp [lc]
  | succ n ih =>
    intro x hx c hc l r
    have hm : c.arena ∈ kids s x := by rw [kids_chs]; exact List.mem_map.mpr ⟨c, hc, rfl⟩
    obtain ⟨i, hi⟩ := mem_kids.mp hm
    have he := g.cinv x c hc (fun h => h)
    cases ha : c.arena with
    | leaf k => rw [ha] at hi; have := (g.wf.klf hi).1; omega
    | internal y =>
      rw [ha] at hi
      have hk := g.wf.kin hi
      have hy : lnk s y ≠ none := by rw [hk.2]; simp
      have hyr : y ≠ s.root := by intro e; subst e; exact g.wf.root_not_kid hi
      simp only [EntryOK, ha] at he
      have hne : cch s y ≠ [] := by
        intro e; exact ne y hy hyr (List.map_eq_nil_iff.mp e)
      rw [he, A.total_flat _ _ _ hne]
      have := flat_list (A := A) (s := s) (cs0 := chs s y) (n := n) (fun c l r hc => ih y (by omega) c hc l r) (chs s y) (fun _ h => h) l r
      rw [cch, this, ← kids_chs, ← leavesAt_succ]
      rfl

/-- the root cache of a non-empty tree -/
theorem rootCache_spec (g : Good A s lvl h) (ne : NE s) (hne : order s ≠ []) :
    s.rootCache = A.total ((entries s).map fun x => B.elemCache x.2) := by
  have hc : chs s s.root ≠ [] := fun hc => hne ((empty_iff g.wf ne).mpr hc)
  rw [g.rok.1 hc]
  obtain ⟨d, hd⟩ : ∃ d, h = d + 1 := ⟨h - 1, by have := g.wf.h_pos; omega⟩
  have := flat_list (A := A) (s := s) (cs0 := chs s s.root) (n := d)
    (fun c l r hc => cache_flat g ne d s.root (by rw [g.wf.root_lvl, hd]) c hc l r) (chs s s.root) (fun _ h => h) [] []
  simp only [List.nil_append, List.append_nil] at this
  rw [cch, this, ← kids_chs, ← leavesAt_succ, ← hd, ← order_eq g.wf]
  rfl

/-! ## `visit_previous_caches` -/

theorem cachesUpTo_spec (cs : List (Child C)) : ∀ (k i : Nat), i + k ≤ cs.length →
    cachesUpTo cs i k = .ok ((cs.drop i).take k |>.map Child.cache) := by
  intro k
  induction k with
  | zero => intro i _; simp [cachesUpTo]
  | succ k ih =>
    intro i hi
    have hc : cs[i]? = some cs[i] := List.getElem?_eq_getElem (by omega)
    simp only [cachesUpTo, vget_ok hc, bind_ok, ih (i + 1) (by omega), pure_ok]
    rw [List.drop_eq_getElem_cons (show i < cs.length by omega)]
    rfl

theorem visitPath_snoc : ∀ (xs : List PIdx) (p q : PIdx), visitPath s (xs ++ [p, q]) = (do
    let a ← visitPath s (xs ++ [p])
    let node ← s.getInIdx p.arena
    let cs ← cachesUpTo node.children 0 q.arr
    pure (a ++ cs)) := by
  intro xs
  induction xs with
  | nil =>
    intro p q
    simp only [List.nil_append, visitPath, bind_ok]
    cases s.getInIdx p.arena with
    | error e => rfl
    | ok node =>
      simp only [bind_ok]
      cases cachesUpTo node.children 0 q.arr with
      | error e => rfl
      | ok cs => simp
  | cons x xs ih =>
    intro p q
    have step : ∀ (y : PIdx) (ys : List PIdx), visitPath s (x :: y :: ys) = (do
        let node ← s.getInIdx x.arena
        let cs ← cachesUpTo node.children 0 y.arr
        let tl ← visitPath s (y :: ys)
        pure (cs ++ tl)) := fun y ys => rfl
    obtain ⟨y, ys, hy⟩ : ∃ y ys, xs ++ [p] = y :: ys := by
      cases xs with
      | nil => exact ⟨p, [], rfl⟩
      | cons a as => exact ⟨a, as ++ [p], rfl⟩
    have hy2 : xs ++ [p, q] = y :: (ys ++ [q]) := by
      rw [show xs ++ [p, q] = (xs ++ [p]) ++ [q] by simp, hy]; rfl
    have ih' := ih p q
    rw [hy2, hy] at ih'
    simp only [List.cons_append]
    rw [hy2, hy, step, step, ih']
    cases s.getInIdx x.arena with
    | error e => rfl
    | ok nx =>
      simp only [bind_ok]
      cases cachesUpTo nx.children 0 y.arr with
      | error e => rfl
      | ok cx =>
        simp only [bind_ok]
        cases visitPath s (y :: ys) with
        | error e => rfl
        | ok a =>
          simp only [bind_ok, pure_ok]
          cases s.getInIdx p.arena with
          | error e => rfl
          | ok node =>
            simp only [bind_ok]
            cases cachesUpTo node.children 0 q.arr with
            | error e => rfl
            | ok cs => simp

theorem flatMap_sub_row (w : WF s lvl h) (d : Nat) (hd : d < h) : ∀ u : List Idx, (∀ a ∈ u, a ∈ rowI s d) →
    (u.flatMap (kidsI s)).flatMap (sub s (h - (d + 1))) = u.flatMap (sub s (h - d)) := by
  intro u
  induction u with
  | nil => intro _; rfl
  | cons a u ih =>
    intro hu
    obtain ⟨x, rfl, -, -⟩ := rowI_internal w d hd a (hu a (by simp))
    rw [List.flatMap_cons, List.flatMap_append, ih (fun b hb => hu b (by simp [hb])), List.flatMap_cons]
    congr 1
    have : h - d = (h - (d + 1)) + 1 := by omega
    rw [this]
    simp only [sub, leavesAt_succ, kidsI]

theorem visitPath_spec (g : Good A s lvl h) (ne : NE s) {path : List PIdx} (hp : PathTo s path) :
    ∀ {a i rest}, path = ⟨a, i⟩ :: rest → rest.length ≤ h →
    ∃ cs u v, visitPath s path.reverse = .ok cs ∧ rowI s rest.length = u ++ a :: v ∧
      ∀ r, A.total (cs ++ r) = A.total (lc B s (u.flatMap (sub s (h - rest.length))) ++ r) := by
  induction hp with
  | root =>
    intro a i rest e _
    cases e
    exact ⟨[], [], [], rfl, rfl, fun r => rfl⟩
  | @step a i p j rest he hp ih =>
    intro a' i' rest' e hle
    cases e
    simp only [List.length_cons] at hle
    obtain ⟨cs, u, v, i1, i2, i3⟩ := ih rfl (by omega)
    obtain ⟨P, hP⟩ := lnk_isSome.mp (edge_live he)
    obtain ⟨p', e, hpl, hplv⟩ := row_live g.wf (d := rest.length) (by omega) i2
    cases e
    have hi := (List.getElem?_eq_some_iff.mp he).1
    rw [kids_of hP, List.length_map] at hi
    refine ⟨cs ++ ((chs s p).take i).map Child.cache, _, _, ?_, row_child i2 he, ?_⟩
    · rw [show (⟨a, i⟩ :: ⟨.internal p, j⟩ :: rest : List PIdx).reverse = rest.reverse ++ [⟨.internal p, j⟩, ⟨a, i⟩] by simp,
        visitPath_snoc]
      rw [show (⟨.internal p, j⟩ :: rest : List PIdx).reverse = rest.reverse ++ [⟨.internal p, j⟩] by simp] at i1
      simp only [i1, bind_ok, getInIdx_ok hP, cachesUpTo_spec P.children i 0 (by omega), List.drop_zero, chs_of hP, pure_ok]
    · intro r
      have hn : lvl p = (h - (rest.length + 1)) + 1 := by omega
      have hfl := flat_list (A := A) (s := s) (cs0 := chs s p) (n := h - (rest.length + 1))
        (fun c l r hc => cache_flat g ne _ p hn c hc l r) ((chs s p).take i) (fun c hc => List.mem_of_mem_take hc) cs r
      rw [hfl]
      rw [show cs ++ lc B s (List.flatMap (sub s (h - (rest.length + 1))) (List.map Child.arena (List.take i (chs s p)))) ++ r =
        cs ++ (lc B s (List.flatMap (sub s (h - (rest.length + 1))) (List.map Child.arena (List.take i (chs s p)))) ++ r) by simp, i3]
      simp only [List.length_cons]
      rw [List.flatMap_append, flatMap_sub_row g.wf rest.length (by omega) u (by intro b hb; rw [i2]; simp [hb]), lc_append,
        List.append_assoc]
      rw [kids_chs, List.map_take]

/-- `visit_previous_caches` passes caches that combine to those of all elements before the cursor's element. -/
theorem visitPrevCaches_spec (g : Good A s lvl h) (ne : NE s) (hh : h ≤ 9) {l o : Nat} {e : E} {U V : List (Nat × E)}
    (hent : entries s = U ++ (l, e) :: V) :
    ∃ cs, visitPrevCaches s ⟨l, o⟩ = .ok (cs, (e, o)) ∧
      ∀ r, A.total (cs ++ r) = A.total (U.map (fun x => B.elemCache x.2) ++ r) := by
  obtain ⟨p0, hLg⟩ := getLf_entries g.wf (l := l) (e := e) (by rw [hent]; simp)
  obtain ⟨u, v, h1, rfl, rfl, h4⟩ := entries_split g.wf hent
  obtain ⟨i, rest, r1, r2, r3⟩ := getPath_leaf g.wf hh (elm_live h4)
  obtain ⟨cs, u', v', t1, t2, t3⟩ := visitPath_spec g ne r2 rfl (by omega)
  rw [r3] at t2 t3
  obtain ⟨u2, v2, o1, rfl, rfl⟩ := path_leaf_order g.wf (i := i) (rest := rest) t2
  obtain ⟨rfl, rfl⟩ := order_uniq g.wf h1 o1
  refine ⟨cs, ?_, ?_⟩
  · simp only [visitPrevCaches, r1, bind_ok, t1, hLg, pure_ok]
  · intro r
    rw [t3 r]
    have : (u.map Idx.leaf).flatMap (sub s (h - h)) = u := by
      induction u with
      | nil => rfl
      | cons a u ih => simp [sub, List.flatMap_map]
    rw [this]
    rfl

end
end GB
