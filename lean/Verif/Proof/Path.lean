import Verif.Proof.Push
import Verif.Model.Ops

/-!
# Root paths: `get_path`, `next_sibling`, `first_path`, `last_path`
-/

namespace GB
variable {E C D : Type}
open Tree

/-- a root path, deepest entry first -/
inductive PathTo (s : Tree E C) : List PIdx → Prop
  | root : PathTo s [⟨.internal s.root, 0⟩]
  | step {a : Idx} {i p j : Nat} {rest : List PIdx} : Edge s p i a → PathTo s (⟨.internal p, j⟩ :: rest) →
      PathTo s (⟨a, i⟩ :: ⟨.internal p, j⟩ :: rest)

/-- a list of distinct numbers below `n` has at most `n` elements -/
theorem nodup_length_le : ∀ (n : Nat) (l : List Nat), l.Nodup → (∀ x ∈ l, x < n) → l.length ≤ n := by
  intro n
  induction n with
  | zero =>
    intro l _ hl
    cases l with
    | nil => simp
    | cons a l => have := hl a (by simp); omega
  | succ n ih =>
    intro l nd hl
    have h1 := ih (l.erase n) (nd.erase n) (by
      intro x hx
      have := hl x (List.mem_of_mem_erase hx)
      have hne : x ≠ n := by
        intro e; subst e
        exact (List.Nodup.mem_erase_iff nd).mp hx |>.1 rfl
      omega)
    by_cases hm : n ∈ l
    · rw [List.length_erase_of_mem hm] at h1; omega
    · rw [List.erase_of_not_mem hm] at h1; omega

theorem pathPush_ok {p : List PIdx} (hp : p.length < 10) (i : PIdx) : pathPush p i = .ok (i :: p) := by
  rw [pathPush, if_pos (by exact hp)]

theorem pathPushTop_ok {p : List PIdx} (hp : p.length < 10) (i : PIdx) : pathPushTop p i = .ok (p ++ [i]) := by
  rw [pathPushTop, if_pos (by exact hp)]

section
variable {s : Tree E C} {lvl : Nat → Nat} {h : Nat}

/-! ## Rows -/

theorem row_nodup (w : WF s lvl h) : ∀ d, (rowI s d).Nodup := by
  intro d
  induction d with
  | zero => simp [rowI]
  | succ d ih =>
    rw [rowI]
    apply nodup_flatMap'
    · intro a ha
      cases a with
      | leaf l => simp [kidsI]
      | internal x => exact w.kids_nodup x
    · apply List.Pairwise.imp _ ih
      intro a b hab x hx hx'
      cases a with
      | leaf l => simp [kidsI] at hx
      | internal p =>
        cases b with
        | leaf l => simp [kidsI] at hx'
        | internal q =>
          obtain ⟨i, hi⟩ := mem_kids.mp hx
          obtain ⟨j, hj⟩ := mem_kids.mp hx'
          exact hab (by rw [(w.kid_inj hi hj).1])

theorem row_uniq (w : WF s lvl h) {d : Nat} {a : Idx} {u v u' v' : List Idx} (h1 : rowI s d = u ++ a :: v)
    (h2 : rowI s d = u' ++ a :: v') : u = u' ∧ v = v' := by
  have nd := row_nodup w d
  rw [h1] at h2 nd
  exact nodup_append_cons_inj h2 nd

/-- all internal nodes, row by row -/
theorem rows_length_le (w : WF s lvl h) :
    ((List.range h).flatMap (rowI s)).length ≤ s.inn.items.length := by
  have nd : ((List.range h).flatMap (rowI s)).Nodup := by
    apply nodup_flatMap'
    · intro d _; exact row_nodup w d
    · apply List.Pairwise.imp_of_mem _ List.nodup_range
      intro d d' hd hd' hne x hx hx'
      obtain ⟨y, rfl, -, h1⟩ := rowI_internal w d (List.mem_range.mp hd) x hx
      obtain ⟨y', h0, -, h2⟩ := rowI_internal w d' (List.mem_range.mp hd') _ hx'
      cases h0
      have := List.mem_range.mp hd
      have := List.mem_range.mp hd'
      omega
  have key : ∀ L : List Idx, L.Nodup → (∀ a ∈ L, ∃ x, a = .internal x ∧ lnk s x ≠ none) →
      (L.map Idx.raw).Nodup ∧ ∀ x ∈ L.map Idx.raw, x < s.inn.items.length := by
    intro L ndL hL
    constructor
    · rw [List.Nodup, List.pairwise_map]
      apply List.Pairwise.imp_of_mem _ ndL
      intro a b ha hb hab e
      obtain ⟨x, rfl, -⟩ := hL a ha
      obtain ⟨y, rfl, -⟩ := hL b hb
      exact hab (by simpa [Idx.raw] using e)
    · intro x hx
      obtain ⟨a, ha, rfl⟩ := List.mem_map.mp hx
      obtain ⟨y, rfl, hy⟩ := hL a ha
      exact w.lnk_lt hy
  have := key _ nd (by
    intro a ha
    obtain ⟨d, hd, ha⟩ := List.mem_flatMap.mp ha
    obtain ⟨y, rfl, h1, -⟩ := rowI_internal w d (List.mem_range.mp hd) a ha
    exact ⟨y, rfl, h1⟩)
  have := nodup_length_le _ _ this.1 this.2
  rwa [List.length_map] at this

theorem row_length_le (w : WF s lvl h) {d : Nat} (hd : d < h) : (rowI s d).length ≤ s.inn.items.length := by
  refine Nat.le_trans ?_ (rows_length_le w)
  obtain ⟨u, v, huv⟩ := List.append_of_mem (List.mem_range.mpr hd)
  rw [huv, List.flatMap_append, List.flatMap_cons]
  simp only [List.length_append]
  omega

theorem order_length_le (w : WF s lvl h) : (order s).length ≤ s.lf.items.length :=
  nodup_length_le _ _ (order_nodup w) fun _ hx => w.lpar_lt ((mem_order w).mp hx)

/-! ## Paths -/

theorem PathTo.inv {path : List PIdx} (hp : PathTo s path) : ∃ a i rest, path = ⟨a, i⟩ :: rest := by
  cases hp with
  | root => exact ⟨_, _, _, rfl⟩
  | step _ _ => exact ⟨_, _, _, rfl⟩

theorem PathTo.row {path : List PIdx} (hp : PathTo s path) : ∀ {a i rest}, path = ⟨a, i⟩ :: rest →
    ∃ u v, rowI s rest.length = u ++ a :: v := by
  induction hp with
  | root =>
    intro a i rest e
    cases e
    exact ⟨[], [], rfl⟩
  | step he hp ih =>
    intro a i rest e
    cases e
    obtain ⟨u, v, huv⟩ := ih rfl
    exact ⟨_, _, row_child huv he⟩

theorem getPathF_spec (w : WF s lvl h) : ∀ (n x : Nat) (acc : List PIdx), lnk s x ≠ none → h - lvl x < n →
    acc.length + (h - lvl x) < 10 →
    ∃ j rest, getPathF n s x acc = .ok (acc ++ ⟨.internal x, j⟩ :: rest) ∧ PathTo s (⟨.internal x, j⟩ :: rest) ∧
      rest.length = h - lvl x := by
  intro n
  induction n with
  | zero => intro x _ _ hn; omega
  | succ n ih =>
    intro x acc hx hn hcap
    have hc : acc.length < 10 := by omega
    rw [getPathF]
    by_cases hr : x = s.root
    · subst hr
      rw [if_pos rfl, pathPushTop_ok hc]
      exact ⟨0, [], rfl, .root, by rw [w.root_lvl]; simp⟩
    · rw [if_neg hr]
      obtain ⟨p, i, he⟩ := w.par_in' hx hr
      have h1 := w.kin he
      have hg := get_of_lnk h1.2
      have hpl := w.lvl_pos' (edge_live he)
      simp only [getIn_ok hg, bind_ok, pathPushTop_ok hc, unwrap_some]
      obtain ⟨j, rest, r1, r2, r3⟩ := ih p (acc ++ [⟨.internal x, i⟩]) (edge_live he) (by omega) (by simp; omega)
      refine ⟨i, ⟨.internal p, j⟩ :: rest, ?_, .step he r2, by simp [r3]; omega⟩
      rw [r1]; simp

/-- `get_path` of a leaf -/
theorem getPath_leaf (w : WF s lvl h) (hh : h ≤ 9) {l : Nat} (hl : lpar s l ≠ none) :
    ∃ i rest, getPath s (.leaf l) = .ok (⟨.leaf l, i⟩ :: rest) ∧ PathTo s (⟨.leaf l, i⟩ :: rest) ∧ rest.length = h := by
  obtain ⟨p, hlp⟩ := Option.ne_none_iff_exists'.mp hl
  obtain ⟨i, he⟩ := w.lpar_edge hlp
  obtain ⟨e', hL, -⟩ := getLf_of hlp
  obtain ⟨P, hP⟩ := lnk_isSome.mp (edge_live he)
  have hl1 := (w.klf he).1
  have hpos := w.h_pos
  have hslot := getLeafSlot_wf w he
  obtain ⟨j, rest, r1, r2, r3⟩ := getPathF_spec w s.fuel p [⟨.leaf l, i⟩] (edge_live he) (fuel_ok w p) (by simp; omega)
  refine ⟨i, _, ?_, .step he r2, by simp [r3]; omega⟩
  simp only [getPath, getLf_ok hL, bind_ok, getIn_ok hP, ← chs_of hP, hslot,
    pathPushTop_ok (show ([] : List PIdx).length < 10 by simp), List.nil_append, r1]
  rfl

/-- `get_path` of an internal node -/
theorem getPath_internal (w : WF s lvl h) (hh : h ≤ 10) {x : Nat} (hx : lnk s x ≠ none) :
    ∃ i rest, getPath s (.internal x) = .ok (⟨.internal x, i⟩ :: rest) ∧ PathTo s (⟨.internal x, i⟩ :: rest) ∧
      rest.length = h - lvl x := by
  have := w.lvl_pos' hx
  obtain ⟨j, rest, r1, r2, r3⟩ := getPathF_spec w s.fuel x [] hx (fuel_ok w x) (by simp; omega)
  exact ⟨j, rest, r1, r2, r3⟩

/-- `next_sibling` moves to the next index of the row -/
theorem nextSibling_spec (w : WF s lvl h) (ne : NE s) {path : List PIdx} (hp : PathTo s path) :
    ∀ {a i rest}, path = ⟨a, i⟩ :: rest → rest.length ≤ h →
    ∃ u v, rowI s rest.length = u ++ a :: v ∧
      ((v = [] ∧ nextSibling s path = .ok none) ∨
       ∃ b v' j rest', v = b :: v' ∧ nextSibling s path = .ok (some (⟨b, j⟩ :: rest')) ∧
        PathTo s (⟨b, j⟩ :: rest') ∧ rest'.length = rest.length) := by
  induction hp with
  | root =>
    intro a i rest e _
    cases e
    exact ⟨[], [], rfl, Or.inl ⟨rfl, rfl⟩⟩
  | @step a i p j rest he hp ih =>
    intro a' i' rest' e hle
    cases e
    obtain ⟨u, v, huv, hcase⟩ := ih rfl (by simp at hle; omega)
    obtain ⟨P, hP⟩ := lnk_isSome.mp (edge_live he)
    refine ⟨_, _, row_child huv he, ?_⟩
    have hhead : nextSibling s (⟨a, i⟩ :: ⟨.internal p, j⟩ :: rest) = (match (chs s p)[i + 1]? with
        | some next => pure (some (⟨next.arena, i + 1⟩ :: ⟨.internal p, j⟩ :: rest))
        | none => do
          match ← nextSibling s (⟨.internal p, j⟩ :: rest) with
          | none => pure none
          | some [] => .error .panic
          | some (p' :: rest') => do
            let par' ← s.getInIdx p'.arena
            let c ← vget par'.children 0
            pure (some (⟨c.arena, 0⟩ :: p' :: rest'))) := by
      rw [nextSibling]
      simp only [getInIdx_ok hP, bind_ok, ← chs_of hP]
      rfl
    rw [hhead]
    cases hc : (chs s p)[i + 1]? with
    | some c =>
      have hk : Edge s p (i + 1) c.arena := by rw [Edge, kids_chs, List.getElem?_map, hc]; rfl
      obtain ⟨hlt, hv2⟩ := List.getElem?_eq_some_iff.mp hk
      right
      refine ⟨c.arena, (kids s p).drop (i + 1 + 1) ++ v.flatMap (kidsI s), i + 1, _, ?_, rfl, .step hk hp, rfl⟩
      rw [List.drop_eq_getElem_cons hlt, hv2]
      rfl
    | none =>
      have hk : (kids s p).drop (i + 1) = [] := by
        rw [List.drop_eq_nil_iff, kids_chs, List.length_map]; simpa using hc
      rw [hk, List.nil_append]
      rcases hcase with ⟨rfl, e1⟩ | ⟨b, v', j', rest', rfl, e1, e2, e3⟩
      · left
        rw [e1]
        exact ⟨rfl, rfl⟩
      · right
        simp at hle
        obtain ⟨y, rfl, hy, hly⟩ := row_live w (d := rest.length) (by omega) (u := u ++ [.internal p]) (v := v') (a := b)
          (by rw [huv]; simp)
        obtain ⟨Y, hY⟩ := lnk_isSome.mp hy
        have hyr : y ≠ s.root := by
          intro e
          subst e
          rw [w.root_lvl] at hly
          have := w.h_pos
          have hz : rest.length = 0 := by omega
          rw [hz] at huv
          have := congrArg List.length huv
          simp only [rowI, List.length_append, List.length_cons, List.length_nil] at this
          omega
        have hne := ne y hy hyr
        cases hcy : chs s y with
        | nil => exact absurd hcy hne
        | cons c cs =>
          rw [chs_of hY] at hcy
          have hky : kids s y = c.arena :: cs.map Child.arena := by rw [kids_of hY, hcy]; rfl
          refine ⟨c.arena, cs.map Child.arena ++ v'.flatMap (kidsI s), 0, _, ?_, ?_, .step ?_ e2, ?_⟩
          · rw [List.flatMap_cons]
            show kids s y ++ _ = _
            rw [hky]; rfl
          · simp only [e1, bind_ok, getInIdx_ok hY, hcy, vget, List.getElem?_cons_zero, unwrap_some]
            rfl
          · rw [Edge, hky]; rfl
          · simp [e3]

theorem firstPathF_spec (w : WF s lvl h) (ne : NE s) (hh : h ≤ 9) : ∀ (n x : Nat) (acc : List PIdx) , lnk s x ≠ none →
    lvl x < n → chs s x ≠ [] → PathTo s (⟨.internal x, 0⟩ :: acc) → acc.length = h - lvl x →
    (∀ a v, rowI s (h - lvl x) = a :: v → a = .internal x) →
    ∃ l y j rest, firstPathF n s (.internal x) acc = .ok (⟨.leaf l, 0⟩ :: ⟨.internal y, j⟩ :: rest) ∧
      PathTo s (⟨.leaf l, 0⟩ :: ⟨.internal y, j⟩ :: rest) ∧ rest.length = h - 1 ∧
      ∃ v v', rowI s (h - 1) = .internal y :: v ∧ rowI s h = .leaf l :: v' := by
  intro n
  induction n with
  | zero => intro x _ _ hn; omega
  | succ n ih =>
    intro x acc hx hn hne hp hlen hfirst
    have hlx := w.lvl_pos' hx
    have hc : acc.length < 10 := by omega
    obtain ⟨N, hN⟩ := lnk_isSome.mp hx
    obtain ⟨u, v, hrow⟩ := hp.row rfl
    have hu : u = [] := by
      rw [hlen] at hrow
      cases u with
      | nil => rfl
      | cons b u =>
        have := hfirst b _ hrow
        subst this
        have nd := row_nodup w (h - lvl x)
        rw [hrow] at nd
        simp at nd
    subst hu
    rw [hlen, List.nil_append] at hrow
    cases hcx : chs s x with
    | nil => exact absurd hcx hne
    | cons c cs =>
      have hcx' : N.children = c :: cs := by rw [← chs_of hN]; exact hcx
      simp only [firstPathF, pathPush_ok hc, bind_ok, getIn_ok hN, hcx', vget, List.getElem?_cons_zero,
        unwrap_some]
      have he : Edge s x 0 c.arena := by rw [Edge, kids_of hN, hcx']; rfl
      have hrow2 := row_child (u := []) hrow he
      simp only [List.flatMap_nil, List.take_zero, List.nil_append] at hrow2
      cases ha : c.arena with
      | leaf l =>
        rw [ha] at he hrow2
        have hl1 := (w.klf he).1
        have hc2 : (⟨.internal x, 0⟩ :: acc : List PIdx).length < 10 := by simp; omega
        obtain ⟨n', rfl⟩ : ∃ n', n = n' + 1 := ⟨n - 1, by omega⟩
        simp only [firstPathF, pathPush_ok hc2, bind_ok, pure_ok]
        have hq : h - lvl x + 1 = h := by omega
        rw [hq] at hrow2
        exact ⟨l, x, 0, acc, rfl, .step he hp, by omega, v, _, by rw [← hl1]; exact hrow, hrow2⟩
      | internal y =>
        rw [ha] at he hrow2
        have h1 := w.kin he
        have hy : lnk s y ≠ none := by rw [h1.2]; simp
        have hyr : y ≠ s.root := by intro e; subst e; exact w.root_not_kid he
        have hly := w.lvl_pos' hy
        have e2 : h - lvl y = h - lvl x + 1 := by omega
        apply ih y _ hy (by omega) (ne y hy hyr) (.step he hp) (by simp; omega)
        intro a v2 hv2
        rw [e2, hrow2] at hv2
        cases hv2; rfl

/-- `first_path` of a non-empty tree -/
theorem firstPath_spec (w : WF s lvl h) (ne : NE s) (hh : h ≤ 9) (hne : order s ≠ []) :
    ∃ l y j rest, firstPath s = .ok (some (⟨.leaf l, 0⟩ :: ⟨.internal y, j⟩ :: rest)) ∧
      PathTo s (⟨.leaf l, 0⟩ :: ⟨.internal y, j⟩ :: rest) ∧ rest.length = h - 1 ∧
      ∃ v v', rowI s (h - 1) = .internal y :: v ∧ rowI s h = .leaf l :: v' := by
  obtain ⟨i, hi⟩ := w.root'
  have hrl : lnk s s.root ≠ none := by rw [hi]; simp
  have hle := w.h_le
  obtain ⟨l, y, j, rest, r1, r2, r3, r4⟩ := firstPathF_spec w ne hh (s.fuel + 1) s.root [] hrl
    (by rw [w.root_lvl, fuel]; omega) (fun hc => hne ((empty_iff w ne).mpr hc)) .root
    (by rw [w.root_lvl]; simp) (by
      intro a v hv
      rw [w.root_lvl, Nat.sub_self] at hv
      cases hv; rfl)
  refine ⟨l, y, j, rest, ?_, r2, r3, r4⟩
  have hemp' : (order s).isEmpty = false := by
    cases ho : order s with
    | nil => exact absurd ho hne
    | cons => rfl
  simp only [firstPath, isEmpty_spec w ne, hemp', bind_ok, Bool.false_eq_true, if_false, r1]
  rfl

theorem firstPath_empty (w : WF s lvl h) (ne : NE s) (hne : order s = []) : firstPath s = .ok none := by
  simp only [firstPath, isEmpty_spec w ne, hne, bind_ok, List.isEmpty_nil, if_true]
  rfl

end
end GB
