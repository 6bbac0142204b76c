import Verif.Proof.Path
import Verif.Model.Iter

/-!
# Reading operations: `iter`, `iter_range`, `depth`, cursors
-/

namespace GB
variable {E C D : Type}
open Tree

section
variable {s : Tree E C} {lvl : Nat → Nat} {h : Nat}

theorem elems_cons {l : Nat} {e : E} (he : elm s l = some e) (v : List Nat) :
    (entriesOf s (l :: v)).map Prod.snd = e :: (entriesOf s v).map Prod.snd := by
  rw [entriesOf_cons he]; rfl

theorem leafElems_spec : ∀ (cs : List (Child C)) (ls : List Nat), cs.map Child.arena = ls.map Idx.leaf →
    (∀ l ∈ ls, lpar s l ≠ none) → leafElems s cs = .ok ((entriesOf s ls).map Prod.snd) := by
  intro cs
  induction cs with
  | nil =>
    intro ls h1 _
    cases ls with
    | nil => rfl
    | cons => simp at h1
  | cons c cs ih =>
    intro ls h1 h2
    cases ls with
    | nil => simp at h1
    | cons l ls =>
      simp only [List.map_cons, List.cons.injEq] at h1
      obtain ⟨p, hp⟩ := Option.ne_none_iff_exists'.mp (h2 l (by simp))
      obtain ⟨e, hL, he⟩ := getLf_of hp
      rw [elems_cons he]
      simp only [leafElems, h1.1, Idx.unwrapLeaf, bind_ok, getLf_ok hL, ih ls h1.2 (fun x hx => h2 x (by simp [hx]))]
      rfl

/-- the leaf children of a node of level 1 -/
theorem leaf_children (w : WF s lvl h) {x : Nat} (hx : lnk s x ≠ none) (hl : lvl x = 1) :
    ∃ ls : List Nat, kids s x = ls.map Idx.leaf ∧ ∀ l ∈ ls, lpar s l ≠ none := by
  have key : ∀ K : List Idx, (∀ a ∈ K, ∃ l, a = .leaf l ∧ lpar s l ≠ none) →
      ∃ ls : List Nat, K = ls.map Idx.leaf ∧ ∀ l ∈ ls, lpar s l ≠ none := by
    intro K
    induction K with
    | nil => intro _; exact ⟨[], rfl, by simp⟩
    | cons a K ih =>
      intro hK
      obtain ⟨l, rfl, hl⟩ := hK a (by simp)
      obtain ⟨ls, rfl, h2⟩ := ih (fun b hb => hK b (by simp [hb]))
      refine ⟨l :: ls, rfl, ?_⟩
      intro y hy
      rcases List.mem_cons.mp hy with rfl | hy
      · exact hl
      · exact h2 y hy
  apply key
  intro a ha
  obtain ⟨i, hi⟩ := mem_kids.mp ha
  obtain ⟨l, rfl⟩ := (w.kid_leaf_iff hi).mp hl
  exact ⟨l, rfl, by rw [(w.klf hi).2]; simp⟩

theorem iterF_spec (w : WF s lvl h) (ne : NE s) : ∀ (n : Nat) (x j : Nat) (rest : List PIdx) (u v : List Idx),
    PathTo s (⟨.internal x, j⟩ :: rest) → rest.length = h - 1 → rowI s (h - 1) = u ++ .internal x :: v → v.length < n →
    ∃ ls, iterF n s (⟨.internal x, j⟩ :: rest) = .ok ((entriesOf s ls).map Prod.snd) ∧
      (Idx.internal x :: v).flatMap (kidsI s) = ls.map Idx.leaf := by
  intro n
  induction n with
  | zero => intro x j rest u v _ _ _ hn; omega
  | succ n ih =>
    intro x j rest u v hp hlen hrow hn
    have hpos := w.h_pos
    obtain ⟨x', e, hx, hlx⟩ := row_live w (by omega) hrow
    cases e
    have hl1 : lvl x = 1 := by omega
    obtain ⟨N, hN⟩ := lnk_isSome.mp hx
    obtain ⟨ls, hk, hls⟩ := leaf_children w hx hl1
    have hle := leafElems_spec (s := s) N.children ls (by rw [← kids_of hN]; exact hk) hls
    obtain ⟨u', v', hr', hcase⟩ := nextSibling_spec w ne hp rfl (by omega)
    rw [hlen] at hr'
    obtain ⟨rfl, rfl⟩ := row_uniq w hrow hr'
    simp only [iterF, getInIdx_ok hN, bind_ok, hle]
    rcases hcase with ⟨rfl, e1⟩ | ⟨b, v', j', rest', rfl, e1, e2, e3⟩
    · rw [e1]
      exact ⟨ls, rfl, by simp [kidsI, hk]⟩
    · obtain ⟨y, rfl, -⟩ := row_live w (d := h - 1) (by omega) (u := u ++ [.internal x]) (v := v') (a := b) (by rw [hrow]; simp)
      obtain ⟨ls', i1, i2⟩ := ih y j' rest' (u ++ [.internal x]) v' e2 (by omega) (by rw [hrow]; simp) (by simp at hn; omega)
      rw [e1]
      simp only [bind_ok, i1]
      refine ⟨ls ++ ls', ?_, ?_⟩
      · rw [entriesOf_append, List.map_append]; rfl
      · rw [List.flatMap_cons, i2]
        simp [kidsI, hk]

/-- `iter` yields the sequence of elements -/
theorem iter_spec (w : WF s lvl h) (ne : NE s) (hh : h ≤ 9) : iter s = .ok (toList s) := by
  by_cases hne : order s = []
  · have : toList s = [] := by simp [toList, entries, hne]
    rw [this]
    simp only [iter, firstPath_empty w ne hne, bind_ok, Option.getD_none, List.tail_nil, fuel]
    rfl
  · obtain ⟨l, y, j, rest, r1, r2, r3, v, v', r4, r5⟩ := firstPath_spec w ne hh hne
    have hpos := w.h_pos
    have hp : PathTo s (⟨.internal y, j⟩ :: rest) := by cases r2; assumption
    have hlen := row_length_le w (d := h - 1) (by omega)
    rw [r4] at hlen
    simp at hlen
    obtain ⟨ls, i1, i2⟩ := iterF_spec w ne s.fuel y j rest [] v hp r3 r4 (by rw [fuel]; omega)
    simp only [iter, r1, bind_ok, Option.getD_some, List.tail_cons, i1]
    have : rowI s h = (order s).map .leaf := row_order w
    obtain ⟨d, hd⟩ : ∃ d, h = d + 1 := ⟨h - 1, by omega⟩
    rw [hd, rowI] at this
    rw [hd] at r4
    simp only [Nat.add_sub_cancel] at r4
    rw [r4, i2] at this
    have : ls = order s := by
      have inj : ∀ a b : Nat, Idx.leaf a = Idx.leaf b → a = b := by intro a b h; cases h; rfl
      exact (List.map_inj_right inj).mp this
    rw [this]; rfl

/-! ## The leaf row -/

theorem path_leaf_order (w : WF s lvl h) {l i : Nat} {rest : List PIdx} {u v : List Idx}
    (hr : rowI s h = u ++ .leaf l :: v) : ∃ u' v', order s = u' ++ l :: v' ∧ u = u'.map .leaf ∧ v = v'.map .leaf := by
  rw [row_order w] at hr
  exact map_leaf_split hr

theorem order_uniq (w : WF s lvl h) {l : Nat} {u v u' v' : List Nat} (h1 : order s = u ++ l :: v)
    (h2 : order s = u' ++ l :: v') : u = u' ∧ v = v' := by
  have nd := order_nodup w
  rw [h1] at h2 nd
  exact nodup_append_cons_inj h2 nd

theorem PathTo.leaf_inj (w : WF s lvl h) {l i i' : Nat} {rest rest' : List PIdx} (h1 : PathTo s (⟨.leaf l, i⟩ :: rest))
    (h2 : PathTo s (⟨.leaf l, i'⟩ :: rest')) : i = i' := by
  have key : ∀ {pth : List PIdx}, PathTo s pth → ∀ {l i : Nat} {rest : List PIdx}, pth = ⟨.leaf l, i⟩ :: rest →
      ∃ p, Edge s p i (.leaf l) := by
    intro pth hp
    cases hp with
    | root => intro l i rest e; cases e
    | step he _ => intro l i rest e; cases e; exact ⟨_, he⟩
  obtain ⟨p, e1⟩ := key h1 rfl
  obtain ⟨q, e2⟩ := key h2 rfl
  exact (w.kid_inj e1 e2).2

theorem iterNodesF_eq (n : Nat) (endLast : Option PIdx) (path : List PIdx) :
    iterNodesF (n + 1) s endLast path = (do
      let last ← unwrap path.head?
      let next ← nextSibling s path
      let l ← last.arena.unwrapLeaf
      let leaf ← s.getLf l
      match decide (endLast = path.head?), next with
      | false, some p' => do
        let rest ← iterNodesF n s endLast p'
        pure ((path, leaf) :: rest)
      | _, _ => pure [(path, leaf)]) := rfl

/-- the list produced by `Iter` -/
theorem iterNodesF_spec (w : WF s lvl h) (ne : NE s) {le ie : Nat} {restE : List PIdx}
    (hpe : PathTo s (⟨.leaf le, ie⟩ :: restE)) :
    ∀ (n l i : Nat) (rest : List PIdx) (u m z : List Nat),
    PathTo s (⟨.leaf l, i⟩ :: rest) → rest.length = h → order s = u ++ m ++ le :: z → (m ++ [le]).head? = some l →
    m.length < n →
    ∃ R, iterNodesF n s (some ⟨.leaf le, ie⟩) (⟨.leaf l, i⟩ :: rest) = .ok R ∧
      R.map (fun r => (r.1.head?.map PIdx.arena, r.2.elem)) = (entriesOf s (m ++ [le])).map fun x => (some (.leaf x.1), x.2) := by
  intro n
  induction n with
  | zero => intro l i rest u m z _ _ _ _ hn; omega
  | succ n ih =>
    intro l i rest u m z hp hlen hord hhead hn
    have hlo : l ∈ order s := by
      rw [hord]
      have : l ∈ m ++ [le] := List.mem_of_head? hhead
      simp only [List.mem_append, List.mem_cons, List.not_mem_nil, or_false] at this ⊢
      rcases this with h | h
      · exact Or.inl (Or.inr h)
      · exact Or.inr (Or.inl h)
    obtain ⟨p, hlp⟩ := Option.ne_none_iff_exists'.mp ((mem_order w).mp hlo)
    obtain ⟨e, hL, he⟩ := getLf_of hlp
    obtain ⟨u', v', hr', hcase⟩ := nextSibling_spec w ne hp rfl (by omega)
    rw [hlen] at hr'
    obtain ⟨u2, v2, o1, rfl, rfl⟩ := path_leaf_order w (i := i) (rest := rest) hr'
    cases m with
    | nil =>
      simp at hhead
      subst hhead
      have := hp.leaf_inj w hpe
      subst this
      obtain ⟨nx, hnx⟩ : ∃ nx, nextSibling s (⟨.leaf le, i⟩ :: rest) = .ok nx := by
        rcases hcase with ⟨-, e1⟩ | ⟨_, _, _, _, -, e1, -⟩
        · exact ⟨_, e1⟩
        · exact ⟨_, e1⟩
      have hd : decide ((some (⟨.leaf le, i⟩ : PIdx)) = (⟨.leaf le, i⟩ :: rest : List PIdx).head?) = true :=
        decide_eq_true rfl
      rw [iterNodesF_eq, hd]
      simp only [List.head?_cons, unwrap_some, hnx, bind_ok, Idx.unwrapLeaf, getLf_ok hL]
      refine ⟨_, rfl, ?_⟩
      rw [List.nil_append, entriesOf_cons he]
      rfl
    | cons l' m =>
      simp at hhead
      subst hhead
      have hne : (some (⟨.leaf le, ie⟩ : PIdx)) ≠ some ⟨.leaf l', i⟩ := by
        intro e
        cases e
        have nd := order_nodup w
        rw [hord] at nd
        rw [List.nodup_append] at nd
        exact nd.2.2 le (by simp) le (by simp) rfl
      have o2 : order s = u ++ l' :: (m ++ le :: z) := by rw [hord]; simp
      obtain ⟨rfl, rfl⟩ := order_uniq w o1 o2
      rcases hcase with ⟨e0, e1⟩ | ⟨b, v', j', rest', e0, e1, e2, e3⟩
      · simp at e0
      · obtain ⟨lb, hb⟩ : ∃ lb, b = .leaf lb ∧ (m ++ [le]).head? = some lb := by
          cases m with
          | nil => simp at e0; exact ⟨le, e0.1.symm, rfl⟩
          | cons a m => simp at e0; exact ⟨a, e0.1.symm, rfl⟩
        obtain ⟨rfl, hb⟩ := hb
        obtain ⟨R, i1, i2⟩ := ih lb j' rest' (u2 ++ [l']) m z e2 (by omega) (by rw [hord]; simp) hb (by simp at hn; omega)
        have hd : decide ((some (⟨.leaf le, ie⟩ : PIdx)) = (⟨.leaf l', i⟩ :: rest : List PIdx).head?) = false :=
          decide_eq_false hne
        rw [iterNodesF_eq, hd]
        simp only [List.head?_cons, unwrap_some, e1, bind_ok, Idx.unwrapLeaf, getLf_ok hL, i1]
        refine ⟨_, rfl, ?_⟩
        rw [List.cons_append, entriesOf_cons he]
        simp only [List.map_cons, i2]
        rfl

/-! ## depth -/

theorem depthF_spec (w : WF s lvl h) (ne : NE s) : ∀ (n x d : Nat), lnk s x ≠ none → lvl x ≤ n → chs s x ≠ [] →
    depthF n s x d = .ok (d + lvl x) := by
  intro n
  induction n with
  | zero => intro x d hx hn; have := (w.lvl_pos' hx).1; omega
  | succ n ih =>
    intro x d hx hn hne
    obtain ⟨N, hN⟩ := lnk_isSome.mp hx
    cases hcx : chs s x with
    | nil => exact absurd hcx hne
    | cons c cs =>
      have hcx' : N.children = c :: cs := by rw [← chs_of hN]; exact hcx
      have he : Edge s x 0 c.arena := by rw [Edge, kids_of hN, hcx']; rfl
      simp only [depthF, getIn_ok hN, bind_ok, hcx', List.head?_cons, unwrap_some]
      cases ha : c.arena with
      | leaf l =>
        rw [ha] at he
        rw [(w.klf he).1]; rfl
      | internal y =>
        rw [ha] at he
        have h1 := w.kin he
        have hy : lnk s y ≠ none := by rw [h1.2]; simp
        have hyr : y ≠ s.root := by intro e; subst e; exact w.root_not_kid he
        simp only
        rw [ih y (d + 1) hy (by omega) (ne y hy hyr)]
        congr 1
        omega

/-- `depth` of a non-empty tree is the number of levels -/
theorem depth_spec (w : WF s lvl h) (ne : NE s) (hne : order s ≠ []) : depth s = .ok h := by
  obtain ⟨i, hi⟩ := w.root'
  have hrl : lnk s s.root ≠ none := by rw [hi]; simp
  have hle := w.h_le
  rw [depth, depthF_spec w ne s.fuel s.root 0 hrl (by rw [w.root_lvl, fuel]; omega)
    (fun hc => hne ((empty_iff w ne).mpr hc)), w.root_lvl]
  simp

end
end GB
