import Verif.Proof.Entries

/-!
# `push` and `prepend`
-/

namespace GB
variable {E C D : Type}
open Tree

theorem bind_inv {α β : Type} {x : M α} {f : α → M β} {b : β} (h : (x >>= f) = .ok b) : ∃ a, x = .ok a ∧ f a = .ok b := by
  cases x with
  | error e => cases h
  | ok a => exact ⟨a, rfl, h⟩

section
variable {s s' : Tree E C} {lvl : Nat → Nat} {h p : Nat} {B : Trait E C D} {A : Law B}

theorem Good.rootLive (g : Good A s lvl h) : lnk s s.root ≠ none := by
  obtain ⟨i, hi⟩ := g.wf.root'
  rw [hi]; simp

/-- position of a leaf in the sequence relative to its siblings -/
theorem edge_order (w : WF s lvl h) {p i l : Nat} (he : Edge s p i (.leaf l)) :
    ∃ a b, order s = (a ++ ((kids s p).take i).map Idx.raw) ++ l :: (((kids s p).drop (i + 1)).map Idx.raw ++ b) := by
  have hp := edge_live he
  have hl1 := (w.klf he).1
  have hm := mem_row w (h - lvl p) hp rfl
  rw [hl1] at hm
  obtain ⟨u, v, hr⟩ := List.append_of_mem hm
  have ho := leaf_row w hr he
  have := congrArg (List.map Idx.raw) ho
  rw [List.map_map] at this
  have e : (Idx.raw ∘ Idx.leaf) = id := rfl
  rw [e, List.map_id] at this
  refine ⟨(u.flatMap (kidsI s)).map Idx.raw, (v.flatMap (kidsI s)).map Idx.raw, ?_⟩
  rw [this]
  simp only [List.map_append, List.map_cons]
  rfl

theorem nodup_append_cons_inj {α : Type} {a b c d : List α} {x : α} (hab : a ++ x :: b = c ++ x :: d)
    (nd : (a ++ x :: b).Nodup) : a = c ∧ b = d := by
  induction a generalizing c with
  | nil =>
    cases c with
    | nil => simp_all
    | cons y c =>
      simp only [List.nil_append, List.cons_append, List.cons.injEq] at hab
      obtain ⟨rfl, rfl⟩ := hab
      simp at nd
  | cons y a ih =>
    cases c with
    | nil =>
      simp only [List.nil_append, List.cons_append, List.cons.injEq] at hab
      obtain ⟨rfl, rfl⟩ := hab
      simp at nd
    | cons z c =>
      simp only [List.cons_append, List.cons.injEq] at hab nd
      obtain ⟨rfl, hab⟩ := hab
      have := ih hab (List.nodup_cons.mp nd).2
      exact ⟨by rw [this.1], this.2⟩

/-- where a new leaf ends up -/
theorem ins_order (r : LeafEdit s s' p) (w : WF s lvl h) (hp : lnk s p ≠ none) (hl : lvl p = 1) {j l0 : Nat}
    (hk : kids s' p = (kids s p).take j ++ .leaf l0 :: (kids s p).drop j) :
    ∃ u v, order s = u ++ v ∧ order s' = u ++ l0 :: v ∧
      (∀ k, Edge s p j (.leaf k) → ∃ v', v = k :: v') ∧
      (∀ k, 0 < j → Edge s p (j - 1) (.leaf k) → ∃ u', u = u' ++ [k]) := by
  obtain ⟨a, b, h1, h2⟩ := r.order w hp hl
  refine ⟨a ++ ((kids s p).take j).map Idx.raw, ((kids s p).drop j).map Idx.raw ++ b, ?_, ?_, ?_, ?_⟩
  · rw [h1, LeafEdit.leafIds]
    conv => lhs; rw [← List.take_append_drop j (kids s p)]
    simp only [List.map_append, List.append_assoc]
  · rw [h2, LeafEdit.leafIds, hk]
    simp [Idx.raw]
  · intro k he
    have : (kids s p).drop j = .leaf k :: (kids s p).drop (j + 1) := by
      obtain ⟨hlt, hv⟩ := List.getElem?_eq_some_iff.mp he
      rw [List.drop_eq_getElem_cons hlt, hv]
    rw [this]
    exact ⟨_, rfl⟩
  · intro k hj he
    have : (kids s p).take j = (kids s p).take (j - 1) ++ [.leaf k] := by
      obtain ⟨hlt, hv⟩ := List.getElem?_eq_some_iff.mp he
      have e : j = (j - 1) + 1 := by omega
      conv => lhs; rw [e]
      rw [List.take_add_one, List.getElem?_eq_getElem hlt, hv]
      rfl
    rw [this]
    exact ⟨a ++ ((kids s p).take (j - 1)).map Idx.raw, by simp [Idx.raw]⟩

/-- Replacing the element of one leaf and repairing the caches. -/
theorem Good.upd (g : Good A s lvl h) {l q : Nat} {e e' : E} (hl : s.lf.get l = some ⟨e, q⟩)
    (hok : A.okE e') (diff : Option D)
    (hdiff : ∀ d, B.useDiff = true → diff = some d → A.IsDiff (B.elemCache e) d (B.elemCache e')) :
    ∃ s', recursiveUpdateCache B (s.setLf l ⟨e', q⟩) (.leaf l) B.useDiff diff = .ok s' ∧
      Good A s' lvl h ∧ SameShape s s' ∧ (∀ k, elm s' k = if k = l then some e' else elm s k) ∧
      s'.lf.items.length = s.lf.items.length := by
  obtain ⟨s', h1, h2, h3, h4, h5, h6⟩ := updLeaf_spec (A := A) g.wf g.cok g.rok g.cinv hl (e' := e')
    (A.elem_ok _ hok) B.useDiff diff (fun h => h) hdiff
  have hel : ∀ k, elm s' k = if k = l then some e' else elm s k := by
    intro k
    have : elm s' k = elm (s.setLf l ⟨e', q⟩) k := by simp only [elm, h3]; rfl
    rw [this, elm_setLf s (by rw [lpar_of hl]; simp)]
  refine ⟨s', h1, ⟨h2.wf g.wf, h6, h4, h5, ?_⟩, h2, hel, by rw [h3]; simp⟩
  intro k x hx
  rw [hel] at hx
  split at hx
  · cases hx; exact hok
  · exact g.okE k x hx

theorem diff_right (A : Law B) (hd : B.useDiff = true) {x e e' : E} (hx : A.okE x)
    (hc : B.elemCache e' = A.total [B.elemCache x, B.elemCache e]) :
    A.IsDiff (B.elemCache x) (B.newCacheToDiff (B.elemCache e)) (B.elemCache e') := by
  have := A.diff_ins hd [B.elemCache x] [] (B.elemCache e) (by simp)
  rw [hc]
  simpa [A.total_single _ (A.elem_ok _ hx)] using this

theorem diff_left (A : Law B) (hd : B.useDiff = true) {x e e' : E} (hx : A.okE x)
    (hc : B.elemCache e' = A.total [B.elemCache e, B.elemCache x]) :
    A.IsDiff (B.elemCache x) (B.newCacheToDiff (B.elemCache e)) (B.elemCache e') := by
  have := A.diff_ins hd [] [B.elemCache x] (B.elemCache e) (by simp)
  rw [hc]
  simpa [A.total_single _ (A.elem_ok _ hx)] using this

/-- An empty tree may be given height 1. -/
theorem Good.reset (g : Good A s lvl h) (he : chs s s.root = []) : Good A s (fun _ => 1) 1 :=
  ⟨g.wf.empty_reset (kids_ne_nil.mpr he), g.cinv, g.cok, g.rok, g.okE⟩

theorem Sz.reset {m : Fill} (sz : Sz m s h) : Sz m s 1 := by
  intro y hy _
  obtain ⟨h1, h2, -⟩ := sz y hy (fun h => h)
  exact ⟨h1, h2, fun _ hh => by omega⟩

theorem empty_iff (w : WF s lvl h) (ne : NE s) : order s = [] ↔ chs s s.root = [] := by
  obtain ⟨i, hi⟩ := w.root'
  have hr : lnk s s.root ≠ none := by rw [hi]; simp
  have h1 := (lastLeafF_spec w ne s.fuel s.root hr (by rw [w.root_lvl, fuel]; have := w.h_le; omega)).2
  rw [w.root_lvl, ← order_eq w] at h1
  constructor
  · intro ho
    apply Decidable.byContradiction
    intro hc
    exact h1 hc ho
  · intro hc
    cases ho : order s with
    | nil => rfl
    | cons l L =>
      have hm : l ∈ order s := by rw [ho]; simp
      exact absurd ((empty_root w (kids_ne_nil.mpr hc)).2 l) ((mem_order w).mp hm)

/-- state after linking a fresh leaf as `j`-th child of `p` -/
def linkLeaf (B : Trait E C D) (s : Tree E C) (p j : Nat) (data : E) (N : Node C) : Tree E C :=
  (addLf s ⟨data, p⟩).setIn p { N with
    children := N.children.take j ++ ⟨.leaf s.lf.items.length, B.elemCache data⟩ :: N.children.drop j }

theorem linkLeaf_spec (w : WF s lvl h) {N : Node C} (hN : s.inn.get p = some N) (hl : lvl p = 1) (j : Nat) (data : E) :
    LeafEdit s (linkLeaf B s p j data N) p ∧
    chs (linkLeaf B s p j data N) p =
      (chs s p).take j ++ ⟨.leaf s.lf.items.length, B.elemCache data⟩ :: (chs s p).drop j ∧
    kids (linkLeaf B s p j data N) p = (kids s p).take j ++ .leaf s.lf.items.length :: (kids s p).drop j ∧
    (∀ l, elm (linkLeaf B s p j data N) l = if l = s.lf.items.length then some data else elm s l) := by
  have hp : lnk (addLf s ⟨data, p⟩) p ≠ none := lnk_isSome.mpr ⟨N, hN⟩
  have hch : chs (linkLeaf B s p j data N) p =
      (chs s p).take j ++ ⟨.leaf s.lf.items.length, B.elemCache data⟩ :: (chs s p).drop j := by
    rw [linkLeaf, chs_setIn _ hp, if_pos rfl, ← chs_of hN]
  have hk : kids (linkLeaf B s p j data N) p = (kids s p).take j ++ .leaf s.lf.items.length :: (kids s p).drop j := by
    rw [kids_chs, hch, kids_chs]; simp
  refine ⟨leafEdit_ins w hl (j := j) (l0 := s.lf.items.length) rfl ?_ ?_ ?_ hk (lpar_fresh s) ?_ ?_, hch, hk, ?_⟩
  · simp [linkLeaf]
  · intro y
    rw [linkLeaf, lnk_setIn _ hp]
    split
    · next hy => subst hy; rw [← lnk_of hN]
    · rfl
  · intro y hy
    rw [linkLeaf, chs_setIn _ hp, if_neg hy]; rfl
  · rw [linkLeaf, lpar_setIn, lpar_addLf, if_pos rfl]
  · intro l hl
    rw [linkLeaf, lpar_setIn, lpar_addLf, if_neg hl]
  · intro l
    rw [linkLeaf, elm_setIn, elm_addLf]

/-- linking a fresh leaf, repairing the caches, splitting -/
theorem link_finish {m : Fill} (hm1 : 1 ≤ m.lo) (hm6 : m.lo + m.d ≤ 6) (g : Good A s lvl h) (sz : Sz m s h)
    {N : Node C} (hN : s.inn.get p = some N) (hl : lvl p = 1) (hne : chs s p ≠ [] ∨ p = s.root) {j : Nat} {data : E}
    (hdata : A.okE data)
    (idx : Idx) (hidx : idx = .internal p ∨ (∃ k, idx = .leaf k ∧ .leaf k ∈ kids s p)) (diff : Option D)
    (hdiff : diff = none ∨ diff = some (B.newCacheToDiff (B.elemCache data))) :
    ∃ s3 lvl' h', (do
        let s2 ← recursiveUpdateCache B (linkLeaf B s p j data N) idx B.useDiff diff
        if MAXC ≤ N.children.length + 1 then split B s2 p else pure s2 : M (Tree E C)) = .ok s3 ∧
      Good A s3 lvl' h' ∧ Sz m s3 h' ∧ h ≤ h' ∧ Steps (11 ≤ (chs s p).length ∧ Jam s p) h h' ∧ s3.root = s.root ∧
      s3.lf.items.length = s.lf.items.length + 1 ∧
      (∀ l, elm s3 l = if l = s.lf.items.length then some data else elm s l) ∧
      ∃ u v, order s = u ++ v ∧ order s3 = u ++ s.lf.items.length :: v ∧
        (∀ k, Edge s p j (.leaf k) → ∃ v', v = k :: v') ∧
        (∀ k, 0 < j → Edge s p (j - 1) (.leaf k) → ∃ u', u = u' ++ [k]) := by
  obtain ⟨r, hch, hk, hel⟩ := linkLeaf_spec (B := B) g.wf hN hl j data
  have hp : lnk s p ≠ none := lnk_isSome.mpr ⟨N, hN⟩
  obtain ⟨s3, lvl', h', e3, g3, sz3, same, h2⟩ := ins_finish
    (s' := linkLeaf B s p j data N) hm1 hm6 g sz hp hl hne hdata rfl r hch (lpar_fresh s) hel idx
    (by
      rcases hidx with h | ⟨k, h1, h2⟩
      · exact Or.inl h
      · refine Or.inr ⟨k, h1, ?_⟩
        rw [hk]
        rw [← List.take_append_drop j (kids s p)] at h2
        rcases List.mem_append.mp h2 with h | h
        · simp [h]
        · simp [h]) diff hdiff
  obtain ⟨u, v, o1, o2, o3, o4⟩ := ins_order r g.wf hp hl hk
  have hlen : (chs (linkLeaf B s p j data N) p).length = N.children.length + 1 := by
    rw [hch, chs_of hN]
    conv => rhs; rw [← List.take_append_drop j N.children]
    simp only [List.length_append, List.length_cons]
    omega
  rw [hlen] at e3
  refine ⟨s3, lvl', h', e3, g3, sz3, h2.le.1, h2, same.root.trans r.root, ?_, ?_, u, v, o1, same.order.trans o2, o3, o4⟩
  · rw [same.lfitems]; simp [linkLeaf, addLf, Arena.insert]
  · intro l; rw [same.elm, hel]

theorem vpush_ok {α : Type} {l : List α} (x : α) (h : l.length ≤ 11) :
    vpush l x = .ok (l.take l.length ++ x :: l.drop l.length) := by
  simp [vpush, MAXC, Nat.lt_succ_of_le h]

theorem vinsert_ok {α : Type} {l : List α} (x : α) {i : Nat} (hi : i ≤ l.length) (h : l.length ≤ 11) :
    vinsert l i x = .ok (l.take i ++ x :: l.drop i) := by
  simp [vinsert, MAXC, hi, Nat.lt_succ_of_le h]

/-- the outcome of `push` -/
inductive PushRel (B : Trait E C D) (s : Tree E C) (e : E) (c : Cursor) (s' : Tree E C) : Prop
  /-- a new last leaf -/
  | new : (∀ l x, (entries s).getLast? = some (l, x) → B.canMerge x e = false) →
      c = ⟨s.lf.items.length, 0⟩ → entries s' = entries s ++ [(c.leaf, e)] →
      s'.lf.items.length = s.lf.items.length + 1 → PushRel B s e c s'
  /-- merged into the last leaf -/
  | merged (u : List (Nat × E)) (l : Nat) (x x' : E) : entries s = u ++ [(l, x)] → B.canMerge x e = true →
      B.mergeRight x e = .ok x' → c = ⟨l, B.rleLen x⟩ → entries s' = u ++ [(l, x')] →
      s'.lf.items.length = s.lf.items.length → PushRel B s e c s'

theorem getLast_order {s : Tree E C} (w : WF s lvl h) {l : Nat} {e : E} (hl : (order s).getLast? = some l)
    (he : elm s l = some e) : ∃ u, order s = u ++ [l] ∧ entries s = entriesOf s u ++ [(l, e)] := by
  obtain ⟨u, hu⟩ := getLast_split hl
  refine ⟨u, hu, ?_⟩
  rw [order_split hu he]
  rfl

theorem leaf_get (w : WF s lvl h) {l : Nat} (hl : l ∈ order s) : ∃ e q i N, s.lf.get l = some ⟨e, q⟩ ∧ elm s l = some e ∧
    Edge s q i (.leaf l) ∧ s.inn.get q = some N ∧ lvl q = 1 ∧ i < N.children.length := by
  have h1 := (mem_order w).mp hl
  obtain ⟨q, hq⟩ := Option.ne_none_iff_exists'.mp h1
  obtain ⟨i, hi⟩ := w.lpar_edge hq
  obtain ⟨e, h2, h3⟩ := getLf_of hq
  obtain ⟨N, hN⟩ := lnk_isSome.mp (edge_live hi)
  refine ⟨e, q, i, N, h2, h3, hi, hN, (w.klf hi).1, ?_⟩
  have := (List.getElem?_eq_some_iff.mp hi).1
  rwa [kids_chs, List.length_map, chs_of hN] at this

/-- the diff an insertion hands to the cache update -/
theorem diff_cases (B : Trait E C D) (e : E) :
    (if B.useDiff = true then some (B.newCacheToDiff (B.elemCache e)) else none) = none ∨
    (if B.useDiff = true then some (B.newCacheToDiff (B.elemCache e)) else none) =
      some (B.newCacheToDiff (B.elemCache e)) := by
  split <;> simp

theorem push_spec {m : Fill} (hm1 : 1 ≤ m.lo) (hm6 : m.lo + m.d ≤ 6) (g : Good A s lvl h) (sz : Sz m s h) {e : E} (hok : A.okE e) :
    ∃ c s' lvl' h', push B s e = .ok (c, s') ∧ Good A s' lvl' h' ∧ Sz m s' h' ∧
      (order s = [] ∧ h' ≤ h + 1 ∨ Steps (∃ l x, (entries s).getLast? = some (l, x) ∧ B.canMerge x e = false ∧ FullAbove s l) h h') ∧ PushRel B s e c s' := by
  have ne := Sz.ne sz hm1
  have hie := isEmpty_spec g.wf ne
  by_cases hemp : order s = []
  · -- empty tree
    have hc := (empty_iff g.wf ne).mp hemp
    have g1 := g.reset hc
    have sz1 := Sz.reset sz
    obtain ⟨i, hi⟩ := g.wf.root'
    have hget := get_of_lnk hi
    obtain ⟨s3, lvl', h', e3, g3, sz3, h1, h2, hr, hlf, hel, u, v, o1, o2, -, -⟩ :=
      link_finish hm1 hm6 g1 sz1 hget rfl (Or.inr rfl) (j := 0) hok (.internal s.root) (Or.inl rfl) _ (diff_cases B e)
    refine ⟨⟨s.lf.items.length, 0⟩, s3, lvl', h', ?_, g3, sz3, ?_, ?_⟩
    · simp only [push, hie, hemp, bind_ok, List.isEmpty_nil, if_true, allocLeafChild_eq]
      have hg : (addLf s ⟨e, s.root⟩).getIn s.root = .ok ⟨none, i, chs s s.root⟩ := getIn_ok hget
      simp only [root_addLf, hg, bind_ok, hc, vpush, List.length_nil, MAXC, Nat.reduceLT, if_true, List.nil_append]
      simp only [hc, List.length_nil, MAXC, if_neg (show ¬ 12 ≤ 0 + 1 by omega)] at e3
      simp only [linkLeaf, hc, List.take_nil, List.drop_nil, List.nil_append] at e3
      obtain ⟨s2, q1, q2⟩ := bind_inv e3
      cases q2
      simp only [setIn_root, root_addLf]
      rw [q1]
      rfl
    · exact .inl ⟨hemp, by have := h2.le; have := g.wf.h_pos; omega⟩
    · obtain ⟨n1, n2⟩ := entries_ins g.wf o1 o2 (lpar_fresh s) hel
      have he : entries s = [] := by rw [entries, hemp]; rfl
      refine .new ?_ rfl ?_ hlf
      · intro l x hx; rw [he] at hx; cases hx
      · rw [he] at n1
        have := List.append_eq_nil_iff.mp n1.symm
        rw [n2, he, this.1, this.2]
  · -- non-empty tree
    obtain ⟨l, hl⟩ : ∃ l, (order s).getLast? = some l := by
      cases hg : (order s).getLast? with
      | none => exact absurd (by simpa using hg) hemp
      | some l => exact ⟨l, rfl⟩
    obtain ⟨u, hu, hent⟩ : ∃ u, order s = u ++ [l] ∧ True := by
      obtain ⟨u, hu⟩ := getLast_split hl; exact ⟨u, hu, trivial⟩
    obtain ⟨x, q, i, N, hL, hx, hed, hN, hl1, hiN⟩ := leaf_get g.wf (l := l) (by rw [hu]; simp)
    obtain ⟨u', hu', hent⟩ := getLast_order g.wf hl hx
    have hxok := g.okE l x hx
    have hemp' : (order s).isEmpty = false := by
      cases ho : order s with
      | nil => exact absurd ho hemp
      | cons => rfl
    have hhead : push B s e = (if B.canMerge x e then (do
          let e' ← B.mergeRight x e
          let s ← recursiveUpdateCache B (s.setLf l ⟨e', q⟩) (.leaf l) B.useDiff
            (if B.useDiff = true then some (B.newCacheToDiff (B.elemCache e)) else none)
          pure (⟨l, B.rleLen x⟩, s))
        else (do
          let cs ← vpush N.children ⟨.leaf s.lf.items.length, B.elemCache e⟩
          let s2 ← recursiveUpdateCache B ((addLf s ⟨e, q⟩).setIn q { N with children := cs }) (.internal q) B.useDiff
            (if B.useDiff = true then some (B.newCacheToDiff (B.elemCache e)) else none)
          let s3 ← (if MAXC ≤ cs.length then split B s2 q else pure s2 : M (Tree E C))
          pure (⟨s.lf.items.length, 0⟩, s3))) := by
      have hg : (addLf s ⟨e, q⟩).getIn q = .ok N := getIn_ok hN
      simp only [push, hie, hemp', bind_ok, Bool.false_eq_true, if_false, lastLeaf_spec g.wf ne, hl, unwrap,
        getLf_ok hL, allocLeafChild_eq, hg, Node.isFull, decide_eq_true_eq]
      rfl
    rw [hhead]
    cases hcm : B.canMerge x e with
    | true =>
      simp only [if_true]
      obtain ⟨x', hmr, hok', hcc⟩ := A.merge_right x e hxok hok hcm
      obtain ⟨s', e1, g', sh, hel, hlf⟩ := g.upd hL hok' (if B.useDiff = true then some (B.newCacheToDiff (B.elemCache e)) else none)
        (by
          intro d hd he
          rw [if_pos hd] at he
          cases he
          exact diff_right A hd hxok hcc)
      refine ⟨⟨l, B.rleLen x⟩, s', lvl, h, ?_, g', SzX.congr sh sz, .inr (.inl ⟨rfl, by
        rintro ⟨l', x', h1, h2, -⟩
        rw [hent] at h1
        simp at h1
        rw [← h1.2, hcm] at h2
        cases h2⟩), ?_⟩
      · simp only [hmr, bind_ok, e1]; rfl
      · refine .merged _ l x x' hent hcm hmr rfl ?_ sh.lfitems
        exact entries_upd g.wf sh.order hel hent
    | false =>
      simp only [Bool.false_eq_true, if_false]
      have szq := (sz q (edge_live hed) (fun h => h)).1
      rw [chs_of hN] at szq
      have hkl : (kids s q).length = N.children.length := by rw [kids_chs, List.length_map, chs_of hN]
      -- the last leaf is the last child of its parent
      have hlast : i + 1 = N.children.length := by
        obtain ⟨a, b, hab⟩ := edge_order g.wf hed
        rw [hu'] at hab
        have nd := order_nodup g.wf
        rw [hu'] at nd
        have := (nodup_append_cons_inj hab nd).2
        have h3 := (List.append_eq_nil_iff.mp this.symm).1
        have h4 := List.map_eq_nil_iff.mp h3
        have h5 := List.drop_eq_nil_iff.mp h4
        omega
      obtain ⟨s3, lvl', h', e3, g3, sz3, h1, h2, hr, hlf, hel, u2, v2, o1, o2, -, o4⟩ :=
        link_finish hm1 hm6 g sz hN hl1 (by left; rw [chs_of hN]; intro e; rw [e] at hiN; simp at hiN)
          (j := N.children.length) hok (.internal q) (Or.inl rfl) _ (diff_cases B e)
      obtain ⟨u3, hu3⟩ := o4 l (by omega) (by rw [show N.children.length - 1 = i by omega]; exact hed)
      refine ⟨⟨s.lf.items.length, 0⟩, s3, lvl', h', ?_, g3, sz3, .inr (h2.iff ⟨fun ⟨k1, k2⟩ =>
        ⟨l, x, by rw [hent]; simp, hcm, q, i, hed, k1, k2⟩, ?_⟩), ?_⟩
      rotate_left 1
      · rintro ⟨l', x', k1, -, q', i', k2, k3⟩
        rw [hent] at k1
        simp at k1
        rw [← k1.1] at k2
        rw [(g.wf.kid_lf_inj hed k2).1]
        exact k3
      rotate_left 1
      · rw [vpush_ok _ szq]
        simp only [bind_ok]
        obtain ⟨s2, q1, q2⟩ := bind_inv e3
        simp only [linkLeaf] at q1
        rw [q1]
        simp only [bind_ok]
        have hlen : ∀ y : Child C, (N.children.take N.children.length ++ y :: N.children.drop N.children.length).length =
          N.children.length + 1 := by intro y; simp
        rw [hlen, q2]
        rfl
      · have hv : v2 = [] := by
          rw [hu', hu3, List.append_assoc] at o1
          have nd := order_nodup g.wf
          rw [hu'] at nd
          exact (nodup_append_cons_inj o1 nd).2.symm
        subst hv
        obtain ⟨n1, n2⟩ := entries_ins g.wf o1 o2 (lpar_fresh s) hel
        refine .new ?_ rfl ?_ hlf
        · intro l2 x2 hx2
          rw [hent] at hx2
          simp at hx2
          rw [← hx2.2]; exact hcm
        · rw [n2, n1]; simp

/-- the outcome of `prepend` -/
inductive PrependRel (B : Trait E C D) (s : Tree E C) (e : E) (c : Cursor) (s' : Tree E C) : Prop
  /-- a new first leaf -/
  | new : (∀ l x, (entries s).head? = some (l, x) → B.canMerge e x = false) →
      c = ⟨s.lf.items.length, 0⟩ → entries s' = (c.leaf, e) :: entries s →
      s'.lf.items.length = s.lf.items.length + 1 → PrependRel B s e c s'
  /-- merged into the first leaf -/
  | merged (v : List (Nat × E)) (l : Nat) (x x' : E) : entries s = (l, x) :: v → B.canMerge e x = true →
      B.mergeLeft x e = .ok x' → c = ⟨l, 0⟩ → entries s' = (l, x') :: v →
      s'.lf.items.length = s.lf.items.length → PrependRel B s e c s'

theorem prepend_spec {m : Fill} (hm1 : 1 ≤ m.lo) (hm6 : m.lo + m.d ≤ 6) (g : Good A s lvl h) (sz : Sz m s h) {e : E} (hok : A.okE e)
    (hemp : order s ≠ []) :
    ∃ c s' lvl' h', prepend B s e = .ok (c, s') ∧ Good A s' lvl' h' ∧ Sz m s' h' ∧
      Steps (∃ l x, (entries s).head? = some (l, x) ∧ B.canMerge e x = false ∧ FullAbove s l) h h' ∧ PrependRel B s e c s' := by
  have ne := Sz.ne sz hm1
  obtain ⟨l, u, hu⟩ : ∃ l u, order s = l :: u := by
    cases ho : order s with
    | nil => exact absurd ho hemp
    | cons l u => exact ⟨l, u, rfl⟩
  obtain ⟨x, q, i, N, hL, hx, hed, hN, hl1, hiN⟩ := leaf_get g.wf (l := l) (by rw [hu]; simp)
  have hent : entries s = [] ++ (l, x) :: entriesOf s u := order_split (u := []) hu hx
  have hxok := g.okE l x hx
  have hhead : prepend B s e = (if B.canMerge e x then (do
        let e' ← B.mergeLeft x e
        let s ← recursiveUpdateCache B (s.setLf l ⟨e', q⟩) (.leaf l) B.useDiff none
        pure (⟨l, 0⟩, s))
      else (do
        let cs ← vinsert N.children 0 ⟨.leaf s.lf.items.length, B.elemCache e⟩
        let s2 ← recursiveUpdateCache B ((addLf s ⟨e, q⟩).setIn q { N with children := cs }) (.leaf l) B.useDiff none
        let s3 ← (if MAXC ≤ cs.length then split B s2 q else pure s2 : M (Tree E C))
        pure (⟨s.lf.items.length, 0⟩, s3))) := by
    have hg : (addLf s ⟨e, q⟩).getIn q = .ok N := getIn_ok hN
    simp only [prepend, bind_ok, firstLeaf_spec g.wf ne, hu, List.head?_cons,
      getLf_ok hL, allocLeafChild_eq, hg, Node.isFull, decide_eq_true_eq]
    rfl
  rw [hhead]
  cases hcm : B.canMerge e x with
  | true =>
    simp only [if_true]
    obtain ⟨x', hmr, hok', hcc⟩ := A.merge_left e x hok hxok hcm
    obtain ⟨s', e1, g', sh, hel, hlf⟩ := g.upd hL hok' none (by intro d hd he; cases he)
    refine ⟨⟨l, 0⟩, s', lvl, h, ?_, g', SzX.congr sh sz, .inl ⟨rfl, by
      rintro ⟨l', x', h1, h2, -⟩
      rw [hent] at h1
      simp at h1
      rw [← h1.2, hcm] at h2
      cases h2⟩, ?_⟩
    · simp only [hmr, bind_ok, e1]; rfl
    · refine .merged _ l x x' hent hcm hmr rfl ?_ sh.lfitems
      exact entries_upd g.wf sh.order hel hent
  | false =>
    simp only [Bool.false_eq_true, if_false]
    have szq := (sz q (edge_live hed) (fun h => h)).1
    rw [chs_of hN] at szq
    have hkl : (kids s q).length = N.children.length := by rw [kids_chs, List.length_map, chs_of hN]
    -- the first leaf is the first child of its parent
    have hfirst : i = 0 := by
      obtain ⟨a, b, hab⟩ := edge_order g.wf hed
      rw [hu] at hab
      have nd := order_nodup g.wf
      rw [hu] at nd
      have := (nodup_append_cons_inj (a := []) hab nd).1
      have h3 := (List.append_eq_nil_iff.mp this.symm).2
      have h4 := List.map_eq_nil_iff.mp h3
      have h5 := congrArg List.length h4
      simp only [List.length_take, List.length_nil] at h5
      omega
    obtain ⟨s3, lvl', h', e3, g3, sz3, h1, h2, hr, hlf, hel, u2, v2, o1, o2, o3, -⟩ :=
      link_finish hm1 hm6 g sz hN hl1 (by left; rw [chs_of hN]; intro e; rw [e] at hiN; simp at hiN)
        (j := 0) hok (.leaf l) (Or.inr ⟨l, rfl, mem_kids.mpr ⟨i, hed⟩⟩) none (Or.inl rfl)
    obtain ⟨v3, hv3⟩ := o3 l (by rw [← hfirst]; exact hed)
    refine ⟨⟨s.lf.items.length, 0⟩, s3, lvl', h', ?_, g3, sz3, h2.iff ⟨fun ⟨k1, k2⟩ =>
      ⟨l, x, by rw [hent]; simp, hcm, q, i, hed, k1, k2⟩, ?_⟩, ?_⟩
    rotate_left 1
    · rintro ⟨l', x', k1, -, q', i', k2, k3⟩
      rw [hent] at k1
      simp at k1
      rw [← k1.1] at k2
      rw [(g.wf.kid_lf_inj hed k2).1]
      exact k3
    rotate_left 1
    · rw [vinsert_ok _ (Nat.zero_le _) szq]
      simp only [bind_ok]
      obtain ⟨s2, q1, q2⟩ := bind_inv e3
      simp only [linkLeaf] at q1
      rw [q1]
      simp only [bind_ok]
      have hlen : ∀ y : Child C, (N.children.take 0 ++ y :: N.children.drop 0).length =
        N.children.length + 1 := by intro y; simp
      rw [hlen, q2]
      rfl
    · have hv : u2 = [] := by
        rw [hu, hv3] at o1
        have nd := order_nodup g.wf
        rw [hu] at nd
        exact (nodup_append_cons_inj (a := []) o1 nd).1.symm
      subst hv
      obtain ⟨n1, n2⟩ := entries_ins g.wf o1 o2 (lpar_fresh s) hel
      refine .new ?_ rfl ?_ hlf
      · intro l2 x2 hx2
        rw [hent] at hx2
        simp at hx2
        rw [← hx2.2]; exact hcm
      · rw [n2, n1]; simp

/-- `prepend` on an empty tree: the leaf is linked, the root cache is left alone. -/
theorem prepend_empty_spec {m : Fill} (hm1 : 1 ≤ m.lo) (g : Good A s lvl h) (sz : Sz m s h) {e : E}
    (hemp : order s = []) :
    ∃ N, s.inn.get s.root = some N ∧
      prepend B s e = .ok (⟨s.lf.items.length, 0⟩, linkLeaf B s s.root 0 e N) ∧
      entries (linkLeaf B s s.root 0 e N) = [(s.lf.items.length, e)] ∧
      WF (linkLeaf B s s.root 0 e N) (fun _ => 1) 1 := by
  have ne := Sz.ne sz hm1
  have hc := (empty_iff g.wf ne).mp hemp
  have g1 := g.reset hc
  obtain ⟨i, hi⟩ := g.wf.root'
  have hget := get_of_lnk hi
  obtain ⟨r, hch, hk, hel⟩ := linkLeaf_spec (B := B) g1.wf hget rfl 0 e
  refine ⟨_, hget, ?_, ?_, r.wf g1.wf g.rootLive rfl⟩
  · have hg : (addLf s ⟨e, s.root⟩).getIn s.root = .ok ⟨none, i, chs s s.root⟩ := getIn_ok hget
    simp only [prepend, firstLeaf_spec g.wf ne, hemp, bind_ok, List.head?_nil, allocLeafChild_eq, root_addLf, hg, hc, vpush,
      List.length_nil, MAXC, Nat.reduceLT, if_true, List.nil_append, linkLeaf, List.take_nil, List.drop_nil]
    rfl
  · obtain ⟨u, v, o1, o2, -, -⟩ := ins_order r g1.wf g.rootLive rfl hk
    obtain ⟨n1, n2⟩ := entries_ins g.wf o1 o2 (lpar_fresh s) hel
    have he : entries s = [] := by rw [entries, hemp]; rfl
    rw [he] at n1
    have := List.append_eq_nil_iff.mp n1.symm
    rw [n2, this.1, this.2]; rfl

end
end GB
