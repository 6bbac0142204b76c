import Verif.Proof.Iter

/-!
# Reading operations: `iter_range`, `prefer_left/right`, `shift_path_by_one_offset`, `compare_pos`
-/

namespace GB
variable {E C D : Type}
open Tree

/-- the slice reported for one element of a range -/
def sliceOf (start stop : Cursor) (x : Nat × E) : ElemSlice E :=
  { cursor := ⟨x.1, 0⟩, elem := x.2,
    start := if start.leaf = x.1 then some start.offset else none,
    stop := if stop.leaf = x.1 then some stop.offset else none }

section
variable {s : Tree E C} {lvl : Nat → Nat} {h : Nat}

theorem rangeSlices_spec (start stop : Cursor) (incl : Bool) : ∀ (R : List (List PIdx × LeafNode E)) (M : List (Nat × E)),
    R.map (fun r => (r.1.head?.map PIdx.arena, r.2.elem)) = M.map (fun x => (some (.leaf x.1), x.2)) →
    rangeSlices start stop incl R =
      .ok ((M.filter fun x => !decide (stop.leaf = x.1 ∧ stop.offset = 0 ∧ incl = false)).map (sliceOf start stop)) := by
  intro R
  induction R with
  | nil =>
    intro M hM
    cases M with
    | nil => rfl
    | cons => simp at hM
  | cons r R ih =>
    intro M hM
    cases M with
    | nil => simp at hM
    | cons x M =>
      simp only [List.map_cons, List.cons.injEq, Prod.mk.injEq] at hM
      obtain ⟨⟨h1, h2⟩, h3⟩ := hM
      obtain ⟨path, node⟩ := r
      simp only at h1 h2
      cases hp : path.head? with
      | none => rw [hp] at h1; cases h1
      | some q =>
        rw [hp] at h1
        simp only [Option.map_some, Option.some.injEq] at h1
        simp only [rangeSlices, hp, unwrap_some, bind_ok, h1, Idx.unwrapLeaf, ih M h3, h2]
        by_cases hc : stop.leaf = x.1 ∧ stop.offset = 0 ∧ incl = false
        · rw [if_pos hc, List.filter_cons_of_neg (by simp [hc])]
          rfl
        · rw [if_neg hc, List.filter_cons_of_pos (by simp only [decide_eq_false hc]; rfl)]
          rfl

/-- `_iter_range` -/
theorem iterRangeCore_spec (w : WF s lvl h) (ne : NE s) (hh : h ≤ 9) {start stop : Cursor} {incl : Bool}
    {U M V : List (Nat × E)} {e : E} (hent : entries s = U ++ M ++ (stop.leaf, e) :: V)
    (hst : (M ++ [(stop.leaf, e)]).head?.map Prod.fst = some start.leaf) :
    iterRangeCore s start stop incl = .ok
      ((M ++ (if stop.offset = 0 ∧ incl = false then [] else [(stop.leaf, e)])).map (sliceOf start stop)) := by
  have hf := entries_fst w
  rw [hent] at hf
  have hord : order s = U.map Prod.fst ++ M.map Prod.fst ++ stop.leaf :: V.map Prod.fst := by rw [← hf]; simp
  have hhead : (M.map Prod.fst ++ [stop.leaf]).head? = some start.leaf := by
    rw [← hst, ← List.head?_map]; simp
  have hlo : start.leaf ∈ order s := by
    rw [hord]
    have : start.leaf ∈ M.map Prod.fst ++ [stop.leaf] := List.mem_of_head? hhead
    simp only [List.mem_append, List.mem_cons, List.not_mem_nil, or_false] at this ⊢
    rcases this with h | h
    · exact Or.inl (Or.inr h)
    · exact Or.inr (Or.inl h)
  have hle : stop.leaf ∈ order s := by rw [hord]; simp
  obtain ⟨i, rest, p1, p2, p3⟩ := getPath_leaf w hh ((mem_order w).mp hlo)
  obtain ⟨ie, reste, q1, q2, q3⟩ := getPath_leaf w hh ((mem_order w).mp hle)
  have hlen := order_length_le w
  rw [hord] at hlen
  simp only [List.length_append, List.length_map, List.length_cons] at hlen
  obtain ⟨R, r1, r2⟩ := iterNodesF_spec w ne q2 (leafFuel s) start.leaf i rest (U.map Prod.fst) (M.map Prod.fst) (V.map Prod.fst)
    p2 p3 hord hhead (by rw [leafFuel, List.length_map]; omega)
  have hM : entriesOf s (M.map Prod.fst ++ [stop.leaf]) = M ++ [(stop.leaf, e)] := by
    have h1 : entries s = entriesOf s (U.map Prod.fst) ++ (entriesOf s (M.map Prod.fst ++ [stop.leaf]) ++ entriesOf s (V.map Prod.fst)) := by
      rw [entries, hord, ← entriesOf_append, ← entriesOf_append]; simp
    have hl : ∀ L : List Nat, (∀ l ∈ L, l ∈ order s) → (entriesOf s L).length = L.length := by
      intro L hL
      rw [← List.length_map (f := Prod.fst) (as := entriesOf s L), entriesOf_fst w fun l hl => (mem_order w).mp (hL l hl)]
    have hU := hl (U.map Prod.fst) (by intro l hl; rw [hord]; simp only [List.mem_append]; exact Or.inl (Or.inl hl))
    have hMl := hl (M.map Prod.fst ++ [stop.leaf]) (by
      intro l hl; rw [hord]
      simp only [List.mem_append, List.mem_cons, List.not_mem_nil, or_false] at hl ⊢
      rcases hl with h | h
      · exact Or.inl (Or.inr h)
      · exact Or.inr (Or.inl h))
    rw [hent, show U ++ M ++ (stop.leaf, e) :: V = U ++ ((M ++ [(stop.leaf, e)]) ++ V) by simp] at h1
    have h2 := (List.append_inj h1 (by rw [hU, List.length_map])).2
    exact ((List.append_inj h2 (by rw [hMl]; simp)).1).symm
  rw [hM] at r2
  have nd := entries_nodup w
  rw [hent, List.map_append, List.nodup_append] at nd
  have hfil : (M ++ [(stop.leaf, e)]).filter (fun x => !decide (stop.leaf = x.1 ∧ stop.offset = 0 ∧ incl = false)) =
      M ++ (if stop.offset = 0 ∧ incl = false then [] else [(stop.leaf, e)]) := by
    rw [List.filter_append]
    congr 1
    · rw [List.filter_eq_self]
      intro x hx
      have : ¬ (stop.leaf = x.1 ∧ stop.offset = 0 ∧ incl = false) := by
        intro hc
        exact nd.2.2 x.1 (List.mem_map.mpr ⟨x, by simp [hx], rfl⟩) stop.leaf (by simp) hc.1.symm
      simp only [decide_eq_false this]; rfl
    · by_cases hc : stop.offset = 0 ∧ incl = false
      · rw [if_pos hc, List.filter_cons_of_neg (by simp [hc])]; rfl
      · rw [if_neg hc, List.filter_cons_of_pos]
        · rfl
        · simp only [true_and, decide_eq_false hc]; rfl
  simp only [iterRangeCore, p1, q1, bind_ok, List.head?_cons, r1, rangeSlices_spec start stop incl R _ r2, hfil]

/-! ## `prefer_left`, `prefer_right` -/

theorem nextElem_entries (w : WF s lvl h) (ne : NE s) {l o : Nat} {e : E} {U V : List (Nat × E)}
    (hent : entries s = U ++ (l, e) :: V) : nextElem s ⟨l, o⟩ = .ok (V.head?.map fun x => ⟨x.1, 0⟩) := by
  obtain ⟨u, v, h1, rfl, rfl, h4⟩ := entries_split w hent
  obtain ⟨u', v', h2, h3⟩ := nextElem_spec w ne (pos := ⟨l, o⟩) (elm_live h4)
  obtain ⟨rfl, rfl⟩ := order_uniq w h1 h2
  rw [h3]
  cases v with
  | nil => rfl
  | cons k v =>
    have : lpar s k ≠ none := (mem_order w).mp (by rw [h1]; simp)
    obtain ⟨ek, hek⟩ := elm_some this
    rw [entriesOf_cons hek]
    rfl

theorem prevElem_entries (w : WF s lvl h) (ne : NE s) {l o : Nat} {e : E} {U V : List (Nat × E)}
    (hent : entries s = U ++ (l, e) :: V) : prevElem s ⟨l, o⟩ = .ok (U.getLast?.map fun x => ⟨x.1, 0⟩) := by
  obtain ⟨u, v, h1, rfl, rfl, h4⟩ := entries_split w hent
  obtain ⟨u', v', h2, h3⟩ := prevElem_spec w ne (pos := ⟨l, o⟩) (elm_live h4)
  obtain ⟨rfl, rfl⟩ := order_uniq w h1 h2
  rw [h3]
  cases hu : u.getLast? with
  | none =>
    have : u = [] := by simpa using hu
    subst this; rfl
  | some k =>
    obtain ⟨u0, rfl⟩ := getLast_split hu
    have : lpar s k ≠ none := (mem_order w).mp (by rw [h1]; simp)
    obtain ⟨ek, hek⟩ := elm_some this
    rw [entriesOf_append, entriesOf_cons hek]
    simp

theorem getLf_entries (w : WF s lvl h) {l : Nat} {e : E} (hm : (l, e) ∈ entries s) : ∃ p, s.getLf l = .ok ⟨e, p⟩ := by
  have he := (entries_mem w).mp hm
  obtain ⟨p, hp⟩ := Option.ne_none_iff_exists'.mp (elm_live he)
  obtain ⟨e', hL, he'⟩ := getLf_of hp
  rw [he] at he'
  cases he'
  exact ⟨p, getLf_ok hL⟩

/-! ## `shift_path_by_one_offset` from an offset inside the element -/

theorem shiftF_spec (w : WF s lvl h) (ne : NE s) (B : Trait E C D) : ∀ (n p slot : Nat) (u v : List Idx) (R : List Nat),
    lnk s p ≠ none → lvl p = 1 → rowI s (h - 1) = u ++ .internal p :: v → slot ≤ (kids s p).length →
    (kids s p).drop slot ++ v.flatMap (kidsI s) = R.map .leaf → R.length < n →
    shiftF B n s p slot 0 = .ok (((entriesOf s R).find? fun x => 0 < B.rleLen x.2).map fun x => ⟨x.1, 0⟩) := by
  intro n
  induction n with
  | zero => intro p slot u v R _ _ _ _ _ hn; omega
  | succ n ih =>
    intro p slot u v R hp hl1 hrow hslot hR hn
    obtain ⟨P, hP⟩ := lnk_isSome.mp hp
    have hkl : (kids s p).length = P.children.length := by rw [kids_of hP, List.length_map]
    have hpos := w.h_pos
    have hrowh : rowI s h = u.flatMap (kidsI s) ++ (kids s p ++ v.flatMap (kidsI s)) := by
      have : h = (h - 1) + 1 := by omega
      rw [this, rowI, hrow, List.flatMap_append, List.flatMap_cons]; rfl
    have hmemR : ∀ l ∈ R, lpar s l ≠ none := by
      intro l hl
      have h1 : Idx.leaf l ∈ R.map Idx.leaf := List.mem_map.mpr ⟨l, hl, rfl⟩
      rw [← hR] at h1
      have : Idx.leaf l ∈ rowI s h := by
        rw [hrowh]
        simp only [List.mem_append] at h1 ⊢
        rcases h1 with h | h
        · exact Or.inr (Or.inl (List.mem_of_mem_drop h))
        · exact Or.inr (Or.inr h)
      obtain ⟨l', e, h2⟩ := rowI_leaf w _ this
      cases e; exact h2
    rw [shiftF]
    simp only [getIn_ok hP, bind_ok]
    by_cases hs : slot = P.children.length
    · rw [if_pos hs]
      have hd : (kids s p).drop slot = [] := by rw [List.drop_eq_nil_iff]; omega
      rw [hd, List.nil_append] at hR
      obtain ⟨u', v', hr', hnx⟩ := nextSameLevelIn_spec w ne s.fuel p hp (fuel_ok w p)
      rw [hl1] at hr'
      obtain ⟨rfl, rfl⟩ := row_uniq w hrow hr'
      rw [hnx]
      cases v with
      | nil =>
        have : R = [] := by cases R with
          | nil => rfl
          | cons => simp at hR
        subst this
        rfl
      | cons b v =>
        obtain ⟨y, rfl, hy, hly⟩ := row_live w (d := h - 1) (by omega) (u := u ++ [.internal p]) (v := v) (a := b) (by rw [hrow]; simp)
        obtain ⟨Y, hY⟩ := lnk_isSome.mp hy
        have hyr : y ≠ s.root := by
          intro e
          subst e
          rw [w.root_lvl] at hly
          have hz : h - 1 = 0 := by omega
          rw [hz] at hrow
          have := congrArg List.length hrow
          simp only [rowI, List.length_append, List.length_cons, List.length_nil] at this
          omega
        have hne := ne y hy hyr
        cases hcy : chs s y with
        | nil => exact absurd hcy hne
        | cons c cs =>
          rw [chs_of hY] at hcy
          have hky : kids s y = c.arena :: cs.map Child.arena := by rw [kids_of hY, hcy]; rfl
          rw [List.flatMap_cons] at hR
          simp only [kidsI, hky, List.cons_append] at hR
          cases R with
          | nil => simp at hR
          | cons l R =>
            simp only [List.map_cons, List.cons.injEq] at hR
            obtain ⟨q, hlp⟩ := Option.ne_none_iff_exists'.mp (hmemR l (by simp))
            obtain ⟨e, hL, he⟩ := getLf_of hlp
            simp only [List.head?_cons, bind_ok, Idx.unwrapInternal, getIn_ok hY, hcy, vget, List.getElem?_cons_zero, unwrap_some,
              hR.1, Idx.raw, getLf_ok hL, Idx.unwrapLeaf]
            rw [entriesOf_cons he]
            by_cases hz : B.rleLen e ≤ 0
            · rw [if_pos hz, List.find?_cons_of_neg (by simp; omega)]
              rw [show 0 - B.rleLen e = 0 by omega]
              apply ih y 1 (u ++ [.internal p]) v R hy (by omega) (by rw [hrow]; simp) (by rw [hky]; simp) ?_ (by simp at hn; omega)
              rw [hky]; exact hR.2
            · rw [if_neg hz, List.find?_cons_of_pos (by simp; omega)]
              rfl
    · rw [if_neg hs]
      have hlt : slot < P.children.length := by omega
      have hc : P.children[slot]? = some P.children[slot] := List.getElem?_eq_getElem hlt
      have hk : (kids s p).drop slot = P.children[slot].arena :: (kids s p).drop (slot + 1) := by
        rw [List.drop_eq_getElem_cons (by omega)]
        congr 1
        simp [kids_of hP]
      rw [hk, List.cons_append] at hR
      cases R with
      | nil => simp at hR
      | cons l R =>
        simp only [List.map_cons, List.cons.injEq] at hR
        obtain ⟨q, hlp⟩ := Option.ne_none_iff_exists'.mp (hmemR l (by simp))
        obtain ⟨e, hL, he⟩ := getLf_of hlp
        simp only [vget_ok hc, bind_ok, hR.1, Idx.raw, getLf_ok hL, Idx.unwrapLeaf]
        rw [entriesOf_cons he]
        by_cases hz : B.rleLen e ≤ 0
        · rw [if_pos hz, List.find?_cons_of_neg (by simp; omega)]
          rw [show 0 - B.rleLen e = 0 by omega]
          exact ih p (slot + 1) u v R hp hl1 hrow (by omega) hR.2 (by simp at hn; omega)
        · rw [if_neg hz, List.find?_cons_of_pos (by simp; omega)]
          rfl

/-- walking from offset `off` at the start of the block `W`, which ends at the end of a node, and then on to `Z` -/
def walkSpec (B : Trait E C D) : List (Nat × E) → Nat → List (Nat × E) → Option Cursor
  | [], _, Z => (Z.find? fun x => 0 < B.rleLen x.2).map fun x => ⟨x.1, 0⟩
  | x :: W, off, Z => if B.rleLen x.2 ≤ off then walkSpec B W (off - B.rleLen x.2) Z else some ⟨x.1, off⟩

theorem shiftF_walk (w : WF s lvl h) (ne : NE s) (B : Trait E C D) : ∀ (W : List Nat) (n p slot off : Nat) (u v : List Idx) (Z : List Nat), lnk s p ≠ none → lvl p = 1 →
    rowI s (h - 1) = u ++ .internal p :: v → slot ≤ (kids s p).length → (kids s p).drop slot = W.map Idx.leaf → v.flatMap (kidsI s) = Z.map Idx.leaf →
    W.length + Z.length < n → shiftF B n s p slot off = .ok (walkSpec B (entriesOf s W) off (entriesOf s Z)) := by
  intro W
  induction W with
  | nil =>
    intro n p slot off u v Z hp hl1 hrow hslot hW hZ hn
    obtain ⟨n, rfl⟩ : ∃ k, n = k + 1 := ⟨n - 1, by omega⟩
    obtain ⟨P, hP⟩ := lnk_isSome.mp hp
    have hkl : (kids s p).length = P.children.length := by rw [kids_of hP, List.length_map]
    have hs : slot = P.children.length := by
      have := List.drop_eq_nil_iff.mp hW
      omega
    have h0 := shiftF_spec w ne B (n + 1) p slot u v Z hp hl1 hrow hslot (by rw [hW, hZ]; rfl) (by simpa using hn)
    have he : shiftF B (n + 1) s p slot off = shiftF B (n + 1) s p slot 0 := by
      rw [shiftF, shiftF]
      simp only [getIn_ok hP, bind_ok, if_pos hs]
    rw [he, h0]
    rfl
  | cons l W ih =>
    intro n p slot off u v Z hp hl1 hrow hslot hW hZ hn
    obtain ⟨n, rfl⟩ : ∃ k, n = k + 1 := ⟨n - 1, by omega⟩
    obtain ⟨P, hP⟩ := lnk_isSome.mp hp
    have hkl : (kids s p).length = P.children.length := by rw [kids_of hP, List.length_map]
    have hlt : slot < P.children.length := by
      have := congrArg List.length hW
      simp only [List.length_drop, List.length_map, List.length_cons] at this
      omega
    have hc : P.children[slot]? = some P.children[slot] := List.getElem?_eq_getElem hlt
    have hk : (kids s p).drop slot = P.children[slot].arena :: (kids s p).drop (slot + 1) := by
      rw [List.drop_eq_getElem_cons (by omega)]
      congr 1
      simp [kids_of hP]
    rw [hk, List.map_cons, List.cons.injEq] at hW
    have hed : Edge s p slot (.leaf l) := by
      rw [Edge, kids_of hP, List.getElem?_map, hc]
      simp [hW.1]
    obtain ⟨e, hL, he⟩ := getLf_of (w.klf hed).2
    rw [shiftF]
    simp only [getIn_ok hP, bind_ok]
    rw [if_neg (by omega)]
    simp only [vget_ok hc, bind_ok, hW.1, Idx.raw, getLf_ok hL, Idx.unwrapLeaf]
    rw [entriesOf_cons he, walkSpec]
    by_cases hz : B.rleLen e ≤ off
    · rw [if_pos hz, if_pos hz]
      exact ih n p (slot + 1) _ u v Z hp hl1 hrow (by omega) hW.2 hZ (by simp only [List.length_cons] at hn; omega)
    · rw [if_neg hz, if_neg hz]
      rfl

theorem walkSpec_zero (B : Trait E C D) : ∀ (W Z : List (Nat × E)), walkSpec B W 0 Z = ((W ++ Z).find? fun x => 0 < B.rleLen x.2).map fun x => ⟨x.1, 0⟩ := by
  intro W
  induction W with
  | nil => intro Z; rfl
  | cons x W ih =>
    intro Z
    rw [walkSpec, List.cons_append]
    by_cases hz : B.rleLen x.2 ≤ 0
    · rw [if_pos hz, List.find?_cons_of_neg (by simp; omega), show 0 - B.rleLen x.2 = 0 by omega, ih]
    · rw [if_neg hz, List.find?_cons_of_pos (by simp; omega)]
      rfl

/-- `shift_path_by_one_offset` for every offset: `W` are the elements behind the cursor's in the same node, `Z` those in later nodes -/
theorem shiftByOne_all (w : WF s lvl h) (ne : NE s) (B : Trait E C D) {l o : Nat} {e : E} {U V : List (Nat × E)}
    (hent : entries s = U ++ (l, e) :: V) :
    ∃ p i W Z, Edge s p i (.leaf l) ∧ V = W ++ Z ∧ (kids s p).drop (i + 1) = W.map (fun x => .leaf x.1) ∧
      shiftByOne B s ⟨l, o⟩ = .ok (if o + 1 < B.rleLen e then some ⟨l, o + 1⟩ else walkSpec B W (o + 1 - B.rleLen e) Z) := by
  obtain ⟨p0, hLg⟩ := getLf_entries w (l := l) (e := e) (by rw [hent]; simp)
  obtain ⟨u, v, h1, rfl, rfl, h4⟩ := entries_split w hent
  obtain ⟨p, hlp⟩ := Option.ne_none_iff_exists'.mp (elm_live h4)
  obtain ⟨e', hL, he'⟩ := getLf_of hlp
  have hLg' := hLg
  rw [getLf_ok hL] at hLg'
  simp only [Except.ok.injEq, LeafNode.mk.injEq] at hLg'
  obtain ⟨rfl, rfl⟩ := hLg'
  obtain ⟨i, he⟩ := w.lpar_edge hlp
  have hl1 := (w.klf he).1
  obtain ⟨P, hP⟩ := lnk_isSome.mp (edge_live he)
  have hslot := getLeafSlot_wf w he
  obtain ⟨ub, vb, hrow, -⟩ := nextSameLevelIn_spec w ne s.fuel p (edge_live he) (fuel_ok w p)
  rw [hl1] at hrow
  have ho2 := leaf_row w hrow he
  obtain ⟨u', v', q1, q2, q3⟩ := map_leaf_split ho2
  obtain ⟨rfl, rfl⟩ := order_uniq w h1 q1
  have hpos := w.h_pos
  have hi := (List.getElem?_eq_some_iff.mp he).1
  have hkl : (kids s p).length = P.children.length := by rw [kids_of hP, List.length_map]
  have hlen := order_length_le w
  rw [h1] at hlen
  simp only [List.length_append, List.length_cons] at hlen
  obtain ⟨W, Z, rfl, hW, hZ⟩ := List.map_eq_append_iff.mp q3.symm
  have hfst : ∀ w0 ⊆ order s, (entriesOf s w0).map Prod.fst = w0 := fun w0 h0 => entriesOf_fst w (fun l hl => (mem_order w).mp (h0 hl))
  refine ⟨p, i, entriesOf s W, entriesOf s Z, he, entriesOf_append .., ?_, ?_⟩
  · rw [← hW]
    conv => lhs; rw [← hfst W (by intro x hx; rw [h1]; simp [hx])]
    rw [List.map_map]
    rfl
  simp only [shiftByOne, hLg, bind_ok]
  by_cases hlt : o + 1 < B.rleLen e'
  · rw [if_pos hlt, if_pos hlt]; rfl
  · rw [if_neg hlt, if_neg hlt]
    simp only [getIn_ok hP, bind_ok, ← chs_of hP, hslot]
    rw [show leafFuel s = (s.inn.items.length + s.lf.items.length + 1) + 1 from rfl, shiftF]
    have hc : P.children[i]? = some P.children[i] := List.getElem?_eq_getElem (by omega)
    have har : P.children[i].arena = .leaf l := by
      rw [Edge, kids_of hP, List.getElem?_map, hc] at he
      simpa using he
    simp only [getIn_ok hP, bind_ok, vget_ok hc, har, Idx.raw, getLf_ok hL]
    rw [if_neg (by omega), if_pos (by omega)]
    refine shiftF_walk w ne B W _ p (i + 1) _ ub vb Z (edge_live he) hl1 hrow (by omega) hW.symm hZ.symm ?_
    simp only [List.length_append] at hlen
    omega

/-- From an offset strictly inside the element, `shift_path_by_one_offset` moves one unit to the right. -/
theorem shiftByOne_spec (w : WF s lvl h) (ne : NE s) (B : Trait E C D) {l o : Nat} {e : E} {U V : List (Nat × E)}
    (hent : entries s = U ++ (l, e) :: V) (ho : o < B.rleLen e) :
    shiftByOne B s ⟨l, o⟩ = .ok (if o + 1 < B.rleLen e then some ⟨l, o + 1⟩
      else (V.find? fun x => 0 < B.rleLen x.2).map fun x => ⟨x.1, 0⟩) := by
  obtain ⟨p, i, W, Z, -, rfl, -, hr⟩ := shiftByOne_all w ne B (o := o) hent
  rw [hr]
  by_cases hlt : o + 1 < B.rleLen e
  · rw [if_pos hlt, if_pos hlt]
  · rw [if_neg hlt, if_neg hlt, show o + 1 - B.rleLen e = 0 by omega, walkSpec_zero]

end
end GB
