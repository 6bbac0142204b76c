import Verif.Proof.DrainAll
import Verif.Proof.Check

/-!
# A tree some of whose leaves have been taken from the arena, but not from their nodes

This is what a `Drain` leaves behind that is used and not dropped.
-/

namespace GB
variable {E C D : Type}
open Tree

section
variable {s : Tree E C} {lvl : Nat → Nat} {h : Nat} {F : Arena (LeafNode E)}

theorem getPathF_lf : ∀ (n x : Nat) (acc : List PIdx), getPathF n { s with lf := F } x acc = getPathF n s x acc := by
  intro n
  induction n with
  | zero => intro x acc; rfl
  | succ n ih =>
    intro x acc
    simp only [getPathF, getIn, ih]

theorem levelF_lf : ∀ (n x len : Nat), levelF n { s with lf := F } x len = levelF n s x len := by
  intro n
  induction n with
  | zero => intro x len; rfl
  | succ n ih =>
    intro x len
    simp only [levelF, getIn, ih]

theorem checkChildren_lf [DecidableEq C] {B : Trait E C D} {x : Nat} {N : Node C} : ∀ (cs : List (Child C)) (i : Nat),
    checkChildren B { s with lf := F } x N cs i = checkChildren B s x N cs i := by
  intro cs
  induction cs with
  | nil => intro i; rfl
  | cons c cs ih =>
    intro i
    simp only [checkChildren, getIn, ih]

theorem checkNode_lf [DecidableEq C] {B : Trait E C D} (x : Nat) : checkNode B { s with lf := F } x = checkNode B s x := by
  simp only [checkNode, checkChildren_lf, getIn, getPath, getPathF_lf, fuel]

theorem checkAll_congr {α : Type} {f g : α → M Unit} (h : ∀ a, f a = g a) (l : List α) : checkAll f l = checkAll g l := by
  rw [funext h]

theorem getPath_lf {l : Nat} (hF : F.get l = s.lf.get l) : getPath { s with lf := F } (.leaf l) = getPath s (.leaf l) := by
  simp only [getPath, getLf, getIn, getPathF_lf, fuel, hF]

theorem nextSibling_lf : ∀ (p : List PIdx), nextSibling { s with lf := F } p = nextSibling s p := by
  intro p
  induction p with
  | nil => rfl
  | cons a p ih =>
    cases p with
    | nil => rfl
    | cons b p => simp only [nextSibling, getInIdx, getIn, ih]

theorem firstPathF_lf : ∀ (n : Nat) (x : Idx) (acc : List PIdx), firstPathF n { s with lf := F } x acc = firstPathF n s x acc := by
  intro n
  induction n with
  | zero => intro x acc; rfl
  | succ n ih =>
    intro x acc
    simp only [firstPathF, getIn, ih]

theorem firstPath_lf : firstPath { s with lf := F } = firstPath s := by
  simp only [firstPath, isEmpty, getIn, fuel, firstPathF_lf]

/-- `leaf_elems` panics at a missing leaf -/
theorem leafElems_dead (hF : ∀ l, F.get l = none ∨ F.get l = s.lf.get l) : ∀ (cs : List (Child C)) (ls : List Nat), cs.map Child.arena = ls.map Idx.leaf →
    (∀ l ∈ ls, lpar s l ≠ none) → (∃ l ∈ ls, F.get l = none) → leafElems { s with lf := F } cs = .error .panic := by
  intro cs
  induction cs with
  | nil =>
    intro ls h1 _ h3
    cases ls with
    | nil => obtain ⟨l, hl, -⟩ := h3; cases hl
    | cons => simp at h1
  | cons c cs ih =>
    intro ls h1 h2 h3
    cases ls with
    | nil => simp at h1
    | cons l ls =>
      simp only [List.map_cons, List.cons.injEq] at h1
      by_cases hl : F.get l = none
      · simp only [leafElems, h1.1, Idx.unwrapLeaf, bind_ok, getLf, hl]
        rfl
      · obtain ⟨p, hp⟩ := Option.ne_none_iff_exists'.mp (h2 l (by simp))
        obtain ⟨e, hL, he⟩ := getLf_of hp
        have hL' : F.get l = some ⟨e, p⟩ := ((hF l).resolve_left hl).trans hL
        obtain ⟨l', hl', hd⟩ := h3
        rcases List.mem_cons.mp hl' with rfl | hl'
        · exact absurd hd hl
        · simp only [leafElems, h1.1, Idx.unwrapLeaf, bind_ok, getLf, hL', unwrap_some, ih ls h1.2 (fun x hx => h2 x (by simp [hx])) ⟨l', hl', hd⟩]
          rfl

theorem leafElems_alive (hF : ∀ l, F.get l = none ∨ F.get l = s.lf.get l) (cs : List (Child C)) (ls : List Nat) (h1 : cs.map Child.arena = ls.map Idx.leaf)
    (h2 : ∀ l ∈ ls, lpar s l ≠ none) (h3 : ∀ l ∈ ls, F.get l ≠ none) : ∃ es, leafElems { s with lf := F } cs = .ok es := by
  refine ⟨_, leafElems_spec (s := { s with lf := F }) cs ls h1 fun l hl => ?_⟩
  rw [lpar, (hF l).resolve_left (h3 l hl)]
  exact h2 l hl

theorem iterF_dead (w : WF s lvl h) (ne : NE s) (hF : ∀ l, F.get l = none ∨ F.get l = s.lf.get l) : ∀ (n : Nat) (x j : Nat) (rest : List PIdx) (u v : List Idx),
    PathTo s (⟨.internal x, j⟩ :: rest) → rest.length = h - 1 → rowI s (h - 1) = u ++ .internal x :: v → v.length < n →
    (∃ l, .leaf l ∈ (Idx.internal x :: v).flatMap (kidsI s) ∧ F.get l = none) →
    iterF n { s with lf := F } (⟨.internal x, j⟩ :: rest) = .error .panic := by
  intro n
  induction n with
  | zero => intro x j rest u v _ _ _ hn; omega
  | succ n ih =>
    intro x j rest u v hp hlen hrow hn hd
    have hpos := w.h_pos
    obtain ⟨x', e, hx, hlx⟩ := row_live w (by omega) hrow
    cases e
    have hl1 : lvl x = 1 := by omega
    obtain ⟨N, hN⟩ := lnk_isSome.mp hx
    obtain ⟨ls, hk, hls⟩ := leaf_children w hx hl1
    have hk' : N.children.map Child.arena = ls.map Idx.leaf := by rw [← kids_of hN]; exact hk
    have hN' : getInIdx { s with lf := F } (.internal x) = .ok N := getInIdx_ok hN
    simp only [iterF, hN', bind_ok]
    by_cases hdead : ∃ l ∈ ls, F.get l = none
    · rw [leafElems_dead hF N.children ls hk' hls hdead]
      rfl
    · obtain ⟨es, hes⟩ := leafElems_alive hF N.children ls hk' hls (fun l hl hc => hdead ⟨l, hl, hc⟩)
      rw [hes, bind_ok, nextSibling_lf]
      obtain ⟨l, hl, hlF⟩ := hd
      rw [List.flatMap_cons, List.mem_append] at hl
      have hl := hl.resolve_left fun hl => by
        simp only [kidsI, hk, List.mem_map, Idx.leaf.injEq, exists_eq_right] at hl
        exact hdead ⟨l, hl, hlF⟩
      obtain ⟨u', v', hr', hcase⟩ := nextSibling_spec w ne hp rfl (by omega)
      rw [hlen] at hr'
      obtain ⟨rfl, rfl⟩ := row_uniq w hrow hr'
      rcases hcase with ⟨rfl, e1⟩ | ⟨b, v', j', rest', rfl, e1, e2, e3⟩
      · cases hl
      · obtain ⟨y, rfl, -⟩ := row_live w (d := h - 1) (by omega) (u := u ++ [.internal x]) (v := v') (a := b) (by rw [hrow]; simp)
        have := ih y j' rest' (u ++ [.internal x]) v' e2 (by omega) (by rw [hrow]; simp) (by simp at hn; omega) ⟨l, hl, hlF⟩
        rw [e1]
        simp only [bind_ok, this]
        rfl

theorem iter_same (hF : F.get = s.lf.get) : iter { s with lf := F } = iter s := by
  have h1 : ∀ cs : List (Child C), leafElems { s with lf := F } cs = leafElems s cs := by
    intro cs
    induction cs with
    | nil => rfl
    | cons c cs ih => simp only [leafElems, getLf, hF, ih]
  have h2 : ∀ (n : Nat) (p : List PIdx), iterF n { s with lf := F } p = iterF n s p := by
    intro n
    induction n with
    | zero => intro p; rfl
    | succ n ih =>
      intro p
      cases p with
      | nil => rfl
      | cons a p => simp only [iterF, getInIdx, getIn, h1, nextSibling_lf, ih]
  simp only [iter, firstPath_lf, fuel, h2]

/-- `iter` panics if a leaf is missing -/
theorem iter_dead (w : WF s lvl h) (ne : NE s) (hh : h ≤ 9) (hF : ∀ l, F.get l = none ∨ F.get l = s.lf.get l) {l : Nat} (hl : l ∈ order s)
    (hd : F.get l = none) : iter { s with lf := F } = .error .panic := by
  have hne : order s ≠ [] := by rintro hc; rw [hc] at hl; cases hl
  obtain ⟨l', y, j, rest, r1, r2, r3, v, v', r4, r5⟩ := firstPath_spec w ne hh hne
  have hpos := w.h_pos
  have hp : PathTo s (⟨.internal y, j⟩ :: rest) := by cases r2; assumption
  have hlen := row_length_le w (d := h - 1) (by omega)
  rw [r4] at hlen
  simp at hlen
  have hrow : rowI s h = (order s).map .leaf := row_order w
  obtain ⟨d, hd'⟩ : ∃ d, h = d + 1 := ⟨h - 1, by omega⟩
  have r4' := r4
  rw [hd', rowI] at hrow
  rw [hd'] at r4'
  simp only [Nat.add_sub_cancel] at r4'
  rw [r4'] at hrow
  have := iterF_dead w ne hF s.fuel y j rest [] v hp r3 r4 (by rw [fuel]; omega) ⟨l, by rw [hrow]; exact List.mem_map_of_mem hl, hd⟩
  simp only [iter, firstPath_lf, r1, bind_ok, Option.getD_some, List.tail_cons]
  exact this

end

section
variable [DecidableEq C] {B : Trait E C D} {A : Law B} {s : Tree E C} {lvl : Nat → Nat} {h : Nat} {F : Arena (LeafNode E)}

theorem checkLeaves_lf (g : Good A s lvl h) (hh : h ≤ 9) (hF : ∀ l, F.get l = none ∨ F.get l = s.lf.get l) : ∀ (ls : List Nat) (o : Option Nat), (o = none ∨ o = some h) →
    checkLeaves B { s with lf := F } ls o = .ok () := by
  intro ls
  induction ls with
  | nil => intro o _; rfl
  | cons l ls ih =>
    intro o ho
    unfold checkLeaves
    rcases hF l with hl | hl
    · simp only [hl]
      exact ih o ho
    cases hL : s.lf.get l with
    | none => simp only [hl, hL]; exact ih o ho
    | some L =>
      obtain ⟨i, hi, hl1⟩ := g.wf.parent_lf hL
      have hlp : lpar s l ≠ none := by rw [(g.wf.klf hi).2]; simp
      have hpl := edge_live hi
      have hb := g.wf.lvl_pos' hpl
      have hlev : levelF (fuel { s with lf := F }) { s with lf := F } L.parent 1 = .ok h := by
        rw [levelF_lf, show fuel { s with lf := F } = s.fuel from rfl,
          levelF_spec g.wf s.fuel L.parent 1 hpl (by have := g.wf.h_le; simp only [Tree.fuel]; omega)]
        congr 1
        omega
      obtain ⟨P, hP⟩ := lnk_isSome.mp hpl
      have hslot := getLeafSlot_wf g.wf hi
      rw [chs_of hP] at hslot
      obtain ⟨c, hc, har⟩ := edge_chs.mp hi
      have hce := g.cinv L.parent c (List.mem_iff_getElem?.mpr ⟨i, hc⟩) (fun h => h)
      rw [chs_of hP] at hc
      simp only [EntryOK, har] at hce
      have hce := hce L.elem (by simp [elm, hL])
      obtain ⟨j, rest, hpath, -, -⟩ := getPath_leaf g.wf hh hlp
      rw [← getPath_lf hl] at hpath
      have hP' : getIn { s with lf := F } L.parent = .ok P := getIn_ok hP
      rw [hL] at hl
      rcases ho with ho | ho <;> subst ho <;> simp only [hl, hlev, pure_ok, assertM_triv, bind_ok, hP', hslot, vget_ok hc, assertM_true (decide_eq_true hce), hpath,
        ih (some h) (Or.inr rfl)]

/-- `check` does not notice -/
theorem check_dead (g : Good A s lvl h) (ne : NE s) (hh : h ≤ 9) (hF : ∀ l, F.get l = none ∨ F.get l = s.lf.get l)
    (hE : order s = [] → ∃ d, B.calcC B.dflt [] = .ok (s.rootCache, d)) : check B { s with lf := F } = .ok () := by
  have hc := check_ok g ne hh hE
  simp only [check] at hc ⊢
  rw [checkAll_congr checkNode_lf]
  obtain ⟨_, k1, hc⟩ := bind_inv hc
  obtain ⟨R, k2, hc⟩ := bind_inv hc
  obtain ⟨⟨rc, d⟩, k3, hc⟩ := bind_inv hc
  obtain ⟨_, k4, hc⟩ := bind_inv hc
  have k2' : getIn { s with lf := F } s.root = .ok R := k2
  simp only [k1, bind_ok, k2', k3, k4]
  exact checkLeaves_lf g hh hF _ none (.inl rfl)

end

section
variable {B : Trait E C D} {A : Law B} {s : Tree E C} {lvl : Nat → Nat} {h : Nat}

theorem entriesOf_fst_take {Y : List Nat} (live : ∀ l ∈ Y, elm s l ≠ none) (k : Nat) : (List.take k (entriesOf s Y)).map Prod.fst = Y.take k := by
  induction Y generalizing k with
  | nil => simp
  | cons z Y ih =>
    obtain ⟨e, he⟩ := Option.ne_none_iff_exists'.mp (live z (by simp))
    rw [entriesOf_cons he]
    cases k with
    | zero => simp
    | succ k =>
      simp only [List.take_succ_cons, List.map_cons]
      rw [ih (fun x hx => live x (by simp [hx]))]

/-- `Drain::new` and calls of `next`, without `drop` -/
theorem leak_spec {m : Fill} (hm1 : 1 ≤ m.lo) (hm5 : m.lo + m.d ≤ 5) (g : Good A s lvl h) (sz : Sz m s h) (hh : h ≤ 8) (hsl : SplitLen B A.okE)
    (hpos : ∀ l x, elm s l = some x → 0 < B.rleLen x) {a b : Cursor} {ea eb : E} {Ua Va Ub Vb : List Nat}
    (ha : order s = Ua ++ a.leaf :: Va) (hea : elm s a.leaf = some ea) (hoa : a.offset ≤ B.rleLen ea)
    (hb : order s = Ub ++ b.leaf :: Vb) (heb : elm s b.leaf = some eb) (hob : b.offset ≤ B.rleLen eb)
    (hle : unitLen B (entriesOf s Ua) + a.offset ≤ unitLen B (entriesOf s Ub) + b.offset)
    (hend : unitLen B (entriesOf s Ua) + a.offset < unitLen B (entries s)) (fa fb : Bool) :
    ∃ d lvl2 h2 X Y Z L n, drainNew B s (some ⟨a, fa⟩) (some ⟨b, fb⟩) = .ok d ∧ Good A d.tree lvl2 h2 ∧ Sz m d.tree h2 ∧ h2 ≤ h + 1 ∧
      entries d.tree = X ++ Y ++ Z ∧ specCut B (abs s) b = .ok (L, Z, n) ∧ specCut B ⟨n, L ++ Z⟩ a = .ok (X, Y ++ Z, d.tree.lf.items.length) ∧
      ∀ k, ∃ d', drainTake k d = .ok ((Y.take k).map Prod.snd, d') ∧ d'.tree = { d.tree with lf := d'.tree.lf } ∧
        ∀ l, d'.tree.lf.get l = if l ∈ (Y.take k).map Prod.fst then none else d.tree.lf.get l := by
  obtain ⟨ei, s1, si, s2, lvl2, h2, X, Y, Z, c1, c2, g2, sz2, hst, ho, n1, n2, p2, p3, L, n, k1, k2, -⟩ :=
    drain_cuts hm1 hm5 g sz hsl ha hea hoa hb heb hob (notBehind_of_pos g.wf hpos ha hb heb hob hle)
  have hne := p3 (start_before_end ha hea hend)
  obtain ⟨y, hy⟩ : ∃ y, (Y ++ Z).head? = some y := Option.ne_none_iff_exists'.mp (by simpa using hne)
  have th := Thin.of_sz hm1 sz2
  rw [hy] at n2
  have hh2 := hst.le
  obtain ⟨sp, ep, e, -, -, -, d4, d5⟩ := drainNew_paths g2.wf th.ne (by omega) ho hy (p2 (endPos_of_pos hpos heb))
  have live : ∀ l ∈ Y, elm s2 l ≠ none := by
    intro l hl
    have : lpar s2 l ≠ none := by rw [← mem_order g2.wf, ho]; simp [hl]
    obtain ⟨p, hp⟩ := Option.ne_none_iff_exists'.mp this
    obtain ⟨x, -, hx⟩ := getLf_of hp
    rw [hx]; simp
  refine ⟨⟨s2, sp, false, Z.head?.map (fun l => ⟨l, 0⟩), some ⟨sp, ep, X.getLast?.map .leaf, Z.head?.map .leaf⟩⟩, lvl2, h2, entriesOf s2 X, entriesOf s2 Y,
    entriesOf s2 Z, L, n, ?_, g2, sz2, by omega, ?_, k1, k2, fun k => ?_⟩
  · simp only [drainNew, c1, bind_ok, c2, n2, Option.map_some, n1]
    exact d5
  · show entries s2 = _
    rw [entries, ho, entriesOf_append, entriesOf_append]
  · obtain ⟨d', t1, t2, -⟩ := drainTake_spec g2.wf th.ne k [] Y _ d4
    refine ⟨d', by rw [(entriesOf_live live k).1]; exact t1, ?_, fun l => ?_⟩
    · obtain ⟨t, _, _, _, _⟩ := d'
      obtain ⟨ti, tl, tr, tc⟩ := t
      have q1 := t2.inn
      have q2 := t2.root
      have q3 := t2.rc
      simp only at q1 q2 q3
      rw [q1, q2, q3]
    · rw [t2.lf l, List.nil_append]
      have : (List.take k (entriesOf s2 Y)).map Prod.fst = Y.take k := entriesOf_fst_take live k
      rw [this]

end

end GB
