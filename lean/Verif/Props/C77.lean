import Verif.Proof.Debug
import Verif.Proof.Tally
import Verif.Proof.Sample
import Verif.Props.C29
import Verif.Props.C52

/-!
# C77: `Debug` and `diagnose_balance` show the tree as it is

`Shape.outline` (Verif.Spec.Outline) is the outline of a nested list; `Tally` (Verif.Spec.Tally) is a table of how often each number occurs.
-/

namespace GB
variable {E C D : Type}
open Tree

/-- The `Debug` output never panics.  Under the line for the root it is the outline of the tree, with the stored caches and with the number of
each inner node among its siblings; the elements are shown in order with their indices. -/
theorem C77_debug {B : Trait E C D} {A : Law B} {m : Fill} {n : Nat} {s : Tree E C} (hi : InvH A m (n + 1) s) :
    ∃ t lines, shapeOf s (n + 1) (.internal s.root) = some t ∧ Shape.elems (n + 1) t = (abs s).es.map Prod.snd ∧
      debugFmt s = .ok (.root 1 s.root s.rootCache :: lines) ∧ lines.map DebugLine.plain = (Shape.outline n 1 t).map some ∧
      lines.filterMap DebugLine.entry = (abs s).es := by
  obtain ⟨lvl, g⟩ := hi.ex
  obtain ⟨N, hN, -⟩ := g.wf.root
  have hr : AtLvl s lvl (n + 1) (.internal s.root) := ⟨lnk_isSome.mpr ⟨N, hN⟩, g.wf.root_lvl⟩
  obtain ⟨t, -, ht, -⟩ := visitOk (lvl := lvl) (h := n + 1) (fun (u : Unit) (c : C) => (u, c, true)) (fun u (e : E) => (u, e)) (n + 1) s (.internal s.root) () g.wf hr
  refine ⟨t, linesAt s (n + 1) 1 s.root, ht, shape_root g.wf ht, ?_, ?_, ?_⟩
  · have h1 := fmtNode_lines g.wf n s.fuel 1 s.root (by have := g.wf.h_le; unfold fuel; omega) hr
    rw [debugFmt, h1]
    rfl
  · rw [← linesAt_outline g.wf n 1 s.root t hr ht]
    have : ∀ ls : List (DebugLine C E), (∀ d x c, DebugLine.root d x c ∉ ls) → ls.map DebugLine.plain = (ls.filterMap DebugLine.plain).map some := by
      intro ls
      induction ls with
      | nil => intro _; rfl
      | cons z ls ih =>
        intro hz
        have ih := ih (fun d x c h => hz d x c (by simp [h]))
        cases z with
        | root d x c => exact absurd (by simp) (hz d x c)
        | node d i x c => simp [DebugLine.plain, ih]
        | leaf d e l p c => simp [DebugLine.plain, ih]
    exact this _ (linesAt_no_root _ _ _)
  · rw [linesAt_entries]
    have h1 := leavesAt_stable g.wf s.inn.items.length s.root ⟨N, hN⟩ (by rw [g.wf.root_lvl]; exact g.wf.h_le)
    rw [g.wf.root_lvl] at h1
    change _ = entriesOf s (leavesAt s s.inn.items.length s.root)
    rw [h1]

/-- What is written about an element: as many steps to the right as there are levels, and its parent, which keeps the cache of the element. -/
theorem C77_leaf {B : Trait E C D} {A : Law B} {m : Fill} {h : Nat} {s : Tree E C} (hi : InvH A m h s) {lines : List (DebugLine C E)}
    (hd : debugFmt s = .ok lines) {d l p : Nat} {e : E} {c : C} (hm : .leaf d e l p c ∈ lines) :
    d = h ∧ s.lf.get l = some ⟨e, p⟩ ∧ ⟨.leaf l, c⟩ ∈ chs s p ∧ c = B.elemCache e := by
  obtain ⟨n, rfl⟩ : ∃ n, h = n + 1 := by
    obtain ⟨lvl, g⟩ := hi.ex
    exact ⟨h - 1, by have := g.wf.h_pos; omega⟩
  obtain ⟨lvl, g⟩ := hi.ex
  obtain ⟨N, hN, -⟩ := g.wf.root
  have hr : AtLvl s lvl (n + 1) (.internal s.root) := ⟨lnk_isSome.mpr ⟨N, hN⟩, g.wf.root_lvl⟩
  have h1 := fmtNode_lines g.wf n s.fuel 1 s.root (by have := g.wf.h_le; unfold fuel; omega) hr
  rw [debugFmt, h1] at hd
  cases hd
  rcases List.mem_cons.mp hm with hm | hm
  · cases hm
  · obtain ⟨k1, k2, k3⟩ := linesAt_leaf g.wf n 1 s.root hr hm
    refine ⟨by omega, k2, k3, ?_⟩
    exact g.cinv p _ k3 (fun h => h) e (by rw [elm, k2]; rfl)

/-- What is written about an inner node: its slot, which is its place in its parent, with the cache that is stored there. -/
theorem C77_node {B : Trait E C D} {A : Law B} {m : Fill} {h : Nat} {s : Tree E C} (hi : InvH A m h s) {lines : List (DebugLine C E)}
    (hd : debugFmt s = .ok lines) {d i x : Nat} {c : C} (hm : .node d i x c ∈ lines) :
    ∃ p, lnk s x = some (some p, i) ∧ (chs s p)[i]? = some ⟨.internal x, c⟩ ∧ c = A.total (cch s x) := by
  obtain ⟨n, rfl⟩ : ∃ n, h = n + 1 := by
    obtain ⟨lvl, g⟩ := hi.ex
    exact ⟨h - 1, by have := g.wf.h_pos; omega⟩
  obtain ⟨lvl, g⟩ := hi.ex
  obtain ⟨N, hN, -⟩ := g.wf.root
  have hr : AtLvl s lvl (n + 1) (.internal s.root) := ⟨lnk_isSome.mpr ⟨N, hN⟩, g.wf.root_lvl⟩
  have h1 := fmtNode_lines g.wf n s.fuel 1 s.root (by have := g.wf.h_le; unfold fuel; omega) hr
  rw [debugFmt, h1] at hd
  cases hd
  rcases List.mem_cons.mp hm with hm | hm
  · cases hm
  · obtain ⟨-, p, k2, k3⟩ := linesAt_node g.wf n 1 s.root hr hm
    exact ⟨p, k2, k3, g.cinv p _ (List.mem_iff_getElem?.mpr ⟨i, k3⟩) (fun h => h)⟩

/-- Every stored node has exactly one line, so there are `node_len` lines. -/
theorem C77_lines {B : Trait E C D} {A : Law B} {m : Fill} {s : Tree E C} (hi : Inv A m s) :
    ∃ lines, debugFmt s = .ok lines ∧ lines.length = nodeLen s ∧ (lines.filterMap DebugLine.inner).Nodup ∧
      ∀ x, x ∈ lines.filterMap DebugLine.inner ↔ s.inn.get x ≠ none := by
  obtain ⟨h, hi⟩ := hi
  obtain ⟨n, rfl⟩ : ∃ n, h = n + 1 := by
    obtain ⟨lvl, g⟩ := hi.ex
    exact ⟨h - 1, by have := g.wf.h_pos; omega⟩
  obtain ⟨lvl, g⟩ := hi.ex
  obtain ⟨t, lines, -, -, h1, -, h2⟩ := C77_debug hi
  obtain ⟨N, hN, -⟩ := g.wf.root
  have hr : AtLvl s lvl (n + 1) (.internal s.root) := ⟨lnk_isSome.mpr ⟨N, hN⟩, g.wf.root_lvl⟩
  have h3 := fmtNode_lines g.wf n s.fuel 1 s.root (by have := g.wf.h_le; unfold fuel; omega) hr
  obtain ⟨k1, k2⟩ := linesAt_inner g.wf (n + 1) 1 s.root hr
  have hl : lines = linesAt s (n + 1) 1 s.root := by
    rw [debugFmt, h3] at h1
    cases h1
    rfl
  have nd : ((DebugLine.root (E := E) 1 s.root s.rootCache :: lines).filterMap DebugLine.inner).Nodup := by
    rw [hl]
    exact List.nodup_cons.mpr ⟨fun h => ((k2 _).mp h).2 rfl, k1⟩
  have mm : ∀ x, x ∈ (DebugLine.root (E := E) 1 s.root s.rootCache :: lines).filterMap DebugLine.inner ↔ s.inn.get x ≠ none := by
    intro x
    have e : (DebugLine.root (E := E) 1 s.root s.rootCache :: lines).filterMap DebugLine.inner = s.root :: lines.filterMap DebugLine.inner := rfl
    rw [e, hl, List.mem_cons, k2]
    constructor
    · rintro (rfl | ⟨hb, -⟩)
      · rw [hN]; simp
      · obtain ⟨k, -, h5, -⟩ := hb.level g.wf hr
        obtain ⟨v, hv⟩ := lnk_isSome.mp h5.1
        rw [hv]; simp
    · intro hx
      obtain ⟨v, hv⟩ := Option.ne_none_iff_exists'.mp hx
      by_cases e : x = s.root
      · exact .inl e
      · exact .inr ⟨below_root g.wf _ x (lnk_isSome.mpr ⟨v, hv⟩) (Nat.le_refl _), e⟩
  refine ⟨_, h1, ?_, nd, mm⟩
  have hc : ∀ ls : List (DebugLine C E), ls.length = (ls.filterMap DebugLine.inner).length + (ls.filterMap DebugLine.entry).length := by
    intro ls
    induction ls with
    | nil => rfl
    | cons z ls ih =>
      rw [List.length_cons, ih]
      cases z <;> simp only [List.filterMap_cons, DebugLine.inner, DebugLine.entry, List.length_cons] <;> omega
  have e2 : (DebugLine.root (E := E) 1 s.root s.rootCache :: lines).filterMap DebugLine.entry = lines.filterMap DebugLine.entry := rfl
  rw [hc, e2, h2, nodeLen, lf_len hi, len_nodup nd mm]

/-- The second table of `diagnose_balance` counts the lengths of the elements; its rows add up to the length and to the number of elements. -/
theorem C77_lengths {B : Trait E C D} {A : Law B} {m : Fill} {s : Tree E C} (hi : Inv A m s) :
    Tally ((abs s).es.map fun x => B.rleLen x.2) (diagnoseBalance B s).2 ∧
      ((diagnoseBalance B s).2.map fun x => x.1 * x.2).sum = unitLen B (abs s).es ∧
      ((diagnoseBalance B s).2.map Prod.snd).sum = (abs s).es.length := by
  obtain ⟨h, hi⟩ := hi
  obtain ⟨lvl, g⟩ := hi.ex
  have ht : Tally ((abs s).es.map fun x => B.rleLen x.2) (diagnoseBalance B s).2 := by
    refine (tally_foldl (fun (L : LeafNode E) => B.rleLen L.elem) _).congr fun k => ?_
    rw [arena_count _ (order_nodup g.wf) (fun l => by rw [mem_order g.wf, Ne, Ne, lpar_none])]
    congr 1
    change (entriesOf s (order s)).map _ = _
    rw [entriesOf, List.map_filterMap]
    congr 1
    funext l
    simp only [elm, Option.map_map]
    rfl
  refine ⟨ht, ?_, ?_⟩
  · rw [ht.sum.1]
    rfl
  · rw [ht.sum.2, List.length_map]

/-- The first table counts the children of the inner nodes.  It has no row above 11, and at most one node (the root) has fewer than `m.lo` children;
the rows add up to all nodes but the root, and to the number of inner nodes. -/
theorem C77_children {B : Trait E C D} {A : Law B} {m : Fill} {s : Tree E C} (hi : Inv A m s) :
    (∀ ids : List Nat, ids.Nodup → (∀ x, x ∈ ids ↔ s.inn.get x ≠ none) → Tally (ids.map fun x => (chs s x).length) (diagnoseBalance B s).1) ∧
      (∀ k n, (k, n) ∈ (diagnoseBalance B s).1 → k ≤ 11 ∧ (k < m.lo → n = 1 ∧ k = (chs s s.root).length)) ∧
      ((diagnoseBalance B s).1.map fun x => x.1 * x.2).sum + 1 = nodeLen s ∧ ((diagnoseBalance B s).1.map Prod.snd).sum = s.inn.len := by
  have h0 : (∀ ids : List Nat, ids.Nodup → (∀ x, x ∈ ids ↔ s.inn.get x ≠ none) → Tally (ids.map fun x => (chs s x).length) (diagnoseBalance B s).1) := by
    intro ids nd hm
    refine (tally_foldl (fun (N : Node C) => N.children.length) _).congr fun k => ?_
    rw [arena_count _ nd hm]
    congr 1
    have : ∀ l : List Nat, (∀ x ∈ l, s.inn.get x ≠ none) → l.map (fun x => (chs s x).length) = l.filterMap fun x => (s.inn.get x).map fun N => N.children.length := by
      intro l
      induction l with
      | nil => intro _; rfl
      | cons x l ih =>
        intro hl
        obtain ⟨v, hv⟩ := Option.ne_none_iff_exists'.mp (hl x (by simp))
        rw [List.map_cons, ih (fun y hy => hl y (by simp [hy])), List.filterMap_cons, chs_of hv, hv]
        rfl
    exact this ids fun x hx => (hm x).mp hx
  obtain ⟨lines, -, -, nd, mm⟩ := C77_lines hi
  have ht := h0 _ nd mm
  have hch := C52_children hi (sum := (internalAvgChildrenNum s).1) (n := (internalAvgChildrenNum s).2) rfl
  obtain ⟨h, hi⟩ := hi
  refine ⟨h0, ?_, ?_, ?_⟩
  · intro k n hk
    obtain ⟨h1, h2⟩ := (ht.rows k n).mp hk
    have hx : ∃ x, s.inn.get x ≠ none ∧ (chs s x).length = k := by
      have : k ∈ (lines.filterMap DebugLine.inner).map fun x => (chs s x).length := List.count_pos_iff.mp (by omega)
      obtain ⟨x, hx, hxk⟩ := List.mem_map.mp this
      exact ⟨x, (mm x).mp hx, hxk⟩
    have hlo : ∀ x, s.inn.get x ≠ none → (chs s x).length < m.lo → x = s.root := by
      intro x hx hl
      obtain ⟨v, hv⟩ := Option.ne_none_iff_exists'.mp hx
      apply Decidable.byContradiction
      intro hne
      have := ((C29_fill hi hv).2.1 hne).1
      rw [chs_of hv] at hl
      omega
    obtain ⟨x, hx, hxk⟩ := hx
    obtain ⟨v, hv⟩ := Option.ne_none_iff_exists'.mp hx
    refine ⟨by have := (C29_fill hi hv).1; rw [chs_of hv] at hxk; omega, fun hkm => ?_⟩
    have hxr := hlo x hx (by omega)
    refine ⟨?_, by rw [← hxr, hxk]⟩
    have : ∀ l : List Nat, l.Nodup → (∀ y ∈ l, s.inn.get y ≠ none) → (l.map fun x => (chs s x).length).count k ≤ 1 := by
      intro l
      induction l with
      | nil => intro _ _; simp
      | cons y l ih =>
        intro hnd hl
        rw [List.nodup_cons] at hnd
        have := ih hnd.2 (fun z hz => hl z (by simp [hz]))
        rw [List.map_cons, List.count_cons]
        split
        · rename_i hy
          have hy : (chs s y).length = k := by simpa using hy
          have hyr := hlo y (hl y (by simp)) (by omega)
          have : (l.map fun x => (chs s x).length).count k = 0 := by
            rw [List.count_eq_zero]
            intro hmem
            obtain ⟨z, hz, hzk⟩ := List.mem_map.mp hmem
            have := hlo z (hl z (by simp [hz])) (by omega)
            exact hnd.1 (by rw [hyr, ← this]; exact hz)
          omega
        · omega
    have := this _ nd (fun y hy => (mm y).mp hy)
    omega
  · have e0 : ((diagnoseBalance B s).1.map fun x => x.1 * x.2).sum = _ :=
      (tally_foldl (fun (N : Node C) => N.children.length) (s.inn.items.filterMap id)).sum.1
    have e : (internalAvgChildrenNum s).1 = ((s.inn.items.filterMap id).map fun n => n.children.length).sum := by
      rw [internalAvgChildrenNum, foldl_sum, Nat.zero_add]
    omega
  · rw [ht.sum.2, List.length_map, len_nodup nd mm]

/-! Cases: thirty chunks of a rope in three levels, and thirty pairs of a map. -/

example : ∃ lines, debugFmt ropeSample = .ok lines ∧ lines.length = nodeLen ropeSample := by
  obtain ⟨lines, h1, h2, -⟩ := C77_lines ropeSample_spec.1
  exact ⟨lines, h1, h2⟩

/-- The line of chunk 17 shows its cache, 3. -/
example : ∃ lines d p, debugFmt ropeSample = .ok lines ∧ .leaf d ⟨[17, 1, 2, 0], 3, 1⟩ 17 p 3 ∈ lines := by
  obtain ⟨h, hi⟩ := ropeSample_spec.1
  obtain ⟨n, rfl⟩ : ∃ n, h = n + 1 := by
    obtain ⟨lvl, g⟩ := hi.ex
    exact ⟨h - 1, by have := g.wf.h_pos; omega⟩
  obtain ⟨t, lines, -, -, h1, -, h2⟩ := C77_debug hi
  have hm : (17, (⟨[17, 1, 2, 0], 3, 1⟩ : GapBuf)) ∈ lines.filterMap DebugLine.entry := by
    rw [h2, ropeSample_spec.2]
    exact List.mem_map.mpr ⟨17, by decide, rfl⟩
  obtain ⟨z, hz, he⟩ := List.mem_filterMap.mp hm
  cases z with
  | root => cases he
  | node => cases he
  | leaf d e l p c =>
    cases he
    have h3 := (C77_leaf hi h1 (List.mem_cons_of_mem _ hz)).2.2.2
    have h4 : c = 3 := h3
    exact ⟨_, d, p, h1, by rw [h4] at hz; exact List.mem_cons_of_mem _ hz⟩

/-- There is a line for an inner node, and it shows the total of the caches below it. -/
example : ∃ lines d i x c, debugFmt ropeSample = .ok lines ∧ .node d i x c ∈ lines ∧ c = (ropeLaw 4).total (cch ropeSample x) := by
  obtain ⟨lines, h1, h2, -, -⟩ := C77_lines ropeSample_spec.1
  obtain ⟨h3, h4, h5, h6⟩ := C52_children ropeSample_spec.1 (sum := (internalAvgChildrenNum ropeSample).1) (n := (internalAvgChildrenNum ropeSample).2) rfl
  have h7 : (abs ropeSample).es.length = 30 := by rw [ropeSample_spec.2]; rfl
  obtain ⟨h, hi⟩ := ropeSample_spec.1
  obtain ⟨n, rfl⟩ : ∃ n, h = n + 1 := by
    obtain ⟨lvl, g⟩ := hi.ex
    exact ⟨h - 1, by have := g.wf.h_pos; omega⟩
  obtain ⟨t, ls, -, -, k1, k2, k3⟩ := C77_debug hi
  rw [h1] at k1
  cases k1
  have hn : ∃ d i x c, DebugLine.node d i x c ∈ ls := by
    refine Classical.byContradiction ?_
    intro hno
    have : ∀ ls : List (DebugLine Int GapBuf), (∀ z ∈ ls, ∃ d e l p c, z = .leaf d e l p c) → ls.length = (ls.filterMap DebugLine.entry).length := by
      intro ls
      induction ls with
      | nil => intro _; rfl
      | cons z ls ih =>
        intro hz
        obtain ⟨d, e, l, p, c, rfl⟩ := hz z (by simp)
        simp only [List.filterMap_cons, DebugLine.entry, List.length_cons]
        rw [← ih (fun z hz' => hz z (by simp [hz']))]
    have := this ls (by
      intro z hz
      cases z with
      | leaf d e l p c => exact ⟨d, e, l, p, c, rfl⟩
      | node d i x c => exact absurd ⟨d, i, x, c, hz⟩ hno
      | root d x c =>
        have hm : none ∈ ls.map DebugLine.plain := List.mem_map.mpr ⟨_, hz, rfl⟩
        rw [k2] at hm
        obtain ⟨y, -, hy⟩ := List.mem_map.mp hm
        cases hy)
    rw [k3] at this
    rw [List.length_cons] at h2
    omega
  obtain ⟨d, i, x, c, hm⟩ := hn
  obtain ⟨p, -, -, hc⟩ := C77_node hi h1 (List.mem_cons_of_mem _ hm)
  exact ⟨_, d, i, x, c, h1, List.mem_cons_of_mem _ hm, hc⟩

/-- The thirty chunks of three bytes make one row. -/
example (k n : Nat) : (k, n) ∈ (diagnoseBalance ropeTrait ropeSample).2 ↔ k = 3 ∧ n = 30 := by
  obtain ⟨h1, -, -⟩ := C77_lengths ropeSample_spec.1
  have e : (abs ropeSample).es.map (fun x => ropeTrait.rleLen x.2) = List.replicate 30 3 := by rw [ropeSample_spec.2]; rfl
  rw [h1.rows, e, List.count_replicate]
  by_cases hk : k = 3
  · subst hk; simp; omega
  · have : (3 == k) = false := by simpa using fun e => hk e.symm
    simp [this, hk]; omega

example := C77_children ordSample_spec.1

end GB
