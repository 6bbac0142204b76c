import Verif.Proof.OrdHist

/-!
# C30: logarithmic depth of ordered maps
-/

namespace GB
variable {K V : Type} [Ord K] [Std.TransOrd K]
open Tree

/-- After every history of inserts and deletes (of present or absent keys) from `new()`: nothing panicked, every
non-root node has between 6 and 11 children, and a non-empty map of `len` bindings has depth `1`, or a depth `h`
with `2·6^(h-1) ≤ len`. -/
theorem C30_ord_depth (os : List (OrdOp K V)) :
    ∃ rs m, ordRun OrdMap.new os = .ok (rs, m) ∧
      (∀ x N, m.tree.inn.get x = some N → N.children.length ≤ 11 ∧ (x ≠ m.tree.root → 6 ≤ N.children.length)) ∧
      (m.len ≠ 0 → ∃ h, depth m.tree = .ok h ∧ 1 ≤ h ∧ (h = 1 ∨ 2 * 6 ^ (h - 1) ≤ m.len)) := by
  obtain ⟨rs, m, h1, hm⟩ := ordRun_ok OrdMap.new_ok os
  refine ⟨rs, m, h1, ?_⟩
  obtain ⟨h, hi⟩ := hm.tree
  have ne := hi.ne (by decide)
  have habs := abs_nil hi
  obtain ⟨⟨lvl, g⟩, sz⟩ := id hi
  have hlen : m.len = (abs m.tree).es.length := by rw [hm.len, OrdMap.assoc, List.length_map]
  refine ⟨?_, ?_⟩
  · intro x N hx
    have := sz x (lnk_isSome.mpr ⟨N, hx⟩) (fun h => h)
    rw [chs_of hx] at this
    exact ⟨this.1, fun hr => (this.2.1 hr).1⟩
  · intro hn
    have hne : order m.tree ≠ [] := by
      intro e
      rw [hlen, habs.mpr e] at hn
      exact hn rfl
    have hpos : 1 ≤ h := g.wf.h_pos
    refine ⟨h, depth_spec g.wf ne hne, hpos, ?_⟩
    by_cases h2 : 2 ≤ h
    · right
      rw [hlen]
      exact height_bound g.wf sz h2
    · left; omega

/-- The bound as a logarithm: `depth ≤ 1 + log₆(len / 2)`. -/
theorem C30_ord_log (os : List (OrdOp K V)) {rs : List (Option (K × V))} {m : OrdMap K V} {h : Nat}
    (hr : ordRun OrdMap.new os = .ok (rs, m)) (h2 : 2 ≤ m.len) (hd : depth m.tree = .ok h) (d : Nat) (hl : m.len / 2 < 6 ^ (d + 1)) :
    h ≤ 1 + d := by
  obtain ⟨rs', m', e1, -, e2⟩ := C30_ord_depth os
  rw [hr] at e1
  cases e1
  obtain ⟨h', e3, e4, e5⟩ := e2 (by omega)
  rw [hd] at e3
  cases e3
  rcases e5 with rfl | e5
  · omega
  · apply Classical.byContradiction
    intro hc
    have : 6 ^ (d + 1) ≤ 6 ^ (h - 1) := Nat.pow_le_pow_right (by decide) (by omega)
    omega

example := C30_ord_depth (K := Nat) (V := Nat) ((List.range 100).map (fun i => .insert i i) ++ (List.range 50).map .delete)
-- the sample of 30 bindings has two levels, as `2·6 ≤ 30` allows
example : depth ordMapSample.tree = .ok 2 := by rfl

/-- 13 elements, so at most 2 levels -/
example {rs : List (Option (Nat × Nat))} {m : OrdMap Nat Nat} {h : Nat} (hr : ordRun OrdMap.new ((List.range 13).map fun i => .insert i i) = .ok (rs, m)) (hl : m.len = 13)
    (hd : depth m.tree = .ok h) : h ≤ 2 := C30_ord_log _ hr (by omega) hd 1 (by rw [hl]; decide)

end GB
