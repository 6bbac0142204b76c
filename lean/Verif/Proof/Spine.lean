import Verif.Proof.CheckSound

/-!
# Trees built by `push` alone: every node off the right edge has at most six children
-/

namespace GB
variable {E C D : Type}
open Tree

/-- the nodes on the right edge of the tree -/
inductive Spine (s : Tree E C) : Nat → Prop
  | root : Spine s s.root
  | last {p x : Nat} : Spine s p → (kids s p).getLast? = some (.internal x) → Spine s x

/-- nodes off the right edge have at most six children -/
def Packed (s : Tree E C) : Prop := ∀ y, lnk s y ≠ none → Spine s y ∨ (chs s y).length ≤ 6

section
variable {s s' : Tree E C} {lvl : Nat → Nat} {h p : Nat} {B : Trait E C D} {A : Law B}

theorem Spine.shape (sh : SameShape s s') {x : Nat} (hx : Spine s x) : Spine s' x := by
  induction hx with
  | root => rw [← sh.root]; exact .root
  | last _ hl ih => exact .last ih (by rw [sh.kids]; exact hl)

theorem Packed.shape (sh : SameShape s s') (hp : Packed s) : Packed s' := by
  intro y hy
  rcases hp y ((sh.live y).mp hy) with h | h
  · exact Or.inl (h.shape sh)
  · exact Or.inr (by rw [sh.len]; exact h)

theorem getLast?_edge {x : Nat} {a : Idx} (hl : (kids s x).getLast? = some a) : Edge s x ((kids s x).length - 1) a := by
  rw [List.getLast?_eq_getElem?] at hl
  exact hl

/-- the caches along the way to the root change, nothing else -/
theorem cache_shape {q i : Nat} {N : Node C} {ch : Child C} {c : C} (hN : s.getIn q = .ok N) (hch : vget N.children i = .ok ch) :
    SameShape s (s.setIn q { N with children := N.children.set i { ch with cache := c } }) := by
  refine SameShape.setIn (getIn_inv hN) ?_
  have : N.children[i]? = some ch := by
    simp only [vget, unwrap] at hch
    cases hx : N.children[i]? with
    | none => rw [hx] at hch; cases hch
    | some c => rw [hx] at hch; cases hch; rfl
  simp only [Node.shape, map_arena_set this]

theorem recUpdDiff_shape : ∀ (n : Nat) (s s' : Tree E C) (x : Nat) (d : D), recUpdDiff B n s x d = .ok s' → SameShape s s' := by
  intro n
  induction n with
  | zero => intro s s' x d h; cases h
  | succ n ih =>
    intro s s' x d h
    rw [recUpdDiff] at h
    obtain ⟨N, h1, h⟩ := bind_inv h
    cases hp : N.parent with
    | none =>
      rw [hp] at h
      obtain ⟨rc, -, h⟩ := bind_inv h
      cases h
      exact SameShape.rootCache _ _
    | some p =>
      rw [hp] at h
      obtain ⟨P, h2, h⟩ := bind_inv h
      obtain ⟨ch, h3, h⟩ := bind_inv h
      obtain ⟨c', -, h⟩ := bind_inv h
      exact (cache_shape h2 h3).trans (ih _ _ _ _ h)

theorem recUpdCalc_shape : ∀ (n : Nat) (s s' : Tree E C) (x : Nat), recUpdCalc B n s x = .ok s' → SameShape s s' := by
  intro n
  induction n with
  | zero => intro s s' x h; cases h
  | succ n ih =>
    intro s s' x h
    rw [recUpdCalc] at h
    obtain ⟨N, h1, h⟩ := bind_inv h
    cases hp : N.parent with
    | none =>
      rw [hp] at h
      obtain ⟨R, -, h⟩ := bind_inv h
      obtain ⟨rc, -, h⟩ := bind_inv h
      cases h
      exact SameShape.rootCache _ _
    | some p =>
      rw [hp] at h
      obtain ⟨-, -, h⟩ := bind_inv h
      obtain ⟨P, h2, h⟩ := bind_inv h
      obtain ⟨ch, h3, h⟩ := bind_inv h
      obtain ⟨c', -, h⟩ := bind_inv h
      exact (cache_shape h2 h3).trans (ih _ _ _ h)

theorem recursiveUpdateCache_shape {idx : Idx} {b : Bool} {d : Option D} (h : recursiveUpdateCache B s idx b d = .ok s') :
    SameShape s s' := by
  unfold recursiveUpdateCache at h
  obtain ⟨⟨s1, x⟩, h1, h⟩ := bind_inv h
  have sh1 : SameShape s s1 := by
    cases idx with
    | internal x => cases h1; exact SameShape.refl _
    | leaf l =>
      obtain ⟨L, -, h1⟩ := bind_inv h1
      obtain ⟨N, h2, h1⟩ := bind_inv h1
      obtain ⟨i, -, h1⟩ := bind_inv h1
      obtain ⟨ch, h3, h1⟩ := bind_inv h1
      cases h1
      exact cache_shape h2 h3
  refine sh1.trans ?_
  cases b with
  | false => exact recUpdCalc_shape _ _ _ _ h
  | true =>
    cases d with
    | some d => exact recUpdDiff_shape _ _ _ _ _ h
    | none =>
      obtain ⟨N, h1, h⟩ := bind_inv h
      cases hp : N.parent with
      | none =>
        rw [hp] at h
        obtain ⟨R, -, h⟩ := bind_inv h
        obtain ⟨rc, -, h⟩ := bind_inv h
        cases h
        exact SameShape.rootCache _ _
      | some p =>
        rw [hp] at h
        obtain ⟨-, -, h⟩ := bind_inv h
        obtain ⟨P, h2, h⟩ := bind_inv h
        obtain ⟨ch, h3, h⟩ := bind_inv h
        obtain ⟨c', -, h⟩ := bind_inv h
        exact (cache_shape h2 h3).trans (recUpdDiff_shape _ _ _ _ _ h)

theorem getLast?_drop {α : Type} {l : List α} {k : Nat} (hk : k < l.length) : (l.drop k).getLast? = l.getLast? := by
  rw [List.getLast?_eq_getElem?, List.getLast?_eq_getElem?, List.getElem?_drop, List.length_drop]
  congr 1
  omega

/-- `split` on the right edge -/
theorem splitF_packed :
    ∀ (n : Nat) (s : Tree E C) (lvl : Nat → Nat) (h x : Nat), WF s lvl h → COk A s → lnk s x ≠ none →
    (∀ y, lnk s y ≠ none → y ≠ x → (chs s y).length ≤ 11) → 2 ≤ (chs s x).length → (chs s x).length ≤ 12 →
    Spine s x → Packed s → ∀ s', splitF B n s x = .ok s' → Packed s' := by
  intro n
  induction n with
  | zero => intro s lvl h x _ _ _ _ _ _ _ _ s' hs; cases hs
  | succ n ih =>
    intro s lvl h x w cok hx sz hl2 hl12 spx pk s' hs
    have hrn : lnk s s.inn.items.length = none := lnk_fresh s
    have hkl : (kids s x).length = (chs s x).length := by rw [kids_chs, List.length_map]
    obtain ⟨⟨par, slot⟩, hlk⟩ := Option.ne_none_iff_exists'.mp hx
    cases par with
    | none =>
      have hxr : x = s.root := w.root_of_parent_none (get_of_lnk hlk) rfl
      subst hxr
      obtain ⟨s4, s'', t, e1, e2, lift, -, -, rg, -, -, croot, cl, cr, co, lv, -⟩ := splitRoot_spec (A := A) w cok hlk hl2
      simp only [splitF, e1, bind_ok, e2] at hs
      cases hs
      have hsr : s'.root = s.root := by rw [rg.root, lift.root]
      have hrlt := w.lnk_lt hx
      have spr : Spine s' s.inn.items.length := by
        refine .last (p := s.root) (by rw [← hsr]; exact .root) ?_
        rw [kids_chs, croot]; rfl
      have key : ∀ y, Spine s y → (y ≠ s.root → Spine s' y) := by
        intro y hy
        induction hy with
        | root => intro h; exact absurd rfl h
        | @last q y hq hl ihq =>
          intro _
          have he := getLast?_edge hl
          by_cases hqr : q = s.root
          · subst hqr
            refine .last spr ?_
            rw [kids_chs, cr, List.map_drop, ← kids_chs, getLast?_drop (by omega)]
            exact hl
          · have hq1 : q ≠ s.inn.items.length := by intro e; have := w.lnk_lt (edge_live he); omega
            have hq2 : q ≠ s.inn.items.length + 1 := by intro e; have := w.lnk_lt (edge_live he); omega
            refine .last (ihq hqr) ?_
            rw [kids_chs, co q hqr hq1 hq2, ← kids_chs]
            exact hl
      intro y hy
      by_cases h1 : y = s.root
      · subst h1; left; rw [← hsr]; exact .root
      · by_cases h2 : y = s.inn.items.length
        · subst h2; exact Or.inl spr
        · by_cases h3 : y = s.inn.items.length + 1
          · subst h3
            right
            rw [cl, List.length_take]; omega
          · rcases pk y (fun e => hy ((lv y h2 h3).mpr e)) with h | h
            · exact Or.inl (key y h h1)
            · exact Or.inr (by rw [co y h1 h2 h3]; exact h)
    | some p =>
      obtain ⟨he, hxr⟩ := w.lnk_edge hlk
      have hlx := (w.kin he).1
      have hplive := edge_live he
      have hxpos := (w.lvl_pos' hx).1
      have hxp : x ≠ p := kid_ne_self w he
      obtain ⟨ch, hch, har⟩ := edge_chs.mp he
      have hpsz := sz p hplive (Ne.symm hxp)
      obtain ⟨s4, s6, e1, e2, e3, ⟨q, i, e4, e5, e6⟩, rg, i6, rc6, lf6, cp, cx, cr, co, lv, lkr⟩ :=
        splitStep (A := A) w cok hlk hch hl2 (by simp only [MAXC]; omega)
      have hlt := (List.getElem?_eq_some_iff.mp hch).1
      have okL : A.okC (A.total (((chs s x).take ((chs s x).length / 2)).map Child.cache)) := by
        apply A.total_ok
        · intro e
          have := congrArg List.length e
          simp only [List.length_map, List.length_take, List.length_nil] at this
          omega
        · intro c hc
          obtain ⟨c2, h2, rfl⟩ := List.mem_map.mp hc
          exact cok _ c2 (List.mem_of_mem_take h2)
      have okR : A.okC (A.total (((chs s x).drop ((chs s x).length / 2)).map Child.cache)) := by
        apply A.total_ok
        · intro e
          have := congrArg List.length e
          simp only [List.length_map, List.length_drop, List.length_nil] at this
          omega
        · intro c hc
          obtain ⟨c2, h2, rfl⟩ := List.mem_map.mp hc
          exact cok _ c2 (List.mem_of_mem_drop h2)
      have cok6 : COk A s6 := by
        refine rg.cok w hplive (by omega) cok ?_
        intro c hc
        rw [cp, splitPar] at hc
        have key : ∀ c ∈ (chs s p).set slot { ch with cache := A.total (((chs s x).take ((chs s x).length / 2)).map Child.cache) },
            A.okC c.cache := by
          intro c hc
          rcases List.mem_or_eq_of_mem_set hc with h | rfl
          · exact cok p c h
          · exact okL
        rcases List.mem_append.mp hc with h1 | h1
        · exact key c (List.mem_of_mem_take h1)
        · rcases List.mem_cons.mp h1 with rfl | h1
          · exact okR
          · exact key c (List.mem_of_mem_drop h1)
      have w6 := rg.wf w hplive (by omega) (Nat.le_trans w.h_le rg.items)
      have hpr : p ≠ s.inn.items.length := by intro e; rw [e] at hplive; exact hplive hrn
      have hlenp : (chs s6 p).length = (chs s p).length + 1 := by
        rw [cp, splitPar]
        simp only [List.length_append, List.length_take, List.length_set, List.length_cons, List.length_drop]
        omega
      -- `x` is the last child of `p`
      have hparent : Spine s p ∧ (kids s p).getLast? = some (.internal x) := by
        cases spx with
        | root => exact absurd rfl hxr
        | @last p' _ h1 h2 =>
          have := (w.kid_in_inj (getLast?_edge h2) he).1
          subst this
          exact ⟨h1, h2⟩
      have hslot : slot + 1 = (chs s p).length := by
        have h1 := getLast?_edge hparent.2
        have := (w.kid_in_inj h1 he).2
        rw [kids_chs, List.length_map] at this
        omega
      have hkp : (kids s6 p).getLast? = some (.internal s.inn.items.length) := by
        rw [kids_chs, cp, splitPar_arena hch,
          List.drop_eq_nil_of_le (as := (chs s p).map Child.arena) (by rw [List.length_map]; omega)]
        simp
      have key : ∀ y, Spine s y → (y ≠ x → Spine s6 y) ∧ (y = x → Spine s6 s.inn.items.length) := by
        intro y hy
        induction hy with
        | root => exact ⟨fun _ => by rw [← rg.root]; exact .root, fun h => absurd h.symm hxr⟩
        | @last q y hq hl ihq =>
          have hed := getLast?_edge hl
          constructor
          · intro hyx
            have hqp : q ≠ p := by
              intro e; subst e
              rw [hparent.2] at hl
              cases hl
              exact hyx rfl
            by_cases hqx : q = x
            · subst hqx
              refine .last (ihq.2 rfl) ?_
              rw [kids_chs, cr, List.map_drop, ← kids_chs, getLast?_drop (by omega)]
              exact hl
            · refine .last (ihq.1 hqx) ?_
              rw [kids_chs, co q hqx hqp (by intro e; rw [e] at hed; exact edge_live hed hrn), ← kids_chs]
              exact hl
          · intro hyx
            subst hyx
            have := (w.kid_in_inj hed he).1
            subst this
            exact .last (ihq.1 (Ne.symm hxp)) hkp
      have sp6 : Spine s6 p := (key p hparent.1).1 (Ne.symm hxp)
      have pk6 : Packed s6 := by
        intro y hy
        by_cases h1 : y = x
        · subst h1; right; rw [cx, List.length_take]; omega
        · by_cases h2 : y = p
          · subst h2; exact Or.inl sp6
          · by_cases h3 : y = s.inn.items.length
            · subst h3; exact Or.inl ((key x spx).2 rfl)
            · rcases pk y (fun e => hy ((lv y h3).mpr e)) with h | h
              · exact Or.inl ((key y h).1 h1)
              · exact Or.inr (by rw [co y h1 h2 h3]; exact h)
      have hget4 : s4.inn.get p = some ⟨q, i, chs s4 p⟩ := get_of_lnk e4
      have hstep : splitF B (n + 1) s x = (if MAXC ≤ (chs s6 p).length then splitF B n s6 p else .ok s6) := by
        simp only [splitF, e1, bind_ok, getIn_ok hget4]
        rw [vget_ok (l := chs s4 p) (by rw [e3]; exact hch)]
        simp only [bind_ok, e5, e6, Node.isFull, decide_eq_true_eq]
        rfl
      rw [hstep] at hs
      by_cases hfull : MAXC ≤ (chs s6 p).length
      · rw [if_pos hfull] at hs
        refine ih s6 _ h p w6 cok6 (fun e => hplive ((lv p hpr).mp e)) ?_ (by omega) (by omega) sp6 pk6 s' hs
        intro y hy hyp
        by_cases h1 : y = x
        · subst h1; rw [cx, List.length_take]; omega
        · by_cases h3 : y = s.inn.items.length
          · subst h3; rw [cr, List.length_drop]; omega
          · rw [co y h1 hyp h3]
            exact sz y (fun e => hy ((lv y h3).mpr e)) h1
      · rw [if_neg hfull] at hs
        cases hs
        exact pk6

end
end GB
