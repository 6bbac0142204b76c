import Verif.Proof.CheckSound
import Verif.Proof.Check

/-!
# From a successful `check()` to validity

`check()` looks at the leaves in the arena and their parents, but never at the leaves the nodes list.  If these are right as well, the tree is valid.
-/

namespace GB
variable {E C D : Type}
open Tree

section
variable {s : Tree E C}

theorem Depth.det : ∀ {x d d' : Nat}, Depth s x d → Depth s x d' → d = d' := by
  intro x d d' h
  induction h generalizing d' with
  | root => intro h'; cases h' with
    | root => rfl
    | step h1 => exact absurd rfl h1
  | step h1 h2 h3 _ ih =>
    intro h'
    cases h' with
    | root => exact absurd rfl h1
    | step k1 k2 k3 k4 =>
      rw [h2] at k2
      cases k2
      rw [h3] at k3
      cases k3
      rw [ih k4]

/-- the path of a node gives its depth -/
theorem getPathF_inv : ∀ {n x : Nat} {acc r : List PIdx}, getPathF n s x acc = .ok r → ∃ d, Depth s x d ∧ r.length = acc.length + d + 1 ∧ r.length ≤ 10 := by
  have hpush : ∀ {acc r : List PIdx} {i : PIdx}, pathPushTop acc i = .ok r → r.length = acc.length + 1 ∧ r.length ≤ 10 := by
    intro acc r i h
    rw [pathPushTop] at h
    by_cases hc : acc.length < PATHCAP
    · rw [if_pos hc] at h
      cases h
      simp only [PATHCAP] at hc
      refine ⟨by simp, ?_⟩
      rw [List.length_append, List.length_singleton]
      omega
    · rw [if_neg hc] at h; cases h
  intro n
  induction n with
  | zero => intro x acc r h; cases h
  | succ n ih =>
    intro x acc r h
    rw [getPathF] at h
    by_cases hx : x = s.root
    · rw [if_pos hx] at h
      subst hx
      exact ⟨0, .root, (hpush h).1, (hpush h).2⟩
    · rw [if_neg hx] at h
      obtain ⟨N, h1, h⟩ := bind_inv h
      obtain ⟨a, h2, h⟩ := bind_inv h
      obtain ⟨p, h3, h⟩ := bind_inv h
      obtain ⟨d, k1, k2, k3⟩ := ih h
      have hp : N.parent = some p := by
        cases hp : N.parent with
        | none => rw [hp] at h3; cases h3
        | some c => rw [hp] at h3; cases h3; rfl
      refine ⟨d + 1, .step hx (getIn_inv h1) hp k1, ?_, k3⟩
      have := (hpush h2).1
      omega

theorem checkNode_path [DecidableEq C] {B : Trait E C D} {x : Nat} {N : Node C} (hN : s.inn.get x = some N)
    (h : checkNode B s x = .ok ()) : ∃ d, Depth s x d ∧ d ≤ 9 := by
  simp only [checkNode, hN] at h
  have h : (do
      checkChildren B s x N N.children 0
      match N.parent with
      | some p => do
        let par ← s.getIn p
        let c ← vget par.children N.slot
        assertM (decide (c.arena = .internal x))
        let _ ← getPath s (.internal x)
        pure ()
      | none => assertM (decide (x = s.root)) : M Unit) = .ok () := by
    by_cases hx : x ≠ s.root
    · rw [if_pos hx] at h
      obtain ⟨_, -, h⟩ := bind_inv h
      exact h
    · rw [if_neg hx] at h
      exact h
  obtain ⟨_, -, h⟩ := bind_inv h
  cases hp : N.parent with
  | none =>
    rw [hp] at h
    have := of_decide_eq_true (assertM_inv h)
    subst this
    exact ⟨0, .root, by omega⟩
  | some p =>
    rw [hp] at h
    obtain ⟨P, -, h⟩ := bind_inv h
    obtain ⟨c, -, h⟩ := bind_inv h
    obtain ⟨_, -, h⟩ := bind_inv h
    obtain ⟨r, k1, -⟩ := bind_inv h
    obtain ⟨d, q1, q2, q3⟩ := getPathF_inv k1
    simp only [List.length_nil] at q2
    exact ⟨d, q1, by omega⟩

theorem checkLeaves_path [DecidableEq C] {B : Trait E C D} : ∀ {ls : List Nat} {lv : Option Nat}, checkLeaves B s ls lv = .ok () →
    ∀ l ∈ ls, ∀ L, s.lf.get l = some L → ∃ d, Depth s L.parent d ∧ d ≤ 8 := by
  intro ls
  induction ls with
  | nil => intro lv _ l hl; cases hl
  | cons l ls ih =>
    intro lv h l' hm L' hL'
    rw [checkLeaves] at h
    cases hl : s.lf.get l with
    | none =>
      rw [hl] at h
      rcases List.mem_cons.mp hm with rfl | hm
      · rw [hl] at hL'; cases hL'
      · exact ih h l' hm L' hL'
    | some L =>
      rw [hl] at h
      obtain ⟨len, -, h⟩ := bind_inv h
      obtain ⟨_, -, h⟩ := bind_inv h
      obtain ⟨P, -, h⟩ := bind_inv h
      obtain ⟨i, -, h⟩ := bind_inv h
      obtain ⟨c, -, h⟩ := bind_inv h
      obtain ⟨_, -, h⟩ := bind_inv h
      obtain ⟨r, k7, h⟩ := bind_inv h
      rcases List.mem_cons.mp hm with rfl | hm
      · rw [hl] at hL'
        cases hL'
        simp only [getPath, getLf, hl, unwrap_some, bind_ok] at k7
        obtain ⟨_, -, k7⟩ := bind_inv k7
        obtain ⟨_, -, k7⟩ := bind_inv k7
        obtain ⟨acc, k8, k7⟩ := bind_inv k7
        obtain ⟨d, q1, q2, q3⟩ := getPathF_inv k7
        have : acc.length = 1 := by
          rw [pathPushTop, if_pos (by simp [PATHCAP])] at k8
          cases k8
          rfl
        exact ⟨d, q1, by omega⟩
      · exact ih h l' hm L' hL'

/-- a node of depth `d` has `d` ancestors besides itself -/
theorem Depth.le_items (hroot : ∃ N, s.inn.get s.root = some N) : ∀ {x d : Nat}, Depth s x d → d + 1 ≤ s.inn.items.length := by
  intro x d h
  have key : ∀ {x d : Nat}, Depth s x d → ∃ l : List Nat, l.length = d + 1 ∧ l.Nodup ∧ ∀ y ∈ l, (∃ k, k ≤ d ∧ Depth s y k) ∧ y < s.inn.items.length := by
    intro x d h
    induction h with
    | root =>
      obtain ⟨N, hN⟩ := hroot
      refine ⟨[s.root], rfl, by simp, ?_⟩
      intro y hy
      rw [List.mem_singleton] at hy
      subst hy
      exact ⟨⟨0, by omega, .root⟩, Arena.get_lt hN⟩
    | @step x n N p h1 h2 h3 h4 ih =>
      obtain ⟨l, l1, l2, l3⟩ := ih
      refine ⟨x :: l, by simp [l1], ?_, ?_⟩
      · rw [List.nodup_cons]
        refine ⟨fun hx => ?_, l2⟩
        obtain ⟨⟨k, k1, k2⟩, -⟩ := l3 x hx
        have := Depth.det k2 (.step h1 h2 h3 h4)
        omega
      · intro y hy
        rcases List.mem_cons.mp hy with rfl | hy
        · exact ⟨⟨n + 1, by omega, .step h1 h2 h3 h4⟩, Arena.get_lt h2⟩
        · obtain ⟨⟨k, k1, k2⟩, k3⟩ := l3 y hy
          exact ⟨⟨k, by omega, k2⟩, k3⟩
  obtain ⟨l, l1, l2, l3⟩ := key h
  have := nodup_length_le _ _ l2 fun y hy => (l3 y hy).2
  omega

end

section
variable [DecidableEq C] {B : Trait E C D} (A : Law B) {s : Tree E C}

open Classical in
/-- a tree that passes `check()` is valid if its lists of leaves are right -/
theorem check_good (hck : check B s = .ok ()) (hokE : ∀ l e, elm s l = some e → A.okE e) (hroot : ∀ N, s.inn.get s.root = some N → N.parent = none)
    (hlist : ∀ p i l, Edge s p i (.leaf l) → ∃ L, s.lf.get l = some L ∧ L.parent = p)
    (huniq : ∀ p i j l, Edge s p i (.leaf l) → Edge s p j (.leaf l) → i = j) :
    ∃ lvl h, Good A s lvl h ∧ NE s ∧ h ≤ 9 := by
  have ck := check_sound hck
  obtain ⟨R, dR, hR, hRc⟩ := ck.root
  -- every stored node has a depth
  have hdep : ∀ x N, s.inn.get x = some N → ∃ d, Depth s x d ∧ d ≤ 9 := by
    rw [check] at hck
    obtain ⟨_, h1, -⟩ := bind_inv hck
    intro x N hN
    exact checkNode_path hN (checkAll_inv h1 x (List.mem_range.mpr (Arena.get_lt hN)))
  have hlf8 : ∀ l L, s.lf.get l = some L → ∃ d, Depth s L.parent d ∧ d ≤ 8 := by
    rw [check] at hck
    obtain ⟨_, -, h⟩ := bind_inv hck
    obtain ⟨_, -, h⟩ := bind_inv h
    obtain ⟨⟨_, _⟩, -, h⟩ := bind_inv h
    obtain ⟨_, -, h⟩ := bind_inv h
    intro l L hL
    exact checkLeaves_path h l (List.mem_range.mpr (Arena.get_lt hL)) L hL
  have hne : NE s := by
    intro y hy hr
    obtain ⟨N, hN⟩ := lnk_isSome.mp hy
    rw [chs_of hN]
    exact ck.nonempty y N hN hr
  -- a child that is an internal node
  have hkid : ∀ p i y, Edge s p i (.internal y) → ∃ P Y, s.inn.get p = some P ∧ s.inn.get y = some Y ∧ Y.parent = some p ∧ Y.slot = i ∧ y ≠ s.root ∧
      ∀ d, Depth s p d → Depth s y (d + 1) := by
    intro p i y he
    obtain ⟨P, hP⟩ := live_of_kid he
    obtain ⟨c, hc, hca⟩ := edge_chs.mp he
    rw [chs_of hP] at hc
    obtain ⟨-, Y, d, hY, hYp, hYs, -⟩ := ck.child p P hP i c y hc hca
    have hyr : y ≠ s.root := by
      rintro rfl
      rw [hroot Y hY] at hYp
      cases hYp
    exact ⟨P, Y, hP, hY, hYp, hYs, hyr, fun d hd => .step hyr hY hYp hd⟩
  -- the depth of the parents of leaves
  obtain ⟨n, hn8, hn, hn0⟩ : ∃ n, n ≤ 8 ∧ (∀ l L, s.lf.get l = some L → Depth s L.parent n) ∧ ((∀ l, s.lf.get l = none) → n = 0) := by
    obtain ⟨n, hn⟩ := ck.depth
    by_cases hl : ∃ l L, s.lf.get l = some L
    · obtain ⟨l, L, hL⟩ := hl
      obtain ⟨d, d1, d2⟩ := hlf8 l L hL
      have := Depth.det d1 (hn l L hL)
      exact ⟨n, by omega, hn, fun h => by rw [h l] at hL; cases hL⟩
    · exact ⟨0, by omega, fun l L hL => absurd ⟨l, L, hL⟩ hl, fun _ => rfl⟩
  -- no node is deeper than these
  have hbelow : ∀ k x N d, s.inn.get x = some N → N.children ≠ [] → Depth s x d → 10 ≤ d + k → d ≤ n ∧ ∃ l, s.lf.get l ≠ none := by
    intro k
    induction k with
    | zero =>
      intro x N d hN _ hd hk
      obtain ⟨d', d1, d2⟩ := hdep x N hN
      have := Depth.det hd d1
      omega
    | succ k ih =>
      intro x N d hN hNe hd hk
      obtain ⟨c, cs, hcs⟩ := List.exists_cons_of_ne_nil hNe
      have he : Edge s x 0 c.arena := edge_chs.mpr ⟨c, by rw [chs_of hN, hcs]; rfl, rfl⟩
      cases hca : c.arena with
      | leaf l =>
        rw [hca] at he
        obtain ⟨L, hL, hLp⟩ := hlist x 0 l he
        have := Depth.det hd (hLp ▸ hn l L hL)
        exact ⟨by omega, l, by rw [hL]; simp⟩
      | internal y =>
        rw [hca] at he
        obtain ⟨P, Y, -, hY, -, -, hyr, hy⟩ := hkid x 0 y he
        obtain ⟨q1, q2⟩ := ih y Y (d + 1) hY (ck.nonempty y Y hY hyr) (hy d hd) (by omega)
        exact ⟨by omega, q2⟩
  have hle : ∀ x N d, s.inn.get x = some N → Depth s x d → d ≤ n := by
    intro x N d hN hd
    by_cases hx : x = s.root
    · subst hx
      have := Depth.det hd .root
      omega
    · exact (hbelow 10 x N d hN (ck.nonempty x N hN hx) hd (by omega)).1
  let dep : Nat → Nat := fun x => if h : ∃ d, Depth s x d then Classical.choose h else 0
  have hdepth : ∀ {x d}, Depth s x d → dep x = d := by
    intro x d hd
    have hex : ∃ d, Depth s x d := ⟨d, hd⟩
    have : dep x = Classical.choose hex := dif_pos hex
    rw [this]
    exact Depth.det (Classical.choose_spec hex) hd
  have hlen : n + 1 ≤ s.inn.items.length := by
    by_cases hl : ∃ l L, s.lf.get l = some L
    · obtain ⟨l, L, hL⟩ := hl
      exact (hn l L hL).le_items ⟨R, hR⟩
    · have := hn0 fun l => by
        cases hc : s.lf.get l with
        | none => rfl
        | some L => exact absurd ⟨l, L, hc⟩ hl
      have := Arena.get_lt hR
      omega
  have w : WF s (fun x => n + 1 - dep x) (n + 1) := by
    refine ⟨⟨R, hR, hroot R hR⟩, ?_, by omega, hlen, ?_, ?_, huniq, ?_, ?_, ?_⟩
    · simp only [hdepth Depth.root]; omega
    · intro p i y he
      obtain ⟨P, Y, hP, hY, h1, h2, -, h3⟩ := hkid p i y he
      obtain ⟨d, hd, -⟩ := hdep p P hP
      refine ⟨?_, Y, hY, h1, h2⟩
      have := hle y Y (d + 1) hY (h3 d hd)
      simp only [hdepth hd, hdepth (h3 d hd)]
      omega
    · intro p i l he
      obtain ⟨L, hL, hLp⟩ := hlist p i l he
      refine ⟨?_, L, hL, hLp⟩
      simp only [hdepth (hLp ▸ hn l L hL)]
      omega
    · intro p N hN
      obtain ⟨d, hd, -⟩ := hdep p N hN
      have := hle p N d hN hd
      simp only [hdepth hd]
      omega
    · intro y M hM hy
      cases hp : M.parent with
      | none => exact absurd (ck.top y M hM hp) hy
      | some p =>
        obtain ⟨P, c, h1, h2, h3⟩ := ck.parent y M p hM hp
        exact ⟨p, M.slot, edge_chs.mpr ⟨c, by rw [chs_of h1]; exact h2, h3⟩⟩
    · intro l L hL
      obtain ⟨P, i, c, h1, h2, h3, -⟩ := ck.leaf l L hL
      exact ⟨L.parent, i, edge_chs.mpr ⟨c, by rw [chs_of h1]; exact h2, h3⟩⟩
  -- the caches
  have hleafc : ∀ p c l, c ∈ chs s p → c.arena = .leaf l → ∃ L, s.lf.get l = some L ∧ c.cache = B.elemCache L.elem := by
    intro p c l hc hca
    obtain ⟨i, hi⟩ := List.mem_iff_getElem?.mp hc
    have he : Edge s p i (.leaf l) := edge_chs.mpr ⟨c, hi, hca⟩
    obtain ⟨L, hL, hLp⟩ := hlist p i l he
    obtain ⟨P, j, c', h1, h2, h3, h4⟩ := ck.leaf l L hL
    rw [hLp] at h1
    rw [← chs_of h1] at h2
    have hij := huniq p i j l he (edge_chs.mpr ⟨c', h2, h3⟩)
    subst hij
    rw [hi] at h2
    cases h2
    exact ⟨L, hL, h4⟩
  have hok : ∀ k p, n + 1 - dep p ≤ k → ∀ c ∈ chs s p, A.okC c.cache ∧ EntryOK A s c := by
    intro k
    induction k with
    | zero =>
      intro p hk c hc
      obtain ⟨i, hi⟩ := List.mem_iff_getElem?.mp hc
      obtain ⟨N, hN⟩ := live_of_kid (edge_chs.mpr ⟨c, hi, rfl⟩)
      have := (w.lvl_pos p N hN).1
      omega
    | succ k ih =>
      intro p hk c hc
      obtain ⟨i, hi⟩ := List.mem_iff_getElem?.mp hc
      have he : Edge s p i c.arena := edge_chs.mpr ⟨c, hi, rfl⟩
      cases hca : c.arena with
      | leaf l =>
        obtain ⟨L, hL, hLc⟩ := hleafc p c l hc hca
        have hel : elm s l = some L.elem := by simp [elm, hL]
        refine ⟨by rw [hLc]; exact A.elem_ok _ (hokE l _ hel), ?_⟩
        simp only [EntryOK, hca]
        intro e he
        rw [hel] at he
        cases he
        exact hLc
      | internal y =>
        rw [hca] at he
        have hl := (w.kid_in p i y he).1
        obtain ⟨P, Y, hP, hY, -, -, hyr, -⟩ := hkid p i y he
        have hi' := hi
        rw [chs_of hP] at hi'
        obtain ⟨-, Y', d, hY', -, -, hcalc⟩ := ck.child p P hP i c y hi' hca
        rw [hY] at hY'
        cases hY'
        have hYe := ck.nonempty y Y hY hyr
        have hsub : ∀ c ∈ Y.children.map Child.cache, A.okC c := by
          intro x hx
          obtain ⟨c', hc', rfl⟩ := List.mem_map.mp hx
          exact (ih y (by omega) c' (by rw [chs_of hY]; exact hc')).1
        obtain ⟨d', h1, -⟩ := A.calc_ok B.dflt (Y.children.map Child.cache) (by simpa using hYe) hsub
        rw [hcalc] at h1
        have h2 : c.cache = A.total (Y.children.map Child.cache) := by injection h1 with h1; injection h1
        refine ⟨by rw [h2]; exact A.total_ok _ (by simpa using hYe) hsub, ?_⟩
        simp only [EntryOK, hca, cch, chs_of hY]
        exact h2
  refine ⟨_, n + 1, ⟨w, fun p c hc _ => (hok _ p (Nat.le_refl _) c hc).2, fun p c hc => (hok _ p (Nat.le_refl _) c hc).1, ?_, hokE⟩, hne, by omega⟩
  rw [RootOK, cch, chs_of hR]
  constructor
  · intro hne
    obtain ⟨d', h1, -⟩ := A.calc_ok B.dflt (R.children.map Child.cache) (by simpa using hne) (by
      intro x hx
      obtain ⟨c', hc', rfl⟩ := List.mem_map.mp hx
      exact (hok _ s.root (Nat.le_refl _) c' (by rw [chs_of hR]; exact hc')).1)
    rw [hRc] at h1
    injection h1 with h1
    injection h1
  · intro he
    rw [he] at hRc
    obtain ⟨c, d, h1, h2⟩ := A.calc_empty B.dflt
    rw [List.map_nil, h1] at hRc
    cases hRc
    exact h2

end

end GB
