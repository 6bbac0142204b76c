import Verif.Proof.LeafIns
import Verif.Proof.Entries
import Verif.Model.Ops

/-!
# `from_iter`: the forest invariant

While the tree is being built the child lists of the topmost nodes are not yet in the arena.  `G` is the child list of every
node, wherever it is kept; `T` lists the topmost nodes.
-/

namespace GB
variable {E C D : Type}
open Tree

/-- a function changed at one place -/
def updAt {α : Type} (f : Nat → α) (x : Nat) (v : α) : Nat → α := fun y => if y = x then v else f y

@[simp] theorem updAt_self {α : Type} (f : Nat → α) (x : Nat) (v : α) : updAt f x v x = v := by simp [updAt]

theorem updAt_ne {α : Type} (f : Nat → α) {x y : Nat} (v : α) (h : y ≠ x) : updAt f x v y = f y := by simp [updAt, h]

/-- the state of `from_iter`: levels up to `K` -/
structure FI {B : Trait E C D} (A : Law B) (K : Nat) (s : Tree E C) (G : Nat → List (Child C)) (lvl : Nat → Nat) (T : List Nat) : Prop where
  top : ∀ t ∈ T, lnk s t = some (none, SLOT_MAX) ∧ t ≠ s.root
  low : ∀ x, x ∉ T → G x = chs s x
  rt : s.inn.get s.root = some ⟨none, SLOT_MAX, []⟩
  kin : ∀ (p i : Nat) (c : Child C) (y : Nat), (G p)[i]? = some c → c.arena = .internal y →
    lvl p = lvl y + 1 ∧ lnk s y = some (some p, i) ∧ c.cache = A.total ((G y).map Child.cache) ∧ G y ≠ []
  klf : ∀ (p i : Nat) (c : Child C) (l : Nat), (G p)[i]? = some c → c.arena = .leaf l → lvl p = 1 ∧ ∃ e, s.lf.get l = some ⟨e, p⟩ ∧ c.cache = B.elemCache e
  uniq : ∀ (p i j : Nat) (c d : Child C) (l : Nat), (G p)[i]? = some c → (G p)[j]? = some d → c.arena = .leaf l → d.arena = .leaf l → i = j
  pin : ∀ y, lnk s y ≠ none → y ≠ s.root → y ∉ T → ∃ (p i : Nat) (c : Child C), (G p)[i]? = some c ∧ c.arena = .internal y
  plf : ∀ l, lpar s l ≠ none → ∃ (p i : Nat) (c : Child C), (G p)[i]? = some c ∧ c.arena = .leaf l
  pos : ∀ y, lnk s y ≠ none → y ≠ s.root → 1 ≤ lvl y ∧ lvl y ≤ K
  len : ∀ y, (G y).length ≤ MAXCS
  okc : ∀ p c, c ∈ G p → A.okC c.cache
  okE : ∀ l e, elm s l = some e → A.okE e

/-- the leaves below a node -/
def leavesG (G : Nat → List (Child C)) : Nat → Nat → List Nat
  | 0, _ => []
  | n + 1, x => (G x).flatMap fun c => match c.arena with
    | .leaf l => [l]
    | .internal y => leavesG G n y

theorem leavesG_chs (s : Tree E C) : ∀ n x, leavesG (chs s) n x = leavesAt s n x := by
  intro n
  induction n with
  | zero => intro x; rfl
  | succ n ih =>
    intro x
    rw [leavesG, leavesAt, kids_chs, List.flatMap_map]
    congr 1
    funext c
    cases c.arena with
    | leaf l => rfl
    | internal y => exact ih y

section
variable {B : Trait E C D} {A : Law B} {K : Nat} {s : Tree E C} {G : Nat → List (Child C)} {lvl : Nat → Nat} {T : List Nat}

theorem FI.live (f : FI A K s G lvl T) {p : Nat} (h : G p ≠ []) : lnk s p ≠ none := by
  by_cases hp : p ∈ T
  · rw [(f.top p hp).1]; simp
  · intro hn
    rw [f.low p hp, chs_none hn] at h
    exact h rfl

theorem FI.tops (f : FI A K s G lvl T) {T' : List Nat} (h : ∀ x, x ∈ T' ↔ x ∈ T) : FI A K s G lvl T' where
  top := fun t ht => f.top t ((h t).mp ht)
  low := fun x hx => f.low x (fun h' => hx ((h x).mpr h'))
  rt := f.rt
  kin := f.kin
  klf := f.klf
  uniq := f.uniq
  pin := fun y h1 h2 h3 => f.pin y h1 h2 (fun h' => h3 ((h y).mpr h'))
  plf := f.plf
  pos := f.pos
  len := f.len
  okc := f.okc
  okE := f.okE

theorem FI.lnk_lt (f : FI A K s G lvl T) : s.root < s.inn.items.length := Arena.get_lt f.rt

theorem FI.fresh (f : FI A K s G lvl T) {i : Nat} (hi : s.inn.items.length ≤ i) : lnk s i = none ∧ G i = [] ∧ i ∉ T ∧ i ≠ s.root := by
  have hn : lnk s i = none := lnk_none.mpr (Arena.get_ge _ hi)
  have hT : i ∉ T := by
    intro h
    rw [(f.top i h).1] at hn
    cases hn
  exact ⟨hn, by rw [f.low i hT, chs_none hn], hT, by have := f.lnk_lt; omega⟩

/-- a new topmost node -/
theorem FI.newTemp (f : FI A K s G lvl T) {K' j : Nat} (hj : 1 ≤ j) (hK : K ≤ K') (hjK : j ≤ K') :
    FI A K' (allocIn s ⟨none, SLOT_MAX, []⟩) G (updAt lvl s.inn.items.length j) (s.inn.items.length :: T) := by
  obtain ⟨fr1, fr2, fr3, fr4⟩ := f.fresh (Nat.le_refl _)
  have hlv : ∀ y, lnk s y ≠ none → updAt lvl s.inn.items.length j y = lvl y := by
    intro y hy
    apply updAt_ne
    rintro rfl
    exact hy fr1
  have hne : ∀ (p i : Nat) (c : Child C), (G p)[i]? = some c → lnk s p ≠ none := by
    intro p i c h
    apply f.live
    intro hn
    rw [hn] at h
    cases h
  have hlk : ∀ y, lnk s y ≠ none → lnk (allocIn s ⟨none, SLOT_MAX, []⟩) y = lnk s y := by
    intro y hy
    rw [lnk_alloc, if_neg]
    rintro rfl
    exact hy fr1
  refine { top := ?_, low := ?_, rt := ?_, kin := ?_, klf := ?_, uniq := f.uniq, pin := ?_, plf := f.plf, pos := ?_, len := f.len, okc := f.okc, okE := f.okE }
  · intro t ht
    rcases List.mem_cons.mp ht with rfl | ht
    · exact ⟨by rw [lnk_alloc, if_pos rfl], fr4⟩
    · obtain ⟨h1, h2⟩ := f.top t ht
      exact ⟨by rw [hlk t (by rw [h1]; simp), h1], h2⟩
  · intro x hx
    rw [List.mem_cons, not_or] at hx
    rw [chs_alloc, if_neg hx.1, f.low x hx.2]
  · show (s.inn.insert _).2.get s.root = _
    rw [Arena.get_insert, if_neg (fun e => fr4 e.symm)]
    exact f.rt
  · intro p i c y h1 h2
    obtain ⟨k1, k2, k3, k4⟩ := f.kin p i c y h1 h2
    have hy : lnk s y ≠ none := by rw [k2]; simp
    exact ⟨by rw [hlv p (hne p i c h1), hlv y hy, k1], by rw [hlk y hy, k2], k3, k4⟩
  · intro p i c l h1 h2
    obtain ⟨k1, k2⟩ := f.klf p i c l h1 h2
    exact ⟨by rw [hlv p (hne p i c h1), k1], k2⟩
  · intro y h1 h2 h3
    rw [List.mem_cons, not_or] at h3
    rw [lnk_alloc, if_neg h3.1] at h1
    exact f.pin y h1 h2 h3.2
  · intro y h1 h2
    by_cases hy : y = s.inn.items.length
    · subst hy
      rw [updAt_self]
      exact ⟨hj, hjK⟩
    · rw [lnk_alloc, if_neg hy] at h1
      rw [hlv y h1]
      have := f.pos y h1 h2
      omega

theorem getElem?_concat {α : Type} {l : List α} {a b : α} {i : Nat} (h : (l ++ [a])[i]? = some b) : l[i]? = some b ∨ (i = l.length ∧ b = a) := by
  rw [List.getElem?_append] at h
  split at h
  · exact .inl h
  · next hn =>
    right
    have : i - l.length = 0 := by
      cases hk : i - l.length with
      | zero => rfl
      | succ k => rw [hk] at h; cases h
    rw [this] at h
    cases h
    exact ⟨by omega, rfl⟩

/-- a new leaf below a topmost node -/
theorem FI.addLeaf (f : FI A K s G lvl T) {p : Nat} (hp : p ∈ T) (hl : lvl p = 1) (hlen : (G p).length < MAXCS) {e : E} (he : A.okE e) :
    FI A K (addLf s ⟨e, p⟩) (updAt G p (G p ++ [⟨.leaf s.lf.items.length, B.elemCache e⟩])) lvl T := by
  have hget : ∀ l, (s.lf.insert ⟨e, p⟩).2.get l = if l = s.lf.items.length then some ⟨e, p⟩ else s.lf.get l := fun l => Arena.get_insert _ _ _
  have hnew : s.lf.get s.lf.items.length = none := Arena.get_ge _ (Nat.le_refl _)
  have hsplit : ∀ (q i : Nat) (c : Child C), (updAt G p (G p ++ [⟨.leaf s.lf.items.length, B.elemCache e⟩]) q)[i]? = some c →
      (G q)[i]? = some c ∨ (q = p ∧ i = (G p).length ∧ c = ⟨.leaf s.lf.items.length, B.elemCache e⟩) := by
    intro q i c h
    by_cases hq : q = p
    · subst hq
      rw [updAt_self] at h
      rcases getElem?_concat h with h | h
      · exact .inl h
      · exact .inr ⟨rfl, h⟩
    · rw [updAt_ne _ _ hq] at h
      exact .inl h
  have hkeep : ∀ (q i : Nat) (c : Child C), (G q)[i]? = some c → (updAt G p (G p ++ [⟨.leaf s.lf.items.length, B.elemCache e⟩]) q)[i]? = some c := by
    intro q i c h
    by_cases hq : q = p
    · subst hq
      rw [updAt_self, List.getElem?_append_left (List.getElem?_eq_some_iff.mp h).1, h]
    · rw [updAt_ne _ _ hq, h]
  refine { top := f.top, low := ?_, rt := f.rt, kin := ?_, klf := ?_, uniq := ?_, pin := ?_, plf := ?_, pos := f.pos, len := ?_, okc := ?_, okE := ?_ }
  · intro x hx
    rw [updAt_ne _ _ (by rintro rfl; exact hx hp)]
    exact f.low x hx
  · intro q i c y h1 h2
    rcases hsplit q i c h1 with h1 | ⟨-, -, rfl⟩
    · obtain ⟨k1, k2, k3, k4⟩ := f.kin q i c y h1 h2
      have hy : y ≠ p := by
        rintro rfl
        rw [(f.top y hp).1] at k2
        cases k2
      rw [updAt_ne _ _ hy]
      exact ⟨k1, k2, k3, k4⟩
    · cases h2
  · intro q i c l h1 h2
    rcases hsplit q i c h1 with h1 | ⟨rfl, -, rfl⟩
    · obtain ⟨k1, e', k2, k3⟩ := f.klf q i c l h1 h2
      refine ⟨k1, e', ?_, k3⟩
      show (s.lf.insert ⟨e, p⟩).2.get l = _
      rw [hget, if_neg]
      · exact k2
      · rintro rfl
        rw [hnew] at k2
        cases k2
    · cases h2
      exact ⟨hl, e, by show (s.lf.insert ⟨e, q⟩).2.get _ = _; rw [hget, if_pos rfl], rfl⟩
  · intro q i j c d l h1 h2 h3 h4
    have old : ∀ (q i : Nat) (c : Child C), (G q)[i]? = some c → c.arena ≠ .leaf s.lf.items.length := by
      intro q i c h1 h2
      obtain ⟨-, e', k2, -⟩ := f.klf q i c _ h1 h2
      rw [hnew] at k2
      cases k2
    rcases hsplit q i c h1 with h1 | ⟨rfl, hi, rfl⟩
    · rcases hsplit q j d h2 with h2 | ⟨-, -, rfl⟩
      · exact f.uniq q i j c d l h1 h2 h3 h4
      · cases h4
        exact absurd h3 (old q i c h1)
    · cases h3
      rcases hsplit q j d h2 with h2 | ⟨-, hj, -⟩
      · exact absurd h4 (old q j d h2)
      · omega
  · intro y h1 h2 h3
    obtain ⟨q, i, c, k1, k2⟩ := f.pin y h1 h2 h3
    exact ⟨q, i, c, hkeep q i c k1, k2⟩
  · intro l h1
    by_cases hl' : l = s.lf.items.length
    · subst hl'
      exact ⟨p, (G p).length, ⟨.leaf s.lf.items.length, B.elemCache e⟩, by rw [updAt_self]; simp, rfl⟩
    · have : lpar s l ≠ none := by
        rwa [lpar_addLf, if_neg hl'] at h1
      obtain ⟨q, i, c, k1, k2⟩ := f.plf l this
      exact ⟨q, i, c, hkeep q i c k1, k2⟩
  · intro y
    by_cases hy : y = p
    · subst hy
      rw [updAt_self]
      simp
      omega
    · rw [updAt_ne _ _ hy]; exact f.len y
  · intro q c hc
    obtain ⟨i, hi⟩ := List.mem_iff_getElem?.mp hc
    rcases hsplit q i c hi with h1 | ⟨-, -, rfl⟩
    · exact f.okc q c (List.mem_of_getElem? h1)
    · exact A.elem_ok e he
  · intro l x hx
    rw [elm_addLf] at hx
    split at hx
    · cases hx; exact he
    · exact f.okE l x hx

/-- a topmost node becomes a child of another one -/
theorem FI.link (f : FI A K s G lvl T) {p t : Nat} (hp : p ∈ T) (ht : t ∈ T) (hpt : p ≠ t) (hl : lvl p = lvl t + 1) (hlen : (G p).length < MAXCS) (hne : G t ≠ [])
    {T' : List Nat} (hT : ∀ x, x ∈ T' ↔ x ∈ T ∧ x ≠ t) :
    FI A K (s.setIn t ⟨some p, (G p).length, G t⟩) (updAt G p (G p ++ [⟨.internal t, A.total ((G t).map Child.cache)⟩])) lvl T' := by
  have hlt : lnk s t ≠ none := by rw [(f.top t ht).1]; simp
  have hlk := lnk_setIn s hlt ⟨some p, (G p).length, G t⟩
  have hch := chs_setIn s hlt ⟨some p, (G p).length, G t⟩
  have hlive : ∀ y, lnk (s.setIn t ⟨some p, (G p).length, G t⟩) y ≠ none → lnk s y ≠ none := by
    intro y hy
    by_cases h : y = t
    · subst h; exact hlt
    · rw [hlk, if_neg h] at hy; exact hy
  have hsplit : ∀ (q i : Nat) (c : Child C), (updAt G p (G p ++ [⟨.internal t, A.total ((G t).map Child.cache)⟩]) q)[i]? = some c →
      (G q)[i]? = some c ∨ (q = p ∧ i = (G p).length ∧ c = ⟨.internal t, A.total ((G t).map Child.cache)⟩) := by
    intro q i c h
    by_cases hq : q = p
    · subst hq
      rw [updAt_self] at h
      rcases getElem?_concat h with h | h
      · exact .inl h
      · exact .inr ⟨rfl, h⟩
    · rw [updAt_ne _ _ hq] at h
      exact .inl h
  have hkeep : ∀ (q i : Nat) (c : Child C), (G q)[i]? = some c → (updAt G p (G p ++ [⟨.internal t, A.total ((G t).map Child.cache)⟩]) q)[i]? = some c := by
    intro q i c h
    by_cases hq : q = p
    · subst hq
      rw [updAt_self, List.getElem?_append_left (List.getElem?_eq_some_iff.mp h).1, h]
    · rw [updAt_ne _ _ hq, h]
  have hrt : t ≠ s.root := (f.top t ht).2
  refine { top := ?_, low := ?_, rt := ?_, kin := ?_, klf := ?_, uniq := ?_, pin := ?_, plf := ?_, pos := ?_, len := ?_, okc := ?_, okE := f.okE }
  · intro x hx
    obtain ⟨h1, h2⟩ := (hT x).mp hx
    exact ⟨by rw [hlk, if_neg h2]; exact (f.top x h1).1, (f.top x h1).2⟩
  · intro x hx
    have hxp : x ≠ p := by
      rintro rfl
      exact hx ((hT x).mpr ⟨hp, hpt⟩)
    rw [updAt_ne _ _ hxp, hch]
    split
    · next h => subst h; rfl
    · next h => exact f.low x (fun h' => hx ((hT x).mpr ⟨h', h⟩))
  · show (s.inn.set t _).get s.root = _
    rw [Arena.get_set_ne _ hrt]
    exact f.rt
  · intro q i c y h1 h2
    rcases hsplit q i c h1 with h1 | ⟨rfl, hi, rfl⟩
    · obtain ⟨k1, k2, k3, k4⟩ := f.kin q i c y h1 h2
      have hy : y ∉ T := by
        intro h
        rw [(f.top y h).1] at k2
        cases k2
      rw [updAt_ne _ _ (by rintro rfl; exact hy hp), hlk, if_neg (by rintro rfl; exact hy ht)]
      exact ⟨k1, k2, k3, k4⟩
    · cases h2
      rw [updAt_ne _ _ (fun h => hpt h.symm), hlk, if_pos rfl]
      exact ⟨hl, by rw [hi], rfl, hne⟩
  · intro q i c l h1 h2
    rcases hsplit q i c h1 with h1 | ⟨rfl, -, rfl⟩
    · exact f.klf q i c l h1 h2
    · cases h2
  · intro q i j c d l h1 h2 h3 h4
    rcases hsplit q i c h1 with h1 | ⟨rfl, hi, rfl⟩
    · rcases hsplit q j d h2 with h2 | ⟨-, -, rfl⟩
      · exact f.uniq q i j c d l h1 h2 h3 h4
      · cases h4
    · cases h3
  · intro y h1 h2 h3
    by_cases hy : y = t
    · subst hy
      exact ⟨p, (G p).length, ⟨.internal y, A.total ((G y).map Child.cache)⟩, by rw [updAt_self]; simp, rfl⟩
    · obtain ⟨q, i, c, k1, k2⟩ := f.pin y (hlive y h1) h2 (fun h => h3 ((hT y).mpr ⟨h, hy⟩))
      exact ⟨q, i, c, hkeep q i c k1, k2⟩
  · intro l h1
    obtain ⟨q, i, c, k1, k2⟩ := f.plf l h1
    exact ⟨q, i, c, hkeep q i c k1, k2⟩
  · intro y h1 h2
    exact f.pos y (hlive y h1) h2
  · intro y
    by_cases hy : y = p
    · subst hy
      rw [updAt_self]
      simp
      omega
    · rw [updAt_ne _ _ hy]; exact f.len y
  · intro q c hc
    obtain ⟨i, hi⟩ := List.mem_iff_getElem?.mp hc
    rcases hsplit q i c hi with h1 | ⟨-, -, rfl⟩
    · exact f.okc q c (List.mem_of_getElem? h1)
    · apply A.total_ok
      · simpa using hne
      · intro x hx
        obtain ⟨c, hc, rfl⟩ := List.mem_map.mp hx
        exact f.okc t c hc

/-- a change of the child list of `p` does not matter for the other nodes on its level and below -/
theorem FI.leaves_frame (f : FI A K s G lvl T) {p : Nat} (cs : List (Child C)) : ∀ n x, x ≠ p → lvl x ≤ lvl p → leavesG (updAt G p cs) n x = leavesG G n x := by
  intro n
  induction n with
  | zero => intro x _ _; rfl
  | succ n ih =>
    intro x hx hl
    rw [leavesG, leavesG, updAt_ne _ _ hx]
    apply flatMap_congr'
    intro c hc
    cases ha : c.arena with
    | leaf l => rfl
    | internal y =>
      obtain ⟨i, hi⟩ := List.mem_iff_getElem?.mp hc
      obtain ⟨k1, -⟩ := f.kin x i c y hi ha
      apply ih
      · rintro rfl; omega
      · omega

theorem leavesG_self (f : FI A K s G lvl T) {p : Nat} (c : Child C) (n : Nat) (hp : lvl p = n + 1) : leavesG (updAt G p (G p ++ [c])) (n + 1) p =
    leavesG G (n + 1) p ++ (match c.arena with | .leaf l => [l] | .internal y => leavesG (updAt G p (G p ++ [c])) n y) := by
  rw [leavesG, leavesG, updAt_self, List.flatMap_append]
  congr 1
  · apply flatMap_congr'
    intro d hd
    cases ha : d.arena with
    | leaf l => rfl
    | internal y =>
      obtain ⟨i, hi⟩ := List.mem_iff_getElem?.mp hd
      obtain ⟨k1, -⟩ := f.kin p i d y hi ha
      apply f.leaves_frame
      · rintro rfl; omega
      · omega
  · simp

end
end GB
