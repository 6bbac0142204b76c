import Verif.Spec.Writes
import Verif.Proof.CheckSound
import Verif.Proof.Inverted

/-!
# The nodes written by an insertion

`Ranked` is the part of the invariant that bounds the loops: parents are one level up, children one level down, no node has more
than twelve children.
-/

namespace GB
variable {E C D : Type}
open Tree

namespace Writes
variable {s s1 s2 s' : Tree E C} {m n : Nat}

theorem refl (s : Tree E C) : Writes s s 0 := ⟨[], [], Nat.le_refl _, fun _ _ => rfl, fun _ _ => rfl⟩

theorem mono (w : Writes s s' m) (h : m ≤ n) : Writes s s' n := by
  obtain ⟨X, L, h1, h2, h3⟩ := w
  exact ⟨X, L, by omega, h2, h3⟩

theorem trans (w : Writes s s1 m) (w' : Writes s1 s2 n) : Writes s s2 (m + n) := by
  obtain ⟨X, L, h1, h2, h3⟩ := w
  obtain ⟨X', L', h1', h2', h3'⟩ := w'
  refine ⟨X ++ X', L ++ L', by simp only [List.length_append]; omega, ?_, ?_⟩
  · intro x hx
    simp only [List.mem_append, not_or] at hx
    rw [h2' x hx.2, h2 x hx.1]
  · intro x hx
    simp only [List.mem_append, not_or] at hx
    rw [h3' x hx.2, h3 x hx.1]

/-- first `m`, then `n`, within `k` -/
theorem seq {k : Nat} (w : Writes s s1 m) (w' : Writes s1 s2 n) (h : m + n ≤ k) : Writes s s2 k := (w.trans w').mono h

theorem rootCache (s : Tree E C) (rc : C) : Writes s { s with rootCache := rc } 0 := ⟨[], [], Nat.le_refl _, fun _ _ => rfl, fun _ _ => rfl⟩

theorem setIn (s : Tree E C) (x : Nat) (N : Node C) : Writes s (s.setIn x N) 1 := by
  refine ⟨[x], [], Nat.le_refl _, ?_, fun _ _ => rfl⟩
  intro y hy
  exact Arena.get_set_ne _ (fun h => hy (by simp [h])) _

theorem setLf (s : Tree E C) (l : Nat) (L : LeafNode E) : Writes s (s.setLf l L) 1 := by
  refine ⟨[], [l], Nat.le_refl _, fun _ _ => rfl, ?_⟩
  intro y hy
  exact Arena.get_set_ne _ (fun h => hy (by simp [h])) _

theorem insertIn (s : Tree E C) (N : Node C) : Writes s { s with inn := (s.inn.insert N).2 } 1 := by
  refine ⟨[s.inn.items.length], [], Nat.le_refl _, ?_, fun _ _ => rfl⟩
  intro y hy
  show (s.inn.insert N).2.get y = _
  rw [Arena.get_insert, if_neg (fun h => hy (by simp [h]))]

theorem insertLf (s : Tree E C) (L : LeafNode E) : Writes s { s with lf := (s.lf.insert L).2 } 1 := by
  refine ⟨[], [s.lf.items.length], Nat.le_refl _, fun _ _ => rfl, ?_⟩
  intro y hy
  show (s.lf.insert L).2.get y = _
  rw [Arena.get_insert, if_neg (fun h => hy (by simp [h]))]

theorem removeIn (s : Tree E C) (x : Nat) : Writes s { s with inn := s.inn.remove x } 1 := by
  refine ⟨[x], [], Nat.le_refl _, ?_, fun _ _ => rfl⟩
  intro y hy
  show (s.inn.remove x).get y = _
  rw [Arena.get_remove, if_neg (fun h => hy (by simp [h]))]

theorem removeLf (s : Tree E C) (l : Nat) : Writes s { s with lf := s.lf.remove l } 1 := by
  refine ⟨[], [l], Nat.le_refl _, fun _ _ => rfl, ?_⟩
  intro y hy
  show (s.lf.remove l).get y = _
  rw [Arena.get_remove, if_neg (fun h => hy (by simp [h]))]

end Writes

/-- a node `N` at `x` agrees with the levels -/
structure Ranks (k : Nat) (lvl : Nat → Nat) (h x : Nat) (N : Node C) : Prop where
  par : ∀ p, N.parent = some p → lvl p = lvl x + 1 ∧ p < k
  kid : ∀ c ∈ N.children, ∀ y, c.arena = .internal y → lvl x = lvl y + 1 ∧ y < k
  top : lvl x ≤ h
  cap : N.children.length ≤ 12

/-- all nodes agree with the levels -/
def Ranked (lvl : Nat → Nat) (h : Nat) (s : Tree E C) : Prop :=
  ∀ x N, s.inn.get x = some N → Ranks s.inn.items.length lvl h x N

section
variable {s s' s1 : Tree E C} {lvl : Nat → Nat} {h : Nat} {B : Trait E C D}

theorem Ranked.inn (r : Ranked lvl h s) (e : s'.inn = s.inn) : Ranked lvl h s' := by
  unfold Ranked
  rw [e]
  exact r

theorem Ranked.setIn (r : Ranked lvl h s) {x : Nat} {N : Node C} (hN : Ranks s.inn.items.length lvl h x N) : Ranked lvl h (s.setIn x N) := by
  intro y M hy
  rw [setIn_inn, Arena.get_set] at hy
  rw [setIn_inn, Arena.items_set]
  split at hy
  · rename_i e
    cases hy
    rw [← e.1]
    exact hN
  · exact r y M hy

theorem Ranked.setLf (r : Ranked lvl h s) (l : Nat) (L : LeafNode E) : Ranked lvl h (s.setLf l L) := r.inn rfl

theorem Ranked.removeIn (r : Ranked lvl h s) (x : Nat) : Ranked lvl h { s with inn := s.inn.remove x } := by
  intro y M hy
  have hy : (s.inn.remove x).get y = some M := hy
  rw [Arena.get_remove] at hy
  show Ranks (s.inn.remove x).items.length lvl h y M
  rw [Arena.items_remove]
  split at hy
  · cases hy
  · exact r y M hy

theorem Ranked.insertIn (r : Ranked lvl h s) {N : Node C} {k : Nat} (hk : k ≤ h) (hp : ∀ p, N.parent = some p → lvl p = k + 1 ∧ p < s.inn.items.length)
    (hc : ∀ c ∈ N.children, ∀ y, c.arena = .internal y → k = lvl y + 1 ∧ y < s.inn.items.length) (hl : N.children.length ≤ 12) :
    Ranked (fun j => if j = s.inn.items.length then k else lvl j) h { s with inn := (s.inn.insert N).2 } := by
  intro y M hy
  have hy : (s.inn.insert N).2.get y = some M := hy
  rw [Arena.get_insert] at hy
  show Ranks (s.inn.insert N).2.items.length _ h y M
  rw [Arena.items_insert]
  split at hy
  · rename_i e
    cases hy
    refine ⟨?_, ?_, by simp only [if_pos e]; exact hk, hl⟩
    · intro p e1
      obtain ⟨h1, h2⟩ := hp p e1
      simp only [if_pos e, if_neg (show ¬ p = s.inn.items.length by omega)]
      exact ⟨h1, by omega⟩
    · intro c h1 z e1
      obtain ⟨h1, h2⟩ := hc c h1 z e1
      simp only [if_pos e, if_neg (show ¬ z = s.inn.items.length by omega)]
      exact ⟨h1, by omega⟩
  · rename_i ne
    obtain ⟨f1, f2, f3, f4⟩ := r y M hy
    refine ⟨?_, ?_, by simp only [if_neg ne]; exact f3, f4⟩
    · intro p e1
      obtain ⟨h1, h2⟩ := f1 p e1
      simp only [if_neg ne, if_neg (show ¬ p = s.inn.items.length by omega)]
      exact ⟨h1, by omega⟩
    · intro c h1 z e1
      obtain ⟨h1, h2⟩ := f2 c h1 z e1
      simp only [if_neg ne, if_neg (show ¬ z = s.inn.items.length by omega)]
      exact ⟨h1, by omega⟩

theorem Good.ranked {A : Law B} (g : Good A s lvl h) {m : Fill} {X : Nat → Prop} (sz : SzX m s h X) (hX : ∀ x, X x → (chs s x).length ≤ 12) : Ranked lvl h s := by
  intro x N hN
  have hx : lnk s x ≠ none := by rw [lnk_of hN]; simp
  refine ⟨?_, ?_, (g.wf.lvl_pos x N hN).2, ?_⟩
  · intro p hp
    by_cases hr : x = s.root
    · subst hr
      obtain ⟨N', h1, h2⟩ := g.wf.root
      rw [hN] at h1
      cases h1
      rw [h2] at hp
      cases hp
    · obtain ⟨p', h1, h2, h3⟩ := g.wf.parent_in hN hr
      rw [hp] at h1
      cases h1
      obtain ⟨P, hP⟩ := lnk_isSome.mp (edge_live h2)
      exact ⟨h3, Arena.get_lt hP⟩
  · intro c hc y hy
    obtain ⟨i, hi⟩ := List.mem_iff_getElem?.mp hc
    have he : Edge s x i (.internal y) := edge_chs.mpr ⟨c, by rw [chs_of hN]; exact hi, hy⟩
    obtain ⟨h1, M, hM, -⟩ := g.wf.kid_in x i y he
    exact ⟨h1, Arena.get_lt hM⟩
  · by_cases hx' : X x
    · have := hX x hx'
      rwa [chs_of hN] at this
    · have := (sz x hx hx').1
      rw [chs_of hN] at this
      omega

theorem Ranks.children {k x : Nat} {N : Node C} (f : Ranks k lvl h x N) {cs : List (Child C)} (hc : ∀ c ∈ cs, ∃ d ∈ N.children, c.arena = d.arena) (hl : cs.length ≤ 12) :
    Ranks k lvl h x { N with children := cs } := by
  refine ⟨f.par, ?_, f.top, hl⟩
  intro c h1 y h2
  obtain ⟨d, h3, h4⟩ := hc c h1
  exact f.kid d h3 y (h4 ▸ h2)

theorem mem_set_arena {cs : List (Child C)} {i : Nat} {ch : Child C} (hi : cs[i]? = some ch) {c' : C} : ∀ c ∈ cs.set i { ch with cache := c' }, ∃ d ∈ cs, c.arena = d.arena := by
  intro c hc
  rcases List.mem_or_eq_of_mem_set hc with h1 | rfl
  · exact ⟨c, h1, rfl⟩
  · exact ⟨ch, List.mem_of_getElem? hi, rfl⟩

theorem Ranks.set {k x i : Nat} {N : Node C} {ch : Child C} (f : Ranks k lvl h x N) (hi : N.children[i]? = some ch) (c' : C) :
    Ranks k lvl h x { N with children := N.children.set i { ch with cache := c' } } :=
  f.children (mem_set_arena hi) (by rw [List.length_set]; exact f.cap)

/-! ## Caches -/

theorem recUpdDiff_writes : ∀ (n : Nat) (s : Tree E C) (x : Nat) (d : D) (s' : Tree E C), Ranked lvl h s → recUpdDiff B n s x d = .ok s' →
    Writes s s' (h - lvl x) ∧ Ranked lvl h s' := by
  intro n
  induction n with
  | zero => intro s x d s' _ e; cases e
  | succ n ih =>
    intro s x d s' r e
    obtain ⟨node, e1, e⟩ := bind_inv e
    have e1 := getIn_inv e1
    cases hp : node.parent with
    | none =>
      rw [hp] at e
      obtain ⟨rc, e2, e⟩ := bind_inv e
      cases e
      exact ⟨(Writes.rootCache s rc).mono (Nat.zero_le _), r.inn rfl⟩
    | some p =>
      rw [hp] at e
      obtain ⟨par, e2, e⟩ := bind_inv e
      obtain ⟨ch, e3, e⟩ := bind_inv e
      obtain ⟨c', e4, e⟩ := bind_inv e
      have e2 := getIn_inv e2
      have fp := r p par e2
      have hl := (r x node e1).par p hp
      obtain ⟨w, r'⟩ := ih _ _ _ _ (r.setIn (fp.set (vget_inv e3) c')) e
      exact ⟨(Writes.setIn _ _ _).seq w (by have := fp.top; omega), r'⟩

theorem recUpdCalc_writes : ∀ (n : Nat) (s : Tree E C) (x : Nat) (s' : Tree E C), Ranked lvl h s → recUpdCalc B n s x = .ok s' →
    Writes s s' (h - lvl x) ∧ Ranked lvl h s' := by
  intro n
  induction n with
  | zero => intro s x s' _ e; cases e
  | succ n ih =>
    intro s x s' r e
    obtain ⟨node, e1, e⟩ := bind_inv e
    have e1 := getIn_inv e1
    cases hp : node.parent with
    | none =>
      rw [hp] at e
      obtain ⟨root, e2, e⟩ := bind_inv e
      obtain ⟨rc, e3, e⟩ := bind_inv e
      cases e
      exact ⟨(Writes.rootCache s rc.1).mono (Nat.zero_le _), r.inn rfl⟩
    | some p =>
      rw [hp] at e
      obtain ⟨-, -, e⟩ := bind_inv e
      obtain ⟨par, e2, e⟩ := bind_inv e
      obtain ⟨ch, e3, e⟩ := bind_inv e
      obtain ⟨c', e4, e⟩ := bind_inv e
      have e2 := getIn_inv e2
      have fp := r p par e2
      have hl := (r x node e1).par p hp
      obtain ⟨w, r'⟩ := ih _ _ _ (r.setIn (fp.set (vget_inv e3) c'.1)) e
      exact ⟨(Writes.setIn _ _ _).seq w (by have := fp.top; omega), r'⟩

theorem recursiveUpdateCache_writes {idx : Idx} {b : Bool} {diff : Option D} (r : Ranked lvl h s) (e : recursiveUpdateCache B s idx b diff = .ok s') :
    Writes s s' (h + 1) ∧ Ranked lvl h s' := by
  unfold recursiveUpdateCache at e
  obtain ⟨⟨s1, x⟩, e1, e⟩ := bind_inv e
  have hs1 : Writes s s1 1 ∧ Ranked lvl h s1 := by
    cases idx with
    | internal y => cases e1; exact ⟨(Writes.refl s).mono (by omega), r⟩
    | leaf l =>
      obtain ⟨leaf, -, e1⟩ := bind_inv e1
      obtain ⟨node, n1, e1⟩ := bind_inv e1
      obtain ⟨i, -, e1⟩ := bind_inv e1
      obtain ⟨ch, n2, e1⟩ := bind_inv e1
      cases e1
      exact ⟨Writes.setIn _ _ _, r.setIn ((r _ _ (getIn_inv n1)).set (vget_inv n2) _)⟩
  obtain ⟨w1, r1⟩ := hs1
  simp only at e
  cases b with
  | false =>
    obtain ⟨w, r'⟩ := recUpdCalc_writes _ _ _ _ r1 e
    exact ⟨w1.seq w (by omega), r'⟩
  | true =>
    cases diff with
    | some d =>
      obtain ⟨w, r'⟩ := recUpdDiff_writes _ _ _ _ _ r1 e
      exact ⟨w1.seq w (by omega), r'⟩
    | none =>
      obtain ⟨node, n1, e⟩ := bind_inv e
      cases hp : node.parent with
      | none =>
        rw [hp] at e
        obtain ⟨root, e2, e⟩ := bind_inv e
        obtain ⟨rc, e3, e⟩ := bind_inv e
        cases e
        exact ⟨w1.seq (Writes.rootCache s1 rc.1) (by omega), r1.inn rfl⟩
      | some p =>
        rw [hp] at e
        obtain ⟨-, -, e⟩ := bind_inv e
        obtain ⟨par, e2, e⟩ := bind_inv e
        obtain ⟨ch, e3, e⟩ := bind_inv e
        obtain ⟨c', e4, e⟩ := bind_inv e
        have e2 := getIn_inv e2
        have fp := r1 p par e2
        have hl := (r1 x node (getIn_inv n1)).par p hp
        obtain ⟨w, r'⟩ := recUpdDiff_writes _ _ _ _ _ (r1.setIn (fp.set (vget_inv e3) c'.1)) e
        exact ⟨w1.seq ((Writes.setIn _ _ _).trans w) (by have := fp.top; omega), r'⟩

/-! ## Splitting -/

theorem setSlots_writes : ∀ (cs : List (Child C)) (s s' : Tree E C) (i : Nat), Ranked lvl h s → setSlots s cs i = .ok s' →
    Writes s s' cs.length ∧ Ranked lvl h s' := by
  intro cs
  induction cs with
  | nil => intro s s' i r e; cases e; exact ⟨Writes.refl s, r⟩
  | cons c cs ih =>
    intro s s' i r e
    obtain ⟨y, e1, e⟩ := bind_inv e
    obtain ⟨node, e2, e⟩ := bind_inv e
    have f := r y node (getIn_inv e2)
    obtain ⟨w, r'⟩ := ih _ _ _ (r.setIn (N := { node with slot := i }) ⟨f.par, f.kid, f.top, f.cap⟩) e
    exact ⟨(Writes.setIn _ _ _).seq w (by simp only [List.length_cons]; omega), r'⟩

theorem updSlotsFrom_writes {p i : Nat} (r : Ranked lvl h s) (e : updSlotsFrom s p i = .ok s') : Writes s s' 12 ∧ Ranked lvl h s' := by
  obtain ⟨par, e1, e⟩ := bind_inv e
  have f := r p par (getIn_inv e1)
  split at e
  · cases e; exact ⟨(Writes.refl s).mono (by omega), r⟩
  · obtain ⟨w, r'⟩ := setSlots_writes _ _ _ _ r e
    exact ⟨w.mono (by rw [List.length_drop]; have := f.cap; omega), r'⟩

theorem reparent_writes {q : Nat} : ∀ (cs : List (Child C)) (s s' : Tree E C) (i : Nat), reparent s cs q i = .ok s' → Writes s s' cs.length := by
  intro cs
  induction cs with
  | nil => intro s s' i e; cases e; exact Writes.refl s
  | cons c cs ih =>
    intro s s' i e
    rw [reparent] at e
    split at e
    · obtain ⟨node, e2, e⟩ := bind_inv e
      exact (Writes.setIn _ _ _).seq (ih _ _ _ e) (by simp only [List.length_cons]; omega)
    · obtain ⟨leaf, e2, e⟩ := bind_inv e
      exact (Writes.setLf _ _ _).seq (ih _ _ _ e) (by simp only [List.length_cons]; omega)

theorem reparent_ranked {q : Nat} : ∀ (cs : List (Child C)) (s s' : Tree E C) (i : Nat), Ranked lvl h s → q < s.inn.items.length →
    (∀ c ∈ cs, ∀ y, c.arena = .internal y → lvl q = lvl y + 1) → reparent s cs q i = .ok s' → Ranked lvl h s' ∧ s'.inn.items.length = s.inn.items.length := by
  intro cs
  induction cs with
  | nil => intro s s' i r _ _ e; cases e; exact ⟨r, rfl⟩
  | cons c cs ih =>
    intro s s' i r hq hc e
    rw [reparent] at e
    split at e
    · rename_i y hy
      obtain ⟨node, e2, e⟩ := bind_inv e
      have f := r y node (getIn_inv e2)
      obtain ⟨k1, k2⟩ := ih (s.setIn y { node with parent := some q, slot := i }) s' (i + 1) (r.setIn ⟨fun p hp => by cases hp; exact ⟨hc c (by simp) y hy, hq⟩, f.kid, f.top, f.cap⟩)
        (by rw [setIn_inn, Arena.items_set]; exact hq) (fun d hd => hc d (by simp [hd])) e
      exact ⟨k1, by rw [k2, setIn_inn, Arena.items_set]⟩
    · rename_i l hl
      obtain ⟨leaf, e2, e⟩ := bind_inv e
      exact ih (s.setLf l { leaf with parent := q }) s' (i + 1) (r.setLf _ _) hq (fun d hd => hc d (by simp [hd])) e

theorem splitNode_writes {x : Nat} {par : Option Nat} {slot : Nat} {c : C} {rc : Child C} (r : Ranked lvl h s)
    (e : splitNode B s x = .ok ((par, slot, c, rc), s')) :
    ∃ node, s.inn.get x = some node ∧ par = node.parent ∧ slot = node.slot ∧ rc.arena = .internal s.inn.items.length ∧ s.inn.items.length < s'.inn.items.length ∧
      Writes s s' 9 ∧ Ranked (fun j => if j = s.inn.items.length then lvl x else lvl j) h s' := by
  obtain ⟨node, e1, e⟩ := bind_inv e
  have e1 := getIn_inv e1
  have f := r x node e1
  have hcap := f.cap
  have r1 : Ranked lvl h (s.setIn x { node with children := node.children.take (node.children.length / 2) }) :=
    r.setIn (f.children (fun c hc => ⟨c, List.mem_of_mem_take hc, rfl⟩) (by rw [List.length_take]; omega))
  have r2 := r1.insertIn (N := ⟨node.parent, SLOT_MAX, []⟩) f.top (by rw [setIn_inn, Arena.items_set]; exact f.par) (by simp) (by simp)
  rw [setIn_inn, Arena.items_set] at r2
  simp only [Arena.insert_fst, setIn_inn, Arena.items_set] at e
  obtain ⟨left, e2, e⟩ := bind_inv e
  obtain ⟨tc, e3, e⟩ := bind_inv e
  obtain ⟨s2, e4, e⟩ := bind_inv e
  obtain ⟨right, e5, e⟩ := bind_inv e
  obtain ⟨rc', e6, e⟩ := bind_inv e
  cases e
  have hxl := Arena.get_lt e1
  obtain ⟨r3, hlen⟩ := reparent_ranked _ _ _ _ r2 (by
    show _ < ((s.inn.set x _).insert _).2.items.length
    rw [Arena.items_insert, Arena.items_set]; omega) (by
    intro c hc y hy
    obtain ⟨h1, h2⟩ := f.kid c (List.mem_of_mem_drop hc) y hy
    simp only [if_true, if_neg (show ¬ y = s.inn.items.length by omega)]
    exact h1) e4
  have hlen : s2.inn.items.length = s.inn.items.length + 1 := by
    rw [hlen]
    show ((s.inn.set x _).insert _).2.items.length = _
    rw [Arena.items_insert, Arena.items_set]
  have fr := r3 _ right (getIn_inv e5)
  refine ⟨node, e1, rfl, rfl, rfl, by rw [setIn_inn, Arena.items_set, hlen]; omega, ?_, ?_⟩
  · have w1 := (Writes.setIn s x { node with children := node.children.take (node.children.length / 2) }).trans (Writes.insertIn _ ⟨node.parent, SLOT_MAX, []⟩)
    have w2 := w1.trans (reparent_writes _ _ _ _ e4)
    refine w2.seq (Writes.setIn _ _ _) ?_
    rw [List.length_drop]
    omega
  · refine r3.setIn ⟨fr.par, ?_, fr.top, by rw [List.length_drop]; omega⟩
    intro c hc y hy
    obtain ⟨h1, h2⟩ := f.kid c (List.mem_of_mem_drop hc) y hy
    simp only [if_true, if_neg (show ¬ y = s.inn.items.length by omega)]
    exact ⟨h1, by omega⟩

theorem splitRoot_writes {c : C} {rc : Child C} (r : Ranked lvl h s) (e : splitRoot B s c rc = .ok s') : Writes s s' 16 := by
  obtain ⟨ri, e1, e⟩ := bind_inv e
  obtain ⟨rn, e2, e⟩ := bind_inv e
  obtain ⟨root, e3, e⟩ := bind_inv e
  obtain ⟨nr, e4, e⟩ := bind_inv e
  obtain ⟨rc', e5, e⟩ := bind_inv e
  obtain ⟨s2, e6, e⟩ := bind_inv e
  cases e
  have hcap : root.children.length ≤ 12 := by
    have h1 := getIn_inv e3
    rw [setIn_inn, Arena.get_set] at h1
    split at h1
    · cases h1
      exact (r _ _ (getIn_inv e2)).cap
    · exact (r _ _ h1).cap
  have w1 := (Writes.setIn s ri { rn with slot := 1, parent := some s.root }).trans (Writes.setIn _ s.root { parent := none, slot := 0, children := [] })
  have w2 := w1.trans (Writes.insertIn _ { parent := some s.root, slot := 0, children := root.children })
  exact ((w2.trans (Writes.setIn _ _ _)).trans (reparent_writes _ _ _ _ e6)).seq (Writes.rootCache _ _) (by simp only; omega)

theorem splitF_writes : ∀ (n : Nat) (s : Tree E C) (lvl : Nat → Nat) (x : Nat) (s' : Tree E C), Ranked lvl h s → splitF B n s x = .ok s' →
    Writes s s' (22 * (h - lvl x) + 25) := by
  intro n
  induction n with
  | zero => intro s lvl x s' _ e; cases e
  | succ n ih =>
    intro s lvl x s' r e
    obtain ⟨⟨⟨par, slot, tc, rc⟩, s1⟩, e1, e⟩ := bind_inv e
    obtain ⟨node, hx, rfl, rfl, hrc, hlt, w1, r1⟩ := splitNode_writes r e1
    have f := r x node hx
    cases hp : node.parent with
    | none =>
      simp only [hp] at e
      exact w1.seq (splitRoot_writes r1 e) (by omega)
    | some p =>
      simp only [hp] at e
      obtain ⟨pn, e2, e⟩ := bind_inv e
      obtain ⟨ch, e3, e⟩ := bind_inv e
      obtain ⟨cs, e4, e⟩ := bind_inv e
      obtain ⟨s2, e5, e⟩ := bind_inv e
      obtain ⟨hl, hpl⟩ := f.par p hp
      have fp := r1 p pn (getIn_inv e2)
      have hpne : ¬ p = s.inn.items.length := by omega
      have htop := fp.top
      simp only [if_neg hpne] at htop
      have hcs : cs.length ≤ 12 ∧ ∀ c ∈ cs, c = rc ∨ ∃ d ∈ pn.children, c.arena = d.arena := by
        unfold vinsert at e4
        split at e4
        · rename_i hb
          cases e4
          simp only [MAXC, List.length_set] at hb
          refine ⟨by simp only [List.length_append, List.length_take, List.length_cons, List.length_drop, List.length_set]; omega, ?_⟩
          intro c hc
          simp only [List.mem_append, List.mem_cons] at hc
          rcases hc with hc | rfl | hc
          · exact .inr (mem_set_arena (vget_inv e3) c (List.mem_of_mem_take hc))
          · exact .inl rfl
          · exact .inr (mem_set_arena (vget_inv e3) c (List.mem_of_mem_drop hc))
        · cases e4
      have fp' : Ranks s1.inn.items.length (fun j => if j = s.inn.items.length then lvl x else lvl j) h p { pn with children := cs } := by
        refine ⟨fp.par, ?_, fp.top, hcs.1⟩
        intro c hc y hy
        rcases hcs.2 c hc with rfl | ⟨d, d1, d2⟩
        · rw [hrc] at hy
          cases hy
          simp only [if_neg hpne, if_true]
          exact ⟨hl, hlt⟩
        · exact fp.kid d d1 y (d2 ▸ hy)
      obtain ⟨w2, r2⟩ := updSlotsFrom_writes (r1.setIn fp') e5
      have w3 := w1.trans ((Writes.setIn _ _ _).trans w2)
      split at e
      · have := ih _ _ _ _ r2 e
        simp only [if_neg hpne] at this
        exact w3.seq this (by omega)
      · cases e
        exact w3.mono (by omega)

theorem split_writes {x : Nat} (r : Ranked lvl h s) (e : split B s x = .ok s') : Writes s s' (22 * (h - lvl x) + 25) :=
  splitF_writes _ _ _ _ _ r e

end
end GB
