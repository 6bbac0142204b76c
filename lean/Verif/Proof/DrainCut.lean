import Verif.Proof.DrainRow

/-!
# The two loops of `Drain::drop` that cut dead children out of the path nodes
-/

namespace GB
variable {E C D : Type}
open Tree

/-! ## Root-first paths -/

/-- `sp` is the path from the root to the leaf `l`, root first -/
structure RPath (s : Tree E C) (l h : Nat) (sp : List PIdx) : Prop where
  len : sp.length = h + 1
  top : ∃ j, sp[0]? = some ⟨.internal s.root, j⟩
  step : ∀ d, d < h → ∃ p j a i, sp[d]? = some ⟨.internal p, j⟩ ∧ sp[d + 1]? = some ⟨a, i⟩ ∧ Edge s p i a
  bot : ∃ i, sp[h]? = some ⟨.leaf l, i⟩

section
variable {s : Tree E C} {lvl : Nat → Nat} {h l : Nat}

theorem PathTo.rev {path : List PIdx} (hp : PathTo s path) :
    (∃ j, path.reverse[0]? = some ⟨.internal s.root, j⟩) ∧
    ∀ d, d + 1 < path.length → ∃ p j a i, path.reverse[d]? = some ⟨.internal p, j⟩ ∧ path.reverse[d + 1]? = some ⟨a, i⟩ ∧ Edge s p i a := by
  induction hp with
  | root => exact ⟨⟨0, rfl⟩, by intro d hd; simp at hd⟩
  | @step a i p j rest he hp ih =>
    obtain ⟨⟨j0, h0⟩, h1⟩ := ih
    have hr : (⟨a, i⟩ :: ⟨.internal p, j⟩ :: rest : List PIdx).reverse = (⟨.internal p, j⟩ :: rest : List PIdx).reverse ++ [⟨a, i⟩] := by simp
    have hlen : ((⟨.internal p, j⟩ :: rest : List PIdx).reverse).length = rest.length + 1 := by simp
    rw [hr]
    refine ⟨⟨j0, by rw [List.getElem?_append_left (by rw [hlen]; omega)]; exact h0⟩, ?_⟩
    intro d hd
    simp only [List.length_cons] at hd
    by_cases hlt : d + 1 < rest.length + 1
    · obtain ⟨p', j', a', i', e1, e2, e3⟩ := h1 d (by simpa using hlt)
      refine ⟨p', j', a', i', ?_, ?_, e3⟩
      · rw [List.getElem?_append_left (by rw [hlen]; omega)]; exact e1
      · rw [List.getElem?_append_left (by rw [hlen]; omega)]; exact e2
    · have hd' : d = rest.length := by omega
      refine ⟨p, j, a, i, ?_, ?_, he⟩
      · rw [List.getElem?_append_left (by rw [hlen]; omega), List.reverse_cons, List.getElem?_append_right (by simp [hd'])]
        simp [hd']
      · rw [List.getElem?_append_right (by rw [hlen]; omega), hlen]
        simp [hd']

theorem RPath.of {i : Nat} {rest : List PIdx} (hp : PathTo s (⟨.leaf l, i⟩ :: rest)) (hl : rest.length = h) :
    RPath s l h (⟨.leaf l, i⟩ :: rest : List PIdx).reverse := by
  obtain ⟨h1, h2⟩ := hp.rev
  refine ⟨by simp [hl], h1, ?_, ⟨i, ?_⟩⟩
  · intro d hd
    exact h2 d (by simp [hl]; omega)
  · rw [List.reverse_cons, List.getElem?_append_right (by simp [hl])]
    simp [hl]

namespace RPath
variable {sp : List PIdx}

theorem get (r : RPath s l h sp) {d : Nat} (hd : d < h) : ∃ p j, sp[d]? = some ⟨.internal p, j⟩ := by
  obtain ⟨p, j, a, i, h1, -⟩ := r.step d hd
  exact ⟨p, j, h1⟩

theorem node (r : RPath s l h sp) (w : WF s lvl h) : ∀ {d p j : Nat}, d < h → sp[d]? = some ⟨.internal p, j⟩ →
    lnk s p ≠ none ∧ lvl p = h - d := by
  intro d
  induction d with
  | zero =>
    intro p j _ hp
    obtain ⟨j0, h0⟩ := r.top
    rw [h0] at hp
    cases hp
    obtain ⟨i, hi⟩ := w.root'
    exact ⟨by rw [hi]; simp, w.root_lvl⟩
  | succ d ih =>
    intro p j hd hp
    obtain ⟨q, j', a, i, h1, h2, h3⟩ := r.step d (by omega)
    rw [hp] at h2
    cases h2
    have hq := ih (by omega) h1
    have hk := w.kin h3
    exact ⟨by rw [hk.2]; simp, by omega⟩

/-- `l` is below every node of its path -/
theorem mem (r : RPath s l h sp) (w : WF s lvl h) : ∀ (n d : Nat) {q : PIdx}, h - d = n → d ≤ h → sp[d]? = some q → l ∈ lvs s lvl q.arena := by
  intro n
  induction n with
  | zero =>
    intro d q hn hd hq
    obtain ⟨i, hi⟩ := r.bot
    rw [show d = h by omega, hi] at hq
    cases hq
    simp [lvs]
  | succ n ih =>
    intro d q hn hd hq
    obtain ⟨p, j, a, i, h1, h2, h3⟩ := r.step d (by omega)
    rw [h1] at hq
    cases hq
    exact kid_lvs w h3 (ih (d + 1) (by omega) (by omega) h2)

theorem mem' (r : RPath s l h sp) (w : WF s lvl h) {d : Nat} {q : PIdx} (hd : d ≤ h) (hq : sp[d]? = some q) : l ∈ lvs s lvl q.arena :=
  r.mem w _ d rfl hd hq

/-- leaves below a path node are below the path nodes above it -/
theorem mono (r : RPath s l h sp) (w : WF s lvl h) : ∀ (n d : Nat) {q q' : PIdx} {m : Nat}, d + n ≤ h → sp[d]? = some q → sp[d + n]? = some q' →
    m ∈ lvs s lvl q'.arena → m ∈ lvs s lvl q.arena := by
  intro n
  induction n with
  | zero => intro d q q' m _ h1 h2 hm; rw [Nat.add_zero, h1] at h2; cases h2; exact hm
  | succ n ih =>
    intro d q q' m hd h1 h2 hm
    obtain ⟨p, j, a, i, e1, e2, e3⟩ := r.step d (by omega)
    rw [e1] at h1
    cases h1
    exact kid_lvs w e3 (ih (d + 1) (by omega) e2 (by rw [← h2]; congr 1; omega) hm)

end RPath

/-! ## Lists -/

theorem filter_range {α : Type} {L : List α} {q : α → Bool} {ds de : Nat} (hle : ds ≤ de)
    (h1 : ∀ (k : Nat) (c : α), L[k]? = some c → k < ds ∨ de ≤ k → q c = true)
    (h2 : ∀ (k : Nat) (c : α), L[k]? = some c → ds ≤ k → k < de → q c = false) : L.filter q = L.take ds ++ L.drop de := by
  have hL : L = L.take ds ++ ((L.take de).drop ds ++ L.drop de) := by
    rw [← List.append_assoc]
    have : L.take ds ++ (L.take de).drop ds = L.take de := by
      have := List.take_append_drop ds (L.take de)
      rwa [List.take_take, Nat.min_eq_left hle] at this
    rw [this, List.take_append_drop]
  have e1 : (L.take ds).filter q = L.take ds := by
    rw [List.filter_eq_self]
    intro c hc
    obtain ⟨k, hk⟩ := List.mem_iff_getElem?.mp hc
    rw [List.getElem?_take] at hk
    split at hk
    · next hlt => exact h1 k c hk (Or.inl hlt)
    · cases hk
  have e2 : ((L.take de).drop ds).filter q = [] := by
    rw [List.filter_eq_nil_iff]
    intro c hc
    obtain ⟨k, hk⟩ := List.mem_iff_getElem?.mp hc
    rw [List.getElem?_drop, List.getElem?_take] at hk
    split at hk
    · next hlt => rw [h2 _ c hk (by omega) hlt]; simp
    · cases hk
  have e3 : (L.drop de).filter q = L.drop de := by
    rw [List.filter_eq_self]
    intro c hc
    obtain ⟨k, hk⟩ := List.mem_iff_getElem?.mp hc
    rw [List.getElem?_drop] at hk
    exact h1 _ c hk (Or.inr (by omega))
  rw [hL, List.filter_append, List.filter_append, e1, e2, e3, ← hL, List.nil_append]

theorem mem_range {α : Type} {L : List α} {ds de : Nat} {c : α} :
    c ∈ (L.take de).drop ds ↔ ∃ k, L[k]? = some c ∧ ds ≤ k ∧ k < de := by
  rw [List.mem_iff_getElem?]
  constructor
  · rintro ⟨k, hk⟩
    rw [List.getElem?_drop, List.getElem?_take] at hk
    split at hk
    · next hlt => exact ⟨_, hk, by omega, hlt⟩
    · cases hk
  · rintro ⟨k, hk, h1, h2⟩
    refine ⟨k - ds, ?_⟩
    rw [List.getElem?_drop, List.getElem?_take, show ds + (k - ds) = k by omega, if_pos h2]
    exact hk

theorem delRange_ok {α : Type} {L : List α} {ds de : Nat} (h1 : ds ≤ de) (h2 : de ≤ L.length) :
    delRange L ds de = .ok (L.take ds ++ L.drop de) := by
  unfold delRange
  by_cases he : ds = de
  · rw [if_pos he, he, List.take_append_drop]
  · rw [if_neg he, if_pos ⟨by omega, h2⟩]

/-! ## The loop invariant -/

/-- `u` is `s` with other leaves, where the dead children of the nodes in `S` have been cut and are collected in `del`. -/
structure CutInv (s : Tree E C) (lvl : Nat → Nat) (Y : List Nat) (F : Arena (LeafNode E)) (u : Tree E C) (S : Nat → Prop)
    (del : List Idx) : Prop where
  root : u.root = s.root
  rc : u.rootCache = s.rootCache
  items : u.inn.items.length = s.inn.items.length
  lf : u.lf = F
  par : ∀ x, (lnk u x).map Prod.fst = (lnk s x).map Prod.fst
  slot : ∀ p i y, Edge u p i (.internal y) → (lnk u y).map Prod.snd = some i
  proc : ∀ x, S x → chs u x = (chs s x).filter (keepB s lvl Y)
  unproc : ∀ x, ¬ S x → chs u x = chs s x
  dels : ∀ a ∈ del, Dead s lvl Y a ∧ ∃ p i y, a = .internal y ∧ Edge s p i a
  cover : ∀ x i y, S x → Edge s x i (.internal y) → Dead s lvl Y (.internal y) → Idx.internal y ∈ del

section
variable {Y : List Nat} {F : Arena (LeafNode E)} {u : Tree E C} {S : Nat → Prop} {del : List Idx}

theorem CutInv.congr (j : CutInv s lvl Y F u S del) {S' : Nat → Prop} (hS : ∀ x, S x ↔ S' x) : CutInv s lvl Y F u S' del :=
  ⟨j.root, j.rc, j.items, j.lf, j.par, j.slot, fun x hx => j.proc x ((hS x).mpr hx), fun x hx => j.unproc x (fun h => hx ((hS x).mp h)),
    j.dels, fun x i y hx => j.cover x i y ((hS x).mpr hx)⟩

theorem CutInv.live (j : CutInv s lvl Y F u S del) {x : Nat} : lnk u x ≠ none ↔ lnk s x ≠ none := by
  have := j.par x
  cases h1 : lnk u x <;> cases h2 : lnk s x <;> simp_all

theorem CutInv.sub (j : CutInv s lvl Y F u S del) {x : Nat} : (chs u x).Sublist (chs s x) := by
  by_cases hS : S x
  · rw [j.proc x hS]; exact List.filter_sublist
  · rw [j.unproc x hS]; exact List.Sublist.refl _

theorem CutInv.kid (j : CutInv s lvl Y F u S del) {x : Nat} {a : Idx} (ha : a ∈ kids u x) : a ∈ kids s x := by
  rw [kids_chs] at ha ⊢
  exact (j.sub.map _).subset ha

/-- a processed node is empty exactly if it is dead -/
theorem CutInv.empty (j : CutInv s lvl Y F u S del) (w : WF s lvl h) {x : Nat} (hx : lnk s x ≠ none) (hS : S x) :
    chs u x = [] ↔ Dead s lvl Y (.internal x) := by
  rw [j.proc x hS, List.filter_eq_nil_iff, dead_kids w hx]
  constructor
  · intro hn a ha
    rw [kids_chs, List.mem_map] at ha
    obtain ⟨c, hc, rfl⟩ := ha
    have := hn c hc
    rw [keep_iff] at this
    exact Decidable.byContradiction this
  · intro hn c hc
    rw [keep_iff]
    exact fun hh => hh (hn c.arena (by rw [kids_chs]; exact List.mem_map_of_mem hc))

/-- Cutting the dead children of one node. -/
theorem CutInv.cut (j : CutInv s lvl Y F u S del) (w : WF s lvl h) {p k : Nat} {N : Node C} (hN : u.inn.get p = some N) (hS : ¬ S p)
    (hl : 2 ≤ lvl p) (hk : ∀ (i : Nat) (c : Child C), i < k → ((chs s p).filter (keepB s lvl Y))[i]? = some c → (chs s p)[i]? = some c)
    {del' : List Idx} (hd : ∀ a, a ∈ del' ↔ a ∈ kids s p ∧ Dead s lvl Y a) :
    ∃ u', updSlotsFrom (u.setIn p { N with children := (chs s p).filter (keepB s lvl Y) }) p k = .ok u' ∧
      CutInv s lvl Y F u' (fun x => S x ∨ x = p) (del ++ del') := by
  have hpu : lnk u p ≠ none := lnk_isSome.mpr ⟨N, hN⟩
  have hps : lnk s p ≠ none := j.live.mp hpu
  generalize hcs : (chs s p).filter (keepB s lvl Y) = cs at hk ⊢
  generalize ht : u.setIn p { N with children := cs } = t
  have l1 : ∀ y, lnk t y = lnk u y := by
    intro y; rw [← ht, lnk_setIn u hpu]; split
    · next e => subst e; exact (lnk_of hN).symm
    · rfl
  have c1 : ∀ y, chs t y = if y = p then cs else chs u y := by
    intro y; rw [← ht, chs_setIn u hpu]
  have ksub : (kids t p).Sublist (kids s p) := by
    rw [kids_chs, c1, if_pos rfl, kids_chs, ← hcs]
    exact List.filter_sublist.map _
  have ktu : ∀ y, y ≠ p → kids t y = kids u y := by intro y hy; rw [kids_chs, c1, if_neg hy, kids_chs]
  obtain ⟨u', e1, e2, e3, e4, e5⟩ := updSlotsFrom_in (s := t) (p := p) (index := k) (by rw [l1]; exact hpu)
    (by
      intro a ha
      have ha := ksub.subset ha
      obtain ⟨y, rfl⟩ := kids_internal w hl a ha
      exact ⟨y, rfl, by rw [l1, j.live]; exact kids_live_in w ha⟩)
    ((w.kids_nodup p).sublist ksub)
  have ku' : ∀ y, kids u' y = kids t y := by intro y; rw [kids_chs, e2.chs, kids_chs]
  have lnk' : ∀ y, (lnk u' y).map Prod.fst = (lnk u y).map Prod.fst := by
    intro y
    by_cases hm : Idx.internal y ∈ (kids t p).drop k
    · obtain ⟨i, hi⟩ := List.mem_iff_getElem?.mp hm
      rw [List.getElem?_drop] at hi
      have hy : lnk t y ≠ none := by
        rw [l1, j.live]; exact kids_live_in w (ksub.subset (mem_kids.mpr ⟨_, hi⟩))
      obtain ⟨⟨q, m⟩, hv⟩ := Option.ne_none_iff_exists'.mp hy
      rw [e5 (k + i) y q m (by omega) hi hv, ← l1, hv]
      rfl
    · rw [e4 y hm, l1]
  refine ⟨u', e1, ?_⟩
  refine ⟨?_, ?_, ?_, ?_, ?_, ?_, ?_, ?_, ?_, ?_⟩
  · rw [e2.root, ← ht]; exact j.root
  · rw [e2.rootCache, ← ht]; exact j.rc
  · rw [e2.items, ← ht, items_setIn]; exact j.items
  · rw [e3, ← ht]; exact j.lf
  · intro x; rw [lnk', j.par]
  · intro q i y he
    rw [Edge, ku'] at he
    by_cases hq : q = p
    · subst hq
      by_cases hik : k ≤ i
      · have hy : lnk t y ≠ none := by
          rw [l1, j.live]; exact kids_live_in w (ksub.subset (mem_kids.mpr ⟨_, he⟩))
        obtain ⟨⟨r, m⟩, hv⟩ := Option.ne_none_iff_exists'.mp hy
        rw [e5 i y r m hik he hv]
        rfl
      · -- unchanged position
        have hes : Edge u q i (.internal y) := by
          rw [kids_chs, List.getElem?_map, Option.map_eq_some_iff] at he
          obtain ⟨c, hc, hca⟩ := he
          rw [c1, if_pos rfl] at hc
          have := hk i c (by omega) hc
          rw [edge_chs, j.unproc q hS]
          exact ⟨c, this, hca⟩
        have hnm : Idx.internal y ∉ (kids t q).drop k := by
          intro hm
          obtain ⟨i', hi'⟩ := List.mem_iff_getElem?.mp hm
          rw [List.getElem?_drop] at hi'
          have nd := (w.kids_nodup q).sublist ksub
          obtain ⟨a1, b1⟩ := List.getElem?_eq_some_iff.mp hi'
          obtain ⟨a2, b2⟩ := List.getElem?_eq_some_iff.mp he
          have := (List.getElem_inj nd).mp (b1.trans b2.symm)
          omega
        rw [e4 y hnm, l1]
        exact j.slot q i y hes
    · rw [ktu q hq] at he
      have hnm : Idx.internal y ∉ (kids t p).drop k := by
        intro hm
        have m1 := ksub.subset (List.mem_of_mem_drop hm)
        have m2 := j.kid (mem_kids.mpr ⟨i, he⟩)
        obtain ⟨i1, h1⟩ := mem_kids.mp m1
        obtain ⟨i2, h2⟩ := mem_kids.mp m2
        exact hq (w.kid_in_inj h2 h1).1
      rw [e4 y hnm, l1]
      exact j.slot q i y he
  · intro x hx
    rw [e2.chs, c1]
    split
    · next e => rw [e, hcs]
    · next e => exact j.proc x (hx.resolve_right e)
  · intro x hx
    rw [e2.chs, c1, if_neg (fun e => hx (Or.inr e))]
    exact j.unproc x (fun h => hx (Or.inl h))
  · intro a ha
    rw [List.mem_append] at ha
    rcases ha with ha | ha
    · exact j.dels a ha
    · obtain ⟨h1, h2⟩ := (hd a).mp ha
      obtain ⟨y, rfl⟩ := kids_internal w hl a h1
      obtain ⟨i, hi⟩ := mem_kids.mp h1
      exact ⟨h2, p, i, y, rfl, hi⟩
  · intro x i y hx he hdd
    rw [List.mem_append]
    rcases hx with hx | rfl
    · exact Or.inl (j.cover x i y hx he hdd)
    · exact Or.inr ((hd _).mpr ⟨mem_kids.mpr ⟨i, he⟩, hdd⟩)

/-- Cutting the dead children at the end of the child list needs no renumbering. -/
theorem CutInv.cutEnd (j : CutInv s lvl Y F u S del) (w : WF s lvl h) {p k : Nat} {N : Node C} (hN : u.inn.get p = some N) (hS : ¬ S p)
    (hl : 2 ≤ lvl p) (hk : (chs s p).filter (keepB s lvl Y) = (chs s p).take k)
    {del' : List Idx} (hd : ∀ a, a ∈ del' ↔ a ∈ kids s p ∧ Dead s lvl Y a) :
    CutInv s lvl Y F (u.setIn p { N with children := (chs s p).take k }) (fun x => S x ∨ x = p) (del ++ del') := by
  obtain ⟨u', e1, e2⟩ := j.cut w hN hS hl (k := (chs s p).length) (by
    intro i c _ hc
    rw [hk, List.getElem?_take] at hc
    split at hc
    · exact hc
    · cases hc) hd
  have hget : (u.setIn p { N with children := (chs s p).filter (keepB s lvl Y) }).getIn p =
      .ok { N with children := (chs s p).filter (keepB s lvl Y) } := by
    apply getIn_ok
    rw [setIn_inn, Arena.get_set_self hN]
  have : updSlotsFrom (u.setIn p { N with children := (chs s p).filter (keepB s lvl Y) }) p (chs s p).length =
      .ok (u.setIn p { N with children := (chs s p).filter (keepB s lvl Y) }) := by
    simp only [updSlotsFrom, hget, bind_ok]
    rw [if_pos (Or.inl (List.length_filter_le _ _))]
    rfl
  rw [this] at e1
  cases e1
  rw [hk] at e2
  exact e2

end
end
end GB
