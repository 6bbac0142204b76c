import Verif.Proof.Writes

/-!
# The nodes written by `remove_leaf`
-/

namespace GB
variable {E C D : Type}
open Tree

section
variable {s s' s1 : Tree E C} {lvl : Nat → Nat} {h : Nat} {B : Trait E C D}

theorem vremove_inv {α : Type} {l l' : List α} {i : Nat} {x : α} (e : vremove l i = .ok (x, l')) : l' = l.eraseIdx i ∧ l'.length + 1 = l.length := by
  unfold vremove at e
  split at e
  · rename_i y hy
    cases e
    refine ⟨rfl, ?_⟩
    have := (List.getElem?_eq_some_iff.mp hy).1
    rw [List.length_eraseIdx, if_pos this]
    omega
  · cases e

theorem Ranks.erase {k x i : Nat} {N : Node C} {cs ds : List (Child C)} {c : Child C} (f : Ranks k lvl h x { N with children := ds })
    (e : vremove ds i = .ok (c, cs)) : Ranks k lvl h x { N with children := cs } := by
  obtain ⟨rfl, hlen⟩ := vremove_inv e
  refine ⟨f.par, fun c hc => f.kid c (List.mem_of_mem_eraseIdx hc), f.top, ?_⟩
  have := f.cap
  simp only at this ⊢
  omega

theorem resetParents_writes {p : Nat} : ∀ (cs : List (Child C)) (s s' : Tree E C), resetParents s cs p = .ok s' → Writes s s' cs.length := by
  intro cs
  induction cs with
  | nil => intro s s' e; cases e; exact Writes.refl s
  | cons c cs ih =>
    intro s s' e
    rw [resetParents] at e
    split at e
    · obtain ⟨node, e2, e⟩ := bind_inv e
      exact (Writes.setIn _ _ _).seq (ih _ _ e) (by simp only [List.length_cons]; omega)
    · obtain ⟨leaf, e2, e⟩ := bind_inv e
      exact (Writes.setLf _ _ _).seq (ih _ _ e) (by simp only [List.length_cons]; omega)

/-- what is left of `Ranked` while the root takes the place of its only child: it counts as a node of level `k` -/
def RankedRoot (lvl : Nat → Nat) (k : Nat) (s : Tree E C) : Prop :=
  ∀ x N, s.inn.get x = some N → (∀ c ∈ N.children, ∀ y, c.arena = .internal y → (if x = s.root then k else lvl x) = lvl y + 1) ∧ N.children.length ≤ 12

theorem reduceLoop_writes : ∀ (n k : Nat) (s s' : Tree E C) (b b' : Bool), RankedRoot lvl k s → reduceLoop n s b = .ok (b', s') →
    Writes s s' (2 * k) ∧ s'.root = s.root ∧ ∀ N, s'.inn.get s.root = some N → N.children.length ≤ 12 := by
  intro n
  induction n with
  | zero => intro k s s' b b' _ e; cases e
  | succ n ih =>
    intro k s s' b b' r e
    rw [reduceLoop] at e
    obtain ⟨root, e1, e⟩ := bind_inv e
    have e1 := getIn_inv e1
    have stop : s' = s → Writes s s' (2 * k) ∧ s'.root = s.root ∧ ∀ N, s'.inn.get s.root = some N → N.children.length ≤ 12 := by
      rintro rfl
      exact ⟨(Writes.refl _).mono (by omega), rfl, fun N hN => (r _ N hN).2⟩
    split at e
    · rename_i c hc
      split at e
      · cases e; exact stop rfl
      · rename_i y hy
        obtain ⟨child, e2, e⟩ := bind_inv e
        have e2 : s.inn.get y = some child := by
          cases hg : s.inn.get y with
          | none => rw [hg] at e2; cases e2
          | some z => rw [hg] at e2; cases e2; rfl
        obtain ⟨rn, e3, e⟩ := bind_inv e
        have hk := (r _ root e1).1 c (by rw [hc]; simp) y hy
        rw [if_pos rfl] at hk
        have hyr : y ≠ s.root := by
          rintro rfl
          have e3 : (s.inn.remove s.root).get s.root = some rn := getIn_inv e3
          rw [Arena.get_remove, if_pos rfl] at e3
          cases e3
        have r' : RankedRoot lvl (lvl y) (({ s with inn := s.inn.remove y } : Tree E C).setIn s.root child) := by
          intro x N hx
          have hc' := r y child e2
          rw [if_neg hyr] at hc'
          show (∀ c ∈ N.children, ∀ z, c.arena = .internal z → (if x = s.root then lvl y else lvl x) = lvl z + 1) ∧ _
          have hx : ((s.inn.remove y).set s.root child).get x = some N := hx
          rw [Arena.get_set] at hx
          split at hx
          · rename_i hb
            cases hx
            rw [if_pos hb.1.symm]
            exact hc'
          · rename_i hb
            rw [Arena.get_remove] at hx
            split at hx
            · cases hx
            · have hxr : x ≠ s.root := by
                rintro rfl
                have e3 : (s.inn.remove y).get s.root = some rn := getIn_inv e3
                exact hb ⟨rfl, Arena.get_lt e3⟩
              have := r x N hx
              rw [if_neg hxr] at this ⊢
              exact this
        obtain ⟨w, h1, h2⟩ := ih (lvl y) _ s' true b' r' e
        exact ⟨((Writes.removeIn s y).trans (Writes.setIn _ _ _)).seq w (by omega), h1, h2⟩
    · cases e; exact stop rfl

theorem tryReduceLevels_writes (r : Ranked lvl h s) (e : tryReduceLevels s = .ok s') : Writes s s' (2 * h + 13) := by
  obtain ⟨⟨b, s1⟩, e1, e⟩ := bind_inv e
  have hr : RankedRoot lvl (lvl s.root) s := by
    intro x N hx
    have f := r x N hx
    refine ⟨fun c hc y hy => ?_, f.cap⟩
    have := (f.kid c hc y hy).1
    split
    · rename_i e; rw [← e]; exact this
    · exact this
  obtain ⟨w, h1, h2⟩ := reduceLoop_writes _ _ _ _ _ _ hr e1
  have hk : 2 * lvl s.root ≤ 2 * h := by
    cases hg : s.inn.get s.root with
    | none =>
      unfold Tree.fuel at e1
      rw [reduceLoop] at e1
      obtain ⟨root, e2, -⟩ := bind_inv e1
      have := getIn_inv e2
      rw [hg] at this
      cases this
    | some N => have := (r _ N hg).top; omega
  simp only at e
  split at e
  · obtain ⟨root, e2, e⟩ := bind_inv e
    have := h2 root (by rw [← h1]; exact getIn_inv e2)
    exact (w.trans (Writes.setIn _ _ _)).seq (resetParents_writes _ _ _ e) (by omega)
  · cases e
    exact w.mono (by omega)

theorem applyReparent_writes : ∀ (l : List (Idx × Nat × Nat)) (s s' : Tree E C), Ranked lvl h s →
    (∀ x ∈ l, ∀ y, x.1 = .internal y → lvl x.2.1 = lvl y + 1 ∧ x.2.1 < s.inn.items.length) → applyReparent s l = .ok s' →
    Writes s s' l.length ∧ Ranked lvl h s' := by
  intro l
  induction l with
  | nil => intro s s' r _ e; cases e; exact ⟨Writes.refl s, r⟩
  | cons x l ih =>
    intro s s' r hl e
    obtain ⟨i, p, j⟩ := x
    cases i with
    | leaf k =>
      obtain ⟨leaf, e1, e⟩ := bind_inv e
      obtain ⟨w, r'⟩ := ih (s.setLf k { leaf with parent := p }) s' (r.setLf _ _) (fun x hx => hl x (by simp [hx])) e
      exact ⟨(Writes.setLf _ _ _).seq w (by simp only [List.length_cons]; omega), r'⟩
    | internal y =>
      obtain ⟨node, e1, e⟩ := bind_inv e
      have f := r y node (getIn_inv e1)
      obtain ⟨w, r'⟩ := ih (s.setIn y { node with parent := some p, slot := j }) s'
        (r.setIn ⟨fun q hq => by cases hq; exact hl (.internal y, p, j) (by simp) y rfl, f.kid, f.top, f.cap⟩)
        (fun x hx => by rw [setIn_inn, Arena.items_set]; exact hl x (by simp [hx])) e
      exact ⟨(Writes.setIn _ _ _).seq w (by simp only [List.length_cons]; omega), r'⟩

theorem mem_reparentEntries {p : Nat} : ∀ (cs : List (Child C)) (i : Nat) (x : Idx × Nat × Nat), x ∈ reparentEntries cs p i →
    x.2.1 = p ∧ ∃ c ∈ cs, x.1 = c.arena := by
  intro cs
  induction cs with
  | nil => intro i x hx; cases hx
  | cons c cs ih =>
    intro i x hx
    simp only [reparentEntries, List.mem_cons] at hx
    rcases hx with rfl | hx
    · exact ⟨rfl, c, by simp, rfl⟩
    · obtain ⟨h1, d, h2, h3⟩ := ih _ _ hx
      exact ⟨h1, d, by simp [h2], h3⟩

theorem reparentEntries_length {p : Nat} : ∀ (cs : List (Child C)) (i : Nat), (reparentEntries cs p i).length = cs.length := by
  intro cs
  induction cs with
  | nil => intro i; rfl
  | cons c cs ih => intro i; simp only [reparentEntries, List.length_cons, ih]

/-- purging a node that has lost its children removes that node alone -/
theorem purge_bare {x : Nat} {N : Node C} (hx : s.inn.get x = some N) (hc : N.children = []) (e : purge s (.internal x) = .ok s') :
    s' = { s with inn := s.inn.remove x } := by
  unfold purge at e
  obtain ⟨n, hn⟩ : ∃ n, (s.inn.items.length + 1) * (MAXC + 1) + 1 = n + 2 := ⟨(s.inn.items.length + 1) * (MAXC + 1) - 1, by simp only [MAXC]; omega⟩
  rw [hn, purgeF] at e
  simp only [hx, hc, List.map_nil, List.reverse_nil, List.nil_append] at e
  cases e
  rfl

theorem unwrap_inv {α : Type} {o : Option α} {x : α} (e : unwrap o = .ok x) : o = some x := by
  cases o with
  | none => cases e
  | some y => cases e; rfl

/-- what `pair_neighbor` answers, in terms of levels -/
theorem pairNeighbor_inv {x p : Nat} {node par : Node C} {aI bI : Idx} {aArr bArr : Nat} (r : Ranked lvl h s) (hx : s.inn.get x = some node)
    (hp : node.parent = some p) (hpar : s.inn.get p = some par) (e : pairNeighbor s x = .ok (some ((aI, aArr), (bI, bArr)))) :
    (aI = .internal x ∨ bI = .internal x) ∧ (∀ y, aI = .internal y → lvl p = lvl y + 1) ∧ ∀ y, bI = .internal y → lvl p = lvl y + 1 := by
  have hl := ((r x node hx).par p hp).1
  have f := r p par hpar
  unfold pairNeighbor at e
  simp only [getIn_ok hx, hp, unwrap, bind_ok, getIn_ok hpar] at e
  split at e
  · cases hc : par.children[1]? with
    | none => rw [hc] at e; cases e
    | some c =>
      rw [hc] at e
      cases e
      exact ⟨.inl rfl, fun y hy => by cases hy; exact hl, fun y hy => (f.kid c (List.mem_of_getElem? hc) y hy).1⟩
  · cases hc : par.children[node.slot - 1]? with
    | none => rw [hc] at e; cases e
    | some c =>
      rw [hc] at e
      cases e
      exact ⟨.inr rfl, fun y hy => (f.kid c (List.mem_of_getElem? hc) y hy).1, fun y hy => by cases hy; exact hl⟩

theorem mem_set_set_arena {cs : List (Child C)} {i j : Nat} {a b : Child C} (hi : cs[i]? = some a) (hj : cs[j]? = some b) {ca cb : C} :
    ∀ c ∈ (cs.set i { a with cache := ca }).set j { b with cache := cb }, ∃ d ∈ cs, c.arena = d.arena := by
  intro c hc
  rcases List.mem_or_eq_of_mem_set hc with h1 | rfl
  · exact mem_set_arena hi c h1
  · exact ⟨b, List.mem_of_getElem? hj, rfl⟩

theorem setSlots_len : ∀ (cs : List (Child C)) (s s' : Tree E C) (i : Nat), setSlots s cs i = .ok s' → s'.inn.items.length = s.inn.items.length := by
  intro cs
  induction cs with
  | nil => intro s s' i e; cases e; rfl
  | cons c cs ih =>
    intro s s' i e
    obtain ⟨y, -, e⟩ := bind_inv e
    obtain ⟨node, -, e⟩ := bind_inv e
    rw [ih _ _ _ e, setIn_inn, Arena.items_set]

theorem updSlotsFrom_len {p i : Nat} (e : updSlotsFrom s p i = .ok s') : s'.inn.items.length = s.inn.items.length := by
  obtain ⟨par, -, e⟩ := bind_inv e
  split at e
  · cases e; rfl
  · exact setSlots_len _ _ _ _ e

/-- a node that takes children of two nodes of its level -/
theorem Ranks.pool {k x y : Nat} {a b : Node C} (fa : Ranks k lvl h x a) (fb : Ranks k lvl h y b) (hl : lvl x = lvl y) {cs : List (Child C)}
    (hc : ∀ c ∈ cs, c ∈ a.children ∨ c ∈ b.children) (hlen : cs.length ≤ 12) : Ranks k lvl h x { a with children := cs } := by
  refine ⟨fa.par, ?_, fa.top, hlen⟩
  intro c h1 z h2
  rcases hc c h1 with h3 | h3
  · exact fa.kid c h3 z h2
  · rw [hl]; exact fb.kid c h3 z h2

theorem Ranks.congr_len {k k' x : Nat} {a : Node C} (f : Ranks k lvl h x a) (e : k = k') : Ranks k' lvl h x a := e ▸ f

/-- the two neighbours and the parent rewritten -/
theorem trio_ranked {ai bi p : Nat} {a b par : Node C} (r : Ranked lvl h s) (ha : Ranks s.inn.items.length lvl h ai a)
    (hb : Ranks s.inn.items.length lvl h bi b) (hp : Ranks s.inn.items.length lvl h p par) :
    Ranked lvl h (((s.setIn ai a).setIn bi b).setIn p par) ∧ Writes s (((s.setIn ai a).setIn bi b).setIn p par) 3 ∧
      (((s.setIn ai a).setIn bi b).setIn p par).inn.items.length = s.inn.items.length := by
  refine ⟨((r.setIn ha).setIn (hb.congr_len (by rw [setIn_inn, Arena.items_set]))).setIn (hp.congr_len (by simp only [setIn_inn, Arena.items_set])), ?_,
    by simp only [setIn_inn, Arena.items_set]⟩
  exact ((Writes.setIn _ _ _).trans (Writes.setIn _ _ _)).trans (Writes.setIn _ _ _)

/-- one layer of `handle_lack_recursively`: at the root the end, elsewhere 27 nodes and then the parent -/
theorem handleLackSingle_writes {x : Nat} {o : Option Nat} (r : Ranked lvl h s) (e : handleLackSingle B s x = .ok (o, s')) :
    (x = s.root ∧ o = none ∧ Writes s s' (2 * h + 13)) ∨
      (Writes s s' 27 ∧ Ranked lvl h s' ∧ lvl x + 1 ≤ h ∧ ∀ p, o = some p → lvl p = lvl x + 1) := by
  unfold handleLackSingle at e
  split at e
  · obtain ⟨s1, e1, e⟩ := bind_inv e
    cases e
    exact .inl ⟨by rename_i h1; exact h1.symm, rfl, tryReduceLevels_writes r e1⟩
  · right
    obtain ⟨node, hx, e⟩ := bind_inv e
    obtain ⟨p, hp, e⟩ := bind_inv e
    obtain ⟨par, hpar, e⟩ := bind_inv e
    obtain ⟨here, -, e⟩ := bind_inv e
    obtain ⟨-, -, e⟩ := bind_inv e
    have hx := getIn_inv hx
    have hp := unwrap_inv hp
    have hpar := getIn_inv hpar
    have f := r p par hpar
    have hl := ((r x node hx).par p hp).1
    have ht := f.top
    have up : ∀ q, some p = some q → lvl q = lvl x + 1 := fun q hq => by cases hq; exact hl
    split at e
    · obtain ⟨⟨c, cs⟩, e1, e⟩ := bind_inv e
      obtain ⟨s2, e2, e⟩ := bind_inv e
      cases e
      obtain ⟨w, r'⟩ := updSlotsFrom_writes ((r.setIn (f.erase (N := par) e1)).removeIn x) e2
      exact ⟨((Writes.setIn _ _ _).trans (Writes.removeIn _ _)).seq w (by omega), r', by omega, up⟩
    · obtain ⟨on, e1, e⟩ := bind_inv e
      split at e
      · cases e
        exact ⟨(Writes.refl _).mono (by omega), r, by omega, up⟩
      · rename_i aI aArr bI bArr
        obtain ⟨hab, hla, hlb⟩ := pairNeighbor_inv r hx hp hpar e1
        obtain ⟨chA, hA, e⟩ := bind_inv e
        obtain ⟨chB, hB, e⟩ := bind_inv e
        obtain ⟨ai, hai, e⟩ := bind_inv e
        obtain ⟨bi, hbi, e⟩ := bind_inv e
        obtain ⟨-, -, e⟩ := bind_inv e
        obtain ⟨a, ha, e⟩ := bind_inv e
        obtain ⟨b, hb, e⟩ := bind_inv e
        have hai := unwrapInternal_inv hai
        have hbi := unwrapInternal_inv hbi
        rw [hai, hbi] at e
        have ha := getIn_inv ha
        have hb := getIn_inv hb
        have hla := hla ai hai
        have hlb := hlb bi hbi
        have fa := r ai a ha
        have fb := r bi b hb
        have hA := vget_inv hA
        have hB := vget_inv hB
        have hpa : ¬ ai = p := fun e => by rw [e] at hla; omega
        have hpb : ¬ bi = p := fun e => by rw [e] at hlb; omega
        have lo : ∀ {b : Bool} q, (if b then some p else none) = some q → lvl q = lvl x + 1 := by
          intro b q hq
          cases b with
          | false => cases hq
          | true => exact up q hq
        have hlab : lvl ai = lvl bi := by omega
        have hgp : ∀ X Y : Node C, ∀ N, ((s.setIn ai X).setIn bi Y).getIn p = .ok N → N = par := by
          intro X Y N hN
          have hN := getIn_inv hN
          rw [setIn_inn, Arena.get_set_ne _ hpb, setIn_inn, Arena.get_set_ne _ hpa, hpar] at hN
          cases hN
          rfl
        have hali := Arena.get_lt ha
        have hbli := Arena.get_lt hb
        have hca := fa.cap
        have hcb := fb.cap
        have rpok : ∀ (cs : List (Child C)) (q i : Nat), (q = ai ∨ q = bi) → (∀ c ∈ cs, c ∈ a.children ∨ c ∈ b.children) →
            ∀ z ∈ reparentEntries cs q i, ∀ y, z.1 = .internal y → lvl z.2.1 = lvl y + 1 ∧ z.2.1 < s.inn.items.length := by
          intro cs q i hq hcs z hz y hy
          obtain ⟨h1, c, h2, h3⟩ := mem_reparentEntries _ _ _ hz
          have hq' : lvl q = lvl ai ∧ q < s.inn.items.length := by
            rcases hq with rfl | rfl
            · exact ⟨rfl, hali⟩
            · exact ⟨hlab.symm, hbli⟩
          rw [h1, hq'.1]
          refine ⟨?_, hq'.2⟩
          rcases hcs c h2 with h4 | h4
          · exact (fa.kid c h4 y (h3 ▸ hy)).1
          · rw [hlab]; exact (fb.kid c h4 y (h3 ▸ hy)).1
        split at e
        · -- a part moves
          simp only at e
          obtain ⟨_, hcap, e⟩ := bind_inv e
          have hcap := of_decide_eq_true (assertM_inv hcap)
          obtain ⟨⟨ac, _⟩, -, e⟩ := bind_inv e
          obtain ⟨⟨bc, _⟩, -, e⟩ := bind_inv e
          obtain ⟨par', hpar', e⟩ := bind_inv e
          rw [hgp _ _ _ hpar'] at e
          obtain ⟨s4, e4, e⟩ := bind_inv e
          cases e
          have fp : Ranks s.inn.items.length lvl h p { par with children := (par.children.set aArr { chA with cache := ac }).set bArr { chB with cache := bc } } :=
            f.children (mem_set_set_arena hA hB) (by simp only [List.length_set]; exact f.cap)
          simp only [MAXC] at hcap
          split at hcap
          · rename_i hlt
            simp only [if_pos hlt] at e4
            obtain ⟨r1, w1, n1⟩ := trio_ranked r (fa.pool fb hlab (by
              intro c hc
              simp only [List.mem_append] at hc
              exact hc.imp_right List.mem_of_mem_take) hcap.1) (fb.pool fb rfl (by
              intro c hc
              exact .inr (List.mem_of_mem_drop hc)) hcap.2) fp
            obtain ⟨w4, r4⟩ := applyReparent_writes _ _ _ r1 (by
              rw [n1]
              intro z hz
              simp only [List.mem_append] at hz
              rcases hz with hz | hz
              · exact rpok _ _ _ (.inl rfl) (fun c hc => .inr (List.mem_of_mem_take hc)) z hz
              · exact rpok _ _ _ (.inr rfl) (fun c hc => .inr (List.mem_of_mem_drop hc)) z hz) e4
            refine ⟨w1.seq w4 ?_, r4, by omega, lo⟩
            simp only [List.length_append, reparentEntries_length, List.length_take, List.length_drop]
            omega
          · rename_i hlt
            simp only [if_neg hlt] at e4
            obtain ⟨r1, w1, n1⟩ := trio_ranked r (fa.pool fb hlab (by
              intro c hc
              exact .inl (List.mem_of_mem_take hc)) hcap.1) (fb.pool fa hlab.symm (by
              intro c hc
              simp only [List.mem_append] at hc
              exact (hc.imp_left List.mem_of_mem_drop).symm) hcap.2) fp
            obtain ⟨w4, r4⟩ := applyReparent_writes _ _ _ r1 (by
              rw [n1]
              intro z hz
              simp only [List.mem_append] at hz
              rcases hz with hz | hz
              · exact rpok _ _ _ (.inr rfl) (fun c hc => .inr hc) z hz
              · refine rpok _ _ _ (.inr rfl) (fun c hc => ?_) z hz
                simp only [List.mem_append] at hc
                exact hc.imp_left List.mem_of_mem_drop) e4
            refine ⟨w1.seq w4 ?_, r4, by omega, lo⟩
            have h2 := hcap.2
            simp only [List.length_append, reparentEntries_length, List.length_drop] at h2 ⊢
            omega
        · rename_i hsum
          simp only [MAXC] at hsum
          split at e
          · obtain ⟨⟨ac, _⟩, -, e⟩ := bind_inv e
            obtain ⟨par', hpar', e⟩ := bind_inv e
            obtain ⟨⟨c, cs⟩, hrm, e⟩ := bind_inv e
            rw [hgp _ _ _ hpar'] at e hrm
            obtain ⟨s2, e2, e⟩ := bind_inv e
            obtain ⟨s3, e3, e⟩ := bind_inv e
            obtain ⟨s4, e4, e⟩ := bind_inv e
            cases e
            obtain ⟨r1, w1, n1⟩ := trio_ranked r (fa.pool fb hlab (cs := a.children ++ b.children) (by simp) (by rw [List.length_append]; omega))
              (fb.pool fb rfl (cs := []) (by simp) (by simp)) ((f.set hA ac).erase (N := par) hrm)
            have hg : (((s.setIn ai { a with children := a.children ++ b.children }).setIn bi { b with children := [] }).setIn p { par with children := cs }).inn.get bi =
                some { b with children := [] } := by
              rw [setIn_inn, Arena.get_set_ne _ (Ne.symm hpb), setIn_inn, Arena.get_set, if_pos ⟨rfl, by rw [setIn_inn, Arena.items_set]; exact hbli⟩]
            rw [purge_bare hg rfl e2] at e3
            obtain ⟨w3, r3⟩ := updSlotsFrom_writes (r1.removeIn bi) e3
            have n3 := (updSlotsFrom_len e3).trans ((Arena.items_remove _ _).trans n1)
            obtain ⟨w4, r4⟩ := applyReparent_writes _ _ _ r3 (by
              rw [n3]
              exact rpok _ _ _ (.inl rfl) (fun c hc => .inr hc)) e4
            refine ⟨((w1.trans (Writes.removeIn _ bi)).trans w3).seq w4 ?_, r4, by omega, lo⟩
            rw [reparentEntries_length]
            omega
          · rename_i hax
            have hbx : bi = x := by
              rcases hab with h1 | h1
              · exact absurd (hai.symm.trans h1) hax
              · rw [hbi] at h1; cases h1; rfl
            have hne : bi ≠ ai := fun h1 => hax (by rw [← hbx, h1])
            obtain ⟨⟨bc, _⟩, -, e⟩ := bind_inv e
            obtain ⟨par', hpar', e⟩ := bind_inv e
            obtain ⟨⟨c, cs⟩, hrm, e⟩ := bind_inv e
            rw [hgp _ _ _ hpar'] at e hrm
            obtain ⟨s2, e2, e⟩ := bind_inv e
            obtain ⟨s3, e3, e⟩ := bind_inv e
            obtain ⟨s4, e4, e⟩ := bind_inv e
            cases e
            obtain ⟨r1, w1, n1⟩ := trio_ranked r (fa.pool fa rfl (cs := []) (by simp) (by simp))
              (fb.pool fa hlab.symm (cs := a.children ++ b.children) (by simp [or_comm]) (by rw [List.length_append]; omega)) ((f.set hB bc).erase (N := par) hrm)
            have hg : (((s.setIn ai { a with children := [] }).setIn bi { b with children := a.children ++ b.children }).setIn p { par with children := cs }).inn.get ai =
                some { a with children := [] } := by
              rw [setIn_inn, Arena.get_set_ne _ (Ne.symm hpa), setIn_inn, Arena.get_set_ne _ hne, setIn_inn, Arena.get_set, if_pos ⟨rfl, hali⟩]
            rw [purge_bare hg rfl e2] at e3
            obtain ⟨w3, r3⟩ := updSlotsFrom_writes (r1.removeIn ai) e3
            have n3 := (updSlotsFrom_len e3).trans ((Arena.items_remove _ _).trans n1)
            obtain ⟨w4, r4⟩ := applyReparent_writes _ _ _ r3 (by
              rw [n3]
              intro z hz
              simp only [List.mem_append] at hz
              rcases hz with hz | hz
              · exact rpok _ _ _ (.inr rfl) (fun c hc => .inl hc) z hz
              · exact rpok _ _ _ (.inr rfl) (fun c hc => .inr hc) z hz) e4
            refine ⟨((w1.trans (Writes.removeIn _ ai)).trans w3).seq w4 ?_, r4, by omega, lo⟩
            rw [List.length_append, reparentEntries_length, reparentEntries_length]
            omega

theorem handleLackF_writes : ∀ (n : Nat) (s s' : Tree E C) (x : Nat), Ranked lvl h s → handleLackF B n s x = .ok s' →
    Writes s s' (27 * (h - lvl x) + (2 * h + 13)) := by
  intro n
  induction n with
  | zero => intro s s' x _ e; cases e
  | succ n ih =>
    intro s s' x r e
    obtain ⟨⟨o, s1⟩, e1, e⟩ := bind_inv e
    rcases handleLackSingle_writes r e1 with ⟨-, rfl, w⟩ | ⟨w, r1, h1, h2⟩
    · cases e
      exact w.mono (by omega)
    · cases o with
      | none =>
        cases e
        exact w.mono (by omega)
      | some p =>
        have := h2 p rfl
        exact w.seq (ih _ _ _ r1 e) (by omega)

theorem removeInternalF_writes : ∀ (n : Nat) (s s' : Tree E C) (x : Nat), Ranked lvl h s → removeInternalF B n s x = .ok s' →
    Writes s s' (27 * (h - lvl x) + (2 * h + 13)) := by
  intro n
  induction n with
  | zero => intro s s' x _ e; cases e
  | succ n ih =>
    intro s s' x r e
    rw [removeInternalF] at e
    split at e
    · cases e; exact (Writes.refl _).mono (by omega)
    · obtain ⟨node, hx, e⟩ := bind_inv e
      obtain ⟨p, hp, e⟩ := bind_inv e
      obtain ⟨par, hpar, e⟩ := bind_inv e
      obtain ⟨⟨c, cs⟩, hrm, e⟩ := bind_inv e
      obtain ⟨s1, e1, e⟩ := bind_inv e
      have hl := ((r x node (getIn_inv hx)).par p (unwrap_inv hp)).1
      have r0 := r.removeIn x
      have f := r0 p par (getIn_inv hpar)
      have ht := f.top
      obtain ⟨w1, r1⟩ := updSlotsFrom_writes (r0.setIn (f.erase (N := par) hrm)) e1
      have w := ((Writes.removeIn s x).trans (Writes.setIn _ _ _)).trans w1
      split at e
      · exact w.seq (ih _ _ _ r1 e) (by omega)
      · split at e
        · exact w.seq (handleLackF_writes _ _ _ _ r1 e) (by omega)
        · cases e
          exact w.mono (by omega)

variable {A : Law B}

theorem removeLeaf_writes {m : Fill} (g : Good A s lvl h) (sz : Sz m s h) {pos : Cursor} {o : Option E} (hr : removeLeaf B s pos = .ok (o, s')) :
    Writes s s' (30 * h + 16) := by
  have r : Ranked lvl h s := g.ranked sz (fun _ h => h.elim)
  unfold removeLeaf at hr
  split at hr
  · cases hr; exact (Writes.refl _).mono (by omega)
  · rename_i leaf hL
    obtain ⟨par, hpar, hr⟩ := bind_inv hr
    obtain ⟨i, -, hr⟩ := bind_inv hr
    obtain ⟨⟨c, cs⟩, hrm, hr⟩ := bind_inv hr
    obtain ⟨-, -, hr⟩ := bind_inv hr
    obtain ⟨rem, -, hr⟩ := bind_inv hr
    obtain ⟨s1, e1, hr⟩ := bind_inv hr
    obtain ⟨s2, e2, hr⟩ := bind_inv hr
    cases hr
    have f := r _ par (getIn_inv hpar)
    have r0 := r.setIn (f.erase (N := par) hrm)
    obtain ⟨w1, r1⟩ := recursiveUpdateCache_writes (s := { (s.setIn leaf.parent { par with children := cs }) with
      lf := (s.setIn leaf.parent { par with children := cs }).lf.remove c.arena.raw }) (r0.inn rfl) e1
    have w := ((Writes.setIn s leaf.parent { par with children := cs }).trans (Writes.removeLf _ c.arena.raw)).trans w1
    split at e2
    · exact w.seq (removeInternalF_writes _ _ _ _ r1 e2) (by omega)
    · split at e2
      · exact w.seq (handleLackF_writes _ _ _ _ r1 e2) (by omega)
      · cases e2
        exact w.mono (by omega)

end
end GB
