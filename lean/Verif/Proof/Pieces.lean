import Verif.Spec.Pieces
import Verif.Proof.FilterMutSpec
import Verif.Proof.Query

/-!
# `visit_previous_caches` visits as few caches as possible
-/

namespace GB
variable {E C D : Type}
open Tree

/-- the longest pieces before position `k` -/
def longest {X : Type} (len : X → Nat) (c : X → C) (f : Nat → X → List (Piece C)) (k : Nat) : Nat → List X → List (Piece C)
  | _, [] => []
  | a, x :: xs => if a + len x ≤ k then ⟨c x, a, a + len x⟩ :: longest len c f k (a + len x) xs else f a x

def Shape.before (k : Nat) : (n : Nat) → Nat → Shape C E n → List (Piece C)
  | 0, _, _ => []
  | n + 1, a, cs => longest (fun x : C × Shape C E n => (Shape.elems n x.2).length) (fun x => x.1) (fun a x => Shape.before k n a x.2) k a cs

/-- the entries of the topmost node -/
abbrev Shape.top {n : Nat} (t : Shape C E (n + 1)) : List (C × Shape C E n) := t

/-- no subtree is empty -/
def Shape.Solid : (n : Nat) → Shape C E n → Prop
  | 0, _ => True
  | n + 1, cs => ∀ x ∈ Shape.top cs, 0 < (Shape.elems n x.2).length ∧ Shape.Solid n x.2

theorem spread_bounds {X : Type} {len : X → Nat} {f : Nat → X → List (Piece C)} : ∀ (xs : List X) (a : Nat),
    (∀ x ∈ xs, ∀ a, ∀ q ∈ f a x, a ≤ q.lo ∧ q.lo < q.hi ∧ q.hi ≤ a + len x) →
    ∀ q ∈ spread len f a xs, a ≤ q.lo ∧ q.lo < q.hi ∧ q.hi ≤ a + (xs.map len).sum := by
  intro xs
  induction xs with
  | nil => intro a _ q hq; cases hq
  | cons x xs ih =>
    intro a hf q hq
    simp only [spread, List.mem_append] at hq
    simp only [List.map_cons, List.sum_cons]
    rcases hq with hq | hq
    · have := hf x (by simp) a q hq; omega
    · have := ih (a + len x) (fun y hy => hf y (by simp [hy])) q hq; omega

theorem elems_succ_length (n : Nat) (cs : Shape C E (n + 1)) :
    (Shape.elems (n + 1) cs).length = (List.map (fun x : C × Shape C E n => (Shape.elems n x.2).length) cs).sum := by
  exact List.length_flatMap (l := Shape.top cs)

theorem pieces_bounds : ∀ (n a : Nat) (t : Shape C E n), Shape.Solid n t → ∀ q ∈ Shape.pieces n a t,
    a ≤ q.lo ∧ q.lo < q.hi ∧ q.hi ≤ a + (Shape.elems n t).length := by
  intro n
  induction n with
  | zero => intro a t _ q hq; cases hq
  | succ n ih =>
    intro a t ht q hq
    rw [elems_succ_length]
    refine spread_bounds t a ?_ q hq
    intro x hx a q hq
    obtain ⟨h1, h2⟩ := ht x hx
    rcases List.mem_cons.mp hq with rfl | hq
    · exact ⟨Nat.le_refl _, by simp only; omega, Nat.le_refl _⟩
    · exact ih a x.2 h2 q hq

/-- every cover has at least as many pieces as `longest` -/
theorem longest_least {X : Type} {len : X → Nat} {c : X → C} {f g : Nat → X → List (Piece C)} {k : Nat} : ∀ (xs : List X) (a : Nat) (qs : List (Piece C)),
    (∀ x ∈ xs, 0 < len x ∧ ∀ a, (∀ q ∈ f a x, a ≤ q.lo ∧ q.lo < q.hi ∧ q.hi ≤ a + len x) ∧
      ∀ qs : List (Piece C), (∀ q ∈ qs, q ∈ f a x ∧ q.hi ≤ k) → (∀ i, a ≤ i → i < k → ∃ q ∈ qs, q.lo ≤ i ∧ i < q.hi) → (g a x).length ≤ qs.length) →
    (∀ q ∈ qs, q ∈ spread len (fun a x => ⟨c x, a, a + len x⟩ :: f a x) a xs ∧ q.hi ≤ k) →
    (∀ i, a ≤ i → i < k → ∃ q ∈ qs, q.lo ≤ i ∧ i < q.hi) → (longest len c g k a xs).length ≤ qs.length := by
  intro xs
  induction xs with
  | nil => intro a qs _ _ _; exact Nat.zero_le _
  | cons x xs ih =>
    intro a qs hx hq hc
    obtain ⟨h0, hxa⟩ := hx x (by simp)
    obtain ⟨hb, hl⟩ := hxa a
    have hrest : ∀ q ∈ spread len (fun a x => (⟨c x, a, a + len x⟩ : Piece C) :: f a x) (a + len x) xs, a + len x ≤ q.lo ∧ q.lo < q.hi := by
      intro q hq
      have := spread_bounds xs (a + len x) (f := fun a x => (⟨c x, a, a + len x⟩ : Piece C) :: f a x) (by
        intro y hy b q hq
        obtain ⟨y0, y1⟩ := hx y (by simp [hy])
        rcases List.mem_cons.mp hq with rfl | hq
        · exact ⟨Nat.le_refl _, by simp only; omega, Nat.le_refl _⟩
        · exact (y1 b).1 q hq) q hq
      exact ⟨this.1, this.2.1⟩
    have hcase : ∀ q ∈ qs, (q = ⟨c x, a, a + len x⟩ ∨ q ∈ f a x) ∨
        q ∈ spread len (fun a x => (⟨c x, a, a + len x⟩ : Piece C) :: f a x) (a + len x) xs := by
      intro q h
      have := (hq q h).1
      simp only [spread, List.mem_append, List.mem_cons] at this
      exact this
    have hfst : ∀ q ∈ qs, q.lo < a + len x → q.hi ≤ a + len x := by
      intro q h hlo
      rcases hcase q h with (rfl | h1) | h1
      · exact Nat.le_refl _
      · exact (hb q h1).2.2
      · have := hrest q h1; omega
    rw [longest]
    split
    · rename_i hle
      have hlen : qs.length = (qs.filter fun q => decide (q.lo < a + len x)).length + (qs.filter fun q => !decide (q.lo < a + len x)).length := by
        rw [← List.length_append]
        exact (List.filter_append_perm _ qs).length_eq.symm
      have h1 : 0 < (qs.filter fun q => decide (q.lo < a + len x)).length := by
        obtain ⟨q, m1, m2, m3⟩ := hc a (Nat.le_refl _) (by omega)
        exact List.length_pos_of_mem (List.mem_filter.mpr ⟨m1, by simp only [decide_eq_true_eq]; omega⟩)
      have h2 := ih (a + len x) (qs.filter fun q => !decide (q.lo < a + len x)) (fun y hy => hx y (by simp [hy])) (by
        intro q hq'
        obtain ⟨m1, m2⟩ := List.mem_filter.mp hq'
        simp only [Bool.not_eq_true', decide_eq_false_iff_not] at m2
        refine ⟨?_, (hq q m1).2⟩
        rcases hcase q m1 with (rfl | h1) | h1
        · exact absurd (by simp only; omega) m2
        · have := hb q h1; omega
        · exact h1) (by
        intro i i1 i2
        obtain ⟨q, m1, m2, m3⟩ := hc i (by omega) i2
        refine ⟨q, List.mem_filter.mpr ⟨m1, ?_⟩, m2, m3⟩
        simp only [Bool.not_eq_true', decide_eq_false_iff_not]
        intro h
        have := hfst q m1 h
        omega)
      rw [List.length_cons]
      omega
    · rename_i hgt
      refine hl qs ?_ hc
      intro q h
      have hk := (hq q h).2
      refine ⟨?_, hk⟩
      rcases hcase q h with (rfl | h1) | h1
      · exact absurd hk hgt
      · exact h1
      · have := hrest q h1; omega

theorem prefix_least {k : Nat} : ∀ (n a : Nat) (t : Shape C E n), Shape.Solid n t → ∀ qs : List (Piece C),
    (∀ q ∈ qs, q ∈ Shape.pieces n a t ∧ q.hi ≤ k) → (∀ i, a ≤ i → i < k → ∃ q ∈ qs, q.lo ≤ i ∧ i < q.hi) →
    (Shape.before k n a t).length ≤ qs.length := by
  intro n
  induction n with
  | zero => intro a t _ qs _ _; exact Nat.zero_le _
  | succ n ih =>
    intro a t ht qs hq hc
    refine longest_least t a qs ?_ hq hc
    intro x hx
    obtain ⟨h1, h2⟩ := ht x hx
    exact ⟨h1, fun a => ⟨pieces_bounds n a x.2 h2, fun qs h3 h4 => ih a x.2 h2 qs h3 h4⟩⟩

theorem longest_mem {X : Type} {len : X → Nat} {c : X → C} {f g : Nat → X → List (Piece C)} {k : Nat} : ∀ (xs : List X) (a : Nat),
    (∀ x ∈ xs, ∀ a, ∀ q ∈ g a x, q ∈ f a x) → ∀ q ∈ longest len c g k a xs, q ∈ spread len (fun a x => ⟨c x, a, a + len x⟩ :: f a x) a xs := by
  intro xs
  induction xs with
  | nil => intro a _ q hq; cases hq
  | cons x xs ih =>
    intro a hg q hq
    rw [longest] at hq
    simp only [spread, List.mem_append, List.mem_cons]
    split at hq
    · rcases List.mem_cons.mp hq with rfl | hq
      · exact .inl (.inl rfl)
      · exact .inr (ih _ (fun y hy => hg y (by simp [hy])) q hq)
    · exact .inl (.inr (hg x (by simp) a q hq))

theorem prefix_mem {k : Nat} : ∀ (n a : Nat) (t : Shape C E n), ∀ q ∈ Shape.before k n a t, q ∈ Shape.pieces n a t := by
  intro n
  induction n with
  | zero => intro a t q hq; cases hq
  | succ n ih =>
    intro a t q hq
    exact longest_mem t a (fun x _ a q hq => ih a x.2 q hq) q hq

theorem longest_tiles {X : Type} {len : X → Nat} {c : X → C} {g : Nat → X → List (Piece C)} {k : Nat} : ∀ (xs : List X) (a : Nat), a ≤ k → k < a + (xs.map len).sum →
    (∀ x ∈ xs, ∀ a, a ≤ k → k < a + len x → Adjoin a (g a x) k) → Adjoin a (longest len c g k a xs) k := by
  intro xs
  induction xs with
  | nil => intro a h1 h2 _; simp only [List.map_nil, List.sum_nil] at h2; omega
  | cons x xs ih =>
    intro a h1 h2 hg
    simp only [List.map_cons, List.sum_cons] at h2
    rw [longest]
    split
    · exact ⟨rfl, ih (a + len x) (by omega) (by omega) (fun y hy => hg y (by simp [hy]))⟩
    · exact hg x (by simp) a h1 (by omega)

theorem prefix_tiles {k : Nat} : ∀ (n a : Nat) (t : Shape C E n), a ≤ k → k < a + (Shape.elems n t).length → Adjoin a (Shape.before k n a t) k := by
  intro n
  induction n with
  | zero =>
    intro a t h1 h2
    have : k < a + 1 := h2
    show a = k
    omega
  | succ n ih =>
    intro a t h1 h2
    rw [elems_succ_length] at h2
    exact longest_tiles t a h1 h2 (fun x _ a h1 h2 => ih a x.2 h1 h2)

theorem longest_split {X : Type} {len : X → Nat} {c : X → C} {g : Nat → X → List (Piece C)} {k : Nat} {x : X} {R : List X} : ∀ (L : List X) (a : Nat),
    a + (L.map len).sum ≤ k → k < a + (L.map len).sum + len x →
    (longest len c g k a (L ++ x :: R)).map Piece.cache = L.map c ++ (g (a + (L.map len).sum) x).map Piece.cache := by
  intro L
  induction L with
  | nil =>
    intro a h1 h2
    simp only [List.map_nil, List.sum_nil, Nat.add_zero] at h1 h2
    rw [List.nil_append, longest, if_neg (by omega)]
    simp
  | cons y L ih =>
    intro a h1 h2
    simp only [List.map_cons, List.sum_cons] at h1 h2 ⊢
    rw [List.cons_append, longest, if_pos (by omega), List.map_cons, ih (a + len y) (by omega) (by omega), Nat.add_assoc]
    rfl

/-! ## The visited caches -/

/-- a path downwards -/
inductive Down (s : Tree E C) : Idx → List PIdx → Idx → Prop
  | nil {a : Idx} : Down s a [] a
  | cons {p i : Nat} {a b : Idx} {r : List PIdx} : Edge s p i a → Down s a r b → Down s (.internal p) (⟨a, i⟩ :: r) b

theorem Down.snoc {s : Tree E C} {a b : Idx} {p i : Nat} {r : List PIdx} (hd : Down s a r (.internal p)) (he : Edge s p i b) : Down s a (r ++ [⟨b, i⟩]) b := by
  generalize hx : Idx.internal p = x at hd
  induction hd with
  | nil => subst hx; exact .cons he .nil
  | cons h1 _ ih => exact .cons h1 (ih hx)

theorem PathTo.down {s : Tree E C} {path : List PIdx} (hp : PathTo s path) : ∀ {a i rest}, path = ⟨a, i⟩ :: rest →
    ∃ r, path.reverse = ⟨.internal s.root, 0⟩ :: r ∧ Down s (.internal s.root) r a := by
  induction hp with
  | root => intro a i rest e; cases e; exact ⟨[], rfl, .nil⟩
  | @step a i p j rest he hp ih =>
    intro a' i' rest' e
    cases e
    obtain ⟨r, h1, h2⟩ := ih rfl
    refine ⟨r ++ [⟨a, i⟩], ?_, h2.snoc he⟩
    rw [List.reverse_cons, h1]
    rfl

theorem mapM_getElem {α β : Type} {f : α → Option β} : ∀ {l : List α} {r : List β}, l.mapM f = some r →
    r.length = l.length ∧ ∀ (i : Nat) (a : α), l[i]? = some a → ∃ b, f a = some b ∧ r[i]? = some b := by
  intro l
  induction l with
  | nil => intro r h; rw [List.mapM_nil] at h; cases h; exact ⟨rfl, fun i a h => by simp at h⟩
  | cons x l ih =>
    intro r h
    rw [List.mapM_cons] at h
    cases h1 : f x with
    | none => rw [h1] at h; cases h
    | some y =>
      cases h2 : l.mapM f with
      | none => rw [h1, h2] at h; cases h
      | some ys =>
        rw [h1, h2] at h
        cases h
        obtain ⟨k1, k2⟩ := ih h2
        refine ⟨by simp [k1], ?_⟩
        intro i a ha
        cases i with
        | zero => cases ha; exact ⟨y, h1, rfl⟩
        | succ i => exact k2 i a ha

section
variable {s : Tree E C} {lvl : Nat → Nat} {h : Nat} {B : Trait E C D} {A : Law B}

/-- as many elements as leaves -/
theorem elems_length : ∀ (n : Nat) (a : Idx) (t : Shape C E n), shapeOf s n a = some t → (Shape.elems n t).length = (sub s n a).length := by
  intro n
  induction n with
  | zero =>
    intro a t ht
    cases a with
    | internal x => cases ht
    | leaf l => rfl
  | succ n ih =>
    intro a t ht
    cases a with
    | leaf l => cases ht
    | internal x =>
      replace ht : ((chs s x).mapM fun c => (shapeOf s n c.arena).map fun t => (c.cache, t)) = some t := ht
      rw [elems_succ_length, show sub s (n + 1) (.internal x) = leavesAt s (n + 1) x from rfl, leavesAt_succ, kids_chs]
      generalize chs s x = cs at ht ⊢
      induction cs generalizing t with
      | nil =>
        rw [List.mapM_nil] at ht
        cases ht
        rfl
      | cons c cs ihc =>
        rw [List.mapM_cons] at ht
        cases hc : shapeOf s n c.arena with
        | none => rw [hc] at ht; cases ht
        | some tc =>
          cases hcs : (cs.mapM fun c => (shapeOf s n c.arena).map fun t => (c.cache, t)) with
          | none => rw [hc, hcs] at ht; cases ht
          | some ts =>
            rw [hc, hcs] at ht
            cases ht
            have e := ihc ts hcs
            rw [List.map_cons, List.sum_cons, e, ih _ _ hc, List.map_cons, List.flatMap_cons, List.length_append]

theorem shape_kid {n x : Nat} {t : Shape C E (n + 1)} (ht : shapeOf s (n + 1) (.internal x) = some t) {y : C × Shape C E n}
    (hy : y ∈ Shape.top t) : ∃ c ∈ chs s x, shapeOf s n c.arena = some y.2 ∧ y.1 = c.cache := by
  obtain ⟨k1, k2⟩ := mapM_getElem (show ((chs s x).mapM fun c => (shapeOf s n c.arena).map fun t => (c.cache, t)) = some t from ht)
  obtain ⟨i, hi⟩ := List.mem_iff_getElem?.mp hy
  have hlt : i < (chs s x).length := by rw [← k1]; exact (List.getElem?_eq_some_iff.mp hi).1
  obtain ⟨b, b1, b2⟩ := k2 i _ (List.getElem?_eq_getElem hlt)
  rw [hi] at b2
  cases b2
  refine ⟨_, List.getElem_mem hlt, ?_⟩
  cases h1 : shapeOf s n (chs s x)[i].arena with
  | none => rw [h1] at b1; cases b1
  | some u => rw [h1] at b1; cases b1; exact ⟨rfl, rfl⟩

theorem shape_solid (w : WF s lvl h) (ne : NE s) : ∀ (n : Nat) (a : Idx) (t : Shape C E n), AtLvl s lvl n a → shapeOf s n a = some t →
    Shape.Solid n t ∧ (a ≠ .internal s.root → 0 < (Shape.elems n t).length) := by
  intro n
  induction n with
  | zero => intro a t _ _; exact ⟨trivial, fun _ => Nat.one_pos⟩
  | succ n ih =>
    intro a t ha ht
    cases a with
    | leaf l => cases ht
    | internal x =>
      have key : ∀ y ∈ Shape.top t, 0 < (Shape.elems n y.2).length ∧ Shape.Solid n y.2 := by
        intro y hy
        obtain ⟨c, c1, c2, -⟩ := shape_kid ht hy
        obtain ⟨i, hi⟩ := List.mem_iff_getElem?.mp c1
        have he : Edge s x i c.arena := edge_chs.mpr ⟨c, hi, rfl⟩
        obtain ⟨k1, k2⟩ := ih c.arena y.2 (ha.kid w _ (mem_kids.mpr ⟨i, he⟩)) c2
        refine ⟨k2 ?_, k1⟩
        intro hr
        rw [hr] at he
        exact w.root_not_kid he
      refine ⟨key, ?_⟩
      intro hr
      have hne := ne x ha.1 (fun h => hr (by rw [h]))
      have hl := (mapM_getElem (show ((chs s x).mapM fun c => (shapeOf s n c.arena).map fun t => (c.cache, t)) = some t from ht)).1
      obtain ⟨c, cs, hc⟩ := List.exists_cons_of_ne_nil hne
      rw [hc] at hl
      rw [elems_succ_length]
      match t, hl, key with
      | y :: ys, _, key =>
        have := (key y (by simp)).1
        simp only [List.map_cons, List.sum_cons]
        omega

/-- the nested list below a child -/
theorem shape_split {n x i : Nat} {c : Child C} {t : Shape C E (n + 1)} (ht : shapeOf s (n + 1) (.internal x) = some t) (hi : (chs s x)[i]? = some c) :
    ∃ (L R : List (C × Shape C E n)) (u : Shape C E n), t = L ++ (c.cache, u) :: R ∧ shapeOf s n c.arena = some u ∧
      L.map Prod.fst = ((chs s x).take i).map Child.cache ∧
      (L.map fun x => (Shape.elems n x.2).length).sum = (((chs s x).take i).flatMap fun c => sub s n c.arena).length := by
  replace ht : ((chs s x).mapM fun c => (shapeOf s n c.arena).map fun t => (c.cache, t)) = some t := ht
  generalize chs s x = cs at ht hi
  induction cs generalizing t i with
  | nil => simp at hi
  | cons d cs ih =>
    rw [List.mapM_cons] at ht
    cases h1 : shapeOf s n d.arena with
    | none => rw [h1] at ht; cases ht
    | some v =>
      cases h2 : (cs.mapM fun c => (shapeOf s n c.arena).map fun t => (c.cache, t)) with
      | none => rw [h1, h2] at ht; cases ht
      | some ts =>
        rw [h1, h2] at ht
        cases ht
        cases i with
        | zero =>
          cases hi
          exact ⟨[], ts, v, rfl, h1, rfl, rfl⟩
        | succ i =>
          obtain ⟨L, R, u, k1, k2, k3, k4⟩ := ih (t := ts) h2 (by simpa using hi)
          refine ⟨(d.cache, v) :: L, R, u, by rw [k1]; rfl, k2, ?_, ?_⟩
          · rw [List.map_cons, k3, List.take_succ_cons, List.map_cons]
          · rw [List.map_cons, List.sum_cons, k4, List.take_succ_cons, List.flatMap_cons, List.length_append, elems_length _ _ _ h1]

/-- the caches that are visited on the way down -/
theorem visitPath_down {l : Nat} : ∀ (n : Nat) (x : Idx) (j a : Nat) (r : List PIdx) (t : Shape C E n), Down s x r (.leaf l) → r.length = n →
    shapeOf s n x = some t → ∃ u v, sub s n x = u ++ l :: v ∧
      visitPath s (⟨x, j⟩ :: r) = .ok ((Shape.before (a + u.length) n a t).map Piece.cache) := by
  intro n
  induction n with
  | zero =>
    intro x j a r t hd hr _
    cases hd with
    | nil => exact ⟨[], [], rfl, rfl⟩
    | cons _ _ => simp at hr
  | succ n ih =>
    intro x j a r t hd hr ht
    cases hd with
    | nil => simp at hr
    | @cons p i b _ r he hd =>
      obtain ⟨c, hc, rfl⟩ := edge_chs.mp he
      obtain ⟨P, hP⟩ := lnk_isSome.mp (edge_live he)
      have hlt := (List.getElem?_eq_some_iff.mp hc).1
      rw [chs_of hP] at hlt
      obtain ⟨L, R, u0, k1, k2, k3, k4⟩ := shape_split ht hc
      obtain ⟨u, v, e1, e2⟩ := ih c.arena i (a + (L.map fun x => (Shape.elems n x.2).length).sum) r u0 hd (by simpa using hr) k2
      have hsub : sub s (n + 1) (.internal p) = ((chs s p).take i).flatMap (fun c => sub s n c.arena) ++ sub s n c.arena ++
          ((chs s p).drop (i + 1)).flatMap (fun c => sub s n c.arena) := by
        rw [show sub s (n + 1) (.internal p) = leavesAt s (n + 1) p from rfl, leavesAt_succ, kids_chs, List.flatMap_map]
        have h0 := congrArg (List.flatMap fun c => sub s n c.arena) (List.take_append_drop i (chs s p))
        rw [← h0, List.flatMap_append, List.append_assoc]
        congr 1
        obtain ⟨hl, hg⟩ := List.getElem?_eq_some_iff.mp hc
        rw [List.drop_eq_getElem_cons hl, hg, List.flatMap_cons]
      refine ⟨((chs s p).take i).flatMap (fun c => sub s n c.arena) ++ u, v ++ ((chs s p).drop (i + 1)).flatMap (fun c => sub s n c.arena), ?_, ?_⟩
      · rw [hsub, e1]; simp
      · have hlen : (Shape.elems n u0).length = u.length + 1 + v.length := by
          rw [elems_length _ _ _ k2, e1]; simp; omega
        have hw := longest_split (len := fun x : C × Shape C E n => (Shape.elems n x.2).length) (c := fun x => x.1)
          (g := fun b x => Shape.before (a + (((chs s p).take i).flatMap (fun c => sub s n c.arena) ++ u).length) n b x.2)
          (k := a + (((chs s p).take i).flatMap (fun c => sub s n c.arena) ++ u).length) (x := (c.cache, u0)) (R := R) L a
          (by rw [k4, List.length_append]; omega) (by rw [k4, List.length_append]; simp only; omega)
        subst k1
        have hb : (Shape.before (a + (((chs s p).take i).flatMap (fun c => sub s n c.arena) ++ u).length) (n + 1) a (L ++ (c.cache, u0) :: R)).map Piece.cache = _ := hw
        rw [hb]
        have e3 : visitPath s (⟨.internal p, j⟩ :: ⟨c.arena, i⟩ :: r) = (do
          let node ← s.getInIdx (.internal p)
          let cs ← cachesUpTo node.children 0 i
          let tl ← visitPath s (⟨c.arena, i⟩ :: r)
          pure (cs ++ tl)) := rfl
        rw [e3, e2]
        simp only [getInIdx_ok hP, bind_ok, cachesUpTo_spec P.children i 0 (by omega), List.drop_zero, pure_ok]
        rw [← chs_of hP, ← k3, k4, List.length_append, Nat.add_assoc]

/-- Down to the cursor's leaf. -/
theorem visitPrev_pieces (g : Good A s lvl h) (hh : h ≤ 9) {l o : Nat} {e : E} {U V : List (Nat × E)} {t : Shape C E h}
    (ht : shapeOf s h (.internal s.root) = some t) (hent : entries s = U ++ (l, e) :: V) :
    visitPrevCaches s ⟨l, o⟩ = .ok ((Shape.before U.length h 0 t).map Piece.cache, (e, o)) := by
  obtain ⟨p0, hLg⟩ := getLf_entries g.wf (l := l) (e := e) (by rw [hent]; simp)
  have hfst := entries_fst g.wf
  rw [hent, List.map_append, List.map_cons] at hfst
  have he : elm s l = some e := (entries_mem g.wf).mp (by rw [hent]; simp)
  obtain ⟨i, rest, r1, r2, r3⟩ := getPath_leaf g.wf hh (elm_live he)
  obtain ⟨r, d1, d2⟩ := r2.down rfl
  have hr : r.length = h := by
    have := congrArg List.length d1
    simp at this
    omega
  obtain ⟨u, v, e1, e2⟩ := visitPath_down h _ 0 0 r t d2 hr ht
  have ho : order s = sub s h (.internal s.root) := by
    obtain ⟨i, hi⟩ := g.wf.root'
    obtain ⟨N, hN⟩ := lnk_isSome.mp (show lnk s s.root ≠ none by rw [hi]; simp)
    have := leavesAt_stable g.wf s.inn.items.length s.root ⟨N, hN⟩ (by rw [g.wf.root_lvl]; exact g.wf.h_le)
    rw [order, this, g.wf.root_lvl]
    rfl
  obtain ⟨q1, -⟩ := order_uniq g.wf hfst.symm (ho.trans e1)
  have hu : U.length = u.length := by rw [← q1]; simp
  simp only [visitPrevCaches, r1, bind_ok, d1, e2, hLg, pure_ok, hu, Nat.zero_add]

/-! ## What the caches stand for -/

/-- every cache is the combination of the elements below it -/
def Shape.Summed (A : Law B) : (n : Nat) → Shape C E n → Prop
  | 0, _ => True
  | n + 1, cs => ∀ x ∈ Shape.top cs, x.1 = A.total ((Shape.elems n x.2).map B.elemCache) ∧ Shape.Summed A n x.2

theorem pieces_total {es : List E} : ∀ (n a : Nat) (t : Shape C E n) (P R : List E), Shape.Summed A n t → es = P ++ Shape.elems n t ++ R → P.length = a →
    ∀ q ∈ Shape.pieces n a t, q.cache = A.total (((es.take q.hi).drop q.lo).map B.elemCache) := by
  intro n
  induction n with
  | zero => intro a t P R _ _ _ q hq; cases hq
  | succ n ih =>
    intro a (t : List (C × Shape C E n)) P R ht he ha q hq
    change ∀ x ∈ t, x.1 = A.total ((Shape.elems n x.2).map B.elemCache) ∧ Shape.Summed A n x.2 at ht
    change es = P ++ List.flatMap (fun x => Shape.elems n x.2) t ++ R at he
    change q ∈ spread (fun x => (Shape.elems n x.2).length) (fun a x => ⟨x.1, a, a + (Shape.elems n x.2).length⟩ :: Shape.pieces n a x.2) a t at hq
    induction t generalizing a P with
    | nil => cases hq
    | cons x xs ihx =>
      obtain ⟨h1, h2⟩ := ht x (by simp)
      rw [List.flatMap_cons] at he
      simp only [spread, List.mem_append] at hq
      rcases hq with hq | hq
      · rcases List.mem_cons.mp hq with rfl | hq
        · simp only
          rw [h1, he, ← ha]
          simp [List.take_append, List.drop_append]
        · exact ih a x.2 P (List.flatMap (fun x => Shape.elems n x.2) xs ++ R) h2 (by rw [he]; simp) ha q hq
      · exact ihx (a + (Shape.elems n x.2).length) (P ++ Shape.elems n x.2) (by simp [ha]) (fun y hy => ht y (by simp [hy])) (by rw [he]; simp) hq

theorem shape_summed (g : Good A s lvl h) (ne : NE s) : ∀ (n : Nat) (a : Idx) (t : Shape C E n), AtLvl s lvl n a → shapeOf s n a = some t → Shape.Summed A n t := by
  intro n
  induction n with
  | zero => intro a t _ _; trivial
  | succ n ih =>
    intro a t ha ht
    cases a with
    | leaf l => cases ht
    | internal x =>
      intro y hy
      obtain ⟨c, c1, c2, c3⟩ := shape_kid ht hy
      obtain ⟨i, hi⟩ := List.mem_iff_getElem?.mp c1
      have he : Edge s x i c.arena := edge_chs.mpr ⟨c, hi, rfl⟩
      refine ⟨?_, ih c.arena y.2 (ha.kid g.wf _ (mem_kids.mpr ⟨i, he⟩)) c2⟩
      rw [c3, cache_block g ne ha.2 c1, shape_elems _ _ _ c2, List.map_map]
      rfl

/-! ## How many -/

theorem visitPath_count (w : ∀ x, (chs s x).length ≤ 11) {x b : Idx} {r : List PIdx} (hd : Down s x r b) : ∀ (j : Nat) (cs : List C),
    visitPath s (⟨x, j⟩ :: r) = .ok cs → cs.length ≤ 10 * r.length := by
  induction hd with
  | nil => intro j cs h; cases h; exact Nat.le_refl _
  | @cons p i a b r he hd ih =>
    intro j cs h
    obtain ⟨P, hP⟩ := lnk_isSome.mp (edge_live he)
    obtain ⟨c, hc, rfl⟩ := edge_chs.mp he
    have hlt := (List.getElem?_eq_some_iff.mp hc).1
    have hw := w p
    rw [chs_of hP] at hlt hw
    have e3 : visitPath s (⟨.internal p, j⟩ :: ⟨c.arena, i⟩ :: r) = (do
      let node ← s.getInIdx (.internal p)
      let cs ← cachesUpTo node.children 0 i
      let tl ← visitPath s (⟨c.arena, i⟩ :: r)
      pure (cs ++ tl)) := rfl
    rw [e3] at h
    simp only [getInIdx_ok hP, bind_ok, cachesUpTo_spec P.children i 0 (by omega), List.drop_zero] at h
    obtain ⟨tl, h1, h2⟩ := bind_inv h
    cases h2
    have := ih i tl h1
    simp only [List.length_append, List.length_map, List.length_take, List.length_cons]
    omega

theorem visitPrev_count (w : WF s lvl h) (hh : h ≤ 9) (hw : ∀ x, (chs s x).length ≤ 11) {l o : Nat} (hl : lpar s l ≠ none) {cs : List C} {y : E × Nat}
    (hv : visitPrevCaches s ⟨l, o⟩ = .ok (cs, y)) : cs.length ≤ 10 * h := by
  obtain ⟨i, rest, r1, r2, r3⟩ := getPath_leaf w hh hl
  obtain ⟨r, d1, d2⟩ := r2.down rfl
  have hr : r.length = h := by
    have := congrArg List.length d1
    simp at this
    omega
  simp only [visitPrevCaches, r1, bind_ok, d1] at hv
  obtain ⟨cs', v1, v2⟩ := bind_inv hv
  obtain ⟨lf, v3, v4⟩ := bind_inv v2
  cases v4
  rw [← hr]
  exact visitPath_count hw d2 0 _ v1

end
end GB
