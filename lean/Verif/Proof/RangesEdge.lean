import Verif.Proof.RangesTree

/-!
# `update_leaves_with_arg_in_ranges` with empty ranges at the edges of elements
-/

namespace GB
variable {E C D X σ Arg : Type} {B : Trait E C D} {A : Law B}
open Tree

/-- the ranges lie in the element and are not inverted -/
def GroupIn (len : Nat) (group : List (Nat × Nat × Arg)) : Prop := ∀ g ∈ group, g.1 ≤ g.2.1 ∧ g.2.1 ≤ len

theorem headD_mem {l : List Nat} (h : l ≠ []) (d : Nat) : l.headD d ∈ l := by
  cases l with
  | nil => exact absurd rfl h
  | cons a l => simp

theorem getLastD_mem {l : List Nat} (h : l ≠ []) (d : Nat) : l.getLastD d ∈ l := by
  cases l with
  | nil => exact absurd rfl h
  | cons a l => rw [show (a :: l).getLastD d = (a :: l).getLast (by simp) by rw [List.getLastD_cons, List.getLast_eq_getLastD]]; exact List.getLast_mem _

/-- the three cases of `widenRange` -/
theorem widenRange_cases (len : Nat) (cuts : List Nat) (a b : Nat) :
    (0 < len ∧ a = 0 ∧ b = 0 ∧ widenRange len cuts a b = (0, cuts.headD 0)) ∨
    (0 < len ∧ a = len ∧ b = len ∧ widenRange len cuts a b = (cuts.getLastD 0, len)) ∨
    (¬ (0 < len ∧ a = 0 ∧ b = 0) ∧ ¬ (0 < len ∧ a = len ∧ b = len) ∧ widenRange len cuts a b = (a, b)) := by
  unfold widenRange
  split
  · rename_i h; exact .inl ⟨h.1, h.2.1, h.2.2, rfl⟩
  · split
    · rename_i h; exact .inr (.inl ⟨h.1, h.2.1, h.2.2, rfl⟩)
    · rename_i h1 h2; exact .inr (.inr ⟨h1, h2, rfl⟩)

theorem widen_mem {len : Nat} {group : List (Nat × Nat × Arg)} {x : Nat × Nat × Arg} (h : x ∈ widenGroup len group) :
    ∃ g ∈ group, x = ((widenRange len (cutPoints len group) g.1 g.2.1).1, (widenRange len (cutPoints len group) g.1 g.2.1).2, g.2.2) := by
  obtain ⟨g, hg, rfl⟩ := List.mem_map.mp h
  exact ⟨g, hg, rfl⟩

theorem cut_bounds {len x : Nat} {group : List (Nat × Nat × Arg)} (h : x ∈ cutPoints len group) : 0 < x ∧ x < len :=
  ⟨(mem_cutPoints.mp h).1, (mem_cutPoints.mp h).2.1⟩

/-- widening adds no cuts -/
theorem widen_cuts {len : Nat} {group : List (Nat × Nat × Arg)} (hc : cutPoints len group ≠ []) :
    cutPoints len (widenGroup len group) = cutPoints len group := by
  refine sorted_ext (cutPoints_sorted _ _) (cutPoints_sorted _ _) (fun x => ?_)
  constructor
  · intro h
    obtain ⟨h0, h1, y, hy, h2⟩ := mem_cutPoints.mp h
    obtain ⟨g, hg, rfl⟩ := widen_mem hy
    rcases widenRange_cases len (cutPoints len group) g.1 g.2.1 with ⟨-, e1, e2, e3⟩ | ⟨-, e1, e2, e3⟩ | ⟨-, -, e3⟩
    · rw [e3] at h2
      rcases h2 with h2 | h2
      · simp only at h2; omega
      · rw [h2]; exact headD_mem hc 0
    · rw [e3] at h2
      rcases h2 with h2 | h2
      · rw [h2]; exact getLastD_mem hc 0
      · simp only at h2; omega
    · rw [e3] at h2
      exact mem_cutPoints.mpr ⟨h0, h1, g, hg, h2⟩
  · intro h
    obtain ⟨h0, h1, g, hg, h2⟩ := mem_cutPoints.mp h
    refine mem_cutPoints.mpr ⟨h0, h1, _, List.mem_map.mpr ⟨g, hg, rfl⟩, ?_⟩
    rcases widenRange_cases len (cutPoints len group) g.1 g.2.1 with ⟨-, e1, e2, e3⟩ | ⟨-, e1, e2, e3⟩ | ⟨-, -, e3⟩
    · omega
    · omega
    · rw [e3]; exact h2

/-- the widened ranges are as `C23_update_ranges_partial` wants them -/
theorem widen_ok {len : Nat} {group : List (Nat × Nat × Arg)} (hin : GroupIn len group) (hs : ¬ Stuck len group) : GroupOK len (widenGroup len group) := by
  intro y hy
  obtain ⟨g, hg, rfl⟩ := widen_mem hy
  have hgi := hin g hg
  have hc : (0 < len ∧ g.1 = g.2.1 ∧ (g.1 = 0 ∨ g.1 = len)) → cutPoints len group ≠ [] := by
    intro h hn
    refine hs ⟨hn, g, hg, ?_⟩
    unfold Fits
    omega
  rcases widenRange_cases len (cutPoints len group) g.1 g.2.1 with ⟨e0, e1, e2, e3⟩ | ⟨e0, e1, e2, e3⟩ | ⟨n1, n2, e3⟩
  · have := cut_bounds (headD_mem (hc ⟨e0, by omega, by omega⟩) 0)
    simp only [e3]; omega
  · have := cut_bounds (getLastD_mem (hc ⟨e0, by omega, by omega⟩) 0)
    simp only [e3]; omega
  · simp only [e3]; omega

theorem applyGroup_map {f : σ → E → Arg → M (σ × E)} {t t' : Nat → Nat → Bool} {w : Nat × Nat × Arg → Nat × Nat} : ∀ (group : List (Nat × Nat × Arg)) (st : σ) (e : E),
    (∀ g ∈ group, t (w g).1 (w g).2 = t' g.1 g.2.1) →
    applyGroup f t (group.map fun g => ((w g).1, (w g).2, g.2.2)) st e = applyGroup f t' group st e := by
  intro group
  induction group with
  | nil => intro st e _; rfl
  | cons g gs ih =>
    intro st e h
    obtain ⟨a, b, arg⟩ := g
    simp only [List.map_cons, applyGroup]
    rw [h (a, b, arg) (by simp)]
    simp only
    split
    · congr
      funext x
      exact ih _ _ (fun g hg => h g (by simp [hg]))
    · exact ih _ _ (fun g hg => h g (by simp [hg]))

theorem middle_widen {f : σ → E → Arg → M (σ × E)} {group : List (Nat × Nat × Arg)} {len : Nat} (hc : cutPoints len group ≠ []) :
    ∀ (xs : List Nat) (st : σ) (lo : Nat) (e : E), (lo :: xs).Pairwise (· < ·) → (cutPoints len group).headD 0 ≤ lo →
      (∀ x ∈ xs, x < len ∧ x ≤ (cutPoints len group).getLastD 0) →
      middlePieces B f (widenGroup len group) xs st lo e = middlePieces B f group xs st lo e := by
  intro xs
  induction xs with
  | nil => intro st lo e _ _ _; rfl
  | cons x xs ih =>
    intro st lo e hs hlo hx
    rw [List.pairwise_cons] at hs
    have hx1 := hx x (by simp)
    have hlx := hs.1 x (by simp)
    have hap : ∀ st e, applyGroup f (fun a b => decide (a ≤ lo ∧ x ≤ b)) (widenGroup len group) st e =
        applyGroup f (fun a b => decide (a ≤ lo ∧ x ≤ b)) group st e := by
      intro st e
      refine applyGroup_map (w := fun g => widenRange len (cutPoints len group) g.1 g.2.1) group st e (fun g hg => ?_)
      rw [decide_eq_decide]
      rcases widenRange_cases len (cutPoints len group) g.1 g.2.1 with ⟨e0, e1, e2, e3⟩ | ⟨e0, e1, e2, e3⟩ | ⟨n1, n2, e3⟩
      · simp only [e3]; omega
      · simp only [e3]; omega
      · simp only [e3]
    simp only [middlePieces, hap]
    congr
    funext p
    congr
    funext q
    rw [ih _ _ _ hs.2 (by omega) (fun y hy => hx y (by simp [hy]))]

/-- the code does to the ranges what it does to the widened ranges -/
theorem updOneLeaf_widen {f : σ → E → Arg → M (σ × E)} {group : List (Nat × Nat × Arg)} {e : E} (hin : GroupIn (B.rleLen e) group) (hs : ¬ Stuck (B.rleLen e) group) (st : σ) :
    updOneLeaf B f group st e = updOneLeaf B f (widenGroup (B.rleLen e) group) st e := by
  by_cases hc : cutPoints (B.rleLen e) group = []
  · have : widenGroup (B.rleLen e) group = group := by
      unfold widenGroup
      conv => rhs; rw [← List.map_id group]
      refine List.map_congr_left (fun g hg => ?_)
      have hgi := hin g hg
      rcases widenRange_cases (B.rleLen e) (cutPoints (B.rleLen e) group) g.1 g.2.1 with ⟨e0, e1, e2, e3⟩ | ⟨e0, e1, e2, e3⟩ | ⟨n1, n2, e3⟩
      · exact absurd ⟨hc, g, hg, by unfold Fits; omega⟩ hs
      · exact absurd ⟨hc, g, hg, by unfold Fits; omega⟩ hs
      · rw [e3]; rfl
    rw [this]
  · have hle : ∀ g ∈ group, g.1 ≤ B.rleLen e ∧ g.2.1 ≤ B.rleLen e := fun g hg => by have := hin g hg; omega
    simp only [updOneLeaf, splitPoints_eq hle, splitPoints_eq (widen_ok hin hs).le, widen_cuts hc]
    have hsd := cutPoints_sorted (B.rleLen e) group
    have hb : ∀ x ∈ cutPoints (B.rleLen e) group, 0 < x ∧ x < B.rleLen e := fun x hx => cut_bounds hx
    have hmw := middle_widen (B := B) (f := f) hc
    have hh := cut_bounds (headD_mem hc 0)
    have hl := cut_bounds (getLastD_mem hc 0)
    have ha : ∀ st e', applyGroup f (fun a _ => decide (a = 0)) (widenGroup (B.rleLen e) group) st e' = applyGroup f (fun a _ => decide (a = 0)) group st e' := by
      intro st e'
      refine applyGroup_map (w := fun g => widenRange (B.rleLen e) (cutPoints (B.rleLen e) group) g.1 g.2.1) group st e' (fun g hg => ?_)
      rw [decide_eq_decide]
      rcases widenRange_cases (B.rleLen e) (cutPoints (B.rleLen e) group) g.1 g.2.1 with ⟨e0, e1, e2, e3⟩ | ⟨e0, e1, e2, e3⟩ | ⟨n1, n2, e3⟩
      · rw [e3]; exact iff_of_true rfl e1
      · simp only [e3]; omega
      · simp only [e3]
    have hz : ∀ st e', applyGroup f (fun _ b => decide (b = B.rleLen e)) (widenGroup (B.rleLen e) group) st e' = applyGroup f (fun _ b => decide (b = B.rleLen e)) group st e' := by
      intro st e'
      refine applyGroup_map (w := fun g => widenRange (B.rleLen e) (cutPoints (B.rleLen e) group) g.1 g.2.1) group st e' (fun g hg => ?_)
      rw [decide_eq_decide]
      rcases widenRange_cases (B.rleLen e) (cutPoints (B.rleLen e) group) g.1 g.2.1 with ⟨e0, e1, e2, e3⟩ | ⟨e0, e1, e2, e3⟩ | ⟨n1, n2, e3⟩
      · simp only [e3]; omega
      · rw [e3]; exact iff_of_true rfl e2
      · simp only [e3]
    cases hcc : cutPoints (B.rleLen e) group with
    | nil => exact absurd hcc hc
    | cons first rest =>
      rw [hcc] at hsd hb hmw
      simp only [ha, hz]
      congr
      funext p
      congr
      funext q
      rw [hmw rest q.1 first p.2 hsd (by simp) (by
        intro x hx
        refine ⟨(hb x (by simp [hx])).2, ?_⟩
        rw [show (first :: rest).getLastD 0 = (first :: rest).getLast (by simp) by rw [List.getLastD_cons, List.getLast_eq_getLastD]]
        obtain ⟨u, hu⟩ : ∃ u, first :: rest = u ++ [(first :: rest).getLast (by simp)] := ⟨_, (List.dropLast_concat_getLast (by simp)).symm⟩
        have hm : x ∈ first :: rest := by simp [hx]
        rw [hu, List.mem_append] at hm
        rw [hu, List.pairwise_append] at hsd
        rcases hm with hm | hm
        · have := hsd.2.2 x hm ((first :: rest).getLast (by simp)) (by simp)
          omega
        · simp only [List.mem_singleton] at hm; omega)]

/-- a stuck leaf panics -/
theorem updOneLeaf_stuck {f : σ → E → Arg → M (σ × E)} {group : List (Nat × Nat × Arg)} {e : E} (hin : GroupIn (B.rleLen e) group) (hs : Stuck (B.rleLen e) group) (st : σ) :
    updOneLeaf B f group st e = .error .panic := by
  obtain ⟨hc, g, hg, hf⟩ := hs
  have hle : ∀ g ∈ group, g.1 ≤ B.rleLen e ∧ g.2.1 ≤ B.rleLen e := fun g hg => by have := hin g hg; omega
  simp only [updOneLeaf, splitPoints_eq hle, hc]
  have : (group.all fun g => decide (g.1 = 0 ∧ g.2.1 = B.rleLen e)) = false := by
    rw [List.all_eq_false]
    refine ⟨g, hg, ?_⟩
    rw [decide_eq_true_eq]
    unfold Fits at hf
    omega
  rw [this]
  rfl

theorem rangesOf_widen {es : List (Nat × E)} {l : Nat} {U V : List (Nat × E)} {e : E} (hl : locate l es = some (U, e, V)) (args : List (Nat × Nat × Nat × Arg)) :
    rangesOf (widen B es args) l = widenGroup (B.rleLen e) (rangesOf args l) := by
  have key : ∀ as : List (Nat × Nat × Nat × Arg),
      ((as.map fun x => match locate x.1 es with
        | none => x
        | some (_, e, _) =>
          let r := widenRange (B.rleLen e) (cutPoints (B.rleLen e) (rangesOf args x.1)) x.2.1 x.2.2.1
          (x.1, r.1, r.2, x.2.2.2)).filter fun a => a.1 = l).map Prod.snd =
      ((as.filter fun a => a.1 = l).map Prod.snd).map fun g =>
        ((widenRange (B.rleLen e) (cutPoints (B.rleLen e) (rangesOf args l)) g.1 g.2.1).1, (widenRange (B.rleLen e) (cutPoints (B.rleLen e) (rangesOf args l)) g.1 g.2.1).2, g.2.2) := by
    intro as
    induction as with
    | nil => rfl
    | cons a as ih =>
      rw [List.map_cons, List.filter_cons, List.filter_cons]
      by_cases ha : a.1 = l
      · rw [if_pos (decide_eq_true ha), List.map_cons, List.map_cons, ← ih]
        subst ha
        simp only [hl, decide_true, if_true, List.map_cons]
      · rw [if_neg (c := decide (a.1 = l) = true) (by simpa using ha), ← ih, if_neg]
        cases locate a.1 es <;> simpa using ha
  exact key args

theorem widen_leaves (es : List (Nat × E)) (args : List (Nat × Nat × Nat × Arg)) : (widen B es args).map (fun a => a.1) = args.map (fun a => a.1) := by
  unfold widen
  rw [List.map_map]
  refine List.map_congr_left (fun a _ => ?_)
  simp only [Function.comp]
  cases locate a.1 es <;> rfl

theorem lf_of_elm {s : Tree E C} {l : Nat} {e : E} (h : elm s l = some e) : ∃ q, s.lf.get l = some ⟨e, q⟩ := by
  cases hx : s.lf.get l with
  | none => simp [elm, hx] at h
  | some L =>
    rw [elm_of hx] at h
    cases h
    exact ⟨L.parent, rfl⟩

theorem updGroups_congr {f : σ → E → Arg → M (σ × E)} {args args' : List (Nat × Nat × Nat × Arg)} : ∀ (ls : List Nat) (st : σ) (s : Tree E C) (dm : List (Idx × D)) (nw : List (Cursor × List E)),
    ls.Nodup → (∀ l ∈ ls, ∃ e, elm s l = some e ∧ ∀ st, updOneLeaf B f (rangesOf args l) st e = updOneLeaf B f (rangesOf args' l) st e) →
    updGroups B f args ls st s dm nw = updGroups B f args' ls st s dm nw := by
  intro ls
  induction ls with
  | nil => intro st s dm nw _ _; rfl
  | cons l ls ih =>
    intro st s dm nw nd h
    rw [List.nodup_cons] at nd
    obtain ⟨e, he, hu⟩ := h l (by simp)
    obtain ⟨q, hL⟩ := lf_of_elm he
    have hu : updOneLeaf B f ((args.filter fun a => a.1 = l).map Prod.snd) st e = updOneLeaf B f ((args'.filter fun a => a.1 = l).map Prod.snd) st e := hu st
    simp only [updGroups, getLf_ok hL, bind_ok, hu]
    congr
    funext p
    obtain ⟨st1, e1, es1⟩ := p
    refine ih _ _ _ _ nd.2 (fun k hk => ?_)
    obtain ⟨e', he', hu'⟩ := h k (by simp [hk])
    refine ⟨e', ?_, hu'⟩
    rw [elm_upd hL, if_neg (by rintro rfl; exact nd.1 hk)]
    exact he'

theorem updGroups_stuck {f : σ → E → Arg → M (σ × E)} (hf : ArgOK A f) (hsl : SplitLen B A.okE) {args : List (Nat × Nat × Nat × Arg)} :
    ∀ (ls : List Nat) (st : σ) (s : Tree E C) (dm : List (Idx × D)) (nw : List (Cursor × List E)), ls.Nodup →
    (∀ l ∈ ls, ∃ e, elm s l = some e ∧ A.okE e ∧ GroupIn (B.rleLen e) (rangesOf args l)) →
    (∃ l ∈ ls, ∃ e, elm s l = some e ∧ Stuck (B.rleLen e) (rangesOf args l)) → updGroups B f args ls st s dm nw = .error .panic := by
  intro ls
  induction ls with
  | nil => intro st s dm nw _ _ ⟨l, hl, _⟩; simp at hl
  | cons l ls ih =>
    intro st s dm nw nd h hst
    rw [List.nodup_cons] at nd
    obtain ⟨e, he, hok, hin⟩ := h l (by simp)
    obtain ⟨q, hL⟩ := lf_of_elm he
    by_cases hs : Stuck (B.rleLen e) (rangesOf args l)
    · have hu : updOneLeaf B f ((args.filter fun a => a.1 = l).map Prod.snd) st e = _ := updOneLeaf_stuck hin hs st
      simp only [updGroups, getLf_ok hL, bind_ok, hu]
      rfl
    · obtain ⟨st1, P, p1, p2, p3⟩ := specPieces_ok hf hsl (group := widenGroup (B.rleLen e) (rangesOf args l)) (len := B.rleLen e)
        (cutPoints (B.rleLen e) (widenGroup (B.rleLen e) (rangesOf args l))) st 0 e hok (by omega)
        (List.pairwise_cons.mpr ⟨fun x hx => (mem_cutPoints.mp hx).1, cutPoints_sorted _ _⟩) (fun x hx => (mem_cutPoints.mp hx).2.1)
      obtain ⟨p, ps, rfl, hu⟩ := updOneLeaf_eq (widen_ok hin hs) p1
      rw [← updOneLeaf_widen hin hs] at hu
      have hu : updOneLeaf B f ((args.filter fun a => a.1 = l).map Prod.snd) st e = _ := hu
      simp only [updGroups, getLf_ok hL, bind_ok, hu]
      have keep : ∀ k, k ≠ l → elm (s.setLf l ⟨p, q⟩) k = elm s k := fun k hk => by rw [elm_upd hL, if_neg hk]
      refine ih _ _ _ _ nd.2 (fun k hk => ?_) ?_
      · obtain ⟨e', h1, h2⟩ := h k (by simp [hk])
        exact ⟨e', by rw [keep k (by rintro rfl; exact nd.1 hk)]; exact h1, h2⟩
      · obtain ⟨k, hk, e', h1, h2⟩ := hst
        have hkl : k ≠ l := by
          rintro rfl
          rw [he] at h1
          cases h1
          exact hs h2
        refine ⟨k, ?_, e', by rw [keep k hkl]; exact h1, h2⟩
        simpa [hkl] using hk

end GB
