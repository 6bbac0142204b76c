import Verif.Proof.WritesRemove
import Verif.Proof.WritesInsert
import Verif.Proof.LackRounds
import Verif.Proof.DrainAll

/-!
# The nodes that `drain` changes
-/

namespace GB
variable {E C D : Type}
open Tree

namespace Touches
variable {s s1 s2 s' : Tree E C} {m n : Nat}

theorem of_writes (w : Writes s s' n) : Touches s s' n := by
  obtain ⟨X, L, h1, h2, h3⟩ := w
  exact ⟨X, L, h1, fun x hx => Or.inl (h2 x hx), fun l hl => Or.inl (h3 l hl)⟩

theorem refl (s : Tree E C) : Touches s s 0 := of_writes (Writes.refl s)

theorem mono (w : Touches s s' m) (h : m ≤ n) : Touches s s' n := by
  obtain ⟨X, L, h1, h2, h3⟩ := w
  exact ⟨X, L, by omega, h2, h3⟩

theorem trans (w : Touches s s1 m) (w' : Touches s1 s2 n) : Touches s s2 (m + n) := by
  obtain ⟨X, L, h1, h2, h3⟩ := w
  obtain ⟨X', L', h1', h2', h3'⟩ := w'
  refine ⟨X ++ X', L ++ L', by simp only [List.length_append]; omega, ?_, ?_⟩
  · intro x hx
    simp only [List.mem_append, not_or] at hx
    rcases h2' x hx.2 with h | h
    · rw [h]; exact h2 x hx.1
    · exact Or.inr h
  · intro x hx
    simp only [List.mem_append, not_or] at hx
    rcases h3' x hx.2 with h | h
    · rw [h]; exact h3 x hx.1
    · exact Or.inr h

theorem seq {k : Nat} (w : Touches s s1 m) (w' : Touches s1 s2 n) (h : m + n ≤ k) : Touches s s2 k := (w.trans w').mono h

theorem removeLf (s : Tree E C) (l : Nat) : Touches s { s with lf := s.lf.remove l } 0 := by
  refine ⟨[], [], Nat.le_refl _, fun _ _ => Or.inl rfl, fun y _ => ?_⟩
  show (s.lf.remove l).get y = _ ∨ (s.lf.remove l).get y = _
  rw [Arena.get_remove]
  split
  · exact Or.inr rfl
  · exact Or.inl rfl

theorem removeIn (s : Tree E C) (x : Nat) : Touches s { s with inn := s.inn.remove x } 0 := by
  refine ⟨[], [], Nat.le_refl _, fun y _ => ?_, fun _ _ => Or.inl rfl⟩
  show (s.inn.remove x).get y = _ ∨ (s.inn.remove x).get y = _
  rw [Arena.get_remove]
  split
  · exact Or.inr rfl
  · exact Or.inl rfl

end Touches

section
variable {B : Trait E C D} {s s' : Tree E C} {lvl : Nat → Nat} {h : Nat}

/-! ## Taking the leaves -/

theorem drainNext_touches {d d' : Drain E C} {o : Option E} (e : drainNext d = .ok (o, d')) :
    Touches d.tree d'.tree 0 ∧ d'.tree.inn = d.tree.inn := by
  unfold drainNext at e
  split at e
  · cases e; exact ⟨Touches.refl _, rfl⟩
  · obtain ⟨last, -, e⟩ := bind_inv e
    obtain ⟨l, -, e⟩ := bind_inv e
    split at e
    · cases e; exact ⟨Touches.refl _, rfl⟩
    · obtain ⟨⟨p, b⟩, -, e⟩ := bind_inv e
      obtain ⟨leaf, -, e⟩ := bind_inv e
      cases e
      exact ⟨Touches.removeLf _ _, rfl⟩

theorem drainTake_touches : ∀ (k : Nat) {d d' : Drain E C} {es : List E}, drainTake k d = .ok (es, d') →
    Touches d.tree d'.tree 0 ∧ d'.tree.inn = d.tree.inn := by
  intro k
  induction k with
  | zero => intro d d' es e; cases e; exact ⟨Touches.refl _, rfl⟩
  | succ k ih =>
    intro d d' es e
    obtain ⟨⟨o, d1⟩, e1, e⟩ := bind_inv e
    obtain ⟨⟨es1, d2⟩, e2, e⟩ := bind_inv e
    cases e
    obtain ⟨t1, i1⟩ := drainNext_touches e1
    obtain ⟨t2, i2⟩ := ih e2
    exact ⟨t1.trans t2, i2.trans i1⟩

theorem drainFinish_touches : ∀ (k : Nat) {d d' : Drain E C} {es : List E}, drainFinish k d = .ok (es, d') →
    Touches d.tree d'.tree 0 ∧ d'.tree.inn = d.tree.inn := by
  intro k
  induction k with
  | zero => intro d d' es e; cases e
  | succ k ih =>
    intro d d' es e
    obtain ⟨⟨o, d1⟩, e1, e⟩ := bind_inv e
    obtain ⟨t1, i1⟩ := drainNext_touches e1
    cases o with
    | none => cases e; exact ⟨t1, i1⟩
    | some x =>
      obtain ⟨⟨es1, d2⟩, e2, e⟩ := bind_inv e
      cases e
      obtain ⟨t2, i2⟩ := ih e2
      exact ⟨t1.trans t2, i2.trans i1⟩

/-! ## Cutting the paths -/

theorem filterDeleted_writes {x : Idx} (r : Ranked lvl h s) (e : filterDeleted s x = .ok s') : Writes s s' 1 ∧ Ranked lvl h s' := by
  obtain ⟨i, -, e⟩ := bind_inv e
  obtain ⟨N, hN, e⟩ := bind_inv e
  have f := r i N (getIn_inv hN)
  cases e
  refine ⟨Writes.setIn _ _ _, r.setIn (f.children (fun c hc => ⟨c, (List.mem_filter.mp hc).1, rfl⟩) ?_)⟩
  exact Nat.le_trans (List.length_filter_le _ _) f.cap

theorem delRange_sub {α : Type} {l r : List α} {a b : Nat} (e : delRange l a b = .ok r) : (∀ c ∈ r, c ∈ l) ∧ r.length ≤ l.length := by
  unfold delRange at e
  split at e
  · cases e; exact ⟨fun c hc => hc, Nat.le_refl _⟩
  · split at e
    · cases e
      refine ⟨fun c hc => ?_, by simp only [List.length_append, List.length_take, List.length_drop]; omega⟩
      rcases List.mem_append.mp hc with hc | hc
      · exact List.mem_of_mem_take hc
      · exact List.mem_of_mem_drop hc
    · cases e

theorem Ranks.cut {k x a b : Nat} {N : Node C} {cs : List (Child C)} (f : Ranks k lvl h x N) (e : delRange N.children a b = .ok cs) :
    Ranks k lvl h x { N with children := cs } :=
  f.children (fun c hc => ⟨c, (delRange_sub e).1 c hc, rfl⟩) (Nat.le_trans (delRange_sub e).2 f.cap)

theorem dropLoop1_writes (sp ep : List PIdx) : ∀ (level : Nat) (s : Tree E C) (del : List Idx) {lv : Nat} {del' : List Idx} {s' : Tree E C},
    Ranked lvl h s → dropLoop1 sp ep level s del = .ok (lv, del', s') → lv ≤ level ∧ Writes s s' (14 * (level - lv)) ∧ Ranked lvl h s' := by
  intro level
  induction level with
  | zero =>
    intro s del lv del' s' r e
    unfold dropLoop1 at e
    obtain ⟨a, -, e⟩ := bind_inv e
    obtain ⟨b, -, e⟩ := bind_inv e
    split at e
    · cases e; exact ⟨Nat.le_refl _, (Writes.refl s).mono (by omega), r⟩
    · cases e
  | succ l ih =>
    intro s del lv del' s' r e
    unfold dropLoop1 at e
    obtain ⟨a, -, e⟩ := bind_inv e
    obtain ⟨b, -, e⟩ := bind_inv e
    split at e
    · cases e; exact ⟨Nat.le_refl _, (Writes.refl s).mono (by omega), r⟩
    · obtain ⟨an, -, e⟩ := bind_inv e
      obtain ⟨bn, -, e⟩ := bind_inv e
      simp only at e
      obtain ⟨pa, -, e⟩ := bind_inv e
      obtain ⟨pb, -, e⟩ := bind_inv e
      obtain ⟨pai, -, e⟩ := bind_inv e
      obtain ⟨pbi, -, e⟩ := bind_inv e
      split at e
      · obtain ⟨par, hp, e⟩ := bind_inv e
        obtain ⟨_, -, e⟩ := bind_inv e
        obtain ⟨cs, hd, e⟩ := bind_inv e
        obtain ⟨s2, e2, e⟩ := bind_inv e
        obtain ⟨w2, r2⟩ := updSlotsFrom_writes (r.setIn ((r _ par (getIn_inv hp)).cut hd)) e2
        obtain ⟨h1, w3, r3⟩ := ih _ _ r2 e
        exact ⟨by omega, ((Writes.setIn _ _ _).trans w2).seq w3 (by omega), r3⟩
      · obtain ⟨par, hp, e⟩ := bind_inv e
        obtain ⟨_, -, e⟩ := bind_inv e
        obtain ⟨cs, hd, e⟩ := bind_inv e
        obtain ⟨parE, hpE, e⟩ := bind_inv e
        obtain ⟨_, -, e⟩ := bind_inv e
        obtain ⟨csE, hdE, e⟩ := bind_inv e
        obtain ⟨s2, e2, e⟩ := bind_inv e
        have r1 := r.setIn ((r _ par (getIn_inv hp)).cut hd)
        obtain ⟨w2, r2⟩ := updSlotsFrom_writes (r1.setIn ((r1 _ parE (getIn_inv hpE)).cut hdE)) e2
        obtain ⟨h1, w3, r3⟩ := ih _ _ r2 e
        exact ⟨by omega, (((Writes.setIn _ _ _).trans (Writes.setIn _ _ _)).trans w2).seq w3 (by omega), r3⟩

theorem dropLoop2_writes (sp : List PIdx) : ∀ (level : Nat) (s : Tree E C) (del : List Idx) {del' : List Idx} {s' : Tree E C},
    Ranked lvl h s → dropLoop2 sp level s del = .ok (del', s') → Writes s s' (13 * level) ∧ Ranked lvl h s' := by
  intro level
  induction level with
  | zero => intro s del del' s' r e; cases e; exact ⟨Writes.refl s, r⟩
  | succ l ih =>
    intro s del del' s' r e
    unfold dropLoop2 at e
    obtain ⟨a, -, e⟩ := bind_inv e
    obtain ⟨pa, -, e⟩ := bind_inv e
    obtain ⟨ai, -, e⟩ := bind_inv e
    obtain ⟨pai, -, e⟩ := bind_inv e
    obtain ⟨_, -, e⟩ := bind_inv e
    obtain ⟨child, -, e⟩ := bind_inv e
    obtain ⟨par, hp, e⟩ := bind_inv e
    split at e
    · obtain ⟨c, -, e⟩ := bind_inv e
      obtain ⟨_, -, e⟩ := bind_inv e
      obtain ⟨⟨c', cs⟩, hv, e⟩ := bind_inv e
      simp only at e
      obtain ⟨s2, e2, e⟩ := bind_inv e
      obtain ⟨w2, r2⟩ := updSlotsFrom_writes (r.setIn ((r _ par (getIn_inv hp)).erase (N := par) hv)) e2
      obtain ⟨w3, r3⟩ := ih _ _ r2 e
      exact ⟨((Writes.setIn _ _ _).trans w2).seq w3 (by omega), r3⟩
    · cases e; exact ⟨(Writes.refl s).mono (by omega), r⟩

theorem purgeF_touches : ∀ (n : Nat) (s : Tree E C) (st : List Idx) {s' : Tree E C}, Ranked lvl h s → purgeF n s st = .ok s' →
    Touches s s' 0 ∧ Ranked lvl h s' := by
  intro n
  induction n with
  | zero => intro s st s' _ e; cases e
  | succ n ih =>
    intro s st s' r e
    match st, e with
    | [], e => cases e; exact ⟨Touches.refl s, r⟩
    | .leaf l :: st, e =>
      rw [purgeF] at e
      obtain ⟨t, r'⟩ := ih { s with lf := s.lf.remove l } _ (r.inn rfl) e
      exact ⟨(Touches.removeLf s l).trans t, r'⟩
    | .internal x :: st, e =>
      rw [purgeF] at e
      split at e
      · exact ih _ _ r e
      · obtain ⟨t, r'⟩ := ih _ _ (r.removeIn x) e
        exact ⟨(Touches.removeIn s x).trans t, r'⟩

theorem purgeAll_touches : ∀ (xs : List Idx) (s : Tree E C) {s' : Tree E C}, Ranked lvl h s → purgeAll s xs = .ok s' → Touches s s' 0 ∧ Ranked lvl h s' := by
  intro xs
  induction xs with
  | nil => intro s s' r e; cases e; exact ⟨Touches.refl s, r⟩
  | cons x xs ih =>
    intro s s' r e
    obtain ⟨s1, e1, e⟩ := bind_inv e
    obtain ⟨t1, r1⟩ := purgeF_touches _ _ _ r e1
    obtain ⟨t2, r2⟩ := ih _ r1 e
    exact ⟨t1.trans t2, r2⟩

theorem prune_touches {sp ep : List PIdx} {v : Tree E C} (r : Ranked lvl h s) (hb : (do
      assertM (decide (2 ≤ sp.length))
      let level := sp.length - 2
      let a ← vget sp level
      let s ← filterDeleted s a.arena
      let b ← vget ep level
      let s ← filterDeleted s b.arena
      let (level, deleted, s) ← dropLoop1 sp ep level s []
      let (deleted, s) ← dropLoop2 sp level s deleted
      purgeAll s deleted : M (Tree E C)) = .ok v) : Touches s v (14 * (sp.length - 2) + 2) ∧ Ranked lvl h v := by
  obtain ⟨_, -, hb⟩ := bind_inv hb
  obtain ⟨a, -, hb⟩ := bind_inv hb
  obtain ⟨s1, k3, hb⟩ := bind_inv hb
  obtain ⟨b, -, hb⟩ := bind_inv hb
  obtain ⟨s2, k5, hb⟩ := bind_inv hb
  obtain ⟨⟨lv, del, s3⟩, k6, hb⟩ := bind_inv hb
  obtain ⟨⟨del', s4⟩, k7, hb⟩ := bind_inv hb
  obtain ⟨w3, r3⟩ := filterDeleted_writes r k3
  obtain ⟨w5, r5⟩ := filterDeleted_writes r3 k5
  obtain ⟨hl, w6, r6⟩ := dropLoop1_writes sp ep _ _ _ r5 k6
  obtain ⟨w7, r7⟩ := dropLoop2_writes sp _ _ _ r6 k7
  obtain ⟨t8, r8⟩ := purgeAll_touches _ _ r7 hb
  exact ⟨(Touches.of_writes (((w3.trans w5).trans w6).trans w7)).seq t8 (by omega), r8⟩

/-! ## The repair -/

variable {A : Law B}

theorem Thin.ranked (th : Thin s) (g : Good A s lvl h) : Ranked lvl h s :=
  g.ranked (th.szx h) (fun x hx => by
    subst hx
    obtain ⟨N, hN, -⟩ := g.wf.root
    have := (th s.root (lnk_isSome.mpr ⟨N, hN⟩)).1
    omega)

theorem lackOnPath_writes : ∀ (path : List PIdx) (s : Tree E C) (k : Nat) {k' : Nat} {s' : Tree E C}, Good A s lvl h → Thin s → Desc s lvl path →
    lackOnPath B s path k = .ok (k', s') → Writes s s' (27 * path.length) := by
  intro path
  induction path with
  | nil => intro s k k' s' _ _ _ e; cases e; exact Writes.refl s
  | cons i rest ih =>
    intro s k k' s' g th hd e
    obtain ⟨hd1, hd2⟩ := hd
    rw [List.pairwise_cons] at hd2
    obtain ⟨x, hia, hx, hr⟩ := hd1 i (by simp)
    obtain ⟨N, hN⟩ := lnk_isSome.mp hx
    by_cases hl : (chs s x).length < 6
    · have hlk : N.isLack = true := by rw [Node.isLack, ← chs_of hN]; exact decide_eq_true hl
      obtain ⟨r, s1, e1, g1, th1, sm1, it1, keep1, ps1⟩ := lackStep g th hx hr hl
      have hd1 : Desc s1 lvl rest := by
        refine ⟨fun j hj => ?_, hd2.2⟩
        obtain ⟨y, h1, h2, h3⟩ := hd1 j (by simp [hj])
        exact ⟨y, h1, keep1 y h2 (hd2.1 j hj x y hia h1), by rw [sm1.root]; exact h3⟩
      simp only [lackOnPath, hia, Idx.unwrapInternal, bind_ok, getIn_ok hN, hlk, if_true, e1] at e
      have w2 := ih s1 _ g1 th1 hd1 e
      rcases handleLackSingle_writes (th.ranked g) e1 with ⟨h1, -⟩ | ⟨w1, -⟩
      · exact absurd h1 hr
      · exact w1.seq w2 (by rw [List.length_cons]; omega)
    · have hlk : N.isLack = false := by rw [Node.isLack, ← chs_of hN]; exact decide_eq_false hl
      simp only [lackOnPath, hia, Idx.unwrapInternal, bind_ok, getIn_ok hN, hlk] at e
      exact (ih s k g th ⟨fun j hj => hd1 j (by simp [hj]), hd2.2⟩ e).mono (by rw [List.length_cons]; omega)

theorem Stair.length {l : Nat} {L : List PIdx} {k : Nat} (st : Stair s lvl l k L) : L.length = k := by
  induction st with
  | nil => rfl
  | cons _ _ _ _ ih => rw [List.length_cons, ih]

theorem handleLackPathF_writes (hh : h ≤ 9) {l : Nat} : ∀ (n : Nat) (s : Tree E C) (last : Nat) {s' : Tree E C}, Good A s lvl h → Thin s →
    lpar s l ≠ none → handleLackPathF B n s (.leaf l) last = .ok s' → Writes s s' (27 * (h - 1) * n) := by
  intro n
  induction n with
  | zero => intro s last s' _ _ _ e; cases e
  | succ n ih =>
    intro s last s' g th hl e
    obtain ⟨i, rest, p1, p2, p3⟩ := getPath_leaf g.wf hh hl
    obtain ⟨k, s1, e1, g1, th1, sm1, it1, -⟩ := lackOnPath_spec (B := B) (rest.dropLast.reverse) s 0 g th (leaf_desc g.wf p2)
    have w1 := lackOnPath_writes _ s 0 g th (leaf_desc g.wf p2) e1
    rw [(leaf_stair g.wf p2).length] at w1
    simp only [handleLackPathF, p1, bind_ok, List.drop_succ_cons, List.drop_zero, e1] at e
    rw [Nat.mul_succ]
    split at e
    · cases e
      exact w1.mono (by omega)
    · exact w1.seq (ih s1 k g1 th1 (same_lpar sm1 hl) e) (by omega)

/-- The rounds of the repair, from the start. -/
theorem handleLackPath_room (g : Good A s lvl h) (l : Nat) : Room s lvl h l (5 * h - 3) := by
  have hp := g.wf.h_pos
  refine ⟨0, 1, by omega, ?_, fun y hy _ => hy.ne, by omega⟩
  intro y hy hly
  have := (g.wf.lvl_pos' hy.live).1
  omega

theorem handleLackPath_writes (hh : h ≤ 9) {l : Nat} (g : Good A s lvl h) (th : Thin s) (hl : lpar s l ≠ none)
    (e : handleLackPath B s (.leaf l) = .ok s') : Writes s s' (27 * (h - 1) * (5 * h - 3)) := by
  unfold handleLackPath at e
  rcases Nat.le_total (4 * s.inn.items.length + 4) (5 * h - 3) with h1 | h1
  · exact (handleLackPathF_writes hh _ s 0 g th hl e).mono (Nat.mul_le_mul_left _ h1)
  · have en := endsWithin_of_mono (fun n => handleLackPathF_mono B n s (.leaf l) 0)
      (handleLackPathF_rounds hh (5 * h - 3) s 0 g th hl (Or.inl (handleLackPath_room g l)))
    have e' := (en.2 _ h1).symm.trans e
    exact handleLackPathF_writes hh _ s 0 g th hl e'

theorem sealTree_writes (hh : h ≤ 9) {l : Nat} (g : Good A s lvl h) (th : Thin s) (hl : lpar s l ≠ none) (e : sealTree B s (.leaf l) = .ok s') :
    Writes s s' (54 * (h - 1) * (5 * h - 3) + 2 * h + 13) := by
  obtain ⟨s1, e1, e⟩ := bind_inv e
  obtain ⟨s1', e1', g1, th1, sm1, -⟩ := handleLackPath_spec (B := B) hh g th hl
  rw [e1] at e1'
  cases e1'
  have w1 := handleLackPath_writes hh g th hl e1
  have hl1 := same_lpar sm1 hl
  obtain ⟨u, v, o1, o2⟩ := nextSameLevelLeaf_spec g1.wf th1.ne hl1
  obtain ⟨s2, e2, e⟩ := bind_inv e
  have mul : 54 * (h - 1) * (5 * h - 3) = 27 * (h - 1) * (5 * h - 3) + 27 * (h - 1) * (5 * h - 3) := by
    rw [show 54 * (h - 1) = 27 * (h - 1) + 27 * (h - 1) by omega, Nat.add_mul]
  rw [nextSameLevel, o2] at e2
  cases v with
  | nil =>
    cases e2
    exact w1.seq (tryReduceLevels_writes (th1.ranked g1) e) (by omega)
  | cons b v =>
    have hb : lpar s1 b ≠ none := (mem_order g1.wf).mp (by rw [o1]; simp)
    have e2 : handleLackPath B s1 (.leaf b) = .ok s2 := e2
    obtain ⟨s2', f1, g2, th2, -⟩ := handleLackPath_spec (B := B) hh g1 th1 hb
    rw [e2] at f1
    cases f1
    exact (w1.trans (handleLackPath_writes hh g1 th1 hb e2)).seq (tryReduceLevels_writes (th2.ranked g2) e) (by omega)

theorem dropCaches_writes {b : Idx} {o : Option Idx} (r : Ranked lvl h s) (e : dropCaches B b o s = .ok s') :
    Writes s s' (3 * h + 3) ∧ Ranked lvl h s' := by
  obtain ⟨s1, e1, e⟩ := bind_inv e
  have h1 : Writes s s1 (h + 1) ∧ Ranked lvl h s1 := by
    cases o with
    | none => cases e1; exact ⟨(Writes.refl s).mono (by omega), r⟩
    | some a => exact recursiveUpdateCache_writes r e1
  obtain ⟨w1, r1⟩ := h1
  split at e
  · obtain ⟨w2, r2⟩ := recursiveUpdateCache_writes r1 e
    exact ⟨w1.seq w2 (by omega), r2⟩
  · obtain ⟨s2, e2, e⟩ := bind_inv e
    obtain ⟨w2, r2⟩ := recursiveUpdateCache_writes r1 e2
    cases o with
    | none => cases e; exact ⟨w1.seq w2 (by omega), r2⟩
    | some a =>
      obtain ⟨w3, r3⟩ := recursiveUpdateCache_writes r2 e
      exact ⟨(w1.trans w2).seq w3 (by omega), r3⟩

theorem updateRootCache_writes (e : updateRootCache B s = .ok s') : Writes s s' 0 ∧ s'.inn = s.inn := by
  obtain ⟨N, -, e⟩ := bind_inv e
  obtain ⟨⟨rc, o⟩, -, e⟩ := bind_inv e
  cases e
  exact ⟨⟨[], [], Nat.le_refl _, fun _ _ => rfl, fun _ _ => rfl⟩, rfl⟩

/-- The end of the drop, when nothing is left before the gap. -/
theorem dropTail_none_writes {o : Option Idx} (r : Ranked lvl h s) (e : dropTail B none o s = .ok s') : Writes s s' (3 * h + 14) := by
  obtain ⟨s1, e1, e⟩ := bind_inv e
  have h1 : Writes s s1 (h + 1) ∧ Ranked lvl h s1 := by
    cases o with
    | none => cases e1; exact ⟨(Writes.refl s).mono (by omega), r⟩
    | some a => exact recursiveUpdateCache_writes r e1
  obtain ⟨w1, r1⟩ := h1
  obtain ⟨s2, e2, e⟩ := bind_inv e
  obtain ⟨w2, i2⟩ := updateRootCache_writes e2
  exact (w1.trans w2).seq (tryReduceLevels_writes (r1.inn i2) e) (by omega)

variable {X Y Z : List Nat}

/-- What taking `k` elements and dropping changes, on a tree cut at both ends. -/
theorem drain_run_touches {m : Fill} (hm1 : 1 ≤ m.lo) (hm5 : m.lo + m.d ≤ 5) (g : Good A s lvl h) (sz : Sz m s h) (hh : h ≤ 9) {sp ep : List PIdx} {y e k : Nat}
    {d d1 : Drain E C} (c : Cuts s X Y Z y e) (rs : RPath s y h sp.reverse) (re : RPath s e h ep.reverse) (t : DS s h X [] Y Z d)
    (hd : d.tree = s) (hst : d.store = some ⟨sp, ep, X.getLast?.map .leaf, Z.head?.map .leaf⟩) {es rest : List E}
    (e1 : drainTake k d = .ok (es, d1)) (e2 : drainDrop B d1 = .ok (rest, s')) : Touches s s' (54 * (h - 1) * (5 * h - 3) + 19 * h + 18) := by
  have th := Thin.of_sz hm1 sz
  obtain ⟨d1', a1, a2, a3⟩ := drainTake_spec g.wf th.ne k [] Y d t
  rw [e1] at a1
  cases a1
  have hlen : (Y.drop k).length < leafFuel d1.tree := by
    have h1 := order_length_le g.wf
    have h2 := a2.items
    rw [c.ord] at h1
    simp only [List.length_append, List.length_drop, leafFuel] at h1 ⊢
    omega
  obtain ⟨d2, b1, b2, b3⟩ := drainFinish_spec g.wf th.ne _ _ _ d1 a2 hlen
  rw [List.nil_append, List.take_append_drop] at b2
  have h12 : ∀ x, (chs s x).length ≤ 12 := by
    intro x
    by_cases hx : lnk s x = none
    · have : chs s x = [] := chs_none hx
      rw [this]; simp
    · have := (th x hx).1; omega
  obtain ⟨v, v1, v2, -⟩ := drop_prune c g.wf th.ne h12 rs re b2.inn b2.root b2.rc b2.lf b2.items
  obtain ⟨s'', lvl', h', w1, -, -, -, -, w6⟩ := dropTail_spec hm1 hm5 hh c g sz v2
  rw [drainDrop_parts b1 ((b3.trans a3).trans hst) v1 w1] at e2
  cases e2
  have t1 := (drainTake_touches k e1).1
  rw [hd] at t1
  have t2 := (drainFinish_touches _ b1).1
  have hp := g.wf.h_pos
  obtain ⟨t3, r3⟩ := prune_touches ((th.ranked g).inn b2.inn) v1
  rw [rs.len] at t3
  have t123 : Touches s v (14 * (h + 1 - 2) + 2) := ((t1.trans t2).trans t3).mono (by omega)
  cases hx : X.getLast? with
  | none =>
    rw [hx] at w1
    exact t123.seq (Touches.of_writes (dropTail_none_writes r3 w1)) (by omega)
  | some b =>
    obtain ⟨u, k1, gu, thu, k2⟩ := w6 b hx
    have hb : lpar u b ≠ none := by
      unfold sealTree at k2
      obtain ⟨u1, k3, -⟩ := bind_inv k2
      unfold handleLackPath handleLackPathF at k3
      obtain ⟨p, k4, -⟩ := bind_inv k3
      unfold getPath at k4
      obtain ⟨L, hL, -⟩ := bind_inv k4
      rw [lpar_of (L := L) (unwrap_inv hL)]
      simp
    exact t123.seq (Touches.of_writes ((dropCaches_writes r3 k1).1.trans (sealTree_writes hh gu thu hb k2))) (by omega)

theorem drain_touches {m : Fill} (hm1 : 1 ≤ m.lo) (hm5 : m.lo + m.d ≤ 5) (g : Good A s lvl h) (sz : Sz m s h) (hsl : SplitLen B A.okE)
    {a b : Cursor} {ea eb : E} {Ua Va Ub Vb : List Nat}
    (ha : order s = Ua ++ a.leaf :: Va) (hea : elm s a.leaf = some ea) (hoa : a.offset ≤ B.rleLen ea)
    (hb : order s = Ub ++ b.leaf :: Vb) (heb : elm s b.leaf = some eb) (hob : b.offset ≤ B.rleLen eb)
    (hle : NotBehind B Ua Ub Vb a b eb) (hz : EndPos B s Vb b eb)
    (hend : a.offset = 0 ∨ a.offset < B.rleLen ea ∨ Va ≠ []) {fa fb : Bool} {k : Nat} {es rest : List E}
    (hr : drain B s ⟨a, fa⟩ ⟨b, fb⟩ k = .ok (es, rest, s')) : Touches s s' (54 * h * (5 * h + 2) + 63 * h + 71) := by
  obtain ⟨ei, s1, si, s2, lvl2, h2, X, Y, Z, c1, c2, g2, sz2, hst, ho, n1, n2, p2, p3, -⟩ :=
    drain_cuts hm1 hm5 g sz hsl ha hea hoa hb heb hob hle
  have hne := p3 hend
  obtain ⟨y, hy⟩ : ∃ y, (Y ++ Z).head? = some y := Option.ne_none_iff_exists'.mp (by simpa using hne)
  have th := Thin.of_sz hm1 sz2
  rw [hy] at n2
  have hh2 := hst.le
  have h9 : h2 ≤ 9 := by
    apply Nat.le_of_not_lt
    intro hc
    have hp := getPath_full g2.wf hc (l := y) ((mem_order g2.wf).mp (by
      rw [ho, List.append_assoc]; exact List.mem_append_right _ (List.mem_of_head? hy)))
    simp only [drain, drainNew, c1, bind_ok, c2, n2, Option.map_some, hp] at hr
    cases hr
  -- the two cuts
  obtain ⟨ei', s1', lvl1, h1, q1, g1, sz1, -, hr1, -⟩ := splitLeafIfNeeded_spec hm1 (by omega) g sz heb hob (Or.inl hm5)
  have w1 := splitLeafIfNeeded_writes hm1 hm5 g sz heb c1
  rw [c1] at q1
  cases q1
  have hh1 := hr1.le
  obtain ⟨ea', hea'⟩ : ∃ x, elm s1 a.leaf = some x := by
    have c2' := c2
    rw [splitLeafIfNeeded, splitLeafIfNeededF] at c2'
    obtain ⟨leaf, hL, -⟩ := bind_inv c2'
    exact ⟨leaf.elem, elm_of (unwrap_inv hL)⟩
  have w2 := splitLeafIfNeeded_writes hm1 hm5 g1 sz1 hea' c2
  obtain ⟨sp, ep, e, d1, d2, d3, d4, d5⟩ := drainNew_paths g2.wf th.ne h9 ho hy (p2 hz)
  have hN : drainNew B s (some ⟨a, fa⟩) (some ⟨b, fb⟩) = .ok ⟨s2, sp, false, Z.head?.map (fun l => ⟨l, 0⟩), some ⟨sp, ep, X.getLast?.map .leaf, Z.head?.map .leaf⟩⟩ := by
    simp only [drainNew, c1, bind_ok, c2, n2, Option.map_some, n1]
    exact d5
  rw [drain, hN, bind_ok] at hr
  obtain ⟨⟨es', d'⟩, r1, hr⟩ := bind_inv hr
  obtain ⟨⟨rest', s3⟩, r2, hr⟩ := bind_inv hr
  cases hr
  have t3 := drain_run_touches hm1 hm5 g2 sz2 h9 d1 d2 d3 d4 rfl rfl r1 r2
  have hq : 54 * (h2 - 1) * (5 * h2 - 3) ≤ 54 * h * (5 * h + 2) := Nat.mul_le_mul (by omega) (by omega)
  exact (Touches.of_writes (w1.trans w2)).seq t3 (by omega)

end

end GB
